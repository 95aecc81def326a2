import Verif.Rfc8259
import Verif.JsonFuel

/-!
# Strings and numbers of the decoder and of the grammar (helper lemmas)
-/

namespace Verif
open Rfc8259

/-- Escapes accepted by the decoder: any byte but 0xFF. -/
def LaxEsc (x : Byte) : Prop := x ≠ 0x75 ∧ x ≠ 0xFF

/-- Unescaped characters accepted by the decoder: any byte from 0x20 on but the quote, the
backslash and 0xFF. -/
def LaxPlain (c : Bytes) : Prop := ∃ b : Byte, 0x20 ≤ b ∧ b ≠ 0x22 ∧ b ≠ 0x5C ∧ b ≠ 0xFF ∧ c = [b]

/-- String contents accepted by the decoder. -/
def LaxChars : Bytes → Prop := Chars LaxEsc LaxPlain

theorem isHex_iff (b : Byte) : isHex b = true ↔ Hex b := by
  simp only [isHex, Hex, Bool.or_eq_true, Bool.and_eq_true, decide_eq_true_eq, or_assoc]
  constructor
  · rintro (h | h | h)
    · exact .inl h
    · exact .inr (.inr h)
    · exact .inr (.inl h)
  · rintro (h | h | h)
    · exact .inl h
    · exact .inr (.inr h)
    · exact .inr (.inl h)

theorem isCtrl_iff (b : Byte) : isCtrl b = true ↔ ¬ 0x20 ≤ b := by
  simp [isCtrl, UInt8.not_le]

/-- The flag after the unescaped characters `xs`. -/
def alFrom (al first : Bool) (xs : Bytes) : Bool :=
  al && (if first then (match xs with | [] => true | x :: xs => isAlpha x && xs.all isAlnum) else xs.all isAlnum)

theorem alFrom_flag (c : Bytes) : alFrom true true (dropEscapes c) = alnumFlag c := by
  unfold alFrom alnumFlag
  cases dropEscapes c <;> simp

theorem dropEscapes_nil : dropEscapes [] = [] := rfl
theorem dropEscapes_cons {b : Byte} (h : b ≠ 0x5C) (r : Bytes) : dropEscapes (b :: r) = b :: dropEscapes r := by
  rw [dropEscapes.eq_def]; simp [h]
theorem dropEscapes_esc {x : Byte} (h : x ≠ 0x75) (r : Bytes) : dropEscapes (0x5C :: x :: r) = dropEscapes r := by
  rw [dropEscapes.eq_def]; simp [h]
theorem dropEscapes_uni (a b c d : Byte) (r : Bytes) : dropEscapes (0x5C :: 0x75 :: a :: b :: c :: d :: r) = dropEscapes r := by
  rw [dropEscapes.eq_def]; simp

/-- Content still to come in a state of the string parser. -/
def StC (st : Pure.SSt) (c : Bytes) : Prop :=
  match st with
  | .norm => LaxChars c
  | .esc => LaxChars (0x5C :: c)
  | .hex k => ∃ hs rest, hs.length = k + 1 ∧ (∀ h ∈ hs, Hex h) ∧ LaxChars rest ∧ c = hs ++ rest

/-- Unescaped characters still to come. -/
def dropSt (st : Pure.SSt) (c : Bytes) : Bytes :=
  match st with
  | .norm => dropEscapes c
  | .esc => dropEscapes (0x5C :: c)
  | .hex k => dropEscapes (c.drop (k + 1))

theorem hex_ne {b : Byte} (h : Hex b) : b ≠ 0x5C := by
  rintro rfl; revert h; unfold Hex; decide

theorem list4 {α : Type} {l : List α} (h : l.length = 4) : ∃ a b c d, l = [a, b, c, d] := by
  match l, h with
  | [a, b, c, d], _ => exact ⟨a, b, c, d, rfl⟩

theorem alFrom_cons_first (b : Byte) (xs : Bytes) : alFrom (isAlpha b) false xs = alFrom true true (b :: xs) := by
  simp [alFrom]
theorem alFrom_cons_next (b : Byte) (xs : Bytes) : alFrom (isAlnum b) false xs = alFrom true false (b :: xs) := by
  simp [alFrom]
theorem alFrom_false (f : Bool) (xs ys : Bytes) : alFrom false f xs = alFrom false f ys := by
  simp [alFrom]

theorem str_sound {fin : RErr} (r : Bytes) : ∀ {st al un first x}, (st = .esc → un = false) →
    Pure.str fin st al un first r = .ok x →
    ∃ c, x.1 = c ++ [0x22] ∧ StC st c ∧ x.2.1 = alFrom al first (dropSt st c) ∧ x.2.2.1 = (un && !c.contains 0x5C) := by
  induction r with
  | nil => intro st al un first x _ h; simp [Pure.str] at h
  | cons b r ih =>
    intro st al un first x hu h
    have key : ∀ {st al un first}, (st = .esc → un = false) →
        ((Pure.str fin st al un first r).map fun x => (b :: x.1, x.2)) = .ok x →
        ∃ c, x.1 = b :: (c ++ [0x22]) ∧ StC st c ∧ x.2.1 = alFrom al first (dropSt st c) ∧ x.2.2.1 = (un && !c.contains 0x5C) := by
      intro st al un first hu h
      cases h2 : Pure.str fin st al un first r with
      | error e => rw [h2] at h; simp [Except.map] at h
      | ok y =>
        rw [h2] at h
        simp only [Except.map, Except.ok.injEq] at h
        subst h
        obtain ⟨c, h3, h4⟩ := ih hu h2
        exact ⟨c, by simp [h3], h4⟩
    unfold Pure.str at h
    split at h
    · simp at h
    rename_i hff
    cases st with
    | norm =>
      simp only at h
      split at h
      · rename_i hb
        obtain ⟨c, h1, h2, h3, h4⟩ := key (by simp) h
        refine ⟨b :: c, h1, by rw [hb]; exact h2, by rw [h3, hb]; rfl, by simp [h4, hb]⟩
      split at h
      · rename_i hb
        simp only [Except.ok.injEq] at h; subst h
        exact ⟨[], by simp [hb], .nil, by cases first <;> simp [alFrom, dropSt, dropEscapes_nil], by simp⟩
      split at h
      · simp at h
      rename_i h5 h6 h7
      have hbp : 0x20 ≤ b := by
        have := (not_congr (isCtrl_iff b)).1 h7
        exact Decidable.of_not_not this
      have hp : LaxPlain [b] := ⟨b, hbp, h6, h5, hff, rfl⟩
      have fin1 : ∀ {al' first' : Bool}, (∃ c, x.1 = b :: (c ++ [0x22]) ∧ StC .norm c ∧ x.2.1 = alFrom al' first' (dropSt .norm c) ∧ x.2.2.1 = (un && !c.contains 0x5C)) →
          (∀ xs, alFrom al' first' xs = alFrom al first (b :: xs)) →
          ∃ c, x.1 = c ++ [0x22] ∧ StC .norm c ∧ x.2.1 = alFrom al first (dropSt .norm c) ∧ x.2.2.1 = (un && !c.contains 0x5C) := by
        rintro al' first' ⟨c, h1, h2, h3, h4⟩ he
        refine ⟨b :: c, h1, Chars.plain hp h2, ?_, ?_⟩
        · rw [h3, he]; simp only [dropSt]; rw [dropEscapes_cons h5]
        · simp [h4, Ne.symm h5]
      split at h
      · rename_i hal; subst hal
        split at h
        · rename_i hfi; subst hfi
          exact fin1 (key (by simp) h) (fun xs => alFrom_cons_first b xs)
        · rename_i hfi; simp only [Bool.not_eq_true] at hfi; subst hfi
          exact fin1 (key (by simp) h) (fun xs => alFrom_cons_next b xs)
      · rename_i hal; simp only [Bool.not_eq_true] at hal; subst hal
        exact fin1 (key (by simp) h) (fun xs => alFrom_false _ _ _)
    | esc =>
      have := hu rfl
      subst this
      simp only at h
      split at h
      · rename_i hb
        obtain ⟨c, h1, h2, h3, h4⟩ := key (by simp) h
        obtain ⟨hs, rest, hl, hh, hc, rfl⟩ := h2
        obtain ⟨a, b', c', d', rfl⟩ := list4 hl
        refine ⟨b :: ([a, b', c', d'] ++ rest), h1, ?_, ?_, by simp [h4]⟩
        · rw [hb]
          exact Chars.uni (hh a (by simp)) (hh b' (by simp)) (hh c' (by simp)) (hh d' (by simp)) hc
        · rw [h3, hb]; simp only [dropSt, List.cons_append, List.nil_append]; rw [dropEscapes_uni]; rfl
      · rename_i hb
        obtain ⟨c, h1, h2, h3, h4⟩ := key (by simp) h
        refine ⟨b :: c, h1, Chars.esc ⟨hb, hff⟩ h2, ?_, by simp [h4]⟩
        rw [h3]; simp only [dropSt]; rw [dropEscapes_esc hb]
    | hex k =>
      cases k with
      | zero =>
        simp only at h
        split at h
        · rename_i hx
          obtain ⟨c, h1, h2, h3, h4⟩ := key (by simp) h
          have hx' := (isHex_iff b).1 hx
          refine ⟨b :: c, h1, ⟨[b], c, rfl, by simpa using hx', h2, rfl⟩, by rw [h3]; rfl, ?_⟩
          simp [h4, Ne.symm (hex_ne hx')]
        · simp at h
      | succ k =>
        simp only at h
        split at h
        · rename_i hx
          obtain ⟨c, h1, h2, h3, h4⟩ := key (by simp) h
          have hx' := (isHex_iff b).1 hx
          obtain ⟨hs, rest, hl, hh, hc, rfl⟩ := h2
          refine ⟨b :: (hs ++ rest), h1, ⟨b :: hs, rest, by simp [hl], ?_, hc, rfl⟩, by rw [h3]; rfl, ?_⟩
          · intro h' hm
            rcases List.mem_cons.1 hm with rfl | hm
            · exact hx'
            · exact hh _ hm
          · rw [h4, List.contains_cons]
            have : ((0x5C : Byte) == b) = false := by simpa using Ne.symm (hex_ne hx')
            rw [this, Bool.false_or]
        · simp at h

theorem hex_bytes {b : Byte} (h : Hex b) : b ≠ eofByte ∧ isHex b = true :=
  ⟨by rintro rfl; revert h; unfold Hex eofByte; decide, (isHex_iff b).2 h⟩

theorem str_complete {fin : RErr} {c : Bytes} (hc : LaxChars c) : ∀ (al un first : Bool) (r : Bytes),
    Pure.str fin .norm al un first (c ++ 0x22 :: r) =
      .ok (c ++ [0x22], alFrom al first (dropEscapes c), un && !c.contains 0x5C, r) := by
  induction hc with
  | nil =>
    intro al un first r
    have : alFrom al first (dropEscapes []) = al := by cases first <;> simp [alFrom, dropEscapes_nil]
    rw [List.nil_append, Pure.str.eq_def]
    simp [this, eofByte]
  | @plain c r hp hc ih =>
    intro al un first r'
    obtain ⟨b, h1, h2, h3, h4, rfl⟩ := hp
    have hctl : isCtrl b = false := by
      have := (not_congr (isCtrl_iff b)).2 (Decidable.not_not.2 h1)
      simpa using this
    simp only [List.cons_append, List.nil_append]
    rw [dropEscapes_cons h3, Pure.str.eq_def]
    have he : b ≠ eofByte := h4
    have hcon : (un && !(b :: r).contains 0x5C) = (un && !r.contains 0x5C) := by simp [Ne.symm h3]
    rw [hcon]
    simp only [he, if_false, h2, h3, hctl]
    cases al
    · simp [ih, Except.map, alFrom_false first (b :: dropEscapes r) (dropEscapes r)]
    · cases first
      · simp [ih, Except.map, alFrom_cons_next]
      · simp [ih, Except.map, alFrom_cons_first]
  | @esc x r hx hc ih =>
    intro al un first r'
    rw [dropEscapes_esc hx.1]
    simp only [List.cons_append]
    rw [Pure.str.eq_def]
    have h0 : (0x5C : Byte) ≠ eofByte := by decide
    simp only [h0, if_false, if_true]
    rw [Pure.str.eq_def]
    have h1 : x ≠ eofByte := hx.2
    simp only [h1, hx.1, if_false, ih, Except.map, Bool.false_and]
    simp
  | @uni h1 h2 h3 h4 r a1 a2 a3 a4 hc ih =>
    intro al un first r'
    rw [dropEscapes_uni]
    simp only [List.cons_append]
    have h0 : (0x5C : Byte) ≠ eofByte := by decide
    have hu : (0x75 : Byte) ≠ eofByte := by decide
    rw [Pure.str.eq_def]; simp only [h0, if_false, if_true]
    rw [Pure.str.eq_def]; simp only [hu, if_false, if_true]
    rw [Pure.str.eq_def]; simp only [(hex_bytes a1).1, (hex_bytes a1).2, if_false, if_true]
    rw [Pure.str.eq_def]; simp only [(hex_bytes a2).1, (hex_bytes a2).2, if_false, if_true]
    rw [Pure.str.eq_def]; simp only [(hex_bytes a3).1, (hex_bytes a3).2, if_false, if_true]
    rw [Pure.str.eq_def]; simp only [(hex_bytes a4).1, (hex_bytes a4).2, if_false, if_true]
    rw [ih]
    simp [Except.map]

theorem string_sound {fin : RErr} {r : Bytes} {x} (h : Pure.string fin r = .ok x) :
    ∃ c, LaxChars c ∧ x.1 = strScalar c ∧ r = 0x22 :: (c ++ 0x22 :: x.2) := by
  cases r with
  | nil => simp [Pure.string] at h
  | cons b r =>
    simp only [Pure.string] at h
    split at h
    · simp at h
    · rename_i hb
      simp only [ne_eq, Decidable.not_not] at hb
      subst hb
      cases h2 : Pure.str fin .norm true true true r with
      | error e => rw [h2] at h; simp [Except.map] at h
      | ok y =>
        rw [h2] at h
        simp only [Except.map, Except.ok.injEq] at h
        subst h
        obtain ⟨c, h3, h4, h5, h6⟩ := str_sound r (by simp) h2
        have h7 := (Pure.str_split r h2).1
        refine ⟨c, h4, ?_, ?_⟩
        · simp only [strScalar, h3, h5, h6, Scalar.mk.injEq, true_and, Bool.true_and, and_true]
          exact alFrom_flag c
        · rw [h3] at h7
          simp [h7]

theorem string_complete {fin : RErr} {c : Bytes} (hc : LaxChars c) (r : Bytes) :
    Pure.string fin (0x22 :: (c ++ 0x22 :: r)) = .ok (strScalar c, r) := by
  simp only [Pure.string, ne_eq, not_true, if_false, str_complete hc, Except.map]
  simp only [strScalar, alFrom_flag, Bool.true_and]

theorem isDigit_iff (b : Byte) : isDigit b = true ↔ Digit b := by simp [isDigit, Digit]

theorem takeWhile_digits (r : Bytes) : ∀ x ∈ r.takeWhile isDigit, Digit x := by
  intro x hx
  have := List.all_takeWhile (p := isDigit) (l := r)
  rw [List.all_eq_true] at this
  exact (isDigit_iff x).1 (this x hx)

theorem nxt_ok {fin : RErr} {r : Bytes} (h : fin = .eof ∨ r ≠ []) : Pure.nxt fin r = .ok () := by
  simp only [Pure.nxt]
  rw [if_neg]
  rintro ⟨h1, h2⟩
  rcases h with h | h
  · exact h2 h
  · exact h h1

theorem digits1_sound {fin : RErr} {r : Bytes} {x} (h : Pure.digits1 fin r = .ok x) :
    x.1 ≠ [] ∧ (∀ y ∈ x.1, Digit y) ∧ r = x.1 ++ x.2 := by
  have hs := Pure.digits1_split h
  refine ⟨hs.2, ?_, hs.1⟩
  simp only [Pure.digits1] at h
  cases hn : Pure.nxt fin (r.dropWhile isDigit) with
  | error e => rw [hn] at h; simp [Except.bind] at h
  | ok u =>
    rw [hn] at h
    simp only [Except.bind] at h
    split at h
    · simp at h
    · simp only [Except.ok.injEq] at h; subst h; exact takeWhile_digits r

/-- What may follow a number: not a byte that continues it, and the end only if it is known to be the
end. -/
def NumEnd (fin : RErr) (r : Bytes) : Prop :=
  (fin = .eof ∨ r ≠ []) ∧ ∀ b r', r = b :: r' → ¬ Digit b ∧ b ≠ 0x2E ∧ b ≠ 0x65 ∧ b ≠ 0x45

theorem span_digits {ds r : Bytes} (hd : ∀ y ∈ ds, Digit y) (hr : ∀ b r', r = b :: r' → ¬ Digit b) :
    (ds ++ r).takeWhile isDigit = ds ∧ (ds ++ r).dropWhile isDigit = r := by
  induction ds with
  | nil =>
    cases r with
    | nil => simp
    | cons b r =>
      have : isDigit b = false := by
        have := (not_congr (isDigit_iff b)).2 (hr b r rfl)
        simpa using this
      simp [this]
  | cons d ds ih =>
    have h1 := (isDigit_iff d).2 (hd d (by simp))
    have h2 := ih (fun y hy => hd y (by simp [hy]))
    simp [h1, h2]

theorem digits1_complete {fin : RErr} {ds r : Bytes} (h0 : ds ≠ []) (hd : ∀ y ∈ ds, Digit y)
    (hr : ∀ b r', r = b :: r' → ¬ Digit b) (he : fin = .eof ∨ r ≠ []) :
    Pure.digits1 fin (ds ++ r) = .ok (ds, r) := by
  obtain ⟨h1, h2⟩ := span_digits hd hr
  simp only [Pure.digits1, h1, h2, nxt_ok he, Except.bind, h0, if_false]

theorem exp_sound {fin : RErr} {r : Bytes} {x} (h : Pure.exp fin r = .ok x) : x.1 = [] ∨ ExpPart x.1 := by
  cases r with
  | nil => simp only [Pure.exp, Except.ok.injEq] at h; subst h; exact .inl rfl
  | cons b r =>
    simp only [Pure.exp] at h
    split at h
    · rename_i hb
      cases hn : Pure.nxt fin r with
      | error e => rw [hn] at h; simp [Except.bind] at h
      | ok u =>
        rw [hn] at h
        simp only [Except.bind] at h
        cases hd : Pure.digits1 fin (Pure.sign r).2 with
        | error e => rw [hd] at h; simp [Except.map] at h
        | ok y =>
          rw [hd] at h
          simp only [Except.map, Except.ok.injEq] at h
          subst h
          obtain ⟨h1, h2, _⟩ := digits1_sound hd
          refine .inr ⟨b, (Pure.sign r).1, y.1, hb, ?_, h1, h2, rfl⟩
          cases r with
          | nil => exact .inl rfl
          | cons c r =>
            simp only [Pure.sign]
            split
            · rename_i hc
              rcases hc with rfl | rfl
              · exact .inr (.inl rfl)
              · exact .inr (.inr rfl)
            · exact .inl rfl
    · simp only [Except.ok.injEq] at h; subst h; exact .inl rfl

theorem frac_sound {fin : RErr} {r : Bytes} {x} (h : Pure.frac fin r = .ok x) :
    ∃ f e, (f = [] ∨ FracPart f) ∧ (e = [] ∨ ExpPart e) ∧ x.1 = f ++ e := by
  cases r with
  | nil => simp only [Pure.frac, Except.ok.injEq] at h; subst h; exact ⟨[], [], .inl rfl, .inl rfl, rfl⟩
  | cons b r =>
    simp only [Pure.frac] at h
    split at h
    · rename_i hb
      cases hd : Pure.digits1 fin r with
      | error e => rw [hd] at h; simp [Except.bind] at h
      | ok y =>
        rw [hd] at h
        simp only [Except.bind] at h
        cases he : Pure.exp fin y.2 with
        | error e => rw [he] at h; simp [Except.map] at h
        | ok z =>
          rw [he] at h
          simp only [Except.map, Except.ok.injEq] at h
          subst h
          obtain ⟨h1, h2, _⟩ := digits1_sound hd
          exact ⟨b :: y.1, z.1, .inr ⟨y.1, h1, h2, by rw [hb]⟩, exp_sound he, rfl⟩
    · exact ⟨[], x.1, .inl rfl, exp_sound h, rfl⟩

theorem int_sound {fin : RErr} {r : Bytes} {x} (h : Pure.int fin r = .ok x) :
    ∃ i f e, IntPart i ∧ (f = [] ∨ FracPart f) ∧ (e = [] ∨ ExpPart e) ∧ x.1 = i ++ (f ++ e) := by
  simp only [Pure.int] at h
  cases hc : Pure.chk fin r with
  | error e => rw [hc] at h; simp [Except.bind] at h
  | ok y =>
    obtain ⟨b, r'⟩ := y
    rw [hc] at h
    obtain ⟨rfl, _⟩ := Pure.chk_ok hc
    simp only [Except.bind] at h
    split at h
    · rename_i hb
      cases hn : Pure.nxt fin r' with
      | error e => rw [hn] at h; simp at h
      | ok u =>
        rw [hn] at h
        simp only at h
        cases hf : Pure.frac fin r' with
        | error e => rw [hf] at h; simp [Except.map] at h
        | ok z =>
          rw [hf] at h
          simp only [Except.map, Except.ok.injEq] at h
          subst h
          obtain ⟨f, e, h1, h2, h3⟩ := frac_sound hf
          exact ⟨[b], f, e, .inl (by rw [hb]), h1, h2, by simp [h3]⟩
    split at h
    · rename_i hb
      cases hn : Pure.nxt fin (r'.dropWhile isDigit) with
      | error e => rw [hn] at h; simp at h
      | ok u =>
        rw [hn] at h
        simp only at h
        cases hf : Pure.frac fin (r'.dropWhile isDigit) with
        | error e => rw [hf] at h; simp [Except.map] at h
        | ok z =>
          rw [hf] at h
          simp only [Except.map, Except.ok.injEq] at h
          subst h
          obtain ⟨f, e, h1, h2, h3⟩ := frac_sound hf
          exact ⟨b :: r'.takeWhile isDigit, f, e, .inr ⟨b, _, hb.1, hb.2, takeWhile_digits r', rfl⟩, h1, h2, by simp [h3]⟩
    · simp at h

theorem number_sound {fin : RErr} {r : Bytes} {x} (h : Pure.number fin r = .ok x) :
    Number x.1.bytes ∧ x.1 = { bytes := x.1.bytes, type := .num } ∧ r = x.1.bytes ++ x.2 := by
  have hs := (Pure.number_split h).1
  simp only [Pure.number] at h
  cases hn : Pure.numBytes fin r with
  | error e => rw [hn] at h; simp [Except.map] at h
  | ok y =>
    rw [hn] at h
    simp only [Except.map, Except.ok.injEq] at h
    subst h
    refine ⟨?_, rfl, hs⟩
    simp only
    cases r with
    | nil =>
      obtain ⟨i, f, e, h1, h2, h3, h4⟩ := int_sound hn
      exact ⟨[], i, f, e, .inl rfl, h1, h2, h3, by simpa using h4⟩
    | cons b r =>
      simp only [Pure.numBytes] at hn
      split at hn
      · rename_i hb
        cases hi : Pure.int fin r with
        | error e => rw [hi] at hn; simp [Except.map] at hn
        | ok z =>
          rw [hi] at hn
          simp only [Except.map, Except.ok.injEq] at hn
          subst hn
          obtain ⟨i, f, e, h1, h2, h3, h4⟩ := int_sound hi
          exact ⟨[0x2D], i, f, e, .inr rfl, h1, h2, h3, by simp [h4, hb]⟩
      · obtain ⟨i, f, e, h1, h2, h3, h4⟩ := int_sound hn
        exact ⟨[], i, f, e, .inl rfl, h1, h2, h3, by simpa using h4⟩

theorem exp_complete {fin : RErr} {e r : Bytes} (he : e = [] ∨ ExpPart e) (hr : NumEnd fin r) :
    Pure.exp fin (e ++ r) = .ok (e, r) := by
  rcases he with rfl | ⟨c, s, ds, hc, hs, h0, hd, rfl⟩
  · cases r with
    | nil => rfl
    | cons b r =>
      obtain ⟨_, _, h3, h4⟩ := hr.2 b r rfl
      simp [Pure.exp, h3, h4]
  · have hd1 := digits1_complete h0 hd (fun b r' h => (hr.2 b r' h).1) hr.1
    simp only [List.cons_append, List.append_assoc, Pure.exp]
    have hc' : (c = 0x65 ∨ c = 0x45) = True := by simp [hc]
    simp only [hc', if_true]
    rw [nxt_ok (.inr (by simp [h0]))]
    simp only [Except.bind]
    have hsg : Pure.sign (s ++ (ds ++ r)) = (s, ds ++ r) := by
      rcases hs with rfl | rfl | rfl
      · cases ds with
        | nil => exact absurd rfl h0
        | cons d ds =>
          have := hd d (by simp)
          have h1 : d ≠ 0x2D := by rintro rfl; revert this; unfold Digit; decide
          have h2 : d ≠ 0x2B := by rintro rfl; revert this; unfold Digit; decide
          simp [Pure.sign, h1, h2]
      · simp [Pure.sign]
      · simp [Pure.sign]
    rw [hsg]
    simp [hd1, Except.map]

/-- The first byte after the integer part. -/
theorem exp_head {fin : RErr} {e r : Bytes} (he : e = [] ∨ ExpPart e) (hr : NumEnd fin r) :
    (fin = .eof ∨ e ++ r ≠ []) ∧ ∀ b r', e ++ r = b :: r' → ¬ Digit b ∧ b ≠ 0x2E := by
  rcases he with rfl | ⟨c, s, ds, hc, hs, h0, hd, rfl⟩
  · exact ⟨by simpa using hr.1, fun b r' h => ⟨(hr.2 b r' (by simpa using h)).1, (hr.2 b r' (by simpa using h)).2.1⟩⟩
  · refine ⟨.inr (by simp), ?_⟩
    intro b r' h
    simp only [List.cons_append, List.cons.injEq] at h
    obtain ⟨rfl, _⟩ := h
    rcases hc with rfl | rfl <;> (unfold Digit; decide)

theorem frac_complete {fin : RErr} {f e r : Bytes} (hf : f = [] ∨ FracPart f) (he : e = [] ∨ ExpPart e) (hr : NumEnd fin r) :
    Pure.frac fin (f ++ (e ++ r)) = .ok (f ++ e, r) := by
  have h1 := exp_complete he hr
  have h2 := exp_head he hr
  rcases hf with rfl | ⟨ds, h0, hd, rfl⟩
  · simp only [List.nil_append]
    cases hx : e ++ r with
    | nil =>
      have : e = [] ∧ r = [] := by simpa using hx
      rw [this.1, this.2]; rfl
    | cons b r' =>
      rw [hx] at h1
      simp only [Pure.frac, (h2.2 b r' hx).2, if_false]
      exact h1
  · simp only [List.cons_append, Pure.frac, if_true]
    rw [digits1_complete h0 hd (fun b r' h => (h2.2 b r' h).1) h2.1]
    simp [Except.bind, h1, Except.map]

theorem frac_head {fin : RErr} {f e r : Bytes} (hf : f = [] ∨ FracPart f) (he : e = [] ∨ ExpPart e) (hr : NumEnd fin r) :
    (fin = .eof ∨ f ++ (e ++ r) ≠ []) ∧ ∀ b r', f ++ (e ++ r) = b :: r' → ¬ Digit b := by
  have h2 := exp_head he hr
  rcases hf with rfl | ⟨ds, h0, hd, rfl⟩
  · exact ⟨by simpa using h2.1, fun b r' h => (h2.2 b r' (by simpa using h)).1⟩
  · refine ⟨.inr (by simp), ?_⟩
    intro b r' h
    simp only [List.cons_append, List.cons.injEq] at h
    obtain ⟨rfl, _⟩ := h
    unfold Digit; decide

theorem int_complete {fin : RErr} {i f e r : Bytes} (hi : IntPart i) (hf : f = [] ∨ FracPart f) (he : e = [] ∨ ExpPart e)
    (hr : NumEnd fin r) : Pure.int fin (i ++ (f ++ (e ++ r))) = .ok (i ++ (f ++ e), r) := by
  have h1 := frac_complete hf he hr
  have h2 := frac_head hf he hr
  rcases hi with rfl | ⟨d, ds, ha, hb, hd, rfl⟩
  · have : (0x30 : Byte) ≠ eofByte := by decide
    simp only [List.cons_append, List.nil_append, Pure.int, Pure.chk, this, if_false, Except.bind, if_true,
      nxt_ok h2.1, h1, Except.map]
  · have h3 : d ≠ eofByte := by rintro rfl; revert hb; decide
    have h4 : d ≠ 0x30 := by rintro rfl; revert ha; decide
    obtain ⟨h5, h6⟩ := span_digits hd h2.2
    simp only [List.cons_append, Pure.int, Pure.chk, h3, h4, if_false, Except.bind, ha, hb, and_self, if_true, h5, h6,
      nxt_ok h2.1, h1, Except.map]

theorem number_complete {fin : RErr} {b r : Bytes} (hb : Number b) (hr : NumEnd fin r) :
    Pure.number fin (b ++ r) = .ok ({ bytes := b, type := .num }, r) := by
  obtain ⟨m, i, f, e, hm, hi, hf, he, rfl⟩ := hb
  have h1 := int_complete hi hf he hr
  have h2 : Pure.numBytes fin (m ++ (i ++ (f ++ (e ++ r)))) = .ok (m ++ (i ++ (f ++ e)), r) := by
    rcases hm with rfl | rfl
    · have : ∃ d ds, i = d :: ds ∧ d ≠ 0x2D := by
        rcases hi with rfl | ⟨d, ds, ha, _, _, rfl⟩
        · exact ⟨_, _, rfl, by decide⟩
        · exact ⟨d, ds, rfl, by rintro rfl; revert ha; decide⟩
      obtain ⟨d, ds, rfl, hne⟩ := this
      simp only [List.nil_append, List.cons_append] at h1 ⊢
      simp only [Pure.numBytes, hne, if_false]
      exact h1
    · simp only [List.cons_append, List.nil_append, Pure.numBytes, if_true, h1, Except.map]
  simp only [List.append_assoc] at h2 ⊢
  simp [Pure.number, h2, Except.map]

theorem number_head {b : Bytes} (hb : Number b) : ∃ d r, b = d :: r ∧ (d = 0x2D ∨ Digit d) := by
  obtain ⟨m, i, f, e, hm, hi, hf, he, rfl⟩ := hb
  rcases hm with rfl | rfl
  · rcases hi with rfl | ⟨d, ds, ha, hb, _, rfl⟩
    · exact ⟨_, _, rfl, .inr (by unfold Digit; decide)⟩
    · refine ⟨d, _, rfl, .inr ⟨?_, hb⟩⟩
      exact UInt8.le_trans (by decide) ha
  · exact ⟨_, _, rfl, .inl rfl⟩

theorem fixed_complete (xs r : Bytes) : Pure.fixed xs (xs ++ r) = .ok r := by
  induction xs with
  | nil => rfl
  | cons x xs ih => simp [Pure.fixed, ih]

theorem isSpace_iff (b : Byte) : isSpace b = true ↔ b = 0x20 ∨ b = 0x09 ∨ b = 0x0A ∨ b = 0x0D := by
  simp only [isSpace, Bool.or_eq_true, beq_iff_eq]
  constructor
  · rintro (((h | h) | h) | h) <;> simp [h]
  · rintro (h | h | h | h) <;> simp [h]

theorem ws_split (r : Bytes) : ∃ w, Ws w ∧ r = w ++ Pure.ws r := by
  refine ⟨r.takeWhile isSpace, ?_, (List.takeWhile_append_dropWhile).symm⟩
  intro b hb
  have := List.all_takeWhile (p := isSpace) (l := r)
  rw [List.all_eq_true] at this
  exact (isSpace_iff b).1 (this b hb)

theorem ws_append {w : Bytes} (hw : Ws w) (r : Bytes) : Pure.ws (w ++ r) = Pure.ws r := by
  induction w with
  | nil => rfl
  | cons b w ih =>
    have h1 := (isSpace_iff b).2 (hw b (by simp))
    have h2 := ih (fun x hx => hw x (by simp [hx]))
    simp only [Pure.ws] at h2
    simp [Pure.ws, h1, h2]

theorem ws_stop {b : Byte} (h : isSpace b = false) (r : Bytes) : Pure.ws (b :: r) = b :: r := by
  simp [Pure.ws, h]

end Verif
