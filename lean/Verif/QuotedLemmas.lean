import Verif.QuotedLit
import Verif.LitSpec

/-!
# Single-quoted literals

Helper lemmas for C47: what the two replacements make of a literal in single quotes.
-/

namespace Verif.JPath
open Utf8 Rfc9535

/-- A literal after the first replacement. -/
inductive Mid : Bytes → Bytes → Prop
  | nil : Mid [] []
  | char {r c s} : 0x20 ≤ r → UScalar r → r ≠ 0x5C → Mid c s → Mid (encode r ++ c) (encode r ++ s)
  | esc {e x c s} : (e, x) ∈ Verif.escapes → e ≠ 0x22 → Mid c s → Mid (0x5C :: e :: c) (x :: s)
  | hex {h n c s} : Hex4 h n → UScalar n → Mid c s → Mid (0x5C :: 0x75 :: (h ++ c)) (encode n ++ s)
  | pair {h n h' n' c s} : Hex4 h n → Hex4 h' n' → 0xD800 ≤ n → n < 0xDC00 → 0xDC00 ≤ n' → n' < 0xE000 → Mid c s →
      Mid (0x5C :: 0x75 :: (h ++ 0x5C :: 0x75 :: (h' ++ c))) (encode (0x10000 + (n - 0xD800) * 1024 + (n' - 0xDC00)) ++ s)

/-- The bytes of a character that is not ASCII. -/
theorem encode_high {r : Nat} (h : UScalar r) (hr : 0x80 ≤ r) : ∀ b ∈ encode r, 0x80 ≤ b := by
  obtain ⟨h1, h2⟩ := h
  unfold encode
  rw [if_neg (by omega)]
  split
  · intro b hb
    simp only [List.mem_cons, List.not_mem_nil, or_false] at hb
    rcases hb with rfl | rfl <;> rw [u8le, ofNat_toNat (by omega)] <;> simp <;> omega
  · rw [if_neg (by simp [isSurrogate]; omega)]
    split
    · intro b hb
      simp only [List.mem_cons, List.not_mem_nil, or_false] at hb
      rcases hb with rfl | rfl | rfl <;> rw [u8le, ofNat_toNat (by omega)] <;> simp <;> omega
    · intro b hb
      simp only [List.mem_cons, List.not_mem_nil, or_false] at hb
      rcases hb with rfl | rfl | rfl | rfl <;> rw [u8le, ofNat_toNat (by omega)] <;> simp <;> omega

theorem encode_ascii {r : Nat} (h : r < 0x80) : encode r = [UInt8.ofNat r] := by unfold encode; rw [if_pos h]

/-- An ASCII byte in a character is the character. -/
theorem mem_encode {r : Nat} (h : UScalar r) {b : Byte} (hb : b ∈ encode r) (hlt : b < 0x80) : r = b.toNat := by
  by_cases hr : r < 0x80
  · rw [encode_ascii hr] at hb
    simp only [List.mem_singleton] at hb
    subst hb
    rw [ofNat_toNat (by omega)]
  · have := encode_high h (by omega) b hb
    rw [u8le] at this
    rw [u8lt] at hlt
    simp at this hlt
    omega

theorem hexVal_cases {b : Byte} {n : Nat} (h : GoJson.hexVal b = some n) : b ≠ 0x5C ∧ b ≠ 0x22 ∧ b ≠ 0x27 := by
  refine ⟨?_, ?_, ?_⟩ <;> rintro rfl <;> exact absurd h (by decide +revert)

theorem hex4_mem {h : Bytes} {n : Nat} (hh : Hex4 h n) : ∀ b ∈ h, b ≠ 0x5C ∧ b ≠ 0x22 ∧ b ≠ 0x27 := by
  obtain ⟨a, b, c, d, a', b', c', d', rfl, h1, h2, h3, h4, -⟩ := hh
  intro x hx
  simp only [List.mem_cons, List.not_mem_nil, or_false] at hx
  rcases hx with rfl | rfl | rfl | rfl
  · exact hexVal_cases h1
  · exact hexVal_cases h2
  · exact hexVal_cases h3
  · exact hexVal_cases h4

/-- The first replacement. -/
abbrev rep1 (f : Nat) (s : Bytes) : Bytes := replaceAll [0x5C, 0x27] [0x27] f s

theorem rep1_skip (f : Nat) (b : Byte) (s : Bytes) (h : ∀ t, b :: s ≠ 0x5C :: 0x27 :: t) : rep1 (f + 1) (b :: s) = b :: rep1 f s := by
  unfold rep1
  rw [replaceAll, if_neg]
  intro hp
  match s, hp with
  | [], hp => simp [List.isPrefixOf] at hp
  | x :: s, hp =>
    simp only [List.isPrefixOf, Bool.and_true, Bool.and_eq_true, beq_iff_eq] at hp
    exact h s (by rw [hp.1, hp.2])

theorem rep1_plain (l : Bytes) (h : ∀ b ∈ l, b ≠ 0x5C) : ∀ (f : Nat) (c : Bytes), rep1 (l.length + f) (l ++ c) = l ++ rep1 f c := by
  induction l with
  | nil => intro f c; simp
  | cons b l ih =>
    intro f c
    rw [List.length_cons, show l.length + 1 + f = (l.length + f) + 1 by omega, List.cons_append, rep1_skip]
    · rw [ih (fun x hx => h x (List.mem_cons_of_mem _ hx))]; rfl
    · intro t ht
      simp only [List.cons.injEq] at ht
      exact h b (by simp) ht.1

theorem rep1_quote (f : Nat) (c : Bytes) : rep1 (f + 2) (0x5C :: 0x27 :: c) = 0x27 :: rep1 (f + 1) c := by
  unfold rep1
  rw [replaceAll, if_pos (by simp [List.isPrefixOf])]
  rfl

/-- The contents of a literal never start with a single quote. -/
theorem single_head {c s : Bytes} (h : Single c s) : ∀ t, c ≠ 0x27 :: t := by
  intro t ht
  cases h with
  | nil => cases ht
  | @char r c s h1 h2 h3 h4 h =>
    obtain ⟨b, l, e, -⟩ := encode_head h2
    rw [e] at ht
    simp only [List.cons_append, List.cons.injEq] at ht
    exact h3 (by have := mem_encode h2 (b := 0x27) (by rw [e, ht.1]; simp) (by decide); simpa using this)
  | esc => simp at ht
  | hex => simp at ht
  | pair => simp at ht

theorem single_mid {c s : Bytes} (h : Single c s) : ∀ f, c.length ≤ f → Mid (rep1 f c) s := by
  induction h with
  | nil => intro f _; cases f <;> exact .nil
  | @char r c s h1 h2 h3 h4 h ih =>
    intro f hf
    rw [List.length_append] at hf
    obtain ⟨g, rfl⟩ : ∃ g, f = (encode r).length + g := ⟨f - (encode r).length, by omega⟩
    rw [rep1_plain]
    · exact .char h1 h2 h4 (ih g (by omega))
    · rintro b hb rfl
      exact h4 (by have := mem_encode h2 hb (by decide); simpa using this)
  | @esc e x c s he h ih =>
    intro f hf
    simp only [List.length_cons] at hf
    obtain ⟨g, rfl⟩ : ∃ g, f = g + 2 := ⟨f - 2, by omega⟩
    by_cases hq : e = 0x27
    · subst hq
      have hx : x = 0x27 := by
        simp only [Rfc9535.escapes, List.mem_cons, Prod.mk.injEq, List.not_mem_nil, or_false] at he
        rcases he with ⟨-, h⟩ | ⟨h, -⟩ | ⟨h, -⟩ | ⟨h, -⟩ | ⟨h, -⟩ | ⟨h, -⟩ | ⟨h, -⟩ | ⟨h, -⟩
        · exact h
        all_goals exact absurd h (by decide)
      subst hx
      rw [rep1_quote]
      exact Mid.char (r := 0x27) (by decide) ⟨by decide, by decide⟩ (by decide) (ih (g + 1) (by omega))
    · rw [rep1_skip _ _ _ (by rintro t ht; simp only [List.cons.injEq, true_and] at ht; exact hq ht.1), rep1_skip]
      · have : (e, x) ∈ Verif.escapes ∧ e ≠ 0x22 := by
          simp only [Rfc9535.escapes, List.mem_cons, Prod.mk.injEq, List.not_mem_nil, or_false] at he
          rcases he with ⟨h, -⟩ | ⟨rfl, rfl⟩ | ⟨rfl, rfl⟩ | ⟨rfl, rfl⟩ | ⟨rfl, rfl⟩ | ⟨rfl, rfl⟩ | ⟨rfl, rfl⟩ | ⟨rfl, rfl⟩
          · exact absurd h hq
          all_goals exact ⟨by decide, by decide⟩
        exact .esc this.1 this.2 (ih g (by omega))
      · intro t ht
        simp only [List.cons.injEq] at ht
        exact single_head h t ht.2
  | @hex hx n c s hh hu h ih =>
    intro f hf
    have hl : hx.length = 4 := by obtain ⟨a, b, c, d, -, -, -, -, rfl, -⟩ := hh; rfl
    simp only [List.length_cons, List.length_append] at hf
    obtain ⟨g, rfl⟩ : ∃ g, f = (hx.length + g) + 2 := ⟨f - hx.length - 2, by omega⟩
    rw [rep1_skip _ _ _ (by rintro t ht; simp at ht), rep1_skip _ _ _ (by rintro t ht; simp at ht),
      rep1_plain hx (fun b hb => (hex4_mem hh b hb).1)]
    exact .hex hh hu (ih g (by omega))
  | @pair hx n hx' n' c s hh hh' h1 h2 h3 h4 h ih =>
    intro f hf
    have hl : hx.length = 4 := by obtain ⟨a, b, c, d, -, -, -, -, rfl, -⟩ := hh; rfl
    have hl' : hx'.length = 4 := by obtain ⟨a, b, c, d, -, -, -, -, rfl, -⟩ := hh'; rfl
    simp only [List.length_cons, List.length_append] at hf
    obtain ⟨g, rfl⟩ : ∃ g, f = (hx.length + ((hx'.length + g) + 2)) + 2 := ⟨f - 12, by omega⟩
    rw [rep1_skip _ _ _ (by rintro t ht; simp at ht), rep1_skip _ _ _ (by rintro t ht; simp at ht),
      rep1_plain hx (fun b hb => (hex4_mem hh b hb).1),
      rep1_skip _ _ _ (by rintro t ht; simp at ht), rep1_skip _ _ _ (by rintro t ht; simp at ht),
      rep1_plain hx' (fun b hb => (hex4_mem hh' b hb).1)]
    exact .pair hh hh' h1 h2 h3 h4 (ih g (by omega))

/-- The second replacement, byte by byte. -/
def escQuote (b : Byte) : Bytes := if b = 0x22 then [0x5C, 0x22] else [b]

theorem rep2_eq (s : Bytes) : ∀ f, s.length ≤ f → replaceAll [0x22] [0x5C, 0x22] f s = s.flatMap escQuote := by
  induction s with
  | nil => intro f _; cases f <;> rfl
  | cons b s ih =>
    intro f hf
    simp only [List.length_cons] at hf
    obtain ⟨g, rfl⟩ : ∃ g, f = g + 1 := ⟨f - 1, by omega⟩
    rw [replaceAll, List.flatMap_cons]
    by_cases hb : b = 0x22
    · subst hb
      rw [if_pos (by simp [List.isPrefixOf])]
      show _ ++ replaceAll _ _ g s = _
      rw [ih g (by omega)]; rfl
    · rw [if_neg (by simp [List.isPrefixOf]; exact fun h => hb h.symm), ih g (by omega)]
      unfold escQuote
      rw [if_neg hb]; rfl

theorem escQuote_plain (l : Bytes) (h : ∀ b ∈ l, b ≠ 0x22) : l.flatMap escQuote = l := by
  induction l with
  | nil => rfl
  | cons b l ih =>
    rw [List.flatMap_cons, ih fun x hx => h x (List.mem_cons_of_mem _ hx)]
    unfold escQuote
    rw [if_neg (h b (by simp))]; rfl

theorem mid_denotes {c s : Bytes} (h : Mid c s) : Denotes (c.flatMap escQuote) s := by
  induction h with
  | nil => exact .nil
  | @char r c s h1 h2 h3 h ih =>
    rw [List.flatMap_append]
    by_cases hq : r = 0x22
    · subst hq
      exact Denotes.esc (e := 0x22) (x := 0x22) (by decide) ih
    · rw [escQuote_plain]
      · exact .char h1 h2 hq h3 ih
      · rintro b hb rfl
        exact hq (by have := mem_encode h2 hb (by decide); simpa using this)
  | @esc e x c s he hq h ih =>
    rw [show (0x5C :: e :: c).flatMap escQuote = 0x5C :: e :: c.flatMap escQuote by
      simp only [List.flatMap_cons, escQuote, if_neg hq]; rfl]
    exact .esc he ih
  | @hex hx n c s hh hu h ih =>
    rw [show (0x5C :: 0x75 :: (hx ++ c)).flatMap escQuote = 0x5C :: 0x75 :: (hx ++ c.flatMap escQuote) by
      simp only [List.flatMap_cons, List.flatMap_append, escQuote_plain hx (fun b hb => (hex4_mem hh b hb).2.1)]; rfl]
    exact .hex hh hu ih
  | @pair hx n hx' n' c s hh hh' h1 h2 h3 h4 h ih =>
    rw [show (0x5C :: 0x75 :: (hx ++ 0x5C :: 0x75 :: (hx' ++ c))).flatMap escQuote =
        0x5C :: 0x75 :: (hx ++ 0x5C :: 0x75 :: (hx' ++ c.flatMap escQuote)) by
      simp only [List.flatMap_cons, List.flatMap_append, escQuote_plain hx (fun b hb => (hex4_mem hh b hb).2.1),
        escQuote_plain hx' (fun b hb => (hex4_mem hh' b hb).2.1)]; rfl]
    exact .pair hh hh' h1 h2 h3 h4 ih

theorem unquote_denotes {c s : Bytes} (h : Denotes c s) : GoJson.unquote (0x22 :: (c ++ [0x22])) = some s := by
  have : (c ++ [(0x22 : Byte)]).getLast? = some 0x22 := by simp
  simp only [GoJson.unquote, this, and_self, if_true]
  rw [List.dropLast_concat, unq_denotes h _ (by simp)]

theorem parseSingle_ok {c s : Bytes} (h : Single c s) : parseSingle (0x27 :: (c ++ [0x27])) = some s := by
  unfold parseSingle parseDouble
  simp only [List.drop_succ_cons, List.drop_zero, List.dropLast_concat]
  have h1 := single_mid h c.length (Nat.le_refl _)
  rw [rep2_eq _ _ (Nat.le_refl _)]
  exact unquote_denotes (mid_denotes h1)

theorem hexDigit_val {b : Byte} (h : hexDigit b = true) : ∃ n, GoJson.hexVal b = some n ∧ n < 16 := by
  revert b
  apply forall_byte
  set_option maxRecDepth 10000 in decide

theorem hexVal_digit {b : Byte} {n : Nat} (h : GoJson.hexVal b = some n) : hexDigit b = true ∧ n < 16 := by
  have : ∀ b : Byte, ∀ n, GoJson.hexVal b = some n → hexDigit b = true ∧ n < 16 := by
    intro b n h
    have key : ∀ b : Byte, (GoJson.hexVal b).isSome = true → hexDigit b = true ∧ (GoJson.hexVal b).getD 0 < 16 := by
      apply forall_byte
      set_option maxRecDepth 10000 in decide
    have := key b (by rw [h]; rfl)
    rw [h] at this
    exact this
  exact this b n h

theorem hexVal_class (p : Nat → Bool) (q : Byte → Prop) [DecidablePred q]
    (h : ∀ i : Fin 256, (GoJson.hexVal (UInt8.ofFin i)).all (fun n => !p n || decide (q (UInt8.ofFin i))) = true) {b : Byte} {n : Nat}
    (hb : GoJson.hexVal b = some n) (hp : p n = true) : q b := by
  have := forall_byte (p := fun b => (GoJson.hexVal b).all (fun n => !p n || decide (q b)) = true) h b
  simpa [hb, hp] using this

end Verif.JPath
