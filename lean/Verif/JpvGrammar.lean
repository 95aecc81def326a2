import Verif.JpvRun
import Verif.JpvSpec
import Verif.IndexNum

/-!
# The JPV decoder and the format (helper lemmas)
-/

set_option linter.unusedVariables false
set_option linter.unusedSimpArgs false

namespace Verif
namespace JpvGrammar
open Rfc8259 JpvPure JpvSpec

theorem up_ok {α : Type} {x : Except Pure.PErr α} {a : α} (h : up x = .ok a) : x = .ok a := by
  cases x with
  | ok b => simpa [up] using h
  | error e => simp [up] at h

theorem close_sound {b : Byte} {k : Scalar} {r : Bytes} {x : Scalar × Bytes} (h : JpvPure.close b k r = .ok x) :
    b = 0x5D ∧ x = (k, r) := by
  unfold JpvPure.close at h
  split at h
  · simp at h
  · rename_i hb
    simp only [Except.ok.injEq] at h; exact ⟨by simpa using hb, h.symm⟩

theorem bracket_sound {fin : RErr} {r : Bytes} {x : Scalar × Bytes} (h : JpvPure.bracket fin r = .ok x) :
    ∃ b, Elem x.1 (0x5B :: b) ∧ r = b ++ x.2 := by
  unfold JpvPure.bracket at h
  cases h1 : up (Pure.chk fin r) with
  | error e => rw [h1] at h; simp [Except.bind] at h
  | ok c =>
    rw [h1] at h
    simp only [Except.bind] at h
    split at h
    · cases h2 : up (Pure.string fin r) with
      | error e => rw [h2] at h; simp at h
      | ok s =>
        rw [h2] at h
        simp only at h
        obtain ⟨c, e1, e2, e3⟩ := string_sound (up_ok h2)
        cases h3 : up (Pure.chk fin s.2) with
        | error e => rw [h3] at h; simp at h
        | ok y =>
          rw [h3] at h
          obtain ⟨e4, e5⟩ := close_sound h
          subst e5
          have := (Pure.chk_ok (up_ok h3)).1
          rw [e4] at this
          refine ⟨0x22 :: (c ++ [0x22, 0x5D]), ?_, ?_⟩
          · rw [e2]; exact .quoted e1
          · rw [e3, this]; simp
    · cases h2 : up (Pure.digits1 fin r) with
      | error e => rw [h2] at h; simp at h
      | ok d =>
        rw [h2] at h
        obtain ⟨e4, e5⟩ := close_sound h
        subst e5
        obtain ⟨e1, e2, e3⟩ := digits1_sound (up_ok h2)
        refine ⟨d.1 ++ [0x5D], .index e1 e2, ?_⟩
        rw [e3]
        cases hd : d.2 with
        | nil => rw [hd] at e4; exact absurd e4 (by decide)
        | cons y r' =>
          rw [hd] at e4
          have : y = 0x5D := e4
          simp [this]

theorem dotted_sound {fin : RErr} {r : Bytes} {x : Scalar × Bytes} (h : JpvPure.dotted fin r = .ok x) :
    ∃ b, Elem x.1 (0x2E :: b) ∧ r = b ++ x.2 := by
  unfold JpvPure.dotted at h
  cases h1 : up (Pure.chk fin r) with
  | error e => rw [h1] at h; simp [Except.bind] at h
  | ok c =>
    rw [h1] at h
    simp only [Except.bind] at h
    split at h
    · rename_i ha
      cases h2 : up (Pure.chk fin (c.2.dropWhile isAlnum)) with
      | error e => rw [h2] at h; simp at h
      | ok d =>
        rw [h2] at h
        simp only [Except.ok.injEq] at h
        subst h
        refine ⟨c.1 :: c.2.takeWhile isAlnum, .dotted ha ?_, ?_⟩
        · have := List.all_takeWhile (p := isAlnum) (l := c.2)
          rw [List.all_eq_true] at this
          exact this
        · rw [(Pure.chk_ok (up_ok h1)).1]; simp
    · simp at h

theorem path_sound {fin : RErr} : ∀ {n : Nat} {p : List Scalar} {r : Bytes} {x : List Scalar × Bytes},
    JpvPure.path fin n p r = .ok x → ∃ q b, x.1 = p ++ q ∧ Path q b ∧ r = b ++ x.2 := by
  intro n
  induction n with
  | zero => intro p r x h; simp [JpvPure.path] at h
  | succ n ih =>
    intro p r x h
    rw [JpvPure.path] at h
    cases h1 : up (Pure.chk fin r) with
    | error e => rw [h1] at h; simp [Except.bind] at h
    | ok c =>
      rw [h1] at h
      simp only [Except.bind] at h
      have hr := (Pure.chk_ok (up_ok h1)).1
      split at h
      · rename_i hc
        cases h2 : JpvPure.bracket fin c.2 with
        | error e => rw [h2] at h; simp at h
        | ok k =>
          rw [h2] at h
          obtain ⟨b, e1, e2⟩ := bracket_sound h2
          obtain ⟨q, b', f1, f2, f3⟩ := ih h
          refine ⟨k.1 :: q, 0x5B :: b ++ b', by simp [f1], .cons e1 f2, ?_⟩
          rw [hr, hc, e2, f3]; simp
      · split at h
        · rename_i hc
          cases h2 : JpvPure.dotted fin c.2 with
          | error e => rw [h2] at h; simp at h
          | ok k =>
            rw [h2] at h
            obtain ⟨b, e1, e2⟩ := dotted_sound h2
            obtain ⟨q, b', f1, f2, f3⟩ := ih h
            refine ⟨k.1 :: q, 0x2E :: b ++ b', by simp [f1], .cons e1 f2, ?_⟩
            rw [hr, hc, e2, f3]; simp
        · simp only [Except.ok.injEq] at h
          subst h
          exact ⟨[], [], by simp, .nil, by simp⟩

/-! Completeness -/

/-- What may follow a path. -/
def PathEnd (r : Bytes) : Prop :=
  ∃ x r', r = x :: r' ∧ x ≠ eofByte ∧ isAlnum x = false

theorem up_chk {fin : RErr} {b : Byte} (h : b ≠ eofByte) (r : Bytes) : up (Pure.chk fin (b :: r)) = .ok (b, r) := by
  rw [chk_cons h]; rfl

theorem digit_facts {d : Byte} (h : Digit d) : d ≠ eofByte ∧ d ≠ 0x22 := by
  unfold Digit at h
  constructor
  · rintro rfl; revert h; decide
  · rintro rfl; revert h; decide

theorem not_digit_5D : ¬ Digit 0x5D := by unfold Digit; decide

theorem alpha_ne_eof {a : Byte} (h : isAlpha a = true) : a ≠ eofByte := by
  rintro rfl; revert h; decide

theorem bracket_quoted {fin : RErr} {c r : Bytes} (hc : LaxChars c) :
    JpvPure.bracket fin (0x22 :: (c ++ [0x22, 0x5D]) ++ r) = .ok ({ strScalar c with key := true }, r) := by
  have e : (0x22 :: (c ++ [0x22, 0x5D]) ++ r : Bytes) = 0x22 :: (c ++ 0x22 :: (0x5D :: r)) := by simp
  unfold JpvPure.bracket
  rw [e, up_chk (by decide)]
  simp only [Except.bind, if_true]
  rw [string_complete hc]
  simp only [up]
  rw [show Pure.chk fin (0x5D :: r) = .ok (0x5D, r) from chk_cons (by decide) r]
  rfl

theorem bracket_index {fin : RErr} {ds r : Bytes} (h0 : ds ≠ []) (hd : ∀ d ∈ ds, Digit d) :
    JpvPure.bracket fin (ds ++ [0x5D] ++ r) = .ok ({ bytes := ds ++ [0x5D], type := .num, key := true }, r) := by
  have e : (ds ++ [0x5D] ++ r : Bytes) = ds ++ (0x5D :: r) := by simp
  unfold JpvPure.bracket
  rw [e]
  obtain ⟨d, ds', rfl⟩ := List.exists_cons_of_ne_nil h0
  have hf := digit_facts (hd d List.mem_cons_self)
  rw [List.cons_append, up_chk hf.1]
  simp only [Except.bind]
  rw [if_neg hf.2, ← List.cons_append, digits1_complete h0 hd
    (by intro b r' h; simp only [List.cons.injEq] at h; rw [← h.1]; exact not_digit_5D) (.inr (by simp))]
  rfl

theorem takeWhile_stop {α : Type} {p : α → Bool} {l : List α} {x : α} {r : List α} (h : ∀ y ∈ l, p y = true) (hx : p x = false) :
    (l ++ x :: r).takeWhile p = l ∧ (l ++ x :: r).dropWhile p = x :: r := by
  induction l with
  | nil => simp [List.takeWhile_cons, List.dropWhile_cons, hx]
  | cons a l ih =>
    have := ih fun y hy => h y (List.mem_cons_of_mem _ hy)
    have ha := h a List.mem_cons_self
    simp [List.takeWhile_cons, List.dropWhile_cons, ha, this]

theorem dotted_complete {fin : RErr} {a : Byte} {as r : Bytes} (ha : isAlpha a = true) (h : ∀ x ∈ as, isAlnum x = true)
    (hr : PathEnd r) : JpvPure.dotted fin (a :: as ++ r) =
      .ok ({ bytes := 0x22 :: (a :: as ++ [0x22]), type := .str, alnum := true, key := true }, r) := by
  obtain ⟨x, r', rfl, h1, h2⟩ := hr
  obtain ⟨e1, e2⟩ := takeWhile_stop (r := r') h h2
  unfold JpvPure.dotted
  rw [List.cons_append, up_chk (alpha_ne_eof ha)]
  simp only [Except.bind]
  rw [if_pos ha, e2, up_chk h1, e1]

theorem Path.end_ {p : List Scalar} {b r : Bytes} (h : Path p b) (hr : PathEnd r) : PathEnd (b ++ r) := by
  cases h with
  | nil => exact hr
  | cons h1 h2 =>
    cases h1 with
    | quoted _ => exact ⟨0x5B, _, rfl, by decide, by decide⟩
    | index _ _ => exact ⟨0x5B, _, rfl, by decide, by decide⟩
    | dotted _ _ => exact ⟨0x2E, _, rfl, by decide, by decide⟩

theorem Elem.ne_nil {k : Scalar} {b : Bytes} (h : Elem k b) : 1 ≤ b.length := by
  cases h <;> simp

theorem path_complete {fin : RErr} {p : List Scalar} {b : Bytes} (h : Path p b) : ∀ {n : Nat} {acc : List Scalar} {r : Bytes},
    PathEnd r → (∀ x r', r = x :: r' → x ≠ 0x5B ∧ x ≠ 0x2E) → b.length + 1 ≤ n →
      JpvPure.path fin n acc (b ++ r) = .ok (acc ++ p, r) := by
  induction h with
  | nil =>
    intro n acc r hr hx hn
    obtain ⟨n, rfl⟩ : ∃ m, n = m + 1 := ⟨n - 1, by omega⟩
    obtain ⟨x, r', rfl, h1, h2⟩ := hr
    obtain ⟨h3, h4⟩ := hx x r' rfl
    rw [JpvPure.path, List.nil_append, up_chk h1]
    simp only [Except.bind]
    rw [if_neg h3, if_neg h4, List.append_nil]
  | @cons k b p bs h1 h2 ih =>
    intro n acc r hr hx hn
    obtain ⟨n, rfl⟩ : ∃ m, n = m + 1 := ⟨n - 1, by omega⟩
    have hb := Elem.ne_nil h1
    have hrest := ih (n := n) (acc := acc ++ [k]) hr hx (by simp at hn; omega)
    have hend := Path.end_ h2 hr
    rw [JpvPure.path, List.append_assoc]
    cases h1 with
    | quoted hc =>
      rw [List.cons_append, up_chk (by decide)]
      simp only [Except.bind, if_true]
      rw [bracket_quoted hc]
      simp only
      rw [hrest, List.append_assoc]; rfl
    | index h0 hd =>
      rw [List.cons_append, up_chk (by decide)]
      simp only [Except.bind, if_true]
      rw [bracket_index h0 hd]
      simp only
      rw [hrest, List.append_assoc]; rfl
    | dotted ha has =>
      rw [List.cons_append, up_chk (by decide)]
      simp only [Except.bind]
      rw [if_neg (by decide), if_pos (by decide), dotted_complete ha has hend]
      simp only
      rw [hrest, List.append_assoc]; rfl

theorem ws_pathEnd {w r : Bytes} {x : Byte} (hw : Ws w) (hx : isAlnum x = false) (hx' : x ≠ eofByte ∧ x ≠ 0x5B ∧ x ≠ 0x2E) :
    PathEnd (w ++ x :: r) ∧ ∀ y r', w ++ x :: r = y :: r' → y ≠ 0x5B ∧ y ≠ 0x2E := by
  cases w with
  | nil => exact ⟨⟨x, r, rfl, hx'.1, hx⟩, by intro y r' h; simp at h; rw [← h.1]; exact hx'.2⟩
  | cons b w =>
    have hb := hw b List.mem_cons_self
    refine ⟨⟨b, _, rfl, ?_, ?_⟩, ?_⟩
    · rcases hb with rfl | rfl | rfl | rfl <;> decide
    · rcases hb with rfl | rfl | rfl | rfl <;> decide
    · intro y r' h
      simp only [List.cons_append, List.cons.injEq] at h
      rw [← h.1]
      rcases hb with rfl | rfl | rfl | rfl <;> decide

theorem head_complete {fin : RErr} {fuel : Nat} {last p : List Scalar} {h r : Bytes} (hh : Head p h) (hf : h.length ≤ fuel) :
    JpvPure.head fin fuel last (h ++ r) = (JpvPure.upd last p).map fun ts => ((ts, p), r) := by
  obtain ⟨b, w, h1, h2, rfl⟩ := hh
  have hend := ws_pathEnd (w := w) (x := 0x3D) (r := r) h2 (by decide) (by decide)
  have hp := path_complete (fin := fin) h1 (n := fuel) (acc := []) hend.1 hend.2 (by simp at hf; omega)
  have e : (0x24 :: (b ++ (w ++ [0x3D])) ++ r : Bytes) = 0x24 :: (b ++ (w ++ 0x3D :: r)) := by simp
  rw [e]
  simp only [JpvPure.head, ne_eq, not_true, if_false, hp, Except.bind]
  rw [chk_ws h2 (by decide) (by decide)]
  simp [up]

/-- What the start of a line shows. -/
theorem head_sound {fin : RErr} {fuel : Nat} {last : List Scalar} {r : Bytes} {x : (List Token × List Scalar) × Bytes}
    (h : JpvPure.head fin fuel last r = .ok x) :
    ∃ hd, Head x.1.2 hd ∧ r = hd ++ x.2 ∧ JpvPure.upd last x.1.2 = .ok x.1.1 := by
  unfold JpvPure.head at h
  split at h
  · simp at h
  · split at h
    · simp at h
    · rename_i b r hb
      simp only [ne_eq, Decidable.not_not] at hb
      cases h1 : JpvPure.path fin fuel [] r with
      | error e => rw [h1] at h; simp [Except.bind] at h
      | ok p =>
        rw [h1] at h
        simp only [Except.bind] at h
        cases h2 : up (Pure.chk fin (Pure.ws p.2)) with
        | error e => rw [h2] at h; simp at h
        | ok c =>
          rw [h2] at h
          simp only at h
          split at h
          · simp at h
          · rename_i hc
            simp only [ne_eq, Decidable.not_not] at hc
            cases h3 : JpvPure.upd last p.1 with
            | error e => rw [h3] at h; simp [Except.map] at h
            | ok ts =>
              rw [h3] at h
              simp only [Except.map, Except.ok.injEq] at h
              subst h
              obtain ⟨q, pb, e1, e2, e3⟩ := path_sound h1
              obtain ⟨w, f1, f2⟩ := ws_split p.2
              have f3 := (Pure.chk_ok (up_ok h2)).1
              refine ⟨0x24 :: (pb ++ (w ++ [0x3D])), ⟨pb, w, by simpa [e1] using e2, f1, rfl⟩, ?_, h3⟩
              rw [hb, e3, f2, f3, hc]; simp

/-! Panics -/

theorem scalarEqual_same {k n : Scalar} (h : scalarEqual k n = some true) : SameKey k n := by
  unfold scalarEqual at h
  split at h
  · simp at h
  · rename_i ht
    simp only [ne_eq, Decidable.not_not] at ht
    refine ⟨ht, ?_⟩
    intro s t hs hn
    rw [hs.1] at h
    obtain ⟨_, c, e1, e2, _⟩ := hs
    obtain ⟨_, c', e1', e2', _⟩ := hn
    simp only at h
    have u1 : GoJson.unquote k.bytes = some s := by
      rw [e1, GoJson.unquote]
      simp [unq_denotes e2]
    have u2 : GoJson.unquote n.bytes = some t := by
      rw [e1', GoJson.unquote]
      simp [unq_denotes e2']
    split at h
    · rename_i hb
      rw [hb, u2] at u1
      exact (Option.some.inj u1).symm
    · split at h
      · simp at h
      · rw [u1, u2] at h
        simpa using h

/-- A key of a path. -/
def PathKey (k : Scalar) : Prop :=
  k.key = true ∧ (k.type = .str ∨ k.type = .num ∧ ∃ ds, ds ≠ [] ∧ (∀ d ∈ ds, Digit d) ∧ k.bytes = ds ++ [0x5D])

theorem elem_key {k : Scalar} {b : Bytes} (h : Elem k b) : PathKey k := by
  cases h with
  | quoted _ => exact ⟨rfl, .inl rfl⟩
  | index h0 hd => exact ⟨rfl, .inr ⟨rfl, _, h0, hd, rfl⟩⟩
  | dotted _ _ => exact ⟨rfl, .inl rfl⟩

theorem path_key {p : List Scalar} {b : Bytes} (h : Path p b) : ∀ k ∈ p, PathKey k := by
  induction h with
  | nil => simp
  | cons h1 _ ih =>
    intro k hk
    rcases List.mem_cons.1 hk with rfl | hk
    · exact elem_key h1
    · exact ih k hk

theorem scalarEqual_some {k n : Scalar} (p1 : PathKey k) (p2 : PathKey n) (h1 : Sane k) (h2 : Sane n) :
    scalarEqual k n ≠ none := by
  unfold scalarEqual
  split
  · simp
  · rename_i ht
    simp only [ne_eq, Decidable.not_not] at ht
    rcases p1.2 with hs | ⟨hs, ds, e0, e1, e2⟩
    · rw [hs]
      simp only
      split
      · simp
      · split
        · simp
        · obtain ⟨s, _, c, f1, f2, _⟩ := h1.1 hs
          obtain ⟨t, _, c', f1', f2', _⟩ := h2.1 (ht ▸ hs)
          have u1 : GoJson.unquote k.bytes = some s := by
            rw [f1, GoJson.unquote]
            simp [unq_denotes f2]
          have u2 : GoJson.unquote n.bytes = some t := by
            rw [f1', GoJson.unquote]
            simp [unq_denotes f2']
          rw [u1, u2]; simp
    · rw [hs]
      simp only
      split
      · simp
      · have l1 := h1.2 hs
        have l2 := h2.2 (ht ▸ hs)
        rcases p2.2 with hs' | ⟨hs', ds', e0', e1', e2'⟩
        · rw [hs, hs'] at ht; cases ht
        · rw [e2] at l1
          rw [e2'] at l2
          obtain ⟨q1, g1⟩ := number_digits e0 e1 (by simp at l1; omega)
          obtain ⟨q2, g2⟩ := number_digits e0' e1' (by simp at l2; omega)
          rw [e2, e2', g1, g2]; simp

/-- When comparing paths panics. -/
theorem diff_panic : ∀ {last new : List Scalar}, JpvPure.diff last new = .error .panic →
    (∀ k ∈ last, PathKey k) → (∀ k ∈ new, PathKey k) →
    Above new last ∨ ∃ k ∈ last ++ new, ¬ Sane k := by
  intro last
  induction last with
  | nil => intro new h; simp [JpvPure.diff] at h
  | cons k ks ih =>
    intro new h h1 h2
    cases new with
    | nil => exact .inl ⟨[], k :: ks, rfl, by simp, rfl, by simp⟩
    | cons n ns =>
      rw [JpvPure.diff] at h
      split at h
      · rename_i hn
        right
        refine Classical.byContradiction fun hne => ?_
        exact scalarEqual_some (h1 k (by simp)) (h2 n (by simp))
          (Classical.byContradiction fun hk => hne ⟨k, by simp, hk⟩)
          (Classical.byContradiction fun hk => hne ⟨n, by simp, hk⟩) hn
      · rename_i he
        rcases ih h (fun x hx => h1 x (by simp [hx])) (fun x hx => h2 x (by simp [hx])) with ⟨a, b, e1, e2, e3, e4⟩ | ⟨x, hx, hs⟩
        · refine .inl ⟨k :: a, b, by simp [e1], e2, by simp [e3], ?_⟩
          intro kn hkn
          simp only [List.zip_cons_cons, List.mem_cons] at hkn
          rcases hkn with rfl | hkn
          · exact scalarEqual_same he
          · exact e4 kn hkn
        · refine .inr ⟨x, ?_, hs⟩
          simp only [List.mem_append, List.mem_cons] at hx ⊢
          rcases hx with hx | hx
          · exact .inl (.inr hx)
          · exact .inr (.inr hx)
      · split at h <;> simp at h

theorem upd_panic {last new : List Scalar} (h : JpvPure.upd last new = .error .panic)
    (h1 : ∀ k ∈ last, PathKey k) (h2 : ∀ k ∈ new, PathKey k) :
    Above new last ∨ ∃ k ∈ last ++ new, ¬ Sane k := by
  unfold JpvPure.upd at h
  split at h
  · simp at h
  · cases hd : JpvPure.diff last new with
    | ok d => rw [hd] at h; simp [Except.map] at h
    | error e =>
      rw [hd] at h
      simp only [Except.map, Except.error.injEq] at h
      subst h
      exact diff_panic hd h1 h2

theorem up_panic {α : Type} {x : Except Pure.PErr α} : up x ≠ .error .panic := by
  cases x <;> simp [up]

theorem close_panic {b : Byte} {k : Scalar} {r : Bytes} : JpvPure.close b k r ≠ .error .panic := by
  unfold JpvPure.close; split <;> simp

theorem bracket_panic {fin : RErr} {r : Bytes} : JpvPure.bracket fin r ≠ .error .panic := by
  intro h
  unfold JpvPure.bracket at h
  cases h1 : up (Pure.chk fin r) with
  | error e => rw [h1] at h; simp only [Except.bind, Except.error.injEq] at h; rw [h] at h1; exact up_panic h1
  | ok c =>
    rw [h1] at h
    simp only [Except.bind] at h
    split at h
    · cases h2 : up (Pure.string fin r) with
      | error e => rw [h2] at h; simp only [Except.error.injEq] at h; rw [h] at h2; exact up_panic h2
      | ok s =>
        rw [h2] at h
        simp only at h
        cases h3 : up (Pure.chk fin s.2) with
        | error e => rw [h3] at h; simp only [Except.error.injEq] at h; rw [h] at h3; exact up_panic h3
        | ok y => rw [h3] at h; exact close_panic h
    · cases h2 : up (Pure.digits1 fin r) with
      | error e => rw [h2] at h; simp only [Except.error.injEq] at h; rw [h] at h2; exact up_panic h2
      | ok d => rw [h2] at h; exact close_panic h

theorem dotted_panic {fin : RErr} {r : Bytes} : JpvPure.dotted fin r ≠ .error .panic := by
  intro h
  unfold JpvPure.dotted at h
  cases h1 : up (Pure.chk fin r) with
  | error e => rw [h1] at h; simp only [Except.bind, Except.error.injEq] at h; rw [h] at h1; exact up_panic h1
  | ok c =>
    rw [h1] at h
    simp only [Except.bind] at h
    split at h
    · cases h2 : up (Pure.chk fin (c.2.dropWhile isAlnum)) with
      | error e => rw [h2] at h; simp only [Except.error.injEq] at h; rw [h] at h2; exact up_panic h2
      | ok d => rw [h2] at h; simp at h
    · simp at h

theorem path_panic {fin : RErr} : ∀ {n : Nat} {p : List Scalar} {r : Bytes}, r.length < n →
    JpvPure.path fin n p r ≠ .error .panic := by
  intro n
  induction n with
  | zero => intro p r h; omega
  | succ n ih =>
    intro p r hn h
    rw [JpvPure.path] at h
    cases h1 : up (Pure.chk fin r) with
    | error e => rw [h1] at h; simp only [Except.bind, Except.error.injEq] at h; rw [h] at h1; exact up_panic h1
    | ok c =>
      rw [h1] at h
      simp only [Except.bind] at h
      have hr := (Pure.chk_ok (up_ok h1)).1
      rw [hr] at hn
      simp only [List.length_cons] at hn
      split at h
      · cases h2 : JpvPure.bracket fin c.2 with
        | error e => rw [h2] at h; simp only [Except.error.injEq] at h; rw [h] at h2; exact bracket_panic h2
        | ok k =>
          rw [h2] at h
          obtain ⟨b, _, e2⟩ := bracket_sound h2
          have := congrArg List.length e2
          simp only [List.length_append] at this
          exact ih (by omega) h
      · split at h
        · cases h2 : JpvPure.dotted fin c.2 with
          | error e => rw [h2] at h; simp only [Except.error.injEq] at h; rw [h] at h2; exact dotted_panic h2
          | ok k =>
            rw [h2] at h
            obtain ⟨b, _, e2⟩ := dotted_sound h2
            have := congrArg List.length e2
            simp only [List.length_append] at this
            exact ih (by omega) h
        · simp at h

/-- When the start of a line panics. -/
theorem head_panic {fin : RErr} {fuel : Nat} {last : List Scalar} {b : Byte} {r : Bytes} (hf : r.length < fuel)
    (h : JpvPure.head fin fuel last (b :: r) = .error .panic) (hl : ∀ k ∈ last, PathKey k) :
    ∃ p pb w x rest, Path p pb ∧ Ws w ∧ isSpace x = false ∧ b :: r = 0x24 :: (pb ++ (w ++ x :: rest)) ∧
      (x ≠ 0x3D ∨ (Above p last ∨ ∃ k ∈ last ++ p, ¬ Sane k)) := by
  unfold JpvPure.head at h
  simp only at h
  split at h
  · simp at h
  · rename_i hb
    simp only [ne_eq, Decidable.not_not] at hb
    cases h1 : JpvPure.path fin fuel [] r with
    | error e => rw [h1] at h; simp only [Except.bind, Except.error.injEq] at h; rw [h] at h1; exact absurd h1 (path_panic hf)
    | ok p =>
      rw [h1] at h
      simp only [Except.bind] at h
      obtain ⟨q, pb, e1, e2, e3⟩ := path_sound h1
      obtain ⟨w, f1, f2⟩ := ws_split p.2
      simp only [List.nil_append] at e1
      cases h2 : up (Pure.chk fin (Pure.ws p.2)) with
      | error e => rw [h2] at h; simp only [Except.error.injEq] at h; rw [h] at h2; exact absurd h2 up_panic
      | ok c =>
        rw [h2] at h
        simp only at h
        have f3 := (Pure.chk_ok (up_ok h2)).1
        have f4 : isSpace c.1 = false := by
          have := List.head?_dropWhile_not isSpace p.2
          have e : (p.2.dropWhile isSpace) = c.1 :: c.2 := f3
          rw [e] at this
          simpa using this
        refine ⟨q, pb, w, c.1, c.2, e2, f1, f4, ?_, ?_⟩
        · rw [hb, e3, f2, f3]
        · split at h
          · rename_i hx; exact .inl hx
          · right
            cases h3 : JpvPure.upd last p.1 with
            | ok ts => rw [h3] at h; simp [Except.map] at h
            | error e =>
              rw [h3] at h
              simp only [Except.map, Except.error.injEq] at h
              subst h
              rw [e1] at h3
              exact upd_panic h3 hl (path_key e2)

end JpvGrammar
end Verif
