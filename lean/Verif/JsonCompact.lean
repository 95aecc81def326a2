import Verif.JsonLayout

/-!
# Compact form of arrays and objects
-/

set_option linter.unusedSimpArgs false

namespace Verif
namespace Enc

/-- A line in an array: scalars, or a collection. -/
abbrev Row := List Scalar ⊕ List POp

/-- The items of a line. -/
def Row.items : Row → List It
  | .inl l => l.map .inl
  | .inr o => [.inr o]

/-- What is printed for a line. -/
def Row.ops (c : Option Colorizer) : Row → List POp
  | .inl l => sepBy [compactSep] (l.map (printScalar c))
  | .inr o => o

/-- Specification: the width of scalars with `, ` between them, without colours. -/
def width : List Scalar → Int
  | [] => 0
  | [s] => s.bytes.length
  | s :: t :: l => s.bytes.length + 2 + width (t :: l)

/-- Specification: the items are distributed over lines in their order; a collection has a line of its own; scalars on one line are not wider than `n`,
except for a scalar that is alone. -/
structure Wrapped (n : Int) (items : List It) (lines : List Row) : Prop where
  cover : lines.flatMap Row.items = items
  bound : ∀ l, .inl l ∈ lines → l ≠ [] ∧ (width l ≤ n ∨ ∃ s, l = [s])

/-- Specification: no scalar could have been put on the line before. -/
def Greedy (n : Int) (lines : List Row) : Prop := ∀ A l s r B, lines = A ++ .inl l :: .inl (s :: r) :: B → n < width (l ++ [s])

theorem width_snoc : ∀ (l : List Scalar) (s : Scalar), l ≠ [] → width (l ++ [s]) = width l + (s.bytes.length + 2)
  | [], _, h => absurd rfl h
  | [a], s, _ => by simp [width]; omega
  | a :: b :: l, s, _ => by
    have := width_snoc (b :: l) s (by simp)
    simp only [List.cons_append, width] at this ⊢
    rw [this]
    omega

theorem greedy_snoc {n : Int} {L : List Row} {y : Row} (h : Greedy n L) (h' : ∀ A l s r, L = A ++ [.inl l] → y = .inl (s :: r) → n < width (l ++ [s])) :
    Greedy n (L ++ [y]) := by
  intro A l s r B e
  rcases List.eq_nil_or_concat B with rfl | ⟨B', z, rfl⟩
  · have e : L ++ [y] = (A ++ [.inl l]) ++ [.inl (s :: r)] := by simp [e]
    obtain ⟨e1, e2⟩ := List.append_inj' e rfl
    exact h' A l s r e1 (by simpa using e2)
  · have e : L ++ [y] = (A ++ .inl l :: .inl (s :: r) :: B') ++ [z] := by simp [e]
    exact h A l s r B' (List.append_inj' e rfl).1

/-- What is printed for the lines so far. -/
def printed (c : Option Colorizer) : List Row → List POp
  | [] => []
  | x :: l => .indent :: sepBy [itemSep, .newLine] ((x :: l).map (Row.ops c))

theorem printed_snoc (c : Option Colorizer) (L : List Row) (y : Row) : printed c (L ++ [y]) = printed c L ++ (sepOps L.isEmpty ++ y.ops c) := by
  cases L with
  | nil => simp [printed, sepBy, sepOps]
  | cons x l => simp [printed, sepBy, sepOps]

/-- The state after the items `done`, of which the lines `L` are printed. -/
structure RowInv (n : Int) (done : List It) (L : List Row) (st : ACState) : Prop where
  cover : L.flatMap Row.items ++ st.items.map .inl = done
  first : st.first = L.isEmpty
  bound : ∀ l, .inl l ∈ L → l ≠ [] ∧ (width l ≤ n ∨ ∃ s, l = [s])
  pend : st.items ≠ [] → st.width = width st.items ∧ width st.items ≤ n
  empty : st.items = [] → st.width = -2 ∨ n < st.width ∧ L ≠ []
  over : L ≠ [] → ∀ l, done = l.map .inl → n < width l
  greedy : (∀ s, .inl s ∈ done → (s.bytes.length : Int) ≤ n) → Greedy n L ∧ (st.items = [] → st.width = -2 ∧ ∀ A l, L ≠ A ++ [.inl l]) ∧
    ∀ A l s r, L = A ++ [.inl l] → st.items = s :: r → n < width (l ++ [s])

theorem snoc_ne {L : List Row} {o : List POp} {A : List Row} {l : List Scalar} : L ++ [.inr o] ≠ A ++ [.inl l] := by
  intro e
  have := (List.append_inj' e rfl).2
  simp at this

theorem map_inl {l l' : List Scalar} (h : l.map (Sum.inl : Scalar → It) = l'.map .inl) : l = l' :=
  (List.map_inj_right fun _ _ h => Sum.inl.inj h).1 h

theorem snoc_inr {done : List It} {o : List POp} {l : List Scalar} : done ++ [.inr o] ≠ l.map .inl := by
  intro e
  have : (.inr o : It) ∈ l.map (Sum.inl : Scalar → It) := by rw [← e]; simp
  simp at this

theorem over_snoc {n : Int} {done : List It} {s : Scalar} (h : ∀ l, done = l.map .inl → n < width l) : ∀ l, done ++ [.inl s] = l.map .inl → n < width l := by
  intro l e
  rcases List.eq_nil_or_concat l with rfl | ⟨l', z, rfl⟩
  · simp at e
  · rw [List.concat_eq_append] at e ⊢
    rw [List.map_append] at e
    obtain ⟨e1, -⟩ := List.append_inj' e rfl
    have := h l' e1
    by_cases h0 : l' = []
    · subst h0
      simp only [width, List.nil_append] at this ⊢
      omega
    · rw [width_snoc _ _ h0]
      omega

theorem inv_step {cfg : EncCfg} {done : List It} {L : List Row} {st : ACState} (h : RowInv cfg.widthLimit done L st) (x : It) :
    ∃ L', RowInv cfg.widthLimit (done ++ [x]) L' (acNext cfg st x) ∧ printed cfg.color L' = printed cfg.color L ++ acOut cfg st x := by
  generalize hn : cfg.widthLimit = n at h
  obtain ⟨hc, hf, hb, hp, he, hs, hg⟩ := h
  have hd : ∀ {x : It}, (∀ s, .inl s ∈ done ++ [x] → (s.bytes.length : Int) ≤ n) → ∀ s, .inl s ∈ done → (s.bytes.length : Int) ≤ n :=
    fun h s hs => h s (List.mem_append_left _ hs)
  cases x with
  | inl s =>
    simp only [acNext, acOut, hn]
    by_cases h1 : st.width + (s.bytes.length + 2) ≤ n
    · rw [if_pos h1, if_pos h1]
      refine ⟨L, ⟨?_, hf, hb, ?_, ?_, ?_, ?_⟩, by simp⟩
      · simp [← hc]
      · intro _
        by_cases h2 : st.items = []
        · rcases he h2 with h3 | ⟨h3, -⟩
          · simp only [h2, List.nil_append, width]
            omega
          · omega
        · obtain ⟨h3, h4⟩ := hp h2
          rw [width_snoc _ _ h2]
          simp only
          omega
      · intro h; simp at h
      · exact fun h => over_snoc (hs h)
      · intro hd'
        obtain ⟨h2, h3, h4⟩ := hg (hd hd')
        refine ⟨h2, fun h => by simp at h, ?_⟩
        intro A l t r e1 e2
        cases hi : st.items with
        | nil => exact absurd e1 ((h3 hi).2 A l)
        | cons u us =>
          simp only [hi, List.cons_append, List.cons.injEq] at e2
          exact h4 A l t us e1 (by rw [hi, e2.1])
    · rw [if_neg h1, if_neg h1]
      by_cases h2 : st.items = []
      · rw [if_pos h2, if_pos h2]
        refine ⟨L ++ [.inl [s]], ⟨?_, ?_, ?_, ?_, ?_, ?_, ?_⟩, ?_⟩
        · simp [← hc, h2, Row.items]
        · simp
        · intro l hl
          rcases List.mem_append.1 hl with hl | hl
          · exact hb l hl
          · simp only [List.mem_singleton, Sum.inl.injEq] at hl
            subst hl
            exact ⟨by simp, .inr ⟨s, rfl⟩⟩
        · intro h; exact absurd rfl h
        · intro _; exact .inr ⟨by simp only; omega, by simp⟩
        · intro _
          by_cases hL : L = []
          · intro l e
            rcases he h2 with h3 | ⟨-, h3⟩
            · obtain rfl : [s] = l := map_inl (by rw [← e, ← hc, hL, h2]; rfl)
              simp only [width]; omega
            · exact absurd hL h3
          · exact over_snoc (hs hL)
        · intro hd'
          have h3 := ((hg (hd hd')).2.1 h2).1
          have := hd' s (by simp)
          omega
        · rw [printed_snoc, hf]
          simp [Row.ops, sepBy]
      · rw [if_neg h2, if_neg h2]
        obtain ⟨h3, h4⟩ := hp h2
        have flushed : ∀ l, done ++ [.inl s] = l.map .inl → n < width l := by
          by_cases hL : L = []
          · intro l e
            obtain rfl : st.items ++ [s] = l := map_inl (by rw [← e, ← hc, hL]; simp)
            rw [width_snoc _ _ h2]
            omega
          · exact over_snoc (hs hL)
        by_cases h5 : (s.bytes.length : Int) ≤ n
        · rw [if_pos h5, if_pos h5]
          refine ⟨L ++ [.inl st.items], ⟨?_, ?_, ?_, ?_, ?_, ?_, ?_⟩, ?_⟩
          · simp [← hc, Row.items]
          · simp
          · intro l hl
            rcases List.mem_append.1 hl with hl | hl
            · exact hb l hl
            · simp only [List.mem_singleton, Sum.inl.injEq] at hl
              subst hl
              exact ⟨h2, .inl h4⟩
          · intro _; exact ⟨rfl, h5⟩
          · intro h; cases h
          · exact fun _ => flushed
          · intro hd'
            obtain ⟨h6, -, h7⟩ := hg (hd hd')
            refine ⟨greedy_snoc h6 ?_, fun h => by simp at h, ?_⟩
            · intro A l t r e1 e2
              exact h7 A l t r e1 (by simpa using e2)
            · intro A l t r e1 e2
              have := (List.append_inj' e1 rfl).2
              simp only [List.cons.injEq, Sum.inl.injEq, and_true] at this e2
              rw [← this, ← e2.1, width_snoc _ _ h2]
              omega
          · rw [printed_snoc, hf]
            simp [Row.ops, lineOps]
        · rw [if_neg h5, if_neg h5]
          refine ⟨L ++ [.inl st.items] ++ [.inl [s]], ⟨?_, ?_, ?_, ?_, ?_, ?_, ?_⟩, ?_⟩
          · simp [← hc, Row.items]
          · simp
          · intro l hl
            simp only [List.append_assoc, List.mem_append, List.mem_singleton, Sum.inl.injEq] at hl
            rcases hl with hl | rfl | rfl
            · exact hb l hl
            · exact ⟨h2, .inl h4⟩
            · exact ⟨by simp, .inr ⟨s, rfl⟩⟩
          · intro h; exact absurd rfl h
          · intro _; exact .inr ⟨by simp only; omega, by simp⟩
          · exact fun _ => flushed
          · intro hd'
            have := hd' s (by simp)
            omega
          · rw [printed_snoc, printed_snoc, hf]
            simp [Row.ops, lineOps, sepBy, sepOps]
  | inr o =>
    simp only [acNext, acOut]
    by_cases h2 : st.items = []
    · rw [if_pos h2, if_pos h2]
      refine ⟨L ++ [.inr o], ⟨?_, ?_, ?_, ?_, ?_, ?_, ?_⟩, ?_⟩
      · simp [← hc, h2, Row.items]
      · simp
      · intro l hl
        rcases List.mem_append.1 hl with hl | hl
        · exact hb l hl
        · simp at hl
      · intro h; exact absurd rfl h
      · intro _
        rcases he h2 with h3 | ⟨h3, -⟩
        · exact .inl h3
        · exact .inr ⟨h3, by simp⟩
      · exact fun _ _ e => absurd e snoc_inr
      · intro hd'
        obtain ⟨h6, h7, -⟩ := hg (hd hd')
        exact ⟨greedy_snoc h6 fun _ _ _ _ _ e => by simp at e, fun _ => ⟨(h7 h2).1, fun _ _ => snoc_ne⟩, fun _ _ _ _ e => absurd e snoc_ne⟩
      · rw [printed_snoc, hf]
        simp [Row.ops]
    · rw [if_neg h2, if_neg h2]
      obtain ⟨h3, h4⟩ := hp h2
      refine ⟨L ++ [.inl st.items] ++ [.inr o], ⟨?_, ?_, ?_, ?_, ?_, ?_, ?_⟩, ?_⟩
      · simp [← hc, Row.items]
      · simp
      · intro l hl
        simp only [List.append_assoc, List.mem_append, List.mem_singleton, Sum.inl.injEq, reduceCtorEq, or_false] at hl
        rcases hl with hl | rfl
        · exact hb l hl
        · exact ⟨h2, .inl h4⟩
      · intro h; exact absurd rfl h
      · intro _; exact .inl rfl
      · exact fun _ _ e => absurd e snoc_inr
      · intro hd'
        obtain ⟨h6, -, h7⟩ := hg (hd hd')
        refine ⟨greedy_snoc (greedy_snoc h6 ?_) fun _ _ _ _ _ e => by simp at e, fun _ => ⟨rfl, fun _ _ => snoc_ne⟩, fun _ _ _ _ e => absurd e snoc_ne⟩
        intro A l t r e1 e2
        exact h7 A l t r e1 (by simpa using e2)
      · rw [printed_snoc, printed_snoc, hf]
        simp [Row.ops, lineOps, sepOps]

theorem inv_fold {cfg : EncCfg} : ∀ (items done : List It) {L : List Row} {st : ACState}, RowInv cfg.widthLimit done L st →
    ∃ L', RowInv cfg.widthLimit (done ++ items) L' (acFold cfg st items).2 ∧ printed cfg.color L' = printed cfg.color L ++ (acFold cfg st items).1
  | [], done, L, st, h => ⟨L, by simpa [acFold] using h, by simp [acFold]⟩
  | x :: l, done, L, st, h => by
    obtain ⟨L1, h1, h2⟩ := inv_step h x
    obtain ⟨L2, h3, h4⟩ := inv_fold l _ h1
    exact ⟨L2, by simpa [acFold] using h3, by simp [acFold, h4, h2]⟩

/-- An array in compact form: all items are scalars and stand on one line with the brackets, exactly if they are not wider than the limit; otherwise they are
distributed over lines as in the specification.  If no scalar is too wide, then the lines are as full as possible. -/
theorem array_lines {cfg : EncCfg} (hn : 0 ≤ cfg.widthLimit) (items : List It) (e : Bool) :
    (∀ l, items = l.map .inl → width l ≤ cfg.widthLimit → layArrCompact cfg items e = flat openArr closeArr (l.map (printScalar cfg.color)) e) ∧
    ((¬ ∃ l, items = l.map .inl ∧ width l ≤ cfg.widthLimit) → ∃ lines, Wrapped cfg.widthLimit items lines ∧
      ((∀ s, .inl s ∈ items → (s.bytes.length : Int) ≤ cfg.widthLimit) → Greedy cfg.widthLimit lines) ∧
      layArrCompact cfg items e = broken openArr closeArr (lines.map (Row.ops cfg.color)) e) := by
  have h0 : RowInv cfg.widthLimit [] [] ⟨[], -2, true⟩ :=
    ⟨rfl, rfl, by simp, by simp, fun _ => .inl rfl, by simp, fun _ => ⟨fun A _ _ _ _ e => by simp at e, fun _ => ⟨rfl, by simp⟩, by simp⟩⟩
  obtain ⟨L, ⟨hc, hf, hb, hp, he, hs, hg⟩, hP⟩ := inv_fold items [] h0
  simp only [List.nil_append, printed] at hc hP hs hg
  unfold layArrCompact
  simp only
  rw [← hP]
  generalize (acFold cfg ⟨[], -2, true⟩ items).2 = st at *
  constructor
  · rintro l rfl hl
    have hL : L = [] := Classical.byContradiction fun h => absurd (hs h l rfl) (by omega)
    subst hL
    obtain rfl : st.items = l := map_inl (by simpa using hc)
    simp only [List.isEmpty_nil] at hf
    simp only [hf, if_true, List.nil_append, flat]
    by_cases h : st.items = []
    · simp [h, sepBy]
    · simp [h, lineOps]
  · intro h
    have hL : L ≠ [] := by
      rintro rfl
      refine h ⟨st.items, by simpa using hc.symm, ?_⟩
      by_cases h : st.items = []
      · simp [h, width, hn]
      · exact (hp h).2
    obtain ⟨x, L, rfl⟩ := List.exists_cons_of_ne_nil hL
    simp only [List.isEmpty_cons] at hf
    by_cases h1 : st.items = []
    · refine ⟨x :: L, ⟨by simpa [h1] using hc, hb⟩, fun h => (hg h).1, ?_⟩
      simp [h1, hf, printed, broken]
    · refine ⟨x :: L ++ [.inl st.items], ⟨by simpa [Row.items] using hc, ?_⟩, fun h => greedy_snoc (hg h).1 ?_, ?_⟩
      · intro l hl
        rcases List.mem_append.1 hl with hl | hl
        · exact hb l hl
        · simp only [List.mem_singleton, Sum.inl.injEq] at hl
          subst hl
          exact ⟨h1, .inl (hp h1).2⟩
      · intro A l t r e1 e2
        exact (hg h).2.2 A l t r e1 (by simpa using e2)
      · simp [h1, hf, printed, broken, sepBy, Row.ops, lineOps]

/-! ## Objects -/

/-- Specification: the width of members with `: ` and `, ` between them, without colours. -/
def memberWidth : List (Scalar × Scalar) → Int
  | [] => 0
  | [m] => m.1.bytes.length + 2 + m.2.bytes.length
  | m :: m' :: l => m.1.bytes.length + 2 + m.2.bytes.length + 2 + memberWidth (m' :: l)

theorem fits_iff (cfg : EncCfg) : ∀ (l : List (Scalar × Scalar)) (n : Nat) (w : Int), fits cfg n w (l.map fun m => (m.1, .inl m.2)) = true ↔
    (l ≠ [] → (n : Int) + l.length ≤ cfg.maxItems ∧ w + (memberWidth l + 2) ≤ cfg.widthLimit)
  | [], n, w => by simp [fits]
  | [m], n, w => by
    simp [fits, memberWidth]
    omega
  | m :: m' :: l, n, w => by
    have := fits_iff cfg (m' :: l) (n + 1) (w + (m.1.bytes.length + m.2.bytes.length + 4))
    have h0 : 0 ≤ memberWidth (m' :: l) := by
      clear this
      induction l generalizing m' with
      | nil => simp [memberWidth]; omega
      | cons a l ih =>
        have := ih a
        simp only [memberWidth]
        omega
    simp only [List.map_cons] at this ⊢
    rw [fits, Bool.and_eq_true, this]
    simp [memberWidth]
    omega

theorem fits_all_scalars (cfg : EncCfg) : ∀ (ms : List (Scalar × It)) (n : Nat) (w : Int), fits cfg n w ms = true → ∃ l : List (Scalar × Scalar), ms = l.map fun m => (m.1, .inl m.2)
  | [], _, _, _ => ⟨[], rfl⟩
  | (k, .inl s) :: ms, n, w, h => by
    rw [fits, Bool.and_eq_true] at h
    obtain ⟨l, rfl⟩ := fits_all_scalars cfg ms _ _ h.2
    exact ⟨(k, s) :: l, rfl⟩
  | (_, .inr _) :: _, _, _, h => by cases h

end Enc
end Verif
