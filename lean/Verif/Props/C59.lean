import Verif.JsonCompact
import Verif.Props.C01

/-!
# C59: Compact form of arrays and objects
-/

set_option linter.unusedSimpArgs false

namespace Verif
namespace Enc

/-- The limits are kept: scalars of an array stand on one line with the brackets, exactly if they are not wider than the limit.  Otherwise the items are
distributed over lines; a line of scalars is not wider than the limit, except for a scalar that is alone.  Missing: the lines are as full as possible only if no
scalar is too wide. -/
theorem C59_array_partial {cfg : EncCfg} (hn : 0 < cfg.widthLimit) (l : List JVal) (e : Bool) :
    (∀ ss, l = ss.map .scalar → width ss ≤ cfg.widthLimit → layout cfg (.arr l e) = flat openArr closeArr (ss.map (printScalar cfg.color)) e) ∧
    ((¬ ∃ ss, l = ss.map .scalar ∧ width ss ≤ cfg.widthLimit) → ∃ lines, Wrapped cfg.widthLimit (l.map (it cfg)) lines ∧
      ((∀ s, .scalar s ∈ l → (s.bytes.length : Int) ≤ cfg.widthLimit) → Greedy cfg.widthLimit lines) ∧
      layout cfg (.arr l e) = broken openArr closeArr (lines.map (Row.ops cfg.color)) e) := by
  have hl : layout cfg (.arr l e) = layArrCompact cfg (l.map (it cfg)) e := by simp [layout, It.ops, layArr, hn]
  have hs : ∀ {v : JVal} {s : Scalar}, it cfg v = .inl s → v = .scalar s := by
    intro v s h
    cases v with
    | scalar s' => simp only [it_scalar, Sum.inl.injEq] at h; rw [h]
    | arr _ _ => simp at h
    | obj _ _ => simp at h
  obtain ⟨h1, h2⟩ := array_lines (Int.le_of_lt hn) (l.map (it cfg)) e
  rw [hl]
  constructor
  · rintro ss rfl hw
    exact h1 ss (by simp) hw
  · intro h
    obtain ⟨lines, h3, h4, h5⟩ := h2 (by
      rintro ⟨ss, e1, e2⟩
      refine h ⟨ss, ?_, e2⟩
      clear hl h1 h2 h e2
      induction l generalizing ss with
      | nil => cases ss <;> simp_all
      | cons v l ih =>
        cases ss with
        | nil => simp at e1
        | cons s ss =>
          simp only [List.map_cons, List.cons.injEq] at e1 ⊢
          exact ⟨hs e1.1, ih ss e1.2⟩)
    refine ⟨lines, h3, fun h => h4 ?_, h5⟩
    intro s hm
    obtain ⟨v, hv, e⟩ := List.mem_map.1 hm
    exact h s (hs e ▸ hv)

/-- An object stands on one line exactly if its values are scalars, there are not too many of them, and it is not wider than the limit. -/
theorem C59_object {cfg : EncCfg} (ms : List (Scalar × JVal)) (e : Bool) :
    ((∃ l : List (Scalar × Scalar), ms = l.map (fun m => (m.1, .scalar m.2)) ∧ l.length ≤ cfg.maxItems ∧ memberWidth l ≤ cfg.widthLimit) →
      layout cfg (.obj ms e) = flat openObj closeObj (ms.map fun m => memberOps cfg.color (m.1, it cfg m.2)) e) ∧
    ((¬ ∃ l : List (Scalar × Scalar), ms = l.map (fun m => (m.1, .scalar m.2)) ∧ l.length ≤ cfg.maxItems ∧ memberWidth l ≤ cfg.widthLimit) →
      layout cfg (.obj ms e) = broken openObj closeObj (ms.map fun m => memberOps cfg.color (m.1, it cfg m.2)) e) := by
  have hlay : layout cfg (.obj ms e) = layObj cfg (ms.map fun m => (m.1, it cfg m.2)) e := by simp [layout, It.ops]
  rw [hlay, layObj]
  simp only [List.map_map]
  have hm : ms.map (memberOps cfg.color ∘ fun m => (m.1, it cfg m.2)) = ms.map fun m => memberOps cfg.color (m.1, it cfg m.2) := rfl
  rw [hm]
  constructor
  · rintro ⟨l, rfl, h1, h2⟩
    cases l with
    | nil => split <;> simp [broken]
    | cons m l =>
      rw [if_pos]
      refine ⟨by simp at h1; omega, ?_⟩
      have := fits_iff cfg (m :: l) 0 (-2)
      rw [List.map_map, show ((fun m : Scalar × JVal => (m.1, it cfg m.2)) ∘ fun m : Scalar × Scalar => (m.1, JVal.scalar m.2)) = fun m => (m.1, .inl m.2) from by funext m; simp,
        this]
      intro _
      constructor <;> omega
  · intro h
    split
    · rename_i h1
      obtain ⟨l, hl⟩ := fits_all_scalars cfg _ _ _ h1.2
      have h2 := h1.2
      rw [hl, fits_iff] at h2
      have : ms = l.map fun m => (m.1, .scalar m.2) := by
        clear hlay h h1 h2 hm
        induction ms generalizing l with
        | nil => cases l <;> simp_all
        | cons m ms ih =>
          cases l with
          | nil => simp at hl
          | cons p l =>
            obtain ⟨k, v⟩ := m
            simp only [List.map_cons, List.cons.injEq, Prod.mk.injEq] at hl ⊢
            refine ⟨⟨hl.1.1, ?_⟩, ih l hl.2⟩
            cases v with
            | scalar s' => have := hl.1.2; simp only [it_scalar, Sum.inl.injEq] at this; rw [this]
            | arr _ _ => have := hl.1.2; simp at this
            | obj _ _ => have := hl.1.2; simp at this
      cases l with
      | nil => simp [this, broken]
      | cons p l =>
        exfalso
        have := h2 (by simp)
        exact h ⟨p :: l, by assumption, by omega, by omega⟩
    · rfl

/-- A string that is too wide. -/
def wideString : Scalar := { bytes := [0x22] ++ List.replicate 60 0x61 ++ [0x22], type := .str }

private def small (b : Bytes) : Scalar := { bytes := b, type := .num }

/-- C59 is false: after a scalar that is too wide, the other scalars of the array are not put together on lines: with the limit 60, the numbers 1 and 2 are on
different lines. -/
theorem C59_violated : (encode ⟨none, 60, 2⟩ ⟨2, false⟩ goodSink (streamToks [.arr [.scalar wideString, .scalar (small b%"1"), .scalar (small b%"2")] false])).1 =
      b%"[\n  " ++ wideString.bytes ++ b%",\n  1,\n  2\n]\n" ∧
    layout ⟨none, 60, 2⟩ (.arr [.scalar wideString, .scalar (small b%"1"), .scalar (small b%"2")] false) =
      broken openArr closeArr ([.inl [wideString], .inl [small b%"1"], .inl [small b%"2"]].map (Row.ops none)) false ∧
    ¬ Greedy 60 [.inl [wideString], .inl [small b%"1"], .inl [small b%"2"]] := by
  refine ⟨by decide +kernel, by decide +kernel, fun h => ?_⟩
  have := h [.inl [wideString]] [small b%"1"] (small b%"2") [] [] rfl
  exact absurd this (by decide)

/-- `["ab", 12, 345, [6], 7]` with the limit 8. -/
example : (encode ⟨none, 8, 2⟩ ⟨2, false⟩ goodSink (streamToks [.arr [.scalar (small b%"\"ab\""), .scalar (small b%"12"), .scalar (small b%"345"), .arr [.scalar (small b%"6")] false,
    .scalar (small b%"7")] false])).1 = b%"[\n  \"ab\", 12,\n  345,\n  [6],\n  7\n]\n" := by decide +kernel
example : Wrapped 8 [.inl (small b%"\"ab\""), .inl (small b%"12"), .inl (small b%"345")] [.inl [small b%"\"ab\"", small b%"12"], .inl [small b%"345"]] ∧
    Greedy 8 [.inl [small b%"\"ab\"", small b%"12"], .inl [small b%"345"]] := by
  refine ⟨⟨rfl, ?_⟩, ?_⟩
  · intro l hl
    simp only [List.mem_cons, Sum.inl.injEq, List.not_mem_nil, or_false] at hl
    rcases hl with rfl | rfl
    · exact ⟨by simp, .inl (by decide)⟩
    · exact ⟨by simp, .inl (by decide)⟩
  · exact greedy_snoc (L := [.inl [small b%"\"ab\"", small b%"12"]]) (by
      intro A l s r B e
      rcases A with _ | ⟨a, _ | ⟨b, A⟩⟩ <;> simp at e) (by
      intro A l s r e1 e2
      rcases A with _ | ⟨a, A⟩
      · simp only [List.nil_append, List.cons.injEq, Sum.inl.injEq, and_true] at e1 e2
        obtain ⟨rfl, -⟩ := e2
        subst e1
        decide
      · simp at e1)
/-- `{"a": 1, "b": 2}` has width 14. -/
example : memberWidth [({ bytes := b%"\"a\"", type := .str }, small b%"1"), ({ bytes := b%"\"b\"", type := .str }, small b%"2")] = 14 := by decide
example : width [small b%"95", small b%"87", small b%"92"] = 10 := by decide

end Enc
end Verif
