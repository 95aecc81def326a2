import Verif.JsonRound

/-!
# The JSON encoder does not use the hints of scalars
-/

set_option linter.unusedSimpArgs false

namespace Verif.Enc
open EncSpec

/-- An item with other hints. -/
def hintIt (f : Scalar → Scalar) : It → It
  | .inl s => .inl (f s)
  | .inr l => .inr l

section
variable {f : Scalar → Scalar} (hf : ∀ s, forgetFlags (f s) = forgetFlags s)
include hf

theorem hint_bytes (s : Scalar) : (f s).bytes = s.bytes := show (forgetFlags (f s)).bytes = (forgetFlags s).bytes by rw [hf]

theorem hint_print (c : Option Colorizer) (s : Scalar) : printScalar c (f s) = printScalar c s := by
  have h1 := hint_bytes hf s
  have h2 : (f s).type = s.type := show (forgetFlags (f s)).type = (forgetFlags s).type by rw [hf]
  have h3 : (f s).key = s.key := show (forgetFlags (f s)).key = (forgetFlags s).key by rw [hf]
  cases c with
  | none => simp [printScalar, h1]
  | some c => simp [printScalar, Colorizer.code, h1, h2, h3]

theorem hint_ops (c : Option Colorizer) (x : It) : (hintIt f x).ops c = x.ops c := by
  cases x with
  | inl s => exact hint_print hf c s
  | inr l => rfl

theorem hint_fits (cfg : EncCfg) : ∀ (ms : List (Scalar × It)) (n : Nat) (w : Int),
    fits cfg n w (ms.map fun m => (f m.1, hintIt f m.2)) = fits cfg n w ms
  | [], _, _ => rfl
  | (k, .inl s) :: ms, n, w => by
    rw [List.map_cons, show hintIt f (.inl s) = .inl (f s) from rfl, fits, fits, hint_bytes hf, hint_bytes hf]
    simp only [hint_fits cfg ms]
  | (k, .inr s) :: ms, n, w => rfl

theorem hint_obj (cfg : EncCfg) (ms : List (Scalar × It)) (e : Bool) : layObj cfg (ms.map fun m => (f m.1, hintIt f m.2)) e = layObj cfg ms e := by
  unfold layObj
  rw [hint_fits hf, List.map_map]
  have : memberOps cfg.color ∘ (fun m => (f m.1, hintIt f m.2)) = memberOps cfg.color := by
    funext m
    simp only [Function.comp_apply, memberOps, hint_print hf, hint_ops hf]
  rw [this]

theorem hint_line (c : Option Colorizer) (l : List Scalar) : lineOps c (l.map f) = lineOps c l := by
  unfold lineOps
  rw [List.map_map, show printScalar c ∘ f = printScalar c from funext fun s => hint_print hf c s]

theorem hint_fold (cfg : EncCfg) : ∀ (l : List It) (its : List Scalar) (w : Int) (fst : Bool),
    (acFold cfg ⟨its.map f, w, fst⟩ (l.map (hintIt f))).1 = (acFold cfg ⟨its, w, fst⟩ l).1 ∧
      ∃ its' w' fst', (acFold cfg ⟨its, w, fst⟩ l).2 = ⟨its', w', fst'⟩ ∧ (acFold cfg ⟨its.map f, w, fst⟩ (l.map (hintIt f))).2 = ⟨its'.map f, w', fst'⟩
  | [], its, w, fst => ⟨rfl, its, w, fst, rfl, rfl⟩
  | x :: l, its, w, fst => by
    have h1 : acOut cfg ⟨its.map f, w, fst⟩ (hintIt f x) = acOut cfg ⟨its, w, fst⟩ x := by
      cases x with
      | inl s => simp only [hintIt, acOut, hint_bytes hf, hint_print hf, hint_line hf, List.map_eq_nil_iff]
      | inr k => simp only [hintIt, acOut, hint_line hf, List.map_eq_nil_iff]
    have h2 : ∃ its' w' fst', acNext cfg ⟨its, w, fst⟩ x = ⟨its', w', fst'⟩ ∧ acNext cfg ⟨its.map f, w, fst⟩ (hintIt f x) = ⟨its'.map f, w', fst'⟩ := by
      cases x with
      | inl s =>
        simp only [hintIt, acNext, hint_bytes hf, List.map_eq_nil_iff]
        split
        · exact ⟨_, _, _, rfl, by simp⟩
        · split
          · exact ⟨[], _, _, rfl, rfl⟩
          · split
            · exact ⟨[s], _, _, rfl, rfl⟩
            · exact ⟨[], _, _, rfl, rfl⟩
      | inr k =>
        simp only [hintIt, acNext, List.map_eq_nil_iff]
        split
        · exact ⟨[], _, _, rfl, rfl⟩
        · exact ⟨[], _, _, rfl, rfl⟩
    obtain ⟨i, w', b, e1, e2⟩ := h2
    obtain ⟨h3, h4⟩ := hint_fold cfg l i w' b
    simp only [List.map_cons, acFold, h1, e1, e2, h3]
    exact ⟨trivial, h4⟩

theorem hint_arr (cfg : EncCfg) (l : List It) (e : Bool) : layArr cfg (l.map (hintIt f)) e = layArr cfg l e := by
  unfold layArr
  split
  · obtain ⟨h1, i, w, b, h2, h3⟩ := hint_fold hf cfg l [] (-2) true
    unfold layArrCompact
    rw [List.map_nil] at h1 h3
    simp only [h1, h2, h3, hint_line hf, List.map_eq_nil_iff]
  · rw [List.map_map, show It.ops cfg.color ∘ hintIt f = It.ops cfg.color from funext fun s => hint_ops hf _ s]

theorem hint_it (cfg : EncCfg) (v : JVal) : it cfg (mapScalars f v) = hintIt f (it cfg v) := by
  induction v using JVal.induct with
  | scalar s => simp [hintIt]
  | arr l e ih =>
    have : l.map (it cfg ∘ mapScalars f) = l.map (hintIt f ∘ it cfg) := List.map_congr_left fun v hv => ih v hv
    rw [mapScalars_arr, it_arr, it_arr, hintIt, List.map_map, this, ← List.map_map, hint_arr hf]
  | obj l e ih =>
    have : l.map ((fun m => (m.1, it cfg m.2)) ∘ fun m => (f m.1, mapScalars f m.2)) = l.map ((fun m => (f m.1, hintIt f m.2)) ∘ fun m => (m.1, it cfg m.2)) :=
      List.map_congr_left fun m hm => by simp only [Function.comp_apply, ih m hm]
    rw [mapScalars_obj, it_obj, it_obj, hintIt, List.map_map, this, ← List.map_map, hint_obj hf]

/-- The output does not depend on the hints. -/
theorem hint_layout (cfg : EncCfg) (vs : List JVal) : layoutAll cfg (vs.map (mapScalars f)) = layoutAll cfg vs := by
  unfold layoutAll
  rw [List.flatMap_map]
  congr 1
  funext v
  rw [layout, hint_it hf, hint_ops hf, layout]

end

end Verif.Enc
