import Verif.EncCut
import Verif.PromptSpec
import Verif.Props.C31

/-!
# `split` in the middle of an array
-/

namespace Verif
open AState IProg JPath JVal.toks

/-- A loop over a stream of which the last value is cut off. -/
theorem forEach_cut {ε β : Type} {body : β → Option Scalar → Val → IProg ε β} (out : β → Option Scalar → JVal → List ε) (nxt : β → Option Scalar → JVal → β)
    (vs : List JVal) {w : JVal} {cl ts : List Token} (hv : ∀ k, w ≠ .scalar k) (hw : w.toks = ts ++ cl) (hcl : cl ≠ []) (f : Nat) (hf : vs.length < f) (b : β)
    (hbody : ∀ v ∈ vs, ∀ b, Visits (body b none) v (out b none v) (nxt b none v)) {o : List ε}
    (hcut : CutB (body (foldOut out nxt b (vs.map (none, ·))).2 none) w cl o) (c : List Token) :
    ∃ p' h', Reach Heap.mach (forEach body 0 f b) (Heap.init (streamToks vs ++ ts ++ c)) ((foldOut out nxt b (vs.map (none, ·))).1 ++ o) p' h' ∧ c <:+ h'.st.src := by
  obtain ⟨g, rfl⟩ : ∃ g, f = vs.length + (g + 1) := ⟨f - vs.length - 1, by omega⟩
  have hl0 : Loop (AState.init (vs ++ [w])) 1 0 [] .top ((vs ++ [w]).map (none, ·)) := ⟨wf_init _, before_init _, rfl, .root⟩
  rw [List.map_append] at hl0
  obtain ⟨p', s', l', e1, e2, e3⟩ := forEach_last out nxt (vs.map (none, ·)) hv g (AState.init (vs ++ [w])) b hl0 (by
      intro m hm b
      simp only [List.mem_map] at hm
      obtain ⟨v, hv, rfl⟩ := hm
      exact hbody v hv b) hcut
  rw [List.length_map] at e1
  obtain ⟨h', r1, r2⟩ := e1.heap (ISim.init_sim _)
  have hs := e2.src r2
  have hcl' : cl <:+ h'.st.src := by
    refine List.IsSuffix.trans ?_ hs
    simpa [endToks, frames] using e3
  rw [streamToks_append, show streamToks [w] = w.toks by simp [streamToks], hw, ← List.append_assoc] at r1
  obtain ⟨h1', q1, q2⟩ := Reach.swap hcl r1 hcl' c
  exact ⟨p', h1', q1, q2⟩

private theorem flatMap_toks : ∀ l : List JVal, (l.flatMap fun v => v.toks) = streamToks l
  | [] => rfl
  | v :: l => by simp [flatMap_toks l]

private theorem flatMap_parts : ∀ l : List JVal, (l.flatMap fun v => streamToks v.parts) = streamToks (l.flatMap JVal.parts)
  | [] => rfl
  | v :: l => by rw [List.flatMap_cons, List.flatMap_cons, streamToks_append, flatMap_parts l]

/-- The transform `split`, run on an input that starts with the tokens `ts`, writes the tokens `out` before it reads the token after `ts`, whatever that is
and whether or not there is one. -/
def Splits (ts out : List Token) : Prop :=
  ∃ F, ∀ f, F ≤ f → ∀ c, ∃ p' h', Reach Heap.mach (transformAll (explodeArray f) f) (Heap.init (ts ++ c)) out p' h' ∧ c <:+ h'.st.src

theorem explodeArray_leaf {items : List JVal} {f : Nat} (hf : items.length ≤ f) : CutB (explodeArray f) (.arr items false) [.endArr] (streamToks items) := by
  intro s k i l hw hfr ht hs
  obtain ⟨rfl, -⟩ := hfr.before rfl
  obtain ⟨g, rfl⟩ : ∃ g, f = (items.map fun v => ((none : Option Scalar), v)).length + g := ⟨f - items.length, by simp; omega⟩
  obtain ⟨s', h1, h2, h3⟩ := forEach_all (body := fun (_ : Unit) _ x => copyOut x) (fun _ _ v => v.toks) (fun _ _ _ => ()) (items.map (none, ·)) [] g s ()
    (by have := Loop.init hw hfr ht hs rfl; rw [List.append_nil]; exact this) (fun m _ _ => copyOut_visits m.2)
  rw [foldOut_const (fun _ v => v.toks)] at h1
  refine ⟨forEach (fun (_ : Unit) _ x => copyOut x) i g (), s', i :: l, ?_, h2.spine, ?_⟩
  · have e : (items.map fun v => ((none : Option Scalar), v)).flatMap (fun m => m.2.toks) = streamToks items := by
      rw [List.flatMap_map]
      exact flatMap_toks items
    rw [← e]
    exact h1
  · rw [h2.todo, frames_same h3]
    simp [bodyToks, endToks, JVal.kind]

theorem splits_cut (vs l : List JVal) : Splits (streamToks vs ++ .startArr :: itemToks l) (streamToks (vs.flatMap JVal.parts ++ l)) := by
  refine ⟨(streamToks (vs ++ [.arr l false])).length + 1, fun f hf c => ?_⟩
  have hb := streamToks_bound (vs ++ [.arr l false])
  have hl := hb.2 (.arr l false) (by simp)
  have hi := itemToks_bound l
  simp only [JVal.toks, List.length_cons, List.length_append] at hl
  obtain ⟨p', h', e1, e2⟩ := forEach_cut (body := fun (_ : Unit) _ x => explodeArray f x) (fun _ _ v => streamToks v.parts) (fun _ _ _ => ()) vs (w := .arr l false) (cl := [.endArr])
    (ts := .startArr :: itemToks l) (by simp) (by simp [JVal.toks, elisionToks]) (by simp) f (by have := hb.1; simp at this; omega) ()
    (fun v hv _ => explodeArray_visits v f (by have := hb.2 v (by simp [hv]); omega)) (explodeArray_leaf (by omega)) c
  refine ⟨p', h', ?_, e2⟩
  rw [foldOut_const (fun _ v => streamToks v.parts)] at e1
  have e : (vs.map fun v => ((none : Option Scalar), v)).flatMap (fun m => streamToks m.2.parts) ++ streamToks l = streamToks (vs.flatMap JVal.parts ++ l) := by
    rw [List.flatMap_map, streamToks_append, ← flatMap_parts]
  rw [← e]
  exact e1

end Verif
