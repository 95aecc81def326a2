import Verif.HeapLocal
import Verif.JsonLayout
import Verif.JpvLayout

/-!
# Encoders write a value before they read on
-/

namespace Verif
open AState IProg

/-- A loop over the input that has dealt with the first values. -/
theorem forEach_reach {ε β : Type} {body : β → Option Scalar → Val → IProg ε β}
    (out : β → Option Scalar → JVal → List ε) (nxt : β → Option Scalar → JVal → β) {n0 i k e} :
    ∀ (rest more : List (Option Scalar × JVal)) (f : Nat) (s : AState) (b : β), Links s → Before s n0 i k (rest ++ more) e →
      (∀ m ∈ rest, ∀ b, Visits (body b m.1) m.2 (out b m.1 m.2) (nxt b m.1 m.2)) →
      ∃ s', Reach AState.mach (forEach body i (rest.length + f) b) s (foldOut out nxt b rest).1 (forEach body i f (foldOut out nxt b rest).2) s' ∧
        Links s' ∧ Before s' n0 i k more e := by
  intro rest
  induction rest with
  | nil =>
    intro more f s b hl hb _
    refine ⟨s, ?_, hl, hb⟩
    rw [List.length_nil, Nat.zero_add]
    exact .refl _ _
  | cons m rest ih =>
    intro more f s b hl hb hbody
    obtain ⟨key, v⟩ := m
    obtain ⟨s1, x, e1, e2, e3, e4, e5, e6, e7, e8, e9⟩ := adv_cons hl hb
    obtain ⟨s2, g1, g2, g3⟩ := hbody (key, v) List.mem_cons_self b s1 x e2 e7
    have hx : some i ≠ x.idx := by
      intro e
      have := e8 i e.symm
      have := hb.lt
      omega
    obtain ⟨s3, k1, k2, k3⟩ := ih more f s2 (nxt b key v) g2 (e3.keep g3 e3.lt hx) (fun m hm => hbody m (List.mem_cons_of_mem _ hm))
    refine ⟨s3, ?_, k2, k3⟩
    rw [show ((key, v) :: rest).length + f = (rest.length + f) + 1 from by simp; omega]
    simp only [forEach, foldOut]
    refine .op e1 ?_
    simp only [if_true]
    refine .op (current_ok e3) ?_
    simp only [e6, e5]
    exact (Reach.of_run_bind g1 _).trans k1

/-- The same, run on the implementation; nothing of what follows has been read. -/
theorem forEach_prompt {ε β : Type} {body : β → Option Scalar → Val → IProg ε β}
    (out : β → Option Scalar → JVal → List ε) (nxt : β → Option Scalar → JVal → β) (vs : List JVal) (f : Nat) (b : β)
    (hbody : ∀ v ∈ vs, ∀ b, Visits (body b none) v (out b none v) (nxt b none v)) (c : List Token) :
    ∃ h', Reach Heap.mach (forEach body 0 (vs.length + f) b) (Heap.init (streamToks vs ++ c)) (foldOut out nxt b (vs.map (none, ·))).1
      (forEach body 0 f (foldOut out nxt b (vs.map (none, ·))).2) h' ∧ c <:+ h'.st.src := by
  let w : JVal := .arr [] false
  obtain ⟨s', e1, e2, e3⟩ := forEach_reach out nxt (n0 := 1) (i := 0) (k := .top) (e := false) (vs.map (none, ·)) [(none, w)] f (AState.init (vs ++ [w])) b (links_init _)
    (by have := before_init (vs ++ [w]); rwa [List.map_append] at this)
    (by
      intro m hm b
      simp only [List.mem_map] at hm
      obtain ⟨v, hv, rfl⟩ := hm
      exact hbody v hv b)
  rw [List.length_map] at e1
  obtain ⟨h', r1, r2⟩ := e1.heap (ISim.init_sim _)
  have hs := Spine.root.src r2
  have : frames s' [0] = w.toks := by
    simp only [frames, List.flatMap_cons, List.flatMap_nil, List.append_nil, frame, e3.kind, e3.rest, e3.e]
    rfl
  rw [this] at hs
  rw [streamToks_append] at r1
  refine Reach.swap (b := w.toks) (by simp [w, JVal.toks]) ?_ hs c
  simpa [streamToks] using r1

namespace Enc

/-- The JSON encoder. -/
theorem consume_prompt (cfg : EncCfg) (vs : List JVal) (f : Nat) (hf : (streamToks vs).length ≤ f) (c : List Token) :
    ∃ p' h', Reach Heap.mach (consume cfg f) (Heap.init (streamToks vs ++ c)) (layoutAll cfg vs) p' h' ∧ c <:+ h'.st.src := by
  have hb := streamToks_bound vs
  obtain ⟨g, hg⟩ : ∃ g, f = vs.length + g := ⟨f - vs.length, by omega⟩
  obtain ⟨h', e1, e2⟩ := forEach_prompt (body := fun (_ : Unit) _ x => (writeValue cfg f x).bind fun _ => put .reset)
    (fun _ _ v => layout cfg v ++ [.reset]) (fun _ _ _ => ()) vs g () (by
      intro v hv b s x hl hfr
      obtain ⟨s', g1, g2, g3⟩ := writeValue_visits cfg f v (by have := hb.2 v hv; omega) s x hl hfr
      refine ⟨s', ?_, g2, g3⟩
      rw [run_ok_bind g1]
      simp [run_put]) c
  rw [foldOut_const (fun _ v => layout cfg v ++ [POp.reset]), ← hg] at e1
  exact ⟨_, h', by simpa [layoutAll, List.flatMap_map, consume] using e1, e2⟩

end Enc

namespace JEnc

/-- The JPV encoder. -/
theorem consume_prompt (cfg : JEncCfg) (vs : List JVal) (hk : ∀ v ∈ vs, KeysOk v) (f : Nat) (hf : (streamToks vs).length ≤ f) (c : List Token) :
    ∃ p' h', Reach Heap.mach (consume cfg f) (Heap.init (streamToks vs ++ c)) (layAll cfg vs) p' h' ∧ c <:+ h'.st.src := by
  have hb := streamToks_bound vs
  obtain ⟨g, hg⟩ : ∃ g, f = vs.length + g := ⟨f - vs.length, by omega⟩
  obtain ⟨h', e1, e2⟩ := forEach_prompt (body := fun (_ : Unit) _ x => (writeValue cfg f [] x).bind fun _ => put .reset)
    (fun _ _ v => lay cfg [] v ++ [.reset]) (fun _ _ _ => ()) vs g () (by
      intro v hv b s x hl hfr
      obtain ⟨s', g1, g2, g3⟩ := writeValue_visits cfg f v (by have := hb.2 v hv; omega) (hk v hv) [] (by simp) s x hl hfr
      refine ⟨s', ?_, g2, g3⟩
      rw [run_ok_bind g1]
      simp [run_put]) c
  rw [foldOut_const (fun _ v => lay cfg [] v ++ [POp.reset]), ← hg] at e1
  exact ⟨_, h', by simpa [layAll, List.flatMap_map, consume] using e1, e2⟩

end JEnc
end Verif
