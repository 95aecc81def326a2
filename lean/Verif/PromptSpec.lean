import Verif.PathPrompt
import Verif.PathOut
import Verif.HeapLocal

/-!
# Inputs of which the end has not come yet
-/

namespace Verif
open JVal JVal.toks AState IProg

/-- The first tokens `ts` of a value that is cut off in an array or object `d` levels down, after a complete item or member.  The value is what it would be
if all arrays and objects ended there. -/
inductive Cut : Nat → JVal → List Token → Prop
  | arr {l} : Cut 0 (.arr l false) (.startArr :: itemToks l)
  | obj {l} : Cut 0 (.obj l false) (.startObj :: memberToks l)
  | item {d l v ts} : Cut d v ts → Cut (d + 1) (.arr (l ++ [v]) false) (.startArr :: (itemToks l ++ ts))
  | member {d l k v ts} : Cut d v ts → Cut (d + 1) (.obj (l ++ [(k, v)]) false) (.startObj :: (memberToks l ++ .scalar k :: ts))

/-- What is missing are the ends. -/
theorem Cut.cutV {d w ts} (h : Cut d w ts) : ∃ cl, JPath.CutV d w cl ∧ w.toks = ts ++ cl ∧ cl ≠ [] := by
  induction h with
  | arr => exact ⟨_, .leaf (by simp) rfl, by simp [JVal.toks, JVal.kind, endToks, elisionToks], by simp [JVal.kind, endToks]⟩
  | obj => exact ⟨_, .leaf (by simp) rfl, by simp [JVal.toks, JVal.kind, endToks, elisionToks], by simp [JVal.kind, endToks]⟩
  | @item d l v ts _ ih =>
    obtain ⟨cl, h1, h2, h3⟩ := ih
    refine ⟨_, .inn (l := l.map (none, ·)) (m := (none, v)) (by simp) rfl (by simp [JVal.members]) h1, ?_, by simp [h3]⟩
    simp [JVal.toks, JVal.kind, endToks, elisionToks, itemToks_append, itemToks, h2]
  | @member d l k v ts _ ih =>
    obtain ⟨cl, h1, h2, h3⟩ := ih
    refine ⟨_, .inn (l := l.map fun m => (some m.1, m.2)) (m := (some k, v)) (by simp) rfl (by simp [JVal.members]) h1, ?_, by simp [h3]⟩
    simp [JVal.toks, JVal.kind, endToks, elisionToks, memberToks_append, memberToks, h2]

namespace JPath

/-- The compiled query, run on an input that starts with the tokens `ts`, writes the tokens `out` before it reads the token after `ts`, whatever that is
and whether or not there is one.  (Fuel is for termination only.) -/
def Writes (lib : Lib) (strict : Bool) (q : Query) (ts out : List Token) : Prop :=
  ∃ r, compileQuery q = some r ∧ ∃ F, ∀ fuel, F ≤ fuel → ∀ c, ∃ p' h',
    Reach Heap.mach (runQuery lib strict fuel r fuel) (Heap.init (ts ++ c)) out p' h' ∧ c <:+ h'.st.src

/-- It stays written. -/
theorem Writes.outcome {lib : Lib} {strict : Bool} {q : Query} {ts out : List Token} (h : Writes lib strict q ts out) {c out' : List Token} {e : Except Stop Unit}
    (ho : Outcome lib strict q (ts ++ c) out' e) : out <+: out' := by
  obtain ⟨r, hr, F, h⟩ := h
  obtain ⟨h1, r', hr', f, h3, h4⟩ := ho
  rw [hr] at hr'
  cases hr'
  have n1 : ((runQuery lib strict f r f).run Heap.mach (Heap.init (ts ++ c))).2 ≠ .error .fuel := by
    intro h; rw [h] at h4; exact h1 h4.symm
  have := runQuery_more Heap.mach (Heap.init (ts ++ c)) lib strict r (Nat.le_max_left f F) (Nat.le_max_left f F) n1
  obtain ⟨p', h', e1, -⟩ := h (max f F) (Nat.le_max_right f F) c
  have e2 := e1.isPrefix
  rw [this, h3] at e2
  exact e2

section
variable {lib : Lib} {re : Rfc9535.Sem} {S : Bytes → Prop} {q : Query} {strict : Bool}

theorem streamToks_perm {l l' : List JVal} (h : l.Perm l') : (streamToks l).length = (streamToks l').length := by
  induction h with
  | nil => rfl
  | cons x _ ih => simp [streamToks] at ih ⊢; omega
  | swap x y l => simp [streamToks]; omega
  | trans _ _ h1 h2 => omega

theorem writes_cut (hl : localSegs q.segs = true) (hc : (compileQuery q).isSome = true) {d : Nat} (hp : Prompt strict d q.segs) {vs : List JVal} {w : JVal}
    (h : ∀ v ∈ vs ++ [w], Plain lib re S q v) {d' : Nat} (hd : d' ≤ d) {ts : List Token} (hcut : Cut d' w ts) :
    ∃ Ls, Writes lib strict q (streamToks vs ++ ts) (streamToks Ls.flatten) ∧
      Rel2 (fun v L => L.Perm (Rfc9535.nodes re v q.segs v) ∧ ((∀ seg ∈ q.segs, seg.Exact strict) → L = Rfc9535.nodes re v q.segs v)) (vs ++ [w]) Ls := by
  obtain ⟨Ls, o1, o2⟩ := outcome_stream (strict := strict) hc h
  refine ⟨Ls, ?_, o2⟩
  obtain ⟨F, hF⟩ := bound_all (fun v n => ∀ fuel, n ≤ fuel → Fit lib re S q fuel v) (fun _ _ _ h h' fuel hf => h fuel (by omega)) _ fun v hv => (h v hv).fit
  obtain ⟨-, r, hr, f0, o3, o4⟩ := o1
  refine ⟨r, hr, F + vs.length + 1 + f0, fun fuel hf c => ?_⟩
  obtain ⟨cl, c1, c2, c3⟩ := hcut.cutV
  obtain ⟨Ls', L', p', h', e1, e2, e3, e4, e5⟩ := query_cut (strict := strict) (fuel := fuel) (f := fuel) hl hr hp (vs := vs) (w := w) (fun v hv => hF v (by simp [hv]) _ (by omega))
    (hF w (by simp) _ (by omega)) (by omega) hd c1
  have n1 : ((runQuery lib strict f0 r f0).run Heap.mach (Heap.init (streamToks (vs ++ [w])))).2 ≠ .error .fuel := by
    intro h; rw [h] at o4; cases o4
  have hm := runQuery_more Heap.mach (Heap.init (streamToks (vs ++ [w]))) lib strict r (by omega : f0 ≤ fuel) (by omega : f0 ≤ fuel) n1
  have hpre := e1.isPrefix
  rw [hm, o3] at hpre
  have hlen : (streamToks (Ls'.flatten ++ L')).length = (streamToks Ls.flatten).length := by
    refine streamToks_perm ?_
    have p1 := rel2_perm (f := fun v => Rfc9535.nodes re v q.segs v) (rel2_imp o2 fun v L h => h.1)
    have p2 := rel2_perm (f := fun v => Rfc9535.nodes re v q.segs v) (rel2_imp e3 fun v L h => h.1)
    rw [List.flatMap_append] at p1
    refine List.Perm.trans (p2.append e4) ?_
    simpa using p1.symm
  rw [hpre.eq_of_length hlen] at e1
  rw [streamToks_append, show streamToks [w] = w.toks by simp [streamToks], c2, ← List.append_assoc] at e1
  obtain ⟨h1', k1, k2⟩ := Reach.swap c3 e1 e2 c
  exact ⟨_, h1', k1, k2⟩

/-- Complete values. -/
theorem writes_values (hc : (compileQuery q).isSome = true) {vs : List JVal} (h : ∀ v ∈ vs, Plain lib re S q v) :
    ∃ Ls, Writes lib strict q (streamToks vs) (streamToks Ls.flatten) ∧
      Rel2 (fun v L => L.Perm (Rfc9535.nodes re v q.segs v) ∧ ((∀ seg ∈ q.segs, seg.Exact strict) → L = Rfc9535.nodes re v q.segs v)) vs Ls := by
  obtain ⟨Ls, o1, o2⟩ := outcome_stream (strict := strict) hc h
  refine ⟨Ls, ?_, o2⟩
  obtain ⟨F, hF⟩ := bound_all (fun v n => ∀ fuel, n ≤ fuel → Fit lib re S q fuel v) (fun _ _ _ h h' fuel hf => h fuel (by omega)) _ fun v hv => (h v hv).fit
  obtain ⟨-, r, hr, f0, o3, o4⟩ := o1
  refine ⟨r, hr, F + vs.length + 1 + f0, fun fuel hf c => ?_⟩
  let w : JVal := .arr [] false
  have n1 : ((runQuery lib strict f0 r f0).run Heap.mach (Heap.init (streamToks vs))).2 ≠ .error .fuel := by
    intro h; rw [h] at o4; cases o4
  have hm := runQuery_more Heap.mach (Heap.init (streamToks vs)) lib strict r (by omega : f0 ≤ fuel) (by omega : f0 ≤ fuel) n1
  obtain ⟨s1, Ls', k1, k2, k3, k4⟩ := runQuery_prefix (strict := strict) (fuel := fuel) hr vs [w] (fuel - vs.length) (AState.init (vs ++ [w])) (fun v hv => hF v hv _ (by omega))
    (wf_init _) (root_init _)
  rw [show vs.length + (fuel - vs.length) = fuel by omega] at k1
  obtain ⟨h', r1, r2⟩ := k1.heap (ISim.init_sim _)
  have hs := Spine.root.src r2
  have : frames s1 [0] = w.toks := by
    simp only [frames, List.flatMap_cons, List.flatMap_nil, List.append_nil, frame, k3.kind, k3.rest, k3.e]
    rfl
  rw [this] at hs
  rw [streamToks_append, show streamToks [w] = w.toks by simp [streamToks]] at r1
  have hsw := Reach.swap (b := w.toks) (by simp [w, JVal.toks]) r1 hs
  obtain ⟨h0, k5, -⟩ := hsw []
  have hpre := k5.isPrefix
  rw [List.append_nil, hm, o3] at hpre
  have hlen : (streamToks Ls'.flatten).length = (streamToks Ls.flatten).length := by
    refine streamToks_perm ?_
    have p1 := rel2_perm (f := fun v => Rfc9535.nodes re v q.segs v) (rel2_imp o2 fun v L h => h.1)
    have p2 := rel2_perm (f := fun v => Rfc9535.nodes re v q.segs v) (rel2_imp k4 fun v L h => h.1)
    exact p2.trans p1.symm
  rw [hpre.eq_of_length hlen] at hsw
  obtain ⟨h1', k6, k7⟩ := hsw c
  exact ⟨_, h1', k6, k7⟩

end
end JPath
end Verif
