import Verif.PathCtx

/-!
# The main query

What a query writes for a stream of values.
-/

set_option linter.unusedSimpArgs false
set_option linter.unusedVariables false

namespace Verif

namespace AState

theorem Root.mod {F : Nat → Prop} {s s' : AState} {rt} (h : Root s rt) (hm : Mod F s s') (hF : ¬ F 0) : Root s' rt := by
  have hc := hm.eff.coll 0 h.n hF
  refine ⟨Nat.lt_of_lt_of_le h.n hm.n, Nat.lt_of_lt_of_le h.nt hm.eff.nt, ?_, ?_, by rw [hc]; exact h.kind, by rw [hc]; exact h.thr, by rw [hc]; exact h.done,
    by rw [hc]; exact h.elided, by rw [hc]; exact h.rest, by rw [hc]; exact h.e⟩
  · rw [hm.eff.dead 0 h.nt (fun e => hF (e 0 h.n h.thr))]; exact h.dead
  · rw [hm.eff.det 0 h.nt]; exact h.det

end AState

namespace JPath
open AState IProg GoJson Rfc9535

/-- The order of the nodes that the segment gives is that of the specification. -/
def Segment.Exact (strict : Bool) : Segment → Prop
  | .mk desc sels => desc = false ∨ strict = true ∧ sels.length ≤ 1

theorem exact_spec {re : Sem} {root : JVal} {strict : Bool} {segs : List Segment} (h : ∀ s ∈ segs, s.Exact strict) :
    ∀ s ∈ segs.map (segSpec re root), JPath.Exact strict s := by
  intro s hs
  obtain ⟨s, hm, rfl⟩ := List.mem_map.1 hs
  have := h s hm
  obtain ⟨d, sels⟩ := s
  simpa [segSpec, Segment.Exact, JPath.Exact] using this

theorem writeFin_ok {G : JVal → Prop} : FinOk (fun o _ q' => o = streamToks q') G writeFin (fun (acc : List JVal) v => (acc ++ [v], true)) := by
  intro s x v acc q q' hw hx hv hR
  obtain ⟨s', e1, e2⟩ := copy_mod hw hx
  refine ⟨s', v.toks, (), ?_, ?_, e2⟩
  · unfold writeFin
    rw [arun_op e1, run_putAll_bind]
    simp [IProg.run]
  · show acc ++ v.toks = streamToks (q' ++ [v])
    rw [hR, streamToks_append]
    simp [streamToks]

/-- What is assumed of a value: its numbers, strings and member names are valid, the query is safe for it, and loops have enough fuel. -/
structure Fit (lib : Lib) (re : Sem) (S : Bytes → Prop) (q : Query) (fuel : Nat) (root : JVal) : Prop where
  input : Input S fuel root
  safe : safeSegs lib re S root q.segs
  tables : ∀ tab r, compileSegs {} q.segs = some (tab, r) → ∀ e ∈ tab.queries, (nodes re root e.1 root).length < fuel

section
variable {lib : Lib} {re : Sem} {S : Bytes → Prop} {q : Query} {fuel : Nat} {root : JVal} {strict : Bool} {r : MainR}

/-- The context of a query. -/
theorem context_run {tab : Tables} (hI : Input S fuel root) (hE : Entries lib re S root tab) (main : List SegR)
    (hT : ∀ e ∈ tab.queries, (nodes re root e.1 root).length < fuel) {s : AState} {x : Val} (hw : WF s) (hx : Fresh s x root) :
    ∃ s' ctx ws Ls, (runContext lib strict fuel ⟨main, tab.sing, tab.queries.map (·.2)⟩ x : IProg Token _).run AState.mach s = ([], .ok (s', ctx)) ∧
      Mod (fun j => x.idx = some j) s s' ∧ Fresh s' x root ∧ CtxJ s.n ctx ws Ls s' ∧
      Covers ctx.C (CtxJ s.n ctx ws Ls) re root ⟨lib, strict, fuel, ctx⟩ tab := by
  by_cases h : IsColl root
  · exact runContext_run hI h hE main hT hw hx
  · have h1 : tab.sing = [] := List.eq_nil_iff_forall_not_mem.2 fun a ha => h (hE.sing a ha).2.1
    have h2 : tab.queries = [] := by
      cases hq : tab.queries with
      | nil => rfl
      | cons a l => exact absurd (hE.queries 0 a.1 a.2 (by rw [hq]; rfl)).1 h
    refine ⟨s, ⟨[], []⟩, [], [], by rw [h1, h2]; rfl, .refl hw, hx, ⟨.nil, .nil⟩, ⟨?_, ?_⟩⟩
    · intro i segs hi; rw [h1] at hi; simp at hi
    · intro i segs r hi; rw [h2] at hi; simp at hi

theorem runValue_run (hF : Fit lib re S q fuel root) (hc : compileQuery q = some r) {s : AState} {x : Val} (hw : WF s) (hx : Fresh s x root) :
    ∃ s' L, (runValue lib strict fuel r x).run AState.mach s = (streamToks L, .ok (s', ())) ∧ Mod (fun j => x.idx = some j) s s' ∧
      L.Perm (nodes re root q.segs root) ∧ ((∀ seg ∈ q.segs, seg.Exact strict) → L = nodes re root q.segs root) := by
  have hI := hF.input
  simp only [compileQuery, Option.map_eq_some_iff] at hc
  obtain ⟨⟨tab, main⟩, hc, rfl⟩ := hc
  have hE : Entries lib re S root tab :=
    (compileSegs_grows (lib := lib) (re := re) (S := S) (root := root) hc).2 hF.safe ⟨fun _ h => (by cases h), fun k _ _ h => (by cases h)⟩
  simp only
  obtain ⟨s1, ctx, ws, Ls, e1, e2, e3, e4, e5⟩ := context_run (strict := strict) hI hE main (hF.tables tab main hc) hw hx
  have hFr := ctx_frame s.n ctx ws Ls
  have hrel := compileSegs_ok (ε := Token) (e := ⟨lib, strict, fuel, ctx⟩) hFr hI hc hF.safe e5
  obtain ⟨N, hN, hrun⟩ := query_run hFr hI.closed (e := ⟨lib, strict, fuel, ctx⟩) (fun v hv => hI.fuel hv) hrel _ _ writeFin _ _ writeFin_ok
  obtain ⟨s2, o, q1, g1, g2, g3⟩ := hrun s1 x root [] () [] e2.wf e4 e3 (desc_self root) (fun j hj hc => by
    have := (e4.ge j hc).1; have := hx.lt j hj; omega) rfl (.inl (by rw [collect_floop]))
  rw [collect_floop] at g1 g2
  simp only [List.nil_append] at g2
  subst g2
  obtain ⟨d, hd⟩ := hI.den
  have hspec := nodes_spec re root (safeSegs_ok hF.safe) hd hI.max
  refine ⟨s2, N root, ?_, e2.trans g3 (fun _ _ h => h), ?_, ?_⟩
  · unfold runValue
    rw [run_ok_bind e1, queryP, run_ok_bind g1]
    simp [IProg.run]
  · rw [← hspec]; exact (hN root (desc_self root)).1
  · intro h
    rw [← hspec]; exact (hN root (desc_self root)).2 (exact_spec h)

/-- What the query writes for a value has the property. -/
def ValueOk (lib : Lib) (strict : Bool) (fuel : Nat) (r : MainR) (R : JVal → List JVal → Prop) (v : JVal) : Prop :=
  ∀ (s : AState) (x : Val), WF s → Fresh s x v →
    ∃ s' L, (runValue lib strict fuel r x).run AState.mach s = (streamToks L, .ok (s', ())) ∧ Mod (fun j => x.idx = some j) s s' ∧ R v L

theorem runQuery_run' {R : JVal → List JVal → Prop} : ∀ (vs : List JVal) (f : Nat) (s : AState), (∀ v ∈ vs, ValueOk lib strict fuel r R v) → vs.length < f → WF s →
    Root s (vs.map (none, ·)) →
    ∃ s' Ls, (runQuery lib strict fuel r f).run AState.mach s = (streamToks Ls.flatten, .ok (s', ())) ∧
      Rel2 R vs Ls := by
  intro vs
  induction vs with
  | nil =>
    intro f s hF hf hw hr
    obtain ⟨f, rfl⟩ : ∃ g, f = g + 1 := ⟨f - 1, by simp at hf; omega⟩
    obtain ⟨s', e1, -, -⟩ := hr.end hw
    refine ⟨s', [], ?_, .nil⟩
    rw [runQuery, arun_op e1]
    rfl
  | cons v vs ih =>
    intro f s hF hf hw hr
    obtain ⟨f, rfl⟩ : ∃ g, f = g + 1 := ⟨f - 1, by simp at hf; omega⟩
    obtain ⟨s1, x, e1, e2, e3, e4, e5, e6⟩ := hr.next hw
    obtain ⟨s2, L, g1, g2, g3⟩ := hF v List.mem_cons_self s1 x e4 e5
    obtain ⟨s3, Ls, k1, k2⟩ := ih f s2 (fun w hw => hF w (List.mem_cons_of_mem _ hw)) (by simp at hf; omega) g2.wf
      (e3.mod g2 (fun h => by have := e6 0 h; have := hr.n; omega))
    refine ⟨s3, L :: Ls, ?_, .cons g3 k2⟩
    rw [runQuery, arun_op e1]
    simp only [if_true]
    rw [arun_op e2]
    simp only
    rw [run_ok_bind g1, k1, List.flatten_cons, streamToks_append]

/-- A compiled query on a stream, with the implementation of iterators. -/
theorem query_stream' {R : JVal → List JVal → Prop} {vs : List JVal} {f : Nat} (hF : ∀ v ∈ vs, ValueOk lib strict fuel r R v) (hf : vs.length < f) :
    ∃ h Ls, (runQuery lib strict fuel r f).run Heap.mach (Heap.init (streamToks vs)) = (streamToks Ls.flatten, .ok (h, ())) ∧ Rel2 R vs Ls := by
  obtain ⟨s, Ls, e1, e2⟩ := runQuery_run' (strict := strict) vs f (AState.init vs) hF hf (wf_init vs) (root_init vs)
  obtain ⟨h, e⟩ := top_run e1
  exact ⟨h, Ls, e, e2⟩

/-- A compiled query on a stream, with the implementation of iterators. -/
theorem query_stream (hc : compileQuery q = some r) {vs : List JVal} {f : Nat} (hF : ∀ v ∈ vs, Fit lib re S q fuel v) (hf : vs.length < f) :
    ∃ h Ls, (runQuery lib strict fuel r f).run Heap.mach (Heap.init (streamToks vs)) = (streamToks Ls.flatten, .ok (h, ())) ∧
      Rel2 (fun v L => L.Perm (nodes re v q.segs v) ∧ ((∀ seg ∈ q.segs, seg.Exact strict) → L = nodes re v q.segs v)) vs Ls := by
  exact query_stream' (fun v hv s x hw hx => runValue_run (hF v hv) hc hw hx) hf

end

end JPath
end Verif
