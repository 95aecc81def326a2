import Verif.PathOut

/-!
# Slices that go backward

What a query writes if slices of its segments go backward, and all the nodes it selects are scalars.
-/

set_option linter.unusedSimpArgs false
set_option linter.unusedVariables false

namespace Verif.JPath
open AState IProg GoJson Rfc9535

/-- The selector is safe, or a slice that goes backward. -/
def SafeTop (lib : Lib) (re : Sem) (S : Bytes → Prop) (root : JVal) : Segment → Prop
  | .mk _ sels => ∀ s ∈ sels, safeSel lib re S root s ∨ SelBack s

section
variable {lib : Lib} {re : Sem} {S : Bytes → Prop} {root : JVal}

theorem SafeTop.ok {s : Segment} (h : SafeTop lib re S root s) : SegOk' s := by
  obtain ⟨d, sels⟩ := s
  exact fun s hs => (h s hs).imp safeSel_ok id

theorem topSel_grows {tab tab' : Tables} {s : Selector} {r} (h : compileSel tab s = some (tab', r)) :
    Grows lib re S root (safeSel lib re S root s ∨ SelBack s) tab tab' := by
  cases s with
  | slice a b c => simp only [compileSel, Option.some.injEq, Prod.mk.injEq] at h; rw [h.1]; exact .refl
  | _ => exact (compileSel_grows h).mono fun h => h.elim id False.elim

theorem topSels_grows : ∀ {tab tab' : Tables} {s : List Selector} {r}, compileSels tab s = some (tab', r) →
    Grows lib re S root (∀ x ∈ s, safeSel lib re S root x ∨ SelBack x) tab tab'
  | tab, tab', [], r, h => by simp only [compileSels, Option.some.injEq, Prod.mk.injEq] at h; rw [h.1]; exact .refl
  | tab, tab', s :: l, r, h => by
    simp only [compileSels, Option.bind_eq_some_iff, Option.map_eq_some_iff] at h
    obtain ⟨⟨t, x⟩, h1, ⟨t', x'⟩, h2, h3⟩ := h
    simp only [Prod.mk.injEq] at h3
    rw [← h3.1]
    exact (topSel_grows h1).trans (topSels_grows h2) (fun h => h s List.mem_cons_self) (fun h x hx => h x (List.mem_cons_of_mem _ hx))

theorem topSeg_grows {tab tab' : Tables} {s : Segment} {r} (h : compileSeg tab s = some (tab', r)) :
    Grows lib re S root (SafeTop lib re S root s) tab tab' := by
  obtain ⟨d, sels⟩ := s
  simp only [compileSeg, Option.map_eq_some_iff] at h
  obtain ⟨⟨t, x⟩, h1, h2⟩ := h
  simp only [Prod.mk.injEq] at h2
  rw [← h2.1]
  exact (topSels_grows h1).mono id

theorem topSegs_grows : ∀ {tab tab' : Tables} {s : List Segment} {r}, compileSegs tab s = some (tab', r) →
    Grows lib re S root (∀ x ∈ s, SafeTop lib re S root x) tab tab'
  | tab, tab', [], r, h => by simp only [compileSegs, Option.some.injEq, Prod.mk.injEq] at h; rw [h.1]; exact .refl
  | tab, tab', s :: l, r, h => by
    simp only [compileSegs, Option.bind_eq_some_iff, Option.map_eq_some_iff] at h
    obtain ⟨⟨t, x⟩, h1, ⟨t', x'⟩, h2, h3⟩ := h
    simp only [Prod.mk.injEq] at h3
    rw [← h3.1]
    exact (topSegs_grows h1).trans (topSeg_grows h2) (fun h x hx => h x (List.mem_cons_of_mem _ hx)) (fun h => h s List.mem_cons_self)

end

section
variable {ε : Type} {C : Nat → Prop} {J : AState → Prop} {re : Sem} {S : Bytes → Prop} {root : JVal} {e : Env}

/-- A scalar. -/
def IsScalar (v : JVal) : Prop := ∃ k, v = .scalar k

theorem compileSlice_back {G : JVal → Prop} (a b : Option Int) (c : Int) (hc : c < 0) (e : Env) :
    SelRel (ε := ε) C J G IsScalar (selR e (compileSlice a b c)) (compileSlice a b c) := by
  have key : (∀ T, compileSlice (C := T) a b c = .default) ∨ ∃ x y z, ∀ T, compileSlice (C := T) a b c = .rslice x y z := by
    unfold compileSlice
    simp only [if_neg (show ¬ c = 0 by omega), if_pos hc]
    split
    · exact .inl fun _ => rfl
    · exact .inr ⟨_, _, _, fun _ => rfl⟩
  rcases key with h | ⟨x, y, z, h⟩
  · rw [h, h, selR]; exact .default
  · rw [h, h, selR]; exact .rslice _ _ _ fun _ h => h

theorem SelRel.scalars {G : JVal → Prop} {a : Sel (CondP ε)} {b : Sel (JVal → Bool)} (h : SelRel C J G AnyVal a b) : SelRel C J G IsScalar a b := by
  cases h with
  | name n => exact .name n
  | wild => exact .wild
  | index i => exact .index i
  | slice a b c => exact .slice a b c
  | rslice a b c h => exact .rslice a b c fun v _ => h v trivial
  | default => exact .default
  | filter h => exact .filter h

theorem topSel_ok (hFr : Frame C J) (hI : Input S e.fuel root) {tab tab' : Tables} {s : Selector} {r} (h : compileSel tab s = some (tab', r))
    (hs : safeSel e.lib re S root s ∨ SelBack s) (hC : Covers C J re root e tab') :
    SelRel (ε := ε) C J (· ∈ descendants root) IsScalar (selR e r) (selSpec re root s) := by
  rcases hs with hs | hs
  · exact (compileSel_ok hFr hI h hs hC).scalars
  · cases s with
    | slice a b c =>
      simp only [compileSel, Option.some.injEq, Prod.mk.injEq] at h
      rw [← h.2]
      exact compileSlice_back a b c hs.2.2.2.1 e
    | _ => exact hs.elim

theorem topSels_ok (hFr : Frame C J) (hI : Input S e.fuel root) : ∀ {tab tab' : Tables} {s : List Selector} {r}, compileSels tab s = some (tab', r) →
    (∀ x ∈ s, safeSel e.lib re S root x ∨ SelBack x) → Covers C J re root e tab' →
    Rel2 (SelRel (ε := ε) C J (· ∈ descendants root) IsScalar) (selsR e r) (s.map (selSpec re root))
  | tab, tab', [], r, h, hs, hC => by
    simp only [compileSels, Option.some.injEq, Prod.mk.injEq] at h; rw [← h.2, selsR]; exact .nil
  | tab, tab', s :: l, r, h, hs, hC => by
    simp only [compileSels, Option.bind_eq_some_iff, Option.map_eq_some_iff] at h
    obtain ⟨⟨t, x⟩, h1, ⟨t', x'⟩, h2, h3⟩ := h
    simp only [Prod.mk.injEq] at h3
    obtain ⟨rfl, rfl⟩ := h3
    rw [selsR]
    exact .cons (topSel_ok hFr hI h1 (hs s List.mem_cons_self) (hC.mono (topSels_grows (lib := e.lib) (re := re) (S := S) (root := root) h2).1))
      (topSels_ok hFr hI h2 (fun x hx => hs x (List.mem_cons_of_mem _ hx)) hC)

theorem topSegs_ok (hFr : Frame C J) (hI : Input S e.fuel root) : ∀ {tab tab' : Tables} {s : List Segment} {r}, compileSegs tab s = some (tab', r) →
    (∀ x ∈ s, SafeTop e.lib re S root x) → Covers C J re root e tab' →
    Rel2 (SegRel (ε := ε) C J (· ∈ descendants root) IsScalar) (segsR e r) (s.map (segSpec re root))
  | tab, tab', [], r, h, hs, hC => by
    simp only [compileSegs, Option.some.injEq, Prod.mk.injEq] at h; rw [← h.2, segsR]; exact .nil
  | tab, tab', .mk d sels :: l, r, h, hs, hC => by
    simp only [compileSegs, compileSeg, Option.bind_eq_some_iff, Option.map_eq_some_iff] at h
    obtain ⟨⟨t, x⟩, h1, ⟨t', x'⟩, ⟨⟨t2, x2⟩, h4, h5⟩, h3⟩ := h
    simp only [Prod.mk.injEq] at h3 h5
    obtain ⟨rfl, rfl⟩ := h3
    obtain ⟨rfl, rfl⟩ := h5
    rw [segsR, segR]
    exact .cons ⟨rfl, topSels_ok hFr hI h4 (hs _ List.mem_cons_self) hC⟩ (topSegs_ok hFr hI h1 (fun x hx => hs x (List.mem_cons_of_mem _ hx))
      (hC.mono (topSels_grows (lib := e.lib) (re := re) (S := S) (root := root) h4).1))

end

/-! ## The order -/

/-- A name or an index. -/
def Segment.Singular : Segment → Prop
  | .mk desc sels => desc = false ∧ ((∃ n, sels = [.name n]) ∨ ∃ i, sels = [.index i])

/-- No selector of the segment goes backward. -/
def Segment.Onward : Segment → Prop
  | .mk _ sels => ∀ a b c, .slice a b c ∈ sels → 0 ≤ c

/-- The order of the nodes is that of the specification: a segment that goes backward is a child segment, and after it there are only names and indices. -/
def OrderKept (strict : Bool) : List Segment → Prop
  | [] => True
  | .mk desc sels :: segs => ((desc = false ∧ ((Segment.mk desc sels).Onward ∨ ∀ s ∈ segs, s.Singular)) ∨
      (strict = true ∧ sels.length ≤ 1 ∧ (Segment.mk desc sels).Onward)) ∧ OrderKept strict segs

theorem orderKept_cons {strict : Bool} {seg : Segment} {segs : List Segment}
    (h : (seg.1 = false ∧ (seg.Onward ∨ ∀ s ∈ segs, s.Singular)) ∨ (strict = true ∧ seg.2.length ≤ 1 ∧ seg.Onward)) (h' : OrderKept strict segs) :
    OrderKept strict (seg :: segs) := by
  obtain ⟨d, sels⟩ := seg
  exact ⟨h, h'⟩

section
variable {re : Sem} {root : JVal}

theorem onward_reverses {sels : List Selector} (h : ∀ a b c, .slice a b c ∈ sels → 0 ≤ c) : ∀ s ∈ sels.map (selSpec re root), s.reverses = false := by
  intro s hs
  obtain ⟨s, hm, rfl⟩ := List.mem_map.1 hs
  cases s with
  | slice a b c => exact compileSlice_reverses a b c (h a b c hm)
  | _ => rfl

theorem pick_le_one {sel : Sel (JVal → Bool)} {its : List Item} (hf : ∀ c, sel ≠ .filter c) (h : ∀ it ∈ its, (it.1 sel).yes = true → (it.1 sel).more = false) :
    (pick sel its).length ≤ 1 := by
  induction its with
  | nil => simp [pick]
  | cons it its ih =>
    obtain ⟨d, v⟩ := it
    have ht : tselects (d sel) v sel = (d sel).yes := by cases sel <;> first | rfl | exact absurd rfl (hf _)
    have h1 := h (d, v) List.mem_cons_self
    have ih := ih fun it hit => h it (List.mem_cons_of_mem _ hit)
    simp only at h1
    simp only [pick, ht]
    cases hy : (d sel).yes with
    | false => cases (d sel).more <;> simp [ih]
    | true => rw [h1 hy]; simp

theorem singular_short {s : Segment} (h : s.Singular) (v : JVal) : (segNodes (segSpec re root s) v).length ≤ 1 := by
  obtain ⟨d, sels⟩ := s
  obtain ⟨rfl, h⟩ := h
  have key : ∃ sel, (segSpec re root (.mk false sels)).sels = [sel] ∧ sel.reverses = false ∧ (∀ c, sel ≠ .filter c) ∧
      (∀ a b, (sel.fromIndex a b).yes = true → (sel.fromIndex a b).more = false) ∧ ∀ k, (sel.fromKey k).yes = true → (sel.fromKey k).more = false := by
    rcases h with ⟨n, rfl⟩ | ⟨i, rfl⟩
    · refine ⟨_, rfl, rfl, (fun c h => by cases h), ?_, ?_⟩
      · intro a b; simp [selSpec, Sel.fromIndex]
      · intro k; simp only [selSpec, Sel.fromKey]; split <;> simp
    · refine ⟨_, rfl, rfl, (fun c h => by cases h), ?_, ?_⟩
      · intro a b; simp only [selSpec, Sel.fromIndex]; split
        · simp
        · split <;> simp
      · intro k; simp [selSpec, Sel.fromKey]
  obtain ⟨sel, h1, h2, h3, h4, h5⟩ := key
  unfold segNodes pickAll
  rw [h1]
  simp only [segSpec, Bool.false_eq_true, if_false, List.flatMap_cons, List.flatMap_nil, List.append_nil]
  rw [ord_forward h2]
  refine pick_le_one h3 fun it hit => ?_
  rcases items_dec _ v it hit with ⟨a, b, e⟩ | ⟨k, e⟩
  · rw [e]; exact h4 a b
  · rw [e]; exact h5 k

theorem singular_nodes : ∀ {segs : List Segment}, (∀ s ∈ segs, s.Singular) → ∀ v, (tnodes (segs.map (segSpec re root)) v).length ≤ 1
  | [], _, v => by simp [tnodes]
  | s :: segs, h, v => by
    have h1 := singular_short (re := re) (root := root) (h s List.mem_cons_self) v
    simp only [List.map_cons, tnodes]
    generalize segNodes (segSpec re root s) v = l at h1
    cases l with
    | nil => simp
    | cons a l =>
      cases l with
      | nil => simpa using singular_nodes (fun s hs => h s (List.mem_cons_of_mem _ hs)) a
      | cons b l => simp at h1

theorem orderKept_exact {strict : Bool} : ∀ {segs : List Segment}, OrderKept strict segs → ExactAll strict (segs.map (segSpec re root))
  | [], _ => trivial
  | .mk desc sels :: segs, h => by
    refine ⟨?_, orderKept_exact h.2⟩
    rcases h.1 with ⟨h1, h2⟩ | ⟨h1, h2, h3⟩
    · refine .inl ⟨h1, fun ⟨s, hs, hr⟩ => ?_⟩
      rcases h2 with h2 | h2
      · rw [onward_reverses h2 s hs] at hr; cases hr
      · exact singular_nodes h2
    · exact .inr ⟨h1, by simpa [segSpec] using h2, onward_reverses h3⟩

end

/-! ## The main query -/

/-- What is assumed of a query and a value: as `Plain`, but slices of the segments may go backward, if the nodes that the query selects are scalars. -/
structure PlainBack (lib : Lib) (re : Sem) (S : Bytes → Prop) (q : Query) (v : JVal) : Prop where
  den : ∃ d, Den v d
  nums : NumsIn S v
  max : (v.toks.length : Int) ≤ maxInt64
  safe : ∀ s ∈ q.segs, SafeTop lib re S v s
  scalars : ∀ w ∈ nodes re v q.segs v, IsScalar w

/-- With enough fuel. -/
structure FitBack (lib : Lib) (re : Sem) (S : Bytes → Prop) (q : Query) (fuel : Nat) (root : JVal) : Prop where
  input : Input S fuel root
  safe : ∀ s ∈ q.segs, SafeTop lib re S root s
  tables : ∀ tab r, compileSegs {} q.segs = some (tab, r) → ∀ e ∈ tab.queries, (nodes re root e.1 root).length < fuel
  scalars : ∀ w ∈ nodes re root q.segs root, IsScalar w

section
variable {lib : Lib} {re : Sem} {S : Bytes → Prop} {q : Query} {fuel : Nat} {root : JVal} {strict : Bool} {r : MainR}

theorem runValue_back (hF : FitBack lib re S q fuel root) (hc : compileQuery q = some r) {s : AState} {x : Val} (hw : WF s) (hx : Fresh s x root) :
    ∃ s' L, (runValue lib strict fuel r x).run AState.mach s = (streamToks L, .ok (s', ())) ∧ Mod (fun j => x.idx = some j) s s' ∧
      L.Perm (nodes re root q.segs root) ∧ (OrderKept strict q.segs → L = nodes re root q.segs root) := by
  have hI := hF.input
  simp only [compileQuery, Option.map_eq_some_iff] at hc
  obtain ⟨⟨tab, main⟩, hc, rfl⟩ := hc
  have hE : Entries lib re S root tab :=
    (topSegs_grows (lib := lib) (re := re) (S := S) (root := root) hc).2 hF.safe ⟨fun _ h => (by cases h), fun k _ _ h => (by cases h)⟩
  simp only
  obtain ⟨s1, ctx, ws, Ls, e1, e2, e3, e4, e5⟩ := context_run (strict := strict) hI hE main (hF.tables tab main hc) hw hx
  have hFr := ctx_frame s.n ctx ws Ls
  have hrel := topSegs_ok (ε := Token) (e := ⟨lib, strict, fuel, ctx⟩) hFr hI hc hF.safe e5
  obtain ⟨N, hN, hrun⟩ := query_run' hFr hI.closed (e := ⟨lib, strict, fuel, ctx⟩) (fun v hv => hI.fuel hv) hrel writeFin_ok
  obtain ⟨d, hd⟩ := hI.den
  have hspec := nodes_spec' re root (fun s hs => (hF.safe s hs).ok) hd hI.max
  obtain ⟨s2, o, q1, g1, g2, g3⟩ := hrun s1 x root [] () [] e2.wf e4 e3 (desc_self root) (by rw [hspec]; exact hF.scalars) (fun j hj hc => by
    have := (e4.ge j hc).1; have := hx.lt j hj; omega) rfl (.inl (by rw [collect_floop]))
  rw [collect_floop] at g1 g2
  simp only [List.nil_append] at g2
  subst g2
  refine ⟨s2, N root, ?_, e2.trans g3 (fun _ _ h => h), ?_, ?_⟩
  · unfold runValue
    rw [run_ok_bind e1, queryP, run_ok_bind g1]
    simp [IProg.run]
  · rw [← hspec]; exact (hN root (desc_self root)).1
  · intro h
    rw [← hspec]; exact (hN root (desc_self root)).2 (orderKept_exact h)

theorem PlainBack.fit {v : JVal} (h : PlainBack lib re S q v) : ∃ F, ∀ fuel, F ≤ fuel → FitBack lib re S q fuel v := by
  obtain ⟨F, hF⟩ := tables_bound (re := re) q v
  exact ⟨F + v.toks.length, fun fuel hf => ⟨⟨h.den, h.nums, by omega, h.max⟩, h.safe, fun tab r hc e he => Nat.lt_of_lt_of_le (hF tab r hc e he) (by omega),
    h.scalars⟩⟩

/-- A compiled query on a stream of values writes, for each of them, the nodes of the specification. -/
theorem outcome_back (hc : (compileQuery q).isSome = true) {vs : List JVal} (h : ∀ v ∈ vs, PlainBack lib re S q v) :
    ∃ Ls : List (List JVal), Outcome lib strict q (streamToks vs) (streamToks Ls.flatten) (.ok ()) ∧
      Rel2 (fun v L => L.Perm (nodes re v q.segs v) ∧ (OrderKept strict q.segs → L = nodes re v q.segs v)) vs Ls := by
  obtain ⟨r, hr⟩ := Option.isSome_iff_exists.1 hc
  obtain ⟨F, hF⟩ := bound_all (fun v n => ∀ fuel, n ≤ fuel → FitBack lib re S q fuel v) (fun _ _ _ h h' fuel hf => h fuel (by omega)) vs fun v hv => (h v hv).fit
  obtain ⟨h', Ls, e1, e2⟩ := query_stream' (strict := strict) (fuel := F + vs.length + 1) (f := F + vs.length + 1) (r := r)
    (R := fun v L => L.Perm (nodes re v q.segs v) ∧ (OrderKept strict q.segs → L = nodes re v q.segs v)) (lib := lib) (vs := vs)
    (fun v hv s x hw hx => runValue_back (hF v hv _ (by omega)) hr hw hx) (by omega)
  exact ⟨Ls, ⟨by simp, r, hr, _, by rw [e1], by rw [e1]; rfl⟩, e2⟩

end

end Verif.JPath
