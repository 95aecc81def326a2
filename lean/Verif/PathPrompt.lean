import Verif.PathReach

/-!
# Queries that write as they read

When the last value of the input is cut off, a query of which the first segments need no look-ahead has written the nodes that are already
complete, and the rest of the input has not been touched.
-/

set_option linter.unusedSimpArgs false
set_option linter.unusedVariables false

namespace Verif

namespace JPath
open AState IProg GoJson

/-! ## The queries -/

/-- The selector does not count from the end of arrays. -/
def Selector.Ahead : Selector → Prop
  | .index i => 0 ≤ i
  | .slice a b _ => (∀ x, a = some x → 0 ≤ x) ∧ (∀ x, b = some x → 0 ≤ x)
  | _ => True

/-- The selector is no filter. -/
def Selector.Plain : Selector → Prop
  | .filter _ => False
  | _ => True

/-- A segment that can give the members of an array or object as they come: at most one selector, which does not count from the end; a descendant
segment only if the order need not be strict. -/
def Segment.Ahead (strict : Bool) : Segment → Prop
  | .mk desc sels => sels.length ≤ 1 ∧ (∀ s ∈ sels, s.Ahead) ∧ (strict = true → desc = false)

/-- A child segment without filters. -/
def Segment.Plain : Segment → Prop
  | .mk desc sels => desc = false ∧ ∀ s ∈ sels, s.Plain

/-- The query gives nodes out of a collection `d` levels down before the collection is complete. -/
inductive Prompt (strict : Bool) : Nat → List Segment → Prop
  | last {seg segs} : seg.Ahead strict → Prompt strict 0 (seg :: segs)
  | child {d seg segs} : seg.Ahead strict → seg.Plain → Prompt strict d segs → Prompt strict (d + 1) (seg :: segs)

mutual
/-- No query of a condition starts at the root. -/
def localSel : Selector → Bool
  | .filter c => localCond c
  | _ => true
@[inherit_doc localSel] def localSels : List Selector → Bool
  | [] => true
  | s :: l => localSel s && localSels l
@[inherit_doc localSel] def localSeg : Segment → Bool
  | .mk _ sels => localSels sels
@[inherit_doc localSel] def localSegs : List Segment → Bool
  | [] => true
  | s :: l => localSeg s && localSegs l
@[inherit_doc localSel] def localCond : Logical → Bool
  | .or l => localConds l
  | .and l => localConds l
  | .not c => localCond c
  | .cmp a _ b => localComp a && localComp b
  | .query r segs => !r && localSegs segs
  | .func _ args => localArgs args
@[inherit_doc localSel] def localConds : List Logical → Bool
  | [] => true
  | s :: l => localCond s && localConds l
@[inherit_doc localSel] def localComp : Comparable → Bool
  | .lit _ => true
  | .sing q => !q.root
  | .func _ args => localArgs args
@[inherit_doc localSel] def localArg : Arg → Bool
  | .lit _ => true
  | .query r segs => !r && localSegs segs
  | .logical c => localCond c
  | .func _ args => localArgs args
@[inherit_doc localSel] def localArgs : List Arg → Bool
  | [] => true
  | s :: l => localArg s && localArgs l
end

theorem compileSing_local (tab : Tables) (l : List SingSeg) : (compileSing tab false l).1 = tab := rfl

mutual
theorem sel_local : ∀ {s : Selector} {tab tab' r}, localSel s = true → compileSel tab s = some (tab', r) → tab' = tab
  | .name n, tab, tab', r, _, h => by simp only [compileSel, Option.some.injEq, Prod.mk.injEq] at h; exact h.1.symm
  | .wild, tab, tab', r, _, h => by simp only [compileSel, Option.some.injEq, Prod.mk.injEq] at h; exact h.1.symm
  | .index i, tab, tab', r, _, h => by simp only [compileSel, Option.some.injEq, Prod.mk.injEq] at h; exact h.1.symm
  | .slice a b c, tab, tab', r, _, h => by simp only [compileSel, Option.some.injEq, Prod.mk.injEq] at h; exact h.1.symm
  | .filter c, tab, tab', r, hl, h => by
    simp only [compileSel, Option.map_eq_some_iff] at h
    obtain ⟨⟨t, x⟩, h1, h2⟩ := h
    cases h2
    exact cond_local (by rw [localSel] at hl; exact hl) h1
theorem sels_local : ∀ {s : List Selector} {tab tab' r}, localSels s = true → compileSels tab s = some (tab', r) → tab' = tab
  | [], tab, tab', r, _, h => by simp only [compileSels, Option.some.injEq, Prod.mk.injEq] at h; exact h.1.symm
  | s :: l, tab, tab', r, hl, h => by
    simp only [compileSels, Option.bind_eq_some_iff, Option.map_eq_some_iff] at h
    obtain ⟨⟨t, x⟩, h1, ⟨t', x'⟩, h2, h3⟩ := h
    cases h3
    rw [localSels, Bool.and_eq_true] at hl
    exact (sels_local hl.2 h2).trans (sel_local hl.1 h1)
theorem seg_local : ∀ {s : Segment} {tab tab' r}, localSeg s = true → compileSeg tab s = some (tab', r) → tab' = tab
  | .mk d sels, tab, tab', r, hl, h => by
    simp only [compileSeg, Option.map_eq_some_iff] at h
    obtain ⟨⟨t, x⟩, h1, h2⟩ := h
    cases h2
    exact sels_local (by rw [localSeg] at hl; exact hl) h1
theorem segs_local : ∀ {s : List Segment} {tab tab' r}, localSegs s = true → compileSegs tab s = some (tab', r) → tab' = tab
  | [], tab, tab', r, _, h => by simp only [compileSegs, Option.some.injEq, Prod.mk.injEq] at h; exact h.1.symm
  | s :: l, tab, tab', r, hl, h => by
    simp only [compileSegs, Option.bind_eq_some_iff, Option.map_eq_some_iff] at h
    obtain ⟨⟨t, x⟩, h1, ⟨t', x'⟩, h2, h3⟩ := h
    cases h3
    rw [localSegs, Bool.and_eq_true] at hl
    exact (seg_local hl.1 h2).trans (segs_local hl.2 h1)
theorem cond_local : ∀ {s : Logical} {tab tab' r}, localCond s = true → compileCond tab s = some (tab', r) → tab' = tab
  | .or l, tab, tab', r, hl, h => by
    simp only [compileCond, Option.map_eq_some_iff] at h
    obtain ⟨⟨t, x⟩, h1, h2⟩ := h
    cases h2
    exact conds_local (by rw [localCond] at hl; exact hl) h1
  | .and l, tab, tab', r, hl, h => by
    simp only [compileCond, Option.map_eq_some_iff] at h
    obtain ⟨⟨t, x⟩, h1, h2⟩ := h
    cases h2
    exact conds_local (by rw [localCond] at hl; exact hl) h1
  | .not c, tab, tab', r, hl, h => by
    simp only [compileCond, Option.map_eq_some_iff] at h
    obtain ⟨⟨t, x⟩, h1, h2⟩ := h
    cases h2
    exact cond_local (by rw [localCond] at hl; exact hl) h1
  | .cmp a o b, tab, tab', r, hl, h => by
    simp only [compileCond, Option.bind_eq_some_iff, Option.map_eq_some_iff] at h
    obtain ⟨⟨t, x⟩, h1, ⟨t', x'⟩, h2, h3⟩ := h
    cases h3
    rw [localCond, Bool.and_eq_true] at hl
    exact (comp_local hl.2 h2).trans (comp_local hl.1 h1)
  | .query root segs, tab, tab', r, hl, h => by
    rw [localCond, Bool.and_eq_true] at hl
    cases root with
    | true => simp at hl
    | false =>
      simp only [compileCond, Bool.false_eq_true, if_false, Option.map_eq_some_iff] at h
      obtain ⟨⟨t, x⟩, h1, h2⟩ := h
      cases h2
      exact segs_local hl.2 h1
  | .func name args, tab, tab', r, hl, h => by
    simp only [compileCond, Option.bind_eq_some_iff, Option.map_eq_some_iff] at h
    obtain ⟨f, h0, ⟨t, x⟩, h1, h2⟩ := h
    cases h2
    exact args_local (by rw [localCond] at hl; exact hl) h1
theorem conds_local : ∀ {s : List Logical} {tab tab' r}, localConds s = true → compileConds tab s = some (tab', r) → tab' = tab
  | [], tab, tab', r, _, h => by simp only [compileConds, Option.some.injEq, Prod.mk.injEq] at h; exact h.1.symm
  | s :: l, tab, tab', r, hl, h => by
    simp only [compileConds, Option.bind_eq_some_iff, Option.map_eq_some_iff] at h
    obtain ⟨⟨t, x⟩, h1, ⟨t', x'⟩, h2, h3⟩ := h
    cases h3
    rw [localConds, Bool.and_eq_true] at hl
    exact (conds_local hl.2 h2).trans (cond_local hl.1 h1)
theorem comp_local : ∀ {s : Comparable} {tab tab' r}, localComp s = true → compileComparable tab s = some (tab', r) → tab' = tab
  | .lit l, tab, tab', r, _, h => by simp only [compileComparable, Option.some.injEq, Prod.mk.injEq] at h; exact h.1.symm
  | .sing q, tab, tab', r, hl, h => by
    simp only [compileComparable, Option.some.injEq] at h
    have : q.root = false := by rw [localComp] at hl; simpa using hl
    rw [this] at h
    cases h
    rfl
  | .func name args, tab, tab', r, hl, h => by
    simp only [compileComparable, Option.bind_eq_some_iff, Option.map_eq_some_iff] at h
    obtain ⟨f, h0, ⟨t, x⟩, h1, h2⟩ := h
    cases h2
    exact args_local (by rw [localComp] at hl; exact hl) h1
theorem arg_local : ∀ {s : Arg} {tab tab' ty r}, localArg s = true → compileArg tab ty s = some (tab', r) → tab' = tab
  | .lit l, tab, tab', ty, r, _, h => by
    simp only [compileArg] at h
    split at h
    · cases h; rfl
    · cases h
  | .query root segs, tab, tab', ty, r, hl, h => by
    rw [localArg, Bool.and_eq_true] at hl
    cases root with
    | true => simp at hl
    | false =>
      simp only [compileArg] at h
      split at h
      · simp only [Option.map_eq_some_iff] at h
        obtain ⟨x, h1, h2⟩ := h
        cases h2
        rfl
      · simp only [Bool.false_eq_true, if_false, Option.map_eq_some_iff] at h
        obtain ⟨⟨t, x⟩, h1, h2⟩ := h
        cases h2
        exact segs_local hl.2 h1
  | .logical c, tab, tab', ty, r, hl, h => by simp [compileArg] at h
  | .func name args, tab, tab', ty, r, hl, h => by
    simp only [compileArg, Option.bind_eq_some_iff, Option.map_eq_some_iff] at h
    obtain ⟨f, h0, ⟨t, x⟩, h1, h2⟩ := h
    cases h2
    exact args_local (by rw [localArg] at hl; exact hl) h1
theorem args_local : ∀ {s : List Arg} {tab tab' tys r}, localArgs s = true → compileArgs tab tys s = some (tab', r) → tab' = tab
  | [], tab, tab', tys, r, _, h => by
    cases tys <;> (simp only [compileArgs, Option.some.injEq, Prod.mk.injEq] at h; exact h.1.symm)
  | s :: l, tab, tab', [], r, hl, h => by simp only [compileArgs, Option.some.injEq, Prod.mk.injEq] at h; exact h.1.symm
  | s :: l, tab, tab', ty :: tys, r, hl, h => by
    simp only [compileArgs, Option.bind_eq_some_iff, Option.map_eq_some_iff] at h
    obtain ⟨⟨t, x⟩, h1, ⟨t', x'⟩, h2, h3⟩ := h
    cases h3
    rw [localArgs, Bool.and_eq_true] at hl
    exact (args_local hl.2 h2).trans (arg_local hl.1 h1)
end

/-! ## Segments -/

section
variable {re : Rfc9535.Sem} {root : JVal}

theorem ahead_sel {s : Selector} (h : SelOk s) (ha : s.Ahead) : (selSpec re root s).lookahead = 0 := by
  cases s with
  | name n => rfl
  | wild => rfl
  | filter c => rfl
  | index i =>
    have : ¬ i < 0 := by have : (0 : Int) ≤ i := ha; omega
    simp [selSpec, Sel.lookahead, this]
  | slice a b c =>
    obtain ⟨h1, h2⟩ := ha
    obtain ⟨i1, i2, i3, i4, -⟩ := h
    have g1 : 0 ≤ a.getD 0 ∧ a.getD 0 ≤ maxInt64 := by
      cases a with
      | none => simp [maxInt64]
      | some x => have := h1 x rfl; have := i1 x rfl; simp only [Option.getD_some, Rfc9535.IJson, maxInt64] at *; omega
    have g2 : 0 ≤ b.getD maxInt64 ∧ b.getD maxInt64 ≤ maxInt64 := by
      cases b with
      | none => simp [maxInt64]
      | some x => have := h2 x rfl; have := i2 x rfl; simp only [Option.getD_some, Rfc9535.IJson, maxInt64] at *; omega
    simp only [selSpec, compileSlice]
    split
    · rfl
    · rw [if_neg (by omega)]
      split
      · rfl
      · simp only [Sel.lookahead]
        rw [i64_id _ (by unfold minInt64 maxInt64 at *; omega) (by unfold maxInt64 at *; omega), i64_id _ (by unfold minInt64 maxInt64 at *; omega) (by unfold maxInt64 at *; omega)]
        rw [if_neg (by split <;> omega)]

theorem ahead_seg {desc sels} (h : SegOk (.mk desc sels)) (ha : ∀ s ∈ sels, s.Ahead) : ¬ segLookahead (segSpec re root (.mk desc sels)).sels > 0 := by
  have : ∀ (l : List Selector), (∀ s ∈ l, SelOk s) → (∀ s ∈ l, s.Ahead) →
      (l.map (selSpec re root)).foldl (fun l s => if s.lookahead > l then s.lookahead else l) 0 = 0 := by
    intro l
    induction l with
    | nil => intros; rfl
    | cons s l ih =>
      intro h1 h2
      simp only [List.map_cons, List.foldl_cons]
      rw [ahead_sel (h1 s (by simp)) (h2 s (by simp))]
      simp only [gt_iff_lt, Int.lt_irrefl, if_false]
      exact ih (fun s hs => h1 s (by simp [hs])) (fun s hs => h2 s (by simp [hs]))
  simp only [segSpec, segLookahead]
  rw [this sels h ha]
  omega

theorem plain_sel {s : Selector} (h : s.Plain) : ∀ c, selSpec re root s ≠ .filter c := by
  intro c e
  cases s with
  | filter c => exact h
  | slice a b c =>
    simp only [selSpec, compileSlice] at e
    split at e
    · cases e
    · split at e <;> split at e <;> cases e
  | _ => cases e

end

section
variable {ε φ ψ : Type} {C : Nat → Prop} {J : AState → Prop} {G : JVal → Prop} {R : List ε → φ → ψ → Prop}
variable {fin : φ → Val → IProg ε (φ × Bool)} {tfin : ψ → JVal → ψ × Bool} {strict : Bool} {F : Nat}

theorem segs_some {tsgs : List (Seg (JVal → Bool))} (h : ∀ seg ∈ tsgs, ∀ s ∈ seg.sels, s.reverses = false) :
    ∀ v : JVal, v.toks.length ≤ F → FeedsSome tfin (tsegs tfin strict F tsgs) v := by
  obtain ⟨N, hN⟩ := segs_feeds (fin := tfin) (P := False) (strict := strict) (F := F) h (fun p => p.elim)
  exact fun v hv => ⟨N v, (hN v hv).1⟩

theorem segs_rev {segs : List (Seg (CondP ε))} {tsgs : List (Seg (JVal → Bool))} (h : Rel2 (SegRel C J G AnyVal) segs tsgs) : ∀ seg ∈ tsgs, ∀ s ∈ seg.sels, s.reverses = false := by
  induction h with
  | nil => intro seg hs; cases hs
  | cons h1 _ ih =>
    intro seg hs
    rcases List.mem_cons.1 hs with rfl | hs
    · exact rel_rev h1.sels
    · exact ih seg hs

/-- The segments on a value that is cut off. -/
theorem prompt_cut (hFr : Frame C J) (hG : Closed G) (hfin : FinOk R G fin tfin) (hy : ∀ q v, (tfin q v).2 = true) {re : Rfc9535.Sem} {root : JVal} {d : Nat} {asegs : List Segment}
    (hp : Prompt strict d asegs) (hok : ∀ s ∈ asegs, SegOk s) {segs : List (Seg (CondP ε))} (h : Rel2 (SegRel C J G AnyVal) segs (asegs.map (segSpec re root))) :
    ∀ d', d' ≤ d → CutOk C J G (Fits G F) R d' (segsP fin strict F segs) (tsegs tfin strict F (asegs.map (segSpec re root))) := by
  cases F with
  | zero =>
    intro d' _ s S T q q' acc k i v cl l hi hx hD
    have := toks_pos v
    have := hD.2
    omega
  | succ F =>
  have hyp : ∀ {desc sels asegs} {sg : Seg (CondP ε)} {segs}, (Segment.mk desc sels).Ahead strict → (∀ s ∈ Segment.mk desc sels :: asegs, SegOk s) →
      SegRel C J G AnyVal sg (segSpec re root (.mk desc sels)) → Rel2 (SegRel C J G AnyVal) segs (asegs.map (segSpec re root)) →
      SegHyp C J G R fin tfin strict (F + 1) sg (segSpec re root (.mk desc sels)) (segsP fin strict (F + 1) segs) (tsegs tfin strict (F + 1) (asegs.map (segSpec re root))) := by
    intro desc sels asegs sg segs ha hok h1 h2
    exact ⟨hFr, hG, hfin, hy, h1, (segsP_ok hFr hG hfin strict h2).mono fun _ e => ⟨e, fun _ _ => trivial⟩, segs_keeps _ _ _, segs_some (segs_rev h2), by simpa [segSpec] using ha.1, ahead_seg (hok _ (by simp)) ha.2.1, ha.2.2⟩
  induction hp generalizing segs with
  | @last seg asegs ha =>
    intro d' hd'
    obtain ⟨desc, sels⟩ := seg
    cases h with
    | cons h1 h2 =>
      obtain rfl : d' = 0 := by omega
      exact (hyp ha hok h1 h2).leaf (Nat.le_refl _)
  | @child d seg asegs ha hpl _ ih =>
    intro d' hd'
    obtain ⟨desc, sels⟩ := seg
    cases h with
    | cons h1 h2 =>
      cases d' with
      | zero => exact (hyp ha hok h1 h2).leaf (Nat.le_refl _)
      | succ d' =>
        refine (hyp ha hok h1 h2).inn (ih (fun s hs => hok s (by simp [hs])) h2 d' (by omega)) hpl.1 ?_ (Nat.le_refl _)
        intro sel hs
        simp only [segSpec, List.mem_map] at hs
        obtain ⟨s, hs, rfl⟩ := hs
        exact plain_sel (hpl.2 s hs)

end

/-! ## The main query -/

section
variable {lib : Lib} {re : Rfc9535.Sem} {S : Bytes → Prop} {q : Query} {fuel : Nat} {strict : Bool} {r : MainR}

theorem local_tables (hl : localSegs q.segs = true) (hc : compileQuery q = some r) : compileSegs {} q.segs = some ({}, r.main) ∧ r.sing = [] ∧ r.queries = [] := by
  simp only [compileQuery, Option.map_eq_some_iff] at hc
  obtain ⟨⟨tab, main⟩, hc, rfl⟩ := hc
  have := segs_local hl hc
  subst this
  exact ⟨hc, rfl, rfl⟩

/-- The query on a value that is cut off. -/
theorem runValue_cut {root : JVal} (hF : Fit lib re S q fuel root) (hl : localSegs q.segs = true) (hc : compileQuery q = some r) {d : Nat} (hp : Prompt strict d q.segs)
    {s : AState} {k : Kind} {i : Nat} {cl : List Token} {l : List Nat} (hw : WF s) (hx : Fresh s (.coll k i) root) (ht : (s.coll i).thr = 0) (hs : Spine s (i :: l))
    {d' : Nat} (hd : d' ≤ d) (hcut : CutV d' root cl) :
    ∃ L p' s' l', Reach AState.mach (runValue lib strict fuel r (.coll k i)) s (streamToks L) p' s' ∧ Spine s' l' ∧ cl ++ frames s l <:+ frames s' l' ∧
      L.Perm (Rfc9535.nodes re root q.segs root) ∧ ((∀ seg ∈ q.segs, seg.Exact strict) → L = Rfc9535.nodes re root q.segs root) := by
  have hI := hF.input
  obtain ⟨hc', h1, h2⟩ := local_tables hl hc
  have hJ : CtxJ s.n ⟨[], []⟩ [] [] s := ⟨.nil, .nil⟩
  have hcov : Covers (Ctx.C ⟨[], []⟩) (CtxJ s.n ⟨[], []⟩ [] []) re root ⟨lib, strict, fuel, ⟨[], []⟩⟩ {} := by
    refine ⟨?_, ?_⟩
    · intro i segs hi; simp at hi
    · intro i segs r hi; simp at hi
  have hFr := ctx_frame s.n ⟨[], []⟩ [] []
  have hrel := compileSegs_ok (ε := Token) (e := ⟨lib, strict, fuel, ⟨[], []⟩⟩) hFr hI hc' hF.safe hcov
  have hok := safeSegs_ok hF.safe
  have hnC : ∀ j, ¬ Ctx.C ⟨[], []⟩ j := fun j hj => by have := (hJ.ge j hj).2; have := (hJ.ge j hj).1; omega
  obtain ⟨o, p', s', q1, l', e1, e2, e3, e4⟩ := prompt_cut (F := fuel) hFr hI.closed writeFin_ok (fun _ _ => rfl) hp hok hrel d' hd s [] [] () [] [] k i root cl l
    ⟨hw, hJ, .nil, List.nodup_nil, (fun d hd => by cases hd), rfl, (fun h hh => by cases hh)⟩ hx ⟨desc_self root, hI.fuel (desc_self root)⟩ (hnC i) ht
    (fun h _ hh => by cases hh) hs hcut
  obtain ⟨N, hN⟩ := segs_feeds (fin := fun (acc : List JVal) v => (acc ++ [v], true)) (P := False) (strict := strict) (F := fuel) (segs_rev hrel) (fun p => p.elim)
  obtain ⟨n1, n2, n3⟩ := hN root (hI.fuel (desc_self root))
  have n1' := n1 [] [] (.inl (feed_true (fun _ _ => rfl) _ _ _))
  simp only at n1'
  rw [feed_floop, collect_floop, List.nil_append] at n1'
  rw [n1'] at e2
  simp only [List.nil_append] at e2
  subst e2
  obtain ⟨dd, hd⟩ := hI.den
  have hspec := nodes_spec re root hok hd hI.max
  rw [hspec] at n2 n3
  have hr : ∃ p'', Reach AState.mach (runValue lib strict fuel r (.coll k i)) s (streamToks (N root)) p'' s' := by
    unfold runValue runContext
    rw [h1, h2]
    simp only [singCtx, queryCtx, IProg.bind, queryP, mapValue]
    exact ⟨_, (e1.bind _).bind _⟩
  obtain ⟨p'', hr⟩ := hr
  exact ⟨N root, p'', s', l', hr, e3, e4, n2, fun h => n3 (exact_spec h)⟩

/-- The query on complete values, whatever comes after. -/
theorem runQuery_prefix (hc : compileQuery q = some r) : ∀ (vs : List JVal) (rest : List JVal) (f : Nat) (s : AState), (∀ v ∈ vs, Fit lib re S q fuel v) → WF s →
    Root s ((vs ++ rest).map (none, ·)) →
    ∃ s' Ls, Reach AState.mach (runQuery lib strict fuel r (vs.length + f)) s (streamToks Ls.flatten) (runQuery lib strict fuel r f) s' ∧ WF s' ∧ Root s' (rest.map (none, ·)) ∧
      Rel2 (fun v L => L.Perm (Rfc9535.nodes re v q.segs v) ∧ ((∀ seg ∈ q.segs, seg.Exact strict) → L = Rfc9535.nodes re v q.segs v)) vs Ls := by
  intro vs
  induction vs with
  | nil =>
    intro rest f s hF hw hr
    refine ⟨s, [], ?_, hw, hr, .nil⟩
    rw [List.length_nil, Nat.zero_add]
    exact .refl _ _
  | cons v vs ih =>
    intro rest f s hF hw hr
    obtain ⟨s1, x, e1, e2, e3, e4, e5, e6⟩ := Root.next hr hw
    obtain ⟨s2, L, g1, g2, g3⟩ := runValue_run (strict := strict) (hF v List.mem_cons_self) hc e4 e5
    obtain ⟨s3, Ls, k1, k2, k3, k4⟩ := ih rest f s2 (fun w hw => hF w (List.mem_cons_of_mem _ hw)) g2.wf
      (e3.mod g2 (fun h => by have := e6 0 h; have := hr.n; omega))
    refine ⟨s3, L :: Ls, ?_, k2, k3, .cons g3 k4⟩
    rw [show (v :: vs).length + f = (vs.length + f) + 1 by simp; omega, runQuery, List.flatten_cons, streamToks_append]
    refine .op e1 ?_
    simp only [if_true]
    refine .op e2 ?_
    exact (Reach.of_run_bind g1 _).trans k1

/-- The query on complete values and one that is cut off, with the implementation of iterators. -/
theorem query_cut (hl : localSegs q.segs = true) (hc : compileQuery q = some r) {d : Nat} (hp : Prompt strict d q.segs) {vs : List JVal} {w : JVal}
    (hF : ∀ v ∈ vs, Fit lib re S q fuel v) (hw : Fit lib re S q fuel w) {f : Nat} (hf : vs.length < f) {d' : Nat} (hd : d' ≤ d) {cl : List Token} (hcut : CutV d' w cl) :
    ∃ Ls L p' h', Reach Heap.mach (runQuery lib strict fuel r f) (Heap.init (streamToks (vs ++ [w]))) (streamToks (Ls.flatten ++ L)) p' h' ∧ cl <:+ h'.st.src ∧
      Rel2 (fun v L => L.Perm (Rfc9535.nodes re v q.segs v) ∧ ((∀ seg ∈ q.segs, seg.Exact strict) → L = Rfc9535.nodes re v q.segs v)) vs Ls ∧
      L.Perm (Rfc9535.nodes re w q.segs w) ∧ ((∀ seg ∈ q.segs, seg.Exact strict) → L = Rfc9535.nodes re w q.segs w) := by
  obtain ⟨f, rfl⟩ : ∃ g, f = vs.length + (g + 1) := ⟨f - vs.length - 1, by omega⟩
  obtain ⟨s1, Ls, k1, k2, k3, k4⟩ := runQuery_prefix (strict := strict) hc vs [w] (f + 1) (AState.init (vs ++ [w])) hF (wf_init _) (root_init _)
  obtain ⟨s2, x, e1, e2, e3, e4, e5, e6⟩ := Root.next k3 k2
  obtain ⟨b1, b2, b3, b4⟩ := Spine.adv k2 .root (k3.before k2) k3.thr e1 e2
  obtain ⟨k, j, rfl⟩ : ∃ k j, x = .coll k j := by
    cases w with
    | scalar k => exact absurd rfl (hcut.coll k)
    | arr items e => obtain ⟨i, _, h, _⟩ := e5; exact ⟨_, i, h⟩
    | obj items e => obtain ⟨i, _, h, _⟩ := e5; exact ⟨_, i, h⟩
  have hsp := b4 k j rfl
  have hj0 : (s2.coll j).thr = 0 := by cases hsp; assumption
  obtain ⟨L, p', s', l', g1, g2, g3, g4, g5⟩ := runValue_cut hw hl hc hp e4 e5 hj0 hsp hd hcut
  have hr : Reach AState.mach (runQuery lib strict fuel r (vs.length + (f + 1))) (AState.init (vs ++ [w])) (streamToks (Ls.flatten ++ L)) (p'.bind fun _ => runQuery lib strict fuel r f) s' := by
    rw [streamToks_append]
    refine k1.trans ?_
    rw [runQuery]
    refine .op e1 ?_
    simp only [if_true]
    refine .op e2 ?_
    exact g1.bind _
  obtain ⟨h', r1, r2⟩ := hr.heap (ISim.init_sim _)
  refine ⟨Ls, L, _, h', r1, ?_, k4, g4, g5⟩
  have := g2.src r2
  refine List.IsSuffix.trans ?_ this
  refine List.IsSuffix.trans ?_ g3
  have : frames s2 [0] = [] := by
    simp only [frames, List.flatMap_cons, List.flatMap_nil, List.append_nil, frame, e3.kind, e3.rest, e3.e]
    rfl
  rw [this, List.append_nil]
  exact List.suffix_refl _

end

end JPath
end Verif
