import Verif.PathCompileOk

/-!
# The context

What `computeRunContext` does: for a collection and safe queries the context has the values and nodes of the rooted subqueries.
-/

set_option linter.unusedSimpArgs false
set_option linter.unusedVariables false

namespace Verif

namespace AState

/-- `Copy` of an unread value. -/
theorem copy_mod {s : AState} {x : Val} {v : JVal} (hw : WF s) (h : Fresh s x v) :
    ∃ s', s.step (.copy x) = .ok (s', v.toks) ∧ Mod (fun j => x.idx = some j) s s' := by
  obtain ⟨s', e1, -, -⟩ := copy_fresh hw.links h
  refine ⟨s', e1, hw.step e1, ?_⟩
  have he : Eff (fun j => x.idx = some j) (fun _ => False) s s' := by
    cases x with
    | scalar k =>
      have : s.step (.copy (.scalar k)) = .ok (s, [.scalar k]) := rfl
      rw [this] at e1
      simp only [Except.ok.injEq, Prod.mk.injEq] at e1
      rw [← e1.1]
      exact .refl _ _ _
    | coll k i =>
      have key : s' = s.set i { s.coll i with done := true } := by
        have e1 : s.copy (.coll k i) = .ok (s', v.toks) := e1
        simp only [copy] at e1
        repeat' split at e1
        all_goals first | (cases e1; done) | (simp only [Except.ok.injEq, Prod.mk.injEq] at e1; exact e1.1.symm)
      rw [key]
      exact (eff_set (s := s) i { s.coll i with done := true } rfl (fun k j e => .inr e)).mono (fun j _ e => by rw [e]; rfl) (fun _ _ e => e)
  exact he.mono (fun _ _ e => e) (fun _ _ e => e.elim)

/-- A new iterator over data. -/
theorem data_mod {s : AState} (hw : WF s) (h0 : 0 < s.nt) (vs : List JVal) :
    ∃ s', s.step (.data (streamToks vs)) = .ok (s', s.n) ∧ Mod (fun _ => False) s s' ∧ Idle s' s.n vs ∧ (s'.coll s.n).thr = s.nt ∧ s'.n = s.n + 1 := by
  have e1 : s.step (.data (streamToks vs)) = .ok ({ s.alloc ⟨.top, s.nt, false, false, false, none, none, vs.map (none, ·), false⟩ with
      nt := s.nt + 1 }, s.n) := by
    simp only [step, parseToks_streamToks]
  generalize hs : ({ s.alloc ⟨.top, s.nt, false, false, false, none, none, vs.map (none, ·), false⟩ with nt := s.nt + 1 } : AState) = s' at e1
  have hn : s'.n = s.n + 1 := by rw [← hs]; rfl
  have hnt : s'.nt = s.nt + 1 := by rw [← hs]
  have hnew : s'.coll s.n = ⟨.top, s.nt, false, false, false, none, none, vs.map (none, ·), false⟩ := by
    rw [← hs]
    show (s.alloc _).coll s.n = _
    rw [AInv.alloc_new]
  have hold : ∀ j < s.n, s'.coll j = s.coll j := by
    intro j hj
    rw [← hs]; exact AInv.alloc_old hj
  have hdead : ∀ t, s'.dead t = s.dead t := by intro t; rw [← hs]; rfl
  have hdet : ∀ t, s'.det t = s.det t := by intro t; rw [← hs]; rfl
  refine ⟨s', e1, .of_eff (hw.step e1) ⟨by omega, by omega, fun j hj _ => hold j hj, fun t _ _ => hdead t, fun t _ => hdet t, ?_, ?_⟩,
    ⟨by omega, s.nt, by omega, by omega, by rw [hdead]; exact hw.dead _ (Nat.le_refl _), hnew⟩, by rw [hnew], hn⟩
  · intro j hj
    by_cases e : j = s.n
    · subst e; left; rw [hnew]; exact Nat.le_refl _
    · right; exact ⟨j, by omega, .inr rfl, by rw [hold j (by omega)]⟩
  · intro g hg k j e
    by_cases e' : g = s.n
    · subst e'; rw [hnew] at e; cases e
    · right; rw [hold g (by omega)] at e; exact ⟨by omega, e⟩

theorem Idle.before {s : AState} {h : Nat} {L : List JVal} (hi : Idle s h L) : Before s (h + 1) h .top (L.map (none, ·)) false := by
  obtain ⟨h1, t, h2, h3, h4, h5⟩ := hi
  refine ⟨h1, ?_, ?_, ?_, ?_, ?_, ?_, ?_, ?_, by omega, by omega⟩ <;> rw [h5]
  · exact h3
  · exact h4
  · intro k j e; cases e

theorem Idle.eff {X D : Nat → Prop} {s s' : AState} {h : Nat} {L : List JVal} (hi : Idle s h L) (he : Eff X D s s') (hX : ¬ X h) (hD : ¬ D (s.coll h).thr) :
    Idle s' h L := by
  obtain ⟨h1, t, h2, h3, h4, h5⟩ := hi
  rw [h5] at hD
  exact ⟨Nat.lt_of_lt_of_le h1 he.n, t, h2, Nat.lt_of_lt_of_le h3 he.nt, by rw [he.dead t h3 hD]; exact h4, by rw [he.coll h h1 hX]; exact h5⟩

end AState

namespace JPath
open AState IProg GoJson Rfc9535

variable {ε : Type}

theorem rel2_get {α β : Type} {R : α → β → Prop} {l : List α} {m : List β} (h : Rel2 R l m) : ∀ {i : Nat} {b : β}, m[i]? = some b → ∃ a, l[i]? = some a ∧ R a b := by
  induction h with
  | nil => intro i b hb; simp at hb
  | cons h1 _ ih =>
    intro i b hb
    cases i with
    | zero => simp only [List.getElem?_cons_zero, Option.some.injEq] at hb ⊢; subst hb; exact ⟨_, rfl, h1⟩
    | succ i => simp only [List.getElem?_cons_succ] at hb ⊢; exact ih hb

theorem rel2_left {α β : Type} {R : α → β → Prop} {l : List α} {m : List β} (h : Rel2 R l m) : ∀ a ∈ l, ∃ b ∈ m, R a b := by
  induction h with
  | nil => intro a ha; cases ha
  | cons h1 _ ih =>
    intro a ha
    rcases List.mem_cons.1 ha with rfl | ha
    · exact ⟨_, List.mem_cons_self, h1⟩
    · obtain ⟨b, hb, hr⟩ := ih a ha; exact ⟨b, List.mem_cons_of_mem _ hb, hr⟩

theorem rel2_mono {α β : Type} {R R' : α → β → Prop} {l : List α} {m : List β} (h : Rel2 R l m) (hi : ∀ a ∈ l, ∀ b, R a b → R' a b) : Rel2 R' l m := by
  induction h with
  | nil => exact .nil
  | cons h1 _ ih => exact .cons (hi _ List.mem_cons_self _ h1) (ih fun a ha => hi a (List.mem_cons_of_mem _ ha))

theorem Fresh.coll {s : AState} {x : Val} {v : JVal} (h : Fresh s x v) (hv : IsColl v) : ∃ j, x.idx = some j := by
  cases v with
  | scalar k => exact absurd rfl (hv k)
  | arr l e => obtain ⟨i, t, h, -⟩ := h; exact ⟨i, by rw [h]; rfl⟩
  | obj l e => obtain ⟨i, t, h, -⟩ := h; exact ⟨i, by rw [h]; rfl⟩

theorem Fresh.scalar {s : AState} {k : Scalar} {v : JVal} (h : Fresh s (.scalar k) v) : v = .scalar k := by
  cases v with
  | scalar k' => simp only [Fresh, Val.scalar.injEq] at h; rw [h]
  | arr l e => obtain ⟨i, t, h, -⟩ := h; cases h
  | obj l e => obtain ⟨i, t, h, -⟩ := h; cases h

/-! ## What the context keeps -/

/-- An unread value of the context. -/
def Kept (n0 : Nat) (s : AState) (y : Val) (w : JVal) : Prop := Fresh s y w ∧ ∀ j, y.idx = some j → n0 ≤ j ∧ (s.coll j).thr ≠ 0

theorem Kept.mod {n0 : Nat} {F : Nat → Prop} {s s' : AState} {y : Val} {w : JVal} (h : Kept n0 s y w) (hm : Mod F s s') (hF : ∀ j, y.idx = some j → ¬ F j) :
    Kept n0 s' y w := by
  refine ⟨hm.fresh h.1 hF, fun j hj => ⟨(h.2 j hj).1, ?_⟩⟩
  rw [hm.eff.coll j (h.1.lt j hj) (hF j hj)]
  exact (h.2 j hj).2

/-- The handles of the context. -/
def Ctx.C (ctx : Ctx) (j : Nat) : Prop := (∃ y ∈ ctx.sing, y.idx = some j) ∨ j ∈ ctx.queries

/-- The context holds the values `ws` and the lists `Ls`, unread. -/
structure CtxJ (n0 : Nat) (ctx : Ctx) (ws : List JVal) (Ls : List (List JVal)) (s : AState) : Prop where
  sing : Rel2 (Kept n0 s) ctx.sing ws
  queries : Rel2 (fun h L => n0 ≤ h ∧ Idle s h L) ctx.queries Ls

theorem CtxJ.mod {n0 : Nat} {ctx : Ctx} {ws Ls} {F : Nat → Prop} {s s' : AState} (h : CtxJ n0 ctx ws Ls s) (hm : Mod F s s') (hF : ∀ j, ctx.C j → ¬ F j) :
    CtxJ n0 ctx ws Ls s' :=
  ⟨rel2_mono h.sing fun y hy w hk => hk.mod hm fun j hj => hF j (.inl ⟨y, hy, hj⟩), rel2_mono h.queries fun i hi L hk => ⟨hk.1, hk.2.mod hm (hF i (.inr hi))⟩⟩

theorem CtxJ.ge {n0 : Nat} {ctx : Ctx} {ws Ls} {s : AState} (h : CtxJ n0 ctx ws Ls s) : ∀ j, ctx.C j → n0 ≤ j ∧ j < s.n := by
  rintro j (⟨y, hy, hj⟩ | hj)
  · obtain ⟨w, -, h1, h2⟩ := rel2_left h.sing y hy
    exact ⟨(h2 j hj).1, h1.lt j hj⟩
  · obtain ⟨L, -, h1, h2⟩ := rel2_left h.queries j hj
    exact ⟨h1, h2.1⟩

theorem ctx_frame (n0 : Nat) (ctx : Ctx) (ws : List JVal) (Ls : List (List JVal)) : Frame ctx.C (CtxJ n0 ctx ws Ls) :=
  ⟨fun h hm hF => h.mod hm hF, fun h j hj => (h.ge j hj).2⟩

theorem mustDetach_eq {d : Option Nat} {t : Nat} (h : d = some t) : (mustDetach d : IProg ε Unit) = detachOpt d := by subst h; rfl

/-! ## Singular queries -/

section
variable {S : Bytes → Prop} {fuel : Nat} {root : JVal}

/-- One entry of the context. -/
theorem singCtx_step (hI : Input S fuel root) (hR : IsColl root) {segs : List SingSeg} {w : JVal} (hv : singVal segs root = some w) {s : AState} {x : Val}
    (hw : WF s) (hx : Fresh s x root) (l : List (List SingSeg)) (vs : List Val) :
    ∃ s' y, (singCtx fuel x (segs :: l) vs : IProg ε _).run AState.mach s = (singCtx fuel x l (vs ++ [y])).run AState.mach s' ∧
      Mod (fun j => x.idx = some j) s s' ∧ Fresh s' x root ∧ Kept s.n s' y w := by
  obtain ⟨s1, p, e1, m1, f1, o1, n1⟩ := clone_mod hw hx
  have hxn := hx.lt
  obtain ⟨j, hj⟩ := Fresh.coll o1.fresh hR
  obtain ⟨s2, y, g1, g2, g3⟩ := singEval_run (ε := ε) hI.closed segs s1 p.1 root m1.wf o1.fresh (desc_self root) hI.len
  rw [hv] at g3
  obtain ⟨y, rfl, fy, hy⟩ := g3
  have hp2 := (o1.own j hj).1
  have hnj := n1 j hj
  have hyj : ∀ i, y.idx = some i → s.n ≤ i := by
    intro i hi
    rcases hy i hi with h | h
    · have := m1.n; omega
    · exact (n1 i h).1
  have fin : ∀ (s3 : AState), Mod (fun i => s.n ≤ i) s1 s3 → ∃ s', (mustDetach p.2 : IProg ε Unit).run AState.mach s3 = ([], .ok (s', ())) ∧
      Mod (fun i => s.n ≤ i) s1 s' ∧ Eff (fun _ => False) (fun t => p.2 = some t) s3 s' := by
    intro s3 hm
    rw [mustDetach_eq hp2]
    exact detach_mod m1.wf hm o1 (fun i hi => (n1 i hi).1)
  have last : ∀ s', Mod (fun i => s.n ≤ i) s1 s' → Mod (fun j => x.idx = some j) s s' ∧ Fresh s' x root := by
    intro s' hm
    exact ⟨m1.trans hm (fun i hi h => by omega), hm.fresh f1 (fun i hi h => by have := hxn i hi; omega)⟩
  have m2 : Mod (fun i => s.n ≤ i) s1 s2 := g2.mono m1.wf (fun i _ h => (n1 i h).1)
  cases y with
  | scalar k =>
    obtain ⟨s3, k1, k2, k3⟩ := fin s2 m2
    refine ⟨s3, .scalar k, ?_, (last s3 k2).1, (last s3 k2).2, fy.eff k3 (fun i hi => by cases hi), fun i hi => by cases hi⟩
    rw [singCtx, arun_op e1, run_ok_bind g1]
    simp only
    rw [run_ok_bind k1]
    rfl
  | coll k i =>
    obtain ⟨s3, c1, c2⟩ := copy_mod g2.wf fy
    have hnt0 : 0 < s3.nt := by
      have := c2.eff.nt; have := g2.eff.nt; have := m1.wf.thr j (o1.fresh.lt j hj); omega
    obtain ⟨s4, d1, d2, d3, d4, d5⟩ := data_mod c2.wf hnt0 [w]
    rw [show streamToks [w] = w.toks by simp [streamToks]] at d1
    obtain ⟨s5, y, a1, a2, a3, a4, a5, a6⟩ := adv_cons_mod d2.wf d3.before
    obtain ⟨-, a7⟩ := adv_thr d2.wf d3.before a1 a2
    have m3 : Mod (fun i => s.n ≤ i) s1 s3 := m2.trans c2 (fun i' _ h => hyj i' h)
    have m4 : Mod (fun i => s.n ≤ i) s1 s4 := m3.trans d2 (fun _ _ h => h.elim)
    have h3 : s.n ≤ s3.n := by have := m1.n; have := g2.n; have := c2.n; omega
    have m5 : Mod (fun i => s.n ≤ i) s1 s5 := m4.trans a4 (fun i' _ h => by rcases h with rfl | ⟨h, -⟩ <;> omega)
    obtain ⟨s6, k1, k2, k3⟩ := fin s5 m5
    have hthr : ∀ t, p.2 = some t → t < s3.nt := by
      intro t ht
      rw [hp2] at ht
      cases ht
      have := c2.eff.nt; have := g2.eff.nt; have := m1.wf.thr j (o1.fresh.lt j hj); omega
    refine ⟨s6, y, ?_, (last s6 k2).1, (last s6 k2).2, a5.eff k3 (fun i' hi' => ⟨fun h => h, fun h => ?_⟩), fun i' hi' => ⟨?_, ?_⟩⟩
    · rw [singCtx, arun_op e1, run_ok_bind g1]
      simp only
      rw [arun_op c1, arun_op d1, arun_op a1, arun_op a2]
      simp only
      rw [run_ok_bind k1]
      rfl
    · rw [a7 i' hi', d4] at h
      have := hthr _ h
      omega
    · have := a6 i' hi'; omega
    · rw [k3.coll i' (a5.lt i' hi') (fun h => h), a7 i' hi', d4]; omega

theorem singCtx_run (hI : Input S fuel root) (hR : IsColl root) {x : Val} {n0 : Nat} (hx0 : ∀ j, x.idx = some j → j < n0) : ∀ (l : List (List SingSeg)) (ws' : List JVal), Rel2 (fun segs w => singVal segs root = some w) l ws' →
    ∀ (s : AState) (vs : List Val) (ws : List JVal), WF s → Fresh s x root → n0 ≤ s.n → Rel2 (Kept n0 s) vs ws →
    ∃ s' vs', (singCtx fuel x l vs : IProg ε _).run AState.mach s = ([], .ok (s', vs')) ∧ Mod (fun j => x.idx = some j) s s' ∧ Fresh s' x root ∧
      Rel2 (Kept n0 s') vs' (ws ++ ws') := by
  intro l ws' h
  induction h with
  | nil =>
    intro s vs ws hw hx hn hk
    exact ⟨s, vs, rfl, .refl hw, hx, by rw [List.append_nil]; exact hk⟩
  | @cons segs w l ws' h1 _ ih =>
    intro s vs ws hw hx hn hk
    obtain ⟨s1, y, e1, e2, e3, e4⟩ := singCtx_step (ε := ε) hI hR h1 hw hx l vs
    have hk1 : Rel2 (Kept n0 s1) (vs ++ [y]) (ws ++ [w]) := by
      refine Rel2.append (rel2_mono hk fun a ha b hb => hb.mod e2 fun j hj h => ?_) (.cons ⟨e4.1, fun j hj => ⟨?_, (e4.2 j hj).2⟩⟩ .nil)
      · have := (hb.2 j hj).1; have := hx0 j h; omega
      · have := (e4.2 j hj).1; omega
    obtain ⟨s2, vs', g1, g2, g3, g4⟩ := ih s1 (vs ++ [y]) (ws ++ [w]) e2.wf e3 (Nat.le_trans hn e2.n) hk1
    refine ⟨s2, vs', by rw [e1, g1], e2.trans g2 (fun _ _ h => h), g3, ?_⟩
    rw [List.append_assoc] at g4
    exact g4

end

/-! ## Other queries -/

theorem rel2_get' {α β : Type} {R : α → β → Prop} {l : List α} {m : List β} (h : Rel2 R l m) : ∀ {i : Nat} {a : α}, l[i]? = some a → ∃ b, m[i]? = some b ∧ R a b := by
  induction h with
  | nil => intro i b hb; simp at hb
  | cons h1 _ ih =>
    intro i b hb
    cases i with
    | zero => simp only [List.getElem?_cons_zero, Option.some.injEq] at hb ⊢; subst hb; exact ⟨_, rfl, h1⟩
    | succ i => simp only [List.getElem?_cons_succ] at hb ⊢; exact ih hb

theorem collect_floop : ∀ (L acc : List JVal), floop (fun (acc : List JVal) v => (acc ++ [v], true)) L acc = (acc ++ L, true)
  | [], acc => by simp [floop]
  | v :: L, acc => by
    simp only [floop, if_true]
    rw [collect_floop L, List.append_assoc]
    rfl

theorem streamToks_append (a b : List JVal) : streamToks (a ++ b) = streamToks a ++ streamToks b := by
  induction a with
  | nil => simp [streamToks]
  | cons v a ih => simp only [streamToks, List.cons_append, itemToks_cons] at ih ⊢; rw [ih, List.append_assoc]

theorem collectFin_ok {G : JVal → Prop} : FinOk (ε := ε) (fun o q q' => o = [] ∧ q = streamToks q') G collectFin (fun (acc : List JVal) v => (acc ++ [v], true)) := by
  intro s x v acc q q' hw hx hv hR
  obtain ⟨s', e1, e2⟩ := copy_mod hw hx
  refine ⟨s', [], q ++ v.toks, ?_, ⟨by simp [hR.1], ?_⟩, e2⟩
  · unfold collectFin
    rw [arun_op e1]
    rfl
  · rw [hR.2, streamToks_append]
    simp [streamToks]

section
variable {lib : Lib} {re : Sem} {S : Bytes → Prop} {fuel : Nat} {root : JVal} {strict : Bool}

/-- The nodes found are those of the specification. -/
def Found (re : Sem) (root : JVal) (q : List Segment × List SegR) (L : List JVal) : Prop := L.Perm (nodes re root q.1 root)

theorem covers_of (hI : Input S fuel root) {n0 : Nat} {ctx : Ctx} {ws : List JVal} {Ls : List (List JVal)} {s0 : AState} (hJ : CtxJ n0 ctx ws Ls s0) {tab : Tables}
    (hsing : ∀ segs ∈ tab.sing, SingOk segs) (hs : Rel2 (fun segs w => singVal segs root = some w) tab.sing ws)
    (hq : Rel2 (Found re root) tab.queries Ls) (hf : ∀ q ∈ tab.queries, (nodes re root q.1 root).length < fuel) :
    Covers ctx.C (CtxJ n0 ctx ws Ls) re root ⟨lib, strict, fuel, ctx⟩ tab := by
  constructor
  · intro i segs hi
    obtain ⟨w, h1, h2⟩ := rel2_get' hs hi
    obtain ⟨y, h3, -⟩ := rel2_get hJ.sing h1
    obtain ⟨d, hd⟩ := hI.den
    refine ⟨y, w, h3, ?_, ?_⟩
    · rw [singNodes_spec (hsing segs (List.mem_of_getElem? hi)) hd hI.max, h2]; rfl
    · intro s hs
      obtain ⟨y', h4, h5⟩ := rel2_get hs.sing h1
      rw [h3] at h4
      cases h4
      exact ⟨h5.1, fun j hj => ⟨.inl ⟨y, List.mem_of_getElem? h3, hj⟩, (h5.2 j hj).2⟩⟩
  · intro i segs r hi
    obtain ⟨L, h1, h2⟩ := rel2_get' hq hi
    obtain ⟨h, h3, -⟩ := rel2_get hJ.queries h1
    refine ⟨h, L, h3, ?_, h2, ?_⟩
    · intro s hs
      obtain ⟨h', h4, h5⟩ := rel2_get hs.queries h1
      rw [h3] at h4
      cases h4
      exact h5.2
    · show L.length < fuel
      rw [h2.length_eq]
      exact hf _ (List.mem_of_getElem? hi)

theorem queryCtx_step (hI : Input S fuel root) (hR : IsColl root) {n0 : Nat} {ctx : Ctx} {ws : List JVal} {Ls : List (List JVal)} {s : AState}
    (hJ : CtxJ n0 ctx ws Ls s) {tab0 tab1 : Tables} {segs : List Segment} {r : List SegR} (hc : compileSegs tab0 segs = some (tab1, r))
    (hsafe : safeSegs lib re S root segs) (hC : Covers ctx.C (CtxJ n0 ctx ws Ls) re root ⟨lib, strict, fuel, ctx⟩ tab1)
    {x : Val} (hw : WF s) (hx : Fresh s x root) (hn : n0 ≤ s.n) (hx0 : ∀ j, x.idx = some j → j < n0) (l : List (List SegR)) :
    ∃ s' it L, (queryCtx lib strict fuel x (r :: l) ctx : IProg ε _).run AState.mach s =
        (queryCtx lib strict fuel x l { ctx with queries := ctx.queries ++ [it] }).run AState.mach s' ∧
      Mod (fun j => x.idx = some j) s s' ∧ Fresh s' x root ∧ CtxJ n0 { ctx with queries := ctx.queries ++ [it] } ws (Ls ++ [L]) s' ∧
      Found re root (segs, r) L := by
  obtain ⟨s1, p, e1, m1, f1, o1, n1⟩ := clone_mod hw hx
  have hxn := hx.lt
  obtain ⟨j, hj⟩ := Fresh.coll o1.fresh hR
  have hp2 := (o1.own j hj).1
  have hFr := ctx_frame n0 ctx ws Ls
  have J1 : CtxJ n0 ctx ws Ls s1 := hJ.mod m1 (fun i hi h => by have := (hJ.ge i hi).1; have := hx0 i h; omega)
  obtain ⟨N, hN, hrun⟩ := run_ok' (lib := lib) (ε := ε) (e := ⟨lib, strict, fuel, ctx⟩) hFr hI hsafe (compileSegs_ok hFr hI hc hsafe hC)
    _ _ collectFin _ _ collectFin_ok
  obtain ⟨s2, o, q1, g1, g2, g3⟩ := hrun s1 p.1 root [] [] [] m1.wf J1 o1.fresh (desc_self root) (fun i hi hc => by
    have := (n1 i hi).1; have := (hJ.ge i hc).2; omega) ⟨rfl, rfl⟩ (.inl (by rw [collect_floop]))
  rw [collect_floop] at g1 g2
  obtain ⟨ho, rfl⟩ := g2
  simp only [List.nil_append] at ho g1
  subst ho
  have hnt : (s1.coll j).thr < s2.nt := by
    have := g3.eff.nt; have := m1.wf.thr j (o1.fresh.lt j hj); omega
  obtain ⟨s3, d1, d2, d3, d4, d5⟩ := data_mod g3.wf (by omega) (N root)
  have m2 : Mod (fun i => s.n ≤ i) s1 s2 := g3.mono m1.wf (fun i _ h => (n1 i h).1)
  have m3 : Mod (fun i => s.n ≤ i) s1 s3 := m2.trans d2 (fun _ _ h => h.elim)
  obtain ⟨s4, k1, k2, k3⟩ := detach_mod (ε := ε) m1.wf m3 o1 (fun i hi => (n1 i hi).1)
  have h2 : s.n ≤ s2.n := by have := m1.n; have := g3.n; omega
  refine ⟨s4, s2.n, N root, ?_, m1.trans k2 (fun i hi h => by omega), k2.fresh f1 (fun i hi h => by have := hxn i hi; omega), ⟨?_, ?_⟩,
    (hN root (desc_self root)).1⟩
  · rw [queryCtx, arun_op e1, run_ok_bind g1]
    simp only
    rw [arun_op d1, mustDetach_eq hp2, run_ok_bind k1]
    rfl
  · exact (J1.mod k2 (fun i hi h => by have := (hJ.ge i hi).2; omega)).sing
  · refine Rel2.append (J1.mod k2 (fun i hi h => by have := (hJ.ge i hi).2; omega)).queries (.cons ⟨by omega, d3.eff k3 (fun h => h) fun h => ?_⟩ .nil)
    rw [d4, hp2] at h
    simp only [Option.some.injEq] at h
    omega

theorem queryCtx_run (hI : Input S fuel root) (hR : IsColl root) {n0 : Nat} {x : Val} (hx0 : ∀ j, x.idx = some j → j < n0) {tab : Tables}
    (hE : Entries lib re S root tab) {ws : List JVal} (hs : Rel2 (fun segs w => singVal segs root = some w) tab.sing ws)
    (hf : ∀ q ∈ tab.queries, (nodes re root q.1 root).length < fuel) : ∀ (l done : List (List Segment × List SegR)), tab.queries = done ++ l →
    ∀ (s : AState) (ctx : Ctx) (Ls : List (List JVal)), CtxJ n0 ctx ws Ls s → Rel2 (Found re root) done Ls → WF s → Fresh s x root → n0 ≤ s.n →
    ∃ s' ctx' Ls', (queryCtx lib strict fuel x (l.map (·.2)) ctx : IProg ε _).run AState.mach s = ([], .ok (s', ctx')) ∧
      Mod (fun j => x.idx = some j) s s' ∧ Fresh s' x root ∧ CtxJ n0 ctx' ws Ls' s' ∧ Rel2 (Found re root) tab.queries Ls' := by
  intro l
  induction l with
  | nil =>
    intro done hd s ctx Ls hJ hq hw hx hn
    rw [List.append_nil] at hd
    exact ⟨s, ctx, Ls, rfl, .refl hw, hx, hJ, by rw [hd]; exact hq⟩
  | cons q l ih =>
    intro done hd s ctx Ls hJ hq hw hx hn
    obtain ⟨segs, r⟩ := q
    obtain ⟨-, h1, tab0, tab1, h2, h3, h4⟩ := hE.queries done.length segs r (by rw [hd]; simp)
    have h3 : tab1.queries = done := by rw [h3, hd]; simp
    have hC : Covers ctx.C (CtxJ n0 ctx ws Ls) re root ⟨lib, strict, fuel, ctx⟩ { tab with queries := done } :=
      covers_of hI hJ (fun segs h => (hE.sing segs h).1) hs hq (fun q hq => hf q (by rw [hd]; exact List.mem_append_left _ hq))
    obtain ⟨s1, it, L, g1, g2, g3, g4, g5⟩ := queryCtx_step (ε := ε) (strict := strict) hI hR hJ h2 h1 (hC.mono ⟨h4, by rw [h3]; exact List.prefix_refl _⟩)
      hw hx hn hx0 (l.map (·.2))
    obtain ⟨s2, ctx', Ls', k1, k2, k3, k4, k5⟩ := ih (done ++ [(segs, r)]) (by rw [hd]; simp) s1 _ (Ls ++ [L]) g4 (hq.append (.cons g5 .nil)) g2.wf g3
      (Nat.le_trans hn g2.n)
    exact ⟨s2, ctx', Ls', by rw [List.map_cons, g1, k1], g2.trans k2 (fun _ _ h => h), k3, k4, k5⟩

/-- The context is computed. -/
theorem runContext_run (hI : Input S fuel root) (hR : IsColl root) {tab : Tables} (hE : Entries lib re S root tab) (main : List SegR)
    (hf : ∀ q ∈ tab.queries, (nodes re root q.1 root).length < fuel) {s : AState} {x : Val} (hw : WF s) (hx : Fresh s x root) :
    ∃ s' ctx ws Ls, (runContext lib strict fuel ⟨main, tab.sing, tab.queries.map (·.2)⟩ x : IProg ε _).run AState.mach s = ([], .ok (s', ctx)) ∧
      Mod (fun j => x.idx = some j) s s' ∧ Fresh s' x root ∧ CtxJ s.n ctx ws Ls s' ∧
      Covers ctx.C (CtxJ s.n ctx ws Ls) re root ⟨lib, strict, fuel, ctx⟩ tab := by
  obtain ⟨d, hd⟩ := hI.den
  obtain ⟨ws, hws⟩ : ∃ ws, Rel2 (fun segs w => singVal segs root = some w) tab.sing ws := by
    have : ∀ l : List (List SingSeg), (∀ segs ∈ l, segs ∈ tab.sing) → ∃ ws, Rel2 (fun segs w => singVal segs root = some w) l ws := by
      intro l
      induction l with
      | nil => intro _; exact ⟨[], .nil⟩
      | cons a l ih =>
        intro h
        obtain ⟨ws, hws⟩ := ih fun b hb => h b (List.mem_cons_of_mem _ hb)
        obtain ⟨h1, -, h3⟩ := hE.sing a (h a List.mem_cons_self)
        rw [singNodes_spec h1 hd hI.max] at h3
        cases hv : singVal a root with
        | none => rw [hv] at h3; exact absurd rfl h3
        | some w => exact ⟨w :: ws, .cons hv hws⟩
    exact this _ fun _ h => h
  obtain ⟨s1, vs, e1, e2, e3, e4⟩ := singCtx_run (ε := ε) hI hR (n0 := s.n) hx.lt tab.sing ws hws s [] [] hw hx (Nat.le_refl _) .nil
  obtain ⟨s2, ctx, Ls, g1, g2, g3, g4, g5⟩ := queryCtx_run (ε := ε) (strict := strict) hI hR hx.lt hE hws hf tab.queries [] rfl s1 ⟨vs, []⟩ []
    ⟨e4, .nil⟩ .nil e2.wf e3 e2.n
  refine ⟨s2, ctx, ws, Ls, ?_, e2.trans g2 (fun _ _ h => h), g3, g4, covers_of hI g4 (fun segs h => (hE.sing segs h).1) hws g5 hf⟩
  unfold runContext
  rw [run_ok_bind e1, g1]
  rfl

/-- Without entries, the context is empty. -/
theorem runContext_nil (main : List SegR) {s : AState} {x : Val} :
    (runContext lib strict fuel ⟨main, [], []⟩ x : IProg ε _).run AState.mach s = ([], .ok (s, ⟨[], []⟩)) := rfl

end

end JPath
end Verif
