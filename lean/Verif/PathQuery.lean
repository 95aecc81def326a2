import Verif.PathNodes

/-!
# Queries in conditions

What `MapValue` does, for relative queries and for entries of the context.
-/

set_option linter.unusedSimpArgs false
set_option linter.unusedVariables false

namespace Verif

namespace AState

/-- An iterator over the values `L` that has not been used and is not the one over the input. -/
def Idle (s : AState) (h : Nat) (L : List JVal) : Prop :=
  h < s.n ∧ ∃ t, t ≠ 0 ∧ t < s.nt ∧ s.dead t = false ∧ s.coll h = ⟨.top, t, false, false, false, none, none, L.map (none, ·), false⟩

theorem Idle.mod {F : Nat → Prop} {s s' : AState} {h : Nat} {L : List JVal} (hi : Idle s h L) (hm : Mod F s s') (hF : ¬ F h) : Idle s' h L := by
  obtain ⟨h1, t, h2, h3, h4, h5⟩ := hi
  refine ⟨Nat.lt_of_lt_of_le h1 hm.n, t, h2, Nat.lt_of_lt_of_le h3 hm.eff.nt, ?_, ?_⟩
  · rw [hm.eff.dead t h3 (fun e => hF (e h h1 (by rw [h5])))]; exact h4
  · rw [hm.eff.coll h h1 hF]; exact h5

/-- `Clone` of an iterator over data. -/
theorem clone_top {s : AState} {h : Nat} {L : List JVal} (hw : WF s) (hi : Idle s h L) :
    ∃ s', s.step (.clone (.coll .top h)) = .ok (s', (Val.coll .top s.n, some s.nt)) ∧ Mod (fun _ => False) s s' ∧
      Before s' (s.n + 1) s.n .top (L.map (none, ·)) false ∧ Own s' s.n ∧ (s'.coll s.n).thr = s.nt ∧ s.nt ≠ 0 := by
  obtain ⟨h1, t, h2, h3, h4, h5⟩ := hi
  have e1 : s.step (.clone (.coll .top h)) = .ok ({ s.alloc { s.coll h with thr := s.nt, key := none } with
      nt := s.nt + 1
      det := fun t => if t = s.nt then true else s.det t }, (Val.coll .top s.n, some s.nt)) := by
    show (s.clone (.coll .top h)).map _ = _
    unfold clone
    simp only
    rw [if_neg (by rw [h5]; simp; omega), if_neg (by rw [h5]; simp [begun]), if_neg (by rw [h5]; simp [h4]), if_neg (by rw [h5]; exact h2)]
    rfl
  generalize hs : ({ s.alloc { s.coll h with thr := s.nt, key := none } with
      nt := s.nt + 1
      det := fun t => if t = s.nt then true else s.det t } : AState) = s' at e1
  have hn : s'.n = s.n + 1 := by rw [← hs]; rfl
  have hnt : s'.nt = s.nt + 1 := by rw [← hs]
  have hnew : s'.coll s.n = ⟨.top, s.nt, false, false, false, none, none, L.map (none, ·), false⟩ := by
    rw [← hs]
    show (s.alloc _).coll s.n = _
    rw [AInv.alloc_new, h5]
  have hold : ∀ j < s.n, s'.coll j = s.coll j := by
    intro j hj
    rw [← hs]; exact AInv.alloc_old hj
  have hdead : ∀ t, s'.dead t = s.dead t := by intro t; rw [← hs]; rfl
  have hdet : ∀ t, s'.det t = if t = s.nt then true else s.det t := by intro t; rw [← hs]
  have hw' : WF s' := hw.step e1
  refine ⟨s', e1, .of_eff hw' ⟨by omega, by omega, fun j hj _ => hold j hj, fun t _ _ => hdead t, ?_, ?_, ?_⟩, ?_, ?_, by rw [hnew], by omega⟩
  · intro t ht; rw [hdet, if_neg (by omega)]
  · intro j hj
    by_cases e : j = s.n
    · subst e; left; rw [hnew]; exact Nat.le_refl _
    · right; exact ⟨j, by omega, .inr rfl, by rw [hold j (by omega)]⟩
  · intro g hg k j e
    by_cases e' : g = s.n
    · subst e'; rw [hnew] at e; cases e
    · right; rw [hold g (by omega)] at e; exact ⟨by omega, e⟩
  · refine ⟨by omega, ?_, ?_, ?_, ?_, ?_, ?_, ?_, ?_, by omega, by omega⟩ <;> rw [hnew]
    · show s.nt < _; omega
    · show s'.dead s.nt = false; rw [hdead]; exact hw.dead _ (Nat.le_refl _)
    · intro k j e; cases e
  · refine ⟨?_, ?_, ?_⟩
    · rw [hnew]; show s'.det s.nt = true; rw [hdet, if_pos rfl]
    · intro g hg e
      rw [hnew] at e
      apply Classical.byContradiction
      intro hne
      rw [hold g (by omega)] at e
      have := hw.thr g (by omega)
      have e : (s.coll g).thr = s.nt := e
      omega
    · intro g hg k e
      by_cases e' : g = s.n
      · subst e'; rw [hnew] at e; cases e
      · rw [hold g (by omega)] at e
        have := (hw.links g (by omega) k _ e).2
        omega

/-- `Advance` at the end of an iterator over data. -/
theorem adv_top_mod {F : Nat → Prop} {s : AState} {n0 a : Nat} {e : Bool} (hw : WF s) (h : Before s n0 a .top [] e) (ha : F a)
    (hn : ∀ g, n0 ≤ g → F g) (ht : ∀ g < s.n, (s.coll g).thr = (s.coll a).thr → F g) :
    ∃ s', s.step (.advance a) = .ok (s', false) ∧ Mod F s s' := by
  obtain ⟨c1, c2, c3, c4⟩ := discardCur_keep hw.links h.lt h.i0 h.cur
  have hb := h.keep c1 h.i0 (by simp)
  have hci := c1.coll a h.i0 (by simp)
  have he1 := eff_discardCur' hw.links h.lt h.cur
  generalize hd : s.discardCur a = s1 at *
  have hadv : s.step (.advance a) = s1.advance' a := by
    simp only [step, advance]
    rw [if_neg (by have := h.lt; omega), if_neg (by rw [h.done]; simp), hd]
  rw [ISim.advance'_nil hb.alive hb.rest, if_pos hb.kind] at hadv
  refine ⟨_, hadv, hw.step hadv, ?_⟩
  have he2 := eff_set (s := s1) a { s1.coll a with cur := none } rfl (fun k j e => by cases e)
  have he : Eff F (fun _ => False) s (s1.set a { s1.coll a with cur := none }) :=
    (he1.trans he2 (fun i _ e => .inl e) (fun _ _ e => e)).mono (fun i _ e => e.elim (fun e => e ▸ ha) (fun e => hn i e.1)) (fun _ _ e => e)
  refine ⟨he.n, he.nt, he.coll, ?_, he.det, he.thr, he.cur⟩
  intro t ht' hnd
  show (if t = (s1.coll a).thr ∧ t ≠ 0 then true else s1.dead t) = s.dead t
  rw [if_neg]
  · exact he1.dead t ht' (fun e => e)
  · rintro ⟨e, -⟩
    apply hnd
    intro g hg hgt
    apply ht g hg
    rw [hgt, e, hci]

end AState

namespace JPath
open AState IProg GoJson Rfc9535

variable {ε : Type} {C : Nat → Prop} {J : AState → Prop} {G : JVal → Prop}

/-- Values are handed to a final processor one by one, until one is refused. -/
def floop {ψ : Type} (tfin : ψ → JVal → ψ × Bool) : List JVal → ψ → ψ × Bool
  | [], q => (q, true)
  | v :: l, q => if (tfin q v).2 then floop tfin l (tfin q v).1 else tfin q v

theorem feed_floop {ψ : Type} (tfin : ψ → JVal → ψ × Bool) : ∀ (l : List JVal) (q : ψ), feed tfin l [] q = ([], floop tfin l q)
  | [], _ => rfl
  | v :: l, q => by
    simp only [feed, floop, tprocess]
    split
    · rename_i h; simp only [h, if_true]; exact feed_floop tfin l _
    · rename_i h; simp only [h]; simp

/-- The query hands the nodes over; if `exact` in this order. -/
def QueryOk (e : Env) (C : Nat → Prop) (J : AState → Prop) (G : JVal → Prop) (single exact : Prop) (q : QueryP ε) (nodes : JVal → List JVal) : Prop :=
  ∀ (φ ψ : Type) (fin : φ → Val → IProg ε (φ × Bool)) (tfin : ψ → JVal → ψ × Bool) (R : List ε → φ → ψ → Prop), FinOk R G fin tfin →
    ∃ N : JVal → List JVal, (∀ v, G v → (N v).Perm (nodes v) ∧ (exact → N v = nodes v)) ∧
      ∀ s x v acc q0 q0', WF s → J s → Fresh s x v → G v → (∀ j, x.idx = some j → ¬ C j) → R acc q0 q0' →
        ((floop tfin (N v) q0').2 = true ∨ single) →
        ∃ s' o q1, (mapValue e fin q q0 x).run AState.mach s = (o, .ok (s', (q1, (floop tfin (N v) q0').2))) ∧
          R (acc ++ o) q1 (floop tfin (N v) q0').1 ∧ Mod (fun j => x.idx = some j) s s'

/-- Relative queries whose nodes have the property `P`. -/
theorem query_run' {P : JVal → Prop} (hFr : Frame C J) (hG : Closed G) {e : Env} (hF : ∀ v, G v → v.toks.length ≤ e.fuel) {segs : List (Seg (CondP ε))}
    {tsgs : List (Seg (JVal → Bool))} (h : Rel2 (SegRel C J G P) segs tsgs) {φ ψ : Type} {fin : φ → Val → IProg ε (φ × Bool)}
    {tfin : ψ → JVal → ψ × Bool} {R : List ε → φ → ψ → Prop} (hfin : FinOk R G fin tfin) :
    ∃ N : JVal → List JVal, (∀ v, G v → (N v).Perm (tnodes tsgs v) ∧ (ExactAll e.strict tsgs → N v = tnodes tsgs v)) ∧
      ∀ s x v acc q0 q0', WF s → J s → Fresh s x v → G v → (∀ w ∈ tnodes tsgs v, P w) → (∀ j, x.idx = some j → ¬ C j) → R acc q0 q0' →
        ((floop tfin (N v) q0').2 = true ∨ ∀ seg ∈ tsgs, seg.sels.length ≤ 1 ∧ ∀ s ∈ seg.sels, s.reverses = false) →
        ∃ s' o q1, (mapValue e fin (.run segs) q0 x).run AState.mach s = (o, .ok (s', (q1, (floop tfin (N v) q0').2))) ∧
          R (acc ++ o) q1 (floop tfin (N v) q0').1 ∧ Mod (fun j => x.idx = some j) s s' := by
  obtain ⟨N, hN⟩ := segs_feeds' (fin := tfin) (P := ∀ seg ∈ tsgs, seg.sels.length ≤ 1 ∧ ∀ s ∈ seg.sels, s.reverses = false) (strict := e.strict)
    (F := e.fuel) (segs := tsgs) id
  refine ⟨N, fun v hv => (hN v (hF v hv)).2, ?_⟩
  intro s x v acc q0 q0' hw hJ hx hv hP hxC hR hok
  have hfeed := (hN v (hF v hv)).1 [] q0' (by rw [feed_floop]; exact hok)
  rw [feed_floop] at hfeed
  simp only at hfeed
  obtain ⟨s', o, S', q1, e1, e2⟩ := segsP_ok hFr hG hfin e.strict (F := e.fuel) h s [] [] q0 q0' acc x v
    ⟨hw, hJ, .nil, by simp, by simp, hR, by simp⟩ hx ⟨⟨hv, hF v hv⟩, hP⟩ (fun j hj => ⟨hxC j hj, by simp⟩)
  rw [hfeed] at e1 e2
  refine ⟨s', o, q1, ?_, e2.inv.fin, e2.mod.mono hw (fun i _ h => h.elim id (fun h => by simp at h))⟩
  simp only [mapValue]
  rw [run_ok_bind e1]
  simp [IProg.run]

/-- Relative queries. -/
theorem query_run (hFr : Frame C J) (hG : Closed G) {e : Env} (hF : ∀ v, G v → v.toks.length ≤ e.fuel) {segs : List (Seg (CondP ε))}
    {tsgs : List (Seg (JVal → Bool))} (h : Rel2 (SegRel C J G AnyVal) segs tsgs) :
    QueryOk e C J G (∀ seg ∈ tsgs, seg.sels.length ≤ 1) (∀ seg ∈ tsgs, Exact e.strict seg) (.run segs) (tnodes tsgs) := by
  intro φ ψ fin tfin R hfin
  have hrev : ∀ seg ∈ tsgs, ∀ s ∈ seg.sels, s.reverses = false := by
    clear hF
    induction h with
    | nil => intro seg hs; cases hs
    | cons h1 _ ih =>
      intro seg hs
      rcases List.mem_cons.1 hs with rfl | hs
      · intro s hs
        have : ∀ {l : List (Sel (CondP ε))} {m : List (Sel (JVal → Bool))}, Rel2 (SelRel C J G AnyVal) l m → ∀ s ∈ m, s.reverses = false := by
          intro l m h
          induction h with
          | nil => intro s hs; cases hs
          | cons h1 _ ih =>
            intro s hs
            rcases List.mem_cons.1 hs with rfl | hs
            · exact h1.rev'
            · exact ih s hs
        exact this h1.sels s hs
      · exact ih seg hs
  obtain ⟨N, hN, hr⟩ := query_run' hFr hG hF h hfin
  exact ⟨N, fun v hv => ⟨(hN v hv).1, fun he => (hN v hv).2 (exactAll_forward hrev he)⟩, fun s x v acc q0 q0' hw hJ hx hv hxC hR hok =>
    hr s x v acc q0 q0' hw hJ hx hv (fun _ _ => trivial) hxC hR (hok.imp id fun hs seg hm => ⟨hs seg hm, hrev seg hm⟩)⟩

theorem innerLoop_run {φ ψ : Type} {fin : φ → Val → IProg ε (φ × Bool)} {tfin : ψ → JVal → ψ × Bool} {R : List ε → φ → ψ → Prop}
    (hfin : FinOk R G fin tfin) {s0 : AState} {a : Nat} (hw0 : WF s0) (ho : Own s0 a) (ha : a < s0.n) : ∀ (L : List JVal) (s : AState) (f : Nat) (acc : List ε) (q : φ) (q' : ψ),
    WF s → Before s (a + 1) a .top (L.map (none, ·)) false → (s.coll a).thr = (s0.coll a).thr → Mod (a ≤ ·) s0 s → (∀ v ∈ L, G v) → R acc q q' →
    L.length < f →
    ∃ s' o q1, (innerLoop fin a f q).run AState.mach s = (o, .ok (s', (q1, (floop tfin L q').2))) ∧ R (acc ++ o) q1 (floop tfin L q').1 ∧
      Mod (a ≤ ·) s0 s' := by
  intro L
  induction L with
  | nil =>
    intro s f acc q q' hw hb hth hm hG hR hf
    obtain ⟨f, rfl⟩ : ∃ g, f = g + 1 := ⟨f - 1, by simp at hf; omega⟩
    obtain ⟨s', e1, e2⟩ := adv_top_mod (F := (a ≤ ·)) hw hb (Nat.le_refl _) (fun g hg => by omega) (fun g hg hgt => by
      rw [hth] at hgt
      apply Classical.byContradiction
      intro hlt
      have hg0 : g < s0.n := by omega
      rw [hm.eff.coll g hg0 hlt] at hgt
      exact hlt (by rw [ho.thr g hg0 hgt]; exact Nat.le_refl _))
    refine ⟨s', [], q, ?_, by rw [List.append_nil]; exact hR, hm.trans e2 (fun _ _ h => h)⟩
    unfold innerLoop
    rw [arun_op e1]
    rfl
  | cons v L ih =>
    intro s f acc q q' hw hb hth hm hG hR hf
    obtain ⟨f, rfl⟩ : ∃ g, f = g + 1 := ⟨f - 1, by simp at hf; omega⟩
    obtain ⟨s1, x, e1, e2, e3, e4, e5, e6⟩ := adv_cons_mod hw hb
    have hm1 : Mod (a ≤ ·) s0 s1 := hm.trans e4 (fun i _ h => by rcases h with rfl | ⟨h, -⟩ <;> omega)
    obtain ⟨s2, o, q1, g1, g2, g3⟩ := hfin s1 x v acc q q' e4.wf e5 (hG v List.mem_cons_self) hR
    have hlt := hb.lt
    have hm2 : Mod (a ≤ ·) s0 s2 := hm1.trans g3 (fun i _ h => by have := e6 i h; omega)
    have hxa : ¬ x.idx = some a := fun h => by have := e6 a h; omega
    have hb2 := g3.before e3 hxa
    have hth1 := (adv_thr hw hb e1 e2).1
    have hth2 : (s2.coll a).thr = (s0.coll a).thr := by
      rw [g3.eff.coll a (by have := e4.n; omega) hxa, hth1, hth]
    unfold innerLoop
    simp only [arun_op e1, if_true, arun_op e2]
    by_cases hc : (tfin q' v).2 = true
    · obtain ⟨s3, o', q2, k1, k2, k3⟩ := ih s2 f (acc ++ o) q1 (tfin q' v).1 g3.wf hb2 hth2 hm2 (fun w hw => hG w (List.mem_cons_of_mem _ hw)) g2
        (by simp at hf; omega)
      refine ⟨s3, o ++ o', q2, ?_, ?_, k3⟩
      · rw [run_ok_bind g1]
        simp only [hc, if_true, k1, floop]
      · rw [← List.append_assoc]; simp only [floop, if_pos hc]; exact k2
    · refine ⟨s2, o, q1, ?_, ?_, hm2⟩
      · rw [run_ok_bind g1]
        simp only [hc, if_false, floop, Bool.false_eq_true]
        simp [IProg.run, hc]
      · simp only [floop, if_neg hc]; exact g2

/-- Entries of the context. -/
theorem query_inner {e : Env} {i h : Nat} {L : List JVal} (he : e.ctx.queries[i]? = some h) (hJ : ∀ s, J s → Idle s h L) (hL : ∀ v ∈ L, G v)
    (hf : L.length < e.fuel) (single : Prop) {nodes : List JVal} (hp : L.Perm nodes) {exact' : Prop} (hex : exact' → L = nodes) :
    QueryOk (ε := ε) e C J G single exact' (.inner i) (fun _ => nodes) := by
  intro φ ψ fin tfin R hfin
  refine ⟨fun _ => L, fun v _ => ⟨hp, hex⟩, ?_⟩
  intro s x v acc q0 q0' hw hj hx hv hxC hR hok
  obtain ⟨s1, e1, e2, e3, e4, e5, -⟩ := clone_top hw (hJ s hj)
  have hlt := e3.lt
  obtain ⟨s2, o, q1, g1, g2, g3⟩ := innerLoop_run hfin e2.wf e4 hlt L s1 e.fuel acc q0 q0' e2.wf e3 rfl (.refl e2.wf) hL hR hf
  have hdet : s2.det s.nt = true := by
    have := e4.det
    rw [e5] at this
    have hnt := e3.thr
    rw [e5] at hnt
    rw [g3.eff.det _ hnt]; exact this
  have hnt : s.nt < s2.nt := by
    have hnt := e3.thr
    rw [e5] at hnt
    exact Nat.lt_of_lt_of_le hnt g3.eff.nt
  obtain ⟨s3, k1, k2, k3, -, -⟩ := run_detachOpt (ε := ε) (d := some s.nt) g3.wf (fun t ht => by cases ht; exact ⟨hnt, hdet⟩)
  refine ⟨s3, o, q1, ?_, g2, ?_⟩
  · simp only [mapValue, he]
    rw [arun_op e1]
    simp only
    rw [run_ok_bind g1, run_ok_bind k1]
    simp [IProg.run]
  · have hm : Mod (fun j => s.n ≤ j) s1 s3 := by
      refine ⟨k2, g3.eff.trans k3 (fun _ _ h => h.elim) ?_⟩
      intro t _ ht g hg hgt
      cases ht
      rw [← e5] at hgt
      rw [e4.thr g hg hgt]
      exact Nat.le_refl _
    exact (e2.mono hw (F' := fun j => x.idx = some j) (fun _ _ h => h.elim)).trans hm (fun i hi h => by omega)

/-! ## Existence tests -/

theorem haltFin_ok : FinOk (ε := ε) (fun o _ _ => o = []) G haltFin (fun (_ : Unit) _ => ((), false)) := by
  intro s x v acc q q' hw hx hv hR
  exact ⟨s, [], q, rfl, by rw [List.append_nil]; exact hR, .refl hw⟩

theorem halt_floop : ∀ (l : List JVal), (floop (fun (_ : Unit) _ => ((), false)) l ()).2 = l.isEmpty
  | [] => rfl
  | _ :: _ => rfl

open Classical in
/-- Existence tests. -/
theorem queryTruth_ok (hFr : Frame C J) {e : Env} {q : QueryP ε} {single exact' : Prop} {nodes : JVal → List JVal} (h : QueryOk e C J G single exact' q nodes) (hs : single) :
    CondOk C J G (queryTruth e q) (fun v => decide (nodes v ≠ [])) := by
  intro s x v hw hJ hx hv hxC
  obtain ⟨N, hN, hr⟩ := h Unit Unit haltFin _ _ haltFin_ok
  obtain ⟨s1, p, e1, m1, f1, o1, n1⟩ := clone_mod hw hx
  have hxn := hx.lt
  have J1 : J s1 := hFr.keep hJ m1 (fun h hc hi => hxC h hi hc)
  obtain ⟨s2, o, q1, g1, g2, g3⟩ := hr s1 p.1 v [] () () m1.wf J1 o1.fresh hv (fun j hj hc => by
    have := (n1 j hj).1; have := hFr.lt hJ j hc; omega) rfl (.inr hs)
  obtain ⟨s3, k1, k2, -⟩ := detach_mod (ε := ε) m1.wf g3 o1 (fun i hi => hi)
  refine ⟨s3, ?_, m1.trans k2 (fun i hi h => by have := (n1 i h).1; omega), k2.fresh f1 (fun i hi h => by
    have := (n1 i h).1; have := hxn i hi; omega)⟩
  have ho : o = [] := by simpa using g2
  subst ho
  unfold queryTruth
  rw [arun_op e1]
  rw [run_ok_bind g1, run_ok_bind k1]
  have hb : (!(floop (fun (_ : Unit) (_ : JVal) => ((), false)) (N v) ()).2) = decide (nodes v ≠ []) := by
    rw [halt_floop]
    have := (hN v hv).1
    rw [Bool.eq_iff_iff, decide_eq_true_iff, Bool.not_eq_true', ← Bool.not_eq_true, List.isEmpty_iff]
    constructor
    · intro h h'; rw [h'] at this; exact h this.eq_nil
    · intro h h'; rw [h'] at this; exact h this.symm.eq_nil
  simp only [IProg.run, hb, List.nil_append]

end JPath
end Verif
