import Verif.Reach
import Verif.PathMain

/-!
# What a query has written when only a part of the input has been read

Loops over the members of a collection, with one selector and without look-ahead: what the members seen so far give has been handed over when the
loop asks for the next member.
-/

set_option linter.unusedSimpArgs false
set_option linter.unusedVariables false

namespace Verif

namespace AState

/-- The handle made by `Advance` reads from the same stream. -/
theorem adv_child {s s' : AState} {n0 i k key v r e} (hl : Links s) (h : Before s n0 i k ((key, v) :: r) e) (h1 : s.step (.advance i) = .ok (s', true))
    {kk j} (hc : (s'.coll i).cur = some (.coll kk j)) : (s'.coll j).thr = (s.coll i).thr ∧ (s'.coll j).done = false := by
  obtain ⟨c1, c2, c3, c4⟩ := discardCur_keep hl h.lt h.i0 h.cur
  have hb := h.keep c1 h.i0 (by simp)
  have hti : ((s.discardCur i).coll i).thr = (s.coll i).thr := by rw [c1.coll i h.i0 (by simp)]
  generalize hd : s.discardCur i = s1 at *
  have hadv : s.step (.advance i) = s1.advance' i := by
    simp only [step, advance]
    rw [if_neg (by have := h.lt; omega), if_neg (by rw [h.done]; simp), hd]
  rw [hadv, ISim.advance'_cons hb.alive hb.rest] at h1
  simp only [Except.ok.injEq, Prod.mk.injEq, and_true] at h1
  have hlt := hb.lt
  subst h1
  simp only [set_same, Option.some.injEq] at hc
  cases v with
  | scalar x => cases hc
  | arr items e' =>
    cases hc
    rw [set_ne _ _ (by omega)]
    simp [handle, AInv.alloc_coll, hti]
  | obj items e' =>
    cases hc
    rw [set_ne _ _ (by omega)]
    simp [handle, AInv.alloc_coll, hti]

theorem Spine.lt {s : AState} (hw : WF s) {l : List Nat} (h : Spine s l) (hn : 0 < s.n) : ∀ i r, l = i :: r → i < s.n ∧ ∀ h ∈ r, h < i := by
  induction h with
  | root => intro i r e; cases e; exact ⟨hn, by simp⟩
  | @cons i j l k hs h1 h2 h3 h4 ih =>
    intro a r e
    cases e
    obtain ⟨g1, g2⟩ := ih i l rfl
    have := (hw.links i g1 k j h1).1
    refine ⟨h2, fun x hx => ?_⟩
    rcases List.mem_cons.1 hx with rfl | hx
    · exact this
    · have := g2 x hx; omega

/-- `Advance` of the innermost handle. -/
theorem Spine.adv {s s' : AState} {n0 i l k key v r e x} (hw : WF s) (hs : Spine s (i :: l)) (hb : Before s n0 i k ((key, v) :: r) e)
    (ht : (s.coll i).thr = 0) (h1 : s.step (.advance i) = .ok (s', true)) (h2 : s'.step (.current i) = .ok (s', (key, some x))) :
    Spine s' (i :: l) ∧ (∀ h ∈ l, s'.coll h = s.coll h) ∧ (s'.coll i).thr = 0 ∧ (∀ k j, x = .coll k j → Spine s' (j :: i :: l)) := by
  obtain ⟨s2, x2, e1, e2, e3, e4, e5, e6, e7, e8, e9⟩ := adv_cons hw.links hb
  rw [h1] at e1
  cases e1
  rw [current_ok e3, e5, e6] at h2
  cases h2
  obtain ⟨g1, g2⟩ := hs.lt hw (by have := hb.lt; omega) i l rfl
  have hc : ∀ h ∈ l, s'.coll h = s.coll h := fun h hh => e4.coll h (by have := g2 h hh; have := hb.i0; omega) (by
    intro e; cases e; have := g2 _ hh; omega)
  have ht' := e9.trans ht
  have hsp : Spine s' (i :: l) := by
    cases hs with
    | root => exact .root
    | @cons i' _ l' k' h0 h1' h2' h3' h4' =>
      exact .cons (h0.congr e4.n hc) (by rw [hc _ (by simp)]; exact h1') (Nat.lt_of_lt_of_le h2' e4.n) ht' e3.done
  refine ⟨hsp, hc, ht', fun kk j hx => ?_⟩
  subst hx
  obtain ⟨c1, c2⟩ := adv_child hw.links hb h1 e6
  exact .cons hsp e6 (e7.lt j rfl) (c1.trans ht) c2

end AState

namespace JPath
open AState IProg GoJson

variable {ε φ ψ : Type} {C : Nat → Prop} {J : AState → Prop} {G : JVal → Prop} {R : List ε → φ → ψ → Prop}
variable {fin : φ → Val → IProg ε (φ × Bool)} {tfin : ψ → JVal → ψ × Bool}

/-! ## The loops without look-ahead -/

/-- What is known about a member before its value is looked at. -/
def decOf {α : Type} (k : Kind) (idx : Int) (key : Option Scalar) : Sel α → Decision :=
  match k with
  | .obj => (·.fromKey (tkey key))
  | _ => (·.fromIndex idx (minInt64 + 1))

/-- The relaxed loops, which are also those of the strict methods for child segments. -/
def loopP (fin : φ → Val → IProg ε (φ × Bool)) (desc : Bool) (follow self : Stack ε → φ → Val → IProg ε (Stack ε × φ × Bool)) (k : Kind) (i f : Nat) (idx : Int)
    (d : Disp ε) (ds : Stack ε) (q : φ) : IProg ε (Disp ε × Stack ε × φ × Bool) :=
  match k with
  | .obj => objRelaxed fin desc follow self i f d ds q
  | _ => arrRelaxed fin desc follow self i none f idx (minInt64 + 1) d ds q

/-- A round of the loops. -/
def roundP (fin : φ → Val → IProg ε (φ × Bool)) (desc : Bool) (follow self : Stack ε → φ → Val → IProg ε (Stack ε × φ × Bool)) (k : Kind) (i f : Nat) (idx : Int)
    (dec : Sel (CondP ε) → Decision) (x : Val) (d : Disp ε) (ds : Stack ε) (q : φ) : IProg ε (Disp ε × Stack ε × φ × Bool) :=
  (cloneDesc desc x).bind fun p => (dispatchItem fin follow dec x d ds q).bind fun r => (roundEnd desc self p r).bind fun r =>
    if r.1 then loopP fin desc follow self k i f (idx + 1) r.2.1 r.2.2.1 r.2.2.2.1 else .ret r.2

theorem loopP_round {desc : Bool} {follow self : Stack ε → φ → Val → IProg ε (Stack ε × φ × Bool)} {k : Kind} (hk : k ≠ .top) {i f : Nat} {idx : Int}
    {d : Disp ε} {ds : Stack ε} {q : φ} {s s1 : AState} {key : Option Scalar} {x : Val} (h1 : s.step (.advance i) = .ok (s1, true))
    (h2 : s1.step (.current i) = .ok (s1, (key, some x))) (h3 : k = .obj → ∃ k0 b, key = some k0 ∧ toStr k0 = some b) :
    Reach AState.mach (loopP fin desc follow self k i (f + 1) idx d ds q) s [] (roundP fin desc follow self k i f idx (decOf k idx key) x d ds q) s1 := by
  cases k with
  | top => exact absurd rfl hk
  | obj =>
    obtain ⟨k0, b, rfl, hb⟩ := h3 rfl
    have ht : tkey (some k0) = b := by simp [tkey, hb]
    simp only [loopP, objRelaxed]
    refine .op h1 ?_
    simp only [if_true]
    refine .op h2 ?_
    simp only [hb, roundP, decOf, ht, loopP]
    exact .refl _ _
  | arr =>
    simp only [loopP, arrRelaxed]
    refine .op h1 ?_
    simp only [if_true]
    refine .op h2 ?_
    have : (fun (p : Val × Option Nat) => (dispatchItem fin follow (fun x => x.fromIndex idx (minInt64 + 1)) x d ds q).bind fun r =>
        if r.2.2.2 then (nextNeg none (minInt64 + 1)).bind fun neg => (roundEnd desc self p r).bind fun r =>
          if r.1 then arrRelaxed fin desc follow self i none f (idx + 1) neg r.2.1 r.2.2.1 r.2.2.2.1 else .ret r.2
        else (roundEnd desc self p r).bind fun r => .ret r.2) =
        (fun p => (dispatchItem fin follow (fun x => x.fromIndex idx (minInt64 + 1)) x d ds q).bind fun r => (roundEnd desc self p r).bind fun r =>
          if r.1 then arrRelaxed fin desc follow self i none f (idx + 1) (minInt64 + 1) r.2.1 r.2.2.1 r.2.2.2.1 else .ret r.2) := by
      funext p
      congr 1
      funext r
      cases hr : r.2.2.2 with
      | true => rw [if_pos rfl]; rfl
      | false =>
        rw [if_neg (by decide)]
        simp only [roundEnd, hr, Bool.false_eq_true, if_false]
        cases p.2 <;> rfl
    simp only [roundP, decOf, loopP]
    rw [this]
    exact .refl _ _

/-- The members of a collection as items. -/
def itsOf (k : Kind) (idx : Int) (l : List (Option Scalar × JVal)) : List Item :=
  match k with
  | .obj => objItems l
  | _ => arrItems l idx (minInt64 + 1, none)

theorem itsOf_cons (k : Kind) (idx : Int) (m : Option Scalar × JVal) (l) : itsOf k idx (m :: l) = (decOf k idx m.1, m.2) :: itsOf k (idx + 1) l := by
  obtain ⟨key, v⟩ := m
  cases k <;> rfl

theorem itsOf_nil (k : Kind) (idx : Int) : itsOf k idx [] = [] := by cases k <;> rfl

theorem decOf_rel {k : Kind} {idx : Int} {key : Option Scalar} {a : Sel (CondP ε)} {b : Sel (JVal → Bool)} (h : SelRel C J G AnyVal a b) :
    decOf k idx key a = decOf k idx key b := by
  cases k
  · exact h.fromIndex _ _
  · exact h.fromKey _
  · exact h.fromIndex _ _

/-- Handles that a part of the engine leaves alone. -/
theorem spine_keep {s s' : AState} {F : Nat → Prop} (hm : Mod F s s') {l : List Nat} (hs : Spine s l) (hn : 0 < s.n) (hF : ∀ h ∈ l, ¬ F h) :
    Spine s' l ∧ ∀ h ∈ l, s'.coll h = s.coll h := by
  have hc : ∀ h ∈ l, s'.coll h = s.coll h := fun h hh => hm.eff.coll h (by rcases hs.mem0 h hh with rfl | e <;> assumption) (hF h hh)
  exact ⟨hs.congr hm.n hc, hc⟩

/-- A round of the loop on a complete member. -/
theorem round_reach (hFr : Frame C J) (hfin : FinOk R G fin tfin) (desc : Bool) {D E : JVal → Prop}
    {follow self : Stack ε → φ → Val → IProg ε (Stack ε × φ × Bool)} {tfollow tself : TStack → ψ → JVal → TStack × ψ × Bool}
    (hf : FollowOk C J G AnyVal D R follow tfollow) (hself : desc = true → FollowOk C J G AnyVal E R self tself) {n0 i : Nat} (hl : Loop C n0 (· = i)) {e : Bool} {k : Kind}
    (hk : k ≠ .top) {l : List Nat} {m : Option Scalar × JVal} {rest : List (Option Scalar × JVal)} {f : Nat} {idx : Int} {s : AState} {d : Disp ε} {t : List TSt}
    {ds : Stack ε} {T : TStack} {acc : List ε} {q : φ} {q' : ψ}
    (hi : Inv C J G AnyVal R false s (d :: ds) (t :: T) acc q q') (hb : Before s n0 i k (m :: rest) e) (ht : (s.coll i).thr = 0) (hs : Spine s (i :: l))
    (hS : ∀ h ∈ i :: l, h ∉ idxs (d :: ds)) (hm : MemOk G D E m) (hkey : k = .obj → ∃ k0 b, m.1 = some k0 ∧ toStr k0 = some b) :
    ∃ o s' d' ds' q1, Reach AState.mach (loopP fin desc follow self k i (f + 1) idx d ds q) s o
        (if (troundEnd desc tself m.2 (tdispatch tfin tfollow (decOf k idx m.1) m.2 t T q')).1 then loopP fin desc follow self k i f (idx + 1) d' ds' q1
          else .ret (d', ds', q1, (troundEnd desc tself m.2 (tdispatch tfin tfollow (decOf k idx m.1) m.2 t T q')).2.2.2.2)) s' ∧
      Inv C J G AnyVal R false s' (d' :: ds') ((troundEnd desc tself m.2 (tdispatch tfin tfollow (decOf k idx m.1) m.2 t T q')).2.1 ::
        (troundEnd desc tself m.2 (tdispatch tfin tfollow (decOf k idx m.1) m.2 t T q')).2.2.1) (acc ++ o) q1
        (troundEnd desc tself m.2 (tdispatch tfin tfollow (decOf k idx m.1) m.2 t T q')).2.2.2.1 ∧
      Before s' n0 i k rest e ∧ (s'.coll i).thr = 0 ∧ Spine s' (i :: l) ∧ (∀ h ∈ l, s'.coll h = s.coll h) ∧ (∀ h ∈ i :: l, h ∉ idxs (d' :: ds')) := by
  obtain ⟨key, v⟩ := m
  obtain ⟨s1, x, a1, a2, a3, a4, a5, a6, a7, a8⟩ := adv_ok hFr hl rfl hi (fun h e => e ▸ hS i (by simp)) hb
  obtain ⟨b1, b2, b3, b4⟩ := hs.adv hi.wf hb ht a1 a2
  have hi1 := a4.inv
  rw [List.append_nil] at hi1
  have hin : i < s.n := hb.lt
  have hn : 0 < s.n := by omega
  have hlt : ∀ h ∈ i :: l, h < s.n := fun h hh => by rcases hs.mem0 h hh with rfl | e <;> assumption
  obtain ⟨s2, p, c1, c2, c3, c4, c5, c6⟩ := cloneDesc_ok hFr desc hi1 a6 a8
  have hi2 := c2.inv
  rw [List.append_nil] at hi2
  have hn1 := a5.n
  have hn2 := c2.mod.n
  obtain ⟨s3, o3, d3, ds3, q3, d1, d2⟩ := dispatchItem_ok (dec := decOf k idx key) (tdec := decOf k idx key) hFr hfin hf
    (fun a b h => decOf_rel h) hm.good (fun _ => hm.follow) hi2 c3 a8
  have hx1 : ∀ j, x.idx = some j → j < s1.n := fun j hj => a6.lt j hj
  have hpo : desc = true → Owned s3 p v ∧ ∀ j, p.1.idx = some j → ¬ C j ∧ j ∉ idxs (d3 :: ds3) := by
    intro hd
    obtain ⟨ho, hp⟩ := c4 hd
    have hne : ∀ j, p.1.idx = some j → j ∉ idxs (d :: ds) := fun j hj e => by have := hi1.lt j e; have := hp j hj; omega
    refine ⟨d2.mod.owned hi2.wf ho (fun j hj e => ?_), fun j hj => ⟨fun hc => ?_, ?_⟩⟩
    · rcases e with e | e
      · have := hx1 j e; have := hp j hj; omega
      · exact hne j hj e
    · have := hFr.lt hi1.j j hc; have := hp j hj; omega
    · exact d2.still (A := fun j => p.1.idx = some j) (fun h e => ho.fresh.lt h e) hne j hj
  generalize hrr : tdispatch tfin tfollow (decOf k idx key) v t T q' = rr at *
  obtain ⟨t3, T3, q3', res⟩ := rr
  obtain ⟨s4, o4, d4, ds4, q4, e1, e2⟩ := roundEnd_ok (tself := tself) (v := v) (p := p) hFr desc res d2.inv hpo c5 (fun hd => ⟨hself hd, hm.self⟩)
  -- the handles that stay
  have hS2 : ∀ h ∈ i :: l, h ∉ idxs (d3 :: ds3) := fun h hh =>
    d2.still (A := fun h => h ∈ i :: l) (fun h e => by have := hlt h e; omega) hS h hh
  have hS3 : ∀ h ∈ i :: l, h ∉ idxs (d4 :: ds4) := fun h hh =>
    e2.still (A := fun h => h ∈ i :: l) (fun h e => by have := hlt h e; have := d2.mod.n; omega) hS2 h hh
  have k1 : ∀ h ∈ i :: l, ¬ (x.idx = some h) := fun h hh e => by have := a7 h e; have := hlt h hh; omega
  obtain ⟨g1, g2⟩ := spine_keep c2.mod b1 (by omega) (fun h hh e => e.elim (k1 h hh) (hS h hh))
  obtain ⟨g3, g4⟩ := spine_keep d2.mod g1 (by omega) (fun h hh e => e.elim (k1 h hh) (hS h hh))
  have hF4 : ∀ h ∈ i :: l, ¬ ((desc = true ∧ p.1.idx = some h) ∨ h ∈ idxs (d3 :: ds3)) := by
    rintro h hh (⟨hd, e⟩ | e)
    · have := (c4 hd).2 h e; have := hlt h hh; omega
    · exact hS2 h hh e
  obtain ⟨g5, g6⟩ := spine_keep e2.mod g3 (by have := d2.mod.n; omega) hF4
  have hbf : Before s4 n0 i k rest e := e2.mod.before (d2.mod.before (c2.mod.before a3 (fun e => e.elim (k1 i (by simp)) (hS i (by simp))))
    (fun e => e.elim (k1 i (by simp)) (hS i (by simp)))) (hF4 i (by simp))
  refine ⟨o3 ++ o4, s4, d4, ds4, q4, ?_, ?_, hbf, ?_, g5, ?_, hS3⟩
  · have r1 : Reach AState.mach _ s _ _ _ := loopP_round (fin := fin) (desc := desc) (follow := follow) (self := self) (f := f) (idx := idx) (d := d) (ds := ds) (q := q)
      hk a1 a2 hkey
    have r2 := r1.trans (Reach.of_run_bind c1 _)
    have r3 := r2.trans (Reach.of_run_bind d1 _)
    have r4 := r3.trans (Reach.of_run_bind e1 _)
    simpa using r4
  · rw [← List.append_assoc]; exact e2.inv
  · rw [g6 i (by simp), g4 i (by simp), g2 i (by simp)]; exact b3
  · intro h hh
    rw [g6 h (by simp [hh]), g4 h (by simp [hh]), g2 h (by simp [hh]), b2 h hh]

/-- The loop on complete members, which may be followed by others: it stops, or it comes to the others. -/
theorem loop_reach (hFr : Frame C J) (hfin : FinOk R G fin tfin) (desc : Bool) {D E : JVal → Prop}
    {follow self : Stack ε → φ → Val → IProg ε (Stack ε × φ × Bool)} {tfollow tself : TStack → ψ → JVal → TStack × ψ × Bool}
    (hf : FollowOk C J G AnyVal D R follow tfollow) (hself : desc = true → FollowOk C J G AnyVal E R self tself) {n0 i : Nat} (hl : Loop C n0 (· = i)) {e : Bool} {k : Kind}
    (hk : k ≠ .top) {l : List Nat} (tail : List (Option Scalar × JVal)) :
    ∀ (l1 : List (Option Scalar × JVal)) (f : Nat) (idx : Int) (s : AState) (d : Disp ε) (t : List TSt) (ds : Stack ε) (T : TStack) (acc : List ε)
      (q : φ) (q' : ψ), l1.length + tail.length < f → Inv C J G AnyVal R false s (d :: ds) (t :: T) acc q q' → Before s n0 i k (l1 ++ tail) e →
      (s.coll i).thr = 0 → Spine s (i :: l) → (∀ h ∈ i :: l, h ∉ idxs (d :: ds)) → (∀ m ∈ l1, MemOk G D E m) →
      (k = .obj → ∀ m ∈ l1, ∃ k0 b, m.1 = some k0 ∧ toStr k0 = some b) →
    ∃ o s' d' ds' q1 t' T' q1' l2, Inv C J G AnyVal R false s' (d' :: ds') (t' :: T') (acc ++ o) q1 q1' ∧ Before s' n0 i k (l2 ++ tail) e ∧ (s'.coll i).thr = 0 ∧
      Spine s' (i :: l) ∧ (∀ h ∈ l, s'.coll h = s.coll h) ∧ (∀ h ∈ i :: l, h ∉ idxs (d' :: ds')) ∧
      ((∃ p' r, Reach AState.mach (loopP fin desc follow self k i f idx d ds q) s o p' s' ∧ 
          (tloop tfin desc tfollow tself (itsOf k idx (l1 ++ tail)) t T q') = (t', T', q1', r)) ∨
       (∃ f' idx', Reach AState.mach (loopP fin desc follow self k i f idx d ds q) s o (loopP fin desc follow self k i f' idx' d' ds' q1) s' ∧ l2 = [] ∧
          tail.length < f' ∧ tloop tfin desc tfollow tself (itsOf k idx l1) t T q' = (t', T', q1', true) ∧
          tloop tfin desc tfollow tself (itsOf k idx (l1 ++ tail)) t T q' = tloop tfin desc tfollow tself (itsOf k idx' tail) t' T' q1')) := by
  intro l1
  induction l1 with
  | nil =>
    intro f idx s d t ds T acc q q' hlen hi hb ht hs hS hm hkey
    refine ⟨[], s, d, ds, q, t, T, q', [], by rw [List.append_nil]; exact hi, hb, ht, hs, fun _ _ => rfl, hS, .inr ⟨f, idx, .refl _ _, rfl, by simpa using hlen, ?_, rfl⟩⟩
    rw [itsOf_nil]; rfl
  | cons m l1 ih =>
    intro f idx s d t ds T acc q q' hlen hi hb ht hs hS hm hkey
    obtain ⟨f, rfl⟩ : ∃ g, f = g + 1 := ⟨f - 1, by simp at hlen; omega⟩
    obtain ⟨o, s1, d1, ds1, q1, r1, r2, r3, r4, r5, r6, r7⟩ := round_reach (f := f) (idx := idx) hFr hfin desc hf hself hl hk hi hb ht hs hS (hm m (by simp))
      (fun h => hkey h m (by simp))
    generalize hrr : troundEnd desc tself m.2 (tdispatch tfin tfollow (decOf k idx m.1) m.2 t T q') = rr at *
    obtain ⟨go, t1, T1, q1', res⟩ := rr
    simp only at r1 r2
    cases go with
    | false =>
      refine ⟨o, s1, d1, ds1, q1, t1, T1, q1', l1, r2, r3, r4, r5, r6, r7, .inl ⟨_, res, r1, ?_⟩⟩
      simp only [List.cons_append, itsOf_cons, tloop]
      rw [hrr]
      simp
    | true =>
      simp only [if_true] at r1
      obtain ⟨o2, s2, d2, ds2, q2, t2, T2, q2', l2, g1, g2, g3, g4, g5, g6, g7⟩ := ih f (idx + 1) s1 d1 t1 ds1 T1 (acc ++ o) q1 q1' (by simp at hlen; omega) r2 r3 r4 r5 r7
        (fun m' h => hm m' (by simp [h])) (fun h m' h' => hkey h m' (by simp [h']))
      refine ⟨o ++ o2, s2, d2, ds2, q2, t2, T2, q2', l2, by rw [← List.append_assoc]; exact g1, g2, g3, g4, fun h hh => (g5 h hh).trans (r6 h hh), g6, ?_⟩
      have hstep : ∀ x, tloop tfin desc tfollow tself (itsOf k idx (m :: x)) t T q' = tloop tfin desc tfollow tself (itsOf k (idx + 1) x) t1 T1 q1' := by
        intro x
        simp only [itsOf_cons, tloop]
        rw [hrr]
        simp
      rcases g7 with ⟨p', r, g8, g9⟩ | ⟨f', idx', g8, g9, g10, g11, g12⟩
      · exact .inl ⟨p', r, r1.trans g8, by rw [List.cons_append, hstep]; exact g9⟩
      · exact .inr ⟨f', idx', r1.trans g8, g9, g10, by rw [hstep]; exact g11, by rw [List.cons_append, hstep]; exact g12⟩

/-! ## A processor that refuses nothing -/

theorem tprocess_true (ht : ∀ q v, (tfin q v).2 = true) : ∀ (ds : TStack) (q : ψ) (v : JVal), (tprocess tfin ds q v).2.2 = true
  | [], q, v => ht q v
  | [] :: ds, q, v => rfl
  | (st :: rest) :: ds, q, v => by
    simp only [tprocess]
    split
    · split
      · rfl
      · rw [tprocess_true ht ds q v]; rfl
    · rfl

theorem feed_true (ht : ∀ q v, (tfin q v).2 = true) (L : List JVal) (ds : TStack) (q : ψ) : (feed tfin L ds q).2.2 = true := by
  induction L generalizing ds q with
  | nil => rfl
  | cons v L ih => simp only [feed, tprocess_true ht, if_true, ih]

variable (tfin) in
/-- It hands over a list of nodes. -/
def FeedsSome (g : TStack → ψ → JVal → TStack × ψ × Bool) (v : JVal) : Prop := ∃ L, Feeds tfin False (fun ds q => g ds q v) L

theorem feeds_list {g : TStack → ψ → JVal → TStack × ψ × Bool} {P : JVal → Prop} (h : ∀ v, P v → FeedsSome tfin g v) :
    ∃ l : JVal → List JVal, ∀ v, P v → Feeds tfin False (fun ds q => g ds q v) (l v) := by
  have : ∀ v, ∃ L, P v → Feeds tfin False (fun ds q => g ds q v) L := fun v => by
    by_cases hv : P v
    · obtain ⟨L, hL⟩ := h v hv; exact ⟨L, fun _ => hL⟩
    · exact ⟨[], fun h => absurd h hv⟩
  exact Classical.skolem.1 this

/-- One state without waiting nodes stays one. -/
theorem loop_single (ht : ∀ q v, (tfin q v).2 = true) {desc : Bool} {follow self : TStack → ψ → JVal → TStack × ψ × Bool} {its : List Item}
    (hf : ∀ it ∈ its, FeedsSome tfin follow it.2) (hs : desc = true → ∀ it ∈ its, FeedsSome tfin self it.2) {d : List TSt} (h1 : Single d)
    (ds : TStack) (q : ψ) : Single (tloop tfin desc follow self its d ds q).1 := by
  obtain ⟨l, hl⟩ := feeds_list (tfin := tfin) (g := follow) (P := fun v => FeedsSome tfin follow v) (fun _ h => h)
  obtain ⟨D, hD⟩ := feeds_list (tfin := tfin) (g := self) (P := fun v => FeedsSome tfin self v) (fun _ h => h)
  obtain ⟨d', L, e1, e3, -, -⟩ := loop_emits (fin := tfin) (P := False) (l := l) (D := D) desc its (fun it hit => hl _ (hf it hit))
    (fun h it hit => hD _ (hs h it hit)) d
  have := (e1 ds q (.inl (feed_true ht _ _ _))).2 (feed_true ht _ _ _)
  rw [this]
  exact e3 h1

/-- What is handed over leaves the state above it alone. -/
theorem feed_head (ht : ∀ q v, (tfin q v).2 = true) {st : TSt} (hr : st.sel.reverses = false) (L : List JVal) (T : TStack) (q : ψ) :
    ∃ T', (feed tfin L ([st] :: T) q).1 = [st] :: T' := by
  induction L generalizing T q with
  | nil => exact ⟨T, rfl⟩
  | cons v L ih =>
    simp only [feed, tprocess_true ht, if_true]
    simp only [tprocess, hr, Bool.false_eq_true, if_false, tprocess_true ht, if_true, tappend]
    split
    · exact ih _ _
    · exact ih _ _

/-- Over the members, one state without waiting nodes keeps its selector. -/
theorem loop_sel (ht : ∀ q v, (tfin q v).2 = true) {follow self : TStack → ψ → JVal → TStack × ψ × Bool} {its : List Item}
    (hf : ∀ it ∈ its, FeedsSome tfin follow it.2) {sel : Sel (JVal → Bool)} (hr : sel.reverses = false) {d : List TSt} (h1 : d = [] ∨ ∃ st, d = [st] ∧ st.sel = sel ∧ st.pending = [])
    (ds : TStack) (q : ψ) : (tloop tfin false follow self its d ds q).1 = [] ∨ ∃ st, (tloop tfin false follow self its d ds q).1 = [st] ∧ st.sel = sel ∧ st.pending = [] := by
  induction its generalizing d ds q with
  | nil => exact h1
  | cons it its ih =>
    obtain ⟨dec, v⟩ := it
    have hd : (tdispatch tfin follow dec v d ds q).1 = [] ∨ ∃ st, (tdispatch tfin follow dec v d ds q).1 = [st] ∧ st.sel = sel ∧ st.pending = [] := by
      rcases h1 with rfl | ⟨st, rfl, h1, h2⟩
      · exact .inl rfl
      · generalize hst : (if st.done then { st with selected := false } else { st with selected := tselects (dec st.sel) v st.sel, done := !(dec st.sel).more } : TSt) = st'
        have e1 : st'.sel = sel := by rw [← hst, ← h1]; split <;> rfl
        have e2 : st'.pending = [] := by rw [← hst, ← h2]; split <;> rfl
        simp only [tdispatch, tdecideAll, List.map_cons, List.map_nil, hst]
        cases ho : st'.over with
        | true =>
          left
          simp [ho, tflushAll, tflushSt, e2, tflushVals, tdispatchLive]
        | false =>
          right
          simp only [List.takeWhile_cons, ho, List.dropWhile_cons, tflushAll, Bool.false_eq_true, if_false, if_true, tdispatchLive, e2, List.isEmpty_nil, Bool.or_true]
          split
          · obtain ⟨L, hL⟩ := hf (dec, v) (by simp)
            have hL' := hL ([st'] :: ds) q (.inl (feed_true ht _ _ _))
            simp only at hL'
            rw [hL']
            obtain ⟨T', hT⟩ := feed_head (tfin := tfin) ht (st := st') (by rw [e1]; exact hr) L ds q
            exact ⟨st', by simp [hT], e1, e2⟩
          · exact ⟨st', rfl, e1, e2⟩
    simp only [tloop, roundEnd_strict]
    split
    · exact ih (fun it hit => hf it (by simp [hit])) hd _ _
    · exact hd

theorem finish_single {r : List TSt × TStack × ψ × Bool} (h : Single r.1) : (tfinish tfin r).2.1 = r.2.2.1 := by
  obtain ⟨d, ds, q, b⟩ := r
  obtain ⟨h1, h2⟩ := h
  cases d with
  | nil => rfl
  | cons st d =>
    cases d with
    | cons _ _ => simp at h1
    | nil =>
      have := h2 st (by simp)
      simp [tfinish, tflushAll, tflushSt, this, tflushVals]

/-! ## Collections of which the end is missing -/

/-- The value is cut off in a collection that is `d` levels down, after a member; `cl` are the ends that are missing. -/
inductive CutV : Nat → JVal → List Token → Prop
  | leaf {v} : (∀ k, v ≠ .scalar k) → v.elision = false → CutV 0 v (endToks v.kind)
  | inn {v l m d cl} : (∀ k, v ≠ .scalar k) → v.elision = false → v.members = l ++ [m] → CutV d m.2 cl → CutV (d + 1) v (cl ++ endToks v.kind)

theorem CutV.coll {d v cl} (h : CutV d v cl) : ∀ k, v ≠ .scalar k := by cases h <;> assumption

theorem bodyToks_append (a b : List (Option Scalar × JVal)) : bodyToks (a ++ b) = bodyToks a ++ bodyToks b := by
  induction a with
  | nil => rfl
  | cons m a ih =>
    obtain ⟨k, v⟩ := m
    cases k <;> simp [bodyToks, ih]

theorem toks_coll {v : JVal} (h : ∀ k, v ≠ .scalar k) : v.toks = openTok v.kind :: (bodyToks v.members ++ elisionToks v.elision ++ endToks v.kind) := by
  cases v with
  | scalar k => exact absurd rfl (h k)
  | arr l e => simp [JVal.toks, JVal.kind, JVal.members, JVal.elision, bodyToks_items, openTok, endToks]
  | obj l e => simp [JVal.toks, JVal.kind, JVal.members, JVal.elision, bodyToks_members, openTok, endToks]

theorem suffix_body (l : List (Option Scalar × JVal)) (m : Option Scalar × JVal) : m.2.toks <:+ bodyToks (l ++ [m]) := by
  rw [bodyToks_append]
  obtain ⟨k, v⟩ := m
  cases k
  · exact ⟨bodyToks l, by simp [bodyToks]⟩
  · rename_i k; exact ⟨bodyToks l ++ [.scalar k], by simp [bodyToks]⟩

theorem suffix_append {a b : List Token} (h : a <:+ b) (c : List Token) : a ++ c <:+ b ++ c := by
  obtain ⟨t, rfl⟩ := h
  exact ⟨t, by simp⟩

theorem CutV.suffix {d v cl} (h : CutV d v cl) : cl <:+ bodyToks v.members ++ elisionToks v.elision ++ endToks v.kind := by
  induction h with
  | leaf h1 h2 => exact List.suffix_append _ _
  | @inn v l m d cl h1 h2 h3 h4 ih =>
    refine suffix_append ?_ _
    rw [h2, h3]
    simp only [elisionToks, Bool.false_eq_true, if_false, List.append_nil]
    refine (ih.trans ?_).trans (suffix_body l m)
    rw [toks_coll h4.coll]
    exact List.suffix_cons _ _

/-- What is done with a value that is cut off: at some moment everything has been handed over and the missing ends have not been read. -/
def CutOk (C : Nat → Prop) (J : AState → Prop) (G D : JVal → Prop) (R : List ε → φ → ψ → Prop) (d : Nat)
    (f : Stack ε → φ → Val → IProg ε (Stack ε × φ × Bool)) (g : TStack → ψ → JVal → TStack × ψ × Bool) : Prop :=
  ∀ s S T q q' acc k i v cl l, Inv C J G AnyVal R true s S T acc q q' → Fresh s (.coll k i) v → D v → ¬ C i → (s.coll i).thr = 0 → (∀ h ∈ i :: l, h ∉ idxs S) →
    Spine s (i :: l) → CutV d v cl →
    ∃ o p' s' q1 l', Reach AState.mach (f S q (.coll k i)) s o p' s' ∧ R (acc ++ o) q1 (g T q' v).2.1 ∧ Spine s' l' ∧ cl ++ frames s l <:+ frames s' l'

/-! ## Child segments -/

theorem objStrict_relaxed (follow self : Stack ε → φ → Val → IProg ε (Stack ε × φ × Bool)) (i f : Nat) : ∀ (d : Disp ε) (ds : Stack ε) (q : φ),
    objStrict fin follow i f d ds q = objRelaxed fin false follow self i f d ds q := by
  induction f with
  | zero => intros; rfl
  | succ f ih =>
    intro d ds q
    simp only [objStrict, objRelaxed]
    congr 1
    funext more
    cases more with
    | false => rfl
    | true =>
      simp only [if_true]
      congr 1
      funext kv
      obtain ⟨k, x⟩ := kv
      cases k with
      | none => rfl
      | some k =>
        cases x with
        | none => rfl
        | some x =>
          simp only [cloneDesc, Bool.false_eq_true, if_false, IProg.bind]
          cases toStr k with
          | none => rfl
          | some key =>
            simp only
            congr 1
            funext r
            cases hr : r.2.2.2 with
            | true => simp [roundEnd, hr, IProg.bind, ih]
            | false => simp [roundEnd, hr, IProg.bind, detachOpt]

theorem arrStrict_relaxed (follow self : Stack ε → φ → Val → IProg ε (Stack ε × φ × Bool)) (i f : Nat) : ∀ (idx neg : Int) (d : Disp ε) (ds : Stack ε) (q : φ),
    arrStrict fin follow i none f idx neg d ds q = arrRelaxed fin false follow self i none f idx neg d ds q := by
  induction f with
  | zero => intros; rfl
  | succ f ih =>
    intro idx neg d ds q
    simp only [arrStrict, arrRelaxed]
    congr 1
    funext more
    cases more with
    | false => rfl
    | true =>
      simp only [if_true]
      congr 1
      funext kv
      obtain ⟨k, x⟩ := kv
      cases x with
      | none => rfl
      | some x =>
        simp only [cloneDesc, Bool.false_eq_true, if_false, IProg.bind]
        congr 1
        funext r
        cases hr : r.2.2.2 with
        | true => cases hd : r.1.states.isEmpty <;> simp [roundEnd, hr, IProg.bind, ih, nextNeg, hd]
        | false => simp [roundEnd, hr, IProg.bind, detachOpt]

theorem segP_loop {strict : Bool} {F : Nat} {seg : Seg (CondP ε)} (hd : strict = true → seg.desc = false) (hl : ¬ segLookahead seg.sels > 0)
    (follow : Stack ε → φ → Val → IProg ε (Stack ε × φ × Bool)) (g : Nat) (ds : Stack ε) (q : φ) {k : Kind} (hk : k ≠ .top) (i : Nat) :
    segP fin strict F seg follow (g + 1) ds q (.coll k i) =
      (loopP fin seg.desc follow (segP fin strict F seg follow g) k i F 0 (newDisp seg.sels) ds q).bind (finish fin) := by
  cases k with
  | top => exact absurd rfl hk
  | obj =>
    cases strict with
    | false => simp [segP, loopP]
    | true =>
      have := hd rfl
      simp only [segP, loopP, if_true, this, cloneDesc, Bool.false_eq_true, if_false, IProg.bind, strictEnd, Bool.and_false, detachOpt]
      rw [objStrict_relaxed follow (segP fin true F seg follow g)]
  | arr =>
    cases strict with
    | false => simp [segP, loopP, lookStart, hl, IProg.bind, detachOpt]
    | true =>
      have := hd rfl
      simp only [segP, loopP, if_true, this, cloneDesc, Bool.false_eq_true, if_false, IProg.bind, strictEnd, Bool.and_false, detachOpt, lookStart, hl]
      rw [arrStrict_relaxed follow (segP fin true F seg follow g)]

theorem tseg_its {strict : Bool} {tsg : Seg (JVal → Bool)} (hd : strict = true → tsg.desc = false) (hl : ¬ segLookahead tsg.sels > 0)
    (tfollow : TStack → ψ → JVal → TStack × ψ × Bool) (g : Nat) (T : TStack) (q : ψ) {v : JVal} (hv : ∀ k, v ≠ .scalar k) :
    tseg tfin strict tsg tfollow (g + 1) T q v =
      tfinish tfin (tloop tfin tsg.desc tfollow (tseg tfin strict tsg tfollow g) (itsOf v.kind 0 v.members) (tnew tsg.sels) T q) := by
  have hi : items (segLookahead tsg.sels) v = itsOf v.kind 0 v.members := by
    cases v with
    | scalar k => exact absurd rfl (hv k)
    | obj l e => rfl
    | arr l e => simp [items, itsOf, JVal.kind, windowInit, hl]
  rw [tseg_loop]
  cases v with
  | scalar k => exact absurd rfl (hv k)
  | obj l e =>
    cases strict with
    | false => simp only [Bool.false_eq_true, if_false, hi]
    | true => simp only [if_true, hi, hd rfl, tstrictEnd, Bool.and_false, Bool.false_eq_true, if_false]
  | arr l e =>
    cases strict with
    | false => simp only [Bool.false_eq_true, if_false, hi]
    | true => simp only [if_true, hi, hd rfl, tstrictEnd, Bool.and_false, Bool.false_eq_true, if_false]

theorem its_snd (k : Kind) (idx : Int) (l : List (Option Scalar × JVal)) : (itsOf k idx l).map (·.2) = l.map (·.2) := by
  cases k
  · exact arrItems_snd _ _ _
  · exact objItems_snd _
  · exact arrItems_snd _ _ _

theorem its_mem {k : Kind} {idx : Int} {l : List (Option Scalar × JVal)} {it : Item} (h : it ∈ itsOf k idx l) : ∃ m ∈ l, m.2 = it.2 := by
  have : it.2 ∈ l.map (·.2) := by rw [← its_snd k idx l]; exact List.mem_map_of_mem h
  obtain ⟨m, h1, h2⟩ := List.mem_map.1 this
  exact ⟨m, h1, h2⟩

theorem rel_rev {l : List (Sel (CondP ε))} {m : List (Sel (JVal → Bool))} (h : Rel2 (SelRel C J G AnyVal) l m) : ∀ s ∈ m, s.reverses = false := by
  induction h with
  | nil => intro s hs; cases hs
  | cons h1 _ ih =>
    intro s hs
    rcases List.mem_cons.1 hs with rfl | hs
    · exact h1.rev'
    · exact ih s hs

/-- The common part of the two kinds of segments. -/
structure SegHyp (C : Nat → Prop) (J : AState → Prop) (G : JVal → Prop) (R : List ε → φ → ψ → Prop) (fin : φ → Val → IProg ε (φ × Bool)) (tfin : ψ → JVal → ψ × Bool)
    (strict : Bool) (F : Nat) (seg : Seg (CondP ε)) (tsg : Seg (JVal → Bool)) (follow : Stack ε → φ → Val → IProg ε (Stack ε × φ × Bool))
    (tfollow : TStack → ψ → JVal → TStack × ψ × Bool) : Prop where
  fram : Frame C J
  closed : Closed G
  fin : FinOk R G fin tfin
  yes : ∀ q v, (tfin q v).2 = true
  rel : SegRel C J G AnyVal seg tsg
  follow : FollowOk C J G AnyVal (Fits G F) R follow tfollow
  keeps : Keeps tfollow
  feeds : ∀ v : JVal, v.toks.length ≤ F → FeedsSome tfin tfollow v
  one : tsg.sels.length ≤ 1
  look : ¬ segLookahead tsg.sels > 0
  desc : strict = true → tsg.desc = false

section
variable {strict : Bool} {F : Nat} {seg : Seg (CondP ε)} {tsg : Seg (JVal → Bool)} {follow : Stack ε → φ → Val → IProg ε (Stack ε × φ × Bool)}
    {tfollow : TStack → ψ → JVal → TStack × ψ × Bool}

theorem SegHyp.selfFeeds (h : SegHyp C J G R fin tfin strict F seg tsg follow tfollow) (g : Nat) : ∀ v : JVal, v.toks.length ≤ g → v.toks.length ≤ F →
    FeedsSome tfin (tseg tfin strict tsg tfollow g) v := by
  obtain ⟨l, hl⟩ := feeds_list (P := fun v : JVal => v.toks.length ≤ F) h.feeds
  intro v h1 h2
  obtain ⟨L, hL, -⟩ := seg_feeds (fin := tfin) (P := False) (strict := strict) (seg := tsg) (fun p => p.elim) hl g v h1 h2
  exact ⟨L, hL⟩

theorem SegHyp.single (h : SegHyp C J G R fin tfin strict F seg tsg follow tfollow) {g : Nat} (hg : g + 1 ≤ F) {v : JVal} (hv : v.toks.length ≤ g + 1)
    {k : Kind} {idx : Int} {l : List (Option Scalar × JVal)} (hl : ∀ m ∈ l, m ∈ v.members) (T : TStack) (q : ψ) :
    Single (tloop tfin tsg.desc tfollow (tseg tfin strict tsg tfollow g) (itsOf k idx l) (tnew tsg.sels) T q).1 := by
  refine loop_single h.yes ?_ ?_ (tnew_single h.one (rel_rev h.rel.sels)) T q
  · intro it hit
    obtain ⟨m, hm, e⟩ := its_mem hit
    have := (members_len v).2 m (hl m hm)
    rw [← e]; exact h.feeds _ (by omega)
  · intro _ it hit
    obtain ⟨m, hm, e⟩ := its_mem hit
    have := (members_len v).2 m (hl m hm)
    rw [← e]; exact h.selfFeeds g _ (by omega) (by omega)

/-- A segment on the innermost collection that is cut off. -/
theorem SegHyp.leaf (h : SegHyp C J G R fin tfin strict F seg tsg follow tfollow) {g : Nat} (hg : g + 1 ≤ F) :
    CutOk C J G (Fits G (g + 1)) R 0 (segP fin strict F seg follow (g + 1)) (tseg tfin strict tsg tfollow (g + 1)) := by
  intro s S T q q' acc k i v cl l hi hx hD hC ht hS hs hcut
  cases hcut with
  | leaf hv he =>
  obtain ⟨hk, hb⟩ := hx.before rfl
  have hkt : k ≠ .top := by rw [hk]; cases v <;> simp [JVal.kind]
  have hdesc := h.rel.desc
  have hloop := segP_loop (fin := fin) (strict := strict) (F := F) (seg := seg) (by rw [hdesc]; exact h.desc) (by rw [look_rel h.rel.sels]; exact h.look) follow g S q hkt i
  have hin := hi.new h.rel.sels
  have hidx : ∀ x, x ∈ idxs (newDisp seg.sels :: S) ↔ x ∈ idxs S := by intro x; simp [didx_new]
  have hself : FollowOk C J G AnyVal (Fits G g) R (segP fin strict F seg follow g) (tseg tfin strict tsg tfollow g) :=
    (segP_ok h.fram h.closed h.fin strict (F := F) h.rel (Q := fun _ => True) (h.follow.mono fun _ e => e.1) h.keeps g (by omega)).mono fun _ e => ⟨e, fun _ _ => trivial⟩
  have hfm : ∀ m ∈ v.members, MemOk G (Fits G F) (Fits G g) m := fun m hm => by
    have := Fits.mem h.closed hD m hm
    exact ⟨this.1, ⟨this.1, by have := this.2; omega⟩, this⟩
  obtain ⟨o, s', d', ds', q1, t', T', q1', l2, g1, g2, g3, g4, g5, g6, g7⟩ := loop_reach (E := Fits G g) (tself := tseg tfin strict tsg tfollow g) (l := l) h.fram h.fin seg.desc h.follow (fun _ => hself)
    ⟨fun x hc => ⟨h.fram.lt hi.j x hc, fun e => hC (show C i from (show _ = i from e) ▸ hc)⟩, fun x e => e ▸ hb.lt⟩ hkt [] v.members F 0 s (newDisp seg.sels) (tnew tsg.sels) S T acc q q'
    (by have := (members_len v).1; have := hD.2; simp; omega) hin (by rw [List.append_nil]; exact hb) ht hs (fun x hx => by rw [hidx]; exact hS x hx) hfm
    (fun e m hm => by
      cases v with
      | scalar k => exact absurd rfl (hv k)
      | arr l e' => rw [hk] at e; cases e
      | obj l e' => exact h.closed.key hD.1 rfl m hm)
  have hq : (tloop tfin tsg.desc tfollow (tseg tfin strict tsg tfollow g) (itsOf v.kind 0 v.members) (tnew tsg.sels) T q').2.2.1 = q1' ∧
      ∃ p', Reach AState.mach (loopP fin seg.desc follow (segP fin strict F seg follow g) k i F 0 (newDisp seg.sels) S q) s o p' s' := by
    rw [← hdesc, ← hk]
    rcases g7 with ⟨p', r, r1, r2⟩ | ⟨f', idx', r1, r2, r3, r4, r5⟩
    · rw [List.append_nil] at r2; rw [r2]; exact ⟨rfl, p', r1⟩
    · rw [r4]; exact ⟨rfl, _, r1⟩
  obtain ⟨hq, p', hr⟩ := hq
  refine ⟨o, p'.bind (finish fin), s', q1, i :: l, ?_, ?_, g4, ?_⟩
  · rw [hloop]; exact hr.bind _
  · rw [tseg_its h.desc h.look tfollow g T q' hv, finish_single (h.single hg hD.2 (fun m hm => hm) T q'), hq]
    exact g1.fin
  · rw [frames_cons, frames_same g5]
    refine suffix_append ?_ _
    rw [frame, g2.kind, ← hk]
    exact List.suffix_append _ _

/-- The decision about one selector that is not a filter. -/
theorem decideAll_one {dec : Sel (CondP ε) → Decision} {x : Val} {st : SelSt ε} (hnf : ∀ c, st.sel ≠ .filter c) :
    (decideAll dec x [st] : IProg ε _) = .ret [if st.done then { st with selected := false }
      else { st with selected := (dec st.sel).yes, done := !(dec st.sel).more }] := by
  simp only [decideAll]
  cases hd : st.done with
  | true => simp [IProg.bind]
  | false =>
    simp only [Bool.false_eq_true, if_false]
    have : fromValue x st.sel = .ret false := by
      cases hs : st.sel with
      | filter c => exact absurd hs (hnf c)
      | _ => rfl
    rw [this]
    cases (dec st.sel).yes <;> cases (dec st.sel).no <;> simp [IProg.bind]

theorem tselects_one {dec : Decision} {v : JVal} {sel : Sel (JVal → Bool)} (hnf : ∀ c, sel ≠ .filter c) : tselects dec v sel = dec.yes := by
  cases hs : sel with
  | filter c => exact absurd hs (hnf c)
  | _ => rfl

/-- Dispatching an item to one selector that is not a filter. -/
theorem dispatch_one {dec : Sel (CondP ε) → Decision} {x : Val} {st : SelSt ε} (hnf : ∀ c, st.sel ≠ .filter c) (hp : st.pending = []) (c : Bool) (ds : Stack ε) (q : φ)
    (hd : st.done = false) (hy : (dec st.sel).yes = true) :
    dispatchItem fin follow dec x ⟨c, [st]⟩ ds q =
      (follow (⟨false, [{ st with selected := true, done := !(dec st.sel).more }]⟩ :: ds) q x).bind fun r =>
          match r.1 with
          | [] => .fail .panic
          | d :: ds => .ret (d, ds, r.2.1, r.2.2) := by
  simp only [dispatchItem]
  rw [decideAll_one hnf]
  simp [hd, hy, IProg.bind, SelSt.over, flushAll, dispatchLive, hp]
  rfl

theorem tdispatch_one {dec : Sel (JVal → Bool) → Decision} {v : JVal} {st : TSt} (hnf : ∀ c, st.sel ≠ .filter c) (hp : st.pending = []) (T : TStack) (q : ψ)
    (hd : st.done = false) (hy : (dec st.sel).yes = true) :
    (tdispatch tfin tfollow dec v [st] T q).2.2.1 = (tfollow ([{ st with selected := true, done := !(dec st.sel).more }] :: T) q v).2.1 := by
  have := tselects_one (dec := dec st.sel) (v := v) hnf
  simp [tdispatch, tdecideAll, hd, this, hy, TSt.over, tflushAll, tdispatchLive, hp]

theorem tdispatch_none {dec : Sel (JVal → Bool) → Decision} {v : JVal} {st : TSt} (hnf : ∀ c, st.sel ≠ .filter c) (hp : st.pending = []) (T : TStack) (q : ψ)
    (hy : st.done = true ∨ (dec st.sel).yes = false) : (tdispatch tfin tfollow dec v [st] T q).2.2.1 = q := by
  have := tselects_one (dec := dec st.sel) (v := v) hnf
  by_cases hd : st.done = true
  · simp [tdispatch, tdecideAll, hd, TSt.over, tflushAll, tdispatchLive, hp, tflushSt, tflushVals]
  · have hd : st.done = false := by simpa using hd
    have hy : (dec st.sel).yes = false := by rcases hy with h | h; · rw [h] at hd; cases hd
                                             · exact h
    cases hm : (dec st.sel).more <;> simp [tdispatch, tdecideAll, hd, this, hy, hm, TSt.over, tflushAll, tdispatchLive, hp, tflushSt, tflushVals]

theorem tloop_one (desc : Bool) (hd : desc = false) {tself : TStack → ψ → JVal → TStack × ψ × Bool} (dec : Sel (JVal → Bool) → Decision) (v : JVal) (t : List TSt) (T : TStack) (q : ψ) :
    (tloop tfin desc tfollow tself [(dec, v)] t T q).2.2.1 = (tdispatch tfin tfollow dec v t T q).2.2.1 := by
  subst hd
  simp only [tloop, roundEnd_strict]
  split <;> rfl

/-- A child segment with a selector that is not a filter, on a collection of which the last member is cut off. -/
theorem SegHyp.inn (h : SegHyp C J G R fin tfin strict F seg tsg follow tfollow) {d : Nat} (hc : CutOk C J G (Fits G F) R d follow tfollow) (hd : tsg.desc = false)
    (hnf : ∀ sel ∈ tsg.sels, ∀ c, sel ≠ .filter c) {g : Nat} (hg : g + 1 ≤ F) :
    CutOk C J G (Fits G (g + 1)) R (d + 1) (segP fin strict F seg follow (g + 1)) (tseg tfin strict tsg tfollow (g + 1)) := by
  intro s S T q q' acc k i v cl l hi hx hD hC ht hS hs hcut
  cases hcut with
  | @inn _ l1 m _ cl hv he hmem hcut =>
  obtain ⟨hk, hb⟩ := hx.before rfl
  have hkt : k ≠ .top := by rw [hk]; cases v <;> simp [JVal.kind]
  have hdesc := h.rel.desc
  have hloop := segP_loop (fin := fin) (strict := strict) (F := F) (seg := seg) (by rw [hdesc]; exact h.desc) (by rw [look_rel h.rel.sels]; exact h.look) follow g S q hkt i
  have hin := hi.new h.rel.sels
  have hidx : ∀ x, x ∈ idxs (newDisp seg.sels :: S) ↔ x ∈ idxs S := by intro x; simp [didx_new]
  have hfm : ∀ m ∈ v.members, MemOk G (Fits G F) (Fits G g) m := fun m hm => by
    have := Fits.mem h.closed hD m hm
    exact ⟨this.1, ⟨this.1, by have := this.2; omega⟩, this⟩
  have hkeys : k = .obj → ∀ m ∈ v.members, ∃ k0 b, m.1 = some k0 ∧ toStr k0 = some b := fun e m hm => by
    cases v with
    | scalar k => exact absurd rfl (hv k)
    | arr l e' => rw [hk] at e; cases e
    | obj l e' => exact h.closed.key hD.1 rfl m hm
  have hl : Loop C s.n (· = i) := ⟨fun x hc => ⟨h.fram.lt hi.j x hc, fun e => hC (show C i from (show _ = i from e) ▸ hc)⟩, fun x e => e ▸ hb.lt⟩
  have hmm : m ∈ v.members := by rw [hmem]; simp
  obtain ⟨o, s', d', ds', q1, t', T', q1', l2, g1, g2, g3, g4, g5, g6, g7⟩ := loop_reach (E := Fits G g) (tself := tseg tfin strict tsg tfollow g) (l := l) h.fram h.fin seg.desc h.follow
    (fun e => by rw [hdesc, hd] at e; cases e)
    hl hkt [m] l1 F 0 s (newDisp seg.sels) (tnew tsg.sels) S T acc q q'
    (by have := (members_len v).1; have := hD.2; have e : v.members.length = l1.length + 1 := by rw [hmem]; simp
        simp; omega) hin (by rw [← hmem]; exact hb) ht hs (fun x hx => by rw [hidx]; exact hS x hx)
    (fun m' hm' => hfm m' (by rw [hmem]; simp [hm'])) (fun e m' hm' => hkeys e m' (by rw [hmem]; simp [hm']))
  have htot : (tseg tfin strict tsg tfollow (g + 1) T q' v).2.1 =
      (tloop tfin tsg.desc tfollow (tseg tfin strict tsg tfollow g) (itsOf k 0 (l1 ++ [m])) (tnew tsg.sels) T q').2.2.1 := by
    rw [tseg_its h.desc h.look tfollow g T q' hv, finish_single (h.single hg hD.2 (fun m hm => hm) T q'), hmem, hk]
  have hin' : m.2.toks <:+ bodyToks (l2 ++ [m]) := suffix_body l2 m
  have hcl : cl <:+ m.2.toks := hcut.suffix.trans (by rw [toks_coll hcut.coll]; exact List.suffix_cons _ _)
  rcases g7 with ⟨p', r, r1, r2⟩ | ⟨f', idx', r1, r2, r3, r4, r5⟩
  · refine ⟨o, p'.bind (finish fin), s', q1, i :: l, ?_, ?_, g4, ?_⟩
    · rw [hloop]; exact r1.bind _
    · rw [htot, ← hdesc, r2]; exact g1.fin
    · rw [frames_cons, frames_same g5]
      refine suffix_append ?_ _
      rw [frame, g2.kind, g2.rest, g2.e, he]
      simp only [elisionToks, Bool.false_eq_true, if_false, List.append_nil]
      rw [hk]
      exact suffix_append (hcl.trans hin') _
  · subst r2
    simp only [List.nil_append] at g2
    obtain ⟨f', rfl⟩ : ∃ x, f' = x + 1 := ⟨f' - 1, by omega⟩
    obtain ⟨key, w⟩ := m
    obtain ⟨s1, x, a1, a2, a3, a4, a5, a6, a7, a8⟩ := adv_ok h.fram hl rfl g1 (fun h e => e ▸ g6 i (by simp)) g2
    obtain ⟨b1, b2, b3, b4⟩ := g4.adv g1.wf g2 g3 a1 a2
    have hi1 := a4.inv
    rw [List.append_nil] at hi1
    have hround := loopP_round (fin := fin) (desc := seg.desc) (follow := follow) (self := segP fin strict F seg follow g) (f := f') (idx := idx') (d := d') (ds := ds') (q := q1)
      hkt a1 a2 (fun e => hkeys e (key, w) hmm)
    have hpre := (r1.trans hround).bind (finish fin)
    rw [List.append_nil, ← hloop] at hpre
    have hsd : seg.desc = false := hdesc.trans hd
    rw [hdesc, itsOf_cons, itsOf_nil] at r5
    have hsing : Single t' := by
      have := h.single hg hD.2 (k := k) (idx := 0) (l := l1) (fun m' hm' => by rw [hmem]; simp [hm']) T q'
      rw [← hdesc, r4] at this
      exact this
    have htd : (tseg tfin strict tsg tfollow (g + 1) T q' v).2.1 = (tdispatch tfin tfollow (decOf k idx' key) w t' T' q1').2.2.1 := by
      rw [htot, r5, tloop_one _ hd]
    obtain ⟨kk, j, rfl⟩ : ∃ kk j, x = .coll kk j := by
      cases w with
      | scalar k => exact absurd rfl (hcut.coll k)
      | arr items e => obtain ⟨i, _, h, _⟩ := a6; exact ⟨_, i, h⟩
      | obj items e => obtain ⟨i, _, h, _⟩ := a6; exact ⟨_, i, h⟩
    obtain ⟨hkk, hbj⟩ := a6.before rfl
    have hspj := b4 kk j rfl
    have hframe_i : frame (s1.coll i) = endToks v.kind := by
      rw [frame, a3.kind, a3.rest, a3.e, he, hk]
      simp [bodyToks, elisionToks]
    have hframe_j : frame (s1.coll j) = bodyToks w.members ++ elisionToks w.elision ++ endToks w.kind := by
      rw [frame, hbj.kind, hbj.rest, hbj.e, hkk]
    have hfr : frames s1 (i :: l) = endToks v.kind ++ frames s l := by
      rw [frames_cons, hframe_i, frames_same (fun x hx => (b2 x hx).trans (g5 x hx))]
    -- nothing is selected
    have hnone : (tdispatch tfin tfollow (decOf k idx' key) w t' T' q1').2.2.1 = q1' →
        ∃ o p' s' q1 l', Reach AState.mach (segP fin strict F seg follow (g + 1) S q (.coll k i)) s o p' s' ∧
          R (acc ++ o) q1 (tseg tfin strict tsg tfollow (g + 1) T q' v).2.1 ∧ Spine s' l' ∧ (cl ++ endToks v.kind) ++ frames s l <:+ frames s' l' := by
      intro e
      refine ⟨o, _, s1, q1, j :: i :: l, hpre, by rw [htd, e]; exact hi1.fin, hspj, ?_⟩
      rw [frames_cons, hfr, hframe_j, List.append_assoc]
      exact suffix_append hcut.suffix _
    obtain ⟨hrel, hnd, hno⟩ := hi1.head
    obtain ⟨c0, states⟩ := d'
    simp only at hrel hnd hno
    cases hrel with
    | nil => exact hnone rfl
    | @cons st tst sts tsts hst hrest =>
      cases hrest with
      | cons _ _ => have := hsing.1; simp at this
      | nil =>
        obtain ⟨sel, hrev, hnfl, hnew⟩ : ∃ sel : Sel (JVal → Bool), sel.reverses = false ∧ (∀ c, sel ≠ .filter c) ∧
            (tnew tsg.sels = [] ∨ ∃ st, tnew tsg.sels = [st] ∧ st.sel = sel ∧ st.pending = []) := by
          have h1 := h.one
          have h2 := rel_rev h.rel.sels
          cases hs : tsg.sels with
          | nil => exact ⟨.wild, rfl, (fun c e => by cases e), .inl rfl⟩
          | cons sel l =>
            rw [hs] at h1 h2 hnf
            cases l with
            | nil => exact ⟨sel, h2 sel (by simp), hnf sel (by simp), .inr ⟨_, rfl, rfl, rfl⟩⟩
            | cons _ _ => simp at h1
        have hst4 := loop_sel (tfin := tfin) (follow := tfollow) (self := tseg tfin strict tsg tfollow g) h.yes (its := itsOf k 0 l1) (fun it hit => by
            obtain ⟨m', hm', e⟩ := its_mem hit
            have := (members_len v).2 m' (by rw [hmem]; simp [hm'])
            have := hD.2
            rw [← e]; exact h.feeds _ (by omega)) (sel := sel) hrev (d := tnew tsg.sels) hnew T q'
        rw [← hd, ← hdesc, r4] at hst4
        rcases hst4 with hst4 | ⟨st4, hst4, hsel4, htp⟩
        · cases hst4
        cases hst4
        have hnft : ∀ c, tst.sel ≠ .filter c := by rw [hsel4]; exact hnfl
        have hnfs : ∀ c, st.sel ≠ .filter c := by
          intro c e
          have := hst.sel
          rw [e] at this
          cases ht : tst.sel with
          | filter c' => exact hnft c' ht
          | _ => rw [ht] at this; cases this
        have hsp : st.pending = [] := by
          have := hst.pend
          rw [htp] at this
          generalize st.pending = l at this
          cases this
          rfl
        have hdec := decOf_rel (k := k) (idx := idx') (key := key) hst.sel
        by_cases hy : st.done = false ∧ (decOf k idx' key st.sel).yes = true
        · obtain ⟨hy1, hy2⟩ := hy
          have hdj : didx [({ st with selected := true, done := !(decOf k idx' key st.sel).more } : SelSt ε)] = [] := by simp [didx, hsp]
          have hj0 : (s1.coll j).thr = 0 := by cases hspj; assumption
          have hnij : ∀ x ∈ idxs ds', x ∈ idxs ((⟨c0, [st]⟩ : Disp ε) :: ds') := fun x hx => by rw [idxs_cons]; simp [hx]
          have hw := hfm (key, w) hmm
          obtain ⟨o2, p2, s2, q2, l2, c1, c2, c3, c4⟩ := hc s1 (⟨false, [{ st with selected := true, done := !(decOf k idx' key st.sel).more }]⟩ :: ds')
            ([{ tst with selected := true, done := !(decOf k idx' key tst.sel).more }] :: T') q1 q1' (acc ++ o) kk j w cl (i :: l)
            (hi1.tail.cons (.cons ⟨hst.sel, rfl, by simp only [hdec], by simp only; rw [hsp, htp]; exact .nil, by simp only [htp]; intro v hv; cases hv⟩ .nil)
              (by simp only [hdj]; exact List.nodup_nil) (by simp only [hdj]; intro x hx; cases hx) true (by intro _ st hst; cases hst))
            a6 hw.follow (a8 j rfl).1 hj0 (by
              intro x hx
              rw [idxs_cons, hdj, List.nil_append]
              rcases List.mem_cons.1 hx with rfl | hx
              · exact fun e => (a8 x rfl).2 (hnij x e)
              · exact fun e => g6 x hx (hnij x e)) hspj hcut
          simp only [roundP, cloneDesc, hsd, Bool.false_eq_true, if_false, IProg.bind] at hpre
          rw [dispatch_one hnfs hsp c0 ds' q1 hy1 hy2] at hpre
          refine ⟨o ++ o2, _, s2, q2, l2, hpre.trans (((c1.bind _).bind _).bind _), ?_, c3, ?_⟩
          · rw [htd, tdispatch_one hnft htp T' q1' (by rw [← hst.done]; exact hy1) (by rw [← hdec]; exact hy2), ← List.append_assoc]
            exact c2
          · rw [hfr] at c4
            rw [List.append_assoc]
            exact c4
        · refine hnone (tdispatch_none hnft htp T' q1' ?_)
          rw [← hst.done, ← hdec]
          cases hdn : st.done with
          | true => exact .inl rfl
          | false =>
            right
            cases hy' : (decOf k idx' key st.sel).yes with
            | false => rfl
            | true => exact absurd ⟨hdn, hy'⟩ hy

end

end JPath
end Verif
