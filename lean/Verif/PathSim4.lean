import Verif.PathSim3

/-!
# The engine on handles does what it does on values: loops over arrays, and segments
-/

set_option linter.unusedSimpArgs false
set_option linter.unusedVariables false

namespace Verif.JPath
open AState IProg GoJson

variable {ε φ ψ : Type} {C : Nat → Prop} {J : AState → Prop} {G P : JVal → Prop} {R : List ε → φ → ψ → Prop}
variable {fin : φ → Val → IProg ε (φ × Bool)} {tfin : ψ → JVal → ψ × Bool}

/-- The next negative index, after an item has been dispatched. -/
theorem nextNeg_ok (hFr : Frame C J) {n0 : Nat} {A : Nat → Prop} (hl : Loop C n0 A) {ahead : Option Nat} (hA : ∀ a, ahead = some a → A a)
    {s s' : AState} {S S' : Stack ε} {acc} {b : Bool} {F T' q1' o q1} {w : Int × Option Nat}
    (hok : Ok (φ := φ) (ψ := ψ) C J G P R b s F S acc T' q1' s' S' o q1) (hS : ∀ h, A h → h ∉ idxs S')
    (ha : Ahead s' n0 ahead w.2) :
    ∃ s'', (nextNeg ahead w.1 : IProg ε Int).run AState.mach s' = ([], .ok (s'', (windowNext w.1 w.2).1)) ∧
      Ok C J G P R b s (fun h => F h ∨ LF s n0 A h) S acc T' q1' s'' S' o q1 ∧ Mod (LF s' n0 (fun h => ahead = some h)) s' s'' ∧
      Ahead s'' n0 ahead (windowNext w.1 w.2).2 := by
  obtain ⟨s'', e1, e2, e3⟩ := nextNeg_run (ε := ε) hok.inv.wf ha
  have hm : Mod (LF s' n0 (fun h => ahead = some h)) s' s'' := e2.mono hok.inv.wf (by
    rintro i hi ⟨a, h1, h2⟩
    exact LF.chain h1 h2)
  have hm' : Mod (LF s' n0 A) s' s'' := hm.mono hok.inv.wf (fun i _ e => Or.imp (hA i) id e)
  refine ⟨s'', e1, ?_, hm, e3⟩
  have hok' : Ok C J G P R b s (fun h => F h ∨ LF s n0 A h) S acc T' q1' s' S' o q1 :=
    ⟨hok.inv, ⟨hok.mod.wf, hok.mod.eff.mono (fun i _ e => e.elim (fun e => .inl (.inl e)) .inr)
      (fun t _ e g hg h => (e g hg h).elim (fun e => .inl (.inl e)) .inr)⟩, hok.new, hok.len⟩
  exact hok'.more hm' (hFr.keep hok.inv.j hm' hl.noC) (fun i hi => LF.own (hok.inv.own i hi) (fun e => hS i e hi))
    (fun i hi e => .inl (.inr (e.back hok.mod hi)))

theorem arrRelaxed_ok (hFr : Frame C J) (hfin : FinOk R G fin tfin) (desc : Bool) {D E Q : JVal → Prop}
    {follow self : Stack ε → φ → Val → IProg ε (Stack ε × φ × Bool)} {tfollow tself : TStack → ψ → JVal → TStack × ψ × Bool}
    (hf : FollowOk C J G P (fun v => D v ∧ Q v) R follow tfollow) (hk : Keeps tfollow) (hself : FollowOk C J G P E R self tself)
    (hks : desc = true → Keeps tself) {n0 i : Nat} {ahead : Option Nat}
    (hl : Loop C n0 (fun h => h = i ∨ ahead = some h)) (hia : ahead ≠ some i) {e : Bool} :
    ∀ (rest : List (Option Scalar × JVal)) (f : Nat) (index : Int) (w : Int × Option Nat) (s : AState) (d : Disp ε) (t : List TSt) (ds : Stack ε)
      (T : TStack) (acc : List ε) (q : φ) (q' : ψ),
    rest.length < f → Inv C J G P R false s (d :: ds) (t :: T) acc q q' → Before s n0 i .arr rest e → Ahead s n0 ahead w.2 →
    (∀ h, h = i ∨ ahead = some h → h ∉ idxs (d :: ds)) → Sound Q (sh t) (arrItems rest index w) →
    (∀ m ∈ rest, MemOk G D (fun v => desc = true → E v) m) →
    ∃ s' o d' ds' q1, (arrRelaxed fin desc follow self i ahead f index w.1 d ds q).run AState.mach s =
        (o, .ok (s', (d', ds', q1, (tarrRelaxed tfin desc tfollow tself rest index w t T q').2.2.2))) ∧
      Ok C J G P R false s (LF s n0 (fun h => h = i ∨ ahead = some h)) (d :: ds) acc
        ((tarrRelaxed tfin desc tfollow tself rest index w t T q').1 :: (tarrRelaxed tfin desc tfollow tself rest index w t T q').2.1)
        (tarrRelaxed tfin desc tfollow tself rest index w t T q').2.2.1 s' (d' :: ds') o q1 := by
  intro rest
  induction rest with
  | nil =>
    intro f index w s d t ds T acc q q' hlen hi hb ha hS hso hm
    cases f with
    | zero => omega
    | succ f =>
      obtain ⟨s1, e1, e2⟩ := adv_end_ok hFr hl (.inl rfl) hi hS hb (by simp)
      refine ⟨s1, [], d, ds, q, ?_, e2⟩
      simp only [arrRelaxed]
      rw [arun_op e1]
      rfl
  | cons m rest ih =>
    intro f index w s d t ds T acc q q' hlen hi hb ha hS hso hm
    cases f with
    | zero => omega
    | succ f =>
      obtain ⟨k, v⟩ := m
      have hmo := hm (k, v) List.mem_cons_self
      obtain ⟨s1, x, a1, a2, a3, a4, a5, a6, a7, a8⟩ := adv_ok hFr hl (.inl rfl) hi hS hb
      have hi1 := a4.inv
      rw [List.append_nil] at hi1
      obtain ⟨s2, p, b1, b2, b3, b4, b5, b6⟩ := cloneDesc_ok hFr desc hi1 a6 a8
      have hi2 := b2.inv
      rw [List.append_nil] at hi2
      obtain ⟨hsv, hso'⟩ := Sound.step (d := t) (dec := (·.fromIndex index w.1)) (v := v) hso
      rw [← (dispatch_keeps (fin := tfin) hk (·.fromIndex index w.1) v t T q').1] at hso'
      rw [← (roundEnd_keeps (desc := desc) (self := tself) hks v (tdispatch tfin tfollow (·.fromIndex index w.1) v t T q')).1] at hso'
      obtain ⟨s3, o3, d3, ds3, q3, c1, c2⟩ := dispatchItem_ok (dec := (·.fromIndex index w.1)) (tdec := (·.fromIndex index w.1)) hFr hfin hf
        (fun a b h => h.fromIndex index w.1) hmo.good (fun ha => ⟨hmo.follow, hsv ha⟩) hi2 b3 a8
      have hin : i < s.n := hb.lt
      have hn1 := a5.n
      have hbase := hb.base
      have hAlt : ∀ h, h = i ∨ ahead = some h → h < s.n := fun h e => by have := hl.lt h e; omega
      have hpj : desc = true → ∀ j, p.1.idx = some j → ¬ x.idx = some j ∧ j ∉ idxs (d :: ds) ∧ ¬ C j ∧ s1.n ≤ j := fun hd j hj => by
        have := (b4 hd).2 j hj
        exact ⟨fun e => by have := a6.lt j e; omega, fun e => by have := hi1.lt j e; omega, fun e => by have := hFr.lt hi1.j j e; omega, this⟩
      have hpo : desc = true → Owned s3 p v ∧ ∀ j, p.1.idx = some j → ¬ C j ∧ j ∉ idxs (d3 :: ds3) := fun hd => by
        refine ⟨c2.mod.owned hi2.wf (b4 hd).1 (fun j hj e => e.elim (hpj hd j hj).1 (hpj hd j hj).2.1), fun j hj => ⟨(hpj hd j hj).2.2.1, ?_⟩⟩
        exact c2.still (A := fun j => p.1.idx = some j) (fun h e => (b4 hd).1.fresh.lt h e) (fun h e => (hpj hd h e).2.1) j hj
      have r1 := b2.trans0 c2 (fun j hj e => .inl e)
      simp only [arrRelaxed, tarrRelaxed]
      rw [arun_op a1]
      simp only [if_true]
      rw [arun_op a2]
      simp only
      rw [run_ok_bind b1, run_ok_bind c1]
      simp only
      by_cases hr : (tdispatch tfin tfollow (fun x => x.fromIndex index w.1) v t T q').2.2.2 = true
      · simp only [hr, if_true]
        have ha3 : Ahead s3 n0 ahead w.2 := by
          refine ((ha.mod a5 ?_).mod b2.mod ?_).mod c2.mod ?_
          · rintro j hj (e | e)
            · exact hia (e ▸ hj)
            · have := hl.lt j (.inr hj); omega
          · rintro j hj (e | e)
            · have := a7 j e; have := hAlt j (.inr hj); omega
            · exact hS j (.inr hj) e
          · rintro j hj (e | e)
            · have := a7 j e; have := hAlt j (.inr hj); omega
            · exact hS j (.inr hj) e
        have hS3 := c2.still (A := fun h => h = i ∨ ahead = some h) (fun h e => by have := hAlt h e; have := b2.mod.n; omega) hS
        obtain ⟨s3', n1, n2, n3, n4⟩ := nextNeg_ok hFr hl (fun a h => .inr h) r1 hS3 ha3
        have hpn : ∀ j, desc = true → p.1.idx = some j → ¬ LF s3 n0 (fun h => ahead = some h) j := fun j hd hj =>
          LF.own ((hpo hd).1.own j hj).2 (fun e => by have := hAlt j (.inr e); have := (hpj hd j hj).2.2.2; omega)
        obtain ⟨s4, o4, d4, ds4, q4, g1, g2⟩ := roundEnd_ok (self := self) (tself := tself) (p := p) (v := v) hFr desc
          (tdispatch tfin tfollow (·.fromIndex index w.1) v t T q').2.2.2 n2.inv
          (fun hd => ⟨n3.owned c2.inv.wf (hpo hd).1 (fun j hj => hpn j hd hj), (hpo hd).2⟩) b5 (fun hd => ⟨hself, hmo.self hd⟩)
        have r2 := n2.trans g2 (fun j hj e => by have := (hpj e.1 j e.2).2.2.2; omega)
        have r3 := a4.trans0 r2 (fun j hj e => by
          rcases e with e | e
          · have := a7 j e; omega
          · exact .inl (e.back a5 hj))
        -- what the next round needs
        have hA4 : ∀ j, (j = i ∨ ahead = some j) → ¬ ((desc = true ∧ p.1.idx = some j) ∨ j ∈ idxs (d3 :: ds3)) := by
          rintro j hj (⟨hd, e⟩ | e)
          · have := hAlt j hj; have := (hpj hd j e).2.2.2; omega
          · exact hS3 j hj e
        have hb3 : Before s3 n0 i .arr rest e := r1.mod.before a3 (by
          rintro (e | e)
          · have := a7 i e; omega
          · exact hS i (.inl rfl) e)
        have hb4 : Before s4 n0 i .arr rest e := by
          refine g2.mod.before (n3.before hb3 ?_) (hA4 i (.inl rfl))
          rintro (e | e)
          · exact hia e
          · have := hb.i0; omega
        have ha4 : Ahead s4 n0 ahead (windowNext w.1 w.2).2 := n4.mod g2.mod (fun j hj => hA4 j (.inr hj))
        have hS4 := r3.still (A := fun h => h = i ∨ ahead = some h) hAlt hS
        rw [hr] at g1
        rw [run_ok_bind n1, run_ok_bind g1]
        have hcat : troundEnd desc tself v (tdispatch tfin tfollow (fun x => x.fromIndex index w.1) v t T q') =
          troundEnd desc tself v ((tdispatch tfin tfollow (fun x => x.fromIndex index w.1) v t T q').1,
            (tdispatch tfin tfollow (fun x => x.fromIndex index w.1) v t T q').2.1,
            (tdispatch tfin tfollow (fun x => x.fromIndex index w.1) v t T q').2.2.1, true) := by rw [← hr]
        rw [hcat] at hso' ⊢
        rw [hr] at r3
        generalize troundEnd desc tself v ((tdispatch tfin tfollow (fun x => x.fromIndex index w.1) v t T q').1,
            (tdispatch tfin tfollow (fun x => x.fromIndex index w.1) v t T q').2.1,
            (tdispatch tfin tfollow (fun x => x.fromIndex index w.1) v t T q').2.2.1, true) = rr at *
        obtain ⟨cont, t4, T4, q4', res⟩ := rr
        simp only at g1 r3 hso' ⊢
        cases cont with
        | false =>
          refine ⟨s4, o3 ++ o4, d4, ds4, q4, ?_, r3⟩
          simp [IProg.run]
        | true =>
          simp only [if_true]
          obtain ⟨s5, o5, d5, ds5, q5, k1, k2⟩ := ih f (index + 1) (windowNext w.1 w.2) s4 d4 t4 ds4 T4 (acc ++ (o3 ++ o4)) q4 q4'
            (by simp at hlen; omega) r3.inv hb4 ha4 hS4 hso' (fun m hm' => hm m (List.mem_cons_of_mem _ hm'))
          refine ⟨s5, (o3 ++ o4) ++ o5, d5, ds5, q5, ?_, r3.round k2 (fun j _ e => e)⟩
          rw [k1]
          simp
      · have hr' : (tdispatch tfin tfollow (fun x => x.fromIndex index w.1) v t T q').2.2.2 = false := by simpa using hr
        obtain ⟨s4, o4, d4, ds4, q4, g1, g2⟩ := roundEnd_ok (self := self) (tself := tself) (p := p) (v := v) hFr desc
          (tdispatch tfin tfollow (·.fromIndex index w.1) v t T q').2.2.2 c2.inv hpo b5 (fun hd => ⟨hself, hmo.self hd⟩)
        have r2 := a4.trans0 (r1.trans g2 (fun j hj e => by have := (hpj e.1 j e.2).2.2.2; omega)) (fun j hj e => by have := a7 j e; omega)
        have hne : (troundEnd desc tself v (tdispatch tfin tfollow (fun x => x.fromIndex index w.1) v t T q')).1 = false := by
          simp only [troundEnd, hr', Bool.false_eq_true, if_false]
        rw [hr'] at g1
        simp only [hr', Bool.false_eq_true, if_false, hne]
        rw [run_ok_bind g1]
        refine ⟨s4, o3 ++ o4, d4, ds4, q4, ?_, r2⟩
        simp [IProg.run, ← hr']

end Verif.JPath
