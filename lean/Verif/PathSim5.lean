import Verif.PathSim4

/-!
# The engine on handles does what it does on values: segments
-/

set_option linter.unusedSimpArgs false
set_option linter.unusedVariables false

namespace Verif.JPath
open AState IProg GoJson

variable {ε φ ψ : Type} {C : Nat → Prop} {J : AState → Prop} {G P : JVal → Prop} {R : List ε → φ → ψ → Prop}
variable {fin : φ → Val → IProg ε (φ × Bool)} {tfin : ψ → JVal → ψ × Bool}

theorem objStrict_ok (hFr : Frame C J) (hfin : FinOk R G fin tfin) {D E Q : JVal → Prop}
    {follow : Stack ε → φ → Val → IProg ε (Stack ε × φ × Bool)} {tfollow : TStack → ψ → JVal → TStack × ψ × Bool}
    (hf : FollowOk C J G P (fun v => D v ∧ Q v) R follow tfollow) (hk : Keeps tfollow) {n0 i : Nat} (hl : Loop C n0 (· = i)) {e : Bool} :
    ∀ (rest : List (Option Scalar × JVal)) (f : Nat) (s : AState) (d : Disp ε) (t : List TSt) (ds : Stack ε) (T : TStack) (acc : List ε) (q : φ) (q' : ψ),
    rest.length < f → Inv C J G P R false s (d :: ds) (t :: T) acc q q' → Before s n0 i .obj rest e → i ∉ idxs (d :: ds) →
    Sound Q (sh t) (objItems rest) → (∀ m ∈ rest, MemOk G D E m ∧ ∃ k key, m.1 = some k ∧ toStr k = some key) →
    ∃ s' o d' ds' q1, (objStrict fin follow i f d ds q).run AState.mach s =
        (o, .ok (s', (d', ds', q1, (tobjStrict tfin tfollow rest t T q').2.2.2))) ∧
      Ok C J G P R false s (LF s n0 (· = i)) (d :: ds) acc
        ((tobjStrict tfin tfollow rest t T q').1 :: (tobjStrict tfin tfollow rest t T q').2.1)
        (tobjStrict tfin tfollow rest t T q').2.2.1 s' (d' :: ds') o q1 := by
  intro rest
  induction rest with
  | nil =>
    intro f s d t ds T acc q q' hlen hi hb hS hso hm
    cases f with
    | zero => omega
    | succ f =>
      obtain ⟨s1, e1, e2⟩ := adv_end_ok hFr hl rfl hi (fun h e => e ▸ hS) hb (by simp)
      refine ⟨s1, [], d, ds, q, ?_, e2⟩
      simp only [objStrict]
      rw [arun_op e1]
      rfl
  | cons m rest ih =>
    intro f s d t ds T acc q q' hlen hi hb hS hso hm
    cases f with
    | zero => omega
    | succ f =>
      obtain ⟨k, v⟩ := m
      obtain ⟨hmo, k0, key, hk, hkey⟩ := hm (k, v) List.mem_cons_self
      simp only at hk
      subst hk
      obtain ⟨s1, x, a1, a2, a3, a4, a5, a6, a7, a8⟩ := adv_ok hFr hl rfl hi (fun h e => e ▸ hS) hb
      have hi1 := a4.inv
      rw [List.append_nil] at hi1
      have hkt : tkey (some k0) = key := by simp [tkey, hkey]
      obtain ⟨hsv, hso'⟩ := Sound.step (hkt ▸ hso : Sound Q (sh t) ((fun s => s.fromKey key, v) :: objItems rest))
      rw [← (dispatch_keeps (fin := tfin) hk (·.fromKey key) v t T q').1] at hso'
      obtain ⟨s3, o3, d3, ds3, q3, c1, c2⟩ := dispatchItem_ok (dec := (·.fromKey key)) (tdec := (·.fromKey key)) hFr hfin hf
        (fun a b h => h.fromKey key) hmo.good (fun ha => ⟨hmo.follow, hsv ha⟩) hi1 a6 a8
      have hin : i < s.n := hb.lt
      have r2 := a4.trans0 c2 (fun j hj e => by have := a7 j e; omega)
      have hb4 : Before s3 n0 i .obj rest e := c2.mod.before a3 (fun e => e.elim (fun e => by have := a7 i e; omega) hS)
      have hS4 := r2.still (A := (· = i)) (fun h e => e ▸ hin) (fun h e => e ▸ hS)
      have hem := rel2_isEmpty c2.inv.head.1
      simp only [objStrict, tobjStrict, hkt]
      rw [arun_op a1]
      simp only [if_true]
      rw [arun_op a2]
      simp only [hkey]
      rw [run_ok_bind c1]
      simp only [hem]
      generalize tdispatch tfin tfollow (fun x => x.fromKey key) v t T q' = rr at *
      obtain ⟨t4, T4, q4', res⟩ := rr
      simp only at r2 hS4 hso' ⊢
      cases hc : (res && !t4.isEmpty) with
      | false =>
        refine ⟨s3, o3, d3, ds3, q3, ?_, r2⟩
        simp [IProg.run]
      | true =>
        simp only [if_true]
        obtain ⟨s5, o5, d5, ds5, q5, k1, k2⟩ := ih f s3 d3 t4 ds3 T4 (acc ++ o3) q3 q4' (by simp at hlen; omega) r2.inv hb4 (hS4 i rfl) hso'
          (fun m hm' => hm m (List.mem_cons_of_mem _ hm'))
        refine ⟨s5, o3 ++ o5, d5, ds5, q5, ?_, r2.round k2 (fun j _ e => e)⟩
        rw [k1]

theorem arrStrict_ok (hFr : Frame C J) (hfin : FinOk R G fin tfin) {D E Q : JVal → Prop}
    {follow : Stack ε → φ → Val → IProg ε (Stack ε × φ × Bool)} {tfollow : TStack → ψ → JVal → TStack × ψ × Bool}
    (hf : FollowOk C J G P (fun v => D v ∧ Q v) R follow tfollow) (hk : Keeps tfollow) {n0 i : Nat} {ahead : Option Nat}
    (hl : Loop C n0 (fun h => h = i ∨ ahead = some h)) (hia : ahead ≠ some i) {e : Bool} :
    ∀ (rest : List (Option Scalar × JVal)) (f : Nat) (index : Int) (w : Int × Option Nat) (s : AState) (d : Disp ε) (t : List TSt) (ds : Stack ε)
      (T : TStack) (acc : List ε) (q : φ) (q' : ψ),
    rest.length < f → Inv C J G P R false s (d :: ds) (t :: T) acc q q' → Before s n0 i .arr rest e → Ahead s n0 ahead w.2 →
    (∀ h, h = i ∨ ahead = some h → h ∉ idxs (d :: ds)) → Sound Q (sh t) (arrItems rest index w) →
    (∀ m ∈ rest, MemOk G D E m) →
    ∃ s' o d' ds' q1, (arrStrict fin follow i ahead f index w.1 d ds q).run AState.mach s =
        (o, .ok (s', (d', ds', q1, (tarrStrict tfin tfollow rest index w t T q').2.2.2))) ∧
      Ok C J G P R false s (LF s n0 (fun h => h = i ∨ ahead = some h)) (d :: ds) acc
        ((tarrStrict tfin tfollow rest index w t T q').1 :: (tarrStrict tfin tfollow rest index w t T q').2.1)
        (tarrStrict tfin tfollow rest index w t T q').2.2.1 s' (d' :: ds') o q1 := by
  intro rest
  induction rest with
  | nil =>
    intro f index w s d t ds T acc q q' hlen hi hb ha hS hso hm
    cases f with
    | zero => omega
    | succ f =>
      obtain ⟨s1, e1, e2⟩ := adv_end_ok hFr hl (.inl rfl) hi hS hb (by simp)
      refine ⟨s1, [], d, ds, q, ?_, e2⟩
      simp only [arrStrict]
      rw [arun_op e1]
      rfl
  | cons m rest ih =>
    intro f index w s d t ds T acc q q' hlen hi hb ha hS hso hm
    cases f with
    | zero => omega
    | succ f =>
      obtain ⟨k, v⟩ := m
      have hmo := hm (k, v) List.mem_cons_self
      obtain ⟨s1, x, a1, a2, a3, a4, a5, a6, a7, a8⟩ := adv_ok hFr hl (.inl rfl) hi hS hb
      have hi1 := a4.inv
      rw [List.append_nil] at hi1
      obtain ⟨hsv, hso'⟩ := Sound.step (d := t) (dec := (·.fromIndex index w.1)) (v := v) hso
      rw [← (dispatch_keeps (fin := tfin) hk (·.fromIndex index w.1) v t T q').1] at hso'
      obtain ⟨s3, o3, d3, ds3, q3, c1, c2⟩ := dispatchItem_ok (dec := (·.fromIndex index w.1)) (tdec := (·.fromIndex index w.1)) hFr hfin hf
        (fun a b h => h.fromIndex index w.1) hmo.good (fun ha => ⟨hmo.follow, hsv ha⟩) hi1 a6 a8
      have hin : i < s.n := hb.lt
      have hn1 := a5.n
      have hbase := hb.base
      have hAlt : ∀ h, h = i ∨ ahead = some h → h < s.n := fun h e => by have := hl.lt h e; omega
      have hem := rel2_isEmpty c2.inv.head.1
      simp only [arrStrict, tarrStrict]
      rw [arun_op a1]
      simp only [if_true]
      rw [arun_op a2]
      simp only
      rw [run_ok_bind c1]
      simp only [hem]
      have ha3 : Ahead s3 n0 ahead w.2 := by
        refine (ha.mod a5 ?_).mod c2.mod ?_
        · rintro j hj (e | e)
          · exact hia (e ▸ hj)
          · have := hl.lt j (.inr hj); omega
        · rintro j hj (e | e)
          · have := a7 j e; have := hAlt j (.inr hj); omega
          · exact hS j (.inr hj) e
      have hS3 := c2.still (A := fun h => h = i ∨ ahead = some h) (fun h e => by have := hAlt h e; omega) hS
      obtain ⟨s4, n1, n2, n3, n4⟩ := nextNeg_ok hFr hl (fun a h => .inr h) c2 hS3 ha3
      have r0 := a4.trans0 c2 (fun j hj e => by have := a7 j e; omega)
      have r3 := a4.trans0 n2 (fun j hj e => by
        rcases e with e | e
        · have := a7 j e; omega
        · exact .inl (e.back a5 hj))
      have hb3 : Before s3 n0 i .arr rest e := c2.mod.before a3 (by
        rintro (e | e)
        · have := a7 i e; omega
        · exact hS i (.inl rfl) e)
      have hb4 : Before s4 n0 i .arr rest e := by
        refine n3.before hb3 ?_
        rintro (e | e)
        · exact hia e
        · have := hb.i0; omega
      have hS4 := r3.still (A := fun h => h = i ∨ ahead = some h) hAlt hS
      generalize tdispatch tfin tfollow (fun x => x.fromIndex index w.1) v t T q' = rr at *
      obtain ⟨t4, T4, q4', res⟩ := rr
      simp only at r0 r3 hem hso' ⊢
      cases res with
      | false =>
        refine ⟨s3, o3, d3, ds3, q3, ?_, r0⟩
        simp [IProg.run]
      | true =>
        simp only [if_true, Bool.true_and]
        rw [run_ok_bind n1]
        cases hc : t4.isEmpty with
        | true =>
          refine ⟨s4, o3, d3, ds3, q3, ?_, r3⟩
          simp [IProg.run]
        | false =>
          simp only [Bool.false_eq_true, if_false, Bool.not_false, if_true]
          obtain ⟨s5, o5, d5, ds5, q5, k1, k2⟩ := ih f (index + 1) (windowNext w.1 w.2) s4 d3 t4 ds3 T4 (acc ++ o3) q3 q4'
            (by simp at hlen; omega) r3.inv hb4 n4 hS4 hso' (fun m hm' => hm m (List.mem_cons_of_mem _ hm'))
          refine ⟨s5, o3 ++ o5, d5, ds5, q5, ?_, r3.round k2 (fun j _ e => e)⟩
          rw [k1]
          simp

theorem descend_ok (hFr : Frame C J) {E : JVal → Prop}
    {self : Stack ε → φ → Val → IProg ε (Stack ε × φ × Bool)} {tself : TStack → ψ → JVal → TStack × ψ × Bool}
    (hself : FollowOk C J G P E R self tself) {n0 i : Nat} (hl : Loop C n0 (· = i)) {e : Bool} {k : Kind} (hk : k ≠ .top) :
    ∀ (rest : List (Option Scalar × JVal)) (f : Nat) (s : AState) (ds : Stack ε) (T : TStack) (acc : List ε) (q : φ) (q' : ψ),
    rest.length < f → Inv C J G P R true s ds T acc q q' → Before s n0 i k rest e → i ∉ idxs ds → (∀ m ∈ rest, E m.2) →
    ∃ s' o ds' q1, (descend self i f ds q).run AState.mach s = (o, .ok (s', (ds', q1, (tdescend tself rest T q').2.2))) ∧
      Ok C J G P R true s (LF s n0 (· = i)) ds acc (tdescend tself rest T q').1 (tdescend tself rest T q').2.1 s' ds' o q1 := by
  intro rest
  induction rest with
  | nil =>
    intro f s ds T acc q q' hlen hi hb hS hm
    cases f with
    | zero => omega
    | succ f =>
      obtain ⟨s1, e1, e2⟩ := adv_end_ok hFr hl rfl hi (fun h e => e ▸ hS) hb hk
      refine ⟨s1, [], ds, q, ?_, e2⟩
      simp only [descend]
      rw [arun_op e1]
      rfl
  | cons m rest ih =>
    intro f s ds T acc q q' hlen hi hb hS hm
    cases f with
    | zero => omega
    | succ f =>
      obtain ⟨k, v⟩ := m
      have hmo := hm (k, v) List.mem_cons_self
      obtain ⟨s1, x, a1, a2, a3, a4, a5, a6, a7, a8⟩ := adv_ok hFr hl rfl hi (fun h e => e ▸ hS) hb
      have hi1 := a4.inv
      rw [List.append_nil] at hi1
      obtain ⟨s3, o3, ds3, q3, c1, c2⟩ := hself s1 ds T q q' acc x v hi1 a6 hmo a8
      have hin : i < s.n := hb.lt
      have r2 := a4.trans0 c2 (fun j hj e => by have := a7 j e; omega)
      have hb4 : Before s3 n0 i _ rest e := c2.mod.before a3 (fun e => e.elim (fun e => by have := a7 i e; omega) hS)
      have hS4 := r2.still (A := (· = i)) (fun h e => e ▸ hin) (fun h e => e ▸ hS)
      simp only [descend, tdescend]
      rw [arun_op a1]
      simp only [if_true]
      rw [arun_op a2]
      simp only
      rw [run_ok_bind c1]
      simp only
      generalize tself T q' v = rr at *
      obtain ⟨T4, q4', res⟩ := rr
      simp only at r2 ⊢
      cases res with
      | false =>
        refine ⟨s3, o3, ds3, q3, ?_, r2⟩
        simp [IProg.run]
      | true =>
        simp only [if_true]
        obtain ⟨s5, o5, ds5, q5, k1, k2⟩ := ih f s3 ds3 T4 (acc ++ o3) q3 q4' (by simp at hlen; omega) r2.inv hb4 (hS4 i rfl)
          (fun m hm' => hm m (List.mem_cons_of_mem _ hm'))
        refine ⟨s5, o3 ++ o5, ds5, q5, ?_, r2.round k2 (fun j _ e => e)⟩
        rw [k1]

/-- The deferred flush. -/
theorem finish_ok (hFr : Frame C J) (hfin : FinOk R G fin tfin) {s s1 : AState} {d0 d : Disp ε} {ds0 ds : Stack ε} {acc o} {F : Nat → Prop}
    {t T} {q : φ} {q' : ψ} (r : Bool) (h : Ok C J G P R false s F (d0 :: ds0) acc (t :: T) q' s1 (d :: ds) o q) (hd : didx d0.states = []) :
    ∃ s' o' ds' q1, (finish fin (d, ds, q, r)).run AState.mach s1 = (o', .ok (s', (ds', q1, (tfinish tfin (t, T, q', r)).2.2))) ∧
      Ok C J G P R true s F ds0 acc (tfinish tfin (t, T, q', r)).1 (tfinish tfin (t, T, q', r)).2.1 s' ds' (o ++ o') q1 := by
  have hi0 : idxs (d0 :: ds0) = idxs ds0 := by simp [hd]
  have hpop : Ok C J G P R true s F ds0 acc T q' s1 ds o q := by
    refine ⟨h.inv.tail, by rw [← hi0]; exact h.mod, fun i hi => ?_, by simpa using h.len⟩
    rw [← hi0]
    exact h.new i (by simp [hi])
  obtain ⟨h1, h2, h3⟩ := h.inv.head
  obtain ⟨s2, o2, ds2, q2, e1, e2⟩ := flushAll_ok hFr hfin d.states t r s1 ds T (acc ++ o) q q' hpop.inv h1 h2 h3
  refine ⟨s2, o2, ds2, q2, ?_, ?_⟩
  · simp only [finish, tfinish]
    rw [run_ok_bind e1]
    simp [IProg.run]
  · refine hpop.trans e2 (fun i hi e => .inr ?_)
    rcases (h.new i (by simp [e])).lo with e | e
    · rwa [hi0] at e
    · omega

theorem strictEnd_ok (hFr : Frame C J) (desc : Bool) {E : JVal → Prop}
    {self : Stack ε → φ → Val → IProg ε (Stack ε × φ × Bool)} {tself : TStack → ψ → JVal → TStack × ψ × Bool}
    (hself : FollowOk C J G P E R self tself) {s : AState} {d : Disp ε} {ds : Stack ε} {t T acc} {q : φ} {q' : ψ} {p : Val × Option Nat} {v : JVal}
    (r : Bool) (f : Nat) (hlen : v.members.length < f) (hi : Inv C J G P R false s (d :: ds) (t :: T) acc q q')
    (hp : desc = true → Owned s p v ∧ ∀ j, p.1.idx = some j → ¬ C j ∧ j ∉ idxs (d :: ds)) (hv : ∀ k, v ≠ .scalar k)
    (hm : desc = true → ∀ m ∈ v.members, E m.2) :
    ∃ s' o d' ds' q1, (strictEnd desc self p f (d, ds, q, r)).run AState.mach s =
        (o, .ok (s', (d', ds', q1, (tstrictEnd desc tself v.members (t, T, q', r)).2.2.2))) ∧
      Ok C J G P R false s (fun j => desc = true ∧ p.1.idx = some j) (d :: ds) acc
        ((tstrictEnd desc tself v.members (t, T, q', r)).1 :: (tstrictEnd desc tself v.members (t, T, q', r)).2.1)
        (tstrictEnd desc tself v.members (t, T, q', r)).2.2.1 s' (d' :: ds') o q1 := by
  cases hrd : (r && desc) with
  | false =>
    refine ⟨s, [], d, ds, q, ?_, ?_⟩
    · simp only [strictEnd, tstrictEnd, hrd, Bool.false_eq_true, if_false]; rfl
    · simp only [strictEnd, tstrictEnd, hrd, Bool.false_eq_true, if_false]; exact Ok.refl hi
  | true =>
    have hd : desc = true := by simp at hrd; exact hrd.2
    obtain ⟨ho, hp⟩ := hp hd
    obtain ⟨k, j, hj⟩ : ∃ k j, p.1 = .coll k j := by
      have := ho.fresh
      cases v with
      | scalar k => exact absurd rfl (hv k)
      | arr items e => obtain ⟨i, _, h, _⟩ := this; exact ⟨_, i, h⟩
      | obj items e => obtain ⟨i, _, h, _⟩ := this; exact ⟨_, i, h⟩
    obtain ⟨hk, hb⟩ := ho.fresh.before hj
    have hpj : p.1.idx = some j := by rw [hj]; rfl
    have hl : Loop C s.n (· = j) := ⟨fun h hc => ⟨hFr.lt hi.j h hc, fun e => (hp j hpj).1 (e ▸ hc)⟩, fun h e => e ▸ hb.lt⟩
    obtain ⟨s', o, ds', q1, e1, e2⟩ := descend_ok hFr hself hl (by rw [hk]; cases v <;> simp [JVal.kind]) v.members f s ds T acc q q' hlen hi.tail hb
      (fun e => (hp j hpj).2 (by simp [e])) (hm hd)
    obtain ⟨h1, h2, h3⟩ := hi.head
    refine ⟨s', o, ⟨d.shouldClone, d.states⟩, ds', q1, ?_, ?_⟩
    · simp only [strictEnd, tstrictEnd, hrd, if_true, hj]
      rw [run_ok_bind e1]
      simp [IProg.run]
    · simp only [tstrictEnd, hrd, if_true]
      refine e2.push hFr hi.wf hi.j h1 h2 ?_ (fun e => nomatch e) rfl
        (fun i hi' => by simp only [idxs_cons, List.mem_append]; exact hi'.symm) ?_
      · intro i hi'
        exact ⟨(h3 i hi').1, LF.own (states_own h1 i hi') (fun e => (hp j hpj).2 (by rw [← e]; simp [hi'])), (h3 i hi').2⟩
      · intro i hlt e
        rcases e with e | e
        · exact .inl ⟨hd, by rw [e]; exact hpj⟩
        · omega

end Verif.JPath
