import Verif.EqualLogic

/-!
# Equality of objects
-/

set_option linter.unusedSimpArgs false
set_option linter.unusedVariables false

namespace Verif
open AState IProg GoJson

/-- A pending item, and what it stands for. -/
structure Item where
  p : Pend
  v : JVal
  k : Bytes
  d : Data

/-- The member an item stands for. -/
def Item.kd (q : Item) : Bytes × Data := (q.k, q.d)

/-- The item is an unread clone made since `s0`. -/
structure ItemOk (val : Bytes → Rat) (G : JVal → Prop) (s0 s : AState) (q : Item) : Prop where
  key : StrIs q.p.key q.k
  den : DenBy val q.v q.d
  good : G q.v
  fresh : Fresh s q.p.val q.v
  own : ∀ h, q.p.val.idx = some h → s0.n ≤ h ∧ q.p.det = some (s.coll h).thr ∧ s0.nt ≤ (s.coll h).thr ∧ Own s h
  none : q.p.val.idx = none → q.p.det = none

/-- The items pending. -/
structure Shown (val : Bytes → Rat) (G : JVal → Prop) (s0 s : AState) (qs : List Item) : Prop where
  ok : ∀ q ∈ qs, ItemOk val G s0 s q
  pw : qs.Pairwise (fun p q => ∀ h, p.p.val.idx = some h → q.p.val.idx ≠ some h)

variable {val : Bytes → Rat} {G : JVal → Prop}

theorem ItemOk.eff {X D : Nat → Prop} {s0 s s' : AState} {q : Item} (h : ItemOk val G s0 s q) (hw : WF s) (he : Eff X D s s')
    (hx : ∀ i, q.p.val.idx = some i → ¬ X i ∧ ¬ D (s.coll i).thr) : ItemOk val G s0 s' q := by
  refine ⟨h.key, h.den, h.good, h.fresh.eff he hx, ?_, h.none⟩
  intro i hi
  obtain ⟨a1, a2, a3, a4⟩ := h.own i hi
  have hlt := h.fresh.lt i hi
  rw [he.coll i hlt (hx i hi).1]
  exact ⟨a1, a2, a3, a4.eff hw hlt he (hx i hi).1⟩

theorem Shown.eff {X D : Nat → Prop} {s0 s s' : AState} {qs : List Item} (h : Shown val G s0 s qs) (hw : WF s) (he : Eff X D s s')
    (hx : ∀ q ∈ qs, ∀ i, q.p.val.idx = some i → ¬ X i ∧ ¬ D (s.coll i).thr) : Shown val G s0 s' qs :=
  ⟨fun q hq => (h.ok q hq).eff hw he (hx q hq), h.pw⟩

/-- The threads of the items can be detached. -/
def DetOk (s0 s : AState) (qs : List Item) : Prop :=
  ∀ q ∈ qs, ∀ t, q.p.det = some t → t < s.nt ∧ s.det t = true ∧ s0.nt ≤ t

theorem Shown.detOk {s0 s : AState} {qs : List Item} (h : Shown val G s0 s qs) (hw : WF s) : DetOk s0 s qs := by
  intro q hq t ht
  cases hi : q.p.val.idx with
  | none => rw [(h.ok q hq).none hi] at ht; cases ht
  | some c =>
    obtain ⟨a1, a2, a3, a4⟩ := (h.ok q hq).own c hi
    rw [a2] at ht
    have := Option.some.inj ht
    subst this
    exact ⟨hw.thr c ((h.ok q hq).fresh.lt c hi), a4.det, a3⟩

theorem DetOk.eff {X D : Nat → Prop} {s0 s s' : AState} {qs : List Item} (h : DetOk s0 s qs) (he : Eff X D s s') : DetOk s0 s' qs := by
  intro q hq t ht
  obtain ⟨a1, a2, a3⟩ := h q hq t ht
  exact ⟨Nat.lt_of_lt_of_le a1 he.nt, by rw [he.det t a1]; exact a2, a3⟩

/-- The current value of one is not touched by an advance of the other. -/
theorem Two.cur_other {s0 s : AState} {i j k A B} (h : Two s0 s i j k A B) {x : Val} (hx : (s.coll i).cur = some x) :
    ∀ c, x.idx = some c → ¬ Self s j c ∧ s0.n ≤ c := by
  intro c hc
  obtain ⟨_, hbi⟩ := h.bi
  obtain ⟨_, hbj⟩ := h.bj
  have hx' : ∃ k, x = .coll k c := by
    cases x with
    | scalar _ => cases hc
    | coll k c' => cases hc; exact ⟨k, rfl⟩
  obtain ⟨kx, rfl⟩ := hx'
  have hn := hbi.cur kx c hx
  refine ⟨?_, hn⟩
  rintro (hs | ⟨k', hs⟩)
  · have := hbj.i0; omega
  · exact h.apart c kx k' hx hs

/-- Pending items are not touched by an advance, and are not current. -/
theorem Shown.not_self {s0 s : AState} {i j k A B} {qs : List Item} (h : Shown val G s0 s qs) (ht : Two s0 s i j k A B) :
    ∀ q ∈ qs, ∀ c, q.p.val.idx = some c → ¬ Self s i c ∧ ∀ x, (s.coll i).cur = some x → x.idx ≠ some c := by
  intro q hq c hc
  obtain ⟨_, hbi⟩ := ht.bi
  obtain ⟨a1, a2, a3, a4⟩ := (h.ok q hq).own c hc
  refine ⟨?_, ?_⟩
  · rintro (hs | ⟨k', hs⟩)
    · have := hbi.i0; omega
    · exact a4.orphan i hbi.lt k' hs
  · intro x hx hxc
    cases x with
    | scalar _ => cases hxc
    | coll k' c' => cases hxc; exact a4.orphan i hbi.lt k' hx

theorem findPend_ok {s0 s : AState} {key : Scalar} {k : Bytes} (hk : StrIs key k) : ∀ (qs : List Item),
    (∀ q ∈ qs, StrIs q.p.key q.k) →
    (findPend key (qs.map Item.p) = some none ∧ k ∉ (qs.map Item.kd).map Prod.fst) ∨
      ∃ A q B, qs = A ++ q :: B ∧ findPend key (qs.map Item.p) = some (some A.length) ∧ q.k = k := by
  intro qs
  induction qs with
  | nil => intro _; exact .inl ⟨rfl, by simp⟩
  | cons q l ih =>
    intro h
    simp only [List.map_cons, findPend, scalarEqual_str hk (h q (by simp))]
    by_cases e : k = q.k
    · right
      exact ⟨[], q, l, rfl, by simp [e], e.symm⟩
    · simp only [e, decide_false]
      rcases ih (fun q hq => h q (by simp [hq])) with ⟨h1, h2⟩ | ⟨A, q', B, h1, h2, h3⟩
      · left
        refine ⟨by rw [h1]; rfl, ?_⟩
        simp only [List.mem_cons, not_or]
        exact ⟨e, h2⟩
      · right
        refine ⟨q :: A, q', B, by rw [h1]; rfl, by rw [h2]; rfl, h3⟩

/-- Members of an object as the specification of iterators has them. -/
def objMembers (ms : List (Scalar × JVal)) : List (Option Scalar × JVal) := ms.map fun m => (some m.1, m.2)

theorem seekRight_run {ε : Type} {eq : Val → Val → IProg ε Bool} {s0 : AState} {i j : Nat} {A : List (Option Scalar × JVal)}
    {key : Scalar} {k : Bytes} {x : Val} {v : JVal} {d : Data}
    (heq : ∀ v w d d', G v → G w → DenBy val v d → DenBy val w d' → Decides eq v w (d = d'))
    (hk : StrIs key k) (hd : DenBy val v d) (hg : G v) :
    ∀ (g : Nat) (rs : List (Scalar × JVal)) (R : List (Bytes × Data)) (qs : List Item) (s : AState), rs.length < g →
      DenMBy val rs R → (∀ m ∈ rs, G m.2) → Two s0 s i j .obj A (objMembers rs) → Shown val G s0 s qs → Fresh s x v →
      (s.coll i).cur = some x →
      ∃ s' b qs', (seekRight eq key x j g (qs.map Item.p)).run AState.mach s = ([], .ok (s', (b, qs'.map Item.p))) ∧ WF s' ∧
        Eff (fun h => h = i ∨ h = j) (fun _ => False) s0 s' ∧ Shown val G s0 s' qs' ∧
        (b = true → ∃ rs' R1 R', R = R1 ++ (k, d) :: R' ∧ DenMBy val rs' R' ∧ (∀ m ∈ rs', G m.2) ∧ rs'.length ≤ rs.length ∧
          qs'.map Item.kd = qs.map Item.kd ++ R1 ∧ Two s0 s' i j .obj A (objMembers rs')) ∧
        (b = false → assoc R k ≠ some d) := by
  intro g
  induction g with
  | zero => intro rs _ _ _ h; omega
  | succ g ih =>
    intro rs R qs s hlen hden hG ht hh hx hcur
    cases hden with
    | nil =>
      obtain ⟨s1, e1, w1, f1, d1, o1, o2, o3⟩ := ht.symm.left_nil
      refine ⟨s1, false, qs, ?_, w1, o1.mono (fun _ _ e => e.symm) (fun _ _ e => e), ?_, (fun e => nomatch e), by simp [assoc]⟩
      · simp only [seekRight]
        rw [arun_op e1]
        simp
      · refine hh.eff ht.wf f1 (fun q hq c hc => ⟨?_, id⟩)
        exact (hh.not_self ht.symm q hq c hc).1
    | @cons key' k' w d' rs R hk' hd' hden =>
      obtain ⟨s1, y, e1, e2, t1, f1, c1, y1, n1, j1⟩ := ht.symm.left_cons
      have t1 := t1.symm
      have hh1 : Shown val G s0 s1 qs := hh.eff ht.wf f1 (fun q hq c hc => ⟨(hh.not_self ht.symm q hq c hc).1, id⟩)
      have hxs := ht.cur_other hcur
      have x1 := hx.eff f1 (fun c hc => ⟨(hxs c hc).1, id⟩)
      have hcur1 : (s1.coll i).cur = some x := by rw [j1]; exact hcur
      have hyn : ∀ c, y.idx = some c → s0.n ≤ c := by
        intro c hc
        have := n1 c hc; have := ht.eff.n; omega
      have hxy : ∀ c, x.idx = some c → y.idx ≠ some c := by
        intro c h1 h2
        have := hx.lt c h1; have := n1 c h2; omega
      have hGw := hG (key', w) (by simp)
      by_cases hkk : k = k'
      · -- found
        subst hkk
        obtain ⟨s2, b, e3, e4, w2, f2, x2, y2⟩ := safeEqual_run (heq v w d d' hg hGw hd hd') t1.wf x1 y1 hxy
        have hcq : ∀ k c, (s1.coll i).cur = some (.coll k c) ∨ (s1.coll j).cur = some (.coll k c) →
            x.idx = some c ∨ y.idx = some c → (s2.coll c).cur = none := by
          intro k c _ h
          rcases h with h | h
          · exact x2.cur c h
          · exact y2.cur c h
        have t2 : Two s0 s2 i j .obj A (objMembers rs) := by
          refine t1.frame f2 w2 ?_ (fun k c h1 h2 => .inr (hcq k c (.inl h1) h2)) (fun k c h1 h2 => .inr (hcq k c (.inr h1) h2))
          rintro c (hc | hc)
          · exact (hxs c hc).2
          · exact hyn c hc
        have hh2 : Shown val G s0 s2 qs := by
          refine hh1.eff t1.wf f2 (fun q hq c hc => ⟨?_, id⟩)
          rintro (h | h)
          · exact (hh1.not_self t1 q hq c hc).2 x hcur1 h
          · exact (hh1.not_self t1.symm q hq c hc).2 y c1 h
        refine ⟨s2, b, qs, ?_, w2, t2.eff, hh2, ?_, ?_⟩
        · simp only [seekRight]
          rw [arun_op e1]
          simp only [if_true]
          rw [arun_op e2]
          simp only [scalarEqual_str hk hk', decide_true]
          rw [run_ok_bind e3]
          rfl
        · intro hb
          have := e4.1 hb
          subst this
          exact ⟨rs, [], R, rfl, hden, fun m hm => hG m (by simp [hm]), by simp, by simp, t2⟩
        · intro hb e
          simp only [assoc, if_true, Option.some.injEq] at e
          rw [e4.2 e.symm] at hb
          cases hb
      · -- store
        obtain ⟨s2, y', dt, e3, w2, f2, y2, y2', o1, o2⟩ := clone_all t1.wf y1
        have t2 : Two s0 s2 i j .obj A (objMembers rs) := by
          refine t1.frame f2 w2 hyn ?_ ?_
          · intro k c _ h; exact .inr (y2.cur c h)
          · intro k c _ h; exact .inr (y2.cur c h)
        have hh2 : Shown val G s0 s2 (qs ++ [⟨⟨key', y', dt⟩, w, k', d'⟩]) := by
          have hold : Shown val G s0 s2 qs := hh1.eff t1.wf f2 (fun q hq c hc => ⟨fun h =>
            (hh1.not_self t1.symm q hq c hc).2 y c1 h, id⟩)
          refine ⟨?_, ?_⟩
          · intro q hq
            rcases List.mem_append.1 hq with hq | hq
            · exact hold.ok q hq
            · simp only [List.mem_singleton] at hq
              subst hq
              refine ⟨hk', hd', hGw, y2', ?_, o2⟩
              intro c hc
              obtain ⟨a1, a2, a3, a4⟩ := o1 c hc
              have := t1.eff.n
              have := t1.eff.nt
              exact ⟨by omega, a2, by omega, a4⟩
          · rw [List.pairwise_append]
            refine ⟨hold.pw, by simp, ?_⟩
            intro a ha b hb c h1 h2
            simp only [List.mem_singleton] at hb
            subst hb
            have := (hh1.ok a ha).fresh.lt c h1
            have := (o1 c h2).1
            omega
        have x2 := x1.eff f2 (fun c hc => ⟨hxy c hc, id⟩)
        obtain ⟨_, hbi⟩ := t1.bi
        have hcur2 : (s2.coll i).cur = some x := by
          rw [f2.coll i hbi.lt (fun h => by have := hyn i h; have := hbi.i0; omega)]; exact hcur1
        obtain ⟨s3, b, qs', g1, g2, g3, g4, g5, g6⟩ := ih rs R _ s2 (by simp at hlen; omega) hden
          (fun m hm => hG m (by simp [hm])) t2 hh2 x2 hcur2
        refine ⟨s3, b, qs', ?_, g2, g3, g4, ?_, ?_⟩
        · simp only [seekRight]
          rw [arun_op e1]
          simp only [if_true]
          rw [arun_op e2]
          simp only [scalarEqual_str hk hk', hkk, decide_false]
          rw [arun_op e3]
          simpa using g1
        · intro hb
          obtain ⟨rs', R1, R', a1, a2, a3, a4, a5, a6⟩ := g5 hb
          refine ⟨rs', (k', d') :: R1, R', by rw [a1]; rfl, a2, a3, by simp; omega, ?_, a6⟩
          rw [a5]
          simp [Item.kd]
        · intro hb
          simp only [assoc, hkk, if_false]
          exact g6 hb

theorem detachAll_run {ε : Type} {s0 : AState} {X : Nat → Prop} : ∀ (qs : List Item) (s : AState), WF s → DetOk s0 s qs →
    Eff X (fun _ => False) s0 s →
    ∃ s', (detachAll (qs.map Item.p) : IProg ε Unit).run AState.mach s = ([], .ok (s', ())) ∧ WF s' ∧
      Eff X (fun _ => False) s0 s' ∧ s'.coll = s.coll := by
  intro qs
  induction qs with
  | nil => intro s hw _ he; exact ⟨s, rfl, hw, he, rfl⟩
  | cons q l ih =>
    intro s hw hh he
    have hq := hh q (by simp)
    obtain ⟨s1, e1, w1, f1, c1, n1⟩ := run_detachOpt (ε := ε) (d := q.p.det) hw (fun t ht => ⟨(hq t ht).1, (hq t ht).2.1⟩)
    have hh1 : DetOk s0 s l := fun q' hq' => hh q' (by simp [hq'])
    obtain ⟨s2, g1, g2, g3, g4⟩ := ih s1 w1 (hh1.eff f1) (he.trans f1 (fun _ _ e => e.elim) (fun t ht e => by
      have := (hq t e).2.2
      omega))
    refine ⟨s2, ?_, g2, g3, by rw [g4, c1]⟩
    simp only [List.map_cons, detachAll]
    rw [run_ok_bind e1, g1]
    rfl

/-- Objects. -/
theorem objLoop_run {ε : Type} {eq : Val → Val → IProg ε Bool} {s0 : AState} {i j g : Nat}
    (heq : ∀ v w d d', G v → G w → DenBy val v d → DenBy val w d' → Decides eq v w (d = d')) :
    ∀ (f : Nat) (ms rs : List (Scalar × JVal)) (L R : List (Bytes × Data)) (qs : List Item) (s : AState), ms.length < f →
      rs.length < g → DenMBy val ms L → DenMBy val rs R → (∀ m ∈ ms, G m.2) → (∀ m ∈ rs, G m.2) → (L.map Prod.fst).Nodup →
      ((qs.map Item.kd ++ R).map Prod.fst).Nodup → Two s0 s i j .obj (objMembers ms) (objMembers rs) → Shown val G s0 s qs →
      ∃ s' b qs', (objLoop eq i j g f (qs.map Item.p)).run AState.mach s = ([], .ok (s', (b, qs'.map Item.p))) ∧ WF s' ∧
        Eff (fun h => h = i ∨ h = j) (fun _ => False) s0 s' ∧ DetOk s0 s' qs' ∧
        (b = true ↔ assoc L = assoc (qs.map Item.kd ++ R)) ∧
        (b = true → (s'.coll i).done = true ∧ (s'.coll j).done = true) := by
  intro f
  induction f with
  | zero => intro ms _ _ _ _ _ h; omega
  | succ f ih =>
    intro ms rs L R qs s hf hg hL hR gL gR nL nR ht hh
    cases hL with
    | nil =>
      obtain ⟨s1, e1, w1, f1, d1, o1, ⟨e, o2⟩, o3⟩ := ht.left_nil
      obtain ⟨e', hbi⟩ := ht.bi
      have hh1 : Shown val G s0 s1 qs := hh.eff ht.wf f1 (fun q hq c hc => ⟨(hh.not_self ht q hq c hc).1, id⟩)
      cases qs with
      | nil =>
        obtain ⟨s2, e2, w2, f2, d2, d3⟩ := last_advance w1 o1 o2 ht.top o3 ht.ne hbi.i0 d1
        refine ⟨s2, rs.isEmpty, [], ?_, w2, f2, (fun _ h => nomatch h), ?_, ?_⟩
        · simp only [objLoop]
          rw [arun_op e1]
          simp only [Bool.false_eq_true, if_false, List.map_nil, List.isEmpty_nil, if_true]
          rw [arun_op e2]
          simp [objMembers]
        · rw [assoc_nil]
          cases hR <;> simp
        · intro h
          cases rs with
          | nil => exact ⟨d2, d3 rfl⟩
          | cons _ _ => cases h
      | cons q l =>
        refine ⟨s1, false, q :: l, ?_, w1, o1, hh1.detOk w1, ?_, (fun e => nomatch e)⟩
        · simp only [objLoop]
          rw [arun_op e1]
          simp
        · rw [assoc_nil]; simp
    | @cons key k v d ms L hk hd hL =>
      obtain ⟨s1, x, e1, e2, t1, f1, c1, x1, n1, j1⟩ := ht.left_cons
      have hh1 : Shown val G s0 s1 qs := hh.eff ht.wf f1 (fun q hq c hc => ⟨(hh.not_self ht q hq c hc).1, id⟩)
      have hgv := gL (key, v) (by simp)
      have hxs := t1.cur_other c1
      rcases findPend_ok (s0 := s0) (s := s) hk qs (fun q hq => (hh.ok q hq).key) with ⟨h1, h2⟩ | ⟨A, q, B, h1, h2, h3⟩
      · -- not pending
        obtain ⟨s2, b, qs', g1, g2, g3, g4, g5, g6⟩ := seekRight_run heq hk hd hgv g rs R qs s1 hg hR gR t1 hh1 x1 c1
        have hrun : ∀ (r : List ε × Except Stop (AState × (Bool × List Pend))),
            (if b = true then objLoop eq i j g f (qs'.map Item.p) else .ret (false, qs'.map Item.p)).run AState.mach s2 = r →
            r.1 = [] → (objLoop eq i j g (f + 1) (qs.map Item.p)).run AState.mach s = r := by
          intro r hr hr1
          simp only [objLoop]
          rw [arun_op e1]
          simp only [if_true]
          rw [arun_op e2]
          simp only [h1]
          rw [run_ok_bind g1, hr]
          obtain ⟨r1, r2⟩ := r
          simp only at hr1
          subst hr1
          rfl
        have hpk := assoc_none.2 h2
        cases b with
        | false =>
          refine ⟨s2, false, qs', hrun _ (by simp) rfl, g2, g3, g4.detOk g2, ?_, (fun e => nomatch e)⟩
          simp only [Bool.false_eq_true, false_iff]
          intro e
          have := congrFun e k
          rw [assoc_append, hpk] at this
          simp only [assoc, if_true, Option.none_or] at this
          exact g6 rfl this.symm
        | true =>
          obtain ⟨rs', R1, R', a1, a2, a3, a4, a5, a6⟩ := g5 rfl
          have nR' : ((qs'.map Item.kd ++ R').map Prod.fst).Nodup := by
            rw [a1] at nR
            rw [a5]
            refine List.Pairwise.sublist ?_ nR
            simp only [List.map_append, List.map_cons, List.append_assoc]
            exact List.Sublist.append_left (List.Sublist.append_left (List.sublist_cons_self _ _) _) _
          obtain ⟨s3, b, qs2, k1, k2, k3, k4, k5, k6⟩ := ih ms rs' L R' qs' s2 (by simp at hf; omega) (by omega) hL a2
            (fun m hm => gL m (by simp [hm])) a3 (by simp only [List.map_cons, List.nodup_cons] at nL; exact nL.2) nR' a6 g4
          refine ⟨s3, b, qs2, hrun _ (by simpa using k1) rfl, k2, k3, k4, ?_, k6⟩
          rw [k5, a5, a1]
          have := assoc_remove (k := k) (d := d) (L := L) (A := qs.map Item.kd ++ R1) (B := R') nL (by
            rw [a1] at nR; simpa using nR)
          simp only [List.append_assoc] at this ⊢
          exact this.symm
      · -- pending
        have hq := hh1.ok q (by rw [h1]; simp)
        subst h3
        have hxq : ∀ c, x.idx = some c → q.p.val.idx ≠ some c := by
          intro c hc hc'
          exact (hh1.not_self t1 q (by rw [h1]; simp) c hc').2 x c1 hc
        obtain ⟨s2, b, e3, e4, w2, f2, x2, y2⟩ := safeEqual_run (heq v q.v d q.d hgv hq.good hd hq.den) t1.wf x1 hq.fresh hxq
        have hcq : ∀ c, x.idx = some c ∨ q.p.val.idx = some c → (s2.coll c).cur = none := by
          intro c h
          rcases h with h | h
          · exact x2.cur c h
          · exact y2.cur c h
        have hX2 : ∀ c, x.idx = some c ∨ q.p.val.idx = some c → s0.n ≤ c := by
          rintro c (hc | hc)
          · exact (hxs c hc).2
          · exact (hq.own c hc).1
        have t2 : Two s0 s2 i j .obj (objMembers ms) (objMembers rs) :=
          t1.frame f2 w2 hX2 (fun k c h1 h2 => .inr (hcq c h2)) (fun k c h1 h2 => .inr (hcq c h2))
        have hpw := hh1.pw
        rw [h1, List.pairwise_append, List.pairwise_cons] at hpw
        have hother : ∀ q' ∈ A ++ B, ∀ c, q'.p.val.idx = some c → ¬ (x.idx = some c ∨ q.p.val.idx = some c) := by
          intro q' hq' c hc
          have hm : q' ∈ qs := by rw [h1]; rcases List.mem_append.1 hq' with h | h <;> simp [h]
          rintro (h | h)
          · exact (hh1.not_self t1 q' hm c hc).2 x c1 h
          · rcases List.mem_append.1 hq' with h' | h'
            · exact hpw.2.2 q' h' q (by simp) c hc h
            · exact hpw.2.1.1 q' h' c h hc
        have hh2 : Shown val G s0 s2 (A ++ B) := by
          refine Shown.eff ⟨fun q' hq' => hh1.ok q' ?_, ?_⟩ t1.wf f2 (fun q' hq' c hc => ⟨hother q' hq' c hc, id⟩)
          · rw [h1]; rcases List.mem_append.1 hq' with h | h <;> simp [h]
          · rw [List.pairwise_append]
            exact ⟨hpw.1, hpw.2.1.2, fun a ha b hb => hpw.2.2 a ha b (by simp [hb])⟩
        have hps : (qs.map Item.p)[A.length]? = some q.p := by rw [h1]; simp
        have her : (qs.map Item.p).eraseIdx A.length = (A ++ B).map Item.p := by
          rw [h1]; simp [List.eraseIdx_append_of_length_le]
        have hrun : ∀ (r : List ε × Except Stop (AState × (Bool × List Pend))),
            (if b = true then (detachOpt q.p.det).bind fun _ => objLoop eq i j g f ((A ++ B).map Item.p)
              else .ret (false, qs.map Item.p)).run AState.mach s2 = r →
            r.1 = [] → (objLoop eq i j g (f + 1) (qs.map Item.p)).run AState.mach s = r := by
          intro r hr hr1
          simp only [objLoop]
          rw [arun_op e1]
          simp only [if_true]
          rw [arun_op e2]
          simp only [h2, hps]
          rw [run_ok_bind e3, her, hr]
          obtain ⟨r1, r2⟩ := r
          simp only at hr1
          subst hr1
          rfl
        have hkd : qs.map Item.kd ++ R = A.map Item.kd ++ (q.k, q.d) :: (B.map Item.kd ++ R) := by
          rw [h1]; simp [Item.kd]
        cases b with
        | false =>
          refine ⟨s2, false, qs, hrun _ (by simp) rfl, w2, t2.eff, (hh1.detOk t1.wf).eff f2, ?_, (fun e => nomatch e)⟩
          · simp only [Bool.false_eq_true, false_iff]
            intro e
            have := congrFun e q.k
            rw [hkd, assoc_append] at this
            have hA : assoc (A.map Item.kd) q.k = none := by
              rw [assoc_none]
              intro hm
              rw [hkd] at nR
              simp only [List.map_append, List.map_cons, List.nodup_append] at nR
              exact nR.2.2 q.k hm q.k (by simp) rfl
            rw [hA] at this
            simp only [assoc, if_true, Option.none_or, Option.some.injEq] at this
            exact absurd (e4.2 this) (by simp)
        | true =>
          have hdd := e4.1 rfl
          have hdet : ∀ t, q.p.det = some t → ∃ h, q.p.val.idx = some h ∧ t = (s1.coll h).thr ∧ s0.nt ≤ t ∧ Own s1 h ∧ h < s1.n := by
            intro t ht
            cases hi : q.p.val.idx with
            | none => rw [hq.none hi] at ht; cases ht
            | some h =>
              obtain ⟨a1, a2, a3, a4⟩ := hq.own h hi
              rw [a2] at ht
              have := Option.some.inj ht
              subst this
              exact ⟨h, rfl, rfl, a3, a4, hq.fresh.lt h hi⟩
          obtain ⟨s3, e5, w3, f3, c3, n3⟩ := run_detachOpt (ε := ε) (d := q.p.det) w2 (fun t ht => by
            obtain ⟨h, _, a2, _, a4, a5⟩ := hdet t ht
            subst a2
            have hlt := t1.wf.thr h a5
            exact ⟨Nat.lt_of_lt_of_le hlt f2.nt, by rw [f2.det _ hlt]; exact a4.det⟩)
          obtain ⟨_, hbi⟩ := t1.bi
          obtain ⟨_, hbj⟩ := t1.bj
          have thr_ne : ∀ c < s1.n, ¬ (x.idx = some c ∨ q.p.val.idx = some c) → q.p.det ≠ some (s2.coll c).thr := by
            intro c hc hno e
            rw [f2.coll c hc hno] at e
            obtain ⟨h, b1, b2, b3, b4, b5⟩ := hdet _ e
            have := b4.thr c hc b2
            subst this
            exact hno (.inr b1)
          have t3 : Two s0 s3 i j .obj (objMembers ms) (objMembers rs) := by
            refine t2.frame' f3 w3 (fun _ e => e.elim) ?_ ?_ ?_ (fun _ _ _ e => e.elim) (fun _ _ _ e => e.elim)
            · intro t e
              obtain ⟨h, _, _, a3, _⟩ := hdet t e
              exact a3
            · exact thr_ne i hbi.lt (fun h => by have := hX2 i h; have := hbi.i0; omega)
            · exact thr_ne j hbj.lt (fun h => by have := hX2 j h; have := hbj.i0; omega)
          have hh3 : Shown val G s0 s3 (A ++ B) := by
            refine hh2.eff w2 f3 (fun q' hq' c hc => ⟨id, ?_⟩)
            refine thr_ne c ?_ (hother q' hq' c hc)
            have hm : q' ∈ qs := by rw [h1]; rcases List.mem_append.1 hq' with h | h <;> simp [h]
            exact (hh1.ok q' hm).fresh.lt c hc
          have nR' : (((A ++ B).map Item.kd ++ R).map Prod.fst).Nodup := by
            rw [hkd] at nR
            refine List.Pairwise.sublist ?_ nR
            simp only [List.map_append, List.map_cons, List.append_assoc]
            exact List.Sublist.append_left (List.sublist_cons_self _ _) _
          obtain ⟨s4, b, qs2, k1, k2, k3, k4, k5, k6⟩ := ih ms rs L R (A ++ B) s3 (by simp at hf; omega) hg hL hR
            (fun m hm => gL m (by simp [hm])) gR (by simp only [List.map_cons, List.nodup_cons] at nL; exact nL.2) nR' t3 hh3
          refine ⟨s4, b, qs2, hrun _ ?_ rfl, k2, k3, k4, ?_, k6⟩
          · simp only [if_true]
            rw [run_ok_bind e5, k1]
            rfl
          · rw [k5, hkd]
            have := assoc_remove (k := q.k) (d := q.d) (L := L) (A := A.map Item.kd) (B := B.map Item.kd ++ R)
              (by rw [hdd] at nL; exact nL) (by rw [hkd] at nR; exact nR)
            rw [hdd]
            simp only [List.map_append, List.append_assoc] at this ⊢
            exact this.symm

/-- The condition on the values compared. -/
def Comparable (S : Bytes → Prop) (f : Nat) (v : JVal) : Prop := v.toks.length ≤ f ∧ NumsIn S v

theorem numsIn_arr {S : Bytes → Prop} {l : List JVal} {e : Bool} (h : NumsIn S (.arr l e)) : ∀ v ∈ l, NumsIn S v := by
  intro v hv k hk ht
  refine h k ?_ ht
  simp only [toks_arr, List.mem_cons, List.mem_append]
  refine .inr (.inl (.inl ?_))
  clear h
  induction l with
  | nil => cases hv
  | cons w l ih =>
    simp only [itemToks_cons, List.mem_append]
    rcases List.mem_cons.1 hv with h | h
    · subst h; exact .inl hk
    · exact .inr (ih h)

theorem numsIn_obj {S : Bytes → Prop} {l : List (Scalar × JVal)} {e : Bool} (h : NumsIn S (.obj l e)) :
    ∀ m ∈ l, NumsIn S m.2 := by
  intro m hm k hk ht
  refine h k ?_ ht
  simp only [toks_obj, List.mem_cons, List.mem_append]
  refine .inr (.inl (.inl ?_))
  clear h
  induction l with
  | nil => cases hm
  | cons w l ih =>
    obtain ⟨k', w⟩ := w
    simp only [memberToks_cons, List.mem_cons, List.mem_append]
    rcases List.mem_cons.1 hm with h | h
    · subst h; exact .inr (.inl hk)
    · exact .inr (.inr (ih h))

theorem good_items {S : Bytes → Prop} {f : Nat} {l : List JVal} {e : Bool} (h : Comparable S (f + 1) (.arr l e)) :
    l.length < f + 1 ∧ ∀ v ∈ l, Comparable S f v := by
  have hb := itemToks_bound l
  have hl := h.1
  simp only [toks_arr, List.length_cons, List.length_append] at hl
  refine ⟨by omega, fun v hv => ⟨?_, numsIn_arr h.2 v hv⟩⟩
  have := hb.2 v hv
  simp at hl
  omega

theorem good_members {S : Bytes → Prop} {f : Nat} {l : List (Scalar × JVal)} {e : Bool} (h : Comparable S (f + 1) (.obj l e)) :
    l.length < f + 1 ∧ ∀ m ∈ l, Comparable S f m.2 := by
  have hb := memberToks_bound l
  have hl := h.1
  simp only [toks_obj, List.length_cons, List.length_append] at hl
  refine ⟨by simp at hl; omega, fun m hm => ⟨?_, numsIn_obj h.2 m hm⟩⟩
  have := hb.2 m hm
  simp at hl
  omega

/-- Two unread collections of the same kind. -/
theorem two_start {s : AState} {i j : Nat} {k : Kind} {v w : JVal} (hw : WF s) (hx : Fresh s (.coll k i) v) (hy : Fresh s (.coll k j) w)
    (hij : i ≠ j) (hk : k ≠ .top) : Two s s i j k v.members w.members := by
  obtain ⟨_, b1⟩ := hx.before rfl
  obtain ⟨_, b2⟩ := hy.before rfl
  have c1 := hx.cur i rfl
  have c2 := hy.cur j rfl
  refine ⟨hw, Eff.refl _ _ _, hij, hk, ⟨_, b1⟩, ⟨_, b2⟩, ?_, ?_, ?_⟩
  · intro k' c e; rw [c1] at e; cases e
  · intro k' c e; rw [c2] at e; cases e
  · intro c k1 k2 e; rw [c1] at e; cases e

/-- `Equal` decides whether the values denote the same data. -/
theorem valEqual_run {ε : Type} {S : Bytes → Prop} (hS : SharpBy val S) : ∀ (f : Nat) (v w : JVal) (d d' : Data), Comparable S f v → Comparable S f w →
    DenBy val v d → DenBy val w d' → Decides (valEqual (ε := ε) f) v w (d = d') := by
  intro f
  induction f with
  | zero => intro v w d d' hv; have := toks_pos v; have := hv.1; omega
  | succ f ih =>
    intro v w d d' gv gw hv hw s x y hwf hx hy hxy
    have mismatch : ∀ (x y : Val), (valEqual (f + 1) x y : IProg ε Bool) = .ret false → d ≠ d' →
        ∃ s' b, (valEqual (f + 1) x y : IProg ε Bool).run AState.mach s = ([], .ok (s', b)) ∧ (b = true ↔ d = d') ∧ WF s' ∧
          Eff (fun h => x.idx = some h ∨ y.idx = some h) (fun _ => False) s s' ∧
          (b = true → ∀ h, (x.idx = some h ∨ y.idx = some h) → (s'.coll h).done = true) := by
      intro x y e hd
      exact ⟨s, false, by rw [e]; rfl, by simp [hd], hwf, Eff.refl _ _ _, (fun e => nomatch e)⟩
    cases v with
    | scalar a =>
      have hx : x = .scalar a := hx
      subst hx
      cases w with
      | scalar b =>
        have hy : y = .scalar b := hy
        subst hy
        obtain ⟨c, e1, e2⟩ := scalarEqual_ok hS hv hw gv.2 gw.2
        refine ⟨s, c, ?_, e2, hwf, Eff.refl _ _ _, ?_⟩
        · simp only [valEqual, e1]; rfl
        · rintro _ h (e | e) <;> cases e
      | arr l e =>
        obtain ⟨j, t, h1, -⟩ := hy
        subst h1
        refine mismatch _ _ rfl ?_
        cases hw; cases hv <;> simp
      | obj l e =>
        obtain ⟨j, t, h1, -⟩ := hy
        subst h1
        refine mismatch _ _ rfl ?_
        cases hw; cases hv <;> simp
    | arr l e =>
      obtain ⟨i, t, h1, -⟩ := id hx
      subst h1
      cases w with
      | scalar b =>
        have hy : y = .scalar b := hy
        subst hy
        refine mismatch _ _ rfl ?_
        cases hv; cases hw <;> simp
      | arr l' e' =>
        obtain ⟨j, t, h1, -⟩ := id hy
        subst h1
        have hij : i ≠ j := fun e => hxy i rfl (by rw [e]; rfl)
        have ht := two_start hwf hx hy hij (by simp [JVal.kind])
        cases hv with
        | @arr _ _ ds hl =>
          cases hw with
          | @arr _ _ ds' hl' =>
            obtain ⟨n1, g1⟩ := good_items gv
            obtain ⟨n2, g2⟩ := good_items gw
            obtain ⟨s', b, e1, e2, e3, e4, e5⟩ := arrEqual_run (ε := ε) (eq := valEqual f) (f + 1) l l' ds ds' s n1 hl hl'
              (fun v hv w hw d d' => ih v w d d' (g1 v hv) (g2 w hw)) ht
            refine ⟨s', b, e1, ?_, e3, ?_, ?_⟩
            · rw [e2]; simp
            · refine e4.mono ?_ (fun _ _ e => e)
              rintro c _ (h | h)
              · subst h; exact .inl rfl
              · subst h; exact .inr rfl
            · rintro hb h (e | e)
              · cases e; exact (e5 hb).1
              · cases e; exact (e5 hb).2
      | obj l' e' =>
        obtain ⟨j, t, h1, -⟩ := hy
        subst h1
        refine mismatch _ _ rfl ?_
        cases hw; cases hv; simp
    | obj l e =>
      obtain ⟨i, t, h1, -⟩ := id hx
      subst h1
      cases w with
      | scalar b =>
        have hy : y = .scalar b := hy
        subst hy
        refine mismatch _ _ rfl ?_
        cases hv; cases hw <;> simp
      | arr l' e' =>
        obtain ⟨j, t, h1, -⟩ := hy
        subst h1
        refine mismatch _ _ rfl ?_
        cases hw; cases hv; simp
      | obj l' e' =>
        obtain ⟨j, t, h1, -⟩ := id hy
        subst h1
        have hij : i ≠ j := fun e => hxy i rfl (by rw [e]; rfl)
        have ht := two_start hwf hx hy hij (by simp [JVal.kind])
        cases hv with
        | @obj _ _ L hl nL =>
          cases hw with
          | @obj _ _ R hl' nR =>
            obtain ⟨n1, g1⟩ := good_members gv
            obtain ⟨n2, g2⟩ := good_members gw
            obtain ⟨s1, b, qs, e1, e2, e3, e4, e5, e6⟩ := objLoop_run (ε := ε) (eq := valEqual f) (G := Comparable S f) (g := f + 1)
              (fun v w d d' hv hw => ih v w d d' hv hw) (f + 1) l l' L R [] s n1 n2 hl hl' g1 g2 nL (by simpa using nR) ht
              ⟨by simp, by simp⟩
            obtain ⟨s2, k1, k2, k3, k4⟩ := detachAll_run (ε := ε) qs s1 e2 e4 e3
            refine ⟨s2, b, ?_, ?_, k2, ?_, ?_⟩
            · show (objEqual (valEqual f) i j (f + 1)).run AState.mach s = _
              simp only [objEqual]
              simp only [List.map_nil] at e1
              rw [run_ok_bind e1, run_ok_bind k1]
              rfl
            · rw [e5]; simp
            · refine k3.mono ?_ (fun _ _ e => e)
              rintro c _ (h | h)
              · subst h; exact .inl rfl
              · subst h; exact .inr rfl
            · rintro hb h (e | e)
              · cases e; rw [k4]; exact (e6 hb).1
              · cases e; rw [k4]; exact (e6 hb).2

end Verif
