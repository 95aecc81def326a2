import Verif.IterSim3

/-!
# Reasoning about programs over iterators

What the operations of the specification (`Verif.IterSpec`) do for a program that reads a value from
start to end, and a rule for loops over the members of a collection.
-/

set_option linter.unusedSimpArgs false
set_option linter.unusedVariables false

namespace Verif

/-- Members of a collection, with keys for objects. -/
def JVal.members : JVal → List (Option Scalar × JVal)
  | .scalar _ => []
  | .arr items _ => items.map (none, ·)
  | .obj ms _ => ms.map fun m => (some m.1, m.2)

/-- Kind of a collection. -/
def JVal.kind : JVal → Kind
  | .obj _ _ => .obj
  | _ => .arr

/-- Elision mark of a collection. -/
def JVal.elision : JVal → Bool
  | .scalar _ => false
  | .arr _ e => e
  | .obj _ e => e

/-- The handle of a value. -/
def Val.idx : Val → Option Nat
  | .scalar _ => none
  | .coll _ i => some i

namespace AState

/-- Current values have later numbers. -/
def Links (s : AState) : Prop :=
  ∀ i < s.n, ∀ k j, (s.coll i).cur = some (.coll k j) → i < j ∧ j < s.n

/-- A handle for `v` that has not been used. -/
def Fresh (s : AState) (x : Val) (v : JVal) : Prop :=
  match v with
  | .scalar k => x = .scalar k
  | v => ∃ i t, x = .coll v.kind i ∧ i < s.n ∧ t < s.nt ∧ s.dead t = false ∧
      s.coll i = ⟨v.kind, t, false, false, false, none, none, v.members, v.elision⟩

/-- The handle `i` stands before the members `rest`; its current value is among the handles from
`n0` on. -/
structure Before (s : AState) (n0 i : Nat) (k : Kind) (rest : List (Option Scalar × JVal)) (e : Bool) : Prop where
  lt : i < s.n
  kind : (s.coll i).kind = k
  done : (s.coll i).done = false
  elided : (s.coll i).elided = false
  rest : (s.coll i).rest = rest
  e : (s.coll i).e = e
  thr : (s.coll i).thr < s.nt
  alive : s.dead (s.coll i).thr = false
  cur : ∀ k j, (s.coll i).cur = some (.coll k j) → n0 ≤ j
  base : n0 ≤ s.n
  i0 : i < n0

/-- Nothing changes but the handle `x`, handles from `n0` on and new threads. -/
structure Keep (n0 : Nat) (x : Option Nat) (s s' : AState) : Prop where
  n : s.n ≤ s'.n
  nt : s.nt ≤ s'.nt
  coll : ∀ j < n0, some j ≠ x → s'.coll j = s.coll j
  dead : ∀ t < s.nt, s'.dead t = s.dead t
  det : ∀ t < s.nt, s'.det t = s.det t

theorem Keep.refl (n0 x) (s : AState) : Keep n0 x s s :=
  ⟨Nat.le_refl _, Nat.le_refl _, fun _ _ _ => rfl, fun _ _ => rfl, fun _ _ => rfl⟩

theorem Keep.trans {n0 x} {s s' s'' : AState} (h : Keep n0 x s s') (h' : Keep n0 x s' s'') : Keep n0 x s s'' :=
  ⟨Nat.le_trans h.n h'.n, Nat.le_trans h.nt h'.nt, fun j hj hx => (h'.coll j hj hx).trans (h.coll j hj hx),
    fun t ht => (h'.dead t (Nat.lt_of_lt_of_le ht h.nt)).trans (h.dead t ht),
    fun t ht => (h'.det t (Nat.lt_of_lt_of_le ht h.nt)).trans (h.det t ht)⟩

/-- Weaken what is kept. -/
theorem Keep.weaken {n0 n1 x y} {s s' : AState} (h : Keep n1 x s s') (hn : n0 ≤ n1)
    (hx : ∀ j, x = some j → n0 ≤ j ∨ y = some j) : Keep n0 y s s' :=
  ⟨h.n, h.nt, fun j hj hy => h.coll j (by omega) (by
    intro e
    rcases hx j e.symm with h1 | h1
    · omega
    · exact hy h1.symm), h.dead, h.det⟩

/-- A handle that is kept stands where it stood. -/
theorem Before.keep {s s' : AState} {n0 i k rest e n1 x} (h : Before s n0 i k rest e) (hk : Keep n1 x s s')
    (hi : i < n1) (hx : some i ≠ x) : Before s' n0 i k rest e := by
  have := hk.coll i hi hx
  exact ⟨Nat.lt_of_lt_of_le h.lt hk.n, by rw [this, h.kind], by rw [this, h.done], by rw [this, h.elided],
    by rw [this, h.rest], by rw [this, h.e], by rw [this]; exact Nat.lt_of_lt_of_le h.thr hk.nt,
    by rw [this, hk.dead _ h.thr, h.alive], by rw [this]; exact h.cur, Nat.le_trans h.base hk.n, h.i0⟩

/-- A fresh handle stands before its first member. -/
theorem Fresh.before {s : AState} {x : Val} {v : JVal} (h : Fresh s x v) {k i} (hx : x = .coll k i) :
    k = v.kind ∧ Before s s.n i k v.members v.elision := by
  cases v with
  | scalar s => simp only [Fresh] at h; rw [h] at hx; cases hx
  | arr items e =>
    obtain ⟨i', t, h1, h2, h3, h4, h5⟩ := h
    rw [h1] at hx; cases hx
    refine ⟨rfl, h2, ?_, ?_, ?_, ?_, ?_, ?_, ?_, ?_, Nat.le_refl _, h2⟩ <;> rw [h5] <;> first | rfl | assumption | skip
    intro k j e; cases e
  | obj ms e =>
    obtain ⟨i', t, h1, h2, h3, h4, h5⟩ := h
    rw [h1] at hx; cases hx
    refine ⟨rfl, h2, ?_, ?_, ?_, ?_, ?_, ?_, ?_, ?_, Nat.le_refl _, h2⟩ <;> rw [h5] <;> first | rfl | assumption | skip
    intro k j e; cases e

/-- Finishing the current value. -/
theorem discardCur_keep {s : AState} {n0 i : Nat} (hl : Links s)
    (hi : i < s.n) (h0 : i < n0) (hc : ∀ k j, (s.coll i).cur = some (.coll k j) → n0 ≤ j) :
    Keep n0 none s (s.discardCur i) ∧ Links (s.discardCur i) ∧ (s.discardCur i).n = s.n ∧
      (s.discardCur i).nt = s.nt := by
  unfold discardCur
  cases hcur : (s.coll i).cur with
  | none => exact ⟨Keep.refl _ _ _, hl, rfl, rfl⟩
  | some v =>
    obtain ⟨k1, k2, k3, k4, k5⟩ := discard_keep s.n s v
    refine ⟨⟨by simp only [k1]; exact Nat.le_refl _, by simp only [k2]; exact Nat.le_refl _, ?_,
      fun t _ => by simp only [k3], fun t _ => by simp only [k4]⟩, ?_, k1, k2⟩
    · intro j hj _
      cases v with
      | scalar x =>
        obtain ⟨m, hm⟩ : ∃ m, s.n = m + 1 := ⟨s.n - 1, by omega⟩
        simp only [hm, discard]
      | coll k i' =>
        have := hc k i' hcur
        exact discard_old s hl s.n k i' (hl i hi k i' hcur).2 j (by omega)
    · intro j hj k j' e
      simp only [k1] at hj ⊢
      have : (s.coll j).cur = some (.coll k j') := by
        rcases k5 j with e' | e' <;> simp only [e'] at e <;> exact e
      exact hl j hj k j' this

theorem handle_fresh {s : AState} (v : JVal) {t : Nat} (ht : t < s.nt) (ha : s.dead t = false) (hl : Links s) :
    Fresh (s.handle v t).1 (s.handle v t).2 v ∧ Keep s.n none s (s.handle v t).1 ∧ Links (s.handle v t).1 ∧
      (∀ k j, (s.handle v t).2 = .coll k j → j = s.n ∧ (s.handle v t).1.n = s.n + 1) ∧
      (s.handle v t).1.nt = s.nt := by
  have key : ∀ c : AColl, c.cur = none → Keep s.n none s (s.alloc c) ∧ Links (s.alloc c) := by
    intro c hc
    refine ⟨⟨Nat.le_succ _, Nat.le_refl _, ?_, fun _ _ => rfl, fun _ _ => rfl⟩, ?_⟩
    · intro j hj _
      exact AInv.alloc_old hj
    · intro j hj k j' e
      have hj : j < s.n + 1 := hj
      show j < j' ∧ j' < s.n + 1
      rw [AInv.alloc_coll] at e
      by_cases hjn : j = s.n
      · rw [if_pos hjn, hc] at e; cases e
      · rw [if_neg hjn] at e
        have := hl j (by omega) k j' e
        omega
  cases v with
  | scalar k => exact ⟨rfl, Keep.refl _ _ _, hl, (fun _ _ e => nomatch e), rfl⟩
  | arr items e =>
    refine ⟨⟨s.n, t, rfl, Nat.lt_succ_self _, ht, ha, ?_⟩, (key _ rfl).1, (key _ rfl).2, ?_, rfl⟩
    · exact AInv.alloc_new
    · intro k j e; cases e; exact ⟨rfl, rfl⟩
  | obj ms e =>
    refine ⟨⟨s.n, t, rfl, Nat.lt_succ_self _, ht, ha, ?_⟩, (key _ rfl).1, (key _ rfl).2, ?_, rfl⟩
    · exact AInv.alloc_new
    · intro k j e; cases e; exact ⟨rfl, rfl⟩

/-- `Advance` to a member. -/
theorem adv_cons {s : AState} {n0 i k key v r e} (hl : Links s) (h : Before s n0 i k ((key, v) :: r) e) :
    ∃ s' x, s.step (.advance i) = .ok (s', true) ∧ Links s' ∧ Before s' n0 i k r e ∧ Keep n0 (some i) s s' ∧
      (s'.coll i).key = key ∧ (s'.coll i).cur = some x ∧ Fresh s' x v ∧ (∀ j, x.idx = some j → s.n ≤ j) ∧
      (s'.coll i).thr = (s.coll i).thr := by
  obtain ⟨c1, c2, c3, c4⟩ := discardCur_keep hl h.lt h.i0 h.cur
  have hb := h.keep c1 h.i0 (by simp)
  generalize hd : s.discardCur i = s1 at *
  have hadv : s.step (.advance i) = s1.advance' i := by
    simp only [step, advance]
    rw [if_neg (by have := h.lt; omega), if_neg (by rw [h.done]; simp), hd]
  rw [hadv, ISim.advance'_cons hb.alive hb.rest]
  obtain ⟨f1, f2, f3, f4, f5⟩ := handle_fresh v hb.thr hb.alive c2
  generalize hh : s1.handle v (s1.coll i).thr = sx at *
  obtain ⟨s2, x⟩ := sx
  simp only at f1 f2 f3 f4 f5 ⊢
  have hcoll : s2.coll i = s1.coll i := f2.coll i hb.lt (by simp)
  have hxi : ∀ k j, x = .coll k j → j ≠ i := by
    intro k j e
    have := (f4 k j e).1
    have := hb.lt
    omega
  refine ⟨_, x, rfl, ?_, ?_, ?_, ?_, ?_, ?_, ?_, ?_⟩
  · -- Links
    intro j hj k' j' e'
    have hj : j < s2.n := hj
    show j < j' ∧ j' < s2.n
    by_cases hji : j = i
    · subst hji
      rw [AState.set_same] at e'
      have e' : some x = some (.coll k' j') := e'
      simp only [Option.some.injEq] at e'
      obtain ⟨a1, a2⟩ := f4 k' j' e'
      have := hb.lt
      omega
    · rw [AState.set_ne _ _ hji] at e'
      exact f3 j hj k' j' e'
  · refine ⟨Nat.lt_of_lt_of_le hb.lt f2.n, ?_, ?_, ?_, ?_, ?_, ?_, ?_, ?_, Nat.le_trans hb.base f2.n, hb.i0⟩ <;>
      rw [AState.set_same]
    · exact hb.kind
    · exact hb.done
    · exact hb.elided
    · exact hb.e
    · show (s1.coll i).thr < s2.nt; rw [f5]; exact hb.thr
    · show s2.dead (s1.coll i).thr = false; rw [f2.dead _ hb.thr]; exact hb.alive
    · intro k' j' e'
      have e' : some x = some (.coll k' j') := e'
      simp only [Option.some.injEq] at e'
      obtain ⟨a1, a2⟩ := f4 k' j' e'
      have := hb.base
      omega
  · refine (c1.weaken (Nat.le_refl _) (by simp)).trans ((f2.weaken hb.base (by simp)).trans ?_)
    refine ⟨Nat.le_refl _, Nat.le_refl _, ?_, fun _ _ => rfl, fun _ _ => rfl⟩
    intro j hj hx
    exact AState.set_ne _ _ (by intro e; exact hx (by rw [e]))
  · rw [AState.set_same]
  · rw [AState.set_same]
  · cases v with
    | scalar k' => exact f1
    | arr items e' =>
      obtain ⟨i', t, g1, g2, g3, g4, g5⟩ := f1
      refine ⟨i', t, g1, g2, g3, g4, ?_⟩
      rw [AState.set_ne _ _ (hxi _ _ g1)]; exact g5
    | obj ms e' =>
      obtain ⟨i', t, g1, g2, g3, g4, g5⟩ := f1
      refine ⟨i', t, g1, g2, g3, g4, ?_⟩
      rw [AState.set_ne _ _ (hxi _ _ g1)]; exact g5
  · intro j e'
    cases x with
    | scalar y => cases e'
    | coll k' j' =>
      simp only [Val.idx, Option.some.injEq] at e'
      subst e'
      have := (f4 k' j' rfl).1
      omega
  · rw [AState.set_same]
    show (s1.coll i).thr = _
    rw [c1.coll i h.i0 (by simp)]

/-- `Advance` at the end. -/
theorem adv_nil {s : AState} {n0 i k e} (hl : Links s) (h : Before s n0 i k [] e) (hk : k ≠ .top) :
    ∃ s', s.step (.advance i) = .ok (s', false) ∧ Links s' ∧ Keep n0 (some i) s s' ∧ i < s'.n ∧
      (s'.coll i).elided = e ∧ (s'.coll i).done = true ∧ (s'.coll i).kind = k := by
  obtain ⟨c1, c2, c3, c4⟩ := discardCur_keep hl h.lt h.i0 h.cur
  have hb := h.keep c1 h.i0 (by simp)
  generalize hd : s.discardCur i = s1 at *
  have hadv : s.step (.advance i) = s1.advance' i := by
    simp only [step, advance]
    rw [if_neg (by have := h.lt; omega), if_neg (by rw [h.done]; simp), hd]
  rw [hadv, ISim.advance'_nil hb.alive hb.rest, if_neg (by rw [hb.kind]; exact hk)]
  refine ⟨_, rfl, ?_, ?_, hb.lt, ?_, ?_, ?_⟩
  · intro j hj k' j' e'
    by_cases hji : j = i
    · subst hji
      rw [AState.set_same] at e'
      exact c2 j hj k' j' e'
    · rw [AState.set_ne _ _ hji] at e'
      exact c2 j hj k' j' e'
  · refine (c1.weaken (Nat.le_refl _) (by simp)).trans ?_
    refine ⟨Nat.le_refl _, Nat.le_refl _, ?_, fun _ _ => rfl, fun _ _ => rfl⟩
    intro j hj hx
    exact AState.set_ne _ _ (by intro e; exact hx (by rw [e]))
  · rw [AState.set_same]
    show ((s1.coll i).elided || (s1.coll i).e) = e
    rw [hb.elided, hb.e]; simp
  · rw [AState.set_same]
  · rw [AState.set_same]; exact hb.kind

/-- `Advance` at the end of the input. -/
theorem adv_top {s : AState} {n0 i e} (hl : Links s) (h : Before s n0 i .top [] e) (ht : (s.coll i).thr = 0) :
    ∃ s', s.step (.advance i) = .ok (s', false) ∧ Links s' ∧ Keep n0 (some i) s s' := by
  obtain ⟨c1, c2, c3, c4⟩ := discardCur_keep hl h.lt h.i0 h.cur
  have hb := h.keep c1 h.i0 (by simp)
  have ht : ((s.discardCur i).coll i).thr = 0 := by rw [c1.coll i h.i0 (by simp)]; exact ht
  generalize hd : s.discardCur i = s1 at *
  have hadv : s.step (.advance i) = s1.advance' i := by
    simp only [step, advance]
    rw [if_neg (by have := h.lt; omega), if_neg (by rw [h.done]; simp), hd]
  rw [hadv, ISim.advance'_nil hb.alive hb.rest, if_pos hb.kind]
  refine ⟨_, rfl, ?_, ?_⟩
  · intro j hj k' j' e'
    by_cases hji : j = i
    · subst hji
      have e' : ((s1.set j { s1.coll j with cur := none }).coll j).cur = some (.coll k' j') := e'
      rw [AState.set_same] at e'
      cases e'
    · have e' : ((s1.set i { s1.coll i with cur := none }).coll j).cur = some (.coll k' j') := e'
      rw [AState.set_ne _ _ hji] at e'
      exact c2 j hj k' j' e'
  · refine (c1.weaken (Nat.le_refl _) (by simp)).trans ?_
    refine ⟨Nat.le_refl _, Nat.le_refl _, ?_, ?_, fun _ _ => rfl⟩
    · intro j hj hx
      exact AState.set_ne _ _ (by intro e; exact hx (by rw [e]))
    · intro t _
      show (if t = (s1.coll i).thr ∧ t ≠ 0 then true else s1.dead t) = s1.dead t
      rw [if_neg]
      rw [ht]
      omega

/-- `CurrentKeyVal`. -/
theorem current_ok {s : AState} {n0 i k r e} (h : Before s n0 i k r e) :
    s.step (.current i) = .ok (s, ((s.coll i).key, (s.coll i).cur)) := by
  simp only [step, current]
  rw [if_neg (by have := h.lt; omega), if_neg (by rw [h.done]; simp)]
  rfl

theorem links_init (vs : List JVal) : Links (AState.init vs) := by
  intro i _ k j e; cases e

theorem before_init (vs : List JVal) : Before (AState.init vs) 1 0 .top (vs.map (none, ·)) false :=
  ⟨Nat.one_pos, rfl, rfl, rfl, rfl, rfl, Nat.one_pos, rfl, (fun _ _ e => nomatch e), Nat.le_refl _, Nat.one_pos⟩

end AState

open AState

/-- Running the program on a fresh handle for `v` emits `out` and returns `a`, using only the
handle and what it delivers. -/
def Visits {ε α : Type} (p : Val → IProg ε α) (v : JVal) (out : List ε) (a : α) : Prop :=
  ∀ s x, Links s → Fresh s x v →
    ∃ s', (p x).run AState.mach s = (out, .ok (s', a)) ∧ Links s' ∧ Keep s.n x.idx s s'

theorem arun_op {ε α : Type} {o : IOp} {k : o.Res → IProg ε α} {s s' : AState} {r : o.Res}
    (h : s.step o = .ok (s', r)) : (IProg.op o k).run AState.mach s = (k r).run AState.mach s' :=
  IProg.run_op _ h

/-- Go: `for c.Advance() { … c.CurrentKeyVal() … }`. -/
def forEach {ε β : Type} (body : β → Option Scalar → Val → IProg ε β) (i : Nat) : Nat → β → IProg ε β
  | 0, _ => .fail .fuel
  | f + 1, b => .op (.advance i) fun (more : Bool) =>
    if more then .op (.current i) fun (kv : Option Scalar × Option Val) =>
      match kv.2 with
      | none => .fail .panic
      | some x => (body b kv.1 x).bind fun b => forEach body i f b
    else .ret b

/-- What a loop emits, and its final state. -/
def foldOut {ε β : Type} (out : β → Option Scalar → JVal → List ε) (nxt : β → Option Scalar → JVal → β) :
    β → List (Option Scalar × JVal) → List ε × β
  | b, [] => ([], b)
  | b, m :: l => (out b m.1 m.2 ++ (foldOut out nxt (nxt b m.1 m.2) l).1, (foldOut out nxt (nxt b m.1 m.2) l).2)

/-- One round of a loop. -/
theorem forEach_step {ε β : Type} {body : β → Option Scalar → Val → IProg ε β}
    {out : β → Option Scalar → JVal → List ε} {nxt : β → Option Scalar → JVal → β} {n0 i k e key v rest}
    {f : Nat} {s : AState} {b : β} (hl : Links s) (hb : Before s n0 i k ((key, v) :: rest) e)
    (hbody : Visits (body b key) v (out b key v) (nxt b key v)) :
    ∃ s2, (∀ r, (forEach body i f (nxt b key v)).run AState.mach s2 = r →
        (forEach body i (f + 1) b).run AState.mach s = (out b key v ++ r.1, r.2)) ∧
      Links s2 ∧ Before s2 n0 i k rest e ∧ Keep n0 (some i) s s2 ∧ (s2.coll i).thr = (s.coll i).thr := by
  obtain ⟨s1, x, e1, e2, e3, e4, e5, e6, e7, e8, e9⟩ := adv_cons hl hb
  obtain ⟨s2, g1, g2, g3⟩ := hbody s1 x e2 e7
  have hx : some i ≠ x.idx := by
    intro e
    have := e8 i e.symm
    have := hb.lt
    omega
  refine ⟨s2, ?_, g2, e3.keep g3 e3.lt hx, e4.trans (g3.weaken e3.base ?_), ?_⟩
  · intro r hr
    simp only [forEach]
    rw [arun_op (e1)]
    simp only [if_true]
    rw [arun_op (current_ok e3)]
    simp only [e6, e5]
    rw [IProg.run_bind, g1]
    simp only [seqRun, hr]
  · intro j e
    have := e8 j e
    have := hb.base
    omega
  · rw [g3.coll i e3.lt hx, e9]

/-- The rule for loops over collections. -/
theorem forEach_run {ε β : Type} {body : β → Option Scalar → Val → IProg ε β}
    (out : β → Option Scalar → JVal → List ε) (nxt : β → Option Scalar → JVal → β) {n0 i k e} (hk : k ≠ .top) :
    ∀ (rest : List (Option Scalar × JVal)) (f : Nat) (s : AState) (b : β), rest.length < f → Links s →
      Before s n0 i k rest e →
      (∀ m ∈ rest, ∀ b, Visits (body b m.1) m.2 (out b m.1 m.2) (nxt b m.1 m.2)) →
      ∃ s', (forEach body i f b).run AState.mach s = ((foldOut out nxt b rest).1, .ok (s', (foldOut out nxt b rest).2)) ∧
        Links s' ∧ Keep n0 (some i) s s' ∧ i < s'.n ∧ (s'.coll i).elided = e ∧ (s'.coll i).done = true ∧
        (s'.coll i).kind = k := by
  intro rest
  induction rest with
  | nil =>
    intro f s b hf hl hb hbody
    obtain ⟨f, rfl⟩ : ∃ f', f = f' + 1 := ⟨f - 1, by simp at hf; omega⟩
    obtain ⟨s', e1, e2, e3, e4, e5, e6, e7⟩ := adv_nil hl hb hk
    refine ⟨s', ?_, e2, e3, e4, e5, e6, e7⟩
    simp only [forEach]
    rw [arun_op (e1)]
    simp [foldOut]
  | cons m rest ih =>
    intro f s b hf hl hb hbody
    obtain ⟨key, v⟩ := m
    obtain ⟨f, rfl⟩ : ∃ f', f = f' + 1 := ⟨f - 1, by simp at hf; omega⟩
    obtain ⟨s2, g1, g2, g3, g4, g5⟩ := forEach_step (f := f) hl hb (hbody (key, v) (by simp) b)
    obtain ⟨s3, k1, k2, k3, k4⟩ := ih f s2 (nxt b key v) (by simp at hf; omega) g2 g3
      (fun m hm => hbody m (by simp [hm]))
    exact ⟨s3, by rw [g1 _ k1]; rfl, k2, g4.trans k3, k4⟩

/-- The rule for loops over the input. -/
theorem forEach_top {ε β : Type} {body : β → Option Scalar → Val → IProg ε β}
    (out : β → Option Scalar → JVal → List ε) (nxt : β → Option Scalar → JVal → β) {n0 i e} :
    ∀ (rest : List (Option Scalar × JVal)) (f : Nat) (s : AState) (b : β), rest.length < f → Links s →
      Before s n0 i .top rest e → (s.coll i).thr = 0 →
      (∀ m ∈ rest, ∀ b, Visits (body b m.1) m.2 (out b m.1 m.2) (nxt b m.1 m.2)) →
      ∃ s', (forEach body i f b).run AState.mach s = ((foldOut out nxt b rest).1, .ok (s', (foldOut out nxt b rest).2)) ∧
        Links s' ∧ Keep n0 (some i) s s' := by
  intro rest
  induction rest with
  | nil =>
    intro f s b hf hl hb ht hbody
    obtain ⟨f, rfl⟩ : ∃ f', f = f' + 1 := ⟨f - 1, by simp at hf; omega⟩
    obtain ⟨s', e1, e2, e3⟩ := adv_top hl hb ht
    refine ⟨s', ?_, e2, e3⟩
    simp only [forEach]
    rw [arun_op (e1)]
    simp [foldOut]
  | cons m rest ih =>
    intro f s b hf hl hb ht hbody
    obtain ⟨key, v⟩ := m
    obtain ⟨f, rfl⟩ : ∃ f', f = f' + 1 := ⟨f - 1, by simp at hf; omega⟩
    obtain ⟨s2, g1, g2, g3, g4, g5⟩ := forEach_step (f := f) hl hb (hbody (key, v) (by simp) b)
    obtain ⟨s3, k1, k2, k3⟩ := ih f s2 (nxt b key v) (by simp at hf; omega) g2 g3 (g5.trans ht)
      (fun m hm => hbody m (by simp [hm]))
    exact ⟨s3, by rw [g1 _ k1]; rfl, k2, g4.trans k3⟩

theorem fresh_keep {s s' : AState} {n0 x y v} (h : Fresh s x v) (hk : Keep n0 y s s')
    (hx : ∀ j, x.idx = some j → j < n0 ∧ y ≠ some j) : Fresh s' x v := by
  cases v with
  | scalar k => exact h
  | arr items e =>
    obtain ⟨i, t, h1, h2, h3, h4, h5⟩ := h
    subst h1
    obtain ⟨g1, g2⟩ := hx i rfl
    exact ⟨i, t, rfl, Nat.lt_of_lt_of_le h2 hk.n, Nat.lt_of_lt_of_le h3 hk.nt, by rw [hk.dead t h3, h4],
      by rw [hk.coll i g1 (fun e => g2 e.symm), h5]⟩
  | obj ms e =>
    obtain ⟨i, t, h1, h2, h3, h4, h5⟩ := h
    subst h1
    obtain ⟨g1, g2⟩ := hx i rfl
    exact ⟨i, t, rfl, Nat.lt_of_lt_of_le h2 hk.n, Nat.lt_of_lt_of_le h3 hk.nt, by rw [hk.dead t h3, h4],
      by rw [hk.coll i g1 (fun e => g2 e.symm), h5]⟩

theorem fresh_lt {s : AState} {x v} (h : Fresh s x v) {j} (hx : x.idx = some j) : j < s.n := by
  cases v with
  | scalar k => simp only [Fresh] at h; rw [h] at hx; cases hx
  | arr items e => obtain ⟨i, t, h1, h2, _⟩ := h; subst h1; cases hx; exact h2
  | obj items e => obtain ⟨i, t, h1, h2, _⟩ := h; subst h1; cases hx; exact h2

/-- Programs over a stream, run on the implementation. -/
theorem top_run {ε α : Type} {p : IProg ε α} {vs : List JVal} {out : List ε} {s' : AState} {a : α}
    (h : p.run AState.mach (AState.init vs) = (out, .ok (s', a))) :
    ∃ h', p.run Heap.mach (Heap.init (streamToks vs)) = (out, .ok (h', a)) := by
  obtain ⟨h1, h2⟩ := IProg.run_heap p vs (by rw [h]; simp)
  rw [h] at h1 h2
  revert h2
  cases hr : (p.run Heap.mach (Heap.init (streamToks vs))).2 with
  | error e => intro h2; cases h2
  | ok r =>
    intro h2
    have h2 : Except.ok r.2 = Except.ok a := h2
    cases h2
    exact ⟨r.1, Prod.ext h1 hr⟩

open IProg JVal.toks

theorem run_putAll_bind {ε α : Type} (l : List ε) (p : Unit → IProg ε α) (s : AState) :
    ((putAll l).bind p).run AState.mach s = (l ++ ((p ()).run AState.mach s).1, ((p ()).run AState.mach s).2) := by
  rw [run_bind]; simp [seqRun]

theorem run_put_bind {ε α : Type} (o : ε) (p : Unit → IProg ε α) (s : AState) :
    ((put o).bind p).run AState.mach s = (o :: ((p ()).run AState.mach s).1, ((p ()).run AState.mach s).2) := by
  rw [run_bind]; simp [seqRun]

theorem run_ok_bind {ε α β : Type} {q : IProg ε α} {p : α → IProg ε β} {s s' : AState} {out : List ε} {a : α}
    (h : q.run AState.mach s = (out, .ok (s', a))) :
    (q.bind p).run AState.mach s = (out ++ ((p a).run AState.mach s').1, ((p a).run AState.mach s').2) := by
  rw [run_bind, h]; simp [seqRun]

theorem elided_ok {s : AState} {i : Nat} {e : Bool} (hi : i < s.n) (he : (s.coll i).elided = e) :
    s.step (.elided i) = .ok (s, e) := by
  simp only [AState.step]
  rw [if_neg (by omega), he]

theorem foldOut_const {ε : Type} (g : Option Scalar → JVal → List ε) : ∀ (l : List (Option Scalar × JVal)) (b : Unit),
    foldOut (fun _ k v => g k v) (fun _ _ _ => ()) b l = (l.flatMap fun m => g m.1 m.2, ()) := by
  intro l
  induction l with
  | nil => intro b; rfl
  | cons v l ih => intro b; simp [foldOut, ih]

theorem toks_pos (v : JVal) : 0 < v.toks.length := List.length_pos_iff.2 (Verif.toks_ne_nil v)

theorem itemToks_bound (l : List JVal) : l.length ≤ (itemToks l).length ∧ ∀ v ∈ l, v.toks.length ≤ (itemToks l).length := by
  induction l with
  | nil => simp
  | cons v l ih =>
    have := toks_pos v
    simp only [itemToks, List.length_append, List.length_cons, List.mem_cons]
    refine ⟨by omega, ?_⟩
    rintro w (rfl | hw)
    · omega
    · have := ih.2 w hw; omega

theorem memberToks_bound (l : List (Scalar × JVal)) :
    l.length ≤ (memberToks l).length ∧ ∀ m ∈ l, m.2.toks.length ≤ (memberToks l).length := by
  induction l with
  | nil => simp
  | cons m l ih =>
    obtain ⟨k, v⟩ := m
    simp only [memberToks, List.length_append, List.length_cons, List.mem_cons]
    refine ⟨by omega, ?_⟩
    rintro w (rfl | hw)
    · simp; omega
    · have := ih.2 w hw; omega

theorem streamToks_bound (l : List JVal) : l.length ≤ (streamToks l).length ∧ ∀ v ∈ l, v.toks.length ≤ (streamToks l).length := by
  induction l with
  | nil => simp
  | cons v l ih =>
    have := toks_pos v
    simp only [streamToks_cons, List.length_append, List.length_cons, List.mem_cons]
    refine ⟨by omega, ?_⟩
    rintro w (rfl | hw)
    · omega
    · have := ih.2 w hw; omega

/-- Go: `valueTransformerAdapter.Transform`, `/repo/iterator/transformer.go:22-27`, with the loop bound as fuel. -/
def transformAll {ε : Type} (tv : Val → IProg ε Unit) (f : Nat) : IProg ε Unit :=
  forEach (fun _ _ x => tv x) 0 f ()

/-- A transform value by value. -/
theorem transformAll_run {ε : Type} {tv : Val → IProg ε Unit} {out : JVal → List ε} {vs : List JVal} {f : Nat}
    (hf : (streamToks vs).length < f) (h : ∀ v ∈ vs, Visits tv v (out v) ()) :
    ∃ h', (transformAll tv f).run Heap.mach (Heap.init (streamToks vs)) = (vs.flatMap out, .ok (h', ())) := by
  have hb := streamToks_bound vs
  obtain ⟨s', e1, e2, e3⟩ := forEach_top (body := fun (_ : Unit) _ x => tv x)
    (fun _ _ v => out v) (fun _ _ _ => ()) (vs.map (none, ·)) f (AState.init vs) ()
    (by simp; omega) (links_init vs) (before_init vs) rfl (by
      intro m hm b
      simp only [List.mem_map] at hm
      obtain ⟨v, hv, rfl⟩ := hm
      exact h v hv)
  rw [foldOut_const (fun _ v => out v)] at e1
  have := top_run (p := transformAll tv f) e1
  simpa [List.flatMap_map] using this

end Verif
