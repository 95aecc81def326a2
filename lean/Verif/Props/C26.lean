import Verif.IterRoot

/-!
# C26: skipping and partial reading keep the stream in step

The visitor that looks into the values is an arbitrary program over the operations of the iterator
package, or one of an inductive family of partial readings for which nothing is assumed.
-/

set_option linter.unusedSimpArgs false
set_option linter.unusedVariables false

namespace Verif
open AState

/-- Deliver the first `n` values of the input (iterator 0) to a visitor; fewer if the input ends. -/
def skim {ε : Type} (visit : Nat → Val → IProg ε Unit) : Nat → IProg ε Unit
  | 0 => .ret ()
  | n + 1 => (skim visit n).bind fun _ => .op (.advance 0) fun (more : Bool) =>
      if more then .op (.current 0) fun (kv : Option Scalar × Option Val) =>
        match kv.2 with
        | none => .fail .panic
        | some x => visit n x
      else .ret ()

/-- The next value of the input as tokens, `none` at the end. -/
def nextValue {ε : Type} : IProg ε (Option (List Token)) :=
  .op (.advance 0) fun (more : Bool) =>
    if more then .op (.current 0) fun (kv : Option Scalar × Option Val) =>
      match kv.2 with
      | none => .fail .panic
      | some x => .op (.copy x) fun (ts : List Token) => .ret (some ts)
    else .ret none

/-- Skimming leaves the iterator behind the values delivered. -/
theorem skim_root {ε : Type} (visit : Nat → Val → IProg ε Unit) (hv : ∀ n x, (visit n x).AvoidsRoot) (vs : List JVal) :
    ∀ (n : Nat) (s' : AState), ((skim visit n).run AState.mach (AState.init vs)).2 = .ok (s', ()) →
      Root s' ((vs.drop n).map (none, ·)) ∧ WF s' := by
  intro n
  induction n with
  | zero => intro s' h; simp only [skim, IProg.run_ret] at h; cases h; exact ⟨root_init vs, wf_init vs⟩
  | succ n ih =>
    intro s' h
    simp only [skim, IProg.run_bind, seqRun] at h
    cases h1 : ((skim visit n).run AState.mach (AState.init vs)).2 with
    | error e => rw [h1] at h; cases h
    | ok r =>
      obtain ⟨s1, u⟩ := r
      rw [h1] at h
      simp only at h
      obtain ⟨r1, w1⟩ := ih s1 h1
      cases hd : vs.drop n with
      | nil =>
        have hd' : vs.drop (n + 1) = [] := by
          rw [← List.drop_drop, hd]; rfl
        rw [hd] at r1
        obtain ⟨s2, e1, e2, e3⟩ := r1.end w1
        rw [arun_op e1] at h
        simp only [Bool.false_eq_true, if_false, IProg.run_ret] at h
        cases h
        rw [hd']; exact ⟨e2, e3⟩
      | cons v l =>
        have hd' : vs.drop (n + 1) = l := by
          rw [← List.drop_drop, hd]; rfl
        rw [hd] at r1
        obtain ⟨s2, x, e1, e2, e3, e4, e5, e6⟩ := r1.next w1
        rw [arun_op e1] at h
        simp only [if_true] at h
        rw [arun_op e2] at h
        simp only at h
        rw [hd']
        exact IProg.root_run _ (hv n x) e3 e4 h

/-- The next value on the specification. -/
theorem nextValue_run {ε : Type} {s : AState} {vs : List JVal} (h : Root s (vs.map (none, ·))) (hw : WF s) :
    ∃ s', (nextValue : IProg ε _).run AState.mach s = ([], .ok (s', vs.head?.map JVal.toks)) := by
  cases vs with
  | nil =>
    obtain ⟨s2, e1, e2, e3⟩ := h.end hw
    refine ⟨s2, ?_⟩
    simp only [nextValue]
    rw [arun_op e1]
    rfl
  | cons v l =>
    obtain ⟨s2, x, e1, e2, e3, e4, e5, e6⟩ := h.next hw
    obtain ⟨s3, e7, e8, e9⟩ := copy_fresh e4.links e5
    refine ⟨s3, ?_⟩
    simp only [nextValue]
    rw [arun_op e1]
    simp only [if_true]
    rw [arun_op e2]
    simp only
    rw [arun_op e7]
    rfl

/-- C26, on the implementation: let a visitor look into the first `n` values by any program over the
operations of the package that does not advance the iterator over the input itself.  If the operations
it performs are ones about which the specification says that they return (no `Copy` of a value
already finished, no panic), then the next advance delivers exactly value number `n` — the end of the
stream if there are only `n` values. -/
theorem C26_in_step {ε : Type} (visit : Nat → Val → IProg ε Unit) (hv : ∀ n x, (visit n x).AvoidsRoot) (vs : List JVal)
    (n : Nat) {s' : AState} (hok : ((skim visit n).run AState.mach (AState.init vs)).2 = .ok (s', ())) :
    ∃ h out, ((skim visit n).bind fun _ => nextValue).run Heap.mach (Heap.init (streamToks vs)) =
      (out, .ok (h, vs[n]?.map JVal.toks)) := by
  obtain ⟨r, w⟩ := skim_root visit hv vs n s' hok
  obtain ⟨s2, h2⟩ := nextValue_run (ε := ε) r w
  have : ((skim visit n).bind fun _ => nextValue).run AState.mach (AState.init vs) =
      (((skim visit n).run AState.mach (AState.init vs)).1, .ok (s2, vs[n]?.map JVal.toks)) := by
    rw [IProg.run_bind, seqRun, hok]
    simp only [h2]
    simp
  obtain ⟨h', h3⟩ := top_run this
  exact ⟨h', _, h3⟩

/-! ## Partial readings -/

mutual
/-- A partial reading of a value: enter it, skip it explicitly, copy it, or clone it and read the clone
and then the original (and detach the clone or not). -/
inductive Look
  | enter (m : LookIn)
  | discard
  | copy
  | clone (a b : Look) (detach : Bool)
/-- A partial reading of members: stop here, skip the rest explicitly, or advance and look into the
member. -/
inductive LookIn
  | stop
  | discard
  | next (l : Look) (m : LookIn)
end

mutual
/-- The program. -/
def Look.prog {ε : Type} : Look → Val → IProg ε Unit
  | .enter m, .coll _ i => m.prog i
  | .enter _, .scalar _ => .ret ()
  | .discard, x => .op (.discard x) fun _ => .ret ()
  | .copy, x => .op (.copy x) fun _ => .ret ()
  | .clone a b d, x => .op (.clone x) fun (y : Val × Option Nat) =>
    (a.prog y.1).bind fun _ => (b.prog x).bind fun _ =>
      match d, y.2 with
      | true, some t => .op (.detach t) fun _ => .ret ()
      | _, _ => .ret ()
/-- The program. -/
def LookIn.prog {ε : Type} : LookIn → Nat → IProg ε Unit
  | .stop, _ => .ret ()
  | .discard, i => .op (.advance i) fun (more : Bool) =>
    if more then .op (.current i) fun (kv : Option Scalar × Option Val) =>
      match kv.2 with
      | none => .fail .panic
      | some x => .op (.discard x) fun _ => .ret ()
    else .ret ()
  | .next l m, i => .op (.advance i) fun (more : Bool) =>
    if more then .op (.current i) fun (kv : Option Scalar × Option Val) =>
      match kv.2 with
      | none => .fail .panic
      | some x => (l.prog x).bind fun _ => m.prog i
    else .ret ()
end

mutual
/-- Looking into a fresh value works and touches nothing else. -/
theorem Look.run {ε : Type} (l : Look) {s : AState} {x : Val} {v : JVal} (hw : WF s) (h : Fresh s x v) :
    ∃ s', (l.prog x : IProg ε Unit).run AState.mach s = ([], .ok (s', ())) ∧ WF s' ∧ Keep s.n x.idx s s' := by
  cases l with
  | enter m =>
    cases x with
    | scalar k => exact ⟨s, by simp [Look.prog], hw, Keep.refl _ _ _⟩
    | coll k i =>
      obtain ⟨hk, hb⟩ := h.before rfl
      have hkt : k ≠ .top := by rw [hk]; cases v <;> simp [JVal.kind]
      simp only [Look.prog]
      obtain ⟨s', e1, e2, e3⟩ := LookIn.run m hw hb hkt
      exact ⟨s', e1, e2, e3⟩
  | discard =>
    obtain ⟨s', e1, e2, e3⟩ := discard_fresh hw.links h
    refine ⟨s', ?_, hw.step e1, e3⟩
    simp only [Look.prog]; rw [arun_op e1]; rfl
  | copy =>
    obtain ⟨s', e1, e2, e3⟩ := copy_fresh hw.links h
    refine ⟨s', ?_, hw.step e1, e3⟩
    simp only [Look.prog]; rw [arun_op e1]; rfl
  | clone a b d =>
    obtain ⟨s1, y, t, e1, e2, e3, e4, e5, e6⟩ := clone_fresh hw h
    have w1 := hw.step e1
    obtain ⟨s2, f1, f2, f3⟩ := Look.run (ε := ε) a w1 e4
    have hsn : s.n ≤ s1.n := e2.n
    have hxn : ∀ j, x.idx = some j → j < s.n := fun j e => fresh_lt h e
    have hfx : Fresh s2 x v := by
      refine fresh_keep e3 f3 ?_
      intro j e
      refine ⟨Nat.lt_of_lt_of_le (hxn j e) hsn, ?_⟩
      intro e'
      have := e5 j e'
      have := hxn j e
      omega
    obtain ⟨s3, g1, g2, g3⟩ := Look.run (ε := ε) b f2 hfx
    have k2 : Keep s.n x.idx s1 s2 := f3.weaken hsn (by
      intro j e
      left
      have := e5 j e
      omega)
    have k3 : Keep s.n x.idx s2 s3 := g3.weaken (Nat.le_trans hsn f3.n) (fun j e => Or.inr e)
    have hrun : ∀ (q : IProg ε Unit), ((a.prog y).bind fun _ => (b.prog x).bind fun _ => q).run AState.mach s1 =
        q.run AState.mach s3 := by
      intro q
      rw [IProg.run_bind, f1]
      simp only [seqRun]
      rw [IProg.run_bind, g1]
      simp [seqRun]
    simp only [Look.prog]
    rw [arun_op e1]
    simp only [hrun]
    cases d with
    | false => exact ⟨s3, rfl, g2, e2.trans (k2.trans k3)⟩
    | true =>
      cases t with
      | none => exact ⟨s3, rfl, g2, e2.trans (k2.trans k3)⟩
      | some t =>
        obtain ⟨t1, t2, t3⟩ := e6 t rfl
        have hd : s3.det t = true := by
          rw [g3.det t (Nat.lt_of_lt_of_le t2 f3.nt), f3.det t t2, t3]
        obtain ⟨s4, h1, h2, h3, h4, h5, h6⟩ := detach_ok (Nat.lt_of_lt_of_le t2 (Nat.le_trans f3.nt g3.nt)) hd
        refine ⟨s4, ?_, g2.step h1, ?_⟩
        · simp only
          rw [arun_op h1]; rfl
        · have := e2.trans (k2.trans k3)
          refine ⟨by rw [h2]; exact this.n, by rw [h3]; exact this.nt, ?_, ?_, ?_⟩
          · intro j hj hx; rw [h4]; exact this.coll j hj hx
          · intro u hu; rw [h5 u (by omega)]; exact this.dead u hu
          · intro u hu; rw [h6]; exact this.det u hu
termination_by sizeOf l
/-- Looking into members. -/
theorem LookIn.run {ε : Type} (m : LookIn) {s : AState} {n0 i k rest e} (hw : WF s) (hb : Before s n0 i k rest e)
    (hk : k ≠ .top) :
    ∃ s', (m.prog i : IProg ε Unit).run AState.mach s = ([], .ok (s', ())) ∧ WF s' ∧ Keep n0 (some i) s s' := by
  cases m with
  | stop => exact ⟨s, by simp [LookIn.prog], hw, Keep.refl _ _ _⟩
  | discard =>
    simp only [LookIn.prog]
    cases rest with
    | nil =>
      obtain ⟨s', e1, e2, e3, _⟩ := adv_nil hw.links hb hk
      refine ⟨s', ?_, hw.step e1, e3⟩
      rw [arun_op e1]; rfl
    | cons m rest =>
      obtain ⟨key, v⟩ := m
      obtain ⟨s1, x, e1, e2, e3, e4, e5, e6, e7, e8, e9⟩ := adv_cons hw.links hb
      have w1 := hw.step e1
      obtain ⟨s2, f1, f2, f3⟩ := discard_fresh w1.links e7
      refine ⟨s2, ?_, w1.step f1, e4.trans (f3.weaken e3.base ?_)⟩
      · rw [arun_op e1]
        simp only [if_true]
        rw [arun_op (current_ok e3)]
        simp only [e6]
        rw [arun_op f1]; rfl
      · intro j e
        have := e8 j e
        have := hb.base
        omega
  | next l m =>
    simp only [LookIn.prog]
    cases rest with
    | nil =>
      obtain ⟨s', e1, e2, e3, _⟩ := adv_nil hw.links hb hk
      refine ⟨s', ?_, hw.step e1, e3⟩
      rw [arun_op e1]; rfl
    | cons mm rest =>
      obtain ⟨key, v⟩ := mm
      obtain ⟨s1, x, e1, e2, e3, e4, e5, e6, e7, e8, e9⟩ := adv_cons hw.links hb
      have w1 := hw.step e1
      obtain ⟨s2, f1, f2, f3⟩ := Look.run (ε := ε) l w1 e7
      have hx : some i ≠ x.idx := by
        intro e
        have := e8 i e.symm
        have := hb.lt
        omega
      obtain ⟨s3, g1, g2, g3⟩ := LookIn.run (ε := ε) m f2 (e3.keep f3 e3.lt hx) hk
      refine ⟨s3, ?_, g2, e4.trans ((f3.weaken e3.base ?_).trans g3)⟩
      · rw [arun_op e1]
        simp only [if_true]
        rw [arun_op (current_ok e3)]
        simp only [e6]
        rw [IProg.run_bind, f1]
        simp [seqRun, g1]
      · intro j e
        have := e8 j e
        have := hb.base
        omega
termination_by sizeOf m
end

/-- Skimming with partial readings never fails. -/
theorem skim_look {ε : Type} (ls : Nat → Look) (vs : List JVal) (n : Nat) :
    ∃ s', (skim (fun n => (ls n).prog) n : IProg ε Unit).run AState.mach (AState.init vs) = ([], .ok (s', ())) ∧
      Root s' ((vs.drop n).map (none, ·)) ∧ WF s' := by
  induction n with
  | zero => exact ⟨_, rfl, root_init vs, wf_init vs⟩
  | succ n ih =>
    obtain ⟨s1, h1, r1, w1⟩ := ih
    simp only [skim, IProg.run_bind, h1, seqRun]
    cases hd : vs.drop n with
    | nil =>
      have hd' : vs.drop (n + 1) = [] := by
        rw [← List.drop_drop, hd]; rfl
      rw [hd] at r1
      obtain ⟨s2, e1, e2, e3⟩ := r1.end w1
      rw [arun_op e1, hd']
      exact ⟨s2, rfl, e2, e3⟩
    | cons v l =>
      have hd' : vs.drop (n + 1) = l := by
        rw [← List.drop_drop, hd]; rfl
      rw [hd] at r1
      obtain ⟨s2, x, e1, e2, e3, e4, e5, e6⟩ := r1.next w1
      rw [arun_op e1, hd']
      simp only [if_true]
      rw [arun_op e2]
      obtain ⟨s3, f1, f2, f3⟩ := Look.run (ε := ε) (ls n) e4 e5
      refine ⟨s3, ?_, ?_, f2⟩
      · simp [f1]
      · have hc : s3.coll 0 = s2.coll 0 := f3.coll 0 e3.n (by
          intro e
          have := e6 0 e.symm
          have := r1.n
          omega)
        exact ⟨Nat.lt_of_lt_of_le e3.n f3.n, Nat.lt_of_lt_of_le e3.nt f3.nt, (f3.dead 0 e3.nt).trans e3.dead,
          (f3.det 0 e3.nt).trans e3.det, by rw [hc]; exact e3.kind, by rw [hc]; exact e3.thr,
          by rw [hc]; exact e3.done, by rw [hc]; exact e3.elided, by rw [hc]; exact e3.rest, by rw [hc]; exact e3.e⟩

/-- C26, on the implementation, without assumptions: after any partial readings of the first `n` values
(not at all, partially, completely, at any depth, by traversal, `Discard`, `Copy` or through clones),
the next advance delivers exactly value number `n`, or the end of the stream. -/
theorem C26_partial_reading {ε : Type} (ls : Nat → Look) (vs : List JVal) (n : Nat) :
    ∃ h, ((skim (fun n => (ls n).prog) n).bind fun _ => nextValue : IProg ε _).run Heap.mach
      (Heap.init (streamToks vs)) = ([], .ok (h, vs[n]?.map JVal.toks)) := by
  obtain ⟨s1, h1, r1, w1⟩ := skim_look (ε := ε) ls vs n
  obtain ⟨s2, h2⟩ := nextValue_run (ε := ε) r1 w1
  refine top_run (s' := s2) ?_
  rw [IProg.run_bind, h1]
  simp only [seqRun, h2]
  simp

section NonVacuity

private def num (b : Bytes) : JVal := .scalar ⟨b, .num, false, false, false⟩

/-- In `[1,[2,3],4] [5]`, look at the first member of the first value and at the first member of its
second member; then the next value is `[5]`. -/
example : ∃ h, ((skim (fun n => (([Look.enter (.next .copy (.next (.enter (.next .discard .stop)) .stop))][n]?).getD
      .discard).prog) 1).bind fun _ => nextValue : IProg Unit _).run Heap.mach
      (Heap.init (streamToks [.arr [num b%"1", .arr [num b%"2", num b%"3"] false, num b%"4"] false,
        .arr [num b%"5"] false])) =
    ([], .ok (h, some [.startArr, .scalar ⟨b%"5", .num, false, false, false⟩, .endArr])) :=
  C26_partial_reading _ _ 1

end NonVacuity

end Verif
