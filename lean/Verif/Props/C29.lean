import Verif.EqualObj
import Verif.RoundSpec
import Verif.Props.C26

/-!
# C29: value equality is JSON equality
-/

set_option linter.unusedSimpArgs false
set_option linter.unusedVariables false

namespace Verif
open AState IProg GoJson

/-- The next value of an iterator, given to `k`. -/
def takeValue {ε α : Type} (it : Nat) (k : Val → IProg ε α) : IProg ε α :=
  .op (.advance it) fun (more : Bool) =>
    if more then .op (.current it) fun (kv : Option Scalar × Option Val) =>
      match kv.2 with
      | some x => k x
      | none => .fail .panic
    else .fail .panic

/-- The only value of a new iterator over data, given to `k`. -/
def dataValue {ε α : Type} (ts : List Token) (k : Val → IProg ε α) : IProg ε α :=
  .op (.data ts) fun (it : Nat) => takeValue it k

theorem run_dataValue {ε α : Type} {s : AState} (w : JVal) (hw : WF s) {x : Val} {v : JVal} (hx : Fresh s x v) :
    ∃ s' y, (∀ k : Val → IProg ε α, (dataValue w.toks k).run AState.mach s = (k y).run AState.mach s') ∧ WF s' ∧
      Fresh s' x v ∧ Fresh s' y w ∧ (∀ h, x.idx = some h → y.idx ≠ some h) := by
  have hp : parseToks w.toks = some [w] := by
    have := parseToks_streamToks [w]
    simpa using this
  obtain ⟨s1, hs1⟩ : ∃ s1, s1 = { s.alloc ⟨.top, s.nt, false, false, false, none, none, [(none, w)], false⟩ with nt := s.nt + 1 } :=
    ⟨_, rfl⟩
  have e1 : s.step (.data w.toks) = .ok (s1, s.n) := by
    rw [hs1]; simp only [AState.step, hp]; rfl
  have w1 : WF s1 := hw.step e1
  have c1 : s1.coll s.n = ⟨.top, s.nt, false, false, false, none, none, [(none, w)], false⟩ := by
    rw [hs1]; exact AInv.alloc_new
  have n1 : s1.n = s.n + 1 := by rw [hs1]; rfl
  have k1 : Keep s.n none s s1 := by
    rw [hs1]
    exact ⟨Nat.le_succ _, Nat.le_succ _, fun j hj _ => AInv.alloc_old hj, fun _ _ => rfl, fun _ _ => rfl⟩
  have b1 : Before s1 (s.n + 1) s.n .top [(none, w)] false := by
    refine ⟨by omega, ?_, ?_, ?_, ?_, ?_, ?_, ?_, ?_, by omega, by omega⟩ <;> rw [c1]
    · rw [hs1]; exact Nat.lt_succ_self _
    · rw [hs1]; exact hw.dead _ (Nat.le_refl _)
    · intro k j e; cases e
  obtain ⟨s2, y, e2, l2, b2, k2, q1, q2, f2, o2, -⟩ := adv_cons w1.links b1
  have x1 := fresh_keep hx k1 (fun j hj => ⟨hx.lt j hj, by simp⟩)
  have x2 := fresh_keep x1 k2 (fun j hj => ⟨by have := hx.lt j hj; omega, by have := hx.lt j hj; simp; omega⟩)
  refine ⟨s2, y, ?_, w1.step e2, x2, f2, ?_⟩
  · intro k
    simp only [dataValue, takeValue]
    rw [arun_op e1, arun_op e2]
    simp only [if_true]
    rw [arun_op (current_ok b2), q1, q2]
  · intro h h1 h2
    have := hx.lt h h1; have := o2 h h2; omega

theorem run_takeInput {ε α : Type} {s : AState} {v : JVal} {rt} (h : Root s ((none, v) :: rt)) (hw : WF s) :
    ∃ s' x, (∀ k : Val → IProg ε α, (takeValue 0 k).run AState.mach s = (k x).run AState.mach s') ∧ WF s' ∧ Fresh s' x v := by
  obtain ⟨s1, x, e1, e2, r1, w1, f1, -⟩ := h.next hw
  refine ⟨s1, x, ?_, w1, f1⟩
  intro k
  simp only [takeValue]
  rw [arun_op e1]
  simp only [if_true]
  rw [arun_op e2]

/-- The next value of the input and the value given by `ts`, or the other way round. -/
def withBoth {ε α : Type} (swap : Bool) (ts : List Token) (k : Val → Val → IProg ε α) : IProg ε α :=
  takeValue 0 fun x => dataValue ts fun y => if swap then k y x else k x y

theorem run_both {ε α : Type} (ls : Nat → Look) (vs : List JVal) (n : Nat) (v : JVal) (hv : vs[n]? = some v) (w : JVal) (swap : Bool) :
    ∃ s x y, (∀ k : Val → Val → IProg ε α, (((skim (fun n => (ls n).prog) n).bind fun _ => withBoth swap w.toks k).run AState.mach
        (AState.init vs)) = (k x y).run AState.mach s) ∧ WF s ∧ Fresh s x (if swap then w else v) ∧
      Fresh s y (if swap then v else w) ∧ (∀ h, x.idx = some h → y.idx ≠ some h) := by
  obtain ⟨s1, h1, r1, w1⟩ := skim_look (ε := ε) ls vs n
  have hd : vs.drop n = v :: vs.drop (n + 1) := by
    rw [List.getElem?_eq_some_iff] at hv
    obtain ⟨hlt, rfl⟩ := hv
    exact List.drop_eq_getElem_cons hlt
  rw [hd] at r1
  obtain ⟨s2, x, e2, w2, x2⟩ := run_takeInput (ε := ε) (α := α) r1 w1
  obtain ⟨s3, y, e3, w3, x3, y3, hxy⟩ := run_dataValue (ε := ε) (α := α) w w2 x2
  cases swap with
  | false =>
    refine ⟨s3, x, y, ?_, w3, x3, y3, hxy⟩
    intro k
    rw [run_ok_bind h1]
    simp only [withBoth, e2, e3, Bool.false_eq_true, if_false]
    rfl
  | true =>
    refine ⟨s3, y, x, ?_, w3, y3, x3, fun h h1 h2 => hxy h h2 h1⟩
    intro k
    rw [run_ok_bind h1]
    simp only [withBoth, e2, e3, if_true]
    rfl

/-- C29, on the implementation: a value of the input (after any partial readings of those before it) and
a value given as data are equal by `Equal`, in either order, if and only if they denote the same data:
escapes and the notation of numbers do not matter, nor does the order of the members of objects.
Missing: numbers that `float64` does not tell apart or cannot represent, and strings with invalid escapes, see
`C29_violated` and `C29_violated_panic`. -/
theorem C29_equal_partial {ε : Type} {S : Bytes → Prop} (hS : Sharp S) (ls : Nat → Look) (vs : List JVal) (n : Nat) (v w : JVal)
    (hv : vs[n]? = some v) (d d' : Data) (hd : Den v d) (hd' : Den w d') (nv : NumsIn S v) (nw : NumsIn S w) (f : Nat)
    (hf : v.toks.length ≤ f) (hf' : w.toks.length ≤ f) (swap : Bool) :
    ∃ h b, ((skim (fun n => (ls n).prog) n).bind fun _ => withBoth swap w.toks (valEqual f) : IProg ε Bool).run Heap.mach
      (Heap.init (streamToks vs)) = ([], .ok (h, b)) ∧ (b = true ↔ d = d') := by
  obtain ⟨s, x, y, e, hw, hx, hy, hxy⟩ := run_both (ε := ε) (α := Bool) ls vs n v hv w swap
  cases swap with
  | false =>
    obtain ⟨s', b, e1, e2, -⟩ := valEqual_run (ε := ε) hS.by f v w d d' ⟨hf, nv⟩ ⟨hf', nw⟩ hd hd' s x y hw hx hy hxy
    obtain ⟨h, e3⟩ := top_run ((e (valEqual f)).trans e1)
    exact ⟨h, b, e3, e2⟩
  | true =>
    obtain ⟨s', b, e1, e2, -⟩ := valEqual_run (ε := ε) hS.by f w v d' d ⟨hf', nw⟩ ⟨hf, nv⟩ hd' hd s x y hw hx hy hxy
    obtain ⟨h, e3⟩ := top_run ((e (valEqual f)).trans e1)
    exact ⟨h, b, e3, by rw [e2]; exact eq_comm⟩

/-- C29, on the implementation: `SafeValuesEqual` gives the same answer and does not advance the values: both
can be copied completely after it.  Missing: as for `C29_equal_partial`. -/
theorem C29_safe_partial {ε : Type} {S : Bytes → Prop} (hS : Sharp S) (ls : Nat → Look) (vs : List JVal) (n : Nat) (v w : JVal)
    (hv : vs[n]? = some v) (d d' : Data) (hd : Den v d) (hd' : Den w d') (nv : NumsIn S v) (nw : NumsIn S w) (f : Nat)
    (hf : v.toks.length ≤ f) (hf' : w.toks.length ≤ f) :
    ∃ h b, ((skim (fun n => (ls n).prog) n).bind fun _ => withBoth false w.toks fun x y =>
        (safeEqual (valEqual f) x y).bind fun b => .op (.copy x) fun (ts : List Token) => .op (.copy y) fun (ts' : List Token) =>
          .ret (b, ts, ts') : IProg ε _).run Heap.mach (Heap.init (streamToks vs)) = ([], .ok (h, (b, v.toks, w.toks))) ∧
      (b = true ↔ d = d') := by
  obtain ⟨s, x, y, e, hw, hx, hy, hxy⟩ := run_both (ε := ε) (α := Bool × List Token × List Token) ls vs n v hv w false
  obtain ⟨s1, b, e1, e2, w1, f1, x1, y1⟩ := safeEqual_run (valEqual_run (ε := ε) hS.by f v w d d' ⟨hf, nv⟩ ⟨hf', nw⟩ hd hd') hw hx hy hxy
  obtain ⟨s2, e3, l2, k2⟩ := copy_fresh w1.links x1
  have y2 := fresh_keep y1 k2 (fun j hj => ⟨y1.lt j hj, fun e => hxy j e hj⟩)
  obtain ⟨s3, e4, l3, k3⟩ := copy_fresh l2 y2
  refine exists_comm.1 ⟨b, ?_⟩
  suffices hh : ∃ h, _ from hh.imp fun h e5 => ⟨e5, e2⟩
  refine top_run (s' := s3) ?_
  rw [e, run_ok_bind e1, arun_op e3, arun_op e4]
  rfl

/-- The number is in the range of IEEE 754 double precision. -/
def InRange64 (b : Bytes) : Prop := F64.Within64 (decimal b)

/-- Number literals in the range of IEEE 754 double precision have the values of the nearest numbers of this precision. -/
def Double (val : Bytes → Rat) : Prop := ∀ b, InRange64 b → F64.Nearest64 (decimal b) (val b)

/-- There is one such function, on literals in range. -/
def nearest64 (b : Bytes) : Rat := (F64.round (decimal b)).getD 0

theorem double_nearest : Double nearest64 := by
  intro b h
  obtain ⟨r, hr⟩ := (F64.round_within _).2 h
  unfold nearest64
  rw [hr]
  exact F64.round_nearest hr

theorem Double.round {val : Bytes → Rat} (h : Double val) {b : Bytes} (hb : InRange64 b) : F64.round (decimal b) = some (val b) :=
  F64.round_iff.2 ⟨hb, h b hb⟩

theorem sharp_double {val : Bytes → Rat} (h : Double val) : SharpBy val InRange64 := by
  intro a b ha hb e1 e2 _
  exact ⟨val a, val b, by rw [number_ok e1, h.round ha], by rw [number_ok e2, h.round hb], Iff.rfl⟩

/-- C29, on the implementation: what `Equal` says of all values with numbers in the range of `float64`: they are equal if and only if they denote
the same data up to the rounding of numbers to the nearest `float64`.  Missing: numbers out of this range and strings with invalid
escapes (`C29_violated_panic`). -/
theorem C29_rounded_partial {ε : Type} {val : Bytes → Rat} (hval : Double val) (ls : Nat → Look) (vs : List JVal) (n : Nat) (v w : JVal)
    (hv : vs[n]? = some v) (d d' : Data) (hd : DenBy val v d) (hd' : DenBy val w d') (nv : NumsIn InRange64 v)
    (nw : NumsIn InRange64 w) (f : Nat) (hf : v.toks.length ≤ f) (hf' : w.toks.length ≤ f) (swap : Bool) :
    ∃ h b, ((skim (fun n => (ls n).prog) n).bind fun _ => withBoth swap w.toks (valEqual f) : IProg ε Bool).run Heap.mach
      (Heap.init (streamToks vs)) = ([], .ok (h, b)) ∧ (b = true ↔ d = d') := by
  obtain ⟨s, x, y, e, hw, hx, hy, hxy⟩ := run_both (ε := ε) (α := Bool) ls vs n v hv w swap
  cases swap with
  | false =>
    obtain ⟨s', b, e1, e2, -⟩ := valEqual_run (ε := ε) (sharp_double hval) f v w d d' ⟨hf, nv⟩ ⟨hf', nw⟩ hd hd' s x y hw hx hy hxy
    obtain ⟨h, e3⟩ := top_run ((e (valEqual f)).trans e1)
    exact ⟨h, b, e3, e2⟩
  | true =>
    obtain ⟨s', b, e1, e2, -⟩ := valEqual_run (ε := ε) (sharp_double hval) f w v d' d ⟨hf', nw⟩ ⟨hf, nv⟩ hd' hd s x y hw hx hy hxy
    obtain ⟨h, e3⟩ := top_run ((e (valEqual f)).trans e1)
    exact ⟨h, b, e3, by rw [e2]; exact eq_comm⟩

/-- Integers of up to 15 digits. -/
def ShortInt (b : Bytes) : Prop := ∃ ds, (b = ds ∨ b = 0x2D :: ds) ∧ ds.length ≤ 15 ∧ Rfc8259.IntPart ds

theorem digitsVal_bound (ds : Bytes) (h : ∀ x ∈ ds, isDig x = true) : digitsVal ds < 10 ^ ds.length := by
  have gen : ∀ (ds : Bytes) (n m : Nat), (∀ x ∈ ds, isDig x = true) → n < 10 ^ m →
      ds.foldl (fun n d => 10 * n + (d.toNat - 0x30)) n < 10 ^ (m + ds.length) := by
    intro ds
    induction ds with
    | nil => intro n m _ h; exact h
    | cons x l ih =>
      intro n m h hn
      have hx := h x (by simp)
      simp only [isDig, Bool.and_eq_true, decide_eq_true_eq, UInt8.le_iff_toNat_le] at hx
      have := ih (10 * n + (x.toNat - 0x30)) (m + 1) (fun y hy => h y (by simp [hy])) (by
        have : (0x39 : UInt8).toNat = 57 := rfl
        rw [Nat.pow_succ]; omega)
      have e : m + 1 + l.length = m + (x :: l).length := by simp; omega
      rw [e] at this
      exact this
  have := gen ds 0 0 h (by simp)
  rw [Nat.zero_add] at this
  exact this

theorem decimal_short {b : Bytes} (h : ShortInt b) : ∃ z : Int, decimal b = (z : Rat) ∧ z.natAbs < 2 ^ 53 := by
  obtain ⟨ds, hb, hlen, hi⟩ := h
  have hne : ds ≠ [] := by
    rcases hi with rfl | ⟨d, ds, _, _, _, rfl⟩ <;> simp
  have hd : ∀ x ∈ ds, isDig x = true := by
    rcases hi with rfl | ⟨d, ds, h1, h2, h3, rfl⟩
    · decide
    · intro x hx
      rcases List.mem_cons.1 hx with rfl | hx
      · exact isDig_iff.2 ⟨UInt8.le_trans (by decide : (0x30 : UInt8) ≤ 0x31) h1, h2⟩
      · exact isDig_iff.2 (h3 x hx)
  have ht : ds.takeWhile isDig = ds := by
    clear hb hne hlen hi
    induction ds with
    | nil => rfl
    | cons x l ih => simp [List.takeWhile_cons, hd x (by simp), ih (fun y hy => hd y (by simp [hy]))]
  have hdr : ds.dropWhile isDig = [] := by
    clear hb hne hlen ht hi
    induction ds with
    | nil => rfl
    | cons x l ih => simp [List.dropWhile_cons, hd x (by simp), ih (fun y hy => hd y (by simp [hy]))]
  have ha : absVal ds = ((digitsVal ds : Int) : Rat) := by
    unfold absVal
    simp only [ht, hdr, fracOf, expVal, List.append_nil, List.length_nil]
    show _ * (10 : Rat) ^ (0 : Int) = _
    rw [Rat.zpow_zero, Rat.mul_one]
    rfl
  have hlt : digitsVal ds < 2 ^ 53 := by
    have h1 := digitsVal_bound ds hd
    have h2 : 10 ^ ds.length ≤ 10 ^ 15 := Nat.pow_le_pow_right (by omega) hlen
    have h3 : 10 ^ 15 < 2 ^ 53 := by decide
    omega
  rcases hb with rfl | rfl
  · refine ⟨digitsVal b, ?_, by simpa using hlt⟩
    cases b with
    | nil => exact absurd rfl hne
    | cons x l =>
      have hx : x ≠ 0x2D := by
        intro e
        have := hd x (by simp)
        rw [e] at this
        exact absurd this (by decide)
      unfold decimal
      split
      · rename_i h; simp only [List.cons.injEq] at h; exact absurd h.1 hx
      · exact ha
  · refine ⟨-(digitsVal ds), ?_, by simpa using hlt⟩
    show -absVal ds = _
    rw [ha]
    simp

theorem number_short {b : Bytes} (h : ShortInt b) : Rfc8259.Number b := by
  obtain ⟨ds, hb | hb, _, hi⟩ := h
  · exact ⟨[], ds, [], [], .inl rfl, hi, .inl rfl, .inl rfl, by simp [hb]⟩
  · exact ⟨[0x2D], ds, [], [], .inr rfl, hi, .inl rfl, .inl rfl, by simp [hb]⟩

/-- Numbers that are integers of up to 15 digits are no problem. -/
theorem sharp_short : Sharp ShortInt := by
  intro a b ha hb _
  obtain ⟨z, e1, h1⟩ := decimal_short ha
  obtain ⟨z', e2, h2⟩ := decimal_short hb
  refine ⟨z, z', ?_, ?_, ?_⟩
  · rw [number_ok (number_short ha), e1]; exact F64.round_int z h1
  · rw [number_ok (number_short hb), e2]; exact F64.round_int z' h2
  · intro e; rw [e1, e2]; exact e

/-- Comparing the scalar of the input with a scalar. -/
theorem scalars_run (a b : Scalar) :
    ((withBoth false (JVal.scalar b).toks (valEqual 1) : IProg Token Bool).run Heap.mach
      (Heap.init (streamToks [.scalar a]))).2.map Prod.snd =
    match scalarEqual a b with
    | some r => .ok r
    | none => .error .panic := by
  show Except.map Prod.snd (IProg.run Heap.mach (match scalarEqual a b with | none => .fail .panic | some c => .ret c) _).2 = _
  cases scalarEqual a b <;> rfl

/-- A number. -/
private def num (b : Bytes) : Scalar := ⟨b, .num, false, false, false⟩

/-- A string. -/
private def str (b : Bytes) : Scalar := ⟨b, .str, false, false, false⟩

/-- C29 is false: different numbers are equal if they are rounded to the same `float64`. -/
theorem C29_violated :
    ((withBoth false (JVal.scalar (num b%"9007199254740993")).toks (valEqual 1) : IProg Token Bool).run Heap.mach
      (Heap.init (streamToks [.scalar (num b%"9007199254740992")]))).2.map Prod.snd = .ok true ∧
    decimal b%"9007199254740992" ≠ decimal b%"9007199254740993" := by
  refine ⟨?_, by decide +kernel⟩
  have e : scalarEqual (num b%"9007199254740992") (num b%"9007199254740993") = some true := by decide +kernel
  rw [scalars_run, e]

/-- C29 is false: comparing different numbers that are out of the range of `float64` panics, and so does comparing
strings with an invalid escape, which the JSON decoder accepts. -/
theorem C29_violated_panic :
    ((withBoth false (JVal.scalar (num b%"1e999")).toks (valEqual 1) : IProg Token Bool).run Heap.mach
      (Heap.init (streamToks [.scalar (num b%"1e1000")]))).2.map Prod.snd = .error .panic ∧
    ((withBoth false (JVal.scalar (str b%"\"a\"")).toks (valEqual 1) : IProg Token Bool).run Heap.mach
      (Heap.init (streamToks [.scalar (str b%"\"\\q\"")]))).2.map Prod.snd = .error .panic := by
  have e1 : scalarEqual (num b%"1e1000") (num b%"1e999") = none := by decide +kernel
  have e2 : scalarEqual (str b%"\"\\q\"") (str b%"\"a\"") = none := by decide +kernel
  rw [scalars_run, scalars_run, e1, e2]
  exact ⟨rfl, rfl⟩

/-- Non-vacuity of `C29_rounded_partial`: the numbers of `C29_violated` are equal, because both are rounded to 2^53, and 1e0 is equal to 1. -/
example : nearest64 b%"9007199254740993" = 9007199254740992 ∧ nearest64 b%"9007199254740992" = 9007199254740992 ∧
    InRange64 b%"9007199254740993" ∧ nearest64 b%"1e0" = nearest64 b%"1" ∧ ¬ InRange64 b%"1e999" := by
  refine ⟨by decide +kernel, by decide +kernel, (F64.round_within _).1 ⟨9007199254740992, by decide +kernel⟩, by decide +kernel, ?_⟩
  intro h
  obtain ⟨q, h⟩ := (F64.round_within _).2 h
  have : F64.round (decimal b%"1e999") = none := by decide +kernel
  rw [this] at h
  cases h

section NonVacuity

private def left : JVal :=
  .obj [(str b%"\"a\"", .scalar (num b%"-12")), (str b%"\"b\"", .arr [.scalar (num b%"2")] false)] false
private def right : JVal :=
  .obj [(str b%"\"b\"", .arr [.scalar (num b%"2")] false), (str b%"\"\\u0061\"", .scalar (num b%"-12"))] false

private theorem isA : StrIs (str b%"\"a\"") b%"a" :=
  ⟨rfl, b%"a", rfl, .char (r := 0x61) (by decide) (by unfold UScalar; decide) (by decide) (by decide) .nil, fun e => nomatch e⟩
private theorem isB : StrIs (str b%"\"b\"") b%"b" :=
  ⟨rfl, b%"b", rfl, .char (r := 0x62) (by decide) (by unfold UScalar; decide) (by decide) (by decide) .nil, fun e => nomatch e⟩
private theorem isA' : StrIs (str b%"\"\\u0061\"") b%"a" :=
  ⟨rfl, b%"\\u0061", rfl, .hex (h := b%"0061") (n := 0x61) ⟨_, _, _, _, 0, 0, 6, 1, rfl, rfl, rfl, rfl, rfl, rfl⟩ (by unfold UScalar; decide) .nil, fun e => nomatch e⟩
private theorem den2 : Den (.arr [.scalar (num b%"2")] false) (.arr [.num (decimal b%"2")]) :=
  .arr (.cons (.num rfl ⟨[], b%"2", [], [], .inl rfl, .inr ⟨0x32, [], by decide, by decide, by simp, rfl⟩, .inl rfl, .inl rfl, rfl⟩) .nil)
private theorem den12 : Den (.scalar (num b%"-12")) (.num (decimal b%"-12")) :=
  .num rfl ⟨b%"-", b%"12", [], [], .inr rfl, .inr ⟨0x31, b%"2", by decide, by decide, by unfold Rfc8259.Digit; decide, rfl⟩,
    .inl rfl, .inl rfl, rfl⟩

/-- `{"a":-12,"b":[2]}` and `{"b":[2],"\u0061":-12}` are equal. -/
example : ∃ h, (withBoth false right.toks (valEqual 20) : IProg Token Bool).run Heap.mach (Heap.init (streamToks [left])) =
    ([], .ok (h, true)) := by
  have s1 : ShortInt b%"-12" := ⟨b%"12", .inr rfl, by decide, .inr ⟨0x31, b%"2", by decide, by decide, by unfold Rfc8259.Digit; decide, rfl⟩⟩
  have s2 : ShortInt b%"2" := ⟨b%"2", .inl rfl, by decide, .inr ⟨0x32, [], by decide, by decide, by simp, rfl⟩⟩
  have nums : ∀ v : JVal, (∀ t ∈ v.toks, t ∈ left.toks ++ right.toks) → NumsIn ShortInt v := by
    intro v hv k hk ht
    have := hv _ hk
    revert k
    have all : ∀ t ∈ left.toks ++ right.toks, ∀ k, t = .scalar k → k.type = .num → k = num b%"-12" ∨ k = num b%"2" := by
      intro t ht k e h
      subst e
      have : (left.toks ++ right.toks).all (fun t => match t with
          | .scalar k => k.type != .num || k == num b%"-12" || k == num b%"2"
          | _ => true) = true := by decide
      have := List.all_eq_true.1 this _ ht
      simpa [h] using this
    intro k hk ht hm
    rcases all _ hm k rfl ht with rfl | rfl
    · exact s1
    · exact s2
  obtain ⟨h, b, e1, e2⟩ := C29_equal_partial (ε := Token) sharp_short (fun _ => .discard) [left] 0 left right rfl _ _
    (.obj (.cons isA den12 (.cons isB den2 .nil)) (by decide)) (.obj (.cons isB den2 (.cons isA' den12 .nil)) (by decide))
    (nums _ (by simp; intro t; exact .inl)) (nums _ (by simp; intro t; exact .inr)) 20 (by decide) (by decide) false
  have : b = true := e2.2 (by
    congr 1
    funext x
    simp only [assoc]
    by_cases h1 : x = b%"a"
    · subst h1; rfl
    · rw [if_neg h1, if_neg h1])
  rw [this] at e1
  exact ⟨h, e1⟩

end NonVacuity

end Verif
