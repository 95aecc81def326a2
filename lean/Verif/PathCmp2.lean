import Verif.PathCmp
import Verif.PathDen
import Verif.EqualObj
import Verif.StrOrder

/-!
# Comparisons

What the programs for comparisons do.
-/

set_option linter.unusedSimpArgs false
set_option linter.unusedVariables false

namespace Verif

namespace AState

/-- A handle on a thread of its own is not changed when it is cloned. -/
theorem clone_still {s s' : AState} {k : Kind} {i : Nat} {p : Val × Option Nat} (ht : (s.coll i).thr ≠ 0)
    (h : s.step (.clone (.coll k i)) = .ok (s', p)) (hi : i < s.n) : s'.coll i = s.coll i := by
  have h : (s.clone (.coll k i)).map (fun (s, v, t) => (s, (v, t))) = .ok (s', p) := h
  unfold clone at h
  simp only at h
  split at h
  · cases h
  · split at h
    · cases h
    · split at h
      · simp only [Except.map, Except.ok.injEq, Prod.mk.injEq] at h
        rw [← h.1]; exact AInv.alloc_old hi
      · first
        | rw [if_neg ht] at h
        | skip
        simp only [Except.map, Except.ok.injEq, Prod.mk.injEq] at h
        rw [← h.1]
        exact AInv.alloc_old hi

/-- `Clone`; only what is read from the input is changed. -/
theorem clone_mod' {s : AState} {x : Val} {v : JVal} (hw : WF s) (h : Fresh s x v) :
    ∃ s' p, s.step (.clone x) = .ok (s', p) ∧ Mod (fun j => x.idx = some j ∧ (s.coll j).thr = 0) s s' ∧ Fresh s' x v ∧ Owned s' p v ∧
      (∀ j, p.1.idx = some j → s.n ≤ j ∧ s.nt ≤ (s'.coll j).thr) := by
  obtain ⟨s', p, e1, e2, e3, e4, e5⟩ := clone_mod hw h
  obtain ⟨-, he⟩ : _ ∧ Eff (fun j => x.idx = some j) (fun _ => False) s s' := ⟨trivial, eff_clone hw h e1⟩
  refine ⟨s', p, e1, .of_eff e2.wf ⟨he.n, he.nt, ?_, he.dead, he.det, ?_, he.cur⟩, e3, e4, e5⟩
  · intro j hj hn
    by_cases hx : x.idx = some j
    · cases x with
      | scalar k => cases hx
      | coll k i =>
        cases hx
        exact clone_still (fun e => hn ⟨rfl, e⟩) e1 hj
    · exact he.coll j hj hx
  · intro j hj
    by_cases hjn : j < s.n
    · by_cases hx : x.idx = some j ∧ (s.coll j).thr = 0
      · rcases he.thr j hj with h1 | ⟨g, h1, h2, h3⟩
        · exact .inl h1
        · refine .inr ⟨g, h1, ?_, h3⟩
          rcases h2 with h2 | h2
          · exact .inl ⟨h2, by rw [hx.1] at h2; cases h2; exact hx.2⟩
          · exact .inr h2
      · refine .inr ⟨j, hjn, .inr rfl, ?_⟩
        by_cases hx' : x.idx = some j
        · cases x with
          | scalar k => cases hx'
          | coll k i =>
            cases hx'
            rw [clone_still (fun e => hx ⟨rfl, e⟩) e1 hjn]
        · rw [he.coll j hjn hx']
    · -- the new handle
      left
      cases x with
      | scalar k =>
        have e1 : Except.ok (s, (Val.scalar k, none)) = Except.ok (s', p) := e1
        simp only [Except.ok.injEq, Prod.mk.injEq] at e1
        rw [← e1.1] at hj; omega
      | coll k i =>
        obtain ⟨y, d⟩ := p
        obtain ⟨-, hb⟩ := h.before rfl
        obtain ⟨u, g1, g2, g3, g4⟩ := clone_thr hb.lt hb.alive e1
        have hn : s'.n = s.n + 1 := by
          have hc : s.step (.clone (.coll k i)) = (s.clone (.coll k i)).map fun (s, v, t) => (s, (v, t)) := rfl
          rw [hc] at e1
          unfold clone at e1
          simp only [hb.alive] at e1
          split at e1
          · cases e1
          · split at e1
            · cases e1
            · split at e1
              · simp at *
              · split at e1
                · split at e1
                  · cases e1
                  · simp only [Except.map, Except.ok.injEq, Prod.mk.injEq] at e1
                    rw [← e1.1]; rfl
                · simp only [Except.map, Except.ok.injEq, Prod.mk.injEq] at e1
                  rw [← e1.1]; rfl
        have : j = s.n := by omega
        subst this
        rw [g3]; exact g2

end AState

namespace JPath
open AState IProg GoJson

variable {ε : Type} {C : Nat → Prop} {J : AState → Prop} {G : JVal → Prop}

/-- The program computes the value, which is in `H`, without changing more than its argument.  The value is new or comes from the argument
or, if `B`, from the context. -/
def CmpOk (C : Nat → Prop) (J : AState → Prop) (G H : JVal → Prop) (B : Prop) (c : CmpP ε) (p : JVal → Option JVal) : Prop :=
  (∀ v w, G v → p v = some w → H w) ∧
  ∀ s x v, WF s → J s → Fresh s x v → G v → (∀ j, x.idx = some j → ¬ C j) →
    ∃ s' y, (c x).run AState.mach s = ([], .ok (s', y)) ∧ Mod (fun j => x.idx = some j) s s' ∧
      Got s' (fun j => s.n ≤ j ∨ x.idx = some j ∨ (B ∧ C j ∧ (s'.coll j).thr ≠ 0)) y (p v)

/-- Literals among `S` are converted, and converted numbers compare as the values `val` do. -/
def Ordered (val : Bytes → Rat) (S : Bytes → Prop) : Prop :=
  ∀ a b, S a → S b → Rfc8259.Number a → Rfc8259.Number b →
    ∃ p q, number a = some p ∧ number b = some q ∧ (p = q ↔ val a = val b) ∧ (p < q ↔ val a < val b)

theorem Ordered.sharp {val : Bytes → Rat} {S : Bytes → Prop} (h : Ordered val S) : SharpBy val S := by
  intro a b ha hb na nb _
  obtain ⟨p, q, h1, h2, h3, -⟩ := h a b ha hb na nb
  exact ⟨p, q, h1, h2, h3⟩

/-- What is needed to compare a value. -/
def Good (val : Bytes → Rat) (S : Bytes → Prop) (F : Nat) (v : JVal) : Prop := ∃ d, DenBy val v d ∧ v.toks.length ≤ F ∧ NumsIn S v

/-- What a comparison with these flags means. -/
def flagsHold (eq lt neg : Bool) (a b : Option Data) : Prop := ((eq = true ∧ a = b) ∨ (lt = true ∧ Rfc9535.Less a b)) ↔ neg = false

/-- An operand. -/
def Oper (val : Bytes → Rat) (S : Bytes → Prop) (F : Nat) (s : AState) (x : Option Val) (o : Option JVal) : Prop :=
  Got s (fun _ => True) x o ∧ ∀ w, o = some w → Good val S F w

theorem strLt_ok {a b : Scalar} {s t : Bytes} (ha : StrIs a s) (hb : StrIs b t) : bytesLt s t = true ↔ Rfc9535.StrLt s t := by
  obtain ⟨cs, h1⟩ := ha.chars
  obtain ⟨ds, h2⟩ := hb.chars
  rw [bytesLt_chars h1 h2]
  constructor
  · intro h; exact ⟨cs, ds, h1, h2, h⟩
  · rintro ⟨cs', ds', h3, h4, h⟩
    rw [h1.unique h3, h2.unique h4]; exact h

/-- The order of scalars. -/
theorem lessScalar_ok {val : Bytes → Rat} {S : Bytes → Prop} (hS : Ordered val S) {a b : Scalar} {d d' : Data} (ha : DenBy val (.scalar a) d) (hb : DenBy val (.scalar b) d')
    (na : NumsIn S (.scalar a)) (nb : NumsIn S (.scalar b)) :
    ∃ c, checkLess (some (.scalar a)) (some (.scalar b)) = some c ∧ (c = true ↔ Rfc9535.Less (some d) (some d')) := by
  have ne : ∀ {a b : Scalar}, a.type ≠ b.type → checkLess (some (.scalar a)) (some (.scalar b)) = some false := by
    intro a b h; simp only [checkLess]; rw [if_pos h]
  cases ha with
  | null h1 =>
    cases hb with
    | null h2 => refine ⟨false, ?_, by simp [Rfc9535.Less]⟩; simp only [checkLess]; rw [if_neg (by simp [h1, h2]), h1]
    | bool h2 _ => exact ⟨false, ne (by simp [h1, h2]), by simp [Rfc9535.Less]⟩
    | num h2 _ => exact ⟨false, ne (by simp [h1, h2]), by simp [Rfc9535.Less]⟩
    | str h2 => exact ⟨false, ne (by simp [h1, h2.1]), by simp [Rfc9535.Less]⟩
  | bool h1 e1 =>
    cases hb with
    | null h2 => exact ⟨false, ne (by simp [h1, h2]), by simp [Rfc9535.Less]⟩
    | bool h2 e2 => refine ⟨false, ?_, by simp [Rfc9535.Less]⟩; simp only [checkLess]; rw [if_neg (by simp [h1, h2]), h1]
    | num h2 _ => exact ⟨false, ne (by simp [h1, h2]), by simp [Rfc9535.Less]⟩
    | str h2 => exact ⟨false, ne (by simp [h1, h2.1]), by simp [Rfc9535.Less]⟩
  | num h1 e1 =>
    cases hb with
    | null h2 => exact ⟨false, ne (by simp [h1, h2]), by simp [Rfc9535.Less]⟩
    | bool h2 _ => exact ⟨false, ne (by simp [h1, h2]), by simp [Rfc9535.Less]⟩
    | num h2 e2 =>
      obtain ⟨p, q, hp, hq, -, hlt⟩ := hS _ _ (na a (by simp) h1) (nb b (by simp) h2) e1 e2
      refine ⟨decide (p < q), ?_, by simp only [decide_eq_true_eq, Rfc9535.Less]; exact hlt⟩
      simp only [checkLess]
      rw [if_neg (by simp [h1, h2]), h1]
      simp only [hp, hq]
    | str h2 => exact ⟨false, ne (by simp [h1, h2.1]), by simp [Rfc9535.Less]⟩
  | str h1 =>
    cases hb with
    | null h2 => exact ⟨false, ne (by simp [h1.1, h2]), by simp [Rfc9535.Less]⟩
    | bool h2 _ => exact ⟨false, ne (by simp [h1.1, h2]), by simp [Rfc9535.Less]⟩
    | num h2 _ => exact ⟨false, ne (by simp [h1.1, h2]), by simp [Rfc9535.Less]⟩
    | str h2 =>
      refine ⟨_, ?_, strLt_ok h1 h2⟩
      simp only [checkLess]
      rw [if_neg (by simp [h1.1, h2.1]), h1.1]
      simp only [strIs_unquote h1, strIs_unquote h2]

theorem less_none (a : Option Data) : ¬ Rfc9535.Less a none := by
  cases a with
  | none => exact id
  | some d => cases d <;> exact id

theorem den_coll {val : Bytes → Rat} {v : JVal} {d : Data} (h : DenBy val v d) (hv : ∀ k, v ≠ .scalar k) : (∃ l, d = .arr l) ∨ ∃ m, d = .obj m := by
  cases h with
  | null _ => exact absurd rfl (hv _)
  | bool _ _ => exact absurd rfl (hv _)
  | num _ _ => exact absurd rfl (hv _)
  | str _ => exact absurd rfl (hv _)
  | arr _ => exact .inl ⟨_, rfl⟩
  | obj _ _ => exact .inr ⟨_, rfl⟩

theorem checkLess_ok {val : Bytes → Rat} {S : Bytes → Prop} (hS : Ordered val S) {F : Nat} {s : AState} {x y : Option Val} {o o' : Option JVal} (hx : Oper val S F s x o)
    (hy : Oper val S F s y o') :
    ∃ c, checkLess x y = some c ∧ (c = true ↔ Rfc9535.Less (o.bind (Rfc9535.dataOf val)) (o'.bind (Rfc9535.dataOf val))) := by
  obtain ⟨hx, gx⟩ := hx
  obtain ⟨hy, gy⟩ := hy
  cases o with
  | none =>
    cases hx
    exact ⟨false, by simp [checkLess], by simp [Rfc9535.Less]⟩
  | some v =>
    obtain ⟨x, rfl, fx, -⟩ := hx
    obtain ⟨d, dx, -, nx⟩ := gx v rfl
    cases o' with
    | none =>
      cases hy
      exact ⟨false, by cases x <;> rfl, by simp [less_none]⟩
    | some w =>
      obtain ⟨y, rfl, fy, -⟩ := hy
      obtain ⟨d', dy, -, ny⟩ := gy w rfl
      simp only [Option.bind_some, dx.dataOf, dy.dataOf]
      have nl : ∀ {d : Data} d', (∃ l, d = .arr l) ∨ (∃ m, d = .obj m) → ¬ Rfc9535.Less (some d) (some d') := by
        rintro d d' (⟨l, rfl⟩ | ⟨m, rfl⟩) <;> exact id
      have nr : ∀ d {d' : Data}, (∃ l, d' = .arr l) ∨ (∃ m, d' = .obj m) → ¬ Rfc9535.Less (some d) (some d') := by
        rintro d d' (⟨l, rfl⟩ | ⟨m, rfl⟩) <;> cases d <;> exact id
      cases x with
      | coll k i =>
        refine ⟨false, by simp [checkLess], ?_⟩
        have := nl d' (den_coll dx (by rintro k' rfl; cases fx))
        simp [this]
      | scalar a =>
        cases y with
        | coll k i =>
          refine ⟨false, by simp [checkLess], ?_⟩
          have := nr d (den_coll dy (by rintro k' rfl; cases fy))
          simp [this]
        | scalar b =>
          have ev : v = .scalar a := by
            cases v with
            | scalar k => have fx : Val.scalar a = .scalar k := fx; cases fx; rfl
            | arr _ _ => obtain ⟨i, _, e, _⟩ := fx; cases e
            | obj _ _ => obtain ⟨i, _, e, _⟩ := fx; cases e
          have ew : w = .scalar b := by
            cases w with
            | scalar k => have fy : Val.scalar b = .scalar k := fy; cases fy; rfl
            | arr _ _ => obtain ⟨i, _, e, _⟩ := fy; cases e
            | obj _ _ => obtain ⟨i, _, e, _⟩ := fy; cases e
          subst ev ew
          exact lessScalar_ok hS dx dy nx ny

/-- The handle of an operand. -/
def oidx (x : Option Val) : Option Nat := x.bind Val.idx

theorem checkEqual_run {val : Bytes → Rat} {S : Bytes → Prop} (hS : Ordered val S) {F : Nat} {s : AState} {x y : Option Val} {o o' : Option JVal} (hw : WF s)
    (hx : Oper val S F s x o) (hy : Oper val S F s y o') (hxy : ∀ h, oidx x = some h → oidx y ≠ some h) :
    ∃ s' b, (checkEqual F x y : IProg ε Bool).run AState.mach s = ([], .ok (s', b)) ∧
      (b = true ↔ o.bind (Rfc9535.dataOf val) = o'.bind (Rfc9535.dataOf val)) ∧ Mod (fun h => oidx x = some h ∨ oidx y = some h) s s' := by
  obtain ⟨hx, gx⟩ := hx
  obtain ⟨hy, gy⟩ := hy
  cases o with
  | none =>
    cases hx
    cases o' with
    | none => cases hy; exact ⟨s, true, rfl, by simp, .refl hw⟩
    | some w =>
      obtain ⟨y, rfl, fy, -⟩ := hy
      obtain ⟨d', dy, -, ny⟩ := gy w rfl
      exact ⟨s, false, rfl, by simp [dy.dataOf], .refl hw⟩
  | some v =>
    obtain ⟨x, rfl, fx, -⟩ := hx
    obtain ⟨d, dx, lx, nx⟩ := gx v rfl
    cases o' with
    | none => cases hy; exact ⟨s, false, rfl, by simp [dx.dataOf], .refl hw⟩
    | some w =>
      obtain ⟨y, rfl, fy, -⟩ := hy
      obtain ⟨d', dy, ly, ny⟩ := gy w rfl
      simp only [Option.bind_some, dx.dataOf, dy.dataOf]
      obtain ⟨s', b, e1, e2, e3, e4, -⟩ := valEqual_run (ε := ε) hS.sharp F v w d d' ⟨lx, nx⟩ ⟨ly, ny⟩ dx dy s x y hw fx fy hxy
      exact ⟨s', b, e1, by rw [e2]; simp, .of_eff e3 e4⟩

open Classical in
theorem compareVals_run {val : Bytes → Rat} {S : Bytes → Prop} (hS : Ordered val S) {F : Nat} (eq lt neg : Bool) {s : AState} {x y : Option Val} {o o' : Option JVal} (hw : WF s)
    (hx : Oper val S F s x o) (hy : Oper val S F s y o') (hxy : ∀ h, oidx x = some h → oidx y ≠ some h) :
    ∃ s', (compareVals F eq lt neg x y : IProg ε Bool).run AState.mach s =
        ([], .ok (s', decide (flagsHold eq lt neg (o.bind (Rfc9535.dataOf val)) (o'.bind (Rfc9535.dataOf val))))) ∧
      Mod (fun h => oidx x = some h ∨ oidx y = some h) s s' := by
  obtain ⟨c, h1, h2⟩ := checkLess_ok hS hx hy
  have heq : ∃ s' b, (if eq then checkEqual F x y else .ret false : IProg ε Bool).run AState.mach s = ([], .ok (s', b)) ∧
      (b = true ↔ eq = true ∧ o.bind (Rfc9535.dataOf val) = o'.bind (Rfc9535.dataOf val)) ∧ Mod (fun h => oidx x = some h ∨ oidx y = some h) s s' := by
    cases eq with
    | false => exact ⟨s, false, rfl, by simp, .refl hw⟩
    | true =>
      obtain ⟨s', b, e1, e2, e3⟩ := checkEqual_run (ε := ε) hS hw hx hy hxy
      exact ⟨s', b, e1, by simpa using e2, e3⟩
  obtain ⟨s', b, e1, e2, e3⟩ := heq
  refine ⟨s', ?_, e3⟩
  generalize o'.bind (Rfc9535.dataOf val) = a' at *
  generalize o.bind (Rfc9535.dataOf val) = a at *
  unfold compareVals
  rw [run_ok_bind e1]
  have hf : flagsHold eq lt neg a a' ↔ ((b = true ∨ (lt = true ∧ c = true)) ↔ neg = false) := by
    unfold flagsHold
    rw [← e2, ← h2]
  by_cases hc : (!b && lt) = true
  · rw [if_pos hc]
    simp only [h1]
    simp only [Bool.and_eq_true, Bool.not_eq_true'] at hc
    show ([], Except.ok (s', c != neg)) = _
    congr 3
    rw [Bool.eq_iff_iff, decide_eq_true_iff, hf, hc.1, hc.2]
    cases c <;> cases neg <;> simp
  · rw [if_neg hc]
    show ([], Except.ok (s', b != neg)) = _
    congr 3
    rw [Bool.eq_iff_iff, decide_eq_true_iff, hf]
    cases b <;> cases lt <;> cases neg <;> simp at hc ⊢

/-- What `cloneOpt` returns. -/
def OwnedO (s : AState) (q : Option Val × Option Nat) (o : Option JVal) : Prop :=
  match o with
  | none => q = (none, none)
  | some w => ∃ p : Val × Option Nat, q = (some p.1, p.2) ∧ Owned s p w

theorem OwnedO.got {s : AState} {q} {o} (h : OwnedO s q o) : Got s (fun _ => True) q.1 o := by
  cases o with
  | none => have h : q = (none, none) := h; rw [h]; rfl
  | some w => obtain ⟨p, rfl, ho⟩ := h; exact ⟨p.1, rfl, ho.fresh, fun _ _ => trivial⟩

theorem OwnedO.same {s : AState} {q} {o} (h : OwnedO s q o) : ∃ p v, p.2 = q.2 ∧ p.1.idx = oidx q.1 ∧ Owned s p v := by
  cases o with
  | none =>
    have h : q = (none, none) := h
    subst h
    exact ⟨(.scalar (stringScalar []), none), .scalar (stringScalar []), rfl, rfl, ⟨rfl, fun j (hj : none = some j) => (by cases hj), fun _ => rfl⟩⟩
  | some w => obtain ⟨p, rfl, ho⟩ := h; exact ⟨p, w, rfl, rfl, ho⟩

theorem OwnedO.mod {F : Nat → Prop} {s s' : AState} {q} {o} (h : Mod F s s') (hw : WF s) (ho : OwnedO s q o) (hF : ∀ i, oidx q.1 = some i → ¬ F i) :
    OwnedO s' q o := by
  cases o with
  | none => exact ho
  | some w => obtain ⟨p, rfl, ho⟩ := ho; exact ⟨p, rfl, h.owned hw ho hF⟩

theorem Got.lt {s : AState} {P} {y} {o} (h : Got s P y o) : ∀ i, oidx y = some i → i < s.n ∧ P i := by
  cases o with
  | none => have h : y = none := h; subst h; intro i hi; cases hi
  | some w => obtain ⟨x, rfl, h1, h2⟩ := h; exact fun i hi => ⟨h1.lt i hi, h2 i hi⟩

theorem cloneOpt_run {s : AState} {P} {y : Option Val} {o : Option JVal} (hw : WF s) (h : Got s P y o) :
    ∃ s' q, (cloneOpt y : IProg ε _).run AState.mach s = ([], .ok (s', q)) ∧ Mod (fun j => oidx y = some j ∧ (s.coll j).thr = 0) s s' ∧
      OwnedO s' q o ∧ (∀ j, oidx q.1 = some j → s.n ≤ j) ∧ Got s' P y o := by
  cases o with
  | none => have h : y = none := h; subst h; exact ⟨s, (none, none), rfl, .refl hw, rfl, fun j (hj : none = some j) => (by cases hj), rfl⟩
  | some w =>
    obtain ⟨x, rfl, h1, h2⟩ := h
    obtain ⟨s', p, e1, e2, e3, e4, e5⟩ := clone_mod' hw h1
    refine ⟨s', (some p.1, p.2), ?_, e2, ⟨p, rfl, e4⟩, fun j hj => (e5 j hj).1, ⟨x, rfl, e3, h2⟩⟩
    unfold cloneOpt
    rw [arun_op e1]
    rfl

theorem detachO_mod {F : Nat → Prop} {s s' : AState} {q} {o} (hw : WF s) (h : Mod F s s') (ho : OwnedO s q o)
    (hF : ∀ i, oidx q.1 = some i → F i) :
    ∃ s'', (detachOpt q.2 : IProg ε Unit).run AState.mach s' = ([], .ok (s'', ())) ∧ Mod F s s'' := by
  obtain ⟨p, v, h1, h2, h3⟩ := ho.same
  obtain ⟨s'', e1, e2, -⟩ := detach_mod (ε := ε) hw h h3 (by rw [h2]; exact hF)
  rw [h1] at e1
  exact ⟨s'', e1, e2⟩

theorem fresh_lt {s : AState} {x : Val} {v : JVal} (h : Fresh s x v) (i : Nat) (hi : x.idx = some i) : i < s.n := h.lt i hi

open Classical in
/-- Comparisons. -/
theorem comparison_ok (hFr : Frame C J) {val : Bytes → Rat} {S : Bytes → Prop} (hS : Ordered val S) {F : Nat} {H : JVal → Prop} (hH : ∀ v, H v → Good val S F v) (eq lt neg : Bool)
    {B B' : Prop}
    {left right : CmpP ε} {p q : JVal → Option JVal} (hl : CmpOk C J G H B left p) (hr : CmpOk C J G H B' right q) :
    CondOk C J G (comparison F left eq lt neg right)
      (fun v => decide (flagsHold eq lt neg ((p v).bind (Rfc9535.dataOf val)) ((q v).bind (Rfc9535.dataOf val)))) := by
  intro s x v hw hJ hx hv hxC
  have hxn := fresh_lt hx
  have hCn := hFr.lt hJ
  obtain ⟨s1, p1, e1, m1, f1, o1, n1⟩ := clone_mod hw hx
  have hp1n := fresh_lt o1.fresh
  obtain ⟨s2, p2, e2, m2, f2, o2, n2⟩ := clone_mod m1.wf f1
  have hp2n := fresh_lt o2.fresh
  have o1' : Owned s2 p1 v := m2.owned m1.wf o1 (fun i hi hi' => by have := hxn i hi'; have := (n1 i hi).1; omega)
  have J1 : J s1 := hFr.keep hJ m1 (fun h hc hi => hxC h hi hc)
  have J2 : J s2 := hFr.keep J1 m2 (fun h hc hi => hxC h hi hc)
  have hN1 := m1.n
  have hN2 := m2.n
  obtain ⟨s3, l, e3, m3, g3⟩ := hl.2 s2 p1.1 v m2.wf J2 o1'.fresh hv (fun j hj hc => by have := (n1 j hj).1; have := hCn j hc; omega)
  have hN3 := m3.n
  obtain ⟨s4, lc, e4, m4, o4, n4, -⟩ := cloneOpt_run (ε := ε) m3.wf g3
  have hN4 := m4.n
  have hlc := o4.got.lt
  have J3 : J s3 := hFr.keep J2 m3 (fun h hc hi => by have := (n1 h hi).1; have := hCn h hc; omega)
  have J4 : J s4 := hFr.keep J3 m4 (fun h hc hi => by
    rcases (g3.lt h hi.1).2 with h1 | h1 | h1
    · have := hCn h hc; omega
    · have := (n1 h h1).1; have := hCn h hc; omega
    · exact h1.2.2 hi.2)
  have m24 : Mod (fun j => p1.1.idx = some j) s2 s4 := m3.trans m4 (fun i hi h => by
    rcases (g3.lt i h.1).2 with h1 | h1 | h1
    · omega
    · exact h1
    · exact absurd h.2 h1.2.2)
  have f2' : Fresh s4 p2.1 v := m24.fresh o2.fresh (fun i hi hi' => by have := (n2 i hi).1; have := hp1n i hi'; omega)
  obtain ⟨s5, r, e5, m5, g5⟩ := hr.2 s4 p2.1 v m4.wf J4 f2' hv (fun j hj hc => by have := (n2 j hj).1; have := hCn j hc; omega)
  have hN5 := m5.n
  obtain ⟨s6, rc, e6, m6, o6, n6, -⟩ := cloneOpt_run (ε := ε) m5.wf g5
  have hN6 := m6.n
  have hrc := o6.got.lt
  have m46 : Mod (fun j => p2.1.idx = some j) s4 s6 := m5.trans m6 (fun i hi h => by
    rcases (g5.lt i h.1).2 with h1 | h1 | h1
    · omega
    · exact h1
    · exact absurd h.2 h1.2.2)
  have o4' : OwnedO s6 lc (p v) := OwnedO.mod m46 m4.wf o4 (fun i hi hi' => by have := n4 i hi; have := hp2n i hi'; omega)
  obtain ⟨s7, e7, m7⟩ := compareVals_run (ε := ε) hS (F := F) eq lt neg m6.wf ⟨o4'.got, fun w hw' => hH _ (hl.1 v w hv hw')⟩
    ⟨o6.got, fun w hw' => hH _ (hr.1 v w hv hw')⟩ (fun h h1 h2 => by have := (hlc h h1).1; have := n6 h h2; omega)
  obtain ⟨s8, e8, m8⟩ := detachO_mod (ε := ε) m6.wf m7 o6 (fun i hi => .inr hi)
  have m48 : Mod (fun j => p2.1.idx = some j ∨ oidx lc.1 = some j) s4 s8 :=
    (m46.mono m4.wf (F' := fun j => p2.1.idx = some j ∨ oidx lc.1 = some j) (fun _ _ h => .inl h)).trans m8 (fun i hi h => by
      rcases h with h | h
      · exact .inr h
      · have := n6 i h; omega)
  obtain ⟨s9, e9, m9⟩ := detachO_mod (ε := ε) m4.wf m48 o4 (fun i hi => .inr hi)
  have m29 : Mod (fun j => p1.1.idx = some j ∨ p2.1.idx = some j) s2 s9 :=
    (m24.mono m2.wf (F' := fun j => p1.1.idx = some j ∨ p2.1.idx = some j) (fun _ _ h => .inl h)).trans m9 (fun i hi h => by
      rcases h with h | h
      · exact .inr h
      · have := n4 i h; omega)
  obtain ⟨s10, e10, m10, -⟩ := detach_mod (ε := ε) m2.wf m29 o2 (fun i hi => .inr hi)
  obtain ⟨s11, e11, m11, -⟩ := detach_mod (ε := ε) m2.wf m10 o1' (fun i hi => .inl hi)
  refine ⟨s11, ?_, ?_, ?_⟩
  · unfold comparison
    rw [arun_op e1, arun_op e2]
    rw [run_ok_bind e3, run_ok_bind e4, run_ok_bind e5, run_ok_bind e6, run_ok_bind e7, run_ok_bind e8, run_ok_bind e9, run_ok_bind e10,
      run_ok_bind e11]
    rfl
  · refine (m1.trans m2 (fun _ _ h => h)).trans m11 ?_
    intro i hi h
    rcases h with h | h
    · have := (n1 i h).1; omega
    · have := (n2 i h).1; omega
  · refine m11.fresh f2 ?_
    intro i hi h
    have := hxn i hi
    rcases h with h | h
    · have := (n1 i h).1; omega
    · have := (n2 i h).1; omega

/-! ## Comparables -/

/-- Literals. -/
theorem cmp_lit {H : JVal → Prop} {B : Prop} (k : Scalar) (hk : H (.scalar k)) : CmpOk C J G H B (fun _ => (.ret (some (.scalar k)) : IProg ε _)) (fun _ => some (.scalar k)) :=
  ⟨fun v w _ h => by cases h; exact hk, fun s x v hw _ _ _ _ =>
    ⟨s, some (.scalar k), rfl, .refl hw, ⟨.scalar k, rfl, rfl, fun j hj => by cases hj⟩⟩⟩

/-- Relative singular queries. -/
theorem cmp_sing (hG : Closed G) {F : Nat} (hF : ∀ v, G v → v.toks.length ≤ F) {H : JVal → Prop} (hH : ∀ v, G v → H v) {B : Prop} (segs : List SingSeg) :
    CmpOk C J G H B (fun x => (singEval F segs x : IProg ε _)) (singVal segs) := by
  refine ⟨fun v w hv h => hH _ (singVal_good hG hv h), fun s x v hw _ hx hv _ => ?_⟩
  obtain ⟨s', y, e1, e2, e3⟩ := singEval_run (ε := ε) hG segs s x v hw hx hv (hF v hv)
  exact ⟨s', y, e1, e2, e3.imp (fun j hj => hj.elim .inl (fun h => .inr (.inl h)))⟩

/-- What is found in the context. -/
theorem cmp_ctx {H : JVal → Prop} {B : Prop} {y : Val} {w : JVal} (hy : H w) (hB : B ∨ y.idx = none) (hJ : ∀ s, J s → Fresh s y w ∧ ∀ j, y.idx = some j → C j ∧ (s.coll j).thr ≠ 0) :
    CmpOk C J G H B (fun _ => (.ret (some y) : IProg ε _)) (fun _ => some w) := by
  refine ⟨fun v w' _ h => by cases h; exact hy, fun s x v hw hj _ _ _ => ?_⟩
  obtain ⟨h1, h2⟩ := hJ s hj
  exact ⟨s, some y, rfl, .refl hw, ⟨y, rfl, h1, fun j hj => .inr (.inr ⟨hB.elim id (fun e => by rw [hj] at e; cases e), h2 j hj⟩)⟩⟩

end JPath
end Verif
