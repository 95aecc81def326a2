import Verif.Equality
import Verif.Data
import Verif.IterEff

/-!
# Equality of values: what the programs compute
-/

set_option linter.unusedSimpArgs false
set_option linter.unusedVariables false

namespace Verif
open AState IProg GoJson

theorem strIs_unquote {k : Scalar} {s : Bytes} (h : StrIs k s) : unquote k.bytes = some s := by
  obtain ⟨ht, c, hb, hd, hu⟩ := h
  have : toStr { k with unesc := false } = some s := toStr_ok ⟨ht, c, hb, hd, fun e => nomatch e⟩
  simpa [toStr, ht] using this

/-- Equality of strings. -/
theorem scalarEqual_str {a b : Scalar} {s t : Bytes} (ha : StrIs a s) (hb : StrIs b t) :
    scalarEqual a b = some (decide (s = t)) := by
  have ea := strIs_unquote ha
  have eb := strIs_unquote hb
  unfold scalarEqual
  rw [if_neg (by simp [ha.1, hb.1]), ha.1]
  simp only
  by_cases h : a.bytes = b.bytes
  · rw [if_pos h]
    rw [h, eb] at ea
    simp [Option.some.inj ea]
  · rw [if_neg h]
    by_cases hu : (a.unesc && b.unesc) = true
    · rw [if_pos hu]
      simp only [Bool.and_eq_true] at hu
      obtain ⟨_, c, hc, hd, hn⟩ := ha
      obtain ⟨_, c', hc', hd', hn'⟩ := hb
      have e1 := denotes_plain hd (hn hu.1)
      have e2 := denotes_plain hd' (hn' hu.2)
      have : s ≠ t := by
        rintro rfl
        exact h (by rw [hc, hc', e1, e2])
      simp [this]
    · rw [if_neg hu, ea, eb]

/-- Different literals among `S` are told apart if they denote different numbers, and no conversion
fails. -/
def Sharp (S : Bytes → Prop) : Prop :=
  ∀ a b, S a → S b → a ≠ b → ∃ p q, number a = some p ∧ number b = some q ∧ (p = q → decimal a = decimal b)

/-- The same for other values `val` of the literals. -/
def SharpBy (val : Bytes → Rat) (S : Bytes → Prop) : Prop :=
  ∀ a b, S a → S b → Rfc8259.Number a → Rfc8259.Number b → a ≠ b → ∃ p q, number a = some p ∧ number b = some q ∧ (p = q ↔ val a = val b)

theorem Sharp.by {S : Bytes → Prop} (hS : Sharp S) : SharpBy decimal S := by
  intro a b ha hb e1 e2 h
  obtain ⟨p, q, hp, hq, hpq⟩ := hS a b ha hb h
  refine ⟨p, q, hp, hq, hpq, fun e => ?_⟩
  rw [number_ok e1] at hp
  rw [number_ok e2] at hq
  rw [e, hq] at hp
  exact (Option.some.inj hp).symm

/-- The number literals of a value are among `S`. -/
def NumsIn (S : Bytes → Prop) (v : JVal) : Prop :=
  ∀ k, .scalar k ∈ v.toks → k.type = .num → S k.bytes

/-- Equality of scalars. -/
theorem scalarEqual_ok {val : Bytes → Rat} {S : Bytes → Prop} (hS : SharpBy val S) {a b : Scalar} {d d' : Data} (ha : DenBy val (.scalar a) d)
    (hb : DenBy val (.scalar b) d') (na : NumsIn S (.scalar a)) (nb : NumsIn S (.scalar b)) :
    ∃ c, scalarEqual a b = some c ∧ (c = true ↔ d = d') := by
  have type_ne : ∀ {a b : Scalar}, a.type ≠ b.type → scalarEqual a b = some false := by
    intro a b h; unfold scalarEqual; rw [if_pos h]
  cases ha with
  | null h1 =>
    cases hb with
    | null h2 => refine ⟨true, ?_, by simp⟩; unfold scalarEqual; rw [if_neg (by simp [h1, h2]), h1]
    | bool h2 _ => exact ⟨false, type_ne (by simp [h1, h2]), by simp⟩
    | num h2 _ => exact ⟨false, type_ne (by simp [h1, h2]), by simp⟩
    | str h2 => exact ⟨false, type_ne (by simp [h1, h2.1]), by simp⟩
  | @bool _ x h1 e1 =>
    cases hb with
    | null h2 => exact ⟨false, type_ne (by simp [h1, h2]), by simp⟩
    | @bool _ y h2 e2 =>
      refine ⟨decide (x = y), ?_, by simp⟩
      unfold scalarEqual
      rw [if_neg (by simp [h1, h2]), h1, e1, e2]
      cases x <;> cases y <;> rfl
    | num h2 _ => exact ⟨false, type_ne (by simp [h1, h2]), by simp⟩
    | str h2 => exact ⟨false, type_ne (by simp [h1, h2.1]), by simp⟩
  | num h1 e1 =>
    cases hb with
    | null h2 => exact ⟨false, type_ne (by simp [h1, h2]), by simp⟩
    | bool h2 _ => exact ⟨false, type_ne (by simp [h1, h2]), by simp⟩
    | num h2 e2 =>
      unfold scalarEqual
      rw [if_neg (by simp [h1, h2]), h1]
      simp only
      by_cases h : a.bytes = b.bytes
      · rw [if_pos h, h]; exact ⟨true, rfl, by simp⟩
      · rw [if_neg h]
        obtain ⟨p, q, hp, hq, hpq⟩ := hS _ _ (na a (by simp) h1) (nb b (by simp) h2) e1 e2 h
        rw [hp, hq]
        refine ⟨decide (p = q), rfl, ?_⟩
        simp only [decide_eq_true_eq, Data.num.injEq]
        exact hpq
    | str h2 => exact ⟨false, type_ne (by simp [h1, h2.1]), by simp⟩
  | str h1 =>
    cases hb with
    | null h2 => exact ⟨false, type_ne (by simp [h1.1, h2]), by simp⟩
    | bool h2 _ => exact ⟨false, type_ne (by simp [h1.1, h2]), by simp⟩
    | num h2 _ => exact ⟨false, type_ne (by simp [h1.1, h2]), by simp⟩
    | str h2 => exact ⟨_, scalarEqual_str h1 h2, by simp⟩

/-- The program decides `P` for unread values `v` and `w`; if the answer is yes both are read to the end. -/
def Decides {ε : Type} (eq : Val → Val → IProg ε Bool) (v w : JVal) (P : Prop) : Prop :=
  ∀ (s : AState) (x y : Val), WF s → Fresh s x v → Fresh s y w → (∀ h, x.idx = some h → y.idx ≠ some h) →
    ∃ s' b, (eq x y).run AState.mach s = ([], .ok (s', b)) ∧ (b = true ↔ P) ∧ WF s' ∧
      Eff (fun h => x.idx = some h ∨ y.idx = some h) (fun _ => False) s s' ∧
      (b = true → ∀ h, (x.idx = some h ∨ y.idx = some h) → (s'.coll h).done = true)

theorem run_detachOpt {ε : Type} {s : AState} {d : Option Nat} (hw : WF s) (h : ∀ t, d = some t → t < s.nt ∧ s.det t = true) :
    ∃ s', (detachOpt d : IProg ε Unit).run AState.mach s = ([], .ok (s', ())) ∧ WF s' ∧
      Eff (fun _ => False) (fun t => d = some t) s s' ∧ s'.coll = s.coll ∧ s'.n = s.n := by
  cases d with
  | none => exact ⟨s, rfl, hw, Eff.refl _ _ _, rfl, rfl⟩
  | some t =>
    obtain ⟨s', e1, e2, e3, e4⟩ := eff_detach (h t rfl).1 (h t rfl).2
    refine ⟨s', ?_, hw.step e1, e2.mono (fun _ _ e => e) (fun u _ e => by rw [e]), e3, e4⟩
    simp only [detachOpt]
    rw [arun_op e1]
    rfl

/-- A clone has a thread of its own, and is no current value. -/
structure Own (s : AState) (h : Nat) : Prop where
  det : s.det (s.coll h).thr = true
  thr : ∀ g < s.n, (s.coll g).thr = (s.coll h).thr → g = h
  orphan : ∀ g < s.n, ∀ k, (s.coll g).cur ≠ some (.coll k h)

theorem Own.eff {X D : Nat → Prop} {s s' : AState} {h : Nat} (ho : Own s h) (hw : WF s) (hh : h < s.n) (he : Eff X D s s') (hX : ¬ X h) :
    Own s' h := by
  have hc := he.coll h hh hX
  refine ⟨?_, ?_, ?_⟩
  · rw [hc, he.det _ (hw.thr h hh)]; exact ho.det
  · intro g hg e
    rw [hc] at e
    rcases he.thr g hg with h1 | ⟨g', h1, h2, h3⟩
    · have := hw.thr h hh; omega
    · have := ho.thr g' h1 (by rw [← h3, e])
      rcases h2 with h2 | h2
      · exact absurd (this ▸ h2) hX
      · omega
  · intro g hg k e
    rcases he.cur g hg k h e with h1 | ⟨h1, h2⟩
    · omega
    · exact ho.orphan g h1 k h2

/-- Everything about `Clone` of an unread value. -/
theorem clone_all {s : AState} {x : Val} {v : JVal} (hw : WF s) (h : Fresh s x v) :
    ∃ s' y d, s.step (.clone x) = .ok (s', (y, d)) ∧ WF s' ∧ Eff (fun j => x.idx = some j) (fun _ => False) s s' ∧
      Fresh s' x v ∧ Fresh s' y v ∧ (∀ j, y.idx = some j → j = s.n ∧ d = some (s'.coll j).thr ∧ s.nt ≤ (s'.coll j).thr ∧ Own s' j) ∧
      (y.idx = none → d = none) := by
  obtain ⟨s', y, d, e1, e2, e3, e4, e5, e6⟩ := clone_fresh hw h
  have he := eff_clone hw h e1
  refine ⟨s', y, d, e1, hw.step e1, he, e3, e4, ?_, ?_⟩
  · intro j hj
    have hjn := e5 j hj
    subst hjn
    cases x with
    | scalar k =>
      have e1 : Except.ok (s, (Val.scalar k, none)) = Except.ok (s', (y, d)) := e1
      simp only [Except.ok.injEq, Prod.mk.injEq] at e1
      rw [← e1.2.1] at hj; cases hj
    | coll k i =>
      obtain ⟨-, hb⟩ := h.before rfl
      obtain ⟨u, g1, g2, g3, g4⟩ := clone_thr hb.lt hb.alive e1
      have hlt := e4.lt _ hj
      refine ⟨rfl, by rw [g3]; exact g1, by rw [g3]; exact g2, ?_, ?_, ?_⟩
      · rw [g3]; exact (e6 u g1).2.2
      · intro g hg e
        rw [g3] at e
        apply Classical.byContradiction
        intro hne
        have hn : s'.n = s.n + 1 := by
          -- one new handle
          have hc : s.step (.clone (.coll k i)) = (s.clone (.coll k i)).map fun (s, v, t) => (s, (v, t)) := rfl
          rw [hc] at e1
          unfold clone at e1
          simp only [hb.alive] at e1
          split at e1
          · cases e1
          · split at e1
            · cases e1
            · split at e1
              · simp at *
              · split at e1
                · split at e1
                  · cases e1
                  · simp only [Except.map, Except.ok.injEq, Prod.mk.injEq] at e1
                    rw [← e1.1]; rfl
                · simp only [Except.map, Except.ok.injEq, Prod.mk.injEq] at e1
                  rw [← e1.1]; rfl
        have hg' : g < s.n := by omega
        by_cases hgi : g = i
        · subst hgi
          rcases g4 with ⟨g4, _⟩ | ⟨g4, g5⟩
          · have := hw.thr g hg'; omega
          · omega
        · rw [he.coll g hg' (by intro e'; cases e'; exact hgi rfl)] at e
          have := hw.thr g hg'; omega
      · intro g hg k' e
        rcases he.cur g hg k' s.n e with h1 | ⟨h1, h2⟩
        · -- the handle would have to be set by the clone
          have hcur : g < s.n ∨ g = s.n := by
            by_cases hgs : g < s.n
            · exact .inl hgs
            · refine .inr ?_
              have := (hw.step e1).links g hg k' s.n e
              omega
          rcases hcur with hcur | hcur
          · by_cases hgi : g = i
            · subst hgi
              rw [e3.cur g rfl] at e; cases e
            · rw [he.coll g hcur (by intro e'; cases e'; exact hgi rfl)] at e
              have := hw.links g hcur k' _ e
              omega
          · subst hcur
            rw [e4.cur _ hj] at e; cases e
        · have := hw.links g h1 k' _ h2
          omega
  · intro hy
    cases x with
    | scalar k =>
      have e1 : Except.ok (s, (Val.scalar k, none)) = Except.ok (s', (y, d)) := e1
      simp only [Except.ok.injEq, Prod.mk.injEq] at e1
      exact e1.2.2.symm
    | coll k i =>
      cases v with
      | scalar _ => cases h
      | arr items e => obtain ⟨_, _, h1, _⟩ := e4; rw [h1] at hy; cases hy
      | obj ms e => obtain ⟨_, _, h1, _⟩ := e4; rw [h1] at hy; cases hy

/-- `SafeValuesEqual` decides as `Equal` does, and leaves the values unread. -/
theorem safeEqual_run {ε : Type} {eq : Val → Val → IProg ε Bool} {v w : JVal} {P : Prop} (heq : Decides eq v w P)
    {s : AState} {x y : Val} (hw : WF s) (hx : Fresh s x v) (hy : Fresh s y w) (hxy : ∀ h, x.idx = some h → y.idx ≠ some h) :
    ∃ s' b, (safeEqual eq x y).run AState.mach s = ([], .ok (s', b)) ∧ (b = true ↔ P) ∧ WF s' ∧
      Eff (fun h => x.idx = some h ∨ y.idx = some h) (fun _ => False) s s' ∧ Fresh s' x v ∧ Fresh s' y w := by
  obtain ⟨s1, x', d1, e1, w1, f1, g1, g2, g3, g4⟩ := clone_all hw hx
  have hy1 := hy.eff f1 (fun i hi => ⟨fun e => hxy i e hi, id⟩)
  obtain ⟨s2, y', d2, e2, w2, f2, k1, k2, k3, k4⟩ := clone_all w1 hy1
  have hxlt := hx.lt
  have hylt := hy.lt
  have hx'lt := g2.lt
  have hy'lt := k2.lt
  -- the first clone after the second
  have hx'y : ∀ i, x'.idx = some i → y.idx ≠ some i := by
    intro i h1 h2
    have := (g3 i h1).1; have := hylt i h2; omega
  have gx2 := g2.eff f2 (fun i hi => ⟨fun e => hx'y i hi e, id⟩)
  have own2 : ∀ j, x'.idx = some j → Own s2 j := fun j hj =>
    (g3 j hj).2.2.2.eff w1 (hx'lt j hj) f2 (fun e => hx'y j hj e)
  have hx'2 : ∀ j, x'.idx = some j → d1 = some (s2.coll j).thr := by
    intro j hj; rw [f2.coll j (hx'lt j hj) (fun e => hx'y j hj e)]; exact (g3 j hj).2.1
  have hx'y' : ∀ i, x'.idx = some i → y'.idx ≠ some i := by
    intro i h1 h2
    have := (k3 i h2).1; have := hx'lt i h1; omega
  obtain ⟨s3, b, e3, e4, w3, f3, -⟩ := heq s2 x' y' w2 gx2 k2 hx'y'
  have xfresh2 := g1.eff f2 (fun i hi => ⟨fun e => hxy i hi e, id⟩)
  have ho : ∀ i, (x.idx = some i ∨ y.idx = some i) → ¬ (x'.idx = some i ∨ y'.idx = some i) := by
    intro i h1 h2
    have hlt : i < s.n := by rcases h1 with h1 | h1; exact hxlt i h1; exact hylt i h1
    have := f1.n
    rcases h2 with h2 | h2
    · have := (g3 i h2).1; omega
    · have := (k3 i h2).1; omega
  have x3 := xfresh2.eff f3 (fun i hi => ⟨ho i (.inl hi), id⟩)
  have y3 := k1.eff f3 (fun i hi => ⟨ho i (.inr hi), id⟩)
  -- threads of the clones
  have d2ok : ∀ t, d2 = some t → ∃ j, y'.idx = some j ∧ t = (s2.coll j).thr ∧ s1.nt ≤ t ∧ t < s2.nt ∧ s2.det t = true ∧
      ∀ g < s2.n, (s2.coll g).thr = t → g = j := by
    intro t ht
    cases hj : y'.idx with
    | none => rw [k4 hj] at ht; cases ht
    | some j =>
      obtain ⟨a1, a2, a3, a4⟩ := k3 j hj
      rw [a2] at ht
      have ht := Option.some.inj ht
      subst ht
      exact ⟨j, rfl, rfl, a3, w2.thr j (hy'lt j hj), a4.det, a4.thr⟩
  have d1ok : ∀ t, d1 = some t → ∃ j, x'.idx = some j ∧ t = (s2.coll j).thr ∧ s.nt ≤ t ∧ t < s2.nt ∧ s2.det t = true ∧
      ∀ g < s2.n, (s2.coll g).thr = t → g = j := by
    intro t ht
    cases hj : x'.idx with
    | none => rw [g4 hj] at ht; cases ht
    | some j =>
      have a2 := hx'2 j hj
      have o := own2 j hj
      obtain ⟨b1, b2, b3, b4⟩ := g3 j hj
      have hlt : j < s2.n := Nat.lt_of_lt_of_le (hx'lt j hj) f2.n
      have hc := f2.coll j (hx'lt j hj) (fun e => hx'y j hj e)
      rw [a2] at ht
      have ht := Option.some.inj ht
      subst ht
      exact ⟨j, rfl, rfl, by rw [hc]; exact b3, w2.thr j hlt, o.det, o.thr⟩
  obtain ⟨s4, e5, w4, f4, c4, n4⟩ := run_detachOpt (ε := ε) (d := d2) w3 (fun t ht => by
    obtain ⟨j, _, _, a3, a4, a5, _⟩ := d2ok t ht
    exact ⟨Nat.lt_of_lt_of_le a4 f3.nt, by rw [f3.det t a4]; exact a5⟩)
  obtain ⟨s5, e6, w5, f5, c5, n5⟩ := run_detachOpt (ε := ε) (d := d1) w4 (fun t ht => by
    obtain ⟨j, _, _, a3, a4, a5, _⟩ := d1ok t ht
    have h3 : t < s3.nt := Nat.lt_of_lt_of_le a4 f3.nt
    exact ⟨Nat.lt_of_lt_of_le h3 f4.nt, by rw [f4.det t h3, f3.det t a4]; exact a5⟩)
  -- the originals keep their threads
  have orig : ∀ i, (x.idx = some i ∨ y.idx = some i) → i < s2.n → (s3.coll i).thr = (s2.coll i).thr ∧
      d1 ≠ some (s2.coll i).thr ∧ d2 ≠ some (s2.coll i).thr := by
    intro i hi hlt
    refine ⟨by rw [f3.coll i hlt (ho i hi)], ?_, ?_⟩
    · intro e
      obtain ⟨j, a1, _, _, _, _, a6⟩ := d1ok _ e
      exact ho i hi (.inl (by rw [a6 i hlt rfl]; exact a1))
    · intro e
      obtain ⟨j, a1, _, _, _, _, a6⟩ := d2ok _ e
      exact ho i hi (.inr (by rw [a6 i hlt rfl]; exact a1))
  refine ⟨s5, b, ?_, e4, w5, ?_, ?_, ?_⟩
  · simp only [safeEqual]
    rw [arun_op e1, arun_op e2]
    simp only
    rw [run_ok_bind e3, run_ok_bind e5, run_ok_bind e6]
    rfl
  · refine (((((Eff.refl _ _ s).trans f1 (fun i _ e => .inl e) (fun _ _ e => e)).trans f2 (fun i _ e => .inr e)
      (fun _ _ e => e)).trans f3 ?_ (fun _ _ e => e)).trans f4 (fun _ _ e => e.elim) ?_).trans f5 (fun _ _ e => e.elim) ?_
    · intro i hi e
      have := f1.n
      rcases e with e | e
      · have := (g3 i e).1; omega
      · have := (k3 i e).1; omega
    · intro t ht e
      obtain ⟨j, _, _, a3, _⟩ := d2ok t e
      have := f1.nt; omega
    · intro t ht e
      obtain ⟨j, _, _, a3, _⟩ := d1ok t e
      omega
  · refine (x3.eff f4 (fun i hi => ⟨id, ?_⟩)).eff f5 (fun i hi => ⟨id, ?_⟩)
    · have hlt := xfresh2.lt i hi
      rw [(orig i (.inl hi) hlt).1]; exact (orig i (.inl hi) hlt).2.2
    · have hlt := xfresh2.lt i hi
      rw [c4, (orig i (.inl hi) hlt).1]; exact (orig i (.inl hi) hlt).2.1
  · refine (y3.eff f4 (fun i hi => ⟨id, ?_⟩)).eff f5 (fun i hi => ⟨id, ?_⟩)
    · have hlt := k1.lt i hi
      rw [(orig i (.inr hi) hlt).1]; exact (orig i (.inr hi) hlt).2.2
    · have hlt := k1.lt i hi
      rw [c4, (orig i (.inr hi) hlt).1]; exact (orig i (.inr hi) hlt).2.1

/-- Two collections being read, since the state `s0`. -/
structure Two (s0 s : AState) (i j : Nat) (k : Kind) (A B : List (Option Scalar × JVal)) : Prop where
  wf : WF s
  eff : Eff (fun h => h = i ∨ h = j) (fun _ => False) s0 s
  ne : i ≠ j
  top : k ≠ .top
  bi : ∃ e, Before s s0.n i k A e
  bj : ∃ e, Before s s0.n j k B e
  qi : Quiet s i
  qj : Quiet s j
  apart : ∀ c k1 k2, (s.coll i).cur = some (.coll k1 c) → (s.coll j).cur = some (.coll k2 c) → False

theorem Two.symm {s0 s : AState} {i j k A B} (h : Two s0 s i j k A B) : Two s0 s j i k B A :=
  ⟨h.wf, h.eff.mono (fun _ _ e => e.symm) (fun _ _ e => e), h.ne.symm, h.top, h.bj, h.bi, h.qj, h.qi,
    fun c k1 k2 e1 e2 => h.apart c k2 k1 e2 e1⟩

theorem Two.self {s0 s : AState} {i j k A B} (h : Two s0 s i j k A B) : ∀ c, Self s i c → c = i ∨ s0.n ≤ c := by
  intro c hc
  obtain ⟨e, hb⟩ := h.bi
  rcases hc with hc | ⟨k', hc⟩
  · exact .inl hc
  · exact .inr (hb.cur k' c hc)

/-- Nothing changes but handles that are neither of the two, and new since `s0`. -/
theorem Two.frame' {s0 s s' : AState} {i j k A B} {X D : Nat → Prop} (h : Two s0 s i j k A B) (he : Eff X D s s')
    (hw : WF s') (hX : ∀ c, X c → s0.n ≤ c) (hD : ∀ t, D t → s0.nt ≤ t) (di : ¬ D (s.coll i).thr) (dj : ¬ D (s.coll j).thr)
    (hi : ∀ k c, (s.coll i).cur = some (.coll k c) → X c → (s'.coll c).done = true ∨ (s'.coll c).cur = none)
    (hj : ∀ k c, (s.coll j).cur = some (.coll k c) → X c → (s'.coll c).done = true ∨ (s'.coll c).cur = none) :
    Two s0 s' i j k A B := by
  obtain ⟨e, hbi⟩ := h.bi
  obtain ⟨e', hbj⟩ := h.bj
  have ni : ¬ X i := fun e => by have := hX i e; have := hbi.i0; omega
  have nj : ¬ X j := fun e => by have := hX j e; have := hbj.i0; omega
  refine ⟨hw, h.eff.trans he (fun c hc e => by have := hX c e; omega) (fun t ht e => by have := hD t e; omega), h.ne, h.top,
    ⟨e, hbi.eff he ni di⟩, ⟨e', hbj.eff he nj dj⟩, h.qi.eff he hbi.lt ni hi, h.qj.eff he hbj.lt nj hj, ?_⟩
  rw [he.coll i hbi.lt ni, he.coll j hbj.lt nj]
  exact h.apart

theorem Two.frame {s0 s s' : AState} {i j k A B} {X : Nat → Prop} (h : Two s0 s i j k A B) (he : Eff X (fun _ => False) s s')
    (hw : WF s') (hX : ∀ c, X c → s0.n ≤ c)
    (hi : ∀ k c, (s.coll i).cur = some (.coll k c) → X c → (s'.coll c).done = true ∨ (s'.coll c).cur = none)
    (hj : ∀ k c, (s.coll j).cur = some (.coll k c) → X c → (s'.coll c).done = true ∨ (s'.coll c).cur = none) :
    Two s0 s' i j k A B :=
  h.frame' he hw hX (fun _ e => e.elim) id id hi hj

/-- The other one after an advance of the first. -/
theorem Two.other {s0 s s' : AState} {i j k A B} (h : Two s0 s i j k A B) (he : Eff (Self s i) (fun _ => False) s s') :
    Eff (fun h => h = i ∨ h = j) (fun _ => False) s0 s' ∧ (∃ e, Before s' s0.n j k B e) ∧ Quiet s' j ∧ s'.coll j = s.coll j := by
  obtain ⟨e, hbi⟩ := h.bi
  obtain ⟨e', hbj⟩ := h.bj
  have nj : ¬ Self s i j := by
    intro hc
    rcases h.self j hc with h1 | h1
    · exact h.ne h1.symm
    · have := hbj.i0; omega
  refine ⟨h.eff.trans he ?_ (fun _ _ e => e), ⟨e', hbj.eff he nj id⟩, h.qj.eff he hbj.lt nj ?_, he.coll j hbj.lt nj⟩
  · intro c hc hs
    rcases h.self c hs with h1 | h1
    · exact .inl h1
    · omega
  · intro k' c hc hs
    exfalso
    rcases hs with hs | ⟨k2, hs⟩
    · have := hbj.cur k' c hc
      have := hbi.i0
      omega
    · exact h.apart c k2 k' hs hc

/-- Advance of the first to a member. -/
theorem Two.left_cons {s0 s : AState} {i j k A B key v} (h : Two s0 s i j k ((key, v) :: A) B) :
    ∃ s' x, s.step (.advance i) = .ok (s', true) ∧ s'.step (.current i) = .ok (s', (key, some x)) ∧
      Two s0 s' i j k A B ∧ Eff (Self s i) (fun _ => False) s s' ∧ (s'.coll i).cur = some x ∧ Fresh s' x v ∧
      (∀ c, x.idx = some c → s.n ≤ c) ∧ s'.coll j = s.coll j := by
  obtain ⟨e, hbi⟩ := h.bi
  obtain ⟨s', x, e1, e2, e3, e4, e5, e6, e7, e8, e9⟩ := adv_cons_eff h.wf hbi h.top h.qi
  obtain ⟨o1, o2, o3, o4⟩ := h.other e6
  refine ⟨s', x, e1, e2, ⟨e3, o1, h.ne, h.top, ⟨e, e4⟩, o2, e5, o3, ?_⟩, e6, e7, e8, e9, o4⟩
  intro c k1 k2 h1 h2
  rw [e7] at h1
  simp only [Option.some.injEq] at h1
  have := e9 c (by rw [h1]; rfl)
  rw [o4] at h2
  have := (h.qj k2 c h2).1
  omega

/-- Advance of the first at its end. -/
theorem Two.left_nil {s0 s : AState} {i j k B} (h : Two s0 s i j k [] B) :
    ∃ s', s.step (.advance i) = .ok (s', false) ∧ WF s' ∧ Eff (Self s i) (fun _ => False) s s' ∧ (s'.coll i).done = true ∧
      Eff (fun h => h = i ∨ h = j) (fun _ => False) s0 s' ∧ (∃ e, Before s' s0.n j k B e) ∧ Quiet s' j := by
  obtain ⟨e, hbi⟩ := h.bi
  obtain ⟨s', e1, e2, e3, e4⟩ := adv_nil_eff h.wf hbi h.top h.qi
  obtain ⟨o1, o2, o3, o4⟩ := h.other e3
  exact ⟨s', e1, e2, e3, e4, o1, o2, o3⟩

/-- The advance of the second after the end of the first tells whether it is at its end. -/
theorem last_advance {s0 s : AState} {i j k B e} (hw : WF s) (he : Eff (fun h => h = i ∨ h = j) (fun _ => False) s0 s)
    (hb : Before s s0.n j k B e) (hk : k ≠ .top) (hq : Quiet s j) (hij : i ≠ j) (hi : i < s0.n) (hd : (s.coll i).done = true) :
    ∃ s', s.step (.advance j) = .ok (s', !B.isEmpty) ∧ WF s' ∧ Eff (fun h => h = i ∨ h = j) (fun _ => False) s0 s' ∧
      (s'.coll i).done = true ∧ (B = [] → (s'.coll j).done = true) := by
  have hself : ∀ c, Self s j c → c = j ∨ s0.n ≤ c := by
    intro c hc
    rcases hc with hc | ⟨k', hc⟩
    · exact .inl hc
    · exact .inr (hb.cur k' c hc)
  have ni : ¬ Self s j i := by
    intro hc
    rcases hself i hc with h1 | h1
    · exact hij h1
    · omega
  have fin : ∀ s', Eff (Self s j) (fun _ => False) s s' → Eff (fun h => h = i ∨ h = j) (fun _ => False) s0 s' ∧ (s'.coll i).done = true := by
    intro s' f
    refine ⟨he.trans f ?_ (fun _ _ e => e), by rw [f.coll i (Nat.lt_of_lt_of_le hi he.n) ni]; exact hd⟩
    intro c hc hs
    rcases hself c hs with h1 | h1
    · exact .inr h1
    · omega
  cases B with
  | nil =>
    obtain ⟨s', e1, e2, e3, e4⟩ := adv_nil_eff hw hb hk hq
    exact ⟨s', e1, e2, (fin s' e3).1, (fin s' e3).2, fun _ => e4⟩
  | cons m B =>
    obtain ⟨key, v⟩ := m
    obtain ⟨s', x, e1, e2, e3, e4, e5, e6, e7, e8, e9⟩ := adv_cons_eff hw hb hk hq
    exact ⟨s', e1, e3, (fin s' e6).1, (fin s' e6).2, fun e => nomatch e⟩

/-- Arrays. -/
theorem arrEqual_run {ε : Type} {val : Bytes → Rat} {eq : Val → Val → IProg ε Bool} {s0 : AState} {i j : Nat} :
    ∀ (f : Nat) (l l' : List JVal) (ds ds' : List Data) (s : AState), l.length < f → DenLBy val l ds → DenLBy val l' ds' →
      (∀ v ∈ l, ∀ w ∈ l', ∀ d d', DenBy val v d → DenBy val w d' → Decides eq v w (d = d')) →
      Two s0 s i j .arr (l.map (none, ·)) (l'.map (none, ·)) →
      ∃ s' b, (arrEqual eq i j f).run AState.mach s = ([], .ok (s', b)) ∧ (b = true ↔ ds = ds') ∧ WF s' ∧
        Eff (fun h => h = i ∨ h = j) (fun _ => False) s0 s' ∧
        (b = true → (s'.coll i).done = true ∧ (s'.coll j).done = true) := by
  intro f
  induction f with
  | zero => intro l _ _ _ _ h; omega
  | succ f ih =>
    intro l l' ds ds' s hf hl hl' heq ht
    cases hl with
    | nil =>
      obtain ⟨s1, e1, w1, f1, d1, o1, ⟨e, o2⟩, o3⟩ := ht.left_nil
      obtain ⟨e', hbi⟩ := ht.bi
      obtain ⟨s2, e2, w2, f2, d2, d3⟩ := last_advance w1 o1 o2 ht.top o3 ht.ne hbi.i0 d1
      refine ⟨s2, l'.isEmpty, ?_, ?_, w2, f2, ?_⟩
      · simp only [arrEqual]
        rw [arun_op e1]
        simp only [Bool.false_eq_true, if_false]
        rw [arun_op e2]
        simp
      · cases hl' <;> simp
      · intro h
        cases l' with
        | nil => exact ⟨d2, d3 rfl⟩
        | cons _ _ => cases h
    | @cons v d l ds hv hl =>
      obtain ⟨s1, x, e1, -, t1, f1, c1, x1, n1, j1⟩ := ht.left_cons
      cases hl' with
      | nil =>
        obtain ⟨s2, e2, w2, f2, d2, o1, o2, o3⟩ := t1.symm.left_nil
        refine ⟨s2, false, ?_, by simp, w2, o1.mono (fun _ _ e => e.symm) (fun _ _ e => e), (fun e => nomatch e)⟩
        simp only [arrEqual]
        rw [arun_op e1]
        simp only [if_true]
        rw [arun_op e2]
        simp
      | @cons w d' l' ds' hw' hl' =>
        obtain ⟨s2, y, e2, e3, t2, f2, c2, y2, n2, j2⟩ := t1.symm.left_cons
        have t2 := t2.symm
        have cur2 : s2.step (.current i) = .ok (s2, (none, some x)) := by
          obtain ⟨_, hb⟩ := t2.bi
          rw [current_ok hb, j2, c1]
          obtain ⟨e', hb0⟩ := ht.bi
          have hk : (s1.coll i).key = none := by
            obtain ⟨s1', x', g1, g2, -⟩ := adv_cons_eff ht.wf hb0 ht.top ht.qi
            rw [g1] at e1
            simp only [Except.ok.injEq, Prod.mk.injEq, and_true] at e1
            subst e1
            obtain ⟨_, hb1⟩ := t1.bi
            rw [current_ok hb1] at g2
            simp only [Except.ok.injEq, Prod.mk.injEq, true_and] at g2
            exact g2.1
          rw [hk]
        have hxn : ∀ c, x.idx = some c → s0.n ≤ c := by
          intro c hc
          have := n1 c hc; have := ht.eff.n; omega
        have hyn : ∀ c, y.idx = some c → s0.n ≤ c := by
          intro c hc
          have := n2 c hc; have := t1.eff.n; omega
        have hsx : ∀ c, x.idx = some c → ¬ Self s1 j c := by
          intro c hc hs
          rcases t1.symm.self c hs with h1 | h1
          · have := hxn c hc
            obtain ⟨_, hb⟩ := t1.bj
            have := hb.i0
            omega
          · rcases hs with hs | ⟨k', hs⟩
            · have := hxn c hc
              obtain ⟨_, hb⟩ := t1.bj
              have := hb.i0
              omega
            · have hx : ∃ k, x = .coll k c := by cases x with
                | scalar _ => cases hc
                | coll k c' => cases hc; exact ⟨k, rfl⟩
              obtain ⟨k, hx⟩ := hx
              exact t1.apart c k k' (by rw [c1, hx]) hs
        have x2 := x1.eff f2 (fun c hc => ⟨hsx c hc, id⟩)
        have hxy : ∀ c, x.idx = some c → y.idx ≠ some c := by
          intro c h1 h2
          have := x1.lt c h1; have := n2 c h2; omega
        obtain ⟨s3, b, e4, e5, w3, f3, d3⟩ := heq v (by simp) w (by simp) d d' hv hw' s2 x y t2.wf x2 y2 hxy
        have hrun : ∀ (r : List ε × Except Stop (AState × Bool)),
            (if b = true then arrEqual eq i j f else .ret false).run AState.mach s3 = r →
            r.1 = [] → (∃ q, r.2 = .ok q) → (arrEqual eq i j (f + 1)).run AState.mach s = r := by
          intro r hr hr1 ⟨q, hr2⟩
          simp only [arrEqual]
          rw [arun_op e1]
          simp only [if_true]
          rw [arun_op e2]
          simp only [if_true]
          rw [arun_op cur2, arun_op e3]
          simp only
          rw [run_ok_bind e4, hr]
          obtain ⟨r1, r2⟩ := r
          simp only at hr1 hr2
          subst hr1
          rfl
        cases b with
        | true =>
          have hd : d = d' := e5.1 rfl
          subst hd
          have t3 : Two s0 s3 i j .arr (l.map (none, ·)) (l'.map (none, ·)) := by
            refine t2.frame f3 w3 ?_ ?_ ?_
            · rintro c (hc | hc)
              · exact hxn c hc
              · exact hyn c hc
            · intro k c _ hX; exact .inl (d3 rfl c hX)
            · intro k c _ hX; exact .inl (d3 rfl c hX)
          obtain ⟨s4, b, g1, g2, g3, g4, g5⟩ := ih l l' ds ds' s3 (by simp at hf; omega) hl hl'
            (fun v hv w hw => heq v (by simp [hv]) w (by simp [hw])) t3
          refine ⟨s4, b, hrun _ (by simpa using g1) rfl ⟨_, rfl⟩, ?_, g3, g4, g5⟩
          rw [g2]; simp
        | false =>
          have hd : d ≠ d' := fun e => by simpa using e5.2 e
          refine ⟨s3, false, hrun _ (by simp) rfl ⟨_, rfl⟩, by simp [hd], w3, ?_, (fun e => nomatch e)⟩
          refine t2.eff.trans f3 ?_ (fun _ _ e => e)
          rintro c hc (h1 | h1)
          · have := hxn c h1; omega
          · have := hyn c h1; omega

end Verif
