import Verif.IterLogic

/-!
# What every operation preserves

Invariants of the specification of iterators under all operations, and the iterator over the input,
which only its own `Advance` moves.
-/

set_option linter.unusedSimpArgs false
set_option linter.unusedVariables false

namespace Verif
namespace AState

/-- Invariants of all states. -/
structure WF (s : AState) : Prop where
  links : Links s
  unstarted : ∀ i < s.n, (s.coll i).kind ≠ .top → (s.coll i).started = false → (s.coll i).cur = none
  thr : ∀ i < s.n, (s.coll i).thr < s.nt
  dead : ∀ t, s.nt ≤ t → s.dead t = false

/-- The iterator over the input stands before the values `r`. -/
structure Root (s : AState) (r : List (Option Scalar × JVal)) : Prop where
  n : 0 < s.n
  nt : 0 < s.nt
  dead : s.dead 0 = false
  det : s.det 0 = false
  kind : (s.coll 0).kind = .top
  thr : (s.coll 0).thr = 0
  done : (s.coll 0).done = false
  elided : (s.coll 0).elided = false
  rest : (s.coll 0).rest = r
  e : (s.coll 0).e = false

theorem wf_init (vs : List JVal) : WF (init vs) :=
  ⟨links_init vs, fun _ _ _ _ => rfl, fun _ _ => Nat.one_pos, fun _ _ => rfl⟩

theorem root_init (vs : List JVal) : Root (init vs) (vs.map (none, ·)) :=
  ⟨Nat.one_pos, Nat.one_pos, rfl, rfl, rfl, rfl, rfl, rfl, rfl, rfl⟩

/-- Setting a handle. -/
theorem WF.set {s : AState} (h : WF s) (i : Nat) (c : AColl)
    (h1 : i < s.n → ∀ k j, c.cur = some (.coll k j) → i < j ∧ j < s.n)
    (h2 : i < s.n → c.kind ≠ .top → c.started = false → c.cur = none) (h3 : i < s.n → c.thr < s.nt) : WF (s.set i c) := by
  refine ⟨?_, ?_, ?_, h.dead⟩ <;> intro j hj
  all_goals
    have hj : j < s.n := hj
    by_cases e : j = i
    · subst e; rw [set_same]
      first | exact h1 hj | exact h2 hj | exact h3 hj
    · rw [set_ne _ _ e]
      first | exact h.links j hj | exact h.unstarted j hj | exact h.thr j hj

/-- A new handle. -/
theorem WF.alloc {s : AState} (h : WF s) (c : AColl) (h1 : c.cur = none) (h3 : c.thr < s.nt) : WF (s.alloc c) := by
  refine ⟨?_, ?_, ?_, h.dead⟩ <;> intro j hj
  all_goals
    have hj : j < s.n + 1 := hj
    by_cases e : j = s.n
    · subst e; rw [AInv.alloc_new]
      first
        | (intro k j e; rw [h1] at e; cases e)
        | exact fun _ _ => h1
        | exact h3
    · have hj' : j < s.n := by omega
      rw [AInv.alloc_old hj']
      first
        | (intro k j' e; have := h.links j hj' k j' e; exact ⟨this.1, Nat.lt_succ_of_lt this.2⟩)
        | exact h.unstarted j hj'
        | exact h.thr j hj'

theorem WF.discard {s : AState} (h : WF s) (f : Nat) (v : Val) : WF (discard f s v) := by
  obtain ⟨k1, k2, k3, k4, k5⟩ := discard_keep f s v
  refine ⟨?_, ?_, ?_, by rw [k2, k3]; exact h.dead⟩ <;> intro j hj
  all_goals
    rw [k1] at hj
    have e : ∃ d, (AState.discard f s v).coll j = { s.coll j with done := d } := by
      rcases k5 j with e | e
      · exact ⟨_, e⟩
      · exact ⟨_, e⟩
    obtain ⟨d, e⟩ := e
    first
      | (intro k j' e'; rw [e] at e'; rw [k1]; exact h.links j hj k j' e')
      | (intro a b; rw [e] at a b ⊢; exact h.unstarted j hj a b)
      | (rw [e, k2]; exact h.thr j hj)

theorem WF.discardCur {s : AState} (h : WF s) (i : Nat) : WF (s.discardCur i) := by
  unfold AState.discardCur
  split
  · exact h
  · exact h.discard _ _

theorem Root.discard {s : AState} {r} (h : Root s r) (hw : WF s) (f : Nat) (v : Val)
    (hv : ∀ k i, v = .coll k i → 0 < i ∧ i < s.n) : Root (AState.discard f s v) r := by
  obtain ⟨k1, k2, k3, k4, k5⟩ := discard_keep f s v
  have hc : (AState.discard f s v).coll 0 = s.coll 0 := by
    cases v with
    | scalar k => cases f <;> rfl
    | coll k i => exact discard_old s hw.links f k i (hv k i rfl).2 0 (hv k i rfl).1
  exact ⟨by rw [k1]; exact h.n, by rw [k2]; exact h.nt, by rw [k3]; exact h.dead, by rw [k4]; exact h.det,
    by rw [hc]; exact h.kind, by rw [hc]; exact h.thr, by rw [hc]; exact h.done, by rw [hc]; exact h.elided,
    by rw [hc]; exact h.rest, by rw [hc]; exact h.e⟩

theorem Root.discardCur {s : AState} {r} (h : Root s r) (hw : WF s) {i : Nat} (hi : i < s.n) : Root (s.discardCur i) r := by
  unfold AState.discardCur
  split
  · exact h
  · rename_i v hv
    refine h.discard hw _ _ ?_
    intro k j e
    have := hw.links i hi k j (by rw [hv, e])
    omega

theorem Root.set {s : AState} {r} (h : Root s r) (i : Nat) (c : AColl) (hi : i ≠ 0) : Root (s.set i c) r := by
  have hc : (s.set i c).coll 0 = s.coll 0 := set_ne _ _ (fun e => hi e.symm)
  exact ⟨h.n, h.nt, h.dead, h.det, by rw [hc]; exact h.kind, by rw [hc]; exact h.thr, by rw [hc]; exact h.done,
    by rw [hc]; exact h.elided, by rw [hc]; exact h.rest, by rw [hc]; exact h.e⟩

theorem Root.alloc {s : AState} {r} (h : Root s r) (c : AColl) : Root (s.alloc c) r := by
  have hc : (s.alloc c).coll 0 = s.coll 0 := AInv.alloc_old h.n
  exact ⟨Nat.lt_succ_of_lt h.n, h.nt, h.dead, h.det, by rw [hc]; exact h.kind, by rw [hc]; exact h.thr,
    by rw [hc]; exact h.done, by rw [hc]; exact h.elided, by rw [hc]; exact h.rest, by rw [hc]; exact h.e⟩

/-- Changing threads other than 0. -/
theorem Root.threads {s : AState} {r} (h : Root s r) (nt : Nat) (dead det : Nat → Bool) (hn : s.nt ≤ nt)
    (h1 : dead 0 = s.dead 0) (h2 : det 0 = s.det 0) : Root { s with nt := nt, dead := dead, det := det } r :=
  ⟨h.n, Nat.lt_of_lt_of_le h.nt hn, h1.trans h.dead, h2.trans h.det, h.kind, h.thr, h.done, h.elided, h.rest, h.e⟩

theorem WF.threads {s : AState} (h : WF s) (nt : Nat) (dead det : Nat → Bool) (hn : s.nt ≤ nt)
    (hd : ∀ t, nt ≤ t → dead t = false) : WF { s with nt := nt, dead := dead, det := det } :=
  ⟨h.links, h.unstarted, fun i hi => Nat.lt_of_lt_of_le (h.thr i hi) hn, hd⟩

theorem handle_wf {s : AState} (h : WF s) (v : JVal) {t : Nat} (ht : t < s.nt) :
    WF (s.handle v t).1 ∧ s.n ≤ (s.handle v t).1.n ∧ (s.handle v t).1.nt = s.nt ∧
      (∀ k j, (s.handle v t).2 = .coll k j → s.n ≤ j ∧ j < (s.handle v t).1.n) ∧
      (∀ j < s.n, (s.handle v t).1.coll j = s.coll j) ∧ (s.handle v t).1.dead = s.dead ∧
      (s.handle v t).1.det = s.det := by
  cases v with
  | scalar k =>
    exact ⟨h, Nat.le_refl _, rfl, (fun _ _ e => nomatch e), (fun _ _ => rfl), rfl, rfl⟩
  | arr items e =>
    refine ⟨h.alloc _ rfl ht, Nat.le_succ _, rfl, ?_, fun j hj => AInv.alloc_old hj, rfl, rfl⟩
    intro k j e; cases e; exact ⟨Nat.le_refl _, Nat.lt_succ_self _⟩
  | obj ms e =>
    refine ⟨h.alloc _ rfl ht, Nat.le_succ _, rfl, ?_, fun j hj => AInv.alloc_old hj, rfl, rfl⟩
    intro k j e; cases e; exact ⟨Nat.le_refl _, Nat.lt_succ_self _⟩

theorem advance_eqs {s : AState} {i : Nat} {r : AState × Bool} (h : s.advance i = .ok r) :
    i < s.n ∧ ((r = (s, false) ∧ (s.coll i).kind ≠ .top ∧ (s.coll i).done = true) ∨
      (s.discardCur i).advance' i = .ok r) := by
  unfold advance at h
  split at h
  · cases h
  · refine ⟨by omega, ?_⟩
    split at h
    · rename_i hd; cases h; exact Or.inl ⟨rfl, hd⟩
    · exact Or.inr h

theorem WF.advance' {s : AState} (h : WF s) {i : Nat} (hi : i < s.n) {r : AState × Bool} (hr : s.advance' i = .ok r) :
    WF r.1 := by
  cases hd : s.dead (s.coll i).thr with
  | true =>
    rw [ISim.advance'_dead hd] at hr
    split at hr
    · cases hr; exact h.set _ _ (fun _ _ _ e => nomatch e) (fun _ _ _ => rfl) (fun hi => h.thr i hi)
    · cases hr
  | false =>
    cases hrest : (s.coll i).rest with
    | nil =>
      rw [ISim.advance'_nil hd hrest] at hr
      split at hr
      · cases hr
        exact (h.set i { s.coll i with cur := none } (fun _ _ _ e => nomatch e) (fun _ _ _ => rfl)
          (fun hi => h.thr i hi)).threads _ _ _ (Nat.le_refl _) (by
            intro t ht
            have ht : s.nt ≤ t := ht
            show (if t = (s.coll i).thr ∧ t ≠ 0 then true else s.dead t) = false
            rw [if_neg (by have := h.thr i hi; omega)]; exact h.dead t ht)
      · cases hr
        exact h.set _ _ (h.links i) (h.unstarted i) (fun hi => h.thr i hi)
    | cons m rest =>
      obtain ⟨k, v⟩ := m
      rw [ISim.advance'_cons hd hrest] at hr
      cases hr
      obtain ⟨w1, w2, w3, w4, w5, w6, w7⟩ := handle_wf h v (h.thr i hi)
      refine w1.set _ _ ?_ ?_ ?_
      · intro _ k' j e
        have e : some (s.handle v (s.coll i).thr).2 = some (.coll k' j) := e
        have := w4 k' j (Option.some.inj e)
        omega
      · intro _ hk hs
        have hs : decide ((s.coll i).kind ≠ .top) = false := hs
        have hk : (s.coll i).kind ≠ .top := hk
        simp [hk] at hs
      · intro _; rw [w3]; exact h.thr i hi

theorem Root.advance' {s : AState} {rt} (h : Root s rt) (hw : WF s) {i : Nat} (hi : i < s.n) (h0 : i ≠ 0)
    {r : AState × Bool} (hr : s.advance' i = .ok r) : Root r.1 rt := by
  cases hd : s.dead (s.coll i).thr with
  | true =>
    rw [ISim.advance'_dead hd] at hr
    split at hr
    · cases hr; exact h.set _ _ h0
    · cases hr
  | false =>
    cases hrest : (s.coll i).rest with
    | nil =>
      rw [ISim.advance'_nil hd hrest] at hr
      split at hr
      · cases hr
        exact (h.set i { s.coll i with cur := none } h0).threads _ _ _ (Nat.le_refl _) (by simp) rfl
      · cases hr
        exact h.set _ _ h0
    | cons m rest =>
      obtain ⟨k, v⟩ := m
      rw [ISim.advance'_cons hd hrest] at hr
      cases hr
      refine Root.set ?_ _ _ h0
      cases v with
      | scalar _ => exact h
      | arr _ _ => exact h.alloc _
      | obj _ _ => exact h.alloc _

/-- All operations preserve the invariants. -/
theorem WF.step {s : AState} (h : WF s) {o : IOp} {r : AState × o.Res} (hr : s.step o = .ok r) : WF r.1 := by
  cases o with
  | reject p q => cases hr
  | advance i =>
    obtain ⟨hi, h1 | h1⟩ := advance_eqs hr
    · rw [h1.1]; exact h
    · have hw := h.discardCur i
      refine hw.advance' ?_ h1
      unfold AState.discardCur; split
      · exact hi
      · rw [(discard_keep _ _ _).1]; exact hi
  | current i =>
    simp only [AState.step] at hr
    cases hc : s.current i with
    | error e => rw [hc] at hr; cases hr
    | ok x => rw [hc] at hr; cases hr; exact h
  | elided i =>
    simp only [AState.step] at hr
    split at hr
    · cases hr
    · cases hr; exact h
  | clone v =>
    simp only [AState.step] at hr
    cases v with
    | scalar k => cases hr; exact h
    | coll k i =>
      simp only [clone] at hr
      split at hr
      · cases hr
      rename_i hk
      have hi : i < s.n := by omega
      split at hr
      · cases hr
      rename_i hb
      have hcur : (s.coll i).cur = none := by
        unfold begun at hb
        split at hb
        · simpa using hb
        · rename_i hkk; exact h.unstarted i hi hkk (by simpa using hb)
      split at hr
      · cases hr; exact h.alloc _ hcur (h.thr i hi)
      split at hr
      · split at hr
        · cases hr
        · cases hr
          have h2 := (h.threads (s.nt + 2) s.dead (fun t => if t = s.nt + 1 then true else s.det t) (by omega)
            (fun t ht => h.dead t (by omega)))
          refine WF.alloc (s := { s.set i _ with nt := s.nt + 2, det := _ }) (h2.set i { s.coll i with thr := s.nt } ?_ ?_ ?_) _ hcur ?_
          · intro _ k j e; have e : (s.coll i).cur = some (.coll k j) := e; rw [hcur] at e; cases e
          · intro _ _ _; exact hcur
          · intro _; show s.nt < s.nt + 2; omega
          · show s.nt + 1 < s.nt + 2; omega
      · cases hr
        have h2 := (h.threads (s.nt + 1) s.dead (fun t => if t = s.nt then true else s.det t) (by omega)
          (fun t ht => h.dead t (by omega)))
        exact WF.alloc h2 _ hcur (Nat.lt_succ_self _)
  | discard v =>
    simp only [AState.step] at hr
    cases v with
    | scalar k => cases hr; exact h
    | coll k i =>
      simp only at hr
      split at hr
      · cases hr
      · cases hr; exact h.discard _ _
  | copy v =>
    simp only [AState.step] at hr
    cases v with
    | scalar k => cases hr; exact h
    | coll k i =>
      simp only [copy] at hr
      have hs : WF (s.set i { s.coll i with done := true }) :=
        h.set _ _ (h.links i) (h.unstarted i) (fun hi => h.thr i hi)
      repeat' split at hr
      all_goals first | (cases hr; done) | (cases hr; exact hs)
  | detach t =>
    simp only [AState.step] at hr
    split at hr
    · rename_i hd
      cases hr
      refine h.threads _ _ _ (Nat.le_refl _) ?_
      intro u hu
      show (if u = t then true else s.dead u) = false
      rw [if_neg (by omega)]; exact h.dead u hu
    · cases hr
  | data ts =>
    simp only [AState.step] at hr
    split at hr
    · cases hr
    · cases hr
      have h2 := (h.threads (s.nt + 1) s.dead s.det (by omega) (fun t ht => h.dead t (by omega)))
      exact WF.alloc h2 _ rfl (Nat.lt_succ_self _)

/-- Only its own `Advance` moves the iterator over the input. -/
theorem Root.step {s : AState} {rt} (h : Root s rt) (hw : WF s) {o : IOp} (ho : o ≠ .advance 0)
    {r : AState × o.Res} (hr : s.step o = .ok r) : Root r.1 rt := by
  cases o with
  | reject p q => cases hr
  | advance i =>
    have h0 : i ≠ 0 := by intro e; exact ho (by rw [e])
    obtain ⟨hi, h1 | h1⟩ := advance_eqs hr
    · rw [h1.1]; exact h
    · refine (h.discardCur hw hi).advance' (hw.discardCur i) ?_ h0 h1
      unfold AState.discardCur; split
      · exact hi
      · rw [(discard_keep _ _ _).1]; exact hi
  | current i =>
    simp only [AState.step] at hr
    cases hc : s.current i with
    | error e => rw [hc] at hr; cases hr
    | ok x => rw [hc] at hr; cases hr; exact h
  | elided i =>
    simp only [AState.step] at hr
    split at hr
    · cases hr
    · cases hr; exact h
  | clone v =>
    simp only [AState.step] at hr
    cases v with
    | scalar k => cases hr; exact h
    | coll k i =>
      simp only [clone] at hr
      split at hr
      · cases hr
      rename_i hk
      split at hr
      · cases hr
      split at hr
      · cases hr; exact h.alloc _
      split at hr
      · split at hr
        · cases hr
        · rename_i hkt
          have h0 : i ≠ 0 := by
            intro e; subst e
            have := h.kind
            simp_all
          cases hr
          have h2 := ((h.set i { s.coll i with thr := s.nt } h0).alloc
            { s.coll i with thr := s.nt + 1, key := none }).threads (s.nt + 2) s.dead
            (fun t => if t = s.nt + 1 then true else s.det t) (by show s.nt ≤ _; omega) rfl (by
              show (if 0 = s.nt + 1 then true else s.det 0) = s.det 0
              rw [if_neg (by omega)])
          exact h2
      · cases hr
        exact (h.alloc { s.coll i with thr := s.nt, key := none }).threads (s.nt + 1) s.dead
            (fun t => if t = s.nt then true else s.det t) (by show s.nt ≤ _; omega) rfl (by
              show (if 0 = s.nt then true else s.det 0) = s.det 0
              rw [if_neg (by have := h.nt; omega)])
  | discard v =>
    simp only [AState.step] at hr
    cases v with
    | scalar k => cases hr; exact h
    | coll k i =>
      simp only at hr
      split at hr
      · cases hr
      · rename_i hk
        cases hr
        refine h.discard hw _ _ ?_
        intro k' j e; cases e
        have : i ≠ 0 := by
          intro e; subst e
          rw [h.kind] at hk
          apply hk
          by_cases e : k = .top
          · exact Or.inr (Or.inr e)
          · exact Or.inr (Or.inl (Ne.symm e))
        omega
  | copy v =>
    simp only [AState.step] at hr
    cases v with
    | scalar k => cases hr; exact h
    | coll k i =>
      simp only [copy] at hr
      split at hr
      · cases hr
      rename_i hk
      have h0 : i ≠ 0 := by
        intro e; subst e
        rw [h.kind] at hk
        apply hk
        by_cases e : k = .top
        · exact Or.inr (Or.inr e)
        · exact Or.inr (Or.inl (Ne.symm e))
      repeat' split at hr
      all_goals first | (cases hr; done) | (cases hr; exact h.set _ _ h0)
  | detach t =>
    simp only [AState.step] at hr
    split at hr
    · rename_i hd
      cases hr
      refine h.threads _ _ _ (Nat.le_refl _) ?_ rfl
      have : t ≠ 0 := by
        intro e; subst e
        rw [h.dead, h.det] at hd
        simp at hd
      show (if 0 = t then true else s.dead 0) = s.dead 0
      rw [if_neg (fun e => this e.symm)]
    · cases hr
  | data ts =>
    simp only [AState.step] at hr
    split at hr
    · cases hr
    · rename_i vs _
      cases hr
      exact (h.alloc ⟨.top, s.nt, false, false, false, none, none, vs.map (none, ·), false⟩).threads (s.nt + 1)
        s.dead s.det (Nat.le_succ _) rfl rfl

theorem Root.before {s : AState} {rt} (h : Root s rt) (hw : WF s) : Before s 1 0 .top rt false :=
  ⟨h.n, h.kind, h.done, h.elided, h.rest, h.e, by rw [h.thr]; exact h.nt, by rw [h.thr]; exact h.dead,
    (fun k j e => (hw.links 0 h.n k j e).1), h.n, Nat.one_pos⟩

/-- The next value of the input. -/
theorem Root.next {s : AState} {v : JVal} {rt} (h : Root s ((none, v) :: rt)) (hw : WF s) :
    ∃ s' x, s.step (.advance 0) = .ok (s', true) ∧ s'.step (.current 0) = .ok (s', (none, some x)) ∧ Root s' rt ∧
      WF s' ∧ Fresh s' x v ∧ ∀ j, x.idx = some j → s.n ≤ j := by
  obtain ⟨s', x, e1, e2, e3, e4, e5, e6, e7, e8, e9⟩ := adv_cons hw.links (h.before hw)
  have ht : (s'.coll 0).thr = 0 := e9.trans h.thr
  refine ⟨s', x, e1, ?_, ?_, hw.step e1, e7, e8⟩
  · rw [current_ok e3, e5, e6]
  · exact ⟨e3.lt, Nat.lt_of_lt_of_le h.nt e4.nt, (e4.dead 0 h.nt).trans h.dead, (e4.det 0 h.nt).trans h.det,
      e3.kind, ht, e3.done, e3.elided, e3.rest, e3.e⟩

/-- The end of the input. -/
theorem Root.end {s : AState} (h : Root s []) (hw : WF s) :
    ∃ s', s.step (.advance 0) = .ok (s', false) ∧ Root s' [] ∧ WF s' := by
  obtain ⟨s', e1, e2, e3⟩ := adv_top hw.links (h.before hw) h.thr
  refine ⟨s', e1, ?_, hw.step e1⟩
  obtain ⟨hi, h1 | h1⟩ := advance_eqs e1
  · exact absurd h.kind h1.2.1
  · have hr := h.discardCur hw h.n
    rw [ISim.advance'_nil (by rw [hr.thr]; exact hr.dead) hr.rest, if_pos hr.kind] at h1
    simp only [Except.ok.injEq] at h1
    cases h1
    have hc : (((s.discardCur 0).set 0 { (s.discardCur 0).coll 0 with cur := none }).coll 0) =
      { (s.discardCur 0).coll 0 with cur := none } := set_same _ _ _
    refine ⟨hr.n, hr.nt, ?_, hr.det, ?_, ?_, ?_, ?_, ?_, ?_⟩
    · show (if 0 = _ ∧ 0 ≠ 0 then true else _) = false
      rw [if_neg (by omega)]; exact hr.dead
    all_goals show _ = _; simp only [hc]
    · exact hr.kind
    · exact hr.thr
    · exact hr.done
    · exact hr.elided
    · exact hr.rest
    · exact hr.e

theorem links_done {s : AState} (hl : Links s) (i : Nat) (d : Bool) : Links (s.set i { s.coll i with done := d }) := by
  intro j hj k j' e
  by_cases hji : j = i
  · subst hji; rw [set_same] at e; exact hl j hj k j' e
  · rw [set_ne _ _ hji] at e; exact hl j hj k j' e

/-- Copying a fresh value. -/
theorem copy_fresh {s : AState} {x : Val} {v : JVal} (hl : Links s) (h : Fresh s x v) :
    ∃ s', s.step (.copy x) = .ok (s', v.toks) ∧ Links s' ∧ Keep s.n x.idx s s' := by
  have key : ∀ i k (rest : List (Option Scalar × JVal)) (e : Bool) t (ts : List Token), i < s.n → t < s.nt → k ≠ .top →
      s.dead t = false → s.coll i = ⟨k, t, false, false, false, none, none, rest, e⟩ →
      ts = openTok k :: (bodyToks rest ++ elisionToks e ++ endToks k) →
      ∃ s', s.step (.copy (.coll k i)) = .ok (s', ts) ∧ Links s' ∧ Keep s.n (some i) s s' := by
    intro i k rest e t ts h1 h2 h3 h4 h5 h6
    refine ⟨s.set i { s.coll i with done := true }, ?_, links_done hl i true, ?_⟩
    · show s.copy (.coll k i) = _
      rw [ISim.copy_ok h1 (by rw [h5]) (by rw [h5]; exact h3) (by rw [h5]) (by rw [h5])]
      simp only [h5, h4, h6]
      simp [ISim.finA, frame]
    · refine ⟨Nat.le_refl _, Nat.le_refl _, ?_, fun _ _ => rfl, fun _ _ => rfl⟩
      intro j _ hj
      exact set_ne _ _ (by intro e; exact hj (by rw [e]))
  cases v with
  | scalar k =>
    have h : x = .scalar k := h
    subst h
    exact ⟨s, rfl, hl, Keep.refl _ _ _⟩
  | arr items e =>
    obtain ⟨i, t, h1, h2, h3, h4, h5⟩ := h
    subst h1
    refine key i .arr _ e t _ h2 h3 (by simp) h4 h5 ?_
    simp [JVal.members, bodyToks_items, openTok, endToks]
  | obj ms e =>
    obtain ⟨i, t, h1, h2, h3, h4, h5⟩ := h
    subst h1
    refine key i .obj _ e t _ h2 h3 (by simp) h4 h5 ?_
    simp [JVal.members, bodyToks_members, openTok, endToks]

/-- Discarding a fresh value. -/
theorem discard_fresh {s : AState} {x : Val} {v : JVal} (hl : Links s) (h : Fresh s x v) :
    ∃ s', s.step (.discard x) = .ok (s', ()) ∧ Links s' ∧ Keep s.n x.idx s s' := by
  cases x with
  | scalar k => exact ⟨s, rfl, hl, Keep.refl _ _ _⟩
  | coll k i =>
    obtain ⟨hk, hb⟩ := h.before rfl
    have hkt : k ≠ .top := by rw [hk]; cases v <;> simp [JVal.kind]
    obtain ⟨k1, k2, k3, k4, k5⟩ := discard_keep s.n s (.coll k i)
    have hcur : (s.coll i).cur = none := by
      cases v with
      | scalar _ => cases h
      | arr _ _ => obtain ⟨i', t, h1, h2, h3, h4, h5⟩ := h; cases h1; rw [h5]
      | obj _ _ => obtain ⟨i', t, h1, h2, h3, h4, h5⟩ := h; cases h1; rw [h5]
    have hset : discard s.n s (.coll k i) = s.set i { s.coll i with done := true } := by
      obtain ⟨m, hm⟩ : ∃ m, s.n = m + 1 := ⟨s.n - 1, by have := hb.lt; omega⟩
      rw [hm]
      simp only [discard]
      rw [if_neg (by rw [hb.done]; simp)]
      simp only [hcur]
    refine ⟨discard s.n s (.coll k i), ?_, ?_, ?_⟩
    · show (if s.n ≤ i ∨ (s.coll i).kind ≠ k ∨ k = .top then _ else _) = _
      rw [if_neg]
      intro h
      rcases h with h | h | h
      · have := hb.lt; omega
      · exact h hb.kind
      · exact hkt h
    · rw [hset]; exact links_done hl i true
    · rw [hset]
      refine ⟨Nat.le_refl _, Nat.le_refl _, ?_, fun _ _ => rfl, fun _ _ => rfl⟩
      intro j _ hj
      exact set_ne _ _ (by intro e; exact hj (by rw [e]; rfl))

/-- Cloning a fresh value. -/
theorem clone_fresh {s : AState} {x : Val} {v : JVal} (hw : WF s) (h : Fresh s x v) :
    ∃ s' y d, s.step (.clone x) = .ok (s', (y, d)) ∧ Keep s.n x.idx s s' ∧ Fresh s' x v ∧ Fresh s' y v ∧
      (∀ j, y.idx = some j → j = s.n) ∧ (∀ t, d = some t → s.nt ≤ t ∧ t < s'.nt ∧ s'.det t = true) := by
  have key : ∀ i k (rest : List (Option Scalar × JVal)) (e : Bool) t, i < s.n → t < s.nt → k ≠ .top →
      s.dead t = false → s.coll i = ⟨k, t, false, false, false, none, none, rest, e⟩ →
      ∃ s' d, s.step (.clone (.coll k i)) = .ok (s', (.coll k s.n, some d)) ∧ Keep s.n (some i) s s' ∧
        s.nt ≤ d ∧ d < s'.nt ∧ s'.det d = true ∧ s'.n = s.n + 1 ∧
        (∃ t', t' < s'.nt ∧ s'.dead t' = false ∧ s'.coll i = ⟨k, t', false, false, false, none, none, rest, e⟩) ∧
        (∃ t', t' < s'.nt ∧ s'.dead t' = false ∧ s'.coll s.n = ⟨k, t', false, false, false, none, none, rest, e⟩) := by
    intro i k rest e t h1 h2 h3 h4 h5
    have hc : s.step (.clone (.coll k i)) = (s.clone (.coll k i)).map fun (s, v, t) => (s, (v, t)) := rfl
    rw [hc]
    unfold clone
    simp only [h5, h4]
    rw [if_neg (by simp; omega), if_neg (by simp [begun, h3]), if_neg (by simp)]
    by_cases ht : t = 0
    · rw [if_pos ht, if_neg h3]
      refine ⟨_, _, rfl, ?_, ?_, ?_, ?_, rfl, ?_, ?_⟩
      · refine ⟨Nat.le_succ _, Nat.le_add_right _ _, ?_, fun _ _ => rfl, ?_⟩
        · intro j hj hji
          show (AState.alloc _ _).coll j = _
          rw [AInv.alloc_old (s := s.set i _) hj]
          exact set_ne _ _ (by intro e; exact hji (by rw [e]))
        · intro u hu
          show (if u = s.nt + 1 then true else s.det u) = s.det u
          rw [if_neg (by omega)]
      · omega
      · show s.nt + 1 < s.nt + 2; omega
      · show (if s.nt + 1 = s.nt + 1 then true else _) = true
        simp
      · refine ⟨s.nt, ?_, hw.dead _ (Nat.le_refl _), ?_⟩
        · show s.nt < s.nt + 2; omega
        · show (AState.alloc _ _).coll i = _
          rw [AInv.alloc_old (s := s.set i _) h1, set_same]
      · refine ⟨s.nt + 1, ?_, hw.dead _ (by omega), ?_⟩
        · show s.nt + 1 < s.nt + 2; omega
        · show (if s.n = s.n then _ else _) = _
          rw [if_pos rfl]
    · rw [if_neg ht]
      refine ⟨_, _, rfl, ?_, ?_, ?_, ?_, rfl, ?_, ?_⟩
      · refine ⟨Nat.le_succ _, Nat.le_add_right _ _, ?_, fun _ _ => rfl, ?_⟩
        · intro j hj hji
          exact AInv.alloc_old hj
        · intro u hu
          show (if u = s.nt then true else s.det u) = s.det u
          rw [if_neg (by omega)]
      · exact Nat.le_refl _
      · exact Nat.lt_succ_self _
      · show (if s.nt = s.nt then true else _) = true
        simp
      · refine ⟨t, Nat.lt_succ_of_lt h2, h4, ?_⟩
        show (AState.alloc _ _).coll i = _
        rw [AInv.alloc_old h1, h5]
      · exact ⟨s.nt, Nat.lt_succ_self _, hw.dead _ (Nat.le_refl _), AInv.alloc_new⟩
  cases v with
  | scalar k =>
    have h : x = .scalar k := h
    subst h
    exact ⟨s, .scalar k, none, rfl, Keep.refl _ _ _, rfl, rfl, (fun _ e => nomatch e), (fun _ e => nomatch e)⟩
  | arr items e =>
    obtain ⟨i, t, h1, h2, h3, h4, h5⟩ := h
    subst h1
    obtain ⟨s', d, g1, g2, g3, g4, g5, g6, ⟨t1, a1, a2, a3⟩, ⟨t2, b1, b2, b3⟩⟩ := key i .arr _ e t h2 h3 (by simp) h4 h5
    refine ⟨s', _, some d, g1, g2, ⟨i, t1, rfl, by omega, a1, a2, a3⟩, ⟨s.n, t2, rfl, by omega, b1, b2, b3⟩, ?_, ?_⟩
    · intro j e; cases e; rfl
    · intro u e; cases e; exact ⟨g3, g4, g5⟩
  | obj ms e =>
    obtain ⟨i, t, h1, h2, h3, h4, h5⟩ := h
    subst h1
    obtain ⟨s', d, g1, g2, g3, g4, g5, g6, ⟨t1, a1, a2, a3⟩, ⟨t2, b1, b2, b3⟩⟩ := key i .obj _ e t h2 h3 (by simp) h4 h5
    refine ⟨s', _, some d, g1, g2, ⟨i, t1, rfl, by omega, a1, a2, a3⟩, ⟨s.n, t2, rfl, by omega, b1, b2, b3⟩, ?_, ?_⟩
    · intro j e; cases e; rfl
    · intro u e; cases e; exact ⟨g3, g4, g5⟩

/-- Detaching. -/
theorem detach_ok {s : AState} {t : Nat} (ht : t < s.nt) (hd : s.det t = true) :
    ∃ s', s.step (.detach t) = .ok (s', ()) ∧ s'.n = s.n ∧ s'.nt = s.nt ∧ s'.coll = s.coll ∧
      (∀ u, u ≠ t → s'.dead u = s.dead u) ∧ s'.det = s.det := by
  refine ⟨{ s with dead := fun u => if u = t then true else s.dead u }, ?_, rfl, rfl, rfl, ?_, rfl⟩
  · show (if t < s.nt ∧ (s.det t || s.dead t) = true then _ else _) = _
    rw [if_pos ⟨ht, by rw [hd]; rfl⟩]
  · intro u hu
    show (if u = t then true else s.dead u) = s.dead u
    rw [if_neg hu]

end AState

open AState

/-- A program that does not advance the iterator over the input. -/
def IProg.AvoidsRoot {ε α : Type} : IProg ε α → Prop
  | .ret _ => True
  | .fail _ => True
  | .emit _ k => k.AvoidsRoot
  | .op o k => o ≠ .advance 0 ∧ ∀ r, (k r).AvoidsRoot

theorem IProg.root_run {ε α : Type} (p : IProg ε α) (hp : p.AvoidsRoot) {s : AState} {rt} (h : Root s rt) (hw : WF s)
    {s' : AState} {a : α} (hr : (p.run AState.mach s).2 = .ok (s', a)) : Root s' rt ∧ WF s' := by
  induction p generalizing s with
  | ret b => simp only [run_ret] at hr; cases hr; exact ⟨h, hw⟩
  | fail e => simp only [run_fail] at hr; cases hr
  | emit e k ih => exact ih hp h hw hr
  | op o k ih =>
    simp only [run] at hr
    cases hs : AState.mach.step s o with
    | error e => rw [hs] at hr; cases hr
    | ok r =>
      obtain ⟨s1, x⟩ := r
      rw [hs] at hr
      exact ih x (hp.2 x) (h.step hw hp.1 hs) (hw.step hs) hr

/-- All runs preserve the invariants. -/
theorem IProg.wf_run {ε α : Type} (p : IProg ε α) {s : AState} (hw : WF s)
    {s' : AState} {a : α} (hr : (p.run AState.mach s).2 = .ok (s', a)) : WF s' := by
  induction p generalizing s with
  | ret b => simp only [run_ret] at hr; cases hr; exact hw
  | fail e => simp only [run_fail] at hr; cases hr
  | emit e k ih => exact ih hw hr
  | op o k ih =>
    simp only [run] at hr
    cases hs : AState.mach.step s o with
    | error e => rw [hs] at hr; cases hr
    | ok r =>
      obtain ⟨s1, x⟩ := r
      rw [hs] at hr
      exact ih x (hw.step hs) hr

end Verif
