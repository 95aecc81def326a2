import Verif.IterClones

/-!
# What operations leave alone

A finer description of the effect of operations than `Keep`: a set of handles that may change, a set
of threads that may end, and where threads and current values of other handles come from.
-/

set_option linter.unusedSimpArgs false
set_option linter.unusedVariables false

namespace Verif
namespace AState

/-- Only handles in `X` and threads in `D` change.  Threads of other handles, and new threads, are
either new or those of handles in `X`; new current values are new handles. -/
structure Eff (X D : Nat → Prop) (s s' : AState) : Prop where
  n : s.n ≤ s'.n
  nt : s.nt ≤ s'.nt
  coll : ∀ h < s.n, ¬ X h → s'.coll h = s.coll h
  dead : ∀ t < s.nt, ¬ D t → s'.dead t = s.dead t
  det : ∀ t < s.nt, s'.det t = s.det t
  thr : ∀ h < s'.n, s.nt ≤ (s'.coll h).thr ∨ ∃ g < s.n, (X g ∨ g = h) ∧ (s'.coll h).thr = (s.coll g).thr
  cur : ∀ g < s'.n, ∀ k h, (s'.coll g).cur = some (.coll k h) → s.n ≤ h ∨ (g < s.n ∧ (s.coll g).cur = some (.coll k h))

theorem Eff.refl (X D) (s : AState) : Eff X D s s :=
  ⟨Nat.le_refl _, Nat.le_refl _, fun _ _ _ => rfl, fun _ _ _ => rfl, fun _ _ => rfl,
    fun h hh => .inr ⟨h, hh, .inr rfl, rfl⟩, fun g hg k h e => .inr ⟨hg, e⟩⟩

theorem Eff.trans {X D X' D' : Nat → Prop} {s s' s'' : AState} (h : Eff X D s s') (h' : Eff X' D' s' s'')
    (hX : ∀ i < s.n, X' i → X i) (hD : ∀ t < s.nt, D' t → D t) : Eff X D s s'' := by
  refine ⟨Nat.le_trans h.n h'.n, Nat.le_trans h.nt h'.nt, ?_, ?_, ?_, ?_, ?_⟩
  · intro i hi hx
    rw [h'.coll i (Nat.lt_of_lt_of_le hi h.n) (fun e => hx (hX i hi e)), h.coll i hi hx]
  · intro t ht hd
    rw [h'.dead t (Nat.lt_of_lt_of_le ht h.nt) (fun e => hd (hD t ht e)), h.dead t ht hd]
  · intro t ht
    rw [h'.det t (Nat.lt_of_lt_of_le ht h.nt), h.det t ht]
  · intro i hi
    rcases h'.thr i hi with h1 | ⟨g, hg, h1, h2⟩
    · exact .inl (Nat.le_trans h.nt h1)
    · rw [h2]
      rcases h.thr g hg with h3 | ⟨g', hg', h3, h4⟩
      · exact .inl h3
      · refine .inr ⟨g', hg', ?_, h4⟩
        rcases h3 with h3 | h3
        · exact .inl h3
        · subst h3
          rcases h1 with h1 | h1
          · exact .inl (hX _ hg' h1)
          · exact .inr h1
  · intro g hg k i e
    rcases h'.cur g hg k i e with h1 | ⟨h1, h2⟩
    · exact .inl (Nat.le_trans h.n h1)
    · exact h.cur g h1 k i h2

theorem Eff.mono {X D X' D' : Nat → Prop} {s s' : AState} (h : Eff X D s s') (hX : ∀ i < s.n, X i → X' i)
    (hD : ∀ t < s.nt, D t → D' t) : Eff X' D' s s' :=
  (Eff.refl X' D' s).trans h hX hD

/-- Writing to a handle. -/
theorem eff_set {s : AState} (i : Nat) (c : AColl) (ht : c.thr = (s.coll i).thr)
    (hc : ∀ k h, c.cur = some (.coll k h) → s.n ≤ h ∨ (s.coll i).cur = some (.coll k h)) :
    Eff (· = i) (fun _ => False) s (s.set i c) := by
  refine ⟨Nat.le_refl _, Nat.le_refl _, fun h _ hx => set_ne _ _ hx, fun _ _ _ => rfl, fun _ _ => rfl, ?_, ?_⟩
  · intro h hh
    refine .inr ⟨h, hh, .inr rfl, ?_⟩
    by_cases e : h = i
    · subst e; rw [set_same, ht]
    · rw [set_ne _ _ e]
  · intro g hg k h e
    by_cases e' : g = i
    · subst e'; rw [set_same] at e
      rcases hc k h e with h1 | h1
      · exact .inl h1
      · exact .inr ⟨hg, h1⟩
    · rw [set_ne _ _ e'] at e
      exact .inr ⟨hg, e⟩

/-- A new handle, on the thread of a handle in `X` or on a new thread. -/
theorem eff_alloc {s : AState} (X D : Nat → Prop) (c : AColl) (hc : c.cur = none)
    (ht : s.nt ≤ c.thr ∨ ∃ g < s.n, X g ∧ c.thr = (s.coll g).thr) : Eff X D s (s.alloc c) := by
  refine ⟨Nat.le_succ _, Nat.le_refl _, fun h hh _ => AInv.alloc_old hh, fun _ _ _ => rfl, fun _ _ => rfl, ?_, ?_⟩
  · intro h hh
    have hh : h < s.n + 1 := hh
    rw [AInv.alloc_coll]
    by_cases e : h = s.n
    · rw [if_pos e]
      rcases ht with h1 | ⟨g, h1, h2, h3⟩
      · exact .inl h1
      · exact .inr ⟨g, h1, .inl h2, h3⟩
    · rw [if_neg e]
      exact .inr ⟨h, by omega, .inr rfl, rfl⟩
  · intro g hg k h e
    have hg : g < s.n + 1 := hg
    rw [AInv.alloc_coll] at e
    by_cases e' : g = s.n
    · rw [if_pos e', hc] at e; cases e
    · rw [if_neg e'] at e
      exact .inr ⟨by omega, e⟩

theorem eff_handle {s : AState} (X D : Nat → Prop) (v : JVal) {i : Nat} (hi : i < s.n) (hX : X i) :
    Eff X D s (s.handle v (s.coll i).thr).1 := by
  cases v with
  | scalar k => exact Eff.refl _ _ _
  | arr items e => exact eff_alloc X D _ rfl (.inr ⟨i, hi, hX, rfl⟩)
  | obj ms e => exact eff_alloc X D _ rfl (.inr ⟨i, hi, hX, rfl⟩)

/-- The current value of the handle is done, or was not begun: nothing inside it is open. -/
def Quiet (s : AState) (i : Nat) : Prop :=
  ∀ k c, (s.coll i).cur = some (.coll k c) → c < s.n ∧ ((s.coll c).done = true ∨ (s.coll c).cur = none)

/-- The handle and its current value. -/
def Self (s : AState) (i : Nat) (h : Nat) : Prop := h = i ∨ ∃ k, (s.coll i).cur = some (.coll k h)

theorem eff_discardCur {s : AState} {i : Nat} (hq : Quiet s i) (hi : i < s.n) :
    Eff (Self s i) (fun _ => False) s (s.discardCur i) ∧ (s.discardCur i).n = s.n := by
  unfold discardCur
  obtain ⟨m, hm⟩ : ∃ m, s.n = m + 1 := ⟨s.n - 1, by omega⟩
  split
  · exact ⟨Eff.refl _ _ _, rfl⟩
  · rename_i v hv
    rw [hm]
    cases v with
    | scalar k => exact ⟨Eff.refl _ _ _, hm⟩
    | coll k c =>
      obtain ⟨h1, h2⟩ := hq k c hv
      unfold discard
      by_cases hd : (s.coll c).done = true
      · rw [if_pos hd]; exact ⟨Eff.refl _ _ _, hm⟩
      · rw [if_neg hd]
        have hc := h2.resolve_left hd
        simp only [hc]
        refine ⟨Eff.mono (X := (· = c)) (D := fun _ => False) (eff_set c _ rfl (fun k h e => nomatch e)) ?_ (fun _ _ e => e), hm⟩
        intro j _ e
        subst e
        exact .inr ⟨k, hv⟩

/-- `Advance` of a collection. -/
theorem eff_advance {s s' : AState} {i : Nat} {b : Bool} (hw : WF s) (hk : (s.coll i).kind ≠ .top) (hq : Quiet s i)
    (h : s.step (.advance i) = .ok (s', b)) : Eff (Self s i) (fun _ => False) s s' := by
  obtain ⟨hi, h1 | h1⟩ := advance_eqs h
  · have := h1.1
    simp only [Prod.mk.injEq] at this
    rw [this.1]; exact Eff.refl _ _ _
  · obtain ⟨e1, e2⟩ := eff_discardCur hq hi
    obtain ⟨c1, c2, c3, c4⟩ := discardCur_keep (n0 := i + 1) hw.links hi (Nat.lt_succ_self _)
      (fun k j e => (hw.links i hi k j e).1)
    have hci := c1.coll i (Nat.lt_succ_self _) (by simp)
    generalize s.discardCur i = s1 at *
    have hi1 : i < s1.n := by omega
    refine e1.trans (X' := (· = i)) (D' := fun _ => False) ?_ (fun j _ e => .inl e) (fun _ _ e => e)
    cases hd : s1.dead (s1.coll i).thr with
    | true =>
      rw [ISim.advance'_dead hd, if_neg (by rw [hci]; exact hk)] at h1
      cases h1
    | false =>
      cases hr : (s1.coll i).rest with
      | nil =>
        rw [ISim.advance'_nil hd hr, if_neg (by rw [hci]; exact hk)] at h1
        simp only [Except.ok.injEq, Prod.mk.injEq] at h1
        rw [← h1.1]
        exact eff_set i _ rfl (fun k h e => .inr e)
      | cons m r =>
        obtain ⟨key, v⟩ := m
        rw [ISim.advance'_cons hd hr] at h1
        simp only [Except.ok.injEq, Prod.mk.injEq] at h1
        rw [← h1.1]
        have hh := eff_handle (· = i) (fun _ => False) v hi1 rfl
        have hf := handle_fresh v (s := s1) (t := (s1.coll i).thr) (by rw [hci, c4]; exact hw.thr i hi) hd c2
        generalize hs2 : s1.handle v (s1.coll i).thr = sx at *
        obtain ⟨s2, x⟩ := sx
        simp only at hh hf ⊢
        have hc2 : s2.coll i = s1.coll i := hf.2.1.coll i hi1 (by simp)
        have h3 : Eff (· = i) (fun _ => False) s1 (s2.set i { s1.coll i with
            started := (s1.coll i).kind ≠ .top, key := key, cur := some x, rest := r }) := by
          have hn := hf.2.1.n
          refine ⟨hh.n, hh.nt, ?_, hh.dead, hh.det, ?_, ?_⟩
          · intro j hj hx; rw [set_ne _ _ hx]; exact hh.coll j hj hx
          · intro j hj
            by_cases e : j = i
            · subst e; rw [set_same]; exact .inr ⟨j, hi1, .inr rfl, rfl⟩
            · rw [set_ne _ _ e]; exact hh.thr j hj
          · intro j hj k c e
            by_cases e' : j = i
            · subst e'; rw [set_same] at e
              have e : some x = some (.coll k c) := e
              simp only [Option.some.injEq] at e
              exact .inl (by rw [(hf.2.2.2.1 k c e).1]; exact Nat.le_refl _)
            · rw [set_ne _ _ e'] at e
              exact hh.cur j hj k c e
        exact h3

/-- `Clone` of an unread value. -/
theorem eff_clone {s s' : AState} {x y : Val} {d : Option Nat} {v : JVal} (hw : WF s) (hx : Fresh s x v)
    (h : s.step (.clone x) = .ok (s', (y, d))) : Eff (fun j => x.idx = some j) (fun _ => False) s s' := by
  have key : ∀ i k (rest : List (Option Scalar × JVal)) (e : Bool) t, i < s.n → t < s.nt → k ≠ .top →
      s.dead t = false → s.coll i = ⟨k, t, false, false, false, none, none, rest, e⟩ →
      s.step (.clone (.coll k i)) = .ok (s', (y, d)) → Eff (fun j => some i = some j) (fun _ => False) s s' := by
    intro i k rest e t h1 h2 h3 h4 h5 h
    have hc : s.step (.clone (.coll k i)) = (s.clone (.coll k i)).map fun (s, v, t) => (s, (v, t)) := rfl
    rw [hc] at h
    unfold clone at h
    simp only [h5, h4] at h
    rw [if_neg (by simp; omega), if_neg (by simp [begun, h3]), if_neg (by simp)] at h
    by_cases ht : t = 0
    · rw [if_pos ht, if_neg h3] at h
      simp only [Except.map, Except.ok.injEq, Prod.mk.injEq] at h
      rw [← h.1]
      refine ⟨Nat.le_succ _, Nat.le_add_right _ _, ?_, fun _ _ _ => rfl, ?_, ?_, ?_⟩
      · intro j hj hji
        show (AState.alloc _ _).coll j = _
        rw [AInv.alloc_old (s := s.set i _) hj]
        exact set_ne _ _ (by intro e; exact hji (by rw [e]))
      · intro u hu
        show (if u = s.nt + 1 then true else s.det u) = s.det u
        rw [if_neg (by omega)]
      · intro j hj
        have hj : j < s.n + 1 := hj
        show s.nt ≤ ((AState.alloc _ _).coll j).thr ∨ ∃ g < s.n, _ ∧ ((AState.alloc _ _).coll j).thr = _
        rw [AInv.alloc_coll]
        by_cases e1 : j = s.n
        · rw [if_pos (by exact e1)]; exact .inl (Nat.le_succ _)
        · rw [if_neg (by exact e1)]
          by_cases e2 : j = i
          · rw [e2, set_same]; exact .inl (Nat.le_refl _)
          · rw [set_ne _ _ e2]; exact .inr ⟨j, by omega, .inr rfl, rfl⟩
      · intro g hg k' j e1
        have hg : g < s.n + 1 := hg
        have e1 : ((AState.alloc (s.set i _) _).coll g).cur = some (.coll k' j) := e1
        rw [AInv.alloc_coll] at e1
        by_cases e2 : g = s.n
        · rw [if_pos (by exact e2)] at e1; cases e1
        · rw [if_neg (by exact e2)] at e1
          by_cases e3 : g = i
          · rw [e3, set_same] at e1; cases e1
          · rw [set_ne _ _ e3] at e1; exact .inr ⟨by omega, e1⟩
    · rw [if_neg ht] at h
      simp only [Except.map, Except.ok.injEq, Prod.mk.injEq] at h
      rw [← h.1]
      have ha := eff_alloc (s := s) (fun j => some i = some j) (fun _ => False)
        ⟨k, s.nt, false, false, false, none, none, rest, e⟩ rfl (.inl (Nat.le_refl _))
      refine ⟨ha.n, Nat.le_succ _, ha.coll, ha.dead, ?_, ha.thr, ha.cur⟩
      intro u hu
      show (if u = s.nt then true else s.det u) = s.det u
      rw [if_neg (by omega)]
  cases v with
  | scalar k =>
    have hx : x = .scalar k := hx
    subst hx
    have h : Except.ok (s, (Val.scalar k, none)) = Except.ok (s', (y, d)) := h
    simp only [Except.ok.injEq, Prod.mk.injEq] at h
    rw [← h.1]
    exact Eff.refl _ _ _
  | arr items e =>
    obtain ⟨i, t, h1, h2, h3, h4, h5⟩ := hx
    subst h1
    exact key i .arr _ e t h2 h3 (by simp) h4 h5 h
  | obj ms e =>
    obtain ⟨i, t, h1, h2, h3, h4, h5⟩ := hx
    subst h1
    exact key i .obj _ e t h2 h3 (by simp) h4 h5 h

/-- `detach`. -/
theorem eff_detach {s : AState} {t : Nat} (ht : t < s.nt) (hd : s.det t = true) :
    ∃ s', s.step (.detach t) = .ok (s', ()) ∧ Eff (fun _ => False) (· = t) s s' ∧ s'.coll = s.coll ∧ s'.n = s.n := by
  obtain ⟨s', e1, e2, e3, e4, e5, e6⟩ := detach_ok ht hd
  refine ⟨s', e1, ⟨by omega, by omega, fun _ _ _ => by rw [e4], fun u _ hu => e5 u hu, fun _ _ => by rw [e6], ?_, ?_⟩, e4, e2⟩
  · intro h hh; rw [e4]; exact .inr ⟨h, by omega, .inr rfl, rfl⟩
  · intro g hg k h e; rw [e4] at e; exact .inr ⟨by omega, e⟩

theorem Fresh.eff {X D : Nat → Prop} {s s' : AState} {x : Val} {v : JVal} (h : Fresh s x v) (he : Eff X D s s')
    (hx : ∀ i, x.idx = some i → ¬ X i ∧ ¬ D (s.coll i).thr) : Fresh s' x v := by
  cases v with
  | scalar k => exact h
  | arr items e =>
    obtain ⟨i, t, h1, h2, h3, h4, h5⟩ := h
    obtain ⟨a, b⟩ := hx i (by rw [h1]; rfl)
    rw [h5] at b
    exact ⟨i, t, h1, Nat.lt_of_lt_of_le h2 he.n, Nat.lt_of_lt_of_le h3 he.nt, by rw [he.dead t h3 b]; exact h4,
      by rw [he.coll i h2 a]; exact h5⟩
  | obj ms e =>
    obtain ⟨i, t, h1, h2, h3, h4, h5⟩ := h
    obtain ⟨a, b⟩ := hx i (by rw [h1]; rfl)
    rw [h5] at b
    exact ⟨i, t, h1, Nat.lt_of_lt_of_le h2 he.n, Nat.lt_of_lt_of_le h3 he.nt, by rw [he.dead t h3 b]; exact h4,
      by rw [he.coll i h2 a]; exact h5⟩

theorem Before.eff {X D : Nat → Prop} {s s' : AState} {n0 i k r e} (h : Before s n0 i k r e) (he : Eff X D s s')
    (hx : ¬ X i) (hd : ¬ D (s.coll i).thr) : Before s' n0 i k r e := by
  have := he.coll i h.lt hx
  exact ⟨Nat.lt_of_lt_of_le h.lt he.n, by rw [this, h.kind], by rw [this, h.done], by rw [this, h.elided],
    by rw [this, h.rest], by rw [this, h.e], by rw [this]; exact Nat.lt_of_lt_of_le h.thr he.nt,
    by rw [this, he.dead _ h.thr hd, h.alive], by rw [this]; exact h.cur, Nat.le_trans h.base he.n, h.i0⟩

/-- The current value may be changed if it is left quiet. -/
theorem Quiet.eff {X D : Nat → Prop} {s s' : AState} {i : Nat} (h : Quiet s i) (he : Eff X D s s') (hi : i < s.n)
    (hx : ¬ X i) (hc : ∀ k c, (s.coll i).cur = some (.coll k c) → X c → (s'.coll c).done = true ∨ (s'.coll c).cur = none) :
    Quiet s' i := by
  intro k c e
  rw [he.coll i hi hx] at e
  obtain ⟨h1, h2⟩ := h k c e
  refine ⟨Nat.lt_of_lt_of_le h1 he.n, ?_⟩
  by_cases hX : X c
  · exact hc k c e hX
  · rw [he.coll c h1 hX]; exact h2

theorem Fresh.lt {s : AState} {x : Val} {v : JVal} (h : Fresh s x v) : ∀ i, x.idx = some i → i < s.n := by
  intro i e
  cases x with
  | scalar k => cases e
  | coll k i' => cases e; exact (h.before rfl).2.lt

theorem Fresh.cur {s : AState} {x : Val} {v : JVal} (h : Fresh s x v) : ∀ i, x.idx = some i → (s.coll i).cur = none := by
  intro i e
  cases v with
  | scalar k => have h : x = .scalar k := h; subst h; cases e
  | arr items b =>
    obtain ⟨i', t, h1, h2, h3, h4, h5⟩ := h
    subst h1; cases e; rw [h5]
  | obj ms b =>
    obtain ⟨i', t, h1, h2, h3, h4, h5⟩ := h
    subst h1; cases e; rw [h5]

/-- `Advance` to a member, for two-sided reasoning. -/
theorem adv_cons_eff {s : AState} {n0 i k key v r e} (hw : WF s) (h : Before s n0 i k ((key, v) :: r) e) (hk : k ≠ .top)
    (hq : Quiet s i) :
    ∃ s' x, s.step (.advance i) = .ok (s', true) ∧ s'.step (.current i) = .ok (s', (key, some x)) ∧ WF s' ∧
      Before s' n0 i k r e ∧ Quiet s' i ∧ Eff (Self s i) (fun _ => False) s s' ∧ (s'.coll i).cur = some x ∧ Fresh s' x v ∧
      (∀ j, x.idx = some j → s.n ≤ j) := by
  obtain ⟨s', x, e1, e2, e3, e4, e5, e6, e7, e8, e9⟩ := adv_cons hw.links h
  refine ⟨s', x, e1, ?_, hw.step e1, e3, ?_, eff_advance hw (by rw [h.kind]; exact hk) hq e1, e6, e7, e8⟩
  · rw [current_ok e3, e5, e6]
  · intro k' c e'
    rw [e6] at e'
    simp only [Option.some.injEq] at e'
    exact ⟨e7.lt c (by rw [e']; rfl), .inr (e7.cur c (by rw [e']; rfl))⟩

/-- `Advance` at the end. -/
theorem adv_nil_eff {s : AState} {n0 i k e} (hw : WF s) (h : Before s n0 i k [] e) (hk : k ≠ .top) (hq : Quiet s i) :
    ∃ s', s.step (.advance i) = .ok (s', false) ∧ WF s' ∧ Eff (Self s i) (fun _ => False) s s' ∧ (s'.coll i).done = true := by
  obtain ⟨s', e1, e2, e3, e4, e5, e6, e7⟩ := adv_nil hw.links h hk
  exact ⟨s', e1, hw.step e1, eff_advance hw (by rw [h.kind]; exact hk) hq e1, e6⟩

end AState
end Verif
