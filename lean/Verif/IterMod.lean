import Verif.EqualLogic

/-!
# Footprints

What a program changes, as a set of handles: threads may end only if all their handles are in the set.
-/

set_option linter.unusedSimpArgs false
set_option linter.unusedVariables false

namespace Verif
namespace AState

/-- Only handles in `F` change, or are on threads that end. -/
structure Mod (F : Nat → Prop) (s s' : AState) : Prop where
  wf : WF s'
  eff : Eff F (fun t => ∀ g < s.n, (s.coll g).thr = t → F g) s s'

theorem Mod.refl {F : Nat → Prop} {s : AState} (hw : WF s) : Mod F s s := ⟨hw, Eff.refl _ _ _⟩

theorem Mod.trans {F F' : Nat → Prop} {s s' s'' : AState} (h : Mod F s s') (h' : Mod F' s' s'')
    (hF : ∀ i < s.n, F' i → F i) : Mod F s s'' := by
  refine ⟨h'.wf, h.eff.trans h'.eff hF ?_⟩
  intro t ht hd g hg hgt
  apply Classical.byContradiction
  intro hn
  have hc := h.eff.coll g hg hn
  exact hn (hF g hg (hd g (Nat.lt_of_lt_of_le hg h.eff.n) (by rw [hc]; exact hgt)))

theorem Mod.mono {F F' : Nat → Prop} {s s' : AState} (hw : WF s) (h : Mod F s s') (hF : ∀ i < s.n, F i → F' i) : Mod F' s s' :=
  (Mod.refl hw).trans h hF

theorem Mod.of_eff {F : Nat → Prop} {s s' : AState} (hw : WF s') (h : Eff F (fun _ => False) s s') : Mod F s s' :=
  ⟨hw, h.mono (fun _ _ e => e) (fun _ _ e => e.elim)⟩

theorem Mod.n {F : Nat → Prop} {s s' : AState} (h : Mod F s s') : s.n ≤ s'.n := h.eff.n

theorem Mod.fresh {F : Nat → Prop} {s s' : AState} {x : Val} {v : JVal} (h : Mod F s s') (hx : Fresh s x v)
    (hF : ∀ i, x.idx = some i → ¬ F i) : Fresh s' x v :=
  hx.eff h.eff fun i hi => ⟨hF i hi, fun e => hF i hi (e i (hx.lt i hi) rfl)⟩

theorem Mod.before {F : Nat → Prop} {s s' : AState} {n0 i k r e} (h : Mod F s s') (hb : Before s n0 i k r e) (hF : ¬ F i) :
    Before s' n0 i k r e :=
  hb.eff h.eff hF (fun e => hF (e i hb.lt rfl))

theorem Mod.own {F : Nat → Prop} {s s' : AState} {i : Nat} (h : Mod F s s') (hw : WF s) (ho : Own s i) (hi : i < s.n) (hF : ¬ F i) :
    Own s' i := ho.eff hw hi h.eff hF

/-- A value that was cloned, and what its detach function ends. -/
structure Owned (s : AState) (p : Val × Option Nat) (v : JVal) : Prop where
  fresh : Fresh s p.1 v
  own : ∀ j, p.1.idx = some j → p.2 = some (s.coll j).thr ∧ Own s j
  none : p.1.idx = none → p.2 = none

theorem Mod.owned {F : Nat → Prop} {s s' : AState} {p : Val × Option Nat} {v : JVal} (h : Mod F s s') (hw : WF s) (ho : Owned s p v)
    (hF : ∀ i, p.1.idx = some i → ¬ F i) : Owned s' p v := by
  refine ⟨h.fresh ho.fresh hF, fun j hj => ?_, ho.none⟩
  have hlt := ho.fresh.lt j hj
  rw [h.eff.coll j hlt (hF j hj)]
  exact ⟨(ho.own j hj).1, h.own hw (ho.own j hj).2 hlt (hF j hj)⟩

/-- `Clone`. -/
theorem clone_mod {s : AState} {x : Val} {v : JVal} (hw : WF s) (h : Fresh s x v) :
    ∃ s' p, s.step (.clone x) = .ok (s', p) ∧ Mod (fun j => x.idx = some j) s s' ∧ Fresh s' x v ∧ Owned s' p v ∧
      (∀ j, p.1.idx = some j → s.n ≤ j ∧ s.nt ≤ (s'.coll j).thr) := by
  obtain ⟨s', y, d, e1, e2, e3, e4, e5, e6, e7⟩ := clone_all hw h
  exact ⟨s', (y, d), e1, .of_eff e2 e3, e4, ⟨e5, fun j hj => ⟨(e6 j hj).2.1, (e6 j hj).2.2.2⟩, e7⟩,
    fun j hj => ⟨by have := (e6 j hj).1; omega, (e6 j hj).2.2.1⟩⟩

/-- `detach`, after the clone has been used. -/
theorem detach_mod {ε : Type} {F : Nat → Prop} {s s' : AState} {p : Val × Option Nat} {v : JVal} (hw : WF s) (h : Mod F s s')
    (ho : Owned s p v) (hF : ∀ i, p.1.idx = some i → F i) :
    ∃ s'', (detachOpt p.2 : IProg ε Unit).run AState.mach s' = ([], .ok (s'', ())) ∧ Mod F s s'' ∧
      Eff (fun _ => False) (fun t => p.2 = some t) s' s'' := by
  have hd : ∀ t, p.2 = some t → ∃ j, p.1.idx = some j ∧ t = (s.coll j).thr := by
    intro t ht
    cases hj : p.1.idx with
    | none => rw [ho.none hj] at ht; cases ht
    | some j =>
      rw [(ho.own j hj).1] at ht
      exact ⟨j, rfl, (Option.some.inj ht).symm⟩
  obtain ⟨s'', e1, e2, e3, e4, e5⟩ := run_detachOpt (ε := ε) (d := p.2) h.wf (fun t ht => by
    obtain ⟨j, hj, rfl⟩ := hd t ht
    have hlt := ho.fresh.lt j hj
    have := hw.thr j hlt
    exact ⟨Nat.lt_of_lt_of_le this h.eff.nt, by rw [h.eff.det _ this]; exact (ho.own j hj).2.det⟩)
  refine ⟨s'', e1, ⟨e2, h.eff.trans e3 (fun _ _ e => e.elim) ?_⟩, e3⟩
  intro t _ ht g hg hgt
  obtain ⟨j, hj, rfl⟩ := hd t ht
  rw [(ho.own j hj).2.thr g hg hgt]
  exact hF j hj

/-- A handle is the current value of another. -/
def Sub (s : AState) (h : Nat) : Prop := ∃ g < s.n, ∃ k, (s.coll g).cur = some (.coll k h)

theorem discard_changes {s : AState} (hl : Links s) : ∀ (f : Nat) (k : Kind) (i : Nat), i < s.n →
    ∀ h, (discard f s (.coll k i)).coll h ≠ s.coll h → h = i ∨ Sub s h := by
  intro f
  induction f with
  | zero => intro k i _ h e; exact absurd rfl e
  | succ f ih =>
    intro k i hi h e
    simp only [discard] at e
    split at e
    · exact absurd rfl e
    · by_cases hh : h = i
      · exact .inl hh
      · rw [set_ne _ _ hh] at e
        split at e
        · exact absurd rfl e
        · rename_i v hv
          cases v with
          | scalar x => cases f <;> exact absurd rfl e
          | coll k' i' =>
            rcases ih k' i' (hl i hi k' i' hv).2 h e with h1 | h1
            · exact .inr ⟨i, hi, k', by rw [h1]; exact hv⟩
            · exact .inr h1

/-- Finishing a value. -/
theorem eff_discard {s : AState} (hl : Links s) {X : Nat → Prop} (k : Kind) (i f : Nat) (hi : i < s.n)
    (hX : ∀ h, i ≤ h → (h = i ∨ Sub s h) → X h) : Eff X (fun _ => False) s (discard f s (.coll k i)) := by
  obtain ⟨k1, k2, k3, k4, k5⟩ := discard_keep f s (.coll k i)
  have hc : ∀ j, ∃ d, (discard f s (.coll k i)).coll j = { s.coll j with done := d } := by
    intro j
    rcases k5 j with e | e
    · exact ⟨_, e⟩
    · exact ⟨_, e⟩
  refine ⟨by omega, by omega, ?_, fun _ _ _ => by rw [k3], fun _ _ => by rw [k4], ?_, ?_⟩
  · intro h hh hx
    apply Classical.byContradiction
    intro e
    refine hx (hX h ?_ (discard_changes hl f k i hi h e))
    apply Classical.byContradiction
    intro hlt
    exact e (discard_old s hl f k i hi h (by omega))
  · intro h hh
    rw [k1] at hh
    obtain ⟨d, e⟩ := hc h
    exact .inr ⟨h, hh, .inr rfl, by rw [e]⟩
  · intro g hg k' h e
    rw [k1] at hg
    obtain ⟨d, e'⟩ := hc g
    rw [e'] at e
    exact .inr ⟨hg, e⟩

/-- The handle and what it has produced: the handles from `n0` on that are current values. -/
def Chain (s : AState) (n0 i h : Nat) : Prop := h = i ∨ (n0 ≤ h ∧ Sub s h)

theorem eff_discardCur' {s : AState} {n0 i : Nat} (hl : Links s) (hi : i < s.n)
    (hc : ∀ k j, (s.coll i).cur = some (.coll k j) → n0 ≤ j) : Eff (Chain s n0 i) (fun _ => False) s (s.discardCur i) := by
  unfold discardCur
  split
  · exact Eff.refl _ _ _
  · rename_i v hv
    cases v with
    | scalar k =>
      obtain ⟨m, hm⟩ : ∃ m, s.n = m + 1 := ⟨s.n - 1, by omega⟩
      rw [hm]
      exact Eff.refl _ _ _
    | coll k c =>
      refine eff_discard hl k c s.n (hl i hi k c hv).2 ?_
      intro h h1 h2
      have := hc k c hv
      refine .inr ⟨by omega, ?_⟩
      rcases h2 with rfl | h2
      · exact ⟨i, hi, k, hv⟩
      · exact h2

/-- `Advance` of a collection, or to a value of an iterator. -/
theorem eff_advance' {s s' : AState} {n0 i : Nat} {b : Bool} (hw : WF s) (hk : b = true ∨ (s.coll i).kind ≠ .top)
    (hc : ∀ k j, (s.coll i).cur = some (.coll k j) → n0 ≤ j) (h0 : i < n0)
    (h : s.step (.advance i) = .ok (s', b)) : Eff (Chain s n0 i) (fun _ => False) s s' := by
  obtain ⟨hi, h1 | h1⟩ := advance_eqs h
  · have := h1.1
    simp only [Prod.mk.injEq] at this
    rw [this.1]; exact Eff.refl _ _ _
  · have e1 := eff_discardCur' hw.links hi hc
    obtain ⟨c1, c2, c3, c4⟩ := discardCur_keep (n0 := n0) hw.links hi h0 hc
    have hci := c1.coll i h0 (by simp)
    generalize s.discardCur i = s1 at *
    have hi1 : i < s1.n := by omega
    refine e1.trans (X' := (· = i)) (D' := fun _ => False) ?_ (fun j _ e => .inl e) (fun _ _ e => e)
    cases hd : s1.dead (s1.coll i).thr with
    | true =>
      rw [ISim.advance'_dead hd] at h1
      split at h1
      · rcases hk with hk | hk
        · simp [hk] at h1
        · simp_all
      · cases h1
    | false =>
      cases hr : (s1.coll i).rest with
      | nil =>
        rw [ISim.advance'_nil hd hr] at h1
        split at h1
        · rcases hk with hk | hk
          · simp [hk] at h1
          · simp_all
        · simp only [Except.ok.injEq, Prod.mk.injEq] at h1
          rw [← h1.1]
          exact eff_set i _ rfl (fun k h e => .inr e)
      | cons m r =>
        obtain ⟨key, v⟩ := m
        rw [ISim.advance'_cons hd hr] at h1
        simp only [Except.ok.injEq, Prod.mk.injEq] at h1
        rw [← h1.1]
        have hh := eff_handle (· = i) (fun _ => False) v hi1 rfl
        have hf := handle_fresh v (s := s1) (t := (s1.coll i).thr) (by rw [hci, c4]; exact hw.thr i hi) hd c2
        generalize hs2 : s1.handle v (s1.coll i).thr = sx at *
        obtain ⟨s2, x⟩ := sx
        simp only at hh hf ⊢
        have hc2 : s2.coll i = s1.coll i := hf.2.1.coll i hi1 (by simp)
        have hn := hf.2.1.n
        refine ⟨hh.n, hh.nt, ?_, hh.dead, hh.det, ?_, ?_⟩
        · intro j hj hx; rw [set_ne _ _ hx]; exact hh.coll j hj hx
        · intro j hj
          by_cases e : j = i
          · subst e; rw [set_same]; exact .inr ⟨j, hi1, .inr rfl, rfl⟩
          · rw [set_ne _ _ e]; exact hh.thr j hj
        · intro j hj k c e
          by_cases e' : j = i
          · subst e'; rw [set_same] at e
            have e : some x = some (.coll k c) := e
            simp only [Option.some.injEq] at e
            exact .inl (by rw [(hf.2.2.2.1 k c e).1]; exact Nat.le_refl _)
          · rw [set_ne _ _ e'] at e
            exact hh.cur j hj k c e

/-- `Advance` to a member. -/
theorem adv_cons_mod {s : AState} {n0 i k key v r e} (hw : WF s) (h : Before s n0 i k ((key, v) :: r) e) :
    ∃ s' x, s.step (.advance i) = .ok (s', true) ∧ s'.step (.current i) = .ok (s', (key, some x)) ∧
      Before s' n0 i k r e ∧ Mod (Chain s n0 i) s s' ∧ Fresh s' x v ∧ (∀ j, x.idx = some j → s.n ≤ j) := by
  obtain ⟨s', x, e1, e2, e3, e4, e5, e6, e7, e8, e9⟩ := adv_cons hw.links h
  refine ⟨s', x, e1, ?_, e3, .of_eff (hw.step e1) (eff_advance' hw (.inl rfl) h.cur h.i0 e1), e7, e8⟩
  rw [current_ok e3, e5, e6]

/-- `Advance` at the end. -/
theorem adv_nil_mod {s : AState} {n0 i k e} (hw : WF s) (h : Before s n0 i k [] e) (hk : k ≠ .top) :
    ∃ s', s.step (.advance i) = .ok (s', false) ∧ Mod (Chain s n0 i) s s' ∧ (s'.coll i).done = true ∧ (s'.coll i).kind = k ∧ i < s'.n := by
  obtain ⟨s', e1, e2, e3, e4, e5, e6, e7⟩ := adv_nil hw.links h hk
  exact ⟨s', e1, .of_eff (hw.step e1) (eff_advance' hw (.inr (by rw [h.kind]; exact hk)) h.cur h.i0 e1), e6, e7, e4⟩

/-- `Advance` after the end. -/
theorem adv_done {s : AState} {i : Nat} (hi : i < s.n) (hd : (s.coll i).done = true) (hk : (s.coll i).kind ≠ .top) :
    s.step (.advance i) = .ok (s, false) := by
  simp only [step, advance]
  rw [if_neg (by omega), if_pos ⟨hk, hd⟩]

/-- `Discard` of an unread value. -/
theorem discard_mod {s : AState} {x : Val} {v : JVal} (hw : WF s) (h : Fresh s x v) :
    ∃ s', s.step (.discard x) = .ok (s', ()) ∧ Mod (fun j => x.idx = some j) s s' := by
  cases x with
  | scalar k => exact ⟨s, rfl, .refl hw⟩
  | coll k i =>
    obtain ⟨h1, h2⟩ := h.before rfl
    have hk : k ≠ .top := by rw [h1]; cases v <;> simp [JVal.kind] <;> cases h
    have hs : s.step (.discard (.coll k i)) = .ok (discard s.n s (.coll k i), ()) := by
      show (if s.n ≤ i ∨ (s.coll i).kind ≠ k ∨ k = .top then _ else _) = _
      rw [if_neg]
      have := h2.lt
      have := h2.kind
      simp [hk, this]; omega
    refine ⟨_, hs, .of_eff (hw.step hs) ?_⟩
    have hc := h.cur i rfl
    obtain ⟨m, hm⟩ : ∃ m, s.n = m + 1 := ⟨s.n - 1, by have := h2.lt; omega⟩
    rw [hm]
    unfold discard
    split
    · exact Eff.refl _ _ _
    · rw [hc]
      exact Eff.mono (X := (· = i)) (D := fun _ => False) (eff_set (s := s) i { s.coll i with done := true } rfl (fun k h e => .inr e))
        (fun j _ e => congrArg some e.symm) (fun _ _ e => e)

end AState
end Verif
