import Verif.IterSim2

/-!
# Simulation of all iterator operations
-/

set_option linter.unusedSimpArgs false
set_option linter.unusedVariables false

namespace Verif

open Streams JVal.toks

namespace ISim

variable {h : Heap} {s : AState} {stk : Nat → List Nat} {view : Nat → Option (List Token)}
  {lt : Option Nat} {dat : Nat → Bool} {junk : Nat → List Token}

/-- Reading a member. -/
theorem tail_member (H : ISim h s stk view lt dat junk) {i tl} (hs : stk (s.coll i).thr = i :: tl)
    (hc : ChildDone s i) {k v r} (hr : (s.coll i).rest = (k, v) :: r) (f : Nat) :
    ∃ h', tail (s.coll i).kind f h i = .ok (h', true) ∧
      ISimE h' ((s.handle v (s.coll i).thr).1.set i
        { s.coll i with started := (s.coll i).kind ≠ .top, key := k,
                        cur := some (s.handle v (s.coll i).thr).2, rest := r }) := by
  have hm := H.inv.mem _ i (show i ∈ stk (s.coll i).thr by simp [hs])
  have hcoll := H.coll i hm.1
  have hstr : (h.coll i).stream = (s.coll i).thr := by rw [hcoll]; rfl
  have htnt : (s.coll i).thr < h.st.nt := by rw [H.nt]; exact H.inv.thr i hm.1
  have ha := H.alive_of_mem (show i ∈ stk (s.coll i).thr by simp [hs])
  have hl : (s.coll i).thr = 0 → lt = none := by
    intro e; rw [e] at hs; exact H.inv.lt_none hs hc
  have hview := H.alive (H.inv.thr i hm.1) ha
  rw [hs, frames_cons, frame, hr] at hview
  have hg := H.inv.good i hm.1
  have hkey := hg.keys (k, v) (by rw [hr]; simp)
  have hi : i < h.n := by rw [H.n]; exact hm.1
  cases hkk : (s.coll i).kind with
  | top =>
    have hk : k = none := by
      cases k with
      | none => rfl
      | some k => have := hkey.1 rfl; rw [hkk] at this; cases this
    subst hk
    simp only [bodyToks, List.append_assoc] at hview
    rw [toks_eq] at hview
    obtain ⟨st', e1, e2, e3⟩ := H.sw.next htnt (by simpa using hview) hl
    have hmem := H.member hs hc hr (by simpa using e2) e3 _ rfl
    refine ⟨_, ?_, hkk ▸ hmem⟩
    rw [← hstr] at e1
    simp only [tail, next_eq e1]
    simp only [bind, Except.bind, streamedValue_eq]
    rw [hstr]
    rw [handleH_old (h := { h with st := st' }) v _ hi, handle_val (s := s) (h := { h with st := st' }) H.n]
    simp only [hcoll]
    congr 3
    simp [AColl.toColl, (hg.top hkk).2.2, hg.key (by rw [hkk]; simp)]
  | arr =>
    have hk : k = none := by
      cases k with
      | none => rfl
      | some k => have := hkey.1 rfl; rw [hkk] at this; cases this
    subst hk
    simp only [bodyToks, List.append_assoc] at hview
    rw [toks_eq] at hview
    obtain ⟨st', e1, e2, e3⟩ := H.sw.next htnt (by simpa using hview) hl
    have hmem := H.member hs hc hr (by simpa using e2) e3 _ rfl
    refine ⟨_, ?_, hkk ▸ hmem⟩
    rw [← hstr] at e1
    have hset : ∀ (h2 : Heap) (c1 : Coll), h2.n = h.n →
        ((handleH (h2.set i c1) v (s.coll i).thr).1.set i
          { (handleH (h2.set i c1) v (s.coll i).thr).1.coll i with cur := some (handleH (h2.set i c1) v (s.coll i).thr).2 }) =
        (handleH h2 v (s.coll i).thr).1.set i { c1 with cur := some (s.handle v (s.coll i).thr).2 } := by
      intro h2 c1 hn
      rw [handleH_set, handleH_old (h := h2.set i c1) v _ (by rw [Heap.set_n, hn]; exact hi), Heap.set_same,
        handle_val (s := s) (h := h2.set i c1) (by rw [Heap.set_n, hn, H.n])]
    have hval : tail .arr f h i = (do
        let h := ({ h with st := st' } : Heap).set i { h.coll i with started := true }
        let (h, v) ← h.streamedValue (firstTok v) (h.coll i).stream
        .ok (h.set i { h.coll i with cur := some v }, true)) := by
      simp only [tail, next_eq e1]
      cases v <;> rfl
    rw [hval]
    simp only [bind, Except.bind, streamedValue_eq, Heap.set_same, hstr]
    rw [hset { h with st := st' } _ rfl]
    simp only [hcoll]
    congr 3
    simp [AColl.toColl, hg.key (by rw [hkk]; simp)]
  | obj =>
    obtain ⟨key, rfl⟩ : ∃ key, k = some key := Option.isSome_iff_exists.1 (hkey.2 hkk)
    simp only [bodyToks, List.append_assoc, List.cons_append] at hview
    obtain ⟨st1, a1, a2, a3⟩ := H.sw.next htnt hview hl
    have hv2 : upd view (s.coll i).thr (some (v.toks ++ (bodyToks r ++ (elisionToks (s.coll i).e ++
        (endToks (s.coll i).kind ++ (frames s tl ++ junk (s.coll i).thr)))))) (s.coll i).thr =
        some (firstTok v :: (restToks v ++ (bodyToks r ++ (elisionToks (s.coll i).e ++
        (endToks (s.coll i).kind ++ (frames s tl ++ junk (s.coll i).thr)))))) := by
      rw [upd_same, toks_eq]; rfl
    obtain ⟨st', e1, e2, e3⟩ := a2.next (by rw [a3]; exact htnt) hv2 hl
    rw [Streams.upd_upd] at e2
    have hmem := H.member hs hc hr (by simpa using e2) (e3.trans a3) _ rfl
    refine ⟨_, ?_, hkk ▸ hmem⟩
    rw [← hstr] at a1
    have hset : ∀ (h2 : Heap) (c1 : Coll), h2.n = h.n →
        ((handleH (h2.set i c1) v (s.coll i).thr).1.set i
          { (handleH (h2.set i c1) v (s.coll i).thr).1.coll i with cur := some (handleH (h2.set i c1) v (s.coll i).thr).2 }) =
        (handleH h2 v (s.coll i).thr).1.set i { c1 with cur := some (s.handle v (s.coll i).thr).2 } := by
      intro h2 c1 hn
      rw [handleH_set, handleH_old (h := h2.set i c1) v _ (by rw [Heap.set_n, hn]; exact hi), Heap.set_same,
        handle_val (s := s) (h := h2.set i c1) (by rw [Heap.set_n, hn, H.n])]
    have hval : tail .obj f h i = (do
        let h := ({ h with st := st1 } : Heap).set i { h.coll i with started := true, key := some key }
        let (h, y) ← h.next (h.coll i).stream
        match y with
        | none => .error .panic
        | some y =>
          let (h, v) ← h.streamedValue y (h.coll i).stream
          .ok (h.set i { h.coll i with cur := some v }, true)) := by
      simp only [tail, next_eq a1]
      rfl
    rw [hval]
    have e1' : (({ h with st := st1 } : Heap).set i { h.coll i with started := true, key := some key }).st.next
        ((({ h with st := st1 } : Heap).set i { h.coll i with started := true, key := some key }).coll i).stream =
        some (st', some (firstTok v)) := by
      rw [Heap.set_same]
      show st1.next (h.coll i).stream = _
      rw [hstr]; exact e1
    simp only [next_eq e1']
    simp only [bind, Except.bind, streamedValue_eq]
    have hcomm : ({ ({ h with st := st1 } : Heap).set i { h.coll i with started := true, key := some key } with
        st := st' } : Heap) = ({ h with st := st' } : Heap).set i { h.coll i with started := true, key := some key } := rfl
    rw [hcomm]
    simp only [Heap.set_same, hstr]
    rw [hset { h with st := st' } _ rfl]
    simp only [hcoll]
    congr 3

theorem advance'_dead {s : AState} {i} (hd : s.dead (s.coll i).thr = true) :
    s.advance' i = if (s.coll i).kind = .top then .ok (s.set i { s.coll i with cur := none }, false)
      else .error .panic := by
  unfold AState.advance'
  simp only [hd, if_true]

theorem advance'_nil {s : AState} {i} (hd : s.dead (s.coll i).thr = false) (hr : (s.coll i).rest = []) :
    s.advance' i = if (s.coll i).kind = .top then
        .ok ({ s.set i { s.coll i with cur := none } with
                dead := fun t => if t = (s.coll i).thr ∧ t ≠ 0 then true else s.dead t }, false)
      else .ok (s.set i { s.coll i with done := true, elided := (s.coll i).elided || (s.coll i).e }, false) := by
  unfold AState.advance'
  simp only [hd, Bool.false_eq_true, if_false]
  split
  · rfl
  · rename_i e; rw [hr] at e; cases e

theorem advance'_cons {s : AState} {i k v r} (hd : s.dead (s.coll i).thr = false)
    (hr : (s.coll i).rest = (k, v) :: r) :
    s.advance' i = .ok ((s.handle v (s.coll i).thr).1.set i
        { s.coll i with started := (s.coll i).kind ≠ .top, key := k,
                        cur := some (s.handle v (s.coll i).thr).2, rest := r }, true) := by
  unfold AState.advance'
  simp only [hd, Bool.false_eq_true, if_false]
  split
  · rename_i e; rw [hr] at e; cases e
  · rename_i e; rw [hr] at e; cases e; rfl

/-- `Advance` with finished current value. -/
theorem tail_sim (H : ISim h s stk view lt dat junk) {i} (hi : i < s.n)
    (hnd : (s.coll i).kind ≠ .top → (s.coll i).done = false) (hc : ChildDone s i)
    (hs : s.dead (s.coll i).thr = false → ∃ tl, stk (s.coll i).thr = i :: tl) (f : Nat) (hf : 0 < f) :
    Agree (tail (s.coll i).kind f h i) (s.advance' i) := by
  have hcoll := H.coll i hi
  have hstr : (h.coll i).stream = (s.coll i).thr := by rw [hcoll]; rfl
  have htnt : (s.coll i).thr < h.st.nt := by rw [H.nt]; exact H.inv.thr i hi
  have hg := H.inv.good i hi
  -- an iterator without current value
  have hnil : (s.coll i).kind = .top → ∀ (s1 : AState) stk1 view1 (st' : Streams), st'.nt = h.st.nt →
      SW st' view1 lt dat → s1.coll = s.coll → s1.n = s.n → s1.nt = s.nt → AInv s1 stk1 lt dat junk →
      (∀ t < s1.nt, view1 t = if s1.dead t then none else some (frames s1 (stk1 t) ++ junk t)) →
      ISimE (({ h with st := st' } : Heap).set i { h.coll i with cur := none }) (s1.set i { s.coll i with cur := none }) := by
    intro hk s1 stk1 view1 st' b1 b2 b3 b4 b5 b6 b7
    refine ⟨stk1, view1, lt, dat, junk, b6.setCur (by rw [b4]; exact hi) ?_ _ ?_ ?_ ?_ ?_ ?_, ?_, ?_, ?_, b2, ?_⟩
    · intro k j e; rw [b3] at e ⊢; exact hc k j e
    · have := hg.top hk
      exact ⟨fun e => absurd hk e, hg.keys, fun _ => this, hg.key⟩
    · rw [b3]
    · rw [b3]
    · rw [b3]
    · intro k j e; cases e
    · exact H.n.trans b4.symm
    · exact (b1.trans H.nt).trans b5.symm
    · intro j hj
      by_cases hji : j = i
      · subst hji; rw [Heap.set_same, AState.set_same, hcoll]; rfl
      · rw [Heap.set_ne _ _ hji, AState.set_ne _ _ hji, b3]
        exact H.coll j (by have : j < s1.n := hj; omega)
    · intro t ht
      rw [frames_congr (s := s1)]
      · exact b7 t ht
      · intro j _
        by_cases hji : j = i
        · subst hji; rw [AState.set_same, b3]; rfl
        · rw [AState.set_ne _ _ hji]
  cases hdead : s.dead (s.coll i).thr with
  | true =>
    rw [advance'_dead hdead]
    obtain ⟨st', e1, e2, e3⟩ := H.sw.next_dead htnt (H.dead (H.inv.thr i hi) hdead)
    rw [← hstr] at e1
    by_cases hk : (s.coll i).kind = .top
    · rw [if_pos hk]
      refine ⟨_, ?_, hnil hk s stk view st' e3 e2 rfl rfl rfl H.inv H.view⟩
      rw [hk]
      simp only [tail, next_eq e1]
      rfl
    · rw [if_neg hk]
      simp only [Agree]
      cases hkk : (s.coll i).kind with
      | top => exact absurd hkk hk
      | arr => simp only [tail, next_eq e1]; rfl
      | obj => simp only [tail, next_eq e1]; rfl
  | false =>
    obtain ⟨tl, hs⟩ := hs hdead
    rcases show (s.coll i).rest = [] ∨ ∃ k v r, (s.coll i).rest = (k, v) :: r from by
      rcases (s.coll i).rest with _ | ⟨⟨k, v⟩, r⟩
      · exact Or.inl rfl
      · exact Or.inr ⟨k, v, r, rfl⟩ with hr | ⟨k, v, r, hr⟩
    · rw [advance'_nil hdead hr]
      by_cases hk : (s.coll i).kind = .top
      · rw [if_pos hk]
        have htl := H.inv.top_last (l := []) (by simpa using hs) hk
        subst htl
        have hl : (s.coll i).thr = 0 → lt = none := by
          intro e; rw [e] at hs; exact H.inv.lt_none hs hc
        have hjunk : junk (s.coll i).thr = [] := by
          by_cases h0 : (s.coll i).thr = 0
          · rw [h0]; exact H.inv.junk0
          · exact (H.inv.top i hi hk hdead h0).2
        have hview := H.alive (H.inv.thr i hi) hdead
        rw [hs, hjunk] at hview
        simp only [frames_cons, frames_nil, frame, hr, bodyToks, (hg.top hk).2.1, hk, endToks, elisionToks,
          List.append_nil, Bool.false_eq_true, if_false] at hview
        obtain ⟨st', e1, e2, e3⟩ := H.sw.next_nil htnt hview hl
          (fun h0 => (H.inv.top i hi hk hdead h0).1)
        rw [← hstr] at e1
        have htail : tail (s.coll i).kind f h i =
            .ok (({ h with st := st' } : Heap).set i { h.coll i with cur := none }, false) := by
          rw [hk]; simp only [tail, next_eq e1]; rfl
        refine ⟨_, htail, ?_⟩
        by_cases h0 : (s.coll i).thr = 0
        · rw [if_pos h0] at e2
          have hh := hnil hk s stk view st' e3 e2 rfl rfl rfl H.inv H.view
          have hde : s.dead = fun t => if t = (s.coll i).thr ∧ t ≠ 0 then true else s.dead t := by
            funext t
            rw [if_neg]
            rw [h0]
            simp
          rw [← hde]
          exact hh
        · rw [if_neg h0] at e2
          have hlt : lt ≠ some (s.coll i).thr := by
            intro e
            obtain ⟨_, _, _, _, _, i2, tl2, k2, j2, l2, q1, q2, q3, q4⟩ := H.inv.lent _ e
            rw [hs] at q4
            have hj2 : j2 = i := by
              cases l2 with
              | nil => simp at q4; exact q4.symm
              | cons a l2 => simp at q4
            subst hj2
            obtain ⟨_, _, w3, w4, _⟩ := H.inv.cur i2 (H.inv.mem 0 i2 (by simp [q1])).1 k2 j2 q2
            exact w4 (w3.symm.trans hk)
          have hkill := H.inv.kill h0 (H.inv.thr i hi) hlt
          have hde : (fun t => if t = (s.coll i).thr ∧ t ≠ 0 then true else s.dead t) =
              (fun u => if u = (s.coll i).thr then true else s.dead u) := by
            funext t
            by_cases ht : t = (s.coll i).thr
            · rw [if_pos ht, if_pos ⟨ht, by omega⟩]
            · rw [if_neg ht, if_neg (fun e => ht e.1)]
          rw [hde]
          refine hnil hk { s with dead := fun u => if u = (s.coll i).thr then true else s.dead u } _ _ st'
            e3 e2 rfl rfl rfl hkill ?_
          intro t ht
          by_cases htt : t = (s.coll i).thr
          · subst htt; rw [upd_same]; simp
          · rw [upd_ne _ _ htt, upd_ne _ _ htt]
            simp only [htt, if_false]
            exact H.view t ht
      · rw [if_neg hk]
        exact H.tail_end hs hk hc hr f hf
    · rw [advance'_cons hdead hr]
      exact H.tail_member hs hc hr f

theorem advance_sim (H : ISimE h s) {i} (f : Nat) (hf : 0 < f)
    (hns : s.advance i ≠ .error .stuck) : Agree (Heap.advance (f + 1) h i) (s.advance i) := by
  obtain ⟨stk, view, lt, dat, junk, H⟩ := H
  simp only [AState.advance] at hns ⊢
  by_cases hi : s.n ≤ i
  · rw [if_pos hi] at hns; exact absurd rfl hns
  rw [if_neg hi]
  have hi : i < s.n := by omega
  have hcoll := H.coll i hi
  by_cases hd : (s.coll i).kind ≠ .top ∧ (s.coll i).done = true
  · rw [if_pos hd]
    refine ⟨h, ?_, _, _, _, _, _, H⟩
    simp only [Heap.advance, hcoll, AColl.toColl]
    cases hk : (s.coll i).kind with
    | top => exact absurd hk hd.1
    | arr => simp [hd.2]
    | obj => simp [hd.2]
  · rw [if_neg hd]
    have hg := H.inv.good i hi
    have hnd : (s.coll i).done = false := by
      by_cases hk : (s.coll i).kind = .top
      · exact (hg.top hk).1
      · cases hdd : (s.coll i).done with
        | false => rfl
        | true => exact absurd ⟨hk, hdd⟩ hd
    obtain ⟨h1, stk1, view1, lt1, c1, c2, c3, c4, c5, c6, c7, c8⟩ :=
      child (discardSpec s.n) H hi (by omega) hnd
    have : s.discardCur i = discardCurA s.n s i := rfl
    rw [this]
    rw [advance_eq f h i (by rw [hcoll]; exact hg.started) (by rw [hcoll]; exact fun _ => hnd), H.n, c1]
    simp only [Except.bind]
    have hk : (h.coll i).kind = ((discardCurA s.n s i).coll i).kind := by rw [hcoll, c3]; rfl
    rw [hk]
    refine c2.tail_sim (by rw [c4]; exact hi) (by rw [c3]; exact fun _ => hnd) c6 ?_ f hf
    rw [c3, c5]
    intro ha
    obtain ⟨l, tl, hl⟩ := H.inv.split hi hnd ha
    exact ⟨tl, (c8 l tl hl).1⟩

theorem discard_sim (H : ISimE h s) (v : Val)
    (hv : ∀ k i, v = .coll k i → i < s.n ∧ (s.coll i).kind ≠ .top) :
    ∃ h', Heap.discard h.n h v = .ok h' ∧ ISimE h' (AState.discard s.n s v) := by
  obtain ⟨stk, view, lt, dat, junk, H⟩ := H
  have hz := H.inv.zero_lt
  obtain ⟨h', stk', view', lt', r1, r2, _⟩ := discardSpec s.n v h s stk view lt dat junk H (by
    intro k i e
    obtain ⟨h1, h2⟩ := hv k i e
    refine ⟨h1, h2, ?_⟩
    have : i ≠ 0 := by rintro rfl; exact h2 H.inv.kind0
    omega) hz
  rw [H.n]
  exact ⟨h', r1, _, _, _, _, _, r2⟩

theorem copy_ok {s : AState} {k i} (hi : i < s.n) (hk : (s.coll i).kind = k) (hk' : (s.coll i).kind ≠ .top)
    (hst : (s.coll i).started = false) (hd : (s.coll i).done = false) :
    s.copy (.coll k i) = .ok (s.set i (finA (s.coll i)),
      openTok k :: if s.dead (s.coll i).thr then [] else frame (s.coll i)) := by
  simp only [AState.copy]
  rw [if_neg (by rw [hk] at hk'; intro h; rcases h with h | h | h; omega; exact h hk; exact hk' h)]
  rw [if_neg (by simp [hst]), if_neg (by simp [hd])]
  by_cases h : s.dead (s.coll i).thr = true
  · rw [if_pos h, if_pos h]; rfl
  · rw [if_neg h, if_neg h]
    subst hk
    rfl

theorem copy_sim (H : ISimE h s) (v : Val) (hns : s.copy v ≠ .error .stuck) :
    Agree (h.copy v) (s.copy v) := by
  obtain ⟨stk, view, lt, dat, junk, H⟩ := H
  cases v with
  | scalar x => exact ⟨h, rfl, _, _, _, _, _, H⟩
  | coll k i =>
    by_cases h1 : s.n ≤ i ∨ (s.coll i).kind ≠ k ∨ k = .top
    · simp only [AState.copy] at hns
      rw [if_pos h1] at hns; exact absurd rfl hns
    have hi : i < s.n := by
      rcases Nat.lt_or_ge i s.n with h | h
      · exact h
      · exact absurd (Or.inl h) h1
    have hkk : (s.coll i).kind = k := by
      by_cases e : (s.coll i).kind = k
      · exact e
      · exact absurd (Or.inr (Or.inl e)) h1
    have hk : (s.coll i).kind ≠ .top := by
      intro e; exact h1 (Or.inr (Or.inr (hkk.symm.trans e)))
    have hcoll := H.coll i hi
    have hg := H.inv.good i hi
    by_cases hst : (s.coll i).started = true
    · have : s.copy (.coll k i) = .error .panic := by
        simp only [AState.copy]
        rw [if_neg h1, if_pos hst]
      rw [this]
      simp [Agree, Heap.copy, hcoll, AColl.toColl, hst]
    · have hst : (s.coll i).started = false := by simpa using hst
      by_cases hd : (s.coll i).done = true
      · simp only [AState.copy] at hns
        rw [if_neg h1, if_neg (by simp [hst]), if_pos hd] at hns
        exact absurd rfl hns
      · have hd : (s.coll i).done = false := by simpa using hd
        rw [copy_ok hi hkk hk hst hd]
        have hcur : (s.coll i).cur = none := by
          have := hg.started hk
          rw [hst] at this
          cases hc : (s.coll i).cur with
          | none => rfl
          | some v => rw [hc] at this; simp at this
        have hcd : ChildDone s i := by intro k j e; rw [hcur] at e; cases e
        have hC : h.copy (.coll k i) = (finishH h i).bind fun r => .ok (r.1, startTok (r.1.coll i).kind :: r.2) := by
          simp only [Heap.copy]
          rw [if_neg (by rw [hcoll]; simp [AColl.toColl, hst])]
          rfl
        rw [hC]
        have hst2 : ∀ h' : Heap, h'.coll i = finC (h.coll i) → startTok (h'.coll i).kind = openTok k := by
          intro h' e
          rw [e, hcoll]
          show startTok (s.coll i).kind = _
          rw [hkk]
          cases k <;> rfl
        by_cases hdead : s.dead (s.coll i).thr = true
        · obtain ⟨h', e1, e2, e3⟩ := H.finishH_dead hi hk hdead
          rw [e1, if_pos hdead]
          simp only [Except.bind, Agree]
          refine ⟨h', ?_, _, _, _, _, _, e3⟩
          rw [hst2 h' e2]
        · obtain ⟨l, tl, hl⟩ := H.inv.split hi hd (by simpa using hdead)
          have := H.inv.innermost hl hcd
          subst this
          obtain ⟨h', v', l', e1, e2, e3⟩ := H.finishH_alive hk hl hcd
          rw [e1, if_neg hdead]
          simp only [Except.bind, Agree]
          refine ⟨h', ?_, _, _, _, _, _, e3⟩
          rw [hst2 h' e2]

theorem detach_sim (H : ISimE h s) {t} (ht : t < s.nt) (hd : (s.det t || s.dead t) = true) :
    ∃ h', h.detach t = .ok h' ∧ ISimE h' { s with dead := fun u => if u = t then true else s.dead u } := by
  obtain ⟨stk, view, lt, dat, junk, H⟩ := H
  have h0 : t ≠ 0 := by
    rintro rfl
    rw [H.inv.det0, H.inv.dead0] at hd; cases hd
  have hlt : lt ≠ some t := by
    intro e
    obtain ⟨_, _, p3, p4, _⟩ := H.inv.lent _ e
    rw [p3, p4] at hd; cases hd
  obtain ⟨st', e1, e2, e3⟩ := H.sw.detach (t := t) (by omega) (by rw [H.nt]; exact ht)
  refine ⟨{ h with st := st' }, by simp [Heap.detach, e1], _, _, lt, dat, junk, H.inv.kill h0 ht hlt, H.n,
    e3.trans H.nt, H.coll, e2, ?_⟩
  intro u hu
  by_cases hut : u = t
  · subst hut; rw [upd_same]; simp
  · rw [upd_ne _ _ hut, upd_ne _ _ hut]
    simp only [hut, if_false]
    exact H.view u hu

/-- The collections after `Clone`. -/
theorem coll_clone (H : ISim h s stk view lt dat junk) {i} (hi : i < s.n) (st' : Streams) (t t' : Nat) (s' : AState)
    (hn : s'.n = s.n + 1)
    (h1 : ∀ j, s'.coll j = if j = s.n then { s.coll i with thr := t', key := none }
      else if j = i then { s.coll i with thr := t } else s.coll j) :
    ∀ j < s'.n, ((({ h with st := st' } : Heap).set i { h.coll i with stream := t }).alloc
      { h.coll i with stream := t', key := none }).1.coll j = (s'.coll j).toColl := by
  intro j hj
  rw [hn] at hj
  rw [h1]
  by_cases hjn : j = s.n
  · subst hjn
    rw [if_pos rfl, H.coll i hi]
    simp [Heap.alloc, Heap.set, H.n, AColl.toColl]
  · rw [if_neg hjn]
    by_cases hji : j = i
    · subst hji
      rw [if_pos rfl, H.coll j hi]
      simp [Heap.alloc, Heap.set, H.n, hjn, AColl.toColl]
    · rw [if_neg hji]
      simp [Heap.alloc, Heap.set, H.n, hjn, hji, H.coll j (by omega)]

theorem clone_sim (H : ISimE h s) (v : Val) (hns : s.clone v ≠ .error .stuck) :
    Agree (h.clone v) (s.clone v) := by
  obtain ⟨stk, view, lt, dat, junk, H⟩ := H
  cases v with
  | scalar x => exact ⟨h, rfl, _, _, _, _, _, H⟩
  | coll k i =>
    simp only [AState.clone] at hns ⊢
    by_cases h1 : s.n ≤ i ∨ (s.coll i).kind ≠ k
    · rw [if_pos h1] at hns; exact absurd rfl hns
    rw [if_neg h1] at hns ⊢
    have hi : i < s.n := by
      rcases Nat.lt_or_ge i s.n with h | h
      · exact h
      · exact absurd (Or.inl h) h1
    have hkk : (s.coll i).kind = k := by
      by_cases e : (s.coll i).kind = k
      · exact e
      · exact absurd (Or.inr e) h1
    have hcoll := H.coll i hi
    have hg := H.inv.good i hi
    have hbeg : (if (h.coll i).kind = .top then (h.coll i).cur.isSome else (h.coll i).started) = AState.begun (s.coll i) := by
      rw [hcoll]; rfl
    by_cases hb : AState.begun (s.coll i) = true
    · rw [if_pos hb]
      simp only [Agree, Heap.clone]
      rw [hbeg, if_pos hb]
    rw [if_neg hb] at hns ⊢
    have hC : ∀ st' t t', h.st.clone (s.coll i).thr = (st', t, t') → h.clone (.coll k i) =
        .ok (((({ h with st := st' } : Heap).set i { h.coll i with stream := t }).alloc
          { h.coll i with stream := t', key := none }).1, .coll k s.n, some t') := by
      intro st' t t' e
      have : (h.coll i).stream = (s.coll i).thr := by rw [hcoll]; rfl
      rw [← this] at e
      simp only [Heap.clone]
      rw [hbeg, if_neg hb, e, ← H.n]
      rfl
    have hcur : (s.coll i).cur = none := by
      have : (s.coll i).cur.isSome = false := by
        simp only [AState.begun] at hb
        by_cases hk : (s.coll i).kind = .top
        · rw [if_pos hk] at hb; simpa using hb
        · rw [if_neg hk, hg.started hk] at hb; simpa using hb
      simpa using this
    have hcd : ChildDone s i := by intro k j e; rw [hcur] at e; cases e
    have hg' : ∀ t, Good { s.coll i with thr := t, key := none } := fun t =>
      ⟨hg.started, hg.keys, hg.top, fun _ => rfl⟩
    have htn := H.inv.thr i hi
    have hft := H.inv.fresh s.nt (Nat.le_refl _)
    have hft1 := H.inv.fresh (s.nt + 1) (by omega)
    have hsn := H.inv.stk_fresh (t := s.nt) (Nat.le_refl _)
    have hsn1 := H.inv.stk_fresh (t := s.nt + 1) (by omega)
    by_cases hdead : s.dead (s.coll i).thr = true
    · rw [if_pos hdead]
      have e := H.sw.clone_dead (by rw [H.nt]; exact htn) (H.dead htn hdead)
      refine ⟨_, hC _ _ _ e, stk, view, lt, dat, junk, ?_, ?_, H.nt, ?_, H.sw, ?_⟩
      · exact H.inv.alloc_closed { s.coll i with key := none } (hg' _) htn hcur (fun _ => hdead) (fun _ => hdead)
      · show h.n + 1 = s.n + 1; rw [H.n]
      · refine H.coll_clone hi _ _ _ _ rfl ?_
        intro j
        rw [AInv.alloc_coll]
        by_cases hjn : j = s.n
        · rw [if_pos hjn, if_pos hjn]
        · rw [if_neg hjn, if_neg hjn]
          by_cases hji : j = i
          · rw [if_pos hji, hji]
          · rw [if_neg hji]
      · intro t ht
        rw [frames_congr (s' := s.alloc { s.coll i with key := none }) (s := s)]
        · exact H.view t ht
        · intro j hj
          rw [AInv.alloc_old (H.inv.mem t j hj).1]
    rw [if_neg hdead] at hns ⊢
    have hdead : s.dead (s.coll i).thr = false := by simpa using hdead
    by_cases h0 : (s.coll i).thr = 0
    · rw [if_pos h0] at hns ⊢
      by_cases hkt : k = .top
      · rw [if_pos hkt] at hns; exact absurd rfl hns
      rw [if_neg hkt]
      have hktop : (s.coll i).kind ≠ .top := by rw [hkk]; exact hkt
      -- the collections
      have hcl : ∀ st' : Streams, ∀ j < s.n + 1, ((({ h with st := st' } : Heap).set i { h.coll i with stream := s.nt }).alloc
          { h.coll i with stream := s.nt + 1, key := none }).1.coll j =
          (((s.set i { s.coll i with thr := s.nt }).alloc { s.coll i with thr := s.nt + 1, key := none }).coll j).toColl := by
        intro st'
        refine H.coll_clone hi st' s.nt (s.nt + 1)
          ((s.set i { s.coll i with thr := s.nt }).alloc { s.coll i with thr := s.nt + 1, key := none }) rfl ?_
        intro j
        rw [AInv.alloc_coll]
        by_cases hjn : j = s.n
        · rw [if_pos hjn, if_pos (by exact hjn)]
        · rw [if_neg hjn, if_neg (by exact hjn)]
          by_cases hji : j = i
          · subst hji; rw [if_pos rfl, AState.set_same]
          · rw [if_neg hji, AState.set_ne _ _ hji]
      have hfr : ∀ l : List Nat, (∀ j ∈ l, j < s.n) → frames ((s.set i { s.coll i with thr := s.nt }).alloc
          { s.coll i with thr := s.nt + 1, key := none }) l = frames s l := by
        intro l hl
        refine frames_congr ?_
        intro j hj
        rw [AInv.alloc_old (show j < (s.set i { s.coll i with thr := s.nt }).n from hl j hj)]
        by_cases hji : j = i
        · subst hji; rw [AState.set_same]; rfl
        · rw [AState.set_ne _ _ hji]
      have I1 := H.inv.thread s.det (upd dat s.nt false) (upd junk s.nt [])
        (fun _ _ => rfl) (fun t ht => upd_ne _ _ ht) (fun t ht => upd_ne _ _ ht)
      by_cases hd : (s.coll i).done = true
      · obtain ⟨st', e1, e2, e3⟩ := H.sw.clone_chan_nil
        have I2 := I1.rethread (t := s.nt) hi hd hcur (by show s.nt < s.nt + 1; omega)
        have I3 := I2.thread (fun t => if t = s.nt + 1 then true else s.det t)
          (upd (upd dat s.nt false) (s.nt + 1) false) (upd (upd junk s.nt []) (s.nt + 1) [])
          (fun t ht => if_neg ht) (fun t ht => upd_ne _ _ ht) (fun t ht => upd_ne _ _ ht)
        have I4 := I3.alloc_closed { s.coll i with thr := s.nt + 1, key := none } (hg' _)
          (by show s.nt + 1 < s.nt + 1 + 1; omega) hcur (fun e => absurd (hd.symm.trans e) (by simp))
          (fun e => absurd e hktop)
        rw [← h0] at e1
        rw [H.nt] at e2
        refine ⟨_, hC _ _ _ (by rw [e1, H.nt]), _, _, _, _, _, I4, ?_, ?_, ?_, e2, ?_⟩
        · show h.n + 1 = s.n + 1; rw [H.n]
        · show st'.nt = s.nt + 2; rw [e3, H.nt]
        · exact hcl st'
        · intro t ht
          have ht : t < s.nt + 2 := ht
          show _ = if s.dead t = true then none else _
          by_cases t1 : t = s.nt + 1
          · subst t1
            rw [upd_same, upd_same, hft1.1, hsn1]; rfl
          · rw [upd_ne _ _ t1, upd_ne _ _ t1]
            by_cases t2 : t = s.nt
            · subst t2; rw [upd_same, upd_same, hft.1, hsn]; rfl
            · rw [upd_ne _ _ t2, upd_ne _ _ t2, H.view t (by omega)]
              have := hfr (stk t) (fun j hj => (H.inv.mem t j hj).1)
              exact (congrArg (fun x => if s.dead t = true then none else some (x ++ junk t)) this).symm
      · have hd : (s.coll i).done = false := by simpa using hd
        obtain ⟨l, tl, hl⟩ := H.inv.split hi hd hdead
        have := H.inv.innermost hl hcd
        subst this
        rw [h0] at hl
        have hlt := H.inv.lt_none hl hcd
        subst hlt
        have hv := H.alive (H.inv.nt) H.inv.dead0
        rw [hl, H.inv.junk0] at hv
        simp only [List.nil_append, frames_cons, List.append_nil] at hv
        obtain ⟨st', e1, e2, e3⟩ := H.sw.clone_chan hv
        have I2 := I1.move (t := s.nt) hl hcur hktop (by have := H.inv.nt; omega)
          (by show s.nt < s.nt + 1; omega) hft.1 hft.2 hsn (upd_same _ _ _)
        have I3 := I2.thread (fun t => if t = s.nt + 1 then true else s.det t)
          (upd (upd dat s.nt false) (s.nt + 1) false) (upd (upd junk s.nt []) (s.nt + 1) [])
          (fun t ht => if_neg ht) (fun t ht => upd_ne _ _ ht) (fun t ht => upd_ne _ _ ht)
        have I4 := I3.alloc_root { s.coll i with thr := s.nt + 1, key := none } (t := s.nt + 1) (hg' _) rfl
          (by show s.nt + 1 < s.nt + 1 + 1; omega) (by omega)
          (by rw [upd_ne _ _ (by omega), upd_ne _ _ (by omega), hsn1]) (by simp) hft1.1 hcur hd
          (fun e => absurd e hktop)
        rw [← h0] at e1
        rw [H.nt] at e2
        refine ⟨_, hC _ _ _ (by rw [e1, H.nt]), _, _, _, _, _, I4, ?_, ?_, ?_, e2, ?_⟩
        · show h.n + 1 = s.n + 1; rw [H.n]
        · show st'.nt = s.nt + 2; rw [e3, H.nt]
        · exact hcl st'
        · intro t ht
          have ht : t < s.nt + 2 := ht
          have hnt := H.inv.nt
          show _ = if s.dead t = true then none else _
          by_cases t1 : t = s.nt + 1
          · subst t1
            rw [upd_same, upd_same, upd_same, hft1.1]
            simp only [Bool.false_eq_true, if_false, frames_cons, frames_nil, List.append_nil]
            show some (frame { s.coll i with thr := s.nt + 1, key := none }) = _
            exact congrArg (fun x => some (frame x)) (AInv.alloc_new (s := s.set i { s.coll i with thr := s.nt })
              (c := { s.coll i with thr := s.nt + 1, key := none })).symm
          · rw [upd_ne _ _ t1, upd_ne _ _ t1, upd_ne _ _ t1]
            by_cases t2 : t = s.nt
            · subst t2
              rw [upd_same, upd_same, upd_same, hft.1]
              have := hfr [i] (by simpa using hi)
              simp only [frames_cons, frames_nil, List.append_nil] at this
              simp only [Bool.false_eq_true, if_false, frames_cons, frames_nil, List.append_nil]
              exact congrArg some this.symm
            · rw [upd_ne _ _ t2, upd_ne _ _ t2, upd_ne _ _ t2]
              by_cases t0 : t = 0
              · subst t0
                rw [upd_same, upd_same, H.inv.dead0, H.inv.junk0]
                have := hfr tl (fun j hj => (H.inv.mem 0 j (by rw [hl]; simp [hj])).1)
                simp only [Bool.false_eq_true, if_false, List.append_nil]
                exact congrArg some this.symm
              · rw [upd_ne _ _ t0, upd_ne _ _ t0, H.view t (by omega)]
                have := hfr (stk t) (fun j hj => (H.inv.mem t j hj).1)
                exact (congrArg (fun x => if s.dead t = true then none else some (x ++ junk t)) this).symm
    · rw [if_neg h0] at hns ⊢
      have hv := H.alive htn hdead
      obtain ⟨st', e1, e2, e3⟩ := H.sw.clone_cur (by omega) (by rw [H.nt]; exact htn) hv
      have hcl : ∀ j < s.n + 1, ((({ h with st := st' } : Heap).set i { h.coll i with stream := (s.coll i).thr }).alloc
          { h.coll i with stream := s.nt, key := none }).1.coll j =
          ((s.alloc { s.coll i with thr := s.nt, key := none }).coll j).toColl := by
        refine H.coll_clone hi st' (s.coll i).thr s.nt
          (s.alloc { s.coll i with thr := s.nt, key := none }) rfl ?_
        intro j
        rw [AInv.alloc_coll]
        by_cases hjn : j = s.n
        · rw [if_pos hjn, if_pos hjn]
        · rw [if_neg hjn, if_neg hjn]
          by_cases hji : j = i
          · rw [if_pos hji, hji]
          · rw [if_neg hji]
      have hfr : ∀ l : List Nat, (∀ j ∈ l, j < s.n) → frames (s.alloc
          { s.coll i with thr := s.nt, key := none }) l = frames s l := by
        intro l hl
        refine frames_congr ?_
        intro j hj
        rw [AInv.alloc_old (hl j hj)]
      by_cases hd : (s.coll i).done = true
      · have I1 := H.inv.thread (fun t => if t = s.nt then true else s.det t) (upd dat s.nt (dat (s.coll i).thr))
          (upd junk s.nt (frames s (stk (s.coll i).thr) ++ junk (s.coll i).thr))
          (fun t ht => if_neg ht) (fun t ht => upd_ne _ _ ht) (fun t ht => upd_ne _ _ ht)
        have I2 := I1.alloc_closed { s.coll i with thr := s.nt, key := none } (hg' _)
          (by show s.nt < s.nt + 1; omega) hcur (fun e => absurd (hd.symm.trans e) (by simp))
          (fun e => absurd ((hg.top e).1.symm.trans hd) (by simp))
        rw [H.nt] at e2
        refine ⟨_, hC _ _ _ (by rw [e1, H.nt]), _, _, _, _, _, I2, ?_, ?_, ?_, e2, ?_⟩
        · show h.n + 1 = s.n + 1; rw [H.n]
        · show st'.nt = s.nt + 1; rw [e3, H.nt]
        · exact hcl
        · intro t ht
          have ht : t < s.nt + 1 := ht
          show _ = if s.dead t = true then none else _
          by_cases t2 : t = s.nt
          · subst t2; rw [upd_same, upd_same, hft.1, hsn]; rfl
          · rw [upd_ne _ _ t2, upd_ne _ _ t2, H.view t (by omega)]
            have := hfr (stk t) (fun j hj => (H.inv.mem t j hj).1)
            exact (congrArg (fun x => if s.dead t = true then none else some (x ++ junk t)) this).symm
      · have hd : (s.coll i).done = false := by simpa using hd
        obtain ⟨l, tl, hl⟩ := H.inv.split hi hd hdead
        have := H.inv.innermost hl hcd
        subst this
        have I1 := H.inv.thread (fun t => if t = s.nt then true else s.det t) (upd dat s.nt (dat (s.coll i).thr))
          (upd junk s.nt (frames s tl ++ junk (s.coll i).thr))
          (fun t ht => if_neg ht) (fun t ht => upd_ne _ _ ht) (fun t ht => upd_ne _ _ ht)
        have I2 := I1.alloc_root { s.coll i with thr := s.nt, key := none } (t := s.nt) (hg' _) rfl
          (by show s.nt < s.nt + 1; omega) (by omega) hsn (by
            intro e
            have := (H.inv.lent _ e).2.1
            omega) hft.1 hcur hd (by
            intro hk
            have hk : (s.coll i).kind = .top := hk
            have htl := H.inv.top_last hl hk
            subst htl
            obtain ⟨w1, w2⟩ := H.inv.top i hi hk hdead h0
            rw [upd_same, upd_same, w1, w2]
            exact ⟨rfl, rfl⟩)
        rw [H.nt] at e2
        refine ⟨_, hC _ _ _ (by rw [e1, H.nt]), _, _, _, _, _, I2, ?_, ?_, ?_, e2, ?_⟩
        · show h.n + 1 = s.n + 1; rw [H.n]
        · show st'.nt = s.nt + 1; rw [e3, H.nt]
        · exact hcl
        · intro t ht
          have ht : t < s.nt + 1 := ht
          show _ = if s.dead t = true then none else _
          by_cases t2 : t = s.nt
          · subst t2
            rw [upd_same, upd_same, upd_same, hft.1]
            simp only [Bool.false_eq_true, if_false, frames_cons, frames_nil, List.append_nil]
            rw [hl]
            simp only [List.nil_append, frames_cons, List.append_assoc]
            show some (frame { s.coll i with thr := s.nt, key := none } ++ (frames s tl ++ junk (s.coll i).thr)) = _
            exact congrArg (fun x => some (frame x ++ (frames s tl ++ junk (s.coll i).thr))) (AInv.alloc_new (s := s)
              (c := { s.coll i with thr := s.nt, key := none })).symm
          · rw [upd_ne _ _ t2, upd_ne _ _ t2, upd_ne _ _ t2, H.view t (by omega)]
            have := hfr (stk t) (fun j hj => (H.inv.mem t j hj).1)
            exact (congrArg (fun x => if s.dead t = true then none else some (x ++ junk t)) this).symm

theorem data_sim (H : ISimE h s) {ts : List Token} {vs : List JVal} (hp : parseToks ts = some vs) :
    ∃ h', h.data ts = (h', s.n) ∧
      ISimE h' { s.alloc ⟨.top, s.nt, false, false, false, none, none, vs.map (none, ·), false⟩ with
              nt := s.nt + 1 } := by
  obtain ⟨stk, view, lt, dat, junk, H⟩ := H
  have hts := parseToks_sound hp
  obtain ⟨st', e1, e2, e3⟩ := H.sw.fromData ts
  have hft := H.inv.fresh s.nt (Nat.le_refl _)
  have hsn := H.inv.stk_fresh (t := s.nt) (Nat.le_refl _)
  have I1 := H.inv.thread s.det (upd dat s.nt true) (upd junk s.nt [])
    (fun _ _ => rfl) (fun t ht => upd_ne _ _ ht) (fun t ht => upd_ne _ _ ht)
  have I2 := I1.alloc_root ⟨.top, s.nt, false, false, false, none, none, vs.map (none, ·), false⟩ (t := s.nt)
    ⟨fun e => absurd rfl e, by
      intro m hm
      simp only [List.mem_map] at hm
      obtain ⟨v, _, rfl⟩ := hm
      simp, fun _ => ⟨rfl, rfl, rfl⟩, fun _ => rfl⟩ rfl
    (by show s.nt < s.nt + 1; omega) (by have := H.inv.nt; omega) hsn (by
      intro e
      have := (H.inv.lent _ e).2.1
      omega) hft.1 rfl rfl (by intro _; rw [upd_same, upd_same]; exact ⟨rfl, rfl⟩)
  refine ⟨({ h with st := st' } : Heap).alloc ⟨.top, s.nt, false, false, false, none, none⟩ |>.1, ?_,
    _, upd view s.nt (some ts), _, _, _, I2, ?_, ?_, ?_, ?_, ?_⟩
  · simp only [Heap.data, e1, H.nt]
    rw [← H.n]; rfl
  · show h.n + 1 = s.n + 1; rw [H.n]
  · show st'.nt = s.nt + 1; rw [e3, H.nt]
  · intro j hj
    have hj : j < s.n + 1 := hj
    show _ = ((s.alloc _).coll j).toColl
    rw [AInv.alloc_coll]
    by_cases hjn : j = s.n
    · subst hjn; rw [if_pos rfl]; simp [Heap.alloc, Heap.set, H.n, AColl.toColl]
    · rw [if_neg hjn, ← H.coll j (by omega)]
      simp [Heap.alloc, Heap.set, H.n, hjn]
  · rw [H.nt] at e2; exact e2
  · intro t ht
    have ht : t < s.nt + 1 := ht
    show _ = if s.dead t = true then none else _
    by_cases t2 : t = s.nt
    · subst t2
      rw [upd_same, upd_same, upd_same, hft.1]
      simp only [Bool.false_eq_true, if_false, frames_cons, frames_nil, List.append_nil]
      rw [show (s.alloc ⟨.top, s.nt, false, false, false, none, none, vs.map (none, ·), false⟩).coll s.n =
        ⟨.top, s.nt, false, false, false, none, none, vs.map (none, ·), false⟩ from AInv.alloc_new]
      simp only [frame, bodyToks_top, endToks, elisionToks, hts]
      simp
    · rw [upd_ne _ _ t2, upd_ne _ _ t2, upd_ne _ _ t2, H.view t (by omega)]
      have : frames (s.alloc ⟨.top, s.nt, false, false, false, none, none, vs.map (none, ·), false⟩) (stk t) =
          frames s (stk t) := by
        refine frames_congr ?_
        intro j hj
        rw [AInv.alloc_old (H.inv.mem t j hj).1]
      exact (congrArg (fun x => if s.dead t = true then none else some (x ++ junk t)) this).symm

theorem init_sim (vs : List JVal) : ISimE (Heap.init (streamToks vs)) (AState.init vs) := by
  have hfr : frame ((AState.init vs).coll 0) = streamToks vs := by
    show bodyToks (vs.map fun v => (none, v)) ++ elisionToks false ++ endToks .top = _
    rw [bodyToks_top]; simp [endToks, elisionToks]
  refine ⟨upd (fun _ => []) 0 [0], fun _ => some (streamToks vs), none, fun _ => false, fun _ => [], ?_, rfl, rfl, ?_,
    sw_init _ _, ?_⟩
  · constructor
    · exact Nat.one_pos
    · intro i _
      exact ⟨fun e => absurd rfl e, by
        intro m hm
        have hm : m ∈ vs.map ((none : Option Scalar), ·) := hm
        simp only [List.mem_map] at hm
        obtain ⟨v, _, rfl⟩ := hm
        simp [AState.init], fun _ => ⟨rfl, rfl, rfl⟩, fun _ => rfl⟩
    · intro i _; exact Nat.one_pos
    · intro i _ k j e; cases e
    · rfl
    · intro t _; exact ⟨rfl, rfl⟩
    · intro t e; cases e
    · intro t i hi
      by_cases ht : t = 0
      · subst ht; rw [upd_same] at hi; simp at hi; subst hi; exact ⟨Nat.one_pos, rfl, rfl⟩
      · rw [upd_ne _ _ ht] at hi; cases hi
    · intro i hi _ _
      have hi : i < 1 := hi
      have : i = 0 := by omega
      subst this
      show 0 ∈ upd (fun _ => []) 0 [0] 0
      rw [upd_same]; simp
    · intro t
      by_cases ht : t = 0
      · subst ht; rw [upd_same]; simp [Chain]
      · rw [upd_ne _ _ ht]; simp [Chain]
    · intro t i tl k j _ e; cases e
    · exact ⟨[], by rw [upd_same]; rfl⟩
    · rfl
    · intro t e; cases e
    · intro i _ _ _ e; exact absurd rfl e
    · rfl
    · rfl
  · intro i _; rfl
  · intro t ht
    have ht : t < 1 := ht
    have : t = 0 := by omega
    subst this
    rw [upd_same]
    show some (streamToks vs) = some (frames (AState.init vs) [0] ++ [])
    simp [hfr]

/-- One operation. -/
theorem step_sim (o : IOp) (H : ISimE h s) (hns : s.step o ≠ .error .stuck) :
    Agree (h.step o) (s.step o) := by
  cases o with
  | advance i => exact advance_sim H _ (by omega) hns
  | current i =>
    have H' := H
    obtain ⟨stk, view, lt, dat, junk, H⟩ := H
    simp only [AState.step, AState.current, Heap.step, Heap.current] at hns ⊢
    by_cases hi : s.n ≤ i
    · rw [if_pos hi] at hns; exact absurd rfl hns
    rw [if_neg hi]
    rw [H.coll i (by omega)]
    by_cases hd : (s.coll i).kind ≠ .top ∧ (s.coll i).done = true
    · rw [if_pos hd, if_pos (by exact hd)]; rfl
    · rw [if_neg hd, if_neg (by exact hd)]
      exact ⟨h, rfl, H'⟩
  | elided i =>
    have H' := H
    obtain ⟨stk, view, lt, dat, junk, H⟩ := H
    simp only [AState.step, Heap.step] at hns ⊢
    by_cases hi : s.n ≤ i
    · rw [if_pos hi] at hns; exact absurd rfl hns
    rw [if_neg hi, H.coll i (by omega)]
    exact ⟨h, rfl, H'⟩
  | clone v =>
    simp only [AState.step, Heap.step] at hns ⊢
    have := clone_sim H v (by intro e; rw [e] at hns; exact hns rfl)
    revert this
    cases s.clone v with
    | error e => intro this; simp only [Agree] at this; rw [this]; rfl
    | ok r => intro this; obtain ⟨h', e1, e2⟩ := this; rw [e1]; exact ⟨h', rfl, e2⟩
  | discard v =>
    simp only [AState.step, Heap.step] at hns ⊢
    cases v with
    | scalar x =>
      refine ⟨h, ?_, H⟩
      have hz : 0 < h.n := by obtain ⟨_, _, _, _, _, H⟩ := H; rw [H.n]; exact H.inv.zero_lt
      obtain ⟨m, hm⟩ : ∃ m, h.n = m + 1 := ⟨h.n - 1, by omega⟩
      rw [hm]; rfl
    | coll k i =>
      simp only at hns ⊢
      by_cases h1 : s.n ≤ i ∨ (s.coll i).kind ≠ k ∨ k = .top
      · rw [if_pos h1] at hns; exact absurd rfl hns
      rw [if_neg h1]
      obtain ⟨h', e1, e2⟩ := discard_sim H (.coll k i) (by
        intro k' i' e
        cases e
        refine ⟨?_, ?_⟩
        · rcases Nat.lt_or_ge i s.n with h | h
          · exact h
          · exact absurd (Or.inl h) h1
        · intro e
          by_cases e' : (s.coll i).kind = k
          · exact h1 (Or.inr (Or.inr (e'.symm.trans e)))
          · exact h1 (Or.inr (Or.inl e')))
      exact ⟨h', by rw [e1]; rfl, e2⟩
  | copy v => exact copy_sim H v hns
  | detach t =>
    simp only [AState.step, Heap.step] at hns ⊢
    by_cases h1 : t < s.nt ∧ (s.det t || s.dead t) = true
    · rw [if_pos h1]
      obtain ⟨h', e1, e2⟩ := detach_sim H h1.1 h1.2
      exact ⟨h', by rw [e1]; rfl, e2⟩
    · rw [if_neg h1] at hns; exact absurd rfl hns
  | data ts =>
    simp only [AState.step, Heap.step] at hns ⊢
    cases hp : parseToks ts with
    | none => rw [hp] at hns; exact absurd rfl hns
    | some vs =>
      obtain ⟨h', e1, e2⟩ := data_sim H hp
      exact ⟨h', congrArg Except.ok e1, e2⟩
  | reject p q => exact absurd rfl hns

end ISim

/-- **The implementation of iterators meets its specification**: a program whose run on the
specification is not stuck has, on the implementation and started on the tokens of the same values,
the same output and the same result. -/
theorem IProg.run_heap {ε α : Type} (p : IProg ε α) (vs : List JVal)
    (hns : (p.run AState.mach (AState.init vs)).2 ≠ .error .stuck) :
    (p.run Heap.mach (Heap.init (streamToks vs))).1 = (p.run AState.mach (AState.init vs)).1 ∧
    (p.run Heap.mach (Heap.init (streamToks vs))).2.map Prod.snd =
      (p.run AState.mach (AState.init vs)).2.map Prod.snd := by
  have := IProg.run_sim (m := Heap.mach) AState.mach ISimE (by
    intro h s o H r' hr hns
    subst hr
    have := ISim.step_sim o H hns
    revert this
    show ISim.Agree (h.step o) (s.step o) → _
    cases hs : AState.mach.step s o with
    | error e =>
      have hs : s.step o = .error e := hs
      rw [hs]; exact id
    | ok r =>
      have hs : s.step o = .ok r := hs
      rw [hs]; exact id) p _ _ (ISim.init_sim vs) hns
  obtain ⟨t1, t2⟩ := this
  refine ⟨t1, ?_⟩
  revert t2
  cases (p.run AState.mach (AState.init vs)).2 with
  | error e => intro t2; simp only at t2; rw [t2]; rfl
  | ok r => intro t2; obtain ⟨t, e, _⟩ := t2; rw [e]; rfl

end Verif
