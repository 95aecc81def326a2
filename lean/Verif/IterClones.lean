import Verif.IterReader

/-!
# Making clones

The original and any number of clones, clones of clones included, of an unstarted value form a group
of readers in the sense of `Verif.IterReader`.
-/

set_option linter.unusedSimpArgs false
set_option linter.unusedVariables false

namespace Verif
open AState

/-- Threads after cloning. -/
theorem clone_thr {s s' : AState} {k : Kind} {i : Nat} {y : Val} {d : Option Nat} (hi : i < s.n) (hd : s.dead (s.coll i).thr = false)
    (h : s.step (.clone (.coll k i)) = .ok (s', (y, d))) :
    ∃ u, d = some u ∧ s.nt ≤ u ∧ (s'.coll s.n).thr = u ∧
      (((s'.coll i).thr = (s.coll i).thr ∧ (s.coll i).thr ≠ 0) ∨ ((s'.coll i).thr = s.nt ∧ u = s.nt + 1)) := by
  have hc : s.step (.clone (.coll k i)) = (s.clone (.coll k i)).map fun (s, v, t) => (s, (v, t)) := rfl
  rw [hc] at h
  unfold clone at h
  simp only [hd] at h
  split at h
  · cases h
  split at h
  · cases h
  simp only [Bool.false_eq_true, if_false] at h
  split at h
  · split at h
    · cases h
    · cases h
      refine ⟨_, rfl, Nat.le_succ _, ?_, Or.inr ⟨?_, rfl⟩⟩
      · show (AState.coll (AState.alloc _ _) _).thr = _
        rw [show s.n = (s.set i { s.coll i with thr := s.nt }).n from rfl, AInv.alloc_new]
      · show (AState.coll (AState.alloc _ _) _).thr = _
        rw [AInv.alloc_old (s := s.set i _) hi, set_same]
  · rename_i hz
    cases h
    refine ⟨_, rfl, Nat.le_refl _, ?_, Or.inl ⟨?_, hz⟩⟩
    · show (AState.coll (AState.alloc _ _) _).thr = _
      rw [AInv.alloc_new]
    · show (AState.coll (AState.alloc _ _) _).thr = _
      rw [AInv.alloc_old hi]

/-- A value, unread, on a thread that is not the one of the input. -/
structure Unread (s : AState) (v : JVal) (p : Val × Option Nat) : Prop where
  fresh : Fresh s p.1 v
  thr : ∀ k i, p.1 = .coll k i → 0 < i ∧ i < s.n ∧ (s.coll i).thr ≠ 0
  det : ∀ u, p.2 = some u → u < s.nt ∧ s.det u = true ∧ u ≠ 0

/-- Two values that have nothing to do with each other. -/
structure Apart (s : AState) (p q : Val × Option Nat) : Prop where
  idx : ∀ k i, p.1 = .coll k i → ∀ k' j, q.1 = .coll k' j → i ≠ j
  left : ∀ u, p.2 = some u → ∀ k i, q.1 = .coll k i → (s.coll i).thr ≠ u
  right : ∀ u, q.2 = some u → ∀ k i, p.1 = .coll k i → (s.coll i).thr ≠ u

structure Ready (s : AState) (v : JVal) (xs : List (Val × Option Nat)) : Prop where
  wf : WF s
  each : ∀ p ∈ xs, Unread s v p
  pair : xs.Pairwise (Apart s)

/-- Further clones: each number says which of the values so far is cloned (counting round). -/
def cloneAll {ε : Type} : List Nat → List (Val × Option Nat) → IProg ε (List (Val × Option Nat))
  | [], xs => .ret xs
  | c :: cs, xs =>
    match xs[c % xs.length]? with
    | none => cloneAll cs xs
    | some x => .op (.clone x.1) fun (y : Val × Option Nat) => cloneAll cs (xs ++ [y])

theorem fresh_alive {s : AState} {k : Kind} {i : Nat} {v : JVal} (h : Fresh s (.coll k i) v) :
    i < s.n ∧ s.dead (s.coll i).thr = false := by
  cases v with
  | scalar _ => exact nomatch h
  | arr items e => obtain ⟨i, t, h1, h2, h3, h4, h5⟩ := h; cases h1; exact ⟨h2, by rw [h5]; exact h4⟩
  | obj items e => obtain ⟨i, t, h1, h2, h3, h4, h5⟩ := h; cases h1; exact ⟨h2, by rw [h5]; exact h4⟩

theorem pairwise_imp_mem {β : Type} {R S : β → β → Prop} {l : List β} (h : l.Pairwise R)
    (hi : ∀ a ∈ l, ∀ b ∈ l, R a b → S a b) : l.Pairwise S :=
  List.Pairwise.imp_of_mem (fun ha hb => hi _ ha _ hb) h

/-- Cloning one of the values. -/
theorem Ready.clone {s : AState} {v : JVal} {xs : List (Val × Option Nat)} (R : Ready s v xs) {rt} (hr : Root s rt)
    {x : Val × Option Nat} (hx : x ∈ xs) :
    ∃ s' y, s.step (.clone x.1) = .ok (s', y) ∧ Ready s' v (xs ++ [y]) ∧ Root s' rt := by
  have hxu := R.each x hx
  obtain ⟨s', y, d, e1, e2, e3, e4, e5, e6⟩ := clone_fresh R.wf hxu.fresh
  have hroot : Root s' rt := Root.step hr R.wf (o := .clone x.1) (by simp) e1
  refine ⟨s', (y, d), e1, ?_, hroot⟩
  -- threads of the values so far
  have hthr : ∀ p ∈ xs, ∀ k i, p.1 = .coll k i → (s'.coll i).thr = (s.coll i).thr := by
    intro p hp k i hpi
    obtain ⟨h0, hi, ht⟩ := (R.each p hp).thr k i hpi
    by_cases hxi : x.1.idx = some i
    · cases hx1 : x.1 with
      | scalar _ => rw [hx1] at hxi; cases hxi
      | coll k' i' =>
        rw [hx1] at hxi e1; cases hxi
        have ha := fresh_alive (by rw [← hx1]; exact hxu.fresh)
        obtain ⟨u, _, _, _, g | g⟩ := clone_thr ha.1 ha.2 e1
        · exact g.1
        · exfalso
          have hc : s.step (.clone (.coll k' i)) = (s.clone (.coll k' i)).map fun (s, v, t) => (s, (v, t)) := rfl
          rw [hc] at e1
          unfold AState.clone at e1
          simp only [ha.2] at e1
          split at e1
          · cases e1
          split at e1
          · cases e1
          simp only [Bool.false_eq_true, if_false, ht] at e1
          cases e1
          have g1 := g.1
          have : (s.coll i).thr = s.nt := by
            have q : ∀ c, (AState.coll (s.alloc c) i).thr = (s.coll i).thr := fun c => by rw [AInv.alloc_old hi]
            rw [← q _]; exact g1
          have := R.wf.thr i hi
          omega
    · rw [e2.coll i hi (fun e => hxi e.symm)]
  have hold : ∀ p ∈ xs, Unread s' v p := by
    intro p hp
    have P := R.each p hp
    refine ⟨?_, ?_, ?_⟩
    · by_cases hpx : p.1 = x.1
      · rw [hpx]; exact e3
      · refine fresh_keep P.fresh e2 ?_
        intro j hj
        cases hp1 : p.1 with
        | scalar _ => rw [hp1] at hj; cases hj
        | coll k i =>
          rw [hp1] at hj; cases hj
          refine ⟨(P.thr k _ hp1).2.1, ?_⟩
          intro e
          cases hx1 : x.1 with
          | scalar _ => rw [hx1] at e; cases e
          | coll k' i' =>
            rw [hx1] at e; cases e
            -- same handle, so same kind
            apply hpx
            rw [hp1, hx1]
            have f1 := P.fresh; rw [hp1] at f1
            have f2 := hxu.fresh; rw [hx1] at f2
            cases v with
            | scalar _ => exact nomatch f1
            | arr items e => obtain ⟨_, _, a, _⟩ := f1; obtain ⟨_, _, b, _⟩ := f2; cases a; cases b; rfl
            | obj items e => obtain ⟨_, _, a, _⟩ := f1; obtain ⟨_, _, b, _⟩ := f2; cases a; cases b; rfl
    · intro k i hpi
      obtain ⟨h0, hi, ht⟩ := P.thr k i hpi
      exact ⟨h0, Nat.lt_of_lt_of_le hi e2.n, by rw [hthr p hp k i hpi]; exact ht⟩
    · intro u hu
      obtain ⟨h1, h2, h3⟩ := P.det u hu
      exact ⟨Nat.lt_of_lt_of_le h1 e2.nt, (e2.det u h1).trans h2, h3⟩
  -- the thread of the clone
  have hnew : ∀ k i, y = .coll k i → i = s.n ∧ ∃ u, d = some u ∧ (s'.coll i).thr = u ∧ s.nt ≤ u := by
    intro k i hy
    have hi := e5 i (by rw [hy]; rfl)
    subst hi
    refine ⟨rfl, ?_⟩
    cases hx1 : x.1 with
    | scalar k' =>
      rw [hx1] at e1; cases e1; cases hy
    | coll k' i' =>
      rw [hx1] at e1
      have ha := fresh_alive (by rw [← hx1]; exact hxu.fresh)
      obtain ⟨u, g1, g2, g3, _⟩ := clone_thr ha.1 ha.2 e1
      exact ⟨u, g1, g3, g2⟩
  have hnt := hr.nt
  have hn := hr.n
  refine ⟨R.wf.step e1, ?_, ?_⟩
  · intro p hp
    rcases List.mem_append.1 hp with hp | hp
    · exact hold p hp
    · rw [List.mem_singleton.1 hp]
      refine ⟨e4, ?_, ?_⟩
      · intro k i hy
        have hy : y = .coll k i := hy
        obtain ⟨hi, u, g1, g2, g3⟩ := hnew k i hy
        rw [hy] at e4
        exact ⟨by omega, (fresh_alive e4).1, by omega⟩
      · intro u hu
        obtain ⟨h1, h2, h3⟩ := e6 u hu
        exact ⟨h2, h3, by omega⟩
  · rw [List.pairwise_append]
    refine ⟨?_, by simp, ?_⟩
    · refine pairwise_imp_mem R.pair ?_
      intro a ha b hb hab
      refine ⟨hab.idx, ?_, ?_⟩
      · intro u hu k i hi; rw [hthr b hb k i hi]; exact hab.left u hu k i hi
      · intro u hu k i hi; rw [hthr a ha k i hi]; exact hab.right u hu k i hi
    · intro p hp q hq
      rw [List.mem_singleton.1 hq]
      refine ⟨?_, ?_, ?_⟩
      · intro k i hi k' j hj
        have := (hnew k' j hj).1
        have := ((R.each p hp).thr k i hi).2.1
        omega
      · intro u hu k i hi
        obtain ⟨_, u', g1, g2, g3⟩ := hnew k i hi
        have := ((R.each p hp).det u hu).1
        omega
      · intro u hu k i hi
        have h1 := (e6 u hu).1
        rw [hthr p hp k i hi]
        have := R.wf.thr i ((R.each p hp).thr k i hi).2.1
        omega

theorem cloneAll_run {ε : Type} {v : JVal} {rt} : ∀ (cs : List Nat) (s : AState) (xs : List (Val × Option Nat)), xs ≠ [] →
    Ready s v xs → Root s rt → ∃ s' ys, (cloneAll cs xs : IProg ε _).run AState.mach s = ([], .ok (s', ys)) ∧
      ys.length = xs.length + cs.length ∧ Ready s' v ys ∧ Root s' rt
  | [], s, xs, _, R, hr => ⟨s, xs, by simp [cloneAll], rfl, R, hr⟩
  | c :: cs, s, xs, hne, R, hr => by
    simp only [cloneAll]
    have hlt : c % xs.length < xs.length := Nat.mod_lt _ (List.length_pos_iff.2 hne)
    rw [List.getElem?_eq_getElem hlt]
    obtain ⟨s1, y, e1, e2, e3⟩ := R.clone hr (List.getElem_mem hlt)
    obtain ⟨s2, ys, f1, f2, f3⟩ := cloneAll_run (ε := ε) cs s1 (xs ++ [y]) (by simp) e2 e3
    refine ⟨s2, ys, ?_, ?_, f3⟩
    · simp only
      rw [arun_op e1]
      exact f1
    · rw [f2]; simp; omega

/-- The first clone takes the original off the thread of the input. -/
theorem ready_first {s : AState} {v : JVal} {x : Val} {rt} (hw : WF s) (hr : Root s rt) (hf : Fresh s x v)
    (h0 : ∀ j, x.idx = some j → 0 < j) :
    ∃ s' y, s.step (.clone x) = .ok (s', y) ∧ Ready s' v [(x, none), y] ∧ Root s' rt := by
  obtain ⟨s', y, d, e1, e2, e3, e4, e5, e6⟩ := clone_fresh hw hf
  have hroot : Root s' rt := Root.step hr hw (o := .clone x) (by simp) e1
  have hnt := hr.nt
  have hn := hr.n
  have key : ∀ k i, x = .coll k i → (s'.coll i).thr ≠ 0 ∧ ∃ u, d = some u ∧ (s'.coll s.n).thr = u ∧ (s'.coll i).thr ≠ u := by
    intro k i hx
    rw [hx] at e1 hf
    have ha := fresh_alive hf
    have ht := hw.thr i ha.1
    obtain ⟨u, g1, g2, g3, g4 | g4⟩ := clone_thr ha.1 ha.2 e1
    · exact ⟨by rw [g4.1]; exact g4.2, u, g1, g3, by omega⟩
    · exact ⟨by omega, u, g1, g3, by omega⟩
  have hsc : ∀ k i, y = .coll k i → i = s.n ∧ ∃ k' i', x = .coll k' i' := by
    intro k i hy
    refine ⟨e5 i (by rw [hy]; rfl), ?_⟩
    cases x with
    | scalar _ => cases e1; cases hy
    | coll k' i' => exact ⟨k', i', rfl⟩
  refine ⟨s', (y, d), e1, ⟨hw.step e1, ?_, ?_⟩, hroot⟩
  · intro p hp
    simp only [List.mem_cons, List.not_mem_nil, or_false] at hp
    rcases hp with rfl | rfl
    · refine ⟨e3, ?_, by simp⟩
      intro k i hx
      have hx : x = .coll k i := hx
      have e3' := e3; rw [hx] at e3'
      exact ⟨h0 i (by rw [hx]; rfl), (fresh_alive e3').1, (key k i hx).1⟩
    · refine ⟨e4, ?_, ?_⟩
      · intro k i hy
        have hy : y = .coll k i := hy
        obtain ⟨hi, k', i', hx⟩ := hsc k i hy
        obtain ⟨_, u, g1, g2, _⟩ := key k' i' hx
        have e4' := e4; rw [hy] at e4'
        have := (e6 u g1).1
        exact ⟨by omega, (fresh_alive e4').1, by rw [hi]; omega⟩
      · intro u hu
        obtain ⟨h1, h2, h3⟩ := e6 u hu
        exact ⟨h2, h3, by omega⟩
  · refine List.pairwise_pair.2 ⟨?_, by simp, ?_⟩
    · intro k i hx k' j hy
      have hx : x = .coll k i := hx
      have := (hsc k' j hy).1
      rw [hx] at hf
      have := (fresh_alive hf).1
      omega
    · intro u hu k i hx
      obtain ⟨_, u', g1, _, g3⟩ := key k i hx
      have hu : d = some u := hu
      rw [g1] at hu; cases hu; exact g3

/-! ## Alone -/

/-- The specification after the only value of an input was delivered, and this value. -/
theorem solo_open (v : JVal) : ∃ l x, (init [v]).step (.advance 0) = .ok (l, true) ∧
    l.step (.current 0) = .ok (l, (none, some x)) ∧ WF l ∧ EnvOk l ⟨[x], []⟩ ∧ l.nt = 1 ∧ (∀ t, l.det t = false) ∧
    (∀ t, l.dead t = false) ∧ 0 < l.n ∧
    ((∃ k, v = .scalar k ∧ x = .scalar k ∧ l.n = 1) ∨
     (l.n = 2 ∧ (∀ k, v ≠ .scalar k) ∧ x = .coll v.kind 1 ∧ l.coll 1 = ⟨v.kind, 0, false, false, false, none, none, v.members, v.elision⟩)) := by
  obtain ⟨l, x, e1, e2, e3, e4, e5, e6⟩ := (root_init [v]).next (wf_init [v])
  have hs : (init [v]).step (.advance 0) = .ok (((init [v]).handle v 0).1.set 0
      ⟨.top, 0, false, false, false, none, some ((init [v]).handle v 0).2, [], false⟩, true) := by
    show AState.advance _ _ = _
    unfold AState.advance
    rw [if_neg (by simp [init]), if_neg (by simp [init])]
    rfl
  have hx : x = ((init [v]).handle v 0).2 := by
    rw [hs] at e1; cases e1
    have e2 : Except.map _ (AState.current _ 0) = _ := e2
    unfold AState.current at e2
    rw [if_neg (by cases v <;> simp [AState.handle, init, AState.set, AState.alloc]), if_neg (by simp [AState.set])] at e2
    simp [AState.set, Except.map] at e2
    exact e2.symm
  have hl : l = ((init [v]).handle v 0).1.set 0 ⟨.top, 0, false, false, false, none, some ((init [v]).handle v 0).2, [], false⟩ := by
    rw [hs] at e1; cases e1; rfl
  refine ⟨l, x, e1, e2, e4, ?_, ?_, ?_, ?_, e3.n, ?_⟩
  · refine ⟨?_, by simp⟩
    intro k i hi
    simp only [List.mem_singleton] at hi
    subst hi
    have := e6 i rfl
    have h1 : (init [v]).n = 1 := rfl
    exact ⟨by omega, (fresh_alive e5).1⟩
  · rw [hl]; cases v <;> rfl
  · rw [hl]; cases v <;> intro t <;> rfl
  · rw [hl]; cases v <;> intro t <;> rfl
  · cases v with
    | scalar k => left; exact ⟨k, rfl, hx, by rw [hl]; rfl⟩
    | arr items e => right; exact ⟨by rw [hl]; rfl, by simp, hx, by rw [hl]; rfl⟩
    | obj ms e => right; exact ⟨by rw [hl]; rfl, by simp, hx, by rw [hl]; rfl⟩

theorem emb_open {s l : AState} {v : JVal} {x0 : Val} {p : Val × Option Nat} {rt} (hr : Root s rt) (P : Unread s v p)
    (h1 : l.nt = 1) (h2 : ∀ t, l.det t = false) (h3 : ∀ t, l.dead t = false) (h4 : 0 < l.n)
    (h5 : (∃ k, v = .scalar k ∧ x0 = .scalar k ∧ l.n = 1) ∨
      (l.n = 2 ∧ (∀ k, v ≠ .scalar k) ∧ x0 = .coll v.kind 1 ∧ l.coll 1 = ⟨v.kind, 0, false, false, false, none, none, v.members, v.elision⟩)) :
    ∃ ρ τ, Emb ρ τ l s ∧ p.1 = x0.ren ρ ∧ (∀ i, 0 < i → i < l.n → ∃ k, p.1 = .coll k (ρ i)) ∧
      (∀ t < l.nt, (τ t = 0 ∧ l.n = 1) ∨ ∃ k i, p.1 = .coll k i ∧ τ t = (s.coll i).thr) := by
  rcases h5 with ⟨k, rfl, rfl, hn⟩ | ⟨hn, hk, rfl, hc⟩
  · have hp : p.1 = .scalar k := P.fresh
    refine ⟨id, fun _ => 0, ?_, hp, by omega, fun t _ => Or.inl ⟨rfl, hn⟩⟩
    refine ⟨by omega, by omega, by omega, by omega, h4, hr.n, by omega, by omega, h2 0, fun t _ => h2 t, fun _ _ => hr.nt, ?_, ?_, ?_, ?_⟩
    · intro t _ h; rw [h2 t] at h; simp at h; omega
    · intro t _; rw [h3 t]; exact hr.dead
    · intro t _ h; rw [h2 t] at h; cases h
    · intro t _ h; rw [h2 t] at h; cases h
  · have hF : ∃ i t, p.1 = .coll v.kind i ∧ i < s.n ∧ t < s.nt ∧ s.dead t = false ∧
        s.coll i = ⟨v.kind, t, false, false, false, none, none, v.members, v.elision⟩ := by
      have hf := P.fresh
      cases v with
      | scalar k => exact absurd rfl (hk k)
      | arr items e => exact hf
      | obj ms e => exact hf
    obtain ⟨i, t, g1, g2, g3, g4, g5⟩ := hF
    obtain ⟨p1, p2, p3⟩ := P.thr _ i g1
    have ht : (s.coll i).thr = t := by rw [g5]
    refine ⟨fun _ => i, fun _ => t, ?_, g1, fun _ _ _ => ⟨_, g1⟩, fun _ _ => Or.inr ⟨_, i, g1, ht.symm⟩⟩
    have h11 : ∀ j, 0 < j → j < l.n → j = 1 := by intro j; omega
    refine ⟨fun _ _ _ => g2, ?_, ?_, ?_, h4, hr.n, fun _ _ _ => p1, by omega, h2 0, fun t _ => h2 t, fun _ _ => g3, ?_, ?_, ?_, ?_⟩
    · intro a b a1 a2 b1 b2 _; rw [h11 a a1 a2, h11 b b1 b2]
    · intro j j1 j2; rw [h11 j j1 j2, g5, hc]; rfl
    · intro j j1 j2; rw [h11 j j1 j2, hc]; cases v <;> simp [JVal.kind]
    · intro _ _ _; rw [← ht]; exact p3
    · intro u _; rw [h3 u]; exact g4
    · intro t _ h; rw [h2 t] at h; cases h
    · intro t _ h; rw [h2 t] at h; cases h

/-- Clones of a value form a group. -/
theorem Ready.group {s : AState} {v : JVal} {xs : List (Val × Option Nat)} (R : Ready s v xs) {rt} (hr : Root s rt) {l : AState}
    {x0 : Val} (wl : WF l) (he : EnvOk l ⟨[x0], []⟩)
    (h1 : l.nt = 1) (h2 : ∀ t, l.det t = false) (h3 : ∀ t, l.dead t = false) (h4 : 0 < l.n)
    (h5 : (∃ k, v = .scalar k ∧ x0 = .scalar k ∧ l.n = 1) ∨
      (l.n = 2 ∧ (∀ k, v ≠ .scalar k) ∧ x0 = .coll v.kind 1 ∧ l.coll 1 = ⟨v.kind, 0, false, false, false, none, none, v.members, v.elision⟩)) :
    ∃ sl : Nat → Slot, (∀ j, (sl j).l = l ∧ (sl j).env = ⟨[x0], []⟩) ∧
      (∀ j p, xs[j]? = some p → p.1 = x0.ren (sl j).ρ) ∧
      Group s xs.length (fun j => (xs[j]?.bind Prod.snd)) (fun _ => true) sl := by
  have hex : ∀ j : Nat, ∃ sl : Slot, sl.l = l ∧ sl.env = ⟨[x0], []⟩ ∧ ∀ p : Val × Option Nat, xs[j]? = some p → Emb sl.ρ sl.τ l s ∧ p.1 = x0.ren sl.ρ ∧
      (∀ i, 0 < i → i < l.n → ∃ k, p.1 = .coll k (sl.ρ i)) ∧
      (∀ t < l.nt, (sl.τ t = 0 ∧ l.n = 1) ∨ ∃ k i, p.1 = .coll k i ∧ sl.τ t = (s.coll i).thr) := by
    intro j
    cases hj : xs[j]? with
    | none => exact ⟨⟨id, id, l, ⟨[x0], []⟩⟩, rfl, rfl, fun p e => nomatch e⟩
    | some p =>
      obtain ⟨ρ, τ, e⟩ := emb_open hr (R.each p (List.mem_of_getElem? hj)) h1 h2 h3 h4 h5
      exact ⟨⟨ρ, τ, l, ⟨[x0], []⟩⟩, rfl, rfl, fun q hq => by cases hq; exact e⟩
  have hsl : ∃ sl : Nat → Slot, ∀ j, (sl j).l = l ∧ (sl j).env = ⟨[x0], []⟩ ∧ ∀ p : Val × Option Nat, xs[j]? = some p →
      Emb (sl j).ρ (sl j).τ l s ∧ p.1 = x0.ren (sl j).ρ ∧
      (∀ i, 0 < i → i < l.n → ∃ k, p.1 = .coll k ((sl j).ρ i)) ∧
      (∀ t < l.nt, ((sl j).τ t = 0 ∧ l.n = 1) ∨ ∃ k i, p.1 = .coll k i ∧ (sl j).τ t = (s.coll i).thr) :=
    ⟨fun j => Classical.choose (hex j), fun j => Classical.choose_spec (hex j)⟩
  obtain ⟨sl, hsl⟩ := hsl
  have inh : Inhabited Val := ⟨.coll .arr 0⟩
  have hp : ∀ j, j < xs.length → xs[j]? = some (xs[j]!) := by
    intro j hj; simp [hj]
  have hap : ∀ a b, a < xs.length → b < xs.length → a ≠ b → Apart s (xs[a]!) (xs[b]!) := by
    intro a b ha hb hne
    have := List.pairwise_iff_getElem.1 R.pair
    rcases Nat.lt_or_gt_of_ne hne with h | h
    · simpa [ha, hb] using this a b ha hb h
    · have := this b a hb ha h
      have q : Apart s (xs[a]) (xs[b]) :=
        ⟨fun k i hi k' j hj e => this.idx k' j hj k i hi e.symm, this.right, this.left⟩
      simpa [ha, hb] using q
  refine ⟨sl, fun j => ⟨(hsl j).1, (hsl j).2.1⟩, fun j p hj => ((hsl j).2.2 p hj).2.1, ⟨R.wf, ?_, ?_, ?_, ?_, ?_, ?_, ?_⟩⟩
  · intro j hj _; rw [(hsl j).1]; exact ((hsl j).2.2 _ (hp j hj)).1
  · intro j hj _; rw [(hsl j).1]; exact wl
  · intro j hj _; rw [(hsl j).1, (hsl j).2.1]; exact he
  · intro a ha _ b hb _ hne i i1 i2 i' i1' i2'
    rw [(hsl a).1] at i2; rw [(hsl b).1] at i2'
    obtain ⟨k, g⟩ := ((hsl a).2.2 _ (hp a ha)).2.2.1 i i1 i2
    obtain ⟨k', g'⟩ := ((hsl b).2.2 _ (hp b hb)).2.2.1 i' i1' i2'
    exact (hap a b ha hb hne).idx _ _ g _ _ g'
  · intro a ha _ b hb _ hne t ht hd
    rw [(hsl a).1, h2 t] at hd; cases hd
  · intro j hj _ u hu
    simp only [hp j hj, Option.bind_some] at hu
    exact (R.each _ (List.mem_of_getElem? (hp j hj))).det u hu
  · intro j hj _ u hu b hb _ hne t ht
    simp only [hp j hj, Option.bind_some] at hu
    rw [(hsl b).1] at ht
    rcases ((hsl b).2.2 _ (hp b hb)).2.2.2 t ht with ⟨g, _⟩ | ⟨k, i, g1, g2⟩
    · have := ((R.each _ (List.mem_of_getElem? (hp j hj))).det u hu).2.2
      omega
    · rw [g2]; exact (hap j b hj hb hne).left u hu k i g1

end Verif
