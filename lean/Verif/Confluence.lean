import Verif.Pipeline

/-!
# Pipelines are confluent

Steps of different goroutines can be exchanged.
-/

set_option linter.unusedSimpArgs false
set_option linter.unusedVariables false

namespace Verif.Pipeline

universe u

variable {T : Type} {α : Type u}

/-- A step at a place of the row. -/
inductive Fire (act : α → Act T α) (gs : List α) (out : List T) : List α → List T → Prop
  | tau {i s s' gs'} : gs[i]? = some s → act s = .tau s' → gs' = gs.set i s' → Fire act gs out gs' out
  | pass {i s t s' u k gs'} : gs[i]? = some s → gs[i + 1]? = some u → act s = .put t s' → act u = .get k →
      gs' = (gs.set i s').set (i + 1) (k (some t)) → Fire act gs out gs' out
  | close {i s u k gs'} : gs[i]? = some s → gs[i + 1]? = some u → act s = .halt → act u = .get k → gs' = gs.set (i + 1) (k none) → Fire act gs out gs' out
  | first {s k gs'} : gs[0]? = some s → act s = .get k → gs' = gs.set 0 (k none) → Fire act gs out gs' out
  | last {i s t s' gs' out'} : gs[i]? = some s → gs.length = i + 1 → act s = .put t s' → gs' = gs.set i s' → out' = out ++ [t] → Fire act gs out gs' out'

/-- Two steps that are possible are the same, or each is possible after the other, with the same outcome. -/
theorem fire_diamond {act : α → Act T α} {gs a b : List α} {out oa ob : List T} (h : Fire act gs out a oa) (h' : Fire act gs out b ob) :
    (a = b ∧ oa = ob) ∨ ∃ d od, Fire act a oa d od ∧ Fire act b ob d od := by
  cases h with
  | @tau ia sa xa _ ha1 ha2 ha3 =>
    cases h' with
    | @tau ib sb xb _ hb1 hb2 hb3 =>
      by_cases e : ia = ib
      · left; grind
      · refine .inr ⟨_, _, .tau (i := ib) (s := sb) (s' := xb) (by grind) hb2 rfl, .tau (i := ia) (s := sa) (s' := xa) (by grind) ha2 ?_⟩
        apply List.ext_getElem?
        intro m
        grind
    | @pass ib sb tb xb ub kb _ hb1 hb2 hb3 hb4 hb5 =>
      refine .inr ⟨_, _, .pass (i := ib) (s := sb) (u := ub) (by grind) (by grind) hb3 hb4 rfl, .tau (i := ia) (s := sa) (s' := xa) (by grind) ha2 ?_⟩
      apply List.ext_getElem?
      intro m
      grind
    | @close ib sb ub kb _ hb1 hb2 hb3 hb4 hb5 =>
      refine .inr ⟨_, _, .close (i := ib) (s := sb) (u := ub) (by grind) (by grind) hb3 hb4 rfl, .tau (i := ia) (s := sa) (s' := xa) (by grind) ha2 ?_⟩
      apply List.ext_getElem?
      intro m
      grind
    | @first sb kb _ hb1 hb2 hb3 =>
      refine .inr ⟨_, _, .first (s := sb) (by grind) hb2 rfl, .tau (i := ia) (s := sa) (s' := xa) (by grind) ha2 ?_⟩
      apply List.ext_getElem?
      intro m
      grind
    | @last ib sb tb xb _ _ hb1 hb2 hb3 hb4 hb5 =>
      refine .inr ⟨_, _, .last (i := ib) (s := sb) (by grind) (by simp only [*, List.length_set]) hb3 rfl hb5, .tau (i := ia) (s := sa) (s' := xa) (by grind) ha2 ?_⟩
      apply List.ext_getElem?
      intro m
      grind
  | @pass ia sa ta xa ua ka _ ha1 ha2 ha3 ha4 ha5 =>
    cases h' with
    | @tau ib sb xb _ hb1 hb2 hb3 =>
      refine .inr ⟨_, _, .tau (i := ib) (s := sb) (s' := xb) (by grind) hb2 rfl, .pass (i := ia) (s := sa) (u := ua) (by grind) (by grind) ha3 ha4 ?_⟩
      apply List.ext_getElem?
      intro m
      grind
    | @pass ib sb tb xb ub kb _ hb1 hb2 hb3 hb4 hb5 =>
      by_cases e : ia = ib
      · left; grind
      · refine .inr ⟨_, _, .pass (i := ib) (s := sb) (u := ub) (by grind) (by grind) hb3 hb4 rfl, .pass (i := ia) (s := sa) (u := ua) (by grind) (by grind) ha3 ha4 ?_⟩
        apply List.ext_getElem?
        intro m
        grind
    | @close ib sb ub kb _ hb1 hb2 hb3 hb4 hb5 =>
      refine .inr ⟨_, _, .close (i := ib) (s := sb) (u := ub) (by grind) (by grind) hb3 hb4 rfl, .pass (i := ia) (s := sa) (u := ua) (by grind) (by grind) ha3 ha4 ?_⟩
      apply List.ext_getElem?
      intro m
      grind
    | @first sb kb _ hb1 hb2 hb3 =>
      refine .inr ⟨_, _, .first (s := sb) (by grind) hb2 rfl, .pass (i := ia) (s := sa) (u := ua) (by grind) (by grind) ha3 ha4 ?_⟩
      apply List.ext_getElem?
      intro m
      grind
    | @last ib sb tb xb _ _ hb1 hb2 hb3 hb4 hb5 =>
      refine .inr ⟨_, _, .last (i := ib) (s := sb) (by grind) (by simp only [*, List.length_set]) hb3 rfl hb5, .pass (i := ia) (s := sa) (u := ua) (by grind) (by grind) ha3 ha4 ?_⟩
      apply List.ext_getElem?
      intro m
      grind
  | @close ia sa ua ka _ ha1 ha2 ha3 ha4 ha5 =>
    cases h' with
    | @tau ib sb xb _ hb1 hb2 hb3 =>
      refine .inr ⟨_, _, .tau (i := ib) (s := sb) (s' := xb) (by grind) hb2 rfl, .close (i := ia) (s := sa) (u := ua) (by grind) (by grind) ha3 ha4 ?_⟩
      apply List.ext_getElem?
      intro m
      grind
    | @pass ib sb tb xb ub kb _ hb1 hb2 hb3 hb4 hb5 =>
      refine .inr ⟨_, _, .pass (i := ib) (s := sb) (u := ub) (by grind) (by grind) hb3 hb4 rfl, .close (i := ia) (s := sa) (u := ua) (by grind) (by grind) ha3 ha4 ?_⟩
      apply List.ext_getElem?
      intro m
      grind
    | @close ib sb ub kb _ hb1 hb2 hb3 hb4 hb5 =>
      by_cases e : ia = ib
      · left; grind
      · refine .inr ⟨_, _, .close (i := ib) (s := sb) (u := ub) (by grind) (by grind) hb3 hb4 rfl, .close (i := ia) (s := sa) (u := ua) (by grind) (by grind) ha3 ha4 ?_⟩
        apply List.ext_getElem?
        intro m
        grind
    | @first sb kb _ hb1 hb2 hb3 =>
      refine .inr ⟨_, _, .first (s := sb) (by grind) hb2 rfl, .close (i := ia) (s := sa) (u := ua) (by grind) (by grind) ha3 ha4 ?_⟩
      apply List.ext_getElem?
      intro m
      grind
    | @last ib sb tb xb _ _ hb1 hb2 hb3 hb4 hb5 =>
      refine .inr ⟨_, _, .last (i := ib) (s := sb) (by grind) (by simp only [*, List.length_set]) hb3 rfl hb5, .close (i := ia) (s := sa) (u := ua) (by grind) (by grind) ha3 ha4 ?_⟩
      apply List.ext_getElem?
      intro m
      grind
  | @first sa ka _ ha1 ha2 ha3 =>
    cases h' with
    | @tau ib sb xb _ hb1 hb2 hb3 =>
      refine .inr ⟨_, _, .tau (i := ib) (s := sb) (s' := xb) (by grind) hb2 rfl, .first (s := sa) (by grind) ha2 ?_⟩
      apply List.ext_getElem?
      intro m
      grind
    | @pass ib sb tb xb ub kb _ hb1 hb2 hb3 hb4 hb5 =>
      refine .inr ⟨_, _, .pass (i := ib) (s := sb) (u := ub) (by grind) (by grind) hb3 hb4 rfl, .first (s := sa) (by grind) ha2 ?_⟩
      apply List.ext_getElem?
      intro m
      grind
    | @close ib sb ub kb _ hb1 hb2 hb3 hb4 hb5 =>
      refine .inr ⟨_, _, .close (i := ib) (s := sb) (u := ub) (by grind) (by grind) hb3 hb4 rfl, .first (s := sa) (by grind) ha2 ?_⟩
      apply List.ext_getElem?
      intro m
      grind
    | @first sb kb _ hb1 hb2 hb3 =>
      left; grind
    | @last ib sb tb xb _ _ hb1 hb2 hb3 hb4 hb5 =>
      refine .inr ⟨_, _, .last (i := ib) (s := sb) (by grind) (by simp only [*, List.length_set]) hb3 rfl hb5, .first (s := sa) (by grind) ha2 ?_⟩
      apply List.ext_getElem?
      intro m
      grind
  | @last ia sa ta xa _ _ ha1 ha2 ha3 ha4 ha5 =>
    cases h' with
    | @tau ib sb xb _ hb1 hb2 hb3 =>
      refine .inr ⟨_, _, .tau (i := ib) (s := sb) (s' := xb) (by grind) hb2 rfl, .last (i := ia) (s := sa) (by grind) (by simp only [*, List.length_set]) ha3 ?_ ha5⟩
      apply List.ext_getElem?
      intro m
      grind
    | @pass ib sb tb xb ub kb _ hb1 hb2 hb3 hb4 hb5 =>
      refine .inr ⟨_, _, .pass (i := ib) (s := sb) (u := ub) (by grind) (by grind) hb3 hb4 rfl, .last (i := ia) (s := sa) (by grind) (by simp only [*, List.length_set]) ha3 ?_ ha5⟩
      apply List.ext_getElem?
      intro m
      grind
    | @close ib sb ub kb _ hb1 hb2 hb3 hb4 hb5 =>
      refine .inr ⟨_, _, .close (i := ib) (s := sb) (u := ub) (by grind) (by grind) hb3 hb4 rfl, .last (i := ia) (s := sa) (by grind) (by simp only [*, List.length_set]) ha3 ?_ ha5⟩
      apply List.ext_getElem?
      intro m
      grind
    | @first sb kb _ hb1 hb2 hb3 =>
      refine .inr ⟨_, _, .first (s := sb) (by grind) hb2 rfl, .last (i := ia) (s := sa) (by grind) (by simp only [*, List.length_set]) ha3 ?_ ha5⟩
      apply List.ext_getElem?
      intro m
      grind
    | @last ib sb tb xb _ _ hb1 hb2 hb3 hb4 hb5 =>
      left; grind

section
variable {act : α → Act T α}

theorem set_at (l r : List α) (s s' : α) : (l ++ s :: r).set l.length s' = l ++ s' :: r := by simp

theorem get_at (l r : List α) (s : α) : (l ++ s :: r)[l.length]? = some s := by simp

theorem split_at {gs : List α} {i : Nat} {s : α} (h : gs[i]? = some s) : ∃ l r, gs = l ++ s :: r ∧ l.length = i := by
  obtain ⟨hi, e⟩ := List.getElem?_eq_some_iff.1 h
  refine ⟨gs.take i, gs.drop (i + 1), ?_, by simp; omega⟩
  rw [← e, List.getElem_cons_drop, List.take_append_drop]

theorem step_fire {c c' : List α × List T} : Step act c c' ↔ Fire act c.1 c.2 c'.1 c'.2 := by
  constructor
  · intro h
    cases h with
    | @tau l s s' r out h => exact .tau (get_at l r s) h (set_at l r s s').symm
    | @pass l s t s' u k r out h h' =>
      refine .pass (get_at l (u :: r) s) ?_ h h' ?_
      · have := get_at (l ++ [s]) r u
        simpa using this
      · have := set_at (l ++ [s']) r u (k (some t))
        simp only [List.length_append, List.length_singleton, List.append_assoc, List.singleton_append] at this
        rw [set_at, this]
    | @close l s u k r out h h' =>
      refine .close (get_at l (u :: r) s) ?_ h h' ?_
      · have := get_at (l ++ [s]) r u
        simpa using this
      · have := set_at (l ++ [s]) r u (k none)
        simp only [List.length_append, List.length_singleton, List.append_assoc, List.singleton_append] at this
        rw [this]
    | @first s k r out h => exact .first rfl h rfl
    | @last l s t s' out h => exact .last (get_at l [] s) (by simp) h (set_at l [] s s').symm rfl
  · obtain ⟨gs, out⟩ := c
    obtain ⟨gs', out'⟩ := c'
    intro h
    cases h with
    | tau h1 h2 h3 =>
      obtain ⟨l, r, e1, e2⟩ := split_at h1
      simp only at e1 h3
      subst e2
      rw [h3, e1, set_at]
      exact .tau h2
    | @pass i s t s' u k _ h1 h2 h3 h4 h5 =>
      obtain ⟨l, r, e1, e2⟩ := split_at h1
      simp only at e1 h2 h5
      subst e2
      rw [e1] at h2
      cases r with
      | nil => simp at h2
      | cons v r =>
        have hv : v = u := by
          have := get_at (l ++ [s]) r v
          simp only [List.length_append, List.length_singleton, List.append_assoc, List.singleton_append] at this
          rw [this] at h2
          cases h2
          rfl
        subst hv
        have := set_at (l ++ [s']) r v (k (some t))
        simp only [List.length_append, List.length_singleton, List.append_assoc, List.singleton_append] at this
        rw [h5, e1, set_at, this]
        exact .pass h3 h4
    | @close i s u k _ h1 h2 h3 h4 h5 =>
      obtain ⟨l, r, e1, e2⟩ := split_at h1
      simp only at e1 h2 h5
      subst e2
      rw [e1] at h2
      cases r with
      | nil => simp at h2
      | cons v r =>
        have hv : v = u := by
          have := get_at (l ++ [s]) r v
          simp only [List.length_append, List.length_singleton, List.append_assoc, List.singleton_append] at this
          rw [this] at h2
          cases h2
          rfl
        subst hv
        have := set_at (l ++ [s]) r v (k none)
        simp only [List.length_append, List.length_singleton, List.append_assoc, List.singleton_append] at this
        rw [h5, e1, this]
        exact .close h3 h4
    | first h1 h2 h3 =>
      cases gs with
      | nil => cases h1
      | cons v r =>
        cases h1
        simp only at h3
        rw [h3]
        exact .first h2
    | last h1 h2 h3 h4 h5 =>
      obtain ⟨l, r, e1, e2⟩ := split_at h1
      simp only at e1 h2 h4 h5
      subst e2
      have hr : r = [] := by
        rw [e1] at h2
        apply List.length_eq_zero_iff.1
        simp at h2
        simpa using h2
      subst hr
      rw [h4, h5, e1, set_at]
      exact .last h3

theorem diamond {c a b : List α × List T} (h : Step act c a) (h' : Step act c b) : a = b ∨ ∃ d, Step act a d ∧ Step act b d := by
  rcases fire_diamond (step_fire.1 h) (step_fire.1 h') with ⟨e1, e2⟩ | ⟨d, od, h1, h2⟩
  · exact .inl (Prod.ext e1 e2)
  · exact .inr ⟨(d, od), step_fire.2 h1, step_fire.2 h2⟩

theorem Steps.trans {m n : Nat} {a b c : List α × List T} (h : Steps act m a b) : Steps act n b c → Steps act (n + m) a c := by
  induction h with
  | zero => exact id
  | succ h _ ih => exact fun h' => .succ h (ih h')

/-- One step against several. -/
theorem strip {n : Nat} {c b : List α × List T} (h' : Steps act n c b) : ∀ {a}, Step act c a →
    (∃ k, n = k + 1 ∧ Steps act k a b) ∨ ∃ d, Steps act n a d ∧ Step act b d := by
  induction h' with
  | zero => exact fun h => .inr ⟨_, .zero, h⟩
  | @succ n c c' c'' hs hss ih =>
    intro a h
    rcases diamond h hs with rfl | ⟨d, h1, h2⟩
    · exact .inl ⟨n, rfl, hss⟩
    · rcases ih h2 with ⟨k, rfl, h3⟩ | ⟨e, h3, h4⟩
      · exact .inl ⟨k + 1, rfl, .succ h1 h3⟩
      · exact .inr ⟨e, .succ h1 h3, h4⟩

/-- Two schedules can be continued to the same state, with the same number of steps in all. -/
theorem confluent {m : Nat} {c a : List α × List T} (h : Steps act m c a) : ∀ {n b}, Steps act n c b →
    ∃ d m' n', Steps act m' a d ∧ Steps act n' b d ∧ m + m' = n + n' := by
  induction h with
  | @zero c => exact fun {n b} h' => ⟨b, n, 0, h', .zero, by omega⟩
  | @succ m c c' a hs _ ih =>
    intro n b h'
    rcases strip h' hs with ⟨k, rfl, h1⟩ | ⟨d, h1, h2⟩
    · obtain ⟨d, m', n', h2, h3, h4⟩ := ih h1
      exact ⟨d, m', n', h2, h3, by omega⟩
    · obtain ⟨e, m', n', h3, h4, h5⟩ := ih h1
      exact ⟨e, m', n' + 1, h3, .succ h2 h4, by omega⟩

/-- Nothing that is written is taken back. -/
theorem steps_out {m : Nat} {c a : List α × List T} (h : Steps act m c a) : c.2 <+: a.2 := by
  induction h with
  | zero => exact List.prefix_refl _
  | succ h _ ih =>
    refine List.IsPrefix.trans ?_ ih
    cases h with
    | last _ => exact List.prefix_append _ _
    | _ => exact List.prefix_refl _

end

/-! ## Schedules that are computed -/

/-- The step in which goroutine `i` sends, makes a step of its own, or sees that its channel is closed. -/
def fireAt (act : α → Act T α) (i : Nat) (c : List α × List T) : Option (List α × List T) :=
  match c.1[i]? with
  | none => none
  | some s =>
    match act s with
    | .tau s' => some (c.1.set i s', c.2)
    | .put t s' =>
      match c.1[i + 1]? with
      | none => some (c.1.set i s', c.2 ++ [t])
      | some u =>
        match act u with
        | .get k => some ((c.1.set i s').set (i + 1) (k (some t)), c.2)
        | _ => none
    | .get k =>
      match i with
      | 0 => some (c.1.set 0 (k none), c.2)
      | i + 1 =>
        match c.1[i]? with
        | some u =>
          match act u with
          | .halt => some (c.1.set (i + 1) (k none), c.2)
          | _ => none
        | none => none
    | .halt => none

theorem fireAt_step {act : α → Act T α} {i : Nat} {c c' : List α × List T} (h : fireAt act i c = some c') : Step act c c' := by
  apply step_fire.2
  unfold fireAt at h
  split at h
  · cases h
  · rename_i s hs
    split at h
    · rename_i s' ha
      cases h
      exact .tau hs ha rfl
    · rename_i t s' ha
      split at h
      · rename_i hu
        cases h
        refine .last hs ?_ ha rfl rfl
        obtain ⟨hi, -⟩ := List.getElem?_eq_some_iff.1 hs
        have := List.getElem?_eq_none_iff.1 hu
        omega
      · rename_i u hu
        split at h
        · rename_i k hk
          cases h
          exact .pass hs hu ha hk rfl
        · cases h
    · rename_i k ha
      split at h
      · cases h
        exact .first hs ha rfl
      · rename_i i
        split at h
        · rename_i u hu
          split at h
          · rename_i hh
            cases h
            exact .close hu hs hh ha rfl
          · cases h
        · cases h
    · cases h

/-- The schedule in which the first goroutine in `order` that can make a step does so, until `stop`. -/
def schedule (act : α → Act T α) (stop : List α → Bool) (order : List Nat) : Nat → List α × List T → List α × List T
  | 0, c => c
  | n + 1, c => if stop c.1 then c else
    match order.findSome? fun i => fireAt act i c with
    | none => c
    | some c' => schedule act stop order n c'

theorem schedule_steps (act : α → Act T α) (stop : List α → Bool) (order : List Nat) : ∀ n c, ∃ k, Steps act k c (schedule act stop order n c)
  | 0, c => ⟨0, .zero⟩
  | n + 1, c => by
    unfold schedule
    split
    · exact ⟨0, .zero⟩
    · split
      · exact ⟨0, .zero⟩
      · rename_i c' h
        obtain ⟨i, -, hi⟩ := List.exists_of_findSome?_eq_some h
        obtain ⟨k, hk⟩ := schedule_steps act stop order n c'
        exact ⟨k + 1, .succ (fireAt_step hi) hk⟩

end Verif.Pipeline
