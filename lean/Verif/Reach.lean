import Verif.IterMod

/-!
# Half-way through a run

`Reach m p s o p' s'`: the program `p`, started in `s`, has at some moment emitted `o` and still has to run `p'`, and the state is then `s'`.  On the
implementation of iterators this says what has been written when how much of the input has been read (`Heap.st.src` is what the channel has
still to deliver).
-/

set_option linter.unusedSimpArgs false
set_option linter.unusedVariables false

namespace Verif

/-- See the head of this file. -/
inductive Reach {σ ε α : Type} (m : IMach σ) : IProg ε α → σ → List ε → IProg ε α → σ → Prop
  | refl (p s) : Reach m p s [] p s
  | emit {e k s o p' s'} : Reach m k s o p' s' → Reach m (.emit e k) s (e :: o) p' s'
  | op {o k s s1 r out p' s'} : m.step s o = .ok (s1, r) → Reach m (k r) s1 out p' s' → Reach m (.op o k) s out p' s'

namespace Reach

variable {σ ε α β : Type} {m : IMach σ}

theorem trans {p p' p'' : IProg ε α} {s s' s'' : σ} {o o' : List ε} (h : Reach m p s o p' s') (h' : Reach m p' s' o' p'' s'') :
    Reach m p s (o ++ o') p'' s'' := by
  induction h with
  | refl => exact h'
  | emit _ ih => exact .emit (ih h')
  | op e _ ih => exact .op e (ih h')

theorem bind {p p' : IProg ε α} {s s' : σ} {o : List ε} (h : Reach m p s o p' s') (f : α → IProg ε β) :
    Reach m (p.bind f) s o (p'.bind f) s' := by
  induction h with
  | refl => exact .refl _ _
  | emit _ ih => exact .emit ih
  | op e _ ih => exact .op e ih

/-- The whole run. -/
theorem of_run {p : IProg ε α} {s s' : σ} {o : List ε} {a : α} (h : p.run m s = (o, .ok (s', a))) : Reach m p s o (.ret a) s' := by
  induction p generalizing s o with
  | ret b => simp only [IProg.run, Prod.mk.injEq, Except.ok.injEq] at h; obtain ⟨rfl, rfl, rfl⟩ := h; exact .refl _ _
  | fail e => simp [IProg.run] at h
  | emit e k ih =>
    simp only [IProg.run, Prod.mk.injEq] at h
    obtain ⟨rfl, h⟩ := h
    exact .emit (ih (Prod.ext rfl h))
  | op o' k ih =>
    simp only [IProg.run] at h
    cases hs : m.step s o' with
    | error e => rw [hs] at h; simp at h
    | ok r => rw [hs] at h; exact .op hs (ih _ h)

/-- The run of a first part. -/
theorem of_run_bind {p : IProg ε α} {s s' : σ} {o : List ε} {a : α} (h : p.run m s = (o, .ok (s', a))) (f : α → IProg ε β) :
    Reach m (p.bind f) s o (f a) s' := (of_run h).bind f

theorem op_step {o : IOp} {k : o.Res → IProg ε α} {s s1 : σ} {r : o.Res} (h : m.step s o = .ok (s1, r)) : Reach m (.op o k) s [] (k r) s1 :=
  .op h (.refl _ _)

/-- What has been emitted is the beginning of what the run emits. -/
theorem run {p p' : IProg ε α} {s s' : σ} {o : List ε} (h : Reach m p s o p' s') :
    p.run m s = (o ++ (p'.run m s').1, (p'.run m s').2) := by
  induction h with
  | refl => rfl
  | emit _ ih => simp only [IProg.run, ih]; rfl
  | op e _ ih => simp only [IProg.run, e, ih]

theorem isPrefix {p p' : IProg ε α} {s s' : σ} {o : List ε} (h : Reach m p s o p' s') : o <+: (p.run m s).1 := by
  rw [h.run]; exact List.prefix_append _ _

end Reach

/-- The implementation gets where the specification gets. -/
theorem Reach.heap {ε α : Type} {p p' : IProg ε α} {s s' : AState} {o : List ε} (h : Reach AState.mach p s o p' s') {hp : Heap} (H : ISimE hp s) :
    ∃ hp', Reach Heap.mach p hp o p' hp' ∧ ISimE hp' s' := by
  induction h generalizing hp with
  | refl => exact ⟨hp, .refl _ _, H⟩
  | emit _ ih =>
    obtain ⟨hp', h1, h2⟩ := ih H
    exact ⟨hp', .emit h1, h2⟩
  | @op o k s s1 r out p' s' e _ ih =>
    have e : s.step o = .ok (s1, r) := e
    have := ISim.step_sim o H (by rw [e]; simp)
    rw [e] at this
    obtain ⟨h1, e1, e2⟩ := this
    obtain ⟨hp', h2, h3⟩ := ih e2
    exact ⟨hp', .op e1 h2, h3⟩

namespace AState

/-- The handles from the innermost open collection read directly from the channel out to the iterator over the input. -/
inductive Spine (s : AState) : List Nat → Prop
  | root : Spine s [0]
  | cons {i j l k} : Spine s (i :: l) → (s.coll i).cur = some (.coll k j) → j < s.n → (s.coll j).thr = 0 → (s.coll j).done = false → Spine s (j :: i :: l)

theorem spine_stack {s : AState} {stk : Nat → List Nat} {lt dat junk} (h : AInv s stk lt dat junk) {l : List Nat} (hl : Spine s l) :
    ∃ l', stk 0 = l' ++ l := by
  induction hl with
  | root => exact h.root
  | @cons i j l k hs hc hj ht hd ih =>
    obtain ⟨l', hl'⟩ := ih
    have hm : j ∈ stk 0 := by have := h.open_ j hj hd (by rw [ht]; exact h.dead0); rwa [ht] at this
    have hij : i < j := (h.cur i (h.mem 0 i (by simp [hl'])).1 k j hc).1
    have hsort : ∀ x ∈ l, x < i := h.sorted hl'
    rcases h.inner hl' with rfl | ⟨l'', k', j', rfl, e⟩
    · simp only [List.nil_append] at hl'
      rw [hl'] at hm
      rcases List.mem_cons.1 hm with e | e
      · omega
      · have := hsort j e; omega
    · rw [hc] at e
      cases e
      exact ⟨l'', by rw [hl']; simp⟩

/-- The channel has still to deliver what these handles have to read. -/
theorem Spine.src {hp : Heap} {s : AState} (H : ISimE hp s) {l : List Nat} (hl : Spine s l) : frames s l <:+ hp.st.src := by
  obtain ⟨stk, view, lt, dat, junk, H⟩ := H
  obtain ⟨l', hl'⟩ := spine_stack H.inv hl
  obtain ⟨hn, rest, hr, ap, hi, _⟩ := H.sw
  have hv := H.view 0 (by rw [← H.nt]; exact hn)
  rw [H.inv.dead0, hr, H.inv.junk0, hl'] at hv
  simp only [Bool.false_eq_true, if_false, List.append_nil, Option.some.injEq] at hv
  rw [hi.src, hv, frames, frames, List.flatMap_append]
  exact ⟨_, (List.append_assoc _ _ _)⟩

theorem Spine.mem0 {s : AState} {l : List Nat} (h : Spine s l) : ∀ i ∈ l, i = 0 ∨ i < s.n := by
  induction h with
  | root => intro i hi; simp at hi; exact .inl hi
  | cons _ _ hj _ _ ih =>
    intro i hi
    rcases List.mem_cons.1 hi with rfl | hi
    · exact .inr hj
    · exact ih i hi

/-- Handles that do not change. -/
theorem Spine.congr {s s' : AState} {l : List Nat} (h : Spine s l) (hn : s.n ≤ s'.n) (hc : ∀ i ∈ l, s'.coll i = s.coll i) : Spine s' l := by
  induction h with
  | root => exact .root
  | @cons i j l k hs h1 h2 h3 h4 ih =>
    refine .cons (k := k) (ih fun x hx => hc x (List.mem_cons_of_mem _ hx)) ?_ (Nat.lt_of_lt_of_le h2 hn) ?_ ?_
    · rw [hc i (by simp)]; exact h1
    · rw [hc j (by simp)]; exact h3
    · rw [hc j (by simp)]; exact h4

theorem frames_same {s s' : AState} {l : List Nat} (hc : ∀ i ∈ l, s'.coll i = s.coll i) : frames s' l = frames s l :=
  frames_congr fun i hi => by rw [hc i hi]

end AState
end Verif
