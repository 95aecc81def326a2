import Verif.IterStreams

/-!
# Invariant of the iterator specification

Which handles of a thread are open, in which order, and how they hang together.  The lemmas say that
the operations keep the invariant.
-/

set_option linter.unusedSimpArgs false
set_option linter.unusedVariables false

namespace Verif

open Streams JVal.toks

/-- The tokens that a handle has still to read from its stream. -/
def frame (c : AColl) : List Token := bodyToks c.rest ++ elisionToks c.e ++ endToks c.kind

/-- The same for a stack of handles, innermost first. -/
def frames (s : AState) (l : List Nat) : List Token := l.flatMap fun i => frame (s.coll i)

@[simp] theorem frames_nil (s : AState) : frames s [] = [] := rfl
@[simp] theorem frames_cons (s : AState) (i : Nat) (l : List Nat) :
    frames s (i :: l) = frame (s.coll i) ++ frames s l := rfl

theorem frames_congr {s s' : AState} {l : List Nat} (h : ∀ i ∈ l, frame (s'.coll i) = frame (s.coll i)) :
    frames s' l = frames s l := by
  induction l with
  | nil => rfl
  | cons i l ih =>
    rw [frames_cons, frames_cons, h i (by simp), ih fun j hj => h j (by simp [hj])]

/-- Each handle in the list is the current value of the next. -/
def Chain (s : AState) : List Nat → Prop
  | j :: i :: l => (∃ k, (s.coll i).cur = some (.coll k j)) ∧ Chain s (i :: l)
  | _ => True

theorem Chain.tail {s : AState} {i : Nat} {l : List Nat} (h : Chain s (i :: l)) : Chain s l := by
  cases l with
  | nil => simp [Chain]
  | cons j l => exact h.2

theorem Chain.append {s : AState} {l m : List Nat} (h : Chain s (l ++ m)) : Chain s m := by
  induction l with
  | nil => exact h
  | cons i l ih => exact ih h.tail

theorem Chain.congr {s s' : AState} {l : List Nat} (h : Chain s l)
    (hc : ∀ i ∈ l, ∀ k j, (s.coll i).cur = some (.coll k j) → (s'.coll i).cur = some (.coll k j)) :
    Chain s' l := by
  induction l with
  | nil => simp [Chain]
  | cons i l ih =>
    cases l with
    | nil => simp [Chain]
    | cons j l =>
      obtain ⟨⟨k, hk⟩, h2⟩ := h
      exact ⟨⟨k, hc j (by simp) k i hk⟩, ih h2 fun x hx => hc x (by simp [hx])⟩

/-- Consistency of a single handle. -/
structure Good (c : AColl) : Prop where
  started : c.kind ≠ .top → c.started = c.cur.isSome
  keys : ∀ m ∈ c.rest, (m.1.isSome ↔ c.kind = .obj)
  top : c.kind = .top → c.done = false ∧ c.e = false ∧ c.started = false
  key : c.kind ≠ .obj → c.key = none

/-- The invariant.  `stk t` are the open handles of the thread `t`, innermost first; `lt` is the
thread that has borrowed the channel; `junk t` are tokens that the thread will never read; `dat t` says
that `t` reads from a slice. -/
structure AInv (s : AState) (stk : Nat → List Nat) (lt : Option Nat) (dat : Nat → Bool)
    (junk : Nat → List Token) : Prop where
  nt : 0 < s.nt
  good : ∀ i < s.n, Good (s.coll i)
  thr : ∀ i < s.n, (s.coll i).thr < s.nt
  cur : ∀ i < s.n, ∀ k j, (s.coll i).cur = some (.coll k j) →
    i < j ∧ j < s.n ∧ (s.coll j).kind = k ∧ k ≠ .top ∧
      ((s.coll j).done = false → (s.coll j).thr = (s.coll i).thr ∨ (s.coll i).thr = 0)
  dead0 : s.dead 0 = false
  fresh : ∀ t, s.nt ≤ t → s.dead t = false ∧ s.det t = false
  stk_dead : ∀ t, s.dead t = true → stk t = []
  mem : ∀ t, ∀ i ∈ stk t, i < s.n ∧ (s.coll i).thr = t ∧ (s.coll i).done = false
  open_ : ∀ i < s.n, (s.coll i).done = false → s.dead (s.coll i).thr = false → i ∈ stk (s.coll i).thr
  chain : ∀ t, Chain s (stk t)
  head : ∀ t i tl k j, stk t = i :: tl → (s.coll i).cur = some (.coll k j) → (s.coll j).done = false →
    t = 0 ∧ lt = some (s.coll j).thr
  root : ∃ l, stk 0 = l ++ [0]
  kind0 : (s.coll 0).kind = .top
  lent : ∀ t, lt = some t → 0 < t ∧ t < s.nt ∧ s.dead t = false ∧ s.det t = false ∧ junk t = [] ∧
    ∃ i tl k j l, stk 0 = i :: tl ∧ (s.coll i).cur = some (.coll k j) ∧ (s.coll j).thr = t ∧
      stk t = l ++ [j]
  top : ∀ i < s.n, (s.coll i).kind = .top → s.dead (s.coll i).thr = false → (s.coll i).thr ≠ 0 →
    dat (s.coll i).thr = true ∧ junk (s.coll i).thr = []
  junk0 : junk 0 = []
  det0 : s.det 0 = false

/-- The current value of `i` is finished. -/
def ChildDone (s : AState) (i : Nat) : Prop :=
  ∀ k j, (s.coll i).cur = some (.coll k j) → (s.coll j).done = true

namespace AInv

variable {s : AState} {stk : Nat → List Nat} {lt : Option Nat} {dat : Nat → Bool} {junk : Nat → List Token}

theorem zero_lt (h : AInv s stk lt dat junk) : 0 < s.n := by
  obtain ⟨l, hl⟩ := h.root
  exact (h.mem 0 0 (by simp [hl])).1

theorem lt_none (h : AInv s stk lt dat junk) {i tl} (hs : stk 0 = i :: tl) (hc : ChildDone s i) :
    lt = none := by
  cases hl : lt with
  | none => rfl
  | some t =>
    obtain ⟨_, _, _, _, _, i', tl', k, j, l, h1, h2, h3, h4⟩ := h.lent t hl
    rw [hs] at h1
    obtain ⟨rfl, rfl⟩ := List.cons.inj h1
    have := hc k j h2
    have hm := (h.mem t j (by simp [h4])).2.2
    rw [hm] at this
    cases this

/-- The handle inside an open handle. -/
theorem inner (h : AInv s stk lt dat junk) {t l i tl} (hs : stk t = l ++ i :: tl) :
    l = [] ∨ ∃ l' k j, l = l' ++ [j] ∧ (s.coll i).cur = some (.coll k j) := by
  rcases List.eq_nil_or_concat l with hl | ⟨l', j, rfl⟩
  · exact Or.inl hl
  · right
    have := h.chain t
    rw [hs, List.concat_eq_append, List.append_assoc] at this
    obtain ⟨⟨k, hk⟩, _⟩ := this.append
    exact ⟨l', k, j, List.concat_eq_append .., hk⟩

/-- An open handle with finished current value is the innermost one. -/
theorem innermost (h : AInv s stk lt dat junk) {t l i tl} (hs : stk t = l ++ i :: tl) (hc : ChildDone s i) :
    l = [] := by
  rcases h.inner hs with hl | ⟨l', k, j, rfl, hj⟩
  · exact hl
  · have := hc k j hj
    have hm := (h.mem t j (by simp [hs])).2.2
    rw [hm] at this
    cases this

theorem notin (h : AInv s stk lt dat junk) {i t} (hi : (s.coll i).done = true) : i ∉ stk t := by
  intro hm
  have := (h.mem t i hm).2.2
  rw [hi] at this
  cases this

/-- Handles on the stack are in order of creation. -/
theorem sorted (h : AInv s stk lt dat junk) {t l i tl} (hs : stk t = l ++ i :: tl) : ∀ j ∈ tl, j < i := by
  have hcg : ∀ (m : List Nat) i, Chain s (i :: m) → (∀ j ∈ m, j < s.n) → ∀ j ∈ m, j < i := by
    intro m
    induction m with
    | nil => simp
    | cons a m ih =>
      intro i hc hn j hj
      obtain ⟨⟨k, hk⟩, h2⟩ := hc
      have hai := (h.cur a (hn a (by simp)) k i hk).1
      rcases List.mem_cons.1 hj with rfl | hj
      · exact hai
      · have := ih a h2 (fun x hx => hn x (by simp [hx])) j hj
        omega
  intro j hj
  have hc := h.chain t
  rw [hs] at hc
  exact hcg tl i hc.append (fun x hx => (h.mem t x (by simp [hs, hx])).1) j hj

theorem top_last (h : AInv s stk lt dat junk) {t l i tl} (hs : stk t = l ++ i :: tl)
    (hk : (s.coll i).kind = .top) : tl = [] := by
  cases tl with
  | nil => rfl
  | cons j tl =>
    have hc := h.chain t
    rw [hs] at hc
    obtain ⟨⟨k, hj⟩, _⟩ := hc.append
    obtain ⟨_, _, h3, h4, _⟩ := h.cur j (h.mem t j (by simp [hs])).1 k i hj
    exact absurd (h3.symm.trans hk) h4

theorem split (h : AInv s stk lt dat junk) {i} (hi : i < s.n) (hd : (s.coll i).done = false)
    (ha : s.dead (s.coll i).thr = false) : ∃ l tl, stk (s.coll i).thr = l ++ i :: tl :=
  List.append_of_mem (h.open_ i hi hd ha)

end AInv
end Verif
