import Verif.HeapLocal
import Verif.EncTotal

/-!
# Operations on iterators come to an end

On any heap that a program can reach, with clones and whatever the tokens are, every operation on iterators ends, regularly or with a panic.  The
number of tokens that a stream can still deliver does not grow, and it gets smaller with every successful `Advance`.
-/

set_option linter.unusedSimpArgs false
set_option linter.unusedVariables false

namespace Verif
open IProg

namespace Pool

theorem next_nextId {P P1 : Pool} {a : APool} (h : Inv P a) {c : Nat} {x : Option Token} (hn : P.next c = some (P1, x)) : P1.nextId = P.nextId := by
  rw [(next_inv h hn).1.nextId, h.nextId]
  simp only [APool.step]
  split
  · rfl
  · split <;> rfl

theorem detach_inv {P P1 : Pool} {a : APool} (h : Inv P a) {c : Nat} (hd : P.detach c = some P1) : Inv P1 (a.step (.detach c)).1 := by
  obtain ⟨P', h1, h2⟩ := h.step (.detach c)
  simp only [Pool.step, hd, Option.bind_eq_bind, Option.bind_some, Option.pure_def, Option.some.injEq, Prod.mk.injEq] at h1
  rw [h1.1]
  exact h2

theorem detach_nextId {P P1 : Pool} {a : APool} (h : Inv P a) {c : Nat} (hd : P.detach c = some P1) : P1.nextId = P.nextId := by
  rw [(detach_inv h hd).nextId, h.nextId]
  rfl

theorem detach_win {P P1 : Pool} {a : APool} (h : Inv P a) {c : Nat} (hd : P.detach c = some P1) (c' : Nat) : P1.win c' ≤ P.win c' := by
  rw [win_spec h, win_spec (detach_inv h hd)]
  simp only [APool.step]
  by_cases e : c' = c
  · simp only [if_pos e]; exact Nat.zero_le _
  · simp only [if_neg e]; exact Nat.le_refl _

theorem clone_win {P : Pool} {c : Nat} (hc : (P.cur c).attached = true) :
    (P.clone c).2 = P.nextId ∧ (P.clone c).1.nextId = P.nextId + 1 ∧ (P.clone c).1.win P.nextId = P.win c ∧ ∀ c' < P.nextId, (P.clone c).1.win c' = P.win c' := by
  have e : P.clone c = ({ P.setCur P.nextId (P.cur c) with cursors := P.cursors ++ [P.nextId], nextId := P.nextId + 1 }, P.nextId) := by
    simp only [clone, if_pos hc]
  rw [e]
  refine ⟨rfl, rfl, ?_, fun c' h' => ?_⟩
  · simp only [win, setCur, if_true]
  · have : c' ≠ P.nextId := by omega
    simp only [win, setCur, if_neg this]

end Pool

namespace Streams
open Pool (Inv)

/-- What always holds of the streams. -/
structure Good (s : Streams) : Prop where
  ok : Ok s
  nt : 0 < s.nt
  own : ∀ t, 0 < t → t < s.nt → (s.curs t).1 < s.np ∧ (s.curs t).2 < (s.pools (s.curs t).1).nextId

theorem good_init (ts : List Token) : Good (init ts) := ⟨ok_init ts, Nat.one_pos, fun t h1 h2 => by have : t < 1 := h2; omega⟩

/-- What reading leaves as it is. -/
structure Keeps (s s1 : Streams) : Prop where
  fewer : Fewer s s1
  nt : s1.nt = s.nt
  np : s1.np = s.np
  curs : s1.curs = s.curs
  ids : ∀ p, (s1.pools p).nextId = (s.pools p).nextId

theorem Keeps.refl {s : Streams} (h : Ok s) : Keeps s s := ⟨.refl h, rfl, rfl, rfl, fun _ => rfl⟩

theorem Keeps.trans {s s1 s2 : Streams} (h : Keeps s s1) (h' : Keeps s1 s2) : Keeps s s2 :=
  ⟨h.fewer.trans h'.fewer, h'.nt.trans h.nt, h'.np.trans h.np, h'.curs.trans h.curs, fun p => (h'.ids p).trans (h.ids p)⟩

theorem Good.keeps {s s1 : Streams} (h : Good s) (k : Keeps s s1) : Good s1 :=
  ⟨k.fewer.ok, by rw [k.nt]; exact h.nt, fun t h1 h2 => by rw [k.curs, k.np, k.ids]; rw [k.nt] at h2; exact h.own t h1 h2⟩

theorem pool_nextId (s : Streams) (p : Nat) : (s.pool p).nextId = (s.pools p).nextId := by unfold pool; split <;> rfl

theorem next_keeps {s s1 : Streams} (hk : Ok s) {t : Nat} {x : Option Token} (h : s.next t = some (s1, x)) :
    Keeps s s1 ∧ (x.isSome = true → s1.left t + 1 ≤ s.left t) := by
  obtain ⟨f1, f2⟩ := next_fewer hk h
  refine ⟨?_, f2⟩
  unfold next at h
  by_cases h0 : t = 0
  · rw [if_pos h0] at h
    cases hs : s.src with
    | nil => rw [hs] at h; cases h; exact ⟨f1, rfl, rfl, rfl, fun _ => rfl⟩
    | cons y r => rw [hs] at h; cases h; exact ⟨f1, rfl, rfl, rfl, fun _ => rfl⟩
  · rw [if_neg h0] at h
    obtain ⟨a, ha⟩ := hk.pool (s.curs t).1
    cases hn : (s.pool (s.curs t).1).next (s.curs t).2 with
    | none => rw [hn] at h; cases h
    | some r =>
      obtain ⟨P, y⟩ := r
      rw [hn] at h
      simp only [Option.bind_eq_bind, Option.bind_some, Option.pure_def, Option.some.injEq, Prod.mk.injEq] at h
      obtain ⟨rfl, rfl⟩ := h
      refine ⟨f1, rfl, rfl, rfl, fun p => ?_⟩
      show (if p = (s.curs t).1 then P else s.pools p).nextId = _
      split
      · rename_i e; rw [Pool.next_nextId ha hn, pool_nextId, e]
      · rfl

theorem detach_keeps {s s1 : Streams} (hk : Ok s) {t : Nat} (h : s.detach t = some s1) : Keeps s s1 := by
  have o := detach_ok hk h
  have e := detach_src h
  unfold Streams.detach at h
  cases hp : (s.pool (s.curs t).1).detach (s.curs t).2 with
  | none => rw [hp] at h; cases h
  | some P =>
    rw [hp] at h
    cases h
    obtain ⟨a, ha⟩ := hk.pool (s.curs t).1
    refine ⟨⟨o, by rw [e]; exact Nat.le_refl _, fun u => ?_⟩, rfl, rfl, rfl, fun p => ?_⟩
    · unfold left
      rw [e]
      refine Nat.add_le_add_left ?_ _
      by_cases h0 : u = 0
      · rw [if_pos h0, if_pos h0]; exact Nat.le_refl _
      · rw [if_neg h0, if_neg h0]
        show (if (s.curs u).1 = (s.curs t).1 then P else s.pools (s.curs u).1).win (s.curs u).2 ≤ _
        split
        · rename_i e; rw [e, ← win_pool]; exact Pool.detach_win ha hp _
        · exact Nat.le_refl _
    · show (if p = (s.curs t).1 then P else s.pools p).nextId = _
      split
      · rename_i e; rw [Pool.detach_nextId ha hp, pool_nextId, e]
      · rfl

/-- A clone can deliver no more than the original. -/
theorem clone_good {s : Streams} (h : Good s) {t : Nat} (ht : t < s.nt) : Good (s.clone t).1 ∧ s.nt ≤ (s.clone t).1.nt ∧
    (s.clone t).2.1 < (s.clone t).1.nt ∧ (s.clone t).2.2 < (s.clone t).1.nt ∧ (∀ u < s.nt, (s.clone t).1.left u ≤ s.left u) ∧
    (s.clone t).1.left (s.clone t).2.1 ≤ s.left t ∧ (s.clone t).1.left (s.clone t).2.2 ≤ s.left t ∧
    ∀ u, s.nt ≤ u → u < (s.clone t).1.nt → (s.clone t).1.left u ≤ s.left t := by
  have o := clone_ok h.ok t
  have hsrc := clone_src s t
  have hnt := h.nt
  by_cases h0 : t = 0
  · have hl : ∀ u < s.nt, (s.clone t).1.left u ≤ s.left u := by
      intro u hu
      unfold left
      rw [hsrc]
      refine Nat.add_le_add_left ?_ _
      by_cases u0 : u = 0
      · rw [if_pos u0, if_pos u0]; exact Nat.le_refl _
      · rw [if_neg u0, if_neg u0]
        have e1 : (s.clone t).1.curs u = s.curs u := by
          simp only [Streams.clone, if_pos h0]
          rw [if_neg (by omega), if_neg (by omega)]
        have e2 : (s.clone t).1.pools (s.curs u).1 = s.pools (s.curs u).1 := by
          simp only [Streams.clone, if_pos h0]
          rw [if_neg (by have := (h.own u (by omega) hu).1; omega)]
        rw [e1, e2]
        exact Nat.le_refl _
    have e0 : (s.clone t).1.nt = s.nt + 2 := by simp only [Streams.clone, if_pos h0]
    have e1 : (s.clone t).2 = (s.nt, s.nt + 1) := by simp only [Streams.clone, if_pos h0]
    have e2 : (s.clone t).1.curs s.nt = (s.np, 0) := by simp only [Streams.clone, if_pos h0, if_true]; rfl
    have e3 : (s.clone t).1.curs (s.nt + 1) = (s.np, 1) := by
      simp only [Streams.clone, if_pos h0, if_true]
      rw [if_neg (by omega)]
      rfl
    have e4 : (s.clone t).1.pools s.np = (((Pool.new s.src).newCursor).1.clone 0).1 := by simp only [Streams.clone, if_pos h0, if_true]; rfl
    have e5 : (s.clone t).1.np = s.np + 1 := by simp only [Streams.clone, if_pos h0]
    have z0 : ((((Pool.new s.src).newCursor).1.clone 0).1).win 0 = 0 := rfl
    have z1 : ((((Pool.new s.src).newCursor).1.clone 0).1).win 1 = 0 := rfl
    have n1 : ((((Pool.new s.src).newCursor).1.clone 0).1).nextId = 2 := rfl
    have l1 : (s.clone t).1.left s.nt ≤ s.left t := by
      simp only [left]
      rw [hsrc, e2, e4, if_neg (by omega), z0, if_pos h0]
      exact Nat.le_refl _
    have l2 : (s.clone t).1.left (s.nt + 1) ≤ s.left t := by
      simp only [left]
      rw [hsrc, e3, e4, if_neg (by omega), z1, if_pos h0]
      exact Nat.le_refl _
    refine ⟨⟨o, by omega, fun u h1 h2 => ?_⟩, by omega, by rw [e1]; simp only; omega, by rw [e1]; simp only; omega, hl, by rw [e1]; exact l1, by rw [e1]; exact l2,
      fun u h1 h2 => ?_⟩
    · rw [e5]
      by_cases a1 : u = s.nt
      · rw [a1, e2]; exact ⟨Nat.lt_succ_self _, by rw [e4, n1]; simp⟩
      · by_cases a2 : u = s.nt + 1
        · rw [a2, e3]; exact ⟨Nat.lt_succ_self _, by rw [e4, n1]; simp⟩
        · have hu : u < s.nt := by omega
          have e1 : (s.clone t).1.curs u = s.curs u := by
            simp only [Streams.clone, if_pos h0]
            rw [if_neg (by omega), if_neg (by omega)]
          have hw := h.own u h1 hu
          have e2 : (s.clone t).1.pools (s.curs u).1 = s.pools (s.curs u).1 := by
            simp only [Streams.clone, if_pos h0]
            rw [if_neg (by omega)]
          rw [e1, e2]
          exact ⟨by omega, hw.2⟩
    · rw [e0] at h2
      by_cases a1 : u = s.nt
      · rw [a1]; exact l1
      · have : u = s.nt + 1 := by omega
        rw [this]; exact l2
  · by_cases ha : ((s.pool (s.curs t).1).cur (s.curs t).2).attached = true
    · obtain ⟨w1, w2, w3, w4⟩ := Pool.clone_win ha
      have hwt := h.own t (by omega) ht
      have e0 : (s.clone t).1.nt = s.nt + 1 := by simp only [Streams.clone, if_neg h0, if_pos ha]
      have e1 : (s.clone t).2 = (t, s.nt) := by simp only [Streams.clone, if_neg h0, if_pos ha]
      have e2 : (s.clone t).1.curs s.nt = ((s.curs t).1, (s.pool (s.curs t).1).nextId) := by simp only [Streams.clone, if_neg h0, if_pos ha, if_true, w1]
      have e3 : ∀ u < s.nt, (s.clone t).1.curs u = s.curs u := by
        intro u hu
        simp only [Streams.clone, if_neg h0, if_pos ha]
        rw [if_neg (by omega)]
      have e4 : (s.clone t).1.np = s.np := by simp only [Streams.clone, if_neg h0, if_pos ha]; rfl
      have e5 : ∀ p, (s.clone t).1.pools p = if p = (s.curs t).1 then ((s.pool (s.curs t).1).clone (s.curs t).2).1 else s.pools p := by
        intro p
        simp only [Streams.clone, if_neg h0, if_pos ha]
        rfl
      have hl : ∀ u < s.nt, (s.clone t).1.left u ≤ s.left u := by
        intro u hu
        unfold left
        rw [hsrc]
        refine Nat.add_le_add_left ?_ _
        by_cases u0 : u = 0
        · rw [if_pos u0, if_pos u0]; exact Nat.le_refl _
        · rw [if_neg u0, if_neg u0, e3 u hu, e5]
          have hw := h.own u (by omega) hu
          split
          · rename_i e
            rw [w4 _ (by rw [pool_nextId, ← e]; exact hw.2), win_pool, e]
            exact Nat.le_refl _
          · exact Nat.le_refl _
      have l1 : (s.clone t).1.left s.nt ≤ s.left t := by
        simp only [left]
        rw [hsrc, e2, e5, if_pos rfl, if_neg (by omega), if_neg h0]
        simp only
        rw [w3, win_pool]
        exact Nat.le_refl _
      refine ⟨⟨o, by omega, fun u h1 h2 => ?_⟩, by omega, by rw [e1]; simp only; omega, by rw [e1]; simp only; omega, hl, by rw [e1]; exact hl t ht, by rw [e1]; exact l1, fun u h1 h2 => by
        have : u = s.nt := by omega
        rw [this]; exact l1⟩
      · rw [e4]
        by_cases a1 : u = s.nt
        · rw [a1, e2, e5, if_pos rfl, w2]
          exact ⟨hwt.1, Nat.lt_succ_self _⟩
        · have hu : u < s.nt := by omega
          have hw := h.own u h1 hu
          rw [e3 u hu, e5]
          refine ⟨hw.1, ?_⟩
          split
          · rename_i e; rw [w2, pool_nextId, ← e]; exact Nat.lt_succ_of_lt hw.2
          · exact hw.2
    · have e : s.clone t = (s, t, t) := by simp only [Streams.clone, if_neg h0, if_neg ha]
      rw [e]
      exact ⟨h, Nat.le_refl _, ht, ht, fun u _ => Nat.le_refl _, Nat.le_refl _, Nat.le_refl _, fun u h1 h2 => absurd h2 (Nat.not_lt.2 h1)⟩

theorem fromData_good {s : Streams} (h : Good s) (ts : List Token) : Good (s.fromData ts).1 ∧ s.nt ≤ (s.fromData ts).1.nt ∧
    (s.fromData ts).2 < (s.fromData ts).1.nt ∧ ∀ u < s.nt, (s.fromData ts).1.left u ≤ s.left u := by
  have o := fromData_ok h.ok ts
  have same : ∀ u, 0 < u → u < s.nt → (s.fromData ts).1.curs u = s.curs u ∧ (s.fromData ts).1.pools (s.curs u).1 = s.pools (s.curs u).1 := by
    intro u h1 h2
    have hw := h.own u h1 h2
    refine ⟨?_, ?_⟩
    · simp only [Streams.fromData]; rw [if_neg (by omega)]
    · simp only [Streams.fromData]; rw [if_neg (by omega)]
  refine ⟨⟨o, Nat.succ_pos _, fun u h1 h2 => ?_⟩, Nat.le_succ _, Nat.lt_succ_self _, fun u hu => ?_⟩
  · have h2 : u < s.nt + 1 := h2
    by_cases a : u = s.nt
    · have e1 : (s.fromData ts).1.curs u = (s.np, 0) := by simp only [Streams.fromData]; rw [if_pos a]
      have e2 : (s.fromData ts).1.pools s.np = Pool.fromData ts := by simp only [Streams.fromData, if_true]
      rw [e1, e2]
      exact ⟨Nat.lt_succ_self _, Nat.one_pos⟩
    · obtain ⟨e1, e2⟩ := same u h1 (by omega)
      have hw := h.own u h1 (by omega)
      rw [e1, e2]
      exact ⟨Nat.lt_succ_of_lt hw.1, hw.2⟩
  · unfold left
    rw [fromData_src]
    refine Nat.add_le_add_left ?_ _
    by_cases u0 : u = 0
    · rw [if_pos u0, if_pos u0]; exact Nat.le_refl _
    · obtain ⟨e1, e2⟩ := same u (by omega) hu
      rw [if_neg u0, if_neg u0, e1, e2]
      exact Nat.le_refl _

/-- The bound used for loops suffices. -/
theorem left_avail {s : Streams} (h : Ok s) (t : Nat) : s.left t ≤ s.src.length + (s.pool (s.curs t).1).window.length := by
  unfold left
  refine Nat.add_le_add_left ?_ _
  split
  · exact Nat.zero_le _
  · obtain ⟨a, ha⟩ := h.pool (s.curs t).1
    rw [← win_pool]
    exact Pool.win_le ha _

end Streams

namespace Heap
open Streams (Ok Fewer Keeps)

/-- How much a collection can still read at most. -/
def rest (h : Heap) (i : Nat) : Nat := h.st.left (h.coll i).stream

/-- What always holds: streams are in order, references go to later collections, and what has not been started has no current value. -/
structure Sound (h : Heap) : Prop where
  st : Streams.Good h.st
  str : ∀ i, (h.coll i).stream < h.st.nt
  cur : ∀ i v, (h.coll i).cur = some v → v.After i h.n
  fresh : ∀ i, (h.coll i).kind ≠ .top → (h.coll i).started = false → (h.coll i).cur = none
  pos : 0 < h.n

theorem sound_init (ts : List Token) : Sound (init ts) :=
  ⟨Streams.good_init ts, fun _ => Nat.one_pos, fun _ _ e => (by cases e), fun _ _ _ => rfl, Nat.one_pos⟩

/-- All streams can deliver less than `B` tokens. -/
def Small (B : Nat) (h : Heap) : Prop := ∀ t < h.st.nt, h.st.left t < B

/-- A later state. -/
structure Onward (h h1 : Heap) : Prop where
  sound : Sound h1
  n : h.n ≤ h1.n
  rest : ∀ i < h.n, h1.rest i ≤ h.rest i

theorem Onward.refl {h : Heap} (hs : Sound h) : Onward h h := ⟨hs, Nat.le_refl _, fun _ _ => Nat.le_refl _⟩

theorem Onward.trans {a b c : Heap} (h : Onward a b) (h' : Onward b c) : Onward a c :=
  ⟨h'.sound, Nat.le_trans h.n h'.n, fun i hi => Nat.le_trans (h'.rest i (Nat.lt_of_lt_of_le hi h.n)) (h.rest i hi)⟩

theorem Small.rest {B : Nat} {h : Heap} (hb : Small B h) (hs : Sound h) (i : Nat) : h.rest i < B := hb _ (hs.str i)

/-- What reading and discarding leave as it is. -/
structure Kept (h h1 : Heap) : Prop where
  st : Keeps h.st h1.st
  n : h1.n = h.n
  coll : ∀ i, ∃ d, h1.coll i = { h.coll i with done := d }

theorem Kept.refl {h : Heap} (hs : Ok h.st) : Kept h h := ⟨.refl hs, rfl, fun i => ⟨_, rfl⟩⟩

theorem Kept.trans {a b c : Heap} (h : Kept a b) (h' : Kept b c) : Kept a c := by
  refine ⟨h.st.trans h'.st, h'.n.trans h.n, fun i => ?_⟩
  obtain ⟨d, e⟩ := h.coll i
  obtain ⟨d', e'⟩ := h'.coll i
  exact ⟨d', by rw [e', e]⟩

theorem Kept.stream {h h1 : Heap} (k : Kept h h1) (i : Nat) : (h1.coll i).stream = (h.coll i).stream := by
  obtain ⟨d, e⟩ := k.coll i; rw [e]

theorem Kept.cur {h h1 : Heap} (k : Kept h h1) (i : Nat) : (h1.coll i).cur = (h.coll i).cur := by
  obtain ⟨d, e⟩ := k.coll i; rw [e]

theorem set_cur {h : Heap} {i : Nat} {c : Coll} {j : Nat} (hj : j ≠ i) : ((h.set i c).coll j).cur = (h.coll j).cur := by
  show (if j = i then c else h.coll j).cur = _
  rw [if_neg hj]

theorem Kept.rest {h h1 : Heap} (k : Kept h h1) (i : Nat) : h1.rest i ≤ h.rest i := by
  unfold Heap.rest
  rw [k.stream]
  exact k.st.fewer.left _

theorem Kept.sound {h h1 : Heap} (k : Kept h h1) (hs : Sound h) : Sound h1 := by
  refine ⟨hs.st.keeps k.st, fun i => by rw [k.stream, k.st.nt]; exact hs.str i, fun i v hv => ?_, fun i h1 h2 => ?_, by rw [k.n]; exact hs.pos⟩
  · obtain ⟨d, e⟩ := k.coll i
    rw [e] at hv
    rw [k.n]
    exact hs.cur i v hv
  · obtain ⟨d, e⟩ := k.coll i
    rw [e] at h1 h2 ⊢
    exact hs.fresh i h1 h2

theorem Kept.onward {h h1 : Heap} (k : Kept h h1) (hs : Sound h) : Onward h h1 := ⟨k.sound hs, Nat.le_of_eq k.n.symm, fun i _ => k.rest i⟩

theorem Kept.small {h h1 : Heap} (k : Kept h h1) {B : Nat} (hb : Small B h) : Small B h1 :=
  fun t ht => Nat.lt_of_le_of_lt (k.st.fewer.left t) (hb t (by rw [← k.st.nt]; exact ht))

theorem Kept.done {h h1 : Heap} (k : Kept h h1) (i : Nat) (d : Bool) : Kept h (h1.set i { h1.coll i with done := d }) := by
  refine ⟨k.st, k.n, fun j => ?_⟩
  show ∃ d', (if j = i then { h1.coll i with done := d } else h1.coll j) = _
  split
  · rename_i e
    obtain ⟨d', e'⟩ := k.coll i
    exact ⟨d, by rw [e, e']⟩
  · exact k.coll j

theorem next_ends {h : Heap} (hs : Ok h.st) (t : Nat) : h.next t = .error .panic ∨
    ∃ h1 x, h.next t = .ok (h1, x) ∧ Kept h h1 ∧ h1.coll = h.coll ∧ (x.isSome = true → h1.st.left t + 1 ≤ h.st.left t) := by
  unfold Heap.next
  cases e : h.st.next t with
  | none => exact .inl rfl
  | some r =>
    obtain ⟨st, x⟩ := r
    obtain ⟨k, k'⟩ := Streams.next_keeps hs e
    exact .inr ⟨_, x, rfl, ⟨k, rfl, fun i => ⟨_, rfl⟩⟩, rfl, k'⟩

theorem readToEnd_ends : ∀ (f : Nat) {h : Heap} {t : Nat} {d : Int}, Ok h.st → h.st.left t < f →
    readToEnd f h t d = .error .panic ∨ ∃ h1 l, readToEnd f h t d = .ok (h1, l) ∧ Kept h h1 ∧ h1.coll = h.coll
  | 0, h, t, d, _, hf => absurd hf (Nat.not_lt_zero _)
  | f + 1, h, t, d, hs, hf => by
    unfold readToEnd
    rcases next_ends hs t with e | ⟨h1, x, e, k, kc, kl⟩
    · exact .inl (by rw [e]; rfl)
    · rw [e]
      cases x with
      | none => exact .inr ⟨h1, _, rfl, k, kc⟩
      | some x =>
        have := kl rfl
        simp only [Bind.bind, Except.bind]
        split
        · exact .inr ⟨h1, _, rfl, k, kc⟩
        · rcases readToEnd_ends f (t := t) (d := depthAfter d x) k.st.fewer.ok (by omega) with e | ⟨h2, l, e, k2, kc2⟩
          · exact .inl (by rw [e])
          · rw [e]
            exact .inr ⟨h2, _, rfl, k.trans k2, kc2.trans kc⟩

theorem rest_avail {h : Heap} (hs : Ok h.st) (t : Nat) : h.st.left t < h.avail t + 1 := Nat.lt_succ_of_le (Streams.left_avail hs t)

theorem discard_ends : ∀ (f : Nat) {h : Heap} {v : Val}, Sound h → 0 < f → (∀ k j, v = .coll k j → 0 < j ∧ j < h.n ∧ h.n - j < f) →
    discard f h v = .error .panic ∨ ∃ h1, discard f h v = .ok h1 ∧ Kept h h1
  | 0, h, v, _, hf, _ => absurd hf (Nat.not_lt_zero _)
  | f + 1, h, .scalar s, hs, _, _ => .inr ⟨h, rfl, .refl hs.st.ok⟩
  | f + 1, h, .coll k j, hs, _, hj => by
    obtain ⟨j0, j1, j2⟩ := hj k j rfl
    unfold discard
    by_cases hd : (h.coll j).done = true
    · rw [if_pos hd]; exact .inr ⟨h, rfl, .refl hs.st.ok⟩
    · rw [if_neg hd]
      have key : ∀ h1 : Heap, Kept h h1 → (readToEnd ((h1.set j { h1.coll j with done := true }).avail (h1.coll j).stream + 1)
            (h1.set j { h1.coll j with done := true }) (h1.coll j).stream 0 >>= fun r => Except.ok r.1) = .error .panic ∨
          ∃ h2, (readToEnd ((h1.set j { h1.coll j with done := true }).avail (h1.coll j).stream + 1)
            (h1.set j { h1.coll j with done := true }) (h1.coll j).stream 0 >>= fun r => Except.ok r.1) = .ok h2 ∧ Kept h h2 := by
        intro h1 k1
        have k2 := k1.done j true
        rcases readToEnd_ends _ (d := 0) k2.st.fewer.ok (rest_avail k2.st.fewer.ok (h1.coll j).stream) with e | ⟨h2, l, e, k3, -⟩
        · exact .inl (by rw [e]; rfl)
        · exact .inr ⟨h2, by rw [e]; rfl, k2.trans k3⟩
      by_cases hst : (h.coll j).started = true
      · rw [if_pos hst]
        cases hc : (h.coll j).cur with
        | none => exact .inl rfl
        | some w =>
          have hw := hs.cur j w hc
          rcases discard_ends f hs (v := w) (by omega) (fun k' j' e => by
              subst e
              have : j < j' ∧ j' < h.n := hw
              omega) with r | ⟨h1, r1, r2⟩
          · exact .inl (by simp only [r]; rfl)
          · simp only [r1]
            exact key h1 r2
      · rw [if_neg hst]
        exact key h (.refl hs.st.ok)

theorem discard_exists {h : Heap} (hs : Sound h) {v : Val} (hv : v.After 0 h.n) : discard h.n h v = .error .panic ∨ ∃ h1, discard h.n h v = .ok h1 ∧ Kept h h1 :=
  discard_ends h.n hs hs.pos fun k j e => by
    subst e
    have : 0 < j ∧ j < h.n := hv
    omega

/-- The start of `Advance`. -/
private def pre (h : Heap) (i : Nat) : Except Stop Heap :=
  if (h.coll i).started then
    match (h.coll i).cur with
    | none => .error .panic
    | some v => Heap.discard h.n h v
  else .ok h

private theorem pre_ends {h : Heap} (hs : Sound h) (i : Nat) : pre h i = .error .panic ∨ ∃ h1, pre h i = .ok h1 ∧ Kept h h1 := by
  unfold pre
  split
  · cases hc : (h.coll i).cur with
    | none => exact .inl rfl
    | some v => exact discard_exists hs ((hs.cur i v hc).mono (Nat.zero_le _) (Nat.le_refl _))
  · exact .inr ⟨h, rfl, .refl hs.st.ok⟩

private def preTop (h : Heap) (i : Nat) : Except Stop Heap :=
  match (h.coll i).cur with
  | some v => Heap.discard h.n h v
  | none => .ok h

private theorem preTop_ends {h : Heap} (hs : Sound h) (i : Nat) : preTop h i = .error .panic ∨ ∃ h1, preTop h i = .ok h1 ∧ Kept h h1 := by
  unfold preTop
  cases hc : (h.coll i).cur with
  | none => exact .inr ⟨h, rfl, .refl hs.st.ok⟩
  | some v => exact discard_exists hs ((hs.cur i v hc).mono (Nat.zero_le _) (Nat.le_refl _))

/-- The end of `advance`: the value is taken. -/
private def fin (h : Heap) (i : Nat) (x : Token) : Except Stop (Heap × Bool) :=
  h.streamedValue x (h.coll i).stream >>= fun r => Except.ok (r.1.set i { r.1.coll i with cur := some r.2 }, true)

private def topRest (h : Heap) (i : Nat) : Option Token → Except Stop (Heap × Bool)
  | none => .ok (h.set i { h.coll i with cur := none }, false)
  | some x => fin h i x

private def objVal (h : Heap) (i : Nat) : Option Token → Except Stop (Heap × Bool)
  | none => .error .panic
  | some x => fin h i x

private def objRest (f : Nat) (h : Heap) (i : Nat) : Option Token → Except Stop (Heap × Bool)
  | none => .error .panic
  | some (.scalar k) =>
    (h.set i { h.coll i with started := true, key := some k }).next ((h.set i { h.coll i with started := true, key := some k }).coll i).stream >>=
      fun r => objVal r.1 i r.2
  | some .endObj => .ok (h.set i { h.coll i with done := true }, false)
  | some .elision => advance f (h.set i { h.coll i with elided := true }) i
  | some _ => .error .panic

private def arrRest (f : Nat) (h : Heap) (i : Nat) : Option Token → Except Stop (Heap × Bool)
  | none => .error .panic
  | some .endArr => .ok (h.set i { h.coll i with done := true }, false)
  | some .elision => advance f (h.set i { h.coll i with elided := true }) i
  | some x => fin (h.set i { h.coll i with started := true }) i x

private def nextThen (h : Heap) (i : Nat) (k : Heap → Option Token → Except Stop (Heap × Bool)) : Except Stop (Heap × Bool) :=
  h.next (h.coll i).stream >>= fun r => k r.1 r.2

private theorem advance_top {f : Nat} {h : Heap} {i : Nat} (hk : (h.coll i).kind = .top) :
    advance (f + 1) h i = (preTop h i >>= fun h => nextThen h i fun h x => topRest h i x) := by
  unfold advance preTop
  rw [hk]
  cases hc : (h.coll i).cur <;> simp only [hc] <;> rfl

private theorem advance_obj {f : Nat} {h : Heap} {i : Nat} (hk : (h.coll i).kind = .obj) :
    advance (f + 1) h i = if (h.coll i).done then .ok (h, false) else (pre h i >>= fun h => nextThen h i fun h x => objRest f h i x) := by
  unfold advance pre
  rw [hk]
  cases hd : (h.coll i).done
  · cases hs : (h.coll i).started
    · simp only [hd, hs]; rfl
    · cases hc : (h.coll i).cur <;> simp only [hd, hs, hc] <;> rfl
  · simp only [hd]; rfl

private theorem advance_arr {f : Nat} {h : Heap} {i : Nat} (hk : (h.coll i).kind = .arr) :
    advance (f + 1) h i = if (h.coll i).done then .ok (h, false) else (pre h i >>= fun h => nextThen h i fun h x => arrRest f h i x) := by
  unfold advance pre
  rw [hk]
  cases hd : (h.coll i).done
  · cases hs : (h.coll i).started
    · simp only [hd, hs]; rfl
    · cases hc : (h.coll i).cur <;> simp only [hd, hs, hc] <;> rfl
  · simp only [hd]; rfl

/-- What a successful `Advance` leaves: less to read, and a current value that can read no more. -/
structure Moved (h h1 : Heap) (i : Nat) : Prop where
  rest : h1.rest i < h.rest i
  cur : ∃ x, (h1.coll i).cur = some x ∧ x.After i h1.n ∧ ∀ k j, x = .coll k j → h1.rest j ≤ h1.rest i

/-- `Advance` ends, as it should. -/
private def Fine (h : Heap) (i : Nat) (r : Except Stop (Heap × Bool)) : Prop :=
  r = .error .panic ∨ ∃ h1 b, r = .ok (h1, b) ∧ Onward h h1 ∧ (∀ B, Small B h → Small B h1) ∧ (∀ j < h.n, j ≠ i → (h1.coll j).cur = (h.coll j).cur) ∧ (b = true → Moved h h1 i)

theorem set_stream {h : Heap} {i : Nat} {c : Coll} (hc : c.stream = (h.coll i).stream) (j : Nat) : ((h.set i c).coll j).stream = (h.coll j).stream := by
  show (if j = i then c else h.coll j).stream = _
  split
  · rename_i e; rw [hc, e]
  · rfl

theorem Sound.set {h : Heap} (hs : Sound h) {i : Nat} {c : Coll} (hc : c.stream = (h.coll i).stream) (h1 : ∀ v, c.cur = some v → v.After i h.n)
    (h2 : c.kind ≠ .top → c.started = false → c.cur = none) : Sound (h.set i c) := by
  refine ⟨hs.st, fun j => by rw [set_stream hc]; exact hs.str j, fun j v hv => ?_, fun j => ?_, hs.pos⟩
  · have hv : (if j = i then c else h.coll j).cur = some v := hv
    show v.After j h.n
    split at hv
    · rename_i e; exact e ▸ h1 v hv
    · exact hs.cur j v hv
  · show (if j = i then c else h.coll j).kind ≠ .top → (if j = i then c else h.coll j).started = false → (if j = i then c else h.coll j).cur = none
    split
    · exact h2
    · exact hs.fresh j

theorem rest_set {h : Heap} {i : Nat} {c : Coll} (hc : c.stream = (h.coll i).stream) (j : Nat) : (h.set i c).rest j = h.rest j := by
  unfold Heap.rest
  rw [set_stream hc]
  rfl

theorem Onward.set {h h1 : Heap} (o : Onward h h1) {i : Nat} {c : Coll} (hc : c.stream = (h1.coll i).stream) (hcur : c.cur = (h1.coll i).cur)
    (hkind : c.kind = (h1.coll i).kind) (hst : c.started = false → (h1.coll i).started = false) : Onward h (h1.set i c) := by
  refine ⟨o.sound.set hc (fun v hv => o.sound.cur i v (by rw [← hcur]; exact hv)) (fun a b => by rw [hcur]; exact o.sound.fresh i (by rw [← hkind]; exact a) (hst b)),
    o.n, fun j hj => by rw [rest_set hc]; exact o.rest j hj⟩

theorem alloc_sound {h : Heap} (hs : Sound h) {c : Coll} (hc : c.stream < h.st.nt) (hcur : c.cur = none) : Onward h (h.alloc c).1 := by
  refine ⟨⟨hs.st, fun j => ?_, fun j v hv => ?_, fun j => ?_, Nat.succ_pos _⟩, Nat.le_succ _, fun j hj => ?_⟩
  · show (if j = h.n then c else h.coll j).stream < h.st.nt
    split
    · exact hc
    · exact hs.str j
  · have hv : (if j = h.n then c else h.coll j).cur = some v := hv
    split at hv
    · rw [hcur] at hv; cases hv
    · exact (hs.cur j v hv).mono (Nat.le_refl _) (Nat.le_succ _)
  · show (if j = h.n then c else h.coll j).kind ≠ .top → (if j = h.n then c else h.coll j).started = false → (if j = h.n then c else h.coll j).cur = none
    split
    · exact fun _ _ => hcur
    · exact hs.fresh j
  · show h.st.left (if j = h.n then c else h.coll j).stream ≤ _
    rw [if_neg (by omega)]
    exact Nat.le_refl _

theorem streamed_ends {h : Heap} (hs : Sound h) (x : Token) {i : Nat} (hi : i < h.n) :
    h.streamedValue x (h.coll i).stream = .error .panic ∨ ∃ h1 v, h.streamedValue x (h.coll i).stream = .ok (h1, v) ∧ Onward h h1 ∧ h1.st = h.st ∧
      (∀ j < h.n, h1.coll j = h.coll j) ∧ v.After i h1.n ∧ ∀ k j, v = .coll k j → (h1.coll j).stream = (h.coll i).stream := by
  have key : ∀ k : Kind, (∀ j < h.n, (h.alloc ⟨k, (h.coll i).stream, false, false, false, none, none⟩).1.coll j = h.coll j) ∧
      ((h.alloc ⟨k, (h.coll i).stream, false, false, false, none, none⟩).1.coll h.n).stream = (h.coll i).stream := by
    intro k
    refine ⟨?_, ?_⟩
    · intro j hj
      show (if j = h.n then _ else h.coll j) = _
      rw [if_neg (by omega)]
    · show (if h.n = h.n then _ else h.coll h.n : Coll).stream = _
      rw [if_pos rfl]
  cases x with
  | startArr =>
    refine .inr ⟨_, _, rfl, alloc_sound hs (hs.str i) rfl, rfl, (key _).1, ⟨hi, Nat.lt_succ_self _⟩, fun k j e => ?_⟩
    cases e
    exact (key _).2
  | startObj =>
    refine .inr ⟨_, _, rfl, alloc_sound hs (hs.str i) rfl, rfl, (key _).1, ⟨hi, Nat.lt_succ_self _⟩, fun k j e => ?_⟩
    cases e
    exact (key _).2
  | scalar s => exact .inr ⟨h, _, rfl, .refl hs, rfl, fun _ _ => rfl, trivial, fun k j e => by cases e⟩
  | endArr => exact .inl rfl
  | endObj => exact .inl rfl
  | elision => exact .inl rfl

private theorem fin_fine {h h1 : Heap} {i : Nat} (o : Onward h h1) (ob : ∀ B, Small B h → Small B h1) (hi : i < h.n) (hl : h1.rest i < h.rest i)
    (hcur : ∀ j < h.n, j ≠ i → (h1.coll j).cur = (h.coll j).cur)
    (hst : (h1.coll i).kind ≠ .top → (h1.coll i).started = true) (x : Token) : Fine h i (fin h1 i x) := by
  unfold fin
  have hn := o.n
  rcases streamed_ends o.sound x (i := i) (by omega) with e | ⟨h2, v, e, o2, e1, e2', e3, e4⟩
  · exact .inl (by rw [e]; rfl)
  · rw [e]
    have n2 := o2.n
    have e2 := e2' i (by omega)
    have s3 : Sound (h2.set i { h2.coll i with cur := some v }) := by
      refine o2.sound.set rfl (fun w hw => ?_) (fun a b => ?_)
      · cases hw; exact e3
      · have b : (h2.coll i).started = false := b
        rw [e2] at b
        rw [hst (by rw [← e2]; exact a)] at b
        cases b
    have r3 : ∀ j, (h2.set i { h2.coll i with cur := some v }).rest j = h2.rest j := rest_set (by rfl)
    refine .inr ⟨_, true, rfl, ⟨s3, Nat.le_trans hn n2, fun j hj => ?_⟩, fun B hB t ht => ?_, fun j hj hji => ?_, fun _ => ⟨?_, v, ?_, e3, fun k j ej => ?_⟩⟩
    · rw [r3]
      exact Nat.le_trans (o2.rest j (by omega)) (o.rest j hj)
    · show h2.st.left t < B
      have ht : t < h2.st.nt := ht
      rw [e1] at ht ⊢
      exact ob B hB t ht
    · show (if j = i then _ else h2.coll j : Coll).cur = _
      rw [if_neg hji, e2' j (by omega)]
      exact hcur j hj hji
    · rw [r3]
      have := o2.rest i (by omega)
      omega
    · show (if i = i then _ else _ : Coll).cur = _
      rw [if_pos rfl]
    · rw [r3, r3]
      unfold Heap.rest
      rw [e4 k j ej, e2]
      exact Nat.le_refl _

private theorem pre_fine {h : Heap} {i : Nat} (hs : Sound h) {m : Except Stop Heap} (hm : m = .error .panic ∨ ∃ h1, m = .ok h1 ∧ Kept h h1)
    {k : Heap → Option Token → Except Stop (Heap × Bool)} (h0 : ∀ h1, Kept h h1 → Fine h i (k h1 none))
    (hk : ∀ h1 x, Kept h h1 → h1.rest i < h.rest i → Fine h i (k h1 (some x))) : Fine h i (m >>= fun h => nextThen h i k) := by
  rcases hm with e | ⟨h1, e, k1⟩
  · exact .inl (by rw [e]; rfl)
  · rw [e]
    show Fine h i (nextThen h1 i k)
    unfold nextThen
    rcases next_ends k1.st.fewer.ok (h1.coll i).stream with e | ⟨h2, x, e, k2, kc, kl⟩
    · exact .inl (by rw [e]; rfl)
    · rw [e]
      cases x with
      | none => exact h0 h2 (k1.trans k2)
      | some x =>
        refine hk h2 x (k1.trans k2) ?_
        have := kl rfl
        have := k1.rest i
        unfold Heap.rest at this ⊢
        rw [kc]
        omega

theorem advance_fine : ∀ (f : Nat) {h : Heap} {i : Nat}, Sound h → i < h.n → h.rest i < f →
    advance f h i = .error .panic ∨ ∃ h1 b, advance f h i = .ok (h1, b) ∧ Onward h h1 ∧ (∀ B, Small B h → Small B h1) ∧ (∀ j < h.n, j ≠ i → (h1.coll j).cur = (h.coll j).cur) ∧ (b = true → Moved h h1 i) := by
  show ∀ (f : Nat) {h : Heap} {i : Nat}, Sound h → i < h.n → h.rest i < f → Fine h i (advance f h i)
  intro f
  induction f with
  | zero => intro h i _ _ hf; exact absurd hf (Nat.not_lt_zero _)
  | succ f ih =>
    intro h i hs hi hf
    have again : ∀ h1, Kept h h1 → h1.rest i < h.rest i → Fine h i (advance f (h1.set i { h1.coll i with elided := true }) i) := by
      intro h1 k hl
      have o : Onward h (h1.set i { h1.coll i with elided := true }) := (k.onward hs).set rfl rfl rfl id
      have hr : (h1.set i { h1.coll i with elided := true }).rest i = h1.rest i := rest_set (by rfl) i
      have hn := o.n
      rcases ih o.sound (i := i) (Nat.lt_of_lt_of_le hi hn) (by rw [hr]; omega) with e | ⟨h2, b, e, o2, ob, oc, m⟩
      · exact .inl e
      · exact .inr ⟨h2, b, e, o.trans o2, fun B hB => ob B (k.small hB),
          fun j hj hji => (oc j (Nat.lt_of_lt_of_le hj hn) hji).trans ((set_cur hji).trans (k.cur j)), fun hb => ⟨by have := (m hb).rest; omega, (m hb).cur⟩⟩
    have stop : ∀ h1, Kept h h1 → Fine h i (.ok (h1.set i { h1.coll i with done := true }, false)) := by
      intro h1 k
      exact .inr ⟨_, false, rfl, (k.onward hs).set rfl rfl rfl id, fun B hB => k.small hB, fun j hj hji => (set_cur hji).trans (k.cur j), fun e => by cases e⟩
    cases hk : (h.coll i).kind with
    | top =>
      rw [advance_top hk]
      refine pre_fine hs (preTop_ends hs i) (fun h1 k => ?_) (fun h1 x k hl => ?_)
      · refine .inr ⟨_, false, rfl, ?_, fun B hB => k.small hB, fun j hj hji => (set_cur hji).trans (k.cur j), fun e => by cases e⟩
        have o := k.onward hs
        exact ⟨o.sound.set rfl (fun v hv => by cases hv) (fun _ _ => rfl), o.n, fun j hj => Nat.le_trans (Nat.le_of_eq (rest_set (by rfl) j)) (o.rest j hj)⟩
      · refine fin_fine (k.onward hs) (fun B => k.small) hi hl (fun j _ _ => k.cur j) (fun e => ?_) x
        obtain ⟨d, e'⟩ := k.coll i
        rw [e'] at e
        exact absurd hk e
    | obj =>
      rw [advance_obj hk]
      split
      · exact .inr ⟨h, false, rfl, .refl hs, fun _ => id, fun _ _ _ => rfl, fun e => by cases e⟩
      · refine pre_fine hs (pre_ends hs i) (fun h1 k => .inl rfl) (fun h1 x k hl => ?_)
        cases x with
        | scalar y =>
          show Fine h i (Bind.bind ((h1.set i { h1.coll i with started := true, key := some y }).next ((h1.set i { h1.coll i with started := true, key := some y }).coll i).stream)
            fun r => objVal r.1 i r.2)
          have o : Onward h (h1.set i { h1.coll i with started := true, key := some y }) := (k.onward hs).set rfl rfl rfl (fun e => by cases e)
          have r1 : (h1.set i { h1.coll i with started := true, key := some y }).rest i = h1.rest i := rest_set (by rfl) i
          have s1 : ((h1.set i { h1.coll i with started := true, key := some y }).coll i).started = true := by
            show (if i = i then _ else _ : Coll).started = true
            rw [if_pos rfl]
          have b1 : ∀ B, Small B h → Small B (h1.set i { h1.coll i with started := true, key := some y }) := fun B hB => k.small hB
          have u1 : ∀ j < h.n, j ≠ i → ((h1.set i { h1.coll i with started := true, key := some y }).coll j).cur = (h.coll j).cur :=
            fun j hj hji => (set_cur hji).trans (k.cur j)
          generalize h1.set i { h1.coll i with started := true, key := some y } = h2 at o r1 s1 b1 u1
          rcases next_ends o.sound.st.ok (h2.coll i).stream with e | ⟨h3, z, e, k3, -, -⟩
          · exact .inl (by rw [e]; rfl)
          · rw [e]
            cases z with
            | none => exact .inl rfl
            | some z =>
              have := k3.rest i
              refine fin_fine (o.trans (k3.onward o.sound)) (fun B hB => k3.small (b1 B hB)) hi (by omega) (fun j hj hji => (k3.cur j).trans (u1 j hj hji)) (fun _ => ?_) z
              obtain ⟨d, e'⟩ := k3.coll i
              rw [e']
              exact s1
        | endObj => exact stop h1 k
        | elision => exact again h1 k hl
        | startObj => exact .inl rfl
        | startArr => exact .inl rfl
        | endArr => exact .inl rfl
    | arr =>
      rw [advance_arr hk]
      split
      · exact .inr ⟨h, false, rfl, .refl hs, fun _ => id, fun _ _ _ => rfl, fun e => by cases e⟩
      · refine pre_fine hs (pre_ends hs i) (fun h1 k => .inl rfl) (fun h1 x k hl => ?_)
        have val : ∀ x, Fine h i (fin (h1.set i { h1.coll i with started := true }) i x) := by
          intro x
          refine fin_fine ((k.onward hs).set (i := i) (c := { h1.coll i with started := true }) rfl rfl rfl (fun e => by cases e)) (fun B => k.small) hi (Nat.lt_of_le_of_lt (Nat.le_of_eq (rest_set (by rfl) i)) hl) (fun j _ hji => (set_cur hji).trans (k.cur j)) (fun _ => ?_) x
          show (if i = i then _ else _ : Coll).started = true
          rw [if_pos rfl]
        cases x with
        | endArr => exact stop h1 k
        | elision => exact again h1 k hl
        | scalar y => exact val _
        | endObj => exact val _
        | startObj => exact val _
        | startArr => exact val _

theorem clone_ends {h : Heap} (hs : Sound h) {v : Val} : h.clone v = .error .panic ∨ ∃ h1 w t, h.clone v = .ok (h1, w, t) ∧ Onward h h1 ∧
    (∀ B, Small B h → Small B h1) ∧ w.After 0 h1.n ∧ (∀ s, v = .scalar s → w = v) ∧
    ∀ k i, v = .coll k i → ∃ j, w = .coll k j ∧ (i < h.n → h1.rest j ≤ h.rest i) := by
  cases v with
  | scalar s => exact .inr ⟨h, _, _, rfl, .refl hs, fun _ => id, trivial, fun _ _ => rfl, fun k i e => by cases e⟩
  | coll k i =>
    have hpos := hs.pos
    by_cases hst : (if (h.coll i).kind = .top then (h.coll i).cur.isSome else (h.coll i).started) = true
    · exact .inl (by unfold Heap.clone; simp only; rw [if_pos hst])
    · obtain ⟨c1, c2, c3, c4, c5, c6, c7, c8⟩ := Streams.clone_good hs.st (hs.str i)
      have hcur : (h.coll i).cur = none := by
        by_cases hk : (h.coll i).kind = .top
        · rw [if_pos hk] at hst
          cases hc : (h.coll i).cur with
          | none => rfl
          | some v => rw [hc] at hst; exact absurd rfl hst
        · rw [if_neg hk] at hst
          exact hs.fresh i hk (by simpa using hst)
      have small : ∀ B, Small B h → ∀ t < (h.st.clone (h.coll i).stream).1.nt, (h.st.clone (h.coll i).stream).1.left t < B := by
        intro B hB t ht
        by_cases e : t < h.st.nt
        · exact Nat.lt_of_le_of_lt (c5 t e) (hB t e)
        · exact Nat.lt_of_le_of_lt (c8 t (by omega) ht) (hB _ (hs.str i))
      generalize hr : h.st.clone (h.coll i).stream = r at c1 c2 c3 c4 c5 c6 c7 small
      obtain ⟨st, t, t'⟩ := r
      simp only at c1 c2 c3 c4 c5 c6 c7 small
      have hstr : ∀ j, (if j = i then { h.coll i with stream := t } else h.coll j : Coll).stream < st.nt := by
        intro j
        split
        · exact c3
        · exact Nat.lt_of_lt_of_le (hs.str j) c2
      have s1 : Sound (({ h with st := st } : Heap).set i { h.coll i with stream := t }) := by
        refine ⟨c1, hstr, fun j v hv => ?_, fun j => ?_, hs.pos⟩
        · have hv : (if j = i then { h.coll i with stream := t } else h.coll j : Coll).cur = some v := hv
          split at hv
          · rename_i e; exact e ▸ hs.cur i v hv
          · exact hs.cur j v hv
        · show (if j = i then _ else h.coll j : Coll).kind ≠ .top → (if j = i then _ else h.coll j : Coll).started = false → (if j = i then _ else h.coll j : Coll).cur = none
          split
          · exact hs.fresh i
          · exact hs.fresh j
      have o1 : Onward h (({ h with st := st } : Heap).set i { h.coll i with stream := t }) := by
        refine ⟨s1, Nat.le_refl _, fun j hj => ?_⟩
        show st.left (if j = i then { h.coll i with stream := t } else h.coll j : Coll).stream ≤ h.st.left (h.coll j).stream
        split
        · rename_i e; rw [e]; exact c6
        · exact c5 _ (hs.str j)
      have o2 := alloc_sound s1 (c := { h.coll i with stream := t', key := none }) c4 hcur
      refine .inr ⟨_, .coll k h.n, some t', by unfold Heap.clone; simp only; rw [if_neg hst, hr]; rfl, o1.trans o2, small, ⟨hpos, Nat.lt_succ_self _⟩, fun s e => (by cases e),
        fun k' i' e => ⟨h.n, ?_, fun _ => ?_⟩⟩
      · cases e; rfl
      · cases e
        show st.left (if h.n = h.n then _ else _ : Coll).stream ≤ h.st.left (h.coll i).stream
        rw [if_pos rfl]
        exact c7

theorem copy_ends {h : Heap} (hs : Sound h) (v : Val) : h.copy v = .error .panic ∨ ∃ h1 l, h.copy v = .ok (h1, l) ∧ Kept h h1 := by
  cases v with
  | scalar s => exact .inr ⟨h, _, rfl, .refl hs.st.ok⟩
  | coll k i =>
    unfold Heap.copy
    simp only
    split
    · exact .inl rfl
    · have k1 := (Kept.refl hs.st.ok).done i true
      rcases readToEnd_ends _ (d := 0) k1.st.fewer.ok (rest_avail k1.st.fewer.ok (h.coll i).stream) with e | ⟨h2, l, e, k2, -⟩
      · exact .inl (by rw [e]; rfl)
      · exact .inr ⟨h2, _, by rw [e]; rfl, k1.trans k2⟩

theorem detach_ends {h : Heap} (hs : Sound h) (t : Nat) : h.detach t = .error .panic ∨ ∃ h1, h.detach t = .ok h1 ∧ Kept h h1 := by
  unfold Heap.detach
  cases e : h.st.detach t with
  | none => exact .inl rfl
  | some st => exact .inr ⟨_, rfl, Streams.detach_keeps hs.st.ok e, rfl, fun i => ⟨_, rfl⟩⟩

theorem data_ends {h : Heap} (hs : Sound h) (ts : List Token) : Onward h (h.data ts).1 ∧ (h.data ts).2 < (h.data ts).1.n ∧ 0 < (h.data ts).2 := by
  obtain ⟨c1, c2, c3, c4⟩ := Streams.fromData_good hs.st ts
  have s1 : Sound ({ h with st := (h.st.fromData ts).1 } : Heap) :=
    ⟨c1, fun j => Nat.lt_of_lt_of_le (hs.str j) c2, hs.cur, hs.fresh, hs.pos⟩
  have o1 : Onward h ({ h with st := (h.st.fromData ts).1 } : Heap) := ⟨s1, Nat.le_refl _, fun j _ => c4 _ (hs.str j)⟩
  exact ⟨o1.trans (alloc_sound s1 (c := ⟨.top, (h.st.fromData ts).2, false, false, false, none, none⟩) c3 rfl), Nat.lt_succ_self _, hs.pos⟩

end Heap
end Verif
