import Verif.Reach
import Verif.StreamsLemmas

/-!
# What has not been read has no influence

Two runs on inputs `a ++ b` and `a ++ c`: as long as the first has not started to read `b`, the second does the same.  This is shown for the
implementation of iterators, with its pools of cursors, without any assumption on the tokens.
-/

set_option linter.unusedSimpArgs false
set_option linter.unusedVariables false

namespace Verif

namespace Pool

/-- The pool over another stream. -/
def over (P : Pool) (y : List Token) : Pool := { P with stream := y }

theorem minPos_over (P : Pool) (y : List Token) : (P.over y).minPos = P.minPos := rfl

theorem advanceWindow_over (P : Pool) (y : List Token) : (P.over y).advanceWindow = P.advanceWindow.map (·.over y) := by
  unfold advanceWindow
  rw [minPos_over]
  cases P.minPos with
  | none => rfl
  | some m =>
    by_cases h1 : m - P.windowPos < 0
    · simp [over, h1]
    · by_cases h2 : m - P.windowPos = 0
      · simp [over, h1, h2]
      · simp [over, h1, h2]

theorem updateCatchupCount_over (P : Pool) (y : List Token) (n : Int) : (P.over y).updateCatchupCount n = (P.updateCatchupCount n).map (·.over y) := by
  unfold updateCatchupCount
  by_cases h : P.catchup + n > 100
  · have := advanceWindow_over { P with catchup := 0 } y
    simp only [over] at this
    simp [over, h, this]
  · simp [over, h]

theorem detachCursor_over (P : Pool) (y : List Token) (c : Nat) : (P.over y).detachCursor c = (P.detachCursor c).map (·.over y) := by
  unfold detachCursor
  have h1 : (P.over y).cursors = P.cursors := rfl
  have h2 : (P.over y).cur = P.cur := rfl
  have h3 : (P.over y).windowPos = P.windowPos := rfl
  rw [h1, h2, h3, updateCatchupCount_over]
  by_cases h : c ∈ P.cursors
  · simp only [if_pos h]
    cases P.updateCatchupCount ((P.cur c).pos - P.windowPos) <;> rfl
  · simp only [if_neg h]
    rfl

theorem detach_over (P : Pool) (y : List Token) (c : Nat) : (P.over y).detach c = (P.detach c).map (·.over y) := by
  unfold detach
  rw [detachCursor_over]
  show (if (P.cur c).attached then _ else _) = _
  split <;> rfl

theorem clone_over (P : Pool) (y : List Token) (c : Nat) : (P.over y).clone c = ((P.clone c).1.over y, (P.clone c).2) := by
  unfold clone
  show (if (P.cur c).attached then _ else _) = _
  split <;> rfl

theorem advanceWindow_stream {P Q : Pool} (h : P.advanceWindow = some Q) : Q.stream = P.stream := by
  unfold advanceWindow at h
  split at h
  · cases h; rfl
  · simp only at h
    split at h
    · cases h
    · split at h <;> (cases h; rfl)

theorem updateCatchupCount_stream {P Q : Pool} {n : Int} (h : P.updateCatchupCount n = some Q) : Q.stream = P.stream := by
  unfold updateCatchupCount at h
  simp only at h
  split at h
  · exact (advanceWindow_stream h :)
  · cases h; rfl

theorem detachCursor_stream {P Q : Pool} {c : Nat} (h : P.detachCursor c = some Q) : Q.stream = P.stream := by
  unfold detachCursor at h
  by_cases hc : c ∈ P.cursors
  · simp only [if_pos hc] at h
    cases hu : P.updateCatchupCount ((P.cur c).pos - P.windowPos) with
    | none => rw [hu] at h; cases h
    | some R => have := updateCatchupCount_stream hu; rw [hu] at h; cases h; exact this
  · simp only [if_neg hc] at h
    cases h; rfl

theorem detach_stream {P Q : Pool} {c : Nat} (h : P.detach c = some Q) : Q.stream = P.stream := by
  unfold detach at h
  split at h
  · exact detachCursor_stream h
  · cases h; rfl

theorem clone_stream (P : Pool) (c : Nat) : (P.clone c).1.stream = P.stream := by
  unfold clone
  split <;> rfl

/-- Reading a token: either from the window, or the first of the stream. -/
theorem next_over {P P1 : Pool} {c : Nat} {x : Option Token} {a b d : List Token} (h : P.next c = some (P1, x)) (hs : P.stream = a ++ b) (hb : b = [] → d = [])
    (hl : b.length ≤ P1.stream.length) : ∃ a1, P1.stream = a1 ++ b ∧ (P.over (a ++ d)).next c = some (P1.over (a1 ++ d), x) := by
  unfold next at h ⊢
  have h2 : (P.over (a ++ d)).cur = P.cur := rfl
  rw [h2]
  by_cases ha : (P.cur c).attached = true
  · rw [if_pos ha] at h ⊢
    unfold advanceCursor at h ⊢
    have h3 : (P.over (a ++ d)).window = P.window := rfl
    have h4 : (P.over (a ++ d)).windowPos = P.windowPos := rfl
    simp only [h2, h3, h4] at h ⊢
    by_cases h5 : (P.cur c).pos - P.windowPos < P.window.length
    · rw [if_pos h5] at h ⊢
      by_cases h6 : (P.cur c).pos - P.windowPos < 0
      · rw [if_pos h6] at h; cases h
      · rw [if_neg h6] at h ⊢
        cases hg : P.window[((P.cur c).pos - P.windowPos).toNat]? with
        | none => rw [hg] at h; cases h
        | some tok =>
          rw [hg] at h
          simp only [Option.bind_eq_bind, Option.bind_some] at h ⊢
          have e : (P.over (a ++ d)).setCur c ⟨true, (P.cur c).pos + 1⟩ = (P.setCur c ⟨true, (P.cur c).pos + 1⟩).over (a ++ d) := rfl
          rw [e, updateCatchupCount_over]
          cases hu : (P.setCur c ⟨true, (P.cur c).pos + 1⟩).updateCatchupCount 1 with
          | none => rw [hu] at h; cases h
          | some Q =>
            rw [hu] at h
            cases h
            exact ⟨a, (updateCatchupCount_stream hu).trans hs, rfl⟩
    · rw [if_neg h5] at h ⊢
      by_cases h6 : (P.cur c).pos - P.windowPos > P.window.length
      · rw [if_pos h6] at h; cases h
      · rw [if_neg h6] at h ⊢
        rw [hs] at h
        have h7 : (P.over (a ++ d)).stream = a ++ d := rfl
        rw [h7]
        cases a with
        | nil =>
          cases b with
          | nil =>
            cases hb rfl
            have e : P.over ([] ++ []) = P := by
              show ({ P with stream := [] } : Pool) = P
              rw [show ([] : List Token) = P.stream from hs.symm]
            simp only [List.nil_append] at h e ⊢
            rw [e]
            cases hu : P.detachCursor c with
            | none => rw [hu] at h; cases h
            | some Q =>
              rw [hu] at h
              cases h
              have hq : P1.stream = [] := (detachCursor_stream hu).trans hs
              refine ⟨[], hq, ?_⟩
              have e' : P1.over ([] ++ []) = P1 := by
                show ({ P1 with stream := [] } : Pool) = P1
                rw [show ([] : List Token) = P1.stream from hq.symm]
              rw [e']
              rfl
          | cons y b =>
            simp only [List.nil_append, Option.some.injEq, Prod.mk.injEq] at h
            obtain ⟨rfl, -⟩ := h
            simp only [List.length_cons] at hl
            omega
        | cons y a =>
          simp only [List.cons_append, Option.some.injEq, Prod.mk.injEq] at h ⊢
          obtain ⟨rfl, rfl⟩ := h
          exact ⟨a, rfl, rfl, rfl⟩
  · rw [if_neg ha] at h ⊢
    cases h
    exact ⟨a, hs, rfl⟩

/-- How much a cursor can still read from the window. -/
def win (P : Pool) (c : Nat) : Nat := if (P.cur c).attached then (P.windowPos + P.window.length - (P.cur c).pos).toNat else 0

theorem win_over (P : Pool) (y : List Token) (c : Nat) : (P.over y).win c = P.win c := rfl

theorem win_spec {P : Pool} {a : APool} (h : Inv P a) (c : Nat) : P.win c = (match a.cur c with | some n => a.frontier - n | none => 0) := by
  unfold win
  rw [h.att]
  cases hc : a.cur c with
  | none => rfl
  | some n =>
    have h1 := h.window_length
    have h2 := h.pos c n hc
    have h3 := h.hi c n hc
    have h4 := h.wfr
    have h5 := h.wpos
    simp only [Option.isSome_some, if_true]
    omega

theorem win_le {P : Pool} {a : APool} (h : Inv P a) (c : Nat) : P.win c ≤ P.window.length := by
  rw [win_spec h]
  cases hc : a.cur c with
  | none => exact Nat.zero_le _
  | some n =>
    have h1 := h.window_length
    have h3 := h.hi c n hc
    have h4 := h.lo c n hc
    have h5 := h.wpos
    have h6 := h.wfr
    simp only
    omega

theorem stream_spec {P : Pool} {a : APool} (h : Inv P a) : P.stream.length = a.all.length - a.frontier := by rw [h.stream, List.length_drop]

theorem next_inv {P P1 : Pool} {a : APool} (h : Inv P a) {c : Nat} {x : Option Token} (hn : P.next c = some (P1, x)) :
    Inv P1 (a.step (.next c)).1 ∧ (a.step (.next c)).2 = .token x := by
  obtain ⟨P2, h1, h2⟩ := h.step (.next c)
  simp only [Pool.step, hn, Option.bind_eq_bind, Option.bind_some, Option.pure_def, Option.some.injEq, Prod.mk.injEq] at h1
  obtain ⟨rfl, h1⟩ := h1
  exact ⟨h2, h1.symm⟩

private theorem count_arith {A F n : Nat} (h1 : n < A) (h2 : n ≤ F) (h3 : F ≤ A) :
    A - max F (n + 1) + (max F (n + 1) - (n + 1)) + 1 ≤ A - F + (F - n) := by
  rcases Nat.le_total F (n + 1) with e | e
  · rw [Nat.max_eq_right e]; omega
  · rw [Nat.max_eq_left e]; omega

theorem next_count {P P1 : Pool} {a : APool} (h : Inv P a) {c : Nat} {x : Option Token} (hn : P.next c = some (P1, x)) :
    P1.stream.length ≤ P.stream.length ∧ (∀ c', P1.stream.length + P1.win c' ≤ P.stream.length + P.win c') ∧
      (x.isSome = true → P1.stream.length + P1.win c + 1 ≤ P.stream.length + P.win c) := by
  obtain ⟨h1, h2⟩ := next_inv h hn
  rw [stream_spec h, stream_spec h1]
  have hf := h.fr
  cases hc : a.cur c with
  | none =>
    simp only [APool.step, hc] at h1 h2 ⊢
    refine ⟨Nat.le_refl _, fun c' => ?_, fun hx => ?_⟩
    · rw [win_spec h, win_spec h1]; exact Nat.le_refl _
    · cases h2; cases hx
  | some n =>
    have hhi := h.hi c n hc
    cases ht : a.all[n]? with
    | none =>
      simp only [APool.step, hc, ht] at h1 h2 ⊢
      refine ⟨Nat.le_refl _, fun c' => ?_, fun hx => ?_⟩
      · rw [win_spec h, win_spec h1]
        simp only
        by_cases e : c' = c
        · rw [if_pos e]; exact Nat.add_le_add_left (Nat.zero_le _) _
        · rw [if_neg e]; exact Nat.le_refl _
      · cases h2; cases hx
    | some t =>
      have hlt := (List.getElem?_eq_some_iff.1 ht).1
      simp only [APool.step, hc, ht] at h1 h2 ⊢
      refine ⟨by omega, fun c' => ?_, fun hx => ?_⟩
      · rw [win_spec h, win_spec h1]
        simp only
        by_cases e : c' = c
        · subst e; rw [if_pos rfl, hc]; simp only; omega
        · rw [if_neg e]
          cases hc' : a.cur c' with
          | none => simp only; omega
          | some m => have := h.hi c' m hc'; simp only; omega
      · rw [win_spec h, win_spec h1]
        simp only [if_true, hc]
        exact count_arith hlt hhi hf

end Pool

namespace Streams
open Pool (Inv)

/-- What always holds: the pools are in order, and pools over data have nothing behind the window. -/
structure Ok (s : Streams) : Prop where
  inv : ∀ p, ∃ a, Inv (s.pools p) a
  data : ∀ p, s.onChan p = false → (s.pools p).stream = []

theorem Ok.pool {s : Streams} (h : Ok s) (p : Nat) : ∃ a, Inv (s.pool p) a := by
  obtain ⟨a, ha⟩ := h.inv p
  unfold Streams.pool
  split
  · exact ⟨_, inv_swap ha _⟩
  · exact ⟨a, ha⟩

theorem pool_data {s : Streams} {p : Nat} (h : s.onChan p = false) : s.pool p = s.pools p := by
  unfold pool; rw [h]; rfl

theorem pool_chan {s : Streams} {p : Nat} (h : s.onChan p = true) : s.pool p = (s.pools p).over s.src := by
  unfold pool; rw [h]; rfl

theorem win_pool (s : Streams) (p c : Nat) : (s.pool p).win c = (s.pools p).win c := by
  unfold pool; split <;> rfl

theorem Ok.setPool {s : Streams} (h : Ok s) {p : Nat} {P : Pool} (h1 : ∃ a, Inv P a) (h2 : s.onChan p = false → P.stream = []) : Ok (s.setPool p P) := by
  refine ⟨fun q => ?_, fun q hq => ?_⟩
  · show ∃ a, Inv (if q = p then P else s.pools q) a
    split
    · exact h1
    · exact h.inv q
  · show (if q = p then P else s.pools q).stream = []
    split
    · rename_i e; exact h2 (e ▸ hq)
    · exact h.data q hq

theorem ok_init (ts : List Token) : Ok (init ts) := ⟨fun _ => ⟨_, Inv.new []⟩, fun _ _ => rfl⟩

/-- How much a stream can still deliver at most. -/
def left (s : Streams) (t : Nat) : Nat := s.src.length + if t = 0 then 0 else (s.pools (s.curs t).1).win (s.curs t).2

/-- What a read does to the bounds. -/
structure Fewer (s s1 : Streams) : Prop where
  ok : Ok s1
  src : s1.src.length ≤ s.src.length
  left : ∀ t, s1.left t ≤ s.left t

theorem Fewer.refl {s : Streams} (h : Ok s) : Fewer s s := ⟨h, Nat.le_refl _, fun _ => Nat.le_refl _⟩

theorem Fewer.trans {s s1 s2 : Streams} (h : Fewer s s1) (h' : Fewer s1 s2) : Fewer s s2 :=
  ⟨h'.ok, Nat.le_trans h'.src h.src, fun t => Nat.le_trans (h'.left t) (h.left t)⟩

theorem next_fewer {s s1 : Streams} (hk : Ok s) {t : Nat} {x : Option Token} (h : s.next t = some (s1, x)) :
    Fewer s s1 ∧ (x.isSome = true → s1.left t + 1 ≤ s.left t) := by
  unfold next at h
  by_cases h0 : t = 0
  · rw [if_pos h0] at h
    cases hs : s.src with
    | nil =>
      rw [hs] at h
      cases h
      exact ⟨.refl hk, fun hx => by cases hx⟩
    | cons y r =>
      rw [hs] at h
      cases h
      have e : ∀ t', ({ s with src := r } : Streams).left t' + 1 = s.left t' := by
        intro t'
        simp only [Streams.left, hs, List.length_cons]
        omega
      exact ⟨⟨⟨hk.inv, hk.data⟩, by rw [hs]; exact Nat.le_succ _, fun t' => by rw [← e t']; exact Nat.le_succ _⟩, fun _ => Nat.le_of_eq (e t)⟩
  · rw [if_neg h0] at h
    obtain ⟨a, ha⟩ := hk.pool (s.curs t).1
    cases hn : (s.pool (s.curs t).1).next (s.curs t).2 with
    | none => rw [hn] at h; cases h
    | some r =>
      obtain ⟨P, y⟩ := r
      rw [hn] at h
      simp only [Option.bind_eq_bind, Option.bind_some, Option.pure_def, Option.some.injEq, Prod.mk.injEq] at h
      obtain ⟨rfl, rfl⟩ := h
      obtain ⟨c1, c2, c3⟩ := Pool.next_count ha hn
      obtain ⟨hi, -⟩ := Pool.next_inv ha hn
      have hsrc : (s.setPool (s.curs t).1 P).src.length ≤ s.src.length := by
        show (if s.onChan (s.curs t).1 then P.stream else s.src).length ≤ _
        split
        · rename_i e
          rw [pool_chan e] at c1
          exact c1
        · exact Nat.le_refl _
      have hd : s.onChan (s.curs t).1 = false → P.stream = [] := by
        intro e
        rw [pool_data e, hk.data _ e] at c1
        exact List.length_eq_zero_iff.1 (Nat.le_zero.1 c1)
      have hwin : ∀ t', t' ≠ 0 → (s.setPool (s.curs t).1 P).left t' = (s.setPool (s.curs t).1 P).src.length +
          (if (s.curs t').1 = (s.curs t).1 then P else s.pools (s.curs t').1).win (s.curs t').2 := by
        intro t' h'
        simp only [Streams.left, if_neg h']
        rfl
      have hgen : ∀ c k, P.stream.length + P.win c + k ≤ (s.pool (s.curs t).1).stream.length + (s.pool (s.curs t).1).win c →
          (s.setPool (s.curs t).1 P).src.length + P.win c + k ≤ s.src.length + (s.pools (s.curs t).1).win c := by
        intro c k hc
        rw [win_pool] at hc
        show (if s.onChan (s.curs t).1 then P.stream else s.src).length + _ + _ ≤ _
        cases e : s.onChan (s.curs t).1 with
        | true =>
          rw [pool_chan e] at hc
          simp only [if_true]
          exact hc
        | false =>
          rw [pool_data e, hk.data _ e, hd e] at hc
          simp only [Bool.false_eq_true, if_false, List.length_nil, Nat.zero_add] at hc ⊢
          omega
      refine ⟨⟨hk.setPool ⟨_, hi⟩ hd, hsrc, fun t' => ?_⟩, fun hx => ?_⟩
      · by_cases h' : t' = 0
        · simp only [Streams.left, if_pos h']; exact hsrc
        · rw [hwin t' h']
          simp only [Streams.left, if_neg h']
          by_cases e : (s.curs t').1 = (s.curs t).1
          · rw [if_pos e, e]
            exact hgen _ 0 (c2 _)
          · rw [if_neg e]
            exact Nat.add_le_add_right hsrc _
      · rw [hwin t h0, if_pos rfl]
        simp only [Streams.left, if_neg h0]
        exact hgen _ 1 (c3 hx)

/-! ## Two inputs -/

/-- The same streams over two inputs that differ in what has not been read. -/
structure Same (b c : List Token) (s s' : Streams) : Prop where
  src : ∃ a, s.src = a ++ b ∧ s'.src = a ++ c
  np : s'.np = s.np
  nt : s'.nt = s.nt
  onChan : s'.onChan = s.onChan
  curs : s'.curs = s.curs
  pools : ∀ p, s'.pools p = (s.pools p).over (s'.pools p).stream
  data : ∀ p, s.onChan p = false → s'.pools p = s.pools p

variable {b c : List Token}

theorem same_init (a : List Token) : Same b c (init (a ++ b)) (init (a ++ c)) :=
  ⟨⟨a, rfl, rfl⟩, rfl, rfl, rfl, rfl, fun _ => rfl, fun _ _ => rfl⟩

theorem Same.pool_chan {s s' : Streams} (h : Same b c s s') {p : Nat} (hp : s.onChan p = true) : s'.pool p = (s.pool p).over s'.src := by
  have : s'.onChan p = true := by rw [h.onChan]; exact hp
  rw [Streams.pool_chan this, Streams.pool_chan hp, h.pools p]
  rfl

theorem Same.pool_data {s s' : Streams} (h : Same b c s s') {p : Nat} (hp : s.onChan p = false) : s'.pool p = s.pool p := by
  have : s'.onChan p = false := by rw [h.onChan]; exact hp
  rw [Streams.pool_data this, Streams.pool_data hp, h.data p hp]

theorem Same.setPool_chan {s s' : Streams} (h : Same b c s s') {p : Nat} (hp : s.onChan p = true) {P : Pool} {a : List Token} (hP : P.stream = a ++ b) :
    Same b c (s.setPool p P) (s'.setPool p (P.over (a ++ c))) := by
  have hp' : s'.onChan p = true := by rw [h.onChan]; exact hp
  refine ⟨⟨a, ?_, ?_⟩, h.np, h.nt, h.onChan, h.curs, fun q => ?_, fun q hq => ?_⟩
  · show (if s.onChan p then P.stream else s.src) = _
    rw [hp]; exact hP
  · show (if s'.onChan p then (P.over (a ++ c)).stream else s'.src) = _
    rw [hp']; rfl
  · show (if q = p then P.over (a ++ c) else s'.pools q) = Pool.over (if q = p then P else s.pools q) (if q = p then P.over (a ++ c) else s'.pools q).stream
    by_cases e : q = p
    · simp only [if_pos e]; rfl
    · simp only [if_neg e]; exact h.pools q
  · show (if q = p then P.over (a ++ c) else s'.pools q) = (if q = p then P else s.pools q)
    have hq : s.onChan q = false := hq
    have e : q ≠ p := by intro e; rw [e, hp] at hq; cases hq
    simp only [if_neg e]; exact h.data q hq

theorem Same.setPool_data {s s' : Streams} (h : Same b c s s') {p : Nat} (hp : s.onChan p = false) (P : Pool) :
    Same b c (s.setPool p P) (s'.setPool p P) := by
  have hp' : s'.onChan p = false := by rw [h.onChan]; exact hp
  obtain ⟨a, h1, h2⟩ := h.src
  refine ⟨⟨a, ?_, ?_⟩, h.np, h.nt, h.onChan, h.curs, fun q => ?_, fun q hq => ?_⟩
  · show (if s.onChan p then P.stream else s.src) = _
    rw [hp]; exact h1
  · show (if s'.onChan p then P.stream else s'.src) = _
    rw [hp']; exact h2
  · show (if q = p then P else s'.pools q) = Pool.over (if q = p then P else s.pools q) (if q = p then P else s'.pools q).stream
    by_cases e : q = p
    · simp only [if_pos e]; rfl
    · simp only [if_neg e]; exact h.pools q
  · show (if q = p then P else s'.pools q) = (if q = p then P else s.pools q)
    by_cases e : q = p
    · simp only [if_pos e]
    · simp only [if_neg e]; exact h.data q hq

theorem Same.next {s s' s1 : Streams} (h : Same b c s s') (hb : b = [] → c = []) {t : Nat} {x : Option Token} (hn : s.next t = some (s1, x))
    (hl : b.length ≤ s1.src.length) : ∃ s1', s'.next t = some (s1', x) ∧ Same b c s1 s1' := by
  unfold Streams.next at hn ⊢
  by_cases h0 : t = 0
  · rw [if_pos h0] at hn ⊢
    obtain ⟨a, h1, h2⟩ := h.src
    cases a with
    | nil =>
      cases b with
      | nil =>
        cases hb rfl
        rw [h1] at hn
        rw [h2]
        cases hn
        exact ⟨s', rfl, h⟩
      | cons y b =>
        rw [h1] at hn
        cases hn
        simp at hl
        omega
    | cons y a =>
      rw [h1] at hn
      rw [h2]
      simp only [List.cons_append, Option.some.injEq, Prod.mk.injEq] at hn ⊢
      obtain ⟨rfl, rfl⟩ := hn
      exact ⟨_, ⟨rfl, rfl⟩, ⟨⟨a, rfl, rfl⟩, h.np, h.nt, h.onChan, h.curs, h.pools, h.data⟩⟩
  · rw [if_neg h0] at hn ⊢
    rw [h.curs]
    cases hp : (s.pool (s.curs t).1).next (s.curs t).2 with
    | none => rw [hp] at hn; cases hn
    | some r =>
      obtain ⟨P, y⟩ := r
      rw [hp] at hn
      simp only [Option.bind_eq_bind, Option.bind_some, Option.pure_def, Option.some.injEq, Prod.mk.injEq] at hn
      obtain ⟨rfl, rfl⟩ := hn
      cases e : s.onChan (s.curs t).1 with
      | true =>
        obtain ⟨a, h1, h2⟩ := h.src
        have hl : b.length ≤ P.stream.length := by
          have : (s.setPool (s.curs t).1 P).src = P.stream := by
            show (if s.onChan (s.curs t).1 then P.stream else s.src) = _
            rw [e]; rfl
          rwa [this] at hl
        obtain ⟨a1, g1, g2⟩ := Pool.next_over (d := c) hp (by rw [Streams.pool_chan e]; exact h1) hb hl
        rw [h.pool_chan e, h2, g2]
        exact ⟨_, rfl, h.setPool_chan e g1⟩
      | false =>
        rw [h.pool_data e, hp]
        exact ⟨_, rfl, h.setPool_data e P⟩

theorem Same.clone {s s' : Streams} (h : Same b c s s') (t : Nat) : (s'.clone t).2 = (s.clone t).2 ∧ Same b c (s.clone t).1 (s'.clone t).1 := by
  unfold Streams.clone
  by_cases h0 : t = 0
  · simp only [if_pos h0, h.nt, h.np]
    refine ⟨trivial, ⟨h.src, by rw [], rfl, ?_, ?_, fun q => ?_, fun q hq => ?_⟩⟩
    · simp only [h.onChan]
    · simp only [h.curs]
      rfl
    · simp only
      by_cases e : q = s.np
      · simp only [if_pos e]; rfl
      · simp only [if_neg e]; exact h.pools q
    · simp only at hq ⊢
      by_cases e : q = s.np
      · rw [if_pos e] at hq; cases hq
      · simp only [if_neg e] at hq ⊢; exact h.data q hq
  · simp only [if_neg h0, h.nt, h.curs]
    cases e : s.onChan (s.curs t).1 with
    | true =>
      obtain ⟨a, h1, h2⟩ := h.src
      have hP : ((s.pool (s.curs t).1).clone (s.curs t).2).1.stream = a ++ b := by
        rw [Pool.clone_stream, Streams.pool_chan e]; exact h1
      have hs := h.setPool_chan e hP
      rw [h.pool_chan e, Pool.clone_over]
      by_cases ha : ((s.pool (s.curs t).1).cur (s.curs t).2).attached = true
      · have ha' : (((s.pool (s.curs t).1).over s'.src).cur (s.curs t).2).attached = true := ha
        rw [if_pos ha, if_pos ha']
        rw [h2]
        exact ⟨rfl, ⟨hs.src, hs.np, rfl, hs.onChan, rfl, hs.pools, hs.data⟩⟩
      · have ha' : ¬ (((s.pool (s.curs t).1).over s'.src).cur (s.curs t).2).attached = true := ha
        rw [if_neg ha, if_neg ha']
        exact ⟨rfl, h⟩
    | false =>
      rw [h.pool_data e]
      have hs := h.setPool_data e ((s.pool (s.curs t).1).clone (s.curs t).2).1
      split
      · exact ⟨rfl, ⟨hs.src, hs.np, rfl, hs.onChan, rfl, hs.pools, hs.data⟩⟩
      · exact ⟨rfl, h⟩

theorem Same.detach {s s' s1 : Streams} (h : Same b c s s') {t : Nat} (hd : s.detach t = some s1) : ∃ s1', s'.detach t = some s1' ∧ Same b c s1 s1' := by
  unfold Streams.detach at hd ⊢
  rw [h.curs]
  cases hp : (s.pool (s.curs t).1).detach (s.curs t).2 with
  | none => rw [hp] at hd; cases hd
  | some P =>
    rw [hp] at hd
    cases hd
    cases e : s.onChan (s.curs t).1 with
    | true =>
      obtain ⟨a, h1, h2⟩ := h.src
      rw [h.pool_chan e, Pool.detach_over, hp, h2]
      refine ⟨_, rfl, h.setPool_chan e ?_⟩
      rw [Pool.detach_stream hp, Streams.pool_chan e]
      exact h1
    | false =>
      rw [h.pool_data e, hp]
      exact ⟨_, rfl, h.setPool_data e P⟩

theorem Same.fromData {s s' : Streams} (h : Same b c s s') (ts : List Token) :
    (s'.fromData ts).2 = (s.fromData ts).2 ∧ Same b c (s.fromData ts).1 (s'.fromData ts).1 := by
  unfold Streams.fromData
  simp only [h.nt, h.np]
  refine ⟨trivial, ⟨h.src, rfl, rfl, ?_, ?_, fun q => ?_, fun q hq => ?_⟩⟩
  · simp only [h.onChan]
  · simp only [h.curs]
  · simp only
    by_cases e : q = s.np
    · simp only [if_pos e]; rfl
    · simp only [if_neg e]; exact h.pools q
  · simp only at hq ⊢
    by_cases e : q = s.np
    · simp only [if_pos e]
    · simp only [if_neg e] at hq ⊢; exact h.data q hq

/-! ## Cloning and detaching keep the pools in order -/

theorem clone_inv {P : Pool} {a : APool} (h : Inv P a) (d : Nat) : ∃ a', Inv (P.clone d).1 a' := by
  obtain ⟨P', h1, h2⟩ := h.step (.clone d)
  simp only [Pool.step, Option.some.injEq, Prod.mk.injEq] at h1
  rw [h1.1]
  exact ⟨_, h2⟩

theorem newCursor_inv {P : Pool} {a : APool} (h : Inv P a) : ∃ a', Inv P.newCursor.1 a' := by
  obtain ⟨P', h1, h2⟩ := h.step .newCursor
  simp only [Pool.step, Option.some.injEq, Prod.mk.injEq] at h1
  rw [h1.1]
  exact ⟨_, h2⟩

theorem clone_ok {s : Streams} (h : Ok s) (t : Nat) : Ok (s.clone t).1 := by
  unfold Streams.clone
  by_cases h0 : t = 0
  · simp only [if_pos h0]
    refine ⟨fun q => ?_, fun q hq => ?_⟩
    · simp only
      by_cases e : q = s.np
      · simp only [if_pos e]
        obtain ⟨a, ha⟩ := newCursor_inv (Inv.new s.src)
        exact clone_inv ha _
      · simp only [if_neg e]; exact h.inv q
    · simp only at hq ⊢
      by_cases e : q = s.np
      · rw [if_pos e] at hq; cases hq
      · simp only [if_neg e] at hq ⊢; exact h.data q hq
  · simp only [if_neg h0]
    split
    · obtain ⟨a, ha⟩ := h.pool (s.curs t).1
      have := h.setPool (p := (s.curs t).1) (clone_inv ha (s.curs t).2) (fun e => by rw [Pool.clone_stream, pool_data e]; exact h.data _ e)
      exact ⟨this.inv, this.data⟩
    · exact h

theorem detach_ok {s s1 : Streams} (h : Ok s) {t : Nat} (hd : s.detach t = some s1) : Ok s1 := by
  unfold Streams.detach at hd
  cases hp : (s.pool (s.curs t).1).detach (s.curs t).2 with
  | none => rw [hp] at hd; cases hd
  | some P =>
    rw [hp] at hd
    cases hd
    obtain ⟨a, ha⟩ := h.pool (s.curs t).1
    refine h.setPool ?_ (fun e => by rw [Pool.detach_stream hp, pool_data e]; exact h.data _ e)
    obtain ⟨P', h1, h2⟩ := ha.step (.detach (s.curs t).2)
    simp only [Pool.step, hp, Option.bind_eq_bind, Option.bind_some, Option.pure_def, Option.some.injEq, Prod.mk.injEq] at h1
    rw [h1.1]
    exact ⟨_, h2⟩

theorem fromData_ok {s : Streams} (h : Ok s) (ts : List Token) : Ok (s.fromData ts).1 := by
  unfold Streams.fromData
  refine ⟨fun q => ?_, fun q hq => ?_⟩
  · simp only
    by_cases e : q = s.np
    · simp only [if_pos e]; exact ⟨_, Inv.fromData ts⟩
    · simp only [if_neg e]; exact h.inv q
  · simp only at hq ⊢
    by_cases e : q = s.np
    · simp only [if_pos e]; rfl
    · simp only [if_neg e] at hq ⊢; exact h.data q hq

theorem clone_src (s : Streams) (t : Nat) : (s.clone t).1.src = s.src := by
  unfold Streams.clone
  by_cases h0 : t = 0
  · simp only [if_pos h0]
  · simp only [if_neg h0]
    split
    · show (if s.onChan (s.curs t).1 then ((s.pool (s.curs t).1).clone (s.curs t).2).1.stream else s.src) = s.src
      split
      · rename_i e; rw [Pool.clone_stream, pool_chan e]; rfl
      · rfl
    · rfl

theorem detach_src {s s1 : Streams} {t : Nat} (hd : s.detach t = some s1) : s1.src = s.src := by
  unfold Streams.detach at hd
  cases hp : (s.pool (s.curs t).1).detach (s.curs t).2 with
  | none => rw [hp] at hd; cases hd
  | some P =>
    rw [hp] at hd
    cases hd
    show (if s.onChan (s.curs t).1 then P.stream else s.src) = s.src
    split
    · rename_i e; rw [Pool.detach_stream hp, pool_chan e]; rfl
    · rfl

theorem fromData_src (s : Streams) (ts : List Token) : (s.fromData ts).1.src = s.src := rfl

theorem Same.left {s s' : Streams} (hk : Ok s) (h : Same b c s s') (t : Nat) :
    s.left t ≤ s'.src.length + (s'.pool (s'.curs t).1).window.length + b.length := by
  obtain ⟨a, h1, h2⟩ := h.src
  have : (s'.pool (s'.curs t).1).window = (s.pools (s.curs t).1).window := by
    rw [h.curs]
    have : (s'.pools (s.curs t).1).window = (s.pools (s.curs t).1).window := by rw [h.pools]; rfl
    unfold Streams.pool
    split
    · exact this
    · exact this
  rw [this, h2]
  unfold Streams.left
  rw [h1]
  simp only [List.length_append]
  split
  · omega
  · obtain ⟨a', ha⟩ := hk.inv (s.curs t).1
    have := Pool.win_le ha (s.curs t).2
    omega

end Streams

namespace Heap
open Streams (Ok Fewer Same)

/-- What reading and discarding leave as it is. -/
structure Quiet (h h1 : Heap) : Prop where
  st : Fewer h.st h1.st
  n : h1.n = h.n
  stream : ∀ i, (h1.coll i).stream = (h.coll i).stream

theorem Quiet.refl {h : Heap} (hk : Ok h.st) : Quiet h h := ⟨.refl hk, rfl, fun _ => rfl⟩

theorem Quiet.trans {h h1 h2 : Heap} (g : Quiet h h1) (g' : Quiet h1 h2) : Quiet h h2 :=
  ⟨g.st.trans g'.st, g'.n.trans g.n, fun i => (g'.stream i).trans (g.stream i)⟩

theorem Quiet.set {h h1 : Heap} (g : Quiet h h1) (i : Nat) {c : Coll} (hc : c.stream = (h1.coll i).stream) : Quiet h (h1.set i c) := by
  refine ⟨g.st, g.n, fun j => ?_⟩
  show (if j = i then c else h1.coll j).stream = _
  split
  · rename_i e; rw [hc, e, g.stream]
  · exact g.stream j

theorem next_quiet {h h1 : Heap} {t : Nat} {x : Option Token} (hk : Ok h.st) (hn : h.next t = .ok (h1, x)) :
    Quiet h h1 ∧ (x.isSome = true → h1.st.left t + 1 ≤ h.st.left t) ∧ h1.coll = h.coll := by
  unfold Heap.next at hn
  cases e : h.st.next t with
  | none => rw [e] at hn; cases hn
  | some r =>
    obtain ⟨st, y⟩ := r
    rw [e] at hn
    cases hn
    obtain ⟨g1, g2⟩ := Streams.next_fewer hk e
    exact ⟨⟨g1, rfl, fun _ => rfl⟩, g2, rfl⟩

theorem readToEnd_quiet : ∀ (f : Nat) {h h1 : Heap} {t : Nat} {d : Int} {l : List Token}, Ok h.st → readToEnd f h t d = .ok (h1, l) →
    Quiet h h1 ∧ h1.coll = h.coll := by
  intro f
  induction f with
  | zero => intro h h1 t d l _ hr; cases hr
  | succ f ih =>
    intro h h1 t d l hk hr
    unfold readToEnd at hr
    cases hn : h.next t with
    | error e => rw [hn] at hr; cases hr
    | ok r =>
      obtain ⟨h2, x⟩ := r
      rw [hn] at hr
      obtain ⟨q, -, q'⟩ := next_quiet hk hn
      cases x with
      | none => cases hr; exact ⟨q, q'⟩
      | some x =>
        simp only [bind, Except.bind] at hr
        split at hr
        · cases hr; exact ⟨q, q'⟩
        · cases hm : readToEnd f h2 t (depthAfter d x) with
          | error e => rw [hm] at hr; cases hr
          | ok r =>
            obtain ⟨h3, l'⟩ := r
            rw [hm] at hr
            cases hr
            obtain ⟨q1, q1'⟩ := ih q.st.ok hm
            exact ⟨q.trans q1, q1'.trans q'⟩

theorem discard_quiet : ∀ (f : Nat) {h h1 : Heap} {v : Val}, Ok h.st → discard f h v = .ok h1 → Quiet h h1 := by
  intro f
  induction f with
  | zero => intro h h1 v _ hr; cases hr
  | succ f ih =>
    intro h h1 v hk hr
    cases v with
    | scalar s => unfold discard at hr; cases hr; exact .refl hk
    | coll k i =>
      unfold discard at hr
      by_cases hd : (h.coll i).done = true
      · rw [if_pos hd] at hr; cases hr; exact .refl hk
      · rw [if_neg hd] at hr
        have key : ∀ {h2 : Heap}, Quiet h h2 → (readToEnd ((h2.set i { h2.coll i with done := true }).avail (h2.coll i).stream + 1)
            (h2.set i { h2.coll i with done := true }) (h2.coll i).stream 0 >>= fun r => Except.ok r.1) = .ok h1 → Quiet h h1 := by
          intro h2 q hr
          generalize hF : (h2.set i { h2.coll i with done := true }).avail (h2.coll i).stream + 1 = F at hr
          cases hm : readToEnd F (h2.set i { h2.coll i with done := true }) (h2.coll i).stream 0 with
          | error e => rw [hm] at hr; cases hr
          | ok r =>
            rw [hm] at hr
            cases hr
            exact (q.set i (c := { h2.coll i with done := true }) rfl).trans (readToEnd_quiet (h := h2.set i { h2.coll i with done := true }) _ q.st.ok hm).1
        by_cases hs : (h.coll i).started = true
        · rw [if_pos hs] at hr
          cases hc : (h.coll i).cur with
          | none => rw [hc] at hr; cases hr
          | some v =>
            rw [hc] at hr
            simp only at hr
            cases hm : discard f h v with
            | error e => rw [hm] at hr; cases hr
            | ok h2 =>
              rw [hm] at hr
              exact key (ih hk hm) hr
        · rw [if_neg hs] at hr
          exact key (.refl hk) hr

/-! ## Two inputs -/

variable {b c : List Token}

/-- The same iterators over two inputs that differ in what has not been read. -/
structure HSame (b c : List Token) (h h' : Heap) : Prop where
  st : Same b c h.st h'.st
  coll : h'.coll = h.coll
  n : h'.n = h.n
  bad : h'.bad = h.bad

theorem hsame_init (a : List Token) : HSame b c (init (a ++ b)) (init (a ++ c)) := ⟨Streams.same_init a, rfl, rfl, rfl⟩

theorem HSame.set {h h' : Heap} (g : HSame b c h h') (i : Nat) (x : Coll) : HSame b c (h.set i x) (h'.set i x) := by
  refine ⟨g.st, ?_, g.n, g.bad⟩
  show (fun j => if j = i then x else h'.coll j) = fun j => if j = i then x else h.coll j
  rw [g.coll]

theorem HSame.alloc {h h' : Heap} (g : HSame b c h h') (x : Coll) : (h'.alloc x).2 = (h.alloc x).2 ∧ HSame b c (h.alloc x).1 (h'.alloc x).1 := by
  unfold Heap.alloc
  have := g.set h.n x
  rw [g.n]
  exact ⟨rfl, this.st, this.coll, rfl, this.bad⟩

theorem HSame.avail {h h' : Heap} (hk : Ok h.st) (g : HSame b c h h') (t : Nat) : h.st.left t ≤ h'.avail t + b.length := g.st.left hk t

theorem HSame.next {h h' h1 : Heap} (g : HSame b c h h') (hb : b = [] → c = []) {t : Nat} {x : Option Token} (hn : h.next t = .ok (h1, x))
    (hl : b.length ≤ h1.st.src.length) : ∃ h1', h'.next t = .ok (h1', x) ∧ HSame b c h1 h1' := by
  unfold Heap.next at hn ⊢
  cases e : h.st.next t with
  | none => rw [e] at hn; cases hn
  | some r =>
    obtain ⟨st, y⟩ := r
    rw [e] at hn
    cases hn
    obtain ⟨s1', g1, g2⟩ := g.st.next hb e hl
    rw [g1]
    exact ⟨_, rfl, g2, g.coll, g.n, g.bad⟩

theorem HSame.readToEnd (hb : b = [] → c = []) : ∀ (f : Nat) {h h' h1 : Heap} {t : Nat} {d : Int} {l : List Token}, Ok h.st → HSame b c h h' →
    Heap.readToEnd f h t d = .ok (h1, l) → b.length ≤ h1.st.src.length → ∀ f', h.st.left t < f' + b.length →
      ∃ h1', Heap.readToEnd f' h' t d = .ok (h1', l) ∧ HSame b c h1 h1' := by
  intro f
  induction f with
  | zero => intro h h' h1 t d l _ _ hr; cases hr
  | succ f ih =>
    intro h h' h1 t d l hk g hr hl f' hf
    have hq := (readToEnd_quiet _ hk hr).1
    have hbl : b.length ≤ h.st.left t := by
      have := hq.st.src
      unfold Streams.left
      omega
    obtain ⟨f', rfl⟩ : ∃ k, f' = k + 1 := ⟨f' - 1, by omega⟩
    unfold Heap.readToEnd at hr ⊢
    cases hn : h.next t with
    | error e => rw [hn] at hr; cases hr
    | ok r =>
      obtain ⟨h2, x⟩ := r
      rw [hn] at hr
      obtain ⟨q, q1, -⟩ := next_quiet hk hn
      cases x with
      | none =>
        cases hr
        obtain ⟨h2', e1, e2⟩ := g.next hb hn hl
        rw [e1]
        exact ⟨_, rfl, e2⟩
      | some x =>
        simp only [bind, Except.bind] at hr
        split at hr
        · rename_i hx
          cases hr
          obtain ⟨h2', e1, e2⟩ := g.next hb hn hl
          rw [e1]
          simp only [bind, Except.bind, if_pos hx]
          exact ⟨_, rfl, e2⟩
        · rename_i hx
          cases hm : Heap.readToEnd f h2 t (depthAfter d x) with
          | error e => rw [hm] at hr; cases hr
          | ok r =>
            obtain ⟨h3, l'⟩ := r
            rw [hm] at hr
            cases hr
            have q2 := (readToEnd_quiet _ q.st.ok hm).1
            obtain ⟨h2', e1, e2⟩ := g.next hb hn (Nat.le_trans hl q2.st.src)
            have := q1 rfl
            obtain ⟨h3', e3, e4⟩ := ih q.st.ok e2 hm hl f' (by omega)
            rw [e1]
            simp only [bind, Except.bind, if_neg hx, e3]
            exact ⟨_, rfl, e4⟩

theorem HSame.discard (hb : b = [] → c = []) : ∀ (f : Nat) {h h' h1 : Heap} {v : Val}, Ok h.st → HSame b c h h' →
    Heap.discard f h v = .ok h1 → b.length ≤ h1.st.src.length → ∃ h1', Heap.discard f h' v = .ok h1' ∧ HSame b c h1 h1' := by
  intro f
  induction f with
  | zero => intro h h' h1 v _ _ hr; cases hr
  | succ f ih =>
    intro h h' h1 v hk g hr hl
    cases v with
    | scalar s => unfold Heap.discard at hr ⊢; cases hr; exact ⟨_, rfl, g⟩
    | coll k i =>
      unfold Heap.discard at hr ⊢
      rw [g.coll]
      by_cases hd : (h.coll i).done = true
      · rw [if_pos hd] at hr ⊢; cases hr; exact ⟨_, rfl, g⟩
      · rw [if_neg hd] at hr ⊢
        have key : ∀ {h2 h2' : Heap}, Ok h2.st → HSame b c h2 h2' → (Heap.readToEnd ((h2.set i { h2.coll i with done := true }).avail (h2.coll i).stream + 1)
            (h2.set i { h2.coll i with done := true }) (h2.coll i).stream 0 >>= fun r => Except.ok r.1) = .ok h1 →
            h1.st.src.length ≤ h2.st.src.length ∧ ∃ h1', (Heap.readToEnd ((h2'.set i { h2'.coll i with done := true }).avail (h2'.coll i).stream + 1)
            (h2'.set i { h2'.coll i with done := true }) (h2'.coll i).stream 0 >>= fun r => Except.ok r.1) = .ok h1' ∧ HSame b c h1 h1' := by
          intro h2 h2' q g2 hr
          rw [g2.coll]
          generalize hF : (h2.set i { h2.coll i with done := true }).avail (h2.coll i).stream + 1 = F at hr
          cases hm : Heap.readToEnd F (h2.set i { h2.coll i with done := true }) (h2.coll i).stream 0 with
          | error e => rw [hm] at hr; cases hr
          | ok r =>
            rw [hm] at hr
            cases hr
            have q3 := (readToEnd_quiet (h := h2.set i { h2.coll i with done := true }) _ q hm).1
            refine ⟨q3.st.src, ?_⟩
            have gs := g2.set i { h2.coll i with done := true }
            obtain ⟨h3', e3, e4⟩ := HSame.readToEnd hb _ (h := h2.set i { h2.coll i with done := true }) q gs hm hl _
              (Nat.lt_of_le_of_lt (gs.avail (h := h2.set i { h2.coll i with done := true }) q _) (by omega : _ < (h2'.set i { h2.coll i with done := true }).avail (h2.coll i).stream + 1 + b.length))
            rw [e3]
            exact ⟨_, rfl, e4⟩
        by_cases hs : (h.coll i).started = true
        · rw [if_pos hs] at hr ⊢
          cases hc : (h.coll i).cur with
          | none => rw [hc] at hr; cases hr
          | some v =>
            rw [hc] at hr
            simp only at hr ⊢
            cases hm : Heap.discard f h v with
            | error e => rw [hm] at hr; cases hr
            | ok h2 =>
              rw [hm] at hr
              have q := discard_quiet f hk hm
              have hle : h1.st.src.length ≤ h2.st.src.length := by
                cases hm' : Heap.readToEnd ((h2.set i { h2.coll i with done := true }).avail (h2.coll i).stream + 1) (h2.set i { h2.coll i with done := true }) (h2.coll i).stream 0 with
                | error e => simp only [bind, Except.bind] at hr; rw [hm'] at hr; cases hr
                | ok r =>
                  simp only [bind, Except.bind] at hr; rw [hm'] at hr; cases hr
                  exact (readToEnd_quiet (h := h2.set i { h2.coll i with done := true }) _ q.st.ok hm').1.st.src
              obtain ⟨h2', e1, e2⟩ := ih hk g hm (Nat.le_trans hl hle)
              obtain ⟨-, h1', e3, e4⟩ := key q.st.ok e2 hr
              rw [e1]
              exact ⟨_, e3, e4⟩
        · rw [if_neg hs] at hr ⊢
          obtain ⟨-, h1', e3, e4⟩ := key hk g hr
          exact ⟨_, e3, e4⟩

/-! ## Advancing -/

/-- Go: the start of `Object.Advance` and `Array.Advance`, as in `Heap.advance`. -/
private def pre (h : Heap) (i : Nat) : Except Stop Heap :=
  if (h.coll i).started then
    match (h.coll i).cur with
    | none => .error .panic
    | some v => Heap.discard h.n h v
  else .ok h

private theorem pre_quiet {h h1 : Heap} {i : Nat} (hk : Ok h.st) (hp : pre h i = .ok h1) : Quiet h h1 := by
  unfold pre at hp
  split at hp
  · split at hp
    · cases hp
    · exact discard_quiet _ hk hp
  · cases hp; exact .refl hk

private theorem pre_same (hb : b = [] → c = []) {h h' h1 : Heap} {i : Nat} (hk : Ok h.st) (g : HSame b c h h') (hp : pre h i = .ok h1)
    (hl : b.length ≤ h1.st.src.length) : ∃ h1', pre h' i = .ok h1' ∧ HSame b c h1 h1' := by
  unfold pre at hp ⊢
  rw [g.coll, g.n]
  split at hp
  · rename_i e
    rw [if_pos e]
    cases hc : (h.coll i).cur with
    | none => rw [hc] at hp; cases hp
    | some v =>
      rw [hc] at hp
      exact HSame.discard hb _ hk g hp hl
  · rename_i e
    rw [if_neg e]
    cases hp; exact ⟨_, rfl, g⟩

/-- Go: the start of `Iterator.Advance`, as in `Heap.advance`. -/
private def preTop (h : Heap) (i : Nat) : Except Stop Heap :=
  match (h.coll i).cur with
  | some v => Heap.discard h.n h v
  | none => .ok h

private theorem preTop_quiet {h h1 : Heap} {i : Nat} (hk : Ok h.st) (hp : preTop h i = .ok h1) : Quiet h h1 := by
  unfold preTop at hp
  split at hp
  · exact discard_quiet _ hk hp
  · cases hp; exact .refl hk

private theorem preTop_same (hb : b = [] → c = []) {h h' h1 : Heap} {i : Nat} (hk : Ok h.st) (g : HSame b c h h') (hp : preTop h i = .ok h1)
    (hl : b.length ≤ h1.st.src.length) : ∃ h1', preTop h' i = .ok h1' ∧ HSame b c h1 h1' := by
  unfold preTop at hp ⊢
  rw [g.coll, g.n]
  cases hc : (h.coll i).cur with
  | none => rw [hc] at hp; cases hp; exact ⟨_, rfl, g⟩
  | some v =>
    rw [hc] at hp
    exact HSame.discard hb _ hk g hp hl

private theorem streamed_st {h h1 : Heap} {x : Token} {t : Nat} {v : Val} (hs : h.streamedValue x t = .ok (h1, v)) : h1.st = h.st := by
  cases x <;> simp only [streamedValue, Except.ok.injEq, Prod.mk.injEq, reduceCtorEq] at hs <;> rw [← hs.1] <;> rfl

private theorem streamed_same {h h' h1 : Heap} (g : HSame b c h h') {x : Token} {t : Nat} {v : Val} (hs : h.streamedValue x t = .ok (h1, v)) :
    ∃ h1', h'.streamedValue x t = .ok (h1', v) ∧ HSame b c h1 h1' := by
  cases x with
  | startArr =>
    obtain ⟨e1, e2⟩ := g.alloc ⟨.arr, t, false, false, false, none, none⟩
    simp only [streamedValue, Except.ok.injEq, Prod.mk.injEq] at hs ⊢
    obtain ⟨rfl, rfl⟩ := hs
    exact ⟨_, ⟨rfl, by rw [e1]⟩, e2⟩
  | startObj =>
    obtain ⟨e1, e2⟩ := g.alloc ⟨.obj, t, false, false, false, none, none⟩
    simp only [streamedValue, Except.ok.injEq, Prod.mk.injEq] at hs ⊢
    obtain ⟨rfl, rfl⟩ := hs
    exact ⟨_, ⟨rfl, by rw [e1]⟩, e2⟩
  | scalar s =>
    simp only [streamedValue, Except.ok.injEq, Prod.mk.injEq] at hs ⊢
    obtain ⟨rfl, rfl⟩ := hs
    exact ⟨_, ⟨rfl, rfl⟩, g⟩
  | endArr => simp only [streamedValue, reduceCtorEq] at hs
  | endObj => simp only [streamedValue, reduceCtorEq] at hs
  | elision => simp only [streamedValue, reduceCtorEq] at hs

/-- The source has not grown. -/
structure Down (h h1 : Heap) : Prop where
  ok : Ok h1.st
  src : h1.st.src.length ≤ h.st.src.length

private theorem finish_down {h h1 : Heap} {r : Bool} (hk : Ok h.st) {x : Token} {t i : Nat}
    (hr : (h.streamedValue x t >>= fun r => Except.ok (r.1.set i { r.1.coll i with cur := some r.2 }, true)) = .ok (h1, r)) : Down h h1 := by
  cases hs : h.streamedValue x t with
  | error e => rw [hs] at hr; cases hr
  | ok v =>
    obtain ⟨h2, v⟩ := v
    rw [hs] at hr
    cases hr
    refine ⟨?_, ?_⟩
    · show Ok h2.st
      rw [streamed_st hs]; exact hk
    · show h2.st.src.length ≤ _
      rw [streamed_st hs]; exact Nat.le_refl _

private theorem finish_same {h h' h1 : Heap} {r : Bool} (g : HSame b c h h') {x : Token} {t i : Nat}
    (hr : (h.streamedValue x t >>= fun r => Except.ok (r.1.set i { r.1.coll i with cur := some r.2 }, true)) = .ok (h1, r)) :
    ∃ h1', (h'.streamedValue x t >>= fun r => Except.ok (r.1.set i { r.1.coll i with cur := some r.2 }, true)) = .ok (h1', r) ∧ HSame b c h1 h1' := by
  cases hs : h.streamedValue x t with
  | error e => rw [hs] at hr; cases hr
  | ok v =>
    obtain ⟨h2, v⟩ := v
    rw [hs] at hr
    cases hr
    obtain ⟨h2', e1, e2⟩ := streamed_same g hs
    rw [e1]
    refine ⟨_, rfl, ?_⟩
    simp only [e2.coll]
    exact e2.set i _

/-- The end of `advance`: the value is taken. -/
private def fin (h : Heap) (i : Nat) (x : Token) : Except Stop (Heap × Bool) :=
  h.streamedValue x (h.coll i).stream >>= fun r => Except.ok (r.1.set i { r.1.coll i with cur := some r.2 }, true)

private def topRest (h : Heap) (i : Nat) : Option Token → Except Stop (Heap × Bool)
  | none => .ok (h.set i { h.coll i with cur := none }, false)
  | some x => fin h i x

private def objVal (h : Heap) (i : Nat) : Option Token → Except Stop (Heap × Bool)
  | none => .error .panic
  | some x => fin h i x

private def objRest (f : Nat) (h : Heap) (i : Nat) : Option Token → Except Stop (Heap × Bool)
  | none => .error .panic
  | some (.scalar k) =>
    (h.set i { h.coll i with started := true, key := some k }).next ((h.set i { h.coll i with started := true, key := some k }).coll i).stream >>=
      fun r => objVal r.1 i r.2
  | some .endObj => .ok (h.set i { h.coll i with done := true }, false)
  | some .elision => advance f (h.set i { h.coll i with elided := true }) i
  | some _ => .error .panic

private def arrRest (f : Nat) (h : Heap) (i : Nat) : Option Token → Except Stop (Heap × Bool)
  | none => .error .panic
  | some .endArr => .ok (h.set i { h.coll i with done := true }, false)
  | some .elision => advance f (h.set i { h.coll i with elided := true }) i
  | some x => fin (h.set i { h.coll i with started := true }) i x

private def nextThen (h : Heap) (i : Nat) (k : Heap → Option Token → Except Stop (Heap × Bool)) : Except Stop (Heap × Bool) :=
  h.next (h.coll i).stream >>= fun r => k r.1 r.2

private theorem advance_top {f : Nat} {h : Heap} {i : Nat} (hk : (h.coll i).kind = .top) :
    advance (f + 1) h i = (preTop h i >>= fun h => nextThen h i fun h x => topRest h i x) := by
  unfold advance preTop
  rw [hk]
  cases hc : (h.coll i).cur <;> simp only [hc] <;> rfl

private theorem advance_obj {f : Nat} {h : Heap} {i : Nat} (hk : (h.coll i).kind = .obj) :
    advance (f + 1) h i = if (h.coll i).done then .ok (h, false) else (pre h i >>= fun h => nextThen h i fun h x => objRest f h i x) := by
  unfold advance pre
  rw [hk]
  cases hd : (h.coll i).done
  · cases hs : (h.coll i).started
    · simp only [hd, hs]; rfl
    · cases hc : (h.coll i).cur <;> simp only [hd, hs, hc] <;> rfl
  · simp only [hd]; rfl

private theorem advance_arr {f : Nat} {h : Heap} {i : Nat} (hk : (h.coll i).kind = .arr) :
    advance (f + 1) h i = if (h.coll i).done then .ok (h, false) else (pre h i >>= fun h => nextThen h i fun h x => arrRest f h i x) := by
  unfold advance pre
  rw [hk]
  cases hd : (h.coll i).done
  · cases hs : (h.coll i).started
    · simp only [hd, hs]; rfl
    · cases hc : (h.coll i).cur <;> simp only [hd, hs, hc] <;> rfl
  · simp only [hd]; rfl

private theorem Down.unset {h h1 : Heap} {i : Nat} {x : Coll} (g : Down (h.set i x) h1) : Down h h1 := ⟨g.ok, g.src⟩

private theorem Down.trans {h h1 h2 : Heap} (g : Down h h1) (g' : Down h1 h2) : Down h h2 := ⟨g'.ok, Nat.le_trans g'.src g.src⟩

private theorem bind_down {m : Except Stop Heap} {k : Heap → Except Stop (Heap × Bool)} {h h1 : Heap} {r : Bool}
    (hm : ∀ h2, m = .ok h2 → Quiet h h2) (hk : ∀ h2, Quiet h h2 → k h2 = .ok (h1, r) → Down h2 h1) (hr : (m >>= k) = .ok (h1, r)) : Down h h1 := by
  cases e : m with
  | error e' => rw [e] at hr; cases hr
  | ok h2 =>
    rw [e] at hr
    have q := hm h2 e
    exact Down.trans ⟨q.st.ok, q.st.src⟩ (hk h2 q hr)

private theorem next_down {h h1 : Heap} {i : Nat} {k : Heap → Option Token → Except Stop (Heap × Bool)} {r : Bool} (ho : Ok h.st)
    (hk : ∀ h2 x, Quiet h h2 → k h2 x = .ok (h1, r) → Down h2 h1) (hr : nextThen h i k = .ok (h1, r)) : Down h h1 := by
  unfold nextThen at hr
  cases e : h.next (h.coll i).stream with
  | error e' => rw [e] at hr; cases hr
  | ok z =>
    obtain ⟨h2, x⟩ := z
    rw [e] at hr
    have q := (next_quiet ho e).1
    exact Down.trans ⟨q.st.ok, q.st.src⟩ (hk h2 x q hr)

private theorem fin_down {h h1 : Heap} {i : Nat} {x : Token} {r : Bool} (ho : Ok h.st) (hr : fin h i x = .ok (h1, r)) : Down h h1 := finish_down ho hr

theorem advance_down : ∀ (f : Nat) {h h1 : Heap} {i : Nat} {r : Bool}, Ok h.st → advance f h i = .ok (h1, r) → Down h h1 := by
  intro f
  induction f with
  | zero => intro h h1 i r _ hr; cases hr
  | succ f ih =>
    intro h h1 i r ho hr
    cases hk : (h.coll i).kind with
    | top =>
      rw [advance_top hk] at hr
      refine bind_down (fun h2 => preTop_quiet ho) (fun h2 q hr => next_down q.st.ok (fun h3 x q hr => ?_) hr) hr
      cases x with
      | none => cases hr; exact ⟨q.st.ok, Nat.le_refl _⟩
      | some x => exact fin_down q.st.ok hr
    | obj =>
      rw [advance_obj hk] at hr
      split at hr
      · cases hr; exact ⟨ho, Nat.le_refl _⟩
      · refine bind_down (fun h2 => pre_quiet ho) (fun h2 q hr => next_down q.st.ok (fun h3 x q hr => ?_) hr) hr
        cases x with
        | none => cases hr
        | some x =>
          cases x with
          | scalar k =>
            refine Down.unset (next_down (h := h3.set i { h3.coll i with started := true, key := some k }) (k := fun h y => objVal h i y) q.st.ok (fun h4 y q hr => ?_) hr)
            cases y with
            | none => cases hr
            | some y => exact fin_down q.st.ok hr
          | endObj => cases hr; exact ⟨q.st.ok, Nat.le_refl _⟩
          | elision => exact Down.unset (ih (h := h3.set i { h3.coll i with elided := true }) q.st.ok hr)
          | startObj => cases hr
          | startArr => cases hr
          | endArr => cases hr
    | arr =>
      rw [advance_arr hk] at hr
      split at hr
      · cases hr; exact ⟨ho, Nat.le_refl _⟩
      · refine bind_down (fun h2 => pre_quiet ho) (fun h2 q hr => next_down q.st.ok (fun h3 x q hr => ?_) hr) hr
        cases x with
        | none => cases hr
        | some x =>
          cases x with
          | endArr => cases hr; exact ⟨q.st.ok, Nat.le_refl _⟩
          | elision => exact Down.unset (ih (h := h3.set i { h3.coll i with elided := true }) q.st.ok hr)
          | scalar k => exact Down.unset (fin_down (h := h3.set i { h3.coll i with started := true }) q.st.ok hr)
          | endObj => exact Down.unset (fin_down (h := h3.set i { h3.coll i with started := true }) q.st.ok hr)
          | startObj => exact Down.unset (fin_down (h := h3.set i { h3.coll i with started := true }) q.st.ok hr)
          | startArr => exact Down.unset (fin_down (h := h3.set i { h3.coll i with started := true }) q.st.ok hr)

/-! ## Advancing over two inputs -/

private theorem bind_same {m m' : Except Stop Heap} {k k' : Heap → Except Stop (Heap × Bool)} {h1 : Heap} {r : Bool}
    (hd : ∀ h2, m = .ok h2 → k h2 = .ok (h1, r) → Down h2 h1) (hl : b.length ≤ h1.st.src.length)
    (hm : ∀ h2, m = .ok h2 → b.length ≤ h2.st.src.length → ∃ h2', m' = .ok h2' ∧ HSame b c h2 h2')
    (hk : ∀ h2 h2', m = .ok h2 → HSame b c h2 h2' → k h2 = .ok (h1, r) → ∃ h1', k' h2' = .ok (h1', r) ∧ HSame b c h1 h1')
    (hr : (m >>= k) = .ok (h1, r)) : ∃ h1', (m' >>= k') = .ok (h1', r) ∧ HSame b c h1 h1' := by
  cases e : m with
  | error e' => rw [e] at hr; cases hr
  | ok h2 =>
    rw [e] at hr
    obtain ⟨h2', e1, e2⟩ := hm h2 e (Nat.le_trans hl (hd h2 e hr).src)
    obtain ⟨h1', e3, e4⟩ := hk h2 h2' e e2 hr
    rw [e1]
    exact ⟨h1', e3, e4⟩

private theorem next_same (hb : b = [] → c = []) {h h' h1 : Heap} {i : Nat} {k k' : Heap → Option Token → Except Stop (Heap × Bool)} {r : Bool} (ho : Ok h.st)
    (g : HSame b c h h') (hd : ∀ h2 x, Quiet h h2 → k h2 x = .ok (h1, r) → Down h2 h1) (hl : b.length ≤ h1.st.src.length)
    (hk : ∀ h2 h2' x, Quiet h h2 → HSame b c h2 h2' → (x.isSome = true → h2.st.left (h.coll i).stream + 1 ≤ h.st.left (h.coll i).stream) →
      k h2 x = .ok (h1, r) → ∃ h1', k' h2' x = .ok (h1', r) ∧ HSame b c h1 h1')
    (hr : nextThen h i k = .ok (h1, r)) : ∃ h1', nextThen h' i k' = .ok (h1', r) ∧ HSame b c h1 h1' := by
  unfold nextThen at hr ⊢
  cases e : h.next (h.coll i).stream with
  | error e' => rw [e] at hr; cases hr
  | ok z =>
    obtain ⟨h2, x⟩ := z
    rw [e] at hr
    obtain ⟨q, q1, -⟩ := next_quiet ho e
    obtain ⟨h2', e1, e2⟩ := g.next hb e (Nat.le_trans hl (hd h2 x q hr).src)
    rw [g.coll, e1]
    exact hk h2 h2' x q e2 q1 hr

private theorem fin_same {h h' h1 : Heap} (g : HSame b c h h') {i : Nat} {x : Token} {r : Bool} (hr : fin h i x = .ok (h1, r)) :
    ∃ h1', fin h' i x = .ok (h1', r) ∧ HSame b c h1 h1' := by
  unfold fin
  rw [g.coll]
  exact finish_same g hr

theorem HSame.advance (hb : b = [] → c = []) : ∀ (f : Nat) {h h' h1 : Heap} {i : Nat} {r : Bool}, Ok h.st → HSame b c h h' →
    Heap.advance f h i = .ok (h1, r) → b.length ≤ h1.st.src.length → ∀ f', h.st.left (h.coll i).stream < f' + b.length →
      ∃ h1', Heap.advance f' h' i = .ok (h1', r) ∧ HSame b c h1 h1' := by
  intro f
  induction f with
  | zero => intro h h' h1 i r _ _ hr; cases hr
  | succ f ih =>
    intro h h' h1 i r ho g hr hl f' hf
    have hbl : b.length ≤ h.st.left (h.coll i).stream := by
      have := (advance_down _ ho hr).src
      unfold Streams.left
      omega
    obtain ⟨f', rfl⟩ : ∃ k, f' = k + 1 := ⟨f' - 1, by omega⟩
    have hsub : ∀ {h2 h3 h3' : Heap}, Quiet h h2 → Quiet h2 h3 → HSame b c h3 h3' → h3.st.left (h2.coll i).stream + 1 ≤ h2.st.left (h2.coll i).stream →
        Heap.advance f (h3.set i { h3.coll i with elided := true }) i = .ok (h1, r) →
        ∃ h1', Heap.advance f' (h3'.set i { h3'.coll i with elided := true }) i = .ok (h1', r) ∧ HSame b c h1 h1' := by
      intro h2 h3 h3' q q' g' hc hr
      refine ih (h := h3.set i { h3.coll i with elided := true }) q'.st.ok ?_ hr hl f' ?_
      · rw [g'.coll]; exact g'.set i _
      · have e : ((h3.set i { h3.coll i with elided := true }).coll i).stream = (h.coll i).stream := by
          show (if i = i then _ else _ : Coll).stream = _
          rw [if_pos rfl, ← q.stream, ← q'.stream]
        rw [e]
        rw [q.stream] at hc
        have := q.st.left (h.coll i).stream
        show h3.st.left _ < _
        omega
    cases hk : (h.coll i).kind with
    | top =>
      have hk' : (h'.coll i).kind = .top := by rw [g.coll]; exact hk
      rw [advance_top hk] at hr
      rw [advance_top hk']
      refine bind_same (fun h2 e hr => ?_) hl (fun h2 e => preTop_same hb ho g e) (fun h2 h2' e g hr => ?_) hr
      · have q := preTop_quiet ho e
        refine next_down q.st.ok (fun h3 x q hr => ?_) hr
        cases x with
        | none => cases hr; exact ⟨q.st.ok, Nat.le_refl _⟩
        | some x => exact fin_down q.st.ok hr
      · have q := preTop_quiet ho e
        refine next_same hb q.st.ok g (fun h3 x q hr => ?_) hl (fun h3 h3' x q g _ hr => ?_) hr
        · cases x with
          | none => cases hr; exact ⟨q.st.ok, Nat.le_refl _⟩
          | some x => exact fin_down q.st.ok hr
        · cases x with
          | none =>
            cases hr
            simp only [topRest, g.coll]
            exact ⟨_, rfl, g.set i _⟩
          | some x => exact fin_same g hr
    | obj =>
      have hk' : (h'.coll i).kind = .obj := by rw [g.coll]; exact hk
      rw [advance_obj hk] at hr
      rw [advance_obj hk', g.coll]
      split at hr
      · rename_i e
        rw [if_pos e]
        cases hr; exact ⟨_, rfl, g⟩
      · rename_i e
        rw [if_neg e]
        have hdn : ∀ {h2 h3 : Heap} {x : Option Token}, Quiet h2 h3 → objRest f h3 i x = .ok (h1, r) → Down h3 h1 := by
          intro h2 h3 x q hr
          cases x with
          | none => cases hr
          | some x =>
            cases x with
            | scalar k =>
              refine Down.unset (next_down (h := h3.set i { h3.coll i with started := true, key := some k }) (k := fun h y => objVal h i y) q.st.ok (fun h4 y q hr => ?_) hr)
              cases y with
              | none => cases hr
              | some y => exact fin_down q.st.ok hr
            | endObj => cases hr; exact ⟨q.st.ok, Nat.le_refl _⟩
            | elision => exact Down.unset (advance_down f (h := h3.set i { h3.coll i with elided := true }) q.st.ok hr)
            | startObj => cases hr
            | startArr => cases hr
            | endArr => cases hr
        refine bind_same (fun h2 e hr => ?_) hl (fun h2 e => pre_same hb ho g e) (fun h2 h2' e g hr => ?_) hr
        · exact next_down (pre_quiet ho e).st.ok (fun h3 x q hr => hdn q hr) hr
        · have q := pre_quiet ho e
          refine next_same hb q.st.ok g (fun h3 x q hr => hdn q hr) hl (fun h3 h3' x q' g hx hr => ?_) hr
          cases x with
          | none => cases hr
          | some x =>
            cases x with
            | scalar k =>
              have gs := g.set i { h3.coll i with started := true, key := some k }
              have := next_same (k' := fun h y => objVal h i y) hb (h := h3.set i { h3.coll i with started := true, key := some k }) (k := fun h y => objVal h i y) q'.st.ok gs (fun h4 y q hr => ?_) hl (fun h4 h4' y q g _ hr => ?_) hr
              · simp only [objRest, g.coll]
                exact this
              · cases y with
                | none => cases hr
                | some y => exact fin_down q.st.ok hr
              · cases y with
                | none => cases hr
                | some y => exact fin_same g hr
            | endObj =>
              cases hr
              simp only [objRest, g.coll]
              exact ⟨_, rfl, g.set i _⟩
            | elision => exact hsub q q' g (hx rfl) hr
            | startObj => cases hr
            | startArr => cases hr
            | endArr => cases hr
    | arr =>
      have hk' : (h'.coll i).kind = .arr := by rw [g.coll]; exact hk
      rw [advance_arr hk] at hr
      rw [advance_arr hk', g.coll]
      split at hr
      · rename_i e
        rw [if_pos e]
        cases hr; exact ⟨_, rfl, g⟩
      · rename_i e
        rw [if_neg e]
        have hdn : ∀ {h2 h3 : Heap} {x : Option Token}, Quiet h2 h3 → arrRest f h3 i x = .ok (h1, r) → Down h3 h1 := by
          intro h2 h3 x q hr
          cases x with
          | none => cases hr
          | some x =>
            cases x with
            | endArr => cases hr; exact ⟨q.st.ok, Nat.le_refl _⟩
            | elision => exact Down.unset (advance_down f (h := h3.set i { h3.coll i with elided := true }) q.st.ok hr)
            | scalar k => exact Down.unset (fin_down (h := h3.set i { h3.coll i with started := true }) q.st.ok hr)
            | endObj => exact Down.unset (fin_down (h := h3.set i { h3.coll i with started := true }) q.st.ok hr)
            | startObj => exact Down.unset (fin_down (h := h3.set i { h3.coll i with started := true }) q.st.ok hr)
            | startArr => exact Down.unset (fin_down (h := h3.set i { h3.coll i with started := true }) q.st.ok hr)
        refine bind_same (fun h2 e hr => ?_) hl (fun h2 e => pre_same hb ho g e) (fun h2 h2' e g hr => ?_) hr
        · exact next_down (pre_quiet ho e).st.ok (fun h3 x q hr => hdn q hr) hr
        · have q := pre_quiet ho e
          refine next_same hb q.st.ok g (fun h3 x q hr => hdn q hr) hl (fun h3 h3' x q' g hx hr => ?_) hr
          have hfin : ∀ {x : Token}, fin (h3.set i { h3.coll i with started := true }) i x = .ok (h1, r) →
              ∃ h1', fin (h3'.set i { h3'.coll i with started := true }) i x = .ok (h1', r) ∧ HSame b c h1 h1' := by
            intro x hr
            rw [g.coll]
            exact fin_same (g.set i _) hr
          cases x with
          | none => cases hr
          | some x =>
            cases x with
            | endArr =>
              cases hr
              simp only [arrRest, g.coll]
              exact ⟨_, rfl, g.set i _⟩
            | elision => exact hsub q q' g (hx rfl) hr
            | scalar k => exact hfin hr
            | endObj => exact hfin hr
            | startObj => exact hfin hr
            | startArr => exact hfin hr

/-! ## Steps and runs -/

theorem step_down {h h1 : Heap} (ho : Ok h.st) (o : IOp) {r : o.Res} (hr : h.step o = .ok (h1, r)) : Down h h1 := by
  cases o with
  | advance i => exact advance_down _ ho hr
  | current i =>
    simp only [step] at hr
    cases e : h.current i with
    | error e' => rw [e] at hr; cases hr
    | ok x => rw [e] at hr; cases hr; exact ⟨ho, Nat.le_refl _⟩
  | elided i => cases hr; exact ⟨ho, Nat.le_refl _⟩
  | clone v =>
    simp only [step] at hr
    cases v with
    | scalar s => cases hr; exact ⟨ho, Nat.le_refl _⟩
    | coll k i =>
      unfold clone at hr
      simp only at hr
      by_cases e : (if (h.coll i).kind = .top then (h.coll i).cur.isSome else (h.coll i).started) = true
      · rw [if_pos e] at hr; cases hr
      · rw [if_neg e] at hr
        cases hr
        refine ⟨Streams.clone_ok ho _, ?_⟩
        show (h.st.clone (h.coll i).stream).1.src.length ≤ _
        rw [Streams.clone_src]
        exact Nat.le_refl _
  | discard v =>
    simp only [step] at hr
    cases e : discard h.n h v with
    | error e' => rw [e] at hr; cases hr
    | ok x => rw [e] at hr; cases hr; have := discard_quiet _ ho e; exact ⟨this.st.ok, this.st.src⟩
  | copy v =>
    simp only [step] at hr
    cases v with
    | scalar s => cases hr; exact ⟨ho, Nat.le_refl _⟩
    | coll k i =>
      unfold copy at hr
      simp only at hr
      split at hr
      · cases hr
      · simp only [bind, Except.bind] at hr
        split at hr
        · cases hr
        · rename_i e
          cases hr
          have := (readToEnd_quiet (h := h.set i { h.coll i with done := true }) _ ho e).1
          exact ⟨this.st.ok, this.st.src⟩
  | detach t =>
    simp only [step, detach] at hr
    cases e : h.st.detach t with
    | none => rw [e] at hr; cases hr
    | some x =>
      rw [e] at hr
      cases hr
      exact ⟨Streams.detach_ok ho e, by simp only [Streams.detach_src e]; exact Nat.le_refl _⟩
  | data ts =>
    cases hr
    exact ⟨Streams.fromData_ok ho ts, Nat.le_refl _⟩
  | reject p q =>
    simp only [step, Heap.reject] at hr
    split at hr <;> cases hr <;> exact ⟨ho, Nat.le_refl _⟩

theorem HSame.step (hb : b = [] → c = []) {h h' h1 : Heap} (ho : Ok h.st) (g : HSame b c h h') (o : IOp) {r : o.Res} (hr : h.step o = .ok (h1, r))
    (hl : b.length ≤ h1.st.src.length) : ∃ h1', h'.step o = .ok (h1', r) ∧ HSame b c h1 h1' := by
  cases o with
  | advance i =>
    simp only [Heap.step] at hr ⊢
    refine HSame.advance hb _ ho g hr hl _ ?_
    have := g.avail ho (h.coll i).stream
    rw [g.coll]
    omega
  | current i =>
    simp only [Heap.step] at hr ⊢
    have e : h'.current i = h.current i := by unfold current; rw [g.coll]
    rw [e]
    cases e : h.current i with
    | error e' => rw [e] at hr; cases hr
    | ok x => rw [e] at hr; cases hr; exact ⟨_, rfl, g⟩
  | elided i => cases hr; simp only [Heap.step, g.coll]; exact ⟨_, rfl, g⟩
  | clone v =>
    simp only [Heap.step] at hr ⊢
    cases v with
    | scalar s => cases hr; exact ⟨_, rfl, g⟩
    | coll k i =>
      unfold Heap.clone at hr ⊢
      simp only [g.coll] at hr ⊢
      by_cases e : (if (h.coll i).kind = .top then (h.coll i).cur.isSome else (h.coll i).started) = true
      · rw [if_pos e] at hr; cases hr
      · rw [if_neg e] at hr ⊢
        cases hr
        obtain ⟨e1, e2⟩ := g.st.clone (h.coll i).stream
        have g1 : HSame b c { h with st := (h.st.clone (h.coll i).stream).1 } { h' with st := (h'.st.clone (h.coll i).stream).1 } := ⟨e2, g.coll, g.n, g.bad⟩
        have g2 := g1.set i { h.coll i with stream := (h.st.clone (h.coll i).stream).2.1 }
        obtain ⟨e3, g3⟩ := g2.alloc { h.coll i with stream := (h.st.clone (h.coll i).stream).2.2, key := none }
        refine ⟨_, ?_, g3⟩
        simp only [Except.map, e1]
        simp only [g.coll] at e3 ⊢
        rw [e3]
  | discard v =>
    simp only [Heap.step] at hr ⊢
    cases e : Heap.discard h.n h v with
    | error e' => rw [e] at hr; cases hr
    | ok x =>
      rw [e] at hr; cases hr
      obtain ⟨h2', e1, e2⟩ := HSame.discard hb _ ho g e hl
      rw [g.n, e1]
      exact ⟨_, rfl, e2⟩
  | copy v =>
    simp only [Heap.step] at hr ⊢
    cases v with
    | scalar s => cases hr; exact ⟨_, rfl, g⟩
    | coll k i =>
      unfold Heap.copy at hr ⊢
      simp only [g.coll] at hr ⊢
      split at hr
      · cases hr
      · rename_i e
        rw [if_neg e]
        simp only [bind, Except.bind] at hr ⊢
        split at hr
        · cases hr
        · rename_i z e
          obtain ⟨h2, l⟩ := z
          cases hr
          have gs := g.set i { h.coll i with done := true }
          obtain ⟨h2', e1, e2⟩ := HSame.readToEnd hb _ (h := h.set i { h.coll i with done := true }) ho gs e hl
            ((h'.set i { h.coll i with done := true }).avail (h.coll i).stream + 1)
            (by have := gs.avail (h := h.set i { h.coll i with done := true }) ho (h.coll i).stream; omega)
          rw [e1]
          simp only [e2.coll]
          exact ⟨_, rfl, e2⟩
  | detach t =>
    simp only [Heap.step, Heap.detach] at hr ⊢
    cases e : h.st.detach t with
    | none => rw [e] at hr; cases hr
    | some x =>
      rw [e] at hr
      cases hr
      obtain ⟨s', e1, e2⟩ := g.st.detach e
      rw [e1]
      exact ⟨_, rfl, e2, g.coll, g.n, g.bad⟩
  | data ts =>
    cases hr
    obtain ⟨e1, e2⟩ := g.st.fromData ts
    have g1 : HSame b c { h with st := (h.st.fromData ts).1 } { h' with st := (h'.st.fromData ts).1 } := ⟨e2, g.coll, g.n, g.bad⟩
    obtain ⟨e3, g3⟩ := g1.alloc ⟨.top, (h.st.fromData ts).2, false, false, false, none, none⟩
    simp only [Heap.step, Heap.data, e1]
    exact ⟨_, congrArg Except.ok (Prod.ext rfl e3), g3⟩
  | reject p q =>
    simp only [Heap.step, Heap.reject, g.bad] at hr ⊢
    by_cases hp : h.bad.contains p = true
    · simp only [hp, if_true] at hr ⊢
      cases hr; exact ⟨_, rfl, g⟩
    · simp only [hp] at hr ⊢
      cases hr
      exact ⟨_, rfl, g.st, g.coll, g.n, rfl⟩

theorem reach_down {ε α : Type} {p p' : IProg ε α} {h h1 : Heap} {o : List ε} (hr : Reach mach p h o p' h1) : Ok h.st → Down h h1 := by
  induction hr with
  | refl => exact fun ho => ⟨ho, Nat.le_refl _⟩
  | emit _ ih => exact ih
  | op e _ ih => exact fun ho => (step_down ho _ e).trans (ih (step_down ho _ e).ok)

/-- A run that has left `b` unread does the same, and writes the same, when `c` is there instead. -/
theorem reach_same {ε α : Type} (hb : b = [] → c = []) {p p' : IProg ε α} {h h1 : Heap} {o : List ε} (hr : Reach mach p h o p' h1) :
    ∀ {h' : Heap}, Ok h.st → HSame b c h h' → b.length ≤ h1.st.src.length → ∃ h1', Reach mach p h' o p' h1' ∧ HSame b c h1 h1' := by
  induction hr with
  | refl => exact fun ho g _ => ⟨_, .refl _ _, g⟩
  | emit _ ih =>
    intro h' ho g hl
    obtain ⟨h1', e1, e2⟩ := ih ho g hl
    exact ⟨h1', .emit e1, e2⟩
  | op e hr ih =>
    intro h' ho g hl
    have d := step_down ho _ e
    obtain ⟨h2', e1, e2⟩ := g.step hb ho _ e (Nat.le_trans hl (reach_down hr d.ok).src)
    obtain ⟨h1', e3, e4⟩ := ih d.ok e2 hl
    exact ⟨h1', .op e1 e3, e4⟩

/-! ## The iterator over the input -/

/-- The iterator over the input is as it was. -/
structure Fix (h h1 : Heap) : Prop where
  kind : (h1.coll 0).kind = (h.coll 0).kind
  stream : (h1.coll 0).stream = (h.coll 0).stream
  cur : (h1.coll 0).cur = (h.coll 0).cur
  n : h.n ≤ h1.n

theorem Fix.refl (h : Heap) : Fix h h := ⟨rfl, rfl, rfl, Nat.le_refl _⟩

theorem Fix.trans {h h1 h2 : Heap} (g : Fix h h1) (g' : Fix h1 h2) : Fix h h2 :=
  ⟨g'.kind.trans g.kind, g'.stream.trans g.stream, g'.cur.trans g.cur, Nat.le_trans g.n g'.n⟩

theorem Fix.set_ne {h h1 : Heap} (g : Fix h h1) {i : Nat} (hi : i ≠ 0) (c : Coll) : Fix h (h1.set i c) := by
  have e : (h1.set i c).coll 0 = h1.coll 0 := by
    show (if 0 = i then c else h1.coll 0) = _
    rw [if_neg (Ne.symm hi)]
  exact ⟨by rw [e]; exact g.kind, by rw [e]; exact g.stream, by rw [e]; exact g.cur, g.n⟩

theorem Fix.set_done {h h1 : Heap} (g : Fix h h1) (i : Nat) : Fix h (h1.set i { h1.coll i with done := true }) := by
  by_cases hi : i = 0
  · subst hi
    exact ⟨g.kind, g.stream, g.cur, g.n⟩
  · exact g.set_ne hi _

theorem Fix.coll {h h1 h2 : Heap} (g : Fix h h1) (e : h2.coll = h1.coll) (hn : h1.n ≤ h2.n) : Fix h h2 :=
  ⟨by rw [e]; exact g.kind, by rw [e]; exact g.stream, by rw [e]; exact g.cur, Nat.le_trans g.n hn⟩

theorem Fix.alloc {h h1 : Heap} (g : Fix h h1) (hn : h1.n ≠ 0) (c : Coll) : Fix h (h1.alloc c).1 :=
  (g.set_ne hn c).trans ⟨rfl, rfl, rfl, Nat.le_succ _⟩

theorem next_coll {h h1 : Heap} {t : Nat} {x : Option Token} (hn : h.next t = .ok (h1, x)) : h1.coll = h.coll ∧ h1.n = h.n := by
  unfold Heap.next at hn
  cases e : h.st.next t with
  | none => rw [e] at hn; cases hn
  | some r => rw [e] at hn; cases hn; exact ⟨rfl, rfl⟩

theorem readToEnd_coll : ∀ (f : Nat) {h h1 : Heap} {t : Nat} {d : Int} {l : List Token}, readToEnd f h t d = .ok (h1, l) → h1.coll = h.coll ∧ h1.n = h.n := by
  intro f
  induction f with
  | zero => intro h h1 t d l hr; cases hr
  | succ f ih =>
    intro h h1 t d l hr
    unfold readToEnd at hr
    cases hn : h.next t with
    | error e => rw [hn] at hr; cases hr
    | ok r =>
      obtain ⟨h2, x⟩ := r
      rw [hn] at hr
      have q := next_coll hn
      cases x with
      | none => cases hr; exact q
      | some x =>
        simp only [bind, Except.bind] at hr
        split at hr
        · cases hr; exact q
        · cases hm : readToEnd f h2 t (depthAfter d x) with
          | error e => rw [hm] at hr; cases hr
          | ok r =>
            obtain ⟨h3, l'⟩ := r
            rw [hm] at hr
            cases hr
            have q1 := ih hm
            exact ⟨q1.1.trans q.1, q1.2.trans q.2⟩

theorem discard_fix : ∀ (f : Nat) {h h1 : Heap} {v : Val}, discard f h v = .ok h1 → Fix h h1 := by
  intro f
  induction f with
  | zero => intro h h1 v hr; cases hr
  | succ f ih =>
    intro h h1 v hr
    cases v with
    | scalar s => unfold discard at hr; cases hr; exact .refl h
    | coll k i =>
      unfold discard at hr
      by_cases hd : (h.coll i).done = true
      · rw [if_pos hd] at hr; cases hr; exact .refl h
      · rw [if_neg hd] at hr
        have key : ∀ {h2 : Heap}, Fix h h2 → (readToEnd ((h2.set i { h2.coll i with done := true }).avail (h2.coll i).stream + 1)
            (h2.set i { h2.coll i with done := true }) (h2.coll i).stream 0 >>= fun r => Except.ok r.1) = .ok h1 → Fix h h1 := by
          intro h2 q hr
          generalize hF : (h2.set i { h2.coll i with done := true }).avail (h2.coll i).stream + 1 = F at hr
          cases hm : readToEnd F (h2.set i { h2.coll i with done := true }) (h2.coll i).stream 0 with
          | error e => rw [hm] at hr; cases hr
          | ok r =>
            rw [hm] at hr
            cases hr
            have := readToEnd_coll _ hm
            exact (q.set_done i).coll this.1 (Nat.le_of_eq this.2.symm)
        by_cases hs : (h.coll i).started = true
        · rw [if_pos hs] at hr
          cases hc : (h.coll i).cur with
          | none => rw [hc] at hr; cases hr
          | some v =>
            rw [hc] at hr
            simp only at hr
            cases hm : discard f h v with
            | error e => rw [hm] at hr; cases hr
            | ok h2 =>
              rw [hm] at hr
              exact key (ih hm) hr
        · rw [if_neg hs] at hr
          exact key (.refl h) hr

private theorem pre_fix {h h1 : Heap} {i : Nat} (hp : pre h i = .ok h1) : Fix h h1 := by
  unfold pre at hp
  split at hp
  · split at hp
    · cases hp
    · exact discard_fix _ hp
  · cases hp; exact .refl h

private theorem preTop_fix {h h1 : Heap} {i : Nat} (hp : preTop h i = .ok h1) : Fix h h1 := by
  unfold preTop at hp
  split at hp
  · exact discard_fix _ hp
  · cases hp; exact .refl h

private theorem streamed_fix {h h1 : Heap} {x : Token} {t : Nat} {v : Val} (hn : h.n ≠ 0) (hs : h.streamedValue x t = .ok (h1, v)) : Fix h h1 := by
  cases x <;> simp only [streamedValue, Except.ok.injEq, Prod.mk.injEq, reduceCtorEq] at hs
  · rw [← hs.1]; exact (Fix.refl h).alloc hn _
  · rw [← hs.1]; exact (Fix.refl h).alloc hn _
  · rw [← hs.1]; exact .refl h

private theorem fin_fix {h h1 : Heap} {i : Nat} {x : Token} {r : Bool} (hn : h.n ≠ 0) (hi : i ≠ 0) (hr : fin h i x = .ok (h1, r)) : Fix h h1 := by
  unfold fin at hr
  cases e : h.streamedValue x (h.coll i).stream with
  | error e' => rw [e] at hr; cases hr
  | ok p =>
    obtain ⟨h2, v⟩ := p
    rw [e] at hr
    cases hr
    exact (streamed_fix hn e).set_ne hi _

private theorem bind_fix {m : Except Stop Heap} {k : Heap → Except Stop (Heap × Bool)} {h h1 : Heap} {r : Bool}
    (hm : ∀ h2, m = .ok h2 → Fix h h2) (hk : ∀ h2, Fix h h2 → k h2 = .ok (h1, r) → Fix h2 h1) (hr : (m >>= k) = .ok (h1, r)) : Fix h h1 := by
  cases e : m with
  | error e' => rw [e] at hr; cases hr
  | ok h2 =>
    rw [e] at hr
    exact (hm h2 e).trans (hk h2 (hm h2 e) hr)

private theorem next_fix {h h1 : Heap} {i : Nat} {k : Heap → Option Token → Except Stop (Heap × Bool)} {r : Bool}
    (hd : ∀ h2 x, Fix h h2 → k h2 x = .ok (h1, r) → Fix h2 h1) (hr : nextThen h i k = .ok (h1, r)) : Fix h h1 := by
  unfold nextThen at hr
  cases e : h.next (h.coll i).stream with
  | error e' => rw [e] at hr; cases hr
  | ok p =>
    obtain ⟨h2, x⟩ := p
    rw [e] at hr
    have q := next_coll e
    have g : Fix h h2 := (Fix.refl h).coll q.1 (Nat.le_of_eq q.2.symm)
    exact g.trans (hd h2 x g hr)

theorem advance_fix : ∀ (f : Nat) {h h1 : Heap} {i : Nat} {r : Bool}, h.n ≠ 0 → i ≠ 0 → advance f h i = .ok (h1, r) → Fix h h1 := by
  intro f
  induction f with
  | zero => intro h h1 i r _ _ hr; cases hr
  | succ f ih =>
    intro h h1 i r hn hi hr
    have hpos : ∀ {h2}, Fix h h2 → h2.n ≠ 0 := fun g => by have := g.n; omega
    cases hk : (h.coll i).kind with
    | top =>
      rw [advance_top hk] at hr
      refine bind_fix (fun h2 e => preTop_fix e) (fun h2 g hr => next_fix (fun h3 x g' hr => ?_) hr) hr
      cases x with
      | none => cases hr; exact (Fix.refl h3).set_ne hi _
      | some x => exact fin_fix (hpos (g.trans g')) hi hr
    | obj =>
      rw [advance_obj hk] at hr
      split at hr
      · cases hr; exact .refl h
      · refine bind_fix (fun h2 e => pre_fix e) (fun h2 g hr => next_fix (fun h3 x g' hr => ?_) hr) hr
        have g2 := g.trans g'
        cases x with
        | none => cases hr
        | some x =>
          cases x with
          | scalar k =>
            refine ((Fix.refl h3).set_ne hi { h3.coll i with started := true, key := some k }).trans
              (next_fix (k := fun h y => objVal h i y) (fun h4 y g4 hr => ?_) hr)
            have g5 := (g2.set_ne hi { h3.coll i with started := true, key := some k }).trans g4
            cases y with
            | none => cases hr
            | some y => exact fin_fix (hpos g5) hi hr
          | endObj => cases hr; exact (Fix.refl h3).set_ne hi _
          | elision =>
            have g3 := g2.set_ne hi { h3.coll i with elided := true }
            exact ((Fix.refl h3).set_ne hi _).trans (ih (hpos g3) hi hr)
          | startArr => cases hr
          | startObj => cases hr
          | endArr => cases hr
    | arr =>
      rw [advance_arr hk] at hr
      split at hr
      · cases hr; exact .refl h
      · refine bind_fix (fun h2 e => pre_fix e) (fun h2 g hr => next_fix (fun h3 x g' hr => ?_) hr) hr
        have g2 := g.trans g'
        have hfin : ∀ {x}, fin (h3.set i { h3.coll i with started := true }) i x = .ok (h1, r) → Fix h3 h1 := by
          intro x hr
          have g3 := g2.set_ne hi { h3.coll i with started := true }
          exact ((Fix.refl h3).set_ne hi _).trans (fin_fix (hpos g3) hi hr)
        cases x with
        | none => cases hr
        | some x =>
          cases x with
          | scalar k => exact hfin hr
          | endArr => cases hr; exact (Fix.refl h3).set_ne hi _
          | elision =>
            have g3 := g2.set_ne hi { h3.coll i with elided := true }
            exact ((Fix.refl h3).set_ne hi _).trans (ih (hpos g3) hi hr)
          | startArr => exact hfin hr
          | startObj => exact hfin hr
          | endObj => exact hfin hr

/-- The iterator over the input reads directly from the channel. -/
structure Root (h : Heap) : Prop where
  kind : (h.coll 0).kind = .top
  stream : (h.coll 0).stream = 0
  n : h.n ≠ 0

theorem root_init (ts : List Token) : Root (init ts) := ⟨rfl, rfl, Nat.one_ne_zero⟩

theorem Root.fix {h h1 : Heap} (g : Root h) (f : Fix h h1) : Root h1 :=
  ⟨f.kind.trans g.kind, f.stream.trans g.stream, by have := f.n; have := g.n; omega⟩

/-- Advancing the iterator over the input: if there is a next value, it is the current one, and otherwise all has been read. -/
theorem Root.advance {h h1 : Heap} {r : Bool} (g : Root h) (hr : h.step (.advance 0) = .ok (h1, r)) :
    Root h1 ∧ (r = true → (h1.coll 0).cur.isSome = true) ∧ (r = false → h1.st.src = []) := by
  simp only [Heap.step] at hr
  rw [advance_top g.kind] at hr
  cases hp : preTop h 0 with
  | error e => rw [hp] at hr; cases hr
  | ok h2 =>
    rw [hp] at hr
    have g2 := g.fix (preTop_fix hp)
    have hr : nextThen h2 0 (fun h x => topRest h 0 x) = .ok (h1, r) := hr
    unfold nextThen at hr
    cases e : h2.next (h2.coll 0).stream with
    | error e' => rw [e] at hr; cases hr
    | ok p =>
      obtain ⟨h3, x⟩ := p
      rw [e] at hr
      have q := next_coll e
      have g3 := g2.fix ((Fix.refl h2).coll q.1 (Nat.le_of_eq q.2.symm))
      have hr : topRest h3 0 x = .ok (h1, r) := hr
      cases x with
      | none =>
        cases hr
        refine ⟨⟨g3.kind, g3.stream, g3.n⟩, fun e => (nomatch e), fun _ => ?_⟩
        show h3.st.src = []
        rw [g2.stream] at e
        unfold Heap.next Streams.next at e
        rw [if_pos rfl] at e
        cases hs : h2.st.src with
        | nil => rw [hs] at e; cases e; exact hs
        | cons y l => rw [hs] at e; cases e
      | some x =>
        have hr : fin h3 0 x = .ok (h1, r) := hr
        unfold fin at hr
        cases e' : h3.streamedValue x (h3.coll 0).stream with
        | error e'' => rw [e'] at hr; cases hr
        | ok p =>
          obtain ⟨h4, v⟩ := p
          rw [e'] at hr
          cases hr
          have g4 := g3.fix (streamed_fix g3.n e')
          exact ⟨⟨g4.kind, g4.stream, g4.n⟩, fun _ => rfl, fun e => (nomatch e)⟩

/-- While a value of the input is being visited, nothing changes this, unless the input is at its end. -/
theorem Root.step {h h1 : Heap} (g : Root h) (hc : (h.coll 0).cur.isSome = true) (o : IOp) {r : o.Res} (hr : h.step o = .ok (h1, r)) :
    (Root h1 ∧ (h1.coll 0).cur.isSome = true) ∨ h1.st.src = [] := by
  have fixed : Fix h h1 → (Root h1 ∧ (h1.coll 0).cur.isSome = true) ∨ h1.st.src = [] := fun f => .inl ⟨g.fix f, by rw [f.cur]; exact hc⟩
  cases o with
  | advance i =>
    by_cases hi : i = 0
    · subst hi
      obtain ⟨a, b, c⟩ := g.advance hr
      cases r with
      | true => exact .inl ⟨a, b rfl⟩
      | false => exact .inr (c rfl)
    · exact fixed (advance_fix _ g.n hi hr)
  | current i =>
    simp only [Heap.step] at hr
    cases e : h.current i with
    | error e' => rw [e] at hr; cases hr
    | ok x => rw [e] at hr; cases hr; exact fixed (.refl h)
  | elided i => cases hr; exact fixed (.refl h)
  | clone v =>
    simp only [Heap.step] at hr
    cases v with
    | scalar s => cases hr; exact fixed (.refl h)
    | coll k i =>
      unfold clone at hr
      simp only at hr
      by_cases e : (if (h.coll i).kind = .top then (h.coll i).cur.isSome else (h.coll i).started) = true
      · rw [if_pos e] at hr; cases hr
      · rw [if_neg e] at hr
        have hi : i ≠ 0 := by
          intro hi
          subst hi
          rw [if_pos g.kind] at e
          exact e hc
        cases hr
        have f : Fix h { h with st := (h.st.clone (h.coll i).stream).1 } := (Fix.refl h).coll rfl (Nat.le_refl _)
        exact fixed (Fix.alloc (h1 := { h with st := (h.st.clone (h.coll i).stream).1 }.set i _) (f.set_ne hi _) g.n _)
  | discard v =>
    simp only [Heap.step] at hr
    cases e : Heap.discard h.n h v with
    | error e' => rw [e] at hr; cases hr
    | ok x => rw [e] at hr; cases hr; exact fixed (discard_fix _ e)
  | copy v =>
    simp only [Heap.step] at hr
    cases v with
    | scalar s => cases hr; exact fixed (.refl h)
    | coll k i =>
      unfold copy at hr
      simp only at hr
      split at hr
      · cases hr
      · simp only [bind, Except.bind] at hr
        split at hr
        · cases hr
        · rename_i e
          cases hr
          have := readToEnd_coll _ e
          exact fixed (((Fix.refl h).set_done i).coll this.1 (Nat.le_of_eq this.2.symm))
  | detach t =>
    simp only [Heap.step, detach] at hr
    cases e : h.st.detach t with
    | none => rw [e] at hr; cases hr
    | some x => rw [e] at hr; cases hr; exact fixed ((Fix.refl h).coll rfl (Nat.le_refl _))
  | data ts =>
    cases hr
    have f : Fix h { h with st := (h.st.fromData ts).1 } := (Fix.refl h).coll rfl (Nat.le_refl _)
    exact fixed (Fix.alloc (h1 := { h with st := (h.st.fromData ts).1 }) f g.n _)
  | reject p q =>
    simp only [Heap.step, Heap.reject] at hr
    split at hr
    · cases hr; exact fixed (.refl h)
    · cases hr; exact fixed ((Fix.refl h).coll rfl (Nat.le_refl _))

end Heap

/-- What a program does before it reads `b` does not depend on `b`. -/
theorem Reach.swap {ε α : Type} {a b : List Token} (hb : b ≠ []) {p p' : IProg ε α} {h1 : Heap} {o : List ε}
    (hr : Reach Heap.mach p (Heap.init (a ++ b)) o p' h1) (hs : b <:+ h1.st.src) (c : List Token) :
    ∃ h1', Reach Heap.mach p (Heap.init (a ++ c)) o p' h1' ∧ c <:+ h1'.st.src := by
  obtain ⟨h1', e1, e2⟩ := Heap.reach_same (c := c) (fun e => absurd e hb) hr (Streams.ok_init _) (Heap.hsame_init a) hs.length_le
  obtain ⟨a', -, e3⟩ := e2.st.src
  exact ⟨h1', e1, a', e3.symm⟩

end Verif
