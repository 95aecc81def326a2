import Verif.Pipeline
import Verif.Confluence
import Verif.Transforms

/-!
# C33: pipelines are deterministic
-/

set_option linter.unusedSimpArgs false
set_option linter.unusedVariables false

namespace Verif.Pipeline

universe u

/-- Whatever the schedule: if the goroutines, one after the other, do something (`Evals`; they need not read their whole input), then the pipeline makes
at most `n` steps, what the sink writes is at each time the beginning of what it has to write, a step is possible until the sink has ended, and
then all is written. -/
theorem C33_schedules {T : Type} {α : Type u} {act : α → Act T α} {all : Bool} {l : List α} {sink : α} {out : List T} {n : Nat}
    (h : Evals act all [] (l ++ [sink]) out n) {k : Nat} {c : List α × List T} (hs : Steps act k (l ++ [sink], []) c) :
    k ≤ n ∧ c.2 <+: out ∧ ∃ l' sink', c.1 = l' ++ [sink'] ∧ (act sink' ≠ .halt → ∃ c', Step act c c') ∧ (act sink' = .halt → c.2 = out) := by
  obtain ⟨o, m, h1, h2, h3⟩ := steps_evals hs h
  simp only [List.nil_append] at h2
  refine ⟨by omega, ⟨o, h2⟩, ?_⟩
  obtain ⟨l', sink', e⟩ : ∃ l' sink', c.1 = l' ++ [sink'] := by
    have hne : c.1 ≠ [] := by
      have : ∀ {k : Nat} {c c' : List α × List T}, Steps act k c c' → c.1 ≠ [] → c'.1 ≠ [] := by
        intro k c c' h
        induction h with
        | zero => exact id
        | succ h _ ih =>
          intro _
          apply ih
          cases h <;> simp
      exact this hs (by simp)
    exact ⟨_, _, (List.dropLast_concat_getLast hne).symm⟩
  refine ⟨l', sink', e, fun hh => ?_, fun hh => ?_⟩
  · obtain ⟨c', hc⟩ := progress l' sink' c.2 hh
    rw [← e] at hc
    exact ⟨c', hc⟩
  · rw [e] at h1
    obtain ⟨mid, _, _, -, h5, -⟩ := evals_append.1 h1
    cases h5 with
    | cons h6 h7 =>
      cases h7
      obtain ⟨-, rfl, -⟩ := eval_halt hh h6
      simpa using h2

/-- Of any goroutines, also such that never end or read input that never ends: two schedules of a pipeline can be continued to the same state, with the
same number of steps in all; so what one of them has written begins with what the other has written, or the other way round. -/
theorem C33_confluent {T : Type} {α : Type u} {act : α → Act T α} {c a b : List α × List T} {m n : Nat} (ha : Steps act m c a) (hb : Steps act n c b) :
    (∃ d m' n', Steps act m' a d ∧ Steps act n' b d ∧ m + m' = n + n') ∧ (a.2 <+: b.2 ∨ b.2 <+: a.2) := by
  obtain ⟨d, m', n', h1, h2, h3⟩ := confluent ha hb
  exact ⟨⟨d, m', n', h1, h2, h3⟩, List.prefix_or_prefix_of_prefix (steps_out h1) (steps_out h2)⟩

/-- If one schedule comes to an end, then all do: each can be continued to the same state, with as many steps in all. -/
theorem C33_end {T : Type} {α : Type u} {act : α → Act T α} {c a b : List α × List T} {m n : Nat} (ha : Steps act m c a) (hend : ∀ a', ¬ Step act a a')
    (hb : Steps act n c b) : n ≤ m ∧ Steps act (m - n) b a ∧ b.2 <+: a.2 := by
  obtain ⟨d, m', n', h1, h2, h3⟩ := confluent ha hb
  cases h1 with
  | zero =>
    have e : m - n = n' := by omega
    exact ⟨by omega, e ▸ h2, steps_out h2⟩
  | succ h _ => exact absurd h (hend _)

/-- A pipeline of a source of `ts`, stages that compute functions and read their whole input, and a sink that reads to the end: whatever the schedule
the number of steps is bounded, the sink never writes anything but the beginning of what it writes for the composition of the functions
applied to `ts`, and when no step is possible all of it is written and all goroutines have ended. -/
theorem C33_deterministic {T : Type} {source sink : Proc T} {stages : List (Proc T × (List T → List T))} {ts out : List T}
    (hsource : ∃ n, Eval Proc.step true source [] ts n)
    (hstages : ∀ p ∈ stages, ∀ input, ∃ n, Eval Proc.step true p.1 input (p.2 input) n)
    (hsink : ∃ n, Eval Proc.step true sink (stages.foldl (fun ts p => p.2 ts) ts) out n) :
    ∃ N, ∀ k c, Steps Proc.step k (source :: stages.map (·.1) ++ [sink], []) c →
      k ≤ N ∧ c.2 <+: out ∧ ((∀ c', ¬ Step Proc.step c c') → c.2 = out ∧ ∀ p ∈ c.1, p.step = .halt) := by
  have hst : ∀ (stages : List (Proc T × (List T → List T))) (ts : List T), (∀ p ∈ stages, ∀ input, ∃ n, Eval Proc.step true p.1 input (p.2 input) n) →
      ∃ n, Evals Proc.step true ts (stages.map (·.1)) (stages.foldl (fun ts p => p.2 ts) ts) n := by
    intro stages
    induction stages with
    | nil => exact fun ts _ => ⟨0, .nil⟩
    | cons p l ih =>
      intro ts h
      obtain ⟨n, h1⟩ := h p (by simp) ts
      obtain ⟨m, h2⟩ := ih (p.2 ts) fun q hq => h q (by simp [hq])
      exact ⟨_, .cons h1 h2⟩
  obtain ⟨n0, h0⟩ := hsource
  obtain ⟨n1, h1⟩ := hst stages ts hstages
  obtain ⟨n2, h2⟩ := hsink
  have he : Evals Proc.step true [] (source :: stages.map (·.1) ++ [sink]) out (n0 + n1 + (n2 + 0)) :=
    evals_append.2 ⟨_, _, _, .cons h0 h1, .cons h2 .nil, rfl⟩
  refine ⟨n0 + n1 + (n2 + 0), fun k c hs => ?_⟩
  obtain ⟨i1, i2, l', sink', e, i3, i4⟩ := C33_schedules he hs
  refine ⟨i1, i2, fun hstuck => ?_⟩
  have hh : sink'.step = .halt := by
    apply Classical.byContradiction
    intro hh
    obtain ⟨c', hc⟩ := i3 hh
    exact hstuck c' hc
  refine ⟨i4 hh, ?_⟩
  obtain ⟨o, m, h3, -, -⟩ := steps_evals hs he
  have := stuck_all (act := Proc.step) c.1 [] c.2 (output := o) (n := m) (by simpa using hstuck) (fun e => absurd rfl e)
    (fun _ s hs => by rw [e] at hs; simp at hs; rw [← hs]; exact hh) (by simpa using h3)
  exact this

/-! ## The stages that loop over tokens -/

/-- Go: the transforms of `/repo/transform/builtin.go` that loop over tokens. -/
inductive Builtin
  | depth (m : Int)
  | join
  | trace

/-- Go: `MaxDepthFilter.Transform`, `/repo/transform/builtin.go:34-52`; `JoinStream.Transform`, lines 85-91; `TraceStream.Transform`, lines 98-102. -/
def Builtin.proc : Builtin → Proc Token
  | .depth m => ⟨loopNext (fun (depth : Int) t =>
      let postIncr : Int := if t.isStart then 1 else 0
      let depth := if t.isEnd then depth - 1 else depth
      (depth + postIncr, (if depth ≤ m then [t] else []) ++ (if depth = m ∧ postIncr > 0 then [.elision] else []))) (fun _ => []), .emit [] 0⟩
  | .join => ⟨loopNext (fun () t => ((), [t])) (fun _ => [.endArr]), .emit [.startArr] ()⟩
  | .trace => ⟨loopNext (fun () _ => ((), [])) (fun _ => []), .emit [] ()⟩

/-- What the transforms do (C30, C31). -/
def Builtin.fn : Builtin → List Token → List Token
  | .depth m => maxDepthFilter m
  | .join => joinStream
  | .trace => traceStream

theorem builtin_eval (b : Builtin) (input : List Token) : ∃ n, Eval Proc.step true b.proc input (b.fn input) n := by
  cases b with
  | depth m =>
    obtain ⟨n, h⟩ := loop_eval (step := fun (depth : Int) (t : Token) =>
      let postIncr : Int := if t.isStart then 1 else 0
      let depth := if t.isEnd then depth - 1 else depth
      (depth + postIncr, (if depth ≤ m then [t] else []) ++ (if depth = m ∧ postIncr > 0 then [.elision] else []))) (fin := fun _ => []) [] input 0
    refine ⟨n, ?_⟩
    have e : ∀ (ts : List Token) (d : Int), loopOut (fun (depth : Int) (t : Token) =>
        let postIncr : Int := if t.isStart then 1 else 0
        let depth := if t.isEnd then depth - 1 else depth
        (depth + postIncr, (if depth ≤ m then [t] else []) ++ (if depth = m ∧ postIncr > 0 then [.elision] else []))) (fun _ => []) d ts =
        maxDepthLoop m d ts := by
      intro ts
      induction ts with
      | nil => intro d; rfl
      | cons t ts ih =>
        intro d
        simp only [loopOut, maxDepthLoop, ih, List.append_assoc]
    rw [e] at h
    exact h
  | join =>
    obtain ⟨n, h⟩ := loop_eval (step := fun () (t : Token) => ((), [t])) (fin := fun _ => [.endArr]) [.startArr] input ()
    refine ⟨n, ?_⟩
    have e : ∀ ts : List Token, loopOut (fun () (t : Token) => ((), [t])) (fun _ => [.endArr]) () ts = ts ++ [.endArr] := by
      intro ts
      induction ts with
      | nil => rfl
      | cons t ts ih => simp [loopOut, ih]
    rw [e] at h
    exact h
  | trace =>
    obtain ⟨n, h⟩ := loop_eval (step := fun () (_ : Token) => ((), [])) (fin := fun _ => []) [] input ()
    refine ⟨n, ?_⟩
    have e : ∀ ts : List Token, loopOut (fun () (_ : Token) => ((), ([] : List Token))) (fun _ => []) () ts = [] := by
      intro ts
      induction ts with
      | nil => rfl
      | cons t ts ih => simp [loopOut, ih]
    rw [e] at h
    exact h

/-- A source that sends `ts`. -/
def sender (ts : List Token) : Proc Token := ⟨loopNext (fun () t => ((), [])) (fun _ => []), .finish ts⟩

/-- A sink that writes down what it receives. -/
def collector : Proc Token := ⟨loopNext (fun () t => ((), [t])) (fun _ => []), .emit [] ()⟩

theorem collector_eval (input : List Token) : ∃ n, Eval Proc.step true collector input input n := by
  obtain ⟨n, h⟩ := loop_eval (step := fun () (t : Token) => ((), [t])) (fin := fun _ => []) [] input ()
  refine ⟨n, ?_⟩
  have e : ∀ ts : List Token, loopOut (fun () (t : Token) => ((), [t])) (fun _ => []) () ts = ts := by
    intro ts
    induction ts with
    | nil => rfl
    | cons t ts ih => simp [loopOut, ih]
  rw [e] at h
  exact h

/-- Pipelines of any transforms that loop over tokens. -/
theorem C33_builtin (ts : List Token) (bs : List Builtin) :
    ∃ N, ∀ k c, Steps Proc.step k (sender ts :: bs.map Builtin.proc ++ [collector], []) c →
      k ≤ N ∧ c.2 <+: bs.foldl (fun ts b => b.fn ts) ts ∧
      ((∀ c', ¬ Step Proc.step c c') → c.2 = bs.foldl (fun ts b => b.fn ts) ts ∧ ∀ p ∈ c.1, p.step = .halt) := by
  have := C33_deterministic (source := sender ts) (sink := collector) (stages := bs.map fun b => (b.proc, b.fn)) (ts := ts)
    (out := bs.foldl (fun ts b => b.fn ts) ts) ⟨_, finish_eval ts⟩
    (fun p hp input => by obtain ⟨b, -, rfl⟩ := List.mem_map.1 hp; exact builtin_eval b input)
    (by rw [List.foldl_map]; exact collector_eval _)
  simpa [List.map_map, Function.comp_def] using this

section NonVacuity

/-- A source that never ends: there are schedules of any length, to which the theorems above apply. -/
example : ∃ act : Nat → Act Nat Nat, ∀ n, ∃ c, Steps act n ([0], []) c ∧ c.2 = List.range n := by
  refine ⟨fun s => .put s (s + 1), fun n => ?_⟩
  have h : ∀ n k out, Steps (fun s => Act.put s (s + 1)) n ([k], out) ([k + n], out ++ List.range' k n) := by
    intro n
    induction n with
    | zero => intro k out; simp; exact .zero
    | succ n ih =>
      intro k out
      have := ih (k + 1) (out ++ [k])
      rw [show k + 1 + n = k + (n + 1) by omega] at this
      refine .succ (.last (l := []) rfl) ?_
      simpa [List.range'_succ] using this
  have := h n 0 []
  exact ⟨_, this, by simp [List.range_eq_range']⟩

/-- `[[]]` limited to depth 0 and joined. -/
example : [Builtin.depth 0, .join].foldl (fun ts b => b.fn ts) [.startArr, .startArr, .endArr, .endArr] =
    [.startArr, .startArr, .elision, .endArr, .endArr] := by decide

/-- There are different schedules: at first the source can send, or `join` can send. -/
example : ∃ c c', Step Proc.step (sender [.startArr] :: [Builtin.depth 0, .join].map Builtin.proc ++ [collector], []) c ∧
    Step Proc.step (sender [.startArr] :: [Builtin.depth 0, .join].map Builtin.proc ++ [collector], []) c' ∧ c.1.length = 4 ∧ c'.1.length = 4 :=
  ⟨_, _, .pass (l := []) (s := sender [.startArr]) rfl rfl, .pass (l := [sender [.startArr], (Builtin.depth 0).proc]) (s := Builtin.join.proc) rfl rfl,
    rfl, rfl⟩

end NonVacuity

end Verif.Pipeline
