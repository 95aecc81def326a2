/-!
# Pipelines of goroutines

A pipeline is a row of goroutines, each connected to the next by an unbuffered channel: a source, stages and a sink.  Goroutines are state machines
that send, receive, compute or have ended.  A step of the pipeline is a step of any goroutine that can make one, so that schedules are the
sequences of steps.
-/

set_option linter.unusedSimpArgs false
set_option linter.unusedVariables false

namespace Verif.Pipeline

universe u

/-- What a goroutine does next.  Go: a send (`ChannelWriteStream.Put`, `/repo/token/tokenstream.go:48-50`), a receive (`ChannelReadStream.Next`, lines
21-23, and `range` over the channel) where `none` is received from a closed channel, a step of its own, or the end of the function, after which
the output channel is closed (`defer close(out)`, `/repo/token/pipeline.go:24,39`).  Panics are left out. -/
inductive Act (T : Type) (α : Type u)
  | put (t : T) (k : α)
  | get (k : Option T → α)
  | tau (k : α)
  | halt

variable {T : Type} {α : Type u}

section
variable (act : α → Act T α)

/-- A step of a pipeline of goroutines (from the source to the sink), with what the sink has written so far.  Go: `StartStream`, `TransformStream` and
`ConsumeStream`, `/repo/token/pipeline.go:20-49`.  Channels are unbuffered (`make(chan Token)`, lines 21, 36): send and receive happen at once.
The source has no input channel; the sink writes instead of sending. -/
inductive Step : List α × List T → List α × List T → Prop
  /-- A goroutine makes a step of its own. -/
  | tau {l s s' r out} : act s = .tau s' → Step (l ++ s :: r, out) (l ++ s' :: r, out)
  /-- Something is sent and received. -/
  | pass {l s t s' u k r out} : act s = .put t s' → act u = .get k → Step (l ++ s :: u :: r, out) (l ++ s' :: k (some t) :: r, out)
  /-- It is seen that the channel is closed. -/
  | close {l s u k r out} : act s = .halt → act u = .get k → Step (l ++ s :: u :: r, out) (l ++ s :: k none :: r, out)
  /-- The source has no input. -/
  | first {s k r out} : act s = .get k → Step (s :: r, out) (k none :: r, out)
  /-- The sink writes. -/
  | last {l s t s' out} : act s = .put t s' → Step (l ++ [s], out) (l ++ [s'], out ++ [t])

/-- `n` steps, in some order: a schedule. -/
inductive Steps : Nat → List α × List T → List α × List T → Prop
  | zero {c} : Steps 0 c c
  | succ {n c c' c''} : Step act c c' → Steps n c' c'' → Steps (n + 1) c c''

/-- What a goroutine does on its own: given `input` and then the end of the input it sends `output`, and ends after `n` steps.  If `all`, it
has read the whole input by then. -/
inductive Eval (all : Bool) : α → List T → List T → Nat → Prop
  | put {s t k input output n} : act s = .put t k → Eval all k input output n → Eval all s input (t :: output) (n + 1)
  | get {s k t input output n} : act s = .get k → Eval all (k (some t)) input output n → Eval all s (t :: input) output (n + 1)
  | eof {s k output n} : act s = .get k → Eval all (k none) [] output n → Eval all s [] output (n + 1)
  | tau {s k input output n} : act s = .tau k → Eval all k input output n → Eval all s input output (n + 1)
  | halt {s input} : act s = .halt → (all = true → input = []) → Eval all s input [] 0

/-- What goroutines do one after the other: the composition. -/
inductive Evals (all : Bool) : List T → List α → List T → Nat → Prop
  | nil {input} : Evals all input [] input 0
  | cons {input s mid r output n m} : Eval act all s input mid n → Evals all mid r output m → Evals all input (s :: r) output (n + m)

end

variable {act : α → Act T α} {all : Bool}

theorem evals_append {input : List T} {l r : List α} {output : List T} {n : Nat} :
    Evals act all input (l ++ r) output n ↔ ∃ mid m k, Evals act all input l mid m ∧ Evals act all mid r output k ∧ n = m + k := by
  induction l generalizing input n with
  | nil =>
    constructor
    · exact fun h => ⟨input, 0, n, .nil, h, by omega⟩
    · rintro ⟨mid, m, k, h, h', rfl⟩
      cases h
      simpa using h'
  | cons s l ih =>
    constructor
    · intro h
      cases h with
      | cons h h' =>
        obtain ⟨mid, m, k, h1, h2, e⟩ := ih.1 h'
        exact ⟨mid, _, k, .cons h h1, h2, by omega⟩
    · rintro ⟨mid, m, k, h, h', rfl⟩
      cases h with
      | cons h h1 =>
        have := Evals.cons h (ih.2 ⟨_, _, _, h1, h', rfl⟩)
        rwa [← Nat.add_assoc] at this

section
variable {s : α} {input output : List T} {n : Nat}

theorem eval_tau {k : α} (h : act s = .tau k) (he : Eval act all s input output n) : ∃ m, n = m + 1 ∧ Eval act all k input output m := by
  cases he with
  | tau h' e => rw [h] at h'; cases h'; exact ⟨_, rfl, e⟩
  | put h' _ => rw [h] at h'; cases h'
  | get h' _ => rw [h] at h'; cases h'
  | eof h' _ => rw [h] at h'; cases h'
  | halt h' _ => rw [h] at h'; cases h'

theorem eval_put {t : T} {k : α} (h : act s = .put t k) (he : Eval act all s input output n) :
    ∃ m o, n = m + 1 ∧ output = t :: o ∧ Eval act all k input o m := by
  cases he with
  | put h' e => rw [h] at h'; cases h'; exact ⟨_, _, rfl, rfl, e⟩
  | tau h' _ => rw [h] at h'; cases h'
  | get h' _ => rw [h] at h'; cases h'
  | eof h' _ => rw [h] at h'; cases h'
  | halt h' _ => rw [h] at h'; cases h'

theorem eval_get {k : Option T → α} (h : act s = .get k) (he : Eval act all s input output n) :
    ∃ m, n = m + 1 ∧ Eval act all (k input.head?) input.tail output m := by
  cases he with
  | get h' e => rw [h] at h'; cases h'; exact ⟨_, rfl, e⟩
  | eof h' e => rw [h] at h'; cases h'; exact ⟨_, rfl, e⟩
  | tau h' _ => rw [h] at h'; cases h'
  | put h' _ => rw [h] at h'; cases h'
  | halt h' _ => rw [h] at h'; cases h'

theorem eval_halt (h : act s = .halt) (he : Eval act all s input output n) : n = 0 ∧ output = [] ∧ (all = true → input = []) := by
  cases he with
  | halt h' e => exact ⟨rfl, rfl, e⟩
  | tau h' _ => rw [h] at h'; cases h'
  | put h' _ => rw [h] at h'; cases h'
  | get h' _ => rw [h] at h'; cases h'
  | eof h' _ => rw [h] at h'; cases h'

end

/-- A step does not change what is written in the end, and steps are used up. -/
theorem step_evals {c c' : List α × List T} (h : Step act c c') {output : List T} {n : Nat} (he : Evals act all [] c.1 output n) :
    ∃ output' n', Evals act all [] c'.1 output' n' ∧ c'.2 ++ output' = c.2 ++ output ∧ n' < n := by
  cases h with
  | @tau l s s' r out h =>
    obtain ⟨mid, m, k, h1, h2, rfl⟩ := evals_append.1 he
    cases h2 with
    | cons h3 h4 =>
      obtain ⟨_, rfl, e⟩ := eval_tau h h3
      exact ⟨_, _, evals_append.2 ⟨_, _, _, h1, .cons e h4, rfl⟩, rfl, by omega⟩
  | @pass l s t s' u k r out h h' =>
    obtain ⟨mid, m, j, h1, h2, rfl⟩ := evals_append.1 he
    cases h2 with
    | cons h3 h4 =>
      obtain ⟨_, _, rfl, rfl, e⟩ := eval_put h h3
      cases h4 with
      | cons h7 h8 =>
        obtain ⟨_, rfl, e'⟩ := eval_get h' h7
        exact ⟨_, _, evals_append.2 ⟨_, _, _, h1, .cons e (.cons e' h8), rfl⟩, rfl, by omega⟩
  | @close l s u k r out h h' =>
    obtain ⟨mid, m, j, h1, h2, rfl⟩ := evals_append.1 he
    cases h2 with
    | cons h3 h4 =>
      obtain ⟨rfl, rfl, e⟩ := eval_halt h h3
      cases h4 with
      | cons h7 h8 =>
        obtain ⟨_, rfl, e'⟩ := eval_get h' h7
        exact ⟨_, _, evals_append.2 ⟨_, _, _, h1, .cons h3 (.cons e' h8), rfl⟩, rfl, by omega⟩
  | @first s k r out h =>
    cases he with
    | cons h3 h4 =>
      obtain ⟨_, rfl, e⟩ := eval_get h h3
      exact ⟨_, _, .cons e h4, rfl, by omega⟩
  | @last l s t s' out h =>
    obtain ⟨mid, m, j, h1, h2, rfl⟩ := evals_append.1 he
    cases h2 with
    | cons h3 h4 =>
      obtain ⟨_, _, rfl, rfl, e⟩ := eval_put h h3
      cases h4
      exact ⟨_, _, evals_append.2 ⟨_, _, _, h1, .cons e .nil, rfl⟩, by simp, by omega⟩

theorem steps_evals {m : Nat} {c c' : List α × List T} (h : Steps act m c c') : ∀ {output : List T} {n : Nat}, Evals act all [] c.1 output n →
    ∃ output' n', Evals act all [] c'.1 output' n' ∧ c'.2 ++ output' = c.2 ++ output ∧ n' + m ≤ n := by
  induction h with
  | zero => exact fun he => ⟨_, _, he, rfl, Nat.le_refl _⟩
  | succ h hs ih =>
    intro output n he
    obtain ⟨o1, n1, h1, h2, h3⟩ := step_evals h he
    obtain ⟨o2, n2, h4, h5, h6⟩ := ih h1
    exact ⟨o2, n2, h4, h5.trans h2, by omega⟩

/-- If the last goroutine of a row waits for input, another one can make a step. -/
theorem waiting_steps : ∀ (l : List α) {s : α} {k : Option T → α} (r : List α) (out : List T), act s = .get k → ∃ c, Step act (l ++ s :: r, out) c := by
  intro l
  induction h : l.length generalizing l with
  | zero =>
    intro s k r out hs
    cases l with
    | nil => exact ⟨_, .first hs⟩
    | cons a l => simp at h
  | succ n ih =>
    intro s k r out hs
    obtain ⟨l', u, rfl⟩ : ∃ l' u, l = l' ++ [u] := ⟨l.dropLast, l.getLast (by intro e; simp [e] at h), (List.dropLast_concat_getLast _).symm⟩
    simp only [List.append_assoc, List.singleton_append]
    cases hu : act u with
    | tau u' => exact ⟨_, .tau hu⟩
    | put t u' => exact ⟨_, .pass hu hs⟩
    | halt => exact ⟨_, .close hu hs⟩
    | get k' => exact ih l' (by simpa using h) (s :: r) out hu

/-- Unless the sink has ended, a step is possible. -/
theorem progress (l : List α) (s : α) (out : List T) (h : act s ≠ .halt) : ∃ c, Step act (l ++ [s], out) c := by
  cases hs : act s with
  | tau s' => exact ⟨_, .tau hs⟩
  | put t s' => exact ⟨_, .last hs⟩
  | halt => exact absurd hs h
  | get k => exact waiting_steps l [] out hs

/-- When goroutines read their whole input, and no step is possible, all have ended. -/
theorem stuck_all : ∀ (l : List α) (r : List α) (out : List T) {output : List T} {n : Nat}, (∀ c, ¬ Step act (l ++ r, out) c) →
    (r ≠ [] → l ≠ [] → ∃ s r', r = s :: r' ∧ act s = .halt) → (r = [] → ∀ s ∈ l.getLast?, act s = .halt) →
    Evals act true [] (l ++ r) output n → ∀ s ∈ l, act s = .halt := by
  intro l
  induction h : l.length generalizing l with
  | zero =>
    intro r out output n hst hr hl he s hs
    cases l with
    | nil => cases hs
    | cons a l => simp at h
  | succ m ih =>
    intro r out output n hst hr hl he
    obtain ⟨l', u, rfl⟩ : ∃ l' u, l = l' ++ [u] := ⟨l.dropLast, l.getLast (by intro e; simp [e] at h), (List.dropLast_concat_getLast _).symm⟩
    simp only [List.append_assoc, List.singleton_append] at hst he
    have hu : act u = .halt := by
      cases hu : act u with
      | halt => rfl
      | tau u' => exact absurd (.tau hu) (hst _)
      | get k => obtain ⟨c, hc⟩ := waiting_steps l' r out hu; exact absurd hc (hst c)
      | put t u' =>
        by_cases hr0 : r = []
        · have := hl hr0 u (by simp)
          rw [hu] at this; cases this
        · obtain ⟨s, r', rfl, hs⟩ := hr hr0 (by simp)
          obtain ⟨mid, a, b, h1, h2, -⟩ := evals_append.1 he
          cases h2 with
          | cons h3 h4 =>
            obtain ⟨_, _, -, rfl, -⟩ := eval_put hu h3
            cases h4 with
            | cons h6 h7 => cases (eval_halt hs h6).2.2 rfl
    intro s hs
    simp only [List.mem_append, List.mem_singleton] at hs
    rcases hs with hs | rfl
    · exact ih l' (by simpa using h) (u :: r) out hst (fun _ _ => ⟨_, _, rfl, hu⟩) (fun e => nomatch e) he s hs
    · exact hu

/-! ## Stages that loop over their input -/

/-- Goroutines with states of any type. -/
structure Proc (T : Type) where
  {σ : Type}
  next : σ → Act T σ
  state : σ

/-- The state of a goroutine that loops over its input (`for item := range in`): what remains to be sent before the next receive, or before the end. -/
inductive Loop (T δ : Type)
  | emit (l : List T) (d : δ)
  | finish (l : List T)

/-- One step of a `Proc`. -/
def Proc.step (p : Proc T) : Act T (Proc T) :=
  match p.next p.state with
  | .put t k => .put t ⟨p.next, k⟩
  | .get k => .get fun x => ⟨p.next, k x⟩
  | .tau k => .tau ⟨p.next, k⟩
  | .halt => .halt

/-- Loops: `step` is the body, `fin` what follows the loop. -/
def loopNext {δ : Type} (step : δ → T → δ × List T) (fin : δ → List T) : Loop T δ → Act T (Loop T δ)
  | .emit (t :: l) d => .put t (.emit l d)
  | .emit [] d => .get fun
    | some t => .emit (step d t).2 (step d t).1
    | none => .finish (fin d)
  | .finish (t :: l) => .put t (.finish l)
  | .finish [] => .halt

/-- What a loop sends for an input. -/
def loopOut {δ : Type} (step : δ → T → δ × List T) (fin : δ → List T) : δ → List T → List T
  | d, [] => fin d
  | d, t :: ts => (step d t).2 ++ loopOut step fin (step d t).1 ts

section
variable {δ : Type} {step : δ → T → δ × List T} {fin : δ → List T}

theorem finish_eval (l : List T) : Eval (T := T) Proc.step all ⟨loopNext step fin, .finish l⟩ [] l l.length := by
  induction l with
  | nil => exact .halt rfl fun _ => rfl
  | cons t l ih => exact .put rfl ih

theorem emit_eval {input output : List T} {n : Nat} (l : List T) (d : δ) (h : Eval (T := T) Proc.step all ⟨loopNext step fin, .emit [] d⟩ input output n) :
    Eval (T := T) Proc.step all ⟨loopNext step fin, .emit l d⟩ input (l ++ output) (l.length + n) := by
  induction l with
  | nil => simpa using h
  | cons t l ih => simpa [Nat.add_right_comm] using Eval.put (act := Proc.step) (s := ⟨loopNext step fin, .emit (t :: l) d⟩) rfl ih

/-- Loops read their whole input. -/
theorem loop_eval (l input : List T) (d : δ) : ∃ n, Eval (T := T) Proc.step true ⟨loopNext step fin, .emit l d⟩ input (l ++ loopOut step fin d input) n := by
  induction input generalizing l d with
  | nil => exact ⟨_, emit_eval l d (.eof rfl (finish_eval (fin d)))⟩
  | cons t ts ih =>
    obtain ⟨n, h⟩ := ih (step d t).2 (step d t).1
    exact ⟨_, emit_eval l d (.get rfl h)⟩

end

end Verif.Pipeline
