import Verif.Printer

/-!
# The buffer before the standard output

The program writes through a `bufio.Writer` (`/repo/cmd/jp/main.go:209-210`), which it flushes after every line if the standard output is a terminal
(`:223-226`) and otherwise only at the end.
-/

namespace Verif

namespace Bufio

/-- The size of the buffer, `defaultBufSize` of Go's package `bufio`, which `bufio.NewWriter` (`/repo/cmd/jp/main.go:209`) uses. -/
def size : Nat := 4096

/-- A `bufio.Writer` of which the writer never fails: what has been passed on, and what is in the buffer. -/
structure State where
  out : Bytes
  buf : Bytes
deriving DecidableEq, Repr

/-- `bufio.NewWriter`. -/
def new : State := ⟨[], []⟩

/-- `Flush`. -/
def flush (s : State) : State := ⟨s.out ++ s.buf, []⟩

/-- `Write` of Go's `bufio.Writer`: as long as the bytes do not fit, those that do are added to the buffer and the buffer is passed on; if it is empty the
bytes are passed on directly.  `write` is called by `/repo/internal/format/printer.go:83`, `:100`, `:127`. -/
def write (s : State) (p : Bytes) : State :=
  if p.length ≤ size - s.buf.length then ⟨s.out, s.buf ++ p⟩
  else if s.buf.length = 0 then ⟨s.out ++ p, []⟩
  else
    let p' := p.drop (size - s.buf.length)
    let out := s.out ++ s.buf ++ p.take (size - s.buf.length)
    if p'.length ≤ size then ⟨out, p'⟩ else ⟨out ++ p', []⟩

/-- What a printer does to it. -/
def event (s : State) : WEv → State
  | .write p => write s p
  | .flush => flush s

/-- Several events. -/
def run (s : State) (l : List WEv) : State := l.foldl event s

/-- Nothing is lost or reordered. -/
theorem write_all (s : State) (p : Bytes) : (write s p).out ++ (write s p).buf = s.out ++ s.buf ++ p := by
  unfold write
  split
  · simp
  · split
    · rename_i h; simp [List.length_eq_zero_iff.1 h]
    · simp only
      split <;> simp

theorem write_size (s : State) (p : Bytes) (h : s.buf.length ≤ size) : (write s p).buf.length ≤ size := by
  unfold write
  split
  · simp; omega
  · split
    · simp
    · simp only
      split
      · assumption
      · simp

theorem event_all (s : State) (e : WEv) : (event s e).out ++ (event s e).buf = s.out ++ s.buf ++ e.payload := by
  cases e with
  | write p => exact write_all s p
  | flush => simp [event, flush, WEv.payload]

theorem run_all (l : List WEv) : ∀ s : State, (run s l).out ++ (run s l).buf = s.out ++ s.buf ++ evBytes l := by
  induction l with
  | nil => intro s; simp [run, evBytes]
  | cons e l ih =>
    intro s
    show (run (event s e) l).out ++ (run (event s e) l).buf = _
    rw [ih, event_all]
    simp [evBytes]

theorem run_size (l : List WEv) : ∀ s : State, s.buf.length ≤ size → (run s l).buf.length ≤ size := by
  induction l with
  | nil => intro s h; exact h
  | cons e l ih =>
    intro s h
    refine ih _ ?_
    cases e with
    | write p => exact write_size s p h
    | flush => exact Nat.zero_le _

theorem run_append (s : State) (l l' : List WEv) : run s (l ++ l') = run (run s l) l' := List.foldl_append

/-- After a flush all has been passed on. -/
theorem run_flush (s : State) (l : List WEv) : (run s (l ++ [.flush])).out = s.out ++ s.buf ++ evBytes l := by
  rw [run_append]
  show (run s l).out ++ (run s l).buf = _
  rw [run_all]

/-- Without flushes nothing is passed on before the buffer is full. -/
theorem run_small (l : List WEv) (h : .flush ∉ l) : ∀ s : State, (s.buf ++ evBytes l).length ≤ size → (run s l).out = s.out := by
  induction l with
  | nil => intro s _; rfl
  | cons e l ih =>
    intro s hl
    cases e with
    | flush => exact absurd List.mem_cons_self h
    | write p =>
      show (run (write s p) l).out = _
      have hl : s.buf.length + (p.length + (evBytes l).length) ≤ size := by simpa [evBytes, WEv.payload] using hl
      have e : write s p = ⟨s.out, s.buf ++ p⟩ := by unfold write; rw [if_pos (by omega)]
      rw [e, ih (fun hm => h (List.mem_cons_of_mem _ hm)) _ (by simp; omega)]

end Bufio
end Verif
