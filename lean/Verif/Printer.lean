import Verif.IterProg
import Verif.Bytes

/-!
# The printer

`/repo/internal/format`: what the encoders tell the printer, what the printer writes, and what a
writer that may fail accepts of it.
-/

namespace Verif

/-- Go: the methods of the interface `Printer`, `/repo/internal/format/printer.go:29-35`. -/
inductive POp
  | bytes (b : Bytes)
  | newLine
  | indent
  | dedent
  | reset
deriving DecidableEq, Repr

/-- What a `DefaultPrinter` does to its `io.Writer` and its `Flusher`. -/
inductive WEv
  | write (b : Bytes)
  | flush
deriving DecidableEq, Repr

/-- Go: `DefaultPrinter`, `/repo/internal/format/printer.go:73-78`, without the current level.
`flusher`: the field `Flusher` is not nil.  Simplification: `int` is unbounded. -/
structure PrinterCfg where
  indentSize : Int
  flusher : Bool

namespace PrinterCfg

/-- Go: `writeNL`, `/repo/internal/format/printer.go:82-90`. -/
def writeNL (c : PrinterCfg) : List WEv := .write [0x0A] :: if c.flusher then [.flush] else []

/-- Go: `NewLine`, `/repo/internal/format/printer.go:94-105`. -/
def newLine (c : PrinterCfg) (lvl : Int) : List WEv :=
  if c.indentSize < 0 then []
  else c.writeNL ++ List.replicate (c.indentSize * lvl).toNat (.write [0x20])

/-- One method call: what happens and the level afterwards.
Go: `Indent`, `Dedent`, `Reset`, `PrintBytes`, `/repo/internal/format/printer.go:107-131`. -/
def exec (c : PrinterCfg) (lvl : Int) : POp → List WEv × Int
  | .bytes b => ([.write b], lvl)
  | .newLine => (c.newLine lvl, lvl)
  | .indent => (c.newLine (lvl + 1), lvl + 1)
  | .dedent => (c.newLine (lvl - 1), lvl - 1)
  | .reset => (c.writeNL, 0)

/-- Several method calls. -/
def execAll (c : PrinterCfg) : Int → List POp → List WEv × Int
  | lvl, [] => ([], lvl)
  | lvl, o :: l => ((c.exec lvl o).1 ++ (c.execAll (c.exec lvl o).2 l).1, (c.execAll (c.exec lvl o).2 l).2)

end PrinterCfg

/-- The bytes of an event. -/
def WEv.payload : WEv → Bytes
  | .write b => b
  | .flush => []

/-- The bytes of a sequence of writes. -/
def evBytes (l : List WEv) : Bytes := l.flatMap WEv.payload

/-- An error returned by a writer or flusher. -/
abbrev WErr := Nat

/-- A writer together with the flusher: given what was done before, it accepts an event (`none`) or
fails with an error after having taken the given number of bytes. -/
def Sink := List WEv → WEv → Option (Nat × WErr)

/-- What a writer takes of a sequence of events, starting with a history; and the history, unless it
failed.  The printer stops at the first failure (it panics with a `*PrinterError`). -/
def Sink.feed (w : Sink) : List WEv → List WEv → Bytes × Except WErr (List WEv)
  | h, [] => ([], .ok h)
  | h, ev :: l =>
    match w h ev with
    | none => (ev.payload ++ (w.feed (h ++ [ev]) l).1, (w.feed (h ++ [ev]) l).2)
    | some (k, e) => (ev.payload.take k, .error e)

/-- How a consumer can end. -/
inductive COut (α : Type)
  | ok (a : α)
  /-- `CatchPrinterError` has turned the panic of the printer into an error that wraps the error of
  the writer, `/repo/internal/format/printer.go:40-63`, `:136-138` -/
  | printerError (e : WErr)
  | stop (e : Stop)
deriving DecidableEq, Repr

/-- Run a program that prints, with a printer and a writer: the bytes the writer has taken, and the
outcome. -/
def IProg.runW {σ α : Type} (m : IMach σ) (c : PrinterCfg) (w : Sink) :
    IProg POp α → σ → Int → List WEv → Bytes × COut α
  | .ret a, _, _, _ => ([], .ok a)
  | .fail e, _, _, _ => ([], .stop e)
  | .emit o k, s, lvl, h =>
    match w.feed h (c.exec lvl o).1 with
    | (b, .error e) => (b, .printerError e)
    | (b, .ok h') => (b ++ (k.runW m c w s (c.exec lvl o).2 h').1, (k.runW m c w s (c.exec lvl o).2 h').2)
  | .op o k, s, lvl, h =>
    match m.step s o with
    | .error e => ([], .stop e)
    | .ok (s', r) => (k r).runW m c w s' lvl h

theorem Sink.feed_append (w : Sink) : ∀ (l l' h : List WEv), w.feed h (l ++ l') =
    match w.feed h l with
    | (b, .error e) => (b, .error e)
    | (b, .ok h') => (b ++ (w.feed h' l').1, (w.feed h' l').2) := by
  intro l
  induction l with
  | nil => intro l' h; simp [feed]
  | cons e l ih =>
    intro l' h
    simp only [List.cons_append, feed]
    cases w h e with
    | some k => rfl
    | none =>
      simp only [ih]
      cases hf : w.feed (h ++ [e]) l with
      | mk b r => cases r <;> simp

/-- Printing to a writer is taking a prefix of what the program prints. -/
theorem IProg.runW_eq {σ α : Type} (m : IMach σ) (c : PrinterCfg) (w : Sink) (p : IProg POp α) :
    ∀ (s : σ) (lvl : Int) (h : List WEv),
      p.runW m c w s lvl h =
        match w.feed h (c.execAll lvl (p.run m s).1).1 with
        | (b, .error e) => (b, .printerError e)
        | (b, .ok _) => (b, match (p.run m s).2 with | .ok (_, a) => .ok a | .error e => .stop e) := by
  induction p with
  | ret a => intro s lvl h; simp [runW, PrinterCfg.execAll, Sink.feed]
  | fail e => intro s lvl h; simp [runW, PrinterCfg.execAll, Sink.feed]
  | emit o k ih =>
    intro s lvl h
    simp only [runW, run, PrinterCfg.execAll, Sink.feed_append]
    cases hf : w.feed h (c.exec lvl o).1 with
    | mk b r =>
      cases r with
      | error e => simp
      | ok h' =>
        simp only [ih]
        cases hg : w.feed h' (c.execAll (c.exec lvl o).2 (k.run m s).1).1 with
        | mk b' r' => cases r' <;> simp
  | op o k ih =>
    intro s lvl h
    simp only [runW, run]
    cases m.step s o with
    | error e => simp [PrinterCfg.execAll, Sink.feed]
    | ok r => exact ih _ _ _ _

theorem PrinterCfg.execAll_append (c : PrinterCfg) : ∀ (l l' : List POp) (lvl : Int),
    c.execAll lvl (l ++ l') = ((c.execAll lvl l).1 ++ (c.execAll (c.execAll lvl l).2 l').1,
      (c.execAll (c.execAll lvl l).2 l').2) := by
  intro l
  induction l with
  | nil => intro l' lvl; simp [execAll]
  | cons o l ih => intro l' lvl; simp [execAll, ih]

@[simp] theorem evBytes_nil : evBytes [] = [] := rfl
@[simp] theorem evBytes_append (l l' : List WEv) : evBytes (l ++ l') = evBytes l ++ evBytes l' := by
  simp [evBytes]

/-- A writer that takes everything. -/
theorem Sink.feed_all {w : Sink} (hw : ∀ h e, w h e = none) : ∀ (l h : List WEv),
    w.feed h l = (evBytes l, .ok (h ++ l)) := by
  intro l
  induction l with
  | nil => intro h; simp [feed]
  | cons e l ih =>
    intro h
    simp only [feed, hw, ih]
    simp [evBytes]

/-- What a writer takes: everything if all events are accepted; otherwise everything up to the first
event that is not accepted, a part of this event, and its error. -/
theorem Sink.feed_spec (w : Sink) : ∀ (l h : List WEv),
    (w.feed h l = (evBytes l, .ok (h ++ l)) ∧ ∀ l1 e l2, l = l1 ++ e :: l2 → w (h ++ l1) e = none) ∨
    ∃ l1 e l2 k err, l = l1 ++ e :: l2 ∧ w (h ++ l1) e = some (k, err) ∧
      (∀ m1 x m2, l1 = m1 ++ x :: m2 → w (h ++ m1) x = none) ∧
      w.feed h l = (evBytes l1 ++ e.payload.take k, .error err) := by
  intro l
  induction l with
  | nil => intro h; exact .inl ⟨by simp [feed], by simp⟩
  | cons e l ih =>
    intro h
    simp only [feed]
    cases hw : w h e with
    | none =>
      simp only
      rcases ih (h ++ [e]) with ⟨h1, h2⟩ | ⟨l1, x, l2, k, err, h1, h2, h3, h4⟩
      · refine .inl ⟨by rw [h1]; simp [evBytes], ?_⟩
        intro l1 y l2 he
        cases l1 with
        | nil => simp at he; rw [← he.1]; simpa using hw
        | cons z l1 =>
          simp at he
          have := h2 l1 y l2 he.2
          rw [← he.1]
          simpa using this
      · refine .inr ⟨e :: l1, x, l2, k, err, by simp [h1], by simpa using h2, ?_, by rw [h4]; simp [evBytes]⟩
        intro m1 y m2 he
        cases m1 with
        | nil => simp at he; rw [← he.1]; simpa using hw
        | cons z m1 =>
          simp at he
          have := h3 m1 y m2 he.2
          rw [← he.1]
          simpa using this
    | some k => exact .inr ⟨[], e, l, k.1, k.2, by simp, by simpa using hw, by simp, by simp⟩

end Verif
