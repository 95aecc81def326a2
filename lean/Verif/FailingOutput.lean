import Verif.ProgramGo
import Verif.Bufio

/-!
# A standard output that fails

The program writes to the standard output through a `bufio.Writer` (`/repo/cmd/jp/main.go:209-210`).  Here the standard output may fail, and what the buffer,
the printer, the encoder and `main` make of it is modelled.
-/

set_option linter.unusedSimpArgs false

namespace Verif

/-- The file behind the standard output: given what it was asked to write before, it takes the bytes (`none`), or fails with an error after having taken the
given number of them.  (`Write` of `os.File` gives an error whenever it does not take all.) -/
abbrev Device := List Bytes → Bytes → Option (Nat × WErr)

/-- Go: `bufio.Writer`, with its sticky error; `writes` is what the file was asked to write, `out` is what it took. -/
structure BState where
  writes : List Bytes := []
  out : Bytes := []
  buf : Bytes := []
  err : Option WErr := none
deriving DecidableEq, Repr

namespace BState

/-- Bytes are passed on directly, `b.wr.Write(p)` in `Write` of Go's `bufio.Writer`. -/
def direct (dev : Device) (s : BState) (p : Bytes) : BState :=
  match dev s.writes p with
  | none => { s with writes := s.writes ++ [p], out := s.out ++ p }
  | some (k, e) => { s with writes := s.writes ++ [p], out := s.out ++ p.take k, err := some e }

/-- Go: `Flush` of `bufio.Writer`: it does nothing after a failure; if the file fails, the rest stays in the buffer.  Called by
`/repo/internal/format/printer.go:88` and `/repo/cmd/jp/main.go:210`. -/
def flush (dev : Device) (s : BState) : BState :=
  if s.err.isSome then s
  else if s.buf = [] then s
  else match dev s.writes s.buf with
    | none => { s with writes := s.writes ++ [s.buf], out := s.out ++ s.buf, buf := [] }
    | some (k, e) => { writes := s.writes ++ [s.buf], out := s.out ++ s.buf.take k, buf := s.buf.drop k, err := some e }

/-- Go: `Write` of `bufio.Writer`, called by `/repo/internal/format/printer.go:86`, `:103`, `:130`: see `Bufio.write`.  After a failure nothing happens any
more. -/
def write (dev : Device) (s : BState) (p : Bytes) : BState :=
  if s.err.isSome then s
  else if p.length ≤ Bufio.size - s.buf.length then { s with buf := s.buf ++ p }
  else if s.buf.length = 0 then direct dev s p
  else
    let s' := flush dev { s with buf := s.buf ++ p.take (Bufio.size - s.buf.length) }
    let p' := p.drop (Bufio.size - s.buf.length)
    if s'.err.isSome then s'
    else if p'.length ≤ Bufio.size then { s' with buf := p' }
    else direct dev s' p'

/-- What a printer does to it; both methods return the sticky error. -/
def event (dev : Device) (s : BState) : WEv → BState
  | .write p => write dev s p
  | .flush => flush dev s

/-- Several events; the printer panics at the first error (`/repo/internal/format/printer.go:85-93`, `:102-107`, `:129-134`). -/
def feed (dev : Device) : BState → List WEv → BState
  | s, [] => s
  | s, e :: l => if (event dev s e).err.isSome then event dev s e else feed dev (event dev s e) l

end BState

/-- Run a program that prints through a buffer: the buffer at the end, and the outcome.  `CatchPrinterError`, `/repo/internal/format/printer.go:39-48`, makes
an error of the panic of the printer. -/
def IProg.runB {σ α : Type} (m : IMach σ) (c : PrinterCfg) (dev : Device) : IProg POp α → σ → Int → BState → BState × COut α
  | .ret a, _, _, b => (b, .ok a)
  | .fail e, _, _, b => (b, .stop e)
  | .emit o k, s, lvl, b =>
    match (BState.feed dev b (c.exec lvl o).1).err with
    | some e => (BState.feed dev b (c.exec lvl o).1, .printerError e)
    | none => k.runB m c dev s (c.exec lvl o).2 (BState.feed dev b (c.exec lvl o).1)
  | .op o k, s, lvl, b =>
    match m.step s o with
    | .error e => (b, .stop e)
    | .ok (s', r) => (k r).runB m c dev s' lvl b

namespace Cmd

/-- Go: `syscall.EPIPE` on Linux. -/
def EPIPE : WErr := 32

/-- Go: `main` again, `/repo/cmd/jp/main.go:33-256`, with a standard output that may fail.  When the encoder returns without an error, `main` returns: the
buffer is flushed (line 210), and an error of this is ignored.  The same happens after a panic of the encoder.  If the encoder returns the error of a
closed pipe, `main` returns silently (lines 249-253); the decoder may then have reported an error or not.  With another error the program is ended at once, with status 1
(line 254).  Simplification: the decoder and the transformers are not interrupted. -/
inductive MainOn (dev : Device) (env : Env) (o : Options) (r : Reader) : Result → Prop
  | fatal : prepare o r = none → MainOn dev env o r ⟨[], 1, true⟩
  | run {source ts sink toks bad out enc b} : prepare o r = some (source, ts, sink) → source.tokens env = some (toks, bad) →
      DoAll env o.strict ts toks out → Pipeline.encoder o (out.length + 1) = some enc →
      enc.runB Heap.mach (Pipeline.printer o) dev (Heap.init out) 0 {} = (b, .ok ()) → MainOn dev env o r ⟨(b.flush dev).out, 0, bad⟩
  | panic {source ts sink toks bad out enc b} : prepare o r = some (source, ts, sink) → source.tokens env = some (toks, bad) →
      DoAll env o.strict ts toks out → Pipeline.encoder o (out.length + 1) = some enc →
      enc.runB Heap.mach (Pipeline.printer o) dev (Heap.init out) 0 {} = (b, .stop .panic) → MainOn dev env o r ⟨(b.flush dev).out, 0, true⟩
  | closed {source ts sink toks bad out enc b rep} : prepare o r = some (source, ts, sink) → source.tokens env = some (toks, bad) →
      DoAll env o.strict ts toks out → Pipeline.encoder o (out.length + 1) = some enc →
      enc.runB Heap.mach (Pipeline.printer o) dev (Heap.init out) 0 {} = (b, .printerError EPIPE) → (rep = true → bad = true) →
      MainOn dev env o r ⟨(b.flush dev).out, 0, rep⟩
  | error {source ts sink toks bad out enc b e} : prepare o r = some (source, ts, sink) → source.tokens env = some (toks, bad) →
      DoAll env o.strict ts toks out → Pipeline.encoder o (out.length + 1) = some enc →
      enc.runB Heap.mach (Pipeline.printer o) dev (Heap.init out) 0 {} = (b, .printerError e) → e ≠ EPIPE →
      MainOn dev env o r ⟨b.out, 1, true⟩

end Cmd

namespace BState

variable {dev : Device}

/-- The buffer after the bytes `all` have been written, up to a failure. -/
structure Ok (dev : Device) (all : Bytes) (s : BState) : Prop where
  pre : s.out <+: all
  all : s.err = none → s.out ++ s.buf = all
  size : s.buf.length ≤ Bufio.size
  failed : ∀ e, s.err = some e → ∃ h p k, dev h p = some (k, e)

theorem Ok.flush {all : Bytes} {s : BState} (h : Ok dev all s) : Ok dev all (s.flush dev) := by
  unfold BState.flush
  split
  · exact h
  · rename_i he
    have he : s.err = none := by simpa using he
    split
    · exact h
    · split
      · rename_i hd
        exact ⟨by simp [h.all he], fun _ => by simp [h.all he], by simp, fun e h' => by simp [he] at h'⟩
      · rename_i k e hd
        refine ⟨?_, fun h' => (nomatch h'), ?_, fun e' h' => ?_⟩
        · rw [← h.all he]; exact (List.prefix_append_right_inj _).2 (List.take_prefix _ _)
        · have := h.size; simp; omega
        · simp at h'; subst h'; exact ⟨_, _, _, hd⟩

theorem flush_buf {s : BState} (h : (s.flush dev).err = none) : (s.flush dev).buf = [] := by
  unfold BState.flush at h ⊢
  split at h
  · rename_i he; rw [h] at he; simp at he
  · rename_i he
    rw [if_neg he]
    split
    · assumption
    · rename_i hb
      rw [if_neg hb] at h
      split at h
      · rename_i hd; simp [hd]
      · cases h

theorem Ok.direct {all p : Bytes} {s : BState} (h : Ok dev all s) (he : s.err = none) (hb : s.buf = []) : Ok dev (all ++ p) (s.direct dev p) := by
  have ha := h.all he
  rw [hb, List.append_nil] at ha
  unfold BState.direct
  split
  · refine ⟨by simp [ha], fun _ => by simp [ha, hb], by simp [hb], fun e h' => by simp [he] at h'⟩
  · rename_i k e hd
    refine ⟨?_, fun h' => (nomatch h'), by simp [hb], fun e' h' => ?_⟩
    · rw [ha]; exact (List.prefix_append_right_inj _).2 (List.take_prefix _ _)
    · simp at h'; subst h'; exact ⟨_, _, _, hd⟩

theorem Ok.more {all : Bytes} {s : BState} (h : Ok dev all s) (he : s.err ≠ none) (p : Bytes) : Ok dev (all ++ p) s :=
  ⟨h.pre.trans (List.prefix_append _ _), fun h' => absurd h' he, h.size, h.failed⟩

theorem Ok.write {all : Bytes} {s : BState} (h : Ok dev all s) (p : Bytes) : Ok dev (all ++ p) (s.write dev p) := by
  unfold BState.write
  split
  · rename_i he; exact h.more (by intro h'; simp [h'] at he) p
  · rename_i he
    have he : s.err = none := by simpa using he
    have ha := h.all he
    have hz := h.size
    split
    · rename_i hl
      refine ⟨?_, fun _ => ?_, ?_, h.failed⟩
      · exact h.pre.trans (List.prefix_append _ _)
      · simp only [← ha, List.append_assoc]
      · simp only [List.length_append]; omega
    · split
      · rename_i hl hb
        exact h.direct he (List.length_eq_zero_iff.1 hb)
      · rename_i hl hb
        have h1 : Ok dev (all ++ p.take (Bufio.size - s.buf.length)) { s with buf := s.buf ++ p.take (Bufio.size - s.buf.length) } := by
          refine ⟨?_, fun _ => ?_, ?_, h.failed⟩
          · exact h.pre.trans (List.prefix_append _ _)
          · simp only [← ha, List.append_assoc]
          · simp only [List.length_append, List.length_take]; omega
        have h2 := h1.flush
        have e : all ++ p = all ++ p.take (Bufio.size - s.buf.length) ++ p.drop (Bufio.size - s.buf.length) := by
          rw [List.append_assoc, List.take_append_drop]
        simp only
        generalize hs : BState.flush dev { s with buf := s.buf ++ p.take (Bufio.size - s.buf.length) } = s' at h2 ⊢
        rw [e]
        split
        · rename_i he'; exact h2.more (by intro h'; simp [h'] at he') _
        · rename_i he'
          have he' : s'.err = none := by simpa using he'
          have hb' : s'.buf = [] := by rw [← hs] at he' ⊢; exact flush_buf he'
          split
          · have ha' := h2.all he'
            rw [hb', List.append_nil] at ha'
            refine ⟨h2.pre.trans (List.prefix_append _ _), fun _ => by simp only [ha'], by assumption, h2.failed⟩
          · exact h2.direct he' hb'

theorem Ok.event {all : Bytes} {s : BState} (h : Ok dev all s) (e : WEv) : Ok dev (all ++ e.payload) (s.event dev e) := by
  cases e with
  | write p => exact h.write p
  | flush => rw [WEv.payload, List.append_nil]; exact h.flush

theorem Ok.feed {l : List WEv} : ∀ {all : Bytes} {s : BState}, Ok dev all s → Ok dev (all ++ evBytes l) (s.feed dev l) := by
  induction l with
  | nil => intro all s h; simpa [BState.feed] using h
  | cons e l ih =>
    intro all s h
    have e1 : all ++ evBytes (e :: l) = (all ++ e.payload) ++ evBytes l := by simp [evBytes]
    rw [e1]
    unfold BState.feed
    split
    · rename_i he; exact (h.event e).more (by intro h'; simp [h'] at he) _
    · exact ih (h.event e)

theorem Ok.new : Ok dev [] {} := ⟨by simp, fun _ => rfl, by simp, fun _ h => (nomatch h)⟩

theorem feed_append (l l' : List WEv) : ∀ s : BState, s.feed dev (l ++ l') = if (s.feed dev l).err.isSome ∧ l ≠ [] then s.feed dev l else (s.feed dev l).feed dev l' := by
  induction l with
  | nil => intro s; simp [feed]
  | cons e l ih =>
    intro s
    simp only [List.cons_append, feed]
    by_cases he : (event dev s e).err.isSome = true
    · simp [he]
    · simp only [he, ih, if_false, Bool.false_eq_true]
      by_cases hl : l = []
      · subst hl; simp [feed, he]
      · simp [hl]

/-- A file that takes everything. -/
theorem good_none (hd : ∀ h p, dev h p = none) {s : BState} (hs : s.err = none) (e : WEv) : (s.event dev e).err = none := by
  have hf : ∀ s : BState, s.err = none → (s.flush dev).err = none := by
    intro s hs; unfold flush; simp [hs, hd]; split <;> simp [hs]
  have hdir : ∀ (s : BState) (p), s.err = none → (s.direct dev p).err = none := by
    intro s p hs; unfold direct; simp only [hd, hs]
  cases e with
  | flush => exact hf s hs
  | write p =>
    show (write dev s p).err = none
    unfold write
    split
    · exact hs
    · split
      · exact hs
      · split
        · exact hdir _ _ hs
        · simp only
          split
          · exact hf _ hs
          · split
            · exact hf _ hs
            · exact hdir _ _ (hf _ hs)

theorem good_feed (hd : ∀ h p, dev h p = none) : ∀ (l : List WEv) {s : BState}, s.err = none → (s.feed dev l).err = none := by
  intro l
  induction l with
  | nil => intro s h; exact h
  | cons e l ih =>
    intro s h
    unfold feed
    rw [if_neg (by simp [good_none hd h])]
    exact ih (good_none hd h e)

/-- After a flush the buffer is empty. -/
theorem feed_flush (l : List WEv) (s : BState) (h : (s.feed dev (l ++ [.flush])).err = none) : (s.feed dev (l ++ [.flush])).buf = [] := by
  rw [feed_append] at h ⊢
  split at h
  · rename_i he; simp [h] at he
  · rename_i he
    rw [if_neg he]
    have e1 : ∀ t : BState, t.feed dev [.flush] = t.flush dev := by intro t; unfold feed; split <;> rfl
    rw [e1] at h ⊢
    exact flush_buf h

end BState

/-- Printing through a buffer, for a program whose calls are known. -/
theorem IProg.runB_eq {σ α : Type} (m : IMach σ) (c : PrinterCfg) (dev : Device) (p : IProg POp α) :
    ∀ (s : σ) (lvl : Int) (b : BState), b.err = none →
      p.runB m c dev s lvl b =
        (b.feed dev (c.execAll lvl (p.run m s).1).1, match (b.feed dev (c.execAll lvl (p.run m s).1).1).err with
          | some e => .printerError e
          | none => match (p.run m s).2 with | .ok (_, a) => .ok a | .error e => .stop e) := by
  induction p with
  | ret a => intro s lvl b hb; simp [runB, PrinterCfg.execAll, BState.feed, hb]
  | fail e => intro s lvl b hb; simp [runB, PrinterCfg.execAll, BState.feed, hb]
  | emit o k ih =>
    intro s lvl b hb
    simp only [runB, run, PrinterCfg.execAll, BState.feed_append]
    cases hf : (b.feed dev (c.exec lvl o).1).err with
    | some e =>
      have : (c.exec lvl o).1 ≠ [] := by intro h; rw [h] at hf; simp [BState.feed, hb] at hf
      simp [hf, this]
    | none => simp [ih _ _ _ hf, hf]
  | op o k ih =>
    intro s lvl b hb
    simp only [runB, run]
    cases m.step s o with
    | error e => simp [PrinterCfg.execAll, BState.feed, hb]
    | ok r => exact ih _ _ _ _ hb

/-- The calls of an encoder that returns without an error end with `Reset`, if there are any. -/
theorem forEach_reset {q : Val → IProg POp Unit} {i : Nat} : ∀ (f : Nat) (s : Heap) {ops : List POp} {x : Heap × Unit},
    (forEach (fun (_ : Unit) _ x => (q x).bind fun _ => IProg.put .reset) i f ()).run Heap.mach s = (ops, .ok x) → ops = [] ∨ ∃ l, ops = l ++ [.reset] := by
  intro f
  induction f with
  | zero => intro s ops x h; simp [forEach, IProg.run] at h
  | succ f ih =>
    intro s ops x h
    simp only [forEach, IProg.run] at h
    split at h
    · simp at h
    · rename_i s1 more _
      split at h
      · simp only [IProg.run] at h
        split at h
        · simp at h
        · rename_i s2 kv _
          split at h
          · simp [IProg.run] at h
          · rename_i x' _
            rw [IProg.run_bind, IProg.run_bind] at h
            generalize (q x').run Heap.mach s2 = y at h
            obtain ⟨o1, y⟩ := y
            cases y with
            | error e => simp [seqRun] at h
            | ok a =>
              simp only [seqRun, IProg.run_put] at h
              generalize hz : (forEach _ _ _ _).run Heap.mach a.1 = z at h
              obtain ⟨o2, z⟩ := z
              simp only [Prod.mk.injEq] at h
              obtain ⟨h1, rfl⟩ := h
              rcases ih _ hz with rfl | ⟨l, rfl⟩
              · exact .inr ⟨o1, by rw [← h1]; simp⟩
              · exact .inr ⟨o1 ++ [.reset] ++ l, by rw [← h1]; simp⟩
      · simp [IProg.run] at h; exact .inl h.1

end Verif
