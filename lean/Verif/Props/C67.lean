import Verif.FailingOutput
import Verif.ProgramLemmas

/-!
# C67: a standard output that fails
-/

set_option linter.unusedSimpArgs false

namespace Verif.Cmd
open Verif.Rfc8259 Verif.Json

/-- The encoder of the model with a file that never fails. -/
theorem sink_encoder {o : Options} {sink : List Token → Bytes × COut Unit} (h : chooseSink o = some sink) (out : List Token) :
    ∃ enc, Pipeline.encoder o (out.length + 1) = some enc ∧
      sink out = enc.runW Heap.mach (Pipeline.printer o) Enc.goodSink (Heap.init out) 0 [] ∧
      ∀ ops x, enc.run Heap.mach (Heap.init out) = (ops, .ok x) → ops = [] ∨ ∃ l, ops = l ++ [.reset] := by
  unfold chooseSink at h
  simp only at h
  unfold Pipeline.encoder
  split at h
  · rename_i hf
    rw [if_pos hf]
    cases h
    exact ⟨_, rfl, rfl, fun ops x h => forEach_reset _ _ h⟩
  · rename_i hf
    rw [if_neg hf]
    split at h
    · rename_i hf'
      rw [if_pos hf']
      cases h
      exact ⟨_, rfl, rfl, fun ops x h => forEach_reset _ _ h⟩
    · cases h

theorem prepare_sink {o : Options} {r : Reader} {source ts sink} (h : prepare o r = some (source, ts, sink)) : chooseSink o = some sink := by
  unfold prepare at h
  cases h1 : chooseFormat o.inFormat r with
  | none => simp [h1] at h
  | some a =>
    cases h2 : chooseSource o.csvHeader a.1 a.2 with
    | none => simp [h1, h2] at h
    | some b =>
      cases h3 : parseArgs o.args with
      | none => simp [h1, h2, h3] at h
      | some c =>
        cases h4 : chooseSink o with
        | none => simp [h1, h2, h3, h4] at h
        | some d => simp [h1, h2, h3, h4] at h; simp [h.2.2]

/-- What a run with a file that may fail has to do with the run with a file that does not. -/
structure Runs (dev : Device) (o : Options) (sink : List Token → Bytes × COut Unit) (out : List Token) (b : BState) (res : COut Unit) : Prop where
  ok : b.Ok dev (sink out).1
  same : b.err = none → res = (sink out).2
  error : ∀ e, res = .printerError e ↔ b.err = some e
  empty : o.terminal = true → res = .ok () → b.buf = []

theorem runs {dev : Device} {o : Options} {sink : List Token → Bytes × COut Unit} (h : chooseSink o = some sink) (out : List Token) :
    ∃ enc, Pipeline.encoder o (out.length + 1) = some enc ∧
      ∃ b res, enc.runB Heap.mach (Pipeline.printer o) dev (Heap.init out) 0 {} = (b, res) ∧ Runs dev o sink out b res := by
  obtain ⟨enc, he, hs, hr⟩ := sink_encoder h out
  refine ⟨enc, he, _, _, rfl, ?_⟩
  rw [IProg.runW_eq, Sink.feed_all (w := Enc.goodSink) fun _ _ => rfl] at hs
  rw [IProg.runB_eq _ _ _ _ _ _ _ rfl]
  generalize hx : enc.run Heap.mach (Heap.init out) = x at hs hr ⊢
  obtain ⟨ops, x⟩ := x
  simp only at hs ⊢
  have hok : BState.Ok dev (sink out).1 (BState.feed dev {} ((Pipeline.printer o).execAll 0 ops).1) := by
    rw [hs]; exact BState.Ok.new.feed
  generalize hb : BState.feed dev {} ((Pipeline.printer o).execAll 0 ops).1 = b at hok
  refine ⟨hok, fun h' => by simp only [h', hs]; rcases x with _ | ⟨_, _⟩ <;> rfl, fun e => ?_, fun ht h' => ?_⟩
  · cases b.err with
    | some e' => simp
    | none =>
      simp only
      split <;> simp
  · cases hbe : b.err with
    | some e' => rw [hbe] at h'; cases h'
    | none =>
      rw [hbe] at h'
      cases x with
      | error e => cases h'
      | ok x =>
        rcases hr ops x rfl with rfl | ⟨l, rfl⟩
        · rw [← hb]; rfl
        · have e1 : ((Pipeline.printer o).execAll 0 (l ++ [.reset])).1 = (((Pipeline.printer o).execAll 0 l).1 ++ [.write [0x0A]]) ++ [.flush] := by
            have : (Pipeline.printer o).flusher = true := ht
            rw [PrinterCfg.execAll_append]
            simp [PrinterCfg.execAll, PrinterCfg.exec, PrinterCfg.writeNL, this]
          rw [e1] at hb
          rw [← hb] at hbe ⊢
          exact BState.feed_flush _ _ hbe

/-- The two models side by side. -/
theorem MainOn.runs {dev : Device} {env : Env} {o : Options} {r : Reader} {x : Result} (h : MainOn dev env o r x) :
    (prepare o r = none ∧ x = ⟨[], 1, true⟩) ∨ ∃ source ts sink toks bad out b res, prepare o r = some (source, ts, sink) ∧ source.tokens env = some (toks, bad) ∧
      DoAll env o.strict ts toks out ∧ Runs dev o sink out b res ∧
      ((res = .ok () ∧ x = ⟨(b.flush dev).out, 0, bad⟩) ∨ (res = .stop .panic ∧ x = ⟨(b.flush dev).out, 0, true⟩) ∨
        (res = .printerError EPIPE ∧ ∃ rep, (rep = true → bad = true) ∧ x = ⟨b.out, 0, rep⟩) ∨
        ∃ e, res = .printerError e ∧ e ≠ EPIPE ∧ x = ⟨b.out, 1, true⟩) := by
  have key : ∀ {source ts sink out enc b res}, prepare o r = some (source, ts, sink) → Pipeline.encoder o (out.length + 1) = some enc →
      enc.runB Heap.mach (Pipeline.printer o) dev (Heap.init out) 0 {} = (b, res) → Runs dev o sink out b res := by
    intro source ts sink out enc b res h1 h2 h3
    obtain ⟨enc', h2', b', res', h3', hr⟩ := Cmd.runs (dev := dev) (prepare_sink h1) out
    rw [h2] at h2'; cases h2'
    rw [h3] at h3'; cases h3'
    exact hr
  have stuck : ∀ (b : BState), b.err ≠ none → b.flush dev = b := by
    intro b hb
    unfold BState.flush
    rw [if_pos (by cases h : b.err with | none => exact absurd h hb | some e => rfl)]
  cases h with
  | fatal h => exact .inl ⟨h, rfl⟩
  | run h1 h2 h3 h4 h5 => exact .inr ⟨_, _, _, _, _, _, _, _, h1, h2, h3, key h1 h4 h5, .inl ⟨rfl, rfl⟩⟩
  | panic h1 h2 h3 h4 h5 => exact .inr ⟨_, _, _, _, _, _, _, _, h1, h2, h3, key h1 h4 h5, .inr (.inl ⟨rfl, rfl⟩)⟩
  | closed h1 h2 h3 h4 h5 h6 =>
    have hk := key h1 h4 h5
    refine .inr ⟨_, _, _, _, _, _, _, _, h1, h2, h3, hk, .inr (.inr (.inl ⟨rfl, _, h6, ?_⟩))⟩
    rw [stuck _ (by rw [(hk.error _).1 rfl]; simp)]
  | error h1 h2 h3 h4 h5 h6 =>
    exact .inr ⟨_, _, _, _, _, _, _, _, h1, h2, h3, key h1 h4 h5, .inr (.inr (.inr ⟨_, rfl, h6, rfl⟩))⟩

theorem Main.runs {env : Env} {o : Options} {r : Reader} {y : Result} (h : Main env o r y) {source ts sink toks bad out}
    (h1 : prepare o r = some (source, ts, sink)) (h2 : source.tokens env = some (toks, bad)) (h3 : DoAll env o.strict ts toks out) :
    (sink out).1 = y.stdout ∧ y.status = 0 ∧ (((sink out).2 = .ok () ∧ y.reported = bad) ∨ ((sink out).2 = .stop .panic ∧ y.reported = true)) := by
  cases h with
  | fatal h => rw [h] at h1; cases h1
  | run k1 k2 k3 k4 =>
    rw [h1] at k1; cases k1
    rw [h2] at k2; cases k2
    cases h3.unique k3
    rw [k4]; exact ⟨rfl, rfl, .inl ⟨rfl, rfl⟩⟩
  | panic k1 k2 k3 k4 =>
    rw [h1] at k1; cases k1
    rw [h2] at k2; cases k2
    cases h3.unique k3
    rw [k4]; exact ⟨rfl, rfl, .inr ⟨rfl, rfl⟩⟩

/-- If the standard output does not fail, the program does what it does according to C55-C66. -/
theorem C67_good {dev : Device} (hd : ∀ h p, dev h p = none) {env : Env} {o : Options} {r : Reader} {x : Result} : MainOn dev env o r x ↔ Main env o r x := by
  have all : ∀ {a : Bytes} {b : BState}, b.Ok dev a → b.err = none → (b.flush dev).out = a := by
    intro a b h hb
    have h1 : (b.flush dev).err = none := BState.good_none hd hb .flush
    have h2 := h.flush.all h1
    rwa [BState.flush_buf h1, List.append_nil] at h2
  have never : ∀ {o sink out b res}, Runs dev o sink out b res → b.err = none := by
    intro o sink out b res h
    cases hb : b.err with
    | none => rfl
    | some e => obtain ⟨_, _, _, h'⟩ := h.ok.failed e hb; rw [hd] at h'; cases h'
  constructor
  · intro h
    rcases h.runs with ⟨h1, rfl⟩ | ⟨source, ts, sink, toks, bad, out, b, res, h1, h2, h3, h4, h5⟩
    · exact .fatal h1
    · have hb := never h4
      have hs := h4.same hb
      rcases h5 with ⟨rfl, rfl⟩ | ⟨rfl, rfl⟩ | ⟨rfl, _⟩ | ⟨e, rfl, _⟩
      · exact .run h1 h2 h3 (Prod.ext (all h4.ok hb).symm hs.symm)
      · exact .panic h1 h2 h3 (Prod.ext (all h4.ok hb).symm hs.symm)
      · rw [(h4.error _).1 rfl] at hb; cases hb
      · rw [(h4.error _).1 rfl] at hb; cases hb
  · intro h
    cases h with
    | fatal h1 => exact .fatal h1
    | @run _ _ _ _ _ out _ h1 h2 h3 h4 =>
      obtain ⟨enc, k1, b, res, k2, k3⟩ := Cmd.runs (dev := dev) (prepare_sink h1) out
      have hb := never k3
      have hs := k3.same hb
      rw [h4] at hs
      have := all k3.ok hb
      rw [h4] at this
      simp only at this hs
      rw [← this]
      exact .run h1 h2 h3 k1 (hs ▸ k2)
    | @panic _ _ _ _ _ out _ h1 h2 h3 h4 =>
      obtain ⟨enc, k1, b, res, k2, k3⟩ := Cmd.runs (dev := dev) (prepare_sink h1) out
      have hb := never k3
      have hs := k3.same hb
      rw [h4] at hs
      have := all k3.ok hb
      rw [h4] at this
      simp only at this hs
      rw [← this]
      exact .panic h1 h2 h3 k1 (hs ▸ k2)

/-- However the standard output fails, the program ends; what was taken is a prefix of the output of a run without failures; the status is 1 only if
something was reported; and if the only failure is that the other side of a pipe was closed, the program does not complain. -/
theorem C67_prefix {dev : Device} {env : Env} {o : Options} {r : Reader} {y : Result} (hy : Main env o r y) :
    (∃ x, MainOn dev env o r x) ∧ ∀ x, MainOn dev env o r x → x.stdout <+: y.stdout ∧ (x.status = 1 → x.reported = true) ∧
      ((∀ h p k e, dev h p = some (k, e) → e = EPIPE) → x.status = y.status ∧ (x.reported = true → y.reported = true)) := by
  constructor
  · have key : ∀ {source ts sink toks bad out bytes}, prepare o r = some (source, ts, sink) → source.tokens env = some (toks, bad) →
        DoAll env o.strict ts toks out → (sink out = (bytes, .ok ()) ∨ sink out = (bytes, .stop .panic)) → ∃ x, MainOn dev env o r x := by
      intro source ts sink toks bad out bytes h1 h2 h3 h4
      obtain ⟨enc, k1, b, res, k2, k3⟩ := Cmd.runs (dev := dev) (prepare_sink h1) out
      cases hb : b.err with
      | some e =>
        have := (k3.error e).2 hb
        subst this
        by_cases he : e = EPIPE
        · subst he; exact ⟨_, .closed (rep := bad) h1 h2 h3 k1 k2 id⟩
        · exact ⟨_, .error h1 h2 h3 k1 k2 he⟩
      | none =>
        have hs := k3.same hb
        rcases h4 with h4 | h4
        · rw [h4] at hs; subst hs; exact ⟨_, .run h1 h2 h3 k1 k2⟩
        · rw [h4] at hs; subst hs; exact ⟨_, .panic h1 h2 h3 k1 k2⟩
    cases hy with
    | fatal h => exact ⟨_, .fatal h⟩
    | run h1 h2 h3 h4 => exact key h1 h2 h3 (.inl h4)
    | panic h1 h2 h3 h4 => exact key h1 h2 h3 (.inr h4)
  · intro x hx
    rcases hx.runs with ⟨h1, rfl⟩ | ⟨source, ts, sink, toks, bad, out, b, res, h1, h2, h3, h4, h5⟩
    · cases hy with
      | fatal _ => simp
      | run h1' _ _ _ => rw [h1] at h1'; cases h1'
      | panic h1' _ _ _ => rw [h1] at h1'; cases h1'
    · obtain ⟨e1, e2, e3⟩ := hy.runs h1 h2 h3
      rw [← e1, e2]
      rcases h5 with ⟨rfl, rfl⟩ | ⟨rfl, rfl⟩ | ⟨rfl, rep, hrep, rfl⟩ | ⟨e, rfl, he, rfl⟩
      · refine ⟨h4.ok.flush.pre, by simp, fun _ => ⟨rfl, fun hbad => ?_⟩⟩
        rcases e3 with ⟨_, e3⟩ | ⟨_, e3⟩
        · rw [e3]; exact hbad
        · exact e3
      · refine ⟨h4.ok.flush.pre, by simp, fun _ => ⟨rfl, fun _ => ?_⟩⟩
        have hb : b.err = none := by
          cases hb : b.err with
          | none => rfl
          | some e => cases (h4.error e).2 hb
        have := h4.same hb
        rcases e3 with ⟨e3, _⟩ | ⟨_, e3⟩
        · rw [e3] at this; cases this
        · exact e3
      · refine ⟨h4.ok.pre, by simp, fun _ => ⟨rfl, fun h' => ?_⟩⟩
        rcases e3 with ⟨_, e3⟩ | ⟨_, e3⟩
        · rw [e3]; exact hrep h'
        · exact e3
      · refine ⟨h4.ok.pre, by simp, fun hp => ?_⟩
        obtain ⟨h, p, k, hd⟩ := h4.ok.failed e ((h4.error _).1 rfl)
        exact absurd (hp _ _ _ _ hd) he

/-- If the program does not fail and nobody closed a pipe, at most the contents of the buffer are lost.  (So if more than 4096 bytes are not taken by the
standard output, the status is 1 and something is reported.) -/
theorem C67_partial {dev : Device} (hd : ∀ h p k, dev h p ≠ some (k, EPIPE)) {env : Env} {o : Options} {r : Reader} {x y : Result}
    (hx : MainOn dev env o r x) (hy : Main env o r y) (hs : x.status = 0) : ∃ lost, y.stdout = x.stdout ++ lost ∧ lost.length ≤ 4096 := by
  rcases hx.runs with ⟨h1, rfl⟩ | ⟨source, ts, sink, toks, bad, out, b, res, h1, h2, h3, h4, h5⟩
  · cases hs
  · obtain ⟨e1, -, -⟩ := hy.runs h1 h2 h3
    have key : b.err = none → ∃ lost, y.stdout = (b.flush dev).out ++ lost ∧ lost.length ≤ 4096 := by
      intro hb
      have ha := h4.ok.all hb
      have hz : b.buf.length ≤ 4096 := h4.ok.size
      rw [← e1, ← ha]
      unfold BState.flush
      simp only [hb, Option.isSome_none, Bool.false_eq_true, if_false]
      split
      · exact ⟨b.buf, rfl, hz⟩
      · split
        · exact ⟨[], by simp, by simp⟩
        · rename_i k e _
          exact ⟨b.buf.drop k, by simp, by simp; omega⟩
    have none : (∀ e, res ≠ .printerError e) → b.err = none := by
      intro hne
      cases hb : b.err with
      | none => rfl
      | some e => exact absurd ((h4.error e).2 hb) (hne e)
    rcases h5 with ⟨rfl, rfl⟩ | ⟨rfl, rfl⟩ | ⟨rfl, rep, hrep, rfl⟩ | ⟨e, rfl, he, rfl⟩
    · exact key (none fun e he => nomatch he)
    · exact key (none fun e he => nomatch he)
    · obtain ⟨h, p, k, hd'⟩ := h4.ok.failed _ ((h4.error _).1 rfl)
      exact absurd hd' (hd h p k)
    · cases hs

/-- On a terminal nothing is lost silently: if the program ends with status 0 and reports nothing, then all output was taken. -/
theorem C67_terminal_partial {dev : Device} (hd : ∀ h p k, dev h p ≠ some (k, EPIPE)) {env : Env} {o : Options} (ht : o.terminal = true) {r : Reader}
    {x y : Result} (hx : MainOn dev env o r x) (hy : Main env o r y) (hs : x.status = 0) (hr : x.reported = false) : x.stdout = y.stdout := by
  rcases hx.runs with ⟨h1, rfl⟩ | ⟨source, ts, sink, toks, bad, out, b, res, h1, h2, h3, h4, h5⟩
  · cases hs
  · obtain ⟨e1, -, -⟩ := hy.runs h1 h2 h3
    rcases h5 with ⟨rfl, rfl⟩ | ⟨rfl, rfl⟩ | ⟨rfl, rep, hrep, rfl⟩ | ⟨e, rfl, he, rfl⟩
    · have hbuf := h4.empty ht rfl
      have hb : b.err = none := by
        cases hb : b.err with
        | none => rfl
        | some e => cases (h4.error e).2 hb
      have ha := h4.ok.all hb
      rw [← e1, ← ha]
      simp [BState.flush, hb, hbuf]
    · cases hr
    · obtain ⟨h, p, k, hd'⟩ := h4.ok.failed _ ((h4.error _).1 rfl)
      exact absurd hd' (hd h p k)
    · cases hs

/-- A file on a disk that is full. -/
def fullDisk : Device := fun _ _ => some (0, 28)

/-- False: on a full disk (`jp > file`), nothing is written, the status is 0, and nothing is reported; without the failure `[1]` would have been written. -/
theorem C67_violated : MainOn fullDisk noEnv {} (atOnce b%"[1]") ⟨[], 0, false⟩ ∧ Main noEnv {} (atOnce b%"[1]") ⟨b%"[1]\n", 0, false⟩ := by
  obtain ⟨r', h2, h3, h4, h1⟩ := prepare_json (o := {}) (atOnce_json rfl b%"1]" (.inr rfl)) (fair_atOnce _) (ts := []) rfl rfl
  have ht : (Source.json r').tokens noEnv = some (streamToks [.arr [num b%"1"] false], false) := by
    rw [tokens_fair h4, h2, h3]; decide +kernel
  refine ⟨?_, .run h1 ht .nil (by decide +kernel)⟩
  refine MainOn.run (b := { buf := b%"[1]\n" }) h1 ht .nil rfl ?_
  decide +kernel

/-- Non-vacuity: on a terminal that takes nothing the failure is reported. -/
example : MainOn fullDisk noEnv { terminal := true } (atOnce b%"[1]") ⟨[], 1, true⟩ := by
  obtain ⟨r', h2, h3, h4, h1⟩ := prepare_json (o := { terminal := true }) (atOnce_json rfl b%"1]" (.inr rfl)) (fair_atOnce _) (ts := []) rfl rfl
  have ht : (Source.json r').tokens noEnv = some (streamToks [.arr [num b%"1"] false], false) := by
    rw [tokens_fair h4, h2, h3]; decide +kernel
  refine MainOn.error (b := { writes := [b%"[1]\n"], buf := b%"[1]\n", err := some 28 }) (e := 28) h1 ht .nil rfl ?_ (by decide)
  decide +kernel

/-- Non-vacuity: a buffer that is passed on in part, and a pipe that was closed. -/
example : (BState.feed (fun _ _ => some (3, 28)) { buf := List.replicate 4095 0x20 } [.write b%"ab", .write b%"c"]).out = [0x20, 0x20, 0x20] ∧
    (BState.feed (fun h _ => if h = [] then none else some (1, EPIPE)) {} [.write b%"ab", .flush, .write b%"cd", .flush, .write b%"e"]).out = b%"abc" ∧
    (BState.feed (fun h _ => if h = [] then none else some (1, EPIPE)) {} [.write b%"ab", .flush, .write b%"cd", .flush, .write b%"e"]).err = some EPIPE := by
  decide +kernel

end Verif.Cmd
