import Verif.JsonPure
import Verif.ScannerLemmas

/-!
# The decoder programs do what the direct description says (helper lemmas)
-/

set_option linter.unusedSimpArgs false
set_option linter.unusedVariables false

namespace Verif
open Prog

/-- Specification: the position after the given bytes. -/
def posAfter (done : Bytes) : Pos := done.foldl Pos.adv ⟨0, 0⟩

theorem posAfter_snoc (d : Bytes) (b : Byte) : posAfter (d ++ [b]) = (posAfter d).adv b := by
  simp [posAfter]

theorem Pos.adv_line (p : Pos) (b : Byte) : p.line ≤ (p.adv b).line := by
  unfold Pos.adv
  split
  · simp only; omega
  · split <;> simp

theorem foldl_adv_line (d : Bytes) (p : Pos) : p.line ≤ (d.foldl Pos.adv p).line := by
  induction d generalizing p with
  | nil => simp
  | cons b d ih => exact Int.le_trans (p.adv_line b) (ih _)

theorem posAfter_line (d : Bytes) : 0 ≤ (posAfter d).line := foldl_adv_line d _

namespace Prog

theorem run_bind_ok {σ α β : Type} {M : Machine σ} {p : Prog α} {f : α → Prog β} {s s' : σ} {ts x}
    (h : p.run M s = (ts, .ok x s')) :
    (p.bind f).run M s = (ts ++ ((f x).run M s').1, ((f x).run M s').2) := by
  induction p generalizing s ts with
  | ret a => simp only [run, Prod.mk.injEq, Out.ok.injEq] at h; obtain ⟨rfl, rfl, rfl⟩ := h; rfl
  | fail e => simp [run] at h
  | crash => simp [run] at h
  | oof => simp [run] at h
  | emit t k ih =>
    simp only [run, Prod.mk.injEq] at h
    obtain ⟨rfl, h⟩ := h
    have := ih (s := s) (ts := (k.run M s).1) (by rw [← h])
    simp [Prog.bind, run, this]
  | read k ih => exact ih _ h
  | peek k ih => exact ih _ h
  | skipPeek k ih => exact ih _ h
  | skipRead k ih => exact ih _ h
  | back k ih =>
    simp only [run, Prog.bind] at h ⊢
    cases hb : M.back s with
    | ok s1 => simp only [hb] at h ⊢; exact ih h
    | error b => cases b <;> simp [hb] at h
  | startToken k ih =>
    simp only [run, Prog.bind] at h ⊢
    cases hb : M.startToken s with
    | some s1 => simp only [hb] at h ⊢; exact ih h
    | none => simp [hb] at h
  | endToken k ih =>
    simp only [run, Prog.bind] at h ⊢
    cases hb : M.endToken s with
    | some s1 => simp only [hb] at h ⊢; exact ih _ h
    | none => simp [hb] at h
  | currentPos k ih => exact ih _ h

theorem run_bind_fail {σ α β : Type} {M : Machine σ} {p : Prog α} {f : α → Prog β} {s : σ} {ts e}
    (h : p.run M s = (ts, .fail e)) : (p.bind f).run M s = (ts, .fail e) := by
  induction p generalizing s ts with
  | ret a => simp [run] at h
  | fail e' => simp only [run, Prod.mk.injEq, Out.fail.injEq] at h; obtain ⟨rfl, rfl⟩ := h; rfl
  | crash => simp [run] at h
  | oof => simp [run] at h
  | emit t k ih =>
    simp only [run, Prod.mk.injEq] at h
    obtain ⟨rfl, h⟩ := h
    have := ih (s := s) (ts := (k.run M s).1) (by rw [← h])
    simp [Prog.bind, run, this]
  | read k ih => exact ih _ h
  | peek k ih => exact ih _ h
  | skipPeek k ih => exact ih _ h
  | skipRead k ih => exact ih _ h
  | back k ih =>
    simp only [run, Prog.bind] at h ⊢
    cases hb : M.back s with
    | ok s1 => simp only [hb] at h ⊢; exact ih h
    | error b => cases b <;> simp [hb] at h
  | startToken k ih =>
    simp only [run, Prog.bind] at h ⊢
    cases hb : M.startToken s with
    | some s1 => simp only [hb] at h ⊢; exact ih h
    | none => simp [hb] at h
  | endToken k ih =>
    simp only [run, Prog.bind] at h ⊢
    cases hb : M.endToken s with
    | some s1 => simp only [hb] at h ⊢; exact ih _ h
    | none => simp [hb] at h
  | currentPos k ih => exact ih _ h

theorem run_bind_oof {σ α β : Type} {M : Machine σ} {p : Prog α} {f : α → Prog β} {s : σ} {ts}
    (h : p.run M s = (ts, .oof)) : (p.bind f).run M s = (ts, .oof) := by
  induction p generalizing s ts with
  | ret a => simp [run] at h
  | fail e' => simp [run] at h
  | crash => simp [run] at h
  | oof => simp only [run, Prod.mk.injEq] at h; obtain ⟨rfl, _⟩ := h; rfl
  | emit t k ih =>
    simp only [run, Prod.mk.injEq] at h
    obtain ⟨rfl, h⟩ := h
    have := ih (s := s) (ts := (k.run M s).1) (by rw [← h])
    simp [Prog.bind, run, this]
  | read k ih => exact ih _ h
  | peek k ih => exact ih _ h
  | skipPeek k ih => exact ih _ h
  | skipRead k ih => exact ih _ h
  | back k ih =>
    simp only [run, Prog.bind] at h ⊢
    cases hb : M.back s with
    | ok s1 => simp only [hb] at h ⊢; exact ih h
    | error b => cases b <;> simp [hb] at h
  | startToken k ih =>
    simp only [run, Prog.bind] at h ⊢
    cases hb : M.startToken s with
    | some s1 => simp only [hb] at h ⊢; exact ih h
    | none => simp [hb] at h
  | endToken k ih =>
    simp only [run, Prog.bind] at h ⊢
    cases hb : M.endToken s with
    | some s1 => simp only [hb] at h ⊢; exact ih _ h
    | none => simp [hb] at h
  | currentPos k ih => exact ih _ h

end Prog

/-- The scanner state `a` while scanning `whole`: `r` is left, `tok` is recorded; if `last`, the last
operation was a `Read`. -/
structure At (whole : Bytes) (fin : RErr) (a : AScan) (tok : Option Bytes) (last : Bool) (r : Bytes) : Prop where
  rest : a.rest = r
  fin : a.fin = fin
  tok : a.tok = tok
  eof : a.eofCount = 0
  split : ∃ d, whole = d ++ r ∧ a.pos = posAfter d ∧
    (last = true → ∃ d' b, d = d' ++ [b] ∧ a.hist = some b ∧ a.prevPos = posAfter d')

/-- The error of a program that corresponds to an error of the direct description. -/
def toErr (whole : Bytes) (fin : RErr) : Pure.PErr → Err
  | .io e => .io e
  | .syn msg [] => if fin = .eof then .syn (posAfter whole) msg none else .io fin
  | .syn msg (b :: r) =>
    .syn (posAfter (whole.take (whole.length - (b :: r).length))) msg (if b = eofByte then none else some b)

variable {whole : Bytes} {fin : RErr} {a : AScan} {tok : Option Bytes} {last : Bool} {r : Bytes}

theorem At.weaken (h : At whole fin a tok last r) : At whole fin a tok false r := by
  obtain ⟨d, h1, h2, h3⟩ := h.split
  exact ⟨h.rest, h.fin, h.tok, h.eof, d, h1, h2, by simp⟩

theorem At.pos (h : At whole fin a tok last r) : a.pos = posAfter (whole.take (whole.length - r.length)) := by
  obtain ⟨d, h1, h2, _⟩ := h.split
  rw [h2, h1]; simp

/-- The state after reading a byte. -/
theorem At.take1 {b : Byte} (h : At whole fin a tok last (b :: r)) :
    At whole fin (a.take1 b r) (tok.map (· ++ [b])) true r := by
  obtain ⟨d, h1, h2, _⟩ := h.split
  refine ⟨rfl, h.fin, by simp [AScan.take1, h.tok], h.eof, d ++ [b], by simp [h1], ?_, fun _ => ⟨d, b, rfl, rfl, ?_⟩⟩
  · rw [posAfter_snoc]; simp [AScan.take1, h2]
  · simp [AScan.take1, h2]

theorem At.run_rd {b : Byte} (h : At whole fin a tok last (b :: r)) :
    ∃ a', rd.run AScan.machine a = ([], .ok b a') ∧ At whole fin a' (tok.map (· ++ [b])) true r := by
  refine ⟨a.take1 b r, ?_, h.take1⟩
  simp [rd, run, AScan.machine, AScan.read, h.rest]

theorem At.run_rdIgnore {b : Byte} (h : At whole fin a tok last (b :: r)) :
    ∃ a', rdIgnore.run AScan.machine a = ([], .ok () a') ∧ At whole fin a' (tok.map (· ++ [b])) true r := by
  refine ⟨a.take1 b r, ?_, h.take1⟩
  simp [rdIgnore, run, AScan.machine, AScan.read, h.rest]

theorem At.run_rd_nil (h : At whole fin a tok last []) (hf : fin ≠ .eof) :
    rd.run AScan.machine a = ([], .fail (.io fin)) := by
  simp [rd, run, AScan.machine, AScan.read, h.rest, AScan.atEnd, h.fin, hf]

theorem At.run_back {b : Byte} {t : Option Bytes} (h : At whole fin a (t.map (· ++ [b])) true r)
    (hw : ∃ d, whole = d ++ b :: r) :
    ∃ a', goBack.run AScan.machine a = ([], .ok () a') ∧ At whole fin a' t false (b :: r) := by
  obtain ⟨d, h1, h2, h3⟩ := h.split
  obtain ⟨d', b', h4, h5, h6⟩ := h3 rfl
  obtain ⟨d'', hw⟩ := hw
  have hbb : b' = b ∧ d' = d'' := by
    have : d'' ++ [b] ++ r = d' ++ [b'] ++ r := by rw [← h4, ← h1, hw]; simp
    have := List.append_cancel_right this
    have := List.append_inj' this rfl
    simp at this
    exact ⟨this.2.symm, this.1.symm⟩
  obtain ⟨rfl, rfl⟩ := hbb
  have hl := posAfter_line d'
  have hback : a.back = .ok { a with rest := b' :: r, hist := none, tok := t, pos := posAfter d', prevPos := ⟨-1, (posAfter d').col⟩ } := by
    unfold AScan.back
    have h0 : ¬ (a.prevPos.line < 0 ∨ a.tok = some []) := by
      rintro (h0 | h0)
      · rw [h6] at h0; omega
      · rw [h.tok] at h0; cases t <;> simp at h0
    rw [if_neg h0, h5]
    have he : ¬ a.eofCount > 0 := by have := h.eof; omega
    simp only [he, if_false, h.rest, h6, h.tok]
    cases t <;> simp
  refine ⟨_, by simp only [goBack, run, AScan.machine, hback]; rfl, ?_⟩
  exact ⟨rfl, h.fin, rfl, h.eof, d', hw, rfl, by simp⟩

/-- The end of input has been read (and counted). -/
structure AtEof (whole : Bytes) (a : AScan) (tok : Option Bytes) : Prop where
  rest : a.rest = []
  fin : a.fin = .eof
  tok : a.tok = tok
  eof : a.eofCount = 1
  split : a.pos = posAfter whole ∧ ∃ d' b, whole = d' ++ [b] ∧ a.hist = some b ∧ a.prevPos = posAfter d'

theorem At.run_rd_eof (h : At whole .eof a tok true []) :
    ∃ a', rd.run AScan.machine a = ([], .ok eofByte a') ∧ AtEof whole a' tok := by
  obtain ⟨d, h1, h2, h3⟩ := h.split
  obtain ⟨d', b', h4, h5, h6⟩ := h3 rfl
  refine ⟨{ a with eofCount := a.eofCount + 1 }, ?_, ?_⟩
  · simp [rd, run, AScan.machine, AScan.read, h.rest, AScan.atEnd, h.fin]
  · simp at h1
    subst h1
    exact ⟨h.rest, h.fin, h.tok, by simp [h.eof], h2, d', b', h4, h5, h6⟩

theorem AtEof.run_back {t : Option Bytes} (h : AtEof whole a t) (ht : t ≠ some []) :
    ∃ a', goBack.run AScan.machine a = ([], .ok () a') ∧ At whole .eof a' t true [] := by
  obtain ⟨h1, d', b', h4, h5, h6⟩ := h.split
  have hl := posAfter_line d'
  have hback : a.back = .ok { a with eofCount := 0 } := by
    unfold AScan.back
    have h0 : ¬ (a.prevPos.line < 0 ∨ a.tok = some []) := by
      rintro (h0 | h0)
      · rw [h6] at h0; omega
      · rw [h.tok] at h0; exact ht h0
    rw [if_neg h0, h5]
    simp [h.eof]
  refine ⟨_, by simp only [goBack, run, AScan.machine, hback]; rfl, ?_⟩
  exact ⟨h.rest, h.fin, h.tok, rfl, whole, by simp, h1, fun _ => ⟨d', b', h4, h5, h6⟩⟩

theorem At.run_skPk {s : Bytes} {b : Byte} (h : At whole fin a tok last r) (hr : Pure.ws r = b :: s) :
    ∃ a', skPk.run AScan.machine a = ([], .ok b a') ∧
      At whole fin a' (tok.map (· ++ r.takeWhile isSpace)) false (b :: s) := by
  have key : ∀ (r : Bytes) (a : AScan) (tok : Option Bytes), At whole fin a tok false r → Pure.ws r = b :: s →
      At whole fin (a.skip a.rest) (tok.map (· ++ r.takeWhile isSpace)) false (b :: s) := by
    intro r
    induction r with
    | nil => intro a tok h hr; simp [Pure.ws] at hr
    | cons x r ih =>
      intro a tok h hr
      by_cases hx : isSpace x = true
      · rw [AScan.skip_cons a x r h.rest hx]
        have hr' : Pure.ws r = b :: s := by simpa [Pure.ws, hx] using hr
        obtain ⟨d, h1, h2, _⟩ := h.split
        have := ih { a with rest := r, hist := some x, tok := a.tok.map (· ++ [x]), pos := a.pos.adv x }
          (tok.map (· ++ [x])) ⟨rfl, h.fin, by simp [h.tok], h.eof, d ++ [x], by simp [h1],
            by rw [posAfter_snoc]; simp [h2], by simp⟩ hr'
        simp only [List.takeWhile_cons, hx, if_true]
        simpa [Option.map_map, Function.comp_def] using this
      · rw [AScan.skip_stop a x r h.rest (by simpa using hx)]
        have hr' : x :: r = b :: s := by simpa [Pure.ws, hx] using hr
        cases hr'
        simp only [List.takeWhile_cons, hx]
        cases tok <;> simpa using h
  have h' := key r a tok h.weaken hr
  refine ⟨_, ?_, h'⟩
  simp [skPk, run, AScan.machine, AScan.skipPeek, AScan.peek, h'.rest]

theorem At.skip_nil (h : At whole fin a tok last r) (hr : Pure.ws r = []) :
    At whole fin (a.skip a.rest) (tok.map (· ++ r)) false [] := by
  have key : ∀ (r : Bytes) (a : AScan) (tok : Option Bytes), At whole fin a tok false r → Pure.ws r = [] →
      At whole fin (a.skip a.rest) (tok.map (· ++ r)) false [] := by
    intro r
    induction r with
    | nil =>
      intro a tok h hr
      rw [h.rest]
      cases tok <;> simpa [AScan.skip] using h
    | cons x r ih =>
      intro a tok h hr
      by_cases hx : isSpace x = true
      · rw [AScan.skip_cons a x r h.rest hx]
        have hr' : Pure.ws r = [] := by simpa [Pure.ws, hx] using hr
        obtain ⟨d, h1, h2, _⟩ := h.split
        have := ih { a with rest := r, hist := some x, tok := a.tok.map (· ++ [x]), pos := a.pos.adv x }
          (tok.map (· ++ [x])) ⟨rfl, h.fin, by simp [h.tok], h.eof, d ++ [x], by simp [h1],
            by rw [posAfter_snoc]; simp [h2], by simp⟩ hr'
        simpa [Option.map_map, Function.comp_def] using this
      · simp [Pure.ws, hx] at hr
  exact key r a tok h.weaken hr

theorem At.run_skPk_nil (h : At whole fin a tok last r) (hr : Pure.ws r = []) :
    (fin = .eof → ∃ a', skPk.run AScan.machine a = ([], .ok eofByte a') ∧ At whole fin a' (tok.map (· ++ r)) false []) ∧
    (fin ≠ .eof → skPk.run AScan.machine a = ([], .fail (.io fin))) := by
  have h' := h.skip_nil hr
  constructor
  · intro hf
    refine ⟨_, ?_, h'⟩
    simp [skPk, run, AScan.machine, AScan.skipPeek, AScan.peek, h'.rest, AScan.atEnd, h'.fin, hf]
  · intro hf
    simp [skPk, run, AScan.machine, AScan.skipPeek, AScan.peek, h'.rest, AScan.atEnd, h'.fin, hf]

theorem Prog.bind_assoc {α β γ : Type} (p : Prog α) (f : α → Prog β) (g : β → Prog γ) :
    (p.bind f).bind g = p.bind fun x => (f x).bind g := by
  induction p with
  | ret a => rfl
  | fail e => rfl
  | crash => rfl
  | oof => rfl
  | emit t k ih => simp [Prog.bind, ih]
  | read k ih => simp [Prog.bind, ih]
  | peek k ih => simp [Prog.bind, ih]
  | skipPeek k ih => simp [Prog.bind, ih]
  | skipRead k ih => simp [Prog.bind, ih]
  | back k ih => simp [Prog.bind, ih]
  | startToken k ih => simp [Prog.bind, ih]
  | endToken k ih => simp [Prog.bind, ih]
  | currentPos k ih => simp [Prog.bind, ih]

theorem At.prefix (h : At whole fin a tok last r) : ∃ d, whole = d ++ r := by
  obtain ⟨d, h1, _⟩ := h.split
  exact ⟨d, h1⟩

/-- The program (which emits nothing) does what the direct description says. -/
def Corr {α : Type} (whole : Bytes) (fin : RErr) (p : Prog α) (a : AScan) (res : Except Pure.PErr (α × Bytes)) : Prop :=
  match res with
  | .ok (x, r) => ∃ a', p.run AScan.machine a = ([], .ok x a') ∧ At whole fin a' none false r
  | .error e => p.run AScan.machine a = ([], .fail (toErr whole fin e))

theorem run_step {α β : Type} {p : Prog α} {f : α → Prog β} {a a' : AScan} {x}
    (h : p.run AScan.machine a = ([], .ok x a')) :
    (p.bind f).run AScan.machine a = (f x).run AScan.machine a' := by
  rw [run_bind_ok h]; rfl

theorem Corr.step {α β : Type} {p : Prog α} {f : α → Prog β} {a a' : AScan} {x res}
    (h : p.run AScan.machine a = ([], .ok x a')) (h2 : Corr whole fin (f x) a' res) :
    Corr whole fin (p.bind f) a res := by
  unfold Corr at h2 ⊢
  rw [run_step h]; exact h2

theorem Corr.stepFail {α β : Type} {p : Prog α} {f : α → Prog β} {a : AScan} {e}
    (h : p.run AScan.machine a = ([], .fail (toErr whole fin e))) :
    Corr whole fin (p.bind f) a (.error e) := run_bind_fail h

theorem At.run_unexpected {α : Type} (h : At whole fin a tok last r) (msg : String) :
    (Json.unexpected msg : Prog α).run AScan.machine a = ([], .fail (toErr whole fin (.syn msg r))) := by
  cases r with
  | nil =>
    by_cases hf : fin = .eof
    · subst hf
      have : rd.run AScan.machine a = ([], .ok eofByte { a with eofCount := a.eofCount + 1 }) := by
        simp [rd, run, AScan.machine, AScan.read, h.rest, AScan.atEnd, h.fin]
      simp only [Json.unexpected, run, run_step this, toErr]
      simp [h.pos, AScan.machine]
    · simp only [Json.unexpected, run, run_bind_fail (h.run_rd_nil hf), toErr]
      simp [hf]
  | cons b r =>
    obtain ⟨a', h1, _⟩ := h.run_rd
    simp only [Json.unexpected, run, run_step h1, toErr]
    simp only [AScan.machine, h.pos]

theorem At.corr_unexpected {α : Type} (h : At whole fin a tok last r) (msg : String) :
    Corr whole fin (Json.unexpected msg : Prog α) a (.error (.syn msg r)) := h.run_unexpected msg

theorem At.run_rdChk (h : At whole fin a tok last r) :
    match Pure.chk fin r with
    | .ok (b, r') => ∃ a', Json.rdChk.run AScan.machine a = ([], .ok b a') ∧ At whole fin a' (tok.map (· ++ [b])) true r' ∧ r = b :: r'
    | .error e => Json.rdChk.run AScan.machine a = ([], .fail (toErr whole fin e)) := by
  cases r with
  | nil =>
    simp only [Pure.chk, toErr, Json.rdChk]
    by_cases hf : fin = .eof
    · subst hf
      have : rd.run AScan.machine a = ([], .ok eofByte { a with eofCount := a.eofCount + 1 }) := by
        simp [rd, run, AScan.machine, AScan.read, h.rest, AScan.atEnd, h.fin]
      rw [run_step this]; simp [Json.checkEOF, run]
    · rw [run_bind_fail (h.run_rd_nil hf)]
  | cons b r =>
    obtain ⟨a', h1, h2⟩ := h.run_rd
    simp only [Pure.chk, Json.rdChk]
    by_cases hb : b = eofByte
    · simp only [hb, if_true]
      rw [hb] at h1
      rw [run_step h1]; simp [Json.checkEOF, run, toErr]
    · simp only [hb, if_false]
      refine ⟨a', ?_, h2, by simp⟩
      rw [run_step h1]; simp [Json.checkEOF, run, hb]

/-- Reading a byte and going back. -/
theorem At.corr_bad {α : Type} {b : Byte} {t : Option Bytes} (h : At whole fin a (t.map (· ++ [b])) true r)
    (hw : ∃ d, whole = d ++ b :: r) (msg : String) :
    Corr whole fin (goBack.bind fun _ => (Json.unexpected msg : Prog α)) a (.error (.syn msg (b :: r))) := by
  obtain ⟨a', h1, h2⟩ := h.run_back hw
  exact Corr.step h1 (h2.corr_unexpected msg)

theorem At.corr_finish {α : Type} {t : Bytes} (h : At whole fin a (some t) true r) (f : Bytes → α) :
    Corr whole fin (finish.bind fun bs => .ret (f bs)) a (.ok (f t, r)) := by
  refine ⟨{ a with tok := none }, ?_, ?_⟩
  · have : finish.run AScan.machine a = ([], .ok t { a with tok := none }) := by
      simp [finish, run, AScan.machine, AScan.endToken, h.tok]
    rw [run_step this]; rfl
  · obtain ⟨d, h1, h2, h3⟩ := h.split
    exact ⟨h.rest, h.fin, rfl, h.eof, d, h1, h2, by simp⟩

theorem At.run_start (h : At whole fin a none last r) :
    ∃ a', start.run AScan.machine a = ([], .ok () a') ∧ At whole fin a' (some []) false r := by
  refine ⟨{ a with tok := some [], hist := none }, by simp [start, run, AScan.machine, AScan.startToken, h.tok], ?_⟩
  obtain ⟨d, h1, h2, _⟩ := h.split
  exact ⟨h.rest, h.fin, rfl, h.eof, d, h1, h2, by simp⟩

/-- The program in a state inside a string. -/
def strProg (fuel : Nat) (al un first : Bool) : Pure.SSt → Prog Scalar
  | .norm => Json.stringLoop fuel al un first
  | .esc => Json.rdChk.bind fun x =>
      if x = c%'u' then (Json.hexLoop 4).bind fun _ => Json.stringLoop fuel al false first
      else Json.stringLoop fuel al false first
  | .hex k => (Json.hexLoop (k + 1)).bind fun _ => Json.stringLoop fuel al un first

/-- The token of a string. -/
def strTok (t : Bytes) (x : Bytes × Bool × Bool × Bytes) : Scalar × Bytes :=
  ({ bytes := t ++ x.1, type := .str, alnum := x.2.1, unesc := x.2.2.1 }, x.2.2.2)

theorem corr_str (r : Bytes) : ∀ (fuel : Nat) (st : Pure.SSt) (al un first : Bool) (a : AScan) (t : Bytes) (last : Bool),
    r.length < fuel → (st = .esc → un = false) → At whole fin a (some t) last r →
    Corr whole fin (strProg fuel al un first st) a ((Pure.str fin st al un first r).map (strTok t)) := by
  induction r with
  | nil =>
    intro fuel st al un first a t last hf hu h
    have hr := h.run_rdChk
    simp only [Pure.chk] at hr
    simp only [Pure.str, Except.map]
    cases st with
    | norm =>
      cases fuel with
      | zero => simp at hf
      | succ fuel => exact Corr.stepFail hr
    | esc => exact Corr.stepFail hr
    | hex k =>
      simp only [strProg, Json.hexLoop]
      rw [Prog.bind_assoc]
      exact Corr.stepFail hr
  | cons b r ih =>
    intro fuel st al un first a t last hf hu h
    have hr := h.run_rdChk
    have hw := h.prefix
    simp only [Pure.chk] at hr
    unfold Pure.str
    by_cases hb : b = eofByte
    · simp only [hb, if_true] at hr ⊢
      cases st with
      | norm =>
        cases fuel with
        | zero => simp at hf
        | succ fuel => exact Corr.stepFail hr
      | esc => exact Corr.stepFail hr
      | hex k =>
        simp only [strProg, Json.hexLoop]
        rw [Prog.bind_assoc]
        exact Corr.stepFail hr
    · simp only [hb, if_false] at hr ⊢
      obtain ⟨a', h1, h2, _⟩ := hr
      have key : ∀ (fuel : Nat) (st : Pure.SSt) (al un first : Bool), r.length < fuel → (st = .esc → un = false) →
          Corr whole fin (strProg fuel al un first st) a'
            (((Pure.str fin st al un first r).map fun x => (b :: x.1, x.2)).map (strTok t)) := by
        intro fuel st al un first hf hu
        have := ih fuel st al un first a' (t ++ [b]) true hf hu h2
        have e : ∀ y : Except Pure.PErr (Bytes × Bool × Bool × Bytes),
            (y.map fun x => (b :: x.1, x.2)).map (strTok t) = y.map (strTok (t ++ [b])) := by
          intro y; cases y <;> simp [Except.map, strTok]
        rw [e]; exact this
      have hf' : r.length + 1 < fuel := by simpa using hf
      cases st with
      | esc =>
        have hun := hu rfl
        subst hun
        refine Corr.step h1 ?_
        by_cases hx : b = c%'u'
        · simp only [hx, if_true]; rw [← hx]
          exact key fuel (.hex 3) al false first (by omega) (by simp)
        · simp only [hx, if_false]
          exact key fuel .norm al false first (by omega) (by simp)
      | hex k =>
        simp only [strProg, Json.hexLoop]
        rw [Prog.bind_assoc]
        refine Corr.step h1 ?_
        cases k with
        | zero =>
          by_cases hx : isHex b = true
          · simp only [hx, if_true]
            exact key fuel .norm al un first (by omega) (by simp)
          · simp only [hx]
            rw [if_neg (by simp), if_neg (by simp), Prog.bind_assoc]
            obtain ⟨a2, h3, h4⟩ := At.run_back (t := some t) h2 hw
            exact Corr.step h3 (run_bind_fail (h4.run_unexpected _))
        | succ k =>
          by_cases hx : isHex b = true
          · simp only [hx, if_true]
            exact key fuel (.hex k) al un first (by omega) (by simp)
          · simp only [hx]
            rw [if_neg (by simp), if_neg (by simp), Prog.bind_assoc]
            obtain ⟨a2, h3, h4⟩ := At.run_back (t := some t) h2 hw
            exact Corr.step h3 (run_bind_fail (h4.run_unexpected _))
      | norm =>
        cases fuel with
        | zero => simp at hf
        | succ fuel =>
          refine Corr.step h1 ?_
          by_cases h5 : b = c%'\\'
          · simp only [h5, if_true]; rw [← h5]
            exact key fuel .esc al false first (by omega) (by simp)
          simp only [h5, if_false]
          by_cases h6 : b = c%'"'
          · simp only [h6, if_true]; rw [← h6]
            exact At.corr_finish (t := t ++ [b]) h2 _
          simp only [h6, if_false]
          by_cases h7 : isCtrl b = true
          · simp only [h7, if_true]
            exact At.corr_bad (t := some t) h2 hw _
          simp only [Bool.not_eq_true] at h7
          simp only [h7, Bool.false_eq_true, if_false]
          cases al
          · exact key fuel .norm false un first (by omega) (by simp)
          · cases first
            · exact key fuel .norm (isAlnum b) un false (by omega) (by simp)
            · exact key fuel .norm (isAlpha b) un false (by omega) (by simp)

theorem At.corr_string {b : Byte} (h : At whole fin a none last (b :: r)) {fuel : Nat} (hf : r.length < fuel) :
    Corr whole fin (Json.parseString fuel) a (Pure.string fin (b :: r)) := by
  obtain ⟨a1, h1, h2⟩ := h.run_start
  refine Corr.step h1 ?_
  obtain ⟨a2, h3, h4⟩ := h2.run_rd
  have hw := h.prefix
  simp only [Pure.string, Json.expectByte]
  rw [Prog.bind_assoc]
  refine Corr.step h3 ?_
  by_cases hb : b = c%'"'
  · simp only [hb, ne_eq, not_true, if_false]
    have := corr_str r fuel .norm true true true a2 [b] true hf (by simp) h4
    rw [hb] at this
    exact this
  · simp only [hb, ne_eq, not_false_iff, if_true]
    rw [Prog.bind_assoc]
    obtain ⟨a3, h5, h6⟩ := At.run_back (t := some []) h4 hw
    exact Corr.step h5 (run_bind_fail (h6.run_unexpected _))

/-- The byte at the front of `r`, or the end of input, has been read. -/
def Held (whole : Bytes) (fin : RErr) (a : AScan) (t : Bytes) : Bytes → Prop
  | b :: r => At whole fin a (some (t ++ [b])) true r ∧ ∃ d, whole = d ++ b :: r
  | [] => fin = .eof ∧ AtEof whole a (some t)

/-- The byte that has been read. -/
def hb : Bytes → Byte
  | b :: _ => b
  | [] => eofByte

theorem Held.back {t : Bytes} (h : Held whole fin a t r) (ht : t ≠ []) :
    ∃ a' last, goBack.run AScan.machine a = ([], .ok () a') ∧ At whole fin a' (some t) last r := by
  cases r with
  | nil =>
    obtain ⟨rfl, h⟩ := h
    obtain ⟨a', h1, h2⟩ := h.run_back (by simpa using ht)
    exact ⟨a', true, h1, h2⟩
  | cons b r =>
    obtain ⟨a', h1, h2⟩ := At.run_back (t := some t) h.1 h.2
    exact ⟨a', false, h1, h2⟩

theorem At.run_held {t : Bytes} (h : At whole fin a (some t) true r) :
    match Pure.nxt fin r with
    | .ok () => ∃ a', rd.run AScan.machine a = ([], .ok (hb r) a') ∧ Held whole fin a' t r
    | .error e => rd.run AScan.machine a = ([], .fail (toErr whole fin e)) := by
  cases r with
  | nil =>
    by_cases hf : fin = .eof
    · subst hf
      simp only [Pure.nxt]
      obtain ⟨a', h1, h2⟩ := h.run_rd_eof
      exact ⟨a', h1, rfl, h2⟩
    · simp only [Pure.nxt, hf, ne_eq, not_false_iff, and_self, if_true]
      exact h.run_rd_nil hf
  | cons b r =>
    simp only [Pure.nxt]
    obtain ⟨a', h1, h2⟩ := h.run_rd
    exact ⟨a', h1, h2, h.prefix⟩

theorem hb_digit (r : Bytes) : (hb r = eofByte ∨ isDigit (hb r) = false) ↔ r.takeWhile isDigit = [] := by
  cases r with
  | nil => simp [hb]
  | cons b r =>
    simp only [hb, List.takeWhile_cons]
    cases hd : isDigit b
    · simp
    · simp
      intro he; subst he; revert hd; decide

theorem run_digits (r : Bytes) : ∀ (fuel n : Nat) (a : AScan) (t : Bytes), r.length < fuel →
    At whole fin a (some t) true r →
    match Pure.nxt fin (r.dropWhile isDigit) with
    | .ok () => ∃ a', (Json.readDigits fuel n).run AScan.machine a =
        ([], .ok (hb (r.dropWhile isDigit), n + (r.takeWhile isDigit).length) a') ∧
        Held whole fin a' (t ++ r.takeWhile isDigit) (r.dropWhile isDigit)
    | .error e => (Json.readDigits fuel n).run AScan.machine a = ([], .fail (toErr whole fin e)) := by
  induction r with
  | nil =>
    intro fuel n a t hf h
    cases fuel with
    | zero => simp at hf
    | succ fuel =>
      have hh := h.run_held
      simp only [List.dropWhile_nil, List.takeWhile_nil, List.append_nil, List.length_nil, Nat.add_zero, Json.readDigits]
      revert hh
      generalize hn : Pure.nxt fin [] = z
      intro hh
      cases z with
      | error e => exact run_bind_fail hh
      | ok u =>
        obtain ⟨a', h1, h2⟩ := hh
        refine ⟨a', ?_, h2⟩
        rw [run_step h1]; simp [hb, run]
  | cons b r ih =>
    intro fuel n a t hf h
    cases fuel with
    | zero => simp at hf
    | succ fuel =>
      obtain ⟨a', h1, h2⟩ := h.run_rd
      by_cases hd : isDigit b = true
      · simp only [List.dropWhile_cons, List.takeWhile_cons, hd, if_true]
        have := ih fuel (n + 1) a' (t ++ [b]) (by simpa using hf) h2
        simp only [Json.readDigits]
        rw [run_step h1]
        have hne : b ≠ eofByte := by rintro rfl; revert hd; decide
        simp only [hd, hne, false_or, Bool.true_eq_false, if_false]
        simpa [Nat.add_comm, Nat.add_left_comm, Nat.add_assoc] using this
      · simp only [List.dropWhile_cons, List.takeWhile_cons, hd, if_false, List.append_nil, List.length_nil, Nat.add_zero,
          Bool.false_eq_true]
        refine ⟨a', ?_, h2, h.prefix⟩
        simp only [Json.readDigits]
        rw [run_step h1]
        simp [hd, hb, run]

/-- The token of a number, after the bytes `t`. -/
def numTok (t : Bytes) (x : Bytes × Bytes) : Scalar × Bytes := ({ bytes := t ++ x.1, type := .num }, x.2)

theorem Held.corr_done {t : Bytes} (h : Held whole fin a t r) (ht : t ≠ []) :
    Corr whole fin (goBack.bind fun _ => finish.bind fun bs => (.ret { bytes := bs, type := .num } : Prog Scalar)) a
      (.ok ({ bytes := t, type := .num }, r)) := by
  obtain ⟨a', last, h1, h2⟩ := h.back ht
  refine Corr.step h1 ?_
  refine ⟨{ a' with tok := none }, ?_, ?_⟩
  · have : finish.run AScan.machine a' = ([], .ok t { a' with tok := none }) := by
      simp [finish, run, AScan.machine, AScan.endToken, h2.tok]
    rw [run_step this]; rfl
  · obtain ⟨d, h3, h4, _⟩ := h2.split
    exact ⟨h2.rest, h2.fin, rfl, h2.eof, d, h3, h4, by simp⟩

theorem Held.corr_bad {α : Type} {t : Bytes} (h : Held whole fin a t r) (ht : t ≠ []) (msg : String) :
    Corr whole fin (goBack.bind fun _ => (Json.unexpected msg : Prog α)) a (.error (.syn msg r)) := by
  obtain ⟨a', last, h1, h2⟩ := h.back ht
  exact Corr.step h1 (h2.corr_unexpected msg)

/-- Digits of which there must be one, and what follows. -/
theorem corr_digits1 {t : Bytes} {fuel : Nat} (ht : t ≠ []) (hf : r.length < fuel) (h : At whole fin a (some t) true r)
    (g : Byte → Prog Scalar) (msg : String) (hm : msg = "expected digit, got")
    (res : Bytes × Bytes → Except Pure.PErr (Scalar × Bytes))
    (hg : ∀ a' ds r', ds ≠ [] → r'.length ≤ r.length → Held whole fin a' (t ++ ds) r' →
      Corr whole fin (g (hb r')) a' (res (ds, r'))) :
    Corr whole fin ((Json.readDigits fuel 0).bind fun r =>
      if r.2 = 0 then goBack.bind fun _ => Json.unexpected msg else g r.1) a
      ((Pure.digits1 fin r).bind res) := by
  have hd := run_digits r fuel 0 a t hf h
  subst hm
  simp only [Pure.digits1]
  revert hd
  cases hn : Pure.nxt fin (r.dropWhile isDigit) with
  | error e => intro hd; exact Corr.stepFail hd
  | ok u =>
    intro hd
    obtain ⟨a', h1, h2⟩ := hd
    refine Corr.step h1 ?_
    simp only [Except.bind, Nat.zero_add, List.length_eq_zero_iff]
    by_cases hz : r.takeWhile isDigit = []
    · simp only [hz, if_true]
      rw [hz] at h2
      exact Held.corr_bad (t := t) (by simpa using h2) ht _
    · simp only [hz, if_false]
      exact hg a' _ _ hz (List.IsSuffix.length_le (List.dropWhile_suffix _)) h2

theorem Held.corr_exp {t : Bytes} {fuel : Nat} (h : Held whole fin a t r) (ht : t ≠ []) (hf : r.length < fuel) :
    Corr whole fin (Json.numberExp fuel (hb r)) a ((Pure.exp fin r).map (numTok t)) := by
  cases r with
  | nil =>
    rw [show hb [] = eofByte from rfl]
    simp only [Json.numberExp, Pure.exp, Except.map, numTok, List.append_nil]
    rw [if_neg (by decide)]
    exact h.corr_done ht
  | cons b r =>
    simp only [Json.numberExp, hb, Pure.exp]
    by_cases hb : b = c%'e' ∨ b = c%'E'
    · simp only [hb, if_true]
      have h1 := h.1
      cases r with
      | nil =>
        by_cases he : fin = .eof
        · subst he
          have hp : pk.run AScan.machine a = ([], .ok eofByte a) := by
            simp [pk, run, AScan.machine, AScan.peek, h1.rest, AScan.atEnd, h1.fin]
          refine Corr.step hp ?_
          rw [if_neg (by decide)]
          refine Corr.step (a' := a) (x := ()) rfl ?_
          simp only [Pure.nxt, ne_eq, not_true, and_false, if_false, Except.bind, Pure.sign]
          have := corr_digits1 (fuel := fuel) (r := []) (by simp) (by simp at hf ⊢; omega) h1
            (fun _ => goBack.bind fun _ => finish.bind fun bs => (.ret { bytes := bs, type := .num } : Prog Scalar))
            _ rfl (fun x => .ok (numTok (t ++ [b]) x))
            (by
              intro a' ds r' _ _ hh
              exact hh.corr_done (by simp))
          simpa [Pure.digits1, Pure.nxt, Except.bind, Except.map] using this
        · have hp : pk.run AScan.machine a = ([], .fail (.io fin)) := by
            simp [pk, run, AScan.machine, AScan.peek, h1.rest, AScan.atEnd, h1.fin, he]
          simp only [Pure.nxt, he, ne_eq, not_false_iff, and_self, if_true, Except.bind, Except.map]
          exact Corr.stepFail (e := .io fin) hp
      | cons c r =>
        have hp : pk.run AScan.machine a = ([], .ok c a) := by
          simp [pk, run, AScan.machine, AScan.peek, h1.rest]
        refine Corr.step hp ?_
        simp only [Pure.nxt, reduceCtorEq, false_and, if_false, Except.bind, Pure.sign]
        have e : ∀ (z : Bytes) (y : Except Pure.PErr (Bytes × Bytes)),
            (y.map fun x => (b :: (z ++ x.1), x.2)).map (numTok t) = y.bind fun x => .ok (numTok (t ++ b :: z) x) := by
          intro z y; cases y <;> simp [Except.map, Except.bind, numTok]
        rw [e]
        by_cases hc : c = c%'-' ∨ c = c%'+'
        · simp only [hc, if_true]
          obtain ⟨a2, h2, h3⟩ := h1.run_rdIgnore
          refine Corr.step h2 ?_
          refine corr_digits1 (fuel := fuel) (r := r) (by simp) (by simp at hf ⊢; omega) (t := t ++ [b, c]) (by simpa using h3)
            (fun _ => goBack.bind fun _ => finish.bind fun bs => (.ret { bytes := bs, type := .num } : Prog Scalar)) _ rfl _ ?_
          intro a' ds r' _ _ hh
          exact hh.corr_done (by simp)
        · simp only [hc, if_false]
          refine Corr.step (a' := a) (x := ()) rfl ?_
          refine corr_digits1 (fuel := fuel) (by simp) (by simp at hf ⊢; omega) (t := t ++ [b]) h1
            (fun _ => goBack.bind fun _ => finish.bind fun bs => (.ret { bytes := bs, type := .num } : Prog Scalar)) _ rfl _ ?_
          intro a' ds r' _ _ hh
          exact hh.corr_done (by simp)
    · simp only [hb, if_false, Except.map, numTok, List.append_nil]
      exact h.corr_done ht

theorem Held.corr_frac {t : Bytes} {fuel : Nat} (h : Held whole fin a t r) (ht : t ≠ []) (hf : r.length < fuel) :
    Corr whole fin (Json.numberFrac fuel (hb r)) a ((Pure.frac fin r).map (numTok t)) := by
  cases r with
  | nil =>
    have := h.corr_exp ht hf
    rw [show hb [] = eofByte from rfl] at this ⊢
    simp only [Json.numberFrac, Pure.frac]
    rw [if_neg (by decide)]
    exact this
  | cons b r =>
    simp only [Json.numberFrac, hb, Pure.frac]
    by_cases hb : b = c%'.'
    · simp only [hb, if_true]
      have h1 := h.1
      have e : ∀ (y : Except Pure.PErr (Bytes × Bytes)),
          (y.bind fun x => (Pure.exp fin x.2).map fun y => (b :: (x.1 ++ y.1), y.2)).map (numTok t) =
          y.bind fun x => (Pure.exp fin x.2).map (numTok (t ++ b :: x.1)) := by
        intro y; cases y with
        | error e => rfl
        | ok x =>
          simp only [Except.bind]
          cases Pure.exp fin x.2 <;> simp [Except.map, numTok]
      rw [hb] at e
      rw [e]
      refine corr_digits1 (fuel := fuel) (t := t ++ [b]) (by simp) (by simp at hf ⊢; omega) h1 _ _ rfl _ ?_
      intro a' ds r' _ hl hh
      rw [show t ++ 46 :: ds = t ++ [b] ++ ds by simp [hb]]
      exact hh.corr_exp (by simp) (by simp at hf; omega)
    · simp only [hb, if_false]
      exact h.corr_exp ht hf

theorem At.corr_int {t : Bytes} {fuel : Nat} (h : At whole fin a (some t) last r) (hf : r.length ≤ fuel) :
    Corr whole fin (rd.bind fun b => Json.numberInt fuel b) a ((Pure.int fin r).map (numTok t)) := by
  have hc := h.run_rdChk
  have e : (rd.bind fun b => Json.numberInt fuel b) = Json.rdChk.bind fun b =>
      if b = c%'0' then rd.bind fun b => Json.numberFrac fuel b
      else if c%'1' ≤ b ∧ b ≤ c%'9' then (Json.readDigits fuel 0).bind fun r => Json.numberFrac fuel r.1
      else goBack.bind fun _ => Json.unexpected "expected digit, got" := by
    rw [Json.rdChk, Prog.bind_assoc]; rfl
  rw [e]
  have hw := h.prefix
  simp only [Pure.int]
  revert hc
  cases hk : Pure.chk fin r with
  | error e => intro hc; exact Corr.stepFail hc
  | ok x =>
    obtain ⟨b, r'⟩ := x
    rintro ⟨a', h1, h2, rfl⟩
    refine Corr.step h1 ?_
    simp only [Except.bind]
    have e2 : ∀ (z : Bytes) (y : Except Pure.PErr (Bytes × Bytes)),
        (y.map fun y => (b :: (z ++ y.1), y.2)).map (numTok t) = y.map (numTok (t ++ [b] ++ z)) := by
      intro z y; cases y <;> simp [Except.map, numTok]
    by_cases h0 : b = c%'0'
    · simp only [h0, if_true]
      rw [h0] at h2
      have hh := At.run_held (t := t ++ [48]) h2
      revert hh
      cases hn : Pure.nxt fin r' with
      | error e => intro hh; exact Corr.stepFail hh
      | ok u =>
        rintro ⟨a2, h3, h4⟩
        refine Corr.step h3 ?_
        have := e2 [] (Pure.frac fin r')
        rw [h0] at this
        simp only [List.nil_append, List.append_nil] at this
        simp only [this]
        exact h4.corr_frac (by simp) (by simp at hf; omega)
    · simp only [h0, if_false]
      by_cases h9 : c%'1' ≤ b ∧ b ≤ c%'9'
      · simp only [h9, if_true, and_self]
        have hd := run_digits r' fuel 0 a' (t ++ [b]) (by simp at hf; omega) h2
        revert hd
        cases hn : Pure.nxt fin (r'.dropWhile isDigit) with
        | error e => intro hd; exact Corr.stepFail hd
        | ok u =>
          rintro ⟨a2, h3, h4⟩
          refine Corr.step h3 ?_
          simp only [e2]
          have hl : (r'.dropWhile isDigit).length ≤ r'.length := List.IsSuffix.length_le (List.dropWhile_suffix _)
          exact h4.corr_frac (by simp) (by simp at hf; omega)
      · simp only [h9, if_false]
        exact At.corr_bad (t := some t) h2 hw _

theorem At.corr_number {fuel : Nat} (h : At whole fin a none last r) (hf : r.length ≤ fuel) :
    Corr whole fin (Json.parseNumber fuel) a (Pure.number fin r) := by
  obtain ⟨a1, h1, h2⟩ := h.run_start
  refine Corr.step h1 ?_
  have e0 : ∀ y : Except Pure.PErr (Bytes × Bytes),
      (y.map fun x => (({ bytes := x.1, type := .num } : Scalar), x.2)) = y.map (numTok []) := by
    intro y; cases y <;> simp [Except.map, numTok]
  simp only [Pure.number, e0]
  cases r with
  | nil =>
    have := h2.corr_int hf
    simp only [Pure.numBytes]
    by_cases he : fin = .eof
    · subst he
      have hr : rd.run AScan.machine a1 = ([], .ok eofByte { a1 with eofCount := a1.eofCount + 1 }) := by
        simp [rd, run, AScan.machine, AScan.read, h2.rest, AScan.atEnd, h2.fin]
      refine Corr.step hr ?_
      rw [if_neg (by decide)]
      unfold Corr at this ⊢
      rw [run_step hr] at this
      exact this
    · exact Corr.stepFail (e := .io fin) (h2.run_rd_nil he)
  | cons b r =>
    obtain ⟨a2, h3, h4⟩ := h2.run_rd
    refine Corr.step h3 ?_
    simp only [Pure.numBytes]
    by_cases hb : b = c%'-'
    · simp only [hb, if_true]
      have e2 : ∀ (y : Except Pure.PErr (Bytes × Bytes)),
          (y.map fun y => (45 :: y.1, y.2)).map (numTok []) = y.map (numTok [45]) := by
        intro y; cases y <;> simp [Except.map, numTok]
      rw [e2]
      rw [hb] at h4
      exact At.corr_int (t := [45]) h4 (by simp at hf; omega)
    · simp only [hb, if_false]
      have := h2.corr_int hf
      unfold Corr at this ⊢
      rw [run_step h3] at this
      exact this

theorem corr_fixed (xs : Bytes) (hx : eofByte ∉ xs) : ∀ (r : Bytes) (a : AScan) (last : Bool), (r ≠ [] ∨ last = true) →
    At whole fin a none last r →
    Corr whole fin (Json.checkBytes xs) a ((Pure.fixed xs r).map fun r => ((), r)) := by
  induction xs with
  | nil =>
    intro r a last _ h
    exact ⟨a, rfl, h.weaken⟩
  | cons x xs ih =>
    intro r a last hr h
    simp only [List.mem_cons, not_or] at hx
    simp only [Json.checkBytes, Json.expectByte]
    rw [Prog.bind_assoc]
    cases r with
    | nil =>
      simp only [ne_eq, not_true, false_or] at hr
      subst hr
      simp only [Pure.fixed, Except.map]
      by_cases he : fin = .eof
      · subst he
        obtain ⟨a', h1, h2⟩ := h.run_rd_eof
        refine Corr.step h1 ?_
        rw [if_pos hx.1, Prog.bind_assoc]
        obtain ⟨a2, h3, h4⟩ := h2.run_back (by simp)
        exact Corr.step h3 (run_bind_fail (h4.run_unexpected _))
      · have : toErr whole fin (.syn (Pure.expMsg x) []) = .io fin := by simp [toErr, he]
        refine Corr.stepFail ?_
        rw [this]; exact h.run_rd_nil he
    | cons b r =>
      obtain ⟨a', h1, h2⟩ := h.run_rd
      refine Corr.step h1 ?_
      simp only [Pure.fixed]
      by_cases hb : b = x
      · simp only [hb, ne_eq, not_true, if_false]
        exact Corr.step (a' := a') (x := ()) rfl (ih hx.2 r a' true (.inr rfl) h2)
      · simp only [hb, ne_eq, not_false_iff, if_true]
        rw [Prog.bind_assoc]
        obtain ⟨a2, h3, h4⟩ := At.run_back (t := none) h2 h.prefix
        exact Corr.step h3 (run_bind_fail (h4.run_unexpected _))

/-- The program, which may emit tokens, does what the direct description says. -/
def CorrP (whole : Bytes) (fin : RErr) (p : Prog Unit) (a : AScan) (x : Pure.PRes) : Prop :=
  match x with
  | (ts, some (.ok r)) => ∃ a', p.run AScan.machine a = (ts, .ok () a') ∧ At whole fin a' none false r
  | (ts, some (.error e)) => p.run AScan.machine a = (ts, .fail (toErr whole fin e))
  | (ts, none) => p.run AScan.machine a = (ts, .oof)

theorem CorrP.congr {p q : Prog Unit} {b : AScan} {x : Pure.PRes}
    (h : p.run AScan.machine a = q.run AScan.machine b) (hq : CorrP whole fin q b x) : CorrP whole fin p a x := by
  unfold CorrP at hq ⊢
  rw [h]; exact hq

theorem CorrP.step {α : Type} {p : Prog α} {f : α → Prog Unit} {a' : AScan} {v} {x : Pure.PRes}
    (h : p.run AScan.machine a = ([], .ok v a')) (h2 : CorrP whole fin (f v) a' x) :
    CorrP whole fin (p.bind f) a x := CorrP.congr (run_step h) h2

theorem CorrP.lift {α β : Type} {p : Prog α} {f : α → Prog Unit} {res : Except Pure.PErr β} {g : β → Pure.PRes}
    {e : β → α × Bytes}
    (h : Corr whole fin p a (res.map e))
    (h2 : ∀ a' y, res = .ok y → At whole fin a' none false (e y).2 → CorrP whole fin (f (e y).1) a' (g y)) :
    CorrP whole fin (p.bind f) a (Pure.lift res g) := by
  cases res with
  | error e =>
    exact run_bind_fail h
  | ok y =>
    obtain ⟨a', h1, h3⟩ := h
    exact CorrP.step h1 (h2 a' y rfl h3)

theorem CorrP.send {t : Token} {f : Unit → Prog Unit} {x : Pure.PRes} (h : CorrP whole fin (f ()) a x) :
    CorrP whole fin ((send t).bind f) a (Pure.put t x) := by
  obtain ⟨ts, x⟩ := x
  match x, h with
  | none, h => simp only [CorrP, Pure.put, Prog.send, Prog.bind, run] at h ⊢; rw [h]
  | some (.error e), h => simp only [CorrP, Pure.put, Prog.send, Prog.bind, run] at h ⊢; rw [h]
  | some (.ok r), ⟨a', h, h2⟩ =>
    refine ⟨a', ?_, h2⟩
    simp only [Pure.put, Prog.send, Prog.bind, run] at h ⊢; rw [h]

theorem CorrP.send_done {t : Token} (h : At whole fin a none last r) :
    CorrP whole fin (Prog.send t) a (Pure.put t (Pure.done r)) := ⟨a, rfl, h.weaken⟩

theorem CorrP.then {p : Prog Unit} {f : Unit → Prog Unit} {x : Pure.PRes} {g : Bytes → Pure.PRes}
    (h : CorrP whole fin p a x)
    (h2 : ∀ a' r, x.2 = some (.ok r) → At whole fin a' none false r → CorrP whole fin (f ()) a' (g r)) :
    CorrP whole fin (p.bind f) a (x.then g) := by
  obtain ⟨ts, x⟩ := x
  match x, h with
  | none, h => exact run_bind_oof h
  | some (.error e), h => exact run_bind_fail h
  | some (.ok r), ⟨a', h, h3⟩ =>
    have h4 := h2 a' r rfl h3
    simp only [Pure.PRes.then]
    match hg : g r with
    | (ts', none) =>
      rw [hg] at h4
      simp only [CorrP] at h4 ⊢; rw [run_bind_ok h, h4]
    | (ts', some (.error e)) =>
      rw [hg] at h4
      simp only [CorrP] at h4 ⊢; rw [run_bind_ok h, h4]
    | (ts', some (.ok r')) =>
      rw [hg] at h4
      obtain ⟨a2, h5, h6⟩ := h4
      refine ⟨a2, ?_, h6⟩
      rw [run_bind_ok h, h5]

theorem At.corrP_unexpected (h : At whole fin a none last r) (msg : String) :
    CorrP whole fin (Json.unexpected msg) a ([], some (.error (.syn msg r))) := h.run_unexpected msg

/-- Skipping space and looking at the next byte, which must exist. -/
theorem At.corrP_skPk {f : Byte → Prog Unit} {g : Byte × Bytes → Pure.PRes} (h : At whole fin a none last r)
    (h2 : ∀ a' b r', Pure.ws r = b :: r' → At whole fin a' none false (b :: r') → CorrP whole fin (f b) a' (g (b, r'))) :
    CorrP whole fin (skPk.bind fun b => (Json.checkEOF b).bind f) a (Pure.lift (Pure.chk fin (Pure.ws r)) g) := by
  cases hr : Pure.ws r with
  | nil =>
    have h1 := h.run_skPk_nil hr
    by_cases he : fin = .eof
    · obtain ⟨a', h3, _⟩ := h1.1 he
      refine CorrP.step h3 ?_
      simp [Pure.chk, Pure.lift, CorrP, Json.checkEOF, Prog.bind, run, toErr, he]
    · exact run_bind_fail (h1.2 he)
  | cons b r' =>
    obtain ⟨a', h1, h3⟩ := h.run_skPk hr
    refine CorrP.step h1 ?_
    by_cases hb : b = eofByte
    · simp [Pure.chk, Pure.lift, CorrP, Json.checkEOF, Prog.bind, run, toErr, hb]
    · simp only [Pure.chk, Json.checkEOF, Prog.bind, hb, if_false, Pure.lift]
      exact h2 a' b r' hr h3

theorem At.corrP_rdIgnore {b : Byte} {f : Unit → Prog Unit} {x : Pure.PRes} (h : At whole fin a none last (b :: r))
    (h2 : ∀ a', At whole fin a' none true r → CorrP whole fin (f ()) a' x) :
    CorrP whole fin (rdIgnore.bind f) a x := by
  obtain ⟨a', h1, h3⟩ := h.run_rdIgnore
  exact CorrP.step h1 (h2 a' h3)

theorem At.corrP_expect {b : Byte} {f : Unit → Prog Unit} {x : Pure.PRes} (h : At whole fin a none last (b :: r))
    (h2 : ∀ a', At whole fin a' none true r → CorrP whole fin (f ()) a' x) :
    CorrP whole fin ((Json.expectByte b).bind f) a x := by
  obtain ⟨a', h1, h3⟩ := h.run_rd
  rw [Json.expectByte, Prog.bind_assoc]
  refine CorrP.step h1 ?_
  simp only [ne_eq, not_true, if_false, Prog.bind]
  exact h2 a' h3

theorem Except.map_id' {ε α : Type} (x : Except ε α) : x.map (fun y => y) = x := by cases x <;> rfl

/-! ### Lengths -/

namespace Pure

theorem ws_le (r : Bytes) : (ws r).length ≤ r.length := List.IsSuffix.length_le (List.dropWhile_suffix _)

theorem chk_ok {fin : RErr} {r : Bytes} {x} (h : chk fin r = .ok x) : r = x.1 :: x.2 ∧ x.1 ≠ eofByte := by
  cases r with
  | nil => simp [chk] at h
  | cons b r =>
    simp only [chk] at h
    split at h
    · simp at h
    · simp only [Except.ok.injEq] at h; subst h; exact ⟨rfl, by assumption⟩

theorem str_split {fin : RErr} (r : Bytes) : ∀ {st al un first x}, str fin st al un first r = .ok x →
    r = x.1 ++ x.2.2.2 ∧ x.1 ≠ [] := by
  induction r with
  | nil => intro st al un first x h; simp [str] at h
  | cons b r ih =>
    intro st al un first x h
    have key : ∀ {st al un first}, ((str fin st al un first r).map fun x => (b :: x.1, x.2)) = .ok x →
        b :: r = x.1 ++ x.2.2.2 ∧ x.1 ≠ [] := by
      intro st al un first h
      cases h2 : str fin st al un first r with
      | error e => rw [h2] at h; simp [Except.map] at h
      | ok y =>
        rw [h2] at h
        simp only [Except.map, Except.ok.injEq] at h
        subst h
        simp [(ih h2).1]
    unfold str at h
    split at h
    · simp at h
    · cases st with
      | norm =>
        simp only at h
        split at h
        · exact key h
        split at h
        · simp only [Except.ok.injEq] at h; subst h; simp
        split at h
        · simp at h
        split at h
        · split at h
          · exact key h
          · exact key h
        · exact key h
      | esc =>
        simp only at h
        split at h <;> exact key h
      | hex k =>
        cases k <;> simp only at h <;> split at h <;> first | exact key h | simp at h

theorem string_split {fin : RErr} {r : Bytes} {x} (h : string fin r = .ok x) :
    r = x.1.bytes ++ x.2 ∧ x.1.bytes ≠ [] := by
  cases r with
  | nil => simp [string] at h
  | cons b r =>
    simp only [string] at h
    split at h
    · simp at h
    · cases h2 : str fin .norm true true true r with
      | error e => rw [h2] at h; simp [Except.map] at h
      | ok y =>
        rw [h2] at h
        simp only [Except.map, Except.ok.injEq] at h
        subst h
        simp [(str_split r h2).1]

theorem takeWhile_drop (r : Bytes) : r = r.takeWhile isDigit ++ r.dropWhile isDigit := (List.takeWhile_append_dropWhile).symm

theorem digits1_split {fin : RErr} {r : Bytes} {x} (h : digits1 fin r = .ok x) :
    r = x.1 ++ x.2 ∧ x.1 ≠ [] := by
  simp only [digits1] at h
  cases hn : nxt fin (r.dropWhile isDigit) with
  | error e => rw [hn] at h; simp [Except.bind] at h
  | ok u =>
    rw [hn] at h
    simp only [Except.bind] at h
    split at h
    · simp at h
    · simp only [Except.ok.injEq] at h; subst h; exact ⟨takeWhile_drop r, by assumption⟩

theorem sign_split (r : Bytes) : r = (sign r).1 ++ (sign r).2 := by
  cases r with
  | nil => rfl
  | cons c r => simp only [sign]; split <;> simp

theorem exp_split {fin : RErr} {r : Bytes} {x} (h : exp fin r = .ok x) : r = x.1 ++ x.2 := by
  cases r with
  | nil => simp only [exp, Except.ok.injEq] at h; subst h; rfl
  | cons b r =>
    simp only [exp] at h
    split at h
    · cases hn : nxt fin r with
      | error e => rw [hn] at h; simp [Except.bind] at h
      | ok u =>
        rw [hn] at h
        simp only [Except.bind] at h
        cases hd : digits1 fin (sign r).2 with
        | error e => rw [hd] at h; simp [Except.map] at h
        | ok y =>
          rw [hd] at h
          simp only [Except.map, Except.ok.injEq] at h
          subst h
          have := (digits1_split hd).1
          simp only [List.cons_append, List.cons.injEq, true_and, List.append_assoc]
          rw [← this, ← sign_split]
    · simp only [Except.ok.injEq] at h; subst h; rfl

theorem frac_split {fin : RErr} {r : Bytes} {x} (h : frac fin r = .ok x) : r = x.1 ++ x.2 := by
  cases r with
  | nil => simp only [frac, Except.ok.injEq] at h; subst h; rfl
  | cons b r =>
    simp only [frac] at h
    split at h
    · cases hd : digits1 fin r with
      | error e => rw [hd] at h; simp [Except.bind] at h
      | ok y =>
        rw [hd] at h
        simp only [Except.bind] at h
        cases he : exp fin y.2 with
        | error e => rw [he] at h; simp [Except.map] at h
        | ok z =>
          rw [he] at h
          simp only [Except.map, Except.ok.injEq] at h
          subst h
          have := (digits1_split hd).1
          simp only [List.cons_append, List.cons.injEq, true_and, List.append_assoc]
          rw [← exp_split he, ← this]
    · exact exp_split h

theorem int_split {fin : RErr} {r : Bytes} {x} (h : int fin r = .ok x) : r = x.1 ++ x.2 ∧ x.1 ≠ [] := by
  simp only [int] at h
  cases hc : chk fin r with
  | error e => rw [hc] at h; simp [Except.bind] at h
  | ok y =>
    obtain ⟨b, r'⟩ := y
    rw [hc] at h
    obtain ⟨rfl, _⟩ := chk_ok hc
    simp only [Except.bind] at h
    split at h
    · cases hn : nxt fin r' with
      | error e => rw [hn] at h; simp at h
      | ok u =>
        rw [hn] at h
        simp only at h
        cases hf : frac fin r' with
        | error e => rw [hf] at h; simp [Except.map] at h
        | ok z =>
          rw [hf] at h
          simp only [Except.map, Except.ok.injEq] at h
          subst h
          simp [← frac_split hf]
    split at h
    · cases hn : nxt fin (r'.dropWhile isDigit) with
      | error e => rw [hn] at h; simp at h
      | ok u =>
        rw [hn] at h
        simp only at h
        cases hf : frac fin (r'.dropWhile isDigit) with
        | error e => rw [hf] at h; simp [Except.map] at h
        | ok z =>
          rw [hf] at h
          simp only [Except.map, Except.ok.injEq] at h
          subst h
          simp only [List.cons_append, List.append_assoc, ← frac_split hf, ← takeWhile_drop]
          simp
    · simp at h

theorem number_split {fin : RErr} {r : Bytes} {x} (h : number fin r = .ok x) : r = x.1.bytes ++ x.2 ∧ x.1.bytes ≠ [] := by
  simp only [number] at h
  cases hn : numBytes fin r with
  | error e => rw [hn] at h; simp [Except.map] at h
  | ok y =>
    rw [hn] at h
    simp only [Except.map, Except.ok.injEq] at h
    subst h
    simp only
    cases r with
    | nil => exact int_split hn
    | cons b r =>
      simp only [numBytes] at hn
      split at hn
      · cases hi : int fin r with
        | error e => rw [hi] at hn; simp [Except.map] at hn
        | ok z =>
          rw [hi] at hn
          simp only [Except.map, Except.ok.injEq] at hn
          subst hn
          simp [← (int_split hi).1]
      · exact int_split hn

theorem fixed_split {xs r r' : Bytes} (h : fixed xs r = .ok r') : r = xs ++ r' := by
  induction xs generalizing r with
  | nil => simp only [fixed, Except.ok.injEq] at h; simp [h]
  | cons x xs ih =>
    cases r with
    | nil => simp [fixed] at h
    | cons b r =>
      simp only [fixed] at h
      split at h
      · simp at h
      · rename_i hb
        simp only [ne_eq, Decidable.not_not] at hb
        subst hb
        simp [← ih h]

/-- The result is not `out of fuel`, and on success at most `k` bytes are left. -/
def Fits (x : PRes) (k : Nat) : Prop :=
  match x.2 with
  | some (.ok r) => r.length ≤ k
  | some (.error _) => True
  | none => False

theorem Fits.mono {x : PRes} {k l : Nat} (h : Fits x k) (hl : k ≤ l) : Fits x l := by
  unfold Fits at h ⊢
  split at h
  · exact Nat.le_trans h hl
  · trivial
  · exact h

theorem Fits.put {x : PRes} {k : Nat} {t} (h : Fits x k) : Fits (Pure.put t x) k := h

theorem Fits.lift {α : Type} {x : Except PErr α} {f : α → PRes} {k : Nat} (h : ∀ y, x = .ok y → Fits (f y) k) :
    Fits (Pure.lift x f) k := by
  cases x with
  | error e => trivial
  | ok y => exact h y rfl

theorem Fits.then {x : PRes} {f : Bytes → PRes} {j k : Nat} (hx : Fits x j) (h : ∀ r, r.length ≤ j → Fits (f r) k) :
    Fits (x.then f) k := by
  obtain ⟨ts, x⟩ := x
  match x, hx with
  | some (.ok r), hx => exact h r hx
  | some (.error e), _ => trivial
  | none, hx => exact hx.elim

theorem fits (fin : RErr) (n : Nat) :
    (∀ r, 2 * r.length + 1 ≤ n → Fits (value fin n r) (r.length - 1)) ∧
    (∀ r, 2 * r.length + 2 ≤ n → Fits (items fin n r) (r.length - 1)) ∧
    (∀ r, 2 * r.length + 2 ≤ n → Fits (members fin n r) (r.length - 1)) := by
  induction n with
  | zero => refine ⟨?_, ?_, ?_⟩ <;> (intro r h; omega)
  | succ n ih =>
    obtain ⟨ihv, ihi, ihm⟩ := ih
    refine ⟨?_, ?_, ?_⟩
    · intro r h
      rw [value]
      refine Fits.lift fun x hx => ?_
      obtain ⟨hw, _⟩ := chk_ok hx
      have hl := ws_le r
      rw [hw, List.length_cons] at hl
      simp only
      split
      · refine Fits.lift fun y hy => ?_
        have := congrArg List.length (string_split hy).1
        have h0 := List.length_pos_iff.2 (string_split hy).2
        rw [hw] at this
        simp only [List.length_cons, List.length_append] at this
        show y.2.length ≤ _
        omega
      split
      · refine Fits.lift fun y hy => ?_
        have hl2 := ws_le x.2
        obtain ⟨hw2, _⟩ := chk_ok hy
        rw [hw2, List.length_cons] at hl2
        split
        · show y.2.length ≤ _
          omega
        · refine (ihi _ ?_).mono ?_
          · rw [hw2, List.length_cons]; omega
          · rw [hw2, List.length_cons]; omega
      split
      · refine Fits.lift fun y hy => ?_
        have hl2 := ws_le x.2
        obtain ⟨hw2, _⟩ := chk_ok hy
        rw [hw2, List.length_cons] at hl2
        split
        · show y.2.length ≤ _
          omega
        · refine (ihm _ ?_).mono ?_
          · rw [hw2, List.length_cons]; omega
          · rw [hw2, List.length_cons]; omega
      split
      · refine Fits.lift fun y hy => ?_
        have := congrArg List.length (fixed_split hy)
        rw [hw] at this
        simp only [List.length_cons, List.length_append, List.length_nil] at this
        show y.length ≤ _
        omega
      split
      · refine Fits.lift fun y hy => ?_
        have := congrArg List.length (fixed_split hy)
        rw [hw] at this
        simp only [List.length_cons, List.length_append, List.length_nil] at this
        show y.length ≤ _
        omega
      split
      · refine Fits.lift fun y hy => ?_
        have := congrArg List.length (fixed_split hy)
        rw [hw] at this
        simp only [List.length_cons, List.length_append, List.length_nil] at this
        show y.length ≤ _
        omega
      split
      · refine Fits.lift fun y hy => ?_
        have := congrArg List.length (number_split hy).1
        have h0 := List.length_pos_iff.2 (number_split hy).2
        rw [hw] at this
        simp only [List.length_cons, List.length_append] at this
        show y.2.length ≤ _
        omega
      · trivial
    · intro r h
      rw [items]
      refine Fits.then (ihv r (by omega)) fun r1 hr1 => ?_
      refine Fits.lift fun x hx => ?_
      obtain ⟨hw, _⟩ := chk_ok hx
      have hl := ws_le r1
      rw [hw, List.length_cons] at hl
      split
      · show x.2.length ≤ _
        omega
      split
      · exact (ihi _ (by omega)).mono (by omega)
      · trivial
    · intro r h
      rw [members]
      refine Fits.lift fun k hk => ?_
      have hks := congrArg List.length (string_split hk).1
      have h0 := List.length_pos_iff.2 (string_split hk).2
      simp only [List.length_append] at hks
      refine Fits.put (Fits.lift fun x hx => ?_)
      obtain ⟨hw, _⟩ := chk_ok hx
      have hl := ws_le k.2
      rw [hw, List.length_cons] at hl
      split
      · trivial
      refine Fits.then (ihv x.2 (by omega)) fun r1 hr1 => ?_
      refine Fits.lift fun y hy => ?_
      obtain ⟨hw2, _⟩ := chk_ok hy
      have hl2 := ws_le r1
      rw [hw2, List.length_cons] at hl2
      split
      · show y.2.length ≤ _
        omega
      split
      · refine Fits.lift fun z hz => ?_
        have hl3 := ws_le y.2
        exact (ihm _ (by omega)).mono (by omega)
      · trivial

theorem fits_produce (fin : RErr) (n : Nat) : ∀ (r : Bytes) (v : Nat), 2 * r.length + 1 ≤ v → r.length + 1 ≤ n →
    Fits (produce fin v n r) r.length := by
  induction n with
  | zero => intro r v _ h; omega
  | succ n ih =>
    intro r v hv hn
    rw [produce]
    have hl := ws_le r
    split
    · split
      · show 0 ≤ _; omega
      · trivial
    · rename_i b r' hw
      rw [hw, List.length_cons] at hl
      split
      · show (b :: r').length ≤ _
        simpa using hl
      · refine Fits.then ((fits fin v).1 _ (by simp only [List.length_cons]; omega)) fun r1 hr1 => ?_
        simp only [List.length_cons] at hr1
        exact (ih r1 v (by omega) (by omega)).mono (by omega)

end Pure

theorem Corr.map_id {α : Type} {p : Prog α} {res : Except Pure.PErr (α × Bytes)} (h : Corr whole fin p a res) :
    Corr whole fin p a (res.map fun y => y) := by rw [Except.map_id']; exact h

theorem corrP (n : Nat) :
    (∀ (r : Bytes) (a : AScan) (last : Bool), 2 * r.length + 1 ≤ n → At whole fin a none last r →
      CorrP whole fin (Json.parseValue n) a (Pure.value fin n r)) ∧
    (∀ (r : Bytes) (a : AScan) (last : Bool), 2 * r.length + 2 ≤ n → At whole fin a none last r →
      CorrP whole fin (Json.items n) a (Pure.items fin n r)) ∧
    (∀ (r : Bytes) (a : AScan) (last : Bool), r ≠ [] → 2 * r.length + 2 ≤ n → At whole fin a none last r →
      CorrP whole fin (Json.members n) a (Pure.members fin n r)) := by
  induction n with
  | zero =>
    refine ⟨?_, ?_, ?_⟩
    · intro r a last h; omega
    · intro r a last h; omega
    · intro r a last _ h; omega
  | succ n ih =>
    obtain ⟨ihv, ihi, ihm⟩ := ih
    refine ⟨?_, ?_, ?_⟩
    · intro r a last hn h
      rw [Json.parseValue, Pure.value]
      refine h.corrP_skPk fun a1 b r1 hw h1 => ?_
      have hl := Pure.ws_le r
      rw [hw, List.length_cons] at hl
      simp only [hw]
      by_cases c1 : b = c%'"'
      · simp only [c1, if_true]
        rw [c1] at h1
        exact CorrP.lift (e := fun y => y) (Corr.map_id (h1.corr_string (by omega))) fun a2 y _ h2 => CorrP.send_done h2
      simp only [c1, if_false]
      by_cases c2 : b = c%'['
      · simp only [c2, if_true]
        rw [c2] at h1
        rw [Json.parseArray]
        refine h1.corrP_expect fun a2 h2 => ?_
        refine CorrP.send ?_
        refine h2.corrP_skPk fun a3 b3 r3 hw3 h3 => ?_
        have hl3 := Pure.ws_le r1
        rw [hw3, List.length_cons] at hl3
        simp only [hw3]
        split
        · exact h3.corrP_rdIgnore fun a4 h4 => CorrP.send_done h4
        · exact ihi _ _ _ (by simp only [List.length_cons]; omega) h3
      simp only [c2, if_false]
      by_cases c3 : b = c%'{'
      · simp only [c3, if_true]
        rw [c3] at h1
        rw [Json.parseObject]
        refine h1.corrP_expect fun a2 h2 => ?_
        refine CorrP.send ?_
        refine h2.corrP_skPk fun a3 b3 r3 hw3 h3 => ?_
        have hl3 := Pure.ws_le r1
        rw [hw3, List.length_cons] at hl3
        simp only [hw3]
        split
        · exact h3.corrP_rdIgnore fun a4 h4 => CorrP.send_done h4
        · exact ihm _ _ _ (by simp) (by simp only [List.length_cons]; omega) h3
      simp only [c3, if_false]
      by_cases c4 : b = c%'t'
      · simp only [c4, if_true]
        rw [c4] at h1
        exact CorrP.lift (e := fun r => ((), r)) (corr_fixed _ (by decide) _ _ _ (.inl (by simp)) h1)
          fun a2 y _ h2 => CorrP.send_done h2
      simp only [c4, if_false]
      by_cases c5 : b = c%'f'
      · simp only [c5, if_true]
        rw [c5] at h1
        exact CorrP.lift (e := fun r => ((), r)) (corr_fixed _ (by decide) _ _ _ (.inl (by simp)) h1)
          fun a2 y _ h2 => CorrP.send_done h2
      simp only [c5, if_false]
      by_cases c6 : b = c%'n'
      · simp only [c6, if_true]
        rw [c6] at h1
        exact CorrP.lift (e := fun r => ((), r)) (corr_fixed _ (by decide) _ _ _ (.inl (by simp)) h1)
          fun a2 y _ h2 => CorrP.send_done h2
      simp only [c6, if_false]
      by_cases c7 : b = c%'-' ∨ (c%'0' ≤ b ∧ b ≤ c%'9')
      · simp only [c7, if_true]
        exact CorrP.lift (e := fun y => y) (Corr.map_id (h1.corr_number (by simp only [List.length_cons]; omega)))
          fun a2 y _ h2 => CorrP.send_done h2
      · simp only [c7, if_false]
        exact h1.corrP_unexpected _
    · intro r a last hn h
      rw [Json.items, Pure.items]
      refine CorrP.then (ihv r a last (by omega) h) fun a1 r1 hr1 h1 => ?_
      have hfit := (Pure.fits fin n).1 r (by omega)
      simp only [Pure.Fits, hr1] at hfit
      refine h1.corrP_skPk fun a2 b r2 hw h2 => ?_
      have hl := Pure.ws_le r1
      rw [hw, List.length_cons] at hl
      simp only [hw]
      split
      · exact h2.corrP_rdIgnore fun a4 h4 => CorrP.send_done h4
      split
      · exact h2.corrP_rdIgnore fun a4 h4 => ihi _ _ _ (by omega) h4
      · exact h2.corrP_unexpected _
    · intro r a last hr hn h
      rw [Json.members, Pure.members]
      cases r with
      | nil => exact absurd rfl hr
      | cons b r =>
        refine CorrP.lift (e := fun y => y) (Corr.map_id (h.corr_string (by simp only [List.length_cons] at hn; omega)))
          fun a1 k hk h1 => ?_
        have hks := congrArg List.length (Pure.string_split hk).1
        have h0 := List.length_pos_iff.2 (Pure.string_split hk).2
        simp only [List.length_append] at hks
        refine CorrP.send ?_
        refine h1.corrP_skPk fun a2 b2 r2 hw h2 => ?_
        have hl := Pure.ws_le k.2
        rw [hw, List.length_cons] at hl
        simp only [hw]
        split
        · exact h2.corrP_unexpected _
        refine h2.corrP_rdIgnore fun a3 h3 => ?_
        refine CorrP.then (ihv r2 a3 _ (by omega) h3) fun a4 r4 hr4 h4 => ?_
        have hfit := (Pure.fits fin n).1 r2 (by omega)
        simp only [Pure.Fits, hr4] at hfit
        refine h4.corrP_skPk fun a5 b5 r5 hw5 h5 => ?_
        have hl5 := Pure.ws_le r4
        rw [hw5, List.length_cons] at hl5
        simp only [hw5]
        split
        · exact h5.corrP_rdIgnore fun a6 h6 => CorrP.send_done h6
        split
        · refine h5.corrP_rdIgnore fun a6 h6 => ?_
          refine h6.corrP_skPk fun a7 b7 r7 hw7 h7 => ?_
          have hl7 := Pure.ws_le r5
          rw [hw7, List.length_cons] at hl7
          simp only [hw7]
          exact ihm _ _ _ (by simp) (by simp only [List.length_cons]; omega) h7
        · exact h5.corrP_unexpected _

theorem corrP_produce (v : Nat) (n : Nat) : ∀ (r : Bytes) (a : AScan) (last : Bool), 2 * r.length + 1 ≤ v →
    r.length + 1 ≤ n → At whole fin a none last r →
    CorrP whole fin (Json.produce v n) a (Pure.produce fin v n r) := by
  induction n with
  | zero => intro r a last _ h; omega
  | succ n ih =>
    intro r a last hv hn h
    rw [Json.produce, Pure.produce]
    have hl := Pure.ws_le r
    cases hw : Pure.ws r with
    | nil =>
      have h1 := h.run_skPk_nil hw
      by_cases he : fin = .eof
      · obtain ⟨a', h3, h4⟩ := h1.1 he
        refine CorrP.step h3 ?_
        simp only [he, if_true]
        rw [he] at h4
        exact ⟨a', rfl, h4⟩
      · simp only [he, if_false]
        exact run_bind_fail (h1.2 he)
    | cons b r' =>
      rw [hw, List.length_cons] at hl
      obtain ⟨a', h1, h3⟩ := h.run_skPk hw
      refine CorrP.step h1 ?_
      by_cases hb : b = eofByte
      · simp only [hb, if_true]
        rw [hb] at h3
        exact ⟨a', rfl, h3⟩
      · simp only [hb, if_false]
        refine CorrP.then ((corrP v).1 _ _ _ (by simp only [List.length_cons]; omega) h3) fun a4 r4 hr4 h4 => ?_
        have hfit := (Pure.fits fin v).1 (b :: r') (by simp only [List.length_cons]; omega)
        simp only [Pure.Fits, hr4, List.length_cons] at hfit
        exact ih _ _ _ (by omega) (by omega) h4

end Verif
