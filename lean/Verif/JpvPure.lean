import Verif.JpvDecoder
import Verif.JsonRun

/-!
# The JPV decoder as a function on the input (helper definitions and lemmas)

As `Verif.JsonPure`, for the JPV decoder.
-/

set_option linter.unusedSimpArgs false
set_option linter.unusedVariables false

namespace Verif

namespace JpvPure
open Pure Jpv

/-- How the decoding of a line can fail. -/
inductive JErr
  | perr (e : PErr)
  | plain (msg : String)
  | panic

/-- An error of the JSON decoder. -/
def up {α : Type} : Except PErr α → Except JErr α
  | .ok a => .ok a
  | .error e => .error (.perr e)

/-- Check of the closing bracket. -/
def close (b : Byte) (key : Scalar) (r : Bytes) : Except JErr (Scalar × Bytes) :=
  if b ≠ c%']' then .error (.plain "syntax error: expected ']'") else .ok (key, r)

/-- An element in brackets, after the bracket. -/
def bracket (fin : RErr) (r : Bytes) : Except JErr (Scalar × Bytes) :=
  (up (chk fin r)).bind fun x =>
    if x.1 = c%'"' then
      (up (string fin r)).bind fun s => (up (chk fin s.2)).bind fun y => close y.1 { s.1 with key := true } y.2
    else (up (digits1 fin r)).bind fun d => close (hb d.2) { bytes := d.1 ++ [c%']'], type := .num, key := true } d.2.tail

/-- A dotted key, after the dot. -/
def dotted (fin : RErr) (r : Bytes) : Except JErr (Scalar × Bytes) :=
  (up (chk fin r)).bind fun x =>
    if isAlpha x.1 then
      (up (chk fin (x.2.dropWhile isAlnum))).bind fun _ =>
        .ok ({ bytes := c%'"' :: (x.1 :: x.2.takeWhile isAlnum ++ [c%'"']), type := .str, alnum := true, key := true },
          x.2.dropWhile isAlnum)
    else .error (.perr (.syn "expected a-z/A-Z/_, got" r))

/-- A path. -/
def path (fin : RErr) : Nat → List Scalar → Bytes → Except JErr (List Scalar × Bytes)
  | 0, _, _ => .error .panic
  | n + 1, p, r =>
    (up (chk fin r)).bind fun x =>
      if x.1 = c%'[' then (bracket fin x.2).bind fun k => path fin n (p ++ [k.1]) k.2
      else if x.1 = c%'.' then (dotted fin x.2).bind fun k => path fin n (p ++ [k.1]) k.2
      else .ok (p, r)

/-- The first difference of two paths. -/
def diff : List Scalar → List Scalar → Except JErr (List Scalar × List Scalar)
  | [], _ => .error (.plain "inconsistent path: cannot extend previous path")
  | _ :: _, [] => .error .panic
  | k :: ks, n :: ns =>
    match scalarEqual k n with
    | none => .error .panic
    | some true => diff ks ns
    | some false =>
      if k.type ≠ n.type then .error (.plain "inconsistent path: key types differ") else .ok (k :: ks, n :: ns)

/-- The tokens for a change of path. -/
def upd (last new : List Scalar) : Except JErr (List Token) :=
  if last = [] then .ok (follow new false)
  else (diff last new).map fun d => unwind d.1 true ++ follow d.2 true

/-- A line up to the value: the tokens sent and the path. -/
def head (fin : RErr) (fuel : Nat) (last : List Scalar) : Bytes → Except JErr ((List Token × List Scalar) × Bytes)
  | [] => .error .panic
  | b :: r =>
    if b ≠ c%'$' then .error (.perr (.syn (expMsg c%'$') (b :: r)))
    else (path fin fuel [] r).bind fun p => (up (chk fin (ws p.2))).bind fun x =>
      if x.1 ≠ c%'=' then .error .panic
      else (upd last p.1).map fun ts => ((ts, p.1), x.2)

/-- Result of the decoder. -/
abbrev JRes := List Token × Option (Except JErr Bytes)

/-- What follows a line head, if `next` decodes the following lines. -/
def body (next : List Scalar → Bytes → JRes) (ts : List Token) (p : List Scalar) (v : PRes) : JRes :=
  match v with
  | (vs, some (.ok r)) => (ts ++ (vs ++ (next p r).1), (next p r).2)
  | (vs, some (.error e)) => (ts ++ (vs ++ unwind p false), some (.error (.perr e)))
  | (vs, none) => (ts ++ vs, none)

/-- What follows the beginning of a line, if `next` decodes the following lines. -/
def line (fin : RErr) (vfuel : Nat) (next : List Scalar → Bytes → JRes) (last : List Scalar)
    (h : Except JErr ((List Token × List Scalar) × Bytes)) : JRes :=
  match h with
  | .error .panic => ([], some (.error .panic))
  | .error e => (unwind last false, some (.error e))
  | .ok ((ts, p), r) => body next ts p (value fin vfuel r)

/-- A stream of lines. -/
def produce (fin : RErr) (vfuel : Nat) : Nat → List Scalar → Bytes → JRes
  | 0, _, _ => ([], none)
  | n + 1, last, r =>
    match ws r with
    | [] => (unwind last false, some (if fin = .eof then .ok [] else .error (.perr (.io fin))))
    | b :: r' =>
      if b = eofByte then (unwind last false, some (.ok (b :: r')))
      else line fin vfuel (produce fin vfuel n) last (head fin vfuel last (b :: r'))

end JpvPure

open Prog

namespace Prog

/-- The result of a guarded program. -/
def guardRes {σ α : Type} (cl : List Token) (x : List Token × Out σ α) : List Token × Out σ α :=
  match x with
  | (ts, .fail e) => (ts ++ cl, .fail e)
  | x => x

theorem guardRes_cons {σ α : Type} (cl : List Token) (t : Token) (x : List Token × Out σ α) :
    guardRes cl (t :: x.1, x.2) = (t :: (guardRes cl x).1, (guardRes cl x).2) := by
  obtain ⟨ts, o⟩ := x
  cases o <;> rfl

theorem run_sendAll {σ α : Type} (M : Machine σ) (ts : List Token) (f : Unit → Prog α) (s : σ) :
    ((Jpv.sendAll ts).bind f).run M s = (ts ++ ((f ()).run M s).1, ((f ()).run M s).2) := by
  induction ts with
  | nil => rfl
  | cons t ts ih => simp [Jpv.sendAll, Prog.bind, run, ih]

theorem run_sendAll' {σ : Type} (M : Machine σ) (ts : List Token) (s : σ) :
    (Jpv.sendAll ts).run M s = (ts, .ok () s) := by
  induction ts with
  | nil => rfl
  | cons t ts ih => simp [Jpv.sendAll, Prog.bind, run, ih]

theorem run_guarded {σ α : Type} (M : Machine σ) (last : List Scalar) (p : Prog α) (s : σ) :
    (Jpv.guarded last p).run M s = guardRes (Jpv.unwind last false) (p.run M s) := by
  unfold Jpv.guarded
  induction p generalizing s with
  | ret a => rfl
  | fail e =>
    simp only [catch_, Prog.bind]
    rw [run_sendAll]
    simp [run, guardRes]
  | crash => rfl
  | oof => rfl
  | emit t k ih =>
    simp only [catch_, Prog.bind, run, ih, guardRes_cons]
  | read k ih => exact ih _ _
  | peek k ih => exact ih _ _
  | skipPeek k ih => exact ih _ _
  | skipRead k ih => exact ih _ _
  | back k ih =>
    simp only [catch_, Prog.bind, run]
    cases hb : M.back s with
    | ok s1 => exact ih _
    | error b => cases b <;> rfl
  | startToken k ih =>
    simp only [catch_, Prog.bind, run]
    cases hb : M.startToken s with
    | some s1 => exact ih _
    | none => rfl
  | endToken k ih =>
    simp only [catch_, Prog.bind, run]
    cases hb : M.endToken s with
    | some s1 => exact ih _ _
    | none => rfl
  | currentPos k ih => exact ih _ _

theorem run_bind_panic {σ α β : Type} {M : Machine σ} {p : Prog α} {f : α → Prog β} {s : σ} {ts}
    (h : p.run M s = (ts, .panic)) : (p.bind f).run M s = (ts, .panic) := by
  induction p generalizing s ts with
  | ret a => simp [run] at h
  | fail e' => simp [run] at h
  | crash => simp only [run, Prod.mk.injEq] at h; obtain ⟨rfl, _⟩ := h; rfl
  | oof => simp [run] at h
  | emit t k ih =>
    simp only [run, Prod.mk.injEq] at h
    obtain ⟨rfl, h⟩ := h
    have := ih (s := s) (ts := (k.run M s).1) (by rw [← h])
    simp [Prog.bind, run, this]
  | read k ih => exact ih _ h
  | peek k ih => exact ih _ h
  | skipPeek k ih => exact ih _ h
  | skipRead k ih => exact ih _ h
  | back k ih =>
    simp only [run, Prog.bind] at h ⊢
    cases hb : M.back s with
    | ok s1 => simp only [hb] at h ⊢; exact ih h
    | error b => cases b <;> simp [hb] at h ⊢ <;> exact h
  | startToken k ih =>
    simp only [run, Prog.bind] at h ⊢
    cases hb : M.startToken s with
    | some s1 => simp only [hb] at h ⊢; exact ih h
    | none => simp [hb] at h ⊢; exact h
  | endToken k ih =>
    simp only [run, Prog.bind] at h ⊢
    cases hb : M.endToken s with
    | some s1 => simp only [hb] at h ⊢; exact ih _ h
    | none => simp [hb] at h ⊢; exact h
  | currentPos k ih => exact ih _ h

end Prog

open JpvPure

variable {whole : Bytes} {fin : RErr} {a : AScan} {tok : Option Bytes} {last : Bool} {r : Bytes}

/-- The program (which emits nothing) does what the direct description says. -/
def CorrJ {α : Type} (whole : Bytes) (fin : RErr) (p : Prog α) (a : AScan) (res : Except JErr (α × Bytes)) : Prop :=
  match res with
  | .ok (x, r) => ∃ a', p.run AScan.machine a = ([], .ok x a') ∧ At whole fin a' none false r
  | .error (.perr e) => p.run AScan.machine a = ([], .fail (toErr whole fin e))
  | .error (.plain m) => p.run AScan.machine a = ([], .fail (.plain m))
  | .error .panic => p.run AScan.machine a = ([], .panic)

theorem Corr.up {α : Type} {p : Prog α} {res : Except Pure.PErr (α × Bytes)} (h : Corr whole fin p a res) :
    CorrJ whole fin p a (up res) := by
  cases res <;> exact h

theorem CorrJ.step {α β : Type} {p : Prog α} {f : α → Prog β} {a a' : AScan} {x res}
    (h : p.run AScan.machine a = ([], .ok x a')) (h2 : CorrJ whole fin (f x) a' res) :
    CorrJ whole fin (p.bind f) a res := by
  unfold CorrJ at h2 ⊢
  rw [run_step h]; exact h2

theorem CorrJ.then {α β : Type} {p : Prog α} {f : α → Prog β} {res : Except JErr (α × Bytes)} {g : α × Bytes → Except JErr (β × Bytes)}
    (h : CorrJ whole fin p a res)
    (h2 : ∀ a' x r, res = .ok (x, r) → At whole fin a' none false r → CorrJ whole fin (f x) a' (g (x, r))) :
    CorrJ whole fin (p.bind f) a (res.bind g) := by
  match res, h with
  | .ok (x, r), ⟨a', h1, h3⟩ => exact CorrJ.step h1 (h2 a' x r rfl h3)
  | .error (.perr e), h => exact run_bind_fail h
  | .error (.plain m), h => exact run_bind_fail h
  | .error .panic, h => exact run_bind_panic h

theorem CorrJ.rdChk {α : Type} {f : Byte → Prog α} {g : Byte × Bytes → Except JErr (α × Bytes)} (h : At whole fin a tok last r)
    (h2 : ∀ a' b r', r = b :: r' → b ≠ eofByte → At whole fin a' (tok.map (· ++ [b])) true r' → CorrJ whole fin (f b) a' (g (b, r'))) :
    CorrJ whole fin (Json.rdChk.bind f) a ((up (Pure.chk fin r)).bind g) := by
  have hc := h.run_rdChk
  cases hk : Pure.chk fin r with
  | error e =>
    rw [hk] at hc
    exact run_bind_fail hc
  | ok x =>
    obtain ⟨b, r'⟩ := x
    rw [hk] at hc
    obtain ⟨a', h1, h3, h4⟩ := hc
    exact CorrJ.step h1 (h2 a' b r' h4 (Pure.chk_ok hk).2 h3)

theorem CorrJ.close (h : At whole fin a none last r) (b : Byte) (k : Scalar) :
    CorrJ whole fin (Jpv.closeElem b k) a (JpvPure.close b k r) := by
  unfold Jpv.closeElem JpvPure.close
  split
  · rfl
  · exact ⟨a, rfl, h.weaken⟩

theorem At.run_pk {b : Byte} (h : At whole fin a tok last (b :: r)) : pk.run AScan.machine a = ([], .ok b a) := by
  simp [pk, run, AScan.machine, AScan.peek, h.rest]

theorem At.run_finish {t : Bytes} (h : At whole fin a (some t) last r) :
    ∃ a', finish.run AScan.machine a = ([], .ok t a') ∧ At whole fin a' none last r := by
  refine ⟨{ a with tok := none }, by simp [finish, run, AScan.machine, AScan.endToken, h.tok], ?_⟩
  obtain ⟨d, h3, h4, h5⟩ := h.split
  exact ⟨h.rest, h.fin, rfl, h.eof, d, h3, h4, h5⟩

theorem corrJ_bracket {fuel : Nat} (h : At whole fin a none last r) (hf : r.length < fuel) :
    CorrJ whole fin (Jpv.bracket fuel) a (JpvPure.bracket fin r) := by
  unfold Jpv.bracket JpvPure.bracket
  cases r with
  | nil =>
    simp only [Pure.chk, up, Except.bind]
    by_cases he : fin = .eof
    · have hp : pk.run AScan.machine a = ([], .ok eofByte a) := by
        simp [pk, run, AScan.machine, AScan.peek, h.rest, AScan.atEnd, h.fin, he]
      refine CorrJ.step hp ?_
      simp [CorrJ, Json.checkEOF, Prog.bind, run, toErr, he]
    · have hp : pk.run AScan.machine a = ([], .fail (.io fin)) := by
        simp [pk, run, AScan.machine, AScan.peek, h.rest, AScan.atEnd, h.fin, he]
      exact run_bind_fail hp
  | cons b r =>
    refine CorrJ.step h.run_pk ?_
    simp only [Json.checkEOF, Pure.chk]
    by_cases hb0 : b = eofByte
    · simp only [hb0, if_true, up, Except.bind, CorrJ, Prog.bind, run, toErr]
    simp only [hb0, if_false, up, Except.bind, Prog.bind]
    by_cases hq : b = c%'"'
    · rw [if_pos hq, if_pos hq]
      refine CorrJ.then (h.corr_string (by simp at hf; omega)).up fun a' s r' _ h2 => ?_
      exact CorrJ.rdChk h2 fun a3 b3 r3 _ _ h3 => CorrJ.close h3 _ _
    · rw [if_neg hq, if_neg hq]
      obtain ⟨a1, h1, h2⟩ := h.run_start
      refine CorrJ.step h1 ?_
      obtain ⟨a2, h3, h4⟩ := h2.run_rd
      obtain ⟨fuel, rfl⟩ : ∃ k, fuel = k + 1 := ⟨fuel - 1, by omega⟩
      rw [Json.readDigits, Prog.bind_assoc]
      refine CorrJ.step h3 ?_
      simp only [hb0, false_or, Pure.digits1, List.takeWhile_cons, List.dropWhile_cons]
      by_cases hd : isDigit b = true
      · simp only [hd, Bool.true_eq_false, if_false, if_true, Nat.zero_add]
        have hD := run_digits r fuel 1 a2 [b] (by simp at hf; omega) (by simpa using h4)
        cases hn : Pure.nxt fin (r.dropWhile isDigit) with
        | error e =>
          rw [hn] at hD
          exact run_bind_fail hD
        | ok u =>
          rw [hn] at hD
          obtain ⟨a3, h5, h6⟩ := hD
          refine CorrJ.step h5 ?_
          rw [if_neg (by simp), show Except.bind (Except.ok u : Except Pure.PErr Unit)
            (fun x => if (b :: r.takeWhile isDigit) = [] then Except.error (Pure.PErr.syn "expected digit, got" (r.dropWhile isDigit))
              else Except.ok (b :: r.takeWhile isDigit, r.dropWhile isDigit)) = .ok (b :: r.takeWhile isDigit, r.dropWhile isDigit) by simp [Except.bind]]
          simp only
          cases hr : r.dropWhile isDigit with
          | nil =>
            rw [hr] at h6
            obtain ⟨rfl, h7⟩ := h6
            have hfin : finish.run AScan.machine a3 = ([], .ok ([b] ++ r.takeWhile isDigit) { a3 with tok := none }) := by
              simp [finish, run, AScan.machine, AScan.endToken, h7.tok]
            refine CorrJ.step hfin ?_
            show CorrJ _ _ (Jpv.closeElem eofByte _) _ (JpvPure.close eofByte _ _)
            unfold Jpv.closeElem JpvPure.close
            rw [if_pos (by decide), if_pos (by decide)]
            rfl
          | cons c r3 =>
            rw [hr] at h6
            obtain ⟨a4, h7, h8⟩ := h6.1.run_finish
            refine CorrJ.step h7 ?_
            by_cases hc : c = c%']'
            · subst hc
              exact CorrJ.close h8 _ _
            · show CorrJ _ _ (Jpv.closeElem c _) _ (JpvPure.close c _ _)
              unfold Jpv.closeElem JpvPure.close
              rw [if_pos hc, if_pos hc]
              rfl
      · simp only [hd, Bool.true_eq_false, if_false, if_true, Bool.false_eq_true]
        refine CorrJ.step (a' := a2) (x := (b, 0)) rfl ?_
        have hb2 := At.corr_bad (α := Scalar) (t := some []) h4 h2.prefix "expected digit, got"
        simpa [Pure.nxt, Except.bind, up, CorrJ, Corr] using hb2

theorem corrJ_dottedLoop (r : Bytes) : ∀ (fuel : Nat) (a : AScan) (t : Bytes) (last : Bool), r.length < fuel → At whole fin a (some t) last r →
    CorrJ whole fin (Jpv.dottedLoop fuel) a ((up (Pure.chk fin (r.dropWhile isAlnum))).bind fun _ =>
      .ok ({ bytes := c%'"' :: (t ++ r.takeWhile isAlnum ++ [c%'"']), type := .str, alnum := true, key := true },
        r.dropWhile isAlnum)) := by
  induction r with
  | nil =>
    intro fuel a t last hf h
    obtain ⟨fuel, rfl⟩ : ∃ k, fuel = k + 1 := ⟨fuel - 1, by omega⟩
    rw [Jpv.dottedLoop]
    exact CorrJ.rdChk h fun a' b r' e _ _ => by simp at e
  | cons b r ih =>
    intro fuel a t last hf h
    obtain ⟨fuel, rfl⟩ : ∃ k, fuel = k + 1 := ⟨fuel - 1, by omega⟩
    rw [Jpv.dottedLoop]
    by_cases hb : isAlnum b = true
    · have hne : b ≠ eofByte := by rintro rfl; revert hb; decide
      simp only [List.takeWhile_cons, List.dropWhile_cons, hb, if_true]
      have hc := h.run_rdChk
      simp only [Pure.chk, hne, if_false] at hc
      obtain ⟨a', h1, h2, _⟩ := hc
      refine CorrJ.step h1 ?_
      rw [if_pos hb]
      have := ih fuel a' (t ++ [b]) true (by simp at hf; omega) h2
      simpa using this
    · simp only [List.takeWhile_cons, List.dropWhile_cons, hb, if_false, Bool.false_eq_true]
      refine CorrJ.rdChk h fun a' b' r' e _ h2 => ?_
      obtain ⟨rfl, rfl⟩ : b = b' ∧ r = r' := by simpa using e
      rw [if_neg hb]
      obtain ⟨a3, h3, h4⟩ := At.run_back (t := some t) h2 h.prefix
      refine CorrJ.step h3 ?_
      obtain ⟨a4, h5, h6⟩ := h4.run_finish
      refine CorrJ.step h5 ?_
      exact ⟨a4, by simp [run], h6⟩

theorem corrJ_dotted {fuel : Nat} (h : At whole fin a none last r) (hf : r.length < fuel) :
    CorrJ whole fin (Jpv.dotted fuel) a (JpvPure.dotted fin r) := by
  unfold Jpv.dotted JpvPure.dotted
  obtain ⟨a1, h1, h2⟩ := h.run_start
  refine CorrJ.step h1 ?_
  refine CorrJ.rdChk h2 fun a' b r' e hb h3 => ?_
  subst e
  by_cases ha : isAlpha b = true
  · simp only [ha, if_true]
    exact corrJ_dottedLoop r' fuel a' [b] true (by simp at hf; omega) (by simpa using h3)
  · simp only [ha]
    rw [if_neg (by simp), if_neg (by simp)]
    exact (At.corr_bad (t := some []) h3 h2.prefix _)

theorem AScan.skip_prevPos (r : Bytes) : ∀ a : AScan, (a.skip r).prevPos = a.prevPos := by
  induction r with
  | nil => intro a; rfl
  | cons b r ih =>
    intro a
    rw [AScan.skip]
    split
    · rw [ih]
    · rfl

theorem At.run_back_pos {b : Byte} {t : Option Bytes} {a' : AScan} (h : At whole fin a (t.map (· ++ [b])) true r)
    (h1 : goBack.run AScan.machine a = ([], .ok () a')) : a'.prevPos.line < 0 := by
  simp only [goBack, run, AScan.machine] at h1
  have he := h.eof
  unfold AScan.back at h1
  split at h1
  · rename_i x hx
    split at hx
    · simp at hx
    · split at hx
      · simp at hx
      · rw [if_neg (by omega)] at hx
        simp only [Except.ok.injEq] at hx
        simp only [run, Prod.mk.injEq, Out.ok.injEq, true_and] at h1
        rw [← h1, ← hx]
        simp
  · simp at h1
  · simp at h1

/-- As `CorrJ`, and there is nothing to go back to. -/
def CorrB {α : Type} (whole : Bytes) (fin : RErr) (p : Prog α) (a : AScan) (res : Except JErr (α × Bytes)) : Prop :=
  match res with
  | .ok (x, r) => ∃ a', p.run AScan.machine a = ([], .ok x a') ∧ At whole fin a' none false r ∧ a'.prevPos.line < 0
  | res => CorrJ whole fin p a res

theorem CorrB.step {α β : Type} {p : Prog α} {f : α → Prog β} {a a' : AScan} {x res}
    (h : p.run AScan.machine a = ([], .ok x a')) (h2 : CorrB whole fin (f x) a' res) :
    CorrB whole fin (p.bind f) a res := by
  unfold CorrB CorrJ at h2 ⊢
  rw [run_step h]; exact h2

theorem CorrB.then {α β : Type} {p : Prog α} {f : α → Prog β} {res : Except JErr (α × Bytes)} {g : α × Bytes → Except JErr (β × Bytes)}
    (h : CorrJ whole fin p a res)
    (h2 : ∀ a' x r, res = .ok (x, r) → At whole fin a' none false r → CorrB whole fin (f x) a' (g (x, r))) :
    CorrB whole fin (p.bind f) a (res.bind g) := by
  match res, h with
  | .ok (x, r), ⟨a', h1, h3⟩ => exact CorrB.step h1 (h2 a' x r rfl h3)
  | .error (.perr e), h => exact run_bind_fail h
  | .error (.plain m), h => exact run_bind_fail h
  | .error .panic, h => exact run_bind_panic h

theorem bracket_le {r : Bytes} {k : Scalar × Bytes} (h : JpvPure.bracket fin r = .ok k) : k.2.length ≤ r.length := by
  unfold JpvPure.bracket at h
  cases hc : Pure.chk fin r with
  | error e => rw [hc] at h; simp [up, Except.bind] at h
  | ok x =>
    rw [hc] at h
    simp only [up, Except.bind] at h
    split at h
    · cases hs : Pure.string fin r with
      | error e => rw [hs] at h; simp at h
      | ok s =>
        rw [hs] at h
        simp only at h
        cases hy : Pure.chk fin s.2 with
        | error e => rw [hy] at h; simp at h
        | ok y =>
          rw [hy] at h
          simp only [JpvPure.close] at h
          split at h
          · simp at h
          · simp only [Except.ok.injEq] at h
            subst h
            have h1 := congrArg List.length (Pure.string_split hs).1
            have h2 := congrArg List.length (Pure.chk_ok hy).1
            simp only [List.length_append, List.length_cons] at h1 h2 ⊢
            omega
    · cases hd : Pure.digits1 fin r with
      | error e => rw [hd] at h; simp at h
      | ok d =>
        rw [hd] at h
        simp only [JpvPure.close] at h
        split at h
        · simp at h
        · simp only [Except.ok.injEq] at h
          subst h
          have h1 := congrArg List.length (Pure.digits1_split hd).1
          simp only [List.length_append] at h1
          simp only [List.length_tail]
          omega

theorem dotted_le {r : Bytes} {k : Scalar × Bytes} (h : JpvPure.dotted fin r = .ok k) : k.2.length ≤ r.length := by
  unfold JpvPure.dotted at h
  cases hc : Pure.chk fin r with
  | error e => rw [hc] at h; simp [up, Except.bind] at h
  | ok x =>
    rw [hc] at h
    simp only [up, Except.bind] at h
    have h1 := congrArg List.length (Pure.chk_ok hc).1
    split at h
    · cases hs : Pure.chk fin (x.2.dropWhile isAlnum) with
      | error e => rw [hs] at h; simp at h
      | ok s =>
        rw [hs] at h
        simp only [Except.ok.injEq] at h
        subst h
        have h2 : (x.2.dropWhile isAlnum).length ≤ x.2.length := List.IsSuffix.length_le (List.dropWhile_suffix _)
        simp only [List.length_cons] at h1 ⊢
        omega
    · simp at h

theorem corrB_path (fuel : Nat) : ∀ (p : List Scalar) (r : Bytes) (a : AScan) (last : Bool), r.length < fuel → At whole fin a none last r →
    CorrB whole fin (Jpv.parsePath fuel p) a (JpvPure.path fin fuel p r) := by
  induction fuel with
  | zero => intro p r a last hf; omega
  | succ fuel ih =>
    intro p r a last hf h
    rw [Jpv.parsePath, JpvPure.path]
    have hc := h.run_rdChk
    cases hk : Pure.chk fin r with
    | error e =>
      rw [hk] at hc
      exact run_bind_fail hc
    | ok x =>
      obtain ⟨b, r'⟩ := x
      rw [hk] at hc
      obtain ⟨a', h1, h3, h4⟩ := hc
      refine CorrB.step h1 ?_
      subst h4
      simp only [up, Except.bind]
      by_cases hb1 : b = c%'['
      · rw [if_pos hb1, if_pos hb1]
        refine CorrB.then (corrJ_bracket h3 (by simp at hf; omega)) fun a2 k r2 hk h5 => ?_
        have := bracket_le hk
        exact ih _ _ _ _ (by simp at hf this ⊢; omega) h5
      rw [if_neg hb1, if_neg hb1]
      by_cases hb2 : b = c%'.'
      · rw [if_pos hb2, if_pos hb2]
        refine CorrB.then (corrJ_dotted h3 (by simp at hf; omega)) fun a2 k r2 hk h5 => ?_
        have := dotted_le hk
        exact ih _ _ _ _ (by simp at hf this ⊢; omega) h5
      rw [if_neg hb2, if_neg hb2]
      obtain ⟨a2, h5, h6⟩ := At.run_back (t := none) h3 h.prefix
      refine CorrB.step h5 ?_
      exact ⟨a2, rfl, h6, At.run_back_pos (t := none) h3 h5⟩

theorem At.skip_ws {s : Bytes} {b : Byte} (h : At whole fin a none last r) (hr : Pure.ws r = b :: s) :
    At whole fin (a.skip a.rest) none false (b :: s) := by
  obtain ⟨a', h1, h2⟩ := h.run_skPk hr
  have : a' = a.skip a.rest := by
    have hs : (a.skip a.rest).peek.2 = a.skip a.rest := by unfold AScan.peek; split <;> rfl
    simp only [skPk, run, AScan.machine, AScan.skipPeek, hs] at h1
    split at h1
    · simp only [run, Prod.mk.injEq, Out.ok.injEq, true_and] at h1; exact h1.2.symm
    · simp [run] at h1
  rw [← this]; exact h2

theorem run_diverge {σ : Type} (M : Machine σ) (s : σ) (l : List Scalar) : ∀ n : List Scalar,
    (Jpv.diverge l n).run M s = match JpvPure.diff l n with
      | .ok d => ([], .ok d s)
      | .error (.plain m) => ([], .fail (.plain m))
      | .error _ => ([], .panic) := by
  induction l with
  | nil => intro n; simp [Jpv.diverge, JpvPure.diff, run]
  | cons k l ih =>
    intro n
    cases n with
    | nil => simp [Jpv.diverge, JpvPure.diff, run]
    | cons n ns =>
      rw [Jpv.diverge, JpvPure.diff]
      cases he : scalarEqual k n with
      | none => simp [run]
      | some b =>
        cases b with
        | true => exact ih ns
        | false =>
          simp only
          split <;> simp [run]

theorem diff_err {l n : List Scalar} {e : JErr} (h : JpvPure.diff l n = .error e) : e = .panic ∨ ∃ m, e = .plain m := by
  induction l generalizing n with
  | nil => simp only [JpvPure.diff, Except.error.injEq] at h; exact .inr ⟨_, h.symm⟩
  | cons k l ih =>
    cases n with
    | nil => simp only [JpvPure.diff, Except.error.injEq] at h; exact .inl h.symm
    | cons n ns =>
      rw [JpvPure.diff] at h
      cases he : scalarEqual k n with
      | none => rw [he] at h; simp only [Except.error.injEq] at h; exact .inl h.symm
      | some b =>
        rw [he] at h
        cases b with
        | true => exact ih h
        | false =>
          simp only at h
          split at h
          · simp only [Except.error.injEq] at h; exact .inr ⟨_, h.symm⟩
          · simp at h

theorem upd_err {l n : List Scalar} {e : JErr} (h : JpvPure.upd l n = .error e) : e = .panic ∨ ∃ m, e = .plain m := by
  unfold JpvPure.upd at h
  split at h
  · simp at h
  · cases hd : JpvPure.diff l n with
    | ok d => rw [hd] at h; simp [Except.map] at h
    | error e' =>
      rw [hd] at h
      simp only [Except.map, Except.error.injEq] at h
      subst h
      exact diff_err hd

theorem run_updatePath {σ : Type} (M : Machine σ) (s : σ) (l n : List Scalar) :
    (Jpv.updatePath l n).run M s = match JpvPure.upd l n with
      | .ok ts => (ts, .ok () s)
      | .error (.plain m) => ([], .fail (.plain m))
      | .error _ => ([], .panic) := by
  unfold Jpv.updatePath JpvPure.upd
  split
  · simp [run_sendAll']
  · have := run_diverge M s l n
    cases hd : JpvPure.diff l n with
    | ok d =>
      rw [hd] at this
      rw [run_bind_ok this, run_sendAll']
      simp [Except.map]
    | error e =>
      rw [hd] at this
      rcases diff_err hd with rfl | ⟨m, rfl⟩
      · simp only [Except.map]
        exact run_bind_panic this
      · simp only [Except.map]
        exact run_bind_fail this

/-- The program for a line head does what the direct description says. -/
def CorrH (whole : Bytes) (fin : RErr) (p : Prog (List Scalar)) (a : AScan) (res : Except JErr ((List Token × List Scalar) × Bytes)) :
    Prop :=
  match res with
  | .ok ((ts, path), r) => ∃ a', p.run AScan.machine a = (ts, .ok path a') ∧ At whole fin a' none false r
  | .error (.perr e) => p.run AScan.machine a = ([], .fail (toErr whole fin e))
  | .error (.plain m) => p.run AScan.machine a = ([], .fail (.plain m))
  | .error .panic => p.run AScan.machine a = ([], .panic)

theorem corrH_head {fuel : Nat} {b : Byte} (pl : List Scalar) (h : At whole fin a none last (b :: r)) (hf : r.length < fuel) :
    CorrH whole fin (Jpv.lineHead fuel pl) a (JpvPure.head fin fuel pl (b :: r)) := by
  unfold Jpv.lineHead JpvPure.head
  obtain ⟨a1, h1, h2⟩ := h.run_rd
  rw [Json.expectByte, Prog.bind_assoc]
  by_cases hd : b = c%'$'
  · subst hd
    show CorrH _ _ _ _ (if (36 : UInt8) ≠ 36 then _ else _)
    rw [if_neg (by simp)]
    have hp := corrB_path fuel [] r a1 true hf h2
    have e1 : ∀ f : Unit → Prog (List Scalar), (rd.bind fun b => (if b ≠ 36 then goBack.bind fun _ => Json.unexpected s!"expected {(36 : UInt8)}, got" else Prog.ret ()).bind f).run AScan.machine a
        = (f ()).run AScan.machine a1 := by
      intro f
      rw [run_step h1, if_neg (by simp)]; rfl
    have key : ∀ {res : Except JErr ((List Token × List Scalar) × Bytes)} {p q : Prog (List Scalar)} {a b : AScan},
        p.run AScan.machine a = q.run AScan.machine b → CorrH whole fin q b res → CorrH whole fin p a res := by
      intro res p q a b hq hr
      unfold CorrH at hr ⊢
      rw [hq]; exact hr
    refine key (e1 _) ?_
    cases hpp : JpvPure.path fin fuel [] r with
    | error e =>
      rw [hpp] at hp
      cases e with
      | perr e => exact run_bind_fail hp
      | plain m => exact run_bind_fail hp
      | panic => exact run_bind_panic hp
    | ok x =>
      obtain ⟨p, r2⟩ := x
      rw [hpp] at hp
      obtain ⟨a2, h3, h4, h5⟩ := hp
      have step : ∀ {res : Except JErr ((List Token × List Scalar) × Bytes)} {α : Type} {p : Prog α} {f : α → Prog (List Scalar)}
          {a a' : AScan} {x}, p.run AScan.machine a = ([], .ok x a') → CorrH whole fin (f x) a' res → CorrH whole fin (p.bind f) a res := by
        intro res α p f a a' x h h2
        unfold CorrH at h2 ⊢
        rw [run_step h]; exact h2
      refine step h3 ?_
      simp only [Except.bind]
      cases hw : Pure.ws r2 with
      | nil =>
        have hn := h4.skip_nil hw
        simp only [Pure.chk, up]
        by_cases he : fin = .eof
        · have hr : skRd.run AScan.machine a2 = ([], .ok eofByte (a2.skip a2.rest)) := by
            simp [skRd, run, AScan.machine, AScan.skipRead, hn.rest, AScan.atEnd, hn.fin, he]
          refine step hr ?_
          simp [CorrH, Json.checkEOF, Prog.bind, run, toErr, he]
        · have hr : skRd.run AScan.machine a2 = ([], .fail (.io fin)) := by
            simp [skRd, run, AScan.machine, AScan.skipRead, hn.rest, AScan.atEnd, hn.fin, he]
          exact run_bind_fail hr
      | cons c r3 =>
        have hs := h4.skip_ws hw
        have hr : skRd.run AScan.machine a2 =
            ([], .ok c { (a2.skip a2.rest).take1 c r3 with prevPos := (a2.skip a2.rest).prevPos }) := by
          simp [skRd, run, AScan.machine, AScan.skipRead, hs.rest]
        refine step hr ?_
        by_cases hc0 : c = eofByte
        · simp [CorrH, Json.checkEOF, Prog.bind, run, toErr, hc0, Pure.chk, up]
        simp only [Json.checkEOF, hc0, if_false, Prog.bind, Pure.chk, up]
        by_cases hc : c = c%'='
        · subst hc
          rw [if_neg (by simp), if_neg (by simp)]
          have hu := run_updatePath AScan.machine { (a2.skip a2.rest).take1 61 r3 with prevPos := (a2.skip a2.rest).prevPos } pl p
          cases hup : JpvPure.upd pl p with
          | ok ts =>
            rw [hup] at hu
            refine ⟨{ (a2.skip a2.rest).take1 61 r3 with prevPos := (a2.skip a2.rest).prevPos }, ?_, ?_⟩
            · rw [run_bind_ok hu]; simp [run]
            · have := hs.take1
              obtain ⟨d, g1, g2, g3⟩ := this.split
              exact ⟨this.rest, this.fin, this.tok, this.eof, d, g1, g2, by simp⟩
          | error e =>
            rw [hup] at hu
            rcases upd_err hup with rfl | ⟨m, rfl⟩
            · exact run_bind_panic hu
            · exact run_bind_fail hu
        · rw [if_pos hc, if_pos hc]
          refine run_bind_panic ?_
          have hb : AScan.back { (a2.skip a2.rest).take1 c r3 with prevPos := (a2.skip a2.rest).prevPos } = .error true := by
            unfold AScan.back
            rw [if_pos (.inl (by simp only [AScan.skip_prevPos]; exact h5))]
          simp only [goBack, run, AScan.machine, hb]
  · show CorrH _ _ _ _ (if b ≠ 36 then _ else _)
    rw [if_pos hd]
    have hw := h.prefix
    obtain ⟨a3, h5, h6⟩ := At.run_back (t := none) h2 hw
    show (_ : Prog _).run _ _ = _
    rw [run_step h1, if_pos hd, Prog.bind_assoc, run_step h5]
    exact run_bind_fail (h6.run_unexpected _)

/-- The program does what the direct description says. -/
def CorrR (whole : Bytes) (fin : RErr) (p : Prog Unit) (a : AScan) (x : JpvPure.JRes) : Prop :=
  match x with
  | (ts, some (.ok r)) => ∃ a', p.run AScan.machine a = (ts, .ok () a')
  | (ts, some (.error (.perr e))) => p.run AScan.machine a = (ts, .fail (toErr whole fin e))
  | (ts, some (.error (.plain m))) => p.run AScan.machine a = (ts, .fail (.plain m))
  | (ts, some (.error .panic)) => p.run AScan.machine a = (ts, .panic)
  | (ts, none) => p.run AScan.machine a = (ts, .oof)

theorem CorrR.pre {p q : Prog Unit} {a a' : AScan} {ts : List Token} {x : JpvPure.JRes}
    (h : p.run AScan.machine a = (ts ++ (q.run AScan.machine a').1, (q.run AScan.machine a').2)) (hq : CorrR whole fin q a' x) :
    CorrR whole fin p a (ts ++ x.1, x.2) := by
  obtain ⟨us, x⟩ := x
  match x, hq with
  | none, hq => simp only [CorrR] at hq ⊢; rw [h, hq]
  | some (.ok r), ⟨a2, hq⟩ => refine ⟨a2, ?_⟩; rw [h, hq]
  | some (.error (.perr e)), hq => simp only [CorrR] at hq ⊢; rw [h, hq]
  | some (.error (.plain e)), hq => simp only [CorrR] at hq ⊢; rw [h, hq]
  | some (.error .panic), hq => simp only [CorrR] at hq ⊢; rw [h, hq]

theorem path_le (fuel : Nat) : ∀ {p r x}, JpvPure.path fin fuel p r = .ok x → x.2.length ≤ r.length := by
  induction fuel with
  | zero => intro p r x h; simp [JpvPure.path] at h
  | succ fuel ih =>
    intro p r x h
    rw [JpvPure.path] at h
    cases hk : Pure.chk fin r with
    | error e => rw [hk] at h; simp [up, Except.bind] at h
    | ok y =>
      rw [hk] at h
      simp only [up, Except.bind] at h
      have h1 := congrArg List.length (Pure.chk_ok hk).1
      simp only [List.length_cons] at h1
      split at h
      · cases hb : JpvPure.bracket fin y.2 with
        | error e => rw [hb] at h; simp at h
        | ok k =>
          rw [hb] at h
          have := ih h
          have := bracket_le hb
          omega
      split at h
      · cases hb : JpvPure.dotted fin y.2 with
        | error e => rw [hb] at h; simp at h
        | ok k =>
          rw [hb] at h
          have := ih h
          have := dotted_le hb
          omega
      · simp only [Except.ok.injEq] at h; subst h; simp

theorem head_le {fuel : Nat} {b : Byte} {pl : List Scalar} {ts p r2} (h : JpvPure.head fin fuel pl (b :: r) = .ok ((ts, p), r2)) :
    r2.length < r.length := by
  simp only [JpvPure.head] at h
  split at h
  · simp at h
  · cases hp : JpvPure.path fin fuel [] r with
    | error e => rw [hp] at h; simp [Except.bind] at h
    | ok x =>
      rw [hp] at h
      simp only [Except.bind] at h
      cases hk : Pure.chk fin (Pure.ws x.2) with
      | error e => rw [hk] at h; simp [up] at h
      | ok y =>
        rw [hk] at h
        simp only [up] at h
        split at h
        · simp at h
        · cases hu : JpvPure.upd pl x.1 with
          | error e => rw [hu] at h; simp [Except.map] at h
          | ok ts' =>
            rw [hu] at h
            simp only [Except.map, Except.ok.injEq, Prod.mk.injEq] at h
            have h1 := congrArg List.length (Pure.chk_ok hk).1
            have h2 := path_le fuel hp
            have h3 := Pure.ws_le x.2
            simp only [List.length_cons] at h1
            rw [← h.2]; omega

theorem corrR_produce (vfuel : Nat) (n : Nat) : ∀ (pl : List Scalar) (r : Bytes) (a : AScan) (last : Bool),
    2 * r.length + 1 ≤ vfuel → r.length + 1 ≤ n → At whole fin a none last r →
    CorrR whole fin (Jpv.produce vfuel n pl) a (JpvPure.produce fin vfuel n pl r) := by
  induction n with
  | zero => intro pl r a last _ h; omega
  | succ n ih =>
    intro pl r a last hv hn h
    rw [Jpv.produce, JpvPure.produce]
    cases hw : Pure.ws r with
    | nil =>
      have h1 := h.run_skPk_nil hw
      by_cases he : fin = .eof
      · obtain ⟨a', h3, _⟩ := h1.1 he
        have hg : (Jpv.guarded pl skPk).run AScan.machine a = ([], .ok eofByte a') := by
          rw [run_guarded, h3]; rfl
        simp only [he, if_true]
        refine ⟨a', ?_⟩
        rw [run_step hg, if_pos rfl, run_sendAll']
      · have hg : (Jpv.guarded pl skPk).run AScan.machine a = (Jpv.unwind pl false, .fail (.io fin)) := by
          rw [run_guarded, h1.2 he]; rfl
        simp only [he, if_false]
        exact run_bind_fail hg
    | cons b r' =>
      obtain ⟨a', h3, h4⟩ := h.run_skPk hw
      have hg : (Jpv.guarded pl skPk).run AScan.machine a = ([], .ok b a') := by
        rw [run_guarded, h3]; rfl
      have hl := Pure.ws_le r
      rw [hw, List.length_cons] at hl
      simp only
      by_cases hb : b = eofByte
      · simp only [hb, if_true]
        refine ⟨a', ?_⟩
        rw [run_step hg, if_pos hb, run_sendAll']
      simp only [hb, if_false]
      have hh := corrH_head pl (last := false) (fuel := vfuel) (h := by simpa using h4) (by omega)
      have hcong : ∀ {x : JRes} {p q : Prog Unit} {a b : AScan}, p.run AScan.machine a = q.run AScan.machine b →
          CorrR whole fin q b x → CorrR whole fin p a x := by
        intro x p q a b h hq
        have := CorrR.pre (ts := []) (by simpa using h) hq
        simpa using this
      refine hcong (run_step hg) ?_
      rw [if_neg hb]
      cases hp : JpvPure.head fin vfuel pl (b :: r') with
      | error e =>
        rw [hp] at hh
        cases e with
        | perr e =>
          have hg2 : (Jpv.guarded pl (Jpv.lineHead vfuel pl)).run AScan.machine a' = (Jpv.unwind pl false, .fail (toErr whole fin e)) := by
            rw [run_guarded, hh]; rfl
          exact run_bind_fail hg2
        | plain m =>
          have hg2 : (Jpv.guarded pl (Jpv.lineHead vfuel pl)).run AScan.machine a' = (Jpv.unwind pl false, .fail (.plain m)) := by
            rw [run_guarded, hh]; rfl
          exact run_bind_fail hg2
        | panic =>
          have hg2 : (Jpv.guarded pl (Jpv.lineHead vfuel pl)).run AScan.machine a' = ([], .panic) := by
            rw [run_guarded, hh]; rfl
          exact run_bind_panic hg2
      | ok x =>
        obtain ⟨⟨ts, p⟩, r2⟩ := x
        rw [hp] at hh
        have hle := head_le hp
        obtain ⟨a2, h5, h6⟩ := hh
        have hg2 : (Jpv.guarded pl (Jpv.lineHead vfuel pl)).run AScan.machine a' = (ts, .ok p a2) := by
          rw [run_guarded, h5]; rfl
        have hval := (corrP vfuel).1 r2 a2 false (by omega) h6
        have hfit := (Pure.fits fin vfuel).1 r2 (by omega)
        simp only [JpvPure.line]
        cases hvv : Pure.value fin vfuel r2 with
        | mk vs x =>
          rw [hvv] at hval hfit
          cases x with
          | none =>
            have hg3 : (Jpv.guarded p (Json.parseValue vfuel)).run AScan.machine a2 = (vs, .oof) := by
              rw [run_guarded, hval]; rfl
            simp only [body, CorrR]
            rw [run_bind_ok hg2, run_bind_oof hg3]
          | some x =>
            cases x with
            | error e =>
              have hg3 : (Jpv.guarded p (Json.parseValue vfuel)).run AScan.machine a2 = (vs ++ Jpv.unwind p false, .fail (toErr whole fin e)) := by
                rw [run_guarded, hval]; rfl
              simp only [body, CorrR]
              rw [run_bind_ok hg2, run_bind_fail hg3]
            | ok r3 =>
              obtain ⟨a3, h7, h8⟩ := hval
              have hg3 : (Jpv.guarded p (Json.parseValue vfuel)).run AScan.machine a2 = (vs, .ok () a3) := by
                rw [run_guarded, h7]; rfl
              simp only [Pure.Fits] at hfit
              have hrec := ih p r3 a3 false (by omega) (by omega) h8
              simp only [body]
              rw [← List.append_assoc]
              refine CorrR.pre (ts := ts ++ vs) ?_ hrec
              rw [run_bind_ok hg2, run_bind_ok hg3]
              simp

end Verif
