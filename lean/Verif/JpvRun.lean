import Verif.JpvPure
import Verif.JsonFuel

/-!
# Runs of the JPV decoder on the buffered scanner (helper lemmas)
-/

set_option linter.unusedVariables false

namespace Verif

namespace Jpv
open Prog

theorem dead_sendAll {α : Type} (ts : List Token) {q : Prog α} (h : Dead q) : Dead ((sendAll ts).bind fun _ => q) := by
  induction ts with
  | nil => exact h
  | cons t ts ih => exact .emit t ih

theorem strong_sendAll (ts : List Token) : Strong (sendAll ts) := by
  induction ts with
  | nil => exact .ret _
  | cons t ts ih => exact .emit t ih

theorem dead_guarded {α : Type} (last : List Scalar) {p : Prog α} (h : Dead p) : Dead (guarded last p) := by
  unfold guarded
  induction h with
  | fail e => exact dead_sendAll _ (.fail e)
  | crash => exact .crash
  | oof => exact .oof
  | emit t _ ih => exact .emit t ih

theorem strong_guarded {α : Type} (last : List Scalar) {p : Prog α} (h : Strong p) : Strong (guarded last p) := by
  have hd : ∀ {p : Prog α}, Dead p → Dead (p.catch_.bind fun
    | .ok a => .ret a
    | .error e => (sendAll (unwind last false)).bind fun _ => .fail e) := fun h => dead_guarded last h
  unfold guarded
  induction h with
  | ret a => exact .ret a
  | fail e => exact (strong_sendAll _).bind fun _ => .fail e
  | crash => exact .crash
  | oof => exact .oof
  | emit t _ ih => exact .emit t ih
  | read h1 _ ih => exact .read (fun e => hd (h1 e)) ih
  | peek h1 _ ih => exact .peek (fun e => hd (h1 e)) ih
  | skipPeek h1 _ ih => exact .skipPeek (fun e => hd (h1 e)) ih
  | skipRead h1 _ ih => exact .skipRead (fun e => hd (h1 e)) ih
  | back _ ih => exact .back ih
  | startToken _ ih => exact .startToken ih
  | endToken _ ih => exact .endToken ih
  | currentPos _ ih => exact .currentPos ih

theorem strong_closeElem (b : Byte) (k : Scalar) : Strong (closeElem b k) := .ite (.fail _) (.ret _)

theorem strong_bracket (fuel : Nat) : Strong (bracket fuel) :=
  Strong.pk.bind fun b => (Json.strong_checkEOF b).bind fun b => .ite
    ((Json.strong_parseString fuel).bind fun _ => Json.strong_rdChk.bind fun _ => strong_closeElem _ _)
    (Strong.start.bind fun _ => (Json.strong_readDigits _ _).bind fun _ => .ite (Json.strong_bad _)
      (Strong.finish.bind fun _ => strong_closeElem _ _))

theorem strong_dottedLoop (fuel : Nat) : Strong (dottedLoop fuel) := by
  induction fuel with
  | zero => exact .oof
  | succ n ih =>
    exact Json.strong_rdChk.bind fun b => .ite ih (Strong.goBack.bind fun _ => Strong.finish.bind fun _ => .ret _)

theorem strong_dotted (fuel : Nat) : Strong (dotted fuel) :=
  Strong.start.bind fun _ => Json.strong_rdChk.bind fun _ => .ite (strong_dottedLoop _) (Json.strong_bad _)

theorem strong_parsePath (fuel : Nat) : ∀ p, Strong (parsePath fuel p) := by
  induction fuel with
  | zero => intro p; exact .oof
  | succ n ih =>
    intro p
    exact Json.strong_rdChk.bind fun b => .ite ((strong_bracket _).bind fun _ => ih _)
      (.ite ((strong_dotted _).bind fun _ => ih _) (Strong.goBack.bind fun _ => .ret _))

theorem strong_diverge (l : List Scalar) : ∀ n, Strong (diverge l n) := by
  induction l with
  | nil => intro n; exact .fail _
  | cons k l ih =>
    intro n
    cases n with
    | nil => exact .crash
    | cons n ns =>
      rw [diverge]
      split
      · exact .crash
      · exact ih _
      · exact .ite (.fail _) (.ret _)

theorem strong_updatePath (l n : List Scalar) : Strong (updatePath l n) :=
  .ite (strong_sendAll _) ((strong_diverge _ _).bind fun _ => strong_sendAll _)

theorem strong_lineHead (fuel : Nat) (last : List Scalar) : Strong (lineHead fuel last) :=
  (Json.strong_expectByte _).bind fun _ => (strong_parsePath _ _).bind fun _ => Strong.skRd.bind fun b =>
    (Json.strong_checkEOF b).bind fun b => .ite (Json.strong_bad _) ((strong_updatePath _ _).bind fun _ => .ret _)

theorem strong_produce (v n : Nat) : ∀ last, Strong (produce v n last) := by
  induction n with
  | zero => intro last; exact .oof
  | succ n ih =>
    intro last
    exact (strong_guarded _ Strong.skPk).bind fun b => .ite (strong_sendAll _)
      ((strong_guarded _ (strong_lineHead _ _)).bind fun _ =>
        (strong_guarded _ (Json.strong_values v).1).bind fun _ => ih _)

end Jpv

open JpvPure

/-- What a run of the decoder gives, in terms of the direct description. -/
def outOfJ (whole : Bytes) (fin : RErr) (x : JRes) : List Token × Out Unit Unit :=
  match x with
  | (ts, some (.ok _)) => (ts, .ok () ())
  | (ts, some (.error (.perr e))) => (ts, .fail (toErr whole fin e))
  | (ts, some (.error (.plain m))) => (ts, .fail (.plain m))
  | (ts, some (.error .panic)) => (ts, .panic)
  | (ts, none) => (ts, .oof)

theorem CorrR.result {whole : Bytes} {fin : RErr} {p : Prog Unit} {a : AScan} {x : JRes} (h : CorrR whole fin p a x) :
    p.result AScan.machine a = outOfJ whole fin x := by
  obtain ⟨ts, x⟩ := x
  match x, h with
  | none, h => simp only [CorrR] at h; simp [Prog.result, h, outOfJ, Out.erase]
  | some (.error (.perr e)), h => simp only [CorrR] at h; simp [Prog.result, h, outOfJ, Out.erase]
  | some (.error (.plain e)), h => simp only [CorrR] at h; simp [Prog.result, h, outOfJ, Out.erase]
  | some (.error .panic), h => simp only [CorrR] at h; simp [Prog.result, h, outOfJ, Out.erase]
  | some (.ok r), ⟨a', h⟩ => simp [Prog.result, h, outOfJ, Out.erase]

theorem outOfJ_ne_stuck (D : Bytes) (fin : RErr) (x : JRes) : (outOfJ D fin x).2 ≠ .stuck := by
  obtain ⟨ts, x⟩ := x
  match x with
  | none => simp [outOfJ]
  | some (.error (.perr e)) => simp [outOfJ]
  | some (.error (.plain e)) => simp [outOfJ]
  | some (.error .panic) => simp [outOfJ]
  | some (.ok r) => simp [outOfJ]

/-- A run of the JPV decoder on the buffered scanner. -/
theorem jpvDecodeFrom_eq (r : Reader) (size : Nat) (hs : 2 ≤ size) :
    ∃ D fin, Delivers r D fin ∧ Jpv.decodeFrom r size =
      outOfJ D fin (JpvPure.produce fin (Json.fuelFor r.rest.length) (Json.fuelFor r.rest.length) [] D) := by
  obtain ⟨D, fin, hd, hx⟩ := simulation_new (Jpv.produce (Json.fuelFor r.rest.length) (Json.fuelFor r.rest.length) [])
    (Jpv.strong_produce _ _ _).failStop r size hs
  refine ⟨D, fin, hd, ?_⟩
  have hl := hd.le
  have hc := (corrR_produce (Json.fuelFor r.rest.length) (Json.fuelFor r.rest.length) [] D (AScan.new D fin) false
    (by unfold Json.fuelFor; omega) (by unfold Json.fuelFor; omega) (At.new D fin)).result
  rw [hc] at hx
  rcases hx with hx | hx
  · exact absurd hx (outOfJ_ne_stuck _ _ _)
  · exact hx

/-- For a reader that makes progress. -/
theorem jpvDecodeFrom_fair (r : Reader) (size : Nat) (hs : 2 ≤ size) (hf : Fair r.sched) :
    Jpv.decodeFrom r size =
      outOfJ r.rest r.fin (JpvPure.produce r.fin (Json.fuelFor r.rest.length) (Json.fuelFor r.rest.length) [] r.rest) := by
  obtain ⟨D, fin, hd, hx⟩ := jpvDecodeFrom_eq r size hs
  rcases hd with ⟨rfl, rfl⟩ | ⟨h, _⟩
  · exact hx
  · exact absurd hf h

end Verif
