import Verif.Formats

/-! # Lemmas on the matching of regular expressions -/

namespace Verif

open Cmd

theorem full_never (s : Bytes) : Re.never.full s = false := by
  induction s with
  | nil => rfl
  | cons b s ih => exact ih

theorem full_alt (a b : Re) (s : Bytes) : (Re.alt a b).full s = (a.full s || b.full s) := by
  induction s generalizing a b with
  | nil => rfl
  | cons c s ih => exact ih _ _

theorem full_never_seq (a : Re) (s : Bytes) : (Re.seq .never a).full s = false := by
  induction s with
  | nil => rfl
  | cons b s ih => exact ih

theorem full_eps_seq (a : Re) (s : Bytes) : (Re.seq .eps a).full s = a.full s := by
  cases s with
  | nil => simp [Re.full, Re.nullable]
  | cons b s =>
    show (Re.alt (.seq .never a) (a.deriv b)).full s = _
    rw [full_alt, full_never_seq, Bool.false_or]
    rfl

theorem full_any (s : Bytes) : Re.any.full s = true := by
  induction s with
  | nil => rfl
  | cons b s ih =>
    show (Re.seq .eps Re.any).full s = true
    rw [full_eps_seq, ih]

end Verif
