import Verif.CsvLines
import Verif.Rfc4180

/-!
# The reader of `encoding/csv` reads exactly the grammar
-/

set_option linter.unusedSimpArgs false
set_option linter.unusedVariables false

namespace Verif.Csv
open Rfc4180

/-! ## Line breaks -/

theorem crlf_append {a b : Bytes} (h : b.head? ≠ some c%'\n' ∨ a.getLast? ≠ some c%'\r') : crlf (a ++ b) = crlf a ++ crlf b := by
  induction a with
  | nil => rfl
  | cons x a ih =>
    have ih' : crlf (a ++ b) = crlf a ++ crlf b := by
      apply ih
      rcases h with h | h
      · exact .inl h
      · cases a with
        | nil => exact .inr (by simp)
        | cons y a => exact .inr (by simpa using h)
    simp only [List.cons_append, crlf, ih']
    cases a with
    | nil =>
      simp only [List.nil_append, crlf, List.head?_nil]
      rcases h with h | h
      · rw [if_neg fun h' => h h'.2]; simp
      · rw [if_neg fun h' => h (by simp [h'.1])]; simp
    | cons y a =>
      simp only [List.cons_append, List.head?_cons]
      by_cases hc : x = c%'\r' ∧ some y = some c%'\n'
      · simp only [hc.1, hc.2, and_self, if_true]
      · simp only [hc, if_false]; rfl

theorem crlf_none {a : Bytes} (h : c%'\n' ∉ a) : crlf a = a := by
  induction a with
  | nil => rfl
  | cons x a ih =>
    have h' : c%'\n' ∉ a := fun h' => h (List.mem_cons_of_mem _ h')
    unfold crlf
    rw [ih h', if_neg]
    rintro ⟨_, h2⟩
    cases a with
    | nil => simp at h2
    | cons y a => simp at h2; subst h2; simp at h'

theorem mem_crlf {a : Bytes} : c%'\n' ∈ crlf a ↔ c%'\n' ∈ a := by
  induction a with
  | nil => simp [crlf]
  | cons x a ih =>
    unfold crlf
    split
    · rename_i h; rw [ih, h.1]; simp
    · simp [ih]

theorem crlf_length (a : Bytes) : (crlf a).length ≤ a.length := by
  induction a with
  | nil => simp [crlf]
  | cons x a ih =>
    unfold crlf
    split
    · simp; omega
    · simpa using ih

/-- `readLine` on a text in which CRLF has become LF. -/
def plainLine (fin : RErr) (T : Bytes) : Bytes × Option RErr × Bytes :=
  if c%'\n' ∈ T then (lineOf T, none, T.drop (lineOf T).length) else ((finishLine T (some fin)).1, (finishLine T (some fin)).2, [])

theorem lineOf_split {s : Bytes} (h : c%'\n' ∈ s) : ∃ l t, c%'\n' ∉ l ∧ s = l ++ c%'\n' :: t ∧ lineOf s = l ++ [c%'\n'] := by
  induction s with
  | nil => cases h
  | cons b s ih =>
    by_cases hb : b = c%'\n'
    · subst hb; exact ⟨[], s, by simp, by simp, by simp [lineOf]⟩
    · have hm : c%'\n' ∈ s := by
        rcases List.mem_cons.1 h with h | h
        · exact absurd h.symm hb
        · exact h
      obtain ⟨l, t, h1, h2, h3⟩ := ih hm
      refine ⟨b :: l, t, by simp [h1, Ne.symm hb], by simp [h2], ?_⟩
      have e : lineOf (b :: s) = b :: lineOf s := by simp [lineOf, hb]
      rw [e, h3]; simp

theorem lineOf_eq {l t : Bytes} (h : c%'\n' ∉ l) : lineOf (l ++ c%'\n' :: t) = l ++ [c%'\n'] := by
  rw [lineOf_append h]; simp [lineOf]

theorem finish_nl {l : Bytes} (h : c%'\n' ∉ l) : finishLine (l ++ [c%'\n']) none = (crlf (l ++ [c%'\n']), none) := by
  unfold finishLine
  simp only [reduceCtorEq, and_false, if_false]
  by_cases hl : l.getLast? = some c%'\r'
  · obtain ⟨l', rfl⟩ := List.getLast?_eq_some_iff.1 hl
    have hl' : c%'\n' ∉ l' := fun h' => h (by simp [h'])
    rw [if_pos ⟨l', by simp⟩]
    rw [List.append_assoc, crlf_append (.inl (by simp)), crlf_none hl']
    simp [crlf]
  · rw [crlf_append (.inr hl), crlf_none h]
    have : crlf [c%'\n'] = [c%'\n'] := by decide
    rw [this, if_neg]
    rintro ⟨t, ht⟩
    have e : t ++ [c%'\r'] ++ [c%'\n'] = l ++ [c%'\n'] := by rw [← ht]; simp
    have := List.append_cancel_right e
    rw [← this] at hl
    simp at hl

theorem same_crlf (fin : RErr) : Same (textLine fin) (plainLine fin) (fun D T => T = crlf D) := by
  rintro D T rfl
  unfold textLine plainLine
  by_cases h : c%'\n' ∈ D
  · rw [if_pos h, if_pos (mem_crlf.2 h)]
    obtain ⟨l, t, h1, rfl, h3⟩ := lineOf_split h
    rw [h3, finish_nl h1]
    have e : crlf (l ++ c%'\n' :: t) = crlf (l ++ [c%'\n']) ++ crlf t := by
      rw [← crlf_append (.inr (by simp))]; simp
    have hm : c%'\n' ∈ crlf (l ++ [c%'\n']) := mem_crlf.2 (by simp)
    have hl : lineOf (crlf (l ++ [c%'\n'])) = crlf (l ++ [c%'\n']) := by
      by_cases hl : l.getLast? = some c%'\r'
      · obtain ⟨l', rfl⟩ := List.getLast?_eq_some_iff.1 hl
        have hl' : c%'\n' ∉ l' := fun h' => h1 (by simp [h'])
        rw [List.append_assoc, crlf_append (.inl (by simp)), crlf_none hl']
        have : crlf ([c%'\r'] ++ [c%'\n']) = [c%'\n'] := by decide
        rw [this]
        exact lineOf_eq (t := []) hl'
      · rw [crlf_append (.inr hl), crlf_none h1]
        have : crlf [c%'\n'] = [c%'\n'] := by decide
        rw [this]
        exact lineOf_eq (t := []) h1
    have hl2 : lineOf (crlf (l ++ c%'\n' :: t)) = crlf (l ++ [c%'\n']) := by rw [e, (mem_lineOf hm).1, hl]
    refine ⟨hl2.symm, rfl, ?_⟩
    rw [hl2]
    simp only
    rw [e]
    simp
  · rw [if_neg h, if_neg (fun h' => h (mem_crlf.1 h')), crlf_none h]
    exact ⟨rfl, rfl, rfl⟩

end Verif.Csv
