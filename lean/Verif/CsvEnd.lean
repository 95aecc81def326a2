import Verif.CsvFuel

/-!
# The line feed at the end of a CSV text (helper lemmas)
-/

set_option linter.unusedSimpArgs false
set_option linter.unusedVariables false

namespace Verif.Csv
open Rfc4180

theorem textLine_size (fin : RErr) (D : Bytes) : (textLine fin D).1.length + (textLine fin D).2.2.length ≤ D.length := by
  unfold textLine
  split
  · rename_i h
    have h2 := (mem_lineOf (t := []) h).2
    have h3 := finish_size (lineOf D) none
    simp only [List.length_drop]
    omega
  · exact finish_size _ _

/-- The first line of a text, without and with a line feed at the end. -/
theorem textLine_nl (D : Bytes) :
    ((textLine .eof D).2.1 = none ∧ textLine .eof (D ++ [c%'\n']) = ((textLine .eof D).1, none, (textLine .eof D).2.2 ++ [c%'\n'])) ∨
    (∃ l, c%'\n' ∉ l ∧ textLine .eof D = (l, none, []) ∧ textLine .eof (D ++ [c%'\n']) = (l ++ [c%'\n'], none, []) ∧ l.length ≤ D.length) ∨
    D = [] := by
  by_cases h : c%'\n' ∈ D
  · left
    obtain ⟨h1, h2⟩ := mem_lineOf (t := [c%'\n']) h
    unfold textLine
    rw [if_pos h, if_pos (by simp), h1, finishLine_none]
    exact ⟨rfl, by rw [List.drop_append_of_le_length h2]⟩
  · right
    by_cases hD : D = []
    · exact .inr hD
    · left
      have hp : 0 < D.length := List.length_pos_iff.2 hD
      have hl : lineOf (D ++ [c%'\n']) = D ++ [c%'\n'] := by rw [lineOf_append h]; rfl
      have no : ∀ l : Bytes, c%'\n' ∉ l → ¬ [c%'\r', c%'\n'] <:+ l := fun l hl hs => hl (hs.subset (by simp))
      have e1 : textLine .eof D = (if D.getLast? = some c%'\r' then D.dropLast else D, none, []) := by
        unfold textLine
        rw [if_neg h]
        have hn : c%'\n' ∉ (if D.getLast? = some c%'\r' then D.dropLast else D) := by
          split
          · exact fun hm => h (List.dropLast_subset _ hm)
          · exact h
        unfold finishLine
        rw [if_pos ⟨hp, rfl⟩]
        simp only [if_neg (no _ hn)]
      have e2 : textLine .eof (D ++ [c%'\n']) = ((if D.getLast? = some c%'\r' then D.dropLast else D) ++ [c%'\n'], none, []) := by
        unfold textLine
        rw [if_pos (by simp), hl]
        unfold finishLine
        rw [if_neg (by simp)]
        have hd : (D ++ [c%'\n']).drop (D ++ [c%'\n']).length = [] := List.drop_eq_nil_of_le (Nat.le_refl _)
        rw [hd]
        simp only
        by_cases hr : D.getLast? = some c%'\r'
        · obtain ⟨D', rfl⟩ := List.getLast?_eq_some_iff.1 hr
          rw [if_pos hr, if_pos ⟨D', by simp⟩]
          simp
        · rw [if_neg hr, if_neg]
          rintro ⟨x, hx⟩
          refine hr (List.getLast?_eq_some_iff.2 ⟨x, ?_⟩)
          have : x ++ [c%'\r'] ++ [c%'\n'] = D ++ [c%'\n'] := by rw [← hx]; simp
          exact (List.append_cancel_right this).symm
      refine ⟨_, ?_, e1, e2, ?_⟩
      · split
        · exact fun hm => h (List.dropLast_subset _ hm)
        · exact h
      · split
        · simp
        · exact Nat.le_refl _

private abbrev rl := textLine .eof

theorem rl_nil : textLine .eof [] = ([], some .eof, []) := rfl

theorem lengthNL_no {l : Bytes} (h : c%'\n' ∉ l) : lengthNL l = 0 := by
  unfold lengthNL
  rw [if_neg fun e => h (List.mem_of_getLast? e)]

theorem lengthNL_end (l : Bytes) : lengthNL (l ++ [c%'\n']) = 1 := by simp [lengthNL]

theorem skip_nil {f : Nat} (h : 0 < f) : skipLines (textLine .eof) f [] = ([], some .eof, []) := by
  obtain ⟨f, rfl⟩ : ∃ k, f = k + 1 := ⟨f - 1, by omega⟩
  simp [skipLines, rl_nil]

theorem skip_nl : ∀ (f : Nat) (D : Bytes), D.length + 2 ≤ f →
    ((skipLines rl f D).2.1 = none ∧ skipLines rl f (D ++ [c%'\n']) = ((skipLines rl f D).1, none, (skipLines rl f D).2.2 ++ [c%'\n']) ∧
      (skipLines rl f D).1.length + (skipLines rl f D).2.2.length ≤ D.length) ∨
    (∃ l, c%'\n' ∉ l ∧ skipLines rl f D = (l, none, []) ∧ skipLines rl f (D ++ [c%'\n']) = (l ++ [c%'\n'], none, []) ∧ l.length ≤ D.length) ∨
    ((skipLines rl f D).2.1 = some .eof ∧ skipLines rl f (D ++ [c%'\n']) = skipLines rl f D)
  | 0, D, h => by omega
  | f + 1, D, h => by
    rcases textLine_nl D with ⟨h1, h2⟩ | ⟨l, hl, h1, h2, h3⟩ | rfl
    · have hs := textLine_size .eof D
      simp only [skipLines, rl, h2]
      by_cases hne : D = []
      · subst hne; cases h1
      have hlt : (textLine .eof D).2.2.length < D.length := by
        unfold textLine
        split
        · rename_i hm
          have := (mem_lineOf (t := []) hm).2
          have : 0 < (lineOf D).length := by simp [lineOf]
          simp only [List.length_drop]
          omega
        · exact List.length_pos_iff.2 hne
      generalize textLine .eof D = x at h1 hs hlt
      obtain ⟨l, e, s⟩ := x
      simp only at h1 hs hlt ⊢
      subst h1
      by_cases hb : l.length = lengthNL l
      · simp only [hb, and_self, if_true]
        rcases skip_nl f s (by omega) with ⟨a, b, c⟩ | ⟨l, a, b, c, d⟩ | a
        · exact .inl ⟨a, b, by have := c; simp only [rl] at this; omega⟩
        · exact .inr (.inl ⟨l, a, b, c, by omega⟩)
        · exact .inr (.inr a)
      · simp only [hb, and_false, if_false]
        exact .inl ⟨trivial, trivial, hs⟩
    · simp only [skipLines, rl, h1, h2, lengthNL_no hl, lengthNL_end, List.length_append, List.length_singleton]
      by_cases hn : l = []
      · subst hn
        simp only [List.length_nil, and_self, if_true, Nat.zero_add]
        right; right
        rw [skip_nil (by omega)]
        simp
      · have : l.length ≠ 0 := fun h => hn (List.length_eq_zero_iff.1 h)
        rw [if_neg (by omega), if_neg (by omega)]
        exact .inr (.inl ⟨l, hl, rfl, rfl, h3⟩)
    · right; right
      rw [skip_nil (by omega)]
      refine ⟨rfl, ?_⟩
      have e : textLine .eof ([] ++ [c%'\n']) = ([c%'\n'], none, []) := by decide
      simp only [skipLines, rl, e]
      rw [if_pos (by decide), skip_nil (by simp at h; omega)]

theorem drop_nl {l : Bytes} {n : Nat} (h : n ≤ l.length) : (l ++ [c%'\n']).drop n = l.drop n ++ [c%'\n'] := List.drop_append_of_le_length h

theorem takeWhile_nl {l : Bytes} {c : Byte} (h : c ∈ l) (x : Bytes) : (l ++ x).takeWhile (· ≠ c) = l.takeWhile (· ≠ c) ∧ (l.takeWhile (· ≠ c)).length < l.length := by
  induction l with
  | nil => cases h
  | cons b l ih =>
    by_cases hb : b = c
    · subst hb; simp
    · have : c ∈ l := by
        rcases List.mem_cons.1 h with rfl | h
        · exact absurd rfl hb
        · exact h
      have := ih this
      simp only [List.cons_append, List.takeWhile_cons, hb, ne_eq, not_false_eq_true, decide_true, if_true, List.length_cons]
      simp only [ne_eq] at this
      exact ⟨by rw [this.1], by omega⟩

/-- The last line, without and with a line feed. -/
theorem fields_last : ∀ (f : Nat) (l : Bytes) (acc : List Bytes) (cur : Option Bytes), l.length + 3 ≤ f → c%'\n' ∉ l →
    parseFields rl f [] (l ++ [c%'\n']) none acc cur = parseFields rl f [] l none acc cur ∧ (parseFields rl f [] l none acc cur).2.2 = []
  | 0, _, _, _, h, _ => by omega
  | f + 1, l, acc, none, hf, hl => by
    have hh : ((l ++ [c%'\n']).head? ≠ some c%'"') = (l.head? ≠ some c%'"') := by
      cases l with
      | nil => simp
      | cons b l => rfl
    have hm : (c%',' ∈ l ++ [c%'\n']) = (c%',' ∈ l) := by simp
    simp only [parseFields, hh, hm]
    split
    · split
      · rename_i hc
        have hw := takeWhile_nl hc [c%'\n']
        simp only [hw.1]
        split
        · exact ⟨rfl, rfl⟩
        · rw [drop_nl (by omega)]
          refine fields_last f _ _ none ?_ (fun h => hl (List.mem_of_mem_drop h))
          simp only [List.length_drop]
          omega
      · have e : (l ++ [c%'\n']).take ((l ++ [c%'\n']).length - lengthNL (l ++ [c%'\n'])) = l.take (l.length - lengthNL l) := by
          rw [lengthNL_end, lengthNL_no hl]
          simp
        rw [e]
        split <;> exact ⟨rfl, rfl⟩
    · rename_i hq
      have : 0 < l.length := by
        cases l with
        | nil => simp at hq
        | cons b l => simp
      rw [drop_nl (by omega)]
      refine fields_last f _ _ _ ?_ (fun h => hl (List.mem_of_mem_drop h))
      simp only [List.length_drop]
      omega
  | f + 1, l, acc, some cur, hf, hl => by
    have hm : (c%'"' ∈ l ++ [c%'\n']) = (c%'"' ∈ l) := by simp
    simp only [parseFields, hm]
    split
    · rename_i hc
      have hw := takeWhile_nl hc [c%'\n']
      simp only [hw.1]
      rw [drop_nl (by omega)]
      have hr : c%'\n' ∉ l.drop ((l.takeWhile (· ≠ c%'"')).length + 1) := fun h => hl (List.mem_of_mem_drop h)
      have hlen : (l.drop ((l.takeWhile (· ≠ c%'"')).length + 1)).length < l.length := by
        simp only [List.length_drop]
        omega
      generalize l.drop ((l.takeWhile (· ≠ c%'"')).length + 1) = rest at hr hlen
      cases rest with
      | nil => simp [lengthNL]
      | cons b t =>
        have hb : b ≠ c%'\n' := fun e => hr (e ▸ List.mem_cons_self ..)
        have ht : c%'\n' ∉ t := fun h => hr (List.mem_cons_of_mem _ h)
        simp only [List.cons_append, List.head?_cons, List.drop_succ_cons, List.drop_zero]
        simp only [List.length_cons] at hlen
        split
        · exact fields_last f _ _ _ (by omega) ht
        · split
          · exact fields_last f _ _ none (by omega) ht
          · have e := lengthNL_end (b :: t)
            rw [List.cons_append] at e
            rw [if_neg (by rw [e]; simp), if_neg (by rw [lengthNL_no hr]; simp)]
            exact ⟨rfl, rfl⟩
    · obtain ⟨f, rfl⟩ : ∃ k, f = k + 1 := ⟨f - 1, by omega⟩
      have e : ∀ x, parseFields rl (f + 1) [] [] none acc (some x) = (acc, some errQuote, []) := fun x => by simp [parseFields]
      simp only [rl, rl_nil, ne_eq, not_true_eq_false, if_false, if_true, List.length_append, List.length_singleton, Nat.succ_pos, gt_iff_lt]
      simp only [rl] at e
      simp only [e]
      simp

theorem fields_nl : ∀ (f : Nat) (D line : Bytes) (acc : List Bytes) (cur : Option Bytes), line.length + D.length + 3 ≤ f →
    (parseFields rl f (D ++ [c%'\n']) line none acc cur = ((parseFields rl f D line none acc cur).1, (parseFields rl f D line none acc cur).2.1,
      (parseFields rl f D line none acc cur).2.2 ++ [c%'\n']) ∧ (parseFields rl f D line none acc cur).2.2.length ≤ D.length) ∨
    (parseFields rl f (D ++ [c%'\n']) line none acc cur = parseFields rl f D line none acc cur ∧ (parseFields rl f D line none acc cur).2.2 = [])
  | 0, _, _, _, _, h => by omega
  | f + 1, D, line, acc, none, hf => by
    simp only [parseFields]
    split
    · split
      · rename_i hm
        have := List.length_pos_of_mem hm
        split
        · exact .inl ⟨rfl, Nat.le_refl _⟩
        · exact fields_nl f _ _ _ _ (by simp only [List.length_drop]; omega)
      · split <;> exact .inl ⟨rfl, Nat.le_refl _⟩
    · rename_i hh
      have : 0 < line.length := by
        cases line with
        | nil => simp at hh
        | cons b l => simp
      exact fields_nl f _ _ _ _ (by simp only [List.length_drop]; omega)
  | f + 1, D, line, acc, some cur, hf => by
    simp only [parseFields]
    split
    · rename_i hm
      have := List.length_pos_of_mem hm
      split
      · exact fields_nl f _ _ _ _ (by simp only [List.length_drop]; omega)
      · split
        · exact fields_nl f _ _ _ _ (by simp only [List.length_drop]; omega)
        · split <;> exact .inl ⟨rfl, Nat.le_refl _⟩
    · split
      · simp only [ne_eq, not_true_eq_false, if_false]
        rcases textLine_nl D with ⟨h1, h2⟩ | ⟨l, hl, h1, h2, h3⟩ | rfl
        · have hs := textLine_size .eof D
          simp only [rl, h2]
          generalize textLine .eof D = x at h1 hs
          obtain ⟨l, e, s⟩ := x
          simp only at h1 hs ⊢
          subst h1
          simp only [reduceCtorEq, if_false]
          rcases fields_nl f s l acc (some (cur ++ line)) (by omega) with h | h
          · exact .inl ⟨h.1, by have := h.2; simp only [rl] at this; omega⟩
          · exact .inr h
        · simp only [rl, h1, h2, reduceCtorEq, if_false]
          exact .inr (fields_last f l acc _ (by omega) hl)
        · have e : textLine .eof ([] ++ [c%'\n']) = ([c%'\n'], none, []) := by decide
          simp only [rl, rl_nil, e, reduceCtorEq, if_false, if_true]
          exact .inr (fields_last f [] acc _ (by simp at hf ⊢; omega) (by simp))
      · exact .inl ⟨by simp, by simp⟩

theorem record_nl (f n : Nat) (D : Bytes) (hf : D.length + 3 ≤ f) :
    (readRecord rl f n (D ++ [c%'\n'])).1 = (readRecord rl f n D).1 ∧ (readRecord rl f n (D ++ [c%'\n'])).2.1 = (readRecord rl f n D).2.1 ∧
    ((readRecord rl f n (D ++ [c%'\n'])).2.2 = (readRecord rl f n D).2.2 ++ [c%'\n'] ∧ (readRecord rl f n D).2.2.length ≤ D.length ∨
      (readRecord rl f n (D ++ [c%'\n'])).2.2 = (readRecord rl f n D).2.2) := by
  unfold readRecord
  rcases skip_nl f D (by omega) with ⟨h1, h2, h3⟩ | ⟨l, hl, h1, h2, h3⟩ | ⟨h1, h2⟩
  · rw [h2]
    generalize skipLines rl f D = x at h1 h3
    obtain ⟨l, e, s⟩ := x
    simp only at h1 h3 ⊢
    subst h1
    simp only [reduceCtorEq, if_false]
    rcases fields_nl f s l [] none (by omega) with h | h
    · rw [h.1]
      have h4 := h.2
      generalize parseFields rl f s l none [] none = y at h4
      obtain ⟨fs, e, s'⟩ := y
      simp only at h4
      cases e with
      | some e => exact ⟨rfl, rfl, .inl ⟨rfl, by simp only; omega⟩⟩
      | none =>
        simp only
        split <;> exact ⟨rfl, rfl, .inl ⟨rfl, by simp only; omega⟩⟩
    · rw [h.1]
      exact ⟨rfl, rfl, .inr rfl⟩
  · rw [h1, h2]
    simp only [reduceCtorEq, if_false]
    rw [(fields_last f l [] none (by omega) hl).1]
    exact ⟨rfl, rfl, .inr rfl⟩
  · rw [h2]
    exact ⟨rfl, rfl, .inr rfl⟩

theorem all_nl (f : Nat) : ∀ (k n : Nat) (D : Bytes), D.length + 3 ≤ f → readAll rl f k n (D ++ [c%'\n']) = readAll rl f k n D
  | 0, _, _, _ => rfl
  | k + 1, n, D, hf => by
    have h := record_nl f n D hf
    simp only [readAll]
    generalize readRecord rl f n D = x at h
    generalize readRecord rl f n (D ++ [c%'\n']) = y at h
    obtain ⟨r, n1, s⟩ := x
    obtain ⟨r', n2, s'⟩ := y
    obtain ⟨h1, h2, h3⟩ := h
    simp only at h1 h2 h3
    subst h1 h2
    cases r' with
    | error e => rfl
    | ok r =>
      rcases h3 with ⟨rfl, h4⟩ | rfl
      · simp only
        rw [all_nl f k n2 s (by omega)]
      · rfl

/-- A line feed at the end of the text does not matter. -/
theorem readText_nl (D : Bytes) : readText .eof (D ++ [c%'\n']) = readText .eof D := by
  have h : readText .eof D = readAll (textLine .eof) (D.length + 3) (D.length + 3) 0 D := by
    rw [readText_crlf, show readAll (textLine .eof) (D.length + 3) (D.length + 3) 0 D = readAll (plainLine .eof) (D.length + 3) (D.length + 3) 0 (crlf D) from
      same_all (same_crlf .eof) _ _ _ rfl]
    have := crlf_length D
    exact all_fuel _ _ _ _ _ _ (by omega) (by omega) (by omega) (by omega)
  rw [h]
  unfold readText
  rw [List.length_append, List.length_singleton]
  exact all_nl _ _ _ _ (by omega)

end Verif.Csv
