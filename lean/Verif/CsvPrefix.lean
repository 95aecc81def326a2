import Verif.CsvLines
import Verif.CsvRecords

/-!
# CSV texts with a common prefix (helper lemmas)
-/

namespace Verif.Csv

/-- An error that is not the end of the input. -/
def Bad (e : Option RErr) : Prop := e ≠ none ∧ e ≠ some .eof

theorem Bad.some {e : RErr} (h : e ≠ .eof) : Bad (some e) := ⟨by simp, by simpa using h⟩

theorem finishLine_some {e : RErr} (h : e ≠ .eof) (l : Bytes) : (finishLine l (some e)).2 = some e := by
  unfold finishLine
  rw [if_neg (by simp [h])]
  simp only
  split <;> rfl

theorem finishLine_none (l : Bytes) : (finishLine l none).2 = none := by
  unfold finishLine
  rw [if_neg (by simp)]
  simp only
  split <;> rfl

theorem textLine_prefix {e : RErr} (he : e ≠ .eof) (f : RErr) (D E : Bytes) :
    (textLine e D).2.1 = some e ∨ ((textLine e D).2.1 = none ∧
      textLine f (D ++ E) = ((textLine e D).1, (textLine e D).2.1, (textLine e D).2.2 ++ E)) := by
  unfold textLine
  by_cases h : c%'\n' ∈ D
  · obtain ⟨h1, h2⟩ := mem_lineOf (t := E) h
    rw [if_pos h, if_pos (by simp [h]), h1]
    refine .inr ⟨finishLine_none _, ?_⟩
    rw [List.drop_append_of_le_length h2]
  · rw [if_neg h]
    exact .inl (finishLine_some he _)

theorem skip_prefix {e : RErr} (he : e ≠ .eof) (f : RErr) (E : Bytes) : ∀ (n m : Nat) (D : Bytes), n ≤ m →
    Bad (skipLines (textLine e) n D).2.1 ∨ ((skipLines (textLine e) n D).2.1 = none ∧
      skipLines (textLine f) m (D ++ E) = ((skipLines (textLine e) n D).1, none, (skipLines (textLine e) n D).2.2 ++ E)) := by
  intro n
  induction n with
  | zero => intro m D _; exact .inl (.some (by simp))
  | succ n ih =>
    intro m D hm
    obtain ⟨m, rfl⟩ : ∃ k, m = k + 1 := ⟨m - 1, by omega⟩
    rcases textLine_prefix he f D E with h | ⟨h1, h2⟩
    · simp only [skipLines]
      generalize textLine e D = x at h
      obtain ⟨l, er, s⟩ := x
      simp only at h
      subst h
      rw [if_neg (by simp)]
      exact .inl (.some he)
    · simp only [skipLines, h2]
      generalize textLine e D = x at h1
      obtain ⟨l, er, s⟩ := x
      simp only at h1
      subst h1
      simp only
      split
      · exact ih m s (by omega)
      · exact .inr ⟨rfl, rfl⟩

theorem bad_fields {σ : Type} (rl : σ → Bytes × Option RErr × σ) {er : Option RErr} (he : Bad er) : ∀ (n : Nat) (s : σ) (line : Bytes)
    (acc : List Bytes) (cur : Option Bytes), Bad (parseFields rl n s line er acc cur).2.1 := by
  intro n
  induction n with
  | zero => intro s line acc cur; simp only [parseFields]; exact .some (by simp)
  | succ n ih =>
    intro s line acc cur
    cases cur with
    | none =>
      simp only [parseFields]
      split
      · split
        · split
          · exact .some (by simp [errBareQuote])
          · exact ih _ _ _ _
        · split
          · exact .some (by simp [errBareQuote])
          · exact he
      · exact ih _ _ _ _
    | some cur =>
      simp only [parseFields]
      split
      · split
        · exact ih _ _ _ _
        · split
          · exact ih _ _ _ _
          · split
            · exact he
            · exact .some (by simp [errQuote])
      · split
        · rw [if_pos he.1]; exact he
        · rw [if_neg he.1]; exact he

theorem fields_prefix {e : RErr} (he : e ≠ .eof) (f : RErr) (E : Bytes) : ∀ (n m : Nat) (D line : Bytes) (acc : List Bytes) (cur : Option Bytes), n ≤ m →
    Bad (parseFields (textLine e) n D line none acc cur).2.1 ∨
      ((parseFields (textLine e) n D line none acc cur).2.1 = none ∧
        parseFields (textLine f) m (D ++ E) line none acc cur = ((parseFields (textLine e) n D line none acc cur).1, none,
          (parseFields (textLine e) n D line none acc cur).2.2 ++ E)) := by
  intro n
  induction n with
  | zero => intro m D line acc cur _; simp only [parseFields]; exact .inl (.some (by simp))
  | succ n ih =>
    intro m D line acc cur hm
    obtain ⟨m, rfl⟩ : ∃ k, m = k + 1 := ⟨m - 1, by omega⟩
    cases cur with
    | none =>
      simp only [parseFields]
      split
      · split
        · split
          · exact .inl (.some (by simp [errBareQuote]))
          · exact ih _ _ _ _ _ (by omega)
        · split
          · exact .inl (.some (by simp [errBareQuote]))
          · exact .inr ⟨rfl, rfl⟩
      · exact ih _ _ _ _ _ (by omega)
    | some cur =>
      simp only [parseFields]
      split
      · split
        · exact ih _ _ _ _ _ (by omega)
        · split
          · exact ih _ _ _ _ _ (by omega)
          · split
            · exact .inr ⟨rfl, rfl⟩
            · exact .inl (.some (by simp [errQuote]))
      · split
        · simp only [ne_eq, not_true_eq_false, if_false]
          rcases textLine_prefix he f D E with h | ⟨h1, h2⟩
          · generalize textLine e D = x at h
            obtain ⟨l, er, s⟩ := x
            simp only at h
            subst h
            simp only [Option.some.injEq, he, if_false]
            exact .inl (bad_fields _ (.some he) _ _ _ _ _)
          · rw [h2]
            generalize textLine e D = x at h1
            obtain ⟨l, er, s⟩ := x
            simp only at h1
            subst h1
            exact ih _ _ _ _ _ (by omega)
        · exact .inl (.some (by simp [errQuote]))

theorem record_prefix {e : RErr} (he : e ≠ .eof) (f : RErr) (E : Bytes) (n m k : Nat) (D : Bytes) (hm : n ≤ m) :
    (∃ x, x ≠ .eof ∧ (readRecord (textLine e) n k D).1 = .error x) ∨
    (∃ r, (readRecord (textLine e) n k D).1 = .ok r ∧ readRecord (textLine f) m k (D ++ E) = (.ok r, (readRecord (textLine e) n k D).2.1,
      (readRecord (textLine e) n k D).2.2 ++ E)) := by
  unfold readRecord
  rcases skip_prefix he f E n m D hm with h | ⟨h1, h2⟩
  · generalize skipLines (textLine e) n D = x at h
    obtain ⟨l, er, s⟩ := x
    simp only at h ⊢
    rw [if_neg h.2]
    have hb := bad_fields (textLine e) h n s l [] none
    generalize parseFields (textLine e) n s l er [] none = y at hb
    obtain ⟨fs, e', s'⟩ := y
    cases e' with
    | none => exact absurd rfl hb.1
    | some e' => exact .inl ⟨e', fun h => hb.2 (by rw [h]), rfl⟩
  · rw [h2]
    generalize skipLines (textLine e) n D = x at h1
    obtain ⟨l, er, s⟩ := x
    simp only at h1
    subst h1
    simp only [reduceCtorEq, if_false]
    rcases fields_prefix he f E n m s l [] none hm with hb | ⟨h3, h4⟩
    · generalize parseFields (textLine e) n s l none [] none = y at hb
      obtain ⟨fs, e', s'⟩ := y
      cases e' with
      | none => exact absurd rfl hb.1
      | some e' => exact .inl ⟨e', fun h => hb.2 (by rw [h]), rfl⟩
    · rw [h4]
      generalize parseFields (textLine e) n s l none [] none = y at h3
      obtain ⟨fs, e', s'⟩ := y
      simp only at h3
      subst h3
      simp only
      split
      · exact .inl ⟨_, by simp [errFieldCount], rfl⟩
      · exact .inr ⟨_, rfl, rfl⟩

theorem all_prefix {e : RErr} (he : e ≠ .eof) (f : RErr) (E : Bytes) {n m : Nat} (hm : n ≤ m) : ∀ (i j k : Nat) (D : Bytes), i ≤ j →
    (readAll (textLine e) n i k D).fin ≠ .eof ∧
      (readAll (textLine e) n i k D).records <+: (readAll (textLine f) m j k (D ++ E)).records := by
  intro i
  induction i with
  | zero => intro j k D _; exact ⟨by simp [readAll], List.nil_prefix⟩
  | succ i ih =>
    intro j k D hj
    obtain ⟨j, rfl⟩ : ∃ k, j = k + 1 := ⟨j - 1, by omega⟩
    simp only [readAll]
    rcases record_prefix he f E n m k D hm with ⟨x, h1, h2⟩ | ⟨r, h1, h2⟩
    · generalize readRecord (textLine e) n k D = y at h2
      obtain ⟨y, k', s⟩ := y
      simp only at h2
      subst h2
      exact ⟨h1, List.nil_prefix⟩
    · rw [h2]
      generalize readRecord (textLine e) n k D = y at h1
      obtain ⟨y, k', s⟩ := y
      simp only at h1
      subst h1
      have := ih j k' s (by omega)
      exact ⟨this.1, List.cons_prefix_cons.2 ⟨rfl, this.2⟩⟩

/-- A text that is cut off by an error of the reader: there is an error, and the records are among those of every extension. -/
theorem readText_cut {e : RErr} (he : e ≠ .eof) (f : RErr) (D E : Bytes) :
    (readText e D).fin ≠ .eof ∧ (readText e D).records <+: (readText f (D ++ E)).records :=
  all_prefix he f E (by simp) _ _ _ _ (by simp)

/-! ## Texts that end with a line -/

/-- The text ends at the end of a line. -/
def Lines (D : Bytes) : Prop := D = [] ∨ D.getLast? = some c%'\n'

theorem textLine_lines (f : RErr) {D : Bytes} (hD : Lines D) (E : Bytes) :
    textLine .eof D = ([], some .eof, []) ∨ ((textLine .eof D).2.1 = none ∧
      textLine f (D ++ E) = ((textLine .eof D).1, (textLine .eof D).2.1, (textLine .eof D).2.2 ++ E) ∧ Lines (textLine .eof D).2.2) := by
  rcases hD with rfl | hD
  · exact .inl rfl
  · right
    have h : c%'\n' ∈ D := List.mem_of_getLast? hD
    obtain ⟨h1, h2⟩ := mem_lineOf (t := E) h
    unfold textLine
    rw [if_pos h, if_pos (by simp [h]), h1]
    refine ⟨finishLine_none _, ?_, ?_⟩
    · rw [List.drop_append_of_le_length h2]
    · simp only
      by_cases hn : D.drop (lineOf D).length = []
      · exact .inl hn
      · right
        rw [List.getLast?_drop, if_neg (fun hl => hn (List.drop_eq_nil_of_le hl))]
        exact hD

theorem skip_lines (f : RErr) (E : Bytes) : ∀ (n m : Nat) (D : Bytes), n ≤ m → Lines D →
    (∃ x, (skipLines (textLine .eof) n D).2.1 = some x) ∨ ((skipLines (textLine .eof) n D).2.1 = none ∧
      skipLines (textLine f) m (D ++ E) = ((skipLines (textLine .eof) n D).1, none, (skipLines (textLine .eof) n D).2.2 ++ E) ∧
      Lines (skipLines (textLine .eof) n D).2.2) := by
  intro n
  induction n with
  | zero => intro m D _ _; exact .inl ⟨_, rfl⟩
  | succ n ih =>
    intro m D hm hD
    obtain ⟨m, rfl⟩ : ∃ k, m = k + 1 := ⟨m - 1, by omega⟩
    rcases textLine_lines f hD E with h | ⟨h1, h2, h3⟩
    · simp only [skipLines, h]
      rw [if_neg (by simp)]
      exact .inl ⟨_, rfl⟩
    · simp only [skipLines, h2]
      generalize textLine .eof D = x at h1 h3
      obtain ⟨l, er, s⟩ := x
      simp only at h1 h3
      subst h1
      simp only
      split
      · exact ih m s (by omega) h3
      · exact .inr ⟨rfl, rfl, h3⟩

theorem fields_lines (f : RErr) (E : Bytes) : ∀ (n m : Nat) (D line : Bytes) (acc : List Bytes) (cur : Option Bytes), n ≤ m → Lines D →
    (∃ x, (parseFields (textLine .eof) n D line none acc cur).2.1 = some x) ∨
      ((parseFields (textLine .eof) n D line none acc cur).2.1 = none ∧
        parseFields (textLine f) m (D ++ E) line none acc cur = ((parseFields (textLine .eof) n D line none acc cur).1, none,
          (parseFields (textLine .eof) n D line none acc cur).2.2 ++ E) ∧ Lines (parseFields (textLine .eof) n D line none acc cur).2.2) := by
  intro n
  induction n with
  | zero => intro m D line acc cur _ _; exact .inl ⟨_, rfl⟩
  | succ n ih =>
    intro m D line acc cur hm hD
    obtain ⟨m, rfl⟩ : ∃ k, m = k + 1 := ⟨m - 1, by omega⟩
    cases cur with
    | none =>
      simp only [parseFields]
      split
      · split
        · split
          · exact .inl ⟨_, rfl⟩
          · exact ih _ _ _ _ _ (by omega) hD
        · split
          · exact .inl ⟨_, rfl⟩
          · exact .inr ⟨rfl, rfl, hD⟩
      · exact ih _ _ _ _ _ (by omega) hD
    | some cur =>
      simp only [parseFields]
      split
      · split
        · exact ih _ _ _ _ _ (by omega) hD
        · split
          · exact ih _ _ _ _ _ (by omega) hD
          · split
            · exact .inr ⟨rfl, rfl, hD⟩
            · exact .inl ⟨_, rfl⟩
      · split
        · simp only [ne_eq, not_true_eq_false, if_false]
          rcases textLine_lines f hD E with h | ⟨h1, h2, h3⟩
          · simp only [h, if_true]
            cases n with
            | zero => exact .inl ⟨_, rfl⟩
            | succ n => exact .inl ⟨errQuote, by simp [parseFields]⟩
          · rw [h2]
            generalize textLine .eof D = x at h1 h3
            obtain ⟨l, er, s⟩ := x
            simp only at h1 h3
            subst h1
            exact ih _ _ _ _ _ (by omega) h3
        · exact .inl ⟨_, rfl⟩

theorem record_lines (f : RErr) (E : Bytes) (n m k : Nat) (D : Bytes) (hm : n ≤ m) (hD : Lines D) :
    (∃ x, (readRecord (textLine .eof) n k D).1 = .error x) ∨
    (∃ r, (readRecord (textLine .eof) n k D).1 = .ok r ∧ readRecord (textLine f) m k (D ++ E) = (.ok r, (readRecord (textLine .eof) n k D).2.1,
      (readRecord (textLine .eof) n k D).2.2 ++ E) ∧ Lines (readRecord (textLine .eof) n k D).2.2) := by
  unfold readRecord
  rcases skip_lines f E n m D hm hD with ⟨x, h⟩ | ⟨h1, h2, hs⟩
  · generalize skipLines (textLine .eof) n D = y at h
    obtain ⟨l, er, s⟩ := y
    simp only at h ⊢
    subst h
    by_cases hxe : x = .eof
    · rw [if_pos (by rw [hxe])]
      exact .inl ⟨_, rfl⟩
    · rw [if_neg (by simpa using hxe)]
      have hb := bad_fields (textLine .eof) (.some hxe) n s l [] none
      generalize parseFields (textLine .eof) n s l (some x) [] none = y at hb
      obtain ⟨fs, e', s'⟩ := y
      cases e' with
      | none => exact absurd rfl hb.1
      | some e' => exact .inl ⟨e', rfl⟩
  · rw [h2]
    generalize skipLines (textLine .eof) n D = x at h1 hs
    obtain ⟨l, er, s⟩ := x
    simp only at h1 hs
    subst h1
    simp only [reduceCtorEq, if_false]
    rcases fields_lines f E n m s l [] none hm hs with ⟨x, hb⟩ | ⟨h3, h4, h5⟩
    · generalize parseFields (textLine .eof) n s l none [] none = y at hb
      obtain ⟨fs, e', s'⟩ := y
      simp only at hb
      subst hb
      exact .inl ⟨x, rfl⟩
    · rw [h4]
      generalize parseFields (textLine .eof) n s l none [] none = y at h3 h5
      obtain ⟨fs, e', s'⟩ := y
      simp only at h3 h5
      subst h3
      simp only
      split
      · exact .inl ⟨_, rfl⟩
      · exact .inr ⟨_, rfl, rfl, h5⟩

theorem all_lines (f : RErr) (E : Bytes) {n m : Nat} (hm : n ≤ m) : ∀ (i j k : Nat) (D : Bytes), i ≤ j → Lines D →
    (readAll (textLine .eof) n i k D).records <+: (readAll (textLine f) m j k (D ++ E)).records := by
  intro i
  induction i with
  | zero => intro j k D _ _; exact List.nil_prefix
  | succ i ih =>
    intro j k D hj hD
    obtain ⟨j, rfl⟩ : ∃ k, j = k + 1 := ⟨j - 1, by omega⟩
    simp only [readAll]
    rcases record_lines f E n m k D hm hD with ⟨x, h2⟩ | ⟨r, h1, h2, h3⟩
    · generalize readRecord (textLine .eof) n k D = y at h2
      obtain ⟨y, k', s⟩ := y
      simp only at h2
      subst h2
      exact List.nil_prefix
    · rw [h2]
      generalize readRecord (textLine .eof) n k D = y at h1 h3
      obtain ⟨y, k', s⟩ := y
      simp only at h1 h3
      subst h1
      exact List.cons_prefix_cons.2 ⟨rfl, ih j k' s (by omega) h3⟩

/-- A text that ends at the end of a line: the records are among those of every extension. -/
theorem readText_lines (f : RErr) {D : Bytes} (hD : Lines D) (E : Bytes) : (readText .eof D).records <+: (readText f (D ++ E)).records :=
  all_lines f E (by simp) _ _ _ _ (by simp) hD

/-! ## Texts without quotes -/

theorem finishLine_mem {l : Bytes} {er : Option RErr} (he : er ≠ some .eof) {b : Byte} (h : b ∈ (finishLine l er).1) : b ∈ l := by
  unfold finishLine at h
  rw [if_neg (by simp [he])] at h
  simp only at h
  split at h
  · rename_i hs
    rcases List.mem_append.1 h with h | h
    · exact (List.dropLast_sublist l).subset ((List.dropLast_sublist _).subset h)
    · exact hs.subset (by simp at h; simp [h])
  · exact h

theorem finishLine_len {l : Bytes} {er : Option RErr} (he : er ≠ some .eof) : (finishLine l er).1.length ≤ l.length := by
  unfold finishLine
  rw [if_neg (by simp [he])]
  simp only
  split
  · rename_i hs
    have := hs.length_le
    simp at this ⊢
    omega
  · exact Nat.le_refl _

theorem textLine_mem {e : RErr} (he : e ≠ .eof) {D : Bytes} {b : Byte} :
    (b ∈ (textLine e D).1 → b ∈ D) ∧ (b ∈ (textLine e D).2.2 → b ∈ D) := by
  unfold textLine
  split
  · rename_i hn
    refine ⟨fun h => ?_, fun h => List.mem_of_mem_drop h⟩
    have := finishLine_mem (by simp) h
    unfold lineOf at this
    rcases List.mem_append.1 this with h | h
    · exact (List.takeWhile_sublist _).subset h
    · simp at h; rw [h]; exact hn
  · exact ⟨fun h => finishLine_mem (by simp [he]) h, by simp⟩

theorem textLine_len {e : RErr} (he : e ≠ .eof) (D : Bytes) :
    (textLine e D).1.length ≤ D.length ∧ ((textLine e D).2.1 = some e ∨ (textLine e D).2.1 = none ∧ (textLine e D).2.2.length < D.length) := by
  unfold textLine
  split
  · rename_i hn
    have h2 := (mem_lineOf (t := []) hn).2
    have h3 := finishLine_len (l := lineOf D) (er := none) (by simp)
    refine ⟨Nat.le_trans h3 h2, .inr ⟨finishLine_none _, ?_⟩⟩
    have : 0 < (lineOf D).length := by simp [lineOf]
    simp only [List.length_drop]
    omega
  · exact ⟨finishLine_len (by simp [he]), .inl (finishLine_some he _)⟩

/-- Without quotes, the error of a record is that of its last line. -/
theorem fields_plain {σ : Type} (rl : σ → Bytes × Option RErr × σ) (er : Option RErr) : ∀ (n : Nat) (s : σ) (line : Bytes)
    (acc : List Bytes), c%'"' ∉ line → line.length < n →
    (parseFields rl n s line er acc none).2.1 = er ∧ (parseFields rl n s line er acc none).2.2 = s := by
  intro n
  induction n with
  | zero => intro s line acc _ h; omega
  | succ n ih =>
    intro s line acc hq hl
    simp only [parseFields]
    have h0 : line.head? ≠ some c%'"' := by
      intro h
      cases line with
      | nil => simp at h
      | cons b l => simp at h; simp [h] at hq
    rw [if_pos h0]
    by_cases hc : c%',' ∈ line
    · rw [if_pos hc, if_neg (fun h => hq ((List.takeWhile_sublist _).subset h))]
      refine ih _ _ _ (fun h => hq (List.mem_of_mem_drop h)) ?_
      have : 0 < line.length := List.length_pos_of_mem hc
      simp only [List.length_drop]
      omega
    · rw [if_neg hc, if_neg (fun h => hq (List.mem_of_mem_take h))]
      exact ⟨rfl, rfl⟩

theorem skip_plain {e : RErr} (he : e ≠ .eof) : ∀ (n : Nat) (D : Bytes), D.length < n → c%'"' ∉ D →
    c%'"' ∉ (skipLines (textLine e) n D).1 ∧ c%'"' ∉ (skipLines (textLine e) n D).2.2 ∧ (skipLines (textLine e) n D).1.length ≤ D.length ∧
    ((skipLines (textLine e) n D).2.1 = some e ∨ (skipLines (textLine e) n D).2.1 = none ∧ (skipLines (textLine e) n D).2.2.length < D.length) := by
  intro n
  induction n with
  | zero => intro D h; omega
  | succ n ih =>
    intro D hl hq
    have h1 := textLine_len he D
    have h2 := fun h => hq ((textLine_mem he (D := D)).1 h)
    have h3 := fun h => hq ((textLine_mem he (D := D)).2 h)
    simp only [skipLines]
    generalize textLine e D = x at h1 h2 h3
    obtain ⟨l, er, s⟩ := x
    simp only at h1 h2 h3 ⊢
    split
    · rename_i hc
      rcases h1.2 with h | ⟨_, h⟩
      · rw [hc.1] at h; cases h
      · obtain ⟨i1, i2, i3, i4⟩ := ih s (by omega) h3
        refine ⟨i1, i2, by omega, ?_⟩
        rcases i4 with i4 | ⟨i4, i5⟩
        · exact .inl i4
        · exact .inr ⟨i4, by omega⟩
    · exact ⟨h2, h3, h1⟩

/-- Without quotes, what is reported is the error of the reader, or that the records have different lengths. -/
theorem all_plain {e : RErr} (he : e ≠ .eof) {n : Nat} : ∀ (i k : Nat) (D : Bytes), D.length < i → D.length < n → c%'"' ∉ D →
    (readAll (textLine e) n i k D).fin = e ∨ (readAll (textLine e) n i k D).fin = errFieldCount := by
  intro i
  induction i with
  | zero => intro k D h; omega
  | succ i ih =>
    intro k D hi hn hq
    simp only [readAll, readRecord]
    obtain ⟨h1, h2, h3, h4⟩ := skip_plain he n D hn hq
    generalize skipLines (textLine e) n D = x at h1 h2 h3 h4
    obtain ⟨l, er, s⟩ := x
    simp only at h1 h2 h3 h4 ⊢
    have hp := fields_plain (textLine e) er n s l [] h1 (by omega)
    rw [if_neg (by rcases h4 with h | ⟨h, _⟩ <;> simp [h, he])]
    generalize parseFields (textLine e) n s l er [] none = y at hp
    obtain ⟨fs, e', s'⟩ := y
    obtain ⟨rfl, rfl⟩ := hp
    rcases h4 with rfl | ⟨rfl, h5⟩
    · exact .inl rfl
    · simp only
      split
      · rename_i hh
        split at hh
        · cases hh; exact .inr rfl
        · cases hh
      · rename_i hh
        split at hh
        · cases hh
        · cases hh; simp only at h2 h5; exact ih _ _ (by omega) (by omega) h2

theorem readText_plain {e : RErr} (he : e ≠ .eof) {D : Bytes} (hq : c%'"' ∉ D) :
    (readText e D).fin = e ∨ (readText e D).fin = errFieldCount :=
  all_plain he _ _ _ (by omega) (by omega) hq

end Verif.Csv
