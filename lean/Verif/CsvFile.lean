import Verif.CsvParse

/-!
# Whole files
-/

set_option linter.unusedSimpArgs false
set_option linter.unusedVariables false

namespace Verif.Csv
open Rfc4180

section
variable {fin : RErr}

theorem record_head {s : Bytes} {r : List Bytes} (h : GoRecord s r) : s.head? ≠ some c%'\n' := by
  have hf : ∀ {s v}, GoField s v → s.head? ≠ some c%'\n' := by
    intro s v h
    cases h with
    | plain hp =>
      cases s with
      | nil => simp
      | cons b s =>
        have := (hp b (by simp)).2.2
        simpa using this
    | quoted _ => simp
  cases h with
  | one h => exact hf h
  | @cons s v t vs h _ =>
    cases s with
    | nil => simp
    | cons b s => have := hf h; simpa using this

theorem record_length {s : Bytes} {r : List Bytes} (h : GoRecord s r) : 0 < r.length := by cases h <;> simp

/-- A line with a record is not empty. -/
theorem line_full {s tail line T T' : Bytes} {r : List Bytes} (h : GoRecord s r) (hne : s ≠ []) (hr : tail = [] → s.getLast? ≠ some c%'\r')
    (hs : St fin (s ++ tail) line T) : line.length ≠ lengthNL line := by
  cases s with
  | nil => exact absurd rfl hne
  | cons c s =>
    have hc : c ≠ c%'\n' := by have := record_head h; simpa using this
    obtain ⟨l, rfl, hl⟩ := St.append (p := [c]) (X := s ++ tail) (by simpa using Ne.symm hc)
      (by
        by_cases h0 : s ++ tail = []
        · right
          simp at h0
          have := hr h0.2
          rw [h0.1] at this
          simpa using this
        · exact .inl h0) (by simpa using hs)
    unfold lengthNL
    cases l with
    | nil => simp [hc]
    | cons x l => split <;> simp

theorem skip_blank (f : Nat) (T : Bytes) : skipLines (plainLine fin) (f + 1) (c%'\n' :: T) = skipLines (plainLine fin) f T := by
  have e : plainLine fin (c%'\n' :: T) = ([c%'\n'], none, T) := by simp [plainLine, lineOf]
  simp only [skipLines, e]
  rw [if_pos (by simp [lengthNL])]

theorem skip_record {s tail T : Bytes} {r : List Bytes} (h : GoRecord s r) (hne : s ≠ []) (he : End fin tail T) (hr : tail = [] → s.getLast? ≠ some c%'\r') (f : Nat) :
    ∃ line T1, skipLines (plainLine fin) (f + 1) (s ++ tail) = (line, none, T1) ∧ St fin (s ++ tail) line T1 := by
  obtain ⟨line, T1, e, hst⟩ := plainLine_st (fin := fin) (X := s ++ tail) (by
    rcases he.mem with h | h
    · exact .inr ⟨h, by simp [hne]⟩
    · exact .inl (by simp [h]))
  refine ⟨line, T1, ?_, hst⟩
  simp only [skipLines, e]
  rw [if_neg fun h' => line_full (T' := T) h hne hr hst h'.2]

/-- One record. -/
theorem read_record {s tail T line T1 X : Bytes} {r : List Bytes} (h : GoRecord s r) (he : End fin tail T) (hr : tail = [] → s.getLast? ≠ some c%'\r') {f : Nat}
    (hs : skipLines (plainLine fin) f X = (line, none, T1)) (hst : St fin (s ++ tail) line T1) (hf : (s ++ tail).length < f) (n : Nat) (hn : n = 0 ∨ r.length = n) :
    readRecord (plainLine fin) f n X = (.ok r, r.length, T) := by
  unfold readRecord
  rw [hs]
  simp only [reduceCtorEq, if_false]
  rw [record_read h he hr hst hf]
  simp only [List.nil_append]
  rw [if_neg (by omega)]
  rcases hn with rfl | rfl
  · simp
  · have := record_length h
    rw [if_neg (by omega)]

/-- The records have `n` fields each; if `n` is 0, as many as the first. -/
def Uniform : Nat → List (List Bytes) → Prop
  | _, [] => True
  | n, r :: rs => (n = 0 ∨ r.length = n) ∧ Uniform r.length rs

/-- The first record of a file. -/
theorem records_next {T : Bytes} {rs : List (List Bytes)} (h : GoRecords T rs) : ∀ {f : Nat}, T.length < f →
    (rs = [] ∧ ∃ line T1, skipLines (plainLine .eof) f T = (line, some .eof, T1)) ∨
      ∃ s r tail T' rs' line T1, rs = r :: rs' ∧ GoRecord s r ∧ End .eof tail T' ∧ (tail = [] → s.getLast? ≠ some c%'\r') ∧ GoRecords T' rs' ∧
        skipLines (plainLine .eof) f T = (line, none, T1) ∧ St .eof (s ++ tail) line T1 ∧ (s ++ tail).length ≤ T.length ∧ T'.length < T.length := by
  induction h with
  | nil =>
    intro f hf
    obtain ⟨f, rfl⟩ : ∃ g, f = g + 1 := ⟨f - 1, by omega⟩
    exact .inl ⟨rfl, _, _, rfl⟩
  | cr =>
    intro f hf
    obtain ⟨f, rfl⟩ : ∃ g, f = g + 2 := ⟨f - 2, by simp at hf; omega⟩
    exact .inl ⟨rfl, _, _, rfl⟩
  | @blank t rs h ih =>
    intro f hf
    obtain ⟨f, rfl⟩ : ∃ g, f = g + 1 := ⟨f - 1, by omega⟩
    rw [skip_blank]
    rcases ih (f := f) (by simpa using hf) with h | ⟨s, r, tail, T', rs', line, T1, h1, h2, h3, h4, h5, h6, h7, h8, h9⟩
    · exact .inl h
    · exact .inr ⟨s, r, tail, T', rs', line, T1, h1, h2, h3, h4, h5, h6, h7, by simp only [List.length_cons]; omega, by simp only [List.length_cons]; omega⟩
  | @record s r t rs h hne hg ih =>
    intro f hf
    obtain ⟨f, rfl⟩ : ∃ g, f = g + 1 := ⟨f - 1, by omega⟩
    obtain ⟨line, T1, e, hst⟩ := skip_record h hne (End.eol (fin := .eof) (T := t)) (by simp) f
    exact .inr ⟨s, r, _, t, rs, line, T1, rfl, h, .eol, by simp, hg, e, hst, by simp, by simp; omega⟩
  | @last s r h hne hl =>
    intro f hf
    obtain ⟨f, rfl⟩ : ∃ g, f = g + 1 := ⟨f - 1, by omega⟩
    obtain ⟨line, T1, e, hst⟩ := skip_record h hne (End.eof rfl) (fun _ => hl) f
    refine .inr ⟨s, r, _, [], [], line, T1, rfl, h, .eof rfl, fun _ => hl, .nil, by simpa using e, hst, by simp, ?_⟩
    simpa using List.length_pos_iff.2 hne
  | @lastCR s r h hne =>
    intro f hf
    obtain ⟨f, rfl⟩ : ∃ g, f = g + 1 := ⟨f - 1, by omega⟩
    obtain ⟨line, T1, e, hst⟩ := skip_record h hne (End.cr rfl) (by simp) f
    exact .inr ⟨s, r, _, [], [], line, T1, rfl, h, .cr rfl, by simp, .nil, e, hst, by simp, by simp⟩

/-- Texts of the grammar are read. -/
theorem records_read {f : Nat} : ∀ (k : Nat) {T : Bytes} {rs : List (List Bytes)} {n : Nat}, GoRecords T rs → Uniform n rs → T.length < f → T.length < k →
    readAll (plainLine .eof) f k n T = ⟨rs, .eof⟩ := by
  intro k
  induction k with
  | zero => intro T rs n _ _ _ hk; omega
  | succ k ih =>
    intro T rs n h hu hf hk
    rcases records_next h hf with ⟨rfl, line, T1, e⟩ | ⟨s, r, tail, T', rs', line, T1, rfl, h2, h3, h4, h5, h6, h7, h8, h9⟩
    · simp [readAll, readRecord, e]
    · have e := read_record h2 h3 h4 h6 h7 (by omega) n hu.1
      simp only [readAll, e]
      rw [ih h5 hu.2 (by omega) (by omega)]

/-- Texts are read as long as they are of the grammar. -/
theorem lines_read {f : Nat} {D E : Bytes} {rs : List (List Bytes)} (h : GoLines D rs) : ∀ {k n g : Nat}, Uniform n rs → (D ++ E).length < f → (D ++ E).length < k →
    rs <+: (readAll (plainLine fin) f k n (D ++ E)).records := by
  have next : ∀ {D rs}, GoLines D rs → ∀ {g : Nat}, (D ++ E).length < g → rs = [] ∨
      ∃ s r D' rs' line T1, rs = r :: rs' ∧ GoRecord s r ∧ GoLines D' rs' ∧ skipLines (plainLine fin) g (D ++ E) = (line, none, T1) ∧
        St fin (s ++ c%'\n' :: (D' ++ E)) line T1 ∧ (s ++ c%'\n' :: (D' ++ E)).length ≤ (D ++ E).length := by
    intro D rs h
    induction h with
    | nil => intro g _; exact .inl rfl
    | @blank t rs h ih =>
      intro g hg
      obtain ⟨g, rfl⟩ : ∃ g', g = g' + 1 := ⟨g - 1, by omega⟩
      rw [List.cons_append, skip_blank]
      rcases ih (g := g) (by simpa using hg) with h | ⟨s, r, D', rs', line, T1, h1, h2, h3, h4, h5, h6⟩
      · exact .inl h
      · exact .inr ⟨s, r, D', rs', line, T1, h1, h2, h3, h4, h5, by simp only [List.length_cons]; omega⟩
    | @record s r t rs h hne hg ih =>
      intro g hf
      obtain ⟨g, rfl⟩ : ∃ g', g = g' + 1 := ⟨g - 1, by omega⟩
      obtain ⟨line, T1, e, hst⟩ := skip_record h hne (End.eol (fin := fin) (T := t ++ E)) (by simp) g
      exact .inr ⟨s, r, t, rs, line, T1, rfl, h, hg, by simpa using e, hst, by simp⟩
  intro k
  induction k generalizing D rs with
  | zero => intro n g _ _ hk; omega
  | succ k ih =>
    intro n g hu hf hk
    rcases next h hf with rfl | ⟨s, r, D', rs', line, T1, rfl, h2, h3, h4, h5, h6⟩
    · simp
    · have e := read_record h2 (.eol (T := D' ++ E)) (by simp) h4 h5 (by omega) n hu.1
      simp only [readAll, e]
      simp at h6 hf hk
      have := ih (g := 0) h3 hu.2 (by simp; omega) (by simp; omega)
      simpa using this

/-! ## What is read is of the grammar -/

theorem skip_grammar : ∀ (f : Nat) {T line : Bytes} {e : Option RErr} {T1 : Bytes}, skipLines (plainLine .eof) f T = (line, e, T1) →
    (e = some .eof ∧ GoRecords T []) ∨ (e = none ∧ line.length ≠ lengthNL line ∧ ∃ X, St .eof X line T1 ∧ ∀ rs, GoRecords X rs → GoRecords T rs) ∨ (e = some .noProgress ∧ line = []) := by
  intro f
  induction f with
  | zero => intro T line e T1 h; simp [skipLines] at h; exact .inr (.inr ⟨h.2.1.symm, h.1⟩)
  | succ f ih =>
    intro T line e T1 h
    by_cases hT : T = []
    · subst hT
      have e1 : plainLine .eof [] = ([], some .eof, []) := rfl
      simp [skipLines, e1] at h
      exact .inl ⟨h.2.1.symm, .nil⟩
    · obtain ⟨l, T2, e1, hst⟩ := plainLine_st (fin := .eof) (X := T) (.inr ⟨rfl, hT⟩)
      simp only [skipLines, e1, true_and] at h
      split at h
      · rename_i hl
        have hb : T = c%'\n' :: T2 ∨ (T = [c%'\r'] ∧ T2 = []) := by
          cases hst with
          | @line k T hk =>
            rw [lengthNL_nl] at hl
            have : k = [] := by simpa using hl
            subst this
            exact .inl rfl
          | last _ hn =>
            have hd : c%'\n' ∉ dropCR T := by
              unfold dropCR
              split
              · intro h'; exact hn (List.dropLast_subset _ h')
              · exact hn
            rw [lengthNL_none hd] at hl
            have hd0 : dropCR T = [] := List.length_eq_zero_iff.1 hl
            unfold dropCR at hd0
            split at hd0
            · rename_i hc
              obtain ⟨X', rfl⟩ := List.getLast?_eq_some_iff.1 hc
              simp at hd0
              subst hd0
              exact .inr ⟨rfl, rfl⟩
            · exact absurd hd0 hT
        rcases ih h with ⟨he, hg⟩ | ⟨he, hl', X, hX, hg⟩ | he
        · refine .inl ⟨he, ?_⟩
          rcases hb with rfl | ⟨rfl, rfl⟩
          · exact .blank hg
          · exact .cr
        · refine .inr (.inl ⟨he, hl', X, hX, fun rs hr => ?_⟩)
          rcases hb with rfl | ⟨rfl, rfl⟩
          · exact .blank (hg rs hr)
          · exfalso
            cases f with
            | zero => simp [skipLines] at h; simp [he] at h
            | succ f =>
              have e1 : plainLine .eof [] = ([], some .eof, []) := rfl
              simp [skipLines, e1] at h
              simp [he] at h
        · exact .inr (.inr he)
      · rename_i hl
        simp only [Prod.mk.injEq] at h
        obtain ⟨rfl, rfl, rfl⟩ := h
        exact .inr (.inl ⟨rfl, hl, T, hst, fun rs h => h⟩)

theorem plainLine_err (T : Bytes) : (plainLine .eof T).2.1 = none ∨ (plainLine .eof T).2.1 = some .eof := by
  by_cases h : T = []
  · subst h; exact .inr rfl
  · obtain ⟨l, T2, e1, hst⟩ := plainLine_st (fin := .eof) (X := T) (.inr ⟨rfl, h⟩)
    rw [e1]; exact .inl rfl

theorem fields_error : ∀ (f : Nat) {line T : Bytes} {acc r : List Bytes} {cur : Option Bytes} {T' : Bytes} {e : RErr},
    parseFields (plainLine .eof) f T line none acc cur = (r, some e, T') → e ≠ .eof := by
  intro f
  induction f with
  | zero => intro line T acc r cur T' e h; simp [parseFields] at h; rw [← h.2.1]; simp
  | succ f ih =>
    intro line T acc r cur T' e h
    cases cur with
    | none =>
      simp only [parseFields] at h
      split at h
      · split at h
        · split at h
          · simp [errBareQuote] at h; rw [← h.2.1]; simp
          · exact ih h
        · split at h
          · simp [errBareQuote] at h; rw [← h.2.1]; simp
          · simp at h
      · exact ih h
    | some cur =>
      simp only [parseFields] at h
      split at h
      · split at h
        · exact ih h
        · split at h
          · exact ih h
          · split at h
            · simp at h
            · simp [errQuote] at h; rw [← h.2.1]; simp
      · split at h
        · simp only [ne_eq, not_true_eq_false, if_false] at h
          have h1 : (if (plainLine .eof T).2.1 = some .eof then none else (plainLine .eof T).2.1) = none := by
            rcases plainLine_err T with h | h <;> simp [h]
          rw [h1] at h
          exact ih h
        · simp [errQuote] at h; rw [← h.2.1]; simp

theorem records_nil {T : Bytes} {rs : List (List Bytes)} (h : GoRecords T rs) (hT : T = []) : rs = [] := by
  cases h <;> simp_all

/-- What is read is of the grammar. -/
theorem records_grammar {f : Nat} : ∀ (k : Nat) {T : Bytes} {rs : List (List Bytes)} {n : Nat}, readAll (plainLine .eof) f k n T = ⟨rs, .eof⟩ →
    GoRecords T rs ∧ Uniform n rs := by
  intro k
  induction k with
  | zero => intro T rs n h; simp [readAll] at h
  | succ k ih =>
    intro T rs n h
    simp only [readAll, readRecord] at h
    generalize hs : skipLines (plainLine .eof) f T = x at h
    obtain ⟨line, e, T1⟩ := x
    rcases skip_grammar f hs with ⟨rfl, hg⟩ | ⟨rfl, hl, X, hX, hg⟩ | h0
    · simp at h
      subst h
      exact ⟨hg, trivial⟩
    · simp only [reduceCtorEq, if_false] at h
      generalize hp : parseFields (plainLine .eof) f T1 line none [] none = y at h
      obtain ⟨r, e, T2⟩ := y
      cases e with
      | some e =>
        simp at h
        exact absurd h.2 (fields_error f hp)
      | none =>
        simp only at h
        obtain ⟨tail, he, s, vs, rfl, hr, hv, hlast⟩ := fields_grammar rfl f hX hp
        simp only [List.nil_append] at hv
        subst hv
        have hne : s ≠ [] := by
          rintro rfl
          obtain ⟨_, h1 | h1⟩ := he.line (s := []) (by simp) (by simp) hX <;> subst h1 <;> simp [lengthNL] at hl
        have hrs : ∀ rs', GoRecords T2 rs' → GoRecords (s ++ tail) (r :: rs') := by
          intro rs' h'
          cases he with
          | eol => exact .record hr hne h'
          | eof _ =>
            have : rs' = [] := records_nil h' rfl
            subst this
            simpa using GoRecords.last hr hne (hlast rfl)
          | cr _ =>
            have : rs' = [] := records_nil h' rfl
            subst this
            exact .lastCR hr hne
        by_cases hn : n > 0 ∧ r.length ≠ n
        · simp [hn, errFieldCount] at h
        · simp only [hn, if_false, Input.mk.injEq] at h
          have hlen := record_length hr
          have hnn : (if n = 0 then r.length else n) = r.length := by split <;> omega
          rw [hnn] at h
          have := ih (T := T2) (n := r.length) (rs := (readAll (plainLine .eof) f k r.length T2).records) (by
            have h2 := h.2
            generalize readAll (plainLine .eof) f k r.length T2 = z at h2 ⊢
            cases z
            simp_all)
          rw [← h.1]
          exact ⟨hg _ (hrs _ this.1), by simp only [gt_iff_lt, ne_eq] at hn; omega, this.2⟩
    · obtain ⟨rfl, rfl⟩ := h0
      exfalso
      cases f with
      | zero => simp [parseFields] at h
      | succ f => simp [parseFields] at h

/-! ## Texts -/

theorem uniform_iff {rs : List (List Bytes)} (h : ∀ r ∈ rs, 0 < r.length) : Uniform 0 rs ↔ ∀ r ∈ rs, ∀ r' ∈ rs, r.length = r'.length := by
  have aux : ∀ (rs : List (List Bytes)) n, 0 < n → (Uniform n rs ↔ ∀ r ∈ rs, r.length = n) := by
    intro rs
    induction rs with
    | nil => simp [Uniform]
    | cons r rs ih =>
      intro n hn
      simp only [Uniform, List.mem_cons, forall_eq_or_imp]
      constructor
      · rintro ⟨h1 | h1, h2⟩
        · omega
        · subst h1; exact ⟨rfl, (ih _ hn).1 h2⟩
      · rintro ⟨rfl, h2⟩
        exact ⟨.inr rfl, (ih _ hn).2 h2⟩
  cases rs with
  | nil => simp [Uniform]
  | cons r rs =>
    simp only [Uniform, true_or, true_and]
    rw [aux _ _ (h r (by simp))]
    constructor
    · intro h' a ha b hb
      have : ∀ a ∈ r :: rs, a.length = r.length := by
        intro a ha
        rcases List.mem_cons.1 ha with rfl | ha
        · rfl
        · exact h' a ha
      rw [this a ha, this b hb]
    · intro h' a ha
      exact h' a (by simp [ha]) r (by simp)

theorem records_pos {T : Bytes} {rs : List (List Bytes)} (h : GoRecords T rs) : ∀ r ∈ rs, 0 < r.length := by
  induction h with
  | nil => simp
  | cr => simp
  | blank _ ih => exact ih
  | record h _ _ ih => simpa using ⟨record_length h, ih⟩
  | last h _ _ => simpa using record_length h
  | lastCR h _ => simpa using record_length h

theorem lines_pos {T : Bytes} {rs : List (List Bytes)} (h : GoLines T rs) : ∀ r ∈ rs, 0 < r.length := by
  induction h with
  | nil => simp
  | blank _ ih => exact ih
  | record h _ _ ih => simpa using ⟨record_length h, ih⟩

theorem readText_crlf (fin : RErr) (D : Bytes) : readText fin D = readAll (plainLine fin) (D.length + 2) (D.length + 2) 0 (crlf D) :=
  same_all (same_crlf fin) _ _ _ rfl

/-- The texts that are read without an error, and their records. -/
theorem readText_iff {D : Bytes} {rs : List (List Bytes)} :
    readText .eof D = ⟨rs, .eof⟩ ↔ GoRecords (crlf D) rs ∧ ∀ r ∈ rs, ∀ r' ∈ rs, r.length = r'.length := by
  rw [readText_crlf]
  have hl := crlf_length D
  constructor
  · intro h
    have := records_grammar _ h
    exact ⟨this.1, (uniform_iff (records_pos this.1)).1 this.2⟩
  · rintro ⟨h1, h2⟩
    exact records_read _ h1 ((uniform_iff (records_pos h1)).2 h2) (by omega) (by omega)

theorem lines_last {T : Bytes} {rs : List (List Bytes)} (h : GoLines T rs) : T.getLast? ≠ some c%'\r' := by
  induction h with
  | nil => simp
  | @blank t rs h ih =>
    cases t with
    | nil => decide
    | cons b t => rw [List.getLast?_cons_cons]; exact ih
  | @record s r t rs h hne hg ih =>
    cases t with
    | nil => simp
    | cons b t => simpa using ih

/-- The records that are complete are delivered, whatever comes after them. -/
theorem readText_prefix {fin : RErr} {D E : Bytes} {rs : List (List Bytes)} (h : GoLines (crlf D) rs) (hw : ∀ r ∈ rs, ∀ r' ∈ rs, r.length = r'.length) :
    rs <+: (readText fin (D ++ E)).records := by
  rw [readText_crlf]
  have hl := crlf_length (D ++ E)
  have hD : D.getLast? ≠ some c%'\r' := by
    intro hD
    obtain ⟨D', rfl⟩ := List.getLast?_eq_some_iff.1 hD
    rw [crlf_append (by simp)] at h
    apply lines_last h
    simp [crlf]
  rw [crlf_append (.inr hD)] at hl ⊢
  exact lines_read (g := 0) h ((uniform_iff (lines_pos h)).2 hw) (by omega) (by omega)

/-! ## RFC 4180 -/

theorem crlf_quoted {s v : Bytes} (h : Quoted s v) : Quoted (crlf s) (crlf v) ∧ (s.head? = some c%'\n' ↔ v.head? = some c%'\n') := by
  induction h with
  | nil => exact ⟨.nil, Iff.rfl⟩
  | @char b s v hb h ih =>
    refine ⟨?_, by simp⟩
    unfold crlf
    by_cases hc : b = c%'\r' ∧ s.head? = some c%'\n'
    · have hc' : b = c%'\r' ∧ v.head? = some c%'\n' := ⟨hc.1, ih.2.1 hc.2⟩
      rw [if_pos hc, if_pos hc']
      exact ih.1
    · have hc' : ¬ (b = c%'\r' ∧ v.head? = some c%'\n') := fun h => hc ⟨h.1, ih.2.2 h.2⟩
      rw [if_neg hc, if_neg hc']
      exact .char hb ih.1
  | @quote s v h ih =>
    refine ⟨?_, by simp⟩
    have e : ∀ t, crlf (c%'"' :: t) = c%'"' :: crlf t := fun t => by conv => lhs; unfold crlf; simp
    rw [e, e, e]
    exact .quote ih.1

theorem crlf_field {s v : Bytes} (h : Field s v) : GoField (crlf s) (crlf v) ∧ s.getLast? ≠ some c%'\r' ∧ (crlf s).getLast? ≠ some c%'\r' := by
  cases h with
  | plain h =>
    have hn : c%'\n' ∉ s := fun hm => (h _ hm).2.2.2 rfl
    have hl : s.getLast? ≠ some c%'\r' := fun hl => (h _ (List.mem_of_getLast? hl)).2.2.1 rfl
    rw [crlf_none hn]
    exact ⟨.plain fun b hb => ⟨(h b hb).1, (h b hb).2.1, (h b hb).2.2.2⟩, hl, hl⟩
  | @quoted s v h =>
    have e : crlf (c%'"' :: (s ++ [c%'"'])) = c%'"' :: (crlf s ++ [c%'"']) := by
      have e : ∀ t, crlf (c%'"' :: t) = c%'"' :: crlf t := fun t => by conv => lhs; unfold crlf; simp
      rw [e, crlf_append (by simp)]
      rfl
    rw [e]
    refine ⟨.quoted (crlf_quoted h).1, ?_, ?_⟩ <;> rw [← List.cons_append, List.getLast?_concat] <;> simp

theorem crlf_record {s : Bytes} {r : List Bytes} (h : Record s r) :
    GoRecord (crlf s) (r.map crlf) ∧ s.getLast? ≠ some c%'\r' ∧ (crlf s).getLast? ≠ some c%'\r' := by
  induction h with
  | one h => exact ⟨.one (crlf_field h).1, (crlf_field h).2⟩
  | @cons s v t vs h _ ih =>
    obtain ⟨h1, h2, h3⟩ := crlf_field h
    have e : ∀ t, crlf (c%',' :: t) = c%',' :: crlf t := fun t => by conv => lhs; unfold crlf; simp
    rw [crlf_append (.inr h2), e]
    refine ⟨.cons h1 ih.1, ?_, ?_⟩
    · cases t with
      | nil => simp
      | cons b t => simpa using ih.2.1
    · generalize crlf t = t' at ih
      cases t' with
      | nil => simp
      | cons b t => simpa using ih.2.2

theorem crlf_eq_nil {s : Bytes} (h : crlf s = []) : s = [] := by
  cases s with
  | nil => rfl
  | cons b s =>
    exfalso
    unfold crlf at h
    split at h
    · rename_i hc
      have : c%'\n' ∈ crlf s := mem_crlf.2 (List.mem_of_mem_head? hc.2)
      rw [h] at this
      simp at this
    · simp at h

theorem record_nil {s : Bytes} {r : List Bytes} (h : Record s r) (hs : s = []) : r = [[]] := by
  cases h with
  | one h =>
    cases h with
    | plain _ => rw [hs]
    | quoted _ => simp at hs
  | cons _ _ => simp at hs

theorem crlf_eol {e : Bytes} (h : Eol e) (t : Bytes) : crlf (e ++ t) = c%'\n' :: crlf t := by
  cases h <;> simp [crlf]

theorem crlf_file {D : Bytes} {rs : List (List Bytes)} (h : File D rs) (hne : [[]] ∉ rs) : GoRecords (crlf D) (rs.map (·.map crlf)) := by
  induction h with
  | @last s r h =>
    obtain ⟨h1, h2, h3⟩ := crlf_record h
    exact .last h1 (fun h' => hne (by rw [record_nil h (crlf_eq_nil h')]; simp)) h3
  | @lastEol s r e h he =>
    obtain ⟨h1, h2, h3⟩ := crlf_record h
    rw [crlf_append (.inr h2), show crlf e = c%'\n' :: [] by simpa [crlf] using crlf_eol he []]
    exact .record h1 (fun h' => hne (by rw [record_nil h (crlf_eq_nil h')]; simp)) .nil
  | @cons s r e t rs h he _ ih =>
    simp only [List.mem_cons, not_or] at hne
    obtain ⟨h1, h2, h3⟩ := crlf_record h
    rw [crlf_append (.inr h2), crlf_eol he]
    exact .record h1 (fun h' => hne.1 (record_nil h (crlf_eq_nil h')).symm) (ih hne.2)

theorem crlf_id {v : Bytes} (h : ¬ [c%'\r', c%'\n'] <:+: v) : crlf v = v := by
  induction v with
  | nil => rfl
  | cons b v ih =>
    unfold crlf
    rw [if_neg, ih fun h' => h (h'.trans (List.suffix_cons b v).isInfix)]
    rintro ⟨rfl, hv⟩
    cases v with
    | nil => simp at hv
    | cons c v =>
      simp at hv
      subst hv
      exact h ⟨[], v, rfl⟩

end

/-! ## The number of fields -/

theorem fields_pos {σ : Type} {rl : σ → Bytes × Option RErr × σ} : ∀ (f : Nat) {s : σ} {line : Bytes} {er : Option RErr} {acc r : List Bytes} {cur : Option Bytes} {s' : σ},
    parseFields rl f s line er acc cur = (r, none, s') → 0 < r.length := by
  intro f
  induction f with
  | zero => intro s line er acc r cur s' h; simp [parseFields] at h
  | succ f ih =>
    intro s line er acc r cur s' h
    cases cur <;> unfold parseFields at h <;> grind

theorem readAll_uniform {σ : Type} {rl : σ → Bytes × Option RErr × σ} {f : Nat} : ∀ (k n : Nat) (s : σ),
    Uniform n (readAll rl f k n s).records ∧ ∀ r ∈ (readAll rl f k n s).records, 0 < r.length := by
  intro k
  induction k with
  | zero => intro n s; simp [readAll, Uniform]
  | succ k ih =>
    intro n s
    unfold readAll readRecord
    generalize skipLines rl f s = x
    obtain ⟨line, er, s1⟩ := x
    dsimp only
    by_cases he : er = some .eof
    · simp [he, Uniform]
    · simp only [he, if_false]
      generalize hp : parseFields rl f s1 line er [] none = y
      obtain ⟨r, e, s2⟩ := y
      cases e with
      | some e => simp [Uniform]
      | none =>
        dsimp only
        by_cases hn : n > 0 ∧ r.length ≠ n
        · simp [hn, Uniform]
        · simp only [hn, if_false]
          have hr := fields_pos f hp
          have hnn : (if n = 0 then r.length else n) = r.length := by split <;> omega
          rw [hnn]
          refine ⟨⟨by omega, (ih _ _).1⟩, ?_⟩
          intro a ha
          rcases List.mem_cons.1 ha with rfl | ha
          · exact hr
          · exact (ih _ _).2 a ha

theorem readAll_width {σ : Type} {rl : σ → Bytes × Option RErr × σ} {f k : Nat} {s : σ} :
    ∀ a ∈ (readAll rl f k 0 s).records, ∀ b ∈ (readAll rl f k 0 s).records, a.length = b.length :=
  (uniform_iff (readAll_uniform k 0 s).2).1 (readAll_uniform k 0 s).1

end Verif.Csv
