import Verif.CsvGrammar

/-!
# The loop of `readRecord` and the grammar
-/

set_option linter.unusedSimpArgs false
set_option linter.unusedVariables false

namespace Verif.Csv
open Rfc4180

/-- A text without a carriage return at its end. -/
def dropCR (s : Bytes) : Bytes := if s.getLast? = some c%'\r' then s.dropLast else s

/-- In the middle of a text: `X` is what is left, `line` is what is left of the line, and `T` is what comes after it. -/
inductive St (fin : RErr) : Bytes → Bytes → Bytes → Prop
  | line {l T} : c%'\n' ∉ l → St fin (l ++ c%'\n' :: T) (l ++ [c%'\n']) T
  | last {X} : fin = .eof → c%'\n' ∉ X → St fin X (dropCR X) []

/-- What comes after a record. -/
inductive End (fin : RErr) : Bytes → Bytes → Prop
  | eol {T} : End fin (c%'\n' :: T) T
  | eof : fin = .eof → End fin [] []
  | cr : fin = .eof → End fin [c%'\r'] []

theorem dropCR_append {p X : Bytes} (h : X ≠ [] ∨ p.getLast? ≠ some c%'\r') : dropCR (p ++ X) = p ++ dropCR X := by
  unfold dropCR
  by_cases hX : X = []
  · subst hX
    rcases h with h | h
    · exact absurd rfl h
    · simp [h]
  · obtain ⟨X', x, rfl⟩ : ∃ X' x, X = X' ++ [x] := ⟨X.dropLast, X.getLast hX, (List.dropLast_concat_getLast hX).symm⟩
    rw [← List.append_assoc]
    simp only [List.getLast?_append, List.getLast?_singleton, Option.some_or, List.dropLast_concat]
    split <;> simp

/-- The reading of the next line. -/
theorem plainLine_st {fin : RErr} {X : Bytes} (h : c%'\n' ∈ X ∨ (fin = .eof ∧ X ≠ [])) :
    ∃ line T, plainLine fin X = (line, none, T) ∧ St fin X line T := by
  unfold plainLine
  by_cases hn : c%'\n' ∈ X
  · rw [if_pos hn]
    obtain ⟨l, t, h1, rfl, h3⟩ := lineOf_split hn
    rw [h3]
    exact ⟨_, _, rfl, by simpa using St.line (fin := fin) (T := t) h1⟩
  · rw [if_neg hn]
    rcases h with h | ⟨rfl, h⟩
    · exact absurd h hn
    · refine ⟨dropCR X, [], ?_, .last rfl hn⟩
      have hl : X.length > 0 := List.length_pos_iff.2 h
      unfold finishLine dropCR
      simp only [hl, true_and, if_true]
      rw [if_neg]
      rintro ⟨t, ht⟩
      have : c%'\n' ∈ X := by
        split at ht
        · have : c%'\n' ∈ X.dropLast := by rw [← ht]; simp
          exact List.dropLast_subset _ this
        · rw [← ht]; simp
      exact hn this

theorem St.append {fin : RErr} {p X line T : Bytes} (hp : c%'\n' ∉ p) (hX : X ≠ [] ∨ p.getLast? ≠ some c%'\r') (h : St fin (p ++ X) line T) :
    ∃ l, line = p ++ l ∧ St fin X l T := by
  generalize hY : p ++ X = Y at h
  cases h with
  | @line l T h =>
    have hm : c%'\n' ∈ X := by
      have : c%'\n' ∈ p ++ X := by rw [hY]; simp
      simpa [hp] using this
    obtain ⟨l', t, h1, rfl, h3⟩ := lineOf_split hm
    have e : (p ++ l') ++ c%'\n' :: t = l ++ c%'\n' :: T := by rw [← hY]; simp
    have e2 := congrArg lineOf e
    rw [lineOf_eq h, lineOf_eq (by simp [hp, h1])] at e2
    have e3 := List.append_cancel_right e2
    rw [← e3] at e
    have e4 := List.append_cancel_left e
    simp only [List.cons.injEq, true_and] at e4
    subst e4
    exact ⟨l' ++ [c%'\n'], by rw [← e2]; simp, .line h1⟩
  | last hf h =>
    subst hY
    exact ⟨dropCR X, dropCR_append hX, .last hf (fun h' => h (by simp [h']))⟩

theorem St.ne_nil {fin : RErr} {X line T : Bytes} (h : St fin X line T) (hX : ∃ b ∈ X, b ≠ c%'\r') : line ≠ [] := by
  cases h with
  | line h => simp
  | last _ h =>
    obtain ⟨b, hb, hr⟩ := hX
    intro e
    unfold dropCR at e
    split at e
    · rename_i hl
      obtain ⟨l', rfl⟩ := List.getLast?_eq_some_iff.1 hl
      simp at e
      subst e
      simp at hb
      exact hr hb
    · rw [e] at hb; cases hb

/-! ## Texts of the grammar are read -/

/-- A byte in quotes that is not the last of its line. -/
theorem quoted_step {σ : Type} {rl : σ → Bytes × Option RErr × σ} {f : Nat} {s : σ} {b : Byte} {line : Bytes} {e : Option RErr} {acc : List Bytes} {cur : Bytes}
    (hb : b ≠ c%'"') (hl : line ≠ []) :
    parseFields rl (f + 1) s (b :: line) e acc (some cur) = parseFields rl (f + 1) s line e acc (some (cur ++ [b])) := by
  simp only [parseFields]
  by_cases h : c%'"' ∈ line
  · have h' : c%'"' ∈ b :: line := List.mem_cons_of_mem _ h
    rw [if_pos h', if_pos h]
    have ht : (b :: line).takeWhile (· ≠ c%'"') = b :: line.takeWhile (· ≠ c%'"') := by simp [hb]
    simp only [ht]
    simp
  · have h' : c%'"' ∉ b :: line := by simp [h, Ne.symm hb]
    rw [if_neg h', if_neg h]
    have h1 : line.length > 0 := List.length_pos_iff.2 hl
    rw [if_pos (by simp), if_pos h1]
    simp

section
variable {fin : RErr}

theorem quoted_read {s v : Bytes} (h : Quoted s v) : ∀ {Y line T : Bytes} {f : Nat} {acc : List Bytes} {cur : Bytes},
    (fin = .eof ∨ c%'\n' ∈ Y) → St fin (s ++ c%'"' :: Y) line T →
    (s ++ c%'"' :: Y).length < f →
    ∃ f' line' T', Y.length < f' ∧ St fin Y line' T' ∧
      parseFields (plainLine fin) f T line none acc (some cur) = parseFields (plainLine fin) (f' + 1) T' (c%'"' :: line') none acc (some (cur ++ v)) := by
  induction h with
  | nil =>
    intro Y line T f acc cur hY hs hf
    cases f with
    | zero => simp at hf
    | succ f =>
      obtain ⟨l, rfl, hl⟩ := St.append (p := [c%'"']) (X := Y) (by simp) (.inr (by simp)) (by simpa using hs)
      exact ⟨f, l, T, by simp at hf; omega, hl, by simp⟩
  | @char b s v hb hq ih =>
    intro Y line T f acc cur hY hs hf
    obtain ⟨f, rfl⟩ : ∃ g, f = g + 1 := ⟨f - 1, by simp at hf; omega⟩
    by_cases hn : b = c%'\n'
    · subst hn
      have hl : line = [c%'\n'] ∧ T = s ++ c%'"' :: Y := by
        generalize hX : (c%'\n' :: s) ++ c%'"' :: Y = X at hs
        cases hs with
        | @line l T h =>
          cases l with
          | nil => simp at hX; exact ⟨rfl, hX.symm⟩
          | cons x l => simp at hX; rw [← hX.1] at h; simp at h
        | last _ h => rw [← hX] at h; simp at h
      obtain ⟨rfl, rfl⟩ := hl
      have hne : c%'\n' ∈ s ++ c%'"' :: Y ∨ fin = .eof ∧ s ++ c%'"' :: Y ≠ [] := by
        rcases hY with h | h
        · exact .inr ⟨h, by simp⟩
        · exact .inl (by simp [h])
      obtain ⟨line, T, e, hst⟩ := plainLine_st hne
      obtain ⟨f', line', T', h1, h2, h3⟩ := ih hY hst (f := f) (acc := acc) (cur := cur ++ [c%'\n']) (by simp at hf ⊢; omega)
      refine ⟨f', line', T', h1, h2, ?_⟩
      rw [show cur ++ c%'\n' :: v = cur ++ [c%'\n'] ++ v by simp, ← h3]
      simp [parseFields, e]
    · obtain ⟨l, rfl, hl⟩ := St.append (p := [b]) (X := s ++ c%'"' :: Y) (by simpa using Ne.symm hn) (.inl (by simp)) (by simpa using hs)
      have hne : l ≠ [] := hl.ne_nil ⟨c%'"', by simp, by decide⟩
      obtain ⟨f', line', T', h1, h2, h3⟩ := ih hY hl (f := f + 1) (acc := acc) (cur := cur ++ [b]) (by simp at hf ⊢; omega)
      refine ⟨f', line', T', h1, h2, ?_⟩
      rw [show cur ++ b :: v = cur ++ [b] ++ v by simp, ← h3]
      exact quoted_step hb hne
  | @quote s v hq ih =>
    intro Y line T f acc cur hY hs hf
    obtain ⟨f, rfl⟩ : ∃ g, f = g + 1 := ⟨f - 1, by simp at hf; omega⟩
    obtain ⟨l, rfl, hl⟩ := St.append (p := [c%'"', c%'"']) (X := s ++ c%'"' :: Y) (by simp) (.inl (by simp)) (by simpa using hs)
    obtain ⟨f', line', T', h1, h2, h3⟩ := ih hY hl (f := f) (acc := acc) (cur := cur ++ [c%'"']) (by simp at hf ⊢; omega)
    refine ⟨f', line', T', h1, h2, ?_⟩
    rw [show cur ++ c%'"' :: v = cur ++ [c%'"'] ++ v by simp, ← h3]
    simp [parseFields]

theorem takeWhile_comma {s t : Bytes} (h : c%',' ∉ s) : (s ++ c%',' :: t).takeWhile (· ≠ c%',') = s := by
  rw [List.takeWhile_append_of_pos]
  · simp
  · intro a ha; simp; rintro rfl; exact h ha

theorem lengthNL_nl (l : Bytes) : lengthNL (l ++ [c%'\n']) = 1 := by simp [lengthNL]

theorem lengthNL_none {l : Bytes} (h : c%'\n' ∉ l) : lengthNL l = 0 := by
  unfold lengthNL
  rw [if_neg]
  intro h'
  obtain ⟨l', rfl⟩ := List.getLast?_eq_some_iff.1 h'
  simp at h

/-- The line at the end of a record. -/
theorem End.line {s tail T line T' : Bytes} (he : End fin tail T) (hs : c%'\n' ∉ s) (hr : tail = [] → s.getLast? ≠ some c%'\r') (h : St fin (s ++ tail) line T') :
    T' = T ∧ (line = s ++ [c%'\n'] ∨ line = s) := by
  cases he with
  | eol =>
    generalize hX : s ++ c%'\n' :: T = X at h
    cases h with
    | @line l T1 h =>
      have e2 := congrArg lineOf hX
      rw [lineOf_eq h, lineOf_eq hs] at e2
      have e3 := List.append_cancel_right e2
      subst e3
      have e4 := List.append_cancel_left hX
      simp only [List.cons.injEq, true_and] at e4
      exact ⟨e4.symm, .inl rfl⟩
    | last _ h => rw [← hX] at h; simp at h
  | eof hf =>
    simp only [List.append_nil] at h
    cases h with
    | @line l T1 h => simp at hs
    | last _ h => exact ⟨rfl, .inr (by simp [dropCR, hr rfl])⟩
  | cr hf =>
    generalize hX : s ++ [c%'\r'] = X at h
    cases h with
    | @line l T1 h =>
      have : c%'\n' ∈ s ++ [c%'\r'] := by rw [hX]; simp
      simp at this; exact absurd this hs
    | last _ h => subst hX; exact ⟨rfl, .inr (by simp [dropCR])⟩

theorem End.mem {tail T : Bytes} (he : End fin tail T) : fin = .eof ∨ c%'\n' ∈ tail := by
  cases he with
  | eol => exact .inr (by simp)
  | eof h => exact .inl h
  | cr h => exact .inl h

theorem record_read {s : Bytes} {r : List Bytes} (h : GoRecord s r) : ∀ {tail T line T' : Bytes} {f : Nat} {acc : List Bytes}, End fin tail T →
    (tail = [] → s.getLast? ≠ some c%'\r') → St fin (s ++ tail) line T' → (s ++ tail).length < f →
    parseFields (plainLine fin) f T' line none acc none = (acc ++ r, none, T) := by
  induction h with
  | @one s v hf =>
    intro tail T line T' f acc he hr hs hl
    obtain ⟨f, rfl⟩ : ∃ g, f = g + 1 := ⟨f - 1, by omega⟩
    cases hf with
    | plain hp =>
      have hn : c%'\n' ∉ s := fun h => (hp _ h).2.2 rfl
      have hc : c%',' ∉ s := fun h => (hp _ h).2.1 rfl
      have hq : c%'"' ∉ s := fun h => (hp _ h).1 rfl
      obtain ⟨rfl, hline⟩ := he.line hn hr hs
      have hh : line.head? ≠ some c%'"' := by
        intro h'
        have : c%'"' ∈ line := List.mem_of_mem_head? h'
        rcases hline with rfl | rfl <;> simp [hq] at this
      have hc' : c%',' ∉ line := by rcases hline with rfl | rfl <;> simp [hc]
      have ht : line.take (line.length - lengthNL line) = s := by
        rcases hline with rfl | rfl
        · rw [lengthNL_nl]; simp
        · rw [lengthNL_none hn]; simp
      simp only [parseFields, hh, hc', ht, hq, ne_eq, not_false_eq_true, if_true, if_false]
    | @quoted s v hq =>
      obtain ⟨l, rfl, hst⟩ := St.append (p := [c%'"']) (X := s ++ c%'"' :: tail) (by simp) (.inl (by simp)) (by simpa using hs)
      obtain ⟨f', line', T1, h1, h2, h3⟩ := quoted_read hq (acc := acc) (cur := []) (f := f) he.mem hst (by simp at hl ⊢; omega)
      obtain ⟨rfl, hline⟩ := End.line (s := []) he (by simp) (by simp) h2
      have e1 : parseFields (plainLine fin) (f + 1) T' ([c%'"'] ++ l) none acc none = parseFields (plainLine fin) f T' l none acc (some []) := by
        simp [parseFields]
      rw [e1, h3]
      rcases hline with rfl | rfl
      · simp [parseFields, lengthNL]
      · simp [parseFields, lengthNL]
  | @cons s v t vs hf hg ih =>
    intro tail T line T' f acc he hr hs hl
    obtain ⟨f, rfl⟩ : ∃ g, f = g + 1 := ⟨f - 1, by omega⟩
    have hr' : tail = [] → t.getLast? ≠ some c%'\r' := by
      intro h0 h1
      apply hr h0
      simp [List.getLast?_append, List.getLast?_cons, h1]
    cases hf with
    | plain hp =>
      have hn : c%'\n' ∉ s := fun h => (hp _ h).2.2 rfl
      have hc : c%',' ∉ s := fun h => (hp _ h).2.1 rfl
      have hq : c%'"' ∉ s := fun h => (hp _ h).1 rfl
      obtain ⟨l, rfl, hst⟩ := St.append (p := s ++ [c%',']) (X := t ++ tail) (by simp [hn]) (.inr (by simp)) (by simpa using hs)
      have hh : (s ++ c%',' :: l).head? ≠ some c%'"' := by
        intro h'
        cases s with
        | nil => simp at h'
        | cons x s => simp at h'; subst h'; simp at hq
      have e1 : parseFields (plainLine fin) (f + 1) T' (s ++ [c%','] ++ l) none acc none = parseFields (plainLine fin) f T' l none (acc ++ [s]) none := by
        rw [List.append_assoc]
        simp only [List.singleton_append, parseFields, hh, ne_eq, not_false_eq_true, if_true, takeWhile_comma hc, hq, if_false]
        rw [if_pos (by simp)]
        simp
      rw [e1, ih he hr' hst (by simp at hl ⊢; omega)]
      simp
    | @quoted s v hq =>
      obtain ⟨l, rfl, hst⟩ := St.append (p := [c%'"']) (X := s ++ c%'"' :: (c%',' :: (t ++ tail))) (by simp) (.inl (by simp)) (by simpa using hs)
      obtain ⟨f', line', T1, h1, h2, h3⟩ := quoted_read hq (acc := acc) (cur := []) (f := f)
        (by rcases he.mem with h | h
            · exact .inl h
            · exact .inr (by simp [h])) hst (by simp at hl ⊢; omega)
      obtain ⟨l', rfl, hst'⟩ := St.append (p := [c%',']) (X := t ++ tail) (by simp) (.inr (by simp)) (by simpa using h2)
      have e1 : parseFields (plainLine fin) (f + 1) T' ([c%'"'] ++ l) none acc none = parseFields (plainLine fin) f T' l none acc (some []) := by
        simp [parseFields]
      rw [e1, h3]
      have e2 : parseFields (plainLine fin) (f' + 1) T1 (c%'"' :: ([c%','] ++ l')) none acc (some ([] ++ v)) =
          parseFields (plainLine fin) f' T1 l' none (acc ++ [v]) none := by
        simp [parseFields]
      rw [e2, ih he hr' hst' (by simp at h1 ⊢; omega)]
      simp

/-! ## What is read is of the grammar -/

theorem quoted_append {a v b w : Bytes} (h : Quoted a v) (h' : Quoted b w) : Quoted (a ++ b) (v ++ w) := by
  induction h with
  | nil => exact h'
  | char hb _ ih => exact .char hb ih
  | quote _ ih => exact .quote ih

theorem quoted_plain {s : Bytes} (h : c%'"' ∉ s) : Quoted s s := by
  induction s with
  | nil => exact .nil
  | cons b s ih => exact .char (fun e => h (by simp [e])) (ih fun h' => h (by simp [h']))

theorem split_at {c : Byte} {l : Bytes} (h : c ∈ l) : ∃ a b, c ∉ a ∧ l = a ++ c :: b ∧ l.takeWhile (· ≠ c) = a ∧ l.drop (a.length + 1) = b := by
  induction l with
  | nil => cases h
  | cons x l ih =>
    by_cases hx : x = c
    · subst hx; exact ⟨[], l, by simp, rfl, by simp, by simp⟩
    · have hm : c ∈ l := by
        rcases List.mem_cons.1 h with h | h
        · exact absurd h.symm hx
        · exact h
      obtain ⟨a, b, h1, h2, h3, h4⟩ := ih hm
      refine ⟨x :: a, b, by simp [h1, Ne.symm hx], by simp [h2], ?_, by simpa using h4⟩
      rw [List.takeWhile_cons, if_pos (by simpa using hx), h3]

/-- A part of the line. -/
theorem St.drop {X a l T : Bytes} (h : St fin X (a ++ l) T) (ha : c%'\n' ∉ a) (hr : l ≠ [] ∨ a.getLast? ≠ some c%'\r') : ∃ Y, X = a ++ Y ∧ St fin Y l T := by
  generalize hL : a ++ l = L at h
  cases h with
  | @line k T h =>
    have hm : c%'\n' ∈ l := by
      have : c%'\n' ∈ a ++ l := by rw [hL]; simp
      simpa [ha] using this
    obtain ⟨l', t, h1, rfl, -⟩ := lineOf_split hm
    have e : (a ++ l') ++ c%'\n' :: t = k ++ c%'\n' :: [] := by rw [← hL]; simp
    have e2 := congrArg lineOf e
    rw [lineOf_eq h, lineOf_eq (by simp [ha, h1])] at e2
    have e3 := List.append_cancel_right e2
    rw [← e3] at e
    have e4 := List.append_cancel_left e
    simp only [List.cons.injEq, true_and] at e4
    subst e4
    rw [← e3]
    exact ⟨l' ++ c%'\n' :: T, by simp, .line h1⟩
  | last hf h =>
    have hX : ∃ Y, X = a ++ Y ∧ dropCR Y = l := by
      unfold dropCR at hL
      split at hL
      · rename_i hc
        obtain ⟨X', rfl⟩ := List.getLast?_eq_some_iff.1 hc
        simp at hL
        subst hL
        exact ⟨l ++ [c%'\r'], by simp, by simp [dropCR]⟩
      · rename_i hc
        subst hL
        refine ⟨l, rfl, ?_⟩
        unfold dropCR
        rw [if_neg]
        intro h'
        apply hc
        simp [List.getLast?_append, h']
    obtain ⟨Y, rfl, rfl⟩ := hX
    exact ⟨Y, rfl, .last hf fun h' => h (by simp [h'])⟩

/-- The end of the line is the end of the record. -/
theorem St.end_ {X line T : Bytes} (h : St fin X line T) (s : Bytes) (hs : line = s ++ [c%'\n'] ∧ c%'\n' ∉ s ∨ line = s ∧ c%'\n' ∉ s) :
    ∃ tail, X = s ++ tail ∧ End fin tail T ∧ (tail = [] → s.getLast? ≠ some c%'\r') := by
  cases h with
  | @line l T hl =>
    rcases hs with ⟨h1, h2⟩ | ⟨h1, h2⟩
    · have := List.append_cancel_right h1
      subst this
      exact ⟨c%'\n' :: T, rfl, .eol, by simp⟩
    · rw [← h1] at h2; simp at h2
  | last hf hl =>
    have hd : c%'\n' ∉ dropCR X := by
      unfold dropCR
      split
      · intro h'; exact hl (List.dropLast_subset _ h')
      · exact hl
    rcases hs with ⟨h1, h2⟩ | ⟨h1, h2⟩
    · rw [h1] at hd; simp at hd
    · unfold dropCR at h1
      split at h1
      · rename_i hc
        obtain ⟨X', rfl⟩ := List.getLast?_eq_some_iff.1 hc
        simp at h1
        subst h1
        exact ⟨[c%'\r'], rfl, .cr hf, by simp⟩
      · rename_i hc
        subst h1
        exact ⟨[], by simp, .eof hf, fun _ => hc⟩

/-- The line is what is left of it before its end. -/
theorem St.body {X line T : Bytes} (h : St fin X line T) :
    line = line.take (line.length - lengthNL line) ++ [c%'\n'] ∧ c%'\n' ∉ line.take (line.length - lengthNL line) ∨
      line = line.take (line.length - lengthNL line) ∧ c%'\n' ∉ line.take (line.length - lengthNL line) := by
  cases h with
  | @line l T hl => left; rw [lengthNL_nl]; simpa using hl
  | last hf hl =>
    have hd : c%'\n' ∉ dropCR X := by
      unfold dropCR
      split
      · intro h'; exact hl (List.dropLast_subset _ h')
      · exact hl
    right
    rw [lengthNL_none hd]
    simpa using hd

theorem St.no_nl {X a b T : Bytes} {c : Byte} (h : St fin X (a ++ c :: b) T) : c%'\n' ∉ a := by
  generalize hL : a ++ c :: b = L at h
  cases h with
  | @line l T hl =>
    have e := congrArg List.dropLast hL
    rw [List.dropLast_append_of_ne_nil (by simp), List.dropLast_concat] at e
    intro h'
    exact hl (by rw [← e]; simp [h'])
  | last hf hl =>
    have hd : c%'\n' ∉ dropCR X := by
      unfold dropCR
      split
      · intro h'; exact hl (List.dropLast_subset _ h')
      · exact hl
    intro h'
    exact hd (by rw [← hL]; simp [h'])

theorem last_cons {a s : Bytes} {c : Byte} (hc : c ≠ c%'\r') (h : s.getLast? ≠ some c%'\r') : (a ++ c :: s).getLast? ≠ some c%'\r' := by
  rw [List.getLast?_append, List.getLast?_cons]
  cases hs : s.getLast? with
  | none => simpa using hc
  | some x => rw [hs] at h; simpa using h

/-- What has been read when the loop ends without an error. -/
theorem fields_grammar (hfin : fin = .eof) : ∀ (f : Nat) {X line T : Bytes} {acc r : List Bytes} {cur : Option Bytes} {T' : Bytes}, St fin X line T →
    parseFields (plainLine fin) f T line none acc cur = (r, none, T') →
    ∃ tail, End fin tail T' ∧
      match cur with
      | none => ∃ s vs, X = s ++ tail ∧ GoRecord s vs ∧ r = acc ++ vs ∧ (tail = [] → s.getLast? ≠ some c%'\r')
      | some cur => ∃ s v, Quoted s v ∧ ((X = s ++ c%'"' :: tail ∧ r = acc ++ [cur ++ v]) ∨
          ∃ t vs, X = s ++ c%'"' :: c%',' :: (t ++ tail) ∧ GoRecord t vs ∧ r = acc ++ (cur ++ v) :: vs ∧ (tail = [] → t.getLast? ≠ some c%'\r')) := by
  intro f
  induction f with
  | zero => intro X line T acc r cur T' _ h; simp [parseFields] at h
  | succ f ih =>
    intro X line T acc r cur T' hs h
    cases cur with
    | none =>
      simp only [parseFields] at h
      split at h
      · rename_i hh
        split at h
        · rename_i hc
          obtain ⟨a, b, h1, h2, h3, h4⟩ := split_at hc
          simp only [h3, h4] at h
          split at h
          · simp at h
          · rename_i hq
            subst h2
            have hn : c%'\n' ∉ a := hs.no_nl
            obtain ⟨Y, rfl, hY⟩ := St.drop (a := a ++ [c%',']) (l := b) (by simpa using hs) (by simp [hn]) (.inr (by simp))
            obtain ⟨tail, he, s, vs, rfl, hg, rfl, hr⟩ := ih hY h
            refine ⟨tail, he, a ++ c%',' :: s, a :: vs, by simp, .cons (.plain fun b hb => ⟨?_, ?_, ?_⟩) hg, by simp, ?_⟩
            · rintro rfl; exact hq hb
            · rintro rfl; exact h1 hb
            · rintro rfl; exact hn hb
            · intro h0; exact last_cons (by decide) (hr h0)
        · rename_i hc
          split at h
          · simp at h
          · rename_i hq
            simp only [Prod.mk.injEq, true_and] at h
            obtain ⟨rfl, rfl⟩ := h
            obtain ⟨tail, rfl, he, hr⟩ := hs.end_ _ hs.body
            refine ⟨tail, he, _, _, rfl, .one (.plain fun b hb => ⟨?_, ?_, ?_⟩), rfl, hr⟩
            · rintro rfl; exact hq hb
            · rintro rfl; exact hc (List.mem_of_mem_take hb)
            · rintro rfl
              rcases hs.body with ⟨_, g⟩ | ⟨_, g⟩ <;> exact g hb
      · rename_i hh
        have hh : line.head? = some c%'"' := by simpa using hh
        cases line with
        | nil => simp at hh
        | cons x l =>
          simp only [List.head?_cons, Option.some.injEq] at hh
          subst hh
          obtain ⟨Y, rfl, hY⟩ := St.drop (a := [c%'"']) (l := l) hs (by simp) (.inr (by simp))
          obtain ⟨tail, he, s, v, hq, h'⟩ := ih hY (by simpa using h)
          rcases h' with ⟨rfl, rfl⟩ | ⟨t, vs, rfl, hg, rfl, hr⟩
          · exact ⟨tail, he, c%'"' :: (s ++ [c%'"']), [v], by simp, .one (.quoted hq), by simp, fun _ => by simp [List.getLast?_cons]⟩
          · exact ⟨tail, he, c%'"' :: (s ++ [c%'"']) ++ c%',' :: t, v :: vs, by simp, .cons (.quoted hq) hg, by simp,
              fun h0 => last_cons (by decide) (hr h0)⟩
    | some cur =>
      simp only [parseFields] at h
      split at h
      · rename_i hc
        obtain ⟨a, b, h1, h2, h3, h4⟩ := split_at hc
        simp only [h3, h4] at h
        subst h2
        have hn := hs.no_nl
        obtain ⟨Y, rfl, hY⟩ := St.drop (a := a ++ [c%'"']) (l := b) (by simpa using hs) (by simp [hn]) (.inr (by simp))
        split at h
        · rename_i hb
          cases b with
          | nil => simp at hb
          | cons x b =>
            simp only [List.head?_cons, Option.some.injEq] at hb
            subst hb
            obtain ⟨Z, rfl, hZ⟩ := St.drop (a := [c%'"']) (l := b) hY (by simp) (.inr (by simp))
            obtain ⟨tail, he, s, v, hq, h'⟩ := ih hZ (by simpa using h)
            refine ⟨tail, he, a ++ c%'"' :: c%'"' :: s, a ++ c%'"' :: v, quoted_append (quoted_plain h1) (.quote hq), ?_⟩
            rcases h' with ⟨rfl, rfl⟩ | ⟨t, vs, rfl, hg, rfl, hr⟩
            · exact .inl ⟨by simp, by simp⟩
            · exact .inr ⟨t, vs, by simp, hg, by simp, hr⟩
        · split at h
          · rename_i hb
            cases b with
            | nil => simp at hb
            | cons x b =>
              simp only [List.head?_cons, Option.some.injEq] at hb
              subst hb
              obtain ⟨Z, rfl, hZ⟩ := St.drop (a := [c%',']) (l := b) hY (by simp) (.inr (by simp))
              obtain ⟨tail, he, s, vs, rfl, hg, rfl, hr⟩ := ih hZ (by simpa using h)
              exact ⟨tail, he, a, a, quoted_plain h1, .inr ⟨s, vs, by simp, hg, by simp, hr⟩⟩
          · split at h
            · rename_i hb
              simp only [Prod.mk.injEq, true_and] at h
              obtain ⟨rfl, rfl⟩ := h
              have hb' : b = [] ++ [c%'\n'] ∧ c%'\n' ∉ ([] : Bytes) ∨ b = [] ∧ c%'\n' ∉ ([] : Bytes) := by
                unfold lengthNL at hb
                split at hb
                · rename_i hl
                  obtain ⟨b', rfl⟩ := List.getLast?_eq_some_iff.1 hl
                  have : b' = [] := by simpa using hb
                  subst this
                  exact .inl ⟨rfl, by simp⟩
                · exact .inr ⟨List.length_eq_zero_iff.1 hb.symm, by simp⟩
              obtain ⟨tail, hYe, he, hr⟩ := hY.end_ _ hb'
              simp only [List.nil_append] at hYe
              subst hYe
              exact ⟨Y, he, a, a, quoted_plain h1, .inl ⟨by simp, rfl⟩⟩
            · simp at h
      · rename_i hc
        split at h
        · rename_i hl
          simp only [ne_eq, not_true_eq_false, if_false] at h
          by_cases hT : T = []
          · subst hT
            have e : plainLine fin [] = ([], some .eof, []) := by subst hfin; rfl
            rw [e] at h
            cases f with
            | zero => simp [parseFields] at h
            | succ f => simp [parseFields] at h
          · have hX : X = line ++ T := by
              cases hs with
              | line h => simp
              | last _ _ => exact absurd rfl hT
            obtain ⟨line', T2, e, hst⟩ := plainLine_st (fin := fin) (X := T) (.inr ⟨hfin, hT⟩)
            rw [e] at h
            obtain ⟨tail, he, s, v, hq, h'⟩ := ih hst (by simpa using h)
            refine ⟨tail, he, line ++ s, line ++ v, quoted_append (quoted_plain hc) hq, ?_⟩
            subst hX
            rcases h' with ⟨rfl, rfl⟩ | ⟨t, vs, rfl, hg, rfl, hr⟩
            · exact .inl ⟨by simp, by simp⟩
            · exact .inr ⟨t, vs, by simp, hg, by simp, hr⟩
        · simp at h

end
end Verif.Csv
