import Verif.PathLexer

/-!
# The tokeniser takes pieces of the text from the left
-/

namespace Verif.JPath
open GoJson

/-- The words of the patterns of strings without the quotes, as bytes. -/
inductive QChars (q : Byte) : Bytes → Prop
  | nil : QChars q []
  | esc {e c} : e ∈ b%"bfnrt/\\" ∨ e = q → QChars q c → QChars q (0x5C :: e :: c)
  | uni {x y z w c} : hexDigit x → hexDigit y → hexDigit z → hexDigit w → isD x = false ∨ isOct y → QChars q c →
      QChars q (0x5C :: c%'u' :: x :: y :: z :: w :: c)
  | pair {x y z w x' y' z' w' c} : isD x → y ∈ b%"89ABab" → hexDigit z → hexDigit w → isD x' → y' ∈ b%"CDEFcdef" → hexDigit z' → hexDigit w' →
      QChars q c → QChars q (0x5C :: c%'u' :: x :: y :: z :: w :: 0x5C :: c%'u' :: x' :: y' :: z' :: w' :: c)
  | char {b c} : b ≠ q → b ≠ 0x5C → 0x20 ≤ b → QChars q c → QChars q (b :: c)

theorem lexChars_sound (q : Byte) : ∀ (n : Nat) {s c r : Bytes}, s.length ≤ n → lexChars q s = some (c, r) → QChars q c ∧ s = c ++ q :: r
  | _, [], c, r, _, h => by simp [lexChars] at h
  | 0, _ :: _, _, _, hn, _ => by simp at hn
  | n + 1, b :: s, c, r, hn, h => by
    have ih := @lexChars_sound q n
    unfold lexChars at h
    by_cases h1 : b = q
    · rw [if_pos h1] at h
      cases h
      exact ⟨.nil, by rw [h1]; rfl⟩
    rw [if_neg h1] at h
    by_cases h2 : b = c%'\\'
    · rw [if_pos h2] at h
      subst h2
      match s, h with
      | [], h => simp at h
      | e :: s, h =>
        simp only at h
        by_cases h3 : e ∈ b%"bfnrt/\\" ∨ e = q
        · rw [if_pos h3] at h
          obtain ⟨⟨c, r⟩, h', e⟩ := Option.map_eq_some_iff.1 h
          cases e
          obtain ⟨hq, rfl⟩ := ih (by simp at hn; omega) h'
          exact ⟨.esc h3 hq, rfl⟩
        rw [if_neg h3] at h
        by_cases h4 : e = c%'u'
        · rw [if_pos h4] at h
          subst h4
          match s, h with
          | x :: y :: z :: w :: s, h =>
            simp only at h
            split at h
            · rename_i h5
              simp only [Bool.and_eq_true] at h5
              split at h
              · rename_i h6
                obtain ⟨⟨c, r⟩, h', e⟩ := Option.map_eq_some_iff.1 h
                cases e
                obtain ⟨hq, rfl⟩ := ih (by simp at hn; omega) h'
                exact ⟨.uni h5.1.1.1 h5.1.1.2 h5.1.2 h5.2 (by simpa using h6) hq, rfl⟩
              · rename_i h6
                simp only [Bool.not_eq_true, Bool.or_eq_false_iff, Bool.not_eq_false'] at h6
                split at h
                · rename_i h7
                  match s, h with
                  | b' :: e' :: x' :: y' :: z' :: w' :: s, h =>
                    simp only at h
                    split at h
                    · rename_i h8
                      obtain ⟨rfl, rfl, h8, h9, h10, h11⟩ := h8
                      obtain ⟨⟨c, r⟩, h', e⟩ := Option.map_eq_some_iff.1 h
                      cases e
                      obtain ⟨hq, rfl⟩ := ih (by simp at hn; omega) h'
                      exact ⟨.pair h6.1 h7 h5.1.2 h5.2 h8 h9 h10 h11 hq, rfl⟩
                    · cases h
                  | [], h => simp at h
                  | [_], h => simp at h
                  | [_, _], h => simp at h
                  | [_, _, _], h => simp at h
                  | [_, _, _, _], h => simp at h
                  | [_, _, _, _, _], h => simp at h
                · cases h
            · cases h
          | [], h => simp at h
          | [_], h => simp at h
          | [_, _], h => simp at h
          | [_, _, _], h => simp at h
        · rw [if_neg h4] at h; cases h
    rw [if_neg h2] at h
    split at h
    · rename_i h3
      obtain ⟨⟨c, r⟩, h', e⟩ := Option.map_eq_some_iff.1 h
      cases e
      obtain ⟨hq, rfl⟩ := ih (by simp at hn; omega) h'
      exact ⟨.char h1 h2 h3 hq, rfl⟩
    · cases h

/-- One of the two quotes. -/
def IsQuote (q : Byte) : Prop := q = 0x22 ∨ q = 0x27

theorem lexChars_complete {q : Byte} (hq : IsQuote q) {c : Bytes} (h : QChars q c) (r : Bytes) : lexChars q (c ++ q :: r) = some (c, r) := by
  have hb : (0x5C : Byte) ≠ q := by rcases hq with rfl | rfl <;> decide
  have hu : ¬ (c%'u' ∈ b%"bfnrt/\\" ∨ c%'u' = q) := by rcases hq with rfl | rfl <;> decide
  induction h with
  | nil => unfold lexChars; simp
  | esc he _ ih =>
    simp only [List.cons_append]
    unfold lexChars
    rw [if_neg hb, if_pos rfl]
    simp only [if_pos he, ih]
    rfl
  | @uni x y z w c hx hy hz hw ho _ ih =>
    simp only [List.cons_append]
    unfold lexChars
    rw [if_neg hb, if_pos rfl]
    have h6 : (!isD x || isOct y) = true := by simpa using ho
    simp only [if_neg hu, if_true, hx, hy, hz, hw, Bool.and_self, h6, ih]
    rfl
  | @pair x y z w x' y' z' w' c hx hy hz hw hx' hy' hz' hw' _ ih =>
    simp only [List.cons_append]
    unfold lexChars
    rw [if_neg hb, if_pos rfl]
    have h1 : hexDigit x = true := by simp only [isD, Bool.or_eq_true, beq_iff_eq] at hx; rcases hx with rfl | rfl <;> decide
    have h2 : hexDigit y = true ∧ isOct y = false := by
      simp only [List.mem_cons, List.not_mem_nil, or_false] at hy
      rcases hy with rfl | rfl | rfl | rfl | rfl | rfl <;> decide
    have h6 : (!isD x || isOct y) = false := by simp [hx, h2.2]
    simp only [if_neg hu, if_true, h1, h2.1, hz, hw, Bool.and_self, h6, Bool.false_eq_true, if_false, if_pos hy, hx', hy', hz', hw', and_self, ih]
    rfl
  | char h1 h2 h3 _ ih =>
    simp only [List.cons_append]
    unfold lexChars
    rw [if_neg h1, if_neg h2, if_pos h3, ih]
    rfl

/-- A definition takes a piece of the text that is not empty. -/
def Splits (f : Bytes → Option (Bytes × Bytes)) : Prop := ∀ s t r, f s = some (t, r) → s = t ++ r ∧ t ≠ []

theorem prefix_split {w s : Bytes} (h : w.isPrefixOf s = true) : s = w ++ s.drop w.length := by
  rw [List.isPrefixOf_iff_prefix] at h
  obtain ⟨r, rfl⟩ := h
  simp

theorem prefix_self (w r : Bytes) : w.isPrefixOf (w ++ r) = true := by
  rw [List.isPrefixOf_iff_prefix]
  exact ⟨r, rfl⟩

theorem lexWord_some {w s t r : Bytes} (h : lexWord w s = some (t, r)) : t = w ∧ s = w ++ r ∧ boundary r = true := by
  unfold lexWord at h
  split at h
  · rename_i h1
    cases h
    exact ⟨rfl, prefix_split h1.1, h1.2⟩
  · cases h

theorem lexAny_some {l : List Bytes} {s t r : Bytes} (h : lexAny l s = some (t, r)) : t ∈ l ∧ s = t ++ r := by
  induction l with
  | nil => cases h
  | cons w l ih =>
    unfold lexAny at h
    split at h
    · rename_i h1
      cases h
      exact ⟨by simp, prefix_split h1⟩
    · exact ⟨List.mem_cons_of_mem _ (ih h).1, (ih h).2⟩

theorem lexFunc_some {s t r : Bytes} (h : lexFunc s = some (t, r)) : ∃ n, n ≠ [] ∧ t = n ++ b%"(" ∧ s = t ++ r ∧ ∀ b ∈ n, isFuncChar b = true := by
  unfold lexFunc at h
  split at h
  · cases h
  · rename_i b s
    split at h
    · rename_i hl
      have hs := List.takeWhile_append_dropWhile (p := isFuncChar) (l := s)
      split at h
      · cases h
      · rename_i c r' e
        split at h
        · rename_i hc
          cases h
          subst hc
          rw [e] at hs
          refine ⟨b :: s.takeWhile isFuncChar, by simp, rfl, by simp [hs], ?_⟩
          intro x hx
          rcases List.mem_cons.1 hx with rfl | hx
          · simp [isFuncChar, hl]
          · exact List.all_eq_true.1 List.all_takeWhile x hx
        · cases h
    · cases h

theorem dropWhile_head {p : Byte → Bool} {l : Bytes} {b : Byte} {r : Bytes} (h : l.dropWhile p = b :: r) : p b = false := by
  induction l with
  | nil => cases h
  | cons x l ih =>
    rw [List.dropWhile_cons] at h
    split at h
    · exact ih h
    · cases h; simp_all

theorem lexName_some {d s t r : Bytes} (h : lexName d s = some (t, r)) :
    ∃ b n, t = d ++ b :: n ∧ s = t ++ r ∧ isNameFirst b = true ∧ (∀ x ∈ n, isNameChar x = true) ∧ ∀ x r', r = x :: r' → isNameChar x = false := by
  unfold lexName at h
  split at h
  · rename_i hp
    have hs := prefix_split hp
    split at h
    · cases h
    · rename_i b r' e
      rw [e] at hs
      split at h
      · rename_i hb
        cases h
        refine ⟨b, r'.takeWhile isNameChar, rfl, by rw [hs]; simp, hb, fun x hx => List.all_eq_true.1 List.all_takeWhile x hx, fun x q e => dropWhile_head e⟩
      · cases h
  · cases h

/-- The parts of an integer as `lexWhole` takes it. -/
theorem lexWhole_some {s t r : Bytes} (h : lexWhole s = some (t, r)) :
    s = t ++ r ∧ ∃ m i, (m = [] ∨ m = [0x2D]) ∧ Rfc8259.IntPart i ∧ t = m ++ i := by
  have main : ∀ (m u : Bytes), (match u with
      | [] => none
      | d :: r => if d = c%'0' then some (m ++ [d], r) else if isDig d then some (m ++ d :: r.takeWhile isDig, r.dropWhile isDig) else none) = some (t, r) →
      m ++ u = t ++ r ∧ ∃ i, Rfc8259.IntPart i ∧ t = m ++ i := by
    intro m u h
    split at h
    · cases h
    · rename_i d r'
      split at h
      · rename_i hd
        cases h
        subst hd
        exact ⟨by simp, [0x30], .inl rfl, rfl⟩
      · rename_i hd
        split at h
        · rename_i hd'
          cases h
          refine ⟨by simp, d :: r'.takeWhile isDig, .inr ⟨d, _, ?_, (isDig_iff.1 hd').2, fun x hx => isDig_iff.1 (List.all_eq_true.1 List.all_takeWhile x hx), rfl⟩, rfl⟩
          have h1 := (isDig_iff.1 hd').1
          rw [UInt8.le_iff_toNat_le] at h1 ⊢
          have : d.toNat ≠ 0x30 := fun e => hd (by rw [← UInt8.toNat_inj]; exact e)
          simp at h1 ⊢
          omega
        · cases h
  unfold lexWhole at h
  cases s with
  | nil => cases h
  | cons b s =>
    by_cases hb : b = c%'-'
    · subst hb
      simp only [if_true] at h
      obtain ⟨h1, i, h2, h3⟩ := main [c%'-'] s h
      exact ⟨h1, [0x2D], i, .inr rfl, h2, h3⟩
    · simp only [if_neg hb] at h
      obtain ⟨h1, i, h2, h3⟩ := main [] (b :: s) h
      exact ⟨h1, [], i, .inl rfl, h2, h3⟩

theorem intPart_ne_nil {i : Bytes} (h : Rfc8259.IntPart i) : i ≠ [] := by
  rcases h with rfl | ⟨d, ds, _, _, _, rfl⟩ <;> simp

theorem lexInt_some {s t r : Bytes} (h : lexInt s = some (t, r)) : lexWhole s = some (t, r) ∧ t ≠ b%"-0" := by
  unfold lexInt at h
  cases e : lexWhole s with
  | none => rw [e] at h; cases h
  | some x =>
    obtain ⟨t', r'⟩ := x
    rw [e] at h
    simp only at h
    split at h
    · cases h
    · rename_i hne
      split at h
      · cases h; exact ⟨rfl, hne⟩
      · split at h
        · cases h
        · cases h; exact ⟨rfl, hne⟩

theorem lexFrac_eq (s : Bytes) : (lexFrac s).1 ++ (lexFrac s).2 = s ∧ ((lexFrac s).1 = [] ∨ Rfc8259.FracPart (lexFrac s).1) := by
  unfold lexFrac
  split
  · exact ⟨rfl, .inl rfl⟩
  · rename_i b r
    split
    · rename_i h
      refine ⟨by simp, .inr ⟨r.takeWhile isDig, h.2, fun x hx => isDig_iff.1 (List.all_eq_true.1 List.all_takeWhile x hx), by rw [h.1]⟩⟩
    · exact ⟨rfl, .inl rfl⟩

theorem lexSign_eq (s : Bytes) : (lexSign s).1 ++ (lexSign s).2 = s ∧ ((lexSign s).1 = [] ∨ (lexSign s).1 = [0x2D] ∨ (lexSign s).1 = [0x2B]) := by
  unfold lexSign
  split
  · exact ⟨rfl, .inl rfl⟩
  · split
    · rename_i h
      rcases h with rfl | rfl
      · exact ⟨rfl, .inr (.inr rfl)⟩
      · exact ⟨rfl, .inr (.inl rfl)⟩
    · exact ⟨rfl, .inl rfl⟩

theorem lexExp_eq (s : Bytes) : (lexExp s).1 ++ (lexExp s).2 = s ∧ ((lexExp s).1 = [] ∨ Rfc8259.ExpPart (lexExp s).1) := by
  unfold lexExp
  split
  · exact ⟨rfl, .inl rfl⟩
  · rename_i b r
    obtain ⟨h1, h2⟩ := lexSign_eq r
    split
    · rename_i h
      refine ⟨?_, .inr ⟨b, _, _, h.1, h2, h.2, fun x hx => isDig_iff.1 (List.all_eq_true.1 List.all_takeWhile x hx), rfl⟩⟩
      conv => rhs; rw [← h1]
      simp
    · exact ⟨rfl, .inl rfl⟩

theorem lexNum_some {s t r : Bytes} (h : lexNum s = some (t, r)) : s = t ++ r ∧ Rfc8259.Number t := by
  unfold lexNum at h
  cases e : lexWhole s with
  | none => rw [e] at h; cases h
  | some x =>
    obtain ⟨i, r'⟩ := x
    rw [e] at h
    obtain ⟨h1, m, j, hm, hj, rfl⟩ := lexWhole_some e
    obtain ⟨f1, f2⟩ := lexFrac_eq r'
    obtain ⟨e1, e2⟩ := lexExp_eq (lexFrac r').2
    simp only at h
    split at h
    · cases h
      refine ⟨?_, m, j, _, _, hm, hj, f2, e2, by simp⟩
      rw [h1]
      simp only [List.append_assoc]
      rw [e1, f1]
    · split at h
      · cases h
      · cases h
        exact ⟨h1, m, j, [], [], hm, hj, .inl rfl, .inl rfl, by simp⟩

theorem number_ne_nil {t : Bytes} (h : Rfc8259.Number t) : t ≠ [] := by
  obtain ⟨m, i, f, e, _, hi, _, _, rfl⟩ := h
  have := intPart_ne_nil hi
  simp [this]

theorem lexStr_some {q : Byte} {s t r : Bytes} (h : lexStr q s = some (t, r)) : ∃ c, t = q :: (c ++ [q]) ∧ QChars q c ∧ s = t ++ r := by
  unfold lexStr at h
  split at h
  · cases h
  · rename_i b s
    split at h
    · rename_i hb
      obtain ⟨⟨c, r⟩, h', e⟩ := Option.map_eq_some_iff.1 h
      cases e
      obtain ⟨hq, rfl⟩ := lexChars_sound q _ (Nat.le_refl _) h'
      exact ⟨c, by rw [hb], hq, by simp⟩
    · cases h

theorem tokDefs_split : ∀ x ∈ tokDefs, Splits x.2 := by
  intro x hx s t r h
  simp only [tokDefs, List.mem_cons, List.not_mem_nil, or_false] at hx
  rcases hx with rfl | rfl | rfl | rfl | rfl | rfl | rfl | rfl | rfl | rfl | rfl
  · obtain ⟨rfl, h, -⟩ := lexWord_some h
    exact ⟨h, by decide⟩
  · rcases Option.or_eq_some_iff.1 h with h | ⟨-, h⟩
    all_goals
      obtain ⟨rfl, h, -⟩ := lexWord_some h
      exact ⟨h, by decide⟩
  · obtain ⟨n, -, rfl, h, -⟩ := lexFunc_some h
    exact ⟨h, by simp⟩
  · obtain ⟨h1, h2⟩ := lexAny_some h
    exact ⟨h2, (by decide : ∀ t ∈ cmpOps, t ≠ []) t h1⟩
  · obtain ⟨b, n, rfl, h, -⟩ := lexName_some h
    exact ⟨h, by simp⟩
  · obtain ⟨b, n, rfl, h, -⟩ := lexName_some h
    exact ⟨h, by simp⟩
  · obtain ⟨h1, h2⟩ := lexAny_some h
    exact ⟨h2, (by decide : ∀ t ∈ ops, t ≠ []) t h1⟩
  · obtain ⟨h1, m, i, hm, hi, rfl⟩ := lexWhole_some (lexInt_some h).1
    exact ⟨h1, by simp [intPart_ne_nil hi]⟩
  · obtain ⟨h1, h2⟩ := lexNum_some h
    exact ⟨h1, number_ne_nil h2⟩
  · obtain ⟨c, rfl, -, h⟩ := lexStr_some h
    exact ⟨h, by simp⟩
  · obtain ⟨c, rfl, -, h⟩ := lexStr_some h
    exact ⟨h, by simp⟩

/-- The definition that gives a token. -/
theorem firstDef_some {l : List (TokKind × (Bytes → Option (Bytes × Bytes)))} {s : Bytes} {t : Tok} {r : Bytes} (h : firstDef l s = some (t, r)) :
    ∃ x ∈ l, x.1 = t.kind ∧ x.2 s = some (t.text, r) := by
  induction l with
  | nil => cases h
  | cons x l ih =>
    obtain ⟨k, f⟩ := x
    unfold firstDef at h
    split at h
    · rename_i t' r' e
      cases h
      exact ⟨(k, f), by simp, rfl, e⟩
    · obtain ⟨x, h1, h2⟩ := ih h
      exact ⟨x, List.mem_cons_of_mem _ h1, h2⟩

theorem firstDef_split {s : Bytes} {t : Tok} {r : Bytes} (h : firstDef tokDefs s = some (t, r)) : s = t.text ++ r ∧ t.text ≠ [] := by
  obtain ⟨x, h1, -, h3⟩ := firstDef_some h
  exact tokDefs_split x h1 _ _ _ h3

/-- The fuel does not matter. -/
theorem lexAll_fuel : ∀ (n m : Nat) (s : Bytes), s.length ≤ n → s.length ≤ m → lexAll n s = lexAll m s
  | n, m, [], _, _ => by cases n <;> cases m <;> rfl
  | 0, _, _ :: _, h, _ => by simp at h
  | _ + 1, 0, _ :: _, _, h => by simp at h
  | n + 1, m + 1, b :: r, hn, hm => by
    simp only [List.length_cons] at hn hm
    unfold lexAll
    split
    · have : (r.dropWhile isBlank).length ≤ r.length := by
        have := congrArg List.length (List.takeWhile_append_dropWhile (p := isBlank) (l := r))
        simp only [List.length_append] at this
        omega
      exact lexAll_fuel n m _ (by omega) (by omega)
    · split
      · rfl
      · rename_i t r' e
        obtain ⟨h1, h2⟩ := firstDef_split e
        have h3 := congrArg List.length h1
        have h4 : 0 < t.text.length := List.length_pos_iff.2 h2
        simp only [List.length_cons, List.length_append] at h3
        rw [lexAll_fuel n m r' (by omega) (by omega)]

theorem lex_nil : lex [] = some [] := rfl

theorem lex_tok {s r : Bytes} {t : Tok} (h0 : ∀ b s', s = b :: s' → isBlank b = false) (h : firstDef tokDefs s = some (t, r)) :
    lex s = (lex r).map (t :: ·) := by
  obtain ⟨h1, h2⟩ := firstDef_split h
  cases s with
  | nil => simp at h1; exact absurd h1.1 h2
  | cons b s =>
    have h3 := congrArg List.length h1
    have h4 : 0 < t.text.length := List.length_pos_iff.2 h2
    simp only [List.length_cons, List.length_append] at h3
    unfold lex
    rw [List.length_cons, lexAll, if_neg (by simp [h0 b s rfl]), h]
    simp only
    rw [lexAll_fuel s.length r.length r (by omega) (by omega)]

theorem lex_error {b : Byte} {s : Bytes} (h0 : isBlank b = false) (h : firstDef tokDefs (b :: s) = none) : lex (b :: s) = none := by
  unfold lex
  rw [List.length_cons, lexAll, if_neg (by simp [h0]), h]

theorem lex_dropWhile (s : Bytes) : lex s = lex (s.dropWhile isBlank) := by
  cases s with
  | nil => rfl
  | cons b s =>
    rw [List.dropWhile_cons]
    split
    · rename_i h
      have : (s.dropWhile isBlank).length ≤ s.length := by
        have := congrArg List.length (List.takeWhile_append_dropWhile (p := isBlank) (l := s))
        simp only [List.length_append] at this
        omega
      unfold lex
      rw [List.length_cons, lexAll, if_pos h]
      exact lexAll_fuel _ _ _ (by omega) (by omega)
    · rfl

theorem lex_blanks {w : Bytes} (h : ∀ b ∈ w, isBlank b = true) (s : Bytes) : lex (w ++ s) = lex s := by
  have : (w ++ s).dropWhile isBlank = s.dropWhile isBlank := by
    induction w with
    | nil => rfl
    | cons b w ih =>
      rw [List.cons_append, List.dropWhile_cons, if_pos (h b (by simp))]
      exact ih fun x hx => h x (List.mem_cons_of_mem _ hx)
  rw [lex_dropWhile, this, ← lex_dropWhile]

end Verif.JPath
