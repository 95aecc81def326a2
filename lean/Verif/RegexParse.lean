import Verif.RegexMatch

/-!
# The library reads I-Regexps as the RFC does, if they are portable
-/

namespace Verif.GoRe
open Rfc9485 (Item Place portable leadingZero CCchar CCE1 CCE1s CatEsc ClassBody ClassExpr SingleEsc NormalChar QuantExact Quantifier IRegexp
  Branch Piece Atom)

variable {tab : List Nat → Option (Nat → Bool)}

/-! ## Escapes -/

theorem singleEsc_cases {e c : Nat} (h : SingleEsc e c) : (e < 0x80 ∧ alnum e = false ∧ c = e) ∨ (e = 0x6E ∧ c = 0x0A) ∨ (e = 0x72 ∧ c = 0x0D) ∨ (e = 0x74 ∧ c = 0x09) := by
  rcases h with ⟨h, rfl⟩ | h | h | h
  · refine .inl ⟨by omega, ?_, rfl⟩
    simp only [alnum, Bool.or_eq_false_iff, Bool.and_eq_false_iff, decide_eq_false_iff_not]
    omega
  · exact .inr (.inl h)
  · exact .inr (.inr (.inl h))
  · exact .inr (.inr (.inr h))

theorem parseEscape_single {e c : Nat} (h : SingleEsc e c) (t : List Nat) : parseEscape (e :: t) = .ok (c, t) := by
  rcases singleEsc_cases h with ⟨h1, h2, rfl⟩ | ⟨rfl, rfl⟩ | ⟨rfl, rfl⟩ | ⟨rfl, rfl⟩
  · simp [parseEscape, h1, h2]
  · rfl
  · rfl
  · rfl

theorem singleEsc_ne {e c : Nat} (h : SingleEsc e c) : special e = false ∧ perlClass e = false ∧ e ≠ 0x70 ∧ e ≠ 0x50 := by
  simp only [special, perlClass, Bool.or_eq_false_iff, decide_eq_false_iff_not]
  unfold SingleEsc at h
  omega

/-! ## Categories -/

theorem category_shape : ∀ n ∈ Rfc9485.categories, n.all (· ≠ 0x7D) = true ∧ n.head?.all (· ≠ 0x5E) = true ∧ n.all (fun c => c ≠ 0x2C && c ≠ 0x30 && c ≠ 0x5C && c ≠ 0x5B && c ≠ 0x5D && c ≠ 0x2E) = true ∧ n ≠ [] := by
  decide

theorem parseProp_cat (neg : Bool) {n : List Nat} (hn : n ∈ Rfc9485.categories) (t : List Nat) :
    parseProp tab neg (0x7B :: (n ++ 0x7D :: t)) =
      if (tab n).isSome then .ok (goItem tab (.cat neg n), t) else .error .rejected := by
  obtain ⟨h1, h2, -, h4⟩ := category_shape n hn
  have e1 : (n ++ 0x7D :: t).takeWhile (· ≠ 0x7D) = n := by
    rw [List.takeWhile_append_of_pos (by simpa using h1)]; simp
  have e2 : (n ++ 0x7D :: t).dropWhile (· ≠ 0x7D) = 0x7D :: t := by
    rw [List.dropWhile_append_of_pos (by simpa using h1)]; simp
  have e3 : n.head? ≠ some 0x5E := by intro h; rw [h] at h2; simp at h2
  simp only [parseProp, if_true, e1, e2, e3, if_false]
  cases ht : tab n with
  | none => simp
  | some f => simp [goItem, ht]

/-! ## Classes -/

theorem ccchar_head {t : List Nat} {c : Nat} (h : CCchar t c) : ∃ d u, t = d :: u ∧ d ≠ 0x5D ∧ d ≠ 0x5B ∧ d ≠ 0x2D := by
  cases h with
  | plain h => exact ⟨_, _, rfl, by omega, by omega, by omega⟩
  | esc h => exact ⟨_, _, rfl, by decide, by decide, by decide⟩

theorem parseClassChar_ccchar {t : List Nat} {c : Nat} (h : CCchar t c) (u : List Nat) : parseClassChar (t ++ u) = .ok (c, u) := by
  cases h with
  | plain h => simp only [List.cons_append, List.nil_append, parseClassChar]; rw [if_neg (by omega)]
  | esc h => simp only [List.cons_append, List.nil_append, parseClassChar, if_true]; exact parseEscape_single h u

/-- The beginning of a character of a class, for `parseItem`. -/
theorem parseItem_char {t : List Nat} {c : Nat} (h : CCchar t c) (u : List Nat) : parseItem tab (t ++ u) =
    if u.head? = some 0x2D && u.tail.head?.any (· ≠ 0x5D) then
      match parseClassChar u.tail with
      | .error e => .error e
      | .ok (hi, v) => if hi < c then .error .rejected else .ok (rng c hi, v)
    else .ok (rng c c, u) := by
  have hp := parseClassChar_ccchar h u
  cases h with
  | plain h =>
    simp only [List.cons_append, List.nil_append] at hp ⊢
    unfold parseItem
    split
    · rename_i h'; simp only [List.cons.injEq] at h'; omega
    · rename_i h'; simp only [List.cons.injEq] at h'; omega
    · simp only [List.head?_cons, List.tail_cons, Option.some.injEq, hp]
      rw [if_neg (by simp; omega), if_neg (by simp; omega)]
      rfl
  | @esc e _ h =>
    obtain ⟨-, h2, h3, h4⟩ := singleEsc_ne h
    simp only [List.cons_append, List.nil_append] at hp ⊢
    unfold parseItem
    split
    · rename_i h'; simp only [List.cons.injEq] at h'; omega
    · rename_i h'; simp only [List.cons.injEq] at h'; omega
    · simp only [List.head?_cons, List.tail_cons, Option.some.injEq, hp]
      rw [if_neg (by simp [h2]), if_neg (by simp)]
      rfl

theorem parseItem_dash (t : List Nat) (h : t.head? = some 0x2D → t.tail.head? = some 0x5D) :
    parseItem tab (0x2D :: t) = .ok (rng 0x2D 0x2D, t) := by
  have hp : parseClassChar (0x2D :: t) = .ok (0x2D, t) := rfl
  unfold parseItem
  split
  · rename_i h'; simp at h'
  · rename_i h'; simp at h'
  · simp only [List.head?_cons, List.tail_cons, Option.some.injEq, hp]
    rw [if_neg (by simp), if_neg (by simp)]
    rw [if_neg]
    simp only [Bool.and_eq_true, decide_eq_true_eq, not_and]
    intro hh; rw [h hh]; simp

/-- One part of a class, followed by something that is not a dash before a character. -/
theorem parseItem_cce1 {t : List Nat} {i : Item} (h : CCE1 t i) (u : List Nat) (hu : u.head? = some 0x2D → u.tail.head? = some 0x5D) :
    parseItem tab (t ++ u) = if knownItem tab i then .ok (goItem tab i, u) else .error .rejected := by
  cases h with
  | char h =>
    rw [parseItem_char h, if_neg]
    · simp [knownItem, goItem]
    · simp only [Bool.and_eq_true, decide_eq_true_eq, not_and]
      intro h; rw [hu h]; simp
  | @range t v lo hi h h' hle =>
    obtain ⟨d, v', rfl, hd, -, -⟩ := ccchar_head h'
    rw [List.append_assoc, parseItem_char h, if_pos]
    · simp only [List.cons_append, List.tail_cons]
      rw [← List.cons_append, parseClassChar_ccchar h']
      simp only []
      rw [if_neg (by omega)]
      simp [knownItem, goItem]
    · simp [hd]
  | cat h =>
    cases h with
    | cat hn =>
      simp only [List.cons_append, List.nil_append, List.append_assoc]
      rw [parseItem, parseProp_cat false hn]
      rfl
    | compl hn =>
      simp only [List.cons_append, List.nil_append, List.append_assoc]
      rw [parseItem, parseProp_cat true hn]
      rfl

theorem cce1_head {t : List Nat} {i : Item} (h : CCE1 t i) : ∃ d u, t = d :: u ∧ d ≠ 0x5D ∧ d ≠ 0x2D ∧ d ≠ 0x5B := by
  cases h with
  | char h => obtain ⟨d, u, rfl, h1, h2, h3⟩ := ccchar_head h; exact ⟨d, u, rfl, h1, h3, h2⟩
  | range h _ _ => obtain ⟨d, u, rfl, h1, h2, h3⟩ := ccchar_head h; exact ⟨d, _, rfl, h1, h3, h2⟩
  | cat h => cases h <;> exact ⟨_, _, rfl, by decide, by decide, by decide⟩

/-- After a part of a class comes another one, a dash before the end, or the end. -/
theorem cce1s_next {u : List Nat} {l : List Item} (h : CCE1s u l) (rest : List Nat) :
    (u ++ 0x5D :: rest).head? = some 0x2D → (u ++ 0x5D :: rest).tail.head? = some 0x5D := by
  cases h with
  | nil => simp
  | dash => simp
  | cons h _ =>
    obtain ⟨d, u, rfl, h1, h2, h3⟩ := cce1_head h
    simp [h2]

theorem classLoop_items {u : List Nat} {l : List Item} (h : CCE1s u l) (rest : List Nat) : ∀ f, u.length < f →
    classLoop tab f false (u ++ 0x5D :: rest) = if l.all (knownItem tab) then .ok (l.map (goItem tab), rest) else .error .rejected := by
  induction h with
  | nil =>
    intro f hf
    obtain ⟨f, rfl⟩ : ∃ f', f = f' + 1 := ⟨f - 1, by omega⟩
    simp [classLoop]
  | dash =>
    intro f hf
    obtain ⟨f, rfl⟩ : ∃ f', f = f' + 1 + 1 := ⟨f - 2, by simp at hf; omega⟩
    simp only [List.cons_append, List.nil_append, classLoop]
    rw [parseItem_dash _ (by simp)]
    simp [knownItem, goItem]
  | @cons t i u l h hs ih =>
    intro f hf
    obtain ⟨d, t', rfl, h1, h2, h3⟩ := cce1_head h
    obtain ⟨f, rfl⟩ : ∃ f', f = f' + 1 := ⟨f - 1, by omega⟩
    rw [List.append_assoc]
    unfold classLoop
    rw [if_neg (by simp [h1]), parseItem_cce1 h _ (cce1s_next hs rest)]
    by_cases hk : knownItem tab i = true
    · simp only [hk, if_true]
      rw [ih f (by simp at hf; omega)]
      by_cases hl : l.all (knownItem tab) = true
      · simp [hk, hl]
      · simp [hk, hl]
    · simp [hk]

theorem classLoop_body {t : List Nat} {l : List Item} (h : ClassBody t l) (rest : List Nat) (f : Nat) (hf : t.length < f) :
    classLoop tab f true (t ++ 0x5D :: rest) = if l.all (knownItem tab) then .ok (l.map (goItem tab), rest) else .error .rejected := by
  obtain ⟨f, rfl⟩ : ∃ f', f = f' + 1 := ⟨f - 1, by omega⟩
  cases h with
  | @dash u l hs =>
    simp only [List.cons_append, classLoop]
    rw [if_neg (by simp), parseItem_dash _ (cce1s_next hs rest)]
    simp only []
    rw [classLoop_items hs rest f (by simp at hf; omega)]
    by_cases hl : l.all (knownItem tab) = true
    · simp [hl, knownItem, goItem]
    · simp [hl, knownItem]
  | @item t i u l h hs =>
    obtain ⟨d, t', rfl, h1, h2, h3⟩ := cce1_head h
    rw [List.append_assoc]
    unfold classLoop
    rw [if_neg (by simp), parseItem_cce1 h _ (cce1s_next hs rest)]
    by_cases hk : knownItem tab i = true
    · simp only [hk, if_true]
      rw [classLoop_items hs rest f (by simp at hf; omega)]
      by_cases hl : l.all (knownItem tab) = true
      · simp [hk, hl]
      · simp [hk, hl]
    · simp [hk]

/-! ## Repetitions -/

theorem parseInt_digits {ds : List Nat} {n : Nat} (h : QuantExact ds n) (rest : List Nat) (hr : rest.head?.any digit = false)
    (hz : leadingZero (ds ++ rest) = false) : parseInt (ds ++ rest) = some (n, rest) := by
  obtain ⟨h1, h2, h3⟩ := h
  have hd : ∀ d ∈ ds, digit d = true := fun d hd => by have := h2 d hd; simp [digit]; omega
  have e0 : rest.takeWhile digit = [] ∧ rest.dropWhile digit = rest := by
    cases rest with
    | nil => exact ⟨rfl, rfl⟩
    | cons c r => simp at hr; simp [hr]
  have e1 : (ds ++ rest).takeWhile digit = ds := by
    rw [List.takeWhile_append_of_pos hd, e0.1, List.append_nil]
  have e2 : (ds ++ rest).dropWhile digit = rest := by
    rw [List.dropWhile_append_of_pos hd, e0.2]
  unfold parseInt
  rw [e1, e2]
  cases ds with
  | nil => exact absurd rfl h1
  | cons d ds =>
    simp only []
    rw [if_neg, ← h3]
    simp only [Bool.and_eq_true, decide_eq_true_eq, Bool.not_eq_true', not_and]
    rintro rfl
    cases ds with
    | nil => simp
    | cons e ds =>
      have := h2 e (by simp)
      simp only [List.cons_append, leadingZero, decide_eq_false_iff_not] at hz
      exact absurd this hz

theorem digits_head {ds : List Nat} {n : Nat} (h : QuantExact ds n) : ∃ d es, ds = d :: es ∧ 0x30 ≤ d ∧ d ≤ 0x39 := by
  obtain ⟨h1, h2, -⟩ := h
  cases ds with
  | nil => exact absurd rfl h1
  | cons d es => exact ⟨d, es, rfl, h2 d (by simp)⟩

/-- Inside of braces. -/
theorem portable_digits {ds : List Nat} {n : Nat} (h : QuantExact ds n) (rest : List Nat) : portable .braces (ds ++ rest) = portable .braces rest := by
  obtain ⟨-, h2, -⟩ := h
  induction ds with
  | nil => rfl
  | cons d ds ih =>
    have := h2 d (by simp)
    rw [List.cons_append, portable, if_neg (by omega), ih (fun d hd => h2 d (by simp [hd]))]
    simp; omega

/-- The translation does not change characters that are not special. -/
theorem trC_plain (k : Bool) : ∀ (l : List Nat), (∀ c ∈ l, c ≠ 0x5C ∧ c ≠ 0x5B ∧ c ≠ 0x5D ∧ c ≠ 0x2E) → ∀ rest, trC k false (l ++ rest) = l ++ trC k false rest := by
  intro l
  induction l with
  | nil => intro _ rest; rfl
  | cons c l ih =>
    intro h rest
    obtain ⟨h1, h2, h3, h4⟩ := h c (by simp)
    rw [List.cons_append, trC, if_neg h1, if_neg h2, if_neg h3, if_neg (by rintro ⟨rfl, -⟩; exact h4 rfl), ih (fun c hc => h c (by simp [hc]))]
    rfl

theorem digits_plain {ds : List Nat} {n : Nat} (h : QuantExact ds n) : ∀ c ∈ ds, c ≠ 0x5C ∧ c ≠ 0x5B ∧ c ≠ 0x5D ∧ c ≠ 0x2E := by
  intro c hc
  have := h.2.1 c hc
  omega

theorem quant_plain {q : List Nat} {lo : Nat} {hi : Option Nat} (h : Quantifier q lo hi) : ∀ c ∈ q, c ≠ 0x5C ∧ c ≠ 0x5B ∧ c ≠ 0x5D ∧ c ≠ 0x2E := by
  intro c hc
  cases h with
  | star => simp at hc; omega
  | plus => simp at hc; omega
  | opt => simp at hc; omega
  | exact h =>
    have := digits_plain h
    simp only [List.mem_cons, List.mem_append, List.not_mem_nil, or_false] at hc
    rcases hc with rfl | hc | rfl
    · decide
    · exact this c hc
    · decide
  | atLeast h =>
    have := digits_plain h
    simp only [List.mem_cons, List.mem_append, List.not_mem_nil, or_false] at hc
    rcases hc with rfl | hc | rfl | rfl
    · decide
    · exact this c hc
    · decide
    · decide
  | between h h' =>
    have := digits_plain h
    have h2 := digits_plain h'
    simp only [List.mem_cons, List.mem_append, List.not_mem_nil, or_false] at hc
    rcases hc with rfl | hc | rfl | hc | rfl
    · decide
    · exact this c hc
    · decide
    · exact h2 c hc
    · decide

theorem leadingZero_rest {ds : List Nat} {n : Nat} (h : QuantExact ds n) (c : Nat) (x y : List Nat) :
    leadingZero (ds ++ c :: x) = leadingZero (ds ++ c :: y) := by
  obtain ⟨d, es, rfl, -⟩ := digits_head h
  by_cases hd : d = 0x30
  · subst hd
    cases es with
    | nil => rfl
    | cons e es => rfl
  · cases es <;> simp [leadingZero, hd]

/-- The state after a piece. -/
abbrev after (alts cur : List Re) (st : List Frame) (last : Bool) : State := ⟨⟨alts, cur⟩, st, last⟩

/-- A repetition. -/
theorem quant_step {q : List Nat} {lo : Nat} {hi : Option Nat} (h : Quantifier q lo hi) {rest T : List Nat} (hT : T.head? ≠ some 0x3F)
    (hp : portable .out (q ++ rest) = true) (alts : List Re) (r : Re) (l : List Re) (st : List Frame) :
    portable .out rest = true ∧ ∃ c t, q ++ T = c :: t ∧ step tab (after alts (r :: l) st false) c t =
      if !(1000 < lo || hi.any (1000 < ·) || hi.any (· < lo)) && repeatValid 1000 (.rep lo hi r) then .ok (after alts (.rep lo hi r :: l) st true, T)
      else .error .rejected := by
  have hrep : ∀ lo hi, (after alts (r :: l) st false).repeat lo hi T =
      if repeatValid 1000 (.rep lo hi r) then .ok (after alts (.rep lo hi r :: l) st true, T) else .error .rejected := by
    intro lo hi
    simp only [State.repeat, repeatLast, hT, if_false]
    cases repeatValid 1000 (.rep lo hi r) <;> simp
  -- repetitions with braces
  have brace : ∀ (t : List Nat) (lo : Nat) (hi : Option Nat), parseRepeat t = some (lo, hi, T) →
      step tab (after alts (r :: l) st false) 0x7B t =
        if !(1000 < lo || hi.any (1000 < ·) || hi.any (· < lo)) && repeatValid 1000 (.rep lo hi r) then .ok (after alts (.rep lo hi r :: l) st true, T)
        else .error .rejected := by
    intro ds lo hi hpr
    unfold step
    rw [if_neg (by decide), if_neg (by decide), if_neg (by decide), if_neg (by decide), if_neg (by decide), if_neg (by decide), if_neg (by decide),
      if_neg (by decide), if_neg (by decide), if_neg (by decide), if_pos rfl, hpr]
    simp only [hrep]
    cases (decide (1000 < lo) || hi.any (1000 < ·) || hi.any (· < lo)) <;> cases repeatValid 1000 (.rep lo hi r) <;> simp
  cases h with
  | star =>
    refine ⟨by simpa [portable] using hp, _, _, rfl, ?_⟩
    simp only [step]
    simp
    exact hrep _ _
  | plus =>
    refine ⟨by simpa [portable] using hp, _, _, rfl, ?_⟩
    simp only [step]
    simp
    exact hrep _ _
  | opt =>
    refine ⟨by simpa [portable] using hp, _, _, rfl, ?_⟩
    simp only [step]
    simp
    exact hrep _ _
  | @exact ds n h =>
    rw [List.cons_append, List.append_assoc] at hp
    simp only [portable] at hp
    simp only [show ¬ n%'{' = n%'\\' by decide, show ¬ n%'{' = n%'[' by decide, if_false, if_true, Bool.and_eq_true, Bool.not_eq_true'] at hp
    rw [portable_digits h] at hp
    simp only [List.cons_append, List.nil_append, portable, if_true] at hp
    have hi := parseInt_digits h (0x7D :: T) rfl (by rw [leadingZero_rest h _ T rest]; exact hp.1)
    refine ⟨hp.2, 0x7B, ds ++ 0x7D :: T, by simp, brace _ _ _ ?_⟩
    unfold parseRepeat
    rw [hi]
    rfl
  | @atLeast ds n h =>
    rw [List.cons_append, List.append_assoc] at hp
    simp only [portable] at hp
    simp only [show ¬ n%'{' = n%'\\' by decide, show ¬ n%'{' = n%'[' by decide, if_false, if_true, Bool.and_eq_true, Bool.not_eq_true'] at hp
    rw [portable_digits h] at hp
    simp only [List.cons_append, List.nil_append, portable, if_true] at hp
    have hi := parseInt_digits h (0x2C :: 0x7D :: T) rfl (by rw [leadingZero_rest h _ _ (0x7D :: rest)]; exact hp.1)
    refine ⟨by have := hp.2; simp at this; exact this.2, 0x7B, ds ++ 0x2C :: 0x7D :: T, by simp, brace _ _ _ ?_⟩
    unfold parseRepeat
    rw [hi]
    rfl
  | @between ds n es m h h' =>
    simp only [List.cons_append, List.append_assoc, List.nil_append] at hp
    simp only [portable] at hp
    simp only [show ¬ n%'{' = n%'\\' by decide, show ¬ n%'{' = n%'[' by decide, if_false, if_true, Bool.and_eq_true, Bool.not_eq_true'] at hp
    rw [portable_digits h] at hp
    simp only [portable, show ¬ n%',' = n%'}' by decide, if_false] at hp
    rw [Bool.and_eq_true, portable_digits h'] at hp
    simp only [portable, if_true, decide_true, Bool.true_and, Bool.not_eq_true'] at hp
    have hi := parseInt_digits h (0x2C :: (es ++ 0x7D :: T)) rfl (by rw [leadingZero_rest h _ _ (es ++ 0x7D :: rest)]; exact hp.1)
    have hj := parseInt_digits h' (0x7D :: T) rfl (by rw [leadingZero_rest h' _ _ rest]; exact hp.2.1)
    refine ⟨hp.2.2, 0x7B, ds ++ 0x2C :: (es ++ 0x7D :: T), by simp, brace _ _ _ ?_⟩
    unfold parseRepeat
    rw [hi]
    obtain ⟨d, es', rfl, hd, hd'⟩ := digits_head h'
    simp only [List.head?_cons, List.tail_cons, Option.some.injEq, hj]
    rw [if_neg (by decide), if_pos trivial, if_neg (by simp; omega), if_pos trivial]

/-! ## Classes in the translation and in portable patterns -/

/-- A part of the inside of a class. -/
def InCls (t : List Nat) : Prop :=
  (∀ x, portable .cls (t ++ x) = portable .cls x) ∧ ∀ x, trC true false (t ++ x) = t ++ trC true false x

theorem InCls.nil : InCls [] := ⟨fun _ => rfl, fun _ => rfl⟩

theorem InCls.append {t u : List Nat} (h : InCls t) (h' : InCls u) : InCls (t ++ u) :=
  ⟨fun x => by rw [List.append_assoc, h.1, h'.1], fun x => by rw [List.append_assoc, h.2, h'.2, List.append_assoc]⟩

theorem InCls.char {c : Nat} (h1 : c ≠ 0x5C) (h2 : c ≠ 0x5D) (h3 : c ≠ 0x5B) : InCls [c] := by
  refine ⟨fun x => ?_, fun x => ?_⟩
  · simp only [List.cons_append, List.nil_append, portable]
    rw [if_neg h1, if_neg h2]
  · simp only [List.cons_append, List.nil_append, trC]
    rw [if_neg h1, if_neg h3, if_neg h2, if_neg (by simp)]

theorem InCls.esc (e : Nat) : InCls [0x5C, e] := by
  refine ⟨fun x => ?_, fun x => ?_⟩
  · simp only [List.cons_append, List.nil_append, portable, if_true]
  · simp only [List.cons_append, List.nil_append, trC, if_true]

theorem InCls.chars {l : List Nat} (h : ∀ c ∈ l, c ≠ 0x5C ∧ c ≠ 0x5D ∧ c ≠ 0x5B) : InCls l := by
  induction l with
  | nil => exact .nil
  | cons c l ih =>
    have := h c (by simp)
    exact .append (t := [c]) (.char this.1 this.2.1 this.2.2) (ih fun c hc => h c (by simp [hc]))

theorem category_chars {n : List Nat} (hn : n ∈ Rfc9485.categories) : ∀ c ∈ n, c ≠ 0x2C ∧ c ≠ 0x30 ∧ c ≠ 0x5C ∧ c ≠ 0x5B ∧ c ≠ 0x5D ∧ c ≠ 0x2E ∧ c ≠ 0x7D := by
  obtain ⟨h1, -, h3, -⟩ := category_shape n hn
  intro c hc
  rw [List.all_eq_true] at h1 h3
  have h1 := h1 c hc
  have h3 := h3 c hc
  simp at h1 h3
  omega

theorem inCls_cat {t : List Nat} {i : Item} (h : CatEsc t i) : InCls t := by
  cases h with
  | cat hn =>
    refine .append (.append (t := [0x5C, 0x70, 0x7B]) (.append (t := [0x5C, 0x70]) (u := [0x7B]) (.esc _) (.char (by decide) (by decide) (by decide))) (.chars ?_))
      (.char (by decide) (by decide) (by decide))
    intro c hc; have := category_chars hn c hc; omega
  | compl hn =>
    refine .append (.append (t := [0x5C, 0x50, 0x7B]) (.append (t := [0x5C, 0x50]) (u := [0x7B]) (.esc _) (.char (by decide) (by decide) (by decide))) (.chars ?_))
      (.char (by decide) (by decide) (by decide))
    intro c hc; have := category_chars hn c hc; omega

theorem inCls_ccchar {t : List Nat} {c : Nat} (h : CCchar t c) : InCls t := by
  cases h with
  | plain h => exact .char (by omega) (by omega) (by omega)
  | esc h => exact .esc _

theorem inCls_cce1 {t : List Nat} {i : Item} (h : CCE1 t i) : InCls t := by
  cases h with
  | char h => exact inCls_ccchar h
  | range h h' _ => exact .append (inCls_ccchar h) (.append (t := [0x2D]) (.char (by decide) (by decide) (by decide)) (inCls_ccchar h'))
  | cat h => exact inCls_cat h

theorem inCls_cce1s {t : List Nat} {l : List Item} (h : CCE1s t l) : InCls t := by
  induction h with
  | nil => exact .nil
  | dash => exact .char (by decide) (by decide) (by decide)
  | cons h _ ih => exact .append (inCls_cce1 h) ih

theorem inCls_body {t : List Nat} {l : List Item} (h : ClassBody t l) : InCls t := by
  cases h with
  | dash h => exact .append (t := [0x2D]) (.char (by decide) (by decide) (by decide)) (inCls_cce1s h)
  | item h h' => exact .append (inCls_cce1 h) (inCls_cce1s h')

theorem portable_close {t : List Nat} (h : InCls t) (rest : List Nat) : portable .cls (t ++ 0x5D :: rest) = portable .out rest := by
  rw [h.1]; simp [portable]

theorem trC_close {t : List Nat} (h : InCls t) (rest : List Nat) : trC true false (t ++ 0x5D :: rest) = t ++ 0x5D :: trC false false rest := by
  rw [h.2]; simp [trC]

/-! ## Heads -/

theorem trC_head {x : List Nat} (h : x.head? ≠ some 0x3F) : (trC false false x).head? ≠ some 0x3F := by
  cases x with
  | nil => simp [trC]
  | cons d x =>
    have hd : d ≠ 0x3F := by simpa using h
    unfold trC
    repeat' split
    all_goals simp [hd]

theorem atom_head {t : List Nat} {r} (h : Atom t r) : ∃ d u, t = d :: u ∧ d ≠ 0x3F := by
  cases h with
  | normal h => exact ⟨_, _, rfl, by unfold NormalChar at h; omega⟩
  | dot => exact ⟨_, _, rfl, by decide⟩
  | esc h => exact ⟨_, _, rfl, by decide⟩
  | cat h => cases h <;> exact ⟨_, _, rfl, by decide⟩
  | cls h => cases h <;> exact ⟨_, _, rfl, by decide⟩
  | group h => exact ⟨_, _, rfl, by decide⟩

theorem piece_head {t : List Nat} {r} (h : Piece t r) : ∃ d u, t = d :: u ∧ d ≠ 0x3F := by
  cases h with
  | atom h => exact atom_head h
  | quant h _ => obtain ⟨d, u, rfl, hd⟩ := atom_head h; exact ⟨d, _, rfl, hd⟩

theorem branch_next {t : List Nat} {r} (h : Branch t r) {rest : List Nat} (hr : rest.head? ≠ some 0x3F) : (t ++ rest).head? ≠ some 0x3F := by
  cases h with
  | nil => exact hr
  | cons h _ => obtain ⟨d, u, rfl, hd⟩ := piece_head h; simpa using hd

theorem iregexp_next {t : List Nat} {r} (h : IRegexp t r) {rest : List Nat} (hr : rest.head? ≠ some 0x3F) : (t ++ rest).head? ≠ some 0x3F := by
  cases h with
  | one h => exact branch_next h hr
  | more h _ => rw [List.append_assoc]; exact branch_next h (by simp)

/-! ## The loop -/

theorem loop_step {s s' : State} {c : Nat} {t t' : List Nat} (h : step tab s c t = .ok (s', t')) (f : Nat) : loop tab (f + 1) s (c :: t) = loop tab f s' t' := by
  simp only [loop, h]

theorem loop_error {s : State} {c : Nat} {t : List Nat} {e : Err} (h : step tab s c t = .error e) (f : Nat) : loop tab (f + 1) s (c :: t) = .error e := by
  simp only [loop, h]

/-- The loop, at the translation of `x`, comes to the state `s'` at the translation of `y`. -/
def Comes (tab : List Nat → Option (Nat → Bool)) (s : State) (x : List Nat) (s' : State) (y : List Nat) : Prop :=
  ∀ f, (trC false false x).length < f → ∃ f', (trC false false y).length < f' ∧ loop tab f s (trC false false x) = loop tab f' s' (trC false false y)

/-- The loop fails. -/
def Rejects (tab : List Nat → Option (Nat → Bool)) (s : State) (x : List Nat) : Prop :=
  ∀ f, (trC false false x).length < f → loop tab f s (trC false false x) = .error .rejected

theorem Comes.refl (s : State) (x : List Nat) : Comes tab s x s x := fun f hf => ⟨f, hf, rfl⟩

theorem Comes.trans {s s' s'' : State} {x y z : List Nat} (h : Comes tab s x s' y) (h' : Comes tab s' y s'' z) : Comes tab s x s'' z := by
  intro f hf
  obtain ⟨g, hg, e⟩ := h f hf
  obtain ⟨k, hk, e'⟩ := h' g hg
  exact ⟨k, hk, e.trans e'⟩

theorem Comes.rejects {s s' : State} {x y : List Nat} (h : Comes tab s x s' y) (h' : Rejects tab s' y) : Rejects tab s x := by
  intro f hf
  obtain ⟨g, hg, e⟩ := h f hf
  rw [e, h' g hg]

theorem comes_step {s s' : State} {x y : List Nat} {c : Nat} {t : List Nat} (hx : trC false false x = c :: t)
    (hl : (trC false false y).length ≤ t.length) (h : step tab s c t = .ok (s', trC false false y)) : Comes tab s x s' y := by
  intro f hf
  rw [hx] at hf ⊢
  obtain ⟨f, rfl⟩ : ∃ f', f = f' + 1 := ⟨f - 1, by omega⟩
  exact ⟨f, by simp at hf; omega, loop_step h f⟩

theorem rejects_step {s : State} {x : List Nat} {c : Nat} {t : List Nat} (hx : trC false false x = c :: t)
    (h : step tab s c t = .error .rejected) : Rejects tab s x := by
  intro f hf
  rw [hx] at hf ⊢
  obtain ⟨f, rfl⟩ : ∃ f', f = f' + 1 := ⟨f - 1, by omega⟩
  exact loop_error h f

/-- Comes there if the condition holds, and otherwise fails. -/
theorem step_cond {s s' : State} {x y : List Nat} {c : Nat} {t : List Nat} {b : Bool} (hx : trC false false x = c :: t)
    (hl : (trC false false y).length ≤ t.length) (h : step tab s c t = if b then .ok (s', trC false false y) else .error .rejected) :
    (b = true → Comes tab s x s' y) ∧ (b = false → Rejects tab s x) := by
  constructor
  · rintro rfl; exact comes_step hx hl h
  · rintro rfl; exact rejects_step hx h

theorem step_lit (s : State) {c : Nat} (h : NormalChar c) (h1 : c ≠ 0x5E) (h2 : c ≠ 0x24) (t : List Nat) : step tab s c t = .ok (s.push (lit c), t) := by
  unfold NormalChar at h
  unfold step
  repeat rw [if_neg (by omega)]

theorem step_esc (s : State) {e c : Nat} (h : SingleEsc e c) (t : List Nat) : step tab s 0x5C (e :: t) = .ok (s.push (lit c), t) := by
  obtain ⟨h1, h2, h3, h4⟩ := singleEsc_ne h
  unfold step
  rw [if_neg (by decide), if_neg (by decide), if_neg (by decide), if_neg (by decide), if_neg (by decide), if_neg (by decide), if_neg (by decide),
    if_neg (by decide), if_neg (by decide), if_neg (by decide), if_neg (by decide), if_pos rfl, if_neg (by simp [h1, h2]), if_neg (by simp [h3, h4]),
    parseEscape_single h]

theorem step_prop (s : State) (neg : Bool) {n : List Nat} (hn : n ∈ Rfc9485.categories) (t : List Nat) :
    step tab s 0x5C ((if neg then 0x50 else 0x70) :: 0x7B :: (n ++ 0x7D :: t)) =
      if (tab n).isSome then .ok (s.push (.set false [goItem tab (.cat neg n)]), t) else .error .rejected := by
  unfold step
  rw [if_neg (by decide), if_neg (by decide), if_neg (by decide), if_neg (by decide), if_neg (by decide), if_neg (by decide), if_neg (by decide),
    if_neg (by decide), if_neg (by decide), if_neg (by decide), if_neg (by decide), if_pos rfl]
  rw [if_neg (by cases neg <;> simp <;> decide), if_pos (by cases neg <;> simp)]
  have : (decide ((((if neg then 0x50 else 0x70 : Nat)) :: 0x7B :: (n ++ 0x7D :: t)).head? = some 0x50)) = neg := by
    cases neg <;> simp
  rw [this, List.tail_cons, parseProp_cat neg hn]
  cases (tab n).isSome <;> simp

theorem step_class (s : State) {t : List Nat} {r} (h : ClassExpr t r) (rest : List Nat) : ∃ u, t = 0x5B :: (u ++ [0x5D]) ∧ InCls u ∧
    step tab s 0x5B (u ++ 0x5D :: rest) = if accepted tab r then .ok (s.push (toGo tab r), rest) else .error .rejected := by
  have hstep : ∀ u, step tab s 0x5B u = match parseClass tab u with
    | .error e => .error e
    | .ok (r, v) => .ok (s.push r, v) := by
    intro u
    unfold step
    rw [if_neg (by decide), if_neg (by decide), if_neg (by decide), if_neg (by decide), if_neg (by decide), if_neg (by decide), if_pos rfl]
    rfl
  cases h with
  | @pos t l h hc =>
    refine ⟨t, rfl, inCls_body h, ?_⟩
    have hc' : (t ++ 0x5D :: rest).head? ≠ some 0x5E := by
      cases t with
      | nil => simp
      | cons c t => simpa using hc
    rw [hstep]
    simp only [parseClass, hc', if_false, decide_false]
    rw [classLoop_body h rest _ (by simp; omega)]
    simp only [accepted]
    by_cases hl : l.all (knownItem tab) = true
    · simp [hl, toGo]
    · simp [hl]
  | @neg t l h =>
    refine ⟨0x5E :: t, rfl, .append (t := [0x5E]) (.char (by decide) (by decide) (by decide)) (inCls_body h), ?_⟩
    rw [hstep]
    simp only [parseClass, List.cons_append, List.head?_cons, if_true, decide_true, List.tail_cons]
    rw [classLoop_body h rest _ (by simp; omega)]
    simp only [accepted]
    by_cases hl : l.all (knownItem tab) = true
    · simp [hl, toGo]
    · simp [hl]

/-- What reading an atom does. -/
def AtomRead (tab : List Nat → Option (Nat → Bool)) (t : List Nat) (r : Rfc9485.Re) : Prop :=
  ∀ alts cur st last rest, portable .out (t ++ rest) = true → portable .out rest = true ∧
    (accepted tab r = true → Comes tab (after alts cur st last) (t ++ rest) (after alts (toGo tab r :: cur) st false) rest) ∧
    (accepted tab r = false → Rejects tab (after alts cur st last) (t ++ rest))

/-- What reading a piece does. -/
def PieceRead (tab : List Nat → Option (Nat → Bool)) (t : List Nat) (r : Rfc9485.Re) : Prop :=
  ∀ alts cur st last rest, rest.head? ≠ some 0x3F → portable .out (t ++ rest) = true → portable .out rest = true ∧
    (accepted tab r = true → ∃ last', Comes tab (after alts cur st last) (t ++ rest) (after alts (toGo tab r :: cur) st last') rest) ∧
    (accepted tab r = false → Rejects tab (after alts cur st last) (t ++ rest))

/-- What reading a branch does. -/
def BranchRead (tab : List Nat → Option (Nat → Bool)) (t : List Nat) (r : Rfc9485.Re) : Prop :=
  ∀ alts cur st last rest, rest.head? ≠ some 0x3F → portable .out (t ++ rest) = true → portable .out rest = true ∧
    (accepted tab r = true → ∃ cur' last', Comes tab (after alts cur st last) (t ++ rest) (after alts cur' st last') rest ∧
      cur'.foldl (fun acc r => .cat r acc) .eps = cur.foldl (fun acc r => .cat r acc) (toGo tab r)) ∧
    (accepted tab r = false → Rejects tab (after alts cur st last) (t ++ rest))

/-- What reading an I-Regexp does. -/
def IRegexpRead (tab : List Nat → Option (Nat → Bool)) (t : List Nat) (r : Rfc9485.Re) : Prop :=
  ∀ alts st last rest, rest.head? ≠ some 0x3F → portable .out (t ++ rest) = true → portable .out rest = true ∧
    (accepted tab r = true → ∃ fr last', Comes tab (after alts [] st last) (t ++ rest) ⟨fr, st, last'⟩ rest ∧
      fr.done = alts.foldl (fun acc r => .alt r acc) (toGo tab r)) ∧
    (accepted tab r = false → Rejects tab (after alts [] st last) (t ++ rest))

theorem atom_normal {c : Nat} (h : NormalChar c) : AtomRead tab [c] (.char c) := by
  intro alts cur st last rest hp
  have h0 := h
  unfold NormalChar at h0
  simp only [List.cons_append, List.nil_append, portable] at hp ⊢
  rw [if_neg (by omega), if_neg (by omega), if_neg (by omega)] at hp
  simp only [Bool.and_eq_true, decide_eq_true_eq] at hp
  have hx : trC false false (c :: rest) = c :: trC false false rest := by
    rw [trC, if_neg (by omega), if_neg (by omega), if_neg (by omega), if_neg (by omega)]
  refine ⟨hp.2, fun _ => comes_step hx (Nat.le_refl _) (step_lit _ h hp.1.1 hp.1.2 _), fun ha => ?_⟩
  simp [accepted, Rfc9485.Re.char, knownItem] at ha

theorem atom_esc {e c : Nat} (h : SingleEsc e c) : AtomRead tab [0x5C, e] (.char c) := by
  intro alts cur st last rest hp
  simp only [List.cons_append, List.nil_append, portable, if_true] at hp ⊢
  have hx : trC false false (0x5C :: e :: rest) = 0x5C :: e :: trC false false rest := by simp [trC]
  refine ⟨hp, fun _ => comes_step hx (by simp) (step_esc _ h _), fun ha => ?_⟩
  simp [accepted, Rfc9485.Re.char, knownItem] at ha

theorem trC_category {n : List Nat} (hn : n ∈ Rfc9485.categories) (e : Nat) (rest : List Nat) :
    trC false false (0x5C :: e :: 0x7B :: (n ++ 0x7D :: rest)) = 0x5C :: e :: 0x7B :: (n ++ 0x7D :: trC false false rest) := by
  have := trC_plain false (0x7B :: (n ++ [0x7D])) (by
    intro c hc
    simp only [List.mem_cons, List.mem_append, List.not_mem_nil, or_false] at hc
    rcases hc with rfl | hc | rfl
    · decide
    · have := category_chars hn c hc; omega
    · decide) rest
  simp only [List.cons_append, List.append_assoc, List.nil_append] at this
  simp only [trC, if_true, ← this]

theorem portable_category {n : List Nat} (hn : n ∈ Rfc9485.categories) (rest : List Nat) : portable .braces (n ++ 0x7D :: rest) = portable .out rest := by
  have h := category_chars hn
  clear hn
  induction n with
  | nil => simp [portable]
  | cons c n ih =>
    have hc := h c (by simp)
    rw [List.cons_append, portable, if_neg (by omega), ih (fun c hc => h c (by simp [hc]))]
    simp; omega

theorem leadingZero_category {n : List Nat} (hn : n ∈ Rfc9485.categories) (rest : List Nat) : leadingZero (n ++ rest) = false := by
  obtain ⟨-, -, -, h4⟩ := category_shape n hn
  cases n with
  | nil => exact absurd rfl h4
  | cons c n =>
    have := category_chars hn c (by simp)
    simp only [List.cons_append]
    unfold leadingZero
    split
    · rename_i h; simp only [List.cons.injEq] at h; omega
    · rfl

theorem atom_cat {t : List Nat} {i : Item} (h : CatEsc t i) : AtomRead tab t (.set false [i]) := by
  have main : ∀ (neg : Bool) (n : List Nat), n ∈ Rfc9485.categories →
      AtomRead tab (0x5C :: (if neg then 0x50 else 0x70) :: 0x7B :: (n ++ [0x7D])) (.set false [.cat neg n]) := by
    intro neg n hn alts cur st last rest hp
    simp only [List.cons_append, List.append_assoc, List.nil_append] at hp ⊢
    simp only [portable, if_true] at hp
    simp only [show ¬ (0x7B : Nat) = n%'\\' by decide, show ¬ (0x7B : Nat) = n%'[' by decide, if_false] at hp
    rw [leadingZero_category hn, portable_category hn] at hp
    refine ⟨by simpa using hp, ?_⟩
    refine step_cond (trC_category hn _ rest) (by simp; omega) ?_
    rw [step_prop _ neg hn]
    simp [accepted, knownItem, after, State.push, Frame.push, toGo]
  cases h with
  | cat hn => exact main false _ hn
  | compl hn => exact main true _ hn

theorem atom_cls {t : List Nat} {r} (h : ClassExpr t r) : AtomRead tab t r := by
  intro alts cur st last rest hp
  obtain ⟨u, rfl, hu, hs⟩ := step_class (tab := tab) (after alts cur st last) h (trC false false rest)
  simp only [List.cons_append, List.append_assoc, List.nil_append] at hp ⊢
  have hx : trC false false (0x5B :: (u ++ 0x5D :: rest)) = 0x5B :: (u ++ 0x5D :: trC false false rest) := by
    rw [← trC_close hu]; simp [trC]
  simp only [portable] at hp
  simp only [show ¬ (0x5B : Nat) = n%'\\' by decide, if_false, if_true, portable_close hu] at hp
  exact ⟨hp, step_cond hx (by simp; omega) hs⟩

theorem dot_class : ClassExpr u%"[^\\n\\r]" .dot :=
  .neg (t := [0x5C, 0x6E, 0x5C, 0x72]) (.item (t := [0x5C, 0x6E]) (u := [0x5C, 0x72]) (.char (.esc (by simp [SingleEsc])))
    (.cons (t := [0x5C, 0x72]) (u := []) (.char (.esc (by simp [SingleEsc]))) .nil))

theorem atom_dot : AtomRead tab u%"." .dot := by
  intro alts cur st last rest hp
  obtain ⟨u, hu, -, hs⟩ := step_class (tab := tab) (after alts cur st last) dot_class (trC false false rest)
  have hu : u = u%"^\\n\\r" := by
    simp only [List.cons.injEq, true_and] at hu
    exact (List.append_cancel_right (bs := [0x5D]) (by simpa using hu)).symm
  subst hu
  simp only [List.cons_append, List.nil_append] at hp ⊢ hs
  have hx : trC false false (0x2E :: rest) = u%"[^\\n\\r]" ++ trC false false rest := by simp [trC]
  exact ⟨by simpa [portable] using hp, step_cond hx (by simp; omega) hs⟩

theorem read_one {t : List Nat} {r} (ih : BranchRead tab t r) : IRegexpRead tab t r := by
  intro alts st last rest hr hp
  obtain ⟨h1, h2, h3⟩ := ih alts [] st last rest hr hp
  refine ⟨h1, fun ha => ?_, h3⟩
  obtain ⟨cur, last', h4, h5⟩ := h2 ha
  exact ⟨_, _, h4, by simp only [Frame.done, Frame.branch, h5]; rfl⟩

theorem read_more {t u : List Nat} {r r'} (ih : BranchRead tab t r) (ih' : IRegexpRead tab u r') : IRegexpRead tab (t ++ 0x7C :: u) (.alt r r') := by
  intro alts st last rest hr hp
  rw [List.append_assoc, List.cons_append] at hp ⊢
  obtain ⟨h1, h2, h3⟩ := ih alts [] st last (0x7C :: (u ++ rest)) (by simp) hp
  have h1 : portable .out (u ++ rest) = true := by simpa [portable] using h1
  have hbar : ∀ cur l, Comes tab (after alts cur st l) (0x7C :: (u ++ rest)) (after ((⟨alts, cur⟩ : Frame).branch :: alts) [] st false) (u ++ rest) := by
    intro cur l
    refine comes_step (c := 0x7C) (t := trC false false (u ++ rest)) (by simp [trC]) (Nat.le_refl _) ?_
    simp [step, after]
  have acc : accepted tab (.alt r r') = (accepted tab r && accepted tab r') := rfl
  cases ha : accepted tab r with
  | false =>
    obtain ⟨h4, -⟩ := ih' alts st false rest hr h1
    refine ⟨h4, fun hx => ?_, fun _ => h3 ha⟩
    rw [acc, ha] at hx; cases hx
  | true =>
    obtain ⟨cur, l, h4, h5⟩ := h2 ha
    obtain ⟨h6, h7, h8⟩ := ih' ((⟨alts, cur⟩ : Frame).branch :: alts) st false rest hr h1
    refine ⟨h6, fun hx => ?_, fun hx => ?_⟩
    · rw [acc, ha, Bool.true_and] at hx
      obtain ⟨fr, l', h9, h10⟩ := h7 hx
      refine ⟨fr, l', (h4.trans (hbar cur l)).trans h9, ?_⟩
      rw [h10, List.foldl_cons]
      simp only [Frame.branch, h5]
      rfl
    · rw [acc, ha, Bool.true_and] at hx
      exact (h4.trans (hbar cur l)).rejects (h8 hx)

theorem read_nil : BranchRead tab [] .eps := by
  intro alts cur st last rest hr hp
  exact ⟨hp, fun _ => ⟨cur, last, .refl _ _, rfl⟩, fun ha => by simp [accepted] at ha⟩

theorem read_cons {t u : List Nat} {r r'} (h' : Branch u r') (ih : PieceRead tab t r) (ih' : BranchRead tab u r') : BranchRead tab (t ++ u) (.cat r r') := by
  have hu : ∀ rest : List Nat, rest.head? ≠ some 0x3F → (u ++ rest).head? ≠ some 0x3F := fun _ hr => branch_next h' hr
  intro alts cur st last rest hr hp
  rw [List.append_assoc] at hp ⊢
  obtain ⟨h1, h2, h3⟩ := ih alts cur st last (u ++ rest) (hu rest hr) hp
  have acc : accepted tab (.cat r r') = (accepted tab r && accepted tab r') := rfl
  cases ha : accepted tab r with
  | false =>
    obtain ⟨h4, -⟩ := ih' alts cur st false rest hr h1
    refine ⟨h4, fun hx => ?_, fun _ => h3 ha⟩
    rw [acc, ha] at hx; cases hx
  | true =>
    obtain ⟨l, h4⟩ := h2 ha
    obtain ⟨h6, h7, h8⟩ := ih' alts (toGo tab r :: cur) st l rest hr h1
    refine ⟨h6, fun hx => ?_, fun hx => ?_⟩
    · rw [acc, ha, Bool.true_and] at hx
      obtain ⟨cur', l', h9, h10⟩ := h7 hx
      exact ⟨cur', l', h4.trans h9, by rw [h10]; rfl⟩
    · rw [acc, ha, Bool.true_and] at hx
      exact h4.rejects (h8 hx)

theorem read_atom {t : List Nat} {r} (ih : AtomRead tab t r) : PieceRead tab t r := by
  intro alts cur st last rest hr hp
  obtain ⟨h1, h2, h3⟩ := ih alts cur st last rest hp
  exact ⟨h1, fun ha => ⟨_, h2 ha⟩, h3⟩

theorem read_quant {t q : List Nat} {r lo hi} (hq : Quantifier q lo hi) (ih : AtomRead tab t r) : PieceRead tab (t ++ q) (.rep lo hi r) := by
  intro alts cur st last rest hr hp
  rw [List.append_assoc] at hp ⊢
  obtain ⟨h1, h2, h3⟩ := ih alts cur st last (q ++ rest) hp
  obtain ⟨h4, c, u, h5, h6⟩ := quant_step (tab := tab) hq (trC_head hr) h1 alts (toGo tab r) cur st
  have hx : trC false false (q ++ rest) = c :: u := by rw [trC_plain false q (quant_plain hq), h5]
  have hl : (trC false false rest).length ≤ u.length := by
    have := congrArg List.length h5
    have hq : q ≠ [] := by cases hq <;> simp
    have := List.length_pos_iff.mpr hq
    simp at *; omega
  obtain ⟨h7, h8⟩ := step_cond hx hl h6
  have acc : accepted tab (.rep lo hi r) = (accepted tab r && !(1000 < lo || hi.any (1000 < ·) || hi.any (· < lo)) &&
    repeatValid 1000 (.rep lo hi (toGo tab r))) := rfl
  rw [Bool.and_assoc] at acc
  refine ⟨h4, fun hx => ?_, fun hx => ?_⟩
  · rw [acc, Bool.and_eq_true] at hx
    exact ⟨_, (h2 hx.1).trans (h7 hx.2)⟩
  · rw [acc, Bool.and_eq_false_iff] at hx
    cases ha : accepted tab r with
    | false => exact h3 ha
    | true =>
      rcases hx with hx | hx
      · rw [ha] at hx; cases hx
      · exact (h2 ha).rejects (h8 hx)

theorem read_group {t : List Nat} {r} (h : IRegexp t r) (ih : IRegexpRead tab t r) : AtomRead tab (0x28 :: (t ++ [0x29])) r := by
  have hn : ∀ rest : List Nat, (t ++ 0x29 :: rest).head? ≠ some 0x3F := fun rest => iregexp_next h (by simp)
  intro alts cur st last rest hp
  simp only [List.cons_append, List.append_assoc, List.nil_append] at hp ⊢
  have hopen : Comes tab (after alts cur st last) (0x28 :: (t ++ 0x29 :: rest)) (after [] [] (⟨alts, cur⟩ :: st) false) (t ++ 0x29 :: rest) := by
    refine comes_step (c := 0x28) (t := trC false false (t ++ 0x29 :: rest)) (by simp [trC]) (Nat.le_refl _) ?_
    simp [step, after, trC_head (hn rest)]
  obtain ⟨h1, h2, h3⟩ := ih [] (⟨alts, cur⟩ :: st) false (0x29 :: rest) (by simp) (by simpa [portable] using hp)
  refine ⟨by simpa [portable] using h1, fun ha => ?_, fun ha => hopen.rejects (h3 ha)⟩
  obtain ⟨fr, l, h4, h5⟩ := h2 ha
  refine (hopen.trans h4).trans (comes_step (c := 0x29) (t := trC false false rest) (by simp [trC]) (Nat.le_refl _) ?_)
  simp [step, after, h5, Frame.push]

theorem iregexp_read {t : List Nat} {r} (h : IRegexp t r) : IRegexpRead tab t r :=
  IRegexp.rec (motive_1 := fun t r _ => IRegexpRead tab t r) (motive_2 := fun t r _ => BranchRead tab t r)
    (motive_3 := fun t r _ => PieceRead tab t r) (motive_4 := fun t r _ => AtomRead tab t r)
    (fun _ ih => read_one ih) (fun _ _ ih ih' => read_more ih ih') read_nil (fun _ h' ih ih' => read_cons h' ih ih')
    (fun _ ih => read_atom ih) (fun _ hq ih => read_quant hq ih) atom_normal atom_dot atom_esc atom_cat atom_cls (fun h ih => read_group h ih) h

/-- The library reads a portable I-Regexp, after the translation, as the RFC does, or rejects it. -/
theorem parse_iregexp {t : List Nat} {r} (h : IRegexp t r) (hp : portable .out t = true) :
    parse tab (trC false false t) = if accepted tab r then .ok (toGo tab r) else .error .rejected := by
  obtain ⟨-, h2, h3⟩ := iregexp_read (tab := tab) h [] [] false [] (by simp) (by simpa using hp)
  rw [List.append_nil] at h2 h3
  unfold parse
  cases ha : accepted tab r with
  | true =>
    obtain ⟨fr, l, h4, h5⟩ := h2 ha
    obtain ⟨f, hf, he⟩ := h4 ((trC false false t).length + 1) (by omega)
    have : ({} : State) = after [] [] [] false := rfl
    rw [this, he]
    obtain ⟨f, rfl⟩ : ∃ f', f = f' + 1 := ⟨f - 1, by omega⟩
    simp [trC, loop, h5]
  | false => exact h3 ha _ (by omega)

end Verif.GoRe
