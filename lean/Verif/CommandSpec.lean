import Verif.CommandLine

/-!
# The syntax of command lines

Specification of command lines and integer literals, and lemmas about the model of `flag.Parse`.
-/

namespace Verif.Cmd

/-! ## Numbers -/

/-- Specification: a byte is a digit with a value below the base. -/
def DigitOf (base : Nat) (b : Byte) (x : Nat) : Prop :=
  x < base ∧ (0x30 ≤ b ∧ b ≤ 0x39 ∧ x = b.toNat - 0x30 ∨ 0x61 ≤ b ∧ b ≤ 0x7A ∧ x = b.toNat - 0x61 + 10 ∨ 0x41 ≤ b ∧ b ≤ 0x5A ∧ x = b.toNat - 0x41 + 10)

/-- Specification: digits, with single underscores between them. -/
inductive Groups (base : Nat) : Bytes → List Nat → Prop
  | one {b x} : DigitOf base b x → Groups base [b] [x]
  | more {b x s l} : DigitOf base b x → Groups base s l → Groups base (b :: s) (x :: l)
  | sep {b x s l} : DigitOf base b x → Groups base s l → Groups base (b :: c%'_' :: s) (x :: l)

/-- The value of a list of digits. -/
def value (base : Nat) (l : List Nat) : Nat := l.foldl (fun n d => base * n + d) 0

/-- The prefix of a base. -/
def BasePrefix (c : Byte) (base : Nat) : Prop :=
  (c = c%'b' ∨ c = c%'B') ∧ base = 2 ∨ (c = c%'o' ∨ c = c%'O') ∧ base = 8 ∨ (c = c%'x' ∨ c = c%'X') ∧ base = 16

/-- Specification: integer literals as in Go. -/
inductive Magnitude : Bytes → Nat → Prop
  | dec {s l} : Groups 10 s l → s.head? ≠ some c%'0' → Magnitude s (value 10 l)
  | oct {s l} : Groups 8 s l → s.head? = some c%'0' → Magnitude s (value 8 l)
  | pre {c base s l} : BasePrefix c base → Groups base s l → Magnitude (c%'0' :: c :: s) (value base l)
  | preSep {c base s l} : BasePrefix c base → Groups base s l → Magnitude (c%'0' :: c :: c%'_' :: s) (value base l)

/-- Specification: signed integers with 64 bits. -/
inductive IntWord : Bytes → Int → Prop
  | plain {s n} : Magnitude s n → n < 2 ^ 63 → IntWord s n
  | plus {s n} : Magnitude s n → n < 2 ^ 63 → IntWord (c%'+' :: s) n
  | minus {s n} : Magnitude s n → n ≤ 2 ^ 63 → IntWord (c%'-' :: s) (-n)

set_option maxRecDepth 10000 in
theorem digitVal_iff {b : Byte} : ∀ {x : Nat}, digitVal b = some x ↔
    (0x30 ≤ b ∧ b ≤ 0x39 ∧ x = b.toNat - 0x30 ∨ 0x61 ≤ b ∧ b ≤ 0x7A ∧ x = b.toNat - 0x61 + 10 ∨ 0x41 ≤ b ∧ b ≤ 0x5A ∧ x = b.toNat - 0x41 + 10) := by
  have key : digitVal b = if 0x30 ≤ b ∧ b ≤ 0x39 then some (b.toNat - 0x30) else if 0x61 ≤ b ∧ b ≤ 0x7A then some (b.toNat - 0x61 + 10)
      else if 0x41 ≤ b ∧ b ≤ 0x5A then some (b.toNat - 0x41 + 10) else none := by
    revert b; apply forall_byte; decide
  intro x
  rw [key]
  by_cases h1 : 0x30 ≤ b ∧ b ≤ 0x39
  · have : ¬ (0x61 ≤ b ∧ b ≤ 0x7A) ∧ ¬ (0x41 ≤ b ∧ b ≤ 0x5A) := by revert h1; revert b; apply forall_byte; decide
    rw [if_pos h1]
    constructor
    · rintro ⟨⟩; exact .inl ⟨h1.1, h1.2, rfl⟩
    · rintro (⟨_, _, rfl⟩ | ⟨h2, h3, _⟩ | ⟨h2, h3, _⟩)
      · rfl
      · exact absurd ⟨h2, h3⟩ this.1
      · exact absurd ⟨h2, h3⟩ this.2
  · rw [if_neg h1]
    by_cases h2 : 0x61 ≤ b ∧ b ≤ 0x7A
    · have : ¬ (0x41 ≤ b ∧ b ≤ 0x5A) := by revert h2; revert b; apply forall_byte; decide
      rw [if_pos h2]
      constructor
      · rintro ⟨⟩; exact .inr (.inl ⟨h2.1, h2.2, rfl⟩)
      · rintro (⟨h3, h4, _⟩ | ⟨_, _, rfl⟩ | ⟨h3, h4, _⟩)
        · exact absurd ⟨h3, h4⟩ h1
        · rfl
        · exact absurd ⟨h3, h4⟩ this
    · rw [if_neg h2]
      by_cases h3 : 0x41 ≤ b ∧ b ≤ 0x5A
      · rw [if_pos h3]
        constructor
        · rintro ⟨⟩; exact .inr (.inr ⟨h3.1, h3.2, rfl⟩)
        · rintro (⟨h4, h5, _⟩ | ⟨h4, h5, _⟩ | ⟨_, _, rfl⟩)
          · exact absurd ⟨h4, h5⟩ h1
          · exact absurd ⟨h4, h5⟩ h2
          · rfl
      · rw [if_neg h3]
        refine ⟨fun h => (by cases h), ?_⟩
        rintro (⟨h4, h5, _⟩ | ⟨h4, h5, _⟩ | ⟨h4, h5, _⟩)
        · exact absurd ⟨h4, h5⟩ h1
        · exact absurd ⟨h4, h5⟩ h2
        · exact absurd ⟨h4, h5⟩ h3

theorem digitOf_iff {base : Nat} {b : Byte} {x : Nat} : DigitOf base b x ↔ digitVal b = some x ∧ ¬ base ≤ x := by
  rw [digitVal_iff, DigitOf]
  constructor
  · rintro ⟨h, h'⟩; exact ⟨h', by omega⟩
  · rintro ⟨h, h'⟩; exact ⟨by omega, h⟩

set_option maxRecDepth 10000 in
theorem digitVal_under : digitVal c%'_' = none := by decide

set_option maxRecDepth 10000 in
theorem lower_hex {b : Byte} : (0x61 ≤ b ∧ b.toNat - 0x61 + 10 < 16 ∨ 0x41 ≤ b ∧ b ≤ 0x5A ∧ b.toNat - 0x41 + 10 < 16) → 0x61 ≤ lower b ∧ lower b ≤ 0x66 := by
  revert b; apply forall_byte; decide

set_option maxRecDepth 10000 in
theorem lower_prefix {c : Byte} : (lower c = c%'b' ↔ c = c%'b' ∨ c = c%'B') ∧ (lower c = c%'o' ↔ c = c%'o' ∨ c = c%'O') ∧ (lower c = c%'x' ↔ c = c%'x' ∨ c = c%'X') := by
  revert c; apply forall_byte; decide

set_option maxRecDepth 10000 in
theorem prefix_digit {c : Byte} : lower c = c%'b' ∨ lower c = c%'o' ∨ lower c = c%'x' → c ≠ c%'_' ∧ ∀ d, digitVal c = some d → 8 ≤ d := by
  revert c; apply forall_byte; decide

/-- A digit is a digit for the check of underscores too. -/
theorem digit_under {base : Nat} {hex : Bool} (hb : base ≤ 10 ∨ base = 16 ∧ hex = true) {b : Byte} {x : Nat} (h : DigitOf base b x) :
    (0x30 ≤ b ∧ b ≤ 0x39) ∨ (hex = true ∧ 0x61 ≤ lower b ∧ lower b ≤ 0x66) := by
  obtain ⟨h1, ⟨h2, h3, _⟩ | ⟨h2, h3, rfl⟩ | ⟨h2, h3, rfl⟩⟩ := h
  · exact .inl ⟨h2, h3⟩
  · rcases hb with hb | ⟨rfl, rfl⟩
    · omega
    · exact .inr ⟨rfl, lower_hex (.inl ⟨h2, h1⟩)⟩
  · rcases hb with hb | ⟨rfl, rfl⟩
    · omega
    · exact .inr ⟨rfl, lower_hex (.inr ⟨h2, h3, h1⟩)⟩

theorem digit_ne {base : Nat} {b : Byte} {x : Nat} (h : DigitOf base b x) : b ≠ c%'_' := by
  rintro rfl
  have := (digitOf_iff.1 h).1
  rw [digitVal_under] at this
  cases this

/-- One step of the loop on a byte that is not an underscore. -/
theorem uintLoop_cons {base acc n : Nat} {b : Byte} {s : Bytes} (hb : b ≠ c%'_') :
    uintLoop base acc (b :: s) = some n ↔ ∃ x, DigitOf base b x ∧ uintLoop base (base * acc + x) s = some n := by
  rw [uintLoop, if_neg hb]
  cases hd : digitVal b with
  | none => simp [digitOf_iff, hd]
  | some d =>
    by_cases h : base ≤ d
    · simp only [if_pos h, digitOf_iff, hd]
      constructor
      · rintro ⟨⟩
      · rintro ⟨x, ⟨h1, h2⟩, _⟩
        cases h1
        exact absurd h h2
    · simp only [if_neg h, digitOf_iff, hd]
      constructor
      · intro h'
        exact ⟨d, ⟨rfl, h⟩, h'⟩
      · rintro ⟨x, ⟨h1, h2⟩, h'⟩
        cases h1
        exact h'

theorem groups_cons {base : Nat} {b : Byte} {s : Bytes} {l : List Nat} : Groups base (b :: s) l ↔
    ∃ x l', DigitOf base b x ∧ l = x :: l' ∧ (s = [] ∧ l' = [] ∨ Groups base s l' ∨ ∃ s', s = c%'_' :: s' ∧ Groups base s' l') := by
  constructor
  · intro h
    cases h with
    | one h => exact ⟨_, _, h, rfl, .inl ⟨rfl, rfl⟩⟩
    | more h h' => exact ⟨_, _, h, rfl, .inr (.inl h')⟩
    | sep h h' => exact ⟨_, _, h, rfl, .inr (.inr ⟨_, rfl, h'⟩)⟩
  · rintro ⟨x, l', h, rfl, ⟨rfl, rfl⟩ | h' | ⟨s', rfl, h'⟩⟩
    · exact .one h
    · exact .more h h'
    · exact .sep h h'

theorem groups_digit {base : Nat} {b : Byte} {s : Bytes} {l : List Nat} (h : Groups base (b :: s) l) : b ≠ c%'_' := by
  obtain ⟨x, _, h, _⟩ := groups_cons.1 h
  exact digit_ne h

theorem loop_after {base : Nat} {hex : Bool} (hb : base ≤ 10 ∨ base = 16 ∧ hex = true) (s : Bytes) : ∀ acc n,
    (uintLoop base acc s = some n ∧ underscoreLoop hex .digit s = true ↔
      s = [] ∧ n = acc ∨ ∃ l, (Groups base s l ∨ ∃ s', s = c%'_' :: s' ∧ Groups base s' l) ∧ n = l.foldl (fun n d => base * n + d) acc) ∧
    ∀ saw, saw ≠ .digit → s ≠ [] → (uintLoop base acc s = some n ∧ underscoreLoop hex saw s = true ↔
      ∃ l, Groups base s l ∧ n = l.foldl (fun n d => base * n + d) acc) := by
  induction s with
  | nil =>
    intro acc n
    constructor
    · constructor
      · rintro ⟨h, _⟩
        exact .inl ⟨rfl, by simpa [uintLoop] using h.symm⟩
      · rintro (⟨_, rfl⟩ | ⟨l, h | ⟨s', h, _⟩, _⟩)
        · simp [uintLoop, underscoreLoop]
        · cases h
        · cases h
    · intro saw _ h; exact absurd rfl h
  | cons b s ih =>
    intro acc n
    by_cases hu : b = c%'_'
    · subst hu
      have h1 : ∀ saw, underscoreLoop hex saw (c%'_' :: s) = if saw = .digit then underscoreLoop hex .underscore s else false := by
        intro saw
        rw [underscoreLoop, if_neg, if_pos rfl]
        rintro (⟨h1, h2⟩ | ⟨_, h1, h2⟩)
        · exact absurd h2 (by decide)
        · exact absurd h2 (by decide)
      have h2 : uintLoop base acc (c%'_' :: s) = uintLoop base acc s := by rw [uintLoop, if_pos rfl]
      constructor
      · rw [h1, h2, if_pos rfl]
        by_cases hs : s = []
        · subst hs
          constructor
          · rintro ⟨_, h⟩; simp [underscoreLoop] at h
          · rintro (⟨h, _⟩ | ⟨l, h | ⟨s', h, h'⟩, _⟩)
            · cases h
            · exact absurd rfl (groups_digit h)
            · cases h; cases h'
        · rw [(ih acc n).2 .underscore (by decide) hs]
          constructor
          · rintro ⟨l, h, h'⟩
            exact .inr ⟨l, .inr ⟨s, rfl, h⟩, h'⟩
          · rintro (⟨h, _⟩ | ⟨l, h | ⟨s', h, h'⟩, h''⟩)
            · cases h
            · exact absurd rfl (groups_digit h)
            · cases h; exact ⟨l, h', h''⟩
      · intro saw hsaw _
        rw [h1, if_neg hsaw]
        constructor
        · rintro ⟨_, h⟩; cases h
        · rintro ⟨l, h, _⟩; exact absurd rfl (groups_digit h)
    · have key : ∀ saw, uintLoop base acc (b :: s) = some n ∧ underscoreLoop hex saw (b :: s) = true ↔
          ∃ l, Groups base (b :: s) l ∧ n = l.foldl (fun n d => base * n + d) acc := by
        intro saw
        rw [uintLoop_cons hu]
        constructor
        · rintro ⟨⟨x, hx, h⟩, h'⟩
          rw [underscoreLoop, if_pos (digit_under hb hx)] at h'
          rcases (ih _ n).1.1 ⟨h, h'⟩ with ⟨rfl, rfl⟩ | ⟨l, hl, rfl⟩
          · exact ⟨[x], .one hx, rfl⟩
          · exact ⟨x :: l, groups_cons.2 ⟨x, l, hx, rfl, .inr hl⟩, rfl⟩
        · rintro ⟨l, h, rfl⟩
          obtain ⟨x, l', hx, rfl, h1⟩ := groups_cons.1 h
          have : s = [] ∧ (x :: l').foldl (fun n d => base * n + d) acc = base * acc + x ∨
              ∃ l, (Groups base s l ∨ ∃ s', s = c%'_' :: s' ∧ Groups base s' l) ∧
                (x :: l').foldl (fun n d => base * n + d) acc = l.foldl (fun n d => base * n + d) (base * acc + x) := by
            rcases h1 with ⟨rfl, rfl⟩ | h1
            · exact .inl ⟨rfl, rfl⟩
            · exact .inr ⟨l', h1, rfl⟩
          have := (ih _ _).1.2 this
          refine ⟨⟨x, hx, this.1⟩, ?_⟩
          rw [underscoreLoop, if_pos (digit_under hb hx)]
          exact this.2
      constructor
      · rw [key]
        constructor
        · rintro ⟨l, h, h'⟩; exact .inr ⟨l, .inl h, h'⟩
        · rintro (⟨h, _⟩ | ⟨l, h | ⟨s', h, _⟩, h'⟩)
          · cases h
          · exact ⟨l, h, h'⟩
          · cases h; exact absurd rfl hu
      · intro saw _ _; exact key saw

/-- Without underscores the check of underscores holds. -/
theorem no_under {base : Nat} {hex : Bool} (hb : base ≤ 10 ∨ base = 16 ∧ hex = true) {s : Bytes} : ∀ {saw acc n},
    uintLoop base acc s = some n → c%'_' ∉ s → saw ≠ .underscore → underscoreLoop hex saw s = true := by
  induction s with
  | nil => intro saw acc n _ _ h; cases saw <;> first | rfl | exact absurd rfl h
  | cons b s ih =>
    intro saw acc n h h1 _
    obtain ⟨x, hx, h⟩ := (uintLoop_cons (fun e => h1 (by rw [e]; exact List.mem_cons_self))).1 h
    rw [underscoreLoop, if_pos (digit_under hb hx)]
    exact ih h (fun e => h1 (List.mem_cons_of_mem _ e)) (by decide)

/-- The end of `parseUint0`, given what the check of underscores reads. -/
theorem uint_end {base : Nat} {hex : Bool} (hb : base ≤ 10 ∨ base = 16 ∧ hex = true) {s r : Bytes} {n : Nat} {saw : Saw} (hs : saw ≠ .underscore)
    (h : underscoreOK s = underscoreLoop hex saw r) :
    ((uintLoop base 0 r).bind fun n => if c%'_' ∈ r ∧ ¬ underscoreOK s then none else some n) = some n ↔ uintLoop base 0 r = some n ∧ underscoreLoop hex saw r = true := by
  cases hu : uintLoop base 0 r with
  | none => simp
  | some m =>
    rw [Option.bind_some, h]
    cases hl : underscoreLoop hex saw r with
    | true => simp
    | false =>
      have : c%'_' ∈ r := Classical.byContradiction fun h1 => by rw [no_under hb hu h1 hs] at hl; cases hl
      simp [this]

theorem base_iff {c : Byte} {base : Nat} : BasePrefix c base ↔
    lower c = c%'b' ∧ base = 2 ∨ lower c = c%'o' ∧ base = 8 ∨ lower c = c%'x' ∧ base = 16 := by
  rw [BasePrefix, lower_prefix.1, lower_prefix.2.1, lower_prefix.2.2]

theorem digit_zero : DigitOf 8 c%'0' 0 := by
  refine ⟨by decide, .inl ⟨by decide, by decide, rfl⟩⟩

theorem groups_ne {base : Nat} {s : Bytes} {l : List Nat} (h : Groups base s l) : s ≠ [] := by
  cases h <;> simp

theorem digit_zero_eq {x : Nat} (h : DigitOf 8 c%'0' x) : x = 0 := by
  have := (digitOf_iff.1 h).1
  have h0 : digitVal c%'0' = some 0 := by decide
  rw [h0] at this; cases this; rfl

/-- Numbers that begin with a zero. -/
theorem oct_iff (r : Bytes) (n : Nat) : (uintLoop 8 0 r = some n ∧ underscoreLoop false .digit r = true) ↔ ∃ l, Groups 8 (c%'0' :: r) l ∧ n = value 8 l := by
  rw [(loop_after (.inl (by decide)) r 0 n).1]
  constructor
  · rintro (⟨rfl, rfl⟩ | ⟨l, h, rfl⟩)
    · exact ⟨[0], .one digit_zero, rfl⟩
    · exact ⟨0 :: l, groups_cons.2 ⟨0, l, digit_zero, rfl, .inr h⟩, rfl⟩
  · rintro ⟨l, h, rfl⟩
    obtain ⟨x, l', hx, rfl, h1⟩ := groups_cons.1 h
    cases digit_zero_eq hx
    rcases h1 with ⟨rfl, rfl⟩ | h1
    · exact .inl ⟨rfl, rfl⟩
    · exact .inr ⟨l', h1, rfl⟩

theorem no_groups {c : Byte} {base : Nat} (hc : BasePrefix c base) {s : Bytes} {l : List Nat} : ¬ Groups 8 (c%'0' :: c :: s) l := by
  intro h
  obtain ⟨x, l', hx, rfl, h1⟩ := groups_cons.1 h
  have hp : lower c = c%'b' ∨ lower c = c%'o' ∨ lower c = c%'x' := by
    rcases base_iff.1 hc with ⟨h, _⟩ | ⟨h, _⟩ | ⟨h, _⟩
    · exact .inl h
    · exact .inr (.inl h)
    · exact .inr (.inr h)
  rcases h1 with ⟨h1, _⟩ | h1 | ⟨s', h1, _⟩
  · cases h1
  · obtain ⟨x, _, hx, _⟩ := groups_cons.1 h1
    have := digitOf_iff.1 hx
    exact this.2 ((prefix_digit hp).2 _ this.1)
  · cases h1; exact absurd rfl (prefix_digit hp).1

/-- Numbers with a prefix. -/
theorem pre_iff {c : Byte} {base : Nat} (hc : BasePrefix c base) {hex : Bool} (hb : base ≤ 10 ∨ base = 16 ∧ hex = true) {r : Bytes} (hr : r ≠ []) (n : Nat) :
    (uintLoop base 0 r = some n ∧ underscoreLoop hex .digit r = true) ↔ Magnitude (c%'0' :: c :: r) n := by
  rw [(loop_after hb r 0 n).1]
  constructor
  · rintro (⟨h, _⟩ | ⟨l, h | ⟨s', rfl, h⟩, rfl⟩)
    · exact absurd h hr
    · exact .pre hc h
    · exact .preSep hc h
  · intro h
    cases h with
    | dec _ h => exact absurd rfl h
    | oct h _ => exact absurd h (no_groups hc)
    | @pre _ base' _ l hc' h =>
      have : base' = base := by
        rcases base_iff.1 hc with ⟨h1, rfl⟩ | ⟨h1, rfl⟩ | ⟨h1, rfl⟩ <;> rcases base_iff.1 hc' with ⟨h2, rfl⟩ | ⟨h2, rfl⟩ | ⟨h2, rfl⟩ <;>
          first | rfl | (rw [h1] at h2; exact absurd h2 (by decide))
      subst this
      exact .inr ⟨l, .inl h, rfl⟩
    | @preSep _ base' s l hc' h =>
      have : base' = base := by
        rcases base_iff.1 hc with ⟨h1, rfl⟩ | ⟨h1, rfl⟩ | ⟨h1, rfl⟩ <;> rcases base_iff.1 hc' with ⟨h2, rfl⟩ | ⟨h2, rfl⟩ | ⟨h2, rfl⟩ <;>
          first | rfl | (rw [h1] at h2; exact absurd h2 (by decide))
      subst this
      exact .inr ⟨l, .inr ⟨s, rfl, h⟩, rfl⟩

theorem oct_magnitude {r : Bytes} {n : Nat} (h : ∀ c base s, r = c :: s → s ≠ [] → ¬ BasePrefix c base) :
    Magnitude (c%'0' :: r) n ↔ ∃ l, Groups 8 (c%'0' :: r) l ∧ n = value 8 l := by
  constructor
  · intro h'
    cases h' with
    | dec _ h => exact absurd rfl h
    | oct h _ => exact ⟨_, h, rfl⟩
    | pre hc h' => exact absurd hc (h _ _ _ rfl (groups_ne h'))
    | preSep hc h' => exact absurd hc (h _ _ _ rfl (by simp))
  · rintro ⟨l, h, rfl⟩
    exact .oct h rfl

theorem parseUint_iff (s : Bytes) (n : Nat) : parseUint0 s = some n ↔ Magnitude s n := by
  by_cases hs : s = []
  · subst hs
    refine ⟨fun h => (by cases h), fun h => ?_⟩
    cases h with
    | dec h _ => exact absurd rfl (groups_ne h)
    | oct h _ => exact absurd rfl (groups_ne h)
  rw [parseUint0, if_neg hs]
  by_cases h0 : s.head? = some c%'0'
  · obtain ⟨r, rfl⟩ : ∃ r, s = c%'0' :: r := by
      cases s with
      | nil => cases h0
      | cons b r => cases h0; exact ⟨r, rfl⟩
    have plain : chooseBase (c%'0' :: r) = (8, r) → underscoreOK (c%'0' :: r) = underscoreLoop false .digit r →
        (∀ c base s, r = c :: s → s ≠ [] → ¬ BasePrefix c base) →
        (((uintLoop (chooseBase (c%'0' :: r)).1 0 (chooseBase (c%'0' :: r)).2).bind fun n =>
          if c%'_' ∈ (chooseBase (c%'0' :: r)).2 ∧ ¬ underscoreOK (c%'0' :: r) then none else some n) = some n ↔ Magnitude (c%'0' :: r) n) := by
      intro h1 h2 h3
      rw [h1, oct_magnitude h3, ← oct_iff]
      exact uint_end (base := 8) (.inl (by decide)) (by decide) h2
    match r, plain with
    | [], plain => exact plain rfl rfl (by intro c base s h; cases h)
    | [c], plain =>
      by_cases hc : lower c = c%'b' ∨ lower c = c%'o' ∨ lower c = c%'x'
      · obtain ⟨base, hb⟩ : ∃ base, BasePrefix c base := by
          rcases hc with h | h | h
          · exact ⟨2, base_iff.2 (.inl ⟨h, rfl⟩)⟩
          · exact ⟨8, base_iff.2 (.inr (.inl ⟨h, rfl⟩))⟩
          · exact ⟨16, base_iff.2 (.inr (.inr ⟨h, rfl⟩))⟩
        have h1 : chooseBase [c%'0', c] = (8, [c]) := rfl
        rw [h1, oct_magnitude (by intro c base s h h'; cases h; exact absurd rfl h')]
        constructor
        · intro h
          have : uintLoop 8 0 [c] ≠ none := by intro h'; rw [h'] at h; cases h
          obtain ⟨m, hm⟩ := Option.ne_none_iff_exists'.1 this
          obtain ⟨x, hx, _⟩ := (uintLoop_cons (prefix_digit hc).1).1 hm
          have := digitOf_iff.1 hx
          exact absurd ((prefix_digit hc).2 _ this.1) this.2
        · rintro ⟨l, h, _⟩
          exact absurd h (no_groups hb)
      · refine plain rfl ?_ (by intro c base s h h'; cases h; exact absurd rfl h')
        rw [underscoreOK, if_neg hc]
        rfl
    | c :: d :: r, plain =>
      by_cases hc : lower c = c%'b' ∨ lower c = c%'o' ∨ lower c = c%'x'
      · have h2 : underscoreOK (c%'0' :: c :: d :: r) = underscoreLoop (lower c = c%'x') .digit (d :: r) := by
          rw [underscoreOK, if_pos hc]
        have step : ∀ base, BasePrefix c base → (base ≤ 10 ∨ base = 16 ∧ decide (lower c = c%'x') = true) → chooseBase (c%'0' :: c :: d :: r) = (base, d :: r) →
            (((uintLoop (chooseBase (c%'0' :: c :: d :: r)).1 0 (chooseBase (c%'0' :: c :: d :: r)).2).bind fun n =>
              if c%'_' ∈ (chooseBase (c%'0' :: c :: d :: r)).2 ∧ ¬ underscoreOK (c%'0' :: c :: d :: r) then none else some n) = some n ↔ Magnitude (c%'0' :: c :: d :: r) n) := by
          intro base hp hb h1
          rw [h1, ← pre_iff hp hb (by simp) n]
          exact uint_end hb (by decide) h2
        rcases hc with h | h | h
        · exact step 2 (base_iff.2 (.inl ⟨h, rfl⟩)) (.inl (by decide)) (by simp [chooseBase, h])
        · exact step 8 (base_iff.2 (.inr (.inl ⟨h, rfl⟩))) (.inl (by decide)) (by simp [chooseBase, h])
        · exact step 16 (base_iff.2 (.inr (.inr ⟨h, rfl⟩))) (.inr ⟨rfl, by simp [h]⟩) (by simp [chooseBase, h])
      · refine plain ?_ ?_ ?_
        · have hc1 : ¬ lower c = c%'b' := fun h => hc (.inl h)
          have hc2 : ¬ lower c = c%'o' := fun h => hc (.inr (.inl h))
          have hc3 : ¬ lower c = c%'x' := fun h => hc (.inr (.inr h))
          rw [chooseBase, if_neg hc1, if_neg hc2, if_neg hc3]
        · rw [underscoreOK, if_neg hc]
          rfl
        · intro c' base s h _ hb
          cases h
          rcases base_iff.1 hb with ⟨h, _⟩ | ⟨h, _⟩ | ⟨h, _⟩
          · exact hc (.inl h)
          · exact hc (.inr (.inl h))
          · exact hc (.inr (.inr h))
  · have h1 : chooseBase s = (10, s) := by
      cases s with
      | nil => rfl
      | cons b r =>
        have hb : b ≠ 0x30 := fun h => h0 (by rw [h]; rfl)
        unfold chooseBase
        split
        · rename_i h; cases h; exact absurd rfl hb
        · rename_i h; cases h; exact absurd rfl hb
        · rfl
    have h2 : underscoreOK s = underscoreLoop false .begin s := by
      cases s with
      | nil => rfl
      | cons b r =>
        have hb : b ≠ 0x30 := fun h => h0 (by rw [h]; rfl)
        unfold underscoreOK
        split
        · rename_i h; cases h; exact absurd rfl hb
        · rfl
    rw [h1]
    refine (uint_end (base := 10) (.inl (by decide)) (by decide) h2).trans ?_
    rw [(loop_after (base := 10) (.inl (by decide)) s 0 n).2 .begin (by decide) hs]
    constructor
    · rintro ⟨l, h, rfl⟩; exact .dec h h0
    · intro h
      cases h with
      | dec h _ => exact ⟨_, h, rfl⟩
      | oct _ h => exact absurd h h0
      | pre _ _ => exact absurd rfl h0
      | preSep _ _ => exact absurd rfl h0

/-- A magnitude does not begin with a sign. -/
theorem magnitude_head {s : Bytes} {n : Nat} (h : Magnitude s n) : s ≠ [] ∧ s.head? ≠ some c%'-' ∧ s.head? ≠ some c%'+' := by
  have hg : ∀ {base s l}, Groups base s l → s ≠ [] ∧ s.head? ≠ some c%'-' ∧ s.head? ≠ some c%'+' := by
    intro base s l h
    cases s with
    | nil => exact absurd rfl (groups_ne h)
    | cons b r =>
      obtain ⟨x, _, hx, _⟩ := groups_cons.1 h
      have := (digitOf_iff.1 hx).1
      refine ⟨by simp, fun e => ?_, fun e => ?_⟩
      · cases e
        have h0 : digitVal c%'-' = none := by decide
        rw [h0] at this; cases this
      · cases e
        have h0 : digitVal c%'+' = none := by decide
        rw [h0] at this; cases this
  cases h with
  | dec h _ => exact hg h
  | oct h _ => exact hg h
  | pre _ _ => exact ⟨by simp, by simp, by simp⟩
  | preSep _ _ => exact ⟨by simp, by simp, by simp⟩

/-- Numbers of options. -/
theorem number_iff (s : Bytes) (i : Int) : parseInt0 s = some i ↔ IntWord s i := by
  cases s with
  | nil =>
    refine ⟨fun h => (by cases h), fun h => ?_⟩
    cases h with
    | plain h _ => exact absurd rfl (magnitude_head h).1
  | cons b r =>
    by_cases h1 : b = c%'-'
    · subst h1
      rw [parseInt0, if_pos rfl]
      constructor
      · intro h
        cases hu : parseUint0 r with
        | none => rw [hu] at h; cases h
        | some n =>
          rw [hu, Option.bind_some] at h
          split at h
          · cases h; exact .minus ((parseUint_iff _ _).1 hu) ‹_›
          · cases h
      · intro h
        cases h with
        | plain h _ => exact absurd rfl (magnitude_head h).2.1
        | minus h h' => rw [(parseUint_iff _ _).2 h, Option.bind_some, if_pos h']
    · rw [parseInt0, if_neg h1]
      have step : ∀ {t : Bytes}, (((parseUint0 t).bind fun n => if n < 2 ^ 63 then some (n : Int) else none) = some i ↔ ∃ n, Magnitude t n ∧ n < 2 ^ 63 ∧ i = n) := by
        intro t
        constructor
        · intro h
          cases hu : parseUint0 t with
          | none => rw [hu] at h; cases h
          | some n =>
            rw [hu, Option.bind_some] at h
            split at h
            · cases h; exact ⟨n, (parseUint_iff _ _).1 hu, ‹_›, rfl⟩
            · cases h
        · rintro ⟨n, h, h', rfl⟩
          rw [(parseUint_iff _ _).2 h, Option.bind_some, if_pos h']
      rw [step]
      by_cases h2 : b = c%'+'
      · subst h2
        rw [if_pos rfl]
        constructor
        · rintro ⟨n, h, h', rfl⟩; exact .plus h h'
        · intro h
          cases h with
          | plain h _ => exact absurd rfl (magnitude_head h).2.2
          | plus h h' => exact ⟨_, h, h', rfl⟩
      · rw [if_neg h2]
        constructor
        · rintro ⟨n, h, h', rfl⟩; exact .plain h h'
        · intro h
          cases h with
          | plain h h' => exact ⟨_, h, h', rfl⟩
          | plus h h' => exact absurd rfl h2
          | minus h h' => exact absurd rfl h1

/-! ## Options -/

/-- Specification: the options that are on or off, and what they do. -/
inductive BoolOpt : Bytes → (Bool → Vars → Vars) → Prop
  | helpInput : BoolOpt b%"help-input" fun x v => { v with helpInput := x }
  | helpOutput : BoolOpt b%"help-output" fun x v => { v with helpOutput := x }
  | helpTransforms : BoolOpt b%"help-transforms" fun x v => { v with helpTransforms := x }
  | helpCookbook : BoolOpt b%"help-cookbook" fun x v => { v with helpCookbook := x }
  | compact : BoolOpt b%"json-compact" fun x v => { v with compact := x }
  | lines : BoolOpt b%"json-lines" fun x v => { v with compact := x }
  | quoteKeys : BoolOpt b%"jpv-quote-keys" fun x v => { v with quoteKeys := x }
  | quoteKeysOld : BoolOpt b%"quotekeys" fun x v => { v with quoteKeys := x }
  | strict : BoolOpt b%"jsonpath-strict" fun x v => { v with strict := x }

/-- Specification: the options with a number. -/
inductive IntOpt : Bytes → (Int → Vars → Vars) → Prop
  | indent : IntOpt b%"json-indent" fun x v => { v with indent := x }
  | indentOld : IntOpt b%"indent" fun x v => { v with indent := x }
  | width : IntOpt b%"json-compact-width" fun x v => { v with width := x }
  | widthOld : IntOpt b%"compactwidth" fun x v => { v with width := x }

/-- Specification: the options with a text. -/
inductive StrOpt : Bytes → (Bytes → Vars → Vars) → Prop
  | color : StrOpt b%"color" fun x v => { v with colorMode := x }
  | out : StrOpt b%"out" fun x v => { v with outFormat := x }
  | in_ : StrOpt b%"in" fun x v => { v with inFormat := x }
  | header : StrOpt b%"csv-header" fun x v => { v with csvHeader := x }
  | file : StrOpt b%"file" fun x v => { v with file := x }

/-- Specification: the old options for colours. -/
inductive ColorOpt : Bytes → (Vars → Vars) → Prop
  | on : ColorOpt b%"colors" fun v => { v with colorMode := b%"always" }
  | off : ColorOpt b%"nocolors" fun v => { v with colorMode := b%"never" }

/-- Specification: truth values. -/
inductive BoolWord : Bytes → Bool → Prop
  | yes {w} : w ∈ [b%"1", b%"t", b%"T", b%"true", b%"TRUE", b%"True"] → BoolWord w true
  | no {w} : w ∈ [b%"0", b%"f", b%"F", b%"false", b%"FALSE", b%"False"] → BoolWord w false

/-- Specification: an option begins with one or two hyphens. -/
def Dashes (d : Bytes) : Prop := d = b%"-" ∨ d = b%"--"

/-- Specification: the words of an option, and what it does.  With `lax`, the old options for colours have values, which do not matter. -/
inductive Opt (lax : Bool) : List Bytes → (Vars → Vars) → Prop
  | bool {d n set} : Dashes d → BoolOpt n set → Opt lax [d ++ n] (set true)
  | boolValue {d n set w x} : Dashes d → BoolOpt n set → BoolWord w x → Opt lax [d ++ n ++ b%"=" ++ w] (set x)
  | int {d n set w i} : Dashes d → IntOpt n set → IntWord w i → Opt lax [d ++ n, w] (set i)
  | intValue {d n set w i} : Dashes d → IntOpt n set → IntWord w i → Opt lax [d ++ n ++ b%"=" ++ w] (set i)
  | str {d n set w} : Dashes d → StrOpt n set → Opt lax [d ++ n, w] (set w)
  | strValue {d n set w} : Dashes d → StrOpt n set → Opt lax [d ++ n ++ b%"=" ++ w] (set w)
  | color {d n set} : Dashes d → ColorOpt n set → Opt lax [d ++ n] set
  | colorValue {d n set w} : lax = true → Dashes d → ColorOpt n set → Opt lax [d ++ n ++ b%"=" ++ w] set

/-- Specification: options in a row. -/
inductive Opts (lax : Bool) : List Bytes → (Vars → Vars) → Prop
  | nil : Opts lax [] id
  | cons {ws f words g} : Opt lax ws f → Opts lax words g → Opts lax (ws ++ words) (g ∘ f)

/-- Specification: a word that is not an option: it does not begin with a hyphen, or is only a hyphen. -/
def NotOption (a : Bytes) : Prop := a = b%"-" ∨ a.head? ≠ some c%'-'

/-- Specification: a word that asks for the help text. -/
def HelpWord (a : Bytes) : Prop := ∃ d n w, Dashes d ∧ (n = b%"h" ∨ n = b%"help") ∧ (w = [] ∨ w.head? = some c%'=') ∧ a = d ++ n ++ w

/-- Specification: what comes after the options, and the arguments. -/
inductive Tail : List Bytes → List Bytes → Prop
  | nil : Tail [] []
  | args {a l} : NotOption a → Tail (a :: l) (a :: l)
  | stop {l} : Tail (b%"--" :: l) l

/-- Specification: a command line, what its options do, and its arguments. -/
def CommandLine (lax : Bool) (words : List Bytes) (f : Vars → Vars) (args : List Bytes) : Prop :=
  ∃ opts rest, words = opts ++ rest ∧ Opts lax opts f ∧ Tail rest args

/-- What an entry of the table of options means. -/
def FlagSpec (n : Bytes) : Flag → Prop
  | .bool set => BoolOpt n set
  | .int set => IntOpt n set
  | .str set => StrOpt n set
  | .func set => ∃ g, ColorOpt n g ∧ set = fun _ => g

theorem findFlag_some {n : Bytes} {fl : Flag} (h : findFlag n = some fl) : FlagSpec n fl := by
  unfold findFlag at h
  obtain ⟨⟨m, fl'⟩, h1, h2⟩ := Option.map_eq_some_iff.1 h
  have hm := List.mem_of_find?_eq_some h1
  have he : m = n := by have := List.find?_some h1; simpa using this
  subst he
  subst h2
  have all : ∀ p ∈ flags, FlagSpec p.1 p.2 := by
    unfold flags
    simp only [List.forall_mem_cons]
    exact ⟨.helpInput, .helpOutput, .helpTransforms, .helpCookbook, .indent, .compact, .lines, .width, .quoteKeys, .color, .out, .in_, .header, .strict,
      .indentOld, .widthOld, .quoteKeysOld, ⟨_, .on, rfl⟩, ⟨_, .off, rfl⟩, .file, fun p hp => by cases hp⟩
  exact all _ hm

theorem find_bool {n set} (h : BoolOpt n set) : findFlag n = some (.bool set) := by cases h <;> rfl
theorem find_int {n set} (h : IntOpt n set) : findFlag n = some (.int set) := by cases h <;> rfl
theorem find_str {n set} (h : StrOpt n set) : findFlag n = some (.str set) := by cases h <;> rfl
theorem find_color {n set} (h : ColorOpt n set) : findFlag n = some (.func fun _ => set) := by cases h <;> rfl

theorem parseBool_iff {w : Bytes} {x : Bool} : parseBool w = some x ↔ BoolWord w x := by
  unfold parseBool
  by_cases h1 : w ∈ [b%"1", b%"t", b%"T", b%"true", b%"TRUE", b%"True"]
  · rw [if_pos h1]
    constructor
    · rintro ⟨⟩; exact .yes h1
    · intro h
      cases h with
      | yes _ => rfl
      | no h2 =>
        simp only [List.mem_cons, List.not_mem_nil, or_false] at h1 h2
        rcases h1 with rfl | rfl | rfl | rfl | rfl | rfl <;> revert h2 <;> decide
  · rw [if_neg h1]
    by_cases h2 : w ∈ [b%"0", b%"f", b%"F", b%"false", b%"FALSE", b%"False"]
    · rw [if_pos h2]
      constructor
      · rintro ⟨⟩; exact .no h2
      · intro h
        cases h with
        | yes h => exact absurd h h1
        | no _ => rfl
    · rw [if_neg h2]
      refine ⟨fun h => (by cases h), fun h => ?_⟩
      cases h with
      | yes h => exact absurd h h1
      | no h => exact absurd h h2

/-! ## Words -/

/-- The text of a value in the word of its option. -/
def eqValue : Option Bytes → Bytes
  | none => []
  | some w => c%'=' :: w

/-- A name of an option that can be written. -/
def GoodName (n : Bytes) : Prop := n ≠ [] ∧ n.head? ≠ some c%'-' ∧ c%'=' ∉ n

theorem cut_eq (b : Byte) (n : Bytes) (h : c%'=' ∉ n) (v : Option Bytes) : cutValue (b :: n ++ eqValue v) = (b :: n, v) := by
  have h1 : (n ++ eqValue v).takeWhile (· != c%'=') = n ∧ (n ++ eqValue v).dropWhile (· != c%'=') = eqValue v := by
    induction n with
    | nil => cases v <;> simp [eqValue]
    | cons c n ih =>
      have hc : c ≠ c%'=' := fun e => h (by rw [e]; exact List.mem_cons_self)
      have := ih fun e => h (List.mem_cons_of_mem _ e)
      constructor
      · rw [List.cons_append, List.takeWhile_cons_of_pos (by simpa using hc), this.1]
      · rw [List.cons_append, List.dropWhile_cons_of_pos (by simpa using hc), this.2]
  rw [List.cons_append, cutValue, h1.1, h1.2]
  cases v with
  | none => simp [eqValue, h]
  | some w => simp [eqValue]

theorem cut_some {s n : Bytes} {v : Option Bytes} (hs : s ≠ []) (h : cutValue s = (n, v)) (he : s.head? ≠ some c%'=') :
    s = n ++ eqValue v ∧ n.head? = s.head? ∧ c%'=' ∉ n := by
  cases s with
  | nil => exact absurd rfl hs
  | cons b r =>
    rw [cutValue] at h
    obtain ⟨rfl, rfl⟩ := Prod.mk.inj h
    have hb : b ≠ c%'=' := fun e => he (by rw [e]; rfl)
    refine ⟨?_, rfl, ?_⟩
    · have key : r = r.takeWhile (· != c%'=') ++ eqValue (if c%'=' ∈ r then some ((r.dropWhile (· != c%'=')).drop 1) else none) := by
        clear h he hs
        induction r with
        | nil => rfl
        | cons c r ih =>
          by_cases hc : c = c%'='
          · subst hc; simp [eqValue]
          · have hc' : ¬ c%'=' = c := fun e => hc e.symm
            rw [List.takeWhile_cons_of_pos (by simpa using hc), List.dropWhile_cons_of_pos (by simpa using hc)]
            simp only [List.mem_cons, hc', false_or, List.cons_append, List.cons.injEq, true_and]
            exact ih
      exact congrArg (b :: ·) key
    · intro hm
      rcases List.mem_cons.1 hm with h | h
      · exact hb h.symm
      · have := (JPath.mem_take _ h).1
        simp at this

theorem classify_flag {s n : Bytes} {v : Option Bytes} : classify s = .flag n v ↔ ∃ d, Dashes d ∧ GoodName n ∧ s = d ++ n ++ eqValue v := by
  constructor
  · intro h
    unfold classify at h
    split at h
    · rename_i c r
      simp only at h
      split at h
      · cases h
      split at h
      · cases h
      · rename_i b t hname
        split at h
        · cases h
        rename_i hb
        obtain ⟨h1, h2⟩ := Word.flag.inj h
        obtain ⟨h3, h4, h5⟩ := cut_some (s := b :: t) (n := n) (v := v) (by simp) (Prod.ext (by rw [← hname]; exact h1) (by rw [← hname]; exact h2))
          (fun e => hb (.inr (by simpa using e)))
        have hn : GoodName n := by
          refine ⟨fun e => ?_, fun e => ?_, h5⟩
          · rw [e] at h4; cases h4
          · rw [h4] at e; exact hb (.inl (by simpa using e))
        by_cases hc : c = c%'-'
        · rw [if_pos hc] at hname
          exact ⟨b%"--", .inr rfl, hn, by rw [hc, hname, h3]; rfl⟩
        · rw [if_neg hc] at hname
          exact ⟨b%"-", .inl rfl, hn, by rw [hname, h3]; rfl⟩
    · cases h
  · rintro ⟨d, hd, ⟨h1, h2, h3⟩, rfl⟩
    cases n with
    | nil => exact absurd rfl h1
    | cons b n =>
      have hb1 : b ≠ c%'-' := fun e => h2 (by rw [e]; rfl)
      have hb2 : b ≠ c%'=' := fun e => h3 (by rw [e]; exact List.mem_cons_self)
      have hcut := cut_eq b n (fun e => h3 (List.mem_cons_of_mem _ e)) v
      rw [List.cons_append] at hcut
      rcases hd with rfl | rfl
      · show classify (c%'-' :: b :: (n ++ eqValue v)) = _
        simp only [classify]
        rw [if_neg (fun e => hb1 e.1), if_neg hb1]
        simp only [hb1, hb2, or_self, if_false, hcut]
      · show classify (c%'-' :: c%'-' :: b :: (n ++ eqValue v)) = _
        simp only [classify]
        rw [if_neg (fun e => by cases e.2)]
        simp only [if_true, hb1, hb2, or_self, if_false, hcut]

theorem classify_arg {s : Bytes} : classify s = .arg ↔ NotOption s := by
  constructor
  · intro h
    unfold classify at h
    split at h
    · simp only at h
      split at h
      · cases h
      split at h
      · cases h
      · split at h <;> cases h
    · rename_i hs
      match s, hs with
      | [], _ => exact .inr (by simp)
      | [b], _ =>
        by_cases hb : b = c%'-'
        · exact .inl (by rw [hb])
        · exact .inr (by simpa using hb)
      | b :: c :: r, hs =>
        exact .inr fun e => hs c r (by simp at e; rw [e])
  · rintro (rfl | h)
    · rfl
    · unfold classify
      split
      · exact absurd rfl h
      · rfl

theorem classify_stop {s : Bytes} : classify s = .stop ↔ s = b%"--" := by
  constructor
  · intro h
    unfold classify at h
    split at h
    · simp only at h
      split at h
      · rename_i c r hc; rw [hc.1, hc.2]
      split at h
      · cases h
      · split at h <;> cases h
    · cases h
  · rintro rfl; rfl

theorem good_bool {n set} (h : BoolOpt n set) : GoodName n := by
  cases h <;> exact ⟨by decide, by decide, by decide⟩
theorem good_int {n set} (h : IntOpt n set) : GoodName n := by
  cases h <;> exact ⟨by decide, by decide, by decide⟩
theorem good_str {n set} (h : StrOpt n set) : GoodName n := by
  cases h <;> exact ⟨by decide, by decide, by decide⟩
theorem good_color {n set} (h : ColorOpt n set) : GoodName n := by
  cases h <;> exact ⟨by decide, by decide, by decide⟩

theorem class_of {d n : Bytes} (hd : Dashes d) (hn : GoodName n) (v : Option Bytes) : classify (d ++ n ++ eqValue v) = .flag n v :=
  classify_flag.2 ⟨d, hd, hn, rfl⟩

theorem class_none {d n : Bytes} (hd : Dashes d) (hn : GoodName n) : classify (d ++ n) = .flag n none := by
  have := class_of hd hn none
  rwa [eqValue, List.append_nil] at this

theorem class_value {d n w : Bytes} (hd : Dashes d) (hn : GoodName n) : classify (d ++ n ++ b%"=" ++ w) = .flag n (some w) := by
  have := class_of hd hn (some w)
  rwa [eqValue, show c%'=' :: w = b%"=" ++ w from rfl, ← List.append_assoc] at this

/-- What one option does, and then the rest is read. -/
theorem parse_opt {ws : List Bytes} {f : Vars → Vars} (h : Opt true ws f) (rest : List Bytes) (v : Vars) :
    parseFlags (ws ++ rest) v = parseFlags rest (f v) := by
  cases h with
  | bool hd hn =>
    rw [List.singleton_append, parseFlags]
    simp only [class_none hd (good_bool hn), find_bool hn]
    rfl
  | boolValue hd hn hw =>
    rw [List.singleton_append, parseFlags]
    simp only [class_value hd (good_bool hn), find_bool hn, Option.getD_some, parseBool_iff.2 hw]
  | int hd hn hw =>
    rw [List.cons_append, List.singleton_append, parseFlags]
    simp only [class_none hd (good_int hn), find_int hn, (number_iff _ _).2 hw]
  | intValue hd hn hw =>
    rw [List.singleton_append, parseFlags]
    simp only [class_value hd (good_int hn), find_int hn, (number_iff _ _).2 hw]
  | str hd hn =>
    rw [List.cons_append, List.singleton_append, parseFlags]
    simp only [class_none hd (good_str hn), find_str hn]
  | strValue hd hn =>
    rw [List.singleton_append, parseFlags]
    simp only [class_value hd (good_str hn), find_str hn]
  | color hd hn =>
    rw [List.singleton_append, parseFlags]
    simp only [class_none hd (good_color hn), find_color hn]
  | colorValue _ hd hn =>
    rw [List.singleton_append, parseFlags]
    simp only [class_value hd (good_color hn), find_color hn]

theorem parse_opts {ws : List Bytes} {f : Vars → Vars} (h : Opts true ws f) (rest : List Bytes) : ∀ v,
    parseFlags (ws ++ rest) v = parseFlags rest (f v) := by
  induction h with
  | nil => intro v; rfl
  | cons h _ ih => intro v; rw [List.append_assoc, parse_opt h, ih]; rfl

theorem parse_tail {l args : List Bytes} (h : Tail l args) (v : Vars) : parseFlags l v = .ok v args := by
  cases h with
  | nil => rfl
  | args h => rw [parseFlags]; simp only [classify_arg.2 h]
  | stop => rfl

/-- How reading the command line ends after the options. -/
inductive Stuck : List Bytes → Vars → Parsed → Prop
  | ok {l args v} : Tail l args → Stuck l v (.ok v args)
  | help {a l v} : HelpWord a → Stuck (a :: l) v .help
  | bad {l v} : parseFlags l v = .bad → Stuck l v .bad

theorem opts_cons {ws : List Bytes} {f : Vars → Vars} {words rest : List Bytes} {v : Vars} {p : Parsed} (h : Opt true ws f)
    (ih : ∃ opts rest', rest = opts ++ rest' ∧ ∃ g, Opts true opts g ∧ Stuck rest' (g (f v)) p) (hw : words = ws ++ rest) :
    ∃ opts rest', words = opts ++ rest' ∧ ∃ g, Opts true opts g ∧ Stuck rest' (g v) p := by
  obtain ⟨opts, rest', rfl, g, h1, h2⟩ := ih
  exact ⟨ws ++ opts, rest', by rw [hw, List.append_assoc], g ∘ f, .cons h h1, h2⟩

theorem parse_split (n : Nat) : ∀ (words : List Bytes), words.length ≤ n → ∀ v,
    ∃ opts rest, words = opts ++ rest ∧ ∃ f, Opts true opts f ∧ Stuck rest (f v) (parseFlags words v) := by
  induction n with
  | zero =>
    intro words h v
    cases words with
    | nil => exact ⟨[], [], rfl, id, .nil, .ok .nil⟩
    | cons _ _ => simp at h
  | succ n ih =>
    intro words hn v
    have here : Stuck words v (parseFlags words v) → ∃ opts rest, words = opts ++ rest ∧ ∃ f, Opts true opts f ∧ Stuck rest (f v) (parseFlags words v) :=
      fun h => ⟨[], words, rfl, id, .nil, h⟩
    cases words with
    | nil => exact here (.ok .nil)
    | cons s rest =>
      have hl : rest.length ≤ n := by simpa using hn
      cases hc : classify s with
      | arg =>
        apply here
        rw [parseFlags]; simp only [hc]
        exact .ok (.args (classify_arg.1 hc))
      | stop =>
        apply here
        rw [classify_stop.1 hc]
        exact .ok .stop
      | bad =>
        apply here
        have : parseFlags (s :: rest) v = .bad := by rw [parseFlags]; simp only [hc]
        rw [this]
        exact .bad this
      | flag name value =>
        obtain ⟨d, hd, hname, hs⟩ := classify_flag.1 hc
        cases hf : findFlag name with
        | none =>
          apply here
          by_cases hh : name = b%"help" ∨ name = b%"h"
          · have : parseFlags (s :: rest) v = .help := by rw [parseFlags]; simp only [hc, hf, if_pos hh]
            rw [this]
            refine .help ⟨d, name, eqValue value, hd, hh.symm, ?_, hs⟩
            cases value
            · exact .inl rfl
            · exact .inr rfl
          · have : parseFlags (s :: rest) v = .bad := by rw [parseFlags]; simp only [hc, hf, if_neg hh]
            rw [this]
            exact .bad this
        | some fl =>
          have hspec := findFlag_some hf
          cases fl with
          | bool set =>
            cases hb : parseBool (value.getD b%"true") with
            | none =>
              apply here
              have : parseFlags (s :: rest) v = .bad := by rw [parseFlags]; simp only [hc, hf, hb]
              rw [this]
              exact .bad this
            | some x =>
              have : parseFlags (s :: rest) v = parseFlags rest (set x v) := by rw [parseFlags]; simp only [hc, hf, hb]
              rw [this]
              refine opts_cons (ws := [s]) ?_ (ih rest hl _) rfl
              cases value with
              | none =>
                rw [hs, eqValue, List.append_nil]
                have : x = true := by simpa [parseBool] using hb.symm
                rw [this]
                exact .bool hd hspec
              | some w =>
                rw [hs, eqValue, show c%'=' :: w = b%"=" ++ w from rfl, ← List.append_assoc]
                exact .boolValue hd hspec (parseBool_iff.1 hb)
          | func set =>
            obtain ⟨g, hg, rfl⟩ := hspec
            have : parseFlags (s :: rest) v = parseFlags rest (g v) := by rw [parseFlags]; simp only [hc, hf]
            rw [this]
            refine opts_cons (ws := [s]) ?_ (ih rest hl _) rfl
            cases value with
            | none =>
              rw [hs, eqValue, List.append_nil]
              exact .color hd hg
            | some w =>
              rw [hs, eqValue, show c%'=' :: w = b%"=" ++ w from rfl, ← List.append_assoc]
              exact .colorValue rfl hd hg
          | str set =>
            cases value with
            | some w =>
              have : parseFlags (s :: rest) v = parseFlags rest (set w v) := by rw [parseFlags]; simp only [hc, hf]
              rw [this]
              refine opts_cons (ws := [s]) ?_ (ih rest hl _) rfl
              rw [hs, eqValue, show c%'=' :: w = b%"=" ++ w from rfl, ← List.append_assoc]
              exact .strValue hd hspec
            | none =>
              cases rest with
              | nil =>
                apply here
                have : parseFlags [s] v = .bad := by rw [parseFlags]; simp only [hc, hf]
                rw [this]
                exact .bad this
              | cons w rest =>
                have : parseFlags (s :: w :: rest) v = parseFlags rest (set w v) := by rw [parseFlags]; simp only [hc, hf]
                rw [this]
                refine opts_cons (ws := [s, w]) ?_ (ih rest (by simp at hl; omega) _) rfl
                rw [hs, eqValue, List.append_nil]
                exact .str hd hspec
          | int set =>
            cases value with
            | some w =>
              cases hi : parseInt0 w with
              | none =>
                apply here
                have : parseFlags (s :: rest) v = .bad := by rw [parseFlags]; simp only [hc, hf, hi]
                rw [this]
                exact .bad this
              | some i =>
                have : parseFlags (s :: rest) v = parseFlags rest (set i v) := by rw [parseFlags]; simp only [hc, hf, hi]
                rw [this]
                refine opts_cons (ws := [s]) ?_ (ih rest hl _) rfl
                rw [hs, eqValue, show c%'=' :: w = b%"=" ++ w from rfl, ← List.append_assoc]
                exact .intValue hd hspec ((number_iff _ _).1 hi)
            | none =>
              cases rest with
              | nil =>
                apply here
                have : parseFlags [s] v = .bad := by rw [parseFlags]; simp only [hc, hf]
                rw [this]
                exact .bad this
              | cons w rest =>
                cases hi : parseInt0 w with
                | none =>
                  apply here
                  have : parseFlags (s :: w :: rest) v = .bad := by rw [parseFlags]; simp only [hc, hf, hi]
                  rw [this]
                  exact .bad this
                | some i =>
                  have : parseFlags (s :: w :: rest) v = parseFlags rest (set i v) := by rw [parseFlags]; simp only [hc, hf, hi]
                  rw [this]
                  refine opts_cons (ws := [s, w]) ?_ (ih rest (by simp at hl; omega) _) rfl
                  rw [hs, eqValue, List.append_nil]
                  exact .int hd hspec ((number_iff _ _).1 hi)

theorem help_parse {a : Bytes} (h : HelpWord a) (l : List Bytes) (v : Vars) : parseFlags (a :: l) v = .help := by
  obtain ⟨d, n, w, hd, hn, hw, rfl⟩ := h
  obtain ⟨x, rfl⟩ : ∃ x, w = eqValue x := by
    rcases hw with rfl | hw
    · exact ⟨none, rfl⟩
    · cases w with
      | nil => cases hw
      | cons b w => cases hw; exact ⟨some w, rfl⟩
  have hg : GoodName n := by rcases hn with rfl | rfl <;> exact ⟨by decide, by decide, by decide⟩
  have hf : findFlag n = none := by rcases hn with rfl | rfl <;> rfl
  rw [parseFlags]
  simp only [class_of hd hg, hf, if_pos hn.symm]

end Verif.Cmd
