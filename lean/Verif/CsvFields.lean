import Verif.CsvDecoder
import Verif.CsvSpec
import Verif.ScannerState
import Verif.NumPrefix
import Verif.JsonRun

/-!
# Fields of CSV records (helper lemmas)
-/

set_option linter.unusedSimpArgs false

namespace Verif.Csv
open Rfc8259 CsvSpec

/-! ## Numbers -/

theorem fair_string (f : Bytes) : Fair (stringReader f).sched := fun i => ⟨0, by omega, by simp [stringReader]⟩

theorem number_run (f : Bytes) :
    match Pure.number .eof f with
    | .ok (s, r) => ∃ a', (Json.parseNumber (f.length + 1)).run AScan.machine (AScan.new f .eof) = ([], .ok s a') ∧ a'.rest = r
    | .error _ => ∃ e, (Json.parseNumber (f.length + 1)).run AScan.machine (AScan.new f .eof) = ([], .fail e) := by
  have h := (At.new f .eof).corr_number (fuel := f.length + 1) (by omega)
  unfold Corr at h
  cases hn : Pure.number .eof f with
  | ok x =>
    obtain ⟨s, r⟩ := x
    rw [hn] at h
    obtain ⟨a', h1, h2⟩ := h
    exact ⟨a', h1, h2.rest⟩
  | error e => rw [hn] at h; exact ⟨_, h⟩

theorem tryNumberWith_error {n : Nat} (hz : 2 ≤ n) {f : Bytes} {e} (h : Pure.number .eof f = .error e) : tryNumberWith n f = some none := by
  have h1 := number_run f
  rw [h] at h1
  obtain ⟨e', h1⟩ := h1
  have h2 := live_run (Json.parseNumber (f.length + 1)) _ _ (Live.init (stringReader f) n hz (fair_string f)) (by
    show ((Json.parseNumber (f.length + 1)).run AScan.machine (AScan.new f .eof)).2 ≠ _
    rw [h1]; simp)
  have h3 : Follows _ _ ((Json.parseNumber (f.length + 1)).run AScan.machine (AScan.new f .eof)).2 := h2.2
  rw [h1] at h3
  unfold tryNumberWith
  rw [h3]

theorem tryNumberWith_ok {n : Nat} (hz : 2 ≤ n) {f : Bytes} {s r} (h : Pure.number .eof f = .ok (s, r)) :
    ∃ c, tryNumberWith n f = some (if c then some s else none) ∧ (r = [] → c = true) := by
  have h1 := number_run f
  rw [h] at h1
  obtain ⟨a', h1, hr⟩ := h1
  have h2 := live_run (Json.parseNumber (f.length + 1)) _ _ (Live.init (stringReader f) n hz (fair_string f)) (by
    show ((Json.parseNumber (f.length + 1)).run AScan.machine (AScan.new f .eof)).2 ≠ _
    rw [h1]; simp)
  have h3 : Follows _ _ ((Json.parseNumber (f.length + 1)).run AScan.machine (AScan.new f .eof)).2 := h2.2
  rw [h1] at h3
  obtain ⟨c', h4, h5, _⟩ := h3
  unfold tryNumberWith
  rw [h4]
  refine ⟨decide (c'.reader.rest.length = 0), by simp, ?_⟩
  intro hr0
  have := h5.2.rest
  rw [hr, hr0] at this
  have := List.append_eq_nil_iff.1 this.symm
  simp [this.2]

theorem readLoop_all (c : CScan) (k : Nat) (f : Bytes) (hr : c.reader = stringReader f) (hb : c.buf = []) (hl : f.length ≤ c.size)
    (hz : 0 < c.size) : (c.readLoop (k + 1)).reader.rest = [] := by
  rw [CScan.readLoop]
  rw [hr, hb]
  cases f with
  | nil => rfl
  | cons b f =>
    have hd : (b :: f).drop (min ((b :: f).length + 1) (c.size - 0)) = [] := List.drop_eq_nil_of_le (by omega)
    have ht : (b :: f).take (min ((b :: f).length + 1) (c.size - 0)) = b :: f := List.take_of_length_le (by omega)
    simp only [Reader.read, stringReader, List.length_nil, hd, ht, List.isEmpty_nil, Bool.and_false, Bool.false_eq_true, if_false]
    rw [if_pos (by simp)]

theorem read_reader (c : CScan) : c.read.2.reader = c.ensure.reader := by
  unfold CScan.read
  dsimp only
  split
  · rfl
  · split <;> rfl

theorem read_all (f : Bytes) (n : Nat) (hn : 0 < n) (hl : f.length ≤ n) :
    (({ CScan.new (stringReader f) n with tokStart := some 0 } : CScan).read).2.reader.rest = [] := by
  rw [read_reader]
  have hm : ({ CScan.new (stringReader f) n with tokStart := some 0 } : CScan).makeRoom =
      { CScan.new (stringReader f) n with tokStart := some 0 } := by
    unfold CScan.makeRoom
    rw [if_neg (by simp [CScan.new]; omega)]
  rw [CScan.ensure, if_pos (by simp [CScan.new]), CScan.fillBuf, hm]
  exact readLoop_all _ 99 f rfl rfl hl hn

/-- Fields that fit into the buffer of the scanner are taken from the reader at once. -/
theorem tryNumberWith_short {n : Nat} (hz : 2 ≤ n) {f : Bytes} {s r} (h : Pure.number .eof f = .ok (s, r)) (hl : f.length ≤ n) :
    tryNumberWith n f = some (some s) := by
  have h1 := number_run f
  rw [h] at h1
  obtain ⟨a', h1, hr⟩ := h1
  obtain ⟨k, hk⟩ : ∃ k, Json.parseNumber (f.length + 1) = .startToken (.read k) := ⟨_, rfl⟩
  unfold tryNumberWith
  rw [hk] at h1 ⊢
  have L := Live.init (stringReader f) n hz (fair_string f)
  have hs := L.2.startToken
  have ha : (AScan.new f .eof).startToken = some { AScan.new f .eof with tok := some [], hist := none } := rfl
  have ha' : (AScan.new (stringReader f).rest (stringReader f).fin).startToken =
    some { AScan.new f .eof with tok := some [], hist := none } := rfl
  rw [ha'] at hs
  obtain ⟨c1, hc1, hs1, hr1⟩ := hs
  have L1 : Live c1 { AScan.new f .eof with tok := some [], hist := none } := ⟨by rw [hr1]; exact L.1, by rw [hr1]; exact hs1⟩
  obtain ⟨g1, g2, _⟩ := L1.op (read_spec c1 ⟨_, _, _, hs1⟩)
  have hc1' : c1 = { CScan.new (stringReader f) n with tokStart := some 0 } := by
    have : (CScan.new (stringReader f) n).startToken = some { CScan.new (stringReader f) n with tokStart := some 0 } := rfl
    rw [hc1] at this; exact Option.some.inj this
  have hdr : (c1.read).2.reader.rest = [] := by
    rw [hc1']; exact read_all f n (by omega) hl
  simp only [Prog.run, AScan.machine, CScan.machine, ha, hc1] at h1 ⊢
  rw [g1] at h1
  have h2 := live_run (k c1.read.1) _ _ g2 (by simp only [AScan.machine]; rw [h1]; simp)
  have h3 := h2.2
  simp only [AScan.machine, CScan.machine] at h3
  rw [h1] at h3
  obtain ⟨c', h4, h5, h6⟩ := h3
  rw [h4]
  rw [hdr] at h6
  have := List.suffix_nil.1 h6
  simp [this]

theorem tryNumber_error {f : Bytes} {e} (h : Pure.number .eof f = .error e) : tryNumber f = some none :=
  tryNumberWith_error (by decide) h

theorem tryNumber_ok {f : Bytes} {s r} (h : Pure.number .eof f = .ok (s, r)) :
    ∃ c, tryNumber f = some (if c then some s else none) ∧ (r = [] → c = true) := tryNumberWith_ok (by decide) h

theorem tryNumber_short {f : Bytes} {s r} (h : Pure.number .eof f = .ok (s, r)) (hl : f.length ≤ 8192) :
    tryNumber f = some (some s) := tryNumberWith_short (by decide) h hl

/-! ## The scan over the field -/

/-- The three bytes that are escaped. -/
def special (b : Byte) : Bool := b == c%'"' || b == c%'\n' || b == c%'\\'

def numChar (b : Byte) : Bool := isDigit b || b == c%'.' || b == c%'e' || b == c%'E' || b == c%'+' || b == c%'-'

theorem special_iff (b : Byte) : special b = true ↔ b = c%'"' ∨ b = c%'\n' ∨ b = c%'\\' := by
  simp [special, or_assoc]

set_option maxRecDepth 10000 in
theorem numChar_iff (b : Byte) : numChar b = true ↔ NumChar b := by
  unfold NumChar
  revert b
  apply forall_byte
  decide

theorem scanField_eq : ∀ (f : Bytes) (first al num : Bool) (n : Nat),
    ∃ al', scanField first (al, num, n) f = (al', num && f.all numChar, n + f.countP special) ∧
      (f.countP special = 0 → al' = match first, f with
        | _, [] => al
        | true, b :: r => isAlpha b && r.all isAlnum
        | false, l => al && l.all isAlnum)
  | [], first, al, num, n => ⟨al, by simp [scanField], by cases first <;> simp⟩
  | b :: f, first, al, num, n => by
    simp only [scanField]
    obtain ⟨al', h1, h2⟩ := scanField_eq f false
      (if b = c%'"' ∨ b = c%'\n' ∨ b = c%'\\' then al else if first then isAlpha b else al && isAlnum b)
      (if num then numChar b else num) (if b = c%'"' ∨ b = c%'\n' ∨ b = c%'\\' then n + 1 else n)
    refine ⟨al', ?_, ?_⟩
    · unfold numChar at h1 ⊢
      rw [h1]
      have : (if num then isDigit b || b == c%'.' || b == c%'e' || b == c%'E' || b == c%'+' || b == c%'-' else num) =
          (num && (isDigit b || b == c%'.' || b == c%'e' || b == c%'E' || b == c%'+' || b == c%'-')) := by cases num <;> rfl
      rw [this]
      simp only [List.all_cons, Bool.and_assoc, List.countP_cons, Prod.mk.injEq, true_and]
      have := special_iff b
      by_cases hs : b = c%'"' ∨ b = c%'\n' ∨ b = c%'\\'
      · simp only [hs, if_true, this.2 hs]; omega
      · have hs' : special b = false := by cases h : special b with
          | true => exact absurd (this.1 h) hs
          | false => rfl
        simp only [hs, if_false, hs', Bool.false_eq_true]; omega
    · intro h0
      rw [List.countP_cons] at h0
      have hs : ¬ special b = true := by intro h; simp [h] at h0
      have hs' : ¬ (b = c%'"' ∨ b = c%'\n' ∨ b = c%'\\') := fun h => hs ((special_iff b).2 h)
      rw [h2 (by omega)]
      simp only [hs', if_false]
      cases first <;> cases f <;> simp [Bool.and_assoc]

theorem scanField_start (f : Bytes) (num : Bool) : ∃ al, scanField true (true, num, 0) f = (al, num && f.all numChar, f.countP special) ∧
    (f.countP special = 0 → al = match f with
      | [] => true
      | b :: r => isAlpha b && r.all isAlnum) := by
  obtain ⟨al, h1, h2⟩ := scanField_eq f true true num 0
  refine ⟨al, by rw [h1, Nat.zero_add], fun h => ?_⟩
  rw [h2 h]
  cases f <;> rfl

theorem flatMap_length (f : Bytes) : (f.flatMap escByte).length = f.length + f.countP special := by
  induction f with
  | nil => rfl
  | cons b f ih =>
    rw [List.flatMap_cons, List.length_append, ih, List.countP_cons, List.length_cons]
    by_cases hs : special b = true
    · have := (special_iff b).1 hs
      have e : (escByte b).length = 2 := by rcases this with rfl | rfl | rfl <;> rfl
      rw [e, if_pos hs]; omega
    · have h' : ¬ (b = c%'"' ∨ b = c%'\n' ∨ b = c%'\\') := fun h => hs ((special_iff b).2 h)
      have e : (escByte b).length = 1 := by
        unfold escByte
        rw [if_neg (fun h => h' (h.elim (fun h => .inr (.inr h)) .inl)), if_neg (fun h => h' (.inr (.inl h)))]
        rfl
      rw [e, if_neg hs]; omega

theorem flatMap_plain {f : Bytes} (h : f.countP special = 0) : f.flatMap escByte = f := by
  induction f with
  | nil => rfl
  | cons b f ih =>
    rw [List.countP_cons] at h
    have hs : ¬ special b = true := by intro h'; simp [h'] at h
    have h' : ¬ (b = c%'"' ∨ b = c%'\n' ∨ b = c%'\\') := fun h => hs ((special_iff b).2 h)
    rw [List.flatMap_cons, ih (by omega)]
    unfold escByte
    rw [if_neg (fun h => h' (h.elim (fun h => .inr (.inr h)) .inl)), if_neg (fun h => h' (.inr (.inl h)))]
    rfl

theorem escapedString_eq (f : Bytes) : escapedString f (f.countP special) =
    some { bytes := c%'"' :: (f.flatMap escByte ++ [c%'"']), type := .str } := by
  have hl : (c%'"' :: (f.flatMap escByte ++ [c%'"'])).length = f.length + f.countP special + 2 := by
    rw [List.length_cons, List.length_append, flatMap_length]; rfl
  simp only [escapedString, hl, Nat.le_refl, if_true, Nat.sub_self, List.replicate_zero, List.append_nil]

/-- The bytes of the string for a field. -/
def quoted (f : Bytes) : Bytes := c%'"' :: (f.flatMap escByte ++ [c%'"'])

set_option maxRecDepth 10000 in
theorem numChar_plain {b : Byte} : numChar b = true → ¬ special b = true := by
  revert b; apply forall_byte; decide

/-- Header fields. -/
theorem header_eq (f : Bytes) : ∃ s, fieldToScalar f true = some s ∧ s.bytes = quoted f ∧ s.type = .str ∧ s.unesc = false := by
  obtain ⟨al, h1, _⟩ := scanField_start f false
  simp only [fieldToScalar, Bool.not_true, Bool.false_and, Bool.false_eq_true, if_false, h1]
  by_cases hc : f.countP special = 0
  · rw [if_neg (by omega)]
    exact ⟨_, rfl, by simp [finishString, simpleString, quoted, flatMap_plain hc], rfl, rfl⟩
  · rw [if_pos (by omega), escapedString_eq]
    exact ⟨_, rfl, rfl, rfl, rfl⟩

/-- Data fields that are read as strings. -/
def IsStr (f : Bytes) (o : Option Scalar) : Prop :=
  ∃ s, o = some s ∧ s.bytes = quoted f ∧ s.type = .str ∧ s.unesc = false ∧ s.key = false

theorem data_cases (f : Bytes) :
    (f = [] ∧ fieldToScalar f false = some nullInstance) ∨ (f = b%"true" ∧ fieldToScalar f false = some trueInstance) ∨
    (f = b%"false" ∧ fieldToScalar f false = some falseInstance) ∨
    (f ≠ [] ∧ f ≠ b%"true" ∧ f ≠ b%"false" ∧
      (((∀ b ∈ f, NumChar b) ∧ ∃ x, tryNumber f = x ∧
          ((x = some none ∧ IsStr f (fieldToScalar f false)) ∨ (∃ s, x = some (some s) ∧ fieldToScalar f false = some s) ∨ x = none)) ∨
        (¬ (∀ b ∈ f, NumChar b) ∧ IsStr f (fieldToScalar f false)))) := by
  by_cases h1 : f = []
  · left; subst h1; exact ⟨rfl, rfl⟩
  by_cases h2 : f = b%"true"
  · right; left; subst h2; exact ⟨rfl, rfl⟩
  by_cases h3 : f = b%"false"
  · right; right; left; subst h3; exact ⟨rfl, rfl⟩
  right; right; right
  refine ⟨h1, h2, h3, ?_⟩
  have e1 : (f == []) = false := by simpa using h1
  have e2 : (f == b%"true") = false := by simpa using h2
  have e3 : (f == b%"false") = false := by simpa using h3
  obtain ⟨al, g1, _⟩ := scanField_start f true
  have hall : (true && f.all numChar) = true ↔ ∀ b ∈ f, NumChar b := by
    simp only [Bool.true_and, List.all_eq_true, numChar_iff]
  simp only [fieldToScalar, e1, e2, e3, Bool.and_false, Bool.false_eq_true, if_false, Bool.not_false, g1]
  by_cases hn : ∀ b ∈ f, NumChar b
  · left
    refine ⟨hn, _, rfl, ?_⟩
    have hc : f.countP special = 0 := by
      rw [List.countP_eq_zero]
      intro b hb
      exact numChar_plain ((numChar_iff b).2 (hn b hb))
    rw [if_neg (by omega), if_pos (hall.2 hn)]
    cases htn : tryNumber f with
    | none => right; right; rfl
    | some x =>
      cases x with
      | none =>
        left
        exact ⟨rfl, _, rfl, by simp [finishString, simpleString, quoted, flatMap_plain hc], rfl, rfl, rfl⟩
      | some s => right; left; exact ⟨s, rfl, rfl⟩
  · right
    refine ⟨hn, ?_⟩
    by_cases hc : f.countP special = 0
    · rw [if_neg (by omega), if_neg (fun h => hn (hall.1 h))]
      exact ⟨_, rfl, by simp [finishString, simpleString, quoted, flatMap_plain hc], rfl, rfl, rfl⟩
    · rw [if_pos (by omega), escapedString_eq]
      exact ⟨_, rfl, rfl, rfl, rfl, rfl⟩

/-! ## Misread fields -/

theorem number_misread {f : Bytes} (hn : ∀ b ∈ f, NumChar b) :
    match Pure.number .eof f with
    | .ok (s, r) => Number s.bytes ∧ s = { bytes := s.bytes, type := .num } ∧ f = s.bytes ++ r ∧
        ((r = [] ∧ Number f ∧ ¬ Misread f) ∨ (r ≠ [] ∧ ¬ Number f ∧ Misread f))
    | .error _ => ¬ Number f ∧ ¬ Misread f := by
  cases h : Pure.number .eof f with
  | ok x =>
    obtain ⟨s, r⟩ := x
    obtain ⟨h1, h2, h3⟩ := number_sound h
    simp only at h1 h2 h3
    refine ⟨h1, h2, h3, ?_⟩
    cases r with
    | nil =>
      left
      rw [List.append_nil] at h3
      refine ⟨rfl, by rw [h3]; exact h1, ?_⟩
      rintro ⟨_, p, b, r, e, hp, hb⟩
      have := NumPrefix.final_stop r hp hb
      rw [← e, h] at this
      simp at this
    | cons b r =>
      right
      have hs := NumPrefix.stop_final h
      refine ⟨by simp, ?_, hn, s.bytes, b, r, h3, h1, hs⟩
      intro hf
      rw [h3] at hf
      exact hs ⟨r, hf⟩
  | error e =>
    refine ⟨?_, ?_⟩
    · intro hf
      have := number_complete (fin := .eof) (r := []) hf ⟨.inl rfl, by simp⟩
      rw [List.append_nil, h] at this
      cases this
    · rintro ⟨_, p, b, r, e', hp, hb⟩
      have := NumPrefix.final_stop r hp hb
      rw [← e', h] at this
      cases this

set_option maxRecDepth 10000 in
theorem digit_numChar {b : Byte} (h : Digit b) : NumChar b := by
  revert h; unfold Digit NumChar; revert b; apply forall_byte; decide

set_option maxRecDepth 10000 in
theorem number_chars {f : Bytes} (h : Number f) : ∀ b ∈ f, NumChar b := by
  obtain ⟨m, i, fr, e, hm, hi, hf, he, rfl⟩ := h
  intro b hb
  simp only [List.mem_append] at hb
  rcases hb with hb | hb | hb | hb
  · rcases hm with rfl | rfl
    · simp at hb
    · simp at hb; subst hb; unfold NumChar; decide
  · rcases hi with rfl | ⟨d, ds, h1, h2, h3, rfl⟩
    · simp at hb; subst hb; unfold NumChar; decide
    · simp at hb
      rcases hb with rfl | hb
      · exact digit_numChar ⟨by revert h1; revert b; apply forall_byte; decide, h2⟩
      · exact digit_numChar (h3 b hb)
  · rcases hf with rfl | ⟨ds, _, hd, rfl⟩
    · simp at hb
    · simp at hb
      rcases hb with rfl | hb
      · unfold NumChar; decide
      · exact digit_numChar (hd b hb)
  · rcases he with rfl | ⟨c, s, ds, hc, hs, _, hd, rfl⟩
    · simp at hb
    · simp at hb
      rcases hb with rfl | hb | hb
      · rcases hc with rfl | rfl <;> (unfold NumChar; decide)
      · rcases hs with rfl | rfl | rfl
        · simp at hb
        · simp at hb; subst hb; unfold NumChar; decide
        · simp at hb; subst hb; unfold NumChar; decide
      · exact digit_numChar (hd b hb)

/-- All data fields: there is no panic, and fields that are not misread become what they look like. -/
theorem data_spec (f : Bytes) : ∃ s, fieldToScalar f false = some s ∧ s.key = false ∧ s.unesc = false ∧
    ((f = [] ∧ s.type = .null ∧ s.bytes = b%"null") ∨
     ((f = b%"true" ∨ f = b%"false") ∧ s.type = .bool ∧ s.bytes = f) ∨
     (f ≠ [] ∧ f ≠ b%"true" ∧ f ≠ b%"false" ∧
       ((Number f ∧ ¬ Misread f ∧ s.type = .num ∧ s.bytes = f) ∨
        (¬ Number f ∧ s.type = .str ∧ s.bytes = quoted f ∧ (Misread f → 8192 < f.length)) ∨
        (¬ Number f ∧ Misread f ∧ s.type = .num ∧ Number s.bytes ∧ s.bytes <+: f ∧ s.bytes ≠ f)))) := by
  rcases data_cases f with ⟨h, e⟩ | ⟨h, e⟩ | ⟨h, e⟩ | ⟨h1, h2, h3, h⟩
  · exact ⟨_, e, rfl, rfl, .inl ⟨h, rfl, rfl⟩⟩
  · exact ⟨_, e, rfl, rfl, .inr (.inl ⟨.inl h, rfl, h ▸ rfl⟩)⟩
  · exact ⟨_, e, rfl, rfl, .inr (.inl ⟨.inr h, rfl, h ▸ rfl⟩)⟩
  · rcases h with ⟨hn, x, hx, h⟩ | ⟨hn, s, e, hb, ht, hu, hk⟩
    · have hm := number_misread hn
      cases hp : Pure.number .eof f with
      | error e =>
        rw [hp] at hm
        rw [tryNumber_error hp] at hx
        subst hx
        simp only [Option.some.injEq, reduceCtorEq, false_and, exists_false, or_false, true_and, false_or] at h
        obtain ⟨s, e, hb, ht, hu, hk⟩ := h
        exact ⟨s, e, hk, hu, .inr (.inr ⟨h1, h2, h3, .inr (.inl ⟨hm.1, ht, hb, fun h => absurd h hm.2⟩)⟩)⟩
      | ok y =>
        obtain ⟨s, r⟩ := y
        rw [hp] at hm
        obtain ⟨m1, m2, m3, m4⟩ := hm
        obtain ⟨c, hc, hr⟩ := tryNumber_ok hp
        rw [hc] at hx
        subst hx
        cases c with
        | true =>
          simp only [if_true, Option.some.injEq, reduceCtorEq, false_and, or_false, false_or] at h
          obtain ⟨s', rfl, e⟩ := h
          refine ⟨s, e, by rw [m2], by rw [m2], .inr (.inr ⟨h1, h2, h3, ?_⟩)⟩
          rcases m4 with ⟨rfl, m5, m6⟩ | ⟨m5, m6, m7⟩
          · rw [List.append_nil] at m3
            exact .inl ⟨m5, m6, by rw [m2], m3.symm⟩
          · exact .inr (.inr ⟨m6, m7, by rw [m2], m1, ⟨r, m3.symm⟩, fun he => m5 (by
              have := congrArg List.length m3
              rw [List.length_append, he] at this
              exact List.length_eq_zero_iff.1 (by omega))⟩)
        | false =>
          simp only [if_false, Bool.false_eq_true, Option.some.injEq, reduceCtorEq, false_and, exists_false, or_false, true_and, false_or] at h
          obtain ⟨s', e, hb, ht, hu, hk⟩ := h
          refine ⟨s', e, hk, hu, .inr (.inr ⟨h1, h2, h3, .inr (.inl ?_)⟩)⟩
          rcases m4 with ⟨rfl, m5, m6⟩ | ⟨m5, m6, m7⟩
          · exact absurd (hr rfl) (by simp)
          · refine ⟨m6, ht, hb, fun _ => ?_⟩
            apply Classical.byContradiction
            intro hl
            rw [tryNumber_short hp (by omega)] at hc
            simp at hc
    · exact ⟨s, e, hk, hu, .inr (.inr ⟨h1, h2, h3, .inr (.inl ⟨fun h => hn (number_chars h), ht, hb, fun h => absurd h.1 hn⟩)⟩)⟩

end Verif.Csv
