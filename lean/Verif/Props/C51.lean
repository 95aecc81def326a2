import Verif.JsonStream
import Verif.JpvStrings
import Verif.CsvFields

/-!
# C51: the alphanumeric flag is accurate
-/

namespace Verif
open Rfc8259

/-- Specification: a letter or underscore. -/
def IdStart (b : Byte) : Prop := (0x41 ≤ b ∧ b ≤ 0x5A) ∨ (0x61 ≤ b ∧ b ≤ 0x7A) ∨ b = 0x5F

/-- Specification: an identifier. -/
def Identifier (c : Bytes) : Prop :=
  ∃ x xs, c = x :: xs ∧ IdStart x ∧ ∀ y ∈ xs, IdStart y ∨ (0x30 ≤ y ∧ y ≤ 0x39)

set_option maxRecDepth 10000 in
theorem isAlpha_iff (b : Byte) : isAlpha b = true ↔ IdStart b := by
  unfold IdStart
  revert b
  apply forall_byte
  decide

set_option maxRecDepth 10000 in
theorem isAlnum_iff (b : Byte) : isAlnum b = true ↔ IdStart b ∨ (0x30 ≤ b ∧ b ≤ 0x39) := by
  unfold IdStart
  revert b
  apply forall_byte
  decide

theorem dropEscapes_plain {c : Bytes} (h : 0x5C ∉ c) : dropEscapes c = c := by
  induction c with
  | nil => rfl
  | cons b c ih =>
    rw [dropEscapes.eq_def]
    simp only [show b ≠ 0x5C from fun e => h (by simp [e]), if_false]
    rw [ih fun hm => h (by simp [hm])]

theorem alnumFlag_plain {c : Bytes} (h : 0x5C ∉ c) (hne : c ≠ []) : alnumFlag c = true ↔ Identifier c := by
  unfold alnumFlag
  rw [dropEscapes_plain h]
  cases c with
  | nil => exact absurd rfl hne
  | cons x xs =>
    simp only [Bool.and_eq_true, List.all_eq_true, isAlpha_iff, isAlnum_iff, Identifier]
    constructor
    · rintro ⟨h1, h2⟩; exact ⟨x, xs, rfl, h1, h2⟩
    · rintro ⟨x', xs', he, h1, h2⟩
      cases he
      exact ⟨h1, h2⟩

theorem identifier_plain {c : Bytes} (h : Identifier c) : 0x5C ∉ c ∧ c ≠ [] := by
  obtain ⟨x, xs, rfl, h1, h2⟩ := h
  refine ⟨?_, by simp⟩
  intro hm
  rcases List.mem_cons.1 hm with rfl | hm
  · exact absurd h1 (by unfold IdStart; decide)
  · exact absurd (h2 _ hm) (by unfold IdStart; decide)

/-- The property fails for the empty string, which is flagged as alphanumeric. -/
theorem C51_violated_empty (r : Reader) (size : Nat) (hs : 2 ≤ size) (hf : Fair r.sched)
    (hr : r.rest = b%"\"\"") (he : r.fin = .eof) :
    Json.decodeFrom r size = ([.scalar { bytes := b%"\"\"", type := .str, alnum := true, unesc := true }], .ok () ()) ∧
    ¬ Identifier [] := by
  refine ⟨?_, fun h => (identifier_plain h).2 rfl⟩
  rw [decodeFrom_fair r size hs hf, hr, he]
  rfl

/-- The property fails for strings with escapes: `"\n"` is flagged as alphanumeric. -/
theorem C51_violated_escape (r : Reader) (size : Nat) (hs : 2 ≤ size) (hf : Fair r.sched)
    (hr : r.rest = b%"\"\\n\"") (he : r.fin = .eof) :
    Json.decodeFrom r size = ([.scalar { bytes := b%"\"\\n\"", type := .str, alnum := true, unesc := false }], .ok () ()) ∧
    ¬ Identifier b%"\\n" := by
  refine ⟨?_, fun h => (identifier_plain h).1 (by decide)⟩
  rw [decodeFrom_fair r size hs hf, hr, he]
  rfl

/-- Every string emitted by the JSON decoder consists of quotes and a content.  If the content is
an identifier, the string is flagged as alphanumeric; if the string is flagged, and the content is
not empty and has no escapes, then it is an identifier.

Missing: the empty string and strings with escapes (`C51_violated_empty`, `C51_violated_escape`). -/
theorem C51_alnum_accurate_partial (r : Reader) (size : Nat) (hs : 2 ≤ size) (s : Scalar)
    (hm : .scalar s ∈ (Json.decodeFrom r size).1) (ht : s.type = .str) :
    ∃ c, s.bytes = 0x22 :: (c ++ [0x22]) ∧ (Identifier c → s.alnum = true) ∧
      (s.alnum = true → c ≠ [] → 0x5C ∉ c → Identifier c) ∧ (s.unesc = true ↔ 0x5C ∉ c) := by
  obtain ⟨vs, b, h1, h2⟩ := decodeFrom_tokens r size hs
  obtain ⟨c, k, _, rfl⟩ := h1.strings s ht (h2 _ hm)
  refine ⟨c, rfl, fun h => ?_, fun h hne hb => (alnumFlag_plain hb hne).1 h, by simp [strScalar]⟩
  have := identifier_plain h
  exact (alnumFlag_plain this.1 this.2).2 h

/-- Non-vacuity: an identifier and another string. -/
example : Identifier b%"a_1" ∧ ¬ Identifier b%"1a" := by
  refine ⟨⟨_, _, rfl, by unfold IdStart; decide, by unfold IdStart; decide⟩, ?_⟩
  rintro ⟨x, xs, h, h1, _⟩
  cases h
  revert h1; unfold IdStart; decide

/-- The same for every string sent by the JPV decoder: keys, in either notation, and values.

Missing: the empty string and strings with escapes, as in JSON (the same texts behind `$ = `). -/
theorem C51_jpv_partial (r : Reader) (size : Nat) (hs : 2 ≤ size) (s : Scalar)
    (hm : .scalar s ∈ (Jpv.decodeFrom r size).1) (ht : s.type = .str) :
    ∃ c, s.bytes = 0x22 :: (c ++ [0x22]) ∧ (Identifier c → s.alnum = true) ∧
      (s.alnum = true → c ≠ [] → 0x5C ∉ c → Identifier c) ∧ (s.unesc = true → 0x5C ∉ c) := by
  rcases JpvStrings.decodeFrom_strings r size hs s ht hm with ⟨c, k, _, rfl⟩ | ⟨a, as, h1, h2, rfl⟩
  · refine ⟨c, rfl, fun h => ?_, fun h hne hb => (alnumFlag_plain hb hne).1 h, by simp [strScalar]⟩
    have := identifier_plain h
    exact (alnumFlag_plain this.1 this.2).2 h
  · exact ⟨a :: as, rfl, fun _ => rfl,
      (fun _ _ _ => ⟨a, as, rfl, (isAlpha_iff a).1 h1, fun y hy => (isAlnum_iff y).1 (h2 y hy)⟩), by simp⟩

/-- Non-vacuity: both notations for keys. -/
example : (Jpv.decodeFrom (Csv.stringReader b%"$.a = 1\n$[\"b\"] = 2\n") 8192).1 =
    [.startObj, .scalar { bytes := b%"\"a\"", type := .str, alnum := true, key := true }, .scalar { bytes := b%"1", type := .num },
     .scalar { bytes := b%"\"b\"", type := .str, alnum := true, key := true, unesc := true }, .scalar { bytes := b%"2", type := .num },
     .endObj] := by decide +kernel

/-! ## CSV -/

/-- What the flag of a string made from a field says. -/
def CsvFlag (s : Scalar) : Prop :=
  s.type = .str → ∃ c, s.bytes = 0x22 :: (c ++ [0x22]) ∧ (Identifier c → s.alnum = true) ∧
    (s.alnum = true → c ≠ [] → Identifier c) ∧ s.unesc = false

namespace Csv

theorem identifier_fields {f : Bytes} (h : Identifier (f.flatMap escByte)) : f.countP special = 0 := by
  rw [List.countP_eq_zero]
  intro b hb hsp
  refine (identifier_plain h).1 (List.mem_flatMap.2 ⟨b, hb, ?_⟩)
  rcases (special_iff b).1 hsp with rfl | rfl | rfl <;> decide

theorem finish_flag {f : Bytes} {isHeader al : Bool}
    (hal : al = match f with
      | [] => true
      | b :: r => isAlpha b && r.all isAlnum) : CsvFlag (finishString f isHeader al) := by
  intro _
  refine ⟨f, rfl, fun h => ?_, fun h hne => ?_, rfl⟩
  · obtain ⟨x, xs, rfl, h1, h2⟩ := h
    show al = true
    rw [hal]
    simp only [Bool.and_eq_true, List.all_eq_true]
    exact ⟨(isAlpha_iff x).2 h1, fun y hy => (isAlnum_iff y).2 (h2 y hy)⟩
  · replace h : al = true := h
    cases f with
    | nil => exact absurd rfl hne
    | cons x xs =>
      rw [hal] at h
      simp only [Bool.and_eq_true, List.all_eq_true] at h
      exact ⟨x, xs, rfl, (isAlpha_iff x).1 h.1, fun y hy => (isAlnum_iff y).1 (h.2 y hy)⟩

theorem field_flag {f : Bytes} {isHeader : Bool} {s : Scalar} (h : fieldToScalar f isHeader = some s) : CsvFlag s := by
  obtain ⟨al, h1, h2⟩ := scanField_start f (!isHeader)
  unfold fieldToScalar at h
  rw [h1] at h
  simp only at h
  split at h
  · cases h; intro ht; cases ht
  split at h
  · cases h; intro ht; cases ht
  split at h
  · cases h; intro ht; cases ht
  by_cases hc : f.countP special = 0
  · rw [if_neg (by omega)] at h
    have hfin := finish_flag (isHeader := isHeader) (h2 hc)
    split at h
    · rename_i hn
      cases hp : Pure.number .eof f with
      | error e =>
        rw [tryNumber_error hp] at h
        cases h; exact hfin
      | ok x =>
        obtain ⟨s', r⟩ := x
        obtain ⟨c, h3, _⟩ := tryNumber_ok hp
        rw [h3] at h
        cases c with
        | false => cases h; exact hfin
        | true =>
          cases h
          have := number_misread (f := f) (fun b hb => (numChar_iff b).1 (List.all_eq_true.1 ((Bool.and_eq_true _ _).mp hn).2 b hb))
          rw [hp] at this
          intro ht
          rw [this.2.1] at ht
          cases ht
    · cases h; exact hfin
  · rw [if_pos (by omega), escapedString_eq] at h
    cases h
    intro _
    refine ⟨_, rfl, fun hi => absurd (identifier_fields hi) hc, fun ha => ?_, rfl⟩
    cases ha

theorem setFieldNames_flag : ∀ {fs : List Bytes} {names out : List Scalar}, setFieldNames names fs = some out →
    (∀ s ∈ names, CsvFlag s) → ∀ s ∈ out, CsvFlag s := by
  intro fs
  induction fs with
  | nil => intro names out h hn; cases h; exact hn
  | cons f fs ih =>
    intro names out h hn
    rw [setFieldNames] at h
    obtain ⟨k, hk, h⟩ := Option.bind_eq_some_iff.1 h
    refine ih h fun s hs => ?_
    rcases List.mem_append.1 hs with hs | hs
    · exact hn s hs
    · rw [List.mem_singleton.1 hs]; exact field_flag hk

theorem addNames_flag : ∀ {n : Nat} {names out : List Scalar}, addNames names n = some out →
    (∀ s ∈ names, CsvFlag s) → ∀ s ∈ out, CsvFlag s := by
  intro n
  induction n with
  | zero => intro names out h hn; cases h; exact hn
  | succ n ih =>
    intro names out h hn
    rw [addNames] at h
    obtain ⟨k, hk, h⟩ := Option.bind_eq_some_iff.1 h
    refine ih h fun s hs => ?_
    rcases List.mem_append.1 hs with hs | hs
    · exact hn s hs
    · rw [List.mem_singleton.1 hs]; exact field_flag hk

theorem members_flag : ∀ {fs : List Bytes} {names : List Scalar} {i : Nat} {x : List Token × List Scalar}, members names i fs = some x →
    (∀ s ∈ names, CsvFlag s) → (∀ s, .scalar s ∈ x.1 → CsvFlag s) ∧ ∀ s ∈ x.2, CsvFlag s := by
  intro fs
  induction fs with
  | nil => intro names i x h hn; cases h; exact ⟨(fun s hs => by cases hs), hn⟩
  | cons f fs ih =>
    intro names i x h hn
    rw [members] at h
    obtain ⟨⟨k, names'⟩, hk, h⟩ := Option.bind_eq_some_iff.1 h
    obtain ⟨v, hv, h⟩ := Option.bind_eq_some_iff.1 h
    obtain ⟨⟨ts, names''⟩, hm, h⟩ := Option.map_eq_some_iff.1 h
    obtain ⟨ns, hns, hk⟩ := Option.bind_eq_some_iff.1 hk
    obtain ⟨k', hk', he⟩ := Option.map_eq_some_iff.1 hk
    cases he
    have hn' := addNames_flag hns hn
    obtain ⟨g1, g2⟩ := ih hm hn'
    subst h
    refine ⟨fun s hs => ?_, g2⟩
    rcases List.mem_cons.1 hs with hs | hs
    · cases hs; exact hn' _ (List.mem_of_getElem? hk')
    · rcases List.mem_cons.1 hs with hs | hs
      · cases hs; exact field_flag hv
      · exact g1 s hs

theorem items_flag : ∀ {fs : List Bytes} {ts : List Token}, items fs = some ts → ∀ s, .scalar s ∈ ts → CsvFlag s := by
  intro fs
  induction fs with
  | nil => intro ts h s hs; cases h; cases hs
  | cons f fs ih =>
    intro ts h s hs
    rw [items] at h
    obtain ⟨v, hv, h⟩ := Option.bind_eq_some_iff.1 h
    obtain ⟨us, hm, h⟩ := Option.map_eq_some_iff.1 h
    subst h
    rcases List.mem_cons.1 hs with hs | hs
    · cases hs; exact field_flag hv
    · exact ih hm s hs

theorem record_flag {cfg : Cfg} {names : List Scalar} {r : List Bytes} {x : List Token × List Scalar} (h : produceRecord cfg names r = some x)
    (hn : ∀ s ∈ names, CsvFlag s) : (∀ s, .scalar s ∈ x.1 → CsvFlag s) ∧ ∀ s ∈ x.2, CsvFlag s := by
  unfold produceRecord at h
  split at h
  · obtain ⟨⟨ts, ns⟩, hm, h⟩ := Option.map_eq_some_iff.1 h
    subst h
    obtain ⟨g1, g2⟩ := members_flag hm hn
    refine ⟨fun s hs => ?_, g2⟩
    simp at hs
    exact g1 s hs
  · obtain ⟨ts, hm, h⟩ := Option.map_eq_some_iff.1 h
    subst h
    refine ⟨fun s hs => ?_, hn⟩
    simp at hs
    exact items_flag hm s hs

theorem loop_flag {cfg : Cfg} {fin : RErr} : ∀ {rs : List (List Bytes)} {first : Bool} {names : List Scalar}
    {x : List Token × Option RErr × List Scalar}, loop cfg fin first names rs = some x → (∀ s ∈ names, CsvFlag s) →
    ∀ s, .scalar s ∈ x.1 → CsvFlag s := by
  intro rs
  induction rs with
  | nil => intro first names x h hn s hs; cases h; cases hs
  | cons r rs ih =>
    intro first names x h hn s hs
    rw [loop] at h
    split at h
    · obtain ⟨⟨ts, ns⟩, hr, h⟩ := Option.bind_eq_some_iff.1 h
      obtain ⟨⟨us, e, ns'⟩, hl, h⟩ := Option.map_eq_some_iff.1 h
      subst h
      obtain ⟨g1, g2⟩ := record_flag hr hn
      rcases List.mem_append.1 hs with hs | hs
      · exact g1 s hs
      · exact ih hl g2 s hs
    · obtain ⟨ns, hr, h⟩ := Option.bind_eq_some_iff.1 h
      exact ih h (setFieldNames_flag hr hn) s hs

end Csv

/-- Every string sent by the CSV decoder, whether it comes from a field, a header, a name set beforehand or a
made-up name, consists of quotes and a content; it is flagged as alphanumeric if the content is an
identifier, and only then or if the content is empty.

Missing: the empty header, which is flagged (`C51_violated_csv`). -/
theorem C51_csv_partial (cfg : Csv.Cfg) (preset : List Bytes) (inp : Csv.Input) (ts : List Token) (e : Option RErr)
    (h : Csv.produce cfg preset inp = some (ts, e)) (s : Scalar) (hm : .scalar s ∈ ts) (ht : s.type = .str) :
    ∃ c, s.bytes = 0x22 :: (c ++ [0x22]) ∧ (Identifier c → s.alnum = true) ∧
      (s.alnum = true → c ≠ [] → Identifier c) ∧ s.unesc = false := by
  unfold Csv.produce at h
  obtain ⟨ns, hn, h⟩ := Option.bind_eq_some_iff.1 h
  obtain ⟨⟨us, e', ns'⟩, hl, h⟩ := Option.map_eq_some_iff.1 h
  cases h
  exact Csv.loop_flag hl (Csv.setFieldNames_flag hn (fun s hs => by cases hs)) s hm ht

/-- The property fails for an empty header: its key is flagged as alphanumeric. -/
theorem C51_violated_csv : ∃ s, s.type = .str ∧ s.alnum = true ∧ s.bytes = b%"\"\"" ∧ ¬ Identifier [] ∧
    Csv.produce ⟨true, true⟩ [] ⟨[[[]], [b%"x"]], .eof⟩ =
      some ([.startObj, .scalar s, .scalar { bytes := b%"\"x\"", type := .str, alnum := true }, .endObj], none) :=
  ⟨{ bytes := b%"\"\"", type := .str, alnum := true, key := true }, rfl, rfl, rfl, fun h => (identifier_plain h).2 rfl, by decide +kernel⟩

end Verif
