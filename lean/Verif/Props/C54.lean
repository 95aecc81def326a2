import Verif.PathTextEnd
import Verif.PathTyping

/-!
# C54: The syntax of queries
-/

namespace Verif.JPath
open Rfc9535 Utf8

/-- Every query of the grammar of RFC 9535 is read as the syntax tree that it denotes. -/
theorem C54_accepts {s : Bytes} {q : Query} (h : QueryText false s q) : parseQuery s = some q ∧ parseQueryStrict s = some q :=
  ⟨(strict_iff.1 (parseStrict_ok h)).2.2, parseStrict_ok h⟩

/-- So the grammar is not ambiguous. -/
theorem C54_unambiguous {lax : Bool} {s : Bytes} {q q' : Query} (h : QueryText lax s q) (h' : QueryText lax s q') : q = q' := by
  have := (parseStrict_ok h).symm.trans (parseStrict_ok h')
  simpa using this

/-- A text is accepted, by the strict parser and the compiler, exactly if it is derived from the grammar and its function expressions are well typed; and then the
syntax tree is what it denotes.  Missing: the grammar is the lax one (form feeds are blanks, and there may be blanks in the brackets of singular
queries), the text begins with `$`, and no segment of the syntax tree is without selectors; the theorems below show that this is necessary. -/
theorem C54_exact_partial {s : Bytes} {q : Query} (hu : IsUtf8 s) (h0 : ∃ t, s = b%"$" ++ t) (hf : SegsFilled q.segs) :
    (parseQueryStrict s = some q ∧ (compileQuery q).isSome = true) ↔ (QueryText true s q ∧ WellTyped q) := by
  rw [compileQuery_typed]
  exact ⟨fun ⟨h, ht⟩ => ⟨parseStrict_spelled hu h (.inr h0) ht hf, ht⟩, fun ⟨h, ht⟩ => ⟨parseStrict_ok h, ht⟩⟩

/-- The same for the parser that is not strict: it also accepts blanks before and after the query. -/
theorem C54_exact_blanks_partial {s : Bytes} {q : Query} (hu : IsUtf8 s) (h0 : ∃ w t, Blanks true w ∧ s = w ++ (b%"$" ++ t)) (hf : SegsFilled q.segs) :
    (parseQuery s = some q ∧ (compileQuery q).isSome = true) ↔
      ((∃ w t w', s = w ++ (t ++ w') ∧ Blanks true w ∧ QueryText true t q ∧ Blanks true w') ∧ WellTyped q) := by
  rw [compileQuery_typed]
  constructor
  · rintro ⟨h, ht⟩
    exact ⟨parseQuery_spelled hu h (.inr h0) ht hf, ht⟩
  · rintro ⟨⟨w, t, w', rfl, hw, h, hw'⟩, ht⟩
    exact ⟨parseQuery_ok h hw hw', ht⟩

/-- A query with at least one segment was not made up: it begins with `$`. -/
theorem C54_sound_partial {s : Bytes} {q : Query} (hu : IsUtf8 s) (h : parseQuery s = some q) (hc : (compileQuery q).isSome = true) (h0 : q.segs ≠ [])
    (hf : SegsFilled q.segs) : ∃ w t w', s = w ++ (t ++ w') ∧ Blanks true w ∧ QueryText true t q ∧ Blanks true w' :=
  parseQuery_spelled hu h (.inl h0) ((compileQuery_typed q).1 hc) hf

/-- The text `@` is not a query, but it is accepted, as the query `$`: the error of the parser is lost. -/
theorem C54_violated_error : parseQueryStrict b%"@" = some ⟨true, []⟩ ∧ (compileQuery ⟨true, []⟩).isSome = true ∧ ∀ lax q, ¬ QueryText lax b%"@" q := by
  refine ⟨rfl, rfl, ?_⟩
  rintro lax q ⟨-, t, e, -⟩
  cases e

/-- Blanks before a query are accepted. -/
theorem C54_violated_blanks : parseQuery b%" $" = some ⟨true, []⟩ ∧ ∀ lax q, ¬ QueryText lax b%" $" q := by
  refine ⟨rfl, ?_⟩
  rintro lax q ⟨-, t, e, -⟩
  cases e

/-- `$`, a form feed and `.a`. -/
def formFeed : Bytes := b%"$" ++ ([0x0C] ++ b%".a")

theorem name_a : Name b%"a" := ⟨0x61, [], by decide, by unfold NameFirst; omega, by simp⟩

/-- A form feed is accepted as a blank. -/
theorem C54_violated_formfeed : parseQueryStrict formFeed = some ⟨true, [.mk false [.name b%"a"]]⟩ ∧
    (compileQuery ⟨true, [.mk false [.name b%"a"]]⟩).isSome = true ∧ ∀ q, ¬ QueryText false formFeed q := by
  refine ⟨parseStrict_ok (lax := true) ⟨rfl, _, rfl, ?_⟩, rfl, ?_⟩
  · exact .cons (w := [0x0C]) (t := b%".a") (t' := []) (by simp [Blanks]) (.dotName name_a) .nil
  · rintro q ⟨-, t, e, h⟩
    replace e : [0x0C] ++ b%".a" = t := List.append_cancel_left e
    generalize q.segs = l at h
    cases h with
    | nil => cases e
    | cons hw hs _ =>
      obtain ⟨b, r, rfl, hb⟩ := segment_head hs
      obtain ⟨-, rfl, -⟩ := blanks_byte hw (by decide) e.symm
      rcases hb with h | h <;> exact absurd h (by decide)

/-- `$[?@[ 'a' ]==1]`. -/
def wide : Bytes := b%"$[?@[ 'a' ]==1]"

/-- What it is read as. -/
def wideQuery : Query := ⟨true, [.mk false [.filter (.cmp (.sing ⟨false, [.name b%"a"]⟩) .eq (.lit (.num 1)))]]⟩

theorem str_a : StrText b%"'a'" b%"a" :=
  .inr ⟨b%"a", rfl, Single.char (r := 0x61) (c := []) (s := []) (by omega) ⟨by omega, by omega⟩ (by omega) (by omega) .nil⟩

theorem lit_1 : LitText b%"1" (.num 1) := by
  refine .num ⟨[], b%"1", [], [], .inl rfl, .inr ⟨0x31, [], by decide, by decide, by simp, rfl⟩, .inl rfl, .inl rfl, rfl⟩ ?_
  decide +kernel

theorem wide_text : QueryText true wide wideQuery := by
  refine ⟨rfl, b%"[?@[ 'a' ]==1]", rfl, ?_⟩
  have hs : SingText true b%"[ 'a' ]" [.name b%"a"] :=
    .name (w := []) (v := b%" ") (n := b%"'a'") (v' := b%" ") (t := []) blanks_nil (by simp) (by simp [Blanks]) str_a (by simp [Blanks]) .nil
  have hc : Text true .basic b%"@[ 'a' ]==1" (.cmp (.sing ⟨false, [.name b%"a"]⟩) .eq (.lit (.num 1))) :=
    .cmp (w := []) (o := b%"==") (w' := []) (.relSing hs) blanks_nil .eq blanks_nil (.lit lit_1)
  have hl : Text true .selector b%"?@[ 'a' ]==1" (.filter (.cmp (.sing ⟨false, [.name b%"a"]⟩) .eq (.lit (.num 1)))) :=
    .filter (w := []) blanks_nil (.or1 (.oneOr (.and1 (.oneAnd hc))))
  exact .cons (w := []) (t := b%"[?@[ 'a' ]==1]") (t' := []) blanks_nil (.child (.brackets (w := []) (w' := []) blanks_nil (.oneSelector hl) blanks_nil)) .nil

/-- Blanks in the brackets of a singular query are accepted. -/
theorem C54_violated_singular : parseQueryStrict wide = some wideQuery ∧ (compileQuery wideQuery).isSome = true ∧ ∀ q, ¬ QueryText false wide q := by
  refine ⟨parseStrict_ok wide_text, rfl, ?_⟩
  intro q h
  have e : q = wideQuery := by
    have := (parseStrict_ok h).symm.trans (parseStrict_ok wide_text)
    simpa using this
  subst e
  obtain ⟨-, t, e, h⟩ := h
  replace e : b%"[?@[ 'a' ]==1]" = t := (List.cons.inj e).2
  simp only [wideQuery] at h
  cases h with | cons hw hs _ => ?_
  cases hs with | child hs => ?_
  cases hs with | brackets hw1 hs _ => ?_
  replace e := e.symm
  simp only [List.append_assoc, List.cons_append, List.nil_append, List.append_eq] at e
  obtain ⟨-, -, e⟩ := blanks_byte hw (by decide) e
  cases hs with
  | moreSelectors _ _ _ h => cases h
  | oneSelector hs => ?_
  cases hs with | filter hw2 hs => ?_
  simp only [List.append_assoc, List.cons_append, List.nil_append, List.append_eq] at e
  obtain ⟨-, -, e⟩ := blanks_byte hw1 (by decide) e
  cases hs with | or1 hs => ?_
  cases hs with
  | moreOr _ _ _ h => cases h
  | oneOr hs => ?_
  cases hs with | and1 hs => ?_
  cases hs with
  | moreAnd _ _ _ h => cases h
  | oneAnd hs => ?_
  cases hs with
  | paren _ _ _ =>
    simp only [List.append_assoc, List.cons_append, List.nil_append, List.append_eq] at e
    obtain ⟨-, e, -⟩ := blanks_byte hw2 (by decide) e
    exact absurd e (by decide)
  | test h => cases h
  | cmp hs _ _ _ _ =>
    cases hs with | relSing hs => ?_
    simp only [List.append_assoc, List.cons_append, List.nil_append, List.append_eq] at e
    obtain ⟨-, -, e⟩ := blanks_byte hw2 (by decide) e
    cases hs with
    | dot hw3 =>
      simp only [List.append_assoc, List.cons_append, List.nil_append, List.append_eq] at e
      obtain ⟨-, e, -⟩ := blanks_byte hw3 (by decide) e
      exact absurd e (by decide)
    | name hw3 hv _ hn _ _ =>
      obtain ⟨rfl, -⟩ := hv rfl
      simp only [List.append_assoc, List.cons_append, List.nil_append, List.append_eq] at e
      obtain ⟨-, -, e⟩ := blanks_byte hw3 (by decide) e
      rcases hn with ⟨c, rfl, -⟩ | ⟨c, rfl, -⟩ <;> cases e

/-- `$..[9007199254740992]`. -/
def far : Bytes := b%"$..[9007199254740992]"

/-- An error in brackets after two dots is lost: an integer that is out of range is accepted there, and the segment is replaced by one without
selectors. -/
theorem C54_violated_descendant : parseQueryStrict far = some ⟨true, [.mk false []]⟩ ∧ (compileQuery ⟨true, [.mk false []]⟩).isSome = true ∧
    ∀ lax q, ¬ QueryText lax far q := by
  have hp : parseQueryStrict far = some ⟨true, [.mk false []]⟩ := by
    refine strict_iff.2 ⟨fun b t e => by cases e; decide, fun b t e => ?_, ?_⟩
    · have : far = b%"$..[9007199254740992" ++ [c%']'] := rfl
      rw [this] at e
      cases List.append_inj_right' e rfl
      decide
    · have hl : lex far = some (opTok b%"$" :: segsToks [.descBracketed (.index b%"9007199254740992") []]) := by decide +kernel
      have hi : parseInt b%"9007199254740992" = none := by decide +kernel
      unfold parseQuery
      rw [hl]
      simp only
      rw [pQuery_runs [.descBracketed (.index b%"9007199254740992") []] ⟨⟨trivial, trivial⟩, trivial⟩]
      simp [compileTree, compileSegments, PSegment.compile, PSelector.compile, hi]
  refine ⟨hp, rfl, ?_⟩
  intro lax q h
  have e : q = ⟨true, [.mk false []]⟩ := by
    have := (parseStrict_ok h).symm.trans hp
    simpa using this
  subst e
  obtain ⟨-, t, -, h⟩ := h
  cases h with | cons _ h _ => ?_
  cases h with | child h => ?_
  cases h with | brackets _ h _ => cases h

/-! Samples. -/

/-- `$.a` -/
theorem dotA_text : QueryText false b%"$.a" ⟨true, [.mk false [.name b%"a"]]⟩ :=
  ⟨rfl, b%".a", rfl, .cons (w := []) (t := b%".a") (t' := []) blanks_nil (.dotName name_a) .nil⟩
example : IsUtf8 b%"$.a" := ⟨[0x24, 0x2E, 0x61], by decide, by simp [UScalar]⟩
example : parseQueryStrict b%"$.a" = some ⟨true, [.mk false [.name b%"a"]]⟩ := (C54_accepts dotA_text).2
example : SegsFilled [.mk false [.name b%"a"]] := by simp [SegsFilled, SegFilled, SelsFilled, SelFilled]

/-- `$..[ 'a' ,*, 1 ]` -/
example : QueryText false b%"$..[ 'a' ,*, 1 ]" ⟨true, [.mk true [.name b%"a", .wild, .index 1]]⟩ := by
  have hi : IntText b%"1" 1 := ⟨.pos (d := 0x31) (ds := []) (by unfold Dig; decide) (by decide) (by simp), by unfold IJson; omega⟩
  have h3 : Text false .selectors b%"1" [.index 1] := .oneSelector (.index hi)
  have h2 : Text false .selectors b%"*, 1" [.wild, .index 1] := .moreSelectors (w := []) (w' := b%" ") .wild blanks_nil (by simp [Blanks]) h3
  have h1 : Text false .selectors b%"'a' ,*, 1" [.name b%"a", .wild, .index 1] :=
    .moreSelectors (t := b%"'a'") (w := b%" ") (w' := []) (.name str_a) (by simp [Blanks]) blanks_nil h2
  refine ⟨rfl, b%"..[ 'a' ,*, 1 ]", rfl, .cons (w := []) (t := b%"..[ 'a' ,*, 1 ]") (t' := []) blanks_nil (.desc ?_) .nil⟩
  exact .brackets (w := b%" ") (w' := b%" ") (by simp [Blanks]) h1 (by simp [Blanks])

/-- `$[?count(@..*) > 1 && !@.a]` is read as it should be. -/
example : (parseQuery b%"$[?count(@..*) > 1 && !@.a]").isSome = true := by decide +kernel

/-- `$.` is rejected. -/
example : parseQuery b%"$." = none := rfl
example : parseQuery b%"$[01]" = none := rfl

end Verif.JPath
