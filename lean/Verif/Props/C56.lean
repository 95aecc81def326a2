import Verif.ProgramLemmas
import Verif.Props.C54

/-!
# C56: The arguments of the program
-/

namespace Verif.Cmd
open JPath Rfc9535 Utf8

/-- Specification: a decimal numeral. -/
inductive Numeral : Bytes → Nat → Prop
  | one {d : Byte} : 0x30 ≤ d → d ≤ 0x39 → Numeral [d] (d.toNat - 0x30)
  | more {s : Bytes} {n : Nat} {d : Byte} : Numeral s n → 0x30 ≤ d → d ≤ 0x39 → Numeral (s ++ [d]) (10 * n + (d.toNat - 0x30))

/-- Specification: a decimal numeral with an optional sign, for a number with 64 bits. -/
inductive SignedNumeral : Bytes → Int → Prop
  | plain {s n} : Numeral s n → n < 2 ^ 63 → SignedNumeral s n
  | plus {s n} : Numeral s n → n < 2 ^ 63 → SignedNumeral (0x2B :: s) n
  | minus {s n} : Numeral s n → n ≤ 2 ^ 63 → SignedNumeral (0x2D :: s) (-n)

/-- Specification: the arguments, as in the help text `/repo/cmd/jp/main.go:406-414`.  With `lax`, queries have the syntax that the parser accepts (see C54),
and blanks may follow. -/
inductive Arg (lax : Bool) : Bytes → Transform → Prop
  | split : Arg lax b%"split" .split
  | join : Arg lax b%"join" .join
  | trace : Arg lax b%"trace" .trace
  | depth {s n} : SignedNumeral s n → Arg lax (b%"depth=" ++ s) (.depth n)
  | query {s w q} : QueryText lax s q → (lax = false → w = []) → Blanks lax w → WellTyped q → Arg lax (s ++ w) (.query q)

private theorem numeral_ne {s : Bytes} {n : Nat} (h : Numeral s n) : s ≠ [] := by
  cases h <;> simp

private theorem numeral_digits {s : Bytes} {n : Nat} (h : Numeral s n) : ∀ d ∈ s, (0x30 : Byte) ≤ d ∧ d ≤ 0x39 := by
  induction h with
  | one h1 h2 =>
    intro x hx
    simp only [List.mem_singleton] at hx
    exact hx ▸ ⟨h1, h2⟩
  | more _ h1 h2 ih =>
    intro x hx
    rcases List.mem_append.1 hx with hx | hx
    · exact ih x hx
    · simp only [List.mem_singleton] at hx
      exact hx ▸ ⟨h1, h2⟩

/-- The value that Go computes. -/
private def val (ds : Bytes) : Nat := ds.foldl (fun n d => 10 * n + (d.toNat - 0x30)) 0

private theorem numeral_val {s : Bytes} {n : Nat} (h : Numeral s n) : val s = n := by
  induction h with
  | one _ _ => simp [val]
  | more _ _ _ ih =>
    unfold val at ih ⊢
    rw [List.foldl_append, ih]
    rfl

private theorem numeral_of : ∀ s : Bytes, s ≠ [] → (∀ d ∈ s, (0x30 : Byte) ≤ d ∧ d ≤ 0x39) → Numeral s (val s) := by
  intro s
  induction hn : s.length generalizing s with
  | zero => intro h _; exact absurd (List.length_eq_zero_iff.1 hn) h
  | succ n ih =>
    intro h hd
    rw [← List.dropLast_concat_getLast h] at hd ⊢
    have hl := hd (s.getLast h) (by simp)
    by_cases h0 : s.dropLast = []
    · rw [h0]
      have := Numeral.one hl.1 hl.2
      simpa [val] using this
    · have := Numeral.more (ih s.dropLast (by simp [hn]) h0 fun d hd' => hd d (List.mem_append_left _ hd')) hl.1 hl.2
      unfold val at this ⊢
      rw [List.foldl_append]
      exact this

private theorem any_iff {ds : Bytes} : (ds.any fun b => b < c%'0' || c%'9' < b) = false ↔ ∀ d ∈ ds, (0x30 : Byte) ≤ d ∧ d ≤ 0x39 := by
  simp [List.any_eq_false]

/-- Go's `ParseInt` accepts exactly the numerals. -/
theorem parseInt64_iff {s : Bytes} {n : Int} : parseInt64 s = some n ↔ SignedNumeral s n := by
  constructor
  · intro h
    cases s with
    | nil => cases h
    | cons b r =>
      by_cases h1 : b = c%'-'
      · subst h1
        simp only [parseInt64, if_true] at h
        split at h
        · cases h
        · rename_i hc
          simp only [Bool.or_eq_true, not_or, Bool.not_eq_true, List.isEmpty_eq_false_iff] at hc
          split at h
          · cases h
            exact .minus (numeral_of r hc.1 (any_iff.1 hc.2)) (by assumption)
          · cases h
      · by_cases h2 : b = c%'+'
        · subst h2
          simp only [parseInt64, h1, if_false, if_true] at h
          split at h
          · cases h
          · rename_i hc
            simp only [Bool.or_eq_true, not_or, Bool.not_eq_true, List.isEmpty_eq_false_iff] at hc
            simp only [Bool.false_eq_true, if_false] at h
            split at h
            · cases h
              exact .plus (numeral_of r hc.1 (any_iff.1 hc.2)) (by assumption)
            · cases h
        · simp only [parseInt64, h1, h2, if_false] at h
          split at h
          · cases h
          · rename_i hc
            simp only [Bool.or_eq_true, not_or, Bool.not_eq_true, List.isEmpty_eq_false_iff] at hc
            simp only [Bool.false_eq_true, if_false] at h
            split at h
            · cases h
              exact .plain (numeral_of _ hc.1 (any_iff.1 hc.2)) (by assumption)
            · cases h
  · intro h
    have hc : ∀ {s : Bytes} {n : Nat}, Numeral s n → (s.isEmpty || s.any fun b => b < c%'0' || c%'9' < b) = false := fun h => by
      rw [Bool.or_eq_false_iff]
      exact ⟨List.isEmpty_eq_false_iff.2 (numeral_ne h), any_iff.2 (numeral_digits h)⟩
    cases h with
    | plain h hn =>
      cases s with
      | nil => exact absurd rfl (numeral_ne h)
      | cons b r =>
        have hb := numeral_digits h b List.mem_cons_self
        have h1 : b ≠ c%'-' := by rintro rfl; exact absurd hb.1 (by decide)
        have h2 : b ≠ c%'+' := by rintro rfl; exact absurd hb.1 (by decide)
        have hv := numeral_val h
        unfold val at hv
        simp only [parseInt64, h1, h2, if_false, hc h, Bool.false_eq_true, hv, hn, if_true]
    | plus h hn =>
      have hv := numeral_val h
      unfold val at hv
      simp only [parseInt64, show (0x2B : Byte) ≠ c%'-' from by decide, if_false, if_true, hc h, Bool.false_eq_true, hv, hn]
    | minus h hn =>
      have hv := numeral_val h
      unfold val at hv
      simp only [parseInt64, if_false, if_true, hc h, Bool.false_eq_true, hv, hn]

private theorem depth_arg (s : Bytes) : parseTransformer (b%"depth=" ++ s) = (parseInt64 s).map .depth := by
  unfold parseTransformer
  rw [if_neg (by simp), if_neg (by simp), if_neg (by simp), if_neg (by simp), if_neg (by simp), if_pos (by simp)]
  simp

private theorem query_arg (s : Bytes) : parseTransformer (b%"$" ++ s) =
    match parseQuery (b%"$" ++ s) with | none => none | some q => if (compileQuery q).isSome then some (.query q) else none := by
  unfold parseTransformer
  rw [if_neg (by simp), if_neg (by simp), if_neg (by simp), if_neg (by simp), if_neg (by simp), if_neg (by simp), if_pos (by simp)]
  rfl

/-- The arguments of the specification are accepted, with their meaning.  Queries are those of RFC 9535. -/
theorem C56_accepts {lax : Bool} {s : Bytes} {t : Transform} (h : Arg lax s t) : parseTransformer s = some t := by
  cases h with
  | split => rfl
  | join => rfl
  | trace => rfl
  | depth h => rw [depth_arg, parseInt64_iff.2 h]; rfl
  | query h _ hw ht =>
    obtain ⟨-, t, rfl, -⟩ := id h
    have hp := parseQuery_ok (w := []) h blanks_nil hw
    rw [List.nil_append] at hp
    rw [List.append_assoc, query_arg, ← List.append_assoc, hp]
    simp [(compileQuery_typed _).2 ht]

/-- An argument is accepted exactly if it is one of the specification, and then it has its meaning.  Missing: arguments that are not UTF-8, and queries
that have segments without selectors in the syntax tree (see `C54_violated_descendant`); and the syntax of queries is the lax one. -/
theorem C56_exact_partial {s : Bytes} {t : Transform} (hu : IsUtf8 s) (hf : ∀ q, t = .query q → SegsFilled q.segs) :
    parseTransformer s = some t ↔ Arg true s t := by
  refine ⟨fun h => ?_, C56_accepts⟩
  unfold parseTransformer at h
  split at h
  · rename_i e; cases h; exact e ▸ .split
  split at h
  · rename_i e; cases h; exact e ▸ .join
  split at h
  · rename_i e; cases h; exact e ▸ .trace
  split at h
  · cases h
  split at h
  · cases h
  split at h
  · rename_i e
    obtain ⟨r, rfl⟩ := e
    simp only [Option.map_eq_some_iff] at h
    obtain ⟨n, hn, rfl⟩ := h
    exact .depth (parseInt64_iff.1 (by simpa using hn))
  split at h
  · rename_i e
    obtain ⟨r, rfl⟩ := e
    split at h
    · cases h
    · rename_i q hq
      split at h
      · rename_i hc
        cases h
        obtain ⟨⟨w, t, w', e, hw, ht, hw'⟩, hty⟩ := (C54_exact_blanks_partial hu ⟨[], r, blanks_nil, rfl⟩ (hf q rfl)).1 ⟨hq, hc⟩
        obtain ⟨-, t', rfl, -⟩ := id ht
        obtain ⟨rfl, -⟩ : w = [] ∧ True := by
          cases w with
          | nil => exact ⟨rfl, trivial⟩
          | cons b w =>
            have hb := hw b List.mem_cons_self
            have : b = c%'$' := (List.cons.inj e).1.symm
            subst this
            exact absurd hb (by decide)
        rw [e]
        exact .query (s := b%"$" ++ t') ht (by simp) hw' hty
      · cases h
  · cases h

/-- The specification gives an argument only one meaning. -/
theorem C56_unambiguous {lax : Bool} {s : Bytes} {t t' : Transform} (h : Arg lax s t) (h' : Arg lax s t') : t = t' := by
  have := (C56_accepts h).symm.trans (C56_accepts h')
  simpa using this

/-- All arguments are read, in their order; the program stops at the first that is not accepted. -/
theorem C56_list {l : List Bytes} {ts : List Transform} : parseArgs l = some ts ↔ l.map parseTransformer = ts.map some := by
  induction l generalizing ts with
  | nil => cases ts <;> simp [parseArgs]
  | cons a l ih =>
    cases ts with
    | nil => simp [parseArgs, Option.bind_eq_some_iff]
    | cons t ts =>
      simp only [parseArgs, List.map_cons, List.cons.injEq, ← ih]
      cases parseTransformer a <;> cases parseArgs l <;> simp

/-- C56 is false: a blank after a query is accepted. -/
theorem C56_violated : parseTransformer b%"$ " = some (.query ⟨true, []⟩) ∧ ∀ t, ¬ Arg false b%"$ " t := by
  refine ⟨rfl, fun t h => ?_⟩
  have e := C56_accepts h
  cases e
  generalize he : b%"$ " = s at h
  cases h with
  | query h hw _ _ =>
    obtain ⟨-, t, rfl, h⟩ := h
    obtain rfl := hw rfl
    cases h
    cases he

example : Arg false b%"depth=12" (.depth 12) :=
  .depth (s := b%"12") (.plain (.more (s := [0x31]) (d := 0x32) (.one (d := 0x31) (by decide) (by decide)) (by decide) (by decide)) (by decide))
example : Arg false b%"$" (.query ⟨true, []⟩) := .query (w := []) ⟨rfl, [], rfl, .nil⟩ (by simp) blanks_nil ((compileQuery_typed _).1 rfl)
example : parseTransformer b%"depth=" = none ∧ parseTransformer b%"depth=1x" = none ∧ parseTransformer b%".a" = none ∧ parseTransformer b%"" = none ∧
    parseTransformer b%"depth=9223372036854775808" = none ∧ (parseTransformer b%"depth=9223372036854775807").isSome = true := by decide +kernel
example : parseArgs [b%"split", b%"join"] = some [.split, .join] ∧ parseArgs [b%"split", b%"spilt"] = none := ⟨rfl, rfl⟩

end Verif.Cmd
