import Verif.Props.C74

/-!
# C77: Queries and the program come to an end
-/

set_option linter.unusedSimpArgs false
set_option linter.unusedVariables false

namespace Verif.JPath

/-- The run of a query, with a number of rounds that no loop (and no descent) may exceed. -/
def roundsRun (lib : Lib) (strict : Bool) (n : Nat) (r : MainR) (ts : List Token) : List Token × Except Stop (Heap × Unit) :=
  (runQuery lib strict n r n).run Heap.mach (Heap.init ts)

/-- Every query that is accepted comes to an end on all sequences of tokens (whole values or not, whatever the nesting), in both modes and with any library:
regularly or with a panic, and there is one outcome only. -/
theorem C77_queries_end (lib : Lib) (strict : Bool) {q : Query} (hq : (compileQuery q).isSome = true) (ts : List Token) :
    ∃ out e, Outcome lib strict q ts out e ∧ (e = .ok () ∨ e = .error .panic) ∧ ∀ out' e', Outcome lib strict q ts out' e' → out' = out ∧ e' = e := by
  obtain ⟨r, hr⟩ := Option.isSome_iff_exists.1 hq
  obtain ⟨out, e, h, he⟩ := Ends.outcome_exists lib strict hr ts
  exact ⟨out, e, h, he, fun _ _ h' => h'.unique h⟩

/-- For a query without queries from the root in its conditions, no loop makes more rounds than there are tokens, but for one; nor do descents go deeper. -/
theorem C77_rounds (lib : Lib) (strict : Bool) {q : Query} {r : MainR} (hq : compileQuery q = some r) (h1 : r.sing = []) (h2 : r.queries = []) (ts : List Token) :
    (∃ x, (roundsRun lib strict (ts.length + 1) r ts).2 = .ok x) ∨ (roundsRun lib strict (ts.length + 1) r ts).2 = .error .panic := by
  have key : Halts (ts.length + 1) 1 (runQuery lib strict (ts.length + 1) r (ts.length + 1)) (Heap.init ts) fun _ _ => True :=
    Ends.runQuery_halts h1 h2 (Nat.le_refl _) _ (Ends.init_in ts) (Nat.lt_succ_of_le (Ends.init_left ts))
  unfold Halts at key
  unfold roundsRun
  generalize (runQuery lib strict (ts.length + 1) r (ts.length + 1)).run Heap.mach (Heap.init ts) = x at key ⊢
  obtain ⟨o, e⟩ := x
  cases e with
  | ok x => exact .inl ⟨x, rfl⟩
  | error e => exact .inr (congrArg _ key)

end Verif.JPath

namespace Verif.Cmd
open JPath

/-- Whatever the options, the arguments and the input, and however the input arrives or fails, the program ends: it has a result or crashes, and not both. -/
theorem C77_program_ends (env : Env) (o : Options) (r : Reader) : ((∃ x, Main env o r x) ∨ Crashes env o r) ∧ ¬ ((∃ x, Main env o r x) ∧ Crashes env o r) :=
  ⟨C74_ends env o r, fun h => C74_crashes h.2 h.1⟩

/-! ## Non-vacuity -/
section NonVacuity

/-- `$..[?@.a == $[0], ?count(@..x) > 2]`, on tokens that are not values. -/
example (lib : Lib) (strict : Bool) : ∃ q, parseQuery b%"$..[?@.a == $[0], ?count(@..x) > 2]" = some q ∧
    ∃ out e, Outcome lib strict q [.startArr, .startObj, .elision, .endArr, .startArr] out e :=
  have h : ((parseQuery b%"$..[?@.a == $[0], ?count(@..x) > 2]").bind compileQuery).isSome = true := by decide +kernel
  match hq : parseQuery b%"$..[?@.a == $[0], ?count(@..x) > 2]" with
  | none => by rw [hq] at h; cases h
  | some q =>
    have ⟨out, e, h', _⟩ := C77_queries_end lib strict (q := q) (by rw [hq] at h; exact h) [.startArr, .startObj, .elision, .endArr, .startArr]
    ⟨q, rfl, out, e, h'⟩

/-- A query without queries from the root. -/
example (lib : Lib) (strict : Bool) : ∃ q r, parseQuery b%"$..[?@.a]" = some q ∧ compileQuery q = some r ∧ r.sing = [] ∧ r.queries = [] :=
  match hq : parseQuery b%"$..[?@.a]" with
  | none => absurd hq (by decide +kernel)
  | some q =>
    match hr : compileQuery q with
    | none => by
      have : ((parseQuery b%"$..[?@.a]").bind compileQuery).isSome = true := by decide +kernel
      rw [hq] at this
      simp only [Option.bind_some, hr] at this
      cases this
    | some r => by
      have : ((parseQuery b%"$..[?@.a]").bind compileQuery).all (fun r => r.sing.isEmpty && r.queries.isEmpty) = true := by decide +kernel
      rw [hq] at this
      simp only [Option.bind_some, hr, Option.all_some, Bool.and_eq_true, List.isEmpty_iff] at this
      exact ⟨q, r, rfl, hr, this⟩

/-- A program with a query, on input that ends in the middle of a value. -/
example (env : Env) : (∃ x, Main env { args := [b%"$..[?@.a == $[0]]", b%"split"] } (atOnce b%"[1,{\"a\":[") x) ∨
    Crashes env { args := [b%"$..[?@.a == $[0]]", b%"split"] } (atOnce b%"[1,{\"a\":[") := (C77_program_ends env _ _).1

end NonVacuity

end Verif.Cmd
