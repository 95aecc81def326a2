import Verif.RepoTests

/-!
# Further tests of the repository

Tests of single packages of `/repo`, run on the model and checked by the kernel.
-/

namespace Verif.RepoTests
open JPath Cmd

/-! ## Syntax trees of queries -/

private def nm (n : Bytes) : Segment := .mk false [.name n]
private def dnm (n : Bytes) : Segment := .mk true [.name n]

set_option maxRecDepth 100000 in
/-- The syntax trees of `/repo/internal/jsonpath/parser/grammar_test.go`. -/
theorem grammar :
    parseQuery b%"$.store.book[*].author" = some ⟨true, [nm b%"store", nm b%"book", .mk false [.wild], nm b%"author"]⟩ ∧
    parseQuery b%"$..author" = some ⟨true, [dnm b%"author"]⟩ ∧
    parseQuery b%"$.store.*" = some ⟨true, [nm b%"store", .mk false [.wild]]⟩ ∧
    parseQuery b%"$.store..price" = some ⟨true, [nm b%"store", dnm b%"price"]⟩ ∧
    parseQuery b%"$..book[2]" = some ⟨true, [dnm b%"book", .mk false [.index 2]]⟩ ∧
    parseQuery b%"$..book[0,1]" = some ⟨true, [dnm b%"book", .mk false [.index 0, .index 1]]⟩ ∧
    parseQuery b%"$..book[:2]" = some ⟨true, [dnm b%"book", .mk false [.slice none (some 2) 1]]⟩ ∧
    parseQuery b%"$..book[?@.isbn]" = some ⟨true, [dnm b%"book", .mk false [.filter (.query false [nm b%"isbn"])]]⟩ ∧
    (match parseQuery b%"$..book[?@.price < 10]" with
      | some ⟨true, [.mk true [.name n], .mk false [.filter (.cmp (.sing q) op (.lit l))]]⟩ => some (n, q, op, l)
      | _ => none) = some (b%"book", ⟨false, [.name b%"price"]⟩, .lt, .num 10) ∧
    parseQuery b%"$['\\'']" = some ⟨true, [nm b%"'"]⟩ := ⟨rfl, rfl, rfl, rfl, rfl, rfl, rfl, rfl, by decide +kernel, rfl⟩

/-! ## Scalars -/

open GoScalar in
/-- Of `/repo/token/tokens_test.go:148-200`: `ToScalar` (with 3 instead of 3.14). -/
theorem to_scalar :
    (∀ t ∈ ([(.null, .null, b%"null"), (.str b%"hello", .str, b%"\"hello\""), (.int 42, .num, b%"42"), (.float (.fin 3), .num, b%"3"),
        (.bool true, .bool, b%"true"), (.bool false, .bool, b%"false")] : List (GoVal × SType × Bytes)),
      (toScalar t.1).map (fun s => (s.type, s.bytes)) = some t.2) ∧ toScalar .other = none := by decide +kernel

private def nullScalar : Scalar := { bytes := b%"null", type := .null }

open GoScalar in
/-- Of `/repo/token/tokens_test.go:203-315,580-600`: `Equal`, both ways. -/
theorem scalar_equal :
    ∀ t ∈ ([(stringScalar b%"hello", stringScalar b%"hello", true), (stringScalar b%"hello", stringScalar b%"world", false),
        (int64Scalar 42, int64Scalar 42, true), (int64Scalar 42, int64Scalar 43, false), (float64Scalar (.fin 42), int64Scalar 42, true),
        (boolScalar true, boolScalar true, true), (boolScalar false, boolScalar false, true), (boolScalar true, boolScalar false, false),
        (nullScalar, nullScalar, true), (stringScalar b%"42", int64Scalar 42, false), (stringScalar b%"true", boolScalar true, false),
        (int64Scalar 1, boolScalar true, false), (nullScalar, stringScalar b%"null", false), (stringScalar [], stringScalar [], true),
        (float64Scalar (.fin 0), float64Scalar (.fin 0), true), (stringScalar b%"hello\nworld", stringScalar b%"hello\nworld", true),
        ({ bytes := b%"\"simple\"", type := .str, unesc := true }, { bytes := b%"\"simple\"", type := .str, unesc := true }, true),
        (float64Scalar (.fin 1), int64Scalar 1, true)] : List (Scalar × Scalar × Bool)),
      scalarEqual t.1 t.2.1 = some t.2.2 ∧ scalarEqual t.2.1 t.1 = some t.2.2 := by decide +kernel

open GoScalar in
/-- Of `/repo/token/tokens_test.go:318-413,603-646`: `ToGo`, `ToString` and `EqualsString`. -/
theorem scalar_strings :
    (∀ s ∈ [b%"hello", [], b%"hello world", b%"世界", b%"hello\t\n\r\x0cworld", b%"hello 👋 world", b%"你好世界", b%"path\\to\\file with \"quotes\"",
        b%"path/to/file", b%"\"\"\"\"\"\"\""], toGo (stringScalar s) = some (.str s)) ∧
    toGo (int64Scalar 42) = some (.float (.fin 42)) ∧ toGo (boolScalar true) = some (.bool true) ∧ toGo (boolScalar false) = some (.bool false) ∧ toGo nullScalar = some .null ∧
    toGo { bytes := b%"\"simple\"", type := .str, unesc := true } = some (.str b%"simple") ∧
    (∀ t ∈ ([(stringScalar b%"hello", b%"hello", true), (stringScalar b%"hello", b%"world", false), (stringScalar [], [], true),
        (int64Scalar 42, b%"42", false), (boolScalar true, b%"true", false), (nullScalar, b%"null", false)] : List (Scalar × Bytes × Bool)),
      GoJson.equalsString t.1 t.2.1 = some t.2.2) := by decide +kernel

/-! ## Equality of values -/

/-- Of `/repo/iterator/equality_test.go`: two values, and whether they are equal.  The values are compared as `==` in a filter does. -/
def equalities : List (Bytes × Bytes × Bool) := [
  (b%"42", b%"[42]", false), (b%"[42]", b%"42", false), (b%"42", b%"{\"value\": 42}", false), (b%"{\"value\": 42}", b%"42", false),
  (b%"[42]", b%"{\"value\": 42}", false), (b%"{\"value\": 42}", b%"[42]", false), (b%"[]", b%"[]", true), (b%"{}", b%"{}", true), (b%"[]", b%"{}", false),
  (b%"{}", b%"[]", false),
  (b%"[{\"level1\": {\"level2\": [{\"level3\": [1,2,3]}]}}]", b%"[{\"level1\": {\"level2\": [{\"level3\": [1,2,3]}]}}]", true),
  (b%"[{\"level1\": {\"level2\": [{\"level3\": [1,2,4]}]}}]", b%"[{\"level1\": {\"level2\": [{\"level3\": [1,2,3]}]}}]", false),
  (b%"[42]", b%"[\"42\"]", false), (b%"[true]", b%"[1]", false), (b%"[null]", b%"[0]", false), (b%"[null]", b%"[\"\"]", false), (b%"[[]]", b%"[{}]", false),
  (b%"{\"\": \"value\"}", b%"{\"\": \"value\"}", true), (b%"{\"日本語\": \"value\"}", b%"{\"日本語\": \"value\"}", true),
  (b%"{\"key with spaces\": \"value\"}", b%"{\"key with spaces\": \"value\"}", true), (b%"{\"key.with.dots\": \"value\"}", b%"{\"key.with.dots\": \"value\"}", true),
  (b%"{\"key\": \"value\"}", b%"{\"Key\": \"value\"}", false),
  (b%"{\"users\": [{\"name\": \"Alice\", \"age\": 30, \"active\": true}, {\"name\": \"Bob\", \"age\": 25, \"active\": false}], \"tags\": [\"admin\", \"user\"]}",
   b%"{\"tags\": [\"admin\", \"user\"], \"users\": [{\"name\": \"Alice\", \"active\": true, \"age\": 30}, {\"age\": 25, \"name\": \"Bob\", \"active\": false}]}", true),
  (b%"{\"users\": [{\"name\": \"Alice\", \"age\": 31, \"active\": true}, {\"name\": \"Bob\", \"age\": 25, \"active\": false}], \"tags\": [\"admin\", \"user\"]}",
   b%"{\"tags\": [\"admin\", \"user\"], \"users\": [{\"name\": \"Alice\", \"active\": true, \"age\": 30}, {\"age\": 25, \"name\": \"Bob\", \"active\": false}]}", false)]

/-- The query and its input. -/
private def eqQuery : Bytes := b%"$[?@[0] == @[1]][2]"
private def eqInput (t : Bytes × Bytes × Bool) : List Token := decoded (b%"[[" ++ t.1 ++ b%"," ++ t.2.1 ++ b%", 1]]")
private def eqOutput (t : Bytes × Bytes × Bool) : List Token := if t.2.2 then [.scalar { bytes := b%"1", type := .num }] else []

private theorem outcome_of {s : Bytes} {i o : List Token} (h : ((parseQuery s).bind fun q => execQuery testLib false 400 q i) = some o) :
    ∃ q, parseQuery s = some q ∧ Outcome testLib false q i o (.ok ()) := by
  obtain ⟨q, h1, h2⟩ := Option.bind_eq_some_iff.1 h
  exact ⟨q, h1, execQuery_outcome h2⟩

private theorem equalities_eval : (equalities.all fun t => decide (((parseQuery eqQuery).bind fun q => execQuery testLib false 400 q (eqInput t)) = some (eqOutput t))) = true := by
  decide +kernel

theorem equalities_ok : ∀ t ∈ equalities, ∃ q, parseQuery eqQuery = some q ∧ Outcome testLib false q (eqInput t) (eqOutput t) (.ok ()) := fun t ht =>
  outcome_of (of_decide_eq_true (List.all_eq_true.1 equalities_eval t ht))

/-! ## Cursors -/

private def tok (n : Nat) : Token := .scalar { bytes := itoa n, type := .num }
private def toks (n : Nat) : List Token := (List.range n).map tok




/-- What `next` gives. -/
private def obs (l : List CurObs) : List (Option Token) := l.filterMap fun | .token t => some t | _ => none

private def after (n : Nat) (ops : List CurOp) : Option (Pool × List CurObs) := (Pool.new (toks n)).run (.newCursor :: .clone 0 :: ops)

/-- Of `/repo/token/tokenstream_test.go`: what cursors deliver. -/
theorem cursors_deliver :
    (after 10 (List.replicate 12 (.next 0) ++ List.replicate 5 (.next 1) ++ [.clone 1] ++ (List.replicate 5 [CurOp.next 1, .next 2]).flatten)).map (obs ·.2) =
      some ((toks 10).map some ++ [none, none] ++ ((toks 10).take 5).map some ++ (((toks 10).drop 5).flatMap fun t => [some t, some t])) ∧
    (after 100 (List.replicate 101 (.next 0))).map (obs ·.2) = some ((toks 100).map some ++ [none]) ∧
    (after 0 [.next 0, .next 0]).map (obs ·.2) = some [none, none] ∧
    (after 10 (List.replicate 10 [CurOp.next 0, .next 1]).flatten).map (obs ·.2) = some ((toks 10).flatMap fun t => [some t, some t]) ∧
    (after 10 (List.replicate 5 (.next 0) ++ [.clone 0] ++ (List.replicate 5 [CurOp.next 0, .next 2]).flatten)).map (obs ·.2) =
      some (((toks 10).take 5).map some ++ (((toks 10).drop 5).flatMap fun t => [some t, some t])) ∧
    (after 5 (List.replicate 5 (.next 0) ++ [.clone 0, .next 0, .next 2])).map (obs ·.2) = some ((toks 5).map some ++ [none, none]) ∧
    (after 100 (List.replicate 90 (.next 0) ++ List.replicate 20 (.next 1))).map (obs ·.2) = some (((toks 100).take 90).map some ++ ((toks 100).take 20).map some) := by
  decide +kernel

/-- Of `/repo/token/tokenstream_test.go`: windows, positions and detached cursors. -/
theorem cursors_state :
    (after 100 (List.replicate 50 (.next 0))).map (fun p => decide (p.1.window.length ≥ 50)) = some true ∧
    (after 50 (List.replicate 50 [CurOp.next 0, .next 1]).flatten).map (fun p => ((p.1.cur 0).pos, (p.1.cur 1).pos)) = some (50, 50) ∧
    (after 100 (List.replicate 90 (.next 0))).map (fun p => decide (p.1.window.length ≥ 90)) = some true ∧
    (after 20 (List.replicate 21 (.next 0))).map (fun p => (p.1.cur 0).attached) = some false ∧
    ((after 20 (List.replicate 21 (.next 0))).map fun p => (p.1.clone 0).2) = some 0 ∧
    ((Pool.new (toks 50)).run (.newCursor :: List.replicate 51 (.next 0))).map (fun p => ((p.1.cur 0).attached, p.1.window.isEmpty, p.1.advanceWindow.map (·.window))) =
      some (false, false, some []) ∧
    ((after 200 (List.replicate 150 (.next 0))).bind fun p => { p.1 with catchup := 99 }.updateCatchupCount 1).map (·.catchup) = some 100 ∧
    ((after 200 (List.replicate 150 (.next 0))).bind fun p => { p.1 with catchup := 100 }.updateCatchupCount 1).map (·.catchup) = some 0 ∧
    ((after 200 (List.replicate 150 (.next 0) ++ List.replicate 100 (.next 1))).bind fun p => { p.1 with catchup := 100 }.updateCatchupCount 1).map
      (fun p => decide (p.window.length < 150)) = some true := by
  decide +kernel

end Verif.RepoTests
