import Verif.GoScalar
import Verif.Exec

/-!
# The tests of the repository

Tests of `/repo`, run on the model and checked by the kernel.  This is a check of the model; the properties do not depend on it.
-/

namespace Verif.RepoTests
open JPath Cmd

/-- The categories of Unicode that the tests use, for their characters. -/
def testTab : List Nat → Option (Nat → Bool)
  | [0x4C] => some fun c => 0x41 ≤ c && c ≤ 0x5A || 0x61 ≤ c && c ≤ 0x7A || 0x410 ≤ c && c ≤ 0x44F
  | [0x4C, 0x75] => some fun c => 0x41 ≤ c && c ≤ 0x5A || 0x410 ≤ c && c ≤ 0x42F
  | _ => none

/-- The libraries. -/
def testLib : Lib := ⟨GoFmt.formatFloat, GoRe.regex testTab (fun _ => true) fun _ => none⟩

/-- What the JSON decoder reads. -/
def decoded (s : Bytes) : List Token := (Json.decodeFrom (atOnce s)).1

/-! ## The program -/

/-- The tests of `/repo/cmd/jp/examples_test.go`: arguments, input, and what the program writes, with status 0; if an error is expected, the status is 1. -/
def examples : List (List Bytes × Bytes × Result) := [
  ([b%"$.users[*].name"], b%"{\"users\":[{\"name\":\"Alice\"},{\"name\":\"Bob\"}]}", ⟨b%"\"Alice\"\n\"Bob\"\n", 0, false⟩),
  ([b%"-json-compact", b%"-json-compact-width", b%"0"], b%"{\"name\":\"test\",\"age\":30,\"address\":{\"city\":\"Boston\",\"state\":\"MA\"}}", ⟨b%"{\"name\": \"test\",\"age\": 30,\"address\": {\"city\": \"Boston\",\"state\": \"MA\"}}\n", 0, false⟩),
  ([b%"-in", b%"csv", b%"-json-compact"], b%"John,Doe,30\nJane,Smith,25\n", ⟨b%"[\"John\", \"Doe\", 30]\n[\"Jane\", \"Smith\", 25]\n", 0, false⟩),
  ([b%"-in", b%"csv", b%"-csv-header", b%"name,surname,age", b%"-json-compact"], b%"John,Doe,30\nJane,Smith,25\n", ⟨b%"{\"name\": \"John\",\"surname\": \"Doe\",\"age\": 30}\n{\"name\": \"Jane\",\"surname\": \"Smith\",\"age\": 25}\n", 0, false⟩),
  ([b%"-in", b%"csvh", b%"-json-compact"], b%"name,surname,age\nJohn,Doe,30\nJane,Smith,25\n", ⟨b%"{\"name\": \"John\",\"surname\": \"Doe\",\"age\": 30}\n{\"name\": \"Jane\",\"surname\": \"Smith\",\"age\": 25}\n", 0, false⟩),
  ([b%"-json-compact"], b%"{\"name\":\"Alice\",\"age\":30}\n{\"name\":\"Bob\",\"age\":25}\n", ⟨b%"{\"name\": \"Alice\", \"age\": 30}\n{\"name\": \"Bob\", \"age\": 25}\n", 0, false⟩),
  ([b%"$.name"], b%"{\"name\":\"Alice\",\"age\":30}", ⟨b%"\"Alice\"\n", 0, false⟩),
  ([b%"$.items[0]"], b%"{\"items\":[1,2,3]}", ⟨b%"1\n", 0, false⟩),
  ([b%"$.items[-1]"], b%"{\"items\":[1,2,3]}", ⟨b%"3\n", 0, false⟩),
  ([b%"-json-compact", b%"$.items[2:5]"], b%"{\"items\":[0,1,2,3,4,5,6]}", ⟨b%"2\n3\n4\n", 0, false⟩),
  ([b%"-json-compact", b%"$.items[*]"], b%"{\"items\":[1,2,3]}", ⟨b%"1\n2\n3\n", 0, false⟩),
  ([b%"$..name"], b%"{\"name\":\"Alice\",\"child\":{\"name\":\"Bob\"}}", ⟨b%"\"Alice\"\n\"Bob\"\n", 0, false⟩),
  ([b%"$.items[?@.price < 100].name"], b%"{\"items\":[{\"name\":\"apple\",\"price\":50},{\"name\":\"banana\",\"price\":150}]}", ⟨b%"\"apple\"\n", 0, false⟩),
  ([b%"-json-compact", b%"split"], b%"[1,2,3]", ⟨b%"1\n2\n3\n", 0, false⟩),
  ([b%"-in", b%"json", b%"-json-compact", b%"join"], b%"1\n2\n3\n", ⟨b%"[1, 2, 3]\n", 0, false⟩),
  ([b%"depth=1"], b%"{\"a\":1,\"b\":{\"c\":2,\"d\":3}}", ⟨b%"{\n  \"a\": 1,\n  \"b\": {...}\n}\n", 0, false⟩),
  ([b%"-json-compact", b%"$[?@.age > 18]"], b%"[{\"name\":\"Alice\",\"age\":25},{\"name\":\"Bob\",\"age\":15}]", ⟨b%"{\"name\": \"Alice\", \"age\": 25}\n", 0, false⟩),
  ([b%"$.users[*]", b%"split", b%"$.address.city"], b%"{\"users\":[{\"address\":{\"city\":\"Boston\"}},{\"address\":{\"city\":\"NYC\"}}]}", ⟨b%"\"Boston\"\n\"NYC\"\n", 0, false⟩),
  ([b%"-json-compact", b%"$..name", b%"join"], b%"{\"name\":\"Alice\",\"child\":{\"name\":\"Bob\",\"child\":{\"name\":\"Charlie\"}}}", ⟨b%"[\"Alice\", \"Bob\", \"Charlie\"]\n", 0, false⟩),
  ([b%"$..email"], b%"{\"user\":{\"email\":\"alice@example.com\"},\"admin\":{\"email\":\"bob@example.com\"}}", ⟨b%"\"alice@example.com\"\n\"bob@example.com\"\n", 0, false⟩),
  ([b%"-json-compact", b%"$.items[-10:]"], b%"{\"items\":[1,2,3,4,5,6,7,8,9,10,11,12,13,14,15]}", ⟨b%"6\n7\n8\n9\n10\n11\n12\n13\n14\n15\n", 0, false⟩),
  ([b%"$.users[?@.active == true].name"], b%"{\"users\":[{\"name\":\"Alice\",\"active\":true},{\"name\":\"Bob\",\"active\":false}]}", ⟨b%"\"Alice\"\n", 0, false⟩),
  ([b%"-json-compact", b%"$..price", b%"join"], b%"{\"items\":[{\"price\":10},{\"price\":20},{\"price\":30}]}", ⟨b%"[10, 20, 30]\n", 0, false⟩),
  ([b%"-out", b%"jpv"], b%"{\"name\":\"Alice\",\"scores\":[95,87]}", ⟨b%"$.name = \"Alice\"\n$.scores[0] = 95\n$.scores[1] = 87\n\n", 0, false⟩),
  ([b%"-json-compact"], b%"{\"name\":\"test\",\"nested\":{\"value\":42}}", ⟨b%"{\"name\": \"test\",\"nested\": {\"value\": 42}}\n", 0, false⟩),
  ([b%"-in", b%"csv", b%"-json-compact"], b%"Alice,,30\n", ⟨b%"[\"Alice\", null, 30]\n", 0, false⟩),
  ([b%"-in", b%"csv", b%"-json-compact"], b%"Alice,true,false\n", ⟨b%"[\"Alice\", true, false]\n", 0, false⟩),
  ([b%"-in", b%"csv", b%"-json-compact"], b%"Alice,30,3.14,-5,1.5e2\n", ⟨b%"[\"Alice\", 30, 3.14, -5, 1.5e2]\n", 0, false⟩),
  ([b%".name"], b%"{\"name\":\"Alice\"}", ⟨[], 1, true⟩),
  ([b%"...name"], b%"{\"child\":{\"name\":\"Alice\"}}", ⟨[], 1, true⟩),
  ([b%"-json-compact", b%"$.items[:10]"], b%"{\"items\":[1,2,3,4,5,6,7,8,9,10,11,12,13,14,15]}", ⟨b%"1\n2\n3\n4\n5\n6\n7\n8\n9\n10\n", 0, false⟩),
  ([b%"-json-compact", b%"$.users[:5]"], b%"{\"users\":[{\"id\":1},{\"id\":2},{\"id\":3},{\"id\":4},{\"id\":5},{\"id\":6}]}", ⟨b%"{\"id\": 1}\n{\"id\": 2}\n{\"id\": 3}\n{\"id\": 4}\n{\"id\": 5}\n", 0, false⟩),
  ([b%"-json-compact", b%"$.items[-10:]"], b%"{\"items\":[1,2,3,4,5,6,7,8,9,10,11,12,13,14,15]}", ⟨b%"6\n7\n8\n9\n10\n11\n12\n13\n14\n15\n", 0, false⟩),
  ([b%"-json-compact", b%"$.logs[-3:]"], b%"{\"logs\":[\"a\",\"b\",\"c\",\"d\",\"e\"]}", ⟨b%"\"c\"\n\"d\"\n\"e\"\n", 0, false⟩),
  ([b%"-json-compact", b%"$.users[?@.email]"], b%"{\"users\":[{\"name\":\"Alice\",\"email\":\"alice@gmail.com\"},{\"name\":\"Bob\",\"email\":\"bob@yahoo.com\"},{\"name\":\"Charlie\",\"email\":\"charlie@gmail.com\"}]}", ⟨b%"{\"name\": \"Alice\", \"email\": \"alice@gmail.com\"}\n{\"name\": \"Bob\", \"email\": \"bob@yahoo.com\"}\n{\"name\": \"Charlie\", \"email\": \"charlie@gmail.com\"}\n", 0, false⟩),
  ([b%"-json-compact", b%"$.products[?@.price > 100]"], b%"{\"products\":[{\"name\":\"cheap\",\"price\":50},{\"name\":\"expensive\",\"price\":150}]}", ⟨b%"{\"name\": \"expensive\", \"price\": 150}\n", 0, false⟩),
  ([b%"-json-compact", b%"$..[?@.level == \"error\"]"], b%"{\"logs\":[{\"level\":\"info\",\"msg\":\"ok\"},{\"level\":\"error\",\"msg\":\"bad\"}]}", ⟨b%"{\"level\": \"error\", \"msg\": \"bad\"}\n", 0, false⟩),
  ([b%"-json-compact", b%"$.users[?@.active == true]"], b%"{\"users\":[{\"name\":\"Alice\",\"active\":true},{\"name\":\"Bob\",\"active\":false},{\"name\":\"Charlie\",\"active\":true}]}", ⟨b%"{\"name\": \"Alice\", \"active\": true}\n{\"name\": \"Charlie\", \"active\": true}\n", 0, false⟩),
  ([b%"-json-compact", b%"$.products[?@.price > 100]"], b%"{\"products\":[{\"price\":50},{\"price\":150},{\"price\":200},{\"price\":75},{\"price\":300}]}", ⟨b%"{\"price\": 150}\n{\"price\": 200}\n{\"price\": 300}\n", 0, false⟩),
  ([b%"-json-compact", b%"$..email", b%"join"], b%"{\"user\":{\"email\":\"alice@example.com\"},\"admin\":{\"email\":\"bob@example.com\"}}", ⟨b%"[\"alice@example.com\", \"bob@example.com\"]\n", 0, false⟩),
  ([b%"$.users[*].name"], b%"{\"users\":[{\"name\":\"Alice\"},{\"name\":\"Bob\"}]}", ⟨b%"\"Alice\"\n\"Bob\"\n", 0, false⟩),
  ([b%"-json-compact", b%"$.items[?@.price < 100]", b%"split"], b%"{\"items\":[{\"name\":\"cheap\",\"price\":50},{\"name\":\"expensive\",\"price\":150}]}", ⟨b%"{\"name\": \"cheap\", \"price\": 50}\n", 0, false⟩),
  ([b%"-json-lines", b%"split"], b%"[{\"id\":1},{\"id\":2},{\"id\":3}]", ⟨b%"{\"id\": 1}\n{\"id\": 2}\n{\"id\": 3}\n", 0, false⟩),
  ([b%"-in", b%"csvh", b%"-json-lines"], b%"name,age\nAlice,30\nBob,25\n", ⟨b%"{\"name\": \"Alice\", \"age\": 30}\n{\"name\": \"Bob\", \"age\": 25}\n", 0, false⟩),
  ([b%"-json-lines", b%"split"], b%"[1,2,3]", ⟨b%"1\n2\n3\n", 0, false⟩),
  ([b%"-json-compact", b%"split"], b%"[1,2,3]", ⟨b%"1\n2\n3\n", 0, false⟩)]

set_option maxRecDepth 20000 in
theorem examples_ok : ∀ t ∈ examples, Program ⟨testLib⟩ false t.1 (atOnce t.2.1) t.2.2 := by
  have h : (examples.all fun t => exec ⟨testLib⟩ 400 false t.1 (atOnce t.2.1) == some t.2.2) = true := by decide +kernel
  exact fun t ht => exec_program (by simpa using List.all_eq_true.1 h t ht)

/-! ## Queries -/

/-- The tests of `/repo/transform/jsonpath/query_test.go`: input, query, output. -/
def queries : List (Bytes × Bytes × Bytes) := [
  (b%"[1, 2, 3]", b%"$[*]", b%"1 2 3"),
  (b%"{\"x\":-2, \"y\": 3}", b%"$[*]", b%"-2 3"),
  (b%"[1, 2]", b%"$", b%"[1, 2]"),
  (b%"[1, 2, 3 , 4, 5]", b%"$[3]", b%"4"),
  (b%"[1, 2, 3, 4, 5]", b%"$[-2]", b%"4"),
  (b%"[1, 2, 3, 4 , 5, 6 ,7, 8, 9, 10]", b%"$[1, -2, 8, -5]", b%"2 9 9 6"),
  (b%"[1, 2, 3, 4 , 5, 6 ,7, 8, 9, 10]", b%"$[:3]", b%"1 2 3"),
  (b%"[1, 2, 3, 4 , 5, 6 ,7, 8, 9, 10]", b%"$[-3:]", b%"8 9 10"),
  (b%"[1, 2, 3, 4 , 5, 6 ,7, 8, 9, 10]", b%"$[2:5]", b%"3 4 5"),
  (b%"[1, 2, 3, 4 , 5, 6 ,7, 8, 9, 10]", b%"$[::3]", b%"1 4 7 10"),
  (b%"[1, 2, 3, 4 , 5, 6 ,7, 8, 9, 10]", b%"$[2::3]", b%"3 6 9"),
  (b%"[1, 2, 3, 4 , 5, 6 ,7, 8, 9, 10]", b%"$[:6:3]", b%"1 4"),
  (b%"[1, 2, 3, 4 , 5, 6 ,7, 8, 9, 10]", b%"$[1:8:3]", b%"2 5 8"),
  (b%"{\"a\": {\"b\": 1}, \"b\": {\"a\": 2}}", b%"$.a.b", b%"1"),
  (b%"{\"a\": {\"b\": 1}, \"b\": {\"a\": 2}}", b%"$['b'][\"a\"]", b%"2"),
  (b%"{\"a\": {\"b\": 1}, \"b\": {\"a\": 2}}", b%"$..a", b%"{\"b\": 1} 2"),
  (b%"{\"a\": {\"b\": 1}, \"b\": {\"a\": 2}}", b%"$..[\"b\"]", b%"1 {\"a\": 2}")]

theorem queries_ok : ∀ t ∈ queries, ∃ q, parseQuery t.2.1 = some q ∧ Outcome testLib false q (decoded t.1) (decoded t.2.2) (.ok ()) := by
  have h : (queries.all fun t => ((parseQuery t.2.1).bind fun q => execQuery testLib false 400 q (decoded t.1)) == some (decoded t.2.2)) = true := by decide +kernel
  intro t ht
  have := List.all_eq_true.1 h t ht
  obtain ⟨q, h1, h2⟩ := Option.bind_eq_some_iff.1 (by simpa using this)
  exact ⟨q, h1, execQuery_outcome h2⟩

/-- A test of `/repo/transform/jsonpath/cts_test.go`: the query is run in strict mode, and the result is one of those given. -/
def Selects (t : Bytes × Bytes × List Bytes) : Prop :=
  ∃ q out, parseQueryStrict t.1 = some q ∧ Outcome testLib true q (decoded t.2.1) out (.ok ()) ∧ ∃ r ∈ t.2.2, decoded r = .startArr :: (out ++ [.endArr])

/-- Runs such a test. -/
def selectsRun (t : Bytes × Bytes × List Bytes) : Bool :=
  match parseQueryStrict t.1 with
  | none => false
  | some q =>
    match execQuery testLib true 400 q (decoded t.2.1) with
    | none => false
    | some out => t.2.2.any fun r => decoded r == .startArr :: (out ++ [.endArr])

theorem selects_of_run {l : List (Bytes × Bytes × List Bytes)} (h : l.all selectsRun = true) : ∀ t ∈ l, Selects t := by
  intro t ht
  have h := List.all_eq_true.1 h t ht
  unfold selectsRun at h
  split at h
  · cases h
  · next q hq =>
    split at h
    · cases h
    · next out ho =>
      obtain ⟨r, h1, h2⟩ := List.any_eq_true.1 h
      exact ⟨q, out, hq, execQuery_outcome ho, r, h1, by simpa using h2⟩

/-- A test with an invalid query. -/
def Rejected (s : Bytes) : Prop := ∀ q, parseQueryStrict s = some q → compileQuery q = none

theorem rejected_of_run {l : List Bytes} (h : (l.all fun s => ((parseQueryStrict s).bind compileQuery).isNone) = true) : ∀ s ∈ l, Rejected s := by
  intro s hs q hq
  have h := List.all_eq_true.1 h s hs
  rw [hq] at h
  simpa using h

/-! ## The tokeniser of queries, and patterns -/

/-- The tests of `/repo/internal/jsonpath/parser/lexer_test.go`. -/
def lexed : List (Bytes × List Tok) := [
  (b%"$.foo[\"hello\"]..['bar 1']", [⟨.op, b%"$"⟩, ⟨.dotName, b%".foo"⟩, ⟨.op, b%"["⟩, ⟨.double, b%"\"hello\""⟩, ⟨.op, b%"]"⟩, ⟨.op, b%"..["⟩, ⟨.single, b%"'bar 1'"⟩, ⟨.op, b%"]"⟩]),
  (b%"$.store.book[*].author", [⟨.op, b%"$"⟩, ⟨.dotName, b%".store"⟩, ⟨.dotName, b%".book"⟩, ⟨.op, b%"["⟩, ⟨.op, b%"*"⟩, ⟨.op, b%"]"⟩, ⟨.dotName, b%".author"⟩]),
  (b%"$..author", [⟨.op, b%"$"⟩, ⟨.descName, b%"..author"⟩]),
  (b%"$.store.*", [⟨.op, b%"$"⟩, ⟨.dotName, b%".store"⟩, ⟨.op, b%".*"⟩]),
  (b%"$.store..price", [⟨.op, b%"$"⟩, ⟨.dotName, b%".store"⟩, ⟨.descName, b%"..price"⟩]),
  (b%"$..book[2]", [⟨.op, b%"$"⟩, ⟨.descName, b%"..book"⟩, ⟨.op, b%"["⟩, ⟨.int, b%"2"⟩, ⟨.op, b%"]"⟩]),
  (b%"$..book[2].author", [⟨.op, b%"$"⟩, ⟨.descName, b%"..book"⟩, ⟨.op, b%"["⟩, ⟨.int, b%"2"⟩, ⟨.op, b%"]"⟩, ⟨.dotName, b%".author"⟩]),
  (b%"$..book[-1]", [⟨.op, b%"$"⟩, ⟨.descName, b%"..book"⟩, ⟨.op, b%"["⟩, ⟨.int, b%"-1"⟩, ⟨.op, b%"]"⟩]),
  (b%"$..book[0,1]", [⟨.op, b%"$"⟩, ⟨.descName, b%"..book"⟩, ⟨.op, b%"["⟩, ⟨.int, b%"0"⟩, ⟨.op, b%","⟩, ⟨.int, b%"1"⟩, ⟨.op, b%"]"⟩]),
  (b%"$..book[:2]", [⟨.op, b%"$"⟩, ⟨.descName, b%"..book"⟩, ⟨.op, b%"["⟩, ⟨.op, b%":"⟩, ⟨.int, b%"2"⟩, ⟨.op, b%"]"⟩]),
  (b%"$..book[?@.isbn]", [⟨.op, b%"$"⟩, ⟨.descName, b%"..book"⟩, ⟨.op, b%"["⟩, ⟨.op, b%"?"⟩, ⟨.op, b%"@"⟩, ⟨.dotName, b%".isbn"⟩, ⟨.op, b%"]"⟩]),
  (b%"$..book[?@.price < 10]", [⟨.op, b%"$"⟩, ⟨.descName, b%"..book"⟩, ⟨.op, b%"["⟩, ⟨.op, b%"?"⟩, ⟨.op, b%"@"⟩, ⟨.dotName, b%".price"⟩, ⟨.cmp, b%"<"⟩, ⟨.int, b%"10"⟩, ⟨.op, b%"]"⟩]),
  (b%"1.2 -1e10 3.2e-4", [⟨.num, b%"1.2"⟩, ⟨.num, b%"-1e10"⟩, ⟨.num, b%"3.2e-4"⟩]),
  (b%"'hello' '\\''", [⟨.single, b%"'hello'"⟩, ⟨.single, b%"'\\''"⟩])]

theorem lexed_ok : ∀ t ∈ lexed, lex t.1 = some t.2 := by decide +kernel

/-- The tests of `/repo/internal/jsonpath/iregexp/iregexp_test.go`. -/
def patterns : List (Bytes × Bytes) := [
  (b%"hello", b%"hello"),
  (b%".", b%"[^\\n\\r]"),
  (b%"[a-z.]", b%"[a-z.]"),
  (b%"[a-z.].", b%"[a-z.][^\\n\\r]"),
  (b%"ab\\.", b%"ab\\."),
  (b%"\\[a-z.\\]", b%"\\[a-z[^\\n\\r]\\]"),
  (b%"[a-z.].[^xy].", b%"[a-z.][^\\n\\r][^xy][^\\n\\r]"),
  (b%"[a[b.].", b%"[a[b.][^\\n\\r]")]

theorem patterns_ok : ∀ t ∈ patterns, iregexpString t.1 = t.2 := by decide +kernel

/-! ## Decoders -/

/-- The types and the literals of the scalars among tokens. -/
def scalars (ts : List Token) : List (SType × Bytes) := ts.filterMap fun | .scalar s => some (s.type, s.bytes) | _ => none

/-- How the decoder ended: no error, the end of the input, or a syntax error. -/
def ending {σ : Type} : Out σ Unit → Nat
  | .ok _ _ => 0
  | .fail (.io _) => 1
  | .fail _ => 2
  | _ => 3

/-- Of `/repo/encoding/json/decoder_test.go`: strings, numbers and other scalars. -/
theorem json_scalars :
    (∀ s ∈ [b%"\"hello world\"", b%"\"hello \\\"world\\\"\"", b%"\"hello\\\\world\"", b%"\"hello\\nworld\"", b%"\"hello\\tworld\"", b%"\"hello\\u0041world\"", b%"\"hello 😀 world\""], scalars (decoded s) = [(.str, s)]) ∧
    (∀ s ∈ [b%"0", b%"123", b%"-456", b%"3.14159", b%"-2.71828", b%"1e10", b%"1e-10", b%"1.5e+20", b%"-1.23e-45"], scalars (decoded s) = [(.num, s)]) ∧
    scalars (decoded b%"true") = [(.bool, b%"true")] ∧ scalars (decoded b%"null") = [(.null, b%"null")] ∧ scalars (decoded b%"\"\"") = [(.str, b%"\"\"")] ∧
    scalars (decoded b%"[1, \"hello\", true, null]") = [(.num, b%"1"), (.str, b%"\"hello\""), (.bool, b%"true"), (.null, b%"null")] ∧
    (decoded b%"[[1, 2], [3, 4]]").length = 10 ∧ (decoded b%"{\"user\": {\"name\": \"Alice\"}}").length = 7 ∧
    (∀ s ∈ [b%"   42", b%"42   ", b%"\t\t42", b%"\n\n42", b%" \t\n 42 \t\n ", b%"[ 1 , 2 , 3 ]", b%"{ \"key\" : \"value\" }"], decoded s ≠ [] ∧ ending (Json.decodeFrom (atOnce s)).2 = 0) := by decide +kernel

/-- Syntax errors, and unclosed values (the test wants `io.EOF`). -/
theorem json_errors :
    (∀ s ∈ [b%"{\"key\" \"value\"}", b%"[1 2]", b%"{\"a\": 1 \"b\": 2}", b%"\"hello\x00world\""], ending (Json.decodeFrom (atOnce s)).2 ≠ 0) ∧
    (∀ s ∈ [b%"\"hello", b%"{\"key\": \"value", b%"[1, 2, 3", b%"[1, [2, 3]", b%"{\"name\": \"Alice\"", b%"{\"a\": 1, \"b\": 2", b%"{\"user\": {\"name\": \"Alice\""], ending (Json.decodeFrom (atOnce s)).2 = 1) := by decide +kernel

/-- Of `/repo/encoding/jpv/decoder_test.go`: numbers of tokens; that there are tokens; errors. -/
theorem jpv_decoder :
    (∀ t ∈ ([(b%"$.name = \"Alice\"", 4), (b%"$.age = 30", 4), (b%"$.active = true", 4), (b%"$.disabled = false", 4), (b%"$.value = null", 4), (b%"$[0] = 1\n$[1] = 2\n$[2] = 3", 5), (b%"$[0][0] = 1\n$[0][1] = 2\n$[1][0] = 3", 9), (b%"$.name = \"Alice\"\n$.age = 30", 6), (b%"$.user.name = \"Bob\"\n$.user.email = \"bob@example.com\"", 9)] : List (Bytes × Nat)), (Jpv.decodeFrom (atOnce t.1)).1.length = t.2 ∧ ending (Jpv.decodeFrom (atOnce t.1)).2 = 0) ∧
    (∀ s ∈ [b%"$[\"first-name\"] = \"Alice\"", b%"$[0] = \"first\"", b%"$.users[0].name = \"Alice\"", b%"$.name = \"Alice\"", b%"$.user.profile.name = \"Alice\"", b%"$.field_name_123 = \"value\"", b%"   $.name = \"Alice\"", b%"$.name   =   \"Alice\"", b%"$.name = \"Alice\"   ", b%"$.name = \"Alice\"\n\n$.age = 30"], (Jpv.decodeFrom (atOnce s)).1 ≠ [] ∧ ending (Jpv.decodeFrom (atOnce s)).2 = 0) ∧
    (∀ s ∈ [b%"$.[\"key", b%"$[0", b%"$.", b%"$.name = ", b%"$.name ", b%"$.name = \"Alice", b%"$.items = [1, 2, 3", b%"$.user = {\"name\": \"Alice\"", b%".name = \"Alice\"", b%"$[\"name\" = \"Alice\"", b%"$[] = \"value\""], ending (Jpv.decodeFrom (atOnce s)).2 ≠ 0) := by decide +kernel

/-- The tokens of CSV. -/
def csvToks (cfg : Csv.Cfg) (names : List Bytes) (s : Bytes) : List Token := ((Csv.produce cfg names (Csv.readInput (atOnce s))).map (·.1)).getD []

/-- Of `/repo/encoding/csv/decoder_test.go`: numbers of tokens; the type of the first field. -/
theorem csv_decoder :
    (∀ t ∈ ([(b%"1,2,3", 5), (b%"1,2,3\n4,5,6", 10), (b%"hello", 3)] : List (Bytes × Nat)), (csvToks ⟨false, false⟩ [] t.1).length = t.2) ∧
    (∀ t ∈ ([(b%"1,2,3", 8), (b%"1,2\n3,4", 12)] : List (Bytes × Nat)), (csvToks ⟨false, true⟩ [] t.1).length = t.2) ∧
    (∀ s ∈ [b%"name,age,active\nAlice,30,true\nBob,25,false", b%"first_name,last_name,user_id\nAlice,Smith,123\nBob,Jones,456"], (csvToks ⟨true, true⟩ [] s).length = 16) ∧
    (∀ t ∈ ([(b%"hello", .str), (b%"42", .num), (b%"3.14", .num), (b%"true", .bool), (b%"false", .bool), (b%",", .null), (b%"-123", .num), (b%"1.5e10", .num), (b%"0123", .num), (b%".", .str), (b%"123abc", .str), (b%"1.2.3", .num), (b%"0", .num), (b%"1.5e-10", .num), (b%"\"hello \"\"world\"\"\"", .str), (b%"\"hello\nworld\"", .str), (b%"hello\\world", .str)] : List (Bytes × SType)), (scalars (csvToks ⟨false, false⟩ [] t.1)).head?.map (·.1) = some t.2) ∧
    scalars (csvToks ⟨false, true⟩ [b%"foo", b%"bar", b%"baz"] b%"1,2,3") =
      [(.str, b%"\"foo\""), (.num, b%"1"), (.str, b%"\"bar\""), (.num, b%"2"), (.str, b%"\"baz\""), (.num, b%"3")] ∧
    (csvToks ⟨false, true⟩ [b%"a", b%"b"] b%"1,2,3,4,5").length = 12 := by decide +kernel

/-! ## Encoders -/

private def str (s : Bytes) : Token := .scalar (stringScalar s)
private def int (b : Bytes) : Token := .scalar { bytes := b, type := .num }
private def tt : Token := .scalar { bytes := b%"true", type := .bool }

/-- The JSON encoder of `/repo/encoding/json/encoder_test.go:326-333`. -/
def jsonOut (ts : List Token) : Bytes := (Enc.encode ⟨none, 0, 0⟩ ⟨2, false⟩ Enc.goodSink ts).1

/-- The JPV encoder of `/repo/encoding/jpv/encoder_test.go:278-283`. -/
def jpvOut (ts : List Token) : Bytes := (JEnc.encode ⟨none, false⟩ ⟨0, false⟩ Enc.goodSink ts).1

/-- Of `/repo/encoding/json/encoder_test.go`. -/
theorem json_encoder :
    jsonOut [tt] = b%"true\n" ∧ jsonOut [int b%"-123"] = b%"-123\n" ∧ jsonOut [str b%"hello"] = b%"\"hello\"\n" ∧ jsonOut [str []] = b%"\"\"\n" ∧
    jsonOut [.startArr, .endArr] = b%"[]\n" ∧ jsonOut [.startArr, int b%"42", .endArr] = b%"[\n  42\n]\n" ∧
    jsonOut [.startArr, int b%"1", int b%"2", int b%"3", .endArr] = b%"[\n  1,\n  2,\n  3\n]\n" ∧ jsonOut [.startObj, .endObj] = b%"{}\n" ∧
    jsonOut [.startObj, str b%"name", str b%"Alice", .endObj] = b%"{\n  \"name\": \"Alice\"\n}\n" ∧
    (b%"[\n  [\n    1").isPrefixOf (jsonOut [.startArr, .startArr, int b%"1", int b%"2", .endArr, .startArr, int b%"3", int b%"4", .endArr, .endArr]) = true ∧
    jsonOut [int b%"1", str b%"hello", tt] = b%"1\n\"hello\"\ntrue\n" ∧
    (Enc.encode ⟨none, 20, 0⟩ ⟨2, false⟩ Enc.goodSink [.startArr, int b%"1", int b%"2", int b%"3", .endArr]).1 = b%"[1, 2, 3]\n" ∧
    c%'\n' ∉ ((Enc.encode ⟨none, 30, 3⟩ ⟨2, false⟩ Enc.goodSink [.startObj, str b%"a", int b%"1", str b%"b", int b%"2", .endObj]).1).dropLast := by decide +kernel

/-- Of `/repo/encoding/jpv/encoder_test.go`. -/
theorem jpv_encoder :
    jpvOut [str b%"hello"] = b%"$ = \"hello\"\n\n" ∧ jpvOut [tt] = b%"$ = true\n\n" ∧
    jpvOut [.startArr, int b%"1", int b%"2", int b%"3", .endArr] = b%"$[0] = 1\n$[1] = 2\n$[2] = 3\n\n" ∧ jpvOut [.startArr, .endArr] = b%"$ = []\n\n" ∧
    jpvOut [.startObj, str b%"name", str b%"Alice", str b%"age", int b%"30", .endObj] = b%"$[\"name\"] = \"Alice\"\n$[\"age\"] = 30\n\n" ∧
    jpvOut [.startObj, .endObj] = b%"$ = {}\n\n" ∧
    jpvOut [.startObj, str b%"user", .startObj, str b%"name", str b%"Bob", .endObj, .endObj] = b%"$[\"user\"][\"name\"] = \"Bob\"\n\n" ∧
    jpvOut [.startArr, .startArr, int b%"1", int b%"2", .endArr, .endArr] = b%"$[0][0] = 1\n$[0][1] = 2\n\n" := by decide +kernel

end Verif.RepoTests
