import Verif.RepoTests

/-!
# The compliance tests of JSONPath

The tests of `/repo/transform/jsonpath/cts.json` (697 tests, of the JSONPath Compliance Test Suite), run on the model as
`/repo/transform/jsonpath/cts_test.go` runs them on the program: with the strict parser and in strict mode.  They are checked by the kernel.  This is
a check of the model; the properties do not depend on it.  Generated from `cts.json`; values are written without blanks.
-/

namespace Verif.RepoTests
open JPath

set_option maxRecDepth 20000

/-- Tests of `/repo/transform/jsonpath/cts.json`: query, input, possible results. -/
def cts7 : List (Bytes × Bytes × List Bytes) := [
  (b%"$[?\t(@.a)]", b%"[{\"a\":\"b\",\"d\":\"e\"},{\"b\":\"c\",\"d\":\"f\"}]", [b%"[{\"a\":\"b\",\"d\":\"e\"}]"]),
  (b%"$[?\x0d(@.a)]", b%"[{\"a\":\"b\",\"d\":\"e\"},{\"b\":\"c\",\"d\":\"f\"}]", [b%"[{\"a\":\"b\",\"d\":\"e\"}]"]),
  (b%"$[?(@.a) ]", b%"[{\"a\":\"b\",\"d\":\"e\"},{\"b\":\"c\",\"d\":\"f\"}]", [b%"[{\"a\":\"b\",\"d\":\"e\"}]"]),
  (b%"$[?(@.a)\n]", b%"[{\"a\":\"b\",\"d\":\"e\"},{\"b\":\"c\",\"d\":\"f\"}]", [b%"[{\"a\":\"b\",\"d\":\"e\"}]"]),
  (b%"$[?(@.a)\t]", b%"[{\"a\":\"b\",\"d\":\"e\"},{\"b\":\"c\",\"d\":\"f\"}]", [b%"[{\"a\":\"b\",\"d\":\"e\"}]"]),
  (b%"$[?(@.a)\x0d]", b%"[{\"a\":\"b\",\"d\":\"e\"},{\"b\":\"c\",\"d\":\"f\"}]", [b%"[{\"a\":\"b\",\"d\":\"e\"}]"]),
  (b%"$[ ?@.a]", b%"[{\"a\":\"b\",\"d\":\"e\"},{\"b\":\"c\",\"d\":\"f\"}]", [b%"[{\"a\":\"b\",\"d\":\"e\"}]"]),
  (b%"$[\n?@.a]", b%"[{\"a\":\"b\",\"d\":\"e\"},{\"b\":\"c\",\"d\":\"f\"}]", [b%"[{\"a\":\"b\",\"d\":\"e\"}]"]),
  (b%"$[\t?@.a]", b%"[{\"a\":\"b\",\"d\":\"e\"},{\"b\":\"c\",\"d\":\"f\"}]", [b%"[{\"a\":\"b\",\"d\":\"e\"}]"]),
  (b%"$[\x0d?@.a]", b%"[{\"a\":\"b\",\"d\":\"e\"},{\"b\":\"c\",\"d\":\"f\"}]", [b%"[{\"a\":\"b\",\"d\":\"e\"}]"]),
  (b%"$[?count( @.*)==1]", b%"[{\"a\":1},{\"b\":2},{\"a\":2,\"b\":1}]", [b%"[{\"a\":1},{\"b\":2}]"]),
  (b%"$[?count(\n@.*)==1]", b%"[{\"a\":1},{\"b\":2},{\"a\":2,\"b\":1}]", [b%"[{\"a\":1},{\"b\":2}]"]),
  (b%"$[?count(\t@.*)==1]", b%"[{\"a\":1},{\"b\":2},{\"a\":2,\"b\":1}]", [b%"[{\"a\":1},{\"b\":2}]"]),
  (b%"$[?count(\x0d@.*)==1]", b%"[{\"a\":1},{\"b\":2},{\"a\":2,\"b\":1}]", [b%"[{\"a\":1},{\"b\":2}]"]),
  (b%"$[?search(@ ,'[a-z]+')]", b%"[\"foo\",\"123\"]", [b%"[\"foo\"]"]),
  (b%"$[?search(@\n,'[a-z]+')]", b%"[\"foo\",\"123\"]", [b%"[\"foo\"]"]),
  (b%"$[?search(@\t,'[a-z]+')]", b%"[\"foo\",\"123\"]", [b%"[\"foo\"]"]),
  (b%"$[?search(@\x0d,'[a-z]+')]", b%"[\"foo\",\"123\"]", [b%"[\"foo\"]"]),
  (b%"$[?search(@, '[a-z]+')]", b%"[\"foo\",\"123\"]", [b%"[\"foo\"]"]),
  (b%"$[?search(@,\n'[a-z]+')]", b%"[\"foo\",\"123\"]", [b%"[\"foo\"]"]),
  (b%"$[?search(@,\t'[a-z]+')]", b%"[\"foo\",\"123\"]", [b%"[\"foo\"]"]),
  (b%"$[?search(@,\x0d'[a-z]+')]", b%"[\"foo\",\"123\"]", [b%"[\"foo\"]"]),
  (b%"$[?count(@.* )==1]", b%"[{\"a\":1},{\"b\":2},{\"a\":2,\"b\":1}]", [b%"[{\"a\":1},{\"b\":2}]"]),
  (b%"$[?count(@.*\n)==1]", b%"[{\"a\":1},{\"b\":2},{\"a\":2,\"b\":1}]", [b%"[{\"a\":1},{\"b\":2}]"]),
  (b%"$[?count(@.*\t)==1]", b%"[{\"a\":1},{\"b\":2},{\"a\":2,\"b\":1}]", [b%"[{\"a\":1},{\"b\":2}]"]),
  (b%"$[?count(@.*\x0d)==1]", b%"[{\"a\":1},{\"b\":2},{\"a\":2,\"b\":1}]", [b%"[{\"a\":1},{\"b\":2}]"]),
  (b%"$[?length(@ .a .b) == 3]", b%"[{\"a\":{\"b\":\"foo\"}},{}]", [b%"[{\"a\":{\"b\":\"foo\"}}]"]),
  (b%"$[?length(@\n.a\n.b) == 3]", b%"[{\"a\":{\"b\":\"foo\"}},{}]", [b%"[{\"a\":{\"b\":\"foo\"}}]"]),
  (b%"$[?length(@\t.a\t.b) == 3]", b%"[{\"a\":{\"b\":\"foo\"}},{}]", [b%"[{\"a\":{\"b\":\"foo\"}}]"]),
  (b%"$[?length(@\x0d.a\x0d.b) == 3]", b%"[{\"a\":{\"b\":\"foo\"}},{}]", [b%"[{\"a\":{\"b\":\"foo\"}}]"]),
  (b%"$..[?length(@)==length($ [0] .a)]", b%"[{\"a\":\"foo\"},{}]", [b%"[\"foo\"]"]),
  (b%"$..[?length(@)==length($\n[0]\n.a)]", b%"[{\"a\":\"foo\"},{}]", [b%"[\"foo\"]"]),
  (b%"$..[?length(@)==length($\t[0]\t.a)]", b%"[{\"a\":\"foo\"},{}]", [b%"[\"foo\"]"]),
  (b%"$..[?length(@)==length($\x0d[0]\x0d.a)]", b%"[{\"a\":\"foo\"},{}]", [b%"[\"foo\"]"]),
  (b%"$[?@.a ||@.b]", b%"[{\"a\":1},{\"b\":2},{\"c\":3}]", [b%"[{\"a\":1},{\"b\":2}]"]),
  (b%"$[?@.a\n||@.b]", b%"[{\"a\":1},{\"b\":2},{\"c\":3}]", [b%"[{\"a\":1},{\"b\":2}]"]),
  (b%"$[?@.a\t||@.b]", b%"[{\"a\":1},{\"b\":2},{\"c\":3}]", [b%"[{\"a\":1},{\"b\":2}]"]),
  (b%"$[?@.a\x0d||@.b]", b%"[{\"a\":1},{\"b\":2},{\"c\":3}]", [b%"[{\"a\":1},{\"b\":2}]"]),
  (b%"$[?@.a|| @.b]", b%"[{\"a\":1},{\"b\":2},{\"c\":3}]", [b%"[{\"a\":1},{\"b\":2}]"]),
  (b%"$[?@.a||\n@.b]", b%"[{\"a\":1},{\"b\":2},{\"c\":3}]", [b%"[{\"a\":1},{\"b\":2}]"]),
  (b%"$[?@.a||\t@.b]", b%"[{\"a\":1},{\"b\":2},{\"c\":3}]", [b%"[{\"a\":1},{\"b\":2}]"]),
  (b%"$[?@.a||\x0d@.b]", b%"[{\"a\":1},{\"b\":2},{\"c\":3}]", [b%"[{\"a\":1},{\"b\":2}]"]),
  (b%"$[?@.a &&@.b]", b%"[{\"a\":1},{\"b\":2},{\"a\":1,\"b\":2}]", [b%"[{\"a\":1,\"b\":2}]"]),
  (b%"$[?@.a\n&&@.b]", b%"[{\"a\":1},{\"b\":2},{\"a\":1,\"b\":2}]", [b%"[{\"a\":1,\"b\":2}]"]),
  (b%"$[?@.a\t&&@.b]", b%"[{\"a\":1},{\"b\":2},{\"a\":1,\"b\":2}]", [b%"[{\"a\":1,\"b\":2}]"]),
  (b%"$[?@.a\x0d&&@.b]", b%"[{\"a\":1},{\"b\":2},{\"a\":1,\"b\":2}]", [b%"[{\"a\":1,\"b\":2}]"]),
  (b%"$[?@.a&& @.b]", b%"[{\"a\":1},{\"b\":2},{\"a\":1,\"b\":2}]", [b%"[{\"a\":1,\"b\":2}]"]),
  (b%"$[?@.a&& @.b]", b%"[{\"a\":1},{\"b\":2},{\"a\":1,\"b\":2}]", [b%"[{\"a\":1,\"b\":2}]"]),
  (b%"$[?@.a&& @.b]", b%"[{\"a\":1},{\"b\":2},{\"a\":1,\"b\":2}]", [b%"[{\"a\":1,\"b\":2}]"]),
  (b%"$[?@.a&& @.b]", b%"[{\"a\":1},{\"b\":2},{\"a\":1,\"b\":2}]", [b%"[{\"a\":1,\"b\":2}]"])]

theorem cts7_ok : ∀ t ∈ cts7, Selects t := selects_of_run (by decide +kernel)

/-- Tests of `/repo/transform/jsonpath/cts.json`: query, input, possible results. -/
def cts8 : List (Bytes × Bytes × List Bytes) := [
  (b%"$[?@.a ==@.b]", b%"[{\"a\":1,\"b\":1},{\"a\":1,\"b\":2}]", [b%"[{\"a\":1,\"b\":1}]"]),
  (b%"$[?@.a\n==@.b]", b%"[{\"a\":1,\"b\":1},{\"a\":1,\"b\":2}]", [b%"[{\"a\":1,\"b\":1}]"]),
  (b%"$[?@.a\t==@.b]", b%"[{\"a\":1,\"b\":1},{\"a\":1,\"b\":2}]", [b%"[{\"a\":1,\"b\":1}]"]),
  (b%"$[?@.a\x0d==@.b]", b%"[{\"a\":1,\"b\":1},{\"a\":1,\"b\":2}]", [b%"[{\"a\":1,\"b\":1}]"]),
  (b%"$[?@.a== @.b]", b%"[{\"a\":1,\"b\":1},{\"a\":1,\"b\":2}]", [b%"[{\"a\":1,\"b\":1}]"]),
  (b%"$[?@.a==\n@.b]", b%"[{\"a\":1,\"b\":1},{\"a\":1,\"b\":2}]", [b%"[{\"a\":1,\"b\":1}]"]),
  (b%"$[?@.a==\t@.b]", b%"[{\"a\":1,\"b\":1},{\"a\":1,\"b\":2}]", [b%"[{\"a\":1,\"b\":1}]"]),
  (b%"$[?@.a==\x0d@.b]", b%"[{\"a\":1,\"b\":1},{\"a\":1,\"b\":2}]", [b%"[{\"a\":1,\"b\":1}]"]),
  (b%"$[?@.a !=@.b]", b%"[{\"a\":1,\"b\":1},{\"a\":1,\"b\":2}]", [b%"[{\"a\":1,\"b\":2}]"]),
  (b%"$[?@.a\n!=@.b]", b%"[{\"a\":1,\"b\":1},{\"a\":1,\"b\":2}]", [b%"[{\"a\":1,\"b\":2}]"]),
  (b%"$[?@.a\t!=@.b]", b%"[{\"a\":1,\"b\":1},{\"a\":1,\"b\":2}]", [b%"[{\"a\":1,\"b\":2}]"]),
  (b%"$[?@.a\x0d!=@.b]", b%"[{\"a\":1,\"b\":1},{\"a\":1,\"b\":2}]", [b%"[{\"a\":1,\"b\":2}]"]),
  (b%"$[?@.a!= @.b]", b%"[{\"a\":1,\"b\":1},{\"a\":1,\"b\":2}]", [b%"[{\"a\":1,\"b\":2}]"]),
  (b%"$[?@.a!=\n@.b]", b%"[{\"a\":1,\"b\":1},{\"a\":1,\"b\":2}]", [b%"[{\"a\":1,\"b\":2}]"]),
  (b%"$[?@.a!=\t@.b]", b%"[{\"a\":1,\"b\":1},{\"a\":1,\"b\":2}]", [b%"[{\"a\":1,\"b\":2}]"]),
  (b%"$[?@.a!=\x0d@.b]", b%"[{\"a\":1,\"b\":1},{\"a\":1,\"b\":2}]", [b%"[{\"a\":1,\"b\":2}]"]),
  (b%"$[?@.a <@.b]", b%"[{\"a\":1,\"b\":1},{\"a\":1,\"b\":2}]", [b%"[{\"a\":1,\"b\":2}]"]),
  (b%"$[?@.a\n<@.b]", b%"[{\"a\":1,\"b\":1},{\"a\":1,\"b\":2}]", [b%"[{\"a\":1,\"b\":2}]"]),
  (b%"$[?@.a\t<@.b]", b%"[{\"a\":1,\"b\":1},{\"a\":1,\"b\":2}]", [b%"[{\"a\":1,\"b\":2}]"]),
  (b%"$[?@.a\x0d<@.b]", b%"[{\"a\":1,\"b\":1},{\"a\":1,\"b\":2}]", [b%"[{\"a\":1,\"b\":2}]"]),
  (b%"$[?@.a< @.b]", b%"[{\"a\":1,\"b\":1},{\"a\":1,\"b\":2}]", [b%"[{\"a\":1,\"b\":2}]"]),
  (b%"$[?@.a<\n@.b]", b%"[{\"a\":1,\"b\":1},{\"a\":1,\"b\":2}]", [b%"[{\"a\":1,\"b\":2}]"]),
  (b%"$[?@.a<\t@.b]", b%"[{\"a\":1,\"b\":1},{\"a\":1,\"b\":2}]", [b%"[{\"a\":1,\"b\":2}]"]),
  (b%"$[?@.a<\x0d@.b]", b%"[{\"a\":1,\"b\":1},{\"a\":1,\"b\":2}]", [b%"[{\"a\":1,\"b\":2}]"]),
  (b%"$[?@.b >@.a]", b%"[{\"a\":1,\"b\":1},{\"a\":1,\"b\":2}]", [b%"[{\"a\":1,\"b\":2}]"]),
  (b%"$[?@.b\n>@.a]", b%"[{\"a\":1,\"b\":1},{\"a\":1,\"b\":2}]", [b%"[{\"a\":1,\"b\":2}]"]),
  (b%"$[?@.b\t>@.a]", b%"[{\"a\":1,\"b\":1},{\"a\":1,\"b\":2}]", [b%"[{\"a\":1,\"b\":2}]"]),
  (b%"$[?@.b\x0d>@.a]", b%"[{\"a\":1,\"b\":1},{\"a\":1,\"b\":2}]", [b%"[{\"a\":1,\"b\":2}]"]),
  (b%"$[?@.b> @.a]", b%"[{\"a\":1,\"b\":1},{\"a\":1,\"b\":2}]", [b%"[{\"a\":1,\"b\":2}]"]),
  (b%"$[?@.b>\n@.a]", b%"[{\"a\":1,\"b\":1},{\"a\":1,\"b\":2}]", [b%"[{\"a\":1,\"b\":2}]"]),
  (b%"$[?@.b>\t@.a]", b%"[{\"a\":1,\"b\":1},{\"a\":1,\"b\":2}]", [b%"[{\"a\":1,\"b\":2}]"]),
  (b%"$[?@.b>\x0d@.a]", b%"[{\"a\":1,\"b\":1},{\"a\":1,\"b\":2}]", [b%"[{\"a\":1,\"b\":2}]"]),
  (b%"$[?@.a <=@.b]", b%"[{\"a\":1,\"b\":1},{\"a\":1,\"b\":2},{\"a\":2,\"b\":1}]", [b%"[{\"a\":1,\"b\":1},{\"a\":1,\"b\":2}]"]),
  (b%"$[?@.a\n<=@.b]", b%"[{\"a\":1,\"b\":1},{\"a\":1,\"b\":2},{\"a\":2,\"b\":1}]", [b%"[{\"a\":1,\"b\":1},{\"a\":1,\"b\":2}]"]),
  (b%"$[?@.a\t<=@.b]", b%"[{\"a\":1,\"b\":1},{\"a\":1,\"b\":2},{\"a\":2,\"b\":1}]", [b%"[{\"a\":1,\"b\":1},{\"a\":1,\"b\":2}]"]),
  (b%"$[?@.a\x0d<=@.b]", b%"[{\"a\":1,\"b\":1},{\"a\":1,\"b\":2},{\"a\":2,\"b\":1}]", [b%"[{\"a\":1,\"b\":1},{\"a\":1,\"b\":2}]"]),
  (b%"$[?@.a<= @.b]", b%"[{\"a\":1,\"b\":1},{\"a\":1,\"b\":2},{\"a\":2,\"b\":1}]", [b%"[{\"a\":1,\"b\":1},{\"a\":1,\"b\":2}]"]),
  (b%"$[?@.a<=\n@.b]", b%"[{\"a\":1,\"b\":1},{\"a\":1,\"b\":2},{\"a\":2,\"b\":1}]", [b%"[{\"a\":1,\"b\":1},{\"a\":1,\"b\":2}]"]),
  (b%"$[?@.a<=\t@.b]", b%"[{\"a\":1,\"b\":1},{\"a\":1,\"b\":2},{\"a\":2,\"b\":1}]", [b%"[{\"a\":1,\"b\":1},{\"a\":1,\"b\":2}]"]),
  (b%"$[?@.a<=\x0d@.b]", b%"[{\"a\":1,\"b\":1},{\"a\":1,\"b\":2},{\"a\":2,\"b\":1}]", [b%"[{\"a\":1,\"b\":1},{\"a\":1,\"b\":2}]"]),
  (b%"$[?@.b >=@.a]", b%"[{\"a\":1,\"b\":1},{\"a\":1,\"b\":2},{\"a\":2,\"b\":1}]", [b%"[{\"a\":1,\"b\":1},{\"a\":1,\"b\":2}]"]),
  (b%"$[?@.b\n>=@.a]", b%"[{\"a\":1,\"b\":1},{\"a\":1,\"b\":2},{\"a\":2,\"b\":1}]", [b%"[{\"a\":1,\"b\":1},{\"a\":1,\"b\":2}]"]),
  (b%"$[?@.b\t>=@.a]", b%"[{\"a\":1,\"b\":1},{\"a\":1,\"b\":2},{\"a\":2,\"b\":1}]", [b%"[{\"a\":1,\"b\":1},{\"a\":1,\"b\":2}]"]),
  (b%"$[?@.b\x0d>=@.a]", b%"[{\"a\":1,\"b\":1},{\"a\":1,\"b\":2},{\"a\":2,\"b\":1}]", [b%"[{\"a\":1,\"b\":1},{\"a\":1,\"b\":2}]"]),
  (b%"$[?@.b>= @.a]", b%"[{\"a\":1,\"b\":1},{\"a\":1,\"b\":2},{\"a\":2,\"b\":1}]", [b%"[{\"a\":1,\"b\":1},{\"a\":1,\"b\":2}]"]),
  (b%"$[?@.b>=\n@.a]", b%"[{\"a\":1,\"b\":1},{\"a\":1,\"b\":2},{\"a\":2,\"b\":1}]", [b%"[{\"a\":1,\"b\":1},{\"a\":1,\"b\":2}]"]),
  (b%"$[?@.b>=\t@.a]", b%"[{\"a\":1,\"b\":1},{\"a\":1,\"b\":2},{\"a\":2,\"b\":1}]", [b%"[{\"a\":1,\"b\":1},{\"a\":1,\"b\":2}]"]),
  (b%"$[?@.b>=\x0d@.a]", b%"[{\"a\":1,\"b\":1},{\"a\":1,\"b\":2},{\"a\":2,\"b\":1}]", [b%"[{\"a\":1,\"b\":1},{\"a\":1,\"b\":2}]"]),
  (b%"$[?! @.a]", b%"[{\"a\":\"a\",\"d\":\"e\"},{\"d\":\"f\"},{\"a\":\"d\",\"d\":\"f\"}]", [b%"[{\"d\":\"f\"}]"]),
  (b%"$[?!\n@.a]", b%"[{\"a\":\"a\",\"d\":\"e\"},{\"d\":\"f\"},{\"a\":\"d\",\"d\":\"f\"}]", [b%"[{\"d\":\"f\"}]"])]

theorem cts8_ok : ∀ t ∈ cts8, Selects t := selects_of_run (by decide +kernel)

/-- Tests of `/repo/transform/jsonpath/cts.json`: query, input, possible results. -/
def cts9 : List (Bytes × Bytes × List Bytes) := [
  (b%"$[?!\t@.a]", b%"[{\"a\":\"a\",\"d\":\"e\"},{\"d\":\"f\"},{\"a\":\"d\",\"d\":\"f\"}]", [b%"[{\"d\":\"f\"}]"]),
  (b%"$[?!\x0d@.a]", b%"[{\"a\":\"a\",\"d\":\"e\"},{\"d\":\"f\"},{\"a\":\"d\",\"d\":\"f\"}]", [b%"[{\"d\":\"f\"}]"]),
  (b%"$[?! (@.a=='b')]", b%"[{\"a\":\"a\",\"d\":\"e\"},{\"a\":\"b\",\"d\":\"f\"},{\"a\":\"d\",\"d\":\"f\"}]", [b%"[{\"a\":\"a\",\"d\":\"e\"},{\"a\":\"d\",\"d\":\"f\"}]"]),
  (b%"$[?!\n(@.a=='b')]", b%"[{\"a\":\"a\",\"d\":\"e\"},{\"a\":\"b\",\"d\":\"f\"},{\"a\":\"d\",\"d\":\"f\"}]", [b%"[{\"a\":\"a\",\"d\":\"e\"},{\"a\":\"d\",\"d\":\"f\"}]"]),
  (b%"$[?!\t(@.a=='b')]", b%"[{\"a\":\"a\",\"d\":\"e\"},{\"a\":\"b\",\"d\":\"f\"},{\"a\":\"d\",\"d\":\"f\"}]", [b%"[{\"a\":\"a\",\"d\":\"e\"},{\"a\":\"d\",\"d\":\"f\"}]"]),
  (b%"$[?!\x0d(@.a=='b')]", b%"[{\"a\":\"a\",\"d\":\"e\"},{\"a\":\"b\",\"d\":\"f\"},{\"a\":\"d\",\"d\":\"f\"}]", [b%"[{\"a\":\"a\",\"d\":\"e\"},{\"a\":\"d\",\"d\":\"f\"}]"]),
  (b%"$ ['a']", b%"{\"a\":\"ab\"}", [b%"[\"ab\"]"]),
  (b%"$\n['a']", b%"{\"a\":\"ab\"}", [b%"[\"ab\"]"]),
  (b%"$\t['a']", b%"{\"a\":\"ab\"}", [b%"[\"ab\"]"]),
  (b%"$\x0d['a']", b%"{\"a\":\"ab\"}", [b%"[\"ab\"]"]),
  (b%"$['a'] ['b']", b%"{\"a\":{\"b\":\"ab\"}}", [b%"[\"ab\"]"]),
  (b%"$['a'] \n['b']", b%"{\"a\":{\"b\":\"ab\"}}", [b%"[\"ab\"]"]),
  (b%"$['a'] \t['b']", b%"{\"a\":{\"b\":\"ab\"}}", [b%"[\"ab\"]"]),
  (b%"$['a'] \x0d['b']", b%"{\"a\":{\"b\":\"ab\"}}", [b%"[\"ab\"]"]),
  (b%"$ .a", b%"{\"a\":\"ab\"}", [b%"[\"ab\"]"]),
  (b%"$\n.a", b%"{\"a\":\"ab\"}", [b%"[\"ab\"]"]),
  (b%"$\t.a", b%"{\"a\":\"ab\"}", [b%"[\"ab\"]"]),
  (b%"$\x0d.a", b%"{\"a\":\"ab\"}", [b%"[\"ab\"]"]),
  (b%"$[ 'a']", b%"{\"a\":\"ab\"}", [b%"[\"ab\"]"]),
  (b%"$[\n'a']", b%"{\"a\":\"ab\"}", [b%"[\"ab\"]"]),
  (b%"$[\t'a']", b%"{\"a\":\"ab\"}", [b%"[\"ab\"]"]),
  (b%"$[\x0d'a']", b%"{\"a\":\"ab\"}", [b%"[\"ab\"]"]),
  (b%"$['a' ]", b%"{\"a\":\"ab\"}", [b%"[\"ab\"]"]),
  (b%"$['a'\n]", b%"{\"a\":\"ab\"}", [b%"[\"ab\"]"]),
  (b%"$['a'\t]", b%"{\"a\":\"ab\"}", [b%"[\"ab\"]"]),
  (b%"$['a'\x0d]", b%"{\"a\":\"ab\"}", [b%"[\"ab\"]"]),
  (b%"$['a' ,'b']", b%"{\"a\":\"ab\",\"b\":\"bc\"}", [b%"[\"ab\",\"bc\"]"]),
  (b%"$['a'\n,'b']", b%"{\"a\":\"ab\",\"b\":\"bc\"}", [b%"[\"ab\",\"bc\"]"]),
  (b%"$['a'\t,'b']", b%"{\"a\":\"ab\",\"b\":\"bc\"}", [b%"[\"ab\",\"bc\"]"]),
  (b%"$['a'\x0d,'b']", b%"{\"a\":\"ab\",\"b\":\"bc\"}", [b%"[\"ab\",\"bc\"]"]),
  (b%"$['a', 'b']", b%"{\"a\":\"ab\",\"b\":\"bc\"}", [b%"[\"ab\",\"bc\"]"]),
  (b%"$['a',\n'b']", b%"{\"a\":\"ab\",\"b\":\"bc\"}", [b%"[\"ab\",\"bc\"]"]),
  (b%"$['a',\t'b']", b%"{\"a\":\"ab\",\"b\":\"bc\"}", [b%"[\"ab\",\"bc\"]"]),
  (b%"$['a',\x0d'b']", b%"{\"a\":\"ab\",\"b\":\"bc\"}", [b%"[\"ab\",\"bc\"]"]),
  (b%"$[1 :5:2]", b%"[1,2,3,4,5,6]", [b%"[2,4]"]),
  (b%"$[1\n:5:2]", b%"[1,2,3,4,5,6]", [b%"[2,4]"]),
  (b%"$[1\t:5:2]", b%"[1,2,3,4,5,6]", [b%"[2,4]"]),
  (b%"$[1\x0d:5:2]", b%"[1,2,3,4,5,6]", [b%"[2,4]"]),
  (b%"$[1: 5:2]", b%"[1,2,3,4,5,6]", [b%"[2,4]"]),
  (b%"$[1:\n5:2]", b%"[1,2,3,4,5,6]", [b%"[2,4]"]),
  (b%"$[1:\t5:2]", b%"[1,2,3,4,5,6]", [b%"[2,4]"]),
  (b%"$[1:\x0d5:2]", b%"[1,2,3,4,5,6]", [b%"[2,4]"]),
  (b%"$[1:5 :2]", b%"[1,2,3,4,5,6]", [b%"[2,4]"]),
  (b%"$[1:5\n:2]", b%"[1,2,3,4,5,6]", [b%"[2,4]"]),
  (b%"$[1:5\t:2]", b%"[1,2,3,4,5,6]", [b%"[2,4]"]),
  (b%"$[1:5\x0d:2]", b%"[1,2,3,4,5,6]", [b%"[2,4]"]),
  (b%"$[1:5: 2]", b%"[1,2,3,4,5,6]", [b%"[2,4]"]),
  (b%"$[1:5:\n2]", b%"[1,2,3,4,5,6]", [b%"[2,4]"]),
  (b%"$[1:5:\t2]", b%"[1,2,3,4,5,6]", [b%"[2,4]"]),
  (b%"$[1:5:\x0d2]", b%"[1,2,3,4,5,6]", [b%"[2,4]"])]

theorem cts9_ok : ∀ t ∈ cts9, Selects t := selects_of_run (by decide +kernel)

end Verif.RepoTests
