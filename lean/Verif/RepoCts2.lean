import Verif.RepoTests

/-!
# The compliance tests of JSONPath

The tests of `/repo/transform/jsonpath/cts.json` (697 tests, of the JSONPath Compliance Test Suite), run on the model as
`/repo/transform/jsonpath/cts_test.go` runs them on the program: with the strict parser and in strict mode.  They are checked by the kernel.  This is
a check of the model; the properties do not depend on it.  Generated from `cts.json`; values are written without blanks.
-/

namespace Verif.RepoTests
open JPath

set_option maxRecDepth 20000

/-- Tests of `/repo/transform/jsonpath/cts.json`: query, input, possible results. -/
def cts4 : List (Bytes × Bytes × List Bytes) := [
  (b%"$[2]", b%"[\"first\",\"second\"]", [b%"[]"]),
  (b%"$[-9007199254740991]", b%"[\"first\",\"second\"]", [b%"[]"]),
  (b%"$[9007199254740991]", b%"[\"first\",\"second\"]", [b%"[]"]),
  (b%"$[-1]", b%"[\"first\",\"second\"]", [b%"[\"second\"]"]),
  (b%"$[-2]", b%"[\"first\",\"second\"]", [b%"[\"first\"]"]),
  (b%"$[-3]", b%"[\"first\",\"second\"]", [b%"[]"]),
  (b%"$[0]", b%"{\"foo\":1}", [b%"[]"]),
  (b%"$[\"a\"]", b%"{\"a\":\"A\",\"b\":\"B\"}", [b%"[\"A\"]"]),
  (b%"$[\"c\"]", b%"{\"a\":\"A\",\"b\":\"B\"}", [b%"[]"]),
  (b%"$[\"a\"]", b%"[\"first\",\"second\"]", [b%"[]"]),
  (b%"$[\"a'\"]", b%"{\"a'\":\"A\",\"b\":\"B\"}", [b%"[\"A\"]"]),
  (b%"$[\"a\"][\"b\"][\"c\"]", b%"{\"a\":{\"b\":{\"c\":\"C\"}}}", [b%"[\"C\"]"]),
  (b%"$[\" \"]", b%"{\" \":\"A\"}", [b%"[\"A\"]"]),
  (b%"$[\"\x7f\"]", b%"{\"\x7f\":\"A\"}", [b%"[\"A\"]"]),
  (b%"$[\"𝄞\"]", b%"{\"𝄞\":\"A\"}", [b%"[\"A\"]"]),
  (b%"$[\"\\\"\"]", b%"{\"\\\"\":\"A\"}", [b%"[\"A\"]"]),
  (b%"$[\"\\\\\"]", b%"{\"\\\\\":\"A\"}", [b%"[\"A\"]"]),
  (b%"$[\"\\/\"]", b%"{\"/\":\"A\"}", [b%"[\"A\"]"]),
  (b%"$[\"\\b\"]", b%"{\"\\b\":\"A\"}", [b%"[\"A\"]"]),
  (b%"$[\"\\f\"]", b%"{\"\\f\":\"A\"}", [b%"[\"A\"]"]),
  (b%"$[\"\\n\"]", b%"{\"\\n\":\"A\"}", [b%"[\"A\"]"]),
  (b%"$[\"\\r\"]", b%"{\"\\r\":\"A\"}", [b%"[\"A\"]"]),
  (b%"$[\"\\t\"]", b%"{\"\\t\":\"A\"}", [b%"[\"A\"]"]),
  (b%"$[\"\\u263A\"]", b%"{\"\u263a\":\"A\"}", [b%"[\"A\"]"]),
  (b%"$[\"\\u263a\"]", b%"{\"\u263a\":\"A\"}", [b%"[\"A\"]"]),
  (b%"$[\"\\uD834\\uDD1E\"]", b%"{\"𝄞\":\"A\"}", [b%"[\"A\"]"]),
  (b%"$[\"\\uD83D\\uDE00\"]", b%"{\"😀\":\"A\"}", [b%"[\"A\"]"]),
  (b%"$[\"\\uD7FF\\uD7FF\"]", b%"{\"\ud7ff\ud7ff\":\"A\"}", [b%"[\"A\"]"]),
  (b%"$[\"\\uE000\\uE000\"]", b%"{\"\ue000\ue000\":\"A\"}", [b%"[\"A\"]"]),
  (b%"$['a']", b%"{\"a\":\"A\",\"b\":\"B\"}", [b%"[\"A\"]"]),
  (b%"$['c']", b%"{\"a\":\"A\",\"b\":\"B\"}", [b%"[]"]),
  (b%"$['a']", b%"[\"first\",\"second\"]", [b%"[]"]),
  (b%"$[' ']", b%"{\" \":\"A\"}", [b%"[\"A\"]"]),
  (b%"$['\\'']", b%"{\"'\":\"A\"}", [b%"[\"A\"]"]),
  (b%"$['\\\\']", b%"{\"\\\\\":\"A\"}", [b%"[\"A\"]"]),
  (b%"$['\\/']", b%"{\"/\":\"A\"}", [b%"[\"A\"]"]),
  (b%"$['\\b']", b%"{\"\\b\":\"A\"}", [b%"[\"A\"]"]),
  (b%"$['\\f']", b%"{\"\\f\":\"A\"}", [b%"[\"A\"]"]),
  (b%"$['\\n']", b%"{\"\\n\":\"A\"}", [b%"[\"A\"]"]),
  (b%"$['\\r']", b%"{\"\\r\":\"A\"}", [b%"[\"A\"]"]),
  (b%"$['\\t']", b%"{\"\\t\":\"A\"}", [b%"[\"A\"]"]),
  (b%"$['\\u263A']", b%"{\"\u263a\":\"A\"}", [b%"[\"A\"]"]),
  (b%"$['\\u263a']", b%"{\"\u263a\":\"A\"}", [b%"[\"A\"]"]),
  (b%"$['\\uD834\\uDD1E']", b%"{\"𝄞\":\"A\"}", [b%"[\"A\"]"]),
  (b%"$['\\uD83D\\uDE00']", b%"{\"😀\":\"A\"}", [b%"[\"A\"]"]),
  (b%"$[\"\"]", b%"{\"a\":\"A\",\"b\":\"B\",\"\":\"C\"}", [b%"[\"C\"]"]),
  (b%"$['']", b%"{\"a\":\"A\",\"b\":\"B\",\"\":\"C\"}", [b%"[\"C\"]"]),
  (b%"$[1:3]", b%"[0,1,2,3,4,5,6,7,8,9]", [b%"[1,2]"]),
  (b%"$[1:6:2]", b%"[0,1,2,3,4,5,6,7,8,9]", [b%"[1,3,5]"]),
  (b%"$[:]", b%"[0,1,2,3]", [b%"[0,1,2,3]"])]

theorem cts4_ok : ∀ t ∈ cts4, Selects t := selects_of_run (by decide +kernel)

/-- Tests of `/repo/transform/jsonpath/cts.json`: query, input, possible results. -/
def cts5 : List (Bytes × Bytes × List Bytes) := [
  (b%"$[::]", b%"[0,1,2,3]", [b%"[0,1,2,3]"]),
  (b%"$[:2]", b%"[0,1,2,3,4,5,6,7,8,9]", [b%"[0,1]"]),
  (b%"$[::2]", b%"[0,1,2,3,4,5,6,7,8,9]", [b%"[0,2,4,6,8]"]),
  (b%"$[::-1]", b%"[0,1,2,3]", [b%"[3,2,1,0]"]),
  (b%"$[:0:-1]", b%"[0,1,2,3]", [b%"[3,2,1]"]),
  (b%"$[2::-1]", b%"[0,1,2,3]", [b%"[2,1,0]"]),
  (b%"$[::-2]", b%"[0,1,2,3]", [b%"[3,1]"]),
  (b%"$[-1:-3]", b%"[0,1,2,3,4,5,6,7,8,9]", [b%"[]"]),
  (b%"$[-1:-3:-1]", b%"[0,1,2,3,4,5,6,7,8,9]", [b%"[9,8]"]),
  (b%"$[-1:-6:-2]", b%"[0,1,2,3,4,5,6,7,8,9]", [b%"[9,7,5]"]),
  (b%"$[-1:-7:-2]", b%"[0,1,2,3,4,5,6,7,8,9]", [b%"[9,7,5]"]),
  (b%"$[-5:7]", b%"[0,1,2,3,4,5,6,7,8,9]", [b%"[5,6]"]),
  (b%"$[-2:]", b%"[0,1,2,3,4,5,6,7,8,9]", [b%"[8,9]"]),
  (b%"$[1:-1]", b%"[0,1,2,3,4,5,6,7,8,9]", [b%"[1,2,3,4,5,6,7,8]"]),
  (b%"$[-1:1:-1]", b%"[0,1,2,3,4,5,6,7,8,9]", [b%"[9,8,7,6,5,4,3,2]"]),
  (b%"$[7:-5:-1]", b%"[0,1,2,3,4,5,6,7,8,9]", [b%"[7,6]"]),
  (b%"$[1:3][1:2]", b%"[[\"a\",\"b\",\"c\"],[\"d\",\"e\",\"f\"],[\"g\",\"h\",\"i\"]]", [b%"[\"e\",\"h\"]"]),
  (b%"$[1:3][::]", b%"[0,1,2,3,4,5]", [b%"[]"]),
  (b%"$[-5:-2]", b%"[0,1,2,3,4,5,6,7,8,9]", [b%"[5,6,7]"]),
  (b%"$[1:2:0]", b%"[0,1,2,3,4,5,6,7,8,9]", [b%"[]"]),
  (b%"$[2:2]", b%"[0,1,2,3,4,5,6,7,8,9]", [b%"[]"]),
  (b%"$[:]", b%"[]", [b%"[]"]),
  (b%"$[::-1]", b%"[]", [b%"[]"]),
  (b%"$[0:10]", b%"[0,1,2,3,4,5,6,7,8,9]", [b%"[0,1,2,3,4,5,6,7,8,9]"]),
  (b%"$[9:0:-1]", b%"[0,1,2,3,4,5,6,7,8,9]", [b%"[9,8,7,6,5,4,3,2,1]"]),
  (b%"$[2:113667776004]", b%"[0,1,2,3,4,5,6,7,8,9]", [b%"[2,3,4,5,6,7,8,9]"]),
  (b%"$[-113667776004:1]", b%"[0,1,2,3,4,5,6,7,8,9]", [b%"[0]"]),
  (b%"$[113667776004:0:-1]", b%"[0,1,2,3,4,5,6,7,8,9]", [b%"[9,8,7,6,5,4,3,2,1]"]),
  (b%"$[3:-113667776004:-1]", b%"[0,1,2,3,4,5,6,7,8,9]", [b%"[3,2,1,0]"]),
  (b%"$[1:10:113667776004]", b%"[0,1,2,3,4,5,6,7,8,9]", [b%"[1]"]),
  (b%"$[-1:-10:-113667776004]", b%"[0,1,2,3,4,5,6,7,8,9]", [b%"[9]"]),
  (b%"$[-9007199254740991::]", b%"[]", [b%"[]"]),
  (b%"$[9007199254740991::]", b%"[]", [b%"[]"]),
  (b%"$[:-9007199254740991:]", b%"[]", [b%"[]"]),
  (b%"$[:9007199254740991:]", b%"[]", [b%"[]"]),
  (b%"$[::-9007199254740991]", b%"[]", [b%"[]"]),
  (b%"$[::9007199254740991]", b%"[]", [b%"[]"]),
  (b%"$[?count(@..*)>2]", b%"[{\"a\":[1,2,3]},{\"a\":[1],\"d\":\"f\"},{\"a\":1,\"d\":\"f\"}]", [b%"[{\"a\":[1,2,3]},{\"a\":[1],\"d\":\"f\"}]"]),
  (b%"$[?count(@.a)>1]", b%"[{\"a\":[1,2,3]},{\"a\":[1],\"d\":\"f\"},{\"a\":1,\"d\":\"f\"}]", [b%"[]"]),
  (b%"$[?count(@['a','d'])>1]", b%"[{\"a\":[1,2,3]},{\"a\":[1],\"d\":\"f\"},{\"a\":1,\"d\":\"f\"}]", [b%"[{\"a\":[1],\"d\":\"f\"},{\"a\":1,\"d\":\"f\"}]"]),
  (b%"$[?length(@.a)>=2]", b%"[{\"a\":\"ab\"},{\"a\":\"d\"}]", [b%"[{\"a\":\"ab\"}]"]),
  (b%"$[?length(@)==2]", b%"[\"\u263a\",\"\u263a\u263a\",\"\u263a\u263a\u263a\",\"\u0436\",\"\u0436\u0436\",\"\u0436\u0436\u0436\",\"\u78e8\",\"\u963f\u7f8e\",\"\u5f62\u58f0\u5b57\"]", [b%"[\"\u263a\u263a\",\"\u0436\u0436\",\"\u963f\u7f8e\"]"]),
  (b%"$[?length(@.a)>=2]", b%"[{\"a\":[1,2,3]},{\"a\":[1]}]", [b%"[{\"a\":[1,2,3]}]"]),
  (b%"$[?length(@.a)>=2]", b%"[{\"d\":\"f\"}]", [b%"[]"]),
  (b%"$[?length(1)>=2]", b%"[{\"d\":\"f\"}]", [b%"[]"]),
  (b%"$[?length(true)>=2]", b%"[{\"d\":\"f\"}]", [b%"[]"]),
  (b%"$[?length(false)>=2]", b%"[{\"d\":\"f\"}]", [b%"[]"]),
  (b%"$[?length(null)>=2]", b%"[{\"d\":\"f\"}]", [b%"[]"]),
  (b%"$.values[?length(@.a)==length(value($..c))]", b%"{\"c\":\"cd\",\"values\":[{\"a\":\"ab\"},{\"a\":\"d\"}]}", [b%"[{\"a\":\"ab\"}]"]),
  (b%"$[?length(value(@.a))>0]", b%"[{\"a\":\"ab\"},{\"c\":\"d\"},{\"a\":null}]", [b%"[{\"a\":\"ab\"}]"])]

theorem cts5_ok : ∀ t ∈ cts5, Selects t := selects_of_run (by decide +kernel)

/-- Tests of `/repo/transform/jsonpath/cts.json`: query, input, possible results. -/
def cts6 : List (Bytes × Bytes × List Bytes) := [
  (b%"$[?match(@.a, 'a.*')]", b%"[{\"a\":\"ab\"}]", [b%"[{\"a\":\"ab\"}]"]),
  (b%"$[?match(@.a, \"a.*\")]", b%"[{\"a\":\"ab\"}]", [b%"[{\"a\":\"ab\"}]"]),
  (b%"$.values[?match(@, $.regex)]", b%"{\"regex\":\"b.?b\",\"values\":[\"abc\",\"bcd\",\"bab\",\"bba\",\"bbab\",\"b\",true,[],{}]}", [b%"[\"bab\"]"]),
  (b%"$[?!match(@.a, 'a.*')]", b%"[{\"a\":\"ab\"}]", [b%"[]"]),
  (b%"$[?match(@.a, 'a.*')]", b%"[{\"a\":\"bc\"}]", [b%"[]"]),
  (b%"$[?!match(@.a, 'a.*')]", b%"[{\"a\":\"bc\"}]", [b%"[{\"a\":\"bc\"}]"]),
  (b%"$[?match(1, 'a.*')]", b%"[{\"a\":\"bc\"}]", [b%"[]"]),
  (b%"$[?match(@.a, 1)]", b%"[{\"a\":\"bc\"}]", [b%"[]"]),
  (b%"$[?match(@, '\\\\p{Lu}')]", b%"[\"\u0436\",\"\u0416\",\"1\",\"\u0436\u0416\",true,[],{}]", [b%"[\"\u0416\"]"]),
  (b%"$[?match(@, '\\\\P{Lu}')]", b%"[\"\u0436\",\"\u0416\",\"1\",true,[],{}]", [b%"[\"\u0436\",\"1\"]"]),
  (b%"$[?match(@, 'a.b')]", b%"[\"a𐄁b\",\"ab\",\"1\",true,[],{}]", [b%"[\"a𐄁b\"]"]),
  (b%"$[?match(@, '.')]", b%"[\"\u2028\",\"\\r\",\"\\n\",true,[],{}]", [b%"[\"\u2028\"]"]),
  (b%"$[?match(@, '.')]", b%"[\"\u2029\",\"\\r\",\"\\n\",true,[],{}]", [b%"[\"\u2029\"]"]),
  (b%"$.values[?match(@.a, value($..['regex']))]", b%"{\"regex\":\"a.*\",\"values\":[{\"a\":\"ab\"},{\"a\":\"ba\"}]}", [b%"[{\"a\":\"ab\"}]"]),
  (b%"$[?match(@, 'a[.b]c')]", b%"[\"abc\",\"a.c\",\"axc\"]", [b%"[\"abc\",\"a.c\"]"]),
  (b%"$[?match(@, 'a\\\\.c')]", b%"[\"abc\",\"a.c\",\"axc\"]", [b%"[\"a.c\"]"]),
  (b%"$[?match(@, 'a\\\\\\\\.c')]", b%"[\"abc\",\"a.c\",\"axc\",\"a\\\\\u2028c\"]", [b%"[\"a\\\\\u2028c\"]"]),
  (b%"$[?match(@, 'a\\\\[.c')]", b%"[\"abc\",\"a.c\",\"a[\u2028c\"]", [b%"[\"a[\u2028c\"]"]),
  (b%"$[?match(@, 'a[\\\\].]c')]", b%"[\"abc\",\"a.c\",\"a\u2028c\",\"a]c\"]", [b%"[\"a.c\",\"a]c\"]"]),
  (b%"$[?match(@, '^ab.*')]", b%"[\"abc\",\"axc\",\"ab\",\"xab\"]", [b%"[\"abc\",\"ab\"]"]),
  (b%"$[?match(@, '.*bc$')]", b%"[\"abc\",\"axc\",\"ab\",\"abcx\"]", [b%"[\"abc\"]"]),
  (b%"$[?search(@.a, 'a.*')]", b%"[{\"a\":\"the end is ab\"}]", [b%"[{\"a\":\"the end is ab\"}]"]),
  (b%"$[?search(@.a, \"a.*\")]", b%"[{\"a\":\"the end is ab\"}]", [b%"[{\"a\":\"the end is ab\"}]"]),
  (b%"$[?search(@.a, 'a.*')]", b%"[{\"a\":\"ab is at the start\"}]", [b%"[{\"a\":\"ab is at the start\"}]"]),
  (b%"$[?search(@.a, 'a.*')]", b%"[{\"a\":\"contains two matches\"}]", [b%"[{\"a\":\"contains two matches\"}]"]),
  (b%"$.values[?search(@, $.regex)]", b%"{\"regex\":\"b.?b\",\"values\":[\"abc\",\"bcd\",\"bab\",\"bba\",\"bbab\",\"b\",true,[],{}]}", [b%"[\"bab\",\"bba\",\"bbab\"]"]),
  (b%"$[?!search(@.a, 'a.*')]", b%"[{\"a\":\"contains two matches\"}]", [b%"[]"]),
  (b%"$[?search(@.a, 'a.*')]", b%"[{\"a\":\"bc\"}]", [b%"[]"]),
  (b%"$[?!search(@.a, 'a.*')]", b%"[{\"a\":\"bc\"}]", [b%"[{\"a\":\"bc\"}]"]),
  (b%"$[?search(1, 'a.*')]", b%"[{\"a\":\"bc\"}]", [b%"[]"]),
  (b%"$[?search(@.a, 1)]", b%"[{\"a\":\"bc\"}]", [b%"[]"]),
  (b%"$[?search(@, '\\\\p{Lu}')]", b%"[\"\u0436\",\"\u0416\",\"1\",\"\u0436\u0416\",true,[],{}]", [b%"[\"\u0416\",\"\u0436\u0416\"]"]),
  (b%"$[?search(@, '\\\\P{Lu}')]", b%"[\"\u0436\",\"\u0416\",\"1\",true,[],{}]", [b%"[\"\u0436\",\"1\"]"]),
  (b%"$[?search(@, 'a.b')]", b%"[\"a𐄁bc\",\"abc\",\"1\",true,[],{}]", [b%"[\"a𐄁bc\"]"]),
  (b%"$[?search(@, '.')]", b%"[\"\u2028\",\"\\r\u2028\\n\",\"\\r\",\"\\n\",true,[],{}]", [b%"[\"\u2028\",\"\\r\u2028\\n\"]"]),
  (b%"$[?search(@, '.')]", b%"[\"\u2029\",\"\\r\u2029\\n\",\"\\r\",\"\\n\",true,[],{}]", [b%"[\"\u2029\",\"\\r\u2029\\n\"]"]),
  (b%"$.values[?search(@, value($..['regex']))]", b%"{\"regex\":\"b.?b\",\"values\":[\"abc\",\"bcd\",\"bab\",\"bba\",\"bbab\",\"b\",true,[],{}]}", [b%"[\"bab\",\"bba\",\"bbab\"]"]),
  (b%"$[?search(@, 'a[.b]c')]", b%"[\"x abc y\",\"x a.c y\",\"x axc y\"]", [b%"[\"x abc y\",\"x a.c y\"]"]),
  (b%"$[?search(@, 'a\\\\.c')]", b%"[\"x abc y\",\"x a.c y\",\"x axc y\"]", [b%"[\"x a.c y\"]"]),
  (b%"$[?search(@, 'a\\\\\\\\.c')]", b%"[\"x abc y\",\"x a.c y\",\"x axc y\",\"x a\\\\\u2028c y\"]", [b%"[\"x a\\\\\u2028c y\"]"]),
  (b%"$[?search(@, 'a\\\\[.c')]", b%"[\"x abc y\",\"x a.c y\",\"x a[\u2028c y\"]", [b%"[\"x a[\u2028c y\"]"]),
  (b%"$[?search(@, 'a[\\\\].]c')]", b%"[\"x abc y\",\"x a.c y\",\"x a\u2028c y\",\"x a]c y\"]", [b%"[\"x a.c y\",\"x a]c y\"]"]),
  (b%"$[?value(@.*)==4]", b%"[[4],{\"foo\":4},[5],{\"foo\":5},4]", [b%"[[4],{\"foo\":4}]"]),
  (b%"$[?value(@.*)==4]", b%"[[4,4],{\"foo\":4,\"bar\":4}]", [b%"[]"]),
  (b%"$[? @.a]", b%"[{\"a\":\"b\",\"d\":\"e\"},{\"b\":\"c\",\"d\":\"f\"}]", [b%"[{\"a\":\"b\",\"d\":\"e\"}]"]),
  (b%"$[?\n@.a]", b%"[{\"a\":\"b\",\"d\":\"e\"},{\"b\":\"c\",\"d\":\"f\"}]", [b%"[{\"a\":\"b\",\"d\":\"e\"}]"]),
  (b%"$[?\t@.a]", b%"[{\"a\":\"b\",\"d\":\"e\"},{\"b\":\"c\",\"d\":\"f\"}]", [b%"[{\"a\":\"b\",\"d\":\"e\"}]"]),
  (b%"$[?\x0d@.a]", b%"[{\"a\":\"b\",\"d\":\"e\"},{\"b\":\"c\",\"d\":\"f\"}]", [b%"[{\"a\":\"b\",\"d\":\"e\"}]"]),
  (b%"$[? (@.a)]", b%"[{\"a\":\"b\",\"d\":\"e\"},{\"b\":\"c\",\"d\":\"f\"}]", [b%"[{\"a\":\"b\",\"d\":\"e\"}]"]),
  (b%"$[?\n(@.a)]", b%"[{\"a\":\"b\",\"d\":\"e\"},{\"b\":\"c\",\"d\":\"f\"}]", [b%"[{\"a\":\"b\",\"d\":\"e\"}]"])]

theorem cts6_ok : ∀ t ∈ cts6, Selects t := selects_of_run (by decide +kernel)

end Verif.RepoTests
