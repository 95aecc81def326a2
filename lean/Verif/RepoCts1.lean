import Verif.RepoTests

/-!
# The compliance tests of JSONPath

The tests of `/repo/transform/jsonpath/cts.json` (697 tests, of the JSONPath Compliance Test Suite), run on the model as
`/repo/transform/jsonpath/cts_test.go` runs them on the program: with the strict parser and in strict mode.  They are checked by the kernel.  This is
a check of the model; the properties do not depend on it.  Generated from `cts.json`; values are written without blanks.
-/

namespace Verif.RepoTests
open JPath

set_option maxRecDepth 20000

/-- Tests of `/repo/transform/jsonpath/cts.json`: query, input, possible results. -/
def cts1 : List (Bytes × Bytes × List Bytes) := [
  (b%"$", b%"[\"first\",\"second\"]", [b%"[[\"first\",\"second\"]]"]),
  (b%"$.a", b%"{\"a\":\"A\",\"b\":\"B\"}", [b%"[\"A\"]"]),
  (b%"$.\u263a", b%"{\"\u263a\":\"A\",\"b\":\"B\"}", [b%"[\"A\"]"]),
  (b%"$._", b%"{\"_\":\"A\",\"_foo\":\"B\"}", [b%"[\"A\"]"]),
  (b%"$.c", b%"{\"a\":\"A\",\"b\":\"B\"}", [b%"[]"]),
  (b%"$.a", b%"[\"first\",\"second\"]", [b%"[]"]),
  (b%"$.a.b.c", b%"{\"a\":{\"b\":{\"c\":\"C\"}}}", [b%"[\"C\"]"]),
  (b%"$.*", b%"{\"a\":\"A\",\"b\":\"B\"}", [b%"[\"A\",\"B\"]", b%"[\"B\",\"A\"]"]),
  (b%"$.*", b%"[\"first\",\"second\"]", [b%"[\"first\",\"second\"]"]),
  (b%"$[*]", b%"[\"first\",\"second\"]", [b%"[\"first\",\"second\"]"]),
  (b%"$.*.a", b%"{\"x\":{\"a\":\"Ax\",\"b\":\"Bx\"},\"y\":{\"a\":\"Ay\",\"b\":\"By\"}}", [b%"[\"Ax\",\"Ay\"]", b%"[\"Ay\",\"Ax\"]"]),
  (b%"$[0,2]", b%"[0,1,2,3,4,5,6,7,8,9]", [b%"[0,2]"]),
  (b%"$['a',1]", b%"[0,1,2,3,4,5,6,7,8,9]", [b%"[1]"]),
  (b%"$['a',1]", b%"{\"a\":1,\"b\":2}", [b%"[1]"]),
  (b%"$[1,5:7]", b%"[0,1,2,3,4,5,6,7,8,9]", [b%"[1,5,6]"]),
  (b%"$[1,0:3]", b%"[0,1,2,3,4,5,6,7,8,9]", [b%"[1,0,1,2]"]),
  (b%"$[1,1]", b%"[0,1,2,3,4,5,6,7,8,9]", [b%"[1,1]"]),
  (b%"$[*,1]", b%"[0,1,2,3,4,5,6,7,8,9]", [b%"[0,1,2,3,4,5,6,7,8,9,1]"]),
  (b%"$[*,'a']", b%"{\"a\":\"A\",\"b\":\"B\"}", [b%"[\"A\",\"B\",\"A\"]", b%"[\"B\",\"A\",\"A\"]"]),
  (b%"$[*,0:2]", b%"[0,1,2,3,4,5,6,7,8,9]", [b%"[0,1,2,3,4,5,6,7,8,9,0,1]"]),
  (b%"$[*,*]", b%"[0,1,2]", [b%"[0,1,2,0,1,2]"]),
  (b%"$..[1]", b%"{\"o\":[0,1,[2,3]]}", [b%"[1,3]"]),
  (b%"$..a", b%"{\"o\":[{\"a\":\"b\"},{\"a\":\"c\"}]}", [b%"[\"b\",\"c\"]"]),
  (b%"$.true", b%"{\"true\":\"A\",\"_foo\":\"B\"}", [b%"[\"A\"]"]),
  (b%"$.false", b%"{\"false\":\"A\",\"_foo\":\"B\"}", [b%"[\"A\"]"]),
  (b%"$.null", b%"{\"null\":\"A\",\"_foo\":\"B\"}", [b%"[\"A\"]"]),
  (b%"$..*", b%"[0,1]", [b%"[0,1]"]),
  (b%"$..[*]", b%"[0,1]", [b%"[0,1]"]),
  (b%"$..[*]", b%"[[[1]],[2]]", [b%"[[[1]],[2],[1],1,2]", b%"[[[1]],[2],[1],2,1]"]),
  (b%"$..[*]", b%"{\"a\":{\"c\":{\"e\":1}},\"b\":{\"d\":2}}", [b%"[{\"c\":{\"e\":1}},{\"d\":2},{\"e\":1},1,2]", b%"[{\"c\":{\"e\":1}},{\"d\":2},{\"e\":1},2,1]", b%"[{\"c\":{\"e\":1}},{\"d\":2},2,{\"e\":1},1]", b%"[{\"d\":2},{\"c\":{\"e\":1}},{\"e\":1},1,2]", b%"[{\"d\":2},{\"c\":{\"e\":1}},{\"e\":1},2,1]", b%"[{\"d\":2},{\"c\":{\"e\":1}},2,{\"e\":1},1]"]),
  (b%"$..*", b%"{\"a\":\"b\"}", [b%"[\"b\"]"]),
  (b%"$..*", b%"{\"o\":[{\"a\":\"b\"}]}", [b%"[[{\"a\":\"b\"}],{\"a\":\"b\"},\"b\"]"]),
  (b%"$..['a','d']", b%"[{\"a\":\"b\",\"d\":\"e\"},{\"a\":\"c\",\"d\":\"f\"}]", [b%"[\"b\",\"e\",\"c\",\"f\"]"]),
  (b%"$..['a','d']", b%"{\"x\":{\"a\":\"b\",\"d\":\"e\"},\"y\":{\"a\":\"c\",\"d\":\"f\"}}", [b%"[\"b\",\"e\",\"c\",\"f\"]", b%"[\"c\",\"f\",\"b\",\"e\"]"]),
  (b%"$[?@]", b%"{\"a\":1,\"b\":null}", [b%"[1,null]", b%"[null,1]"]),
  (b%"$[?@.a]", b%"[{\"a\":\"b\",\"d\":\"e\"},{\"b\":\"c\",\"d\":\"f\"}]", [b%"[{\"a\":\"b\",\"d\":\"e\"}]"]),
  (b%"$[?@.a]", b%"[{\"a\":null,\"d\":\"e\"},{\"b\":\"c\",\"d\":\"f\"}]", [b%"[{\"a\":null,\"d\":\"e\"}]"]),
  (b%"$[?$]", b%"{\"a\":1,\"b\":null}", [b%"[1,null]", b%"[null,1]"]),
  (b%"$[?$.*.a]", b%"[{\"a\":\"b\",\"d\":\"e\"},{\"b\":\"c\",\"d\":\"f\"}]", [b%"[{\"a\":\"b\",\"d\":\"e\"},{\"b\":\"c\",\"d\":\"f\"}]"]),
  (b%"$[?@.a=='b']", b%"[{\"a\":\"b\",\"d\":\"e\"},{\"a\":\"c\",\"d\":\"f\"}]", [b%"[{\"a\":\"b\",\"d\":\"e\"}]"]),
  (b%"$[?@.a=='1']", b%"[{\"a\":\"1\",\"d\":\"e\"},{\"a\":1,\"d\":\"f\"}]", [b%"[{\"a\":\"1\",\"d\":\"e\"}]"]),
  (b%"$[?@.a==\"b\"]", b%"[{\"a\":\"b\",\"d\":\"e\"},{\"a\":\"c\",\"d\":\"f\"}]", [b%"[{\"a\":\"b\",\"d\":\"e\"}]"]),
  (b%"$[?@.a==\"1\"]", b%"[{\"a\":\"1\",\"d\":\"e\"},{\"a\":1,\"d\":\"f\"}]", [b%"[{\"a\":\"1\",\"d\":\"e\"}]"]),
  (b%"$[?@.a==1]", b%"[{\"a\":1,\"d\":\"e\"},{\"a\":\"c\",\"d\":\"f\"},{\"a\":2,\"d\":\"f\"},{\"a\":\"1\",\"d\":\"f\"}]", [b%"[{\"a\":1,\"d\":\"e\"}]"]),
  (b%"$[?@.a==null]", b%"[{\"a\":null,\"d\":\"e\"},{\"a\":\"c\",\"d\":\"f\"}]", [b%"[{\"a\":null,\"d\":\"e\"}]"]),
  (b%"$[?@.a==null]", b%"[{\"d\":\"e\"},{\"a\":\"c\",\"d\":\"f\"}]", [b%"[]"]),
  (b%"$[?@.a==true]", b%"[{\"a\":true,\"d\":\"e\"},{\"a\":\"c\",\"d\":\"f\"}]", [b%"[{\"a\":true,\"d\":\"e\"}]"]),
  (b%"$[?@.a==false]", b%"[{\"a\":false,\"d\":\"e\"},{\"a\":\"c\",\"d\":\"f\"}]", [b%"[{\"a\":false,\"d\":\"e\"}]"]),
  (b%"$[?@==@]", b%"[1,null,true,{\"a\":\"b\"},[false]]", [b%"[1,null,true,{\"a\":\"b\"},[false]]"]),
  (b%"$[?$==$]", b%"[1,null,true,{\"a\":\"b\"},[false]]", [b%"[1,null,true,{\"a\":\"b\"},[false]]"])]

theorem cts1_ok : ∀ t ∈ cts1, Selects t := selects_of_run (by decide +kernel)

/-- Tests of `/repo/transform/jsonpath/cts.json`: query, input, possible results. -/
def cts2 : List (Bytes × Bytes × List Bytes) := [
  (b%"$[?@.absent==@.list[9]]", b%"[{\"list\":[1]}]", [b%"[{\"list\":[1]}]"]),
  (b%"$[?@.a==@.b]", b%"[{\"a\":false,\"b\":[1,2]},{\"a\":[[1,[2]]],\"b\":[[1,[2]]]},{\"a\":[[1,[2]]],\"b\":[[[2],1]]},{\"a\":[[1,[2]]],\"b\":[[1,2]]}]", [b%"[{\"a\":[[1,[2]]],\"b\":[[1,[2]]]}]"]),
  (b%"$[?@.a==@.b]", b%"[{\"a\":false,\"b\":{\"x\":1,\"y\":{\"z\":1}}},{\"a\":{\"x\":1,\"y\":{\"z\":1}},\"b\":{\"x\":1,\"y\":{\"z\":1}}},{\"a\":{\"x\":1,\"y\":{\"z\":1}},\"b\":{\"y\":{\"z\":1},\"x\":1}},{\"a\":{\"x\":1,\"y\":{\"z\":1}},\"b\":{\"x\":1}},{\"a\":{\"x\":1,\"y\":{\"z\":1}},\"b\":{\"x\":1,\"y\":{\"z\":2}}}]", [b%"[{\"a\":{\"x\":1,\"y\":{\"z\":1}},\"b\":{\"x\":1,\"y\":{\"z\":1}}},{\"a\":{\"x\":1,\"y\":{\"z\":1}},\"b\":{\"y\":{\"z\":1},\"x\":1}}]"]),
  (b%"$[?@.a!='b']", b%"[{\"a\":\"b\",\"d\":\"e\"},{\"a\":\"c\",\"d\":\"f\"}]", [b%"[{\"a\":\"c\",\"d\":\"f\"}]"]),
  (b%"$[?@.a!='1']", b%"[{\"a\":\"1\",\"d\":\"e\"},{\"a\":1,\"d\":\"f\"}]", [b%"[{\"a\":1,\"d\":\"f\"}]"]),
  (b%"$[?@.a!='b']", b%"[{\"a\":\"b\",\"d\":\"e\"},{\"a\":1,\"d\":\"f\"}]", [b%"[{\"a\":1,\"d\":\"f\"}]"]),
  (b%"$[?@.a!=\"b\"]", b%"[{\"a\":\"b\",\"d\":\"e\"},{\"a\":\"c\",\"d\":\"f\"}]", [b%"[{\"a\":\"c\",\"d\":\"f\"}]"]),
  (b%"$[?@.a!=\"1\"]", b%"[{\"a\":\"1\",\"d\":\"e\"},{\"a\":1,\"d\":\"f\"}]", [b%"[{\"a\":1,\"d\":\"f\"}]"]),
  (b%"$[?@.a!=\"b\"]", b%"[{\"a\":\"b\",\"d\":\"e\"},{\"a\":1,\"d\":\"f\"}]", [b%"[{\"a\":1,\"d\":\"f\"}]"]),
  (b%"$[?@.a!=1]", b%"[{\"a\":1,\"d\":\"e\"},{\"a\":2,\"d\":\"f\"},{\"a\":\"1\",\"d\":\"f\"}]", [b%"[{\"a\":2,\"d\":\"f\"},{\"a\":\"1\",\"d\":\"f\"}]"]),
  (b%"$[?@.a!=1]", b%"[{\"a\":1,\"d\":\"e\"},{\"a\":\"c\",\"d\":\"f\"}]", [b%"[{\"a\":\"c\",\"d\":\"f\"}]"]),
  (b%"$[?@.a!=null]", b%"[{\"a\":null,\"d\":\"e\"},{\"a\":\"c\",\"d\":\"f\"}]", [b%"[{\"a\":\"c\",\"d\":\"f\"}]"]),
  (b%"$[?@.a!=null]", b%"[{\"d\":\"e\"},{\"a\":\"c\",\"d\":\"f\"}]", [b%"[{\"d\":\"e\"},{\"a\":\"c\",\"d\":\"f\"}]"]),
  (b%"$[?@.a!=true]", b%"[{\"a\":true,\"d\":\"e\"},{\"a\":\"c\",\"d\":\"f\"}]", [b%"[{\"a\":\"c\",\"d\":\"f\"}]"]),
  (b%"$[?@.a!=false]", b%"[{\"a\":false,\"d\":\"e\"},{\"a\":\"c\",\"d\":\"f\"}]", [b%"[{\"a\":\"c\",\"d\":\"f\"}]"]),
  (b%"$[?@.a<'c']", b%"[{\"a\":\"b\",\"d\":\"e\"},{\"a\":\"c\",\"d\":\"f\"}]", [b%"[{\"a\":\"b\",\"d\":\"e\"}]"]),
  (b%"$[?@.a<\"c\"]", b%"[{\"a\":\"b\",\"d\":\"e\"},{\"a\":\"c\",\"d\":\"f\"}]", [b%"[{\"a\":\"b\",\"d\":\"e\"}]"]),
  (b%"$[?@.a<10]", b%"[{\"a\":1,\"d\":\"e\"},{\"a\":10,\"d\":\"e\"},{\"a\":\"c\",\"d\":\"f\"},{\"a\":20,\"d\":\"f\"}]", [b%"[{\"a\":1,\"d\":\"e\"}]"]),
  (b%"$[?@.a<null]", b%"[{\"a\":null,\"d\":\"e\"},{\"a\":\"c\",\"d\":\"f\"}]", [b%"[]"]),
  (b%"$[?@.a<true]", b%"[{\"a\":true,\"d\":\"e\"},{\"a\":\"c\",\"d\":\"f\"}]", [b%"[]"]),
  (b%"$[?@.a<false]", b%"[{\"a\":false,\"d\":\"e\"},{\"a\":\"c\",\"d\":\"f\"}]", [b%"[]"]),
  (b%"$[?@.a<='c']", b%"[{\"a\":\"b\",\"d\":\"e\"},{\"a\":\"c\",\"d\":\"f\"}]", [b%"[{\"a\":\"b\",\"d\":\"e\"},{\"a\":\"c\",\"d\":\"f\"}]"]),
  (b%"$[?@.a<=\"c\"]", b%"[{\"a\":\"b\",\"d\":\"e\"},{\"a\":\"c\",\"d\":\"f\"}]", [b%"[{\"a\":\"b\",\"d\":\"e\"},{\"a\":\"c\",\"d\":\"f\"}]"]),
  (b%"$[?@.a<=10]", b%"[{\"a\":1,\"d\":\"e\"},{\"a\":10,\"d\":\"e\"},{\"a\":\"c\",\"d\":\"f\"},{\"a\":20,\"d\":\"f\"}]", [b%"[{\"a\":1,\"d\":\"e\"},{\"a\":10,\"d\":\"e\"}]"]),
  (b%"$[?@.a<=null]", b%"[{\"a\":null,\"d\":\"e\"},{\"a\":\"c\",\"d\":\"f\"}]", [b%"[{\"a\":null,\"d\":\"e\"}]"]),
  (b%"$[?@.a<=true]", b%"[{\"a\":true,\"d\":\"e\"},{\"a\":\"c\",\"d\":\"f\"}]", [b%"[{\"a\":true,\"d\":\"e\"}]"]),
  (b%"$[?@.a<=false]", b%"[{\"a\":false,\"d\":\"e\"},{\"a\":\"c\",\"d\":\"f\"}]", [b%"[{\"a\":false,\"d\":\"e\"}]"]),
  (b%"$[?@.a>'c']", b%"[{\"a\":\"b\",\"d\":\"e\"},{\"a\":\"c\",\"d\":\"f\"},{\"a\":\"d\",\"d\":\"f\"}]", [b%"[{\"a\":\"d\",\"d\":\"f\"}]"]),
  (b%"$[?@.a>\"c\"]", b%"[{\"a\":\"b\",\"d\":\"e\"},{\"a\":\"c\",\"d\":\"f\"},{\"a\":\"d\",\"d\":\"f\"}]", [b%"[{\"a\":\"d\",\"d\":\"f\"}]"]),
  (b%"$[?@.a>10]", b%"[{\"a\":1,\"d\":\"e\"},{\"a\":10,\"d\":\"e\"},{\"a\":\"c\",\"d\":\"f\"},{\"a\":20,\"d\":\"f\"}]", [b%"[{\"a\":20,\"d\":\"f\"}]"]),
  (b%"$[?@.a>null]", b%"[{\"a\":null,\"d\":\"e\"},{\"a\":\"c\",\"d\":\"f\"}]", [b%"[]"]),
  (b%"$[?@.a>true]", b%"[{\"a\":true,\"d\":\"e\"},{\"a\":\"c\",\"d\":\"f\"}]", [b%"[]"]),
  (b%"$[?@.a>false]", b%"[{\"a\":false,\"d\":\"e\"},{\"a\":\"c\",\"d\":\"f\"}]", [b%"[]"]),
  (b%"$[?@.a>='c']", b%"[{\"a\":\"b\",\"d\":\"e\"},{\"a\":\"c\",\"d\":\"f\"},{\"a\":\"d\",\"d\":\"f\"}]", [b%"[{\"a\":\"c\",\"d\":\"f\"},{\"a\":\"d\",\"d\":\"f\"}]"]),
  (b%"$[?@.a>=\"c\"]", b%"[{\"a\":\"b\",\"d\":\"e\"},{\"a\":\"c\",\"d\":\"f\"},{\"a\":\"d\",\"d\":\"f\"}]", [b%"[{\"a\":\"c\",\"d\":\"f\"},{\"a\":\"d\",\"d\":\"f\"}]"]),
  (b%"$[?@.a>=10]", b%"[{\"a\":1,\"d\":\"e\"},{\"a\":10,\"d\":\"e\"},{\"a\":\"c\",\"d\":\"f\"},{\"a\":20,\"d\":\"f\"}]", [b%"[{\"a\":10,\"d\":\"e\"},{\"a\":20,\"d\":\"f\"}]"]),
  (b%"$[?@.a>=null]", b%"[{\"a\":null,\"d\":\"e\"},{\"a\":\"c\",\"d\":\"f\"}]", [b%"[{\"a\":null,\"d\":\"e\"}]"]),
  (b%"$[?@.a>=true]", b%"[{\"a\":true,\"d\":\"e\"},{\"a\":\"c\",\"d\":\"f\"}]", [b%"[{\"a\":true,\"d\":\"e\"}]"]),
  (b%"$[?@.a>=false]", b%"[{\"a\":false,\"d\":\"e\"},{\"a\":\"c\",\"d\":\"f\"}]", [b%"[{\"a\":false,\"d\":\"e\"}]"]),
  (b%"$[?@.a&&@.a!=null]", b%"[{\"d\":\"e\"},{\"a\":\"c\",\"d\":\"f\"}]", [b%"[{\"a\":\"c\",\"d\":\"f\"}]"]),
  (b%"$[?@.a&&@.b]", b%"[{\"a\":false,\"b\":false},{\"b\":false},{\"c\":false}]", [b%"[{\"a\":false,\"b\":false}]"]),
  (b%"$[?@.a||@.b]", b%"[{\"a\":false,\"b\":false},{\"b\":false},{\"c\":false}]", [b%"[{\"a\":false,\"b\":false},{\"b\":false}]"]),
  (b%"$[?@.a>0&&@.a<10]", b%"[{\"a\":-10,\"d\":\"e\"},{\"a\":5,\"d\":\"f\"},{\"a\":20,\"d\":\"f\"}]", [b%"[{\"a\":5,\"d\":\"f\"}]"]),
  (b%"$[?@.a=='b'||@.a=='d']", b%"[{\"a\":\"a\",\"d\":\"e\"},{\"a\":\"b\",\"d\":\"f\"},{\"a\":\"c\",\"d\":\"f\"},{\"a\":\"d\",\"d\":\"f\"}]", [b%"[{\"a\":\"b\",\"d\":\"f\"},{\"a\":\"d\",\"d\":\"f\"}]"]),
  (b%"$[?!(@.a=='b')]", b%"[{\"a\":\"a\",\"d\":\"e\"},{\"a\":\"b\",\"d\":\"f\"},{\"a\":\"d\",\"d\":\"f\"}]", [b%"[{\"a\":\"a\",\"d\":\"e\"},{\"a\":\"d\",\"d\":\"f\"}]"]),
  (b%"$[?!@.a]", b%"[{\"a\":\"a\",\"d\":\"e\"},{\"d\":\"f\"},{\"a\":\"d\",\"d\":\"f\"}]", [b%"[{\"d\":\"f\"}]"]),
  (b%"$[?!@.a]", b%"[{\"a\":null,\"d\":\"e\"},{\"d\":\"f\"},{\"a\":\"d\",\"d\":\"f\"}]", [b%"[{\"d\":\"f\"}]"]),
  (b%"$[?@.*]", b%"[1,[],[2],{},{\"a\":3}]", [b%"[[2],{\"a\":3}]"]),
  (b%"$[?@[0, 0, 'a']]", b%"[1,[],[2],[2,3],{\"a\":3},{\"b\":4},{\"a\":3,\"b\":4}]", [b%"[[2],[2,3],{\"a\":3},{\"a\":3,\"b\":4}]"]),
  (b%"$[?@[0:2]]", b%"[1,[],[2],[2,3,4],{},{\"a\":3}]", [b%"[[2],[2,3,4]]"])]

theorem cts2_ok : ∀ t ∈ cts2, Selects t := selects_of_run (by decide +kernel)

/-- Tests of `/repo/transform/jsonpath/cts.json`: query, input, possible results. -/
def cts3 : List (Bytes × Bytes × List Bytes) := [
  (b%"$[?!@.*]", b%"[1,[],[2],{},{\"a\":3}]", [b%"[1,[],{}]"]),
  (b%"$[?@[?@>1]]", b%"[[0],[0,1],[0,1,2],[42]]", [b%"[[0,1,2],[42]]"]),
  (b%"$[?@.a == 1]", b%"{\"a\":1}", [b%"[]"]),
  (b%"$[?@['0'] == 5]", b%"[[5,6]]", [b%"[]"]),
  (b%"$[?@[0] == 5]", b%"[{\"0\":5}]", [b%"[]"]),
  (b%"$[?@.a==1].b.x", b%"[{\"a\":1,\"b\":{\"x\":2}}]", [b%"[2]"]),
  (b%"$[?@.z=='_']['x','y']", b%"[{\"x\":1,\"y\":null,\"z\":\"_\"}]", [b%"[1,null]"]),
  (b%"$[?@.a,?@.b]", b%"[{\"a\":\"b\",\"d\":\"e\"},{\"b\":\"c\",\"d\":\"f\"}]", [b%"[{\"a\":\"b\",\"d\":\"e\"},{\"b\":\"c\",\"d\":\"f\"}]"]),
  (b%"$[?@.a=='b',?@.b=='x']", b%"[{\"a\":\"b\",\"d\":\"e\"},{\"b\":\"c\",\"d\":\"f\"}]", [b%"[{\"a\":\"b\",\"d\":\"e\"}]"]),
  (b%"$[?@.a,?@.d]", b%"[{\"a\":\"b\",\"d\":\"e\"},{\"b\":\"c\",\"d\":\"f\"}]", [b%"[{\"a\":\"b\",\"d\":\"e\"},{\"a\":\"b\",\"d\":\"e\"},{\"b\":\"c\",\"d\":\"f\"}]"]),
  (b%"$[?@.a,1]", b%"[{\"a\":\"b\",\"d\":\"e\"},{\"b\":\"c\",\"d\":\"f\"}]", [b%"[{\"a\":\"b\",\"d\":\"e\"},{\"b\":\"c\",\"d\":\"f\"}]"]),
  (b%"$[?@.a,*]", b%"[{\"a\":\"b\",\"d\":\"e\"},{\"b\":\"c\",\"d\":\"f\"}]", [b%"[{\"a\":\"b\",\"d\":\"e\"},{\"a\":\"b\",\"d\":\"e\"},{\"b\":\"c\",\"d\":\"f\"}]"]),
  (b%"$[?@.a,1:]", b%"[{\"a\":\"b\",\"d\":\"e\"},{\"b\":\"c\",\"d\":\"f\"},{\"g\":\"h\"}]", [b%"[{\"a\":\"b\",\"d\":\"e\"},{\"b\":\"c\",\"d\":\"f\"},{\"g\":\"h\"}]"]),
  (b%"$[1, ?@.a=='b', 1:]", b%"[{\"a\":\"b\",\"d\":\"e\"},{\"b\":\"c\",\"d\":\"f\"}]", [b%"[{\"b\":\"c\",\"d\":\"f\"},{\"a\":\"b\",\"d\":\"e\"},{\"b\":\"c\",\"d\":\"f\"}]"]),
  (b%"$[?@.a==0]", b%"[{\"a\":0,\"d\":\"e\"},{\"a\":0.1,\"d\":\"f\"},{\"a\":\"0\",\"d\":\"g\"}]", [b%"[{\"a\":0,\"d\":\"e\"}]"]),
  (b%"$[?@.a==-0]", b%"[{\"a\":0,\"d\":\"e\"},{\"a\":0.1,\"d\":\"f\"},{\"a\":\"0\",\"d\":\"g\"}]", [b%"[{\"a\":0,\"d\":\"e\"}]"]),
  (b%"$[?@.a==1.0]", b%"[{\"a\":1,\"d\":\"e\"},{\"a\":2,\"d\":\"f\"},{\"a\":\"1\",\"d\":\"g\"}]", [b%"[{\"a\":1,\"d\":\"e\"}]"]),
  (b%"$[?@.a==1e2]", b%"[{\"a\":100,\"d\":\"e\"},{\"a\":100.1,\"d\":\"f\"},{\"a\":\"100\",\"d\":\"g\"}]", [b%"[{\"a\":100,\"d\":\"e\"}]"]),
  (b%"$[?@.a==1E2]", b%"[{\"a\":100,\"d\":\"e\"},{\"a\":100.1,\"d\":\"f\"},{\"a\":\"100\",\"d\":\"g\"}]", [b%"[{\"a\":100,\"d\":\"e\"}]"]),
  (b%"$[?@.a==1e+2]", b%"[{\"a\":100,\"d\":\"e\"},{\"a\":100.1,\"d\":\"f\"},{\"a\":\"100\",\"d\":\"g\"}]", [b%"[{\"a\":100,\"d\":\"e\"}]"]),
  (b%"$[?@.a==1e-2]", b%"[{\"a\":0.01,\"d\":\"e\"},{\"a\":0.02,\"d\":\"f\"},{\"a\":\"0.01\",\"d\":\"g\"}]", [b%"[{\"a\":0.01,\"d\":\"e\"}]"]),
  (b%"$[?@.a==1e0]", b%"[{\"a\":1,\"d\":\"e\"},{\"a\":2,\"d\":\"f\"},{\"a\":\"1\",\"d\":\"g\"}]", [b%"[{\"a\":1,\"d\":\"e\"}]"]),
  (b%"$[?@.a==1e-0]", b%"[{\"a\":1,\"d\":\"e\"},{\"a\":2,\"d\":\"f\"},{\"a\":\"1\",\"d\":\"g\"}]", [b%"[{\"a\":1,\"d\":\"e\"}]"]),
  (b%"$[?@.a==1e+0]", b%"[{\"a\":1,\"d\":\"e\"},{\"a\":2,\"d\":\"f\"},{\"a\":\"1\",\"d\":\"g\"}]", [b%"[{\"a\":1,\"d\":\"e\"}]"]),
  (b%"$[?@.a==1e-02]", b%"[{\"a\":0.01,\"d\":\"e\"},{\"a\":0.02,\"d\":\"f\"},{\"a\":\"0.01\",\"d\":\"g\"}]", [b%"[{\"a\":0.01,\"d\":\"e\"}]"]),
  (b%"$[?@.a==1e+00]", b%"[{\"a\":1,\"d\":\"e\"},{\"a\":2,\"d\":\"f\"},{\"a\":\"1\",\"d\":\"g\"}]", [b%"[{\"a\":1,\"d\":\"e\"}]"]),
  (b%"$[?@.a==1.1]", b%"[{\"a\":1.1,\"d\":\"e\"},{\"a\":1,\"d\":\"f\"},{\"a\":\"1.1\",\"d\":\"g\"}]", [b%"[{\"a\":1.1,\"d\":\"e\"}]"]),
  (b%"$[?@.a==1.10]", b%"[{\"a\":1.1,\"d\":\"e\"},{\"a\":1,\"d\":\"f\"},{\"a\":\"1.1\",\"d\":\"g\"}]", [b%"[{\"a\":1.1,\"d\":\"e\"}]"]),
  (b%"$[?@.a==1.1e2]", b%"[{\"a\":110,\"d\":\"e\"},{\"a\":110.1,\"d\":\"f\"},{\"a\":\"110\",\"d\":\"g\"}]", [b%"[{\"a\":110,\"d\":\"e\"}]"]),
  (b%"$[?@.a==1.1e+2]", b%"[{\"a\":110,\"d\":\"e\"},{\"a\":110.1,\"d\":\"f\"},{\"a\":\"110\",\"d\":\"g\"}]", [b%"[{\"a\":110,\"d\":\"e\"}]"]),
  (b%"$[?@.a==1.1e-2]", b%"[{\"a\":0.011,\"d\":\"e\"},{\"a\":0.012,\"d\":\"f\"},{\"a\":\"0.011\",\"d\":\"g\"}]", [b%"[{\"a\":0.011,\"d\":\"e\"}]"]),
  (b%"$.values[?length(@.a) == value($..c)]", b%"{\"c\":\"cd\",\"values\":[{\"a\":\"ab\"},{\"c\":\"d\"},{\"a\":null}]}", [b%"[{\"c\":\"d\"},{\"a\":null}]"]),
  (b%"$[?@.a == @.b]", b%"[{\"a\":1},{\"b\":2},{\"c\":3}]", [b%"[{\"c\":3}]"]),
  (b%"$[?@.a == length(@.b)]", b%"[{\"a\":1},{\"b\":2},{\"c\":3}]", [b%"[{\"b\":2},{\"c\":3}]"]),
  (b%"$[?@<3]", b%"{\"a\":1,\"b\":2,\"c\":3}", [b%"[1,2]", b%"[2,1]"]),
  (b%"$[?@.a && @.b && @.c]", b%"[{\"a\":1,\"b\":2},{\"a\":1,\"c\":3},{\"b\":2,\"c\":3},{\"a\":1,\"b\":2,\"c\":3}]", [b%"[{\"a\":1,\"b\":2,\"c\":3}]"]),
  (b%"$[?@.a || @.b || @.c]", b%"[{\"a\":1,\"b\":2},{\"a\":1,\"c\":3},{\"b\":2,\"c\":3},{\"a\":1,\"b\":2,\"c\":3}]", [b%"[{\"a\":1,\"b\":2},{\"a\":1,\"c\":3},{\"b\":2,\"c\":3},{\"a\":1,\"b\":2,\"c\":3}]"]),
  (b%"$[?@.a && @.b && @.c && @.d && @.e]", b%"[{\"a\":1,\"b\":2,\"c\":3,\"d\":4},{\"b\":2,\"c\":3,\"d\":4,\"e\":5},{\"a\":1,\"c\":3,\"e\":5},{\"a\":1,\"b\":2,\"c\":3,\"d\":4,\"e\":5}]", [b%"[{\"a\":1,\"b\":2,\"c\":3,\"d\":4,\"e\":5}]"]),
  (b%"$[?@.a || @.b || @.c || @.d || @.e]", b%"[{\"a\":1,\"b\":2,\"c\":3,\"d\":4},{\"b\":2,\"c\":3,\"d\":4,\"e\":5},{\"a\":1,\"c\":3,\"e\":5},{\"a\":1,\"b\":2,\"c\":3,\"d\":4,\"e\":5}]", [b%"[{\"a\":1,\"b\":2,\"c\":3,\"d\":4},{\"b\":2,\"c\":3,\"d\":4,\"e\":5},{\"a\":1,\"c\":3,\"e\":5},{\"a\":1,\"b\":2,\"c\":3,\"d\":4,\"e\":5}]"]),
  (b%"$[?@.a && @.b && @.c || @.d || @.e]", b%"[{\"a\":1},{\"e\":5},{\"a\":1,\"b\":2},{\"d\":4,\"e\":5},{\"a\":1,\"b\":2,\"c\":3},{\"c\":3,\"d\":4,\"e\":5},{\"a\":1,\"c\":3,\"e\":5},{\"a\":1,\"b\":2,\"c\":3,\"d\":4,\"e\":5}]", [b%"[{\"e\":5},{\"d\":4,\"e\":5},{\"a\":1,\"b\":2,\"c\":3},{\"c\":3,\"d\":4,\"e\":5},{\"a\":1,\"c\":3,\"e\":5},{\"a\":1,\"b\":2,\"c\":3,\"d\":4,\"e\":5}]"]),
  (b%"$[?@.a || @.b && @.c]", b%"[{\"a\":1},{\"b\":2,\"c\":3},{\"c\":3},{\"b\":2},{\"a\":1,\"b\":2,\"c\":3}]", [b%"[{\"a\":1},{\"b\":2,\"c\":3},{\"a\":1,\"b\":2,\"c\":3}]"]),
  (b%"$[?@.a && @.b || @.c]", b%"[{\"a\":1},{\"b\":2},{\"a\":1,\"b\":2},{\"a\":1,\"c\":3},{\"b\":1,\"c\":3},{\"c\":3},{\"a\":1,\"b\":2,\"c\":3}]", [b%"[{\"a\":1,\"b\":2},{\"a\":1,\"c\":3},{\"b\":1,\"c\":3},{\"c\":3},{\"a\":1,\"b\":2,\"c\":3}]"]),
  (b%"$[?(@.a || @.b) && @.c]", b%"[{\"a\":1,\"b\":2},{\"a\":1,\"c\":3},{\"b\":2,\"c\":3},{\"a\":1},{\"b\":2},{\"c\":3},{\"a\":1,\"b\":2,\"c\":3}]", [b%"[{\"a\":1,\"c\":3},{\"b\":2,\"c\":3},{\"a\":1,\"b\":2,\"c\":3}]"]),
  (b%"$[?@.a && (@.b || @.c)]", b%"[{\"a\":1},{\"a\":1,\"b\":2},{\"a\":1,\"c\":2},{\"b\":2},{\"c\":2},{\"a\":1,\"b\":2,\"c\":3}]", [b%"[{\"a\":1,\"b\":2},{\"a\":1,\"c\":2},{\"a\":1,\"b\":2,\"c\":3}]"]),
  (b%"$[?@ == \"quoted' literal\"]", b%"[\"quoted' literal\",\"a\",\"quoted\\\\' literal\"]", [b%"[\"quoted' literal\"]"]),
  (b%"$[?@ == 'quoted\" literal']", b%"[\"quoted\\\" literal\",\"a\",\"quoted\\\\\\\" literal\",\"'quoted\\\" literal'\"]", [b%"[\"quoted\\\" literal\"]"]),
  (b%"$[?@ == 'quoted\\' literal']", b%"[\"quoted' literal\",\"a\",\"quoted\\\\' literal\",\"'quoted\\\" literal'\"]", [b%"[\"quoted' literal\"]"]),
  (b%"$[?@ == \"quoted\\\" literal\"]", b%"[\"quoted\\\" literal\",\"a\",\"quoted\\\\\\\" literal\",\"'quoted\\\" literal'\"]", [b%"[\"quoted\\\" literal\"]"]),
  (b%"$[0]", b%"[\"first\",\"second\"]", [b%"[\"first\"]"]),
  (b%"$[1]", b%"[\"first\",\"second\"]", [b%"[\"second\"]"])]

theorem cts3_ok : ∀ t ∈ cts3, Selects t := selects_of_run (by decide +kernel)

end Verif.RepoTests
