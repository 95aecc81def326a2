import Verif.RepoTests

/-!
# The compliance tests of JSONPath

The tests of `/repo/transform/jsonpath/cts.json` (697 tests, of the JSONPath Compliance Test Suite), run on the model as
`/repo/transform/jsonpath/cts_test.go` runs them on the program: with the strict parser and in strict mode.  They are checked by the kernel.  This is
a check of the model; the properties do not depend on it.  Generated from `cts.json`; values are written without blanks.
-/

namespace Verif.RepoTests
open JPath

set_option maxRecDepth 20000

/-- Tests of `/repo/transform/jsonpath/cts.json` with invalid queries. -/
def ctsInvalid : List Bytes := [
  b%" $",
  b%"$ ",
  b%"$.&",
  b%"$.1",
  b%"$[0 2]",
  b%"$[,0]",
  b%"$[0,]",
  b%"$[]",
  b%"$..",
  b%"$[@.a]",
  b%"$[$.a]",
  b%"$[?@[0:0]==0]",
  b%"$[?@[*]==0]",
  b%"$[?@..a==0]",
  b%"$[?@.a[*].a==0]",
  b%"$[?(@[0, 0]==42)]",
  b%"$[?(@[0, 0]!=42)]",
  b%"$[?(@[0, 0]<=42)]",
  b%"$[?(@['a', 'a']==42)]",
  b%"$[?(@['a', 'a']!=42)]",
  b%"$[?(@['a', 'a']<=42)]",
  b%"$[?(@[0, '0']==42)]",
  b%"$[?(@[0, '0']!=42)]",
  b%"$[?(@[0, '0']<=42)]",
  b%"$[?(@.*==42)]",
  b%"$[?(@.*!=42)]",
  b%"$[?(@.*<=42)]",
  b%"$[?(@[0:0]==42)]",
  b%"$[?(@[0:0]!=42)]",
  b%"$[?(@[0:0]<=42)]",
  b%"$[?($[0, 0]==42)]",
  b%"$[?($[0, 0]!=42)]",
  b%"$[?($[0, 0]<=42)]",
  b%"$[?($['a', 'a']==42)]",
  b%"$[?($['a', 'a']!=42)]",
  b%"$[?($['a', 'a']<=42)]",
  b%"$[?($[0, '0']==42)]",
  b%"$[?($[0, '0']!=42)]",
  b%"$[?($[0, '0']<=42)]",
  b%"$[?($.*==42)]",
  b%"$[?($.*!=42)]",
  b%"$[?($.*<=42)]",
  b%"$[?($[0:0]==42)]",
  b%"$[?($[0:0]!=42)]",
  b%"$[?($[0:0]<=42)]",
  b%"$[?@.a==+1]",
  b%"$[?@.a==- 1]",
  b%"$[?@.a==--1]",
  b%"$[?@.a==.1]",
  b%"$[?@.a==-.1]",
  b%"$[?@.a==00]",
  b%"$[?@.a==01]",
  b%"$[?@.a==1.]",
  b%"$[?@.a==1.-1]",
  b%"$[?@.a==1.e1]",
  b%"$[?@.a==1e]",
  b%"$[?@.a==1e-]",
  b%"$[?@.a==1eE1]",
  b%"$[?@.a==1e--1]",
  b%"$[?@.a==1e+-1]",
  b%"$[?@.a==1e2.3]",
  b%"$[?@.a==1e2e3]",
  b%"$[?true]",
  b%"$[?false]",
  b%"$[?'abc']",
  b%"$[?2]",
  b%"$[?2.2]",
  b%"$[?null]",
  b%"$[?true && false]",
  b%"$[?true || false]",
  b%"$[?true == false && false]",
  b%"$[?true == false || false]",
  b%"$[?false && true == false]",
  b%"$[?false || true == false]",
  b%"$[?@==True]",
  b%"$[?@==False]",
  b%"$[?@==Null]",
  b%"$[-9007199254740992]",
  b%"$[9007199254740992]",
  b%"$[231584178474632390847141970017375815706539969331281128078915168015826259279872]",
  b%"$[231584178474632390847141970017375815706539969331281128078915168SomeRandomText]",
  b%"$[01]",
  b%"$[1.0]",
  b%"$[+1]",
  b%"$[- 1]",
  b%"$[-0]",
  b%"$[-01]",
  b%"$[\"\x00\"]",
  b%"$[\"\x01\"]",
  b%"$[\"\x02\"]",
  b%"$[\"\x03\"]",
  b%"$[\"\x04\"]",
  b%"$[\"\x05\"]",
  b%"$[\"\x06\"]",
  b%"$[\"\x07\"]",
  b%"$[\"\x08\"]",
  b%"$[\"\t\"]",
  b%"$[\"\n\"]",
  b%"$[\"\x0b\"]",
  b%"$[\"\x0c\"]",
  b%"$[\"\x0d\"]",
  b%"$[\"\x0e\"]",
  b%"$[\"\x0f\"]",
  b%"$[\"\x10\"]",
  b%"$[\"\x11\"]",
  b%"$[\"\x12\"]",
  b%"$[\"\x13\"]",
  b%"$[\"\x14\"]",
  b%"$[\"\x15\"]",
  b%"$[\"\x16\"]",
  b%"$[\"\x17\"]",
  b%"$[\"\x18\"]",
  b%"$[\"\x19\"]",
  b%"$[\"\x1a\"]",
  b%"$[\"\x1b\"]",
  b%"$[\"\x1c\"]",
  b%"$[\"\x1d\"]",
  b%"$[\"\x1e\"]",
  b%"$[\"\x1f\"]",
  b%"$[\"\\'\"]",
  b%"$[\"\"\"]",
  b%"$[\"\\\"]",
  b%"$[\"\\\n\"]",
  b%"$[\"\\?\"]",
  b%"$[\"\\a\"]",
  b%"$[\"\\v\"]",
  b%"$[\"\\0\"]",
  b%"$[\"\\x12\"]",
  b%"$[\"\\N{LATIN CAPITAL LETTER A}\"]",
  b%"$[\"\\u\"]",
  b%"$[\"\\u123\"]",
  b%"$[\"\\U1234\"]",
  b%"$[\"\\U0010FFFF\"]",
  b%"$[\"\\u+1234\"]",
  b%"$[\"\\u{1234}\"]",
  b%"$[\"\\u{10ffff}\"]",
  b%"$[\"\\uD800\"]",
  b%"$[\"\\uDC00\"]",
  b%"$[\"\\uD800\\uD800\"]",
  b%"$[\"\\uDC00\\uDC00\"]",
  b%"$[\"\\uD800\\u1234\"]",
  b%"$[\"\\u1234\\uDC00\"]",
  b%"$[\"\\uD800𝄞\"]",
  b%"$[\"𝄞\\uDC00\"]",
  b%"$[\"\\uD800\\uDC0\"]",
  b%"$['\x00']",
  b%"$['\x01']",
  b%"$['\x02']",
  b%"$['\x03']",
  b%"$['\x04']",
  b%"$['\x05']",
  b%"$['\x06']",
  b%"$['\x07']",
  b%"$['\x08']",
  b%"$['\t']",
  b%"$['\n']",
  b%"$['\x0b']",
  b%"$['\x0c']",
  b%"$['\x0d']",
  b%"$['\x0e']",
  b%"$['\x0f']",
  b%"$['\x10']",
  b%"$['\x11']",
  b%"$['\x12']",
  b%"$['\x13']",
  b%"$['\x14']",
  b%"$['\x15']",
  b%"$['\x16']",
  b%"$['\x17']",
  b%"$['\x18']",
  b%"$['\x19']",
  b%"$['\x1a']",
  b%"$['\x1b']",
  b%"$['\x1c']",
  b%"$['\x1d']",
  b%"$['\x1e']",
  b%"$['\x1f']",
  b%"$['\\\"']",
  b%"$[''']",
  b%"$['\\']",
  b%"$[1:2:3:4]",
  b%"$[1:2:a]",
  b%"$[-9007199254740992::]",
  b%"$[9007199254740992::]",
  b%"$[:-9007199254740992:]",
  b%"$[:9007199254740992:]",
  b%"$[::-9007199254740992]",
  b%"$[::9007199254740992]",
  b%"$[2:231584178474632390847141970017375815706539969331281128078915168015826259279872]",
  b%"$[-231584178474632390847141970017375815706539969331281128078915168015826259279872:1]",
  b%"$[231584178474632390847141970017375815706539969331281128078915168015826259279872:0:-1]",
  b%"$[3:-231584178474632390847141970017375815706539969331281128078915168015826259279872:-1]",
  b%"$[1:10:231584178474632390847141970017375815706539969331281128078915168015826259279872]",
  b%"$[-1:-10:-231584178474632390847141970017375815706539969331281128078915168015826259279872]",
  b%"$[01::]",
  b%"$[1.0::]",
  b%"$[+1::]",
  b%"$[- 1::]",
  b%"$[-0::]",
  b%"$[-01::]",
  b%"$[:01:]",
  b%"$[:1.0:]",
  b%"$[:+1:]",
  b%"$[:- 1:]",
  b%"$[:-0:]",
  b%"$[:-01:]",
  b%"$[::01]",
  b%"$[::1.0]",
  b%"$[::+1]",
  b%"$[::- 1]",
  b%"$[::-0]",
  b%"$[::-01]",
  b%"$[?count(1)>2]",
  b%"$[?count('string')>2]",
  b%"$[?count(true)>2]",
  b%"$[?count(false)>2]",
  b%"$[?count(null)>2]",
  b%"$[?count(@..*)]",
  b%"$[?count()==1]",
  b%"$[?count(@.a,@.b)==1]",
  b%"$[?length(@.a)]",
  b%"$[?length()==1]",
  b%"$[?length(@.a,@.b)==1]",
  b%"$[?length(@.*)<3]",
  b%"$[?length(@[1, 2])<3]",
  b%"$[?length(@['a', 'b'])<3]",
  b%"$[?match(@.a, 'a.*')==true]",
  b%"$[?match(@.a)==1]",
  b%"$[?match(@.a,@.b,@.c)==1]",
  b%"$[?search(@.a, 'a.*')==true]",
  b%"$[?search(@.a)]",
  b%"$[?search(@.a,@.b,@.c)]",
  b%"$[?value()==4]",
  b%"$[?value(@.a,@.b)==4]",
  b%"$[?value(@.a)]",
  b%"$[?count (@.*)==1]",
  b%"$[?count\n(@.*)==1]",
  b%"$[?count\t(@.*)==1]",
  b%"$[?count\x0d(@.*)==1]",
  b%"$. a",
  b%"$.\na",
  b%"$.\ta",
  b%"$.\x0da",
  b%"$.. a",
  b%"$..\na",
  b%"$..\ta",
  b%"$..\x0da"]

theorem ctsInvalid_ok : ∀ s ∈ ctsInvalid, Rejected s := rejected_of_run (by decide +kernel)

end Verif.RepoTests
