import Verif.Token

/-!
# Transforms that work directly on tokens

Model of `MaxDepthFilter`, `JoinStream` and `TraceStream`, `/repo/transform/builtin.go`.  The input channel
is the list of its tokens, the output is the list of the tokens that were put.
-/

namespace Verif

/-- Loop of `MaxDepthFilter.Transform` with the current value of `depth`.
Go: `/repo/transform/builtin.go:34-52`. -/
def maxDepthLoop (m : Int) : Int → List Token → List Token
  | _, [] => []
  | depth, t :: ts =>
    let postIncr : Int := if t.isStart then 1 else 0
    let depth := if t.isEnd then depth - 1 else depth
    (if depth ≤ m then [t] else []) ++
      ((if depth = m ∧ postIncr > 0 then [.elision] else []) ++ maxDepthLoop m (depth + postIncr) ts)

/-- Go: `MaxDepthFilter.Transform`, `/repo/transform/builtin.go:34-52`. -/
def maxDepthFilter (m : Int) (ts : List Token) : List Token := maxDepthLoop m 0 ts

/-- Go: `JoinStream.Transform`, `/repo/transform/builtin.go:85-91`. -/
def joinStream (ts : List Token) : List Token := .startArr :: (ts ++ [.endArr])

/-- Go: `TraceStream.Transform`, `/repo/transform/builtin.go:98-102` (the log output is not modelled). -/
def traceStream (_ : List Token) : List Token := []

end Verif
