import Verif.ProgramLemmas
import Verif.JsonCompact
import Verif.Props.C01

/-!
# C60: The help texts
-/

namespace Verif.Cmd
open JPath

/-- Specification: the colours of the help text, `/repo/cmd/jp/main.go:590-594`. -/
def helpColor (s : Scalar) : Bytes :=
  if s.key then escape b%"34;1" else match s.type with
    | .str => escape b%"33"
    | .num => escape b%"37"
    | .bool => escape b%"32"
    | .null => escape b%"32"

/-- Keys are bright blue and numbers are white, as the help text says.  Missing: the other scalars. -/
theorem C60_colors_partial {s : Scalar} (h : s.key = true ∨ s.type = .num) : defaultColorizer.code s = helpColor s := by
  unfold Colorizer.code helpColor defaultColorizer
  by_cases hk : s.key = true
  · simp [hk]
  · rcases h with h | h
    · exact absurd h hk
    · simp [hk, h]

/-- Strings are not yellow but green, booleans are not green but yellow, and null is not green but dim white. -/
theorem C60_violated_colors {s : Scalar} (hk : s.key = false) (h : s.type ≠ .num) : defaultColorizer.code s ≠ helpColor s := by
  unfold Colorizer.code helpColor defaultColorizer
  rw [hk]
  cases ht : s.type with
  | num => exact absurd ht h
  | str => decide
  | bool => decide
  | null => decide

/-- The colours are used as the help text says, `/repo/cmd/jp/main.go:584-588`. -/
theorem C60_color_mode (terminal : Bool) : chooseColor b%"always" terminal = some (some defaultColorizer) ∧ chooseColor b%"never" terminal = some none ∧
    chooseColor b%"auto" true = some (some defaultColorizer) ∧ chooseColor b%"auto" false = some none := ⟨rfl, rfl, rfl, rfl⟩

/-- The help text says, `/repo/cmd/jp/main.go:498-500`, that the format is JSON if detection fails.  But then the program ends with a fatal error. -/
theorem C60_violated_fallback {env : Env} {o : Options} {r : Reader} (ho : o.inFormat = b%"auto") (h1 : (r.read 40).2.1 = none)
    (h2 : guessFormat (r.read 40).1 = []) (x : Result) : Main env o r x ↔ x = ⟨[], 1, true⟩ := by
  have hc : chooseFormat o.inFormat r = none := by
    rw [chooseFormat, if_pos ho]
    generalize r.read 40 = p at h1 h2
    obtain ⟨s, e, r'⟩ := p
    simp only at h1 h2
    subst h1
    simp [h2]
  have hp : prepare o r = none := by simp [prepare, hc]
  constructor
  · intro h
    cases h with
    | fatal _ => rfl
    | run e => rw [hp] at e; cases e
    | panic e => rw [hp] at e; cases e
  · rintro rfl
    exact .fatal hp

/-- For example for the JSON text `1`. -/
theorem C60_violated_scalar (env : Env) : Main env {} (atOnce b%"1\n") ⟨[], 1, true⟩ ∧ Main env { inFormat := b%"json" } (atOnce b%"1\n") ⟨b%"1\n", 0, false⟩ := by
  constructor
  · exact (C60_violated_fallback rfl rfl (by decide +kernel) _).2 rfl
  · exact (main_json (x := (b%"1\n", .ok ())) (ts := []) (toks := streamToks [num b%"1"]) (out := streamToks [num b%"1"]) (bad := false)
      (.inl rfl) (fair_atOnce _) rfl rfl (by decide +kernel) .nil (by decide +kernel)).1 rfl

/-- The queries of the help texts, `/repo/cmd/jp/main.go:627-635`, `:676-683`, `:749-837`, except for one. -/
def helpQueries : List Bytes := [b%"$.name", b%"$.items[0]", b%"$.items[-1]", b%"$.items[2:5]", b%"$.items[*]", b%"$..name", b%"$.items[?@.price < 100]",
  b%"$[*].length", b%"$[?@.age > 18]", b%"$.users[*]", b%"$.address.city", b%"$.items[:10]", b%"$.items[-10:]", b%"$.users[?@.email]", b%"$.products[?@.price > 100]",
  b%"$..[?@.level == \"error\"]", b%"$.users[?@.active == true]", b%"$..email", b%"$.message"]

/-- The queries of the help texts are accepted. -/
theorem C60_queries_partial : ∀ q ∈ helpQueries, (parseTransformer q).isSome = true := by decide +kernel

/-- But this one, `/repo/cmd/jp/main.go:634`, is not. -/
theorem C60_violated_query : parseTransformer b%"$.items[?@.name =~ /^A/]" = none := by decide +kernel

/-- The help text says, `/repo/cmd/jp/main.go:552-556`, that with the width 10 the array `[95, 87, 92]` is split across lines.  It is not. -/
theorem C60_violated_width : (Enc.encode ⟨none, 10, 2⟩ ⟨2, false⟩ Enc.goodSink (streamToks [.arr [num b%"95", num b%"87", num b%"92"] false])).1 = b%"[95, 87, 92]\n" := by
  decide +kernel

private def key (b : Bytes) : Scalar := { bytes := b, type := .str, alnum := true, unesc := true, key := true }

/-- The example of the help text, `/repo/cmd/jp/main.go:701-703`: `$..[*]` on `{"a": {"b": 1}, "c": 2}`, by default and in strict mode. -/
theorem C60_order : Outcome noLib false ⟨true, [.mk true [.wild]]⟩ (streamToks [.obj [(key b%"\"a\"", .obj [(key b%"\"b\"", num b%"1")] false), (key b%"\"c\"", num b%"2")] false])
      (streamToks [.obj [(key b%"\"b\"", num b%"1")] false, num b%"1", num b%"2"]) (.ok ()) ∧
    Outcome noLib true ⟨true, [.mk true [.wild]]⟩ (streamToks [.obj [(key b%"\"a\"", .obj [(key b%"\"b\"", num b%"1")] false), (key b%"\"c\"", num b%"2")] false])
      (streamToks [.obj [(key b%"\"b\"", num b%"1")] false, num b%"2", num b%"1"]) (.ok ()) :=
  ⟨.of_run 20 (by decide +kernel), .of_run 20 (by decide +kernel)⟩

example : (b%"1\n").length = 2 ∧ guessFormat b%"1\n" = [] := by decide +kernel
example : ∃ s : Scalar, s.key = false ∧ s.type = .str := ⟨{ bytes := b%"\"a\"", type := .str }, rfl, rfl⟩

end Verif.Cmd
