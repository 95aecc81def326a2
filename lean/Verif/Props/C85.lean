import Verif.Props.C82
import Verif.Props.C69

/-!
# C85: White space in JPV input
-/

set_option linter.unusedSimpArgs false
set_option linter.unusedVariables false

namespace Verif
open Rfc8259 JpvSpec JpvPlay

namespace Cmd

theorem jpv_tokens {env : Env} {r : Reader} (hf : Fair r.sched) (he : r.fin = .eof) {ls : List (List Scalar × JVal)} {d w : Bytes} (hl : JpvSpec.Lines ls d) (hw : Ws w)
    (hr : r.rest = d ++ w) (hp : ∀ l ∈ ls, ∀ k ∈ l.1, Plain k) {vs : List JVal} (hd : Describes ls vs) :
    (Source.jpv r).tokens env = some (streamToks vs, false) := by
  obtain ⟨us, h6, h7⟩ := (play_iff _ ls rfl hp (streamToks vs)).2 ⟨vs, hd, rfl⟩
  have hr' : r.rest = d ++ (w ++ []) := by rw [hr, List.append_nil]
  have : Jpv.decodeFrom r = (streamToks vs, .ok () ()) := by
    rw [jpvDecodeFrom_fair r _ (by decide) hf, hr', he, play_produce hl hw (.inl ⟨rfl, rfl⟩) (by unfold Json.fuelFor; omega) (by unfold Json.fuelFor; omega) h6]
    simp only [outOfJ, h7]; rfl
  simp only [Source.tokens, this, outcome]

/-- Only the paths and values of the lines count: on two JPV inputs with the same lines (but other white space, blank lines and line endings, and arriving in other pieces)
the program has the same results, for all options, arguments and queries. -/
theorem C85_lines {env : Env} {o : Options} (hi : o.inFormat = b%"jpv" ∨ o.inFormat = b%"path") {r r' : Reader} (hf : Fair r.sched) (hf' : Fair r'.sched)
    (he : r.fin = .eof) (he' : r'.fin = .eof) {ls : List (List Scalar × JVal)} {d d' w w' : Bytes} (hl : JpvSpec.Lines ls d) (hl' : JpvSpec.Lines ls d') (hw : Ws w) (hw' : Ws w')
    (hr : r.rest = d ++ w) (hr' : r'.rest = d' ++ w') (hp : ∀ l ∈ ls, ∀ k ∈ l.1, Plain k) {vs : List JVal} (hd : Describes ls vs) (x : Result) :
    Main env o r x ↔ Main env o r' x := by
  have ht := jpv_tokens (env := env) hf he hl hw hr hp hd
  have ht' := jpv_tokens (env := env) hf' he' hl' hw' hr' hp hd
  have hs : ∀ r, (chooseFormat o.inFormat r).bind (fun (f, r) => chooseSource o.csvHeader f r) = some (.jpv r) := by
    intro r
    rcases hi with h | h <;> simp [h, chooseFormat, chooseSource]
  have e := prepare_source (hs r)
  have e' := prepare_source (hs r')
  cases h2 : parseArgs o.args with
  | none =>
    rw [h2] at e e'
    exact ⟨fun h => by cases h.unique (.fatal e); exact .fatal e', fun h => by cases h.unique (.fatal e'); exact .fatal e⟩
  | some ts =>
    rw [h2] at e e'
    cases h3 : chooseSink o with
    | none =>
      rw [h3] at e e'
      exact ⟨fun h => by cases h.unique (.fatal e); exact .fatal e', fun h => by cases h.unique (.fatal e'); exact .fatal e⟩
    | some sink =>
      rw [h3] at e e'
      rw [main_iff e ht, main_iff e' ht']

/-! ## Non-vacuity -/

private def a : Scalar := { bytes := b%"\"a\"", type := .str, alnum := true, key := true }

private def yes : JVal := .scalar { bytes := b%"true", type := .bool }

private theorem elem : Path [a] b%".a" := .cons (b := b%".a") (.dotted (a := c%'a') (as := []) (by decide) (by simp)) .nil

private theorem plain_a : Plain a := .inl ⟨b%"a", rfl, b%"a", rfl, .char (r := 0x61) (by decide) (by unfold UScalar; decide) (by decide) (by decide) .nil, fun e => nomatch e⟩

private theorem means : Describes [([a], yes)] [.obj [(a, yes)] false] :=
  .last (.obj (Parts.cons (g := []) (rest := []) rfl (by simp) .leaf (by simp) .nil : Parts .str [under (a, ([], yes))] [(a, yes)]))

/-- A text as the encoder writes it, and one with other white space. -/
example : JpvSpec.Lines [([a], yes)] b%"$.a = true" ∧ JpvSpec.Lines [([a], yes)] b%"\r\n\r\n$.a=true" ∧ Ws b%"\n" ∧ Ws b%"\r\n" ∧ (∀ l ∈ [([a], yes)], ∀ k ∈ l.1, Plain k) ∧
    Describes [([a], yes)] [.obj [(a, yes)] false] := by
  refine ⟨?_, ?_, by unfold Ws; decide, by unfold Ws; decide, ?_, means⟩
  · exact .cons (w := []) (l := b%"$.a = true") (b := []) (by unfold Ws; simp) ⟨b%"$.a =", b%" ", b%"true", ⟨_, b%" ", elem, by unfold Ws; decide, rfl⟩, by unfold Ws; decide, .true, rfl⟩ .nil
  · exact .cons (w := b%"\r\n\r\n") (l := b%"$.a=true") (b := []) (by unfold Ws; decide) ⟨b%"$.a=", [], b%"true", ⟨_, [], elem, by unfold Ws; simp, rfl⟩, by unfold Ws; simp, .true, rfl⟩ .nil
  · intro l hl k hk
    cases List.mem_singleton.1 hl
    cases List.mem_singleton.1 hk
    exact plain_a

end Cmd
end Verif
