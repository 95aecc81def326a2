import Verif.Props.C63

/-!
# C82: Formatting again changes nothing
-/

set_option linter.unusedSimpArgs false
set_option linter.unusedVariables false

namespace Verif.Cmd
open Rfc8259

/-- Only the values in the input count: on two inputs with the same values (but other white space, and arriving in other pieces) the program has the same
results, for all options, arguments and queries. -/
theorem C82_values {env : Env} {o : Options} {r r' : Reader} (hi : JsonInput o r) (hi' : JsonInput o r') (hf : Fair r.sched) (hf' : Fair r'.sched)
    (he : r.fin = .eof) (he' : r'.fin = .eof) {vs : List JVal} (hv : SepStream LaxChars vs r.rest) (hv' : SepStream LaxChars vs r'.rest) (x : Result) :
    Main env o r x ↔ Main env o r' x := by
  obtain ⟨s, e1, e2, e3, e4⟩ := json_source hi hf
  obtain ⟨s', d1, d2, d3, d4⟩ := json_source hi' hf'
  have ht : (Source.json s).tokens env = some (streamToks vs, false) := json_tokens (fun _ h => h) e3 (e2.trans he) (e1 ▸ hv)
  have ht' : (Source.json s').tokens env = some (streamToks vs, false) := json_tokens (fun _ h => h) d3 (d2.trans he') (d1 ▸ hv')
  have hp := prepare_source e4
  have hp' := prepare_source d4
  cases h2 : parseArgs o.args with
  | none =>
    rw [h2] at hp hp'
    exact ⟨fun h => by cases h.unique (.fatal hp); exact .fatal hp', fun h => by cases h.unique (.fatal hp'); exact .fatal hp⟩
  | some ts =>
    rw [h2] at hp hp'
    cases h3 : chooseSink o with
    | none =>
      rw [h3] at hp hp'
      exact ⟨fun h => by cases h.unique (.fatal hp); exact .fatal hp', fun h => by cases h.unique (.fatal hp'); exact .fatal hp⟩
    | some sink =>
      rw [h3] at hp hp'
      rw [main_iff hp ht, main_iff hp' ht']

private theorem formats {env : Env} {o : Options} {r : Reader} (hi : JsonInput o r) (hf : Fair r.sched) (he : r.fin = .eof) (ha : o.args = [])
    (ho : o.outFormat = b%"json") (hcol : o.color = none) {vs : List JVal} (hv : SepStream LaxChars vs r.rest) :
    ∃ b, Main env o r ⟨b, 0, false⟩ ∧ SepStream LaxChars vs b := by
  obtain ⟨s, e1, e2, e3, e4⟩ := json_source hi hf
  have ht : (Source.json s).tokens env = some (streamToks vs, false) := json_tokens (fun _ h => h) e3 (e2.trans he) (e1 ▸ hv)
  obtain ⟨bytes, hg, hsep⟩ := json_output (w := o.width) (m := 2) (pc := o.printer) (sent_stream hv)
  have hp := prepare_source e4
  rw [ha, chooseSink_json ho, hcol] at hp
  exact ⟨bytes, .run hp ht .nil hg, hsep⟩

/-- Formatting first does not change what the program does: `jp OPTIONS1 | jp OPTIONS2 ARGS` has the same results as `jp OPTIONS2 ARGS`. -/
theorem C82_reformat {env : Env} {o1 o2 : Options} {r : Reader} (hi : JsonInput o1 r) (hi2 : JsonInput o2 r) (hf : Fair r.sched) (he : r.fin = .eof)
    (ha : o1.args = []) (ho : o1.outFormat = b%"json") (hcol : o1.color = none) {vs : List JVal} (hv : SepStream LaxChars vs r.rest) :
    ∃ b, Main env o1 r ⟨b, 0, false⟩ ∧ ∀ r2 : Reader, Fair r2.sched → r2.fin = .eof → r2.rest = b → JsonInput o2 r2 → ∀ x,
      Main env o2 r2 x ↔ Main env o2 r x := by
  obtain ⟨b, hm, hs⟩ := formats hi hf he ha ho hcol hv
  exact ⟨b, hm, fun r2 f2 e2 h2 i2 x => C82_values i2 hi2 f2 hf e2 he (h2 ▸ hs) hv x⟩

/-- Formatting the output again, with the same options, gives the same bytes. -/
theorem C82_idempotent {env : Env} {o : Options} {r : Reader} (hi : JsonInput o r) (hf : Fair r.sched) (he : r.fin = .eof)
    (ha : o.args = []) (ho : o.outFormat = b%"json") (hcol : o.color = none) {vs : List JVal} (hv : SepStream LaxChars vs r.rest) :
    ∃ b, Main env o r ⟨b, 0, false⟩ ∧ ∀ r2 : Reader, Fair r2.sched → r2.fin = .eof → r2.rest = b → JsonInput o r2 → Main env o r2 ⟨b, 0, false⟩ := by
  obtain ⟨b, hm, h⟩ := C82_reformat (o2 := o) hi hi hf he ha ho hcol hv
  exact ⟨b, hm, fun r2 f2 e2 h2 i2 => (h r2 f2 e2 h2 i2 _).2 hm⟩

/-- Formatting loses nothing: if the outputs for two inputs are the same, even with different options, then the values in the inputs are the same (with the
bytes of all strings and numbers, and the order of all members). -/
theorem C82_lossless {env : Env} {o o' : Options} {r r' : Reader} (hi : JsonInput o r) (hi' : JsonInput o' r') (hf : Fair r.sched) (hf' : Fair r'.sched)
    (he : r.fin = .eof) (he' : r'.fin = .eof) (ha : o.args = []) (ha' : o'.args = []) (ho : o.outFormat = b%"json") (ho' : o'.outFormat = b%"json")
    (hcol : o.color = none) (hcol' : o'.color = none) {vs vs' : List JVal} (hv : SepStream LaxChars vs r.rest) (hv' : SepStream LaxChars vs' r'.rest)
    {x x' : Result} (h : Main env o r x) (h' : Main env o' r' x') (hx : x.stdout = x'.stdout) : vs = vs' := by
  obtain ⟨b, hm, hs⟩ := formats (env := env) hi hf he ha ho hcol hv
  obtain ⟨b', hm', hs'⟩ := formats (env := env) hi' hf' he' ha' ho' hcol' hv'
  cases h.unique hm
  cases h'.unique hm'
  cases hx
  have e : some (streamToks vs, false) = some (streamToks vs', false) :=
    (json_tokens (env := env) (r := atOnce b) (fun _ h => h) (fair_atOnce b) rfl hs).symm.trans
      (json_tokens (env := env) (r := atOnce b) (fun _ h => h) (fair_atOnce b) rfl hs')
  exact streamToks_inj (Prod.mk.inj (Option.some.inj e)).1

/-! ## Non-vacuity -/
section NonVacuity

private theorem digit (d : Byte) (hd : 0x31 ≤ d ∧ d ≤ 0x39) : Rfc8259.Text LaxChars (num [d]) [d] :=
  .num ⟨[], [d], [], [], .inl rfl, .inr ⟨d, [], hd.1, hd.2, by simp, rfl⟩, .inl rfl, .inl rfl, rfl⟩

private theorem dense : SepStream LaxChars [.arr [num b%"1", num b%"2"] false] b%"[1,2]" :=
  .cons (w := []) (r := []) Enc.ws_nil (.arr (.more (w := []) (b := b%"1") (w' := []) Enc.ws_nil (digit _ (by decide)) Enc.ws_nil
    (.one (w := []) (b := b%"2") (w' := []) Enc.ws_nil (digit _ (by decide)) Enc.ws_nil))) (by simp) (.nil (w := []) Enc.ws_nil)

private theorem spaced : SepStream LaxChars [.arr [num b%"1", num b%"2"] false] b%"[ 1\n, 2]" :=
  .cons (w := []) (r := []) Enc.ws_nil (.arr (.more (w := b%" ") (b := b%"1") (w' := b%"\n") (by unfold Ws; decide) (digit _ (by decide)) (by unfold Ws; decide)
    (.one (w := b%" ") (b := b%"2") (w' := []) (by unfold Ws; decide) (digit _ (by decide)) Enc.ws_nil))) (by simp) (.nil (w := []) Enc.ws_nil)

/-- With and without white space the results are the same. -/
example (env : Env) (x : Result) : Main env { args := [b%"$[*]"] } (atOnce b%"[1,2]") x ↔ Main env { args := [b%"$[*]"] } (atOnce b%"[ 1\n, 2]") x :=
  C82_values (atOnce_json rfl _ (.inr rfl)) (atOnce_json rfl _ (.inr rfl)) (fair_atOnce _) (fair_atOnce _) rfl rfl dense spaced x

/-- The output for both is `[1, 2]`, also for this as the input. -/
example : Main noEnv { inFormat := b%"json" } (atOnce b%"[ 1\n, 2]") ⟨b%"[1, 2]\n", 0, false⟩ ∧
    Main noEnv { inFormat := b%"json" } (atOnce b%"[1, 2]\n") ⟨b%"[1, 2]\n", 0, false⟩ := by
  constructor
  · exact .run (source := .json (atOnce b%"[ 1\n, 2]")) (ts := []) (toks := streamToks [.arr [num b%"1", num b%"2"] false]) rfl (by decide +kernel) .nil
      (by decide +kernel)
  · exact .run (source := .json (atOnce b%"[1, 2]\n")) (ts := []) (toks := streamToks [.arr [num b%"1", num b%"2"] false]) rfl (by decide +kernel) .nil
      (by decide +kernel)

/-- Another width: the output is other text, but the values are the same. -/
example : Main noEnv { inFormat := b%"json", width := 0 } (atOnce b%"[1,2]") ⟨b%"[\n  1,\n  2\n]\n", 0, false⟩ :=
  .run (source := .json (atOnce b%"[1,2]")) (ts := []) (toks := streamToks [.arr [num b%"1", num b%"2"] false]) rfl (by decide +kernel) .nil
    (by decide +kernel)

end NonVacuity
end Verif.Cmd
