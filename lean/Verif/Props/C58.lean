import Verif.Props.C55

/-!
# C58: The exit status
-/

namespace Verif.Cmd
open Rfc8259

/-- The status is 1 exactly if the program ends before it starts; then nothing is written to the standard output, and an error is reported.  Otherwise it is 0. -/
theorem C58_status_partial {env : Env} {o : Options} {r : Reader} {x : Result} (h : Main env o r x) :
    (prepare o r = none → x = ⟨[], 1, true⟩) ∧ (prepare o r ≠ none → x.status = 0) := by
  cases h with
  | fatal e => exact ⟨fun _ => rfl, fun h => absurd e h⟩
  | run e _ _ _ => exact ⟨fun h => (by rw [e] at h; cases h), fun _ => rfl⟩
  | panic e _ _ _ => exact ⟨fun h => (by rw [e] at h; cases h), fun _ => rfl⟩

/-- The formats of the input; names of columns cannot be given if the input has a header. -/
def KnownInput (header f : Bytes) : Prop :=
  f = b%"json" ∨ f = b%"jpv" ∨ f = b%"path" ∨ f = b%"csv" ∨ f = b%"csv-header" ∨ header = [] ∧ (f = b%"csv-with-header" ∨ f = b%"csvh")

private theorem source_known (header f : Bytes) (r : Reader) : chooseSource header f r ≠ none ↔ KnownInput header f := by
  unfold chooseSource KnownInput
  split
  · next h =>
    obtain ⟨h1, rfl | rfl⟩ := h <;> simp [h1]
  · next h =>
    by_cases h1 : f = b%"json"
    · simp [h1]
    · rw [if_neg h1]
      by_cases h2 : f = b%"jpv" ∨ f = b%"path"
      · rw [if_pos h2]
        rcases h2 with rfl | rfl <;> simp
      · rw [if_neg h2]
        by_cases h3 : f = b%"csv"
        · simp [h3]
        · rw [if_neg h3]
          by_cases h4 : f = b%"csv-with-header" ∨ f = b%"csvh" ∨ f = b%"csv-header"
          · rw [if_pos h4]
            by_cases hh : header = []
            · rcases h4 with rfl | rfl | rfl <;> simp [hh]
            · rcases h4 with rfl | rfl | rfl <;> simp_all
          · rw [if_neg h4]
            simp only [not_or] at h2 h4
            simp [h1, h2, h3, h4]

/-- The program starts exactly if the format of the input is known (after it has been guessed, if it was not given), all arguments are accepted and
the format of the output is known. -/
theorem C58_starts {o : Options} {r : Reader} : prepare o r ≠ none ↔
    (∃ f r', chooseFormat o.inFormat r = some (f, r') ∧ KnownInput o.csvHeader f) ∧ (∀ a ∈ o.args, parseTransformer a ≠ none) ∧
      (o.outFormat = b%"json" ∨ o.outFormat = b%"jpv" ∨ o.outFormat = b%"path") := by
  have ha : ∀ l : List Bytes, parseArgs l ≠ none ↔ ∀ a ∈ l, parseTransformer a ≠ none := by
    intro l
    induction l with
    | nil => simp [parseArgs]
    | cons a l ih =>
      rw [List.forall_mem_cons, ← ih, parseArgs]
      cases parseTransformer a <;> simp
  have hs : chooseSink o ≠ none ↔ (o.outFormat = b%"json" ∨ o.outFormat = b%"jpv" ∨ o.outFormat = b%"path") := by
    simp only [chooseSink]
    by_cases h1 : o.outFormat = b%"json"
    · rw [if_pos h1]; simp [h1]
    · rw [if_neg h1]
      by_cases h2 : o.outFormat = b%"jpv" ∨ o.outFormat = b%"path"
      · rw [if_pos h2]; simp [h2]
      · rw [if_neg h2]; simp [h1, h2]
  rw [← hs, ← ha, prepare]
  suffices h : ((chooseFormat o.inFormat r).bind fun (format, r) => (chooseSource o.csvHeader format r).bind fun source =>
      (parseArgs o.args).bind fun ts => (chooseSink o).map fun sink => (source, ts, sink)) ≠ none ↔
      (∃ f r', chooseFormat o.inFormat r = some (f, r') ∧ chooseSource o.csvHeader f r' ≠ none) ∧ parseArgs o.args ≠ none ∧ chooseSink o ≠ none by
    refine h.trans (and_congr ?_ Iff.rfl)
    exact ⟨fun ⟨f, r', h1, h2⟩ => ⟨f, r', h1, (source_known _ _ r').1 h2⟩, fun ⟨f, r', h1, h2⟩ => ⟨f, r', h1, (source_known _ _ r').2 h2⟩⟩
  cases chooseFormat o.inFormat r with
  | none => simp
  | some p =>
    obtain ⟨f, r'⟩ := p
    simp only [Option.bind_some, Option.some.injEq, Prod.mk.injEq]
    cases e : chooseSource o.csvHeader f r' with
    | none =>
      simp only [Option.bind_none, ne_eq, not_true_eq_false, false_iff, not_and]
      rintro ⟨f1, r1, ⟨rfl, rfl⟩, h⟩
      exact absurd e h
    | some s =>
      have : ∃ f1 r1, (f = f1 ∧ r' = r1) ∧ chooseSource o.csvHeader f1 r1 ≠ none := ⟨f, r', ⟨rfl, rfl⟩, by simp [e]⟩
      simp only [Option.bind_some, this, true_and]
      cases parseArgs o.args <;> cases chooseSink o <;> simp

/-- An argument that is not accepted: nothing is written, and the status is 1. -/
theorem C58_bad_argument {env : Env} {o : Options} {r : Reader} {a : Bytes} (h : a ∈ o.args) (ha : parseTransformer a = none) (x : Result) :
    Main env o r x ↔ x = ⟨[], 1, true⟩ := by
  have hp : prepare o r = none := by
    apply Classical.byContradiction
    intro hp
    exact (C58_starts.1 hp).2.1 a h ha
  exact ⟨fun h => (C58_status_partial h).1 hp, fun h => h ▸ .fatal hp⟩

/-- If the status is not 0, then an error was reported. -/
theorem C58_silent_partial {env : Env} {o : Options} {r : Reader} {x : Result} (h : Main env o r x) (h1 : x.reported = false) : x.status = 0 := by
  cases h with
  | fatal _ => cases h1
  | run _ _ _ _ => rfl
  | panic _ _ _ _ => rfl

/-- If no error was reported, then the input is a stream of JSON texts (as the decoder reads them, see C02), without an error of the reader.  Missing: the
byte 0xFF. -/
theorem C58_valid_partial {env : Env} {o : Options} {r : Reader} (hi : JsonInput o r) (hf : Fair r.sched) (hff : eofByte ∉ r.rest) {x : Result}
    (h : Main env o r x) (h1 : x.reported = false) : r.fin = .eof ∧ ∃ vs, Stream LaxChars vs r.rest := by
  obtain ⟨r', e1, e2, e3, e4⟩ := chooseFormat_json hi hf
  cases h with
  | fatal _ => cases h1
  | panic _ _ _ _ => cases h1
  | @run source ts sink toks bad out bytes e h2 _ _ =>
    have h1 : bad = false := h1
    subst h1
    have hs : source = .json r' := by
      simp only [prepare, e1, Option.bind_some, chooseSource] at e
      rw [if_neg fun h => absurd h.2 (by decide), if_pos (by decide)] at e
      simp only [Option.bind_some, Option.bind_eq_some_iff, Option.map_eq_some_iff] at e
      obtain ⟨_, _, _, _, e⟩ := e
      cases e
      rfl
    subst hs
    simp only [Source.tokens] at h2
    generalize hx : Json.decodeFrom r' = y at h2
    obtain ⟨ts', z⟩ := y
    cases z with
    | ok a b =>
      obtain ⟨h3, vs, h4, -⟩ := decodeFrom_success (by decide) hx (by rw [e2]; exact hff)
      exact ⟨by rw [← e3, h3], vs, by rw [← e2]; exact h4⟩
    | fail _ => cases h2
    | panic => cases h2
    | stuck => cases h2
    | oof => cases h2

/-- If the input is JSON and the arguments have a meaning (see C55), then no error is reported. -/
theorem C58_success_partial {env : Env} {o : Options} {r : Reader} (hi : JsonInput o r) (hf : Fair r.sched) (he : r.fin = .eof) (ho : o.outFormat = b%"json")
    {vs : List JVal} (hv : SepStream LaxChars vs r.rest) {ts : List Transform} (ha : parseArgs o.args = some ts) {out : List JVal}
    (hm : Means env o.strict ts vs out) {x : Result} (hx : Main env o r x) : x.status = 0 ∧ x.reported = false := by
  cases hx.unique (C55_pipeline_partial hi hf he ho hv ha hm)
  exact ⟨rfl, rfl⟩

/-- C58 is false: after a syntax error in the input the status is 0. -/
theorem C58_violated : Main noEnv {} (atOnce b%"[1] x") ⟨b%"[1]\n", 0, true⟩ :=
  (main_json (x := (b%"[1]\n", .ok ())) (ts := []) (toks := streamToks [.arr [num b%"1"] false]) (out := streamToks [.arr [num b%"1"] false]) (bad := true)
    (atOnce_json rfl _ (.inr rfl)) (fair_atOnce _) rfl rfl (by decide +kernel) .nil (by decide +kernel)).1 rfl

/-- Also if the input ends too early: the encoder panics, and the status is 0. -/
theorem C58_violated_panic : Main noEnv {} (atOnce b%"[1") ⟨b%"[", 0, true⟩ :=
  (main_json (x := (b%"[", .stop .panic)) (ts := []) (toks := [.startArr, .scalar ⟨b%"1", .num, false, false, false⟩])
    (out := [.startArr, .scalar ⟨b%"1", .num, false, false, false⟩]) (bad := true)
    (atOnce_json rfl _ (.inr rfl)) (fair_atOnce _) rfl rfl (by decide +kernel) .nil (by decide +kernel)).2 rfl

/-- A run that ends with status 1. -/
example (r : Reader) : Main noEnv { args := [b%"spilt"] } r ⟨[], 1, true⟩ := (C58_bad_argument (a := b%"spilt") (by simp) (by decide +kernel) _).2 rfl
example : prepare { args := [b%"split"] } (atOnce b%"[1]") ≠ none :=
  C58_starts.2 ⟨⟨b%"json", multiReader b%"[1]" ⟨[], .eof, fun _ => (8192, false), 1⟩, by simp [chooseFormat, atOnce, Reader.read, show guessFormat b%"[1]" = b%"json" from by decide +kernel],
    .inl rfl⟩, by simp [parseTransformer], by simp⟩
example : JsonInput {} (atOnce b%"[1]") ∧ eofByte ∉ (atOnce b%"[1]").rest := ⟨atOnce_json rfl _ (.inr rfl), by decide⟩

end Verif.Cmd
