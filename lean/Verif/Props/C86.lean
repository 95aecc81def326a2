import Verif.ProgramLemmas

/-!
# C86: Other names of formats
-/

set_option linter.unusedSimpArgs false
set_option linter.unusedVariables false

namespace Verif.Cmd

private theorem same_prepare {env : Env} {o o' : Options} {r : Reader} (h : prepare o r = prepare o' r) (hs : o.strict = o'.strict) (x : Result) :
    Main env o r x ↔ Main env o' r x := by
  constructor
  · intro hm
    cases hm with
    | fatal h1 => exact .fatal (h ▸ h1)
    | run h1 h2 h3 h4 => exact .run (h ▸ h1) h2 (hs ▸ h3) h4
    | panic h1 h2 h3 h4 => exact .panic (h ▸ h1) h2 (hs ▸ h3) h4
  · intro hm
    cases hm with
    | fatal h1 => exact .fatal (h.trans h1)
    | run h1 h2 h3 h4 => exact .run (h.trans h1) h2 (hs.symm ▸ h3) h4
    | panic h1 h2 h3 h4 => exact .panic (h.trans h1) h2 (hs.symm ▸ h3) h4

/-- `-in csv-with-header` and `-in csvh` are the same. -/
theorem C86_csvh (env : Env) (o : Options) (r : Reader) (x : Result) :
    Main env { o with inFormat := b%"csv-with-header" } r x ↔ Main env { o with inFormat := b%"csvh" } r x := by
  refine same_prepare ?_ (by rfl) x
  by_cases h : o.csvHeader = []
  · simp [prepare, chooseFormat, chooseSource, h]
    rfl
  · simp [prepare, chooseFormat, chooseSource, h]

/-- `-in csv-header` is the same as well, if the option `-csv-header` is not given.
Missing: it is false if it is given (`C86_violated`). -/
theorem C86_csv_header_partial (env : Env) (o : Options) (h : o.csvHeader = []) (r : Reader) (x : Result) :
    Main env { o with inFormat := b%"csv-header" } r x ↔ Main env { o with inFormat := b%"csvh" } r x := by
  refine same_prepare ?_ (by rfl) x
  simp [prepare, chooseFormat, chooseSource, h]
  rfl

/-- `-in path` and `-in jpv` are the same. -/
theorem C86_in_path (env : Env) (o : Options) (r : Reader) (x : Result) :
    Main env { o with inFormat := b%"path" } r x ↔ Main env { o with inFormat := b%"jpv" } r x := by
  refine same_prepare ?_ (by rfl) x
  simp [prepare, chooseFormat, chooseSource]
  rfl

/-- `-out path` and `-out jpv` are the same. -/
theorem C86_out_path (env : Env) (o : Options) (r : Reader) (x : Result) :
    Main env { o with outFormat := b%"path" } r x ↔ Main env { o with outFormat := b%"jpv" } r x := by
  refine same_prepare ?_ (by rfl) x
  have : chooseSink { o with outFormat := b%"path" } = chooseSink { o with outFormat := b%"jpv" } := by
    simp [chooseSink]
  simp only [prepare, this]

/-- Other names than those that the program knows are refused, whatever the input. -/
theorem C86_unknown (env : Env) (o : Options) (r : Reader)
    (h : o.inFormat ∉ [b%"auto", b%"json", b%"jpv", b%"path", b%"csv", b%"csv-with-header", b%"csvh", b%"csv-header"] ∨ o.outFormat ∉ [b%"json", b%"jpv", b%"path"]) (x : Result) :
    Main env o r x ↔ x = ⟨[], 1, true⟩ := by
  have hp : prepare o r = none := by
    rcases h with h | h
    · simp only [List.mem_cons, List.not_mem_nil, or_false, not_or] at h
      obtain ⟨h1, h2, h3, h4, h5, h6, h7, h8⟩ := h
      simp only [prepare, chooseFormat, chooseSource, h1, h2, h3, h4, h5, h6, h7, h8, if_false, or_false, and_false, Option.bind_some, Option.bind_none]
    · simp only [List.mem_cons, List.not_mem_nil, or_false, not_or] at h
      obtain ⟨h1, h2, h3⟩ := h
      have : chooseSink o = none := by simp only [chooseSink, h1, h2, h3, if_false, or_false]
      simp only [prepare, this, Option.map_none]
      cases chooseFormat o.inFormat r with
      | none => rfl
      | some y =>
        simp only [Option.bind_some]
        cases chooseSource o.csvHeader y.1 y.2 with
        | none => rfl
        | some z =>
          simp only [Option.bind_some]
          cases parseArgs o.args <;> rfl
  constructor
  · intro hm
    exact hm.unique (.fatal hp)
  · rintro rfl
    exact .fatal hp

/-- `-csv-header` is refused if there are names in the file, but not under the third name of the format: then it is ignored. -/
theorem C86_violated : Main noEnv { inFormat := b%"csvh", csvHeader := b%"b" } (atOnce b%"a\n1\n") ⟨[], 1, true⟩ ∧
    Main noEnv { inFormat := b%"csv-header", csvHeader := b%"b" } (atOnce b%"a\n1\n") ⟨b%"{\"a\": 1}\n", 0, false⟩ :=
  ⟨.fatal rfl, .run (source := .csv ⟨true, true⟩ [] (atOnce b%"a\n1\n")) (ts := [])
    (toks := streamToks [.obj [(⟨b%"\"a\"", .str, true, true, false⟩, num b%"1")] false]) rfl (by decide +kernel) .nil (by decide +kernel)⟩

/-! ## Non-vacuity -/

example : Main noEnv { inFormat := b%"csvh" } (atOnce b%"a\n1\n") ⟨b%"{\"a\": 1}\n", 0, false⟩ :=
  (C86_csv_header_partial noEnv {} rfl _ _).1 (.run (source := .csv ⟨true, true⟩ [] (atOnce b%"a\n1\n")) (ts := [])
    (toks := streamToks [.obj [(⟨b%"\"a\"", .str, true, true, false⟩, num b%"1")] false]) rfl (by decide +kernel) .nil (by decide +kernel))

/-- Names are not normalised. -/
example : Main noEnv { inFormat := b%"JSON" } (atOnce b%"1") ⟨[], 1, true⟩ := (C86_unknown _ _ _ (.inl (by decide)) _).2 rfl

end Verif.Cmd
