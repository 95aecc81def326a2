import Verif.CsvBlank
import Verif.ProgramLemmas

/-!
# C83: Line endings of CSV files
-/

set_option linter.unusedSimpArgs false
set_option linter.unusedVariables false

namespace Verif
open Rfc4180

/-- CSV texts that are the same when every CRLF has become LF give the same records and the same error, however they arrive. -/
theorem C83_reader {r r' : Reader} (hf : Fair r.sched) (hf' : Fair r'.sched) (he : r.fin = r'.fin) (h : crlf r.rest = crlf r'.rest) :
    Csv.readInput r = Csv.readInput r' := by
  rw [Csv.readInput_eq hf, Csv.readInput_eq hf', he]
  exact Csv.readText_endings _ h

/-- A text with CRLF at the end of its lines. -/
def toCrlf (D : Bytes) : Bytes := D.flatMap fun b => if b = c%'\n' then [c%'\r', c%'\n'] else [b]

theorem crlf_toCrlf : ∀ {D : Bytes}, c%'\r' ∉ D → crlf (toCrlf D) = crlf D
  | [], _ => rfl
  | b :: s, h => by
    have ih := crlf_toCrlf (D := s) fun hm => h (List.mem_cons_of_mem _ hm)
    have hb : b ≠ c%'\r' := fun e => h (e ▸ List.mem_cons_self ..)
    show crlf ((if b = c%'\n' then [c%'\r', c%'\n'] else [b]) ++ toCrlf s) = _
    split
    · rename_i e
      subst e
      show crlf (c%'\r' :: c%'\n' :: toCrlf s) = crlf (c%'\n' :: s)
      rw [crlf, if_pos (by simp), crlf, if_neg (by simp), crlf, if_neg (by simp), ih]
    · show crlf (b :: toCrlf s) = _
      rw [crlf, if_neg (fun h => hb h.1), crlf, if_neg (fun h => hb h.1), ih]

namespace Cmd

private theorem csv_prepare {o : Options} (h : o.inFormat ∈ [b%"csv", b%"csv-with-header", b%"csvh", b%"csv-header"]) :
    ∃ oc : Option (Csv.Cfg × List Bytes), ∀ r, prepare o r = oc.bind fun c => (parseArgs o.args).bind fun ts => (chooseSink o).map fun sink =>
      (.csv c.1 c.2 r, ts, sink) := by
  have ha : o.inFormat ≠ b%"auto" := by intro e; rw [e] at h; revert h; decide
  have hj : o.inFormat ≠ b%"json" := by intro e; rw [e] at h; revert h; decide
  have hp : ¬(o.inFormat = b%"jpv" ∨ o.inFormat = b%"path") := by
    rintro (e | e) <;>
    · rw [e] at h
      revert h
      decide
  unfold prepare chooseFormat chooseSource
  simp only [if_neg ha, Option.bind_some, if_neg hj, if_neg hp]
  split
  · exact ⟨none, fun _ => rfl⟩
  · split
    · split
      · exact ⟨some (_, _), fun _ => rfl⟩
      · exact ⟨some (_, _), fun _ => rfl⟩
    · split
      · exact ⟨some (_, _), fun _ => rfl⟩
      · exact ⟨none, fun _ => rfl⟩

/-- The program depends on the records and the error of the CSV reader. -/
private theorem csv_main {env : Env} {o : Options} (hi : o.inFormat ∈ [b%"csv", b%"csv-with-header", b%"csvh", b%"csv-header"]) {x : Result} {r r' : Reader}
    (e : Csv.readInput r = Csv.readInput r') (hm : Main env o r x) : Main env o r' x := by
  obtain ⟨oc, hp⟩ := csv_prepare hi
  have ht : ∀ c n, (Source.csv c n r).tokens env = (Source.csv c n r').tokens env := fun c n => by simp only [Source.tokens, e]
  have hs : ∀ {source ts sink}, prepare o r = some (source, ts, sink) → ∃ c n, source = .csv c n r ∧ prepare o r' = some (.csv c n r', ts, sink) := by
    intro source ts sink h
    rw [hp] at h ⊢
    simp only [Option.bind_eq_some_iff, Option.map_eq_some_iff, Prod.mk.injEq] at h
    obtain ⟨c, hc, l, hl, k, hk, rfl, rfl, rfl⟩ := h
    exact ⟨c.1, c.2, rfl, by simp [hc, hl, hk]⟩
  cases hm with
  | fatal h =>
    refine .fatal ?_
    cases h' : prepare o r' with
    | none => rfl
    | some y =>
      rw [hp] at h h'
      cases oc with
      | none => cases h'
      | some c =>
        cases hl : parseArgs o.args with
        | none => rw [hl] at h'; cases h'
        | some l =>
          rw [hl] at h h'
          cases hk : chooseSink o with
          | none => rw [hk] at h'; cases h'
          | some k => rw [hk] at h; cases h
  | run h1 h2 h3 h4 =>
    obtain ⟨c, n, rfl, h1'⟩ := hs h1
    exact .run h1' (ht c n ▸ h2) h3 h4
  | panic h1 h2 h3 h4 =>
    obtain ⟨c, n, rfl, h1'⟩ := hs h1
    exact .panic h1' (ht c n ▸ h2) h3 h4

/-- The line endings of CSV input do not matter to the program: all options, arguments and queries; also for line breaks in quoted fields, for texts that are
not valid CSV, and if reading fails. -/
theorem C83_program {env : Env} {o : Options} (hi : o.inFormat ∈ [b%"csv", b%"csv-with-header", b%"csvh", b%"csv-header"]) {r r' : Reader} (hf : Fair r.sched)
    (hf' : Fair r'.sched) (he : r.fin = r'.fin) (h : crlf r.rest = crlf r'.rest) (x : Result) : Main env o r x ↔ Main env o r' x :=
  ⟨csv_main hi (C83_reader hf hf' he h), csv_main hi (C83_reader hf hf' he h).symm⟩

/-- A file from Windows gives the same results as the same file with line feeds. -/
theorem C83_windows {env : Env} {o : Options} (hi : o.inFormat ∈ [b%"csv", b%"csv-with-header", b%"csvh", b%"csv-header"]) {r r' : Reader} (hf : Fair r.sched)
    (hf' : Fair r'.sched) (he : r.fin = r'.fin) (hr : c%'\r' ∉ r.rest) (h : r'.rest = toCrlf r.rest) (x : Result) : Main env o r' x ↔ Main env o r x :=
  C83_program hi hf' hf he.symm (by rw [h, crlf_toCrlf hr]) x

/-- Whether there is a line feed at the end of the input does not matter. -/
theorem C83_final {env : Env} {o : Options} (hi : o.inFormat ∈ [b%"csv", b%"csv-with-header", b%"csvh", b%"csv-header"]) {r r' : Reader} (hf : Fair r.sched)
    (hf' : Fair r'.sched) (he : r.fin = .eof) (he' : r'.fin = .eof) (h : r'.rest = r.rest ++ [c%'\n']) (x : Result) : Main env o r' x ↔ Main env o r x := by
  have e : Csv.readInput r' = Csv.readInput r := by
    rw [Csv.readInput_eq hf, Csv.readInput_eq hf', he, he', h, Csv.readText_nl]
  exact ⟨csv_main hi e, csv_main hi e.symm⟩

/-- A blank line before the first record, between two records or behind the last one does not matter, whatever comes after it. -/
theorem C83_blank {env : Env} {o : Options} (hi : o.inFormat ∈ [b%"csv", b%"csv-with-header", b%"csvh", b%"csv-header"]) {r r' : Reader} (hf : Fair r.sched)
    (hf' : Fair r'.sched) (he : r.fin = r'.fin) {P E : Bytes} {rs : List (List Bytes)} (hP : GoRecords (crlf P) rs)
    (hn : ∀ x ∈ rs, ∀ y ∈ rs, x.length = y.length) (hl : P = [] ∨ P.getLast? = some c%'\n') (h : r.rest = P ++ E) (h' : r'.rest = P ++ c%'\n' :: E) (x : Result) :
    Main env o r' x ↔ Main env o r x := by
  have e : Csv.readInput r' = Csv.readInput r := by
    rw [Csv.readInput_eq hf, Csv.readInput_eq hf', he, h, h', Csv.readText_blank _ hl (by rw [Csv.readText_iff.2 ⟨hP, hn⟩])]
  exact ⟨csv_main hi e, csv_main hi e.symm⟩

/-! ## Non-vacuity -/

example : toCrlf b%"a,b\n1,2\n" = b%"a,b\r\n1,2\r\n" := by decide

/-- Both forms. -/
example : Main noEnv { inFormat := b%"csvh" } (atOnce b%"a\n1\n") ⟨b%"{\"a\": 1}\n", 0, false⟩ ∧
    Main noEnv { inFormat := b%"csvh" } (atOnce b%"a\r\n1\r\n") ⟨b%"{\"a\": 1}\n", 0, false⟩ := by
  have h : Main noEnv { inFormat := b%"csvh" } (atOnce b%"a\n1\n") ⟨b%"{\"a\": 1}\n", 0, false⟩ :=
    .run (source := .csv ⟨true, true⟩ [] (atOnce b%"a\n1\n")) (ts := [])
      (toks := streamToks [.obj [(⟨b%"\"a\"", .str, true, true, false⟩, num b%"1")] false]) rfl (by decide +kernel) .nil (by decide +kernel)
  exact ⟨h, (C83_windows (r := atOnce b%"a\n1\n") (r' := atOnce b%"a\r\n1\r\n") (by decide) (fair_atOnce _) (fair_atOnce _) rfl (by decide) rfl _).2 h⟩

/-- Without the last line feed. -/
example : (Csv.readInput (atOnce b%"a,b\n1,2")).records = [[b%"a", b%"b"], [b%"1", b%"2"]] ∧
    (Csv.readInput (atOnce b%"a,b\n1,2\n")).records = [[b%"a", b%"b"], [b%"1", b%"2"]] := by
  decide +kernel

/-- A blank line between records; not in a quoted field. -/
example : (∃ rs, GoRecords (crlf b%"a,b\n") rs ∧ ∀ x ∈ rs, ∀ y ∈ rs, x.length = y.length) ∧
    (Csv.readInput (atOnce b%"a,b\n\n1,2\n")).records = [[b%"a", b%"b"], [b%"1", b%"2"]] ∧
    (Csv.readInput (atOnce b%"\"a\n\nb\"\n")).records = [[b%"a\n\nb"]] := by
  refine ⟨⟨[[b%"a", b%"b"]], Csv.readText_iff.1 ?_⟩, ?_⟩
  · rfl
  · decide +kernel

/-- A carriage return that is not before a line feed counts. -/
example : crlf b%"a\rb\n" ≠ crlf b%"ab\n" ∧ (Csv.readInput (atOnce b%"a\rb\n")).records = [[b%"a\rb"]] := by
  constructor
  · decide
  · decide +kernel

end Cmd
end Verif
