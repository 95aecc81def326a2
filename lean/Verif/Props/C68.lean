import Verif.CsvFile
import Verif.Props.C61

/-!
# C68: Which CSV files are read, and how
-/

set_option linter.unusedVariables false

namespace Verif.Csv
open Rfc4180

/-! ## RFC 4180 -/

/-- A file of RFC 4180 is read as the grammar says, however it arrives, if no record consists of one empty field only, and the records have the same number
of fields.  In the fields, each CRLF becomes LF. -/
theorem C68_rfc_partial {r : Reader} (hf : Fair r.sched) (he : r.fin = .eof) {rs : List (List Bytes)} (h : File r.rest rs) (hne : [[]] ∉ rs)
    (hw : ∀ a ∈ rs, ∀ b ∈ rs, a.length = b.length) :
    readInput r = ⟨rs.map (·.map crlf), .eof⟩ ∧ ((∀ a ∈ rs, ∀ v ∈ a, ¬ [c%'\r', c%'\n'] <:+: v) → readInput r = ⟨rs, .eof⟩) := by
  have key : readInput r = ⟨rs.map (·.map crlf), .eof⟩ := by
    rw [readInput_eq hf, he]
    refine readText_iff.2 ⟨crlf_file h hne, ?_⟩
    intro a ha b hb
    obtain ⟨a, ha', rfl⟩ := List.mem_map.1 ha
    obtain ⟨b, hb', rfl⟩ := List.mem_map.1 hb
    simpa using hw a ha' b hb'
  refine ⟨key, fun hv => ?_⟩
  rw [key]
  congr 1
  refine (List.map_congr_left fun a ha => ?_).trans (List.map_id rs)
  exact (List.map_congr_left fun v hv' => crlf_id (hv a ha v hv')).trans (List.map_id a)

/-- Two records; the second has a quoted field with a comma, a quote and a line break. -/
private theorem file_example : File b%"a,b\r\n\"1,\"\"\n\",2\n" [[b%"a", b%"b"], [b%"1,\"\n", b%"2"]] := by
  refine .cons (s := b%"a,b") (e := b%"\r\n") (t := b%"\"1,\"\"\n\",2\n") (.cons (s := b%"a") (t := b%"b") (.plain (by decide)) (.one (.plain (by decide)))) .crlf ?_
  refine .lastEol (s := b%"\"1,\"\"\n\",2") (e := b%"\n") (.cons (s := b%"\"1,\"\"\n\"") (t := b%"2") ?_ (.one (.plain (by decide)))) .lf
  refine .quoted (s := b%"1,\"\"\n") ?_
  exact .char (by decide) (.char (by decide) (.quote (.char (by decide) .nil)))

example : readInput ⟨b%"a,b\r\n\"1,\"\"\n\",2\n", .eof, fun _ => (1, false), 0⟩ = ⟨[[b%"a", b%"b"], [b%"1,\"\n", b%"2"]], .eof⟩ :=
  (C68_rfc_partial (r := ⟨_, .eof, fun _ => (1, false), 0⟩) (fun _ => ⟨0, by omega, by simp⟩) rfl file_example (by decide) (by decide)).2 (by
    intro a ha v hv
    have : c%'\r' ∉ v := by revert v; revert a; decide
    intro h
    exact this (h.subset (by simp)))

/-- C68 is false: a line break CRLF in a quoted field becomes LF. -/
theorem C68_violated_crlf : ∃ D rs, File D rs ∧ (∀ a ∈ rs, ∀ b ∈ rs, a.length = b.length) ∧ [[]] ∉ rs ∧
    ∀ r : Reader, r.rest = D → r.fin = .eof → Fair r.sched → (readInput r).fin = .eof ∧ (readInput r).records ≠ rs := by
  have h : File b%"\"1\r\n2\"\n" [[b%"1\r\n2"]] :=
    .lastEol (s := b%"\"1\r\n2\"") (e := b%"\n") (.one (.quoted (s := b%"1\r\n2")
      (.char (by decide) (.char (by decide) (.char (by decide) (.char (by decide) .nil)))))) .lf
  refine ⟨_, _, h, by simp, by decide, fun r hr he hf => ?_⟩
  rw [(C68_rfc_partial hf he (hr ▸ h) (by decide) (by simp)).1]
  exact ⟨rfl, by decide⟩

/-- C68 is false: a record with one empty field vanishes. -/
theorem C68_violated_blank : ∃ D rs, File D rs ∧ (∀ a ∈ rs, ∀ b ∈ rs, a.length = b.length) ∧
    ∀ r : Reader, r.rest = D → r.fin = .eof → Fair r.sched → readInput r = ⟨[[b%"a"], [b%"b"]], .eof⟩ ∧ rs = [[b%"a"], [[]], [b%"b"]] := by
  refine ⟨b%"a\n\nb\n", [[b%"a"], [[]], [b%"b"]], ?_, by simp, fun r hr he hf => ⟨?_, rfl⟩⟩
  · exact .cons (s := b%"a") (e := b%"\n") (.one (.plain (by decide))) .lf
      (.cons (s := []) (e := b%"\n") (.one (.plain (by simp))) .lf (.lastEol (s := b%"b") (e := b%"\n") (.one (.plain (by decide))) .lf))
  · rw [readInput_eq hf, hr, he]
    have : (readText .eof b%"a\n\nb\n").records = [[b%"a"], [b%"b"]] ∧ (readText .eof b%"a\n\nb\n").fin = .eof := by decide +kernel
    generalize readText .eof b%"a\n\nb\n" = x at this
    cases x
    simp_all

/-- C68 is false: after a record with another number of fields, nothing is read (the test at `/repo/encoding/csv/decoder_test.go:423-441` says that such a file
"should still parse"). -/
theorem C68_violated_ragged : ∃ D rs, File D rs ∧ [[]] ∉ rs ∧ rs = [[b%"1", b%"2", b%"3"], [b%"4", b%"5"], [b%"6", b%"7", b%"8"]] ∧
    ∀ r : Reader, r.rest = D → r.fin = .eof → Fair r.sched → (readInput r).records = [[b%"1", b%"2", b%"3"]] ∧ (readInput r).fin ≠ .eof := by
  refine ⟨b%"1,2,3\n4,5\n6,7,8\n", _, ?_, by decide, rfl, fun r hr he hf => ?_⟩
  · refine .cons (s := b%"1,2,3") (e := b%"\n") ?_ .lf (.cons (s := b%"4,5") (e := b%"\n") ?_ .lf (.lastEol (s := b%"6,7,8") (e := b%"\n") ?_ .lf))
    · exact .cons (s := b%"1") (.plain (by decide)) (.cons (s := b%"2") (.plain (by decide)) (.one (s := b%"3") (.plain (by decide))))
    · exact .cons (s := b%"4") (.plain (by decide)) (.one (s := b%"5") (.plain (by decide)))
    · exact .cons (s := b%"6") (.plain (by decide)) (.cons (s := b%"7") (.plain (by decide)) (.one (s := b%"8") (.plain (by decide))))
  · rw [readInput_eq hf, hr, he]
    decide +kernel

/-! ## All texts -/

/-- Exactly the texts of the grammar `GoRecords` are read without an error, if the records have the same number of fields. -/
theorem C68_exact {r : Reader} (hf : Fair r.sched) (he : r.fin = .eof) (rs : List (List Bytes)) :
    readInput r = ⟨rs, .eof⟩ ↔ GoRecords (crlf r.rest) rs ∧ ∀ a ∈ rs, ∀ b ∈ rs, a.length = b.length := by
  rw [readInput_eq hf, he]
  exact readText_iff

/-- For all other texts there is an error. -/
theorem C68_error {r : Reader} (hf : Fair r.sched) (he : r.fin = .eof) :
    (readInput r).fin ≠ .eof ↔ ¬ ∃ rs, GoRecords (crlf r.rest) rs ∧ ∀ a ∈ rs, ∀ b ∈ rs, a.length = b.length := by
  constructor
  · rintro h ⟨rs, h'⟩
    rw [(C68_exact hf he rs).2 h'] at h
    exact h rfl
  · intro h h'
    exact h ⟨(readInput r).records, (C68_exact hf he _).1 (by cases hr : readInput r; simp_all)⟩

/-- A quote in a field without quotes. -/
example : (readInput (Cmd.atOnce b%"a\"b\n")).fin ≠ .eof := by decide +kernel

/-- The records before an error are delivered: those of each part of the text that ends with a line break, whatever comes after it, and however the input ends. -/
theorem C68_prefix {r : Reader} (hf : Fair r.sched) {D E : Bytes} (hr : r.rest = D ++ E) {rs : List (List Bytes)} (h : GoLines (crlf D) rs)
    (hw : ∀ a ∈ rs, ∀ b ∈ rs, a.length = b.length) : rs <+: (readInput r).records := by
  rw [readInput_eq hf, hr]
  exact readText_prefix h hw

example : GoLines (crlf b%"1,2\r\n") [[b%"1", b%"2"]] :=
  .record (s := b%"1,2") (.cons (s := b%"1") (.plain (by decide)) (.one (s := b%"2") (.plain (by decide)))) (by decide) .nil

/-- All records have the same number of fields, whatever is read. -/
theorem C68_width (r : Reader) : ∀ a ∈ (readInput r).records, ∀ b ∈ (readInput r).records, a.length = b.length :=
  readAll_width

/-! ## The program -/

end Verif.Csv

namespace Verif.Cmd
open Rfc8259 EncSpec JPath Rfc9535 CsvSpec JpvSpec Rfc4180

/-- The program on a file of RFC 4180 in which the records have the same number of fields, and no record consists of one empty field only: one value for each record,
with what the fields stand for; nothing is reported. -/
theorem C68_program_partial : ∃ key cell : Bytes → Scalar,
    (∀ t, Utf8 t → Clean t → StrIs (key t) t) ∧ (∀ f, Utf8 f → Clean f → ¬ Misread f → Cell f (cell f)) ∧
    ∀ (env : Env) (o : Options) (r : Reader) (cfg : Csv.Cfg) (preset : List Bytes) (rs : List (List Bytes)), CsvOptions o cfg preset → o.outFormat = b%"json" →
      Fair r.sched → r.fin = .eof → File r.rest rs → [[]] ∉ rs → (∀ a ∈ rs, ∀ b ∈ rs, a.length = b.length) → (∀ a ∈ rs, ∀ v ∈ a, ¬ [c%'\r', c%'\n'] <:+: v) →
      ∃ name, Names (preset ++ if cfg.hasHeader then rs.head?.getD [] else []) name ∧
        ∀ (ts : List Transform) (out : List JVal), parseArgs o.args = some ts →
          Means env o.strict ts ((if cfg.hasHeader then rs.tail else rs).map (recordVal cfg.objects (fun i => key (name i)) cell)) out →
          Main env o r ⟨Enc.render o.printer 0 (Enc.layoutAll ⟨o.color, o.width, 2⟩ out), 0, false⟩ := by
  obtain ⟨key, cell, hk, hc, h⟩ := C61_csv_partial
  refine ⟨key, cell, hk, hc, fun env o r cfg preset rs ho hout hf he hF hne hw hv => ?_⟩
  have e := (Csv.C68_rfc_partial hf he hF hne hw).2 hv
  have := h env o r cfg preset ho hout
  rw [e] at this
  simpa using this

/-- `jp -in csvh` on a table. -/
example : Main noEnv { inFormat := b%"csvh" } (atOnce b%"a,b\r\n1,x\r\n") ⟨b%"{\"a\": 1, \"b\": \"x\"}\n", 0, false⟩ :=
  .run (toks := streamToks [.obj [({ bytes := b%"\"a\"", type := .str, alnum := true, key := true }, .scalar { bytes := b%"1", type := .num }),
      ({ bytes := b%"\"b\"", type := .str, alnum := true, key := true }, .scalar { bytes := b%"\"x\"", type := .str, alnum := true })] false]) rfl
    (by decide +kernel) .nil (by decide +kernel)

/-- `jp -in csv` on records with different numbers of fields: those before the first other number, and an error. -/
theorem C68_violated_program (env : Env) : Main env { inFormat := b%"csv" } (atOnce b%"1,2,3\n4,5\n6,7,8\n") ⟨b%"[1, 2, 3]\n", 0, true⟩ :=
  .run (toks := streamToks [.arr [.scalar { bytes := b%"1", type := .num }, .scalar { bytes := b%"2", type := .num }, .scalar { bytes := b%"3", type := .num }] false]) rfl
    (by show Source.tokens noEnv (.csv ⟨false, false⟩ [] (atOnce _)) = _; decide +kernel) .nil (by decide +kernel)

end Verif.Cmd
