import Verif.CsvRecords

/-!
# C20: CSV record shape
-/

namespace Verif
open Rfc8259 CsvSpec Csv

/-- There are keys for names and scalars for fields, which do not depend on where they stand, such that whatever the records, the
preset names and the mode: the decoder does not panic; its tokens are those of one value per record, the header excepted; and it
returns the error of the reader, the end of the input excepted.  The names are those given, numbered from there on.
(If names have been set and the file has a header too, the names of the header follow those set.) -/
theorem C20_records : ∃ key cell : Bytes → Scalar,
    (∀ t, Utf8 t → Clean t → StrIs (key t) t) ∧ (∀ f, Utf8 f → Clean f → ¬ Misread f → Cell f (cell f)) ∧
    ∀ (cfg : Cfg) (preset : List Bytes) (inp : Input),
      ∃ name, Names (preset ++ if cfg.hasHeader then inp.records.head?.getD [] else []) name ∧
        produce cfg preset inp = some (
          streamToks ((if cfg.hasHeader then inp.records.tail else inp.records).map
            (recordVal cfg.objects (fun i => key (name i)) cell)),
          if inp.fin = .eof then none else some inp.fin) :=
  ⟨hdr, cell, fun _ => hdr_str, fun _ => cell_cell, fun cfg preset inp =>
    ⟨colName (preset ++ if cfg.hasHeader then inp.records.head?.getD [] else []), colName_names _, produce_eq cfg preset inp⟩⟩

/-- The number of values is the number of records (without the header), and their widths are those of the records: whatever the
names of the columns. -/
theorem C20_counts (cfg : Cfg) (preset : List Bytes) (inp : Input) :
    ∃ vs e, produce cfg preset inp = some (streamToks vs, e) ∧
      vs.map (fun | .scalar _ => 0 | .arr l _ => l.length | .obj l _ => l.length) =
        (if cfg.hasHeader then inp.records.tail else inp.records).map List.length := by
  refine ⟨_, _, produce_eq cfg preset inp, ?_⟩
  rw [List.map_map]
  apply List.map_congr_left
  intro r _
  simp only [Function.comp_apply, recordVal]
  cases cfg.objects <;> simp

/-- Non-vacuity: names set, ragged records, and an error in the end. -/
example : produce ⟨false, true⟩ [b%"x"] ⟨[[b%"1"], [b%"true", b%""]], .other 7⟩ =
    some (streamToks [.obj [({ bytes := b%"\"x\"", type := .str, alnum := true, key := true }, .scalar { bytes := b%"1", type := .num })] false,
      .obj [({ bytes := b%"\"x\"", type := .str, alnum := true, key := true }, .scalar { bytes := b%"true", type := .bool }),
        ({ bytes := b%"\"field_2\"", type := .str, alnum := true, key := true }, .scalar { bytes := b%"null", type := .null })] false],
      some (.other 7)) := by decide +kernel

/-- Non-vacuity: a header, too short, and quotes. -/
example : produce ⟨true, true⟩ [] ⟨[[b%"a", b%"b\"c"], [b%"1", b%"x,y", b%"true"], [b%"", b%"-"]], .eof⟩ =
    some ([.startObj, .scalar { bytes := b%"\"a\"", type := .str, alnum := true, key := true }, .scalar { bytes := b%"1", type := .num },
      .scalar { bytes := b%"\"b\\\"c\"", type := .str }, .scalar { bytes := b%"\"x,y\"", type := .str },
      .scalar { bytes := b%"\"field_3\"", type := .str, alnum := true, key := true }, .scalar { bytes := b%"true", type := .bool }, .endObj,
      .startObj, .scalar { bytes := b%"\"a\"", type := .str, alnum := true, key := true }, .scalar { bytes := b%"null", type := .null },
      .scalar { bytes := b%"\"b\\\"c\"", type := .str }, .scalar { bytes := b%"\"-\"", type := .str }, .endObj], none) := by decide +kernel

end Verif
