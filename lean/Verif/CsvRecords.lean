import Verif.CsvStrings
import Verif.JpvTree

/-!
# Records of a CSV file (helper lemmas)
-/

set_option linter.unusedSimpArgs false

namespace Verif.Csv
open Rfc8259 CsvSpec

/-- The key for a name. -/
def hdr (t : Bytes) : Scalar := (fieldToScalar t true).getD nullInstance

/-- The scalar for a data field. -/
def cell (f : Bytes) : Scalar := (fieldToScalar f false).getD nullInstance

theorem hdr_eq (t : Bytes) : fieldToScalar t true = some (hdr t) := by
  obtain ⟨s, h, _⟩ := header_eq t
  simp [hdr, h]

theorem cell_eq (t : Bytes) : fieldToScalar t false = some (cell t) := by
  obtain ⟨s, h, _⟩ := data_spec t
  simp [cell, h]

theorem hdr_spec (t : Bytes) : (hdr t).bytes = quoted t ∧ (hdr t).type = .str ∧ (hdr t).unesc = false := by
  obtain ⟨s, h, h1⟩ := header_eq t
  simp only [hdr, h, Option.getD_some]; exact h1

theorem setFieldNames_eq : ∀ (fs : List Bytes) (names : List Scalar), setFieldNames names fs = some (names ++ fs.map hdr)
  | [], names => by simp [setFieldNames]
  | f :: fs, names => by simp [setFieldNames, hdr_eq, setFieldNames_eq fs]

theorem hdr_str {t : Bytes} (hu : Utf8 t) (hc : Clean t) : StrIs (hdr t) t := by
  obtain ⟨hb, ht, he⟩ := hdr_spec t
  obtain ⟨cps, hcps, rfl⟩ := hu
  exact ⟨ht, _, hb, denotes_field cps hcps hc, by simp [he]⟩

theorem cell_cell {f : Bytes} (hu : Utf8 f) (hc : Clean f) (hm : ¬ Misread f) : Cell f (cell f) := by
  obtain ⟨s, e, _, he, h⟩ := data_spec f
  rw [cell_eq, Option.some.injEq] at e
  subst e
  have n1 : ¬ Number b%"" := by rintro ⟨m, i, fr, e, hm, hi, _, _, h⟩; rcases hi with rfl | ⟨d, ds, _, _, _, rfl⟩ <;> simp at h
  have n2 : ¬ Number b%"true" := fun h => by
    have := number_chars h (c%'t') (by decide)
    revert this; unfold NumChar; decide
  have n3 : ¬ Number b%"false" := fun h => by
    have := number_chars h (c%'f') (by decide)
    revert this; unfold NumChar; decide
  rcases h with ⟨h, h1, h2⟩ | ⟨h, h1, h2⟩ | ⟨g1, g2, g3, h⟩
  · exact ⟨fun _ => ⟨h1, h2⟩, fun h' => (by subst h; revert h'; decide), fun h' => (n1 (h ▸ h')).elim, fun h' => (h' h).elim⟩
  · refine ⟨fun h' => (by subst h'; revert h; decide), fun _ => ⟨h1, h2⟩, fun h' => ?_, fun _ h3 h4 => ?_⟩
    · rcases h with h | h
      · exact (n2 (h ▸ h')).elim
      · exact (n3 (h ▸ h')).elim
    · rcases h with h | h
      · exact (h3 h).elim
      · exact (h4 h).elim
  · refine ⟨fun h' => (g1 h').elim, fun h' => (h'.elim g2 g3).elim, fun h' => ?_, fun _ _ _ h' => ?_⟩
    · rcases h with ⟨_, _, h1, h2⟩ | ⟨h1, _⟩ | ⟨h1, _⟩
      · exact ⟨h1, h2⟩
      · exact (h1 h').elim
      · exact (h1 h').elim
    · rcases h with ⟨h1, _⟩ | ⟨_, h1, h2, _⟩ | ⟨_, h1, _⟩
      · exact (h' h1).elim
      · obtain ⟨cps, hcps, rfl⟩ := hu
        exact ⟨h1, _, h2, denotes_field cps hcps hc, by simp [he]⟩
      · exact (hm h1).elim

/-- The name of a column. -/
def colName (given : List Bytes) (i : Nat) : Bytes := given[i]?.getD (b%"field_" ++ itoa (i + 1))

theorem colName_names (given : List Bytes) : Names given (colName given) := by
  intro i
  refine ⟨fun t h => by simp [colName, h], fun h => ?_⟩
  rw [colName, List.getElem?_eq_none h]
  exact ⟨_, rfl, JpvTree.itoa_int _, JpvTree.itoa_val _⟩

/-- The list of names while records are read. -/
def known (given : List Bytes) (m : Nat) : List Scalar := (List.range m).map fun i => hdr (colName given i)

theorem known_length (given : List Bytes) (m : Nat) : (known given m).length = m := by simp [known]

theorem known_given (given : List Bytes) : known given given.length = given.map hdr := by
  apply List.ext_getElem
  · simp [known]
  · intro i h1 h2
    simp only [known, List.length_map, List.length_range] at h1
    simp [known, colName, h1]

theorem addNames_eq (given : List Bytes) : ∀ (k m : Nat), given.length ≤ m → addNames (known given m) k = some (known given (m + k))
  | 0, m, _ => rfl
  | k + 1, m, h => by
    simp only [addNames, known_length, hdr_eq, Option.bind_some]
    have e : known given m ++ [hdr (b%"field_" ++ itoa (m + 1))] = known given (m + 1) := by
      simp [known, List.range_succ, colName, List.getElem?_eq_none h]
    rw [e, addNames_eq given k (m + 1) (by omega)]
    congr 2; omega

theorem getFieldName_eq (given : List Bytes) (m i : Nat) (h : given.length ≤ m) :
    getFieldName (known given m) i = some (hdr (colName given i), known given (m + (i + 1 - m))) := by
  simp only [getFieldName, known_length, addNames_eq given _ m h, Option.bind_some]
  have : (known given (m + (i + 1 - m)))[i]? = some (hdr (colName given i)) := by
    simp only [known, List.getElem?_map]
    rw [List.getElem?_range (by omega)]
    rfl
  rw [this]; rfl

theorem members_eq (given : List Bytes) : ∀ (fs : List Bytes) (m i : Nat), given.length ≤ m →
    ∃ m', given.length ≤ m' ∧ members (known given m) i fs =
      some (JVal.toks.memberToks ((fs.zipIdx i).map fun (f, j) => (hdr (colName given j), .scalar (cell f))), known given m')
  | [], m, i, h => ⟨m, h, by simp [members]⟩
  | f :: fs, m, i, h => by
    obtain ⟨m', h', e⟩ := members_eq given fs (m + (i + 1 - m)) (i + 1) (by omega)
    refine ⟨m', h', ?_⟩
    simp only [members, getFieldName_eq given m i h, Option.bind_some, cell_eq, e, Option.map_some]
    simp [List.zipIdx_cons]

theorem items_eq : ∀ fs : List Bytes, items fs = some (JVal.toks.itemToks (fs.map fun f => .scalar (cell f)))
  | [] => by simp [items]
  | f :: fs => by simp [items, cell_eq, items_eq fs]

theorem produceRecord_eq (cfg : Cfg) (given : List Bytes) (m : Nat) (h : given.length ≤ m) (r : List Bytes) :
    ∃ m', given.length ≤ m' ∧ produceRecord cfg (known given m) r =
      some ((recordVal cfg.objects (fun j => hdr (colName given j)) cell r).toks, known given m') := by
  unfold produceRecord recordVal
  cases cfg.objects with
  | true =>
    obtain ⟨m', h', e⟩ := members_eq given r m 0 h
    refine ⟨m', h', ?_⟩
    simp [e, elisionToks]
  | false =>
    refine ⟨m, h, ?_⟩
    simp [items_eq, elisionToks]

theorem loop_eq (cfg : Cfg) (fin : RErr) (given : List Bytes) : ∀ (rs : List (List Bytes)) (first : Bool) (m : Nat), given.length ≤ m →
    (!first || !cfg.hasHeader) = true →
    ∃ names, loop cfg fin first (known given m) rs =
      some (streamToks (rs.map (recordVal cfg.objects (fun j => hdr (colName given j)) cell)), if fin = .eof then none else some fin, names)
  | [], first, m, h, _ => ⟨_, by simp [loop]; rfl⟩
  | r :: rs, first, m, h, hh => by
    obtain ⟨m', h', e⟩ := produceRecord_eq cfg given m h r
    obtain ⟨names, e'⟩ := loop_eq cfg fin given rs false m' h' rfl
    refine ⟨names, ?_⟩
    simp only [loop, hh, if_true, e, Option.bind_some, e', Option.map_some]
    simp

theorem produce_eq (cfg : Cfg) (preset : List Bytes) (inp : Input) :
    produce cfg preset inp = some (streamToks
      ((if cfg.hasHeader then inp.records.tail else inp.records).map (recordVal cfg.objects
        (fun j => hdr (colName (preset ++ if cfg.hasHeader then inp.records.head?.getD [] else []) j)) cell)),
      if inp.fin = .eof then none else some inp.fin) := by
  obtain ⟨recs, fin⟩ := inp
  simp only [produce, setFieldNames_eq, List.nil_append, Option.bind_some]
  cases hh : cfg.hasHeader with
  | false =>
    simp only [Bool.false_eq_true, if_false, List.append_nil]
    rw [← known_given preset]
    obtain ⟨names, e⟩ := loop_eq cfg fin preset recs true preset.length (Nat.le_refl _) (by simp [hh])
    rw [e]; rfl
  | true =>
    cases recs with
    | nil => simp [loop]
    | cons r rs =>
      simp only [loop, hh, Bool.not_true, Bool.or_false, Bool.false_eq_true, if_false, setFieldNames_eq, Option.bind_some, if_true,
        List.tail_cons, List.head?_cons, Option.getD_some]
      rw [← List.map_append, ← known_given (preset ++ r)]
      obtain ⟨names, e⟩ := loop_eq cfg fin (preset ++ r) rs false (preset ++ r).length (Nat.le_refl _) rfl
      rw [e]; rfl

end Verif.Csv
