import Verif.CsvReread

/-!
# C22: CSV output is valid JSON
-/

namespace Verif
open Rfc8259 CsvSpec EncSpec Csv Enc

theorem not_literal {b : Bytes} {c} (hb : b = 0x22 :: (c ++ [0x22])) (h : IsLiteral b) : RfcChars c := by
  subst hb
  rcases h with h | h | h | h | ⟨c', hc, h⟩
  · exact absurd (List.cons.inj h).1 (by decide)
  · exact absurd (List.cons.inj h).1 (by decide)
  · exact absurd (List.cons.inj h).1 (by decide)
  · have := number_chars h 0x22 (by simp)
    exfalso; revert this; unfold NumChar; decide
  · rw [List.append_cancel_right (List.cons.inj h).2]; exact hc

/-- C22 is false: a tab is copied into the literal. -/
theorem C22_violated : ∃ f s, Utf8 f ∧ fieldToScalar f false = some s ∧ ¬ IsLiteral s.bytes := by
  refine ⟨[0x61, 0x09], { bytes := [0x22, 0x61, 0x09, 0x22], type := .str },
    ⟨[0x61, 9], by simp [Rfc8259.UScalar], rfl⟩, by decide +kernel, fun h => ?_⟩
  have := rfc_ctrl (not_literal (c := [0x61, 0x09]) rfl h) 0x09 (by simp)
  exact absurd this (by decide)

/-- C22 for fields without control characters, of records and of headers.  Missing: control characters other than line feeds,
for which it is false. -/
theorem C22_valid_partial (f : Bytes) (hu : Utf8 f) (hc : Clean f) (isHeader : Bool) :
    ∃ s, fieldToScalar f isHeader = some s ∧ IsLiteral s.bytes := by
  cases isHeader with
  | true =>
    obtain ⟨hb, _⟩ := hdr_spec f
    exact ⟨_, hdr_eq f, .inr (.inr (.inr (.inr ⟨_, quoted_rfc hu hc, hb⟩)))⟩
  | false =>
    obtain ⟨s, e, hk, he, h⟩ := data_spec f
    refine ⟨s, e, ?_⟩
    rcases h with ⟨_, h1, h2⟩ | ⟨h, h1, h2⟩ | ⟨_, _, _, ⟨h, _, h1, h2⟩ | ⟨_, h1, h2, _⟩ | ⟨_, _, h1, h, _⟩⟩
    · exact .inr (.inr (.inl h2))
    · rw [h2]; rcases h with rfl | rfl
      · exact .inl rfl
      · exact .inr (.inl rfl)
    · exact .inr (.inr (.inr (.inl (h2 ▸ h))))
    · exact .inr (.inr (.inr (.inr ⟨_, quoted_rfc hu hc, h2⟩)))
    · exact .inr (.inr (.inr (.inl h)))

/-- The claim holds for a field exactly if it has no control characters other than line feeds. -/
theorem C22_exactly_when (f : Bytes) (hu : Utf8 f) (isHeader : Bool) :
    (∃ s, fieldToScalar f isHeader = some s ∧ IsLiteral s.bytes) ↔ Clean f := by
  refine ⟨?_, fun h => C22_valid_partial f hu h isHeader⟩
  rintro ⟨s, e, hl⟩
  have key : s.bytes = quoted f → Clean f := by
    intro hb
    exact clean_of_quoted (rfc_ctrl (not_literal hb hl))
  cases isHeader with
  | true =>
    obtain ⟨hb, _⟩ := hdr_spec f
    rw [hdr_eq, Option.some.injEq] at e
    exact key (e ▸ hb)
  | false =>
    obtain ⟨s', e', hk, he, h⟩ := data_spec f
    rw [e, Option.some.injEq] at e'
    subst e'
    rcases h with ⟨rfl, _⟩ | ⟨h, h1, h2⟩ | ⟨_, _, _, ⟨h, _⟩ | ⟨_, h1, h2, _⟩ | ⟨_, h, _⟩⟩
    · simp [Clean]
    · rcases h with rfl | rfl <;> (unfold Clean; decide)
    · exact number_clean h
    · exact key h2
    · exact fun b hb => .inl (numChar_clean (h.1 b hb))

/-- Reading back the JSON written from a CSV file (without colours, with any formatting and any reader) gives the same tokens,
flags excepted.  Missing: fields and names with control characters other than line feeds, for which it is false. -/
theorem C22_reread_partial (cfg : Cfg) (preset : List Bytes) (inp : Input)
    (hp : ∀ t ∈ preset, Utf8 t ∧ Clean t) (hi : ∀ r ∈ inp.records, ∀ f ∈ r, Utf8 f ∧ Clean f) :
    ∃ ts e, produce cfg preset inp = some (ts, e) ∧
      ∀ (widthLimit maxItems : Int) (pc : PrinterCfg) (r : Reader) (size : Nat), 2 ≤ size → Fair r.sched → r.fin = .eof →
        r.rest = (encode ⟨none, widthLimit, maxItems⟩ pc goodSink ts).1 →
        (encode ⟨none, widthLimit, maxItems⟩ pc goodSink ts).2 = .ok () ∧
        ∃ us, Json.decodeFrom r size = (us, .ok () ()) ∧ us.map bare = ts.map bare := by
  refine ⟨_, _, produce_eq cfg preset inp, fun wl mi pc r size hsz hf he hr => ?_⟩
  generalize hg : (preset ++ if cfg.hasHeader then inp.records.head?.getD [] else []) = given at *
  have hgiven : ∀ t ∈ given, Utf8 t ∧ Clean t := by
    intro t ht
    rw [← hg] at ht
    rcases List.mem_append.1 ht with h | h
    · exact hp t h
    · split at h
      · cases hr : inp.records with
        | nil => simp [hr] at h
        | cons a l => rw [hr] at h; exact hi a (by simp [hr]) t h
      · simp at h
  have hname : ∀ j, Utf8 (colName given j) ∧ Clean (colName given j) := by
    intro j
    cases hj : given[j]? with
    | some t =>
      simp only [colName, hj, Option.getD_some]
      exact hgiven t (List.mem_of_getElem? hj)
    | none =>
      have hn := (colName_names given j).2 (List.getElem?_eq_none_iff.1 hj)
      obtain ⟨ds, hds, hint, _⟩ := hn
      have hx : ∀ b ∈ colName given j, 0x20 ≤ b ∧ b < 0x80 := by
        rw [hds]
        intro b hb'
        rcases List.mem_append.1 hb' with hb | hb <;> clear hb'
        · revert hb; revert b; decide
        · have hd : Digit b := by
            rcases hint with rfl | ⟨d, ds', h1, h2, h3, rfl⟩
            · simp at hb; subst hb; unfold Digit; decide
            · rcases List.mem_cons.1 hb with rfl | hb
              · exact ⟨by rw [u8le] at h1 ⊢; simp at h1 ⊢; omega, h2⟩
              · exact h3 b hb
          obtain ⟨h1, h2⟩ := hd
          rw [u8le] at h1 h2 ⊢; rw [u8lt]; simp at h1 h2 ⊢; omega
      refine ⟨⟨(colName given j).map UInt8.toNat, ?_, ?_⟩, fun b hb => .inl (hx b hb).1⟩
      · simp only [List.mem_map]
        rintro _ ⟨b, hb, rfl⟩
        have := (hx b hb).2
        rw [u8lt] at this
        exact .inl (by simp at this; omega)
      · generalize colName given j = l at hx
        clear hds hint hj
        induction l with
        | nil => rfl
        | cons b l ih =>
          have := (hx b (by simp)).2
          rw [u8lt] at this
          rw [List.map_cons, List.flatMap_cons, ← ih (fun b hb => hx b (by simp [hb])), utf8_low (by simpa using this)]
          simp
  have hrs : ∀ r ∈ (if cfg.hasHeader then inp.records.tail else inp.records), ∀ f ∈ r, Utf8 f ∧ Clean f := by
    intro r hr
    split at hr
    · exact hi r (List.mem_of_mem_tail hr)
    · exact hi r hr
  generalize (if cfg.hasHeader then inp.records.tail else inp.records) = rs at *
  rw [← encode_flagged] at hr ⊢
  obtain ⟨h1, us, h2, h3⟩ := C01_roundtrip_tokens _ (by
    simp only [List.mem_map]
    rintro _ ⟨r, hr, rfl⟩
    unfold recordVal
    cases cfg.objects with
    | false =>
      refine .arr ?_
      simp only [List.mem_map]
      rintro _ ⟨f, hf, rfl⟩
      have := cell_spelled (hrs r hr f hf).1 (hrs r hr f hf).2
      exact .scalar this.1 this.2
    | true =>
      refine .obj ?_ ?_
      · simp only [List.mem_map]
        rintro _ ⟨⟨f, j⟩, hf, rfl⟩
        obtain ⟨hb, ht, _⟩ := hdr_spec (colName given j)
        exact ⟨rfl, ht, spelled_str (s := flagged (hdr (colName given j))) hb ht (quoted_rfc (hname j).1 (hname j).2)⟩
      · simp only [List.mem_map]
        rintro _ ⟨⟨f, j⟩, hf, rfl⟩
        have hf := (List.fst_mem_of_mem_zipIdx hf)
        have := cell_spelled (hrs r hr f hf).1 (hrs r hr f hf).2
        exact .scalar this.1 this.2)
    (by simp only [List.mem_map]; rintro _ ⟨r, _, rfl⟩; exact record_complete _ _ _ _) wl mi pc r size hsz hf he hr
  exact ⟨h1, us, h2, (bare_forget h3).trans (bare_stream _ _ _ _)⟩

/-- Non-vacuity: clean text. -/
example : Utf8 b%"a\n" ∧ Clean b%"a\n" := ⟨⟨[0x61, 0x0A], by simp [Rfc8259.UScalar], rfl⟩, by unfold Clean; decide⟩

end Verif
