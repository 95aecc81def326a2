import Verif.CsvBlank
import Verif.CsvRecords
import Verif.ProgramLemmas

/-!
# C84: Names of CSV columns from the command line or from the first line
-/

set_option linter.unusedSimpArgs false
set_option linter.unusedVariables false

namespace Verif
open Rfc4180

theorem crlf_plain : ∀ {H : Bytes} (t : Bytes), c%'\r' ∉ H → crlf (H ++ c%'\n' :: t) = H ++ c%'\n' :: crlf t
  | [], t, _ => by simp [crlf]
  | b :: s, t, h => by
    have hb : b ≠ c%'\r' := fun e => h (e ▸ List.mem_cons_self ..)
    rw [List.cons_append, crlf, if_neg (fun h => hb h.1), crlf_plain t fun hm => h (List.mem_cons_of_mem _ hm)]
    rfl

namespace Cmd

/-- Without quotes and line breaks, the names are those of a line. -/
theorem names_record : ∀ (H : Bytes), (∀ b ∈ H, b ≠ c%'"' ∧ b ≠ c%'\n') → ∃ f fs, splitCommas H = f :: fs ∧ (∀ b ∈ f, b ≠ c%'"' ∧ b ≠ c%',' ∧ b ≠ c%'\n') ∧
    (∀ p : Bytes, (∀ b ∈ p, b ≠ c%'"' ∧ b ≠ c%',' ∧ b ≠ c%'\n') → GoRecord (p ++ H) ((p ++ f) :: fs))
  | [], _ => ⟨[], [], rfl, by simp, fun p hp => by rw [List.append_nil]; exact .one (.plain hp)⟩
  | b :: s, h => by
    obtain ⟨f, fs, e, hf, ih⟩ := names_record s fun x hx => h x (List.mem_cons_of_mem _ hx)
    have hb := h b (List.mem_cons_self ..)
    simp only [splitCommas, e]
    by_cases hc : b = c%','
    · subst hc
      refine ⟨[], f :: fs, by simp, by simp, fun p hp => ?_⟩
      rw [List.append_nil]
      exact .cons (.plain hp) (ih [] (by simp))
    · refine ⟨b :: f, fs, by simp [hc], ?_, fun p hp => ?_⟩
      · intro x hx
        rcases List.mem_cons.1 hx with rfl | hx
        · exact ⟨hb.1, hc, hb.2⟩
        · exact hf x hx
      · have := ih (p ++ [b]) (by
          intro x hx
          rcases List.mem_append.1 hx with hx | hx
          · exact hp x hx
          · cases List.mem_singleton.1 hx; exact ⟨hb.1, hc, hb.2⟩)
        simpa using this

theorem names_length : ∀ s : Bytes, (splitCommas s).length = s.count c%',' + 1 := by
  intro s
  induction s with
  | nil => rfl
  | cons b s ih =>
    simp only [splitCommas]
    cases e : splitCommas s with
    | nil => rw [e] at ih; simp at ih
    | cons f fs =>
      rw [e] at ih
      simp only [List.length_cons] at ih
      by_cases hc : b = c%','
      · subst hc; simp [List.count_cons]; omega
      · simp [List.count_cons, hc]; omega

private theorem header_main {env : Env} (o : Options) {H : Bytes} (hH : H ≠ []) {r r' : Reader} (ht : (Source.csv ⟨false, true⟩ (splitCommas H) r).tokens env =
    (Source.csv ⟨true, true⟩ [] r').tokens env) (x : Result) :
    Main env { o with inFormat := b%"csv", csvHeader := H } r x ↔ Main env { o with inFormat := b%"csv-with-header", csvHeader := [] } r' x := by
  have hp : prepare { o with inFormat := b%"csv", csvHeader := H } r = (parseArgs o.args).bind fun ts => (chooseSink o).map fun sink =>
      (.csv ⟨false, true⟩ (splitCommas H) r, ts, sink) := by
    have hs : chooseSource H b%"csv" r = some (.csv ⟨false, true⟩ (splitCommas H) r) := by
      unfold chooseSource
      rw [if_neg (by rintro ⟨_, h⟩; revert h; decide), if_neg (by decide), if_neg (by decide), if_pos rfl, if_pos hH]
    simp only [prepare, chooseFormat, if_neg (show ¬ b%"csv" = b%"auto" by decide), Option.bind_some, hs]
    rfl
  have hp' : prepare { o with inFormat := b%"csv-with-header", csvHeader := [] } r' = (parseArgs o.args).bind fun ts => (chooseSink o).map fun sink =>
      (.csv ⟨true, true⟩ [] r', ts, sink) := rfl
  constructor
  · intro hm
    cases hm with
    | fatal h =>
      refine .fatal ?_
      rw [hp] at h
      rw [hp']
      cases hl : parseArgs o.args with
      | none => rfl
      | some l =>
        rw [hl] at h
        cases hk : chooseSink o with
        | none => rfl
        | some k => rw [hk] at h; cases h
    | run h1 h2 h3 h4 =>
      rw [hp] at h1
      simp only [Option.bind_eq_some_iff, Option.map_eq_some_iff, Prod.mk.injEq] at h1
      obtain ⟨l, hl, k, hk, rfl, rfl, rfl⟩ := h1
      exact .run (by rw [hp', hl, hk]; rfl) (ht ▸ h2) h3 h4
    | panic h1 h2 h3 h4 =>
      rw [hp] at h1
      simp only [Option.bind_eq_some_iff, Option.map_eq_some_iff, Prod.mk.injEq] at h1
      obtain ⟨l, hl, k, hk, rfl, rfl, rfl⟩ := h1
      exact .panic (by rw [hp', hl, hk]; rfl) (ht ▸ h2) h3 h4
  · intro hm
    cases hm with
    | fatal h =>
      refine .fatal ?_
      rw [hp'] at h
      rw [hp]
      cases hl : parseArgs o.args with
      | none => rfl
      | some l =>
        rw [hl] at h
        cases hk : chooseSink o with
        | none => rfl
        | some k => rw [hk] at h; cases h
    | run h1 h2 h3 h4 =>
      rw [hp'] at h1
      simp only [Option.bind_eq_some_iff, Option.map_eq_some_iff, Prod.mk.injEq] at h1
      obtain ⟨l, hl, k, hk, rfl, rfl, rfl⟩ := h1
      exact .run (by rw [hp, hl, hk]; rfl) (ht ▸ h2) h3 h4
    | panic h1 h2 h3 h4 =>
      rw [hp'] at h1
      simp only [Option.bind_eq_some_iff, Option.map_eq_some_iff, Prod.mk.injEq] at h1
      obtain ⟨l, hl, k, hk, rfl, rfl, rfl⟩ := h1
      exact .panic (by rw [hp, hl, hk]; rfl) (ht ▸ h2) h3 h4

end Cmd

namespace Csv
open Cmd

/-- The line of names is a record, and the rest of the text is left. -/
theorem header_record (fin : RErr) {H : Bytes} (hH : H ≠ []) (hq : ∀ b ∈ H, b ≠ c%'"' ∧ b ≠ c%'\n' ∧ b ≠ c%'\r') (D : Bytes) {f : Nat} (hf : H.length + 3 ≤ f) :
    readRecord (textLine fin) f 0 (H ++ c%'\n' :: D) = (.ok (splitCommas H), (splitCommas H).length, D) := by
  obtain ⟨g, gs, e, -, hrec⟩ := names_record H fun b hb => ⟨(hq b hb).1, (hq b hb).2.1⟩
  have hrec := hrec [] (by simp)
  rw [List.nil_append, List.nil_append, ← e] at hrec
  have hread : readText .eof (H ++ [c%'\n']) = ⟨[splitCommas H], .eof⟩ := by
    refine readText_iff.2 ⟨?_, ?_⟩
    · rw [crlf_plain _ fun hm => (hq _ hm).2.2 rfl]
      exact .record hrec hH .nil
    · intro x hx y hy
      rw [List.mem_singleton.1 hx, List.mem_singleton.1 hy]
  have hl : Lines (H ++ [c%'\n']) := .inr (by simp)
  have hn : c%'\n' ∉ H := fun hm => (hq _ hm).2.1 rfl
  have hline : textLine .eof (H ++ [c%'\n']) = (H ++ [c%'\n'], none, []) := by
    have h1 : lineOf (H ++ [c%'\n']) = H ++ [c%'\n'] := by rw [lineOf_append hn]; rfl
    unfold textLine
    rw [if_pos (by simp), h1]
    unfold finishLine
    rw [if_neg (by simp), List.drop_eq_nil_of_le (Nat.le_refl _)]
    simp only
    rw [if_neg]
    rintro ⟨z, hz⟩
    have : z ++ [c%'\r'] ++ [c%'\n'] = H ++ [c%'\n'] := by rw [← hz]; simp
    exact (hq c%'\r' (by rw [← List.append_cancel_right this]; simp)).2.2 rfl
  have hp : 0 < H.length := List.length_pos_iff.2 hH
  unfold readText at hread
  simp only [List.length_append, List.length_singleton] at hread
  simp only [readAll] at hread
  have hst : (readRecord (textLine .eof) (H.length + 1 + 2) 0 (H ++ [c%'\n'])).2.2 = [] := by
    unfold readRecord
    have hs : skipLines (textLine .eof) (H.length + 1 + 2) (H ++ [c%'\n']) = (H ++ [c%'\n'], none, []) := by
      rw [skipLines, hline]
      simp only
      rw [if_neg (by rw [lengthNL_end]; simp; omega)]
    rw [hs]
    simp only [reduceCtorEq, if_false]
    have h2 := fields_len .eof (H.length + 1 + 2) [] (H ++ [c%'\n']) none [] none
    generalize parseFields (textLine .eof) (H.length + 1 + 2) [] (H ++ [c%'\n']) none [] none = y at h2
    obtain ⟨fs, e', s'⟩ := y
    have : s' = [] := List.length_eq_zero_iff.1 (by simpa using h2)
    cases e' with
    | some e' => exact this
    | none => simp only; split <;> exact this
  have hct : ∀ x, (readRecord (textLine .eof) (H.length + 1 + 2) 0 (H ++ [c%'\n'])).1 = .ok x →
      (readRecord (textLine .eof) (H.length + 1 + 2) 0 (H ++ [c%'\n'])).2.1 = x.length := by
    unfold readRecord
    generalize skipLines (textLine .eof) (H.length + 1 + 2) (H ++ [c%'\n']) = y
    obtain ⟨l, e', s'⟩ := y
    simp only
    split
    · intro x h; cases h
    · generalize parseFields (textLine .eof) (H.length + 1 + 2) s' l e' [] none = y
      obtain ⟨fs, e', s'⟩ := y
      cases e' with
      | some e' => intro x h; cases h
      | none =>
        simp only
        intro x h
        rw [if_neg (by simp)] at h ⊢
        cases h
        simp
  rcases record_lines fin D (H.length + 1 + 2) f 0 _ hf hl with ⟨x, h1⟩ | ⟨x, h1, h2, -⟩
  · generalize readRecord (textLine .eof) (H.length + 1 + 2) 0 (H ++ [c%'\n']) = y at hread h1
    obtain ⟨y, n, t⟩ := y
    simp only at h1
    subst h1
    simp at hread
  · have hx : x = splitCommas H := by
      generalize readRecord (textLine .eof) (H.length + 1 + 2) 0 (H ++ [c%'\n']) = y at hread h1
      obtain ⟨y, n, t⟩ := y
      simp only at h1
      subst h1
      simp at hread
      exact hread.1.1
    rw [hct x h1, hst, hx] at h2
    simpa using h2

/-- The number of fields that is expected, and the first record. -/
theorem all_expected (fin : RErr) (f k n : Nat) (D : Bytes) (hn : 0 < n)
    (h : ∀ x, (readAll (textLine fin) f k 0 D).records.head? = some x → x.length = n) :
    readAll (textLine fin) f k n D = readAll (textLine fin) f k 0 D := by
  cases k with
  | zero => rfl
  | succ k =>
    simp only [readAll, readRecord] at h ⊢
    generalize skipLines (textLine fin) f D = y at h
    obtain ⟨l, e, s⟩ := y
    simp only at h ⊢
    by_cases he : e = some .eof
    · simp only [if_pos he]
    · simp only [if_neg he] at h ⊢
      generalize parseFields (textLine fin) f s l e [] none = y at h
      obtain ⟨fs, e', s'⟩ := y
      cases e' with
      | some e' => rfl
      | none =>
        simp only [gt_iff_lt, Nat.lt_irrefl, false_and, if_false, if_true] at h ⊢
        have := h fs rfl
        rw [if_neg (by omega), if_neg (by omega), this]

theorem readText_header (fin : RErr) {H : Bytes} (hH : H ≠ []) (hq : ∀ b ∈ H, b ≠ c%'"' ∧ b ≠ c%'\n' ∧ b ≠ c%'\r') (D : Bytes)
    (h : ∀ x, (readText fin D).records.head? = some x → x.length = (splitCommas H).length) :
    readText fin (H ++ c%'\n' :: D) = ⟨splitCommas H :: (readText fin D).records, (readText fin D).fin⟩ := by
  have hp : 0 < H.length := List.length_pos_iff.2 hH
  have e0 : (H ++ c%'\n' :: D).length + 2 = (H.length + D.length + 2) + 1 := by simp only [List.length_append, List.length_cons]; omega
  have e1 : readText fin D = readAll (textLine fin) ((H.length + D.length + 2) + 1) (H.length + D.length + 2) 0 D := by
    rw [readText_crlf, show readAll (textLine fin) ((H.length + D.length + 2) + 1) (H.length + D.length + 2) 0 D =
      readAll (plainLine fin) ((H.length + D.length + 2) + 1) (H.length + D.length + 2) 0 (crlf D) from same_all (same_crlf fin) _ _ _ rfl]
    have := crlf_length D
    exact all_fuel _ _ _ _ _ _ (by omega) (by omega) (by omega) (by omega)
  rw [e1] at h ⊢
  rw [← all_expected fin _ _ (splitCommas H).length D (by rw [names_length]; omega) h]
  show readAll (textLine fin) _ _ 0 _ = _
  rw [e0, readAll]
  rw [header_record fin hH hq D (by omega)]

/-- If the first record has another number of fields than the names, it is an error. -/
theorem readText_mismatch (fin : RErr) {H : Bytes} (hH : H ≠ []) (hq : ∀ b ∈ H, b ≠ c%'"' ∧ b ≠ c%'\n' ∧ b ≠ c%'\r') (D : Bytes) {x : List Bytes}
    (hx : (readText fin D).records.head? = some x) (h : x.length ≠ (splitCommas H).length) :
    readText fin (H ++ c%'\n' :: D) = ⟨[splitCommas H], errFieldCount⟩ := by
  have hp : 0 < H.length := List.length_pos_iff.2 hH
  have e0 : (H ++ c%'\n' :: D).length + 2 = (H.length + D.length + 1) + 1 + 1 := by simp only [List.length_append, List.length_cons]; omega
  have e1 : readText fin D = readAll (textLine fin) ((H.length + D.length + 1) + 1 + 1) ((H.length + D.length + 1) + 1) 0 D := by
    rw [readText_crlf, show readAll (textLine fin) ((H.length + D.length + 1) + 1 + 1) ((H.length + D.length + 1) + 1) 0 D =
      readAll (plainLine fin) ((H.length + D.length + 1) + 1 + 1) ((H.length + D.length + 1) + 1) 0 (crlf D) from same_all (same_crlf fin) _ _ _ rfl]
    have := crlf_length D
    exact all_fuel _ _ _ _ _ _ (by omega) (by omega) (by omega) (by omega)
  have hpos : 0 < (splitCommas H).length := by rw [names_length]; omega
  rw [e1] at hx
  show readAll (textLine fin) _ _ 0 _ = _
  rw [e0, readAll, header_record fin hH hq D (by omega)]
  simp only
  suffices hs : readAll (textLine fin) ((H.length + D.length + 1) + 1 + 1) ((H.length + D.length + 1) + 1) (splitCommas H).length D = ⟨[], errFieldCount⟩ by rw [hs]
  generalize (H.length + D.length + 1) + 1 + 1 = f at hx ⊢
  generalize H.length + D.length + 1 = k at hx ⊢
  simp only [readAll, readRecord] at hx ⊢
  generalize skipLines (textLine fin) f D = y at hx ⊢
  obtain ⟨l, e, s⟩ := y
  simp only at hx ⊢
  by_cases he : e = some .eof
  · simp [if_pos he] at hx
  · simp only [if_neg he] at hx ⊢
    generalize parseFields (textLine fin) f s l e [] none = y at hx ⊢
    obtain ⟨fs, e', s'⟩ := y
    cases e' with
    | some e' => simp at hx
    | none =>
      simp only [gt_iff_lt, Nat.lt_irrefl, false_and, if_false, if_true, List.head?_cons, Option.some.injEq] at hx ⊢
      subst hx
      rw [if_pos ⟨hpos, h⟩]

end Csv

namespace Cmd

/-- Column names (without quotes and line breaks) given on the command line, or as a line before the text: the same results, for all other options, arguments
and queries, also for texts that are not valid CSV and if reading fails, if the first record (if there is one) has as many fields as there are names. -/
theorem C84_header_partial {env : Env} (o : Options) {H : Bytes} (hH : H ≠ []) (hq : ∀ b ∈ H, b ≠ c%'"' ∧ b ≠ c%'\n' ∧ b ≠ c%'\r') {r r' : Reader} (hf : Fair r.sched)
    (hf' : Fair r'.sched) (he : r.fin = r'.fin) (h : r'.rest = H ++ c%'\n' :: r.rest)
    (hn : ∀ x, (Csv.readInput r).records.head? = some x → x.length = H.count c%',' + 1) (x : Result) :
    Main env { o with inFormat := b%"csv", csvHeader := H } r x ↔ Main env { o with inFormat := b%"csv-with-header", csvHeader := [] } r' x := by
  refine header_main o hH ?_ x
  have e2 : Csv.readInput r' = ⟨splitCommas H :: (Csv.readInput r).records, (Csv.readInput r).fin⟩ := by
    rw [Csv.readInput_eq hf] at hn ⊢
    rw [Csv.readInput_eq hf', ← he, h]
    exact Csv.readText_header _ hH hq _ fun x hx => (hn x hx).trans (names_length H).symm
  simp only [Source.tokens, e2, Csv.produce_eq]
  simp

/-- For texts of the grammar of Go's reader: if all records have as many fields as there are names. -/
theorem C84_valid_partial {env : Env} (o : Options) {H : Bytes} (hH : H ≠ []) (hq : ∀ b ∈ H, b ≠ c%'"' ∧ b ≠ c%'\n' ∧ b ≠ c%'\r') {r r' : Reader} (hf : Fair r.sched)
    (hf' : Fair r'.sched) (he : r.fin = .eof) (he' : r'.fin = .eof) (h : r'.rest = H ++ c%'\n' :: r.rest) {rs : List (List Bytes)}
    (hr : GoRecords (crlf r.rest) rs) (hn : ∀ x ∈ rs, x.length = H.count c%',' + 1) (x : Result) :
    Main env { o with inFormat := b%"csv", csvHeader := H } r x ↔ Main env { o with inFormat := b%"csv-with-header", csvHeader := [] } r' x := by
  refine C84_header_partial o hH hq hf hf' (he.trans he'.symm) h (fun y hy => ?_) x
  rw [Csv.readInput_eq hf, he, Csv.readText_iff.2 ⟨hr, fun x hx y hy => (hn x hx).trans (hn y hy).symm⟩] at hy
  exact hn y (List.mem_of_mem_head? hy)

/-- Otherwise the two ways differ: with the names in the first line there is no output, and an error is reported (no arguments, JSON output). -/
theorem C84_mismatch {env : Env} {o : Options} (ha : o.args = []) (ho : o.outFormat = b%"json") {H : Bytes} (hH : H ≠ [])
    (hq : ∀ b ∈ H, b ≠ c%'"' ∧ b ≠ c%'\n' ∧ b ≠ c%'\r') {r r' : Reader} (hf : Fair r.sched) (hf' : Fair r'.sched) (he : r.fin = r'.fin)
    (h : r'.rest = H ++ c%'\n' :: r.rest) {x : List Bytes} (hx : (Csv.readInput r).records.head? = some x) (hn : x.length ≠ H.count c%',' + 1) :
    Main env { o with inFormat := b%"csv-with-header", csvHeader := [] } r' ⟨[], 0, true⟩ := by
  have e2 : Csv.readInput r' = ⟨[splitCommas H], Csv.errFieldCount⟩ := by
    rw [Csv.readInput_eq hf] at hx
    rw [Csv.readInput_eq hf', ← he, h]
    exact Csv.readText_mismatch _ hH hq _ hx (by rw [names_length]; exact hn)
  have ht : (Source.csv ⟨true, true⟩ [] r').tokens env = some ([], true) := by
    simp only [Source.tokens, e2, Csv.produce_eq]
    rfl
  have hs : chooseSink o = some (Enc.encode ⟨o.color, o.width, 2⟩ ⟨if o.compact then -1 else o.indent, o.terminal⟩ Enc.goodSink) := by
    simp only [chooseSink, if_pos ho]
  refine .run (source := .csv ⟨true, true⟩ [] r') (ts := []) (toks := []) (out := []) ?_ ht .nil
    (show Enc.encode ⟨o.color, o.width, 2⟩ ⟨if o.compact then -1 else o.indent, o.terminal⟩ Enc.goodSink [] = ([], .ok ()) from ?_)
  · show ((parseArgs o.args).bind fun ts => (chooseSink o).map fun sink => _) = _
    rw [ha, hs]
    rfl
  · exact Enc.encode_good _ _ []

/-- With fewer fields than names: with names from the command line the record is accepted, with names in the first line it is an error. -/
theorem C84_violated : Main noEnv { inFormat := b%"csv", csvHeader := b%"a,b" } (atOnce b%"1\n") ⟨b%"{\"a\": 1}\n", 0, false⟩ ∧
    Main noEnv { inFormat := b%"csv-with-header" } (atOnce b%"a,b\n1\n") ⟨[], 0, true⟩ := by
  constructor
  · exact .run (source := .csv ⟨false, true⟩ [b%"a", b%"b"] (atOnce b%"1\n")) (ts := [])
      (toks := streamToks [.obj [(⟨b%"\"a\"", .str, true, true, false⟩, num b%"1")] false]) rfl (by decide +kernel) .nil (by decide +kernel)
  · exact .run (source := .csv ⟨true, true⟩ [] (atOnce b%"a,b\n1\n")) (ts := []) (toks := []) (bad := true) rfl (by decide +kernel) .nil (by decide +kernel)

/-- Names with quotes: quotes on the command line are part of the names. -/
theorem C84_violated_quotes : Main noEnv { inFormat := b%"csv", csvHeader := b%"\"a\"" } (atOnce b%"1\n") ⟨b%"{\"\\\"a\\\"\": 1}\n", 0, false⟩ ∧
    Main noEnv { inFormat := b%"csv-with-header" } (atOnce b%"\"a\"\n1\n") ⟨b%"{\"a\": 1}\n", 0, false⟩ := by
  constructor
  · exact .run (source := .csv ⟨false, true⟩ [b%"\"a\""] (atOnce b%"1\n")) (ts := [])
      (toks := streamToks [.obj [(⟨b%"\"\\\"a\\\"\"", .str, false, false, false⟩, num b%"1")] false]) rfl (by decide +kernel) .nil (by decide +kernel)
  · exact .run (source := .csv ⟨true, true⟩ [] (atOnce b%"\"a\"\n1\n")) (ts := [])
      (toks := streamToks [.obj [(⟨b%"\"a\"", .str, true, true, false⟩, num b%"1")] false]) rfl (by decide +kernel) .nil (by decide +kernel)

/-! ## Non-vacuity -/

/-- Both ways, for the text `1,2`. -/
example : Main noEnv { inFormat := b%"csv", csvHeader := b%"a,b" } (atOnce b%"1,2\n") ⟨b%"{\"a\": 1, \"b\": 2}\n", 0, false⟩ ∧
    Main noEnv { inFormat := b%"csv-with-header" } (atOnce b%"a,b\n1,2\n") ⟨b%"{\"a\": 1, \"b\": 2}\n", 0, false⟩ := by
  have h : Main noEnv { inFormat := b%"csv", csvHeader := b%"a,b" } (atOnce b%"1,2\n") ⟨b%"{\"a\": 1, \"b\": 2}\n", 0, false⟩ :=
    .run (source := .csv ⟨false, true⟩ [b%"a", b%"b"] (atOnce b%"1,2\n")) (ts := [])
      (toks := streamToks [.obj [(⟨b%"\"a\"", .str, true, true, false⟩, num b%"1"), (⟨b%"\"b\"", .str, true, true, false⟩, num b%"2")] false])
      rfl (by decide +kernel) .nil (by decide +kernel)
  have hr : GoRecords (crlf b%"1,2\n") [[b%"1", b%"2"]] := (Csv.readText_iff.1 (by rfl)).1
  exact ⟨h, (C84_valid_partial {} (H := b%"a,b") (r := atOnce b%"1,2\n") (r' := atOnce b%"a,b\n1,2\n") (by decide) (by decide) (fair_atOnce _) (fair_atOnce _) rfl rfl rfl hr
    (by decide) _).1 h⟩

/-- A first record that is too short. -/
example : Main noEnv { inFormat := b%"csv-with-header" } (atOnce b%"a,b\n1\n") ⟨[], 0, true⟩ :=
  C84_mismatch (o := {}) rfl rfl (H := b%"a,b") (r := atOnce b%"1\n") (by decide) (by decide) (fair_atOnce _) (fair_atOnce _) rfl rfl (x := [b%"1"])
    (by decide +kernel) (by decide)

/-- A text that ends with an error. -/
example (x : Result) : Main noEnv { inFormat := b%"csv", csvHeader := b%"a" } (atOnce b%"1\n\"") x ↔
    Main noEnv { inFormat := b%"csv-with-header" } (atOnce b%"a\n1\n\"") x :=
  C84_header_partial {} (H := b%"a") (r := atOnce b%"1\n\"") (r' := atOnce b%"a\n1\n\"") (by decide) (by decide) (fair_atOnce _) (fair_atOnce _) rfl rfl (fun y hy => by
    have : (Csv.readInput (atOnce b%"1\n\"")).records.head? = some [b%"1"] := by decide +kernel
    rw [this] at hy
    cases hy
    decide) x

end Cmd
end Verif
