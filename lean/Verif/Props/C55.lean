import Verif.ProgramLemmas
import Verif.Props.C54
import Verif.Props.C38
import Verif.PathShape
import Verif.FmtOk

/-!
# C55: The program from texts to texts
-/

set_option linter.unusedSimpArgs false
set_option linter.unusedVariables false

namespace Verif.Cmd
open Rfc8259 EncSpec JPath Rfc9535

/-- What the arguments mean, for streams of values: `split` (C31), `join` (C31), `trace`, `depth=n` (C30; below 0 nothing is left) and queries (RFC 9535).  Missing for queries: what is
excluded by `Plain` (see C38), and descendant segments that change the order (see C39). -/
inductive Means (env : Env) (strict : Bool) : List Transform → List JVal → List JVal → Prop
  | nil {vs} : Means env strict [] vs vs
  | split {l vs out} : Means env strict l (vs.flatMap JVal.parts) out → Means env strict (.split :: l) vs out
  | join {l vs out} : Means env strict l [.arr vs false] out → Means env strict (.join :: l) vs out
  | trace {l vs out} : Means env strict l [] out → Means env strict (.trace :: l) vs out
  | depth {l vs out} (n : Nat) : Means env strict l (vs.map (JVal.trunc n)) out → Means env strict (.depth n :: l) vs out
  | drop {l vs out} {m : Int} : m < 0 → Means env strict l [] out → Means env strict (.depth m :: l) vs out
  | query {l vs out} {re : Sem} {S : Bytes → Prop} {q : Query} : (compileQuery q).isSome = true → (∀ v ∈ vs, Plain env.lib re S q v) →
      (∀ seg ∈ q.segs, seg.Exact strict) → Means env strict l (vs.flatMap (eval re q)) out → Means env strict (.query q :: l) vs out

private theorem drop_all {m : Int} (hm : m < 0) : ∀ vs : List JVal, maxDepthFilter m (streamToks vs) = []
  | [] => rfl
  | v :: vs => by
    have := drop_all hm vs
    unfold maxDepthFilter at this ⊢
    rw [show streamToks (v :: vs) = v.toks ++ streamToks vs from by simp [streamToks], loop_val_drop v hm]
    exact this

theorem Means.does {env : Env} {strict : Bool} {l : List Transform} {vs out : List JVal} (h : Means env strict l vs out) :
    DoAll env strict l (streamToks vs) (streamToks out) := by
  induction h with
  | nil => exact .nil
  | split _ ih => exact .cons (C31_split _) ih
  | join _ ih => exact .cons (C31_join _) ih
  | trace _ ih => exact .cons rfl ih
  | depth n _ ih => exact .cons (C30_maxDepth n _) ih
  | drop hm _ ih => exact .cons (drop_all hm _) ih
  | query hc hp he _ ih => exact .cons (outcome_exact hc hp he) ih

theorem Means.sent {env : Env} {strict : Bool} {l : List Transform} {vs out : List JVal} (h : Means env strict l vs out) {S : Bytes → Prop}
    (hd : ∀ n, .depth n ∉ l) (hs : ∀ v ∈ vs, Sent S v) : ∀ v ∈ out, Sent S v := by
  induction h with
  | nil => exact hs
  | split _ ih =>
    refine ih (fun n hn => hd n (List.mem_cons_of_mem _ hn)) fun v hv => ?_
    obtain ⟨w, hw, hv⟩ := List.mem_flatMap.1 hv
    exact (hs w hw).parts hv
  | join _ ih =>
    refine ih (fun n hn => hd n (List.mem_cons_of_mem _ hn)) fun v hv => ?_
    obtain rfl := List.mem_singleton.1 hv
    exact sent_join hs
  | trace _ ih => exact ih (fun n hn => hd n (List.mem_cons_of_mem _ hn)) (by simp)
  | depth n _ _ => exact absurd List.mem_cons_self (hd n)
  | drop _ _ ih => exact ih (fun n hn => hd n (List.mem_cons_of_mem _ hn)) (by simp)
  | query _ _ _ _ ih =>
    refine ih (fun n hn => hd n (List.mem_cons_of_mem _ hn)) fun v hv => ?_
    obtain ⟨w, hw, hv⟩ := List.mem_flatMap.1 hv
    exact (hs w hw).eval hv

/-- The program on JSON input, with any arguments: the result is that of the encoder for the values that the arguments mean, with any options for the
output, for any way in which the input arrives. -/
theorem C55_pipeline_partial {env : Env} {o : Options} {r : Reader} (hi : JsonInput o r) (hf : Fair r.sched) (he : r.fin = .eof) (ho : o.outFormat = b%"json")
    {vs : List JVal} (hv : SepStream LaxChars vs r.rest) {ts : List Transform} (ha : parseArgs o.args = some ts) {out : List JVal}
    (hm : Means env o.strict ts vs out) :
    Main env o r ⟨Enc.render o.printer 0 (Enc.layoutAll ⟨o.color, o.width, 2⟩ out), 0, false⟩ := by
  refine (main_json hi hf ha ho ?_ hm.does (Enc.encode_good _ _ _)).1 rfl
  rw [he, decode_complete hv]
  rfl

/-- Without `depth` and without colours the output is JSON again: texts of exactly these values (with the literals of the input).  `S` are the
contents of strings; with `RfcChars` the input and the output are JSON as in RFC 8259. -/
theorem C55_json_partial {env : Env} {o : Options} {r : Reader} (hi : JsonInput o r) (hf : Fair r.sched) (he : r.fin = .eof) (ho : o.outFormat = b%"json")
    (hcol : o.color = none) {S : Bytes → Prop} (hS : ∀ c, S c → LaxChars c) {vs : List JVal} (hv : SepStream S vs r.rest) {ts : List Transform}
    (ha : parseArgs o.args = some ts) (hd : ∀ n, .depth n ∉ ts) {out : List JVal} (hm : Means env o.strict ts vs out) :
    ∃ bytes, Main env o r ⟨bytes, 0, false⟩ ∧ SepStream S out bytes := by
  refine ⟨_, C55_pipeline_partial hi hf he ho (hv.mono hS) ha hm, ?_⟩
  obtain ⟨bytes, h1, h2⟩ := json_output (w := o.width) (m := 2) (pc := o.printer) (hm.sent hd (sent_stream hv))
  rw [Enc.encode_good] at h1
  cases h1
  rw [hcol]
  exact h2

/-- A query on the command line, from texts to texts: `s` is a query of the grammar of RFC 9535, with names, wildcards, indices and slices (see `Selector.Basic`),
the input is JSON; then the output is JSON, the values are those of the nodelists of the specification, in their order. -/
theorem C55_query_partial {env : Env} {o : Options} {r : Reader} (hi : JsonInput o r) (hf : Fair r.sched) (he : r.fin = .eof) (ho : o.outFormat = b%"json")
    (hcol : o.color = none) {S : Bytes → Prop} (hS : ∀ c, S c → LaxChars c) {vs : List JVal} (hv : SepStream S vs r.rest)
    (hd : ∀ v ∈ vs, (∃ d, Den v d) ∧ (v.toks.length : Int) ≤ maxInt64)
    {s : Bytes} {q : Query} (hq : QueryText false s q) (hb : ∀ seg ∈ q.segs, seg.Basic ∧ seg.Exact o.strict) (ha : o.args = [s]) (re : Sem) :
    ∃ bytes, Main env o r ⟨bytes, 0, false⟩ ∧ SepStream S (vs.flatMap (eval re q)) bytes := by
  have hc : (compileQuery q).isSome = true := basic_compiles fun s hs => (hb s hs).1
  have hp : parseArgs o.args = some [.query q] := by
    rw [ha]
    obtain ⟨-, t, e, -⟩ := id hq
    simp [parseArgs, parse_query ⟨t, e⟩ (C54_accepts hq).1 hc]
  refine C55_json_partial (env := env) hi hf he ho hcol hS hv hp (by simp) (.query (S := fun _ => True) hc ?_ (fun s hs => (hb s hs).2) .nil)
  exact fun v hv => basic_plain (fun s hs => (hb s hs).1) (hd v hv).1 (hd v hv).2

/-- Queries with filters, from texts to texts, of a class that is given by their shape (`shapeSegs`: comparisons of literals, relative singular queries and
counts; tests of relative queries with one selector in a segment, and of rooted ones if the input consists of arrays and objects; `match` and `search` with
literal patterns of `P`; combined in any way).  The input is JSON with numbers in the range of `float64` and less than 2^53 tokens.  Then the output is JSON, the
values are those of the nodelists of the specification, where number literals have the values of the nearest IEEE 754 double.  Of the library it
is supposed that it formats numbers as literals for them, and that patterns of `P` are matched as `re` says (for this see C70).  Missing: other filters (C40 to C44), descendant
segments that are not exact (C39). -/
theorem C55_filters_partial {env : Env} {o : Options} {r : Reader} (hi : JsonInput o r) (hf : Fair r.sched) (he : r.fin = .eof) (ho : o.outFormat = b%"json")
    (hcol : o.color = none) {S : Bytes → Prop} (hS : ∀ c, S c → LaxChars c) {vs : List JVal} (hv : SepStream S vs r.rest)
    (hd : ∀ v ∈ vs, (∃ d, Den v d) ∧ NumsIn InRange64 v ∧ v.toks.length < 2 ^ 53) {re : Sem} (hfmt : FmtOk env.lib.fmt) (hval : Double re.val)
    {P : Bool → Bytes → Prop} (hP : ∀ whole p, P whole p → ∀ s cs, Chars s cs → RegexOk env.lib re whole s p)
    {s : Bytes} {q : Query} (hq : QueryText false s q) (hb : shapeSegs P (∀ v ∈ vs, IsColl v) q.segs) (hx : ∀ seg ∈ q.segs, seg.Exact o.strict)
    (ha : o.args = [s]) :
    ∃ bytes, Main env o r ⟨bytes, 0, false⟩ ∧ SepStream S (vs.flatMap (eval re q)) bytes := by
  have ht := text_tame hq hb
  have hc : (compileQuery q).isSome = true := tame_compiles ht
  have hp : parseArgs o.args = some [.query q] := by
    rw [ha]
    obtain ⟨-, t, e, -⟩ := id hq
    simp [parseArgs, parse_query ⟨t, e⟩ (C54_accepts hq).1 hc]
  refine C55_json_partial (env := env) hi hf he ho hcol hS hv hp (by simp) (.query (S := InRange64) hc ?_ hx .nil)
  exact fun v hv => tame_plain hfmt hval hP ht (hd v hv).1 (hd v hv).2.1 (hd v hv).2.2 fun h => h v hv

/-- The result is determined, so it is the only one. -/
theorem C55_deterministic {env : Env} {o : Options} {r : Reader} {x y : Result} (h : Main env o r x) (h' : Main env o r y) : x = y := h.unique h'

/-- Without arguments the values are written as they are. -/
theorem C55_identity {env : Env} {o : Options} {r : Reader} (hi : JsonInput o r) (hf : Fair r.sched) (he : r.fin = .eof) (ho : o.outFormat = b%"json")
    (hcol : o.color = none) (ha : o.args = []) {S : Bytes → Prop} (hS : ∀ c, S c → LaxChars c) {vs : List JVal} (hv : SepStream S vs r.rest) :
    ∃ bytes, Main env o r ⟨bytes, 0, false⟩ ∧ SepStream S vs bytes :=
  C55_json_partial hi hf he ho hcol hS hv (ts := []) (by rw [ha]; rfl) (by simp) .nil


private theorem neg_text : QueryText false b%"$[-5::3]" ⟨true, [.mk false [.slice (some (-5)) none 3]]⟩ := by
  have h5 : IntText b%"-5" (-5) := ⟨.neg (d := 0x35) (ds := []) (by unfold Dig; decide) (by decide) (by simp), by unfold IJson; omega⟩
  have h3 : IntText b%"3" 3 := ⟨.pos (d := 0x33) (ds := []) (by unfold Dig; decide) (by decide) (by simp), by unfold IJson; omega⟩
  have hs : Rfc9535.Text false .selector b%"-5::3" (.slice (some (-5)) none 3) :=
    .slice (t1 := b%"-5") (w := []) (t2 := []) (t3 := b%":3") (.some (w := []) h5 blanks_nil) blanks_nil .none (.some (w := []) blanks_nil h3)
  exact ⟨rfl, b%"[-5::3]", rfl, .cons (w := []) (t := b%"[-5::3]") (t' := []) blanks_nil
    (.child (.brackets (w := []) (w' := []) blanks_nil (.oneSelector hs) blanks_nil)) .nil⟩

/-- C55 is false: `jp '$[-5::3]'` on `[1,2,3]` writes 2, but the specification selects 1. -/
theorem C55_violated (re : Sem) : ∃ q, QueryText false b%"$[-5::3]" q ∧
    eval re q (.arr [num b%"1", num b%"2", num b%"3"] false) = [num b%"1"] ∧
    Main noEnv { args := [b%"$[-5::3]"] } (atOnce b%"[1,2,3]") ⟨b%"2\n", 0, false⟩ := by
  refine ⟨_, neg_text, ?_, ?_⟩
  · simp [eval, nodes, Rfc9535.segNodes, selsNodes, selNodes, sliceNodes, show slice (some (-5)) none 3 3 = [0] from by decide]
  · refine (main_json (x := (b%"2\n", .ok ())) (ts := [.query ⟨true, [.mk false [.slice (some (-5)) none 3]]⟩])
      (toks := streamToks [.arr [num b%"1", num b%"2", num b%"3"] false]) (out := streamToks [num b%"2"]) (bad := false)
      (atOnce_json rfl _ (.inr rfl)) (fair_atOnce _) rfl rfl (by decide +kernel) (.cons ?_ .nil) (by decide +kernel)).1 rfl
    exact .of_run 10 (by decide +kernel)

/-- Worse: `jp '$[::-1]'` on `[[1],[2]]` writes a text that is not JSON, because the encoder panics; the exit status is 0. -/
theorem C55_violated_panic : Main noEnv { args := [b%"$[::-1]"] } (atOnce b%"[[1],[2]]") ⟨b%"[\n  [", 0, true⟩ ∧
    ¬ ∃ vs, SepStream LaxChars vs b%"[\n  [" := by
  constructor
  · refine (main_json (x := (b%"[\n  [", .stop .panic)) (ts := [.query ⟨true, [.mk false [.slice none none (-1)]]⟩])
      (toks := streamToks [.arr [.arr [num b%"1"] false, .arr [num b%"2"] false] false]) (out := [.startArr, .startArr]) (bad := false)
      (atOnce_json rfl _ (.inr rfl)) (fair_atOnce _) rfl rfl (by decide +kernel) (.cons ?_ .nil) (by decide +kernel)).2 rfl
    exact .of_run 10 (by decide +kernel)
  · rintro ⟨vs, h⟩
    have := decode_complete h
    revert this
    have e : (match (Pure.decode .eof b%"[\n  [").2 with | some (.ok _) => true | _ => false) = false := by decide +kernel
    intro this
    rw [this] at e
    cases e

private theorem neg_input : SepStream RfcChars [.arr [num b%"1", num b%"2", num b%"3"] false] b%"[1,2,3]" := by
  have h1 : ∀ d : Byte, 0x31 ≤ d ∧ d ≤ 0x39 → Rfc8259.Text RfcChars (num [d]) [d] := fun d hd =>
    .num ⟨[], [d], [], [], .inl rfl, .inr ⟨d, [], hd.1, hd.2, by simp, rfl⟩, .inl rfl, .inl rfl, rfl⟩
  exact .cons (w := []) (r := []) Enc.ws_nil (.arr (.more (w := []) (b := b%"1") (w' := []) Enc.ws_nil (h1 _ (by decide)) Enc.ws_nil
    (.more (w := []) (b := b%"2") (w' := []) Enc.ws_nil (h1 _ (by decide)) Enc.ws_nil
      (.one (w := []) (b := b%"3") (w' := []) Enc.ws_nil (h1 _ (by decide)) Enc.ws_nil)))) (by simp) (.nil (w := []) Enc.ws_nil)

private theorem index_text : QueryText false b%"$[1]" ⟨true, [.mk false [.index 1]]⟩ := by
  have hi : IntText b%"1" 1 := ⟨.pos (d := 0x31) (ds := []) (by unfold Dig; decide) (by decide) (by simp), by unfold IJson; omega⟩
  exact ⟨rfl, b%"[1]", rfl, .cons (w := []) (t := b%"[1]") (t' := []) blanks_nil
    (.child (.brackets (w := []) (w' := []) blanks_nil (.oneSelector (.index hi)) blanks_nil)) .nil⟩

/-- `jp '$[1]'` on `[1,2,3]`. -/
example (env : Env) (re : Sem) : ∃ bytes, Main env { args := [b%"$[1]"] } (atOnce b%"[1,2,3]") ⟨bytes, 0, false⟩ ∧ SepStream RfcChars [num b%"2"] bytes := by
  obtain ⟨bytes, h1, h2⟩ := C55_query_partial (env := env) (o := { args := [b%"$[1]"] }) (r := atOnce b%"[1,2,3]") (atOnce_json rfl _ (.inr rfl)) (fair_atOnce _) rfl rfl
    rfl (S := RfcChars) (fun _ => rfc_lax) neg_input (q := ⟨true, [.mk false [.index 1]]⟩) (by
      intro v hv
      simp only [List.mem_singleton] at hv
      subst hv
      have h1 : ∀ d : Byte, 0x31 ≤ d ∧ d ≤ 0x39 → Number [d] := fun d hd =>
        ⟨[], [d], [], [], .inl rfl, .inr ⟨d, [], hd.1, hd.2, by simp, rfl⟩, .inl rfl, .inl rfl, rfl⟩
      exact ⟨⟨_, .arr (.cons (.num rfl (h1 _ (by decide))) (.cons (.num rfl (h1 _ (by decide))) (.cons (.num rfl (h1 _ (by decide))) .nil)))⟩, by decide⟩) index_text (by simp [Segment.Basic, Selector.Basic, SelOk, Segment.Exact, IJson]) rfl re
  refine ⟨bytes, h1, ?_⟩
  simpa [eval, nodes, Rfc9535.segNodes, selsNodes, selNodes, indexNodes, index] using h2

/-- `0.15` -/
private theorem round_lit : F64.round (decimal b%"0.15") = some (5404319552844595 / 36028797018963968) := by decide +kernel

private theorem number_frac {ds : Bytes} (h0 : ds ≠ []) (h : ∀ b ∈ ds, 0x30 ≤ b ∧ b ≤ 0x39) : Rfc8259.Number (b%"0." ++ ds) :=
  ⟨[], b%"0", 0x2E :: ds, [], .inl rfl, .inl rfl, .inr ⟨ds, h0, h, rfl⟩, .inl rfl, by simp⟩

/-- `[?@<0.15]` -/
private def less : List Segment := [.mk false [.filter (.cmp (.sing ⟨false, []⟩) .lt (.lit (.num (5404319552844595 / 36028797018963968))))]]

attribute [local irreducible] F64.round nearest64 fmtExact

private theorem filter_text : QueryText false b%"$[?@<0.15]" ⟨true, less⟩ := by
  have hl : LitText b%"0.15" (.num (5404319552844595 / 36028797018963968)) := .num (number_frac (ds := b%"15") (by simp) (by simp)) round_lit
  have hc : Rfc9535.Text false .basic b%"@<0.15" (.cmp (.sing ⟨false, []⟩) .lt (.lit (.num (5404319552844595 / 36028797018963968)))) :=
    .cmp (t := b%"@") (w := []) (o := b%"<") (w' := []) (t' := b%"0.15") (.relSing (t := []) .nil) blanks_nil .lt blanks_nil (.lit hl)
  exact ⟨rfl, b%"[?@<0.15]", rfl, .cons (w := []) (t := b%"[?@<0.15]") (t' := []) blanks_nil
    (.child (.brackets (w := []) (t := b%"?@<0.15") (w' := []) blanks_nil (.oneSelector (.filter (w := []) (t := b%"@<0.15") blanks_nil (.or1 (.oneOr (.and1 (.oneAnd hc)))))) blanks_nil)) .nil⟩

private theorem frac_input : SepStream RfcChars [.arr [num b%"0.1", num b%"0.2"] false] b%"[0.1,0.2]" := by
  have h1 : ∀ d : Byte, 0x30 ≤ d ∧ d ≤ 0x39 → Rfc8259.Text RfcChars (num [0x30, 0x2E, d]) [0x30, 0x2E, d] := fun d hd =>
    .num (number_frac (ds := [d]) (by simp) (by simpa using hd))
  exact .cons (w := []) (r := []) Enc.ws_nil (.arr (.more (w := []) (b := b%"0.1") (w' := []) Enc.ws_nil (h1 _ (by decide)) Enc.ws_nil
      (.one (w := []) (b := b%"0.2") (w' := []) Enc.ws_nil (h1 _ (by decide)) Enc.ws_nil))) (by simp) (.nil (w := []) Enc.ws_nil)

/-- `jp '$[?@<0.15]'` on `[0.1,0.2]`. -/
example : ∃ bytes, Main ⟨⟨fmtExact, fun _ => none⟩⟩ { args := [b%"$[?@<0.15]"] } (atOnce b%"[0.1,0.2]") ⟨bytes, 0, false⟩ ∧ SepStream RfcChars [num b%"0.1"] bytes := by
  have d1 : ∀ val, DenBy val (num b%"0.1") (.num (val b%"0.1")) := fun val => .num rfl (number_frac (ds := b%"1") (by simp) (by simp))
  have d2 : ∀ val, DenBy val (num b%"0.2") (.num (val b%"0.2")) := fun val => .num rfl (number_frac (ds := b%"2") (by simp) (by simp))
  obtain ⟨bytes, h1, h2⟩ := C55_filters_partial (env := ⟨⟨fmtExact, fun _ => none⟩⟩) (o := { args := [b%"$[?@<0.15]"] }) (r := atOnce b%"[0.1,0.2]")
    (atOnce_json rfl _ (.inr rfl)) (fair_atOnce _) rfl rfl rfl (S := RfcChars) (fun _ => rfc_lax) frac_input
    (by
      intro v hv
      simp only [List.mem_singleton] at hv
      subst hv
      refine ⟨⟨_, .arr (.cons (d1 _) (.cons (d2 _) .nil))⟩, ?_, by decide⟩
      intro k hk _
      simp [num, JVal.toks, JVal.toks.itemToks, elisionToks] at hk
      rcases hk with rfl | rfl
      · exact (F64.round_within _).1 ⟨_, (by decide +kernel : F64.round (decimal b%"0.1") = some (3602879701896397 / 36028797018963968))⟩
      · exact (F64.round_within _).1 ⟨_, (by decide +kernel : F64.round (decimal b%"0.2") = some (3602879701896397 / 18014398509481984))⟩)
    (re := ⟨fun _ => none, nearest64⟩) fmtExact_ok double_nearest (P := fun _ _ => False) (fun _ _ h => h.elim) filter_text
    (by simp [less, shapeSegs, shapeSeg, shapeSels, shapeSel, shapeCond, shapeComp])
    (by simp [less, Segment.Exact]) rfl
  refine ⟨bytes, h1, ?_⟩
  have e : eval ⟨fun _ => none, nearest64⟩ ⟨true, less⟩ (.arr [num b%"0.1", num b%"0.2"] false) = [num b%"0.1"] := by
    show eval _ (filterQuery _) _ = _
    rw [eval_filter]
    show keep _ [_, _] = _
    rw [keep_pos, keep_neg, keep_nil]
    · simp only [holds, value, singNodes, Bool.false_eq_true, if_false, ArgData.toValue, (d2 _).dataOf, Rfc9535.compare, litData, Rfc9535.Less]
      decide +kernel
    · simp only [holds, value, singNodes, Bool.false_eq_true, if_false, ArgData.toValue, (d1 _).dataOf, Rfc9535.compare, litData, Rfc9535.Less]
      decide +kernel
  simpa [e] using h2

end Verif.Cmd
