import Verif.PathSteps
import Verif.Props.C55
import Verif.Props.C70
import Verif.Props.C30
import Verif.Props.C74

/-!
# C76: Arguments that can be combined
-/

set_option linter.unusedSimpArgs false
set_option linter.unusedVariables false

namespace Verif.Cmd
open Rfc8259 EncSpec JPath Rfc9535

/-- If the decoder gets along with the input (it may report an error), then it sends the values `vs`. -/
def Sends (env : Env) (o : Options) (r : Reader) (vs : List JVal) : Prop :=
  ∀ format r' source toks bad, chooseFormat o.inFormat r = some (format, r') → chooseSource o.csvHeader format r' = some source →
    source.tokens env = some (toks, bad) → toks = streamToks vs

/-- JSON, in pieces of any size. -/
theorem sends_json {env : Env} {o : Options} {r : Reader} (hi : JsonInput o r) (hf : Fair r.sched) (he : r.fin = .eof) {S : Bytes → Prop}
    (hS : ∀ c, S c → LaxChars c) {vs : List JVal} (hv : SepStream S vs r.rest) : Sends env o r vs := by
  intro format r' source toks bad h1 h2 h3
  obtain ⟨r'', e1, e2, e3, e4⟩ := chooseFormat_json hi hf
  rw [h1] at e1
  cases e1
  unfold chooseSource at h2
  rw [if_neg fun h => absurd h.2 (by decide), if_pos (by decide)] at h2
  cases h2
  have := json_tokens (env := env) hS e4 (e3.trans he) (e2 ▸ hv)
  rw [h3] at this
  cases this
  rfl

/-- Arguments that do the same can be exchanged. -/
theorem main_args {env : Env} {o : Options} {r : Reader} {args args' : List Bytes} {l : Option (List Transform)} {f g : List Transform → List Transform}
    (hp : parseArgs args = l.map f) (hp' : parseArgs args' = l.map g) {vs : List JVal} (hs : Sends env o r vs)
    (hd : ∀ ts out, DoAll env o.strict (f ts) (streamToks vs) out ↔ DoAll env o.strict (g ts) (streamToks vs) out) (x : Result) :
    Main env { o with args := args } r x ↔ Main env { o with args := args' } r x := by
  have key : ∀ (args args' : List Bytes) (f g : List Transform → List Transform), parseArgs args = l.map f → parseArgs args' = l.map g →
      (∀ ts out, DoAll env o.strict (f ts) (streamToks vs) out ↔ DoAll env o.strict (g ts) (streamToks vs) out) →
      Main env { o with args := args } r x → Main env { o with args := args' } r x := by
    intro args args' f g hp hp' hd h
    have hsink : ∀ args, chooseSink { o with args := args } = chooseSink o := fun _ => rfl
    have conv : ∀ source ts sink, prepare { o with args := args } r = some (source, ts, sink) → ∃ ts0, ts = f ts0 ∧
        prepare { o with args := args' } r = some (source, g ts0, sink) ∧ ∀ toks bad, source.tokens env = some (toks, bad) → toks = streamToks vs := by
      intro source ts sink h
      simp only [prepare, Option.bind_eq_some_iff, Option.map_eq_some_iff, hp, Prod.exists, Prod.mk.injEq] at h
      obtain ⟨format, r', h1, source', h2, ts', ⟨ts0, h3, rfl⟩, sink', h4, rfl, rfl, rfl⟩ := h
      refine ⟨ts0, rfl, ?_, fun toks bad ht => hs format r' _ toks bad h1 h2 ht⟩
      rw [hsink] at h4
      simp only [prepare, h1, h2, hp', h3, hsink, h4, Option.bind_some, Option.map_some]
    cases h with
    | fatal h =>
      refine .fatal ?_
      unfold prepare at h ⊢
      cases h1 : chooseFormat o.inFormat r with
      | none => simp only [Option.bind_none]
      | some y =>
        obtain ⟨format, r'⟩ := y
        simp only [h1, Option.bind_some] at h ⊢
        cases h2 : chooseSource o.csvHeader format r' with
        | none => simp only [Option.bind_none]
        | some source =>
          simp only [h2, Option.bind_some, hp, hp', hsink] at h ⊢
          cases l with
          | none => simp
          | some ts => simpa using h
    | run h1 h2 h3 h4 =>
      obtain ⟨ts0, rfl, h1, ht⟩ := conv _ _ _ h1
      cases ht _ _ h2
      exact .run h1 h2 ((hd _ _).1 h3) h4
    | panic h1 h2 h3 h4 =>
      obtain ⟨ts0, rfl, h1, ht⟩ := conv _ _ _ h1
      cases ht _ _ h2
      exact .panic h1 h2 ((hd _ _).1 h3) h4
  exact ⟨key _ _ f g hp hp' hd, key _ _ g f hp' hp fun ts out => (hd ts out).symm⟩

private theorem doAll_cons {env : Env} {strict : Bool} {t : Transform} {l : List Transform} {ts mid out : List Token} (h : t.Does env strict ts mid) :
    DoAll env strict (t :: l) ts out ↔ DoAll env strict l mid out :=
  ⟨fun h' => by cases h' with | cons h1 h2 => exact h.unique h1 ▸ h2, fun h' => .cons h h'⟩

private theorem parse_cons {s : Bytes} {q : Query} (hq : QueryText false s q) (hc : (compileQuery q).isSome = true) (l : List Bytes) :
    parseArgs (s :: l) = (parseArgs l).map (.query q :: ·) := by
  obtain ⟨-, t, e, -⟩ := id hq
  simp [parseArgs, parse_query ⟨t, e⟩ (C54_accepts hq).1 hc]

/-- Two queries one after the other do what one query does with the segments of both: the program has the same results with the arguments `$X`, `$Y` as with
`$XY`, whatever the other options are and whatever arguments follow.  The queries are those of `C55_filters_partial`, and filters of the second one
do not refer to the root (`shapeSegs P False`).  The input may have any format, with numbers in the range of `float64` and less than 2^53
tokens in a value.  Missing: other filters; slices that go backward (see `C76_violated`); descendant segments that are not exact (see `C76_values_partial`). -/
theorem C76_steps_partial {env : Env} {o : Options} {r : Reader} {vs : List JVal} (hs : Sends env o r vs)
    (hd : ∀ v ∈ vs, (∃ d, Den v d) ∧ NumsIn InRange64 v ∧ v.toks.length < 2 ^ 53) {re : Sem} (hfmt : FmtOk env.lib.fmt) (hval : Double re.val)
    {P : Bool → Bytes → Prop} (hP : ∀ whole p, P whole p → ∀ s cs, Chars s cs → RegexOk env.lib re whole s p)
    {s t : Bytes} {q q' : Query} (hq : QueryText false s q) (hq' : QueryText false (b%"$" ++ t) q') (hb : shapeSegs P (∀ v ∈ vs, IsColl v) q.segs)
    (hb' : shapeSegs P False q'.segs) (hx : ∀ seg ∈ q.segs ++ q'.segs, seg.Exact o.strict) (rest : List Bytes) (x : Result) :
    Main env { o with args := s :: (b%"$" ++ t) :: rest } r x ↔ Main env { o with args := (s ++ t) :: rest } r x := by
  obtain ⟨c1, c2, c3, ms, ws, ws', o1, o2, o3, -, -, e⟩ := steps (strict := o.strict) hfmt hval hP hq hq'
    (fun v hv => ⟨(hd v hv).1, (hd v hv).2.1, (hd v hv).2.2⟩) hb hb'
  obtain rfl := e hx
  refine main_args (l := parseArgs rest) (f := fun l => .query q :: .query q' :: l) (g := fun l => .query ⟨true, q.segs ++ q'.segs⟩ :: l) ?_
    (parse_cons (text_append hq hq') c3 rest) hs ?_ x
  · rw [parse_cons hq c1, parse_cons hq' c2, Option.map_map]; rfl
  · intro ts out
    rw [doAll_cons (t := .query q) o1, doAll_cons (t := .query q') o2, doAll_cons (t := .query ⟨true, q.segs ++ q'.segs⟩) o3]

/-- With any descendant segments: from JSON to JSON the program writes the same values, but maybe in another order.  Missing: other filters, slices that go backward. -/
theorem C76_values_partial {env : Env} {o : Options} {r : Reader} (hi : JsonInput o r) (hf : Fair r.sched) (he : r.fin = .eof) (ho : o.outFormat = b%"json")
    (hcol : o.color = none) {S : Bytes → Prop} (hS : ∀ c, S c → LaxChars c) {vs : List JVal} (hv : SepStream S vs r.rest)
    (hd : ∀ v ∈ vs, (∃ d, Den v d) ∧ NumsIn InRange64 v ∧ v.toks.length < 2 ^ 53) {re : Sem} (hfmt : FmtOk env.lib.fmt) (hval : Double re.val)
    {P : Bool → Bytes → Prop} (hP : ∀ whole p, P whole p → ∀ s cs, Chars s cs → RegexOk env.lib re whole s p)
    {s t : Bytes} {q q' : Query} (hq : QueryText false s q) (hq' : QueryText false (b%"$" ++ t) q') (hb : shapeSegs P (∀ v ∈ vs, IsColl v) q.segs)
    (hb' : shapeSegs P False q'.segs) :
    ∃ ws ws' bytes bytes', ws.Perm ws' ∧ SepStream S ws bytes ∧ SepStream S ws' bytes' ∧
      Main env { o with args := [s, b%"$" ++ t] } r ⟨bytes, 0, false⟩ ∧ Main env { o with args := [s ++ t] } r ⟨bytes', 0, false⟩ := by
  obtain ⟨c1, c2, c3, ms, ws, ws', o1, o2, o3, hw, hp, -⟩ := steps (strict := o.strict) hfmt hval hP hq hq'
    (fun v hv => ⟨(hd v hv).1, (hd v hv).2.1, (hd v hv).2.2⟩) hb hb'
  have hsent : ∀ w ∈ ws, Sent S w := by
    intro w h
    obtain ⟨v, h1, h2⟩ := hw w h
    exact (sent_stream hv v h1).desc h2
  have hsent' : ∀ w ∈ ws', Sent S w := fun w h => hsent w (hp.mem_iff.2 h)
  obtain ⟨bytes, h1, h2⟩ := json_output (w := o.width) (m := 2) (pc := o.printer) hsent
  obtain ⟨bytes', h1', h2'⟩ := json_output (w := o.width) (m := 2) (pc := o.printer) hsent'
  have hdec : outcome (outOf r.rest r.fin (Pure.decode r.fin r.rest)) = some (streamToks vs, false) := by
    rw [he, decode_complete (hv.mono hS)]; rfl
  refine ⟨ws, ws', bytes, bytes', hp, h2, h2', ?_, ?_⟩
  · refine (main_json (o := { o with args := [s, b%"$" ++ t] }) (x := (bytes, .ok ())) hi hf (ts := [.query q, .query q']) ?_ ho hdec
      (.cons (t := .query q) o1 (.cons (t := .query q') o2 .nil)) ?_).1 rfl
    · show parseArgs [s, b%"$" ++ t] = _
      rw [parse_cons hq c1, parse_cons hq' c2]; rfl
    · rw [← h1, ← hcol]; rfl
  · refine (main_json (o := { o with args := [s ++ t] }) (x := (bytes', .ok ())) hi hf (ts := [.query ⟨true, q.segs ++ q'.segs⟩]) ?_ ho hdec
      (.cons (t := .query ⟨true, q.segs ++ q'.segs⟩) o3 .nil) ?_).1 rfl
    · show parseArgs [s ++ t] = _
      rw [parse_cons (text_append hq hq') c3]; rfl
    · rw [← h1', ← hcol]; rfl

/-! ## Other arguments -/

/-- `$` does nothing. -/
theorem C76_root {env : Env} {o : Options} {r : Reader} {vs : List JVal} (hs : Sends env o r vs) (hd : ∀ v ∈ vs, (∃ d, Den v d) ∧ (v.toks.length : Int) ≤ maxInt64)
    (rest : List Bytes) (x : Result) : Main env { o with args := b%"$" :: rest } r x ↔ Main env { o with args := rest } r x := by
  have hb : ∀ seg ∈ (⟨true, []⟩ : Query).segs, seg.Basic := by simp
  have hc : (compileQuery ⟨true, []⟩).isSome = true := basic_compiles hb
  have ho : Outcome env.lib o.strict ⟨true, []⟩ (streamToks vs) (streamToks vs) (.ok ()) := by
    have := outcome_exact (lib := env.lib) (strict := o.strict) (re := ⟨fun _ => none, nearest64⟩) hc
      (fun v hv => basic_plain hb (hd v hv).1 (hd v hv).2) (by simp)
    rwa [show vs.flatMap (eval ⟨fun _ => none, nearest64⟩ ⟨true, []⟩) = vs from by
      rw [show eval ⟨fun _ => none, nearest64⟩ ⟨true, []⟩ = fun v => [v] from funext fun v => by rw [eval, nodes]]; simp] at this
  refine main_args (l := parseArgs rest) (f := fun l => .query ⟨true, []⟩ :: l) (g := id) (parse_cons ⟨rfl, [], rfl, .nil⟩ hc rest) (by simp) hs ?_ x
  intro ts out
  rw [doAll_cons (t := .query ⟨true, []⟩) ho]
  rfl

private theorem wild_outcome {lib : Lib} {strict : Bool} {vs : List JVal} (hd : ∀ v ∈ vs, (∃ d, Den v d) ∧ (v.toks.length : Int) ≤ maxInt64)
    (ha : ∀ v ∈ vs, ∃ items e, v = .arr items e) :
    (compileQuery ⟨true, [.mk false [.wild]]⟩).isSome = true ∧
      Outcome lib strict ⟨true, [.mk false [.wild]]⟩ (streamToks vs) (streamToks (vs.flatMap JVal.parts)) (.ok ()) := by
  have hb : ∀ seg ∈ (⟨true, [.mk false [.wild]]⟩ : Query).segs, seg.Basic := by simp [Segment.Basic, Selector.Basic, SelOk]
  have hc := basic_compiles hb
  refine ⟨hc, ?_⟩
  have := outcome_exact (lib := lib) (strict := strict) (re := ⟨fun _ => none, nearest64⟩) hc
    (fun v hv => basic_plain hb (hd v hv).1 (hd v hv).2) (by simp [Segment.Exact])
  rwa [show vs.flatMap (eval ⟨fun _ => none, nearest64⟩ ⟨true, [.mk false [.wild]]⟩) = vs.flatMap JVal.parts from ?_] at this
  clear this hd
  induction vs with
  | nil => rfl
  | cons v vs ih =>
    rw [List.flatMap_cons, List.flatMap_cons, ih fun v hv => ha v (List.mem_cons_of_mem _ hv)]
    obtain ⟨items, e, rfl⟩ := ha v List.mem_cons_self
    congr 1
    simp [eval, nodes, Rfc9535.segNodes, selsNodes, selNodes, children, JVal.members, JVal.parts]

/-- For arrays `split` is the same as `$[*]` or `$.*`, however it is spelled. -/
theorem C76_split {env : Env} {o : Options} {r : Reader} {vs : List JVal} (hs : Sends env o r vs) (hd : ∀ v ∈ vs, (∃ d, Den v d) ∧ (v.toks.length : Int) ≤ maxInt64)
    (ha : ∀ v ∈ vs, ∃ items e, v = .arr items e) {s : Bytes} (hq : QueryText false s ⟨true, [.mk false [.wild]]⟩) (rest : List Bytes) (x : Result) :
    Main env { o with args := s :: rest } r x ↔ Main env { o with args := b%"split" :: rest } r x := by
  obtain ⟨hc, h1⟩ := wild_outcome (lib := env.lib) (strict := o.strict) hd ha
  refine main_args (l := parseArgs rest) (f := fun l => .query ⟨true, [.mk false [.wild]]⟩ :: l) (g := fun l => .split :: l) (parse_cons hq hc rest)
    (by simp [parseArgs, parseTransformer]) hs ?_ x
  intro ts out
  rw [doAll_cons (t := .query ⟨true, [.mk false [.wild]]⟩) h1, doAll_cons (t := .split) (C31_split vs)]

/-- `join` and `split` together do nothing. -/
theorem C76_join_split {env : Env} {o : Options} {r : Reader} {vs : List JVal} (hs : Sends env o r vs) (rest : List Bytes) (x : Result) :
    Main env { o with args := b%"join" :: b%"split" :: rest } r x ↔ Main env { o with args := rest } r x := by
  refine main_args (l := parseArgs rest) (f := fun l => .join :: .split :: l) (g := id) ?_ (by simp) hs ?_ x
  · simp [parseArgs, parseTransformer, Option.map_map]
    rfl
  · intro ts out
    have h2 := C31_split [.arr vs false]
    rw [show [JVal.arr vs false].flatMap JVal.parts = vs from by simp [JVal.parts]] at h2
    rw [doAll_cons (t := .join) (C31_join vs), doAll_cons (t := .split) h2]
    rfl

/-- Of two depths, the smaller one counts. -/
theorem C76_depth {env : Env} {o : Options} {r : Reader} {vs : List JVal} (hs : Sends env o r vs) {a b c : Bytes} {m n : Int} (ha : parseInt64 a = some m)
    (hb : parseInt64 b = some n) (hc : parseInt64 c = some (min m n)) (rest : List Bytes) (x : Result) :
    Main env { o with args := (b%"depth=" ++ a) :: (b%"depth=" ++ b) :: rest } r x ↔ Main env { o with args := (b%"depth=" ++ c) :: rest } r x := by
  have hp : ∀ {a : Bytes} {m : Int} (l : List Bytes), parseInt64 a = some m → parseArgs ((b%"depth=" ++ a) :: l) = (parseArgs l).map (.depth m :: ·) := by
    intro a m l h
    simp [parseArgs, parseTransformer, h]
  refine main_args (l := parseArgs rest) (f := fun l => .depth m :: .depth n :: l) (g := fun l => .depth (min m n) :: l) ?_ (hp rest hc) hs ?_ x
  · rw [hp _ ha, hp _ hb, Option.map_map]; rfl
  · intro ts out
    rw [doAll_cons (t := .depth m) (mid := _) rfl, doAll_cons (t := .depth n) (mid := _) rfl, doAll_cons (t := .depth (min m n)) (mid := _) rfl, C30_compose n m vs,
      show min n m = min m n by omega]

/-! ## The violation -/

/-- C76 is false for slices that go backward: with the input `[[1],[2]]`, `jp '$[::-1][0]'` writes 2 and 1, but `jp '$[::-1]' '$[0]'` crashes, because
the first query writes starts of arrays only (C34, C38). -/
theorem C76_violated : Main noEnv { args := [b%"$[::-1][0]"] } (atOnce b%"[[1],[2]]") ⟨b%"2\n1\n", 0, false⟩ ∧
    Crashes noEnv { args := [b%"$[::-1]", b%"$[0]"] } (atOnce b%"[[1],[2]]") := by
  constructor
  · refine (main_json (x := (b%"2\n1\n", .ok ())) (ts := [.query ⟨true, [.mk false [.slice none none (-1)], .mk false [.index 0]]⟩])
      (toks := streamToks [.arr [.arr [num b%"1"] false, .arr [num b%"2"] false] false]) (out := streamToks [num b%"2", num b%"1"]) (bad := false)
      (atOnce_json rfl _ (.inr rfl)) (fair_atOnce _) rfl rfl (by decide +kernel) (.cons ?_ .nil) (by decide +kernel)).1 rfl
    exact .of_run 20 (by decide +kernel)
  · obtain ⟨r', h2, h3, h4, h1⟩ := prepare_json (o := { args := [b%"$[::-1]", b%"$[0]"] }) (r := atOnce b%"[[1],[2]]") (atOnce_json rfl _ (.inr rfl)) (fair_atOnce _)
      (ts := [.query ⟨true, [.mk false [.slice none none (-1)]]⟩, .query ⟨true, [.mk false [.index 0]]⟩]) rfl rfl
    refine .transform h1 (toks := streamToks [.arr [.arr [num b%"1"] false, .arr [num b%"2"] false] false]) (bad := false)
      (by rw [tokens_fair h4, h2, h3]; decide +kernel) ?_
    exact .later (mid := [.startArr, .startArr]) (Outcome.of_run (lib := noLib) 20 (by decide +kernel))
      (.here (.inr ⟨_, [.startArr], rfl, Outcome.of_run (lib := noLib) 20 (by decide +kernel)⟩))

section NonVacuity

private theorem wild_text : QueryText false b%"$.*" ⟨true, [.mk false [.wild]]⟩ := ⟨rfl, b%".*", rfl, .cons (w := []) (t := b%".*") (t' := []) blanks_nil .dotWild .nil⟩

private theorem deep_text : QueryText false b%"$..*" ⟨true, [.mk true [.wild]]⟩ := ⟨rfl, b%"..*", rfl, .cons (w := []) (t := b%"..*") (t' := []) blanks_nil .descWild .nil⟩

/-- `[[1],[2]]` -/
private def pair : JVal := .arr [.arr [num b%"1"] false, .arr [num b%"2"] false] false

private theorem pair_input : SepStream RfcChars [pair] b%"[[1],[2]]" := by
  have h1 : ∀ d : Byte, 0x31 ≤ d ∧ d ≤ 0x39 → Rfc8259.Text RfcChars (.arr [num [d]] false) (c%'[' :: ([d] ++ [c%']'])) := fun d hd =>
    .arr (.one (w := []) (b := [d]) (w' := []) Enc.ws_nil (.num ⟨[], [d], [], [], .inl rfl, .inr ⟨d, [], hd.1, hd.2, by simp, rfl⟩, .inl rfl, .inl rfl, rfl⟩) Enc.ws_nil)
  exact .cons (w := []) (r := []) Enc.ws_nil (.arr (.more (w := []) (b := b%"[1]") (w' := []) Enc.ws_nil (h1 _ (by decide)) Enc.ws_nil
    (.one (w := []) (b := b%"[2]") (w' := []) Enc.ws_nil (h1 _ (by decide)) Enc.ws_nil))) (by simp) (.nil (w := []) Enc.ws_nil)

private theorem pair_den : ∃ d, Den pair d := by
  have h1 : ∀ d : Byte, 0x31 ≤ d ∧ d ≤ 0x39 → Number [d] := fun d hd =>
    ⟨[], [d], [], [], .inl rfl, .inr ⟨d, [], hd.1, hd.2, by simp, rfl⟩, .inl rfl, .inl rfl, rfl⟩
  exact ⟨_, .arr (.cons (.arr (.cons (.num rfl (h1 _ (by decide))) .nil)) (.cons (.arr (.cons (.num rfl (h1 _ (by decide))) .nil)) .nil))⟩

private theorem pair_ok : ∀ v ∈ [pair], (∃ d, Den v d) ∧ NumsIn InRange64 v ∧ v.toks.length < 2 ^ 53 := by
  intro v hv
  simp only [List.mem_singleton] at hv
  subst hv
  refine ⟨pair_den, ?_, by decide⟩
  intro k hk _
  simp [pair, num, JVal.toks, JVal.toks.itemToks, elisionToks] at hk
  rcases hk with rfl | rfl
  · exact (F64.round_within _).1 ⟨_, (by decide +kernel : F64.round (decimal b%"1") = some 1)⟩
  · exact (F64.round_within _).1 ⟨_, (by decide +kernel : F64.round (decimal b%"2") = some 2)⟩

private theorem pair_sends (env : Env) (args : List Bytes) : Sends env { args := args, outFormat := b%"jpv" } (atOnce b%"[[1],[2]]") [pair] :=
  sends_json (atOnce_json rfl _ (.inr rfl)) (fair_atOnce _) rfl (S := RfcChars) (fun _ => rfc_lax) pair_input

attribute [local irreducible] F64.round nearest64 fmtExact

/-- `jp -out jpv '$.*' '$.*'` and `jp -out jpv '$.*.*'`. -/
example (x : Result) : Main ⟨⟨fmtExact, fun _ => none⟩⟩ { args := [b%"$.*", b%"$.*"], outFormat := b%"jpv" } (atOnce b%"[[1],[2]]") x ↔
    Main ⟨⟨fmtExact, fun _ => none⟩⟩ { args := [b%"$.*.*"], outFormat := b%"jpv" } (atOnce b%"[[1],[2]]") x :=
  C76_steps_partial (o := { outFormat := b%"jpv" }) (pair_sends _ []) pair_ok (re := ⟨fun _ => none, nearest64⟩) fmtExact_ok double_nearest
    (P := fun _ _ => False) (fun _ _ h => h.elim) wild_text (t := b%".*") wild_text (by simp [shapeSegs, shapeSeg, shapeSels, shapeSel])
    (by simp [shapeSegs, shapeSeg, shapeSels, shapeSel]) (by simp [Segment.Exact]) [] x

/-- `jp '$..*' '$..*'` and `jp '$..*..*'`. -/
example : ∃ ws ws' bytes bytes', ws.Perm ws' ∧ SepStream RfcChars ws bytes ∧ SepStream RfcChars ws' bytes' ∧
    Main ⟨⟨fmtExact, fun _ => none⟩⟩ { args := [b%"$..*", b%"$..*"] } (atOnce b%"[[1],[2]]") ⟨bytes, 0, false⟩ ∧
    Main ⟨⟨fmtExact, fun _ => none⟩⟩ { args := [b%"$..*..*"] } (atOnce b%"[[1],[2]]") ⟨bytes', 0, false⟩ :=
  C76_values_partial (o := {}) (atOnce_json rfl _ (.inr rfl)) (fair_atOnce _) rfl rfl rfl (fun _ => rfc_lax) pair_input pair_ok
    (re := ⟨fun _ => none, nearest64⟩) fmtExact_ok double_nearest
    (P := fun _ _ => False) (fun _ _ h => h.elim) deep_text (t := b%"..*") deep_text (by simp [shapeSegs, shapeSeg, shapeSels, shapeSel])
    (by simp [shapeSegs, shapeSeg, shapeSels, shapeSel])

/-- `jp -out jpv '$' split` and `jp -out jpv '$.*'`. -/
example (env : Env) (x : Result) : Main env { args := [b%"$", b%"split"], outFormat := b%"jpv" } (atOnce b%"[[1],[2]]") x ↔
    Main env { args := [b%"$.*"], outFormat := b%"jpv" } (atOnce b%"[[1],[2]]") x := by
  have hd : ∀ v ∈ [pair], (∃ d, Den v d) ∧ (v.toks.length : Int) ≤ maxInt64 := fun v hv => ⟨(pair_ok v hv).1, by obtain rfl := List.mem_singleton.1 hv; decide⟩
  rw [C76_root (o := { outFormat := b%"jpv" }) (pair_sends env []) hd [b%"split"] x]
  exact (C76_split (o := { outFormat := b%"jpv" }) (pair_sends env []) hd (fun v hv => by obtain rfl := List.mem_singleton.1 hv; exact ⟨_, _, rfl⟩) wild_text [] x).symm

/-- `jp -out jpv join split depth=3 depth=1` and `jp -out jpv depth=1`. -/
example (env : Env) (x : Result) : Main env { args := [b%"join", b%"split", b%"depth=3", b%"depth=1"], outFormat := b%"jpv" } (atOnce b%"[[1],[2]]") x ↔
    Main env { args := [b%"depth=1"], outFormat := b%"jpv" } (atOnce b%"[[1],[2]]") x := by
  rw [C76_join_split (o := { outFormat := b%"jpv" }) (pair_sends env []) _ x]
  exact C76_depth (o := { outFormat := b%"jpv" }) (pair_sends env []) (a := b%"3") (b := b%"1") (c := b%"1") rfl rfl rfl [] x

end NonVacuity

end Verif.Cmd

namespace Verif.GoRe

open JPath Rfc9535 Rfc9485

section
variable {tab : List Nat → Option (Nat → Bool)} {small : Re → Bool} {other : Bytes → Option (Bytes → Option (Nat × Nat))} {gc : List Nat → Nat → Prop}

/-- With the model of `regexp`, and patterns as in C70. -/
theorem C76_program_partial {fmt : Rat → Bytes} (hfmt : FmtOk fmt) {val : Bytes → Rat} (hval : Double val) {o : Cmd.Options} {r : Reader} {vs : List JVal} (hs : Cmd.Sends ⟨⟨fmt, regex tab small other⟩⟩ o r vs)
    (hd : ∀ v ∈ vs, (∃ d, Den v d) ∧ NumsIn InRange64 v ∧ v.toks.length < 2 ^ 53) {s t : Bytes} {q q' : Query} (hq : QueryText false s q)
    (hq' : QueryText false (b%"$" ++ t) q') (hb : shapeSegs (Pattern tab small other gc) (∀ v ∈ vs, IsColl v) q.segs)
    (hb' : shapeSegs (Pattern tab small other gc) False q'.segs) (hx : ∀ seg ∈ q.segs ++ q'.segs, seg.Exact o.strict) (rest : List Bytes) (x : Cmd.Result) :
    Cmd.Main ⟨⟨fmt, regex tab small other⟩⟩ { o with args := s :: (b%"$" ++ t) :: rest } r x ↔
      Cmd.Main ⟨⟨fmt, regex tab small other⟩⟩ { o with args := (s ++ t) :: rest } r x := by
  refine Cmd.C76_steps_partial hs hd (re := ⟨iregexp gc, val⟩) hfmt hval ?_ hq hq' hb hb' hx rest x
  rintro whole p ⟨t, x, hp, hi, hport, ht, hf, hdet⟩ s cs hs
  obtain ⟨find', hf⟩ := Option.isSome_iff_exists.mp hf
  cases whole with
  | true =>
    obtain ⟨L, h1, h2⟩ := C70_match_partial hp hi hport ht (hdet rfl) hf hs
    exact ⟨find', L, hf, h1, h2⟩
  | false =>
    obtain ⟨L, h1, h2⟩ := C70_search_partial hp hi hport ht hf hs
    exact ⟨find', L, hf, h1, h2⟩

/-- With the models of `strconv.FormatFloat` and of `regexp`, and patterns as in C70, nothing is assumed of the Go library, besides the tables of Unicode
categories.  Missing: as for `C76_steps_partial`, and other patterns. -/
theorem C76_jp_partial {o : Cmd.Options} {r : Reader} {vs : List JVal} (hs : Cmd.Sends ⟨⟨GoFmt.formatFloat, regex tab small other⟩⟩ o r vs)
    (hd : ∀ v ∈ vs, (∃ d, Den v d) ∧ NumsIn InRange64 v ∧ v.toks.length < 2 ^ 53) {s t : Bytes} {q q' : Query} (hq : QueryText false s q)
    (hq' : QueryText false (b%"$" ++ t) q') (hb : shapeSegs (Pattern tab small other gc) (∀ v ∈ vs, IsColl v) q.segs)
    (hb' : shapeSegs (Pattern tab small other gc) False q'.segs) (hx : ∀ seg ∈ q.segs ++ q'.segs, seg.Exact o.strict) (rest : List Bytes) (x : Cmd.Result) :
    Cmd.Main ⟨⟨GoFmt.formatFloat, regex tab small other⟩⟩ { o with args := s :: (b%"$" ++ t) :: rest } r x ↔
      Cmd.Main ⟨⟨GoFmt.formatFloat, regex tab small other⟩⟩ { o with args := (s ++ t) :: rest } r x :=
  C76_program_partial GoFmt.formatFloat_ok double_nearest hs hd hq hq' hb hb' hx rest x

end

end Verif.GoRe
