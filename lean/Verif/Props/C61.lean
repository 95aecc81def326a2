import Verif.Props.C55
import Verif.Props.C15
import Verif.Props.C19
import Verif.LayoutHints
import Verif.Props.C20

/-!
# C61: The other formats of the program
-/

set_option linter.unusedSimpArgs false
set_option linter.unusedVariables false

namespace Verif.Cmd
open Rfc8259 EncSpec JPath Rfc9535 CsvSpec JpvSpec

/-! ## The list of names -/

/-- A text consists of fields that are separated by commas. -/
inductive Fields : Bytes → List Bytes → Prop
  | one {f} : c%',' ∉ f → Fields f [f]
  | cons {f s fs} : c%',' ∉ f → Fields s fs → Fields (f ++ c%',' :: s) (f :: fs)

private theorem splitCommas_ne : ∀ s, splitCommas s ≠ []
  | [] => by simp [splitCommas]
  | b :: s => by
    have := splitCommas_ne s
    unfold splitCommas
    split
    · contradiction
    · split <;> simp

private theorem splitCommas_plain : ∀ {f : Bytes}, c%',' ∉ f → splitCommas f = [f]
  | [], _ => rfl
  | b :: f, h => by
    simp only [List.mem_cons, not_or] at h
    rw [splitCommas, splitCommas_plain h.2]
    simp [Ne.symm h.1]

private theorem splitCommas_cons : ∀ {f : Bytes} (s : Bytes), c%',' ∉ f → splitCommas (f ++ c%',' :: s) = f :: splitCommas s
  | [], s, _ => by
    rw [List.nil_append, splitCommas]
    cases h : splitCommas s with
    | nil => exact absurd h (splitCommas_ne s)
    | cons g gs => simp
  | b :: f, s, h => by
    simp only [List.mem_cons, not_or] at h
    rw [List.cons_append, splitCommas, splitCommas_cons s h.2]
    simp [Ne.symm h.1]

private theorem splitCommas_fields : ∀ s, Fields s (splitCommas s)
  | [] => .one (by simp)
  | b :: s => by
    have ih := splitCommas_fields s
    rw [splitCommas]
    cases h : splitCommas s with
    | nil => exact absurd h (splitCommas_ne s)
    | cons g gs =>
      rw [h] at ih
      by_cases hb : b = c%','
      · simp only [hb, if_true]
        exact .cons (f := []) (by simp) ih
      · simp only [hb, if_false]
        cases ih with
        | one hg => exact .one (by simp [hg, Ne.symm hb])
        | cons hg hs => exact .cons (f := b :: g) (by simp [hg, Ne.symm hb]) hs

/-- The option `-csv-header` is a list of names that are separated by commas. -/
theorem C61_fields (s : Bytes) (fs : List Bytes) : splitCommas s = fs ↔ Fields s fs := by
  refine ⟨fun h => h ▸ splitCommas_fields s, fun h => ?_⟩
  induction h with
  | one h => exact splitCommas_plain h
  | cons h _ ih => rw [splitCommas_cons _ h, ih]

/-! ## CSV -/

/-- How the records are read: as arrays; as objects, with names from the option; as objects, with names from the first record. -/
inductive CsvOptions (o : Options) : Csv.Cfg → List Bytes → Prop
  | arrays : o.inFormat = b%"csv" → o.csvHeader = [] → CsvOptions o ⟨false, false⟩ []
  | named {names} : o.inFormat = b%"csv" → o.csvHeader ≠ [] → Fields o.csvHeader names → CsvOptions o ⟨false, true⟩ names
  | header : o.inFormat = b%"csv-with-header" ∨ o.inFormat = b%"csvh" → o.csvHeader = [] → CsvOptions o ⟨true, true⟩ []
  | header' : o.inFormat = b%"csv-header" → CsvOptions o ⟨true, true⟩ []

theorem csv_source {o : Options} {cfg : Csv.Cfg} {names : List Bytes} (h : CsvOptions o cfg names) (r : Reader) :
    (chooseFormat o.inFormat r).bind (fun (f, r) => chooseSource o.csvHeader f r) = some (.csv cfg names r) := by
  cases h with
  | arrays h1 h2 => simp [h1, h2, chooseFormat, chooseSource]
  | named h1 h2 h3 => rw [← (C61_fields _ _).2 h3]; simp [h1, h2, chooseFormat, chooseSource]
  | header h1 h2 => rcases h1 with h1 | h1 <;> simp [h1, h2, chooseFormat, chooseSource]
  | header' h1 => simp [h1, chooseFormat, chooseSource]

theorem prepare_source {o : Options} {r : Reader} {source : Source}
    (h : (chooseFormat o.inFormat r).bind (fun (f, r) => chooseSource o.csvHeader f r) = some source) :
    prepare o r = (parseArgs o.args).bind fun ts => (chooseSink o).map fun sink => (source, ts, sink) := by
  unfold prepare
  cases h1 : chooseFormat o.inFormat r with
  | none => rw [h1] at h; cases h
  | some x =>
    obtain ⟨f, r'⟩ := x
    rw [h1, Option.bind_some] at h
    rw [Option.bind_some]
    dsimp only at h ⊢
    rw [h, Option.bind_some]

/-- The program on CSV input: what it reads is one value for each record, as C20 says; the output is that of the encoder for what the arguments make of these
values.  An error is reported exactly if the reader of the library ends with one. -/
theorem C61_csv_partial : ∃ key cell : Bytes → Scalar,
    (∀ t, Utf8 t → Clean t → StrIs (key t) t) ∧ (∀ f, Utf8 f → Clean f → ¬ Misread f → Cell f (cell f)) ∧
    ∀ (env : Env) (o : Options) (r : Reader) (cfg : Csv.Cfg) (preset : List Bytes), CsvOptions o cfg preset → o.outFormat = b%"json" →
      ∃ name, Names (preset ++ if cfg.hasHeader then (Csv.readInput r).records.head?.getD [] else []) name ∧
        ∀ (ts : List Transform) (out : List JVal), parseArgs o.args = some ts →
          Means env o.strict ts ((if cfg.hasHeader then (Csv.readInput r).records.tail else (Csv.readInput r).records).map
            (recordVal cfg.objects (fun i => key (name i)) cell)) out →
          Main env o r ⟨Enc.render o.printer 0 (Enc.layoutAll ⟨o.color, o.width, 2⟩ out), 0, decide ((Csv.readInput r).fin ≠ .eof)⟩ := by
  obtain ⟨key, cell, hk, hc, h⟩ := C20_records
  refine ⟨key, cell, hk, hc, fun env o r cfg preset ho hout => ?_⟩
  obtain ⟨name, hn, hp⟩ := h cfg preset (Csv.readInput r)
  refine ⟨name, hn, fun ts out ha hm => ?_⟩
  have hpre := prepare_source (csv_source ho r)
  rw [ha, chooseSink_json hout] at hpre
  refine .run (bad := decide ((Csv.readInput r).fin ≠ .eof)) hpre ?_ hm.does (Enc.encode_good _ _ _)
  simp only [Source.tokens, hp, Option.map_some]
  by_cases he : (Csv.readInput r).fin = .eof <;> simp [he]

/-- An object for a record, named by the option. -/
example : Main noEnv { inFormat := b%"csv", csvHeader := b%"a,b" } (atOnce b%"1,x\n")
    ⟨b%"{\"a\": 1, \"b\": \"x\"}\n", 0, false⟩ :=
  .run (toks := streamToks [.obj [({ bytes := b%"\"a\"", type := .str, alnum := true, key := true }, .scalar { bytes := b%"1", type := .num }),
      ({ bytes := b%"\"b\"", type := .str, alnum := true, key := true }, .scalar { bytes := b%"\"x\"", type := .str, alnum := true })] false]) rfl
    (by decide +kernel) .nil (by decide +kernel)

/-! ## JPV -/

theorem DoAll.append {env : Env} {strict : Bool} {l l' : List Transform} {ts out : List Token} :
    DoAll env strict (l ++ l') ts out ↔ ∃ mid, DoAll env strict l ts mid ∧ DoAll env strict l' mid out := by
  induction l generalizing ts with
  | nil =>
    refine ⟨fun h => ⟨ts, .nil, h⟩, ?_⟩
    rintro ⟨mid, h, h'⟩
    cases h
    exact h'
  | cons t l ih =>
    constructor
    · intro h
      cases h with
      | cons h1 h2 =>
        obtain ⟨mid, h3, h4⟩ := ih.1 h2
        exact ⟨mid, .cons h1 h3, h4⟩
    · rintro ⟨mid, h, h'⟩
      cases h with
      | cons h1 h2 => exact .cons h1 (ih.2 ⟨mid, h2, h'⟩)

theorem parseArgs_append : ∀ (l l' : List Bytes), parseArgs (l ++ l') = (parseArgs l).bind fun ts => (parseArgs l').map (ts ++ ·)
  | [], l' => by simp [parseArgs]
  | a :: l, l' => by
    rw [List.cons_append, parseArgs, parseArgs, parseArgs_append l l']
    cases parseTransformer a with
    | none => rfl
    | some t =>
      cases parseArgs l with
      | none => rfl
      | some ts => cases parseArgs l' <;> rfl

theorem main_iff {env : Env} {o : Options} {r : Reader} {source : Source} {ts : List Transform} {sink : List Token → Bytes × COut Unit} {toks : List Token}
    {bad : Bool} (hp : prepare o r = some (source, ts, sink)) (ht : source.tokens env = some (toks, bad)) (x : Result) :
    Main env o r x ↔ ∃ out, DoAll env o.strict ts toks out ∧
      (sink out = (x.stdout, .ok ()) ∧ x.status = 0 ∧ x.reported = bad ∨ sink out = (x.stdout, .stop .panic) ∧ x.status = 0 ∧ x.reported = true) := by
  constructor
  · intro h
    cases h with
    | fatal e => rw [hp] at e; cases e
    | run e h1 h2 h3 =>
      rw [hp] at e
      cases e
      rw [ht] at h1
      cases h1
      exact ⟨_, h2, .inl ⟨h3, rfl, rfl⟩⟩
    | panic e h1 h2 h3 =>
      rw [hp] at e
      cases e
      rw [ht] at h1
      cases h1
      exact ⟨_, h2, .inr ⟨h3, rfl, rfl⟩⟩
  · obtain ⟨b, s, e⟩ := x
    rintro ⟨out, h, ⟨h1, rfl, rfl⟩ | ⟨h1, rfl, rfl⟩⟩
    · exact .run hp ht h h1
    · exact .panic hp ht h h1

theorem json_source {o : Options} {r : Reader} (hi : JsonInput o r) (hf : Fair r.sched) : ∃ r', r'.rest = r.rest ∧ r'.fin = r.fin ∧ Fair r'.sched ∧
    (chooseFormat o.inFormat r).bind (fun (f, r) => chooseSource o.csvHeader f r) = some (.json r') := by
  obtain ⟨r', h1, h2, h3, h4⟩ := chooseFormat_json hi hf
  refine ⟨r', h2, h3, h4, ?_⟩
  simp only [h1, Option.bind_some, chooseSource]
  rw [if_neg fun h => absurd h.2 (by decide), if_pos (by decide)]

theorem jpv_source {o : Options} (h : o.inFormat = b%"jpv" ∨ o.inFormat = b%"path") (r : Reader) :
    (chooseFormat o.inFormat r).bind (fun (f, r) => chooseSource o.csvHeader f r) = some (.jpv r) := by
  rcases h with h | h <;> simp [h, chooseFormat, chooseSource]

/-- JPV is transparent: `jp ARGS1 -out jpv -jpv-quote-keys | jp -in jpv ARGS2 OPTIONS` has the same result as `jp ARGS1 ARGS2 OPTIONS`, if `ARGS1` gives one value.
Missing: several values, repeated keys and arrays with more than 2^53 items (see C15 and C19), and `depth` in `ARGS1`. -/
theorem C61_jpv_partial {env : Env} {o1 o2 : Options} {r : Reader} (hi : JsonInput o1 r) (hf : Fair r.sched) (he : r.fin = .eof)
    (ho : o1.outFormat = b%"jpv" ∨ o1.outFormat = b%"path") (hcol : o1.color = none) (hq : o1.quoteKeys = true) {vs : List JVal}
    (hv : SepStream LaxChars vs r.rest) {ts : List Transform} (ha : parseArgs o1.args = some ts) (hd : ∀ n, .depth n ∉ ts) {v : JVal}
    (hm : Means env o1.strict ts vs [v]) (hk : DistinctKeys v) (hl : Short v)
    (ho2 : o2.inFormat = b%"jpv" ∨ o2.inFormat = b%"path") (hst : o2.strict = o1.strict) :
    ∃ bytes, Main env o1 r ⟨bytes, 0, false⟩ ∧ ∀ r2 : Reader, Fair r2.sched → r2.fin = .eof → r2.rest = bytes → ∀ x,
      Main env o2 r2 x ↔ Main env { o2 with inFormat := o1.inFormat, csvHeader := o1.csvHeader, args := o1.args ++ o2.args } r x := by
  obtain ⟨r', e1, e2, e3, e4⟩ := json_source hi hf
  have hs : Sent LaxChars v := hm.sent hd (sent_stream hv) v (by simp)
  have ht : (Source.json r').tokens env = some (streamToks vs, false) := json_tokens (fun _ h => h) e3 (e2.trans he) (e1 ▸ hv)
  have hg := JpvRound.encode_good true o1.printer [v] (S := LaxChars) (by simpa using hs.1) (by simpa using hs.3)
  have hsink : chooseSink o1 = some (JEnc.encode ⟨none, true⟩ o1.printer Enc.goodSink) := by
    unfold chooseSink
    rw [if_neg (by rcases ho with h | h <;> simp [h])]
    simp [ho, hcol, hq, Options.printer]
  have hpre := prepare_source e4
  rw [ha, hsink] at hpre
  refine ⟨_, .run hpre ht hm.does hg, fun r2 f2 n2 b2 x => ?_⟩
  have hdec := C15_quoted_exact_partial v hs.1 hs.2 hs.3 hk hl o1.printer r2 8192 (by decide) f2 n2 (by
    rw [b2, show v.toks = streamToks [v] from by simp, hg])
  have ht2 : (Source.jpv r2).tokens env = some (v.toks, false) := by
    simp only [Source.tokens]
    rw [hdec]
    rfl
  have hp2 := prepare_source (jpv_source ho2 r2)
  have hp3 := prepare_source (o := { o2 with inFormat := o1.inFormat, csvHeader := o1.csvHeader, args := o1.args ++ o2.args }) e4
  simp only [parseArgs_append, ha, Option.bind_some] at hp3
  rw [show chooseSink { o2 with inFormat := o1.inFormat, csvHeader := o1.csvHeader, args := o1.args ++ o2.args } = chooseSink o2 from rfl] at hp3
  cases h2 : parseArgs o2.args with
  | none =>
    rw [h2] at hp2 hp3
    exact ⟨fun h => by cases h.unique (.fatal hp2); exact .fatal hp3, fun h => by cases h.unique (.fatal hp3); exact .fatal hp2⟩
  | some ts2 =>
    rw [h2] at hp2 hp3
    cases h3 : chooseSink o2 with
    | none =>
      rw [h3] at hp2 hp3
      exact ⟨fun h => by cases h.unique (.fatal hp2); exact .fatal hp3, fun h => by cases h.unique (.fatal hp3); exact .fatal hp2⟩
    | some sink =>
      rw [h3] at hp2 hp3
      rw [main_iff hp2 ht2, main_iff hp3 ht]
      dsimp only
      rw [hst]
      constructor
      · rintro ⟨out, h, hx⟩
        refine ⟨out, DoAll.append.2 ⟨_, hm.does, ?_⟩, hx⟩
        simpa using h
      · rintro ⟨out, h, hx⟩
        obtain ⟨mid, h1, h2⟩ := DoAll.append.1 h
        cases h1.unique hm.does
        exact ⟨out, by simpa using h2, hx⟩

/-- With the default options: `jp ARGS -out jpv | jp -in jpv OPTIONS` has the same result as `jp ARGS OPTIONS`, if all values that `ARGS` gives but the last one
are scalars or empty.  Missing: empty keys and some keys with escapes (`TrueAlnum`, see C15); and as above. -/
theorem C61_jpv_default_partial {env : Env} {o1 o2 : Options} {r : Reader} (hi : JsonInput o1 r) (hf : Fair r.sched) (he : r.fin = .eof)
    (ho : o1.outFormat = b%"jpv" ∨ o1.outFormat = b%"path") (hcol : o1.color = none) {vs : List JVal}
    (hv : SepStream LaxChars vs r.rest) {ts : List Transform} (ha : parseArgs o1.args = some ts) (hd : ∀ n, .depth n ∉ ts) {us : List JVal} {v : JVal}
    (hm : Means env o1.strict ts vs (us ++ [v])) (hu : ∀ u ∈ us, IsLeaf u) (hk : DistinctKeys v) (hl : Short v) (hn : o1.quoteKeys = false → TrueAlnum v)
    (ho2 : o2.inFormat = b%"jpv" ∨ o2.inFormat = b%"path") (hst : o2.strict = o1.strict) (ha2 : o2.args = []) (hout : o2.outFormat = b%"json") :
    ∃ bytes, Main env o1 r ⟨bytes, 0, false⟩ ∧ ∀ r2 : Reader, Fair r2.sched → r2.fin = .eof → r2.rest = bytes → ∀ x,
      Main env o2 r2 x ↔ Main env { o2 with inFormat := o1.inFormat, csvHeader := o1.csvHeader, args := o1.args } r x := by
  obtain ⟨r', e1, e2, e3, e4⟩ := json_source hi hf
  have hs : ∀ w ∈ us ++ [v], Sent LaxChars w := hm.sent hd (sent_stream hv)
  have ht : (Source.json r').tokens env = some (streamToks vs, false) := json_tokens (fun _ h => h) e3 (e2.trans he) (e1 ▸ hv)
  have hg := JpvRound.encode_good o1.quoteKeys o1.printer (us ++ [v]) (S := LaxChars) (fun w hw => (hs w hw).1) (fun w hw => (hs w hw).3)
  have hsink : chooseSink o1 = some (JEnc.encode ⟨none, o1.quoteKeys⟩ o1.printer Enc.goodSink) := by
    unfold chooseSink
    rw [if_neg (by rcases ho with h | h <;> simp [h])]
    simp [ho, hcol, Options.printer]
  have hpre := prepare_source e4
  rw [ha, hsink] at hpre
  refine ⟨_, .run hpre ht hm.does hg, fun r2 f2 n2 b2 x => ?_⟩
  have hsv := hs v (by simp)
  have hsu := fun u (hu : u ∈ us) => hs u (by simp [hu])
  obtain ⟨f, hf1, hdec⟩ := C19_values_partial us v hu (fun u hu => (hsu u hu).1) (fun u hu => (hsu u hu).3) hsv.1 hsv.3 hk hl o1.quoteKeys hn
    o1.printer r2 8192 (by decide) f2 n2 (by rw [b2, hg])
  have ht2 : (Source.jpv r2).tokens env = some (streamToks ((us ++ [v]).map (mapScalars f)), false) := by
    simp only [Source.tokens]
    rw [hdec]
    rfl
  have hp2 := prepare_source (jpv_source ho2 r2)
  have hp3 := prepare_source (o := { o2 with inFormat := o1.inFormat, csvHeader := o1.csvHeader, args := o1.args }) e4
  rw [ha2, chooseSink_json hout] at hp2
  dsimp only at hp3
  rw [ha, show chooseSink { o2 with inFormat := o1.inFormat, csvHeader := o1.csvHeader, args := o1.args } = chooseSink o2 from rfl, chooseSink_json hout] at hp3
  rw [main_iff hp2 ht2, main_iff hp3 ht]
  dsimp only
  rw [hst]
  have key : Enc.encode ⟨o2.color, o2.width, 2⟩ o2.printer Enc.goodSink (streamToks ((us ++ [v]).map (mapScalars f))) =
      Enc.encode ⟨o2.color, o2.width, 2⟩ o2.printer Enc.goodSink (streamToks (us ++ [v])) := by
    rw [Enc.encode_good, Enc.encode_good, Enc.hint_layout hf1]
  constructor
  · rintro ⟨out, h, hx⟩
    cases h
    rw [key] at hx
    exact ⟨_, hm.does, hx⟩
  · rintro ⟨out, h, hx⟩
    cases h.unique hm.does
    exact ⟨_, .nil, by rw [key]; exact hx⟩

/-- C61 is false: an empty key is written such that it cannot be read. -/
theorem C61_violated : Main noEnv { outFormat := b%"jpv" } (atOnce b%"{\"\":1}") ⟨b%"$. = 1\n\n", 0, false⟩ ∧
    Main noEnv { inFormat := b%"jpv" } (atOnce b%"$. = 1\n\n") ⟨[], 0, true⟩ := by
  constructor
  · exact .run (toks := streamToks [.obj [({ bytes := b%"\"\"", type := .str, alnum := true, key := true, unesc := true }, num b%"1")] false])
      rfl (by decide +kernel) .nil (by decide +kernel)
  · exact .run (toks := []) (bad := true) rfl (by decide +kernel) .nil (by decide +kernel)

/-- Two objects are merged. -/
theorem C61_violated_merged : Main noEnv { outFormat := b%"jpv" } (atOnce b%"{\"a\":1}{\"b\":2}") ⟨b%"$.a = 1\n\n$.b = 2\n\n", 0, false⟩ ∧
    Main noEnv { inFormat := b%"jpv" } (atOnce b%"$.a = 1\n\n$.b = 2\n\n") ⟨b%"{\"a\": 1, \"b\": 2}\n", 0, false⟩ := by
  constructor
  · exact .run (toks := streamToks [.obj [({ bytes := b%"\"a\"", type := .str, alnum := true, key := true, unesc := true }, num b%"1")] false,
        .obj [({ bytes := b%"\"b\"", type := .str, alnum := true, key := true, unesc := true }, num b%"2")] false])
      rfl (by decide +kernel) .nil (by decide +kernel)
  · exact .run (toks := streamToks [.obj [({ bytes := b%"\"a\"", type := .str, alnum := true, key := true }, num b%"1"),
        ({ bytes := b%"\"b\"", type := .str, alnum := true, key := true }, num b%"2")] false])
      rfl (by decide +kernel) .nil (by decide +kernel)

/-- A run that writes JPV, and one that reads it. -/
example : Main noEnv { outFormat := b%"jpv", quoteKeys := true } (atOnce b%"{\"a\":[1]}") ⟨b%"$[\"a\"][0] = 1\n\n", 0, false⟩ ∧
    Main noEnv { inFormat := b%"path", compact := true } (atOnce b%"$[\"a\"][0] = 1\n\n") ⟨b%"{\"a\": [1]}\n", 0, false⟩ := by
  constructor
  · exact .run (toks := streamToks [.obj [({ bytes := b%"\"a\"", type := .str, alnum := true, key := true, unesc := true }, .arr [num b%"1"] false)] false])
      rfl (by decide +kernel) .nil (by decide +kernel)
  · exact .run (toks := streamToks [.obj [({ bytes := b%"\"a\"", type := .str, alnum := true, key := true, unesc := true }, .arr [num b%"1"] false)] false])
      rfl (by decide +kernel) .nil (by decide +kernel)

end Verif.Cmd
