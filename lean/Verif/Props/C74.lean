import Verif.EncTotal
import Verif.QueryRuns
import Verif.SplitPure
import Verif.Props.C55
import Verif.Props.C58
import Verif.Props.C61
import Verif.Props.C04
import Verif.Props.C05
import Verif.Props.C17
import Verif.Props.C20

/-!
# C74: The program does not crash
-/

set_option linter.unusedSimpArgs false
set_option linter.unusedVariables false

namespace Verif.Cmd
open Rfc8259 EncSpec JPath Rfc9535

/-- A transformer panics, `split` or a query, which are the ones that work on iterators. -/
def Transform.Panics (env : Env) (strict : Bool) (t : Transform) (ts : List Token) : Prop :=
  t = .split ∧ ((transformAll (explodeArray (ts.length + 1)) (ts.length + 1)).run Heap.mach (Heap.init ts)).2 = .error .panic ∨
  ∃ q out, t = .query q ∧ Outcome env.lib strict q ts out (.error .panic)

/-- A transformer panics after those before it have done their work. -/
inductive ChainPanics (env : Env) (strict : Bool) : List Transform → List Token → Prop
  | here {t l ts} : t.Panics env strict ts → ChainPanics env strict (t :: l) ts
  | later {t l ts mid} : t.Does env strict ts mid → ChainPanics env strict l mid → ChainPanics env strict (t :: l) ts

/-- The program crashes: the goroutine of the decoder or of a transformer panics.  (Go: nothing recovers these panics, `/repo/token/pipeline.go:20-46`.
A panic of the encoder is recovered and reported, `/repo/cmd/jp/main.go:38-42`.) -/
inductive Crashes (env : Env) (o : Options) (r : Reader) : Prop
  | decoder {r' ts sink} : prepare o r = some (.jpv r', ts, sink) → (Jpv.decodeFrom r').2 = .panic → Crashes env o r
  | transform {source ts sink toks bad} : prepare o r = some (source, ts, sink) → source.tokens env = some (toks, bad) →
      ChainPanics env o.strict ts toks → Crashes env o r

private theorem does_panics {env : Env} {strict : Bool} {t : Transform} {ts out : List Token} (h : t.Does env strict ts out) (hp : t.Panics env strict ts) : False := by
  rcases hp with ⟨rfl, hp⟩ | ⟨q, out', rfl, hp⟩
  · have h : runTransform explodeArray ts = some out := h
    unfold runTransform at h
    generalize (transformAll (explodeArray (ts.length + 1)) (ts.length + 1)).run Heap.mach (Heap.init ts) = x at h hp
    obtain ⟨o, e⟩ := x
    simp only at hp
    subst hp
    cases h
  · have := (Outcome.unique (lib := env.lib) h hp).2
    cases this

/-- A program that crashes has no result. -/
theorem C74_crashes {env : Env} {o : Options} {r : Reader} (h : Crashes env o r) : ¬ ∃ x, Main env o r x := by
  rintro ⟨x, hx⟩
  have chain : ∀ {l : List Transform} {ts out : List Token}, ChainPanics env o.strict l ts → DoAll env o.strict l ts out → False := by
    intro l ts out hc
    induction hc generalizing out with
    | here hp => intro hd; cases hd with | cons h1 _ => exact does_panics h1 hp
    | later h1 _ ih =>
      intro hd
      cases hd with
      | cons h1' h2' =>
        cases h1.unique h1'
        exact ih h2'
  have key : ∀ {source ts sink toks bad out}, prepare o r = some (source, ts, sink) → source.tokens env = some (toks, bad) → DoAll env o.strict ts toks out → False := by
    intro source ts sink toks bad out e h1 h2
    cases h with
    | decoder e' hp =>
      rw [e] at e'
      cases e'
      simp only [Source.tokens] at h1
      generalize Jpv.decodeFrom _ = y at h1 hp
      obtain ⟨a, b⟩ := y
      simp only at hp
      subst hp
      cases h1
    | transform e' h1' hc =>
      rw [e] at e'
      cases e'
      rw [h1] at h1'
      cases h1'
      exact chain hc h2
  cases hx with
  | fatal e =>
    cases h with
    | decoder e' _ => rw [e] at e'; cases e'
    | transform e' _ _ => rw [e] at e'; cases e'
  | run e h1 h2 _ => exact key e h1 h2
  | panic e h1 h2 _ => exact key e h1 h2

/-- The encoders end on any tokens. -/
private theorem sink_ends {o : Options} {sink : List Token → Bytes × COut Unit} (h : chooseSink o = some sink) (out : List Token) :
    ∃ bytes, sink out = (bytes, .ok ()) ∨ sink out = (bytes, .stop .panic) := by
  have key : ∀ (pc : PrinterCfg) (p : IProg POp Unit), Ends p (Heap.init out) (fun _ _ => True) →
      ∃ bytes, p.runW Heap.mach pc Enc.goodSink (Heap.init out) 0 [] = (bytes, .ok ()) ∨ p.runW Heap.mach pc Enc.goodSink (Heap.init out) 0 [] = (bytes, .stop .panic) := by
    intro pc p hp
    rw [IProg.runW_eq, Sink.feed_all (w := Enc.goodSink) fun _ _ => rfl]
    unfold Ends at hp
    generalize p.run Heap.mach (Heap.init out) = x at hp ⊢
    obtain ⟨ops, e⟩ := x
    cases e with
    | ok a => exact ⟨_, .inl rfl⟩
    | error e =>
      have : e = .panic := hp
      subst this
      exact ⟨_, .inr rfl⟩
  unfold chooseSink at h
  by_cases h1 : o.outFormat = b%"json"
  · simp only [if_pos h1, Option.some.injEq] at h
    rw [← h]
    exact key _ _ (Enc.ends_consume _ out)
  · simp only [if_neg h1] at h
    by_cases h2 : o.outFormat = b%"jpv" ∨ o.outFormat = b%"path"
    · simp only [if_pos h2, Option.some.injEq] at h
      rw [← h]
      exact key _ _ (JEnc.ends_consume _ out)
    · simp only [if_neg h2] at h
      cases h

private theorem prepare_parts {o : Options} {r : Reader} {source ts sink} (h : prepare o r = some (source, ts, sink)) :
    parseArgs o.args = some ts ∧ chooseSink o = some sink := by
  simp only [prepare, Option.bind_eq_some_iff, Option.map_eq_some_iff] at h
  obtain ⟨⟨_, _⟩, -, _, -, _, ha, k, hk, e⟩ := h
  cases e
  exact ⟨ha, hk⟩

private theorem main_ends {env : Env} {o : Options} {r : Reader} {source ts sink toks bad out} (h : prepare o r = some (source, ts, sink))
    (h1 : source.tokens env = some (toks, bad)) (h2 : DoAll env o.strict ts toks out) : ∃ x, Main env o r x := by
  obtain ⟨bytes, e | e⟩ := sink_ends (prepare_parts h).2 out
  · exact ⟨_, .run h h1 h2 e⟩
  · exact ⟨_, .panic h h1 h2 e⟩

/-- The decoders end on any input: they send tokens, or the JPV decoder panics. -/
private theorem source_ends (env : Env) (source : Source) :
    (∃ toks bad, source.tokens env = some (toks, bad)) ∨ ∃ r, source = .jpv r ∧ (Jpv.decodeFrom r).2 = .panic := by
  cases source with
  | json r =>
    have h := C05_json_decoding_never_panics r 8192 (by decide)
    simp only [Source.tokens]
    generalize Json.decodeFrom r = x at h ⊢
    obtain ⟨a, b⟩ := x
    rcases h with rfl | ⟨e, rfl⟩
    · exact .inl ⟨_, _, rfl⟩
    · exact .inl ⟨_, _, rfl⟩
  | jpv r =>
    simp only [Source.tokens]
    obtain ⟨_, _, _, ⟨ts, h⟩ | ⟨ts, e, h⟩ | ⟨h, _⟩⟩ := C17_returns_partial r 8192 (by decide)
    · exact .inl ⟨_, _, by rw [h]; rfl⟩
    · exact .inl ⟨_, _, by rw [h]; rfl⟩
    · exact .inr ⟨_, rfl, h⟩
  | csv cfg names r =>
    obtain ⟨vs, e, h, -⟩ := C20_counts cfg names (Csv.readInput r)
    exact .inl ⟨_, _, by simp only [Source.tokens, h]; rfl⟩

/-- A transformer that is not a query ends on any tokens: it does its work or panics, and only `split` can panic. -/
private theorem transform_ends (env : Env) (strict : Bool) (t : Transform) (ht : ∀ q, t ≠ .query q) (ts : List Token) :
    (∃ out, t.Does env strict ts out) ∨ t = .split ∧ t.Panics env strict ts := by
  cases t with
  | join => exact .inl ⟨_, rfl⟩
  | trace => exact .inl ⟨_, rfl⟩
  | depth m => exact .inl ⟨_, rfl⟩
  | query q => exact absurd rfl (ht q)
  | split =>
    have h := ends_split ts
    unfold Ends at h
    by_cases hp : ((transformAll (explodeArray (ts.length + 1)) (ts.length + 1)).run Heap.mach (Heap.init ts)).2 = .error .panic
    · exact .inr ⟨rfl, .inl ⟨rfl, hp⟩⟩
    · refine .inl ⟨((transformAll (explodeArray (ts.length + 1)) (ts.length + 1)).run Heap.mach (Heap.init ts)).1, ?_⟩
      show runTransform explodeArray ts = _
      unfold runTransform
      generalize (transformAll (explodeArray (ts.length + 1)) (ts.length + 1)).run Heap.mach (Heap.init ts) = x at h hp ⊢
      obtain ⟨a, b⟩ := x
      cases b with
      | ok _ => rfl
      | error e =>
        have : e = .panic := h
        exact absurd (by rw [this]) hp

/-- Arguments that are not queries. -/
private theorem args_plain : ∀ {l : List Bytes} {ts : List Transform}, parseArgs l = some ts → (∀ a ∈ l, ¬ b%"$" <+: a) → ∀ t ∈ ts, ∀ q, t ≠ .query q
  | [], ts, h, _ => by cases h; simp
  | a :: l, ts, h, ha => by
    simp only [parseArgs, Option.bind_eq_some_iff, Option.map_eq_some_iff] at h
    obtain ⟨t, h1, ts', h2, rfl⟩ := h
    intro t' ht' q e
    rcases List.mem_cons.1 ht' with rfl | ht'
    · subst e
      have hq := ha a (by simp)
      unfold parseTransformer at h1
      repeat' split at h1
      all_goals first | cases h1 | exact hq ‹_› | skip
      simp only [Option.map_eq_some_iff] at h1
      obtain ⟨_, _, h1⟩ := h1
      cases h1
    · exact args_plain h2 (fun b hb => ha b (by simp [hb])) t' ht' q e

private theorem args_split : ∀ {l : List Bytes} {ts : List Transform}, parseArgs l = some ts → (∀ a ∈ l, a ≠ b%"split") → ∀ t ∈ ts, t ≠ .split
  | [], ts, h, _ => by cases h; simp
  | a :: l, ts, h, ha => by
    simp only [parseArgs, Option.bind_eq_some_iff, Option.map_eq_some_iff] at h
    obtain ⟨t, h1, ts', h2, rfl⟩ := h
    intro t' ht' e
    rcases List.mem_cons.1 ht' with rfl | ht'
    · subst e
      have hq := ha a (by simp)
      unfold parseTransformer at h1
      rw [if_neg hq] at h1
      repeat' split at h1
      all_goals first | cases h1 | skip
      simp only [Option.map_eq_some_iff] at h1
      obtain ⟨_, _, h1⟩ := h1
      cases h1
    · exact args_split h2 (fun b hb => ha b (by simp [hb])) t' ht' e

/-- Queries among the arguments have been compiled. -/
private theorem args_compiled : ∀ {l : List Bytes} {ts : List Transform}, parseArgs l = some ts → ∀ q, .query q ∈ ts → ∃ r, compileQuery q = some r
  | [], ts, h, q, hq => by cases h; cases hq
  | a :: l, ts, h, q, hq => by
    simp only [parseArgs, Option.bind_eq_some_iff, Option.map_eq_some_iff] at h
    obtain ⟨t, h1, ts', h2, rfl⟩ := h
    rcases List.mem_cons.1 hq with rfl | hq
    · unfold parseTransformer at h1
      repeat' split at h1
      all_goals first | cases h1 | skip
      · simp only [Option.map_eq_some_iff] at h1
        obtain ⟨_, _, h1⟩ := h1
        cases h1
      · exact Option.isSome_iff_exists.1 ‹_›
    · exact args_compiled h2 q hq

/-- For all options, arguments, inputs and ways in which the input arrives or fails, the program ends with a result or crashes.  (The model has no other way
to have no result than a crash: it does not run for ever, also not with queries on input that is incomplete.) -/
theorem C74_ends (env : Env) (o : Options) (r : Reader) : (∃ x, Main env o r x) ∨ Crashes env o r := by
  cases hp : prepare o r with
  | none => exact .inl ⟨_, .fatal hp⟩
  | some p =>
    obtain ⟨source, ts, sink⟩ := p
    rcases source_ends env source with ⟨toks, bad, h1⟩ | ⟨r', rfl, h1⟩
    · have ht := args_compiled (prepare_parts hp).1
      have chain : ∀ (l : List Transform) (toks : List Token), (∀ q, .query q ∈ l → ∃ r, compileQuery q = some r) →
          (∃ out, DoAll env o.strict l toks out) ∨ ChainPanics env o.strict l toks := by
        intro l
        induction l with
        | nil => exact fun toks _ => .inl ⟨_, .nil⟩
        | cons t l ih =>
          intro toks hl
          have one : (∃ out, t.Does env o.strict toks out) ∨ t.Panics env o.strict toks := by
            by_cases hq : ∃ q, t = .query q
            · obtain ⟨q, rfl⟩ := hq
              obtain ⟨c, hc⟩ := hl q (by simp)
              obtain ⟨out, e, h, rfl | rfl⟩ := Ends.outcome_exists env.lib o.strict hc toks
              · exact .inl ⟨out, h⟩
              · exact .inr (.inr ⟨q, out, rfl, h⟩)
            · rcases transform_ends env o.strict t (fun q e => hq ⟨q, e⟩) toks with h | ⟨-, h⟩
              · exact .inl h
              · exact .inr h
          rcases one with ⟨mid, h⟩ | h
          · rcases ih mid (fun q hq => hl q (by simp [hq])) with ⟨out, h'⟩ | h'
            · exact .inl ⟨out, .cons h h'⟩
            · exact .inr (.later h h')
          · exact .inr (.here h)
      rcases chain ts toks ht with ⟨out, h2⟩ | h2
      · exact .inl (main_ends hp h1 h2)
      · exact .inr (.transform hp h1 h2)
    · exact .inr (.decoder hp h1)

private theorem no_panics {env : Env} {strict : Bool} : ∀ {l : List Transform}, (∀ t ∈ l, ∀ q, t ≠ .query q) → (∀ t ∈ l, t ≠ .split) → ∀ toks, ¬ ChainPanics env strict l toks
  | [], _, _, toks, hc => by cases hc
  | t :: l, h1, h2, toks, hc => by
    cases hc with
    | here hp =>
      rcases hp with ⟨rfl, -⟩ | ⟨q, _, rfl, -⟩
      · exact h2 _ (by simp) rfl
      · exact h1 _ (by simp) q rfl
    | later _ hc => exact no_panics (fun t ht => h1 t (by simp [ht])) (fun t ht => h2 t (by simp [ht])) _ hc

/-- Without `split` and queries the program never crashes, for input that is not taken for JPV: any bytes, also if they are no JSON or if reading fails. -/
theorem C74_json_csv_partial (env : Env) {o : Options} (r : Reader) (ha : ∀ a ∈ o.args, ¬ b%"$" <+: a ∧ a ≠ b%"split")
    (hj : ∀ f r', chooseFormat o.inFormat r = some (f, r') → f ≠ b%"jpv" ∧ f ≠ b%"path") : ∃ x, Main env o r x := by
  refine (C74_ends env o r).resolve_right fun hc => ?_
  cases hc with
  | decoder e hp =>
    simp only [prepare, Option.bind_eq_some_iff, Option.map_eq_some_iff] at e
    obtain ⟨⟨f, r1⟩, hf, s, hs, _, -, _, -, e⟩ := e
    simp only [Prod.mk.injEq] at e
    obtain ⟨rfl, -⟩ := e
    obtain ⟨n1, n2⟩ := hj f r1 hf
    simp only [chooseSource] at hs
    repeat' split at hs
    all_goals first | cases hs | skip
    all_goals simp_all
  | transform e h1 hc =>
    have h2 := args_plain (prepare_parts e).1 fun a h => (ha a h).1
    have h3 := args_split (prepare_parts e).1 fun a h => (ha a h).2
    exact no_panics h2 h3 _ hc

private theorem whole_ends {env : Env} {strict : Bool} : ∀ {l : List Transform} (vs : List JVal), (∀ t ∈ l, ∀ q, t ≠ .query q) → ∃ out, DoAll env strict l (streamToks vs) out
  | [], vs, _ => ⟨_, .nil⟩
  | t :: l, vs, h => by
    have hl : ∀ t ∈ l, ∀ q, t ≠ .query q := fun t ht => h t (by simp [ht])
    cases t with
    | split =>
      obtain ⟨out, e⟩ := whole_ends (env := env) (strict := strict) _ hl
      exact ⟨out, .cons (C31_split _) e⟩
    | join =>
      obtain ⟨out, e⟩ := whole_ends (env := env) (strict := strict) _ hl
      exact ⟨out, .cons (C31_join _) e⟩
    | trace =>
      obtain ⟨out, e⟩ := whole_ends (env := env) (strict := strict) [] hl
      exact ⟨out, .cons rfl e⟩
    | depth m =>
      by_cases hm : m < 0
      · obtain ⟨out, e⟩ := whole_ends (env := env) (strict := strict) [] hl
        exact ⟨out, .cons (C30_maxDepth_negative m hm vs) e⟩
      · obtain ⟨n, rfl⟩ := Int.eq_ofNat_of_zero_le (by omega : 0 ≤ m)
        obtain ⟨out, e⟩ := whole_ends (env := env) (strict := strict) _ hl
        exact ⟨out, .cons (C30_maxDepth n vs) e⟩
    | query q => exact absurd rfl (h _ (by simp) q)

/-- With CSV input, whatever the bytes and however they arrive, the program does not crash, with any arguments other than queries: errors of CSV are found
between records, so that the transformers get whole values. -/
theorem C74_csv_partial (env : Env) {o : Options} (r : Reader)
    (hf : o.inFormat = b%"csv" ∨ o.inFormat = b%"csv-with-header" ∨ o.inFormat = b%"csvh" ∨ o.inFormat = b%"csv-header")
    (ha : ∀ a ∈ o.args, ¬ b%"$" <+: a) : ∃ x, Main env o r x := by
  cases hp : prepare o r with
  | none => exact ⟨_, .fatal hp⟩
  | some p =>
    obtain ⟨source, ts, sink⟩ := p
    have hs : ∃ cfg names r', source = .csv cfg names r' := by
      have hp' := hp
      simp only [prepare, Option.bind_eq_some_iff, Option.map_eq_some_iff] at hp'
      obtain ⟨⟨f, r1⟩, hf1, s, hs, _, -, _, -, e⟩ := hp'
      simp only [Prod.mk.injEq] at e
      obtain ⟨rfl, -⟩ := e
      have : f = o.inFormat := by
        unfold chooseFormat at hf1
        rw [if_neg (by rcases hf with h | h | h | h <;> rw [h] <;> decide)] at hf1
        cases hf1
        rfl
      subst this
      simp only [chooseSource] at hs
      repeat' split at hs
      all_goals first | cases hs | skip
      all_goals first | exact ⟨_, _, _, rfl⟩ | (exfalso; rcases hf with h | h | h | h <;> simp_all)
    obtain ⟨cfg, names, r', rfl⟩ := hs
    obtain ⟨vs, e, h, -⟩ := C20_counts cfg names (Csv.readInput r')
    obtain ⟨out, h2⟩ := whole_ends (env := env) (strict := o.strict) vs (args_plain (prepare_parts hp).1 ha)
    exact main_ends hp (by simp only [Source.tokens, h]; rfl) h2

/-- With JSON texts as input, the program does not crash, with any arguments other than queries, and with queries and other arguments as in C55; whatever the output format. -/
theorem C74_texts_partial {env : Env} {o : Options} {r : Reader} (hi : JsonInput o r) (hf : Fair r.sched) (he : r.fin = .eof) {vs : List JVal} (hv : SepStream LaxChars vs r.rest)
    (ha : (∀ a ∈ o.args, ¬ b%"$" <+: a) ∨ ∃ ts out, parseArgs o.args = some ts ∧ Means env o.strict ts vs out) : ∃ x, Main env o r x := by
  cases hp : prepare o r with
  | none => exact ⟨_, .fatal hp⟩
  | some p =>
    obtain ⟨source, ts, sink⟩ := p
    obtain ⟨r', h1, h2, h3, h4⟩ := chooseFormat_json hi hf
    have hs : source = .json r' := by
      have hp' := hp
      simp only [prepare, h1, Option.bind_some, chooseSource] at hp'
      rw [if_neg fun h => absurd h.2 (by decide), if_pos (by decide)] at hp'
      simp only [Option.bind_some, Option.bind_eq_some_iff, Option.map_eq_some_iff] at hp'
      obtain ⟨_, -, _, -, e⟩ := hp'
      cases e
      rfl
    subst hs
    have ht : (Source.json r').tokens env = some (streamToks vs, false) := by
      rw [tokens_fair h4, h2, h3, he, decode_complete hv]
      rfl
    have hd : ∃ out, DoAll env o.strict ts (streamToks vs) out := by
      rcases ha with ha | ⟨ts', out, ha, hm⟩
      · exact whole_ends vs (args_plain (prepare_parts hp).1 ha)
      · rw [(prepare_parts hp).1] at ha
        cases ha
        exact ⟨_, hm.does⟩
    obtain ⟨out, hd⟩ := hd
    exact main_ends hp ht hd

private theorem crash_json {env : Env} {o : Options} {s : Bytes} {b : Byte} (hin : o.inFormat = b%"auto") (hb : b = c%'{' ∨ b = c%'[')
    {ts : List Transform} (ha : parseArgs o.args = some ts) (ho : o.outFormat = b%"json") {toks : List Token} {bad : Bool}
    (hv : outcome (outOf (b :: s) .eof (Pure.decode .eof (b :: s))) = some (toks, bad)) (hc : ChainPanics env o.strict ts toks) :
    Crashes env o (atOnce (b :: s)) := by
  obtain ⟨r', h2, h3, h4, h1⟩ := prepare_json (o := o) (r := atOnce (b :: s)) (atOnce_json hin _ hb) (fair_atOnce _) ha ho
  exact .transform h1 (by rw [tokens_fair h4, h2, h3]; exact hv) hc

private theorem split_panics {env : Env} {strict : Bool} {ts : List Token} (h : runTransform explodeArray ts = none) : Transform.split.Panics env strict ts := by
  rcases transform_ends env strict .split (fun _ => by simp) ts with ⟨out, h'⟩ | ⟨-, h'⟩
  · have h' : runTransform explodeArray ts = some out := h'
    rw [h] at h'
    cases h'
  · exact h'

/-- The tokens end in an array that is not part of another value: some whole values, and tokens of an array but not all of them. -/
def EndsInArray (ts : List Token) : Prop :=
  ∃ (us items : List JVal) (e : Bool) (p q : List Token), ts = streamToks us ++ p ∧ p ++ q = (JVal.arr items e).toks ∧ p ≠ [] ∧ q ≠ []

/-- With `split` as first argument, and neither `split` nor queries after it, the program crashes exactly if the tokens that the JSON decoder sends end in an
array that is not part of another value: for any bytes, and if reading fails.  (Objects may be incomplete, also with arrays in them.) -/
theorem C74_split_partial (env : Env) {o : Options} {r : Reader} (hi : JsonInput o r) (hf : Fair r.sched)
    (ho : o.outFormat = b%"json" ∨ o.outFormat = b%"jpv" ∨ o.outFormat = b%"path") {args : List Bytes} {ts : List Transform}
    (ha : o.args = b%"split" :: args) (hp : parseArgs o.args = some ts) (hq : ∀ a ∈ args, ¬ b%"$" <+: a ∧ a ≠ b%"split") :
    Crashes env o r ↔ EndsInArray (Json.decodeFrom r).1 := by
  have hk : ∃ k, chooseSink o = some k := by
    simp only [chooseSink]
    rcases ho with h | h | h <;> simp [h]
  obtain ⟨k, hk⟩ := hk
  obtain ⟨l, rfl, hl⟩ : ∃ l, ts = .split :: l ∧ parseArgs args = some l := by
    rw [ha] at hp
    simp only [parseArgs, Option.bind_eq_some_iff, Option.map_eq_some_iff] at hp
    obtain ⟨t, h1, l, h2, rfl⟩ := hp
    unfold parseTransformer at h1
    rw [if_pos rfl] at h1
    cases h1
    exact ⟨l, rfl, h2⟩
  obtain ⟨r', h1, h2, h3, h4⟩ := chooseFormat_json hi hf
  have hprep : prepare o r = some (.json r', .split :: l, k) := by
    simp only [prepare, h1, Option.bind_some, chooseSource]
    rw [if_neg fun h => absurd h.2 (by decide), if_pos (by decide)]
    simp only [Option.bind_some, hp, hk, Option.map_some]
  have htok : (Source.json r').tokens env = (Source.json r).tokens env := by rw [tokens_fair h4, tokens_fair hf, h2, h3]
  obtain ⟨bad, hs, vs, more, hv⟩ : ∃ bad, (Source.json r').tokens env = some ((Json.decodeFrom r).1, bad) ∧ ∃ vs more, (Json.decodeFrom r).1 ++ more = streamToks vs := by
    rw [htok]
    have h := C05_json_decoding_never_panics r 8192 (by decide)
    have g1 := C04_success_well_formed r 8192 (by decide)
    have g2 := C04_failure_prefix r 8192 (by decide)
    simp only [Source.tokens]
    generalize Json.decodeFrom r = x at h g1 g2 ⊢
    obtain ⟨a, b⟩ := x
    rcases h with rfl | ⟨e, rfl⟩
    · obtain ⟨vs, -, h⟩ := g1 a rfl
      exact ⟨_, rfl, vs, [], by rw [List.append_nil]; exact h⟩
    · obtain ⟨vs, more, -, h⟩ := g2 a e rfl
      exact ⟨_, rfl, vs, more, h⟩
  have hspl := SplitPure.split_prefix hv
  have n1 := args_plain hl fun a h => (hq a h).1
  have n2 := args_split hl fun a h => (hq a h).2
  constructor
  · intro hc
    cases hc with
    | decoder e _ => rw [hprep] at e; cases e
    | transform e ht hc =>
      rw [hprep] at e
      cases e
      rw [hs] at ht
      cases ht
      cases hc with
      | here hp =>
        refine hspl.1 ?_
        rcases hp with ⟨-, hp⟩ | ⟨q, _, e, -⟩
        · unfold runTransform
          generalize (transformAll (explodeArray ((Json.decodeFrom r).1.length + 1)) ((Json.decodeFrom r).1.length + 1)).run Heap.mach (Heap.init (Json.decodeFrom r).1) = x at hp
          obtain ⟨a, b⟩ := x
          simp only at hp
          subst hp
          rfl
        · cases e
      | later _ hc =>
        exact absurd hc (no_panics n1 n2 _)
  · intro h
    exact .transform hprep hs (.here (split_panics (hspl.2 h)))

/-- C74 is false: `jp split` crashes if the input ends inside of an array, -/
theorem C74_violated_split (env : Env) : Crashes env { args := [b%"split"] } (atOnce b%"[1,2") :=
  crash_json rfl (.inr rfl) (ts := [.split]) rfl rfl (toks := [.startArr, .scalar ⟨b%"1", .num, false, false, false⟩, .scalar ⟨b%"2", .num, false, false, false⟩])
    (bad := true) (by decide +kernel) (.here (split_panics (by decide +kernel)))

/-- and so does a query. -/
theorem C74_violated_query : Crashes noEnv { args := [b%"$[*]"] } (atOnce b%"[1,2") :=
  crash_json rfl (.inr rfl) (ts := [.query ⟨true, [.mk false [.wild]]⟩]) rfl rfl
    (toks := [.startArr, .scalar ⟨b%"1", .num, false, false, false⟩, .scalar ⟨b%"2", .num, false, false, false⟩])
    (bad := true) (by decide +kernel) (.here (.inr ⟨_, [.scalar ⟨b%"1", .num, false, false, false⟩, .scalar ⟨b%"2", .num, false, false, false⟩], rfl,
      .of_run 10 (by decide +kernel)⟩))

/-- Valid input is no protection: `jp '$[?@==$.x]'` crashes with the input `[1]`, -/
theorem C74_violated_missing : Crashes noEnv { args := [b%"$[?@==$.x]"] } (atOnce b%"[1]") :=
  crash_json rfl (.inr rfl) (ts := [.query ⟨true, [.mk false [.filter (.cmp (.sing ⟨false, []⟩) .eq (.sing ⟨true, [.name b%"x"]⟩))]]⟩]) rfl rfl
    (toks := [.startArr, .scalar ⟨b%"1", .num, false, false, false⟩, .endArr])
    (bad := false) (by decide +kernel) (.here (.inr ⟨_, [], rfl, .of_run 10 (by decide +kernel)⟩))

/-- and `jp '$[?match(@,"(")]'` with the input `["a","b"]`, if the library rejects the pattern. -/
theorem C74_violated_pattern : Crashes noEnv { args := [b%"$[?match(@,\"(\")]"] } (atOnce b%"[\"a\",\"b\"]") :=
  crash_json rfl (.inr rfl) (ts := [.query ⟨true, [.mk false [.filter (.func b%"match" [.query false [], .lit (.str b%"(")])]]⟩]) rfl rfl
    (toks := [.startArr, .scalar ⟨b%"\"a\"", .str, false, true, true⟩, .scalar ⟨b%"\"b\"", .str, false, true, true⟩, .endArr])
    (bad := false) (by decide +kernel) (.here (.inr ⟨_, [], rfl, .of_run 20 (by decide +kernel)⟩))

/-- Without arguments: a JPV path without equal sign. -/
theorem C74_violated_jpv (env : Env) : Crashes env { inFormat := b%"jpv" } (atOnce b%"$.a : 1") :=
  .decoder (r' := atOnce b%"$.a : 1") rfl (C17_violated _ _ (by decide) (fair_atOnce _) rfl rfl)

section NonVacuity

/-- Input that is no JSON, without arguments that could crash: a result. -/
example (env : Env) : ∃ x, Main env { inFormat := b%"json", args := [b%"join", b%"depth=3"], outFormat := b%"jpv" } (atOnce b%"[1,{\"a\":") x :=
  C74_json_csv_partial env _ (by decide) (by intro f r' h; cases h; decide)

/-- `jp split` with an incomplete object, in which there is an incomplete array. -/
example (env : Env) : ¬ Crashes env { inFormat := b%"json", args := [b%"split"] } (atOnce b%"[1]{\"a\":[2") := by
  rw [C74_split_partial env (.inl rfl) (fair_atOnce _) (.inl rfl) rfl (ts := [.split]) rfl (by simp)]
  rintro ⟨us, is, e, p, q, e1, e2, e3, e4⟩
  have := SplitPure.split_arr (us := us) e2 e3 e4
  rw [← e1] at this
  exact absurd this (by decide +kernel)

/-- With an incomplete array. -/
example (env : Env) : Crashes env { inFormat := b%"json", args := [b%"split", b%"join"] } (atOnce b%"1[2 3") :=
  (C74_split_partial env (.inl rfl) (fair_atOnce _) (.inl rfl) rfl (ts := [.split, .join]) rfl (by decide)).2
    ⟨[.scalar ⟨b%"1", .num, false, false, false⟩], [.scalar ⟨b%"2", .num, false, false, false⟩], false, [.startArr, .scalar ⟨b%"2", .num, false, false, false⟩], [.endArr],
      by decide +kernel, rfl, by simp, by simp⟩

/-- A file that is no CSV. -/
example (env : Env) : ∃ x, Main env { inFormat := b%"csv", args := [b%"split", b%"join"] } (atOnce b%"a,\"b") x :=
  C74_csv_partial env _ (.inl rfl) (by decide)

/-- A crash is not a result: there is none for `jp split` and `[1,2`. -/
example (env : Env) : ¬ ∃ x, Main env { args := [b%"split"] } (atOnce b%"[1,2") x := C74_crashes (C74_violated_split env)

end NonVacuity

end Verif.Cmd
