import Verif.EncTrunc
import Verif.JsonTrunc
import Verif.SplitPure
import Verif.ProgramLemmas
import Verif.Props.C08
import Verif.Props.C73

/-!
# C78: Input that breaks off

`RErr.eof` is the end of the input; any other error of the reader means that reading failed.
-/

set_option linter.unusedSimpArgs false
set_option linter.unusedVariables false

namespace Verif

/-- What the JSON encoder writes for tokens is a prefix of what it writes for the same tokens with others behind them, whatever the tokens are, also
if the encoder panics on the first ones, and for all options. -/
theorem C78_json_encoder (cfg : EncCfg) (pc : PrinterCfg) (ts more : List Token) :
    (Enc.encode cfg pc Enc.goodSink ts).1 <+: (Enc.encode cfg pc Enc.goodSink (ts ++ more)).1 := Enc.encode_prefix cfg pc ts more

/-- The same for the JPV encoder. -/
theorem C78_jpv_encoder (cfg : JEncCfg) (pc : PrinterCfg) (ts more : List Token) :
    (JEnc.encode cfg pc Enc.goodSink ts).1 <+: (JEnc.encode cfg pc Enc.goodSink (ts ++ more)).1 := JEnc.encode_prefix cfg pc ts more

namespace SplitPure
open Heap

theorem takeEnd_more (more : List Token) : ∀ (d : Int) (ts : List Token),
    takeEnd d (ts ++ more) = ((takeEnd d ts).1, (takeEnd d ts).2 ++ more) ∨ (takeEnd d ts).2 = [] ∧ (takeEnd d ts).1 <+: (takeEnd d (ts ++ more)).1
  | d, [] => .inr ⟨rfl, List.nil_prefix⟩
  | d, x :: r => by
    simp only [takeEnd, List.cons_append]
    split
    · exact .inl rfl
    · rcases takeEnd_more more (depthAfter d x) r with h | ⟨h1, h2⟩
      · rw [h]
        exact .inl rfl
      · exact .inr ⟨h1, (List.prefix_cons_inj x).2 h2⟩

theorem skip_more (more : List Token) {x : Token} {r : List Token} : ∀ {ts : List Token}, skip ts = x :: r → skip (ts ++ more) = x :: (r ++ more)
  | [], h => by cases h
  | y :: ts, h => by
    simp only [skip, List.cons_append, List.dropWhile_cons] at h ⊢
    split at h
    · rename_i hy
      rw [if_pos hy]
      exact skip_more more h
    · rename_i hy
      rw [if_neg hy]
      cases h
      rfl

theorem items_more (more : List Token) : ∀ {f g : Nat} {ts : List Token} {p : List Token × List Token}, f ≤ g → items f ts = some p →
    items g (ts ++ more) = some (p.1, p.2 ++ more)
  | 0, _, _, _, _, h => by cases h
  | f + 1, 0, _, _, hfg, _ => absurd hfg (by omega)
  | f + 1, g + 1, ts, p, hfg, h => by
    have coll : ∀ (x : Token) (r : List Token), (items f (takeEnd 0 r).2).map (fun p => ((x :: (takeEnd 0 r).1) ++ p.1, p.2)) = some p →
        (items g (takeEnd 0 (r ++ more)).2).map (fun p => ((x :: (takeEnd 0 (r ++ more)).1) ++ p.1, p.2)) = some (p.1, p.2 ++ more) := by
      intro x r h
      rw [Option.map_eq_some_iff] at h
      obtain ⟨q, h1, h2⟩ := h
      rcases takeEnd_more more 0 r with e | ⟨e, _⟩
      · rw [e]
        simp only
        rw [items_more more (by omega) h1]
        subst h2
        rfl
      · rw [e, items_nil] at h1
        cases h1
    simp only [items] at h
    split at h
    · rename_i r hs
      cases h
      simp only [items, skip_more more hs]
    · rename_i s r hs
      simp only [items, skip_more more hs]
      rw [Option.map_eq_some_iff] at h
      obtain ⟨q, h1, h2⟩ := h
      rw [items_more more (by omega) h1]
      subst h2
      rfl
    · rename_i r hs
      simp only [items, skip_more more hs]
      exact coll _ _ h
    · rename_i r hs
      simp only [items, skip_more more hs]
      exact coll _ _ h
    · cases h

theorem top_more (more : List Token) {F G : Nat} (hF : F ≤ G) : ∀ {f g : Nat} {ts out out' : List Token}, f ≤ g → top F f ts = some out →
    top G g (ts ++ more) = some out' → out <+: out'
  | 0, _, _, _, _, _, h, _ => by cases h
  | f + 1, 0, _, _, _, hfg, _, _ => absurd hfg (by omega)
  | f + 1, g + 1, ts, out, out', hfg, h, h' => by
    cases ts with
    | nil =>
      cases h
      exact List.nil_prefix
    | cons x r =>
      cases x with
      | scalar s =>
        simp only [top, List.cons_append, Option.map_eq_some_iff] at h h'
        obtain ⟨q, h1, rfl⟩ := h
        obtain ⟨q', h1', rfl⟩ := h'
        exact (List.prefix_cons_inj _).2 (top_more more hF (by omega) h1 h1')
      | startObj =>
        simp only [top, List.cons_append, Option.map_eq_some_iff] at h h'
        obtain ⟨q, h1, rfl⟩ := h
        obtain ⟨q', h1', rfl⟩ := h'
        refine (List.prefix_cons_inj _).2 ?_
        rcases takeEnd_more more 0 r with e | ⟨e1, e2⟩
        · rw [e] at h1' ⊢
          exact (List.prefix_append_right_inj _).2 (top_more more hF (by omega) h1 h1')
        · rw [e1] at h1
          have : q = [] := by
            cases f with
            | zero => cases h1
            | succ f => cases h1; rfl
          rw [this, List.append_nil]
          exact e2.trans (List.prefix_append _ _)
      | startArr =>
        simp only [top, List.cons_append, Option.map_eq_some_iff, Option.bind_eq_some_iff] at h h'
        obtain ⟨p, h0, q, h1, rfl⟩ := h
        obtain ⟨p', h0', q', h1', rfl⟩ := h'
        rw [items_more more hF h0] at h0'
        cases h0'
        exact (List.prefix_append_right_inj _).2 (top_more more hF (by omega) h1 h1')
      | endArr => cases h
      | endObj => cases h
      | elision => cases h

end SplitPure

/-- What `split` sends for tokens is a prefix of what it sends for the same tokens with others behind them (if it does not panic). -/
theorem C78_split {ts more out out' : List Token} (h : runTransform explodeArray ts = some out) (h' : runTransform explodeArray (ts ++ more) = some out') :
    out <+: out' := by
  rw [SplitPure.runTransform_split] at h h'
  exact SplitPure.top_more more (by rw [List.length_append]; omega) (by rw [List.length_append]; omega) h h'

theorem maxDepthLoop_more (m : Int) (more : List Token) : ∀ (d : Int) (ts : List Token), maxDepthLoop m d ts <+: maxDepthLoop m d (ts ++ more)
  | d, [] => List.nil_prefix
  | d, t :: ts => by
    simp only [maxDepthLoop, List.cons_append]
    exact (List.prefix_append_right_inj _).2 ((List.prefix_append_right_inj _).2 (maxDepthLoop_more m more _ ts))

/-- What `depth` sends for tokens is a prefix of what it sends for the same tokens with others behind them. -/
theorem C78_depth (m : Int) (ts more : List Token) : maxDepthFilter m ts <+: maxDepthFilter m (ts ++ more) := maxDepthLoop_more m more 0 ts

/-- CSV input that ends too early, at the end of a line (maybe in a quoted field): what the decoder sends is a prefix of what it sends for every input that
begins with these lines. -/
theorem C78_csv_lines (cfg : Csv.Cfg) (preset : List Bytes) (r₁ r₂ : Reader) (hf₁ : Fair r₁.sched) (hf₂ : Fair r₂.sched)
    (he : r₁.fin = .eof) (hl : r₁.rest = [] ∨ r₁.rest.getLast? = some c%'\n') (E : Bytes) (hr : r₂.rest = r₁.rest ++ E) :
    ∃ ts₁ e₁ ts₂ e₂, Csv.produce cfg preset (Csv.readInput r₁) = some (ts₁, e₁) ∧
      Csv.produce cfg preset (Csv.readInput r₂) = some (ts₂, e₂) ∧ ts₁ <+: ts₂ := by
  have h2 := Csv.readText_lines r₂.fin hl E
  rw [Csv.readInput_eq hf₁, Csv.readInput_eq hf₂, hr, he]
  generalize Csv.readText .eof r₁.rest = x at h2
  generalize Csv.readText r₂.fin (r₁.rest ++ E) = y at h2
  refine ⟨_, _, _, _, Csv.produce_eq cfg preset x, Csv.produce_eq cfg preset y, ?_⟩
  obtain ⟨more, h2⟩ := h2
  rw [← h2]
  cases cfg.hasHeader with
  | false =>
    simp only [Bool.false_eq_true, if_false]
    rw [List.map_append]
    exact ⟨_, (streamToks_append _ _).symm⟩
  | true =>
    simp only [if_true]
    cases x.records with
    | nil => exact List.nil_prefix
    | cons a rs =>
      simp only [List.cons_append, List.tail_cons, List.head?_cons]
      rw [List.map_append]
      exact ⟨_, (streamToks_append _ _).symm⟩

namespace Cmd

/-- The arguments are `split`, `trace` and `depth=…` only. -/
def Plainly : List Transform → Prop
  | [] => True
  | .split :: l => Plainly l
  | .trace :: l => Plainly l
  | .depth _ :: l => Plainly l
  | _ :: _ => False

theorem doAll_prefix {env : Env} {strict : Bool} : ∀ {l : List Transform} {ts ts' out out' : List Token}, Plainly l → ts <+: ts' →
    DoAll env strict l ts out → DoAll env strict l ts' out' → out <+: out'
  | [], _, _, _, _, _, hp, h, h' => by
    cases h
    cases h'
    exact hp
  | t :: l, ts, ts', out, out', hl, hp, h, h' => by
    cases h with
    | cons h1 h2 =>
      cases h' with
      | cons h1' h2' =>
        obtain ⟨more, rfl⟩ := hp
        cases t with
        | split => exact doAll_prefix (l := l) hl (C78_split h1 h1') h2 h2'
        | trace =>
          refine doAll_prefix (l := l) hl ?_ h2 h2'
          rw [← show _ = _ from h1]
          exact List.nil_prefix
        | depth m =>
          refine doAll_prefix (l := l) hl ?_ h2 h2'
          rw [← show _ = _ from h1, ← show _ = _ from h1']
          exact C78_depth m _ _
        | join => exact hl.elim
        | query q => exact hl.elim

theorem sink_prefix {o : Options} {sink : List Token → Bytes × COut Unit} (h : chooseSink o = some sink) {ts ts' : List Token} (hp : ts <+: ts') :
    (sink ts).1 <+: (sink ts').1 := by
  obtain ⟨more, rfl⟩ := hp
  unfold chooseSink at h
  simp only at h
  split at h
  · cases h
    exact C78_json_encoder _ _ _ _
  · split at h
    · cases h
      exact C78_jpv_encoder _ _ _ _
    · cases h

/-- What is needed of a run that is not a fatal error. -/
theorem main_parts {env : Env} {o : Options} {r : Reader} {x : Result} (h : Main env o r x) :
    x.stdout = [] ∧ prepare o r = none ∨ ∃ source ts sink toks bad out, prepare o r = some (source, ts, sink) ∧ source.tokens env = some (toks, bad) ∧
      DoAll env o.strict ts toks out ∧ (sink out).1 = x.stdout := by
  cases h with
  | fatal h => exact .inl ⟨rfl, h⟩
  | run h1 h2 h3 h4 => exact .inr ⟨_, _, _, _, _, _, h1, h2, h3, by rw [h4]⟩
  | panic h1 h2 h3 h4 => exact .inr ⟨_, _, _, _, _, _, h1, h2, h3, by rw [h4]⟩

/-- The format of the input is given, and it is JSON or one of the CSV formats; or it is JSON that is recognised from the first byte. -/
def Streamed (o : Options) (r : Reader) : Prop :=
  o.inFormat = b%"json" ∨ o.inFormat ∈ [b%"csv", b%"csv-with-header", b%"csvh", b%"csv-header"] ∨ JsonInput o r

/-- The input `r` breaks off before `E`: reading fails; or the input is JSON and ends, not in the middle of a number; or it is CSV and ends at the end of a
line (maybe in the middle of a quoted field). -/
def BreaksOff (o : Options) (r : Reader) (E : Bytes) : Prop :=
  r.fin ≠ .eof ∨ (o.inFormat ∉ [b%"csv", b%"csv-with-header", b%"csvh", b%"csv-header"] ∧ ∃ c E', E = c :: E' ∧ ¬ Rfc8259.NumCont c) ∨
    o.inFormat ∈ [b%"csv", b%"csv-with-header", b%"csvh", b%"csv-header"] ∧ (r.rest = [] ∨ r.rest.getLast? = some c%'\n')

/-- What the decoder sends is a prefix, and the choice of the decoder is the same. -/
theorem source_prefix {env : Env} {o : Options} {r₁ r₂ : Reader} (hi₁ : Streamed o r₁) (hi₂ : Streamed o r₂) (hf₁ : Fair r₁.sched) (hf₂ : Fair r₂.sched)
    {E : Bytes} (he : BreaksOff o r₁ E) (hr : r₂.rest = r₁.rest ++ E) : ∃ fmt r₁' r₂', chooseFormat o.inFormat r₁ = some (fmt, r₁') ∧
      chooseFormat o.inFormat r₂ = some (fmt, r₂') ∧ ((chooseSource o.csvHeader fmt r₁' = none ∧ chooseSource o.csvHeader fmt r₂' = none) ∨
      ∃ s₁ s₂, chooseSource o.csvHeader fmt r₁' = some s₁ ∧ chooseSource o.csvHeader fmt r₂' = some s₂ ∧
        ∀ {t₁ t₂ : List Token} {b₁ b₂ : Bool}, s₁.tokens env = some (t₁, b₁) → s₂.tokens env = some (t₂, b₂) → t₁ <+: t₂) := by
  have json : o.inFormat ∉ [b%"csv", b%"csv-with-header", b%"csvh", b%"csv-header"] → ∀ r₁' r₂' : Reader, r₁'.rest = r₁.rest → r₁'.fin = r₁.fin → Fair r₁'.sched → r₂'.rest = r₂.rest → Fair r₂'.sched →
      ∀ {t₁ t₂ : List Token} {b₁ b₂ : Bool}, (Source.json r₁').tokens env = some (t₁, b₁) → (Source.json r₂').tokens env = some (t₂, b₂) → t₁ <+: t₂ := by
    intro hn r₁' r₂' a1 a2 a3 a4 a5 t₁ t₂ b₁ b₂ h1 h2
    have out : ∀ {x : List Token × Out Unit Unit} {t : List Token} {b : Bool}, outcome x = some (t, b) → t = x.1 := by
      intro x t b h
      obtain ⟨ts, y⟩ := x
      cases y <;> cases h <;> rfl
    rw [tokens_fair a3, a1, a2] at h1
    rw [tokens_fair a5, a4, hr] at h2
    rw [out h1, out h2]
    by_cases hne : r₁.fin = .eof
    · rcases he with he | ⟨_, c, E', rfl, hc⟩ | ⟨he, _⟩
      · exact absurd hne he
      · rw [outOf_fst, outOf_fst, hne]
        exact Pure.decode_ext _ hc
      · exact absurd he hn
    · rcases outOf_prefix r₁.rest E r₂'.fin (e := r₁.fin) hne with h | h
      · exact h.1
      · rw [h]
        exact List.prefix_refl _
  have jsrc : ∀ r : Reader, chooseSource o.csvHeader b%"json" r = some (.json r) := by
    intro r
    unfold chooseSource
    rw [if_neg fun h => absurd h.2 (by decide), if_pos (by decide)]
  have hc : JsonInput o r₁ ∧ JsonInput o r₂ ∨ o.inFormat ∈ [b%"csv", b%"csv-with-header", b%"csvh", b%"csv-header"] := by
    rcases hi₁ with g | g | g
    · exact .inl ⟨.inl g, .inl g⟩
    · exact .inr g
    · rcases hi₂ with k | k | k
      · exact .inl ⟨g, .inl k⟩
      · exact .inr k
      · exact .inl ⟨g, k⟩
  rcases hc with ⟨g1, g2⟩ | g
  · have hn : o.inFormat ∉ [b%"csv", b%"csv-with-header", b%"csvh", b%"csv-header"] := by
      rcases g1 with e | ⟨e, _⟩ <;>
      · rw [e]
        decide
    obtain ⟨r₁', a1, a2, a3, a4⟩ := chooseFormat_json g1 hf₁
    obtain ⟨r₂', c1, c2, c3, c4⟩ := chooseFormat_json g2 hf₂
    exact ⟨b%"json", r₁', r₂', a1, c1, .inr ⟨_, _, jsrc _, jsrc _, json hn r₁' r₂' a2 a3 a4 c2 c4⟩⟩
  · have hk : ∀ (cfg : Csv.Cfg) (names : List Bytes) {t₁ t₂ : List Token} {b₁ b₂ : Bool}, (Source.csv cfg names r₁).tokens env = some (t₁, b₁) →
        (Source.csv cfg names r₂).tokens env = some (t₂, b₂) → t₁ <+: t₂ := by
      intro cfg names t₁ t₂ b₁ b₂ h1 h2
      obtain ⟨ts₁, e₁, ts₂, e₂, q1, q2, q3⟩ : ∃ ts₁ e₁ ts₂ e₂, Csv.produce cfg names (Csv.readInput r₁) = some (ts₁, e₁) ∧
          Csv.produce cfg names (Csv.readInput r₂) = some (ts₂, e₂) ∧ ts₁ <+: ts₂ := by
        by_cases hne : r₁.fin = .eof
        · rcases he with he | ⟨he, _⟩ | ⟨_, he⟩
          · exact absurd hne he
          · exact absurd g he
          · exact C78_csv_lines cfg names r₁ r₂ hf₁ hf₂ hne he E hr
        · obtain ⟨ts₁, e₁, h⟩ := C73_csv_truncates cfg names r₁ r₂ hf₁ hf₂ hne E hr
          exact ⟨ts₁, _, h⟩
      simp only [Source.tokens, q1, q2, Option.map_some, Option.some.injEq, Prod.mk.injEq] at h1 h2
      rw [← h1.1, ← h2.1]
      exact q3
    have ha : o.inFormat ≠ b%"auto" := by
      intro e
      rw [e] at g
      revert g
      decide
    refine ⟨o.inFormat, r₁, r₂, by rw [chooseFormat, if_neg ha], by rw [chooseFormat, if_neg ha], ?_⟩
    have hj : o.inFormat ≠ b%"json" := by
      intro e
      rw [e] at g
      revert g
      decide
    have hp : ¬(o.inFormat = b%"jpv" ∨ o.inFormat = b%"path") := by
      rintro (e | e) <;>
      · rw [e] at g
        revert g
        decide
    unfold chooseSource
    split
    · exact .inl ⟨rfl, rfl⟩
    · split
      · split
        · exact .inr ⟨_, _, rfl, rfl, hk _ _⟩
        · exact .inr ⟨_, _, rfl, rfl, hk _ _⟩
      · split
        · exact .inr ⟨_, _, rfl, rfl, hk _ _⟩
        · exact .inl ⟨rfl, rfl⟩

/-- If reading the input fails after some bytes, then what the program has written is a prefix of what it writes for every input that begins with these
bytes; the same if JSON input ends too early, but not in the middle of a number, and if CSV input ends too early, at the end of a line.  Missing: `join` and
queries as arguments, JPV input. -/
theorem C78_program_partial {env : Env} {o : Options} {l : List Transform} (ha : parseArgs o.args = some l) (hl : Plainly l) {r₁ r₂ : Reader}
    (hi₁ : Streamed o r₁) (hi₂ : Streamed o r₂) (hf₁ : Fair r₁.sched) (hf₂ : Fair r₂.sched) {E : Bytes} (he : BreaksOff o r₁ E)
    (hr : r₂.rest = r₁.rest ++ E) {x₁ x₂ : Result} (h₁ : Main env o r₁ x₁) (h₂ : Main env o r₂ x₂) : x₁.stdout <+: x₂.stdout := by
  obtain ⟨fmt, r₁', r₂', e1, e2, hs⟩ := source_prefix (env := env) hi₁ hi₂ hf₁ hf₂ he hr
  rcases main_parts h₁ with ⟨h, _⟩ | ⟨s, l₁, k, toks, bad, out, p1, p2, p3, p4⟩
  · rw [h]
    exact List.nil_prefix
  · simp only [prepare, e1, Option.bind_some, Option.bind_eq_some_iff, ha, Option.map_eq_some_iff, Prod.mk.injEq] at p1
    obtain ⟨_, q1, sink, q3, rfl, rfl, e⟩ := p1
    subst e
    rcases hs with ⟨n1, _⟩ | ⟨s₁, s₂, n1, n2, n3⟩
    · rw [q1] at n1
      cases n1
    · rw [q1] at n1
      cases n1
      have pr : prepare o r₂ = some (s₂, l, sink) := by
        simp only [prepare, e2, Option.bind_some, n2, ha, q3, Option.map_some]
      rcases main_parts h₂ with ⟨_, h⟩ | ⟨s', l₂, k', toks', bad', out', p1', p2', p3', p4'⟩
      · rw [pr] at h
        cases h
      · rw [pr] at p1'
        cases p1'
        rw [← p4, ← p4']
        exact sink_prefix q3 (doAll_prefix hl (n3 p2 p2') p3 p3')

/-- A reader that delivers bytes at once and then fails. -/
def broken (s : Bytes) : Reader := ⟨s, .other 0, fun _ => (8192, false), 0⟩

/-- `join` makes an array that is cut look complete: if reading fails after `[1,`, then `jp join` writes the array `[1]`, which is not in any input that
begins with these bytes. -/
theorem C78_violated_join : Main noEnv { inFormat := b%"json", args := [b%"join"] } (broken b%"[1,") ⟨b%"[\n  [1]", 0, true⟩ ∧
    Main noEnv { inFormat := b%"json", args := [b%"join"] } (atOnce b%"[1,2]") ⟨b%"[\n  [1, 2]\n]\n", 0, false⟩ ∧
    ¬ b%"[\n  [1]" <+: b%"[\n  [1, 2]\n]\n" := by
  refine ⟨?_, ?_, by decide⟩
  · exact .panic (source := .json (broken b%"[1,")) (ts := [.join]) (toks := [.startArr, .scalar ⟨b%"1", .num, false, false, false⟩]) (bad := true)
      (out := [.startArr, .startArr, .scalar ⟨b%"1", .num, false, false, false⟩, .endArr]) rfl (by decide +kernel) (.cons rfl .nil) (by decide +kernel)
  · exact .run (source := .json (atOnce b%"[1,2]")) (ts := [.join]) (toks := streamToks [.arr [num b%"1", num b%"2"] false])
      (out := streamToks [.arr [.arr [num b%"1", num b%"2"] false] false]) rfl (by decide +kernel) (.cons rfl .nil) (by decide +kernel)

/-- JPV input that is cut looks complete as well: the decoder closes what is open. -/
theorem C78_violated_jpv : Main noEnv { inFormat := b%"jpv" } (broken b%"$[0] = 1\n") ⟨b%"[1]\n", 0, true⟩ ∧
    Main noEnv { inFormat := b%"jpv" } (atOnce b%"$[0] = 1\n$[1] = 2\n") ⟨b%"[1, 2]\n", 0, false⟩ ∧ ¬ b%"[1]\n" <+: b%"[1, 2]\n" := by
  refine ⟨?_, ?_, by decide⟩
  · exact .run (source := .jpv (broken b%"$[0] = 1\n")) (ts := []) (toks := streamToks [.arr [num b%"1"] false]) rfl (by decide +kernel) .nil (by decide +kernel)
  · exact .run (source := .jpv (atOnce b%"$[0] = 1\n$[1] = 2\n")) (ts := []) (toks := streamToks [.arr [num b%"1", num b%"2"] false]) rfl
      (by decide +kernel) .nil (by decide +kernel)

/-- CSV input that ends in the middle of a line cannot be told from complete input. -/
theorem C78_csv_midline : Main noEnv { inFormat := b%"csv" } (atOnce b%"1") ⟨b%"[1]\n", 0, false⟩ ∧
    Main noEnv { inFormat := b%"csv" } (atOnce b%"12") ⟨b%"[12]\n", 0, false⟩ ∧ ¬ b%"[1]\n" <+: b%"[12]\n" := by
  refine ⟨?_, ?_, by decide⟩
  · exact .run (source := .csv ⟨false, false⟩ [] (atOnce b%"1")) (ts := []) (toks := streamToks [.arr [num b%"1"] false]) rfl (by decide +kernel) .nil
      (by decide +kernel)
  · exact .run (source := .csv ⟨false, false⟩ [] (atOnce b%"12")) (ts := []) (toks := streamToks [.arr [num b%"12"] false]) rfl (by decide +kernel) .nil
      (by decide +kernel)

/-- Non-vacuity: CSV input ends in a quoted field, at the end of a line; the record before it is sent, and an error is reported. -/
example : BreaksOff { inFormat := b%"csv" } (atOnce b%"1\n\"2\n") b%"3\"\n" ∧
    Main noEnv { inFormat := b%"csv" } (atOnce b%"1\n\"2\n") ⟨b%"[1]\n", 0, true⟩ := by
  refine ⟨.inr (.inr ⟨by decide, .inr rfl⟩), ?_⟩
  exact .run (source := .csv ⟨false, false⟩ [] (atOnce b%"1\n\"2\n")) (ts := []) (toks := streamToks [.arr [num b%"1"] false]) rfl (by decide +kernel) .nil
    (by decide +kernel)

/-- Non-vacuity: reading fails after `[1,[2],` and the output breaks off. -/
example : Plainly [.depth 1] ∧ parseArgs [b%"depth=1"] = some [.depth 1] ∧
    Main noEnv { inFormat := b%"json", args := [b%"depth=1"] } (broken b%"[1,[2],") ⟨b%"[\n  1,\n  [...]", 0, true⟩ ∧
    Main noEnv { inFormat := b%"json", args := [b%"depth=1"] } (atOnce b%"[1,[2],3]") ⟨b%"[\n  1,\n  [...],\n  3\n]\n", 0, false⟩ := by
  refine ⟨trivial, rfl, ?_, ?_⟩
  · exact .panic (source := .json (broken b%"[1,[2],")) (ts := [.depth 1]) (bad := true)
      (toks := [.startArr, .scalar ⟨b%"1", .num, false, false, false⟩, .startArr, .scalar ⟨b%"2", .num, false, false, false⟩, .endArr])
      (out := [.startArr, .scalar ⟨b%"1", .num, false, false, false⟩, .startArr, .elision, .endArr]) rfl (by decide +kernel)
      (.cons (by show maxDepthFilter 1 _ = _; decide +kernel) .nil) (by decide +kernel)
  · exact .run (source := .json (atOnce b%"[1,[2],3]")) (ts := [.depth 1])
      (toks := streamToks [.arr [num b%"1", .arr [num b%"2"] false, num b%"3"] false])
      (out := streamToks [.arr [num b%"1", .arr [] true, num b%"3"] false]) rfl (by decide +kernel) (.cons (by show maxDepthFilter 1 _ = _; decide +kernel) .nil) (by decide +kernel)

/-- Non-vacuity: JSON input that ends too early. -/
example : Plainly [] ∧ BreaksOff { inFormat := b%"json", width := 0 } (atOnce b%"{\"a\": 12") b%", \"b\": 3}" ∧
    Main noEnv { inFormat := b%"json", width := 0 } (atOnce b%"{\"a\": 12") ⟨b%"{\n  \"a\": 12", 0, true⟩ ∧
    Main noEnv { inFormat := b%"json", width := 0 } (atOnce b%"{\"a\": 12, \"b\": 3}") ⟨b%"{\n  \"a\": 12,\n  \"b\": 3\n}\n", 0, false⟩ := by
  refine ⟨trivial, .inr (.inl ⟨by decide, _, _, rfl, by rw [Rfc8259.NumCont, Rfc8259.Digit]; decide⟩), ?_, ?_⟩
  · exact .panic (source := .json (atOnce b%"{\"a\": 12")) (ts := []) (bad := true)
      (toks := [.startObj, .scalar ⟨b%"\"a\"", .str, true, true, true⟩, .scalar ⟨b%"12", .num, false, false, false⟩]) rfl (by decide +kernel) .nil
      (by decide +kernel)
  · exact .run (source := .json (atOnce b%"{\"a\": 12, \"b\": 3}")) (ts := []) (bad := false)
      (toks := [.startObj, .scalar ⟨b%"\"a\"", .str, true, true, true⟩, .scalar ⟨b%"12", .num, false, false, false⟩,
        .scalar ⟨b%"\"b\"", .str, true, true, true⟩, .scalar ⟨b%"3", .num, false, false, false⟩, .endObj]) rfl (by decide +kernel) .nil (by decide +kernel)

end Cmd

/-- Non-vacuity: the encoder panics on tokens that break off, and has written something. -/
example : Enc.encode ⟨none, 0, 0⟩ ⟨2, false⟩ Enc.goodSink [.startArr, .scalar ⟨b%"1", .num, false, false, false⟩] = (b%"[\n  1", .stop .panic) := by
  decide +kernel

end Verif
