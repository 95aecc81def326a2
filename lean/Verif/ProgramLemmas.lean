import Verif.Program
import Verif.ScannerLemmas
import Verif.Props.C01
import Verif.Props.C30
import Verif.Props.C31
import Verif.FormatsLemmas
import Verif.Props.C49

/-!
# Lemmas about the program
-/

set_option linter.unusedSimpArgs false
set_option linter.unusedVariables false

namespace Verif.Cmd
open Rfc8259 EncSpec JPath Rfc9535

theorem Transform.Does.unique {env : Env} {strict : Bool} {t : Transform} {ts out out' : List Token} (h : t.Does env strict ts out)
    (h' : t.Does env strict ts out') : out = out' := by
  cases t with
  | split =>
    have : some out = some out' := Eq.trans (Eq.symm h) h'
    exact Option.some.inj this
  | join => exact Eq.trans (Eq.symm h) h'
  | trace => exact Eq.trans (Eq.symm h) h'
  | depth m => exact Eq.trans (Eq.symm h) h'
  | query q => exact (Outcome.unique (lib := env.lib) h h').1

theorem DoAll.unique {env : Env} {strict : Bool} {l : List Transform} {ts out out' : List Token} (h : DoAll env strict l ts out)
    (h' : DoAll env strict l ts out') : out = out' := by
  induction h with
  | nil => cases h'; rfl
  | cons h1 _ ih =>
    cases h' with
    | cons h1' h2' =>
      cases h1.unique h1'
      exact ih h2'

/-- The program has at most one result. -/
theorem Main.unique {env : Env} {o : Options} {r : Reader} {x y : Result} (h : Main env o r x) (h' : Main env o r y) : x = y := by
  cases h with
  | fatal e =>
    cases h' with
    | fatal _ => rfl
    | run e' => rw [e] at e'; cases e'
    | panic e' => rw [e] at e'; cases e'
  | run e h1 h2 h3 =>
    cases h' with
    | fatal e' => rw [e] at e'; cases e'
    | run e' h1' h2' h3' =>
      rw [e] at e'
      cases e'
      rw [h1] at h1'
      cases h1'
      cases h2.unique h2'
      rw [h3] at h3'
      cases h3'
      rfl
    | panic e' h1' h2' h3' =>
      rw [e] at e'
      cases e'
      rw [h1] at h1'
      cases h1'
      cases h2.unique h2'
      rw [h3] at h3'
      cases h3'
  | panic e h1 h2 h3 =>
    cases h' with
    | fatal e' => rw [e] at e'; cases e'
    | run e' h1' h2' h3' =>
      rw [e] at e'
      cases e'
      rw [h1] at h1'
      cases h1'
      cases h2.unique h2'
      rw [h3] at h3'
      cases h3'
    | panic e' h1' h2' h3' =>
      rw [e] at e'
      cases e'
      rw [h1] at h1'
      cases h1'
      cases h2.unique h2'
      rw [h3] at h3'
      cases h3'
      rfl

/-! ## Values that the decoder sends -/

/-- The value is one that the JSON decoder sends. -/
structure Sent (S : Bytes → Prop) (v : JVal) : Prop where
  spelled : Spelled S v
  hinted : Hinted S v
  complete : Complete v

theorem Sent.member {S : Bytes → Prop} {v : JVal} (h : Sent S v) : ∀ m ∈ v.members, Sent S m.2 := by
  obtain ⟨h1, h2, h3⟩ := h
  cases v with
  | scalar s => intro m hm; simp [JVal.members] at hm
  | arr l e =>
    intro m hm
    cases h1 with
    | arr h1 => cases h2 with
      | arr h2 => cases h3 with
        | arr h3 =>
          simp only [JVal.members, List.mem_map] at hm
          obtain ⟨w, hw, rfl⟩ := hm
          exact ⟨h1 w hw, h2 w hw, h3 w hw⟩
  | obj l e =>
    intro m hm
    cases h1 with
    | obj _ h1 => cases h2 with
      | obj _ h2 => cases h3 with
        | obj h3 =>
          simp only [JVal.members, List.mem_map] at hm
          obtain ⟨w, hw, rfl⟩ := hm
          exact ⟨h1 w hw, h2 w hw, h3 w hw⟩

theorem Sent.desc {S : Bytes → Prop} {v w : JVal} (h : Sent S v) (hw : w ∈ descendants v) : Sent S w :=
  desc_ind (P := Sent S) (fun _ h => h.member) _ v (Nat.le_refl _) h w hw

theorem Sent.eval {S : Bytes → Prop} {re : Sem} {q : Query} {v w : JVal} (h : Sent S v) (hw : w ∈ Rfc9535.eval re q v) : Sent S w :=
  h.desc (nodes_desc _ _ hw)

theorem Sent.parts {S : Bytes → Prop} {v w : JVal} (h : Sent S v) (hw : w ∈ v.parts) : Sent S w := by
  cases v with
  | arr l e =>
    have hw : w ∈ l := hw
    exact h.member (none, w) (by simpa [JVal.members] using hw)
  | scalar s => simp [JVal.parts] at hw; exact hw ▸ h
  | obj l e => simp [JVal.parts] at hw; exact hw ▸ h

theorem sent_join {S : Bytes → Prop} {vs : List JVal} (h : ∀ v ∈ vs, Sent S v) : Sent S (.arr vs false) :=
  ⟨.arr fun v hv => (h v hv).1, .arr fun v hv => (h v hv).2, .arr fun v hv => (h v hv).3⟩

theorem sent_stream {S : Bytes → Prop} {vs : List JVal} {b : Bytes} (h : SepStream S vs b) : ∀ v ∈ vs, Sent S v := by
  induction h with
  | nil => simp
  | cons _ h _ _ ih =>
    intro v hv
    rcases List.mem_cons.1 hv with rfl | hv
    · exact ⟨(text_ok h).1, (text_ok h).2.1, (text_ok h).2.2⟩
    · exact ih v hv

/-! ## The input -/

theorem fair_multi {start : Bytes} {r : Reader} (hf : Fair r.sched) : Fair (multiReader start r).sched := by
  intro i
  by_cases hs : start = []
  · obtain ⟨j, h1, h2⟩ := hf (i + r.idx)
    refine ⟨j, h1, ?_⟩
    simp only [multiReader, hs, if_true]
    rw [show i + j + r.idx = i + r.idx + j by omega]
    exact h2
  · cases i with
    | zero => exact ⟨0, by omega, by simp [multiReader, hs, List.length_pos_iff]⟩
    | succ i =>
      obtain ⟨j, h1, h2⟩ := hf (i + r.idx)
      refine ⟨j, h1, ?_⟩
      simp only [multiReader, hs, if_false, show i + 1 + j ≠ 0 by omega]
      rw [show i + 1 + j - 1 + r.idx = i + r.idx + j by omega]
      exact h2

/-- The input format is JSON by an option; or it is guessed from the first byte, which is delivered by the first read without an error. -/
def JsonInput (o : Options) (r : Reader) : Prop :=
  o.inFormat = b%"json" ∨ o.inFormat = b%"auto" ∧ (∃ b t, r.rest = b :: t ∧ (b = c%'{' ∨ b = c%'[')) ∧ 0 < (r.sched r.idx).1 ∧ (r.sched r.idx).2 = false

theorem chooseFormat_json {o : Options} {r : Reader} (h : JsonInput o r) (hf : Fair r.sched) : ∃ r', chooseFormat o.inFormat r = some (b%"json", r') ∧
    r'.rest = r.rest ∧ r'.fin = r.fin ∧ Fair r'.sched := by
  rcases h with h | ⟨h, ⟨b, t, h1, h2⟩, h3, h4⟩
  · refine ⟨r, ?_, rfl, rfl, hf⟩
    simp only [chooseFormat, h]
    rw [if_neg (by decide)]
  · have hk : ∃ k, min (r.sched r.idx).1 40 = k + 1 := ⟨min (r.sched r.idx).1 40 - 1, by omega⟩
    obtain ⟨k, hk⟩ := hk
    have hg : guessFormat (b :: t.take k) = b%"json" := (C49_json_exactly _).2 ⟨t.take k, by rcases h2 with rfl | rfl <;> simp⟩
    refine ⟨multiReader (b :: t.take k) { r with idx := r.idx + 1, rest := t.drop k }, ?_, ?_, rfl, ?_⟩
    · simp only [chooseFormat, h, if_true, Reader.read, h1, hk, h4, Bool.and_false, List.take_succ_cons, List.drop_succ_cons, Bool.false_eq_true, if_false, hg]
      rw [if_neg (by decide)]
    · simp [multiReader, h1]
    · exact fair_multi hf

theorem json_tokens {env : Env} {S : Bytes → Prop} (hS : ∀ c, S c → LaxChars c) {r : Reader} (hf : Fair r.sched) (he : r.fin = .eof) {vs : List JVal}
    (h : SepStream S vs r.rest) : (Source.json r).tokens env = some (streamToks vs, false) := by
  simp only [Source.tokens]
  rw [decodeFrom_fair r _ (by decide) hf, he, decode_complete (h.mono hS)]
  rfl

/-- The printer. -/
def Options.printer (o : Options) : PrinterCfg := ⟨if o.compact then -1 else o.indent, o.terminal⟩

theorem chooseSink_json {o : Options} (h : o.outFormat = b%"json") : chooseSink o = some (Enc.encode ⟨o.color, o.width, 2⟩ o.printer Enc.goodSink) := by
  simp [chooseSink, h, Options.printer]

/-- The output is JSON. -/
theorem json_output {S : Bytes → Prop} {w m : Int} {pc : PrinterCfg} {vs : List JVal} (h : ∀ v ∈ vs, Sent S v) :
    ∃ bytes, Enc.encode ⟨none, w, m⟩ pc Enc.goodSink (streamToks vs) = (bytes, .ok ()) ∧ SepStream S vs bytes := by
  rw [Enc.encode_good]
  refine ⟨_, rfl, ?_⟩
  have := Enc.layoutAll_stream pc (cfg := ⟨none, w, m⟩) rfl vs (fun v hv => (h v hv).1) (fun v hv => (h v hv).3) [] Enc.ws_nil
  have e : vs.map (mapScalars Enc.canon) = vs := by
    conv => rhs; rw [← List.map_id vs]
    exact List.map_congr_left fun v hv => Enc.hinted_canon (h v hv).2
  rw [e] at this
  simpa using this

/-! ## Arguments -/

theorem parse_query {s : Bytes} {q : Query} (h : ∃ t, s = b%"$" ++ t) (h1 : parseQuery s = some q) (h2 : (compileQuery q).isSome = true) :
    parseTransformer s = some (.query q) := by
  obtain ⟨t, rfl⟩ := h
  unfold parseTransformer
  rw [if_neg (by simp), if_neg (by simp), if_neg (by simp), if_neg (by simp), if_neg (by simp), if_neg (by simp), if_pos (by simp), h1]
  simp [h2]

/-! ## Runs -/

theorem prepare_json {o : Options} {r : Reader} (hi : JsonInput o r) (hf : Fair r.sched) {ts : List Transform} (ha : parseArgs o.args = some ts)
    (ho : o.outFormat = b%"json") : ∃ r', r'.rest = r.rest ∧ r'.fin = r.fin ∧ Fair r'.sched ∧
      prepare o r = some (.json r', ts, Enc.encode ⟨o.color, o.width, 2⟩ o.printer Enc.goodSink) := by
  obtain ⟨r', h1, h2, h3, h4⟩ := chooseFormat_json hi hf
  refine ⟨r', h2, h3, h4, ?_⟩
  simp only [prepare, h1, Option.bind_some, chooseSource]
  rw [if_neg fun h => absurd h.2 (by decide), if_pos (by decide)]
  simp only [Option.bind_some, ha, chooseSink_json ho, Option.map_some]

theorem tokens_fair {env : Env} {r : Reader} (hf : Fair r.sched) : (Source.json r).tokens env = outcome (outOf r.rest r.fin (Pure.decode r.fin r.rest)) := by
  simp only [Source.tokens]
  rw [decodeFrom_fair r _ (by decide) hf]

theorem main_json {env : Env} {o : Options} {r : Reader} {x : Bytes × COut Unit} (hi : JsonInput o r) (hf : Fair r.sched) {ts : List Transform}
    (ha : parseArgs o.args = some ts) (ho : o.outFormat = b%"json") {toks out : List Token} {bad : Bool}
    (hv : outcome (outOf r.rest r.fin (Pure.decode r.fin r.rest)) = some (toks, bad)) (hd : DoAll env o.strict ts toks out)
    (hk : Enc.encode ⟨o.color, o.width, 2⟩ o.printer Enc.goodSink out = x) :
    (x.2 = .ok () → Main env o r ⟨x.1, 0, bad⟩) ∧ (x.2 = .stop .panic → Main env o r ⟨x.1, 0, true⟩) := by
  obtain ⟨r', h2, h3, h4, h1⟩ := prepare_json hi hf ha ho
  have ht : (Source.json r').tokens env = some (toks, bad) := by rw [tokens_fair h4, h2, h3, hv]
  obtain ⟨b, e⟩ := x
  constructor
  · rintro rfl
    exact .run h1 ht hd hk
  · rintro rfl
    exact .panic h1 ht hd hk

/-- For witnesses that do not use the libraries. -/
def noEnv : Env := ⟨noLib⟩

/-- A number. -/
def num (b : Bytes) : JVal := .scalar ⟨b, .num, false, false, false⟩

/-- A reader that delivers all bytes at once. -/
def atOnce (s : Bytes) : Reader := ⟨s, .eof, fun _ => (8192, false), 0⟩

theorem fair_atOnce (s : Bytes) : Fair (atOnce s).sched := fun _ => ⟨0, by omega, by simp [atOnce]⟩

theorem atOnce_json {o : Options} (h : o.inFormat = b%"auto") {b : Byte} (s : Bytes) (hb : b = c%'{' ∨ b = c%'[') : JsonInput o (atOnce (b :: s)) :=
  .inr ⟨h, ⟨b, s, rfl, hb⟩, by simp [atOnce], rfl⟩

end Verif.Cmd
