import Verif.JpvPrefix
import Verif.CsvPrefix

/-!
# C73: failures of the reader with JPV and CSV input
-/

namespace Verif
open Rfc8259

/-- Specification: a token that closes a collection. -/
def IsClosing (t : Token) : Prop := t = .endObj ∨ t = .endArr

/-- JPV: if the reader fails after delivering `D`, the tokens emitted are a prefix of the tokens emitted for every input that
extends `D`, however that input ends, followed by tokens that close collections. -/
theorem C73_jpv_truncates (r₁ r₂ : Reader) (size₁ size₂ : Nat) (h₁ : 2 ≤ size₁) (h₂ : 2 ≤ size₂)
    (hf₁ : Fair r₁.sched) (hf₂ : Fair r₂.sched) (he : r₁.fin ≠ .eof) (E : Bytes) (hr : r₂.rest = r₁.rest ++ E) :
    ∃ pre cl, (Jpv.decodeFrom r₁ size₁).1 = pre ++ cl ∧ (∀ t ∈ cl, IsClosing t) ∧ pre <+: (Jpv.decodeFrom r₂ size₂).1 := by
  rcases jpv_prefix r₁ r₂ size₁ size₂ h₁ h₂ hf₂ r₁.rest E r₁.fin he (.inl ⟨rfl, rfl⟩) hr (jpvDecodeFrom_fair r₁ size₁ h₁ hf₁) with
    ⟨pre, cl, more, h1, h2, h3, _⟩ | h
  · exact ⟨pre, cl, h1, h3, more, h2.symm⟩
  · exact ⟨(Jpv.decodeFrom r₁ size₁).1, [], by simp, by simp, by rw [h]; exact List.prefix_refl _⟩

/-- The same for a reader that stops making progress. -/
theorem C73_jpv_stall (r₁ r₂ : Reader) (size₁ size₂ : Nat) (h₁ : 2 ≤ size₁) (h₂ : 2 ≤ size₂)
    (hf₂ : Fair r₂.sched) (hr : r₂.rest = r₁.rest) (he : r₂.fin = r₁.fin) :
    ∃ pre cl, (Jpv.decodeFrom r₁ size₁).1 = pre ++ cl ∧ (∀ t ∈ cl, IsClosing t) ∧ pre <+: (Jpv.decodeFrom r₂ size₂).1 := by
  obtain ⟨D, fin, hd, hx⟩ := jpvDecodeFrom_eq r₁ size₁ h₁
  have hd' := hd
  rcases hd with ⟨rfl, rfl⟩ | ⟨_, rfl, x, _, h⟩
  · refine ⟨(Jpv.decodeFrom r₁ size₁).1, [], by simp, by simp, ?_⟩
    rw [hx, jpvDecodeFrom_fair r₂ size₂ h₂ hf₂, hr, he]
    exact List.prefix_refl _
  · rcases jpv_prefix r₁ r₂ size₁ size₂ h₁ h₂ hf₂ D x .noProgress (by simp) hd' (hr.trans h) hx with ⟨pre, cl, more, h1, h2, h3, _⟩ | h
    · exact ⟨pre, cl, h1, h3, more, h2.symm⟩
    · exact ⟨(Jpv.decodeFrom r₁ size₁).1, [], by simp, by simp, by rw [h]; exact List.prefix_refl _⟩

/-- JPV: the error of the reader is returned, unless the bytes delivered contain a syntax error or inconsistent paths or make the
decoder panic; the result is then the same for every extension of these bytes.

Missing: inputs with the byte 0xFF (`C73_violated_jpv`). -/
theorem C73_jpv_reported_partial (r₁ : Reader) (size₁ : Nat) (h₁ : 2 ≤ size₁) (hf₁ : Fair r₁.sched)
    (he : r₁.fin ≠ .eof) (hff : 0xFF ∉ r₁.rest) :
    (Jpv.decodeFrom r₁ size₁).2 = .fail (.io r₁.fin) ∨
    (((∃ p m g, (Jpv.decodeFrom r₁ size₁).2 = .fail (.syn p m g)) ∨ (∃ m, (Jpv.decodeFrom r₁ size₁).2 = .fail (.plain m)) ∨
        (Jpv.decodeFrom r₁ size₁).2 = .panic) ∧
      ∀ (r₂ : Reader) (size₂ : Nat) (E : Bytes), 2 ≤ size₂ → Fair r₂.sched → r₂.rest = r₁.rest ++ E →
        Jpv.decodeFrom r₂ size₂ = Jpv.decodeFrom r₁ size₁) := by
  by_cases hio : (Jpv.decodeFrom r₁ size₁).2 = .fail (.io r₁.fin)
  · exact .inl hio
  · refine .inr ⟨?_, fun r₂ size₂ E h₂ hf₂ hr => ?_⟩
    · have hx := jpvDecodeFrom_fair r₁ size₁ h₁ hf₁
      obtain ⟨e, hk, hk'⟩ := kind_produce he (Json.fuelFor r₁.rest.length) (Json.fuelFor r₁.rest.length) [] r₁.rest
        (by unfold Json.fuelFor; omega) (by unfold Json.fuelFor; omega) hff
      rw [hx] at hio ⊢
      generalize JpvPure.produce r₁.fin (Json.fuelFor r₁.rest.length) (Json.fuelFor r₁.rest.length) [] r₁.rest = x at hk hio
      obtain ⟨ts, x⟩ := x
      simp only at hk
      subst hk
      match e, hk' with
      | .panic, _ => exact .inr (.inr rfl)
      | .plain m, _ => exact .inr (.inl ⟨m, rfl⟩)
      | .perr (.io x), h => cases h; exact absurd rfl hio
      | .perr (.syn m []), _ => simp [outOfJ, toErr, he] at hio
      | .perr (.syn m (b :: r)), _ => exact .inl ⟨_, _, _, rfl⟩
    · rcases jpv_prefix r₁ r₂ size₁ size₂ h₁ h₂ hf₂ r₁.rest E r₁.fin he (.inl ⟨rfl, rfl⟩) hr (jpvDecodeFrom_fair r₁ size₁ h₁ hf₁) with
        ⟨_, _, _, _, _, _, h⟩ | h
      · exact absurd h hio
      · exact h.symm

/-- The property fails for JPV inputs with the byte 0xFF: the failure of the reader goes unnoticed. -/
theorem C73_violated_jpv (r : Reader) (size : Nat) (hs : 2 ≤ size) (hf : Fair r.sched)
    (hr : r.rest = b%"$ = 1\n" ++ [0xFF]) (he : r.fin = .other 0) :
    (Jpv.decodeFrom r size).2 = .ok () () := by
  rw [jpvDecodeFrom_fair r size hs hf, hr, he]
  rfl

/-- CSV: if the reader fails after delivering `D`, the decoder returns an error, and the tokens emitted are a prefix of the tokens
emitted for every input that extends `D`, however that input ends. -/
theorem C73_csv_truncates (cfg : Csv.Cfg) (preset : List Bytes) (r₁ r₂ : Reader) (hf₁ : Fair r₁.sched) (hf₂ : Fair r₂.sched)
    (he : r₁.fin ≠ .eof) (E : Bytes) (hr : r₂.rest = r₁.rest ++ E) :
    ∃ ts₁ e₁ ts₂ e₂, Csv.produce cfg preset (Csv.readInput r₁) = some (ts₁, some e₁) ∧
      Csv.produce cfg preset (Csv.readInput r₂) = some (ts₂, e₂) ∧ ts₁ <+: ts₂ := by
  obtain ⟨h1, h2⟩ := Csv.readText_cut he r₂.fin r₁.rest E
  rw [Csv.readInput_eq hf₁, Csv.readInput_eq hf₂, hr]
  generalize Csv.readText r₁.fin r₁.rest = x at h1 h2
  generalize Csv.readText r₂.fin (r₁.rest ++ E) = y at h2
  have hx := Csv.produce_eq cfg preset x
  rw [if_neg h1] at hx
  refine ⟨_, x.fin, _, _, hx, Csv.produce_eq cfg preset y, ?_⟩
  obtain ⟨more, h2⟩ := h2
  rw [← h2]
  cases cfg.hasHeader with
  | false =>
    simp only [Bool.false_eq_true, if_false]
    rw [List.map_append]
    exact ⟨_, (streamToks_append _ _).symm⟩
  | true =>
    simp only [if_true]
    cases x.records with
    | nil => exact List.nil_prefix
    | cons a rs =>
      simp only [List.cons_append, List.tail_cons, List.head?_cons]
      rw [List.map_append]
      exact ⟨_, (streamToks_append _ _).symm⟩

/-- CSV: the error is that of the reader, or says that the records have different numbers of fields.

Missing: inputs with quotes (`C73_violated_csv`). -/
theorem C73_csv_reported_partial (cfg : Csv.Cfg) (preset : List Bytes) (r : Reader) (hf : Fair r.sched) (he : r.fin ≠ .eof)
    (hq : c%'"' ∉ r.rest) :
    ∃ ts e, Csv.produce cfg preset (Csv.readInput r) = some (ts, some e) ∧ (e = r.fin ∨ e = Csv.errFieldCount) := by
  rw [Csv.readInput_eq hf]
  have h1 := (Csv.readText_cut he r.fin r.rest []).1
  have hx := Csv.produce_eq cfg preset (Csv.readText r.fin r.rest)
  rw [if_neg h1] at hx
  exact ⟨_, _, hx, Csv.readText_plain he hq⟩

/-- The property fails for CSV inputs with quotes: a failure after the carriage return of a line break is reported as an error of
the text, which is well-formed as far as it goes. -/
theorem C73_violated_csv (cfg : Csv.Cfg) (preset : List Bytes) (r : Reader) (hf : Fair r.sched) (hr : r.rest = b%"\"a\"\r") (he : r.fin = .other 0) :
    (∃ ts, Csv.produce cfg preset (Csv.readInput r) = some (ts, some Csv.errQuote)) ∧
    Csv.readInput ({ r with rest := r.rest ++ b%"\n", fin := .eof }) = ⟨[[b%"a"]], .eof⟩ := by
  rw [Csv.readInput_eq hf, Csv.readInput_eq (r := { r with rest := r.rest ++ b%"\n", fin := .eof }) hf, hr, he]
  refine ⟨?_, ?_⟩
  · have hx := Csv.produce_eq cfg preset (Csv.readText (.other 0) b%"\"a\"\r")
    rw [show (Csv.readText (.other 0) b%"\"a\"\r").fin = Csv.errQuote by decide +kernel, if_neg (show Csv.errQuote ≠ .eof by decide)] at hx
    exact ⟨_, hx⟩
  · have : (Csv.readText .eof (b%"\"a\"\r" ++ b%"\n")).records = [[b%"a"]] ∧
        (Csv.readText .eof (b%"\"a\"\r" ++ b%"\n")).fin = .eof := by decide +kernel
    show Csv.readText .eof (b%"\"a\"\r" ++ b%"\n") = _
    generalize Csv.readText .eof (b%"\"a\"\r" ++ b%"\n") = x at this
    obtain ⟨a, b⟩ := x
    simpa using this

/-- Non-vacuity: within a value, in a path, and a syntax error. -/
example (r : Reader) (hf : Fair r.sched) (hr : r.rest = b%"$[0] = [1,") (he : r.fin = .other 3) :
    Jpv.decodeFrom r = ([.startArr, .startArr, .scalar { bytes := b%"1", type := .num }, .endArr], .fail (.io (.other 3))) := by
  rw [jpvDecodeFrom_fair r _ (by decide) hf, hr, he]
  rfl

example (r : Reader) (hf : Fair r.sched) (hr : r.rest = b%"$[0] = 1\n$[1") (he : r.fin = .other 3) :
    Jpv.decodeFrom r = ([.startArr, .scalar { bytes := b%"1", type := .num }, .endArr], .fail (.io (.other 3))) := by
  rw [jpvDecodeFrom_fair r _ (by decide) hf, hr, he]
  rfl

example : Csv.produce ⟨false, false⟩ [] (Csv.readInput { rest := b%"1\n2", fin := .other 3, sched := fun _ => (1, false), idx := 0 }) =
    some ([.startArr, .scalar { bytes := b%"1", type := .num }, .endArr], some (.other 3)) := by decide +kernel

end Verif
