import Verif.Props.C79
import Verif.Utf8Flow

/-!
# C80: UTF-8 in, UTF-8 out
-/

set_option linter.unusedSimpArgs false
set_option linter.unusedVariables false

namespace Verif
open Rfc8259

/-- What the JSON encoder writes is UTF-8 if the scalars and the codes of colours are, for all tokens and options. -/
theorem C80_json_encoder (cfg : EncCfg) (pc : PrinterCfg) (ts : List Token) (hc : ∀ b, Colour cfg.color b → Utf8 b) (h : ∀ s, .scalar s ∈ ts → Utf8 s.bytes) :
    Utf8 (Enc.encode cfg pc Enc.goodSink ts).1 := by
  obtain ⟨ps, e, hp⟩ := C79_json_encoder cfg pc ts
  rw [e]
  refine utf8_flatten fun b hb => ?_
  rcases hp b hb with hl | hl | ⟨s, hs, rfl⟩
  · refine utf8_ascii ?_
    clear hb
    revert b
    decide
  · exact hc b hl
  · exact h s hs

/-- The same for the JPV encoder, which takes the quotes from keys. -/
theorem C80_jpv_encoder (cfg : JEncCfg) (pc : PrinterCfg) (ts : List Token) (hc : ∀ b, Colour cfg.color b → Utf8 b)
    (h : ∀ s, .scalar s ∈ ts → Utf8 s.bytes ∧ (s.alnum = true → Utf8 (s.bytes.drop 1).dropLast)) : Utf8 (JEnc.encode cfg pc Enc.goodSink ts).1 := by
  obtain ⟨ps, e, hp⟩ := C79_jpv_encoder cfg pc ts
  rw [e]
  refine utf8_flatten fun b hb => ?_
  rcases hp b hb with hl | hl | ⟨s, hs, rfl⟩ | ⟨n, rfl⟩ | ⟨s, hs, ha, rfl⟩
  · refine utf8_ascii ?_
    clear hb
    revert b
    decide
  · exact hc b hl
  · exact (h s hs).1
  · exact utf8_ascii fun x hx => UInt8.lt_of_le_of_lt (JPath.itoa_digits n x hx).2 (by decide)
  · exact (h s hs).2 ha

namespace Cmd

private theorem chooseFormat_same {f g : Bytes} {r r' : Reader} (h : chooseFormat f r = some (g, r')) (hf : Fair r.sched) : r'.rest = r.rest ∧ Fair r'.sched := by
  unfold chooseFormat at h
  split at h
  · have hs : (r.read 40).1 ++ (r.read 40).2.2.rest = r.rest ∧ (r.read 40).2.2.sched = r.sched := by
      unfold Reader.read
      cases e : r.rest with
      | nil => exact ⟨by simp [e], rfl⟩
      | cons b t => exact ⟨by simp, rfl⟩
    generalize r.read 40 = y at h hs
    obtain ⟨start, e, r1⟩ := y
    cases e with
    | some e => cases h
    | none =>
      simp only at h hs
      split at h
      · cases h
      · cases h
        exact ⟨hs.1, fair_multi (hs.2 ▸ hf)⟩
  · cases h; exact ⟨rfl, hf⟩

private theorem splitCommas_utf8 : ∀ {s : Bytes}, Utf8 s → ∀ f ∈ splitCommas s, Utf8 f := by
  have key : ∀ (s t : Bytes), Utf8 (t ++ s) → ∀ f fs, splitCommas s = f :: fs → Utf8 (t ++ f) ∧ ∀ g ∈ fs, Utf8 g := by
    intro s
    induction s with
    | nil =>
      intro t h f fs e
      cases e
      exact ⟨h, fun g hg => by cases hg⟩
    | cons b s ih =>
      intro t h f fs e
      rw [splitCommas] at e
      split at e
      · cases e
      · rename_i f' fs' he
        split at e
        · rename_i hb
          subst hb
          cases e
          have h2 := utf8_split (by decide) h
          have := ih [] h2.2 f' fs' he
          refine ⟨by simpa using h2.1, fun g hg => ?_⟩
          rcases List.mem_cons.1 hg with rfl | hg
          · exact this.1
          · exact this.2 g hg
        · cases e
          have := ih (t ++ [b]) (by simpa using h) f' _ he
          exact ⟨by simpa using this.1, this.2⟩
  intro s h f hf
  cases e : splitCommas s with
  | nil => rw [e] at hf; cases hf
  | cons g gs =>
    have := key s [] h g gs e
    rw [e] at hf
    rcases List.mem_cons.1 hf with rfl | hf
    · exact this.1
    · exact this.2 f hf

private theorem outcome_one {σ : Type} {x : List Token × Out σ Unit} {toks : List Token} {bad : Bool} (h : outcome x = some (toks, bad)) : toks = x.1 := by
  obtain ⟨ts, y⟩ := x
  cases y <;> cases h <;> rfl

/-- If the input, the names given for the fields and the codes of colours are valid UTF-8, then so is the output: in all formats, with all options and
arguments, for input that is valid JSON or not, however it arrives, and also if the program panics or reports an error. -/
theorem C80_program {env : Env} {o : Options} {r : Reader} {x : Result} (hf : Fair r.sched) (hu : Utf8 r.rest) (hh : Utf8 o.csvHeader)
    (hc : ∀ b, Colour o.color b → Utf8 b) (h : Main env o r x) : Utf8 x.stdout := by
  rcases main_parts h with ⟨h, _⟩ | ⟨src, l, k, toks, bad, out, p1, p2, p3, p4⟩
  · rw [h]; exact utf8_nil
  · simp only [prepare, Option.bind_eq_some_iff, Option.map_eq_some_iff, Prod.exists, Prod.mk.injEq] at p1
    obtain ⟨g, r', q1, s', q2, l', q3, sink, q4, rfl, rfl, rfl⟩ := p1
    have hr := chooseFormat_same q1 hf
    have hu' : Utf8 r'.rest := by rw [hr.1]; exact hu
    have fine : FineToks toks := by
      unfold chooseSource at q2
      split at q2
      · cases q2
      · split at q2
        · cases q2
          rw [outcome_one p2]
          exact json_fine hu'
        · split at q2
          · cases q2
            rw [outcome_one p2]
            exact jpv_fine hu'
          · have csv : ∀ {cfg names}, (∀ f ∈ names, Utf8 f) → (Source.csv cfg names r').tokens env = some (toks, bad) → FineToks toks := by
              intro cfg names hn h
              simp only [Source.tokens, Option.map_eq_some_iff, Prod.exists, Prod.mk.injEq] at h
              obtain ⟨ts, e, h, rfl, _⟩ := h
              exact Csv.csv_fine hn hr.2 hu' h
            split at q2
            · cases q2
              split at p2
              · exact csv (fun f hf => splitCommas_utf8 hh f hf) p2
              · exact csv (fun f hf => by cases hf) p2
            · split at q2
              · cases q2
                exact csv (fun f hf => by cases hf) p2
              · cases q2
    have hin : FineToks out := fun s hs => fine s ((C79_chain p3).1 s hs)
    rw [← p4]
    unfold chooseSink at q4
    simp only at q4
    split at q4
    · cases q4
      exact C80_json_encoder ⟨o.color, o.width, 2⟩ _ out hc fun s hs => (hin s hs).utf8
    · split at q4
      · cases q4
        exact C80_jpv_encoder ⟨o.color, o.quoteKeys⟩ _ out hc fun s hs => ⟨(hin s hs).utf8, fun _ => (hin s hs).inner⟩
      · cases q4

/-! ## Non-vacuity -/
section NonVacuity

private def accent : Bytes := [0x22, 0xC3, 0xA9, 0x22]

/-- `"é"` is UTF-8, and it is written as it is; half of it is not UTF-8. -/
example : Utf8 accent ∧ ¬ Utf8 [0x22, 0xC3, 0x22] ∧ Main noEnv { inFormat := b%"json" } (atOnce accent) ⟨accent ++ b%"\n", 0, false⟩ := by
  refine ⟨⟨[0x22, 0xE9, 0x22], by unfold Rfc8259.UScalar; decide, by decide⟩, ?_,
    .run (source := .json (atOnce accent)) (ts := []) (toks := [.scalar ⟨accent, .str, false, false, true⟩]) rfl (by decide +kernel) .nil (by decide +kernel)⟩
  intro h
  have h := (utf8_split (x := [0xC3]) (y := []) (by decide) (utf8_tail (by decide) h)).1
  obtain ⟨cs, hc, e⟩ := h
  match cs with
  | [] => cases e
  | n :: cs =>
    have hn := hc n (List.mem_cons_self ..)
    rw [List.flatMap_cons] at e
    by_cases h : n < 0x80
    · rw [utf8_mem_ascii h] at e
      have e1 := congrArg UInt8.toNat (List.cons.inj e).1
      rw [UInt8.toNat_ofNat] at e1
      simp at e1
      omega
    · have hl := congrArg List.length e
      rw [List.length_append] at hl
      have : 2 ≤ (utf8 n).length := by unfold utf8; rw [if_neg h]; split <;> (try split) <;> simp
      simp at hl
      omega

/-- A query runs on such input; the theorem speaks of its result. -/
example (env : Env) : ∀ x, Main env { args := [b%"$..*"], outFormat := b%"jpv" } (atOnce (b%"[" ++ accent ++ b%"]")) x → Utf8 x.stdout := fun _ h =>
  C80_program (fair_atOnce _) ⟨[0x5B, 0x22, 0xE9, 0x22, 0x5D], by unfold Rfc8259.UScalar; decide, by decide⟩ utf8_nil
    (fun _ hb => by obtain ⟨_, h, _⟩ := hb; cases h) h

end NonVacuity
end Cmd
end Verif
