import Verif.Props.C80

/-!
# C81: No control characters in the output
-/

set_option linter.unusedSimpArgs false
set_option linter.unusedVariables false

namespace Verif.Cmd
open Rfc8259

/-- Without colours, a control character of the output is a line feed, or comes from a scalar that the decoder has sent. -/
private theorem stdout_ctrl {env : Env} {o : Options} {r : Reader} {x : Result} (hc : o.color = none) (h : Main env o r x) {y : Byte} (hy : y ∈ x.stdout)
    (hl : y < 0x20) : y = 0x0A ∨ ∃ source ts sink toks bad s, prepare o r = some (source, ts, sink) ∧ source.tokens env = some (toks, bad) ∧
      .scalar s ∈ toks ∧ y ∈ s.bytes := by
  rcases C79_program h with e | ⟨source, ts, sink, toks, bad, p1, p2, ps, e, hp⟩
  · rw [e] at hy; cases hy
  · rw [e, List.mem_flatten] at hy
    obtain ⟨b, hb, hy⟩ := hy
    have hp := hp b hb
    have noCol : ¬ Colour o.color b := by rintro ⟨k, e, _⟩; rw [hc] at e; cases e
    split at hp
    · rcases hp with hp | hp | ⟨s, hs, rfl⟩
      · left
        have key : ∀ b ∈ [b%"", b%"\n", b%" ", b%"...", b%"{", b%"}", b%"[", b%"]", b%",", b%", ", b%": "], ∀ y ∈ b, y < 0x20 → y = 0x0A := by decide
        exact key b hp y hy hl
      · exact absurd hp noCol
      · exact .inr ⟨_, _, _, _, _, s, p1, p2, hs, hy⟩
    · rcases hp with hp | hp | ⟨s, hs, rfl⟩ | ⟨n, rfl⟩ | ⟨s, hs, _, rfl⟩
      · left
        have key : ∀ b ∈ [b%"", b%"\n", b%" ", b%".", b%"[", b%"]", b%"$", b%" = ", b%"...", b%"{}", b%"{...}", b%"[]", b%"[...]"], ∀ y ∈ b,
            y < 0x20 → y = 0x0A := by decide
        exact key b hp y hy hl
      · exact absurd hp noCol
      · exact .inr ⟨_, _, _, _, _, s, p1, p2, hs, hy⟩
      · exact absurd (UInt8.lt_of_lt_of_le hl (UInt8.le_trans (by decide) (JPath.itoa_digits n y hy).1)) (UInt8.lt_irrefl _)
      · exact .inr ⟨_, _, _, _, _, s, p1, p2, hs, List.mem_of_mem_drop (List.dropLast_subset _ hy)⟩

private theorem outcome_eq {σ : Type} {x : List Token × Out σ Unit} {toks : List Token} {bad : Bool} (h : outcome x = some (toks, bad)) : toks = x.1 := by
  obtain ⟨ts, y⟩ := x
  cases y <;> cases h <;> rfl

private theorem infix_rest {r : Reader} {D : Bytes} {fin : RErr} (h : Delivers r D fin) {s : Bytes} (hs : s <:+: D) : s <:+: r.rest := by
  rcases h with ⟨rfl, _⟩ | ⟨_, _, x, _, e⟩
  · exact hs
  · rw [e]; exact hs.trans (List.prefix_append _ _).isInfix

private theorem json_ctrl {r : Reader} {s : Scalar} (hs : .scalar s ∈ (Json.decodeFrom r).1) : s.bytes <:+: r.rest ∧ Pure.Escapes s.bytes := by
  obtain ⟨D, fin, hd, e⟩ := decodeFrom_eq r 8192 (by decide)
  rw [e, outOf_fst] at hs
  have := (Pure.produce_slices fin _ _ D (List.suffix_refl _)).1 s hs
  exact ⟨infix_rest hd this.1, this.2.2⟩

private theorem jpv_ctrl {r : Reader} {s : Scalar} (hs : .scalar s ∈ (Jpv.decodeFrom r).1) :
    s.bytes <:+: r.rest ∧ Pure.Escapes s.bytes ∨ ∀ x ∈ s.bytes, 0x20 ≤ x := by
  obtain ⟨D, fin, hd, e⟩ := jpvDecodeFrom_eq r 8192 (by decide)
  have e' : (Jpv.decodeFrom r).1 = (JpvPure.produce fin (Json.fuelFor r.rest.length) (Json.fuelFor r.rest.length) [] D).1 := by
    rw [e]
    generalize JpvPure.produce fin _ _ [] D = y
    obtain ⟨ts, y⟩ := y
    match y with
    | none => rfl
    | some (.ok _) => rfl
    | some (.error (.perr _)) => rfl
    | some (.error (.plain _)) => rfl
    | some (.error .panic) => rfl
  rw [e'] at hs
  rcases JpvPure.produce_pieces fin _ _ [] D (List.suffix_refl _) s hs with h | ⟨k, _, hk, e⟩
  · exact .inl ⟨infix_rest hd h.1, h.2.2⟩
  · right
    intro x hx
    rw [e] at hx
    rcases List.mem_cons.1 hx with rfl | hx
    · decide
    · rcases List.mem_append.1 hx with hx | hx
      · exact (hk x hx).1
      · cases List.mem_singleton.1 hx; decide

private theorem chooseFormat_rest {f g : Bytes} {r r' : Reader} (h : chooseFormat f r = some (g, r')) : r'.rest = r.rest ∧ (Fair r.sched → Fair r'.sched) := by
  unfold chooseFormat at h
  split at h
  · have hs : (r.read 40).1 ++ (r.read 40).2.2.rest = r.rest ∧ (r.read 40).2.2.sched = r.sched := by
      unfold Reader.read
      cases e : r.rest with
      | nil => exact ⟨by simp [e], rfl⟩
      | cons b t => exact ⟨by simp, rfl⟩
    generalize r.read 40 = y at h hs
    obtain ⟨start, e, r1⟩ := y
    cases e with
    | some e => cases h
    | none =>
      simp only at h hs
      split at h
      · cases h
      · cases h
        exact ⟨hs.1, fun hf => fair_multi (hs.2 ▸ hf)⟩
  · cases h; exact ⟨rfl, id⟩

private theorem splitCommas_mem : ∀ {s : Bytes}, ∀ f ∈ splitCommas s, ∀ y ∈ f, y ∈ s := by
  intro s
  induction s with
  | nil => intro f hf y hy; cases List.mem_singleton.1 hf; cases hy
  | cons b s ih =>
    intro f hf y hy
    rw [splitCommas] at hf
    split at hf
    · cases hf
    · rename_i f' fs' he
      rw [he] at ih
      split at hf
      · rcases List.mem_cons.1 hf with rfl | hf
        · cases hy
        · exact List.mem_cons_of_mem _ (ih f hf y hy)
      · rcases List.mem_cons.1 hf with rfl | hf
        · rcases List.mem_cons.1 hy with rfl | hy
          · exact List.mem_cons_self ..
          · exact List.mem_cons_of_mem _ (ih f' (List.mem_cons_self ..) y hy)
        · exact List.mem_cons_of_mem _ (ih f (List.mem_cons_of_mem _ hf) y hy)

/-- The reader and the names that the decoder gets. -/
private theorem source_of {o : Options} {r : Reader} {source : Source} {ts sink} (h : prepare o r = some (source, ts, sink)) :
    ∃ r', r'.rest = r.rest ∧ (Fair r.sched → Fair r'.sched) ∧
      (source = .json r' ∨ source = .jpv r' ∨ ∃ cfg names, source = .csv cfg names r' ∧ ∀ f ∈ names, ∀ y ∈ f, y ∈ o.csvHeader) := by
  simp only [prepare, Option.bind_eq_some_iff, Option.map_eq_some_iff, Prod.exists, Prod.mk.injEq] at h
  obtain ⟨g, r', q1, s', q2, l', q3, sink, q4, rfl, rfl, rfl⟩ := h
  have hr := chooseFormat_rest q1
  refine ⟨r', hr.1, hr.2, ?_⟩
  unfold chooseSource at q2
  split at q2
  · cases q2
  · split at q2
    · cases q2; exact .inl rfl
    · split at q2
      · cases q2; exact .inr (.inl rfl)
      · split at q2
        · cases q2
          split
          · exact .inr (.inr ⟨_, _, rfl, splitCommas_mem⟩)
          · exact .inr (.inr ⟨_, _, rfl, fun f hf => by cases hf⟩)
        · split at q2
          · cases q2
            exact .inr (.inr ⟨_, _, rfl, fun f hf => by cases hf⟩)
          · cases q2

/-- For input that is not CSV, and without colours, the only control characters in the output are line feeds, and characters that come after a backslash in
the input: all inputs, valid or not, all options, arguments and queries, also if an error is reported or the program panics. -/
theorem C81_json_partial {env : Env} {o : Options} {r : Reader} {x : Result} (hc : o.color = none)
    (hi : ∀ cfg names r' ts sink, prepare o r ≠ some (.csv cfg names r', ts, sink)) (h : Main env o r x) :
    ∀ y ∈ x.stdout, y < 0x20 → y = 0x0A ∨ [0x5C, y] <:+: r.rest := by
  intro y hy hl
  rcases stdout_ctrl hc h hy hl with e | ⟨source, ts, sink, toks, bad, s, p1, p2, hs, hy⟩
  · exact .inl e
  · right
    obtain ⟨r', hr, _, rfl | rfl | ⟨cfg, names, rfl, _⟩⟩ := source_of p1
    · rw [outcome_eq p2] at hs
      have := json_ctrl hs
      rw [← hr]
      exact (this.2 y hy hl).trans this.1
    · rw [outcome_eq p2] at hs
      rw [← hr]
      rcases jpv_ctrl hs with this | this
      · exact (this.2 y hy hl).trans this.1
      · exact absurd (UInt8.lt_of_lt_of_le hl (this y hy)) (UInt8.lt_irrefl _)
    · exact absurd p1 (hi _ _ _ _ _)

private theorem esc_ctrl {f : Bytes} {y : Byte} (hl : y < 0x20) (hy : y ∈ c%'"' :: (f.flatMap Csv.escByte ++ [c%'"'])) : y ∈ f := by
  rcases List.mem_cons.1 hy with rfl | hy
  · exact absurd hl (by decide)
  · rcases List.mem_append.1 hy with hy | hy
    · obtain ⟨b, hb, hy⟩ := List.mem_flatMap.1 hy
      unfold Csv.escByte at hy
      split at hy
      · rcases List.mem_cons.1 hy with rfl | hy
        · exact absurd hl (by decide)
        · cases List.mem_singleton.1 hy; exact hb
      · split at hy
        · rcases List.mem_cons.1 hy with rfl | hy
          · exact absurd hl (by decide)
          · cases List.mem_singleton.1 hy; exact absurd hl (by decide)
        · cases List.mem_singleton.1 hy; exact hb
    · cases List.mem_singleton.1 hy; exact absurd hl (by decide)

private theorem csv_ctrl {cfg : Csv.Cfg} {names : List Bytes} {r : Reader} (hf : Fair r.sched) {x} (h : Csv.produce cfg names (Csv.readInput r) = some x)
    {s : Scalar} (hs : .scalar s ∈ x.1) {y : Byte} (hy : y ∈ s.bytes) (hl : y < 0x20) : y = 0x0A ∨ y ∈ r.rest ∨ ∃ f ∈ names, y ∈ f := by
  have cuts : Csv.Cuts fun b => ∀ z ∈ b, z < 0x20 → z = 0x0A ∨ z ∈ r.rest := by
    refine ⟨(fun z hz => by cases hz), ?_, ?_, ?_⟩
    · exact fun ha hb z hz => (List.mem_append.1 hz).elim (ha z) (hb z)
    · intro c hc z hz h
      cases List.mem_singleton.1 hz
      have : ∀ c ∈ [c%'"', c%'\n'], c < 0x20 → c = 0x0A := by decide
      exact .inl (this _ hc h)
    · exact fun c hc x y h => ⟨fun z hz => h z (by simp [hz]), fun z hz => h z (by simp [hz])⟩
  have hr : ∀ l ∈ (Csv.readInput r).records, ∀ f ∈ l, ∀ z ∈ f, z < 0x20 → z = 0x0A ∨ z ∈ r.rest := by
    rw [Csv.readInput_eq hf]
    exact Csv.all_cuts cuts (Inv := fun b => ∀ z ∈ b, z < 0x20 → z = 0x0A ∨ z ∈ r.rest) (Csv.textLine_cuts cuts r.fin) _ _ _ _ fun z hz _ => .inr hz
  rcases Csv.produce_of h s hs with ⟨f, hf, e⟩ | ⟨l, hl', f, hf, e⟩
  · rw [Csv.header_bytes e] at hy
    have hy := esc_ctrl hl hy
    rcases hf with hf | ⟨l, hl', hf⟩ | ⟨n, rfl⟩
    · exact .inr (.inr ⟨f, hf, hy⟩)
    · rcases hr l hl' f hf y hy hl with h | h
      · exact .inl h
      · exact .inr (.inl h)
    · rcases List.mem_append.1 hy with hy | hy
      · have key : ∀ y ∈ b%"field_", ¬ y < 0x20 := by decide
        exact absurd hl (key y hy)
      · exact absurd (UInt8.lt_of_lt_of_le hl (UInt8.le_trans (by decide) (JPath.itoa_digits n y hy).1)) (UInt8.lt_irrefl _)
  · have hy : y ∈ f := by
      rcases Csv.value_bytes e with ⟨_, e⟩ | h | e
      · rw [e] at hy
        have key : ∀ y ∈ b%"null", ¬ y < 0x20 := by decide
        exact absurd hl (key y hy)
      · exact h.subset hy
      · rw [e] at hy; exact esc_ctrl hl hy
    rcases hr l hl' f hf y hy hl with h | h
    · exact .inl h
    · exact .inr (.inl h)

/-- In all formats, and without colours, the only control characters in the output are line feeds, and characters that are in the input or in the names given
for the fields. -/
theorem C81_formats_partial {env : Env} {o : Options} {r : Reader} {x : Result} (hc : o.color = none) (hf : Fair r.sched) (h : Main env o r x) :
    ∀ y ∈ x.stdout, y < 0x20 → y = 0x0A ∨ y ∈ r.rest ∨ y ∈ o.csvHeader := by
  intro y hy hl
  rcases stdout_ctrl hc h hy hl with e | ⟨source, ts, sink, toks, bad, s, p1, p2, hs, hy⟩
  · exact .inl e
  · obtain ⟨r', hr, hf', rfl | rfl | ⟨cfg, names, rfl, hn⟩⟩ := source_of p1
    · rw [outcome_eq p2] at hs
      rw [← hr]
      exact .inr (.inl ((json_ctrl hs).1.subset hy))
    · rw [outcome_eq p2] at hs
      rw [← hr]
      rcases jpv_ctrl hs with this | this
      · exact .inr (.inl (this.1.subset hy))
      · exact absurd (UInt8.lt_of_lt_of_le hl (this y hy)) (UInt8.lt_irrefl _)
    · simp only [Source.tokens, Option.map_eq_some_iff, Prod.exists, Prod.mk.injEq] at p2
      obtain ⟨ts, e, p2, rfl, _⟩ := p2
      rw [← hr]
      rcases csv_ctrl (hf' hf) p2 hs hy hl with h | h | ⟨f, hf, hy⟩
      · exact .inl h
      · exact .inr (.inl h)
      · exact .inr (.inr (hn f hf y hy))

/-! ## Violations -/

/-- A string with the control sequence `ESC c`, which resets a terminal, after a backslash: not JSON. -/
def resets : Bytes := [0x22, 0x5C, 0x1B, 0x63, 0x22]

/-- The decoder takes any byte after a backslash (`/repo/encoding/json/decoder.go:246-266`): the input is accepted, and the control sequence reaches the
terminal. -/
theorem C81_violated_json : Main noEnv { inFormat := b%"json" } (atOnce resets) ⟨resets ++ b%"\n", 0, false⟩ :=
  .run (source := .json (atOnce resets)) (ts := []) (toks := [.scalar ⟨resets, .str, false, true, false⟩]) rfl (by decide +kernel) .nil (by decide +kernel)

/-- The CSV decoder escapes quotes, backslashes and line feeds only (`/repo/encoding/csv/decoder.go:131-158`): the output is not JSON. -/
theorem C81_violated_csv : Main noEnv { inFormat := b%"csv" } (atOnce [0x1B, 0x63, 0x0A])
    ⟨b%"[" ++ [0x22, 0x1B, 0x63, 0x22] ++ b%"]\n", 0, false⟩ :=
  .run (source := .csv ⟨false, false⟩ [] (atOnce [0x1B, 0x63, 0x0A])) (ts := [])
    (toks := [.startArr, .scalar ⟨[0x22, 0x1B, 0x63, 0x22], .str, false, false, false⟩, .endArr]) rfl (by decide +kernel) .nil (by decide +kernel)

/-! ## Non-vacuity -/
section NonVacuity

/-- Escapes other than those of a raw control character pass: a tab written as `\t` stays as it is. -/
example : Main noEnv { inFormat := b%"json" } (atOnce b%"\"\\t\"") ⟨b%"\"\\t\"\n", 0, false⟩ :=
  .run (source := .json (atOnce b%"\"\\t\"")) (ts := []) (toks := [.scalar ⟨b%"\"\\t\"", .str, false, true, false⟩]) rfl (by decide +kernel) .nil
    (by decide +kernel)

/-- A raw tab, unescaped, is refused and nothing is written for it. -/
example : ((Source.json (atOnce [0x22, 0x09, 0x22])).tokens noEnv) = some ([], true) := by decide +kernel

/-- The theorem speaks of the results of queries on such input. -/
example (env : Env) (s : Bytes) (hs : ∀ y ∈ s, y < 0x20 → y = 0x0A) : ∀ x, Main env { args := [b%"$..*"], inFormat := b%"json" } (atOnce s) x →
    ∀ y ∈ x.stdout, y < 0x20 → y = 0x0A := by
  intro x h y hy hl
  rcases C81_formats_partial rfl (fair_atOnce s) h y hy hl with h | h | h
  · exact h
  · exact hs y h hl
  · cases h

end NonVacuity

end Verif.Cmd
