import Verif.JsonStream
import Verif.JsonExact

/-!
# C02: the JSON decoder accepts only JSON
-/

namespace Verif
open Rfc8259

/-- The property fails: escapes that JSON does not have are accepted.  The input is `"\q"`. -/
theorem C02_violated : ∃ D : Bytes,
    (∀ (r : Reader) (size : Nat), 2 ≤ size → Fair r.sched → r.rest = D → r.fin = .eof →
      (Json.decodeFrom r size).2 = .ok () ()) ∧
    ¬ ∃ vs, Stream RfcChars vs D := by
  refine ⟨[0x22, 0x5C, 0x71, 0x22], ?_, ?_⟩
  · intro r size hs hf hr he
    rw [decodeFrom_fair r size hs hf, hr, he]
    have : Pure.decode .eof [0x22, 0x5C, 0x71, 0x22] =
        ([.scalar (strScalar [0x5C, 0x71])], some (.ok [])) := rfl
    rw [this]; rfl
  · rintro ⟨vs, h⟩
    generalize hD : ([0x22, 0x5C, 0x71, 0x22] : Bytes) = D at h
    cases h with
    | nil hw => subst hD; exact absurd (hw 0x22 (by simp)) (by decide)
    | @cons w v b vs r hw ht hs =>
      have hw0 : w = [] := by
        cases w with
        | nil => rfl
        | cons x w =>
          simp only [List.cons_append, List.cons.injEq] at hD
          exact absurd (hw x (by simp)) (by rw [← hD.1]; decide)
      subst hw0
      rw [List.nil_append] at hD
      cases ht with
      | true => simp at hD
      | false => simp at hD
      | null => simp at hD
      | arr0 _ => simp at hD
      | arr _ => simp at hD
      | obj0 _ => simp at hD
      | obj _ => simp at hD
      | num hn =>
        have := number_head hn
        obtain ⟨x, t, hb, hx⟩ := this
        rw [hb, List.cons_append, List.cons.injEq] at hD
        rw [← hD.1] at hx
        exact absurd hx (by unfold Digit; decide)
      | @str c hc =>
        simp only [List.cons_append, List.append_assoc, List.cons.injEq, true_and] at hD
        have he := rfc_escOK hc
        match c, hD with
        | [x], hD => simp at hD
        | [x, y], hD =>
          simp at hD
          rw [← hD.1, ← hD.2.1] at he
          exact absurd he (by decide)
        | x :: y :: z :: [], hD => simp at hD
        | x :: y :: z :: u :: c, hD => simp at hD

/-- What is accepted, up to the contents of strings and the byte 0xFF: a stream of JSON texts.
It is one of the RFC if it is valid UTF-8 and the strings in it have only escapes of the RFC.

Missing: the latter are not checked by the decoder (`C02_violated`). -/
theorem C02_accepts_only_json_partial (r : Reader) (size : Nat) (hs : 2 ≤ size) (ts : List Token)
    (h : Json.decodeFrom r size = (ts, .ok () ())) (hu : Utf8 r.rest)
    (hesc : ∀ s, .scalar s ∈ ts → s.type = .str → escOK s.bytes = true) :
    ∃ vs, Stream RfcChars vs r.rest ∧ ts = streamToks vs := by
  have hff : eofByte ∉ r.rest := by
    obtain ⟨cps, hc, he⟩ := hu
    rw [he]
    intro hm
    obtain ⟨n, hn, hb⟩ := List.mem_flatMap.1 hm
    by_cases hlow : n < 0x80
    · rw [utf8_mem_ascii hlow, List.mem_singleton] at hb
      have := congrArg UInt8.toNat hb
      simp [eofByte] at this
      omega
    · exact absurd (utf8_mem_high (hc n hn) (by omega) _ hb).2 (by decide)
  obtain ⟨_, vs, h1, h2⟩ := decodeFrom_success hs h hff
  refine ⟨vs, h1.strengthen r.rest ts ?_ ⟨[], [], by simp⟩ (fun t ht => h2 ▸ ht), h2⟩
  intro p c q k hD hm hc
  have he := hesc _ hm rfl
  have : escOK (0x22 :: (c ++ [0x22])) = true := he
  rw [escOK_cons (by decide), escOK_snoc hc] at this
  refine lax_rfc c.length (Nat.le_refl _) hc ?_ this
  rw [hD] at hu
  exact (utf8_split (by decide) (utf8_split (by decide) hu).2).1

/-- In particular, an accepted input in UTF-8 without backslashes is JSON. -/
theorem C02_no_escapes_partial (r : Reader) (size : Nat) (hs : 2 ≤ size)
    (h : (Json.decodeFrom r size).2 = .ok () ()) (hu : Utf8 r.rest) (hb : 0x5C ∉ r.rest) :
    ∃ vs, Stream RfcChars vs r.rest := by
  have hff : eofByte ∉ r.rest := by
    obtain ⟨cps, hc, he⟩ := hu
    rw [he]
    intro hm
    obtain ⟨n, hn, hb⟩ := List.mem_flatMap.1 hm
    by_cases hlow : n < 0x80
    · rw [utf8_mem_ascii hlow, List.mem_singleton] at hb
      have := congrArg UInt8.toNat hb
      simp [eofByte] at this
      omega
    · exact absurd (utf8_mem_high (hc n hn) (by omega) _ hb).2 (by decide)
  obtain ⟨_, vs, h1, h2⟩ := decodeFrom_success (ts := (Json.decodeFrom r size).1) hs (by rw [← h]) hff
  refine ⟨vs, h1.strengthen r.rest (streamToks vs) ?_ ⟨[], [], by simp⟩ (fun t ht => ht)⟩
  intro p c q k hD hk hc
  refine lax_rfc c.length (Nat.le_refl _) hc ?_ ?_
  · rw [hD] at hu
    exact (utf8_split (by decide) (utf8_split (by decide) hu).2).1
  · have : 0x5C ∉ c := fun hm => hb (by rw [hD]; simp [hm])
    clear hD hc hk
    induction c with
    | nil => rfl
    | cons b c ih =>
      rw [escOK_cons (by rintro rfl; simp at this)]
      exact ih fun hm => this (by simp [hm])

/-- Exactly what is accepted, and what is made of it: a stream of texts of the grammar of RFC 8259, with strings in which any byte may follow a backslash and which need
not be UTF-8 (`LaxChars`), up to the end of the input or to a byte 0xFF.  Values may be adjacent, but a number goes on as long as digits follow, except for `0` and `-0`. -/
theorem C02_exact (r : Reader) (size : Nat) (hs : 2 ≤ size) (hf : Fair r.sched) (ts : List Token) :
    Json.decodeFrom r size = (ts, .ok () ()) ↔
      ∃ vs b rest, ReadStream LaxChars vs b ∧ ts = streamToks vs ∧ r.rest = b ++ rest ∧ ((rest = [] ∧ r.fin = .eof) ∨ ∃ rest', rest = 0xFF :: rest') := by
  rw [decodeFrom_fair r size hs hf]
  constructor
  · intro h
    generalize hx : Pure.decode r.fin r.rest = x at h
    match x, h with
    | (ts', some (.ok r')), h =>
      simp only [outOf, Prod.mk.injEq, and_true] at h
      subst h
      obtain ⟨vs, b, h1, h2, h3, h4⟩ := exact_produce _ _ _ _ _ _ hx
      exact ⟨vs, b, r', h1, h2, h3, h4⟩
    | (_, some (.error _)), h => simp [outOf] at h
    | (_, none), h => simp [outOf] at h
  · rintro ⟨vs, b, rest, h1, rfl, h3, h4⟩
    have := exact_complete h1 h4 (Json.fuelFor r.rest.length) (Json.fuelFor r.rest.length) (by rw [h3]; unfold Json.fuelFor; omega) (by rw [h3]; unfold Json.fuelFor; omega)
    rw [← h3] at this
    rw [show Pure.decode r.fin r.rest = _ from this]
    rfl

/-- `01` is read as two values. -/
example : ReadStream LaxChars [.scalar { bytes := b%"0", type := .num }, .scalar { bytes := b%"1", type := .num }] b%"01" :=
  .cons (w := []) (b := b%"0") (r := b%"1") (by intro x h; simp at h) (.num ⟨[], b%"0", [], [], .inl rfl, .inl rfl, .inl rfl, .inl rfl, rfl⟩)
    (by rintro s x r' h _ _ _; cases h; exact .inl rfl)
    (.cons (w := []) (b := b%"1") (r := []) (by intro x h; simp at h)
      (.num ⟨[], b%"1", [], [], .inl rfl, .inr ⟨0x31, [], by decide, by decide, by simp, rfl⟩, .inl rfl, .inl rfl, rfl⟩)
      (by simp) (.nil (by intro x h; simp at h)))

/-- Non-vacuity: an input with all kinds of values is accepted. -/
example (r : Reader) (hf : Fair r.sched) (hr : r.rest = b%"{\"a\\n\": [1, -2.5e3, true]}") (he : r.fin = .eof) :
    (Json.decodeFrom r).2 = .ok () () := by
  rw [decodeFrom_fair r _ (by decide) hf, hr, he]
  rfl

end Verif
