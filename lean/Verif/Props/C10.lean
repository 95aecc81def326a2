import Verif.JsonStream
import Verif.JsonSuffix

/-!
# C10: positions in syntax errors

Positions count from 0 in the model, as in the scanner; the error message shows them plus one
(`/repo/encoding/json/decoder.go:224-227`).
-/

namespace Verif
open Rfc8259

/-- Specification: the bytes after the last newline. -/
def lastLine (pre : Bytes) : Bytes := (pre.reverse.takeWhile (· ≠ 0x0A)).reverse

theorem lastLine_snoc (pre : Bytes) (b : Byte) : lastLine (pre ++ [b]) = if b = 0x0A then [] else lastLine pre ++ [b] := by
  unfold lastLine
  rw [List.reverse_append, List.reverse_cons, List.reverse_nil, List.nil_append, List.cons_append, List.nil_append, List.takeWhile_cons]
  by_cases h : b = 0x0A <;> simp [h]

/-- How the scanner counts. -/
theorem posAfter_eq (n : Nat) : ∀ pre : Bytes, pre.length = n → posAfter pre = ⟨pre.count 0x0A, (lastLine pre).countP (· < 0xC0)⟩ := by
  induction n with
  | zero => intro pre h; rw [List.length_eq_zero_iff.1 h]; rfl
  | succ n ih =>
    intro pre h
    rcases List.eq_nil_or_concat pre with rfl | ⟨pre, b, rfl⟩
    · simp at h
    · rw [List.concat_eq_append] at h ⊢
      rw [posAfter_snoc, ih pre (by simpa using h), lastLine_snoc, Pos.adv]
      by_cases hb : b = 0x0A
      · subst hb; simp
      · rw [if_neg hb, if_neg hb]
        split
        · rename_i h'; simp [h', hb]
        · rename_i h'; simp [h', hb]

set_option maxRecDepth 10000 in
theorem count_utf8 {n : Nat} (h : n < 0x800) : (utf8 n).countP (· < 0xC0) = 1 := by
  unfold utf8
  split
  · rename_i h'
    have : UInt8.ofNat n < 0xC0 := by rw [UInt8.lt_iff_toNat_lt]; simp; omega
    simp [this]
  · have h1 : ¬ UInt8.ofNat (0xC0 + n / 64) < 0xC0 := by rw [UInt8.lt_iff_toNat_lt]; simp; omega
    have h2 : UInt8.ofNat (0x80 + n % 64) < 0xC0 := by rw [UInt8.lt_iff_toNat_lt]; simp; omega
    rw [List.countP_cons, List.countP_cons, List.countP_nil, if_pos (decide_eq_true h2), if_neg (by simpa only [decide_eq_true_eq] using h1)]

theorem count_utf8s {cps : List Nat} (h : ∀ n ∈ cps, n < 0x800) : (cps.flatMap utf8).countP (· < 0xC0) = cps.length := by
  induction cps with
  | nil => rfl
  | cons n cps ih =>
    rw [List.flatMap_cons, List.countP_append, count_utf8 (h n (by simp)), ih fun m hm => h m (by simp [hm])]
    simp; omega

/-- The error of a run is at the end of a prefix of the input, in front of the offending byte. -/
theorem syn_position {D : Bytes} {fin : RErr} {x : Pure.PRes} {p m g} (h : (outOf D fin x).2 = .fail (.syn p m g))
    (hx : ∀ m rest, x.2 = some (.error (.syn m rest)) → rest <:+ D) :
    ∃ pre rest, D = pre ++ rest ∧ p = posAfter pre ∧ g = (match rest with | [] => none | b :: _ => if b = 0xFF then none else some b) := by
  obtain ⟨ts, x⟩ := x
  match x with
  | none => cases h
  | some (.ok r) => cases h
  | some (.error (.io e)) => cases h
  | some (.error (.syn m' [])) =>
    simp only [outOf, toErr] at h
    split at h
    · cases h; exact ⟨D, [], by simp, rfl, rfl⟩
    · cases h
  | some (.error (.syn m' (b :: r))) =>
    obtain ⟨pre, hpre⟩ := hx m' (b :: r) rfl
    cases h
    refine ⟨pre, b :: r, hpre.symm, ?_, rfl⟩
    rw [← hpre]; simp

/-- Where a syntax error is reported: in front of a byte (or the end) of the input, which is the
one shown in the error.  The line counts the newline bytes before it. -/
theorem C10_line (r : Reader) (size : Nat) (hs : 2 ≤ size) (hf : Fair r.sched) (p : Pos) (m : String) (g : Option Byte)
    (h : (Json.decodeFrom r size).2 = .fail (.syn p m g)) :
    ∃ pre rest, r.rest = pre ++ rest ∧ p.line = pre.count 0x0A ∧
      g = (match rest with | [] => none | b :: _ => if b = 0xFF then none else some b) := by
  rw [decodeFrom_fair r size hs hf] at h
  have hsuf := Pure.produce_suf r.fin (Json.fuelFor r.rest.length) (Json.fuelFor r.rest.length) r.rest
  obtain ⟨pre, rest, h1, h2, h3⟩ := syn_position h (by
    intro m s hx
    unfold Pure.SufR at hsuf
    rw [show Pure.produce r.fin (Json.fuelFor r.rest.length) (Json.fuelFor r.rest.length) r.rest = Pure.decode r.fin r.rest from rfl, hx] at hsuf
    exact hsuf)
  exact ⟨pre, rest, h1, by rw [h2, posAfter_eq _ pre rfl], h3⟩

/-- The column is the number of characters on the line before the offending byte, if these are
encoded in at most two bytes each.

Missing: characters encoded in three or four bytes (`C10_violated`). -/
theorem C10_position_partial (r : Reader) (size : Nat) (hs : 2 ≤ size) (hf : Fair r.sched) (p : Pos) (m : String) (g : Option Byte)
    (h : (Json.decodeFrom r size).2 = .fail (.syn p m g)) :
    ∃ pre rest, r.rest = pre ++ rest ∧ p.line = pre.count 0x0A ∧
      g = (match rest with | [] => none | b :: _ => if b = 0xFF then none else some b) ∧
      ∀ cps : List Nat, lastLine pre = cps.flatMap utf8 → (∀ n ∈ cps, n < 0x800) → p.col = cps.length := by
  rw [decodeFrom_fair r size hs hf] at h
  have hsuf := Pure.produce_suf r.fin (Json.fuelFor r.rest.length) (Json.fuelFor r.rest.length) r.rest
  obtain ⟨pre, rest, h1, h2, h3⟩ := syn_position h (by
    intro m s hx
    unfold Pure.SufR at hsuf
    rw [show Pure.produce r.fin (Json.fuelFor r.rest.length) (Json.fuelFor r.rest.length) r.rest = Pure.decode r.fin r.rest from rfl, hx] at hsuf
    exact hsuf)
  refine ⟨pre, rest, h1, by rw [h2, posAfter_eq _ pre rfl], h3, fun cps hc hn => ?_⟩
  rw [h2, posAfter_eq _ pre rfl, hc, count_utf8s hn]

set_option maxRecDepth 10000 in
theorem count_wide {n : Nat} (h : n < 0x110000) :
    (utf8 n).countP (· < 0xC0) = if n < 0x800 then 1 else if n < 0x10000 then 2 else 3 := by
  have hi : ∀ m, 0xC0 ≤ m → m < 0x100 → ¬ UInt8.ofNat m < 0xC0 := by
    intro m h1 h2; rw [UInt8.lt_iff_toNat_lt]; simp; omega
  have lo : ∀ m, m < 0xC0 → UInt8.ofNat m < 0xC0 := by
    intro m h1; rw [UInt8.lt_iff_toNat_lt]; simp; omega
  by_cases h8 : n < 0x800
  · rw [if_pos h8, count_utf8 h8]
  · rw [if_neg h8]
    unfold utf8
    rw [if_neg (by omega), if_neg h8]
    split
    · simp only [List.countP_cons, List.countP_nil, decide_eq_true_eq, if_neg (hi (0xE0 + n / 4096) (by omega) (by omega)),
        if_pos (lo (0x80 + n / 64 % 64) (by omega)), if_pos (lo (0x80 + n % 64) (by omega))]
    · simp only [List.countP_cons, List.countP_nil, decide_eq_true_eq, if_neg (hi (0xF0 + n / 262144) (by omega) (by omega)),
        if_pos (lo (0x80 + n / 4096 % 64) (by omega)), if_pos (lo (0x80 + n / 64 % 64) (by omega)), if_pos (lo (0x80 + n % 64) (by omega))]

/-- The column for every line of Unicode characters: characters encoded in three bytes count as two, those in four bytes as three.  So the
column is right exactly if there is no such character on the line before the offending byte. -/
theorem C10_column_exactly (r : Reader) (size : Nat) (hs : 2 ≤ size) (hf : Fair r.sched) (p : Pos) (m : String) (g : Option Byte)
    (h : (Json.decodeFrom r size).2 = .fail (.syn p m g)) :
    ∃ pre rest, r.rest = pre ++ rest ∧ p.line = pre.count 0x0A ∧
      g = (match rest with | [] => none | b :: _ => if b = 0xFF then none else some b) ∧
      ∀ cps : List Nat, lastLine pre = cps.flatMap utf8 → (∀ n ∈ cps, n < 0x110000) →
        p.col = cps.length + cps.countP (0x800 ≤ ·) + cps.countP (0x10000 ≤ ·) ∧
        (p.col = cps.length ↔ ∀ n ∈ cps, n < 0x800) := by
  rw [decodeFrom_fair r size hs hf] at h
  have hsuf := Pure.produce_suf r.fin (Json.fuelFor r.rest.length) (Json.fuelFor r.rest.length) r.rest
  obtain ⟨pre, rest, h1, h2, h3⟩ := syn_position h (by
    intro m s hx
    unfold Pure.SufR at hsuf
    rw [show Pure.produce r.fin (Json.fuelFor r.rest.length) (Json.fuelFor r.rest.length) r.rest = Pure.decode r.fin r.rest from rfl, hx] at hsuf
    exact hsuf)
  refine ⟨pre, rest, h1, by rw [h2, posAfter_eq _ pre rfl], h3, fun cps hc hn => ?_⟩
  have hcol : p.col = cps.length + cps.countP (0x800 ≤ ·) + cps.countP (0x10000 ≤ ·) := by
    have hnat : ∀ l : List Nat, (∀ n ∈ l, n < 0x110000) →
        (l.flatMap utf8).countP (· < 0xC0) = l.length + l.countP (0x800 ≤ ·) + l.countP (0x10000 ≤ ·) := by
      intro l hl
      induction l with
      | nil => rfl
      | cons n l ih =>
        rw [List.flatMap_cons, List.countP_append, count_wide (hl n (by simp)), ih fun m hm => hl m (by simp [hm])]
        simp only [List.length_cons, List.countP_cons, decide_eq_true_eq]
        by_cases h8 : n < 0x800
        · rw [if_pos h8, if_neg (by omega), if_neg (by omega)]; omega
        · rw [if_neg h8]
          by_cases h9 : n < 0x10000
          · rw [if_pos h9, if_pos (by omega), if_neg (by omega)]; omega
          · rw [if_neg h9, if_pos (by omega), if_pos (by omega)]; omega
    rw [h2, posAfter_eq _ pre rfl, hc]
    have := hnat cps hn
    show ((List.countP (· < (0xC0 : Byte)) (cps.flatMap utf8) : Nat) : Int) = _
    rw [this]
    omega
  refine ⟨hcol, ?_⟩
  rw [hcol]
  constructor
  · intro he n hn
    have : cps.countP (0x800 ≤ ·) = 0 := by omega
    have := List.countP_eq_zero.1 this n hn
    simpa using this
  · intro ha
    have h1 : cps.countP (0x800 ≤ ·) = 0 := List.countP_eq_zero.2 fun n hn => by have := ha n hn; simp; omega
    have h2 : cps.countP (0x10000 ≤ ·) = 0 := List.countP_eq_zero.2 fun n hn => by have := ha n hn; simp; omega
    omega

/-- The property fails for characters of three bytes: in `"€"x` the offending `x` is the fourth
character (column 3 counting from 0), but is reported at column 4. -/
theorem C10_violated (r : Reader) (size : Nat) (hs : 2 ≤ size) (hf : Fair r.sched)
    (hr : r.rest = 0x22 :: (utf8 0x20AC ++ [0x22, 0x78])) (he : r.fin = .eof) :
    (Json.decodeFrom r size).2 = .fail (.syn ⟨0, 4⟩ "unexpected" (some 0x78)) := by
  rw [decodeFrom_fair r size hs hf, hr, he]
  rfl

/-- Non-vacuity: an error on the second line after a character of two bytes. -/
example (r : Reader) (hf : Fair r.sched) (hr : r.rest = 0x0A :: 0x22 :: (utf8 0xE9 ++ [0x22, 0x78])) (he : r.fin = .eof) :
    (Json.decodeFrom r).2 = .fail (.syn ⟨1, 3⟩ "unexpected" (some 0x78)) := by
  rw [decodeFrom_fair r _ (by decide) hf, hr, he]
  rfl

end Verif
