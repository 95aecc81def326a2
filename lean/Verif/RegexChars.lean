import Verif.RegexSpec
import Verif.GoRegex
import Verif.IRegexpLemmas
import Verif.StrOrder

/-!
# Patterns and texts as lists of characters
-/

namespace Verif.GoRe
open Utf8 JPath

/-- The translation of patterns (`tr`) on characters. -/
def trC : Bool → Bool → List Nat → List Nat
  | _, _, [] => []
  | k, true, c :: t => c :: trC k false t
  | k, false, c :: t =>
    if c = n%'\\' then c :: trC k true t
    else if c = n%'[' then c :: trC true false t
    else if c = n%']' then c :: trC false false t
    else if c = n%'.' ∧ k = false then u%"[^\\n\\r]" ++ trC k false t
    else c :: trC k false t

theorem tr_high (k : Bool) : ∀ (l : Bytes), (∀ b ∈ l, 0x80 ≤ b) → ∀ p, tr k false (l ++ p) = l ++ tr k false p := by
  intro l
  induction l with
  | nil => intro _ p; rfl
  | cons b l ih =>
    intro h p
    have hb := h b (by simp)
    have h1 : b ≠ c%'\\' := by rintro rfl; revert hb; decide
    have h2 : b ≠ c%'[' := by rintro rfl; revert hb; decide
    have h3 : b ≠ c%']' := by rintro rfl; revert hb; decide
    have h4 : b ≠ c%'.' := by rintro rfl; revert hb; decide
    simp only [List.cons_append, tr, h1, h2, h3, h4, if_false, false_and]
    rw [ih (fun b hb => h b (by simp [hb]))]

theorem encode_low {r : Nat} (h : r < 0x80) : encode r = [UInt8.ofNat r] := by
  unfold encode; rw [if_pos h]

theorem ofNat_eq {r : Nat} (h : r < 0x80) (b : Byte) : UInt8.ofNat r = b ↔ r = b.toNat := by
  rw [← UInt8.toNat_inj, ofNat_toNat (by omega)]

theorem encode_high {r : Nat} (h : UScalar r) (h' : 0x80 ≤ r) : ∀ b ∈ encode r, 0x80 ≤ b := by
  obtain ⟨h1, h2⟩ := h
  unfold encode
  rw [if_neg (by omega)]
  split
  · intro b hb
    simp only [List.mem_cons, List.not_mem_nil, or_false] at hb
    rcases hb with rfl | rfl <;> rw [u8le, ofNat_toNat (by omega)] <;> simp <;> omega
  · rw [if_neg (by simp [isSurrogate]; omega)]
    split
    · intro b hb
      simp only [List.mem_cons, List.not_mem_nil, or_false] at hb
      rcases hb with rfl | rfl | rfl <;> rw [u8le, ofNat_toNat (by omega)] <;> simp <;> omega
    · intro b hb
      simp only [List.mem_cons, List.not_mem_nil, or_false] at hb
      rcases hb with rfl | rfl | rfl | rfl <;> rw [u8le, ofNat_toNat (by omega)] <;> simp <;> omega

theorem chars_append {s t : Bytes} {cs ds : List Nat} (h : Chars s cs) (h' : Chars t ds) : Chars (s ++ t) (cs ++ ds) := by
  refine ⟨by rw [h.1, h'.1, List.flatMap_append], ?_⟩
  intro r hr
  rcases List.mem_append.mp hr with hr | hr
  · exact h.2 r hr
  · exact h'.2 r hr

theorem chars_cons_inv {s : Bytes} {c : Nat} {cs : List Nat} (h : Chars s (c :: cs)) : UScalar c ∧ ∃ s', s = encode c ++ s' ∧ Chars s' cs :=
  ⟨h.2 c (by simp), _, by rw [h.1]; rfl, rfl, fun r hr => h.2 r (by simp [hr])⟩

/-- The translation on bytes and on characters. -/
theorem tr_chars : ∀ (cs : List Nat) (k e : Bool) (p : Bytes), Chars p cs → Chars (tr k e p) (trC k e cs) := by
  intro cs
  induction cs with
  | nil =>
    intro k e p h
    obtain ⟨rfl, -⟩ := h
    cases e <;> exact Chars.nil
  | cons c cs ih =>
    intro k e p h
    obtain ⟨hu, p, rfl, hp⟩ := chars_cons_inv h
    by_cases hc : c < 0x80
    · have hh : Chars [UInt8.ofNat c] [c] := by
        have := Chars.cons hu Chars.nil
        rwa [encode_low hc, List.append_nil] at this
      rw [encode_low hc]
      cases e with
      | true => exact chars_append hh (ih k false p hp)
      | false =>
        have e1 := ofNat_eq hc c%'\\'
        have e2 := ofNat_eq hc c%'['
        have e3 := ofNat_eq hc c%']'
        have e4 := ofNat_eq hc c%'.'
        simp only [show (c%'\\' : Byte).toNat = 0x5C from rfl] at e1
        simp only [show (c%'[' : Byte).toNat = 0x5B from rfl] at e2
        simp only [show (c%']' : Byte).toNat = 0x5D from rfl] at e3
        simp only [show (c%'.' : Byte).toNat = 0x2E from rfl] at e4
        simp only [List.cons_append, List.nil_append, tr, trC, e1, e2, e3, e4]
        by_cases g1 : c = 0x5C
        · simp only [g1, if_true]
          rw [g1] at hh
          exact chars_append hh (ih k true p hp)
        · simp only [g1, if_false]
          by_cases g2 : c = 0x5B
          · simp only [g2, if_true]
            rw [g2] at hh
            exact chars_append hh (ih true false p hp)
          · simp only [g2, if_false]
            by_cases g3 : c = 0x5D
            · simp only [g3, if_true]
              rw [g3] at hh
              exact chars_append hh (ih false false p hp)
            · simp only [g3, if_false]
              by_cases g4 : c = 0x2E ∧ k = false
              · simp only [g4, and_self, if_true]
                refine chars_append (cs := u%"[^\\n\\r]") ⟨by decide, ?_⟩ (g4.2 ▸ ih k false p hp)
                simp [UScalar]
              · simp only [g4, if_false]
                exact chars_append hh (ih k false p hp)
    · have hhi := encode_high hu (by omega)
      have hh : Chars (encode c) [c] := by
        have := Chars.cons hu Chars.nil
        rwa [List.append_nil] at this
      cases e with
      | true =>
        obtain ⟨b, l, hb, -, -⟩ := encode_head hu
        have : tr k true (encode c ++ p) = encode c ++ tr k false p := by
          rw [hb] at hhi ⊢
          simp only [List.cons_append, tr]
          rw [tr_high k l (fun b hb => hhi b (by simp [hb]))]
        rw [this]
        exact chars_append hh (ih k false p hp)
      | false =>
        rw [tr_high k _ hhi]
        simp only [trC]
        rw [if_neg (by omega), if_neg (by omega), if_neg (by omega), if_neg (by omega)]
        exact chars_append hh (ih k false p hp)

theorem drop_encode (c : Nat) (s : Bytes) : (encode c ++ s).drop (encode c).length = s := by
  rw [List.drop_left]

/-- The characters of a pattern. -/
theorem pattern_chars : ∀ (cs : List Nat) (f : Nat) (p : Bytes), Chars p cs → p.length ≤ f → pattern f p = some cs := by
  intro cs
  induction cs with
  | nil =>
    intro f p h _
    obtain ⟨rfl, -⟩ := h
    cases f <;> rfl
  | cons c cs ih =>
    intro f p h hf
    obtain ⟨hu, p, rfl, hp⟩ := chars_cons_inv h
    obtain ⟨b, l, hb, -, -⟩ := encode_head hu
    have hd := decode_encode hu p
    have hx := drop_encode c p
    rw [List.length_append] at hf
    rw [hb] at hd hx hf ⊢
    rw [List.cons_append] at hd hx ⊢
    rw [List.length_cons] at hf
    obtain ⟨f, rfl⟩ : ∃ f', f = f' + 1 := ⟨f - 1, by omega⟩
    simp only [pattern, hd, hx]
    rw [ih f p hp (by omega)]
    rfl

/-- The characters of a text. -/
theorem runes_chars : ∀ (cs : List Nat) (f : Nat) (s : Bytes), Chars s cs → s.length ≤ f → runes f s = cs.map fun c => (c, (encode c).length) := by
  intro cs
  induction cs with
  | nil =>
    intro f p h _
    obtain ⟨rfl, -⟩ := h
    cases f <;> rfl
  | cons c cs ih =>
    intro f p h hf
    obtain ⟨hu, p, rfl, hp⟩ := chars_cons_inv h
    obtain ⟨b, l, hb, -, -⟩ := encode_head hu
    have hd := decode_encode hu p
    have hx := drop_encode c p
    rw [List.length_append] at hf
    simp only [List.map_cons]
    rw [← ih (f - 1) p hp (by rw [hb] at hf; simp at hf; omega)]
    rw [hb] at hd hx hf ⊢
    rw [List.cons_append] at hd hx ⊢
    rw [List.length_cons] at hf
    obtain ⟨f, rfl⟩ : ∃ f', f = f' + 1 := ⟨f - 1, by omega⟩
    simp only [runes, hd, Option.getD_some, hx, Nat.add_sub_cancel]

end Verif.GoRe
