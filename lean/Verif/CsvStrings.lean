import Verif.CsvFields

/-!
# String literals made from CSV fields (helper lemmas)
-/

set_option linter.unusedSimpArgs false

namespace Verif.Csv
open Rfc8259 CsvSpec

theorem encode_utf8 {n : Nat} (h : Rfc8259.UScalar n) : Utf8.encode n = utf8 n := by
  unfold Utf8.encode utf8
  split
  · rfl
  · split
    · rfl
    · rw [if_neg (by simp [Utf8.isSurrogate]; unfold Rfc8259.UScalar at h; omega)]

theorem uscalar_iff (n : Nat) : Rfc8259.UScalar n ↔ Verif.UScalar n := by
  unfold Rfc8259.UScalar Verif.UScalar; omega

theorem utf8_high {n : Nat} (h : Rfc8259.UScalar n) (hn : 0x80 ≤ n) : ∀ b ∈ utf8 n, 0x80 ≤ b := by
  intro b hb
  unfold Rfc8259.UScalar at h
  unfold utf8 at hb
  rw [if_neg (by omega)] at hb
  split at hb
  · simp only [List.mem_cons, List.not_mem_nil, or_false] at hb
    rcases hb with rfl | rfl <;> (rw [u8le, ofNat_toNat (by omega)]; first | (simp; done) | (simp; omega))
  · split at hb
    · simp only [List.mem_cons, List.not_mem_nil, or_false] at hb
      rcases hb with rfl | rfl | rfl <;> (rw [u8le, ofNat_toNat (by omega)]; first | (simp; done) | (simp; omega))
    · simp only [List.mem_cons, List.not_mem_nil, or_false] at hb
      rcases hb with rfl | rfl | rfl | rfl <;> (rw [u8le, ofNat_toNat (by omega)]; first | (simp; done) | (simp; omega))

theorem utf8_low {n : Nat} (hn : n < 0x80) : utf8 n = [UInt8.ofNat n] := by
  unfold utf8; rw [if_pos hn]

set_option maxRecDepth 10000 in
theorem high_plain {b : Byte} : 0x80 ≤ b → escByte b = [b] := by
  revert b; apply forall_byte; decide

theorem flatMap_high {l : Bytes} (h : ∀ b ∈ l, 0x80 ≤ b) : l.flatMap escByte = l := by
  induction l with
  | nil => rfl
  | cons b l ih =>
    rw [List.flatMap_cons, high_plain (h b (by simp)), ih (fun b hb => h b (by simp [hb]))]
    rfl

theorem flatMap_app (l m : Bytes) : (l ++ m).flatMap escByte = l.flatMap escByte ++ m.flatMap escByte := List.flatMap_append

/-- One character of a clean field. -/
theorem char_cases {n : Nat} (h : Rfc8259.UScalar n) (hc : Clean (utf8 n)) :
    (0x20 ≤ n ∧ n ≠ 0x22 ∧ n ≠ 0x5C ∧ (utf8 n).flatMap escByte = utf8 n) ∨
    (∃ e x, (e, x) ∈ escapes ∧ utf8 n = [x] ∧ e ≠ 0x75 ∧ RfcEsc e ∧ (utf8 n).flatMap escByte = [0x5C, e]) := by
  by_cases hl : n < 0x80
  · rw [utf8_low hl] at hc ⊢
    have hb := hc (UInt8.ofNat n) (by simp)
    have ht := ofNat_toNat (n := n) (by omega)
    have hb' : 0x20 ≤ n ∨ n = 0x0A := by
      rcases hb with hb | hb
      · rw [u8le, ht] at hb; exact .inl hb
      · right; rw [← ht, hb]; rfl
    by_cases h1 : n = 0x22
    · subst h1; exact .inr ⟨0x22, 0x22, by decide, rfl, by decide, by unfold RfcEsc; decide, rfl⟩
    by_cases h2 : n = 0x5C
    · subst h2; exact .inr ⟨0x5C, 0x5C, by decide, rfl, by decide, by unfold RfcEsc; decide, rfl⟩
    by_cases h3 : n = 0x0A
    · subst h3; exact .inr ⟨0x6E, 0x0A, by decide, rfl, by decide, by unfold RfcEsc; decide, rfl⟩
    left
    refine ⟨by omega, h1, h2, ?_⟩
    have g : ∀ m : Nat, n ≠ m → m < 256 → UInt8.ofNat n ≠ UInt8.ofNat m := by
      intro m hm hm' e
      apply hm
      rw [← ht, e, ofNat_toNat hm']
    have e : escByte (UInt8.ofNat n) = [UInt8.ofNat n] := by
      unfold escByte
      rw [if_neg (fun h => h.elim (g 0x5C h2 (by decide)) (g 0x22 h1 (by decide))), if_neg (show ¬ UInt8.ofNat n = 10 from g 0x0A h3 (by decide))]
    simp only [List.flatMap_cons, List.flatMap_nil, List.append_nil, e]
  · left
    exact ⟨by omega, by omega, by omega, flatMap_high (utf8_high h (by omega))⟩

theorem denotes_field : ∀ (cps : List Nat), (∀ n ∈ cps, Rfc8259.UScalar n) → Clean (cps.flatMap utf8) →
    Denotes ((cps.flatMap utf8).flatMap escByte) (cps.flatMap utf8)
  | [], _, _ => .nil
  | n :: cps, hu, hc => by
    have hn := hu n (by simp)
    have ih := denotes_field cps (fun m hm => hu m (by simp [hm])) (fun b hb => hc b (by
      rw [List.flatMap_cons]; exact List.mem_append_right _ hb))
    rw [List.flatMap_cons, flatMap_app]
    rcases char_cases hn (fun b hb => hc b (by rw [List.flatMap_cons]; exact List.mem_append_left _ hb)) with
      ⟨h1, h2, h3, h4⟩ | ⟨e, x, h1, h2, h3, _, h4⟩
    · rw [h4, ← encode_utf8 hn]
      exact .char h1 ((uscalar_iff n).1 hn) h2 h3 ih
    · rw [h4, h2]
      exact .esc h1 ih

theorem rfc_field : ∀ (cps : List Nat), (∀ n ∈ cps, Rfc8259.UScalar n) → Clean (cps.flatMap utf8) →
    RfcChars ((cps.flatMap utf8).flatMap escByte)
  | [], _, _ => .nil
  | n :: cps, hu, hc => by
    have hn := hu n (by simp)
    have ih := rfc_field cps (fun m hm => hu m (by simp [hm])) (fun b hb => hc b (by
      rw [List.flatMap_cons]; exact List.mem_append_right _ hb))
    rw [List.flatMap_cons, flatMap_app]
    rcases char_cases hn (fun b hb => hc b (by rw [List.flatMap_cons]; exact List.mem_append_left _ hb)) with
      ⟨h1, h2, h3, h4⟩ | ⟨e, x, h1, h2, h3, h5, h4⟩
    · rw [h4]
      exact .plain ⟨n, hn, h1, h2, h3, rfl⟩ ih
    · rw [h4]
      exact .esc h5 ih

/-! ## Control characters -/

theorem utf8_clean {n : Nat} (h : Rfc8259.UScalar n) (hn : 0x20 ≤ n) : ∀ b ∈ utf8 n, 0x20 ≤ b := by
  intro b hb
  by_cases hl : n < 0x80
  · rw [utf8_low hl, List.mem_singleton] at hb
    subst hb
    rw [u8le, ofNat_toNat (by omega)]; exact hn
  · have := utf8_high h (by omega) b hb
    rw [u8le] at this ⊢; simp at this ⊢; omega

theorem hexVal_ctrl {b : Byte} {n} (h : GoJson.hexVal b = some n) : 0x20 ≤ b := by
  unfold GoJson.hexVal at h
  rw [u8le]
  split at h
  · rename_i h'; simp only [Bool.and_eq_true, decide_eq_true_eq, u8le] at h'; have := h'.1; simp at this ⊢; omega
  · split at h
    · rename_i h'; simp only [Bool.and_eq_true, decide_eq_true_eq, u8le] at h'; have := h'.1; simp at this ⊢; omega
    · split at h
      · rename_i h'; simp only [Bool.and_eq_true, decide_eq_true_eq, u8le] at h'; have := h'.1; simp at this ⊢; omega
      · cases h

theorem hex4_ctrl {h : Bytes} {n} (hh : Hex4 h n) : ∀ b ∈ h, 0x20 ≤ b := by
  obtain ⟨a, b, c, d, a', b', c', d', rfl, h1, h2, h3, h4, _⟩ := hh
  intro x hx
  simp only [List.mem_cons, List.not_mem_nil, or_false] at hx
  rcases hx with rfl | rfl | rfl | rfl
  · exact hexVal_ctrl h1
  · exact hexVal_ctrl h2
  · exact hexVal_ctrl h3
  · exact hexVal_ctrl h4

theorem denotes_ctrl {c s : Bytes} (h : Denotes c s) : ∀ b ∈ c, 0x20 ≤ b := by
  induction h with
  | nil => simp
  | char h1 h2 h3 h4 _ ih =>
    intro b hb
    rcases List.mem_append.1 hb with hb | hb
    · rw [encode_utf8 ((uscalar_iff _).2 h2)] at hb
      exact utf8_clean ((uscalar_iff _).2 h2) h1 b hb
    · exact ih b hb
  | esc h1 _ ih =>
    intro b hb
    simp only [List.mem_cons] at hb
    rcases hb with rfl | rfl | hb
    · decide
    · revert h1
      simp only [escapes, List.mem_cons, Prod.mk.injEq, List.not_mem_nil, or_false]
      rintro (h | h | h | h | h | h | h | h) <;> rw [h.1] <;> decide
    · exact ih b hb
  | hex h1 _ _ ih =>
    intro b hb
    simp only [List.mem_cons, List.mem_append] at hb
    rcases hb with rfl | rfl | hb | hb
    · decide
    · decide
    · exact hex4_ctrl h1 b hb
    · exact ih b hb
  | pair h1 h2 _ _ _ _ _ ih =>
    intro b hb
    simp only [List.mem_cons, List.mem_append] at hb
    rcases hb with rfl | rfl | hb | rfl | rfl | hb | hb
    · decide
    · decide
    · exact hex4_ctrl h1 b hb
    · decide
    · decide
    · exact hex4_ctrl h2 b hb
    · exact ih b hb

set_option maxRecDepth 10000 in
theorem rfcEsc_ctrl {x : Byte} (h : RfcEsc x) : 0x20 ≤ x := by
  revert h; unfold RfcEsc; revert x; apply forall_byte; decide

theorem hex_ctrl {x : Byte} (h : Hex x) : 0x20 ≤ x := by
  unfold Hex at h
  rw [u8le]
  rcases h with h | h | h <;> (have := h.1; rw [u8le] at this; simp at this ⊢; omega)

theorem rfc_ctrl {c : Bytes} (h : RfcChars c) : ∀ b ∈ c, 0x20 ≤ b := by
  induction h with
  | nil => simp
  | plain h1 _ ih =>
    obtain ⟨n, hn, h2, _, _, rfl⟩ := h1
    intro b hb
    rcases List.mem_append.1 hb with hb | hb
    · exact utf8_clean hn h2 b hb
    · exact ih b hb
  | esc h1 _ ih =>
    intro b hb
    simp only [List.mem_cons] at hb
    rcases hb with rfl | rfl | hb
    · decide
    · exact rfcEsc_ctrl h1
    · exact ih b hb
  | uni h1 h2 h3 h4 _ ih =>
    intro b hb
    simp only [List.mem_cons] at hb
    rcases hb with rfl | rfl | rfl | rfl | rfl | rfl | hb
    · decide
    · decide
    · exact hex_ctrl h1
    · exact hex_ctrl h2
    · exact hex_ctrl h3
    · exact hex_ctrl h4
    · exact ih b hb

set_option maxRecDepth 10000 in
theorem dirty_kept {b : Byte} : ¬ (0x20 ≤ b ∨ b = 0x0A) → b ∈ escByte b := by
  revert b; apply forall_byte; decide

/-- Control characters (other than line feeds) are copied into the literal. -/
theorem clean_of_quoted {f : Bytes} (h : ∀ b ∈ f.flatMap escByte, 0x20 ≤ b) : Clean f := by
  intro b hb
  apply Classical.byContradiction
  intro hd
  exact hd (.inl (h b (List.mem_flatMap.2 ⟨b, hb, dirty_kept hd⟩)))

theorem quoted_inj {f c : Bytes} (h : quoted f = 0x22 :: (c ++ [0x22])) : c = f.flatMap escByte := by
  unfold quoted at h
  exact (List.append_cancel_right (List.cons.inj h).2).symm

set_option maxRecDepth 10000 in
theorem numChar_clean {b : Byte} : NumChar b → 0x20 ≤ b := by
  unfold NumChar; revert b; apply forall_byte; decide

theorem number_clean {f : Bytes} (h : Number f) : Clean f := fun b hb => .inl (numChar_clean (number_chars h b hb))

end Verif.Csv
