import Verif.StrSpec
import Verif.PathRun

/-!
# Strings as sequences of characters

The order of strings, their length, and the literals that are written for them.
-/

set_option linter.unusedSimpArgs false
set_option linter.unusedVariables false

namespace Verif
open GoJson Utf8

theorem Chars.nil : Chars [] [] := ⟨rfl, by simp⟩

theorem Chars.cons {s : Bytes} {r : Nat} {cs : List Nat} (hr : UScalar r) (h : Chars s cs) : Chars (encode r ++ s) (r :: cs) := by
  refine ⟨by rw [h.1]; rfl, ?_⟩
  intro x hx
  rcases List.mem_cons.1 hx with rfl | hx
  · exact hr
  · exact h.2 x hx

theorem encode_small {r : Nat} (h : r < 0x80) : encode r = [UInt8.ofNat r] := by unfold encode; rw [if_pos h]

/-- Literals denote strings of characters. -/
theorem Denotes.chars {c s : Bytes} (h : Denotes c s) : ∃ cs, Chars s cs := by
  induction h with
  | nil => exact ⟨[], .nil⟩
  | char _ h2 _ _ _ ih => obtain ⟨cs, h⟩ := ih; exact ⟨_, .cons h2 h⟩
  | @esc e x c s h1 _ ih =>
    obtain ⟨cs, h⟩ := ih
    have : encode x.toNat = [x] ∧ UScalar x.toNat := by
      have hx : x.toNat < 0x80 := by
        simp only [escapes, List.mem_cons, Prod.mk.injEq, List.not_mem_nil, or_false] at h1
        rcases h1 with h | h | h | h | h | h | h | h <;> rw [h.2] <;> decide
      exact ⟨by rw [encode_small hx]; simp, by omega, by omega⟩
    exact ⟨x.toNat :: cs, by have := this.1 ▸ Chars.cons this.2 h; exact this⟩
  | hex _ h2 _ ih => obtain ⟨cs, h⟩ := ih; exact ⟨_, .cons h2 h⟩
  | pair _ _ h1 h2 h3 h4 _ ih => obtain ⟨cs, h⟩ := ih; exact ⟨_, .cons ⟨by omega, by omega⟩ h⟩

theorem StrIs.chars {k : Scalar} {s : Bytes} (h : StrIs k s) : ∃ cs, Chars s cs := by
  obtain ⟨_, c, _, h, _⟩ := h
  exact h.chars

/-! ## Order -/

theorem bytesLt_nat (a b : Bytes) : JPath.bytesLt a b = true ↔ a.map (·.toNat) < b.map (·.toNat) := by
  induction a generalizing b with
  | nil => cases b <;> simp [JPath.bytesLt]
  | cons x a ih =>
    cases b with
    | nil => simp [JPath.bytesLt]
    | cons y b =>
      simp only [JPath.bytesLt, List.map_cons, List.cons_lt_cons_iff]
      rw [← ih]
      by_cases h1 : x < y
      · simp [h1, u8lt.1 h1]
      · by_cases h2 : y < x
        · have := u8lt.1 h2
          simp [h1, h2]
          constructor
          · omega
          · intro e; omega
        · have e : x = y := by
            apply UInt8.toNat_inj.1
            rw [u8lt] at h1 h2
            omega
          subst e
          simp

theorem encode_lt {r r' : Nat} (h : UScalar r) (h' : UScalar r') (hlt : r < r') (l l' : List Nat) :
    (encode r).map (·.toNat) ++ l < (encode r').map (·.toNat) ++ l' := by
  obtain ⟨a1, a2⟩ := h
  obtain ⟨b1, b2⟩ := h'
  have hs : (isSurrogate r || decide (0x10FFFF < r)) = false := by simp [isSurrogate]; omega
  have hs' : (isSurrogate r' || decide (0x10FFFF < r')) = false := by simp [isSurrogate]; omega
  unfold encode
  simp only [hs, hs', if_false, Bool.false_eq_true]
  by_cases c1 : r < 0x80
  · rw [if_pos c1]
    by_cases d1 : r' < 0x80
    · rw [if_pos d1]
      simp only [List.map_cons, List.map_nil, List.cons_append, List.nil_append, List.cons_lt_cons_iff, UInt8.toNat_ofNat']
      left; omega
    rw [if_neg d1]
    by_cases d2 : r' < 0x800
    · rw [if_pos d2]
      simp only [List.map_cons, List.map_nil, List.cons_append, List.nil_append, List.cons_lt_cons_iff, UInt8.toNat_ofNat']
      left; omega
    rw [if_neg d2]
    by_cases d3 : r' < 0x10000
    · rw [if_pos d3]
      simp only [List.map_cons, List.map_nil, List.cons_append, List.nil_append, List.cons_lt_cons_iff, UInt8.toNat_ofNat']
      left; omega
    · rw [if_neg d3]
      simp only [List.map_cons, List.map_nil, List.cons_append, List.nil_append, List.cons_lt_cons_iff, UInt8.toNat_ofNat']
      left; omega
  rw [if_neg c1, if_neg (c := r' < 0x80) (by omega)]
  by_cases c2 : r < 0x800
  · rw [if_pos c2]
    by_cases d2 : r' < 0x800
    · rw [if_pos d2]
      simp only [List.map_cons, List.map_nil, List.cons_append, List.nil_append, List.cons_lt_cons_iff, UInt8.toNat_ofNat']
      have : (0xC0 + r / 64) % 2 ^ 8 < (0xC0 + r' / 64) % 2 ^ 8 ∨ (0xC0 + r / 64) % 2 ^ 8 = (0xC0 + r' / 64) % 2 ^ 8 ∧
        (0x80 + r % 64) % 2 ^ 8 < (0x80 + r' % 64) % 2 ^ 8 := by omega
      exact this.imp id (And.imp id Or.inl)
    rw [if_neg d2]
    by_cases d3 : r' < 0x10000
    · rw [if_pos d3]
      simp only [List.map_cons, List.map_nil, List.cons_append, List.nil_append, List.cons_lt_cons_iff, UInt8.toNat_ofNat']
      left; omega
    · rw [if_neg d3]
      simp only [List.map_cons, List.map_nil, List.cons_append, List.nil_append, List.cons_lt_cons_iff, UInt8.toNat_ofNat']
      left; omega
  rw [if_neg c2, if_neg (c := r' < 0x800) (by omega)]
  by_cases c3 : r < 0x10000
  · rw [if_pos c3]
    by_cases d3 : r' < 0x10000
    · rw [if_pos d3]
      simp only [List.map_cons, List.map_nil, List.cons_append, List.nil_append, List.cons_lt_cons_iff, UInt8.toNat_ofNat']
      have : (0xE0 + r / 4096) % 2 ^ 8 < (0xE0 + r' / 4096) % 2 ^ 8 ∨ (0xE0 + r / 4096) % 2 ^ 8 = (0xE0 + r' / 4096) % 2 ^ 8 ∧
        ((0x80 + r / 64 % 64) % 2 ^ 8 < (0x80 + r' / 64 % 64) % 2 ^ 8 ∨ (0x80 + r / 64 % 64) % 2 ^ 8 = (0x80 + r' / 64 % 64) % 2 ^ 8 ∧
        (0x80 + r % 64) % 2 ^ 8 < (0x80 + r' % 64) % 2 ^ 8) := by omega
      exact this.imp id (And.imp id (Or.imp id (And.imp id Or.inl)))
    · rw [if_neg d3]
      simp only [List.map_cons, List.map_nil, List.cons_append, List.nil_append, List.cons_lt_cons_iff, UInt8.toNat_ofNat']
      left; omega
  rw [if_neg c3, if_neg (c := r' < 0x10000) (by omega)]
  simp only [List.map_cons, List.map_nil, List.cons_append, List.nil_append, List.cons_lt_cons_iff, UInt8.toNat_ofNat']
  have : (0xF0 + r / 262144) % 2 ^ 8 < (0xF0 + r' / 262144) % 2 ^ 8 ∨ (0xF0 + r / 262144) % 2 ^ 8 = (0xF0 + r' / 262144) % 2 ^ 8 ∧
    ((0x80 + r / 4096 % 64) % 2 ^ 8 < (0x80 + r' / 4096 % 64) % 2 ^ 8 ∨ (0x80 + r / 4096 % 64) % 2 ^ 8 = (0x80 + r' / 4096 % 64) % 2 ^ 8 ∧
    ((0x80 + r / 64 % 64) % 2 ^ 8 < (0x80 + r' / 64 % 64) % 2 ^ 8 ∨ (0x80 + r / 64 % 64) % 2 ^ 8 = (0x80 + r' / 64 % 64) % 2 ^ 8 ∧
    (0x80 + r % 64) % 2 ^ 8 < (0x80 + r' % 64) % 2 ^ 8)) := by
    have dig : ∀ r : Nat, r ≤ 0x10FFFF → ∃ a b c d, a < 5 ∧ b < 64 ∧ c < 64 ∧ d < 64 ∧ r / 262144 = a ∧ r / 4096 % 64 = b ∧ r / 64 % 64 = c ∧
        r % 64 = d ∧ r = ((a * 64 + b) * 64 + c) * 64 + d := by
      intro r hr
      have d1 : r / 64 / 64 = r / 4096 := by rw [Nat.div_div_eq_div_mul]
      have d2 : r / 4096 / 64 = r / 262144 := by rw [Nat.div_div_eq_div_mul]
      exact ⟨_, _, _, _, by omega, by omega, by omega, by omega, rfl, rfl, rfl, rfl, by omega⟩
    obtain ⟨a, b, c, d, x1, x2, x3, x4, y1, y2, y3, y4, z⟩ := dig r a1
    obtain ⟨a', b', c', d', x1', x2', x3', x4', y1', y2', y3', y4', z'⟩ := dig r' b1
    rw [y1, y2, y3, y4, y1', y2', y3', y4']
    rw [z, z'] at hlt
    clear z z' y1 y2 y3 y4 y1' y2' y3' y4' dig
    rw [Nat.mod_eq_of_lt (show 0xF0 + a < 2 ^ 8 by omega), Nat.mod_eq_of_lt (show 0xF0 + a' < 2 ^ 8 by omega),
      Nat.mod_eq_of_lt (show 0x80 + b < 2 ^ 8 by omega), Nat.mod_eq_of_lt (show 0x80 + b' < 2 ^ 8 by omega),
      Nat.mod_eq_of_lt (show 0x80 + c < 2 ^ 8 by omega), Nat.mod_eq_of_lt (show 0x80 + c' < 2 ^ 8 by omega),
      Nat.mod_eq_of_lt (show 0x80 + d < 2 ^ 8 by omega), Nat.mod_eq_of_lt (show 0x80 + d' < 2 ^ 8 by omega)]
    omega
  exact this.imp id (And.imp id (Or.imp id (And.imp id (Or.imp id (And.imp id Or.inl)))))

/-- The order of strings is the order of their characters. -/
theorem bytesLt_chars {s t : Bytes} {cs ds : List Nat} (hs : Chars s cs) (ht : Chars t ds) : JPath.bytesLt s t = true ↔ cs < ds := by
  rw [bytesLt_nat]
  obtain ⟨rfl, h1⟩ := hs
  obtain ⟨rfl, h2⟩ := ht
  induction cs generalizing ds with
  | nil =>
    cases ds with
    | nil => simp
    | cons y ds =>
      have := encode_ne_nil y
      cases he : encode y with
      | nil => exact absurd he this
      | cons b l => simp [he]
  | cons x cs ih =>
    cases ds with
    | nil => simp
    | cons y ds =>
      have hx := h1 x (List.mem_cons_self ..)
      have hy := h2 y (List.mem_cons_self ..)
      simp only [List.flatMap_cons, List.map_append, List.cons_lt_cons_iff]
      rcases Nat.lt_trichotomy x y with h | h | h
      · exact ⟨fun _ => .inl h, fun _ => encode_lt hx hy h _ _⟩
      · subst h
        rw [← ih (fun r hr => h1 r (List.mem_cons_of_mem _ hr)) (fun r hr => h2 r (List.mem_cons_of_mem _ hr))]
        simp only [Nat.lt_irrefl, true_and, false_or]
        generalize (encode x).map (·.toNat) = p
        induction p with
        | nil => simp
        | cons a p ih => simp [List.cons_lt_cons_iff, ih]
      · constructor
        · intro e
          exact absurd (encode_lt hy hx h _ _) (List.lt_asymm e)
        · omega

/-- The characters of a string are determined. -/
theorem Chars.unique {s : Bytes} {cs ds : List Nat} (h : Chars s cs) (h' : Chars s ds) : cs = ds := by
  have e1 := bytesLt_chars h h'
  have e2 := bytesLt_chars h' h
  have irr : ¬ JPath.bytesLt s s = true := by
    rw [bytesLt_nat]; exact List.lt_irrefl _
  exact List.le_antisymm (List.not_lt.1 (fun e => irr (e2.2 e))) (List.not_lt.1 (fun e => irr (e1.2 e)))

/-! ## Length -/

/-- The number of characters. -/
theorem count_chars {s : Bytes} {cs : List Nat} (h : Chars s cs) : ∀ f, s.length ≤ f → count f s = cs.length := by
  obtain ⟨rfl, h⟩ := h
  induction cs with
  | nil => intro f _; cases f <;> rfl
  | cons r cs ih =>
    intro f hf
    have hr := h r (List.mem_cons_self ..)
    have hd := decode_encode hr (cs.flatMap encode)
    cases he : encode r with
    | nil => exact absurd he (encode_ne_nil r)
    | cons b l =>
      simp only [List.flatMap_cons, he, List.cons_append] at hf hd ⊢
      cases f with
      | zero => simp at hf
      | succ f =>
        simp only [count, hd]
        simp only [Option.map_some, Option.getD_some, List.length_cons, List.drop_succ_cons, List.drop_left]
        rw [ih (fun r hr => h r (List.mem_cons_of_mem _ hr)) f (by simp only [List.length_cons, List.length_append] at hf; omega)]
        omega

/-! ## Literals -/

theorem hexVal_hexDigit : ∀ n, n < 16 → hexVal (hexDigit n) = some n := by decide

theorem denotes_ascii (b : Byte) (hb : b < 0x80) {c s : Bytes} (h : Denotes c s) : Denotes (quoteAscii b ++ c) (b :: s) := by
  have hn : b.toNat < 0x80 := u8lt.1 hb
  have hu : UScalar b.toNat := ⟨by omega, by omega⟩
  have he : encode b.toNat = [b] := by rw [encode_small hn]; simp
  have esc : ∀ e : Byte, (e, b) ∈ escapes → Denotes ([0x5C, e] ++ c) (b :: s) := fun e h1 => .esc h1 h
  unfold quoteAscii
  split
  · rename_i h1
    rcases h1 with rfl | rfl
    · exact esc _ (by decide)
    · exact esc _ (by decide)
  split
  · rename_i h1 h2; subst h2; exact esc _ (by decide)
  split
  · rename_i h1 h2; subst h2; exact esc _ (by decide)
  split
  · rename_i h1 h2; subst h2; exact esc _ (by decide)
  split
  · rename_i h1 h2; subst h2; exact esc _ (by decide)
  split
  · rename_i h1 h2; subst h2; exact esc _ (by decide)
  split
  · have := Denotes.hex (h := [0x30, 0x30, hexDigit (b.toNat / 16), hexDigit (b.toNat % 16)]) (n := b.toNat)
      ⟨_, _, _, _, 0, 0, b.toNat / 16, b.toNat % 16, rfl, by decide, by decide, hexVal_hexDigit _ (by omega), hexVal_hexDigit _ (by omega), by omega⟩
      hu h
    rw [he] at this
    exact this
  · rename_i h1 _ _ _ _ _ h2
    have := Denotes.char (r := b.toNat) (by
      simp only [not_or] at h2
      have := h2.1
      rw [u8lt] at this
      have e : (0x20 : UInt8).toNat = 0x20 := rfl
      omega) hu (by
      intro e
      exact h1 (.inl (UInt8.toNat_inj.1 e))) (by
      intro e
      exact h1 (.inr (UInt8.toNat_inj.1 e))) h
    rw [he] at this
    exact this

theorem quoteBody_denotes {s : Bytes} {cs : List Nat} (h : Chars s cs) : ∀ f, s.length ≤ f → Denotes (quoteBody f s) s := by
  obtain ⟨rfl, h⟩ := h
  induction cs with
  | nil => intro f _; cases f <;> exact .nil
  | cons r cs ih =>
    intro f hf
    have hr := h r (List.mem_cons_self ..)
    have hd := decode_encode hr (cs.flatMap encode)
    obtain ⟨b, l, he, hlo, hhi⟩ := encode_head hr
    have hch : 0x80 ≤ r → ∀ {c s}, Denotes c s → Denotes (encode r ++ c) (encode r ++ s) := fun h8 =>
      Denotes.char (by omega) hr (by omega) (by omega)
    simp only [List.flatMap_cons, he, List.cons_append] at hf hd hch ⊢
    cases f with
    | zero => simp at hf
    | succ f =>
      have ih := fun f => ih (fun r hr => h r (List.mem_cons_of_mem _ hr)) f
      simp only [quoteBody]
      by_cases h8 : r < 0x80
      · obtain ⟨e1, e2⟩ := hlo h8
        subst e2
        have hb : b < 0x80 := by
          rw [e1, u8lt]; simp [UInt8.toNat_ofNat']; omega
        rw [if_pos hb]
        exact denotes_ascii b hb (ih f (by simpa using hf))
      · have hb : ¬ b < 0x80 := by
          have := u8le.1 (hhi (by omega))
          rw [u8lt]; omega
        rw [if_neg hb, hd]
        simp only [List.length_cons, List.take_succ_cons, List.drop_succ_cons, List.take_left, List.drop_left]
        have ihf := ih f (by simp only [List.length_cons, List.length_append] at hf; omega)
        by_cases hx : r = 0x2028 ∨ r = 0x2029
        · rw [if_pos hx]
          have := Denotes.hex (h := [0x32, 0x30, 0x32, hexDigit (r % 16)]) (n := r)
            ⟨_, _, _, _, 2, 0, 2, r % 16, rfl, by decide, by decide, by decide, hexVal_hexDigit _ (by omega), by omega⟩ hr ihf
          rw [he] at this
          exact this
        · rw [if_neg hx]
          exact hch (by omega) ihf

/-- The literal written for a string denotes it. -/
theorem stringScalar_is {s : Bytes} {cs : List Nat} (h : Chars s cs) : StrIs (stringScalar s) s :=
  ⟨rfl, quoteBody s.length s, rfl, quoteBody_denotes h _ (Nat.le_refl _), fun e => nomatch e⟩

end Verif
