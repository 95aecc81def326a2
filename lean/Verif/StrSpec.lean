import Verif.GoJson

/-!
# The string denoted by a JSON string literal

RFC 8259 section 7, with strings as UTF-8.  Literals with unpaired surrogates denote nothing here.
-/

namespace Verif
open Utf8

/-- A Unicode scalar value. -/
def UScalar (r : Nat) : Prop := r ≤ 0x10FFFF ∧ ¬ (0xD800 ≤ r ∧ r < 0xE000)

/-- The two-character escapes. -/
def escapes : List (Byte × Byte) :=
  [(c%'"', 0x22), (c%'\\', 0x5C), (c%'/', 0x2F), (c%'b', 0x08), (c%'f', 0x0C), (c%'n', 0x0A), (c%'r', 0x0D), (c%'t', 0x09)]

/-- Four hexadecimal digits denote a number. -/
def Hex4 (h : Bytes) (n : Nat) : Prop :=
  ∃ a b c d a' b' c' d', h = [a, b, c, d] ∧ GoJson.hexVal a = some a' ∧ GoJson.hexVal b = some b' ∧
    GoJson.hexVal c = some c' ∧ GoJson.hexVal d = some d' ∧ n = ((a' * 16 + b') * 16 + c') * 16 + d'

/-- `Denotes c s`: between quotes, `c` denotes the string `s`. -/
inductive Denotes : Bytes → Bytes → Prop
  | nil : Denotes [] []
  | char {r c s} : 0x20 ≤ r → UScalar r → r ≠ 0x22 → r ≠ 0x5C → Denotes c s → Denotes (encode r ++ c) (encode r ++ s)
  | esc {e x c s} : (e, x) ∈ escapes → Denotes c s → Denotes (0x5C :: e :: c) (x :: s)
  | hex {h n c s} : Hex4 h n → UScalar n → Denotes c s → Denotes (0x5C :: 0x75 :: (h ++ c)) (encode n ++ s)
  | pair {h n h' n' c s} : Hex4 h n → Hex4 h' n' → 0xD800 ≤ n → n < 0xDC00 → 0xDC00 ≤ n' → n' < 0xE000 → Denotes c s →
      Denotes (0x5C :: 0x75 :: (h ++ 0x5C :: 0x75 :: (h' ++ c))) (encode (0x10000 + (n - 0xD800) * 1024 + (n' - 0xDC00)) ++ s)

/-- The scalar is a string literal for `s`, and its flag "no escapes" is right. -/
def StrIs (k : Scalar) (s : Bytes) : Prop :=
  k.type = .str ∧ ∃ c, k.bytes = 0x22 :: (c ++ [0x22]) ∧ Denotes c s ∧ (k.unesc = true → (0x5C : Byte) ∉ c)

/-- The string consists of these characters. -/
def Chars (s : Bytes) (cs : List Nat) : Prop := s = cs.flatMap encode ∧ ∀ r ∈ cs, UScalar r

section
open GoJson

theorem ofNat_toNat {n : Nat} (h : n < 256) : (UInt8.ofNat n).toNat = n := by
  simp [UInt8.toNat_ofNat']; omega

theorem u8le {a b : UInt8} : a ≤ b ↔ a.toNat ≤ b.toNat := UInt8.le_iff_toNat_le
theorem u8lt {a b : UInt8} : a < b ↔ a.toNat < b.toNat := UInt8.lt_iff_toNat_lt

theorem decode_encode {r : Nat} (h : UScalar r) (l : Bytes) : decode (encode r ++ l) = some (r, (encode r).length) := by
  obtain ⟨h1, h2⟩ := h
  have d1 : r / 64 / 64 = r / 4096 := by rw [Nat.div_div_eq_div_mul]
  have d2 : r / 4096 / 64 = r / 262144 := by rw [Nat.div_div_eq_div_mul]
  unfold encode
  split
  · rename_i h
    have e := ofNat_toNat (n := r) (by omega)
    simp only [List.cons_append, List.nil_append, decode]
    rw [if_pos (by rw [u8lt, e]; simpa using h), e]; rfl
  · split
    · rename_i h h'
      have e0 := ofNat_toNat (n := 0xC0 + r / 64) (by omega)
      have e1 := ofNat_toNat (n := 0x80 + r % 64) (by omega)
      simp only [List.cons_append, List.nil_append, decode, isCont, u8le, u8lt, e0, e1]
      rw [if_neg (by simp; omega), if_pos (by simp; omega), if_pos (by simp; omega)]
      simp only [List.length_cons, List.length_nil, Option.some.injEq, Prod.mk.injEq, and_true]
      omega
    · rw [if_neg (by simp [isSurrogate]; omega)]
      split
      · rename_i h h' h''
        have e0 := ofNat_toNat (n := 0xE0 + r / 4096) (by omega)
        have e1 := ofNat_toNat (n := 0x80 + r / 64 % 64) (by omega)
        have e2 := ofNat_toNat (n := 0x80 + r % 64) (by omega)
        simp only [List.cons_append, List.nil_append, decode, isCont, u8le, u8lt, e0, e1, e2]
        rw [if_neg (by simp; omega), if_neg (by simp; omega), if_pos (by simp; omega)]
        rw [if_pos]
        · simp only [List.length_cons, List.length_nil, Option.some.injEq, Prod.mk.injEq, and_true]
          omega
        · have q1 : (UInt8.ofNat (0xE0 + r / 4096) = 0xE0) ↔ r / 4096 = 0 := by
            rw [← UInt8.toNat_inj, e0]; simp
          have q2 : (UInt8.ofNat (0xE0 + r / 4096) = 0xED) ↔ r / 4096 = 13 := by
            rw [← UInt8.toNat_inj, e0]; simp; omega
          simp only [q1, q2, Bool.and_eq_true, decide_eq_true_eq]
          refine ⟨⟨?_, ?_⟩, ?_, ?_⟩
          · split <;> simp <;> omega
          · split <;> simp <;> omega
          · simp
          · simp; omega
      · rename_i h h' h''
        have e0 := ofNat_toNat (n := 0xF0 + r / 262144) (by omega)
        have e1 := ofNat_toNat (n := 0x80 + r / 4096 % 64) (by omega)
        have e2 := ofNat_toNat (n := 0x80 + r / 64 % 64) (by omega)
        have e3 := ofNat_toNat (n := 0x80 + r % 64) (by omega)
        simp only [List.cons_append, List.nil_append, decode, isCont, u8le, u8lt, e0, e1, e2, e3]
        rw [if_neg (by simp; omega), if_neg (by simp; omega), if_neg (by simp; omega), if_pos (by simp; omega)]
        rw [if_pos]
        · simp only [List.length_cons, List.length_nil, Option.some.injEq, Prod.mk.injEq, and_true]
          omega
        · have q1 : (UInt8.ofNat (0xF0 + r / 262144) = 0xF0) ↔ r / 262144 = 0 := by
            rw [← UInt8.toNat_inj, e0]; simp
          have q2 : (UInt8.ofNat (0xF0 + r / 262144) = 0xF4) ↔ r / 262144 = 4 := by
            rw [← UInt8.toNat_inj, e0]; simp; omega
          simp only [q1, q2, Bool.and_eq_true, decide_eq_true_eq]
          refine ⟨⟨⟨?_, ?_⟩, ?_, ?_⟩, ?_, ?_⟩
          · split <;> simp <;> omega
          · split <;> simp <;> omega
          · simp
          · simp; omega
          · simp
          · simp; omega

theorem encode_ne_nil (r : Nat) : encode r ≠ [] := by
  unfold encode replacement; repeat' split
  all_goals simp

/-- First byte of a character. -/
theorem encode_head {r : Nat} (h : UScalar r) :
    ∃ b l, encode r = b :: l ∧ (r < 0x80 → b = UInt8.ofNat r ∧ l = []) ∧ (0x80 ≤ r → 0x80 ≤ b) := by
  obtain ⟨h1, h2⟩ := h
  unfold encode
  split
  · exact ⟨_, _, rfl, fun _ => ⟨rfl, rfl⟩, by omega⟩
  · split
    · refine ⟨_, _, rfl, by omega, fun _ => ?_⟩
      rw [u8le, ofNat_toNat (by omega)]; simp; omega
    · rw [if_neg (by simp [isSurrogate]; omega)]
      split
      · refine ⟨_, _, rfl, by omega, fun _ => ?_⟩
        rw [u8le, ofNat_toNat (by omega)]; simp; omega
      · refine ⟨_, _, rfl, by omega, fun _ => ?_⟩
        rw [u8le, ofNat_toNat (by omega)]; simp; omega

theorem hex4_ok {h : Bytes} {n : Nat} (hh : Hex4 h n) (r : Bytes) : hex4 (h ++ r) = some (n, r) := by
  obtain ⟨a, b, c, d, a', b', c', d', rfl, h1, h2, h3, h4, rfl⟩ := hh
  simp only [List.cons_append, List.nil_append, hex4, h1, h2, h3, h4]
  simp only [Option.bind_eq_bind, Option.bind_some, Option.some.injEq, Prod.mk.injEq, and_true]
  omega

/-- The library decodes literals to what they denote. -/
theorem unq_denotes {c s : Bytes} (h : Denotes c s) : ∀ f, c.length ≤ f → unq f c = some s := by
  induction h with
  | nil => intro f _; cases f <;> rfl
  | @char r c s h1 h2 h3 h4 h ih =>
    intro f hf
    obtain ⟨b, l, e1, e2, e3⟩ := encode_head h2
    have hd := decode_encode h2 c
    rw [e1] at hf hd ⊢
    simp only [List.cons_append, List.length_cons, List.length_append] at hf hd ⊢
    obtain ⟨f, rfl⟩ : ∃ f', f = f' + 1 := ⟨f - 1, by omega⟩
    simp only [unq]
    by_cases hr : r < 0x80
    · obtain ⟨rfl, rfl⟩ := e2 hr
      have e := ofNat_toNat (n := r) (by omega)
      rw [if_neg (by rw [← UInt8.toNat_inj, e]; simp; omega),
        if_neg (by rw [← UInt8.toNat_inj, u8lt, e]; simp; omega), if_pos (by rw [u8lt, e]; simpa using hr)]
      rw [List.nil_append, ih f (by simp at hf; omega)]
      rfl
    · have hb := e3 (by omega)
      rw [u8le] at hb
      simp at hb
      rw [if_neg (by rw [← UInt8.toNat_inj]; simp; omega),
        if_neg (by rw [← UInt8.toNat_inj, u8lt]; simp; omega), if_neg (by rw [u8lt]; simp; omega), hd]
      simp only
      have : (b :: (l ++ c)).drop ((l.length + 1)) = c := by simp
      rw [this, ih f (by omega), e1]
      rfl
  | @esc e x c s he h ih =>
    intro f hf
    simp only [List.length_cons] at hf
    obtain ⟨f, rfl⟩ : ∃ f', f = f' + 1 := ⟨f - 1, by omega⟩
    simp only [unq]
    have hih := ih f (by omega)
    simp only [escapes, List.mem_cons, Prod.mk.injEq, List.not_mem_nil, or_false] at he
    have h1 : e ≠ 0x75 := by rcases he with h | h | h | h | h | h | h | h <;> rw [h.1] <;> decide
    have h2 : simpleEsc e = some x := by rcases he with h | h | h | h | h | h | h | h <;> rw [h.1, h.2] <;> decide
    simp only [if_true, h1, if_false, h2, hih]
    rfl
  | @hex hx n c s hh hu h ih =>
    intro f hf
    simp only [List.length_cons, List.length_append] at hf
    obtain ⟨f, rfl⟩ : ∃ f', f = f' + 1 := ⟨f - 1, by omega⟩
    simp only [unq, if_true]
    rw [hex4_ok hh]
    simp only
    rw [if_neg (by simp [isSurrogate]; have := hu.2; omega), ih f (by omega)]
    rfl
  | @pair hx n hx' n' c s hh hh' h1 h2 h3 h4 h ih =>
    intro f hf
    simp only [List.length_cons, List.length_append] at hf
    obtain ⟨f, rfl⟩ : ∃ f', f = f' + 1 := ⟨f - 1, by omega⟩
    simp only [unq, if_true]
    rw [hex4_ok hh]
    simp only
    rw [if_pos (by simp [isSurrogate]; omega)]
    simp only [getu4]
    rw [hex4_ok hh']
    simp only [decodePair]
    rw [if_pos (by simp; omega), ih f (by omega)]
    simp only [Option.map_some]
    have : (n - 0xD800) * 1024 + (n' - 0xDC00) + 0x10000 = 0x10000 + (n - 0xD800) * 1024 + (n' - 0xDC00) := by omega
    rw [this]

/-- Without escapes a literal denotes its content. -/
theorem denotes_plain {c s : Bytes} (h : Denotes c s) (hn : (0x5C : Byte) ∉ c) : c = s := by
  induction h with
  | nil => rfl
  | char _ _ _ _ _ ih => rw [ih (by simp at hn; exact hn.2)]
  | esc _ _ _ => simp at hn
  | hex _ _ _ _ => simp at hn
  | pair _ _ _ _ _ _ _ _ => simp at hn

/-- `ToString` gives the denoted string. -/
theorem toStr_ok {k : Scalar} {s : Bytes} (h : StrIs k s) : toStr k = some s := by
  obtain ⟨ht, c, hb, hd, hu⟩ := h
  unfold toStr
  rw [hb]
  split
  · rename_i he
    rw [if_neg (by simp), denotes_plain hd (hu he)]
    simp
  · have : (c ++ [(0x22 : Byte)]).getLast? = some 0x22 := by simp
    simp only [unquote, this, and_self, if_true]
    rw [List.dropLast_concat, unq_denotes hd _ (by simp)]

theorem equalsString_ok {k : Scalar} {s t : Bytes} (h : StrIs k s) : equalsString k t = some (decide (s = t)) := by
  unfold equalsString
  rw [if_neg (by simp [h.1]), toStr_ok h]
  rfl

end

end Verif
