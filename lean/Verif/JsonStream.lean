import Verif.JsonGrammar

/-!
# Streams of JSON texts (helper lemmas)
-/

set_option linter.unusedVariables false

namespace Verif
open Rfc8259 JVal.toks

mutual

theorem Rfc8259.Text.mono {S T : Bytes → Prop} (hST : ∀ c, S c → T c) : ∀ {v : JVal} {b : Bytes}, Text S v b → Text T v b
  | _, _, .true => .true
  | _, _, .false => .false
  | _, _, .null => .null
  | _, _, .num h => .num h
  | _, _, .str h => .str (hST _ h)
  | _, _, .arr0 h => .arr0 h
  | _, _, .obj0 h => .obj0 h
  | _, _, .arr h => .arr (Rfc8259.Items.mono hST h)
  | _, _, .obj h => .obj (Rfc8259.Members.mono hST h)

theorem Rfc8259.Items.mono {S T : Bytes → Prop} (hST : ∀ c, S c → T c) : ∀ {v : List JVal} {b : Bytes}, Items S v b → Items T v b
  | _, _, .one h1 h2 h3 => .one h1 (Rfc8259.Text.mono hST h2) h3
  | _, _, .more h1 h2 h3 h4 => .more h1 (Rfc8259.Text.mono hST h2) h3 (Rfc8259.Items.mono hST h4)

theorem Rfc8259.Members.mono {S T : Bytes → Prop} (hST : ∀ c, S c → T c) :
    ∀ {v : List (Scalar × JVal)} {b : Bytes}, Members S v b → Members T v b
  | _, _, .one h1 h2 h3 h4 h5 h6 => .one h1 (hST _ h2) h3 h4 (Rfc8259.Text.mono hST h5) h6
  | _, _, .more h1 h2 h3 h4 h5 h6 h7 =>
    .more h1 (hST _ h2) h3 h4 (Rfc8259.Text.mono hST h5) h6 (Rfc8259.Members.mono hST h7)

end

theorem Rfc8259.SepStream.mono {S T : Bytes → Prop} (hST : ∀ c, S c → T c) {vs : List JVal} {b : Bytes} (h : SepStream S vs b) :
    SepStream T vs b := by
  induction h with
  | nil h => exact .nil h
  | cons h1 h2 h3 _ ih => exact .cons h1 (h2.mono hST) h3 ih

theorem Rfc8259.Stream.mono {S T : Bytes → Prop} (hST : ∀ c, S c → T c) {vs : List JVal} {b : Bytes} (h : Stream S vs b) :
    Stream T vs b := by
  induction h with
  | nil h => exact .nil h
  | cons h1 h2 _ ih => exact .cons h1 (h2.mono hST) ih

theorem utf8_mem_ascii {n : Nat} (h : n < 0x80) : utf8 n = [.ofNat n] := by simp [utf8, h]

/-- The bytes of a character outside ASCII. -/
theorem utf8_mem_high {n : Nat} (h : UScalar n) (h1 : 0x80 ≤ n) : ∀ b ∈ utf8 n, 0x80 ≤ b ∧ b ≤ 0xF4 := by
  have hn : n < 0x110000 := by rcases h with h | h <;> omega
  have key : ∀ k : Nat, 0x80 ≤ k → k ≤ 0xF4 → (0x80 : UInt8) ≤ .ofNat k ∧ UInt8.ofNat k ≤ 0xF4 := by
    intro k h1 h2
    have : (UInt8.ofNat k).toNat = k := by simp; omega
    constructor
    · rw [UInt8.le_iff_toNat_le, this]; exact h1
    · rw [UInt8.le_iff_toNat_le, this]; exact h2
  intro b hb
  unfold utf8 at hb
  rw [if_neg (by omega)] at hb
  split at hb
  · simp only [List.mem_cons, List.not_mem_nil, or_false] at hb
    rcases hb with rfl | rfl
    · exact key _ (by omega) (by omega)
    · exact key _ (by omega) (by omega)
  split at hb
  · simp only [List.mem_cons, List.not_mem_nil, or_false] at hb
    rcases hb with rfl | rfl | rfl
    · exact key _ (by omega) (by omega)
    · exact key _ (by omega) (by omega)
    · exact key _ (by omega) (by omega)
  · simp only [List.mem_cons, List.not_mem_nil, or_false] at hb
    rcases hb with rfl | rfl | rfl | rfl
    · exact key _ (by omega) (by omega)
    · exact key _ (by omega) (by omega)
    · exact key _ (by omega) (by omega)
    · exact key _ (by omega) (by omega)

theorem utf8_ne_nil (n : Nat) : utf8 n ≠ [] := by
  unfold utf8; split; · simp
  split; · simp
  split <;> simp

set_option maxRecDepth 10000 in
theorem high_lax (b : Byte) : 0x80 ≤ b → b ≤ 0xF4 → 0x20 ≤ b ∧ b ≠ 0x22 ∧ b ≠ 0x5C ∧ b ≠ 0xFF := by
  revert b
  apply forall_byte
  decide

theorem rfcPlain_lax {c : Bytes} (h : RfcPlain c) : ∀ b ∈ c, 0x20 ≤ b ∧ b ≠ 0x22 ∧ b ≠ 0x5C ∧ b ≠ 0xFF := by
  obtain ⟨n, hn, h1, h2, h3, rfl⟩ := h
  intro b hb
  by_cases ha : n < 0x80
  · rw [utf8_mem_ascii ha] at hb
    simp only [List.mem_singleton] at hb
    subst hb
    have ht : (UInt8.ofNat n).toNat = n := by simp; omega
    have hne : ∀ k : Nat, k < 256 → n ≠ k → UInt8.ofNat n ≠ UInt8.ofNat k := by
      intro k hk hnk he
      have h' : (UInt8.ofNat k).toNat = k := by simp; omega
      exact hnk (by rw [← ht, he, h'])
    refine ⟨?_, hne 0x22 (by omega) h2, hne 0x5C (by omega) h3, hne 0xFF (by omega) (by omega)⟩
    rw [UInt8.le_iff_toNat_le, ht]; exact h1
  · have := utf8_mem_high hn (by omega) b hb
    exact high_lax b this.1 this.2

theorem chars_lax_append {c r : Bytes} (hc : ∀ b ∈ c, 0x20 ≤ b ∧ b ≠ 0x22 ∧ b ≠ 0x5C ∧ b ≠ 0xFF) {E : Byte → Prop}
    (hr : Chars E LaxPlain r) : Chars E LaxPlain (c ++ r) := by
  induction c with
  | nil => exact hr
  | cons b c ih =>
    obtain ⟨h1, h2, h3, h4⟩ := hc b (by simp)
    exact Chars.plain (c := [b]) ⟨b, h1, h2, h3, h4, rfl⟩ (ih fun x hx => hc x (by simp [hx]))

/-- RFC contents are contents with RFC escapes in the byte-wise sense. -/
theorem rfc_bytes {c : Bytes} (h : RfcChars c) : Chars RfcEsc LaxPlain c := by
  unfold RfcChars at h
  induction h with
  | nil => exact .nil
  | plain hp _ ih => exact chars_lax_append (rfcPlain_lax hp) ih
  | esc hx _ ih => exact .esc hx ih
  | uni h1 h2 h3 h4 _ ih => exact .uni h1 h2 h3 h4 ih

theorem rfc_lax {c : Bytes} (h : RfcChars c) : LaxChars c := by
  have := rfc_bytes h; clear h
  unfold LaxChars
  induction this with
  | nil => exact .nil
  | plain hp _ ih => exact .plain hp ih
  | esc hx _ ih =>
    refine .esc ⟨?_, ?_⟩ ih
    · rintro rfl; revert hx; unfold RfcEsc; decide
    · rintro rfl; revert hx; unfold RfcEsc; decide
  | uni h1 h2 h3 h4 _ ih => exact .uni h1 h2 h3 h4 ih

theorem escOK_cons {b : Byte} (h : b ≠ 0x5C) (r : Bytes) : escOK (b :: r) = escOK r := by
  rw [escOK.eq_def]; simp [h]
theorem escOK_esc (x : Byte) (r : Bytes) : escOK (0x5C :: x :: r) = ((x == 0x75 || b%"\"\\/bfnrt".contains x) && escOK r) := by
  rw [escOK.eq_def]; simp

theorem rfc_escOK {c : Bytes} (h : RfcChars c) : escOK c = true := by
  have := rfc_bytes h; clear h
  induction this with
  | nil => rfl
  | plain hp _ ih =>
    obtain ⟨b, _, _, h, _, rfl⟩ := hp
    rw [List.cons_append, List.nil_append, escOK_cons h]; exact ih
  | esc hx _ ih =>
    rw [escOK_esc, ih]
    have : b%"\"\\/bfnrt".contains _ = true := List.contains_iff_mem.2 hx
    rw [this]; simp
  | uni h1 h2 h3 h4 _ ih =>
    rw [escOK_esc, escOK_cons (hex_ne h1), escOK_cons (hex_ne h2), escOK_cons (hex_ne h3), escOK_cons (hex_ne h4), ih]
    simp

theorem produce_complete {vs : List JVal} {b : Bytes} (h : SepStream LaxChars vs b) : ∀ v n, 2 * b.length + 1 ≤ v →
    b.length + 1 ≤ n → Pure.produce .eof v n b = (streamToks vs, some (.ok [])) := by
  induction h with
  | @nil w hw =>
    intro v n hv hn
    obtain ⟨n, rfl⟩ : ∃ k, n = k + 1 := ⟨n - 1, by omega⟩
    have : Pure.ws w = [] := by have := ws_append hw []; simpa [Pure.ws] using this
    simp [Pure.produce, this, Pure.done]
  | @cons w v b vs r hw ht hsep _ ih =>
    intro fv n hv hn
    obtain ⟨n, rfl⟩ : ∃ k, n = k + 1 := ⟨n - 1, by omega⟩
    obtain ⟨x, t, rfl, hx, hs⟩ := ws_text hw ht r
    have hf := startsValue_facts x hs
    have hl : 0 < (x :: t).length := by simp
    have hval := complete (fin := .eof) ht [] r fv Ws.nil (by
        intro hnum
        refine ⟨.inl rfl, fun b r' hr => ?_⟩
        have : IsNumber v := by
          cases v with
          | scalar s => exact ⟨s, rfl, hnum⟩
          | arr _ _ => exact hnum.elim
          | obj _ _ => exact hnum.elim
        have := hsep this b r' hr
        unfold NumCont at this
        simp only [not_or] at this
        exact this)
      (by simp only [List.length_append, List.length_cons, List.length_nil] at hv ⊢; omega)
    rw [Pure.produce, hx]
    simp only [hf.2.1, if_false]
    rw [List.nil_append, List.cons_append] at hval
    rw [hval]
    have hrec := ih fv n (by simp only [List.length_append, List.length_cons] at hv ⊢; omega)
      (by simp only [List.length_append, List.length_cons] at hn ⊢; omega)
    simp [Pure.PRes.then, hrec]

theorem decode_complete {vs : List JVal} {b : Bytes} (h : SepStream LaxChars vs b) :
    Pure.decode .eof b = (streamToks vs, some (.ok [])) :=
  produce_complete h _ _ (by unfold Json.fuelFor; omega) (by unfold Json.fuelFor; omega)

/-! ## From the accepted strings to those of the RFC -/

theorem utf8_split {x y : Bytes} {a : Byte} (ha : a < 0x80) (h : Utf8 (x ++ a :: y)) : Utf8 x ∧ Utf8 y := by
  obtain ⟨cps, hc, he⟩ := h
  induction cps generalizing x with
  | nil => simp at he
  | cons n cps ih =>
    have hn := hc n (by simp)
    rw [List.flatMap_cons] at he
    have hascii : ∀ b ∈ utf8 n, b < 0x80 → utf8 n = [b] := by
      intro b hb hlt
      by_cases h : n < 0x80
      · rw [utf8_mem_ascii h] at hb ⊢; simp at hb; rw [hb]
      · have := (utf8_mem_high hn (by omega) b hb).1
        rw [UInt8.le_iff_toNat_le] at this; rw [UInt8.lt_iff_toNat_lt] at hlt; omega
    rcases List.append_eq_append_iff.1 he with ⟨t, h1, h2⟩ | ⟨t, h1, h2⟩
    · -- the first character contains the whole of `x`
      cases t with
      | nil =>
        simp only [List.append_nil, List.nil_append] at h1 h2
        have := ih (x := []) (fun m hm => hc m (by simp [hm])) (by simpa using h2)
        exact ⟨⟨[n], by simpa using hn, by simp [h1]⟩, this.2⟩
      | cons t0 t =>
        simp only [List.cons_append, List.cons.injEq] at h2
        have hx := hascii a (by rw [h1, ← h2.1]; simp) ha
        rw [h1] at hx
        cases x with
        | nil =>
          simp only [List.nil_append, List.cons.injEq] at hx
          exact ⟨⟨[], by simp, rfl⟩, cps, fun m hm => hc m (by simp [hm]), by rw [h2.2, hx.2]; rfl⟩
        | cons x0 x => simp at hx
    · have := ih (x := t) (fun m hm => hc m (by simp [hm])) h2.symm
      refine ⟨?_, this.2⟩
      obtain ⟨cs, hcs, ht⟩ := this.1
      exact ⟨n :: cs, fun m hm => (List.mem_cons.1 hm).elim (fun h => h ▸ hn) (hcs m), by simp [h1, ht]⟩

/-- The bytes of a content in the byte-wise sense. -/
theorem chars_drop_high {t r : Bytes} (ht : ∀ b ∈ t, 0x80 ≤ b) (h : LaxChars (t ++ r)) : LaxChars r := by
  unfold LaxChars at h ⊢
  induction t with
  | nil => exact h
  | cons b t ih =>
    have hb := ht b (by simp)
    refine ih (fun x hx => ht x (by simp [hx])) ?_
    rw [List.cons_append] at h
    generalize hl : b :: (t ++ r) = l at h
    cases h with
    | nil => cases hl
    | plain hp h' =>
      obtain ⟨b', _, _, _, _, rfl⟩ := hp
      simp only [List.cons_append, List.nil_append, List.cons.injEq] at hl
      rw [hl.2]; exact h'
    | esc _ _ => simp only [List.cons.injEq] at hl; rw [hl.1] at hb; exact absurd hb (by decide)
    | uni _ _ _ _ _ => simp only [List.cons.injEq] at hl; rw [hl.1] at hb; exact absurd hb (by decide)

theorem hex_ascii {b : Byte} : Hex b → b < 0x80 := by
  unfold Hex
  revert b
  apply forall_byte
  set_option maxRecDepth 10000 in decide

theorem rfcEsc_ascii {b : Byte} : RfcEsc b → b < 0x80 := by
  unfold RfcEsc
  revert b
  apply forall_byte
  set_option maxRecDepth 10000 in decide

theorem lax_rfc (n : Nat) : ∀ {c : Bytes}, c.length ≤ n → LaxChars c → Utf8 c → escOK c = true → RfcChars c := by
  unfold RfcChars
  induction n with
  | zero =>
    intro c hl _ _ _
    have : c = [] := List.length_eq_zero_iff.1 (by omega)
    subst this; exact .nil
  | succ n ih =>
    intro c hl hc hu he
    have hc0 := hc
    unfold LaxChars at hc
    cases hc with
    | nil => exact .nil
    | @plain c' r hp h' =>
      obtain ⟨b, hb1, hb2, hb3, hb4, rfl⟩ := hp
      obtain ⟨cps, hcps, heq⟩ := hu
      cases cps with
      | nil => simp at heq
      | cons m cps =>
        rw [List.flatMap_cons] at heq
        have hm := hcps m (by simp)
        have hu' : Utf8 (cps.flatMap utf8) := ⟨cps, fun k hk => hcps k (by simp [hk]), rfl⟩
        by_cases hlow : m < 0x80
        · rw [utf8_mem_ascii hlow] at heq
          simp only [List.cons_append, List.nil_append, List.cons.injEq] at heq
          obtain ⟨h1, h2⟩ := heq
          have ht : b.toNat = m := by rw [h1]; simp; omega
          have hx : RfcPlain [b] := by
            refine ⟨m, hm, ?_, ?_, ?_, by rw [utf8_mem_ascii hlow, h1]⟩
            · rw [← ht]; rw [UInt8.le_iff_toNat_le] at hb1; exact hb1
            · rintro rfl; exact hb2 h1
            · rintro rfl; exact hb3 h1
          refine .plain hx (ih (by simpa using hl) h' (h2 ▸ hu') ?_)
          rw [List.cons_append, List.nil_append, escOK_cons hb3] at he; exact he
        · have hhigh := utf8_mem_high hm (by omega)
          rw [heq] at hc0 hl he ⊢
          refine .plain ⟨m, hm, by omega, by omega, by omega, rfl⟩ (ih ?_ (chars_drop_high (fun b hb => (hhigh b hb).1) hc0) hu' ?_)
          · have := List.length_pos_iff.2 (utf8_ne_nil m)
            rw [List.length_append] at hl; omega
          · have : ∀ (t r : Bytes), (∀ b ∈ t, 0x80 ≤ b) → escOK (t ++ r) = escOK r := by
              intro t r ht
              induction t with
              | nil => rfl
              | cons b t ih =>
                rw [List.cons_append, escOK_cons, ih fun x hx => ht x (by simp [hx])]
                rintro rfl; exact absurd (ht 0x5C (by simp)) (by decide)
            rwa [this _ _ fun b hb => (hhigh b hb).1] at he
    | @esc x r hx h' =>
      rw [escOK_esc, Bool.and_eq_true, Bool.or_eq_true] at he
      have hx' : RfcEsc x := by
        rcases he.1 with h | h
        · exact absurd (beq_iff_eq.1 h) hx.1
        · exact List.contains_iff_mem.1 h
      have := (utf8_split (x := [0x5C]) (rfcEsc_ascii hx') hu).2
      exact .esc hx' (ih (by simp at hl; omega) h' this he.2)
    | @uni h1 h2 h3 h4 r x1 x2 x3 x4 h' =>
      rw [escOK_esc, escOK_cons (hex_ne x1), escOK_cons (hex_ne x2), escOK_cons (hex_ne x3), escOK_cons (hex_ne x4),
        Bool.and_eq_true] at he
      have := (utf8_split (x := [0x5C, 0x75, h1, h2, h3]) (hex_ascii x4) hu).2
      exact .uni x1 x2 x3 x4 (ih (by simp at hl; omega) h' this he.2)

/-! Parts of the input and of the tokens. -/

mutual

/-- Strengthening of the string contents, given what is known of the whole input and of the
tokens. -/
theorem Rfc8259.Text.strengthen {S T : Bytes → Prop} (D : Bytes) (ts : List Token)
    (hST : ∀ p c q k, D = p ++ 0x22 :: (c ++ 0x22 :: q) → .scalar { strScalar c with key := k } ∈ ts → S c → T c) :
    ∀ {v : JVal} {b : Bytes}, Text S v b → (∃ p q, D = p ++ (b ++ q)) → (∀ t ∈ v.toks, t ∈ ts) → Text T v b
  | _, _, .true, _, _ => .true
  | _, _, .false, _, _ => .false
  | _, _, .null, _, _ => .null
  | _, _, .num h, _, _ => .num h
  | _, _, .str (c := c) h, ⟨p, q, hD⟩, ht =>
    .str (hST p c q false (by rw [hD]; simp) (ht _ (by simp [strScalar])) h)
  | _, _, .arr0 h, _, _ => .arr0 h
  | _, _, .obj0 h, _, _ => .obj0 h
  | _, _, .arr h, ⟨p, q, hD⟩, ht =>
    .arr (Rfc8259.Items.strengthen D ts hST h ⟨p ++ [0x5B], 0x5D :: q, by rw [hD]; simp⟩ fun t hm => ht t (by simp [hm]))
  | _, _, .obj h, ⟨p, q, hD⟩, ht =>
    .obj (Rfc8259.Members.strengthen D ts hST h ⟨p ++ [0x7B], 0x7D :: q, by rw [hD]; simp⟩ fun t hm => ht t (by simp [hm]))

theorem Rfc8259.Items.strengthen {S T : Bytes → Prop} (D : Bytes) (ts : List Token)
    (hST : ∀ p c q k, D = p ++ 0x22 :: (c ++ 0x22 :: q) → .scalar { strScalar c with key := k } ∈ ts → S c → T c) :
    ∀ {vs : List JVal} {b : Bytes}, Items S vs b → (∃ p q, D = p ++ (b ++ q)) → (∀ t ∈ itemToks vs, t ∈ ts) → Items T vs b
  | _, _, .one (w := w) (w' := w') h1 h2 h3, ⟨p, q, hD⟩, ht =>
    .one h1 (Rfc8259.Text.strengthen D ts hST h2 ⟨p ++ w, w' ++ q, by rw [hD]; simp⟩ fun t hm => ht t (by simp [hm])) h3
  | _, _, .more (w := w) (b := b) (w' := w') (r := r) h1 h2 h3 h4, ⟨p, q, hD⟩, ht =>
    .more h1 (Rfc8259.Text.strengthen D ts hST h2 ⟨p ++ w, w' ++ 0x2C :: (r ++ q), by rw [hD]; simp⟩ fun t hm => ht t (by simp [hm])) h3
      (Rfc8259.Items.strengthen D ts hST h4 ⟨p ++ (w ++ (b ++ (w' ++ [0x2C]))), q, by rw [hD]; simp⟩ fun t hm => ht t (by simp [hm]))

theorem Rfc8259.Members.strengthen {S T : Bytes → Prop} (D : Bytes) (ts : List Token)
    (hST : ∀ p c q k, D = p ++ 0x22 :: (c ++ 0x22 :: q) → .scalar { strScalar c with key := k } ∈ ts → S c → T c) :
    ∀ {ms : List (Scalar × JVal)} {b : Bytes}, Members S ms b → (∃ p q, D = p ++ (b ++ q)) → (∀ t ∈ memberToks ms, t ∈ ts) →
      Members T ms b
  | _, _, .one (w0 := w0) (c := c) (w1 := w1) (w := w) (b := b) (w' := w') h1 h2 h3 h4 h5 h6, ⟨p, q, hD⟩, ht =>
    .one h1 (hST (p ++ w0) c (w1 ++ 0x3A :: (w ++ (b ++ (w' ++ q)))) true (by rw [hD]; simp) (ht _ (by simp)) h2) h3 h4
      (Rfc8259.Text.strengthen D ts hST h5
        ⟨p ++ (w0 ++ (0x22 :: (c ++ 0x22 :: (w1 ++ 0x3A :: w)))), w' ++ q, by rw [hD]; simp⟩ fun t hm => ht t (by simp [hm])) h6
  | _, _, .more (w0 := w0) (c := c) (w1 := w1) (w := w) (b := b) (w' := w') (r := r) h1 h2 h3 h4 h5 h6 h7, ⟨p, q, hD⟩, ht =>
    .more h1 (hST (p ++ w0) c (w1 ++ 0x3A :: (w ++ (b ++ (w' ++ 0x2C :: (r ++ q))))) true (by rw [hD]; simp) (ht _ (by simp)) h2) h3 h4
      (Rfc8259.Text.strengthen D ts hST h5
        ⟨p ++ (w0 ++ (0x22 :: (c ++ 0x22 :: (w1 ++ 0x3A :: w)))), w' ++ 0x2C :: (r ++ q), by rw [hD]; simp⟩
        fun t hm => ht t (by simp [hm])) h6
      (Rfc8259.Members.strengthen D ts hST h7
        ⟨p ++ (w0 ++ (0x22 :: (c ++ 0x22 :: (w1 ++ 0x3A :: (w ++ (b ++ (w' ++ [0x2C]))))))), q, by rw [hD]; simp⟩
        fun t hm => ht t (by simp [hm]))

end

theorem Rfc8259.Stream.strengthen {S T : Bytes → Prop} (D : Bytes) (ts : List Token)
    (hST : ∀ p c q k, D = p ++ 0x22 :: (c ++ 0x22 :: q) → .scalar { strScalar c with key := k } ∈ ts → S c → T c) {vs b}
    (h : Stream S vs b) : (∃ p q, D = p ++ (b ++ q)) → (∀ t ∈ streamToks vs, t ∈ ts) → Stream T vs b := by
  induction h with
  | nil h => intro _ _; exact .nil h
  | @cons w v b vs r h1 h2 h3 ih =>
    rintro ⟨p, q, hD⟩ ht
    exact .cons h1 (h2.strengthen D ts hST ⟨p ++ w, r ++ q, by rw [hD]; simp⟩ fun t hm => ht t (by simp [hm]))
      (ih ⟨p ++ (w ++ b), q, by rw [hD]; simp⟩ fun t hm => ht t (by simp [hm]))

end Verif

namespace Verif
open Rfc8259 JVal.toks

theorem escOK_snoc {c : Bytes} (h : LaxChars c) : escOK (c ++ [0x22]) = escOK c := by
  unfold LaxChars at h
  induction h with
  | nil => rfl
  | plain hp _ ih =>
    obtain ⟨b, _, _, h, _, rfl⟩ := hp
    simp only [List.cons_append, List.nil_append]
    rw [escOK_cons h, escOK_cons h, ih]
  | esc hx _ ih => simp only [List.cons_append]; rw [escOK_esc, escOK_esc, ih]
  | uni h1 h2 h3 h4 _ ih =>
    simp only [List.cons_append]
    rw [escOK_esc, escOK_cons (hex_ne h1), escOK_cons (hex_ne h2), escOK_cons (hex_ne h3), escOK_cons (hex_ne h4),
      escOK_esc, escOK_cons (hex_ne h1), escOK_cons (hex_ne h2), escOK_cons (hex_ne h3), escOK_cons (hex_ne h4), ih]

mutual

theorem Rfc8259.Text.strings {S : Bytes → Prop} (s : Scalar) (hs : s.type = .str) : ∀ {v : JVal} {b : Bytes}, Text S v b →
    .scalar s ∈ v.toks → ∃ c k, S c ∧ s = { strScalar c with key := k }
  | _, _, .true, h => by simp at h; subst h; cases hs
  | _, _, .false, h => by simp at h; subst h; cases hs
  | _, _, .null, h => by simp at h; subst h; cases hs
  | _, _, .num _, h => by simp at h; subst h; cases hs
  | _, _, .str (c := c) hc, h => by simp at h; exact ⟨c, false, hc, h⟩
  | _, _, .arr0 _, h => by simp [elisionToks] at h
  | _, _, .obj0 _, h => by simp [elisionToks] at h
  | _, _, .arr hi, h => Rfc8259.Items.strings s hs hi (by simpa [elisionToks] using h)
  | _, _, .obj hi, h => Rfc8259.Members.strings s hs hi (by simpa [elisionToks] using h)

theorem Rfc8259.Items.strings {S : Bytes → Prop} (s : Scalar) (hs : s.type = .str) : ∀ {v : List JVal} {b : Bytes}, Items S v b →
    .scalar s ∈ itemToks v → ∃ c k, S c ∧ s = { strScalar c with key := k }
  | _, _, .one _ ht _, h => Rfc8259.Text.strings s hs ht (by simpa using h)
  | _, _, .more (v := v) (vs := vs) _ ht _ hi, h =>
    (List.mem_append.1 (show Token.scalar s ∈ v.toks ++ itemToks vs by simpa using h)).elim
      (fun h => Rfc8259.Text.strings s hs ht h) fun h => Rfc8259.Items.strings s hs hi h

theorem Rfc8259.Members.strings {S : Bytes → Prop} (s : Scalar) (hs : s.type = .str) : ∀ {v : List (Scalar × JVal)} {b : Bytes},
    Members S v b → .scalar s ∈ memberToks v → ∃ c k, S c ∧ s = { strScalar c with key := k }
  | _, _, .one (c := c) (v := v) _ hc _ _ ht _, h =>
    (show s = { strScalar c with key := true } ∨ Token.scalar s ∈ v.toks by simpa using h).elim
      (fun h => ⟨c, true, hc, h⟩) fun h => Rfc8259.Text.strings s hs ht h
  | _, _, .more (c := c) (v := v) (ms := ms) _ hc _ _ ht _ hi, h =>
    (show s = { strScalar c with key := true } ∨ Token.scalar s ∈ v.toks ∨ Token.scalar s ∈ memberToks ms by simpa using h).elim
      (fun h => ⟨c, true, hc, h⟩) fun h => h.elim (fun h => Rfc8259.Text.strings s hs ht h)
        fun h => Rfc8259.Members.strings s hs hi h

end

theorem Rfc8259.Stream.strings {S : Bytes → Prop} (s : Scalar) (hs : s.type = .str) {vs b} (h : Stream S vs b) :
    .scalar s ∈ streamToks vs → ∃ c k, S c ∧ s = { strScalar c with key := k } := by
  induction h with
  | nil _ => intro h; simp at h
  | cons _ ht _ ih =>
    intro h
    simp only [streamToks_cons, List.mem_append] at h
    exact h.elim (ht.strings s hs) ih

/-- What every run of the decoder shows. -/
theorem decodeFrom_spec (r : Reader) (size : Nat) (hs : 2 ≤ size) : ∃ D fin, Delivers r D fin ∧
    match Json.decodeFrom r size with
    | (ts, .ok _ _) => ∃ vs b r', Stream LaxChars vs b ∧ ts = streamToks vs ∧ D = b ++ r' ∧
        ((r' = [] ∧ fin = .eof) ∨ ∃ r'', r' = eofByte :: r'')
    | (ts, .fail _) => ∃ vs b more, Stream LaxChars vs b ∧ streamToks vs = ts ++ more
    | _ => False := by
  obtain ⟨D, fin, hd, he⟩ := decodeFrom_decode r size hs
  refine ⟨D, fin, hd, ?_⟩
  have hf := Pure.decode_fits fin D
  have hp := sound_produce fin (Json.fuelFor D.length) (Json.fuelFor D.length) D
  rw [he]
  rw [show Pure.produce fin (Json.fuelFor D.length) (Json.fuelFor D.length) D = Pure.decode fin D from rfl] at hp
  generalize Pure.decode fin D = x at hf hp ⊢
  obtain ⟨ts, x⟩ := x
  match x with
  | none => exact hf.elim
  | some (.ok r') =>
    obtain ⟨vs, b, h1, h2, h3, h4⟩ := hp
    exact ⟨vs, b, r', h1, h2, h3, h4⟩
  | some (.error e) => exact hp

/-- A successful run on an input without the byte 0xFF reads all of it. -/
theorem decodeFrom_success {r : Reader} {size : Nat} (hs : 2 ≤ size) {ts : List Token}
    (h : Json.decodeFrom r size = (ts, .ok () ())) (hff : eofByte ∉ r.rest) :
    r.fin = .eof ∧ ∃ vs, Stream LaxChars vs r.rest ∧ ts = streamToks vs := by
  obtain ⟨D, fin, hd, hx⟩ := decodeFrom_spec r size hs
  rw [h] at hx
  obtain ⟨vs, b, r', h1, h2, h3, h4⟩ := hx
  have hD : eofByte ∉ D := by
    rcases hd with ⟨rfl, _⟩ | ⟨_, _, x, _, h⟩
    · exact hff
    · intro hm; exact hff (by rw [h]; simp [hm])
  rcases h4 with ⟨rfl, rfl⟩ | ⟨r'', rfl⟩
  · rcases hd with ⟨rfl, h⟩ | ⟨_, h, _⟩
    · rw [List.append_nil] at h3; exact ⟨h.symm, vs, h3 ▸ h1, h2⟩
    · cases h
  · exact absurd (by rw [h3]; simp) hD

/-- Every token of a run is one of a stream of texts. -/
theorem decodeFrom_tokens (r : Reader) (size : Nat) (hs : 2 ≤ size) :
    ∃ vs b, Stream LaxChars vs b ∧ ∀ t ∈ (Json.decodeFrom r size).1, t ∈ streamToks vs := by
  obtain ⟨D, fin, hd, hx⟩ := decodeFrom_spec r size hs
  revert hx
  generalize Json.decodeFrom r size = x
  obtain ⟨ts, o⟩ := x
  cases o with
  | ok _ _ => rintro ⟨vs, b, r', h1, h2, _⟩; exact ⟨vs, b, h1, fun t ht => h2 ▸ ht⟩
  | fail e => rintro ⟨vs, b, more, h1, h2⟩; exact ⟨vs, b, h1, fun t ht => by rw [h2]; simp [show t ∈ ts from ht]⟩
  | panic => exact False.elim
  | stuck => exact False.elim
  | oof => exact False.elim

end Verif
