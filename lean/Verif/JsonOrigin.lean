import Verif.JsonFuel
import Verif.JsonSuffix
import Verif.CsvFields

/-!
# Scalars are slices of the input

The bytes of the strings, numbers and constants that the JSON decoder sends are slices of the input, also if the input is not valid.
-/

set_option linter.unusedSimpArgs false
set_option linter.unusedVariables false

namespace Verif.Pure

variable {D : Bytes} {fin : RErr}

/-- Control characters come after a backslash. -/
def Escapes (b : Bytes) : Prop := ∀ x ∈ b, x < 0x20 → [0x5C, x] <:+: b

/-- A string in quotes, or ASCII; control characters come after a backslash. -/
def Shaped (b : Bytes) : Prop := ((∃ m, b = c%'"' :: (m ++ [c%'"'])) ∨ ∀ x ∈ b, x < 0x80) ∧ Escapes b

theorem shaped_const {b : Bytes} (h : ∀ x ∈ b, 0x20 ≤ x ∧ x < 0x80) : Shaped b :=
  ⟨.inr fun x hx => (h x hx).2, fun x hx hl => absurd (UInt8.lt_of_lt_of_le hl (h x hx).1) (UInt8.lt_irrefl _)⟩

set_option maxRecDepth 10000 in
theorem numChar_ascii {b : Byte} : CsvSpec.NumChar b → 0x20 ≤ b ∧ b < 0x80 := by
  intro h
  unfold CsvSpec.NumChar at h
  revert h
  revert b
  apply forall_byte
  decide

theorem number_shaped {b : Bytes} (h : Rfc8259.Number b) : Shaped b := shaped_const fun x hx => numChar_ascii (Csv.number_chars h x hx)

set_option maxRecDepth 10000 in
theorem hex_printable {b : Byte} : Rfc8259.Hex b → 0x20 ≤ b := by
  intro h
  unfold Rfc8259.Hex at h
  revert h
  revert b
  apply forall_byte
  decide

theorem escapes_append {a b : Bytes} (ha : Escapes a) (hb : Escapes b) : Escapes (a ++ b) := by
  intro x hx hl
  rcases List.mem_append.1 hx with hx | hx
  · exact (ha x hx hl).trans (List.prefix_append _ _).isInfix
  · exact (hb x hx hl).trans (List.suffix_append _ _).isInfix

theorem escapes_plain {a : Bytes} (h : ∀ x ∈ a, 0x20 ≤ x) : Escapes a :=
  fun x hx hl => absurd (UInt8.lt_of_lt_of_le hl (h x hx)) (UInt8.lt_irrefl _)

theorem lax_escapes {c : Bytes} (h : LaxChars c) : Escapes c := by
  unfold LaxChars at h
  induction h with
  | nil => exact fun x hx => by cases hx
  | plain hp _ ih =>
    refine escapes_append (escapes_plain ?_) ih
    obtain ⟨b, hb, _, _, _, rfl⟩ := hp
    intro y hy
    cases List.mem_singleton.1 hy
    exact hb
  | @esc x r _ _ ih =>
    refine escapes_append (a := [0x5C, x]) ?_ ih
    intro y hy hl
    rcases List.mem_cons.1 hy with rfl | hy
    · exact absurd hl (by decide)
    · cases List.mem_singleton.1 hy; exact List.infix_refl _
  | @uni h1 h2 h3 h4 r a1 a2 a3 a4 _ ih =>
    refine escapes_append (a := [0x5C, 0x75, h1, h2, h3, h4]) (escapes_plain ?_) ih
    intro y hy
    simp only [List.mem_cons, List.not_mem_nil, or_false] at hy
    rcases hy with rfl | rfl | rfl | rfl | rfl | rfl
    · decide
    · decide
    all_goals exact hex_printable (by assumption)

theorem string_shaped {fin : RErr} {r : Bytes} {x} (h : string fin r = .ok x) : Shaped x.1.bytes := by
  obtain ⟨c, hc, e, _⟩ := string_sound h
  rw [e]
  refine ⟨.inl ⟨c, rfl⟩, escapes_append (a := [0x22]) (escapes_plain (by decide)) (escapes_append (lax_escapes hc) (escapes_plain (by decide)))⟩

/-- The scalars sent are slices of `D`, the rest is a suffix of it. -/
def Slices (D : Bytes) (x : PRes) : Prop := (∀ s, Token.scalar s ∈ x.1 → s.bytes <:+: D ∧ Shaped s.bytes) ∧ ∀ r, x.2 = some (.ok r) → r <:+ D

theorem Slices.none {D : Bytes} : Slices D ([], Option.none) := ⟨by simp, by simp⟩

theorem Slices.err {e : PErr} : Slices D ([], some (.error e)) := ⟨by simp, by simp⟩

theorem Slices.done {r : Bytes} (h : r <:+ D) : Slices D (done r) := ⟨by simp [Pure.done], by intro r' e; cases e; exact h⟩

theorem Slices.put {t : Token} {x : PRes} (ht : ∀ s, t = .scalar s → s.bytes <:+: D ∧ Shaped s.bytes) (h : Slices D x) : Slices D (put t x) := by
  refine ⟨?_, h.2⟩
  intro s hs
  simp only [Pure.put, List.mem_cons] at hs
  rcases hs with hs | hs
  · exact ht s hs.symm
  · exact h.1 s hs

theorem Slices.then {x : PRes} {f : Bytes → PRes} (h : Slices D x) (hf : ∀ r, r <:+ D → Slices D (f r)) : Slices D (x.then f) := by
  obtain ⟨ts, y⟩ := x
  match y, h with
  | some (.ok r), h =>
    have h2 := hf r (h.2 r rfl)
    refine ⟨?_, h2.2⟩
    intro s hs
    simp only [PRes.then, List.mem_append] at hs
    rcases hs with hs | hs
    · exact h.1 s hs
    · exact h2.1 s hs
  | some (.error e), h => exact h
  | Option.none, h => exact h

theorem Slices.lift {α : Type} {x : Except PErr α} {f : α → PRes} (hf : ∀ a, x = .ok a → Slices D (f a)) : Slices D (lift x f) := by
  cases x with
  | ok a => exact hf a rfl
  | error e => exact .err

theorem infix_of {r s t : Bytes} (h : r <:+ D) (e : r = s ++ t) : s <:+: D := by
  subst e
  exact (List.prefix_append s t).isInfix.trans h.isInfix

theorem suffix_of {r s t : Bytes} (h : r <:+ D) (e : r = s ++ t) : t <:+ D := by
  subst e
  exact (List.suffix_append s t).trans h

theorem values_slices (fin : RErr) : ∀ n, (∀ r, r <:+ D → Slices D (value fin n r)) ∧ (∀ r, r <:+ D → Slices D (items fin n r)) ∧
    ∀ r, r <:+ D → Slices D (members fin n r)
  | 0 => ⟨fun _ _ => by rw [value]; exact .none, fun _ _ => by rw [items]; exact .none, fun _ _ => by rw [members]; exact .none⟩
  | n + 1 => by
    obtain ⟨hv, hi, hm⟩ := values_slices fin n
    have wsd : ∀ {r : Bytes}, r <:+ D → ws r <:+ D := fun h => (ws_suffix _).trans h
    have noScalar : ∀ {t : Token}, (∀ s, t ≠ .scalar s) → ∀ s, t = .scalar s → s.bytes <:+: D ∧ Shaped s.bytes := fun h s e => absurd e (h s)
    refine ⟨?_, ?_, ?_⟩
    · intro r hr
      rw [value]
      refine .lift fun x hx => ?_
      have hx2 : x.2 <:+ D := (chk_suffix hx).trans (wsd hr)
      simp only
      split
      · refine .lift fun y hy => ?_
        have := (string_split hy).1
        exact .put (fun s e => by cases e; exact ⟨infix_of (wsd hr) this, string_shaped hy⟩) (.done (suffix_of (wsd hr) this))
      · split
        · refine .put (noScalar fun s e => by cases e) (.lift fun y hy => ?_)
          split
          · exact .put (noScalar fun s e => by cases e) (.done ((chk_suffix hy).trans (wsd hx2)))
          · exact hi _ (wsd hx2)
        · split
          · refine .put (noScalar fun s e => by cases e) (.lift fun y hy => ?_)
            split
            · exact .put (noScalar fun s e => by cases e) (.done ((chk_suffix hy).trans (wsd hx2)))
            · exact hm _ (wsd hx2)
          · split
            · refine .lift fun y hy => ?_
              have := fixed_split hy
              exact .put (fun s e => by cases e; exact ⟨infix_of (wsd hr) this, shaped_const (by decide)⟩) (.done (suffix_of (wsd hr) this))
            · split
              · refine .lift fun y hy => ?_
                have := fixed_split hy
                exact .put (fun s e => by cases e; exact ⟨infix_of (wsd hr) this, shaped_const (by decide)⟩) (.done (suffix_of (wsd hr) this))
              · split
                · refine .lift fun y hy => ?_
                  have := fixed_split hy
                  exact .put (fun s e => by cases e; exact ⟨infix_of (wsd hr) this, shaped_const (by decide)⟩) (.done (suffix_of (wsd hr) this))
                · split
                  · refine .lift fun y hy => ?_
                    have := (number_split hy).1
                    exact .put (fun s e => by cases e; exact ⟨infix_of (wsd hr) this, number_shaped (number_sound hy).1⟩) (.done (suffix_of (wsd hr) this))
                  · exact .err
    · intro r hr
      rw [items]
      refine (hv r hr).then fun r hr => .lift fun x hx => ?_
      have hx2 : x.2 <:+ D := (chk_suffix hx).trans (wsd hr)
      split
      · exact .put (noScalar fun s e => by cases e) (.done hx2)
      · split
        · exact hi _ hx2
        · exact .err
    · intro r hr
      rw [members]
      refine .lift fun k hk => ?_
      have hs := (string_split hk).1
      refine .put (fun s e => by cases e; exact ⟨infix_of hr hs, string_shaped hk⟩) (.lift fun x hx => ?_)
      have hx2 : x.2 <:+ D := (chk_suffix hx).trans (wsd (suffix_of hr hs))
      split
      · exact .err
      · refine (hv _ hx2).then fun r hr => .lift fun x hx => ?_
        have hx2 : x.2 <:+ D := (chk_suffix hx).trans (wsd hr)
        split
        · exact .put (noScalar fun s e => by cases e) (.done hx2)
        · split
          · exact .lift fun _ _ => hm _ (wsd hx2)
          · exact .err

theorem produce_slices (fin : RErr) (v : Nat) : ∀ n r, r <:+ D → Slices D (produce fin v n r)
  | 0, _, _ => by rw [produce]; exact .none
  | n + 1, r, hr => by
    have hw : ws r <:+ D := (ws_suffix _).trans hr
    rw [produce]
    split
    · split
      · exact .done (List.nil_suffix)
      · exact .err
    · rename_i b r' e
      rw [e] at hw
      split
      · exact .done hw
      · exact ((values_slices fin v).1 _ hw).then fun r hr => produce_slices fin v n r hr

/-- The scalars that the decoder sends are slices of the input. -/
theorem decode_slices (fin : RErr) (D : Bytes) {s : Scalar} (h : .scalar s ∈ (decode fin D).1) : s.bytes <:+: D ∧ Shaped s.bytes :=
  (produce_slices fin _ _ D (List.suffix_refl _)).1 s h

end Verif.Pure
