import Verif.Flags

/-!
# C50: the type and the flags of a scalar are independent
-/

namespace Verif

/-- The packed byte of a type and three flags. -/
theorem packByte_faithful : ∀ (t : SType) (k a u : Bool),
    let tf := t.code ||| (if k then keyMask else 0) ||| (if a then alnumMask else 0)
      ||| (if u then unescMask else 0)
    tf &&& typeMask = t.code ∧ (keyMask &&& tf != 0) = k ∧ (alnumMask &&& tf != 0) = a ∧
      (unescMask &&& tf != 0) = u := by
  intro t k a u
  cases t <;> cases k <;> cases a <;> cases u <;> decide

/-- The packed representation gives back the type and each of the flags. -/
theorem C50_pack_faithful (s : Scalar) :
    s.pack.bytes = s.bytes ∧ s.pack.type = s.type.code ∧ s.pack.isKey = s.key ∧
    s.pack.isAlnum = s.alnum ∧ s.pack.isUnescaped = s.unesc := by
  exact ⟨rfl, packByte_faithful s.type s.key s.alnum s.unesc⟩

/-- Types have different codes. -/
theorem C50_code_injective (t u : SType) (h : t.code = u.code) : t = u := by
  cases t <;> cases u <;> first | rfl | (exfalso; revert h; decide)

/-- Distinct scalars have distinct packed forms. -/
theorem C50_pack_injective (s t : Scalar) (h : s.pack = t.pack) : s = t := by
  have hs := C50_pack_faithful s
  have ht := C50_pack_faithful t
  rw [h] at hs
  obtain ⟨b, t1, k, a, u⟩ := s
  obtain ⟨b', t', k', a', u'⟩ := t
  simp only at hs ht
  obtain ⟨h1, h2, h3, h4, h5⟩ := hs
  obtain ⟨g1, g2, g3, g4, g5⟩ := ht
  have := C50_code_injective _ _ (h2.symm.trans g2)
  simp_all

/-- On every value of the packed byte, reachable or not: setting a flag sets this flag, and
leaves the type and the other flags alone. -/
theorem C50_setFlag (s : PScalar) :
    ((s.setFlag keyMask).isKey = true ∧ (s.setFlag keyMask).type = s.type ∧
      (s.setFlag keyMask).isAlnum = s.isAlnum ∧ (s.setFlag keyMask).isUnescaped = s.isUnescaped) ∧
    ((s.setFlag alnumMask).isAlnum = true ∧ (s.setFlag alnumMask).type = s.type ∧
      (s.setFlag alnumMask).isKey = s.isKey ∧
      (s.setFlag alnumMask).isUnescaped = s.isUnescaped) ∧
    ((s.setFlag unescMask).isUnescaped = true ∧ (s.setFlag unescMask).type = s.type ∧
      (s.setFlag unescMask).isKey = s.isKey ∧ (s.setFlag unescMask).isAlnum = s.isAlnum) := by
  obtain ⟨b, tf⟩ := s
  revert tf
  apply forall_byte
  simp only [PScalar.setFlag, PScalar.isKey, PScalar.type, PScalar.isAlnum, PScalar.isUnescaped]
  set_option maxRecDepth 10000 in decide

/-- `NewScalar` sets no flag, `NewKey` exactly the key flag. -/
theorem C50_constructors (t : SType) (b : Bytes) :
    PScalar.new t b = Scalar.pack ⟨b, t, false, false, false⟩ ∧
    PScalar.newKey t b = Scalar.pack ⟨b, t, true, false, false⟩ := by
  simp [PScalar.new, PScalar.newKey, Scalar.pack]

/-- Non-vacuity: a key that is alphanumeric but not unescaped. -/
example : (Scalar.pack ⟨b%"\"a\"", .str, true, true, false⟩).tf = 0b01111 := by decide

end Verif
