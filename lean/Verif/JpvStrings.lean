import Verif.JpvWell

/-!
# The strings sent by the JPV decoder (helper lemmas for C51)
-/

set_option linter.unusedVariables false
set_option linter.unusedSimpArgs false

namespace Verif
namespace JpvStrings
open Jpv JpvPure Rfc8259 JpvSpec JpvGrammar

/-- A string between quotes, or a dotted key. -/
def StrShape (s : Scalar) : Prop :=
  (∃ c k, LaxChars c ∧ s = { strScalar c with key := k }) ∨
  ∃ a as, isAlpha a = true ∧ (∀ x ∈ as, isAlnum x = true) ∧
    s = { bytes := 0x22 :: (a :: as ++ [0x22]), type := .str, alnum := true, key := true }

theorem elem_shape {k : Scalar} {b : Bytes} (h : Elem k b) (hs : k.type = .str) : StrShape k := by
  cases h with
  | quoted hc => exact .inl ⟨_, _, hc, rfl⟩
  | index _ _ => cases hs
  | dotted h1 h2 => exact .inr ⟨_, _, h1, h2, rfl⟩

theorem path_shape {p : List Scalar} {b : Bytes} (h : Path p b) : ∀ k ∈ p, k.type = .str → StrShape k := by
  induction h with
  | nil => intro k hk; cases hk
  | cons h1 _ ih =>
    intro k hk hs
    rcases List.mem_cons.1 hk with e | hk
    · subst e; exact elem_shape h1 hs
    · exact ih k hk hs

theorem mem_unwind {s : Scalar} {p : List Scalar} {b : Bool} : Token.scalar s ∉ unwind p b := by
  unfold unwind
  intro h
  rw [List.mem_reverse, List.mem_map] at h
  obtain ⟨k, _, hk⟩ := h
  unfold closer at hk
  split at hk <;> cases hk

theorem mem_follow {s : Scalar} : ∀ {p : List Scalar} {b : Bool}, Token.scalar s ∈ follow p b → s ∈ p := by
  intro p
  induction p with
  | nil => intro b h; cases h
  | cons k ks ih =>
    intro b h
    rw [follow] at h
    rcases List.mem_append.1 h with h | h
    · split at h
      · cases h
      · split at h <;> simp at h
    · rcases List.mem_append.1 h with h | h
      · split at h
        · simp only [List.mem_singleton, Token.scalar.injEq] at h
          rw [h]; exact List.mem_cons_self
        · cases h
      · exact List.mem_cons_of_mem _ (ih h)

theorem mem_upd {s : Scalar} {last new : List Scalar} {ts : List Token} (h : upd last new = .ok ts) (hm : Token.scalar s ∈ ts) :
    s ∈ new := by
  unfold upd at h
  split at h
  · cases h; exact mem_follow hm
  · cases hd : diff last new with
    | error e => rw [hd] at h; cases h
    | ok d =>
      rw [hd] at h
      simp only [Except.map, Except.ok.injEq] at h
      subst h
      obtain ⟨a, a', k, ks, n, ns, _, h2, _, _, h5⟩ := JpvWell.diff_ok hd
      rcases List.mem_append.1 hm with hm | hm
      · exact absurd hm mem_unwind
      · rw [h5] at hm
        rw [h2]
        exact List.mem_append_right _ (mem_follow hm)

theorem produce_strings {fin : RErr} {vfuel : Nat} {s : Scalar} (hs : s.type = .str) (n : Nat) : ∀ {last : List Scalar} {r : Bytes},
    2 * r.length + 1 ≤ vfuel → Token.scalar s ∈ (JpvPure.produce fin vfuel n last r).1 → StrShape s := by
  induction n with
  | zero => intro last r _ h; cases h
  | succ n ih =>
    intro last r hv hm
    obtain ⟨w, hws, hr⟩ := ws_split r
    rw [JpvPure.produce] at hm
    cases hwr : Pure.ws r with
    | nil =>
      rw [hwr] at hm
      exact absurd hm mem_unwind
    | cons b r' =>
      rw [hwr] at hm
      simp only at hm
      have hlen : r'.length < r.length := by
        have := congrArg List.length hr
        rw [hwr] at this
        simp only [List.length_append, List.length_cons] at this
        omega
      split at hm
      · exact absurd hm mem_unwind
      · cases hh : JpvPure.head fin vfuel last (b :: r') with
        | error e =>
          rw [hh] at hm
          cases e with
          | panic => cases hm
          | perr e => exact absurd hm mem_unwind
          | plain e => exact absurd hm mem_unwind
        | ok x =>
          obtain ⟨⟨ts, p⟩, r2⟩ := x
          rw [hh] at hm
          obtain ⟨hd, e1, e2, e3⟩ := head_sound hh
          simp only at e1 e2 e3
          obtain ⟨pb, pw, f1, f2, f3⟩ := e1
          have hl2 : r2.length ≤ r'.length := by
            have := congrArg List.length e2
            subst f3
            simp only [List.length_append, List.length_cons] at this
            omega
          have hkeys : Token.scalar s ∈ ts → StrShape s := fun h => path_shape f1 s (mem_upd e3 h) hs
          simp only [JpvPure.line] at hm
          cases hval : Pure.value fin vfuel r2 with
          | mk vs o =>
            rw [hval] at hm
            cases o with
            | none =>
              have := (Pure.fits fin vfuel).1 r2 (by omega)
              rw [hval] at this
              exact this.elim
            | some o =>
              have hsd := (sound fin vfuel).1 r2
              rw [hval] at hsd
              cases o with
              | error e =>
                obtain ⟨v, t, more, g1, g2⟩ := hsd
                rcases List.mem_append.1 (show Token.scalar s ∈ ts ++ (vs ++ unwind p false) from hm) with hm | hm
                · exact hkeys hm
                · rcases List.mem_append.1 hm with hm | hm
                  · exact .inl (g1.strings s hs (by rw [g2]; exact List.mem_append_left _ hm))
                  · exact absurd hm mem_unwind
              | ok r3 =>
                obtain ⟨w3, v, t, g1, g2, g3, g4⟩ := hsd
                have hl3 : r3.length ≤ r2.length := by
                  have := congrArg List.length g4
                  simp only [List.length_append] at this
                  omega
                rcases List.mem_append.1 (show Token.scalar s ∈ ts ++ (vs ++ (JpvPure.produce fin vfuel n p r3).1) from hm) with hm | hm
                · exact hkeys hm
                · rcases List.mem_append.1 hm with hm | hm
                  · exact .inl (g2.strings s hs (by rw [← g3]; exact hm))
                  · exact ih (by omega) hm

theorem decodeFrom_strings (r : Reader) (size : Nat) (hz : 2 ≤ size) (s : Scalar) (hs : s.type = .str)
    (hm : .scalar s ∈ (Jpv.decodeFrom r size).1) : StrShape s := by
  obtain ⟨D, fin, hd, hx⟩ := jpvDecodeFrom_eq r size hz
  rw [hx] at hm
  have hl := hd.le
  refine produce_strings hs (fin := fin) (vfuel := Json.fuelFor r.rest.length) (Json.fuelFor r.rest.length) (last := []) (r := D)
    (by unfold Json.fuelFor; omega) ?_
  revert hm
  generalize JpvPure.produce fin _ _ [] D = x
  intro hm
  unfold outOfJ at hm
  split at hm <;> exact hm

end JpvStrings
end Verif
