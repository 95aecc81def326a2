import Verif.JsonColor

/-!
# C14: colours are only decoration
-/

namespace Verif
open Enc

/-- Specification: the scalars of a token stream in order, keys included. -/
def streamScalars (ts : List Token) : List Scalar := ts.flatMap fun | .scalar s => [s] | _ => []

/-- The output is composed of the scalars of the stream in order, with punctuation and white space
between them: without colours just so; with colours each scalar is preceded by the code of its kind
(the key code for keys) and followed by the reset code, everything else is the same. -/
theorem C14_colours_decorate (c : Colorizer) (widthLimit maxItems : Int) (pc : PrinterCfg) (vs : List JVal) :
    ∃ parts : List (Bytes ⊕ Scalar),
      (parts.flatMap fun | .inl _ => [] | .inr s => [s]) = streamScalars (streamToks vs) ∧
      (∀ b, .inl b ∈ parts → ∀ x ∈ b, x ∈ b%"[]{},:. \n") ∧
      encode ⟨none, widthLimit, maxItems⟩ pc goodSink (streamToks vs) =
        (parts.flatMap fun | .inl b => b | .inr s => s.bytes, .ok ()) ∧
      encode ⟨some c, widthLimit, maxItems⟩ pc goodSink (streamToks vs) =
        (parts.flatMap fun
          | .inl b => b
          | .inr s => (if s.key then c.keyCode else c.codes s.type) ++ (s.bytes ++ c.resetCode), .ok ()) := by
  obtain ⟨m, h1, h2, h3, h4⟩ := twin_layoutAll ⟨some c, widthLimit, maxItems⟩ vs
  refine ⟨segs pc 0 m, ?_, segs_punct pc m 0 h4, ?_, ?_⟩
  · exact (segs_marks pc m 0).trans h3.symm
  · rw [encode_good, show (⟨none, widthLimit, maxItems⟩ : EncCfg) = plain ⟨some c, widthLimit, maxItems⟩ from rfl, h2,
      segs_render]
    refine Prod.ext ?_ rfl
    show List.flatMap _ _ = List.flatMap _ _
    congr 1
    funext x
    cases x <;> simp [printScalar]
  · rw [encode_good, h1, segs_render]
    refine Prod.ext ?_ rfl
    show List.flatMap _ _ = List.flatMap _ _
    congr 1
    funext x
    cases x <;> simp [printScalar, Colorizer.code]

/-- Specification: remove escape sequences (from ESC to `m`) from a text. -/
def stripEscapes : Bool → Bytes → Bytes
  | _, [] => []
  | false, b :: r => if b = 0x1B then stripEscapes true r else b :: stripEscapes false r
  | true, b :: r => if b = 0x6D then stripEscapes false r else stripEscapes true r

/-- Specification: an escape sequence (or no code at all). -/
def EscapeCode (c : Bytes) : Prop := c = [] ∨ ∃ t, (0x6D : Byte) ∉ t ∧ c = 0x1B :: (t ++ [0x6D])

theorem stripEscapes_in {t : Bytes} (h : (0x6D : Byte) ∉ t) (r : Bytes) :
    stripEscapes true (t ++ 0x6D :: r) = stripEscapes false r := by
  induction t with
  | nil => simp [stripEscapes]
  | cons x t ih =>
    simp only [List.mem_cons, not_or] at h
    simp [stripEscapes, Ne.symm h.1, ih h.2]

theorem stripEscapes_code {c : Bytes} (h : EscapeCode c) (r : Bytes) : stripEscapes false (c ++ r) = stripEscapes false r := by
  rcases h with rfl | ⟨t, ht, rfl⟩
  · rfl
  · simp only [List.cons_append, List.append_assoc, List.nil_append]
    simp only [stripEscapes, if_true]
    exact stripEscapes_in ht r

theorem stripEscapes_plain {b : Bytes} (h : (0x1B : Byte) ∉ b) (r : Bytes) :
    stripEscapes false (b ++ r) = b ++ stripEscapes false r := by
  induction b with
  | nil => rfl
  | cons x b ih =>
    simp only [List.mem_cons, not_or] at h
    simp [stripEscapes, Ne.symm h.1, ih h.2]

/-- If all codes are escape sequences and no scalar contains ESC (which no JSON literal does),
removing the escape sequences from the coloured output gives the uncoloured output. -/
theorem C14_removing_codes (c : Colorizer) (hk : EscapeCode c.keyCode) (hc : ∀ t, EscapeCode (c.codes t))
    (hr : EscapeCode c.resetCode) (widthLimit maxItems : Int) (pc : PrinterCfg) (vs : List JVal)
    (hv : ∀ s ∈ streamScalars (streamToks vs), (0x1B : Byte) ∉ s.bytes) :
    stripEscapes false (encode ⟨some c, widthLimit, maxItems⟩ pc goodSink (streamToks vs)).1 =
      (encode ⟨none, widthLimit, maxItems⟩ pc goodSink (streamToks vs)).1 := by
  obtain ⟨parts, h1, h2, h3, h4⟩ := C14_colours_decorate c widthLimit maxItems pc vs
  rw [h3, h4]
  rw [← h1] at hv
  clear h1 h3 h4
  induction parts with
  | nil => rfl
  | cons x parts ih =>
    have ih := ih (fun s hs => hv s (by rw [List.flatMap_cons]; exact List.mem_append_right _ hs)) (fun b hb => h2 b (by simp [hb]))
    dsimp only at ih ⊢
    cases x with
    | inl b =>
      simp only [List.flatMap_cons]
      rw [stripEscapes_plain, ih]
      intro hb
      exact absurd (h2 b (by simp) _ hb) (by decide)
    | inr s =>
      simp only [List.flatMap_cons, List.append_assoc]
      rw [stripEscapes_code, stripEscapes_plain (hv s (by simp)), stripEscapes_code hr, ih]
      split
      · exact hk
      · exact hc _

/-- Non-vacuity: a colour table, and what it does. -/
example : let c : Colorizer := ⟨b%"\x1b[1m", fun _ => b%"\x1b[32m", b%"\x1b[0m"⟩
    EscapeCode c.keyCode ∧
    (encode ⟨some c, 0, 5⟩ ⟨-1, false⟩ goodSink (streamToks [.obj [({ bytes := b%"\"k\"", type := .str, key := true },
      .scalar { bytes := b%"1", type := .num })] false])).1 = b%"{\x1b[1m\"k\"\x1b[0m: \x1b[32m1\x1b[0m}\n" :=
  ⟨.inr ⟨b%"[1", by decide, by decide⟩, by decide⟩

end Verif
