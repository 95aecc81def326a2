import Verif.JsonText

/-!
# C12: indentation is balanced
-/

namespace Verif
open Rfc8259 EncSpec Enc

/-- The encoder's calls to the printer for each value (with or without colours): at whatever level it
starts, the level is the same in the end, and never below in between. -/
theorem C12_level_restored (cfg : EncCfg) (pc : PrinterCfg) (vs : List JVal) :
    ∃ (calls : List (List POp)) (h : Heap), calls.length = vs.length ∧
      (consume cfg ((streamToks vs).length + 1)).run Heap.mach (Heap.init (streamToks vs)) =
        (calls.flatMap (· ++ [.reset]), .ok (h, ())) ∧
      ∀ c ∈ calls, ∀ lvl, (pc.execAll lvl c).2 = lvl ∧ ∀ p, p <+: c → lvl ≤ (pc.execAll lvl p).2 := by
  obtain ⟨h, e⟩ := consume_run cfg vs ((streamToks vs).length + 1) (by omega)
  refine ⟨vs.map (layout cfg), h, by simp, ?_, ?_⟩
  · rw [e]; simp [layoutAll, List.flatMap_map]
  · simp only [List.mem_map]
    rintro c ⟨v, _, rfl⟩
    exact layout_balanced pc cfg v

/-- The output is a sequence of texts, one for each value, each ended by a line break; all lines
within a text (but the first) are indented by exactly the indent size times the depth of nesting. -/
theorem C12_lines_indented (vs : List JVal) (hs : ∀ v ∈ vs, Spelled LaxChars v) (widthLimit maxItems : Int) (n : Nat) (fl : Bool) :
    ∃ texts : List Bytes, texts.length = vs.length ∧
      encode ⟨none, widthLimit, maxItems⟩ ⟨n, fl⟩ goodSink (streamToks vs) = (texts.flatMap (· ++ [0x0A]), .ok ()) ∧
      ∀ t ∈ texts, Indented n t := by
  refine ⟨vs.map fun v => render ⟨n, fl⟩ 0 (layout ⟨none, widthLimit, maxItems⟩ v), by simp, ?_, ?_⟩
  · rw [encode_good, render_layoutAll]; simp [List.flatMap_map]
  · simp only [List.mem_map]
    rintro t ⟨v, hv, rfl⟩
    have h := (layout_ind (pc := ⟨n, fl⟩) rfl (cfg := ⟨none, widthLimit, maxItems⟩) rfl v (hs v hv) 0).1 []
    simp only [List.append_nil] at h
    exact h.trans (by simp [tag, linesIndented])

/-- With a negative indent size each text is on one line. -/
theorem C12_one_line (vs : List JVal) (hs : ∀ v ∈ vs, Spelled LaxChars v) (widthLimit maxItems : Int) (n : Int) (hn : n < 0)
    (fl : Bool) :
    ∃ texts : List Bytes, texts.length = vs.length ∧
      encode ⟨none, widthLimit, maxItems⟩ ⟨n, fl⟩ goodSink (streamToks vs) = (texts.flatMap (· ++ [0x0A]), .ok ()) ∧
      ∀ t ∈ texts, OneLine t := by
  refine ⟨vs.map fun v => render ⟨n, fl⟩ 0 (layout ⟨none, widthLimit, maxItems⟩ v), by simp, ?_, ?_⟩
  · rw [encode_good, render_layoutAll]; simp [List.flatMap_map]
  · simp only [List.mem_map]
    rintro t ⟨v, hv, rfl⟩
    exact (layout_flat1 (pc := ⟨n, fl⟩) hn (cfg := ⟨none, widthLimit, maxItems⟩) rfl v (hs v hv) 0).2

/-- Non-vacuity: correct and incorrect indentation. -/
example : Indented 2 b%"[\n  {\n    \"\n\": 1\n  },\n  2\n]" ∧ ¬ Indented 2 b%"[\n  1\n  ]" ∧ ¬ Indented 2 b%"[\n 1\n]" := by
  unfold Indented; decide

end Verif
