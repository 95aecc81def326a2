import Verif.JpvRound
import Verif.Props.C15

/-!
# C16: the subset property of JPV
-/

namespace Verif
open Rfc8259 EncSpec Enc JpvSpec JpvRound

/-- C16 is false in the default mode, as C15: the line for an empty key does not decode. -/
theorem C16_violated (r : Reader) (size : Nat) (hs : 2 ≤ size) (hf : Fair r.sched) (he : r.fin = .eof) (b : Bytes)
    (hb : (JEnc.encode ⟨none, false⟩ ⟨2, true⟩ goodSink (oneMember []).toks).1 = b ++ b%"\n\n") (hr : r.rest = b) :
    ∃ e, Jpv.decodeFrom r size = ([], .fail e) := by
  have h1 : b = b%"$. = 1" := by
    have h2 : (JEnc.encode ⟨none, false⟩ ⟨2, true⟩ goodSink (oneMember []).toks).1 = b%"$. = 1" ++ b%"\n\n" := rfl
    rw [h2] at hb
    exact (List.append_cancel_right hb).symm
  rw [jpvDecodeFrom_fair r _ hs hf, hr, h1, he]
  exact ⟨_, rfl⟩

/-- C16: the output of the encoder consists of one line for each leaf of the value, and an empty line.  Any selection of
these lines decodes, however it is read, to the value from which the other leaves have been removed, together with the
collections that become empty (`prune`); to nothing if no line is selected.  Strings are the same up to hints.
Missing: as in C15, in the default mode keys marked as alphanumeric have to be identifiers; keys denote Unicode strings;
arrays have at most 2^53 items. -/
theorem C16_subset_partial (v : JVal) (hv : Spelled RfcChars v) (hc : Complete v) (hd : DistinctKeys v) (hl : Short v)
    (quote : Bool) (ha : quote = false → TrueAlnum v) (pc : PrinterCfg) (hpc : 0 ≤ pc.indentSize) :
    ∃ lines : List Bytes,
      (JEnc.encode ⟨none, quote⟩ pc goodSink v.toks).1 = lines.flatten ++ b%"\n" ∧
      (∀ l ∈ lines, ∃ b, l = b ++ b%"\n" ∧ (0x0A : Byte) ∉ b) ∧ lines.length = leafCount v ∧
      ∀ (mask : List Bool) (w : Bytes) (r : Reader) (size : Nat), Ws w → 2 ≤ size → Fair r.sched → r.fin = .eof →
        r.rest = (select lines mask).flatten ++ w →
        ∃ ts, Jpv.decodeFrom r size = (ts, .ok () ()) ∧ WellFormed ts ∧
          ts.map forgetTok = (streamToks (prune v mask).toList).map forgetTok := by
  have hv' : Spelled LaxChars v := spelled_mono (fun c => rfc_lax) hv
  have e : v.toks = streamToks [v] := by simp
  have hg := encode_good quote pc [v] (S := LaxChars) (by simpa using hv') (by simpa using hc)
  rw [← e] at hg
  refine ⟨linesOf quote pc v, by rw [hg]; simp, lines_proper hpc hv, by simp [linesOf, JpvTree.ents_length], ?_⟩
  intro mask w r size hw hs hf he hr
  refine ⟨_, decode_selected hv' hc hd hl ha mask hw r size hs hf he hr, ⟨_, rfl⟩, ?_⟩
  cases prune v mask with
  | none => rfl
  | some u => simp [mapScalars_toks (dk_forget quote)]

/-- Non-vacuity: the first of three lines and the second one are removed. -/
example : prune (.obj [({ bytes := b%"\"a\"", type := .str, key := true },
      .arr [.scalar { bytes := b%"1", type := .num }, .obj [] false] false),
      ({ bytes := b%"\"b\"", type := .str, key := true }, .scalar { bytes := b%"null", type := .null })] false) [false, true, false] =
    some (.obj [({ bytes := b%"\"a\"", type := .str, key := true }, .arr [.obj [] false] false)] false) ∧
    select [b%"$.a[0] = 1\n", b%"$.a[1] = {}\n", b%"$.b = null\n"] [false, true, false] = [b%"$.a[1] = {}\n"] := by
  constructor <;> rfl

end Verif
