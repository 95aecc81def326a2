import Verif.JpvRound

/-!
# C15: JPV is reversible
-/

namespace Verif
open Rfc8259 EncSpec Enc JpvSpec JpvRound

/-- An object with a member whose key is the given string literal, as decoded from JSON. -/
def oneMember (c : Bytes) : JVal :=
  .obj [({ strScalar c with key := true }, .scalar { bytes := b%"1", type := .num })] false

/-- C15 is false in the default mode (keys are not always quoted): an empty key is printed as nothing after a dot, which
does not decode. -/
theorem C15_violated (r : Reader) (size : Nat) (hs : 2 ≤ size) (hf : Fair r.sched)
    (he : r.fin = .eof) (hr : r.rest = (JEnc.encode ⟨none, false⟩ ⟨2, true⟩ goodSink (oneMember []).toks).1) :
    r.rest = b%"$. = 1\n\n" ∧ ∃ e, Jpv.decodeFrom r size = ([], .fail e) := by
  have h1 : r.rest = b%"$. = 1\n\n" := hr
  refine ⟨h1, ?_⟩
  rw [jpvDecodeFrom_fair r _ hs hf, h1, he]
  exact ⟨_, rfl⟩

/-- A key that consists of escapes is printed after a dot as well, without its quotes. -/
theorem C15_violated_escape (r : Reader) (size : Nat) (hs : 2 ≤ size)
    (hf : Fair r.sched) (he : r.fin = .eof)
    (hr : r.rest = (JEnc.encode ⟨none, false⟩ ⟨2, true⟩ goodSink (oneMember b%"\\n").toks).1) :
    r.rest = b%"$.\\n = 1\n\n" ∧ ∃ e, Jpv.decodeFrom r size = ([], .fail e) := by
  have h1 : r.rest = b%"$.\\n = 1\n\n" := hr
  refine ⟨h1, ?_⟩
  rw [jpvDecodeFrom_fair r _ hs hf, h1, he]
  exact ⟨_, rfl⟩

/-- The witnesses are as a decoder of JSON sends them, and have distinct keys. -/
theorem oneMember_ok : Hinted RfcChars (oneMember []) ∧ Hinted RfcChars (oneMember b%"\\n") ∧ DistinctKeys (oneMember []) ∧
    DistinctKeys (oneMember b%"\\n") := by
  have hn : Text RfcChars (.scalar { bytes := b%"1", type := .num }) b%"1" :=
    .num ⟨[], b%"1", [], [], .inl rfl, .inr ⟨0x31, [], by decide, by decide, by simp, rfl⟩, .inl rfl, .inl rfl, rfl⟩
  have h : ∀ c, RfcChars c → Hinted RfcChars (oneMember c) := by
    intro c hc
    refine .obj ?_ ?_
    · simp only [List.mem_singleton]; rintro m rfl; exact Text.str hc
    · simp only [List.mem_singleton]; rintro m rfl; exact .scalar hn
  have d : ∀ c s, Denotes c s → DistinctKeys (oneMember c) := by
    intro c s hc
    refine .obj ?_ (by simp) ?_
    · simp only [List.mem_singleton]; rintro m rfl; exact ⟨s, c, rfl, hc⟩
    · simp only [List.mem_singleton]; rintro m rfl; exact .scalar
  have he : RfcEsc 0x6E := by unfold RfcEsc; decide
  exact ⟨h _ .nil, h _ (.esc he .nil), d _ [] .nil, d _ [0x0A] (.esc (by decide) .nil)⟩

/-- C15: what is decoded from the output of the encoder, whatever the printer's settings and however the bytes are read, is
the value that was encoded, up to the hints about the contents of strings.
Missing: in the default mode the keys marked as alphanumeric have to be identifiers, which is not the case for empty keys and
some keys with escapes (`C15_violated`); in both modes, keys denote Unicode strings (no lone surrogates, which are all
replaced by U+FFFD when they are compared) and arrays have at most 2^53 items. -/
theorem C15_round_trip_partial (v : JVal) (hv : Spelled LaxChars v) (hc : Complete v) (hd : DistinctKeys v) (hl : Short v)
    (quote : Bool) (ha : quote = false → TrueAlnum v) (pc : PrinterCfg) (r : Reader) (size : Nat) (hs : 2 ≤ size)
    (hf : Fair r.sched) (he : r.fin = .eof) (hr : r.rest = (JEnc.encode ⟨none, quote⟩ pc goodSink v.toks).1) :
    (JEnc.encode ⟨none, quote⟩ pc goodSink v.toks).2 = .ok () ∧
    ∃ ts, Jpv.decodeFrom r size = (ts, .ok () ()) ∧ ts.map forgetTok = v.toks.map forgetTok := by
  have e : v.toks = streamToks [v] := by simp
  have hg := encode_good quote pc [v] (S := LaxChars) (by simpa using hv) (by simpa using hc)
  rw [← e] at hg
  rw [hg] at hr ⊢
  refine ⟨rfl, _, decode_selected (pc := pc) (m := List.replicate (leafCount v) true) hv hc hd hl ha ws_nl r size hs hf he ?_, ?_⟩
  · rw [hr, select_all _ _ (by simp [linesOf, JpvTree.ents_length])]
    simp
  · rw [prune_all v _ (Nat.le_refl _)]
    simp [mapScalars_toks (dk_forget quote)]

/-- With quoted keys, if the hints are those a decoder sets, the very same tokens come out. -/
theorem C15_quoted_exact_partial (v : JVal) (hv : Spelled LaxChars v) (hh : Hinted LaxChars v) (hc : Complete v)
    (hd : DistinctKeys v) (hl : Short v) (pc : PrinterCfg) (r : Reader) (size : Nat) (hs : 2 ≤ size)
    (hf : Fair r.sched) (he : r.fin = .eof) (hr : r.rest = (JEnc.encode ⟨none, true⟩ pc goodSink v.toks).1) :
    Jpv.decodeFrom r size = (v.toks, .ok () ()) := by
  have e : v.toks = streamToks [v] := by simp
  have hg := encode_good true pc [v] (S := LaxChars) (by simpa using hv) (by simpa using hc)
  rw [← e] at hg
  rw [hg] at hr
  rw [decode_selected (quote := true) (pc := pc) (m := List.replicate (leafCount v) true) hv hc hd hl (by simp) ws_nl r size hs hf he ?_]
  · rw [prune_all v _ (Nat.le_refl _), dk_true]
    simp [hinted_canon hh]
  · rw [hr, select_all _ _ (by simp [linesOf, JpvTree.ents_length])]
    simp

/-- Non-vacuity: the output for an object with an array, a number and an empty object. -/
example : (JEnc.encode ⟨none, false⟩ ⟨2, true⟩ goodSink
    [.startObj, .scalar { bytes := b%"\"a\"", type := .str, key := true, alnum := true }, .startArr,
      .scalar { bytes := b%"1", type := .num }, .startObj, .endObj, .endArr,
      .scalar { bytes := b%"\"b c\"", type := .str, key := true }, .scalar { bytes := b%"null", type := .null }, .endObj]).1 =
    b%"$.a[0] = 1\n$.a[1] = {}\n$[\"b c\"] = null\n\n" := by
  decide +kernel

end Verif
