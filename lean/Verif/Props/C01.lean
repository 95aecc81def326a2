import Verif.JsonRound

/-!
# C01: JSON encode/decode round trip
-/

namespace Verif
open Rfc8259 EncSpec Enc

/-- Write a stream of values whose literals are valid (`LaxChars`: whatever the decoder accepts as
the content of a string, in particular all strings of RFC 8259), without colours and with any
formatting options, and read the bytes back, with any reader: the tokens are the same up to the hints
`Alnum` and `Unescaped`. -/
theorem C01_roundtrip_tokens (vs : List JVal) (hs : ∀ v ∈ vs, Spelled LaxChars v) (hn : ∀ v ∈ vs, Complete v)
    (widthLimit maxItems : Int) (pc : PrinterCfg) (r : Reader) (size : Nat) (hsz : 2 ≤ size) (hf : Fair r.sched)
    (he : r.fin = .eof) (hr : r.rest = (encode ⟨none, widthLimit, maxItems⟩ pc goodSink (streamToks vs)).1) :
    (encode ⟨none, widthLimit, maxItems⟩ pc goodSink (streamToks vs)).2 = .ok () ∧
    ∃ ts, Json.decodeFrom r size = (ts, .ok () ()) ∧ ts.map forgetTok = (streamToks vs).map forgetTok := by
  rw [encode_good] at hr ⊢
  dsimp only at hr ⊢
  refine ⟨rfl, streamToks (vs.map (mapScalars canon)), ?_, ?_⟩
  · have h := layoutAll_stream pc (cfg := ⟨none, widthLimit, maxItems⟩) rfl vs hs hn [] ws_nil
    rw [List.nil_append, ← hr] at h
    rw [decodeFrom_fair r size hsz hf, he, decode_complete h]
    rfl
  · clear hr hs hn
    induction vs with
    | nil => rfl
    | cons v vs ih => simp [canon_toks, ih]

/-- The same tokens, if the hints of the given scalars are those that the decoder sets. -/
theorem C01_roundtrip (vs : List JVal) (hs : ∀ v ∈ vs, Spelled LaxChars v) (hh : ∀ v ∈ vs, Hinted LaxChars v)
    (hn : ∀ v ∈ vs, Complete v)
    (widthLimit maxItems : Int) (pc : PrinterCfg) (r : Reader) (size : Nat) (hsz : 2 ≤ size) (hf : Fair r.sched)
    (he : r.fin = .eof) (hr : r.rest = (encode ⟨none, widthLimit, maxItems⟩ pc goodSink (streamToks vs)).1) :
    Json.decodeFrom r size = (streamToks vs, .ok () ()) := by
  rw [encode_good] at hr
  dsimp only at hr
  have h := layoutAll_stream pc (cfg := ⟨none, widthLimit, maxItems⟩) rfl vs hs hn [] ws_nil
  rw [List.nil_append, ← hr] at h
  rw [decodeFrom_fair r size hsz hf, he, decode_complete h]
  have : vs.map (mapScalars canon) = vs := by
    conv => rhs; rw [← List.map_id vs]
    exact List.map_congr_left fun v hv => hinted_canon (hh v hv)
  rw [this]
  rfl

mutual

theorem text_ok {S v b} : Text S v b → Spelled S v ∧ Hinted S v ∧ Complete v
  | .true => ⟨.scalar rfl ⟨_, _, .true⟩, .scalar .true, .scalar⟩
  | .false => ⟨.scalar rfl ⟨_, _, .false⟩, .scalar .false, .scalar⟩
  | .null => ⟨.scalar rfl ⟨_, _, .null⟩, .scalar .null, .scalar⟩
  | .num h => ⟨.scalar rfl ⟨_, _, .num h⟩, .scalar (.num h), .scalar⟩
  | .str h => ⟨.scalar rfl ⟨_, _, .str h⟩, .scalar (.str h), .scalar⟩
  | .arr0 _ => ⟨.arr (by simp), .arr (by simp), .arr (by simp)⟩
  | .arr h => ⟨.arr fun v hv => (items_ok h v hv).1, .arr fun v hv => (items_ok h v hv).2.1,
      .arr fun v hv => (items_ok h v hv).2.2⟩
  | .obj0 _ => ⟨.obj (by simp) (by simp), .obj (by simp) (by simp), .obj (by simp)⟩
  | .obj h => ⟨.obj (fun m hm => by obtain ⟨c, hc, h1, _⟩ := members_ok h m hm; rw [h1]; exact ⟨rfl, rfl, _, _, .str hc⟩)
        (fun m hm => by obtain ⟨c, hc, h1, h2⟩ := members_ok h m hm; exact h2.1),
      .obj (fun m hm => by obtain ⟨c, hc, h1, _⟩ := members_ok h m hm; rw [h1]; exact .str hc)
        (fun m hm => by obtain ⟨c, hc, h1, h2⟩ := members_ok h m hm; exact h2.2.1),
      .obj (fun m hm => by obtain ⟨c, hc, h1, h2⟩ := members_ok h m hm; exact h2.2.2)⟩

theorem items_ok {S vs b} : Items S vs b → ∀ v ∈ vs, Spelled S v ∧ Hinted S v ∧ Complete v
  | .one _ h _, v, hv => by rw [List.mem_singleton] at hv; exact hv ▸ text_ok h
  | .more _ h _ h', v, hv => by
    rcases List.mem_cons.1 hv with e | e
    · exact e ▸ text_ok h
    · exact items_ok h' v e

theorem members_ok {S ms b} : Members S ms b → ∀ m ∈ ms, ∃ c, S c ∧ m.1 = { strScalar c with key := Bool.true } ∧
    (Spelled S m.2 ∧ Hinted S m.2 ∧ Complete m.2)
  | .one _ hc _ _ h _, m, hm => by rw [List.mem_singleton] at hm; exact ⟨_, hc, by rw [hm], by rw [hm]; exact text_ok h⟩
  | .more _ hc _ _ h _ h', m, hm => by
    rcases List.mem_cons.1 hm with e | e
    · exact ⟨_, hc, by rw [e], by rw [e]; exact text_ok h⟩
    · exact members_ok h' m e

end

theorem stream_ok {S vs b} (h : Stream S vs b) : ∀ v ∈ vs, Spelled S v ∧ Hinted S v ∧ Complete v := by
  induction h with
  | nil _ => simp
  | cons _ h _ ih =>
    intro v hv
    rcases List.mem_cons.1 hv with e | e
    · exact e ▸ text_ok h
    · exact ih v e

/-- Reformatting: whatever the decoder has read from some input (without the byte 0xFF), writing it
with any options and reading the result gives the same tokens. -/
theorem C01_reformat (r₀ : Reader) (size₀ : Nat) (h₀ : 2 ≤ size₀) (ts : List Token) (hff : eofByte ∉ r₀.rest)
    (hd : Json.decodeFrom r₀ size₀ = (ts, .ok () ()))
    (widthLimit maxItems : Int) (pc : PrinterCfg) (r : Reader) (size : Nat) (hsz : 2 ≤ size) (hf : Fair r.sched)
    (he : r.fin = .eof) (hr : r.rest = (encode ⟨none, widthLimit, maxItems⟩ pc goodSink ts).1) :
    Json.decodeFrom r size = (ts, .ok () ()) := by
  obtain ⟨_, vs, hst, rfl⟩ := decodeFrom_success h₀ hd hff
  have h := stream_ok hst
  exact C01_roundtrip vs (fun v hv => (h v hv).1) (fun v hv => (h v hv).2.1) (fun v hv => (h v hv).2.2)
    widthLimit maxItems pc r size hsz hf he hr

/-- Non-vacuity: the encoder at work, with three settings. -/
example : let vs := [JVal.arr [.scalar { bytes := b%"1", type := .num }, .obj [({ bytes := b%"\"a\"", type := .str, key := true },
      .scalar { bytes := b%"null", type := .null })] false] false]
    (encode ⟨none, 0, 0⟩ ⟨2, false⟩ goodSink (streamToks vs)).1 = b%"[\n  1,\n  {\n    \"a\": null\n  }\n]\n" ∧
    (encode ⟨none, 0, 9⟩ ⟨-1, false⟩ goodSink (streamToks vs)).1 = b%"[1,{\"a\": null}]\n" ∧
    (encode ⟨none, 80, 9⟩ ⟨1, true⟩ goodSink (streamToks vs)).1 = b%"[\n 1,\n {\"a\": null}\n]\n" := by
  decide

/-- Non-vacuity: a value with valid literals. -/
example : Spelled LaxChars (.scalar (strScalar b%"a")) ∧ Hinted LaxChars (.scalar (strScalar b%"a")) :=
  have h : LaxChars b%"a" := rfc_lax (.plain (c := b%"a") (r := []) ⟨0x61, .inl (by decide), by decide, by decide, by decide, rfl⟩ .nil)
  ⟨.scalar rfl ⟨_, _, .str h⟩, .scalar (.str h)⟩

end Verif
