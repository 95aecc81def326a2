import Verif.JsonStream

/-!
# C04: decoded streams are well formed
-/

namespace Verif
open Rfc8259 JVal.toks

/-- Specification: a complete value as a decoder has to deliver it.  Keys are strings and flagged
as keys, nothing else is flagged as a key, and nothing is elided. -/
inductive JVal.Proper : JVal → Prop
  | scalar {s} : s.key = false → Proper (.scalar s)
  | arr {vs} : (∀ v ∈ vs, Proper v) → Proper (.arr vs false)
  | obj {ms} : (∀ m ∈ ms, m.1.type = .str ∧ m.1.key = true) → (∀ m ∈ ms, Proper m.2) → Proper (.obj ms false)

mutual

theorem text_proper {S : Bytes → Prop} : ∀ {v : JVal} {b : Bytes}, Text S v b → v.Proper
  | _, _, .true => .scalar rfl
  | _, _, .false => .scalar rfl
  | _, _, .null => .scalar rfl
  | _, _, .num _ => .scalar rfl
  | _, _, .str _ => .scalar rfl
  | _, _, .arr0 _ => .arr (by simp)
  | _, _, .obj0 _ => .obj (by simp) (by simp)
  | _, _, .arr h => .arr (items_proper h)
  | _, _, .obj h => .obj (fun m hm => (members_proper h m hm).1) (fun m hm => (members_proper h m hm).2)

theorem items_proper {S : Bytes → Prop} : ∀ {vs : List JVal} {b : Bytes}, Items S vs b → ∀ v ∈ vs, v.Proper
  | _, _, .one _ h _ => fun _ hu => (List.mem_singleton.1 hu) ▸ text_proper h
  | _, _, .more _ h _ hi => fun u hu =>
    (List.mem_cons.1 hu).elim (fun e => e ▸ text_proper h) (items_proper hi u)

theorem members_proper {S : Bytes → Prop} : ∀ {ms : List (Scalar × JVal)} {b : Bytes}, Members S ms b →
    ∀ m ∈ ms, (m.1.type = .str ∧ m.1.key = true) ∧ m.2.Proper
  | _, _, .one _ _ _ _ h _ => fun _ hu => (List.mem_singleton.1 hu) ▸ ⟨⟨rfl, rfl⟩, text_proper h⟩
  | _, _, .more _ _ _ _ h _ hi => fun u hu =>
    (List.mem_cons.1 hu).elim (fun e => e ▸ ⟨⟨rfl, rfl⟩, text_proper h⟩) (members_proper hi u)

end

theorem stream_proper {S : Bytes → Prop} {vs b} (h : Stream S vs b) : ∀ v ∈ vs, v.Proper := by
  induction h with
  | nil _ => simp
  | cons _ ht _ ih => intro u hu; exact (List.mem_cons.1 hu).elim (fun e => e ▸ text_proper ht) (ih u)

/-- On success the tokens are those of a sequence of complete values. -/
theorem C04_success_well_formed (r : Reader) (size : Nat) (hs : 2 ≤ size) (ts : List Token)
    (h : Json.decodeFrom r size = (ts, .ok () ())) :
    ∃ vs : List JVal, (∀ v ∈ vs, v.Proper) ∧ ts = streamToks vs := by
  obtain ⟨D, fin, _, hx⟩ := decodeFrom_spec r size hs
  rw [h] at hx
  obtain ⟨vs, b, r', h1, h2, _⟩ := hx
  exact ⟨vs, stream_proper h1, h2⟩

/-- On failure they are a prefix of such a sequence. -/
theorem C04_failure_prefix (r : Reader) (size : Nat) (hs : 2 ≤ size) (ts : List Token) (e : Err)
    (h : Json.decodeFrom r size = (ts, .fail e)) :
    ∃ (vs : List JVal) (more : List Token), (∀ v ∈ vs, v.Proper) ∧ ts ++ more = streamToks vs := by
  obtain ⟨D, fin, _, hx⟩ := decodeFrom_spec r size hs
  rw [h] at hx
  obtain ⟨vs, b, more, h1, h2⟩ := hx
  exact ⟨vs, more, stream_proper h1, h2.symm⟩

/-- Non-vacuity: both cases occur. -/
example (r : Reader) (hf : Fair r.sched) (hr : r.rest = b%"[1,{\"a\":2}]") (he : r.fin = .eof) :
    Json.decodeFrom r = ([.startArr, .scalar { bytes := b%"1", type := .num }, .startObj,
      .scalar { strScalar b%"a" with key := true }, .scalar { bytes := b%"2", type := .num }, .endObj, .endArr], .ok () ()) := by
  rw [decodeFrom_fair r _ (by decide) hf, hr, he]
  rfl

example (r : Reader) (hf : Fair r.sched) (hr : r.rest = b%"[1,") (he : r.fin = .eof) :
    Json.decodeFrom r = ([.startArr, .scalar { bytes := b%"1", type := .num }], .fail (.io .eof)) := by
  rw [decodeFrom_fair r _ (by decide) hf, hr, he]
  rfl

end Verif
