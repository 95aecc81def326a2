import Verif.CsvRecords
import Verif.Props.C01

/-!
# Reading back the JSON written from a CSV file (helper lemmas)
-/

set_option linter.unusedSimpArgs false

namespace Verif.Csv
open Rfc8259 CsvSpec EncSpec Enc

theorem quoted_rfc {f : Bytes} (hu : Utf8 f) (hc : Clean f) : RfcChars (f.flatMap escByte) := by
  obtain ⟨cps, hcps, rfl⟩ := hu
  exact rfc_field cps hcps hc

theorem spelled_str {s : Scalar} {c} (hb : s.bytes = 0x22 :: (c ++ [0x22])) (ht : s.type = .str) (hc : RfcChars c) :
    SpelledScalar LaxChars s := by
  refine ⟨alnumFlag c, !c.contains 0x5C, ?_⟩
  have h := Text.str (rfc_lax hc)
  obtain ⟨b, t, k, a, u⟩ := s
  dsimp only at hb ht ⊢
  subst hb; subst ht
  exact h

theorem cell_spelled {f : Bytes} (hu : Utf8 f) (hc : Clean f) : (cell f).key = false ∧ SpelledScalar LaxChars (cell f) := by
  obtain ⟨s, e, hk, he, h⟩ := data_spec f
  rw [cell_eq, Option.some.injEq] at e
  rw [e]
  refine ⟨hk, ?_⟩
  clear e
  rcases h with ⟨_, h1, h2⟩ | ⟨h, h1, h2⟩ | ⟨_, _, _, ⟨h, _, h1, h2⟩ | ⟨_, h1, h2, _⟩ | ⟨_, _, h1, h, _⟩⟩
  · refine ⟨false, false, ?_⟩
    obtain ⟨b, t, k, a, u⟩ := s
    dsimp only at h1 h2 ⊢; subst h1; subst h2
    exact .null
  · refine ⟨false, false, ?_⟩
    obtain ⟨b, t, k, a, u⟩ := s
    dsimp only at h1 h2 ⊢; subst h1; subst h2
    rcases h with rfl | rfl
    · exact .true
    · exact .false
  · refine ⟨false, false, ?_⟩
    obtain ⟨b, t, k, a, u⟩ := s
    dsimp only at h1 h2 ⊢; subst h1; subst h2
    exact .num h
  · exact spelled_str h2 h1 (quoted_rfc hu hc)
  · refine ⟨false, false, ?_⟩
    obtain ⟨b, t, k, a, u⟩ := s
    dsimp only at h1 h ⊢; subst h1
    exact .num h

/-- A key with its flag. -/
def flagged (k : Scalar) : Scalar := { k with key := true }

theorem fits_flagged (cfg : EncCfg) : ∀ (ms : List (Scalar × It)) (n : Nat) (w : Int),
    fits cfg n w (ms.map fun m => (flagged m.1, m.2)) = fits cfg n w ms
  | [], _, _ => rfl
  | (k, .inl s) :: ms, n, w => by simp only [List.map_cons, fits, fits_flagged cfg ms]; rfl
  | (k, .inr s) :: ms, n, w => rfl

theorem layObj_flagged (wl mi : Int) (ms : List (Scalar × It)) (e : Bool) :
    layObj ⟨none, wl, mi⟩ (ms.map fun m => (flagged m.1, m.2)) e = layObj ⟨none, wl, mi⟩ ms e := by
  unfold layObj
  rw [fits_flagged, List.map_map]
  rfl

theorem layout_flagged (wl mi : Int) (o : Bool) (key : Nat → Scalar) (cl : Bytes → Scalar) (r : List Bytes) :
    layout ⟨none, wl, mi⟩ (recordVal o (fun j => flagged (key j)) cl r) = layout ⟨none, wl, mi⟩ (recordVal o key cl r) := by
  unfold recordVal
  cases o with
  | false => rfl
  | true =>
    simp only [if_true, layout, it_obj, It.ops, List.map_map]
    rw [← layObj_flagged wl mi (List.map ((fun m => (m.fst, it _ m.snd)) ∘ fun x => (key x.snd, JVal.scalar (cl x.fst))) r.zipIdx), List.map_map]
    rfl

theorem encode_flagged (wl mi : Int) (pc : PrinterCfg) (o : Bool) (key : Nat → Scalar) (cl : Bytes → Scalar) (rs : List (List Bytes)) :
    encode ⟨none, wl, mi⟩ pc goodSink (streamToks (rs.map (recordVal o (fun j => flagged (key j)) cl))) =
      encode ⟨none, wl, mi⟩ pc goodSink (streamToks (rs.map (recordVal o key cl))) := by
  rw [encode_good, encode_good]
  congr 2
  simp only [layoutAll, List.flatMap_map, layout_flagged]

theorem record_complete (o : Bool) (key : Nat → Scalar) (cl : Bytes → Scalar) (r : List Bytes) : Complete (recordVal o key cl r) := by
  unfold recordVal
  cases o with
  | false => exact .arr (by simp only [List.mem_map]; rintro _ ⟨f, _, rfl⟩; exact .scalar)
  | true => exact .obj (by simp only [List.mem_map]; rintro _ ⟨f, _, rfl⟩; exact .scalar)

theorem bare_forget {ts us : List Token} (h : ts.map forgetTok = us.map forgetTok) : ts.map bare = us.map bare := by
  have : ∀ l : List Token, l.map bare = (l.map forgetTok).map bare := by
    intro l; rw [List.map_map]; apply List.map_congr_left; intro t _; cases t <;> rfl
  rw [this, h, ← this]

theorem bare_record (o : Bool) (key : Nat → Scalar) (cl : Bytes → Scalar) (r : List Bytes) :
    ((recordVal o (fun j => flagged (key j)) cl r).toks).map bare = ((recordVal o key cl r).toks).map bare := by
  unfold recordVal
  cases o with
  | false => rfl
  | true =>
    simp only [if_true]
    have : ∀ l : List (Bytes × Nat), (JVal.toks.memberToks (l.map fun (f, j) => (flagged (key j), .scalar (cl f)))).map bare =
        (JVal.toks.memberToks (l.map fun (f, j) => (key j, .scalar (cl f)))).map bare := by
      intro l; induction l with
      | nil => rfl
      | cons a l ih => 
        obtain ⟨f, j⟩ := a
        simp only [List.map_cons, JVal.toks.memberToks, List.map_append, ih]
        rfl
    simp [this]

theorem bare_stream (o : Bool) (key : Nat → Scalar) (cl : Bytes → Scalar) (rs : List (List Bytes)) :
    (streamToks (rs.map (recordVal o (fun j => flagged (key j)) cl))).map bare = (streamToks (rs.map (recordVal o key cl))).map bare := by
  induction rs with
  | nil => rfl
  | cons r rs ih => simp [bare_record, ih]

end Verif.Csv
