import Verif.JpvPlay

/-!
# C69: JPV lines decode to the values that they describe
-/

namespace Verif
open Rfc8259 JpvSpec JpvPlay

/-- Whether the outcome is the given error. -/
def isPlainErr (m : String) : Out Unit Unit → Bool
  | .fail (.plain m') => decide (m' = m)
  | _ => false

theorem isPlainErr_eq {m : String} {o : Out Unit Unit} (h : isPlainErr m o = true) : o = .fail (.plain m) := by
  unfold isPlainErr at h
  split at h
  · simp at h; rw [h]
  · simp at h

/-- C69 is false: indices are compared as `float64`, so that different ones from 2^53 on are taken for the same, and the second
line is refused, -/
theorem C69_violated (r : Reader) (size : Nat) (hs : 2 ≤ size) (hf : Fair r.sched) (he : r.fin = .eof)
    (hr : r.rest = b%"$[9007199254740992] = 1\n$[9007199254740993] = 2\n") :
    (Jpv.decodeFrom r size).2 = .fail (.plain "inconsistent path: cannot extend previous path") := by
  rw [jpvDecodeFrom_fair r _ hs hf, hr, he]
  exact isPlainErr_eq (by decide +kernel)

/-- of an index with leading zeros only the first zero is compared, -/
theorem C69_violated_zero (r : Reader) (size : Nat) (hs : 2 ≤ size) (hf : Fair r.sched) (he : r.fin = .eof)
    (hr : r.rest = b%"$[01] = 1\n$[02] = 2\n") :
    (Jpv.decodeFrom r size).2 = .fail (.plain "inconsistent path: cannot extend previous path") := by
  rw [jpvDecodeFrom_fair r _ hs hf, hr, he]
  exact isPlainErr_eq (by decide +kernel)

/-- and keys that are different lone surrogates are taken for the same as well. -/
theorem C69_violated_surrogate (r : Reader) (size : Nat) (hs : 2 ≤ size) (hf : Fair r.sched) (he : r.fin = .eof)
    (hr : r.rest = b%"$[\"\\ud800\"] = 1\n$[\"\\ud801\"] = 2\n") :
    (Jpv.decodeFrom r size).2 = .fail (.plain "inconsistent path: cannot extend previous path") := by
  rw [jpvDecodeFrom_fair r _ hs hf, hr, he]
  exact isPlainErr_eq (by decide +kernel)

/-- C69 apart from these: decoding succeeds exactly if the input consists of lines that describe values, and these values are
what is sent.  (Lines describe nothing if a path is the same as, longer than or shorter than the previous one with the same
keys, or if a collection is continued with keys of the other kind.)
Missing: the keys of all lines denote Unicode strings or are indices below 2^53 without leading zeros. -/
theorem C69_exact_partial (r : Reader) (size : Nat) (hs : 2 ≤ size) (hf : Fair r.sched)
    (hp : ∀ ls d r', Lines ls d → r.rest = d ++ r' → ∀ l ∈ ls, ∀ k ∈ l.1, Plain k) (ts : List Token) :
    Jpv.decodeFrom r size = (ts, .ok () ()) ↔
      ∃ ls d w rest vs, Lines ls d ∧ Ws w ∧ r.rest = d ++ (w ++ rest) ∧
        (rest = [] ∧ r.fin = .eof ∨ ∃ rest', rest = 0xFF :: rest') ∧ Describes ls vs ∧ ts = streamToks vs := by
  rw [jpvDecodeFrom_fair r _ hs hf]
  constructor
  · intro h
    cases hx : JpvPure.produce r.fin (Json.fuelFor r.rest.length) (Json.fuelFor r.rest.length) [] r.rest with
    | mk us o =>
      rw [hx] at h
      match o, h with
      | none, h => simp [outOfJ] at h
      | some (.error (.perr e)), h => simp [outOfJ] at h
      | some (.error (.plain e)), h => simp [outOfJ] at h
      | some (.error .panic), h => simp [outOfJ] at h
      | some (.ok rest), h =>
        simp only [outOfJ, Prod.mk.injEq, and_true] at h
        subst h
        obtain ⟨ls, d, w, us', h1, h2, h3, h4, h5, h6⟩ := produce_play _ (by unfold Json.fuelFor; omega) hx
        obtain ⟨vs, h7, h8⟩ := (play_iff _ ls rfl (hp ls d _ h1 h3) us).1 ⟨us', h5, h6⟩
        exact ⟨ls, d, w, rest, vs, h1, h2, h3, h4, h7, h8⟩
  · rintro ⟨ls, d, w, rest, vs, h1, h2, h3, h4, h5, rfl⟩
    obtain ⟨us, h6, h7⟩ := (play_iff _ ls rfl (hp ls d _ h1 h3) (streamToks vs)).2 ⟨vs, h5, rfl⟩
    rw [h3, play_produce h1 h2 h4 (by unfold Json.fuelFor; omega) (by unfold Json.fuelFor; omega) h6]
    simp only [outOfJ, h7]; rfl

/-- No line is lost: the value of every line is found at its path in one of the values that are sent.
Missing: as above. -/
theorem C69_kept_partial (r : Reader) (size : Nat) (hs : 2 ≤ size) (hf : Fair r.sched)
    (hp : ∀ ls d r', Lines ls d → r.rest = d ++ r' → ∀ l ∈ ls, ∀ k ∈ l.1, Plain k) (ts : List Token)
    (h : Jpv.decodeFrom r size = (ts, .ok () ())) :
    ∃ ls d w rest vs, Lines ls d ∧ Ws w ∧ r.rest = d ++ (w ++ rest) ∧
      (rest = [] ∧ r.fin = .eof ∨ ∃ rest', rest = 0xFF :: rest') ∧ ts = streamToks vs ∧
      ∀ l ∈ ls, ∃ v ∈ vs, Found v l.1 l.2 := by
  obtain ⟨ls, d, w, rest, vs, h1, h2, h3, h4, h5, h6⟩ := (C69_exact_partial r size hs hf hp ts).1 h
  exact ⟨ls, d, w, rest, vs, h1, h2, h3, h4, h6, describes_found h5 (hp ls d _ h1 h3)⟩

/-- Non-vacuity: the lines may have been edited such that they are no selection of the lines of a value (a key occurs again, and
indices start anywhere). -/
example (r : Reader) (hf : Fair r.sched) (hr : r.rest = b%"$.a[7] = 1\n$.b = {}\n$.a[3] = 2\n$.a[0] = 3\n") (he : r.fin = .eof) :
    (Jpv.decodeFrom r).1 = (JVal.obj [({ bytes := b%"\"a\"", type := .str, alnum := true, key := true }, .arr [.scalar { bytes := b%"1", type := .num }] false),
        ({ bytes := b%"\"b\"", type := .str, alnum := true, key := true }, .obj [] false),
        ({ bytes := b%"\"a\"", type := .str, alnum := true, key := true },
          .arr [.scalar { bytes := b%"2", type := .num }, .scalar { bytes := b%"3", type := .num }] false)] false).toks := by
  rw [jpvDecodeFrom_fair r _ (by decide) hf, hr, he]
  decide +kernel

/-- Non-vacuity: these lines describe a value, and others describe nothing. -/
example : let k (b : Bytes) : Scalar := { bytes := b, type := .str, alnum := true, key := true }
    let one : JVal := .scalar { bytes := b%"1", type := .num }
    Describes [([k b%"\"a\""], one)] [.obj [(k b%"\"a\"", one)] false] ∧
    ¬ ∃ vs, Describes [([k b%"\"a\""], one), ([], one)] vs := by
  intro k one
  have hpart : Parts .str [under (k b%"\"a\"", ([], one))] [(k b%"\"a\"", one)] :=
    Parts.cons (g := []) (rest := []) rfl (by simp) .leaf (by simp) .nil
  refine ⟨.last (.obj hpart), ?_⟩
  rintro ⟨vs, h⟩
  generalize hL : [([k b%"\"a\""], one), ([], one)] = L at h
  have hparts : ∀ t ms, Parts t L ms → False := by
    intro t ms h
    obtain ⟨n, p, w, e⟩ := parts_path h ([], one) (by rw [← hL]; simp)
    cases e
  cases h with
  | nil => simp at hL
  | last h =>
    cases h with
    | leaf => simp at hL
    | obj h => exact hparts _ _ h
    | arr h => exact hparts _ _ h
  | cons h => simp at hL

end Verif
