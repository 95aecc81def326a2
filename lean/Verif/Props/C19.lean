import Verif.JpvRound

/-!
# C19: JPV streams of several values
-/

namespace Verif
open Rfc8259 EncSpec Enc JpvSpec JpvRound JpvTree

/-- An array with one item. -/
def oneItem (b : Bytes) : JVal := .arr [.scalar { bytes := b, type := .num }] false

/-- An object with one member. -/
def oneKey (k b : Bytes) : JVal :=
  .obj [({ bytes := k, type := .str, key := true, alnum := true, unesc := true }, .scalar { bytes := b, type := .num })] false

/-- C19 is false: two arrays do not decode, since the second one starts with the same path as the first one, -/
theorem C19_violated (r : Reader) (size : Nat) (hs : 2 ≤ size) (hf : Fair r.sched) (he : r.fin = .eof)
    (hr : r.rest = (JEnc.encode ⟨none, false⟩ ⟨2, true⟩ goodSink (streamToks [oneItem b%"1", oneItem b%"2"])).1) :
    ∃ ts e, Jpv.decodeFrom r size = (ts, .fail e) := by
  have h1 : r.rest = b%"$[0] = 1\n\n$[0] = 2\n\n" := by rw [hr]; decide +kernel
  rw [jpvDecodeFrom_fair r _ hs hf, h1, he]
  exact ⟨_, _, rfl⟩

/-- and two objects with different keys are merged into one. -/
theorem C19_violated_merged (r : Reader) (size : Nat) (hs : 2 ≤ size) (hf : Fair r.sched) (he : r.fin = .eof)
    (hr : r.rest = (JEnc.encode ⟨none, false⟩ ⟨2, true⟩ goodSink (streamToks [oneKey b%"\"a\"" b%"1", oneKey b%"\"b\"" b%"2"])).1) :
    ∃ ts, Jpv.decodeFrom r size = (ts, .ok () ()) ∧
      ts.map forgetTok = (streamToks [.obj [({ bytes := b%"\"a\"", type := .str, key := true }, .scalar { bytes := b%"1", type := .num }),
        ({ bytes := b%"\"b\"", type := .str, key := true }, .scalar { bytes := b%"2", type := .num })] false]).map forgetTok := by
  have h1 : r.rest = b%"$.a = 1\n\n$.b = 2\n\n" := by rw [hr]; decide +kernel
  rw [jpvDecodeFrom_fair r _ hs hf, h1, he]
  exact ⟨_, rfl, rfl⟩

theorem lined_append {es ls es' ls'} (h : Lined es ls) (h' : Lined es' ls') : Lined (es ++ es') (ls ++ ls') := by
  induction h with
  | nil => exact h'
  | cons h1 h2 _ ih => exact .cons h1 h2 ih

/-- A scalar or an empty collection. -/
def IsLeaf : JVal → Prop
  | .scalar _ => True
  | .arr l _ => l = []
  | .obj l _ => l = []

theorem ents_leaf {ix : Nat → Scalar} {v : JVal} (h : IsLeaf v) : ents ix v = [([], v)] := by
  cases v with
  | scalar s => rfl
  | arr l e => simp only [IsLeaf] at h; subst h; rfl
  | obj l e => simp only [IsLeaf] at h; subst h; rfl

theorem leaf_map {f : Scalar → Scalar} {v : JVal} (h : IsLeaf v) : IsLeaf (mapScalars f v) := by
  cases v with
  | scalar s => simp [IsLeaf]
  | arr l e => simp only [IsLeaf] at h; subst h; simp [IsLeaf]
  | obj l e => simp only [IsLeaf] at h; subst h; simp [IsLeaf]

/-- The lines of leaves. -/
theorem leaves_lined {quote : Bool} (pc : PrinterCfg) : ∀ (vs : List JVal), (∀ v ∈ vs, IsLeaf v) → (∀ v ∈ vs, Spelled LaxChars v) →
    (∀ v ∈ vs, Complete v) → ∃ ls, Lined (vs.map fun v => ([], mapScalars (dk quote) v)) ls ∧
      ls.flatten = (vs.map fun v => (linesOf quote pc v).flatten ++ [0x0A]).flatten := by
  intro vs
  induction vs with
  | nil => intro _ _ _; exact ⟨[], .nil, rfl⟩
  | cons v vs ih =>
    intro h hs hc
    obtain ⟨ls, h1, h2⟩ := ih (fun v hv => h v (by simp [hv])) (fun v hv => hs v (by simp [hv])) (fun v hv => hc v (by simp [hv]))
    have hl := h v (by simp)
    have hg := goods (quote := true) (hs v (by simp)) (hc v (by simp)) (by simp) ([], v) (by rw [ents_leaf hl]; simp)
    refine ⟨(bodyText quote ([], v) ++ (nlBytes pc 0 ++ [0x0A])) :: ls, .cons ?_ (Enc.ws_append (ws_nlBytes pc 0) ws_nl) h1, ?_⟩
    · exact line_good (x := ([], v)) (by simp) hg.2
    · rw [List.map_cons, List.flatten_cons, List.flatten_cons, h2, linesOf, ents_leaf hl]
      simp [lineText]

theorem proc_leaves : ∀ (vs : List JVal), proc [] (vs.map fun v => ([], v)) = .ok (streamToks vs, []) := by
  intro vs
  induction vs with
  | nil => rfl
  | cons v vs ih => simp [proc, JpvPure.upd, Jpv.follow, ih, Except.bind, Except.map]

/-- C19 apart from these: the values come back, up to hints, if all values but the last one are scalars or empty collections.
Missing: other values before the last one; and the restrictions of C15 on the last value. -/
theorem C19_values_partial (vs : List JVal) (v : JVal) (hl : ∀ u ∈ vs, IsLeaf u) (hs' : ∀ u ∈ vs, Spelled LaxChars u)
    (hc' : ∀ u ∈ vs, Complete u) (hv : Spelled LaxChars v) (hc : Complete v) (hd : DistinctKeys v) (hn : Short v)
    (quote : Bool) (ha : quote = false → TrueAlnum v) (pc : PrinterCfg) (r : Reader) (size : Nat) (hs : 2 ≤ size)
    (hf : Fair r.sched) (he : r.fin = .eof)
    (hr : r.rest = (JEnc.encode ⟨none, quote⟩ pc goodSink (streamToks (vs ++ [v]))).1) :
    ∃ f : Scalar → Scalar, (∀ s, forgetFlags (f s) = forgetFlags s) ∧
      Jpv.decodeFrom r size = (streamToks ((vs ++ [v]).map (mapScalars f)), .ok () ()) := by
  have hg := encode_good quote pc (vs ++ [v]) (S := LaxChars)
    (by
      intro u hu
      rcases List.mem_append.1 hu with hu | hu
      · exact hs' u hu
      · simp only [List.mem_singleton] at hu; exact hu ▸ hv)
    (by
      intro u hu
      rcases List.mem_append.1 hu with hu | hu
      · exact hc' u hu
      · simp only [List.mem_singleton] at hu; exact hu ▸ hc)
  rw [hg] at hr
  obtain ⟨ls, h1, h2⟩ := leaves_lined (quote := quote) pc vs hl hs' hc'
  obtain ⟨ts, last, e1, e2⟩ := proc_selected (sep (quote := quote) hv hc hd hn) (List.replicate (leafCount v) true)
  rw [select_all _ _ (by rw [ents_length, leafCount_map]; exact Nat.le_refl _)] at e1
  have e3 := proc_leaves (vs.map (mapScalars (dk quote)))
  rw [List.map_map] at e3
  have e4 : proc [] ((vs.map fun v => (([] : List Scalar), mapScalars (dk quote) v)) ++ ents ixKey (mapScalars (dk quote) v)) =
      .ok (streamToks (vs.map (mapScalars (dk quote))) ++ ts, last) := by
    have := proc_append _ (ents ixKey (mapScalars (dk quote) v)) _ e3
    rw [e1] at this
    exact this
  refine ⟨dk quote, dk_forget quote, ?_⟩
  have hdec := decode_lined (w := [0x0A]) (lined_append h1 (lined pc hv hc ha)) ws_nl e4 r size hs hf he (by
    rw [hr, List.flatten_append, h2]
    simp)
  rw [hdec, List.append_assoc, e2, prune_map, prune_all v _ (Nat.le_refl _)]
  simp [streamToks_append]

/-- The same for tokens. -/
theorem C19_streams_partial (vs : List JVal) (v : JVal) (hl : ∀ u ∈ vs, IsLeaf u) (hs' : ∀ u ∈ vs, Spelled LaxChars u)
    (hc' : ∀ u ∈ vs, Complete u) (hv : Spelled LaxChars v) (hc : Complete v) (hd : DistinctKeys v) (hn : Short v)
    (quote : Bool) (ha : quote = false → TrueAlnum v) (pc : PrinterCfg) (r : Reader) (size : Nat) (hs : 2 ≤ size)
    (hf : Fair r.sched) (he : r.fin = .eof)
    (hr : r.rest = (JEnc.encode ⟨none, quote⟩ pc goodSink (streamToks (vs ++ [v]))).1) :
    ∃ ts, Jpv.decodeFrom r size = (ts, .ok () ()) ∧ ts.map forgetTok = (streamToks (vs ++ [v])).map forgetTok := by
  obtain ⟨f, h1, h2⟩ := C19_values_partial vs v hl hs' hc' hv hc hd hn quote ha pc r size hs hf he hr
  exact ⟨_, h2, streamToks_map h1 _⟩

/-- Non-vacuity. -/
example : (JEnc.encode ⟨none, false⟩ ⟨2, true⟩ goodSink
    (streamToks ([.scalar { bytes := b%"1", type := .num }, .arr [] false] ++ [oneKey b%"\"a\"" b%"2"]))).1 =
    b%"$ = 1\n\n$ = []\n\n$.a = 2\n\n" := by
  decide +kernel

end Verif
