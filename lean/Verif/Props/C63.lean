import Verif.Props.C62

/-!
# C63: Two programs in a pipe
-/

namespace Verif.Cmd
open Rfc8259

/-- `jp ARGS1 | jp ARGS2 OPTIONS` has the same result as `jp ARGS1 ARGS2 OPTIONS`, if the values that `ARGS1` gives are values of JSON texts, and if the second program knows (or
guesses) that it reads JSON.  Both runs use the same order of descendants.  Nothing is assumed about `ARGS2`: if they are rejected, or if a query panics, then it is the same in both cases. -/
theorem C63_pipe_partial {env : Env} {o1 o2 : Options} {r : Reader} (hi : JsonInput o1 r) (hf : Fair r.sched) (he : r.fin = .eof)
    (ho : o1.outFormat = b%"json") (hcol : o1.color = none) {vs : List JVal} (hv : SepStream LaxChars vs r.rest) {ts : List Transform}
    (ha : parseArgs o1.args = some ts) {mid : List JVal} (hm : DoAll env o1.strict ts (streamToks vs) (streamToks mid)) (ht : ∀ v ∈ mid, ∃ b, Text LaxChars v b)
    (hst : o2.strict = o1.strict) :
    ∃ bytes, Main env o1 r ⟨bytes, 0, false⟩ ∧ ∀ r2 : Reader, Fair r2.sched → r2.fin = .eof → r2.rest = bytes → JsonInput o2 r2 → ∀ x,
      Main env o2 r2 x ↔ Main env { o2 with inFormat := o1.inFormat, csvHeader := o1.csvHeader, args := o1.args ++ o2.args } r x := by
  obtain ⟨r', e1, e2, e3, e4⟩ := json_source hi hf
  have hs : ∀ v ∈ mid, Sent LaxChars v := fun v hv => by
    obtain ⟨b, h⟩ := ht v hv
    exact ⟨(text_ok h).1, (text_ok h).2.1, (text_ok h).2.2⟩
  have ht : (Source.json r').tokens env = some (streamToks vs, false) := json_tokens (fun _ h => h) e3 (e2.trans he) (e1 ▸ hv)
  obtain ⟨bytes, hg, hsep⟩ := json_output (w := o1.width) (m := 2) (pc := o1.printer) hs
  have hpre := prepare_source e4
  rw [ha, chooseSink_json ho, hcol] at hpre
  refine ⟨bytes, .run hpre ht hm hg, fun r2 f2 n2 b2 i2 x => ?_⟩
  obtain ⟨r2', d1, d2, d3, d4⟩ := json_source i2 f2
  have ht2 : (Source.json r2').tokens env = some (streamToks mid, false) := json_tokens (fun _ h => h) d3 (d2.trans n2) (by rw [d1, b2]; exact hsep)
  have hp2 := prepare_source d4
  have hp3 := prepare_source (o := { o2 with inFormat := o1.inFormat, csvHeader := o1.csvHeader, args := o1.args ++ o2.args }) e4
  simp only [parseArgs_append, ha, Option.bind_some] at hp3
  rw [show chooseSink { o2 with inFormat := o1.inFormat, csvHeader := o1.csvHeader, args := o1.args ++ o2.args } = chooseSink o2 from rfl] at hp3
  cases h2 : parseArgs o2.args with
  | none =>
    rw [h2] at hp2 hp3
    exact ⟨fun h => by cases h.unique (.fatal hp2); exact .fatal hp3, fun h => by cases h.unique (.fatal hp3); exact .fatal hp2⟩
  | some ts2 =>
    rw [h2] at hp2 hp3
    cases h3 : chooseSink o2 with
    | none =>
      rw [h3] at hp2 hp3
      exact ⟨fun h => by cases h.unique (.fatal hp2); exact .fatal hp3, fun h => by cases h.unique (.fatal hp3); exact .fatal hp2⟩
    | some sink =>
      rw [h3] at hp2 hp3
      rw [main_iff hp2 ht2, main_iff hp3 ht]
      dsimp only
      rw [hst]
      constructor
      · rintro ⟨out, h, hx⟩
        exact ⟨out, DoAll.append.2 ⟨_, hm, h⟩, hx⟩
      · rintro ⟨out, h, hx⟩
        obtain ⟨mid', h1, h2⟩ := DoAll.append.1 h
        cases h1.unique hm
        exact ⟨out, h2, hx⟩

/-- The condition holds for the arguments that C55 gives a meaning to, without `depth`. -/
theorem C63_means_partial {env : Env} {strict : Bool} {ts : List Transform} {vs mid : List JVal} (hm : Means env strict ts vs mid) (hd : ∀ n, .depth n ∉ ts) {b : Bytes}
    (hv : SepStream LaxChars vs b) : DoAll env strict ts (streamToks vs) (streamToks mid) ∧ ∀ v ∈ mid, ∃ b, Text LaxChars v b := by
  refine ⟨hm.does, fun v hv' => ?_⟩
  have hs := hm.sent hd (sent_stream hv) v hv'
  have := Enc.layout_text ⟨0, false⟩ (cfg := ⟨none, 0, 0⟩) rfl v hs.1 hs.3 0
  rw [Enc.hinted_canon hs.2] at this
  exact ⟨_, this⟩

private theorem scalar_first {s : Scalar} {c : Bytes} (h : Text LaxChars (.scalar s) c) : ∃ b t, s.bytes = b :: t ∧ b ≠ c%'{' ∧ b ≠ c%'[' := by
  cases h with
  | true => exact ⟨_, _, rfl, by decide, by decide⟩
  | false => exact ⟨_, _, rfl, by decide, by decide⟩
  | null => exact ⟨_, _, rfl, by decide, by decide⟩
  | str _ => exact ⟨_, _, rfl, by decide, by decide⟩
  | num h =>
    cases hc : c with
    | nil => subst hc; exact absurd rfl (JPath.number_ne_nil h)
    | cons b t =>
      refine ⟨b, t, rfl, ?_, ?_⟩ <;>
      · rintro rfl
        have := Csv.number_chars h _ (by rw [hc]; exact List.mem_cons_self)
        revert this
        unfold CsvSpec.NumChar
        decide

/-- The second program guesses that it reads JSON exactly if the first value is an array or an object (and if the first read delivers a byte). -/
theorem C63_guess {env : Env} {o1 : Options} {r : Reader} (hi : JsonInput o1 r) (hf : Fair r.sched) (he : r.fin = .eof) (ho : o1.outFormat = b%"json")
    (hcol : o1.color = none) {vs : List JVal} (hv : SepStream LaxChars vs r.rest) {ts : List Transform} (ha : parseArgs o1.args = some ts) {mid : List JVal}
    (hm : DoAll env o1.strict ts (streamToks vs) (streamToks mid)) (ht : ∀ v ∈ mid, ∃ b, Text LaxChars v b) {bytes : Bytes} (hx : Main env o1 r ⟨bytes, 0, false⟩)
    {o2 : Options} {r2 : Reader} (h2 : o2.inFormat = b%"auto") (hr : r2.rest = bytes) (h3 : 0 < (r2.sched r2.idx).1 ∧ (r2.sched r2.idx).2 = false) :
    JsonInput o2 r2 ↔ ∃ v rest, mid = v :: rest ∧ ∀ s, v ≠ .scalar s := by
  obtain ⟨r', e1, e2, e3, e4⟩ := json_source hi hf
  have htok : (Source.json r').tokens env = some (streamToks vs, false) := json_tokens (fun _ h => h) e3 (e2.trans he) (e1 ▸ hv)
  have hpre := prepare_source e4
  rw [ha, chooseSink_json ho, hcol] at hpre
  cases hx.unique (.run hpre htok hm (Enc.encode_good _ _ _))
  have hJ : JsonInput o2 r2 ↔ ∃ b t, r2.rest = b :: t ∧ (b = c%'{' ∨ b = c%'[') :=
    ⟨fun h => by
      rcases h with h | ⟨_, h, _⟩
      · rw [h2] at h; exact absurd h (by decide)
      · exact h, fun h => .inr ⟨h2, h, h3⟩⟩
  rw [hJ, hr]
  cases mid with
  | nil => simp [Enc.layoutAll]
  | cons v rest =>
    rw [Enc.render_layoutAll, List.flatMap_cons]
    simp only [List.cons.injEq]
    cases v with
    | scalar s =>
      refine ⟨fun h => ?_, fun ⟨v, _, ⟨h, _⟩, h'⟩ => absurd h.symm (h' s)⟩
      obtain ⟨b, t, h, hb⟩ := h
      rw [Enc.render_scalar rfl] at h
      obtain ⟨c, hc⟩ := ht (.scalar s) (by simp)
      obtain ⟨b', t', h1, h2, h3⟩ := scalar_first hc
      rw [h1] at h
      cases (List.cons.inj h).1
      rcases hb with rfl | rfl
      · exact absurd rfl h2
      · exact absurd rfl h3
    | arr l e =>
      have := Enc.layout_arr ⟨none, o1.width, 2⟩ l e
      refine ⟨fun _ => by simp, fun _ => ?_⟩
      generalize Enc.layout ⟨none, o1.width, 2⟩ (.arr l e) = x at this ⊢
      cases this <;> exact ⟨_, _, by simp [Enc.flat, Enc.openArr]; rfl, .inr rfl⟩
    | obj l e =>
      have := Enc.layout_obj ⟨none, o1.width, 2⟩ l e
      refine ⟨fun _ => by simp, fun _ => ?_⟩
      generalize Enc.layout ⟨none, o1.width, 2⟩ (.obj l e) = x at this ⊢
      cases this <;> exact ⟨_, _, by simp [Enc.flat, Enc.openObj]; rfl, .inl rfl⟩

/-- C63 is false: `jp '$[0]' | jp` ends with status 1 if the value is a scalar, because its format is not recognised. -/
theorem C63_violated : Main noEnv { args := [b%"$[0]"] } (atOnce b%"[true]") ⟨b%"true\n", 0, false⟩ ∧ Main noEnv {} (atOnce b%"true\n") ⟨[], 1, true⟩ := by
  constructor
  · refine (main_json (x := (b%"true\n", .ok ())) (ts := [.query ⟨true, [.mk false [.index 0]]⟩])
      (toks := streamToks [.arr [.scalar { bytes := b%"true", type := .bool }] false]) (out := streamToks [.scalar { bytes := b%"true", type := .bool }]) (bad := false)
      (atOnce_json rfl _ (.inr rfl)) (fair_atOnce _) rfl rfl (by decide +kernel) (.cons ?_ .nil) (by decide +kernel)).1 rfl
    exact .of_run 10 (by decide +kernel)
  · exact .fatal rfl

/-- Also if there is no value. -/
theorem C63_violated_empty : Main noEnv { args := [b%"$[1]"] } (atOnce b%"[true]") ⟨[], 0, false⟩ ∧ Main noEnv {} (atOnce []) ⟨[], 1, true⟩ := by
  constructor
  · refine (main_json (x := ([], .ok ())) (ts := [.query ⟨true, [.mk false [.index 1]]⟩])
      (toks := streamToks [.arr [.scalar { bytes := b%"true", type := .bool }] false]) (out := []) (bad := false)
      (atOnce_json rfl _ (.inr rfl)) (fair_atOnce _) rfl rfl (by decide +kernel) (.cons ?_ .nil) (by decide +kernel)).1 rfl
    exact .of_run 10 (by decide +kernel)
  · exact .fatal rfl

/-- What `depth` writes is not JSON: `jp depth=0 | jp` reports an error and writes only a bracket. -/
theorem C63_violated_depth : Main noEnv { args := [b%"depth=0"] } (atOnce b%"[1]") ⟨b%"[...]\n", 0, false⟩ ∧ Main noEnv {} (atOnce b%"[...]\n") ⟨b%"[", 0, true⟩ := by
  constructor
  · exact (main_json (x := (b%"[...]\n", .ok ())) (ts := [.depth 0]) (toks := streamToks [.arr [num b%"1"] false]) (out := streamToks [.arr [] true]) (bad := false)
      (atOnce_json rfl _ (.inr rfl)) (fair_atOnce _) rfl rfl (by decide +kernel) (.cons rfl .nil) (by decide +kernel)).1 rfl
  · exact (main_json (x := (b%"[", .stop .panic)) (ts := []) (toks := [.startArr]) (out := [.startArr]) (bad := true)
      (atOnce_json rfl _ (.inr rfl)) (fair_atOnce _) rfl rfl (by decide +kernel) .nil (by decide +kernel)).2 rfl

/-- A query in two parts. -/
example : Main noEnv { args := [b%"$[*]", b%"$[0]"] } (atOnce b%"[[1],[2]]") ⟨b%"1\n2\n", 0, false⟩ := by
  refine (main_json (x := (b%"1\n2\n", .ok ())) (ts := [.query ⟨true, [.mk false [.wild]]⟩, .query ⟨true, [.mk false [.index 0]]⟩])
    (toks := streamToks [.arr [.arr [num b%"1"] false, .arr [num b%"2"] false] false]) (out := streamToks [num b%"1", num b%"2"]) (bad := false)
    (atOnce_json rfl _ (.inr rfl)) (fair_atOnce _) rfl rfl (by decide +kernel) (.cons (mid := streamToks [.arr [num b%"1"] false, .arr [num b%"2"] false]) ?_ (.cons ?_ .nil)) (by decide +kernel)).1 rfl
  · exact .of_run 10 (by decide +kernel)
  · exact .of_run 10 (by decide +kernel)

end Verif.Cmd
