import Verif.Props.C14
import Verif.Props.C18
import Verif.Props.C61
import Verif.Exec
import Verif.FmtOk

/-!
# C72: Colours tell names from values
-/

set_option linter.unusedSimpArgs false
set_option linter.unusedVariables false

namespace Verif.Cmd
open Rfc8259 EncSpec JPath Rfc9535 CsvSpec

/-- Specification: the scalars of a value in order; `true` stands before the names of members, `false` before all others. -/
def roles : JVal → List (Bool × Scalar)
  | .scalar s => [(false, s)]
  | .arr items _ => rolesItems items
  | .obj ms _ => rolesMembers ms
where
  /-- The scalars of items. -/
  rolesItems : List JVal → List (Bool × Scalar)
    | [] => []
    | v :: l => roles v ++ rolesItems l
  /-- The scalars of members. -/
  rolesMembers : List (Scalar × JVal) → List (Bool × Scalar)
    | [] => []
    | (k, v) :: l => (true, k) :: (roles v ++ rolesMembers l)

/-- Specification: how a scalar is to be written. -/
def inColour (c : Colorizer) (x : Bool × Scalar) : Bytes :=
  (if x.1 then c.keyCode else c.codes x.2.type) ++ (x.2.bytes ++ c.resetCode)

/-- Specification: the text is composed of the scalars of the values in order, in their colours, with punctuation and white space between them. -/
def Coloured (c : Colorizer) (vs : List JVal) (text : Bytes) : Prop :=
  ∃ parts : List (Bytes ⊕ (Bool × Scalar)),
    (parts.flatMap fun | .inl _ => [] | .inr x => [x]) = vs.flatMap roles ∧
    (∀ b, .inl b ∈ parts → ∀ x ∈ b, x ∈ b%"[]{},:. \n") ∧
    text = parts.flatMap fun | .inl b => b | .inr x => inColour c x

/-- Names are flagged as keys, nothing else is. -/
inductive Flagged : JVal → Prop
  | scalar {s} : s.key = false → Flagged (.scalar s)
  | arr {vs e} : (∀ v ∈ vs, Flagged v) → Flagged (.arr vs e)
  | obj {ms e} : (∀ m ∈ ms, m.1.key = true) → (∀ m ∈ ms, Flagged m.2) → Flagged (.obj ms e)

theorem Flagged.of_proper {v : JVal} (h : v.Proper) : Flagged v := by
  induction h with
  | scalar h => exact .scalar h
  | arr _ ih => exact .arr ih
  | obj h _ ih => exact .obj (fun m hm => (h m hm).2) ih

mutual

theorem Flagged.roles : ∀ {v : JVal}, Flagged v → Cmd.roles v = (streamScalars v.toks).map fun s => (s.key, s)
  | .scalar s, h => by cases h with | scalar h => simp [Cmd.roles, streamScalars, h]
  | .arr vs e, h => by
    cases h with
    | arr h =>
      rw [Cmd.roles, rolesItems_eq vs h]
      cases e <;> simp [streamScalars, elisionToks]
  | .obj ms e, h => by
    cases h with
    | obj hk h =>
      rw [Cmd.roles, rolesMembers_eq ms hk h]
      cases e <;> simp [streamScalars, elisionToks]

theorem rolesItems_eq : ∀ (vs : List JVal), (∀ v ∈ vs, Flagged v) →
    Cmd.roles.rolesItems vs = (streamScalars (JVal.toks.itemToks vs)).map fun s => (s.key, s)
  | [], _ => by simp [Cmd.roles.rolesItems, streamScalars]
  | v :: l, h => by
    rw [Cmd.roles.rolesItems, Flagged.roles (h v List.mem_cons_self), rolesItems_eq l fun w hw => h w (List.mem_cons_of_mem _ hw)]
    simp [streamScalars]

theorem rolesMembers_eq : ∀ (ms : List (Scalar × JVal)), (∀ m ∈ ms, m.1.key = true) → (∀ m ∈ ms, Flagged m.2) →
    Cmd.roles.rolesMembers ms = (streamScalars (JVal.toks.memberToks ms)).map fun s => (s.key, s)
  | [], _, _ => by simp [Cmd.roles.rolesMembers, streamScalars]
  | (k, v) :: l, hk, h => by
    rw [Cmd.roles.rolesMembers, Flagged.roles (h (k, v) List.mem_cons_self),
      rolesMembers_eq l (fun w hw => hk w (List.mem_cons_of_mem _ hw)) fun w hw => h w (List.mem_cons_of_mem _ hw)]
    have : k.key = true := hk (k, v) List.mem_cons_self
    simp [streamScalars, this]

end

theorem Flagged.member {v : JVal} (h : Flagged v) : ∀ m ∈ v.members, Flagged m.2 := by
  intro m hm
  cases h with
  | scalar _ => simp [JVal.members] at hm
  | arr h =>
    simp only [JVal.members, List.mem_map] at hm
    obtain ⟨w, hw, rfl⟩ := hm
    exact h w hw
  | obj _ h =>
    simp only [JVal.members, List.mem_map] at hm
    obtain ⟨w, hw, rfl⟩ := hm
    exact h w hw

theorem Flagged.eval {re : Sem} {q : Query} {v w : JVal} (h : Flagged v) (hw : w ∈ Rfc9535.eval re q v) : Flagged w :=
  desc_ind (P := Flagged) (fun _ h => h.member) _ v (Nat.le_refl _) h w (nodes_desc _ _ hw)

theorem Flagged.parts {v w : JVal} (h : Flagged v) (hw : w ∈ v.parts) : Flagged w := by
  cases v with
  | arr l e => exact h.member (none, w) (by simpa [JVal.members] using (show w ∈ l from hw))
  | scalar s => simp [JVal.parts] at hw; exact hw ▸ h
  | obj l e => simp [JVal.parts] at hw; exact hw ▸ h

theorem Flagged.trunc {v : JVal} (h : Flagged v) : ∀ n, Flagged (v.trunc n) := by
  induction h with
  | scalar h => intro n; cases n <;> exact .scalar h
  | arr _ ih =>
    intro n
    cases n with
    | zero => exact .arr (by simp)
    | succ n =>
      refine .arr fun w hw => ?_
      obtain ⟨u, hu, rfl⟩ := List.mem_map.1 hw
      exact ih u hu n
  | obj hk _ ih =>
    intro n
    cases n with
    | zero => exact .obj (by simp) (by simp)
    | succ n =>
      refine .obj (fun m hm => ?_) fun m hm => ?_
      · obtain ⟨u, hu, rfl⟩ := List.mem_map.1 hm
        exact hk u hu
      · obtain ⟨u, hu, rfl⟩ := List.mem_map.1 hm
        exact ih u hu n

theorem Means.flagged {env : Env} {strict : Bool} {l : List Transform} {vs out : List JVal} (h : Means env strict l vs out)
    (hs : ∀ v ∈ vs, Flagged v) : ∀ v ∈ out, Flagged v := by
  induction h with
  | nil => exact hs
  | split _ ih =>
    refine ih fun v hv => ?_
    obtain ⟨w, hw, hv⟩ := List.mem_flatMap.1 hv
    exact (hs w hw).parts hv
  | join _ ih => exact ih fun v hv => by rw [List.mem_singleton.1 hv]; exact .arr hs
  | trace _ ih => exact ih (by simp)
  | depth n _ ih =>
    refine ih fun v hv => ?_
    obtain ⟨w, hw, rfl⟩ := List.mem_map.1 hv
    exact (hs w hw).trunc n
  | drop _ _ ih => exact ih (by simp)
  | query _ _ _ _ ih =>
    refine ih fun v hv => ?_
    obtain ⟨w, hw, hv⟩ := List.mem_flatMap.1 hv
    exact (hs w hw).eval hv

theorem coloured_encode {c : Colorizer} {w m : Int} {pc : PrinterCfg} {vs : List JVal} (hs : ∀ v ∈ vs, Flagged v) :
    Coloured c vs (Enc.render pc 0 (Enc.layoutAll ⟨some c, w, m⟩ vs)) := by
  obtain ⟨parts, h1, h2, h3, h4⟩ := C14_colours_decorate c w m pc vs
  refine ⟨parts.map fun | .inl b => .inl b | .inr s => .inr (s.key, s), ?_, fun b hb => h2 b ?_, ?_⟩
  · have : vs.flatMap roles = (streamScalars (streamToks vs)).map fun s => (s.key, s) := by
      clear h1 h2 h3 h4
      induction vs with
      | nil => rfl
      | cons v vs ih =>
        rw [List.flatMap_cons, (hs v List.mem_cons_self).roles, ih fun w hw => hs w (List.mem_cons_of_mem _ hw)]
        simp [streamToks, streamScalars]
    rw [this, ← h1]
    clear this h1 h2 h3 h4
    induction parts with
    | nil => rfl
    | cons x parts ih =>
      rw [List.map_cons, List.flatMap_cons, List.flatMap_cons, List.map_append, ih]
      cases x <;> rfl
  · obtain ⟨x, hx, he⟩ := List.mem_map.1 hb
    cases x with
    | inl b' => cases he; exact hx
    | inr s => cases he
  · rw [Enc.encode_good] at h4
    refine (congrArg Prod.fst h4).trans ?_
    show List.flatMap _ parts = _
    clear h1 h2 h3 h4
    induction parts with
    | nil => rfl
    | cons x parts ih =>
      rw [List.map_cons, List.flatMap_cons, List.flatMap_cons, ih]
      cases x <;> rfl

/-- JSON input, any arguments that C55 gives a meaning to, any options for the layout: names are written in the colour for keys, all other scalars in
that of their type. -/
theorem C72_json {env : Env} {o : Options} {c : Colorizer} {r : Reader} (hi : JsonInput o r) (hf : Fair r.sched) (he : r.fin = .eof)
    (ho : o.outFormat = b%"json") (hc : o.color = some c) {vs : List JVal} (hv : SepStream LaxChars vs r.rest) {ts : List Transform}
    (ha : parseArgs o.args = some ts) {out : List JVal} (hm : Means env o.strict ts vs out) :
    ∃ text, Main env o r ⟨text, 0, false⟩ ∧ Coloured c out text := by
  refine ⟨_, C55_pipeline_partial hi hf he ho hv ha hm, ?_⟩
  rw [hc]
  refine coloured_encode (hm.flagged fun v hv' => ?_)
  clear hm ha hi hf he
  generalize r.rest = b at hv
  induction hv with
  | nil _ => cases hv'
  | cons _ ht _ _ ih => exact (List.mem_cons.1 hv').elim (fun e => e ▸ .of_proper (text_proper ht)) ih

/-- JPV input: the same for whatever the decoder makes of it, if it does not fail. -/
theorem C72_jpv {env : Env} {o : Options} {c : Colorizer} {r : Reader} (hi : o.inFormat = b%"jpv" ∨ o.inFormat = b%"path")
    (ho : o.outFormat = b%"json") (hc : o.color = some c) {toks : List Token} (hd : Jpv.decodeFrom r = (toks, .ok () ())) {ts : List Transform}
    (ha : parseArgs o.args = some ts) :
    ∃ vs, toks = streamToks vs ∧ ∀ out, Means env o.strict ts vs out → ∃ text, Main env o r ⟨text, 0, false⟩ ∧ Coloured c out text := by
  obtain ⟨D, fin, _, h1, _⟩ := C18_well_formed_partial r 8192 (by decide)
  obtain ⟨vs, hp, rfl⟩ := h1 toks hd
  refine ⟨vs, rfl, fun out hm => ?_⟩
  have hpre := prepare_source (jpv_source hi r)
  rw [ha, chooseSink_json ho] at hpre
  refine ⟨_, .run hpre (by simp only [Source.tokens, hd]; rfl) hm.does (Enc.encode_good _ _ _), ?_⟩
  rw [hc]
  exact coloured_encode (hm.flagged fun v hv => .of_proper (hp v hv))

/-- A name of a column that is kept as it is: without quotes, line feeds and backslashes. -/
def PlainName (f : Bytes) : Prop := ∀ b ∈ f, b ≠ c%'"' ∧ b ≠ c%'\n' ∧ b ≠ c%'\\'

theorem plain_count {f : Bytes} : f.countP Csv.special = 0 ↔ PlainName f := by
  rw [List.countP_eq_zero]
  refine ⟨fun h b hb => ?_, fun h b hb hs => ?_⟩
  · have := h b hb
    rw [Csv.special_iff] at this
    exact ⟨fun e => this (.inl e), fun e => this (.inr (.inl e)), fun e => this (.inr (.inr e))⟩
  · have := h b hb
    rcases (Csv.special_iff b).1 hs with e | e | e
    · exact this.1 e
    · exact this.2.1 e
    · exact this.2.2 e

/-- Which names of columns are flagged as keys. -/
theorem C72_names {f : Bytes} {s : Scalar} (h : Csv.fieldToScalar f true = some s) : s.key = true ↔ PlainName f := by
  obtain ⟨al, h1, _⟩ := Csv.scanField_start f false
  simp only [Csv.fieldToScalar, Bool.not_true, Bool.false_and, Bool.false_eq_true, if_false, h1] at h
  rw [← plain_count]
  by_cases hc : f.countP Csv.special = 0
  · rw [if_neg (by omega)] at h
    cases h
    exact ⟨fun _ => hc, fun _ => rfl⟩
  · rw [if_pos (by omega), Csv.escapedString_eq] at h
    cases h
    exact ⟨(fun h => by cases h), fun h => absurd h hc⟩

theorem digits_plain (n : Nat) : PlainName (b%"field_" ++ itoa n) := by
  intro b h0
  rcases List.mem_append.1 h0 with hb | hb
  · clear h0; revert b; decide
  · have := itoa_digits n b hb
    unfold Rfc8259.Digit at this
    refine ⟨?_, ?_, ?_⟩ <;> (rintro rfl; revert this; decide)

/-- CSV input: the same if the names of the columns have no quotes, line feeds and backslashes. -/
theorem C72_csv_partial {env : Env} {o : Options} {c : Colorizer} {r : Reader} {cfg : Csv.Cfg} {preset : List Bytes} (hi : CsvOptions o cfg preset)
    (ho : o.outFormat = b%"json") (hc : o.color = some c) {ts : List Transform} (ha : parseArgs o.args = some ts)
    (hn : cfg.objects = true → ∀ f ∈ preset ++ (if cfg.hasHeader then (Csv.readInput r).records.head?.getD [] else []), PlainName f) :
    ∃ vs bad, (Source.csv cfg preset r).tokens env = some (streamToks vs, bad) ∧
      ∀ out, Means env o.strict ts vs out → ∃ text, Main env o r ⟨text, 0, bad⟩ ∧ Coloured c out text := by
  have hp := Csv.produce_eq cfg preset (Csv.readInput r)
  have ht := congrArg (Option.map fun x : List Token × Option RErr => (x.1, x.2.isSome)) hp
  rw [Option.map_some] at ht
  refine ⟨_, _, ht, fun out hm => ?_⟩
  have hpre := prepare_source (csv_source hi r)
  rw [ha, chooseSink_json ho] at hpre
  refine ⟨_, .run hpre ht hm.does (Enc.encode_good _ _ _), ?_⟩
  rw [hc]
  have hcell : ∀ f, Flagged (.scalar (Csv.cell f)) := fun f => by
    obtain ⟨s, h1, h2, _⟩ := Csv.data_spec f
    refine .scalar ?_
    rw [Csv.cell, h1]; exact h2
  refine coloured_encode (hm.flagged fun v hv => ?_)
  obtain ⟨rec, _, rfl⟩ := List.mem_map.1 hv
  unfold recordVal
  split
  · rename_i hob
    refine .obj (fun m hm => ?_) fun m hm => ?_
    · obtain ⟨⟨f, j⟩, _, rfl⟩ := List.mem_map.1 hm
      refine (C72_names (Csv.hdr_eq _)).2 ?_
      unfold Csv.colName
      cases hx : (preset ++ if cfg.hasHeader then (Csv.readInput r).records.head?.getD [] else [])[j]? with
      | some x => exact hn hob x (List.mem_of_getElem? hx)
      | none => exact digits_plain _
    · obtain ⟨⟨f, j⟩, _, rfl⟩ := List.mem_map.1 hm
      exact hcell f
  · refine .arr fun v hv => ?_
    obtain ⟨f, _, rfl⟩ := List.mem_map.1 hv
    exact hcell f

/-- It fails for a name with a quote: `jp -in csvh -color always` on a table with the header `a"b` writes the name in the colour for strings. -/
theorem C72_violated : Program noEnv false [b%"-in", b%"csvh", b%"-color", b%"always"] (atOnce b%"\"a\"\"b\"\n1\n")
    ⟨b%"{\x1b[32m\"a\\\"b\"\x1b[0m: \x1b[37m1\x1b[0m}\n", 0, false⟩ := exec_program (fuel := 100) (by decide +kernel)

/-- Non-vacuity: with another header the name has the colour for keys. -/
example : Program noEnv false [b%"-in", b%"csvh", b%"-color", b%"always"] (atOnce b%"ab\n1\n")
    ⟨b%"{\x1b[34;1m\"ab\"\x1b[0m: \x1b[37m1\x1b[0m}\n", 0, false⟩ := exec_program (fuel := 100) (by decide +kernel)

example : Program noEnv false [b%"-in", b%"json", b%"-color", b%"always"] (atOnce b%"{\"a\\\"b\": 1}")
    ⟨b%"{\x1b[34;1m\"a\\\"b\"\x1b[0m: \x1b[37m1\x1b[0m}\n", 0, false⟩ := exec_program (fuel := 100) (by decide +kernel)

end Verif.Cmd
