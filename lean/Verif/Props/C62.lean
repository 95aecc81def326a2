import Verif.Props.C61

/-!
# C62: JSON Lines
-/

namespace Verif.Cmd
open Rfc8259 EncSpec

/-- No line feed. -/
private abbrev NoLf (b : Bytes) : Prop := (0x0A : Byte) ∉ b

private theorem NoLf.append {a b : Bytes} (ha : NoLf a) (hb : NoLf b) : NoLf (a ++ b) := by
  simp only [NoLf, List.mem_append, not_or]
  exact ⟨ha, hb⟩

private theorem joined_lf {pc : PrinterCfg} (hp : pc.indentSize < 0) {lvl : Int} {l r} (h : Enc.Joined l r)
    (hx : ∀ x ∈ l, Enc.Balanced pc x ∧ NoLf (Enc.render pc lvl x)) : NoLf (Enc.render pc lvl r) := by
  have hnl : Enc.nlBytes pc lvl = [] := by simp [Enc.nlBytes, hp]
  induction h with
  | one x => exact (hx x (by simp)).2
  | @comp x l r h ih =>
    rw [Enc.render_comp _ _ _ _ (hx x (by simp)).1]
    exact (hx x (by simp)).2.append (NoLf.append (a := [0x2C, 0x20]) (by decide) (ih fun x h => hx x (by simp [h])))
  | @line x l r h ih =>
    rw [Enc.render_line _ _ _ _ (hx x (by simp)).1, hnl]
    exact (hx x (by simp)).2.append (NoLf.append (a := [0x2C]) (by decide) (ih fun x h => hx x (by simp [h])))

private theorem coll_lf {pc : PrinterCfg} (hp : pc.indentSize < 0) {lvl : Int} {o c : Byte} {e : Bool} {l r}
    (h : Enc.Coll (.bytes [o]) (.bytes [c]) e l r) (ho : NoLf [o]) (hc : NoLf [c])
    (hx : ∀ x ∈ l, Enc.Balanced pc x ∧ ∀ lvl, NoLf (Enc.render pc lvl x)) : NoLf (Enc.render pc lvl r) := by
  have hnl : ∀ lvl, Enc.nlBytes pc lvl = [] := by simp [Enc.nlBytes, hp]
  have he : NoLf (if e then b%"..." else []) := by cases e <;> decide
  cases h with
  | flat _ =>
    rw [Enc.render_coll_flat _ _ _ _ _ _ (fun x h => (hx x h).1)]
    have h2 : NoLf (Enc.render pc lvl (Enc.sepBy [Enc.compactSep] l)) := by
      cases l with
      | nil => simp [NoLf, Enc.sepBy]
      | cons x xs => exact joined_lf hp (Enc.joined_flat _ (by simp)) (fun x h => ⟨(hx x h).1, (hx x h).2 lvl⟩)
    exact ho.append (h2.append (he.append hc))
  | broken hj =>
    rw [Enc.render_coll_broken hj (fun x h => (hx x h).1)]
    simp only [hnl, List.nil_append]
    exact ho.append ((joined_lf hp hj (fun x h => ⟨(hx x h).1, (hx x h).2 _⟩)).append (he.append hc))

/-- All literals of a value, names included. -/
inductive AllLit (P : Bytes → Prop) : JVal → Prop
  | scalar {s} : P s.bytes → AllLit P (.scalar s)
  | arr {l e} : (∀ v ∈ l, AllLit P v) → AllLit P (.arr l e)
  | obj {l e} : (∀ m ∈ l, P m.1.bytes) → (∀ m ∈ l, AllLit P m.2) → AllLit P (.obj l e)

private theorem AllLit.member {P : Bytes → Prop} {v : JVal} (h : AllLit P v) : ∀ m ∈ v.members, AllLit P m.2 := by
  cases h with
  | scalar _ => intro m hm; simp [JVal.members] at hm
  | arr h =>
    intro m hm
    simp only [JVal.members, List.mem_map] at hm
    obtain ⟨w, hw, rfl⟩ := hm
    exact h w hw
  | obj _ h =>
    intro m hm
    simp only [JVal.members, List.mem_map] at hm
    obtain ⟨w, hw, rfl⟩ := hm
    exact h w hw

private theorem AllLit.trunc {P : Bytes → Prop} {v : JVal} (h : AllLit P v) : ∀ n, AllLit P (v.trunc n) := by
  induction h with
  | scalar h => intro n; rw [JVal.trunc]; exact .scalar h
  | arr _ ih =>
    intro n
    cases n with
    | zero => rw [JVal.trunc]; exact .arr (by simp)
    | succ n =>
      rw [JVal.trunc]
      refine .arr fun v hv => ?_
      obtain ⟨w, hw, rfl⟩ := List.mem_map.1 hv
      exact ih w hw n
  | obj hk _ ih =>
    intro n
    cases n with
    | zero => rw [JVal.trunc]; exact .obj (by simp) (by simp)
    | succ n =>
      rw [JVal.trunc]
      refine .obj (fun m hm => ?_) fun m hm => ?_
      · obtain ⟨w, hw, rfl⟩ := List.mem_map.1 hm
        exact hk w hw
      · obtain ⟨w, hw, rfl⟩ := List.mem_map.1 hm
        exact ih w hw n

/-- The arguments do not make new literals. -/
private theorem Means.lit {P : Bytes → Prop} {env : Env} {strict : Bool} {l : List Transform} {vs out : List JVal} (h : Means env strict l vs out)
    (hs : ∀ v ∈ vs, AllLit P v) : ∀ v ∈ out, AllLit P v := by
  induction h with
  | nil => exact hs
  | split _ ih =>
    refine ih fun v hv => ?_
    obtain ⟨w, hw, hv⟩ := List.mem_flatMap.1 hv
    have := hs w hw
    cases w with
    | arr l e => exact this.member (none, v) (by simpa [JVal.members, JVal.parts] using hv)
    | scalar s => simp [JVal.parts] at hv; exact hv ▸ this
    | obj l e => simp [JVal.parts] at hv; exact hv ▸ this
  | join _ ih =>
    refine ih fun v hv => ?_
    obtain rfl := List.mem_singleton.1 hv
    exact .arr hs
  | trace _ ih => exact ih (by simp)
  | depth n _ ih =>
    refine ih fun v hv => ?_
    obtain ⟨w, hw, rfl⟩ := List.mem_map.1 hv
    exact (hs w hw).trunc n
  | drop _ _ ih => exact ih (by simp)
  | query _ _ _ _ ih =>
    refine ih fun v hv => ?_
    obtain ⟨w, hw, hv⟩ := List.mem_flatMap.1 hv
    exact JPath.desc_ind (P := AllLit P) (fun _ h => h.member) _ w (Nat.le_refl _) (hs w hw) v (JPath.nodes_desc _ _ hv)

private theorem spelled_lit {v : JVal} (h : Spelled RfcChars v) : AllLit NoLf v := by
  induction v using JVal.induct with
  | scalar s => cases h with | scalar _ h => exact .scalar (JpvRound.nl_scalar h)
  | arr l e ih => cases h with | arr h => exact .arr fun v hv => ih v hv (h v hv)
  | obj l e ih => cases h with | obj hk h => exact .obj (fun m hm => JpvRound.nl_scalar (hk m hm).2.2) fun m hm => ih m hm (h m hm)

/-- If no literal of a value has a line feed, then its line has none. -/
private theorem layout_lf {pc : PrinterCfg} (hp : pc.indentSize < 0) {cfg : EncCfg} (hc : cfg.color = none) (v : JVal)
    (hs : AllLit NoLf v) : ∀ lvl, NoLf (Enc.render pc lvl (Enc.layout cfg v)) := by
  induction v using JVal.induct with
  | scalar s =>
    intro d
    rw [Enc.render_scalar hc]
    cases hs with | scalar h => exact h
  | arr l e ih =>
    intro d
    cases hs with
    | arr h =>
      refine coll_lf hp (Enc.layout_arr cfg l e) (by decide) (by decide) ?_
      simp only [List.mem_map]
      rintro x ⟨v, hv, rfl⟩
      exact ⟨Enc.layout_balanced pc cfg v, ih v hv (h v hv)⟩
  | obj l e ih =>
    intro d
    cases hs with
    | obj hk h =>
      refine coll_lf hp (Enc.layout_obj cfg l e) (by decide) (by decide) ?_
      simp only [List.mem_map]
      rintro x ⟨m, hm, rfl⟩
      refine ⟨Enc.layMember_balanced pc cfg m, fun d => ?_⟩
      rw [Enc.render_member hc]
      exact (show NoLf m.1.bytes from hk m hm).append (NoLf.append (a := [0x3A, 0x20]) (by decide) (ih m hm (h m hm) d))

/-- With `-json-lines` (or `-json-compact`) the output for JSON input has one line for each value, and no other line feeds, whatever the arguments; without `depth` each
line is a JSON text of its value.  (Missing: the arguments that `Means` excludes, see C55; `RfcChars` says that the strings of the input have no
raw line feeds.) -/
theorem C62_lines_partial {env : Env} {o : Options} {r : Reader} (hi : JsonInput o r) (hf : Fair r.sched) (he : r.fin = .eof) (ho : o.outFormat = b%"json")
    (hcol : o.color = none) (hl : o.compact = true) {vs : List JVal} (hv : SepStream RfcChars vs r.rest) {ts : List Transform} (ha : parseArgs o.args = some ts)
    {out : List JVal} (hm : Means env o.strict ts vs out) :
    ∃ line : JVal → Bytes, Main env o r ⟨out.flatMap fun v => line v ++ [0x0A], 0, false⟩ ∧
      ∀ v ∈ out, (0x0A : Byte) ∉ line v ∧ ((∀ n, .depth n ∉ ts) → Text RfcChars v (line v)) := by
  have h := C55_pipeline_partial hi hf he ho (hv.mono fun _ => rfc_lax) ha hm
  rw [Enc.render_layoutAll] at h
  refine ⟨_, h, fun v hv' => ⟨layout_lf (by simp [Options.printer, hl]) hcol v ?_ 0, fun hd => ?_⟩⟩
  · exact hm.lit (fun v h => spelled_lit (sent_stream hv v h).1) v hv'
  · have hs := hm.sent hd (sent_stream hv) v hv'
    have := Enc.layout_text o.printer (cfg := ⟨o.color, o.width, 2⟩) hcol v hs.1 hs.3 0
    rwa [Enc.hinted_canon hs.2] at this

/-- JSON Lines as input: the values of the lines, with line feeds or carriage returns between them. -/
private theorem input_stream {S : Bytes → Prop} {lines : List (JVal × Bytes)} (h : ∀ l ∈ lines, Text S l.1 l.2) (cr : Bool) :
    SepStream S (lines.map (·.1)) (lines.flatMap fun l => l.2 ++ (if cr then [0x0D, 0x0A] else [0x0A])) := by
  have key : ∀ w, Ws w → SepStream S (lines.map (·.1)) (w ++ lines.flatMap fun l => l.2 ++ (if cr then [0x0D, 0x0A] else [0x0A])) := by
    induction lines with
    | nil => intro w hw; simpa using SepStream.nil hw
    | cons l lines ih =>
      intro w hw
      have := ih (fun l hl => h l (by simp [hl])) (if cr then [0x0D, 0x0A] else [0x0A]) (by cases cr <;> (unfold Ws; decide))
      have h2 := SepStream.cons hw (h l (by simp)) (by
        intro _ x r' e
        cases cr <;> (simp at e; rw [← e.1]; unfold NumCont Digit; decide)) this
      simpa using h2
  simpa using key [] Enc.ws_nil

/-- JSON Lines are a fixed point: what the program has written, without `depth`, it writes again from there. -/
theorem C62_again_partial {env : Env} {o o2 : Options} {r r2 : Reader} (hi : JsonInput o r) (hf : Fair r.sched) (he : r.fin = .eof) (ho : o.outFormat = b%"json")
    (hcol : o.color = none) {vs : List JVal} (hv : SepStream LaxChars vs r.rest) {ts : List Transform} (ha : parseArgs o.args = some ts)
    (hd : ∀ n, .depth n ∉ ts) {out : List JVal} (hm : Means env o.strict ts vs out) {x : Result} (hx : Main env o r x)
    (ho2 : o2 = { o with inFormat := b%"json", args := [] }) (h2 : r2.rest = x.stdout) (hf2 : Fair r2.sched) (he2 : r2.fin = .eof) :
    Main env o2 r2 x := by
  subst ho2
  obtain ⟨bytes, h3, h4⟩ := C55_json_partial hi hf he ho hcol (fun _ h => h) hv ha hd hm
  have h5 := C55_pipeline_partial hi hf he ho hv ha hm
  cases hx.unique h5
  cases h3.unique h5
  have := C55_pipeline_partial (env := env) (o := { o with inFormat := b%"json", args := [] }) (r := r2) (.inl rfl) hf2 he2 ho (vs := out)
    (h2 ▸ h4) (ts := []) rfl .nil
  exact this

/-- From JSON Lines to JSON Lines, without arguments: the texts of the lines are replaced by texts of the same values. -/
theorem C62_input {env : Env} {o : Options} {r : Reader} (hf : Fair r.sched) (he : r.fin = .eof) (hin : o.inFormat = b%"json") (ho : o.outFormat = b%"json")
    (hcol : o.color = none) (hl : o.compact = true) (ha : o.args = []) {lines : List (JVal × Bytes)} (h : ∀ l ∈ lines, Text RfcChars l.1 l.2) (cr : Bool)
    (hr : r.rest = lines.flatMap fun l => l.2 ++ (if cr then [0x0D, 0x0A] else [0x0A])) :
    ∃ line : JVal → Bytes, Main env o r ⟨lines.flatMap fun l => line l.1 ++ [0x0A], 0, false⟩ ∧
      ∀ l ∈ lines, (0x0A : Byte) ∉ line l.1 ∧ Text RfcChars l.1 (line l.1) := by
  obtain ⟨line, h1, h2⟩ := C62_lines_partial (env := env) (.inl hin) hf he ho hcol hl (hr ▸ input_stream h cr) (ts := []) (by rw [ha]; rfl) .nil
  refine ⟨line, by simpa [List.flatMap_map] using h1, fun l hl' => ?_⟩
  obtain ⟨h3, h4⟩ := h2 l.1 (List.mem_map_of_mem hl')
  exact ⟨h3, h4 (by simp)⟩

/-! ## CSV -/

set_option maxRecDepth 10000 in
private theorem esc_lf {b : Byte} : NoLf (Csv.escByte b) := by revert b; apply forall_byte; decide

private theorem quoted_lf (f : Bytes) : NoLf (Csv.quoted f) := by
  simp only [NoLf, Csv.quoted, List.mem_cons, List.mem_append, List.mem_flatMap, List.not_mem_nil, or_false, not_or, not_exists, not_and]
  exact ⟨by decide, fun b _ => esc_lf, by decide⟩

set_option maxRecDepth 10000 in
private theorem number_lf {f : Bytes} (h : Number f) : NoLf f := fun hb => by
  have := Csv.number_chars h _ hb
  revert this
  unfold CsvSpec.NumChar
  decide

private theorem cell_lf (f : Bytes) : NoLf (Csv.cell f).bytes := by
  obtain ⟨s, e, -, -, h⟩ := Csv.data_spec f
  rw [Csv.cell_eq] at e
  cases e
  rcases h with ⟨_, _, h2⟩ | ⟨h, _, h2⟩ | ⟨_, _, _, ⟨h, _, _, h2⟩ | ⟨_, _, h2, _⟩ | ⟨_, _, _, h, _⟩⟩
  · rw [h2]; decide
  · rw [h2]; rcases h with rfl | rfl <;> decide
  · rw [h2]; exact number_lf h
  · rw [h2]; exact quoted_lf f
  · exact number_lf h

/-- The same for CSV: one line for each value, whatever the fields, for the arguments of C55.  `vs` are the values of the records, see C20.  (That a line is a JSON
text: see C22.) -/
theorem C62_csv_partial {env : Env} {o : Options} {r : Reader} {cfg : Csv.Cfg} {preset : List Bytes} (hc : CsvOptions o cfg preset) (ho : o.outFormat = b%"json")
    (hcol : o.color = none) (hl : o.compact = true) {ts : List Transform} (ha : parseArgs o.args = some ts) {vs : List JVal} {e : Option RErr}
    (hv : Csv.produce cfg preset (Csv.readInput r) = some (streamToks vs, e)) {out : List JVal} (hm : Means env o.strict ts vs out) :
    ∃ line : JVal → Bytes, Main env o r ⟨out.flatMap fun v => line v ++ [0x0A], 0, e.isSome⟩ ∧ ∀ v ∈ out, (0x0A : Byte) ∉ line v := by
  have hpre := prepare_source (csv_source hc r)
  rw [ha, chooseSink_json ho] at hpre
  refine ⟨fun v => Enc.render o.printer 0 (Enc.layout ⟨o.color, o.width, 2⟩ v), .run hpre (toks := streamToks vs) ?_ hm.does ?_, fun v hv' => ?_⟩
  · simp only [Source.tokens, hv, Option.map_some]
  · rw [Enc.encode_good, Enc.render_layoutAll]
  · refine layout_lf (by simp [Options.printer, hl]) hcol v (hm.lit (fun v hv' => ?_) v hv') 0
    rw [Csv.produce_eq, Option.some.injEq, Prod.mk.injEq] at hv
    cases streamToks_inj hv.1
    obtain ⟨rec, -, rfl⟩ := List.mem_map.1 hv'
    unfold CsvSpec.recordVal
    split
    · refine .obj (fun m hm => ?_) fun m hm => ?_
      · obtain ⟨x, -, rfl⟩ := List.mem_map.1 hm
        show NoLf (Csv.hdr _).bytes
        rw [(Csv.hdr_spec _).1]
        exact quoted_lf _
      · obtain ⟨x, -, rfl⟩ := List.mem_map.1 hm
        exact .scalar (cell_lf _)
    · refine .arr fun w hw => ?_
      obtain ⟨f, -, rfl⟩ := List.mem_map.1 hw
      exact .scalar (cell_lf f)

/-! ## JPV -/

/-- The leaves of a value, in the order of the text: scalars and empty collections. -/
def leaves (v : JVal) : List JVal := (Rfc9535.descendants v).filter fun w => w.members.isEmpty

private theorem leaves_kids {l : List (Scalar × JVal)} (h : ∀ m ∈ l, (JpvTree.ents JEnc.indexKey m.2).map (·.2) = leaves m.2) :
    (JpvTree.kidEnts JEnc.indexKey l).map (·.2) = l.flatMap fun m => leaves m.2 := by
  induction l with
  | nil => rfl
  | cons m l ih =>
    obtain ⟨k, v⟩ := m
    simp only [JpvTree.kidEnts, List.map_append, List.map_map, List.flatMap_cons]
    rw [ih fun m hm => h m (by simp [hm]), ← h (k, v) (by simp)]
    rfl

private theorem leaves_number (l : List JVal) : ∀ n, (JpvTree.number JEnc.indexKey n l).flatMap (fun m => leaves m.2) = l.flatMap leaves := by
  induction l with
  | nil => intro n; rfl
  | cons v l ih => intro n; simp [JpvTree.number, ih]

private theorem leaves_ents (v : JVal) : (JpvTree.ents JEnc.indexKey v).map (·.2) = leaves v := by
  induction v using JVal.induct with
  | scalar s => simp [JpvTree.ents, leaves, Rfc9535.descendants, JVal.members]
  | arr l e ih =>
    simp only [JpvTree.ents]
    cases l with
    | nil => simp [leaves, Rfc9535.descendants, Rfc9535.descendantsL, JVal.members]
    | cons w l =>
      rw [if_neg (by simp), JpvTree.ents_items, leaves_kids fun m hm => ih m.2 (JpvTree.number_mem hm).1, leaves_number]
      unfold leaves
      rw [JPath.desc_cons]
      simp [JVal.members, List.filter_flatMap, List.flatMap_map]
  | obj l e ih =>
    simp only [JpvTree.ents]
    cases l with
    | nil => simp [leaves, Rfc9535.descendants, Rfc9535.descendantsM, JVal.members]
    | cons w l =>
      rw [if_neg (by simp), JpvTree.ents_members, leaves_kids ih]
      unfold leaves
      rw [JPath.desc_cons]
      simp [JVal.members, List.filter_flatMap, List.flatMap_map]

/-- JPV output, unless `-json-lines` or a negative `-json-indent` is given: for each value there is one line for each leaf, in the order of the text, with a path and a JSON text of the leaf; and
an empty line follows.  Missing: `depth` and the arguments that `Means` excludes. -/
theorem C62_jpv_partial {env : Env} {o : Options} {r : Reader} (hi : JsonInput o r) (hf : Fair r.sched) (he : r.fin = .eof)
    (ho : o.outFormat = b%"jpv" ∨ o.outFormat = b%"path") (hcol : o.color = none) (hl : o.compact = false) (hn : 0 ≤ o.indent) {vs : List JVal}
    (hv : SepStream RfcChars vs r.rest) {ts : List Transform} (ha : parseArgs o.args = some ts) (hd : ∀ n, .depth n ∉ ts) {out : List JVal}
    (hm : Means env o.strict ts vs out) :
    ∃ lines : JVal → List (JVal × Bytes), Main env o r ⟨out.flatMap fun v => (lines v).flatMap (fun l => l.2 ++ [0x0A]) ++ [0x0A], 0, false⟩ ∧
      ∀ v ∈ out, (lines v).map (·.1) = leaves v ∧
        ∀ l ∈ lines v, (0x0A : Byte) ∉ l.2 ∧ ∃ path text, l.2 = b%"$" ++ path ++ b%" = " ++ text ∧ Text RfcChars l.1 text := by
  obtain ⟨r', e1, e2, e3, e4⟩ := json_source hi hf
  have hs : ∀ v ∈ out, Sent RfcChars v := hm.sent hd (sent_stream hv)
  have ht : (Source.json r').tokens env = some (streamToks vs, false) := json_tokens (fun _ => rfc_lax) e3 (e2.trans he) (e1 ▸ hv)
  have hg := JpvRound.encode_good o.quoteKeys o.printer out (S := RfcChars) (fun v hv => (hs v hv).1) (fun v hv => (hs v hv).3)
  have hsink : chooseSink o = some (JEnc.encode ⟨none, o.quoteKeys⟩ o.printer Enc.goodSink) := by
    unfold chooseSink
    rw [if_neg (by rcases ho with h | h <;> simp [h])]
    simp [ho, hcol, Options.printer]
  have hpre := prepare_source e4
  rw [ha, hsink] at hpre
  have h := Main.run (env := env) hpre ht hm.does hg
  have hp : ¬ o.printer.indentSize < 0 := by simp [Options.printer, hl]; omega
  refine ⟨fun v => (JpvTree.ents JEnc.indexKey v).map fun x => (x.2, JpvRound.bodyText o.quoteKeys x), ?_, fun v hv' => ⟨?_, ?_⟩⟩
  · have e : (out.flatMap fun v => ((JpvTree.ents JEnc.indexKey v).map fun x => (x.2, JpvRound.bodyText o.quoteKeys x)).flatMap (fun l => l.2 ++ [0x0A]) ++ [0x0A]) =
        (out.map fun v => (JpvRound.linesOf o.quoteKeys o.printer v).flatten ++ [0x0A]).flatten := by
      rw [← List.flatMap_def]
      have hb : ∀ x, JpvRound.lineText o.quoteKeys o.printer x = JpvRound.bodyText o.quoteKeys x ++ [0x0A] := fun x => by
        simp [JpvRound.lineText, Enc.nlBytes, hp]
      have hc : ∀ v, (JpvRound.linesOf o.quoteKeys o.printer v).flatten =
          (JpvTree.ents JEnc.indexKey v).flatMap fun x => JpvRound.bodyText o.quoteKeys x ++ [0x0A] := fun v => by
        rw [JpvRound.linesOf, ← List.flatMap_def]
        exact JPath.flatMap_congr' fun x _ => hb x
      simp only [hc, List.flatMap_map]
    rw [e]
    exact h
  · simp only [List.map_map, Function.comp_def]
    exact leaves_ents v
  · intro l hl'
    obtain ⟨x, hx, rfl⟩ := List.mem_map.1 hl'
    refine ⟨JpvRound.nl_body (JpvRound.nl_ents (hs v hv').1 x hx), x.1.flatMap (JpvRound.elemText o.quoteKeys), JpvRound.leafText x.2, by simp [JpvRound.bodyText], ?_⟩
    have hw : x.2 ∈ leaves v := by rw [← leaves_ents v]; exact List.mem_map_of_mem hx
    obtain ⟨h1, h2⟩ := List.mem_filter.1 hw
    have h3 := (hs v hv').desc h1
    generalize x.2 = w at h2 h3 ⊢
    cases w with
    | scalar s =>
      have := Enc.layout_text o.printer (cfg := ⟨none, 0, 0⟩) rfl _ h3.1 h3.3 0
      rwa [Enc.hinted_canon h3.2, Enc.render_scalar rfl] at this
    | arr l e =>
      have : l = [] := by simpa [JVal.members] using h2
      subst this
      cases h3.3
      exact Text.arr0 Enc.ws_nil
    | obj l e =>
      have : l = [] := by simpa [JVal.members] using h2
      subst this
      cases h3.3
      exact Text.obj0 Enc.ws_nil

/-- With `-json-lines` the lines of JPV are not lines any more. -/
theorem C62_violated : Main noEnv { outFormat := b%"jpv", compact := true } (atOnce b%"[1,2]") ⟨b%"$[0] = 1$[1] = 2\n", 0, false⟩ :=
  .run (toks := streamToks [.arr [num b%"1", num b%"2"] false]) rfl (by decide +kernel) .nil (by decide +kernel)

/-- Without it they are. -/
example : Main noEnv { outFormat := b%"jpv" } (atOnce b%"[1,2]") ⟨b%"$[0] = 1\n$[1] = 2\n\n", 0, false⟩ :=
  .run (toks := streamToks [.arr [num b%"1", num b%"2"] false]) rfl (by decide +kernel) .nil (by decide +kernel)
example : leaves (.arr [num b%"1", .arr [num b%"2", .arr [] false] false] false) = [num b%"1", num b%"2", .arr [] false] := rfl

/-- A broken array and the same on one line. -/
example : Main noEnv { width := 5 } (atOnce b%"[[1,2,3]]") ⟨b%"[\n  [\n    1, 2,\n    3\n  ]\n]\n", 0, false⟩ ∧
    Main noEnv { width := 5, compact := true } (atOnce b%"[[1,2,3]]") ⟨b%"[[1, 2,3]]\n", 0, false⟩ :=
  ⟨.run (toks := streamToks [.arr [.arr [num b%"1", num b%"2", num b%"3"] false] false]) rfl (by decide +kernel) .nil (by decide +kernel),
   .run (toks := streamToks [.arr [.arr [num b%"1", num b%"2", num b%"3"] false] false]) rfl (by decide +kernel) .nil (by decide +kernel)⟩

end Verif.Cmd
