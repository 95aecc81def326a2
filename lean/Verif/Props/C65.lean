import Verif.PrintSpec
import Verif.JpvCut
import Verif.SplitCut
import Verif.ProgramLemmas
import Verif.Props.C08

/-!
# C65: Immediate output
-/

set_option linter.unusedVariables false

namespace Verif
open JPath JVal.toks

private def num (b : Bytes) : JVal := .scalar ⟨b, .num, false, false, false⟩

/-! ## The stages -/

/-- **C65 (queries, between values).**  Before a query reads the token after some values, it has written all their nodes.  Missing: what is excluded by
`Plain` (see C38). -/
theorem C65_query_partial {lib : Lib} {re : Rfc9535.Sem} {S : Bytes → Prop} {q : Query} {strict : Bool} (hc : (compileQuery q).isSome = true) {vs : List JVal}
    (h : ∀ v ∈ vs, JPath.Plain lib re S q v) :
    ∃ Ls, Writes lib strict q (streamToks vs) (streamToks Ls.flatten) ∧
      Rel2 (fun v L => L.Perm (Rfc9535.nodes re v q.segs v) ∧ ((∀ seg ∈ q.segs, seg.Exact strict) → L = Rfc9535.nodes re v q.segs v)) vs Ls :=
  writes_values hc h

/-- **C65 (queries, inside of values).**  If the query need not look ahead, then before it reads the token after an item or member that is complete, it has
written all nodes that the value would have if it ended there.  Missing: queries with several selectors in a segment, from the end, or with a condition
about the root; strict order of descendants; filters and descendants followed by other segments, further down; what is excluded by `Plain` (see C38). -/
theorem C65_query_inside_partial {lib : Lib} {re : Rfc9535.Sem} {S : Bytes → Prop} {q : Query} {strict : Bool} (hl : localSegs q.segs = true)
    (hc : (compileQuery q).isSome = true) {d : Nat} (hp : Prompt strict d q.segs) {vs : List JVal} {w : JVal} (h : ∀ v ∈ vs ++ [w], JPath.Plain lib re S q v)
    {d' : Nat} (hd : d' ≤ d) {ts : List Token} (hcut : Cut d' w ts) :
    ∃ Ls, Writes lib strict q (streamToks vs ++ ts) (streamToks Ls.flatten) ∧
      Rel2 (fun v L => L.Perm (Rfc9535.nodes re v q.segs v) ∧ ((∀ seg ∈ q.segs, seg.Exact strict) → L = Rfc9535.nodes re v q.segs v)) (vs ++ [w]) Ls :=
  writes_cut hl hc hp h hd hcut

/-- What has been written stays: it is the beginning of the outcome, whatever follows. -/
theorem C65_query_stays {lib : Lib} {strict : Bool} {q : Query} {ts out : List Token} (h : Writes lib strict q ts out) {c out' : List Token} {e : Except Stop Unit}
    (ho : Outcome lib strict q (ts ++ c) out' e) : out <+: out' := h.outcome ho

/-- **C65 (split).**  Before `split` reads the token after an item that is complete, it has written this item. -/
theorem C65_split (vs l : List JVal) : Splits (streamToks vs ++ .startArr :: itemToks l) (streamToks (vs.flatMap JVal.parts ++ l)) := splits_cut vs l

/-- **C65 (JSON, between values).**  Before the encoder reads the token after some values, it has passed to its writer all that it would if they were all. -/
theorem C65_json (cfg : EncCfg) (pc : PrinterCfg) (vs : List JVal) :
    ∃ evs, Enc.Prints cfg pc (streamToks vs) evs ∧ evBytes evs = (Enc.encode cfg pc Enc.goodSink (streamToks vs)).1 :=
  ⟨_, Enc.prints_values cfg pc vs, by rw [Enc.encode_good]; rfl⟩

/-- **C65 (JSON, inside of values).**  Before the encoder reads the token after an item or member that is complete, it has passed on all that it would if the
value ended there, except for a rest.  The length of the rest is bounded by the limit for the width of compact lines and the depth, not by the value. -/
theorem C65_json_inside (cfg : EncCfg) (pc : PrinterCfg) (vs : List JVal) {d : Nat} {w : JVal} {ts : List Token} (hcut : Cut d w ts) :
    ∃ evs rest, Enc.Prints cfg pc (streamToks vs ++ ts) evs ∧ (Enc.encode cfg pc Enc.goodSink (streamToks (vs ++ [w]))).1 = evBytes evs ++ rest ∧
      (cfg.color = none → (rest.length : Int) ≤ max 0 cfg.widthLimit + 3 + d + ((d + 2) * (1 + pc.indentSize.toNat * (d + 1)) : Nat)) ∧
      (pc.flusher = true → Enc.QuietColor cfg.color → (∀ v ∈ vs ++ [w], Enc.OneLine v) → 0x0A ∉ (Bufio.run Bufio.new evs).buf) :=
  Enc.prints_cut cfg pc vs hcut

/-- **C65 (JPV, between values).**  The same for the JPV encoder. -/
theorem C65_jpv (cfg : JEncCfg) (pc : PrinterCfg) (vs : List JVal) (hk : ∀ v ∈ vs, JEnc.KeysOk v) :
    ∃ evs, JEnc.Prints cfg pc (streamToks vs) evs ∧ evBytes evs = (JEnc.encode cfg pc Enc.goodSink (streamToks vs)).1 := by
  refine ⟨_, JEnc.prints_values cfg pc vs hk, ?_⟩
  rw [JpvRound.encode_eq _ _ _ _ hk, Sink.feed_all (w := Enc.goodSink) (fun _ _ => rfl)]

/-- **C65 (JPV, inside of values).**  Before the JPV encoder reads the token after an item or member that is complete, it has passed on all lines that it would if
the value ended there, and only the empty line after the value is missing.  At the beginning of an array or object, only the line is missing that says that it is
empty.  If every line is flushed, then all this is on the standard output. -/
theorem C65_jpv_inside (cfg : JEncCfg) (pc : PrinterCfg) (vs : List JVal) {d : Nat} {w : JVal} {ts : List Token} (hcut : Cut d w ts) (hk : ∀ v ∈ vs ++ [w], JEnc.KeysOk v) :
    ∃ evs rest, JEnc.Prints cfg pc (streamToks vs ++ ts) evs ∧ (JEnc.encode cfg pc Enc.goodSink (streamToks (vs ++ [w]))).1 = evBytes evs ++ (rest ++ [0x0A]) ∧
      (ts.getLast? ≠ some .startArr → ts.getLast? ≠ some .startObj → rest = []) ∧
      (rest ≠ [] → ∃ path x, path.length = d ∧ (x = b%"[]" ∨ x = b%"{}") ∧ rest = Enc.render pc 0 (JEnc.pathOps cfg path ++ [.bytes x, .newLine])) ∧
      (pc.flusher = true → 0 ≤ pc.indentSize → (Bufio.run Bufio.new evs).out = evBytes evs) := by
  obtain ⟨evs, tail, h1, h2, h3, h4⟩ := JEnc.prints_cut cfg pc vs hcut hk
  refine ⟨evs, Enc.render pc 0 tail, h1, ?_, fun ha ho => ?_, fun hr => ?_, h4⟩
  · rw [h2, Enc.render_append, Enc.render_reset]
  · rcases h3 with ⟨rfl, -⟩ | ⟨_, _, _, h⟩ | ⟨_, _, _, h⟩
    · rfl
    · exact absurd h ha
    · exact absurd h ho
  · rcases h3 with ⟨rfl, -⟩ | ⟨q, hq, rfl, -⟩ | ⟨q, hq, rfl, -⟩
    · exact absurd rfl hr
    · exact ⟨q, _, hq, .inl rfl, rfl⟩
    · exact ⟨q, _, hq, .inr rfl, rfl⟩

/-! ## The standard output -/

/-- **C65 (terminal).**  If every line is flushed, then the text of complete values is on the standard output before the encoder reads on. -/
theorem C65_terminal (cfg : EncCfg) (pc : PrinterCfg) (hf : pc.flusher = true) (vs : List JVal) :
    ∃ evs, Enc.Prints cfg pc (streamToks vs) evs ∧ (Bufio.run Bufio.new evs).out = (Enc.encode cfg pc Enc.goodSink (streamToks vs)).1 := by
  refine ⟨_, Enc.prints_values cfg pc vs, ?_⟩
  rw [Enc.encode_good]
  rcases List.eq_nil_or_concat vs with rfl | ⟨l, v, rfl⟩
  · rfl
  · have e : Enc.layoutAll cfg (l ++ [v]) = (Enc.layoutAll cfg l ++ Enc.layout cfg v) ++ [.reset] := by
      rw [Enc.layoutAll, List.flatMap_append, List.flatMap_singleton, ← List.append_assoc]
      rfl
    rw [List.concat_eq_append, e]
    exact Enc.flushed pc hf _

/-- **C65 (pipes; partial: not immediate).**  If lines are not flushed, then all but the last 4096 bytes of what has been passed on are on the standard
output. -/
theorem C65_pipe_partial (evs : List WEv) :
    ∃ l, evBytes evs = (Bufio.run Bufio.new evs).out ++ l ∧ l.length ≤ 4096 := by
  refine ⟨(Bufio.run Bufio.new evs).buf, ?_, Bufio.run_size evs _ (Nat.zero_le _)⟩
  rw [Bufio.run_all]
  rfl

private theorem noFlush (pc : PrinterCfg) (hf : pc.flusher = false) : ∀ (l : List POp) (lvl : Int), .flush ∉ (pc.execAll lvl l).1
  | [], _ => by simp [PrinterCfg.execAll]
  | o :: l, lvl => by
    show .flush ∉ (pc.exec lvl o).1 ++ (pc.execAll (pc.exec lvl o).2 l).1
    have h1 : ∀ lvl, WEv.flush ∉ pc.newLine lvl := by
      intro lvl
      unfold PrinterCfg.newLine
      split
      · simp
      · simp [PrinterCfg.writeNL, hf]
    rw [List.mem_append, not_or]
    refine ⟨?_, noFlush pc hf l _⟩
    cases o <;> simp [PrinterCfg.exec, h1, PrinterCfg.writeNL, hf]

/-- **C65 is false for pipes.**  If the standard output is not a terminal, then of values with texts of at most 4096 bytes together nothing has been written
when the program waits for the next value: `tail -f log | jp … | cat` shows nothing until 4096 bytes have come together. -/
theorem C65_violated_pipe (cfg : EncCfg) (pc : PrinterCfg) (hf : pc.flusher = false) (vs : List JVal)
    (hs : (Enc.encode cfg pc Enc.goodSink (streamToks vs)).1.length ≤ 4096) :
    ∃ evs, Enc.Prints cfg pc (streamToks vs) evs ∧ evBytes evs = (Enc.encode cfg pc Enc.goodSink (streamToks vs)).1 ∧ (Bufio.run Bufio.new evs).out = [] := by
  rw [Enc.encode_good] at hs ⊢
  refine ⟨_, Enc.prints_values cfg pc vs, rfl, ?_⟩
  rw [Bufio.run_small _ (noFlush pc hf _ _) _ (by simpa [Bufio.new, Bufio.size, Enc.render] using hs)]
  rfl

/-! ## All together -/

/-- **C65 (from the input to the terminal).**  When the texts of some values and one more byte have come (which cannot continue a number), then the decoder has
emitted the values; before the query reads on, it has written the nodes; and before the encoder reads on, the texts of the nodes are on the terminal.  Missing: as
for queries; several transforms; other formats. -/
theorem C65_chain_partial {lib : Lib} {re : Rfc9535.Sem} {S : Bytes → Prop} {q : Query} {strict : Bool} (hc : (compileQuery q).isSome = true) (cfg : EncCfg)
    (pc : PrinterCfg) (hf : pc.flusher = true) {vs : List JVal} {b : Bytes} {x : Byte} {rest : Bytes} (hb : Rfc8259.SepStream Rfc8259.RfcChars vs b) (hx : ¬ Rfc8259.NumCont x)
    (h : ∀ v ∈ vs, JPath.Plain lib re S q v) :
    ∃ Ls evs, streamToks vs <+: emittedWithin (b ++ x :: rest) ∧ Writes lib strict q (streamToks vs) (streamToks Ls.flatten) ∧
      Rel2 (fun v L => L.Perm (Rfc9535.nodes re v q.segs v) ∧ ((∀ seg ∈ q.segs, seg.Exact strict) → L = Rfc9535.nodes re v q.segs v)) vs Ls ∧
      Enc.Prints cfg pc (streamToks Ls.flatten) evs ∧ (Bufio.run Bufio.new evs).out = (Enc.encode cfg pc Enc.goodSink (streamToks Ls.flatten)).1 := by
  obtain ⟨Ls, h1, h2⟩ := C65_query_partial (strict := strict) hc h
  obtain ⟨evs, h3, h4⟩ := C65_terminal cfg pc hf Ls.flatten
  exact ⟨Ls, evs, ⟨_, (C08_prompt vs b x rest hb hx).symm⟩, h1, h2, h3, h4⟩

/-! ## Stopping -/

/-- **C65 is false: the program does not stop reading after N items.**  `jp '$[:1]'` reports an error that is behind the first item, and behind the whole
array. -/
theorem C65_violated : Cmd.Main Cmd.noEnv { args := [b%"$[:1]"] } (Cmd.atOnce b%"[1,2]x") ⟨b%"1\n", 0, true⟩ := by
  refine (Cmd.main_json (x := (b%"1\n", .ok ())) (ts := [.query ⟨true, [.mk false [.slice none (some 1) 1]]⟩])
      (toks := streamToks [.arr [num b%"1", num b%"2"] false]) (out := streamToks [num b%"1"]) (bad := true)
      (Cmd.atOnce_json rfl _ (.inr rfl)) (Cmd.fair_atOnce _) rfl rfl (by decide +kernel) (.cons ?_ .nil) (by decide +kernel)).1 rfl
  exact .of_run 10 (by decide +kernel)

/-! ## Examples -/

private theorem den_digit (d : Byte) (h : 0x31 ≤ d ∧ d ≤ 0x39) : ∃ x, Den (num [d]) x :=
  ⟨_, .num rfl ⟨[], [d], [], [], .inl rfl, .inr ⟨d, [], h.1, h.2, by simp, rfl⟩, .inl rfl, .inl rfl, rfl⟩⟩

private theorem den_list : ∃ x, Den (.arr [num b%"1", num b%"2"] false) x := by
  obtain ⟨a, ha⟩ := den_digit 0x31 (by decide)
  obtain ⟨b, hb⟩ := den_digit 0x32 (by decide)
  exact ⟨_, .arr (.cons ha (.cons hb .nil))⟩

/-- `jp '$[:1]'` has written 1 when `[1,2` has come. -/
example (lib : Lib) (re : Rfc9535.Sem) (strict : Bool) :
    Writes lib strict ⟨true, [.mk false [.slice none (some 1) 1]]⟩ (streamToks [] ++ (.startArr :: itemToks [num b%"1", num b%"2"])) (streamToks [num b%"1"]) := by
  have hb : ∀ s ∈ [Segment.mk false [.slice none (some 1) 1]], s.Basic := by
    intro seg hs
    simp only [List.mem_singleton] at hs
    subst hs
    intro s hs
    simp only [List.mem_singleton] at hs
    subst hs
    show _ ∧ _ ∧ _
    refine ⟨?_, ?_, ?_⟩ <;> simp [Rfc9535.IJson]
  obtain ⟨Ls, h1, h2⟩ := C65_query_inside_partial (lib := lib) (re := re) (S := fun _ => True) (q := ⟨true, [.mk false [.slice none (some 1) 1]]⟩)
    (strict := strict) rfl (basic_compiles hb) (d := 0) (.last ⟨by simp, by simp [Selector.Ahead], by simp⟩) (vs := []) (w := .arr [num b%"1", num b%"2"] false)
    (by
      intro v hv
      simp only [List.nil_append, List.mem_singleton] at hv
      subst hv
      exact basic_plain hb den_list (by decide)) (Nat.le_refl _) .arr
  cases h2 with
  | cons h h' =>
    cases h'
    have := h.2 (by intro seg hs; simp only [List.mem_singleton] at hs; subst hs; exact .inl rfl)
    subst this
    simpa [Rfc9535.nodes, Rfc9535.segNodes, Rfc9535.selsNodes, Rfc9535.selNodes, Rfc9535.sliceNodes, show Rfc9535.slice none (some 1) 1 2 = [0] from by decide] using h1

/-- A query with a filter that need not look ahead: `$.a[?@.b]`, two levels down. -/
example (k k' : Bytes) : Prompt false 1 [.mk false [.name k], .mk false [.filter (.query false [.mk false [.name k']])]] :=
  .child ⟨by simp, by simp [Selector.Ahead], by simp⟩ ⟨rfl, by simp [Selector.Plain]⟩ (.last ⟨by simp, by simp [Selector.Ahead], by simp⟩)

/-- `[[1],[2` is cut off one level down. -/
example : Cut 1 (.arr ([.arr [num b%"1"] false] ++ [.arr [num b%"2"] false]) false)
    (.startArr :: (itemToks [.arr [num b%"1"] false] ++ (.startArr :: itemToks [num b%"2"]))) := .item .arr

/-- In JPV, the lines of 1 and 2 have been passed on when `[[1],[2` has come. -/
example : (JEnc.encode ⟨none, false⟩ ⟨2, true⟩ Enc.goodSink (streamToks [.arr ([.arr [num b%"1"] false] ++ [.arr [num b%"2"] false]) false])).1 =
    b%"$[0][0] = 1\n$[1][0] = 2\n" ++ ([] ++ [0x0A]) := by decide +kernel
/-- When `[[1],[` has come, the last line is missing. -/
example : Enc.render ⟨2, true⟩ 0 (JEnc.pathOps ⟨none, false⟩ [JEnc.indexKey 1] ++ [.bytes b%"[]", .newLine]) = b%"$[1] = []\n" := by decide +kernel
example : JEnc.KeysOk (.arr ([.arr [num b%"1"] false] ++ [.arr [num b%"2"] false]) false) := by
  refine .arr fun v hv => ?_
  simp only [List.cons_append, List.nil_append, List.mem_cons, List.not_mem_nil, or_false] at hv
  rcases hv with rfl | rfl <;>
  · refine .arr fun v hv => ?_
    simp only [List.mem_cons, List.not_mem_nil, or_false] at hv
    subst hv
    exact .scalar

/-- The flusher of a terminal: the text of 1 is there. -/
example : (Bufio.run Bufio.new ((⟨2, true⟩ : PrinterCfg).execAll 0 (Enc.layoutAll ⟨none, 60, 2⟩ [num b%"1"])).1).out = b%"1\n" := by decide
/-- Without it: nothing. -/
example : (Bufio.run Bufio.new ((⟨2, false⟩ : PrinterCfg).execAll 0 (Enc.layoutAll ⟨none, 60, 2⟩ [num b%"1"])).1).out = [] := by decide

end Verif
