import Verif.PathLexSound
import Verif.PathIntLemmas

/-!
# What is read is spelled by a text of the grammar
-/

namespace Verif.JPath
open Rfc9535 Utf8 GoJson

/-- Where there are these tokens, there is, after blanks, a text with the property `P`. -/
def Sp (k : List Tok) (P : Bytes → Prop) : Prop :=
  ∀ s rest, Lexed s (k ++ rest) → ∃ w t s', s = w ++ (t ++ s') ∧ Blanks true w ∧ P t ∧ Lexed s' rest

/-- The same without blanks. -/
def Sp0 (k : List Tok) (P : Bytes → Prop) : Prop :=
  ∀ s rest, Lexed s (k ++ rest) → ∃ t s', s = t ++ s' ∧ P t ∧ Lexed s' rest

theorem Sp.tok {t : Tok} {P : Bytes → Prop} (h : TokSpec t → P t.text) : Sp [t] P := by
  intro s rest hl
  cases hl with
  | cons hw ht hs => exact ⟨_, t.text, _, rfl, hw, h ht, hs⟩

theorem Sp.op (v : Bytes) : Sp [opTok v] (· = v) := Sp.tok fun _ => rfl

theorem Sp.mono {k : List Tok} {P Q : Bytes → Prop} (h : Sp k P) (hq : ∀ t, P t → Q t) : Sp k Q := by
  intro s rest hl
  obtain ⟨w, t, s', h1, h2, h3, h4⟩ := h s rest hl
  exact ⟨w, t, s', h1, h2, hq t h3, h4⟩

theorem Sp.app {k1 k2 : List Tok} {P1 P2 P : Bytes → Prop} (h1 : Sp k1 P1) (h2 : Sp k2 P2)
    (h : ∀ t1 w t2, P1 t1 → Blanks true w → P2 t2 → P (t1 ++ (w ++ t2))) : Sp (k1 ++ k2) P := by
  intro s rest hl
  rw [List.append_assoc] at hl
  obtain ⟨w1, t1, s1, rfl, hw1, hp1, hl1⟩ := h1 s _ hl
  obtain ⟨w2, t2, s2, rfl, hw2, hp2, hl2⟩ := h2 s1 _ hl1
  exact ⟨w1, t1 ++ (w2 ++ t2), s2, by simp, hw1, h _ _ _ hp1 hw2 hp2, hl2⟩

theorem Sp.app0 {k1 k2 : List Tok} {P1 P2 P : Bytes → Prop} (h1 : Sp k1 P1) (h2 : Sp0 k2 P2) (h : ∀ t1 t2, P1 t1 → P2 t2 → P (t1 ++ t2)) : Sp (k1 ++ k2) P := by
  intro s rest hl
  rw [List.append_assoc] at hl
  obtain ⟨w1, t1, s1, rfl, hw1, hp1, hl1⟩ := h1 s _ hl
  obtain ⟨t2, s2, rfl, hp2, hl2⟩ := h2 s1 _ hl1
  exact ⟨w1, t1 ++ t2, s2, by simp, hw1, h _ _ hp1 hp2, hl2⟩

/-- One text after the other, with blanks between them. -/
def Cat (P1 P2 : Bytes → Prop) (t : Bytes) : Prop := ∃ t1 w t2, t = t1 ++ (w ++ t2) ∧ P1 t1 ∧ Blanks true w ∧ P2 t2
/-- One text after the other. -/
def Cat0 (P1 P2 : Bytes → Prop) (t : Bytes) : Prop := ∃ t1 t2, t = t1 ++ t2 ∧ P1 t1 ∧ P2 t2

theorem Sp.cat {k1 k2 : List Tok} {P1 P2 : Bytes → Prop} (h1 : Sp k1 P1) (h2 : Sp k2 P2) : Sp (k1 ++ k2) (Cat P1 P2) :=
  h1.app h2 fun t1 w t2 p1 p2 p3 => ⟨t1, w, t2, rfl, p1, p2, p3⟩

theorem Sp.cat0 {k1 k2 : List Tok} {P1 P2 : Bytes → Prop} (h1 : Sp k1 P1) (h2 : Sp0 k2 P2) : Sp (k1 ++ k2) (Cat0 P1 P2) :=
  h1.app0 h2 fun t1 t2 p1 p2 => ⟨t1, t2, rfl, p1, p2⟩

theorem Sp.to0 {k : List Tok} {P Q : Bytes → Prop} (h : Sp k P) (hq : ∀ w t, Blanks true w → P t → Q (w ++ t)) : Sp0 k Q := by
  intro s rest hl
  obtain ⟨w, t, s', rfl, h2, h3, h4⟩ := h s rest hl
  exact ⟨w ++ t, s', by simp, hq w t h2 h3, h4⟩

theorem Sp0.nil {P : Bytes → Prop} (h : P []) : Sp0 [] P := fun s _ hl => ⟨[], s, rfl, h, hl⟩

theorem blanks_nil {lax : Bool} : Blanks lax [] := by simp [Blanks]

/-! ## Literals -/

theorem PString.spells {x : PString} {v : Bytes} (h : x.compile = some v) : Sp [x.tok] (StrText · v) := by
  refine Sp.tok fun ht => ?_
  cases x with
  | double t =>
    obtain ⟨c, s, e, hd⟩ := ht
    simp only [PString.tok] at e
    subst e
    rw [PString.compile, parseDouble, unquote_denotes hd] at h
    cases h
    exact .inl ⟨c, rfl, hd⟩
  | single t =>
    obtain ⟨c, s, e, hd⟩ := ht
    simp only [PString.tok] at e
    subst e
    rw [PString.compile, parseSingle_ok hd] at h
    cases h
    exact .inr ⟨c, rfl, hd⟩

theorem int_spells {t : Bytes} {v : Int} (h : parseInt t = some v) : Sp [⟨.int, t⟩] (IntText · v) := by
  refine Sp.tok fun ht => ?_
  obtain ⟨v', hv⟩ := ht
  simp only at hv
  rw [parseInt_lit hv] at h
  split at h
  · cases h
    exact ⟨hv, by assumption⟩
  · cases h

theorem PLiteral.spells {x : PLiteral} {v : Literal} (h : x.compile = some v) : Sp [x.tok] (LitText · v) := by
  cases x with
  | num b t =>
    simp only [PLiteral.compile, Option.map_eq_some_iff] at h
    obtain ⟨q, hq, rfl⟩ := h
    refine Sp.tok fun ht => ?_
    have hn : Rfc8259.Number t := by
      cases b with
      | true => obtain ⟨v, hv⟩ := ht; exact intLit_number hv
      | false => exact ht
    rw [number_ok hn] at hq
    have e : (PLiteral.num b t).tok.text = t := by cases b <;> rfl
    rw [e]
    exact .num hn hq
  | str s =>
    simp only [PLiteral.compile, Option.map_eq_some_iff] at h
    obtain ⟨q, hq, rfl⟩ := h
    exact (PString.spells hq).mono fun _ ht => .str ht
  | bool b =>
    cases h
    cases b
    · exact Sp.tok fun _ => .false
    · exact Sp.tok fun _ => .true
  | null =>
    cases h
    exact Sp.tok fun _ => .null

/-! ## Singular queries -/

theorem sing_spells : ∀ {l : List PSingSeg} {v : List SingSeg}, compileSingSegs l = some v → Sp0 (singToks l) (SingText true · v)
  | [], v, h => by
    cases h
    exact Sp0.nil .nil
  | x :: l, v, h => by
    simp only [compileSingSegs, Option.bind_eq_some_iff, Option.map_eq_some_iff] at h
    obtain ⟨a, ha, b, hb, rfl⟩ := h
    have ih := sing_spells hb
    cases x with
    | bracket s =>
      simp only [PSingSeg.compile, Option.map_eq_some_iff] at ha
      obtain ⟨n, hn, rfl⟩ := ha
      refine ((Sp.op b%"[").cat ((PString.spells hn).cat ((Sp.op b%"]").cat0 ih))).to0 ?_
      rintro w _ hw ⟨_, w1, _, rfl, rfl, hw1, _, w2, _, rfl, hx, hw2, _, _, rfl, rfl, hy⟩
      exact .name hw (by simp) hw1 hx hw2 hy
    | dot t =>
      cases ha
      refine ((Sp.tok (t := ⟨.dotName, t⟩) (P := fun t' => t' = t ∧ ∃ n, Name n ∧ t = b%"." ++ n) fun h => ⟨rfl, h⟩).cat0 ih).to0 ?_
      rintro w _ hw ⟨_, _, rfl, ⟨rfl, n, hn, rfl⟩, hy⟩
      rw [List.append_assoc]
      exact .dot hw hn hy
    | index t =>
      simp only [PSingSeg.compile, Option.map_eq_some_iff] at ha
      obtain ⟨n, hn, rfl⟩ := ha
      refine ((Sp.op b%"[").cat ((int_spells hn).cat ((Sp.op b%"]").cat0 ih))).to0 ?_
      rintro w _ hw ⟨_, w1, _, rfl, rfl, hw1, _, w2, _, rfl, hx, hw2, _, _, rfl, rfl, hy⟩
      exact .index hw (by simp) hw1 hx hw2 hy

/-! ## Slices -/

theorem step_spells {c : Option Bytes} {v : Int} (h : compileStep (some c) = some v) : Sp (stepToks (some c)) (StepText true · v) := by
  cases c with
  | none =>
    cases h
    exact (Sp.op b%":").mono fun t e => by subst e; exact .colon
  | some t =>
    refine ((Sp.op b%":").cat (int_spells h)).mono ?_
    rintro _ ⟨_, w, _, rfl, rfl, hw, ht⟩
    exact .some hw ht

theorem rest_spells {b : Option Bytes} {c : Option (Option Bytes)} {vb : Option Int} {vc : Int} (hb : compileBound b = some vb) (hc : compileStep c = some vc) :
    Sp0 (boundToks b ++ stepToks c) (fun t => ∃ w t2 t3, t = w ++ (t2 ++ t3) ∧ Blanks true w ∧ BoundText true t2 vb ∧ StepText true t3 vc) := by
  cases b with
  | none =>
    cases hb
    cases c with
    | none =>
      cases hc
      exact Sp0.nil ⟨[], [], [], rfl, blanks_nil, .none, .none⟩
    | some c => exact (step_spells hc).to0 fun w t hw ht => ⟨w, [], t, rfl, hw, .none, ht⟩
  | some b =>
    simp only [compileBound, Option.map_eq_some_iff] at hb
    obtain ⟨n, hn, rfl⟩ := hb
    cases c with
    | none =>
      cases hc
      refine (int_spells hn).to0 fun w t hw ht => ⟨w, t, [], by simp, hw, ?_, .none⟩
      have := BoundText.some ht (blanks_nil (lax := true))
      rwa [List.append_nil] at this
    | some c =>
      refine ((int_spells hn).cat (step_spells hc)).to0 ?_
      rintro w _ hw ⟨t1, w1, t2, rfl, h1, hw1, h2⟩
      exact ⟨w, t1 ++ w1, t2, by simp, hw, .some h1 hw1, h2⟩

theorem slice_spells {a b : Option Bytes} {c : Option (Option Bytes)} {va vb : Option Int} {vc : Int} (ha : compileBound a = some va)
    (hb : compileBound b = some vb) (hc : compileStep c = some vc) :
    Sp (boundToks a ++ (opTok b%":" :: (boundToks b ++ stepToks c))) (Text true .selector · (.slice va vb vc)) := by
  have hr := (Sp.op b%":").cat0 (rest_spells hb hc)
  cases a with
  | none =>
    cases ha
    refine hr.mono ?_
    rintro _ ⟨_, _, rfl, rfl, w, t2, t3, rfl, hw, h2, h3⟩
    exact .slice .none hw h2 h3
  | some a =>
    simp only [compileBound, Option.map_eq_some_iff] at ha
    obtain ⟨n, hn, rfl⟩ := ha
    refine ((int_spells hn).cat hr).mono ?_
    rintro _ ⟨t, w, _, rfl, ht, hw, _, _, rfl, rfl, w', t2, t3, rfl, hw', h2, h3⟩
    have := Text.slice (BoundText.some ht hw) hw' h2 h3
    simpa using this

/-! ## Trees -/

theorem singular_typed : ∀ {l : List Segment}, Singular l → SegsTyped l
  | [], _ => trivial
  | s :: l, h => by
    refine ⟨?_, singular_typed fun x hx => h x (List.mem_cons_of_mem _ hx)⟩
    rcases h s (by simp) with ⟨n, rfl⟩ | ⟨i, rfl⟩ <;> exact ⟨trivial, trivial⟩

theorem no_logical {n : Bytes} {ps : List FnType} {r : FnType} (h : (n, ps, r) ∈ signatures) : ∀ ty ∈ ps, ty ≠ .logical :=
  (by decide : ∀ x ∈ signatures, ∀ ty ∈ x.2.1, ty ≠ .logical) _ h

theorem not_nil {ps : List FnType} {r : FnType} (h : ([], ps, r) ∈ signatures) : False :=
  (by decide : ∀ x ∈ signatures, x.1 ≠ []) _ h rfl

/-- A call, given its arguments. -/
theorem call_spells {name : Bytes} {args : List PArg} {vs : List Arg} {ps : List FnType} {r : FnType} (hs : (name.dropLast, ps, r) ∈ signatures)
    (h : args = [] ∧ vs = [] ∨ Sp (argsToks args) (Text true .args · vs)) :
    Sp (⟨.func, name⟩ :: (argsToks args ++ [opTok b%")"])) (Text true .call · (name.dropLast, vs)) := by
  have hn : Sp [⟨.func, name⟩] (fun t => t = name.dropLast ++ b%"(") := Sp.tok fun ht => by
    obtain ⟨n, e⟩ := ht
    simp only at e
    simp [e]
  have hm : name.dropLast ∈ signatures.map Prod.fst := List.mem_map.2 ⟨_, hs, rfl⟩
  rcases h with ⟨rfl, rfl⟩ | h
  · refine (hn.cat (Sp.op b%")")).mono ?_
    rintro _ ⟨_, w, _, rfl, rfl, hw, rfl⟩
    rw [List.append_assoc]
    exact .noArgs hm hw
  · refine (hn.cat (h.cat (Sp.op b%")"))).mono ?_
    rintro _ ⟨_, w, _, rfl, rfl, hw, t, w', _, rfl, ht, hw', rfl⟩
    rw [List.append_assoc]
    exact .withArgs hm hw ht hw'

theorem not_spells {n : Bool} {k : List Tok} {v : Logical} (h : Sp k (Text true .test · v)) :
    Sp (notToks n ++ k) (Text true .basic · (if n then .not v else v)) := by
  cases n with
  | false => exact h.mono fun _ ht => .test ht
  | true =>
    refine ((Sp.op b%"!").cat h).mono ?_
    rintro _ ⟨_, w, _, rfl, rfl, hw, ht⟩
    exact .notTest hw ht

theorem query_spells {root : Bool} {l : List PSegment} {v : List Segment} (h : Sp0 (segsToks l) (Text true .segments · v)) :
    Sp (rootTok root :: segsToks l) (Text true .query · (root, v)) := by
  cases root with
  | false =>
    refine ((Sp.op b%"@").cat0 h).mono ?_
    rintro _ ⟨_, _, rfl, rfl, ht⟩
    exact .rel ht
  | true =>
    refine ((Sp.op b%"$").cat0 h).mono ?_
    rintro _ ⟨_, _, rfl, rfl, ht⟩
    exact .abs ht

theorem bracket_spells {k : List Tok} {v : List Selector} (h : Sp k (Text true .selectors · v)) :
    Sp (opTok b%"[" :: (k ++ [opTok b%"]"])) (Text true .brackets · v) := by
  refine ((Sp.op b%"[").cat (h.cat (Sp.op b%"]"))).mono ?_
  rintro _ ⟨_, w, _, rfl, rfl, hw, t, w', _, rfl, ht, hw', rfl⟩
  exact .brackets hw ht hw'

theorem descBracket_spells {k : List Tok} {v : List Selector} (h : Sp k (Text true .selectors · v)) :
    Sp (opTok b%"..[" :: (k ++ [opTok b%"]"])) (Text true .segment · (.mk true v)) := by
  refine ((Sp.op b%"..[").cat (h.cat (Sp.op b%"]"))).mono ?_
  rintro _ ⟨_, w, _, rfl, rfl, hw, t, w', _, rfl, ht, hw', rfl⟩
  exact .desc (.brackets hw ht hw')

mutual
theorem sel_spells : ∀ (x : PSelector) {v : Selector}, x.ok true → x.compile = some v → SelTyped v → SelFilled v → Sp x.toks (Text true .selector · v)
  | .name s, v, _, h, _, _ => by
    simp only [PSelector.compile, Option.map_eq_some_iff] at h
    obtain ⟨n, hn, rfl⟩ := h
    exact (PString.spells hn).mono fun _ ht => .name ht
  | .wild, v, _, h, _, _ => by
    cases h
    exact (Sp.op b%"*").mono fun t e => by subst e; exact .wild
  | .slice a b c, v, _, h, _, _ => by
    simp only [PSelector.compile, Option.bind_eq_some_iff, Option.map_eq_some_iff] at h
    obtain ⟨va, ha, vb, hb, vc, hc, rfl⟩ := h
    exact slice_spells ha hb hc
  | .index t, v, _, h, _, _ => by
    simp only [PSelector.compile, Option.map_eq_some_iff] at h
    obtain ⟨n, hn, rfl⟩ := h
    exact (int_spells hn).mono fun _ ht => .index ht
  | .filter e, v, ho, h, ht, hf => by
    simp only [PSelector.compile, Option.map_eq_some_iff] at h
    obtain ⟨c, hc, rfl⟩ := h
    refine ((Sp.op b%"?").cat (or_spells e ho hc ht hf)).mono ?_
    rintro _ ⟨_, w, _, rfl, rfl, hw, ht⟩
    exact .filter hw ht
theorem sels_spell : ∀ (l : List PSelector) {b : List Selector}, selsOk true l → compileSelectors l = some b → SelsTyped b → SelsFilled b →
    ∀ {k : List Tok} {a : Selector}, Sp k (Text true .selector · a) → Sp (k ++ selsToks l) (Text true .selectors · (a :: b))
  | [], b, _, h, _, _, k, a, hk => by
    cases h
    rw [selsToks, List.append_nil]
    exact hk.mono fun _ ht => .oneSelector ht
  | x :: l, b, ho, h, ht, hf, k, a, hk => by
    simp only [compileSelectors, Option.bind_eq_some_iff, Option.map_eq_some_iff] at h
    obtain ⟨v, hv, b, hb, rfl⟩ := h
    have hr := sels_spell l ho.2 hb ht.2 hf.2 (sel_spells x ho.1 hv ht.1 hf.1)
    refine (hk.cat ((Sp.op b%",").cat hr)).mono ?_
    rintro _ ⟨t, w, _, rfl, h1, hw, _, w', _, rfl, rfl, hw', h2⟩
    exact .moreSelectors h1 hw hw' h2
theorem seg_spells : ∀ (x : PSegment) {v : Segment}, x.ok true → x.compile = some v → SegTyped v → SegFilled v → Sp x.toks (Text true .segment · v)
  | .bracketed f r, v, ho, h, ht, hf => by
    simp only [PSegment.compile, Option.bind_eq_some_iff, Option.map_eq_some_iff] at h
    obtain ⟨a, ha, b, hb, rfl⟩ := h
    have := bracket_spells (sels_spell r ho.2 hb ht.2 hf.2.2 (sel_spells f ho.1 ha ht.1 hf.2.1))
    rw [List.append_assoc] at this
    exact this.mono fun _ ht => .child ht
  | .dotWild, v, _, h, _, _ => by
    cases h
    exact (Sp.op b%".*").mono fun t e => by subst e; exact .dotWild
  | .dotName t, v, _, h, _, _ => by
    cases h
    refine Sp.tok fun ht => ?_
    obtain ⟨n, hn, e⟩ := ht
    simp only at e
    subst e
    exact .dotName hn
  | .descBracketed f r, v, ho, h, ht, hf => by
    simp only [PSegment.compile] at h
    split at h
    · cases h
      exact absurd rfl hf.1
    · rename_i l e
      cases h
      simp only [Option.bind_eq_some_iff, Option.map_eq_some_iff] at e
      obtain ⟨a, ha, b, hb, rfl⟩ := e
      have := descBracket_spells (sels_spell r ho.2 hb ht.2 hf.2.2 (sel_spells f ho.1 ha ht.1 hf.2.1))
      rw [List.append_assoc] at this
      exact this
  | .descWild, v, _, h, _, _ => by
    cases h
    exact (Sp.op b%"..*").mono fun t e => by subst e; exact .descWild
  | .descName t, v, _, h, _, _ => by
    cases h
    refine Sp.tok fun ht => ?_
    obtain ⟨n, hn, e⟩ := ht
    simp only at e
    subst e
    exact .descName hn
theorem segs_spell : ∀ (l : List PSegment) {v : List Segment}, segsOk true l → compileSegments l = some v → SegsTyped v → SegsFilled v →
    Sp0 (segsToks l) (Text true .segments · v)
  | [], v, _, h, _, _ => by
    cases h
    exact Sp0.nil .nil
  | x :: l, v, ho, h, ht, hf => by
    simp only [compileSegments, Option.bind_eq_some_iff, Option.map_eq_some_iff] at h
    obtain ⟨a, ha, b, hb, rfl⟩ := h
    refine ((seg_spells x ho.1 ha ht.1 hf.1).cat0 (segs_spell l ho.2 hb ht.2 hf.2)).to0 ?_
    rintro w _ hw ⟨_, _, rfl, h1, h2⟩
    exact .cons hw h1 h2
theorem or_spells : ∀ (x : PLogical) {v : Logical}, x.okOr true → x.compile = some v → CondTyped v → CondFilled v → Sp x.toks (Text true .logical · v)
  | .or f [], v, ho, h, ht, hf => by
    have ha : f.compile = some v := by simpa [PLogical.compile] using h
    have := and_spells f ho.1 ha ht hf
    rw [PLogical.toks, orsToks, List.append_nil]
    exact this.mono fun _ ht => .or1 (.oneOr ht)
  | .or f (y :: r), v, ho, h, ht, hf => by
    simp only [PLogical.compile, Option.bind_eq_some_iff, Option.map_eq_some_iff] at h
    obtain ⟨a, ha, b, hb, rfl⟩ := h
    have := ors_spell (y :: r) ho.2 hb ht.2 hf.2 (and_spells f ho.1 ha ht.1 hf.1)
    cases b with
    | nil =>
      simp only [compileLogicals, Option.bind_eq_some_iff, Option.map_eq_some_iff] at hb
      obtain ⟨_, _, _, _, h⟩ := hb
      cases h
    | cons c b => exact this.mono fun _ ht => .or2 ht
  | .and _ _, _, ho, _, _, _ => ho.elim
  | .paren _ _, _, ho, _, _, _ => ho.elim
  | .cmp _ _ _, _, ho, _, _, _ => ho.elim
  | .query _ _ _, _, ho, _, _, _ => ho.elim
  | .func _ _ _, _, ho, _, _, _ => ho.elim
theorem ors_spell : ∀ (l : List PLogical) {b : List Logical}, andsOk true l → compileLogicals l = some b → CondsTyped b → CondsFilled b →
    ∀ {k : List Tok} {a : Logical}, Sp k (Text true .conj · a) → Sp (k ++ orsToks l) (Text true .ors · (a :: b))
  | [], b, _, h, _, _, k, a, hk => by
    cases h
    rw [orsToks, List.append_nil]
    exact hk.mono fun _ ht => .oneOr ht
  | x :: l, b, ho, h, ht, hf, k, a, hk => by
    simp only [compileLogicals, Option.bind_eq_some_iff, Option.map_eq_some_iff] at h
    obtain ⟨v, hv, b, hb, rfl⟩ := h
    have hr := ors_spell l ho.2 hb ht.2 hf.2 (and_spells x ho.1 hv ht.1 hf.1)
    refine (hk.cat ((Sp.op b%"||").cat hr)).mono ?_
    rintro _ ⟨t, w, _, rfl, h1, hw, _, w', _, rfl, rfl, hw', h2⟩
    exact .moreOr h1 hw hw' h2
theorem and_spells : ∀ (x : PLogical) {v : Logical}, x.okAnd true → x.compile = some v → CondTyped v → CondFilled v → Sp x.toks (Text true .conj · v)
  | .and f [], v, ho, h, ht, hf => by
    have ha : f.compile = some v := by simpa [PLogical.compile] using h
    have := basic_spells f ho.1 ha ht hf
    rw [PLogical.toks, andsToks, List.append_nil]
    exact this.mono fun _ ht => .and1 (.oneAnd ht)
  | .and f (y :: r), v, ho, h, ht, hf => by
    simp only [PLogical.compile, Option.bind_eq_some_iff, Option.map_eq_some_iff] at h
    obtain ⟨a, ha, b, hb, rfl⟩ := h
    have := ands_spell (y :: r) ho.2 hb ht.2 hf.2 (basic_spells f ho.1 ha ht.1 hf.1)
    cases b with
    | nil =>
      simp only [compileLogicals, Option.bind_eq_some_iff, Option.map_eq_some_iff] at hb
      obtain ⟨_, _, _, _, h⟩ := hb
      cases h
    | cons c b => exact this.mono fun _ ht => .and2 ht
  | .or _ _, _, ho, _, _, _ => ho.elim
  | .paren _ _, _, ho, _, _, _ => ho.elim
  | .cmp _ _ _, _, ho, _, _, _ => ho.elim
  | .query _ _ _, _, ho, _, _, _ => ho.elim
  | .func _ _ _, _, ho, _, _, _ => ho.elim
theorem ands_spell : ∀ (l : List PLogical) {b : List Logical}, basicsOk true l → compileLogicals l = some b → CondsTyped b → CondsFilled b →
    ∀ {k : List Tok} {a : Logical}, Sp k (Text true .basic · a) → Sp (k ++ andsToks l) (Text true .ands · (a :: b))
  | [], b, _, h, _, _, k, a, hk => by
    cases h
    rw [andsToks, List.append_nil]
    exact hk.mono fun _ ht => .oneAnd ht
  | x :: l, b, ho, h, ht, hf, k, a, hk => by
    simp only [compileLogicals, Option.bind_eq_some_iff, Option.map_eq_some_iff] at h
    obtain ⟨v, hv, b, hb, rfl⟩ := h
    have hr := ands_spell l ho.2 hb ht.2 hf.2 (basic_spells x ho.1 hv ht.1 hf.1)
    refine (hk.cat ((Sp.op b%"&&").cat hr)).mono ?_
    rintro _ ⟨t, w, _, rfl, h1, hw, _, w', _, rfl, rfl, hw', h2⟩
    exact .moreAnd h1 hw hw' h2
theorem basic_spells : ∀ (x : PLogical) {v : Logical}, x.okBasic true → x.compile = some v → CondTyped v → CondFilled v → Sp x.toks (Text true .basic · v)
  | .paren n e, v, ho, h, ht, hf => by
    simp only [PLogical.compile, Option.map_eq_some_iff] at h
    obtain ⟨c, hc, rfl⟩ := h
    have main : CondTyped c → CondFilled c → Sp (opTok b%"(" :: (e.toks ++ [opTok b%")"]))
        (fun t => ∃ w t' w', t = b%"(" ++ (w ++ (t' ++ (w' ++ b%")"))) ∧ Blanks true w ∧ Text true .logical t' c ∧ Blanks true w') := by
      intro ht hf
      refine ((Sp.op b%"(").cat ((or_spells e ho hc ht hf).cat (Sp.op b%")"))).mono ?_
      rintro _ ⟨_, w, _, rfl, rfl, hw, t, w', _, rfl, h1, hw', rfl⟩
      exact ⟨w, t, w', rfl, hw, h1, hw'⟩
    cases n with
    | false =>
      refine (main ht hf).mono ?_
      rintro _ ⟨w, t, w', rfl, hw, h1, hw'⟩
      exact .paren hw h1 hw'
    | true =>
      refine ((Sp.op b%"!").cat (main ht hf)).mono ?_
      rintro _ ⟨_, v, _, rfl, rfl, hv, w, t, w', rfl, hw, h1, hw'⟩
      exact .notParen hv hw h1 hw'
  | .cmp l op r, v, ho, h, ht, hf => by
    simp only [PLogical.compile, Option.bind_eq_some_iff, Option.map_eq_some_iff] at h
    obtain ⟨a, ha, b, hb, rfl⟩ := h
    have hop : Sp [⟨.cmp, opText op⟩] (OpText · op) := Sp.tok fun _ => by cases op <;> constructor
    refine ((comparable_spells l ho.1 ha ht.1 hf.1).cat (hop.cat (comparable_spells r ho.2 hb ht.2 hf.2))).mono ?_
    rintro _ ⟨t, w, _, rfl, h1, hw, _, w', _, rfl, h2, hw', h3⟩
    exact .cmp h1 hw h2 hw' h3
  | .query n root segs, v, ho, h, ht, hf => by
    simp only [PLogical.compile, Option.map_eq_some_iff] at h
    obtain ⟨c, hc, rfl⟩ := h
    have hs : SegsTyped c ∧ SegsFilled c := by cases n <;> exact ⟨ht, hf⟩
    exact not_spells ((query_spells (segs_spell segs ho hc hs.1 hs.2)).mono fun _ ht => .testQuery (q := (root, c)) ht)
  | .func n name args, v, ho, h, ht, hf => by
    simp only [PLogical.compile, Option.some.injEq] at h
    subst h
    have hs : ∀ {c : Logical}, CondTyped (if n = true then .not c else c) → CondTyped c := by cases n <;> exact id
    have hs' : ∀ {c : Logical}, CondFilled (if n = true then .not c else c) → CondFilled c := by cases n <;> exact id
    replace ht := hs ht
    replace hf := hs' hf
    cases ha : compilePArgs args with
    | none =>
      rw [ha] at ht
      obtain ⟨ps, r, h1, -⟩ := ht
      exact (not_nil h1).elim
    | some vs =>
      rw [ha] at ht hf
      obtain ⟨ps, r, h1, -, h2⟩ := ht
      exact not_spells ((call_spells h1 (args_spell args ho ha h2 (no_logical h1) hf)).mono fun _ ht => .testCall (f := (name.dropLast, vs)) ht)
  | .or _ _, _, ho, _, _, _ => ho.elim
  | .and _ _, _, ho, _, _, _ => ho.elim
theorem comparable_spells : ∀ (x : PComparable) {v : Comparable}, x.ok true → x.compile = some v → ComparableTyped v → ComparableFilled v →
    Sp x.toks (Text true .comparable · v)
  | .lit l, v, _, h, _, _ => by
    simp only [PComparable.compile, Option.map_eq_some_iff] at h
    obtain ⟨c, hc, rfl⟩ := h
    exact (PLiteral.spells hc).mono fun _ ht => .lit ht
  | .sing ⟨root, segs⟩, v, _, h, _, _ => by
    simp only [PComparable.compile, PSingQuery.compile, Option.map_eq_some_iff] at h
    obtain ⟨_, ⟨c, hc, rfl⟩, rfl⟩ := h
    cases root with
    | false =>
      refine ((Sp.op b%"@").cat0 (sing_spells hc)).mono ?_
      rintro _ ⟨_, _, rfl, rfl, ht⟩
      exact .relSing ht
    | true =>
      refine ((Sp.op b%"$").cat0 (sing_spells hc)).mono ?_
      rintro _ ⟨_, _, rfl, rfl, ht⟩
      exact .absSing ht
  | .func name args, v, ho, h, ht, hf => by
    simp only [PComparable.compile, Option.some.injEq] at h
    subst h
    cases ha : compilePArgs args with
    | none =>
      rw [ha] at ht
      obtain ⟨ps, r, h1, -⟩ := ht
      exact (not_nil h1).elim
    | some vs =>
      rw [ha] at ht hf
      obtain ⟨ps, r, h1, -, h2⟩ := ht
      exact (call_spells h1 (args_spell args ho ha h2 (no_logical h1) hf)).mono fun _ ht => .call (f := (name.dropLast, vs)) ht
theorem arg_spells : ∀ (x : PArg) {v : Arg} {ty : FnType}, x.ok true → x.compile = some v → ArgTyped ty v → ty ≠ .logical → ArgFilled v →
    Sp x.toks (Text true .arg · v)
  | .lit l, v, ty, _, h, _, _, _ => by
    simp only [PArg.compile, Option.map_eq_some_iff] at h
    obtain ⟨c, hc, rfl⟩ := h
    exact (PLiteral.spells hc).mono fun _ ht => .argLit ht
  | .query root segs, v, ty, ho, h, ht, _, hf => by
    simp only [PArg.compile, Option.map_eq_some_iff] at h
    obtain ⟨c, hc, rfl⟩ := h
    have hs : SegsTyped c := by
      simp only [ArgTyped] at ht
      split at ht
      · exact singular_typed ht
      · exact ht
    exact (query_spells (segs_spell segs ho hc hs hf)).mono fun _ ht => .argQuery (q := (root, c)) ht
  | .logical e, v, ty, ho, h, ht, hl, hf => by
    simp only [PArg.compile, Option.map_eq_some_iff] at h
    obtain ⟨c, hc, rfl⟩ := h
    exact absurd ht.1 hl
  | .func name args, v, ty, ho, h, ht, _, hf => by
    simp only [PArg.compile, Option.some.injEq] at h
    subst h
    cases ha : compilePArgs args with
    | none =>
      rw [ha] at ht
      obtain ⟨ps, r, h1, -⟩ := ht
      exact (not_nil h1).elim
    | some vs =>
      rw [ha] at ht hf
      obtain ⟨ps, r, h1, -, h2⟩ := ht
      exact (call_spells h1 (args_spell args ho ha h2 (no_logical h1) hf)).mono fun _ ht => .argCall (f := (name.dropLast, vs)) ht
theorem args_spell : ∀ (l : List PArg) {vs : List Arg} {ps : List FnType}, argsOk true l → compilePArgs l = some vs → ArgsTyped ps vs →
    (∀ ty ∈ ps, ty ≠ .logical) → ArgsFilled vs → l = [] ∧ vs = [] ∨ Sp (argsToks l) (Text true .args · vs)
  | [], vs, ps, _, h, _, _, _ => by
    cases h
    exact .inl ⟨rfl, rfl⟩
  | x :: l, vs, ps, ho, h, ht, hl, hf => by
    simp only [compilePArgs, Option.bind_eq_some_iff, Option.map_eq_some_iff] at h
    obtain ⟨v, hv, b, hb, rfl⟩ := h
    cases ps with
    | nil => exact ht.elim
    | cons ty ps =>
      exact .inr (more_spell l ho.2 hb ht.2 (fun t ht => hl t (List.mem_cons_of_mem _ ht)) hf.2
        (arg_spells x ho.1 hv ht.1 (hl ty (by simp)) hf.1))
theorem more_spell : ∀ (l : List PArg) {b : List Arg} {ps : List FnType}, argsOk true l → compilePArgs l = some b → ArgsTyped ps b →
    (∀ ty ∈ ps, ty ≠ .logical) → ArgsFilled b → ∀ {k : List Tok} {a : Arg}, Sp k (Text true .arg · a) → Sp (k ++ restToks l) (Text true .args · (a :: b))
  | [], b, ps, _, h, _, _, _, k, a, hk => by
    cases h
    rw [restToks, List.append_nil]
    exact hk.mono fun _ ht => .oneArg ht
  | x :: l, b, ps, ho, h, ht, hl, hf, k, a, hk => by
    simp only [compilePArgs, Option.bind_eq_some_iff, Option.map_eq_some_iff] at h
    obtain ⟨v, hv, b, hb, rfl⟩ := h
    cases ps with
    | nil => exact ht.elim
    | cons ty ps =>
      have hr := more_spell l ho.2 hb ht.2 (fun t ht => hl t (List.mem_cons_of_mem _ ht)) hf.2
        (arg_spells x ho.1 hv ht.1 (hl ty (by simp)) hf.1)
      refine (hk.cat ((Sp.op b%",").cat hr)).mono ?_
      rintro _ ⟨t, w, _, rfl, h1, hw, _, w', _, rfl, rfl, hw', h2⟩
      exact .moreArgs h1 hw hw' h2
end

theorem Parser.many_ne_fail {α : Type} {p : Parser α} : ∀ {n : Nat} {s : List Tok}, many n p s ≠ .fail
  | 0, s => by intro h; cases h
  | n + 1, s => by
    unfold many Parser.or
    split
    · intro h; cases h
    · assumption

theorem pQuery_root {n : Nat} {l : List Tok} : pQuery n (opTok b%"$" :: l) ≠ .fail := Parser.many_ne_fail (p := pSegment n)

/-- What is read as a query is one, up to blanks around it. -/
theorem parseQuery_spelled {s : Bytes} {q : Query} (hu : IsUtf8 s) (h : parseQuery s = some q) (h0 : q.segs ≠ [] ∨ ∃ w t, Blanks true w ∧ s = w ++ (b%"$" ++ t))
    (ht : WellTyped q) (hf : SegsFilled q.segs) : ∃ w t w', s = w ++ (t ++ w') ∧ Blanks true w ∧ QueryText true t q ∧ Blanks true w' := by
  unfold parseQuery at h
  split at h
  · cases h
  · rename_i toks e
    have hl := lex_sound _ (Nat.le_refl _) hu e
    split at h
    · rename_i l e'
      obtain ⟨h1, h2⟩ := pQuery_sound hl.fine e'
      rw [List.append_nil] at h1
      simp only [compileTree, Option.map_eq_some_iff] at h
      obtain ⟨segs, hs, rfl⟩ := h
      rw [h1] at hl
      have := (Sp.op b%"$").cat0 (segs_spell l h2 hs ht hf)
      obtain ⟨w, t, s', rfl, hw, ⟨_, t', rfl, rfl, ht'⟩, hs'⟩ := this s [] (by simpa using hl)
      cases hs' with
      | nil hw' => exact ⟨w, _, _, rfl, hw, ⟨rfl, t', rfl, ht'⟩, hw'⟩
    · cases h
    · rename_i e'
      cases h
      exfalso
      rcases h0 with h0 | ⟨w, t, hw, rfl⟩
      · exact h0 rfl
      · rw [lex_blanks (blanks_isBlank hw)] at e
        have := lexes_op (v := b%"$") (by decide) (by decide) t trivial
        rw [this] at e
        obtain ⟨l, -, rfl⟩ := Option.map_eq_some_iff.1 e
        exact pQuery_root e'
    · cases h

end Verif.JPath
