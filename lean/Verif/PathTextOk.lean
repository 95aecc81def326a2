import Verif.PathLexOk
import Verif.PathParseOk
import Verif.PathIntLemmas

/-!
# Texts of the grammar are read as what they denote
-/

namespace Verif.JPath
open Rfc9535 Utf8 GoJson

theorem Blanks.lax {lax : Bool} {w : Bytes} (h : Blanks lax w) : Blanks true w := by
  intro b hb
  rcases h b hb with h | h | h | h | ⟨-, h⟩
  · exact .inl h
  · exact .inr (.inl h)
  · exact .inr (.inr (.inl h))
  · exact .inr (.inr (.inr (.inl h)))
  · exact .inr (.inr (.inr (.inr ⟨rfl, h⟩)))

/-- The text begins with a byte that is not an equals sign. -/
def Starts (t : Bytes) : Prop := ∃ b r, t = b :: r ∧ b ≠ c%'='

theorem Starts.noEq {t : Bytes} (h : Starts t) (r : Bytes) : NoEq (t ++ r) := by
  obtain ⟨b, s, rfl, hb⟩ := h
  intro x e
  cases e
  exact hb rfl

theorem starts_cons {b : Byte} {r : Bytes} (h : b ≠ c%'=') : Starts (b :: r) := ⟨b, r, rfl, h⟩

/-- A byte that can follow, after blanks. -/
theorem fol_mid {lax : Bool} {w s rest : Bytes} {b : Byte} (h : Blanks lax w) (hb : stopByte b = true) : Fol ((w ++ ([b] ++ s)) ++ rest) := by
  rw [List.append_assoc]
  exact fol_blanks h (fol_cons hb)

theorem fol_end {lax : Bool} {w rest : Bytes} {b : Byte} (h : Blanks lax w) (hb : stopByte b = true) : Fol ((w ++ [b]) ++ rest) := by
  rw [List.append_assoc]
  exact fol_blanks h (fol_cons hb)

theorem lexes_sing {lax : Bool} {t : Bytes} {v : List SingSeg} (h : SingText lax t v) :
    ∃ l, Lexes Fol t (singToks l) ∧ (∀ rest, Fol rest → FolSeg (t ++ rest)) ∧ compileSingSegs l = some v := by
  induction h with
  | nil => exact ⟨[], Lexes.nil, fun _ h => h.seg, rfl⟩
  | @dot w n t l hw hn _ ih =>
    obtain ⟨l', h1, h2, h3⟩ := ih
    refine ⟨.dot (b%"." ++ n) :: l', ?_, ?_, by simp [compileSingSegs, PSingSeg.compile, h3]⟩
    · have := (Lexes.blanks hw).app ((lexes_dotName hn).app h1 h2) fun _ _ => trivial
      rw [List.append_assoc] at this
      exact this
    · intro rest _
      rw [List.append_assoc]
      exact folSeg_blanks hw (folSeg_cons (b := c%'.') (by decide))
  | @name w v n s v' t l hw _ hv hn hv' _ ih =>
    obtain ⟨l', h1, h2, h3⟩ := ih
    obtain ⟨x, hx, hc⟩ := lexes_str hn
    refine ⟨.bracket x :: l', ?_, ?_, by simp [compileSingSegs, PSingSeg.compile, h3, hc]⟩
    · have := (Lexes.blanks hw).app ((lexes_op (v := b%"[") (by decide) (by decide)).app ((Lexes.blanks hv).app (hx.app ((Lexes.blanks hv').app
        ((lexes_op (v := b%"]") (by decide) (by decide)).app h1 fun _ _ => trivial) fun _ _ => trivial) fun _ _ => trivial) fun _ _ => trivial)
          fun _ _ => trivial) fun _ _ => trivial
      exact this
    · intro rest _
      rw [List.append_assoc]
      exact folSeg_blanks hw (folSeg_cons (b := c%'[') (by decide))
  | @index w v n i v' t l hw _ hv hn hv' _ ih =>
    obtain ⟨l', h1, h2, h3⟩ := ih
    refine ⟨.index n :: l', ?_, ?_, by simp [compileSingSegs, PSingSeg.compile, h3, parseInt_lit hn.1, hn.2]⟩
    · have := (Lexes.blanks hw).app ((lexes_op (v := b%"[") (by decide) (by decide)).app ((Lexes.blanks hv).app ((lexes_int hn.1).app ((Lexes.blanks hv').app
        ((lexes_op (v := b%"]") (by decide) (by decide)).app h1 fun _ _ => trivial) fun _ _ => trivial) fun rest hr => fol_mid hv' (by decide)) fun _ _ => trivial)
          fun _ _ => trivial) fun _ _ => trivial
      exact this
    · intro rest _
      rw [List.append_assoc]
      exact folSeg_blanks hw (folSeg_cons (b := c%'[') (by decide))

theorem lexes_bound {lax : Bool} {t : Bytes} {v : Option Int} (h : BoundText lax t v) :
    ∃ l, Lexes Fol t (boundToks l) ∧ (∀ rest, Fol rest → (∀ w, Blanks lax w → Fol (w ++ (t ++ rest))) ∨ v ≠ none) ∧ compileBound l = some v := by
  cases h with
  | none => exact ⟨none, Lexes.nil, fun _ h => .inl fun w hw => fol_blanks hw h, rfl⟩
  | @some t i w h hw =>
    refine ⟨some t, ?_, fun _ _ => .inr (by simp), by simp [compileBound, parseInt_lit h.1, h.2]⟩
    exact (lexes_int h.1).app ((Lexes.blanks hw).mono fun _ _ => trivial) fun rest hr => fol_blanks hw hr

theorem lexes_step {lax : Bool} {t : Bytes} {v : Int} (h : StepText lax t v) :
    ∃ l, Lexes Fol t (stepToks l) ∧ (∀ rest, Fol rest → Fol (t ++ rest)) ∧ compileStep l = some v := by
  have colon := lexes_op (v := b%":") (by decide) (by decide)
  cases h with
  | none => exact ⟨none, Lexes.nil, fun _ h => h, rfl⟩
  | colon => exact ⟨some none, colon.mono fun _ _ => trivial, fun _ _ => fol_cons (by decide), rfl⟩
  | @some w t i hw h =>
    refine ⟨some (some t), ?_, fun _ _ => fol_cons (by decide), by simp [compileStep, parseInt_lit h.1, h.2]⟩
    exact colon.app ((Lexes.blanks hw).app (lexes_int h.1) fun _ _ => trivial) fun _ _ => trivial

theorem fol_cmp {t : Bytes} {o : CmpOp} (h : OpText t o) (r : Bytes) : Fol (t ++ r) := by
  cases h <;> exact fol_cons (by decide)

theorem starts_lit {t : Bytes} {l : Literal} (h : LitText t l) : Starts t := by
  cases h with
  | num h _ =>
    obtain ⟨m, i, f, e, hm, hi, -, -, rfl⟩ := h
    obtain ⟨b, s, h1, h2⟩ := num_head hm hi (f ++ e)
    rw [List.append_assoc] at h1
    rw [h1]
    exact starts_cons (by rintro rfl; exact absurd h2 (by decide))
  | str h => rcases h with ⟨c, rfl, -⟩ | ⟨c, rfl, -⟩ <;> exact starts_cons (by decide)
  | true => exact starts_cons (by decide)
  | false => exact starts_cons (by decide)
  | null => exact starts_cons (by decide)

theorem starts_func {n : Bytes} (h : n ∈ signatures.map Prod.fst) (r : Bytes) : Starts (n ++ r) := by
  simp only [signatures, List.map_cons, List.map_nil, List.mem_cons, List.not_mem_nil, or_false] at h
  rcases h with rfl | rfl | rfl | rfl | rfl <;> exact starts_cons (by decide)

/-- The tokens of a bracketed selection after the bracket. -/
def bodyToks (f : PSelector) (r : List PSelector) : List Tok := f.toks ++ (selsToks r ++ [opTok b%"]"])

/-- There is a parse tree of the text that has the tokens of the text and denotes the same. -/
def Reads : (p : Phrase) → Bytes → p.Tree → Prop
  | .segments, t, v => ∃ l, segsOk false l ∧ Lexes Fol t (segsToks l) ∧ (∀ rest, Fol rest → FolSeg (t ++ rest)) ∧ compileSegments l = some v
  | .segment, t, v => ∃ s : PSegment, s.ok false ∧ Lexes FolSeg t s.toks ∧ (∀ rest, FolSeg (t ++ rest)) ∧ s.compile = some v
  | .brackets, t, v => ∃ f r a b, PSelector.ok false f ∧ selsOk false r ∧ Lexes Any t (opTok b%"[" :: bodyToks f r) ∧
      Lexes Any (b%".." ++ t) (opTok b%"..[" :: bodyToks f r) ∧ (∀ rest, FolSeg (t ++ rest)) ∧ f.compile = some a ∧ compileSelectors r = some b ∧ v = a :: b
  | .selectors, t, v => ∃ f r a b, PSelector.ok false f ∧ selsOk false r ∧ Lexes Fol t (f.toks ++ selsToks r) ∧ f.compile = some a ∧
      compileSelectors r = some b ∧ v = a :: b
  | .selector, t, v => ∃ f : PSelector, f.ok false ∧ Lexes Fol t f.toks ∧ f.compile = some v
  | .logical, t, v => ∃ f : PLogical, f.okOr false ∧ Lexes Fol t f.toks ∧ f.compile = some v
  | .ors, t, v => ∃ (f : PLogical) (r : List PLogical) (a : Logical) (b : List Logical), f.okAnd false ∧ andsOk false r ∧ Lexes Fol t (f.toks ++ orsToks r) ∧
      f.compile = some a ∧ compileLogicals r = some b ∧ v = a :: b
  | .conj, t, v => ∃ f : PLogical, f.okAnd false ∧ Lexes Fol t f.toks ∧ f.compile = some v
  | .ands, t, v => ∃ (f : PLogical) (r : List PLogical) (a : Logical) (b : List Logical), f.okBasic false ∧ basicsOk false r ∧ Lexes Fol t (f.toks ++ andsToks r) ∧
      f.compile = some a ∧ compileLogicals r = some b ∧ v = a :: b
  | .basic, t, v => ∃ f : PLogical, f.okBasic false ∧ Lexes Fol t f.toks ∧ f.compile = some v
  | .test, t, v => ∃ (f : Bool → PLogical) (k : List Tok), (∀ n, (f n).okBasic false ∧ (f n).toks = notToks n ++ k ∧
      (f n).compile = some (if n then .not v else v)) ∧ Lexes Fol t k ∧ Starts t
  | .query, t, v => ∃ l, segsOk false l ∧ Lexes Fol t (rootTok v.1 :: segsToks l) ∧ compileSegments l = some v.2 ∧ Starts t
  | .comparable, t, v => ∃ f : PComparable, f.ok false ∧ Lexes Fol t f.toks ∧ f.compile = some v ∧ Starts t
  | .call, t, v => ∃ l, argsOk false l ∧ Lexes Any t (⟨.func, v.1 ++ b%"("⟩ :: (argsToks l ++ [opTok b%")"])) ∧ compilePArgs l = some v.2 ∧ Starts t
  | .args, t, v => ∃ a l, PArg.ok false a ∧ argsOk false l ∧ Lexes Fol t (a.toks ++ restToks l) ∧ compilePArgs (a :: l) = some v
  | .arg, t, v => ∃ f : PArg, f.ok false ∧ Lexes Fol t f.toks ∧ f.compile = some v

theorem text_reads {lax : Bool} {p : Phrase} {t : Bytes} {v : p.Tree} (h : Text lax p t v) : Reads p t v := by
  have op : ∀ {v : Bytes}, v ∈ ops → v ≠ b%"!" → Lexes Any v [opTok v] := lexes_op
  induction h with
  | nil => exact ⟨[], trivial, Lexes.nil, fun _ h => h.seg, rfl⟩
  | @cons w t s t' l hw _ _ ih1 ih2 =>
    obtain ⟨x, h1, h2, h3, h4⟩ := ih1
    obtain ⟨r, k1, k2, k3, k4⟩ := ih2
    refine ⟨x :: r, ⟨h1, k1⟩, ?_, ?_, by simp [compileSegments, h4, k4]⟩
    · exact (Lexes.blanks hw).app (h2.app k2 k3) fun _ _ => trivial
    · intro rest _
      rw [List.append_assoc, List.append_assoc]
      exact folSeg_blanks hw (h3 _)
  | child _ ih =>
    obtain ⟨f, r, a, b, h1, h2, h3, -, h4, h5, h6, rfl⟩ := ih
    exact ⟨.bracketed f r, ⟨h1, h2⟩, h3.mono fun _ _ => trivial, h4, by simp [PSegment.compile, h5, h6]⟩
  | dotWild => exact ⟨.dotWild, trivial, (op (by decide) (by decide)).mono fun _ _ => trivial, fun _ => folSeg_cons (by decide), rfl⟩
  | dotName h => exact ⟨.dotName _, trivial, lexes_dotName h, fun _ => folSeg_cons (b := c%'.') (by decide), rfl⟩
  | desc _ ih =>
    obtain ⟨f, r, a, b, h1, h2, -, h3, h4, h5, h6, rfl⟩ := ih
    exact ⟨.descBracketed f r, ⟨h1, h2⟩, h3.mono fun _ _ => trivial, fun _ => folSeg_cons (b := c%'.') (by decide), by simp [PSegment.compile, h5, h6]⟩
  | descWild => exact ⟨.descWild, trivial, (op (by decide) (by decide)).mono fun _ _ => trivial, fun _ => folSeg_cons (by decide), rfl⟩
  | descName h => exact ⟨.descName _, trivial, lexes_descName h, fun _ => folSeg_cons (b := c%'.') (by decide), rfl⟩
  | @brackets w t l w' hw _ hw' ih =>
    obtain ⟨f, r, a, b, h1, h2, h3, h4, h5, rfl⟩ := ih
    have body := (Lexes.blanks hw).app (h3.app ((Lexes.blanks hw').app (op (v := b%"]") (by decide) (by decide)) fun _ _ => trivial)
      fun rest _ => fol_end hw' (by decide)) fun _ _ => trivial
    have e : [] ++ ((f.toks ++ selsToks r) ++ ([] ++ [opTok b%"]"])) = bodyToks f r := by simp [bodyToks]
    rw [e] at body
    refine ⟨f, r, a, b, h1, h2, ?_, ?_, fun _ => folSeg_cons (b := c%'[') (by decide), h4, h5, rfl⟩
    · exact (op (v := b%"[") (by decide) (by decide)).app body fun _ _ => trivial
    · exact (op (v := b%"..[") (by decide) (by decide)).app body fun _ _ => trivial
  | oneSelector _ ih =>
    obtain ⟨f, h1, h2, h3⟩ := ih
    exact ⟨f, [], _, [], h1, trivial, by simpa [selsToks] using h2, h3, rfl, rfl⟩
  | @moreSelectors t s w w' t' l _ hw hw' _ ih1 ih2 =>
    obtain ⟨f, h1, h2, h3⟩ := ih1
    obtain ⟨g, r, a, b, k1, k2, k3, k4, k5, rfl⟩ := ih2
    refine ⟨f, g :: r, s, a :: b, h1, ⟨k1, k2⟩, ?_, h3, by simp [compileSelectors, k4, k5], rfl⟩
    exact h2.app ((Lexes.blanks hw).app ((op (v := b%",") (by decide) (by decide)).app ((Lexes.blanks hw').app k3 fun _ _ => trivial) fun _ _ => trivial)
      fun _ _ => trivial) fun rest _ => fol_mid hw (by decide)
  | name h =>
    obtain ⟨x, h1, h2⟩ := lexes_str h
    exact ⟨.name x, trivial, h1.mono fun _ _ => trivial, by simp [PSelector.compile, h2]⟩
  | wild => exact ⟨.wild, trivial, (op (by decide) (by decide)).mono fun _ _ => trivial, rfl⟩
  | index h => exact ⟨.index _, trivial, lexes_int h.1, by simp [PSelector.compile, parseInt_lit h.1, h.2]⟩
  | @slice t1 a w t2 b t3 c h1 hw h2 h3 =>
    obtain ⟨x, h1, -, h1'⟩ := lexes_bound h1
    obtain ⟨y, h2, -, h2'⟩ := lexes_bound h2
    obtain ⟨z, h3, h3f, h3'⟩ := lexes_step h3
    refine ⟨.slice x y z, trivial, ?_, by simp [PSelector.compile, h1', h2', h3']⟩
    exact h1.app ((op (v := b%":") (by decide) (by decide)).app ((Lexes.blanks hw).app (h2.app h3 h3f) fun _ _ => trivial) fun _ _ => trivial)
      fun _ _ => fol_cons (b := c%':') (by decide)
  | filter hw _ ih =>
    obtain ⟨f, h1, h2, h3⟩ := ih
    refine ⟨.filter f, h1, ?_, by simp [PSelector.compile, h3]⟩
    exact (op (v := b%"?") (by decide) (by decide)).app ((Lexes.blanks hw).app h2 fun _ _ => trivial) fun _ _ => trivial
  | or1 _ ih =>
    obtain ⟨f, r, a, b, h1, h2, h3, h4, h5, h6⟩ := ih
    cases h6
    cases r with
    | nil => exact ⟨.or f [], ⟨h1, h2⟩, h3, by simp [PLogical.compile, h4]⟩
    | cons x r =>
      simp only [compileLogicals, Option.bind_eq_some_iff, Option.map_eq_some_iff] at h5
      obtain ⟨_, _, _, _, h⟩ := h5
      cases h
  | or2 _ ih =>
    obtain ⟨f, r, a, b, h1, h2, h3, h4, h5, h6⟩ := ih
    cases h6
    cases r with
    | nil => cases h5
    | cons x r => exact ⟨.or f (x :: r), ⟨h1, h2⟩, h3, by simp [PLogical.compile, h4, h5]⟩
  | oneOr _ ih =>
    obtain ⟨f, h1, h2, h3⟩ := ih
    exact ⟨f, [], _, [], h1, trivial, by simpa [orsToks] using h2, h3, rfl, rfl⟩
  | @moreOr t s w w' t' l _ hw hw' _ ih1 ih2 =>
    obtain ⟨f, h1, h2, h3⟩ := ih1
    obtain ⟨g, r, a, b, k1, k2, k3, k4, k5, rfl⟩ := ih2
    refine ⟨f, g :: r, s, a :: b, h1, ⟨k1, k2⟩, ?_, h3, by simp [compileLogicals, k4, k5], rfl⟩
    exact h2.app ((Lexes.blanks hw).app ((op (v := b%"||") (by decide) (by decide)).app ((Lexes.blanks hw').app k3 fun _ _ => trivial) fun _ _ => trivial)
      fun _ _ => trivial) fun rest _ => fol_mid (s := c%'|' :: (w' ++ t')) hw (by decide)
  | and1 _ ih =>
    obtain ⟨f, r, a, b, h1, h2, h3, h4, h5, h6⟩ := ih
    cases h6
    cases r with
    | nil => exact ⟨.and f [], ⟨h1, h2⟩, h3, by simp [PLogical.compile, h4]⟩
    | cons x r =>
      simp only [compileLogicals, Option.bind_eq_some_iff, Option.map_eq_some_iff] at h5
      obtain ⟨_, _, _, _, h⟩ := h5
      cases h
  | and2 _ ih =>
    obtain ⟨f, r, a, b, h1, h2, h3, h4, h5, h6⟩ := ih
    cases h6
    cases r with
    | nil => cases h5
    | cons x r => exact ⟨.and f (x :: r), ⟨h1, h2⟩, h3, by simp [PLogical.compile, h4, h5]⟩
  | oneAnd _ ih =>
    obtain ⟨f, h1, h2, h3⟩ := ih
    exact ⟨f, [], _, [], h1, trivial, by simpa [andsToks] using h2, h3, rfl, rfl⟩
  | @moreAnd t s w w' t' l _ hw hw' _ ih1 ih2 =>
    obtain ⟨f, h1, h2, h3⟩ := ih1
    obtain ⟨g, r, a, b, k1, k2, k3, k4, k5, rfl⟩ := ih2
    refine ⟨f, g :: r, s, a :: b, h1, ⟨k1, k2⟩, ?_, h3, by simp [compileLogicals, k4, k5], rfl⟩
    exact h2.app ((Lexes.blanks hw).app ((op (v := b%"&&") (by decide) (by decide)).app ((Lexes.blanks hw').app k3 fun _ _ => trivial) fun _ _ => trivial)
      fun _ _ => trivial) fun rest _ => fol_mid (s := c%'&' :: (w' ++ t')) hw (by decide)
  | paren hw _ hw' ih =>
    obtain ⟨f, h1, h2, h3⟩ := ih
    refine ⟨.paren false f, h1, ?_, by simp [PLogical.compile, h3]⟩
    exact ((op (v := b%"(") (by decide) (by decide)).app ((Lexes.blanks hw).app (h2.app ((Lexes.blanks hw').app (op (v := b%")") (by decide) (by decide))
      fun _ _ => trivial) fun _ _ => fol_end hw' (by decide)) fun _ _ => trivial) fun _ _ => trivial).mono fun _ _ => trivial
  | notParen hv hw _ hw' ih =>
    obtain ⟨f, h1, h2, h3⟩ := ih
    refine ⟨.paren true f, h1, ?_, by simp [PLogical.compile, h3]⟩
    exact (lexes_not.app ((Lexes.blanks hv).app ((op (v := b%"(") (by decide) (by decide)).app ((Lexes.blanks hw).app (h2.app ((Lexes.blanks hw').app
      (op (v := b%")") (by decide) (by decide)) fun _ _ => trivial) fun _ _ => fol_end hw' (by decide)) fun _ _ => trivial) fun _ _ => trivial) fun _ _ => trivial)
        fun _ _ => by rw [List.append_assoc]; exact noEq_blanks hv ((starts_cons (b := c%'(') (by decide)).noEq _)).mono fun _ _ => trivial
  | @cmp t l w o op w' t' r _ hw ho hw' _ ih1 ih2 =>
    obtain ⟨f, h1, h2, h3, -⟩ := ih1
    obtain ⟨g, k1, k2, k3, k4⟩ := ih2
    refine ⟨.cmp f op g, ⟨h1, k1⟩, ?_, by simp [PLogical.compile, h3, k3]⟩
    exact h2.app ((Lexes.blanks hw).app ((lexes_cmp ho).app ((Lexes.blanks hw').app k2 fun _ _ => trivial)
      fun _ _ => by rw [List.append_assoc]; exact noEq_blanks hw' (k4.noEq _)) fun _ _ => trivial)
      fun _ _ => by rw [List.append_assoc, List.append_assoc]; exact fol_blanks hw (fol_cmp ho _)
  | test _ ih =>
    obtain ⟨f, k, h1, h2, -⟩ := ih
    obtain ⟨k1, k2, k3⟩ := h1 false
    refine ⟨f false, k1, ?_, k3⟩
    rw [k2]
    exact h2
  | notTest hw _ ih =>
    obtain ⟨f, k, h1, h2, h3⟩ := ih
    obtain ⟨k1, k2, k3⟩ := h1 true
    refine ⟨f true, k1, ?_, k3⟩
    rw [k2]
    exact lexes_not.app ((Lexes.blanks hw).app h2 fun _ _ => trivial) fun _ _ => by rw [List.append_assoc]; exact noEq_blanks hw (h3.noEq _)
  | @testQuery t q _ ih =>
    obtain ⟨l, h1, h2, h3, h4⟩ := ih
    exact ⟨fun n => .query n q.1 l, _, fun n => ⟨h1, by simp [PLogical.toks], by simp [PLogical.compile, h3]⟩, h2, h4⟩
  | @testCall t f _ ih =>
    obtain ⟨l, h1, h2, h3, h4⟩ := ih
    exact ⟨fun n => .func n (f.1 ++ b%"(") l, _, fun n => ⟨h1, by simp [PLogical.toks], by simp [PLogical.compile, h3]⟩, h2.mono fun _ _ => trivial, h4⟩
  | rel _ ih =>
    obtain ⟨l, h1, h2, h3, h4⟩ := ih
    exact ⟨l, h1, (op (v := b%"@") (by decide) (by decide)).app h2 fun _ _ => trivial, h4, starts_cons (by decide)⟩
  | abs _ ih =>
    obtain ⟨l, h1, h2, h3, h4⟩ := ih
    exact ⟨l, h1, (op (v := b%"$") (by decide) (by decide)).app h2 fun _ _ => trivial, h4, starts_cons (by decide)⟩
  | lit h =>
    obtain ⟨x, h1, h2⟩ := lexes_lit h
    exact ⟨.lit x, trivial, h1, by simp [PComparable.compile, h2], starts_lit h⟩
  | relSing h =>
    obtain ⟨l, h1, -, h2⟩ := lexes_sing h
    exact ⟨.sing ⟨false, l⟩, trivial, (op (v := b%"@") (by decide) (by decide)).app h1 fun _ _ => trivial,
      by simp [PComparable.compile, PSingQuery.compile, h2], starts_cons (by decide)⟩
  | absSing h =>
    obtain ⟨l, h1, -, h2⟩ := lexes_sing h
    exact ⟨.sing ⟨true, l⟩, trivial, (op (v := b%"$") (by decide) (by decide)).app h1 fun _ _ => trivial,
      by simp [PComparable.compile, PSingQuery.compile, h2], starts_cons (by decide)⟩
  | @call t f _ ih =>
    obtain ⟨l, h1, h2, h3, h4⟩ := ih
    exact ⟨.func (f.1 ++ b%"(") l, h1, h2.mono fun _ _ => trivial, by simp [PComparable.compile, h3], h4⟩
  | @noArgs n w hn hw =>
    refine ⟨[], trivial, ?_, rfl, starts_func hn _⟩
    have := (lexes_func hn).app ((Lexes.blanks hw).app (op (v := b%")") (by decide) (by decide)) fun _ _ => trivial) fun _ _ => trivial
    rw [List.append_assoc] at this
    exact this
  | @withArgs n w t l w' hn hw _ hw' ih =>
    obtain ⟨a, r, h1, h2, h3, h4⟩ := ih
    refine ⟨a :: r, ⟨h1, h2⟩, ?_, h4, starts_func hn _⟩
    have := (lexes_func hn).app ((Lexes.blanks hw).app (h3.app ((Lexes.blanks hw').app (op (v := b%")") (by decide) (by decide)) fun _ _ => trivial)
      fun _ _ => fol_end hw' (by decide)) fun _ _ => trivial) fun _ _ => trivial
    rw [List.append_assoc] at this
    exact this
  | oneArg _ ih =>
    obtain ⟨f, h1, h2, h3⟩ := ih
    exact ⟨f, [], h1, trivial, by simpa [restToks] using h2, by simp [compilePArgs, h3]⟩
  | @moreArgs t s w w' t' l _ hw hw' _ ih1 ih2 =>
    obtain ⟨f, h1, h2, h3⟩ := ih1
    obtain ⟨g, r, k1, k2, k3, k4⟩ := ih2
    refine ⟨f, g :: r, h1, ⟨k1, k2⟩, ?_, by rw [compilePArgs, h3]; simp [k4]⟩
    exact h2.app ((Lexes.blanks hw).app ((op (v := b%",") (by decide) (by decide)).app ((Lexes.blanks hw').app k3 fun _ _ => trivial) fun _ _ => trivial)
      fun _ _ => trivial) fun rest _ => fol_mid hw (by decide)
  | argLit h =>
    obtain ⟨x, h1, h2⟩ := lexes_lit h
    exact ⟨.lit x, trivial, h1, by simp [PArg.compile, h2]⟩
  | @argQuery t q _ ih =>
    obtain ⟨l, h1, h2, h3, -⟩ := ih
    exact ⟨.query q.1 l, h1, h2, by simp [PArg.compile, h3]⟩
  | @argCall t f _ ih =>
    obtain ⟨l, h1, h2, h3, -⟩ := ih
    exact ⟨.func (f.1 ++ b%"(") l, h1, h2.mono fun _ _ => trivial, by simp [PArg.compile, h3]⟩

/-- Queries are read as what they denote, also with blanks around them. -/
theorem parseQuery_ok {lax : Bool} {s : Bytes} {q : Query} (h : QueryText lax s q) {w w' : Bytes} (hw : Blanks lax w) (hw' : Blanks lax w') :
    parseQuery (w ++ (s ++ w')) = some q := by
  obtain ⟨root, segs⟩ := q
  obtain ⟨rfl, t, rfl, ht⟩ := h
  obtain ⟨l, h1, h2, -, h3⟩ := text_reads ht
  have hlex : lex (w ++ ((b%"$" ++ t) ++ w')) = some (opTok b%"$" :: segsToks l) := by
    have := ((Lexes.blanks hw).app ((lexes_op (v := b%"$") (by decide) (by decide)).app h2 fun _ _ => trivial) fun _ _ => trivial) w' ?_
    · have hn : lex w' = some [] := by
        have := lex_blanks (blanks_isBlank hw') []
        rwa [List.append_nil, lex_nil] at this
      rw [hn] at this
      rw [List.append_assoc] at this
      rw [this]
      simp
    · have := fol_blanks hw' (rest := []) fun _ _ e => by cases e
      rwa [List.append_nil] at this
  unfold parseQuery
  rw [hlex]
  simp only
  rw [pQuery_runs l h1]
  simp only [compileTree, h3, Option.map_some]

end Verif.JPath
