import Verif.PathLexSplit
import Verif.PathUnparse
import Verif.QuotedLemmas
import Verif.QuerySpec

/-!
# The tokeniser finds the tokens of the grammar
-/

namespace Verif.JPath
open Rfc9535 Utf8 GoJson

/-- The tokens of a text, whatever follows it with the property `Q`. -/
def Lexes (Q : Bytes → Prop) (t : Bytes) (toks : List Tok) : Prop := ∀ rest, Q rest → lex (t ++ rest) = (lex rest).map (toks ++ ·)

/-- Bytes that can follow a literal. -/
def stopByte (b : Byte) : Bool := isBlank b || decide (b ∈ b%"]),:=!<>&|")

/-- Bytes that can follow a segment. -/
def stopSeg (b : Byte) : Bool := stopByte b || decide (b ∈ b%".[")

/-- What follows begins with one of these bytes. -/
def Fol (s : Bytes) : Prop := ∀ b r, s = b :: r → stopByte b = true
@[inherit_doc Fol] def FolSeg (s : Bytes) : Prop := ∀ b r, s = b :: r → stopSeg b = true

def Any (_ : Bytes) : Prop := True

/-- No equals sign follows. -/
def NoEq (s : Bytes) : Prop := ∀ r, s ≠ c%'=' :: r

theorem Fol.seg {s : Bytes} (h : Fol s) : FolSeg s := fun b r e => by simp [stopSeg, h b r e]

theorem Lexes.nil {Q : Bytes → Prop} : Lexes Q [] [] := fun rest _ => by simp

theorem Lexes.app {Q1 Q2 : Bytes → Prop} {t1 t2 : Bytes} {k1 k2 : List Tok} (h1 : Lexes Q1 t1 k1) (h2 : Lexes Q2 t2 k2)
    (hq : ∀ rest, Q2 rest → Q1 (t2 ++ rest)) : Lexes Q2 (t1 ++ t2) (k1 ++ k2) := by
  intro rest hr
  rw [List.append_assoc, h1 _ (hq rest hr), h2 _ hr]
  cases lex rest <;> simp

theorem Lexes.mono {Q1 Q2 : Bytes → Prop} {t : Bytes} {k : List Tok} (h : Lexes Q1 t k) (hq : ∀ rest, Q2 rest → Q1 rest) : Lexes Q2 t k :=
  fun rest hr => h rest (hq rest hr)

theorem blanks_isBlank {lax : Bool} {w : Bytes} (h : Blanks lax w) : ∀ b ∈ w, isBlank b = true := by
  intro b hb
  rcases h b hb with rfl | rfl | rfl | rfl | ⟨-, rfl⟩ <;> decide

theorem Lexes.blanks {lax : Bool} {w : Bytes} (h : Blanks lax w) : Lexes Any w [] := by
  intro rest _
  rw [lex_blanks (blanks_isBlank h)]
  cases lex rest <;> simp

theorem fol_blanks {lax : Bool} {w rest : Bytes} (h : Blanks lax w) (hr : Fol rest) : Fol (w ++ rest) := by
  intro b r e
  cases w with
  | nil => exact hr b r e
  | cons x w =>
    cases e
    simp [stopByte, blanks_isBlank h b (by simp)]

theorem folSeg_blanks {lax : Bool} {w rest : Bytes} (h : Blanks lax w) (hr : FolSeg rest) : FolSeg (w ++ rest) := by
  intro b r e
  cases w with
  | nil => exact hr b r e
  | cons x w =>
    cases e
    simp [stopSeg, stopByte, blanks_isBlank h b (by simp)]

theorem noEq_blanks {lax : Bool} {w rest : Bytes} (h : Blanks lax w) (hr : NoEq rest) : NoEq (w ++ rest) := by
  intro r e
  cases w with
  | nil => exact hr r e
  | cons x w =>
    cases e
    exact absurd (blanks_isBlank h c%'=' (by simp)) (by decide)

theorem fol_cons {b : Byte} {r : Bytes} (h : stopByte b = true) : Fol (b :: r) := fun _ _ e => by cases e; exact h

theorem folSeg_cons {b : Byte} {r : Bytes} (h : stopSeg b = true) : FolSeg (b :: r) := fun _ _ e => by cases e; exact h

/-- A token and what the lexer does with it. -/
theorem Lexes.tok {Q : Bytes → Prop} {t : Tok} (hb : ∀ b r, t.text = b :: r → isBlank b = false) (hn : t.text ≠ [])
    (h : ∀ rest, Q rest → firstDef tokDefs (t.text ++ rest) = some (t, rest)) : Lexes Q t.text [t] := by
  intro rest hr
  refine lex_tok (fun b s e => ?_) (h rest hr)
  cases ht : t.text with
  | nil => exact absurd ht hn
  | cons x l =>
    rw [ht] at e
    cases e
    exact hb _ _ ht

/-- The operators, but for the one that begins a longer operator. -/
theorem lexes_op {v : Bytes} (h : v ∈ ops) (hn : v ≠ b%"!") : Lexes Any v [opTok v] := by
  simp only [ops, List.mem_cons, List.not_mem_nil, or_false] at h
  rcases h with rfl | rfl | rfl | rfl | rfl | rfl | rfl | rfl | rfl | rfl | rfl | rfl | rfl | rfl | rfl | rfl
  all_goals first
    | exact absurd rfl hn
    | exact Lexes.tok (t := opTok _) (fun b r e => by cases e; decide) (by decide) fun rest _ => rfl

theorem lexes_not : Lexes NoEq b%"!" [opTok b%"!"] := by
  refine Lexes.tok (t := opTok _) (fun b r e => by cases e; decide) (by decide) fun rest hr => ?_
  cases rest with
  | nil => rfl
  | cons x rest =>
    have : (61 : Byte) ≠ x := by
      rintro rfl
      exact hr rest rfl
    simp [firstDef, tokDefs, lexWord, lexFunc, lexAny, lexName, List.isPrefixOf, cmpOps, ops, opTok, this, isLower]

theorem lexes_cmp {t : Bytes} {o : CmpOp} (h : OpText t o) : Lexes NoEq t [⟨.cmp, opText o⟩] := by
  cases h
  case lt =>
    refine Lexes.tok (t := ⟨.cmp, b%"<"⟩) (fun b r e => by cases e; decide) (by decide) fun rest hr => ?_
    cases rest with
    | nil => rfl
    | cons x rest =>
      have : (61 : Byte) ≠ x := by
        rintro rfl
        exact hr rest rfl
      simp [firstDef, tokDefs, lexWord, lexFunc, lexAny, List.isPrefixOf, cmpOps, this, isLower]
  case gt =>
    refine Lexes.tok (t := ⟨.cmp, b%">"⟩) (fun b r e => by cases e; decide) (by decide) fun rest hr => ?_
    cases rest with
    | nil => rfl
    | cons x rest =>
      have : (61 : Byte) ≠ x := by
        rintro rfl
        exact hr rest rfl
      simp [firstDef, tokDefs, lexWord, lexFunc, lexAny, List.isPrefixOf, cmpOps, this, isLower]
  all_goals exact Lexes.tok (t := ⟨.cmp, _⟩) (fun b r e => by cases e; decide) (by decide) fun rest _ => rfl

theorem lexes_func {n : Bytes} (h : n ∈ signatures.map Prod.fst) : Lexes Any (n ++ b%"(") [⟨.func, n ++ b%"("⟩] := by
  simp only [signatures, List.map_cons, List.map_nil, List.mem_cons, List.not_mem_nil, or_false] at h
  rcases h with rfl | rfl | rfl | rfl | rfl
  all_goals exact Lexes.tok (t := ⟨.func, _⟩) (fun b r e => by cases e; decide) (by decide) fun rest _ => rfl

set_option maxRecDepth 10000 in
theorem stopByte_facts {b : Byte} (h : stopByte b = true) :
    isWord b = false ∧ isDig b = false ∧ b ≠ c%'.' ∧ b ≠ c%'e' ∧ b ≠ c%'E' := by
  revert b
  apply forall_byte
  decide

set_option maxRecDepth 10000 in
theorem stopSeg_facts {b : Byte} (h : stopSeg b = true) : isNameChar b = false := by
  revert b
  apply forall_byte
  decide

theorem fol_boundary {s : Bytes} (h : Fol s) : boundary s = true := by
  cases s with
  | nil => rfl
  | cons b r => simp [boundary, (stopByte_facts (h b r rfl)).1]

theorem lexes_null : Lexes Fol b%"null" [⟨.null, b%"null"⟩] := by
  refine Lexes.tok (t := ⟨.null, _⟩) (fun b r e => by cases e; decide) (by decide) fun rest hr => ?_
  simp [firstDef, tokDefs, lexWord, fol_boundary hr, List.isPrefixOf]

theorem lexes_true : Lexes Fol b%"true" [⟨.bool, b%"true"⟩] := by
  refine Lexes.tok (t := ⟨.bool, _⟩) (fun b r e => by cases e; decide) (by decide) fun rest hr => ?_
  simp [firstDef, tokDefs, lexWord, fol_boundary hr, List.isPrefixOf]

theorem lexes_false : Lexes Fol b%"false" [⟨.bool, b%"false"⟩] := by
  refine Lexes.tok (t := ⟨.bool, _⟩) (fun b r e => by cases e; decide) (by decide) fun rest hr => ?_
  simp [firstDef, tokDefs, lexWord, fol_boundary hr, List.isPrefixOf]

/-! ## Numbers -/

/-- The definitions of numbers and strings. -/
def numDefs : List (TokKind × (Bytes → Option (Bytes × Bytes))) :=
  [(.int, lexInt), (.num, lexNum), (.double, lexStr c%'"'), (.single, lexStr c%'\'')]

set_option maxRecDepth 10000 in
theorem numByte_facts {b : Byte} (h : (isDig b || b == c%'-') = true) :
    isBlank b = false ∧ isLower b = false ∧ ∀ x ∈ b%"ntf=!<>.&|$*:?()@[],", x ≠ b := by
  revert b
  apply forall_byte
  decide

theorem firstDef_num {b : Byte} (s : Bytes) (h : (isDig b || b == c%'-') = true) : firstDef tokDefs (b :: s) = firstDef numDefs (b :: s) := by
  obtain ⟨-, h1, h2⟩ := numByte_facts h
  simp only [List.mem_cons, List.not_mem_nil, or_false, forall_eq_or_imp, forall_eq] at h2
  simp [firstDef, tokDefs, numDefs, lexWord, lexFunc, lexAny, lexName, List.isPrefixOf, cmpOps, ops, h1, h2]

theorem isDig_of_intPart {i : Bytes} (h : Rfc8259.IntPart i) : ∃ d ds, i = d :: ds ∧ isDig d = true ∧ (d = c%'0' → ds = []) ∧ ∀ x ∈ ds, Rfc8259.Digit x := by
  rcases h with rfl | ⟨d, ds, h1, h2, h3, rfl⟩
  · exact ⟨_, _, rfl, by decide, fun _ => rfl, fun x hx => by cases hx⟩
  · refine ⟨d, ds, rfl, isDig_iff.2 ⟨?_, h2⟩, ?_, h3⟩
    · rw [UInt8.le_iff_toNat_le] at h1 ⊢; simp at h1 ⊢; omega
    · rintro rfl; exact absurd h1 (by decide)

theorem lexWhole_ok {m i rest : Bytes} (hm : m = [] ∨ m = [0x2D]) (hi : Rfc8259.IntPart i) (hr : ∀ x r, rest = x :: r → isDig x = false) :
    lexWhole (m ++ i ++ rest) = some (m ++ i, rest) := by
  obtain ⟨d, ds, rfl, hd, h0, hds⟩ := isDig_of_intPart hi
  obtain ⟨t1, t2⟩ := take_digits hds hr
  have hne : d ≠ c%'-' := by rintro rfl; exact absurd hd (by decide)
  have main : ∀ m : Bytes, (if d = c%'0' then some (m ++ [d], ds ++ rest) else if isDig d = true then
      some (m ++ d :: (ds ++ rest).takeWhile isDig, (ds ++ rest).dropWhile isDig) else none) = some (m ++ d :: ds, rest) := by
    intro m
    split
    · rename_i h
      rw [h0 h]; rfl
    · simp only [if_pos hd, t1, t2]
  rcases hm with rfl | rfl
  · have := main []
    simp only [List.nil_append, List.cons_append, lexWhole, if_neg hne]
    exact this
  · have := main [0x2D]
    simp only [List.nil_append, List.cons_append, lexWhole, if_true]
    exact this

theorem intLit_parts {t : Bytes} {v : Int} (h : IntLit t v) : ∃ m i, (m = [] ∨ m = [0x2D]) ∧ Rfc8259.IntPart i ∧ t = m ++ i ∧ t ≠ b%"-0" := by
  have pos : ∀ {d : Byte}, Dig d → d ≠ 0x30 → (0x31 : Byte) ≤ d := by
    intro d h1 h2
    have h1 := h1.1
    rw [UInt8.le_iff_toNat_le] at h1 ⊢
    have : d.toNat ≠ 0x30 := fun e => h2 (by rw [← UInt8.toNat_inj]; exact e)
    simp at h1 ⊢
    omega
  cases h with
  | zero => exact ⟨[], [0x30], .inl rfl, .inl rfl, rfl, by decide⟩
  | @pos d ds h1 h2 h3 =>
    refine ⟨[], d :: ds, .inl rfl, .inr ⟨d, ds, pos h1 h2, h1.2, h3, rfl⟩, rfl, ?_⟩
    intro e
    cases e
    exact absurd h1.1 (by decide)
  | @neg d ds h1 h2 h3 =>
    refine ⟨[0x2D], d :: ds, .inr rfl, .inr ⟨d, ds, pos h1 h2, h1.2, h3, rfl⟩, rfl, ?_⟩
    intro e
    cases e
    exact h2 rfl

theorem fol_noDig {s : Bytes} (h : Fol s) : ∀ x r, s = x :: r → isDig x = false := fun x r e => (stopByte_facts (h x r e)).2.1

theorem num_head {m i : Bytes} (hm : m = [] ∨ m = [0x2D]) (hi : Rfc8259.IntPart i) (r : Bytes) :
    ∃ b s, m ++ i ++ r = b :: s ∧ (isDig b || b == c%'-') = true := by
  obtain ⟨d, ds, rfl, hd, -, -⟩ := isDig_of_intPart hi
  rcases hm with rfl | rfl
  · exact ⟨d, ds ++ r, rfl, by simp [hd]⟩
  · exact ⟨0x2D, d :: ds ++ r, rfl, by simp⟩

theorem lexInt_ok {m i rest : Bytes} (hm : m = [] ∨ m = [0x2D]) (hi : Rfc8259.IntPart i) (h0 : m ++ i ≠ b%"-0") (hr : Fol rest) :
    lexInt (m ++ i ++ rest) = some (m ++ i, rest) := by
  unfold lexInt
  rw [lexWhole_ok hm hi (fol_noDig hr)]
  simp only [if_neg h0]
  cases rest with
  | nil => rfl
  | cons b r =>
    obtain ⟨-, h1, h2, h3, h4⟩ := stopByte_facts (hr b r rfl)
    simp [h1, h2, h3, h4]

theorem lexes_whole {m i : Bytes} (hm : m = [] ∨ m = [0x2D]) (hi : Rfc8259.IntPart i) (h0 : m ++ i ≠ b%"-0") : Lexes Fol (m ++ i) [⟨.int, m ++ i⟩] := by
  obtain ⟨b, s, e, hb⟩ := num_head hm hi []
  rw [List.append_nil] at e
  refine Lexes.tok (t := ⟨.int, m ++ i⟩) (fun b' r e' => ?_) (by simp [e]) fun rest hr => ?_
  · simp only [e] at e'
    cases e'
    exact (numByte_facts hb).1
  · obtain ⟨b, s, e, hb⟩ := num_head hm hi rest
    simp only
    rw [e, firstDef_num s hb, ← e]
    simp only [numDefs, firstDef, lexInt_ok hm hi h0 hr]

theorem lexes_int {t : Bytes} {v : Int} (h : IntLit t v) : Lexes Fol t [⟨.int, t⟩] := by
  obtain ⟨m, i, hm, hi, rfl, h0⟩ := intLit_parts h
  exact lexes_whole hm hi h0

theorem lexFrac_ok {f rest : Bytes} (hf : f = [] ∨ Rfc8259.FracPart f) (hr : ∀ x r, rest = x :: r → isDig x = false ∧ x ≠ c%'.') :
    lexFrac (f ++ rest) = (f, rest) := by
  rcases hf with rfl | ⟨ds, hne, hd, rfl⟩
  · cases rest with
    | nil => rfl
    | cons b r => simp [lexFrac, (hr b r rfl).2]
  · obtain ⟨t1, t2⟩ := take_digits hd (fun x r e => (hr x r e).1)
    simp [lexFrac, t1, t2, hne]

theorem lexExp_ok {e rest : Bytes} (he : e = [] ∨ Rfc8259.ExpPart e) (hr : Fol rest) : lexExp (e ++ rest) = (e, rest) := by
  rcases he with rfl | ⟨x, s, ds, hx, hs, hne, hd, rfl⟩
  · cases rest with
    | nil => rfl
    | cons b r =>
      obtain ⟨-, -, -, h1, h2⟩ := stopByte_facts (hr b r rfl)
      simp [lexExp, h1, h2]
  · obtain ⟨t1, t2⟩ := take_digits hd (fol_noDig hr)
    have hsgn : lexSign (s ++ (ds ++ rest)) = (s, ds ++ rest) := by
      rcases hs with rfl | rfl | rfl
      · cases ds with
        | nil => exact absurd rfl hne
        | cons d ds =>
          have := hd d (by simp)
          have h1 : d ≠ c%'+' := by rintro rfl; exact absurd this.1 (by decide)
          have h2 : d ≠ c%'-' := by rintro rfl; exact absurd this.1 (by decide)
          simp [lexSign, h1, h2]
      · simp [lexSign]
      · simp [lexSign]
    simp [lexExp, List.append_assoc, hsgn, t1, t2, hne, hx]

/-- A number is one token, an `int` or a `number`. -/
theorem lexes_number {t : Bytes} (h : Rfc8259.Number t) : ∃ b, Lexes Fol t [(PLiteral.num b t).tok] := by
  obtain ⟨m, i, f, e, hm, hi, hf, he, rfl⟩ := h
  by_cases hint : f ++ e = [] ∧ m ++ i ≠ b%"-0"
  · refine ⟨true, ?_⟩
    rw [hint.1, List.append_nil]
    exact lexes_whole hm hi hint.2
  · refine ⟨false, ?_⟩
    have hp : m ++ (i ++ (f ++ e)) = m ++ i ++ (f ++ e) := by simp
    rw [hp]
    obtain ⟨b, s, e1, hb⟩ := num_head hm hi (f ++ e)
    refine Lexes.tok (t := ⟨.num, m ++ i ++ (f ++ e)⟩) (fun b' r e' => ?_) (by simp [e1]) fun rest hr => ?_
    · simp only [e1] at e'
      cases e'
      exact (numByte_facts hb).1
    · simp only
      have hd : ∀ x r, e ++ rest = x :: r → isDig x = false ∧ x ≠ c%'.' := by
        intro x r e2
        rcases he with rfl | ⟨y, s, ds, hy, -, -, -, rfl⟩
        · obtain ⟨-, h1, h2, -⟩ := stopByte_facts (hr x r e2)
          exact ⟨h1, h2⟩
        · cases e2
          rcases hy with rfl | rfl <;> decide
      have hd' : ∀ x r, f ++ (e ++ rest) = x :: r → isDig x = false := by
        intro x r e2
        rcases hf with rfl | ⟨ds, -, -, rfl⟩
        · exact (hd x r e2).1
        · cases e2; decide
      have hw := lexWhole_ok hm hi hd'
      have hi0 : lexInt (m ++ i ++ (f ++ (e ++ rest))) = none := by
        unfold lexInt
        rw [hw]
        simp only
        split
        · rfl
        · rename_i h0
          have hne : f ++ e ≠ [] := fun h => hint ⟨h, h0⟩
          rcases hf with rfl | ⟨ds, -, -, rfl⟩
          · rcases he with rfl | ⟨y, s, ds, hy, -, -, -, rfl⟩
            · exact absurd rfl hne
            · rcases hy with rfl | rfl <;> rfl
          · rfl
      have hn : lexNum (m ++ i ++ (f ++ (e ++ rest))) = some (m ++ i ++ (f ++ e), rest) := by
        unfold lexNum
        rw [hw]
        simp only [lexFrac_ok hf hd, lexExp_ok he hr, if_pos (fol_boundary hr)]
        simp
      obtain ⟨b, s, e1, hb⟩ := num_head hm hi (f ++ e ++ rest)
      have e2 : m ++ i ++ (f ++ e) ++ rest = m ++ i ++ (f ++ (e ++ rest)) := by simp
      rw [e2]
      rw [List.append_assoc f] at e1
      rw [e1, firstDef_num s hb, ← e1]
      simp only [numDefs, firstDef, hi0, hn]

/-! ## Names and strings -/

/-- The bytes of a member name. -/
theorem name_bytes {n : Bytes} (h : Name n) : ∃ b l, n = b :: l ∧ isNameFirst b = true ∧ ∀ x ∈ l, isNameChar x = true := by
  obtain ⟨r, cs, rfl, hr, hcs⟩ := h
  have us : ∀ {r}, NameChar r → UScalar r := by intro r h; unfold NameChar NameFirst at h; unfold UScalar; omega
  have high : ∀ b : Byte, 0x80 ≤ b → isNameFirst b = true := by intro b hb; simp [isNameFirst, hb]
  have low : ∀ r, r < 0x80 → NameFirst r → isNameFirst (UInt8.ofNat r) = true := by
    intro r h1 h2
    have e := ofNat_toNat (n := r) (by omega)
    simp only [isNameFirst, isLower, Bool.or_eq_true, Bool.and_eq_true, decide_eq_true_eq, beq_iff_eq, u8le, ← UInt8.toNat_inj, e]
    unfold NameFirst at h2
    simp
    omega
  have low' : ∀ r, r < 0x80 → NameChar r → isNameChar (UInt8.ofNat r) = true := by
    intro r h1 h2
    have e := ofNat_toNat (n := r) (by omega)
    rcases h2 with h2 | h2
    · simp [isNameChar, low r h1 h2]
    · simp only [isNameChar, isDig, Bool.or_eq_true, Bool.and_eq_true, decide_eq_true_eq, u8le, e]
      exact .inr (by simpa using h2)
  have all : ∀ r, NameChar r → ∀ x ∈ encode r, isNameChar x = true := by
    intro r h x hx
    by_cases hlt : r < 0x80
    · rw [encode_ascii hlt] at hx
      simp only [List.mem_singleton] at hx
      subst hx
      exact low' r hlt h
    · simp [isNameChar, high x (encode_high (us h) (by omega) x hx)]
  obtain ⟨b, l, e1, e2, e3⟩ := encode_head (us (.inl hr))
  refine ⟨b, l ++ cs.flatMap encode, by rw [e1]; rfl, ?_, ?_⟩
  · by_cases hlt : r < 0x80
    · rw [(e2 hlt).1]; exact low r hlt hr
    · exact high b (e3 (by omega))
  · intro x hx
    rcases List.mem_append.1 hx with hx | hx
    · exact all r (.inl hr) x (by rw [e1]; exact List.mem_cons_of_mem _ hx)
    · obtain ⟨c, hc, hx⟩ := List.mem_flatMap.1 hx
      exact all c (hcs c hc) x hx

theorem takeWhile_stop {p : Byte → Bool} {l r : Bytes} (h : ∀ x ∈ l, p x = true) (hr : ∀ b s, r = b :: s → p b = false) :
    (l ++ r).takeWhile p = l ∧ (l ++ r).dropWhile p = r := by
  induction l with
  | nil =>
    cases r with
    | nil => exact ⟨rfl, rfl⟩
    | cons b s => simp [List.takeWhile_cons, List.dropWhile_cons, hr b s rfl]
  | cons x l ih =>
    obtain ⟨h1, h2⟩ := ih fun y hy => h y (List.mem_cons_of_mem _ hy)
    simp [List.takeWhile_cons, List.dropWhile_cons, h x (by simp), h1, h2]

set_option maxRecDepth 10000 in
theorem nameFirst_dot {b : Byte} (h : isNameFirst b = true) : (c%'.' == b) = false := by
  revert b
  apply forall_byte
  decide

theorem lexes_dotName {n : Bytes} (h : Name n) : Lexes FolSeg (b%"." ++ n) [⟨.dotName, b%"." ++ n⟩] := by
  obtain ⟨b, l, rfl, hb, hl⟩ := name_bytes h
  refine Lexes.tok (t := ⟨.dotName, _⟩) (fun b r e => by cases e; decide) (by simp) fun rest hr => ?_
  obtain ⟨t1, t2⟩ := takeWhile_stop hl (fun x s e => stopSeg_facts (hr x s e))
  have h1 := nameFirst_dot hb
  simp [firstDef, tokDefs, lexWord, lexFunc, lexAny, lexName, List.isPrefixOf, cmpOps, isLower, h1, hb, t1, t2]

theorem lexes_descName {n : Bytes} (h : Name n) : Lexes FolSeg (b%".." ++ n) [⟨.descName, b%".." ++ n⟩] := by
  obtain ⟨b, l, rfl, hb, hl⟩ := name_bytes h
  refine Lexes.tok (t := ⟨.descName, _⟩) (fun b r e => by cases e; decide) (by simp) fun rest hr => ?_
  obtain ⟨t1, t2⟩ := takeWhile_stop hl (fun x s e => stopSeg_facts (hr x s e))
  simp [firstDef, tokDefs, lexWord, lexFunc, lexAny, lexName, List.isPrefixOf, cmpOps, isLower, hb, t1, t2]

set_option maxRecDepth 10000 in
/-- Four hexadecimal digits for a scalar value. -/
theorem hex4_scalar {h : Bytes} {n : Nat} (hh : Hex4 h n) (hu : UScalar n) : ∃ x y z w, h = [x, y, z, w] ∧ hexDigit x = true ∧ hexDigit y = true ∧
    hexDigit z = true ∧ hexDigit w = true ∧ (isD x = false ∨ isOct y = true) := by
  obtain ⟨x, y, z, w, x', y', z', w', rfl, ex, ey, ez, ew, rfl⟩ := hh
  obtain ⟨kx, lx⟩ := hexVal_digit ex
  obtain ⟨ky, ly⟩ := hexVal_digit ey
  obtain ⟨kz, lz⟩ := hexVal_digit ez
  obtain ⟨kw, lw⟩ := hexVal_digit ew
  refine ⟨x, y, z, w, rfl, kx, ky, kz, kw, ?_⟩
  cases hd : isD x with
  | false => exact .inl rfl
  | true =>
    have hd' : x = c%'D' ∨ x = c%'d' := by simpa [isD] using hd
    have h13 : x' = 13 := by rcases hd' with rfl | rfl <;> simpa [GoJson.hexVal] using ex.symm
    subst h13
    have hy : y' < 8 := by have := hu.2; omega
    have := hexVal_class (fun n => n < 8) (fun b => isOct b = true) (by decide) ey (by simpa using hy)
    exact .inr this

set_option maxRecDepth 10000 in
/-- Two times four hexadecimal digits for a pair of surrogates. -/
theorem hex4_high {h : Bytes} {n : Nat} (hh : Hex4 h n) (h1 : 0xD800 ≤ n) (h2 : n < 0xDC00) : ∃ x y z w, h = [x, y, z, w] ∧ isD x = true ∧
    y ∈ b%"89ABab" ∧ hexDigit z = true ∧ hexDigit w = true := by
  obtain ⟨x, y, z, w, x', y', z', w', rfl, ex, ey, ez, ew, rfl⟩ := hh
  obtain ⟨-, lx⟩ := hexVal_digit ex
  obtain ⟨-, ly⟩ := hexVal_digit ey
  obtain ⟨kz, lz⟩ := hexVal_digit ez
  obtain ⟨kw, lw⟩ := hexVal_digit ew
  exact ⟨x, y, z, w, rfl, hexVal_class (fun n => n == 13) (fun b => isD b = true) (by decide) ex (by simp; omega),
    hexVal_class (fun n => 8 ≤ n && n < 12) (fun b => b ∈ b%"89ABab") (by decide) ey (by simp; omega), kz, kw⟩

set_option maxRecDepth 10000 in
theorem hex4_low {h : Bytes} {n : Nat} (hh : Hex4 h n) (h1 : 0xDC00 ≤ n) (h2 : n < 0xE000) : ∃ x y z w, h = [x, y, z, w] ∧ isD x = true ∧
    y ∈ b%"CDEFcdef" ∧ hexDigit z = true ∧ hexDigit w = true := by
  obtain ⟨x, y, z, w, x', y', z', w', rfl, ex, ey, ez, ew, rfl⟩ := hh
  obtain ⟨-, lx⟩ := hexVal_digit ex
  obtain ⟨-, ly⟩ := hexVal_digit ey
  obtain ⟨kz, lz⟩ := hexVal_digit ez
  obtain ⟨kw, lw⟩ := hexVal_digit ew
  exact ⟨x, y, z, w, rfl, hexVal_class (fun n => n == 13) (fun b => isD b = true) (by decide) ex (by simp; omega),
    hexVal_class (fun n => 12 ≤ n) (fun b => b ∈ b%"CDEFcdef") (by decide) ey (by simp; omega), kz, kw⟩

/-- A character that is not a quote or a backslash. -/
theorem qchars_char {q : Byte} (hq : IsQuote q) {r : Nat} (h1 : 0x20 ≤ r) (h2 : UScalar r) (h3 : r ≠ q.toNat) (h4 : r ≠ 0x5C) {c : Bytes} (h : QChars q c) :
    QChars q (encode r ++ c) := by
  have hq' : q.toNat < 0x80 := by rcases hq with rfl | rfl <;> decide
  have : ∀ l : Bytes, (∀ b ∈ l, b ≠ q ∧ b ≠ 0x5C ∧ 0x20 ≤ b) → QChars q (l ++ c) := by
    intro l hl
    induction l with
    | nil => exact h
    | cons b l ih =>
      obtain ⟨k1, k2, k3⟩ := hl b (by simp)
      exact .char k1 k2 k3 (ih fun x hx => hl x (List.mem_cons_of_mem _ hx))
  refine this _ fun b hb => ?_
  by_cases hlt : b < 0x80
  · have e := mem_encode h2 hb hlt
    rw [e] at h1 h3 h4
    refine ⟨fun e => h3 (by rw [e]), fun e => h4 (by rw [e]; rfl), ?_⟩
    rw [u8le]
    simpa using h1
  · rw [u8lt] at hlt
    simp at hlt
    refine ⟨?_, ?_, ?_⟩
    · rintro rfl; omega
    · rintro rfl; exact absurd hlt (by decide)
    · rw [u8le]; simp; omega

theorem denotes_qchars {c s : Bytes} (h : Denotes c s) : QChars 0x22 c := by
  induction h with
  | nil => exact .nil
  | char h1 h2 h3 h4 _ ih => exact qchars_char (.inl rfl) h1 h2 (by simpa using h3) h4 ih
  | @esc e x c s he _ ih =>
    refine .esc ?_ ih
    simp only [Verif.escapes, List.mem_cons, Prod.mk.injEq, List.not_mem_nil, or_false] at he
    rcases he with ⟨rfl, -⟩ | ⟨rfl, -⟩ | ⟨rfl, -⟩ | ⟨rfl, -⟩ | ⟨rfl, -⟩ | ⟨rfl, -⟩ | ⟨rfl, -⟩ | ⟨rfl, -⟩ <;> decide
  | hex hh hu _ ih =>
    obtain ⟨x, y, z, w, rfl, h1, h2, h3, h4, h5⟩ := hex4_scalar hh hu
    exact .uni h1 h2 h3 h4 h5 ih
  | pair hh hh' h1 h2 h3 h4 _ ih =>
    obtain ⟨x, y, z, w, rfl, k1, k2, k3, k4⟩ := hex4_high hh h1 h2
    obtain ⟨x', y', z', w', rfl, k5, k6, k7, k8⟩ := hex4_low hh' h3 h4
    exact .pair k1 k2 k3 k4 k5 k6 k7 k8 ih

theorem single_qchars {c s : Bytes} (h : Single c s) : QChars 0x27 c := by
  induction h with
  | nil => exact .nil
  | char h1 h2 h3 h4 _ ih => exact qchars_char (.inr rfl) h1 h2 (by simpa using h3) h4 ih
  | @esc e x c s he _ ih =>
    refine .esc ?_ ih
    simp only [Rfc9535.escapes, List.mem_cons, Prod.mk.injEq, List.not_mem_nil, or_false] at he
    rcases he with ⟨rfl, -⟩ | ⟨rfl, -⟩ | ⟨rfl, -⟩ | ⟨rfl, -⟩ | ⟨rfl, -⟩ | ⟨rfl, -⟩ | ⟨rfl, -⟩ | ⟨rfl, -⟩ <;> decide
  | hex hh hu _ ih =>
    obtain ⟨x, y, z, w, rfl, h1, h2, h3, h4, h5⟩ := hex4_scalar hh hu
    exact .uni h1 h2 h3 h4 h5 ih
  | pair hh hh' h1 h2 h3 h4 _ ih =>
    obtain ⟨x, y, z, w, rfl, k1, k2, k3, k4⟩ := hex4_high hh h1 h2
    obtain ⟨x', y', z', w', rfl, k5, k6, k7, k8⟩ := hex4_low hh' h3 h4
    exact .pair k1 k2 k3 k4 k5 k6 k7 k8 ih

theorem lexes_str {t s : Bytes} (h : StrText t s) : ∃ x : PString, Lexes Any t [x.tok] ∧ x.compile = some s := by
  rcases h with ⟨c, rfl, h⟩ | ⟨c, rfl, h⟩
  · refine ⟨.double (c%'"' :: (c ++ [c%'"'])), ?_, unquote_denotes h⟩
    refine Lexes.tok (t := ⟨.double, _⟩) (fun b r e => by cases e; decide) (by simp) fun rest _ => ?_
    have e : (0x22 :: (c ++ [0x22])) ++ rest = 0x22 :: (c ++ 0x22 :: rest) := by simp
    have h1 : ∀ s, firstDef tokDefs (0x22 :: s) = firstDef [(.double, lexStr c%'"'), (.single, lexStr c%'\'')] (0x22 :: s) := fun s => rfl
    simp only
    rw [e, h1]
    simp [firstDef, lexStr, lexChars_complete (.inl rfl) (denotes_qchars h) rest]
  · refine ⟨.single (c%'\'' :: (c ++ [c%'\''])), ?_, parseSingle_ok h⟩
    refine Lexes.tok (t := ⟨.single, _⟩) (fun b r e => by cases e; decide) (by simp) fun rest _ => ?_
    have e : (0x27 :: (c ++ [0x27])) ++ rest = 0x27 :: (c ++ 0x27 :: rest) := by simp
    have h1 : ∀ s, firstDef tokDefs (0x27 :: s) = firstDef [(.single, lexStr c%'\'')] (0x27 :: s) := fun s => rfl
    simp only
    rw [e, h1]
    simp [firstDef, lexStr, lexChars_complete (.inr rfl) (single_qchars h) rest]

theorem lexes_lit {t : Bytes} {l : Literal} (h : LitText t l) : ∃ x : PLiteral, Lexes Fol t [x.tok] ∧ x.compile = some l := by
  cases h with
  | num h1 h2 =>
    obtain ⟨b, hb⟩ := lexes_number h1
    exact ⟨.num b t, hb, by simp [PLiteral.compile, number_ok h1, h2]⟩
  | str h =>
    obtain ⟨x, h1, h2⟩ := lexes_str h
    exact ⟨.str x, h1.mono fun _ _ => trivial, by simp [PLiteral.compile, h2]⟩
  | true => exact ⟨.bool true, lexes_true, rfl⟩
  | false => exact ⟨.bool false, lexes_false, rfl⟩
  | null => exact ⟨.null, lexes_null, rfl⟩

end Verif.JPath
