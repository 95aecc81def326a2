import Verif.PathTame
import Verif.QuerySpec

/-!
# A class of queries with filters, by their shape

`shapeSegs` is `tameSegs` without what holds of all texts of the grammar: integers are in the range of I-JSON, strings consist of characters, and numbers are
of type `float64`.
-/

set_option linter.unusedSimpArgs false

namespace Verif.JPath
open Rfc9535 GoJson Utf8

/-! ## Literals and integers -/

mutual
/-- Literals are as in `LitTame`, and integers are in the range of I-JSON. -/
def fineSel : Selector → Prop
  | .index i => IJson i
  | .slice a b c => (∀ x, a = some x → IJson x) ∧ (∀ x, b = some x → IJson x) ∧ IJson c
  | .filter c => fineCond c
  | _ => True
@[inherit_doc fineSel] def fineSels : List Selector → Prop
  | [] => True
  | s :: l => fineSel s ∧ fineSels l
@[inherit_doc fineSel] def fineSeg : Segment → Prop
  | .mk _ sels => fineSels sels
@[inherit_doc fineSel] def fineSegs : List Segment → Prop
  | [] => True
  | s :: l => fineSeg s ∧ fineSegs l
@[inherit_doc fineSel] def fineCond : Logical → Prop
  | .or l => fineConds l
  | .and l => fineConds l
  | .not c => fineCond c
  | .cmp l _ r => fineComp l ∧ fineComp r
  | .query _ segs => fineSegs segs
  | .func _ args => fineArgs args
@[inherit_doc fineSel] def fineConds : List Logical → Prop
  | [] => True
  | s :: l => fineCond s ∧ fineConds l
@[inherit_doc fineSel] def fineComp : Comparable → Prop
  | .lit l => LitTame l
  | .sing q => ∀ i, .index i ∈ q.segs → IJson i
  | .func _ args => fineArgs args
@[inherit_doc fineSel] def fineArg : Arg → Prop
  | .lit l => LitTame l
  | .query _ segs => fineSegs segs
  | .logical c => fineCond c
  | .func _ args => fineArgs args
@[inherit_doc fineSel] def fineArgs : List Arg → Prop
  | [] => True
  | a :: l => fineArg a ∧ fineArgs l
end

/-- The same for what a phrase denotes. -/
def fine : (p : Phrase) → p.Tree → Prop
  | .segments, x => fineSegs x
  | .segment, x => fineSeg x
  | .brackets, x => fineSels x
  | .selectors, x => fineSels x
  | .selector, x => fineSel x
  | .logical, x => fineCond x
  | .ors, x => fineConds x
  | .conj, x => fineCond x
  | .ands, x => fineConds x
  | .basic, x => fineCond x
  | .test, x => fineCond x
  | .query, x => fineSegs x.2
  | .comparable, x => fineComp x
  | .call, x => fineArgs x.2
  | .args, x => fineArgs x
  | .arg, x => fineArg x

theorem single_chars {c s : Bytes} (h : Rfc9535.Single c s) : ∃ cs, Chars s cs := by
  induction h with
  | nil => exact ⟨[], .nil⟩
  | char _ h2 _ _ _ ih => obtain ⟨cs, h⟩ := ih; exact ⟨_, .cons h2 h⟩
  | @esc e x c s h1 _ ih =>
    obtain ⟨cs, h⟩ := ih
    have hx : x.toNat < 0x80 := by
      simp only [Rfc9535.escapes, Verif.escapes, List.mem_cons, Prod.mk.injEq, List.not_mem_nil, or_false] at h1
      rcases h1 with h | h | h | h | h | h | h | h <;> (rw [h.2]; decide)
    have hu : UScalar x.toNat := by unfold UScalar; omega
    have he : encode x.toNat = [x] := by
      unfold encode; rw [if_pos hx]; simp
    have := Chars.cons hu h
    rw [he] at this
    exact ⟨_, this⟩
  | hex _ h2 _ ih => obtain ⟨cs, h⟩ := ih; exact ⟨_, .cons h2 h⟩
  | @pair h n h' n' c s h1 h2 h3 h4 h5 h6 _ ih =>
    obtain ⟨cs, h⟩ := ih
    refine ⟨_, .cons ?_ h⟩
    unfold UScalar
    omega

theorem strText_chars {t s : Bytes} (h : StrText t s) : ∃ cs, Chars s cs := by
  rcases h with ⟨c, -, h⟩ | ⟨c, -, h⟩
  · exact h.chars
  · exact single_chars h

theorem litText_tame {t : Bytes} {l : Literal} (h : LitText t l) : LitTame l := by
  cases h with
  | num _ h => exact (F64.round_iff.1 h).2.1
  | str h => exact strText_chars h
  | _ => trivial

theorem singText_fine {lax : Bool} {t : Bytes} {l : List SingSeg} (h : SingText lax t l) : ∀ i, .index i ∈ l → IJson i := by
  induction h with
  | nil => intro i h; cases h
  | dot _ _ _ ih => intro i h; rcases List.mem_cons.1 h with h | h; · cases h
                    exact ih i h
  | name _ _ _ _ _ _ ih => intro i h; rcases List.mem_cons.1 h with h | h; · cases h
                           exact ih i h
  | index _ _ _ h1 _ _ ih => intro i h; rcases List.mem_cons.1 h with h | h; · cases h; exact h1.2
                             exact ih i h

theorem bound_fine {lax : Bool} {t : Bytes} {a : Option Int} (h : BoundText lax t a) : ∀ x, a = some x → IJson x := by
  cases h with
  | none => intro x h; cases h
  | some h _ => intro x e; cases e; exact h.2

theorem step_fine {lax : Bool} {t : Bytes} {c : Int} (h : StepText lax t c) : IJson c := by
  cases h with
  | none => unfold IJson; omega
  | colon => unfold IJson; omega
  | some _ h => exact h.2

/-- Texts of the grammar. -/
theorem text_fine {lax : Bool} {p : Phrase} {t : Bytes} {x : p.Tree} (h : Text lax p t x) : fine p x := by
  induction h with
  | nil => simp [fine, fineSegs]
  | cons _ _ _ h1 h2 => simp only [fine, fineSegs] at *; exact ⟨h1, h2⟩
  | child _ h => simp only [fine, fineSeg] at *; exact h
  | dotWild => simp [fine, fineSeg, fineSels, fineSel]
  | dotName _ => simp [fine, fineSeg, fineSels, fineSel]
  | desc _ h => simp only [fine, fineSeg] at *; exact h
  | descWild => simp [fine, fineSeg, fineSels, fineSel]
  | descName _ => simp [fine, fineSeg, fineSels, fineSel]
  | brackets _ _ _ h => exact h
  | oneSelector _ h => simp only [fine, fineSels] at *; exact ⟨h, trivial⟩
  | moreSelectors _ _ _ _ h1 h2 => simp only [fine, fineSels] at *; exact ⟨h1, h2⟩
  | name _ => simp [fine, fineSel]
  | wild => simp [fine, fineSel]
  | index h => simp only [fine, fineSel]; exact h.2
  | slice h1 _ h2 h3 => simp only [fine, fineSel]; exact ⟨bound_fine h1, bound_fine h2, step_fine h3⟩
  | filter _ _ h => simp only [fine, fineSel] at *; exact h
  | or1 _ h => simp only [fine, fineConds] at *; exact h.1
  | or2 _ h => simp only [fine, fineCond] at *; exact h
  | oneOr _ h => simp only [fine, fineConds] at *; exact ⟨h, trivial⟩
  | moreOr _ _ _ _ h1 h2 => simp only [fine, fineConds] at *; exact ⟨h1, h2⟩
  | and1 _ h => simp only [fine, fineConds] at *; exact h.1
  | and2 _ h => simp only [fine, fineCond] at *; exact h
  | oneAnd _ h => simp only [fine, fineConds] at *; exact ⟨h, trivial⟩
  | moreAnd _ _ _ _ h1 h2 => simp only [fine, fineConds] at *; exact ⟨h1, h2⟩
  | paren _ _ _ h => exact h
  | notParen _ _ _ _ h => simp only [fine, fineCond] at *; exact h
  | cmp _ _ _ _ _ h1 h2 => simp only [fine, fineCond] at *; exact ⟨h1, h2⟩
  | test _ h => exact h
  | notTest _ _ h => simp only [fine, fineCond] at *; exact h
  | testQuery _ h => simp only [fine, fineCond] at *; exact h
  | testCall _ h => simp only [fine, fineCond] at *; exact h
  | rel _ h => exact h
  | abs _ h => exact h
  | lit h => simp only [fine, fineComp]; exact litText_tame h
  | relSing h => simp only [fine, fineComp]; exact singText_fine h
  | absSing h => simp only [fine, fineComp]; exact singText_fine h
  | call _ h => simp only [fine, fineComp] at *; exact h
  | noArgs _ _ => simp [fine, fineArgs]
  | withArgs _ _ _ _ h => exact h
  | oneArg _ h => simp only [fine, fineArgs] at *; exact ⟨h, trivial⟩
  | moreArgs _ _ _ _ h1 h2 => simp only [fine, fineArgs] at *; exact ⟨h1, h2⟩
  | argLit h => simp only [fine, fineArg]; exact litText_tame h
  | argQuery _ h => simp only [fine, fineArg] at *; exact h
  | argCall _ h => simp only [fine, fineArg] at *; exact h

/-! ## Shapes -/

/-- The first argument of `match` and `search`: a string, or a relative singular query. -/
def SubjectShape : Arg → Prop
  | .lit (.str _) => True
  | .query false segs => (asSingular segs).isSome = true
  | _ => False

section
variable (P : Bool → Bytes → Prop) (coll : Prop)

/-- A test with `match` (`P true` are the patterns) or `search` (`P false`), and a pattern that is a literal. -/
def TestShape (name : Bytes) (args : List Arg) : Prop :=
  ∃ whole a p, name = (if whole then b%"match" else b%"search") ∧ args = [a, .lit (.str p)] ∧ SubjectShape a ∧ P whole p

mutual
/-- Selectors: slices go forward, by steps only from an index that is not negative. -/
def shapeSel : Selector → Prop
  | .slice a _ c => 0 ≤ c ∧ (c ≤ 1 ∨ ∀ x, a = some x → 0 ≤ x)
  | .filter c => shapeCond c
  | _ => True
/-- Lists of selectors. -/
def shapeSels : List Selector → Prop
  | [] => True
  | s :: l => shapeSel s ∧ shapeSels l
/-- A segment. -/
def shapeSeg : Segment → Prop
  | .mk _ sels => shapeSels sels
/-- Segments. -/
def shapeSegs : List Segment → Prop
  | [] => True
  | s :: l => shapeSeg s ∧ shapeSegs l
/-- Conditions: rooted queries only if it is known that the input consists of arrays and objects (`coll`). -/
def shapeCond : Logical → Prop
  | .or l => shapeConds l
  | .and l => shapeConds l
  | .not c => shapeCond c
  | .cmp a _ b => shapeComp a ∧ shapeComp b
  | .query r segs => shapeSegs segs ∧ if r then coll else ∀ s ∈ segs, s.Single
  | .func name args => TestShape P name args
/-- Lists of conditions. -/
def shapeConds : List Logical → Prop
  | [] => True
  | c :: l => shapeCond c ∧ shapeConds l
/-- Comparables: literals, relative singular queries, `count`. -/
def shapeComp : Comparable → Prop
  | .lit _ => True
  | .sing q => q.root = false
  | .func name args => name = b%"count" ∧ args.length = 1 ∧ shapeArgs args
/-- Arguments of `count`. -/
def shapeArgs : List Arg → Prop
  | [] => True
  | a :: l => shapeArg a ∧ shapeArgs l
/-- An argument of `count`: child segments with one selector, which is not a slice. -/
def shapeArg : Arg → Prop
  | .query r segs => (r = true → coll) ∧ shapeSegs segs ∧ ∀ s ∈ segs, s.Few
  | _ => False
end

end

section
variable {P : Bool → Bytes → Prop} {coll : Prop}

theorem singular_fine {segs : List Segment} : ∀ {ss : List SingSeg}, asSingular segs = some ss → fineSegs segs → ∀ i, .index i ∈ ss → IJson i := by
  induction segs with
  | nil => intro ss h _ i hi; simp only [asSingular, Option.some.injEq] at h; subst h; cases hi
  | cons s segs ih =>
    obtain ⟨desc, sels⟩ := s
    intro ss h hf i hi
    rw [fineSegs, fineSeg] at hf
    simp only [asSingular] at h
    split at h
    · cases h
    · split at h
      · obtain ⟨l, h1, rfl⟩ := Option.map_eq_some_iff.1 h
        rcases List.mem_cons.1 hi with hi | hi
        · cases hi
        · exact ih h1 hf.2 i hi
      · obtain ⟨l, h1, rfl⟩ := Option.map_eq_some_iff.1 h
        rcases List.mem_cons.1 hi with hi | hi
        · cases hi
          have := hf.1
          rw [fineSels, fineSel] at this
          exact this.1
        · exact ih h1 hf.2 i hi
      · cases h

theorem test_tame {name : Bytes} {args : List Arg} (hf : fineArgs args) (h : TestShape P name args) : TestTame P name args := by
  obtain ⟨whole, a, p, rfl, rfl, h1, h2⟩ := h
  rw [fineArgs, fineArgs, fineArg] at hf
  refine ⟨whole, a, p, rfl, rfl, ?_, hf.2.1, h2⟩
  match a, h1, hf.1 with
  | .lit (.str s), _, hf => rw [fineArg] at hf; exact hf
  | .query false segs, h1, hf =>
    rw [fineArg] at hf
    obtain ⟨ss, e⟩ := Option.isSome_iff_exists.1 h1
    exact ⟨ss, e, singular_fine e hf⟩

mutual
theorem shapeSel_tame : ∀ s : Selector, fineSel s → shapeSel P coll s → tameSel P coll s
  | .name _, _, _ => by rw [tameSel]; trivial
  | .wild, _, _ => by rw [tameSel]; trivial
  | .index i, h, _ => by rw [fineSel] at h; rw [tameSel]; exact h
  | .slice a b c, h, h' => by rw [fineSel] at h; rw [shapeSel] at h'; rw [tameSel]; exact ⟨h.1, h.2.1, h.2.2, h'.1, h'.2⟩
  | .filter c, h, h' => by rw [fineSel] at h; rw [shapeSel] at h'; rw [tameSel]; exact shapeCond_tame c h h'
theorem shapeSels_tame : ∀ l : List Selector, fineSels l → shapeSels P coll l → tameSels P coll l
  | [], _, _ => by rw [tameSels]; trivial
  | s :: l, h, h' => by rw [fineSels] at h; rw [shapeSels] at h'; rw [tameSels]; exact ⟨shapeSel_tame s h.1 h'.1, shapeSels_tame l h.2 h'.2⟩
theorem shapeSeg_tame : ∀ s : Segment, fineSeg s → shapeSeg P coll s → tameSeg P coll s
  | .mk d sels, h, h' => by rw [fineSeg] at h; rw [shapeSeg] at h'; rw [tameSeg]; exact shapeSels_tame sels h h'
theorem shapeSegs_tame : ∀ l : List Segment, fineSegs l → shapeSegs P coll l → tameSegs P coll l
  | [], _, _ => by rw [tameSegs]; trivial
  | s :: l, h, h' => by rw [fineSegs] at h; rw [shapeSegs] at h'; rw [tameSegs]; exact ⟨shapeSeg_tame s h.1 h'.1, shapeSegs_tame l h.2 h'.2⟩
theorem shapeCond_tame : ∀ c : Logical, fineCond c → shapeCond P coll c → tameCond P coll c
  | .or l, h, h' => by rw [fineCond] at h; rw [shapeCond] at h'; rw [tameCond]; exact shapeConds_tame l h h'
  | .and l, h, h' => by rw [fineCond] at h; rw [shapeCond] at h'; rw [tameCond]; exact shapeConds_tame l h h'
  | .not c, h, h' => by rw [fineCond] at h; rw [shapeCond] at h'; rw [tameCond]; exact shapeCond_tame c h h'
  | .cmp a _ b, h, h' => by
    rw [fineCond] at h; rw [shapeCond] at h'; rw [tameCond]; exact ⟨shapeComp_tame a h.1 h'.1, shapeComp_tame b h.2 h'.2⟩
  | .query r segs, h, h' => by rw [fineCond] at h; rw [shapeCond] at h'; rw [tameCond]; exact ⟨shapeSegs_tame segs h h'.1, h'.2⟩
  | .func name args, h, h' => by rw [fineCond] at h; rw [shapeCond] at h'; rw [tameCond]; exact test_tame h h'
theorem shapeConds_tame : ∀ l : List Logical, fineConds l → shapeConds P coll l → tameConds P coll l
  | [], _, _ => by rw [tameConds]; trivial
  | s :: l, h, h' => by rw [fineConds] at h; rw [shapeConds] at h'; rw [tameConds]; exact ⟨shapeCond_tame s h.1 h'.1, shapeConds_tame l h.2 h'.2⟩
theorem shapeComp_tame : ∀ c : Comparable, fineComp c → shapeComp P coll c → tameComp P coll c
  | .lit l, h, _ => by rw [fineComp] at h; rw [tameComp]; exact h
  | .sing q, h, h' => by rw [fineComp] at h; rw [shapeComp] at h'; rw [tameComp]; exact ⟨h', h⟩
  | .func name args, h, h' => by
    rw [fineComp] at h; rw [shapeComp] at h'; rw [tameComp]; exact ⟨h'.1, h'.2.1, shapeArgs_tame args h h'.2.2⟩
theorem shapeArgs_tame : ∀ l : List Arg, fineArgs l → shapeArgs P coll l → tameArgs P coll l
  | [], _, _ => by rw [tameArgs]; trivial
  | s :: l, h, h' => by rw [fineArgs] at h; rw [shapeArgs] at h'; rw [tameArgs]; exact ⟨shapeArg_tame s h.1 h'.1, shapeArgs_tame l h.2 h'.2⟩
theorem shapeArg_tame : ∀ a : Arg, fineArg a → shapeArg P coll a → tameArg P coll a
  | .query r segs, h, h' => by rw [fineArg] at h; rw [shapeArg] at h'; rw [tameArg]; exact ⟨h'.1, shapeSegs_tame segs h h'.2.1, h'.2.2⟩
  | .lit _, _, h => by simp only [shapeArg] at h
  | .logical _, _, h => by simp only [shapeArg] at h
  | .func _ _, _, h => by simp only [shapeArg] at h
end

/-- Texts of queries with this shape. -/
theorem text_tame {lax : Bool} {s : Bytes} {q : Query} (h : QueryText lax s q) (h' : shapeSegs P coll q.segs) : tameSegs P coll q.segs := by
  obtain ⟨-, t, -, h⟩ := h
  exact shapeSegs_tame q.segs (text_fine h) h'

end

end Verif.JPath
