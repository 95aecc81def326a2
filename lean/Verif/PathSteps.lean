import Verif.PathShape
import Verif.QuerySpec
import Verif.PathOut
import Verif.PathTame
import Verif.PathNodes
import Verif.ProgramLemmas

/-!
# Queries one after the other (helper lemmas)
-/

set_option linter.unusedSimpArgs false
set_option linter.unusedVariables false
set_option linter.unusedSectionVars false

namespace Verif.JPath
open Rfc9535

theorem nodes_append (re : Sem) (root : JVal) (b : List Segment) : ∀ (a : List Segment) (v : JVal),
    nodes re root (a ++ b) v = (nodes re root a v).flatMap (nodes re root b)
  | [], v => by simp [nodes]
  | s :: a, v => by
    rw [List.cons_append, nodes, nodes, List.flatMap_assoc]
    congr 1
    funext w
    exact nodes_append re root b a w

/-! ## Queries that do not refer to the root -/

theorem sing_root (re : Sem) (root root' : JVal) : ∀ segs : List Segment, (asSingular segs).isSome = true → nodes re root segs = nodes re root' segs
  | [], _ => by funext v; rw [nodes, nodes]
  | .mk d sels :: l, h => by
    have key : (asSingular l).isSome = true ∧ (∃ n, sels = [.name n]) ∨ (asSingular l).isSome = true ∧ ∃ i, sels = [.index i] := by
      simp only [asSingular] at h
      split at h
      · cases h
      · split at h
        · exact .inl ⟨by simpa using h, _, rfl⟩
        · exact .inr ⟨by simpa using h, _, rfl⟩
        · cases h
    funext v
    rcases key with ⟨hl, n, rfl⟩ | ⟨hl, i, rfl⟩ <;>
      simp only [nodes, Rfc9535.segNodes, selsNodes, selNodes, sing_root re root root' l hl]

section
variable {P : Bool → Bytes → Prop} {coll : Prop} (hno : ¬ coll) (re : Sem) (root root' : JVal)
include hno

mutual
theorem selNodes_root : ∀ s : Selector, shapeSel P coll s → selNodes re root s = selNodes re root' s
  | .name n, _ => by funext v; rw [selNodes, selNodes]
  | .wild, _ => by funext v; rw [selNodes, selNodes]
  | .index i, _ => by funext v; rw [selNodes, selNodes]
  | .slice a b c, _ => by funext v; rw [selNodes, selNodes]
  | .filter c, h => by rw [shapeSel] at h; funext v; rw [selNodes, selNodes, holds_root c h]
theorem selsNodes_root : ∀ l : List Selector, shapeSels P coll l → selsNodes re root l = selsNodes re root' l
  | [], _ => by funext v; rw [selsNodes, selsNodes]
  | s :: l, h => by rw [shapeSels] at h; funext v; rw [selsNodes, selsNodes, selNodes_root s h.1, selsNodes_root l h.2]
theorem segNodes_root : ∀ s : Segment, shapeSeg P coll s → Rfc9535.segNodes re root s = Rfc9535.segNodes re root' s
  | .mk d sels, h => by rw [shapeSeg] at h; funext v; rw [Rfc9535.segNodes, Rfc9535.segNodes, selsNodes_root sels h]
theorem nodes_root : ∀ l : List Segment, shapeSegs P coll l → nodes re root l = nodes re root' l
  | [], _ => by funext v; rw [nodes, nodes]
  | s :: l, h => by rw [shapeSegs] at h; funext v; rw [nodes, nodes, segNodes_root s h.1, nodes_root l h.2]
theorem holds_root : ∀ c : Logical, shapeCond P coll c → holds re root c = holds re root' c
  | .or l, h => by rw [shapeCond] at h; funext v; rw [holds, holds, anyHolds_root l h]
  | .and l, h => by rw [shapeCond] at h; funext v; rw [holds, holds, allHold_root l h]
  | .not c, h => by rw [shapeCond] at h; funext v; rw [holds, holds, holds_root c h]
  | .cmp a o b, h => by rw [shapeCond] at h; funext v; rw [holds, holds, value_root a h.1, value_root b h.2]
  | .query r segs, h => by
    rw [shapeCond] at h
    funext v
    rw [holds, holds, nodes_root segs h.1]
    cases r with
    | false => rfl
    | true => exact absurd h.2 hno
  | .func name args, h => by
    rw [shapeCond] at h
    obtain ⟨whole, a, p, rfl, rfl, h1, -⟩ := h
    funext v
    rw [holds, holds]
    congr 1
    cases a with
    | lit l => simp [argsData, argData]
    | query r segs =>
      cases r with
      | false =>
        simp only [argsData, argData, Bool.false_eq_true, if_false]
        rw [sing_root re root root' segs h1]
      | true => exact h1.elim
    | logical c => exact h1.elim
    | func _ _ => exact h1.elim
theorem anyHolds_root : ∀ l : List Logical, shapeConds P coll l → anyHolds re root l = anyHolds re root' l
  | [], _ => by funext v; rw [anyHolds, anyHolds]
  | c :: l, h => by rw [shapeConds] at h; funext v; rw [anyHolds, anyHolds, holds_root c h.1, anyHolds_root l h.2]
theorem allHold_root : ∀ l : List Logical, shapeConds P coll l → allHold re root l = allHold re root' l
  | [], _ => by funext v; rw [allHold, allHold]
  | c :: l, h => by rw [shapeConds] at h; funext v; rw [allHold, allHold, holds_root c h.1, allHold_root l h.2]
theorem value_root : ∀ c : Comparable, shapeComp P coll c → value re root c = value re root' c
  | .lit l, _ => by funext v; rw [value, value]
  | .sing q, h => by rw [shapeComp] at h; funext v; rw [value, value, h]; rfl
  | .func n args, h => by rw [shapeComp] at h; funext v; rw [value, value, argsData_root args h.2.2]
theorem argsData_root : ∀ l : List Arg, shapeArgs P coll l → argsData re root l = argsData re root' l
  | [], _ => by funext v; rw [argsData, argsData]
  | a :: l, h => by rw [shapeArgs] at h; funext v; rw [argsData, argsData, argData_root a h.1, argsData_root l h.2]
theorem argData_root : ∀ a : Arg, shapeArg P coll a → argData re root a = argData re root' a
  | .query r segs, h => by
    rw [shapeArg] at h
    funext v
    rw [argData, argData, nodes_root segs h.2.1]
    cases r with
    | false => rfl
    | true => exact absurd (h.1 rfl) hno
  | .lit _, h => by simp only [shapeArg] at h
  | .logical _, h => by simp only [shapeArg] at h
  | .func _ _, h => by simp only [shapeArg] at h
end

end

/-- Two queries one after the other select what one query selects with the segments of both. -/
theorem eval_append {P : Bool → Bytes → Prop} {coll : Prop} (hno : ¬ coll) (re : Sem) {a b : List Segment} (hb : shapeSegs P coll b) (v : JVal) :
    eval re ⟨true, a ++ b⟩ v = (eval re ⟨true, a⟩ v).flatMap (eval re ⟨true, b⟩) := by
  show nodes re v (a ++ b) v = (nodes re v a v).flatMap fun w => nodes re w b w
  rw [nodes_append]
  congr 1
  funext w
  rw [nodes_root hno re v w b hb]

theorem shapeSegs_append {P : Bool → Bytes → Prop} {coll : Prop} {a b : List Segment} (ha : shapeSegs P coll a) (hb : shapeSegs P coll b) : shapeSegs P coll (a ++ b) := by
  induction a with
  | nil => exact hb
  | cons s a ih =>
    rw [shapeSegs] at ha
    rw [List.cons_append, shapeSegs]
    exact ⟨ha.1, ih ha.2⟩

/-! ## Conditions on the input that are not used -/

section
variable {P : Bool → Bytes → Prop} {A B : Prop} (hAB : A → B)
include hAB

mutual
theorem shapeSel_mono : ∀ s : Selector, shapeSel P A s → shapeSel P B s
  | .name _, _ => by rw [shapeSel]; all_goals simp
  | .wild, _ => by rw [shapeSel]; all_goals simp
  | .index _, _ => by rw [shapeSel]; all_goals simp
  | .slice a b c, h => by rw [shapeSel] at h ⊢; exact h
  | .filter c, h => by rw [shapeSel] at h ⊢; exact shapeCond_mono c h
theorem shapeSels_mono : ∀ l : List Selector, shapeSels P A l → shapeSels P B l
  | [], _ => by rw [shapeSels]; trivial
  | s :: l, h => by rw [shapeSels] at h ⊢; exact ⟨shapeSel_mono s h.1, shapeSels_mono l h.2⟩
theorem shapeSeg_mono : ∀ s : Segment, shapeSeg P A s → shapeSeg P B s
  | .mk d sels, h => by rw [shapeSeg] at h ⊢; exact shapeSels_mono sels h
theorem shapeSegs_mono : ∀ l : List Segment, shapeSegs P A l → shapeSegs P B l
  | [], _ => by rw [shapeSegs]; trivial
  | s :: l, h => by rw [shapeSegs] at h ⊢; exact ⟨shapeSeg_mono s h.1, shapeSegs_mono l h.2⟩
theorem shapeCond_mono : ∀ c : Logical, shapeCond P A c → shapeCond P B c
  | .or l, h => by rw [shapeCond] at h ⊢; exact shapeConds_mono l h
  | .and l, h => by rw [shapeCond] at h ⊢; exact shapeConds_mono l h
  | .not c, h => by rw [shapeCond] at h ⊢; exact shapeCond_mono c h
  | .cmp a _ b, h => by rw [shapeCond] at h ⊢; exact ⟨shapeComp_mono a h.1, shapeComp_mono b h.2⟩
  | .query r segs, h => by
    rw [shapeCond] at h ⊢
    refine ⟨shapeSegs_mono segs h.1, ?_⟩
    cases r with
    | false => exact h.2
    | true => exact hAB h.2
  | .func name args, h => by rw [shapeCond] at h ⊢; exact h
theorem shapeConds_mono : ∀ l : List Logical, shapeConds P A l → shapeConds P B l
  | [], _ => by rw [shapeConds]; trivial
  | c :: l, h => by rw [shapeConds] at h ⊢; exact ⟨shapeCond_mono c h.1, shapeConds_mono l h.2⟩
theorem shapeComp_mono : ∀ c : Comparable, shapeComp P A c → shapeComp P B c
  | .lit l, _ => by rw [shapeComp]; trivial
  | .sing q, h => by rw [shapeComp] at h ⊢; exact h
  | .func n args, h => by rw [shapeComp] at h ⊢; exact ⟨h.1, h.2.1, shapeArgs_mono args h.2.2⟩
theorem shapeArgs_mono : ∀ l : List Arg, shapeArgs P A l → shapeArgs P B l
  | [], _ => by rw [shapeArgs]; trivial
  | a :: l, h => by rw [shapeArgs] at h ⊢; exact ⟨shapeArg_mono a h.1, shapeArgs_mono l h.2⟩
theorem shapeArg_mono : ∀ a : Arg, shapeArg P A a → shapeArg P B a
  | .query r segs, h => by rw [shapeArg] at h ⊢; exact ⟨fun e => hAB (h.1 e), shapeSegs_mono segs h.2.1, h.2.2⟩
  | .lit _, h => by simp only [shapeArg] at h
  | .logical _, h => by simp only [shapeArg] at h
  | .func _ _, h => by simp only [shapeArg] at h
end

end

/-! ## Texts -/

theorem segments_append {lax : Bool} : ∀ {t t' : Bytes} {l l' : List Segment}, Text lax .segments t l → Text lax .segments t' l' →
    Text lax .segments (t ++ t') (l ++ l') := by
  intro t t' l l' h h'
  generalize hn : l.length = n
  induction n generalizing t l with
  | zero =>
    cases h with
    | nil => exact h'
    | cons _ _ _ => simp at hn
  | succ n ih =>
    cases h with
    | nil => simp at hn
    | cons h1 h2 h3 =>
      have := ih h3 (by simpa using hn)
      rw [List.cons_append, show ∀ a b c d : Bytes, a ++ (b ++ c) ++ d = a ++ (b ++ (c ++ d)) by simp]
      exact .cons h1 h2 this

/-- The query `$` with the segments of both. -/
theorem text_append {lax : Bool} {s t : Bytes} {q q' : Query} (h : QueryText lax s q) (h' : QueryText lax (b%"$" ++ t) q') :
    QueryText lax (s ++ t) ⟨true, q.segs ++ q'.segs⟩ := by
  obtain ⟨-, u, rfl, h2⟩ := h
  obtain ⟨-, u', e, h2'⟩ := h'
  cases List.append_cancel_left e
  exact ⟨rfl, u ++ t, by simp, segments_append h2 h2'⟩

/-! ## Streams -/

/-- The values that queries of the class can be applied to. -/
structure Modest (v : JVal) : Prop where
  den : ∃ d, Den v d
  nums : NumsIn InRange64 v
  len : v.toks.length < 2 ^ 53

theorem Modest.desc {v w : JVal} (h : Modest v) (hw : w ∈ descendants v) : Modest w :=
  ⟨h.den.elim fun _ hd => den_desc hd hw, desc_ind (P := NumsIn InRange64) (fun v h => nums_member h) _ v (Nat.le_refl _) h.nums w hw,
    Nat.lt_of_le_of_lt (desc_len hw) h.len⟩

section
variable {lib : Lib} {re : Sem} {P : Bool → Bytes → Prop} (hfmt : FmtOk lib.fmt) (hval : Double re.val)
    (hP : ∀ whole p, P whole p → ∀ s cs, Chars s cs → RegexOk lib re whole s p)
include hfmt hval hP

/-- What the two queries write one after the other, and what the combined query writes: the same values, and in the same order if no segment
changes it. -/
theorem steps {strict : Bool} {s t : Bytes} {q q' : Query} (hq : QueryText false s q) (hq' : QueryText false (b%"$" ++ t) q') {vs : List JVal}
    (hv : ∀ v ∈ vs, Modest v) (hb : shapeSegs P (∀ v ∈ vs, IsColl v) q.segs) (hb' : shapeSegs P False q'.segs) :
    (compileQuery q).isSome = true ∧ (compileQuery q').isSome = true ∧ (compileQuery ⟨true, q.segs ++ q'.segs⟩).isSome = true ∧
    ∃ ms ws ws' : List JVal, Outcome lib strict q (streamToks vs) (streamToks ms) (.ok ()) ∧
      Outcome lib strict q' (streamToks ms) (streamToks ws) (.ok ()) ∧
      Outcome lib strict ⟨true, q.segs ++ q'.segs⟩ (streamToks vs) (streamToks ws') (.ok ()) ∧
      (∀ w ∈ ws, ∃ v ∈ vs, w ∈ descendants v) ∧ ws.Perm ws' ∧ ((∀ seg ∈ q.segs ++ q'.segs, seg.Exact strict) → ws = ws') := by
  have h1 := text_tame hq hb
  have h2 := text_tame hq' hb'
  have h3 : tameSegs P (∀ v ∈ vs, IsColl v) (⟨true, q.segs ++ q'.segs⟩ : Query).segs :=
    text_tame (text_append hq hq') (shapeSegs_append hb (shapeSegs_mono False.elim _ hb'))
  have c1 := tame_compiles h1
  have c2 := tame_compiles h2
  have c3 := tame_compiles h3
  refine ⟨c1, c2, c3, ?_⟩
  obtain ⟨Ls, o1, r1⟩ := outcome_stream (strict := strict) (S := InRange64) (re := re) (lib := lib) c1 (vs := vs)
    fun v hv' => tame_plain hfmt hval hP h1 (hv v hv').den (hv v hv').nums (hv v hv').len fun h => h v hv'
  have p1 : Ls.flatten.Perm (vs.flatMap (eval re q)) := rel2_perm (rel2_imp r1 fun _ _ h => h.1)
  have d1 : ∀ w ∈ Ls.flatten, ∃ v ∈ vs, w ∈ descendants v := by
    intro w hw
    obtain ⟨v, hv', hw'⟩ := List.mem_flatMap.1 (p1.mem_iff.1 hw)
    exact ⟨v, hv', nodes_desc _ _ hw'⟩
  obtain ⟨Ls', o2, r2⟩ := outcome_stream (strict := strict) (S := InRange64) (re := re) (lib := lib) c2 (vs := Ls.flatten)
    fun w hw => by
      obtain ⟨v, hv', hw'⟩ := d1 w hw
      have := (hv v hv').desc hw'
      exact tame_plain hfmt hval hP h2 this.den this.nums this.len False.elim
  have p2 : Ls'.flatten.Perm (Ls.flatten.flatMap (eval re q')) := rel2_perm (rel2_imp r2 fun _ _ h => h.1)
  obtain ⟨Ls'', o3, r3⟩ := outcome_stream (strict := strict) (S := InRange64) (re := re) (lib := lib) c3 (vs := vs)
    fun v hv' => tame_plain hfmt hval hP h3 (hv v hv').den (hv v hv').nums (hv v hv').len fun h => h v hv'
  have p3 : Ls''.flatten.Perm (vs.flatMap (eval re ⟨true, q.segs ++ q'.segs⟩)) := rel2_perm (rel2_imp r3 fun _ _ h => h.1)
  have e : vs.flatMap (eval re ⟨true, q.segs ++ q'.segs⟩) = (vs.flatMap (eval re q)).flatMap (eval re q') := by
    rw [List.flatMap_assoc]
    congr 1
    funext v
    exact eval_append (coll := False) id re hb' v
  refine ⟨_, _, _, o1, o2, o3, ?_, ?_, ?_⟩
  · intro w hw
    obtain ⟨u, hu, hw'⟩ := List.mem_flatMap.1 (p2.mem_iff.1 hw)
    obtain ⟨v, hv', hu'⟩ := d1 u hu
    exact ⟨v, hv', desc_trans hu' (nodes_desc _ _ hw')⟩
  · rw [e] at p3
    exact (p2.trans (p1.flatMap_right _)).trans p3.symm
  · intro hx
    rw [rel2_flatMap (f := eval re q') (rel2_imp r2 fun v L h => h.2 fun s hs => hx s (by simp [hs])),
      rel2_flatMap (f := eval re q) (rel2_imp r1 fun v L h => h.2 fun s hs => hx s (by simp [hs])),
      rel2_flatMap (f := eval re ⟨true, q.segs ++ q'.segs⟩) (rel2_imp r3 fun v L h => h.2 hx), e]

end

end Verif.JPath
