import Verif.PathInts

/-!
# The integers of a query: lemmas
-/

namespace Verif.JPath
open Rfc9535

theorem digits_not_any {ds : Bytes} (h : ∀ x ∈ ds, Dig x) : ds.any (fun b => b < c%'0' || c%'9' < b) = false := by
  rw [List.any_eq_false]
  intro x hx
  have := h x hx
  simp only [Dig] at this
  simp only [Bool.or_eq_true, decide_eq_true_eq, not_or, UInt8.not_lt]
  exact this

theorem foldl_digits (ds : Bytes) : ds.foldl (fun n d => 10 * n + (d.toNat - 0x30)) 0 = digitsVal ds := rfl

theorem parseInt_lit {s : Bytes} {v : Int} (h : IntLit s v) : parseInt s = if IJson v then some v else none := by
  have fin : ∀ (n : Int), parseInt64 s = (if -2 ^ 63 ≤ n ∧ n < 2 ^ 63 then some n else none) →
      parseInt s = if IJson n then some n else none := by
    intro n e
    unfold parseInt
    rw [e]
    by_cases c : -2 ^ 63 ≤ n ∧ n < 2 ^ 63
    · rw [if_pos c]
      show (if n > 9007199254740991 ∨ n < -9007199254740991 then none else some n) = _
      by_cases c' : IJson n
      · have := c'
        unfold IJson at this
        rw [if_pos c', if_neg (by omega)]
      · have := c'
        unfold IJson at this
        rw [if_neg c', if_pos (by omega)]
    · rw [if_neg c, if_neg (by unfold IJson; omega)]
  cases h with
  | zero => exact fin 0 (by decide)
  | @pos d ds hd h0 hds =>
    refine fin _ ?_
    have hall : ∀ x ∈ d :: ds, Dig x := by
      intro x hx
      rcases List.mem_cons.1 hx with rfl | hx
      · exact hd
      · exact hds x hx
    have h1 : d ≠ c%'-' := by rintro rfl; exact absurd hd (by unfold Dig; decide)
    have h2 : d ≠ c%'+' := by rintro rfl; exact absurd hd (by unfold Dig; decide)
    unfold parseInt64
    simp only [if_neg h1, if_neg h2, digits_not_any hall, List.isEmpty_cons, Bool.or_self, Bool.false_eq_true, if_false, foldl_digits]
    generalize digitsVal (d :: ds) = n
    by_cases c : n < 2 ^ 63
    · rw [if_pos c, if_pos (by omega)]
    · rw [if_neg c, if_neg (by omega)]
  | @neg d ds hd h0 hds =>
    refine fin _ ?_
    have hall : ∀ x ∈ d :: ds, Dig x := by
      intro x hx
      rcases List.mem_cons.1 hx with rfl | hx
      · exact hd
      · exact hds x hx
    unfold parseInt64
    simp only [if_true, digits_not_any hall, List.isEmpty_cons, Bool.or_self, Bool.false_eq_true, if_false, foldl_digits]
    generalize digitsVal (d :: ds) = n
    by_cases c : n ≤ 2 ^ 63
    · rw [if_pos c, if_pos (by omega)]
    · rw [if_neg c, if_neg (by omega)]

/-- What the integers must satisfy. -/
def InRange (s : Bytes) : Prop := ∃ v, IntLit s v ∧ IJson v

theorem parseInt_range {s : Bytes} (h : InRange s) : ∃ v, parseInt s = some v ∧ IntLit s v := by
  obtain ⟨v, h, hv⟩ := h
  exact ⟨v, by rw [parseInt_lit h, if_pos hv], h⟩

theorem bound_ok {a : Option Bytes} (h : ∀ s ∈ a.toList, InRange s) : ∃ a', compileBound a = some a' ∧ Rel2 IntLit a.toList a'.toList := by
  cases a with
  | none => exact ⟨none, rfl, .nil⟩
  | some t =>
    obtain ⟨v, h, hv⟩ := parseInt_range (h t (by simp))
    exact ⟨some v, by simp [compileBound, h], .single hv⟩

theorem step_ok {a : Option (Option Bytes)} (h : InRange (stepText a)) : ∃ v, compileStep a = some v ∧ IntLit (stepText a) v := by
  rcases a with _ | _ | t
  · exact ⟨1, rfl, .pos (d := 0x31) (ds := []) (by unfold Dig; decide) (by decide) (by simp)⟩
  · exact ⟨1, rfl, .pos (d := 0x31) (ds := []) (by unfold Dig; decide) (by decide) (by simp)⟩
  · exact parseInt_range h

theorem singSegs_ok {l : List PSingSeg} (h : ∀ s ∈ l.flatMap PSingSeg.ints, InRange s) (hf : l.all PSingSeg.fine = true) :
    ∃ l', compileSingSegs l = some l' ∧ Rel2 IntLit (l.flatMap PSingSeg.ints) (l'.flatMap SingSeg.ints) := by
  induction l with
  | nil => exact ⟨[], rfl, .nil⟩
  | cons s l ih =>
    rw [List.all_cons, Bool.and_eq_true] at hf
    rw [List.flatMap_cons] at h
    obtain ⟨l', e, hl⟩ := ih (fun s hs => h s (List.mem_append_right _ hs)) hf.2
    have : ∃ s', s.compile = some s' ∧ Rel2 IntLit s.ints s'.ints := by
      cases s with
      | bracket s =>
        obtain ⟨x, hx⟩ := Option.isSome_iff_exists.1 hf.1
        exact ⟨.name x, by simp [PSingSeg.compile, hx], .nil⟩
      | dot t => exact ⟨_, rfl, .nil⟩
      | index t =>
        obtain ⟨v, hv, hv'⟩ := parseInt_range (h t (by simp [PSingSeg.ints]))
        exact ⟨.index v, by simp [PSingSeg.compile, hv], .single hv'⟩
    obtain ⟨s', es, hs⟩ := this
    exact ⟨s' :: l', by simp [compileSingSegs, es, e], by rw [List.flatMap_cons, List.flatMap_cons]; exact hs.append hl⟩

mutual
theorem selector_ok : ∀ p : PSelector, (∀ s ∈ p.ints true, InRange s) → p.fine = true →
    ∃ c, p.compile = some c ∧ Rel2 IntLit (p.ints true) c.ints
  | .name s, _, hf => by
    obtain ⟨x, hx⟩ := Option.isSome_iff_exists.1 hf
    exact ⟨.name x, by simp [PSelector.compile, hx], .nil⟩
  | .wild, _, _ => ⟨.wild, rfl, .nil⟩
  | .slice a b c, h, _ => by
    simp only [PSelector.ints, List.mem_append, List.mem_singleton] at h
    obtain ⟨a', ea, ha⟩ := bound_ok (a := a) fun s hs => h s (.inl (.inl hs))
    obtain ⟨b', eb, hb⟩ := bound_ok (a := b) fun s hs => h s (.inl (.inr hs))
    obtain ⟨c', ec, hc⟩ := step_ok (a := c) (h _ (.inr rfl))
    exact ⟨.slice a' b' c', by simp [PSelector.compile, ea, eb, ec], (ha.append hb).append (.single hc)⟩
  | .index t, h, _ => by
    obtain ⟨v, hv, hv'⟩ := parseInt_range (h t (by simp [PSelector.ints]))
    exact ⟨.index v, by simp [PSelector.compile, hv], .single hv'⟩
  | .filter e, h, hf => by
    obtain ⟨c, ec, hc⟩ := logical_ok e h hf
    exact ⟨.filter c, by simp [PSelector.compile, ec], hc⟩
theorem selectors_ok : ∀ p : List PSelector, (∀ s ∈ selectorInts true p, InRange s) → selectorsFine p = true →
    ∃ c, compileSelectors p = some c ∧ Rel2 IntLit (selectorInts true p) (selectorsInts c)
  | [], _, _ => ⟨[], rfl, .nil⟩
  | p :: l, h, hf => by
    simp only [selectorsFine, Bool.and_eq_true] at hf
    simp only [selectorInts, List.mem_append] at h
    obtain ⟨c, ec, hc⟩ := selector_ok p (fun s hs => h s (.inl hs)) hf.1
    obtain ⟨l', el, hl⟩ := selectors_ok l (fun s hs => h s (.inr hs)) hf.2
    exact ⟨c :: l', by simp [compileSelectors, ec, el], hc.append hl⟩
theorem segment_ok : ∀ p : PSegment, (∀ s ∈ p.ints true, InRange s) → p.fine = true →
    ∃ c, p.compile = some c ∧ Rel2 IntLit (p.ints true) c.ints
  | .bracketed f r, h, hf => by
    simp only [PSegment.fine, Bool.and_eq_true] at hf
    simp only [PSegment.ints, List.mem_append] at h
    obtain ⟨c, ec, hc⟩ := selector_ok f (fun s hs => h s (.inl hs)) hf.1
    obtain ⟨l', el, hl⟩ := selectors_ok r (fun s hs => h s (.inr hs)) hf.2
    exact ⟨.mk false (c :: l'), by simp [PSegment.compile, ec, el], hc.append hl⟩
  | .dotWild, _, _ => ⟨_, rfl, .nil⟩
  | .dotName t, _, _ => ⟨_, rfl, .nil⟩
  | .descBracketed f r, h, hf => by
    simp only [PSegment.fine, Bool.and_eq_true] at hf
    simp only [PSegment.ints, if_true, List.mem_append] at h
    obtain ⟨c, ec, hc⟩ := selector_ok f (fun s hs => h s (.inl hs)) hf.1
    obtain ⟨l', el, hl⟩ := selectors_ok r (fun s hs => h s (.inr hs)) hf.2
    exact ⟨.mk true (c :: l'), by simp [PSegment.compile, ec, el], by
      simp only [PSegment.ints, if_true]; exact hc.append hl⟩
  | .descWild, _, _ => ⟨_, rfl, .nil⟩
  | .descName t, _, _ => ⟨_, rfl, .nil⟩
theorem segments_ok : ∀ p : List PSegment, (∀ s ∈ segmentInts true p, InRange s) → segmentsFine p = true →
    ∃ c, compileSegments p = some c ∧ Rel2 IntLit (segmentInts true p) (segmentsInts c)
  | [], _, _ => ⟨[], rfl, .nil⟩
  | p :: l, h, hf => by
    simp only [segmentsFine, Bool.and_eq_true] at hf
    simp only [segmentInts, List.mem_append] at h
    obtain ⟨c, ec, hc⟩ := segment_ok p (fun s hs => h s (.inl hs)) hf.1
    obtain ⟨l', el, hl⟩ := segments_ok l (fun s hs => h s (.inr hs)) hf.2
    exact ⟨c :: l', by simp [compileSegments, ec, el], hc.append hl⟩
theorem logical_ok : ∀ p : PLogical, (∀ s ∈ p.ints true, InRange s) → p.fine = true →
    ∃ c, p.compile = some c ∧ Rel2 IntLit (p.ints true) c.ints
  | .or f r, h, hf => by
    simp only [PLogical.fine, Bool.and_eq_true] at hf
    simp only [PLogical.ints, List.mem_append] at h
    obtain ⟨c, ec, hc⟩ := logical_ok f (fun s hs => h s (.inl hs)) hf.1
    obtain ⟨l', el, hl⟩ := logicals_ok r (fun s hs => h s (.inr hs)) hf.2
    cases r with
    | nil => exact ⟨c, by simp [PLogical.compile, ec], by simpa [PLogical.ints, logicalInts] using hc⟩
    | cons x r => exact ⟨.or (c :: l'), by simp [PLogical.compile, ec, el], hc.append hl⟩
  | .and f r, h, hf => by
    simp only [PLogical.fine, Bool.and_eq_true] at hf
    simp only [PLogical.ints, List.mem_append] at h
    obtain ⟨c, ec, hc⟩ := logical_ok f (fun s hs => h s (.inl hs)) hf.1
    obtain ⟨l', el, hl⟩ := logicals_ok r (fun s hs => h s (.inr hs)) hf.2
    cases r with
    | nil => exact ⟨c, by simp [PLogical.compile, ec], by simpa [PLogical.ints, logicalInts] using hc⟩
    | cons x r => exact ⟨.and (c :: l'), by simp [PLogical.compile, ec, el], hc.append hl⟩
  | .paren n e, h, hf => by
    obtain ⟨c, ec, hc⟩ := logical_ok e h hf
    cases n
    · exact ⟨c, by simp [PLogical.compile, ec], hc⟩
    · exact ⟨.not c, by simp [PLogical.compile, ec], hc⟩
  | .cmp l op r, h, hf => by
    simp only [PLogical.fine, Bool.and_eq_true] at hf
    simp only [PLogical.ints, List.mem_append] at h
    obtain ⟨c, ec, hc⟩ := comparable_ok l (fun s hs => h s (.inl hs)) hf.1
    obtain ⟨l', el, hl⟩ := comparable_ok r (fun s hs => h s (.inr hs)) hf.2
    exact ⟨.cmp c op l', by simp [PLogical.compile, ec, el], hc.append hl⟩
  | .query n root segs, h, hf => by
    obtain ⟨c, ec, hc⟩ := segments_ok segs h hf
    cases n
    · exact ⟨.query root c, by simp [PLogical.compile, ec], hc⟩
    · exact ⟨.not (.query root c), by simp [PLogical.compile, ec], hc⟩
  | .func n name args, h, hf => by
    obtain ⟨c, ec, hc⟩ := args_ok args h hf
    cases n
    · exact ⟨.func name.dropLast c, by simp [PLogical.compile, ec], hc⟩
    · exact ⟨.not (.func name.dropLast c), by simp [PLogical.compile, ec], hc⟩
theorem logicals_ok : ∀ p : List PLogical, (∀ s ∈ logicalInts true p, InRange s) → logicalsFine p = true →
    ∃ c, compileLogicals p = some c ∧ Rel2 IntLit (logicalInts true p) (logicalsInts c)
  | [], _, _ => ⟨[], rfl, .nil⟩
  | p :: l, h, hf => by
    simp only [logicalsFine, Bool.and_eq_true] at hf
    simp only [logicalInts, List.mem_append] at h
    obtain ⟨c, ec, hc⟩ := logical_ok p (fun s hs => h s (.inl hs)) hf.1
    obtain ⟨l', el, hl⟩ := logicals_ok l (fun s hs => h s (.inr hs)) hf.2
    exact ⟨c :: l', by simp [compileLogicals, ec, el], hc.append hl⟩
theorem comparable_ok : ∀ p : PComparable, (∀ s ∈ p.ints true, InRange s) → p.fine = true →
    ∃ c, p.compile = some c ∧ Rel2 IntLit (p.ints true) c.ints
  | .lit l, _, hf => by
    obtain ⟨x, hx⟩ := Option.isSome_iff_exists.1 hf
    exact ⟨.lit x, by simp [PComparable.compile, hx], .nil⟩
  | .sing q, h, hf => by
    obtain ⟨l', el, hl⟩ := singSegs_ok h hf
    exact ⟨.sing ⟨q.root, l'⟩, by simp [PComparable.compile, PSingQuery.compile, el], hl⟩
  | .func name args, h, hf => by
    obtain ⟨c, ec, hc⟩ := args_ok args h hf
    exact ⟨.func name.dropLast c, by simp [PComparable.compile, ec], hc⟩
theorem arg_ok : ∀ p : PArg, (∀ s ∈ p.ints true, InRange s) → p.fine = true →
    ∃ c, p.compile = some c ∧ Rel2 IntLit (p.ints true) c.ints
  | .lit l, _, hf => by
    obtain ⟨x, hx⟩ := Option.isSome_iff_exists.1 hf
    exact ⟨.lit x, by simp [PArg.compile, hx], .nil⟩
  | .query root segs, h, hf => by
    obtain ⟨c, ec, hc⟩ := segments_ok segs h hf
    exact ⟨.query root c, by simp [PArg.compile, ec], hc⟩
  | .logical e, h, hf => by
    obtain ⟨c, ec, hc⟩ := logical_ok e h hf
    exact ⟨.logical c, by simp [PArg.compile, ec], hc⟩
  | .func name args, h, hf => by
    obtain ⟨c, ec, hc⟩ := args_ok args h hf
    exact ⟨.func name.dropLast c, by simp [PArg.compile, ec], hc⟩
theorem args_ok : ∀ p : List PArg, (∀ s ∈ argInts true p, InRange s) → argsFine p = true →
    ∃ c, compilePArgs p = some c ∧ Rel2 IntLit (argInts true p) (argsInts c)
  | [], _, _ => ⟨[], rfl, .nil⟩
  | p :: l, h, hf => by
    simp only [argsFine, Bool.and_eq_true] at hf
    simp only [argInts, List.mem_append] at h
    obtain ⟨c, ec, hc⟩ := arg_ok p (fun s hs => h s (.inl hs)) hf.1
    obtain ⟨l', el, hl⟩ := args_ok l (fun s hs => h s (.inr hs)) hf.2
    exact ⟨c :: l', by simp [compilePArgs, ec, el], hc.append hl⟩
end

/-! ### If the tree is made and every function has a name, the integers were read -/

theorem bound_read {a : Option Bytes} {a'} (h : compileBound a = some a') : ∀ s ∈ a.toList, (parseInt s).isSome := by
  cases a with
  | none => simp
  | some t =>
    simp only [compileBound, Option.map_eq_some_iff] at h
    obtain ⟨v, h, -⟩ := h
    simp [h]

theorem step_read {a : Option (Option Bytes)} {v} (h : compileStep a = some v) : (parseInt (stepText a)).isSome := by
  rcases a with _ | _ | t
  · decide
  · decide
  · simp only [compileStep] at h; simp [stepText, h]

theorem singSegs_read {l : List PSingSeg} : ∀ {l'}, compileSingSegs l = some l' → ∀ s ∈ l.flatMap PSingSeg.ints, (parseInt s).isSome := by
  induction l with
  | nil => simp
  | cons p l ih =>
    intro l' h s hs
    simp only [compileSingSegs, Option.bind_eq_some_iff, Option.map_eq_some_iff] at h
    obtain ⟨p', hp, l'', hl, -⟩ := h
    rw [List.flatMap_cons, List.mem_append] at hs
    rcases hs with hs | hs
    · cases p with
      | bracket => simp [PSingSeg.ints] at hs
      | dot => simp [PSingSeg.ints] at hs
      | index t =>
        simp only [PSingSeg.compile, Option.map_eq_some_iff] at hp
        obtain ⟨v, hv, -⟩ := hp
        simp only [PSingSeg.ints, List.mem_singleton] at hs
        simp [hs, hv]
    · exact ih hl s hs

mutual
theorem selector_read : ∀ (p : PSelector) {c}, p.compile = some c → c.named = true → ∀ s ∈ p.ints false, (parseInt s).isSome
  | .name s, c, _, _ => by simp [PSelector.ints]
  | .wild, _, _, _ => by simp [PSelector.ints]
  | .slice a b c, _, h, _ => by
    simp only [PSelector.compile, Option.bind_eq_some_iff, Option.map_eq_some_iff] at h
    obtain ⟨a', ha, b', hb, c', hc, -⟩ := h
    simp only [PSelector.ints, List.mem_append, List.mem_singleton]
    rintro s ((hs | hs) | rfl)
    · exact bound_read ha s hs
    · exact bound_read hb s hs
    · exact step_read hc
  | .index t, _, h, _ => by
    simp only [PSelector.compile, Option.map_eq_some_iff] at h
    obtain ⟨v, h, -⟩ := h
    simp [PSelector.ints, h]
  | .filter e, _, h, hn => by
    simp only [PSelector.compile, Option.map_eq_some_iff] at h
    obtain ⟨c, h, rfl⟩ := h
    exact logical_read e h hn
theorem selectors_read : ∀ (p : List PSelector) {c}, compileSelectors p = some c → selectorsNamed c = true →
    ∀ s ∈ selectorInts false p, (parseInt s).isSome
  | [], _, _, _ => by simp [selectorInts]
  | p :: l, _, h, hn => by
    simp only [compileSelectors, Option.bind_eq_some_iff, Option.map_eq_some_iff] at h
    obtain ⟨c, hc, l', hl, rfl⟩ := h
    simp only [selectorsNamed, Bool.and_eq_true] at hn
    simp only [selectorInts, List.mem_append]
    rintro s (hs | hs)
    · exact selector_read p hc hn.1 s hs
    · exact selectors_read l hl hn.2 s hs
theorem segment_read : ∀ (p : PSegment) {c}, p.compile = some c → c.named = true → ∀ s ∈ p.ints false, (parseInt s).isSome
  | .bracketed f r, _, h, hn => by
    simp only [PSegment.compile, Option.bind_eq_some_iff, Option.map_eq_some_iff] at h
    obtain ⟨c, hc, l', hl, rfl⟩ := h
    simp only [Segment.named, selectorsNamed, Bool.and_eq_true] at hn
    simp only [PSegment.ints, List.mem_append]
    rintro s (hs | hs)
    · exact selector_read f hc hn.1 s hs
    · exact selectors_read r hl hn.2 s hs
  | .dotWild, _, _, _ => by simp [PSegment.ints]
  | .dotName t, _, _, _ => by simp [PSegment.ints]
  | .descBracketed f r, _, _, _ => by simp [PSegment.ints]
  | .descWild, _, _, _ => by simp [PSegment.ints]
  | .descName t, _, _, _ => by simp [PSegment.ints]
theorem segments_read : ∀ (p : List PSegment) {c}, compileSegments p = some c → segmentsNamed c = true →
    ∀ s ∈ segmentInts false p, (parseInt s).isSome
  | [], _, _, _ => by simp [segmentInts]
  | p :: l, _, h, hn => by
    simp only [compileSegments, Option.bind_eq_some_iff, Option.map_eq_some_iff] at h
    obtain ⟨c, hc, l', hl, rfl⟩ := h
    simp only [segmentsNamed, Bool.and_eq_true] at hn
    simp only [segmentInts, List.mem_append]
    rintro s (hs | hs)
    · exact segment_read p hc hn.1 s hs
    · exact segments_read l hl hn.2 s hs
theorem logical_read : ∀ (p : PLogical) {c}, p.compile = some c → c.named = true → ∀ s ∈ p.ints false, (parseInt s).isSome
  | .or f [], _, h, hn => by
    simp only [PLogical.compile, Option.bind_eq_some_iff] at h
    obtain ⟨c, hc, h⟩ := h
    cases h
    simp only [PLogical.ints, logicalInts, List.append_nil]
    exact logical_read f hc hn
  | .or f (x :: r), _, h, hn => by
    simp only [PLogical.compile, Option.bind_eq_some_iff, Option.map_eq_some_iff] at h
    obtain ⟨c, hc, l', hl, rfl⟩ := h
    simp only [Logical.named, logicalsNamed, Bool.and_eq_true] at hn
    simp only [PLogical.ints, List.mem_append]
    rintro s (hs | hs)
    · exact logical_read f hc hn.1 s hs
    · exact logicals_read (x :: r) hl hn.2 s hs
  | .and f [], _, h, hn => by
    simp only [PLogical.compile, Option.bind_eq_some_iff] at h
    obtain ⟨c, hc, h⟩ := h
    cases h
    simp only [PLogical.ints, logicalInts, List.append_nil]
    exact logical_read f hc hn
  | .and f (x :: r), _, h, hn => by
    simp only [PLogical.compile, Option.bind_eq_some_iff, Option.map_eq_some_iff] at h
    obtain ⟨c, hc, l', hl, rfl⟩ := h
    simp only [Logical.named, logicalsNamed, Bool.and_eq_true] at hn
    simp only [PLogical.ints, List.mem_append]
    rintro s (hs | hs)
    · exact logical_read f hc hn.1 s hs
    · exact logicals_read (x :: r) hl hn.2 s hs
  | .paren n e, _, h, hn => by
    simp only [PLogical.compile, Option.map_eq_some_iff] at h
    obtain ⟨c, h, rfl⟩ := h
    refine logical_read e h ?_
    cases n <;> exact hn
  | .cmp l op r, _, h, hn => by
    simp only [PLogical.compile, Option.bind_eq_some_iff, Option.map_eq_some_iff] at h
    obtain ⟨c, hc, l', hl, rfl⟩ := h
    simp only [Logical.named, Bool.and_eq_true] at hn
    simp only [PLogical.ints, List.mem_append]
    rintro s (hs | hs)
    · exact comparable_read l hc hn.1 s hs
    · exact comparable_read r hl hn.2 s hs
  | .query n root segs, _, h, hn => by
    simp only [PLogical.compile, Option.map_eq_some_iff] at h
    obtain ⟨c, h, rfl⟩ := h
    refine segments_read segs h ?_
    cases n <;> exact hn
  | .func n name args, _, h, hn => by
    simp only [PLogical.compile, Option.some.injEq] at h
    subst h
    cases e : compilePArgs args with
    | none => rw [e] at hn; cases n <;> simp [Logical.named] at hn
    | some c =>
      rw [e] at hn
      refine args_read args e ?_
      cases n <;> simp [Logical.named] at hn <;> exact hn.2
theorem logicals_read : ∀ (p : List PLogical) {c}, compileLogicals p = some c → logicalsNamed c = true →
    ∀ s ∈ logicalInts false p, (parseInt s).isSome
  | [], _, _, _ => by simp [logicalInts]
  | p :: l, _, h, hn => by
    simp only [compileLogicals, Option.bind_eq_some_iff, Option.map_eq_some_iff] at h
    obtain ⟨c, hc, l', hl, rfl⟩ := h
    simp only [logicalsNamed, Bool.and_eq_true] at hn
    simp only [logicalInts, List.mem_append]
    rintro s (hs | hs)
    · exact logical_read p hc hn.1 s hs
    · exact logicals_read l hl hn.2 s hs
theorem comparable_read : ∀ (p : PComparable) {c}, p.compile = some c → c.named = true → ∀ s ∈ p.ints false, (parseInt s).isSome
  | .lit l, _, _, _ => by simp [PComparable.ints]
  | .sing q, _, h, _ => by
    simp only [PComparable.compile, PSingQuery.compile, Option.map_eq_some_iff] at h
    obtain ⟨_, ⟨l, h, -⟩, -⟩ := h
    exact singSegs_read h
  | .func name args, _, h, hn => by
    simp only [PComparable.compile, Option.some.injEq] at h
    subst h
    cases e : compilePArgs args with
    | none => rw [e] at hn; simp [Comparable.named] at hn
    | some c =>
      rw [e] at hn
      simp only [Comparable.named, Bool.and_eq_true] at hn
      exact args_read args e hn.2
theorem arg_read : ∀ (p : PArg) {c}, p.compile = some c → c.named = true → ∀ s ∈ p.ints false, (parseInt s).isSome
  | .lit l, _, _, _ => by simp [PArg.ints]
  | .query root segs, _, h, hn => by
    simp only [PArg.compile, Option.map_eq_some_iff] at h
    obtain ⟨c, h, rfl⟩ := h
    exact segments_read segs h hn
  | .logical e, _, h, hn => by
    simp only [PArg.compile, Option.map_eq_some_iff] at h
    obtain ⟨c, h, rfl⟩ := h
    exact logical_read e h hn
  | .func name args, _, h, hn => by
    simp only [PArg.compile, Option.some.injEq] at h
    subst h
    cases e : compilePArgs args with
    | none => rw [e] at hn; simp [Arg.named] at hn
    | some c =>
      rw [e] at hn
      simp only [Arg.named, Bool.and_eq_true] at hn
      exact args_read args e hn.2
theorem args_read : ∀ (p : List PArg) {c}, compilePArgs p = some c → argsNamed c = true →
    ∀ s ∈ argInts false p, (parseInt s).isSome
  | [], _, _, _ => by simp [argInts]
  | p :: l, _, h, hn => by
    simp only [compilePArgs, Option.bind_eq_some_iff, Option.map_eq_some_iff] at h
    obtain ⟨c, hc, l', hl, rfl⟩ := h
    simp only [argsNamed, Bool.and_eq_true] at hn
    simp only [argInts, List.mem_append]
    rintro s (hs | hs)
    · exact arg_read p hc hn.1 s hs
    · exact args_read l hl hn.2 s hs
end

/-! ### Equality of syntax trees -/

mutual
theorem Selector.eq_of_beq : ∀ (a b : Selector), a.beq b = true → a = b
  | .name a, b, h => by cases b <;> simp_all [Selector.beq]
  | .wild, b, h => by cases b <;> simp_all [Selector.beq]
  | .index a, b, h => by cases b <;> simp_all [Selector.beq]
  | .slice a b c, d, h => by cases d <;> simp_all [Selector.beq]
  | .filter c, b, h => by
    cases b with
    | filter c' => simp only [Selector.beq] at h; rw [Logical.eq_of_beq c c' h]
    | _ => simp [Selector.beq] at h
theorem selectors_eq : ∀ (a b : List Selector), selectorsBeq a b = true → a = b
  | [], b, h => by cases b <;> simp_all [selectorsBeq]
  | a :: l, b, h => by
    cases b with
    | nil => simp [selectorsBeq] at h
    | cons b m =>
      simp only [selectorsBeq, Bool.and_eq_true] at h
      rw [Selector.eq_of_beq a b h.1, selectors_eq l m h.2]
theorem Segment.eq_of_beq : ∀ (a b : Segment), a.beq b = true → a = b
  | .mk d l, .mk d' l', h => by
    simp only [Segment.beq, Bool.and_eq_true, beq_iff_eq] at h
    rw [h.1, selectors_eq l l' h.2]
theorem segments_eq : ∀ (a b : List Segment), segmentsBeq a b = true → a = b
  | [], b, h => by cases b <;> simp_all [segmentsBeq]
  | a :: l, b, h => by
    cases b with
    | nil => simp [segmentsBeq] at h
    | cons b m =>
      simp only [segmentsBeq, Bool.and_eq_true] at h
      rw [Segment.eq_of_beq a b h.1, segments_eq l m h.2]
theorem Logical.eq_of_beq : ∀ (a b : Logical), a.beq b = true → a = b
  | .or l, b, h => by
    cases b with
    | or l' => simp only [Logical.beq] at h; rw [logicals_eq l l' h]
    | _ => simp [Logical.beq] at h
  | .and l, b, h => by
    cases b with
    | and l' => simp only [Logical.beq] at h; rw [logicals_eq l l' h]
    | _ => simp [Logical.beq] at h
  | .not c, b, h => by
    cases b with
    | not c' => simp only [Logical.beq] at h; rw [Logical.eq_of_beq c c' h]
    | _ => simp [Logical.beq] at h
  | .cmp l o r, b, h => by
    cases b with
    | cmp l' o' r' =>
      simp only [Logical.beq, Bool.and_eq_true, beq_iff_eq] at h
      rw [Comparable.eq_of_beq l l' h.1.1, h.1.2, Comparable.eq_of_beq r r' h.2]
    | _ => simp [Logical.beq] at h
  | .query r l, b, h => by
    cases b with
    | query r' l' =>
      simp only [Logical.beq, Bool.and_eq_true, beq_iff_eq] at h
      rw [h.1, segments_eq l l' h.2]
    | _ => simp [Logical.beq] at h
  | .func r l, b, h => by
    cases b with
    | func r' l' =>
      simp only [Logical.beq, Bool.and_eq_true, beq_iff_eq] at h
      rw [h.1, args_eq l l' h.2]
    | _ => simp [Logical.beq] at h
theorem logicals_eq : ∀ (a b : List Logical), logicalsBeq a b = true → a = b
  | [], b, h => by cases b <;> simp_all [logicalsBeq]
  | a :: l, b, h => by
    cases b with
    | nil => simp [logicalsBeq] at h
    | cons b m =>
      simp only [logicalsBeq, Bool.and_eq_true] at h
      rw [Logical.eq_of_beq a b h.1, logicals_eq l m h.2]
theorem Comparable.eq_of_beq : ∀ (a b : Comparable), a.beq b = true → a = b
  | .lit a, b, h => by cases b <;> simp_all [Comparable.beq]
  | .sing a, b, h => by cases b <;> simp_all [Comparable.beq]
  | .func r l, b, h => by
    cases b with
    | func r' l' =>
      simp only [Comparable.beq, Bool.and_eq_true, beq_iff_eq] at h
      rw [h.1, args_eq l l' h.2]
    | _ => simp [Comparable.beq] at h
theorem Arg.eq_of_beq : ∀ (a b : Arg), a.beq b = true → a = b
  | .lit a, b, h => by cases b <;> simp_all [Arg.beq]
  | .query r l, b, h => by
    cases b with
    | query r' l' =>
      simp only [Arg.beq, Bool.and_eq_true, beq_iff_eq] at h
      rw [h.1, segments_eq l l' h.2]
    | _ => simp [Arg.beq] at h
  | .logical c, b, h => by
    cases b with
    | logical c' => simp only [Arg.beq] at h; rw [Logical.eq_of_beq c c' h]
    | _ => simp [Arg.beq] at h
  | .func r l, b, h => by
    cases b with
    | func r' l' =>
      simp only [Arg.beq, Bool.and_eq_true, beq_iff_eq] at h
      rw [h.1, args_eq l l' h.2]
    | _ => simp [Arg.beq] at h
theorem args_eq : ∀ (a b : List Arg), argsBeq a b = true → a = b
  | [], b, h => by cases b <;> simp_all [argsBeq]
  | a :: l, b, h => by
    cases b with
    | nil => simp [argsBeq] at h
    | cons b m =>
      simp only [argsBeq, Bool.and_eq_true] at h
      rw [Arg.eq_of_beq a b h.1, args_eq l m h.2]
end

end Verif.JPath
