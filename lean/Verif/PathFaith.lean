import Verif.PathShare

/-!
# Tables of rooted queries: references

What a runner with references to a table stands for: a reference to an entry stands for the query the entry is for.
-/

set_option linter.unusedSimpArgs false
set_option linter.unusedVariables false
set_option linter.unusedSectionVars false

namespace Verif.JPath

/-- A runner of a singular query stands for it. -/
def singFor (tab : Tables) (root : Bool) (segs : List SingSeg) : CmpR → Prop
  | .sing l => root = false ∧ l = segs
  | .inner i => root = true ∧ tab.sing[i]? = some segs
  | _ => False

section
variable (tab : Tables)

mutual
/-- A runner of a condition stands for it. -/
def condFor : Logical → CondR → Prop
  | .or l, c => ∃ l', c = .or l' ∧ condsFor l l'
  | .and l, c => ∃ l', c = .and l' ∧ condsFor l l'
  | .not a, c => ∃ a', c = .not a' ∧ condFor a a'
  | .cmp a o b, c => ∃ a' b', c = compileCmp a' o b' ∧ compFor a a' ∧ compFor b b'
  | .query true segs, c => ∃ i r, c = .query (.inner i) ∧ tab.queries[i]? = some (segs, r)
  | .query false segs, c => ∃ r, c = .query (.run r) ∧ segsFor segs r
  | .func n l, c => ∃ f l', c = .func f l' ∧ Fn.ofName n = some f ∧ argsFor l l'
@[inherit_doc condFor] def condsFor : List Logical → List CondR → Prop
  | [], c => c = []
  | a :: l, c => ∃ a' l', c = a' :: l' ∧ condFor a a' ∧ condsFor l l'
@[inherit_doc condFor] def segsFor : List Segment → List SegR → Prop
  | [], c => c = []
  | a :: l, c => ∃ a' l', c = a' :: l' ∧ segFor a a' ∧ segsFor l l'
@[inherit_doc condFor] def segFor : Segment → SegR → Prop
  | .mk d l, c => ∃ l', c = .mk d l' ∧ selsFor l l'
@[inherit_doc condFor] def selsFor : List Selector → List (Sel CondR) → Prop
  | [], c => c = []
  | a :: l, c => ∃ a' l', c = a' :: l' ∧ selFor a a' ∧ selsFor l l'
@[inherit_doc condFor] def selFor : Selector → Sel CondR → Prop
  | .name n, c => c = .name n
  | .wild, c => c = .wild
  | .index i, c => c = .index i
  | .slice x y z, c => c = compileSlice x y z
  | .filter a, c => ∃ a', c = .filter a' ∧ condFor a a'
@[inherit_doc condFor] def compFor : Comparable → CmpR → Prop
  | .lit l, c => c = .lit l
  | .sing q, c => singFor tab q.root q.segs c
  | .func n l, c => ∃ f l', c = .func f l' ∧ Fn.ofName n = some f ∧ argsFor l l'
@[inherit_doc condFor] def argsFor : List Arg → List ArgR → Prop
  | [], c => c = []
  | a :: l, c => ∃ a' l', c = a' :: l' ∧ argFor a a' ∧ argsFor l l'
@[inherit_doc condFor] def argFor : Arg → ArgR → Prop
  | .lit l, c => c = .value (.lit l)
  | .query root segs, c =>
    (∃ ss a, c = .value a ∧ asSingular segs = some ss ∧ singFor tab root ss a) ∨
    (root = true ∧ ∃ i r, c = .nodes (.inner i) ∧ tab.queries[i]? = some (segs, r)) ∨
    root = false ∧ ∃ r, c = .nodes (.run r) ∧ segsFor segs r
  | .logical _, _ => False
  | .func n l, c => ∃ f l', c = .value (.func f l') ∧ Fn.ofName n = some f ∧ argsFor l l'
end

/-- The runner of each entry stands for the query the entry is for. -/
def Tables.Faithful : Prop := ∀ (k : Nat) segs r, tab.queries[k]? = some (segs, r) → segsFor tab segs r

end

theorem get_prefix {α : Type} {l m : List α} {i : Nat} {a : α} (h : l <+: m) (e : l[i]? = some a) : m[i]? = some a := by
  obtain ⟨t, rfl⟩ := h
  rw [List.getElem?_append_left (List.getElem?_eq_some_iff.1 e).1, e]

section
variable {tab tab' : Tables}

theorem singFor_mono (h : tab.Le tab') {root : Bool} {segs : List SingSeg} : ∀ {c}, singFor tab root segs c → singFor tab' root segs c
  | .sing _, hc => hc
  | .inner _, hc => ⟨hc.1, get_prefix h.sing hc.2⟩
  | .lit _, hc => hc.elim
  | .func _ _, hc => hc.elim

mutual
theorem condFor_mono (h : tab.Le tab') : ∀ {s : Logical} {c}, condFor tab s c → condFor tab' s c
  | .or l, c, hc => by rw [condFor] at hc ⊢; exact hc.imp fun _ hc => ⟨hc.1, condsFor_mono h hc.2⟩
  | .and l, c, hc => by rw [condFor] at hc ⊢; exact hc.imp fun _ hc => ⟨hc.1, condsFor_mono h hc.2⟩
  | .not a, c, hc => by rw [condFor] at hc ⊢; exact hc.imp fun _ hc => ⟨hc.1, condFor_mono h hc.2⟩
  | .cmp a o b, c, hc => by
    rw [condFor] at hc ⊢
    exact hc.imp fun _ hc => hc.imp fun _ hc => ⟨hc.1, compFor_mono h hc.2.1, compFor_mono h hc.2.2⟩
  | .query true segs, c, hc => by
    rw [condFor] at hc ⊢
    exact hc.imp fun _ hc => hc.imp fun _ hc => ⟨hc.1, get_prefix h.queries hc.2⟩
  | .query false segs, c, hc => by rw [condFor] at hc ⊢; exact hc.imp fun _ hc => ⟨hc.1, segsFor_mono h hc.2⟩
  | .func n l, c, hc => by
    rw [condFor] at hc ⊢
    exact hc.imp fun _ hc => hc.imp fun _ hc => ⟨hc.1, hc.2.1, argsFor_mono h hc.2.2⟩
theorem condsFor_mono (h : tab.Le tab') : ∀ {s : List Logical} {c}, condsFor tab s c → condsFor tab' s c
  | [], c, hc => by rw [condsFor] at hc ⊢; exact hc
  | a :: l, c, hc => by
    rw [condsFor] at hc ⊢
    exact hc.imp fun _ hc => hc.imp fun _ hc => ⟨hc.1, condFor_mono h hc.2.1, condsFor_mono h hc.2.2⟩
theorem segsFor_mono (h : tab.Le tab') : ∀ {s : List Segment} {c}, segsFor tab s c → segsFor tab' s c
  | [], c, hc => by rw [segsFor] at hc ⊢; exact hc
  | a :: l, c, hc => by
    rw [segsFor] at hc ⊢
    exact hc.imp fun _ hc => hc.imp fun _ hc => ⟨hc.1, segFor_mono h hc.2.1, segsFor_mono h hc.2.2⟩
theorem segFor_mono (h : tab.Le tab') : ∀ {s : Segment} {c}, segFor tab s c → segFor tab' s c
  | .mk d l, c, hc => by rw [segFor] at hc ⊢; exact hc.imp fun _ hc => ⟨hc.1, selsFor_mono h hc.2⟩
theorem selsFor_mono (h : tab.Le tab') : ∀ {s : List Selector} {c}, selsFor tab s c → selsFor tab' s c
  | [], c, hc => by rw [selsFor] at hc ⊢; exact hc
  | a :: l, c, hc => by
    rw [selsFor] at hc ⊢
    exact hc.imp fun _ hc => hc.imp fun _ hc => ⟨hc.1, selFor_mono h hc.2.1, selsFor_mono h hc.2.2⟩
theorem selFor_mono (h : tab.Le tab') : ∀ {s : Selector} {c}, selFor tab s c → selFor tab' s c
  | .name n, c, hc => by rw [selFor] at hc ⊢; exact hc
  | .wild, c, hc => by rw [selFor] at hc ⊢; exact hc
  | .index i, c, hc => by rw [selFor] at hc ⊢; exact hc
  | .slice x y z, c, hc => by rw [selFor] at hc ⊢; exact hc
  | .filter a, c, hc => by rw [selFor] at hc ⊢; exact hc.imp fun _ hc => ⟨hc.1, condFor_mono h hc.2⟩
theorem compFor_mono (h : tab.Le tab') : ∀ {s : Comparable} {c}, compFor tab s c → compFor tab' s c
  | .lit l, c, hc => by rw [compFor] at hc ⊢; exact hc
  | .sing q, c, hc => by rw [compFor] at hc ⊢; exact singFor_mono h hc
  | .func n l, c, hc => by
    rw [compFor] at hc ⊢
    exact hc.imp fun _ hc => hc.imp fun _ hc => ⟨hc.1, hc.2.1, argsFor_mono h hc.2.2⟩
theorem argsFor_mono (h : tab.Le tab') : ∀ {s : List Arg} {c}, argsFor tab s c → argsFor tab' s c
  | [], c, hc => by rw [argsFor] at hc ⊢; exact hc
  | a :: l, c, hc => by
    rw [argsFor] at hc ⊢
    exact hc.imp fun _ hc => hc.imp fun _ hc => ⟨hc.1, argFor_mono h hc.2.1, argsFor_mono h hc.2.2⟩
theorem argFor_mono (h : tab.Le tab') : ∀ {s : Arg} {c}, argFor tab s c → argFor tab' s c
  | .lit l, c, hc => by rw [argFor] at hc ⊢; exact hc
  | .query root segs, c, hc => by
    rw [argFor] at hc ⊢
    rcases hc with hc | hc | hc
    · exact .inl (hc.imp fun _ hc => hc.imp fun _ hc => ⟨hc.1, hc.2.1, singFor_mono h hc.2.2⟩)
    · exact .inr (.inl ⟨hc.1, hc.2.imp fun _ hc => hc.imp fun _ hc => ⟨hc.1, get_prefix h.queries hc.2⟩⟩)
    · exact .inr (.inr ⟨hc.1, hc.2.imp fun _ hc => ⟨hc.1, segsFor_mono h hc.2⟩⟩)
  | .logical _, c, hc => by rw [argFor] at hc; exact hc.elim
  | .func n l, c, hc => by
    rw [argFor] at hc ⊢
    exact hc.imp fun _ hc => hc.imp fun _ hc => ⟨hc.1, hc.2.1, argsFor_mono h hc.2.2⟩
end

end

theorem compileSing_for (tab : Tables) (root : Bool) (segs : List SingSeg) :
    (tab.Faithful → (compileSing tab root segs).1.Faithful) ∧ singFor (compileSing tab root segs).1 root segs (compileSing tab root segs).2 := by
  unfold compileSing
  cases root with
  | false => exact ⟨id, rfl, rfl⟩
  | true =>
    simp only [if_true]
    split
    · rename_i i hi
      refine ⟨id, rfl, ?_⟩
      obtain ⟨hl, he, -⟩ := List.findIdx?_eq_some_iff_getElem.1 hi
      simp only [beq_iff_eq] at he
      rw [List.getElem?_eq_getElem hl, he]
    · have hl : tab.Le { tab with sing := tab.sing ++ [segs] } := ⟨prefix_append _ _, List.prefix_refl _⟩
      exact ⟨fun hf k s r hk => segsFor_mono hl (hf k s r hk), rfl, by simp⟩

theorem found_for {tab : Tables} {segs : List Segment} {i : Nat} (h : tab.queries.findIdx? (segmentsBeq ·.1 segs) = some i) :
    ∃ r, tab.queries[i]? = some (segs, r) := by
  obtain ⟨hl, he, -⟩ := List.findIdx?_eq_some_iff_getElem.1 h
  refine ⟨tab.queries[i].2, ?_⟩
  rw [List.getElem?_eq_getElem hl, ← segmentsBeq_eq he]

theorem add_for {tab tab1 : Tables} {segs : List Segment} {r : List SegR} (hf : tab.Faithful → tab1.Faithful) (h : segsFor tab1 segs r) :
    (tab.Faithful → Tables.Faithful { tab1 with queries := tab1.queries ++ [(segs, r)] }) ∧
    ({ tab1 with queries := tab1.queries ++ [(segs, r)] } : Tables).queries[tab1.queries.length]? = some (segs, r) := by
  have hl : tab1.Le { tab1 with queries := tab1.queries ++ [(segs, r)] } := ⟨List.prefix_refl _, prefix_append _ _⟩
  refine ⟨fun ht k s r' hk => ?_, by simp⟩
  simp only [List.getElem?_append] at hk
  split at hk
  · exact segsFor_mono hl (hf ht k s r' hk)
  · have hk0 : k = tab1.queries.length := by
      have := (List.getElem?_eq_some_iff.1 hk).1
      simp at this; omega
    subst hk0
    simp only [Nat.sub_self, List.getElem?_cons_zero, Option.some.injEq, Prod.mk.injEq] at hk
    obtain ⟨rfl, rfl⟩ := hk
    exact segsFor_mono hl h

theorem checkFn_name {name : Bytes} {n : Nat} {ty : Ty} {f : Fn} (h : checkFn name n ty = some f) : Fn.ofName name = some f ∧ n = f.inputs.length := by
  simp only [checkFn, Option.bind_eq_some_iff] at h
  obtain ⟨g, hg, h⟩ := h
  split at h
  · rename_i hc
    simp only [Option.some.injEq] at h
    subst h
    exact ⟨hg, hc.2⟩
  · cases h

mutual
theorem compileSel_for : ∀ {tab tab' : Tables} {s : Selector} {r}, compileSel tab s = some (tab', r) → (tab.Faithful → tab'.Faithful) ∧ selFor tab' s r
  | tab, tab', .name n, r, h => by
    simp only [compileSel, Option.some.injEq, Prod.mk.injEq] at h; rw [← h.1, ← h.2]; exact ⟨id, by rw [selFor]⟩
  | tab, tab', .wild, r, h => by
    simp only [compileSel, Option.some.injEq, Prod.mk.injEq] at h; rw [← h.1, ← h.2]; exact ⟨id, by rw [selFor]⟩
  | tab, tab', .index i, r, h => by
    simp only [compileSel, Option.some.injEq, Prod.mk.injEq] at h; rw [← h.1, ← h.2]; exact ⟨id, by rw [selFor]⟩
  | tab, tab', .slice a b c, r, h => by
    simp only [compileSel, Option.some.injEq, Prod.mk.injEq] at h; rw [← h.1, ← h.2]; exact ⟨id, by rw [selFor]⟩
  | tab, tab', .filter c, r, h => by
    simp only [compileSel, Option.map_eq_some_iff] at h
    obtain ⟨⟨t, x⟩, h1, h2⟩ := h
    simp only [Prod.mk.injEq] at h2
    rw [← h2.1, ← h2.2]
    exact ⟨(compileCond_for h1).1, by rw [selFor]; exact ⟨_, rfl, (compileCond_for h1).2⟩⟩
theorem compileSels_for : ∀ {tab tab' : Tables} {s : List Selector} {r}, compileSels tab s = some (tab', r) → (tab.Faithful → tab'.Faithful) ∧ selsFor tab' s r
  | tab, tab', [], r, h => by
    simp only [compileSels, Option.some.injEq, Prod.mk.injEq] at h; rw [← h.1, ← h.2]; exact ⟨id, by rw [selsFor]⟩
  | tab, tab', s :: l, r, h => by
    simp only [compileSels, Option.bind_eq_some_iff, Option.map_eq_some_iff] at h
    obtain ⟨⟨t, x⟩, h1, ⟨t', x'⟩, h2, h3⟩ := h
    simp only [Prod.mk.injEq] at h3
    rw [← h3.1, ← h3.2]
    have i1 := compileSel_for h1
    have i2 := compileSels_for h2
    exact ⟨fun h => i2.1 (i1.1 h), by rw [selsFor]; exact ⟨_, _, rfl, selFor_mono (compileSels_shares h2).le i1.2, i2.2⟩⟩
theorem compileSeg_for : ∀ {tab tab' : Tables} {s : Segment} {r}, compileSeg tab s = some (tab', r) → (tab.Faithful → tab'.Faithful) ∧ segFor tab' s r
  | tab, tab', .mk d sels, r, h => by
    simp only [compileSeg, Option.map_eq_some_iff] at h
    obtain ⟨⟨t, x⟩, h1, h2⟩ := h
    simp only [Prod.mk.injEq] at h2
    rw [← h2.1, ← h2.2]
    exact ⟨(compileSels_for h1).1, by rw [segFor]; exact ⟨_, rfl, (compileSels_for h1).2⟩⟩
theorem compileSegs_for : ∀ {tab tab' : Tables} {s : List Segment} {r}, compileSegs tab s = some (tab', r) → (tab.Faithful → tab'.Faithful) ∧ segsFor tab' s r
  | tab, tab', [], r, h => by
    simp only [compileSegs, Option.some.injEq, Prod.mk.injEq] at h; rw [← h.1, ← h.2]; exact ⟨id, by rw [segsFor]⟩
  | tab, tab', s :: l, r, h => by
    simp only [compileSegs, Option.bind_eq_some_iff, Option.map_eq_some_iff] at h
    obtain ⟨⟨t, x⟩, h1, ⟨t', x'⟩, h2, h3⟩ := h
    simp only [Prod.mk.injEq] at h3
    rw [← h3.1, ← h3.2]
    have i1 := compileSegs_for h1
    have i2 := compileSeg_for h2
    exact ⟨fun h => i2.1 (i1.1 h), by rw [segsFor]; exact ⟨_, _, rfl, i2.2, segsFor_mono (compileSeg_shares h2).le i1.2⟩⟩
theorem compileCond_for : ∀ {tab tab' : Tables} {s : Logical} {r}, compileCond tab s = some (tab', r) → (tab.Faithful → tab'.Faithful) ∧ condFor tab' s r
  | tab, tab', .or l, r, h => by
    simp only [compileCond, Option.map_eq_some_iff] at h
    obtain ⟨⟨t, x⟩, h1, h2⟩ := h
    simp only [Prod.mk.injEq] at h2
    rw [← h2.1, ← h2.2]
    exact ⟨(compileConds_for h1).1, by rw [condFor]; exact ⟨_, rfl, (compileConds_for h1).2⟩⟩
  | tab, tab', .and l, r, h => by
    simp only [compileCond, Option.map_eq_some_iff] at h
    obtain ⟨⟨t, x⟩, h1, h2⟩ := h
    simp only [Prod.mk.injEq] at h2
    rw [← h2.1, ← h2.2]
    exact ⟨(compileConds_for h1).1, by rw [condFor]; exact ⟨_, rfl, (compileConds_for h1).2⟩⟩
  | tab, tab', .not c, r, h => by
    simp only [compileCond, Option.map_eq_some_iff] at h
    obtain ⟨⟨t, x⟩, h1, h2⟩ := h
    simp only [Prod.mk.injEq] at h2
    rw [← h2.1, ← h2.2]
    exact ⟨(compileCond_for h1).1, by rw [condFor]; exact ⟨_, rfl, (compileCond_for h1).2⟩⟩
  | tab, tab', .cmp a o b, r, h => by
    simp only [compileCond, Option.bind_eq_some_iff, Option.map_eq_some_iff] at h
    obtain ⟨⟨t, x⟩, h1, ⟨t', x'⟩, h2, h3⟩ := h
    simp only [Prod.mk.injEq] at h3
    rw [← h3.1, ← h3.2]
    have i1 := compileComparable_for h1
    have i2 := compileComparable_for h2
    exact ⟨fun h => i2.1 (i1.1 h), by rw [condFor]; exact ⟨_, _, rfl, compFor_mono (compileComparable_shares h2).le i1.2, i2.2⟩⟩
  | tab, tab', .query true segs, r, h => by
    simp only [compileCond, if_true] at h
    split at h
    · rename_i i hi
      simp only [Option.some.injEq, Prod.mk.injEq] at h
      rw [← h.1, ← h.2]
      exact ⟨id, by rw [condFor]; exact ⟨_, (found_for hi).imp fun _ h => ⟨rfl, h⟩⟩⟩
    · rename_i hi
      simp only [Option.map_eq_some_iff] at h
      obtain ⟨⟨t, x⟩, h1, h2⟩ := h
      simp only [Prod.mk.injEq] at h2
      rw [← h2.1, ← h2.2]
      have i1 := compileSegs_for h1
      have i2 := add_for i1.1 i1.2
      exact ⟨i2.1, by rw [condFor]; exact ⟨_, _, rfl, i2.2⟩⟩
  | tab, tab', .query false segs, r, h => by
    simp only [compileCond, Bool.false_eq_true, if_false, Option.map_eq_some_iff] at h
    obtain ⟨⟨t, x⟩, h1, h2⟩ := h
    simp only [Prod.mk.injEq] at h2
    rw [← h2.1, ← h2.2]
    exact ⟨(compileSegs_for h1).1, by rw [condFor]; exact ⟨_, rfl, (compileSegs_for h1).2⟩⟩
  | tab, tab', .func name args, r, h => by
    simp only [compileCond, Option.bind_eq_some_iff, Option.map_eq_some_iff] at h
    obtain ⟨f, hf, ⟨t, x⟩, h1, h2⟩ := h
    simp only [Prod.mk.injEq] at h2
    rw [← h2.1, ← h2.2]
    have i1 := compileArgs_for h1 (checkFn_name hf).2
    exact ⟨i1.1, by rw [condFor]; exact ⟨_, _, rfl, (checkFn_name hf).1, i1.2⟩⟩
theorem compileConds_for : ∀ {tab tab' : Tables} {s : List Logical} {r}, compileConds tab s = some (tab', r) → (tab.Faithful → tab'.Faithful) ∧ condsFor tab' s r
  | tab, tab', [], r, h => by
    simp only [compileConds, Option.some.injEq, Prod.mk.injEq] at h; rw [← h.1, ← h.2]; exact ⟨id, by rw [condsFor]⟩
  | tab, tab', s :: l, r, h => by
    simp only [compileConds, Option.bind_eq_some_iff, Option.map_eq_some_iff] at h
    obtain ⟨⟨t, x⟩, h1, ⟨t', x'⟩, h2, h3⟩ := h
    simp only [Prod.mk.injEq] at h3
    rw [← h3.1, ← h3.2]
    have i1 := compileCond_for h1
    have i2 := compileConds_for h2
    exact ⟨fun h => i2.1 (i1.1 h), by rw [condsFor]; exact ⟨_, _, rfl, condFor_mono (compileConds_shares h2).le i1.2, i2.2⟩⟩
theorem compileComparable_for : ∀ {tab tab' : Tables} {s : Comparable} {r}, compileComparable tab s = some (tab', r) →
    (tab.Faithful → tab'.Faithful) ∧ compFor tab' s r
  | tab, tab', .lit l, r, h => by
    simp only [compileComparable, Option.some.injEq, Prod.mk.injEq] at h; rw [← h.1, ← h.2]; exact ⟨id, by rw [compFor]⟩
  | tab, tab', .sing q, r, h => by
    simp only [compileComparable, Option.some.injEq] at h
    have := compileSing_for tab q.root q.segs
    rw [h] at this
    exact ⟨this.1, by rw [compFor]; exact this.2⟩
  | tab, tab', .func name args, r, h => by
    simp only [compileComparable, Option.bind_eq_some_iff, Option.map_eq_some_iff] at h
    obtain ⟨f, hf, ⟨t, x⟩, h1, h2⟩ := h
    simp only [Prod.mk.injEq] at h2
    rw [← h2.1, ← h2.2]
    have i1 := compileArgs_for h1 (checkFn_name hf).2
    exact ⟨i1.1, by rw [compFor]; exact ⟨_, _, rfl, (checkFn_name hf).1, i1.2⟩⟩
theorem compileArg_for : ∀ {tab tab' : Tables} {ty : Ty} {s : Arg} {r}, compileArg tab ty s = some (tab', r) → (tab.Faithful → tab'.Faithful) ∧ argFor tab' s r
  | tab, tab', ty, .lit l, r, h => by
    simp only [compileArg] at h
    split at h
    · simp only [Option.some.injEq, Prod.mk.injEq] at h; rw [← h.1, ← h.2]; exact ⟨id, by rw [argFor]⟩
    · cases h
  | tab, tab', ty, .query root segs, r, h => by
    simp only [compileArg] at h
    split at h
    · simp only [Option.map_eq_some_iff] at h
      obtain ⟨ss, h1, h2⟩ := h
      simp only [Prod.mk.injEq] at h2
      rw [← h2.1, ← h2.2]
      have := compileSing_for tab root ss
      exact ⟨this.1, by rw [argFor]; exact .inl ⟨_, _, rfl, h1, this.2⟩⟩
    · split at h
      · rename_i hr
        split at h
        · rename_i i hi
          simp only [Option.some.injEq, Prod.mk.injEq] at h
          rw [← h.1, ← h.2]
          exact ⟨id, by rw [argFor]; exact .inr (.inl ⟨hr, _, (found_for hi).imp fun _ h => ⟨rfl, h⟩⟩)⟩
        · rename_i hi
          simp only [Option.map_eq_some_iff] at h
          obtain ⟨⟨t, x⟩, h1, h2⟩ := h
          simp only [Prod.mk.injEq] at h2
          rw [← h2.1, ← h2.2]
          have i1 := compileSegs_for h1
          have i2 := add_for i1.1 i1.2
          exact ⟨i2.1, by rw [argFor]; exact .inr (.inl ⟨hr, _, _, rfl, i2.2⟩)⟩
      · rename_i hr
        simp only [Option.map_eq_some_iff] at h
        obtain ⟨⟨t, x⟩, h1, h2⟩ := h
        simp only [Prod.mk.injEq] at h2
        rw [← h2.1, ← h2.2]
        exact ⟨(compileSegs_for h1).1, by rw [argFor]; exact .inr (.inr ⟨by simpa using hr, _, rfl, (compileSegs_for h1).2⟩)⟩
  | tab, tab', ty, .logical c, r, h => by simp only [compileArg] at h; cases h
  | tab, tab', ty, .func name args, r, h => by
    simp only [compileArg, Option.bind_eq_some_iff, Option.map_eq_some_iff] at h
    obtain ⟨f, hf, ⟨t, x⟩, h1, h2⟩ := h
    simp only [Prod.mk.injEq] at h2
    rw [← h2.1, ← h2.2]
    have i1 := compileArgs_for h1 (checkFn_name hf).2
    exact ⟨i1.1, by rw [argFor]; exact ⟨_, _, rfl, (checkFn_name hf).1, i1.2⟩⟩
theorem compileArgs_for : ∀ {tab tab' : Tables} {tys : List Ty} {s : List Arg} {r}, compileArgs tab tys s = some (tab', r) → s.length = tys.length →
    (tab.Faithful → tab'.Faithful) ∧ argsFor tab' s r
  | tab, tab', [], [], r, h, hl => by
    simp only [compileArgs, Option.some.injEq, Prod.mk.injEq] at h; rw [← h.1, ← h.2]; exact ⟨id, by rw [argsFor]⟩
  | tab, tab', [], _ :: _, r, h, hl => by simp at hl
  | tab, tab', ty :: tys, [], r, h, hl => by simp at hl
  | tab, tab', ty :: tys, s :: l, r, h, hl => by
    simp only [compileArgs, Option.bind_eq_some_iff, Option.map_eq_some_iff] at h
    obtain ⟨⟨t, x⟩, h1, ⟨t', x'⟩, h2, h3⟩ := h
    simp only [Prod.mk.injEq] at h3
    rw [← h3.1, ← h3.2]
    have i1 := compileArg_for h1
    have i2 := compileArgs_for h2 (by simpa using hl)
    exact ⟨fun h => i2.1 (i1.1 h), by rw [argsFor]; exact ⟨_, _, rfl, argFor_mono (compileArgs_shares h2).le i1.2, i2.2⟩⟩
end

end Verif.JPath
