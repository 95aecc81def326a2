import Verif.PathIntLemmas

/-!
# Compiled queries have no functions without a name
-/

namespace Verif.JPath

/-- The queries of the table have no functions without a name. -/
def Tables.Named (t : Tables) : Prop := ∀ e ∈ t.queries, segmentsNamed e.1 = true

theorem asSingular_named : ∀ {l : List Segment} {l'}, asSingular l = some l' → segmentsNamed l = true
  | [], _, _ => rfl
  | .mk d [] :: l, _, h => by simp [asSingular] at h
  | .mk d [.name n] :: l, _, h => by
    simp only [asSingular] at h
    split at h
    · cases h
    · obtain ⟨_, h, -⟩ := Option.map_eq_some_iff.1 h
      simp [segmentsNamed, Segment.named, selectorsNamed, Selector.named, asSingular_named h]
  | .mk d [.index n] :: l, _, h => by
    simp only [asSingular] at h
    split at h
    · cases h
    · obtain ⟨_, h, -⟩ := Option.map_eq_some_iff.1 h
      simp [segmentsNamed, Segment.named, selectorsNamed, Selector.named, asSingular_named h]
  | .mk d [.wild] :: l, _, h => by simp [asSingular] at h
  | .mk d [.slice _ _ _] :: l, _, h => by simp [asSingular] at h
  | .mk d [.filter _] :: l, _, h => by simp [asSingular] at h
  | .mk d (_ :: _ :: _) :: l, _, h => by simp [asSingular] at h

theorem compileSing_named {tab : Tables} (h : tab.Named) (root : Bool) (segs) : (compileSing tab root segs).1.Named := by
  unfold compileSing
  repeat' split
  all_goals exact h

theorem checkFn_named {name n ty f} (h : checkFn name n ty = some f) : name.isEmpty = false := by
  cases name with
  | nil => simp [checkFn, Fn.ofName] at h
  | cons => rfl

theorem lookup_named {tab : Tables} (h : tab.Named) {segs i} (e : tab.queries.findIdx? (segmentsBeq ·.1 segs) = some i) :
    segmentsNamed segs = true := by
  obtain ⟨hi, h1, -⟩ := List.findIdx?_eq_some_iff_getElem.1 e
  rw [← segments_eq _ _ h1]
  exact h _ (List.getElem_mem _)

mutual
theorem compileSel_named : ∀ (s : Selector) {tab : Tables}, tab.Named → ∀ {tab' r}, compileSel tab s = some (tab', r) → s.named = true ∧ tab'.Named
  | .name _, tab, h, tab', r, e => by cases e; exact ⟨rfl, h⟩
  | .wild, tab, h, tab', r, e => by cases e; exact ⟨rfl, h⟩
  | .index _, tab, h, tab', r, e => by cases e; exact ⟨rfl, h⟩
  | .slice _ _ _, tab, h, tab', r, e => by cases e; exact ⟨rfl, h⟩
  | .filter c, tab, h, tab', r, e => by
    simp only [compileSel, Option.map_eq_some_iff] at e
    obtain ⟨⟨t, c'⟩, e, e'⟩ := e
    cases e'
    exact compileCond_named c h e
theorem compileSels_named : ∀ (s : List Selector) {tab : Tables}, tab.Named → ∀ {tab' r}, compileSels tab s = some (tab', r) →
    selectorsNamed s = true ∧ tab'.Named
  | [], tab, h, tab', r, e => by cases e; exact ⟨rfl, h⟩
  | s :: l, tab, h, tab', r, e => by
    simp only [compileSels, Option.bind_eq_some_iff, Option.map_eq_some_iff] at e
    obtain ⟨⟨t, c⟩, e, ⟨t', l'⟩, e', e''⟩ := e
    cases e''
    have h1 := compileSel_named s h e
    have h2 := compileSels_named l h1.2 e'
    exact ⟨by simp [selectorsNamed, h1.1, h2.1], h2.2⟩
theorem compileSeg_named : ∀ (s : Segment) {tab : Tables}, tab.Named → ∀ {tab' r}, compileSeg tab s = some (tab', r) → s.named = true ∧ tab'.Named
  | .mk d l, tab, h, tab', r, e => by
    simp only [compileSeg, Option.map_eq_some_iff] at e
    obtain ⟨⟨t, c'⟩, e, e'⟩ := e
    cases e'
    exact compileSels_named l h e
theorem compileSegs_named : ∀ (s : List Segment) {tab : Tables}, tab.Named → ∀ {tab' r}, compileSegs tab s = some (tab', r) →
    segmentsNamed s = true ∧ tab'.Named
  | [], tab, h, tab', r, e => by cases e; exact ⟨rfl, h⟩
  | s :: l, tab, h, tab', r, e => by
    simp only [compileSegs, Option.bind_eq_some_iff, Option.map_eq_some_iff] at e
    obtain ⟨⟨t, c⟩, e, ⟨t', l'⟩, e', e''⟩ := e
    cases e''
    have h1 := compileSegs_named l h e
    have h2 := compileSeg_named s h1.2 e'
    exact ⟨by simp [segmentsNamed, h1.1, h2.1], h2.2⟩
theorem compileCond_named : ∀ (s : Logical) {tab : Tables}, tab.Named → ∀ {tab' r}, compileCond tab s = some (tab', r) → s.named = true ∧ tab'.Named
  | .or l, tab, h, tab', r, e => by
    simp only [compileCond, Option.map_eq_some_iff] at e
    obtain ⟨⟨t, c'⟩, e, e'⟩ := e
    cases e'
    exact compileConds_named l h e
  | .and l, tab, h, tab', r, e => by
    simp only [compileCond, Option.map_eq_some_iff] at e
    obtain ⟨⟨t, c'⟩, e, e'⟩ := e
    cases e'
    exact compileConds_named l h e
  | .not c, tab, h, tab', r, e => by
    simp only [compileCond, Option.map_eq_some_iff] at e
    obtain ⟨⟨t, c'⟩, e, e'⟩ := e
    cases e'
    exact compileCond_named c h e
  | .cmp l op r, tab, h, tab', _, e => by
    simp only [compileCond, Option.bind_eq_some_iff, Option.map_eq_some_iff] at e
    obtain ⟨⟨t, c⟩, e, ⟨t', l'⟩, e', e''⟩ := e
    cases e''
    have h1 := compileComparable_named l h e
    have h2 := compileComparable_named r h1.2 e'
    exact ⟨by simp [Logical.named, h1.1, h2.1], h2.2⟩
  | .query root segs, tab, h, tab', _, e => by
    simp only [compileCond] at e
    split at e
    · split at e
      · rename_i i hi
        cases e
        exact ⟨lookup_named h hi, h⟩
      · simp only [Option.map_eq_some_iff] at e
        obtain ⟨⟨t, c'⟩, e, e'⟩ := e
        cases e'
        have h1 := compileSegs_named segs h e
        refine ⟨h1.1, fun x hx => ?_⟩
        rcases List.mem_append.1 hx with hx | hx
        · exact h1.2 x hx
        · rw [List.mem_singleton.1 hx]; exact h1.1
    · simp only [Option.map_eq_some_iff] at e
      obtain ⟨⟨t, c'⟩, e, e'⟩ := e
      cases e'
      exact compileSegs_named segs h e
  | .func name args, tab, h, tab', _, e => by
    simp only [compileCond, Option.bind_eq_some_iff, Option.map_eq_some_iff] at e
    obtain ⟨f, ef, ⟨t', l'⟩, e', e''⟩ := e
    cases e''
    have h1 := compileArgs_named args h (by
      have := ef
      unfold checkFn at this
      simp only [Option.bind_eq_some_iff] at this
      obtain ⟨g, -, hg⟩ := this
      split at hg
      · rename_i hc; cases hg; exact hc.2
      · cases hg) e'
    exact ⟨by simp [Logical.named, checkFn_named ef, h1.1], h1.2⟩
theorem compileConds_named : ∀ (s : List Logical) {tab : Tables}, tab.Named → ∀ {tab' r}, compileConds tab s = some (tab', r) →
    logicalsNamed s = true ∧ tab'.Named
  | [], tab, h, tab', r, e => by cases e; exact ⟨rfl, h⟩
  | s :: l, tab, h, tab', r, e => by
    simp only [compileConds, Option.bind_eq_some_iff, Option.map_eq_some_iff] at e
    obtain ⟨⟨t, c⟩, e, ⟨t', l'⟩, e', e''⟩ := e
    cases e''
    have h1 := compileCond_named s h e
    have h2 := compileConds_named l h1.2 e'
    exact ⟨by simp [logicalsNamed, h1.1, h2.1], h2.2⟩
theorem compileComparable_named : ∀ (s : Comparable) {tab : Tables}, tab.Named → ∀ {tab' r}, compileComparable tab s = some (tab', r) →
    s.named = true ∧ tab'.Named
  | .lit _, tab, h, tab', r, e => by cases e; exact ⟨rfl, h⟩
  | .sing q, tab, h, tab', r, e => by
    simp only [compileComparable, Option.some.injEq] at e
    refine ⟨rfl, ?_⟩
    have := compileSing_named h q.root q.segs
    rw [e] at this
    exact this
  | .func name args, tab, h, tab', _, e => by
    simp only [compileComparable, Option.bind_eq_some_iff, Option.map_eq_some_iff] at e
    obtain ⟨f, ef, ⟨t', l'⟩, e', e''⟩ := e
    cases e''
    have h1 := compileArgs_named args h (by
      have := ef
      unfold checkFn at this
      simp only [Option.bind_eq_some_iff] at this
      obtain ⟨g, -, hg⟩ := this
      split at hg
      · rename_i hc; cases hg; exact hc.2
      · cases hg) e'
    exact ⟨by simp [Comparable.named, checkFn_named ef, h1.1], h1.2⟩
theorem compileArg_named : ∀ (s : Arg) {tab : Tables}, tab.Named → ∀ {ty tab' r}, compileArg tab ty s = some (tab', r) → s.named = true ∧ tab'.Named
  | .lit _, tab, h, ty, tab', r, e => by
    simp only [compileArg] at e
    split at e
    · cases e; exact ⟨rfl, h⟩
    · cases e
  | .query root segs, tab, h, ty, tab', _, e => by
    simp only [compileArg] at e
    split at e
    · simp only [Option.map_eq_some_iff, Prod.mk.injEq] at e
      obtain ⟨l, e, e', -⟩ := e
      exact ⟨asSingular_named e, e' ▸ compileSing_named h _ _⟩
    split at e
    · split at e
      · rename_i i hi
        cases e
        exact ⟨lookup_named h hi, h⟩
      · simp only [Option.map_eq_some_iff] at e
        obtain ⟨⟨t, c'⟩, e, e'⟩ := e
        cases e'
        have h1 := compileSegs_named segs h e
        refine ⟨h1.1, fun x hx => ?_⟩
        rcases List.mem_append.1 hx with hx | hx
        · exact h1.2 x hx
        · rw [List.mem_singleton.1 hx]; exact h1.1
    · simp only [Option.map_eq_some_iff] at e
      obtain ⟨⟨t, c'⟩, e, e'⟩ := e
      cases e'
      exact compileSegs_named segs h e
  | .logical c, tab, h, ty, tab', r, e => by simp [compileArg] at e
  | .func name args, tab, h, ty, tab', _, e => by
    simp only [compileArg, Option.bind_eq_some_iff, Option.map_eq_some_iff] at e
    obtain ⟨f, ef, ⟨t', l'⟩, e', e''⟩ := e
    cases e''
    have h1 := compileArgs_named args h (by
      have := ef
      unfold checkFn at this
      simp only [Option.bind_eq_some_iff] at this
      obtain ⟨g, -, hg⟩ := this
      split at hg
      · rename_i hc; cases hg; exact hc.2
      · cases hg) e'
    exact ⟨by simp [Arg.named, checkFn_named ef, h1.1], h1.2⟩
theorem compileArgs_named : ∀ (s : List Arg) {tab : Tables}, tab.Named → ∀ {tys : List Ty} {tab' r}, s.length = tys.length →
    compileArgs tab tys s = some (tab', r) → argsNamed s = true ∧ tab'.Named
  | [], tab, h, tys, tab', r, hl, e => by
    cases tys with
    | cons => cases hl
    | nil => cases e; exact ⟨rfl, h⟩
  | s :: l, tab, h, tys, tab', r, hl, e => by
    cases tys with
    | nil => cases hl
    | cons ty tys =>
      simp only [compileArgs, Option.bind_eq_some_iff, Option.map_eq_some_iff] at e
      obtain ⟨⟨t, c⟩, e, ⟨t', l'⟩, e', e''⟩ := e
      cases e''
      have h1 := compileArg_named s h e
      have h2 := compileArgs_named l h1.2 (by simpa using hl) e'
      exact ⟨by simp [argsNamed, h1.1, h2.1], h2.2⟩
end

end Verif.JPath
