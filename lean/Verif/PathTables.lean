import Verif.PathSafe

/-!
# Tables of rooted queries

Compiling only appends entries.  The runner of an entry was compiled with the entries before it.
-/

set_option linter.unusedSimpArgs false
set_option linter.unusedVariables false

namespace Verif.JPath
open Rfc9535

/-! ## Equality of queries -/

mutual
theorem Selector.beq_eq : ∀ {a b : Selector}, a.beq b = true → a = b
  | .name n, b, h => by cases b <;> simp [Selector.beq] at h; subst h; rfl
  | .wild, b, h => by cases b <;> simp [Selector.beq] at h; rfl
  | .index i, b, h => by cases b <;> simp [Selector.beq] at h; subst h; rfl
  | .slice a b c, x, h => by cases x <;> simp [Selector.beq] at h; obtain ⟨⟨rfl, rfl⟩, rfl⟩ := h; rfl
  | .filter c, b, h => by
    cases b <;> simp [Selector.beq] at h
    rw [Logical.beq_eq h]
theorem selectorsBeq_eq : ∀ {a b : List Selector}, selectorsBeq a b = true → a = b
  | [], b, h => by cases b <;> simp [selectorsBeq] at h; rfl
  | x :: a, b, h => by
    cases b <;> simp [selectorsBeq] at h
    rw [Selector.beq_eq h.1, selectorsBeq_eq h.2]
theorem Segment.beq_eq : ∀ {a b : Segment}, a.beq b = true → a = b
  | .mk d l, .mk d' l', h => by
    simp [Segment.beq] at h
    rw [h.1, selectorsBeq_eq h.2]
theorem segmentsBeq_eq : ∀ {a b : List Segment}, segmentsBeq a b = true → a = b
  | [], b, h => by cases b <;> simp [segmentsBeq] at h; rfl
  | x :: a, b, h => by
    cases b <;> simp [segmentsBeq] at h
    rw [Segment.beq_eq h.1, segmentsBeq_eq h.2]
theorem Logical.beq_eq : ∀ {a b : Logical}, a.beq b = true → a = b
  | .or l, b, h => by cases b <;> simp [Logical.beq] at h; rw [logicalsBeq_eq h]
  | .and l, b, h => by cases b <;> simp [Logical.beq] at h; rw [logicalsBeq_eq h]
  | .not c, b, h => by cases b <;> simp [Logical.beq] at h; rw [Logical.beq_eq h]
  | .cmp x o y, b, h => by
    cases b <;> simp [Logical.beq] at h
    rw [Comparable.beq_eq h.1.1, h.1.2, Comparable.beq_eq h.2]
  | .query r l, b, h => by
    cases b <;> simp [Logical.beq] at h
    rw [h.1, segmentsBeq_eq h.2]
  | .func n l, b, h => by
    cases b <;> simp [Logical.beq] at h
    rw [h.1, argsBeq_eq h.2]
theorem logicalsBeq_eq : ∀ {a b : List Logical}, logicalsBeq a b = true → a = b
  | [], b, h => by cases b <;> simp [logicalsBeq] at h; rfl
  | x :: a, b, h => by
    cases b <;> simp [logicalsBeq] at h
    rw [Logical.beq_eq h.1, logicalsBeq_eq h.2]
theorem Comparable.beq_eq : ∀ {a b : Comparable}, a.beq b = true → a = b
  | .lit l, b, h => by cases b <;> simp [Comparable.beq] at h; rw [h]
  | .sing q, b, h => by cases b <;> simp [Comparable.beq] at h; rw [h]
  | .func n l, b, h => by
    cases b <;> simp [Comparable.beq] at h
    rw [h.1, argsBeq_eq h.2]
theorem Arg.beq_eq : ∀ {a b : Arg}, a.beq b = true → a = b
  | .lit l, b, h => by cases b <;> simp [Arg.beq] at h; rw [h]
  | .query r l, b, h => by
    cases b <;> simp [Arg.beq] at h
    rw [h.1, segmentsBeq_eq h.2]
  | .logical c, b, h => by cases b <;> simp [Arg.beq] at h; rw [Logical.beq_eq h]
  | .func n l, b, h => by
    cases b <;> simp [Arg.beq] at h
    rw [h.1, argsBeq_eq h.2]
theorem argsBeq_eq : ∀ {a b : List Arg}, argsBeq a b = true → a = b
  | [], b, h => by cases b <;> simp [argsBeq] at h; rfl
  | x :: a, b, h => by
    cases b <;> simp [argsBeq] at h
    rw [Arg.beq_eq h.1, argsBeq_eq h.2]
end

/-! ## Entries -/

/-- Entries have been appended. -/
structure Tables.Le (a b : Tables) : Prop where
  sing : a.sing <+: b.sing
  queries : a.queries <+: b.queries

theorem Tables.Le.refl (a : Tables) : a.Le a := ⟨List.prefix_refl _, List.prefix_refl _⟩
theorem Tables.Le.trans {a b c : Tables} (h : a.Le b) (h' : b.Le c) : a.Le c := ⟨h.sing.trans h'.sing, h.queries.trans h'.queries⟩

section
variable (lib : Lib) (re : Sem) (S : Bytes → Prop) (root : JVal)

/-- The entries of a table come from safe queries; the runner of an entry was compiled before. -/
structure Entries (tab : Tables) : Prop where
  sing : ∀ segs ∈ tab.sing, SingOk segs ∧ IsColl root ∧ singNodes segs root ≠ []
  queries : ∀ k segs r, tab.queries[k]? = some (segs, r) → IsColl root ∧ safeSegs lib re S root segs ∧
    ∃ tab0 tab1, compileSegs tab0 segs = some (tab1, r) ∧ tab1.queries = tab.queries.take k ∧ tab1.sing <+: tab.sing

end

variable {lib : Lib} {re : Sem} {S : Bytes → Prop} {root : JVal}

/-- What compiling does to a table. -/
def Grows (lib : Lib) (re : Sem) (S : Bytes → Prop) (root : JVal) (safe : Prop) (tab tab' : Tables) : Prop :=
  tab.Le tab' ∧ (safe → Entries lib re S root tab → Entries lib re S root tab')

theorem Grows.refl {safe : Prop} {tab : Tables} : Grows lib re S root safe tab tab := ⟨.refl _, fun _ h => h⟩

theorem Grows.trans {safe safe' safe'' : Prop} {a b c : Tables} (h : Grows lib re S root safe a b) (h' : Grows lib re S root safe' b c)
    (h1 : safe'' → safe) (h2 : safe'' → safe') : Grows lib re S root safe'' a c :=
  ⟨h.1.trans h'.1, fun hs he => h'.2 (h2 hs) (h.2 (h1 hs) he)⟩

theorem Grows.mono {safe safe' : Prop} {a b : Tables} (h : Grows lib re S root safe a b) (h1 : safe' → safe) : Grows lib re S root safe' a b :=
  ⟨h.1, fun hs => h.2 (h1 hs)⟩

theorem prefix_append (l m : List α) : l <+: l ++ m := ⟨m, rfl⟩

theorem compileSing_grows {tab : Tables} {r : Bool} {segs : List SingSeg} {safe : Prop}
    (h : safe → SingOk segs ∧ (r = true → IsColl root ∧ singNodes segs root ≠ [])) : Grows lib re S root safe tab (compileSing tab r segs).1 := by
  unfold compileSing
  cases r with
  | false => exact .refl
  | true =>
    simp only [if_true]
    split
    · exact .refl
    · refine ⟨⟨prefix_append _ _, List.prefix_refl _⟩, fun hs he => ⟨?_, ?_⟩⟩
      · intro x hx
        simp only [List.mem_append, List.mem_singleton] at hx
        rcases hx with hx | rfl
        · exact he.sing x hx
        · exact ⟨(h hs).1, (h hs).2 rfl⟩
      · intro k x r hk
        obtain ⟨h1, h2, tab0, tab1, h3, h4, h5⟩ := he.queries k x r hk
        exact ⟨h1, h2, tab0, tab1, h3, h4, h5.trans (prefix_append _ _)⟩

/-- An entry is appended. -/
theorem add_grows {tab tab1 : Tables} {segs : List Segment} {r : List SegR} {safe safe' : Prop} (h : compileSegs tab segs = some (tab1, r))
    (hg : Grows lib re S root safe tab tab1) (h1 : safe' → safe) (h2 : safe' → IsColl root ∧ safeSegs lib re S root segs) :
    Grows lib re S root safe' tab { tab1 with queries := tab1.queries ++ [(segs, r)] } := by
  refine hg.trans (safe' := safe') ⟨⟨List.prefix_refl _, prefix_append _ _⟩, fun hs he => ⟨he.sing, ?_⟩⟩ h1 id
  intro k x r' hk
  simp only [List.getElem?_append] at hk
  split at hk
  · rename_i hlt
    obtain ⟨g1, g2, t0, t1, g3, g4, g5⟩ := he.queries k x r' hk
    refine ⟨g1, g2, t0, t1, g3, ?_, g5⟩
    rw [g4]
    exact (List.take_append_of_le_length (by omega)).symm
  · rename_i hlt
    have hk0 : k = tab1.queries.length := by
      have := (List.getElem?_eq_some_iff.1 hk).1
      simp at this; omega
    subst hk0
    simp only [Nat.sub_self, List.getElem?_cons_zero, Option.some.injEq, Prod.mk.injEq] at hk
    obtain ⟨rfl, rfl⟩ := hk
    exact ⟨(h2 hs).1, (h2 hs).2, tab, tab1, h, by simp, List.prefix_refl _⟩

mutual
theorem compileSel_grows : ∀ {tab tab' : Tables} {s : Selector} {r}, compileSel tab s = some (tab', r) → Grows lib re S root (safeSel lib re S root s) tab tab'
  | tab, tab', .name n, r, h => by simp only [compileSel, Option.some.injEq, Prod.mk.injEq] at h; rw [h.1]; exact .refl
  | tab, tab', .wild, r, h => by simp only [compileSel, Option.some.injEq, Prod.mk.injEq] at h; rw [h.1]; exact .refl
  | tab, tab', .index i, r, h => by simp only [compileSel, Option.some.injEq, Prod.mk.injEq] at h; rw [h.1]; exact .refl
  | tab, tab', .slice a b c, r, h => by simp only [compileSel, Option.some.injEq, Prod.mk.injEq] at h; rw [h.1]; exact .refl
  | tab, tab', .filter c, r, h => by
    simp only [compileSel, Option.map_eq_some_iff] at h
    obtain ⟨⟨t, x⟩, h1, h2⟩ := h
    simp only [Prod.mk.injEq] at h2
    rw [← h2.1]
    exact (compileCond_grows h1).mono (by rw [safeSel]; exact id)
theorem compileSels_grows : ∀ {tab tab' : Tables} {s : List Selector} {r}, compileSels tab s = some (tab', r) → Grows lib re S root (safeSels lib re S root s) tab tab'
  | tab, tab', [], r, h => by simp only [compileSels, Option.some.injEq, Prod.mk.injEq] at h; rw [h.1]; exact .refl
  | tab, tab', s :: l, r, h => by
    simp only [compileSels, Option.bind_eq_some_iff, Option.map_eq_some_iff] at h
    obtain ⟨⟨t, x⟩, h1, ⟨t', x'⟩, h2, h3⟩ := h
    simp only [Prod.mk.injEq] at h3
    rw [← h3.1]
    exact (compileSel_grows h1).trans (compileSels_grows h2) (by rw [safeSels]; exact And.left) (by rw [safeSels]; exact And.right)
theorem compileSeg_grows : ∀ {tab tab' : Tables} {s : Segment} {r}, compileSeg tab s = some (tab', r) → Grows lib re S root (safeSeg lib re S root s) tab tab'
  | tab, tab', .mk d sels, r, h => by
    simp only [compileSeg, Option.map_eq_some_iff] at h
    obtain ⟨⟨t, x⟩, h1, h2⟩ := h
    simp only [Prod.mk.injEq] at h2
    rw [← h2.1]
    exact (compileSels_grows h1).mono (by rw [safeSeg]; exact id)
theorem compileSegs_grows : ∀ {tab tab' : Tables} {s : List Segment} {r}, compileSegs tab s = some (tab', r) → Grows lib re S root (safeSegs lib re S root s) tab tab'
  | tab, tab', [], r, h => by simp only [compileSegs, Option.some.injEq, Prod.mk.injEq] at h; rw [h.1]; exact .refl
  | tab, tab', s :: l, r, h => by
    simp only [compileSegs, Option.bind_eq_some_iff, Option.map_eq_some_iff] at h
    obtain ⟨⟨t, x⟩, h1, ⟨t', x'⟩, h2, h3⟩ := h
    simp only [Prod.mk.injEq] at h3
    rw [← h3.1]
    exact (compileSegs_grows h1).trans (compileSeg_grows h2) (by rw [safeSegs]; exact And.right) (by rw [safeSegs]; exact And.left)
theorem compileCond_grows : ∀ {tab tab' : Tables} {s : Logical} {r}, compileCond tab s = some (tab', r) → Grows lib re S root (safeCond lib re S root s) tab tab'
  | tab, tab', .or l, r, h => by
    simp only [compileCond, Option.map_eq_some_iff] at h
    obtain ⟨⟨t, x⟩, h1, h2⟩ := h
    simp only [Prod.mk.injEq] at h2
    rw [← h2.1]
    exact (compileConds_grows h1).mono (by rw [safeCond]; exact id)
  | tab, tab', .and l, r, h => by
    simp only [compileCond, Option.map_eq_some_iff] at h
    obtain ⟨⟨t, x⟩, h1, h2⟩ := h
    simp only [Prod.mk.injEq] at h2
    rw [← h2.1]
    exact (compileConds_grows h1).mono (by rw [safeCond]; exact id)
  | tab, tab', .not c, r, h => by
    simp only [compileCond, Option.map_eq_some_iff] at h
    obtain ⟨⟨t, x⟩, h1, h2⟩ := h
    simp only [Prod.mk.injEq] at h2
    rw [← h2.1]
    exact (compileCond_grows h1).mono (by rw [safeCond]; exact id)
  | tab, tab', .cmp a op b, r, h => by
    simp only [compileCond, Option.bind_eq_some_iff, Option.map_eq_some_iff] at h
    obtain ⟨⟨t, x⟩, h1, ⟨t', x'⟩, h2, h3⟩ := h
    simp only [Prod.mk.injEq] at h3
    rw [← h3.1]
    exact (compileComparable_grows h1).trans (compileComparable_grows h2) (by rw [safeCond]; exact fun h => h.2.1) (by rw [safeCond]; exact fun h => h.2.2)
  | tab, tab', .query true segs, r, h => by
    simp only [compileCond, if_true] at h
    split at h
    · simp only [Option.some.injEq, Prod.mk.injEq] at h; rw [h.1]; exact .refl
    · simp only [Option.map_eq_some_iff] at h
      obtain ⟨⟨t, x⟩, h1, h2⟩ := h
      simp only [Prod.mk.injEq] at h2
      rw [← h2.1]
      exact add_grows h1 (compileSegs_grows h1) (by rw [safeCond]; exact And.left) (by rw [safeCond, if_pos rfl]; exact And.symm)
  | tab, tab', .query false segs, r, h => by
    simp only [compileCond, Bool.false_eq_true, if_false, Option.map_eq_some_iff] at h
    obtain ⟨⟨t, x⟩, h1, h2⟩ := h
    simp only [Prod.mk.injEq] at h2
    rw [← h2.1]
    exact (compileSegs_grows h1).mono (by rw [safeCond]; exact And.left)
  | tab, tab', .func name args, r, h => by
    simp only [compileCond, Option.bind_eq_some_iff, Option.map_eq_some_iff] at h
    obtain ⟨f, h0, ⟨t', x'⟩, h2, h3⟩ := h
    simp only [Prod.mk.injEq] at h3
    rw [← h3.1]
    have hf : Fn.ofName name = some f := by
      unfold checkFn at h0
      obtain ⟨g, h1, h2⟩ := Option.bind_eq_some_iff.1 h0
      split at h2 <;> cases h2
      exact h1
    exact (compileArgs_grows h2).mono (by rw [safeCond]; exact fun h => (h f hf).1)
theorem compileConds_grows : ∀ {tab tab' : Tables} {s : List Logical} {r}, compileConds tab s = some (tab', r) → Grows lib re S root (safeConds lib re S root s) tab tab'
  | tab, tab', [], r, h => by simp only [compileConds, Option.some.injEq, Prod.mk.injEq] at h; rw [h.1]; exact .refl
  | tab, tab', s :: l, r, h => by
    simp only [compileConds, Option.bind_eq_some_iff, Option.map_eq_some_iff] at h
    obtain ⟨⟨t, x⟩, h1, ⟨t', x'⟩, h2, h3⟩ := h
    simp only [Prod.mk.injEq] at h3
    rw [← h3.1]
    exact (compileCond_grows h1).trans (compileConds_grows h2) (by rw [safeConds]; exact And.left) (by rw [safeConds]; exact And.right)
theorem compileComparable_grows : ∀ {tab tab' : Tables} {s : Comparable} {r}, compileComparable tab s = some (tab', r) →
    Grows lib re S root (safeComp lib re S root s) tab tab'
  | tab, tab', .lit l, r, h => by simp only [compileComparable, Option.some.injEq, Prod.mk.injEq] at h; rw [h.1]; exact .refl
  | tab, tab', .sing q, r, h => by
    simp only [compileComparable, Option.some.injEq] at h
    have : (compileSing tab q.root q.segs).1 = tab' := by rw [h]
    rw [← this]
    exact compileSing_grows (by rw [safeComp]; exact id)
  | tab, tab', .func name args, r, h => by
    simp only [compileComparable, Option.bind_eq_some_iff, Option.map_eq_some_iff] at h
    obtain ⟨f, h0, ⟨t', x'⟩, h2, h3⟩ := h
    simp only [Prod.mk.injEq] at h3
    rw [← h3.1]
    have hf : Fn.ofName name = some f := by
      unfold checkFn at h0
      obtain ⟨g, h1, h2⟩ := Option.bind_eq_some_iff.1 h0
      split at h2 <;> cases h2
      exact h1
    exact (compileArgs_grows h2).mono (by rw [safeComp]; exact fun h => (h f hf).1)
theorem compileArg_grows : ∀ {tab tab' : Tables} {ty : Ty} {s : Arg} {r}, compileArg tab ty s = some (tab', r) →
    Grows lib re S root (safeArg lib re S root ty s) tab tab'
  | tab, tab', ty, .lit l, r, h => by
    simp only [compileArg] at h
    split at h
    · simp only [Option.some.injEq, Prod.mk.injEq] at h; rw [h.1]; exact .refl
    · cases h
  | tab, tab', ty, .query root' segs, r, h => by
    simp only [compileArg] at h
    split at h
    · rename_i hty
      simp only [Option.map_eq_some_iff] at h
      obtain ⟨ss, h1, h2⟩ := h
      simp only [Prod.mk.injEq] at h2
      rw [← h2.1]
      exact compileSing_grows (by
        rw [safeArg]
        intro hs
        refine ⟨asSingular_ok re root h1 hs.1, fun hr => ⟨(hs.2 hr).1, ?_⟩⟩
        rw [← nodes_asSingular re root h1]; exact (hs.2 hr).2 hty)
    · split at h
      · rename_i hr
        split at h
        · simp only [Option.some.injEq, Prod.mk.injEq] at h; rw [h.1]; exact .refl
        · simp only [Option.map_eq_some_iff] at h
          obtain ⟨⟨t, x⟩, h1, h2⟩ := h
          simp only [Prod.mk.injEq] at h2
          rw [← h2.1]
          exact add_grows h1 (compileSegs_grows h1) (by rw [safeArg]; exact And.left) (by rw [safeArg]; exact fun h => ⟨(h.2 hr).1, h.1⟩)
      · simp only [Option.map_eq_some_iff] at h
        obtain ⟨⟨t, x⟩, h1, h2⟩ := h
        simp only [Prod.mk.injEq] at h2
        rw [← h2.1]
        exact (compileSegs_grows h1).mono (by rw [safeArg]; exact And.left)
  | tab, tab', ty, .logical c, r, h => by simp [compileArg] at h
  | tab, tab', ty, .func name args, r, h => by
    simp only [compileArg, Option.bind_eq_some_iff, Option.map_eq_some_iff] at h
    obtain ⟨f, h0, ⟨t', x'⟩, h2, h3⟩ := h
    simp only [Prod.mk.injEq] at h3
    rw [← h3.1]
    have hf : Fn.ofName name = some f := by
      unfold checkFn at h0
      obtain ⟨g, h1, h2⟩ := Option.bind_eq_some_iff.1 h0
      split at h2 <;> cases h2
      exact h1
    exact (compileArgs_grows h2).mono (by rw [safeArg]; exact fun h => (h f hf).1)
theorem compileArgs_grows : ∀ {tab tab' : Tables} {tys : List Ty} {s : List Arg} {r}, compileArgs tab tys s = some (tab', r) →
    Grows lib re S root (safeArgs lib re S root tys s) tab tab'
  | tab, tab', tys, [], r, h => by
    cases tys <;> simp only [compileArgs, Option.some.injEq, Prod.mk.injEq] at h <;> (rw [h.1]; exact .refl)
  | tab, tab', [], s :: l, r, h => by
    simp only [compileArgs, Option.some.injEq, Prod.mk.injEq] at h; rw [h.1]; exact .refl
  | tab, tab', ty :: tys, s :: l, r, h => by
    simp only [compileArgs, Option.bind_eq_some_iff, Option.map_eq_some_iff] at h
    obtain ⟨⟨t, x⟩, h1, ⟨t', x'⟩, h2, h3⟩ := h
    simp only [Prod.mk.injEq] at h3
    rw [← h3.1]
    exact (compileArg_grows h1).trans (compileArgs_grows h2) (by rw [safeArgs]; exact And.left) (by rw [safeArgs]; exact And.right)
end

end Verif.JPath
