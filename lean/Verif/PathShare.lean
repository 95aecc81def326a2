import Verif.PathTables

/-!
# Tables of rooted queries: sharing and order

For all queries that compile, whether they are safe or not.
-/

set_option linter.unusedSimpArgs false
set_option linter.unusedVariables false
set_option linter.unusedSectionVars false

namespace Verif.JPath

section
variable (n m : Nat)

mutual
/-- A condition refers to the first `n` entries for rooted queries and the first `m` entries for rooted singular queries only. -/
def condUses : CondR → Prop
  | .or l => condsUse l
  | .and l => condsUse l
  | .not c => condUses c
  | .cmp l _ _ _ r => cmpUses l ∧ cmpUses r
  | .query q => queryUses q
  | .func _ args => argsUse args
@[inherit_doc condUses] def condsUse : List CondR → Prop
  | [] => True
  | c :: l => condUses c ∧ condsUse l
@[inherit_doc condUses] def queryUses : QueryR → Prop
  | .run segs => segsUse segs
  | .inner i => i < n
@[inherit_doc condUses] def segsUse : List SegR → Prop
  | [] => True
  | s :: l => segUses s ∧ segsUse l
@[inherit_doc condUses] def segUses : SegR → Prop
  | .mk _ sels => selsUse sels
@[inherit_doc condUses] def selsUse : List (Sel CondR) → Prop
  | [] => True
  | s :: l => selUses s ∧ selsUse l
@[inherit_doc condUses] def selUses : Sel CondR → Prop
  | .filter c => condUses c
  | .default => True
  | .name _ => True
  | .wild => True
  | .index _ => True
  | .slice _ _ _ => True
  | .rslice _ _ _ => True
@[inherit_doc condUses] def cmpUses : CmpR → Prop
  | .lit _ => True
  | .sing _ => True
  | .inner i => i < m
  | .func _ args => argsUse args
@[inherit_doc condUses] def argsUse : List ArgR → Prop
  | [] => True
  | a :: l => argUses a ∧ argsUse l
@[inherit_doc condUses] def argUses : ArgR → Prop
  | .value c => cmpUses c
  | .nodes q => queryUses q
end

end

section
variable {n m n' m' : Nat} (hn : n ≤ n') (hm : m ≤ m')
include hn hm

mutual
theorem condUses_mono : ∀ {c}, condUses n m c → condUses n' m' c
  | .or l, h => by rw [condUses] at h ⊢; exact condsUse_mono h
  | .and l, h => by rw [condUses] at h ⊢; exact condsUse_mono h
  | .not c, h => by rw [condUses] at h ⊢; exact condUses_mono h
  | .cmp l _ _ _ r, h => by rw [condUses] at h ⊢; exact ⟨cmpUses_mono h.1, cmpUses_mono h.2⟩
  | .query q, h => by rw [condUses] at h ⊢; exact queryUses_mono h
  | .func _ args, h => by rw [condUses] at h ⊢; exact argsUse_mono h
theorem condsUse_mono : ∀ {c}, condsUse n m c → condsUse n' m' c
  | [], h => by rw [condsUse]; trivial
  | c :: l, h => by rw [condsUse] at h ⊢; exact ⟨condUses_mono h.1, condsUse_mono h.2⟩
theorem queryUses_mono : ∀ {c}, queryUses n m c → queryUses n' m' c
  | .run segs, h => by rw [queryUses] at h ⊢; exact segsUse_mono h
  | .inner i, h => by rw [queryUses] at h ⊢; omega
theorem segsUse_mono : ∀ {c}, segsUse n m c → segsUse n' m' c
  | [], h => by rw [segsUse]; trivial
  | c :: l, h => by rw [segsUse] at h ⊢; exact ⟨segUses_mono h.1, segsUse_mono h.2⟩
theorem segUses_mono : ∀ {c}, segUses n m c → segUses n' m' c
  | .mk _ sels, h => by rw [segUses] at h ⊢; exact selsUse_mono h
theorem selsUse_mono : ∀ {c}, selsUse n m c → selsUse n' m' c
  | [], h => by rw [selsUse]; trivial
  | c :: l, h => by rw [selsUse] at h ⊢; exact ⟨selUses_mono h.1, selsUse_mono h.2⟩
theorem selUses_mono : ∀ {c}, selUses n m c → selUses n' m' c
  | .filter c, h => by rw [selUses] at h ⊢; exact condUses_mono h
  | .default, h => by rw [selUses]; trivial
  | .name _, h => by rw [selUses]; trivial
  | .wild, h => by rw [selUses]; trivial
  | .index _, h => by rw [selUses]; trivial
  | .slice _ _ _, h => by rw [selUses]; trivial
  | .rslice _ _ _, h => by rw [selUses]; trivial
theorem cmpUses_mono : ∀ {c}, cmpUses n m c → cmpUses n' m' c
  | .lit _, h => by rw [cmpUses]; trivial
  | .sing _, h => by rw [cmpUses]; trivial
  | .inner i, h => by rw [cmpUses] at h ⊢; omega
  | .func _ args, h => by rw [cmpUses] at h ⊢; exact argsUse_mono h
theorem argsUse_mono : ∀ {c}, argsUse n m c → argsUse n' m' c
  | [], h => by rw [argsUse]; trivial
  | c :: l, h => by rw [argsUse] at h ⊢; exact ⟨argUses_mono h.1, argsUse_mono h.2⟩
theorem argUses_mono : ∀ {c}, argUses n m c → argUses n' m' c
  | .value c, h => by rw [argUses] at h ⊢; exact cmpUses_mono h
  | .nodes q, h => by rw [argUses] at h ⊢; exact queryUses_mono h
end

end

mutual
theorem Selector.beq_self : ∀ s : Selector, s.beq s = true
  | .name a => by simp [Selector.beq]
  | .wild => by simp [Selector.beq]
  | .index a => by simp [Selector.beq]
  | .slice a b c => by simp [Selector.beq]
  | .filter c => by rw [Selector.beq]; exact Logical.beq_self c
theorem selectorsBeq_self : ∀ l, selectorsBeq l l = true
  | [] => by rw [selectorsBeq]
  | a :: l => by rw [selectorsBeq, Selector.beq_self a, selectorsBeq_self l]; rfl
theorem Segment.beq_self : ∀ s : Segment, s.beq s = true
  | .mk d l => by rw [Segment.beq, selectorsBeq_self l]; simp
theorem segmentsBeq_self : ∀ l, segmentsBeq l l = true
  | [] => by rw [segmentsBeq]
  | a :: l => by rw [segmentsBeq, Segment.beq_self a, segmentsBeq_self l]; rfl
theorem Logical.beq_self : ∀ s : Logical, s.beq s = true
  | .or l => by rw [Logical.beq]; exact logicalsBeq_self l
  | .and l => by rw [Logical.beq]; exact logicalsBeq_self l
  | .not c => by rw [Logical.beq]; exact Logical.beq_self c
  | .cmp a o b => by rw [Logical.beq, Comparable.beq_self a, Comparable.beq_self b]; simp
  | .query r l => by rw [Logical.beq, segmentsBeq_self l]; simp
  | .func n l => by rw [Logical.beq, argsBeq_self l]; simp
theorem logicalsBeq_self : ∀ l, logicalsBeq l l = true
  | [] => by rw [logicalsBeq]
  | a :: l => by rw [logicalsBeq, Logical.beq_self a, logicalsBeq_self l]; rfl
theorem Comparable.beq_self : ∀ s : Comparable, s.beq s = true
  | .lit a => by simp [Comparable.beq]
  | .sing a => by simp [Comparable.beq]
  | .func n l => by rw [Comparable.beq, argsBeq_self l]; simp
theorem Arg.beq_self : ∀ s : Arg, s.beq s = true
  | .lit a => by simp [Arg.beq]
  | .query r l => by rw [Arg.beq, segmentsBeq_self l]; simp
  | .logical c => by rw [Arg.beq]; exact Logical.beq_self c
  | .func n l => by rw [Arg.beq, argsBeq_self l]; simp
theorem argsBeq_self : ∀ l, argsBeq l l = true
  | [] => by rw [argsBeq]
  | a :: l => by rw [argsBeq, Arg.beq_self a, argsBeq_self l]; rfl
end

/-- Entries are different, and an entry for a query refers to earlier ones only. -/
structure Tables.Sound (tab : Tables) : Prop where
  sing : tab.sing.Nodup
  queries : (tab.queries.map (·.1)).Nodup
  order : ∀ k segs r, tab.queries[k]? = some (segs, r) → segsUse k tab.sing.length r

/-- What compiling something of size `N` does; `U` is what the result refers to. -/
structure Shares (tab tab' : Tables) (N : Nat) (U : Nat → Nat → Prop) : Prop where
  le : tab.Le tab'
  uses : U tab'.queries.length tab'.sing.length
  sound : tab.Sound → tab'.Sound
  small : ∀ e ∈ tab'.queries, e ∈ tab.queries ∨ sizeOf e.1 < N

theorem Shares.refl {tab : Tables} {N : Nat} {U : Nat → Nat → Prop} (h : U tab.queries.length tab.sing.length) : Shares tab tab N U :=
  ⟨.refl _, h, id, fun _ h => .inl h⟩

theorem Shares.imp {tab tab' : Tables} {N N' : Nat} {U U' : Nat → Nat → Prop} (h : Shares tab tab' N U) (hN : N ≤ N') (hU : ∀ n m, U n m → U' n m) :
    Shares tab tab' N' U' :=
  ⟨h.le, hU _ _ h.uses, h.sound, fun e he => (h.small e he).imp id fun h => by omega⟩

theorem Shares.trans {a b c : Tables} {N N' M : Nat} {U U' V : Nat → Nat → Prop} (h : Shares a b N U) (h' : Shares b c N' U') (hN : N ≤ M) (hN' : N' ≤ M)
    (hU : ∀ n m n' m', n ≤ n' → m ≤ m' → U n m → U' n' m' → V n' m') : Shares a c M V :=
  ⟨h.le.trans h'.le, hU _ _ _ _ h'.le.queries.length_le h'.le.sing.length_le h.uses h'.uses, fun hs => h'.sound (h.sound hs), fun e he => by
    rcases h'.small e he with he | he
    · rcases h.small e he with he | he
      · exact .inl he
      · exact .inr (by omega)
    · exact .inr (by omega)⟩

theorem compileSing_shares (tab : Tables) (r : Bool) (segs : List SingSeg) (N : Nat) :
    Shares tab (compileSing tab r segs).1 N fun n m => cmpUses n m (compileSing tab r segs).2 := by
  unfold compileSing
  cases r with
  | false => exact .refl (by simp only [Bool.false_eq_true, if_false]; rw [cmpUses]; trivial)
  | true =>
    simp only [if_true]
    split
    · rename_i i hi
      refine .refl ?_
      rw [cmpUses]
      exact (List.findIdx?_eq_some_iff_getElem.1 hi).1
    · rename_i hi
      refine ⟨⟨prefix_append _ _, List.prefix_refl _⟩, ?_, fun hs => ⟨?_, hs.queries, fun k s r hk => ?_⟩, fun _ h => .inl h⟩
      · simp only; rw [cmpUses]; simp
      · simp only
        refine List.nodup_append.2 ⟨hs.sing, by simp, ?_⟩
        intro a ha b hb e
        simp only [List.mem_singleton] at hb
        subst hb; subst e
        have := List.findIdx?_eq_none_iff.1 hi a ha
        simp at this
      · exact segsUse_mono (Nat.le_refl _) (by simp) (hs.order k s r hk)

/-- An entry is appended. -/
theorem add_shares {tab tab1 : Tables} {segs : List Segment} {r : List SegR} {N : Nat} {U : Nat → Nat → Prop} (hf : tab.queries.findIdx? (segmentsBeq ·.1 segs) = none)
    (h : Shares tab tab1 (sizeOf segs) fun n m => segsUse n m r) (hN : sizeOf segs < N) (hU : ∀ n m, tab1.queries.length < n → U n m) :
    Shares tab { tab1 with queries := tab1.queries ++ [(segs, r)] } N U := by
  refine ⟨⟨h.le.sing, h.le.queries.trans (prefix_append _ _)⟩, hU _ _ (by simp), fun hs => ⟨(h.sound hs).sing, ?_, ?_⟩, ?_⟩
  · simp only [List.map_append, List.map_cons, List.map_nil]
    refine List.nodup_append.2 ⟨(h.sound hs).queries, by simp, ?_⟩
    intro a ha b hb e
    simp only [List.mem_singleton] at hb
    subst hb; subst e
    obtain ⟨x, hx, rfl⟩ := List.mem_map.1 ha
    rcases h.small x hx with hx | hx
    · have := List.findIdx?_eq_none_iff.1 hf x hx
      rw [segmentsBeq_self] at this
      cases this
    · omega
  · intro k s r' hk
    simp only [List.getElem?_append] at hk
    split at hk
    · exact (h.sound hs).order k s r' hk
    · have hk0 : k = tab1.queries.length := by
        have := (List.getElem?_eq_some_iff.1 hk).1
        simp at this; omega
      subst hk0
      simp only [Nat.sub_self, List.getElem?_cons_zero, Option.some.injEq, Prod.mk.injEq] at hk
      obtain ⟨rfl, rfl⟩ := hk
      exact h.uses
  · intro e he
    simp only [List.mem_append, List.mem_singleton] at he
    rcases he with he | rfl
    · exact (h.small e he).imp id fun h => by omega
    · exact .inr hN

theorem compileSlice_uses (n m : Nat) (a b : Option Int) (c : Int) : selUses n m (compileSlice a b c) := by
  unfold compileSlice
  dsimp only
  split
  · rw [selUses]; trivial
  · split <;> split <;> (rw [selUses]; trivial)

theorem compileCmp_uses {n m : Nat} {l r : CmpR} (o : CmpOp) (hl : cmpUses n m l) (hr : cmpUses n m r) : condUses n m (compileCmp l o r) := by
  cases o <;> simp only [compileCmp] <;> rw [condUses] <;> first | exact ⟨hl, hr⟩ | exact ⟨hr, hl⟩

mutual
theorem compileSel_shares : ∀ {tab tab' : Tables} {s : Selector} {r}, compileSel tab s = some (tab', r) → Shares tab tab' (sizeOf s) fun n m => selUses n m r
  | tab, tab', .name n, r, h => by
    simp only [compileSel, Option.some.injEq, Prod.mk.injEq] at h; rw [← h.1, ← h.2]; exact .refl (by rw [selUses]; trivial)
  | tab, tab', .wild, r, h => by
    simp only [compileSel, Option.some.injEq, Prod.mk.injEq] at h; rw [← h.1, ← h.2]; exact .refl (by rw [selUses]; trivial)
  | tab, tab', .index i, r, h => by
    simp only [compileSel, Option.some.injEq, Prod.mk.injEq] at h; rw [← h.1, ← h.2]; exact .refl (by rw [selUses]; trivial)
  | tab, tab', .slice a b c, r, h => by
    simp only [compileSel, Option.some.injEq, Prod.mk.injEq] at h; rw [← h.1, ← h.2]; exact .refl (compileSlice_uses _ _ a b c)
  | tab, tab', .filter c, r, h => by
    simp only [compileSel, Option.map_eq_some_iff] at h
    obtain ⟨⟨t, x⟩, h1, h2⟩ := h
    simp only [Prod.mk.injEq] at h2
    rw [← h2.1, ← h2.2]
    exact (compileCond_shares h1).imp (by simp) fun n m h => by rw [selUses]; exact h
theorem compileSels_shares : ∀ {tab tab' : Tables} {s : List Selector} {r}, compileSels tab s = some (tab', r) → Shares tab tab' (sizeOf s) fun n m => selsUse n m r
  | tab, tab', [], r, h => by
    simp only [compileSels, Option.some.injEq, Prod.mk.injEq] at h; rw [← h.1, ← h.2]; exact .refl (by rw [selsUse]; trivial)
  | tab, tab', s :: l, r, h => by
    simp only [compileSels, Option.bind_eq_some_iff, Option.map_eq_some_iff] at h
    obtain ⟨⟨t, x⟩, h1, ⟨t', x'⟩, h2, h3⟩ := h
    simp only [Prod.mk.injEq] at h3
    rw [← h3.1, ← h3.2]
    exact (compileSel_shares h1).trans (compileSels_shares h2) (by simp; omega) (by simp) fun n m n' m' hn hm h h' => by
      rw [selsUse]; exact ⟨selUses_mono hn hm h, h'⟩
theorem compileSeg_shares : ∀ {tab tab' : Tables} {s : Segment} {r}, compileSeg tab s = some (tab', r) → Shares tab tab' (sizeOf s) fun n m => segUses n m r
  | tab, tab', .mk d sels, r, h => by
    simp only [compileSeg, Option.map_eq_some_iff] at h
    obtain ⟨⟨t, x⟩, h1, h2⟩ := h
    simp only [Prod.mk.injEq] at h2
    rw [← h2.1, ← h2.2]
    exact (compileSels_shares h1).imp (by simp) fun n m h => by rw [segUses]; exact h
theorem compileSegs_shares : ∀ {tab tab' : Tables} {s : List Segment} {r}, compileSegs tab s = some (tab', r) → Shares tab tab' (sizeOf s) fun n m => segsUse n m r
  | tab, tab', [], r, h => by
    simp only [compileSegs, Option.some.injEq, Prod.mk.injEq] at h; rw [← h.1, ← h.2]; exact .refl (by rw [segsUse]; trivial)
  | tab, tab', s :: l, r, h => by
    simp only [compileSegs, Option.bind_eq_some_iff, Option.map_eq_some_iff] at h
    obtain ⟨⟨t, x⟩, h1, ⟨t', x'⟩, h2, h3⟩ := h
    simp only [Prod.mk.injEq] at h3
    rw [← h3.1, ← h3.2]
    exact (compileSegs_shares h1).trans (compileSeg_shares h2) (by simp) (by simp; omega) fun n m n' m' hn hm h h' => by
      rw [segsUse]; exact ⟨h', segsUse_mono hn hm h⟩
theorem compileCond_shares : ∀ {tab tab' : Tables} {s : Logical} {r}, compileCond tab s = some (tab', r) → Shares tab tab' (sizeOf s) fun n m => condUses n m r
  | tab, tab', .or l, r, h => by
    simp only [compileCond, Option.map_eq_some_iff] at h
    obtain ⟨⟨t, x⟩, h1, h2⟩ := h
    simp only [Prod.mk.injEq] at h2
    rw [← h2.1, ← h2.2]
    exact (compileConds_shares h1).imp (by simp) fun n m h => by rw [condUses]; exact h
  | tab, tab', .and l, r, h => by
    simp only [compileCond, Option.map_eq_some_iff] at h
    obtain ⟨⟨t, x⟩, h1, h2⟩ := h
    simp only [Prod.mk.injEq] at h2
    rw [← h2.1, ← h2.2]
    exact (compileConds_shares h1).imp (by simp) fun n m h => by rw [condUses]; exact h
  | tab, tab', .not c, r, h => by
    simp only [compileCond, Option.map_eq_some_iff] at h
    obtain ⟨⟨t, x⟩, h1, h2⟩ := h
    simp only [Prod.mk.injEq] at h2
    rw [← h2.1, ← h2.2]
    exact (compileCond_shares h1).imp (by simp) fun n m h => by rw [condUses]; exact h
  | tab, tab', .cmp a o b, r, h => by
    simp only [compileCond, Option.bind_eq_some_iff, Option.map_eq_some_iff] at h
    obtain ⟨⟨t, x⟩, h1, ⟨t', x'⟩, h2, h3⟩ := h
    simp only [Prod.mk.injEq] at h3
    rw [← h3.1, ← h3.2]
    exact (compileComparable_shares h1).trans (compileComparable_shares h2) (by simp; omega) (by simp) fun n m n' m' hn hm h h' =>
      compileCmp_uses o (cmpUses_mono hn hm h) h'
  | tab, tab', .query true segs, r, h => by
    simp only [compileCond, if_true] at h
    split at h
    · rename_i i hi
      simp only [Option.some.injEq, Prod.mk.injEq] at h
      rw [← h.1, ← h.2]
      refine .refl ?_
      rw [condUses, queryUses]
      exact (List.findIdx?_eq_some_iff_getElem.1 hi).1
    · rename_i hi
      simp only [Option.map_eq_some_iff] at h
      obtain ⟨⟨t, x⟩, h1, h2⟩ := h
      simp only [Prod.mk.injEq] at h2
      rw [← h2.1, ← h2.2]
      exact add_shares hi (compileSegs_shares h1) (by simp) fun n m h => by rw [condUses, queryUses]; exact h
  | tab, tab', .query false segs, r, h => by
    simp only [compileCond, Bool.false_eq_true, if_false, Option.map_eq_some_iff] at h
    obtain ⟨⟨t, x⟩, h1, h2⟩ := h
    simp only [Prod.mk.injEq] at h2
    rw [← h2.1, ← h2.2]
    exact (compileSegs_shares h1).imp (by simp) fun n m h => by rw [condUses, queryUses]; exact h
  | tab, tab', .func name args, r, h => by
    simp only [compileCond, Option.bind_eq_some_iff, Option.map_eq_some_iff] at h
    obtain ⟨f, hf, ⟨t, x⟩, h1, h2⟩ := h
    simp only [Prod.mk.injEq] at h2
    rw [← h2.1, ← h2.2]
    exact (compileArgs_shares h1).imp (by simp) fun n m h => by rw [condUses]; exact h
theorem compileConds_shares : ∀ {tab tab' : Tables} {s : List Logical} {r}, compileConds tab s = some (tab', r) → Shares tab tab' (sizeOf s) fun n m => condsUse n m r
  | tab, tab', [], r, h => by
    simp only [compileConds, Option.some.injEq, Prod.mk.injEq] at h; rw [← h.1, ← h.2]; exact .refl (by rw [condsUse]; trivial)
  | tab, tab', s :: l, r, h => by
    simp only [compileConds, Option.bind_eq_some_iff, Option.map_eq_some_iff] at h
    obtain ⟨⟨t, x⟩, h1, ⟨t', x'⟩, h2, h3⟩ := h
    simp only [Prod.mk.injEq] at h3
    rw [← h3.1, ← h3.2]
    exact (compileCond_shares h1).trans (compileConds_shares h2) (by simp; omega) (by simp) fun n m n' m' hn hm h h' => by
      rw [condsUse]; exact ⟨condUses_mono hn hm h, h'⟩
theorem compileComparable_shares : ∀ {tab tab' : Tables} {s : Comparable} {r}, compileComparable tab s = some (tab', r) →
    Shares tab tab' (sizeOf s) fun n m => cmpUses n m r
  | tab, tab', .lit l, r, h => by
    simp only [compileComparable, Option.some.injEq, Prod.mk.injEq] at h; rw [← h.1, ← h.2]; exact .refl (by rw [cmpUses]; trivial)
  | tab, tab', .sing q, r, h => by
    simp only [compileComparable, Option.some.injEq] at h
    have := compileSing_shares tab q.root q.segs (sizeOf (Comparable.sing q))
    rw [h] at this
    exact this
  | tab, tab', .func name args, r, h => by
    simp only [compileComparable, Option.bind_eq_some_iff, Option.map_eq_some_iff] at h
    obtain ⟨f, hf, ⟨t, x⟩, h1, h2⟩ := h
    simp only [Prod.mk.injEq] at h2
    rw [← h2.1, ← h2.2]
    exact (compileArgs_shares h1).imp (by simp) fun n m h => by rw [cmpUses]; exact h
theorem compileArg_shares : ∀ {tab tab' : Tables} {ty : Ty} {s : Arg} {r}, compileArg tab ty s = some (tab', r) → Shares tab tab' (sizeOf s) fun n m => argUses n m r
  | tab, tab', ty, .lit l, r, h => by
    simp only [compileArg] at h
    split at h
    · simp only [Option.some.injEq, Prod.mk.injEq] at h; rw [← h.1, ← h.2]; exact .refl (by rw [argUses, cmpUses]; trivial)
    · cases h
  | tab, tab', ty, .query root segs, r, h => by
    simp only [compileArg] at h
    split at h
    · simp only [Option.map_eq_some_iff] at h
      obtain ⟨ss, h1, h2⟩ := h
      simp only [Prod.mk.injEq] at h2
      rw [← h2.1, ← h2.2]
      exact (compileSing_shares tab root ss _).imp (Nat.le_refl _) fun n m h => by rw [argUses]; exact h
    · split at h
      · split at h
        · rename_i i hi
          simp only [Option.some.injEq, Prod.mk.injEq] at h
          rw [← h.1, ← h.2]
          refine .refl ?_
          rw [argUses, queryUses]
          exact (List.findIdx?_eq_some_iff_getElem.1 hi).1
        · rename_i hi
          simp only [Option.map_eq_some_iff] at h
          obtain ⟨⟨t, x⟩, h1, h2⟩ := h
          simp only [Prod.mk.injEq] at h2
          rw [← h2.1, ← h2.2]
          exact add_shares hi (compileSegs_shares h1) (by simp) fun n m h => by rw [argUses, queryUses]; exact h
      · simp only [Option.map_eq_some_iff] at h
        obtain ⟨⟨t, x⟩, h1, h2⟩ := h
        simp only [Prod.mk.injEq] at h2
        rw [← h2.1, ← h2.2]
        exact (compileSegs_shares h1).imp (by simp) fun n m h => by rw [argUses, queryUses]; exact h
  | tab, tab', ty, .logical c, r, h => by simp only [compileArg] at h; cases h
  | tab, tab', ty, .func name args, r, h => by
    simp only [compileArg, Option.bind_eq_some_iff, Option.map_eq_some_iff] at h
    obtain ⟨f, hf, ⟨t, x⟩, h1, h2⟩ := h
    simp only [Prod.mk.injEq] at h2
    rw [← h2.1, ← h2.2]
    exact (compileArgs_shares h1).imp (by simp) fun n m h => by rw [argUses, cmpUses]; exact h
theorem compileArgs_shares : ∀ {tab tab' : Tables} {tys : List Ty} {s : List Arg} {r}, compileArgs tab tys s = some (tab', r) →
    Shares tab tab' (sizeOf s) fun n m => argsUse n m r
  | tab, tab', [], s, r, h => by
    simp only [compileArgs, Option.some.injEq, Prod.mk.injEq] at h; rw [← h.1, ← h.2]; exact .refl (by rw [argsUse]; trivial)
  | tab, tab', ty :: tys, [], r, h => by
    simp only [compileArgs, Option.some.injEq, Prod.mk.injEq] at h; rw [← h.1, ← h.2]; exact .refl (by rw [argsUse]; trivial)
  | tab, tab', ty :: tys, s :: l, r, h => by
    simp only [compileArgs, Option.bind_eq_some_iff, Option.map_eq_some_iff] at h
    obtain ⟨⟨t, x⟩, h1, ⟨t', x'⟩, h2, h3⟩ := h
    simp only [Prod.mk.injEq] at h3
    rw [← h3.1, ← h3.2]
    exact (compileArg_shares h1).trans (compileArgs_shares h2) (by simp; omega) (by simp) fun n m n' m' hn hm h h' => by
      rw [argsUse]; exact ⟨argUses_mono hn hm h, h'⟩
end

end Verif.JPath
