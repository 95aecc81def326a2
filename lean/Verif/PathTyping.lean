import Verif.TypeSpec
import Verif.PathTables

/-!
# The compiler accepts the queries that are well typed
-/

namespace Verif.JPath
open Rfc9535

/-- The rooted queries of the table are well typed. -/
def Tables.Typed (tab : Tables) : Prop := ∀ e ∈ tab.queries, SegsTyped e.1

/-- A step of the compiler succeeds exactly if `P`, and keeps the table well typed. -/
def Checks {α : Type} (o : Option (Tables × α)) (P : Prop) : Prop :=
  (P ∧ ∃ t a, o = some (t, a) ∧ t.Typed) ∨ (¬ P ∧ o = none)

variable {α β γ : Type}

theorem Checks.pure {t : Tables} {a : α} (h : t.Typed) : Checks (some (t, a)) True := .inl ⟨trivial, t, a, rfl, h⟩

theorem Checks.map {o : Option (Tables × α)} {P : Prop} (h : Checks o P) (f : α → β) :
    Checks (o.map fun (t, a) => (t, f a)) P := by
  rcases h with ⟨hp, t, a, rfl, ht⟩ | ⟨hp, rfl⟩
  · exact .inl ⟨hp, t, f a, rfl, ht⟩
  · exact .inr ⟨hp, rfl⟩

theorem Checks.bind {o : Option (Tables × α)} {P Q : Prop} (h : Checks o P) {g : Tables → Option (Tables × β)} {f : α → β → γ}
    (hg : ∀ t, t.Typed → Checks (g t) Q) :
    Checks (o.bind fun (t, a) => (g t).map fun (t, b) => (t, f a b)) (P ∧ Q) := by
  rcases h with ⟨hp, t, a, rfl, ht⟩ | ⟨hp, rfl⟩
  · rcases hg t ht with ⟨hq, t', b, e, ht'⟩ | ⟨hq, e⟩
    · exact .inl ⟨⟨hp, hq⟩, t', f a b, by simp [e], ht'⟩
    · exact .inr ⟨fun h => hq h.2, by simp [e]⟩
  · exact .inr ⟨fun h => hp h.1, rfl⟩

theorem Checks.iff {o : Option (Tables × α)} {P Q : Prop} (h : Checks o P) (e : P ↔ Q) : Checks o Q := by
  rwa [propext e] at h

/-- The types of the model and of the specification. -/
def Ty.spec : Ty → FnType
  | .value => .value
  | .logical => .logical
  | .nodes => .nodes

theorem ofName_signature {name : Bytes} {f : Fn} (h : Fn.ofName name = some f) : (name, f.inputs.map Ty.spec, f.output.spec) ∈ signatures ∧
    ∀ ps r, (name, ps, r) ∈ signatures → ps = f.inputs.map Ty.spec ∧ r = f.output.spec := by
  unfold Fn.ofName at h
  repeat' split at h
  all_goals first
    | (cases h; subst name; refine ⟨by decide, fun ps r hm => ?_⟩
       simp only [signatures, List.mem_cons, Prod.mk.injEq, List.not_mem_nil, or_false] at hm
       revert hm
       simp [Fn.inputs, Fn.output, Ty.spec]
       try exact fun a b => ⟨a, b⟩)
    | cases h

theorem ofName_none {name : Bytes} (h : Fn.ofName name = none) : ∀ ps r, (name, ps, r) ∉ signatures := by
  intro ps r hm
  simp only [signatures, List.mem_cons, Prod.mk.injEq, List.not_mem_nil, or_false] at hm
  unfold Fn.ofName at h
  rcases hm with ⟨rfl, -⟩ | ⟨rfl, -⟩ | ⟨rfl, -⟩ | ⟨rfl, -⟩ | ⟨rfl, -⟩ <;> exact absurd h (by decide)

theorem convertsTo_spec (t u : Ty) : t.convertsTo u = true ↔ (t.spec = u.spec ∨ t.spec = .nodes ∧ u.spec = .logical) := by
  cases t <;> cases u <;> decide

theorem argsTyped_length : ∀ {ps : List FnType} {args : List Arg}, ArgsTyped ps args → args.length = ps.length
  | [], [], _ => rfl
  | _ :: _, _ :: _, h => by simp only [ArgsTyped] at h; simp [argsTyped_length h.2]
  | [], _ :: _, h => by simp [ArgsTyped] at h
  | _ :: _, [], h => by simp [ArgsTyped] at h

/-- A call is accepted if its function is known, its result is of the type and its arguments are accepted. -/
theorem Checks.call {tab : Tables} {name : Bytes} {args : List Arg} {ty : Ty} (k : Fn → List ArgR → β)
    (h : ∀ tys : List Ty, .logical ∉ tys → args.length = tys.length → Checks (compileArgs tab tys args) (ArgsTyped (tys.map Ty.spec) args)) :
    Checks ((checkFn name args.length ty).bind fun f => (compileArgs tab f.inputs args).map fun (tab, args) => (tab, k f args))
      (∃ ps r, (name, ps, r) ∈ signatures ∧ (r = ty.spec ∨ r = .nodes ∧ ty.spec = .logical) ∧ ArgsTyped ps args) := by
  unfold checkFn
  cases hf : Fn.ofName name with
  | none => exact .inr ⟨fun ⟨ps, r, h, _⟩ => ofName_none hf ps r h, rfl⟩
  | some f =>
    obtain ⟨h1, h2⟩ := ofName_signature hf
    by_cases hc : f.output.convertsTo ty = true ∧ args.length = f.inputs.length
    · simp only [Option.bind_some, if_pos hc]
      refine ((h f.inputs (by cases f <;> decide) hc.2).map (k f)).iff ⟨fun h => ⟨_, _, h1, (convertsTo_spec _ _).1 hc.1, h⟩, ?_⟩
      rintro ⟨ps, r, hm, -, ha⟩
      obtain ⟨rfl, -⟩ := h2 ps r hm
      exact ha
    · simp only [Option.bind_some, if_neg hc]
      refine .inr ⟨?_, rfl⟩
      rintro ⟨ps, r, hm, hr, ha⟩
      obtain ⟨rfl, rfl⟩ := h2 ps r hm
      exact hc ⟨(convertsTo_spec _ _).2 hr, by simpa using argsTyped_length ha⟩

theorem asSingular_iff : ∀ segs : List Segment, Singular segs ↔ (asSingular segs).isSome = true
  | [] => by simp [Singular, asSingular]
  | .mk desc sels :: l => by
    have ih := asSingular_iff l
    have e : Singular (.mk desc sels :: l) ↔
        ((∃ n, Segment.mk desc sels = .mk false [.name n]) ∨ ∃ i, Segment.mk desc sels = .mk false [.index i]) ∧ Singular l := by
      simp [Singular]
    rw [e, ih]
    cases desc with
    | true => simp [asSingular]
    | false =>
      match sels with
      | [] => simp [asSingular]
      | [.name n] => simp [asSingular]
      | [.index i] => simp [asSingular]
      | [.wild] => simp [asSingular]
      | [.slice _ _ _] => simp [asSingular]
      | [.filter _] => simp [asSingular]
      | _ :: _ :: _ => simp [asSingular]

theorem compileSing_typed {tab : Tables} (h : tab.Typed) (root : Bool) (segs : List SingSeg) : (compileSing tab root segs).1.Typed := by
  unfold compileSing
  repeat' split
  all_goals exact h

theorem lookup_typed {tab : Tables} (h : tab.Typed) {segs i} (e : tab.queries.findIdx? (segmentsBeq ·.1 segs) = some i) : SegsTyped segs := by
  obtain ⟨hi, hb, -⟩ := List.findIdx?_eq_some_iff_getElem.1 e
  have := h _ (List.getElem_mem hi)
  rwa [segmentsBeq_eq hb] at this

theorem Checks.rooted {tab : Tables} (h : tab.Typed) {segs : List Segment} {k : Nat → β}
    (hs : Checks (compileSegs tab segs) (SegsTyped segs)) :
    Checks (match tab.queries.findIdx? (segmentsBeq ·.1 segs) with
      | some i => some (tab, k i)
      | none => (compileSegs tab segs).map fun (tab, r) =>
        ({ tab with queries := tab.queries ++ [(segs, r)] }, k tab.queries.length)) (SegsTyped segs) := by
  split
  · rename_i i hi
    exact .inl ⟨lookup_typed h hi, tab, k i, rfl, h⟩
  · rcases hs with ⟨hp, t, a, e, ht⟩ | ⟨hp, e⟩
    · refine .inl ⟨hp, _, _, by rw [e]; rfl, fun x hx => ?_⟩
      rcases List.mem_append.1 hx with hx | hx
      · exact ht x hx
      · rw [List.mem_singleton.1 hx]; exact hp
    · exact .inr ⟨hp, by rw [e]; rfl⟩

mutual
theorem compileSel_checks : ∀ (s : Selector) {tab : Tables}, tab.Typed → Checks (compileSel tab s) (SelTyped s)
  | .name _, _, h => by unfold compileSel SelTyped; exact .pure h
  | .wild, _, h => by unfold compileSel SelTyped; exact .pure h
  | .index _, _, h => by unfold compileSel SelTyped; exact .pure h
  | .slice _ _ _, _, h => by unfold compileSel SelTyped; exact .pure h
  | .filter c, _, h => by unfold compileSel SelTyped; exact (compileCond_checks c h).map _
theorem compileSels_checks : ∀ (s : List Selector) {tab : Tables}, tab.Typed → Checks (compileSels tab s) (SelsTyped s)
  | [], _, h => by unfold compileSels SelsTyped; exact .pure h
  | s :: l, _, h => by unfold compileSels SelsTyped; exact (compileSel_checks s h).bind fun t ht => compileSels_checks l ht
theorem compileSeg_checks : ∀ (s : Segment) {tab : Tables}, tab.Typed → Checks (compileSeg tab s) (SegTyped s)
  | .mk _ l, _, h => by unfold compileSeg SegTyped; exact (compileSels_checks l h).map _
theorem compileSegs_checks : ∀ (s : List Segment) {tab : Tables}, tab.Typed → Checks (compileSegs tab s) (SegsTyped s)
  | [], _, h => by unfold compileSegs SegsTyped; exact .pure h
  | s :: l, _, h => by
    unfold compileSegs SegsTyped
    exact ((compileSegs_checks l h).bind (f := fun l s => s :: l) fun t ht => compileSeg_checks s ht).iff And.comm
theorem compileCond_checks : ∀ (s : Logical) {tab : Tables}, tab.Typed → Checks (compileCond tab s) (CondTyped s)
  | .or l, _, h => by unfold compileCond CondTyped; exact (compileConds_checks l h).map _
  | .and l, _, h => by unfold compileCond CondTyped; exact (compileConds_checks l h).map _
  | .not c, _, h => by unfold compileCond CondTyped; exact (compileCond_checks c h).map _
  | .cmp l op r, _, h => by
    unfold compileCond CondTyped; exact (compileComparable_checks l h).bind (f := fun l r => compileCmp l op r) fun t ht => compileComparable_checks r ht
  | .query root segs, tab, h => by
    unfold compileCond CondTyped
    split
    · exact Checks.rooted (k := fun i => CondR.query (.inner i)) h (compileSegs_checks segs h)
    · exact (compileSegs_checks segs h).map (fun r => CondR.query (.run r))
  | .func name args, tab, h => by
    unfold compileCond CondTyped
    refine (Checks.call (ty := .logical) CondR.func fun tys hn hl => compileArgs_checks args h hn hl).iff ?_
    simp [Ty.spec]
theorem compileConds_checks : ∀ (s : List Logical) {tab : Tables}, tab.Typed → Checks (compileConds tab s) (CondsTyped s)
  | [], _, h => by unfold compileConds CondsTyped; exact .pure h
  | s :: l, _, h => by unfold compileConds CondsTyped; exact (compileCond_checks s h).bind fun t ht => compileConds_checks l ht
theorem compileComparable_checks : ∀ (s : Comparable) {tab : Tables}, tab.Typed → Checks (compileComparable tab s) (ComparableTyped s)
  | .lit _, _, h => by unfold compileComparable ComparableTyped; exact .pure h
  | .sing q, _, h => by
    unfold compileComparable ComparableTyped
    exact .inl ⟨trivial, _, _, rfl, compileSing_typed h _ _⟩
  | .func name args, tab, h => by
    unfold compileComparable ComparableTyped
    refine (Checks.call (ty := .value) CmpR.func fun tys hn hl => compileArgs_checks args h hn hl).iff ?_
    simp [Ty.spec]
theorem compileArg_checks : ∀ (s : Arg) {tab : Tables} {ty : Ty}, tab.Typed → ty ≠ .logical → Checks (compileArg tab ty s) (ArgTyped ty.spec s)
  | .lit _, tab, ty, h, _ => by
    unfold compileArg ArgTyped
    cases ty
    · exact .inl ⟨rfl, _, _, rfl, h⟩
    · exact .inr ⟨by simp [Ty.spec], rfl⟩
    · exact .inr ⟨by simp [Ty.spec], rfl⟩
  | .query root segs, tab, ty, h, hn => by
    unfold compileArg ArgTyped
    by_cases hv : ty = .value
    · subst hv
      simp only [Ty.spec, if_true]
      have := asSingular_iff segs
      cases hs : asSingular segs with
      | none => exact .inr ⟨by simp [this, hs], rfl⟩
      | some l => exact .inl ⟨by simp [this, hs], _, _, rfl, compileSing_typed h _ _⟩
    · have hv' : ty.spec ≠ .value := by cases ty <;> simp_all [Ty.spec]
      rw [if_neg hv, if_neg hv']
      split
      · exact Checks.rooted (k := fun i => ArgR.nodes (.inner i)) h (compileSegs_checks segs h)
      · exact (compileSegs_checks segs h).map (fun r => ArgR.nodes (.run r))
  | .logical c, tab, ty, h, hn => by
    unfold compileArg ArgTyped
    exact .inr ⟨fun ⟨e, _⟩ => hn (by cases ty <;> simp_all [Ty.spec]), rfl⟩
  | .func name args, tab, ty, h, hn => by
    unfold compileArg ArgTyped
    exact Checks.call (ty := ty) (fun f args => ArgR.value (.func f args)) fun tys hn hl => compileArgs_checks args h hn hl
theorem compileArgs_checks : ∀ (s : List Arg) {tab : Tables} {tys : List Ty}, tab.Typed → .logical ∉ tys → s.length = tys.length →
    Checks (compileArgs tab tys s) (ArgsTyped (tys.map Ty.spec) s)
  | [], _, [], h, _, _ => by unfold compileArgs; simp only [List.map_nil, ArgsTyped]; exact .pure h
  | _ :: _, _, [], _, _, hl => by cases hl
  | [], _, _ :: _, _, _, hl => by cases hl
  | s :: l, _, ty :: tys, h, hn, hl => by
    unfold compileArgs
    simp only [List.map_cons, ArgsTyped]
    exact (compileArg_checks s h fun e => hn (by simp [e])).bind fun t ht => compileArgs_checks l ht (fun e => hn (by simp [e])) (by simpa using hl)
end

/-- The compiler accepts exactly the queries that are well typed. -/
theorem compileQuery_typed (q : Query) : (compileQuery q).isSome = true ↔ WellTyped q := by
  unfold compileQuery WellTyped
  rcases compileSegs_checks q.segs (tab := {}) (fun e he => by cases he) with ⟨hp, t, a, e, -⟩ | ⟨hp, e⟩
  · simp [hp, e]
  · simp [hp, e]

end Verif.JPath
