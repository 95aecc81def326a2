import Verif.PathMain
import Verif.PathFuel

/-!
# What a query writes

The outcome of a run, which does not depend on the fuel, and the conditions under which it is that of the specification.
-/

set_option linter.unusedSimpArgs false
set_option linter.unusedVariables false

namespace Verif.JPath
open AState IProg GoJson Rfc9535

/-- The compiled query, run on the tokens by the model of `/repo/transform/jsonpath` over the model of `/repo/iterator`, writes `out` and ends with
`e`.  (Fuel is for termination only; a run that ends for want of fuel is not an outcome.) -/
def Outcome (lib : Lib) (strict : Bool) (q : Query) (ts : List Token) (out : List Token) (e : Except Stop Unit) : Prop :=
  e ≠ .error .fuel ∧ ∃ r, compileQuery q = some r ∧ ∃ fuel,
    ((runQuery lib strict fuel r fuel).run Heap.mach (Heap.init ts)).1 = out ∧
    ((runQuery lib strict fuel r fuel).run Heap.mach (Heap.init ts)).2.map (fun _ => ()) = e

/-- There is one outcome. -/
theorem Outcome.unique {lib : Lib} {strict : Bool} {q : Query} {ts out out' : List Token} {e e' : Except Stop Unit} (h : Outcome lib strict q ts out e)
    (h' : Outcome lib strict q ts out' e') : out = out' ∧ e = e' := by
  obtain ⟨h1, r, h2, f, h3, h4⟩ := h
  obtain ⟨h1', r', h2', f', h3', h4'⟩ := h'
  rw [h2] at h2'
  cases h2'
  have n1 : ((runQuery lib strict f r f).run Heap.mach (Heap.init ts)).2 ≠ .error .fuel := by
    intro h; rw [h] at h4; exact h1 h4.symm
  have n2 : ((runQuery lib strict f' r f').run Heap.mach (Heap.init ts)).2 ≠ .error .fuel := by
    intro h; rw [h] at h4'; exact h1' h4'.symm
  rcases Nat.le_total f f' with hf | hf
  · have := runQuery_more Heap.mach (Heap.init ts) lib strict r hf hf n1
    rw [this] at h3' h4'
    exact ⟨h3.symm.trans h3', h4.symm.trans h4'⟩
  · have := runQuery_more Heap.mach (Heap.init ts) lib strict r hf hf n2
    rw [this] at h3 h4
    exact ⟨h3.symm.trans h3', h4.symm.trans h4'⟩

/-- One run is enough to know the outcome. -/
def runsTo (lib : Lib) (strict : Bool) (fuel : Nat) (q : Query) (ts out : List Token) (e : Except Stop Unit) : Bool :=
  match compileQuery q with
  | none => false
  | some r =>
    match (runQuery lib strict fuel r fuel).run Heap.mach (Heap.init ts), e with
    | (o, .ok _), .ok _ => o == out
    | (o, .error s), .error s' => o == out && s == s' && s != .fuel
    | _, _ => false

theorem Outcome.of_run {lib : Lib} {strict : Bool} {q : Query} {ts out : List Token} {e : Except Stop Unit} (fuel : Nat)
    (h : runsTo lib strict fuel q ts out e = true) : Outcome lib strict q ts out e := by
  unfold runsTo at h
  split at h
  · cases h
  · rename_i r hr
    split at h
    · rename_i o x _ hx
      refine ⟨by simp, r, hr, fuel, ?_, ?_⟩
      · rw [hx]; simpa using h
      · rw [hx]; rfl
    · rename_i o s s' hx
      simp only [Bool.and_eq_true, beq_iff_eq, bne_iff_ne] at h
      refine ⟨?_, r, hr, fuel, ?_, ?_⟩
      · simp only [ne_eq, Except.error.injEq]; rw [← h.1.2]; exact h.2
      · rw [hx]; exact h.1.1
      · rw [hx, ← h.1.2]; rfl
    · cases h

/-- Some library, for examples that do not need it. -/
def noLib : Lib := ⟨fun _ => b%"0", fun _ => none⟩

/-- What is assumed of a query and a value: the literals of the value have a meaning, numbers are among `S`, the value is not longer than an `int64`
can count, and the query is `safe` for the value. -/
structure Plain (lib : Lib) (re : Sem) (S : Bytes → Prop) (q : Query) (v : JVal) : Prop where
  den : ∃ d, Den v d
  nums : NumsIn S v
  max : (v.toks.length : Int) ≤ maxInt64
  safe : safeSegs lib re S v q.segs

section
variable {lib : Lib} {re : Sem} {S : Bytes → Prop} {q : Query} {strict : Bool}

theorem bound_all {α : Type} (P : α → Nat → Prop) (hm : ∀ a m n, P a m → m ≤ n → P a n) : ∀ l : List α, (∀ a ∈ l, ∃ n, P a n) → ∃ n, ∀ a ∈ l, P a n
  | [], _ => ⟨0, by simp⟩
  | a :: l, h => by
    obtain ⟨n, h1⟩ := h a List.mem_cons_self
    obtain ⟨m, h2⟩ := bound_all P hm l fun b hb => h b (List.mem_cons_of_mem _ hb)
    refine ⟨n + m, fun b hb => ?_⟩
    rcases List.mem_cons.1 hb with rfl | hb
    · exact hm _ _ _ h1 (by omega)
    · exact hm _ _ _ (h2 b hb) (by omega)

theorem tables_bound (q : Query) (v : JVal) : ∃ F, ∀ tab r, compileSegs {} q.segs = some (tab, r) → ∀ e ∈ tab.queries, (nodes re v e.1 v).length < F := by
  cases hc : compileSegs {} q.segs with
  | none => exact ⟨0, fun _ _ h => nomatch h⟩
  | some x =>
    obtain ⟨tab, r⟩ := x
    obtain ⟨n, hn⟩ := bound_all (fun (e : List Segment × List SegR) n => (nodes re v e.1 v).length < n) (fun _ _ _ h h' => Nat.lt_of_lt_of_le h h') tab.queries
      fun e _ => ⟨(nodes re v e.1 v).length + 1, by omega⟩
    exact ⟨n, fun t r h => by cases h; exact hn⟩

theorem Plain.fit {v : JVal} (h : Plain lib re S q v) : ∃ F, ∀ fuel, F ≤ fuel → Fit lib re S q fuel v := by
  obtain ⟨F, hF⟩ := tables_bound (re := re) q v
  exact ⟨F + v.toks.length, fun fuel hf => ⟨⟨h.den, h.nums, by omega, h.max⟩, h.safe, fun tab r hc e he => Nat.lt_of_lt_of_le (hF tab r hc e he) (by omega)⟩⟩

/-- A compiled query on a stream of values writes, for each of them, the nodes of the specification: in the same order if no segment
changes it. -/
theorem outcome_stream (hc : (compileQuery q).isSome = true) {vs : List JVal} (h : ∀ v ∈ vs, Plain lib re S q v) :
    ∃ Ls : List (List JVal), Outcome lib strict q (streamToks vs) (streamToks Ls.flatten) (.ok ()) ∧
      Rel2 (fun v L => L.Perm (nodes re v q.segs v) ∧ ((∀ seg ∈ q.segs, seg.Exact strict) → L = nodes re v q.segs v)) vs Ls := by
  obtain ⟨r, hr⟩ := Option.isSome_iff_exists.1 hc
  obtain ⟨F, hF⟩ := bound_all (fun v n => ∀ fuel, n ≤ fuel → Fit lib re S q fuel v) (fun _ _ _ h h' fuel hf => h fuel (by omega)) vs fun v hv => (h v hv).fit
  obtain ⟨h', Ls, e1, e2⟩ := query_stream (strict := strict) (fuel := F + vs.length + 1) (f := F + vs.length + 1) hr
    (fun v hv => hF v hv _ (by omega)) (by omega)
  exact ⟨Ls, ⟨by simp, r, hr, _, by rw [e1], by rw [e1]; rfl⟩, e2⟩

theorem rel2_flatMap {α β : Type} {f : α → List β} {l : List α} {m : List (List β)} (h : Rel2 (fun a L => L = f a) l m) : m.flatten = l.flatMap f := by
  induction h with
  | nil => rfl
  | cons h1 _ ih => simp [h1, ih]

theorem rel2_imp {α β : Type} {R R' : α → β → Prop} {l : List α} {m : List β} (h : Rel2 R l m) (hR : ∀ a b, R a b → R' a b) : Rel2 R' l m := by
  induction h with
  | nil => exact .nil
  | cons h1 _ ih => exact .cons (hR _ _ h1) ih

theorem rel2_perm {α β : Type} {f : α → List β} {l : List α} {m : List (List β)} (h : Rel2 (fun a L => L.Perm (f a)) l m) : m.flatten.Perm (l.flatMap f) := by
  induction h with
  | nil => exact .refl _
  | cons h1 _ ih =>
    simp only [List.flatten_cons, List.flatMap_cons]
    exact h1.append ih

/-- If no segment changes the order, what is written is determined. -/
theorem outcome_exact (hc : (compileQuery q).isSome = true) {vs : List JVal} (h : ∀ v ∈ vs, Plain lib re S q v) (he : ∀ seg ∈ q.segs, seg.Exact strict) :
    Outcome lib strict q (streamToks vs) (streamToks (vs.flatMap (eval re q))) (.ok ()) := by
  obtain ⟨Ls, h1, h2⟩ := outcome_stream (strict := strict) hc h
  rw [rel2_flatMap (f := eval re q) (rel2_imp h2 fun v L h => h.2 he)] at h1
  exact h1

end

/-! ## Queries with one filter -/

/-- `$[?c]` -/
def filterQuery (c : Logical) : Query := ⟨true, [.mk false [.filter c]]⟩

/-- The values that have the property. -/
noncomputable def keep (P : JVal → Prop) (l : List JVal) : List JVal := open Classical in l.filter fun w => decide (P w)

theorem keep_nil (P : JVal → Prop) : keep P [] = [] := rfl

theorem keep_pos {P : JVal → Prop} {v : JVal} (h : P v) (l : List JVal) : keep P (v :: l) = v :: keep P l := by simp [keep, h]

theorem keep_neg {P : JVal → Prop} {v : JVal} (h : ¬ P v) (l : List JVal) : keep P (v :: l) = keep P l := by simp [keep, h]

theorem eval_filter (re : Sem) (c : Logical) (v : JVal) : eval re (filterQuery c) v = keep (holds re v c) (children v) := by
  simp [eval, filterQuery, nodes, Rfc9535.segNodes, selsNodes, selNodes, keep]

section
variable {lib : Lib} {re : Sem} {S : Bytes → Prop}

theorem compiles_filter {c : Logical} : (compileQuery (filterQuery c)).isSome = (compileCond {} c).isSome := by
  simp only [compileQuery, filterQuery, compileSegs, compileSeg, compileSels, compileSel, Option.bind_some]
  cases compileCond {} c <;> rfl

theorem safe_filter {c : Logical} {root : JVal} : safeSegs lib re S root (filterQuery c).segs ↔ safeCond lib re S root c := by
  simp [filterQuery, safeSegs, safeSeg, safeSels, safeSel]

/-- What a filter writes. -/
theorem outcome_filter {c : Logical} (strict : Bool) (hc : (compileCond {} c).isSome = true) {vs : List JVal} (h : ∀ v ∈ vs, Plain lib re S (filterQuery c) v) :
    Outcome lib strict (filterQuery c) (streamToks vs)
      (streamToks (vs.flatMap fun v => keep (holds re v c) (children v))) (.ok ()) := by
  have := outcome_exact (strict := strict) (q := filterQuery c) (by rw [compiles_filter]; exact hc) h (fun seg hs => by
    simp only [filterQuery, List.mem_singleton] at hs
    subst hs
    exact .inl rfl)
  rw [show eval re (filterQuery c) = fun v => _ from funext (eval_filter re c)] at this
  exact this

end

/-! ## Queries without filters -/

/-- A name, a wildcard, an index or a slice, with the conditions of `SelOk`. -/
def Selector.Basic : Selector → Prop
  | .filter _ => False
  | s => SelOk s

/-- All selectors are basic. -/
def Segment.Basic : Segment → Prop
  | .mk _ sels => ∀ s ∈ sels, s.Basic

theorem basic_safeSels {lib : Lib} {re : Sem} {S : Bytes → Prop} {root : JVal} : ∀ {l : List Selector}, (∀ s ∈ l, s.Basic) → safeSels lib re S root l
  | [], _ => by rw [safeSels]; trivial
  | s :: l, h => by
    rw [safeSels]
    refine ⟨?_, basic_safeSels fun t ht => h t (List.mem_cons_of_mem _ ht)⟩
    have := h s List.mem_cons_self
    cases s with
    | filter c => exact this.elim
    | _ => rw [safeSel]; exact this

theorem basic_safeSegs {lib : Lib} {re : Sem} {S : Bytes → Prop} {root : JVal} : ∀ {l : List Segment}, (∀ s ∈ l, s.Basic) → safeSegs lib re S root l
  | [], _ => by rw [safeSegs]; trivial
  | .mk d sels :: l, h => by
    rw [safeSegs, safeSeg]
    exact ⟨basic_safeSels (h _ List.mem_cons_self), basic_safeSegs fun t ht => h t (List.mem_cons_of_mem _ ht)⟩

theorem basic_compileSels : ∀ (tab : Tables) {l : List Selector}, (∀ s ∈ l, s.Basic) → ∃ r, compileSels tab l = some (tab, r)
  | tab, [], _ => ⟨[], rfl⟩
  | tab, s :: l, h => by
    obtain ⟨r, hr⟩ := basic_compileSels tab (l := l) fun t ht => h t (List.mem_cons_of_mem _ ht)
    have := h s List.mem_cons_self
    have key : ∃ x, compileSel tab s = some (tab, x) := by
      cases s with
      | filter c => exact this.elim
      | _ => rw [compileSel]; exact ⟨_, rfl⟩
    obtain ⟨x, hx⟩ := key
    exact ⟨x :: r, by simp [compileSels, hx, hr]⟩

theorem basic_compileSegs : ∀ (tab : Tables) {l : List Segment}, (∀ s ∈ l, s.Basic) → ∃ r, compileSegs tab l = some (tab, r)
  | tab, [], _ => ⟨[], rfl⟩
  | tab, .mk d sels :: l, h => by
    obtain ⟨r, hr⟩ := basic_compileSegs tab (l := l) fun t ht => h t (List.mem_cons_of_mem _ ht)
    obtain ⟨x, hx⟩ := basic_compileSels tab (h _ List.mem_cons_self)
    exact ⟨.mk d x :: r, by simp [compileSegs, compileSeg, hx, hr]⟩

/-- Queries without filters are compiled. -/
theorem basic_compiles {q : Query} (h : ∀ s ∈ q.segs, s.Basic) : (compileQuery q).isSome = true := by
  obtain ⟨r, hr⟩ := basic_compileSegs {} h
  simp [compileQuery, hr]

/-- Nothing else is assumed of values for queries without filters. -/
theorem basic_plain {lib : Lib} {re : Sem} {q : Query} (h : ∀ s ∈ q.segs, s.Basic) {v : JVal} (hd : ∃ d, Den v d) (hm : (v.toks.length : Int) ≤ maxInt64) :
    Plain lib re (fun _ => True) q v := ⟨hd, fun _ _ _ => trivial, hm, basic_safeSegs h⟩

end Verif.JPath
