import Verif.QueryEnds
import Verif.PathOut

/-!
# Queries come to an end: runners and the main loop
-/

set_option linter.unusedSimpArgs false
set_option linter.unusedVariables false

namespace Verif.JPath.Ends
open IProg Heap GoJson JPath

variable {ε φ α β : Type} {B N : Nat}

/-- A value that is there exists. -/
def OptIn (n : Nat) (x : Option Val) : Prop := ∀ v, x = some v → v.After 0 n

theorem OptIn.none {n : Nat} : OptIn n none := fun _ h => by cases h
theorem OptIn.some {n : Nat} {v : Val} (h : v.After 0 n) : OptIn n (some v) := fun _ e => by cases e; exact h
theorem OptIn.mono {n m : Nat} {x : Option Val} (h : OptIn n x) (hn : n ≤ m) : OptIn m x := fun v e => (h v e).mono (Nat.le_refl _) hn

/-! ## Singular queries -/

theorem singName_halts {n : Bytes} {i : Nat} : ∀ (f : Nat) {h : Heap}, In B N h → i < h.n → h.rest i < f →
    Halts B N (singName n i f : IProg ε _) h fun h' r => OptIn h'.n r
  | 0, h, _, _, hf => absurd hf (Nat.not_lt_zero _)
  | f + 1, h, hi, i1, hf => by
    refine .advance hi i1 fun h1 more o1 in1 m1 => ?_
    have n1 := o1.n
    cases more with
    | false => exact .ret in1 .none
    | true =>
      have m1 := m1 rfl
      have r1 := m1.rest
      refine .item in1 m1 fun key x x1 x2 => ?_
      cases key with
      | none => exact .panic
      | some k =>
        show Halts B N (match toStr k with | none => _ | some key => _) _ _
        cases toStr k with
        | none => exact .panic
        | some key =>
          show Halts B N (if _ then _ else _) _ _
          split
          · exact .ret in1 (.some x1)
          · exact singName_halts f in1 (by omega) (by omega)

theorem singIndexLoop_halts {j : Int} {i : Nat} {ahead : Option Nat} : ∀ (f : Nat) (index neg : Int) {h : Heap}, In B N h → i < h.n →
    (∀ a, ahead = some a → a < h.n) → h.rest i < f → Halts B N (singIndexLoop j i ahead f index neg : IProg ε _) h fun h' r => OptIn h'.n r
  | 0, _, _, h, _, _, _, hf => absurd hf (Nat.not_lt_zero _)
  | f + 1, index, neg, h, hi, i1, ha, hf => by
    refine .advance hi i1 fun h1 more o1 in1 m1 => ?_
    have n1 := o1.n
    cases more with
    | false => exact .ret in1 .none
    | true =>
      have m1 := m1 rfl
      have r1 := m1.rest
      refine .item in1 m1 fun key x x1 x2 => ?_
      show Halts B N (if _ then _ else _) _ _
      split
      · exact .ret in1 (.some x1)
      · refine .bind (nextNeg_halts in1 fun a e => by have := ha a e; omega) fun h2 neg' o2 in2 _ => ?_
        have n2 := o2.n
        have := o2.rest i (by omega)
        exact singIndexLoop_halts f _ _ in2 (by omega) (fun a e => by have := ha a e; omega) (by omega)

theorem low {F : Nat} (hF : B ≤ F) {h : Heap} (hi : In B N h) (i : Nat) : h.rest i < F := Nat.lt_of_lt_of_le (hi.small.rest hi.sound i) hF

theorem singIndex_halts {j : Int} {i F : Nat} (hF : B ≤ F) {h : Heap} (hi : In B N h) (i1 : i < h.n) :
    Halts B N (singIndex j i F : IProg ε _) h fun h' r => OptIn h'.n r := by
  unfold singIndex
  split
  · refine .bind (lookStart_halts hF hi) fun h1 la o1 in1 hla => ?_
    have n1 := o1.n
    exact .bind (singIndexLoop_halts F _ _ in1 (by omega) hla (low hF in1 i)) fun h2 r o2 in2 hr => .thenDetach in2 fun h3 o3 in3 => .ret in3 (hr.mono o3.n)
  · exact singIndexLoop_halts F _ _ hi i1 (fun a e => by cases e) (low hF hi i)

theorem singEval_halts {F : Nat} (hF : B ≤ F) : ∀ (segs : List SingSeg) (x : Val) {h : Heap}, In B N h → x.After 0 h.n →
    Halts B N (singEval F segs x : IProg ε _) h fun h' r => OptIn h'.n r
  | [], x, h, hi, hx => .ret hi (.some hx)
  | seg :: segs, x, h, hi, hx => by
    simp only [singEval]
    refine .bind (Q := fun h' r => OptIn h'.n r) ?_ fun h1 r o1 in1 hr => ?_
    · split
      · exact singName_halts F hi hx.2 (low hF hi _)
      · exact singIndex_halts hF hi hx.2
      · exact .ret hi .none
    · cases r with
      | none => exact .ret in1 .none
      | some y => exact singEval_halts hF segs y in1 (hr y rfl)

/-! ## Comparisons -/

/-- Comparables end. -/
def CmpOk (B N : Nat) (c : CmpP ε) : Prop := ∀ h x, In B N h → x.After 0 h.n → Halts B N (c x) h fun h' r => OptIn h'.n r

theorem checkEqual_halts {F : Nat} (hF : B ≤ F) {x y : Option Val} {h : Heap} (hi : In B N h) (hx : OptIn h.n x) (hy : OptIn h.n y) :
    Halts B N (checkEqual F x y : IProg ε _) h fun _ _ => True := by
  cases x <;> cases y
  · exact .ret hi trivial
  · exact .ret hi trivial
  · exact .ret hi trivial
  · exact valEqual_halts F h _ _ hi (hx _ rfl) (hy _ rfl) (Nat.lt_of_lt_of_le (hi.vrest _) hF) (Nat.lt_of_lt_of_le (hi.vrest _) hF)

theorem cloneOpt_halts {x : Option Val} {h : Heap} (hi : In B N h) : Halts B N (cloneOpt x : IProg ε _) h fun h' p => OptIn h'.n p.1 := by
  cases x with
  | none => exact .ret hi .none
  | some x => exact .clone hi fun h1 w t o1 in1 a1 _ _ => .ret in1 (.some a1)

theorem compareVals_halts {F : Nat} (hF : B ≤ F) {eq lt neg : Bool} {x y : Option Val} {h : Heap} (hi : In B N h) (hx : OptIn h.n x) (hy : OptIn h.n y) :
    Halts B N (compareVals F eq lt neg x y : IProg ε _) h fun _ _ => True := by
  unfold compareVals
  refine .bind (Q := fun _ _ => True) ?_ fun h1 r o1 in1 _ => ?_
  · split
    · exact checkEqual_halts hF hi hx hy
    · exact .ret hi trivial
  · split
    · cases checkLess x y with
      | none => exact .panic
      | some r => exact .ret in1 trivial
    · exact .ret in1 trivial

theorem comparison_halts {F : Nat} (hF : B ≤ F) {l r : CmpP ε} (hl : CmpOk B N l) (hr : CmpOk B N r) {eq lt neg : Bool} : CondOk B N (comparison F l eq lt neg r) := by
  intro h x hi hx
  unfold comparison
  exact .clone hi fun h1 w1 t1 o1 in1 a1 _ _ => .clone in1 fun h2 w2 t2 o2 in2 a2 _ _ =>
    .bind (hl h2 w1 in2 (o2.after a1)) fun h3 l o3 in3 _ => .bind (cloneOpt_halts in3) fun h4 l o4 in4 l4 =>
    .bind (hr h4 w2 in4 ((o3.trans o4).after a2)) fun h5 r o5 in5 _ => .bind (cloneOpt_halts in5) fun h6 r o6 in6 r6 =>
    .bind (compareVals_halts hF in6 (l4.mono (o5.trans o6).n) r6) fun h7 b o7 in7 _ => .thenDetach in7 fun _ _ in8 => .thenDetach in8 fun _ _ in9 =>
    .thenDetach in9 fun _ _ in10 => .thenDetach in10 fun _ _ in11 => .ret in11 trivial

/-! ## Queries in conditions -/

/-- The conditions of a query end. -/
def QueryOk (B N : Nat) : QueryP ε → Prop
  | .run segs => ∀ s ∈ segs, SegOk B N s
  | .inner _ => True

/-- What is known of the environment. -/
structure EnvOk (B N : Nat) (e : Env) : Prop where
  fuel : B ≤ e.fuel
  sing : ∀ v ∈ e.ctx.sing, v.After 0 N

variable {K : Nat → φ → Prop} {fin : φ → Val → IProg ε (φ × Bool)}

theorem innerLoop_halts (hfin : FinOk B N K fin) {i : Nat} : ∀ (f : Nat) (q : φ) {h : Heap}, In B N h → i < h.n → K h.n q → h.rest i < f →
    Halts B N (innerLoop fin i f q) h fun h' r => K h'.n r.1
  | 0, _, h, _, _, _, hf => absurd hf (Nat.not_lt_zero _)
  | f + 1, q, h, hi, i1, hq, hf => by
    refine .advance hi i1 fun h1 more o1 in1 m1 => ?_
    have n1 := o1.n
    cases more with
    | false => exact .ret in1 (hfin.mono _ _ _ o1.n hq)
    | true =>
      have m1 := m1 rfl
      have r1 := m1.rest
      refine .item in1 m1 fun key x x1 x2 => ?_
      refine .bind (hfin.halts h1 q x in1 x1 (hfin.mono _ _ _ o1.n hq)) fun h2 r o2 in2 hr => ?_
      have n2 := o2.n
      have := o2.rest i (by omega)
      split
      · exact innerLoop_halts hfin f _ in2 (by omega) hr (by omega)
      · exact .ret in2 hr

theorem mapValue_halts {e : Env} (he : EnvOk B N e) (hfin : FinOk B N K fin) {q : QueryP ε} (hq : QueryOk B N q) {s : φ} {x : Val} {h : Heap} (hi : In B N h)
    (hx : x.After 0 h.n) (hs : K h.n s) : Halts B N (mapValue e fin q s x) h fun h' r => K h'.n r.1 := by
  cases q with
  | run segs =>
    exact .bind (segsP_halts hfin he.fuel hq h [] s x hi (fun _ h => by cases h) hs hx (hi.vrest x)) fun h1 r o1 in1 hr => .ret in1 hr.2
  | inner i =>
    simp only [mapValue]
    cases e.ctx.queries[i]? with
    | none => exact .panic
    | some c =>
      refine .clone hi fun h1 w t o1 in1 a1 _ c1 => ?_
      obtain ⟨j, rfl⟩ := c1 _ _ rfl
      exact .bind (innerLoop_halts hfin e.fuel s in1 a1.2 (hfin.mono _ _ _ o1.n hs) (low he.fuel in1 j)) fun h2 r o2 in2 hr => .thenDetach in2 fun h3 o3 in3 =>
        .ret in3 (hfin.mono _ _ _ o3.n hr)

theorem haltFin_ok : FinOk (ε := ε) B N (fun _ _ => True) haltFin := ⟨fun _ _ _ _ _ => trivial, fun h q x hi _ _ => .ret hi trivial⟩

theorem countFin_ok : FinOk (ε := ε) B N (fun _ _ => True) countFin := ⟨fun _ _ _ _ _ => trivial, fun h q x hi _ _ => .ret hi trivial⟩

theorem collectFin_ok : FinOk (ε := ε) B N (fun _ _ => True) collectFin :=
  ⟨fun _ _ _ _ _ => trivial, fun h q x hi _ _ => .copy hi fun h1 ts o1 in1 => .ret in1 trivial⟩

theorem writeFin_ok : FinOk B N (fun _ _ => True) writeFin :=
  ⟨fun _ _ _ _ _ => trivial, fun h q x hi _ _ => .copy hi fun h1 ts o1 in1 => .bind (.putAll in1 ts) fun h2 _ o2 in2 _ => .ret in2 trivial⟩

theorem valueFin_ok : FinOk (ε := ε) B N OptIn valueFin := by
  refine ⟨fun n m q hn hq => hq.mono hn, fun h q x hi hx hq => ?_⟩
  cases q with
  | none => exact .ret hi (.some hx)
  | some y => exact .ret hi .none

theorem queryTruth_halts {e : Env} (he : EnvOk B N e) {q : QueryP ε} (hq : QueryOk B N q) : CondOk B N (queryTruth e q) := by
  intro h x hi hx
  exact .clone hi fun h1 w t o1 in1 a1 _ _ => .bind (mapValue_halts he haltFin_ok hq in1 a1 trivial) fun h2 r o2 in2 _ => .thenDetach in2 fun _ _ in3 => .ret in3 trivial

/-! ## Functions -/

def ArgOk (B N : Nat) : ArgP ε → Prop
  | .value c => CmpOk B N c
  | .nodes q => QueryOk B N q

def ArgVOk (B N n : Nat) : ArgV ε → Prop
  | .value x => OptIn n x
  | .nodes q x => QueryOk B N q ∧ x.After 0 n

theorem ArgVOk.mono {n m : Nat} (hn : n ≤ m) : ∀ {v : ArgV ε}, ArgVOk B N n v → ArgVOk B N m v
  | .value x, h => OptIn.mono h hn
  | .nodes q x, h => ⟨h.1, h.2.mono (Nat.le_refl _) hn⟩

/-- The value of a function exists. -/
def ResIn (n : Nat) : FnRes → Prop
  | .bool _ => True
  | .value x => OptIn n x

theorem ResIn.mono {n m : Nat} (hn : n ≤ m) : ∀ {v : FnRes}, ResIn n v → ResIn m v
  | .bool _, _ => trivial
  | .value x, h => OptIn.mono h hn

theorem scalar_in {n : Nat} (s : Scalar) : OptIn n (some (.scalar s)) := .some trivial

theorem countMembers_halts {i : Nat} : ∀ (f n : Nat) {h : Heap}, In B N h → i < h.n → h.rest i < f → Halts B N (countMembers i f n : IProg ε _) h fun _ _ => True
  | 0, _, h, _, _, hf => absurd hf (Nat.not_lt_zero _)
  | f + 1, n, h, hi, i1, hf => by
    refine .advance hi i1 fun h1 more o1 in1 m1 => ?_
    have n1 := o1.n
    cases more with
    | false => exact .ret in1 trivial
    | true =>
      have r1 := (m1 rfl).rest
      exact countMembers_halts f _ in1 (by omega) (by omega)

theorem runLength_halts {F : Nat} (hF : B ≤ F) {x : Option Val} {h : Heap} (hi : In B N h) (hx : OptIn h.n x) :
    Halts B N (runLength F x : IProg ε _) h fun h' r => ResIn h'.n r := by
  unfold runLength
  split
  · exact .bind (countMembers_halts F 0 hi (hx _ rfl).2 (low hF hi _)) fun h1 n o1 in1 _ => .ret in1 (scalar_in _)
  · exact .bind (countMembers_halts F 0 hi (hx _ rfl).2 (low hF hi _)) fun h1 n o1 in1 _ => .ret in1 (scalar_in _)
  · split
    · exact .ret hi OptIn.none
    · split
      · exact .panic
      · exact .ret hi (scalar_in _)
  · exact .ret hi OptIn.none

theorem matchIndex_halts {lib : Lib} {x y : Option Val} {h : Heap} (hi : In B N h) : Halts B N (matchIndex lib x y : IProg ε _) h fun _ _ => True := by
  unfold matchIndex
  split
  · split
    · exact .ret hi trivial
    · split
      · exact .panic
      · split
        · refine .reject hi fun h1 b o1 in1 => ?_
          split
          · exact .panic
          · exact .ret in1 trivial
        · split
          · exact .panic
          · exact .ret hi trivial
  · exact .ret hi trivial

theorem runMatch_halts {lib : Lib} {whole : Bool} {x y : Option Val} {h : Heap} (hi : In B N h) : Halts B N (runMatch lib whole x y : IProg ε _) h fun h' r => ResIn h'.n r :=
  .bind (matchIndex_halts hi) fun h1 l o1 in1 _ => .ret in1 trivial

theorem runFn_halts {e : Env} (he : EnvOk B N e) {f : Fn} {vs : List (ArgV ε)} {h : Heap} (hi : In B N h) (hv : ∀ v ∈ vs, ArgVOk B N h.n v) :
    Halts B N (runFn e f vs) h fun h' r => ResIn h'.n r := by
  unfold runFn
  split
  · exact runLength_halts he.fuel hi (hv (.value _) (List.mem_singleton.2 rfl))
  · have := hv _ (List.mem_singleton.2 rfl)
    exact .bind (mapValue_halts he countFin_ok this.1 hi this.2 trivial) fun h1 r o1 in1 _ => .ret in1 (scalar_in _)
  · exact runMatch_halts hi
  · exact runMatch_halts hi
  · have := hv _ (List.mem_singleton.2 rfl)
    exact .bind (mapValue_halts he valueFin_ok this.1 hi this.2 .none) fun h1 r o1 in1 hr => .ret in1 hr
  · exact .panic

theorem runArgs_halts {e : Env} (he : EnvOk B N e) {f : Fn} {x : Val} : ∀ (l : List (ArgP ε)) (vs : List (ArgV ε)) {h : Heap}, In B N h → x.After 0 h.n →
    (∀ a ∈ l, ArgOk B N a) → (∀ v ∈ vs, ArgVOk B N h.n v) → Halts B N (runArgs e f x l vs) h fun h' r => ResIn h'.n r
  | [], vs, h, hi, hx, _, hv => runFn_halts he hi hv
  | .value c :: l, vs, h, hi, hx, hl, hv => by
    have hc : CmpOk B N c := hl (.value c) (by simp)
    refine .clone hi fun h1 w t o1 in1 a1 _ _ => .bind (hc h1 w in1 a1) fun h2 y o2 in2 hy => ?_
    have o := o1.trans o2
    refine .bind (runArgs_halts he l _ in2 (o.after hx) (fun a ha => hl a (by simp [ha])) fun v h' => ?_) fun h3 r o3 in3 hr => .thenDetach in3 fun h4 o4 in4 =>
      .ret in4 (hr.mono o4.n)
    rcases List.mem_append.1 h' with h' | h'
    · exact (hv v h').mono o.n
    · rw [List.mem_singleton.1 h']; exact hy
  | .nodes q :: l, vs, h, hi, hx, hl, hv => by
    have hq : QueryOk B N q := hl (.nodes q) (by simp)
    refine runArgs_halts he l _ hi hx (fun a ha => hl a (by simp [ha])) fun v h' => ?_
    rcases List.mem_append.1 h' with h' | h'
    · exact hv v h'
    · rw [List.mem_singleton.1 h']; exact ⟨hq, hx⟩

theorem fnTruth_halts {e : Env} (he : EnvOk B N e) {f : Fn} {l : List (ArgP ε)} (hl : ∀ a ∈ l, ArgOk B N a) : CondOk B N (fnTruth e f l) := by
  intro h x hi hx
  refine .bind (runArgs_halts he l [] hi hx hl fun _ h => by cases h) fun h1 r o1 in1 _ => ?_
  cases r with
  | bool b => exact .ret in1 trivial
  | value y => exact .panic

theorem fnValue_halts {e : Env} (he : EnvOk B N e) {f : Fn} {l : List (ArgP ε)} (hl : ∀ a ∈ l, ArgOk B N a) : CmpOk B N (fnValue e f l) := by
  intro h x hi hx
  refine .bind (runArgs_halts he l [] hi hx hl fun _ h => by cases h) fun h1 r o1 in1 hr => ?_
  cases r with
  | bool b => exact .panic
  | value y => exact .ret in1 hr

/-! ## Runners -/

theorem orP_halts : ∀ {l : List (CondP ε)}, (∀ c ∈ l, CondOk B N c) → CondOk B N (orP l)
  | [], _ => fun h x hi hx => .ret hi trivial
  | c :: l, hl => fun h x hi hx => by
    refine .bind (hl c (by simp) h x hi hx) fun h1 b o1 in1 _ => ?_
    split
    · exact .ret in1 trivial
    · exact orP_halts (fun c hc => hl c (by simp [hc])) h1 x in1 (o1.after hx)

theorem andP_halts : ∀ {l : List (CondP ε)}, (∀ c ∈ l, CondOk B N c) → CondOk B N (andP l)
  | [], _ => fun h x hi hx => .ret hi trivial
  | c :: l, hl => fun h x hi hx => by
    refine .bind (hl c (by simp) h x hi hx) fun h1 b o1 in1 _ => ?_
    split
    · exact andP_halts (fun c hc => hl c (by simp [hc])) h1 x in1 (o1.after hx)
    · exact .ret in1 trivial

theorem all_cons {P : α → Prop} {a : α} {l : List α} (h : P a) (hl : ∀ b ∈ l, P b) : ∀ b ∈ a :: l, P b := by
  intro b hb
  rcases List.mem_cons.1 hb with rfl | hb
  · exact h
  · exact hl b hb

theorem all_nil {P : α → Prop} : ∀ b ∈ ([] : List α), P b := fun _ h => by cases h

mutual
theorem condP_halts {e : Env} (he : EnvOk B N e) : ∀ c : CondR, CondOk (ε := ε) B N (condP e c)
  | .or l => by rw [condP]; exact orP_halts (condsP_halts he l)
  | .and l => by rw [condP]; exact andP_halts (condsP_halts he l)
  | .not c => by rw [condP]; exact fun h x hi hx => .bind (condP_halts he c h x hi hx) fun h1 b o1 in1 _ => .ret in1 trivial
  | .cmp l eq lt neg r => by rw [condP]; exact comparison_halts he.fuel (cmpP_halts he l) (cmpP_halts he r)
  | .query q => by rw [condP]; exact queryTruth_halts he (queryP_halts he q)
  | .func f args => by rw [condP]; exact fnTruth_halts he (argsP_halts he args)
theorem condsP_halts {e : Env} (he : EnvOk B N e) : ∀ l : List CondR, ∀ c ∈ condsP (ε := ε) e l, CondOk B N c
  | [] => by rw [condsP]; exact all_nil
  | c :: l => by rw [condsP]; exact all_cons (condP_halts he c) (condsP_halts he l)
theorem queryP_halts {e : Env} (he : EnvOk B N e) : ∀ q : QueryR, QueryOk (ε := ε) B N (queryP e q)
  | .run segs => by rw [queryP]; exact segsR_halts he segs
  | .inner i => by rw [queryP]; trivial
theorem segsR_halts {e : Env} (he : EnvOk B N e) : ∀ l : List SegR, ∀ s ∈ segsR (ε := ε) e l, SegOk B N s
  | [] => by rw [segsR]; exact all_nil
  | c :: l => by rw [segsR]; exact all_cons (segR_halts he c) (segsR_halts he l)
theorem segR_halts {e : Env} (he : EnvOk B N e) : ∀ s : SegR, SegOk (ε := ε) B N (segR e s)
  | .mk desc sels => by rw [segR]; exact selsR_halts he sels
theorem selsR_halts {e : Env} (he : EnvOk B N e) : ∀ l : List (Sel CondR), ∀ s ∈ selsR (ε := ε) e l, SelOk B N s
  | [] => by rw [selsR]; exact all_nil
  | c :: l => by rw [selsR]; exact all_cons (selR_halts he c) (selsR_halts he l)
theorem selR_halts {e : Env} (he : EnvOk B N e) : ∀ s : Sel CondR, SelOk (ε := ε) B N (selR e s)
  | .default => by rw [selR]; trivial
  | .name n => by rw [selR]; trivial
  | .wild => by rw [selR]; trivial
  | .index i => by rw [selR]; trivial
  | .slice a b c => by rw [selR]; trivial
  | .rslice a b c => by rw [selR]; trivial
  | .filter c => by rw [selR]; exact condP_halts he c
theorem cmpP_halts {e : Env} (he : EnvOk B N e) : ∀ c : CmpR, CmpOk (ε := ε) B N (cmpP e c)
  | .lit l => by rw [cmpP]; exact fun h x hi hx => .ret hi (scalar_in _)
  | .sing segs => by rw [cmpP]; exact fun h x hi hx => singEval_halts he.fuel segs x hi hx
  | .inner i => by
    rw [cmpP]
    intro h x hi hx
    split
    · exact .panic
    · rename_i y hy
      exact .ret hi (.some ((he.sing y (List.mem_of_getElem? hy)).mono (Nat.le_refl _) hi.n))
  | .func f args => by rw [cmpP]; exact fnValue_halts he (argsP_halts he args)
theorem argsP_halts {e : Env} (he : EnvOk B N e) : ∀ l : List ArgR, ∀ a ∈ argsP (ε := ε) e l, ArgOk B N a
  | [] => by rw [argsP]; exact all_nil
  | c :: l => by rw [argsP]; exact all_cons (argP_halts he c) (argsP_halts he l)
theorem argP_halts {e : Env} (he : EnvOk B N e) : ∀ a : ArgR, ArgOk (ε := ε) B N (argP e a)
  | .value c => by rw [argP]; exact cmpP_halts he c
  | .nodes q => by rw [argP]; exact queryP_halts he q
end

/-! ## The main loop

Contexts are kept in new streams, which may be longer than all others; so there is no bound known at the start. -/

/-- A bound for the streams there are. -/
theorem small_exists (h : Heap) : ∃ B, Small B h := by
  have : ∀ n : Nat, ∃ B, ∀ t < n, h.st.left t < B := by
    intro n
    induction n with
    | zero => exact ⟨0, fun t ht => absurd ht (Nat.not_lt_zero _)⟩
    | succ n ih =>
      obtain ⟨B, hB⟩ := ih
      refine ⟨max B (h.st.left n + 1), fun t ht => ?_⟩
      rcases Nat.lt_succ_iff_lt_or_eq.1 ht with ht | rfl
      · exact Nat.lt_of_lt_of_le (hB t ht) (Nat.le_max_left _ _)
      · exact Nat.lt_of_lt_of_le (Nat.lt_succ_self _) (Nat.le_max_right _ _)
  exact this h.st.nt

/-- With enough fuel the program ends, and always in the same way. -/
def EndsF (p : Nat → IProg ε α) (h : Heap) (Q : Heap → α → Prop) : Prop :=
  ∃ F0 r, (∀ F ≥ F0, (p F).run Heap.mach h = r) ∧
    match r.2 with
    | .ok (h', a) => Onward h h' ∧ Q h' a
    | .error e => e = .panic

namespace EndsF

theorem halts {p : Nat → IProg ε α} {h : Heap} {Q : Heap → α → Prop} (hs : Heap.Sound h) (hle : ∀ f g, f ≤ g → LeP Eq (p f) (p g))
    (hp : ∀ B, In B h.n h → Halts B h.n (p B) h Q) : EndsF p h Q := by
  obtain ⟨B, hB⟩ := small_exists h
  have key := hp B ⟨hs, hB, Nat.le_refl _⟩
  refine ⟨B, (p B).run Heap.mach h, fun F hF => (hle B F hF).run_eq Heap.mach h ?_, ?_⟩
  · intro e
    unfold Halts at key
    rw [e] at key
    cases key
  · unfold Halts at key
    generalize (p B).run Heap.mach h = x at key ⊢
    obtain ⟨o, r⟩ := x
    cases r with
    | error e => exact key
    | ok x => exact ⟨key.1, key.2.2⟩

theorem ret {a : α} {h : Heap} {Q : Heap → α → Prop} (hs : Heap.Sound h) (hq : Q h a) : EndsF (fun _ => (.ret a : IProg ε α)) h Q :=
  ⟨0, ([], .ok (h, a)), fun _ _ => rfl, .refl hs, hq⟩

theorem panic {h : Heap} {Q : Heap → α → Prop} : EndsF (fun _ => (.fail .panic : IProg ε α)) h Q := ⟨0, ([], .error .panic), fun _ _ => rfl, rfl⟩

theorem bind {p : Nat → IProg ε α} {f : Nat → α → IProg ε β} {h : Heap} {Q : Heap → α → Prop} {R : Heap → β → Prop} (hp : EndsF p h Q)
    (hf : ∀ h' a, Onward h h' → Q h' a → EndsF (fun F => f F a) h' R) : EndsF (fun F => (p F).bind (f F)) h R := by
  obtain ⟨F0, ⟨o, r⟩, e1, e2⟩ := hp
  cases r with
  | error e =>
    refine ⟨F0, (o, .error e), fun F hF => ?_, e2⟩
    rw [run_bind, seqRun, e1 F hF]
  | ok x =>
    obtain ⟨h', a⟩ := x
    obtain ⟨F1, ⟨o', r'⟩, f1, f2⟩ := hf h' a e2.1 e2.2
    refine ⟨max F0 F1, (o ++ o', r'), fun F hF => ?_, ?_⟩
    · rw [run_bind, seqRun, e1 F (Nat.le_trans (Nat.le_max_left _ _) hF)]
      simp only [f1 F (Nat.le_trans (Nat.le_max_right _ _) hF)]
    · cases r' with
      | error e => exact f2
      | ok y => exact ⟨e2.1.trans f2.1, f2.2⟩

/-- An operation, from what is known of it alone. -/
theorem op {o : IOp} {k : Nat → o.Res → IProg ε α} {h : Heap} {Q : Heap → o.Res → Prop} {R : Heap → α → Prop}
    (ho : EndsF (fun _ => (.op o .ret : IProg ε o.Res)) h Q) (hk : ∀ h' a, Onward h h' → Q h' a → EndsF (fun F => k F a) h' R) :
    EndsF (fun F => .op o (k F)) h R := bind ho hk

theorem const {p : IProg ε α} {h : Heap} {Q : Heap → α → Prop} (hs : Heap.Sound h) (hp : ∀ B, In B h.n h → Halts B h.n p h Q) : EndsF (fun _ => p) h Q :=
  halts hs (fun _ _ _ => .rfl' _) hp

theorem data {ts : List Token} {k : Nat → Nat → IProg ε α} {h : Heap} {R : Heap → α → Prop} (hs : Heap.Sound h)
    (hk : ∀ h' it, Onward h h' → it < h'.n → EndsF (fun F => k F it) h' R) : EndsF (fun F => .op (.data ts) (k F)) h R := by
  obtain ⟨d1, d2, d3⟩ := data_ends hs ts
  exact op (o := .data ts) (Q := fun h' it => it < h'.n) ⟨0, ([], .ok ((h.data ts).1, (h.data ts).2)), fun _ _ => rfl, d1, d2⟩ hk

end EndsF

theorem mustDetach_ends {t : Option Nat} {h : Heap} (hs : Heap.Sound h) : EndsF (fun _ => (mustDetach t : IProg ε Unit)) h fun _ _ => True :=
  .const hs fun B hi => by
    cases t with
    | none => exact .panic
    | some t => exact .detach hi fun _ _ in1 => .ret in1 trivial

theorem vals_append {n m : Nat} {vs : List Val} {y : Val} (hv : ∀ v ∈ vs, v.After 0 n) (hn : n ≤ m) (hy : y.After 0 m) : ∀ v ∈ vs ++ [y], v.After 0 m := by
  intro v h
  rcases List.mem_append.1 h with h | h
  · exact (hv v h).mono (Nat.le_refl _) hn
  · rw [List.mem_singleton.1 h]; exact hy

theorem singCtx_ends {x : Val} : ∀ (l : List (List SingSeg)) (vs : List Val) {h : Heap}, Heap.Sound h → x.After 0 h.n → (∀ v ∈ vs, v.After 0 h.n) →
    EndsF (fun F => (singCtx F x l vs : IProg ε _)) h fun h' vs => ∀ v ∈ vs, v.After 0 h'.n
  | [], vs, h, hs, hx, hv => .ret hs hv
  | segs :: l, vs, h, hs, hx, hv => by
    refine .op (o := .clone x) (Q := fun h' p => p.1.After 0 h'.n) (.const hs fun B hi => .clone hi fun h1 w t o1 in1 a1 _ _ => .ret in1 a1) fun h1 p o1 p1 => ?_
    refine .bind (Q := fun h' r => OptIn h'.n r) (.halts o1.sound (fun f g hfg => singEval_le hfg _ _) fun B hi => singEval_halts (Nat.le_refl _) segs p.1 hi p1)
      fun h2 y o2 hy => ?_
    have o := o1.trans o2
    cases y with
    | none => exact .panic
    | some y =>
      cases y with
      | scalar k =>
        exact .bind (mustDetach_ends o2.sound) fun h3 _ o3 _ => singCtx_ends l _ o3.sound ((o.trans o3).after hx) (vals_append hv (o.trans o3).n trivial)
      | coll c i =>
        refine .op (o := .copy (.coll c i)) (Q := fun _ _ => True) (.const o2.sound fun B hi => .copy hi fun h1 ts o1 in1 => .ret in1 trivial) fun h3 ts o3 _ => ?_
        refine .data o3.sound fun h4 it o4 hit => ?_
        refine .op (o := .advance it) (Q := fun _ _ => True) (.const o4.sound fun B hi => .advance hi hit fun _ _ _ in1 _ => .ret in1 trivial) fun h5 _ o5 _ => ?_
        refine .op (o := .current it) (Q := fun h' kv => OptIn h'.n kv.2) (.const o5.sound fun B hi => .current hi fun key v e => .ret hi fun w ew => ?_)
          fun h6 kv o6 hkv => ?_
        · exact (hi.sound.cur it w (e.trans ew)).mono (Nat.zero_le _) (Nat.le_refl _)
        · obtain ⟨key, y⟩ := kv
          cases y with
          | none => exact .panic
          | some y =>
            refine .bind (mustDetach_ends o6.sound) fun h7 _ o7 _ => ?_
            have o' := ((((o.trans o3).trans o4).trans o5).trans o6).trans o7
            exact singCtx_ends l _ o7.sound (o'.after hx) (vals_append hv o'.n (o7.after (hkv y rfl)))

theorem queryCtx_ends {lib : Lib} {strict : Bool} {x : Val} : ∀ (l : List (List SegR)) (ctx : Ctx) {h : Heap}, Heap.Sound h → x.After 0 h.n → (∀ v ∈ ctx.sing, v.After 0 h.n) →
    EndsF (fun F => (queryCtx lib strict F x l ctx : IProg ε _)) h fun h' ctx => ∀ v ∈ ctx.sing, v.After 0 h'.n
  | [], ctx, h, hs, hx, hv => .ret hs hv
  | segs :: l, ctx, h, hs, hx, hv => by
    refine .op (o := .clone x) (Q := fun h' p => p.1.After 0 h'.n) (.const hs fun B hi => .clone hi fun h1 w t o1 in1 a1 _ _ => .ret in1 a1) fun h1 p o1 p1 => ?_
    refine .bind (Q := fun _ _ => True) (.halts o1.sound (fun f g hfg => mapValue_le ⟨lib, strict, f, ctx⟩ hfg (queryP_le ⟨lib, strict, f, ctx⟩ hfg _) _ _) fun B hi => ?_)
      fun h2 r o2 _ => ?_
    · have he : EnvOk B h1.n ⟨lib, strict, B, ctx⟩ := ⟨Nat.le_refl _, fun v hv' => o1.after (hv v hv')⟩
      exact mapValue_halts he collectFin_ok (queryP_halts he _) hi p1 trivial
    · refine .data o2.sound fun h3 it o3 hit => .bind (mustDetach_ends o3.sound) fun h4 _ o4 _ => ?_
      have o := ((o1.trans o2).trans o3).trans o4
      exact queryCtx_ends l _ o4.sound (o.after hx) fun v h' => o.after (hv v h')

theorem runValue_ends {lib : Lib} {strict : Bool} {r : MainR} {x : Val} {h : Heap} (hs : Heap.Sound h) (hx : x.After 0 h.n) :
    EndsF (fun F => runValue lib strict F r x) h fun _ _ => True := by
  refine .bind (Q := fun h' ctx => ∀ v ∈ ctx.sing, v.After 0 h'.n) ?_ fun h1 ctx o1 hc => ?_
  · exact .bind (singCtx_ends r.sing [] hs hx fun _ h => by cases h) fun h1 vs o1 hv => queryCtx_ends r.queries ⟨vs, []⟩ o1.sound (o1.after hx) hv
  · refine .bind (Q := fun _ _ => True) (.halts o1.sound (fun f g hfg => mapValue_le ⟨lib, strict, f, ctx⟩ hfg (queryP_le ⟨lib, strict, f, ctx⟩ hfg _) _ _) fun B hi => ?_)
      fun h2 _ o2 _ => .ret o2.sound trivial
    have he : EnvOk B h1.n ⟨lib, strict, B, ctx⟩ := ⟨Nat.le_refl _, hc⟩
    exact mapValue_halts he writeFin_ok (queryP_halts he _) hi (o1.after hx) trivial

theorem runQuery_ends {lib : Lib} {strict : Bool} {r : MainR} : ∀ (G : Nat) {h : Heap}, Heap.Sound h → h.rest 0 < G →
    EndsF (fun F => runQuery lib strict F r G) h fun _ _ => True
  | 0, h, _, hf => absurd hf (Nat.not_lt_zero _)
  | G + 1, h, hs, hf => by
    refine .op (o := .advance 0) (Q := fun h' b => b = true → h'.rest 0 < h.rest 0 ∧ ∃ x, (h'.coll 0).cur = some x ∧ x.After 0 h'.n)
      (.const hs fun B hi => .advance hi hs.pos fun h1 b o1 in1 m1 => .ret in1 fun hb => ?_) fun h1 b o1 hb => ?_
    · obtain ⟨x, e1, e2, e3⟩ := (m1 hb).cur
      exact ⟨(m1 hb).rest, x, e1, e2⟩
    · cases b with
      | false => exact .ret o1.sound trivial
      | true =>
        obtain ⟨b1, x, b2, b3⟩ := hb rfl
        refine .op (o := .current 0) (Q := fun h' kv => h' = h1 ∧ kv.2 = some x) ?_ fun h2 kv o2 hkv => ?_
        · refine .const o1.sound fun B hi => .current hi fun key v e => .ret hi ⟨rfl, e.symm.trans b2⟩
        · obtain ⟨rfl, hkv⟩ := hkv
          obtain ⟨key, y⟩ := kv
          simp only at hkv
          subst hkv
          refine .bind (runValue_ends o1.sound b3) fun h3 _ o3 _ => runQuery_ends G o3.sound ?_
          have := o3.rest 0 o1.sound.pos
          omega

/-- A compiled query has an outcome on all tokens: it ends, regularly or with a panic. -/
theorem outcome_exists (lib : Lib) (strict : Bool) {q : Query} {r : MainR} (hq : compileQuery q = some r) (ts : List Token) :
    ∃ out e, Outcome lib strict q ts out e ∧ (e = .ok () ∨ e = .error .panic) := by
  obtain ⟨F0, ⟨out, res⟩, h1, h2⟩ := runQuery_ends (lib := lib) (strict := strict) (r := r) ((Heap.init ts).rest 0 + 1) (sound_init ts) (Nat.lt_succ_self _)
  let F := max F0 ((Heap.init ts).rest 0 + 1)
  have e1 := h1 F (Nat.le_max_left _ _)
  have ne : res ≠ .error .fuel := by
    intro e; subst e; cases h2
  have e2 : (runQuery lib strict F r F).run Heap.mach (Heap.init ts) = (out, res) := by
    rw [← e1]
    refine runQuery_more _ _ lib strict r (Nat.le_refl _) (Nat.le_max_right _ _) ?_
    rw [e1]; exact ne
  refine ⟨out, res.map fun _ => (), ⟨?_, r, hq, F, by rw [e2], by rw [e2]⟩, ?_⟩
  · cases res with
    | error e => intro h; cases h; exact ne rfl
    | ok x => intro h; cases h
  · cases res with
    | error e => right; have : e = .panic := h2; rw [this]; rfl
    | ok x => left; rfl

/-! ## A bound -/

theorem init_left (ts : List Token) : (Heap.init ts).st.left 0 ≤ ts.length := by
  have := Streams.left_avail (Streams.good_init ts).ok 0
  exact this

theorem init_in (ts : List Token) : In (ts.length + 1) 1 (Heap.init ts) :=
  ⟨sound_init ts, fun t ht => by
    have : t < 1 := ht
    obtain rfl : t = 0 := by omega
    exact Nat.lt_succ_of_le (init_left ts), Nat.le_refl _⟩

theorem runQuery_halts {lib : Lib} {strict : Bool} {r : MainR} (h1 : r.sing = []) (h2 : r.queries = []) {F : Nat} (hF : B ≤ F) : ∀ (G : Nat) {h : Heap}, In B N h →
    h.rest 0 < G → Halts B N (runQuery lib strict F r G) h fun _ _ => True
  | 0, h, _, hf => absurd hf (Nat.not_lt_zero _)
  | G + 1, h, hi, hf => by
    refine .advance hi hi.sound.pos fun h1' more o1 in1 m1 => ?_
    cases more with
    | false => exact .ret in1 trivial
    | true =>
      have m1 := m1 rfl
      have r1 := m1.rest
      refine .item in1 m1 fun key x x1 x2 => ?_
      refine .bind (Q := fun _ _ => True) ?_ fun h3 _ o3 in3 _ => ?_
      · have he : EnvOk B N ⟨lib, strict, F, ⟨[], []⟩⟩ := ⟨hF, fun _ h => by cases h⟩
        unfold runValue runContext
        rw [h1, h2]
        show Halts B N ((mapValue ⟨lib, strict, F, ⟨[], []⟩⟩ writeFin (queryP ⟨lib, strict, F, ⟨[], []⟩⟩ (.run r.main)) () x).bind fun _ => .ret ()) _ _
        exact .bind (mapValue_halts he writeFin_ok (queryP_halts he _) in1 x1 trivial) fun h2 _ o2 in2 _ => .ret in2 trivial
      · have := o3.rest 0 in1.sound.pos
        exact runQuery_halts h1 h2 hF G in3 (by omega)

end Verif.JPath.Ends
