import Verif.PathSamples

/-!
# A class of queries with filters

`tameSegs` describes queries by their syntax alone, and the theorems apply to them for all values with numbers in the range of `float64`: filters of
comparisons of literals, relative singular queries and counts; of tests of relative queries with one selector in a segment; and of `match` and `search` with
a pattern that is given.
-/

set_option linter.unusedSimpArgs false

namespace Verif.JPath
open Rfc9535 GoJson

/-- What is assumed of the formatting of numbers (Go: `Float64Scalar`, `/repo/token/tokens.go:244-246`): a number of
type `float64` is formatted as a JSON number of which it is the nearest `float64`. -/
def FmtOk (fmt : Rat → Bytes) : Prop :=
  ∀ q, F64.IsF64 q → Rfc8259.Number (fmt q) ∧ InRange64 (fmt q) ∧ F64.Nearest64 (decimal (fmt q)) q

/-- Numbers are of type `float64`, and strings consist of characters. -/
def LitTame : Literal → Prop
  | .num q => F64.IsF64 q
  | .str s => ∃ cs, Chars s cs
  | _ => True

/-- A child segment with at most one selector, which is not a slice. -/
def Segment.Few : Segment → Prop
  | .mk desc sels => desc = false ∧ (sels = [] ∨ ∃ s, sels = [s] ∧ ∀ a b c, s ≠ .slice a b c)

/-- The first argument of `match` and `search`: a string, or a relative singular query. -/
def SubjectTame : Arg → Prop
  | .lit (.str s) => ∃ cs, Chars s cs
  | .query false segs => ∃ ss, asSingular segs = some ss ∧ ∀ i, .index i ∈ ss → IJson i
  | _ => False

section
variable (P : Bool → Bytes → Prop) (coll : Prop)

/-- A test with `match` (`P true` are the patterns) or `search` (`P false`). -/
def TestTame (name : Bytes) (args : List Arg) : Prop :=
  ∃ whole a p, name = (if whole then b%"match" else b%"search") ∧ args = [a, .lit (.str p)] ∧ SubjectTame a ∧ (∃ t, Chars p t) ∧ P whole p

mutual
/-- Selectors: slices as in `SelOk`. -/
def tameSel : Selector → Prop
  | .name _ => True
  | .wild => True
  | .index i => SelOk (.index i)
  | .slice a b c => SelOk (.slice a b c)
  | .filter c => tameCond c
/-- Lists of selectors. -/
def tameSels : List Selector → Prop
  | [] => True
  | s :: l => tameSel s ∧ tameSels l
/-- A segment. -/
def tameSeg : Segment → Prop
  | .mk _ sels => tameSels sels
/-- Segments. -/
def tameSegs : List Segment → Prop
  | [] => True
  | s :: l => tameSeg s ∧ tameSegs l
/-- Conditions: rooted queries only if it is known that the input consists of arrays and objects (`coll`). -/
def tameCond : Logical → Prop
  | .or l => tameConds l
  | .and l => tameConds l
  | .not c => tameCond c
  | .cmp a _ b => tameComp a ∧ tameComp b
  | .query r segs => tameSegs segs ∧ if r then coll else ∀ s ∈ segs, s.Single
  | .func name args => TestTame P name args
/-- Lists of conditions. -/
def tameConds : List Logical → Prop
  | [] => True
  | c :: l => tameCond c ∧ tameConds l
/-- Comparables: of the functions only `count`. -/
def tameComp : Comparable → Prop
  | .lit l => LitTame l
  | .sing q => q.root = false ∧ ∀ i, .index i ∈ q.segs → IJson i
  | .func name args => name = b%"count" ∧ args.length = 1 ∧ tameArgs args
/-- Arguments of `count`. -/
def tameArgs : List Arg → Prop
  | [] => True
  | a :: l => tameArg a ∧ tameArgs l
/-- An argument of `count`. -/
def tameArg : Arg → Prop
  | .query r segs => (r = true → coll) ∧ tameSegs segs ∧ ∀ s ∈ segs, s.Few
  | _ => False
end

end

/-! ## Numbers of nodes -/

/-- Sum of the lengths. -/
def sizes (l : List JVal) : Nat := (l.map fun v => v.toks.length).sum

theorem sizes_nil : sizes [] = 0 := rfl

theorem sizes_cons (v : JVal) (l : List JVal) : sizes (v :: l) = v.toks.length + sizes l := by simp [sizes]

theorem sizes_sublist {l m : List JVal} (h : l.Sublist m) : sizes l ≤ sizes m := by
  induction h with
  | slnil => exact Nat.le_refl _
  | cons a h ih => rw [sizes_cons]; omega
  | cons_cons a h ih => rw [sizes_cons, sizes_cons]; omega

theorem sizes_items : ∀ l : List JVal, sizes l = (JVal.toks.itemToks l).length
  | [] => by simp [sizes]
  | v :: l => by rw [sizes_cons, sizes_items l]; simp

theorem sizes_members : ∀ l : List (Scalar × JVal), sizes (l.map (·.2)) ≤ (JVal.toks.memberToks l).length
  | [] => by simp [sizes]
  | (k, v) :: l => by
    have := sizes_members l
    rw [List.map_cons, sizes_cons, memberToks_cons]
    simp only [List.length_cons, List.length_append]
    omega

theorem sizes_children (v : JVal) : sizes (children v) ≤ v.toks.length := by
  cases v with
  | scalar k => simp [children, sizes]
  | arr l e =>
    have := sizes_items l
    simp only [children, toks_arr, List.length_cons, List.length_append, List.length_nil]
    omega
  | obj l e =>
    have := sizes_members l
    simp only [children, toks_obj, List.length_cons, List.length_append, List.length_nil]
    omega

section
variable (re : Sem) (root : JVal)

open Classical in
theorem few_sublist {s : Segment} (h : s.Few) (v : JVal) : (Rfc9535.segNodes re root s v).Sublist (children v) := by
  obtain ⟨desc, sels⟩ := s
  obtain ⟨rfl, rfl | ⟨s, rfl, hs⟩⟩ := h
  · simp [Rfc9535.segNodes, selsNodes]
  · simp only [Rfc9535.segNodes, Bool.false_eq_true, if_false, selsNodes, List.append_nil]
    cases s with
    | slice a b c => exact absurd rfl (hs a b c)
    | wild => rw [selNodes]; exact List.Sublist.refl _
    | filter c => rw [selNodes]; exact List.filter_sublist
    | name n =>
      rw [selNodes]
      cases v with
      | scalar k => exact List.nil_sublist _
      | arr l e => exact List.nil_sublist _
      | obj ms e =>
        simp only [nameNodes, children]
        induction ms with
        | nil => exact List.Sublist.refl _
        | cons m ms ih =>
          rw [List.flatMap_cons, List.map_cons]
          split
          · exact ih.cons_cons _
          · exact ih.cons _
    | index i =>
      rw [selNodes]
      cases v with
      | scalar k => exact List.nil_sublist _
      | obj l e => exact List.nil_sublist _
      | arr l e =>
        simp only [indexNodes, children]
        cases index i l.length with
        | none => exact List.nil_sublist _
        | some a =>
          cases hx : l[a]? with
          | none => simp [hx]
          | some w => simp only [Option.bind_some, hx, Option.toList_some, List.singleton_sublist]; exact List.mem_of_getElem? hx

theorem nodes_few : ∀ {segs : List Segment}, (∀ s ∈ segs, s.Few) → ∀ v, (nodes re root segs v).length ≤ v.toks.length
  | [], _, v => by
    rw [nodes]
    exact List.length_pos_iff.2 (toks_ne_nil v)
  | s :: segs, h, v => by
    rw [nodes]
    have h1 := sizes_sublist (few_sublist re root (h s List.mem_cons_self) v)
    have h2 := sizes_children v
    have h3 : ∀ l : List JVal, (l.flatMap (nodes re root segs)).length ≤ sizes l := by
      intro l
      induction l with
      | nil => exact Nat.le_refl _
      | cons w l ih =>
        have := nodes_few (fun s hs => h s (List.mem_cons_of_mem _ hs)) w
        rw [List.flatMap_cons, List.length_append, sizes_cons]
        omega
    exact Nat.le_trans (h3 _) (by omega)

end

/-! ## What is tame is safe -/

theorem dataOf_str {val : Bytes → Rat} {v : JVal} {s : Bytes} : dataOf val v = some (.str s) ↔ ∃ k, v = .scalar k ∧ StrIs k s := by
  constructor
  · intro h
    have hd : DenBy val v (.str s) := by
      unfold dataOf at h
      split at h
      · rename_i hx
        have := hx.choose_spec
        rw [Option.some.inj h] at this
        exact this
      · cases h
    cases hd with
    | str h => exact ⟨_, rfl, h⟩
  · rintro ⟨k, rfl, h⟩
    exact DenBy.dataOf (.str h)

theorem toValue_str {val : Bytes → Rat} {l : List JVal} {s : Bytes} : (ArgData.nodes l).toValue val = some (.str s) ↔ ∃ k, l = [.scalar k] ∧ StrIs k s := by
  match l with
  | [] => simp [ArgData.toValue]
  | [v] => simp [ArgData.toValue, dataOf_str]
  | _ :: _ :: _ => simp [ArgData.toValue]

theorem count_ok {val : Bytes → Rat} (hv : Double val) {n : Nat} (hn : n < 2 ^ 53) : InRange64 (itoa n) ∧ val (itoa n) = n := by
  have h := F64.round_int (n : Int) (by simpa using hn)
  have e : decimal (itoa n) = ((n : Int) : Rat) := by rw [decimal_itoa]; rfl
  rw [← e] at h
  have hr : InRange64 (itoa n) := (F64.round_iff.1 h).1
  refine ⟨hr, ?_⟩
  have := hv.round hr
  rw [h] at this
  rw [← Option.some.inj this, decimal_itoa]

section
variable {lib : Lib} {re : Sem} {P : Bool → Bytes → Prop} {coll : Prop} {root : JVal}
  (hfmt : FmtOk lib.fmt) (hval : Double re.val) (hP : ∀ whole p, P whole p → ∀ s cs, Chars s cs → RegexOk lib re whole s p)
  (hcoll : coll → IsColl root) (hlen : root.toks.length < 2 ^ 53)
include hfmt hval

omit hfmt hval in
theorem singular_safe {segs : List Segment} {S : Bytes → Prop} : ∀ {ss : List SingSeg}, asSingular segs = some ss → (∀ i, .index i ∈ ss → IJson i) →
    safeSegs lib re S root segs := by
  induction segs with
  | nil => intro _ _ _; rw [safeSegs]; trivial
  | cons s segs ih =>
    obtain ⟨desc, sels⟩ := s
    intro ss h hi
    simp only [asSingular] at h
    split at h
    · cases h
    · split at h
      · obtain ⟨l, h1, rfl⟩ := Option.map_eq_some_iff.1 h
        rw [safeSegs, safeSeg, safeSels, safeSel, safeSels]
        exact ⟨⟨trivial, trivial⟩, ih h1 fun i hm => hi i (List.mem_cons_of_mem _ hm)⟩
      · obtain ⟨l, h1, rfl⟩ := Option.map_eq_some_iff.1 h
        rw [safeSegs, safeSeg, safeSels, safeSel, safeSels]
        exact ⟨⟨hi _ List.mem_cons_self, trivial⟩, ih h1 fun i hm => hi i (List.mem_cons_of_mem _ hm)⟩
      · cases h

theorem lit_tame {l : Literal} (h : LitTame l) : LitOk lib re.val InRange64 l := by
  cases l with
  | num q =>
    obtain ⟨h1, h2, h3⟩ := hfmt q h
    exact ⟨h1, F64.nearest_unique (hval _ h2) h3, h2⟩
  | str s => exact h
  | _ => trivial

omit hfmt in
theorem subject_safe {a : Arg} (h : SubjectTame a) : safeArg lib re InRange64 root .value a := by
  match a, h with
  | .lit (.str s), h => rw [safeArg]; exact h
  | .query false segs, ⟨ss, h1, h2⟩ => rw [safeArg]; exact ⟨singular_safe h1 h2, fun e => nomatch e⟩

include hP

omit hfmt in
theorem test_safe {name : Bytes} {args : List Arg} (h : TestTame P name args) :
    ∀ f, Fn.ofName name = some f → safeArgs lib re InRange64 root f.inputs args ∧ FnSafe lib re InRange64 root f args := by
  obtain ⟨whole, a, p, rfl, rfl, h1, h2, h3⟩ := h
  have hname : Fn.ofName (if whole then b%"match" else b%"search") = some (if whole then .fmatch else .search) := by cases whole <;> decide
  have hin : (if whole then Fn.fmatch else Fn.search).inputs = [.value, .value] := by cases whole <;> rfl
  intro f hf
  rw [hname] at hf
  obtain rfl := Option.some.inj hf
  refine ⟨?_, ?_⟩
  · rw [hin]
    simp only [safeArgs]
    exact ⟨subject_safe hval h1, by rw [safeArg]; exact h2, trivial⟩
  · have main : ∀ w ∈ descendants root, ∀ x y s q, argsData re root [a, .lit (.str p)] w = [x, y] → x.toValue re.val = some (.str s) →
        y.toValue re.val = some (.str q) → RegexOk lib re whole s q := by
      intro w _ x y s q e1 e2 e3
      simp only [argsData, List.cons.injEq, and_true] at e1
      obtain ⟨rfl, rfl⟩ := e1
      simp only [argData, ArgData.toValue, litData, Option.some.injEq, Data.str.injEq] at e3
      obtain rfl := e3
      have : ∃ cs, Chars s cs := by
        match a, h1 with
        | .lit (.str s'), h1 =>
          simp only [argData, ArgData.toValue, litData, Option.some.injEq, Data.str.injEq] at e2
          subst e2
          exact h1
        | .query false segs, _ =>
          simp only [argData, Bool.false_eq_true, if_false] at e2
          obtain ⟨k, -, hk⟩ := toValue_str.mp e2
          exact hk.chars
      obtain ⟨cs, hs⟩ := this
      exact hP _ _ h3 s cs hs
    cases whole
    · exact main
    · exact main

omit hP hfmt in
include hlen in
theorem count_safe {args : List Arg} (h1 : args.length = 1) (h2 : tameArgs P coll args) (h3 : ∀ a ∈ args, safeArg lib re InRange64 root .nodes a) :
    ∀ f, Fn.ofName b%"count" = some f → safeArgs lib re InRange64 root f.inputs args ∧ FnSafe lib re InRange64 root f args := by
  match args, h1 with
  | [a], _ =>
    rw [tameArgs, tameArgs] at h2
    have hname : Fn.ofName b%"count" = some .count := by decide
    intro f hf
    rw [hname] at hf
    obtain rfl := Option.some.inj hf
    refine ⟨?_, ?_⟩
    · rw [Fn.inputs, safeArgs, safeArgs]
      · exact ⟨h3 a List.mem_cons_self, trivial⟩
      · intro _ _ _ _ e; cases e
    · intro w hw l hl
      match a, h2.1 with
      | .query r segs, h =>
        rw [tameArg] at h
        simp only [argsData, argData, List.cons.injEq, ArgData.nodes.injEq, and_true] at hl
        subst hl
        refine count_ok hval ?_
        have := nodes_few re root h.2.2 (if r = true then root else w)
        have hd := desc_len hw
        cases r
        · simp only [Bool.false_eq_true, if_false] at *; omega
        · simp only [if_true] at *; omega
      | .lit _, h => simp only [tameArg] at h
      | .logical _, h => simp only [tameArg] at h
      | .func _ _, h => simp only [tameArg] at h

include hcoll hlen

mutual
theorem tameSel_safe : ∀ s : Selector, tameSel P coll s → safeSel lib re InRange64 root s
  | .name _, _ => by rw [safeSel]; trivial
  | .wild, _ => by rw [safeSel]; trivial
  | .index i, h => by rw [tameSel] at h; rw [safeSel]; exact h
  | .slice a b c, h => by rw [tameSel] at h; rw [safeSel]; exact h
  | .filter c, h => by rw [tameSel] at h; rw [safeSel]; exact tameCond_safe c h
theorem tameSels_safe : ∀ l : List Selector, tameSels P coll l → safeSels lib re InRange64 root l
  | [], _ => by rw [safeSels]; trivial
  | s :: l, h => by rw [tameSels] at h; rw [safeSels]; exact ⟨tameSel_safe s h.1, tameSels_safe l h.2⟩
theorem tameSeg_safe : ∀ s : Segment, tameSeg P coll s → safeSeg lib re InRange64 root s
  | .mk d sels, h => by rw [tameSeg] at h; rw [safeSeg]; exact tameSels_safe sels h
theorem tameSegs_safe : ∀ l : List Segment, tameSegs P coll l → safeSegs lib re InRange64 root l
  | [], _ => by rw [safeSegs]; trivial
  | s :: l, h => by rw [tameSegs] at h; rw [safeSegs]; exact ⟨tameSeg_safe s h.1, tameSegs_safe l h.2⟩
theorem tameCond_safe : ∀ c : Logical, tameCond P coll c → safeCond lib re InRange64 root c
  | .or l, h => by rw [tameCond] at h; rw [safeCond]; exact tameConds_safe l h
  | .and l, h => by rw [tameCond] at h; rw [safeCond]; exact tameConds_safe l h
  | .not c, h => by rw [tameCond] at h; rw [safeCond]; exact tameCond_safe c h
  | .cmp a _ b, h => by rw [tameCond] at h; rw [safeCond]; exact ⟨ordered_double hval, tameComp_safe a h.1, tameComp_safe b h.2⟩
  | .query r segs, h => by
    rw [tameCond] at h
    rw [safeCond]
    refine ⟨tameSegs_safe segs h.1, ?_⟩
    cases r with
    | true => exact hcoll h.2
    | false => exact h.2
  | .func name args, h => by
    rw [tameCond] at h
    rw [safeCond]
    exact test_safe hval hP h
theorem tameConds_safe : ∀ l : List Logical, tameConds P coll l → safeConds lib re InRange64 root l
  | [], _ => by rw [safeConds]; trivial
  | s :: l, h => by rw [tameConds] at h; rw [safeConds]; exact ⟨tameCond_safe s h.1, tameConds_safe l h.2⟩
theorem tameComp_safe : ∀ c : Comparable, tameComp P coll c → safeComp lib re InRange64 root c
  | .lit l, h => by rw [tameComp] at h; rw [safeComp]; exact lit_tame hfmt hval h
  | .sing q, h => by rw [tameComp] at h; rw [safeComp]; exact ⟨h.2, fun e => by rw [h.1] at e; cases e⟩
  | .func name args, h => by
    rw [tameComp] at h
    obtain ⟨rfl, h2, h3⟩ := h
    rw [safeComp]
    exact count_safe hval hlen h2 h3 (tameArgs_safe args h3)
theorem tameArgs_safe : ∀ l : List Arg, tameArgs P coll l → ∀ a ∈ l, safeArg lib re InRange64 root .nodes a
  | [], _, a, ha => nomatch ha
  | b :: l, h, a, ha => by
    rw [tameArgs] at h
    rcases List.mem_cons.1 ha with e | ha
    · rw [e]; exact tameArg_safe b h.1
    · exact tameArgs_safe l h.2 a ha
theorem tameArg_safe : ∀ a : Arg, tameArg P coll a → safeArg lib re InRange64 root .nodes a
  | .query r segs, h => by
    rw [tameArg] at h
    rw [safeArg]
    exact ⟨tameSegs_safe segs h.2.1, fun e => ⟨hcoll (h.1 e), fun e => nomatch e⟩⟩
  | .lit _, h => by simp only [tameArg] at h
  | .logical _, h => by simp only [tameArg] at h
  | .func _ _, h => by simp only [tameArg] at h
end

end

/-! ## What is tame is compiled -/

section
variable {P : Bool → Bytes → Prop} {coll : Prop}

theorem test_compiles (tab : Tables) {name : Bytes} {args : List Arg} (h : TestTame P name args) : ∃ r, compileCond tab (.func name args) = some r := by
  obtain ⟨whole, a, p, rfl, rfl, h1, -, -⟩ := h
  have hchk : checkFn (if whole then b%"match" else b%"search") 2 .logical = some (if whole then .fmatch else .search) := by cases whole <;> decide
  have hin : (if whole then Fn.fmatch else Fn.search).inputs = [.value, .value] := by cases whole <;> rfl
  have ha : ∃ x, compileArg tab .value a = some x := by
    match a, h1 with
    | .lit (.str s), _ => exact ⟨_, by rw [compileArg, if_pos rfl]⟩
    | .query false segs, ⟨ss, h1, _⟩ => exact ⟨_, by rw [compileArg, if_pos rfl, h1]; rfl⟩
  obtain ⟨x, hx⟩ := ha
  simp [compileCond, hchk, hin, compileArgs, hx, compileArg]

mutual
theorem tameSel_compiles : ∀ (s : Selector) (tab : Tables), tameSel P coll s → ∃ r, compileSel tab s = some r
  | .name _, tab, _ => ⟨_, by rw [compileSel]⟩
  | .wild, tab, _ => ⟨_, by rw [compileSel]⟩
  | .index i, tab, h => ⟨_, by rw [compileSel]⟩
  | .slice a b c, tab, h => ⟨_, by rw [compileSel]⟩
  | .filter c, tab, h => by
    rw [tameSel] at h
    obtain ⟨r, hr⟩ := tameCond_compiles c tab h
    exact ⟨_, by rw [compileSel, hr]; rfl⟩
theorem tameSels_compiles : ∀ (l : List Selector) (tab : Tables), tameSels P coll l → ∃ r, compileSels tab l = some r
  | [], tab, _ => ⟨_, by rw [compileSels]⟩
  | s :: l, tab, h => by
    rw [tameSels] at h
    obtain ⟨⟨t, r⟩, hr⟩ := tameSel_compiles s tab h.1
    obtain ⟨x, hx⟩ := tameSels_compiles l t h.2
    exact ⟨_, by rw [compileSels, hr, Option.bind_some]; simp only [hx]; rfl⟩
theorem tameSeg_compiles : ∀ (s : Segment) (tab : Tables), tameSeg P coll s → ∃ r, compileSeg tab s = some r
  | .mk d sels, tab, h => by
    rw [tameSeg] at h
    obtain ⟨r, hr⟩ := tameSels_compiles sels tab h
    exact ⟨_, by rw [compileSeg, hr]; rfl⟩
theorem tameSegs_compiles : ∀ (l : List Segment) (tab : Tables), tameSegs P coll l → ∃ r, compileSegs tab l = some r
  | [], tab, _ => ⟨_, by rw [compileSegs]⟩
  | s :: l, tab, h => by
    rw [tameSegs] at h
    obtain ⟨⟨t, x⟩, hx⟩ := tameSegs_compiles l tab h.2
    obtain ⟨r, hr⟩ := tameSeg_compiles s t h.1
    exact ⟨_, by rw [compileSegs, hx, Option.bind_some]; simp only [hr]; rfl⟩
theorem tameCond_compiles : ∀ (c : Logical) (tab : Tables), tameCond P coll c → ∃ r, compileCond tab c = some r
  | .or l, tab, h => by
    rw [tameCond] at h
    obtain ⟨r, hr⟩ := tameConds_compiles l tab h
    exact ⟨_, by rw [compileCond, hr]; rfl⟩
  | .and l, tab, h => by
    rw [tameCond] at h
    obtain ⟨r, hr⟩ := tameConds_compiles l tab h
    exact ⟨_, by rw [compileCond, hr]; rfl⟩
  | .not c, tab, h => by
    rw [tameCond] at h
    obtain ⟨r, hr⟩ := tameCond_compiles c tab h
    exact ⟨_, by rw [compileCond, hr]; rfl⟩
  | .cmp a _ b, tab, h => by
    rw [tameCond] at h
    obtain ⟨⟨t, r⟩, hr⟩ := tameComp_compiles a tab h.1
    obtain ⟨x, hx⟩ := tameComp_compiles b t h.2
    exact ⟨_, by rw [compileCond, hr, Option.bind_some]; simp only [hx]; rfl⟩
  | .query r segs, tab, h => by
    rw [tameCond] at h
    obtain ⟨x, hx⟩ := tameSegs_compiles segs tab h.1
    rw [compileCond, hx]
    split
    · split
      · exact ⟨_, rfl⟩
      · exact ⟨_, rfl⟩
    · exact ⟨_, rfl⟩
  | .func name args, tab, h => by
    rw [tameCond] at h
    exact test_compiles tab h
theorem tameConds_compiles : ∀ (l : List Logical) (tab : Tables), tameConds P coll l → ∃ r, compileConds tab l = some r
  | [], tab, _ => ⟨_, by rw [compileConds]⟩
  | s :: l, tab, h => by
    rw [tameConds] at h
    obtain ⟨⟨t, r⟩, hr⟩ := tameCond_compiles s tab h.1
    obtain ⟨x, hx⟩ := tameConds_compiles l t h.2
    exact ⟨_, by rw [compileConds, hr, Option.bind_some]; simp only [hx]; rfl⟩
theorem tameComp_compiles : ∀ (c : Comparable) (tab : Tables), tameComp P coll c → ∃ r, compileComparable tab c = some r
  | .lit l, tab, _ => ⟨_, by rw [compileComparable]⟩
  | .sing q, tab, _ => ⟨_, by rw [compileComparable]⟩
  | .func name args, tab, h => by
    rw [tameComp] at h
    obtain ⟨h1, h2, h3⟩ := h
    obtain ⟨r, hr⟩ := tameArgs_compiles args tab h2 h3
    have hf : checkFn b%"count" 1 .value = some .count := by decide
    exact ⟨_, by rw [compileComparable, h1, h2, hf, Option.bind_some, hr]; rfl⟩
theorem tameArgs_compiles : ∀ (l : List Arg) (tab : Tables), l.length = 1 → tameArgs P coll l → ∃ r, compileArgs tab Fn.count.inputs l = some r
  | [], tab, h, _ => by cases h
  | a :: l, tab, h, h' => by
    rw [tameArgs] at h'
    obtain ⟨r, hr⟩ := tameArg_compiles a tab h'.1
    have : l = [] := by simpa using h
    subst this
    exact ⟨_, by rw [Fn.inputs, compileArgs, hr, Option.bind_some]; rfl⟩
theorem tameArg_compiles : ∀ (a : Arg) (tab : Tables), tameArg P coll a → ∃ r, compileArg tab .nodes a = some r
  | .query r segs, tab, h => by
    rw [tameArg] at h
    obtain ⟨x, hx⟩ := tameSegs_compiles segs tab h.2.1
    rw [compileArg, if_neg (by decide), hx]
    split
    · split
      · exact ⟨_, rfl⟩
      · exact ⟨_, rfl⟩
    · exact ⟨_, rfl⟩
  | .lit _, _, h => by simp only [tameArg] at h
  | .logical _, _, h => by simp only [tameArg] at h
  | .func _ _, _, h => by simp only [tameArg] at h
end

theorem tame_compiles {q : Query} (h : tameSegs P coll q.segs) : (compileQuery q).isSome = true := by
  obtain ⟨r, hr⟩ := tameSegs_compiles q.segs {} h
  simp [compileQuery, hr]

end

/-- Queries of the class can be applied to all values of at most 2^53 tokens with numbers in the range of `float64`. -/
theorem tame_plain {lib : Lib} {re : Sem} {P : Bool → Bytes → Prop} {coll : Prop} {q : Query} {v : JVal}
    (hfmt : FmtOk lib.fmt) (hval : Double re.val) (hP : ∀ whole p, P whole p → ∀ s cs, Chars s cs → RegexOk lib re whole s p)
    (hq : tameSegs P coll q.segs) (hd : ∃ d, Den v d) (hn : NumsIn InRange64 v) (hlen : v.toks.length < 2 ^ 53) (hcoll : coll → IsColl v) :
    Plain lib re InRange64 q v :=
  ⟨hd, hn, by unfold maxInt64; omega, tameSegs_safe hfmt hval hP hcoll hlen q.segs hq⟩

end Verif.JPath
