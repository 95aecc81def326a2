import Verif.PathFn
import Verif.IndexNum

/-!
# Queries to which the theorems apply

`safeSegs` excludes what is known to go wrong (see DESIGN.md): reverse slices and slices with a negative start and a step; existence tests of
relative queries with several selectors in a segment; rooted singular queries that select nothing; rooted queries when the input value is a scalar;
`length` of an object, or of an array selected by a rooted query; `value` of a node that is not a scalar; regular expressions that the library
does not accept or searches in another way than specified; numbers that rounding changes.
-/

set_option linter.unusedSimpArgs false
set_option linter.unusedVariables false

namespace Verif.JPath
open Rfc9535 GoJson

/-- The value is a collection. -/
def IsColl (v : JVal) : Prop := ∀ k, v ≠ .scalar k

/-- The segment has at most one selector. -/
def Segment.Single : Segment → Prop
  | .mk _ sels => sels.length ≤ 1

/-- What is assumed of the library for a call of `match` or `search`. -/
def RegexOk (lib : Lib) (re : Sem) (whole : Bool) (s p : Bytes) : Prop :=
  ∃ find L, lib.regex p = some find ∧ re.lang p = some L ∧
    if whole then (find s = some (0, s.length) ↔ L s) else ((find s).isSome = true ↔ ∃ x y z, s = x ++ y ++ z ∧ L y)

/-- Literals are of characters, and numbers are formatted as literals among `S` that denote them. -/
def LitOk (lib : Lib) (val : Bytes → Rat) (S : Bytes → Prop) : Literal → Prop
  | .str s => ∃ cs, Chars s cs
  | .num q => Rfc8259.Number (lib.fmt q) ∧ val (lib.fmt q) = q ∧ S (lib.fmt q)
  | _ => True

section
variable (lib : Lib) (re : Sem) (S : Bytes → Prop) (root : JVal)

/-- What is excluded of calls of functions. -/
def FnSafe : Fn → List Arg → Prop
  | .length, args =>
    (∀ v ∈ descendants root, ∀ a d, argsData re root args v = [a] → a.toValue re.val = some d →
      (∀ m, d = .obj m → ∀ k, m k = none) ∧ ∀ n, LengthIs d n → S (itoa n) ∧ re.val (itoa n) = n) ∧
    ∀ segs, args = [.query true segs] → ∀ w ∈ nodes re root segs root, ∃ k, w = .scalar k
  | .count, args => ∀ v ∈ descendants root, ∀ l, argsData re root args v = [.nodes l] → S (itoa l.length) ∧ re.val (itoa l.length) = l.length
  | .value, args =>
    (∀ v ∈ descendants root, ∀ w, argsData re root args v = [.nodes [w]] → ∃ k, w = .scalar k) ∧
    ∀ segs, args = [.query false segs] → (∀ s ∈ segs, s.Single) ∨ ∀ v ∈ descendants root, (nodes re root segs v).length ≤ 1
  | .fmatch, args => ∀ v ∈ descendants root, ∀ a b s p, argsData re root args v = [a, b] → a.toValue re.val = some (.str s) → b.toValue re.val = some (.str p) →
      RegexOk lib re true s p
  | .search, args => ∀ v ∈ descendants root, ∀ a b s p, argsData re root args v = [a, b] → a.toValue re.val = some (.str s) → b.toValue re.val = some (.str p) →
      RegexOk lib re false s p

mutual
/-- Selectors. -/
def safeSel : Selector → Prop
  | .name _ => True
  | .wild => True
  | .index i => SelOk (.index i)
  | .slice a b c => SelOk (.slice a b c)
  | .filter c => safeCond c
/-- Lists of selectors. -/
def safeSels : List Selector → Prop
  | [] => True
  | s :: l => safeSel s ∧ safeSels l
/-- A segment. -/
def safeSeg : Segment → Prop
  | .mk _ sels => safeSels sels
/-- Segments. -/
def safeSegs : List Segment → Prop
  | [] => True
  | s :: l => safeSeg s ∧ safeSegs l
/-- Conditions. -/
def safeCond : Logical → Prop
  | .or l => safeConds l
  | .and l => safeConds l
  | .not c => safeCond c
  | .cmp a _ b => Ordered re.val S ∧ safeComp a ∧ safeComp b
  | .query r segs => safeSegs segs ∧ if r then IsColl root else ∀ s ∈ segs, s.Single
  | .func name args => ∀ f, Fn.ofName name = some f → safeArgs f.inputs args ∧ FnSafe lib re S root f args
/-- Lists of conditions. -/
def safeConds : List Logical → Prop
  | [] => True
  | c :: l => safeCond c ∧ safeConds l
/-- Comparables. -/
def safeComp : Comparable → Prop
  | .lit l => LitOk lib re.val S l
  | .sing q => SingOk q.segs ∧ (q.root = true → IsColl root ∧ singNodes q.segs root ≠ [])
  | .func name args => ∀ f, Fn.ofName name = some f → safeArgs f.inputs args ∧ FnSafe lib re S root f args
/-- Arguments. -/
def safeArgs : List Ty → List Arg → Prop
  | ty :: tys, a :: l => safeArg ty a ∧ safeArgs tys l
  | _, _ => True
/-- An argument. -/
def safeArg (ty : Ty) : Arg → Prop
  | .lit l => LitOk lib re.val S l
  | .query r segs => safeSegs segs ∧ (r = true → IsColl root ∧ (ty = .value → nodes re root segs root ≠ []))
  | .logical _ => True
  | .func name args => ∀ f, Fn.ofName name = some f → safeArgs f.inputs args ∧ FnSafe lib re S root f args
end

end

/-! ## Singular queries as arguments -/

section
variable (re : Sem) (root : JVal)

theorem nodes_asSingular : ∀ {segs : List Segment} {ss : List SingSeg}, asSingular segs = some ss → ∀ v, nodes re root segs v = singNodes ss v
  | [], ss, h, v => by
    simp only [asSingular, Option.some.injEq] at h
    subst h
    rw [nodes]; rfl
  | .mk desc sels :: segs, ss, h, v => by
    simp only [asSingular] at h
    split at h
    · cases h
    · rename_i hd
      have hd : desc = false := by simpa using hd
      subst hd
      split at h
      · obtain ⟨l, h1, rfl⟩ := Option.map_eq_some_iff.1 h
        rw [nodes, Rfc9535.segNodes, singNodes]
        simp only [Bool.false_eq_true, if_false, selsNodes, selNodes, List.append_nil]
        exact flatMap_congr' fun w _ => nodes_asSingular h1 w
      · obtain ⟨l, h1, rfl⟩ := Option.map_eq_some_iff.1 h
        rw [nodes, Rfc9535.segNodes, singNodes]
        simp only [Bool.false_eq_true, if_false, selsNodes, selNodes, List.append_nil]
        exact flatMap_congr' fun w _ => nodes_asSingular h1 w
      · cases h

theorem asSingular_single : ∀ {segs : List Segment} {ss : List SingSeg}, asSingular segs = some ss → ∀ s ∈ segs, s.Single
  | [], ss, h => by simp
  | .mk desc sels :: segs, ss, h => by
    simp only [asSingular] at h
    split at h
    · cases h
    · split at h
      · obtain ⟨l, h1, rfl⟩ := Option.map_eq_some_iff.1 h
        intro s hs
        rcases List.mem_cons.1 hs with rfl | hs
        · simp [Segment.Single]
        · exact asSingular_single h1 s hs
      · obtain ⟨l, h1, rfl⟩ := Option.map_eq_some_iff.1 h
        intro s hs
        rcases List.mem_cons.1 hs with rfl | hs
        · simp [Segment.Single]
        · exact asSingular_single h1 s hs
      · cases h

theorem asSingular_ok {lib : Lib} {S : Bytes → Prop} : ∀ {segs : List Segment} {ss : List SingSeg}, asSingular segs = some ss →
    safeSegs lib re S root segs → SingOk ss
  | [], ss, h, hs => by
    simp only [asSingular, Option.some.injEq] at h
    subst h
    intro i hi; cases hi
  | .mk desc sels :: segs, ss, h, hs => by
    rw [safeSegs, safeSeg] at hs
    simp only [asSingular] at h
    split at h
    · cases h
    · split at h
      · obtain ⟨l, h1, rfl⟩ := Option.map_eq_some_iff.1 h
        intro i hi
        rcases List.mem_cons.1 hi with hi | hi
        · cases hi
        · exact asSingular_ok h1 hs.2 i hi
      · obtain ⟨l, h1, rfl⟩ := Option.map_eq_some_iff.1 h
        intro i hi
        rcases List.mem_cons.1 hi with hi | hi
        · cases hi
          have := hs.1
          rw [safeSels, safeSel] at this
          exact this.1
        · exact asSingular_ok h1 hs.2 i hi
      · cases h

end

/-! ## What is safe has selectors without surprises -/

section
variable {lib : Lib} {re : Sem} {S : Bytes → Prop} {root : JVal}

theorem safeSel_ok {s : Selector} (h : safeSel lib re S root s) : SelOk s := by
  cases s <;> first | (rw [safeSel] at h; exact h) | trivial

theorem safeSels_ok : ∀ {l : List Selector}, safeSels lib re S root l → ∀ s ∈ l, SelOk s
  | [], _, s, hs => by cases hs
  | a :: l, h, s, hs => by
    rw [safeSels] at h
    rcases List.mem_cons.1 hs with rfl | hs
    · exact safeSel_ok h.1
    · exact safeSels_ok h.2 s hs

theorem safeSegs_ok : ∀ {l : List Segment}, safeSegs lib re S root l → ∀ s ∈ l, SegOk s
  | [], _, s, hs => by cases hs
  | .mk d sels :: l, h, s, hs => by
    rw [safeSegs, safeSeg] at h
    rcases List.mem_cons.1 hs with rfl | hs
    · exact safeSels_ok h.1
    · exact safeSegs_ok h.2 s hs

end

/-! ## Numbers made by functions -/

theorem decimal_itoa (n : Nat) : decimal (itoa n) = (n : Rat) := by
  have hi := JpvTree.itoa_int n
  have hne : itoa n ≠ [] := by
    rcases hi with h | ⟨d, ds, _, _, _, h⟩ <;> rw [h] <;> simp
  have hd : ∀ x ∈ itoa n, Rfc8259.Digit x := by
    rcases hi with h | ⟨d, ds, h1, h2, h3, h⟩
    · rw [h]; intro x hx; simp only [List.mem_singleton] at hx; subst hx; exact ⟨by decide, by decide⟩
    · rw [h]
      intro x hx
      rcases List.mem_cons.1 hx with rfl | hx
      · exact ⟨UInt8.le_trans (by decide : (0x30 : UInt8) ≤ 0x31) h1, h2⟩
      · exact h3 x hx
  rw [decimal_digits hne hd, JpvTree.itoa_val]; rfl

theorem natScalar_den {val : Bytes → Rat} (n : Nat) (e : val (itoa n) = n) : DenBy val (.scalar (natScalar n)) (.num (n : Rat)) := by
  have hi := JpvTree.itoa_int n
  have := DenBy.num (val := val) (k := natScalar n) rfl ⟨[], itoa n, [], [], .inl rfl, hi, .inl rfl, .inl rfl, by simp [natScalar]⟩
  rw [show (natScalar n).bytes = itoa n from rfl, e] at this
  exact this

theorem scalar_nums {S : Bytes → Prop} {k : Scalar} (h : k.type = .num → S k.bytes) : NumsIn S (.scalar k) := by
  intro k' hk' ht
  simp only [JVal.toks, List.mem_singleton, Token.scalar.injEq] at hk'
  subst hk'
  exact h ht

theorem natScalar_good {val : Bytes → Rat} {S : Bytes → Prop} {F n : Nat} (hF : 1 ≤ F) (h : S (itoa n) ∧ val (itoa n) = n) : Good val S F (.scalar (natScalar n)) :=
  ⟨_, natScalar_den n h.2, hF, scalar_nums fun _ => h.1⟩

/-- Literals. -/
theorem litScalar_den {lib : Lib} {val : Bytes → Rat} {S : Bytes → Prop} {l : Literal} (h : LitOk lib val S l) : DenBy val (.scalar (litScalar lib l)) (litData l) := by
  cases l with
  | str s => obtain ⟨cs, h⟩ := h; exact .str (stringScalar_is h)
  | num q =>
    obtain ⟨h1, h2, -⟩ := h
    have := DenBy.num (val := val) (k := litScalar lib (.num q)) rfl h1
    rw [show (litScalar lib (.num q)).bytes = lib.fmt q from rfl, h2] at this
    exact this
  | bool b => exact .bool rfl (by cases b <;> rfl)
  | null => exact .null rfl

theorem litScalar_good {lib : Lib} {val : Bytes → Rat} {S : Bytes → Prop} {F : Nat} (hF : 1 ≤ F) {l : Literal} (h : LitOk lib val S l) : Good val S F (.scalar (litScalar lib l)) := by
  refine ⟨_, litScalar_den h, hF, scalar_nums ?_⟩
  cases l with
  | num q => exact fun _ => h.2.2
  | str s => exact fun e => nomatch e
  | bool b => exact fun e => nomatch e
  | null => exact fun e => nomatch e

/-! ## Functions on data -/

theorem LengthIs.unique {d : Data} {n m : Nat} (h : LengthIs d n) (h' : LengthIs d m) (ho : ∀ f, d = .obj f → ∀ k, f k = none) : n = m := by
  cases d with
  | str s =>
    obtain ⟨cs, h1, rfl⟩ := h
    obtain ⟨ds, h2, rfl⟩ := h'
    rw [h1.unique h2]
  | arr l => have h : l.length = n := h; have h' : l.length = m := h'; omega
  | obj f =>
    obtain ⟨ks, h1, h2, rfl⟩ := h
    obtain ⟨ks', h1', h2', rfl⟩ := h'
    have e : ∀ {ks : List Bytes}, (∀ k, k ∈ ks ↔ (f k).isSome = true) → ks = [] := by
      intro ks h
      cases ks with
      | nil => rfl
      | cons k l => have := (h k).1 List.mem_cons_self; rw [ho f rfl k] at this; cases this
    rw [e h2, e h2']
  | null => exact h.elim
  | bool _ => exact h.elim
  | num _ => exact h.elim

/-- `length` of a value. -/
theorem lengthScalar_spec {val : Bytes → Rat} {w : JVal} {d : Data} (hw : DenBy val w d) (ho : ∀ f, d = .obj f → ∀ k, f k = none) :
    (∀ k, lengthScalar w = some k → ∃ n, k = natScalar n ∧ LengthIs d n) ∧ (lengthScalar w = none → ∀ n, ¬ LengthIs d n) := by
  cases hw with
  | null h => exact ⟨fun k e => by simp [lengthScalar, h] at e, fun _ n h => h⟩
  | bool h => exact ⟨fun k e => by simp [lengthScalar, h] at e, fun _ n h => h⟩
  | num h => exact ⟨fun k e => by simp [lengthScalar, h] at e, fun _ n h => h⟩
  | str h =>
    obtain ⟨cs, hc⟩ := h.chars
    refine ⟨?_, ?_⟩
    · intro k e
      simp only [lengthScalar, h.1, if_true, toStr_ok h, Option.map_some, Option.some.injEq] at e
      subst e
      exact ⟨_, rfl, cs, hc, (count_chars hc _ (Nat.le_refl _)).symm⟩
    · intro e
      simp [lengthScalar, h.1, toStr_ok h] at e
  | arr h =>
    refine ⟨fun k e => ?_, fun e => by simp [lengthScalar] at e⟩
    simp only [lengthScalar, Option.some.injEq] at e
    subst e
    exact ⟨_, rfl, h.length.symm⟩
  | @obj ms e kds h h' =>
    refine ⟨fun k e => ?_, fun e => by simp [lengthScalar] at e⟩
    simp only [lengthScalar, Option.some.injEq] at e
    subst e
    refine ⟨_, rfl, [], List.nodup_nil, fun k => ?_, rfl⟩
    rw [ho _ rfl k]; simp

theorem fnValue_length {val : Bytes → Rat} (a : ArgData) : Rfc9535.fnValue val b%"length" [a] =
    open Classical in (a.toValue val).bind fun d => if h : ∃ n, LengthIs d n then some (.num (h.choose : Nat)) else none := by
  unfold Rfc9535.fnValue
  rw [if_pos rfl]

theorem fnValue_count {val : Bytes → Rat} (l : List JVal) : Rfc9535.fnValue val b%"count" [.nodes l] = some (.num (l.length : Nat)) := by
  unfold Rfc9535.fnValue
  rw [if_neg (by decide), if_pos rfl]

theorem fnValue_value {val : Bytes → Rat} (l : List JVal) : Rfc9535.fnValue val b%"value" [.nodes l] = (ArgData.nodes l).toValue val := by
  unfold Rfc9535.fnValue
  rw [if_neg (by decide), if_neg (by decide), if_pos rfl]

theorem toValue_sole {val : Bytes → Rat} (l : List JVal) : (ArgData.nodes l).toValue val = (soleNode l).bind (dataOf val) := by
  match l with
  | [] => rfl
  | [w] => rfl
  | _ :: _ :: _ => rfl

end Verif.JPath
