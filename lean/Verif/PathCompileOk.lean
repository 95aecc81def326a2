import Verif.PathTables

/-!
# What compiled queries do

Runners do what the specification says of the syntax trees they are compiled from, provided the context holds what the table says.
-/

set_option linter.unusedSimpArgs false
set_option linter.unusedVariables false

namespace Verif.JPath
open Rfc9535 GoJson AState IProg

variable {ε : Type} {C : Nat → Prop} {J : AState → Prop}

/-! ## Logical operators -/

section
variable {G : JVal → Prop}

theorem cond_const {c : CondP ε} (b : Bool) (h : ∀ x, c x = .ret b) : CondOk C J G c (fun _ => b) := by
  intro s x v hw hJ hx hv hxC
  exact ⟨s, by rw [h]; rfl, .refl hw, hx⟩

theorem cond_bind (hFr : Frame C J) {c : CondP ε} {k : Bool → CondP ε} {p : JVal → Bool} {q : Bool → JVal → Bool} (h : CondOk C J G c p) (h' : ∀ b, CondOk C J G (k b) (q b)) :
    CondOk C J G (fun x => (c x).bind fun b => k b x) (fun v => q (p v) v) := by
  intro s x v hw hJ hx hv hxC
  obtain ⟨s1, e1, m1, f1⟩ := h s x v hw hJ hx hv hxC
  have J1 : J s1 := hFr.keep hJ m1 (fun h hc hi => hxC h hi hc)
  obtain ⟨s2, e2, m2, f2⟩ := h' (p v) s1 x v m1.wf J1 f1 hv hxC
  refine ⟨s2, ?_, m1.trans m2 (fun _ _ h => h), f2⟩
  show ((c x).bind _).run _ _ = _
  rw [run_ok_bind e1, e2]
  rfl

theorem CondOk.congr {c : CondP ε} {p q : JVal → Bool} (h : CondOk C J G c p) (e : ∀ v, G v → p v = q v) : CondOk C J G c q := by
  intro s x v hw hJ hx hv hxC
  rw [← e v hv]
  exact h s x v hw hJ hx hv hxC

theorem cond_or (hFr : Frame C J) : ∀ {l : List (CondP ε)} {m : List (JVal → Bool)}, Rel2 (CondOk C J G) l m → CondOk C J G (orP l) (fun v => m.any (· v))
  | _, _, .nil => cond_const false fun _ => rfl
  | _, _, .cons (a := c) (l := l) (b := p) (m := m) h hl => by
    have h2 := cond_or hFr hl
    have := cond_bind hFr h (k := fun b x => if b then .ret true else orP l x) (q := fun b v => if b then true else m.any (· v)) (fun b => by
      cases b with
      | true => exact cond_const true fun _ => rfl
      | false => exact h2)
    exact this.congr fun v _ => by simp only [List.any_cons]; cases p v <;> simp

theorem cond_and (hFr : Frame C J) : ∀ {l : List (CondP ε)} {m : List (JVal → Bool)}, Rel2 (CondOk C J G) l m → CondOk C J G (andP l) (fun v => m.all (· v))
  | _, _, .nil => cond_const true fun _ => rfl
  | _, _, .cons (a := c) (l := l) (b := p) (m := m) h hl => by
    have h2 := cond_and hFr hl
    have := cond_bind hFr h (k := fun b x => if b then andP l x else .ret false) (q := fun b v => if b then m.all (· v) else false) (fun b => by
      cases b with
      | true => exact h2
      | false => exact cond_const false fun _ => rfl)
    exact this.congr fun v _ => by simp only [List.all_cons]; cases p v <;> simp

theorem cond_not (hFr : Frame C J) {c : CondP ε} {p : JVal → Bool} (h : CondOk C J G c p) :
    CondOk C J G (fun x => (c x).bind fun b => .ret (!b)) (fun v => !p v) :=
  cond_bind hFr h (k := fun b _ => .ret (!b)) (q := fun b _ => !b) fun b => cond_const (!b) fun _ => rfl

theorem QueryOk.mono {e : Env} {single single' exact' : Prop} {q : QueryP ε} {n n' : JVal → List JVal} (h : QueryOk e C J G single exact' q n) (hs : single' → single)
    (hn : ∀ v, G v → n v = n' v) : QueryOk e C J G single' False q n' := by
  intro φ ψ fin tfin R hfin
  obtain ⟨N, h1, h2⟩ := h φ ψ fin tfin R hfin
  exact ⟨N, fun v hv => ⟨by rw [← hn v hv]; exact (h1 v hv).1, False.elim⟩,
    fun s x v acc q0 q0' a1 a2 a3 a4 a5 a6 a7 => h2 s x v acc q0 q0' a1 a2 a3 a4 a5 a6 (a7.imp id hs)⟩

theorem CmpOk.congr {H : JVal → Prop} {B : Prop} {c : CmpP ε} {p q : JVal → Option JVal} (h : CmpOk C J G H B c p) (e : ∀ v, G v → p v = q v) :
    CmpOk C J G H B c q := by
  refine ⟨fun v w hv hq => h.1 v w hv (by rw [e v hv]; exact hq), fun s x v hw hJ hx hv hxC => ?_⟩
  rw [← e v hv]
  exact h.2 s x v hw hJ hx hv hxC

end

/-! ## The values in the input value -/

/-- What is known of the input value. -/
structure Input (S : Bytes → Prop) (F : Nat) (root : JVal) : Prop where
  den : ∃ d, Den root d
  nums : NumsIn S root
  len : root.toks.length ≤ F
  max : (root.toks.length : Int) ≤ maxInt64

theorem nums_member {S : Bytes → Prop} {v : JVal} (h : NumsIn S v) : ∀ m ∈ v.members, NumsIn S m.2 := by
  intro m hm k hk ht
  apply h k _ ht
  cases v with
  | scalar k => simp [JVal.members] at hm
  | arr l e =>
    simp only [JVal.members, List.mem_map] at hm
    obtain ⟨w, hw, rfl⟩ := hm
    have : ∀ l : List JVal, w ∈ l → Token.scalar k ∈ JVal.toks.itemToks l := by
      intro l
      induction l with
      | nil => intro h; cases h
      | cons a l ih =>
        intro h
        simp only [JVal.toks.itemToks, List.mem_append]
        rcases List.mem_cons.1 h with rfl | h
        · exact .inl hk
        · exact .inr (ih h)
    simp [this l hw]
  | obj l e =>
    simp only [JVal.members, List.mem_map] at hm
    obtain ⟨w, hw, rfl⟩ := hm
    have : ∀ l : List (Scalar × JVal), w ∈ l → Token.scalar k ∈ JVal.toks.memberToks l := by
      intro l
      induction l with
      | nil => intro h; cases h
      | cons a l ih =>
        intro h
        obtain ⟨k', a⟩ := a
        simp only [JVal.toks.memberToks, List.mem_append, List.mem_cons]
        rcases List.mem_cons.1 h with rfl | h
        · exact .inr (.inl hk)
        · exact .inr (.inr (ih h))
    simp [this l hw]

section
variable {S : Bytes → Prop} {F : Nat} {root : JVal}

theorem Input.good (h : Input S F root) (val : Bytes → Rat) {v : JVal} (hv : v ∈ descendants root) : Good val S F v := by
  obtain ⟨_, hd⟩ := h.den
  obtain ⟨d, hd⟩ := hd.change val
  obtain ⟨d', hd'⟩ := den_desc hd hv
  exact ⟨d', hd', Nat.le_trans (desc_len hv) h.len,
    desc_ind (P := NumsIn S) (fun v h => nums_member h) _ root (Nat.le_refl _) h.nums v hv⟩

theorem Input.fuel (h : Input S F root) {v : JVal} (hv : v ∈ descendants root) : v.toks.length ≤ F := Nat.le_trans (desc_len hv) h.len

theorem Input.maxv (h : Input S F root) {v : JVal} (hv : v ∈ descendants root) : (v.toks.length : Int) ≤ maxInt64 := by
  have := desc_len hv; have := h.max; omega

theorem Input.pos (h : Input S F root) : 1 ≤ F := by have := toks_pos root; have := h.len; omega

theorem Input.closed (h : Input S F root) : Closed (· ∈ descendants root) := by
  refine ⟨fun hv m hm => desc_trans hv (desc_member hm), ?_⟩
  intro v hv hk m hm
  obtain ⟨d, hd, -⟩ := h.good decimal hv
  cases v with
  | scalar k => cases hk
  | arr l e => cases hk
  | obj ms e =>
    cases hd with
    | obj h1 h2 =>
      simp only [JVal.members, List.mem_map] at hm
      obtain ⟨w, hw, rfl⟩ := hm
      obtain ⟨⟨s, hs⟩, -⟩ := h1.mem w hw
      exact ⟨w.1, s, rfl, toStr_ok hs⟩

end

/-! ## The context -/

/-- The context has the values of the singular queries and the nodes of the other queries of the table. -/
structure Covers (C : Nat → Prop) (J : AState → Prop) (re : Sem) (root : JVal) (e : Env) (tab : Tables) : Prop where
  sing : ∀ (i : Nat) segs, tab.sing[i]? = some segs → ∃ y w, e.ctx.sing[i]? = some y ∧ singNodes segs root = [w] ∧
    ∀ s, J s → Fresh s y w ∧ ∀ j, y.idx = some j → C j ∧ (s.coll j).thr ≠ 0
  queries : ∀ (i : Nat) segs r, tab.queries[i]? = some (segs, r) → ∃ h L, e.ctx.queries[i]? = some h ∧ (∀ s, J s → Idle s h L) ∧
    L.Perm (nodes re root segs root) ∧ L.length < e.fuel

theorem prefix_get {α : Type} {l m : List α} (h : l <+: m) {i : Nat} {a : α} (hi : l[i]? = some a) : m[i]? = some a := by
  obtain ⟨t, rfl⟩ := h
  rw [List.getElem?_append_left (List.getElem?_eq_some_iff.1 hi).1]; exact hi

theorem Covers.mono {re : Sem} {root : JVal} {e : Env} {tab tab' : Tables} (h : Covers C J re root e tab') (hl : tab.Le tab') : Covers C J re root e tab :=
  ⟨fun i segs hi => h.sing i segs (prefix_get hl.sing hi), fun i segs r hi => h.queries i segs r (prefix_get hl.queries hi)⟩

/-! ## Comparisons -/

theorem compare_flags (op : CmpOp) (a b : Option Data) : compare op a b ↔
    match op with
    | .eq => flagsHold true false false a b
    | .ne => flagsHold true false true a b
    | .le => flagsHold true true false a b
    | .ge => flagsHold true true false b a
    | .lt => flagsHold false true false a b
    | .gt => flagsHold false true false b a := by
  cases op <;> simp [Rfc9535.compare, flagsHold, or_comm, eq_comm]

section
variable {lib : Lib} {re : Sem} {S : Bytes → Prop} {root : JVal} {e : Env}

/-- What is known of the value of a comparable. -/
def ValOk (ε : Type) (C : Nat → Prop) (J : AState → Prop) (re : Sem) (S : Bytes → Prop) (root : JVal) (e : Env) (B : Prop) (r : CmpR) (p : JVal → Option JVal) : Prop :=
  CmpOk (ε := ε) C J (· ∈ descendants root) (Good re.val S e.fuel) B (cmpP e r) p

/-- The argument does not evaluate to a collection of the context. -/
def NoCtx (re : Sem) (root : JVal) (a : Arg) : Prop := ∀ segs, a = .query true segs → ∀ w ∈ nodes re root segs root, ∃ k, w = .scalar k

/-- Arguments. -/
def ArgOk (ε : Type) (C : Nat → Prop) (J : AState → Prop) (re : Sem) (S : Bytes → Prop) (root : JVal) (e : Env) (ty : Ty) (a : Arg) (r : ArgR) : Prop :=
  (ty = .value → ∃ c p, r = .value c ∧ (∀ v ∈ descendants root, (p v).bind (dataOf re.val) = (argData re root a v).toValue re.val) ∧
    ∀ B, (B ∨ NoCtx re root a) → ValOk ε C J re S root e B c p) ∧
  (ty = .nodes → ∃ rt segs q, a = .query rt segs ∧ r = .nodes q ∧
    QueryOk (ε := ε) e C J (· ∈ descendants root) (rt = true ∨ ∀ s ∈ segs, s.Single) False (queryP e q)
      (fun v => nodes re root segs (if rt then root else v)))

/-- Lists of arguments. -/
inductive ArgsOk (ε : Type) (C : Nat → Prop) (J : AState → Prop) (re : Sem) (S : Bytes → Prop) (root : JVal) (e : Env) : List Ty → List Arg → List ArgR → Prop
  | nil : ArgsOk ε C J re S root e [] [] []
  | cons {ty tys a l r rs} : ArgOk ε C J re S root e ty a r → ArgsOk ε C J re S root e tys l rs → ArgsOk ε C J re S root e (ty :: tys) (a :: l) (r :: rs)

theorem sing_ok (hFr : Frame C J) (hI : Input S e.fuel root) {tab : Tables} {rt : Bool} {segs : List SingSeg}
    (hC : Covers C J re root e (compileSing tab rt segs).1) (hs : SingOk segs) {B : Prop}
    (hB : B ∨ (rt = true → ∀ w ∈ singNodes segs root, ∃ k, w = .scalar k)) :
    ValOk ε C J re S root e B (compileSing tab rt segs).2 (fun v => soleNode (singNodes segs (if rt then root else v))) := by
  cases rt with
  | false =>
    have : ValOk ε C J re S root e B (compileSing tab false segs).2 (singVal segs) := by
      show CmpOk C J (· ∈ descendants root) (Good re.val S e.fuel) B (cmpP e (.sing segs)) _
      rw [cmpP]
      exact cmp_sing hI.closed (fun v hv => hI.fuel hv) (fun v hv => hI.good re.val hv) segs
    refine CmpOk.congr this ?_
    intro v hv
    obtain ⟨d, hd, -⟩ := hI.good re.val hv
    simp only [Bool.false_eq_true, if_false]
    rw [singNodes_spec hs hd (hI.maxv hv)]
    cases singVal segs v <;> rfl
  | true =>
    have key : ∃ i, (compileSing tab true segs).2 = .inner i ∧ (compileSing tab true segs).1.sing[i]? = some segs := by
      simp only [compileSing, if_true]
      split
      · rename_i i hi
        obtain ⟨h1, h2, -⟩ := List.findIdx?_eq_some_iff_getElem.1 hi
        refine ⟨i, rfl, ?_⟩
        have h2 : tab.sing[i] = segs := by simpa using h2
        rw [← h2]; exact List.getElem?_eq_getElem h1
      · exact ⟨tab.sing.length, rfl, by simp⟩
    obtain ⟨i, h1, h2⟩ := key
    obtain ⟨y, w, g1, g2, g3⟩ := hC.sing i segs h2
    rw [h1]
    have hw : w ∈ descendants root := by
      obtain ⟨d, hd⟩ := hI.den
      have := singNodes_spec hs hd hI.max
      rw [g2] at this
      cases hv : singVal segs root with
      | none => rw [hv] at this; cases this
      | some w' =>
        rw [hv] at this
        simp only [Option.toList_some, List.cons.injEq, and_true] at this
        subst this
        exact singVal_good hI.closed (desc_self root) hv
    have hidx : B ∨ y.idx = none ∨ ∀ s, ¬ J s := by
      rcases hB with hB | hB
      · exact .inl hB
      · obtain ⟨k, rfl⟩ := hB rfl w (by rw [g2]; exact List.mem_singleton_self _)
        by_cases hJ : ∃ s, J s
        · obtain ⟨s, hs⟩ := hJ
          have : y = .scalar k := (g3 s hs).1
          exact .inr (.inl (by rw [this]; rfl))
        · exact .inr (.inr fun s hs => hJ ⟨s, hs⟩)
    show CmpOk C J (· ∈ descendants root) (Good re.val S e.fuel) B (cmpP e (.inner i)) _
    rw [cmpP]
    simp only [g1, if_true, g2]
    rcases hidx with h | h | h
    · exact cmp_ctx (hI.good re.val hw) (.inl h) g3
    · exact cmp_ctx (hI.good re.val hw) (.inr h) g3
    · exact ⟨fun v w' _ h => by simp only [soleNode, Option.some.injEq] at h; subst h; exact hI.good re.val hw, fun s x v _ hJ => absurd hJ (h s)⟩

theorem inner_ok (hI : Input S e.fuel root) {i : Nat} {tab : Tables} {segs : List Segment} {r} (hC : Covers C J re root e tab) (hi : tab.queries[i]? = some (segs, r)) (single : Prop) :
    QueryOk (ε := ε) e C J (· ∈ descendants root) single False (queryP e (.inner i)) (fun _ => nodes re root segs root) := by
  obtain ⟨h, L, h1, h2, h3, h4⟩ := hC.queries i segs r hi
  rw [queryP]
  exact query_inner h1 h2 (fun v hv => nodes_desc re root (h3.mem_iff.1 hv)) h4 single h3 False.elim

theorem single_spec {segs : List Segment} (h : ∀ s ∈ segs, s.Single) : ∀ seg ∈ segs.map (segSpec re root), seg.sels.length ≤ 1 := by
  intro seg hseg
  obtain ⟨s, hs, rfl⟩ := List.mem_map.1 hseg
  have := h s hs
  obtain ⟨d, sels⟩ := s
  simpa [segSpec, Segment.Single] using this

theorem run_ok' (hFr : Frame C J) (hI : Input S e.fuel root) {segs : List Segment} (hs : safeSegs lib re S root segs) {rs : List SegR}
    (h : Rel2 (SegRel C J (· ∈ descendants root) AnyVal) (segsR (ε := ε) e rs) (segs.map (segSpec re root))) :
    QueryOk (ε := ε) e C J (· ∈ descendants root) (∀ s ∈ segs, s.Single) False (queryP e (.run rs)) (nodes re root segs) := by
  rw [queryP]
  refine (query_run hFr hI.closed (fun v hv => hI.fuel hv) h).mono single_spec ?_
  intro v hv
  obtain ⟨d, hd, -⟩ := hI.good re.val hv
  exact nodes_spec re root (safeSegs_ok hs) hd (hI.maxv hv)

/-- The segments of a query are compiled to an inner query. -/
theorem find_inner {tab : Tables} {segs : List Segment} {i : Nat} (h : tab.queries.findIdx? (segmentsBeq ·.1 segs) = some i) :
    ∃ r, tab.queries[i]? = some (segs, r) := by
  obtain ⟨h1, h2, -⟩ := List.findIdx?_eq_some_iff_getElem.1 h
  refine ⟨tab.queries[i].2, ?_⟩
  rw [List.getElem?_eq_getElem h1]
  congr 1
  exact Prod.ext (segmentsBeq_eq h2) rfl

/-- The names of functions. -/
def fnName : Fn → Bytes
  | .length => b%"length"
  | .count => b%"count"
  | .fmatch => b%"match"
  | .search => b%"search"
  | .value => b%"value"

theorem ofName_iff {n : Bytes} {f : Fn} (h : Fn.ofName n = some f) : n = fnName f := by
  unfold Fn.ofName at h
  repeat' split at h
  all_goals (cases h; try assumption)

/-- Functions with values. -/
theorem fnValue_ok (hFr : Frame C J) (hI : Input S e.fuel root) {name : Bytes} {f : Fn} (hf : Fn.ofName name = some f) (ho : f.output = .value) {args : List Arg} {rs : List ArgR}
    (hn : args.length = f.inputs.length) (ha : ArgsOk ε C J re S root e f.inputs args rs) (hs : FnSafe lib re S root f args) :
    ∃ p, (∀ v ∈ descendants root, (p v).bind (dataOf re.val) = Rfc9535.fnValue re.val name (argsData re root args v)) ∧
      ∀ B, ValOk ε C J re S root e B (.func f rs) p := by
  have hname := ofName_iff hf
  cases f with
  | fmatch => cases ho
  | search => cases ho
  | length =>
    obtain ⟨a, rfl⟩ : ∃ a, args = [a] := by
      match args, hn with
      | [a], _ => exact ⟨a, rfl⟩
    cases ha with
    | cons ha hr =>
      cases hr
      obtain ⟨c, p, rfl, h1, h2⟩ := ha.1 rfl
      obtain ⟨hs1, hs2⟩ := hs
      have hc := h2 False (.inr fun segs e => hs2 segs (by rw [e]))
      have hdat : ∀ v w, v ∈ descendants root → p v = some w → ∃ d, DenBy re.val w d ∧ (argData re root a v).toValue re.val = some d := by
        intro v w hv hp
        obtain ⟨d, hd, -⟩ := hc.1 v w hv hp
        refine ⟨d, hd, ?_⟩
        rw [← h1 v hv, hp]
        exact hd.dataOf
      refine ⟨fun v => ((p v).bind lengthScalar).map .scalar, ?_, ?_⟩
      · intro v hv
        subst hname
        show (((p v).bind lengthScalar).map .scalar : Option JVal).bind (dataOf re.val) = Rfc9535.fnValue re.val b%"length" _
        rw [argsData, argsData, fnValue_length]
        cases hp : p v with
        | none => rw [← h1 v hv, hp]; rfl
        | some w =>
          obtain ⟨d, hd, hd'⟩ := hdat v w hv hp
          rw [hd']
          obtain ⟨ho, hS⟩ := hs1 v hv _ d (by rw [argsData, argsData]) hd'
          obtain ⟨g1, g2⟩ := lengthScalar_spec hd ho
          simp only [Option.bind_some]
          cases hk : lengthScalar w with
          | none => rw [dif_neg (fun ⟨n, hn⟩ => g2 hk n hn)]; simp [hk]
          | some k =>
            obtain ⟨n, rfl, hl⟩ := g1 k hk
            have hex : ∃ n, LengthIs d n := ⟨n, hl⟩
            rw [dif_pos hex]
            simp only [Option.bind_some, hk, Option.map_some]
            rw [(natScalar_den n (hS n hl).2).dataOf, JPath.LengthIs.unique hl hex.choose_spec ho]
      · intro B
        show CmpOk C J (· ∈ descendants root) (Good re.val S e.fuel) B (cmpP e (.func .length [.value c])) _
        rw [cmpP, argsP, argsP, argP]
        refine cmp_length (val := re.val) hFr hc (fun w hw => ?_) ?_
        · obtain ⟨d, hd, hl, -⟩ := hw
          exact ⟨⟨d, hd⟩, hl⟩
        · intro v w k hv hp hk
          obtain ⟨d, hd, hd'⟩ := hdat v w hv hp
          obtain ⟨ho, hS⟩ := hs1 v hv _ d (by rw [argsData, argsData]) hd'
          obtain ⟨n, rfl, hl⟩ := (lengthScalar_spec hd ho).1 k hk
          exact natScalar_good hI.pos (hS n hl)
  | count =>
    obtain ⟨a, rfl⟩ : ∃ a, args = [a] := by
      match args, hn with
      | [a], _ => exact ⟨a, rfl⟩
    cases ha with
    | cons ha hr =>
      cases hr
      obtain ⟨rt, segs, q, rfl, rfl, hq⟩ := ha.2 rfl
      refine ⟨fun v => some (.scalar (natScalar (nodes re root segs (if rt then root else v)).length)), ?_, ?_⟩
      · intro v hv
        subst hname
        show _ = Rfc9535.fnValue re.val b%"count" _
        rw [argsData, argsData, argData, fnValue_count]
        simp only [Option.bind_some]
        exact (natScalar_den _ (hs v hv _ (by rw [argsData, argsData, argData])).2).dataOf
      · intro B
        show CmpOk C J (· ∈ descendants root) (Good re.val S e.fuel) B (cmpP e (.func .count [.nodes q])) _
        rw [cmpP, argsP, argsP, argP]
        refine cmp_count hq (fun v hv => natScalar_good hI.pos (hs v hv _ ?_))
        rw [argsData, argsData, argData]
  | value =>
    obtain ⟨a, rfl⟩ : ∃ a, args = [a] := by
      match args, hn with
      | [a], _ => exact ⟨a, rfl⟩
    cases ha with
    | cons ha hr =>
      cases hr
      obtain ⟨rt, segs, q, rfl, rfl, hq⟩ := ha.2 rfl
      obtain ⟨hs1, hs2⟩ := hs
      refine ⟨fun v => soleNode (nodes re root segs (if rt then root else v)), ?_, ?_⟩
      · intro v hv
        subst hname
        show _ = Rfc9535.fnValue re.val b%"value" _
        rw [argsData, argsData, argData, fnValue_value, toValue_sole]
      · intro B
        show CmpOk C J (· ∈ descendants root) (Good re.val S e.fuel) B (cmpP e (.func .value [.nodes q])) _
        rw [cmpP, argsP, argsP, argP]
        refine cmp_value hq ?_ ?_
        · cases rt with
          | true => exact .inl (.inl rfl)
          | false =>
            rcases hs2 segs rfl with h | h
            · exact .inl (.inr h)
            · exact .inr fun v hv => h v hv
        · intro v w hv hw
          have hl : nodes re root segs (if rt then root else v) = [w] := by
            revert hw
            generalize nodes re root segs (if rt then root else v) = l
            intro hw
            match l, hw with
            | [w'], hw => simp only [soleNode, Option.some.injEq] at hw; rw [hw]
          obtain ⟨k, rfl⟩ := hs1 v hv w (by rw [argsData, argsData, argData, hl])
          refine ⟨hI.good re.val ?_, k, rfl⟩
          have hm : JVal.scalar k ∈ nodes re root segs (if rt then root else v) := by rw [hl]; exact List.mem_singleton_self _
          have := nodes_desc re root hm
          cases rt with
          | true => exact this
          | false => exact desc_trans hv this

theorem den_str {val : Bytes → Rat} {w : JVal} {s : Bytes} (h : DenBy val w (.str s)) : ∃ k, w = .scalar k ∧ StrIs k s := by
  cases h with
  | str h => exact ⟨_, rfl, h⟩

open Classical in
/-- Functions with truth values. -/
theorem fnTruth_ok (hFr : Frame C J) (hI : Input S e.fuel root) {name : Bytes} {f : Fn} (hf : Fn.ofName name = some f) (ho : f.output = .logical) {args : List Arg} {rs : List ArgR}
    (hn : args.length = f.inputs.length) (ha : ArgsOk ε C J re S root e f.inputs args rs) (hs : FnSafe e.lib re S root f args) :
    CondOk (ε := ε) C J (· ∈ descendants root) (condP e (.func f rs)) (fun v => decide (fnHolds re name (argsData re root args v))) := by
  have hname := ofName_iff hf
  obtain ⟨whole, hw, hin, hs⟩ : ∃ whole, (f = .fmatch ∧ whole = true ∨ f = .search ∧ whole = false) ∧ f.inputs = [.value, .value] ∧
      ∀ v ∈ descendants root, ∀ a b s p, argsData re root args v = [a, b] → a.toValue re.val = some (.str s) → b.toValue re.val = some (.str p) →
        RegexOk e.lib re whole s p := by
    cases f with
    | length => cases ho
    | count => cases ho
    | value => cases ho
    | fmatch => exact ⟨true, .inl ⟨rfl, rfl⟩, rfl, hs⟩
    | search => exact ⟨false, .inr ⟨rfl, rfl⟩, rfl, hs⟩
  rw [hin] at ha hn
  obtain ⟨a, b, rfl⟩ : ∃ a b, args = [a, b] := by
    match args, hn with
    | [a, b], _ => exact ⟨a, b, rfl⟩
  cases ha with
  | cons ha hr =>
    cases hr with
    | cons hb hr =>
      cases hr
      obtain ⟨c, p, rfl, h1, h2⟩ := ha.1 rfl
      obtain ⟨c', q, rfl, h3, h4⟩ := hb.1 rfl
      have hc := h2 True (.inl trivial)
      have hd := h4 True (.inl trivial)
      rw [condP, argsP, argsP, argsP, argP, argP]
      refine cond_match (val := re.val) hFr hw hc hd (fun w hw => by obtain ⟨d, hd, -⟩ := hw; exact ⟨d, hd⟩) _ ?_
      intro v hv
      have hargs : argsData re root [a, b] v = [argData re root a v, argData re root b v] := by
        rw [argsData, argsData, argsData]
      have hholds : fnHolds re name (argsData re root [a, b] v) ↔ ∃ s t L, (argData re root a v).toValue re.val = some (.str s) ∧ (argData re root b v).toValue re.val = some (.str t) ∧
          re.lang t = some L ∧ if whole then L s else ∃ x y z, s = x ++ y ++ z ∧ L y := by
        rw [hargs]
        subst hname
        constructor
        · rintro ⟨a', b', s, t, L, e1, e2, e3, e4, e5⟩
          simp only [List.cons.injEq, and_true] at e1
          obtain ⟨rfl, rfl⟩ := e1
          refine ⟨s, t, L, e2, e3, e4, ?_⟩
          rcases hw with ⟨rfl, rfl⟩ | ⟨rfl, rfl⟩
          · rcases e5 with e5 | e5
            · rw [if_pos rfl]; exact e5.2
            · exact absurd e5.1 (by decide)
          · rcases e5 with e5 | e5
            · exact absurd e5.1 (by decide)
            · rw [if_neg (by simp)]; exact e5.2
        · rintro ⟨s, t, L, e2, e3, e4, e5⟩
          refine ⟨_, _, s, t, L, rfl, e2, e3, e4, ?_⟩
          rcases hw with ⟨rfl, rfl⟩ | ⟨rfl, rfl⟩
          · rw [if_pos rfl] at e5; exact .inl ⟨rfl, e5⟩
          · rw [if_neg (by simp)] at e5; exact .inr ⟨rfl, e5⟩
      have dat : ∀ {p : JVal → Option JVal} {a : Arg} {k : Scalar} {s : Bytes}, (p v).bind (dataOf re.val) = (argData re root a v).toValue re.val → p v = some (.scalar k) → StrIs k s →
          (argData re root a v).toValue re.val = some (.str s) := by
        intro p a k s h e hk
        rw [← h, e]
        exact DenBy.dataOf (.str hk)
      have dat' : ∀ {p : JVal → Option JVal} {a : Arg} {s : Bytes}, (∀ w, p v = some w → ∃ d, DenBy re.val w d) → (p v).bind (dataOf re.val) = (argData re root a v).toValue re.val →
          (argData re root a v).toValue re.val = some (.str s) → ∃ k, p v = some (.scalar k) ∧ StrIs k s := by
        intro p a s hp h e
        rw [← h] at e
        obtain ⟨w, h1, h2⟩ := Option.bind_eq_some_iff.1 e
        obtain ⟨d, hd⟩ := hp w h1
        rw [hd.dataOf] at h2
        cases h2
        obtain ⟨k, rfl, hk⟩ := den_str hd
        exact ⟨k, h1, hk⟩
      constructor
      · intro k k' s t e1 e2 k1 k2
        have v1 := dat (h1 v hv) e1 k1
        have v2 := dat (h3 v hv) e2 k2
        obtain ⟨find, L, g1, g2, g3⟩ := hs v hv _ _ s t hargs v1 v2
        refine ⟨find, g1, ?_⟩
        rw [Bool.eq_iff_iff, decide_eq_true_iff, hholds]
        have : (∃ s' t' L', (argData re root a v).toValue re.val = some (.str s') ∧ (argData re root b v).toValue re.val = some (.str t') ∧
          re.lang t' = some L' ∧ if whole then L' s' else ∃ x y z, s' = x ++ y ++ z ∧ L' y) ↔ if whole then L s else ∃ x y z, s = x ++ y ++ z ∧ L y := by
          constructor
          · rintro ⟨s', t', L', u1, u2, u3, u4⟩
            rw [v1] at u1; rw [v2] at u2
            cases u1; cases u2
            rw [g2] at u3; cases u3
            exact u4
          · intro h; exact ⟨s, t, L, v1, v2, g2, h⟩
        rw [this]
        unfold findResult
        cases whole with
        | true => simp only [if_true] at g3 ⊢; rw [decide_eq_true_iff]; exact g3.symm
        | false => simp only [Bool.false_eq_true, if_false] at g3 ⊢; exact g3.symm
      · intro hno
        rw [decide_eq_false_iff_not, hholds]
        rintro ⟨s, t, L, u1, u2, -⟩
        obtain ⟨k, e1, k1⟩ := dat' (fun w hw => by obtain ⟨d, hd, -⟩ := hc.1 v w hv hw; exact ⟨d, hd⟩) (h1 v hv) u1
        obtain ⟨k', e2, k2⟩ := dat' (fun w hw => by obtain ⟨d, hd, -⟩ := hd.1 v w hv hw; exact ⟨d, hd⟩) (h3 v hv) u2
        exact hno ⟨k, k', s, t, e1, e2, k1, k2⟩

end

open Classical in
theorem any_holds (re : Sem) (root v : JVal) : ∀ l : List Logical, (l.map fun c v => decide (holds re root c v)).any (· v) = true ↔ anyHolds re root l v
  | [] => by simp [anyHolds]
  | c :: l => by rw [anyHolds, List.map_cons, List.any_cons, Bool.or_eq_true, any_holds re root v l, decide_eq_true_iff]

open Classical in
theorem all_hold (re : Sem) (root v : JVal) : ∀ l : List Logical, (l.map fun c v => decide (holds re root c v)).all (· v) = true ↔ allHold re root l v
  | [] => by simp [allHold]
  | c :: l => by rw [allHold, List.map_cons, List.all_cons, Bool.and_eq_true, all_hold re root v l, decide_eq_true_iff]

theorem checkFn_iff {name : Bytes} {n : Nat} {ty : Ty} {f : Fn} (h : checkFn name n ty = some f) :
    Fn.ofName name = some f ∧ f.output.convertsTo ty = true ∧ n = f.inputs.length := by
  unfold checkFn at h
  obtain ⟨g, h1, h2⟩ := Option.bind_eq_some_iff.1 h
  split at h2
  · rename_i hc; cases h2; exact ⟨h1, hc⟩
  · cases h2

theorem compileSlice_rel {G P : JVal → Prop} (a b : Option Int) (c : Int) (hc : 0 ≤ c) (e : Env) :
    SelRel (ε := ε) C J G P (selR e (compileSlice a b c)) (compileSlice a b c) := by
  have key : (∀ T, compileSlice (C := T) a b c = .default) ∨ ∃ x y, ∀ T, compileSlice (C := T) a b c = .slice x y c := by
    unfold compileSlice
    by_cases h0 : c = 0
    · exact .inl fun T => if_pos h0
    · simp only [if_neg h0, if_neg (show ¬ c < 0 by omega)]
      by_cases h1 : 0 ≤ b.getD maxInt64 ∧ b.getD maxInt64 ≤ a.getD 0 ∨ a.getD 0 < 0 ∧ a.getD 0 ≥ b.getD maxInt64
      · exact .inl fun T => if_pos h1
      · exact .inr ⟨_, _, fun T => if_neg h1⟩
  rcases key with h | ⟨x, y, h⟩
  · rw [h, h, selR]; exact .default
  · rw [h, h, selR]; exact .slice _ _ _

section
variable {re : Sem} {S : Bytes → Prop} {root : JVal} {e : Env}

open Classical in
mutual
theorem compileSel_ok (hFr : Frame C J) (hI : Input S e.fuel root) : ∀ {tab tab' : Tables} {s : Selector} {r}, compileSel tab s = some (tab', r) →
    safeSel e.lib re S root s → Covers C J re root e tab' → SelRel (ε := ε) C J (· ∈ descendants root) AnyVal (selR e r) (selSpec re root s)
  | tab, tab', .name n, r, h, hs, hC => by
    simp only [compileSel, Option.some.injEq, Prod.mk.injEq] at h; rw [← h.2, selR]; exact .name n
  | tab, tab', .wild, r, h, hs, hC => by
    simp only [compileSel, Option.some.injEq, Prod.mk.injEq] at h; rw [← h.2, selR]; exact .wild
  | tab, tab', .index i, r, h, hs, hC => by
    simp only [compileSel, Option.some.injEq, Prod.mk.injEq] at h; rw [← h.2, selR]; exact .index i
  | tab, tab', .slice a b c, r, h, hs, hC => by
    simp only [compileSel, Option.some.injEq, Prod.mk.injEq] at h
    rw [← h.2]
    rw [safeSel] at hs
    exact compileSlice_rel a b c hs.2.2.2.1 e
  | tab, tab', .filter c, r, h, hs, hC => by
    simp only [compileSel, Option.map_eq_some_iff] at h
    obtain ⟨⟨t, x⟩, h1, h2⟩ := h
    simp only [Prod.mk.injEq] at h2
    obtain ⟨rfl, rfl⟩ := h2
    rw [safeSel] at hs
    rw [selR]
    exact .filter (compileCond_ok hFr hI h1 hs hC)
theorem compileSels_ok (hFr : Frame C J) (hI : Input S e.fuel root) : ∀ {tab tab' : Tables} {s : List Selector} {r}, compileSels tab s = some (tab', r) →
    safeSels e.lib re S root s → Covers C J re root e tab' → Rel2 (SelRel (ε := ε) C J (· ∈ descendants root) AnyVal) (selsR e r) (s.map (selSpec re root))
  | tab, tab', [], r, h, hs, hC => by
    simp only [compileSels, Option.some.injEq, Prod.mk.injEq] at h; rw [← h.2, selsR]; exact .nil
  | tab, tab', s :: l, r, h, hs, hC => by
    simp only [compileSels, Option.bind_eq_some_iff, Option.map_eq_some_iff] at h
    obtain ⟨⟨t, x⟩, h1, ⟨t', x'⟩, h2, h3⟩ := h
    simp only [Prod.mk.injEq] at h3
    obtain ⟨rfl, rfl⟩ := h3
    rw [safeSels] at hs
    rw [selsR]
    exact .cons (compileSel_ok hFr hI h1 hs.1 (hC.mono (compileSels_grows (lib := e.lib) (re := re) (S := S) (root := root) h2).1)) (compileSels_ok hFr hI h2 hs.2 hC)
theorem compileSeg_ok (hFr : Frame C J) (hI : Input S e.fuel root) : ∀ {tab tab' : Tables} {s : Segment} {r}, compileSeg tab s = some (tab', r) →
    safeSeg e.lib re S root s → Covers C J re root e tab' → SegRel (ε := ε) C J (· ∈ descendants root) AnyVal (segR e r) (segSpec re root s)
  | tab, tab', .mk d sels, r, h, hs, hC => by
    simp only [compileSeg, Option.map_eq_some_iff] at h
    obtain ⟨⟨t, x⟩, h1, h2⟩ := h
    simp only [Prod.mk.injEq] at h2
    obtain ⟨rfl, rfl⟩ := h2
    rw [safeSeg] at hs
    rw [segR]
    exact ⟨rfl, compileSels_ok hFr hI h1 hs hC⟩
theorem compileSegs_ok (hFr : Frame C J) (hI : Input S e.fuel root) : ∀ {tab tab' : Tables} {s : List Segment} {r}, compileSegs tab s = some (tab', r) →
    safeSegs e.lib re S root s → Covers C J re root e tab' → Rel2 (SegRel (ε := ε) C J (· ∈ descendants root) AnyVal) (segsR e r) (s.map (segSpec re root))
  | tab, tab', [], r, h, hs, hC => by
    simp only [compileSegs, Option.some.injEq, Prod.mk.injEq] at h; rw [← h.2, segsR]; exact .nil
  | tab, tab', s :: l, r, h, hs, hC => by
    simp only [compileSegs, Option.bind_eq_some_iff, Option.map_eq_some_iff] at h
    obtain ⟨⟨t, x⟩, h1, ⟨t', x'⟩, h2, h3⟩ := h
    simp only [Prod.mk.injEq] at h3
    obtain ⟨rfl, rfl⟩ := h3
    rw [safeSegs] at hs
    rw [segsR]
    exact .cons (compileSeg_ok hFr hI h2 hs.1 hC) (compileSegs_ok hFr hI h1 hs.2 (hC.mono (compileSeg_grows (lib := e.lib) (re := re) (S := S) (root := root) h2).1))
theorem compileCond_ok (hFr : Frame C J) (hI : Input S e.fuel root) : ∀ {tab tab' : Tables} {s : Logical} {r}, compileCond tab s = some (tab', r) →
    safeCond e.lib re S root s → Covers C J re root e tab' → CondOk (ε := ε) C J (· ∈ descendants root) (condP e r) (fun v => decide (holds re root s v))
  | tab, tab', .or l, r, h, hs, hC => by
    simp only [compileCond, Option.map_eq_some_iff] at h
    obtain ⟨⟨t, x⟩, h1, h2⟩ := h
    simp only [Prod.mk.injEq] at h2
    obtain ⟨rfl, rfl⟩ := h2
    rw [safeCond] at hs
    rw [condP]
    refine (cond_or hFr (compileConds_ok hFr hI h1 hs hC)).congr ?_
    intro v hv
    rw [Bool.eq_iff_iff, decide_eq_true_iff, holds, any_holds]
  | tab, tab', .and l, r, h, hs, hC => by
    simp only [compileCond, Option.map_eq_some_iff] at h
    obtain ⟨⟨t, x⟩, h1, h2⟩ := h
    simp only [Prod.mk.injEq] at h2
    obtain ⟨rfl, rfl⟩ := h2
    rw [safeCond] at hs
    rw [condP]
    refine (cond_and hFr (compileConds_ok hFr hI h1 hs hC)).congr ?_
    intro v hv
    rw [Bool.eq_iff_iff, decide_eq_true_iff, holds, all_hold]
  | tab, tab', .not c, r, h, hs, hC => by
    simp only [compileCond, Option.map_eq_some_iff] at h
    obtain ⟨⟨t, x⟩, h1, h2⟩ := h
    simp only [Prod.mk.injEq] at h2
    obtain ⟨rfl, rfl⟩ := h2
    rw [safeCond] at hs
    rw [condP]
    refine (cond_not hFr (compileCond_ok hFr hI h1 hs hC)).congr ?_
    intro v hv
    rw [Bool.eq_iff_iff, decide_eq_true_iff, holds]
    simp
  | tab, tab', .cmp a o b, r, h, hs, hC => by
    simp only [compileCond, Option.bind_eq_some_iff, Option.map_eq_some_iff] at h
    obtain ⟨⟨t, x⟩, h1, ⟨t', x'⟩, h2, h3⟩ := h
    simp only [Prod.mk.injEq] at h3
    obtain ⟨rfl, rfl⟩ := h3
    rw [safeCond] at hs
    obtain ⟨p, p1, p2⟩ := compileComparable_ok hFr hI h1 hs.2.1 (hC.mono (compileComparable_grows (lib := e.lib) (re := re) (S := S) (root := root) h2).1)
    obtain ⟨q, q1, q2⟩ := compileComparable_ok hFr hI h2 hs.2.2 hC
    have key : ∀ v ∈ descendants root, holds re root (.cmp a o b) v ↔ Rfc9535.compare o ((p v).bind (dataOf re.val)) ((q v).bind (dataOf re.val)) := by
      intro v hv
      rw [holds, p1 v hv, q1 v hv]
    cases o <;> simp only [compileCmp] <;> rw [condP]
    · exact (comparison_ok hFr hs.1 (fun _ h => h) true false false p2 q2).congr fun v hv => by
        rw [decide_eq_decide, key v hv, compare_flags]
    · exact (comparison_ok hFr hs.1 (fun _ h => h) true false true p2 q2).congr fun v hv => by
        rw [decide_eq_decide, key v hv, compare_flags]
    · exact (comparison_ok hFr hs.1 (fun _ h => h) true true false p2 q2).congr fun v hv => by
        rw [decide_eq_decide, key v hv, compare_flags]
    · exact (comparison_ok hFr hs.1 (fun _ h => h) true true false q2 p2).congr fun v hv => by
        rw [decide_eq_decide, key v hv, compare_flags]
    · exact (comparison_ok hFr hs.1 (fun _ h => h) false true false p2 q2).congr fun v hv => by
        rw [decide_eq_decide, key v hv, compare_flags]
    · exact (comparison_ok hFr hs.1 (fun _ h => h) false true false q2 p2).congr fun v hv => by
        rw [decide_eq_decide, key v hv, compare_flags]
  | tab, tab', .query true segs, r, h, hs, hC => by
    have key : ∃ i r', r = .query (.inner i) ∧ tab'.queries[i]? = some (segs, r') := by
      simp only [compileCond, if_true] at h
      split at h
      · rename_i i hi
        simp only [Option.some.injEq, Prod.mk.injEq] at h
        obtain ⟨rfl, rfl⟩ := h
        obtain ⟨r', hr⟩ := find_inner hi
        exact ⟨i, r', rfl, hr⟩
      · simp only [Option.map_eq_some_iff] at h
        obtain ⟨⟨t, x⟩, h1, h2⟩ := h
        simp only [Prod.mk.injEq] at h2
        obtain ⟨rfl, rfl⟩ := h2
        exact ⟨_, x, rfl, by simp⟩
    obtain ⟨i, r', rfl, hr⟩ := key
    rw [condP]
    refine (queryTruth_ok hFr (inner_ok hI hC hr True) trivial).congr ?_
    intro v hv
    rw [decide_eq_decide, holds]
    simp
  | tab, tab', .query false segs, r, h, hs, hC => by
    simp only [compileCond, Bool.false_eq_true, if_false, Option.map_eq_some_iff] at h
    obtain ⟨⟨t, x⟩, h1, h2⟩ := h
    simp only [Prod.mk.injEq] at h2
    obtain ⟨rfl, rfl⟩ := h2
    rw [safeCond] at hs
    rw [condP]
    refine (queryTruth_ok hFr (run_ok' hFr hI hs.1 (compileSegs_ok hFr hI h1 hs.1 hC)) hs.2).congr ?_
    intro v hv
    rw [decide_eq_decide, holds]
    simp
  | tab, tab', .func name args, r, h, hs, hC => by
    simp only [compileCond, Option.bind_eq_some_iff, Option.map_eq_some_iff] at h
    obtain ⟨f, h0, ⟨t', x'⟩, h2, h3⟩ := h
    simp only [Prod.mk.injEq] at h3
    obtain ⟨rfl, rfl⟩ := h3
    obtain ⟨hf, ho, hl⟩ := checkFn_iff h0
    rw [safeCond] at hs
    obtain ⟨hs1, hs2⟩ := hs f hf
    have ho' : f.output = .logical := by cases f <;> first | rfl | exact absurd ho (by decide)
    refine (fnTruth_ok hFr hI hf ho' hl (compileArgs_ok hFr hI h2 hs1 hC hl.symm) hs2).congr ?_
    intro v hv
    rw [decide_eq_decide, holds]
theorem compileConds_ok (hFr : Frame C J) (hI : Input S e.fuel root) : ∀ {tab tab' : Tables} {s : List Logical} {r}, compileConds tab s = some (tab', r) →
    safeConds e.lib re S root s → Covers C J re root e tab' →
    Rel2 (CondOk (ε := ε) C J (· ∈ descendants root)) (condsP e r) (s.map fun c v => decide (holds re root c v))
  | tab, tab', [], r, h, hs, hC => by
    simp only [compileConds, Option.some.injEq, Prod.mk.injEq] at h; rw [← h.2, condsP]; exact .nil
  | tab, tab', s :: l, r, h, hs, hC => by
    simp only [compileConds, Option.bind_eq_some_iff, Option.map_eq_some_iff] at h
    obtain ⟨⟨t, x⟩, h1, ⟨t', x'⟩, h2, h3⟩ := h
    simp only [Prod.mk.injEq] at h3
    obtain ⟨rfl, rfl⟩ := h3
    rw [safeConds] at hs
    rw [condsP]
    exact .cons (compileCond_ok hFr hI h1 hs.1 (hC.mono (compileConds_grows (lib := e.lib) (re := re) (S := S) (root := root) h2).1)) (compileConds_ok hFr hI h2 hs.2 hC)
theorem compileComparable_ok (hFr : Frame C J) (hI : Input S e.fuel root) : ∀ {tab tab' : Tables} {s : Comparable} {r}, compileComparable tab s = some (tab', r) →
    safeComp e.lib re S root s → Covers C J re root e tab' →
    ∃ p, (∀ v ∈ descendants root, (p v).bind (dataOf re.val) = value re root s v) ∧ ValOk ε C J re S root e True r p
  | tab, tab', .lit l, r, h, hs, hC => by
    simp only [compileComparable, Option.some.injEq, Prod.mk.injEq] at h
    obtain ⟨rfl, rfl⟩ := h
    rw [safeComp] at hs
    refine ⟨fun _ => some (.scalar (litScalar e.lib l)), fun v hv => by rw [value]; exact (litScalar_den hs).dataOf, ?_⟩
    show CmpOk C J _ _ _ (cmpP e (.lit l)) _
    rw [cmpP]
    exact cmp_lit _ (litScalar_good hI.pos hs)
  | tab, tab', .sing q, r, h, hs, hC => by
    simp only [compileComparable, Option.some.injEq] at h
    have e1 : (compileSing tab q.root q.segs).1 = tab' := by rw [h]
    have e2 : (compileSing tab q.root q.segs).2 = r := by rw [h]
    subst e1 e2
    rw [safeComp] at hs
    exact ⟨_, fun v hv => by rw [value, toValue_sole], sing_ok hFr hI hC hs.1 (.inl trivial)⟩
  | tab, tab', .func name args, r, h, hs, hC => by
    simp only [compileComparable, Option.bind_eq_some_iff, Option.map_eq_some_iff] at h
    obtain ⟨f, h0, ⟨t', x'⟩, h2, h3⟩ := h
    simp only [Prod.mk.injEq] at h3
    obtain ⟨rfl, rfl⟩ := h3
    obtain ⟨hf, ho, hl⟩ := checkFn_iff h0
    rw [safeComp] at hs
    obtain ⟨hs1, hs2⟩ := hs f hf
    have ho' : f.output = .value := by cases f <;> first | rfl | exact absurd ho (by decide)
    obtain ⟨p, p1, p2⟩ := fnValue_ok hFr hI hf ho' hl (compileArgs_ok hFr hI h2 hs1 hC hl.symm) hs2
    exact ⟨p, fun v hv => by rw [p1 v hv, value], p2 True⟩
theorem compileArg_ok (hFr : Frame C J) (hI : Input S e.fuel root) : ∀ {tab tab' : Tables} {ty : Ty} {s : Arg} {r}, compileArg tab ty s = some (tab', r) →
    safeArg e.lib re S root ty s → Covers C J re root e tab' → ArgOk ε C J re S root e ty s r
  | tab, tab', ty, .lit l, r, h, hs, hC => by
    simp only [compileArg] at h
    split at h
    · rename_i hty
      simp only [Option.some.injEq, Prod.mk.injEq] at h
      obtain ⟨rfl, rfl⟩ := h
      rw [safeArg] at hs
      subst hty
      refine ⟨fun _ => ⟨.lit l, fun _ => some (.scalar (litScalar e.lib l)), rfl, fun v hv => by rw [argData]; exact (litScalar_den hs).dataOf, ?_⟩, fun h => nomatch h⟩
      intro B _
      show CmpOk C J _ _ _ (cmpP e (.lit l)) _
      rw [cmpP]
      exact cmp_lit _ (litScalar_good hI.pos hs)
    · cases h
  | tab, tab', ty, .query rt segs, r, h, hs, hC => by
    rw [safeArg] at hs
    simp only [compileArg] at h
    split at h
    · rename_i hty
      subst hty
      simp only [Option.map_eq_some_iff] at h
      obtain ⟨ss, h1, h2⟩ := h
      simp only [Prod.mk.injEq] at h2
      obtain ⟨rfl, rfl⟩ := h2
      refine ⟨fun _ => ⟨_, _, rfl, ?_, fun B hB => sing_ok hFr hI hC (asSingular_ok re root h1 hs.1) (hB.imp id fun hB hr w hw => ?_)⟩, fun h => nomatch h⟩
      · intro v hv
        rw [argData, toValue_sole, nodes_asSingular re root h1]
      · exact hB segs (by rw [hr]) w (by rw [nodes_asSingular re root h1]; exact hw)
    · rename_i hty
      refine ⟨fun h => absurd h hty, fun _ => ?_⟩
      cases rt with
      | true =>
        have key : ∃ i r', r = .nodes (.inner i) ∧ tab'.queries[i]? = some (segs, r') := by
          simp only [if_true] at h
          split at h
          · rename_i i hi
            simp only [Option.some.injEq, Prod.mk.injEq] at h
            obtain ⟨rfl, rfl⟩ := h
            obtain ⟨r', hr⟩ := find_inner hi
            exact ⟨i, r', rfl, hr⟩
          · simp only [Option.map_eq_some_iff] at h
            obtain ⟨⟨t, x⟩, h1, h2⟩ := h
            simp only [Prod.mk.injEq] at h2
            obtain ⟨rfl, rfl⟩ := h2
            exact ⟨_, x, rfl, by simp⟩
        obtain ⟨i, r', rfl, hr⟩ := key
        exact ⟨true, segs, _, rfl, rfl, inner_ok hI hC hr _⟩
      | false =>
        simp only [Bool.false_eq_true, if_false, Option.map_eq_some_iff] at h
        obtain ⟨⟨t, x⟩, h1, h2⟩ := h
        simp only [Prod.mk.injEq] at h2
        obtain ⟨rfl, rfl⟩ := h2
        exact ⟨false, segs, _, rfl, rfl, (run_ok' hFr hI hs.1 (compileSegs_ok hFr hI h1 hs.1 hC)).mono (fun h => h.elim (fun h => nomatch h) id) (fun v _ => by simp)⟩
  | tab, tab', ty, .logical c, r, h, hs, hC => by simp [compileArg] at h
  | tab, tab', ty, .func name args, r, h, hs, hC => by
    simp only [compileArg, Option.bind_eq_some_iff, Option.map_eq_some_iff] at h
    obtain ⟨f, h0, ⟨t', x'⟩, h2, h3⟩ := h
    simp only [Prod.mk.injEq] at h3
    obtain ⟨rfl, rfl⟩ := h3
    obtain ⟨hf, ho, hl⟩ := checkFn_iff h0
    rw [safeArg] at hs
    obtain ⟨hs1, hs2⟩ := hs f hf
    refine ⟨?_, ?_⟩
    · rintro rfl
      have ho' : f.output = .value := by cases f <;> first | rfl | exact absurd ho (by decide)
      obtain ⟨p, p1, p2⟩ := fnValue_ok hFr hI hf ho' hl (compileArgs_ok hFr hI h2 hs1 hC hl.symm) hs2
      exact ⟨_, p, rfl, fun v hv => by rw [p1 v hv, argData]; rfl, fun B _ => p2 B⟩
    · rintro rfl
      cases f <;> exact absurd ho (by decide)
theorem compileArgs_ok (hFr : Frame C J) (hI : Input S e.fuel root) : ∀ {tab tab' : Tables} {tys : List Ty} {s : List Arg} {r}, compileArgs tab tys s = some (tab', r) →
    safeArgs e.lib re S root tys s → Covers C J re root e tab' → tys.length = s.length → ArgsOk ε C J re S root e tys s r
  | tab, tab', [], [], r, h, hs, hC, hl => by
    simp only [compileArgs, Option.some.injEq, Prod.mk.injEq] at h; rw [← h.2]; exact .nil
  | tab, tab', _ :: _, [], r, h, hs, hC, hl => by cases hl
  | tab, tab', [], s :: l, r, h, hs, hC, hl => by cases hl
  | tab, tab', ty :: tys, s :: l, r, h, hs, hC, hl => by
    simp only [compileArgs, Option.bind_eq_some_iff, Option.map_eq_some_iff] at h
    obtain ⟨⟨t, x⟩, h1, ⟨t', x'⟩, h2, h3⟩ := h
    simp only [Prod.mk.injEq] at h3
    obtain ⟨rfl, rfl⟩ := h3
    rw [safeArgs] at hs
    exact .cons (compileArg_ok hFr hI h1 hs.1 (hC.mono (compileArgs_grows (lib := e.lib) (re := re) (S := S) (root := root) h2).1))
      (compileArgs_ok hFr hI h2 hs.2 hC (by simpa using hl))
end

end

end Verif.JPath
