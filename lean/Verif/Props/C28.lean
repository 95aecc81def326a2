import Verif.IterClones
import Verif.Props.C26

/-!
# C28: Clones are independent of the original
-/

set_option linter.unusedSimpArgs false
set_option linter.unusedVariables false

namespace Verif
open AState IProg

/-- A reader alone with the next value of the input, for `m` steps. -/
def solo {ε α : Type} (r : VReader α) (m : Nat) : IProg ε (VReader α) :=
  .op (.advance 0) fun (more : Bool) =>
    if more then .op (.current 0) fun (kv : Option Scalar × Option Val) =>
      match kv.2 with
      | none => .fail .panic
      | some x => (r.steps m ⟨[x], []⟩).bind fun re => .ret re.1
    else .ret r

/-- Give each value a reader. -/
def assign {α : Type} (rd : Nat → VReader α) (xs : List (Val × Option Nat)) : List (Party α) :=
  xs.mapIdx fun j p => ⟨rd j, ⟨[p.1], []⟩, p.2, true⟩

/-- The next value of the input is cloned, and then the original and the clones are cloned further as
the plan says.  The original (number 0) and the clones (1, 2, …) are given to readers, which take turns
as the schedule says.  The result is what is left of the readers. -/
def session {ε α : Type} (plan : List Nat) (rd : Nat → VReader α) (sched : List Turn) : IProg ε (List (VReader α)) :=
  .op (.advance 0) fun (more : Bool) =>
    if more then .op (.current 0) fun (kv : Option Scalar × Option Val) =>
      match kv.2 with
      | none => .fail .panic
      | some x => .op (.clone x) fun (y : Val × Option Nat) =>
        (cloneAll plan [(x, none), y]).bind fun xs =>
          (interleave sched (assign rd xs)).bind fun ps => .ret (ps.map Party.reader)
    else .ret []

theorem session_run {ε α : Type} {s : AState} {v : JVal} {rt} (hr : Root s ((none, v) :: rt)) (hw : WF s) (plan : List Nat)
    (rd res : Nat → VReader α) (sched : List Turn)
    (h : ∀ j < plan.length + 2, ∃ (out : List ε) (l : AState),
      (solo (rd j) (ownSteps j sched)).run AState.mach (init [v]) = (out, .ok (l, res j))) :
    ∃ s', (session plan rd sched : IProg ε _).run AState.mach s = ([], .ok (s', (List.range (plan.length + 2)).map res)) ∧
      Root s' rt ∧ WF s' := by
  obtain ⟨s1, x, e1, e2, e3, e4, e5, e6⟩ := hr.next hw
  have hn := hr.n
  obtain ⟨s2, y, f1, f2, f3⟩ := ready_first e4 e3 e5 (fun j hj => by have := e6 j hj; omega)
  obtain ⟨s3, xs, g1, g2, g3, g4⟩ := cloneAll_run (ε := ε) plan s2 _ (by simp) f2 f3
  obtain ⟨l, x0, k1, k2, k3, k4, k5, k6, k7, k8, k9⟩ := solo_open v
  obtain ⟨sl, m1, m2, m3⟩ := g3.group g4 k3 k4 k5 k6 k7 k8 k9
  have hlen : xs.length = plan.length + 2 := by rw [g2]; simp; omega
  have hps : assign rd xs = parties xs.length rd (fun j => xs[j]?.bind Prod.snd) (fun _ => true) sl := by
    apply List.ext_getElem
    · simp [assign, parties]
    · intro i h1 h2
      have hi : i < xs.length := by simpa [assign] using h1
      have hm := m2 i (xs[i]) (List.getElem?_eq_getElem hi)
      simp only [assign, parties, List.getElem_mapIdx, List.getElem_map, List.getElem_range]
      rw [(m1 i).2, List.getElem?_eq_getElem hi]
      simp [Env.ren, ← hm]
  obtain ⟨s4, ps, n1, n2, n3, n4⟩ := interleave_run (ε := ε) xs.length _ res sched s3 rd (fun _ => true) sl m3 g4
    (by
      intro j hj _
      obtain ⟨out, l', e⟩ := h j (by omega)
      unfold solo at e
      rw [arun_op k1] at e
      simp only [if_true] at e
      rw [arun_op k2] at e
      simp only [IProg.run_bind, seqRun] at e
      rw [(m1 j).1, (m1 j).2]
      cases hq : (((rd j).steps (ownSteps j sched) ⟨[x0], []⟩ : IProg ε _).run AState.mach l).2 with
      | error _ => rw [hq] at e; cases e
      | ok q =>
        obtain ⟨l2, r2, e2⟩ := q
        rw [hq] at e
        simp only [IProg.run_ret, Prod.mk.injEq, Except.ok.injEq] at e
        exact ⟨_, l2, e2, Prod.ext rfl (by rw [hq, e.2.2])⟩)
    (by intro j _ hc; cases hc)
  refine ⟨s4, ?_, n3, n2⟩
  unfold session
  rw [arun_op e1]
  simp only [if_true]
  rw [arun_op e2]
  simp only
  rw [arun_op f1, run_ok_bind g1, hps, run_ok_bind n1]
  simp [n4, hlen]

/-- C28, on the implementation: after any partial readings of the first `n` values, the next value `v` is
cloned, and the original and the clones are cloned further in any way.  Let any readers read them, taking
turns in any order and each abandoned at any time.  Then each gets exactly what it gets when it reads `v`
alone and uncloned, and the advance after that delivers the value behind `v`.  (The readers may use all
operations, cloning included; the operations they perform alone must be ones about which the
specification says that they return.) -/
theorem C28_independent {ε α : Type} (ls : Nat → Look) (vs : List JVal) (n : Nat) (v : JVal) (hv : vs[n]? = some v)
    (plan : List Nat) (rd res : Nat → VReader α) (sched : List Turn)
    (h : ∀ j < plan.length + 2, ∃ (out : List ε) (l : AState),
      (solo (rd j) (ownSteps j sched)).run AState.mach (init [v]) = (out, .ok (l, res j))) :
    (∀ j < plan.length + 2, ∃ (out : List ε) (hp : Heap),
      (solo (rd j) (ownSteps j sched)).run Heap.mach (Heap.init v.toks) = (out, .ok (hp, res j))) ∧
    ∃ hp, ((skim (fun n => (ls n).prog) n).bind fun _ => (session plan rd sched).bind fun rs =>
        nextValue.bind fun t => .ret (rs, t) : IProg ε _).run Heap.mach (Heap.init (streamToks vs)) =
      ([], .ok (hp, ((List.range (plan.length + 2)).map res, vs[n + 1]?.map JVal.toks))) := by
  refine ⟨?_, ?_⟩
  · intro j hj
    obtain ⟨out, l, e⟩ := h j hj
    obtain ⟨hp, e'⟩ := top_run e
    exact ⟨out, hp, by simpa using e'⟩
  · obtain ⟨s1, h1, r1, w1⟩ := skim_look (ε := ε) ls vs n
    have hd : vs.drop n = v :: vs.drop (n + 1) := by
      obtain ⟨hn, e⟩ := List.getElem?_eq_some_iff.1 hv
      rw [← e]; exact List.drop_eq_getElem_cons hn
    rw [hd] at r1
    obtain ⟨s2, h2, r2, w2⟩ := session_run (ε := ε) r1 w1 plan rd res sched h
    obtain ⟨s3, h3⟩ := nextValue_run (ε := ε) r2 w2
    refine top_run (s' := s3) ?_
    rw [run_ok_bind h1, run_ok_bind h2, run_ok_bind h3]
    simp

/-! ## Complete readings -/

/-- Read everything below register `r`, which holds what `view` shows; `n` is the number of registers.
`f` bounds the depth and the number of members. -/
def walk {α : Type} : Nat → Nat → View → Nat → (List Token → Nat → VReader α) → VReader α
  | 0, _, _, n, k => k [] n
  | f + 1, r, view, n, k =>
    let coll (kd : Kind) : VReader α :=
      members (fun n key w k => walk f n w (n + 1) fun ts n => k (key.toList.map .scalar ++ ts) n) r f [openTok kd] n
        fun ts n => .act (.elided r) fun
          | .bool e => k (ts ++ elisionToks e ++ endToks kd) n
          | _ => k [] n
    match view with
    | .none => k [] n
    | .scalar s => k [.scalar s] n
    | .arr => coll .arr
    | .obj => coll .obj
where
  /-- The loop over members. -/
  members (body : Nat → Option Scalar → View → (List Token → Nat → VReader α) → VReader α) (r : Nat) :
      Nat → List Token → Nat → (List Token → Nat → VReader α) → VReader α
    | 0, acc, n, k => k acc n
    | g + 1, acc, n, k => .act (.advance r) fun
      | .bool true => .act (.current r) fun
        | .member key w => body n key w fun ts n => members body r g (acc ++ ts) n k
        | _ => k acc n
      | _ => k acc n

/-- Reading a value completely, member by member; the result is its tokens as seen by the reader. -/
def walker (f : Nat) (view : View) : VReader (List Token) := walk f 0 view 1 fun ts _ => .ret ts

/-- A reader gets from here to there. -/
def Goes {α : Type} (l : AState) (r : VReader α) (env : Env) (l' : AState) (r' : VReader α) (env' : Env) : Prop :=
  ∃ m, ∀ ε : Type, (r.steps m env : IProg ε _).run AState.mach l = ([], .ok (l', (r', env')))

theorem steps_add {ε α : Type} : ∀ (m m' : Nat) (r : VReader α) (env : Env),
    (r.steps (m + m') env : IProg ε _) = (r.steps m env).bind fun re => re.1.steps m' re.2
  | 0, m', r, env => by simp [VReader.steps, IProg.bind]
  | m + 1, m', r, env => by
    rw [Nat.succ_add]
    simp only [VReader.steps, IProg.bind_assoc]
    congr 1
    funext re
    exact steps_add m m' re.1 re.2

theorem Goes.refl {α : Type} (l : AState) (r : VReader α) (env : Env) : Goes l r env l r env := ⟨0, fun _ => rfl⟩

theorem Goes.trans {α : Type} {l l' l'' : AState} {r r' r'' : VReader α} {env env' env'' : Env} (h : Goes l r env l' r' env')
    (h' : Goes l' r' env' l'' r'' env'') : Goes l r env l'' r'' env'' := by
  obtain ⟨m, h⟩ := h
  obtain ⟨m', h'⟩ := h'
  refine ⟨m + m', fun ε => ?_⟩
  rw [steps_add, run_ok_bind (h ε), h' ε]
  rfl

theorem Goes.act {α : Type} {l l' : AState} {o : ROp} {k : RRes → VReader α} {env env' : Env} {res : RRes}
    (h : ∀ ε : Type, (o.prog env : IProg ε _).run AState.mach l = ([], .ok (l', (res, env')))) :
    Goes l (.act o k) env l' (k res) env' := by
  refine ⟨1, fun ε => ?_⟩
  simp only [VReader.steps, VReader.step]
  rw [run_ok_bind (s' := l') (out := []) (a := (k res, env')) (by rw [run_ok_bind (h ε)]; rfl)]
  rfl

/-- Reading from register `r` everything of `v`. -/
def Reads (f : Nat) (v : JVal) : Prop :=
  ∀ (α : Type) (l : AState) (x : Val) (env : Env) (r : Nat) (k : List Token → Nat → VReader α), Links l → Fresh l x v →
    env.vals[r]? = some x →
    ∃ l' ys, Goes l (walk f r x.view env.vals.length k) env l' (k v.toks (env.vals.length + ys.length))
      { env with vals := env.vals ++ ys } ∧ Links l' ∧ Keep l.n x.idx l l'

theorem reads_members {α : Type} {f : Nat} {r i : Nat} {kd : Kind} (hk : kd ≠ .top) {e : Bool} {n0 : Nat} :
    ∀ (rest : List (Option Scalar × JVal)) (g : Nat) (l : AState) (env : Env) (acc : List Token)
      (k : List Token → Nat → VReader α), rest.length < g → Links l → Before l n0 i kd rest e → env.vals[r]? = some (.coll kd i) →
      (∀ m ∈ rest, Reads f m.2) →
      ∃ l' ys, Goes l (walk.members (fun n key w k => walk f n w (n + 1) fun ts n => k (key.toList.map .scalar ++ ts) n)
          r g acc env.vals.length k) env l' (k (acc ++ bodyToks rest) (env.vals.length + ys.length))
          { env with vals := env.vals ++ ys } ∧
        Links l' ∧ Keep n0 (some i) l l' ∧ i < l'.n ∧ (l'.coll i).elided = e := by
  intro rest
  induction rest with
  | nil =>
    intro g l env acc k hg hl hb hr _
    obtain ⟨g, rfl⟩ : ∃ g', g = g' + 1 := ⟨g - 1, by simp at hg; omega⟩
    obtain ⟨l', e1, e2, e3, e4, e5, e6, e7⟩ := adv_nil hl hb hk
    refine ⟨l', [], ?_, e2, e3, e4, e5⟩
    simp only [walk.members]
    have := Goes.act (o := .advance r) (l := l) (l' := l') (env := env) (env' := env) (res := .bool false)
      (k := fun res => match res with
        | .bool true => .act (.current r) fun res => match res with
          | .member key w => walk f env.vals.length w (env.vals.length + 1) fun ts n =>
              walk.members (fun n key w k => walk f n w (n + 1) fun ts n => k (key.toList.map .scalar ++ ts) n)
                r g (acc ++ (key.toList.map .scalar ++ ts)) n k
          | _ => k acc env.vals.length
        | _ => k acc env.vals.length)
      (fun ε => by simp only [ROp.prog, hr]; rw [arun_op e1]; rfl)
    simpa [bodyToks] using this
  | cons m rest ih =>
    intro g l env acc k hg hl hb hr hsub
    obtain ⟨key, v⟩ := m
    obtain ⟨g, rfl⟩ : ∃ g', g = g' + 1 := ⟨g - 1, by simp at hg; omega⟩
    obtain ⟨l1, x, e1, e2, e3, e4, e5, e6, e7, e8, e9⟩ := adv_cons hl hb
    have hx : some i ≠ x.idx := by
      intro e
      have := e8 i e.symm
      have := hb.lt
      omega
    have ec : l1.step (.current i) = .ok (l1, (key, some x)) := by rw [current_ok e3, e5, e6]
    obtain ⟨l2, ys, g1, g2, g3⟩ := hsub (key, v) (by simp) α l1 x { env with vals := env.vals ++ [x] } env.vals.length
      (fun ts n => walk.members (fun n key w k => walk f n w (n + 1) fun ts n => k (key.toList.map .scalar ++ ts) n)
        r g (acc ++ (key.toList.map .scalar ++ ts)) n k) e2 e7 (by simp)
    have hr2 : (env.vals ++ [x] ++ ys)[r]? = some (.coll kd i) := by
      have : r < env.vals.length := by
        rcases List.getElem?_eq_some_iff.1 hr with ⟨h, _⟩; exact h
      rw [List.append_assoc, List.getElem?_append_left this, hr]
    obtain ⟨l3, zs, k1, k2, k3, k4, k5⟩ := ih g l2 { env with vals := env.vals ++ [x] ++ ys }
      (acc ++ (key.toList.map .scalar ++ v.toks)) k (by simp at hg; omega) g2 (e3.keep g3 e3.lt hx) hr2
      (fun m hm => hsub m (by simp [hm]))
    refine ⟨l3, x :: (ys ++ zs), ?_, k2, (e4.trans (g3.weaken e3.base ?_)).trans k3, k4, k5⟩
    · simp only [walk.members]
      refine Goes.trans (Goes.act (res := .bool true) (env' := env) (l' := l1)
        (fun ε => by simp only [ROp.prog, hr]; rw [arun_op e1]; rfl)) ?_
      refine Goes.trans (Goes.act (res := .member key x.view) (env' := { env with vals := env.vals ++ [x] }) (l' := l1)
        (fun ε => by simp only [ROp.prog, hr]; rw [arun_op ec]; rfl)) ?_
      simp only [List.length_append, List.length_cons, List.length_nil] at g1
      refine Goes.trans g1 ?_
      simp only [List.length_append, List.length_cons, List.length_nil] at k1
      have hbt : acc ++ (key.toList.map Token.scalar ++ v.toks) ++ bodyToks rest = acc ++ bodyToks ((key, v) :: rest) := by
        cases key <;> simp [bodyToks]
      rw [hbt] at k1
      have hlen : env.vals.length + (0 + 1) + ys.length + zs.length = env.vals.length + (x :: (ys ++ zs)).length := by
        simp; omega
      have happ : env.vals ++ [x] ++ ys ++ zs = env.vals ++ x :: (ys ++ zs) := by simp
      rw [hlen, happ] at k1
      exact k1
    · intro j e
      have := e8 j e
      have := hb.base
      omega

theorem reads_all : ∀ (f : Nat) (v : JVal), v.toks.length < f → Reads f v := by
  intro f
  induction f with
  | zero => intro v hv; omega
  | succ f ih =>
    intro v hv α l x env r k hl hf hr
    have body : ∀ (kd : Kind) (i : Nat), x = .coll kd i → kd = .arr ∨ kd = .obj →
        v.toks = openTok kd :: (bodyToks v.members ++ elisionToks v.elision ++ endToks kd) →
        v.members.length < f → (∀ m ∈ v.members, m.2.toks.length < f) →
        ∃ l' ys, Goes l (walk (f + 1) r x.view env.vals.length k) env l' (k v.toks (env.vals.length + ys.length))
          { env with vals := env.vals ++ ys } ∧ Links l' ∧ Keep l.n x.idx l l' := by
      intro kd i hx hkd hts hlen hsub
      have hk : kd ≠ .top := by rcases hkd with rfl | rfl <;> simp
      obtain ⟨-, hb⟩ := hf.before hx
      rw [hx] at hr
      obtain ⟨l1, ys, e1, e2, e3, e4, e5⟩ := reads_members (f := f) (r := r) hk v.members f l env [openTok kd]
        (fun ts n => .act (.elided r) fun
          | .bool e => k (ts ++ elisionToks e ++ endToks kd) n
          | _ => k [] n) hlen hl hb hr (fun m hm => ih m.2 (hsub m hm))
      have hr2 : (env.vals ++ ys)[r]? = some (.coll kd i) := by
        have : r < env.vals.length := by
          rcases List.getElem?_eq_some_iff.1 hr with ⟨h, _⟩; exact h
        rw [List.getElem?_append_left this, hr]
      refine ⟨l1, ys, ?_, e2, by rw [hx]; exact e3⟩
      have e6 : Goes l1 (.act (.elided r) fun
          | .bool e => k ([openTok kd] ++ bodyToks v.members ++ elisionToks e ++ endToks kd) (env.vals.length + ys.length)
          | _ => k [] (env.vals.length + ys.length)) { env with vals := env.vals ++ ys } l1
          (k v.toks (env.vals.length + ys.length)) { env with vals := env.vals ++ ys } := by
        have := Goes.act (o := .elided r) (l := l1) (l' := l1) (env := { env with vals := env.vals ++ ys })
          (env' := { env with vals := env.vals ++ ys }) (res := .bool v.elision) (k := fun res => match res with
          | .bool e => k ([openTok kd] ++ bodyToks v.members ++ elisionToks e ++ endToks kd) (env.vals.length + ys.length)
          | _ => k [] (env.vals.length + ys.length))
          (fun ε => by simp only [ROp.prog, hr2]; rw [arun_op (elided_ok e4 e5)]; rfl)
        rw [hts]
        simpa using this
      rcases hkd with rfl | rfl
      · simp only [hx, Val.view, walk]; exact e1.trans e6
      · simp only [hx, Val.view, walk]; exact e1.trans e6
    cases v with
    | scalar sc =>
      have hx : x = .scalar sc := hf
      subst hx
      refine ⟨l, [], ?_, hl, Keep.refl _ _ _⟩
      simp only [Val.view, walk, List.append_nil]
      exact Goes.refl _ _ _
    | arr items e =>
      obtain ⟨i, t, h1, h⟩ := id hf
      have hb := itemToks_bound items
      have hv' := hv
      simp only [JVal.toks, List.length_append, List.length_cons] at hv'
      refine body .arr i h1 (Or.inl rfl) ?_ ?_ ?_
      · simp [JVal.members, bodyToks_items, openTok, endToks, JVal.elision, JVal.toks]
      · simp [JVal.members]; simp at hv'; omega
      · intro m hm
        simp only [JVal.members, List.mem_map] at hm
        obtain ⟨w, hw, rfl⟩ := hm
        have := hb.2 w hw; simp at hv' ⊢; omega
    | obj ms e =>
      obtain ⟨i, t, h1, h⟩ := id hf
      have hb := memberToks_bound ms
      have hv' := hv
      simp only [JVal.toks, List.length_append, List.length_cons] at hv'
      refine body .obj i h1 (Or.inr rfl) ?_ ?_ ?_
      · simp [JVal.members, bodyToks_members, openTok, endToks, JVal.elision, JVal.toks]
      · simp [JVal.members]; simp at hv'; omega
      · intro m hm
        simp only [JVal.members, List.mem_map] at hm
        obtain ⟨w, hw, rfl⟩ := hm
        have := hb.2 w hw; simp at hv' ⊢; omega

/-- What a reader sees of a value before reading it. -/
def JVal.view : JVal → View
  | .scalar s => .scalar s
  | .arr _ _ => .arr
  | .obj _ _ => .obj

theorem solo_ok {ε α : Type} {l : AState} {x : Val} {r : VReader α} {v : JVal} {m : Nat} {l' : AState} {r' : VReader α} {env' : Env}
    (h1 : (init [v]).step (.advance 0) = .ok (l, true)) (h2 : l.step (.current 0) = .ok (l, (none, some x)))
    (h : (r.steps m ⟨[x], []⟩ : IProg ε _).run AState.mach l = ([], .ok (l', (r', env')))) :
    (solo r m : IProg ε _).run AState.mach (init [v]) = ([], .ok (l', r')) := by
  unfold solo
  rw [arun_op h1]
  simp only [if_true]
  rw [arun_op h2]
  simp only
  rw [run_ok_bind h]
  rfl

theorem steps_ret {ε α : Type} (a : α) (env : Env) : ∀ (m : Nat) (l : AState),
    ((VReader.ret a).steps m env : IProg ε _).run AState.mach l = ([], .ok (l, (.ret a, env)))
  | 0, _ => rfl
  | m + 1, l => by
    simp only [VReader.steps, VReader.step, IProg.bind]
    exact steps_ret a env m l

theorem steps_prefix {ε α : Type} {l l' : AState} {r r' : VReader α} {env env' : Env} {m m' : Nat}
    (h : (r.steps (m + m') env : IProg ε _).run AState.mach l = ([], .ok (l', (r', env')))) :
    ∃ l1 r1 e1, (r.steps m env : IProg ε _).run AState.mach l = ([], .ok (l1, (r1, e1))) := by
  rw [steps_add, IProg.run_bind, seqRun] at h
  cases hr : ((r.steps m env : IProg ε _).run AState.mach l).2 with
  | error e => rw [hr] at h; simp at h
  | ok q =>
    obtain ⟨l1, r1, e1⟩ := q
    rw [hr] at h
    simp only [Prod.mk.injEq, List.append_eq_nil_iff] at h
    exact ⟨l1, r1, e1, Prod.ext h.1.1 hr⟩

/-- Alone, a complete reading gives the tokens of the value. -/
theorem walker_alone (v : JVal) (f : Nat) (hf : v.toks.length < f) : ∃ m0 : Nat, ∀ (ε : Type) (m : Nat), ∃ l r,
    (solo (walker f v.view) m : IProg ε _).run AState.mach (init [v]) = ([], .ok (l, r)) ∧ (m0 ≤ m → r = .ret v.toks) := by
  obtain ⟨l, x, e1, e2, e3, e4, e5, e6⟩ := (root_init [v]).next (wf_init [v])
  have hview : x.view = v.view := by
    cases v with
    | scalar k => have h : x = .scalar k := e5; rw [h]; rfl
    | arr items e => obtain ⟨i, t, h, _⟩ := e5; rw [h]; rfl
    | obj ms e => obtain ⟨i, t, h, _⟩ := e5; rw [h]; rfl
  obtain ⟨l', ys, ⟨m0, h⟩, _⟩ := reads_all f v hf (List Token) l x ⟨[x], []⟩ 0 (fun ts _ => .ret ts) e4.links e5 rfl
  refine ⟨m0, fun ε m => ?_⟩
  have h : ((walker f v.view).steps m0 ⟨[x], []⟩ : IProg ε _).run AState.mach l =
      ([], .ok (l', (.ret v.toks, ⟨[x] ++ ys, []⟩))) := by
    have h := h ε
    rw [hview] at h
    exact h
  by_cases hm : m0 ≤ m
  · refine ⟨l', .ret v.toks, ?_, fun _ => rfl⟩
    obtain ⟨d, rfl⟩ := Nat.le.dest hm
    refine solo_ok (env' := ⟨[x] ++ ys, []⟩) e1 e2 ?_
    rw [steps_add]
    rw [run_ok_bind (a := (VReader.ret v.toks, (⟨[x] ++ ys, []⟩ : Env))) h, steps_ret]
    rfl
  · obtain ⟨d, rfl⟩ := Nat.le.dest (Nat.le_of_lt (Nat.lt_of_not_le hm))
    obtain ⟨l1, r1, en, h'⟩ := steps_prefix h
    exact ⟨l1, r1, solo_ok e1 e2 h', fun h => absurd h hm⟩

/-- C28, on the implementation, without assumptions: when the original and the clones, clones of clones
included, are read completely, in any interleaving, then each reader that is not abandoned before it is
ready has got the complete value, and the enclosing stream is in step. -/
theorem C28_complete {ε : Type} (ls : Nat → Look) (vs : List JVal) (n : Nat) (v : JVal) (hv : vs[n]? = some v) (f : Nat)
    (hf : v.toks.length < f) : ∃ m0 : Nat, ∀ (plan : List Nat) (sched : List Turn), ∃ hp, ∃ res : Nat → VReader (List Token),
    ((skim (fun n => (ls n).prog) n).bind fun _ => (session plan (fun _ => walker f v.view) sched).bind fun rs =>
        nextValue.bind fun t => .ret (rs, t) : IProg ε _).run Heap.mach (Heap.init (streamToks vs)) =
      ([], .ok (hp, ((List.range (plan.length + 2)).map res, vs[n + 1]?.map JVal.toks))) ∧
    ∀ j, m0 ≤ ownSteps j sched → res j = .ret v.toks := by
  obtain ⟨m0, h⟩ := walker_alone v f hf
  refine ⟨m0, fun plan sched => ?_⟩
  have hc : ∃ res : Nat → VReader (List Token), ∀ j, (∃ l, (solo (walker f v.view) (ownSteps j sched) : IProg ε _).run AState.mach
      (init [v]) = ([], .ok (l, res j))) ∧ (m0 ≤ ownSteps j sched → res j = .ret v.toks) := by
    refine ⟨fun j => Classical.choose (Classical.choose_spec (h ε (ownSteps j sched))), fun j => ?_⟩
    have := Classical.choose_spec (Classical.choose_spec (h ε (ownSteps j sched)))
    exact ⟨⟨_, this.1⟩, this.2⟩
  obtain ⟨res, hc⟩ := hc
  obtain ⟨-, hp, e⟩ := C28_independent (ε := ε) ls vs n v hv plan (fun _ => walker f v.view) res sched
    (fun j _ => ⟨[], (hc j).1⟩)
  exact ⟨hp, res, e, fun j => (hc j).2⟩

section NonVacuity

private def num (b : Bytes) : Scalar := ⟨b, .num, false, false, false⟩

private def doc : JVal := .arr [.scalar (num b%"1"), .arr [.scalar (num b%"2")] false] false

/-- Original, clone, and a clone of the clone; the original is read in pieces between the others, the
first clone is abandoned half way through. -/
private def sched1 : List Turn :=
  [.step 0, .step 1, .step 1, .step 2, .step 0, .step 1, .drop 1, .step 0, .step 1, .step 0] ++
  (List.replicate 15 (.step 2)) ++ (List.replicate 15 (.step 0))

private def finished : VReader (List Token) → Option (List Token)
  | .ret ts => some ts
  | .act _ _ => none

example : (match ((session [1] (fun _ => walker 20 doc.view) sched1).bind fun rs => nextValue.bind fun t => .ret (rs, t) :
      IProg Token _).run Heap.mach (Heap.init (streamToks [doc, .scalar (num b%"3")])) with
    | (_, .ok (_, (rs, t))) => some (rs.map finished, t)
    | _ => none) = some ([some doc.toks, none, some doc.toks], some [.scalar (num b%"3")]) := by
  rfl

end NonVacuity

end Verif
