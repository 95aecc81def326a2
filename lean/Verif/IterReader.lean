import Verif.IterRoot

/-!
# Readers that cannot forge references

A reader is a program that works on a value through registers: it names the values it was given and
those it got from them, and sees scalars, kinds and tokens, but not where a collection lives.  The
main result is that readers of different clones do not notice each other: in any interleaving each
behaves as if it were alone.
-/

set_option linter.unusedSimpArgs false
set_option linter.unusedVariables false

namespace Verif
open AState

/-- What can be seen of a value without reading it. -/
inductive View
  | none
  | scalar (s : Scalar)
  | arr
  | obj
deriving DecidableEq

/-- The view of a value. -/
def Val.view : Val → View
  | .scalar s => .scalar s
  | .coll .arr _ => .arr
  | .coll .obj _ => .obj
  | .coll .top _ => .none

/-- Operations of readers; numbers are registers.  `current` puts the current value into a new register,
`clone` the clone, and its detach function into a new register for those. -/
inductive ROp
  | advance (r : Nat)
  | current (r : Nat)
  | elided (r : Nat)
  | clone (r : Nat)
  | discard (r : Nat)
  | copy (r : Nat)
  | detach (d : Nat)

/-- What a reader sees of the result. -/
inductive RRes
  | unit
  | bool (b : Bool)
  | member (k : Option Scalar) (v : View)
  | toks (ts : List Token)

/-- Readers. -/
inductive VReader (α : Type)
  | ret (a : α)
  | act (o : ROp) (k : RRes → VReader α)

/-- Registers. -/
structure Env where
  vals : List Val
  dets : List (Option Nat)

/-- One operation.  Operations on scalars that exist only for collections, and on empty registers, do
nothing. -/
def ROp.prog {ε : Type} (o : ROp) (env : Env) : IProg ε (RRes × Env) :=
  match o with
  | .advance r =>
    match env.vals[r]? with
    | some (.coll _ i) => .op (.advance i) fun (b : Bool) => .ret (.bool b, env)
    | _ => .ret (.unit, env)
  | .current r =>
    match env.vals[r]? with
    | some (.coll _ i) => .op (.current i) fun (kv : Option Scalar × Option Val) =>
      .ret (.member kv.1 ((kv.2.map Val.view).getD .none), { env with vals := env.vals ++ kv.2.toList })
    | _ => .ret (.unit, env)
  | .elided r =>
    match env.vals[r]? with
    | some (.coll _ i) => .op (.elided i) fun (b : Bool) => .ret (.bool b, env)
    | _ => .ret (.unit, env)
  | .clone r =>
    match env.vals[r]? with
    | some v => .op (.clone v) fun (y : Val × Option Nat) => .ret (.unit, ⟨env.vals ++ [y.1], env.dets ++ [y.2]⟩)
    | none => .ret (.unit, env)
  | .discard r =>
    match env.vals[r]? with
    | some v => .op (.discard v) fun _ => .ret (.unit, env)
    | none => .ret (.unit, env)
  | .copy r =>
    match env.vals[r]? with
    | some v => .op (.copy v) fun (ts : List Token) => .ret (.toks ts, env)
    | none => .ret (.unit, env)
  | .detach d =>
    match env.dets[d]? with
    | some (some t) => .op (.detach t) fun _ => .ret (.unit, env)
    | _ => .ret (.unit, env)

/-- One step of a reader; a reader that has ended stays as it is. -/
def VReader.step {ε α : Type} : VReader α → Env → IProg ε (VReader α × Env)
  | .ret a, env => .ret (.ret a, env)
  | .act o k, env => (o.prog env).bind fun re => .ret (k re.1, re.2)

/-- Several steps. -/
def VReader.steps {ε α : Type} : Nat → VReader α → Env → IProg ε (VReader α × Env)
  | 0, r, env => .ret (r, env)
  | n + 1, r, env => (r.step env).bind fun re => VReader.steps n re.1 re.2

/-- What happens next in a schedule: a reader makes a step, or a reader is abandoned, by calling the
detach function of the clone it reads if there is one. -/
inductive Turn
  | step (j : Nat)
  | drop (j : Nat)

/-- A reader with its registers, the detach function of what it reads, and whether it is still in use. -/
structure Party (α : Type) where
  reader : VReader α
  env : Env
  det : Option Nat
  live : Bool

/-- Calling a detach function. -/
def dropDet {ε : Type} : Option Nat → IProg ε Unit
  | none => .ret ()
  | some t => .op (.detach t) fun _ => .ret ()

/-- Readers taking turns as the schedule says. -/
def interleave {ε α : Type} : List Turn → List (Party α) → IProg ε (List (Party α))
  | [], ps => .ret ps
  | .step j :: sched, ps =>
    match ps[j]? with
    | none => interleave sched ps
    | some p =>
      if p.live then
        (p.reader.step p.env).bind fun re => interleave sched (ps.set j { p with reader := re.1, env := re.2 })
      else interleave sched ps
  | .drop j :: sched, ps =>
    match ps[j]? with
    | none => interleave sched ps
    | some p =>
      if p.live then (dropDet p.det).bind fun _ => interleave sched (ps.set j { p with live := false })
      else interleave sched ps

/-- The number of steps of reader `j` in a schedule. -/
def ownSteps (j : Nat) : List Turn → Nat
  | [] => 0
  | .step i :: ts => if i = j then ownSteps j ts + 1 else ownSteps j ts
  | .drop i :: ts => if i = j then 0 else ownSteps j ts

/-! ## Renaming -/

def Val.ren (ρ : Nat → Nat) : Val → Val
  | .scalar s => .scalar s
  | .coll k i => .coll k (ρ i)

@[simp] theorem Val.view_ren (ρ : Nat → Nat) (v : Val) : (v.ren ρ).view = v.view := by
  cases v with
  | scalar s => rfl
  | coll k i => cases k <;> rfl

def AColl.ren (ρ τ : Nat → Nat) (c : AColl) : AColl := { c with thr := τ c.thr, cur := c.cur.map (Val.ren ρ) }

def Env.ren (ρ τ : Nat → Nat) (env : Env) : Env := ⟨env.vals.map (Val.ren ρ), env.dets.map (Option.map τ)⟩

/-- The handles of `l` except number 0, and its threads, are found in `s` under other numbers. -/
structure Emb (ρ τ : Nat → Nat) (l s : AState) : Prop where
  lt : ∀ i, 0 < i → i < l.n → ρ i < s.n
  inj : ∀ i j, 0 < i → i < l.n → 0 < j → j < l.n → ρ i = ρ j → i = j
  coll : ∀ i, 0 < i → i < l.n → s.coll (ρ i) = (l.coll i).ren ρ τ
  kind : ∀ i, 0 < i → i < l.n → (l.coll i).kind ≠ .top
  n : 0 < l.n
  sn : 0 < s.n
  pos : ∀ i, 0 < i → i < l.n → 0 < ρ i
  nt : 0 < l.nt
  det0 : l.det 0 = false
  detnew : ∀ t, l.nt ≤ t → l.det t = false
  tlt : ∀ t < l.nt, τ t < s.nt
  tpos : ∀ t < l.nt, (1 < l.n ∨ l.det t = true) → τ t ≠ 0
  dead : ∀ t < l.nt, s.dead (τ t) = l.dead t
  det : ∀ t < l.nt, l.det t = true → s.det (τ t) = true
  tinj : ∀ t < l.nt, l.det t = true → ∀ u < l.nt, τ u = τ t → u = t

/-- What a step changes, seen from outside the embedded part. -/
structure Outside (ρ τ ρ' τ' : Nat → Nat) (l l' s s' : AState) : Prop where
  ln : l.n ≤ l'.n
  lnt : l.nt ≤ l'.nt
  sn : s.n ≤ s'.n
  snt : s.nt ≤ s'.nt
  hρ : ∀ i < l.n, ρ' i = ρ i
  hτ : ∀ t < l.nt, τ' t = τ t
  newh : ∀ i, l.n ≤ i → i < l'.n → s.n ≤ ρ' i
  newt : ∀ t, l.nt ≤ t → t < l'.nt → s.nt ≤ τ' t ∨ (τ' t = τ 0 ∧ l'.det t = false)
  coll : ∀ j < s.n, (∀ i, 0 < i → i < l.n → ρ i ≠ j) → s'.coll j = s.coll j
  dead : ∀ u < s.nt, s'.dead u = s.dead u ∨ ∃ t < l.nt, l.det t = true ∧ τ t = u
  sdet : ∀ u < s.nt, s'.det u = s.det u
  ldet : ∀ t < l.nt, l'.det t = l.det t

theorem Outside.refl (ρ τ : Nat → Nat) (l s : AState) : Outside ρ τ ρ τ l l s s :=
  ⟨Nat.le_refl _, Nat.le_refl _, Nat.le_refl _, Nat.le_refl _, fun _ _ => rfl, fun _ _ => rfl, (by omega), (by omega),
    fun _ _ _ => rfl, fun _ _ => Or.inl rfl, fun _ _ => rfl, fun _ _ => rfl⟩

theorem Outside.trans {ρ τ ρ' τ' ρ'' τ'' : Nat → Nat} {l l' l'' s s' s'' : AState}
    (h0 : 0 < l.nt) (h : Outside ρ τ ρ' τ' l l' s s') (h' : Outside ρ' τ' ρ'' τ'' l' l'' s' s'') :
    Outside ρ τ ρ'' τ'' l l'' s s'' := by
  have a1 := h.ln; have a2 := h'.ln; have a3 := h.lnt; have a4 := h'.lnt
  have a5 := h.sn; have a6 := h'.sn; have a7 := h.snt; have a8 := h'.snt
  refine ⟨by omega, by omega, by omega, by omega, ?_, ?_, ?_, ?_, ?_, ?_, ?_, ?_⟩
  · intro i hi; rw [h'.hρ i (by omega), h.hρ i hi]
  · intro i hi; rw [h'.hτ i (by omega), h.hτ i hi]
  · intro i h1 h2
    by_cases hi : i < l'.n
    · rw [h'.hρ i hi]; exact h.newh i h1 hi
    · have := h'.newh i (by omega) h2; omega
  · intro t h1 h2
    by_cases ht : t < l'.nt
    · rw [h'.hτ t ht, h'.ldet t ht]; exact h.newt t h1 ht
    · rcases h'.newt t (by omega) h2 with g | ⟨g1, g2⟩
      · left; omega
      · right; rw [g1, h.hτ 0 h0]; exact ⟨rfl, g2⟩
  · intro j hj hn
    rw [h'.coll j (by omega), h.coll j hj hn]
    intro i h1 h2 e
    by_cases hi : i < l.n
    · exact hn i h1 hi (by rw [← h.hρ i hi]; exact e)
    · have := h.newh i (by omega) h2; omega
  · intro u hu
    rcases h'.dead u (by omega) with g | ⟨t, g1, g2, g3⟩
    · rw [g]; exact h.dead u hu
    · by_cases ht : t < l.nt
      · right; exact ⟨t, ht, by rw [← h.ldet t ht]; exact g2, by rw [← h.hτ t ht]; exact g3⟩
      · rcases h.newt t (by omega) g1 with g | ⟨_, g⟩
        · omega
        · rw [g] at g2; cases g2
  · intro u hu; rw [h'.sdet u (by omega), h.sdet u hu]
  · intro t ht; rw [h'.ldet t (by omega), h.ldet t ht]

section
variable {ρ τ : Nat → Nat} {l s : AState}

theorem AColl.ren_congr {ρ ρ' τ τ' : Nat → Nat} {c : AColl} (h1 : τ' c.thr = τ c.thr)
    (h2 : ∀ k j, c.cur = some (.coll k j) → ρ' j = ρ j) : c.ren ρ' τ' = c.ren ρ τ := by
  unfold AColl.ren
  rw [h1]
  congr 1
  cases hc : c.cur with
  | none => rfl
  | some v =>
    cases v with
    | scalar _ => rfl
    | coll k j => simp [Val.ren, h2 k j hc]

/-- Change one handle. -/
theorem Emb.set (E : Emb ρ τ l s) {i : Nat} (h0 : 0 < i) (hi : i < l.n) (c : AColl) (hk : c.kind ≠ .top) :
    Emb ρ τ (l.set i c) (s.set (ρ i) (c.ren ρ τ)) ∧ Outside ρ τ ρ τ l (l.set i c) s (s.set (ρ i) (c.ren ρ τ)) := by
  refine ⟨⟨E.lt, E.inj, ?_, ?_, E.n, E.sn, E.pos, E.nt, E.det0, E.detnew, E.tlt, E.tpos, E.dead, E.det, E.tinj⟩, ?_⟩
  · intro j h1 h2
    by_cases e : j = i
    · subst e; rw [set_same, set_same]
    · rw [set_ne _ _ e, set_ne _ _ (fun e' => e (E.inj j i h1 h2 h0 hi e'))]
      exact E.coll j h1 h2
  · intro j h1 h2
    by_cases e : j = i
    · subst e; rw [set_same]; exact hk
    · rw [set_ne _ _ e]; exact E.kind j h1 h2
  · refine ⟨Nat.le_refl _, Nat.le_refl _, Nat.le_refl _, Nat.le_refl _, fun _ _ => rfl, fun _ _ => rfl, ?_, ?_, ?_,
      fun _ _ => Or.inl rfl, fun _ _ => rfl, fun _ _ => rfl⟩
    · intro j h1 h2; have h2 : j < l.n := h2; omega
    · intro j h1 h2; have h2 : j < l.nt := h2; omega
    · intro j hj hn
      exact set_ne _ _ (fun e => hn i h0 hi e.symm)

def ext (f : Nat → Nat) (a b : Nat) : Nat → Nat := fun i => if i = a then b else f i

@[simp] theorem ext_same (f : Nat → Nat) (a b : Nat) : ext f a b a = b := by simp [ext]
theorem ext_ne (f : Nat → Nat) {a b i : Nat} (h : i ≠ a) : ext f a b i = f i := by simp [ext, h]

/-- A new handle. -/
theorem Emb.alloc (E : Emb ρ τ l s) (wl : WF l) (h1l : 1 < l.n) (c : AColl) (hk : c.kind ≠ .top) (hc : c.cur = none) :
    Emb (ext ρ l.n s.n) τ (l.alloc c) (s.alloc (c.ren ρ τ)) ∧
      Outside ρ τ (ext ρ l.n s.n) τ l (l.alloc c) s (s.alloc (c.ren ρ τ)) := by
  have hlt : ∀ i, i < (l.alloc c).n → i ≠ l.n → i < l.n := fun i h1 h2 => by
    have h1 : i < l.n + 1 := h1
    omega
  have hren : c.ren (ext ρ l.n s.n) τ = c.ren ρ τ := AColl.ren_congr rfl (by rw [hc]; simp)
  refine ⟨⟨?_, ?_, ?_, ?_, Nat.succ_pos _, Nat.succ_pos _, ?_, E.nt, E.det0, E.detnew, E.tlt, (fun t ht _ => E.tpos t ht (Or.inl h1l)), E.dead, E.det, E.tinj⟩, ?_⟩
  · intro i h0 hi
    show _ < s.n + 1
    by_cases e : i = l.n
    · subst e; simp
    · rw [ext_ne _ e]; have := E.lt i h0 (hlt i hi e); omega
  · intro i j h0 hi h0' hj e
    by_cases e1 : i = l.n <;> by_cases e2 : j = l.n
    · omega
    · rw [e1, ext_same, ext_ne _ e2] at e
      have := E.lt j h0' (hlt j hj e2); omega
    · rw [e2, ext_same, ext_ne _ e1] at e
      have := E.lt i h0 (hlt i hi e1); omega
    · rw [ext_ne _ e1, ext_ne _ e2] at e
      exact E.inj i j h0 (hlt i hi e1) h0' (hlt j hj e2) e
  · intro i h0 hi
    by_cases e : i = l.n
    · subst e; rw [ext_same, AInv.alloc_new, AInv.alloc_new, hren]
    · have hi' := hlt i hi e
      rw [ext_ne _ e, AInv.alloc_old hi', AInv.alloc_old (E.lt i h0 hi'), E.coll i h0 hi']
      refine (AColl.ren_congr rfl ?_).symm
      intro k j hj
      have := wl.links i hi' k j hj
      exact ext_ne _ (by omega)
  · intro i h0 hi
    by_cases e : i = l.n
    · subst e; rw [AInv.alloc_new]; exact hk
    · have hi' := hlt i hi e
      rw [AInv.alloc_old hi']; exact E.kind i h0 hi'
  · intro i h0 hi
    by_cases e : i = l.n
    · subst e; rw [ext_same]; exact E.sn
    · rw [ext_ne _ e]; exact E.pos i h0 (hlt i hi e)
  · refine ⟨Nat.le_succ _, Nat.le_refl _, Nat.le_succ _, Nat.le_refl _, ?_, fun _ _ => rfl, ?_, ?_, ?_,
      fun _ _ => Or.inl rfl, fun _ _ => rfl, fun _ _ => rfl⟩
    · intro i hi; exact ext_ne _ (by omega)
    · intro i h1 h2
      have h2 : i < l.n + 1 := h2
      have : i = l.n := by omega
      subst this; simp
    · intro t h1 h2; have h2 : t < l.nt := h2; omega
    · intro j hj _; exact AInv.alloc_old hj

/-- Discarding. -/
theorem Emb.discard : ∀ (f g : Nat) {l s : AState} {i : Nat} (k : Kind), Emb ρ τ l s → WF l → WF s → 0 < i → i < l.n →
    l.n < f + i → s.n < g + ρ i →
    Emb ρ τ (AState.discard f l (.coll k i)) (AState.discard g s (.coll k (ρ i))) ∧
      Outside ρ τ ρ τ l (AState.discard f l (.coll k i)) s (AState.discard g s (.coll k (ρ i))) := by
  intro f
  induction f with
  | zero => intro g l s i k E wl ws h0 hi hf; omega
  | succ f ih =>
    intro g l s i k E wl ws h0 hi hf hg
    have hρ := E.lt i h0 hi
    obtain ⟨g, rfl⟩ : ∃ g', g = g' + 1 := ⟨g - 1, by omega⟩
    simp only [AState.discard]
    have hc := E.coll i h0 hi
    have hd : (s.coll (ρ i)).done = (l.coll i).done := by rw [hc]; rfl
    have hcur : (s.coll (ρ i)).cur = (l.coll i).cur.map (Val.ren ρ) := by rw [hc]; rfl
    rw [hd]
    split
    · exact ⟨E, Outside.refl _ _ _ _⟩
    · cases hcl : (l.coll i).cur with
      | none =>
        rw [hcl] at hcur
        simp only [hcur, Option.map_none]
        have := E.set h0 hi { l.coll i with done := true } (E.kind i h0 hi)
        have e : ({ l.coll i with done := true } : AColl).ren ρ τ = { s.coll (ρ i) with done := true } := by
          rw [hc]; rfl
        rw [e] at this
        have q : ({ s.coll (ρ i) with cur := none, done := true } : AColl) = { s.coll (ρ i) with done := true } := by
          have : (s.coll (ρ i)).cur = none := hcur
          cases hx : s.coll (ρ i); rw [hx] at this; simp at this; simp [this]
        have q2 : ({ l.coll i with cur := none, done := true } : AColl) = { l.coll i with done := true } := by
          cases hx : l.coll i; rw [hx] at hcl; simp at hcl; simp [hcl]
        simpa [hcl, hcur] using this
      | some v =>
        rw [hcl] at hcur
        simp only [hcur, Option.map_some]
        have key : ∀ l1 s1 : AState, Emb ρ τ l1 s1 → Outside ρ τ ρ τ l l1 s s1 → l1.n = l.n → (l1.coll i).kind ≠ .top →
            Emb ρ τ (l1.set i { l1.coll i with done := true }) (s1.set (ρ i) { s1.coll (ρ i) with done := true }) ∧
            Outside ρ τ ρ τ l (l1.set i { l1.coll i with done := true }) s
              (s1.set (ρ i) { s1.coll (ρ i) with done := true }) := by
          intro l1 s1 E1 O1 hn hk
          have := E1.set h0 (by omega) { l1.coll i with done := true } hk
          have e : ({ l1.coll i with done := true } : AColl).ren ρ τ = { s1.coll (ρ i) with done := true } := by
            rw [E1.coll i h0 (by omega)]; rfl
          rw [e] at this
          exact ⟨this.1, O1.trans E.nt this.2⟩
        cases v with
        | scalar x =>
          have z1 : AState.discard f l (.scalar x) = l := by cases f <;> rfl
          have z2 : AState.discard g s (Val.ren ρ (.scalar x)) = s := by cases g <;> rfl
          rw [z1, z2]
          exact key l s E (Outside.refl _ _ _ _) rfl (E.kind i h0 hi)
        | coll k' j =>
          obtain ⟨j1, j2⟩ := wl.links i hi k' j hcl
          have j3 := ws.links (ρ i) hρ k' (ρ j) (by rw [hcur]; rfl)
          obtain ⟨E1, O1⟩ := ih g k' E wl ws (by omega) j2 (by omega) (by omega)
          have hk := discard_keep f l (.coll k' j)
          exact key _ _ E1 O1 hk.1 (by rw [(discard_frame f l (.coll k' j) i).2.2.2.1]; exact E.kind i h0 hi)


/-- Finishing the current value. -/
theorem Emb.discardCur (E : Emb ρ τ l s) (wl : WF l) (ws : WF s) {i : Nat} (h0 : 0 < i) (hi : i < l.n) :
    Emb ρ τ (l.discardCur i) (s.discardCur (ρ i)) ∧ Outside ρ τ ρ τ l (l.discardCur i) s (s.discardCur (ρ i)) := by
  have hcur : (s.coll (ρ i)).cur = (l.coll i).cur.map (Val.ren ρ) := by rw [E.coll i h0 hi]; rfl
  unfold AState.discardCur
  rw [hcur]
  cases hc : (l.coll i).cur with
  | none => exact ⟨E, Outside.refl _ _ _ _⟩
  | some v =>
    cases v with
    | scalar x =>
      have z1 : AState.discard l.n l (.scalar x) = l := by cases l.n <;> rfl
      have z2 : AState.discard s.n s (.scalar x) = s := by cases s.n <;> rfl
      simp only [Option.map_some, Val.ren, z1, z2]
      exact ⟨E, Outside.refl _ _ _ _⟩
    | coll k j =>
      obtain ⟨j1, j2⟩ := wl.links i hi k j hc
      have := E.pos j (by omega) j2
      exact E.discard _ _ k wl ws (by omega) j2 (by omega) (by omega)

/-- A fresh handle on a member. -/
theorem Emb.handle (E : Emb ρ τ l s) (wl : WF l) (h1l : 1 < l.n) (v : JVal) (t : Nat) :
    ∃ ρ', Emb ρ' τ (l.handle v t).1 (s.handle v (τ t)).1 ∧
      Outside ρ τ ρ' τ l (l.handle v t).1 s (s.handle v (τ t)).1 ∧
      (s.handle v (τ t)).2 = (l.handle v t).2.ren ρ' ∧ l.n ≤ (l.handle v t).1.n := by
  cases v with
  | scalar k => exact ⟨ρ, E, Outside.refl _ _ _ _, rfl, Nat.le_refl _⟩
  | arr items e =>
    obtain ⟨E1, O1⟩ := E.alloc wl h1l ⟨.arr, t, false, false, false, none, none, items.map (none, ·), e⟩ (by simp) rfl
    exact ⟨_, E1, O1, by simp [AState.handle, Val.ren], Nat.le_succ _⟩
  | obj ms e =>
    obtain ⟨E1, O1⟩ := E.alloc wl h1l ⟨.obj, t, false, false, false, none, none, ms.map fun m => (some m.1, m.2), e⟩ (by simp) rfl
    exact ⟨_, E1, O1, by simp [AState.handle, Val.ren], Nat.le_succ _⟩

theorem Emb.advance' (E : Emb ρ τ l s) (wl : WF l) {i : Nat} (h0 : 0 < i) (hi : i < l.n) {l' : AState} {b : Bool}
    (h : l.advance' i = .ok (l', b)) :
    ∃ ρ' s', s.advance' (ρ i) = .ok (s', b) ∧ Emb ρ' τ l' s' ∧ Outside ρ τ ρ' τ l l' s s' := by
  have hc := E.coll i h0 hi
  have hk := E.kind i h0 hi
  have hd := E.dead _ (wl.thr i hi)
  have e1 : (s.coll (ρ i)).thr = τ (l.coll i).thr := by rw [hc]; rfl
  have e2 : (s.coll (ρ i)).kind = (l.coll i).kind := by rw [hc]; rfl
  have e3 : (s.coll (ρ i)).rest = (l.coll i).rest := by rw [hc]; rfl
  cases hdd : l.dead (l.coll i).thr with
  | true => rw [ISim.advance'_dead hdd, if_neg hk] at h; cases h
  | false =>
    have hsd : s.dead (s.coll (ρ i)).thr = false := by rw [e1, hd, hdd]
    cases hr : (l.coll i).rest with
    | nil =>
      rw [ISim.advance'_nil hdd hr, if_neg hk] at h
      rw [ISim.advance'_nil hsd (e3.trans hr), if_neg (by rw [e2]; exact hk)]
      cases h
      obtain ⟨E1, O1⟩ := E.set h0 hi { l.coll i with done := true, elided := (l.coll i).elided || (l.coll i).e } hk
      exact ⟨ρ, _, by rw [hc]; rfl, E1, O1⟩
    | cons m r =>
      obtain ⟨k, v⟩ := m
      rw [ISim.advance'_cons hdd hr] at h
      rw [ISim.advance'_cons hsd (e3.trans hr)]
      cases h
      obtain ⟨ρ', E1, O1, e4, e5⟩ := E.handle wl (by omega) v (l.coll i).thr
      have hri : ρ' i = ρ i := O1.hρ i hi
      obtain ⟨E2, O2⟩ := E1.set h0 (Nat.lt_of_lt_of_le hi e5)
        { l.coll i with started := (l.coll i).kind ≠ .top, key := k,
                        cur := some (l.handle v (l.coll i).thr).2, rest := r } hk
      rw [hri] at E2 O2
      refine ⟨ρ', _, ?_, E2, O1.trans E.nt O2⟩
      rw [e1, e4, hc]
      rfl

theorem Emb.advance (E : Emb ρ τ l s) (wl : WF l) (ws : WF s) {i : Nat} (h0 : 0 < i) {l' : AState} {b : Bool}
    (h : l.step (.advance i) = .ok (l', b)) :
    ∃ ρ' s', s.step (.advance (ρ i)) = .ok (s', b) ∧ Emb ρ' τ l' s' ∧ Outside ρ τ ρ' τ l l' s s' := by
  obtain ⟨hi, h1⟩ := advance_eqs h
  have hc := E.coll i h0 hi
  have hk := E.kind i h0 hi
  have hρ := E.lt i h0 hi
  have e2 : (s.coll (ρ i)).kind = (l.coll i).kind := by rw [hc]; rfl
  have e3 : (s.coll (ρ i)).done = (l.coll i).done := by rw [hc]; rfl
  simp only [AState.step, AState.advance] at h ⊢
  rw [if_neg (by omega)] at h ⊢
  rw [e2, e3]
  by_cases hd : (l.coll i).kind ≠ .top ∧ (l.coll i).done = true
  · rw [if_pos hd] at h ⊢
    cases h
    exact ⟨ρ, s, rfl, E, Outside.refl _ _ _ _⟩
  · rw [if_neg hd] at h ⊢
    obtain ⟨E1, O1⟩ := E.discardCur wl ws h0 hi
    have hi' : i < (l.discardCur i).n := Nat.lt_of_lt_of_le hi O1.ln
    obtain ⟨ρ', s', e4, E2, O2⟩ := E1.advance' (wl.discardCur i) h0 hi' h
    exact ⟨ρ', s', e4, E2, O1.trans E.nt O2⟩

theorem Emb.current (E : Emb ρ τ l s) {i : Nat} (h0 : 0 < i) {l' : AState} {kv : Option Scalar × Option Val}
    (h : l.step (.current i) = .ok (l', kv)) :
    l' = l ∧ i < l.n ∧ (l.coll i).cur = kv.2 ∧ s.step (.current (ρ i)) = .ok (s, (kv.1, kv.2.map (Val.ren ρ))) := by
  simp only [AState.step, AState.current] at h ⊢
  split at h
  · cases h
  rename_i hi
  have hi : i < l.n := by omega
  have hc := E.coll i h0 hi
  have hρ := E.lt i h0 hi
  split at h
  · cases h
  rename_i hd
  cases h
  rw [if_neg (by omega), if_neg (by rw [hc]; exact hd), hc]
  exact ⟨rfl, hi, rfl, rfl⟩

theorem Emb.elided (E : Emb ρ τ l s) {i : Nat} (h0 : 0 < i) {l' : AState} {b : Bool}
    (h : l.step (.elided i) = .ok (l', b)) : l' = l ∧ s.step (.elided (ρ i)) = .ok (s, b) := by
  simp only [AState.step] at h ⊢
  split at h
  · cases h
  rename_i hi
  have hi : i < l.n := by omega
  have hρ := E.lt i h0 hi
  cases h
  rw [if_neg (by omega), E.coll i h0 hi]
  exact ⟨rfl, rfl⟩

theorem Emb.discardOp (E : Emb ρ τ l s) (wl : WF l) (ws : WF s) {v : Val} (hv : ∀ k i, v = .coll k i → 0 < i)
    {l' : AState} {u : Unit} (h : l.step (.discard v) = .ok (l', u)) :
    ∃ s', s.step (.discard (v.ren ρ)) = .ok (s', ()) ∧ Emb ρ τ l' s' ∧ Outside ρ τ ρ τ l l' s s' := by
  cases v with
  | scalar k => cases h; exact ⟨s, rfl, E, Outside.refl _ _ _ _⟩
  | coll k i =>
    have h0 := hv k i rfl
    simp only [AState.step, Val.ren] at h ⊢
    split at h
    · cases h
    rename_i hc
    have hi : i < l.n := by omega
    have hρ := E.lt i h0 hi
    have := E.pos i h0 hi
    cases h
    have e2 : (s.coll (ρ i)).kind = (l.coll i).kind := by rw [E.coll i h0 hi]; rfl
    rw [if_neg (by rw [e2]; intro g; apply hc; rcases g with g | g; omega; exact Or.inr g)]
    obtain ⟨E1, O1⟩ := E.discard l.n s.n k wl ws h0 hi (by omega) (by omega)
    exact ⟨_, rfl, E1, O1⟩

theorem Emb.copy (E : Emb ρ τ l s) (wl : WF l) {v : Val} (hv : ∀ k i, v = .coll k i → 0 < i)
    {l' : AState} {ts : List Token} (h : l.step (.copy v) = .ok (l', ts)) :
    ∃ s', s.step (.copy (v.ren ρ)) = .ok (s', ts) ∧ Emb ρ τ l' s' ∧ Outside ρ τ ρ τ l l' s s' := by
  cases v with
  | scalar k => cases h; exact ⟨s, rfl, E, Outside.refl _ _ _ _⟩
  | coll k i =>
    have h0 := hv k i rfl
    simp only [AState.step, AState.copy, Val.ren] at h ⊢
    split at h
    · cases h
    rename_i hc
    have hi : i < l.n := by omega
    have hρ := E.lt i h0 hi
    have hcc := E.coll i h0 hi
    have hd := E.dead _ (wl.thr i hi)
    obtain ⟨E1, O1⟩ := E.set h0 hi { l.coll i with done := true } (E.kind i h0 hi)
    have e1 : ((l.coll i).ren ρ τ).thr = τ (l.coll i).thr := rfl
    have e2 : ((l.coll i).ren ρ τ).kind = (l.coll i).kind := rfl
    have e3 : ((l.coll i).ren ρ τ).rest = (l.coll i).rest := rfl
    have e4 : ((l.coll i).ren ρ τ).started = (l.coll i).started := rfl
    have e5 : ((l.coll i).ren ρ τ).done = (l.coll i).done := rfl
    have e6 : ((l.coll i).ren ρ τ).e = (l.coll i).e := rfl
    simp only [hcc, e1, e2, e3, e4, e5, e6, hd]
    rw [if_neg (by intro g; apply hc; rcases g with g | g; omega; exact Or.inr g)]
    split at h
    · cases h
    rename_i g1
    rw [if_neg g1]
    split at h
    · cases h
    rename_i g2
    rw [if_neg g2]
    split at h
    · rename_i g3; cases h; rw [if_pos g3]; exact ⟨_, rfl, E1, O1⟩
    · rename_i g3; cases h; rw [if_neg g3]; exact ⟨_, rfl, E1, O1⟩

theorem Emb.detach (E : Emb ρ τ l s) {t : Nat} {l' : AState} {u : Unit} (h : l.step (.detach t) = .ok (l', u)) :
    ∃ s', s.step (.detach (τ t)) = .ok (s', ()) ∧ Emb ρ τ l' s' ∧ Outside ρ τ ρ τ l l' s s' := by
  simp only [AState.step] at h ⊢
  split at h
  · rename_i ht
    obtain ⟨ht, hd⟩ := ht
    cases h
    have hsd : (s.det (τ t) || s.dead (τ t)) = true := by
      simp only [Bool.or_eq_true] at hd ⊢
      rcases hd with g | g
      · exact Or.inl (E.det t ht g)
      · right; rw [E.dead t ht]; exact g
    rw [if_pos ⟨E.tlt t ht, hsd⟩]
    refine ⟨_, rfl, ⟨E.lt, E.inj, E.coll, E.kind, E.n, E.sn, E.pos, E.nt, E.det0, E.detnew, E.tlt, E.tpos, ?_, E.det, E.tinj⟩, ?_⟩
    · intro u hu
      have hu : u < l.nt := hu
      show (if τ u = τ t then true else s.dead (τ u)) = (if u = t then true else l.dead u)
      by_cases e : u = t
      · subst e; simp
      · rw [if_neg e]
        split
        · rename_i e'
          rw [← E.dead u hu, e', E.dead t ht]
          simp only [Bool.or_eq_true] at hd
          rcases hd with g | g
          · exact absurd (E.tinj t ht g u hu e') e
          · exact g.symm
        · exact E.dead u hu
    · refine ⟨Nat.le_refl _, Nat.le_refl _, Nat.le_refl _, Nat.le_refl _, fun _ _ => rfl, fun _ _ => rfl, ?_, ?_,
        fun _ _ _ => rfl, ?_, fun _ _ => rfl, fun _ _ => rfl⟩
      · intro j h1 h2; have h2 : j < l.n := h2; omega
      · intro j h1 h2; have h2 : j < l.nt := h2; omega
      · intro u hu
        show (if u = τ t then true else s.dead u) = s.dead u ∨ _
        by_cases e : u = τ t
        · simp only [Bool.or_eq_true] at hd
          rcases hd with g | g
          · exact Or.inr ⟨t, ht, g, e.symm⟩
          · left; rw [if_pos e, e, E.dead t ht, g]
        · left; rw [if_neg e]
  · cases h

/-- New threads. -/
theorem Emb.threads (E : Emb ρ τ l s) (wl : WF l) (ws : WF s) (nl : Nat) (τ' : Nat → Nat) (dl ds : Nat → Bool) (ns : Nat)
    (hnl : l.nt ≤ nl) (hns : s.nt ≤ ns) (hτ : ∀ t < l.nt, τ' t = τ t)
    (hdl : ∀ t < l.nt, dl t = l.det t) (hdn : ∀ t, nl ≤ t → dl t = false) (hds : ∀ t < s.nt, ds t = s.det t)
    (hnew : ∀ t, l.nt ≤ t → t < nl → τ' t < ns ∧ τ' t ≠ 0 ∧ s.dead (τ' t) = false ∧
      ((τ' t = τ 0 ∧ dl t = false) ∨ (s.nt ≤ τ' t ∧ ds (τ' t) = true ∧ ∀ u < nl, τ' u = τ' t → u = t))) :
    Emb ρ τ' { l with nt := nl, det := dl } { s with nt := ns, det := ds } ∧
      Outside ρ τ ρ τ' l { l with nt := nl, det := dl } s { s with nt := ns, det := ds } := by
  have h00 : τ' 0 = τ 0 := hτ 0 E.nt
  refine ⟨⟨E.lt, E.inj, ?_, E.kind, E.n, E.sn, E.pos, Nat.lt_of_lt_of_le E.nt hnl, (hdl 0 E.nt).trans E.det0, hdn, ?_, ?_, ?_, ?_, ?_⟩, ?_⟩
  · intro i h0 hi
    rw [E.coll i h0 hi]
    exact (AColl.ren_congr (hτ _ (wl.thr i hi)) (fun _ _ _ => rfl)).symm
  · intro t ht
    by_cases h : t < l.nt
    · rw [hτ t h]; exact Nat.lt_of_lt_of_le (E.tlt t h) hns
    · exact (hnew t (by omega) ht).1
  · intro t ht hc
    by_cases h : t < l.nt
    · rw [hτ t h]; exact E.tpos t h (hc.imp id (fun g => by rw [← hdl t h]; exact g))
    · exact (hnew t (by omega) ht).2.1
  · intro t ht
    show s.dead (τ' t) = l.dead t
    by_cases h : t < l.nt
    · rw [hτ t h]; exact E.dead t h
    · rw [(hnew t (by omega) ht).2.2.1, wl.dead t (by omega)]
  · intro t ht hd
    have hd : dl t = true := hd
    show ds (τ' t) = true
    by_cases h : t < l.nt
    · rw [hτ t h, hds _ (E.tlt t h)]; exact E.det t h (by rw [← hdl t h]; exact hd)
    · rcases (hnew t (by omega) ht).2.2.2 with g | g
      · rw [g.2] at hd; cases hd
      · exact g.2.1
  · intro t ht hd u hu e
    have hd : dl t = true := hd
    by_cases h : t < l.nt
    · have hd' : l.det t = true := by rw [← hdl t h]; exact hd
      rw [hτ t h] at e
      by_cases h' : u < l.nt
      · rw [hτ u h'] at e; exact E.tinj t h hd' u h' e
      · rcases (hnew u (by omega) hu).2.2.2 with g | g
        · have := E.tinj t h hd' 0 E.nt (by rw [← g.1]; exact e)
          rw [← this, E.det0] at hd'; cases hd'
        · have := E.tlt t h; omega
    · rcases (hnew t (by omega) ht).2.2.2 with g | g
      · rw [g.2] at hd; cases hd
      · exact g.2.2 u hu e
  · refine ⟨Nat.le_refl _, hnl, Nat.le_refl _, hns, fun _ _ => rfl, hτ, ?_, ?_, fun _ _ _ => rfl, fun _ _ => Or.inl rfl,
      hds, hdl⟩
    · intro j h1 h2; have h2 : j < l.n := h2; omega
    · intro t h1 h2
      rcases (hnew t h1 h2).2.2.2 with g | g
      · exact Or.inr g
      · exact Or.inl g.1

theorem Emb.clone (E : Emb ρ τ l s) (wl : WF l) (ws : WF s) {v : Val} (hv : ∀ k i, v = .coll k i → 0 < i)
    {l' : AState} {y : Val × Option Nat} (h : l.step (.clone v) = .ok (l', y)) :
    ∃ ρ' τ' s', s.step (.clone (v.ren ρ)) = .ok (s', (y.1.ren ρ', y.2.map τ')) ∧ Emb ρ' τ' l' s' ∧
      Outside ρ τ ρ' τ' l l' s s' ∧ (∀ k i, y.1 = .coll k i → 0 < i ∧ i < l'.n) ∧ (∀ t, y.2 = some t → t < l'.nt) := by
  cases v with
  | scalar k => cases h; exact ⟨ρ, τ, s, rfl, E, Outside.refl _ _ _ _, by simp, by simp⟩
  | coll k i =>
    have h0 := hv k i rfl
    simp only [AState.step, AState.clone, Val.ren] at h ⊢
    split at h
    · cases h
    rename_i hc
    have hi : i < l.n := by omega
    have hρ := E.lt i h0 hi
    have hcc := E.coll i h0 hi
    have hk := E.kind i h0 hi
    have hkk : (l.coll i).kind = k := by
      cases Decidable.em ((l.coll i).kind = k) with
      | inl h => exact h
      | inr h => exact absurd (Or.inr h) hc
    have ht := wl.thr i hi
    have hd := E.dead _ ht
    have htp := E.tpos _ ht (Or.inl (by omega))
    split at h
    · cases h
    rename_i hb
    have hst : (l.coll i).started = false := by unfold begun at hb; rw [if_neg hk] at hb; simpa using hb
    have hcur := wl.unstarted i hi hk hst
    have e1 : ((l.coll i).ren ρ τ).thr = τ (l.coll i).thr := rfl
    have e2 : ((l.coll i).ren ρ τ).kind = (l.coll i).kind := rfl
    have hb' : begun ((l.coll i).ren ρ τ) = false := by
      unfold begun; rw [e2, if_neg hk]; exact hst
    simp only [hcc, e1, e2, hd, hb', if_neg htp]
    rw [if_neg (by intro g; apply hc; rcases g with g | g; omega; exact Or.inr g)]
    simp only [Bool.false_eq_true, if_false]
    have hrc : ∀ t : Nat, ({ (l.coll i).ren ρ τ with thr := t, key := none } : AColl) =
        ({ l.coll i with thr := t, key := none } : AColl).ren ρ (fun _ => t) := fun t => rfl
    split at h
    · -- the thread is dead
      rename_i hdd
      cases h
      rw [if_pos hdd]
      obtain ⟨E1, O1⟩ := E.alloc wl (by omega) { l.coll i with key := none } hk hcur
      refine ⟨_, τ, _, ?_, E1, O1, ?_, ?_⟩
      · simp [Except.map, AColl.ren, Val.ren]
      · intro k' i' e; cases e; exact ⟨E.n, Nat.lt_succ_self _⟩
      · intro t e; cases e; exact ht
    · rename_i hdd
      have hdf : l.dead (l.coll i).thr = false := by simpa using hdd
      rw [if_neg hdd]
      split at h
      · -- alone, the original was on the thread of the input
        rename_i hz
        rw [if_neg (by rw [← hkk]; exact hk)] at h
        cases h
        have hd0 : s.dead (τ 0) = false := by rw [hz] at hd hdf; rw [hd, hdf]
        obtain ⟨E1, O1⟩ := E.threads wl ws (l.nt + 2) (ext (ext τ l.nt (τ 0)) (l.nt + 1) s.nt)
          (fun t => if t = l.nt + 1 then true else l.det t) (fun t => if t = s.nt then true else s.det t) (s.nt + 1)
          (by omega) (by omega)
          (by intro t ht; rw [ext_ne _ (by omega), ext_ne _ (by omega)])
          (by intro t ht; exact if_neg (by omega)) (by intro t ht; rw [if_neg (by omega)]; exact E.detnew t (by omega))
          (by intro t ht; exact if_neg (by omega))
          (by
            intro t t1 t2
            have g0 := E.tlt 0 E.nt
            by_cases e : t = l.nt + 1
            · subst e
              rw [ext_same]
              refine ⟨by omega, by have := E.tlt 0 E.nt; omega, ws.dead _ (Nat.le_refl _), Or.inr ⟨Nat.le_refl _, by simp, ?_⟩⟩
              intro u hu eu
              by_cases e' : u = l.nt + 1
              · exact e'
              · rw [ext_ne _ e'] at eu
                by_cases e'' : u = l.nt
                · rw [e'', ext_same] at eu; omega
                · rw [ext_ne _ e''] at eu
                  have := E.tlt u (by omega); omega
            · have : t = l.nt := by omega
              subst this
              rw [ext_ne _ e, ext_same]
              refine ⟨by omega, E.tpos 0 E.nt (Or.inl (by omega)), hd0, Or.inl ⟨rfl, ?_⟩⟩
              rw [if_neg e]
              exact E.detnew _ (Nat.le_refl _))
        have w1 := wl.threads (l.nt + 2) l.dead (fun t => if t = l.nt + 1 then true else l.det t) (by omega)
          (fun t ht => wl.dead t (by omega))
        obtain ⟨E2, O2⟩ := E1.set h0 hi { l.coll i with thr := l.nt } hk
        have w2 : WF (AState.set { l with nt := l.nt + 2, det := fun t => if t = l.nt + 1 then true else l.det t } i
            { l.coll i with thr := l.nt }) := by
          refine w1.set i _ ?_ ?_ ?_
          · intro _ k j e; have e : (l.coll i).cur = some (.coll k j) := e; rw [hcur] at e; cases e
          · intro _ _ _; exact hcur
          · intro _; show l.nt < l.nt + 2; omega
        obtain ⟨E3, O3⟩ := E2.alloc w2 (by show 1 < l.n; omega) { l.coll i with thr := l.nt + 1, key := none } hk hcur
        have hset : ∀ (s1 : AState), s1.coll = s.coll → s1.set (ρ i)
            (AColl.ren ρ (ext (ext τ l.nt (τ 0)) (l.nt + 1) s.nt) { l.coll i with thr := l.nt }) = s1 := by
          intro s1 hs1
          have : AColl.ren ρ (ext (ext τ l.nt (τ 0)) (l.nt + 1) s.nt) { l.coll i with thr := l.nt } = s1.coll (ρ i) := by
            rw [hs1, hcc]
            unfold AColl.ren
            simp only
            rw [ext_ne _ (by omega), ext_same, hz]
          rw [this]
          unfold AState.set
          cases s1
          simp only [AState.mk.injEq, and_true]
          funext j
          split
          · rename_i e; rw [e]
          · rfl
        have hseq := hset { s with nt := s.nt + 1, det := fun t => if t = s.nt then true else s.det t } rfl
        rw [hseq] at O2 E2 E3 O3
        refine ⟨_, _, _, ?_, E3, (O1.trans E.nt O2).trans E.nt O3, ?_, ?_⟩
        · simp only [Except.map, Except.ok.injEq, Prod.mk.injEq, Option.map_some, ext_same, Val.ren, and_true]
          refine ⟨?_, ?_⟩
          · unfold AColl.ren
            simp only [ext_same]
            rfl
          · show Val.coll k s.n = .coll k (ext ρ l.n s.n l.n)
            rw [ext_same]
        · intro k' i' e; cases e; exact ⟨E.n, Nat.lt_succ_self _⟩
        · intro t e; cases e; exact Nat.lt_succ_self _
      · cases h
        obtain ⟨E1, O1⟩ := E.threads wl ws (l.nt + 1) (ext τ l.nt s.nt)
          (fun t => if t = l.nt then true else l.det t) (fun t => if t = s.nt then true else s.det t) (s.nt + 1)
          (by omega) (by omega)
          (by intro t ht; rw [ext_ne _ (by omega)])
          (by intro t ht; exact if_neg (by omega)) (by intro t ht; rw [if_neg (by omega)]; exact E.detnew t (by omega))
          (by intro t ht; exact if_neg (by omega))
          (by
            intro t t1 t2
            have : t = l.nt := by omega
            subst this
            have g0 := E.tlt 0 E.nt
            rw [ext_same]
            refine ⟨by omega, by omega, ws.dead _ (Nat.le_refl _), Or.inr ⟨Nat.le_refl _, by simp, ?_⟩⟩
            intro u hu eu
            by_cases e' : u = l.nt
            · exact e'
            · rw [ext_ne _ e'] at eu
              have := E.tlt u (by omega); omega)
        have w1 := wl.threads (l.nt + 1) l.dead (fun t => if t = l.nt then true else l.det t) (by omega)
          (fun t ht => wl.dead t (by omega))
        obtain ⟨E3, O3⟩ := E1.alloc w1 (by show 1 < l.n; omega) { l.coll i with thr := l.nt, key := none } hk hcur
        refine ⟨_, _, _, ?_, E3, O1.trans E.nt O3, ?_, ?_⟩
        · simp only [Except.map, Except.ok.injEq, Prod.mk.injEq, Option.map_some, ext_same, Val.ren, and_true]
          unfold AColl.ren
          simp only [ext_same]
          rfl
        · intro k' i' e; cases e; exact ⟨E.n, Nat.lt_succ_self _⟩
        · intro t e; cases e; exact Nat.lt_succ_self _

end

/-! ## Readers under renaming -/

/-- The registers hold handles and threads that exist. -/
structure EnvOk (l : AState) (env : Env) : Prop where
  vals : ∀ k i, Val.coll k i ∈ env.vals → 0 < i ∧ i < l.n
  dets : ∀ t, some t ∈ env.dets → t < l.nt

theorem Env.ren_congr {ρ τ ρ' τ' : Nat → Nat} {l : AState} {env : Env} (he : EnvOk l env) (h1 : ∀ i < l.n, ρ' i = ρ i)
    (h2 : ∀ t < l.nt, τ' t = τ t) : env.ren ρ' τ' = env.ren ρ τ := by
  unfold Env.ren
  congr 1
  · apply List.map_congr_left
    intro v hv
    cases v with
    | scalar k => rfl
    | coll k i => simp [Val.ren, h1 i (he.vals k i hv).2]
  · apply List.map_congr_left
    intro d hd
    cases d with
    | none => rfl
    | some t => simp [h2 t (he.dets t hd)]

theorem EnvOk.mono {l l' : AState} {env : Env} (he : EnvOk l env) (h1 : l.n ≤ l'.n) (h2 : l.nt ≤ l'.nt) : EnvOk l' env :=
  ⟨fun k i h => ⟨(he.vals k i h).1, Nat.lt_of_lt_of_le (he.vals k i h).2 h1⟩, fun t h => Nat.lt_of_lt_of_le (he.dets t h) h2⟩

theorem op_ok {ε α : Type} {o : IOp} {k : o.Res → IProg ε α} {l : AState} {out : List ε} {r : AState × α}
    (h : (IProg.op o k).run AState.mach l = (out, .ok r)) :
    ∃ l1 x, l.step o = .ok (l1, x) ∧ (k x).run AState.mach l1 = (out, .ok r) := by
  have e : AState.mach.step l o = l.step o := rfl
  simp only [IProg.run, e] at h
  cases hs : l.step o with
  | error e => rw [hs] at h; cases h
  | ok y => rw [hs] at h; exact ⟨y.1, y.2, rfl, h⟩

theorem rstep {ε : Type} {ρ τ : Nat → Nat} {l s : AState} {o : ROp} {env : Env} (E : Emb ρ τ l s) (wl : WF l) (ws : WF s)
    (he : EnvOk l env) {out : List ε} {l' : AState} {res : RRes} {env' : Env}
    (h : (o.prog env).run AState.mach l = (out, .ok (l', (res, env')))) :
    out = [] ∧ ∃ ρ' τ' s', (o.prog (env.ren ρ τ) : IProg ε _).run AState.mach s =
        ([], .ok (s', (res, env'.ren ρ' τ'))) ∧
      Emb ρ' τ' l' s' ∧ Outside ρ τ ρ' τ' l l' s s' ∧ EnvOk l' env' := by
  have triv : ∀ {r e}, (IProg.ret (r, e) : IProg ε (RRes × Env)).run AState.mach l = (out, .ok (l', (res, env'))) →
      out = [] ∧ l' = l ∧ res = r ∧ env' = e := by
    intro r e h; cases h; exact ⟨rfl, rfl, rfl, rfl⟩
  have same : out = [] ∧ l' = l ∧ res = .unit ∧ env' = env →
      (o.prog (env.ren ρ τ) : IProg ε _) = .ret (.unit, env.ren ρ τ) →
      out = [] ∧ ∃ ρ' τ' s', (o.prog (env.ren ρ τ) : IProg ε _).run AState.mach s =
        ([], .ok (s', (res, env'.ren ρ' τ'))) ∧
      Emb ρ' τ' l' s' ∧ Outside ρ τ ρ' τ' l l' s s' ∧ EnvOk l' env' := by
    rintro ⟨rfl, rfl, rfl, rfl⟩ e
    refine ⟨rfl, ρ, τ, s, ?_, E, Outside.refl _ _ _ _, he⟩
    rw [e]; rfl
  have hget : ∀ r : Nat, (env.ren ρ τ).vals[r]? = env.vals[r]?.map (Val.ren ρ) := fun r => by
    simp [Env.ren]
  have hmem : ∀ {r : Nat} {k i}, env.vals[r]? = some (.coll k i) → 0 < i ∧ i < l.n := fun hr =>
    he.vals _ _ (List.mem_of_getElem? hr)
  cases o with
  | advance r =>
    cases hr : env.vals[r]? with
    | none => exact same (triv (by simpa only [ROp.prog, hr] using h)) (by simp [ROp.prog, hget, hr])
    | some v =>
      cases v with
      | scalar k => exact same (triv (by simpa only [ROp.prog, hr] using h)) (by simp [ROp.prog, hget, hr, Val.ren])
      | coll k i =>
        simp only [ROp.prog, hr] at h
        obtain ⟨l1, b, h1, h2⟩ := op_ok h
        cases h2
        obtain ⟨ρ', s', e1, e2, e3⟩ := E.advance wl ws (hmem hr).1 h1
        refine ⟨rfl, ρ', τ, s', ?_, e2, e3, he.mono e3.ln e3.lnt⟩
        simp only [ROp.prog, hget, hr, Option.map_some, Val.ren]
        rw [arun_op e1, Env.ren_congr he e3.hρ e3.hτ]
        rfl
  | current r =>
    cases hr : env.vals[r]? with
    | none => exact same (triv (by simpa only [ROp.prog, hr] using h)) (by simp [ROp.prog, hget, hr])
    | some v =>
      cases v with
      | scalar k => exact same (triv (by simpa only [ROp.prog, hr] using h)) (by simp [ROp.prog, hget, hr, Val.ren])
      | coll k i =>
        simp only [ROp.prog, hr] at h
        obtain ⟨l1, kv, h1, h2⟩ := op_ok h
        cases h2
        obtain ⟨rfl, hi, hcur, e1⟩ := E.current (hmem hr).1 h1
        refine ⟨rfl, ρ, τ, s, ?_, E, Outside.refl _ _ _ _, ⟨?_, he.dets⟩⟩
        · simp only [ROp.prog, hget, hr, Option.map_some, Val.ren]
          rw [arun_op e1]
          obtain ⟨kk, vv⟩ := kv
          cases vv <;> simp [Env.ren]
        · intro k' j hj
          simp only [List.mem_append, Option.mem_toList] at hj
          rcases hj with hj | hj
          · exact he.vals k' j hj
          · have := wl.links i hi k' j (by rw [hcur]; exact hj)
            exact ⟨by omega, this.2⟩
  | elided r =>
    cases hr : env.vals[r]? with
    | none => exact same (triv (by simpa only [ROp.prog, hr] using h)) (by simp [ROp.prog, hget, hr])
    | some v =>
      cases v with
      | scalar k => exact same (triv (by simpa only [ROp.prog, hr] using h)) (by simp [ROp.prog, hget, hr, Val.ren])
      | coll k i =>
        simp only [ROp.prog, hr] at h
        obtain ⟨l1, b, h1, h2⟩ := op_ok h
        cases h2
        obtain ⟨rfl, e1⟩ := E.elided (hmem hr).1 h1
        refine ⟨rfl, ρ, τ, s, ?_, E, Outside.refl _ _ _ _, he⟩
        simp only [ROp.prog, hget, hr, Option.map_some, Val.ren]
        rw [arun_op e1]
        rfl
  | clone r =>
    cases hr : env.vals[r]? with
    | none => exact same (triv (by simpa only [ROp.prog, hr] using h)) (by simp [ROp.prog, hget, hr])
    | some v =>
      simp only [ROp.prog, hr] at h
      obtain ⟨l1, y, h1, h2⟩ := op_ok h
      cases h2
      obtain ⟨ρ', τ', s', e1, e2, e3, e4, e5⟩ := E.clone wl ws (fun k i e => (hmem (hr.trans (by rw [e]))).1) h1
      have he' := he.mono e3.ln e3.lnt
      refine ⟨rfl, ρ', τ', s', ?_, e2, e3, ⟨?_, ?_⟩⟩
      · simp only [ROp.prog, hget, hr, Option.map_some]
        rw [arun_op e1]
        have := Env.ren_congr he e3.hρ e3.hτ
        unfold Env.ren at this ⊢
        simp only [Env.mk.injEq] at this
        simp [this.1, this.2]
      · intro k i hi
        simp only [List.mem_append, List.mem_singleton] at hi
        rcases hi with hi | hi
        · exact he'.vals k i hi
        · exact e4 k i hi.symm
      · intro t ht
        simp only [List.mem_append, List.mem_singleton] at ht
        rcases ht with ht | ht
        · exact he'.dets t ht
        · exact e5 t ht.symm
  | discard r =>
    cases hr : env.vals[r]? with
    | none => exact same (triv (by simpa only [ROp.prog, hr] using h)) (by simp [ROp.prog, hget, hr])
    | some v =>
      simp only [ROp.prog, hr] at h
      obtain ⟨l1, y, h1, h2⟩ := op_ok h
      cases h2
      obtain ⟨s', e1, e2, e3⟩ := E.discardOp wl ws (fun k i e => (hmem (hr.trans (by rw [e]))).1) h1
      refine ⟨rfl, ρ, τ, s', ?_, e2, e3, he.mono e3.ln e3.lnt⟩
      simp only [ROp.prog, hget, hr, Option.map_some]
      rw [arun_op e1]
      rfl
  | copy r =>
    cases hr : env.vals[r]? with
    | none => exact same (triv (by simpa only [ROp.prog, hr] using h)) (by simp [ROp.prog, hget, hr])
    | some v =>
      simp only [ROp.prog, hr] at h
      obtain ⟨l1, y, h1, h2⟩ := op_ok h
      cases h2
      obtain ⟨s', e1, e2, e3⟩ := E.copy wl (fun k i e => (hmem (hr.trans (by rw [e]))).1) h1
      refine ⟨rfl, ρ, τ, s', ?_, e2, e3, he.mono e3.ln e3.lnt⟩
      simp only [ROp.prog, hget, hr, Option.map_some]
      rw [arun_op e1]
      rfl
  | detach d =>
    have hgd : (env.ren ρ τ).dets[d]? = env.dets[d]?.map (Option.map τ) := by simp [Env.ren]
    cases hr : env.dets[d]? with
    | none => exact same (triv (by simpa only [ROp.prog, hr] using h)) (by simp [ROp.prog, hgd, hr])
    | some v =>
      cases v with
      | none => exact same (triv (by simpa only [ROp.prog, hr] using h)) (by simp [ROp.prog, hgd, hr])
      | some t =>
        simp only [ROp.prog, hr] at h
        obtain ⟨l1, y, h1, h2⟩ := op_ok h
        cases h2
        obtain ⟨s', e1, e2, e3⟩ := E.detach h1
        refine ⟨rfl, ρ, τ, s', ?_, e2, e3, he.mono e3.ln e3.lnt⟩
        simp only [ROp.prog, hgd, hr, Option.map_some]
        rw [arun_op e1]
        rfl

theorem reader_step {ε α : Type} {ρ τ : Nat → Nat} {l s : AState} {r : VReader α} {env : Env} (E : Emb ρ τ l s) (wl : WF l)
    (ws : WF s) (he : EnvOk l env) {out : List ε} {l' : AState} {r' : VReader α} {env' : Env}
    (h : (r.step env).run AState.mach l = (out, .ok (l', (r', env')))) :
    ∃ ρ' τ' s', (r.step (env.ren ρ τ) : IProg ε _).run AState.mach s = ([], .ok (s', (r', env'.ren ρ' τ'))) ∧
      Emb ρ' τ' l' s' ∧ Outside ρ τ ρ' τ' l l' s s' ∧ EnvOk l' env' := by
  cases r with
  | ret a =>
    cases h
    exact ⟨ρ, τ, s, rfl, E, Outside.refl _ _ _ _, he⟩
  | act o k =>
    simp only [VReader.step, IProg.run_bind, seqRun] at h
    cases hr : ((o.prog env : IProg ε _).run AState.mach l).2 with
    | error e => rw [hr] at h; cases h
    | ok y =>
      obtain ⟨l1, res, env1⟩ := y
      rw [hr] at h
      cases h
      obtain ⟨_, ρ', τ', s', e1, e2⟩ := rstep (out := ((o.prog env : IProg ε _).run AState.mach l).1) E wl ws he
        (Prod.ext rfl hr)
      refine ⟨ρ', τ', s', ?_, e2⟩
      simp only [VReader.step]
      rw [run_ok_bind e1]
      rfl

theorem steps_ok {ε α : Type} {l l' : AState} {r r' : VReader α} {env env' : Env} {n : Nat} {out : List ε}
    (h : (r.steps (n + 1) env).run AState.mach l = (out, .ok (l', (r', env')))) :
    ∃ (o1 o2 : List ε) (l1 : AState) (r1 : VReader α) (e1 : Env), (r.step env).run AState.mach l = (o1, .ok (l1, (r1, e1))) ∧
      (r1.steps n e1).run AState.mach l1 = (o2, .ok (l', (r', env'))) := by
  simp only [VReader.steps, IProg.run_bind, seqRun] at h
  cases hr : ((r.step env : IProg ε _).run AState.mach l).2 with
  | error e => rw [hr] at h; cases h
  | ok y =>
    obtain ⟨l1, r1, e1⟩ := y
    rw [hr] at h
    simp only [Prod.mk.injEq] at h
    exact ⟨_, _, l1, r1, e1, Prod.ext rfl hr, Prod.ext rfl h.2⟩

/-! ## Several readers -/

/-- Where a reader stands when it is alone, and where this is found. -/
structure Slot where
  ρ : Nat → Nat
  τ : Nat → Nat
  l : AState
  env : Env

structure Group (s : AState) (N : Nat) (det : Nat → Option Nat) (live : Nat → Bool) (sl : Nat → Slot) : Prop where
  wf : WF s
  emb : ∀ j < N, live j = true → Emb (sl j).ρ (sl j).τ (sl j).l s
  wl : ∀ j < N, live j = true → WF (sl j).l
  env : ∀ j < N, live j = true → EnvOk (sl j).l (sl j).env
  handles : ∀ j < N, live j = true → ∀ k < N, live k = true → j ≠ k → ∀ i, 0 < i → i < (sl j).l.n →
    ∀ i', 0 < i' → i' < (sl k).l.n → (sl j).ρ i ≠ (sl k).ρ i'
  threads : ∀ j < N, live j = true → ∀ k < N, live k = true → j ≠ k → ∀ t < (sl j).l.nt, (sl j).l.det t = true →
    ∀ u < (sl k).l.nt, (sl j).τ t ≠ (sl k).τ u
  owned : ∀ j < N, live j = true → ∀ u, det j = some u → u < s.nt ∧ s.det u = true ∧ u ≠ 0
  apart : ∀ j < N, live j = true → ∀ u, det j = some u → ∀ k < N, live k = true → j ≠ k → ∀ t < (sl k).l.nt, (sl k).τ t ≠ u

/-- The group as the program has it. -/
def parties {α : Type} (N : Nat) (rd : Nat → VReader α) (det : Nat → Option Nat) (live : Nat → Bool) (sl : Nat → Slot) :
    List (Party α) :=
  (List.range N).map fun j => ⟨rd j, (sl j).env.ren (sl j).ρ (sl j).τ, det j, live j⟩

def upd {β : Type} (f : Nat → β) (j : Nat) (x : β) : Nat → β := fun i => if i = j then x else f i

@[simp] theorem upd_same {β : Type} (f : Nat → β) (j : Nat) (x : β) : upd f j x j = x := by simp [upd]
theorem upd_ne {β : Type} (f : Nat → β) {i j : Nat} (x : β) (h : i ≠ j) : upd f j x i = f i := by simp [upd, h]

theorem range_set {β : Type} (N : Nat) (f : Nat → β) (j : Nat) (x : β) :
    ((List.range N).map f).set j x = (List.range N).map (upd f j x) := by
  apply List.ext_getElem
  · simp
  · intro i h1 h2
    simp only [List.getElem_set, List.getElem_map, List.getElem_range, upd]
    by_cases e : j = i
    · simp [e]
    · rw [if_neg e, if_neg (fun h => e h.symm)]

theorem root_outside {ρ τ ρ' τ' : Nat → Nat} {l l' s s' : AState} {rt} (E : Emb ρ τ l s)
    (O : Outside ρ τ ρ' τ' l l' s s') (h : Root s rt) : Root s' rt := by
  have hc : s'.coll 0 = s.coll 0 := O.coll 0 E.sn (fun i h1 h2 e => by have := E.pos i h1 h2; omega)
  have hd : s'.dead 0 = s.dead 0 := by
    rcases O.dead 0 h.nt with g | ⟨t, g1, g2, g3⟩
    · exact g
    · exact absurd g3 (E.tpos t g1 (Or.inr g2))
  exact ⟨Nat.lt_of_lt_of_le h.n O.sn, Nat.lt_of_lt_of_le h.nt O.snt, hd.trans h.dead, (O.sdet 0 h.nt).trans h.det,
    by rw [hc]; exact h.kind, by rw [hc]; exact h.thr, by rw [hc]; exact h.done, by rw [hc]; exact h.elided,
    by rw [hc]; exact h.rest, by rw [hc]; exact h.e⟩

/-- A step of one reader leaves the others alone. -/
theorem Group.stepped {s : AState} {N : Nat} {det : Nat → Option Nat} {live : Nat → Bool} {sl : Nat → Slot}
    (G : Group s N det live sl) {j : Nat} (hj : j < N) (hl : live j = true) {x : Slot} {s' : AState} (ws : WF s')
    (E : Emb x.ρ x.τ x.l s') (O : Outside (sl j).ρ (sl j).τ x.ρ x.τ (sl j).l x.l s s') (wl : WF x.l) (he : EnvOk x.l x.env) :
    Group s' N det live (upd sl j x) := by
  have Ej := G.emb j hj hl
  -- what is new in slot j against another slot
  have hh : ∀ k < N, live k = true → j ≠ k → ∀ i, 0 < i → i < x.l.n → ∀ i', 0 < i' → i' < (sl k).l.n →
      x.ρ i ≠ (sl k).ρ i' := by
    intro k hk hlk hne i h0 hi i' h0' hi'
    by_cases h : i < (sl j).l.n
    · rw [O.hρ i h]; exact G.handles j hj hl k hk hlk hne i h0 h i' h0' hi'
    · have := O.newh i (by omega) hi
      have := (G.emb k hk hlk).lt i' h0' hi'
      omega
  refine ⟨ws, ?_, ?_, ?_, ?_, ?_, ?_, ?_⟩
  · intro k hk hlk
    by_cases e : k = j
    · subst e; rw [upd_same]; exact E
    · rw [upd_ne _ _ e]
      have Ek := G.emb k hk hlk
      have hne : j ≠ k := fun h => e h.symm
      refine ⟨?_, Ek.inj, ?_, Ek.kind, Ek.n, E.sn, Ek.pos, Ek.nt, Ek.det0, Ek.detnew, ?_, Ek.tpos, ?_, ?_, Ek.tinj⟩
      · intro i h1 h2; exact Nat.lt_of_lt_of_le (Ek.lt i h1 h2) O.sn
      · intro i h1 h2
        rw [O.coll _ (Ek.lt i h1 h2) (fun i' h1' h2' => G.handles j hj hl k hk hlk hne i' h1' h2' i h1 h2)]
        exact Ek.coll i h1 h2
      · intro t ht; exact Nat.lt_of_lt_of_le (Ek.tlt t ht) O.snt
      · intro t ht
        rcases O.dead _ (Ek.tlt t ht) with g | ⟨u, g1, g2, g3⟩
        · rw [g]; exact Ek.dead t ht
        · exact absurd g3 (G.threads j hj hl k hk hlk hne u g1 g2 t ht)
      · intro t ht hd
        rw [O.sdet _ (Ek.tlt t ht)]; exact Ek.det t ht hd
  · intro k hk hlk
    by_cases e : k = j
    · subst e; rw [upd_same]; exact wl
    · rw [upd_ne _ _ e]; exact G.wl k hk hlk
  · intro k hk hlk
    by_cases e : k = j
    · subst e; rw [upd_same]; exact he
    · rw [upd_ne _ _ e]; exact G.env k hk hlk
  · intro a ha hla b hb hlb hne i h0 hi i' h0' hi'
    by_cases e : a = j
    · subst e
      have e2 : b ≠ a := fun h => hne h.symm
      rw [upd_same] at hi ⊢; rw [upd_ne _ _ e2] at hi' ⊢
      exact hh b hb hlb hne i h0 hi i' h0' hi'
    · rw [upd_ne _ _ e] at hi ⊢
      by_cases e2 : b = j
      · subst e2
        rw [upd_same] at hi' ⊢
        exact fun h => hh a ha hla (fun h => e h.symm) i' h0' hi' i h0 hi h.symm
      · rw [upd_ne _ _ e2] at hi' ⊢
        exact G.handles a ha hla b hb hlb hne i h0 hi i' h0' hi'
  · intro a ha hla b hb hlb hne t ht hd u hu
    by_cases e : a = j
    · subst e
      have e2 : b ≠ a := fun h => hne h.symm
      rw [upd_same] at ht hd ⊢; rw [upd_ne _ _ e2] at hu ⊢
      by_cases h : t < (sl a).l.nt
      · rw [O.hτ t h]; exact G.threads a ha hla b hb hlb hne t h (by rw [← O.ldet t h]; exact hd) u hu
      · rcases O.newt t (by omega) ht with g | ⟨_, g⟩
        · have := (G.emb b hb hlb).tlt u hu; omega
        · rw [g] at hd; cases hd
    · rw [upd_ne _ _ e] at ht hd ⊢
      by_cases e2 : b = j
      · subst e2
        rw [upd_same] at hu ⊢
        by_cases h : u < (sl b).l.nt
        · rw [O.hτ u h]; exact G.threads a ha hla b hb hlb hne t ht hd u h
        · rcases O.newt u (by omega) hu with g | ⟨g, _⟩
          · have := (G.emb a ha hla).tlt t ht; omega
          · rw [g]; exact G.threads a ha hla b hb hlb hne t ht hd 0 (G.emb b hb hlb).nt
      · rw [upd_ne _ _ e2] at hu ⊢
        exact G.threads a ha hla b hb hlb hne t ht hd u hu
  · intro a ha hla u hu
    obtain ⟨h1, h2, h3⟩ := G.owned a ha hla u hu
    exact ⟨Nat.lt_of_lt_of_le h1 O.snt, (O.sdet u h1).trans h2, h3⟩
  · intro a ha hla u hu b hb hlb hne t ht
    by_cases e2 : b = j
    · subst e2
      rw [upd_same] at ht ⊢
      by_cases h : t < (sl b).l.nt
      · rw [O.hτ t h]; exact G.apart a ha hla u hu b hb hlb hne t h
      · rcases O.newt t (by omega) ht with g | ⟨g, _⟩
        · have := (G.owned a ha hla u hu).1; omega
        · rw [g]; exact G.apart a ha hla u hu b hb hlb hne 0 (G.emb b hb hlb).nt
    · rw [upd_ne _ _ e2] at ht ⊢
      exact G.apart a ha hla u hu b hb hlb hne t ht

/-- Abandoning one reader leaves the others alone. -/
theorem Group.dropped {s : AState} {N : Nat} {det : Nat → Option Nat} {live : Nat → Bool} {sl : Nat → Slot}
    (G : Group s N det live sl) {j : Nat} (hj : j < N) (hl : live j = true) {ε : Type} {rt} (hr : Root s rt) :
    ∃ s', (dropDet (det j) : IProg ε Unit).run AState.mach s = ([], .ok (s', ())) ∧ Root s' rt ∧
      Group s' N det (upd live j false) sl := by
  have hlive : ∀ {k}, upd live j false k = true → k ≠ j ∧ live k = true := by
    intro k h
    by_cases e : k = j
    · subst e; simp at h
    · rw [upd_ne _ _ e] at h; exact ⟨e, h⟩
  cases hd : det j with
  | none =>
    exact ⟨s, rfl, hr, G.wf, fun k hk h => G.emb k hk (hlive h).2, fun k hk h => G.wl k hk (hlive h).2,
      fun k hk h => G.env k hk (hlive h).2,
      fun a ha h b hb h' => G.handles a ha (hlive h).2 b hb (hlive h').2,
      fun a ha h b hb h' => G.threads a ha (hlive h).2 b hb (hlive h').2,
      fun a ha h => G.owned a ha (hlive h).2, fun a ha h u hu b hb h' => G.apart a ha (hlive h).2 u hu b hb (hlive h').2⟩
  | some u =>
    obtain ⟨h1, h2, h3⟩ := G.owned j hj hl u hd
    obtain ⟨s', e1, e2, e3, e4, e5, e6⟩ := detach_ok h1 h2
    refine ⟨s', ?_, ?_, ?_⟩
    · simp only [dropDet]; rw [arun_op e1]; rfl
    · have hc : s'.coll 0 = s.coll 0 := by rw [e4]
      exact ⟨by rw [e2]; exact hr.n, by rw [e3]; exact hr.nt, (e5 0 (fun h => h3 h.symm)).trans hr.dead, by rw [e6]; exact hr.det,
        by rw [hc]; exact hr.kind, by rw [hc]; exact hr.thr, by rw [hc]; exact hr.done, by rw [hc]; exact hr.elided,
        by rw [hc]; exact hr.rest, by rw [hc]; exact hr.e⟩
    · refine ⟨G.wf.step e1, ?_, fun k hk h => G.wl k hk (hlive h).2,
        fun k hk h => G.env k hk (hlive h).2,
        fun a ha h b hb h' => G.handles a ha (hlive h).2 b hb (hlive h').2,
        fun a ha h b hb h' => G.threads a ha (hlive h).2 b hb (hlive h').2,
        fun a ha h u' hu' => ?_, fun a ha h u hu b hb h' => G.apart a ha (hlive h).2 u hu b hb (hlive h').2⟩
      · intro k hk h
        obtain ⟨hne, hlk⟩ := hlive h
        have Ek := G.emb k hk hlk
        refine ⟨by rw [e2]; exact Ek.lt, Ek.inj, by rw [e4]; exact Ek.coll, Ek.kind, Ek.n, by rw [e2]; exact Ek.sn, Ek.pos, Ek.nt,
          Ek.det0, Ek.detnew, by rw [e3]; exact Ek.tlt, Ek.tpos, ?_, by rw [e6]; exact Ek.det, Ek.tinj⟩
        intro t ht
        rw [e5 _ (G.apart j hj hl u hd k hk hlk (fun h => hne h.symm) t ht)]
        exact Ek.dead t ht
      · rw [e3, e6]; exact G.owned a ha (hlive h).2 u' hu'

/-- Readers of a group behave as if they were alone. -/
theorem interleave_run {ε α : Type} (N : Nat) (det : Nat → Option Nat) (res : Nat → VReader α) {rt} :
    ∀ (sched : List Turn) (s : AState) (rd : Nat → VReader α) (live : Nat → Bool) (sl : Nat → Slot),
    Group s N det live sl → Root s rt →
    (∀ j < N, live j = true → ∃ (out : List ε) (l' : AState) (e' : Env),
      ((rd j).steps (ownSteps j sched) (sl j).env).run AState.mach (sl j).l = (out, .ok (l', (res j, e')))) →
    (∀ j < N, live j = false → rd j = res j) →
    ∃ s' ps, (interleave sched (parties N rd det live sl) : IProg ε _).run AState.mach s = ([], .ok (s', ps)) ∧ WF s' ∧
      Root s' rt ∧ ps.map Party.reader = (List.range N).map res := by
  intro sched
  induction sched with
  | nil =>
    intro s rd live sl G hr h1 h2
    refine ⟨s, _, rfl, G.wf, hr, ?_⟩
    simp only [parties, List.map_map]
    apply List.map_congr_left
    intro j hj
    have hj : j < N := List.mem_range.1 hj
    show rd j = res j
    cases hl : live j with
    | false => exact h2 j hj hl
    | true =>
      obtain ⟨out, l', e', e⟩ := h1 j hj hl
      simp only [ownSteps, VReader.steps, IProg.run_ret, Prod.mk.injEq, Except.ok.injEq] at e
      exact e.2.2.1
  | cons t sched ih =>
    intro s rd live sl G hr h1 h2
    have hget : ∀ j, (parties N rd det live sl)[j]? =
        if j < N then some ⟨rd j, (sl j).env.ren (sl j).ρ (sl j).τ, det j, live j⟩ else none := by
      intro j
      simp only [parties, List.getElem?_map, List.getElem?_range]
      by_cases h : j < N
      · simp [h]
      · simp [h]
    cases t with
    | step j =>
      simp only [interleave, hget]
      by_cases hj : j < N
      · simp only [hj, if_true]
        cases hl : live j with
        | false =>
          simp only [Bool.false_eq_true, if_false]
          refine ih s rd live sl G hr ?_ h2
          intro k hk hlk
          have hne : j ≠ k := fun e => by rw [e, hlk] at hl; cases hl
          have := h1 k hk hlk
          rwa [ownSteps, if_neg hne] at this
        | true =>
          simp only [if_true]
          obtain ⟨out, l', e', e⟩ := h1 j hj hl
          rw [ownSteps, if_pos rfl] at e
          obtain ⟨o1, o2, l1, r1, e1, f1, f2⟩ := steps_ok e
          obtain ⟨ρ', τ', s', g1, g2, g3, g4⟩ := reader_step (G.emb j hj hl) (G.wl j hj hl) G.wf (G.env j hj hl) f1
          have wl1 : WF l1 := IProg.wf_run _ (G.wl j hj hl) (by rw [f1])
          have ws1 : WF s' := IProg.wf_run _ G.wf (by rw [g1])
          have G' := G.stepped (x := ⟨ρ', τ', l1, e1⟩) hj hl ws1 g2 g3 wl1 g4
          have hps : (parties N rd det live sl).set j
              { reader := r1, env := e1.ren ρ' τ', det := det j, live := true } =
              parties N (upd rd j r1) det live (upd sl j ⟨ρ', τ', l1, e1⟩) := by
            simp only [parties, range_set]
            apply List.map_congr_left
            intro k _
            by_cases ek : k = j
            · subst ek; simp [hl]
            · simp [upd_ne, ek]
          obtain ⟨s2, ps, k1, k2⟩ := ih s' (upd rd j r1) live (upd sl j ⟨ρ', τ', l1, e1⟩) G'
            (root_outside (G.emb j hj hl) g3 hr)
            (by
              intro k hk hlk
              by_cases ek : k = j
              · subst ek; simp only [upd_same]; exact ⟨o2, l', e', f2⟩
              · simp only [upd_ne _ _ ek]
                have := h1 k hk hlk
                rwa [ownSteps, if_neg (fun h => ek h.symm)] at this)
            (by
              intro k hk hlk
              have ek : k ≠ j := fun e => by rw [e, hl] at hlk; cases hlk
              rw [upd_ne _ _ ek]; exact h2 k hk hlk)
          refine ⟨s2, ps, ?_, k2⟩
          rw [run_ok_bind g1]
          simp only [hps, k1]
          rfl
      · simp only [hj, if_false]
        refine ih s rd live sl G hr ?_ h2
        intro k hk hlk
        have := h1 k hk hlk
        rwa [ownSteps, if_neg (by omega)] at this
    | drop j =>
      simp only [interleave, hget]
      by_cases hj : j < N
      · simp only [hj, if_true]
        cases hl : live j with
        | false =>
          simp only [Bool.false_eq_true, if_false]
          refine ih s rd live sl G hr ?_ h2
          intro k hk hlk
          have hne : j ≠ k := fun e => by rw [e, hlk] at hl; cases hl
          have := h1 k hk hlk
          rwa [ownSteps, if_neg hne] at this
        | true =>
          simp only [if_true]
          obtain ⟨s', g1, g2, g3⟩ := G.dropped (ε := ε) hj hl hr
          have hps : (parties N rd det live sl).set j
              { reader := rd j, env := (sl j).env.ren (sl j).ρ (sl j).τ, det := det j, live := false } =
              parties N rd det (upd live j false) sl := by
            simp only [parties, range_set]
            apply List.map_congr_left
            intro k _
            by_cases ek : k = j
            · subst ek; simp
            · simp [upd_ne, ek]
          obtain ⟨s2, ps, k1, k2⟩ := ih s' rd (upd live j false) sl g3 g2
            (by
              intro k hk hlk
              by_cases ek : k = j
              · subst ek; simp at hlk
              · rw [upd_ne _ _ ek] at hlk
                have := h1 k hk hlk
                rwa [ownSteps, if_neg (fun h => ek h.symm)] at this)
            (by
              intro k hk hlk
              by_cases ek : k = j
              · subst ek
                obtain ⟨out, l', e', e⟩ := h1 k hk hl
                rw [ownSteps, if_pos rfl] at e
                simp only [VReader.steps, IProg.run_ret, Prod.mk.injEq, Except.ok.injEq] at e
                exact e.2.2.1
              · rw [upd_ne _ _ ek] at hlk; exact h2 k hk hlk)
          refine ⟨s2, ps, ?_, k2⟩
          rw [run_ok_bind g1]
          simp only [hps, k1]
          rfl
      · simp only [hj, if_false]
        refine ih s rd live sl G hr ?_ h2
        intro k hk hlk
        have := h1 k hk hlk
        rwa [ownSteps, if_neg (by omega)] at this

end Verif
