import Verif.PathSim2

/-!
# The engine on handles does what it does on values: loops
-/

set_option linter.unusedSimpArgs false
set_option linter.unusedVariables false

namespace Verif.JPath
open AState IProg GoJson

variable {ε φ ψ : Type} {C : Nat → Prop} {J : AState → Prop} {G P : JVal → Prop} {R : List ε → φ → ψ → Prop}
variable {fin : φ → Val → IProg ε (φ × Bool)} {tfin : ψ → JVal → ψ × Bool}

/-- Something else is done. -/
theorem Ok.more {b s F F'} {S : Stack ε} {acc T' q' s' S' o q s''} (h : Ok (φ := φ) (ψ := ψ) C J G P R b s F S acc T' q' s' S' o q)
    (hm : Mod F' s' s'') (hj : J s'') (hd : ∀ i ∈ idxs S', ¬ F' i) (hF : ∀ i < s.n, F' i → F i ∨ i ∈ idxs S) :
    Ok C J G P R b s F S acc T' q' s'' S' o q := by
  refine ⟨⟨hm.wf, hj, stack_mod hm h.inv.wf h.inv.rel hd, h.inv.nodup, h.inv.clone, h.inv.fin, h.inv.prot⟩, h.mod.trans hm hF, ?_, h.len⟩
  intro i hi
  unfold NewPend
  rw [hm.eff.coll i (h.inv.lt i hi) (hd i hi)]
  exact h.new i hi

/-- What a loop may change: its handles, and current values from `n0` on. -/
def LF (s : AState) (n0 : Nat) (A : Nat → Prop) (h : Nat) : Prop := A h ∨ (n0 ≤ h ∧ Sub s h)

theorem LF.back {F : Nat → Prop} {s s' : AState} {n0 : Nat} {A : Nat → Prop} {h : Nat} (hm : Mod F s s') (hh : h < s.n) (e : LF s' n0 A h) :
    LF s n0 A h := by
  rcases e with e | ⟨e, g, hg, k, e'⟩
  · exact .inl e
  · rcases hm.eff.cur g hg k h e' with e' | e'
    · omega
    · exact .inr ⟨e, g, e'.1, k, e'.2⟩

theorem LF.own {s : AState} {n0 : Nat} {A : Nat → Prop} {h : Nat} (ho : Own s h) (ha : ¬ A h) : ¬ LF s n0 A h := by
  rintro (e | ⟨_, g, hg, k, e⟩)
  · exact ha e
  · exact ho.orphan g hg k e

theorem LF.chain {s : AState} {n0 i h : Nat} {A : Nat → Prop} (hi : A i) (e : AState.Chain s n0 i h) : LF s n0 A h :=
  Or.imp (fun e => (show h = i from e) ▸ hi) id e

/-- What a loop over handles `A` needs. -/
structure Loop (C : Nat → Prop) (n0 : Nat) (A : Nat → Prop) : Prop where
  ctx : ∀ h, C h → h < n0 ∧ ¬ A h
  lt : ∀ h, A h → h < n0

theorem Loop.noC {n0 : Nat} {A : Nat → Prop} (hl : Loop C n0 A) {s : AState} : ∀ h, C h → ¬ LF s n0 A h := by
  rintro h hc (e | e)
  · exact (hl.ctx h hc).2 e
  · have := (hl.ctx h hc).1; omega

theorem cloneDesc_ok (hFr : Frame C J) (desc : Bool) {s : AState} {S : Stack ε} {T acc} {q : φ} {q' : ψ} {x : Val} {v : JVal} {b : Bool}
    (hi : Inv C J G P R b s S T acc q q') (hx : Fresh s x v) (hxi : ∀ j, x.idx = some j → ¬ C j ∧ j ∉ idxs S) :
    ∃ s1 p, (cloneDesc desc x : IProg ε _).run AState.mach s = ([], .ok (s1, p)) ∧
      Ok C J G P R b s (fun j => x.idx = some j) S acc T q' s1 S [] q ∧ Fresh s1 x v ∧
      (desc = true → Owned s1 p v ∧ ∀ j, p.1.idx = some j → s.n ≤ j) ∧ (desc = false → p.2 = none) ∧
      (∀ j, p.1.idx = some j → x.idx = some j ∨ s.n ≤ j) := by
  cases desc with
  | false => exact ⟨s, (x, none), rfl, Ok.refl hi, hx, (nomatch ·), fun _ => rfl, fun j e => .inl e⟩
  | true =>
    obtain ⟨s', p, e1, e2, e3, e4, e5⟩ := cloneIf_run (ε := ε) hi.wf hx
    refine ⟨s', p, e1, ?_, e3, fun _ => ⟨e4, fun j hj => (e5 j hj).1⟩, (nomatch ·), fun j hj => .inr (e5 j hj).1⟩
    exact (Ok.refl hi).more e2 (hFr.keep hi.j e2 (fun i hc e => (hxi i e).1 hc)) (fun i h e => (hxi i e).2 h) (fun i _ e => .inl e)

theorem roundEnd_ok (hFr : Frame C J) (desc : Bool) {D : JVal → Prop}
    {self : Stack ε → φ → Val → IProg ε (Stack ε × φ × Bool)} {tself : TStack → ψ → JVal → TStack × ψ × Bool}
    {s : AState} {acc : List ε} {p : Val × Option Nat} {v : JVal} {t' T'} {q1' : ψ} {d' ds'} {q1 : φ} (r : Bool)
    (hi : Inv C J G P R false s (d' :: ds') (t' :: T') acc q1 q1')
    (hp : desc = true → Owned s p v ∧ ∀ j, p.1.idx = some j → ¬ C j ∧ j ∉ idxs (d' :: ds')) (hn : desc = false → p.2 = none)
    (hself : desc = true → FollowOk C J G P D R self tself ∧ D v) :
    ∃ s3 o3 d3 ds3 q3, (roundEnd desc self p (d', ds', q1, r)).run AState.mach s =
        (o3, .ok (s3, ((troundEnd desc tself v (t', T', q1', r)).1, d3, ds3, q3, (troundEnd desc tself v (t', T', q1', r)).2.2.2.2))) ∧
      Ok C J G P R false s (fun j => desc = true ∧ p.1.idx = some j) (d' :: ds') acc
        ((troundEnd desc tself v (t', T', q1', r)).2.1 :: (troundEnd desc tself v (t', T', q1', r)).2.2.1)
        (troundEnd desc tself v (t', T', q1', r)).2.2.2.1 s3 (d3 :: ds3) o3 q3 := by
  cases desc with
  | false =>
    have hn := hn rfl
    cases r with
    | false =>
      refine ⟨s, [], d', ds', q1, ?_, Ok.refl hi⟩
      simp only [roundEnd, troundEnd, hn, Bool.false_eq_true, if_false]
      rfl
    | true =>
      refine ⟨s, [], d', ds', q1, ?_, Ok.refl hi⟩
      simp only [roundEnd, troundEnd, Bool.false_eq_true, if_false, if_true, rel2_isEmpty hi.head.1]
      rfl
  | true =>
    obtain ⟨ho, hp⟩ := hp rfl
    simp only [true_and]
    cases r with
    | false =>
      obtain ⟨s3, e1, e2⟩ := (Ok.refl (F := fun j => p.1.idx = some j) hi).detach hFr hi (fun i e => (hp i e).1) ho (fun i e => e)
        (fun i e => (hp i e).2)
      refine ⟨s3, [], d', ds', q1, ?_, e2⟩
      simp only [roundEnd, troundEnd, Bool.false_eq_true, if_false]
      rw [run_ok_bind e1]
      rfl
    | true =>
      obtain ⟨hf, hD⟩ := hself rfl
      obtain ⟨s3, o3, ds3, q3, f1, f2⟩ := hf s ds' T' q1 q1' acc p.1 v hi.tail ho.fresh hD
        (fun j hj => ⟨(hp j hj).1, fun e => (hp j hj).2 (by simp [e])⟩)
      obtain ⟨h1, h2, h3⟩ := hi.head
      have hpush := f2.push (S := d' :: ds') (F' := fun j => p.1.idx = some j) (c := d'.shouldClone) (b := false) hFr hi.wf hi.j h1 h2
        (fun i hi' => ⟨(h3 i hi').1, fun e => (hp i e).2 (by simp [hi']), (h3 i hi').2⟩) (fun e => nomatch e) rfl
        (fun i hi' => by simp only [idxs_cons, List.mem_append]; exact hi'.symm) (fun i _ e => .inl e)
      obtain ⟨s4, e1, e2⟩ := hpush.detach hFr hi (fun i e => (hp i e).1) ho (fun i e => e) (fun i e => (hp i e).2)
      refine ⟨s4, o3, _, ds3, q3, ?_, e2⟩
      simp only [roundEnd, troundEnd, if_true]
      rw [run_ok_bind f1, run_ok_bind e1]
      simp [IProg.run]

/-- The negative index is computed from what is left of a clone. -/
def Ahead (s : AState) (n0 : Nat) : Option Nat → Option Nat → Prop
  | none, none => True
  | some a, some n => (∃ rest e, Before s n0 a .arr rest e ∧ rest.length = n) ∨
      (n = 0 ∧ a < s.n ∧ (s.coll a).done = true ∧ (s.coll a).kind = .arr)
  | _, _ => False

theorem Ahead.mod {F : Nat → Prop} {s s' : AState} {n0 : Nat} {a w : Option Nat} (h : Ahead s n0 a w) (hm : Mod F s s')
    (hF : ∀ i, a = some i → ¬ F i) : Ahead s' n0 a w := by
  cases a with
  | none => cases w <;> exact h
  | some a =>
    cases w with
    | none => exact h
    | some n =>
      rcases h with ⟨rest, e, h1, h2⟩ | ⟨h1, h2, h3, h4⟩
      · exact .inl ⟨rest, e, hm.before h1 (hF a rfl), h2⟩
      · refine .inr ⟨h1, Nat.lt_of_lt_of_le h2 hm.n, ?_⟩
        rw [hm.eff.coll a h2 (hF a rfl)]
        exact ⟨h3, h4⟩

theorem nextNeg_run {s : AState} {n0 : Nat} {ahead : Option Nat} {w : Int × Option Nat} (hw : WF s) (ha : Ahead s n0 ahead w.2) :
    ∃ s', (nextNeg ahead w.1 : IProg ε Int).run AState.mach s = ([], .ok (s', (windowNext w.1 w.2).1)) ∧
      Mod (fun h => ∃ a, ahead = some a ∧ AState.Chain s n0 a h) s s' ∧ Ahead s' n0 ahead (windowNext w.1 w.2).2 := by
  obtain ⟨neg, w⟩ := w
  cases ahead with
  | none =>
    cases w with
    | some n => exact ha.elim
    | none => exact ⟨s, rfl, .refl hw, trivial⟩
  | some a =>
    cases w with
    | none => exact ha.elim
    | some n =>
      rcases ha with ⟨rest, e, h1, h2⟩ | ⟨h1, h2, h3, h4⟩
      · cases rest with
        | nil =>
          cases h2
          obtain ⟨s', e1, e2, e3, e4, e5⟩ := adv_nil_mod hw h1 (by simp)
          refine ⟨s', ?_, e2.mono hw (fun i _ e => ⟨a, rfl, e⟩), .inr ⟨rfl, e5, e3, e4⟩⟩
          simp only [nextNeg]
          rw [arun_op e1]
          rfl
        | cons m rest =>
          cases h2
          obtain ⟨s', x, e1, e2, e3, e4, e5, e6⟩ := adv_cons_mod hw h1
          refine ⟨s', ?_, e4.mono hw (fun i _ e => ⟨a, rfl, e⟩), .inl ⟨rest, e, e3, rfl⟩⟩
          simp only [nextNeg]
          rw [arun_op e1]
          rfl
      · subst h1
        refine ⟨s, ?_, .refl hw, .inr ⟨rfl, h2, h3, h4⟩⟩
        simp only [nextNeg]
        rw [arun_op (adv_done h2 h3 (by rw [h4]; simp))]
        rfl

theorem lookLoop_run {look : Int} {n0 a : Nat} : ∀ (rest : List (Option Scalar × JVal)) (f : Nat) (neg : Int) (s : AState) (e : Bool), WF s →
    Before s n0 a .arr rest e → rest.length < f →
    ∃ s', (lookLoop look a f neg : IProg ε Int).run AState.mach s = ([], .ok (s', (windowStart look neg rest.length).1)) ∧
      Mod (LF s n0 (· = a)) s s' ∧ Ahead s' n0 (some a) (some (windowStart look neg rest.length).2) := by
  intro rest
  induction rest with
  | nil =>
    intro f neg s e hw hb hf
    cases f with
    | zero => omega
    | succ f =>
      simp only [lookLoop]
      split
      · obtain ⟨s', e1, e2, e3, e4, e5⟩ := adv_nil_mod hw hb (by simp)
        rw [arun_op e1]
        exact ⟨s', rfl, e2.mono hw (fun i _ e => LF.chain rfl e), .inr ⟨rfl, e5, e3, e4⟩⟩
      · exact ⟨s, rfl, .refl hw, .inl ⟨[], e, hb, rfl⟩⟩
  | cons m rest ih =>
    intro f neg s e hw hb hf
    cases f with
    | zero => omega
    | succ f =>
      simp only [lookLoop]
      by_cases hc : neg + look ≥ 0
      · rw [if_pos hc]
        obtain ⟨s', x, e1, e2, e3, e4, e5, e6⟩ := adv_cons_mod hw hb
        rw [arun_op e1]
        obtain ⟨s2, f1, f2, f3⟩ := ih f (neg - 1) s' e e4.wf e3 (by simp at hf; omega)
        simp only [List.length_cons, windowStart, if_pos hc]
        exact ⟨s2, f1, (e4.mono (F' := LF s n0 (· = a)) hw (fun i _ e => LF.chain rfl e)).trans f2 (fun i hi e => e.back e4 hi), f3⟩
      · rw [if_neg hc]
        simp only [List.length_cons, windowStart, if_neg hc]
        exact ⟨s, rfl, .refl hw, .inl ⟨m :: rest, e, hb, rfl⟩⟩

/-- Advance to the next member in a loop. -/
theorem adv_ok (hFr : Frame C J) {n0 i : Nat} {A : Nat → Prop} (hl : Loop C n0 A) (hA : A i) {s : AState} {S : Stack ε} {T acc} {q : φ} {q' : ψ}
    {b : Bool} {k key v rest e} (hi : Inv C J G P R b s S T acc q q') (hS : ∀ h, A h → h ∉ idxs S) (hb : Before s n0 i k ((key, v) :: rest) e) :
    ∃ s1 x, s.step (.advance i) = .ok (s1, true) ∧ s1.step (.current i) = .ok (s1, (key, some x)) ∧ Before s1 n0 i k rest e ∧
      Ok C J G P R b s (LF s n0 A) S acc T q' s1 S [] q ∧ Mod (AState.Chain s n0 i) s s1 ∧ Fresh s1 x v ∧ (∀ j, x.idx = some j → s.n ≤ j) ∧
      (∀ j, x.idx = some j → ¬ C j ∧ j ∉ idxs S) := by
  obtain ⟨s', x, e1, e2, e3, e4, e5, e6⟩ := adv_cons_mod hi.wf hb
  have hm : Mod (LF s n0 A) s s' := e4.mono hi.wf (fun i _ e => LF.chain hA e)
  refine ⟨s', x, e1, e2, e3, (Ok.refl hi).more hm (hFr.keep hi.j hm hl.noC) ?_ (fun i _ e => .inl e), e4, e5, e6, ?_⟩
  · intro h hh
    exact LF.own (hi.own h hh) (fun e => hS h e hh)
  · intro j hj
    have := e6 j hj
    exact ⟨fun e => by have := hFr.lt hi.j j e; omega, fun e => by have := hi.lt j e; omega⟩

theorem adv_end_ok (hFr : Frame C J) {n0 i : Nat} {A : Nat → Prop} (hl : Loop C n0 A) (hA : A i) {s : AState} {S : Stack ε} {T acc} {q : φ} {q' : ψ}
    {b : Bool} {k e} (hi : Inv C J G P R b s S T acc q q') (hS : ∀ h, A h → h ∉ idxs S) (hb : Before s n0 i k [] e) (hk : k ≠ .top) :
    ∃ s1, s.step (.advance i) = .ok (s1, false) ∧ Ok C J G P R b s (LF s n0 A) S acc T q' s1 S [] q := by
  obtain ⟨s', e1, e2, e3⟩ := adv_nil_mod hi.wf hb hk
  have hm : Mod (LF s n0 A) s s' := e2.mono hi.wf (fun i _ e => LF.chain hA e)
  refine ⟨s', e1, (Ok.refl hi).more hm (hFr.keep hi.j hm hl.noC) ?_ (fun i _ e => .inl e)⟩
  intro h hh
  exact LF.own (hi.own h hh) (fun e => hS h e hh)

/-- The next round of a loop. -/
theorem Ok.round {b b' s F' n0 A} {S : Stack ε} {acc T1 q1' s1 S1 o1 q1 T2 q2' s2 S2 o2 q2}
    (h : Ok (φ := φ) (ψ := ψ) C J G P R b s (LF s n0 A) S acc T1 q1' s1 S1 o1 q1)
    (h' : Ok C J G P R b' s1 F' S1 (acc ++ o1) T2 q2' s2 S2 o2 q2) (hF : ∀ i < s.n, F' i → LF s1 n0 A i) :
    Ok C J G P R b' s (LF s n0 A) S acc T2 q2' s2 S2 (o1 ++ o2) q2 :=
  h.trans h' (fun i hi e => .inl ((hF i hi e).back h.mod hi))

theorem Ok.still {b s F} {S : Stack ε} {acc T' q' s' S' o q} (h : Ok (φ := φ) (ψ := ψ) C J G P R b s F S acc T' q' s' S' o q) {A : Nat → Prop}
    (hA : ∀ h, A h → h < s.n) (hS : ∀ h, A h → h ∉ idxs S) : ∀ h, A h → h ∉ idxs S' := by
  intro i hi e
  rcases (h.new i e).lo with e | e
  · exact hS i hi e
  · have := hA i hi; omega

/-- What the values in a collection must satisfy. -/
structure MemOk (G D E : JVal → Prop) (m : Option Scalar × JVal) : Prop where
  good : G m.2
  follow : D m.2
  self : E m.2

theorem objRelaxed_ok (hFr : Frame C J) (hfin : FinOk R G fin tfin) (desc : Bool) {D E Q : JVal → Prop}
    {follow self : Stack ε → φ → Val → IProg ε (Stack ε × φ × Bool)} {tfollow tself : TStack → ψ → JVal → TStack × ψ × Bool}
    (hf : FollowOk C J G P (fun v => D v ∧ Q v) R follow tfollow) (hk : Keeps tfollow) (hself : FollowOk C J G P E R self tself) (hks : desc = true → Keeps tself) {n0 i : Nat} (hl : Loop C n0 (· = i)) {e : Bool} :
    ∀ (rest : List (Option Scalar × JVal)) (f : Nat) (s : AState) (d : Disp ε) (t : List TSt) (ds : Stack ε) (T : TStack) (acc : List ε) (q : φ) (q' : ψ),
    rest.length < f → Inv C J G P R false s (d :: ds) (t :: T) acc q q' → Before s n0 i .obj rest e → i ∉ idxs (d :: ds) →
    Sound Q (sh t) (objItems rest) → (∀ m ∈ rest, MemOk G D (fun v => desc = true → E v) m ∧ ∃ k key, m.1 = some k ∧ toStr k = some key) →
    ∃ s' o d' ds' q1, (objRelaxed fin desc follow self i f d ds q).run AState.mach s =
        (o, .ok (s', (d', ds', q1, (tobjRelaxed tfin desc tfollow tself rest t T q').2.2.2))) ∧
      Ok C J G P R false s (LF s n0 (· = i)) (d :: ds) acc
        ((tobjRelaxed tfin desc tfollow tself rest t T q').1 :: (tobjRelaxed tfin desc tfollow tself rest t T q').2.1)
        (tobjRelaxed tfin desc tfollow tself rest t T q').2.2.1 s' (d' :: ds') o q1 := by
  intro rest
  induction rest with
  | nil =>
    intro f s d t ds T acc q q' hlen hi hb hS hso hm
    cases f with
    | zero => omega
    | succ f =>
      obtain ⟨s1, e1, e2⟩ := adv_end_ok hFr hl rfl hi (fun h e => e ▸ hS) hb (by simp)
      refine ⟨s1, [], d, ds, q, ?_, e2⟩
      simp only [objRelaxed]
      rw [arun_op e1]
      rfl
  | cons m rest ih =>
    intro f s d t ds T acc q q' hlen hi hb hS hso hm
    cases f with
    | zero => omega
    | succ f =>
      obtain ⟨k, v⟩ := m
      obtain ⟨hmo, k0, key, hk, hkey⟩ := hm (k, v) List.mem_cons_self
      simp only at hk
      subst hk
      obtain ⟨s1, x, a1, a2, a3, a4, a5, a6, a7, a8⟩ := adv_ok hFr hl rfl hi (fun h e => e ▸ hS) hb
      have hi1 := a4.inv
      rw [List.append_nil] at hi1
      obtain ⟨s2, p, b1, b2, b3, b4, b5, b6⟩ := cloneDesc_ok hFr desc hi1 a6 a8
      have hi2 := b2.inv
      rw [List.append_nil] at hi2
      have hkt : tkey (some k0) = key := by simp [tkey, hkey]
      obtain ⟨hsv, hso'⟩ := Sound.step (hkt ▸ hso : Sound Q (sh t) ((fun s => s.fromKey key, v) :: objItems rest))
      rw [← (dispatch_keeps (fin := tfin) hk (·.fromKey key) v t T q').1] at hso'
      rw [← (roundEnd_keeps (desc := desc) (self := tself) hks v (tdispatch tfin tfollow (·.fromKey key) v t T q')).1] at hso'
      obtain ⟨s3, o3, d3, ds3, q3, c1, c2⟩ := dispatchItem_ok (dec := (·.fromKey key)) (tdec := (·.fromKey key)) hFr hfin hf
        (fun a b h => h.fromKey key) hmo.good (fun ha => ⟨hmo.follow, hsv ha⟩) hi2 b3 a8
      have hin : i < s.n := hb.lt
      have hn1 := a5.n
      have hpo : desc = true → Owned s3 p v ∧ ∀ j, p.1.idx = some j → ¬ C j ∧ j ∉ idxs (d3 :: ds3) := fun hd => by
        have hpj : ∀ j, p.1.idx = some j → ¬ x.idx = some j ∧ j ∉ idxs (d :: ds) ∧ ¬ C j := fun j hj => by
          have := (b4 hd).2 j hj
          exact ⟨fun e => by have := a6.lt j e; omega, fun e => by have := hi1.lt j e; omega, fun e => by have := hFr.lt hi1.j j e; omega⟩
        refine ⟨c2.mod.owned hi2.wf (b4 hd).1 (fun j hj e => e.elim (hpj j hj).1 (hpj j hj).2.1), fun j hj => ⟨(hpj j hj).2.2, ?_⟩⟩
        exact c2.still (A := fun j => p.1.idx = some j) (fun h e => (b4 hd).1.fresh.lt h e) (fun h e => (hpj h e).2.1) j hj
      obtain ⟨s4, o4, d4, ds4, q4, g1, g2⟩ := roundEnd_ok (self := self) (tself := tself) (p := p) (v := v) hFr desc
        (tdispatch tfin tfollow (·.fromKey key) v t T q').2.2.2 c2.inv hpo b5 (fun hd => ⟨hself, hmo.self hd⟩)
      -- the round
      have r1 := (b2.trans0 c2 (fun j hj e => .inl e)).trans g2 (fun j hj e => by have := (b4 e.1).2 j e.2; omega)
      have r2 := a4.trans0 r1 (fun j hj e => by have := a7 j e; omega)
      have hb4 : Before s4 n0 i .obj rest e := r1.mod.before a3 (fun e => e.elim (fun e => by have := a7 i e; omega) hS)
      have hS4 := r2.still (A := (· = i)) (fun h e => e ▸ hin) (fun h e => e ▸ hS)
      simp only [objRelaxed, tobjRelaxed, hkt]
      rw [arun_op a1]
      simp only [if_true]
      rw [arun_op a2]
      simp only [hkey]
      rw [run_ok_bind b1, run_ok_bind c1, run_ok_bind g1]
      simp only
      generalize troundEnd desc tself v (tdispatch tfin tfollow (fun x => x.fromKey key) v t T q') = rr at *
      obtain ⟨cont, t4, T4, q4', res⟩ := rr
      simp only at g1 g2 r1 r2 hS4 hso' ⊢
      cases cont with
      | false =>
        refine ⟨s4, o3 ++ o4, d4, ds4, q4, ?_, r2⟩
        simp [IProg.run]
      | true =>
        simp only [if_true]
        obtain ⟨s5, o5, d5, ds5, q5, k1, k2⟩ := ih f s4 d4 t4 ds4 T4 (acc ++ (o3 ++ o4)) q4 q4' (by simp at hlen; omega) r2.inv hb4 (hS4 i rfl) hso'
          (fun m hm' => hm m (List.mem_cons_of_mem _ hm'))
        refine ⟨s5, (o3 ++ o4) ++ o5, d5, ds5, q5, ?_, r2.round k2 (fun j _ e => e)⟩
        rw [k1]
        simp

end Verif.JPath
