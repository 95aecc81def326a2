import Verif.PathRun
import Verif.PathSim6

/-!
# Singular queries

What the programs for singular queries do.
-/

set_option linter.unusedSimpArgs false
set_option linter.unusedVariables false

namespace Verif

namespace AState

/-- A member is on the thread of its collection. -/
theorem adv_thr {s s' : AState} {n0 i k key v r e x} (hw : WF s) (h : Before s n0 i k ((key, v) :: r) e)
    (e1 : s.step (.advance i) = .ok (s', true)) (e2 : s'.step (.current i) = .ok (s', (key, some x))) :
    (s'.coll i).thr = (s.coll i).thr ∧ ∀ j, x.idx = some j → (s'.coll j).thr = (s.coll i).thr := by
  obtain ⟨c1, c2, c3, c4⟩ := discardCur_keep hw.links h.lt h.i0 h.cur
  have hb := h.keep c1 h.i0 (by simp)
  have hci := c1.coll i h.i0 (by simp)
  have hadv : s.step (.advance i) = (s.discardCur i).advance' i := by
    simp only [step, advance]
    rw [if_neg (by have := h.lt; omega), if_neg (by rw [h.done]; simp)]
  rw [hadv, ISim.advance'_cons hb.alive hb.rest] at e1
  generalize s.discardCur i = s1 at *
  have hlt := hb.lt
  simp only [Except.ok.injEq, Prod.mk.injEq, and_true] at e1
  have hcur : (s'.coll i).cur = some x := by
    have e2 : (s'.current i).map (fun r => (s', r)) = .ok (s', (key, some x)) := e2
    unfold current at e2
    split at e2
    · cases e2
    · split at e2
      · cases e2
      · simp only [Except.map, Except.ok.injEq, Prod.mk.injEq, true_and] at e2
        exact e2.2
  subst e1
  rw [set_same] at hcur
  have hcur : some (s1.handle v (s1.coll i).thr).2 = some x := hcur
  simp only [Option.some.injEq] at hcur
  rw [set_same]
  have ht : (s1.coll i).thr = (s.coll i).thr := congrArg AColl.thr hci
  refine ⟨ht, fun j hj => ?_⟩
  rw [← hcur] at hj
  rw [← ht]
  cases v with
  | scalar k => cases hj
  | arr items e =>
    cases hj
    rw [set_ne _ _ (by omega)]
    show ((s1.alloc _).coll s1.n).thr = _
    rw [AInv.alloc_new]
  | obj items e =>
    cases hj
    rw [set_ne _ _ (by omega)]
    show ((s1.alloc _).coll s1.n).thr = _
    rw [AInv.alloc_new]

end AState

namespace JPath
open AState IProg GoJson

variable {ε : Type}

/-- The program has found the value, or nothing. -/
def Got (s' : AState) (P : Nat → Prop) (y : Option Val) (o : Option JVal) : Prop :=
  match o with
  | none => y = none
  | some w => ∃ x, y = some x ∧ Fresh s' x w ∧ ∀ j, x.idx = some j → P j

theorem Got.imp {s' : AState} {P Q : Nat → Prop} {y o} (h : Got s' P y o) (hi : ∀ j, P j → Q j) : Got s' Q y o := by
  cases o with
  | none => exact h
  | some w =>
    obtain ⟨x, h1, h2, h3⟩ := h
    exact ⟨x, h1, h2, fun j hj => hi j (h3 j hj)⟩

/-- The first member with this key. -/
def nameVal (n : Bytes) (l : List (Option Scalar × JVal)) : Option JVal :=
  match l with
  | [] => none
  | m :: l => if tkey m.1 = n then some m.2 else nameVal n l

theorem singName_run {n : Bytes} {n0 i : Nat} : ∀ (rest : List (Option Scalar × JVal)) (f : Nat) (s : AState) (e : Bool), WF s →
    Before s n0 i .obj rest e → (∀ m ∈ rest, ∃ k key, m.1 = some k ∧ toStr k = some key) → rest.length < f →
    ∃ s' y, (singName n i f : IProg ε _).run AState.mach s = ([], .ok (s', y)) ∧ Mod (LF s n0 (· = i)) s s' ∧
      Got s' (fun j => s.n ≤ j) y (nameVal n rest) := by
  intro rest
  induction rest with
  | nil =>
    intro f s e hw hb hk hf
    cases f with
    | zero => omega
    | succ f =>
      obtain ⟨s', e1, e2, -⟩ := adv_nil_mod hw hb (by simp)
      simp only [singName]
      rw [arun_op e1]
      exact ⟨s', none, rfl, e2.mono hw (fun i _ e => LF.chain rfl e), rfl⟩
  | cons m rest ih =>
    intro f s e hw hb hk hf
    cases f with
    | zero => omega
    | succ f =>
      obtain ⟨kk, v⟩ := m
      obtain ⟨k, key, hk1, hk2⟩ := hk _ (List.mem_cons_self ..)
      simp only at hk1
      subst hk1
      obtain ⟨s', x, e1, e2, e3, e4, e5, e6⟩ := adv_cons_mod hw hb
      have e4' : Mod (LF s n0 (· = i)) s s' := e4.mono hw (fun i _ e => LF.chain rfl e)
      have htk : tkey (some k) = key := by simp [tkey, hk2]
      simp only [singName]
      rw [arun_op e1]
      simp only [if_true]
      rw [arun_op e2]
      simp only [hk2]
      by_cases hc : key = n
      · have : ((Sel.name n : Sel Unit).fromKey key).yes = true := by simp [Sel.fromKey, hc]
        simp only [this, if_true]
        refine ⟨s', some x, rfl, e4', ?_⟩
        simp only [nameVal, htk, if_pos hc]
        exact ⟨x, rfl, e5, e6⟩
      · have : ((Sel.name n : Sel Unit).fromKey key).yes = false := by simp [Sel.fromKey, hc]
        simp only [this]
        obtain ⟨s2, y, f1, f2, f3⟩ := ih f s' e e4.wf e3 (fun m hm => hk m (List.mem_cons_of_mem _ hm)) (by simp at hf; omega)
        refine ⟨s2, y, f1, e4'.trans f2 (fun i hi e => e.back e4 hi), ?_⟩
        simp only [nameVal, htk, if_neg hc]
        exact f3.imp fun j hj => Nat.le_trans e4.n hj

/-- The item that is selected. -/
def indexVal (j : Int) : List (Option Scalar × JVal) → Int → Int × Option Nat → Option JVal
  | [], _, _ => none
  | m :: l, index, w =>
    if ((.index j : Sel Unit).fromIndex index w.1).yes then some m.2 else indexVal j l (index + 1) (windowNext w.1 w.2)

theorem singIndexLoop_run {j : Int} {n0 i : Nat} {ahead : Option Nat} : ∀ (rest : List (Option Scalar × JVal)) (f : Nat) (index : Int)
    (w : Int × Option Nat) (s : AState) (e : Bool), WF s → Before s n0 i .arr rest e → Ahead s n0 ahead w.2 → (∀ a, ahead = some a → a ≠ i) →
    (∀ a, ahead = some a → a < n0) → rest.length < f →
    ∃ s' y, (singIndexLoop j i ahead f index w.1 : IProg ε _).run AState.mach s = ([], .ok (s', y)) ∧
      Mod (LF s n0 (fun h => h = i ∨ ahead = some h)) s s' ∧
      Got s' (fun h => s.n ≤ h ∧ (s'.coll h).thr = (s.coll i).thr) y (indexVal j rest index w) := by
  intro rest
  induction rest with
  | nil =>
    intro f index w s e hw hb ha hai ha0 hf
    cases f with
    | zero => omega
    | succ f =>
      obtain ⟨s', e1, e2, -⟩ := adv_nil_mod hw hb (by simp)
      simp only [singIndexLoop]
      rw [arun_op e1]
      exact ⟨s', none, rfl, e2.mono hw (fun h _ e => LF.chain (.inl rfl) e), rfl⟩
  | cons m rest ih =>
    intro f index w s e hw hb ha hai ha0 hf
    cases f with
    | zero => omega
    | succ f =>
      obtain ⟨kk, v⟩ := m
      obtain ⟨s', x, e1, e2, e3, e4, e5, e6⟩ := adv_cons_mod hw hb
      obtain ⟨t1, t2⟩ := adv_thr hw hb e1 e2
      have e4' : Mod (LF s n0 (fun h => h = i ∨ ahead = some h)) s s' := e4.mono hw (fun h _ e => LF.chain (.inl rfl) e)
      simp only [singIndexLoop]
      rw [arun_op e1]
      simp only [if_true]
      rw [arun_op e2]
      by_cases hc : ((Sel.index j : Sel Unit).fromIndex index w.1).yes = true
      · simp only [hc, if_true, indexVal]
        exact ⟨s', some x, rfl, e4', x, rfl, e5, fun h hh => ⟨e6 h hh, t2 h hh⟩⟩
      · have hc' : ((Sel.index j : Sel Unit).fromIndex index w.1).yes = false := by simpa using hc
        simp only [hc', indexVal]
        have ha' : Ahead s' n0 ahead w.2 := ha.mod e4 (by
          intro a hae
          rintro (e | ⟨e, -⟩)
          · exact hai a hae e
          · have := ha0 a hae; omega)
        obtain ⟨s2, g1, g2, g3⟩ := nextNeg_run (ε := ε) e4.wf ha'
        have hi2 : ¬ (∃ a, ahead = some a ∧ AState.Chain s' n0 a i) := by
          rintro ⟨a, h1, h2 | ⟨h2, -⟩⟩
          · exact hai a h1 h2.symm
          · have := hb.i0; omega
        have hb2 := g2.before e3 hi2
        have g2' : Mod (LF s' n0 (fun h => h = i ∨ ahead = some h)) s' s2 := by
          refine g2.mono e4.wf ?_
          rintro h _ ⟨a, h1, h2⟩
          exact LF.chain (.inr h1) h2
        obtain ⟨s3, y, f1, f2, f3⟩ := ih f (index + 1) (windowNext w.1 w.2) s2 e g2.wf hb2 g3 hai ha0 (by simp at hf; omega)
        have hm2 := e4'.trans g2' (fun h hi e => e.back e4 hi)
        refine ⟨s3, y, ?_, hm2.trans f2 (fun h hi e => e.back hm2 hi), f3.imp ?_⟩
        · rw [if_neg (by simp), run_ok_bind g1]
          simp only [f1]
          rfl
        · rintro h ⟨h1, h2⟩
          refine ⟨Nat.le_trans hm2.n h1, ?_⟩
          rw [h2, g2.eff.coll i e3.lt hi2, t1]

/-- What the selector of an index selects from an array. -/
def indexValOf (j : Int) (l : List (Option Scalar × JVal)) : Option JVal :=
  indexVal j l 0 (if (.index j : Sel Unit).lookahead > 0 then windowInit (.index j : Sel Unit).lookahead l.length else (minInt64, none))

theorem singIndex_run {j : Int} {i : Nat} {f : Nat} {s : AState} {v : JVal} (hw : WF s) (hx : Fresh s (.coll .arr i) v) (hf : v.members.length < f) :
    ∃ s' y, (singIndex j i f : IProg ε _).run AState.mach s = ([], .ok (s', y)) ∧ Mod (· = i) s s' ∧
      Got s' (fun h => s.n ≤ h) y (indexValOf j v.members) := by
  unfold singIndex indexValOf
  by_cases hc : (Sel.index j : Sel Unit).lookahead > 0
  · simp only [if_pos hc]
    generalize hL : (Sel.index j : Sel Unit).lookahead = look at hc ⊢
    -- the clone
    obtain ⟨s1, p, e1, e2, e3, e4, e5⟩ := clone_mod hw hx
    have hk := (hx.before rfl).1
    obtain ⟨a, ha⟩ : ∃ a, p.1 = .coll .arr a := by
      have := e4.fresh
      cases v with
      | scalar k => cases hx
      | arr items e => obtain ⟨i, _, h, _⟩ := this; exact ⟨i, h⟩
      | obj items e => cases hk
    have hpa : p.1.idx = some a := by rw [ha]; rfl
    have hl := e5 a hpa
    have hlt := e4.fresh.lt a hpa
    have hilt := hx.lt i rfl
    have hilt1 := e3.lt i rfl
    have hb : Before s1 s1.n a .arr v.members v.elision := (e4.fresh.before ha).2
    obtain ⟨s2, f1, f2, f3⟩ := lookLoop_run (ε := ε) (look := look) v.members f 0 s1 v.elision e2.wf hb hf
    have hni : ∀ {s : AState}, ¬ LF s s1.n (· = a) i := by
      rintro s (e | ⟨e, -⟩)
      · omega
      · omega
    have hbi : Before s2 s1.n i .arr v.members v.elision := f2.before (e3.before rfl).2 hni
    obtain ⟨s3, y, g1, g2, g3⟩ := singIndexLoop_run (ε := ε) (j := j) (ahead := some a) v.members f 0 (windowInit look v.members.length) s2 v.elision f2.wf hbi
      (by unfold windowInit; rw [if_pos hc]; exact f3) (by rintro b e; cases e; omega) (by rintro b e; cases e; omega) hf
    have hm : Mod (fun h => h = i ∨ h = a) s1 s3 := by
      refine (f2.mono (F' := fun h => h = i ∨ h = a) e2.wf ?_).trans g2 ?_
      · rintro h hh (e | ⟨e, -⟩)
        · exact .inr e
        · omega
      · rintro h hh (e | ⟨e, -⟩)
        · exact e.imp id fun e => (Option.some.inj e).symm
        · omega
    obtain ⟨s4, k1, k2, k3⟩ := detach_mod (ε := ε) e2.wf hm e4 (fun h hh => by rw [hpa] at hh; exact .inr (Option.some.inj hh).symm)
    have hp2 := (e4.own a hpa).1
    refine ⟨s4, y, ?_, ?_, ?_⟩
    · have : (lookStart look i f : IProg ε _).run AState.mach s = ([], .ok (s2, (some a, p.2, (windowInit look v.members.length).1))) := by
        unfold lookStart windowInit
        rw [if_pos hc, if_pos hc, arun_op e1]
        simp only [ha]
        rw [run_ok_bind f1]
        rfl
      rw [run_ok_bind this]
      simp only
      rw [run_ok_bind g1, run_ok_bind k1]
      rfl
    · refine (e2.mono (F' := (· = i)) hw (fun h _ e => (Option.some.inj e).symm)).trans k2 ?_
      rintro h hh (e | e)
      · exact e
      · omega
    · generalize indexVal j v.members 0 (windowInit look v.members.length) = o at g3
      cases o with
      | none => exact g3
      | some w =>
        obtain ⟨x, h1, h2, h3⟩ := g3
        refine ⟨x, h1, h2.eff k3 (fun h hh => ⟨id, ?_⟩), fun h hh => Nat.le_trans (Nat.le_trans e2.n f2.n) (h3 h hh).1⟩
        rw [(h3 h hh).2, hp2, f2.eff.coll i hilt1 hni]
        intro e
        have := (e4.own a hpa).2.thr i hilt1 (Option.some.inj e).symm
        omega
  · simp only [if_neg hc]
    obtain ⟨s', y, g1, g2, g3⟩ := singIndexLoop_run (ε := ε) (j := j) (ahead := none) v.members f 0 (minInt64, none) s v.elision hw
      (hx.before rfl).2 trivial (fun _ e => nomatch e) (fun _ e => nomatch e) hf
    refine ⟨s', y, g1, g2.mono hw ?_, g3.imp fun h hh => hh.1⟩
    rintro h hh (e | ⟨e, -⟩)
    · exact e.elim id (fun e => nomatch e)
    · omega

/-- The value of a singular query. -/
def singVal : List SingSeg → JVal → Option JVal
  | [], v => some v
  | .name n :: segs, .obj ms e => (nameVal n (JVal.obj ms e).members).bind (singVal segs)
  | .index j :: segs, .arr l e => (indexValOf j (JVal.arr l e).members).bind (singVal segs)
  | _ :: _, _ => none

theorem nameVal_mem {n : Bytes} {w : JVal} : ∀ {l : List (Option Scalar × JVal)}, nameVal n l = some w → ∃ m ∈ l, m.2 = w
  | [], h => nomatch h
  | m :: l, h => by
    simp only [nameVal] at h
    split at h
    · exact ⟨m, List.mem_cons_self .., Option.some.inj h⟩
    · obtain ⟨m', h1, h2⟩ := nameVal_mem h
      exact ⟨m', List.mem_cons_of_mem _ h1, h2⟩

theorem indexVal_mem {j : Int} {w : JVal} : ∀ {l : List (Option Scalar × JVal)} {i : Int} {z}, indexVal j l i z = some w → ∃ m ∈ l, m.2 = w
  | [], _, _, h => nomatch h
  | m :: l, i, z, h => by
    simp only [indexVal] at h
    split at h
    · exact ⟨m, List.mem_cons_self .., Option.some.inj h⟩
    · obtain ⟨m', h1, h2⟩ := indexVal_mem h
      exact ⟨m', List.mem_cons_of_mem _ h1, h2⟩

variable {G : JVal → Prop}

theorem singVal_good (hG : Closed G) : ∀ {segs : List SingSeg} {v w : JVal}, G v → singVal segs v = some w → G w
  | [], v, w, h, e => by cases e; exact h
  | .name n :: segs, .obj ms e, w, h, e' => by
    simp only [singVal, Option.bind_eq_some_iff] at e'
    obtain ⟨u, h1, h2⟩ := e'
    obtain ⟨m, h3, h4⟩ := nameVal_mem h1
    exact singVal_good hG (h4 ▸ hG.mem h m h3) h2
  | .index n :: segs, .arr ms e, w, h, e' => by
    simp only [singVal, Option.bind_eq_some_iff] at e'
    obtain ⟨u, h1, h2⟩ := e'
    obtain ⟨m, h3, h4⟩ := indexVal_mem h1
    exact singVal_good hG (h4 ▸ hG.mem h m h3) h2
  | .name _ :: _, .arr _ _, _, _, e => by simp [singVal] at e
  | .name _ :: _, .scalar _, _, _, e => by simp [singVal] at e
  | .index _ :: _, .obj _ _, _, _, e => by simp [singVal] at e
  | .index _ :: _, .scalar _, _, _, e => by simp [singVal] at e

/-- Singular queries: the value, and what is used. -/
theorem singEval_run (hG : Closed G) {f : Nat} : ∀ (segs : List SingSeg) (s : AState) (x : Val) (v : JVal), WF s → Fresh s x v → G v →
    v.toks.length ≤ f →
    ∃ s' y, (singEval f segs x : IProg ε _).run AState.mach s = ([], .ok (s', y)) ∧ Mod (fun j => x.idx = some j) s s' ∧
      Got s' (fun j => s.n ≤ j ∨ x.idx = some j) y (singVal segs v)
  | [], s, x, v, hw, hx, _, _ => ⟨s, some x, rfl, .refl hw, x, rfl, hx, fun j hj => .inr hj⟩
  | seg :: segs, s, x, v, hw, hx, hg, hf => by
    have hnone : singVal (seg :: segs) v = none → ∀ p : IProg ε (Option Val), p = .ret none →
        ∃ s' y, (p.bind fun r => match r with
          | none => .ret none
          | some y => singEval f segs y : IProg ε (Option Val)).run AState.mach s = ([], .ok (s', y)) ∧ Mod (fun j => x.idx = some j) s s' ∧
          Got s' (fun j => s.n ≤ j ∨ x.idx = some j) y (singVal (seg :: segs) v) := by
      rintro h p rfl
      rw [h]
      exact ⟨s, none, rfl, .refl hw, rfl⟩
    have hlen := members_len v
    have step : ∀ (o : Option JVal) (i : Nat) (p : IProg ε (Option Val)), x.idx = some i → singVal (seg :: segs) v = o.bind (singVal segs) →
        (∀ u, o = some u → ∃ m ∈ v.members, m.2 = u) →
        (∃ s' y, p.run AState.mach s = ([], .ok (s', y)) ∧ Mod (· = i) s s' ∧ Got s' (fun h => s.n ≤ h) y o) →
        ∃ s' y, (p.bind fun r => match r with
          | none => .ret none
          | some y => singEval f segs y : IProg ε (Option Val)).run AState.mach s = ([], .ok (s', y)) ∧ Mod (fun j => x.idx = some j) s s' ∧
          Got s' (fun j => s.n ≤ j ∨ x.idx = some j) y (singVal (seg :: segs) v) := by
      rintro o i p hi ho hmem ⟨s1, y, e1, e2, e3⟩
      have e2' : Mod (fun j => x.idx = some j) s s1 := e2.mono hw (fun h _ e => by rw [hi, e])
      rw [ho]
      cases o with
      | none =>
        cases e3
        exact ⟨s1, none, by rw [run_ok_bind e1]; rfl, e2', rfl⟩
      | some u =>
        obtain ⟨y', h1, h2, h3⟩ := e3
        subst h1
        obtain ⟨m, hm, hmu⟩ := hmem u rfl
        obtain ⟨s2, z, f1, f2, f3⟩ := singEval_run hG (f := f) segs s1 y' u e2.wf h2 (hmu ▸ hG.mem hg m hm)
          (by have := hlen.2 m hm; rw [hmu] at this; omega)
        refine ⟨s2, z, by rw [run_ok_bind e1]; exact f1, e2'.trans f2 ?_, f3.imp ?_⟩
        · intro h hh e
          have := h3 h e; omega
        · rintro h (e | e)
          · exact .inl (Nat.le_trans e2.n e)
          · exact .inl (h3 h e)
    cases v with
    | scalar k =>
      have : x = .scalar k := hx
      subst this
      cases seg <;> exact hnone rfl _ rfl
    | arr l e =>
      obtain ⟨i, t, hxi, -⟩ := id hx
      have hxi : x = .coll .arr i := hxi
      subst hxi
      cases seg with
      | name n => exact hnone rfl _ rfl
      | index j =>
        refine step (indexValOf j (JVal.arr l e).members) i _ rfl rfl (fun u hu => indexVal_mem hu) ?_
        exact singIndex_run hw hx (by have := hlen.1; omega)
    | obj l e =>
      obtain ⟨i, t, hxi, -⟩ := id hx
      have hxi : x = .coll .obj i := hxi
      subst hxi
      cases seg with
      | index n => exact hnone rfl _ rfl
      | name n =>
        refine step (nameVal n (JVal.obj l e).members) i _ rfl rfl (fun u hu => nameVal_mem hu) ?_
        obtain ⟨s', y, e1, e2, e3⟩ := singName_run (ε := ε) (n := n) (JVal.obj l e).members f s e hw (hx.before rfl).2 (hG.key hg rfl)
          (by have := hlen.1; omega)
        refine ⟨s', y, e1, e2.mono hw ?_, e3⟩
        rintro h hh (e | ⟨e, -⟩)
        · exact e
        · omega

end JPath
end Verif
