import Verif.PathSim
import Verif.PathKeep

/-!
# The engine on handles does what it does on values: dispatchers
-/

set_option linter.unusedSimpArgs false
set_option linter.unusedVariables false

namespace Verif.JPath
open AState IProg GoJson

variable {ε φ ψ : Type} {C : Nat → Prop} {J : AState → Prop} {G P : JVal → Prop} {R : List ε → φ → ψ → Prop}

theorem states_own {s : AState} {l : List (SelSt ε)} {t} (h : Rel2 (StRel C J G P s) l t) : ∀ i ∈ didx l, Own s i := by
  intro i hi
  simp only [didx, List.mem_flatMap] at hi
  obtain ⟨st, h1, h2⟩ := hi
  obtain ⟨t, _, ht⟩ := h.mem h1
  obtain ⟨p, hp, he⟩ := mem_pidx.1 h2
  obtain ⟨v, _, ho⟩ := ht.pend.mem hp
  exact (ho.own i he).2

theorem Inv.own {b s} {S : Stack ε} {T acc} {q : φ} {q' : ψ} (h : Inv C J G P R b s S T acc q q') : ∀ i ∈ idxs S, Own s i := by
  intro i hi
  simp only [idxs, List.mem_flatMap] at hi
  obtain ⟨d, h1, h2⟩ := hi
  obtain ⟨t, _, ht⟩ := h.rel.mem h1
  exact states_own ht i h2

/-- A detach that does not concern the values. -/
theorem owned_detach {s s' : AState} {d : Option Nat} (he : Eff (fun _ => False) (fun t => d = some t) s s') (hw : WF s)
    {p : Val × Option Nat} {v : JVal} (h : Owned s p v) (hd : ∀ i, p.1.idx = some i → d ≠ some (s.coll i).thr) : Owned s' p v := by
  refine ⟨h.fresh.eff he (fun i hi => ⟨id, hd i hi⟩), fun j hj => ?_, h.none⟩
  have hlt := h.fresh.lt j hj
  rw [he.coll j hlt id]
  exact ⟨(h.own j hj).1, (h.own j hj).2.eff hw hlt he id⟩

theorem Inv.detach {b s s'} {S : Stack ε} {T acc} {q : φ} {q' : ψ} {d : Option Nat} (h : Inv C J G P R b s S T acc q q')
    (he : Eff (fun _ => False) (fun t => d = some t) s s') (hw : WF s') (hj : J s') (hd : ∀ i ∈ idxs S, d ≠ some (s.coll i).thr) :
    Inv C J G P R b s' S T acc q q' := by
  refine ⟨hw, hj, ?_, h.nodup, h.clone, h.fin, h.prot⟩
  refine h.rel.imp fun e he' t ht => ht.imp fun st hst t' ht' => ⟨ht'.sel, ht'.selected, ht'.done, ht'.pend.imp fun p hp v ho => ?_, ht'.good⟩
  refine owned_detach he h.wf ho fun i hi => hd i ?_
  exact List.mem_flatMap.2 ⟨e, he', List.mem_flatMap.2 ⟨st, hst, mem_pidx.2 ⟨p, hp, hi⟩⟩⟩

/-- The value that was processed is detached. -/
theorem Ok.detach (hFr : Frame C J) {b b0 s F} {S : Stack ε} {T acc} {q0 : φ} {q0' : ψ} {T' q' s' S' o q p v}
    (h : Ok C J G P R b s F S acc T' q' s' S' o q) (hi : Inv C J G P R b0 s S T acc q0 q0') (hC : ∀ i, F i → ¬ C i) (ho : Owned s p v)
    (hF : ∀ i, p.1.idx = some i → F i) (hp : ∀ i, p.1.idx = some i → i ∉ idxs S) :
    ∃ s'', (detachOpt p.2 : IProg ε Unit).run AState.mach s' = ([], .ok (s'', ())) ∧ Ok C J G P R b s F S acc T' q' s'' S' o q := by
  obtain ⟨s'', e1, e2, e3⟩ := detach_mod (ε := ε) hi.wf h.mod ho (fun i hi => .inl (hF i hi))
  have hj := hFr.keep hi.j e2 (fun i hc e => by
    rcases e with e | e
    · exact hC i e hc
    · exact hi.prot i e hc)
  have hlt := h.inv.lt
  refine ⟨s'', e1, h.inv.detach e3 e2.wf hj ?_, e2, ?_, h.len⟩
  · intro i hi' e
    cases hx : p.1.idx with
    | none => rw [ho.none hx] at e; cases e
    | some j =>
      rw [(ho.own j hx).1] at e
      have e := Option.some.inj e
      rcases h.new i hi' with ⟨h1, h2⟩ | ⟨h1, h2⟩
      · rw [h2] at e
        have := (ho.own j hx).2.thr i (hi.lt i h1) e.symm
        exact hp j hx (this ▸ h1)
      · have := hi.wf.thr j (ho.fresh.lt j hx)
        omega
  · intro i hi'
    unfold NewPend
    rw [e3.coll i (hlt i hi') id]
    exact h.new i hi'

theorem run_ok_bind' {α β : Type} {q : IProg ε α} {p : α → IProg ε β} {s s' : AState} {out out' : List ε} {a : α} {r}
    (h : q.run AState.mach s = (out, .ok (s', a))) (h' : (p a).run AState.mach s' = (out', r)) :
    (q.bind p).run AState.mach s = (out ++ out', r) := by
  rw [run_ok_bind h, h']

/-- A first dispatcher whose selected states after the first are given a value. -/
theorem append_ok (hFr : Frame C J) {s : AState} {ds : Stack ε} {T acc} {q : φ} {q' : ψ} {c : Bool} {st : SelSt ε} {tt : TSt} {rest tr x v}
    (hi : Inv C J G P R true s (⟨c, st :: rest⟩ :: ds) ((tt :: tr) :: T) acc q q') (hx : c = true → Fresh s x v) (hg : G v ∧ P v)
    (hxi : ∀ j, x.idx = some j → ¬ C j ∧ j ∉ idxs (⟨c, st :: rest⟩ :: ds)) :
    ∃ s' rest', (appendAll c x rest : IProg ε _).run AState.mach s = ([], .ok (s', rest')) ∧
      Ok C J G P R true s (fun j => x.idx = some j) (⟨c, st :: rest⟩ :: ds) acc ((tt :: tappend v tr) :: T) q' s' (⟨c, st :: rest'⟩ :: ds) [] q := by
  obtain ⟨h1, h2, h3⟩ := hi.head
  have ht := hi.tail
  have hcl : ∀ st' ∈ rest, st'.selected = true → c = true := hi.clone _ List.mem_cons_self
  have hlt := hi.lt
  cases h1 with
  | cons hst hrest =>
    simp only [didx_cons] at h2 h3
    obtain ⟨n1, n2, n3⟩ := List.nodup_append.1 h2
    simp only [idxs_cons, didx_cons, List.mem_append] at hxi hlt
    obtain ⟨s', rest', e1, e2, e3, e4, e5, e6, e7⟩ := appendAll_run hg rest tr s hi.wf hx hrest n2
      (fun i hi hi' => (hxi i hi).2 (.inl (.inr hi'))) hcl
    have hj := hFr.keep hi.j e2 (fun i hc e => (hxi i e).1 hc)
    have hnp : ∀ i ∈ pidx st.pending, ¬ x.idx = some i := fun i hi e => (hxi i e).2 (.inl (.inl hi))
    have hnd : ∀ i ∈ idxs ds, ¬ x.idx = some i := fun i hi e => (hxi i e).2 (.inr hi)
    have hst' := st_mod e2 hi.wf hst hnp
    have hds := stack_mod e2 hi.wf ht.rel hnd
    refine ⟨s', rest', e1, ?_, e2.mono hi.wf (fun i _ e => .inl e), ?_, rfl⟩
    · rw [List.append_nil]
      refine Inv.cons (d := ⟨c, st :: rest'⟩) ⟨e2.wf, hj, hds, ht.nodup, ht.clone, ht.fin, ht.prot⟩ (.cons hst' e4) ?_ ?_ true ?_
      · simp only [didx_cons]
        refine List.nodup_append.2 ⟨n1, e5, ?_⟩
        rintro a ha b hb rfl
        rcases (e6 a hb).lo with h | h
        · exact n3 a ha a h rfl
        · have := hlt a (.inl (.inl ha)); omega
      · intro i hi'
        simp only [didx_cons, List.mem_append] at hi'
        rcases hi' with h | h
        · exact h3 i (by simp [h])
        · rcases (e6 i h).lo with h | h
          · exact h3 i (by simp [h])
          · refine ⟨fun e => ?_, fun e => ?_⟩
            · have := hlt i (.inr e); omega
            · have := hFr.lt hi.j i e; omega
      · intro _ st' hst' hsel
        exact e7 st' hst' hsel
    · intro i hi'
      simp only [idxs_cons, didx_cons, List.mem_append] at hi'
      rcases hi' with (h | h) | h
      · exact .inl ⟨by simp [h], e2.eff.coll i (hlt i (.inl (.inl h))) (hnp i h)⟩
      · rcases e6 i h with h | h
        · exact .inl ⟨by simp [h.1], h.2⟩
        · exact .inr h
      · exact .inl ⟨by simp [h], e2.eff.coll i (hlt i (.inr h)) (hnd i h)⟩

/-- The same outcome, from a stack with the same handles. -/
theorem Ok.start {b s F} {S S1 : Stack ε} {acc T' q' s' S' o q} (h : Ok (φ := φ) (ψ := ψ) C J G P R b s F S1 acc T' q' s' S' o q)
    (he : idxs S1 = idxs S) (hl : S1.length = S.length) : Ok C J G P R b s F S acc T' q' s' S' o q :=
  ⟨h.inv, he ▸ h.mod, he ▸ h.new, h.len.trans hl⟩

/-- A scalar is kept without a clone. -/
theorem cloneIf_scalar {c : Bool} {k : Scalar} {s : AState} :
    (cloneIf c (.scalar k) : IProg ε _).run AState.mach s = ([], .ok (s, (.scalar k, none))) := by
  cases c <;> rfl

theorem process_ok (hFr : Frame C J) {fin : φ → Val → IProg ε (φ × Bool)} {tfin : ψ → JVal → ψ × Bool} (hfin : FinOk R G fin tfin) :
    FollowOk C J G P (fun v => G v ∧ P v) R (process fin) (tprocess tfin) := by
  intro s S
  induction S generalizing s with
  | nil =>
    intro T q q' acc x v hi hx hg hxi
    cases hi.rel
    obtain ⟨s', o, q1, e1, e2, e3⟩ := hfin s x v acc q q' hi.wf hx hg.1 hi.fin
    refine ⟨s', o, [], q1, ?_, ?_⟩
    · simp only [process]
      rw [run_ok_bind e1]
      simp [IProg.run, tprocess]
    · refine ⟨⟨e3.wf, hFr.keep hi.j e3 (fun i hc e => (hxi i e).1 hc), .nil, by simp, by simp, e2, by simp⟩, ?_, by simp, rfl⟩
      exact e3.mono hi.wf (fun i _ e => .inl e)
  | cons d ds ih =>
    intro T q q' acc x v hi hx hg hxi
    obtain ⟨c, states⟩ := d
    obtain ⟨t, ts, rfl, -, -⟩ : ∃ t ts, T = t :: ts ∧ True ∧ True := by
      have := hi.rel
      cases this
      exact ⟨_, _, rfl, trivial, trivial⟩
    have hh := hi.head
    cases states with
    | nil =>
      cases hh.1
      exact ⟨s, [], _, q, rfl, Ok.refl hi⟩
    | cons st rest =>
      obtain ⟨h1, h2, h3⟩ := hh
      cases h1 with
      | @cons _ tt _ tr hst hrest =>
        have ht := hi.tail
        by_cases hs : st.selected = true
        · have hs' : tt.selected = true := hst.selected ▸ hs
          by_cases hrev : st.sel.reverses = true
          · -- the value waits
            have hrev' : tt.sel.reverses = true := hst.sel.revEq ▸ hrev
            obtain ⟨k, rfl⟩ := hst.sel.scal hrev v hg.2
            have hxe : x = .scalar k := hx
            subst hxe
            simp only [process, if_pos hs, tprocess, if_pos hs', if_pos hrev, if_pos hrev']
            rw [run_ok_bind cloneIf_scalar]
            have hpi : pidx (st.pending ++ [(Val.scalar k, none)]) = pidx st.pending := by
              rw [pidx_append]; exact List.append_nil _
            have hst' : StRel C J G P s { st with pending := st.pending ++ [(.scalar k, none)] } { tt with pending := tt.pending ++ [.scalar k] } :=
              ⟨hst.sel, hst.selected, hst.done, hst.pend.append (.single ⟨rfl, fun j hj => (nomatch hj), fun _ => rfl⟩), fun w hw => by
                rcases List.mem_append.1 hw with hw | hw
                · exact hst.good w hw
                · rw [List.mem_singleton.1 hw]; exact hg⟩
            have hi' : Inv C J G P R true s (⟨c, { st with pending := st.pending ++ [(.scalar k, none)] } :: rest⟩ :: ds)
                (({ tt with pending := tt.pending ++ [.scalar k] } :: tr) :: ts) acc q q' := by
              refine ht.cons (.cons hst' hrest) ?_ ?_ true (fun _ => hi.clone ⟨c, st :: rest⟩ List.mem_cons_self)
              · simpa only [didx_cons, hpi] using h2
              · simpa only [didx_cons, hpi] using h3
            obtain ⟨s2, rest', f1, f2⟩ := append_ok hFr hi' (fun _ => hx) hg (fun j hj => by cases hj)
            rw [run_ok_bind f1]
            refine ⟨s2, [], _, q, rfl, f2.start ?_ rfl⟩
            simp only [idxs_cons, didx_cons, hpi]
          have hrev : st.sel.reverses = false := by simpa using hrev
          have hrev' : tt.sel.reverses = false := hst.sel.revEq ▸ hrev
          simp only [process, hs, if_true, tprocess, hs', hrev, hrev', Bool.false_eq_true, if_false]
          simp only [idxs_cons] at hxi
          cases c with
          | false =>
            -- the value itself goes on
            obtain ⟨s1, o1, ds1, q1, e1, e2⟩ := ih s ts q q' acc x v ht hx hg (fun j hj => ⟨(hxi j hj).1, fun e => (hxi j hj).2 (by simp [e])⟩)
            have hp := e2.push (S := ⟨false, st :: rest⟩ :: ds) (F' := fun j => x.idx = some j) (c := false) (b := true) hFr hi.wf hi.j (.cons hst hrest) h2
              (fun i hi' => ⟨(h3 i hi').1, fun e => (hxi i e).2 (List.mem_append.2 (.inl hi')), (h3 i hi').2⟩)
              (fun _ => hi.clone _ List.mem_cons_self) rfl
              (fun i hi' => by simp only [idxs_cons, List.mem_append]; exact hi'.symm) (fun i _ e => .inl e)
            simp only [cloneIf, Bool.false_eq_true, if_false]
            have hr : (IProg.ret (x, none) : IProg ε (Val × Option Nat)).run AState.mach s = ([], .ok (s, (x, none))) := rfl
            rw [run_ok_bind hr]
            simp only
            rw [run_ok_bind e1]
            have hr1 : (detachOpt (none : Option Nat) : IProg ε Unit).run AState.mach s1 = ([], .ok (s1, ())) := rfl
            rw [run_ok_bind hr1]
            by_cases hb : (tprocess tfin ts q' v).2.2 = true
            · simp only [hb, if_true]
              obtain ⟨s2, rest', f1, f2⟩ := append_ok (x := x) (v := v) hFr hp.inv (fun e => nomatch e) hg (by
                intro j hj
                refine ⟨(hxi j hj).1, fun e => ?_⟩
                rcases (hp.new j e).lo with e | e
                · exact (hxi j hj).2 (by simpa only [idxs_cons] using e)
                · have := hx.lt j hj; omega)
              rw [run_ok_bind f1]
              refine ⟨s2, o1 ++ [], _, q1, by simp [IProg.run], hp.trans f2 (fun i _ e => .inl e)⟩
            · simp only [hb, if_false]
              have hb : (tprocess tfin ts q' v).2.2 = false := by simpa using hb
              refine ⟨s1, o1, _, q1, by simp [IProg.run], hp⟩
          | true =>
            obtain ⟨s0, p, g1, g2, g3, g4, g5⟩ := cloneIf_run (ε := ε) hi.wf hx
            have hj0 := hFr.keep hi.j g2 (fun i hc e => (hxi i e).1 hc)
            have hnx : ∀ i ∈ idxs (⟨true, st :: rest⟩ :: ds), ¬ x.idx = some i := fun i hi e => (hxi i e).2 (by simpa only [idxs_cons] using hi)
            have hi0 : Inv C J G P R true s0 (⟨true, st :: rest⟩ :: ds) ((tt :: tr) :: ts) acc q q' :=
              ⟨g2.wf, hj0, stack_mod g2 hi.wf hi.rel hnx, hi.nodup, hi.clone, hi.fin, hi.prot⟩
            have ok0 : Ok C J G P R true s (fun j => x.idx = some j) (⟨true, st :: rest⟩ :: ds) acc ((tt :: tr) :: ts) q' s0
                (⟨true, st :: rest⟩ :: ds) [] q := by
              refine ⟨by rw [List.append_nil]; exact hi0, g2.mono hi.wf (fun i _ e => .inl e), ?_, rfl⟩
              intro i hi'
              exact .inl ⟨hi', g2.eff.coll i (hi.lt i hi') (hnx i hi')⟩
            have hpn : ∀ j, p.1.idx = some j → ¬ C j ∧ j ∉ idxs (⟨true, st :: rest⟩ :: ds) := by
              intro j hj
              have := (g5 j hj).1
              exact ⟨fun e => by have := hFr.lt hi.j j e; omega, fun e => by have := hi.lt j e; omega⟩
            obtain ⟨a1, a2, a3⟩ := hi0.head
            have ht0 := hi0.tail
            obtain ⟨s1, o1, ds1, q1, e1, e2⟩ := ih s0 ts q q' acc p.1 v ht0 g4.fresh hg
              (fun j hj => ⟨(hpn j hj).1, fun e => (hpn j hj).2 (by simp [e])⟩)
            obtain ⟨s1', e1', e2'⟩ := e2.detach hFr ht0 (fun i e => (hpn i e).1) g4 (fun i e => e)
              (fun i e e' => (hpn i e).2 (by simp [e']))
            have hp := e2'.push (S := ⟨true, st :: rest⟩ :: ds) (F' := fun j => p.1.idx = some j) (c := true) (b := true) hFr g2.wf hj0 a1 a2
              (fun i hi' => ⟨(a3 i hi').1, fun e => (hpn i e).2 (by simp only [idxs_cons]; exact List.mem_append.2 (.inl hi')), (a3 i hi').2⟩)
              (fun _ _ _ _ => rfl) rfl
              (fun i hi' => by simp only [idxs_cons, List.mem_append]; exact hi'.symm) (fun i _ e => .inl e)
            have hxf : Fresh s1' x v := hp.mod.fresh g3 (by
              rintro i hi' (e | e)
              · have := (g5 i e).1; have := hx.lt i hi'; omega
              · exact hnx i e hi')
            have hpt := ok0.trans0 hp (fun i hi' e => by have := (g5 i e).1; omega)
            rw [run_ok_bind g1]
            rw [run_ok_bind e1]
            rw [run_ok_bind e1']
            by_cases hb : (tprocess tfin ts q' v).2.2 = true
            · simp only [hb, if_true]
              obtain ⟨s2, rest', f1, f2⟩ := append_ok (x := x) (v := v) hFr hpt.inv (fun _ => hxf) hg (by
                intro j hj
                refine ⟨(hxi j hj).1, fun e => ?_⟩
                rcases (hpt.new j e).lo with e | e
                · exact hnx j e hj
                · have := hx.lt j hj; omega)
              rw [run_ok_bind f1]
              refine ⟨s2, o1 ++ [], _, q1, by simp [IProg.run], hpt.trans f2 (fun i _ e => .inl e)⟩
            · simp only [hb, if_false]
              have hb : (tprocess tfin ts q' v).2.2 = false := by simpa using hb
              refine ⟨s1', o1, _, q1, by simp [IProg.run], hpt⟩
        · have hs : st.selected = false := by simpa using hs
          have hs' : tt.selected = false := hst.selected ▸ hs
          simp only [process, hs, tprocess, hs', Bool.false_eq_true, if_false]
          obtain ⟨s2, rest', f1, f2⟩ := append_ok hFr hi (fun _ => hx) hg hxi
          rw [run_ok_bind f1]
          exact ⟨s2, [], _, q, rfl, f2⟩

theorem Ok.weaken {s F} {S : Stack ε} {acc T' q' s' S' o q} (h : Ok (φ := φ) (ψ := ψ) C J G P R true s F S acc T' q' s' S' o q) :
    Ok C J G P R false s F S acc T' q' s' S' o q := ⟨h.inv.weaken, h.mod, h.new, h.len⟩

theorem Ok.mono {b s F F'} {S : Stack ε} {acc T' q' s' S' o q} (h : Ok (φ := φ) (ψ := ψ) C J G P R b s F S acc T' q' s' S' o q) (hw : WF s)
    (hF : ∀ i < s.n, F i → F' i ∨ i ∈ idxs S) : Ok C J G P R b s F' S acc T' q' s' S' o q :=
  ⟨h.inv, h.mod.mono hw (fun i hi e => e.elim (hF i hi) .inr), h.new, h.len⟩

variable {fin : φ → Val → IProg ε (φ × Bool)} {tfin : ψ → JVal → ψ × Bool}

theorem flushVals_ok (hFr : Frame C J) (hfin : FinOk R G fin tfin) : ∀ (l : List (Val × Option Nat)) (vs : List JVal) (r : Bool) (s : AState)
    (ds : Stack ε) (T : TStack) (acc : List ε) (q : φ) (q' : ψ), Inv C J G P R true s ds T acc q q' → Rel2 (Owned s) l vs → (pidx l).Nodup →
    (∀ i ∈ pidx l, i ∉ idxs ds ∧ ¬ C i) → (∀ v ∈ vs, G v ∧ P v) →
    ∃ s' o ds' q1, (flushVals fin l r ds q).run AState.mach s = (o, .ok (s', (ds', q1, (tflushVals tfin vs r T q').2.2))) ∧
      Ok C J G P R true s (· ∈ pidx l) ds acc (tflushVals tfin vs r T q').1 (tflushVals tfin vs r T q').2.1 s' ds' o q1 := by
  intro l
  induction l with
  | nil =>
    intro vs r s ds T acc q q' hi hr hn hd hg
    cases hr
    cases r <;> exact ⟨s, [], ds, q, rfl, Ok.refl hi⟩
  | cons p l ih =>
    intro vs r s ds T acc q q' hi hr hn hd hg
    cases hr with
    | @cons _ v _ vs ho hr =>
      rw [pidx_cons] at hn hd
      obtain ⟨n1, n2, n3⟩ := List.nodup_append.1 hn
      have hpd : ∀ j, p.1.idx = some j → j ∉ idxs ds ∧ ¬ C j := fun j hj => hd j (by simp [hj])
      have hlt := pend_lt hr
      have hpl : ∀ i ∈ pidx l, ¬ p.1.idx = some i := fun i hi e => n3 i (by simp [e]) i hi rfl
      -- the rest, after the first
      have next : ∀ s1 o1 ds1 q1 r1 T1 q1', Ok C J G P R true s (fun j => p.1.idx = some j) ds acc T1 q1' s1 ds1 o1 q1 →
          ∃ s' o ds' q2, (flushVals fin l r1 ds1 q1).run AState.mach s1 = (o, .ok (s', (ds', q2, (tflushVals tfin vs r1 T1 q1').2.2))) ∧
            Ok C J G P R true s (· ∈ pidx (p :: l)) ds acc (tflushVals tfin vs r1 T1 q1').1 (tflushVals tfin vs r1 T1 q1').2.1 s' ds' (o1 ++ o) q2 := by
        intro s1 o1 ds1 q1 r1 T1 q1' h
        obtain ⟨s', o, ds', q2, e1, e2⟩ := ih vs r1 s1 ds1 T1 (acc ++ o1) q1 q1' h.inv
          (pend_mod h.mod hi.wf hr (by
            rintro i hi' (e | e)
            · exact hpl i hi' e
            · exact (hd i (by simp [hi'])).1 e)) n2
          (fun i hi' => ⟨fun e => by
            rcases (h.new i e).lo with e | e
            · exact (hd i (by simp [hi'])).1 e
            · have := hlt i hi'; omega, (hd i (by simp [hi'])).2⟩) (fun w hw => hg w (List.mem_cons_of_mem _ hw))
        refine ⟨s', o, ds', q2, e1, ?_⟩
        have h' := h.mono (F' := (· ∈ pidx (p :: l))) hi.wf (fun i _ e => .inl (by rw [pidx_cons]; simp [e]))
        exact h'.trans e2 (fun i _ e => .inl (by rw [pidx_cons]; simp [e]))
      cases r with
      | true =>
        obtain ⟨s1, o1, ds1, q1, e1, e2⟩ := process_ok hFr hfin s ds T q q' acc p.1 v hi ho.fresh (hg v List.mem_cons_self)
          (fun j hj => ⟨(hpd j hj).2, (hpd j hj).1⟩)
        obtain ⟨s2, f1, f2⟩ := e2.detach hFr hi (fun i e => (hpd i e).2) ho (fun _ e => e) (fun i e => (hpd i e).1)
        obtain ⟨s3, o3, ds3, q3, g1, g2⟩ := next s2 o1 ds1 q1 (tprocess tfin T q' v).2.2 _ _ f2
        refine ⟨s3, o1 ++ o3, ds3, q3, ?_, g2⟩
        simp only [flushVals]
        rw [run_ok_bind' e1 (run_ok_bind' f1 g1)]
        rfl
      | false =>
        obtain ⟨s2, f1, f2⟩ := (Ok.refl (F := fun j => p.1.idx = some j) hi).detach hFr hi (fun i e => (hpd i e).2) ho (fun _ e => e)
          (fun i e => (hpd i e).1)
        obtain ⟨s3, o3, ds3, q3, g1, g2⟩ := next s2 [] ds q false _ _ f2
        refine ⟨s3, o3, ds3, q3, ?_, g2⟩
        simp only [flushVals]
        rw [run_ok_bind' f1 g1]
        rfl

theorem flushSt_ok (hFr : Frame C J) (hfin : FinOk R G fin tfin) {st : SelSt ε} {t : TSt} (r : Bool) {s : AState}
    {ds : Stack ε} {T : TStack} {acc : List ε} {q : φ} {q' : ψ} (hi : Inv C J G P R true s ds T acc q q') (hst : StRel C J G P s st t)
    (hn : (pidx st.pending).Nodup) (hd : ∀ i ∈ pidx st.pending, i ∉ idxs ds ∧ ¬ C i) :
    ∃ s' o ds' q1, (flushSt fin st r ds q).run AState.mach s = (o, .ok (s', (ds', q1, (tflushSt tfin t r T q').2.2))) ∧
      Ok C J G P R true s (· ∈ pidx st.pending) ds acc (tflushSt tfin t r T q').1 (tflushSt tfin t r T q').2.1 s' ds' o q1 := by
  simp only [flushSt, tflushSt, hst.sel.revEq]
  cases t.sel.reverses with
  | false => exact flushVals_ok hFr hfin _ _ r s ds T acc q q' hi hst.pend hn hd hst.good
  | true =>
    have hp : pidx st.pending.reverse = (pidx st.pending).reverse := by simp [pidx]
    obtain ⟨s', o, ds', q1, e1, e2⟩ := flushVals_ok hFr hfin _ _ r s ds T acc q q' hi hst.pend.reverse (by rw [hp]; exact List.pairwise_reverse.2 (hn.imp Ne.symm))
      (fun i h => hd i (by rw [hp] at h; exact List.mem_reverse.1 h)) (fun v h => hst.good v (List.mem_reverse.1 h))
    refine ⟨s', o, ds', q1, e1, e2.mono hi.wf (fun i _ h => .inl ?_)⟩
    rw [hp] at h
    exact List.mem_reverse.1 h

theorem flushAll_ok (hFr : Frame C J) (hfin : FinOk R G fin tfin) : ∀ (l : List (SelSt ε)) (ts : List TSt) (r : Bool) (s : AState)
    (ds : Stack ε) (T : TStack) (acc : List ε) (q : φ) (q' : ψ), Inv C J G P R true s ds T acc q q' → Rel2 (StRel C J G P s) l ts → (didx l).Nodup →
    (∀ i ∈ didx l, i ∉ idxs ds ∧ ¬ C i) →
    ∃ s' o ds' q1, (flushAll fin l r ds q).run AState.mach s = (o, .ok (s', (ds', q1, (tflushAll tfin ts r T q').2.2))) ∧
      Ok C J G P R true s (· ∈ didx l) ds acc (tflushAll tfin ts r T q').1 (tflushAll tfin ts r T q').2.1 s' ds' o q1 := by
  intro l
  induction l with
  | nil =>
    intro ts r s ds T acc q q' hi hr hn hd
    cases hr
    exact ⟨s, [], ds, q, rfl, Ok.refl hi⟩
  | cons st l ih =>
    intro ts r s ds T acc q q' hi hr hn hd
    cases hr with
    | @cons _ t _ ts hst hr =>
      rw [didx_cons] at hn hd
      obtain ⟨n1, n2, n3⟩ := List.nodup_append.1 hn
      obtain ⟨s1, o1, ds1, q1, e1, e2⟩ := flushSt_ok hFr hfin r hi hst n1 (fun i h => hd i (by simp [h]))
      have hlt := states_lt hr
      obtain ⟨s2, o2, ds2, q2, f1, f2⟩ := ih ts (tflushSt tfin t r T q').2.2 s1 ds1 _ (acc ++ o1) q1 _ e2.inv
        (states_mod e2.mod hi.wf hr (by
          rintro i hi' (e | e)
          · exact n3 i e i hi' rfl
          · exact (hd i (by simp [hi'])).1 e)) n2
        (fun i hi' => ⟨fun e => by
          rcases (e2.new i e).lo with e | e
          · exact (hd i (by simp [hi'])).1 e
          · have := hlt i hi'; omega, (hd i (by simp [hi'])).2⟩)
      refine ⟨s2, o1 ++ o2, ds2, q2, ?_, ?_⟩
      · simp only [flushAll]
        rw [run_ok_bind' e1 f1]
        rfl
      · have h' := e2.mono (F' := (· ∈ didx (st :: l))) hi.wf (fun i _ e => .inl (by rw [didx_cons]; simp [e]))
        exact h'.trans f2 (fun i _ e => .inl (by rw [didx_cons]; simp [e]))

theorem fromValue_run {dec : Decision} {a : Sel (CondP ε)} {b : Sel (JVal → Bool)} (h : SelRel C J G P a b) {s : AState} {x : Val} {v : JVal}
    (hw : WF s) (hj : J s) (hx : Fresh s x v) (hg : G v) (hxC : ∀ j, x.idx = some j → ¬ C j) :
    ∃ s', (if dec.yes then .ret true else if dec.no then .ret false else fromValue x a : IProg ε Bool).run AState.mach s =
      ([], .ok (s', tselects dec v b)) ∧ Mod (fun j => x.idx = some j) s s' ∧ Fresh s' x v := by
  have triv : ∀ r, r = tselects dec v b → ∃ s', (IProg.ret r : IProg ε Bool).run AState.mach s =
      ([], .ok (s', tselects dec v b)) ∧ Mod (fun j => x.idx = some j) s s' ∧ Fresh s' x v :=
    fun r hr => ⟨s, by rw [hr]; rfl, .refl hw, hx⟩
  cases hy : dec.yes with
  | true =>
    rw [if_pos rfl]
    exact triv true (by cases b <;> simp [tselects, hy])
  | false =>
    rw [if_neg (by simp)]
    cases hn : dec.no with
    | true =>
      rw [if_pos rfl]
      exact triv false (by cases b <;> simp [tselects, hy, hn])
    | false =>
      rw [if_neg (by simp)]
      cases h with
      | filter hc =>
        obtain ⟨s', e1, e2, e3⟩ := hc s x v hw hj hx hg hxC
        refine ⟨s', ?_, e2, e3⟩
        simp only [fromValue, tselects, hy, hn]
        simpa using e1
      | _ => exact triv false (by simp [tselects, hy])

theorem decideAll_run (hFr : Frame C J) {dec : Sel (CondP ε) → Decision} {tdec : Sel (JVal → Bool) → Decision}
    (hdec : ∀ a b, SelRel C J G P a b → dec a = tdec b) {x : Val} {v : JVal} (hg : G v) (hxC : ∀ j, x.idx = some j → ¬ C j) :
    ∀ (l : List (SelSt ε)) (t : List TSt) (s : AState), WF s → J s → Fresh s x v → Rel2 (StRel C J G P s) l t →
    (∀ i, x.idx = some i → i ∉ didx l) →
    ∃ s' l', (decideAll dec x l : IProg ε _).run AState.mach s = ([], .ok (s', l')) ∧ Mod (fun j => x.idx = some j) s s' ∧ Fresh s' x v ∧
      Rel2 (StRel C J G P s') l' (tdecideAll tdec v t) ∧ didx l' = didx l := by
  intro l
  induction l with
  | nil =>
    intro t s hw hj hx hr hxi
    cases hr
    exact ⟨s, [], rfl, .refl hw, hx, .nil, rfl⟩
  | cons st l ih =>
    intro t s hw hj hx hr hxi
    cases hr with
    | @cons _ tt _ tl hst hr =>
      rw [didx_cons] at hxi
      have hnp : ∀ i ∈ pidx st.pending, ¬ x.idx = some i := fun i hi e => hxi i e (by simp [hi])
      have hnl : ∀ i ∈ didx l, ¬ x.idx = some i := fun i hi e => hxi i e (by simp [hi])
      simp only [decideAll]
      by_cases hdn : st.done = true
      · rw [if_pos hdn]
        obtain ⟨s1, l', e1, e2, e3, e4, e5⟩ := ih tl s hw hj hx hr (fun i h h' => hnl i h' h)
        refine ⟨s1, { st with selected := false } :: l', by rw [run_ok_bind e1]; rfl, e2, e3, ?_, by simp [e5]⟩
        refine .cons ?_ e4
        show StRel C J G P s1 _ (if tt.done = true then _ else _)
        rw [if_pos (hst.done ▸ hdn)]
        have := st_mod e2 hw hst hnp
        exact ⟨this.sel, rfl, this.done, this.pend, this.good⟩
      · rw [if_neg hdn]
        obtain ⟨s0, a1, a2, a3⟩ := fromValue_run (dec := dec st.sel) hst.sel hw hj hx hg hxC
        have hj0 := hFr.keep hj a2 (fun i hc e => hxC i e hc)
        obtain ⟨s1, l', e1, e2, e3, e4, e5⟩ := ih tl s0 a2.wf hj0 a3 (states_mod a2 hw hr hnl) (fun i h h' => hnl i h' h)
        refine ⟨s1, { st with selected := tselects (dec st.sel) v tt.sel, done := !(dec st.sel).more } :: l', ?_, a2.trans e2 (fun _ _ e => e), e3, ?_, ?_⟩
        · rw [run_ok_bind' a1 (run_ok_bind' e1 rfl)]
          rfl
        · refine .cons ?_ e4
          show StRel C J G P s1 _ (if tt.done = true then _ else _)
          rw [if_neg (by rw [← hst.done]; exact hdn)]
          have := st_mod e2 a2.wf (st_mod a2 hw hst hnp) hnp
          rw [hdec _ _ hst.sel]
          exact ⟨this.sel, rfl, rfl, this.pend, this.good⟩
        · simp [e5]

theorem span_over {s : AState} {l : List (SelSt ε)} {t} (h : Rel2 (StRel C J G P s) l t) :
    Rel2 (StRel C J G P s) (l.takeWhile SelSt.over) (t.takeWhile TSt.over) ∧
      Rel2 (StRel C J G P s) (l.dropWhile SelSt.over) (t.dropWhile TSt.over) := by
  induction h with
  | nil => exact ⟨.nil, .nil⟩
  | @cons a b l m h hr ih =>
    have : a.over = b.over := by unfold SelSt.over TSt.over; rw [h.selected, h.done]
    simp only [List.takeWhile_cons, List.dropWhile_cons, this]
    cases b.over
    · exact ⟨.nil, .cons h hr⟩
    · exact ⟨.cons h ih.1, ih.2⟩

theorem any_selected {s : AState} {l : List (SelSt ε)} {t} (h : Rel2 (StRel C J G P s) l t) :
    decide ((l.filter (·.selected)).length > 0) = t.any (·.selected) := by
  induction h with
  | nil => rfl
  | @cons a b l m h hr ih =>
    simp only [List.filter_cons, List.any_cons, ← h.selected, ← ih]
    cases a.selected <;> simp

theorem rel2_isEmpty {α β : Type} {R : α → β → Prop} {l : List α} {m : List β} (h : Rel2 R l m) : l.isEmpty = m.isEmpty := by
  cases h <;> rfl

theorem dispatchLive_ok (hFr : Frame C J) (hfin : FinOk R G fin tfin) {D : JVal → Prop}
    {follow : Stack ε → φ → Val → IProg ε (Stack ε × φ × Bool)} {tfollow : TStack → ψ → JVal → TStack × ψ × Bool}
    (hf : FollowOk C J G P D R follow tfollow) {x : Val} {v : JVal} {count : Nat} {any c : Bool} (hD : any = true → D v) (hany : decide (count > 0) = any)
    {l : List (SelSt ε)} {t : List TSt} {s : AState} {ds : Stack ε} {T acc} {q : φ} {q' : ψ}
    (hc : ∀ st rest, l = st :: rest → st.selected = true → ∀ st' ∈ rest, st'.selected = true → count > 1)
    (hi : Inv C J G P R false s (⟨c, l⟩ :: ds) (t :: T) acc q q') (hx : Fresh s x v)
    (hxi : ∀ j, x.idx = some j → ¬ C j ∧ j ∉ idxs (⟨c, l⟩ :: ds)) :
    ∃ s' o d' ds' q1, (dispatchLive fin follow x count c l ds q).run AState.mach s =
        (o, .ok (s', (d', ds', q1, (tdispatchLive tfin tfollow v any t T q').2.2.2))) ∧
      Ok C J G P R false s (fun j => x.idx = some j) (⟨c, l⟩ :: ds) acc
        ((tdispatchLive tfin tfollow v any t T q').1 :: (tdispatchLive tfin tfollow v any t T q').2.1)
        (tdispatchLive tfin tfollow v any t T q').2.2.1 s' (d' :: ds') o q1 := by
  obtain ⟨h1, h2, h3⟩ := hi.head
  have ht := hi.tail
  cases h1 with
  | nil => exact ⟨s, [], _, ds, q, rfl, Ok.refl hi⟩
  | @cons st tt rest tr hst hrest =>
    have hem := rel2_isEmpty hst.pend
    -- the flush of the first state
    have step1 : ∃ s1 o1 st1 tt1 ds1 T1 q1 q1' r1,
        ((if st.sel.reverses || st.pending.isEmpty then .ret (st, ds, q, true)
          else (flushSt fin st true ds q).bind fun r => .ret ({ st with pending := [] }, r.1, r.2.1, r.2.2)) :
            IProg ε (SelSt ε × Stack ε × φ × Bool)).run AState.mach s = (o1, .ok (s1, (st1, ds1, q1, r1))) ∧
        (if tt.sel.reverses || tt.pending.isEmpty then (tt, T, q', true)
          else let r := tflushSt tfin tt true T q'; ({ tt with pending := [] }, r.1, r.2.1, r.2.2)) = (tt1, T1, q1', r1) ∧
        st1.selected = st.selected ∧
        Ok C J G P R false s (fun _ => False) (⟨c, st :: rest⟩ :: ds) acc ((tt1 :: tr) :: T1) q1' s1 (⟨c, st1 :: rest⟩ :: ds1) o1 q1 := by
      rw [hst.sel.revEq, hem]
      cases hp : tt.sel.reverses || tt.pending.isEmpty with
      | true =>
        simp only [if_true]
        exact ⟨s, [], st, tt, ds, T, q, q', true, rfl, rfl, rfl, Ok.refl hi⟩
      | false =>
        simp only [Bool.false_eq_true, if_false]
        rw [didx_cons] at h2
        obtain ⟨n1, n2, n3⟩ := List.nodup_append.1 h2
        simp only [didx_cons] at h3
        obtain ⟨s1, o1, ds1, q1, e1, e2⟩ := flushSt_ok hFr hfin true ht hst n1 (fun i h => h3 i (by simp [h]))
        refine ⟨s1, o1, { st with pending := [] }, { tt with pending := [] }, ds1, _, q1, _, _, run_ok_bind' e1 rfl |>.trans (by simp), rfl, rfl, ?_⟩
        refine e2.push hFr hi.wf hi.j (.cons ⟨hst.sel, hst.selected, hst.done, .nil, by simp⟩ hrest) (by simpa using n2) ?_ (fun e => nomatch e) rfl ?_ ?_
        · intro i hi'
          have hi' : i ∈ didx rest := by simpa using hi'
          exact ⟨(h3 i (by simp [hi'])).1, fun e => n3 i e i hi' rfl, (h3 i (by simp [hi'])).2⟩
        · rintro i (h | h)
          · simp [h]
          · have : i ∈ didx rest := by simpa using h
            simp [this]
        · intro i _ e
          exact .inr (by simp [e])
    obtain ⟨s1, o1, st1, tt1, ds1, T1, q1, q1', r1, a1, a2, a3, a4⟩ := step1
    have a5 := a4.mono (F' := fun j => x.idx = some j) hi.wf (fun _ _ e => e.elim)
    simp only [dispatchLive, tdispatchLive]
    rw [a2, run_ok_bind a1]
    simp only
    cases r1 with
    | false => exact ⟨s1, o1, _, ds1, q1, by simp [IProg.run], a5⟩
    | true =>
      simp only [if_true]
      by_cases hcnt : count > 0
      · have : any = true := by rw [← hany]; simpa using hcnt
        subst this
        rw [if_pos hcnt]
        simp only [if_true]
        have hcl : ∀ st' ∈ rest, st'.selected = true → (decide (count > 1) || !st1.selected) = true := by
          intro st' h1 h2
          cases hs : st.selected with
          | false => rw [a3, hs]; simp
          | true => simp [hc st rest rfl hs st' h1 h2]
        have hi1 : Inv C J G P R true s1 (⟨decide (count > 1) || !st1.selected, st1 :: rest⟩ :: ds1) ((tt1 :: tr) :: T1) (acc ++ o1) q1 q1' := by
          obtain ⟨b1, b2, b3⟩ := a4.inv.head
          exact a4.inv.tail.cons (d := ⟨decide (count > 1) || !st1.selected, st1 :: rest⟩) b1 b2 b3 true (fun _ => hcl)
        have hnx : ∀ j, x.idx = some j → j ∉ idxs (⟨decide (count > 1) || !st1.selected, st1 :: rest⟩ :: ds1) := by
          intro j hj e
          rcases (a4.new j (by simpa using e)).lo with e | e
          · exact (hxi j hj).2 e
          · have := hx.lt j hj; omega
        have hx1 : Fresh s1 x v := a4.mod.fresh hx (fun i hi e => e.elim id (hxi i hi).2)
        obtain ⟨s2, o2, S2, q2, b1, b2⟩ := hf s1 _ _ q1 q1' (acc ++ o1) x v hi1 hx1 (hD rfl) (fun j hj => ⟨(hxi j hj).1, hnx j hj⟩)
        have hlen := b2.len
        have hrel := b2.inv.rel
        obtain ⟨d2, ds2, rfl⟩ : ∃ d2 ds2, S2 = d2 :: ds2 := by
          cases S2 with
          | nil => cases hlen
          | cons d ds => exact ⟨d, ds, rfl⟩
        generalize tfollow ((tt1 :: tr) :: T1) q1' v = r at *
        obtain ⟨T2, q2', r2⟩ := r
        simp only at hrel b2 b1 ⊢
        cases hrel with
        | @cons _ t2 _ T2 _ _ =>
          refine ⟨s2, o1 ++ o2, d2, ds2, q2, ?_, ?_⟩
          · rw [run_ok_bind b1]
            simp [IProg.run]
          · refine (Ok.trans (S1 := ⟨decide (count > 1) || !st1.selected, st1 :: rest⟩ :: ds1) (T1 := (tt1 :: tr) :: T1) (q1' := q1') (b := false)
              ⟨hi1.weaken, a5.mod, a5.new, a5.len⟩ b2 (fun i _ e => .inl e)).weaken
      · have : any = false := by rw [← hany]; simpa using hcnt
        subst this
        rw [if_neg hcnt]
        exact ⟨s1, o1, _, ds1, q1, by simp [IProg.run], a5⟩

theorem Inv.lower {b s} {d : Disp ε} {S : Stack ε} {t T acc} {q : φ} {q' : ψ} (h : Inv C J G P R b s (d :: S) (t :: T) acc q q') (c : Bool) :
    Inv C J G P R false s (⟨c, d.states⟩ :: S) (t :: T) acc q q' := by
  obtain ⟨h1, h2, h3⟩ := h.head
  exact h.tail.cons (d := ⟨c, d.states⟩) h1 h2 h3 false (fun e => nomatch e)

theorem filter_two {l m : List (SelSt ε)} {st : SelSt ε} (h1 : st.selected = true) {st' : SelSt ε} (h : st' ∈ l) (h2 : st'.selected = true) :
    ((m ++ st :: l).filter (·.selected)).length > 1 := by
  have : st' ∈ l.filter (·.selected) := List.mem_filter.2 ⟨h, h2⟩
  have := List.length_pos_of_mem this
  simp [List.filter_append, List.filter_cons, h1]
  omega

theorem dispatchItem_ok (hFr : Frame C J) (hfin : FinOk R G fin tfin) {D : JVal → Prop}
    {follow : Stack ε → φ → Val → IProg ε (Stack ε × φ × Bool)} {tfollow : TStack → ψ → JVal → TStack × ψ × Bool}
    (hf : FollowOk C J G P D R follow tfollow) {dec : Sel (CondP ε) → Decision} {tdec : Sel (JVal → Bool) → Decision}
    (hdec : ∀ a b, SelRel C J G P a b → dec a = tdec b) {x : Val} {v : JVal} (hg : G v)
    {d : Disp ε} {t : List TSt} (hD : (tdecideAll tdec v t).any (·.selected) = true → D v) {s : AState} {ds : Stack ε} {T acc} {q : φ} {q' : ψ}
    (hi : Inv C J G P R false s (d :: ds) (t :: T) acc q q') (hx : Fresh s x v)
    (hxi : ∀ j, x.idx = some j → ¬ C j ∧ j ∉ idxs (d :: ds)) :
    ∃ s' o d' ds' q1, (dispatchItem fin follow dec x d ds q).run AState.mach s =
        (o, .ok (s', (d', ds', q1, (tdispatch tfin tfollow tdec v t T q').2.2.2))) ∧
      Ok C J G P R false s (fun j => x.idx = some j) (d :: ds) acc
        ((tdispatch tfin tfollow tdec v t T q').1 :: (tdispatch tfin tfollow tdec v t T q').2.1)
        (tdispatch tfin tfollow tdec v t T q').2.2.1 s' (d' :: ds') o q1 := by
  obtain ⟨c, states⟩ := d
  obtain ⟨h1, h2, h3⟩ := hi.head
  simp only [idxs_cons] at hxi
  obtain ⟨s1, l, e1, e2, e3, e4, e5⟩ := decideAll_run hFr hdec hg (fun j hj => (hxi j hj).1) states t s hi.wf hi.j hx h1
    (fun i hi hi' => (hxi i hi).2 (by simp [hi']))
  have hnx : ∀ i ∈ idxs (⟨c, states⟩ :: ds), ¬ x.idx = some i := fun i hi e => (hxi i e).2 (by simpa only [idxs_cons] using hi)
  have hj1 := hFr.keep hi.j e2 (fun i hc e => (hxi i e).1 hc)
  have ht := hi.tail
  have ht1 : Inv C J G P R true s1 ds T acc q q' :=
    ⟨e2.wf, hj1, stack_mod e2 hi.wf ht.rel (fun i hi => hnx i (by simp [hi])), ht.nodup, ht.clone, ht.fin, ht.prot⟩
  simp only at h2 h3
  rw [← e5] at h2 h3
  have ok1 : Ok C J G P R false s (fun j => x.idx = some j) (⟨c, states⟩ :: ds) acc (tdecideAll tdec v t :: T) q' s1 (⟨c, l⟩ :: ds) [] q := by
    refine ⟨by rw [List.append_nil]; exact ht1.cons (d := ⟨c, l⟩) e4 h2 h3 false (fun e => nomatch e),
      e2.mono hi.wf (fun i _ e => .inl e), ?_, rfl⟩
    intro i hi'
    have hi' : i ∈ idxs (⟨c, states⟩ :: ds) := by simpa only [idxs_cons, e5] using hi'
    exact .inl ⟨hi', e2.eff.coll i (hi.lt i hi') (hnx i hi')⟩
  obtain ⟨k1, k2⟩ := span_over e4
  have hsplit := List.takeWhile_append_dropWhile (p := SelSt.over) (l := l)
  rw [← hsplit, didx_append] at h2 h3
  obtain ⟨n1, n2, n3⟩ := List.nodup_append.1 h2
  obtain ⟨s2, o2, ds2, q2, f1, f2⟩ := flushAll_ok hFr hfin _ _ true s1 ds T acc q q' ht1 k1 n1 (fun i hi => h3 i (by simp [hi]))
  have ok2 := f2.push (S := ⟨c, l⟩ :: ds) (F' := fun _ => False) (c := c) (b := false) hFr e2.wf hj1 k2 n2
    (fun i hi' => ⟨(h3 i (by simp [hi'])).1, fun e => n3 i e i hi' rfl, (h3 i (by simp [hi'])).2⟩) (fun e => nomatch e) rfl
    (fun i hi' => by
      rw [idxs_cons]
      rcases hi' with h | h
      · simp [h]
      · have : i ∈ didx l := by rw [← hsplit, didx_append]; simp [h]
        simp [this])
    (fun i _ e => .inr (by
      have : i ∈ didx l := by rw [← hsplit, didx_append]; simp [e]
      simp [this]))
  have hnx2 : ∀ i, x.idx = some i → i ∉ idxs (⟨c, l⟩ :: ds) := by
    intro i hi' e
    exact hnx i (by simpa only [idxs_cons, e5] using e) hi'
  have hx2 : Fresh s2 x v := ok2.mod.fresh e3 (fun i hi e => e.elim id (hnx2 i hi))
  have ok12 := ok1.trans0 ok2 (fun _ _ e => e.elim)
  simp only [dispatchItem, tdispatch]
  rw [run_ok_bind e1, run_ok_bind f1]
  by_cases hb : (tflushAll tfin (List.takeWhile TSt.over (tdecideAll tdec v t)) true T q').2.2 = true
  · simp only [hb, if_true]
    obtain ⟨s3, o3, d3, ds3, q3, g1, g2⟩ := dispatchLive_ok hFr hfin hf hD (any_selected e4) (c := c)
      (l := l.dropWhile SelSt.over)
      (fun st rest hl hs st' h1 h2 => by
        rw [← hsplit, hl]
        exact filter_two hs h1 h2) ok2.inv hx2
      (fun j hj => ⟨(hxi j hj).1, fun e => by
        rcases (ok2.new j e).lo with e | e
        · exact hnx2 j hj e
        · have := e3.lt j hj; omega⟩)
    refine ⟨s3, o2 ++ o3, d3, ds3, q3, ?_, ?_⟩
    · rw [g1]; simp
    · exact ok12.trans g2 (fun i _ e => .inl e)
  · simp only [hb, if_false]
    have hb' : (tflushAll tfin (List.takeWhile TSt.over (tdecideAll tdec v t)) true T q').2.2 = false := by simpa using hb
    refine ⟨s2, o2, _, ds2, q2, by simp [IProg.run], ok12⟩

end Verif.JPath
