import Verif.Reach
import Verif.PathRun
import Verif.IterTransforms

/-!
# Programs without clones

`Quiet Q p`: the program `p` clones nothing and makes no stream from stored tokens, and what it returns satisfies `Q`.  Then all iterators read from the
channel, and no token is stored.
-/

set_option linter.unusedSimpArgs false
set_option linter.unusedVariables false

namespace Verif

/-- No clone, no stored tokens. -/
def IOp.quiet : IOp → Prop
  | .clone _ => False
  | .detach _ => False
  | .data _ => False
  | _ => True

/-- See the head of this file. -/
def IProg.Quiet {ε α : Type} (Q : α → Prop) : IProg ε α → Prop
  | .ret a => Q a
  | .fail _ => True
  | .emit _ k => k.Quiet Q
  | .op o k => o.quiet ∧ ∀ r, (k r).Quiet Q

namespace IProg.Quiet

variable {ε α β : Type}

theorem bind {p : IProg ε α} {f : α → IProg ε β} {Q : α → Prop} {R : β → Prop} (hp : p.Quiet Q) (hf : ∀ a, Q a → (f a).Quiet R) :
    (p.bind f).Quiet R := by
  induction p with
  | ret a => exact hf a hp
  | fail e => trivial
  | emit e k ih => exact ih hp
  | op o k ih => exact ⟨hp.1, fun r => ih r (hp.2 r)⟩

theorem mono {p : IProg ε α} {Q R : α → Prop} (hp : p.Quiet Q) (h : ∀ a, Q a → R a) : p.Quiet R := by
  induction p with
  | ret a => exact h a hp
  | fail e => trivial
  | emit e k ih => exact ih hp
  | op o k ih => exact ⟨hp.1, fun r => ih r (hp.2 r)⟩

theorem putAll : ∀ (l : List ε), (IProg.putAll l).Quiet fun _ => True
  | [] => trivial
  | _ :: l => putAll l

theorem forEach {body : β → Option Scalar → Val → IProg ε β} {i : Nat} (hb : ∀ b k x, (body b k x).Quiet fun _ => True) :
    ∀ (f : Nat) (b : β), (Verif.forEach body i f b).Quiet fun _ => True
  | 0, _ => trivial
  | f + 1, b => by
    refine ⟨trivial, fun more => ?_⟩
    cases more with
    | false => trivial
    | true =>
      refine ⟨trivial, fun kv => ?_⟩
      obtain ⟨k, x⟩ := kv
      cases x with
      | none => trivial
      | some x => exact (hb b k x).bind fun b _ => forEach hb f b

theorem copyOut (x : Val) : (Verif.copyOut x).Quiet fun _ => True := ⟨trivial, fun ts => putAll ts⟩

theorem explodeArray (f : Nat) (x : Val) : (Verif.explodeArray f x).Quiet fun _ => True := by
  unfold Verif.explodeArray
  split
  · exact forEach (fun _ _ y => copyOut y) f ()
  · exact copyOut x

end IProg.Quiet

namespace Heap

/-- Everything reads from the channel; there are no pools. -/
structure Chan (h : Heap) : Prop where
  str : ∀ i, (h.coll i).stream = 0
  st : h.st = Streams.init h.st.src

theorem chan_init (ts : List Token) : (init ts).Chan := ⟨fun _ => rfl, rfl⟩

/-- If it returns, it leaves such a state. -/
private def Ch {α : Type} (r : Except Stop (Heap × α)) : Prop := ∀ h a, r = .ok (h, a) → h.Chan

private theorem Ch.bind {α β : Type} {r : Except Stop (Heap × α)} {k : Heap × α → Except Stop (Heap × β)} (hr : Ch r) (hk : ∀ h a, h.Chan → Ch (k (h, a))) :
    Ch (r >>= k) := by
  intro h b e
  cases r with
  | error x => cases e
  | ok r => exact hk r.1 r.2 (hr r.1 r.2 rfl) h b e

private theorem Ch.ok {α : Type} {h : Heap} {a : α} (hc : h.Chan) : Ch (.ok (h, a)) := by
  intro h' a' e
  cases e
  exact hc

private theorem Ch.error {α : Type} {e : Stop} : Ch (.error e : Except Stop (Heap × α)) := fun _ _ h => by cases h

/-- The same without a result. -/
private def Ch' (r : Except Stop Heap) : Prop := ∀ h, r = .ok h → h.Chan

private theorem Ch'.bind {β : Type} {r : Except Stop Heap} {k : Heap → Except Stop (Heap × β)} (hr : Ch' r) (hk : ∀ h, h.Chan → Ch (k h)) :
    Ch (r >>= k) := by
  intro h b e
  cases r with
  | error x => cases e
  | ok r => exact hk r (hr r rfl) h b e

private theorem Chan.set {h : Heap} (hc : h.Chan) (i : Nat) {c : Coll} (hs : c.stream = 0) : (h.set i c).Chan := by
  refine ⟨fun j => ?_, hc.st⟩
  show (if j = i then c else h.coll j).stream = 0
  split
  · exact hs
  · exact hc.str j

private theorem ch_next {h : Heap} (hc : h.Chan) (t : Nat) (ht : t = 0) : Ch (h.next t) := by
  subst ht
  obtain ⟨st, coll, n, bad⟩ := h
  obtain ⟨hs, hst⟩ := hc
  obtain ⟨src, pools, onChan, np, curs, nt⟩ := st
  simp only [Streams.init, Streams.mk.injEq] at hst
  obtain ⟨-, rfl, rfl, rfl, rfl, rfl⟩ := hst
  cases src with
  | nil => exact .ok ⟨hs, rfl⟩
  | cons x r => exact .ok ⟨hs, rfl⟩

private theorem ch_value {h : Heap} (hc : h.Chan) (x : Token) (t : Nat) (ht : t = 0) : Ch (h.streamedValue x t) := by
  have al : ∀ k, ((h.set h.n ⟨k, t, false, false, false, none, none⟩)).Chan := fun k => hc.set _ ht
  cases x
  case startArr => exact .ok ⟨(al .arr).str, (al .arr).st⟩
  case startObj => exact .ok ⟨(al .obj).str, (al .obj).st⟩
  case scalar s => exact .ok hc
  all_goals exact .error

private theorem ch_readToEnd : ∀ (f : Nat) {h : Heap} (hc : h.Chan) (t : Nat) (ht : t = 0) (d : Int), Ch (readToEnd f h t d)
  | 0, _, _, _, _, _ => .error
  | f + 1, h, hc, t, ht, d => by
    rw [readToEnd]
    refine (ch_next hc t ht).bind fun h x hc => ?_
    cases x with
    | none => exact .ok hc
    | some x =>
      show Ch (if depthAfter d x < 0 then _ else _)
      split
      · exact .ok hc
      · exact (ch_readToEnd f hc t ht _).bind fun h l hc => .ok hc

private theorem ch_discard : ∀ (f : Nat) {h : Heap} (hc : h.Chan) (v : Val), Ch' (discard f h v)
  | 0, _, _, _ => fun _ h => by cases h
  | _ + 1, h, hc, .scalar _ => fun _ e => by cases e; exact hc
  | f + 1, h, hc, .coll k i => by
    rw [discard]
    split
    · intro _ e; cases e; exact hc
    · have key : ∀ h : Heap, h.Chan → Ch' (do
          let t := (h.coll i).stream
          let h := h.set i { h.coll i with done := true }
          let (h, _) ← readToEnd (h.avail t + 1) h t 0
          .ok h) := by
        intro h hc h' e
        have := ch_readToEnd ((h.set i { h.coll i with done := true }).avail (h.coll i).stream + 1) (hc.set i (c := { h.coll i with done := true }) (hc.str i))
          (h.coll i).stream (hc.str i) 0
        simp only at e
        revert e this
        generalize readToEnd _ _ _ _ = r
        intro e this
        cases r with
        | error x => cases e
        | ok r => cases e; exact this r.1 r.2 rfl
      intro h' e
      split at e
      · split at e
        · cases e
        · rename_i v hv
          have := ch_discard f hc v
          revert e this
          generalize discard f h v = r
          intro e this
          cases r with
          | error x => cases e
          | ok r => exact key r (this r rfl) h' e
      · exact key h hc h' e

private theorem ch_cur {α : Type} {h : Heap} (hc : h.Chan) (i : Nat) {jp : Heap → Except Stop (Heap × α)} (hj : ∀ h : Heap, h.Chan → Ch (jp h)) :
    Ch (if (h.coll i).started then
            match (h.coll i).cur with
            | none => .error .panic
            | some v => discard h.n h v >>= jp
          else jp h) := by
  split
  · split
    · exact .error
    · exact (ch_discard _ hc _).bind hj
  · exact hj h hc

private theorem ch_advance : ∀ (f : Nat) {h : Heap} (hc : h.Chan) (i : Nat), Ch (advance f h i)
  | 0, _, _, _ => .error
  | f + 1, h, hc, i => by
    rw [advance]
    split
    · extract_lets jp
      have hj : ∀ h : Heap, h.Chan → Ch (jp h) := by
        intro h hc
        refine (ch_next hc _ (hc.str i)).bind fun h x hc => ?_
        cases x with
        | none => exact .ok (hc.set i (hc.str i))
        | some x => exact (ch_value hc x _ (hc.str i)).bind fun h v hc => .ok (hc.set i (hc.str i))
      split
      · exact (ch_discard _ hc _).bind hj
      · exact hj h hc
    · split
      · exact .ok hc
      · refine ch_cur hc i fun h hc => (ch_next hc _ (hc.str i)).bind fun h x hc => ?_
        cases x with
        | none => exact .error
        | some x =>
          cases x
          case scalar k =>
            have hc := hc.set i (c := { h.coll i with started := true, key := some k }) (hc.str i)
            refine (ch_next hc _ (hc.str i)).bind fun h y hc => ?_
            cases y with
            | none => exact .error
            | some y => exact (ch_value hc y _ (hc.str i)).bind fun h v hc => .ok (hc.set i (hc.str i))
          case endObj => exact .ok (hc.set i (hc.str i))
          case elision => exact ch_advance f (hc.set i (c := { h.coll i with elided := true }) (hc.str i)) i
          all_goals exact .error
    · split
      · exact .ok hc
      · refine ch_cur hc i fun h hc => (ch_next hc _ (hc.str i)).bind fun h x hc => ?_
        cases x with
        | none => exact .error
        | some x =>
          have val : ∀ x, Ch (do
              let h := h.set i { h.coll i with started := true }
              let (h, v) ← h.streamedValue x (h.coll i).stream
              .ok (h.set i { h.coll i with cur := some v }, true)) := fun x => by
            have hc := hc.set i (c := { h.coll i with started := true }) (hc.str i)
            exact (ch_value hc x _ (hc.str i)).bind fun h v hc => .ok (hc.set i (hc.str i))
          cases x
          case endArr => exact .ok (hc.set i (hc.str i))
          case elision => exact ch_advance f (hc.set i (c := { h.coll i with elided := true }) (hc.str i)) i
          all_goals exact val _

theorem chan_step {h h' : Heap} {o : IOp} {r : o.Res} (hc : h.Chan) (hq : o.quiet) (e : h.step o = .ok (h', r)) : h'.Chan := by
  cases o with
  | advance i => exact ch_advance _ hc i h' r e
  | current i =>
    simp only [step, Except.map] at e
    split at e <;> cases e
    exact hc
  | elided i => cases e; exact hc
  | clone v => exact hq.elim
  | discard v =>
    have := ch_discard h.n hc v
    simp only [step, Except.map] at e
    split at e
    · cases e
    · rename_i h1 e1
      cases e
      exact this _ e1
  | copy v =>
    cases v with
    | scalar s => cases e; exact hc
    | coll k i =>
      simp only [step, copy] at e
      split at e
      · cases e
      · have := ch_readToEnd ((h.set i { h.coll i with done := true }).avail (h.coll i).stream + 1) (hc.set i (c := { h.coll i with done := true }) (hc.str i))
          (h.coll i).stream (hc.str i) 0
        revert e this
        generalize readToEnd _ _ _ _ = x
        intro e this
        cases x with
        | error x => cases e
        | ok x => cases e; exact this x.1 x.2 rfl
  | detach t => exact hq.elim
  | data ts => exact hq.elim
  | reject p q =>
    simp only [step, reject] at e
    split at e <;> cases e <;> exact ⟨hc.str, hc.st⟩

end Heap

/-- In every state that a quiet program reaches, everything reads from the channel. -/
theorem IProg.Quiet.chan {ε α : Type} {p p' : IProg ε α} {Q : α → Prop} {h h' : Heap} {out : List ε} (hr : Reach Heap.mach p h out p' h') (hp : p.Quiet Q)
    (hc : h.Chan) : h'.Chan := by
  induction hr with
  | refl => exact hc
  | emit _ ih => exact ih hp hc
  | op e _ ih => exact ih (hp.2 _) (Heap.chan_step hc hp.1 e)

namespace JPath
open IProg

variable {ε φ : Type}

/-- A selector that selects while reading: not a filter, and not a slice that goes backward. -/
def Sel.Direct {C : Type} : Sel C → Prop
  | .filter _ => False
  | .rslice _ _ _ => False
  | _ => True

/-- A state of such a selector. -/
structure SelSt.Direct (st : SelSt ε) : Prop where
  sel : st.sel.Direct
  pending : st.pending = []

/-- A dispatcher of at most one such selector. -/
structure Disp.Direct (d : Disp ε) : Prop where
  clone : d.shouldClone = false
  one : d.states.length ≤ 1
  states : ∀ st ∈ d.states, st.Direct

/-- A stack of such dispatchers. -/
def StackQuiet (ds : Stack ε) : Prop := ∀ d ∈ ds, d.Direct

theorem Sel.Direct.reverses {C : Type} {s : Sel C} (h : s.Direct) : s.reverses = false := by
  cases s <;> first | rfl | exact h.elim

section
variable {fin : φ → Val → IProg ε (φ × Bool)} (hfin : ∀ q x, (fin q x).Quiet fun _ => True)

/-- What is known of the programs that pass on a value. -/
def FollowQuiet (follow : Stack ε → φ → Val → IProg ε (Stack ε × φ × Bool)) : Prop :=
  ∀ ds q x, StackQuiet ds → (follow ds q x).Quiet fun r => StackQuiet r.1 ∧ r.1.length = ds.length

include hfin in
theorem quiet_process : FollowQuiet (process fin) := by
  intro ds
  induction ds with
  | nil => intro q x _; exact (hfin q x).bind fun r _ => ⟨(fun _ h => by cases h), rfl⟩
  | cons d ds ih =>
    intro q x hd
    have h1 := hd d List.mem_cons_self
    have h2 : StackQuiet ds := fun e he => hd e (List.mem_cons_of_mem _ he)
    obtain ⟨c, states⟩ := d
    obtain ⟨hc, ho, hs⟩ := h1
    simp only at hc ho hs
    subst hc
    rw [process]
    cases states with
    | nil => exact ⟨hd, rfl⟩
    | cons st rest =>
      obtain rfl : rest = [] := by
        cases rest with
        | nil => rfl
        | cons _ _ => simp at ho
      have hst := hs st List.mem_cons_self
      simp only [cloneIf, hst.sel.reverses]
      split
      · refine (ih q x h2).bind fun r hr => ?_
        simp only [detachOpt, IProg.ret_bind]
        split
        · refine ⟨?_, by simp [hr.2]⟩
          intro e he
          rcases List.mem_cons.1 he with rfl | he
          · exact ⟨rfl, ho, hs⟩
          · exact hr.1 e he
        · refine ⟨?_, by simp [hr.2]⟩
          intro e he
          rcases List.mem_cons.1 he with rfl | he
          · exact ⟨rfl, ho, hs⟩
          · exact hr.1 e he
      · refine ⟨?_, rfl⟩
        intro e he
        rcases List.mem_cons.1 he with rfl | he
        · exact ⟨rfl, ho, hs⟩
        · exact h2 e he

theorem quiet_flushAll : ∀ (l : List (SelSt ε)) (b : Bool) (ds : Stack ε) (q : φ), (∀ st ∈ l, st.Direct) →
    flushAll fin l b ds q = .ret (ds, q, b)
  | [], _, _, _, _ => rfl
  | st :: l, b, ds, q, h => by
    rw [flushAll, flushSt, (h st List.mem_cons_self).pending]
    simp only [List.reverse_nil, ite_self, flushVals, IProg.ret_bind]
    exact quiet_flushAll l b ds q fun st hs => h st (List.mem_cons_of_mem _ hs)

theorem quiet_decideAll (dec : Sel (CondP ε) → Decision) (x : Val) {states : List (SelSt ε)} (ho : states.length ≤ 1) (hs : ∀ st ∈ states, st.Direct) :
    (decideAll dec x states).Quiet fun l => l.length ≤ 1 ∧ ∀ st ∈ l, st.Direct := by
  cases states with
  | nil => exact ⟨Nat.zero_le _, fun _ h => by cases h⟩
  | cons st rest =>
    obtain rfl : rest = [] := by
      cases rest with
      | nil => rfl
      | cons _ _ => simp at ho
    have hst := hs st List.mem_cons_self
    rw [decideAll]
    split
    · refine ⟨Nat.le_refl _, ?_⟩
      intro st' h
      rw [List.mem_singleton.1 h]
      exact ⟨hst.sel, hst.pending⟩
    · refine IProg.Quiet.bind (Q := fun _ => True) ?_ fun b _ => ?_
      · split
        · trivial
        · split
          · trivial
          · obtain ⟨sel, _, _, _⟩ := st
            have := hst.sel
            cases sel <;> first | trivial | exact this.elim
      · refine ⟨Nat.le_refl _, ?_⟩
        intro st' h
        rw [List.mem_singleton.1 h]
        exact ⟨hst.sel, hst.pending⟩

theorem quiet_dispatchItem {follow : Stack ε → φ → Val → IProg ε (Stack ε × φ × Bool)} (hfo : FollowQuiet follow) (dec : Sel (CondP ε) → Decision) (x : Val)
    {d : Disp ε} {ds : Stack ε} {q : φ} (hd : d.Direct) (hds : StackQuiet ds) :
    (dispatchItem fin follow dec x d ds q).Quiet fun r => r.1.Direct ∧ StackQuiet r.2.1 ∧ r.2.1.length = ds.length := by
  obtain ⟨c, states⟩ := d
  obtain ⟨hc, ho, hs⟩ := hd
  simp only at hc ho hs
  subst hc
  rw [dispatchItem]
  refine (quiet_decideAll dec x ho hs).bind fun states hst => ?_
  obtain ⟨ho, hs⟩ := hst
  have hsub : ∀ st ∈ states.dropWhile SelSt.over, st.Direct := fun st h => hs st ((List.dropWhile_sublist _).subset h)
  have hlen : (states.dropWhile SelSt.over).length ≤ 1 := Nat.le_trans (List.dropWhile_sublist _).length_le ho
  rw [quiet_flushAll _ _ _ _ fun st h => hs st ((List.takeWhile_sublist _).subset h)]
  simp only [IProg.ret_bind, if_true]
  cases hst : states.dropWhile SelSt.over with
  | nil => exact ⟨⟨rfl, Nat.zero_le _, fun _ h => by cases h⟩, hds, rfl⟩
  | cons st rest =>
    rw [hst] at hsub hlen
    obtain rfl : rest = [] := by
      cases rest with
      | nil => rfl
      | cons _ _ => simp at hlen
    have h1 := hsub st List.mem_cons_self
    have hself : ∀ c, c = false → (⟨c, [st]⟩ : Disp ε).Direct := fun c hc => ⟨hc, Nat.le_refl _, fun s h => by rw [List.mem_singleton.1 h]; exact h1⟩
    simp only [dispatchLive, h1.pending, List.isEmpty_nil, Bool.or_true, if_true, IProg.ret_bind]
    obtain rfl : states = [st] := by
      cases states with
      | nil => simp at hst
      | cons a l =>
        cases l with
        | nil =>
          rw [List.dropWhile_cons] at hst
          split at hst
          · simp at hst
          · exact hst
        | cons _ _ => simp at ho
    split
    · rename_i hcount
      have hsel : st.selected = true := by
        cases e : st.selected with
        | true => rfl
        | false => simp [e] at hcount
      have hlt : ¬ (List.filter (fun x => x.selected) [st]).length > 1 := by simp [hsel]
      have hstk : StackQuiet (⟨decide ((List.filter (fun x => x.selected) [st]).length > 1) || !st.selected, [st]⟩ :: ds) := by
        intro e he
        rcases List.mem_cons.1 he with rfl | he
        · exact hself _ (by simp [hsel])
        · exact hds e he
      refine (hfo _ q x hstk).bind fun r hr => ?_
      obtain ⟨hr1, hr2⟩ := hr
      obtain ⟨stk, q', b⟩ := r
      cases stk with
      | nil => simp at hr2
      | cons d ds' => exact ⟨hr1 d List.mem_cons_self, fun e he => hr1 e (List.mem_cons_of_mem _ he), by simpa using hr2⟩
    · exact ⟨hself _ rfl, hds, rfl⟩

/-- The result of a loop. -/
def LoopQuiet (n : Nat) (r : Disp ε × Stack ε × φ × Bool) : Prop := r.1.Direct ∧ StackQuiet r.2.1 ∧ r.2.1.length = n

theorem quiet_objRelaxed {follow self : Stack ε → φ → Val → IProg ε (Stack ε × φ × Bool)} (hfo : FollowQuiet follow) (i : Nat) {n : Nat} :
    ∀ (f : Nat) {d : Disp ε} {ds : Stack ε} (q : φ), d.Direct → StackQuiet ds → ds.length = n →
      (objRelaxed fin false follow self i f d ds q).Quiet (LoopQuiet n)
  | 0, _, _, _, _, _, _ => trivial
  | f + 1, d, ds, q, hd, hs, hn => by
    refine ⟨trivial, fun more => ?_⟩
    cases more with
    | false => exact ⟨hd, hs, hn⟩
    | true =>
      refine ⟨trivial, fun kv => ?_⟩
      obtain ⟨k, x⟩ := kv
      cases k with
      | none => trivial
      | some k =>
        cases x with
        | none => trivial
        | some x =>
          simp only [cloneDesc, Bool.false_eq_true, if_false, IProg.ret_bind, if_true]
          split
          · trivial
          · refine (quiet_dispatchItem hfo _ x hd hs).bind fun r hr => ?_
            simp only [roundEnd, detachOpt, Bool.false_eq_true, if_false, IProg.ret_bind]
            split
            · simp only [IProg.ret_bind]
              split
              · exact quiet_objRelaxed hfo i f _ hr.1 hr.2.1 (by rw [hr.2.2, hn])
              · exact ⟨hr.1, hr.2.1, by rw [hr.2.2, hn]⟩
            · simp only [IProg.ret_bind, Bool.false_eq_true, if_false]
              exact ⟨hr.1, hr.2.1, by rw [hr.2.2, hn]⟩

theorem quiet_arrRelaxed {follow self : Stack ε → φ → Val → IProg ε (Stack ε × φ × Bool)} (hfo : FollowQuiet follow) (i : Nat) {n : Nat} :
    ∀ (f : Nat) (index neg : Int) {d : Disp ε} {ds : Stack ε} (q : φ), d.Direct → StackQuiet ds → ds.length = n →
      (arrRelaxed fin false follow self i none f index neg d ds q).Quiet (LoopQuiet n)
  | 0, _, _, _, _, _, _, _, _ => trivial
  | f + 1, index, neg, d, ds, q, hd, hs, hn => by
    refine ⟨trivial, fun more => ?_⟩
    cases more with
    | false => exact ⟨hd, hs, hn⟩
    | true =>
      refine ⟨trivial, fun kv => ?_⟩
      obtain ⟨k, x⟩ := kv
      cases x with
      | none => trivial
      | some x =>
        simp only [cloneDesc, Bool.false_eq_true, if_false, IProg.ret_bind, if_true]
        refine (quiet_dispatchItem hfo _ x hd hs).bind fun r hr => ?_
        simp only [nextNeg, roundEnd, detachOpt, Bool.false_eq_true, if_false, IProg.ret_bind]
        split
        · simp only [IProg.ret_bind]
          split
          · exact quiet_arrRelaxed hfo i f _ _ _ hr.1 hr.2.1 (by rw [hr.2.2, hn])
          · exact ⟨hr.1, hr.2.1, by rw [hr.2.2, hn]⟩
        · simp only [IProg.ret_bind]
          exact ⟨hr.1, hr.2.1, by rw [hr.2.2, hn]⟩

theorem quiet_objStrict {follow : Stack ε → φ → Val → IProg ε (Stack ε × φ × Bool)} (hfo : FollowQuiet follow) (i : Nat) {n : Nat} :
    ∀ (f : Nat) {d : Disp ε} {ds : Stack ε} (q : φ), d.Direct → StackQuiet ds → ds.length = n →
      (objStrict fin follow i f d ds q).Quiet (LoopQuiet n)
  | 0, _, _, _, _, _, _ => trivial
  | f + 1, d, ds, q, hd, hs, hn => by
    refine ⟨trivial, fun more => ?_⟩
    cases more with
    | false => exact ⟨hd, hs, hn⟩
    | true =>
      refine ⟨trivial, fun kv => ?_⟩
      obtain ⟨k, x⟩ := kv
      cases k with
      | none => trivial
      | some k =>
        cases x with
        | none => trivial
        | some x =>
          simp only [if_true]
          split
          · trivial
          · refine (quiet_dispatchItem hfo _ x hd hs).bind fun r hr => ?_
            split
            · exact quiet_objStrict hfo i f _ hr.1 hr.2.1 (by rw [hr.2.2, hn])
            · exact ⟨hr.1, hr.2.1, by rw [hr.2.2, hn]⟩

theorem quiet_arrStrict {follow : Stack ε → φ → Val → IProg ε (Stack ε × φ × Bool)} (hfo : FollowQuiet follow) (i : Nat) {n : Nat} :
    ∀ (f : Nat) (index neg : Int) {d : Disp ε} {ds : Stack ε} (q : φ), d.Direct → StackQuiet ds → ds.length = n →
      (arrStrict fin follow i none f index neg d ds q).Quiet (LoopQuiet n)
  | 0, _, _, _, _, _, _, _, _ => trivial
  | f + 1, index, neg, d, ds, q, hd, hs, hn => by
    refine ⟨trivial, fun more => ?_⟩
    cases more with
    | false => exact ⟨hd, hs, hn⟩
    | true =>
      refine ⟨trivial, fun kv => ?_⟩
      obtain ⟨k, x⟩ := kv
      cases x with
      | none => trivial
      | some x =>
        refine (quiet_dispatchItem hfo _ x hd hs).bind fun r hr => ?_
        simp only [nextNeg, IProg.ret_bind]
        split
        · split
          · exact ⟨hr.1, hr.2.1, by rw [hr.2.2, hn]⟩
          · exact quiet_arrStrict hfo i f _ _ _ hr.1 hr.2.1 (by rw [hr.2.2, hn])
        · exact ⟨hr.1, hr.2.1, by rw [hr.2.2, hn]⟩

theorem quiet_finish {n : Nat} {r : Disp ε × Stack ε × φ × Bool} (h : LoopQuiet n r) :
    (finish fin r).Quiet fun r => StackQuiet r.1 ∧ r.1.length = n := by
  rw [finish, quiet_flushAll _ _ _ _ h.1.states]
  exact ⟨h.2.1, h.2.2⟩

/-- A child segment with one selector that selects while reading. -/
structure Seg.Direct {C : Type} (seg : Seg C) : Prop where
  desc : seg.desc = false
  one : seg.sels.length ≤ 1
  sels : ∀ s ∈ seg.sels, s.Direct
  ahead : ¬ segLookahead seg.sels > 0

theorem quiet_segP {strict : Bool} {F : Nat} {seg : Seg (CondP ε)} {follow : Stack ε → φ → Val → IProg ε (Stack ε × φ × Bool)} (hseg : seg.Direct)
    (hfo : FollowQuiet follow) : ∀ (g : Nat), FollowQuiet (segP fin strict F seg follow g) := by
  have hnew : (newDisp seg.sels : Disp ε).Direct := by
    refine ⟨rfl, by simpa [newDisp] using hseg.one, ?_⟩
    intro st h
    simp only [newDisp, List.mem_map] at h
    obtain ⟨s, hs, rfl⟩ := h
    exact ⟨hseg.sels s hs, rfl⟩
  intro g ds q x hs
  cases g with
  | zero => trivial
  | succ g =>
    rcases x with s | ⟨_ | _ | _, i⟩
    case coll.obj =>
      rw [segP]
      split
      · simp only [cloneDesc, hseg.desc, Bool.false_eq_true, if_false, IProg.ret_bind]
        refine (quiet_objStrict hfo _ F q hnew hs rfl).bind fun r hr => ?_
        simp only [strictEnd, Bool.and_false, Bool.false_eq_true, if_false, IProg.ret_bind, detachOpt]
        exact quiet_finish hr
      · rw [hseg.desc]
        exact (quiet_objRelaxed hfo _ F q hnew hs rfl).bind fun r hr => quiet_finish hr
    case coll.arr =>
      rw [segP, lookStart, if_neg hseg.ahead]
      simp only [IProg.ret_bind]
      split
      · simp only [cloneDesc, hseg.desc, Bool.false_eq_true, if_false, IProg.ret_bind]
        refine (quiet_arrStrict hfo _ F _ _ q hnew hs rfl).bind fun r hr => ?_
        simp only [strictEnd, Bool.and_false, Bool.false_eq_true, if_false, IProg.ret_bind, detachOpt]
        exact quiet_finish hr
      · rw [hseg.desc]
        refine (quiet_arrRelaxed hfo _ F _ _ q hnew hs rfl).bind fun r hr => ?_
        simp only [detachOpt, IProg.ret_bind]
        exact quiet_finish hr
    all_goals exact ⟨trivial, fun _ => ⟨hs, rfl⟩⟩

include hfin in
theorem quiet_segsP {strict : Bool} {F : Nat} : ∀ {segs : List (Seg (CondP ε))}, (∀ s ∈ segs, s.Direct) → FollowQuiet (segsP fin strict F segs)
  | [], _ => quiet_process hfin
  | seg :: segs, h => quiet_segP (h seg List.mem_cons_self) (quiet_segsP fun s hs => h s (List.mem_cons_of_mem _ hs)) F

end

/-- A compiled segment of this kind. -/
def SegR.Direct : SegR → Prop
  | .mk desc sels => (⟨desc, sels⟩ : Seg CondR).Direct

theorem selsR_direct (e : Env) : ∀ {sels : List (Sel CondR)}, (∀ s ∈ sels, s.Direct) →
    (selsR (ε := ε) e sels).length = sels.length ∧ (∀ s ∈ selsR (ε := ε) e sels, s.Direct) ∧ (selsR (ε := ε) e sels).map Sel.lookahead = sels.map Sel.lookahead
  | [], _ => ⟨rfl, fun _ h => (by rw [selsR] at h; cases h), rfl⟩
  | s :: l, h => by
    obtain ⟨h1, h2, h3⟩ := selsR_direct e fun s hs => h s (List.mem_cons_of_mem _ hs)
    have hs := h s List.mem_cons_self
    refine ⟨by simp [selsR, h1], ?_, ?_⟩
    · intro s' hs'
      rw [selsR] at hs'
      rcases List.mem_cons.1 hs' with rfl | hs'
      · cases s <;> first | exact hs.elim | (rw [selR]; trivial)
      · exact h2 s' hs'
    · rw [selsR, List.map_cons, List.map_cons, h3]
      cases s <;> first | exact hs.elim | rfl

private theorem look_map {C D : Type} : ∀ (l : List (Sel C)) (l' : List (Sel D)) (n : Int), l.map Sel.lookahead = l'.map Sel.lookahead →
    l.foldl (fun l s => if s.lookahead > l then s.lookahead else l) n = l'.foldl (fun l s => if s.lookahead > l then s.lookahead else l) n
  | [], [], _, _ => rfl
  | [], _ :: _, _, h => by simp at h
  | _ :: _, [], _, h => by simp at h
  | a :: l, b :: l', n, h => by
    simp only [List.map_cons, List.cons.injEq] at h
    simp only [List.foldl_cons, h.1]
    exact look_map l l' _ h.2

theorem segsR_direct (e : Env) : ∀ {segs : List SegR}, (∀ s ∈ segs, s.Direct) → ∀ s ∈ segsR (ε := ε) e segs, s.Direct
  | [], _, s, hs => by rw [segsR] at hs; cases hs
  | .mk desc sels :: l, h, s, hs => by
    rw [segsR] at hs
    rcases List.mem_cons.1 hs with rfl | hs
    · have h1 : (⟨desc, sels⟩ : Seg CondR).Direct := h _ List.mem_cons_self
      obtain ⟨g1, g2, g3⟩ := selsR_direct (ε := ε) e h1.sels
      rw [segR]
      refine ⟨h1.desc, by simp only [g1]; exact h1.one, g2, ?_⟩
      have : segLookahead (selsR (ε := ε) e sels) = segLookahead sels := look_map _ _ 0 g3
      simp only [this]
      exact h1.ahead
    · exact segsR_direct e (fun s hs => h s (List.mem_cons_of_mem _ hs)) s hs

theorem quiet_writeFin (q : Unit) (x : Val) : (writeFin q x).Quiet fun _ => True :=
  ⟨trivial, fun ts => (IProg.Quiet.putAll ts).bind fun _ _ => trivial⟩

theorem quiet_runValue {lib : Lib} {strict : Bool} {fuel : Nat} {main : List SegR} (h : ∀ s ∈ main, s.Direct) (x : Val) :
    (runValue lib strict fuel ⟨main, [], []⟩ x).Quiet fun _ => True := by
  rw [runValue, runContext, singCtx]
  simp only [IProg.ret_bind, queryCtx, queryP, mapValue]
  refine IProg.Quiet.bind (Q := fun _ => True) ?_ fun _ _ => trivial
  exact (quiet_segsP quiet_writeFin (segsR_direct _ h) [] () x fun _ h => by cases h).bind fun _ _ => trivial

theorem quiet_runQuery {lib : Lib} {strict : Bool} {fuel : Nat} {main : List SegR} (h : ∀ s ∈ main, s.Direct) :
    ∀ (f : Nat), (runQuery lib strict fuel ⟨main, [], []⟩ f).Quiet fun _ => True
  | 0 => trivial
  | f + 1 => by
    refine ⟨trivial, fun more => ?_⟩
    cases more with
    | false => trivial
    | true =>
      refine ⟨trivial, fun kv => ?_⟩
      obtain ⟨k, x⟩ := kv
      cases x with
      | none => trivial
      | some x => exact (quiet_runValue h x).bind fun _ _ => quiet_runQuery h f

end JPath
end Verif
