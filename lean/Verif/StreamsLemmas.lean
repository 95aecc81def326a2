import Verif.Streams
import Verif.CursorPoolLemmas

/-!
# Streams as independent lists

`SV s view rest lt dat`: stream `t` (a cursor) will deliver the list `view t` (`none`: detached) to
its reader, whatever the readers of the other streams do.  The channel delivers `rest`, except that while `lt = some t`
it has been lent to the pool of `t`, and must not be read before `t` has delivered all its tokens.
-/

set_option linter.unusedSimpArgs false

namespace Verif
namespace Streams

open Pool (Inv)

/-- The pool invariant does not depend on what the underlying stream has still to deliver. -/
theorem inv_swap {P : Pool} {a : APool} (h : Inv P a) (Y : List Token) :
    Inv { P with stream := Y } { a with all := a.all.take a.frontier ++ Y } := by
  have hl : (a.all.take a.frontier).length = a.frontier := by
    simp [Nat.min_eq_left h.fr]
  constructor
  case stream => simp [hl]
  case fr => simp [hl]
  case window =>
    simp only
    rw [h.window, List.take_append_of_le_length (Nat.le_of_eq hl.symm), List.take_of_length_le (Nat.le_of_eq hl)]
  all_goals (cases h; assumption)

/-- What a borrowing pool has not yet taken from the channel. -/
def lentRem (ap : Nat → APool) : Option Nat → List Token
  | none => []
  | some p => (ap p).all.drop (ap p).frontier

/-- Ghost state for each pool: its specification state over the tokens of one value. -/
structure SInv (s : Streams) (ap : Nat → APool) (lent : Option Nat) (rest : List Token) : Prop where
  inv : ∀ p < s.np, Inv { s.pools p with stream := (ap p).all.drop (ap p).frontier } (ap p)
  data : ∀ p < s.np, s.onChan p = false →
    (s.pools p).stream = [] ∧ (ap p).frontier = (ap p).all.length
  exh : ∀ p < s.np, lent ≠ some p → (ap p).frontier = (ap p).all.length
  lent_lt : ∀ p, lent = some p → p < s.np ∧ s.onChan p = true
  src : s.src = lentRem ap lent ++ rest
  nt : 0 < s.nt
  curs : ∀ t, 0 < t → t < s.nt → (s.curs t).1 < s.np ∧ (s.curs t).2 < (ap (s.curs t).1).nextId
  inj : ∀ t t', 0 < t → t < s.nt → 0 < t' → t' < s.nt → s.curs t = s.curs t' → t = t'

/-- The tokens a cursor will deliver. -/
def viewOf (s : Streams) (ap : Nat → APool) (t : Nat) : Option (List Token) :=
  ((ap (s.curs t).1).cur (s.curs t).2).map (ap (s.curs t).1).all.drop

/-- See the head of this file. -/
def SV (s : Streams) (view : Nat → Option (List Token)) (rest : List Token) (lt : Option Nat)
    (dat : Nat → Bool) : Prop :=
  ∃ ap, SInv s ap (lt.map fun t => (s.curs t).1) rest ∧
    (∀ t, 0 < t → t < s.nt → view t = viewOf s ap t) ∧
    (∀ t, lt = some t → 0 < t ∧ t < s.nt) ∧
    (∀ t, 0 < t → t < s.nt → dat t = true → s.onChan (s.curs t).1 = false)

/-- Function update. -/
def upd {α : Type} (f : Nat → α) (i : Nat) (x : α) : Nat → α := fun j => if j = i then x else f j

@[simp] theorem upd_same {α : Type} (f : Nat → α) (i : Nat) (x : α) : upd f i x i = x := by simp [upd]
theorem upd_ne {α : Type} (f : Nat → α) {i j : Nat} (x : α) (h : j ≠ i) : upd f i x j = f j := by
  simp [upd, h]

theorem sv_init (ts : List Token) (view dat) : SV (init ts) view ts none dat := by
  refine ⟨fun _ => ⟨[], 0, fun _ => none, 0⟩, ⟨?_, ?_, ?_, ?_, ?_, ?_, ?_, ?_⟩, ?_, ?_, ?_⟩ <;>
    simp [init, lentRem] <;> omega

/-- The lent channel is free again when the borrower has delivered everything. -/
theorem SV.release {s view rest t dat} (h : SV s view rest (some t) dat) (hv : view t = some []) :
    SV s view rest none dat := by
  obtain ⟨ap, hi, hvw, hlt, hd⟩ := h
  obtain ⟨h0, h1⟩ := hlt t rfl
  rw [hvw t h0 h1] at hv
  have hp := (hi.curs t h0 h1).1
  have hinv := hi.inv _ hp
  simp only [viewOf, Option.map_eq_some_iff] at hv
  obtain ⟨n, hn, hdr⟩ := hv
  have := hinv.hi _ _ hn
  have := hinv.fr
  have hle : (ap (s.curs t).1).all.length ≤ n := by simpa using hdr
  refine ⟨ap, ⟨hi.inv, hi.data, ?_, by simp, ?_, hi.nt, hi.curs, hi.inj⟩, hvw, by simp, hd⟩
  · intro p hp' _
    by_cases hpp : p = (s.curs t).1
    · subst hpp; omega
    · exact hi.exh p hp' (by simp [Ne.symm hpp])
  · rw [hi.src]
    simp only [Option.map_some, Option.map_none, List.append_cancel_right_eq, lentRem]
    rw [List.drop_eq_nil_of_le (by omega)]

theorem SV.next_chan {s view rest dat x} (h : SV s view (x :: rest) none dat) :
    ∃ s', s.next 0 = some (s', some x) ∧ SV s' view rest none dat ∧ s'.nt = s.nt := by
  obtain ⟨ap, hi, hvw, hlt, hd⟩ := h
  have hs : s.src = x :: rest := by simpa [lentRem] using hi.src
  refine ⟨{ s with src := rest }, by simp [next, hs],
    ⟨ap, ⟨hi.inv, hi.data, ?_, by simp, by simp [lentRem], hi.nt, hi.curs, hi.inj⟩, hvw, by simp, hd⟩, rfl⟩
  intro p hp _
  exact hi.exh p hp (by simp)

theorem SV.next_chan_nil {s view dat} (h : SV s view [] none dat) : s.next 0 = some (s, none) := by
  obtain ⟨ap, hi, hvw, hlt, hd⟩ := h
  have hs : s.src = [] := by simpa [lentRem] using hi.src
  simp [next, hs]

/-- In an inhabited position, the swapped pool of a cursor sees the value followed by junk. -/
theorem SInv.swapped {s ap lent rest p} (h : SInv s ap lent rest) (hp : p < s.np) :
    ∃ J, Inv (s.pool p) { ap p with all := (ap p).all ++ J } ∧
      (s.onChan p = true → s.src = (ap p).all.drop (ap p).frontier ++ J) ∧
      (s.onChan p = false → J = []) := by
  have hinv := h.inv p hp
  cases hc : s.onChan p with
  | false =>
    refine ⟨[], ?_, by simp, by simp⟩
    have := h.data p hp hc
    simp only [pool, hc, List.append_nil]
    have e : (ap p).all.drop (ap p).frontier = [] := List.drop_eq_nil_of_le (by omega)
    rw [e, ← this.1] at hinv
    exact hinv
  | true =>
    have hsrc : ∃ J, s.src = (ap p).all.drop (ap p).frontier ++ J := by
      by_cases hl : lent = some p
      · exact ⟨rest, by rw [h.src, hl]; rfl⟩
      · have := h.exh p hp hl
        exact ⟨s.src, by rw [List.drop_eq_nil_of_le (by omega)]; rfl⟩
    obtain ⟨J, hJ⟩ := hsrc
    refine ⟨J, ?_, fun _ => hJ, by simp⟩
    have := inv_swap hinv s.src
    simp only [pool, hc]
    rw [hJ] at this
    simp only [← List.append_assoc, List.take_append_drop] at this
    rw [hJ]
    exact this

/-- Going back from a swapped pool to the tokens of the value. -/
theorem inv_unswap {P : Pool} {a : APool} {all J : List Token}
    (h : Inv P a) (ha : a.all = all ++ J) (hf : a.frontier ≤ all.length) :
    Inv { P with stream := all.drop a.frontier } { a with all := all } := by
  have := inv_swap h (all.drop a.frontier)
  rw [ha, List.take_append_of_le_length hf, List.take_append_drop] at this
  exact this

/-- Replacing the state of one pool. -/
theorem SInv.update {s ap lent rest p} (h : SInv s ap lent rest) (hp : p < s.np) {P' : Pool} {a' : APool}
    {J : List Token} (hall : a'.all = (ap p).all) (hf1 : (ap p).frontier ≤ a'.frontier)
    (hid : (ap p).nextId ≤ a'.nextId)
    (hinv : Inv P' { a' with all := (ap p).all ++ J }) (hf2 : a'.frontier ≤ (ap p).all.length)
    (hJ1 : s.onChan p = true → s.src = (ap p).all.drop (ap p).frontier ++ J)
    (hJ2 : s.onChan p = false → J = []) :
    SInv (s.setPool p P') (upd ap p a') lent rest := by
  have hstream : s.onChan p = true → P'.stream = (ap p).all.drop a'.frontier ++ J := by
    intro _
    rw [hinv.stream]
    simp only
    rw [List.drop_append_of_le_length hf2]
  have hstream2 : s.onChan p = false → P'.stream = [] := by
    intro hc
    rw [hinv.stream, hJ2 hc]
    have := (h.data p hp hc).2
    simp only [List.append_nil]
    exact List.drop_eq_nil_of_le (by omega)
  constructor
  · intro q hq
    by_cases hqp : q = p
    · subst hqp
      simp only [setPool, if_true, upd_same]
      have := inv_unswap hinv rfl hf2
      simp only [← hall] at this ⊢
      exact this
    · simp only [setPool, hqp, if_false, upd_ne _ _ hqp]; exact h.inv q hq
  · intro q hq hoc
    by_cases hqp : q = p
    · subst hqp
      simp only [setPool, if_true, upd_same]
      have := (h.data q hq hoc).2
      exact ⟨hstream2 hoc, by rw [hall]; omega⟩
    · simp only [setPool, hqp, if_false, upd_ne _ _ hqp]; exact h.data q hq hoc
  · intro q hq hl
    by_cases hqp : q = p
    · subst hqp
      have := h.exh q hq hl
      rw [upd_same, hall]; omega
    · simp only [upd_ne _ _ hqp]; exact h.exh q hq hl
  · exact h.lent_lt
  · simp only [setPool]
    cases hl : lent with
    | none =>
      have hs := h.src
      rw [hl] at hs
      simp only [lentRem, List.nil_append] at hs
      simp only [lentRem, List.nil_append]
      split
      · next hoc =>
        rw [hstream hoc]
        have hf := h.exh p hp (by rw [hl]; simp)
        have := hJ1 hoc
        rw [List.drop_eq_nil_of_le (by omega), List.nil_append] at this
        rw [List.drop_eq_nil_of_le (by omega), List.nil_append, ← this, hs]
      · exact hs
    | some q =>
      have hs := h.src
      rw [hl] at hs
      simp only [lentRem] at hs ⊢
      have hql := h.lent_lt q hl
      by_cases hqp : q = p
      · subst hqp
        simp only [hql.2, if_true, upd_same]
        rw [hstream hql.2]
        have := hJ1 hql.2
        rw [hs] at this
        simp only [List.append_cancel_left_eq] at this
        subst this; rw [hall]
      · simp only [upd_ne _ _ hqp]
        split
        · next hoc =>
          rw [hstream hoc]
          have hf := h.exh p hp (by rw [hl]; simpa using hqp)
          have := hJ1 hoc
          rw [List.drop_eq_nil_of_le (by omega), List.nil_append] at this
          rw [List.drop_eq_nil_of_le (by omega), List.nil_append, ← this, hs]
        · exact hs
  · exact h.nt
  · intro t' ht0 ht1
    have := h.curs t' ht0 ht1
    simp only [setPool]
    refine ⟨this.1, ?_⟩
    by_cases hqp : (s.curs t').1 = p
    · rw [hqp, upd_same]; rw [hqp] at this; omega
    · rw [upd_ne _ _ hqp]; exact this.2
  · exact h.inj

/-- The views after replacing the state of one pool, if only the position of one cursor has changed. -/
theorem view_update {s ap lent rest p c} (h : SInv s ap lent rest) {P' : Pool} {a' : APool}
    (hall : a'.all = (ap p).all) (hcur : ∀ i, i ≠ c → a'.cur i = (ap p).cur i) {t : Nat}
    (h0 : 0 < t) (h1 : t < s.nt) (hc : s.curs t = (p, c)) {t' : Nat} (ht0 : 0 < t') (ht1 : t' < s.nt) :
    viewOf (s.setPool p P') (upd ap p a') t' =
      if t' = t then (a'.cur c).map a'.all.drop else viewOf s ap t' := by
  by_cases e : t' = t
  · subst e
    simp [viewOf, setPool, hc]
  · simp only [viewOf, setPool, e, if_false]
    by_cases hqp : (s.curs t').1 = p
    · have : (s.curs t').2 ≠ c := by
        intro e3
        exact e (h.inj t' t ht0 ht1 h0 h1 (by rw [hc, Prod.ext_iff]; simp [hqp, e3]))
      rw [hqp, upd_same, hcur _ this, hall]
    · rw [upd_ne _ _ hqp]

theorem step_next {P P' : Pool} {c : Nat} {x : Option Token}
    (h : P.step (.next c) = some (P', .token x)) : P.next c = some (P', x) := by
  simp only [Pool.step] at h
  cases hq : P.next c with
  | none => rw [hq] at h; simp at h
  | some q =>
    obtain ⟨q1, q2⟩ := q
    rw [hq] at h; simp at h
    rw [h.1, h.2]

/-- A cursor that has a token left delivers it, and no other reader notices. -/
theorem SV.next_cur {s view rest lt dat t x l} (h : SV s view rest lt dat) (h0 : 0 < t) (h1 : t < s.nt)
    (hv : view t = some (x :: l)) :
    ∃ s', s.next t = some (s', some x) ∧ SV s' (upd view t (some l)) rest lt dat ∧ s'.nt = s.nt := by
  obtain ⟨ap, hi, hvw, hlt, hd⟩ := h
  rw [hvw t h0 h1] at hv
  obtain ⟨hp, hc⟩ := hi.curs t h0 h1
  have hpc : s.curs t = ((s.curs t).1, (s.curs t).2) := rfl
  generalize hpe : (s.curs t).1 = p at *
  generalize hce : (s.curs t).2 = c at *
  simp only [viewOf, hpe, hce, Option.map_eq_some_iff] at hv
  obtain ⟨n, hn, hdr⟩ := hv
  obtain ⟨J, hinv, hJ1, hJ2⟩ := hi.swapped hp
  have hlen : n < (ap p).all.length := by
    rcases Nat.lt_or_ge n (ap p).all.length with h | h
    · exact h
    · rw [List.drop_eq_nil_of_le h] at hdr; cases hdr
  have hx : (ap p).all[n]? = some x := by
    rw [List.getElem?_eq_getElem hlen]
    rw [List.drop_eq_getElem_cons hlen] at hdr
    injection hdr with e1 e2; rw [e1]
  have hl : (ap p).all.drop (n + 1) = l := by
    rw [List.drop_eq_getElem_cons hlen] at hdr
    injection hdr with e1 e2
  obtain ⟨P', hst, hinv'⟩ := hinv.step (.next c)
  have hx' : ((ap p).all ++ J)[n]? = some x := by rw [List.getElem?_append_left hlen]; exact hx
  simp only [APool.step, hn, hx'] at hst hinv'
  have hnext := step_next hst
  have hfr := (hi.inv p hp).fr
  have hu := hi.update hp (P' := P')
    (a' := { ap p with cur := fun i => if i = c then some (n + 1) else (ap p).cur i,
                       frontier := max (ap p).frontier (n + 1) }) (J := J)
    rfl (Nat.le_max_left _ _) (Nat.le_refl _) hinv' (by simp only; omega) hJ1 hJ2
  refine ⟨s.setPool p P', ?_, ⟨_, hu, ?_, hlt, hd⟩, rfl⟩
  · simp only [next, hpe, hce, hnext]
    rw [if_neg (by omega)]
    rfl
  · intro t' ht0 ht1
    refine Eq.trans ?_ (view_update hi (by rfl) (by intro i hi; simp [hi]) h0 h1 hpc ht0 ht1).symm
    by_cases e : t' = t
    · subst e; simp [hl]
    · rw [upd_ne _ _ e, hvw t' ht0 ht1]; simp [e]

/-- Reading at the end of a slice detaches the cursor. -/
theorem SV.next_data_nil {s view rest lt dat t} (h : SV s view rest lt dat) (h0 : 0 < t) (h1 : t < s.nt)
    (hdat : dat t = true) (hv : view t = some []) :
    ∃ s', s.next t = some (s', none) ∧ SV s' (upd view t none) rest lt dat ∧ s'.nt = s.nt := by
  obtain ⟨ap, hi, hvw, hlt, hd⟩ := h
  rw [hvw t h0 h1] at hv
  obtain ⟨hp, hc⟩ := hi.curs t h0 h1
  have hoc := hd t h0 h1 hdat
  have hpc : s.curs t = ((s.curs t).1, (s.curs t).2) := rfl
  generalize hpe : (s.curs t).1 = p at *
  generalize hce : (s.curs t).2 = c at *
  simp only [viewOf, hpe, hce, Option.map_eq_some_iff] at hv
  obtain ⟨n, hn, hdr⟩ := hv
  obtain ⟨J, hinv, hJ1, hJ2⟩ := hi.swapped hp
  have hJ := hJ2 hoc
  subst hJ
  have hlen : (ap p).all.length ≤ n := by simpa using hdr
  obtain ⟨P', hst, hinv'⟩ := hinv.step (.next c)
  have hx' : ((ap p).all ++ [])[n]? = none := by simpa using hlen
  simp only [APool.step, hn, hx'] at hst hinv'
  have hnext := step_next hst
  have hfr := (hi.inv p hp).fr
  have hu := hi.update hp (P' := P')
    (a' := { ap p with cur := fun i => if i = c then none else (ap p).cur i }) (J := [])
    rfl (Nat.le_refl _) (Nat.le_refl _) hinv' (by simp only; omega) hJ1 hJ2
  refine ⟨s.setPool p P', ?_, ⟨_, hu, ?_, hlt, hd⟩, rfl⟩
  · simp only [next, hpe, hce, hnext]
    rw [if_neg (by omega)]
    rfl
  · intro t' ht0 ht1
    refine Eq.trans ?_ (view_update hi (by rfl) (by intro i hi; simp [hi]) h0 h1 hpc ht0 ht1).symm
    by_cases e : t' = t
    · subst e; simp
    · rw [upd_ne _ _ e, hvw t' ht0 ht1]; simp [e]

theorem setPool_pool (s : Streams) (p : Nat) : s.setPool p (s.pool p) = s ∨ s.onChan p = true := by
  cases h : s.onChan p with
  | true => simp
  | false =>
    left
    simp only [setPool, pool, h]
    congr 1
    funext q; simp only [Bool.false_eq_true, if_false]; split
    · subst_vars; rfl
    · rfl

/-- A detached cursor delivers nothing. -/
theorem SV.next_dead {s view rest lt dat t} (h : SV s view rest lt dat) (h0 : 0 < t) (h1 : t < s.nt)
    (hv : view t = none) :
    ∃ s', s.next t = some (s', none) ∧ SV s' view rest lt dat ∧ s'.nt = s.nt := by
  obtain ⟨ap, hi, hvw, hlt, hd⟩ := h
  have hv0 := hv
  rw [hvw t h0 h1] at hv
  obtain ⟨hp, hc⟩ := hi.curs t h0 h1
  have hpc : s.curs t = ((s.curs t).1, (s.curs t).2) := rfl
  generalize hpe : (s.curs t).1 = p at *
  generalize hce : (s.curs t).2 = c at *
  simp only [viewOf, hpe, hce, Option.map_eq_none_iff] at hv
  obtain ⟨J, hinv, hJ1, hJ2⟩ := hi.swapped hp
  obtain ⟨P', hst, hinv'⟩ := hinv.step (.next c)
  simp only [APool.step, hv] at hst hinv'
  have hnext := step_next hst
  have hfr := (hi.inv p hp).fr
  have hu := hi.update hp (P' := P') (a' := ap p) (J := J)
    rfl (Nat.le_refl _) (Nat.le_refl _) hinv' hfr hJ1 hJ2
  refine ⟨s.setPool p P', ?_, ⟨_, hu, ?_, hlt, hd⟩, rfl⟩
  · simp only [next, hpe, hce, hnext]
    rw [if_neg (by omega)]
    rfl
  · intro t' ht0 ht1
    refine Eq.trans ?_ (view_update hi (by rfl) (by intro i hi; rfl) h0 h1 hpc ht0 ht1).symm
    by_cases e : t' = t
    · subst e; simp [hv0, hv]
    · rw [hvw t' ht0 ht1]; simp [e]

/-- Detaching a cursor. -/
theorem SV.detach {s view rest lt dat t} (h : SV s view rest lt dat) (h0 : 0 < t) (h1 : t < s.nt) :
    ∃ s', s.detach t = some s' ∧ SV s' (upd view t none) rest lt dat ∧ s'.nt = s.nt := by
  obtain ⟨ap, hi, hvw, hlt, hd⟩ := h
  obtain ⟨hp, hc⟩ := hi.curs t h0 h1
  have hpc : s.curs t = ((s.curs t).1, (s.curs t).2) := rfl
  generalize hpe : (s.curs t).1 = p at *
  generalize hce : (s.curs t).2 = c at *
  obtain ⟨J, hinv, hJ1, hJ2⟩ := hi.swapped hp
  obtain ⟨P', hst, hinv'⟩ := hinv.step (.detach c)
  simp only [APool.step] at hst hinv'
  have hdet : (s.pool p).detach c = some P' := by
    simp only [Pool.step] at hst
    cases hq : (s.pool p).detach c with
    | none => rw [hq] at hst; simp at hst
    | some q => rw [hq] at hst; simp at hst; rw [hst]
  have hfr := (hi.inv p hp).fr
  have hu := hi.update hp (P' := P')
    (a' := { ap p with cur := fun i => if i = c then none else (ap p).cur i }) (J := J)
    rfl (Nat.le_refl _) (Nat.le_refl _) hinv' hfr hJ1 hJ2
  refine ⟨s.setPool p P', ?_, ⟨_, hu, ?_, hlt, hd⟩, rfl⟩
  · simp only [Streams.detach, hpe, hce, hdet]; rfl
  · intro t' ht0 ht1
    refine Eq.trans ?_ (view_update hi (by rfl) (by intro i hi; simp [hi]) h0 h1 hpc ht0 ht1).symm
    by_cases e : t' = t
    · subst e; simp
    · rw [upd_ne _ _ e, hvw t' ht0 ht1]; simp [e]

/-- Cloning a detached cursor gives the same cursor. -/
theorem SV.clone_dead {s view rest lt dat t} (h : SV s view rest lt dat) (h0 : 0 < t) (h1 : t < s.nt)
    (hv : view t = none) : s.clone t = (s, t, t) := by
  obtain ⟨ap, hi, hvw, hlt, hd⟩ := h
  rw [hvw t h0 h1] at hv
  obtain ⟨hp, hc⟩ := hi.curs t h0 h1
  obtain ⟨J, hinv, hJ1, hJ2⟩ := hi.swapped hp
  simp only [viewOf, Option.map_eq_none_iff] at hv
  have := hinv.att (s.curs t).2
  simp only [hv] at this
  simp only [clone]
  rw [if_neg (by omega), if_neg (by simp [this])]

/-- Cloning an attached cursor. -/
theorem SV.clone_cur {s view rest lt dat t l} (h : SV s view rest lt dat) (h0 : 0 < t) (h1 : t < s.nt)
    (hv : view t = some l) :
    ∃ s', s.clone t = (s', t, s.nt) ∧
      SV s' (upd view s.nt (some l)) rest lt (upd dat s.nt (dat t)) ∧ s'.nt = s.nt + 1 := by
  obtain ⟨ap, hi, hvw, hlt, hd⟩ := h
  have hv0 := hv
  rw [hvw t h0 h1] at hv
  obtain ⟨hp, hc⟩ := hi.curs t h0 h1
  have hpc : s.curs t = ((s.curs t).1, (s.curs t).2) := rfl
  have hdt := hd t h0 h1
  generalize hpe : (s.curs t).1 = p at *
  generalize hce : (s.curs t).2 = c at *
  simp only [viewOf, hpe, hce, Option.map_eq_some_iff] at hv
  obtain ⟨n, hn, hdr⟩ := hv
  obtain ⟨J, hinv, hJ1, hJ2⟩ := hi.swapped hp
  obtain ⟨P', hst, hinv'⟩ := hinv.step (.clone c)
  simp only [APool.step, hn] at hst hinv'
  have hatt : ((s.pool p).cur c).attached = true := by
    have := hinv.att c
    simp only [hn] at this
    simpa using this
  have hcl : (s.pool p).clone c = (P', (ap p).nextId) := by
    simp only [Pool.step] at hst
    simp only [Option.some.injEq, Prod.mk.injEq, CurObs.cursor.injEq] at hst
    rw [Prod.ext_iff]; exact hst
  have hfr := (hi.inv p hp).fr
  have hu := hi.update hp (P' := P')
    (a' := { ap p with cur := fun i => if i = (ap p).nextId then some n else (ap p).cur i,
                       nextId := (ap p).nextId + 1 }) (J := J)
    rfl (Nat.le_refl _) (Nat.le_succ _) hinv' hfr hJ1 hJ2
  refine ⟨{ s.setPool p P' with
      curs := fun i => if i = s.nt then (p, (ap p).nextId) else s.curs i, nt := s.nt + 1 }, ?_,
    ⟨upd ap p { ap p with cur := fun i => if i = (ap p).nextId then some n else (ap p).cur i,
                          nextId := (ap p).nextId + 1 }, ?_, ?_, ?_, ?_⟩, rfl⟩
  · simp only [clone, hpe, hce, hatt, hcl, if_true]
    rw [if_neg (by omega)]
  · have hlm : (lt.map fun t => ((fun i => if i = s.nt then (p, (ap p).nextId) else s.curs i) t).1) =
        lt.map fun t => (s.curs t).1 := by
      cases lt with
      | none => rfl
      | some t0 =>
        have := (hlt t0 rfl).2
        simp [show t0 ≠ s.nt by omega]
    refine ⟨hu.inv, hu.data, ?_, ?_, ?_, by simp, ?_, ?_⟩
    · simp only [hlm]; exact hu.exh
    · simp only [hlm]; exact hu.lent_lt
    · simp only [hlm]; exact hu.src
    · intro t' ht0 ht1
      by_cases e : t' = s.nt
      · subst e
        simp only [if_true, upd_same]
        exact ⟨hp, by omega⟩
      · have ht1' : t' < s.nt + 1 := ht1
        have := hu.curs t' ht0 (by simp only [setPool]; omega)
        simp only [e, if_false]
        exact this
    · intro t1 t2 h10 h11 h20 h21 he
      simp only at he h11 h21
      have hfresh : ∀ t', 0 < t' → t' < s.nt → s.curs t' ≠ (p, (ap p).nextId) := by
        intro t' h0' h1' e
        have := hi.curs t' h0' h1'
        rw [e] at this
        have := this.2
        simp only at this
        omega
      by_cases e1 : t1 = s.nt <;> by_cases e2 : t2 = s.nt
      · omega
      · simp only [e1, e2, if_true, if_false] at he
        exact absurd he.symm (hfresh t2 h20 (by omega))
      · simp only [e1, e2, if_true, if_false] at he
        exact absurd he (hfresh t1 h10 (by omega))
      · simp only [e1, e2, if_false] at he
        exact hi.inj t1 t2 h10 (by omega) h20 (by omega) he
  · intro t' ht0 ht1
    simp only at ht1
    by_cases e : t' = s.nt
    · subst e
      simp only [upd_same, viewOf, if_true, Option.map_some, hdr]
    · rw [upd_ne _ _ e, hvw t' ht0 (by omega)]
      simp only [viewOf, e, if_false]
      by_cases hqp : (s.curs t').1 = p
      · have := (hi.curs t' ht0 (by omega)).2
        rw [hqp] at this
        simp only [hqp, upd_same]
        simp [show (s.curs t').2 ≠ (ap p).nextId by omega]
      · rw [upd_ne _ _ hqp]
  · intro t0 ht0
    have := hlt t0 ht0
    exact ⟨this.1, by simp only; omega⟩
  · intro t' ht0 ht1 hdd
    simp only at ht1
    by_cases e : t' = s.nt
    · subst e
      simp only [upd_same] at hdd
      simp only [if_true]
      exact hdt hdd
    · rw [upd_ne _ _ e] at hdd
      simp only [e, if_false]
      exact hd t' ht0 (by omega) hdd

/-- Facts about a pool just made by `CloneReadStream` on the channel: both cursors see `X`. -/
theorem new_clone_inv (src X : List Token) :
    ∃ P, (((Pool.new src).newCursor).1.clone ((Pool.new src).newCursor).2) = (P, 1) ∧
      ((Pool.new src).newCursor).2 = 0 ∧
      Inv { P with stream := X } ⟨X, 0, fun i => if i = 1 then some 0 else if i = 0 then some 0 else none, 2⟩ := by
  refine ⟨{ stream := src, window := [], windowPos := 0, catchup := 0, cursors := [0, 1],
            cur := fun i => if i = 1 then ⟨true, 0⟩ else if i = 0 then ⟨true, 0⟩ else ⟨false, 0⟩, nextId := 2 },
    ?_, rfl, ?_⟩
  · simp [Pool.new, Pool.newCursor, Pool.clone, Pool.setCur]
  · constructor
    case att => intro c; by_cases h1 : c = 1 <;> by_cases h0 : c = 0 <;> simp [h0, h1]
    case pos => intro c n; by_cases h1 : c = 1 <;> by_cases h0 : c = 0 <;> simp [h0, h1] <;> omega
    case hi => intro c n; by_cases h1 : c = 1 <;> by_cases h0 : c = 0 <;> simp [h0, h1] <;> omega
    case reg => intro c; by_cases h1 : c = 1 <;> by_cases h0 : c = 0 <;> simp [h0, h1]
    case fresh =>
      intro c hc
      simp only at hc
      simp [show c ≠ 0 by omega, show c ≠ 1 by omega]
    all_goals simp

/-- Cloning the channel: the next tokens `X` go to a new pool. -/
theorem clone_chan_aux {s view X rest dat} {lt : Option Nat} {lt' : Option Nat}
    (h : SV s view (X ++ rest) lt dat)
    (hlt' : (lt = none ∧ lt' = some s.nt) ∨ (X = [] ∧ lt' = lt)) :
    ∃ s', s.clone 0 = (s', s.nt, s.nt + 1) ∧
      SV s' (upd (upd view s.nt (some X)) (s.nt + 1) (some X)) rest lt'
        (upd (upd dat s.nt false) (s.nt + 1) false) ∧ s'.nt = s.nt + 2 := by
  obtain ⟨ap, hi, hvw, hlt, hd⟩ := h
  obtain ⟨P, hP, hc0, hPinv⟩ := new_clone_inv s.src X
  refine ⟨{ s with
      pools := fun q => if q = s.np then P else s.pools q
      onChan := fun q => if q = s.np then true else s.onChan q
      np := s.np + 1
      curs := fun i => if i = s.nt then (s.np, 0) else if i = s.nt + 1 then (s.np, 1) else s.curs i
      nt := s.nt + 2 }, ?_,
    ⟨upd ap s.np ⟨X, 0, fun i => if i = 1 then some 0 else if i = 0 then some 0 else none, 2⟩,
      ?_, ?_, ?_, ?_⟩, rfl⟩
  · simp only [clone, if_true]
    rw [hP, hc0]
  · have hnt := hi.nt
    have hlm : ∀ t, lt = some t → (if t = s.nt then (s.np, 0) else if t = s.nt + 1 then (s.np, 1) else s.curs t) = s.curs t := by
      intro t ht
      have := hlt t ht
      simp [show t ≠ s.nt by omega, show t ≠ s.nt + 1 by omega]
    refine ⟨?_, ?_, ?_, ?_, ?_, by simp, ?_, ?_⟩
    · intro q hq
      by_cases e : q = s.np
      · subst e; simp only [if_true, upd_same, List.drop_zero]; exact hPinv
      · simp only [e, if_false, upd_ne _ _ e]; exact hi.inv q (by simp only at hq; omega)
    · intro q hq hoc
      by_cases e : q = s.np
      · subst e; simp at hoc
      · simp only [e, if_false, upd_ne _ _ e] at hoc ⊢; exact hi.data q (by simp only at hq; omega) hoc
    · intro q hq hne
      by_cases e : q = s.np
      · subst e
        rw [upd_same]
        rcases hlt' with ⟨_, rfl⟩ | ⟨rfl, rfl⟩
        · simp at hne
        · rfl
      · rw [upd_ne _ _ e]
        refine hi.exh q (by simp only at hq; omega) ?_
        rcases hlt' with ⟨rfl, rfl⟩ | ⟨rfl, rfl⟩
        · simp
        · intro hh
          apply hne
          rw [← hh]
          cases hl : lt' with
          | none => rfl
          | some t0 => simp only [Option.map_some, hlm t0 hl]
    · intro q hq
      rcases hlt' with ⟨rfl, rfl⟩ | ⟨rfl, rfl⟩
      · simp at hq; subst hq; simp
      · cases hl : lt' with
        | none => rw [hl] at hq; simp at hq
        | some t0 =>
          rw [hl] at hq
          simp only [Option.map_some, hlm t0 hl, Option.some.injEq] at hq
          have := hi.lent_lt q (by rw [hl]; simp [hq])
          refine ⟨by simp only; omega, ?_⟩
          simp [show q ≠ s.np by omega, this.2]
    · simp only
      have hs := hi.src
      rcases hlt' with ⟨rfl, rfl⟩ | ⟨rfl, rfl⟩
      · rw [hs]; simp [lentRem]
      · rw [hs]
        cases hl : lt' with
        | none => simp [lentRem]
        | some t0 =>
          simp only [Option.map_some, hlm t0 hl, lentRem, List.nil_append]
          have := hi.lent_lt (s.curs t0).1 (by rw [hl]; rfl)
          rw [upd_ne _ _ (by omega)]
    · intro t' ht0 ht1
      simp only at ht1
      by_cases e : t' = s.nt
      · subst e; simp
      · by_cases e2 : t' = s.nt + 1
        · subst e2; simp
        · simp only [e, e2, if_false]
          have := hi.curs t' ht0 (by omega)
          refine ⟨by omega, ?_⟩
          rw [upd_ne _ _ (by omega)]; exact this.2
    · intro t1 t2 h10 h11 h20 h21 he
      simp only at h11 h21 he
      have hold : ∀ t', 0 < t' → t' < s.nt → (s.curs t').1 < s.np := fun t' a b => (hi.curs t' a b).1
      have hcases : ∀ t', 0 < t' → t' < s.nt + 2 → (t' = s.nt ∨ t' = s.nt + 1 ∨ t' < s.nt) := by intros; omega
      have a1 := hcases t1 h10 h11
      have a2 := hcases t2 h20 h21
      rcases a1 with rfl | rfl | a1 <;> rcases a2 with rfl | rfl | a2
      · rfl
      · simp at he
      · simp only [if_true] at he
        rw [if_neg (by omega), if_neg (by omega)] at he
        have := hold t2 h20 a2
        rw [← he] at this; simp at this
      · simp at he
      · rfl
      · simp only [if_true] at he
        rw [if_neg (by omega), if_neg (by omega), if_neg (by omega)] at he
        have := hold t2 h20 a2
        rw [← he] at this; simp at this
      · simp only [if_true] at he
        rw [if_neg (by omega), if_neg (by omega)] at he
        have := hold t1 h10 a1
        rw [he] at this; simp at this
      · simp only [if_true] at he
        rw [if_neg (by omega), if_neg (by omega), if_neg (by omega)] at he
        have := hold t1 h10 a1
        rw [he] at this; simp at this
      · rw [if_neg (by omega), if_neg (by omega), if_neg (by omega), if_neg (by omega)] at he
        exact hi.inj t1 t2 h10 a1 h20 a2 he
  · intro t' ht0 ht1
    simp only at ht1
    by_cases e2 : t' = s.nt + 1
    · subst e2; simp [viewOf]
    · rw [upd_ne _ _ e2]
      by_cases e : t' = s.nt
      · subst e; simp [viewOf]
      · rw [upd_ne _ _ e, hvw t' ht0 (by omega)]
        have := (hi.curs t' ht0 (by omega)).1
        simp only [viewOf, e, e2, if_false]
        rw [upd_ne _ _ (by omega)]
  · intro t ht
    simp only
    rcases hlt' with ⟨rfl, rfl⟩ | ⟨rfl, rfl⟩
    · simp at ht; have := hi.nt; omega
    · have := hlt t ht; omega
  · intro t' ht0 ht1 hdd
    simp only at ht1
    by_cases e2 : t' = s.nt + 1
    · subst e2; simp at hdd
    · rw [upd_ne _ _ e2] at hdd
      by_cases e : t' = s.nt
      · subst e; simp at hdd
      · rw [upd_ne _ _ e] at hdd
        have := (hi.curs t' ht0 (by omega)).1
        simp only [e, e2, if_false]
        simp only [show (s.curs t').1 ≠ s.np by omega, if_false]
        exact hd t' ht0 (by omega) hdd

/-- Cloning the channel when it is not lent: it is lent for the tokens `X`. -/
theorem SV.clone_chan {s view X rest dat} (h : SV s view (X ++ rest) none dat) :
    ∃ s', s.clone 0 = (s', s.nt, s.nt + 1) ∧
      SV s' (upd (upd view s.nt (some X)) (s.nt + 1) (some X)) rest (some s.nt)
        (upd (upd dat s.nt false) (s.nt + 1) false) ∧ s'.nt = s.nt + 2 := by
  exact clone_chan_aux h (Or.inl ⟨rfl, rfl⟩)

/-- Cloning the channel for readers that read nothing. -/
theorem SV.clone_chan_nil {s view rest lt dat} (h : SV s view rest lt dat) :
    ∃ s', s.clone 0 = (s', s.nt, s.nt + 1) ∧
      SV s' (upd (upd view s.nt (some [])) (s.nt + 1) (some [])) rest lt
        (upd (upd dat s.nt false) (s.nt + 1) false) ∧ s'.nt = s.nt + 2 :=
  clone_chan_aux (X := []) h (Or.inr ⟨rfl, rfl⟩)

/-- A cursor over a slice. -/
theorem SV.fromData {s view rest lt dat} (h : SV s view rest lt dat) (ts : List Token) :
    (s.fromData ts).2 = s.nt ∧
      SV (s.fromData ts).1 (upd view s.nt (some ts)) rest lt (upd dat s.nt true) ∧
      (s.fromData ts).1.nt = s.nt + 1 := by
  obtain ⟨ap, hi, hvw, hlt, hd⟩ := h
  refine ⟨rfl, ⟨upd ap s.np ⟨ts, ts.length, fun i => if i = 0 then some 0 else none, 1⟩, ?_, ?_, ?_, ?_⟩, rfl⟩
  · have hnt := hi.nt
    have hlm : (lt.map fun t => ((s.fromData ts).1.curs t).1) = lt.map fun t => (s.curs t).1 := by
      cases hl : lt with
      | none => rfl
      | some t0 =>
        have := hlt t0 hl
        simp [Streams.fromData, show t0 ≠ s.nt by omega]
    simp only [Streams.fromData] at hlm ⊢
    rw [hlm]
    refine ⟨?_, ?_, ?_, ?_, ?_, by simp, ?_, ?_⟩
    · intro q hq
      by_cases e : q = s.np
      · subst e; simp only [if_true, upd_same]
        have := Pool.Inv.fromData ts
        rw [List.drop_eq_nil_of_le (Nat.le_refl _)]
        exact this
      · simp only [e, if_false, upd_ne _ _ e]; exact hi.inv q (by simp only at hq; omega)
    · intro q hq hoc
      by_cases e : q = s.np
      · subst e; simp [Pool.fromData]
      · simp only [e, if_false, upd_ne _ _ e] at hoc ⊢; exact hi.data q (by simp only at hq; omega) hoc
    · intro q hq hne
      by_cases e : q = s.np
      · subst e; simp
      · rw [upd_ne _ _ e]; exact hi.exh q (by simp only at hq; omega) hne
    · intro q hq
      have := hi.lent_lt q hq
      refine ⟨by simp only; omega, ?_⟩
      simp [show q ≠ s.np by omega, this.2]
    · simp only
      rw [hi.src]
      cases hl : lt.map fun t => (s.curs t).1 with
      | none => rfl
      | some q =>
        have := hi.lent_lt q hl
        simp only [lentRem]
        rw [upd_ne _ _ (by omega)]
    · intro t' ht0 ht1
      simp only at ht1
      by_cases e : t' = s.nt
      · subst e; simp
      · simp only [e, if_false]
        have := hi.curs t' ht0 (by omega)
        refine ⟨by omega, ?_⟩
        rw [upd_ne _ _ (by omega)]; exact this.2
    · intro t1 t2 h10 h11 h20 h21 he
      simp only at h11 h21 he
      by_cases e1 : t1 = s.nt <;> by_cases e2 : t2 = s.nt
      · omega
      · simp only [e1, e2, if_true, if_false] at he
        have := (hi.curs t2 h20 (by omega)).1
        rw [← he] at this; simp at this
      · simp only [e1, e2, if_true, if_false] at he
        have := (hi.curs t1 h10 (by omega)).1
        rw [he] at this; simp at this
      · simp only [e1, e2, if_false] at he
        exact hi.inj t1 t2 h10 (by omega) h20 (by omega) he
  · intro t' ht0 ht1
    simp only [Streams.fromData] at ht1
    by_cases e : t' = s.nt
    · subst e; simp [viewOf, Streams.fromData]
    · rw [upd_ne _ _ e, hvw t' ht0 (by omega)]
      have := (hi.curs t' ht0 (by omega)).1
      simp only [viewOf, Streams.fromData, e, if_false]
      rw [upd_ne _ _ (by omega)]
  · intro t ht
    have := hlt t ht
    simp only [Streams.fromData]; omega
  · intro t' ht0 ht1 hdd
    simp only [Streams.fromData] at ht1
    by_cases e : t' = s.nt
    · subst e; simp [Streams.fromData]
    · rw [upd_ne _ _ e] at hdd
      have := (hi.curs t' ht0 (by omega)).1
      simp only [Streams.fromData, e, if_false]
      simp only [show (s.curs t').1 ≠ s.np by omega, if_false]
      exact hd t' ht0 (by omega) hdd

end Streams
end Verif
