import Verif.IterInv

/-!
# The invariant of the iterator specification is kept
-/

set_option linter.unusedSimpArgs false
set_option linter.unusedVariables false

namespace Verif

open Streams JVal.toks

@[simp] theorem AState.set_same (s : AState) (i : Nat) (c : AColl) : (s.set i c).coll i = c := by
  simp [AState.set]
theorem AState.set_ne (s : AState) {i j : Nat} (c : AColl) (h : j ≠ i) : (s.set i c).coll j = s.coll j := by
  simp [AState.set, h]
@[simp] theorem AState.set_n (s : AState) (i : Nat) (c : AColl) : (s.set i c).n = s.n := rfl
@[simp] theorem AState.set_nt (s : AState) (i : Nat) (c : AColl) : (s.set i c).nt = s.nt := rfl
@[simp] theorem AState.set_dead (s : AState) (i : Nat) (c : AColl) : (s.set i c).dead = s.dead := rfl
@[simp] theorem AState.set_det (s : AState) (i : Nat) (c : AColl) : (s.set i c).det = s.det := rfl

/-- Finishing a handle: its other properties stay. -/
theorem AState.set_done (s : AState) (i : Nat) (b : Bool) (j : Nat) :
    let s' := s.set i { s.coll i with done := true, elided := b }
    (s'.coll j).kind = (s.coll j).kind ∧ (s'.coll j).thr = (s.coll j).thr ∧
    (s'.coll j).cur = (s.coll j).cur ∧ frame (s'.coll j) = frame (s.coll j) ∧
    ((s'.coll j).done = if j = i then true else (s.coll j).done) := by
  simp only [AState.set]
  split
  · rename_i h; subst h; exact ⟨rfl, rfl, rfl, rfl, rfl⟩
  · exact ⟨rfl, rfl, rfl, rfl, rfl⟩

namespace AInv

variable {s : AState} {stk : Nat → List Nat} {lt : Option Nat} {dat : Nat → Bool} {junk : Nat → List Token}

theorem good_done (h : AInv s stk lt dat junk) {i : Nat} (hi : i < s.n) (hk : (s.coll i).kind ≠ .top)
    (b : Bool) : Good { s.coll i with done := true, elided := b } := by
  have := h.good i hi
  exact ⟨this.started, this.keys, fun e => absurd e hk, this.key⟩

/-- Finishing the innermost open handle. -/
theorem finish (h : AInv s stk lt dat junk) {t i tl} (hs : stk t = i :: tl) (hk : (s.coll i).kind ≠ .top)
    (hc : ChildDone s i) (b : Bool) :
    AInv (s.set i { s.coll i with done := true, elided := b }) (upd stk t tl)
      (if lt = some t ∧ tl = [] then none else lt) dat junk := by
  have hm := h.mem t i (by simp [hs])
  have hi0 : i ≠ 0 := by rintro rfl; exact hk h.kind0
  have hsd := AState.set_done s i b
  have htl : ∀ j ∈ tl, j ≠ i := fun j hj => by
    have := h.sorted (l := []) (by simpa using hs) j hj
    omega
  have hstk : ∀ u j, j ∈ upd stk t tl u → j ∈ stk u ∧ j ≠ i := by
    intro u j hj
    by_cases hu : u = t
    · subst hu
      rw [upd_same] at hj
      exact ⟨by simp [hs, hj], htl j hj⟩
    · rw [upd_ne _ _ hu] at hj
      refine ⟨hj, ?_⟩
      rintro rfl
      exact hu ((h.mem u _ hj).2.1.symm.trans hm.2.1)
  constructor
  case nt => exact h.nt
  case good =>
    intro j hj
    by_cases hji : j = i
    · subst hji; rw [AState.set_same]; exact h.good_done hj hk b
    · rw [AState.set_ne _ _ hji]; exact h.good j hj
  case thr => intro j hj; rw [(hsd j).2.1]; exact h.thr j hj
  case cur =>
    intro j hj k j' hcur
    rw [(hsd j).2.2.1] at hcur
    obtain ⟨h1, h2, h3, h4, h5⟩ := h.cur j hj k j' hcur
    refine ⟨h1, h2, by rw [(hsd j').1]; exact h3, h4, ?_⟩
    rw [(hsd j').2.2.2.2, (hsd j').2.1, (hsd j).2.1]
    split
    · simp
    · exact h5
  case dead0 => exact h.dead0
  case fresh => exact h.fresh
  case stk_dead =>
    intro u hu
    have := h.stk_dead u hu
    by_cases hut : u = t
    · subst hut; rw [hs] at this; cases this
    · rw [upd_ne _ _ hut]; exact this
  case mem =>
    intro u j hj
    obtain ⟨h1, h2⟩ := hstk u j hj
    rw [AState.set_ne _ _ h2]
    exact h.mem u j h1
  case open_ =>
    intro j hj hd ha
    rw [(hsd j).2.2.2.2] at hd
    rw [(hsd j).2.1] at ha ⊢
    split at hd
    · cases hd
    · have := h.open_ j hj hd ha
      rename_i hji
      by_cases hut : (s.coll j).thr = t
      · rw [hut] at this ⊢
        rw [hs] at this
        rw [upd_same]
        simpa [hji] using this
      · rw [upd_ne _ _ hut]; exact this
  case chain =>
    intro u
    refine Chain.congr (s := s) ?_ ?_
    · by_cases hut : u = t
      · subst hut; rw [upd_same]; have := h.chain u; rw [hs] at this; exact this.tail
      · rw [upd_ne _ _ hut]; exact h.chain u
    · intro j _ k j' hcur
      rw [(hsd j).2.2.1]; exact hcur
  case head =>
    intro u j tl' k j' hs' hcur hd
    rw [(hsd j).2.2.1] at hcur
    rw [(hsd j').2.2.2.2] at hd
    split at hd
    · cases hd
    · rename_i hji
      by_cases hut : u = t
      · exfalso
        subst hut
        rw [upd_same] at hs'
        subst hs'
        have := h.chain u
        rw [hs] at this
        obtain ⟨⟨k2, hk2⟩, _⟩ := this
        rw [hcur] at hk2
        simp at hk2
        exact hji hk2.2
      · rw [upd_ne _ _ hut] at hs'
        obtain ⟨rfl, hl⟩ := h.head u j tl' k j' hs' hcur hd
        refine ⟨rfl, ?_⟩
        rw [(hsd j').2.1]
        rw [if_neg]
        · exact hl
        · rintro ⟨e1, e2⟩
          rw [hl] at e1
          obtain ⟨_, _, _, _, _, i2, tl2, k2, j2, l2, q1, q2, q3, q4⟩ := h.lent _ hl
          rw [hs'] at q1
          obtain ⟨rfl, rfl⟩ := List.cons.inj q1
          rw [hcur] at q2
          simp at q2
          obtain ⟨_, rfl⟩ := q2
          have e1 := Option.some.inj e1
          rw [e1, hs, e2] at q4
          have : l2 = [] := by
            have := congrArg List.length q4
            simp at this; exact this
          subst this
          simp at q4
          exact hji q4.symm
  case root =>
    obtain ⟨l, hl⟩ := h.root
    by_cases ht : t = 0
    · subst ht
      rw [upd_same]
      rw [hs] at hl
      cases l with
      | nil => simp at hl; exact absurd hl.1 hi0
      | cons a l =>
        simp at hl
        exact ⟨l, hl.2⟩
    · rw [upd_ne _ _ (fun e => ht e.symm)]; exact ⟨l, hl⟩
  case kind0 => rw [(hsd 0).1]; exact h.kind0
  case lent =>
    intro u hu
    split at hu
    · cases hu
    · rename_i hnot
      obtain ⟨p1, p2, p3, p4, p5, i2, tl2, k2, j2, l2, q1, q2, q3, q4⟩ := h.lent u hu
      refine ⟨p1, p2, p3, p4, p5, i2, tl2, k2, j2, ?_⟩
      rw [(hsd i2).2.2.1, (hsd j2).2.1]
      by_cases ht0 : t = 0
      · subst ht0
        have := h.lt_none hs hc
        rw [this] at hu
        cases hu
      · rw [upd_ne _ _ (fun e => ht0 e.symm)]
        by_cases hut : u = t
        · subst hut
          rw [hs] at q4
          cases l2 with
          | nil =>
            simp at q4
            exact absurd ⟨hu, q4.2⟩ hnot
          | cons a l2 =>
            simp at q4
            exact ⟨l2, q1, q2, q3, by rw [upd_same]; exact q4.2⟩
        · exact ⟨l2, q1, q2, q3, by rw [upd_ne _ _ hut]; exact q4⟩
  case top =>
    intro j hj
    rw [(hsd j).1, (hsd j).2.1]
    exact h.top j hj
  case junk0 => exact h.junk0
  case det0 => exact h.det0

/-- Finishing a handle of an ended thread. -/
theorem finish_dead (h : AInv s stk lt dat junk) {i} (hi : i < s.n) (hk : (s.coll i).kind ≠ .top)
    (hd : s.dead (s.coll i).thr = true) (b : Bool) :
    AInv (s.set i { s.coll i with done := true, elided := b }) stk lt dat junk := by
  have hsd := AState.set_done s i b
  have hni : ∀ u, i ∉ stk u := by
    intro u hu
    have := h.mem u i hu
    rw [this.2.1] at hd
    rw [h.stk_dead u hd] at hu
    cases hu
  constructor
  case nt => exact h.nt
  case good =>
    intro j hj
    by_cases hji : j = i
    · subst hji; rw [AState.set_same]; exact h.good_done hj hk b
    · rw [AState.set_ne _ _ hji]; exact h.good j hj
  case thr => intro j hj; rw [(hsd j).2.1]; exact h.thr j hj
  case cur =>
    intro j hj k j' hcur
    rw [(hsd j).2.2.1] at hcur
    obtain ⟨h1, h2, h3, h4, h5⟩ := h.cur j hj k j' hcur
    refine ⟨h1, h2, by rw [(hsd j').1]; exact h3, h4, ?_⟩
    rw [(hsd j').2.2.2.2, (hsd j').2.1, (hsd j).2.1]
    split
    · simp
    · exact h5
  case dead0 => exact h.dead0
  case fresh => exact h.fresh
  case stk_dead => exact h.stk_dead
  case mem =>
    intro u j hj
    rw [AState.set_ne _ _ (by rintro rfl; exact hni u hj)]
    exact h.mem u j hj
  case open_ =>
    intro j hj hd ha
    rw [(hsd j).2.2.2.2] at hd
    rw [(hsd j).2.1] at ha ⊢
    split at hd
    · cases hd
    · exact h.open_ j hj hd ha
  case chain =>
    intro u
    refine Chain.congr (h.chain u) ?_
    intro j _ k j' hcur
    rw [(hsd j).2.2.1]; exact hcur
  case head =>
    intro u j tl' k j' hs' hcur hd
    rw [(hsd j).2.2.1] at hcur
    rw [(hsd j').2.2.2.2] at hd
    rw [(hsd j').2.1]
    split at hd
    · cases hd
    · exact h.head u j tl' k j' hs' hcur hd
  case root => exact h.root
  case kind0 => rw [(hsd 0).1]; exact h.kind0
  case lent =>
    intro u hu
    obtain ⟨p1, p2, p3, p4, p5, i2, tl2, k2, j2, l2, q1, q2, q3, q4⟩ := h.lent u hu
    refine ⟨p1, p2, p3, p4, p5, i2, tl2, k2, j2, l2, q1, ?_, ?_, q4⟩
    · rw [(hsd i2).2.2.1]; exact q2
    · rw [(hsd j2).2.1]; exact q3
  case top =>
    intro j hj
    rw [(hsd j).1, (hsd j).2.1]
    exact h.top j hj
  case junk0 => exact h.junk0
  case det0 => exact h.det0

/-- Only the links between different handles of the list matter. -/
theorem _root_.Verif.Chain.congr' {s s' : AState} {l : List Nat} (h : Chain s l)
    (hc : ∀ i ∈ l.tail, (s'.coll i).cur = (s.coll i).cur) : Chain s' l := by
  cases l with
  | nil => simp [Chain]
  | cons i l =>
    cases l with
    | nil => simp [Chain]
    | cons j l =>
      obtain ⟨⟨k, hk⟩, h2⟩ := h
      refine ⟨⟨k, (hc j (by simp)).trans hk⟩, h2.congr ?_⟩
      intro x hx k' j' hx'
      rw [hc x (by simpa using hx)]; exact hx'

/-- Replacing a finished current value by something without handle. -/
theorem setCur (h : AInv s stk lt dat junk) {i} (hi : i < s.n) (hc : ChildDone s i) (c : AColl)
    (hg : Good c) (hk : c.kind = (s.coll i).kind) (ht : c.thr = (s.coll i).thr)
    (hd : c.done = (s.coll i).done) (hcur : ∀ k j, c.cur ≠ some (.coll k j)) :
    AInv (s.set i c) stk lt dat junk := by
  have hsd : ∀ j, ((s.set i c).coll j).kind = (s.coll j).kind ∧ ((s.set i c).coll j).thr = (s.coll j).thr ∧
      ((s.set i c).coll j).done = (s.coll j).done := by
    intro j
    by_cases hj : j = i
    · subst hj; rw [AState.set_same]; exact ⟨hk, ht, hd⟩
    · rw [AState.set_ne _ _ hj]; exact ⟨rfl, rfl, rfl⟩
  have hsc : ∀ j k j', ((s.set i c).coll j).cur = some (.coll k j') → j ≠ i ∧ (s.coll j).cur = some (.coll k j') := by
    intro j k j' e
    by_cases hj : j = i
    · subst hj; rw [AState.set_same] at e; exact absurd e (hcur k j')
    · rw [AState.set_ne _ _ hj] at e; exact ⟨hj, e⟩
  constructor
  case nt => exact h.nt
  case good =>
    intro j hj
    by_cases hji : j = i
    · subst hji; rw [AState.set_same]; exact hg
    · rw [AState.set_ne _ _ hji]; exact h.good j hj
  case thr => intro j hj; rw [(hsd j).2.1]; exact h.thr j hj
  case cur =>
    intro j hj k j' e
    rw [(hsd j').1, (hsd j').2.1, (hsd j).2.1, (hsd j').2.2]
    exact h.cur j hj k j' (hsc j k j' e).2
  case dead0 => exact h.dead0
  case fresh => exact h.fresh
  case stk_dead => exact h.stk_dead
  case mem =>
    intro u j hj
    rw [(hsd j).2.1, (hsd j).2.2]
    exact h.mem u j hj
  case open_ =>
    intro j hj hd ha
    rw [(hsd j).2.2] at hd
    rw [(hsd j).2.1] at ha ⊢
    exact h.open_ j hj hd ha
  case chain =>
    intro u
    refine (h.chain u).congr' ?_
    intro j hj
    have hji : j ≠ i := by
      rintro rfl
      cases hsu : stk u with
      | nil => rw [hsu] at hj; simp at hj
      | cons a l =>
        rw [hsu] at hj
        obtain ⟨l1, l2, e⟩ := List.append_of_mem (show j ∈ l by simpa using hj)
        have := h.innermost (t := u) (l := a :: l1) (by rw [hsu, e]; rfl) hc
        cases this
    rw [AState.set_ne _ _ hji]
  case head =>
    intro u j tl' k j' hs' e hd
    rw [(hsd j').2.2] at hd
    rw [(hsd j').2.1]
    exact h.head u j tl' k j' hs' (hsc j k j' e).2 hd
  case root => exact h.root
  case kind0 => rw [(hsd 0).1]; exact h.kind0
  case lent =>
    intro u hu
    obtain ⟨p1, p2, p3, p4, p5, i2, tl2, k2, j2, l2, q1, q2, q3, q4⟩ := h.lent u hu
    refine ⟨p1, p2, p3, p4, p5, i2, tl2, k2, j2, l2, q1, ?_, ?_, q4⟩
    · rw [AState.set_ne]
      · exact q2
      · rintro rfl
        exact h.notin (hc k2 j2 q2) (show j2 ∈ stk u by simp [q4])
    · rw [(hsd j2).2.1]; exact q3
  case top =>
    intro j hj
    rw [(hsd j).1, (hsd j).2.1]
    exact h.top j hj
  case junk0 => exact h.junk0
  case det0 => exact h.det0

/-- Ending a thread. -/
theorem kill (h : AInv s stk lt dat junk) {t} (h0 : t ≠ 0) (hn : t < s.nt) (hl : lt ≠ some t) :
    AInv { s with dead := fun u => if u = t then true else s.dead u } (upd stk t []) lt dat junk := by
  have hdd : ∀ u, (if u = t then true else s.dead u) = false → u ≠ t ∧ s.dead u = false := by
    intro u hu
    split at hu
    · cases hu
    · exact ⟨by assumption, hu⟩
  have hst : ∀ u j, j ∈ upd stk t [] u → j ∈ stk u := by
    intro u j hj
    by_cases hu : u = t
    · subst hu; rw [upd_same] at hj; cases hj
    · rw [upd_ne _ _ hu] at hj; exact hj
  constructor
  case nt => exact h.nt
  case good => exact h.good
  case thr => exact h.thr
  case cur => exact h.cur
  case dead0 => simp only; rw [if_neg (fun e => h0 e.symm)]; exact h.dead0
  case fresh =>
    intro u hu
    have hu' : s.nt ≤ u := hu
    simp only
    rw [if_neg (by omega)]
    exact h.fresh u hu
  case stk_dead =>
    intro u hu
    simp only at hu
    by_cases hut : u = t
    · subst hut; rw [upd_same]
    · rw [if_neg hut] at hu
      rw [upd_ne _ _ hut]; exact h.stk_dead u hu
  case mem => intro u j hj; exact h.mem u j (hst u j hj)
  case open_ =>
    intro j hj hd ha
    obtain ⟨a1, a2⟩ := hdd _ ha
    rw [upd_ne _ _ a1]
    exact h.open_ j hj hd a2
  case chain =>
    intro u
    by_cases hut : u = t
    · subst hut; rw [upd_same]; simp [Chain]
    · rw [upd_ne _ _ hut]; exact (h.chain u).congr fun _ _ _ _ e => e
  case head =>
    intro u j tl' k j' hs' e hd
    by_cases hut : u = t
    · subst hut; rw [upd_same] at hs'; cases hs'
    · rw [upd_ne _ _ hut] at hs'
      exact h.head u j tl' k j' hs' e hd
  case root => rw [upd_ne _ _ (fun e => h0 e.symm)]; exact h.root
  case kind0 => exact h.kind0
  case lent =>
    intro u hu
    have hut : u ≠ t := by rintro rfl; exact hl hu
    obtain ⟨p1, p2, p3, p4, p5, i2, tl2, k2, j2, l2, q1, q2, q3, q4⟩ := h.lent u hu
    refine ⟨p1, p2, ?_, p4, p5, i2, tl2, k2, j2, l2, ?_, q2, q3, ?_⟩
    · simp only; rw [if_neg hut]; exact p3
    · rw [upd_ne _ _ (fun e => h0 e.symm)]; exact q1
    · rw [upd_ne _ _ hut]; exact q4
  case top =>
    intro j hj hk ha
    exact h.top j hj hk (hdd _ ha).2
  case junk0 => exact h.junk0
  case det0 => exact h.det0

@[simp] theorem alloc_n (s : AState) (c : AColl) : (s.alloc c).n = s.n + 1 := rfl

theorem alloc_coll (s : AState) (c : AColl) (j : Nat) : (s.alloc c).coll j = if j = s.n then c else s.coll j := rfl

theorem alloc_old {s : AState} {c : AColl} {j : Nat} (h : j < s.n) : (s.alloc c).coll j = s.coll j := by
  rw [alloc_coll, if_neg (by omega)]

theorem alloc_new {s : AState} {c : AColl} : (s.alloc c).coll s.n = c := by
  rw [alloc_coll, if_pos rfl]

/-- A new current value. -/
theorem push (h : AInv s stk lt dat junk) {t i tl} (hs : stk t = i :: tl) (hc : ChildDone s i) (c ch : AColl)
    (hg : Good c) (hk : c.kind = (s.coll i).kind) (ht : c.thr = (s.coll i).thr)
    (hd : c.done = (s.coll i).done) (hcur : c.cur = some (.coll ch.kind s.n))
    (hg' : Good ch) (hk' : ch.kind ≠ .top) (ht' : ch.thr = t) (hd' : ch.done = false) (hcur' : ch.cur = none) :
    AInv ((s.alloc ch).set i c) (upd stk t (s.n :: i :: tl)) lt dat junk := by
  have hm := h.mem t i (by simp [hs])
  have hz := h.zero_lt
  have hn : ((s.alloc ch).set i c).n = s.n + 1 := rfl
  have hnew : ((s.alloc ch).set i c).coll s.n = ch := by
    rw [AState.set_ne _ _ (by omega), alloc_new]
  have hself : ((s.alloc ch).set i c).coll i = c := AState.set_same ..
  have hold : ∀ j < s.n, j ≠ i → ((s.alloc ch).set i c).coll j = s.coll j := by
    intro j hj hji
    rw [AState.set_ne _ _ hji, alloc_old hj]
  have hsd : ∀ j < s.n, (((s.alloc ch).set i c).coll j).kind = (s.coll j).kind ∧
      (((s.alloc ch).set i c).coll j).thr = (s.coll j).thr ∧
      (((s.alloc ch).set i c).coll j).done = (s.coll j).done := by
    intro j hj
    by_cases hji : j = i
    · subst hji; rw [hself]; exact ⟨hk, ht, hd⟩
    · rw [hold j hj hji]; exact ⟨rfl, rfl, rfl⟩
  have hlt : t = 0 → lt = none := by rintro rfl; exact h.lt_none hs hc
  generalize hs' : (s.alloc ch).set i c = s' at *
  have hdead : s'.dead = s.dead := by rw [← hs']; rfl
  have hdet : s'.det = s.det := by rw [← hs']; rfl
  have hnt : s'.nt = s.nt := by rw [← hs']; rfl
  have hcases : ∀ j < s'.n, j = s.n ∨ j = i ∨ (j < s.n ∧ j ≠ i) := by
    intro j hj; omega
  constructor
  case nt => rw [hnt]; exact h.nt
  case good =>
    intro j hj
    rcases hcases j hj with rfl | rfl | ⟨hj, hji⟩
    · rw [hnew]; exact hg'
    · rw [hself]; exact hg
    · rw [hold j hj hji]; exact h.good j hj
  case thr =>
    intro j hj
    rw [hnt]
    rcases hcases j hj with rfl | rfl | ⟨hj, hji⟩
    · rw [hnew, ht', ← hm.2.1]; exact h.thr i hm.1
    · rw [hself, ht]; exact h.thr _ hm.1
    · rw [hold j hj hji]; exact h.thr j hj
  case cur =>
    intro j hj k j' e
    rcases hcases j hj with rfl | rfl | ⟨hj, hji⟩
    · rw [hnew, hcur'] at e; cases e
    · rw [hself, hcur] at e
      simp at e
      obtain ⟨rfl, rfl⟩ := e
      rw [hnew, hself]
      refine ⟨hm.1, by omega, rfl, hk', fun _ => Or.inl ?_⟩
      rw [ht', ht]; exact hm.2.1.symm
    · rw [hold j hj hji] at e ⊢
      obtain ⟨h1, h2, h3, h4, h5⟩ := h.cur j hj k j' e
      rw [(hsd j' h2).1, (hsd j' h2).2.1, (hsd j' h2).2.2]
      exact ⟨h1, by omega, h3, h4, h5⟩
  case dead0 => rw [hdead]; exact h.dead0
  case fresh => rw [hdead, hdet, hnt]; exact h.fresh
  case stk_dead =>
    intro u hu
    rw [hdead] at hu
    have := h.stk_dead u hu
    by_cases hut : u = t
    · subst hut; rw [hs] at this; cases this
    · rw [upd_ne _ _ hut]; exact this
  case mem =>
    intro u j hj
    by_cases hut : u = t
    · subst hut
      rw [upd_same, List.mem_cons] at hj
      rcases hj with rfl | hj
      · rw [hnew]; exact ⟨by omega, ht', hd'⟩
      · rw [← hs] at hj
        obtain ⟨h1, h2, h3⟩ := h.mem u j hj
        rw [(hsd j h1).2.1, (hsd j h1).2.2]
        exact ⟨by omega, h2, h3⟩
    · rw [upd_ne _ _ hut] at hj
      obtain ⟨h1, h2, h3⟩ := h.mem u j hj
      rw [(hsd j h1).2.1, (hsd j h1).2.2]
      exact ⟨by omega, h2, h3⟩
  case open_ =>
    intro j hj hd ha
    rcases Nat.lt_or_ge j s.n with hj' | hj'
    · rw [(hsd j hj').2.2] at hd
      rw [(hsd j hj').2.1] at ha ⊢
      rw [hdead] at ha
      have := h.open_ j hj' hd ha
      by_cases hut : (s.coll j).thr = t
      · rw [hut] at this ⊢
        rw [upd_same]
        rw [hs] at this
        exact List.mem_cons_of_mem _ this
      · rw [upd_ne _ _ hut]; exact this
    · have : j = s.n := by omega
      subst this
      rw [hnew, ht', upd_same]
      simp
  case chain =>
    intro u
    by_cases hut : u = t
    · subst hut
      rw [upd_same]
      refine ⟨⟨ch.kind, by rw [hself]; exact hcur⟩, ?_⟩
      rw [← hs]
      refine (h.chain u).congr' ?_
      intro j hj
      rw [hs] at hj
      have h1 : j ∈ tl := by simpa using hj
      have h2 := h.sorted (l := []) (by simpa using hs) j h1
      rw [hold j (by have := hm.1; omega) (by omega)]
    · rw [upd_ne _ _ hut]
      refine (h.chain u).congr' ?_
      intro j hj
      have hj' := List.mem_of_mem_tail hj
      obtain ⟨h1, h2, h3⟩ := h.mem u j hj'
      rw [hold j h1]
      rintro rfl
      exact hut (h2.symm.trans hm.2.1)
  case head =>
    intro u j tl' k j' hs'' e hd
    by_cases hut : u = t
    · subst hut
      rw [upd_same] at hs''
      obtain ⟨rfl, rfl⟩ := List.cons.inj hs''
      rw [hnew, hcur'] at e; cases e
    · rw [upd_ne _ _ hut] at hs''
      obtain ⟨h1, h2, h3⟩ := h.mem u j (by simp [hs''])
      have hji : j ≠ i := by
        rintro rfl
        exact hut (h2.symm.trans hm.2.1)
      rw [hold j h1 hji] at e
      obtain ⟨_, h5, _⟩ := h.cur j h1 k j' e
      rw [(hsd j' h5).2.2] at hd
      rw [(hsd j' h5).2.1]
      exact h.head u j tl' k j' hs'' e hd
  case root =>
    obtain ⟨l, hl⟩ := h.root
    by_cases ht0 : t = 0
    · subst ht0
      rw [upd_same]
      exact ⟨s.n :: l, by rw [← hs, hl]; rfl⟩
    · rw [upd_ne _ _ (fun e => ht0 e.symm)]; exact ⟨l, hl⟩
  case kind0 => rw [(hsd 0 hz).1]; exact h.kind0
  case lent =>
    intro u hu
    have ht0 : t ≠ 0 := by
      intro e; rw [hlt e] at hu; cases hu
    obtain ⟨p1, p2, p3, p4, p5, i2, tl2, k2, j2, l2, q1, q2, q3, q4⟩ := h.lent u hu
    have hi2 := h.mem 0 i2 (by simp [q1])
    have hji : i2 ≠ i := by
      rintro rfl
      exact ht0 (hm.2.1.symm.trans hi2.2.1)
    have hj2 := h.mem u j2 (by simp [q4])
    rw [hnt, hdead, hdet]
    by_cases hut : u = t
    · subst hut
      refine ⟨p1, p2, p3, p4, p5, i2, tl2, k2, j2, s.n :: l2, ?_, ?_, ?_, ?_⟩
      · rw [upd_ne _ _ (fun e => ht0 e.symm)]; exact q1
      · rw [hold i2 hi2.1 hji]; exact q2
      · rw [(hsd j2 hj2.1).2.1]; exact q3
      · rw [upd_same, ← hs, q4]; rfl
    · refine ⟨p1, p2, p3, p4, p5, i2, tl2, k2, j2, l2, ?_, ?_, ?_, ?_⟩
      · rw [upd_ne _ _ (fun e => ht0 e.symm)]; exact q1
      · rw [hold i2 hi2.1 hji]; exact q2
      · rw [(hsd j2 hj2.1).2.1]; exact q3
      · rw [upd_ne _ _ hut]; exact q4
  case top =>
    intro j hj
    rcases Nat.lt_or_ge j s.n with hj' | hj'
    · rw [(hsd j hj').1, (hsd j hj').2.1, hdead]
      exact h.top j hj'
    · have : j = s.n := by omega
      subst this
      rw [hnew]
      intro e; exact absurd e hk'
  case junk0 => exact h.junk0
  case det0 => rw [hdet]; exact h.det0

/-- A new handle that is not open. -/
theorem alloc_closed (h : AInv s stk lt dat junk) (c : AColl) (hg : Good c) (ht : c.thr < s.nt)
    (hcur : c.cur = none) (hd : c.done = false → s.dead c.thr = true)
    (hk : c.kind = .top → s.dead c.thr = true) : AInv (s.alloc c) stk lt dat junk := by
  have hz := h.zero_lt
  have hcases : ∀ j < (s.alloc c).n, j = s.n ∨ j < s.n := by
    intro j hj; rw [alloc_n] at hj; omega
  constructor
  case nt => exact h.nt
  case good =>
    intro j hj
    rcases hcases j hj with rfl | hj
    · rw [alloc_new]; exact hg
    · rw [alloc_old hj]; exact h.good j hj
  case thr =>
    intro j hj
    rcases hcases j hj with rfl | hj
    · rw [alloc_new]; exact ht
    · rw [alloc_old hj]; exact h.thr j hj
  case cur =>
    intro j hj k j' e
    rcases hcases j hj with rfl | hj
    · rw [alloc_new, hcur] at e; cases e
    · rw [alloc_old hj] at e ⊢
      obtain ⟨h1, h2, h3⟩ := h.cur j hj k j' e
      rw [alloc_old h2]
      exact ⟨h1, by rw [alloc_n]; omega, h3⟩
  case dead0 => exact h.dead0
  case fresh => exact h.fresh
  case stk_dead => exact h.stk_dead
  case mem =>
    intro u j hj
    have := h.mem u j hj
    rw [alloc_old this.1]
    exact ⟨by rw [alloc_n]; omega, this.2⟩
  case open_ =>
    intro j hj hd' ha
    rcases hcases j hj with rfl | hj
    · rw [alloc_new] at hd' ha
      have := hd hd'
      rw [show (s.alloc c).dead = s.dead from rfl, this] at ha
      cases ha
    · rw [alloc_old hj] at hd' ha ⊢
      exact h.open_ j hj hd' ha
  case chain =>
    intro u
    refine (h.chain u).congr ?_
    intro j hj k j' e
    rw [alloc_old (h.mem u j hj).1]; exact e
  case head =>
    intro u j tl' k j' hs' e hd
    have hj := (h.mem u j (by simp [hs'])).1
    rw [alloc_old hj] at e
    have hj' := (h.cur j hj k j' e).2.1
    rw [alloc_old hj'] at hd ⊢
    exact h.head u j tl' k j' hs' e hd
  case root => exact h.root
  case kind0 => rw [alloc_old hz]; exact h.kind0
  case lent =>
    intro u hu
    obtain ⟨p1, p2, p3, p4, p5, i2, tl2, k2, j2, l2, q1, q2, q3, q4⟩ := h.lent u hu
    refine ⟨p1, p2, p3, p4, p5, i2, tl2, k2, j2, l2, q1, ?_, ?_, q4⟩
    · rw [alloc_old (h.mem 0 i2 (by simp [q1])).1]; exact q2
    · rw [alloc_old (h.mem u j2 (by simp [q4])).1]; exact q3
  case top =>
    intro j hj
    rcases hcases j hj with rfl | hj
    · rw [alloc_new]
      intro e ha
      rw [show (s.alloc c).dead = s.dead from rfl, hk e] at ha
      cases ha
    · rw [alloc_old hj]; exact h.top j hj
  case junk0 => exact h.junk0
  case det0 => exact h.det0

/-- A new thread. -/
theorem thread (h : AInv s stk lt dat junk) (det' : Nat → Bool) (dat' : Nat → Bool) (junk' : Nat → List Token)
    (hdet : ∀ t, t ≠ s.nt → det' t = s.det t) (hdat : ∀ t, t ≠ s.nt → dat' t = dat t)
    (hjunk : ∀ t, t ≠ s.nt → junk' t = junk t) :
    AInv { s with nt := s.nt + 1, det := det' } stk lt dat' junk' := by
  have hnt := h.nt
  have hthr : ∀ i < s.n, (s.coll i).thr ≠ s.nt := fun i hi => by have := h.thr i hi; omega
  constructor
  case nt => exact Nat.succ_pos _
  case good => exact h.good
  case thr => intro i hi; exact Nat.lt_succ_of_lt (h.thr i hi)
  case cur => exact h.cur
  case dead0 => exact h.dead0
  case fresh =>
    intro t ht
    have ht' : s.nt + 1 ≤ t := ht
    refine ⟨(h.fresh t (by omega)).1, ?_⟩
    rw [show ({ s with nt := s.nt + 1, det := det' } : AState).det = det' from rfl, hdet t (by omega)]
    exact (h.fresh t (by omega)).2
  case stk_dead => exact h.stk_dead
  case mem => exact h.mem
  case open_ => exact h.open_
  case chain => intro u; exact (h.chain u).congr fun _ _ _ _ e => e
  case head => exact h.head
  case root => exact h.root
  case kind0 => exact h.kind0
  case lent =>
    intro u hu
    obtain ⟨p1, p2, p3, p4, p5, q⟩ := h.lent u hu
    have : u ≠ s.nt := by omega
    exact ⟨p1, Nat.lt_succ_of_lt p2, p3, (hdet u this).trans p4, (hjunk u this).trans p5, q⟩
  case top =>
    intro j hj
    simp only
    rw [hdat _ (hthr j hj), hjunk _ (hthr j hj)]
    exact h.top j hj
  case junk0 => rw [hjunk 0 (by omega)]; exact h.junk0
  case det0 => exact (hdet 0 (by omega)).trans h.det0

theorem stk_fresh (h : AInv s stk lt dat junk) {t} (ht : s.nt ≤ t) : stk t = [] := by
  cases hs : stk t with
  | nil => rfl
  | cons i l =>
    have := h.mem t i (by simp [hs])
    have := h.thr i this.1
    omega

/-- A new handle as the only one of its thread. -/
theorem alloc_root (h : AInv s stk lt dat junk) (c : AColl) {t} (hg : Good c) (ht : c.thr = t) (ht1 : t < s.nt)
    (ht0 : t ≠ 0) (hs : stk t = []) (hl : lt ≠ some t) (ha : s.dead t = false) (hcur : c.cur = none)
    (hd : c.done = false) (hk : c.kind = .top → dat t = true ∧ junk t = []) :
    AInv (s.alloc c) (upd stk t [s.n]) lt dat junk := by
  have hz := h.zero_lt
  have hcases : ∀ j < (s.alloc c).n, j = s.n ∨ j < s.n := by
    intro j hj; rw [alloc_n] at hj; omega
  have hst : ∀ u j, j ∈ upd stk t [s.n] u → (u = t ∧ j = s.n) ∨ (u ≠ t ∧ j ∈ stk u) := by
    intro u j hj
    by_cases hut : u = t
    · subst hut; rw [upd_same] at hj; left; simpa using hj
    · rw [upd_ne _ _ hut] at hj; exact Or.inr ⟨hut, hj⟩
  constructor
  case nt => exact h.nt
  case good =>
    intro j hj
    rcases hcases j hj with rfl | hj
    · rw [alloc_new]; exact hg
    · rw [alloc_old hj]; exact h.good j hj
  case thr =>
    intro j hj
    rcases hcases j hj with rfl | hj
    · rw [alloc_new, ht]; exact ht1
    · rw [alloc_old hj]; exact h.thr j hj
  case cur =>
    intro j hj k j' e
    rcases hcases j hj with rfl | hj
    · rw [alloc_new, hcur] at e; cases e
    · rw [alloc_old hj] at e ⊢
      obtain ⟨h1, h2, h3⟩ := h.cur j hj k j' e
      rw [alloc_old h2]
      exact ⟨h1, by rw [alloc_n]; omega, h3⟩
  case dead0 => exact h.dead0
  case fresh => exact h.fresh
  case stk_dead =>
    intro u hu
    have hut : u ≠ t := by
      rintro rfl
      rw [show (s.alloc c).dead = s.dead from rfl, ha] at hu
      cases hu
    rw [upd_ne _ _ hut]; exact h.stk_dead u hu
  case mem =>
    intro u j hj
    rcases hst u j hj with ⟨rfl, rfl⟩ | ⟨hut, hj⟩
    · rw [alloc_new]; exact ⟨by rw [alloc_n]; omega, ht, hd⟩
    · have := h.mem u j hj
      rw [alloc_old this.1]
      exact ⟨by rw [alloc_n]; omega, this.2⟩
  case open_ =>
    intro j hj hd' ha'
    rcases hcases j hj with rfl | hj
    · rw [alloc_new, ht, upd_same]; simp
    · rw [alloc_old hj] at hd' ha' ⊢
      have := h.open_ j hj hd' ha'
      rw [upd_ne]
      · exact this
      · intro e; rw [e, hs] at this; cases this
  case chain =>
    intro u
    by_cases hut : u = t
    · subst hut; rw [upd_same]; simp [Chain]
    · rw [upd_ne _ _ hut]
      refine (h.chain u).congr ?_
      intro j hj k j' e
      rw [alloc_old (h.mem u j hj).1]; exact e
  case head =>
    intro u j tl' k j' hs' e hd
    by_cases hut : u = t
    · subst hut; rw [upd_same] at hs'
      obtain ⟨rfl, rfl⟩ := List.cons.inj hs'
      rw [alloc_new, hcur] at e; cases e
    · rw [upd_ne _ _ hut] at hs'
      have hj := (h.mem u j (by simp [hs'])).1
      rw [alloc_old hj] at e
      have hj' := (h.cur j hj k j' e).2.1
      rw [alloc_old hj'] at hd ⊢
      exact h.head u j tl' k j' hs' e hd
  case root => rw [upd_ne _ _ (fun e => ht0 e.symm)]; exact h.root
  case kind0 => rw [alloc_old hz]; exact h.kind0
  case lent =>
    intro u hu
    have hut : u ≠ t := by rintro rfl; exact hl hu
    obtain ⟨p1, p2, p3, p4, p5, i2, tl2, k2, j2, l2, q1, q2, q3, q4⟩ := h.lent u hu
    refine ⟨p1, p2, p3, p4, p5, i2, tl2, k2, j2, l2, ?_, ?_, ?_, ?_⟩
    · rw [upd_ne _ _ (fun e => ht0 e.symm)]; exact q1
    · rw [alloc_old (h.mem 0 i2 (by simp [q1])).1]; exact q2
    · rw [alloc_old (h.mem u j2 (by simp [q4])).1]; exact q3
    · rw [upd_ne _ _ hut]; exact q4
  case top =>
    intro j hj
    rcases hcases j hj with rfl | hj
    · rw [alloc_new, ht]
      intro e _ _
      exact hk e
    · rw [alloc_old hj]; exact h.top j hj
  case junk0 => exact h.junk0
  case det0 => exact h.det0

/-- A finished handle changes its thread. -/
theorem rethread (h : AInv s stk lt dat junk) {i t} (hi : i < s.n) (hd : (s.coll i).done = true)
    (hcur : (s.coll i).cur = none) (ht : t < s.nt) :
    AInv (s.set i { s.coll i with thr := t }) stk lt dat junk := by
  have hsd : ∀ j, let s' := s.set i { s.coll i with thr := t };
      (s'.coll j).kind = (s.coll j).kind ∧ (s'.coll j).done = (s.coll j).done ∧
      (s'.coll j).cur = (s.coll j).cur ∧ (j ≠ i → (s'.coll j).thr = (s.coll j).thr) := by
    intro j
    simp only
    by_cases hj : j = i
    · subst hj; rw [AState.set_same]; exact ⟨rfl, rfl, rfl, fun e => absurd rfl e⟩
    · rw [AState.set_ne _ _ hj]; exact ⟨rfl, rfl, rfl, fun _ => rfl⟩
  have hne : ∀ j, (s.coll j).done = false → j ≠ i := by
    rintro j hj rfl; rw [hd] at hj; cases hj
  constructor
  case nt => exact h.nt
  case good =>
    intro j hj
    by_cases hji : j = i
    · subst hji; rw [AState.set_same]
      have := h.good j hj
      exact ⟨this.started, this.keys, this.top, this.key⟩
    · rw [AState.set_ne _ _ hji]; exact h.good j hj
  case thr =>
    intro j hj
    by_cases hji : j = i
    · subst hji; rw [AState.set_same]; exact ht
    · rw [AState.set_ne _ _ hji]; exact h.thr j hj
  case cur =>
    intro j hj k j' e
    have hji : j ≠ i := by
      rintro rfl
      rw [AState.set_same] at e
      simp only [hcur] at e; cases e
    rw [(hsd j).2.2.1] at e
    obtain ⟨h1, h2, h3, h4, h5⟩ := h.cur j hj k j' e
    refine ⟨h1, h2, by rw [(hsd j').1]; exact h3, h4, ?_⟩
    rw [(hsd j').2.1]
    intro hd'
    rw [(hsd j').2.2.2 (hne j' hd'), (hsd j).2.2.2 hji]
    exact h5 hd'
  case dead0 => exact h.dead0
  case fresh => exact h.fresh
  case stk_dead => exact h.stk_dead
  case mem =>
    intro u j hj
    have := h.mem u j hj
    rw [AState.set_ne _ _ (hne j this.2.2)]
    exact this
  case open_ =>
    intro j hj hd' ha
    rw [(hsd j).2.1] at hd'
    rw [AState.set_ne _ _ (hne j hd')] at ha ⊢
    exact h.open_ j hj hd' ha
  case chain =>
    intro u
    refine (h.chain u).congr ?_
    intro j _ k j' e
    rw [(hsd j).2.2.1]; exact e
  case head =>
    intro u j tl' k j' hs' e hd'
    rw [(hsd j).2.2.1] at e
    rw [(hsd j').2.1] at hd'
    rw [(hsd j').2.2.2 (hne j' hd')]
    exact h.head u j tl' k j' hs' e hd'
  case root => exact h.root
  case kind0 => rw [(hsd 0).1]; exact h.kind0
  case lent =>
    intro u hu
    obtain ⟨p1, p2, p3, p4, p5, i2, tl2, k2, j2, l2, q1, q2, q3, q4⟩ := h.lent u hu
    refine ⟨p1, p2, p3, p4, p5, i2, tl2, k2, j2, l2, q1, ?_, ?_, q4⟩
    · rw [(hsd i2).2.2.1]; exact q2
    · rw [(hsd j2).2.2.2 (hne j2 (h.mem u j2 (by simp [q4])).2.2)]; exact q3
  case top =>
    intro j hj
    by_cases hji : j = i
    · subst hji
      intro e
      rw [(hsd j).1] at e
      have := (h.good j hj).top e
      rw [this.1] at hd; cases hd
    · rw [AState.set_ne _ _ hji]; exact h.top j hj
  case junk0 => exact h.junk0
  case det0 => exact h.det0

/-- The innermost handle on the channel, not yet begun, moves to a thread of its own. -/
theorem move (h : AInv s stk lt dat junk) {i tl t} (hs : stk 0 = i :: tl) (hcur : (s.coll i).cur = none)
    (hk : (s.coll i).kind ≠ .top) (ht0 : t ≠ 0) (ht : t < s.nt) (ha : s.dead t = false) (hdt : s.det t = false)
    (hst : stk t = []) (hj : junk t = []) :
    AInv (s.set i { s.coll i with thr := t }) (upd (upd stk 0 tl) t [i]) (some t) dat junk := by
  have hm := h.mem 0 i (by simp [hs])
  have hlt : lt = none := h.lt_none hs (by intro k j e; rw [hcur] at e; cases e)
  have hsd : ∀ j, let s' := s.set i { s.coll i with thr := t };
      (s'.coll j).kind = (s.coll j).kind ∧ (s'.coll j).done = (s.coll j).done ∧
      (s'.coll j).cur = (s.coll j).cur ∧ (j ≠ i → (s'.coll j).thr = (s.coll j).thr) := by
    intro j
    simp only
    by_cases hj : j = i
    · subst hj; rw [AState.set_same]; exact ⟨rfl, rfl, rfl, fun e => absurd rfl e⟩
    · rw [AState.set_ne _ _ hj]; exact ⟨rfl, rfl, rfl, fun _ => rfl⟩
  have htl : ∀ j ∈ tl, j ≠ i := fun j hj => by
    have := h.sorted (l := []) (by simpa using hs) j hj
    omega
  have h0u : upd (upd stk 0 tl) t [i] 0 = tl := by rw [upd_ne _ _ (fun e => ht0 e.symm), upd_same]
  have hmem : ∀ u j, j ∈ upd (upd stk 0 tl) t [i] u → (u = t ∧ j = i) ∨ (u ≠ t ∧ j ≠ i ∧ j ∈ stk u) := by
    intro u j hj
    by_cases hut : u = t
    · subst hut; rw [upd_same] at hj; left; simpa using hj
    · right
      by_cases hu0 : u = 0
      · subst hu0; rw [h0u] at hj; exact ⟨hut, htl j hj, by simp [hs, hj]⟩
      · rw [upd_ne _ _ hut, upd_ne _ _ hu0] at hj
        refine ⟨hut, ?_, hj⟩
        rintro rfl
        exact hu0 ((h.mem u _ hj).2.1.symm.trans hm.2.1)
  -- the parent of `i`
  obtain ⟨p, tl', htl', kp, hp⟩ : ∃ p tl', tl = p :: tl' ∧ ∃ k, (s.coll p).cur = some (.coll k i) := by
    obtain ⟨l, hl⟩ := h.root
    rw [hs] at hl
    cases tl with
    | nil =>
      cases l with
      | nil => simp at hl; subst hl; exact absurd h.kind0 hk
      | cons a l => simp at hl
    | cons p tl' =>
      have := h.chain 0
      rw [hs] at this
      exact ⟨p, tl', rfl, this.1⟩
  constructor
  case nt => exact h.nt
  case good =>
    intro j hj
    by_cases hji : j = i
    · subst hji; rw [AState.set_same]
      have := h.good j hj
      exact ⟨this.started, this.keys, this.top, this.key⟩
    · rw [AState.set_ne _ _ hji]; exact h.good j hj
  case thr =>
    intro j hj
    by_cases hji : j = i
    · subst hji; rw [AState.set_same]; exact ht
    · rw [AState.set_ne _ _ hji]; exact h.thr j hj
  case cur =>
    intro j hj k j' e
    have hji : j ≠ i := by
      rintro rfl
      rw [AState.set_same] at e
      simp only [hcur] at e; cases e
    rw [(hsd j).2.2.1] at e
    obtain ⟨h1, h2, h3, h4, h5⟩ := h.cur j hj k j' e
    refine ⟨h1, h2, by rw [(hsd j').1]; exact h3, h4, ?_⟩
    rw [(hsd j').2.1]
    intro hd'
    rw [(hsd j).2.2.2 hji]
    by_cases hj'i : j' = i
    · subst hj'i
      right
      rcases h5 hd' with h6 | h6
      · exact h6.symm.trans hm.2.1
      · exact h6
    · rw [(hsd j').2.2.2 hj'i]
      exact h5 hd'
  case dead0 => exact h.dead0
  case fresh => exact h.fresh
  case stk_dead =>
    intro u hu
    have hut : u ≠ t := by
      rintro rfl
      rw [AState.set_dead, ha] at hu; cases hu
    have hu0 : u ≠ 0 := by
      rintro rfl
      rw [AState.set_dead, h.dead0] at hu; cases hu
    rw [upd_ne _ _ hut, upd_ne _ _ hu0]
    exact h.stk_dead u hu
  case mem =>
    intro u j hj
    rcases hmem u j hj with ⟨rfl, rfl⟩ | ⟨_, hji, hj⟩
    · rw [AState.set_same]; exact ⟨hm.1, rfl, hm.2.2⟩
    · rw [AState.set_ne _ _ hji]; exact h.mem u j hj
  case open_ =>
    intro j hj hd' ha'
    by_cases hji : j = i
    · subst hji; rw [AState.set_same]; simp
    · rw [AState.set_ne _ _ hji] at hd' ha' ⊢
      have := h.open_ j hj hd' ha'
      have hut : (s.coll j).thr ≠ t := by
        intro e; rw [e, hst] at this; cases this
      rw [upd_ne _ _ hut]
      by_cases hu0 : (s.coll j).thr = 0
      · rw [hu0, hs] at this
        rw [hu0, upd_same]
        simpa [hji] using this
      · rw [upd_ne _ _ hu0]; exact this
  case chain =>
    intro u
    refine Chain.congr (s := s) ?_ ?_
    · by_cases hut : u = t
      · subst hut; rw [upd_same]; simp [Chain]
      · by_cases hu0 : u = 0
        · subst hu0; rw [h0u]
          have := h.chain 0
          rw [hs] at this
          exact this.tail
        · rw [upd_ne _ _ hut, upd_ne _ _ hu0]; exact h.chain u
    · intro j _ k j' e
      rw [(hsd j).2.2.1]; exact e
  case head =>
    intro u j tl2 k j' hs' e hd'
    rw [(hsd j).2.2.1] at e
    rw [(hsd j').2.1] at hd'
    by_cases hut : u = t
    · subst hut; rw [upd_same] at hs'
      obtain ⟨rfl, rfl⟩ := List.cons.inj hs'
      rw [hcur] at e; cases e
    · by_cases hu0 : u = 0
      · subst hu0; rw [h0u, htl'] at hs'
        obtain ⟨rfl, rfl⟩ := List.cons.inj hs'
        rw [hp] at e
        simp at e
        obtain ⟨_, rfl⟩ := e
        rw [AState.set_same]
        exact ⟨rfl, rfl⟩
      · rw [upd_ne _ _ hut, upd_ne _ _ hu0] at hs'
        exact absurd (h.head u j tl2 k j' hs' e hd').1 hu0
  case root =>
    rw [h0u]
    obtain ⟨l, hl⟩ := h.root
    rw [hs] at hl
    cases l with
    | nil => simp at hl; rw [hl.1] at hk; exact absurd h.kind0 hk
    | cons a l => simp at hl; exact ⟨l, hl.2⟩
  case kind0 => rw [(hsd 0).1]; exact h.kind0
  case lent =>
    intro u hu
    have hut := Option.some.inj hu
    subst hut
    refine ⟨by omega, ht, ha, hdt, hj, p, tl', kp, i, [], ?_, ?_, ?_, ?_⟩
    · rw [h0u]; exact htl'
    · rw [(hsd p).2.2.1]; exact hp
    · rw [AState.set_same]
    · rw [upd_same]; rfl
  case top =>
    intro j hj
    by_cases hji : j = i
    · subst hji
      intro e
      rw [(hsd j).1] at e
      exact absurd e hk
    · rw [AState.set_ne _ _ hji]; exact h.top j hj
  case junk0 => exact h.junk0
  case det0 => exact h.det0

end AInv
end Verif
