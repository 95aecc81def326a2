import Verif.IterKeep

/-!
# The iterators do what they are meant to do

Simulation of the implementation (`Verif.IterHeap`) by the specification (`Verif.IterSpec`).
-/

set_option linter.unusedSimpArgs false
set_option linter.unusedVariables false

namespace Verif

open Streams JVal.toks

/-- What the implementation keeps of a handle. -/
def AColl.toColl (a : AColl) : Coll := ⟨a.kind, a.thr, a.started, a.done, a.elided, a.key, a.cur⟩

/-- Implementation and specification agree. -/
structure ISim (h : Heap) (s : AState) (stk : Nat → List Nat) (view : Nat → Option (List Token))
    (lt : Option Nat) (dat : Nat → Bool) (junk : Nat → List Token) : Prop where
  inv : AInv s stk lt dat junk
  n : h.n = s.n
  nt : h.st.nt = s.nt
  coll : ∀ i < s.n, h.coll i = (s.coll i).toColl
  sw : SW h.st view lt dat
  view : ∀ t < s.nt, view t = if s.dead t then none else some (frames s (stk t) ++ junk t)

theorem Heap.set_n (h : Heap) (i : Nat) (c : Coll) : (h.set i c).n = h.n := rfl
@[simp] theorem Heap.set_same (h : Heap) (i : Nat) (c : Coll) : (h.set i c).coll i = c := by
  simp [Heap.set]
theorem Heap.set_ne (h : Heap) {i j : Nat} (c : Coll) (e : j ≠ i) : (h.set i c).coll j = h.coll j := by
  simp [Heap.set, e]

namespace ISim

variable {h : Heap} {s : AState} {stk : Nat → List Nat} {view : Nat → Option (List Token)}
  {lt : Option Nat} {dat : Nat → Bool} {junk : Nat → List Token}

theorem alive (H : ISim h s stk view lt dat junk) {t} (ht : t < s.nt) (ha : s.dead t = false) :
    view t = some (frames s (stk t) ++ junk t) := by
  rw [H.view t ht, ha]; rfl

theorem dead (H : ISim h s stk view lt dat junk) {t} (ht : t < s.nt) (ha : s.dead t = true) :
    view t = none := by
  rw [H.view t ht, ha]; rfl

theorem alive_of_mem (H : ISim h s stk view lt dat junk) {t i} (hi : i ∈ stk t) : s.dead t = false := by
  cases hd : s.dead t with
  | false => rfl
  | true => rw [H.inv.stk_dead t hd] at hi; cases hi

theorem coll_set (H : ISim h s stk view lt dat junk) (i : Nat) (c : AColl) (h' : Heap)
    (hc : h'.coll = h.coll) : ∀ j < s.n, (h'.set i c.toColl).coll j = ((s.set i c).coll j).toColl := by
  intro j hj
  by_cases hji : j = i
  · subst hji; simp
  · rw [Heap.set_ne _ _ hji, AState.set_ne _ _ hji, hc]; exact H.coll j hj

/-- Finishing the innermost open handle after its tokens have been read. -/
theorem finish (H : ISim h s stk view lt dat junk) {t i tl} (hs : stk t = i :: tl)
    (hk : (s.coll i).kind ≠ .top) (hc : ChildDone s i) {st' : Streams}
    (hsw : SW st' (upd view t (some (frames s tl ++ junk t))) lt dat) (hnt : st'.nt = h.st.nt) (b : Bool) :
    ∃ view' lt', ISim ({ h with st := st' }.set i { h.coll i with done := true, elided := b })
      (s.set i { s.coll i with done := true, elided := b }) (upd stk t tl) view' lt' dat junk := by
  have hm := H.inv.mem t i (by simp [hs])
  have hinv := H.inv.finish hs hk hc b
  refine ⟨upd view t (some (frames s tl ++ junk t)), _, hinv, H.n, hnt.trans H.nt, ?_, ?_, ?_⟩
  · have : ({ h.coll i with done := true, elided := b } : Coll) =
        ({ s.coll i with done := true, elided := b } : AColl).toColl := by
      rw [H.coll i hm.1]; rfl
    rw [this]
    exact H.coll_set i _ { h with st := st' } rfl
  · split
    · rename_i e
      have e1 := e.1
      subst e1
      refine hsw.release ?_
      rw [upd_same, e.2]
      obtain ⟨_, _, _, _, hj, _⟩ := H.inv.lent t rfl
      rw [hj]; rfl
    · exact hsw
  · intro u hu
    rw [frames_congr (s := s) (fun j _ => (AState.set_done s i b j).2.2.2.1)]
    by_cases hut : u = t
    · subst hut
      rw [upd_same, upd_same]
      have := H.alive_of_mem (t := u) (i := i) (by simp [hs])
      rw [AState.set_dead, this]; rfl
    · rw [upd_ne _ _ hut, upd_ne _ _ hut]
      exact H.view u hu

/-- Finishing a handle of an ended thread. -/
theorem finish_dead (H : ISim h s stk view lt dat junk) {i} (hi : i < s.n)
    (hk : (s.coll i).kind ≠ .top) (hd : s.dead (s.coll i).thr = true) {st' : Streams}
    (hsw : SW st' view lt dat) (hnt : st'.nt = h.st.nt) (b : Bool) :
    ISim ({ h with st := st' }.set i { h.coll i with done := true, elided := b })
      (s.set i { s.coll i with done := true, elided := b }) stk view lt dat junk := by
  refine ⟨H.inv.finish_dead hi hk hd b, H.n, hnt.trans H.nt, ?_, hsw, ?_⟩
  · have : ({ h.coll i with done := true, elided := b } : Coll) =
        ({ s.coll i with done := true, elided := b } : AColl).toColl := by
      rw [H.coll i hi]; rfl
    rw [this]
    exact H.coll_set i _ { h with st := st' } rfl
  · intro u hu
    rw [frames_congr (s := s) (fun j _ => (AState.set_done s i b j).2.2.2.1)]
    exact H.view u hu

/-! ## Discarding -/

end ISim

namespace AState

/-- Discarding only finishes handles. -/
theorem discard_keep : ∀ (f : Nat) (s : AState) (v : Val),
    (discard f s v).n = s.n ∧ (discard f s v).nt = s.nt ∧ (discard f s v).dead = s.dead ∧
    (discard f s v).det = s.det ∧
    ∀ j, (discard f s v).coll j = s.coll j ∨ (discard f s v).coll j = { s.coll j with done := true } := by
  intro f
  induction f with
  | zero => intro s v; simp [discard]
  | succ f ih =>
    intro s v
    cases v with
    | scalar k => simp [discard]
    | coll k i =>
      simp only [discard]
      split
      · simp
      · have hfin : ∀ s1 : AState, (s1.n = s.n ∧ s1.nt = s.nt ∧ s1.dead = s.dead ∧ s1.det = s.det ∧
            ∀ j, s1.coll j = s.coll j ∨ s1.coll j = { s.coll j with done := true }) →
            ((s1.set i { s1.coll i with done := true }).n = s.n ∧
             (s1.set i { s1.coll i with done := true }).nt = s.nt ∧
             (s1.set i { s1.coll i with done := true }).dead = s.dead ∧
             (s1.set i { s1.coll i with done := true }).det = s.det ∧
             ∀ j, (s1.set i { s1.coll i with done := true }).coll j = s.coll j ∨
                (s1.set i { s1.coll i with done := true }).coll j = { s.coll j with done := true }) := by
          intro s1 ⟨h1, h2, h3, h4, h5⟩
          refine ⟨h1, h2, h3, h4, fun j => ?_⟩
          by_cases hj : j = i
          · subst hj
            right
            rw [AState.set_same]
            rcases h5 j with e | e <;> rw [e]
          · rw [AState.set_ne _ _ hj]; exact h5 j
        split
        · exact hfin s ⟨rfl, rfl, rfl, rfl, fun j => Or.inl rfl⟩
        · exact hfin _ (ih s _)

/-- Discarding does not touch older handles. -/
theorem discard_old (s : AState) (hcur : ∀ i < s.n, ∀ k j, (s.coll i).cur = some (.coll k j) → i < j ∧ j < s.n) :
    ∀ (f : Nat) (k : Kind) (i : Nat), i < s.n → ∀ j < i, (discard f s (.coll k i)).coll j = s.coll j := by
  intro f
  induction f with
  | zero => intro k i _ j _; simp [discard]
  | succ f ih =>
    intro k i hi j hj
    simp only [discard]
    split
    · rfl
    · rw [AState.set_ne _ _ (by omega)]
      split
      · rfl
      · rename_i v hv
        cases v with
        | scalar k' =>
          cases f <;> simp [discard]
        | coll k' i' =>
          obtain ⟨h1, h2⟩ := hcur i hi k' i' hv
          exact ih k' i' h2 j (by omega)

/-- After discarding, the value is finished. -/
theorem discard_done (f : Nat) (s : AState) (k : Kind) (i : Nat) :
    ((discard (f + 1) s (.coll k i)).coll i).done = true := by
  simp only [discard]
  split
  · assumption
  · simp

theorem discard_frame (f : Nat) (s : AState) (v : Val) (j : Nat) :
    frame ((discard f s v).coll j) = frame (s.coll j) ∧ ((discard f s v).coll j).cur = (s.coll j).cur ∧
      ((discard f s v).coll j).thr = (s.coll j).thr ∧ ((discard f s v).coll j).kind = (s.coll j).kind ∧
      ((s.coll j).done = true → ((discard f s v).coll j).done = true) := by
  rcases (discard_keep f s v).2.2.2.2 j with e | e <;> rw [e] <;> simp [frame]

end AState

namespace ISim

/-- What discarding does to the stacks. -/
def DiscardSpec (f : Nat) : Prop :=
  ∀ (v : Val) (h : Heap) (s : AState) (stk : Nat → List Nat) (view : Nat → Option (List Token))
    (lt : Option Nat) (dat : Nat → Bool) (junk : Nat → List Token), ISim h s stk view lt dat junk →
    (∀ k i, v = .coll k i → i < s.n ∧ (s.coll i).kind ≠ .top ∧ s.n - i < f) → 0 < f →
    ∃ h' stk' view' lt', Heap.discard f h v = .ok h' ∧
      ISim h' (AState.discard f s v) stk' view' lt' dat junk ∧
      (∀ x, v = .scalar x → stk' = stk) ∧
      (∀ k i, v = .coll k i → (s.coll i).done = true → stk' = stk) ∧
      (∀ k i, v = .coll k i → s.dead (s.coll i).thr = true → stk' = stk) ∧
      (∀ k i l tl, v = .coll k i → stk (s.coll i).thr = l ++ i :: tl →
        stk' (s.coll i).thr = tl ∧
        ((s.coll i).thr ≠ 0 → ∀ t, t ≠ (s.coll i).thr → stk' t = stk t))

/-- Finishing the current value of an open handle. -/
def discardCurH (f : Nat) (h : Heap) (i : Nat) : Except Stop Heap :=
  match (h.coll i).cur with
  | none => .ok h
  | some v => Heap.discard f h v

def discardCurA (f : Nat) (s : AState) (i : Nat) : AState :=
  match (s.coll i).cur with
  | none => s
  | some v => AState.discard f s v

theorem child {f : Nat} (hP : DiscardSpec f) {h : Heap} {s : AState} {stk : Nat → List Nat}
    {view : Nat → Option (List Token)} {lt : Option Nat} {dat : Nat → Bool} {junk : Nat → List Token}
    (H : ISim h s stk view lt dat junk) {i : Nat} (hi : i < s.n) (hf : s.n - i ≤ f)
    (hd : (s.coll i).done = false) :
    ∃ h1 stk1 view1 lt1, discardCurH f h i = .ok h1 ∧
      ISim h1 (discardCurA f s i) stk1 view1 lt1 dat junk ∧
      (discardCurA f s i).coll i = s.coll i ∧ (discardCurA f s i).n = s.n ∧
      (discardCurA f s i).dead = s.dead ∧
      ChildDone (discardCurA f s i) i ∧
      (s.dead (s.coll i).thr = true → stk1 = stk) ∧
      (∀ l tl, stk (s.coll i).thr = l ++ i :: tl → stk1 (s.coll i).thr = i :: tl ∧
        ((s.coll i).thr ≠ 0 → ∀ t, t ≠ (s.coll i).thr → stk1 t = stk t)) := by
  simp only [discardCurH, discardCurA]
  rw [show (h.coll i).cur = (s.coll i).cur by rw [H.coll i hi]; rfl]
  cases hcur : (s.coll i).cur with
  | none =>
    have hcd : ChildDone s i := by intro k j e; rw [hcur] at e; cases e
    refine ⟨h, stk, view, lt, rfl, H, rfl, rfl, rfl, hcd, fun _ => rfl, ?_⟩
    intro l tl hl
    have := H.inv.innermost hl hcd
    subst this
    exact ⟨hl, fun _ _ _ => rfl⟩
  | some v =>
    simp only
    have hf0 : 0 < f := by omega
    obtain ⟨h', stk', view', lt', r1, r2, r3, r4, r5, r6⟩ := hP v h s stk view lt dat junk H (by
      rintro k j rfl
      obtain ⟨h1, h2, h3, h4, h5⟩ := H.inv.cur i hi k j hcur
      exact ⟨h2, by rw [h3]; exact h4, by omega⟩) hf0
    have hkeep := AState.discard_keep f s v
    have hci : (AState.discard f s v).coll i = s.coll i := by
      cases v with
      | scalar x => cases f <;> simp [AState.discard]
      | coll k j =>
        obtain ⟨h1, h2, _⟩ := H.inv.cur i hi k j hcur
        refine AState.discard_old s ?_ f k j h2 i h1
        intro a ha k' b e
        obtain ⟨q1, q2, _⟩ := H.inv.cur a ha k' b e
        exact ⟨q1, q2⟩
    have hcd : ChildDone (AState.discard f s v) i := by
      intro k j e
      rw [hci, hcur] at e
      simp at e
      subst e
      obtain ⟨f', rfl⟩ : ∃ f', f = f' + 1 := ⟨f - 1, by omega⟩
      exact AState.discard_done f' s k j
    refine ⟨h', stk', view', lt', r1, r2, hci, hkeep.1, hkeep.2.2.1, hcd, ?_, ?_⟩
    · intro hdead
      cases v with
      | scalar x => exact r3 x rfl
      | coll k j =>
        obtain ⟨h1, h2, h3, h4, h5⟩ := H.inv.cur i hi k j hcur
        cases hdj : (s.coll j).done with
        | true => exact r4 k j rfl hdj
        | false =>
          refine r5 k j rfl ?_
          rcases h5 hdj with e | e
          · rw [e]; exact hdead
          · rw [e, H.inv.dead0] at hdead; cases hdead
    · intro l tl hl
      rcases H.inv.inner hl with rfl | ⟨l', k, j, rfl, hj⟩
      · -- `i` is innermost
        cases v with
        | scalar x => rw [r3 x rfl]; exact ⟨hl, fun _ _ _ => rfl⟩
        | coll k j =>
          cases hdj : (s.coll j).done with
          | true => rw [r4 k j rfl hdj]; exact ⟨hl, fun _ _ _ => rfl⟩
          | false =>
            obtain ⟨ht0, hlt⟩ := H.inv.head _ i tl k j hl hcur hdj
            obtain ⟨p1, p2, p3, p4, p5, i2, tl2, k2, j2, l2, q1, q2, q3, q4⟩ := H.inv.lent _ hlt
            rw [ht0] at hl ⊢
            rw [hl] at q1
            obtain ⟨rfl, rfl⟩ := List.cons.inj q1
            rw [hcur] at q2
            simp at q2
            obtain ⟨_, rfl⟩ := q2
            obtain ⟨_, u2⟩ := r6 k j l2 [] rfl q4
            rw [u2 (by omega) 0 (by omega)]
            exact ⟨hl, fun e => absurd rfl e⟩
      · rw [hcur] at hj
        simp at hj
        subst hj
        have hmj := H.inv.mem _ j (show j ∈ stk (s.coll i).thr by simp [hl])
        have := r6 k j l' (i :: tl) rfl (by rw [hmj.2.1, hl]; simp)
        rw [hmj.2.1] at this
        exact this

/-- A finished handle. -/
def finC (c : Coll) : Coll := { c with done := true }
def finA (c : AColl) : AColl := { c with done := true }

/-- Reading the rest of a value and finishing it. -/
def finishH (h : Heap) (i : Nat) : Except Stop (Heap × List Token) :=
  Heap.readToEnd ((h.set i (finC (h.coll i))).avail (h.coll i).stream + 1)
    (h.set i (finC (h.coll i))) (h.coll i).stream 0

theorem finishH_dead {h : Heap} {s : AState} {stk : Nat → List Nat}
    {view : Nat → Option (List Token)} {lt : Option Nat} {dat : Nat → Bool} {junk : Nat → List Token}
    (H : ISim h s stk view lt dat junk) {i : Nat} (hi : i < s.n) (hk : (s.coll i).kind ≠ .top)
    (hd : s.dead (s.coll i).thr = true) :
    ∃ h', finishH h i = .ok (h', []) ∧ h'.coll i = finC (h.coll i) ∧
      ISim h' (s.set i (finA (s.coll i))) stk view lt dat junk := by
  have hstr : (h.coll i).stream = (s.coll i).thr := by rw [H.coll i hi]; rfl
  have htnt := H.inv.thr i hi
  obtain ⟨st', e1, e2, e3⟩ := readToEnd_dead (h := h.set i (finC (h.coll i)))
    ((h.set i (finC (h.coll i))).avail (s.coll i).thr) 0 H.sw
    (by rw [show (h.set i (finC (h.coll i))).st = h.st from rfl, H.nt]; exact htnt)
    (H.dead htnt hd)
  refine ⟨{ h.set i (finC (h.coll i)) with st := st' }, ?_, by simp [Heap.set], ?_⟩
  · rw [finishH, hstr, e1]
  · have := H.finish_dead hi hk hd e2 e3 (s.coll i).elided
    rw [show ({ h.coll i with done := true, elided := (s.coll i).elided } : Coll) = finC (h.coll i) by
      rw [H.coll i hi]; rfl] at this
    exact this

theorem finishH_alive {h : Heap} {s : AState} {stk : Nat → List Nat}
    {view : Nat → Option (List Token)} {lt : Option Nat} {dat : Nat → Bool} {junk : Nat → List Token}
    (H : ISim h s stk view lt dat junk) {i tl} (hk : (s.coll i).kind ≠ .top)
    (hs : stk (s.coll i).thr = i :: tl) (hc : ChildDone s i) :
    ∃ h' view' lt', finishH h i = .ok (h', frame (s.coll i)) ∧ h'.coll i = finC (h.coll i) ∧
      ISim h' (s.set i (finA (s.coll i))) (upd stk (s.coll i).thr tl) view' lt' dat junk := by
  have hi := (H.inv.mem _ i (show i ∈ stk (s.coll i).thr by simp [hs])).1
  have hstr : (h.coll i).stream = (s.coll i).thr := by rw [H.coll i hi]; rfl
  have htnt := H.inv.thr i hi
  have hd := H.alive_of_mem (show i ∈ stk (s.coll i).thr by simp [hs])
  have hview := H.alive htnt hd
  rw [hs, frames_cons, List.append_assoc] at hview
  have hav := H.sw.avail (by rw [H.nt]; exact htnt) hview
  obtain ⟨st', e1, e2, e3⟩ := readToEnd_spec (t := (s.coll i).thr) (lt := lt) (dat := dat)
    (R := frames s tl ++ junk (s.coll i).thr)
    (by
      intro e
      rw [e] at hs
      exact H.inv.lt_none hs hc)
    (frame (s.coll i)) 0
    ((h.set i (finC (h.coll i))).avail (s.coll i).thr + 1)
    (h.set i (finC (h.coll i))) view H.sw
    (by rw [show (h.set i (finC (h.coll i))).st = h.st from rfl, H.nt]; exact htnt)
    hview (closes_body _ _ _ hk)
    (by
      have : (h.set i (finC (h.coll i))).avail (s.coll i).thr =
        h.st.src.length + (h.st.pool (h.st.curs (s.coll i).thr).1).window.length := rfl
      rw [this]
      simp only [List.length_append] at hav
      omega)
  obtain ⟨view', lt', hfin⟩ := H.finish hs hk hc e2 e3 (s.coll i).elided
  rw [show ({ h.coll i with done := true, elided := (s.coll i).elided } : Coll) = finC (h.coll i) by
      rw [H.coll i hi]; rfl] at hfin
  refine ⟨{ h.set i (finC (h.coll i)) with st := st' }, view', lt', ?_, by simp [Heap.set], hfin⟩
  rw [finishH, hstr, e1]

theorem discardSpec : ∀ f, DiscardSpec f := by
  intro f
  induction f with
  | zero => intro v h s stk view lt dat junk _ _ h0; omega
  | succ f ih =>
    intro v h s stk view lt dat junk H hv _
    cases v with
    | scalar x =>
      exact ⟨h, stk, view, lt, rfl, H, fun _ _ => rfl, fun _ _ _ _ => rfl, fun _ _ _ _ => rfl,
        fun k i l tl e => by cases e⟩
    | coll k i =>
      obtain ⟨hi, hk, hfu⟩ := hv k i rfl
      have hnot : ∀ (k' : Kind) (i' : Nat), Val.coll k i = .coll k' i' → i' = i := by
        intro k' i' e; simp at e; exact e.2.symm
      cases hd : (s.coll i).done with
      | true =>
        refine ⟨h, stk, view, lt, ?_, ?_, fun _ _ => rfl, fun _ _ _ _ => rfl, fun _ _ _ _ => rfl, ?_⟩
        · simp [Heap.discard, H.coll i hi, AColl.toColl, hd]
        · simp only [AState.discard, hd, if_true]; exact H
        · intro k' i' l tl e hl
          have := hnot k' i' e; subst this
          exact absurd (show i' ∈ stk _ by rw [hl]; simp) (H.inv.notin hd)
      | false =>
        obtain ⟨h1, stk1, view1, lt1, c1, c2, c3, c4, c5, c6, c7, c8⟩ := child ih H hi (by omega) hd
        have hA : AState.discard (f + 1) s (.coll k i) =
            (discardCurA f s i).set i (finA (s.coll i)) := by
          simp only [AState.discard, hd]
          rw [if_neg (by simp)]
          refine Eq.trans (b := (discardCurA f s i).set i (finA ((discardCurA f s i).coll i))) rfl ?_
          rw [c3]
        have hgood := H.inv.good i hi
        have hC : Heap.discard (f + 1) h (.coll k i) =
            (discardCurH f h i).bind fun h => (finishH h i).bind fun r => .ok r.1 := by
          simp only [Heap.discard]
          rw [if_neg (by rw [H.coll i hi]; simp [AColl.toColl, hd])]
          have hst : (h.coll i).started = (h.coll i).cur.isSome := by
            rw [H.coll i hi]; exact hgood.started hk
          simp only [discardCurH]
          rw [hst]
          cases hcur : (h.coll i).cur with
          | none => rfl
          | some v => rfl
        have hi1 : i < (discardCurA f s i).n := by rw [c4]; exact hi
        rw [hC, c1, hA]
        simp only [Except.bind]
        rw [← c3]
        rw [← c3] at hk
        cases hdead : s.dead (s.coll i).thr with
        | true =>
          have hdead1 : (discardCurA f s i).dead ((discardCurA f s i).coll i).thr = true := by
            rw [c3, c5]; exact hdead
          obtain ⟨h2, e1, _, e2⟩ := c2.finishH_dead hi1 hk hdead1
          rw [e1]
          refine ⟨h2, stk1, view1, lt1, rfl, e2, (fun _ e => nomatch e), ?_, ?_, ?_⟩
          · intro k' i' e hd'
            have := hnot k' i' e; subst this
            rw [hd] at hd'; cases hd'
          · intro _ _ _ _; exact c7 hdead
          · intro k' i' l tl e hl
            have := hnot k' i' e; subst this
            rw [H.inv.stk_dead _ hdead] at hl
            simp at hl
        | false =>
          obtain ⟨l, tl, hl⟩ := H.inv.split hi hd hdead
          obtain ⟨s1, s2⟩ := c8 l tl hl
          obtain ⟨h2, view2, lt2, e1, _, e2⟩ := c2.finishH_alive hk (by rw [c3]; exact s1) c6
          rw [e1]
          refine ⟨h2, _, view2, lt2, rfl, e2, (fun _ e => nomatch e), ?_, ?_, ?_⟩
          · intro k' i' e hd'
            have := hnot k' i' e; subst this
            rw [hd] at hd'; cases hd'
          · intro k' i' e hd'
            have := hnot k' i' e; subst this
            rw [hdead] at hd'; cases hd'
          · intro k' i' l' tl' e hl'
            have := hnot k' i' e; subst this
            rw [c3, upd_same]
            obtain ⟨s1', _⟩ := c8 l' tl' hl'
            rw [s1] at s1'
            refine ⟨(List.cons.inj s1').2, ?_⟩
            intro h0 t ht
            rw [upd_ne _ _ ht]
            exact s2 h0 t ht

end ISim
end Verif
