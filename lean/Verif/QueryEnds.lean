import Verif.HeapEnds
import Verif.PathFuel

/-!
# Queries come to an end

On any tokens a compiled query ends, regularly or with a panic: loops and descents are bounded by the number of tokens that the streams can still deliver.
-/

set_option linter.unusedSimpArgs false
set_option linter.unusedVariables false

namespace Verif
open IProg Heap

variable {ε φ α β : Type} {B N : Nat}

/-- How much a value can still read at most. -/
def Heap.vrest (h : Heap) : Val → Nat
  | .scalar _ => 0
  | .coll _ j => h.rest j

theorem Heap.Onward.vrest {h h1 : Heap} (o : Onward h h1) {v : Val} (hv : v.After 0 h.n) : h1.vrest v ≤ h.vrest v := by
  cases v with
  | scalar s => exact Nat.le_refl _
  | coll k j => exact o.rest j hv.2

theorem Heap.Onward.after {h h1 : Heap} (o : Onward h h1) {v : Val} (hv : v.After 0 h.n) : v.After 0 h1.n := hv.mono (Nat.le_refl _) o.n

/-- The states that are considered: streams deliver less than `B` tokens, and there are `N` collections. -/
structure In (B N : Nat) (h : Heap) : Prop where
  sound : Sound h
  small : Small B h
  n : N ≤ h.n

theorem In.pos {h : Heap} (i : In B N h) : 0 < B := Nat.lt_of_le_of_lt (Nat.zero_le _) (i.small 0 i.sound.st.nt)

theorem In.vrest {h : Heap} (i : In B N h) (v : Val) : h.vrest v < B := by
  cases v with
  | scalar s => exact i.pos
  | coll k j => exact i.small.rest i.sound j

theorem In.kept {h h1 : Heap} (i : In B N h) (k : Kept h h1) : In B N h1 := ⟨k.sound i.sound, k.small i.small, by rw [k.n]; exact i.n⟩

/-- The program ends, from `h`: regularly, in a later state and with a value as said, or with a panic. -/
def Halts (B N : Nat) (p : IProg ε α) (h : Heap) (Q : Heap → α → Prop) : Prop :=
  match (p.run Heap.mach h).2 with
  | .ok (h', a) => Onward h h' ∧ In B N h' ∧ Q h' a
  | .error e => e = .panic

namespace Halts

theorem ret {a : α} {h : Heap} {Q : Heap → α → Prop} (hi : In B N h) (hq : Q h a) : Halts B N (.ret a : IProg ε α) h Q := ⟨.refl hi.sound, hi, hq⟩

theorem panic {h : Heap} {Q : Heap → α → Prop} : Halts B N (.fail .panic : IProg ε α) h Q := rfl

theorem bind {p : IProg ε α} {f : α → IProg ε β} {h : Heap} {Q : Heap → α → Prop} {R : Heap → β → Prop} (hp : Halts B N p h Q)
    (hf : ∀ h' a, Onward h h' → In B N h' → Q h' a → Halts B N (f a) h' R) : Halts B N (p.bind f) h R := by
  unfold Halts at hp ⊢
  rw [run_bind, seqRun]
  generalize p.run Heap.mach h = x at hp ⊢
  obtain ⟨o, r⟩ := x
  cases r with
  | error e => exact hp
  | ok x =>
    obtain ⟨h', a⟩ := x
    have := hf h' a hp.1 hp.2.1 hp.2.2
    unfold Halts at this
    simp only
    generalize (f a).run Heap.mach h' = y at this ⊢
    obtain ⟨o2, r2⟩ := y
    cases r2 with
    | error e => exact this
    | ok y => exact ⟨hp.1.trans this.1, this.2⟩

theorem mono {p : IProg ε α} {h : Heap} {Q R : Heap → α → Prop} (hp : Halts B N p h Q) (hq : ∀ h' a, Onward h h' → Q h' a → R h' a) : Halts B N p h R := by
  unfold Halts at hp ⊢
  generalize p.run Heap.mach h = x at hp ⊢
  obtain ⟨o, r⟩ := x
  cases r with
  | error e => exact hp
  | ok x => exact ⟨hp.1, hp.2.1, hq _ _ hp.1 hp.2.2⟩

theorem emit {e : ε} {k : IProg ε α} {h : Heap} {Q : Heap → α → Prop} (hk : Halts B N k h Q) : Halts B N (.emit e k) h Q := hk

theorem putAll {h : Heap} (hi : In B N h) : ∀ (l : List ε), Halts B N (putAll l) h fun _ _ => True
  | [] => .ret hi trivial
  | e :: l => .emit (putAll hi l)

theorem opPanic {o : IOp} {k : o.Res → IProg ε α} {h : Heap} {Q : Heap → α → Prop} (ho : h.step o = .error .panic) : Halts B N (.op o k) h Q := by
  unfold Halts
  simp only [IProg.run, mach, ho]

theorem opOk {o : IOp} {k : o.Res → IProg ε α} {h h' : Heap} {x : o.Res} {Q : Heap → α → Prop} (ho : h.step o = .ok (h', x)) (hl : Onward h h')
    (hk : Halts B N (k x) h' Q) : Halts B N (.op o k) h Q := by
  unfold Halts at hk ⊢
  simp only [IProg.run, mach, ho]
  simp only [mach] at hk
  generalize (k x).run ⟨step⟩ h' = y at hk ⊢
  obtain ⟨o2, r2⟩ := y
  cases r2 with
  | error e => exact hk
  | ok y => exact ⟨hl.trans hk.1, hk.2⟩

theorem advance' {i : Nat} {k : Bool → IProg ε α} {h : Heap} {Q : Heap → α → Prop} (hi : In B N h) (hin : i < h.n)
    (hk : ∀ h' b, Onward h h' → In B N h' → (∀ j < h.n, j ≠ i → (h'.coll j).cur = (h.coll j).cur) → (b = true → Moved h h' i) → Halts B N (k b) h' Q) :
    Halts B N (.op (.advance i) k) h Q := by
  rcases advance_fine (h.avail (h.coll i).stream + 2) hi.sound hin (Nat.lt_succ_of_lt (rest_avail hi.sound.st.ok _)) with r | ⟨h', b, r1, r2, r3, r4, r5⟩
  · exact .opPanic r
  · exact .opOk (o := .advance i) r1 r2 (hk h' b r2 ⟨r2.sound, r3 B hi.small, Nat.le_trans hi.n r2.n⟩ r4 r5)

theorem advance {i : Nat} {k : Bool → IProg ε α} {h : Heap} {Q : Heap → α → Prop} (hi : In B N h) (hin : i < h.n)
    (hk : ∀ h' b, Onward h h' → In B N h' → (b = true → Moved h h' i) → Halts B N (k b) h' Q) : Halts B N (.op (.advance i) k) h Q :=
  advance' hi hin fun h' b o i _ m => hk h' b o i m

theorem current {i : Nat} {k : Option Scalar × Option Val → IProg ε α} {h : Heap} {Q : Heap → α → Prop} (hi : In B N h)
    (hk : ∀ key v, (h.coll i).cur = v → Halts B N (k (key, v)) h Q) : Halts B N (.op (.current i) k) h Q := by
  by_cases hc : (h.coll i).kind ≠ .top ∧ (h.coll i).done = true
  · refine .opPanic (o := .current i) ?_
    simp only [step, Heap.current, if_pos hc]
    rfl
  · refine .opOk (o := .current i) (h' := h) (x := ((h.coll i).key, (h.coll i).cur)) ?_ (.refl hi.sound) (hk _ _ rfl)
    simp only [step, Heap.current, if_neg hc]
    rfl

/-- `current` after a successful `advance`. -/
theorem item {i : Nat} {k : Option Scalar × Option Val → IProg ε α} {h0 h : Heap} {Q : Heap → α → Prop} (hi : In B N h) (m : Moved h0 h i)
    (hk : ∀ key x, x.After 0 h.n → h.vrest x < h0.rest i → Halts B N (k (key, some x)) h Q) : Halts B N (.op (.current i) k) h Q := by
  obtain ⟨x, e1, e2, e3⟩ := m.cur
  refine current hi fun key v e => ?_
  rw [e1] at e
  subst e
  refine hk key x (e2.mono (Nat.zero_le _) (Nat.le_refl _)) (Nat.lt_of_le_of_lt ?_ m.rest)
  cases x with
  | scalar s => exact Nat.zero_le _
  | coll k j => exact e3 k j rfl

theorem clone {v : Val} {k : Val × Option Nat → IProg ε α} {h : Heap} {Q : Heap → α → Prop} (hi : In B N h)
    (hk : ∀ h' w t, Onward h h' → In B N h' → w.After 0 h'.n → (v.After 0 h.n → h'.vrest w ≤ h.vrest v) → (∀ k i, v = .coll k i → ∃ j, w = .coll k j) →
      Halts B N (k (w, t)) h' Q) : Halts B N (.op (.clone v) k) h Q := by
  rcases clone_ends hi.sound (v := v) with r | ⟨h1, w, t, r1, r2, r3, r4, r5, r6⟩
  · refine .opPanic (o := .clone v) ?_
    simp only [step, r]
    rfl
  · refine .opOk (o := .clone v) (h' := h1) (x := (w, t)) ?_ r2 (hk h1 w t r2 ⟨r2.sound, r3 B hi.small, Nat.le_trans hi.n r2.n⟩ r4 (fun hv => ?_) (fun k i e => ?_))
    · simp only [step, r1]
      rfl
    · cases v with
      | scalar s => rw [r5 s rfl]; exact Nat.le_refl _
      | coll k i =>
        obtain ⟨j, e, hj⟩ := r6 k i rfl
        rw [e]
        exact hj hv.2
    · obtain ⟨j, e, -⟩ := r6 k i e
      exact ⟨j, e⟩

theorem discard {v : Val} {k : Unit → IProg ε α} {h : Heap} {Q : Heap → α → Prop} (hi : In B N h) (hv : v.After 0 h.n)
    (hk : ∀ h', Onward h h' → In B N h' → Halts B N (k ()) h' Q) : Halts B N (.op (.discard v) k) h Q := by
  rcases discard_exists hi.sound hv with r | ⟨h1, r1, r2⟩
  · refine .opPanic (o := .discard v) ?_
    simp only [step, r]
    rfl
  · refine .opOk (o := .discard v) (h' := h1) (x := ()) ?_ (r2.onward hi.sound) (hk h1 (r2.onward hi.sound) (hi.kept r2))
    simp only [step, r1]
    rfl

theorem copy {v : Val} {k : List Token → IProg ε α} {h : Heap} {Q : Heap → α → Prop} (hi : In B N h)
    (hk : ∀ h' ts, Onward h h' → In B N h' → Halts B N (k ts) h' Q) : Halts B N (.op (.copy v) k) h Q := by
  rcases copy_ends hi.sound v with r | ⟨h1, l, r1, r2⟩
  · exact .opPanic (o := .copy v) r
  · exact .opOk (o := .copy v) r1 (r2.onward hi.sound) (hk h1 l (r2.onward hi.sound) (hi.kept r2))

theorem detach {t : Nat} {k : Unit → IProg ε α} {h : Heap} {Q : Heap → α → Prop} (hi : In B N h)
    (hk : ∀ h', Onward h h' → In B N h' → Halts B N (k ()) h' Q) : Halts B N (.op (.detach t) k) h Q := by
  rcases detach_ends hi.sound t with r | ⟨h1, r1, r2⟩
  · refine .opPanic (o := .detach t) ?_
    simp only [step, r]
    rfl
  · refine .opOk (o := .detach t) (h' := h1) (x := ()) ?_ (r2.onward hi.sound) (hk h1 (r2.onward hi.sound) (hi.kept r2))
    simp only [step, r1]
    rfl

theorem reject {p q : Bytes} {k : Bool → IProg ε α} {h : Heap} {Q : Heap → α → Prop} (hi : In B N h)
    (hk : ∀ h' b, Onward h h' → In B N h' → Halts B N (k b) h' Q) : Halts B N (.op (.reject p q) k) h Q := by
  have key : Kept h (h.reject p q).1 := by
    unfold Heap.reject
    split
    · exact .refl hi.sound.st.ok
    · exact ⟨.refl hi.sound.st.ok, rfl, fun i => ⟨_, rfl⟩⟩
  exact .opOk (o := .reject p q) (h' := (h.reject p q).1) (x := (h.reject p q).2) rfl (key.onward hi.sound) (hk _ _ (key.onward hi.sound) (hi.kept key))

theorem detachOpt {t : Option Nat} {h : Heap} (hi : In B N h) : Halts B N (Verif.detachOpt t : IProg ε Unit) h fun _ _ => True := by
  cases t with
  | none => exact .ret hi trivial
  | some t => exact .detach hi fun h' o i => .ret i trivial

/-- A `detachOpt` before the rest. -/
theorem thenDetach {t : Option Nat} {f : Unit → IProg ε α} {h : Heap} {Q : Heap → α → Prop} (hi : In B N h)
    (hf : ∀ h', Onward h h' → In B N h' → Halts B N (f ()) h' Q) : Halts B N ((Verif.detachOpt t).bind f) h Q :=
  (detachOpt hi).bind fun h' _ o i _ => hf h' o i

end Halts

/-! ## Equality -/

/-- Comparing values that can read less than `m` tokens ends. -/
def EqOk (B N m : Nat) (eq : Val → Val → IProg ε Bool) : Prop :=
  ∀ h x y, In B N h → x.After 0 h.n → y.After 0 h.n → h.vrest x < m → h.vrest y < m → Halts B N (eq x y) h fun _ _ => True

variable {eq : Val → Val → IProg ε Bool} {m : Nat}

theorem safeEqual_halts (he : EqOk B N m eq) {h : Heap} {x y : Val} (hi : In B N h) (hx : x.After 0 h.n) (hy : y.After 0 h.n) (lx : h.vrest x < m) (ly : h.vrest y < m) :
    Halts B N (safeEqual eq x y) h fun _ _ => True := by
  refine .clone hi fun h1 w t o1 i1 a1 b1 _ => .clone i1 fun h2 w' t' o2 i2 a2 b2 _ => ?_
  refine .bind (he h2 w w' i2 (o2.after a1) a2 ?_ ?_) fun h3 b o3 i3 _ => .thenDetach i3 fun h4 _ i4 => .thenDetach i4 fun h5 _ i5 => .ret i5 trivial
  · exact Nat.lt_of_le_of_lt (o2.vrest a1) (Nat.lt_of_le_of_lt (b1 hx) lx)
  · exact Nat.lt_of_le_of_lt (b2 (o1.after hy)) (Nat.lt_of_le_of_lt (o1.vrest hy) ly)

theorem arrEqual_halts (he : EqOk B N m eq) {i j : Nat} : ∀ (f : Nat) {h : Heap}, In B N h → i < h.n → j < h.n → h.rest i ≤ m → h.rest j ≤ m → h.rest i < f →
    Halts B N (arrEqual eq i j f) h fun _ _ => True
  | 0, h, _, _, _, _, _, hf => absurd hf (Nat.not_lt_zero _)
  | f + 1, h, hi, i1, j1, li, lj, hf => by
    refine .advance hi i1 fun h1 a o1 in1 m1 => ?_
    have n1 := o1.n
    cases a with
    | false => exact .advance in1 (by omega) fun h2 b o2 in2 _ => .ret in2 trivial
    | true =>
      have m1 := m1 rfl
      refine .advance' in1 (by omega) fun h2 b o2 in2 c2 m2 => ?_
      have n2 := o2.n
      cases b with
      | false => exact .ret in2 trivial
      | true =>
        have m2 := m2 rfl
        have r1 := m1.rest
        have r2 := m2.rest
        have q1 := o1.rest i i1
        have q2 := o1.rest j j1
        have q3 := o2.rest i (by omega)
        have q4 := o2.rest j (by omega)
        -- the current value of the first array
        have first : ∀ v, (h2.coll i).cur = v → ∃ x, v = some x ∧ x.After 0 h2.n ∧ h2.vrest x < m := by
          intro v e
          by_cases hij : i = j
          · subst hij
            obtain ⟨x, e1, e2, e3⟩ := m2.cur
            refine ⟨x, e.symm.trans e1, e2.mono (Nat.zero_le _) (Nat.le_refl _), ?_⟩
            cases x with
            | scalar s => show 0 < m; omega
            | coll k j' => have := e3 k j' rfl; show h2.rest j' < m; omega
          · obtain ⟨x, e1, e2, e3⟩ := m1.cur
            have ex : x.After 0 h1.n := e2.mono (Nat.zero_le _) (Nat.le_refl _)
            refine ⟨x, (e.symm.trans (c2 i (by omega) hij)).trans e1, o2.after ex, ?_⟩
            refine Nat.lt_of_le_of_lt (o2.vrest ex) ?_
            cases x with
            | scalar s => show 0 < m; omega
            | coll k j' => have := e3 k j' rfl; show h1.rest j' < m; omega
        refine .current in2 fun key v e => ?_
        obtain ⟨x, rfl, x1, x2⟩ := first v e
        refine .item in2 m2 fun key' y y1 y2 => ?_
        refine .bind (he h2 x y in2 x1 y1 x2 (by omega)) fun h3 c o3 in3 _ => ?_
        have n3 := o3.n
        have q5 := o3.rest i (by omega)
        have q6 := o3.rest j (by omega)
        cases c with
        | true => exact arrEqual_halts he f in3 (by omega) (by omega) (by omega) (by omega) (by omega)
        | false => exact .ret in3 trivial

/-- Pending members exist, and can read less than `m`. -/
def PendsOk (m : Nat) (h : Heap) (ps : List Pend) : Prop := ∀ p ∈ ps, p.val.After 0 h.n ∧ h.vrest p.val < m

theorem PendsOk.onward {h h1 : Heap} {ps : List Pend} (hp : PendsOk m h ps) (o : Onward h h1) : PendsOk m h1 ps :=
  fun p h' => ⟨o.after (hp p h').1, Nat.lt_of_le_of_lt (o.vrest (hp p h').1) (hp p h').2⟩

theorem seekRight_halts (he : EqOk B N m eq) {key : Scalar} {val : Val} {j : Nat} : ∀ (f : Nat) {h : Heap} (ps : List Pend), In B N h → j < h.n → h.rest j ≤ m →
    h.rest j < f → val.After 0 h.n → h.vrest val < m → PendsOk m h ps → Halts B N (seekRight eq key val j f ps) h fun h' r => PendsOk m h' r.2
  | 0, h, _, _, _, _, hf, _, _, _ => absurd hf (Nat.not_lt_zero _)
  | f + 1, h, ps, hi, j1, lj, hf, v1, v2, hp => by
    refine .advance hi j1 fun h1 b o1 in1 m1 => ?_
    have n1 := o1.n
    have hp1 := hp.onward o1
    have w1 := o1.after v1
    have w2 := Nat.lt_of_le_of_lt (o1.vrest v1) v2
    cases b with
    | false => exact .ret in1 hp1
    | true =>
      have m1 := m1 rfl
      have r1 := m1.rest
      refine .item in1 m1 fun key' x x1 x2 => ?_
      cases key' with
      | none => exact .panic
      | some key' =>
        show Halts B N (match scalarEqual key key' with | none => _ | some true => _ | some false => _) _ _
        cases scalarEqual key key' with
        | none => exact .panic
        | some c =>
          cases c with
          | true => exact .bind (safeEqual_halts he in1 w1 x1 w2 (by omega)) fun h2 c o2 in2 _ => .ret in2 (hp1.onward o2)
          | false =>
            refine .clone in1 fun h2 w t o2 in2 a2 b2 _ => ?_
            have n2 := o2.n
            have q := o2.rest j (by omega)
            refine seekRight_halts he f _ in2 (by omega) (by omega) (by omega) (o2.after w1) (Nat.lt_of_le_of_lt (o2.vrest w1) w2) fun p h' => ?_
            rcases List.mem_append.1 h' with h' | h'
            · exact hp1.onward o2 p h'
            · rw [List.mem_singleton.1 h']
              exact ⟨a2, by have := b2 x1; show h2.vrest w < m; omega⟩

theorem detachAll_halts : ∀ (ps : List Pend) {h : Heap}, In B N h → Halts B N (detachAll ps : IProg ε Unit) h fun _ _ => True
  | [], h, hi => .ret hi trivial
  | p :: l, h, hi => .thenDetach hi fun h' _ i => detachAll_halts l i

theorem objLoop_halts (he : EqOk B N m eq) {i j g : Nat} (hg : m < g) : ∀ (f : Nat) {h : Heap} (ps : List Pend), In B N h → i < h.n → j < h.n → h.rest i ≤ m → h.rest j ≤ m →
    h.rest i < f → PendsOk m h ps → Halts B N (objLoop eq i j g f ps) h fun _ _ => True
  | 0, h, _, _, _, _, _, _, hf, _ => absurd hf (Nat.not_lt_zero _)
  | f + 1, h, ps, hi, i1, j1, li, lj, hf, hp => by
    refine .advance hi i1 fun h1 a o1 in1 m1 => ?_
    have n1 := o1.n
    have hp1 := hp.onward o1
    have q1 := o1.rest j j1
    cases a with
    | false =>
      show Halts B N (if ps.isEmpty then _ else _) _ _
      split
      · exact .advance in1 (by omega) fun h2 b o2 in2 _ => .ret in2 trivial
      · exact .ret in1 trivial
    | true =>
      have m1 := m1 rfl
      have r1 := m1.rest
      refine .item in1 m1 fun key x x1 x2 => ?_
      cases key with
      | none => exact .panic
      | some key =>
        show Halts B N (match findPend key ps with | none => _ | some (some n) => _ | some none => _) _ _
        cases findPend key ps with
        | none => exact .panic
        | some r =>
          cases r with
          | some n =>
            show Halts B N (match ps[n]? with | none => _ | some p => _) _ _
            cases hn : ps[n]? with
            | none => exact .panic
            | some p =>
              obtain ⟨p1, p2⟩ := hp1 p (List.mem_of_getElem? hn)
              refine .bind (safeEqual_halts he in1 x1 p1 (by omega) p2) fun h2 c o2 in2 _ => ?_
              cases c with
              | false => exact .ret in2 trivial
              | true =>
                refine .thenDetach in2 fun h3 o3 in3 => ?_
                have o := o2.trans o3
                have n2 := o.n
                have q2 := o.rest i (by omega)
                have q3 := o.rest j (by omega)
                exact objLoop_halts he hg f _ in3 (by omega) (by omega) (by omega) (by omega) (by omega)
                  fun p h' => hp1.onward o p (List.mem_of_mem_eraseIdx h')
          | none =>
            refine .bind (seekRight_halts he g ps in1 (by omega) (by omega) (by omega) x1 (by omega) hp1) fun h2 r o2 in2 hr => ?_
            have n2 := o2.n
            have q2 := o2.rest i (by omega)
            have q3 := o2.rest j (by omega)
            show Halts B N (if _ then _ else _) _ _
            split
            · exact objLoop_halts he hg f _ in2 (by omega) (by omega) (by omega) (by omega) (by omega) hr
            · exact .ret in2 trivial

theorem valEqual_halts : ∀ (f : Nat), EqOk (ε := ε) B N f (valEqual f)
  | 0 => fun h x y _ _ _ hf _ => absurd hf (Nat.not_lt_zero _)
  | f + 1 => by
    intro h x y hi hx hy lx ly
    have ih : EqOk (ε := ε) B N f (valEqual f) := valEqual_halts f
    match x, y with
    | .scalar a, .scalar b =>
      simp only [valEqual]
      cases scalarEqual a b with
      | none => exact .panic
      | some c => exact .ret hi trivial
    | .coll .arr i, .coll .arr j =>
      have lx : h.rest i < f + 1 := lx
      have ly : h.rest j < f + 1 := ly
      simp only [valEqual]
      exact arrEqual_halts ih (f + 1) hi hx.2 hy.2 (by omega) (by omega) lx
    | .coll .obj i, .coll .obj j =>
      have lx : h.rest i < f + 1 := lx
      have ly : h.rest j < f + 1 := ly
      simp only [valEqual]
      exact .bind (objLoop_halts ih (Nat.lt_succ_self _) (f + 1) [] hi hx.2 hy.2 (by omega) (by omega) lx (fun p h' => by cases h')) fun h2 r o2 in2 _ =>
        .bind (detachAll_halts _ in2) fun h3 _ o3 in3 _ => .ret in3 trivial
    | .scalar _, .coll _ _ => exact .ret hi trivial
    | .coll _ _, .scalar _ => simp only [valEqual]; exact .ret hi trivial
    | .coll .arr _, .coll .obj _ => exact .ret hi trivial
    | .coll .arr _, .coll .top _ => exact .ret hi trivial
    | .coll .obj _, .coll .arr _ => exact .ret hi trivial
    | .coll .obj _, .coll .top _ => exact .ret hi trivial
    | .coll .top _, .coll k _ => simp only [valEqual]; exact .ret hi trivial

namespace JPath.Ends
open JPath GoJson

/-! ## Segments -/

/-- Conditions end. -/
def CondOk (B N : Nat) (c : CondP ε) : Prop := ∀ h x, In B N h → x.After 0 h.n → Halts B N (c x) h fun _ _ => True

/-- The conditions of a selector end. -/
def SelOk (B N : Nat) : Sel (CondP ε) → Prop
  | .filter c => CondOk B N c
  | _ => True

/-- The state of a selector. -/
structure StOk (B N n : Nat) (st : SelSt ε) : Prop where
  sel : SelOk B N st.sel
  pending : ∀ p ∈ st.pending, p.1.After 0 n

def StsOk (B N n : Nat) (l : List (SelSt ε)) : Prop := ∀ st ∈ l, StOk B N n st

def StackOk (B N n : Nat) (ds : Stack ε) : Prop := ∀ d ∈ ds, StsOk B N n d.states

theorem StOk.mono {n n' : Nat} {st : SelSt ε} (h : StOk B N n st) (hn : n ≤ n') : StOk B N n' st :=
  ⟨h.sel, fun p hp => (h.pending p hp).mono (Nat.le_refl _) hn⟩

theorem StsOk.mono {n n' : Nat} {l : List (SelSt ε)} (h : StsOk B N n l) (hn : n ≤ n') : StsOk B N n' l := fun st hs => (h st hs).mono hn

theorem StackOk.mono {n n' : Nat} {ds : Stack ε} (h : StackOk B N n ds) (hn : n ≤ n') : StackOk B N n' ds := fun d hd => (h d hd).mono hn

theorem StsOk.cons {n : Nat} {st : SelSt ε} {l : List (SelSt ε)} (h : StOk B N n st) (hl : StsOk B N n l) : StsOk B N n (st :: l) := by
  intro s hs
  rcases List.mem_cons.1 hs with rfl | hs
  · exact h
  · exact hl s hs

theorem StackOk.cons {n : Nat} {d : Disp ε} {ds : Stack ε} (h : StsOk B N n d.states) (hl : StackOk B N n ds) : StackOk B N n (d :: ds) := by
  intro s hs
  rcases List.mem_cons.1 hs with rfl | hs
  · exact h
  · exact hl s hs

theorem StsOk.head {n : Nat} {st : SelSt ε} {l : List (SelSt ε)} (h : StsOk B N n (st :: l)) : StOk B N n st := h st (by simp)
theorem StsOk.tail {n : Nat} {st : SelSt ε} {l : List (SelSt ε)} (h : StsOk B N n (st :: l)) : StsOk B N n l := fun s hs => h s (by simp [hs])
theorem StackOk.head {n : Nat} {d : Disp ε} {ds : Stack ε} (h : StackOk B N n (d :: ds)) : StsOk B N n d.states := h d (by simp)
theorem StackOk.tail {n : Nat} {d : Disp ε} {ds : Stack ε} (h : StackOk B N n (d :: ds)) : StackOk B N n ds := fun s hs => h s (by simp [hs])

theorem StOk.push {n : Nat} {st : SelSt ε} (h : StOk B N n st) {p : Val × Option Nat} (hp : p.1.After 0 n) : StOk B N n { st with pending := st.pending ++ [p] } := by
  refine ⟨h.sel, fun q hq => ?_⟩
  rcases List.mem_append.1 hq with hq | hq
  · exact h.pending q hq
  · rw [List.mem_singleton.1 hq]; exact hp

theorem cloneIf_halts {c : Bool} {x : Val} {h : Heap} (hi : In B N h) (hx : x.After 0 h.n) :
    Halts B N (cloneIf c x : IProg ε _) h fun h' p => p.1.After 0 h'.n ∧ h'.vrest p.1 ≤ h.vrest x := by
  unfold cloneIf
  split
  · exact .clone hi fun h' w t o i a b _ => .ret i ⟨a, b hx⟩
  · exact .ret hi ⟨hx, Nat.le_refl _⟩

theorem appendAll_halts {c : Bool} {x : Val} : ∀ (l : List (SelSt ε)) {h : Heap}, In B N h → x.After 0 h.n → StsOk B N h.n l →
    Halts B N (appendAll c x l) h fun h' l => StsOk B N h'.n l
  | [], h, hi, hx, hl => .ret hi hl
  | st :: l, h, hi, hx, hl => by
    simp only [appendAll]
    split
    · exact .bind (cloneIf_halts hi hx) fun h1 p o1 i1 ⟨p1, _⟩ => .bind (appendAll_halts l i1 (o1.after hx) (hl.tail.mono o1.n)) fun h2 l' o2 i2 hl' =>
        .ret i2 (.cons (((hl.head.mono o1.n).push p1).mono o2.n) hl')
    · exact .bind (appendAll_halts l hi hx hl.tail) fun h2 l' o2 i2 hl' => .ret i2 (.cons (hl.head.mono o2.n) hl')

/-- What is known of the final processor; `K` is what is known of its state. -/
structure FinOk (B N : Nat) (K : Nat → φ → Prop) (fin : φ → Val → IProg ε (φ × Bool)) : Prop where
  mono : ∀ n n' q, n ≤ n' → K n q → K n' q
  halts : ∀ h q x, In B N h → x.After 0 h.n → K h.n q → Halts B N (fin q x) h fun h' r => K h'.n r.1

/-- What a part of the engine gives. -/
def ResOk (B N : Nat) (K : Nat → φ → Prop) (h : Heap) (r : Stack ε × φ × Bool) : Prop := StackOk B N h.n r.1 ∧ K h.n r.2.1

def LoopOk (B N : Nat) (K : Nat → φ → Prop) (h : Heap) (r : Disp ε × Stack ε × φ × Bool) : Prop :=
  StsOk B N h.n r.1.states ∧ StackOk B N h.n r.2.1 ∧ K h.n r.2.2.1

variable {K : Nat → φ → Prop} {fin : φ → Val → IProg ε (φ × Bool)}

theorem process_halts (hfin : FinOk B N K fin) : ∀ (ds : Stack ε) (q : φ) (x : Val) {h : Heap}, In B N h → x.After 0 h.n → StackOk B N h.n ds → K h.n q →
    Halts B N (process fin ds q x) h fun h' r => ResOk B N K h' r
  | [], q, x, h, hi, hx, hd, hq => .bind (hfin.halts h q x hi hx hq) fun h1 r o1 i1 hr => .ret i1 ⟨fun _ h => (by cases h), hr⟩
  | d :: ds, q, x, h, hi, hx, hd, hq => by
    unfold process
    have hh := hd.head
    generalize hs : d.states = sts at hh ⊢
    cases sts with
    | nil => exact .ret hi ⟨hd, hq⟩
    | cons st rest =>
      simp only
      split
      · refine .bind (cloneIf_halts hi hx) fun h1 p o1 i1 ⟨p1, _⟩ => ?_
        have hx1 := o1.after hx
        have hh1 := hh.mono o1.n
        split
        · exact .bind (appendAll_halts rest i1 hx1 hh1.tail) fun h2 l o2 i2 hl =>
            .ret i2 ⟨.cons (.cons ((hh1.head.push p1).mono o2.n) hl) (hd.tail.mono (Nat.le_trans o1.n o2.n)), hfin.mono _ _ _ (Nat.le_trans o1.n o2.n) hq⟩
        · refine .bind (process_halts hfin ds q p.1 i1 p1 (hd.tail.mono o1.n) (hfin.mono _ _ _ o1.n hq)) fun h2 r o2 i2 hr =>
            .thenDetach i2 fun h3 o3 i3 => ?_
          have hr1 := hr.1.mono o3.n
          have hr2 := hfin.mono _ _ _ o3.n hr.2
          have o := o2.trans o3
          split
          · exact .bind (appendAll_halts rest i3 (o.after hx1) (hh1.tail.mono o.n)) fun h4 l o4 i4 hl =>
              .ret i4 ⟨.cons (.cons (hh1.head.mono (o.trans o4).n) hl) (hr1.mono o4.n), hfin.mono _ _ _ o4.n hr2⟩
          · exact .ret i3 ⟨.cons (by rw [hs]; exact hh1.mono o.n) hr1, hr2⟩
      · exact .bind (appendAll_halts rest hi hx hh.tail) fun h2 l o2 i2 hl =>
          .ret i2 ⟨.cons (.cons (hh.head.mono o2.n) hl) (hd.tail.mono o2.n), hfin.mono _ _ _ o2.n hq⟩

theorem flushVals_halts (hfin : FinOk B N K fin) : ∀ (l : List (Val × Option Nat)) (b : Bool) (ds : Stack ε) (q : φ) {h : Heap}, In B N h →
    (∀ p ∈ l, p.1.After 0 h.n) → StackOk B N h.n ds → K h.n q → Halts B N (flushVals fin l b ds q) h fun h' r => ResOk B N K h' r
  | [], b, ds, q, h, hi, _, hd, hq => by simp only [flushVals]; exact .ret hi ⟨hd, hq⟩
  | p :: l, true, ds, q, h, hi, hl, hd, hq => by
    simp only [flushVals]
    exact .bind (process_halts hfin ds q p.1 hi (hl p (by simp)) hd hq) fun h1 r o1 i1 hr => .thenDetach i1 fun h2 o2 i2 =>
      flushVals_halts hfin l _ _ _ i2 (fun p' h' => (o1.trans o2).after (hl p' (by simp [h']))) (hr.1.mono o2.n) (hfin.mono _ _ _ o2.n hr.2)
  | p :: l, false, ds, q, h, hi, hl, hd, hq => by
    simp only [flushVals]
    exact .thenDetach hi fun h2 o2 i2 =>
      flushVals_halts hfin l _ _ _ i2 (fun p' h' => o2.after (hl p' (by simp [h']))) (hd.mono o2.n) (hfin.mono _ _ _ o2.n hq)

theorem flushSt_halts (hfin : FinOk B N K fin) {st : SelSt ε} {b : Bool} {ds : Stack ε} {q : φ} {h : Heap} (hi : In B N h) (hs : StOk B N h.n st)
    (hd : StackOk B N h.n ds) (hq : K h.n q) : Halts B N (flushSt fin st b ds q) h fun h' r => ResOk B N K h' r := by
  refine flushVals_halts hfin _ _ _ _ hi (fun p hp => ?_) hd hq
  split at hp
  · exact hs.pending p (List.mem_reverse.1 hp)
  · exact hs.pending p hp

theorem flushAll_halts (hfin : FinOk B N K fin) : ∀ (l : List (SelSt ε)) (b : Bool) (ds : Stack ε) (q : φ) {h : Heap}, In B N h → StsOk B N h.n l →
    StackOk B N h.n ds → K h.n q → Halts B N (flushAll fin l b ds q) h fun h' r => ResOk B N K h' r
  | [], b, ds, q, h, hi, _, hd, hq => .ret hi ⟨hd, hq⟩
  | st :: l, b, ds, q, h, hi, hl, hd, hq => .bind (flushSt_halts hfin hi hl.head hd hq) fun h1 r o1 i1 hr =>
      flushAll_halts hfin l _ _ _ i1 (hl.tail.mono o1.n) hr.1 hr.2

theorem fromValue_halts {x : Val} {s : Sel (CondP ε)} {h : Heap} (hi : In B N h) (hx : x.After 0 h.n) (hs : SelOk B N s) :
    Halts B N (fromValue x s) h fun _ _ => True := by
  cases s with
  | filter c => exact hs h x hi hx
  | _ => exact .ret hi trivial

theorem decideAll_halts {dec : Sel (CondP ε) → Decision} {x : Val} : ∀ (l : List (SelSt ε)) {h : Heap}, In B N h → x.After 0 h.n → StsOk B N h.n l →
    Halts B N (decideAll dec x l) h fun h' l => StsOk B N h'.n l
  | [], h, hi, hx, hl => .ret hi hl
  | st :: l, h, hi, hx, hl => by
    simp only [decideAll]
    split
    · exact .bind (decideAll_halts l hi hx hl.tail) fun h1 l' o1 i1 hl' => .ret i1 (.cons ⟨hl.head.sel, fun p hp => o1.after (hl.head.pending p hp)⟩ hl')
    · refine .bind (Q := fun _ _ => True) ?_ fun h1 b o1 i1 _ => .bind (decideAll_halts l i1 (o1.after hx) (hl.tail.mono o1.n)) fun h2 l' o2 i2 hl' =>
        .ret i2 (.cons ⟨hl.head.sel, fun p hp => (o1.trans o2).after (hl.head.pending p hp)⟩ hl')
      split
      · exact .ret hi trivial
      · split
        · exact .ret hi trivial
        · exact fromValue_halts hi hx hl.head.sel

/-- What follows, for values that can read less than `m` tokens. -/
def FolOk (B N : Nat) (K : Nat → φ → Prop) (m : Nat) (fol : Stack ε → φ → Val → IProg ε (Stack ε × φ × Bool)) : Prop :=
  ∀ h ds q x, In B N h → StackOk B N h.n ds → K h.n q → x.After 0 h.n → h.vrest x < m → Halts B N (fol ds q x) h fun h' r => ResOk B N K h' r

variable {fol self : Stack ε → φ → Val → IProg ε (Stack ε × φ × Bool)}

theorem dispatchLive_halts (hfin : FinOk B N K fin) (hfol : FolOk B N K B fol) {x : Val} {count : Nat} {c : Bool} {l : List (SelSt ε)} {ds : Stack ε} {q : φ} {h : Heap}
    (hi : In B N h) (hx : x.After 0 h.n) (hl : StsOk B N h.n l) (hd : StackOk B N h.n ds) (hq : K h.n q) :
    Halts B N (dispatchLive fin fol x count c l ds q) h fun h' r => LoopOk B N K h' r := by
  cases l with
  | nil => exact .ret hi ⟨hl, hd, hq⟩
  | cons st rest =>
    simp only [dispatchLive]
    refine .bind (Q := fun h' r => StOk B N h'.n r.1 ∧ StackOk B N h'.n r.2.1 ∧ K h'.n r.2.2.1) ?_ fun h1 r o1 i1 ⟨r1, r2, r3⟩ => ?_
    · split
      · exact .ret hi ⟨hl.head, hd, hq⟩
      · exact .bind (flushSt_halts hfin hi hl.head hd hq) fun h1 r o1 i1 hr => .ret i1 ⟨⟨hl.head.sel, fun p hp => by cases hp⟩, hr.1, hr.2⟩
    · have hrest : StsOk B N h1.n (r.1 :: rest) := .cons r1 (hl.tail.mono o1.n)
      split
      · split
        · refine .bind (hfol h1 _ _ x i1 (.cons hrest r2) r3 (o1.after hx) (i1.vrest x)) fun h2 r' o2 i2 hr' => ?_
          obtain ⟨a, b, c⟩ := r'
          cases a with
          | nil => exact .panic
          | cons d ds => exact .ret i2 ⟨hr'.1.head, hr'.1.tail, hr'.2⟩
        · exact .ret i1 ⟨hrest, r2, r3⟩
      · exact .ret i1 ⟨hrest, r2, r3⟩

theorem dispatchItem_halts (hfin : FinOk B N K fin) (hfol : FolOk B N K B fol) {dec : Sel (CondP ε) → Decision} {x : Val} {d : Disp ε} {ds : Stack ε} {q : φ} {h : Heap}
    (hi : In B N h) (hx : x.After 0 h.n) (hl : StsOk B N h.n d.states) (hd : StackOk B N h.n ds) (hq : K h.n q) :
    Halts B N (dispatchItem fin fol dec x d ds q) h fun h' r => LoopOk B N K h' r := by
  unfold dispatchItem
  refine .bind (decideAll_halts d.states hi hx hl) fun h1 sts o1 i1 hs => ?_
  have hs1 : StsOk B N h1.n (sts.takeWhile SelSt.over) := fun s h' => hs s (List.takeWhile_subset _ h')
  have hs2 : StsOk B N h1.n (sts.dropWhile SelSt.over) := fun s h' => hs s (List.dropWhile_subset _ h')
  refine .bind (flushAll_halts hfin _ true ds q i1 hs1 (hd.mono o1.n) (hfin.mono _ _ _ o1.n hq)) fun h2 r o2 i2 hr => ?_
  split
  · exact dispatchLive_halts hfin hfol i2 ((o1.trans o2).after hx) (hs2.mono o2.n) hr.1 hr.2
  · exact .ret i2 ⟨hs2.mono o2.n, hr.1, hr.2⟩

theorem cloneDesc_halts {c : Bool} {x : Val} {h : Heap} (hi : In B N h) (hx : x.After 0 h.n) :
    Halts B N (cloneDesc c x : IProg ε _) h fun h' p => p.1.After 0 h'.n ∧ h'.vrest p.1 ≤ h.vrest x := by
  unfold cloneDesc
  split
  · exact .clone hi fun h' w t o i a b _ => .ret i ⟨a, b hx⟩
  · exact .ret hi ⟨hx, Nat.le_refl _⟩

theorem roundEnd_halts (hfin : FinOk B N K fin) {m : Nat} (hself : FolOk B N K m self) {desc : Bool} {p : Val × Option Nat} {r : Disp ε × Stack ε × φ × Bool} {h : Heap}
    (hi : In B N h) (hp : p.1.After 0 h.n) (lp : h.vrest p.1 < m) (hr : LoopOk B N K h r) :
    Halts B N (roundEnd desc self p r) h fun h' r => LoopOk B N K h' r.2 := by
  unfold roundEnd
  split
  · split
    · exact .bind (hself h _ _ _ hi hr.2.1 hr.2.2 hp lp) fun h1 r' o1 i1 hr' => .thenDetach i1 fun h2 o2 i2 =>
        .ret i2 ⟨hr.1.mono (o1.trans o2).n, hr'.1.mono o2.n, hfin.mono _ _ _ o2.n hr'.2⟩
    · exact .ret hi hr
  · exact .thenDetach hi fun h2 o2 i2 => .ret i2 ⟨hr.1.mono o2.n, hr.2.1.mono o2.n, hfin.mono _ _ _ o2.n hr.2.2⟩

theorem objRelaxed_halts (hfin : FinOk B N K fin) (hfol : FolOk B N K B fol) {m : Nat} (hself : FolOk B N K m self) {desc : Bool} {i : Nat} :
    ∀ (f : Nat) (d : Disp ε) (ds : Stack ε) (q : φ) {h : Heap}, In B N h → i < h.n → h.rest i ≤ m → h.rest i < f → StsOk B N h.n d.states → StackOk B N h.n ds → K h.n q →
      Halts B N (objRelaxed fin desc fol self i f d ds q) h fun h' r => LoopOk B N K h' r
  | 0, d, ds, q, h, _, _, _, hf, _, _, _ => absurd hf (Nat.not_lt_zero _)
  | f + 1, d, ds, q, h, hi, i1, hm, hf, hl, hd, hq => by
    refine .advance hi i1 fun h1 more o1 in1 m1 => ?_
    have n1 := o1.n
    cases more with
    | false => exact .ret in1 ⟨hl.mono o1.n, hd.mono o1.n, hfin.mono _ _ _ o1.n hq⟩
    | true =>
      have m1 := m1 rfl
      have r1 := m1.rest
      refine .item in1 m1 fun key x x1 x2 => ?_
      cases key with
      | none => exact .panic
      | some k =>
        refine .bind (cloneDesc_halts in1 x1) fun h2 p o2 in2 ⟨p1, p2⟩ => ?_
        cases toStr k with
        | none => exact .panic
        | some key =>
          have o := o1.trans o2
          refine .bind (dispatchItem_halts hfin hfol in2 (o2.after x1) (hl.mono o.n) (hd.mono o.n) (hfin.mono _ _ _ o.n hq)) fun h3 r o3 in3 hr => ?_
          have := o3.vrest p1
          refine .bind (roundEnd_halts hfin hself in3 (o3.after p1) (by omega) hr) fun h4 r' o4 in4 hr' => ?_
          have o' := (o2.trans o3).trans o4
          have n' := o'.n
          have := o'.rest i (by omega)
          show Halts B N (if _ then _ else _) _ _
          split
          · exact objRelaxed_halts hfin hfol hself f _ _ _ in4 (by omega) (by omega) (by omega) hr'.1 hr'.2.1 hr'.2.2
          · exact .ret in4 hr'

theorem nextNeg_halts {ahead : Option Nat} {neg : Int} {h : Heap} (hi : In B N h) (ha : ∀ a, ahead = some a → a < h.n) :
    Halts B N (nextNeg ahead neg : IProg ε Int) h fun _ _ => True := by
  cases ahead with
  | none => exact .ret hi trivial
  | some a => exact .advance hi (ha a rfl) fun h1 b o1 i1 _ => .ret i1 trivial

theorem arrRelaxed_halts (hfin : FinOk B N K fin) (hfol : FolOk B N K B fol) {m : Nat} (hself : FolOk B N K m self) {desc : Bool} {i : Nat} {ahead : Option Nat} :
    ∀ (f : Nat) (index neg : Int) (d : Disp ε) (ds : Stack ε) (q : φ) {h : Heap}, In B N h → i < h.n → (∀ a, ahead = some a → a < h.n) → h.rest i ≤ m → h.rest i < f →
      StsOk B N h.n d.states → StackOk B N h.n ds → K h.n q →
      Halts B N (arrRelaxed fin desc fol self i ahead f index neg d ds q) h fun h' r => LoopOk B N K h' r
  | 0, index, neg, d, ds, q, h, _, _, _, _, hf, _, _, _ => absurd hf (Nat.not_lt_zero _)
  | f + 1, index, neg, d, ds, q, h, hi, i1, ha, hm, hf, hl, hd, hq => by
    refine .advance hi i1 fun h1 more o1 in1 m1 => ?_
    have n1 := o1.n
    cases more with
    | false => exact .ret in1 ⟨hl.mono o1.n, hd.mono o1.n, hfin.mono _ _ _ o1.n hq⟩
    | true =>
      have m1 := m1 rfl
      have r1 := m1.rest
      refine .item in1 m1 fun key x x1 x2 => ?_
      refine .bind (cloneDesc_halts in1 x1) fun h2 p o2 in2 ⟨p1, p2⟩ => ?_
      have o := o1.trans o2
      refine .bind (dispatchItem_halts hfin hfol in2 (o2.after x1) (hl.mono o.n) (hd.mono o.n) (hfin.mono _ _ _ o.n hq)) fun h3 r o3 in3 hr => ?_
      have q3 := o3.vrest p1
      have on3 := (o.trans o3).n
      split
      · refine .bind (nextNeg_halts in3 fun a e => by have := ha a e; omega) fun h4 neg' o4 in4 _ => ?_
        have q4 := o4.vrest (o3.after p1)
        refine .bind (roundEnd_halts hfin hself in4 (o4.after (o3.after p1)) (by omega) ⟨hr.1.mono o4.n, hr.2.1.mono o4.n, hfin.mono _ _ _ o4.n hr.2.2⟩)
          fun h5 r' o5 in5 hr' => ?_
        have o' := ((o2.trans o3).trans o4).trans o5
        have n' := o'.n
        have := o'.rest i (by omega)
        show Halts B N (if _ then _ else _) _ _
        split
        · exact arrRelaxed_halts hfin hfol hself f _ _ _ _ _ in5 (by omega) (fun a e => by have := ha a e; omega) (by omega) (by omega) hr'.1 hr'.2.1 hr'.2.2
        · exact .ret in5 hr'
      · exact .bind (roundEnd_halts hfin hself in3 (o3.after p1) (by omega) hr) fun h4 r' o4 in4 hr' => .ret in4 hr'

theorem objStrict_halts (hfin : FinOk B N K fin) (hfol : FolOk B N K B fol) {i : Nat} :
    ∀ (f : Nat) (d : Disp ε) (ds : Stack ε) (q : φ) {h : Heap}, In B N h → i < h.n → h.rest i < f → StsOk B N h.n d.states → StackOk B N h.n ds → K h.n q →
      Halts B N (objStrict fin fol i f d ds q) h fun h' r => LoopOk B N K h' r
  | 0, d, ds, q, h, _, _, hf, _, _, _ => absurd hf (Nat.not_lt_zero _)
  | f + 1, d, ds, q, h, hi, i1, hf, hl, hd, hq => by
    refine .advance hi i1 fun h1 more o1 in1 m1 => ?_
    have n1 := o1.n
    cases more with
    | false => exact .ret in1 ⟨hl.mono o1.n, hd.mono o1.n, hfin.mono _ _ _ o1.n hq⟩
    | true =>
      have m1 := m1 rfl
      have r1 := m1.rest
      refine .item in1 m1 fun key x x1 x2 => ?_
      cases key with
      | none => exact .panic
      | some k =>
        show Halts B N (match toStr k with | none => _ | some key => _) _ _
        cases toStr k with
        | none => exact .panic
        | some key =>
          refine .bind (dispatchItem_halts hfin hfol in1 x1 (hl.mono o1.n) (hd.mono o1.n) (hfin.mono _ _ _ o1.n hq)) fun h3 r o3 in3 hr => ?_
          have n' := o3.n
          have := o3.rest i (by omega)
          show Halts B N (if _ then _ else _) _ _
          split
          · exact objStrict_halts hfin hfol f _ _ _ in3 (by omega) (by omega) hr.1 hr.2.1 hr.2.2
          · exact .ret in3 hr

theorem arrStrict_halts (hfin : FinOk B N K fin) (hfol : FolOk B N K B fol) {i : Nat} {ahead : Option Nat} :
    ∀ (f : Nat) (index neg : Int) (d : Disp ε) (ds : Stack ε) (q : φ) {h : Heap}, In B N h → i < h.n → (∀ a, ahead = some a → a < h.n) → h.rest i < f →
      StsOk B N h.n d.states → StackOk B N h.n ds → K h.n q →
      Halts B N (arrStrict fin fol i ahead f index neg d ds q) h fun h' r => LoopOk B N K h' r
  | 0, index, neg, d, ds, q, h, _, _, _, hf, _, _, _ => absurd hf (Nat.not_lt_zero _)
  | f + 1, index, neg, d, ds, q, h, hi, i1, ha, hf, hl, hd, hq => by
    refine .advance hi i1 fun h1 more o1 in1 m1 => ?_
    have n1 := o1.n
    cases more with
    | false => exact .ret in1 ⟨hl.mono o1.n, hd.mono o1.n, hfin.mono _ _ _ o1.n hq⟩
    | true =>
      have m1 := m1 rfl
      have r1 := m1.rest
      refine .item in1 m1 fun key x x1 x2 => ?_
      refine .bind (dispatchItem_halts hfin hfol in1 x1 (hl.mono o1.n) (hd.mono o1.n) (hfin.mono _ _ _ o1.n hq)) fun h3 r o3 in3 hr => ?_
      have on3 := o3.n
      split
      · refine .bind (nextNeg_halts in3 fun a e => by have := ha a e; omega) fun h4 neg' o4 in4 _ => ?_
        have o' := o3.trans o4
        have n' := o'.n
        have := o'.rest i (by omega)
        have hr4 : LoopOk B N K h4 r := ⟨hr.1.mono o4.n, hr.2.1.mono o4.n, hfin.mono _ _ _ o4.n hr.2.2⟩
        split
        · exact .ret in4 hr4
        · exact arrStrict_halts hfin hfol f _ _ _ _ _ in4 (by omega) (fun a e => by have := ha a e; omega) (by omega) hr4.1 hr4.2.1 hr4.2.2
      · exact .ret in3 hr

theorem descend_halts (hfin : FinOk B N K fin) {m : Nat} (hself : FolOk B N K m self) {i : Nat} :
    ∀ (f : Nat) (ds : Stack ε) (q : φ) {h : Heap}, In B N h → i < h.n → h.rest i ≤ m → h.rest i < f → StackOk B N h.n ds → K h.n q →
      Halts B N (descend self i f ds q) h fun h' r => ResOk B N K h' r
  | 0, ds, q, h, _, _, _, hf, _, _ => absurd hf (Nat.not_lt_zero _)
  | f + 1, ds, q, h, hi, i1, hm, hf, hd, hq => by
    refine .advance hi i1 fun h1 more o1 in1 m1 => ?_
    have n1 := o1.n
    cases more with
    | false => exact .ret in1 ⟨hd.mono o1.n, hfin.mono _ _ _ o1.n hq⟩
    | true =>
      have m1 := m1 rfl
      have r1 := m1.rest
      refine .item in1 m1 fun key x x1 x2 => ?_
      refine .bind (hself h1 ds q x in1 (hd.mono o1.n) (hfin.mono _ _ _ o1.n hq) x1 (by omega)) fun h2 r o2 in2 hr => ?_
      have n2 := o2.n
      have := o2.rest i (by omega)
      split
      · exact descend_halts hfin hself f _ _ in2 (by omega) (by omega) (by omega) hr.1 hr.2
      · exact .ret in2 hr

theorem finish_halts (hfin : FinOk B N K fin) {r : Disp ε × Stack ε × φ × Bool} {h : Heap} (hi : In B N h) (hr : LoopOk B N K h r) :
    Halts B N (finish fin r) h fun h' r => ResOk B N K h' r :=
  .bind (flushAll_halts hfin _ _ _ _ hi hr.1 hr.2.1 hr.2.2) fun h1 r' o1 i1 hr' => .ret i1 hr'

theorem lookLoop_halts {la : Int} {a : Nat} : ∀ (f : Nat) (neg : Int) {h : Heap}, In B N h → a < h.n → h.rest a < f →
    Halts B N (lookLoop la a f neg : IProg ε Int) h fun _ _ => True
  | 0, neg, h, _, _, hf => absurd hf (Nat.not_lt_zero _)
  | f + 1, neg, h, hi, ha, hf => by
    simp only [lookLoop]
    split
    · refine .advance hi ha fun h1 more o1 in1 m1 => ?_
      cases more with
      | false => exact .ret in1 trivial
      | true =>
        have := (m1 rfl).rest
        have := o1.n
        exact lookLoop_halts f _ in1 (by omega) (by omega)
    · exact .ret hi trivial

theorem lookStart_halts {la : Int} {i F : Nat} (hF : B ≤ F) {h : Heap} (hi : In B N h) :
    Halts B N (lookStart la i F : IProg ε _) h fun h' r => ∀ a, r.1 = some a → a < h'.n := by
  unfold lookStart
  split
  · refine .clone hi fun h1 w t o1 in1 a1 b1 c1 => ?_
    obtain ⟨j, rfl⟩ := c1 _ _ rfl
    refine .bind (lookLoop_halts F 0 in1 a1.2 (Nat.lt_of_lt_of_le (in1.small.rest in1.sound j) hF)) fun h2 neg o2 in2 _ => .ret in2 fun a e => ?_
    cases e
    exact Nat.lt_of_lt_of_le a1.2 o2.n
  · exact .ret hi fun a e => by cases e

theorem strictEnd_halts (hfin : FinOk B N K fin) {m F : Nat} (hF : B ≤ F) (hself : FolOk B N K m self) {desc : Bool} {p : Val × Option Nat} {r : Disp ε × Stack ε × φ × Bool}
    {h : Heap} (hi : In B N h) (hp : p.1.After 0 h.n) (lp : h.vrest p.1 ≤ m) (hr : LoopOk B N K h r) :
    Halts B N (strictEnd desc self p F r) h fun h' r => LoopOk B N K h' r := by
  unfold strictEnd
  split
  · obtain ⟨v, t⟩ := p
    cases v with
    | scalar s => exact .panic
    | coll k j =>
      exact .bind (descend_halts hfin hself F _ _ hi hp.2 lp (Nat.lt_of_lt_of_le (hi.small.rest hi.sound j) hF) hr.2.1 hr.2.2) fun h1 r' o1 i1 hr' =>
        .ret i1 ⟨hr.1.mono o1.n, hr'.1, hr'.2⟩
  · exact .ret hi hr

/-- The conditions of a segment end. -/
def SegOk (B N : Nat) (seg : Seg (CondP ε)) : Prop := ∀ s ∈ seg.sels, SelOk B N s

theorem newDisp_ok {seg : Seg (CondP ε)} (hs : SegOk B N seg) (n : Nat) : StsOk B N n (newDisp seg.sels).states := by
  intro st h
  simp only [newDisp, List.mem_map] at h
  obtain ⟨s, h1, rfl⟩ := h
  exact ⟨hs s h1, fun p hp => by cases hp⟩

theorem segP_halts (hfin : FinOk B N K fin) (hfol : FolOk B N K B fol) {strict : Bool} {F : Nat} (hF : B ≤ F) {seg : Seg (CondP ε)} (hs : SegOk B N seg) :
    ∀ g : Nat, FolOk B N K g (segP fin strict F seg fol g)
  | 0 => fun h ds q x _ _ _ _ hf => absurd hf (Nat.not_lt_zero _)
  | g + 1 => by
    have ih : FolOk B N K g (segP fin strict F seg fol g) := segP_halts hfin hfol hF hs g
    intro h ds q x hi hd hq hx lx
    have low : ∀ {h : Heap} (i : Nat), In B N h → h.rest i < F := fun i hi => Nat.lt_of_lt_of_le (hi.small.rest hi.sound i) hF
    match x, hx, lx with
    | .scalar s, hx, lx => rw [segP.eq_def]; exact .discard hi hx fun h1 o1 i1 => .ret i1 ⟨hd.mono o1.n, hfin.mono _ _ _ o1.n hq⟩
    | .coll .top i, hx, lx => rw [segP.eq_def]; exact .discard hi hx fun h1 o1 i1 => .ret i1 ⟨hd.mono o1.n, hfin.mono _ _ _ o1.n hq⟩
    | .coll .obj i, hx, lx =>
      have lx : h.rest i < g + 1 := lx
      have i0 : i < h.n := hx.2
      rw [segP.eq_def]
      simp only
      split
      · refine .bind (cloneDesc_halts hi hx) fun h1 p o1 in1 ⟨p1, p2⟩ => ?_
        have p2 : h1.vrest p.1 ≤ h.rest i := p2
        have n1 := o1.n
        refine .bind (objStrict_halts hfin hfol F _ _ _ in1 (by omega) (low i in1) (newDisp_ok hs _) (hd.mono o1.n) (hfin.mono _ _ _ o1.n hq)) fun h2 r o2 in2 hr => ?_
        have := o2.vrest p1
        exact .bind (strictEnd_halts hfin hF ih in2 (o2.after p1) (by omega) hr) fun h3 r' o3 in3 hr' => .thenDetach in3 fun h4 o4 in4 =>
          finish_halts hfin in4 ⟨hr'.1.mono o4.n, hr'.2.1.mono o4.n, hfin.mono _ _ _ o4.n hr'.2.2⟩
      · exact .bind (objRelaxed_halts hfin hfol ih F _ _ _ hi i0 (by omega) (low i hi) (newDisp_ok hs _) hd hq) fun h1 r o1 in1 hr => finish_halts hfin in1 hr
    | .coll .arr i, hx, lx =>
      have lx : h.rest i < g + 1 := lx
      have i0 : i < h.n := hx.2
      rw [segP.eq_def]
      simp only
      refine .bind (lookStart_halts hF hi) fun h0 la o0 in0 hla => ?_
      have n0 := o0.n
      have q0 := o0.rest i i0
      split
      · refine .bind (cloneDesc_halts in0 (o0.after hx)) fun h1 p o1 in1 ⟨p1, p2⟩ => ?_
        have p2 : h1.vrest p.1 ≤ h0.rest i := p2
        have n1 := o1.n
        have o := o0.trans o1
        refine .bind (arrStrict_halts hfin hfol F _ _ _ _ _ in1 (by omega) (fun a e => Nat.lt_of_lt_of_le (hla a e) o1.n) (low i in1) (newDisp_ok hs _) (hd.mono o.n)
          (hfin.mono _ _ _ o.n hq)) fun h2 r o2 in2 hr => ?_
        have := o2.vrest p1
        exact .bind (strictEnd_halts hfin hF ih in2 (o2.after p1) (by omega) hr) fun h3 r' o3 in3 hr' => .thenDetach in3 fun h4 o4 in4 => .thenDetach in4 fun h5 o5 in5 =>
          finish_halts hfin in5 ⟨hr'.1.mono (o4.trans o5).n, hr'.2.1.mono (o4.trans o5).n, hfin.mono _ _ _ (o4.trans o5).n hr'.2.2⟩
      · exact .bind (arrRelaxed_halts hfin hfol ih F _ _ _ _ _ in0 (by omega) hla (by omega) (low i in0) (newDisp_ok hs _) (hd.mono o0.n) (hfin.mono _ _ _ o0.n hq))
          fun h1 r o1 in1 hr => .thenDetach in1 fun h2 o2 in2 => finish_halts hfin in2 ⟨hr.1.mono o2.n, hr.2.1.mono o2.n, hfin.mono _ _ _ o2.n hr.2.2⟩

theorem segsP_halts (hfin : FinOk B N K fin) {strict : Bool} {F : Nat} (hF : B ≤ F) : ∀ {segs : List (Seg (CondP ε))}, (∀ s ∈ segs, SegOk B N s) →
    FolOk B N K B (segsP fin strict F segs)
  | [], _ => fun h ds q x hi hd hq hx _ => process_halts hfin ds q x hi hx hd hq
  | seg :: segs, hs => fun h ds q x hi hd hq hx lx =>
    segP_halts hfin (segsP_halts hfin hF fun s h' => hs s (by simp [h'])) hF (hs seg (by simp)) F h ds q x hi hd hq hx (Nat.lt_of_lt_of_le lx hF)

end JPath.Ends
end Verif
