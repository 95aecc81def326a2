import Verif.JsonEncoder
import Verif.JpvEncoder
import Verif.IterTransforms

/-!
# The encoders and `split` on any tokens

On any tokens, also on tokens that are not those of values, the encoders and `split` end, regularly or with a panic.
-/

set_option linter.unusedSimpArgs false
set_option linter.unusedVariables false

namespace Verif
open IProg

/-- The references of the collection number `i` go to later ones. -/
def Val.After (i n : Nat) : Val → Prop
  | .scalar _ => True
  | .coll _ j => i < j ∧ j < n

theorem Val.After.mono {i n i' n' : Nat} {v : Val} (h : v.After i n) (hi : i' ≤ i) (hn : n ≤ n') : v.After i' n' := by
  cases v with
  | scalar s => trivial
  | coll k j => exact ⟨Nat.lt_of_le_of_lt hi h.1, Nat.lt_of_lt_of_le h.2 hn⟩

namespace Heap

/-- There are no clones, and references go to later collections. -/
structure Direct (h : Heap) : Prop where
  str : ∀ i, (h.coll i).stream = 0
  cur : ∀ i v, (h.coll i).cur = some v → v.After i h.n
  pos : 0 < h.n

/-- Tokens to come. -/
def len (h : Heap) : Nat := h.st.src.length

theorem direct_init (ts : List Token) : (init ts).Direct := ⟨fun _ => rfl, fun _ _ e => (by cases e), Nat.one_pos⟩

theorem len_init (ts : List Token) : (init ts).len = ts.length := rfl

/-- A later state. -/
structure Later (h h' : Heap) : Prop where
  direct : h'.Direct
  len : h'.len ≤ h.len
  n : h.n ≤ h'.n

theorem Later.rfl' {h : Heap} (hd : h.Direct) : Later h h := ⟨hd, Nat.le_refl _, Nat.le_refl _⟩

theorem Later.trans {a b c : Heap} (h : Later a b) (h' : Later b c) : Later a c :=
  ⟨h'.direct, Nat.le_trans h'.len h.len, Nat.le_trans h.n h'.n⟩

theorem Direct.set {h : Heap} (hd : h.Direct) (i : Nat) {c : Coll} (hs : c.stream = 0) (hc : ∀ v, c.cur = some v → v.After i h.n) : (h.set i c).Direct := by
  refine ⟨fun j => ?_, fun j v hv => ?_, hd.pos⟩
  · show (if j = i then c else h.coll j).stream = 0
    split
    · exact hs
    · exact hd.str j
  · have hv : (if j = i then c else h.coll j).cur = some v := hv
    show v.After j h.n
    split at hv
    · rename_i e
      exact e ▸ hc v hv
    · exact hd.cur j v hv

theorem next_zero {h : Heap} (hd : h.Direct) : ∃ h' x, h.next 0 = .ok (h', x) ∧ h'.coll = h.coll ∧ h'.n = h.n ∧ h'.Direct ∧ h'.len = h.len - 1 ∧
    (x ≠ none → 0 < h.len) := by
  obtain ⟨st, coll, n, bad⟩ := h
  obtain ⟨src, pools, onChan, np, curs, nt⟩ := st
  cases src with
  | nil => exact ⟨_, none, rfl, rfl, rfl, hd, rfl, fun e => absurd rfl e⟩
  | cons x r => exact ⟨_, some x, rfl, rfl, rfl, ⟨hd.str, hd.cur, hd.pos⟩, rfl, fun _ => Nat.succ_pos _⟩

theorem readToEnd_ok : ∀ (f : Nat) {h : Heap} (d : Int), h.Direct → h.len < f → ∃ h' l, readToEnd f h 0 d = .ok (h', l) ∧ h'.Direct ∧ h'.n = h.n ∧ h'.len ≤ h.len
  | 0, h, d, _, hf => absurd hf (Nat.not_lt_zero _)
  | f + 1, h, d, hd, hf => by
    obtain ⟨h1, x, e1, e2, e3, e4, e5, e6⟩ := next_zero hd
    simp only [readToEnd, e1]
    cases x with
    | none => exact ⟨h1, [], rfl, e4, e3, by omega⟩
    | some x =>
      show ∃ h' l, (if depthAfter d x < 0 then _ else _) = _ ∧ _
      split
      · exact ⟨h1, [x], rfl, e4, e3, by omega⟩
      · have := e6 (by simp)
        obtain ⟨h2, l, r1, r2, r3, r4⟩ := readToEnd_ok f (depthAfter d x) e4 (by omega)
        exact ⟨h2, x :: l, by simp only [r1]; rfl, r2, by omega, by omega⟩

theorem avail_len (h : Heap) (t : Nat) : h.len ≤ h.avail t := Nat.le_add_right _ _

theorem discard_ok : ∀ (f : Nat) {h : Heap} {v : Val}, h.Direct → v.After 0 h.n → 0 < f → (∀ k j, v = .coll k j → h.n - j < f) →
    discard f h v = .error .panic ∨ ∃ h', discard f h v = .ok h' ∧ h'.Direct ∧ h'.n = h.n ∧ h'.len ≤ h.len
  | 0, h, v, _, _, hf, _ => absurd hf (Nat.not_lt_zero _)
  | f + 1, h, .scalar s, hd, _, _, _ => .inr ⟨h, rfl, hd, rfl, Nat.le_refl _⟩
  | f + 1, h, .coll k j, hd, hv, _, hj => by
    have hj' : h.n - j < f + 1 := hj k j rfl
    have hv' : 0 < j ∧ j < h.n := hv
    simp only [discard]
    by_cases hdone : (h.coll j).done = true
    · rw [if_pos hdone]
      exact .inr ⟨h, rfl, hd, rfl, Nat.le_refl _⟩
    · rw [if_neg hdone]
      have fin : ∀ h1 : Heap, h1.Direct → h1.n = h.n → h1.len ≤ h.len → ∃ h', (do
          let (h, _) ← readToEnd ((h1.set j { h1.coll j with done := true }).avail (h1.coll j).stream + 1) (h1.set j { h1.coll j with done := true })
            (h1.coll j).stream 0
          (Except.ok h : Except Stop Heap)) = .ok h' ∧ h'.Direct ∧ h'.n = h.n ∧ h'.len ≤ h.len := by
        intro h1 d1 n1 l1
        have d2 : (h1.set j { h1.coll j with done := true }).Direct := d1.set j (d1.str j) fun v hv => d1.cur j v hv
        rw [d1.str j]
        obtain ⟨h2, l, r1, r2, r3, r4⟩ := readToEnd_ok ((h1.set j { h1.coll j with done := true }).avail 0 + 1) 0 d2 (Nat.lt_succ_of_le (avail_len _ _))
        rw [r1]
        exact ⟨h2, rfl, r2, r3.trans n1, Nat.le_trans r4 l1⟩
      by_cases hst : (h.coll j).started = true
      · simp only [hst, if_true]
        cases hc : (h.coll j).cur with
        | none => exact .inl rfl
        | some w =>
          have hw := hd.cur j w hc
          rcases discard_ok f hd (hw.mono (Nat.zero_le _) (Nat.le_refl _)) (by omega) (fun k' j' e => by
              subst e
              have : j < j' ∧ j' < h.n := hw
              omega) with r | ⟨h1, r1, r2, r3, r4⟩
          · exact .inl (by simp only [r]; rfl)
          · simp only [r1]
            exact .inr (fin h1 r2 r3 r4)
      · simp only [hst, Bool.false_eq_true, if_false]
        exact .inr (fin h hd rfl (Nat.le_refl _))

theorem discard_cur {h : Heap} (hd : h.Direct) {i : Nat} {v : Val} (hv : (h.coll i).cur = some v) :
    discard h.n h v = .error .panic ∨ ∃ h', discard h.n h v = .ok h' ∧ h'.Direct ∧ h'.n = h.n ∧ h'.len ≤ h.len := by
  have hw := hd.cur i v hv
  refine discard_ok h.n hd (hw.mono (Nat.zero_le _) (Nat.le_refl _)) hd.pos fun k j e => ?_
  subst e
  have : i < j ∧ j < h.n := hw
  omega

theorem alloc_direct {h : Heap} (hd : h.Direct) {c : Coll} (hs : c.stream = 0) (hc : c.cur = none) : (h.alloc c).1.Direct := by
  have d := hd.set h.n (c := c) hs fun v hv => by rw [hc] at hv; cases hv
  refine ⟨d.str, fun i v hv => (d.cur i v hv).mono (Nat.le_refl _) (Nat.le_succ _), Nat.succ_pos _⟩

theorem streamedValue_ok {h : Heap} (hd : h.Direct) (x : Token) :
    h.streamedValue x 0 = .error .panic ∨ ∃ h' v, h.streamedValue x 0 = .ok (h', v) ∧ h'.Direct ∧ h.n ≤ h'.n ∧ h'.len = h.len ∧
      ∀ i < h.n, v.After i h'.n := by
  cases x with
  | startArr => exact .inr ⟨_, _, rfl, alloc_direct hd rfl rfl, Nat.le_succ _, rfl, fun i hi => ⟨hi, Nat.lt_succ_self _⟩⟩
  | startObj => exact .inr ⟨_, _, rfl, alloc_direct hd rfl rfl, Nat.le_succ _, rfl, fun i hi => ⟨hi, Nat.lt_succ_self _⟩⟩
  | scalar s => exact .inr ⟨_, _, rfl, hd, Nat.le_refl _, rfl, fun i hi => trivial⟩
  | endArr => exact .inl rfl
  | endObj => exact .inl rfl
  | elision => exact .inl rfl

/-- The current value is set. -/
theorem value_ok {h : Heap} (hd : h.Direct) (x : Token) {i : Nat} (hi : i < h.n) :
    (do let (h, v) ← h.streamedValue x (h.coll i).stream
        (Except.ok (h.set i { h.coll i with cur := some v }, true) : Except Stop (Heap × Bool))) = .error .panic ∨
    ∃ h', (do let (h, v) ← h.streamedValue x (h.coll i).stream
              (Except.ok (h.set i { h.coll i with cur := some v }, true) : Except Stop (Heap × Bool))) = .ok (h', true) ∧ Later h h' := by
  rw [hd.str i]
  rcases streamedValue_ok hd x with r | ⟨h1, v, r1, r2, r3, r4, r5⟩
  · exact .inl (by rw [r]; rfl)
  · rw [r1]
    refine .inr ⟨_, rfl, r2.set i (r2.str i) fun w hw => ?_, Nat.le_of_eq r4, r3⟩
    cases hw
    exact r5 i hi

theorem advance_ok : ∀ (f : Nat) {h : Heap} {i : Nat}, h.Direct → i < h.n → h.len < f →
    advance f h i = .error .panic ∨ ∃ h' b, advance f h i = .ok (h', b) ∧ Later h h' ∧ (b = true → h'.len < h.len)
  | 0, h, i, _, _, hf => absurd hf (Nat.not_lt_zero _)
  | f + 1, h, i, hd, hi, hf => by
    -- a value is read
    have val : ∀ (h1 : Heap) (x : Token), h1.Direct → h1.n = h.n → h1.len < h.len →
        (do let (h, v) ← h1.streamedValue x (h1.coll i).stream
            (Except.ok (h.set i { h.coll i with cur := some v }, true) : Except Stop (Heap × Bool))) = .error .panic ∨
        ∃ h' b, (do let (h, v) ← h1.streamedValue x (h1.coll i).stream
                    (Except.ok (h.set i { h.coll i with cur := some v }, true) : Except Stop (Heap × Bool))) = .ok (h', b) ∧ Later h h' ∧ (b = true → h'.len < h.len) := by
      intro h1 x d1 n1 l1
      rcases value_ok d1 x (i := i) (by omega) with r | ⟨h', r, r'⟩
      · exact .inl r
      · have := r'.len
        have := r'.n
        exact .inr ⟨h', true, r, ⟨r'.direct, by omega, by omega⟩, fun _ => by omega⟩
    simp only [advance]
    cases hk : (h.coll i).kind with
    | top =>
      have main : ∀ h1 : Heap, h1.Direct → h1.n = h.n → h1.len ≤ h.len → (do
          let (h, x) ← h1.next (h1.coll i).stream
          match x with
          | none => (Except.ok (h.set i { h.coll i with cur := none }, false) : Except Stop (Heap × Bool))
          | some x =>
            let (h, v) ← h.streamedValue x (h.coll i).stream
            .ok (h.set i { h.coll i with cur := some v }, true)) = .error .panic ∨ ∃ h' b, (do
          let (h, x) ← h1.next (h1.coll i).stream
          match x with
          | none => (Except.ok (h.set i { h.coll i with cur := none }, false) : Except Stop (Heap × Bool))
          | some x =>
            let (h, v) ← h.streamedValue x (h.coll i).stream
            .ok (h.set i { h.coll i with cur := some v }, true)) = .ok (h', b) ∧ Later h h' ∧ (b = true → h'.len < h.len) := by
        intro h1 d1 n1 l1
        obtain ⟨h2, x, e1, e2, e3, e4, e5, e6⟩ := next_zero d1
        rw [d1.str i, e1]
        cases x with
        | none => exact .inr ⟨_, false, rfl, ⟨e4.set i (e4.str i) (fun v hv => by cases hv), show h2.len ≤ _ by omega, show h.n ≤ h2.n by omega⟩, fun e => by cases e⟩
        | some x =>
          have := e6 (by simp)
          exact val h2 x e4 (by omega) (by omega)
      cases hc : (h.coll i).cur with
      | none => exact main h hd rfl (Nat.le_refl _)
      | some v =>
        rcases discard_cur hd hc with r | ⟨h1, r1, r2, r3, r4⟩
        · exact .inl (by simp only [r]; rfl)
        · simp only [r1]
          exact main h1 r2 r3 r4
    | obj =>
      simp only
      by_cases hdone : (h.coll i).done = true
      · rw [if_pos hdone]
        exact .inr ⟨h, false, rfl, .rfl' hd, fun e => by cases e⟩
      · rw [if_neg hdone]
        have main : ∀ h1 : Heap, h1.Direct → h1.n = h.n → h1.len ≤ h.len → (do
            let (h, x) ← h1.next (h1.coll i).stream
            match x with
            | none => .error .panic
            | some (.scalar k) =>
              let h := h.set i { h.coll i with started := true, key := some k }
              let (h, y) ← h.next (h.coll i).stream
              match y with
              | none => .error .panic
              | some y =>
                let (h, v) ← h.streamedValue y (h.coll i).stream
                .ok (h.set i { h.coll i with cur := some v }, true)
            | some .endObj => .ok (h.set i { h.coll i with done := true }, false)
            | some .elision => advance f (h.set i { h.coll i with elided := true }) i
            | some _ => (.error .panic : Except Stop (Heap × Bool))) = .error .panic ∨ ∃ h' b, (do
            let (h, x) ← h1.next (h1.coll i).stream
            match x with
            | none => .error .panic
            | some (.scalar k) =>
              let h := h.set i { h.coll i with started := true, key := some k }
              let (h, y) ← h.next (h.coll i).stream
              match y with
              | none => .error .panic
              | some y =>
                let (h, v) ← h.streamedValue y (h.coll i).stream
                .ok (h.set i { h.coll i with cur := some v }, true)
            | some .endObj => .ok (h.set i { h.coll i with done := true }, false)
            | some .elision => advance f (h.set i { h.coll i with elided := true }) i
            | some _ => (.error .panic : Except Stop (Heap × Bool))) = .ok (h', b) ∧ Later h h' ∧ (b = true → h'.len < h.len) := by
          intro h1 d1 n1 l1
          obtain ⟨h2, x, e1, e2, e3, e4, e5, e6⟩ := next_zero d1
          rw [d1.str i, e1]
          cases x with
          | none => exact .inl rfl
          | some x =>
            have hpos := e6 (by simp)
            cases x with
            | startArr => exact .inl rfl
            | startObj => exact .inl rfl
            | endArr => exact .inl rfl
            | endObj =>
              exact .inr ⟨_, false, rfl, ⟨e4.set i (e4.str i) (fun v hv => e4.cur i v hv), show h2.len ≤ _ by omega, show h.n ≤ h2.n by omega⟩, fun e => by cases e⟩
            | elision =>
              rcases advance_ok f (h := h2.set i { h2.coll i with elided := true }) (i := i) (e4.set i (e4.str i) fun v hv => e4.cur i v hv)
                (show i < h2.n by omega) (show h2.len < f by omega) with r | ⟨h', b, r1, r2, r3⟩
              · exact .inl r
              · have a1 : h'.len ≤ h2.len := r2.len
                have a2 : h2.n ≤ h'.n := r2.n
                have a3 : b = true → h'.len < h2.len := r3
                exact .inr ⟨h', b, r1, ⟨r2.direct, by omega, by omega⟩, fun e => by have := a3 e; omega⟩
            | scalar k =>
              have d3 : (h2.set i { h2.coll i with started := true, key := some k }).Direct := e4.set i (e4.str i) fun v hv => e4.cur i v hv
              obtain ⟨h4, y, g1, g2, g3, g4, g5, g6⟩ := next_zero d3
              have g3' : h4.n = h2.n := g3
              have g5' : h4.len = h2.len - 1 := g5
              have := d3.str i
              simp only [Except.bind, Bind.bind, this, g1]
              cases y with
              | none => exact .inl rfl
              | some y => exact val h4 y g4 (by omega) (by omega)
        by_cases hst : (h.coll i).started = true
        · simp only [hst, if_true]
          cases hc : (h.coll i).cur with
          | none => exact .inl rfl
          | some v =>
            rcases discard_cur hd hc with r | ⟨h1, r1, r2, r3, r4⟩
            · exact .inl (by simp only [r]; rfl)
            · simp only [r1]
              exact main h1 r2 r3 r4
        · simp only [hst, Bool.false_eq_true, if_false]
          exact main h hd rfl (Nat.le_refl _)
    | arr =>
      simp only
      by_cases hdone : (h.coll i).done = true
      · rw [if_pos hdone]
        exact .inr ⟨h, false, rfl, .rfl' hd, fun e => by cases e⟩
      · rw [if_neg hdone]
        have main : ∀ h1 : Heap, h1.Direct → h1.n = h.n → h1.len ≤ h.len → (do
            let (h, x) ← h1.next (h1.coll i).stream
            match x with
            | none => .error .panic
            | some .endArr => .ok (h.set i { h.coll i with done := true }, false)
            | some .elision => advance f (h.set i { h.coll i with elided := true }) i
            | some x =>
              let h := h.set i { h.coll i with started := true }
              let (h, v) ← h.streamedValue x (h.coll i).stream
              (.ok (h.set i { h.coll i with cur := some v }, true) : Except Stop (Heap × Bool))) = .error .panic ∨ ∃ h' b, (do
            let (h, x) ← h1.next (h1.coll i).stream
            match x with
            | none => .error .panic
            | some .endArr => .ok (h.set i { h.coll i with done := true }, false)
            | some .elision => advance f (h.set i { h.coll i with elided := true }) i
            | some x =>
              let h := h.set i { h.coll i with started := true }
              let (h, v) ← h.streamedValue x (h.coll i).stream
              (.ok (h.set i { h.coll i with cur := some v }, true) : Except Stop (Heap × Bool))) = .ok (h', b) ∧ Later h h' ∧ (b = true → h'.len < h.len) := by
          intro h1 d1 n1 l1
          obtain ⟨h2, x, e1, e2, e3, e4, e5, e6⟩ := next_zero d1
          rw [d1.str i, e1]
          cases x with
          | none => exact .inl rfl
          | some x =>
            have hpos := e6 (by simp)
            have d3 : (h2.set i { h2.coll i with started := true }).Direct := e4.set i (e4.str i) fun v hv => e4.cur i v hv
            cases x with
            | endArr =>
              exact .inr ⟨_, false, rfl, ⟨e4.set i (e4.str i) (fun v hv => e4.cur i v hv), show h2.len ≤ _ by omega, show h.n ≤ h2.n by omega⟩, fun e => by cases e⟩
            | elision =>
              rcases advance_ok f (h := h2.set i { h2.coll i with elided := true }) (i := i) (e4.set i (e4.str i) fun v hv => e4.cur i v hv)
                (show i < h2.n by omega) (show h2.len < f by omega) with r | ⟨h', b, r1, r2, r3⟩
              · exact .inl r
              · have a1 : h'.len ≤ h2.len := r2.len
                have a2 : h2.n ≤ h'.n := r2.n
                have a3 : b = true → h'.len < h2.len := r3
                exact .inr ⟨h', b, r1, ⟨r2.direct, by omega, by omega⟩, fun e => by have := a3 e; omega⟩
            | startArr => exact val _ .startArr d3 (show h2.n = _ by omega) (show h2.len < _ by omega)
            | startObj => exact val _ .startObj d3 (show h2.n = _ by omega) (show h2.len < _ by omega)
            | endObj => exact val _ .endObj d3 (show h2.n = _ by omega) (show h2.len < _ by omega)
            | scalar k => exact val _ (.scalar k) d3 (show h2.n = _ by omega) (show h2.len < _ by omega)
        by_cases hst : (h.coll i).started = true
        · simp only [hst, if_true]
          cases hc : (h.coll i).cur with
          | none => exact .inl rfl
          | some v =>
            rcases discard_cur hd hc with r | ⟨h1, r1, r2, r3, r4⟩
            · exact .inl (by simp only [r]; rfl)
            · simp only [r1]
              exact main h1 r2 r3 r4
        · simp only [hst, Bool.false_eq_true, if_false]
          exact main h hd rfl (Nat.le_refl _)


theorem copy_ok {h : Heap} (hd : h.Direct) (v : Val) : h.copy v = .error .panic ∨ ∃ h' l, h.copy v = .ok (h', l) ∧ Later h h' := by
  cases v with
  | scalar s => exact .inr ⟨h, _, rfl, .rfl' hd⟩
  | coll k i =>
    simp only [copy]
    by_cases hst : (h.coll i).started = true
    · rw [if_pos hst]
      exact .inl rfl
    · rw [if_neg hst]
      have d2 : (h.set i { h.coll i with done := true }).Direct := hd.set i (hd.str i) fun v hv => hd.cur i v hv
      have key : ∀ {h : Heap} (t : Nat), h.Direct → t = 0 → ∃ h' l, readToEnd (h.avail t + 1) h t 0 = .ok (h', l) ∧ h'.Direct ∧ h'.n = h.n ∧ h'.len ≤ h.len := by
        rintro h _ hd rfl
        exact readToEnd_ok _ 0 hd (Nat.lt_succ_of_le (avail_len _ _))
      obtain ⟨h2, l, r1, r2, r3, r4⟩ := key _ d2 (hd.str i)
      rw [r1]
      exact .inr ⟨h2, _, rfl, r2, r4, Nat.le_of_eq r3.symm⟩

end Heap

open Heap

variable {ε α β : Type}

/-- The program ends, from `h`: regularly, in a later state and with a value as said, or with a panic. -/
def Ends (p : IProg ε α) (h : Heap) (Q : Heap → α → Prop) : Prop :=
  match (p.run Heap.mach h).2 with
  | .ok (h', a) => Later h h' ∧ Q h' a
  | .error e => e = .panic

theorem Ends.ret {a : α} {h : Heap} {Q : Heap → α → Prop} (hd : h.Direct) (hq : Q h a) : Ends (.ret a : IProg ε α) h Q := ⟨.rfl' hd, hq⟩

theorem Ends.panic {h : Heap} {Q : Heap → α → Prop} : Ends (.fail .panic : IProg ε α) h Q := rfl

theorem Ends.bind {p : IProg ε α} {f : α → IProg ε β} {h : Heap} {Q : Heap → α → Prop} {R : Heap → β → Prop} (hp : Ends p h Q)
    (hf : ∀ h' a, Later h h' → Q h' a → Ends (f a) h' R) : Ends (p.bind f) h R := by
  unfold Ends at hp ⊢
  rw [run_bind, seqRun]
  generalize p.run Heap.mach h = x at hp ⊢
  obtain ⟨o, r⟩ := x
  cases r with
  | error e => exact hp
  | ok x =>
    obtain ⟨h', a⟩ := x
    have := hf h' a hp.1 hp.2
    unfold Ends at this
    simp only
    generalize (f a).run Heap.mach h' = y at this ⊢
    obtain ⟨o2, r2⟩ := y
    cases r2 with
    | error e => exact this
    | ok y => exact ⟨hp.1.trans this.1, this.2⟩

theorem Ends.emit {e : ε} {k : IProg ε α} {h : Heap} {Q : Heap → α → Prop} (hk : Ends k h Q) : Ends (.emit e k) h Q := hk

theorem Ends.putAll {h : Heap} (hd : h.Direct) : ∀ (l : List ε), Ends (putAll l) h fun _ _ => True
  | [] => .ret hd trivial
  | e :: l => .emit (putAll hd l)

theorem Ends.put {e : ε} {h : Heap} (hd : h.Direct) : Ends (put e) h fun _ _ => True := .emit (.ret hd trivial)

theorem Ends.opPanic {o : IOp} {k : o.Res → IProg ε α} {h : Heap} {Q : Heap → α → Prop} (ho : h.step o = .error .panic) : Ends (.op o k) h Q := by
  unfold Ends
  simp only [IProg.run, mach, ho]

theorem Ends.opOk {o : IOp} {k : o.Res → IProg ε α} {h h' : Heap} {x : o.Res} {Q : Heap → α → Prop} (ho : h.step o = .ok (h', x)) (hl : Later h h')
    (hk : Ends (k x) h' Q) : Ends (.op o k) h Q := by
  unfold Ends at hk ⊢
  simp only [IProg.run, mach, ho]
  simp only [mach] at hk
  generalize (k x).run ⟨step⟩ h' = y at hk ⊢
  obtain ⟨o2, r2⟩ := y
  cases r2 with
  | error e => exact hk
  | ok y => exact ⟨hl.trans hk.1, hk.2⟩

theorem Ends.mono {p : IProg ε α} {h : Heap} {Q R : Heap → α → Prop} (hp : Ends p h Q) (hq : ∀ h' a, Later h h' → Q h' a → R h' a) : Ends p h R := by
  unfold Ends at hp ⊢
  generalize p.run Heap.mach h = x at hp ⊢
  obtain ⟨o, r⟩ := x
  cases r with
  | error e => exact hp
  | ok x => exact ⟨hp.1, hq _ _ hp.1 hp.2⟩

theorem Ends.advance {i : Nat} {k : Bool → IProg ε α} {h : Heap} {Q : Heap → α → Prop} (hd : h.Direct) (hi : i < h.n)
    (hk : ∀ h' b, Later h h' → (b = true → h'.len < h.len) → Ends (k b) h' Q) : Ends (.op (.advance i) k) h Q := by
  rcases advance_ok (h.avail (h.coll i).stream + 2) hd hi (by have := avail_len h (h.coll i).stream; omega) with r | ⟨h', b, r1, r2, r3⟩
  · exact .opPanic r
  · exact .opOk (o := .advance i) r1 r2 (hk h' b r2 r3)

theorem Ends.current {i : Nat} {k : Option Scalar × Option Val → IProg ε α} {h : Heap} {Q : Heap → α → Prop} (hd : h.Direct)
    (hk : ∀ key v, (∀ x, v = some x → x.After i h.n) → Ends (k (key, v)) h Q) : Ends (.op (.current i) k) h Q := by
  by_cases hc : (h.coll i).kind ≠ .top ∧ (h.coll i).done = true
  · refine .opPanic (o := .current i) ?_
    simp only [step, Heap.current, if_pos hc]
    rfl
  · refine .opOk (o := .current i) (h' := h) (x := ((h.coll i).key, (h.coll i).cur)) ?_ (.rfl' hd) (hk _ _ fun x hx => hd.cur i x hx)
    simp only [step, Heap.current, if_neg hc]
    rfl

theorem Ends.elided {i : Nat} {k : Bool → IProg ε α} {h : Heap} {Q : Heap → α → Prop} (hd : h.Direct) (hk : ∀ b, Ends (k b) h Q) :
    Ends (.op (.elided i) k) h Q := .opOk (o := .elided i) rfl (.rfl' hd) (hk _)

theorem Ends.forEach {body : β → Option Scalar → Val → IProg ε β} {i n L : Nat} (hin : i < n)
    (hb : ∀ h b key x, h.Direct → n ≤ h.n → h.len < L → x.After i h.n → Ends (body b key x) h fun _ _ => True) :
    ∀ (f : Nat) {h : Heap} (b : β), h.Direct → n ≤ h.n → h.len ≤ L → h.len < f → Ends (Verif.forEach body i f b) h fun _ _ => True
  | 0, h, b, _, _, _, hf => absurd hf (Nat.not_lt_zero _)
  | f + 1, h, b, hd, hn, hl, hf => by
    refine .advance hd (by omega) fun h1 more l1 hlt => ?_
    have := l1.n
    have := l1.len
    cases more with
    | false => exact .ret l1.direct trivial
    | true =>
      have hlt := hlt rfl
      refine .current l1.direct fun key v hv => ?_
      cases v with
      | none => exact .panic
      | some x =>
        refine .bind (hb h1 b key x l1.direct (by omega) (by omega) (hv x rfl)) fun h2 b2 l2 _ => ?_
        have := l2.n
        have := l2.len
        exact forEach hin hb f b2 l2.direct (by omega) (by omega) (by omega)

/-- What is known of a function that writes values: it ends if fewer than `L - 1` tokens are to come (scalars: always). -/
def Writes (L : Nat) (wv : Val → IProg POp Unit) : Prop :=
  ∀ (h : Heap) (x : Val), h.Direct → (∀ k j, x = .coll k j → h.len + 1 < L) → x.After 0 h.n → Ends (wv x) h fun _ _ => True

namespace Enc

theorem ends_writeKey {c : Option Colorizer} {key : Option Scalar} {h : Heap} (hd : h.Direct) : Ends (writeKey c key) h fun _ _ => True := by
  cases key with
  | none => exact .panic
  | some k => exact .putAll hd _

variable {wv : Val → IProg POp Unit} {L : Nat}

theorem ends_writeObject (hw : Writes L wv) (c : Option Colorizer) {i : Nat} {h : Heap} (hd : h.Direct) (hi : i < h.n) (hl : h.len < L) :
    Ends (writeObject c wv L i) h fun _ _ => True := by
  refine .bind (.put hd) fun h1 _ l1 _ => .bind (.forEach (n := h.n) (L := h.len) hi ?_ L true l1.direct l1.n l1.len (by have := l1.len; omega)) fun h2 b l2 _ =>
    .elided l2.direct fun e => .bind (.putAll l2.direct _) fun h3 _ l3 _ => .bind (.putAll l3.direct _) fun h4 _ l4 _ => .put l4.direct
  intro h b key x hd hn hl hx
  exact .bind (.putAll hd _) fun h1 _ l1 _ => .bind (ends_writeKey l1.direct) fun h2 _ l2 _ =>
    .bind (hw h2 x l2.direct (fun _ _ _ => by have := l1.len; have := l2.len; omega) (hx.mono (Nat.zero_le _) (Nat.le_trans l1.n l2.n)))
      fun h3 _ l3 _ => .ret l3.direct trivial

theorem ends_pendingLoop (cfg : EncCfg) {i : Nat} : ∀ (f : Nat) {h : Heap} (l : List (Scalar × Val)) (w : Int), h.Direct → i < h.n → h.len < f →
    (∀ m ∈ l, m.2.After 0 h.n) →
    Ends (pendingLoop cfg i f l w) h fun h' r => (∀ m ∈ r.2, m.2.After 0 h'.n) ∧ (r.2 ≠ l → h'.len < h.len)
  | 0, h, l, w, _, _, hf, _ => absurd hf (Nat.not_lt_zero _)
  | f + 1, h, l, w, hd, hi, hf, hl => by
    refine .advance hd hi fun h1 more l1 hlt => ?_
    have hl1 : ∀ m ∈ l, m.2.After 0 h1.n := fun m hm => (hl m hm).mono (Nat.le_refl _) l1.n
    cases more with
    | false => exact .ret l1.direct ⟨hl1, fun e => absurd rfl e⟩
    | true =>
      have hlt := hlt rfl
      have := l1.n
      refine .current l1.direct fun key v hv => ?_
      have app : ∀ k x, v = some x → ∀ m ∈ l ++ [(k, x)], m.2.After 0 h1.n := by
        intro k x e m hm
        rcases List.mem_append.1 hm with hm | hm
        · exact hl1 m hm
        · rw [List.mem_singleton.1 hm]
          exact (hv x e).mono (Nat.zero_le _) (Nat.le_refl _)
      match key, v, app with
      | none, _, _ => exact .panic
      | some k, none, _ => exact .panic
      | some k, some (.coll ck j), app => exact .ret l1.direct ⟨app k _ rfl, fun _ => hlt⟩
      | some k, some (.scalar s), app =>
        show Ends (if _ then _ else _) _ _
        split
        · exact (ends_pendingLoop cfg f _ _ l1.direct (by omega) (by omega) (app k _ rfl)).mono fun h' r l' hq => ⟨hq.1, fun _ => by have := l'.len; omega⟩
        · exact .ret l1.direct ⟨app k _ rfl, fun _ => hlt⟩

theorem ends_writePending (hw : Writes L wv) (c : Option Colorizer) (sep : List POp) : ∀ (l : List (Scalar × Val)) (first : Bool) {h : Heap}, h.Direct →
    (l ≠ [] → h.len + 1 < L) → (∀ m ∈ l, m.2.After 0 h.n) → Ends (writePending c wv sep first l) h fun _ _ => True
  | [], _, h, hd, _, _ => .ret hd trivial
  | (k, x) :: l, first, h, hd, hl, hm => by
    have hl := hl (by simp)
    refine .bind (.putAll hd _) fun h1 _ l1 _ => .bind (hw h1 x l1.direct (fun _ _ _ => by have := l1.len; omega)
      ((hm (k, x) (by simp)).mono (Nat.le_refl _) l1.n)) fun h2 _ l2 _ => ?_
    exact ends_writePending hw c sep l false l2.direct (fun _ => by have := l1.len; have := l2.len; omega)
      fun m h => (hm m (by simp [h])).mono (Nat.le_refl _) (Nat.le_trans l1.n l2.n)

theorem ends_writeObjectCompact (hw : Writes L wv) (cfg : EncCfg) {i : Nat} {h : Heap} (hd : h.Direct) (hi : i < h.n) (hl : h.len < L) :
    Ends (writeObjectCompact cfg wv L i) h fun _ _ => True := by
  refine .bind (ends_pendingLoop cfg L [] (-2) hd hi hl (by simp)) fun h1 p l1 hp => ?_
  obtain ⟨compact, pending⟩ := p
  obtain ⟨hp, hq⟩ := hp
  refine .bind (.put l1.direct) fun h2 _ l2 _ => .bind (Q := fun _ _ => True) ?_ fun h3 _ l3 _ => .put l3.direct
  have hlen : pending ≠ [] → h2.len + 1 < L := fun e => by have := hq e; have := l2.len; omega
  have hp2 : ∀ m ∈ pending, m.2.After 0 h2.n := fun m hm => (hp m hm).mono (Nat.le_refl _) l2.n
  split
  · exact .bind (ends_writePending hw _ _ _ _ l2.direct hlen hp2) fun h3 _ l3 _ => .elided l3.direct fun e => .putAll l3.direct _
  · refine .bind (.put l2.direct) fun h3 _ l3 _ => .bind (ends_writePending hw _ _ _ _ l3.direct (fun e => by have := hlen e; have := l3.len; omega)
      fun m hm => (hp2 m hm).mono (Nat.le_refl _) l3.n) fun h4 _ l4 _ => ?_
    have hi4 : i < h4.n := by have := l1.n; have := l2.n; have := l3.n; have := l4.n; omega
    have hlen4 : h4.len < L := by have := l1.len; have := l2.len; have := l3.len; have := l4.len; omega
    refine .bind (.forEach (n := h4.n) (L := h4.len) hi4 ?_ L () l4.direct (Nat.le_refl _) (Nat.le_refl _) hlen4) fun h5 _ l5 _ =>
      .elided l5.direct fun e => .bind (.putAll l5.direct _) fun h6 _ l6 _ => .put l6.direct
    intro h b key x hd hn hl hx
    exact .bind (.putAll hd _) fun h1 _ l1 _ => .bind (ends_writeKey l1.direct) fun h2 _ l2 _ =>
      .bind (hw h2 x l2.direct (fun _ _ _ => by have := l1.len; have := l2.len; omega) (hx.mono (Nat.zero_le _) (Nat.le_trans l1.n l2.n)))
        fun h3 _ l3 _ => .ret l3.direct trivial

theorem ends_writeArray (hw : Writes L wv) {i : Nat} {h : Heap} (hd : h.Direct) (hi : i < h.n) (hl : h.len < L) :
    Ends (writeArray wv L i) h fun _ _ => True := by
  refine .bind (.put hd) fun h1 _ l1 _ => .bind (.forEach (n := h.n) (L := h.len) hi ?_ L true l1.direct l1.n l1.len (by have := l1.len; omega)) fun h2 b l2 _ =>
    .elided l2.direct fun e => .bind (.putAll l2.direct _) fun h3 _ l3 _ => .bind (.putAll l3.direct _) fun h4 _ l4 _ => .put l4.direct
  intro h b key x hd hn hl hx
  exact .bind (.putAll hd _) fun h1 _ l1 _ =>
    .bind (hw h1 x l1.direct (fun _ _ _ => by have := l1.len; omega) (hx.mono (Nat.zero_le _) l1.n)) fun h3 _ l3 _ => .ret l3.direct trivial

theorem ends_writeItems (hw : Writes L wv) : ∀ (l : List Scalar) (first : Bool) {h : Heap}, h.Direct → Ends (writeItems wv first l) h fun _ _ => True
  | [], _, h, hd => .ret hd trivial
  | s :: l, first, h, hd =>
    .bind (.putAll hd _) fun h1 _ l1 _ => .bind (hw h1 (.scalar s) l1.direct (fun _ _ e => by cases e) trivial) fun h2 _ l2 _ =>
      ends_writeItems hw l false l2.direct

theorem ends_arrayCompactStep (hw : Writes L wv) (cfg : EncCfg) (st : ACState) {x : Val} {h : Heap} (hd : h.Direct) (hl : h.len + 1 < L) (hx : x.After 0 h.n) :
    Ends (arrayCompactStep cfg wv st x) h fun _ _ => True := by
  have wr : ∀ (h' : Heap), Later h h' → ∀ w : ACState, Ends ((wv x).bind fun _ => .ret w) h' fun _ _ => True := fun h' l' w =>
    .bind (hw h' x l'.direct (fun _ _ _ => by have := l'.len; omega) (hx.mono (Nat.le_refl _) l'.n)) fun h2 _ l2 _ => .ret l2.direct trivial
  unfold arrayCompactStep
  cases x with
  | scalar s =>
    simp only
    split
    · exact .ret hd trivial
    · refine .bind (.putAll hd _) fun h1 _ l1 _ => ?_
      split
      · exact wr h1 l1 _
      · refine .bind (ends_writeItems hw _ _ l1.direct) fun h2 _ l2 _ => ?_
        split
        · exact .ret l2.direct trivial
        · exact .bind (.putAll l2.direct _) fun h3 _ l3 _ => wr h3 ((l1.trans l2).trans l3) _
  | coll k j =>
    refine .bind (.putAll hd _) fun h1 _ l1 _ => ?_
    split
    · exact wr h1 l1 _
    · exact .bind (ends_writeItems hw _ _ l1.direct) fun h2 _ l2 _ =>
        .bind (.putAll l2.direct _) fun h3 _ l3 _ => wr h3 ((l1.trans l2).trans l3) _

theorem ends_writeArrayCompact (hw : Writes L wv) (cfg : EncCfg) {i : Nat} {h : Heap} (hd : h.Direct) (hi : i < h.n) (hl : h.len < L) :
    Ends (writeArrayCompact cfg wv L i) h fun _ _ => True := by
  refine .bind (.put hd) fun h1 _ l1 _ => .bind (.forEach (n := h.n) (L := h.len) hi ?_ L _ l1.direct l1.n l1.len (by have := l1.len; omega)) fun h2 st l2 _ =>
    .bind (Q := fun _ _ => True) ?_ fun h3 _ l3 _ =>
    .elided l3.direct fun e => .bind (.putAll l3.direct _) fun h4 _ l4 _ => .bind (.putAll l4.direct _) fun h5 _ l5 _ => .put l5.direct
  · intro h b key x hd hn hl hx
    exact ends_arrayCompactStep hw cfg b hd (by omega) (hx.mono (Nat.zero_le _) (Nat.le_refl _))
  · split
    · exact .ret l2.direct trivial
    · exact .bind (.putAll l2.direct _) fun h3 _ l3 _ => ends_writeItems hw _ _ l3.direct

theorem ends_writeValue (cfg : EncCfg) : ∀ L, 0 < L → Writes L (writeValue cfg L)
  | 0, h => absurd h (Nat.lt_irrefl _)
  | f + 1, _ => by
    intro h x hd hl hx
    cases x with
    | scalar s => exact .putAll hd _
    | coll k j =>
      have hl := hl k j rfl
      have hw := ends_writeValue cfg f (by omega)
      cases k with
      | top => exact .panic
      | obj =>
        simp only [writeValue]
        split
        · exact ends_writeObjectCompact hw cfg hd hx.2 (by omega)
        · exact ends_writeObject hw _ hd hx.2 (by omega)
      | arr =>
        simp only [writeValue]
        split
        · exact ends_writeArrayCompact hw cfg hd hx.2 (by omega)
        · exact ends_writeArray hw hd hx.2 (by omega)

theorem ends_consume (cfg : EncCfg) (ts : List Token) : Ends (consume cfg (ts.length + 1)) (Heap.init ts) fun _ _ => True := by
  refine .forEach (n := 1) (L := ts.length) Nat.one_pos ?_ _ () (direct_init ts) (Nat.le_refl _) (Nat.le_refl _) (Nat.lt_succ_self _)
  intro h b key x hd hn hl hx
  exact .bind (ends_writeValue cfg _ (Nat.succ_pos _) h x hd (fun _ _ _ => by omega) hx) fun h1 _ l1 _ => .put l1.direct

end Enc

namespace JEnc

theorem ends_printSuccinct {c : Option Colorizer} {k : Scalar} {h : Heap} (hd : h.Direct) : Ends (printSuccinct c k) h fun _ _ => True := by
  unfold printSuccinct
  repeat' split
  all_goals first | exact .panic | exact .putAll hd _ | exact .put hd

theorem ends_writeElems (cfg : JEncCfg) : ∀ (l : List Scalar) {h : Heap}, h.Direct → Ends (writeElems cfg l) h fun _ _ => True
  | [], h, hd => .ret hd trivial
  | k :: l, h, hd => by
    refine .bind (Q := fun _ _ => True) ?_ fun h1 _ l1 _ => ends_writeElems cfg l l1.direct
    unfold writeElem
    split
    · exact .bind (.put hd) fun h1 _ l1 _ => ends_printSuccinct l1.direct
    · exact .bind (.put hd) fun h1 _ l1 _ => .bind (.putAll l1.direct _) fun h2 _ l2 _ => .put l2.direct

theorem ends_writePath (cfg : JEncCfg) (path : List Scalar) {h : Heap} (hd : h.Direct) : Ends (writePath cfg path) h fun _ _ => True :=
  .bind (.put hd) fun h1 _ l1 _ => .bind (ends_writeElems cfg path l1.direct) fun h2 _ l2 _ => .put l2.direct

theorem ends_writeRest (cfg : JEncCfg) (path : List Scalar) (a b : Bytes) (i n : Nat) {h : Heap} (hd : h.Direct) :
    Ends (writeRest cfg path a b i n) h fun _ _ => True := by
  refine .elided hd fun e => ?_
  split
  · exact .bind (ends_writePath cfg path hd) fun h1 _ l1 _ => .bind (.put l1.direct) fun h2 _ l2 _ => .put l2.direct
  · exact .ret hd trivial

theorem ends_writeValue (cfg : JEncCfg) : ∀ L, 0 < L → ∀ path, Writes L (writeValue cfg L path)
  | 0, h, _ => absurd h (Nat.lt_irrefl _)
  | f + 1, _, path => by
    intro h x hd hl hx
    cases x with
    | scalar s =>
      exact .bind (ends_writePath cfg path hd) fun h1 _ l1 _ => .bind (.putAll l1.direct _) fun h2 _ l2 _ => .put l2.direct
    | coll k j =>
      have hl := hl k j rfl
      have hw := ends_writeValue cfg f (by omega)
      cases k with
      | top => exact .panic
      | obj =>
        refine .bind (.forEach (n := h.n) (L := h.len) hx.2 ?_ f 0 hd (Nat.le_refl _) (Nat.le_refl _) (by omega)) fun h1 n l1 _ => ends_writeRest cfg path _ _ _ _ l1.direct
        intro h b key x hd hn hl hx
        cases key with
        | none => exact .panic
        | some key => exact .bind (hw _ h x hd (fun _ _ _ => by omega) (hx.mono (Nat.zero_le _) (Nat.le_refl _))) fun h1 _ l1 _ => .ret l1.direct trivial
      | arr =>
        refine .bind (.forEach (n := h.n) (L := h.len) hx.2 ?_ f 0 hd (Nat.le_refl _) (Nat.le_refl _) (by omega)) fun h1 n l1 _ => ends_writeRest cfg path _ _ _ _ l1.direct
        intro h b key x hd hn hl hx
        exact .bind (hw _ h x hd (fun _ _ _ => by omega) (hx.mono (Nat.zero_le _) (Nat.le_refl _))) fun h1 _ l1 _ => .ret l1.direct trivial

theorem ends_consume (cfg : JEncCfg) (ts : List Token) : Ends (consume cfg (ts.length + 1)) (Heap.init ts) fun _ _ => True := by
  refine .forEach (n := 1) (L := ts.length) Nat.one_pos ?_ _ () (direct_init ts) (Nat.le_refl _) (Nat.le_refl _) (Nat.lt_succ_self _)
  intro h b key x hd hn hl hx
  exact .bind (ends_writeValue cfg _ (Nat.succ_pos _) [] h x hd (fun _ _ _ => by omega) hx) fun h1 _ l1 _ => .put l1.direct

end JEnc

theorem ends_copyOut {x : Val} {h : Heap} (hd : h.Direct) : Ends (copyOut x) h fun _ _ => True := by
  rcases copy_ok hd x with r | ⟨h', l, r1, r2⟩
  · exact .opPanic (o := .copy x) r
  · exact .opOk (o := .copy x) r1 r2 (.putAll r2.direct _)

theorem ends_explodeArray {x : Val} {f : Nat} {h : Heap} (hd : h.Direct) (hx : x.After 0 h.n) (hf : h.len < f) : Ends (explodeArray f x) h fun _ _ => True := by
  unfold explodeArray
  split
  · exact .forEach (n := h.n) (L := h.len) hx.2 (fun h' b key x hd hn hl hx => ends_copyOut hd) f () hd (Nat.le_refl _) (Nat.le_refl _) hf
  · exact ends_copyOut hd

theorem ends_split (ts : List Token) : Ends (transformAll (explodeArray (ts.length + 1)) (ts.length + 1)) (Heap.init ts) fun _ _ => True := by
  refine .forEach (n := 1) (L := ts.length) Nat.one_pos ?_ _ () (direct_init ts) (Nat.le_refl _) (Nat.le_refl _) (Nat.lt_succ_self _)
  intro h b key x hd hn hl hx
  exact ends_explodeArray hd hx (by omega)

end Verif
