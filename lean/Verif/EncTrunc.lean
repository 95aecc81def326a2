import Verif.EncTotal
import Verif.EncFuel

/-!
# Encoders on tokens that break off

What an encoder writes for tokens is a prefix of what it writes for the same tokens with others behind them.
-/

set_option linter.unusedSimpArgs false
set_option linter.unusedVariables false

namespace Verif
open IProg

namespace Heap

/-- The same state with further tokens to come. -/
def more (b : List Token) (h : Heap) : Heap := { h with st := { h.st with src := h.st.src ++ b } }

variable {b : List Token}

theorem more_set (h : Heap) (i : Nat) (c : Coll) : more b (h.set i c) = (more b h).set i c := rfl
theorem more_coll (h : Heap) (i : Nat) : (more b h).coll i = h.coll i := rfl
theorem more_n (h : Heap) : (more b h).n = h.n := rfl
theorem more_avail (h : Heap) (t : Nat) : h.avail t ≤ (more b h).avail t := by
  have e : ((more b h).st.pool ((more b h).st.curs t).1).window = (h.st.pool (h.st.curs t).1).window := by
    show ((if h.st.onChan (h.st.curs t).1 then { h.st.pools (h.st.curs t).1 with stream := h.st.src ++ b } else h.st.pools (h.st.curs t).1) : Pool).window =
      ((if h.st.onChan (h.st.curs t).1 then { h.st.pools (h.st.curs t).1 with stream := h.st.src } else h.st.pools (h.st.curs t).1) : Pool).window
    cases h.st.onChan (h.st.curs t).1 <;> rfl
  have e2 : (more b h).st.src.length = h.st.src.length + b.length := List.length_append
  simp only [avail, e, e2]
  omega

theorem next_more {h h' : Heap} {x : Token} (e : h.next 0 = .ok (h', some x)) : (more b h).next 0 = .ok (more b h', some x) := by
  obtain ⟨st, coll, n, bad⟩ := h
  obtain ⟨src, pools, onChan, np, curs, nt⟩ := st
  cases src with
  | nil => cases e
  | cons y src => cases e; rfl

theorem next_none {h h' : Heap} (e : h.next 0 = .ok (h', none)) : h' = h ∧ h.st.src = [] := by
  obtain ⟨st, coll, n, bad⟩ := h
  obtain ⟨src, pools, onChan, np, curs, nt⟩ := st
  cases src with
  | nil => cases e; exact ⟨rfl, rfl⟩
  | cons y src => cases e

theorem next_dry {h : Heap} (e : h.st.src = []) : h.next 0 = .ok (h, none) := by
  obtain ⟨st, coll, n, bad⟩ := h
  obtain ⟨src, pools, onChan, np, curs, nt⟩ := st
  cases e
  rfl

theorem streamedValue_more {h h' : Heap} {x : Token} {t : Nat} {v : Val} (e : h.streamedValue x t = .ok (h', v)) :
    (more b h).streamedValue x t = .ok (more b h', v) := by
  cases x <;> first | (cases e; rfl) | cases e

theorem readToEnd_more : ∀ {f g : Nat} {h h' : Heap} {d : Int} {l : List Token}, f ≤ g → readToEnd f h 0 d = .ok (h', l) →
    readToEnd g (more b h) 0 d = .ok (more b h', l) ∨ h'.st.src = []
  | 0, _, _, _, _, _, _, e => by cases e
  | f + 1, 0, _, _, _, _, hfg, _ => absurd hfg (by omega)
  | f + 1, g + 1, h, h', d, l, hfg, e => by
    simp only [readToEnd, Bind.bind, Except.bind] at e ⊢
    cases hn : h.next 0 with
    | error s => rw [hn] at e; cases e
    | ok r =>
      obtain ⟨h1, x⟩ := r
      rw [hn] at e
      cases x with
      | none =>
        obtain ⟨rfl, hs⟩ := next_none hn
        cases e
        exact .inr hs
      | some x =>
        rw [next_more hn]
        simp only at e ⊢
        split at e
        · rename_i hd
          cases e
          rw [if_pos hd]
          exact .inl rfl
        · rename_i hd
          rw [if_neg hd]
          cases hr : readToEnd f h1 0 (depthAfter d x) with
          | error s => rw [hr] at e; cases e
          | ok r =>
            obtain ⟨h2, l2⟩ := r
            rw [hr] at e
            cases e
            rcases readToEnd_more (g := g) (by omega) hr with h3 | h3
            · rw [h3]
              exact .inl rfl
            · exact .inr h3

theorem readToEnd_dry {f : Nat} {h h' : Heap} {d : Int} {l : List Token} (hs : h.st.src = []) (e : readToEnd f h 0 d = .ok (h', l)) : h'.st.src = [] := by
  cases f with
  | zero => cases e
  | succ f =>
    simp only [readToEnd, Bind.bind, Except.bind, next_dry hs] at e
    cases e
    exact hs

/-- There are no clones, and only the iterator itself is of the kind `top`. -/
structure Plain (h : Heap) : Prop where
  str : ∀ i, (h.coll i).stream = 0
  kind : ∀ i, 0 < i → i < h.n → (h.coll i).kind ≠ .top

theorem plain_init (ts : List Token) : (init ts).Plain := ⟨fun _ => rfl, fun i h1 h2 => absurd (show i < 1 from h2) (by omega)⟩

theorem Plain.set {h : Heap} (hp : h.Plain) (i : Nat) {c : Coll} (hs : c.stream = 0) (hk : c.kind = (h.coll i).kind) : (h.set i c).Plain := by
  refine ⟨fun j => ?_, fun j h1 h2 => ?_⟩
  · show (if j = i then c else h.coll j).stream = 0
    split
    · exact hs
    · exact hp.str j
  · show (if j = i then c else h.coll j).kind ≠ _
    split
    · rename_i e
      subst e
      rw [hk]
      exact hp.kind j h1 h2
    · exact hp.kind j h1 h2

theorem Plain.alloc {h : Heap} (hp : h.Plain) {c : Coll} (hs : c.stream = 0) (hk : c.kind ≠ .top) : (h.alloc c).1.Plain := by
  refine ⟨fun j => ?_, fun j h1 h2 => ?_⟩
  · show (if j = h.n then c else h.coll j).stream = 0
    split
    · exact hs
    · exact hp.str j
  · show (if j = h.n then c else h.coll j).kind ≠ _
    split
    · exact hk
    · exact hp.kind j h1 (by have : j < h.n + 1 := h2; omega)

theorem Plain.st {h : Heap} (hp : h.Plain) (s : Streams) : ({ h with st := s } : Heap).Plain := ⟨hp.str, hp.kind⟩

theorem next_plain {h h' : Heap} {x : Option Token} (hp : h.Plain) {t : Nat} (e : h.next t = .ok (h', x)) : h'.Plain ∧ h'.n = h.n := by
  unfold next at e
  split at e
  · cases e
  · cases e
    exact ⟨hp.st _, rfl⟩

theorem readToEnd_plain : ∀ {f : Nat} {h h' : Heap} {t : Nat} {d : Int} {l : List Token}, h.Plain → readToEnd f h t d = .ok (h', l) → h'.Plain ∧ h'.n = h.n
  | 0, _, _, _, _, _, _, e => by cases e
  | f + 1, h, h', t, d, l, hp, e => by
    simp only [readToEnd, Bind.bind, Except.bind] at e
    cases hn : h.next t with
    | error s => rw [hn] at e; cases e
    | ok r =>
      obtain ⟨h1, x⟩ := r
      rw [hn] at e
      have p1 := next_plain hp hn
      cases x with
      | none => cases e; exact p1
      | some x =>
        simp only at e
        split at e
        · cases e; exact p1
        · cases hr : readToEnd f h1 t (depthAfter d x) with
          | error s => rw [hr] at e; cases e
          | ok r =>
            obtain ⟨h2, l2⟩ := r
            rw [hr] at e
            cases e
            have p2 := readToEnd_plain p1.1 hr
            exact ⟨p2.1, p2.2.trans p1.2⟩

theorem streamedValue_plain {h h' : Heap} {x : Token} {v : Val} (hp : h.Plain) (e : h.streamedValue x 0 = .ok (h', v)) : h'.Plain := by
  cases x with
  | startArr => cases e; exact hp.alloc rfl (by simp)
  | startObj => cases e; exact hp.alloc rfl (by simp)
  | scalar s => cases e; exact hp
  | endArr => cases e
  | endObj => cases e
  | elision => cases e

theorem discard_more : ∀ {f : Nat} {h h' : Heap} {v : Val}, h.Plain → discard f h v = .ok h' →
    (discard f (more b h) v = .ok (more b h') ∨ h'.st.src = []) ∧ h'.Plain ∧ h'.n = h.n
  | 0, _, _, _, _, e => by cases e
  | f + 1, h, h', .scalar s, hp, e => by cases e; exact ⟨.inl rfl, hp, rfl⟩
  | f + 1, h, h', .coll k j, hp, e => by
    simp only [discard] at e ⊢
    rw [more_coll]
    by_cases hdone : (h.coll j).done = true
    · rw [if_pos hdone] at e ⊢
      cases e
      exact ⟨.inl rfl, hp, rfl⟩
    · rw [if_neg hdone] at e ⊢
      have fin : ∀ h1 : Heap, h1.Plain → (do
          let (h, _) ← readToEnd ((h1.set j { h1.coll j with done := true }).avail (h1.coll j).stream + 1) (h1.set j { h1.coll j with done := true })
            (h1.coll j).stream 0
          (Except.ok h : Except Stop Heap)) = .ok h' → ((do
          let (h, _) ← readToEnd (((more b h1).set j { (more b h1).coll j with done := true }).avail ((more b h1).coll j).stream + 1)
            ((more b h1).set j { (more b h1).coll j with done := true }) ((more b h1).coll j).stream 0
          (Except.ok h : Except Stop Heap)) = .ok (more b h') ∨ h'.st.src = []) ∧ (h'.Plain ∧ h'.n = h1.n) ∧ (h1.st.src = [] → h'.st.src = []) := by
        intro h1 p1 e
        rw [more_coll, ← more_set]
        rw [p1.str j] at e ⊢
        have p2 : (h1.set j { h1.coll j with done := true }).Plain := p1.set j (p1.str j) rfl
        have n2 : (h1.set j { h1.coll j with done := true }).n = h1.n := rfl
        have s2 : (h1.set j { h1.coll j with done := true }).st.src = h1.st.src := rfl
        generalize h1.set j { h1.coll j with done := true } = hh at *
        cases hr : readToEnd (hh.avail 0 + 1) hh 0 0 with
        | error s => rw [hr] at e; cases e
        | ok r =>
          obtain ⟨h2, l⟩ := r
          rw [hr] at e
          cases e
          have p3 := readToEnd_plain p2 hr
          refine ⟨?_, ⟨p3.1, p3.2.trans n2⟩, fun hs => readToEnd_dry (s2.trans hs) hr⟩
          rcases readToEnd_more (b := b) (Nat.succ_le_succ (more_avail (b := b) _ 0)) hr with h3 | h3
          · rw [h3]
            exact .inl rfl
          · exact .inr h3
      by_cases hst : (h.coll j).started = true
      · simp only [hst, if_true] at e ⊢
        cases hc : (h.coll j).cur with
        | none => rw [hc] at e; cases e
        | some w =>
          rw [hc] at e
          simp only at e ⊢
          cases hr : discard f h w with
          | error s => rw [hr] at e; cases e
          | ok h1 =>
            rw [hr] at e
            obtain ⟨h3, p3, n3⟩ := discard_more hp hr
            obtain ⟨h4, p4, h5⟩ := fin h1 p3 e
            refine ⟨?_, p4.1, p4.2.trans n3⟩
            rcases h3 with h3 | h3
            · rw [h3]
              exact h4
            · exact .inr (h5 h3)
      · simp only [hst, Bool.false_eq_true, if_false] at e ⊢
        obtain ⟨h4, p4, h5⟩ := fin h hp e
        exact ⟨h4, p4⟩

/-- The current value is set. -/
theorem value_more {h h' : Heap} {x : Token} {i : Nat} {r : Bool} (hp : h.Plain) (e : (do
      let (h, v) ← h.streamedValue x (h.coll i).stream
      (Except.ok (h.set i { h.coll i with cur := some v }, true) : Except Stop (Heap × Bool))) = .ok (h', r)) :
    (do let (h, v) ← (more b h).streamedValue x ((more b h).coll i).stream
        (Except.ok (h.set i { h.coll i with cur := some v }, true) : Except Stop (Heap × Bool))) = .ok (more b h', r) ∧ h'.Plain := by
  rw [more_coll]
  rw [hp.str i] at e ⊢
  cases hr : h.streamedValue x 0 with
  | error s => rw [hr] at e; cases e
  | ok y =>
    obtain ⟨h1, v⟩ := y
    rw [hr] at e
    cases e
    rw [streamedValue_more hr]
    have p1 := streamedValue_plain hp hr
    exact ⟨rfl, p1.set i (p1.str i) rfl⟩

theorem advance_more : ∀ {f g : Nat} {h h' : Heap} {i : Nat} {r : Bool}, f ≤ g → h.Plain → advance f h i = .ok (h', r) →
    i < h.n → (advance g (more b h) i = .ok (more b h', r) ∨ i = 0 ∧ r = false) ∧ h'.Plain
  | 0, _, _, _, _, _, _, _, e, _ => by cases e
  | f + 1, 0, _, _, _, _, hfg, _, _, _ => absurd hfg (by omega)
  | f + 1, g + 1, h, h', i, r, hfg, hp, e, hi => by
    rw [advance] at e ⊢
    rw [more_coll]
    cases hk : (h.coll i).kind with
    | top =>
      have hi0 : i = 0 := Nat.eq_zero_of_not_pos fun h0 => hp.kind i h0 hi hk
      rw [hk] at e
      simp only at e ⊢
      have main : ∀ h1 : Heap, h1.Plain → (do
          let (h, x) ← h1.next (h1.coll i).stream
          match x with
          | none => (.ok (h.set i { h.coll i with cur := none }, false) : Except Stop (Heap × Bool))
          | some x =>
            let (h, v) ← h.streamedValue x (h.coll i).stream
            .ok (h.set i { h.coll i with cur := some v }, true)) = .ok (h', r) → ((do
          let (h, x) ← (more b h1).next ((more b h1).coll i).stream
          match x with
          | none => (.ok (h.set i { h.coll i with cur := none }, false) : Except Stop (Heap × Bool))
          | some x =>
            let (h, v) ← h.streamedValue x (h.coll i).stream
            .ok (h.set i { h.coll i with cur := some v }, true)) = .ok (more b h', r) ∨ r = false) ∧ h'.Plain ∧ (h1.st.src = [] → r = false) := by
        intro h1 p1 e
        rw [more_coll]
        rw [p1.str i] at e ⊢
        cases hn : h1.next 0 with
        | error s => rw [hn] at e; cases e
        | ok y =>
          obtain ⟨h2, x⟩ := y
          rw [hn] at e
          obtain ⟨p2, n2⟩ := next_plain p1 hn
          cases x with
          | none => cases e; exact ⟨.inr rfl, p2.set i (p2.str i) rfl, fun _ => rfl⟩
          | some x =>
            rw [next_more hn]
            obtain ⟨q, p3⟩ := value_more (b := b) p2 e
            refine ⟨.inl q, p3, fun hs => ?_⟩
            rw [next_dry hs] at hn
            cases hn
      cases hc : (h.coll i).cur with
      | none =>
        rw [hc] at e
        obtain ⟨q, p2, q2⟩ := main h hp e
        exact ⟨q.imp id fun q => ⟨hi0, q⟩, p2⟩
      | some v =>
        rw [hc] at e
        simp only at e ⊢
        cases hr : discard h.n h v with
        | error s => rw [hr] at e; cases e
        | ok h1 =>
          rw [hr] at e
          obtain ⟨q, p1, n1⟩ := discard_more (b := b) hp hr
          obtain ⟨q1, p2, q2⟩ := main h1 p1 e
          refine ⟨?_, p2⟩
          rcases q with q | q
          · rw [more_n, q]
            exact q1.imp id fun q => ⟨hi0, q⟩
          · exact .inr ⟨hi0, q2 q⟩
    | obj =>
      rw [hk] at e
      simp only at e ⊢
      by_cases hdone : (h.coll i).done = true
      · rw [if_pos hdone] at e ⊢
        cases e
        exact ⟨.inl rfl, hp⟩
      · rw [if_neg hdone] at e ⊢
        have main : ∀ h1 : Heap, h1.Plain → h1.n = h.n → (do
            let (h, x) ← h1.next (h1.coll i).stream
            match x with
            | none => .error .panic
            | some (.scalar k) =>
              let h := h.set i { h.coll i with started := true, key := some k }
              let (h, y) ← h.next (h.coll i).stream
              match y with
              | none => .error .panic
              | some y =>
                let (h, v) ← h.streamedValue y (h.coll i).stream
                .ok (h.set i { h.coll i with cur := some v }, true)
            | some .endObj => .ok (h.set i { h.coll i with done := true }, false)
            | some .elision => advance f (h.set i { h.coll i with elided := true }) i
            | some _ => (.error .panic : Except Stop (Heap × Bool))) = .ok (h', r) → (((do
            let (h, x) ← (more b h1).next ((more b h1).coll i).stream
            match x with
            | none => .error .panic
            | some (.scalar k) =>
              let h := h.set i { h.coll i with started := true, key := some k }
              let (h, y) ← h.next (h.coll i).stream
              match y with
              | none => .error .panic
              | some y =>
                let (h, v) ← h.streamedValue y (h.coll i).stream
                .ok (h.set i { h.coll i with cur := some v }, true)
            | some .endObj => .ok (h.set i { h.coll i with done := true }, false)
            | some .elision => advance g (h.set i { h.coll i with elided := true }) i
            | some _ => (.error .panic : Except Stop (Heap × Bool))) = .ok (more b h', r) ∨ i = 0 ∧ r = false) ∧ h'.Plain) ∧ h1.st.src ≠ [] := by
          intro h1 p1 n1 e
          rw [more_coll]
          rw [p1.str i] at e ⊢
          cases hn : h1.next 0 with
          | error s => rw [hn] at e; cases e
          | ok y =>
            obtain ⟨h2, x⟩ := y
            rw [hn] at e
            obtain ⟨p2, n2⟩ := next_plain p1 hn
            cases x with
            | none => cases e
            | some x =>
              refine ⟨?_, fun hs => by rw [next_dry hs] at hn; cases hn⟩
              rw [next_more hn]
              cases x with
              | startArr => cases e
              | startObj => cases e
              | endArr => cases e
              | endObj => cases e; exact ⟨.inl rfl, p2.set i (p2.str i) rfl⟩
              | elision =>
                have p3 : (h2.set i { h2.coll i with elided := true }).Plain := p2.set i (p2.str i) rfl
                have e' : advance f (h2.set i { h2.coll i with elided := true }) i = .ok (h', r) := e
                exact advance_more (g := g) (by omega) p3 e' (show i < h2.n by omega)
              | scalar k =>
                have p3 : (h2.set i { h2.coll i with started := true, key := some k }).Plain := p2.set i (p2.str i) rfl
                simp only [Bind.bind, Except.bind] at e ⊢
                rw [p3.str i] at e
                cases hn2 : (h2.set i { h2.coll i with started := true, key := some k }).next 0 with
                | error s => rw [hn2] at e; cases e
                | ok y =>
                  obtain ⟨h4, y⟩ := y
                  rw [hn2] at e
                  have p4 := (next_plain p3 hn2).1
                  have hn3 := next_more (b := b) (h' := h4) (x := y.getD .elision) (by rw [hn2]; cases y with | none => cases e | some y => rfl)
                  cases y with
                  | none => cases e
                  | some y =>
                    obtain ⟨q, p5⟩ := value_more (b := b) p4 e
                    refine ⟨.inl ?_, p5⟩
                    rw [more_coll, ← more_set, more_coll, p3.str i, hn3]
                    exact q
        by_cases hst : (h.coll i).started = true
        · simp only [hst, if_true] at e ⊢
          cases hc : (h.coll i).cur with
          | none => rw [hc] at e; cases e
          | some v =>
            rw [hc] at e
            simp only at e ⊢
            cases hr : discard h.n h v with
            | error s => rw [hr] at e; cases e
            | ok h1 =>
              rw [hr] at e
              obtain ⟨q, p1, n1⟩ := discard_more (b := b) hp hr
              obtain ⟨q1, q2⟩ := main h1 p1 n1 e
              rcases q with q | q
              · rw [more_n, q]
                exact q1
              · exact absurd q q2
        · simp only [hst, Bool.false_eq_true, if_false] at e ⊢
          exact (main h hp rfl e).1
    | arr =>
      rw [hk] at e
      simp only at e ⊢
      by_cases hdone : (h.coll i).done = true
      · rw [if_pos hdone] at e ⊢
        cases e
        exact ⟨.inl rfl, hp⟩
      · rw [if_neg hdone] at e ⊢
        have main : ∀ h1 : Heap, h1.Plain → h1.n = h.n → (do
            let (h, x) ← h1.next (h1.coll i).stream
            match x with
            | none => .error .panic
            | some .endArr => .ok (h.set i { h.coll i with done := true }, false)
            | some .elision => advance f (h.set i { h.coll i with elided := true }) i
            | some x =>
              let h := h.set i { h.coll i with started := true }
              let (h, v) ← h.streamedValue x (h.coll i).stream
              (.ok (h.set i { h.coll i with cur := some v }, true) : Except Stop (Heap × Bool))) = .ok (h', r) → (((do
            let (h, x) ← (more b h1).next ((more b h1).coll i).stream
            match x with
            | none => .error .panic
            | some .endArr => .ok (h.set i { h.coll i with done := true }, false)
            | some .elision => advance g (h.set i { h.coll i with elided := true }) i
            | some x =>
              let h := h.set i { h.coll i with started := true }
              let (h, v) ← h.streamedValue x (h.coll i).stream
              (.ok (h.set i { h.coll i with cur := some v }, true) : Except Stop (Heap × Bool))) = .ok (more b h', r) ∨ i = 0 ∧ r = false) ∧
              h'.Plain) ∧ h1.st.src ≠ [] := by
          intro h1 p1 n1 e
          rw [more_coll]
          rw [p1.str i] at e ⊢
          cases hn : h1.next 0 with
          | error s => rw [hn] at e; cases e
          | ok y =>
            obtain ⟨h2, x⟩ := y
            rw [hn] at e
            obtain ⟨p2, n2⟩ := next_plain p1 hn
            cases x with
            | none => cases e
            | some x =>
              refine ⟨?_, fun hs => by rw [next_dry hs] at hn; cases hn⟩
              rw [next_more hn]
              have p3 : (h2.set i { h2.coll i with started := true }).Plain := p2.set i (p2.str i) rfl
              cases x with
              | endArr => cases e; exact ⟨.inl rfl, p2.set i (p2.str i) rfl⟩
              | elision =>
                have p3 : (h2.set i { h2.coll i with elided := true }).Plain := p2.set i (p2.str i) rfl
                have e' : advance f (h2.set i { h2.coll i with elided := true }) i = .ok (h', r) := e
                exact advance_more (g := g) (by omega) p3 e' (show i < h2.n by omega)
              | startArr => obtain ⟨q, p5⟩ := value_more (b := b) (h := h2.set i { h2.coll i with started := true }) (x := .startArr) (i := i) p3 e; exact ⟨.inl q, p5⟩
              | startObj => obtain ⟨q, p5⟩ := value_more (b := b) (h := h2.set i { h2.coll i with started := true }) (x := .startObj) (i := i) p3 e; exact ⟨.inl q, p5⟩
              | endObj => obtain ⟨q, p5⟩ := value_more (b := b) (h := h2.set i { h2.coll i with started := true }) (x := .endObj) (i := i) p3 e; exact ⟨.inl q, p5⟩
              | scalar k => obtain ⟨q, p5⟩ := value_more (b := b) (h := h2.set i { h2.coll i with started := true }) (x := (.scalar k)) (i := i) p3 e; exact ⟨.inl q, p5⟩
        by_cases hst : (h.coll i).started = true
        · simp only [hst, if_true] at e ⊢
          cases hc : (h.coll i).cur with
          | none => rw [hc] at e; cases e
          | some v =>
            rw [hc] at e
            simp only at e ⊢
            cases hr : discard h.n h v with
            | error s => rw [hr] at e; cases e
            | ok h1 =>
              rw [hr] at e
              obtain ⟨q, p1, n1⟩ := discard_more (b := b) hp hr
              obtain ⟨q1, q2⟩ := main h1 p1 n1 e
              rcases q with q | q
              · rw [more_n, q]
                exact q1
              · exact absurd q q2
        · simp only [hst, Bool.false_eq_true, if_false] at e ⊢
          exact (main h hp rfl e).1

end Heap

open Heap

variable {ε α β : Type} {b : List Token}

/-- The program goes forward through collections inside the values of the stream only (numbers above 0, below `n`). -/
def ReadsOn : Nat → IProg ε α → (Nat → α → Prop) → Prop
  | n, .ret a, Q => Q n a
  | _, .fail _, _ => True
  | n, .emit _ k, Q => ReadsOn n k Q
  | n, .op (.advance i) k, Q => 0 < i ∧ i < n ∧ ∀ r n', n ≤ n' → ReadsOn n' (k r) Q
  | n, .op (.current _) k, Q => ∀ key v, (∀ x, v = some x → Val.After 0 n x) → ReadsOn n (k (key, v)) Q
  | n, .op (.elided _) k, Q => ∀ r, ReadsOn n (k r) Q
  | _, .op _ _, _ => False

/-- With more to come, the program does the same, or what it has written is a prefix. -/
def Cuts (b : List Token) (p : IProg ε α) (h : Heap) (Q : Heap → α → Prop) : Prop :=
  match (p.run Heap.mach h).2 with
  | .ok (h', a) => p.run Heap.mach (more b h) = ((p.run Heap.mach h).1, .ok (more b h', a)) ∧ (h'.Plain ∧ h'.Direct ∧ h.n ≤ h'.n) ∧ Q h' a
  | .error _ => (p.run Heap.mach h).1 <+: (p.run Heap.mach (more b h)).1

theorem Cuts.opOk {o : IOp} {k : o.Res → IProg ε α} {h h' : Heap} {x : o.Res} {Q : Heap → α → Prop} (ho : h.step o = .ok (h', x))
    (ho' : (more b h).step o = .ok (more b h', x)) (hn : h.n ≤ h'.n) (hk : Cuts b (k x) h' Q) : Cuts b (.op o k) h Q := by
  unfold Cuts at hk ⊢
  simp only [IProg.run, mach, ho, ho']
  simp only [mach] at hk
  generalize (k x).run ⟨step⟩ h' = y at hk ⊢
  obtain ⟨o2, r2⟩ := y
  cases r2 with
  | error e => exact hk
  | ok y => exact ⟨hk.1, ⟨hk.2.1.1, hk.2.1.2.1, Nat.le_trans hn hk.2.1.2.2⟩, hk.2.2⟩

theorem Cuts.opError {o : IOp} {k : o.Res → IProg ε α} {h : Heap} {e : Stop} {Q : Heap → α → Prop} (ho : h.step o = .error e) : Cuts b (.op o k) h Q := by
  unfold Cuts
  simp only [IProg.run, mach, ho]
  exact List.nil_prefix

theorem ReadsOn.cuts : ∀ {p : IProg ε α} {h : Heap} {Q : Nat → α → Prop}, h.Plain → h.Direct → ReadsOn h.n p Q → Cuts b p h fun h' a => Q h'.n a
  | .ret a, h, Q, hp, hd, hr => ⟨rfl, ⟨hp, hd, Nat.le_refl _⟩, hr⟩
  | .fail _, _, _, _, _, _ => List.prefix_rfl
  | .emit e k, h, Q, hp, hd, hr => by
    have ih : Cuts b k h fun h' a => Q h'.n a := ReadsOn.cuts (p := k) hp hd hr
    unfold Cuts at ih ⊢
    simp only [IProg.run]
    generalize k.run Heap.mach h = y at ih ⊢
    obtain ⟨o2, r2⟩ := y
    cases r2 with
    | error _ => exact (List.prefix_cons_inj e).2 ih
    | ok y => exact ⟨by rw [ih.1], ih.2⟩
  | .op (.elided i) k, h, Q, hp, hd, hr => .opOk (o := .elided i) rfl rfl (Nat.le_refl _) (ReadsOn.cuts hp hd (hr _))
  | .op (.current i) k, h, Q, hp, hd, hr => by
    by_cases hc : (h.coll i).kind ≠ .top ∧ (h.coll i).done = true
    · refine .opError (o := .current i) (e := .panic) ?_
      simp only [step, Heap.current, if_pos hc]
      rfl
    · refine .opOk (o := .current i) (h' := h) (x := ((h.coll i).key, (h.coll i).cur)) ?_ ?_ (Nat.le_refl _)
        (ReadsOn.cuts hp hd (hr _ _ fun x hx => (hd.cur i x hx).mono (Nat.zero_le _) (Nat.le_refl _)))
      · simp only [step, Heap.current, if_neg hc]
        rfl
      · have e : (more b h).current i = .ok ((h.coll i).key, (h.coll i).cur) := by
          show h.current i = _
          simp only [Heap.current, if_neg hc]
        simp only [step, e]
        rfl
  | .op (.advance i) k, h, Q, hp, hd, hr => by
    obtain ⟨h0, hi, hk⟩ := hr
    rcases advance_ok (h.avail (h.coll i).stream + 2) hd hi (by have := avail_len h (h.coll i).stream; omega) with r | ⟨h', y, r1, r2, r3⟩
    · exact .opError (o := .advance i) r
    · obtain ⟨q, p2⟩ := advance_more (b := b) (Nat.add_le_add_right (more_avail (b := b) h (h.coll i).stream) 2) hp r1 hi
      rcases q with q | ⟨q, _⟩
      · exact .opOk (o := .advance i) r1 q r2.n (ReadsOn.cuts p2 r2.direct (hk y h'.n r2.n))
      · omega
  | .op (.clone _) _, _, _, _, _, hr => hr.elim
  | .op (.discard _) _, _, _, _, _, hr => hr.elim
  | .op (.copy _) _, _, _, _, _, hr => hr.elim
  | .op (.detach _) _, _, _, _, _, hr => hr.elim
  | .op (.data _) _, _, _, _, _, hr => hr.elim
  | .op (.reject _ _) _, _, _, _, _, hr => hr.elim

theorem ReadsOn.bind : ∀ {p : IProg ε α} {f : α → IProg ε β} {n : Nat} {Q : Nat → α → Prop} {R : Nat → β → Prop}, ReadsOn n p Q →
    (∀ n' a, n ≤ n' → Q n' a → ReadsOn n' (f a) R) → ReadsOn n (p.bind f) R
  | .ret a, f, n, Q, R, hp, hf => hf n a (Nat.le_refl _) hp
  | .fail _, _, _, _, _, _, _ => trivial
  | .emit e k, f, n, Q, R, hp, hf => ReadsOn.bind (p := k) hp hf
  | .op (.elided i) k, f, n, Q, R, hp, hf => fun r => ReadsOn.bind (p := k r) (hp r) hf
  | .op (.current i) k, f, n, Q, R, hp, hf => fun key v hv => ReadsOn.bind (p := k (key, v)) (hp key v hv) hf
  | .op (.advance i) k, f, n, Q, R, hp, hf =>
    ⟨hp.1, hp.2.1, fun r n' hn => ReadsOn.bind (p := k r) (hp.2.2 r n' hn) fun n2 a h2 => hf n2 a (Nat.le_trans hn h2)⟩
  | .op (.clone _) _, _, _, _, _, hr, _ => hr.elim
  | .op (.discard _) _, _, _, _, _, hr, _ => hr.elim
  | .op (.copy _) _, _, _, _, _, hr, _ => hr.elim
  | .op (.detach _) _, _, _, _, _, hr, _ => hr.elim
  | .op (.data _) _, _, _, _, _, hr, _ => hr.elim
  | .op (.reject _ _) _, _, _, _, _, hr, _ => hr.elim

theorem ReadsOn.putAll (n : Nat) : ∀ l : List ε, ReadsOn n (putAll l) fun _ _ => True
  | [] => trivial
  | _ :: l => ReadsOn.putAll n l

theorem ReadsOn.put (n : Nat) (e : ε) : ReadsOn n (put e) fun _ _ => True := trivial

theorem ReadsOn.forEach {body : β → Option Scalar → Val → IProg ε β} {i n : Nat} (h0 : 0 < i) (hi : i < n)
    (hb : ∀ n' b key x, n ≤ n' → Val.After 0 n' x → ReadsOn n' (body b key x) fun _ _ => True) :
    ∀ (f : Nat) (n' : Nat) (b : β), n ≤ n' → ReadsOn n' (Verif.forEach body i f b) fun _ _ => True
  | 0, _, _, _ => trivial
  | f + 1, n', b, hn => by
    refine ⟨h0, by omega, fun more n2 h2 => ?_⟩
    cases more with
    | false => exact trivial
    | true =>
      intro key v hv
      cases v with
      | none => exact trivial
      | some x => exact .bind (hb n2 b key x (by omega) (hv x rfl)) fun n3 b3 h3 _ => forEach h0 hi hb f n3 b3 (by omega)

/-- What is known of a function that writes values. -/
def WReads (wv : Val → IProg POp Unit) : Prop := ∀ n x, Val.After 0 n x → ReadsOn n (wv x) fun _ _ => True

namespace Enc

theorem reads_writeKey (c : Option Colorizer) (key : Option Scalar) (n : Nat) : ReadsOn n (writeKey c key) fun _ _ => True := by
  cases key with
  | none => exact trivial
  | some k => exact .putAll _ _

variable {wv : Val → IProg POp Unit}

theorem reads_writeObject (hw : WReads wv) (c : Option Colorizer) (f : Nat) {i n : Nat} (h0 : 0 < i) (hi : i < n) :
    ReadsOn n (writeObject c wv f i) fun _ _ => True := by
  refine .bind (.put _ _) fun n1 _ h1 _ => .bind (.forEach h0 hi ?_ f n1 true h1) fun n2 b h2 _ => ?_
  · intro n' b key x hn hx
    exact .bind (.putAll _ _) fun n1 _ h1 _ => .bind (reads_writeKey _ _ _) fun n2 _ h2 _ =>
      .bind (hw n2 x (hx.mono (Nat.le_refl _) (by omega))) fun n3 _ h3 _ => trivial
  · intro e
    exact .bind (.putAll _ _) fun _ _ _ _ => .bind (.putAll _ _) fun _ _ _ _ => .put _ _

theorem reads_pendingLoop (cfg : EncCfg) {i : Nat} (h0 : 0 < i) : ∀ (f n : Nat) (l : List (Scalar × Val)) (w : Int), i < n →
    (∀ m ∈ l, Val.After 0 n m.2) → ReadsOn n (pendingLoop cfg i f l w) fun n' r => ∀ m ∈ r.2, Val.After 0 n' m.2
  | 0, _, _, _, _, _ => trivial
  | f + 1, n, l, w, hi, hl => by
    refine ⟨h0, hi, fun more n1 h1 => ?_⟩
    have hl1 : ∀ m ∈ l, Val.After 0 n1 m.2 := fun m hm => (hl m hm).mono (Nat.le_refl _) h1
    cases more with
    | false => exact hl1
    | true =>
      intro key v hv
      have app : ∀ k x, v = some x → ∀ m ∈ l ++ [(k, x)], Val.After 0 n1 m.2 := by
        intro k x e m hm
        rcases List.mem_append.1 hm with hm | hm
        · exact hl1 m hm
        · rw [List.mem_singleton.1 hm]
          exact hv x e
      match key, v, app with
      | none, _, _ => exact trivial
      | some k, none, _ => exact trivial
      | some k, some (.coll ck j), app => exact app k _ rfl
      | some k, some (.scalar s), app =>
        show ReadsOn n1 (if _ then _ else _) _
        split
        · exact reads_pendingLoop cfg h0 f n1 _ _ (by omega) (app k _ rfl)
        · exact app k _ rfl

theorem reads_writePending (hw : WReads wv) (c : Option Colorizer) (sep : List POp) : ∀ (l : List (Scalar × Val)) (first : Bool) (n : Nat),
    (∀ m ∈ l, Val.After 0 n m.2) → ReadsOn n (writePending c wv sep first l) fun _ _ => True
  | [], _, _, _ => trivial
  | (k, x) :: l, first, n, hm =>
    .bind (.putAll _ _) fun n1 _ h1 _ => .bind (hw n1 x ((hm (k, x) (by simp)).mono (Nat.le_refl _) h1)) fun n2 _ h2 _ =>
      reads_writePending hw c sep l false n2 fun m h => (hm m (by simp [h])).mono (Nat.le_refl _) (Nat.le_trans h1 h2)

theorem reads_writeObjectCompact (hw : WReads wv) (cfg : EncCfg) (f : Nat) {i n : Nat} (h0 : 0 < i) (hi : i < n) :
    ReadsOn n (writeObjectCompact cfg wv f i) fun _ _ => True := by
  refine .bind (reads_pendingLoop cfg h0 f n [] (-2) hi (by simp)) fun n1 p h1 hp => ?_
  obtain ⟨compact, pending⟩ := p
  refine .bind (.put _ _) fun n2 _ h2 _ => .bind (Q := fun _ _ => True) ?_ fun n3 _ h3 _ => .put _ _
  have hp2 : ∀ m ∈ pending, Val.After 0 n2 m.2 := fun m hm => (hp m hm).mono (Nat.le_refl _) h2
  split
  · refine .bind (reads_writePending hw _ _ _ _ _ hp2) fun n3 _ h3 _ => ?_
    intro e
    exact .putAll _ _
  · refine .bind (.put _ _) fun n3 _ h3 _ => .bind (reads_writePending hw _ _ _ _ n3 fun m hm => (hp2 m hm).mono (Nat.le_refl _) h3) fun n4 _ h4 _ => ?_
    refine .bind (.forEach (n := n) h0 hi ?_ f n4 () (by omega)) fun n5 _ h5 _ => ?_
    · intro n' b key x hn hx
      exact .bind (.putAll _ _) fun n1 _ h1 _ => .bind (reads_writeKey _ _ _) fun n2 _ h2 _ =>
        .bind (hw n2 x (hx.mono (Nat.le_refl _) (by omega))) fun n3 _ h3 _ => trivial
    · intro e
      exact .bind (.putAll _ _) fun _ _ _ _ => .put _ _

theorem reads_writeArray (hw : WReads wv) (f : Nat) {i n : Nat} (h0 : 0 < i) (hi : i < n) : ReadsOn n (writeArray wv f i) fun _ _ => True := by
  refine .bind (.put _ _) fun n1 _ h1 _ => .bind (.forEach h0 hi ?_ f n1 true h1) fun n2 b h2 _ => ?_
  · intro n' b key x hn hx
    exact .bind (.putAll _ _) fun n1 _ h1 _ => .bind (hw n1 x (hx.mono (Nat.le_refl _) (by omega))) fun n3 _ h3 _ => trivial
  · intro e
    exact .bind (.putAll _ _) fun _ _ _ _ => .bind (.putAll _ _) fun _ _ _ _ => .put _ _

theorem reads_writeItems (hw : WReads wv) : ∀ (l : List Scalar) (first : Bool) (n : Nat), ReadsOn n (writeItems wv first l) fun _ _ => True
  | [], _, _ => trivial
  | s :: l, first, n =>
    .bind (.putAll _ _) fun n1 _ h1 _ => .bind (hw n1 (.scalar s) trivial) fun n2 _ h2 _ => reads_writeItems hw l false n2

theorem reads_arrayCompactStep (hw : WReads wv) (cfg : EncCfg) (st : ACState) {x : Val} {n : Nat} (hx : Val.After 0 n x) :
    ReadsOn n (arrayCompactStep cfg wv st x) fun _ _ => True := by
  have wr : ∀ n', n ≤ n' → ∀ w : ACState, ReadsOn n' ((wv x).bind fun _ => .ret w) fun _ _ => True := fun n' hn w =>
    .bind (hw n' x (hx.mono (Nat.le_refl _) hn)) fun n2 _ h2 _ => trivial
  unfold arrayCompactStep
  cases x with
  | scalar s =>
    simp only
    split
    · exact trivial
    · refine .bind (.putAll _ _) fun n1 _ h1 _ => ?_
      split
      · exact wr n1 h1 _
      · refine .bind (reads_writeItems hw _ _ _) fun n2 _ h2 _ => ?_
        split
        · exact trivial
        · exact .bind (.putAll _ _) fun n3 _ h3 _ => wr n3 (by omega) _
  | coll k j =>
    refine .bind (.putAll _ _) fun n1 _ h1 _ => ?_
    split
    · exact wr n1 h1 _
    · exact .bind (reads_writeItems hw _ _ _) fun n2 _ h2 _ => .bind (.putAll _ _) fun n3 _ h3 _ => wr n3 (by omega) _

theorem reads_writeArrayCompact (hw : WReads wv) (cfg : EncCfg) (f : Nat) {i n : Nat} (h0 : 0 < i) (hi : i < n) :
    ReadsOn n (writeArrayCompact cfg wv f i) fun _ _ => True := by
  refine .bind (.put _ _) fun n1 _ h1 _ => .bind (.forEach h0 hi ?_ f n1 _ h1) fun n2 st h2 _ => .bind (Q := fun _ _ => True) ?_ fun n3 _ h3 _ => ?_
  · intro n' b key x hn hx
    exact reads_arrayCompactStep hw cfg b hx
  · split
    · exact trivial
    · exact .bind (.putAll _ _) fun n3 _ h3 _ => reads_writeItems hw _ _ _
  · intro e
    exact .bind (.putAll _ _) fun _ _ _ _ => .bind (.putAll _ _) fun _ _ _ _ => .put _ _

theorem reads_writeValue (cfg : EncCfg) : ∀ f, WReads (writeValue cfg f)
  | 0 => fun _ _ _ => trivial
  | f + 1 => by
    intro n x hx
    cases x with
    | scalar s => exact .putAll _ _
    | coll k j =>
      have hw := reads_writeValue cfg f
      cases k with
      | top => exact trivial
      | obj =>
        simp only [writeValue]
        split
        · exact reads_writeObjectCompact hw cfg f hx.1 hx.2
        · exact reads_writeObject hw _ f hx.1 hx.2
      | arr =>
        simp only [writeValue]
        split
        · exact reads_writeArrayCompact hw cfg f hx.1 hx.2
        · exact reads_writeArray hw f hx.1 hx.2

end Enc

namespace JEnc

theorem reads_printSuccinct (c : Option Colorizer) (k : Scalar) (n : Nat) : ReadsOn n (printSuccinct c k) fun _ _ => True := by
  unfold printSuccinct
  split
  · split
    · exact trivial
    · exact .putAll _ _
  · exact .putAll _ _

theorem reads_writePath (cfg : JEncCfg) (path : List Scalar) (n : Nat) : ReadsOn n (writePath cfg path) fun _ _ => True := by
  have el : ∀ (l : List Scalar) (n : Nat), ReadsOn n (writeElems cfg l) fun _ _ => True := by
    intro l
    induction l with
    | nil => exact fun _ => trivial
    | cons k l ih =>
      intro n
      refine .bind (Q := fun _ _ => True) ?_ fun n1 _ h1 _ => ih n1
      unfold writeElem
      split
      · exact .bind (.put _ _) fun n1 _ h1 _ => reads_printSuccinct _ _ _
      · exact .bind (.put _ _) fun n1 _ h1 _ => .bind (.putAll _ _) fun n2 _ h2 _ => .put _ _
  exact .bind (.put _ _) fun n1 _ h1 _ => .bind (el _ _) fun n2 _ h2 _ => .put _ _

theorem reads_writeRest (cfg : JEncCfg) (path : List Scalar) (e1 e2 : Bytes) (i count n : Nat) : ReadsOn n (writeRest cfg path e1 e2 i count) fun _ _ => True := by
  intro e
  show ReadsOn n (if _ then _ else _) _
  split
  · exact .bind (reads_writePath _ _ _) fun n1 _ h1 _ => .bind (.put _ _) fun n2 _ h2 _ => .put _ _
  · exact trivial

theorem reads_writeValue (cfg : JEncCfg) : ∀ (f : Nat) (path : List Scalar), WReads (writeValue cfg f path)
  | 0, _ => fun _ _ _ => trivial
  | f + 1, path => by
    intro n x hx
    cases x with
    | scalar s => exact .bind (reads_writePath _ _ _) fun n1 _ h1 _ => .bind (.putAll _ _) fun n2 _ h2 _ => .put _ _
    | coll k j =>
      have hw := reads_writeValue cfg f
      cases k with
      | top => exact trivial
      | obj =>
        refine .bind (.forEach hx.1 hx.2 ?_ f n 0 (Nat.le_refl _)) fun n2 c h2 _ => reads_writeRest _ _ _ _ _ _ _
        intro n' b key x hn hx
        cases key with
        | none => exact trivial
        | some key => exact .bind (hw _ n' x hx) fun n2 _ h2 _ => trivial
      | arr =>
        refine .bind (.forEach hx.1 hx.2 ?_ f n 0 (Nat.le_refl _)) fun n2 c h2 _ => reads_writeRest _ _ _ _ _ _ _
        intro n' b key x hn hx
        exact .bind (hw _ n' x hx) fun n2 _ h2 _ => trivial

end JEnc

theorem run_opOk {o : IOp} {k : o.Res → IProg ε α} {h h' : Heap} {x : o.Res} (ho : h.step o = .ok (h', x)) :
    (IProg.op o k).run Heap.mach h = (k x).run Heap.mach h' := by
  simp only [IProg.run, mach, ho]

theorem run_opError {o : IOp} {k : o.Res → IProg ε α} {h : Heap} {e : Stop} (ho : h.step o = .error e) :
    (IProg.op o k).run Heap.mach h = ([], .error e) := by
  simp only [IProg.run, mach, ho]

theorem step_current {h : Heap} {i : Nat} (hc : ¬((h.coll i).kind ≠ .top ∧ (h.coll i).done = true)) :
    h.step (.current i) = .ok (h, ((h.coll i).key, (h.coll i).cur)) := by
  simp only [step, Heap.current, if_neg hc]
  rfl

/-- The loop over the values of the stream. -/
theorem top_prefix {body : Val → IProg ε Unit} (hb : ∀ n x, Val.After 0 n x → ReadsOn n (body x) fun _ _ => True) :
    ∀ (f : Nat) {h : Heap}, h.Plain → h.Direct →
      ((Verif.forEach (fun (_ : Unit) _ x => body x) 0 f ()).run Heap.mach h).1 <+: ((Verif.forEach (fun (_ : Unit) _ x => body x) 0 f ()).run Heap.mach (more b h)).1
  | 0, h, _, _ => List.prefix_rfl
  | f + 1, h, hp, hd => by
    rw [Verif.forEach]
    rcases advance_ok (h.avail (h.coll 0).stream + 2) hd hd.pos (by have := avail_len h (h.coll 0).stream; omega) with r | ⟨h1, y, r1, r2, r3⟩
    · rw [run_opError (o := .advance 0) r]
      exact List.nil_prefix
    · obtain ⟨q, p1⟩ := advance_more (b := b) (Nat.add_le_add_right (more_avail (b := b) h (h.coll 0).stream) 2) hp r1 hd.pos
      rw [run_opOk (o := .advance 0) r1]
      cases y with
      | false => exact List.nil_prefix
      | true =>
        rcases q with q | ⟨_, q⟩
        · rw [run_opOk (o := .advance 0) q]
          simp only [if_true]
          by_cases hc : (h1.coll 0).kind ≠ .top ∧ (h1.coll 0).done = true
          · rw [run_opError (o := .current 0) (h := h1) (e := .panic)]
            · exact List.nil_prefix
            · simp only [step, Heap.current, if_pos hc]
              rfl
          · rw [run_opOk (o := .current 0) (step_current hc), run_opOk (o := .current 0) (step_current (h := more b h1) hc)]
            rw [more_coll]
            cases hv : (h1.coll 0).cur with
            | none => exact List.nil_prefix
            | some x =>
              have hcut := ReadsOn.cuts (b := b) p1 r2.direct (hb h1.n x (r2.direct.cur 0 x hv))
              simp only
              rw [run_bind, run_bind]
              unfold Cuts at hcut
              simp only [seqRun]
              generalize (body x).run Heap.mach h1 = z at hcut ⊢
              obtain ⟨o1, z⟩ := z
              cases z with
              | error e =>
                simp only at hcut ⊢
                generalize (body x).run Heap.mach (more b h1) = z2 at hcut ⊢
                obtain ⟨o2, z2⟩ := z2
                cases z2 with
                | error e => exact hcut
                | ok z2 => exact hcut.trans (List.prefix_append _ _)
              | ok z =>
                obtain ⟨h2, u⟩ := z
                simp only at hcut
                rw [hcut.1]
                exact (List.prefix_append_right_inj _).2 (top_prefix hb f hcut.2.1.1 hcut.2.1.2.1)
        · cases q

theorem more_init (a b : List Token) : more b (Heap.init a) = Heap.init (a ++ b) := rfl

/-- Printing more gives more. -/
theorem good_prefix {con : Nat → IProg POp Unit} (hle : ∀ {f g : Nat}, f ≤ g → LeP Eq (con f) (con g))
    (he : ∀ ts : List Token, Ends (con (ts.length + 1)) (Heap.init ts) fun _ _ => True)
    (hc : ∀ f a b, ((con f).run Heap.mach (Heap.init a)).1 <+: ((con f).run Heap.mach (Heap.init (a ++ b))).1) (pc : PrinterCfg) (a b : List Token) :
    ((con (a.length + 1)).runW Heap.mach pc Enc.goodSink (Heap.init a) 0 []).1 <+:
      ((con ((a ++ b).length + 1)).runW Heap.mach pc Enc.goodSink (Heap.init (a ++ b)) 0 []).1 := by
  have key : ∀ ts : List Token, ((con (ts.length + 1)).runW Heap.mach pc Enc.goodSink (Heap.init ts) 0 []).1 =
      evBytes (pc.execAll 0 ((con (ts.length + 1)).run Heap.mach (Heap.init ts)).1).1 := by
    intro ts
    rw [IProg.runW_eq, Sink.feed_all (w := Enc.goodSink) (fun _ _ => rfl)]
  have hf : (con ((a ++ b).length + 1)).run Heap.mach (Heap.init a) = (con (a.length + 1)).run Heap.mach (Heap.init a) := by
    refine (hle (by rw [List.length_append]; omega)).run_eq _ _ ?_
    intro e
    have := he a
    unfold Ends at this
    rw [e] at this
    cases this
  rw [key, key, ← hf]
  obtain ⟨l, hl⟩ := hc ((a ++ b).length + 1) a b
  rw [← hl, PrinterCfg.execAll_append]
  simp only [evBytes_append]
  exact List.prefix_append _ _

theorem Enc.encode_prefix (cfg : EncCfg) (pc : PrinterCfg) (a b : List Token) :
    (Enc.encode cfg pc Enc.goodSink a).1 <+: (Enc.encode cfg pc Enc.goodSink (a ++ b)).1 :=
  good_prefix (Enc.consume_le cfg) (Enc.ends_consume cfg) (fun f a b => by
    rw [← more_init]
    refine top_prefix (body := fun x => (Enc.writeValue cfg f x).bind fun _ => IProg.put .reset) ?_ f (plain_init a) (direct_init a)
    intro n x hx
    exact .bind (Enc.reads_writeValue cfg f n x hx) fun _ _ _ _ => .put _ _) pc a b

theorem JEnc.encode_prefix (cfg : JEncCfg) (pc : PrinterCfg) (a b : List Token) :
    (JEnc.encode cfg pc Enc.goodSink a).1 <+: (JEnc.encode cfg pc Enc.goodSink (a ++ b)).1 :=
  good_prefix (JEnc.consume_le cfg) (JEnc.ends_consume cfg) (fun f a b => by
    rw [← more_init]
    refine top_prefix (body := fun x => (JEnc.writeValue cfg f [] x).bind fun _ => IProg.put .reset) ?_ f (plain_init a) (direct_init a)
    intro n x hx
    exact .bind (JEnc.reads_writeValue cfg f [] n x hx) fun _ _ _ _ => .put _ _) pc a b

end Verif
