import Verif.PathRun
import Verif.IterTransforms

/-!
# Where the tokens come from

What programs read from iterators are tokens of the input.  `P` is any property of tokens that those starting a collection have: if all tokens
in the state have it, then it stays so, and values that are read and tokens that are copied have it.
-/

set_option linter.unusedSimpArgs false
set_option linter.unusedVariables false

namespace Verif.Origin
open IProg

variable {ε φ α β : Type} {P : Token → Prop}

/-- The tokens of a pool have the property. -/
structure PoolOk (P : Token → Prop) (p : Pool) : Prop where
  win : ∀ t ∈ p.window, P t
  str : ∀ t ∈ p.stream, P t

theorem poolOk_window {p p' : Pool} (h : PoolOk P p) (h1 : p.advanceWindow = some p') : PoolOk P p' := by
  unfold Pool.advanceWindow at h1
  split at h1
  · cases h1; exact ⟨by simp, h.str⟩
  · simp only at h1
    split at h1
    · cases h1
    · split at h1
      · cases h1; exact h
      · cases h1; exact ⟨fun t ht => h.win t (List.mem_of_mem_drop ht), h.str⟩

theorem poolOk_update {p p' : Pool} {n : Int} (h : PoolOk P p) (h1 : p.updateCatchupCount n = some p') : PoolOk P p' := by
  unfold Pool.updateCatchupCount at h1
  simp only at h1
  split at h1
  · refine poolOk_window (p := { p with catchup := 0 }) ⟨h.win, h.str⟩ h1
  · cases h1; exact ⟨h.win, h.str⟩

theorem poolOk_detachCursor {p p' : Pool} {c : Nat} (h : PoolOk P p) (h1 : p.detachCursor c = some p') : PoolOk P p' := by
  unfold Pool.detachCursor at h1
  split at h1
  · cases h2 : p.updateCatchupCount ((p.cur c).pos - p.windowPos) with
    | none => simp [h2, Bind.bind, Option.bind] at h1
    | some p1 =>
      have := poolOk_update h h2
      simp [h2, Bind.bind, Option.bind, pure] at h1
      subst h1
      exact ⟨this.win, this.str⟩
  · simp [Bind.bind, Option.bind, pure] at h1
    subst h1
    exact ⟨h.win, h.str⟩

theorem poolOk_detach {p p' : Pool} {c : Nat} (h : PoolOk P p) (h1 : p.detach c = some p') : PoolOk P p' := by
  unfold Pool.detach at h1
  split at h1
  · exact poolOk_detachCursor h h1
  · cases h1; exact h

theorem poolOk_next {p p' : Pool} {c : Nat} {x : Option Token} (h : PoolOk P p) (h1 : p.next c = some (p', x)) :
    PoolOk P p' ∧ ∀ t, x = some t → P t := by
  unfold Pool.next at h1
  split at h1
  · unfold Pool.advanceCursor at h1
    simp only at h1
    split at h1
    · split at h1
      · cases h1
      · cases h2 : p.window[((p.cur c).pos - p.windowPos).toNat]? with
        | none => simp [h2, Bind.bind, Option.bind] at h1
        | some tok =>
          cases h3 : (p.setCur c ⟨true, (p.cur c).pos + 1⟩).updateCatchupCount 1 with
          | none => simp [h2, h3, Bind.bind, Option.bind] at h1
          | some p1 =>
            simp [h2, h3, Bind.bind, Option.bind, pure] at h1
            obtain ⟨rfl, rfl⟩ := h1
            refine ⟨poolOk_update (p := p.setCur c ⟨true, (p.cur c).pos + 1⟩) ⟨h.win, h.str⟩ h3, ?_⟩
            intro t ht
            cases ht
            exact h.win _ (List.mem_of_getElem? h2)
    · split at h1
      · cases h1
      · split at h1
        · rename_i tok rest hs
          simp only [Option.some.injEq, Prod.mk.injEq] at h1
          obtain ⟨rfl, rfl⟩ := h1
          have ht := h.str tok (by rw [hs]; simp)
          refine ⟨⟨?_, ?_⟩, ?_⟩
          · intro t h4
            simp only [List.mem_append, List.mem_singleton] at h4
            rcases h4 with h4 | h4
            · exact h.win t h4
            · rw [h4]; exact ht
          · intro t h4; exact h.str t (by rw [hs]; exact List.mem_cons_of_mem _ h4)
          · intro t h4; cases h4; exact ht
        · cases h2 : p.detachCursor c with
          | none => simp [h2, Bind.bind, Option.bind] at h1
          | some p1 =>
            simp [h2, Bind.bind, Option.bind, pure] at h1
            obtain ⟨rfl, rfl⟩ := h1
            exact ⟨poolOk_detachCursor h h2, by simp⟩
  · simp only [Option.some.injEq, Prod.mk.injEq] at h1
    obtain ⟨rfl, rfl⟩ := h1
    exact ⟨h, by simp⟩

/-- The tokens of all streams have the property. -/
structure StreamsOk (P : Token → Prop) (s : Streams) : Prop where
  src : ∀ t ∈ s.src, P t
  pools : ∀ p, PoolOk P (s.pools p)

theorem StreamsOk.pool {s : Streams} (h : StreamsOk P s) (p : Nat) : PoolOk P (s.pool p) := by
  unfold Streams.pool
  split
  · exact ⟨(h.pools p).win, h.src⟩
  · exact h.pools p

theorem StreamsOk.setPool {s : Streams} {p : Nat} {Q : Pool} (h : StreamsOk P s) (hQ : PoolOk P Q) : StreamsOk P (s.setPool p Q) := by
  constructor
  · unfold Streams.setPool
    simp only
    split
    · exact hQ.str
    · exact h.src
  · intro q
    simp only [Streams.setPool]
    split
    · exact hQ
    · exact h.pools q

theorem streams_next {s s' : Streams} {t : Nat} {x : Option Token} (h : StreamsOk P s) (h1 : s.next t = some (s', x)) :
    StreamsOk P s' ∧ ∀ t, x = some t → P t := by
  unfold Streams.next at h1
  split at h1
  · split at h1
    · cases h1; exact ⟨h, by simp⟩
    · rename_i tok r hs
      simp only [Option.some.injEq, Prod.mk.injEq] at h1
      obtain ⟨rfl, rfl⟩ := h1
      refine ⟨⟨fun t ht => h.src t (by rw [hs]; exact List.mem_cons_of_mem _ ht), h.pools⟩, ?_⟩
      intro t ht
      cases ht
      exact h.src _ (by rw [hs]; simp)
  · cases h2 : (s.pool (s.curs t).1).next (s.curs t).2 with
    | none => simp [h2, Bind.bind, Option.bind] at h1
    | some r =>
      obtain ⟨Q, y⟩ := r
      simp [h2, Bind.bind, Option.bind, pure] at h1
      obtain ⟨rfl, rfl⟩ := h1
      have := poolOk_next (h.pool _) h2
      exact ⟨h.setPool this.1, this.2⟩

theorem streams_detach {s s' : Streams} {t : Nat} (h : StreamsOk P s) (h1 : s.detach t = some s') : StreamsOk P s' := by
  unfold Streams.detach at h1
  cases h2 : (s.pool (s.curs t).1).detach (s.curs t).2 with
  | none => simp [h2, Bind.bind, Option.bind] at h1
  | some Q =>
    simp [h2, Bind.bind, Option.bind, pure] at h1
    subst h1
    exact h.setPool (poolOk_detach (h.pool _) h2)

theorem poolOk_clone {p : Pool} {c : Nat} (h : PoolOk P p) : PoolOk P (p.clone c).1 := by
  unfold Pool.clone
  split
  · exact ⟨h.win, h.str⟩
  · exact h

theorem streams_clone {s : Streams} {t : Nat} (h : StreamsOk P s) : StreamsOk P (s.clone t).1 := by
  unfold Streams.clone
  split
  · refine ⟨h.src, fun q => ?_⟩
    simp only
    split
    · exact poolOk_clone ⟨by simp [Pool.newCursor, Pool.new, Pool.setCur], by simpa [Pool.newCursor, Pool.new, Pool.setCur] using h.src⟩
    · exact h.pools q
  · simp only
    split
    · have := h.setPool (p := (s.curs t).1) (poolOk_clone (c := (s.curs t).2) (h.pool (s.curs t).1))
      exact ⟨this.src, this.pools⟩
    · exact h

theorem streams_data {s : Streams} {ts : List Token} (h : StreamsOk P s) (ht : ∀ t ∈ ts, P t) : StreamsOk P (s.fromData ts).1 := by
  refine ⟨h.src, fun q => ?_⟩
  simp only [Streams.fromData]
  split
  · constructor <;> simp [Pool.fromData] <;> exact ht
  · exact h.pools q

/-- A scalar has the property. -/
def ValOk (P : Token → Prop) : Val → Prop
  | .scalar s => P (.scalar s)
  | .coll _ _ => True

/-- The current value and key of a collection have the property. -/
structure CollOk (P : Token → Prop) (c : Coll) : Prop where
  cur : ∀ v, c.cur = some v → ValOk P v
  key : ∀ k, c.key = some k → P (.scalar k)

/-- The tokens of the state have the property. -/
structure Ok (P : Token → Prop) (h : Heap) : Prop where
  st : StreamsOk P h.st
  coll : ∀ i, CollOk P (h.coll i)

/-- A result, if there is one. -/
def Post {γ : Type} (x : Except Stop γ) (Q : γ → Prop) : Prop := ∀ b, x = .ok b → Q b

theorem Post.ok {γ : Type} {b : γ} {Q : γ → Prop} (h : Q b) : Post (.ok b) Q := by intro b' e; cases e; exact h

theorem Post.error {γ : Type} {e : Stop} {Q : γ → Prop} : Post (.error e : Except Stop γ) Q := by intro b' e; cases e

theorem Post.bind {γ δ : Type} {x : Except Stop γ} {f : γ → Except Stop δ} {R : γ → Prop} {Q : δ → Prop} (hx : Post x R)
    (hf : ∀ b, R b → Post (f b) Q) : Post (x >>= f) Q := by
  cases x with
  | error e => exact Post.error
  | ok b => exact hf b (hx b rfl)

theorem Ok.set {h : Heap} {i : Nat} {c : Coll} (o : Ok P h) (hc : CollOk P c) : Ok P (h.set i c) := by
  refine ⟨o.st, fun j => ?_⟩
  simp only [Heap.set]
  split
  · exact hc
  · exact o.coll j

theorem Ok.alloc {h : Heap} {c : Coll} (o : Ok P h) (hc : CollOk P c) : Ok P (h.alloc c).1 :=
  ⟨(o.set (i := h.n) hc).st, (o.set (i := h.n) hc).coll⟩

theorem next_post {h : Heap} {t : Nat} (o : Ok P h) : Post (h.next t) fun r => Ok P r.1 ∧ ∀ t, r.2 = some t → P t := by
  unfold Heap.next
  split
  · exact Post.error
  · rename_i st x h1
    have := streams_next o.st h1
    exact Post.ok ⟨⟨this.1, o.coll⟩, this.2⟩

theorem streamed_post {h : Heap} {tok : Token} {t : Nat} (o : Ok P h) (ht : P tok) :
    Post (h.streamedValue tok t) fun r => Ok P r.1 ∧ ValOk P r.2 := by
  unfold Heap.streamedValue
  split
  · exact Post.ok ⟨o.alloc ⟨by simp, by simp⟩, trivial⟩
  · exact Post.ok ⟨o.alloc ⟨by simp, by simp⟩, trivial⟩
  · exact Post.ok ⟨o, ht⟩
  · exact Post.error

theorem read_post : ∀ (f : Nat) {h : Heap} {t : Nat} {d : Int}, Ok P h → Post (Heap.readToEnd f h t d) fun r => Ok P r.1 ∧ ∀ t ∈ r.2, P t
  | 0, _, _, _, _ => Post.error
  | f + 1, h, t, d, o => by
    rw [Heap.readToEnd]
    refine Post.bind (next_post o) ?_
    rintro ⟨h1, x⟩ ⟨o1, hx⟩
    cases x with
    | none => exact Post.ok ⟨o1, by simp⟩
    | some x =>
      simp only
      split
      · exact Post.ok ⟨o1, by simpa using hx x rfl⟩
      · refine Post.bind (read_post f o1) ?_
        rintro ⟨h2, l⟩ ⟨o2, hl⟩
        refine Post.ok ⟨o2, ?_⟩
        intro t ht
        rcases List.mem_cons.1 ht with rfl | ht
        · exact hx _ rfl
        · exact hl t ht

theorem discard_post : ∀ (f : Nat) {h : Heap} {v : Val}, Ok P h → Post (Heap.discard f h v) (Ok P)
  | 0, _, _, _ => Post.error
  | f + 1, h, .scalar s, o => Post.ok o
  | f + 1, h, .coll k i, o => by
    rw [Heap.discard]
    split
    · exact Post.ok o
    · have main : ∀ h1, Ok P h1 → Post (do
          let t := (h1.coll i).stream
          let h := h1.set i { h1.coll i with done := true }
          let (h, _) ← Heap.readToEnd (h.avail t + 1) h t 0
          .ok h : Except Stop Heap) (Ok P) := by
        intro h1 o1
        refine Post.bind (read_post _ (o1.set ⟨(o1.coll i).cur, (o1.coll i).key⟩)) ?_
        rintro ⟨h2, l⟩ ⟨o2, _⟩
        exact Post.ok o2
      by_cases hs : (h.coll i).started = true
      · simp only [hs, if_true]
        cases hc : (h.coll i).cur with
        | none => exact Post.error
        | some v => exact Post.bind (discard_post f o) main
      · simp only [hs, if_false]
        exact main h o

theorem advance_post : ∀ (f : Nat) {h : Heap} {i : Nat}, Ok P h → Post (Heap.advance f h i) fun r => Ok P r.1
  | 0, _, _, _ => Post.error
  | f + 1, h, i, o => by
    have setcur : ∀ {h1 : Heap} {v : Val}, Ok P h1 → ValOk P v → Ok P (h1.set i { h1.coll i with cur := some v }) := by
      intro h1 v o1 hv
      exact o1.set ⟨by intro w hw; cases hw; exact hv, (o1.coll i).key⟩
    have setsame : ∀ {h1 : Heap} {c : Coll}, Ok P h1 → c.cur = (h1.coll i).cur → c.key = (h1.coll i).key → Ok P (h1.set i c) := by
      intro h1 c o1 hc hk
      exact o1.set ⟨by intro w hw; rw [hc] at hw; exact (o1.coll i).cur w hw, by intro w hw; rw [hk] at hw; exact (o1.coll i).key w hw⟩
    rw [Heap.advance]
    split
    · have main : ∀ h1, Ok P h1 → Post (do
          let (h, x) ← h1.next (h1.coll i).stream
          match x with
          | none => .ok (h.set i { h.coll i with cur := none }, false)
          | some x =>
            let (h, v) ← h.streamedValue x (h.coll i).stream
            .ok (h.set i { h.coll i with cur := some v }, true) : Except Stop (Heap × Bool)) fun r => Ok P r.1 := by
        intro h1 o1
        refine Post.bind (next_post o1) ?_
        rintro ⟨h2, x⟩ ⟨o2, hx⟩
        cases x with
        | none => exact Post.ok (o2.set ⟨by simp, (o2.coll i).key⟩)
        | some x =>
          refine Post.bind (streamed_post o2 (hx x rfl)) ?_
          rintro ⟨h3, v⟩ ⟨o3, hv⟩
          exact Post.ok (setcur o3 hv)
      cases hc : (h.coll i).cur with
      | none => exact main h o
      | some v => exact Post.bind (discard_post _ o) main
    · split
      · exact Post.ok o
      · have main : ∀ h1, Ok P h1 → Post (do
            let (h, x) ← h1.next (h1.coll i).stream
            match x with
            | none => .error .panic
            | some (.scalar k) =>
              let h := h.set i { h.coll i with started := true, key := some k }
              let (h, y) ← h.next (h.coll i).stream
              match y with
              | none => .error .panic
              | some y =>
                let (h, v) ← h.streamedValue y (h.coll i).stream
                .ok (h.set i { h.coll i with cur := some v }, true)
            | some .endObj => .ok (h.set i { h.coll i with done := true }, false)
            | some .elision => Heap.advance f (h.set i { h.coll i with elided := true }) i
            | some _ => .error .panic : Except Stop (Heap × Bool)) fun r => Ok P r.1 := by
          intro h1 o1
          refine Post.bind (next_post o1) ?_
          rintro ⟨h2, x⟩ ⟨o2, hx⟩
          simp only
          split
          · exact Post.error
          · rename_i k
            refine Post.bind (next_post (o2.set ⟨(o2.coll i).cur, by intro k' e; cases e; exact hx _ rfl⟩)) ?_
            rintro ⟨h3, y⟩ ⟨o3, hy⟩
            cases y with
            | none => exact Post.error
            | some y =>
              refine Post.bind (streamed_post o3 (hy y rfl)) ?_
              rintro ⟨h4, v⟩ ⟨o4, hv⟩
              exact Post.ok (setcur o4 hv)
          · exact Post.ok (setsame o2 rfl rfl)
          · exact advance_post f (setsame o2 rfl rfl)
          · exact Post.error
        by_cases hs : (h.coll i).started = true
        · simp only [hs, if_true]
          cases hc : (h.coll i).cur with
          | none => exact Post.error
          | some v => exact Post.bind (discard_post _ o) main
        · simp only [hs, if_false]
          exact main h o
    · split
      · exact Post.ok o
      · have main : ∀ h1, Ok P h1 → Post (do
            let (h, x) ← h1.next (h1.coll i).stream
            match x with
            | none => .error .panic
            | some .endArr => .ok (h.set i { h.coll i with done := true }, false)
            | some .elision => Heap.advance f (h.set i { h.coll i with elided := true }) i
            | some x =>
              let h := h.set i { h.coll i with started := true }
              let (h, v) ← h.streamedValue x (h.coll i).stream
              .ok (h.set i { h.coll i with cur := some v }, true) : Except Stop (Heap × Bool)) fun r => Ok P r.1 := by
          intro h1 o1
          refine Post.bind (next_post o1) ?_
          rintro ⟨h2, x⟩ ⟨o2, hx⟩
          simp only
          split
          · exact Post.error
          · exact Post.ok (setsame o2 rfl rfl)
          · exact advance_post f (setsame o2 rfl rfl)
          · refine Post.bind (streamed_post (setsame o2 rfl rfl) (hx _ rfl)) ?_
            rintro ⟨h4, v⟩ ⟨o4, hv⟩
            exact Post.ok (setcur o4 hv)
        by_cases hs : (h.coll i).started = true
        · simp only [hs, if_true]
          cases hc : (h.coll i).cur with
          | none => exact Post.error
          | some v => exact Post.bind (discard_post _ o) main
        · simp only [hs, if_false]
          exact main h o

theorem clone_post {h : Heap} {v : Val} (o : Ok P h) : Post (h.clone v) fun r => Ok P r.1 ∧ (ValOk P v → ValOk P r.2.1) := by
  unfold Heap.clone
  split
  · exact Post.ok ⟨o, id⟩
  · rename_i k i
    by_cases hc : (if (h.coll i).kind = .top then (h.coll i).cur.isSome else (h.coll i).started) = true
    · rw [if_pos hc]; exact Post.error
    · rw [if_neg hc]
      refine Post.ok ⟨?_, fun _ => trivial⟩
      refine Ok.alloc ?_ ⟨(o.coll i).cur, by simp⟩
      exact Ok.set (h := { h with st := (h.st.clone (h.coll i).stream).1 }) ⟨streams_clone o.st, o.coll⟩ ⟨(o.coll i).cur, (o.coll i).key⟩

/-- Tokens that start collections have the property. -/
def Starts (P : Token → Prop) : Prop := P .startObj ∧ P .startArr

theorem copy_post {h : Heap} {v : Val} (hP : Starts P) (o : Ok P h) :
    Post (h.copy v) fun r => Ok P r.1 ∧ (ValOk P v → ∀ t ∈ r.2, P t) := by
  unfold Heap.copy
  split
  · refine Post.ok ⟨o, ?_⟩
    intro hv t ht
    simp only [List.mem_singleton] at ht
    rw [ht]; exact hv
  · rename_i k i
    split
    · exact Post.error
    · refine Post.bind (read_post _ (o.set ⟨(o.coll i).cur, (o.coll i).key⟩)) ?_
      rintro ⟨h2, l⟩ ⟨o2, hl⟩
      refine Post.ok ⟨o2, ?_⟩
      intro _ t ht
      rcases List.mem_cons.1 ht with rfl | ht
      · unfold startTok
        split
        · exact hP.1
        · exact hP.2
      · exact hl t ht

/-! ## Programs -/

/-- What the program emits has property `E`, and if it ends regularly its result has `Q`; the property of tokens is kept. -/
def Says (P : Token → Prop) (E : ε → Prop) (p : IProg ε α) (Q : α → Prop) : Prop :=
  ∀ h, Ok P h → (∀ e ∈ (p.run Heap.mach h).1, E e) ∧ ∀ h' a, (p.run Heap.mach h).2 = .ok (h', a) → Ok P h' ∧ Q a

variable {E : ε → Prop}

namespace Says

theorem ret {a : α} {Q : α → Prop} (hq : Q a) : Says P E (.ret a : IProg ε α) Q := by
  intro h o
  refine ⟨by simp, ?_⟩
  intro h' a' e
  cases e
  exact ⟨o, hq⟩

theorem fail {s : Stop} {Q : α → Prop} : Says P E (.fail s : IProg ε α) Q := by
  intro h o
  exact ⟨by simp, by intro h' a' e; cases e⟩

theorem bind {p : IProg ε α} {f : α → IProg ε β} {Q : α → Prop} {R : β → Prop} (hp : Says P E p Q) (hf : ∀ a, Q a → Says P E (f a) R) :
    Says P E (p.bind f) R := by
  intro h o
  obtain ⟨h1, h2⟩ := hp h o
  rw [run_bind, seqRun]
  cases hr : (p.run Heap.mach h).2 with
  | error e => exact ⟨h1, by intro h' a' e; cases e⟩
  | ok r =>
    obtain ⟨h', a⟩ := r
    obtain ⟨o', hq⟩ := h2 h' a hr
    obtain ⟨h3, h4⟩ := hf a hq h' o'
    refine ⟨?_, h4⟩
    intro e he
    rcases List.mem_append.1 he with he | he
    · exact h1 e he
    · exact h3 e he

theorem op {o : IOp} {k : o.Res → IProg ε α} {R : o.Res → Prop} {Q : α → Prop}
    (hs : ∀ h, Ok P h → Post (h.step o) fun r => Ok P r.1 ∧ R r.2) (hk : ∀ r, R r → Says P E (k r) Q) : Says P E (.op o k) Q := by
  intro h ok
  simp only [run, Heap.mach]
  cases hr : h.step o with
  | error e => exact ⟨by simp, by intro h' a' e; cases e⟩
  | ok r =>
    obtain ⟨h', a⟩ := r
    obtain ⟨o', hq⟩ := hs h ok _ hr
    exact hk a hq h' o'

theorem mono {p : IProg ε α} {Q R : α → Prop} (hp : Says P E p Q) (h : ∀ a, Q a → R a) : Says P E p R :=
  fun s o => ⟨(hp s o).1, fun h' a e => ⟨((hp s o).2 h' a e).1, h a ((hp s o).2 h' a e).2⟩⟩

theorem adv {i : Nat} {k : Bool → IProg ε α} {Q : α → Prop} (hk : ∀ r, Says P E (k r) Q) : Says P E (.op (.advance i) k) Q :=
  op (R := fun _ => True) (fun h o b e => ⟨advance_post _ o b e, trivial⟩) fun r _ => hk r

theorem curKey {i : Nat} {k : Option Scalar × Option Val → IProg ε α} {Q : α → Prop}
    (hk : ∀ r, (∀ v, r.2 = some v → ValOk P v) → (∀ k, r.1 = some k → P (.scalar k)) → Says P E (k r) Q) : Says P E (.op (.current i) k) Q := by
  refine op (o := .current i) (R := fun r => (∀ v, r.2 = some v → ValOk P v) ∧ ∀ k, r.1 = some k → P (.scalar k)) (fun h o b e => ?_)
    fun r hr => hk r hr.1 hr.2
  simp only [Heap.step, Heap.current] at e
  split at e
  · cases e
  · cases e; exact ⟨o, (o.coll i).cur, (o.coll i).key⟩

theorem cur {i : Nat} {k : Option Scalar × Option Val → IProg ε α} {Q : α → Prop}
    (hk : ∀ r, (∀ v, r.2 = some v → ValOk P v) → Says P E (k r) Q) : Says P E (.op (.current i) k) Q := curKey fun r h _ => hk r h

theorem elided {i : Nat} {k : Bool → IProg ε α} {Q : α → Prop} (hk : ∀ r, Says P E (k r) Q) : Says P E (.op (.elided i) k) Q := by
  refine op (o := .elided i) (R := fun _ => True) (fun h o b e => ?_) fun r _ => hk r
  cases e
  exact ⟨o, trivial⟩

theorem clone {v : Val} {k : Val × Option Nat → IProg ε α} {Q : α → Prop}
    (hk : ∀ r, (ValOk P v → ValOk P r.1) → Says P E (k r) Q) : Says P E (.op (.clone v) k) Q := by
  refine op (o := .clone v) (R := fun r => ValOk P v → ValOk P r.1) (fun h o b e => ?_) hk
  simp only [Heap.step] at e
  cases hc : h.clone v with
  | error e' => rw [hc] at e; cases e
  | ok r => rw [hc] at e; cases e; exact clone_post o r hc

theorem discard {v : Val} {k : Unit → IProg ε α} {Q : α → Prop} (hk : Says P E (k ()) Q) : Says P E (.op (.discard v) k) Q := by
  refine op (o := .discard v) (R := fun _ => True) (fun h o b e => ?_) fun _ _ => hk
  simp only [Heap.step] at e
  cases hc : Heap.discard h.n h v with
  | error e' => rw [hc] at e; cases e
  | ok r => rw [hc] at e; cases e; exact ⟨discard_post _ o r hc, trivial⟩

theorem detach {t : Nat} {k : Unit → IProg ε α} {Q : α → Prop} (hk : Says P E (k ()) Q) : Says P E (.op (.detach t) k) Q := by
  refine op (o := .detach t) (R := fun _ => True) (fun h o b e => ?_) fun _ _ => hk
  simp only [Heap.step, Heap.detach] at e
  cases hc : h.st.detach t with
  | none => rw [hc] at e; cases e
  | some r => rw [hc] at e; cases e; exact ⟨⟨streams_detach o.st hc, o.coll⟩, trivial⟩

theorem copy {v : Val} {k : List Token → IProg ε α} {Q : α → Prop} (hP : Starts P)
    (hk : ∀ r, (ValOk P v → ∀ t ∈ r, P t) → Says P E (k r) Q) : Says P E (.op (.copy v) k) Q :=
  op (o := .copy v) (R := fun r => ValOk P v → ∀ t ∈ r, P t) (fun h o b e => copy_post hP o b e) hk

theorem data {ts : List Token} {k : Nat → IProg ε α} {Q : α → Prop} (ht : ∀ t ∈ ts, P t) (hk : ∀ r, Says P E (k r) Q) :
    Says P E (.op (.data ts) k) Q := by
  refine op (o := .data ts) (R := fun _ => True) (fun h o b e => ?_) fun r _ => hk r
  cases e
  exact ⟨Ok.alloc ⟨streams_data o.st ht, o.coll⟩ ⟨by simp, by simp⟩, trivial⟩

theorem reject {p q : Bytes} {k : Bool → IProg ε α} {Q : α → Prop} (hk : ∀ r, Says P E (k r) Q) : Says P E (.op (.reject p q) k) Q := by
  refine op (o := .reject p q) (R := fun _ => True) (fun h o b e => ?_) fun r _ => hk r
  cases e
  simp only [Heap.reject]
  split
  · exact ⟨o, trivial⟩
  · exact ⟨⟨o.st, o.coll⟩, trivial⟩

theorem putAll {l : List ε} (hl : ∀ e ∈ l, E e) : Says P E (IProg.putAll l) fun _ => True := by
  intro h o
  rw [run_putAll]
  refine ⟨hl, ?_⟩
  intro h' a e
  cases e
  exact ⟨o, trivial⟩

theorem put {e : ε} (he : E e) : Says P E (IProg.put e) fun _ => True := by
  intro h o
  rw [run_put]
  refine ⟨by simpa using he, ?_⟩
  intro h' a e
  cases e
  exact ⟨o, trivial⟩

end Says

theorem detachOpt_says (t : Option Nat) : Says P E (detachOpt t) fun _ => True := by
  cases t with
  | none => exact .ret trivial
  | some t => exact .detach (.ret trivial)

/-- Sequencing with a program about whose result nothing is said. -/
theorem Says.next {p : IProg ε α} {f : α → IProg ε β} {R : β → Prop} (hp : Says P E p fun _ => True) (hf : ∀ a, Says P E (f a) R) :
    Says P E (p.bind f) R := hp.bind fun a _ => hf a

theorem ok_init {ts : List Token} (h : ∀ t ∈ ts, P t) : Ok P (Heap.init ts) :=
  ⟨⟨h, fun p => ⟨by simp [Heap.init, Streams.init, Pool.new], by simp [Heap.init, Streams.init, Pool.new]⟩⟩, fun i => ⟨by simp [Heap.init], by simp [Heap.init]⟩⟩

theorem forEach_key {body : β → Option Scalar → Val → IProg ε β} {T : β → Prop}
    (h : ∀ b k x, T b → (∀ k', k = some k' → P (.scalar k')) → ValOk P x → Says P E (body b k x) T) (i : Nat) : ∀ f b, T b → Says P E (forEach body i f b) T
  | 0, _, _ => .fail
  | f + 1, b, hb => by
    rw [forEach]
    refine .adv fun more => ?_
    split
    · refine .curKey fun kv hkv hk => ?_
      split
      · exact .fail
      · rename_i x hx
        exact (h b kv.1 x hb hk (hkv x hx)).bind fun b' hb' => forEach_key h i f b' hb'
    · exact .ret hb

theorem forEach_says {body : β → Option Scalar → Val → IProg ε β} {T : β → Prop} (h : ∀ b k x, T b → ValOk P x → Says P E (body b k x) T) (i : Nat)
    (f : Nat) (b : β) (hb : T b) : Says P E (forEach body i f b) T := forEach_key (fun b k x hb _ hx => h b k x hb hx) i f b hb

end Verif.Origin
