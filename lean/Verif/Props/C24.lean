import Verif.CursorPoolLemmas

/-!
# C24: cursor memory is bounded by cursor lag

The claim is false of the code: `AdvanceCursor` does not count tokens freshly read from the
stream, so a cursor that is alone never causes the window to shrink (`C24_violated`).  What holds:
while there are at least two live cursors and none is detached, the window exceeds the lag of
some live cursor by at most 100 tokens (`C24_partial`), and a shift reduces the window exactly to
the lag of the slowest cursor (`C24_shift_partial`).
-/

namespace Verif

/-- The distance between the furthest read token and the live cursor `c`. -/
def Pool.lag (p : Pool) (c : Nat) : Int := p.windowPos + p.window.length - (p.cur c).pos

/-- The state of a lone cursor that has read the tokens `w` and has `rest` to read. -/
def Pool.lone (w rest : List Token) : Pool where
  stream := rest
  window := w
  windowPos := 0
  catchup := 0
  cursors := [0]
  cur := fun i => if i = 0 then ⟨true, w.length⟩ else ⟨false, 0⟩
  nextId := 1

/-- One cursor reading `n` tokens keeps all of them in the window. -/
theorem lone_cursor (ts rest : List Token) (w : List Token) (n : Nat) (h : ts.length = n) :
    ∃ p obs, (Pool.lone w (ts ++ rest)).run (List.replicate n (.next 0)) = some (p, obs) ∧
      p.window = w ++ ts ∧ p.lag 0 = 0 ∧ (p.cur 0).attached = true ∧ p.cursors = [0] := by
  induction ts generalizing w n with
  | nil => subst h; exact ⟨_, _, rfl, by simp [Pool.lone], by simp [Pool.lag, Pool.lone], by simp [Pool.lone], rfl⟩
  | cons t ts ih =>
    subst h
    obtain ⟨p, obs, h1, h2, h3, h4⟩ := ih (w ++ [t]) _ rfl
    refine ⟨p, .token (some t) :: obs, ?_, by simpa using h2, h3, h4⟩
    rw [List.length_cons, List.replicate_succ, Pool.run]
    have : (fun i => if i = 0 then (⟨true, (w.length : Int) + 1⟩ : Cur) else if i = 0 then ⟨true, w.length⟩ else ⟨false, 0⟩) =
        (fun i => if i = 0 then (⟨true, ((w ++ [t]).length : Int)⟩ : Cur) else ⟨false, 0⟩) := by
      funext i; by_cases hi : i = 0 <;> simp [hi]
    simp [Pool.step, Pool.next, Pool.advanceCursor, Pool.setCur, Pool.lone, this] at h1 ⊢
    simp [h1]

/-- There is no constant `K` such that the window is at most the lag of the slowest live cursor
plus `K`: after `K + 1` reads by a lone cursor, which therefore does not lag at all, `K + 1` tokens
are retained. -/
theorem C24_violated :
    ¬ ∃ K : Nat, ∀ (ts : List Token) (os : List CurOp) (p : Pool) (obs : List CurObs) (c : Nat),
      (Pool.new ts).run os = some (p, obs) → c ∈ p.cursors →
      (∀ d ∈ p.cursors, (p.cur c).pos ≤ (p.cur d).pos) →
      (p.window.length : Int) ≤ p.lag c + K := by
  rintro ⟨K, h⟩
  obtain ⟨p, obs, h1, h2, h3, h4, h5⟩ :=
    lone_cursor (List.replicate (K + 1) .startArr) [] [] (K + 1) (by simp)
  have := h (List.replicate (K + 1) .startArr) (.newCursor :: List.replicate (K + 1) (.next 0)) p
    (.cursor 0 :: obs) 0 (by
      rw [Pool.run]
      simp only [Pool.step, Pool.newCursor, Pool.new, Pool.setCur]
      simp [Pool.lone] at h1 ⊢
      rw [h1]; rfl) (by simp [h5]) (by simp [h5])
  simp [h2, h3] at this
  omega

/-- Just after a window shift the window holds what the slowest cursor has still to read, and
nothing else; with no cursor it is empty. -/
theorem C24_shift_partial {p p' : Pool} {a : APool} (h : p.Inv a) (hs : p.advanceWindow = some p') :
    (p'.cursors = [] ∧ p'.window = []) ∨
    ∃ c ∈ p'.cursors, (∀ d ∈ p'.cursors, (p'.cur c).pos ≤ (p'.cur d).pos) ∧
      (p'.window.length : Int) = p'.lag c := by
  have hl := h.window_length
  unfold Pool.advanceWindow at hs
  cases hm : p.minPos with
  | none =>
    left
    simp only [hm, Option.some.injEq] at hs
    subst hs
    exact ⟨Pool.minPos_none p hm, rfl⟩
  | some m =>
    right
    obtain ⟨h1, c, hc, h2⟩ := Pool.minPos_some p hm
    simp only [hm] at hs
    split at hs
    · cases hs
    · split at hs
      · cases hs
        refine ⟨c, hc, fun d hd => ?_, ?_⟩
        · have := h1 d hd; omega
        · simp only [Pool.lag]; omega
      · cases hs
        refine ⟨c, hc, fun d hd => ?_, ?_⟩
        · have := h1 d hd; simp only; omega
        · simp only [Pool.lag]
          obtain ⟨n0, hn0⟩ := Option.isSome_iff_exists.1 ((h.reg c).1 hc)
          have := h.pos _ _ hn0
          have := h.hi _ _ hn0
          simp; omega

/-- Operations that do not detach a cursor. -/
def CurOp.keeps : CurOp → Bool
  | .detach _ => false
  | _ => true

/-- The invariant behind `C24_partial`: two live cursors, one of which is at most `catchup`
tokens from the start of the window, and the counter is at most 100. -/
structure Pool.Lagged (p : Pool) : Prop where
  two : ∃ c d, c ∈ p.cursors ∧ d ∈ p.cursors ∧ c ≠ d ∧ (p.cur c).pos - p.windowPos ≤ p.catchup
  cap : p.catchup ≤ 100

theorem Pool.two_cursors {p : Pool} {c d : Nat} (hc : c ∈ p.cursors) (hd : d ∈ p.cursors)
    (hcd : c ≠ d) (e : Nat) : ∃ f ∈ p.cursors, e ≠ f := by
  by_cases h : e = c
  · exact ⟨d, hd, by rw [h]; exact hcd⟩
  · exact ⟨c, hc, h⟩

theorem Pool.Lagged.updateCatchupCount {p p' : Pool} {a : APool} (h : p.Inv a)
    (hc : ∃ c d, c ∈ p.cursors ∧ d ∈ p.cursors ∧ c ≠ d ∧ (p.cur c).pos - p.windowPos ≤ p.catchup + 1)
    (hu : p.updateCatchupCount 1 = some p') : p'.Lagged := by
  unfold Pool.updateCatchupCount at hu
  simp only at hu
  split at hu
  · obtain ⟨q, hq, hi, hcs, hcur⟩ := (h.setCatchup 0).advanceWindow
    rw [hq] at hu; cases hu
    have hsh := C24_shift_partial (h.setCatchup 0) hq
    obtain ⟨c, d, h1, h2, h3, h4⟩ := hc
    have hc0 : p'.catchup = 0 := by
      unfold Pool.advanceWindow at hq
      split at hq
      · cases hq; rfl
      · simp only at hq
        split at hq
        · cases hq
        · split at hq <;> cases hq <;> rfl
    have hcs' : p'.cursors = p.cursors := hcs
    rcases hsh with ⟨h5, _⟩ | ⟨e, he, _, h6⟩
    · rw [hcs'] at h5; rw [h5] at h1; cases h1
    · obtain ⟨f, hf, hef⟩ := Pool.two_cursors (by rw [hcs']; exact h1) (by rw [hcs']; exact h2) h3 e
      refine ⟨⟨e, f, he, hf, hef, ?_⟩, by omega⟩
      simp only [Pool.lag] at h6; omega
  · cases hu
    exact ⟨hc, by simp only; omega⟩

theorem Pool.Lagged.step {p p' : Pool} {a : APool} {o : CurOp} {x : CurObs} (h : p.Inv a) (hl : p.Lagged)
    (hk : o.keeps = true) (hs : p.step o = some (p', x)) (hx : x ≠ .token none) : p'.Lagged := by
  obtain ⟨⟨c, d, hc, hd, hcd, hlag⟩, hcap⟩ := hl
  have hfr : ∀ i ∈ p.cursors, p.nextId ≠ i := by
    rintro i hi rfl
    have := (h.reg _).1 hi
    rw [h.fresh _ (Nat.le_refl _)] at this
    cases this
  cases o with
  | detach => cases hk
  | newCursor =>
    simp only [Pool.step, Pool.newCursor, Option.some.injEq, Prod.mk.injEq] at hs
    obtain ⟨rfl, _⟩ := hs
    refine ⟨⟨c, d, by simp [hc], by simp [hd], hcd, ?_⟩, hcap⟩
    simp only [Pool.setCur, if_neg (hfr c hc).symm]
    exact hlag
  | clone e =>
    simp only [Pool.step, Pool.clone] at hs
    split at hs
    · simp only [Option.some.injEq, Prod.mk.injEq] at hs
      obtain ⟨rfl, _⟩ := hs
      refine ⟨⟨c, d, by simp [hc], by simp [hd], hcd, ?_⟩, hcap⟩
      simp only [Pool.setCur, if_neg (hfr c hc).symm]
      exact hlag
    · simp only [Option.some.injEq, Prod.mk.injEq] at hs
      obtain ⟨rfl, _⟩ := hs
      exact ⟨⟨c, d, hc, hd, hcd, hlag⟩, hcap⟩
  | next e =>
    cases hae : a.cur e with
    | none =>
      have hatt : (p.cur e).attached = false := by simp [h.att, hae]
      simp [Pool.step, Pool.next, hatt] at hs
      exact absurd hs.2.symm hx
    | some n =>
      have hatt : (p.cur e).attached = true := by simp [h.att, hae]
      have hpos := h.pos _ _ hae
      have hlo := h.lo _ _ hae
      have hhi := h.hi _ _ hae
      have hwl := h.window_length
      have he : e ∈ p.cursors := (h.reg e).2 (by simp [hae])
      simp only [Pool.step, Pool.next, hatt, if_true, Pool.advanceCursor] at hs
      split at hs
      · -- in the window
        split at hs
        · simp at hs
        · simp only [Option.bind_eq_bind, Option.pure_def, Option.bind_eq_some_iff, Option.some.injEq,
            Prod.mk.injEq, Prod.exists] at hs
          obtain ⟨q, t, ⟨t', ht', p1, hp1, rfl, rfl⟩, rfl, rfl⟩ := hs
          rename_i hin _
          have hinv : (p.setCur e ⟨true, (p.cur e).pos + 1⟩).Inv
              { a with cur := fun i => if i = e then some (n + 1) else a.cur i } := by
            constructor
            case att => intro i; simp only [Pool.setCur]; split
                        · simp
                        · exact h.att i
            case pos => intro i m; simp only [Pool.setCur]; split
                        · simp; omega
                        · exact h.pos i m
            case lo => intro i m; simp only [Pool.setCur]; split
                       · simp; omega
                       · exact h.lo i m
            case hi => intro i m; simp only; split
                       · simp; omega
                       · exact h.hi i m
            case reg =>
              intro i
              simp only [Pool.setCur, h.reg]
              split
              · rename_i hi; subst hi; simp [hae]
              · rfl
            case fresh =>
              intro i hi
              simp only [Pool.setCur] at hi
              have : i ≠ e := by
                rintro rfl
                have := h.fresh i hi
                rw [hae] at this; cases this
              simp only [this, if_false]
              exact h.fresh i hi
            all_goals (cases h; assumption)
          refine Pool.Lagged.updateCatchupCount hinv ⟨c, d, hc, hd, hcd, ?_⟩ hp1
          simp only [Pool.setCur]
          split
          · rename_i hce; subst hce; simp only; omega
          · omega
      · split at hs
        · simp at hs
        · cases hst : p.stream with
          | nil =>
            simp only [hst, Option.bind_eq_bind, Option.pure_def, Option.bind_eq_some_iff, Option.some.injEq,
              Prod.mk.injEq, Prod.exists] at hs
            obtain ⟨q, t, ⟨q', _, _, rfl⟩, _, rfl⟩ := hs
            exact absurd rfl hx
          | cons t rest =>
            simp only [hst, Option.bind_eq_bind, Option.bind_some, Option.pure_def, Option.some.injEq,
              Prod.mk.injEq] at hs
            obtain ⟨rfl, _⟩ := hs
            -- a cursor other than `e` that is as close to the start
            have : ∃ f g, f ∈ p.cursors ∧ g ∈ p.cursors ∧ f ≠ g ∧ f ≠ e ∧
                (p.cur f).pos - p.windowPos ≤ p.catchup := by
              by_cases hce : c = e
              · obtain ⟨m, hm⟩ := Option.isSome_iff_exists.1 ((h.reg d).1 hd)
                have h1 := h.pos _ _ hm
                have h2 := h.hi _ _ hm
                refine ⟨d, c, hd, hc, hcd.symm, by rw [← hce]; exact hcd.symm, ?_⟩
                rw [hce] at hlag
                omega
              · exact ⟨c, d, hc, hd, hcd, hce, hlag⟩
            obtain ⟨f, g, hf, hg, hfg, hfe, hlag'⟩ := this
            refine ⟨⟨f, g, hf, hg, hfg, ?_⟩, hcap⟩
            simp only [Pool.setCur, if_neg hfe]
            exact hlag'

/-- While there are two live cursors and no cursor is detached or reaches the end of the stream,
the window is at most 100 tokens longer than the lag of some live cursor, hence than the lag of the
slowest one.  Missing from the full claim: histories with a lone cursor (where it is false, see
`C24_violated`) and histories with detached cursors (where it is false for the same reason). -/
theorem C24_partial (ts : List Token) (os : List CurOp) (p : Pool) (obs : List CurObs)
    (hk : ∀ o ∈ os, o.keeps = true) (hx : .token none ∉ obs)
    (hr : (Pool.new ts).run (.newCursor :: .newCursor :: os) = some (p, obs)) :
    ∃ c ∈ p.cursors, (p.window.length : Int) ≤ p.lag c + 100 := by
  have key : ∀ (os : List CurOp) (q : Pool) (a : APool) (obs : List CurObs), q.Inv a → q.Lagged →
      (∀ o ∈ os, o.keeps = true) → .token none ∉ obs → q.run os = some (p, obs) →
      p.Lagged ∧ ∃ a, p.Inv a := by
    intro os
    induction os with
    | nil =>
      intro q a obs hi hl _ _ hr
      simp [Pool.run] at hr
      obtain ⟨rfl, _⟩ := hr
      exact ⟨hl, a, hi⟩
    | cons o os ih =>
      intro q a obs hi hl hk hx hr
      obtain ⟨q', h1, h2⟩ := hi.step o
      simp only [Pool.run, h1, Option.bind_eq_bind, Option.bind_some, Option.pure_def,
        Option.bind_eq_some_iff, Option.some.injEq, Prod.mk.injEq, Prod.exists] at hr
      obtain ⟨_, obs', h3, rfl, rfl⟩ := hr
      simp at hx
      exact ih q' _ _ h2 (Pool.Lagged.step hi hl (hk o (by simp)) h1 (fun h => hx.1 h.symm))
        (fun o ho => hk o (by simp [ho])) hx.2 h3
  simp only [Pool.run, Pool.step, Option.bind_eq_bind, Option.bind_some, Option.pure_def,
    Option.bind_eq_some_iff, Option.some.injEq, Prod.mk.injEq, Prod.exists] at hr
  obtain ⟨q, obs', ⟨q', obs'', h3, rfl, rfl⟩, rfl, rfl⟩ := hr
  obtain ⟨p1, e1, i1⟩ := (Pool.Inv.new ts).step .newCursor
  obtain ⟨p2, e2, i2⟩ := i1.step .newCursor
  simp only [Pool.step, Option.some.injEq, Prod.mk.injEq] at e1 e2
  obtain ⟨rfl, _⟩ := e1
  obtain ⟨rfl, _⟩ := e2
  obtain ⟨⟨⟨c, d, hc, hd, hcd, hlag⟩, hcap⟩, a, hi⟩ := key os _ _ _ i2
    ⟨⟨0, 1, by simp [Pool.newCursor, Pool.new, Pool.setCur], by simp [Pool.newCursor, Pool.new, Pool.setCur], by decide,
      by simp [Pool.newCursor, Pool.new, Pool.setCur]⟩, by simp [Pool.newCursor, Pool.new, Pool.setCur]⟩ hk
    (by simp at hx; exact hx) h3
  refine ⟨c, hc, ?_⟩
  simp only [Pool.lag]
  omega

/-- The hypotheses of `C24_partial` are met by two cursors that advance in turn. -/
example : ∃ p obs, (Pool.new [.startArr, .elision, .endArr]).run
    [.newCursor, .newCursor, .next 0, .next 1, .next 1] = some (p, obs) ∧ .token none ∉ obs ∧
    p.window.length = 2 := by
  refine ⟨_, _, rfl, by decide, rfl⟩

end Verif
