import Verif.CursorData
import Verif.Props.C23

/-!
# C25: data-backed cursors do not damage the data

Delivery holds (`C25_delivers`).  The caller's slice is changed after more than 100 counted
steps (`C25_violated`, `C25_second_reader_violated`); it is not changed by short histories
(`C25_partial`).
-/

set_option linter.unusedSimpArgs false
set_option linter.unusedVariables false

namespace Verif

/-- The view of a shared window is what the plain pool model has as window. -/
theorem DPool.step_view {d : DPool} {arr : List Token} {o : CurOp} {p' : Pool} {x : CurObs}
    (hl : d.shared = true → d.len ≤ arr.length) (hw : d.shared = true → (d.view arr).stream = [])
    (h : (d.view arr).step o = some (p', x))
    (hwin : p'.windowPos = (d.view arr).windowPos → p'.window = (d.view arr).window ∨ (d.view arr).stream ≠ [])
    (hlen : p'.window.length ≤ (d.view arr).window.length ∨ (d.view arr).stream ≠ []) :
    ∃ d' arr', d.step arr o = some (d', arr', x) ∧ d'.view arr' = p' ∧
      (d'.shared = true → d'.len ≤ arr'.length) ∧ (d'.shared = true → d.shared = true) ∧ arr'.length = arr.length := by
  unfold DPool.step
  simp only [h, Option.bind_eq_bind, Option.bind_some, Option.pure_def]
  by_cases hs : d.shared = true
  · have hst := hw hs
    have hview : (d.view arr).window = arr.take d.len := by simp [DPool.view, hs]
    have hlen' : p'.window.length ≤ arr.length := by
      rcases hlen with h | h
      · rw [hview] at h; simp at h; omega
      · exact absurd hst h
    by_cases hp : p'.windowPos = (d.view arr).windowPos
    · simp only [hs, hp, bne_self_eq_false, Bool.and_false, Bool.false_eq_true, if_false]
      refine ⟨_, _, rfl, ?_, fun _ => hl hs, fun _ => by simp, rfl⟩
      simp only [DPool.view, hs, if_true]
      rcases hwin hp with h | h
      · rw [hview] at h; rw [← h]
      · exact absurd hst h
    · have : (p'.windowPos != (d.view arr).windowPos) = true := by simp [hp]
      simp only [hs, this, Bool.and_self, if_true]
      split
      · refine ⟨_, _, rfl, ?_, ?_, fun _ => by simp, ?_⟩
        · simp [DPool.view, hs]
        · simp
        · simp; omega
      · exact ⟨_, _, rfl, by simp [DPool.view], by simp, by simp, rfl⟩
  · simp only [Bool.not_eq_true] at hs
    simp only [hs, Bool.false_and, Bool.false_eq_true, if_false]
    exact ⟨_, _, rfl, by simp [DPool.view, hs], by simp [hs], by simp [hs], rfl⟩

/-- What an operation does to the window when the underlying stream is exhausted. -/
theorem Pool.advanceWindow_window {p p' : Pool} {a : APool} (hi : p.Inv a) (hne : p.cursors ≠ [])
    (h : p.advanceWindow = some p') :
    p'.stream = p.stream ∧ p'.window.length ≤ p.window.length ∧
    (p'.windowPos = p.windowPos → p'.window = p.window) ∧ p.windowPos ≤ p'.windowPos := by
  unfold Pool.advanceWindow at h
  cases hm : p.minPos with
  | none => exact absurd (Pool.minPos_none p hm) hne
  | some m =>
    simp only [hm] at h
    split at h
    · cases h
    · split at h
      · cases h; simp
      · cases h; simp; omega

theorem Pool.updateCatchupCount_window {p p' : Pool} {a : APool} (hi : p.Inv a) (hne : p.cursors ≠ []) (n : Int)
    (h : p.updateCatchupCount n = some p') :
    p'.stream = p.stream ∧ p'.window.length ≤ p.window.length ∧
    (p'.windowPos = p.windowPos → p'.window = p.window) ∧
    (p.catchup + n ≤ 100 → p'.windowPos = p.windowPos ∧ p'.catchup = p.catchup + n) := by
  unfold Pool.updateCatchupCount at h
  simp only at h
  split at h
  · obtain ⟨h1, h2, h3, h4⟩ := Pool.advanceWindow_window (hi.setCatchup 0) hne h
    exact ⟨h1, h2, h3, fun _ => by omega⟩
  · cases h; simp

theorem Pool.detachCursor_window {p p' : Pool} {a : APool} (hi : p.Inv a) (c : Nat)
    (h : p.detachCursor c = some p') (hc : c ∈ p.cursors) :
    p'.stream = p.stream ∧ p'.window.length ≤ p.window.length ∧
    (p'.windowPos = p.windowPos → p'.window = p.window) ∧
    (p.catchup + ((p.cur c).pos - p.windowPos) ≤ 100 → p'.windowPos = p.windowPos ∧
      p'.catchup = p.catchup + ((p.cur c).pos - p.windowPos)) := by
  unfold Pool.detachCursor at h
  simp only [hc, if_true, Option.bind_eq_bind, Option.pure_def, Option.bind_eq_some_iff, Option.some.injEq] at h
  obtain ⟨q, h1, _, rfl, rfl⟩ := h
  have := Pool.updateCatchupCount_window hi (List.ne_nil_of_mem hc) _ h1
  exact this

theorem Pool.step_window {p p' : Pool} {a : APool} (hi : p.Inv a) (hs : p.stream = []) {o : CurOp} {x : CurObs}
    (h : p.step o = some (p', x)) :
    p'.stream = [] ∧ p'.window.length ≤ p.window.length ∧
    (p'.windowPos = p.windowPos → p'.window = p.window) ∧
    (p.catchup + p.window.length + 1 ≤ 100 → p'.windowPos = p.windowPos ∧
      p'.catchup ≤ p.catchup + p.window.length + 1) := by
  have hl := hi.window_length
  cases o with
  | newCursor =>
    simp only [Pool.step, Pool.newCursor, Option.some.injEq, Prod.mk.injEq] at h
    obtain ⟨rfl, _⟩ := h
    simp [Pool.setCur, hs]; omega
  | clone c =>
    simp only [Pool.step, Pool.clone] at h
    split at h
    all_goals
      simp only [Option.some.injEq, Prod.mk.injEq] at h
      obtain ⟨rfl, _⟩ := h
      simp [Pool.setCur, hs]; omega
  | detach c =>
    simp only [Pool.step, Pool.detach] at h
    split at h
    · rename_i hatt
      simp only [Option.bind_eq_bind, Option.pure_def, Option.bind_eq_some_iff, Option.some.injEq, Prod.mk.injEq] at h
      obtain ⟨q, h1, rfl, _⟩ := h
      rw [hi.att] at hatt
      obtain ⟨n, hn⟩ := Option.isSome_iff_exists.1 hatt
      have := hi.pos _ _ hn
      have := hi.hi _ _ hn
      obtain ⟨h2, h3, h4, h5⟩ := Pool.detachCursor_window hi c h1 ((hi.reg c).2 hatt)
      refine ⟨by rw [h2, hs], h3, h4, fun h6 => ?_⟩
      obtain ⟨h7, h8⟩ := h5 (by omega)
      exact ⟨h7, by omega⟩
    · simp only [Option.bind_eq_bind, Option.bind_some, Option.pure_def, Option.some.injEq, Prod.mk.injEq] at h
      obtain ⟨rfl, _⟩ := h
      simp [hs]; omega
  | next c =>
    simp only [Pool.step, Pool.next] at h
    split at h
    · rename_i hatt
      rw [hi.att] at hatt
      obtain ⟨n, hn⟩ := Option.isSome_iff_exists.1 hatt
      have hpos := hi.pos _ _ hn
      have hhi := hi.hi _ _ hn
      have hlo := hi.lo _ _ hn
      have hreg := (hi.reg c).2 hatt
      unfold Pool.advanceCursor at h
      simp only at h
      split at h
      · split at h
        · simp at h
        · simp only [Option.bind_eq_bind, Option.pure_def, Option.bind_eq_some_iff, Option.some.injEq,
            Prod.mk.injEq, Prod.exists] at h
          obtain ⟨q, t, ⟨t', ht', p1, hp1, rfl, rfl⟩, rfl, rfl⟩ := h
          have hinv : (p.setCur c ⟨true, (p.cur c).pos + 1⟩).Inv
              { a with cur := fun i => if i = c then some (n + 1) else a.cur i } := by
            constructor
            case att => intro i; simp only [Pool.setCur]; split
                        · simp
                        · exact hi.att i
            case pos => intro i m; simp only [Pool.setCur]; split
                        · simp; omega
                        · exact hi.pos i m
            case lo => intro i m; simp only [Pool.setCur]; split
                       · simp; omega
                       · exact hi.lo i m
            case hi => intro i m; simp only; split
                       · simp; omega
                       · exact hi.hi i m
            case reg =>
              intro i
              simp only [Pool.setCur, hi.reg]
              split
              · rename_i hi; subst hi; simp [hn]
              · rfl
            case fresh =>
              intro i hi'
              simp only [Pool.setCur] at hi'
              have : i ≠ c := by
                rintro rfl
                have := hi.fresh i hi'
                rw [hn] at this; cases this
              simp only [this, if_false]
              exact hi.fresh i hi'
            all_goals (cases hi; assumption)
          obtain ⟨h2, h3, h4, h5⟩ := Pool.updateCatchupCount_window hinv (List.ne_nil_of_mem hreg) 1 hp1
          refine ⟨by rw [h2]; exact hs, h3, h4, fun h6 => ?_⟩
          obtain ⟨h7, h8⟩ := h5 (by simp only [Pool.setCur]; omega)
          exact ⟨h7, by rw [h8]; simp only [Pool.setCur]; omega⟩
      · split at h
        · simp at h
        · simp only [hs, Option.bind_eq_bind, Option.pure_def, Option.bind_eq_some_iff, Option.some.injEq,
            Prod.mk.injEq, Prod.exists] at h
          obtain ⟨q, t, ⟨q', h1, rfl, rfl⟩, rfl, rfl⟩ := h
          obtain ⟨h2, h3, h4, h5⟩ := Pool.detachCursor_window hi c h1 hreg
          refine ⟨by rw [h2, hs], h3, h4, fun h6 => ?_⟩
          obtain ⟨h7, h8⟩ := h5 (by omega)
          exact ⟨h7, by omega⟩
    · simp only [Option.bind_eq_bind, Option.bind_some, Option.pure_def, Option.some.injEq, Prod.mk.injEq] at h
      obtain ⟨rfl, _⟩ := h
      simp [hs]; omega

theorem DPool.run_view (os : List CurOp) {d : DPool} {arr : List Token} {a : APool}
    (hi : (d.view arr).Inv a) (hst : (d.view arr).stream = []) (hl : d.shared = true → d.len ≤ arr.length) :
    ∃ d' arr', d.run arr os = some (d', arr', (a.run os).2) := by
  induction os generalizing d arr a with
  | nil => exact ⟨d, arr, by simp [DPool.run, APool.run]⟩
  | cons o os ih =>
    obtain ⟨p', h1, h2⟩ := hi.step o
    obtain ⟨w1, w2, w3, _⟩ := Pool.step_window hi hst h1
    obtain ⟨d1, arr1, h3, h4, h5, h6, _⟩ := DPool.step_view hl (fun _ => hst) h1 (fun h => .inl (w3 h)) (.inl w2)
    obtain ⟨d2, arr2, h7⟩ := ih (d := d1) (arr := arr1) (a := (a.step o).1) (by rw [h4]; exact h2)
      (by rw [h4]; exact w1) h5
    exact ⟨d2, arr2, by simp [DPool.run, APool.run, h3, h7]⟩

/-- A pool made from data, whose array nobody else uses, delivers to all its cursors what
independent positions in the data deliver, whatever the capacity of the slice. -/
theorem C25_delivers (data : List Token) (cap : Nat) (os : List CurOp) :
    ∃ d arr, (DPool.fromData data.length cap).run data os =
      some (d, arr, ((APool.fromData data).run os).2) := by
  apply DPool.run_view
  · have := Pool.Inv.fromData data
    simpa [DPool.view, DPool.fromData, Pool.fromData, APool.fromData] using this
  · simp [DPool.view, DPool.fromData, Pool.fromData]
  · simp [DPool.fromData]

/-- A list of 102 tokens: an array of a hundred `null` elements. -/
def longData : List Token :=
  .startArr :: List.replicate 100 (.scalar ⟨b%"null", .null, false, true, true⟩) ++ [.endArr]

/-- Reading 101 tokens changes the caller's slice. -/
theorem C25_violated :
    ∃ d arr obs, (DPool.fromData 102 102).run longData (List.replicate 101 (.next 0)) = some (d, arr, obs) ∧
      longData.length = 102 ∧ arr ≠ longData := by
  have h : (((DPool.fromData 102 102).run longData (List.replicate 101 (.next 0))).map
      fun r => decide (r.2.1 ≠ longData)) = some true := by decide +kernel
  cases hr : (DPool.fromData 102 102).run longData (List.replicate 101 (.next 0)) with
  | none => rw [hr] at h; cases h
  | some r =>
    rw [hr] at h
    exact ⟨r.1, r.2.1, r.2.2, rfl, by decide +kernel, by simpa using h⟩

/-- A second reader of the same slice then gets the end of the array as its first token. -/
theorem C25_second_reader_violated :
    ∃ d arr obs d2 arr2, (DPool.fromData 102 102).run longData (List.replicate 101 (.next 0)) = some (d, arr, obs) ∧
      (DPool.fromData 102 102).run arr [.next 0] = some (d2, arr2, [.token (some .endArr)]) ∧
      longData.head? = some .startArr := by
  have h : (((DPool.fromData 102 102).run longData (List.replicate 101 (.next 0))).bind
      fun r => (((DPool.fromData 102 102).run r.2.1 [.next 0]).map (·.2.2))) =
      some [.token (some .endArr)] := by decide +kernel
  simp only [Option.bind_eq_some_iff, Option.map_eq_some_iff] at h
  obtain ⟨r, h1, r2, h2, h3⟩ := h
  exact ⟨r.1, r.2.1, r.2.2, r2.1, r2.2.1, h1, by rw [h2, ← h3], rfl⟩

/-- Short histories over short slices leave the slice alone.  Missing from the full claim: histories
after which more than 100 steps have been counted, where it is false. -/
theorem C25_partial (data : List Token) (cap : Nat) (os : List CurOp)
    (hshort : os.length * (data.length + 1) ≤ 100) :
    ∃ d, (DPool.fromData data.length cap).run data os =
      some (d, data, ((APool.fromData data).run os).2) := by
  have key : ∀ (os : List CurOp) (d : DPool) (a : APool) (k : Nat), (d.view data).Inv a →
      (d.view data).stream = [] → d.shared = true → d.len = data.length →
      (d.view data).catchup ≤ k → k + os.length * (data.length + 1) ≤ 100 →
      ∃ d', d.run data os = some (d', data, (a.run os).2) := by
    intro os
    induction os with
    | nil => intro d a k _ _ _ _ _ _; exact ⟨d, by simp [DPool.run, APool.run]⟩
    | cons o os ih =>
      intro d a k hi hst hs hlen hk hb
      have hwl : (d.view data).window.length = data.length := by simp [DPool.view, hs, hlen]
      obtain ⟨p', h1, h2⟩ := hi.step o
      obtain ⟨w1, w2, w3, w4⟩ := Pool.step_window hi hst h1
      have hmul : (os.length + 1) * (data.length + 1) = os.length * (data.length + 1) + (data.length + 1) := by
        rw [Nat.add_mul, Nat.one_mul]
      simp only [List.length_cons, hmul] at hb
      obtain ⟨w5, w6⟩ := w4 (by rw [hwl]; omega)
      have hstep : d.step data o = some ({ d with pool := p' }, data, (a.step o).2) := by
        unfold DPool.step
        simp only [h1, Option.bind_eq_bind, Option.bind_some, Option.pure_def]
        simp [w5]
      have hview : ({ d with pool := p' } : DPool).view data = p' := by
        have := w3 w5
        simp only [DPool.view, hs, if_true] at this ⊢
        rw [← this]
      obtain ⟨d', h3⟩ := ih { d with pool := p' } (a.step o).1 (k + data.length + 1) (by rw [hview]; exact h2)
        (by rw [hview]; exact w1) hs hlen (by rw [hview]; rw [hwl] at w6; omega) (by omega)
      exact ⟨d', by simp [DPool.run, APool.run, hstep, h3]⟩
  refine key os _ _ 0 ?_ ?_ rfl rfl ?_ (by omega)
  · have := Pool.Inv.fromData data
    simpa [DPool.view, DPool.fromData, Pool.fromData, APool.fromData] using this
  · simp [DPool.view, DPool.fromData, Pool.fromData]
  · simp [DPool.view, DPool.fromData, Pool.fromData]

example : [CurOp.next 0, .clone 0, .next 1, .detach 0].length * ([Token.startArr, .elision, .endArr].length + 1) ≤ 100 := by
  decide

end Verif
