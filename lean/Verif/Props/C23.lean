import Verif.CursorPoolLemmas

/-!
# C23: cursors are independent readers

`CursorSpec.lean` is the specification: a cursor is a position in the list of all tokens, and
nothing else.
-/

namespace Verif

/-- The specification state of a pool over a stream, before any operation. -/
def APool.new (ts : List Token) : APool := ⟨ts, 0, fun _ => none, 0⟩

/-- The specification state of a pool made from data: one cursor, at the beginning. -/
def APool.fromData (ts : List Token) : APool := ⟨ts, ts.length, fun i => if i = 0 then some 0 else none, 1⟩

/-- Every sequence of operations on the cursors of a pool succeeds (no panic) and gives the results
that independent positions give. -/
theorem C23_refines (ts : List Token) (os : List CurOp) :
    ∃ p, (Pool.new ts).run os = some (p, ((APool.new ts).run os).2) := by
  obtain ⟨p, h, _⟩ := (Pool.Inv.new ts).run os
  exact ⟨p, h⟩

/-- The same for a pool made by `NewCursorFromData`. -/
theorem C23_refines_data (ts : List Token) (os : List CurOp) :
    ∃ p, (Pool.fromData ts).run os = some (p, ((APool.fromData ts).run os).2) := by
  obtain ⟨p, h, _⟩ := (Pool.Inv.fromData ts).run os
  exact ⟨p, h⟩

theorem APool.run_append (a : APool) (os1 os2 : List CurOp) :
    a.run (os1 ++ os2) = (((a.run os1).1.run os2).1, (a.run os1).2 ++ ((a.run os1).1.run os2).2) := by
  induction os1 generalizing a with
  | nil => simp [APool.run]
  | cons o os1 ih => simp [APool.run, ih]

theorem APool.step_all (a : APool) (o : CurOp) : (a.step o).1.all = a.all := by
  cases o with
  | newCursor => rfl
  | clone c => simp only [APool.step]; split <;> rfl
  | next c => simp only [APool.step]; split
              · rfl
              · split <;> rfl
  | detach c => rfl

theorem APool.run_all (a : APool) (os : List CurOp) : (a.run os).1.all = a.all := by
  induction os generalizing a with
  | nil => rfl
  | cons o os ih => simp [APool.run, ih, APool.step_all]

/-- In the specification a cursor that exists sees what a lone reader sees. -/
theorem APool.run_solo (a : APool) (c : Nat) (hc : c < a.nextId) (os : List CurOp) :
    seenBy c os (a.run os).2 = soloReader c ((a.cur c).map a.all.drop) os := by
  induction os generalizing a with
  | nil => simp [seenBy, soloReader]
  | cons o os ih =>
    cases o with
    | newCursor =>
      simp only [APool.run, APool.step, seenBy, soloReader]
      rw [ih _ (by simp; omega)]
      have : c ≠ a.nextId := by omega
      simp [this]
    | clone d =>
      simp only [APool.run, APool.step, seenBy, soloReader]
      split
      · exact ih _ hc
      · rw [ih _ (by simp; omega)]
        have : c ≠ a.nextId := by omega
        simp [this]
    | detach d =>
      simp only [APool.run, APool.step, seenBy, soloReader]
      rw [ih _ (by exact hc)]
      by_cases h : c = d
      · simp [h]
      · simp [h, Ne.symm h]
    | next d =>
      simp only [APool.run, soloReader]
      by_cases h : d = c
      · subst h
        cases hd : a.cur d with
        | none =>
          simp only [APool.step, hd, seenBy, if_true, Option.map_none]
          rw [ih _ (by exact hc), hd]; rfl
        | some n =>
          simp only [Option.map_some]
          cases hn : a.all[n]? with
          | none =>
            have : a.all.length ≤ n := by simpa using hn
            simp only [APool.step, hd, hn, seenBy, if_true, List.drop_eq_nil_of_le this]
            rw [ih _ (by exact hc)]; simp
          | some t =>
            obtain ⟨hlt, hget⟩ := List.getElem?_eq_some_iff.1 hn
            simp only [APool.step, hd, hn, seenBy, if_true, List.drop_eq_getElem_cons hlt, hget]
            rw [ih _ (by exact hc)]; simp
      · simp only [h, if_false]
        simp only [APool.step]
        split
        · simp only [seenBy, h, if_false]; exact ih _ hc
        · split
          · simp only [seenBy, h, if_false]
            rw [ih _ (by exact hc)]; simp [Ne.symm h]
          · simp only [seenBy, h, if_false]
            rw [ih _ (by exact hc)]; simp [Ne.symm h]

/-- Independence: take any history `os1`, and a cursor `c` that exists afterwards.  Whatever is then
done (`os2`) with all the cursors, the results of the calls `next c` are those of a lone reader of
the part of the stream in front of `c`. -/
theorem C23_isolated (ts : List Token) (os1 os2 : List CurOp) (c : Nat)
    (hc : c < ((APool.new ts).run os1).1.nextId) :
    ∃ p1 p2 obs1 obs2, (Pool.new ts).run os1 = some (p1, obs1) ∧ p1.run os2 = some (p2, obs2) ∧
      (Pool.new ts).run (os1 ++ os2) = some (p2, obs1 ++ obs2) ∧
      seenBy c os2 obs2 = soloReader c ((((APool.new ts).run os1).1.cur c).map ts.drop) os2 := by
  obtain ⟨p1, h1, i1⟩ := (Pool.Inv.new ts).run os1
  obtain ⟨p2, h2, i2⟩ := i1.run os2
  refine ⟨p1, p2, _, _, h1, h2, ?_, ?_⟩
  · generalize hp : Pool.new ts = p0 at h1
    clear i1 hp i2 hc
    generalize (APool.run _ os1).2 = obs1 at h1
    generalize (APool.run _ os2).2 = obs2 at h2
    induction os1 generalizing p0 obs1 with
    | nil => simp [Pool.run] at h1 ⊢; obtain ⟨rfl, rfl⟩ := h1; simpa using h2
    | cons o os1 ih =>
      simp only [Pool.run, List.cons_append, Option.bind_eq_bind, Option.bind_eq_some_iff, Prod.exists,
        Option.pure_def, Option.some.injEq, Prod.mk.injEq] at h1 ⊢
      obtain ⟨q, x, hq, q', xs, hq', rfl, rfl⟩ := h1
      exact ⟨q, x, hq, p2, _, ih q _ hq', rfl, rfl⟩
  · have := APool.run_solo _ c hc os2
    rw [APool.run_all] at this
    exact this

/-- Two cursors, one cloned from the other after a token. -/
example : ((Pool.new [.startArr, .elision, .endArr]).run
    [.newCursor, .next 0, .clone 0, .next 0, .next 1, .next 0, .detach 0, .next 0, .next 1]).map (·.2) =
    some [.cursor 0, .token (some .startArr), .cursor 1, .token (some .elision),
      .token (some .elision), .token (some .endArr), .unit, .token none, .token (some .endArr)] := by
  decide

/-- A concrete case of `C23_isolated`: cursor 1 exists after two operations. -/
example : 1 < ((APool.new [.startArr, .endArr]).run [.newCursor, .clone 0]).1.nextId := by decide

end Verif
