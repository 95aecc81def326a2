import Verif.CursorSpec

/-! # Refinement of the cursor pool to independent positions (helper lemmas) -/

set_option linter.unusedSimpArgs false

namespace Verif

namespace Pool

/-- The refinement invariant. -/
structure Inv (p : Pool) (a : APool) : Prop where
  nextId : p.nextId = a.nextId
  wpos : 0 ≤ p.windowPos
  stream : p.stream = a.all.drop a.frontier
  fr : a.frontier ≤ a.all.length
  window : p.window = (a.all.take a.frontier).drop p.windowPos.toNat
  wfr : p.windowPos ≤ a.frontier
  att : ∀ c, (p.cur c).attached = (a.cur c).isSome
  pos : ∀ c n, a.cur c = some n → (p.cur c).pos = n
  lo : ∀ c n, a.cur c = some n → p.windowPos ≤ n
  hi : ∀ c n, a.cur c = some n → n ≤ a.frontier
  reg : ∀ c, c ∈ p.cursors ↔ (a.cur c).isSome
  nodup : p.cursors.Nodup
  fresh : ∀ c, p.nextId ≤ c → a.cur c = none

theorem minPos_aux (p : Pool) (l : List Nat) (m : Option Int) :
    (∀ r, l.foldl (fun m c => minStep (p.cur c).pos m) m = some r →
      (∀ x, m = some x → r ≤ x) ∧ (∀ c ∈ l, r ≤ (p.cur c).pos) ∧
      (m = some r ∨ ∃ c ∈ l, (p.cur c).pos = r)) := by
  induction l generalizing m with
  | nil => intro r h; simp at h; subst h; simp
  | cons c l ih =>
    intro r h
    simp only [List.foldl_cons] at h
    obtain ⟨h1, h2, h3⟩ := ih _ r h
    cases m with
    | none =>
      simp [minStep] at h1 h3
      refine ⟨by simp, ?_, ?_⟩
      · intro c' hc'
        rcases List.mem_cons.1 hc' with rfl | h
        · exact h1
        · exact h2 _ h
      · right
        rcases h3 with h3 | ⟨c', hc', h3⟩
        · exact ⟨c, by simp, h3⟩
        · exact ⟨c', by simp [hc'], h3⟩
    | some m =>
      have hr : r ≤ m ∧ r ≤ (p.cur c).pos := by
        simp only [minStep] at h1
        split at h1
        · have := h1 _ rfl; omega
        · have := h1 _ rfl; omega
      refine ⟨?_, ?_, ?_⟩
      · intro x hx; cases hx; exact hr.1
      · intro c' hc'
        rcases List.mem_cons.1 hc' with rfl | h
        · exact hr.2
        · exact h2 _ h
      · rcases h3 with h3 | ⟨c', hc', h3⟩
        · simp only [minStep] at h3
          split at h3
          · right; exact ⟨c, by simp, by simpa using h3⟩
          · left; exact h3
        · right; exact ⟨c', by simp [hc'], h3⟩

theorem minPos_some (p : Pool) {r : Int} (h : p.minPos = some r) :
    (∀ c ∈ p.cursors, r ≤ (p.cur c).pos) ∧ ∃ c ∈ p.cursors, (p.cur c).pos = r := by
  obtain ⟨_, h2, h3⟩ := minPos_aux p p.cursors none r h
  exact ⟨h2, by simpa using h3⟩

theorem minPos_none_aux (p : Pool) (l : List Nat) (m : Int) :
    (l.foldl (fun m c => minStep (p.cur c).pos m) (some m)).isSome := by
  induction l generalizing m with
  | nil => simp
  | cons c l ih =>
    simp only [List.foldl_cons, minStep]
    split <;> exact ih _

theorem minPos_none (p : Pool) (h : p.minPos = none) : p.cursors = [] := by
  unfold minPos at h
  cases hc : p.cursors with
  | nil => rfl
  | cons c l =>
    rw [hc] at h
    rw [List.foldl_cons] at h
    have := minPos_none_aux p l (p.cur c).pos
    rw [show minStep (p.cur c).pos none = some (p.cur c).pos from rfl] at h
    simp [h] at this

theorem Inv.window_length {p : Pool} {a : APool} (h : Inv p a) :
    (p.window.length : Int) = a.frontier - p.windowPos := by
  have := h.window; have := h.wfr; have := h.wpos; have := h.fr
  rw [h.window]; simp; omega

/-- Changing the catch-up counter does not matter. -/
theorem Inv.setCatchup {p : Pool} {a : APool} (h : Inv p a) (n : Int) :
    Inv { p with catchup := n } a := by
  cases h; constructor <;> assumption

theorem Inv.advanceWindow {p : Pool} {a : APool} (h : Inv p a) :
    ∃ p', p.advanceWindow = some p' ∧ Inv p' a ∧ p'.cursors = p.cursors ∧ p'.cur = p.cur := by
  unfold Pool.advanceWindow
  cases hm : p.minPos with
  | none =>
    have hc := minPos_none p hm
    have hnone : ∀ c, a.cur c = none := by
      intro c
      have := h.reg c
      rw [hc] at this
      cases hac : a.cur c <;> simp_all
    refine ⟨_, rfl, ?_, rfl, rfl⟩
    have hl := h.window_length
    have := h.wpos
    constructor
    case window =>
      simp
      omega
    case wpos => simp; omega
    case wfr => simp; omega
    case lo => intro c n hn; simp [hnone] at hn
    all_goals (cases h; assumption)
  | some m =>
    obtain ⟨h1, c0, hc0, h2⟩ := minPos_some p hm
    obtain ⟨n0, hn0⟩ := Option.isSome_iff_exists.1 ((h.reg c0).1 hc0)
    have hp0 := h.pos _ _ hn0
    have hlo0 := h.lo _ _ hn0
    have hhi0 := h.hi _ _ hn0
    have hge : ¬ m - p.windowPos < 0 := by omega
    simp only [hge, if_false]
    by_cases hz : m - p.windowPos = 0
    · simp only [hz, if_true]; exact ⟨p, rfl, h, rfl, rfl⟩
    · simp only [hz, if_false]
      refine ⟨_, rfl, ?_, rfl, rfl⟩
      have := h.wpos
      constructor
      case window =>
        simp only
        rw [h.window, List.drop_drop]
        congr 1; omega
      case wpos => simp only; omega
      case wfr => simp only; omega
      case lo =>
        intro c n hn
        have := h1 c ((h.reg c).2 (by simp [hn]))
        have := h.pos _ _ hn
        simp only; omega
      all_goals (cases h; assumption)

theorem Inv.updateCatchupCount {p : Pool} {a : APool} (h : Inv p a) (n : Int) :
    ∃ p', p.updateCatchupCount n = some p' ∧ Inv p' a ∧ p'.cursors = p.cursors ∧ p'.cur = p.cur := by
  unfold Pool.updateCatchupCount
  simp only
  split
  · obtain ⟨p', h1, h2, h3⟩ := (h.setCatchup 0).advanceWindow
    exact ⟨p', h1, h2, h3⟩
  · exact ⟨_, rfl, h.setCatchup _, rfl, rfl⟩

theorem Inv.detachCursor {p : Pool} {a : APool} (h : Inv p a) (c : Nat) :
    ∃ p', p.detachCursor c = some p' ∧
      Inv p' { a with cur := fun i => if i = c then none else a.cur i } := by
  unfold Pool.detachCursor
  by_cases hc : c ∈ p.cursors
  · obtain ⟨p', h1, h2, h3, h4⟩ := h.updateCatchupCount ((p.cur c).pos - p.windowPos)
    simp only [hc, if_true, h1, Option.bind_eq_bind, Option.bind_some, Option.pure_def]
    refine ⟨_, rfl, ?_⟩
    constructor
    case att => intro i; simp only [setCur]; split
                · simp
                · exact h2.att i
    case pos => intro i n; simp only [setCur]; split
                · simp
                · exact h2.pos i n
    case lo => intro i n; simp only; split
               · simp
               · exact h2.lo i n
    case hi => intro i n; simp only; split
               · simp
               · exact h2.hi i n
    case reg =>
      intro i
      simp only [setCur]
      rw [h2.nodup.mem_erase_iff, h2.reg]
      split <;> simp_all
    case nodup => exact h2.nodup.erase c
    case fresh => intro i hi; simp only; split
                  · rfl
                  · exact h2.fresh i hi
    all_goals (cases h2; assumption)
  · simp only [hc, if_false, Option.bind_eq_bind, Option.bind_some, Option.pure_def]
    refine ⟨_, rfl, ?_⟩
    have hnone : a.cur c = none := by have := h.reg c; cases hac : a.cur c <;> simp_all
    have : (fun i => if i = c then none else a.cur i) = a.cur := by
      funext i; split
      · subst i; exact hnone.symm
      · rfl
    rw [this]
    constructor
    case att => intro i; simp only [setCur]; split
                · subst i; simp [hnone]
                · exact h.att i
    case pos => intro i n hn; simp only [setCur]; split
                · subst i; simp [hnone] at hn
                · exact h.pos i n hn
    all_goals (cases h; assumption)

theorem Inv.new (ts : List Token) : Inv (Pool.new ts) ⟨ts, 0, fun _ => none, 0⟩ := by
  constructor <;> simp [Pool.new]

theorem Inv.fromData (ts : List Token) :
    Inv (Pool.fromData ts) ⟨ts, ts.length, fun i => if i = 0 then some 0 else none, 1⟩ := by
  constructor <;> simp [Pool.fromData]
  case att => intro c; split <;> simp_all
  case fresh => omega

/-- One step of the pool is one step of the specification. -/
theorem Inv.step {p : Pool} {a : APool} (h : Inv p a) (o : CurOp) :
    ∃ p', p.step o = some (p', (a.step o).2) ∧ Inv p' (a.step o).1 := by
  have hl := h.window_length
  have hw := h.wpos
  cases o with
  | newCursor =>
    refine ⟨_, by simp [Pool.step, Pool.newCursor, APool.step, h.nextId]; rfl, ?_⟩
    simp only [APool.step]
    constructor
    case nextId => simp [h.nextId]
    case att => intro i; simp only [setCur, h.nextId]; split
                · simp
                · exact h.att i
    case pos => intro i n; simp only [setCur, h.nextId]; split
                · simp; omega
                · exact h.pos i n
    case lo => intro i n; simp only [setCur]; split
               · have := h.wfr; simp; omega
               · exact h.lo i n
    case hi => intro i n; simp only; split
               · simp; omega
               · exact h.hi i n
    case reg =>
      intro i
      simp only [setCur, List.mem_append, List.mem_singleton, h.reg, h.nextId]
      split <;> simp_all
    case nodup =>
      simp only [setCur]
      rw [List.nodup_append]
      refine ⟨h.nodup, by simp, ?_⟩
      intro x hx y hy
      simp at hy
      rintro rfl
      have := (h.reg x).1 hx
      have := h.nextId
      have := h.fresh x (by omega)
      simp_all
    case fresh =>
      intro i hi
      simp only [setCur] at hi
      have := h.nextId
      have : i ≠ a.nextId := by omega
      simp only [this, if_false]
      exact h.fresh i (by omega)
    all_goals (cases h; assumption)
  | clone c =>
    cases hac : a.cur c with
    | none =>
      have hatt : (p.cur c).attached = false := by simp [h.att, hac]
      refine ⟨p, ?_, ?_⟩ <;> simp [Pool.step, Pool.clone, APool.step, hac, hatt, h]
    | some n =>
      have hatt : (p.cur c).attached = true := by simp [h.att, hac]
      refine ⟨_, by simp [Pool.step, Pool.clone, APool.step, h.nextId, hac, hatt]; rfl, ?_⟩
      simp only [APool.step, hac]
      constructor
      case nextId => simp [h.nextId]
      case att => intro i; simp only [setCur, h.nextId]; split
                  · simp [hatt]
                  · exact h.att i
      case pos => intro i m; simp only [setCur, h.nextId]; split
                  · simp; rintro rfl; exact h.pos _ _ hac
                  · exact h.pos i m
      case lo => intro i m; simp only [setCur]; split
                 · simp; rintro rfl; exact h.lo _ _ hac
                 · exact h.lo i m
      case hi => intro i m; simp only; split
                 · simp; rintro rfl; exact h.hi _ _ hac
                 · exact h.hi i m
      case reg =>
        intro i
        simp only [setCur, List.mem_append, List.mem_singleton, h.reg, h.nextId]
        split <;> simp_all
      case nodup =>
        simp only [setCur]
        rw [List.nodup_append]
        refine ⟨h.nodup, by simp, ?_⟩
        intro x hx y hy
        simp at hy
        rintro rfl
        have := (h.reg x).1 hx
        have := h.nextId
        have := h.fresh x (by omega)
        simp_all
      case fresh =>
        intro i hi
        simp only [setCur] at hi
        have := h.nextId
        have : i ≠ a.nextId := by omega
        simp only [this, if_false]
        exact h.fresh i (by omega)
      all_goals (cases h; assumption)
  | detach c =>
    cases hac : a.cur c with
    | none =>
      have hatt : (p.cur c).attached = false := by simp [h.att, hac]
      have : (fun i => if i = c then none else a.cur i) = a.cur := by
        funext i; split
        · subst i; exact hac.symm
        · rfl
      refine ⟨p, ?_, ?_⟩ <;> simp [Pool.step, Pool.detach, APool.step, hatt, h, this]
    | some n =>
      have hatt : (p.cur c).attached = true := by simp [h.att, hac]
      obtain ⟨p', h1, h2⟩ := h.detachCursor c
      exact ⟨p', by simp [Pool.step, Pool.detach, hatt, h1, APool.step], h2⟩
  | next c =>
    cases hac : a.cur c with
    | none =>
      have hatt : (p.cur c).attached = false := by simp [h.att, hac]
      refine ⟨p, ?_, ?_⟩ <;> simp [Pool.step, Pool.next, APool.step, hac, hatt, h]
    | some n =>
      have hatt : (p.cur c).attached = true := by simp [h.att, hac]
      have hpos := h.pos _ _ hac
      have hlo := h.lo _ _ hac
      have hhi := h.hi _ _ hac
      have hfr := h.fr
      by_cases hin : (n : Int) < a.frontier
      · -- the token is in the window
        have hlt : n < a.all.length := by omega
        have hget : a.all[n]? = some a.all[n] := by simp [hlt]
        have hwin : p.window[(↑n - p.windowPos).toNat]? = some a.all[n] := by
          rw [h.window, List.getElem?_drop, List.getElem?_take]
          rw [if_pos (by omega)]
          rw [show p.windowPos.toNat + (↑n - p.windowPos).toNat = n by omega]
          exact hget
        have hinv : Inv (p.setCur c ⟨true, (p.cur c).pos + 1⟩)
            { a with cur := fun i => if i = c then some (n + 1) else a.cur i,
                     frontier := max a.frontier (n + 1) } := by
          have hmax : max a.frontier (n + 1) = a.frontier := by omega
          rw [hmax]
          constructor
          case att => intro i; simp only [setCur]; split
                      · simp
                      · exact h.att i
          case pos => intro i m; simp only [setCur]; split
                      · simp; omega
                      · exact h.pos i m
          case lo => intro i m; simp only [setCur]; split
                     · simp; omega
                     · exact h.lo i m
          case hi => intro i m; simp only; split
                     · simp; omega
                     · exact h.hi i m
          case reg =>
            intro i
            simp only [setCur, h.reg]
            split <;> simp_all
          case fresh =>
            intro i hi
            simp only [setCur] at hi
            have : i ≠ c := by
              rintro rfl
              have := h.fresh i hi
              simp_all
            simp only [this, if_false]
            exact h.fresh i hi
          all_goals (cases h; assumption)
        obtain ⟨p', h1, h2, _⟩ := hinv.updateCatchupCount 1
        refine ⟨p', ?_, ?_⟩
        · have e1 : (↑n - p.windowPos < (p.window.length : Int)) := by omega
          have e2 : ¬ (↑n - p.windowPos < 0) := by omega
          rw [hpos] at h1
          simp only [Pool.step, Pool.next, hatt, if_true, Pool.advanceCursor, hpos, e1, e2, if_false,
            hwin, Option.bind_eq_bind, Option.bind_some, h1, Option.pure_def, APool.step, hac, hget]
        · simpa [APool.step, hac, hget] using h2
      · -- the token has to be fetched
        have hn : n = a.frontier := by omega
        have e1 : ¬ (↑n - p.windowPos < (p.window.length : Int)) := by omega
        have e2 : ¬ (↑n - p.windowPos > (p.window.length : Int)) := by omega
        cases hs : p.stream with
        | nil =>
          have hget : a.all[n]? = none := by
            have := h.stream; rw [hs] at this
            have := List.drop_eq_nil_iff.1 this.symm
            simp; omega
          obtain ⟨p', h1, h2⟩ := h.detachCursor c
          refine ⟨p', ?_, ?_⟩
          · simp only [Pool.step, Pool.next, hatt, if_true, Pool.advanceCursor, hpos, e1, e2, if_false,
              hs, Option.bind_eq_bind, Option.bind_some, h1, Option.pure_def, APool.step, hac, hget]
          · simpa [APool.step, hac, hget] using h2
        | cons tok rest =>
          have hst := h.stream
          rw [hs] at hst
          have hlt : n < a.all.length := by
            apply Nat.lt_of_not_le
            intro hcon
            rw [List.drop_eq_nil_of_le (by omega)] at hst
            simp at hst
          have hd : a.all.drop a.frontier = a.all[n] :: a.all.drop (n + 1) := by
            subst hn; exact List.drop_eq_getElem_cons hlt
          rw [hd] at hst
          simp only [List.cons.injEq] at hst
          have hget : a.all[n]? = some tok := by simp [hlt, hst.1]
          refine ⟨{ p.setCur c ⟨true, (n : Int) + 1⟩ with
            stream := rest, window := p.window ++ [tok] }, ?_, ?_⟩
          · simp only [Pool.step, Pool.next, hatt, if_true, Pool.advanceCursor, hpos, e1, e2, if_false,
              hs, Option.bind_eq_bind, Option.bind_some, Option.pure_def, APool.step, hac, hget]
          · simp only [APool.step, hac, hget]
            have hmax : max a.frontier (n + 1) = n + 1 := by omega
            rw [hmax]
            constructor
            case stream => simp [hst.2]
            case fr => simp only; omega
            case window =>
              simp only [setCur]
              rw [h.window, hn, List.take_add_one, List.drop_append_of_le_length]
              · rw [← hn, hget]; rfl
              · have := h.wfr; simp; omega
            case wfr => simp only [setCur]; have := h.wfr; omega
            case att => intro i; simp only [setCur]; split
                        · simp
                        · exact h.att i
            case pos => intro i m; simp only [setCur]; split
                        · simp; omega
                        · exact h.pos i m
            case lo => intro i m; simp only [setCur]; split
                       · simp; omega
                       · exact h.lo i m
            case hi => intro i m; simp only; split
                       · simp; omega
                       · intro hm; have := h.hi i m hm; omega
            case reg =>
              intro i
              simp only [setCur, h.reg]
              split
              · rename_i hi; subst hi; simp [hac]
              · rfl
            case fresh =>
              intro i hi
              simp only [setCur] at hi
              have : i ≠ c := by
                rintro rfl
                have := h.fresh i hi
                rw [hac] at this; cases this
              simp only [this, if_false]
              exact h.fresh i hi
            all_goals (cases h; assumption)

theorem Inv.run {p : Pool} {a : APool} (h : Inv p a) (os : List CurOp) :
    ∃ p', p.run os = some (p', (a.run os).2) ∧ Inv p' (a.run os).1 := by
  induction os generalizing p a with
  | nil => exact ⟨p, by simp [Pool.run, APool.run], by simpa [APool.run] using h⟩
  | cons o os ih =>
    obtain ⟨p1, h1, h2⟩ := h.step o
    obtain ⟨p2, h3, h4⟩ := ih h2
    exact ⟨p2, by simp [Pool.run, APool.run, h1, h3], by simpa [APool.run] using h4⟩

end Pool
end Verif
