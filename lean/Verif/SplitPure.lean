import Verif.EncTotal

/-!
# `split` on any tokens, as a function of tokens
-/

set_option linter.unusedSimpArgs false
set_option linter.unusedVariables false

namespace Verif
open IProg Heap JVal.toks

namespace SplitPure

/-- The tokens up to the one that closes a collection (or all), and the rest. -/
def takeEnd : Int → List Token → List Token × List Token
  | _, [] => ([], [])
  | d, x :: r => if depthAfter d x < 0 then ([x], r) else (x :: (takeEnd (depthAfter d x) r).1, (takeEnd (depthAfter d x) r).2)

/-- Tokens without the elisions at the start. -/
def skip (ts : List Token) : List Token := ts.dropWhile (· = .elision)

/-- The items of an array, and the tokens after it. -/
def items : Nat → List Token → Option (List Token × List Token)
  | 0, _ => none
  | f + 1, ts =>
    match skip ts with
    | .endArr :: r => some ([], r)
    | .scalar s :: r => (items f r).map fun p => (.scalar s :: p.1, p.2)
    | .startArr :: r => (items f (takeEnd 0 r).2).map fun p => ((.startArr :: (takeEnd 0 r).1) ++ p.1, p.2)
    | .startObj :: r => (items f (takeEnd 0 r).2).map fun p => ((.startObj :: (takeEnd 0 r).1) ++ p.1, p.2)
    | _ => none

/-- The whole stream. -/
def top (F : Nat) : Nat → List Token → Option (List Token)
  | 0, _ => none
  | f + 1, ts =>
    match ts with
    | [] => some []
    | .scalar s :: r => (top F f r).map (.scalar s :: ·)
    | .startObj :: r => (top F f (takeEnd 0 r).2).map ((.startObj :: (takeEnd 0 r).1) ++ ·)
    | .startArr :: r => (items F r).bind fun p => (top F f p.2).map (p.1 ++ ·)
    | _ => none

theorem takeEnd_len : ∀ (d : Int) (l : List Token), (takeEnd d l).2.length ≤ l.length
  | d, [] => Nat.le_refl _
  | d, x :: r => by
    simp only [takeEnd]
    split
    · exact Nat.le_succ _
    · exact Nat.le_trans (takeEnd_len _ r) (Nat.le_succ _)

theorem skip_len (l : List Token) : (skip l).length ≤ l.length := (List.dropWhile_sublist _).length_le

theorem items_len : ∀ (f : Nat) {l : List Token} {p : List Token × List Token}, items f l = some p → p.2.length < l.length
  | 0, l, p, h => by cases h
  | f + 1, l, p, h => by
    have hl := skip_len l
    simp only [items] at h
    split at h
    · rename_i e
      rw [e] at hl
      cases h
      exact hl
    · rename_i e
      rw [e] at hl
      obtain ⟨q, h1, rfl⟩ := Option.map_eq_some_iff.1 h
      have := items_len f h1
      simp only [List.length_cons] at hl ⊢
      omega
    · rename_i r e
      rw [e] at hl
      obtain ⟨q, h1, rfl⟩ := Option.map_eq_some_iff.1 h
      have := items_len f h1
      have := takeEnd_len 0 r
      simp only [List.length_cons] at hl ⊢
      omega
    · rename_i r e
      rw [e] at hl
      obtain ⟨q, h1, rfl⟩ := Option.map_eq_some_iff.1 h
      have := items_len f h1
      have := takeEnd_len 0 r
      simp only [List.length_cons] at hl ⊢
      omega
    · cases h

/-! ## The model of the program -/

/-- The heap with other tokens to come. -/
def src (h : Heap) (l : List Token) : Heap := { h with st := { h.st with src := l } }

theorem next_cons {h : Heap} {x : Token} {r : List Token} (hs : h.st.src = x :: r) : h.next 0 = .ok (src h r, some x) := by
  simp only [Heap.next, Streams.next, hs, if_true]
  rfl

theorem next_nil {h : Heap} (hs : h.st.src = []) : h.next 0 = .ok (h, none) := by
  simp only [Heap.next, Streams.next, hs, if_true]

theorem readToEnd_eq : ∀ (f : Nat) (h : Heap) (d : Int), h.st.src.length < f → readToEnd f h 0 d = .ok (src h (takeEnd d h.st.src).2, (takeEnd d h.st.src).1)
  | 0, h, d, hf => absurd hf (Nat.not_lt_zero _)
  | f + 1, h, d, hf => by
    cases hs : h.st.src with
    | nil =>
      simp only [readToEnd, next_nil hs, takeEnd]
      show Except.ok (h, []) = Except.ok (src h [], [])
      rw [← hs]
      rfl
    | cons x r =>
      simp only [readToEnd, next_cons hs, takeEnd]
      rw [hs, List.length_cons] at hf
      show (if depthAfter d x < 0 then _ else _) = _
      split
      · rfl
      · rw [readToEnd_eq f (src h r) (depthAfter d x) (by show r.length < f; omega)]
        rfl

theorem set_same {h : Heap} {i : Nat} {c : Coll} : (h.set i c).coll i = c := by
  show (if i = i then c else _) = _
  rw [if_pos rfl]

theorem set_ne {h : Heap} {i j : Nat} {c : Coll} (hj : j ≠ i) : (h.set i c).coll j = h.coll j := by
  show (if j = i then c else _) = _
  rw [if_neg hj]

/-- Nothing is left to be read of the value. -/
def Settled (h : Heap) : Val → Prop
  | .scalar _ => True
  | .coll _ j => (h.coll j).done = true

theorem Settled.discard {h : Heap} {v : Val} (hv : Settled h v) {f : Nat} (hf : 0 < f) : discard f h v = .ok h := by
  obtain ⟨g, rfl⟩ : ∃ g, f = g + 1 := ⟨f - 1, by omega⟩
  cases v with
  | scalar s => rfl
  | coll k j =>
    have hv : (h.coll j).done = true := hv
    simp only [Heap.discard, hv, if_true]

/-- The copy of a collection that has just been met. -/
theorem copy_eq {h : Heap} {k : Kind} {i : Nat} (h1 : (h.coll i).started = false) (h2 : (h.coll i).stream = 0) :
    h.copy (.coll k i) = .ok (src (h.set i { h.coll i with done := true }) (takeEnd 0 h.st.src).2, startTok (h.coll i).kind :: (takeEnd 0 h.st.src).1) := by
  have key : ∀ {h : Heap} (t : Nat), t = 0 → readToEnd (h.avail t + 1) h t 0 = .ok (src h (takeEnd 0 h.st.src).2, (takeEnd 0 h.st.src).1) := by
    rintro h _ rfl
    exact readToEnd_eq _ h 0 (Nat.lt_succ_of_le (Nat.le_add_right _ _))
  have key := key (h := h.set i { h.coll i with done := true }) _ h2
  show (if (h.coll i).started = true then _ else _) = _
  rw [if_neg (by rw [h1]; decide)]
  simp only [Except.bind, Bind.bind]
  rw [key]
  show Except.ok (_, startTok ((h.set i { h.coll i with done := true }).coll i).kind :: _) = _
  rw [set_same]
  rfl

/-- An array in the middle of its items. -/
structure ArrInv (h : Heap) (i : Nat) : Prop where
  kind : (h.coll i).kind = .arr
  stream : (h.coll i).stream = 0
  todo : (h.coll i).done = false
  cur : (h.coll i).started = true → ∃ v, (h.coll i).cur = some v ∧ Settled h v
  lt : i < h.n

/-- All but the collection `i` and new ones are as they were. -/
structure Frame (i : Nat) (h h' : Heap) : Prop where
  n : h.n ≤ h'.n
  coll : ∀ j < h.n, j ≠ i → h'.coll j = h.coll j

theorem Frame.rfl' {i : Nat} {h : Heap} : Frame i h h := ⟨Nat.le_refl _, fun _ _ _ => rfl⟩

theorem Frame.trans {i : Nat} {a b c : Heap} (h : Frame i a b) (h' : Frame i b c) : Frame i a c :=
  ⟨Nat.le_trans h.n h'.n, fun j hj hi => (h'.coll j (Nat.lt_of_lt_of_le hj h.n) hi).trans (h.coll j hj hi)⟩

theorem Frame.set {i : Nat} {h : Heap} {c : Coll} {l : List Token} : Frame i h (src (h.set i c) l) :=
  ⟨Nat.le_refl _, fun j _ hi => by show (if j = i then c else h.coll j) = _; rw [if_neg hi]⟩

/-- What an advance of an array does. -/
def Adv (h : Heap) (i : Nat) (ts : List Token) (x : Except Stop (Heap × Bool)) : Prop :=
  match skip ts with
  | .endArr :: r => ∃ h', x = .ok (h', false) ∧ Frame i h h' ∧ h'.st.src = r ∧ (h'.coll i).done = true
  | .scalar s :: r => ∃ h', x = .ok (h', true) ∧ Frame i h h' ∧ h'.st.src = r ∧ ArrInv h' i ∧ (h'.coll i).cur = some (.scalar s)
  | .startArr :: r => ∃ h' j, x = .ok (h', true) ∧ Frame i h h' ∧ h'.st.src = r ∧ (h'.coll i).kind = .arr ∧ (h'.coll i).stream = 0 ∧ (h'.coll i).done = false ∧
      (h'.coll i).cur = some (.coll .arr j) ∧ h.n ≤ j ∧ j < h'.n ∧ h'.coll j = ⟨.arr, 0, false, false, false, none, none⟩
  | .startObj :: r => ∃ h' j, x = .ok (h', true) ∧ Frame i h h' ∧ h'.st.src = r ∧ (h'.coll i).kind = .arr ∧ (h'.coll i).stream = 0 ∧ (h'.coll i).done = false ∧
      (h'.coll i).cur = some (.coll .obj j) ∧ h.n ≤ j ∧ j < h'.n ∧ h'.coll j = ⟨.obj, 0, false, false, false, none, none⟩
  | _ => x = .error .panic

theorem Adv.frame {h h' : Heap} {i : Nat} {ts : List Token} {x : Except Stop (Heap × Bool)} (hf : Frame i h h') (ha : Adv h' i ts x) : Adv h i ts x := by
  unfold Adv at ha ⊢
  generalize skip ts = s at ha ⊢
  have hn := hf.n
  match s, ha with
  | .endArr :: r, ⟨a, e, f, g⟩ => exact ⟨a, e, hf.trans f, g⟩
  | .scalar s :: r, ⟨a, e, f, g⟩ => exact ⟨a, e, hf.trans f, g⟩
  | .startArr :: r, ⟨a, j, e, f, g1, g2, g3, g4, g5, g6, g7⟩ => exact ⟨a, j, e, hf.trans f, g1, g2, g3, g4, g5, by omega, g7⟩
  | .startObj :: r, ⟨a, j, e, f, g1, g2, g3, g4, g5, g6, g7⟩ => exact ⟨a, j, e, hf.trans f, g1, g2, g3, g4, g5, by omega, g7⟩
  | [], e => exact e
  | .endObj :: r, e => exact e
  | .elision :: r, e => exact e

theorem advance_eq {f : Nat} {h : Heap} {i : Nat} (hi : ArrInv h i) : advance (f + 1) h i = (do
    let (h, x) ← h.next 0
    match x with
    | none => .error .panic
    | some .endArr => .ok (h.set i { h.coll i with done := true }, false)
    | some .elision => advance f (h.set i { h.coll i with elided := true }) i
    | some x =>
      let h := h.set i { h.coll i with started := true }
      let (h, v) ← h.streamedValue x (h.coll i).stream
      .ok (h.set i { h.coll i with cur := some v }, true)) := by
  simp only [advance, hi.kind, hi.todo, Bool.false_eq_true, if_false]
  by_cases hst : (h.coll i).started = true
  · obtain ⟨v, hv, hs⟩ := hi.cur hst
    simp only [hst, if_true, hv, hs.discard (Nat.lt_of_le_of_lt (Nat.zero_le _) hi.lt)]
    simp only [Except.bind, Bind.bind, hi.stream]
    rfl
  · simp only [hst, Bool.false_eq_true, if_false]
    simp only [Except.bind, Bind.bind, hi.stream]
    rfl

theorem advance_arr : ∀ (f : Nat) {h : Heap} {i : Nat}, ArrInv h i → h.st.src.length < f → Adv h i h.st.src (advance f h i)
  | 0, h, i, _, hf => absurd hf (Nat.not_lt_zero _)
  | f + 1, h, i, hi, hf => by
    rw [advance_eq hi]
    simp only [Except.bind, Bind.bind]
    cases hs : h.st.src with
    | nil => rw [next_nil hs]; rfl
    | cons x r =>
      rw [next_cons hs]
      rw [hs, List.length_cons] at hf
      cases x with
      | endArr => exact ⟨_, rfl, .set, rfl, by show ((h.set i _).coll i).done = true; rw [set_same]⟩
      | endObj => rfl
      | elision =>
        have e : skip (.elision :: r) = skip r := by simp [skip]
        have hi' : ArrInv ((src h r).set i { h.coll i with elided := true }) i := by
          refine ⟨by rw [set_same]; exact hi.kind, by rw [set_same]; exact hi.stream, by rw [set_same]; exact hi.todo, ?_, hi.lt⟩
          rw [set_same]
          intro hst
          obtain ⟨v, hv, hs⟩ := hi.cur hst
          refine ⟨v, hv, ?_⟩
          cases v with
          | scalar s => trivial
          | coll k j =>
            have hs : (h.coll j).done = true := hs
            have hj : j ≠ i := fun e => by rw [e, hi.todo] at hs; cases hs
            show (((src h r).set i _).coll j).done = true
            rw [set_ne hj]
            exact hs
        have := advance_arr f hi' (show r.length < f by omega)
        have := this.frame (h := h) (.set (l := r))
        unfold Adv at this ⊢
        rw [e]
        exact this
      | scalar s =>
        refine ⟨_, rfl, ⟨Nat.le_refl _, fun j _ hj => ?_⟩, rfl, ?_, ?_⟩
        · rw [set_ne hj, set_ne hj]; rfl
        · refine ⟨?_, ?_, ?_, fun _ => ⟨.scalar s, ?_, trivial⟩, hi.lt⟩
          all_goals rw [set_same]
          · show (((src h r).set i _).coll i).kind = _; rw [set_same]; exact hi.kind
          · show (((src h r).set i _).coll i).stream = _; rw [set_same]; exact hi.stream
          · show (((src h r).set i _).coll i).done = _; rw [set_same]; exact hi.todo
        · rw [set_same]
      | startArr =>
        refine ⟨_, h.n, rfl, ⟨Nat.le_succ _, fun j hj hn => ?_⟩, rfl, ?_, ?_, ?_, ?_, Nat.le_refl _, Nat.lt_succ_self _, ?_⟩
        · rw [set_ne hn]
          show (if j = h.n then _ else if j = i then _ else h.coll j) = _
          rw [if_neg (Nat.ne_of_lt hj), if_neg hn]
        · rw [set_same]
          show (if i = h.n then _ else if i = i then _ else h.coll i : Coll).kind = _
          rw [if_neg (Nat.ne_of_lt hi.lt), if_pos rfl]
          exact hi.kind
        · rw [set_same]
          show (if i = h.n then _ else if i = i then _ else h.coll i : Coll).stream = _
          rw [if_neg (Nat.ne_of_lt hi.lt), if_pos rfl]
          exact hi.stream
        · rw [set_same]
          show (if i = h.n then _ else if i = i then _ else h.coll i : Coll).done = _
          rw [if_neg (Nat.ne_of_lt hi.lt), if_pos rfl]
          exact hi.todo
        · rw [set_same]
          rfl
        · rw [set_ne (Nat.ne_of_gt hi.lt)]
          show (if h.n = h.n then _ else _ : Coll) = _
          rw [if_pos rfl]
          show Coll.mk .arr (if i = i then _ else _ : Coll).stream false false false none none = _
          rw [if_pos rfl]
          show Coll.mk .arr (h.coll i).stream false false false none none = _
          rw [hi.stream]
      | startObj =>
        refine ⟨_, h.n, rfl, ⟨Nat.le_succ _, fun j hj hn => ?_⟩, rfl, ?_, ?_, ?_, ?_, Nat.le_refl _, Nat.lt_succ_self _, ?_⟩
        · rw [set_ne hn]
          show (if j = h.n then _ else if j = i then _ else h.coll j) = _
          rw [if_neg (Nat.ne_of_lt hj), if_neg hn]
        · rw [set_same]
          show (if i = h.n then _ else if i = i then _ else h.coll i : Coll).kind = _
          rw [if_neg (Nat.ne_of_lt hi.lt), if_pos rfl]
          exact hi.kind
        · rw [set_same]
          show (if i = h.n then _ else if i = i then _ else h.coll i : Coll).stream = _
          rw [if_neg (Nat.ne_of_lt hi.lt), if_pos rfl]
          exact hi.stream
        · rw [set_same]
          show (if i = h.n then _ else if i = i then _ else h.coll i : Coll).done = _
          rw [if_neg (Nat.ne_of_lt hi.lt), if_pos rfl]
          exact hi.todo
        · rw [set_same]
          rfl
        · rw [set_ne (Nat.ne_of_gt hi.lt)]
          show (if h.n = h.n then _ else _ : Coll) = _
          rw [if_pos rfl]
          show Coll.mk .obj (if i = i then _ else _ : Coll).stream false false false none none = _
          rw [if_pos rfl]
          show Coll.mk .obj (h.coll i).stream false false false none none = _
          rw [hi.stream]

section Loops

theorem hrun_op {o : IOp} {k : o.Res → IProg Token Unit} {h h' : Heap} {r : o.Res} (e : h.step o = .ok (h', r)) :
    (IProg.op o k).run Heap.mach h = (k r).run Heap.mach h' := IProg.run_op Heap.mach e

variable {body : Val → IProg Token Unit} {i f : Nat} {h h1 h2 : Heap}

theorem loop_more {key : Option Scalar} {x : Val} {o : List Token} (ha : h.step (.advance i) = .ok (h1, true)) (hc : h1.current i = .ok (key, some x))
    (hb : (body x).run Heap.mach h1 = (o, .ok (h2, ()))) : (forEach (fun _ _ y => body y) i (f + 1) ()).run Heap.mach h =
      (o ++ ((forEach (fun _ _ y => body y) i f ()).run Heap.mach h2).1, ((forEach (fun _ _ y => body y) i f ()).run Heap.mach h2).2) := by
  rw [forEach, hrun_op ha, if_pos rfl, hrun_op (o := .current i) (h' := h1) (r := (key, some x)) (by show (h1.current i).map _ = _; rw [hc]; rfl)]
  simp only
  rw [run_bind, hb]
  rfl

theorem loop_stop (ha : h.step (.advance i) = .ok (h1, false)) : (forEach (fun _ _ y => body y) i (f + 1) ()).run Heap.mach h = ([], .ok (h1, ())) := by
  rw [forEach, hrun_op ha]
  rfl

theorem loop_panic (ha : h.step (.advance i) = .error .panic) : ((forEach (fun _ _ y => body y) i (f + 1) ()).run Heap.mach h).2 = .error .panic := by
  rw [forEach]
  simp only [IProg.run, mach, ha]

theorem loop_fails {key : Option Scalar} {x : Val} (ha : h.step (.advance i) = .ok (h1, true)) (hc : h1.current i = .ok (key, some x))
    (hb : ((body x).run Heap.mach h1).2 = .error .panic) : ((forEach (fun _ _ y => body y) i (f + 1) ()).run Heap.mach h).2 = .error .panic := by
  rw [forEach, hrun_op ha, if_pos rfl, hrun_op (o := .current i) (h' := h1) (r := (key, some x)) (by show (h1.current i).map _ = _; rw [hc]; rfl)]
  simp only
  rw [run_bind, seqRun, hb]

end Loops

/-- The collection `j` is done. -/
theorem ArrInv.settle {h : Heap} {i j : Nat} {k : Kind} {l : List Token} (hk : (h.coll i).kind = .arr) (hs : (h.coll i).stream = 0) (hd : (h.coll i).done = false)
    (hc : (h.coll i).cur = some (.coll k j)) (hij : j ≠ i) (hi : i < h.n) : ArrInv (src (h.set j { h.coll j with done := true }) l) i := by
  have e : (src (h.set j { h.coll j with done := true }) l).coll i = h.coll i := set_ne (Ne.symm hij)
  refine ⟨by rw [e]; exact hk, by rw [e]; exact hs, by rw [e]; exact hd, fun _ => ⟨.coll k j, by rw [e]; exact hc, ?_⟩, hi⟩
  show ((h.set j _).coll j).done = true
  rw [set_same]

theorem copyOut_scalar (s : Scalar) (h : Heap) : (copyOut (.scalar s)).run Heap.mach h = ([.scalar s], .ok (h, ())) := rfl

theorem copyOut_coll {h : Heap} {k : Kind} {i : Nat} (hi : h.coll i = ⟨k, 0, false, false, false, none, none⟩) :
    (copyOut (.coll k i)).run Heap.mach h = (startTok k :: (takeEnd 0 h.st.src).1, .ok (src (h.set i { h.coll i with done := true }) (takeEnd 0 h.st.src).2, ())) := by
  have e := copy_eq (k := k) (show (h.coll i).started = false by rw [hi]) (show (h.coll i).stream = 0 by rw [hi])
  have e' : h.step (.copy (.coll k i)) = .ok (src (h.set i { h.coll i with done := true }) (takeEnd 0 h.st.src).2, startTok k :: (takeEnd 0 h.st.src).1) := by
    have e2 : (h.coll i).kind = k := by rw [hi]
    rw [e2] at e
    exact e
  rw [copyOut, hrun_op e', run_putAll]

theorem arr_current {h : Heap} {i : Nat} {v : Val} (hd : (h.coll i).done = false) (hc : (h.coll i).cur = some v) : h.current i = .ok ((h.coll i).key, some v) := by
  unfold Heap.current
  simp only [hd, hc]
  rw [if_neg (by simp)]

/-- The loop over the items of an array. -/
theorem items_run : ∀ (f : Nat) {h : Heap} {i : Nat}, ArrInv h i → h.st.src.length < f →
    match items f h.st.src with
    | some (out, r) => ∃ h', (forEach (fun _ _ y => copyOut y) i f ()).run Heap.mach h = (out, .ok (h', ())) ∧ Frame i h h' ∧ h'.st.src = r ∧ (h'.coll i).done = true
    | none => ((forEach (fun _ _ y => copyOut y) i f ()).run Heap.mach h).2 = .error .panic
  | 0, h, i, _, hf => absurd hf (Nat.not_lt_zero _)
  | f + 1, h, i, hi, hf => by
    have ha : Adv h i h.st.src (h.step (.advance i)) := advance_arr _ hi (by show _ < h.avail _ + 2; exact Nat.lt_succ_of_le (Nat.le_succ_of_le (Nat.le_add_right _ _)))
    have hlen := skip_len h.st.src
    -- after a collection
    have coll : ∀ (k : Kind) (r : List Token) (h1 : Heap) (j : Nat), h.step (.advance i) = .ok (h1, true) → Frame i h h1 → h1.st.src = r → (h1.coll i).kind = .arr → (h1.coll i).stream = 0 →
        (h1.coll i).done = false → (h1.coll i).cur = some (.coll k j) → h.n ≤ j → j < h1.n → h1.coll j = ⟨k, 0, false, false, false, none, none⟩ → r.length < f →
        match (items f (takeEnd 0 r).2).map fun p => ((startTok k :: (takeEnd 0 r).1) ++ p.1, p.2) with
        | some (out, r) => ∃ h', (forEach (fun _ _ y => copyOut y) i (f + 1) ()).run Heap.mach h = (out, .ok (h', ())) ∧ Frame i h h' ∧ h'.st.src = r ∧ (h'.coll i).done = true
        | none => ((forEach (fun _ _ y => copyOut y) i (f + 1) ()).run Heap.mach h).2 = .error .panic := by
      intro k r h1 j e1 fr e2 k1 k2 k3 k4 k5 k6 k7 hr
      subst e2
      have hin := hi.lt
      have hij : j ≠ i := by omega
      have hlt := takeEnd_len 0 h1.st.src
      have e := loop_more (body := copyOut) (f := f) e1 (arr_current k3 k4) (copyOut_coll k7)
      have ih := items_run f (h := src (h1.set j { h1.coll j with done := true }) (takeEnd 0 h1.st.src).2) (i := i)
        (ArrInv.settle k1 k2 k3 k4 hij (by have := fr.n; omega)) (by show (takeEnd 0 h1.st.src).2.length < f; omega)
      rw [e]
      rw [show (src (h1.set j { h1.coll j with done := true }) (takeEnd 0 h1.st.src).2).st.src = (takeEnd 0 h1.st.src).2 from rfl] at ih
      cases hx : items f (takeEnd 0 h1.st.src).2 with
      | none =>
        rw [hx] at ih
        exact ih
      | some p =>
        rw [hx] at ih
        obtain ⟨h', a1, a2, a3, a4⟩ := ih
        refine ⟨h', by rw [a1], ?_, a3, a4⟩
        have a2n : h1.n ≤ h'.n := a2.n
        refine ⟨Nat.le_trans fr.n a2n, fun q hq hqi => ?_⟩
        rw [a2.coll q (Nat.lt_of_lt_of_le hq fr.n) hqi]
        exact (set_ne (by omega)).trans (fr.coll q hq hqi)
    unfold Adv at ha
    simp only [items]
    generalize hsk : skip h.st.src = s at ha hlen ⊢
    match s, ha, hlen with
    | .endArr :: r, ⟨h1, e, f1, f2, f3⟩, _ => exact ⟨h1, loop_stop e, f1, f2, f3⟩
    | .scalar s :: r, ⟨h1, e, f1, f2, f3, f4⟩, hlen =>
      have e := loop_more (body := copyOut) (f := f) e (arr_current f3.todo f4) (copyOut_scalar s h1)
      simp only [List.length_cons] at hlen
      have ih := items_run f f3 (by rw [f2]; omega)
      rw [e]
      rw [f2] at ih
      simp only
      cases hx : items f r with
      | none =>
        rw [hx] at ih
        exact ih
      | some p =>
        rw [hx] at ih
        obtain ⟨h', a1, a2, a3, a4⟩ := ih
        exact ⟨h', by rw [a1]; rfl, f1.trans a2, a3, a4⟩
    | .startArr :: r, ⟨h1, j, e1, f1, e2, k1, k2, k3, k4, k5, k6, k7⟩, hlen =>
      simp only [List.length_cons] at hlen
      exact coll .arr r h1 j e1 f1 e2 k1 k2 k3 k4 k5 k6 k7 (by omega)
    | .startObj :: r, ⟨h1, j, e1, f1, e2, k1, k2, k3, k4, k5, k6, k7⟩, hlen =>
      simp only [List.length_cons] at hlen
      exact coll .obj r h1 j e1 f1 e2 k1 k2 k3 k4 k5 k6 k7 (by omega)
    | [], e, _ => exact loop_panic e
    | .endObj :: r, e, _ => exact loop_panic e
    | .elision :: r, e, _ => exact loop_panic e

/-- The iterator between two values. -/
structure TopInv (h : Heap) : Prop where
  kind : (h.coll 0).kind = .top
  stream : (h.coll 0).stream = 0
  cur : ∀ v, (h.coll 0).cur = some v → Settled h v
  lt : 0 < h.n

theorem top_eq {f : Nat} {h : Heap} (hi : TopInv h) : advance (f + 1) h 0 = (do
    let (h, x) ← h.next 0
    match x with
    | none => .ok (h.set 0 { h.coll 0 with cur := none }, false)
    | some x =>
      let (h, v) ← h.streamedValue x (h.coll 0).stream
      .ok (h.set 0 { h.coll 0 with cur := some v }, true)) := by
  simp only [advance, hi.kind]
  cases hc : (h.coll 0).cur with
  | none =>
    simp only [Except.bind, Bind.bind, hi.stream]
    rfl
  | some v =>
    simp only [(hi.cur v hc).discard hi.lt]
    simp only [Except.bind, Bind.bind, hi.stream]
    rfl

theorem top_current {h : Heap} {v : Val} (hk : (h.coll 0).kind = .top) (hc : (h.coll 0).cur = some v) : h.current 0 = .ok ((h.coll 0).key, some v) := by
  unfold Heap.current
  simp only [hk, hc]
  rw [if_neg (by simp)]

theorem top_run {F : Nat} : ∀ (f : Nat) {h : Heap}, TopInv h → h.st.src.length < f → h.st.src.length < F →
    match top F f h.st.src with
    | some out => ∃ h', (transformAll (explodeArray F) f).run Heap.mach h = (out, .ok (h', ()))
    | none => ((transformAll (explodeArray F) f).run Heap.mach h).2 = .error .panic
  | 0, h, _, hf, _ => absurd hf (Nat.not_lt_zero _)
  | f + 1, h, hi, hf, hF => by
    have ha : h.step (.advance 0) = _ := top_eq (f := h.avail (h.coll 0).stream + 1) hi
    have hbad : ∀ x : Token, h.step (.advance 0) = .error .panic → ((transformAll (explodeArray F) (f + 1)).run Heap.mach h).2 = .error .panic :=
      fun x e => loop_panic e
    -- after a value
    have more : ∀ (h1 h2 : Heap) (x : Val) (o : List Token), h.step (.advance 0) = .ok (h1, true) → (h1.coll 0).kind = .top → (h1.coll 0).cur = some x →
        (explodeArray F x).run Heap.mach h1 = (o, .ok (h2, ())) → TopInv h2 → h2.st.src.length < f → h2.st.src.length < F →
        match (top F f h2.st.src).map (o ++ ·) with
        | some out => ∃ h', (transformAll (explodeArray F) (f + 1)).run Heap.mach h = (out, .ok (h', ()))
        | none => ((transformAll (explodeArray F) (f + 1)).run Heap.mach h).2 = .error .panic := by
      intro h1 h2 x o e1 k1 k2 e2 hi2 hf2 hF2
      have e := loop_more (body := explodeArray F) (f := f) e1 (top_current k1 k2) e2
      have ih := top_run f hi2 hf2 hF2
      unfold transformAll at ih ⊢
      rw [e]
      cases hx : top F f h2.st.src with
      | none => rw [hx] at ih; exact ih
      | some out =>
        rw [hx] at ih
        obtain ⟨h', ih⟩ := ih
        exact ⟨h', by rw [ih]⟩
    cases hs : h.st.src with
    | nil =>
      rw [next_nil hs] at ha
      exact ⟨_, loop_stop ha⟩
    | cons x r =>
      rw [next_cons hs] at ha
      rw [hs, List.length_cons] at hf hF
      simp only [Except.bind, Bind.bind] at ha
      have hst : ((src h r).coll 0).stream = 0 := hi.stream
      rw [hst] at ha
      cases x with
      | endArr => exact hbad .endArr ha
      | endObj => exact hbad .endObj ha
      | elision => exact hbad .elision ha
      | scalar s =>
        refine more ((src h r).set 0 { h.coll 0 with cur := some (.scalar s) }) _ (.scalar s) [.scalar s] ha ?_ ?_ (copyOut_scalar s _) ⟨?_, ?_, ?_, hi.lt⟩
          (show r.length < f by omega) (show r.length < F by omega)
        all_goals rw [set_same]
        · exact hi.kind
        · exact hi.kind
        · exact hi.stream
        · intro v hv; cases hv; trivial
      | startArr =>
        have ha' : h.step (.advance 0) = .ok (((src h r).alloc ⟨.arr, 0, false, false, false, none, none⟩).1.set 0 { h.coll 0 with cur := some (.coll .arr h.n) }, true) := by
          rw [ha]
          show Except.ok (Heap.set _ 0 { (if 0 = h.n then _ else h.coll 0 : Coll) with cur := _ }, true) = _
          rw [if_neg (Nat.ne_of_lt hi.lt)]
          rfl
        have c0 : (((src h r).alloc ⟨.arr, 0, false, false, false, none, none⟩).1.set 0 { h.coll 0 with cur := some (.coll .arr h.n) }).coll 0 =
            { h.coll 0 with cur := some (.coll .arr h.n) } := set_same
        have cn : (((src h r).alloc ⟨.arr, 0, false, false, false, none, none⟩).1.set 0 { h.coll 0 with cur := some (.coll .arr h.n) }).coll h.n =
            ⟨.arr, 0, false, false, false, none, none⟩ := by
          rw [set_ne (Nat.ne_of_gt hi.lt)]
          show (if h.n = h.n then _ else _) = _
          rw [if_pos rfl]
        have hn : (((src h r).alloc ⟨.arr, 0, false, false, false, none, none⟩).1.set 0 { h.coll 0 with cur := some (.coll .arr h.n) }).n = h.n + 1 := rfl
        have hsrc : (((src h r).alloc ⟨.arr, 0, false, false, false, none, none⟩).1.set 0 { h.coll 0 with cur := some (.coll .arr h.n) }).st.src = r := rfl
        generalize Heap.set _ 0 _ = h1 at ha' c0 cn hn hsrc
        have k1 : (h1.coll 0).kind = .top := by rw [c0]; exact hi.kind
        have k2 : (h1.coll 0).cur = some (.coll .arr h.n) := by rw [c0]
        have k3 : (h1.coll 0).stream = 0 := by rw [c0]; exact hi.stream
        have hlt := hi.lt
        have it := items_run F (h := h1) (i := h.n) ⟨by rw [cn], by rw [cn], by rw [cn], (fun e => by rw [cn] at e; cases e), by omega⟩ (by rw [hsrc]; omega)
        rw [hsrc] at it
        simp only [top]
        cases hx : items F r with
        | none =>
          rw [hx] at it
          exact loop_fails ha' (top_current k1 k2) it
        | some p =>
          rw [hx] at it
          obtain ⟨h2, e1, e2, e3, e4⟩ := it
          have hlen := items_len F hx
          have e0 : h2.coll 0 = h1.coll 0 := e2.coll 0 (by omega) (by omega)
          have := more h1 h2 _ p.1 ha' k1 k2 e1 ⟨by rw [e0]; exact k1, by rw [e0]; exact k3, fun v hv => by
            rw [e0, k2] at hv
            cases hv
            exact e4, by have := e2.n; omega⟩ (by rw [e3]; omega) (by rw [e3]; omega)
          rw [e3] at this
          exact this
      | startObj =>
        have ha' : h.step (.advance 0) = .ok (((src h r).alloc ⟨.obj, 0, false, false, false, none, none⟩).1.set 0 { h.coll 0 with cur := some (.coll .obj h.n) }, true) := by
          rw [ha]
          show Except.ok (Heap.set _ 0 { (if 0 = h.n then _ else h.coll 0 : Coll) with cur := _ }, true) = _
          rw [if_neg (Nat.ne_of_lt hi.lt)]
          rfl
        have c0 : (((src h r).alloc ⟨.obj, 0, false, false, false, none, none⟩).1.set 0 { h.coll 0 with cur := some (.coll .obj h.n) }).coll 0 =
            { h.coll 0 with cur := some (.coll .obj h.n) } := set_same
        have cn : (((src h r).alloc ⟨.obj, 0, false, false, false, none, none⟩).1.set 0 { h.coll 0 with cur := some (.coll .obj h.n) }).coll h.n =
            ⟨.obj, 0, false, false, false, none, none⟩ := by
          rw [set_ne (Nat.ne_of_gt hi.lt)]
          show (if h.n = h.n then _ else _) = _
          rw [if_pos rfl]
        have hn : (((src h r).alloc ⟨.obj, 0, false, false, false, none, none⟩).1.set 0 { h.coll 0 with cur := some (.coll .obj h.n) }).n = h.n + 1 := rfl
        have hsrc : (((src h r).alloc ⟨.obj, 0, false, false, false, none, none⟩).1.set 0 { h.coll 0 with cur := some (.coll .obj h.n) }).st.src = r := rfl
        generalize Heap.set _ 0 _ = h1 at ha' c0 cn hn hsrc
        have k1 : (h1.coll 0).kind = .top := by rw [c0]; exact hi.kind
        have k2 : (h1.coll 0).cur = some (.coll .obj h.n) := by rw [c0]
        have k3 : (h1.coll 0).stream = 0 := by rw [c0]; exact hi.stream
        have hlt := hi.lt
        have hlen := takeEnd_len 0 r
        have e := copyOut_coll cn
        rw [hsrc] at e
        have e0 : (src (h1.set h.n { h1.coll h.n with done := true }) (takeEnd 0 r).2).coll 0 = h1.coll 0 := set_ne (by omega)
        have := more h1 _ _ _ ha' k1 k2 e ⟨by rw [e0]; exact k1, by rw [e0]; exact k3, fun v hv => by
            rw [e0, k2] at hv
            cases hv
            show ((h1.set h.n _).coll h.n).done = true
            rw [set_same], by show 0 < h1.n; omega⟩ (show (takeEnd 0 r).2.length < f by omega) (show (takeEnd 0 r).2.length < F by omega)
        exact this

/-- The transform as a function. -/
def splitToks (ts : List Token) : Option (List Token) := top (ts.length + 1) (ts.length + 1) ts

theorem runTransform_split (ts : List Token) : runTransform explodeArray ts = splitToks ts := by
  have h := top_run (F := ts.length + 1) (ts.length + 1) (h := Heap.init ts) ⟨rfl, rfl, (fun v e => by cases e), Nat.one_pos⟩ (Nat.lt_succ_self _) (Nat.lt_succ_self _)
  rw [show (Heap.init ts).st.src = ts from rfl] at h
  unfold runTransform splitToks
  cases hx : top (ts.length + 1) (ts.length + 1) ts with
  | none =>
    rw [hx] at h
    generalize (transformAll (explodeArray (ts.length + 1)) (ts.length + 1)).run Heap.mach (Heap.init ts) = y at h
    obtain ⟨a, b⟩ := y
    have h : b = .error .panic := h
    subst h
    rfl
  | some out =>
    rw [hx] at h
    obtain ⟨h', h⟩ := h
    rw [h]

/-! ## Prefixes of the tokens of values -/

theorem takeEnd_whole : ∀ {d : Int} {l : List Token} (r : List Token), Closes d l → takeEnd d (l ++ r) = (l, r)
  | d, [], r, h => h.elim
  | d, x :: l, r, h => by
    simp only [Closes] at h
    simp only [List.cons_append, takeEnd]
    split at h
    · rename_i hd
      rw [if_pos hd, h]
      rfl
    · rename_i hd
      rw [if_neg hd, takeEnd_whole r h]

theorem takeEnd_cut : ∀ {d : Int} {p q : List Token}, Closes d (p ++ q) → q ≠ [] → takeEnd d p = (p, [])
  | d, [], q, _, _ => rfl
  | d, x :: p, q, h, hq => by
    simp only [List.cons_append, Closes] at h
    simp only [takeEnd]
    split at h
    · simp only [List.append_eq_nil_iff] at h
      exact absurd h.2 hq
    · rename_i hd
      rw [if_neg hd, takeEnd_cut h hq]

theorem arr_closes (l : List JVal) (e : Bool) : Closes 0 (itemToks l ++ elisionToks e ++ [.endArr]) := by
  rw [← bodyToks_items]
  exact closes_body _ e .arr (by decide)

theorem obj_closes (l : List (Scalar × JVal)) (e : Bool) : Closes 0 (memberToks l ++ elisionToks e ++ [.endObj]) := by
  rw [← bodyToks_members]
  exact closes_body _ e .obj (by decide)

theorem elisions_cons (e : Bool) (r : List Token) : skip (elisionToks e ++ r) = skip r := by cases e <;> simp [skip, elisionToks]

/-- The items of a whole array. -/
theorem items_whole : ∀ (l : List JVal) (e : Bool) (r : List Token) (f : Nat), (itemToks l ++ elisionToks e ++ .endArr :: r).length < f →
    ∃ out, items f (itemToks l ++ elisionToks e ++ .endArr :: r) = some (out, r)
  | l, e, r, 0, h => absurd h (Nat.not_lt_zero _)
  | [], e, r, f + 1, h => by
    refine ⟨[], ?_⟩
    simp only [items]
    rw [show itemToks [] ++ elisionToks e ++ .endArr :: r = elisionToks e ++ .endArr :: r from rfl, elisions_cons]
    rfl
  | v :: l, e, r, f + 1, h => by
    rw [itemToks_cons, List.append_assoc, List.append_assoc] at h ⊢
    rw [List.length_append] at h
    cases v with
    | scalar s =>
      simp only [toks_scalar, List.length_cons, List.length_nil] at h
      obtain ⟨out, ih⟩ := items_whole l e r f (by rw [List.append_assoc]; omega)
      rw [List.append_assoc] at ih
      refine ⟨.scalar s :: out, ?_⟩
      simp only [items, toks_scalar, List.cons_append, List.nil_append]
      rw [show skip (.scalar s :: (itemToks l ++ (elisionToks e ++ .endArr :: r))) = .scalar s :: (itemToks l ++ (elisionToks e ++ .endArr :: r)) from by simp [skip]]
      simp only [ih, Option.map_some]
    | arr is e' =>
      simp only [toks_arr, List.length_cons] at h
      obtain ⟨out, ih⟩ := items_whole l e r f (by rw [List.append_assoc]; omega)
      rw [List.append_assoc] at ih
      simp only [items, toks_arr, List.cons_append]
      rw [show ∀ x : List Token, skip (.startArr :: x) = .startArr :: x from fun x => by simp [skip]]
      simp only [takeEnd_whole _ (arr_closes is e'), ih, Option.map_some]
      exact ⟨_, rfl⟩
    | obj ms e' =>
      simp only [toks_obj, List.length_cons] at h
      obtain ⟨out, ih⟩ := items_whole l e r f (by rw [List.append_assoc]; omega)
      rw [List.append_assoc] at ih
      simp only [items, toks_obj, List.cons_append]
      rw [show ∀ x : List Token, skip (.startObj :: x) = .startObj :: x from fun x => by simp [skip]]
      simp only [takeEnd_whole _ (obj_closes ms e'), ih, Option.map_some]
      exact ⟨_, rfl⟩

theorem items_nil (f : Nat) : items f [] = none := by cases f <;> rfl

/-- An array that does not end. -/
theorem items_cut : ∀ (l : List JVal) (e : Bool) (f : Nat) (p q : List Token), q ≠ [] → p ++ q = itemToks l ++ elisionToks e ++ [.endArr] → items f p = none
  | l, e, 0, p, q, _, _ => rfl
  | [], e, f + 1, p, q, hq, h => by
    have : p = [] ∨ p = [.elision] := by
      cases e with
      | false =>
        have h : p ++ q = [.endArr] := h
        cases p with
        | nil => exact .inl rfl
        | cons x p =>
          simp only [List.cons_append, List.cons.injEq, List.append_eq_nil_iff] at h
          exact absurd h.2.2 hq
      | true =>
        have h : p ++ q = [.elision, .endArr] := h
        match p, h with
        | [], _ => exact .inl rfl
        | [x], h =>
          simp only [List.cons_append, List.cons.injEq] at h
          exact .inr (by rw [h.1])
        | x :: y :: p, h =>
          simp only [List.cons_append, List.cons.injEq, List.append_eq_nil_iff] at h
          exact absurd h.2.2.2 hq
    rcases this with rfl | rfl <;> rfl
  | v :: l, e, f + 1, p, q, hq, h => by
    rw [itemToks_cons, List.append_assoc, List.append_assoc] at h
    have hp : (∃ p2, p = v.toks ++ p2 ∧ p2 ++ q = itemToks l ++ elisionToks e ++ [.endArr]) ∨ ∃ a, a ≠ [] ∧ p ++ a = v.toks := by
      rw [List.append_assoc]
      rcases List.append_eq_append_iff.1 h with ⟨a, h1, h2⟩ | ⟨a, h1, h2⟩
      · by_cases ha : a = []
        · subst ha
          rw [List.append_nil] at h1
          exact .inl ⟨[], by rw [h1, List.append_nil], h2⟩
        · exact .inr ⟨a, ha, h1.symm⟩
      · exact .inl ⟨a, h1, h2.symm⟩
    rcases hp with ⟨p2, rfl, h2⟩ | ⟨a, ha, hp⟩
    · have ih := items_cut l e f p2 q hq h2
      cases v with
      | scalar s =>
        simp only [items, toks_scalar, List.cons_append, List.nil_append]
        rw [show skip (.scalar s :: p2) = .scalar s :: p2 from by simp [skip]]
        simp only [ih, Option.map_none]
      | arr is e' =>
        simp only [items, toks_arr, List.cons_append]
        rw [show ∀ x : List Token, skip (.startArr :: x) = .startArr :: x from fun x => by simp [skip]]
        simp only [takeEnd_whole _ (arr_closes is e'), ih, Option.map_none]
      | obj ms e' =>
        simp only [items, toks_obj, List.cons_append]
        rw [show ∀ x : List Token, skip (.startObj :: x) = .startObj :: x from fun x => by simp [skip]]
        simp only [takeEnd_whole _ (obj_closes ms e'), ih, Option.map_none]
    · cases p with
      | nil => rfl
      | cons x p =>
        cases v with
        | scalar s =>
          simp only [toks_scalar, List.cons_append, List.cons.injEq, List.append_eq_nil_iff] at hp
          exact absurd hp.2.2 ha
        | arr is e' =>
          simp only [toks_arr, List.cons_append, List.cons.injEq] at hp
          obtain ⟨rfl, hp⟩ := hp
          simp only [items]
          rw [show ∀ x : List Token, skip (.startArr :: x) = .startArr :: x from fun x => by simp [skip]]
          simp only [takeEnd_cut (hp ▸ arr_closes is e') ha, items_nil, Option.map_none]
        | obj ms e' =>
          simp only [toks_obj, List.cons_append, List.cons.injEq] at hp
          obtain ⟨rfl, hp⟩ := hp
          simp only [items]
          rw [show ∀ x : List Token, skip (.startObj :: x) = .startObj :: x from fun x => by simp [skip]]
          simp only [takeEnd_cut (hp ▸ obj_closes ms e') ha, items_nil, Option.map_none]

/-- Whole values before the cut. -/
theorem top_whole {F : Nat} {p : List Token} {b : Bool} (hp : ∀ f, p.length < f → (top F f p).isSome = b) : ∀ (us : List JVal) (f : Nat),
    (streamToks us ++ p).length < f → (streamToks us ++ p).length < F → (top F f (streamToks us ++ p)).isSome = b
  | us, 0, h, _ => absurd h (Nat.not_lt_zero _)
  | [], f + 1, h, _ => hp _ h
  | v :: us, f + 1, h, hF => by
    rw [streamToks_cons, List.append_assoc] at h hF ⊢
    rw [List.length_append] at h hF
    cases v with
    | scalar s =>
      simp only [toks_scalar, List.length_cons, List.length_nil] at h hF
      have ih := top_whole hp us f (by omega) (by omega)
      simp only [top, toks_scalar, List.cons_append, List.nil_append, Option.isSome_map]
      exact ih
    | arr is e' =>
      have hF' := hF
      simp only [toks_arr, List.length_cons] at h hF
      have ih := top_whole hp us f (by omega) (by omega)
      obtain ⟨out, hi⟩ := items_whole is e' (streamToks us ++ p) F (by
        simp only [List.length_append, List.length_cons, List.length_nil] at hF ⊢
        omega)
      simp only [top, toks_arr, List.cons_append, List.append_assoc, List.nil_append] at hi ⊢
      rw [hi]
      simp only [Option.bind_some, Option.isSome_map]
      exact ih
    | obj ms e' =>
      simp only [toks_obj, List.length_cons] at h hF
      have ih := top_whole hp us f (by omega) (by omega)
      simp only [top, toks_obj, List.cons_append, takeEnd_whole _ (obj_closes ms e'), Option.isSome_map]
      exact ih

theorem split_arr {us : List JVal} {is : List JVal} {e : Bool} {p q : List Token} (h : p ++ q = (JVal.arr is e).toks) (hp : p ≠ []) (hq : q ≠ []) :
    runTransform explodeArray (streamToks us ++ p) = none := by
  rw [runTransform_split, splitToks]
  refine Option.not_isSome_iff_eq_none.1 (Bool.eq_false_iff.1 (top_whole (fun f hf => ?_) us _ (Nat.lt_succ_self _) (Nat.lt_succ_self _)))
  cases p with
  | nil => exact absurd rfl hp
  | cons x p =>
    simp only [toks_arr, List.cons_append, List.cons.injEq] at h
    obtain ⟨rfl, h⟩ := h
    cases f with
    | zero => rfl
    | succ f =>
      simp only [top]
      rw [items_cut is e _ p q hq h]
      rfl

theorem split_obj {us : List JVal} {ms : List (Scalar × JVal)} {e : Bool} {p q : List Token} (h : p ++ q = (JVal.obj ms e).toks) (hp : p ≠ []) (hq : q ≠ []) :
    ∃ out, runTransform explodeArray (streamToks us ++ p) = some out := by
  rw [runTransform_split, splitToks]
  refine Option.isSome_iff_exists.1 (top_whole (fun f hf => ?_) us _ (Nat.lt_succ_self _) (Nat.lt_succ_self _))
  cases p with
  | nil => exact absurd rfl hp
  | cons x p =>
    simp only [toks_obj, List.cons_append, List.cons.injEq] at h
    obtain ⟨rfl, h⟩ := h
    simp only [List.length_cons] at hf
    obtain ⟨g, rfl⟩ : ∃ g, f = g + 2 := ⟨f - 2, by omega⟩
    simp only [top, takeEnd_cut (h ▸ obj_closes ms e) hq]
    rfl

/-- A prefix of the tokens of values: whole values, and a part of one. -/
theorem prefix_cases : ∀ {vs : List JVal} {ts more : List Token}, ts ++ more = streamToks vs →
    (∃ us, ts = streamToks us) ∨ ∃ us w p q, ts = streamToks us ++ p ∧ p ++ q = JVal.toks w ∧ p ≠ [] ∧ q ≠ []
  | [], ts, more, h => .inl ⟨[], (List.append_eq_nil_iff.1 h).1⟩
  | v :: vs, ts, more, h => by
    rw [streamToks_cons] at h
    rcases List.append_eq_append_iff.1 h with ⟨a, h1, h2⟩ | ⟨a, h1, h2⟩
    · by_cases ha : a = []
      · subst ha
        rw [List.append_nil] at h1
        exact .inl ⟨[v], by rw [streamToks_cons, h1]; simp⟩
      · by_cases ht : ts = []
        · exact .inl ⟨[], ht⟩
        · exact .inr ⟨[], v, ts, a, rfl, h1.symm, ht, ha⟩
    · rcases prefix_cases h2.symm with ⟨us, e⟩ | ⟨us, w, p, q, e, h3⟩
      · exact .inl ⟨v :: us, by rw [h1, e, streamToks_cons]⟩
      · exact .inr ⟨v :: us, w, p, q, by rw [h1, e, streamToks_cons, List.append_assoc], h3⟩

/-- On a prefix of the tokens of values, `split` does its work unless the prefix ends in an array that is not in another value. -/
theorem split_prefix {vs : List JVal} {ts more : List Token} (h : ts ++ more = streamToks vs) :
    runTransform explodeArray ts = none ↔ ∃ us is e p q, ts = streamToks us ++ p ∧ p ++ q = (JVal.arr is e).toks ∧ p ≠ [] ∧ q ≠ [] := by
  constructor
  · intro hn
    rcases prefix_cases h with ⟨us, rfl⟩ | ⟨us, w, p, q, rfl, h1, h2, h3⟩
    · have := top_whole (F := (streamToks us).length + 1) (p := []) (b := true) (fun f hf => by cases f with | zero => cases hf | succ f => rfl) us
        ((streamToks us).length + 1) (by simp) (by simp)
      rw [runTransform_split, splitToks] at hn
      rw [List.append_nil, hn] at this
      cases this
    · cases w with
      | scalar s =>
        rw [toks_scalar] at h1
        cases p with
        | nil => exact absurd rfl h2
        | cons x p =>
          simp only [List.cons_append, List.cons.injEq, List.append_eq_nil_iff] at h1
          exact absurd h1.2.2 h3
      | arr is e => exact ⟨us, is, e, p, q, rfl, h1, h2, h3⟩
      | obj ms e =>
        obtain ⟨out, ho⟩ := split_obj (us := us) h1 h2 h3
        rw [ho] at hn
        cases hn
  · rintro ⟨us, is, e, p, q, rfl, h1, h2, h3⟩
    exact split_arr h1 h2 h3

end SplitPure
end Verif
