import Verif.PathSim6

/-!
# Running the segments of a query: the list of the nodes

`tsegs` (see `PathTwin`) hands a list of nodes to the processor; here this list is described without states, queues and stacks.
-/

set_option linter.unusedSimpArgs false
set_option linter.unusedVariables false

namespace Verif.JPath
open GoJson

variable {ψ : Type} (fin : ψ → JVal → ψ × Bool)

/-! ## Feeding a list of nodes -/

/-- Nodes are handed over one by one, until one is refused. -/
def feed : List JVal → TStack → ψ → TStack × ψ × Bool
  | [], ds, q => (ds, q, true)
  | v :: l, ds, q => let r := tprocess fin ds q v; if r.2.2 then feed l r.1 r.2.1 else r

theorem feed_append (a b : List JVal) (ds : TStack) (q : ψ) : feed fin (a ++ b) ds q =
    if (feed fin a ds q).2.2 then feed fin b (feed fin a ds q).1 (feed fin a ds q).2.1 else feed fin a ds q := by
  induction a generalizing ds q with
  | nil => rfl
  | cons v a ih =>
    simp only [List.cons_append, feed]
    by_cases h : (tprocess fin ds q v).2.2 = true
    · simp only [if_pos h, ih]
    · simp only [if_neg h]

theorem flushVals_feed (l : List JVal) (ds : TStack) (q : ψ) : tflushVals fin l true ds q = feed fin l ds q := by
  have hf : ∀ (l : List JVal) (ds : TStack) (q : ψ), tflushVals fin l false ds q = (ds, q, false) := by
    intro l
    induction l with
    | nil => intros; rfl
    | cons v l ih => intro ds q; exact ih ds q
  induction l generalizing ds q with
  | nil => rfl
  | cons v l ih =>
    simp only [tflushVals, feed]
    by_cases h : (tprocess fin ds q v).2.2 = true
    · simp only [h, if_true, ih]
    · have h' : (tprocess fin ds q v).2.2 = false := by simpa using h
      rw [if_neg h, h', hf, ← h']

theorem flushVals_false (l : List JVal) (ds : TStack) (q : ψ) : tflushVals fin l false ds q = (ds, q, false) := by
  induction l generalizing ds q with
  | nil => rfl
  | cons v l ih => exact ih ds q

/-- Every selected state keeps the nodes. -/
def keepAll (l : List JVal) (d : List TSt) : List TSt := d.map fun st => if st.selected then { st with pending := st.pending ++ l } else st

theorem keepAll_nil (d : List TSt) : keepAll [] d = d := by
  induction d with
  | nil => rfl
  | cons st d ih =>
    simp only [keepAll, List.map_cons] at ih ⊢
    rw [ih]
    congr 1
    split <;> simp

theorem keepAll_cons (v : JVal) (l : List JVal) (d : List TSt) : keepAll l (tappend v d) = keepAll (v :: l) d := by
  simp only [keepAll, tappend, List.map_map]
  apply List.map_congr_left
  intro st _
  simp only [Function.comp]
  cases h : st.selected <;> simp [h]

theorem feed_unselected (l : List JVal) (st : TSt) (hs : st.selected = false) (rest : List TSt) (ds : TStack) (q : ψ) :
    feed fin l ((st :: rest) :: ds) q = ((st :: keepAll l rest) :: ds, q, true) := by
  induction l generalizing rest with
  | nil => rw [keepAll_nil]; rfl
  | cons v l ih =>
    simp only [feed, tprocess, hs, Bool.false_eq_true, if_false, if_true]
    rw [ih, keepAll_cons]

theorem feed_reversing (l : List JVal) (st : TSt) (hs : st.selected = true) (hr : st.sel.reverses = true) (rest : List TSt) (ds : TStack)
    (q : ψ) : feed fin l ((st :: rest) :: ds) q = (keepAll l (st :: rest) :: ds, q, true) := by
  induction l generalizing st rest with
  | nil => rw [keepAll_nil]; rfl
  | cons v l ih =>
    simp only [feed, tprocess, if_pos hs, if_pos hr, if_true]
    rw [show ({ sel := st.sel, selected := st.selected, pending := st.pending ++ [v], done := st.done } : TSt) =
      { st with pending := st.pending ++ [v] } from rfl, ih { st with pending := st.pending ++ [v] } hs hr, ← keepAll_cons]
    simp [tappend, hs]

theorem feed_selected (l : List JVal) (st : TSt) (hs : st.selected = true) (hr : st.sel.reverses = false) (rest : List TSt) (ds : TStack)
    (q : ψ) : (feed fin l ((st :: rest) :: ds) q).1.tail = (feed fin l ds q).1 ∧
      (feed fin l ((st :: rest) :: ds) q).2 = (feed fin l ds q).2 ∧
      ((feed fin l ds q).2.2 = true → (feed fin l ((st :: rest) :: ds) q).1.headD [] = st :: keepAll l rest) := by
  induction l generalizing rest ds q with
  | nil => exact ⟨rfl, rfl, fun _ => by rw [keepAll_nil]; rfl⟩
  | cons v l ih =>
    simp only [feed, tprocess, hs, hr, Bool.false_eq_true, if_false, if_true]
    cases h : (tprocess fin ds q v).2.2
    · simp only [Bool.false_eq_true, if_false, List.tail_cons, h]
      exact ⟨trivial, by rw [← h], fun h => by cases h⟩
    · simp only [if_true]
      rw [← keepAll_cons]
      exact ih _ _ _

/-! ## Programs that feed lists -/

/-- The program feeds the list.  (If a node is refused, this is known only under `P`.) -/
def Feeds (P : Prop) (f : TStack → ψ → TStack × ψ × Bool) (L : List JVal) : Prop :=
  ∀ ds q, (feed fin L ds q).2.2 = true ∨ P → f ds q = feed fin L ds q

/-- The program feeds the list and leaves the states. -/
def Emits (P : Prop) (f : TStack → ψ → List TSt × TStack × ψ × Bool) (d' : List TSt) (L : List JVal) : Prop :=
  ∀ ds q, (feed fin L ds q).2.2 = true ∨ P →
    (f ds q).2 = feed fin L ds q ∧ ((feed fin L ds q).2.2 = true → (f ds q).1 = d')

/-- Nothing waits and there is at most one state, which does not reverse. -/
def Single (d : List TSt) : Prop := d.length ≤ 1 ∧ ∀ st ∈ d, st.pending = [] ∧ st.sel.reverses = false

/-- The nodes that wait. -/
def pends (d : List TSt) : List JVal := d.flatMap fun st => ord st.sel st.pending

/-- What is to come from a state. -/
def TSt.out (l : JVal → List JVal) (its : List Item) (st : TSt) : List JVal :=
  ord st.sel (st.pending ++ if st.done then [] else (pick st.sel its).flatMap l)

theorem Single.pends {d : List TSt} (h : Single d) : pends d = [] := by
  unfold JPath.pends
  rw [List.flatMap_eq_nil_iff]
  intro st hst
  rw [(h.2 st hst).1]
  unfold ord
  split <;> rfl

variable {fin}

theorem ok_left {a b : List JVal} {ds : TStack} {q : ψ} (h : (feed fin (a ++ b) ds q).2.2 = true) : (feed fin a ds q).2.2 = true := by
  rw [feed_append] at h
  cases h' : (feed fin a ds q).2.2
  · rw [h', if_neg (by decide)] at h; rw [h] at h'; cases h'
  · rfl

theorem ok_right {a b : List JVal} {ds : TStack} {q : ψ} (h : (feed fin (a ++ b) ds q).2.2 = true) :
    (feed fin b (feed fin a ds q).1 (feed fin a ds q).2.1).2.2 = true := by
  have h' := ok_left h
  rwa [feed_append, if_pos h'] at h

theorem feed_skip {a b : List JVal} {ds : TStack} {q : ψ} (h : ¬ (feed fin a ds q).2.2 = true) : feed fin (a ++ b) ds q = feed fin a ds q := by
  rw [feed_append, if_neg h]

theorem feed_go {a b : List JVal} {ds : TStack} {q : ψ} (h : (feed fin a ds q).2.2 = true) :
    feed fin (a ++ b) ds q = feed fin b (feed fin a ds q).1 (feed fin a ds q).2.1 := by
  rw [feed_append, if_pos h]

theorem Emits.seq {P : Prop} {f : TStack → ψ → List TSt × TStack × ψ × Bool} {d : List TSt} {L : List JVal} (h : Emits fin P f d L)
    {g : List TSt → TStack → ψ → List TSt × TStack × ψ × Bool} {d' : List TSt} {L' : List JVal} (h' : Emits fin P (g d) d' L')
    {k : TStack → ψ → List TSt × TStack × ψ × Bool}
    (hk1 : ∀ ds q, (f ds q).2.2.2 = true → (f ds q).1 = d → k ds q = g d (f ds q).2.1 (f ds q).2.2.1)
    (hk2 : ∀ ds q, (f ds q).2.2.2 = false → (k ds q).2 = (f ds q).2) : Emits fin P k d' (L ++ L') := by
  intro ds q hp
  by_cases ho : (feed fin L ds q).2.2 = true
  · obtain ⟨e1, e2⟩ := h ds q (.inl ho)
    rw [feed_go ho] at hp ⊢
    rw [hk1 ds q (by rw [e1]; exact ho) (e2 ho), e1]
    exact h' _ _ hp
  · rw [feed_skip ho] at hp ⊢
    obtain ⟨e1, e2⟩ := h ds q hp
    rw [hk2 ds q (by rw [e1]; simpa using ho), e1]
    exact ⟨rfl, fun h => absurd h ho⟩

/-! ## One item -/

theorem flushSt_feed (st : TSt) (ds : TStack) (q : ψ) : tflushSt fin st true ds q = feed fin (ord st.sel st.pending) ds q := flushVals_feed fin _ _ _

theorem flushSt_false (st : TSt) (ds : TStack) (q : ψ) : tflushSt fin st false ds q = (ds, q, false) := flushVals_false fin _ _ _

theorem flushAll_false (d : List TSt) (ds : TStack) (q : ψ) : tflushAll fin d false ds q = (ds, q, false) := by
  induction d generalizing ds q with
  | nil => rfl
  | cons st d ih => simp only [tflushAll, flushSt_false, ih]

theorem flushAll_feed (d : List TSt) (ds : TStack) (q : ψ) : tflushAll fin d true ds q = feed fin (pends d) ds q := by
  induction d generalizing ds q with
  | nil => rfl
  | cons st d ih =>
    simp only [tflushAll, flushSt_feed st]
    show _ = feed fin (ord st.sel st.pending ++ pends d) ds q
    by_cases ho : (feed fin (ord st.sel st.pending) ds q).2.2 = true
    · rw [feed_go ho, ho, ih]
    · rw [feed_skip ho]
      have ho' : (feed fin (ord st.sel st.pending) ds q).2.2 = false := by simpa using ho
      rw [ho', flushAll_false, ← ho']

/-- A live state that has been decided about the item: what it still has to give. -/
def TSt.out' (l : JVal → List JVal) (its : List Item) (v : JVal) (st : TSt) : List JVal :=
  ord st.sel (st.pending ++ (if st.selected then l v else []) ++ if st.done then [] else (pick st.sel its).flatMap l)

theorem keepAll_out (l : JVal → List JVal) (its : List Item) (v : JVal) (d : List TSt) :
    (keepAll (l v) d).flatMap (TSt.out l its) = d.flatMap (TSt.out' l its v) := by
  induction d with
  | nil => rfl
  | cons st d ih =>
    simp only [keepAll, List.map_cons, List.flatMap_cons] at ih ⊢
    rw [ih]
    congr 1
    cases h : st.selected <;> simp [TSt.out, TSt.out', h]

theorem out_unselected {l : JVal → List JVal} {its : List Item} {v : JVal} {d : List TSt} (h : ∀ st ∈ d, st.selected = false) :
    d.flatMap (TSt.out l its) = d.flatMap (TSt.out' l its v) := by
  induction d with
  | nil => rfl
  | cons st d ih =>
    simp only [List.flatMap_cons]
    rw [ih fun x hx => h x (List.mem_cons_of_mem _ hx)]
    simp [TSt.out, TSt.out', h st List.mem_cons_self]

theorem dispatchLive_emits {P : Prop} {follow : TStack → ψ → JVal → TStack × ψ × Bool} {v : JVal} {l : JVal → List JVal}
    (hf : Feeds fin P (fun ds q => follow ds q v) (l v)) (d : List TSt) (any : Bool)
    (hany : any = false → ∀ st ∈ d, st.selected = false) :
    ∃ d' L, Emits fin P (tdispatchLive fin follow v any d) d' L ∧ (Single d → Single d') ∧
      ∀ its, L ++ d'.flatMap (TSt.out l its) = d.flatMap (TSt.out' l its v) := by
  cases d with
  | nil => exact ⟨[], [], fun ds q _ => ⟨rfl, fun _ => rfl⟩, id, fun _ => rfl⟩
  | cons st rest =>
    by_cases hst : st.sel.reverses = true
    · -- nothing is passed on
      have hns : Single (st :: rest) → False := fun h => by
        have := (h.2 st List.mem_cons_self).2
        rw [hst] at this
        cases this
      have hfl : ∀ ds q, (if st.sel.reverses || st.pending.isEmpty then (st, ds, q, true)
          else let r := tflushSt fin st true ds q; ({ st with pending := [] }, r.1, r.2.1, r.2.2)) = (st, ds, q, true) := by
        intro ds q
        rw [hst]; rfl
      cases hany' : any
      · subst hany'
        refine ⟨st :: rest, [], ?_, id, fun its => out_unselected (hany rfl)⟩
        intro ds q _
        have hp : tdispatchLive fin follow v false (st :: rest) ds q = (st :: rest, ds, q, true) := by
          simp only [tdispatchLive, hfl, if_true, Bool.false_eq_true, if_false]
        rw [hp]
        exact ⟨rfl, fun _ => rfl⟩
      · refine ⟨keepAll (l v) (st :: rest), [], ?_, fun h => (hns h).elim, fun its => keepAll_out l its v _⟩
        intro ds q _
        have e : feed fin (l v) ((st :: rest) :: ds) q = (keepAll (l v) (st :: rest) :: ds, q, true) := by
          cases hsel : st.selected
          · rw [feed_unselected fin (l v) st hsel rest ds q]
            simp [keepAll, hsel]
          · exact feed_reversing fin (l v) st hsel hst rest ds q
        have e2 := hf ((st :: rest) :: ds) q (by rw [e]; exact .inl rfl)
        simp only at e2
        simp only [tdispatchLive, hfl, if_true, e2, e]
        exact ⟨rfl, fun _ => rfl⟩
    have hst : st.sel.reverses = false := by simpa using hst
    let st0 : TSt := { st with pending := [] }
    have hfl : ∀ ds q, (if st.sel.reverses || st.pending.isEmpty then (st, ds, q, true)
        else let r := tflushSt fin st true ds q; ({ st with pending := [] }, r.1, r.2.1, r.2.2)) = (st0, feed fin st.pending ds q) := by
      intro ds q
      by_cases he : st.pending = []
      · rw [he]
        simp only [List.isEmpty_nil, Bool.or_true, if_true, feed]
        congr 1
        show st = { st with pending := [] }
        rw [← he]
      · have : st.pending.isEmpty = false := by cases hp : st.pending with | nil => exact absurd hp he | cons => rfl
        rw [this]
        simp only [flushSt_feed st, ord_forward hst]
        rw [hst]
        rfl
    have hbase : Emits fin P (fun ds q => (st0 :: rest, feed fin st.pending ds q)) (st0 :: rest) st.pending := fun ds q _ => ⟨rfl, fun _ => rfl⟩
    have hst0 : st0.selected = st.selected := rfl
    cases hany' : any
    · subst hany'
      have hns := hany rfl
      refine ⟨st0 :: rest, st.pending, ?_, ?_, ?_⟩
      · intro ds q _
        have hp : tdispatchLive fin follow v false (st :: rest) ds q = (st0 :: rest, feed fin st.pending ds q) := by
          simp only [tdispatchLive, hfl]
          by_cases h : (feed fin st.pending ds q).2.2 = true
          · rw [if_pos h]
            simp only [Bool.false_eq_true, if_false]
            rw [← h]
          · have h' : (feed fin st.pending ds q).2.2 = false := by simpa using h
            rw [if_neg h, ← h']
        rw [hp]
        exact ⟨rfl, fun _ => rfl⟩
      · intro p
        obtain ⟨h1, h2⟩ := p
        refine ⟨h1, fun x hx => ?_⟩
        rcases List.mem_cons.1 hx with rfl | hx
        · exact ⟨rfl, hst⟩
        · exact h2 x (List.mem_cons_of_mem _ hx)
      · intro its
        simp only [List.flatMap_cons, out_unselected (v := v) (fun x hx => hns x (List.mem_cons_of_mem _ hx))]
        simp [TSt.out, TSt.out', st0, hns st List.mem_cons_self, ord_forward hst]
    · refine ⟨st0 :: keepAll (l v) rest, st.pending ++ (if st.selected then l v else []), ?_, ?_, ?_⟩
      · refine Emits.seq hbase (g := fun d ds q => let r := follow (d :: ds) q v; (r.1.headD [], r.1.tail, r.2.1, r.2.2)) ?_ ?_ ?_
        · intro ds q hp
          cases hsel : st.selected
          · have e := feed_unselected fin (l v) st0 hsel rest ds q
            have e2 := hf ((st0 :: rest) :: ds) q (by rw [e]; exact .inl rfl)
            simp only at e2
            simp only [e2, e]
            exact ⟨by first | rfl | trivial, fun _ => rfl⟩
          · rw [hsel] at hp
            simp only [if_true] at hp ⊢
            obtain ⟨e1, e2, e3⟩ := feed_selected fin (l v) st0 hsel hst rest ds q
            have e4 := hf ((st0 :: rest) :: ds) q (by rw [e2]; exact hp)
            simp only at e4
            simp only [e4]
            refine ⟨?_, e3⟩
            rw [e1, e2]
        · intro ds q h1 _
          have h1 : (feed fin st.pending ds q).2.2 = true := h1
          simp only [tdispatchLive, hfl, h1, if_true]
        · intro ds q h1
          have h1 : (feed fin st.pending ds q).2.2 = false := h1
          simp only [tdispatchLive, hfl, h1, Bool.false_eq_true, if_false]
          show ((feed fin st.pending ds q).1, (feed fin st.pending ds q).2.1, false) = feed fin st.pending ds q
          rw [← h1]
      · intro p
        obtain ⟨h1, h2⟩ := p
        have : rest = [] := by
          cases rest with
          | nil => rfl
          | cons => simp at h1
        subst this
        refine ⟨by simp [keepAll], fun x hx => ?_⟩
        simp only [keepAll, List.map_nil, List.mem_singleton] at hx
        rw [hx]
        exact ⟨rfl, hst⟩
      · intro its
        rw [List.flatMap_cons, List.flatMap_cons, keepAll_out]
        simp only [TSt.out, TSt.out', st0, ord_forward hst, List.nil_append, List.append_assoc]

theorem over_out {its : List Item} {l : JVal → List JVal} {v : JVal} {d : List TSt} (h : ∀ st ∈ d, st.over = true) :
    d.flatMap (TSt.out' l its v) = pends d := by
  induction d with
  | nil => rfl
  | cons st d ih =>
    have h1 := h st List.mem_cons_self
    simp only [TSt.over, Bool.and_eq_true, Bool.not_eq_true'] at h1
    simp only [List.flatMap_cons, pends] at ih ⊢
    rw [ih fun x hx => h x (List.mem_cons_of_mem _ hx)]
    simp [TSt.out', h1]

theorem mem_take {α : Type} {p : α → Bool} {l : List α} : ∀ x ∈ l.takeWhile p, p x = true ∧ x ∈ l := by
  induction l with
  | nil => intro x hx; cases hx
  | cons a l ih =>
    intro x hx
    rw [List.takeWhile_cons] at hx
    cases h : p a
    · rw [h] at hx; simp at hx
    · rw [h] at hx
      simp only [if_true] at hx
      rcases List.mem_cons.1 hx with rfl | hx
      · exact ⟨h, List.mem_cons_self⟩
      · exact ⟨(ih x hx).1, List.mem_cons_of_mem _ (ih x hx).2⟩

theorem decideAll_out (dec : Sel (JVal → Bool) → Decision) (v : JVal) (its : List Item) (l : JVal → List JVal) (d : List TSt) :
    (tdecideAll dec v d).flatMap (TSt.out' l its v) = d.flatMap (TSt.out l ((dec, v) :: its)) := by
  induction d with
  | nil => rfl
  | cons st d ih =>
    simp only [tdecideAll, List.map_cons, List.flatMap_cons] at ih ⊢
    rw [ih]
    congr 1
    cases h : st.done
    · simp only [Bool.false_eq_true, if_false, TSt.out', TSt.out, h, pick, List.flatMap_append, List.append_assoc]
      congr 2
      congr 1
      · split <;> simp
      · cases h2 : (dec st.sel).more <;> simp
    · simp [TSt.out', TSt.out, h]

theorem dispatch_emits {P : Prop} {follow : TStack → ψ → JVal → TStack × ψ × Bool} {v : JVal} {l : JVal → List JVal}
    (hf : Feeds fin P (fun ds q => follow ds q v) (l v)) (dec : Sel (JVal → Bool) → Decision) (d : List TSt) :
    ∃ d' L, Emits fin P (tdispatch fin follow dec v d) d' L ∧ (Single d → Single d') ∧
      ∀ its, L ++ d'.flatMap (TSt.out l its) = d.flatMap (TSt.out l ((dec, v) :: its)) := by
  have hmem : ∀ st ∈ tdecideAll dec v d, ∃ st' ∈ d, st.sel = st'.sel ∧ st.pending = st'.pending := by
    intro st hst
    simp only [tdecideAll, List.mem_map] at hst
    obtain ⟨st', h1, rfl⟩ := hst
    exact ⟨st', h1, by split <;> exact ⟨rfl, rfl⟩⟩
  have hlen : (tdecideAll dec v d).length = d.length := by simp [tdecideAll]
  have hdrop : ∀ st ∈ (tdecideAll dec v d).dropWhile TSt.over, st ∈ tdecideAll dec v d := fun st h => (List.dropWhile_sublist _).subset h
  obtain ⟨d', L, h1, h3, h4⟩ := dispatchLive_emits (fin := fin) (P := P) (follow := follow) (v := v) (l := l) hf ((tdecideAll dec v d).dropWhile TSt.over)
    ((tdecideAll dec v d).any (·.selected))
    (fun h st hst => by
      have := List.any_eq_false.1 h st (hdrop st hst)
      simpa using this)
  refine ⟨d', pends ((tdecideAll dec v d).takeWhile TSt.over) ++ L, ?_, fun p => h3 ⟨Nat.le_trans (List.dropWhile_sublist _).length_le (by rw [hlen]; exact p.1), fun st hst => by
      obtain ⟨st', h1, h2', h2⟩ := hmem st (hdrop st hst)
      rw [h2, h2']; exact p.2 st' h1⟩, ?_⟩
  · have hbase : Emits fin P (fun ds q => (((tdecideAll dec v d).dropWhile TSt.over), feed fin (pends ((tdecideAll dec v d).takeWhile TSt.over)) ds q))
        ((tdecideAll dec v d).dropWhile TSt.over) (pends ((tdecideAll dec v d).takeWhile TSt.over)) := fun ds q _ => ⟨rfl, fun _ => rfl⟩
    have hfl : ∀ ds q, tflushAll fin ((tdecideAll dec v d).takeWhile TSt.over) true ds q =
        feed fin (pends ((tdecideAll dec v d).takeWhile TSt.over)) ds q :=
      fun ds q => flushAll_feed _ ds q
    refine Emits.seq hbase (g := tdispatchLive fin follow v ((tdecideAll dec v d).any (·.selected))) (d' := d') (L' := L) h1 ?_ ?_
    · intro ds q ho _
      have ho : (feed fin (pends ((tdecideAll dec v d).takeWhile TSt.over)) ds q).2.2 = true := ho
      simp only [tdispatch, hfl, ho, if_true]
    · intro ds q ho
      have ho : (feed fin (pends ((tdecideAll dec v d).takeWhile TSt.over)) ds q).2.2 = false := ho
      simp only [tdispatch, hfl, ho, Bool.false_eq_true, if_false]
      rw [← ho]
  · intro its
    rw [List.append_assoc, h4 its, ← over_out (its := its) (l := l) (v := v) fun st hst => (mem_take st hst).1, ← List.flatMap_append,
      List.takeWhile_append_dropWhile, decideAll_out]

/-! ## The loops -/

variable (fin) in
/-- The four loops, over items. -/
def tloop (desc : Bool) (follow self : TStack → ψ → JVal → TStack × ψ × Bool) :
    List Item → List TSt → TStack → ψ → List TSt × TStack × ψ × Bool
  | [], d, ds, q => (d, ds, q, true)
  | (dec, v) :: l, d, ds, q =>
    let r := troundEnd desc self v (tdispatch fin follow dec v d ds q)
    if r.1 then tloop desc follow self l r.2.1 r.2.2.1 r.2.2.2.1 else r.2

theorem objRelaxed_loop (desc : Bool) (follow self : TStack → ψ → JVal → TStack × ψ × Bool) (l : List (Option Scalar × JVal))
    (d : List TSt) (ds : TStack) (q : ψ) : tobjRelaxed fin desc follow self l d ds q = tloop fin desc follow self (objItems l) d ds q := by
  induction l generalizing d ds q with
  | nil => rfl
  | cons m l ih => simp only [tobjRelaxed, objItems, List.map_cons, tloop, ih]

theorem arrRelaxed_loop (desc : Bool) (follow self : TStack → ψ → JVal → TStack × ψ × Bool) (l : List (Option Scalar × JVal)) (i : Int)
    (w : Int × Option Nat) (d : List TSt) (ds : TStack) (q : ψ) :
    tarrRelaxed fin desc follow self l i w d ds q = tloop fin desc follow self (arrItems l i w) d ds q := by
  induction l generalizing d ds q i w with
  | nil => rfl
  | cons m l ih => simp only [tarrRelaxed, arrItems, tloop, ih]

theorem roundEnd_strict (self : TStack → ψ → JVal → TStack × ψ × Bool) (v : JVal) (r : List TSt × TStack × ψ × Bool) :
    troundEnd false self v r = (r.2.2.2 && !r.1.isEmpty, r) := by
  unfold troundEnd
  cases r.2.2.2 <;> simp

theorem objStrict_loop (follow self : TStack → ψ → JVal → TStack × ψ × Bool) (l : List (Option Scalar × JVal))
    (d : List TSt) (ds : TStack) (q : ψ) : tobjStrict fin follow l d ds q = tloop fin false follow self (objItems l) d ds q := by
  induction l generalizing d ds q with
  | nil => rfl
  | cons m l ih => simp only [tobjStrict, objItems, List.map_cons, tloop, roundEnd_strict, ih]

theorem arrStrict_loop (follow self : TStack → ψ → JVal → TStack × ψ × Bool) (l : List (Option Scalar × JVal)) (i : Int)
    (w : Int × Option Nat) (d : List TSt) (ds : TStack) (q : ψ) :
    tarrStrict fin follow l i w d ds q = tloop fin false follow self (arrItems l i w) d ds q := by
  induction l generalizing d ds q i w with
  | nil => rfl
  | cons m l ih => simp only [tarrStrict, arrItems, tloop, roundEnd_strict, ih]

theorem out_nil (l : JVal → List JVal) (d : List TSt) : d.flatMap (TSt.out l []) = pends d := by
  unfold pends
  congr 1
  funext st
  simp [TSt.out, pick]

theorem loop_emits {P : Prop} {follow self : TStack → ψ → JVal → TStack × ψ × Bool} {l D : JVal → List JVal} (desc : Bool) (its : List Item)
    (hf : ∀ it ∈ its, Feeds fin P (fun ds q => follow ds q it.2) (l it.2))
    (hs : desc = true → ∀ it ∈ its, Feeds fin P (fun ds q => self ds q it.2) (D it.2)) (d : List TSt) :
    ∃ d' L, Emits fin P (tloop fin desc follow self its d) d' L ∧ (Single d → Single d') ∧
      (desc = false → L ++ pends d' = d.flatMap (TSt.out l its)) ∧
      (desc = true → (L ++ pends d').Perm (d.flatMap (TSt.out l its) ++ its.flatMap fun it => D it.2)) := by
  induction its generalizing d with
  | nil =>
    refine ⟨d, [], fun ds q _ => ⟨rfl, fun _ => rfl⟩, id, fun _ => ?_, fun _ => ?_⟩
    · rw [out_nil]; rfl
    · rw [out_nil]; simp
  | cons it its ih =>
    obtain ⟨dec, v⟩ := it
    obtain ⟨d1, L1, h1, h3, h4⟩ := dispatch_emits (hf _ List.mem_cons_self) dec d
    obtain ⟨d2, L2, i1, i3, i4, i5⟩ := ih (fun it hit => hf it (List.mem_cons_of_mem _ hit))
      (fun hd it hit => hs hd it (List.mem_cons_of_mem _ hit)) d1
    cases desc with
    | false =>
      by_cases he : d1 = []
      · refine ⟨d1, L1, ?_, h3, fun _ => ?_, fun h => by cases h⟩
        · intro ds q hp
          obtain ⟨e1, e2⟩ := h1 ds q hp
          simp only [tloop, roundEnd_strict]
          by_cases ho : (feed fin L1 ds q).2.2 = true
          · rw [e2 ho, he, if_neg (by simp)]
            refine ⟨e1, fun _ => ?_⟩
            rw [e2 ho, he]
          · rw [if_neg (by rw [e1]; simp [ho])]
            exact ⟨e1, fun h => absurd h ho⟩
        · have := h4 its
          rw [he] at this ⊢
          exact this
      · refine ⟨d2, L1 ++ L2, ?_, fun p => i3 (h3 p), fun _ => ?_, fun h => by cases h⟩
        · refine Emits.seq h1 (g := tloop fin false follow self its) i1 ?_ ?_
          · intro ds q ho hd
            simp only [tloop, roundEnd_strict]
            rw [if_pos (by rw [ho, hd]; simpa using he), hd]
          · intro ds q ho
            simp only [tloop, roundEnd_strict]
            rw [if_neg (by rw [ho]; simp)]
        · rw [List.append_assoc, i4 rfl, h4]
    | true =>
      have hself := hs rfl _ List.mem_cons_self
      refine ⟨d2, (L1 ++ D v) ++ L2, ?_, fun p => i3 (h3 p), (fun h => by cases h), fun _ => ?_⟩
      · have h5 : Emits fin P (fun ds q => (troundEnd true self v (tdispatch fin follow dec v d ds q)).2) d1 (L1 ++ D v) := by
          refine Emits.seq h1 (g := fun d1 ds q => (d1, self ds q v)) ?_ ?_ ?_
          · intro ds q hp; exact ⟨hself ds q hp, fun _ => rfl⟩
          · intro ds q ho hd
            simp only [troundEnd, ho, if_true]
            rw [hd]
          · intro ds q ho
            simp only [troundEnd, ho, Bool.false_eq_true, if_false]
        refine Emits.seq h5 (g := tloop fin true follow self its) i1 ?_ ?_
        · intro ds q ho hd
          have hb : (troundEnd true self v (tdispatch fin follow dec v d ds q)).1 = true := by
            revert ho
            unfold troundEnd
            cases h : (tdispatch fin follow dec v d ds q).2.2.2
            · simp [h]
            · simp
          simp only [tloop]
          rw [if_pos hb, hd]
        · intro ds q ho
          have hb : (troundEnd true self v (tdispatch fin follow dec v d ds q)).1 = false := by
            revert ho
            unfold troundEnd
            cases h : (tdispatch fin follow dec v d ds q).2.2.2
            · simp [h]
            · simp
          simp only [tloop]
          rw [hb, if_neg (by decide)]
      · rw [← h4 its, List.flatMap_cons]
        have hp := i5 rfl
        have e1 : (L1 ++ D v ++ L2 ++ pends d2) = L1 ++ (D v ++ (L2 ++ pends d2)) := by simp
        rw [e1, List.append_assoc]
        refine List.Perm.append_left _ ?_
        refine ((List.Perm.append_left _ hp).trans ?_)
        rw [← List.append_assoc, ← List.append_assoc]
        exact List.Perm.append_right _ List.perm_append_comm

theorem finish_feeds {P : Prop} {f : TStack → ψ → List TSt × TStack × ψ × Bool} {d : List TSt} {L : List JVal} (h : Emits fin P f d L)
    (hP : P → Single d) : Feeds fin P (fun ds q => tfinish fin (f ds q)) (L ++ pends d) := by
  intro ds q hp
  have hpe : P → pends d = [] := fun p => (hP p).pends
  by_cases ho : (feed fin L ds q).2.2 = true
  · obtain ⟨e1, e2⟩ := h ds q (.inl ho)
    simp only [tfinish]
    rw [e2 ho, e1, ho, flushAll_feed]
    rw [feed_go ho] at hp ⊢
    have : (feed fin (pends d) (feed fin L ds q).1 (feed fin L ds q).2.1).2.2 = true := by
      rcases hp with hp | p
      · exact hp
      · rw [hpe p]; rfl
    rw [← this]
  · rw [feed_skip ho] at hp ⊢
    obtain ⟨e1, e2⟩ := h ds q hp
    have ho' : (feed fin L ds q).2.2 = false := by simpa using ho
    simp only [tfinish]
    rw [e1, ho', flushAll_false, ← ho']

theorem descend_feeds {P : Prop} {self : TStack → ψ → JVal → TStack × ψ × Bool} {D : JVal → List JVal} (ms : List (Option Scalar × JVal))
    (hs : ∀ m ∈ ms, Feeds fin P (fun ds q => self ds q m.2) (D m.2)) : Feeds fin P (tdescend self ms) (ms.flatMap fun m => D m.2) := by
  induction ms with
  | nil => intro ds q _; rfl
  | cons m ms ih =>
    intro ds q hp
    have hm := hs m List.mem_cons_self
    rw [List.flatMap_cons] at hp ⊢
    simp only [tdescend]
    by_cases ho : (feed fin (D m.2) ds q).2.2 = true
    · have := hm ds q (.inl ho)
      simp only at this
      rw [feed_go ho] at hp ⊢
      rw [this, if_pos ho]
      exact ih (fun m hm => hs m (List.mem_cons_of_mem _ hm)) _ _ hp
    · rw [feed_skip ho] at hp ⊢
      have := hm ds q hp
      simp only at this
      rw [this, if_neg ho]

/-! ## Segments -/

theorem flatMap_perm {α β : Type} {f g : α → List β} {l : List α} (h : ∀ x ∈ l, (f x).Perm (g x)) : (l.flatMap f).Perm (l.flatMap g) := by
  induction l with
  | nil => exact .refl _
  | cons a l ih =>
    simp only [List.flatMap_cons]
    exact (h a List.mem_cons_self).append (ih fun x hx => h x (List.mem_cons_of_mem _ hx))

theorem flatMap_congr' {α β : Type} {f g : α → List β} {l : List α} (h : ∀ x ∈ l, f x = g x) : l.flatMap f = l.flatMap g := by
  induction l with
  | nil => rfl
  | cons a l ih =>
    simp only [List.flatMap_cons]
    rw [h a List.mem_cons_self, ih fun x hx => h x (List.mem_cons_of_mem _ hx)]

theorem flatMap_flatMap' {α β γ : Type} (f : α → List β) (g : β → List γ) (l : List α) : (l.flatMap f).flatMap g = l.flatMap fun x => (f x).flatMap g := by
  induction l with
  | nil => rfl
  | cons a l ih => simp only [List.flatMap_cons, List.flatMap_append, ih]

theorem pick_flatMap (sels : List (Sel (JVal → Bool))) (its : List Item) (l : JVal → List JVal) :
    (tnew sels).flatMap (TSt.out l its) = sels.flatMap fun s => ord s ((pick s its).flatMap l) := by
  induction sels with
  | nil => rfl
  | cons s sels ih =>
    simp only [tnew, List.map_cons, List.flatMap_cons] at ih ⊢
    rw [ih]
    simp [TSt.out]

theorem pick_perm (sels : List (Sel (JVal → Bool))) (its : List Item) (l : JVal → List JVal) :
    ((tnew sels).flatMap (TSt.out l its)).Perm ((sels.flatMap fun s => ord s (pick s its)).flatMap l) := by
  rw [pick_flatMap, flatMap_flatMap']
  exact flatMap_perm fun s _ => (ord_perm s _).trans ((ord_perm s _).flatMap_right l).symm

theorem pick_exact (sels : List (Sel (JVal → Bool))) (its : List Item) (l : JVal → List JVal)
    (h : ∀ s ∈ sels, s.reverses = true → ∀ w ∈ pick s its, (l w).length ≤ 1) :
    (tnew sels).flatMap (TSt.out l its) = (sels.flatMap fun s => ord s (pick s its)).flatMap l := by
  rw [pick_flatMap, flatMap_flatMap']
  refine flatMap_congr' fun s hs => ?_
  cases hr : s.reverses with
  | false => rw [ord_forward hr, ord_forward hr]
  | true =>
    rw [ord_back hr, ord_back hr, List.reverse_flatMap]
    refine flatMap_congr' fun w hw => ?_
    have := h s hs hr w (List.mem_reverse.1 hw)
    simp only [Function.comp]
    generalize l w = x at this
    cases x with
    | nil => rfl
    | cons a x =>
      cases x with
      | nil => rfl
      | cons b x => simp at this

theorem tnew_single {sels : List (Sel (JVal → Bool))} (h : sels.length ≤ 1) (hr : ∀ s ∈ sels, s.reverses = false) : Single (tnew sels) := by
  refine ⟨by simpa [tnew] using h, fun st hst => ?_⟩
  simp only [tnew, List.mem_map] at hst
  obtain ⟨s, hs, rfl⟩ := hst
  exact ⟨rfl, hr s hs⟩

theorem segNodes_desc {seg : Seg (JVal → Bool)} (h : seg.desc = true) (v : JVal) :
    segNodes seg v = pickAll seg.sels v ++ v.members.flatMap fun m => segNodes seg m.2 := by
  simp only [segNodes, h, if_true]
  rw [subs_eq, List.flatMap_cons, flatMap_flatMap']

theorem items_snd (L : Int) (v : JVal) : (items L v).map (·.2) = v.members.map (·.2) := by
  cases v with
  | scalar k => rfl
  | arr l e => exact arrItems_snd _ _ _
  | obj l e => exact objItems_snd _

theorem items_mem {L : Int} {v : JVal} {it : Item} (h : it ∈ items L v) : ∃ m ∈ v.members, m.2 = it.2 := by
  have : it.2 ∈ (items L v).map (·.2) := List.mem_map_of_mem h
  rw [items_snd] at this
  simpa using this

/-- The order of the nodes of a segment that does not go backwards is known. -/
def Exact (strict : Bool) (seg : Seg (JVal → Bool)) : Prop := seg.desc = false ∨ strict = true ∧ seg.sels.length ≤ 1

/-- The order of the nodes is known.  `short` says that the segments after this one select at most one node. -/
def ExactB (strict : Bool) (seg : Seg (JVal → Bool)) (short : Prop) : Prop :=
  (seg.desc = false ∧ ((∃ s ∈ seg.sels, s.reverses = true) → short)) ∨
    (strict = true ∧ seg.sels.length ≤ 1 ∧ ∀ s ∈ seg.sels, s.reverses = false)

/-- `tseg` on a collection. -/
theorem tseg_loop (strict : Bool) (seg : Seg (JVal → Bool)) (follow : TStack → ψ → JVal → TStack × ψ × Bool) (g : Nat) (ds : TStack) (q : ψ)
    (v : JVal) : tseg fin strict seg follow (g + 1) ds q v =
      match v with
      | .scalar _ => (ds, q, true)
      | _ => tfinish fin (if strict then tstrictEnd seg.desc (tseg fin strict seg follow g) v.members
              (tloop fin false follow (tseg fin strict seg follow g) (items (segLookahead seg.sels) v) (tnew seg.sels) ds q)
            else tloop fin seg.desc follow (tseg fin strict seg follow g) (items (segLookahead seg.sels) v) (tnew seg.sels) ds q) := by
  cases v with
  | scalar k => rfl
  | arr l e => simp only [tseg, arrStrict_loop follow (tseg fin strict seg follow g), arrRelaxed_loop]; rfl
  | obj l e => simp only [tseg, objStrict_loop follow (tseg fin strict seg follow g), objRelaxed_loop]; rfl

theorem pick_mem {sel : Sel (JVal → Bool)} {its : List Item} {w : JVal} (h : w ∈ pick sel its) : ∃ it ∈ its, it.2 = w := by
  induction its with
  | nil => cases h
  | cons it its ih =>
    obtain ⟨dec, v⟩ := it
    simp only [pick, List.mem_append] at h
    rcases h with h | h
    · split at h
      · simp only [List.mem_singleton] at h; exact ⟨_, List.mem_cons_self, h.symm⟩
      · cases h
    · split at h
      · obtain ⟨it, h1, h2⟩ := ih h
        exact ⟨it, List.mem_cons_of_mem _ h1, h2⟩
      · cases h

theorem seg_feeds {P : Prop} {strict : Bool} {seg : Seg (JVal → Bool)} (hP : P → seg.sels.length ≤ 1 ∧ ∀ s ∈ seg.sels, s.reverses = false)
    {follow : TStack → ψ → JVal → TStack × ψ × Bool} {l : JVal → List JVal} {F : Nat}
    (hf : ∀ w : JVal, w.toks.length ≤ F → Feeds fin P (fun ds q => follow ds q w) (l w)) (g : Nat) :
    ∀ v : JVal, v.toks.length ≤ g → v.toks.length ≤ F → ∃ L, Feeds fin P (fun ds q => tseg fin strict seg follow g ds q v) L ∧
      L.Perm ((segNodes seg v).flatMap l) ∧
      (ExactB strict seg (∀ w : JVal, w.toks.length ≤ F → (l w).length ≤ 1) → L = (segNodes seg v).flatMap l) := by
  induction g with
  | zero => intro v h; have := toks_pos v; omega
  | succ g ih =>
    intro v hv hF
    have hD : ∃ D : JVal → List JVal, ∀ m ∈ v.members, Feeds fin P (fun ds q => tseg fin strict seg follow g ds q m.2) (D m.2) ∧
        (D m.2).Perm ((segNodes seg m.2).flatMap l) ∧ (ExactB strict seg (∀ w : JVal, w.toks.length ≤ F → (l w).length ≤ 1) → D m.2 = (segNodes seg m.2).flatMap l) := by
      have : ∀ w : JVal, ∃ L, (∃ m ∈ v.members, m.2 = w) → Feeds fin P (fun ds q => tseg fin strict seg follow g ds q w) L ∧
          L.Perm ((segNodes seg w).flatMap l) ∧ (ExactB strict seg (∀ w : JVal, w.toks.length ≤ F → (l w).length ≤ 1) → L = (segNodes seg w).flatMap l) := by
        intro w
        by_cases hw : ∃ m ∈ v.members, m.2 = w
        · obtain ⟨m, hm, rfl⟩ := hw
          have := (members_len v).2 m hm
          obtain ⟨L, h⟩ := ih m.2 (by omega) (by omega)
          exact ⟨L, fun _ => h⟩
        · exact ⟨[], fun h => absurd h hw⟩
      obtain ⟨D, hD⟩ := Classical.skolem.1 this
      exact ⟨D, fun m hm => hD m.2 ⟨m, hm, rfl⟩⟩
    obtain ⟨D, hD⟩ := hD
    by_cases hsc : ∃ k, v = .scalar k
    · obtain ⟨k, rfl⟩ := hsc
      have : segNodes seg (.scalar k) = [] := by
        cases h : seg.desc
        · simp [segNodes, h, pickAll, items, pick, ord]
        · simp [segNodes, h, subs, pickAll, items, pick, ord]
      refine ⟨[], fun ds q _ => rfl, by rw [this]; exact .refl _, fun _ => by rw [this]; rfl⟩
    have hseg : ∀ ds q, tseg fin strict seg follow (g + 1) ds q v = tfinish fin (if strict then tstrictEnd seg.desc (tseg fin strict seg follow g) v.members
              (tloop fin false follow (tseg fin strict seg follow g) (items (segLookahead seg.sels) v) (tnew seg.sels) ds q)
            else tloop fin seg.desc follow (tseg fin strict seg follow g) (items (segLookahead seg.sels) v) (tnew seg.sels) ds q) := by
      intro ds q
      rw [tseg_loop]
      cases v with
      | scalar k => exact absurd ⟨k, rfl⟩ hsc
      | arr => rfl
      | obj => rfl
    have hfi : ∀ it ∈ items (segLookahead seg.sels) v, Feeds fin P (fun ds q => follow ds q it.2) (l it.2) := by
      intro it hit
      obtain ⟨m, hm, e⟩ := items_mem hit
      have := (members_len v).2 m hm
      rw [← e]
      exact hf _ (by omega)
    have hsi : ∀ it ∈ items (segLookahead seg.sels) v, Feeds fin P (fun ds q => tseg fin strict seg follow g ds q it.2) (D it.2) := by
      intro it hit
      obtain ⟨m, hm, e⟩ := items_mem hit
      rw [← e]
      exact (hD m hm).1
    have hitD : (items (segLookahead seg.sels) v).flatMap (fun it => D it.2) = v.members.flatMap fun m => D m.2 := by
      have h1 : (items (segLookahead seg.sels) v).flatMap (fun it => D it.2) = ((items (segLookahead seg.sels) v).map (·.2)).flatMap D := by
        rw [List.flatMap_map]
      rw [h1, items_snd, List.flatMap_map]
    have hkids : (v.members.flatMap fun m => D m.2).Perm ((v.members.flatMap fun m => segNodes seg m.2).flatMap l) := by
      rw [flatMap_flatMap']
      exact flatMap_perm fun m hm => (hD m hm).2.1
    have hkids' : ExactB strict seg (∀ w : JVal, w.toks.length ≤ F → (l w).length ≤ 1) → (v.members.flatMap fun m => D m.2) = ((v.members.flatMap fun m => segNodes seg m.2).flatMap l) := by
      intro he
      rw [flatMap_flatMap']
      exact flatMap_congr' fun m hm => (hD m hm).2.2 he
    have hpick : ((tnew seg.sels).flatMap (TSt.out l (items (segLookahead seg.sels) v))).Perm ((pickAll seg.sels v).flatMap l) := pick_perm _ _ _
    have hpick' : ((∃ s ∈ seg.sels, s.reverses = true) → (∀ w : JVal, w.toks.length ≤ F → (l w).length ≤ 1)) →
        (tnew seg.sels).flatMap (TSt.out l (items (segLookahead seg.sels) v)) = (pickAll seg.sels v).flatMap l := fun h =>
      pick_exact _ _ _ fun s hs hr w hw => by
        obtain ⟨it, h1, rfl⟩ := pick_mem hw
        obtain ⟨m, hm, e⟩ := items_mem h1
        have := (members_len v).2 m hm
        exact h ⟨s, hs, hr⟩ it.2 (by rw [← e]; omega)
    cases hdesc : seg.desc with
    | false =>
      obtain ⟨d, L, h1, h3, h4, _⟩ := loop_emits (self := tseg fin strict seg follow g) (D := D) false (items (segLookahead seg.sels) v) hfi (fun h => by cases h)
        (tnew seg.sels)
      have hn : segNodes seg v = pickAll seg.sels v := by simp [segNodes, hdesc]
      refine ⟨L ++ pends d, ?_, by rw [h4 rfl, hn]; exact hpick, fun he => ?_⟩
      rotate_left
      · rw [h4 rfl, hn]
        refine hpick' fun hs => ?_
        rcases he with ⟨_, he⟩ | ⟨_, _, he⟩
        · exact he hs
        · obtain ⟨s, h1, h2⟩ := hs
          rw [he s h1] at h2
          cases h2
      have := finish_feeds h1 (fun p => h3 (tnew_single (hP p).1 (hP p).2))
      intro ds q hp
      have := this ds q hp
      simp only at this
      show tseg _ _ _ _ _ _ _ _ = _
      rw [hseg, hdesc]
      simp only [tstrictEnd, Bool.and_false, Bool.false_eq_true, if_false, ite_self]
      exact this
    | true =>
      cases strict with
      | false =>
        obtain ⟨d, L, h1, h3, _, h4⟩ := loop_emits (self := tseg fin false seg follow g) (D := D) true (items (segLookahead seg.sels) v) hfi (fun _ => hsi)
          (tnew seg.sels)
        refine ⟨L ++ pends d, ?_, ?_, ?_⟩
        · have := finish_feeds h1 (fun p => h3 (tnew_single (hP p).1 (hP p).2))
          intro ds q hp
          have := this ds q hp
          simp only at this
          show tseg _ _ _ _ _ _ _ _ = _
          rw [hseg, hdesc]
          simp only [Bool.false_eq_true, if_false]
          exact this
        · have := h4 rfl
          rw [hitD] at this
          rw [segNodes_desc hdesc, List.flatMap_append]
          exact this.trans (hpick.append hkids)
        · intro he
          rcases he with he | he
          · rw [hdesc] at he; cases he.1
          · cases he.1
      | true =>
        obtain ⟨d, L, h1, h3, h4, _⟩ := loop_emits (self := tseg fin true seg follow g) (D := D) false (items (segLookahead seg.sels) v) hfi (fun h => by cases h)
          (tnew seg.sels)
        have h5 : Emits fin P (fun ds q => tstrictEnd true (tseg fin true seg follow g) v.members
            (tloop fin false follow (tseg fin true seg follow g) (items (segLookahead seg.sels) v) (tnew seg.sels) ds q)) d
            (L ++ v.members.flatMap fun m => D m.2) := by
          refine Emits.seq h1 (g := fun d ds q => (d, tdescend (tseg fin true seg follow g) v.members ds q)) ?_ ?_ ?_
          · intro ds q hp
            exact ⟨descend_feeds v.members (fun m hm => (hD m hm).1) ds q hp, fun _ => rfl⟩
          · intro ds q ho hd
            simp only [tstrictEnd, ho, Bool.and_true, if_true]
            rw [hd]
          · intro ds q ho
            simp only [tstrictEnd, ho, Bool.false_and, Bool.false_eq_true, if_false]
        refine ⟨(L ++ v.members.flatMap fun m => D m.2) ++ pends d, ?_, ?_, ?_⟩
        · have := finish_feeds h5 (fun p => h3 (tnew_single (hP p).1 (hP p).2))
          intro ds q hp
          have := this ds q hp
          simp only at this
          show tseg _ _ _ _ _ _ _ _ = _
          rw [hseg, hdesc]
          simp only [if_true]
          exact this
        · rw [segNodes_desc hdesc, List.flatMap_append]
          refine List.Perm.trans ?_ (hpick.append hkids)
          rw [← h4 rfl, List.append_assoc, List.append_assoc]
          exact List.Perm.append_left _ List.perm_append_comm
        · intro he
          have hlen : seg.sels.length ≤ 1 ∧ ∀ s ∈ seg.sels, s.reverses = false := by
            rcases he with he | he
            · rw [hdesc] at he; cases he.1
            · exact he.2
          have hp : pends d = [] := (h3 (tnew_single hlen.1 hlen.2)).pends
          have := h4 rfl
          rw [hp, List.append_nil] at this
          rw [hp, List.append_nil, this, hpick' (fun ⟨s, h1, h2⟩ => by rw [hlen.2 s h1] at h2; cases h2), hkids' he, segNodes_desc hdesc, List.flatMap_append]

theorem pickAll_mem {sels : List (Sel (JVal → Bool))} {v w : JVal} (h : w ∈ pickAll sels v) : ∃ m ∈ v.members, m.2 = w := by
  simp only [pickAll, List.mem_flatMap] at h
  obtain ⟨s, _, h⟩ := h
  obtain ⟨it, h1, rfl⟩ := pick_mem (mem_ord.1 h)
  exact items_mem h1

theorem subs_len (n : Nat) : ∀ {v w : JVal}, v.toks.length ≤ n → w ∈ subs v → w.toks.length ≤ v.toks.length := by
  induction n with
  | zero => intro v w h; have := toks_pos v; omega
  | succ n ih =>
    intro v w h hw
    rw [subs_eq, List.mem_cons, List.mem_flatMap] at hw
    rcases hw with rfl | ⟨m, hm, hw⟩
    · exact Nat.le_refl _
    · have := (members_len v).2 m hm
      have := ih (by omega) hw
      omega

theorem segNodes_len {seg : Seg (JVal → Bool)} {v w : JVal} (h : w ∈ segNodes seg v) : w.toks.length ≤ v.toks.length := by
  unfold segNodes at h
  split at h
  · simp only [List.mem_flatMap] at h
    obtain ⟨u, hu, h⟩ := h
    obtain ⟨m, hm, rfl⟩ := pickAll_mem h
    have := (members_len u).2 m hm
    have := subs_len _ (Nat.le_refl _) hu
    omega
  · obtain ⟨m, hm, rfl⟩ := pickAll_mem h
    have := (members_len v).2 m hm
    omega

/-- The order of the nodes of a query is known. -/
def ExactAll (strict : Bool) : List (Seg (JVal → Bool)) → Prop
  | [] => True
  | seg :: segs => ExactB strict seg (∀ w, (tnodes segs w).length ≤ 1) ∧ ExactAll strict segs

/-- The list that a query hands to the processor.  If it refuses nothing, or if no segment has several selectors or goes backwards, this is
exact. -/
theorem segs_feeds' {P : Prop} {strict : Bool} {F : Nat} : ∀ {segs : List (Seg (JVal → Bool))},
    (P → ∀ seg ∈ segs, seg.sels.length ≤ 1 ∧ ∀ s ∈ seg.sels, s.reverses = false) →
    ∃ N : JVal → List JVal, ∀ v : JVal, v.toks.length ≤ F → Feeds fin P (fun ds q => tsegs fin strict F segs ds q v) (N v) ∧
      (N v).Perm (tnodes segs v) ∧ (ExactAll strict segs → N v = tnodes segs v)
  | [], _ => ⟨fun v => [v], fun v _ => ⟨fun ds q _ => by
      show tprocess fin ds q v = _
      simp only [feed]
      split
      · rename_i h; rw [← h]
      · rfl, .refl _, fun _ => rfl⟩⟩
  | seg :: segs, hP => by
    obtain ⟨l, hl⟩ := segs_feeds' (P := P) (strict := strict) (F := F) (segs := segs) (fun p s hs => hP p s (List.mem_cons_of_mem _ hs))
    have hs := seg_feeds (fin := fin) (strict := strict) (seg := seg) (P := P) (fun p => hP p seg List.mem_cons_self) (F := F)
      (fun w hw => (hl w hw).1) F
    have : ∀ v : JVal, ∃ L, v.toks.length ≤ F → Feeds fin P (fun ds q => tsegs fin strict F (seg :: segs) ds q v) L ∧
        L.Perm (tnodes (seg :: segs) v) ∧ (ExactAll strict (seg :: segs) → L = tnodes (seg :: segs) v) := by
      intro v
      by_cases hv : v.toks.length ≤ F
      · obtain ⟨L, h1, h2, h3⟩ := hs v hv hv
        refine ⟨L, fun _ => ⟨h1, ?_, fun he => ?_⟩⟩
        · exact h2.trans (flatMap_perm fun w hw => (hl w (Nat.le_trans (segNodes_len hw) hv)).2.1)
        · rw [h3 (he.1.imp (fun h => ⟨h.1, fun hr w hw => by rw [(hl w hw).2.1.length_eq]; exact h.2 hr w⟩) id)]
          exact flatMap_congr' fun w hw => (hl w (Nat.le_trans (segNodes_len hw) hv)).2.2 he.2
      · exact ⟨[], fun h => absurd h hv⟩
    exact Classical.skolem.1 this

theorem exactAll_forward {strict : Bool} : ∀ {segs : List (Seg (JVal → Bool))}, (∀ seg ∈ segs, ∀ s ∈ seg.sels, s.reverses = false) →
    (∀ seg ∈ segs, Exact strict seg) → ExactAll strict segs
  | [], _, _ => trivial
  | seg :: segs, hr, he => by
    refine ⟨?_, exactAll_forward (fun s hs => hr s (List.mem_cons_of_mem _ hs)) (fun s hs => he s (List.mem_cons_of_mem _ hs))⟩
    rcases he seg List.mem_cons_self with h | h
    · exact .inl ⟨h, fun ⟨s, h1, h2⟩ => by rw [hr seg List.mem_cons_self s h1] at h2; cases h2⟩
    · exact .inr ⟨h.1, h.2, hr seg List.mem_cons_self⟩

/-- `segs_feeds'`, without selectors that reverse. -/
theorem segs_feeds {P : Prop} {strict : Bool} {F : Nat} {segs : List (Seg (JVal → Bool))}
    (hr : ∀ seg ∈ segs, ∀ s ∈ seg.sels, s.reverses = false) (hP : P → ∀ seg ∈ segs, seg.sels.length ≤ 1) :
    ∃ N : JVal → List JVal, ∀ v : JVal, v.toks.length ≤ F → Feeds fin P (fun ds q => tsegs fin strict F segs ds q v) (N v) ∧
      (N v).Perm (tnodes segs v) ∧ ((∀ seg ∈ segs, Exact strict seg) → N v = tnodes segs v) := by
  obtain ⟨N, h⟩ := segs_feeds' (fin := fin) (P := P) (strict := strict) (F := F) (segs := segs) (fun p seg hs => ⟨hP p seg hs, hr seg hs⟩)
  exact ⟨N, fun v hv => ⟨(h v hv).1, (h v hv).2.1, fun he => (h v hv).2.2 (exactAll_forward hr he)⟩⟩

end Verif.JPath
