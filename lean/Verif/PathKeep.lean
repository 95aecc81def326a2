import Verif.PathTwin

/-!
# Running the segments of a query: the nodes, and what is known of them beforehand

The nodes that a query selects, described without states, queues and stacks.  The states of the dispatchers keep their selectors while
values are passed on, so that what holds of all the nodes of a query holds of each value that is passed on.
-/

set_option linter.unusedSimpArgs false
set_option linter.unusedVariables false

namespace Verif.JPath
open GoJson

/-! ## Lists of nodes -/

/-- An item of a collection: what is known about its key or its index, and its value. -/
abbrev Item := (Sel (JVal → Bool) → Decision) × JVal

/-- The items that a selector selects. -/
def pick (sel : Sel (JVal → Bool)) : List Item → List JVal
  | [] => []
  | (dec, v) :: l => (if tselects (dec sel) v sel then [v] else []) ++ if (dec sel).more then pick sel l else []

/-- The members of an object. -/
def objItems (l : List (Option Scalar × JVal)) : List Item := l.map fun m => ((·.fromKey (tkey m.1)), m.2)

/-- The items of an array. -/
def arrItems : List (Option Scalar × JVal) → Int → Int × Option Nat → List Item
  | [], _, _ => []
  | (_, v) :: l, index, w => ((·.fromIndex index w.1), v) :: arrItems l (index + 1) (windowNext w.1 w.2)

/-- The children of a value. -/
def items (L : Int) (v : JVal) : List Item :=
  match v with
  | .scalar _ => []
  | .obj _ _ => objItems v.members
  | .arr _ _ => arrItems v.members 0 (windowInit L v.members.length)

/-- The nodes in the order of the selector. -/
def ord (sel : Sel (JVal → Bool)) (l : List JVal) : List JVal := if sel.reverses then l.reverse else l

theorem ord_forward {sel : Sel (JVal → Bool)} (h : sel.reverses = false) (l : List JVal) : ord sel l = l := by simp [ord, h]
theorem ord_back {sel : Sel (JVal → Bool)} (h : sel.reverses = true) (l : List JVal) : ord sel l = l.reverse := by simp [ord, h]
@[simp] theorem mem_ord {sel : Sel (JVal → Bool)} {l : List JVal} {w : JVal} : w ∈ ord sel l ↔ w ∈ l := by unfold ord; split <;> simp
theorem ord_perm (sel : Sel (JVal → Bool)) (l : List JVal) : (ord sel l).Perm l := by
  unfold ord
  split
  · exact List.reverse_perm l
  · exact .refl _

/-- The nodes that the selectors select, selector by selector. -/
def pickAll (sels : List (Sel (JVal → Bool))) (v : JVal) : List JVal := sels.flatMap fun s => ord s (pick s (items (segLookahead sels) v))

mutual
/-- A value and its descendants. -/
def subs : JVal → List JVal
  | .scalar k => [.scalar k]
  | .arr l e => .arr l e :: subsL l
  | .obj l e => .obj l e :: subsM l
@[inherit_doc subs] def subsL : List JVal → List JVal
  | [] => []
  | v :: l => subs v ++ subsL l
@[inherit_doc subs] def subsM : List (Scalar × JVal) → List JVal
  | [] => []
  | (_, v) :: l => subs v ++ subsM l
end

/-- The nodes that a segment selects. -/
def segNodes (seg : Seg (JVal → Bool)) (v : JVal) : List JVal :=
  if seg.desc then (subs v).flatMap (pickAll seg.sels) else pickAll seg.sels v

/-- The nodes that a query selects. -/
def tnodes : List (Seg (JVal → Bool)) → JVal → List JVal
  | [], v => [v]
  | seg :: segs, v => (segNodes seg v).flatMap (tnodes segs)

theorem subsL_eq : ∀ l : List JVal, subsL l = (l.map fun v => ((none : Option Scalar), v)).flatMap fun m => subs m.2
  | [] => rfl
  | v :: l => by simp only [subsL, subsL_eq l]; rfl

theorem subsM_eq : ∀ l : List (Scalar × JVal), subsM l = (l.map fun m => (some m.1, m.2)).flatMap fun m => subs m.2
  | [] => rfl
  | (k, v) :: l => by simp only [subsM, subsM_eq l]; rfl

theorem subs_eq (v : JVal) : subs v = v :: v.members.flatMap fun m => subs m.2 := by
  cases v with
  | scalar k => rfl
  | arr l e => simp only [subs, subsL_eq]; rfl
  | obj l e => simp only [subs, subsM_eq]; rfl

theorem arrItems_snd : ∀ (l : List (Option Scalar × JVal)) (i : Int) (w : Int × Option Nat), (arrItems l i w).map (·.2) = l.map (·.2)
  | [], _, _ => rfl
  | (_, v) :: l, i, w => by simp only [arrItems, List.map_cons, arrItems_snd l]

theorem objItems_snd (l : List (Option Scalar × JVal)) : (objItems l).map (·.2) = l.map (·.2) := by
  simp [objItems]

/-! ## Selectors are kept -/

/-- Selectors, and whether they are done. -/
def sh (d : List TSt) : List (Sel (JVal → Bool) × Bool) := d.map fun st => (st.sel, st.done)

/-- The same for stacks. -/
def shape (T : TStack) : List (List (Sel (JVal → Bool) × Bool)) := T.map sh

variable {ψ : Type} {fin : ψ → JVal → ψ × Bool}

/-- The selectors stay. -/
def Keeps (f : TStack → ψ → JVal → TStack × ψ × Bool) : Prop := ∀ T q v, shape (f T q v).1 = shape T

@[simp] theorem sh_cons (st : TSt) (d : List TSt) : sh (st :: d) = (st.sel, st.done) :: sh d := rfl
@[simp] theorem shape_cons (d : List TSt) (T : TStack) : shape (d :: T) = sh d :: shape T := rfl

theorem sh_append (v : JVal) (d : List TSt) : sh (tappend v d) = sh d := by
  simp only [sh, tappend, List.map_map]
  apply List.map_congr_left
  intro st _
  simp only [Function.comp]
  split <;> rfl

theorem process_keeps : Keeps (tprocess fin) := by
  intro T
  induction T with
  | nil => intro q v; rfl
  | cons d T ih =>
    intro q v
    cases d with
    | nil => rfl
    | cons st rest =>
      simp only [tprocess]
      split
      · split
        · simp only [shape_cons, sh_cons, sh_append]
        · split
          · simp only [shape_cons, sh_cons, sh_append, ih]
          · simp only [shape_cons, sh_cons, ih]
      · simp only [shape_cons, sh_cons, sh_append]

theorem flushVals_keeps : ∀ (l : List JVal) (r : Bool) (T : TStack) (q : ψ), shape (tflushVals fin l r T q).1 = shape T
  | [], _, _, _ => rfl
  | v :: l, true, T, q => by simp only [tflushVals]; rw [flushVals_keeps l, process_keeps]
  | _ :: l, false, T, q => by simp only [tflushVals]; rw [flushVals_keeps l]

theorem flushAll_keeps : ∀ (d : List TSt) (r : Bool) (T : TStack) (q : ψ), shape (tflushAll fin d r T q).1 = shape T
  | [], _, _, _ => rfl
  | st :: d, r, T, q => by simp only [tflushAll]; rw [flushAll_keeps d]; exact flushVals_keeps _ _ _ _

theorem dispatchLive_keeps {follow : TStack → ψ → JVal → TStack × ψ × Bool} (hf : Keeps follow) (v : JVal) (any : Bool) (d : List TSt)
    (T : TStack) (q : ψ) : sh (tdispatchLive fin follow v any d T q).1 = sh d ∧ shape (tdispatchLive fin follow v any d T q).2.1 = shape T := by
  cases d with
  | nil => exact ⟨rfl, rfl⟩
  | cons st rest =>
    simp only [tdispatchLive]
    generalize hr : (if st.sel.reverses || st.pending.isEmpty then (st, T, q, true)
      else let r := tflushSt fin st true T q; ({ st with pending := [] }, r.1, r.2.1, r.2.2)) = r
    have h1 : (r.1.sel, r.1.done) = (st.sel, st.done) ∧ shape r.2.1 = shape T := by
      rw [← hr]
      split
      · exact ⟨rfl, rfl⟩
      · exact ⟨rfl, flushVals_keeps _ _ _ _⟩
    have hh : sh (r.1 :: rest) = sh (st :: rest) := by rw [sh_cons, sh_cons, h1.1]
    split
    · split
      · have h2 := hf ((r.1 :: rest) :: r.2.1) r.2.2.1 v
        generalize follow ((r.1 :: rest) :: r.2.1) r.2.2.1 v = f at h2
        obtain ⟨T', q', b⟩ := f
        cases T' with
        | nil => cases h2
        | cons d' T' =>
          simp only [shape_cons, List.cons.injEq] at h2
          exact ⟨h2.1.trans hh, h2.2.trans h1.2⟩
      · exact ⟨hh, h1.2⟩
    · exact ⟨hh, h1.2⟩

theorem dispatch_keeps {follow : TStack → ψ → JVal → TStack × ψ × Bool} (hf : Keeps follow) (dec : Sel (JVal → Bool) → Decision) (v : JVal)
    (d : List TSt) (T : TStack) (q : ψ) : sh (tdispatch fin follow dec v d T q).1 = sh ((tdecideAll dec v d).dropWhile TSt.over) ∧
      shape (tdispatch fin follow dec v d T q).2.1 = shape T := by
  simp only [tdispatch]
  split
  · obtain ⟨h1, h2⟩ := dispatchLive_keeps (fin := fin) hf v ((tdecideAll dec v d).any (·.selected)) ((tdecideAll dec v d).dropWhile TSt.over)
      (tflushAll fin ((tdecideAll dec v d).takeWhile TSt.over) true T q).1 (tflushAll fin ((tdecideAll dec v d).takeWhile TSt.over) true T q).2.1
    exact ⟨h1, h2.trans (flushAll_keeps _ _ _ _)⟩
  · exact ⟨rfl, flushAll_keeps _ _ _ _⟩

theorem roundEnd_keeps {desc : Bool} {self : TStack → ψ → JVal → TStack × ψ × Bool} (hs : desc = true → Keeps self) (v : JVal)
    (r : List TSt × TStack × ψ × Bool) : (troundEnd desc self v r).2.1 = r.1 ∧ shape (troundEnd desc self v r).2.2.1 = shape r.2.1 := by
  simp only [troundEnd]
  split
  · split
    · rename_i h
      exact ⟨rfl, hs h _ _ _⟩
    · exact ⟨rfl, rfl⟩
  · exact ⟨rfl, rfl⟩

theorem objRelaxed_keeps {desc : Bool} {follow self : TStack → ψ → JVal → TStack × ψ × Bool} (hf : Keeps follow) (hs : desc = true → Keeps self) :
    ∀ (l : List (Option Scalar × JVal)) (d : List TSt) (T : TStack) (q : ψ), shape (tobjRelaxed fin desc follow self l d T q).2.1 = shape T
  | [], _, _, _ => rfl
  | (k, v) :: l, d, T, q => by
    simp only [tobjRelaxed]
    have h := (roundEnd_keeps hs v (tdispatch fin follow (·.fromKey (tkey k)) v d T q)).2.trans (dispatch_keeps hf _ _ _ _ _).2
    split
    · rw [objRelaxed_keeps hf hs l]; exact h
    · exact h

theorem arrRelaxed_keeps {desc : Bool} {follow self : TStack → ψ → JVal → TStack × ψ × Bool} (hf : Keeps follow) (hs : desc = true → Keeps self) :
    ∀ (l : List (Option Scalar × JVal)) (i : Int) (w : Int × Option Nat) (d : List TSt) (T : TStack) (q : ψ),
      shape (tarrRelaxed fin desc follow self l i w d T q).2.1 = shape T
  | [], _, _, _, _, _ => rfl
  | (_, v) :: l, i, w, d, T, q => by
    simp only [tarrRelaxed]
    have h := (roundEnd_keeps hs v (tdispatch fin follow (·.fromIndex i w.1) v d T q)).2.trans (dispatch_keeps hf _ _ _ _ _).2
    split
    · rw [arrRelaxed_keeps hf hs l]; exact h
    · exact h

theorem objStrict_keeps {follow : TStack → ψ → JVal → TStack × ψ × Bool} (hf : Keeps follow) :
    ∀ (l : List (Option Scalar × JVal)) (d : List TSt) (T : TStack) (q : ψ), shape (tobjStrict fin follow l d T q).2.1 = shape T
  | [], _, _, _ => rfl
  | (k, v) :: l, d, T, q => by
    simp only [tobjStrict]
    have h := (dispatch_keeps (fin := fin) hf (·.fromKey (tkey k)) v d T q).2
    split
    · rw [objStrict_keeps hf l]; exact h
    · exact h

theorem arrStrict_keeps {follow : TStack → ψ → JVal → TStack × ψ × Bool} (hf : Keeps follow) :
    ∀ (l : List (Option Scalar × JVal)) (i : Int) (w : Int × Option Nat) (d : List TSt) (T : TStack) (q : ψ),
      shape (tarrStrict fin follow l i w d T q).2.1 = shape T
  | [], _, _, _, _, _ => rfl
  | (_, v) :: l, i, w, d, T, q => by
    simp only [tarrStrict]
    have h := (dispatch_keeps (fin := fin) hf (·.fromIndex i w.1) v d T q).2
    split
    · rw [arrStrict_keeps hf l]; exact h
    · exact h

theorem descend_keeps {self : TStack → ψ → JVal → TStack × ψ × Bool} (hs : Keeps self) :
    ∀ (l : List (Option Scalar × JVal)) (T : TStack) (q : ψ), shape (tdescend self l T q).1 = shape T
  | [], _, _ => rfl
  | (_, v) :: l, T, q => by
    simp only [tdescend]
    split
    · rw [descend_keeps hs l]; exact hs _ _ _
    · exact hs _ _ _

theorem strictEnd_keeps {desc : Bool} {self : TStack → ψ → JVal → TStack × ψ × Bool} (hs : Keeps self) (ms : List (Option Scalar × JVal))
    (r : List TSt × TStack × ψ × Bool) : shape (tstrictEnd desc self ms r).2.1 = shape r.2.1 := by
  simp only [tstrictEnd]
  split
  · exact descend_keeps hs _ _ _
  · rfl

theorem finish_keeps (r : List TSt × TStack × ψ × Bool) : shape (tfinish fin r).1 = shape r.2.1 := flushAll_keeps _ _ _ _

theorem seg_keeps (strict : Bool) (sg : Seg (JVal → Bool)) {follow : TStack → ψ → JVal → TStack × ψ × Bool} (hf : Keeps follow) :
    ∀ g, Keeps (tseg fin strict sg follow g) := by
  intro g
  induction g with
  | zero => intro T q v; rfl
  | succ g ih =>
    intro T q v
    cases v with
    | scalar k => rfl
    | obj l e =>
      simp only [tseg]
      rw [finish_keeps]
      split
      · rw [strictEnd_keeps ih, objStrict_keeps hf]
      · exact objRelaxed_keeps hf (fun _ => ih) _ _ _ _
    | arr l e =>
      simp only [tseg]
      rw [finish_keeps]
      split
      · rw [strictEnd_keeps ih, arrStrict_keeps hf]
      · exact arrRelaxed_keeps hf (fun _ => ih) _ _ _ _ _ _

theorem segs_keeps (strict : Bool) (F : Nat) : ∀ sgs : List (Seg (JVal → Bool)), Keeps (tsegs fin strict F sgs)
  | [] => process_keeps
  | sg :: sgs => seg_keeps strict sg (segs_keeps strict F sgs) F

/-! ## What holds of the nodes -/

/-- The property holds of what the states will select. -/
def Sound (Q : JVal → Prop) (l : List (Sel (JVal → Bool) × Bool)) (its : List Item) : Prop :=
  ∀ p ∈ l, p.2 = false → ∀ w ∈ pick p.1 its, Q w

theorem Sound.step {Q : JVal → Prop} {d : List TSt} {dec : Sel (JVal → Bool) → Decision} {v : JVal} {its : List Item}
    (h : Sound Q (sh d) ((dec, v) :: its)) :
    ((tdecideAll dec v d).any (·.selected) = true → Q v) ∧ Sound Q (sh ((tdecideAll dec v d).dropWhile TSt.over)) its := by
  constructor
  · intro ha
    obtain ⟨st, h1, h2⟩ := List.any_eq_true.1 ha
    simp only [tdecideAll, List.mem_map] at h1
    obtain ⟨st0, h0, rfl⟩ := h1
    by_cases hd : st0.done = true
    · simp [hd] at h2
    · simp only [hd, if_false] at h2
      refine h (st0.sel, st0.done) (List.mem_map.2 ⟨st0, h0, rfl⟩) (by simpa using hd) v ?_
      simp only [pick]
      rw [if_pos (by simpa using h2)]
      simp
  · intro p hp hpd w hw
    simp only [sh, List.mem_map] at hp
    obtain ⟨st, h1, rfl⟩ := hp
    have h1 := (List.dropWhile_sublist _).mem h1
    simp only [tdecideAll, List.mem_map] at h1
    obtain ⟨st0, h0, rfl⟩ := h1
    by_cases hd : st0.done = true
    · simp [hd] at hpd
    · simp only [hd] at hpd hw
      refine h (st0.sel, st0.done) (List.mem_map.2 ⟨st0, h0, rfl⟩) (by simpa using hd) w ?_
      simp only [pick]
      rw [if_pos (by simpa using hpd : (dec st0.sel).more = true)]
      exact List.mem_append.2 (.inr (by simpa using hw))

theorem Sound.new {Q : JVal → Prop} {sels : List (Sel (JVal → Bool))} {its : List Item} (h : ∀ s ∈ sels, ∀ w ∈ pick s its, Q w) :
    Sound Q (sh (tnew sels)) its := by
  intro p hp _ w hw
  simp only [sh, tnew, List.map_map, List.mem_map] at hp
  obtain ⟨s, hs, rfl⟩ := hp
  exact h s hs w hw

end Verif.JPath
