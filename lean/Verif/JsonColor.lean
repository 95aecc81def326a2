import Verif.JsonColl
import Verif.EncSpec

/-!
# Colours in what the JSON encoder prints

The layout is the same with and without colours.
-/

set_option linter.unusedSimpArgs false
set_option linter.unusedVariables false

namespace Verif
namespace Enc

open JVal.toks EncSpec

/-- Printer calls in which scalars are marked. -/
abbrev Marked := List (POp ⊕ Scalar)

/-- Mark removed. -/
def unmark (c : Option Colorizer) : POp ⊕ Scalar → List POp
  | .inl o => [o]
  | .inr s => printScalar c s

/-- The marked scalars. -/
def marks (m : Marked) : List Scalar := m.flatMap fun | .inl _ => [] | .inr s => [s]

/-- Not the bytes of a scalar or colour. -/
def PunctOp (o : POp) : Prop := ∀ b, o = .bytes b → ∀ x ∈ b, x ∈ b%"[]{},:. "

/-- `a` is printed with colours and `a'` without, with the scalars `ss`. -/
def Twin (c : Option Colorizer) (a a' : List POp) (ss : List Scalar) : Prop :=
  ∃ m : Marked, a = m.flatMap (unmark c) ∧ a' = m.flatMap (unmark none) ∧ ss = marks m ∧ ∀ o, .inl o ∈ m → PunctOp o

theorem Twin.append {c a a' ss b b' tt} (h : Twin c a a' ss) (h' : Twin c b b' tt) : Twin c (a ++ b) (a' ++ b') (ss ++ tt) := by
  obtain ⟨m, rfl, rfl, rfl, hm⟩ := h
  obtain ⟨m', rfl, rfl, rfl, hm'⟩ := h'
  refine ⟨m ++ m', by simp, by simp, by simp [marks], fun o ho => ?_⟩
  rcases List.mem_append.1 ho with h | h
  · exact hm o h
  · exact hm' o h

theorem twin_ops {c l} (h : ∀ o ∈ l, PunctOp o) : Twin c l l [] := by
  refine ⟨l.map .inl, ?_, ?_, ?_, ?_⟩
  · simp [List.flatMap_map, unmark]
  · simp [List.flatMap_map, unmark]
  · simp [marks, List.flatMap_map]
  · intro o ho
    simp only [List.mem_map] at ho
    obtain ⟨o', ho', e⟩ := ho
    cases e
    exact h o ho'

theorem twin_scalar (c s) : Twin c (printScalar c s) (printScalar none s) [s] :=
  ⟨[.inr s], by simp [unmark], by simp [unmark], by simp [marks], by simp⟩

theorem Twin.eq {c a a' ss tt} (h : Twin c a a' ss) (he : ss = tt) : Twin c a a' tt := he ▸ h

theorem punct_open : PunctOp openObj ∧ PunctOp closeObj ∧ PunctOp openArr ∧ PunctOp closeArr := by
  refine ⟨?_, ?_, ?_, ?_⟩ <;> (intro b hb; cases hb; decide)
theorem punct_itemSep : PunctOp itemSep := by intro b hb; cases hb; decide
theorem punct_compactSep : PunctOp compactSep := by intro b hb; cases hb; decide
theorem punct_keySep : PunctOp keySep := by intro b hb; cases hb; decide
theorem punct_elision : PunctOp elisionOp := by intro b hb; cases hb; decide
theorem punct_newLine : PunctOp .newLine := by intro b hb; cases hb
theorem punct_indent : PunctOp .indent := by intro b hb; cases hb
theorem punct_dedent : PunctOp .dedent := by intro b hb; cases hb
theorem punct_reset : PunctOp .reset := by intro b hb; cases hb

/-- Lists of members, with and without colours. -/
inductive Twins (c : Option Colorizer) : List (List POp) → List (List POp) → List Scalar → Prop
  | nil : Twins c [] [] []
  | cons {a a' ss l l' tt} : Twin c a a' ss → Twins c l l' tt → Twins c (a :: l) (a' :: l') (ss ++ tt)

theorem Twins.nil_iff {c l l' ss} (h : Twins c l l' ss) : l = [] ↔ l' = [] := by cases h <;> simp

theorem twins_sep {c sep l l' ss} (hs : ∀ o ∈ sep, PunctOp o) (h : Twins c l l' ss) :
    Twin c (l.flatMap fun y => sep ++ y) (l'.flatMap fun y => sep ++ y) ss := by
  induction h with
  | nil => exact twin_ops (by simp)
  | cons h _ ih =>
    simp only [List.flatMap_cons]
    exact (((twin_ops hs).append h).append ih).eq (by simp)

theorem twins_sepBy {c sep l l' ss} (hs : ∀ o ∈ sep, PunctOp o) (h : Twins c l l' ss) : Twin c (sepBy sep l) (sepBy sep l') ss := by
  cases h with
  | nil => exact twin_ops (by simp [sepBy])
  | cons h h' => exact h.append (twins_sep hs h')

theorem twin_cons {c o a a' ss} (ho : PunctOp o) (h : Twin c a a' ss) : Twin c (o :: a) (o :: a') ss :=
  ((twin_ops (l := [o]) (by simpa using ho)).append h).eq (by simp)

theorem twin_snoc {c o a a' ss} (h : Twin c a a' ss) (ho : ∀ x ∈ o, PunctOp x) : Twin c (a ++ o) (a' ++ o) ss :=
  (h.append (twin_ops ho)).eq (by simp)

theorem twins_flat {c o c' e l l' ss} (ho : PunctOp o) (hc : PunctOp c') (h : Twins c l l' ss) :
    Twin c (flat o c' l e) (flat o c' l' e) ss := by
  refine twin_cons ho (twin_snoc (twin_snoc (twins_sepBy ?_ h) ?_) (by simpa using hc))
  · simpa using punct_compactSep
  · cases e <;> simp [punct_elision]

theorem twins_broken {c o c' e l l' ss} (ho : PunctOp o) (hc : PunctOp c') (h : Twins c l l' ss) :
    Twin c (broken o c' l e) (broken o c' l' e) ss := by
  simp only [broken, h.nil_iff]
  split
  · exact twins_flat ho hc h
  · refine twin_cons ho (twin_cons punct_indent (twin_snoc (twin_snoc (twins_sepBy ?_ h) ?_) ?_))
    · simpa using ⟨punct_itemSep, punct_newLine⟩
    · cases e <;> simp [punct_elision, punct_newLine]
    · simpa using ⟨punct_dedent, hc⟩

/-- Members, with and without colours. -/
inductive TwinIt (c : Option Colorizer) : It → It → List Scalar → Prop
  | inl (s) : TwinIt c (.inl s) (.inl s) [s]
  | inr {l l' ss} : Twin c l l' ss → TwinIt c (.inr l) (.inr l') ss

theorem TwinIt.ops {c x x' ss} (h : TwinIt c x x' ss) : Twin c (x.ops c) (x'.ops none) ss := by
  cases h with
  | inl s => exact twin_scalar c s
  | inr h => exact h

inductive TwinIts (c : Option Colorizer) : List It → List It → List Scalar → Prop
  | nil : TwinIts c [] [] []
  | cons {x x' ss l l' tt} : TwinIt c x x' ss → TwinIts c l l' tt → TwinIts c (x :: l) (x' :: l') (ss ++ tt)

theorem TwinIts.ops {c l l' ss} (h : TwinIts c l l' ss) : Twins c (l.map (It.ops c)) (l'.map (It.ops none)) ss := by
  induction h with
  | nil => exact .nil
  | cons h _ ih => exact .cons h.ops ih

theorem twin_line (c : Option Colorizer) (l : List Scalar) : Twin c (lineOps c l) (lineOps none l) l := by
  refine twins_sepBy (by simpa using punct_compactSep) ?_
  induction l with
  | nil => exact .nil
  | cons s l ih => exact .cons (twin_scalar c s) ih

theorem twin_sepOps (c b) : Twin c (sepOps b) (sepOps b) [] := by
  apply twin_ops
  cases b <;> simp [sepOps, punct_indent, punct_itemSep, punct_newLine]

/-- The settings without the colours. -/
def plain (cfg : EncCfg) : EncCfg := { cfg with color := none }

theorem twin_acStep (cfg : EncCfg) (st : ACState) {x x' ss} (h : TwinIt cfg.color x x' ss) :
    acNext (plain cfg) st x' = acNext cfg st x ∧
    ∃ o, Twin cfg.color (acOut cfg st x) (acOut (plain cfg) st x') o ∧ o ++ (acNext cfg st x).items = st.items ++ ss := by
  cases h with
  | inl s =>
    refine ⟨rfl, ?_⟩
    simp only [acOut, acNext, plain]
    by_cases h1 : st.width + (s.bytes.length + 2) ≤ cfg.widthLimit
    · simp only [h1, if_true]
      exact ⟨[], twin_ops (by simp), by simp⟩
    · simp only [h1, if_false]
      by_cases hi : st.items = []
      · simp only [hi, if_true]
        exact ⟨_, (twin_sepOps _ _).append (twin_scalar _ _), by simp⟩
      · simp only [hi, if_false]
        by_cases h2 : (s.bytes.length : Int) ≤ cfg.widthLimit
        · simp only [h2, if_true]
          exact ⟨_, (twin_sepOps _ _).append ((twin_line _ _).append (twin_ops (by intro o ho; cases ho))), by simp⟩
        · simp only [h2, if_false]
          exact ⟨_, (twin_sepOps _ _).append ((twin_line _ _).append ((twin_sepOps _ _).append (twin_scalar _ _))), by simp⟩
  | inr h =>
    refine ⟨rfl, ?_⟩
    simp only [acOut, acNext, plain]
    by_cases hi : st.items = []
    · simp only [hi, if_true]
      exact ⟨_, (twin_sepOps _ _).append h, by simp⟩
    · simp only [hi, if_false]
      exact ⟨_, (twin_sepOps _ _).append ((twin_line _ _).append ((twin_sepOps _ _).append h)), by simp⟩

theorem twin_acFold (cfg : EncCfg) {l l' ss} (h : TwinIts cfg.color l l' ss) : ∀ st : ACState,
    (acFold (plain cfg) st l').2 = (acFold cfg st l).2 ∧
    ∃ o, Twin cfg.color (acFold cfg st l).1 (acFold (plain cfg) st l').1 o ∧ o ++ (acFold cfg st l).2.items = st.items ++ ss := by
  induction h with
  | nil => intro st; exact ⟨rfl, [], twin_ops (by simp [acFold]), by simp [acFold]⟩
  | cons h _ ih =>
    intro st
    obtain ⟨h1, o, h2, h3⟩ := twin_acStep cfg st h
    simp only [acFold, h1]
    obtain ⟨g1, o', g2, g3⟩ := ih (acNext cfg st _)
    exact ⟨g1, _, h2.append g2, by rw [List.append_assoc, g3, ← List.append_assoc, h3, List.append_assoc]⟩

theorem twin_arrCompact (cfg : EncCfg) {l l' ss e} (h : TwinIts cfg.color l l' ss) :
    Twin cfg.color (layArrCompact cfg l e) (layArrCompact (plain cfg) l' e) ss := by
  obtain ⟨h1, o, h2, h3⟩ := twin_acFold cfg h ⟨[], -2, true⟩
  simp only [layArrCompact, h1]
  generalize acFold cfg ⟨[], -2, true⟩ l = r at h1 h2 h3 ⊢
  simp only [List.nil_append] at h3
  refine twin_cons punct_open.2.2.1 ?_
  have hrest : Twin cfg.color
      (if r.2.items = [] then [] else (if r.2.first then [] else [itemSep, .newLine]) ++ lineOps cfg.color r.2.items)
      (if r.2.items = [] then [] else (if r.2.first then [] else [itemSep, .newLine]) ++ lineOps (plain cfg).color r.2.items)
      r.2.items := by
    split
    · next hi => rw [hi]; exact twin_ops (by simp)
    · refine ((twin_ops ?_).append (twin_line _ _)).eq (by simp)
      cases r.2.first <;> simp [punct_itemSep, punct_newLine]
  have h4 : ∀ o ∈ (if e = true then (if r.2.first = true then [] else [POp.newLine]) ++ [elisionOp] else []), PunctOp o := by
    cases e <;> cases r.2.first <;> simp [punct_newLine, punct_elision]
  have h5 : ∀ o ∈ (if r.2.first = true then [] else [POp.dedent]) ++ [closeArr], PunctOp o := by
    cases r.2.first <;> simp [punct_dedent, punct_open]
  exact (h2.append (hrest.append ((twin_ops h4).append (twin_ops h5)))).eq (by simp [h3])

/-- Members of objects, with and without colours. -/
inductive TwinMs (c : Option Colorizer) : List (Scalar × It) → List (Scalar × It) → List Scalar → Prop
  | nil : TwinMs c [] [] []
  | cons {k x x' ss l l' tt} : TwinIt c x x' ss → TwinMs c l l' tt → TwinMs c ((k, x) :: l) ((k, x') :: l') (k :: (ss ++ tt))

theorem TwinMs.ops {c l l' ss} (h : TwinMs c l l' ss) : Twins c (l.map (memberOps c)) (l'.map (memberOps none)) ss := by
  induction h with
  | nil => exact .nil
  | @cons k x x' ss l l' tt h _ ih =>
    exact .cons (ss := k :: ss) (((twin_scalar c k).append (twin_ops (by simpa using punct_keySep))).append h.ops) ih

theorem TwinMs.fits (cfg : EncCfg) {c l l' ss} (h : TwinMs c l l' ss) : ∀ n w, fits (plain cfg) n w l' = fits cfg n w l := by
  induction h with
  | nil => intros; rfl
  | cons h _ ih =>
    intro n w
    cases h with
    | inl s => simp only [Enc.fits, ih]; rfl
    | inr h => rfl

theorem twin_it (cfg : EncCfg) (v : JVal) : TwinIt cfg.color (it cfg v) (it (plain cfg) v)
    (v.toks.flatMap fun | .scalar s => [s] | _ => []) := by
  induction v using JVal.induct with
  | scalar s => simpa using TwinIt.inl s
  | arr l e ih =>
    rw [it_arr, it_arr]
    refine .inr ?_
    have h : TwinIts cfg.color (l.map (it cfg)) (l.map (it (plain cfg)))
        ((itemToks l).flatMap fun | .scalar s => [s] | _ => []) := by
      clear e
      induction l with
      | nil => simpa using TwinIts.nil
      | cons v l ihl =>
        simpa using TwinIts.cons (ih v (by simp)) (ihl fun v hv => ih v (by simp [hv]))
    have hss : ((JVal.arr l e).toks.flatMap fun | .scalar s => [s] | _ => []) =
        ((itemToks l).flatMap fun | .scalar s => [s] | _ => []) := by
      cases e <;> simp [elisionToks]
    rw [hss]
    simp only [layArr]
    rw [show (plain cfg).widthLimit = cfg.widthLimit from rfl]
    split
    · exact twin_arrCompact cfg h
    · exact twins_broken punct_open.2.2.1 punct_open.2.2.2 h.ops
  | obj l e ih =>
    rw [it_obj, it_obj]
    refine .inr ?_
    have h : TwinMs cfg.color (l.map fun m => (m.1, it cfg m.2)) (l.map fun m => (m.1, it (plain cfg) m.2))
        ((memberToks l).flatMap fun | .scalar s => [s] | _ => []) := by
      clear e
      induction l with
      | nil => simpa using TwinMs.nil
      | cons m l ihl =>
        obtain ⟨k, v⟩ := m
        simpa using TwinMs.cons (k := k) (ih _ (List.mem_cons_self ..)) (ihl fun v hv => ih v (by simp [hv]))
    have hss : ((JVal.obj l e).toks.flatMap fun | .scalar s => [s] | _ => []) =
        ((memberToks l).flatMap fun | .scalar s => [s] | _ => []) := by
      cases e <;> simp [elisionToks]
    rw [hss]
    simp only [layObj]
    rw [show (plain cfg).maxItems = cfg.maxItems from rfl, h.fits cfg]
    split
    · exact twins_flat punct_open.1 punct_open.2.1 h.ops
    · exact twins_broken punct_open.1 punct_open.2.1 h.ops

theorem twin_layoutAll (cfg : EncCfg) (vs : List JVal) : Twin cfg.color (layoutAll cfg vs) (layoutAll (plain cfg) vs)
    ((streamToks vs).flatMap fun | .scalar s => [s] | _ => []) := by
  induction vs with
  | nil => exact twin_ops (by simp [layoutAll])
  | cons v vs ih =>
    simp only [layoutAll, List.flatMap_cons, streamToks_cons, List.flatMap_append] at ih ⊢
    exact (twin_snoc (twin_it cfg v).ops (by simpa using punct_reset)).append ih

/-! ## Bytes -/

theorem line_level (pc lvl) {l} (h : Line l) : level pc lvl l = lvl := by
  induction l with
  | nil => rfl
  | cons o l ih =>
    obtain ⟨b, rfl⟩ := h o (by simp)
    rw [level_cons, level_bytes, ih fun o ho => h o (by simp [ho])]

/-- The bytes between the scalars. -/
def segs (pc : PrinterCfg) : Int → Marked → List (Bytes ⊕ Scalar)
  | _, [] => []
  | lvl, .inl o :: m => .inl (render pc lvl [o]) :: segs pc (level pc lvl [o]) m
  | lvl, .inr s :: m => .inr s :: segs pc lvl m

theorem segs_render (pc : PrinterCfg) (c : Option Colorizer) : ∀ (m : Marked) (lvl : Int),
    render pc lvl (m.flatMap (unmark c)) = (segs pc lvl m).flatMap fun
      | .inl b => b
      | .inr s => render pc 0 (printScalar c s) := by
  intro m
  induction m with
  | nil => intro lvl; rfl
  | cons x m ih =>
    intro lvl
    cases x with
    | inl o =>
      simp only [List.flatMap_cons, segs, unmark]
      rw [render_append, ih]
    | inr s =>
      simp only [List.flatMap_cons, segs, unmark]
      rw [render_append, line_level pc lvl (line_scalar c s), ih, render_line_level pc lvl 0 (line_scalar c s)]

theorem segs_marks (pc : PrinterCfg) : ∀ (m : Marked) (lvl : Int),
    ((segs pc lvl m).flatMap fun | .inl _ => [] | .inr s => [s]) = marks m := by
  intro m
  induction m with
  | nil => intro lvl; rfl
  | cons x m ih => intro lvl; cases x <;> simp [segs, marks, ih] <;> rfl

theorem segs_punct (pc : PrinterCfg) : ∀ (m : Marked) (lvl : Int), (∀ o, .inl o ∈ m → PunctOp o) →
    ∀ b, .inl b ∈ segs pc lvl m → ∀ x ∈ b, x ∈ b%"[]{},:. \n" := by
  intro m
  induction m with
  | nil => intro lvl _ b hb; cases hb
  | cons y m ih =>
    intro lvl hm b hb
    cases y with
    | inr s =>
      simp only [segs, List.mem_cons, reduceCtorEq, false_or] at hb
      exact ih lvl (fun o ho => hm o (by simp [ho])) b hb
    | inl o =>
      simp only [segs, List.mem_cons] at hb
      rcases hb with hb | hb
      · cases hb
        have hnl : ∀ lvl, ∀ x ∈ nlBytes pc lvl, x ∈ b%"[]{},:. \n" := by
          intro lvl x hx
          unfold nlBytes at hx
          split at hx
          · cases hx
          · rcases List.mem_cons.1 hx with h | h
            · rw [h]; decide
            · rw [(List.mem_replicate.1 h).2]; decide
        cases o with
        | bytes c =>
          intro x hx
          rw [render_bytes] at hx
          have := hm (.bytes c) (by simp) c rfl x hx
          exact List.mem_append_left [0x0A] this
        | newLine => rw [render_newLine]; exact hnl _
        | indent => rw [render_indent]; exact hnl _
        | dedent => rw [render_dedent]; exact hnl _
        | reset => rw [render_reset]; simp
      · exact ih _ (fun o ho => hm o (by simp [ho])) b hb

end Enc
end Verif
