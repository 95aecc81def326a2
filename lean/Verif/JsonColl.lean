import Verif.JsonLayout

/-!
# The shape of what the JSON encoder prints

All forms of a collection are alike: the members on one line, or on several lines.
-/

set_option linter.unusedSimpArgs false
set_option linter.unusedVariables false

namespace Verif
namespace Enc

/-- Members with separators, on one or several lines. -/
inductive Joined : List (List POp) → List POp → Prop
  | one (x) : Joined [x] x
  | comp {x l r} : Joined l r → Joined (x :: l) (x ++ compactSep :: r)
  | line {x l r} : Joined l r → Joined (x :: l) (x ++ itemSep :: .newLine :: r)

/-- Nothing but bytes are printed. -/
def Line (l : List POp) : Prop := ∀ o ∈ l, ∃ b, o = .bytes b

theorem line_scalar (c s) : Line (printScalar c s) := by
  unfold printScalar Line
  split
  · intro o ho; simp at ho; exact ⟨_, ho⟩
  · intro o ho; simp at ho; rcases ho with h | h | h <;> exact ⟨_, h⟩

/-- A collection with the given members: on one line, then all members are, or on several lines. -/
inductive Coll (o c : POp) (e : Bool) : List (List POp) → List POp → Prop
  | flat (l) : (∀ x ∈ l, Line x) → Coll o c e l (flat o c l e)
  | broken {l r} : Joined l r → Coll o c e l
      (o :: .indent :: (r ++ ((if e then [.newLine, elisionOp] else []) ++ [.dedent, c])))

theorem Joined.append_comp {l r l' r'} (h : Joined l r) (h' : Joined l' r') :
    Joined (l ++ l') (r ++ compactSep :: r') := by
  induction h with
  | one x => exact .comp h'
  | comp h ih => simpa using Joined.comp ih
  | line h ih => simpa using Joined.line ih

theorem Joined.append_line {l r l' r'} (h : Joined l r) (h' : Joined l' r') :
    Joined (l ++ l') (r ++ itemSep :: .newLine :: r') := by
  induction h with
  | one x => exact .line h'
  | comp h ih => simpa using Joined.comp ih
  | line h ih => simpa using Joined.line ih

theorem joined_flat : ∀ l : List (List POp), l ≠ [] → Joined l (sepBy [compactSep] l) := by
  intro l
  induction l with
  | nil => simp
  | cons x l ih =>
    intro _
    cases l with
    | nil => simpa [sepBy] using Joined.one x
    | cons y l => simpa [sepBy] using Joined.comp (x := x) (ih (by simp))

theorem joined_line : ∀ l : List (List POp), l ≠ [] → Joined l (sepBy [itemSep, .newLine] l) := by
  intro l
  induction l with
  | nil => simp
  | cons x l ih =>
    intro _
    cases l with
    | nil => simpa [sepBy] using Joined.one x
    | cons y l => simpa [sepBy] using Joined.line (x := x) (ih (by simp))

theorem coll_broken (o c : POp) (e : Bool) (l : List (List POp)) : Coll o c e l (broken o c l e) := by
  simp only [broken]
  split
  · next h => exact .flat l (by rw [h]; simp)
  · next h =>
    have := Coll.broken (o := o) (c := c) (e := e) (joined_line l h)
    simpa using this

/-- What has been written when a number of items has been processed. -/
def AcInv (cfg : EncCfg) (st : ACState) (out : List POp) (xs : List (List POp)) : Prop :=
  (st.first = true ∧ out = [] ∧ xs = st.items.map (printScalar cfg.color)) ∨
  (st.first = false ∧ ∃ pr X, Joined pr X ∧ out = .indent :: X ∧ xs = pr ++ st.items.map (printScalar cfg.color))

/-- One more line. -/
theorem AcInv.line {cfg st out xs} (h : AcInv cfg st out xs) {l X} (hX : Joined l X) (hi : st.items = []) :
    ∃ pr Y, Joined pr Y ∧ out ++ (sepOps st.first ++ X) = .indent :: Y ∧ xs ++ l = pr := by
  rcases h with ⟨h1, h2, h3⟩ | ⟨h1, pr, Y, h2, h3, h4⟩
  · exact ⟨_, X, hX, by simp [h1, h2, sepOps], by simp [h3, hi]⟩
  · exact ⟨_, _, h2.append_line hX, by simp [h1, h3, sepOps], by simp [h4, hi]⟩

theorem AcInv.flush {cfg st out xs} (h : AcInv cfg st out xs) (hi : st.items ≠ []) :
    ∃ Y, Joined xs Y ∧ out ++ (sepOps st.first ++ lineOps cfg.color st.items) = .indent :: Y := by
  have hj : Joined (st.items.map (printScalar cfg.color)) (lineOps cfg.color st.items) :=
    joined_flat _ (by simpa using hi)
  rcases h with ⟨h1, h2, h3⟩ | ⟨h1, pr, Y, h2, h3, h4⟩
  · exact ⟨_, h3 ▸ hj, by simp [h1, h2, sepOps]⟩
  · exact ⟨_, h4 ▸ h2.append_line hj, by simp [h1, h3, sepOps]⟩

theorem AcInv.step {cfg st out xs} (h : AcInv cfg st out xs) (x : It) :
    AcInv cfg (acNext cfg st x) (out ++ acOut cfg st x) (xs ++ [x.ops cfg.color]) := by
  cases x with
  | inl s =>
    simp only [acNext, acOut]
    split
    · simp only [List.append_nil]
      rcases h with ⟨h1, h2, h3⟩ | ⟨h1, pr, Y, h2, h3, h4⟩
      · exact .inl ⟨h1, h2, by simp [h3, It.ops]⟩
      · exact .inr ⟨h1, pr, Y, h2, h3, by simp [h4, It.ops]⟩
    · by_cases hi : st.items = []
      · simp only [hi, if_true]
        obtain ⟨pr, Y, h1, h2, h3⟩ := h.line (.one (printScalar cfg.color s)) hi
        exact .inr ⟨rfl, pr, Y, h1, h2, by simp [← h3, It.ops]⟩
      · simp only [hi, if_false]
        obtain ⟨Y, h1, h2⟩ := h.flush hi
        split
        · refine .inr ⟨rfl, xs, Y, h1, ?_, by simp [It.ops]⟩
          simpa using h2
        · refine .inr ⟨rfl, _, _, h1.append_line (.one (printScalar cfg.color s)), ?_, by simp [It.ops]⟩
          rw [← List.cons_append, ← h2]
          simp [sepOps]
  | inr l =>
    simp only [acNext, acOut]
    by_cases hi : st.items = []
    · simp only [hi, if_true]
      obtain ⟨pr, Y, h1, h2, h3⟩ := h.line (.one l) hi
      exact .inr ⟨rfl, pr, Y, h1, h2, by simp [← h3, It.ops]⟩
    · simp only [hi, if_false]
      obtain ⟨Y, h1, h2⟩ := h.flush hi
      refine .inr ⟨rfl, _, _, h1.append_line (.one l), ?_, by simp [It.ops]⟩
      rw [← List.cons_append, ← h2]
      simp [sepOps]

theorem AcInv.fold {cfg} : ∀ (l : List It) {st out xs}, AcInv cfg st out xs →
    AcInv cfg (acFold cfg st l).2 (out ++ (acFold cfg st l).1) (xs ++ l.map (It.ops cfg.color)) := by
  intro l
  induction l with
  | nil => intro st out xs h; simpa [acFold] using h
  | cons x l ih =>
    intro st out xs h
    have := ih (h.step x)
    simpa [acFold] using this

theorem coll_arrCompact (cfg : EncCfg) (l : List It) (e : Bool) :
    Coll openArr closeArr e (l.map (It.ops cfg.color)) (layArrCompact cfg l e) := by
  have h := AcInv.fold (cfg := cfg) l (st := ⟨[], -2, true⟩) (out := []) (xs := []) (.inl ⟨rfl, rfl, rfl⟩)
  simp only [layArrCompact]
  generalize acFold cfg ⟨[], -2, true⟩ l = r at h ⊢
  simp only [List.nil_append] at h
  rcases id h with ⟨h1, h2, h3⟩ | ⟨h1, pr, Y, h2, h3, h4⟩
  · have := Coll.flat (o := openArr) (c := closeArr) (e := e) (l.map (It.ops cfg.color)) (by
      rw [h3]; simp only [List.mem_map]; rintro x ⟨s, _, rfl⟩; exact line_scalar _ _)
    simp only [h1, h2, if_true, List.nil_append]
    simp only [flat] at this
    rw [h3] at this ⊢
    cases hi : r.2.items with
    | nil => simpa [hi, sepBy] using this
    | cons a t => simpa [hi, lineOps] using this
  · by_cases hi : r.2.items = []
    · have := Coll.broken (o := openArr) (c := closeArr) (e := e) h2
      simp only [hi, List.map_nil, List.append_nil] at h4
      rw [h4]
      simp only [h1, h3, hi, if_true]
      simpa using this
    · obtain ⟨Z, h5, h6⟩ := h.flush hi
      have := Coll.broken (o := openArr) (c := closeArr) (e := e) h5
      simp only [hi, h1, if_false, Bool.false_eq_true]
      simp only [sepOps, h1, Bool.false_eq_true, if_false] at h6
      rw [← List.cons_append, ← h6] at this
      simpa using this

/-! ## Values -/

theorem layout_scalar (cfg : EncCfg) (s : Scalar) : layout cfg (.scalar s) = printScalar cfg.color s := by
  simp [layout, It.ops]

theorem layout_arr (cfg : EncCfg) (l e) : Coll openArr closeArr e (l.map (layout cfg)) (layout cfg (.arr l e)) := by
  have : l.map (layout cfg) = (l.map (it cfg)).map (It.ops cfg.color) := by simp [layout, Function.comp_def]
  rw [this]
  simp only [layout, it_arr, It.ops, layArr]
  split
  · exact coll_arrCompact cfg _ _
  · exact coll_broken _ _ _ _

/-- What is printed for a member of an object. -/
def layMember (cfg : EncCfg) (m : Scalar × JVal) : List POp := printScalar cfg.color m.1 ++ keySep :: layout cfg m.2

theorem fits_scalars (cfg : EncCfg) : ∀ (l : List (Scalar × It)) n w, fits cfg n w l = true → ∀ m ∈ l, ∃ s, m.2 = .inl s := by
  intro l
  induction l with
  | nil => simp
  | cons m l ih =>
    intro n w h x hx
    obtain ⟨k, y⟩ := m
    cases y with
    | inl s =>
      simp only [fits, Bool.and_eq_true] at h
      rcases List.mem_cons.1 hx with rfl | hx
      · exact ⟨s, rfl⟩
      · exact ih _ _ h.2 x hx
    | inr l' => simp [fits] at h

theorem layout_obj (cfg : EncCfg) (l e) : Coll openObj closeObj e (l.map (layMember cfg)) (layout cfg (.obj l e)) := by
  have : l.map (layMember cfg) = (l.map fun m => (m.1, it cfg m.2)).map (memberOps cfg.color) := by
    simp [layMember, layout, memberOps, Function.comp_def]
  rw [this]
  simp only [layout, it_obj, It.ops, layObj]
  split
  · next h =>
    refine .flat _ ?_
    simp only [List.mem_map]
    rintro x ⟨m, hm, rfl⟩
    obtain ⟨s, hs⟩ := fits_scalars cfg _ _ _ h.2 m (by simpa using hm)
    obtain ⟨k, y⟩ := m
    subst hs
    intro o ho
    simp only [memberOps, It.ops, List.mem_append, List.mem_singleton] at ho
    rcases ho with (h | h) | h
    · exact line_scalar _ _ o h
    · exact ⟨_, h⟩
    · exact line_scalar _ _ o h
  · exact coll_broken _ _ _ _

/-! ## The bytes written -/

/-- The bytes written by a sequence of printer calls, starting at an indentation level. -/
def render (pc : PrinterCfg) (lvl : Int) (l : List POp) : Bytes := evBytes (pc.execAll lvl l).1

/-- The level afterwards. -/
def level (pc : PrinterCfg) (lvl : Int) (l : List POp) : Int := (pc.execAll lvl l).2

@[simp] theorem render_nil (pc lvl) : render pc lvl [] = [] := rfl
@[simp] theorem level_nil (pc lvl) : level pc lvl [] = lvl := rfl

theorem render_append (pc lvl l l') : render pc lvl (l ++ l') = render pc lvl l ++ render pc (level pc lvl l) l' := by
  simp [render, level, pc.execAll_append]

theorem level_append (pc lvl l l') : level pc lvl (l ++ l') = level pc (level pc lvl l) l' := by
  simp [level, pc.execAll_append]

theorem level_cons (pc lvl o l) : level pc lvl (o :: l) = level pc (level pc lvl [o]) l := level_append pc lvl [o] l
theorem render_cons (pc lvl o l) : render pc lvl (o :: l) = render pc lvl [o] ++ render pc (level pc lvl [o]) l :=
  render_append pc lvl [o] l

/-- The bytes of a new line at a level. -/
def nlBytes (pc : PrinterCfg) (lvl : Int) : Bytes :=
  if pc.indentSize < 0 then [] else 0x0A :: List.replicate (pc.indentSize * lvl).toNat 0x20

theorem evBytes_writeNL (pc : PrinterCfg) : evBytes pc.writeNL = [0x0A] := by
  simp only [PrinterCfg.writeNL]
  split <;> rfl

theorem evBytes_spaces (n : Nat) : evBytes (List.replicate n (.write [0x20])) = List.replicate n 0x20 := by
  induction n with
  | zero => rfl
  | succ n ih =>
    rw [List.replicate_succ, List.replicate_succ, ← ih]; rfl

theorem evBytes_newLine (pc : PrinterCfg) (lvl : Int) : evBytes (pc.newLine lvl) = nlBytes pc lvl := by
  simp only [PrinterCfg.newLine, nlBytes]
  split
  · rfl
  · rw [evBytes_append, evBytes_writeNL, evBytes_spaces]; rfl

@[simp] theorem render_bytes (pc lvl b) : render pc lvl [.bytes b] = b := by
  simp [render, PrinterCfg.execAll, PrinterCfg.exec, evBytes, WEv.payload]
@[simp] theorem level_bytes (pc lvl b) : level pc lvl [.bytes b] = lvl := rfl
@[simp] theorem render_newLine (pc lvl) : render pc lvl [.newLine] = nlBytes pc lvl := by
  simp [render, PrinterCfg.execAll, PrinterCfg.exec, evBytes_newLine]
@[simp] theorem level_newLine (pc lvl) : level pc lvl [.newLine] = lvl := rfl
@[simp] theorem render_indent (pc lvl) : render pc lvl [.indent] = nlBytes pc (lvl + 1) := by
  simp [render, PrinterCfg.execAll, PrinterCfg.exec, evBytes_newLine]
@[simp] theorem level_indent (pc lvl) : level pc lvl [.indent] = lvl + 1 := rfl
@[simp] theorem render_dedent (pc lvl) : render pc lvl [.dedent] = nlBytes pc (lvl - 1) := by
  simp [render, PrinterCfg.execAll, PrinterCfg.exec, evBytes_newLine]
@[simp] theorem level_dedent (pc lvl) : level pc lvl [.dedent] = lvl - 1 := rfl
@[simp] theorem render_reset (pc lvl) : render pc lvl [.reset] = [0x0A] := by
  simp [render, PrinterCfg.execAll, PrinterCfg.exec, evBytes_writeNL]
@[simp] theorem level_reset (pc lvl) : level pc lvl [.reset] = 0 := rfl

@[simp] theorem render_cons_bytes (pc lvl b l) : render pc lvl (.bytes b :: l) = b ++ render pc lvl l := by
  rw [render_cons]; simp
@[simp] theorem render_cons_newLine (pc lvl l) : render pc lvl (.newLine :: l) = nlBytes pc lvl ++ render pc lvl l := by
  rw [render_cons]; simp
@[simp] theorem render_cons_indent (pc lvl l) :
    render pc lvl (.indent :: l) = nlBytes pc (lvl + 1) ++ render pc (lvl + 1) l := by
  rw [render_cons]; simp
@[simp] theorem render_cons_dedent (pc lvl l) :
    render pc lvl (.dedent :: l) = nlBytes pc (lvl - 1) ++ render pc (lvl - 1) l := by
  rw [render_cons]; simp
@[simp] theorem render_cons_reset (pc lvl l) : render pc lvl (.reset :: l) = 0x0A :: render pc 0 l := by
  rw [render_cons]; simp

/-- What an encoder does is to write what its layout says, as long as the writer takes it. -/
theorem encode_eq (cfg : EncCfg) (pc : PrinterCfg) (w : Sink) (vs : List JVal) :
    encode cfg pc w (streamToks vs) =
      match w.feed [] (pc.execAll 0 (layoutAll cfg vs)).1 with
      | (b, .error e) => (b, .printerError e)
      | (b, .ok _) => (b, .ok ()) := by
  obtain ⟨h', e1⟩ := consume_run cfg vs ((streamToks vs).length + 1) (by omega)
  unfold encode
  rw [IProg.runW_eq, e1]
  rfl

theorem encode_good (cfg : EncCfg) (pc : PrinterCfg) (vs : List JVal) :
    encode cfg pc goodSink (streamToks vs) = (render pc 0 (layoutAll cfg vs), .ok ()) := by
  rw [encode_eq, Sink.feed_all (w := goodSink) (fun _ _ => rfl)]; rfl

theorem render_line_level (pc lvl lvl') {l} (h : Line l) : render pc lvl l = render pc lvl' l := by
  induction l with
  | nil => rfl
  | cons o l ih =>
    obtain ⟨b, rfl⟩ := h o (by simp)
    rw [render_cons_bytes, render_cons_bytes, ih fun o ho => h o (by simp [ho])]

/-! ## Levels -/

/-- The calls leave the level as it is, without going below it. -/
def Balanced (pc : PrinterCfg) (l : List POp) : Prop :=
  ∀ lvl, level pc lvl l = lvl ∧ ∀ p, p <+: l → lvl ≤ level pc lvl p

theorem balanced_nil (pc) : Balanced pc [] := fun lvl => ⟨rfl, fun p hp => by
  rw [List.prefix_nil] at hp; subst hp; simp⟩

theorem prefix_append_cases {α : Type} {p l l' : List α} (h : p <+: l ++ l') : p <+: l ∨ ∃ q, p = l ++ q ∧ q <+: l' := by
  rcases List.prefix_or_prefix_of_prefix h (List.prefix_append l l') with h1 | ⟨q, rfl⟩
  · exact .inl h1
  · exact .inr ⟨q, rfl, (List.prefix_append_right_inj l).1 h⟩

theorem Balanced.append {pc l l'} (h : Balanced pc l) (h' : Balanced pc l') : Balanced pc (l ++ l') := by
  intro lvl
  refine ⟨by rw [level_append, (h lvl).1, (h' lvl).1], fun p hp => ?_⟩
  rcases prefix_append_cases hp with h1 | ⟨q, rfl, hq⟩
  · exact (h lvl).2 p h1
  · rw [level_append, (h lvl).1]; exact (h' lvl).2 q hq

theorem balanced_bytes (pc b) : Balanced pc [.bytes b] := by
  intro lvl
  refine ⟨rfl, fun p hp => ?_⟩
  rcases p with _ | ⟨o, p⟩
  · simp
  · obtain ⟨rfl, h⟩ := List.cons_prefix_cons.1 hp
    rw [List.prefix_nil] at h; subst h; simp

theorem balanced_newLine (pc) : Balanced pc [.newLine] := by
  intro lvl
  refine ⟨rfl, fun p hp => ?_⟩
  rcases p with _ | ⟨o, p⟩
  · simp
  · obtain ⟨rfl, h⟩ := List.cons_prefix_cons.1 hp
    rw [List.prefix_nil] at h; subst h; simp

theorem Balanced.nest {pc l} (h : Balanced pc l) : Balanced pc (.indent :: (l ++ [.dedent])) := by
  intro lvl
  refine ⟨?_, fun p hp => ?_⟩
  · rw [level_cons, level_indent, level_append, (h _).1, level_dedent]; omega
  · rcases p with _ | ⟨o, p⟩
    · simp
    · obtain ⟨rfl, hp'⟩ := List.cons_prefix_cons.1 hp
      rw [level_cons, level_indent]
      rcases prefix_append_cases hp' with h1 | ⟨q, rfl, hq⟩
      · have := (h (lvl + 1)).2 p h1; omega
      · rw [level_append, (h _).1]
        rcases q with _ | ⟨o, q⟩
        · simp; omega
        · obtain ⟨rfl, h⟩ := List.cons_prefix_cons.1 hq
          rw [List.prefix_nil] at h; subst h
          simp

theorem balanced_cons_bytes {pc l} (b) (h : Balanced pc l) : Balanced pc (.bytes b :: l) :=
  (balanced_bytes pc b).append h

theorem Joined.balanced {pc l r} (h : Joined l r) (hl : ∀ x ∈ l, Balanced pc x) : Balanced pc r := by
  induction h with
  | one x => exact hl x (by simp)
  | comp h ih =>
    exact (hl _ (by simp)).append (balanced_cons_bytes _ (ih fun x hx => hl x (by simp [hx])))
  | line h ih =>
    exact (hl _ (by simp)).append (balanced_cons_bytes _
      ((balanced_newLine pc).append (ih fun x hx => hl x (by simp [hx]))))

theorem Coll.balanced {pc o c e l r} (h : Coll (.bytes o) (.bytes c) e l r) (hl : ∀ x ∈ l, Balanced pc x) :
    Balanced pc r := by
  cases h with
  | flat _ =>
    refine balanced_cons_bytes _ (Balanced.append (Balanced.append ?_ ?_) (balanced_bytes pc c))
    · cases l with
      | nil => exact balanced_nil pc
      | cons x l => exact (joined_flat (x :: l) (by simp)).balanced hl
    · split
      · exact balanced_bytes pc _
      · exact balanced_nil pc
  | broken hj =>
    have h1 := hj.balanced hl
    have h2 : Balanced pc (if e then [.newLine, elisionOp] else []) := by
      split
      · exact (balanced_newLine pc).append (balanced_bytes pc _)
      · exact balanced_nil pc
    have := (balanced_cons_bytes o (h1.append h2).nest).append (balanced_bytes pc c)
    simpa using this

theorem printScalar_balanced (pc c s) : Balanced pc (printScalar c s) := by
  unfold printScalar
  split
  · exact balanced_bytes pc _
  · exact balanced_cons_bytes _ (balanced_cons_bytes _ (balanced_bytes pc _))

theorem layout_balanced (pc : PrinterCfg) (cfg : EncCfg) (v : JVal) : Balanced pc (layout cfg v) := by
  induction v using JVal.induct with
  | scalar s => rw [layout_scalar]; exact printScalar_balanced _ _ _
  | arr l e ih => exact (layout_arr cfg l e).balanced (by simpa using ih)
  | obj l e ih =>
    refine (layout_obj cfg l e).balanced ?_
    simp only [List.mem_map]
    rintro x ⟨m, hm, rfl⟩
    exact (printScalar_balanced _ _ _).append (balanced_cons_bytes _ (ih m hm))

end Enc
end Verif
