import Verif.JsonRound

/-!
# White space in what the JSON encoder prints
-/

set_option linter.unusedSimpArgs false
set_option linter.unusedVariables false

namespace Verif
namespace Enc

open Rfc8259 EncSpec

/-- A text at the end of which we are not in a string literal. -/
def Closed (b : Bytes) : Prop := ∀ r, tag .out (b ++ r) = tag .out b ++ tag .out r

theorem closed_nil : Closed [] := fun r => by simp [tag]

theorem Closed.append {a b} (ha : Closed a) (hb : Closed b) : Closed (a ++ b) := fun r => by
  rw [List.append_assoc, ha, hb, ha, List.append_assoc]

theorem closed_one {x : Byte} (h : x ≠ 0x22) : Closed [x] := fun r => by simp [tag, h]

theorem tag_plain {b : Bytes} (h : (0x22 : Byte) ∉ b) (r : Bytes) : tag .out (b ++ r) = b.map (false, ·) ++ tag .out r := by
  induction b with
  | nil => simp
  | cons x b ih =>
    simp only [List.mem_cons, not_or] at h
    simp [tag, Ne.symm h.1, ih h.2]

theorem closed_plain {b : Bytes} (h : (0x22 : Byte) ∉ b) : Closed b := fun r => by
  have := tag_plain h []
  rw [List.append_nil] at this
  rw [tag_plain h, this]; simp [tag]

theorem tag_chars {c : Bytes} (hc : LaxChars c) (r : Bytes) : tag .str (c ++ r) = c.map (true, ·) ++ tag .str r := by
  unfold LaxChars at hc
  induction hc with
  | nil => simp
  | plain hp _ ih =>
    obtain ⟨b, h1, h2, h3, h4, rfl⟩ := hp
    simp [tag, h2, h3, ih]
  | esc hx _ ih => simp [tag, ih]
  | @uni h1 h2 h3 h4 r' g1 g2 g3 g4 _ ih =>
    have hh : ∀ h : Byte, Hex h → h ≠ 0x22 ∧ h ≠ 0x5C := by
      intro h g
      constructor <;> (rintro rfl; revert g; unfold Hex; decide)
    simp [tag, hh _ g1, hh _ g2, hh _ g3, hh _ g4, ih]

/-- A literal: inside a string, or without quotes, brackets and white space. -/
def Solid (b : Bytes) : Prop :=
  (∃ c t, b = c :: t ∧ c ≠ 0x20 ∧ c ≠ 0x0A ∧ c ≠ 0x5D ∧ c ≠ 0x7D) ∧
  ((∀ r, tag .out (b ++ r) = b.map (true, ·) ++ tag .out r) ∨
   ((∀ r, tag .out (b ++ r) = b.map (false, ·) ++ tag .out r) ∧
     ∀ x ∈ b, isWs x = false ∧ x ≠ 0x5B ∧ x ≠ 0x5D ∧ x ≠ 0x7B ∧ x ≠ 0x7D))

set_option maxRecDepth 10000 in
theorem digit_ok {d : Byte} (h : Digit d) : d ≠ 0x22 ∧ isWs d = false ∧ d ≠ 0x5B ∧ d ≠ 0x5D ∧ d ≠ 0x7B ∧ d ≠ 0x7D := by
  revert h
  unfold Digit isWs
  revert d
  apply forall_byte
  decide

theorem number_bytes {b : Bytes} (h : Number b) : (∃ c t, b = c :: t ∧ c ≠ 0x20 ∧ c ≠ 0x0A ∧ c ≠ 0x5D ∧ c ≠ 0x7D) ∧
    ∀ x ∈ b, x ≠ 0x22 ∧ isWs x = false ∧ x ≠ 0x5B ∧ x ≠ 0x5D ∧ x ≠ 0x7B ∧ x ≠ 0x7D := by
  obtain ⟨m, i, f, e, hm, hi, hf, he, rfl⟩ := h
  have gi : ∀ x ∈ i, x ≠ 0x22 ∧ isWs x = false ∧ x ≠ 0x5B ∧ x ≠ 0x5D ∧ x ≠ 0x7B ∧ x ≠ 0x7D := by
    rcases hi with rfl | ⟨d, ds, h1, h2, h3, rfl⟩
    · simp; decide
    · intro x hx
      rcases List.mem_cons.1 hx with rfl | hx
      · refine digit_ok ⟨UInt8.le_trans (by decide) h1, h2⟩
      · exact digit_ok (h3 x hx)
  have gm : ∀ x ∈ m, x ≠ 0x22 ∧ isWs x = false ∧ x ≠ 0x5B ∧ x ≠ 0x5D ∧ x ≠ 0x7B ∧ x ≠ 0x7D := by
    rcases hm with rfl | rfl
    · simp
    · simp; decide
  have gf : ∀ x ∈ f, x ≠ 0x22 ∧ isWs x = false ∧ x ≠ 0x5B ∧ x ≠ 0x5D ∧ x ≠ 0x7B ∧ x ≠ 0x7D := by
    rcases hf with rfl | ⟨ds, _, h, rfl⟩
    · simp
    · intro x hx
      rcases List.mem_cons.1 hx with rfl | hx
      · decide
      · exact digit_ok (h x hx)
  have ge : ∀ x ∈ e, x ≠ 0x22 ∧ isWs x = false ∧ x ≠ 0x5B ∧ x ≠ 0x5D ∧ x ≠ 0x7B ∧ x ≠ 0x7D := by
    rcases he with rfl | ⟨y, s, ds, hy, hs, _, h, rfl⟩
    · simp
    · intro x hx
      rcases List.mem_cons.1 hx with rfl | hx
      · rcases hy with rfl | rfl <;> decide
      · rcases List.mem_append.1 hx with hx | hx
        · rcases hs with rfl | rfl | rfl
          · cases hx
          · rw [List.mem_singleton] at hx; subst hx; decide
          · rw [List.mem_singleton] at hx; subst hx; decide
        · exact digit_ok (h x hx)
  have gall : ∀ x ∈ m ++ (i ++ (f ++ e)), x ≠ 0x22 ∧ isWs x = false ∧ x ≠ 0x5B ∧ x ≠ 0x5D ∧ x ≠ 0x7B ∧ x ≠ 0x7D := by
    intro x hx
    rcases List.mem_append.1 hx with h | h
    · exact gm x h
    rcases List.mem_append.1 h with h | h
    · exact gi x h
    rcases List.mem_append.1 h with h | h
    · exact gf x h
    · exact ge x h
  refine ⟨?_, gall⟩
  have hne : m ++ (i ++ (f ++ e)) ≠ [] := by
    rcases hi with rfl | ⟨d, ds, _, _, _, rfl⟩ <;> simp
  cases hb : m ++ (i ++ (f ++ e)) with
  | nil => exact absurd hb hne
  | cons c t =>
    have := gall c (by rw [hb]; simp)
    refine ⟨c, t, rfl, ?_, ?_, this.2.2.2.1, this.2.2.2.2.2⟩
    · rintro rfl; exact absurd this.2.1 (by decide)
    · rintro rfl; exact absurd this.2.1 (by decide)

theorem solid_plain {b : Bytes} (h1 : ∃ c t, b = c :: t ∧ c ≠ 0x20 ∧ c ≠ 0x0A ∧ c ≠ 0x5D ∧ c ≠ 0x7D)
    (h2 : ∀ x ∈ b, x ≠ 0x22 ∧ isWs x = false ∧ x ≠ 0x5B ∧ x ≠ 0x5D ∧ x ≠ 0x7B ∧ x ≠ 0x7D) : Solid b :=
  ⟨h1, .inr ⟨tag_plain (fun h => (h2 _ h).1 rfl), fun x hx => (h2 x hx).2⟩⟩

theorem solid_text {s : Scalar} {b : Bytes} (h : Text LaxChars (.scalar s) b) : Solid b := by
  cases h with
  | true => exact solid_plain ⟨_, _, rfl, by decide⟩ (by decide)
  | false => exact solid_plain ⟨_, _, rfl, by decide⟩ (by decide)
  | null => exact solid_plain ⟨_, _, rfl, by decide⟩ (by decide)
  | num h => exact solid_plain (number_bytes h).1 (number_bytes h).2
  | str h =>
    refine ⟨⟨_, _, rfl, by decide⟩, .inl fun r => ?_⟩
    simp only [List.cons_append, List.append_assoc, List.map_cons, List.map_append, tag, if_true]
    rw [tag_chars h]
    simp [tag]

theorem solid_spelled {s : Scalar} (h : SpelledScalar LaxChars s) : Solid s.bytes := by
  obtain ⟨a, u, h⟩ := h
  exact solid_text h

theorem Solid.tag_self {b} (h : Solid b) : tag .out b = b.map (true, ·) ∨
    (tag .out b = b.map (false, ·) ∧ ∀ x ∈ b, isWs x = false ∧ x ≠ 0x5B ∧ x ≠ 0x5D ∧ x ≠ 0x7B ∧ x ≠ 0x7D) := by
  rcases h.2 with h | ⟨h, h'⟩
  · have := h []; simp [tag] at this; exact .inl this
  · have := h []; simp [tag] at this; exact .inr ⟨this, h'⟩

theorem Solid.closed {b} (h : Solid b) : Closed b := by
  intro r
  rcases h.2 with h | ⟨h, h'⟩
  · have h0 := h []; simp [tag] at h0; rw [h, h0]
  · have h0 := h []; simp [tag] at h0; rw [h, h0]

/-! ## Removing white space -/

/-- A closed text that becomes `m`. -/
def Sq (b m : Bytes) : Prop := Closed b ∧ squeeze b = m

theorem squeeze_append {a b} (ha : Closed a) : squeeze (a ++ b) = squeeze a ++ squeeze b := by
  simp [squeeze, ha b]

theorem Sq.append {a b m n} (ha : Sq a m) (hb : Sq b n) : Sq (a ++ b) (m ++ n) :=
  ⟨ha.1.append hb.1, by rw [squeeze_append ha.1, ha.2, hb.2]⟩

theorem sq_nil : Sq [] [] := ⟨closed_nil, rfl⟩

theorem sq_solid {b} (h : Solid b) : Sq b b := by
  refine ⟨h.closed, ?_⟩
  rcases h.tag_self with h | ⟨h, h'⟩
  · simp only [squeeze, h, List.filter_map, Function.comp_def, Bool.true_or, List.map_map]
    simp
  · simp only [squeeze, h, List.filter_map, Function.comp_def, Bool.false_or, List.map_map]
    rw [List.filter_eq_self.2 (fun x hx => by simp [(h' x hx).1])]
    simp

theorem sq_ws {b} (h : Ws b) : Sq b [] := by
  have hq : (0x22 : Byte) ∉ b := by
    intro hm
    rcases h _ hm with h | h | h | h <;> exact absurd h (by decide)
  refine ⟨closed_plain hq, ?_⟩
  have := tag_plain hq []
  simp only [List.append_nil, tag] at this
  simp only [squeeze, this, List.filter_map, Function.comp_def, Bool.false_or]
  rw [List.filter_eq_nil_iff.2]
  · rfl
  · intro x hx
    rcases h x hx with rfl | rfl | rfl | rfl <;> decide

theorem sq_one {x : Byte} (h : x ≠ 0x22) (hw : isWs x = false) : Sq [x] [x] :=
  ⟨closed_one h, by simp [squeeze, tag, h, hw]⟩

theorem sq_cons {x : Byte} {b m} (h : x ≠ 0x22) (hw : isWs x = false) (hb : Sq b m) : Sq (x :: b) (x :: m) :=
  (sq_one h hw).append hb

theorem sq_sp {b m} (hb : Sq b m) : Sq (0x20 :: b) m := (sq_ws ws_sp).append hb

/-- Texts separated by commas. -/
def joinC : List Bytes → Bytes
  | [] => []
  | [b] => b
  | b :: c :: l => b ++ 0x2C :: joinC (c :: l)

theorem joined_sq {α : Type} {pc : PrinterCfg} {lvl : Int} {l r} (h : Joined l r) : ∀ (xs : List α) (g : α → List POp) (m : α → Bytes),
    l = xs.map g → (∀ x ∈ xs, Balanced pc (g x) ∧ Sq (render pc lvl (g x)) (m x)) → Sq (render pc lvl r) (joinC (xs.map m)) := by
  induction h with
  | one x =>
    intro xs g m hv hx
    match xs, hv with
    | [v], hv =>
      simp at hv
      rw [hv]
      exact (hx v (by simp)).2
  | @comp x l r h ih =>
    intro xs g m hv hx
    match xs, hv with
    | v :: [], hv => simp at hv; rw [hv.2] at h; cases h
    | v :: w :: xs, hv =>
      simp only [List.map_cons, List.cons.injEq] at hv
      obtain ⟨rfl, hv'⟩ := hv
      rw [render_comp _ _ _ _ (hx v (by simp)).1]
      exact (hx v (by simp)).2.append (sq_cons (by decide) (by decide) (sq_sp (ih (w :: xs) g m hv' (fun x h => hx x (List.mem_cons_of_mem _ h)))))
  | @line x l r h ih =>
    intro xs g m hv hx
    match xs, hv with
    | v :: [], hv => simp at hv; rw [hv.2] at h; cases h
    | v :: w :: xs, hv =>
      simp only [List.map_cons, List.cons.injEq] at hv
      obtain ⟨rfl, hv'⟩ := hv
      rw [render_line _ _ _ _ (hx v (by simp)).1]
      exact (hx v (by simp)).2.append (sq_cons (by decide) (by decide)
        ((sq_ws (ws_nlBytes _ _)).append (ih (w :: xs) g m hv' (fun x h => hx x (List.mem_cons_of_mem _ h)))))

theorem sq_elision (e : Bool) : Sq (if e then b%"..." else []) (if e then b%"..." else []) := by
  cases e
  · exact sq_nil
  · exact sq_cons (by decide) (by decide) (sq_cons (by decide) (by decide) (sq_one (by decide) (by decide)))

theorem coll_sq {α : Type} {pc : PrinterCfg} {lvl : Int} {o c : Byte} {e : Bool} {l r} (h : Coll (.bytes [o]) (.bytes [c]) e l r)
    (ho : o ≠ 0x22 ∧ isWs o = false) (hc : c ≠ 0x22 ∧ isWs c = false) (xs : List α) (g : α → List POp) (m : α → Bytes)
    (hl : l = xs.map g) (hx : ∀ x ∈ xs, Balanced pc (g x) ∧ ∀ lvl, Sq (render pc lvl (g x)) (m x)) :
    Sq (render pc lvl r) (o :: (joinC (xs.map m) ++ (if e then b%"..." else []) ++ [c])) := by
  have hb : ∀ x ∈ l, Balanced pc x := by
    rw [hl]; simp only [List.mem_map]; rintro x ⟨v, hv, rfl⟩; exact (hx v hv).1
  rw [List.append_assoc]
  cases h with
  | flat _ =>
    rw [render_coll_flat _ _ _ _ _ _ hb]
    have h1 : Sq (render pc lvl (sepBy [compactSep] l)) (joinC (xs.map m)) := by
      cases xs with
      | nil => rw [hl]; exact sq_nil
      | cons x xs =>
        exact joined_sq (joined_flat _ (by rw [hl]; simp)) (x :: xs) g m hl (fun x h => ⟨(hx x h).1, (hx x h).2 lvl⟩)
    exact sq_cons ho.1 ho.2 (h1.append ((sq_elision e).append (sq_one hc.1 hc.2)))
  | broken hj =>
    rw [render_coll_broken hj hb]
    refine sq_cons ho.1 ho.2 ?_
    have h1 := joined_sq hj xs g m hl (fun x h => ⟨(hx x h).1, (hx x h).2 (lvl + 1)⟩)
    have h2 : Sq (if e then nlBytes pc (lvl + 1) ++ b%"..." else []) (if e then b%"..." else []) := by
      cases e
      · exact sq_nil
      · exact (sq_ws (ws_nlBytes pc _)).append (sq_elision true)
    have h3 := (sq_ws (ws_nlBytes pc lvl)).append (sq_one hc.1 hc.2)
    exact (sq_ws (ws_nlBytes pc _)).append (h1.append (h2.append h3))

theorem minText_items (l : List JVal) : minText.items l = joinC (l.map minText) := by
  induction l with
  | nil => simp [minText.items, joinC]
  | cons v l ih =>
    cases l with
    | nil => simp [minText.items, joinC]
    | cons w l => simp only [minText.items, ih, List.map_cons, joinC]

theorem minText_members (l : List (Scalar × JVal)) :
    minText.members l = joinC (l.map fun m => m.1.bytes ++ 0x3A :: minText m.2) := by
  induction l with
  | nil => simp [minText.members, joinC]
  | cons v l ih =>
    obtain ⟨k, v⟩ := v
    cases l with
    | nil => simp [minText.members, joinC]
    | cons w l => simp only [minText.members, ih, List.map_cons, joinC]; simp

theorem layout_sq (pc : PrinterCfg) {cfg : EncCfg} (hc : cfg.color = none) (v : JVal) (hs : Spelled LaxChars v) :
    ∀ lvl, Sq (render pc lvl (layout cfg v)) (minText v) := by
  induction v using JVal.induct with
  | scalar s =>
    intro lvl
    cases hs with
    | scalar hk h =>
      rw [render_scalar hc]
      simpa [minText] using sq_solid (solid_spelled h)
  | arr l e ih =>
    intro lvl
    cases hs with
    | arr hs =>
      have := coll_sq (pc := pc) (lvl := lvl) (layout_arr cfg l e) (by decide) (by decide) l (layout cfg) minText rfl
        (fun v hv => ⟨layout_balanced pc cfg v, ih v hv (hs v hv)⟩)
      simpa [minText, minText_items] using this
  | obj l e ih =>
    intro lvl
    cases hs with
    | obj hk hs =>
      have := coll_sq (pc := pc) (lvl := lvl) (layout_obj cfg l e) (by decide) (by decide) l (layMember cfg)
        (fun m => m.1.bytes ++ 0x3A :: minText m.2) rfl (fun m hm => ⟨layMember_balanced pc cfg m, fun lvl => by
          rw [render_member hc]
          exact (sq_solid (solid_spelled (hk m hm).2.2)).append (sq_cons (by decide) (by decide) (sq_sp (ih m hm (hs m hm) lvl)))⟩)
      simpa [minText, minText_members] using this

theorem layoutAll_sq (pc : PrinterCfg) {cfg : EncCfg} (hc : cfg.color = none) (vs : List JVal)
    (hs : ∀ v ∈ vs, Spelled LaxChars v) : Sq (render pc 0 (layoutAll cfg vs)) (vs.flatMap minText) := by
  rw [render_layoutAll]
  induction vs with
  | nil => exact sq_nil
  | cons v vs ih =>
    have h1 := layout_sq pc hc v (hs v (by simp)) 0
    have h2 := ih fun v hv => hs v (by simp [hv])
    have := (h1.append (sq_ws ws_nl)).append h2
    simpa using this

/-! ## Indentation -/

/-- A value text starts with something that is not white space and not a closing bracket. -/
def Starts (b : Bytes) : Prop := ∃ c t, b = c :: t ∧ c ≠ 0x20 ∧ c ≠ 0x0A ∧ c ≠ 0x5D ∧ c ≠ 0x7D

/-- A text that is correctly indented at depth `d` and does not change the depth. -/
def Ind (n d : Nat) (b : Bytes) : Prop :=
  ∀ r, linesIndented n d none (tag .out (b ++ r)) = linesIndented n d none (tag .out r)

theorem ind_nil (n d) : Ind n d [] := fun r => rfl

theorem Ind.append {n d a b} (ha : Ind n d a) (hb : Ind n d b) : Ind n d (a ++ b) := fun r => by
  rw [List.append_assoc, ha, hb]

theorem ind_one {n d} {x : Byte} (h : x ≠ 0x22) (hb : x ≠ 0x5B ∧ x ≠ 0x5D ∧ x ≠ 0x7B ∧ x ≠ 0x7D) (hn : x ≠ 0x0A) : Ind n d [x] := by
  intro r
  simp [tag, h, linesIndented, hn, depthAfter, hb]

theorem ind_map {n d} (t : Bool) : ∀ (b : Bytes) (r : List (Bool × Byte)),
    (t = false → ∀ x ∈ b, isWs x = false ∧ x ≠ 0x5B ∧ x ≠ 0x5D ∧ x ≠ 0x7B ∧ x ≠ 0x7D) →
    linesIndented n d none (b.map (t, ·) ++ r) = linesIndented n d none r := by
  intro b
  induction b with
  | nil => intros; rfl
  | cons x b ih =>
    intro r h
    have hd : depthAfter d (t, x) = d ∧ (t, x) ≠ (false, 0x0A) := by
      cases t
      · have := h rfl x (by simp)
        refine ⟨by simp [depthAfter, this], ?_⟩
        intro e
        simp at e
        rw [e] at this
        exact absurd this.1 (by decide)
      · exact ⟨by simp [depthAfter], by simp⟩
    simp only [List.map_cons, List.cons_append, linesIndented, hd.2, if_false, hd.1]
    exact ih r (fun ht y hy => h ht y (by simp [hy]))

theorem ind_solid {n d b} (h : Solid b) : Ind n d b := by
  intro r
  rcases h.2 with h | ⟨h, h'⟩
  · rw [h, ind_map true _ _ (by simp)]
  · rw [h, ind_map false _ _ (fun _ => h')]

theorem linesIndented_spaces (n d k j : Nat) (r : Bytes) :
    linesIndented n d (some k) (tag .out (List.replicate j 0x20 ++ r)) = linesIndented n d (some (k + j)) (tag .out r) := by
  induction j generalizing k with
  | zero => rfl
  | succ j ih =>
    rw [List.replicate_succ, List.cons_append]
    simp only [tag, show (0x20 : Byte) ≠ 0x22 by decide, if_false, linesIndented, if_true]
    rw [ih]
    congr 2
    omega

/-- A new line, followed by the text of a value. -/
theorem ind_nl {pc : PrinterCfg} {n d : Nat} (hp : pc.indentSize = n) {b : Bytes} (hs : Starts b) (r : Bytes) :
    linesIndented n d none (tag .out (nlBytes pc d ++ (b ++ r))) = linesIndented n d none (tag .out (b ++ r)) := by
  obtain ⟨c, t, rfl, h1, h2, h3, h4⟩ := hs
  have hn : nlBytes pc d = 0x0A :: List.replicate (n * d) 0x20 := by
    simp only [nlBytes, hp]
    rw [if_neg (by omega)]
    rfl
  rw [hn, List.cons_append]
  conv => lhs; simp only [tag, show (0x0A : Byte) ≠ 0x22 by decide, if_false, linesIndented, if_true]
  rw [linesIndented_spaces]
  simp only [List.cons_append, tag]
  by_cases hq : c = 0x22
  · simp [hq, linesIndented, lineDepth, depthAfter]
  · simp [hq, linesIndented, lineDepth, depthAfter, h1, h2, h3, h4]

/-- A new line, followed by a closing bracket. -/
theorem ind_close {pc : PrinterCfg} {n d : Nat} (hp : pc.indentSize = n) {c : Byte} (hc : c = 0x5D ∨ c = 0x7D) (r : Bytes) :
    linesIndented n (d + 1) none (tag .out (nlBytes pc d ++ (c :: r))) = linesIndented n d none (tag .out r) := by
  have hn : nlBytes pc d = 0x0A :: List.replicate (n * d) 0x20 := by
    simp only [nlBytes, hp]
    rw [if_neg (by omega)]
    rfl
  rw [hn, List.cons_append]
  simp only [tag, show (0x0A : Byte) ≠ 0x22 by decide, if_false, linesIndented, if_true]
  rw [linesIndented_spaces]
  rcases hc with rfl | rfl <;> simp [tag, linesIndented, lineDepth, depthAfter]

theorem starts_solid {b} (h : Solid b) : Starts b := h.1

theorem Starts.append {a b} (h : Starts a) : Starts (a ++ b) := by
  obtain ⟨c, t, rfl, h⟩ := h
  exact ⟨c, t ++ b, rfl, h⟩

theorem ind_comma {n d b} (hb : Ind n d b) : Ind n d (0x2C :: b) :=
  (ind_one (x := 0x2C) (by decide) (by decide) (by decide)).append hb

theorem ind_sp {n d b} (hb : Ind n d b) : Ind n d (0x20 :: b) :=
  (ind_one (x := 0x20) (by decide) (by decide) (by decide)).append hb

theorem joined_ind {α : Type} {pc : PrinterCfg} {n : Nat} (hp : pc.indentSize = n) {d : Nat} {l r} (h : Joined l r) :
    ∀ (xs : List α) (g : α → List POp), l = xs.map g →
      (∀ x ∈ xs, Balanced pc (g x) ∧ Ind n d (render pc d (g x)) ∧ Starts (render pc d (g x))) →
      Ind n d (render pc d r) ∧ Starts (render pc d r) := by
  induction h with
  | one x =>
    intro xs g hv hx
    match xs, hv with
    | [v], hv =>
      simp at hv
      rw [hv]
      exact (hx v (by simp)).2
  | @comp x l r h ih =>
    intro xs g hv hx
    match xs, hv with
    | v :: xs, hv =>
      simp only [List.map_cons, List.cons.injEq] at hv
      obtain ⟨rfl, hv'⟩ := hv
      rw [render_comp _ _ _ _ (hx v (by simp)).1]
      have := ih xs g hv' (fun x h => hx x (by simp [h]))
      exact ⟨(hx v (by simp)).2.1.append (ind_comma (ind_sp this.1)), (hx v (by simp)).2.2.append⟩
  | @line x l r h ih =>
    intro xs g hv hx
    match xs, hv with
    | v :: xs, hv =>
      simp only [List.map_cons, List.cons.injEq] at hv
      obtain ⟨rfl, hv'⟩ := hv
      rw [render_line _ _ _ _ (hx v (by simp)).1]
      have := ih xs g hv' (fun x h => hx x (by simp [h]))
      refine ⟨(hx v (by simp)).2.1.append (ind_comma fun t => ?_), (hx v (by simp)).2.2.append⟩
      rw [List.append_assoc, ind_nl hp this.2, this.1]

theorem ind_elision {n d : Nat} (e : Bool) : Ind n d (if e then b%"..." else []) := by
  cases e
  · exact ind_nil n d
  · exact (ind_one (x := 0x2E) (by decide) (by decide) (by decide)).append
      ((ind_one (x := 0x2E) (by decide) (by decide) (by decide)).append (ind_one (x := 0x2E) (by decide) (by decide) (by decide)))

theorem ind_open {n d : Nat} {o : Byte} (ho : o = 0x5B ∨ o = 0x7B) (r : Bytes) :
    linesIndented n d none (tag .out (o :: r)) = linesIndented n (d + 1) none (tag .out r) := by
  rcases ho with rfl | rfl <;> simp [tag, linesIndented, depthAfter]

theorem ind_close_here {n d : Nat} {c : Byte} (hc : c = 0x5D ∨ c = 0x7D) (r : Bytes) :
    linesIndented n (d + 1) none (tag .out (c :: r)) = linesIndented n d none (tag .out r) := by
  rcases hc with rfl | rfl <;> simp [tag, linesIndented, depthAfter]

theorem coll_ind {α : Type} {pc : PrinterCfg} {n : Nat} (hp : pc.indentSize = n) {d : Nat} {o c : Byte} {e : Bool} {l r}
    (h : Coll (.bytes [o]) (.bytes [c]) e l r) (ho : o = 0x5B ∨ o = 0x7B) (hc : c = 0x5D ∨ c = 0x7D) (xs : List α)
    (g : α → List POp) (hl : l = xs.map g)
    (hx : ∀ x ∈ xs, Balanced pc (g x) ∧ ∀ d : Nat, Ind n d (render pc d (g x)) ∧ Starts (render pc d (g x))) :
    Ind n d (render pc d r) ∧ Starts (render pc d r) := by
  have hb : ∀ x ∈ l, Balanced pc x := by
    rw [hl]; simp only [List.mem_map]; rintro x ⟨v, hv, rfl⟩; exact (hx v hv).1
  have hst : ∀ t, Starts ([o] ++ t) := fun t => ⟨o, t, rfl, by rcases ho with rfl | rfl <;> decide⟩
  cases h with
  | flat hline =>
    rw [render_coll_flat _ _ _ _ _ _ hb]
    refine ⟨?_, hst _⟩
    have h1 : Ind n (d + 1) (render pc d (sepBy [compactSep] l)) := by
      cases xs with
      | nil => rw [hl]; exact ind_nil _ _
      | cons x xs =>
        have hl1 : Line (sepBy [compactSep] l) := by
          clear hl hx hb hst
          cases l with
          | nil => intro o ho; cases ho
          | cons y l =>
            intro o ho
            simp only [sepBy, List.mem_append, List.mem_flatMap] at ho
            rcases ho with h | ⟨z, hz, h⟩
            · exact hline y (by simp) o h
            · rcases h with h | h
              · simp at h; exact ⟨_, h⟩
              · exact hline z (by simp [hz]) o h
        rw [render_line_level pc d (d + 1 : Nat) hl1]
        exact (joined_ind hp (joined_flat _ (by rw [hl]; simp)) (x :: xs) g hl (fun x h => ⟨(hx x h).1, (hx x h).2 (d + 1)⟩)).1
    intro t
    simp only [List.cons_append, List.nil_append, List.append_assoc]
    rw [ind_open ho, h1, ind_elision e, ind_close_here hc]
  | broken hj =>
    rw [render_coll_broken hj hb]
    refine ⟨?_, hst _⟩
    have h1 := joined_ind hp hj xs g hl (fun x h => ⟨(hx x h).1, (hx x h).2 (d + 1)⟩)
    intro t
    simp only [List.cons_append, List.nil_append, List.append_assoc]
    rw [ind_open ho]
    have hd : ((d : Int) + 1) = ((d + 1 : Nat) : Int) := by omega
    rw [hd, ind_nl hp h1.2, h1.1]
    cases e
    · simp only [Bool.false_eq_true, if_false, List.nil_append]
      rw [ind_close hp hc]
    · simp only [if_true, List.append_assoc]
      rw [ind_nl hp ⟨0x2E, _, rfl, by decide⟩]
      have := ind_elision (n := n) (d := d + 1) true
      simp only [if_true] at this
      rw [this, ind_close hp hc]

theorem layout_ind {pc : PrinterCfg} {n : Nat} (hp : pc.indentSize = n) {cfg : EncCfg} (hc : cfg.color = none) (v : JVal)
    (hs : Spelled LaxChars v) : ∀ d : Nat, Ind n d (render pc d (layout cfg v)) ∧ Starts (render pc d (layout cfg v)) := by
  induction v using JVal.induct with
  | scalar s =>
    intro d
    cases hs with
    | scalar hk h =>
      rw [render_scalar hc]
      exact ⟨ind_solid (solid_spelled h), starts_solid (solid_spelled h)⟩
  | arr l e ih =>
    intro d
    cases hs with
    | arr hs =>
      exact coll_ind hp (layout_arr cfg l e) (.inl rfl) (.inl rfl) l (layout cfg) rfl
        (fun v hv => ⟨layout_balanced pc cfg v, ih v hv (hs v hv)⟩)
  | obj l e ih =>
    intro d
    cases hs with
    | obj hk hs =>
      refine coll_ind hp (layout_obj cfg l e) (.inr rfl) (.inr rfl) l (layMember cfg) rfl
        (fun m hm => ⟨layMember_balanced pc cfg m, fun d => ?_⟩)
      rw [render_member hc]
      have hk := solid_spelled (hk m hm).2.2
      exact ⟨(ind_solid hk).append ((ind_one (x := 0x3A) (by decide) (by decide) (by decide)).append
        (ind_sp (ih m hm (hs m hm) d).1)), (starts_solid hk).append⟩

/-! ## No line breaks -/

/-- A closed text without line breaks. -/
def Flat1 (b : Bytes) : Prop := Closed b ∧ OneLine b

theorem Flat1.append {a b} (ha : Flat1 a) (hb : Flat1 b) : Flat1 (a ++ b) :=
  ⟨ha.1.append hb.1, fun x hx => by
    rw [ha.1] at hx
    rcases List.mem_append.1 hx with h | h
    · exact ha.2 x h
    · exact hb.2 x h⟩

theorem flat1_nil : Flat1 [] := ⟨closed_nil, fun x hx => by simp [tag] at hx⟩

theorem flat1_plain {b : Bytes} (h : (0x22 : Byte) ∉ b) (h' : (0x0A : Byte) ∉ b) : Flat1 b := by
  refine ⟨closed_plain h, fun x hx => ?_⟩
  have := tag_plain h []
  simp only [List.append_nil, tag] at this
  rw [this, List.mem_map] at hx
  obtain ⟨y, hy, rfl⟩ := hx
  intro e
  simp at e
  exact h' (e ▸ hy)

theorem flat1_solid {b} (h : Solid b) : Flat1 b := by
  refine ⟨h.closed, fun x hx => ?_⟩
  rcases h.tag_self with h | ⟨h, h'⟩
  · rw [h, List.mem_map] at hx
    obtain ⟨y, hy, rfl⟩ := hx
    simp
  · rw [h, List.mem_map] at hx
    obtain ⟨y, hy, rfl⟩ := hx
    intro e
    simp at e
    have := (h' y hy).1
    rw [e] at this
    exact absurd this (by decide)

theorem joined_flat1 {pc : PrinterCfg} (hp : pc.indentSize < 0) {lvl : Int} {l r} (h : Joined l r)
    (hx : ∀ x ∈ l, Balanced pc x ∧ Flat1 (render pc lvl x)) : Flat1 (render pc lvl r) := by
  have hnl : nlBytes pc lvl = [] := by simp [nlBytes, hp]
  induction h with
  | one x => exact (hx x (by simp)).2
  | @comp x l r h ih =>
    rw [render_comp _ _ _ _ (hx x (by simp)).1]
    exact (hx x (by simp)).2.append ((flat1_plain (b := [0x2C, 0x20]) (by decide) (by decide)).append
      (ih fun x h => hx x (by simp [h])))
  | @line x l r h ih =>
    rw [render_line _ _ _ _ (hx x (by simp)).1, hnl]
    exact (hx x (by simp)).2.append ((flat1_plain (b := [0x2C]) (by decide) (by decide)).append
      (ih fun x h => hx x (by simp [h])))

theorem coll_flat1 {pc : PrinterCfg} (hp : pc.indentSize < 0) {lvl : Int} {o c : Byte} {e : Bool} {l r}
    (h : Coll (.bytes [o]) (.bytes [c]) e l r) (ho : o ≠ 0x22 ∧ o ≠ 0x0A) (hc : c ≠ 0x22 ∧ c ≠ 0x0A)
    (hx : ∀ x ∈ l, Balanced pc x ∧ ∀ lvl, Flat1 (render pc lvl x)) : Flat1 (render pc lvl r) := by
  have hnl : ∀ lvl, nlBytes pc lvl = [] := by simp [nlBytes, hp]
  have h1 : ∀ x : Byte, x ≠ 0x22 ∧ x ≠ 0x0A → Flat1 [x] := fun x h =>
    flat1_plain (by simpa using Ne.symm h.1) (by simpa using Ne.symm h.2)
  have he : Flat1 (if e then b%"..." else []) := by
    cases e
    · exact flat1_nil
    · exact flat1_plain (by decide) (by decide)
  cases h with
  | flat _ =>
    rw [render_coll_flat _ _ _ _ _ _ (fun x h => (hx x h).1)]
    have h2 : Flat1 (render pc lvl (sepBy [compactSep] l)) := by
      cases l with
      | nil => exact flat1_nil
      | cons x xs => exact joined_flat1 hp (joined_flat _ (by simp)) (fun x h => ⟨(hx x h).1, (hx x h).2 lvl⟩)
    exact (h1 o ho).append (h2.append (he.append (h1 c hc)))
  | broken hj =>
    rw [render_coll_broken hj (fun x h => (hx x h).1)]
    simp only [hnl, List.nil_append]
    exact (h1 o ho).append ((joined_flat1 hp hj (fun x h => ⟨(hx x h).1, (hx x h).2 _⟩)).append (he.append (h1 c hc)))

theorem layout_flat1 {pc : PrinterCfg} (hp : pc.indentSize < 0) {cfg : EncCfg} (hc : cfg.color = none) (v : JVal)
    (hs : Spelled LaxChars v) : ∀ lvl, Flat1 (render pc lvl (layout cfg v)) := by
  induction v using JVal.induct with
  | scalar s =>
    intro d
    cases hs with
    | scalar hk h => rw [render_scalar hc]; exact flat1_solid (solid_spelled h)
  | arr l e ih =>
    intro d
    cases hs with
    | arr hs =>
      refine coll_flat1 hp (layout_arr cfg l e) (by decide) (by decide) ?_
      simp only [List.mem_map]
      rintro x ⟨v, hv, rfl⟩
      exact ⟨layout_balanced pc cfg v, ih v hv (hs v hv)⟩
  | obj l e ih =>
    intro d
    cases hs with
    | obj hk hs =>
      refine coll_flat1 hp (layout_obj cfg l e) (by decide) (by decide) ?_
      simp only [List.mem_map]
      rintro x ⟨m, hm, rfl⟩
      refine ⟨layMember_balanced pc cfg m, fun d => ?_⟩
      rw [render_member hc]
      exact (flat1_solid (solid_spelled (hk m hm).2.2)).append
        ((flat1_plain (b := [0x3A, 0x20]) (by decide) (by decide)).append (ih m hm (hs m hm) d))

end Enc
end Verif
