import Verif.PathRun
import Verif.PathInts

/-!
# Fuel does not matter

A run that does not end for want of fuel is the same with more fuel.
-/

set_option linter.unusedSimpArgs false
set_option linter.unusedVariables false

namespace Verif

variable {ε α β γ δ : Type}

/-- The programs differ only where the first one has run out of fuel; results are related. -/
inductive LeP (R : α → β → Prop) : IProg ε α → IProg ε β → Prop
  | ret {a b} : R a b → LeP R (.ret a) (.ret b)
  | fuel (q) : LeP R (.fail .fuel) q
  | fail (s) : LeP R (.fail s) (.fail s)
  | emit {e k k'} : LeP R k k' → LeP R (.emit e k) (.emit e k')
  | op {o k k'} : (∀ r, LeP R (k r) (k' r)) → LeP R (.op o k) (.op o k')

namespace LeP

theorem refl {R : α → α → Prop} (hR : ∀ a, R a a) : ∀ p : IProg ε α, LeP R p p
  | .ret a => .ret (hR a)
  | .fail s => .fail s
  | .emit _ k => .emit (refl hR k)
  | .op _ k => .op fun r => refl hR (k r)

theorem rfl' (p : IProg ε α) : LeP Eq p p := refl (fun _ => rfl) p

theorem bind {R : α → β → Prop} {R' : γ → δ → Prop} {p : IProg ε α} {q : IProg ε β} (h : LeP R p q) {f : α → IProg ε γ} {g : β → IProg ε δ}
    (hf : ∀ a b, R a b → LeP R' (f a) (g b)) : LeP R' (p.bind f) (q.bind g) := by
  induction h with
  | ret h => exact hf _ _ h
  | fuel q => exact .fuel _
  | fail s => exact .fail s
  | emit _ ih => exact .emit ih
  | op _ ih => exact .op ih

theorem bindEq {R' : γ → δ → Prop} {p q : IProg ε α} (h : LeP Eq p q) {f : α → IProg ε γ} {g : α → IProg ε δ}
    (hf : ∀ a, LeP R' (f a) (g a)) : LeP R' (p.bind f) (q.bind g) := h.bind fun a _ e => e ▸ hf a

theorem mono {R R' : α → β → Prop} {p : IProg ε α} {q : IProg ε β} (h : LeP R p q) (hR : ∀ a b, R a b → R' a b) : LeP R' p q := by
  induction h with
  | ret h => exact .ret (hR _ _ h)
  | fuel q => exact .fuel _
  | fail s => exact .fail s
  | emit _ ih => exact .emit ih
  | op _ ih => exact .op ih

theorem run_eq {σ : Type} (m : IMach σ) {p q : IProg ε α} (h : LeP Eq p q) : ∀ s, (p.run m s).2 ≠ .error .fuel → q.run m s = p.run m s := by
  induction h with
  | ret h => intro s _; rw [h]
  | fuel q => intro s hs; exact absurd rfl hs
  | fail e => intro s _; rfl
  | emit _ ih =>
    intro s hs
    simp only [IProg.run] at hs ⊢
    rw [ih s hs]
  | @op o k k' _ ih =>
    intro s hs
    simp only [IProg.run] at hs ⊢
    cases hst : m.step s o with
    | error e => rfl
    | ok r =>
      rw [hst] at hs
      exact ih r.2 r.1 hs

end LeP

theorem ite_le {R : α → β → Prop} {c : Prop} [Decidable c] {p p' : IProg ε α} {q q' : IProg ε β} (h1 : c → LeP R p q) (h2 : ¬ c → LeP R p' q') :
    LeP R (if c then p else p') (if c then q else q') := by
  by_cases h : c
  · rw [if_pos h, if_pos h]; exact h1 h
  · rw [if_neg h, if_neg h]; exact h2 h

/-! ## Equality of values -/

theorem safeEqual_le {eq eq' : Val → Val → IProg ε Bool} (h : ∀ x y, LeP Eq (eq x y) (eq' x y)) (x y : Val) : LeP Eq (safeEqual eq x y) (safeEqual eq' x y) :=
  .op fun _ => .op fun _ => (h _ _).bindEq fun _ => .rfl' _

theorem arrEqual_le {eq eq' : Val → Val → IProg ε Bool} (h : ∀ x y, LeP Eq (eq x y) (eq' x y)) (i j : Nat) : ∀ {f g : Nat}, f ≤ g →
    LeP Eq (arrEqual eq i j f) (arrEqual eq' i j g)
  | 0, g, _ => .fuel _
  | f + 1, 0, hfg => by omega
  | f + 1, g + 1, hfg => by
    refine .op fun a => ite_le (fun _ => .op fun b => ite_le (fun _ => .op fun x => .op fun y => ?_) fun _ => .rfl' _) fun _ => .rfl' _
    split
    · exact (h _ _).bindEq fun c => ite_le (fun _ => arrEqual_le h i j (by omega)) fun _ => .rfl' _
    · exact .rfl' _

theorem seekRight_le {eq eq' : Val → Val → IProg ε Bool} (h : ∀ x y, LeP Eq (eq x y) (eq' x y)) (key : Scalar) (val : Val) (j : Nat) : ∀ {f g : Nat}, f ≤ g →
    ∀ ps, LeP Eq (seekRight eq key val j f ps) (seekRight eq' key val j g ps)
  | 0, g, _, _ => .fuel _
  | f + 1, 0, hfg, _ => by omega
  | f + 1, g + 1, hfg, ps => by
    refine .op fun a => ite_le (fun _ => .op fun kv => ?_) fun _ => .rfl' _
    split
    · split
      · exact .rfl' _
      · exact (safeEqual_le h _ _).bindEq fun _ => .rfl' _
      · exact .op fun yd => seekRight_le h key val j (by omega) _
    · exact .rfl' _

theorem objLoop_le {eq eq' : Val → Val → IProg ε Bool} (h : ∀ x y, LeP Eq (eq x y) (eq' x y)) (i j : Nat) {n m : Nat} (hnm : n ≤ m) : ∀ {f g : Nat}, f ≤ g →
    ∀ ps, LeP Eq (objLoop eq i j n f ps) (objLoop eq' i j m g ps)
  | 0, g, _, _ => .fuel _
  | f + 1, 0, hfg, _ => by omega
  | f + 1, g + 1, hfg, ps => by
    refine .op fun a => ite_le (fun _ => .op fun kv => ?_) fun _ => .rfl' _
    split
    · split
      · exact .rfl' _
      · split
        · exact .rfl' _
        · exact (safeEqual_le h _ _).bindEq fun c => ite_le (fun _ => (LeP.rfl' _).bindEq fun _ => objLoop_le h i j hnm (by omega) _) fun _ => .rfl' _
      · exact (seekRight_le h _ _ _ hnm _).bindEq fun r => ite_le (fun _ => objLoop_le h i j hnm (by omega) _) fun _ => .rfl' _
    · exact .rfl' _

theorem valEqual_le : ∀ {f g : Nat}, f ≤ g → ∀ x y, LeP Eq (valEqual f x y : IProg ε Bool) (valEqual g x y)
  | 0, g, _, _, _ => .fuel _
  | f + 1, 0, hfg, _, _ => by omega
  | f + 1, g + 1, hfg, x, y => by
    have ih := fun x y => valEqual_le (show f ≤ g by omega) x y
    simp only [valEqual]
    split
    · exact .rfl' _
    · exact arrEqual_le ih _ _ hfg
    · exact (objLoop_le ih _ _ hfg hfg _).bindEq fun _ => .rfl' _
    · exact .rfl' _

namespace JPath
open IProg GoJson

variable {φ : Type}

/-! ## Segments -/

/-- The same selector, up to fuel of conditions. -/
inductive SelLe : Sel (CondP ε) → Sel (CondP ε) → Prop
  | default : SelLe .default .default
  | name (n) : SelLe (.name n) (.name n)
  | wild : SelLe .wild .wild
  | index (i) : SelLe (.index i) (.index i)
  | slice (a b c) : SelLe (.slice a b c) (.slice a b c)
  | rslice (a b c) : SelLe (.rslice a b c) (.rslice a b c)
  | filter {c c'} : (∀ x, LeP Eq (c x) (c' x)) → SelLe (.filter c) (.filter c')

theorem SelLe.fromKey {s s' : Sel (CondP ε)} (h : SelLe s s') (k : Bytes) : s.fromKey k = s'.fromKey k := by cases h <;> rfl
theorem SelLe.fromIndex {s s' : Sel (CondP ε)} (h : SelLe s s') (i j : Int) : s.fromIndex i j = s'.fromIndex i j := by cases h <;> rfl
theorem SelLe.reverses {s s' : Sel (CondP ε)} (h : SelLe s s') : s.reverses = s'.reverses := by cases h <;> rfl
theorem SelLe.lookahead {s s' : Sel (CondP ε)} (h : SelLe s s') : s.lookahead = s'.lookahead := by cases h <;> rfl

/-- The same state of a selector. -/
structure StLe (s s' : SelSt ε) : Prop where
  sel : SelLe s.sel s'.sel
  selected : s.selected = s'.selected
  pending : s.pending = s'.pending
  done : s.done = s'.done

/-- The same dispatcher. -/
structure DispLe (d d' : Disp ε) : Prop where
  clone : d.shouldClone = d'.shouldClone
  states : Rel2 StLe d.states d'.states

/-- Results of processors. -/
def ResLe (a b : Stack ε × φ × Bool) : Prop := Rel2 DispLe a.1 b.1 ∧ a.2 = b.2

/-- Results of loops. -/
def LoopLe (a b : Disp ε × Stack ε × φ × Bool) : Prop := DispLe a.1 b.1 ∧ ResLe a.2 b.2

/-- What is done with a value. -/
def FolLe (f f' : Stack ε → φ → Val → IProg ε (Stack ε × φ × Bool)) : Prop :=
  ∀ ds ds' q x, Rel2 DispLe ds ds' → LeP ResLe (f ds q x) (f' ds' q x)

theorem appendAll_le (c : Bool) (x : Val) {l l' : List (SelSt ε)} (h : Rel2 StLe l l') : LeP (Rel2 StLe) (appendAll c x l) (appendAll c x l') := by
  induction h with
  | nil => exact .ret .nil
  | @cons st st' l l' h1 h2 ih =>
    simp only [appendAll]
    rw [h1.selected]
    refine ite_le (fun _ => (LeP.rfl' _).bindEq fun p => ih.bind fun a b hab => .ret (.cons ⟨h1.sel, ?_, ?_, h1.done⟩ hab)) (fun _ => ih.bind fun a b hab => .ret (.cons h1 hab))
    · rfl
    · simp [h1.pending]

variable {fin : φ → Val → IProg ε (φ × Bool)}

theorem process_le {ds ds' : Stack ε} (h : Rel2 DispLe ds ds') : ∀ q x, LeP ResLe (process fin ds q x) (process fin ds' q x) := by
  induction h with
  | nil => intro q x; exact (LeP.rfl' _).bindEq fun r => .ret ⟨.nil, rfl⟩
  | @cons d d' ds ds' h1 h2 ih =>
    intro q x
    obtain ⟨c, sts⟩ := d
    obtain ⟨c', sts'⟩ := d'
    obtain ⟨hc, hst⟩ := h1
    simp only at hc hst
    subst hc
    cases hst with
    | nil => exact .ret ⟨.cons ⟨rfl, .nil⟩ h2, rfl⟩
    | @cons st st' rest rest' h3 h4 =>
      simp only [process]
      rw [h3.selected, h3.sel.reverses]
      refine ite_le (fun hs => (LeP.rfl' _).bindEq fun p => ite_le (fun _ => ?_) (fun _ => ?_)) (fun _ => ?_)
      · refine (appendAll_le c x h4).bind fun a b hab => .ret ⟨.cons ⟨rfl, .cons ⟨h3.sel, ?_, ?_, h3.done⟩ hab⟩ h2, rfl⟩
        · rfl
        · simp [h3.pending]
      · refine (ih q p.1).bind ?_
        rintro ⟨a, q1, b⟩ ⟨a', q1', b'⟩ ⟨hab, he⟩
        simp only [Prod.mk.injEq] at he
        obtain ⟨rfl, rfl⟩ := he
        refine (LeP.rfl' _).bindEq fun _ => ite_le (fun _ => (appendAll_le c x h4).bind fun l l' hl => .ret ⟨.cons ⟨rfl, .cons h3 hl⟩ hab, rfl⟩)
          (fun _ => .ret ⟨.cons ⟨rfl, .cons h3 h4⟩ hab, rfl⟩)
      · exact (appendAll_le c x h4).bind fun l l' hl => .ret ⟨.cons ⟨rfl, .cons h3 hl⟩ h2, rfl⟩

theorem flushVals_le : ∀ (l : List (Val × Option Nat)) (r : Bool) {ds ds' : Stack ε}, Rel2 DispLe ds ds' → ∀ q, LeP ResLe (flushVals fin l r ds q) (flushVals fin l r ds' q)
  | [], r, ds, ds', h, q => .ret ⟨h, rfl⟩
  | p :: l, true, ds, ds', h, q => by
    simp only [flushVals]
    refine (process_le h q p.1).bind ?_
    rintro ⟨a, q1, b⟩ ⟨a', q1', b'⟩ ⟨hab, he⟩
    simp only [Prod.mk.injEq] at he
    obtain ⟨rfl, rfl⟩ := he
    exact (LeP.rfl' _).bindEq fun _ => flushVals_le l _ hab _
  | p :: l, false, ds, ds', h, q => by
    simp only [flushVals]
    exact (LeP.rfl' _).bindEq fun _ => flushVals_le l _ h _

theorem flushSt_le {st st' : SelSt ε} (h : StLe st st') (r : Bool) {ds ds' : Stack ε} (hd : Rel2 DispLe ds ds') (q : φ) :
    LeP ResLe (flushSt fin st r ds q) (flushSt fin st' r ds' q) := by
  unfold flushSt
  rw [h.sel.reverses, h.pending]
  exact flushVals_le _ _ hd _

theorem flushAll_le {l l' : List (SelSt ε)} (h : Rel2 StLe l l') : ∀ (r : Bool) {ds ds' : Stack ε}, Rel2 DispLe ds ds' → ∀ q,
    LeP ResLe (flushAll fin l r ds q) (flushAll fin l' r ds' q) := by
  induction h with
  | nil => intro r ds ds' h q; exact .ret ⟨h, rfl⟩
  | cons h1 h2 ih =>
    intro r ds ds' h q
    simp only [flushAll]
    refine (flushSt_le h1 r h q).bind ?_
    rintro ⟨a, q1, b⟩ ⟨a', q1', b'⟩ ⟨hab, he⟩
    simp only [Prod.mk.injEq] at he
    obtain ⟨rfl, rfl⟩ := he
    exact ih _ hab _

theorem decideAll_le {dec dec' : Sel (CondP ε) → Decision} (hd : ∀ s s', SelLe s s' → dec s = dec' s') (x : Val) {l l' : List (SelSt ε)} (h : Rel2 StLe l l') :
    LeP (Rel2 StLe) (decideAll dec x l) (decideAll dec' x l') := by
  induction h with
  | nil => exact .ret .nil
  | @cons st st' l l' h1 h2 ih =>
    simp only [decideAll]
    rw [h1.done, hd _ _ h1.sel]
    refine ite_le (fun hdn => ih.bind fun a b hab => .ret (.cons ⟨h1.sel, rfl, h1.pending, rfl⟩ hab)) (fun hdn => ?_)
    refine LeP.bindEq ?_ fun b => ih.bind fun a a' hab => .ret (.cons ⟨h1.sel, rfl, h1.pending, rfl⟩ hab)
    refine ite_le (fun _ => .rfl' _) fun _ => ite_le (fun _ => .rfl' _) fun _ => ?_
    have hsel := h1.sel
    revert hsel
    generalize st.sel = s
    generalize st'.sel = s'
    intro hsel
    cases hsel with
    | filter hc => exact hc x
    | _ => exact .rfl' _

theorem over_eq {s s' : SelSt ε} (h : StLe s s') : s.over = s'.over := by unfold SelSt.over; rw [h.done, h.selected]

theorem takeWhile_le {l l' : List (SelSt ε)} (h : Rel2 StLe l l') : Rel2 StLe (l.takeWhile SelSt.over) (l'.takeWhile SelSt.over) := by
  induction h with
  | nil => exact .nil
  | cons h1 h2 ih =>
    simp only [List.takeWhile_cons, over_eq h1]
    split
    · exact .cons h1 ih
    · exact .nil

theorem dropWhile_le {l l' : List (SelSt ε)} (h : Rel2 StLe l l') : Rel2 StLe (l.dropWhile SelSt.over) (l'.dropWhile SelSt.over) := by
  induction h with
  | nil => exact .nil
  | cons h1 h2 ih =>
    simp only [List.dropWhile_cons, over_eq h1]
    split
    · exact ih
    · exact .cons h1 h2

theorem selected_le {l l' : List (SelSt ε)} (h : Rel2 StLe l l') : (l.filter (·.selected)).length = (l'.filter (·.selected)).length := by
  induction h with
  | nil => rfl
  | cons h1 h2 ih =>
    simp only [List.filter_cons, h1.selected]
    split
    · simp [ih]
    · exact ih

theorem dispatchLive_le {fol fol' : Stack ε → φ → Val → IProg ε (Stack ε × φ × Bool)} (hf : FolLe fol fol') (x : Val) (n : Nat) (c : Bool) {l l' : List (SelSt ε)}
    (h : Rel2 StLe l l') {ds ds' : Stack ε} (hd : Rel2 DispLe ds ds') (q : φ) : LeP LoopLe (dispatchLive fin fol x n c l ds q) (dispatchLive fin fol' x n c l' ds' q) := by
  cases h with
  | nil => exact .ret ⟨⟨rfl, .nil⟩, hd, rfl⟩
  | @cons st st' rest rest' h1 h2 =>
    simp only [dispatchLive]
    rw [h1.sel.reverses, h1.pending]
    refine LeP.bind (R := fun (a b : SelSt ε × Stack ε × φ × Bool) => StLe a.1 b.1 ∧ ResLe a.2 b.2) ?_ ?_
    · refine ite_le (fun _ => .ret ⟨h1, hd, rfl⟩) fun _ => (flushSt_le h1 true hd q).bind ?_
      rintro ⟨a, q1, b⟩ ⟨a', q1', b'⟩ ⟨hab, he⟩
      simp only [Prod.mk.injEq] at he
      obtain ⟨rfl, rfl⟩ := he
      exact .ret ⟨⟨h1.sel, h1.selected, rfl, h1.done⟩, hab, rfl⟩
    · rintro ⟨s, a, q1, b⟩ ⟨s', a', q1', b'⟩ ⟨hs, hab, he⟩
      simp only [Prod.mk.injEq] at he
      obtain ⟨rfl, rfl⟩ := he
      simp only
      refine ite_le (fun _ => ite_le (fun _ => ?_) fun _ => .ret ⟨⟨rfl, .cons hs h2⟩, hab, rfl⟩) fun _ => .ret ⟨⟨rfl, .cons hs h2⟩, hab, rfl⟩
      have hs' : s.selected = s'.selected := hs.selected
      have hd' : DispLe ⟨decide (n > 1) || !s.selected, s :: rest⟩ ⟨decide (n > 1) || !s'.selected, s' :: rest'⟩ := ⟨by simp only [hs'], .cons hs h2⟩
      refine (hf _ _ q1 x (.cons hd' hab)).bind ?_
      rintro ⟨a, q1, b⟩ ⟨a', q1', b'⟩ ⟨hab, he⟩
      simp only [Prod.mk.injEq] at he
      obtain ⟨rfl, rfl⟩ := he
      cases hab with
      | nil => exact .fail _
      | cons h5 h6 => exact .ret ⟨h5, h6, rfl⟩

theorem dispatchItem_le {fol fol' : Stack ε → φ → Val → IProg ε (Stack ε × φ × Bool)} (hf : FolLe fol fol') {dec dec' : Sel (CondP ε) → Decision}
    (hd : ∀ s s', SelLe s s' → dec s = dec' s') (x : Val) {d d' : Disp ε} (h : DispLe d d') {ds ds' : Stack ε} (hds : Rel2 DispLe ds ds') (q : φ) :
    LeP LoopLe (dispatchItem fin fol dec x d ds q) (dispatchItem fin fol' dec' x d' ds' q) := by
  unfold dispatchItem
  refine (decideAll_le hd x h.states).bind fun l l' hl => (flushAll_le (takeWhile_le hl) true hds q).bind ?_
  rintro ⟨a, q1, b⟩ ⟨a', q1', b'⟩ ⟨hab, he⟩
  simp only [Prod.mk.injEq] at he
  obtain ⟨rfl, rfl⟩ := he
  simp only
  rw [h.clone, selected_le hl]
  exact ite_le (fun _ => dispatchLive_le hf x _ _ (dropWhile_le hl) hab q1) fun _ => .ret ⟨⟨rfl, dropWhile_le hl⟩, hab, rfl⟩

theorem states_isEmpty {d d' : Disp ε} (h : DispLe d d') : d.states.isEmpty = d'.states.isEmpty := by
  have := h.states
  revert this
  generalize d.states = l
  generalize d'.states = l'
  intro h
  cases h <;> rfl

theorem roundEnd_le (desc : Bool) {self self' : Stack ε → φ → Val → IProg ε (Stack ε × φ × Bool)} (hs : FolLe self self') (p : Val × Option Nat)
    {r r' : Disp ε × Stack ε × φ × Bool} (h : LoopLe r r') :
    LeP (fun a b => a.1 = b.1 ∧ LoopLe a.2 b.2) (roundEnd desc self p r) (roundEnd desc self' p r') := by
  obtain ⟨d, a, q1, b⟩ := r
  obtain ⟨d', a', q1', b'⟩ := r'
  obtain ⟨hd, hab, he⟩ := h
  simp only [Prod.mk.injEq] at he
  obtain ⟨rfl, rfl⟩ := he
  unfold roundEnd
  simp only at hd hab ⊢
  refine ite_le (fun _ => ite_le (fun _ => (hs _ _ q1 p.1 hab).bind ?_) fun _ => ?_) fun _ => (LeP.rfl' _).bindEq fun _ => .ret ⟨rfl, hd, hab, rfl⟩
  · rintro ⟨a, q1, b⟩ ⟨a', q1', b'⟩ ⟨hab, he⟩
    simp only [Prod.mk.injEq] at he
    obtain ⟨rfl, rfl⟩ := he
    exact (LeP.rfl' _).bindEq fun _ => .ret ⟨rfl, hd, hab, rfl⟩
  · rw [states_isEmpty hd]
    exact .ret ⟨rfl, hd, hab, rfl⟩

section
variable {fol fol' self self' : Stack ε → φ → Val → IProg ε (Stack ε × φ × Bool)}

theorem objRelaxed_le (desc : Bool) (hf : FolLe fol fol') (hs : FolLe self self') (i : Nat) : ∀ {f g : Nat}, f ≤ g → ∀ {d d' : Disp ε}, DispLe d d' →
    ∀ {ds ds' : Stack ε}, Rel2 DispLe ds ds' → ∀ q, LeP LoopLe (objRelaxed fin desc fol self i f d ds q) (objRelaxed fin desc fol' self' i g d' ds' q)
  | 0, g, _, _, _, _, _, _, _, _ => .fuel _
  | f + 1, 0, hfg, _, _, _, _, _, _, _ => by omega
  | f + 1, g + 1, hfg, d, d', hd, ds, ds', hds, q => by
    simp only [objRelaxed]
    refine .op fun more => ite_le (fun _ => .op fun kv => ?_) fun _ => .ret ⟨hd, hds, rfl⟩
    split
    · refine (LeP.rfl' _).bindEq fun p => ?_
      split
      · exact .fail _
      · refine (dispatchItem_le hf (fun s s' h => h.fromKey _) _ hd hds q).bind fun r r' hr => (roundEnd_le desc hs p hr).bind ?_
        rintro ⟨c, d, a, q1, b⟩ ⟨c', d', a', q1', b'⟩ ⟨hc, hd, hab, he⟩
        simp only [Prod.mk.injEq] at he hc
        obtain ⟨rfl, rfl⟩ := he
        subst hc
        exact ite_le (fun _ => objRelaxed_le desc hf hs i (by omega) hd hab _) fun _ => .ret ⟨hd, hab, rfl⟩
    · exact .fail _

theorem arrRelaxed_le (desc : Bool) (hf : FolLe fol fol') (hs : FolLe self self') (i : Nat) (ahead : Option Nat) : ∀ {f g : Nat}, f ≤ g → ∀ (index neg : Int)
    {d d' : Disp ε}, DispLe d d' → ∀ {ds ds' : Stack ε}, Rel2 DispLe ds ds' → ∀ q,
    LeP LoopLe (arrRelaxed fin desc fol self i ahead f index neg d ds q) (arrRelaxed fin desc fol' self' i ahead g index neg d' ds' q)
  | 0, g, _, _, _, _, _, _, _, _, _, _ => .fuel _
  | f + 1, 0, hfg, _, _, _, _, _, _, _, _, _ => by omega
  | f + 1, g + 1, hfg, index, neg, d, d', hd, ds, ds', hds, q => by
    simp only [arrRelaxed]
    refine .op fun more => ite_le (fun _ => .op fun kv => ?_) fun _ => .ret ⟨hd, hds, rfl⟩
    split
    · refine (LeP.rfl' _).bindEq fun p => ?_
      refine (dispatchItem_le hf (fun s s' h => h.fromIndex _ _) _ hd hds q).bind fun r r' hr => ?_
      rw [show r.2.2.2 = r'.2.2.2 by rw [hr.2.2]]
      refine ite_le (fun _ => (LeP.rfl' _).bindEq fun neg => (roundEnd_le desc hs p hr).bind ?_) (fun _ => (roundEnd_le desc hs p hr).bind ?_)
      · rintro ⟨c, d, a, q1, b⟩ ⟨c', d', a', q1', b'⟩ ⟨hc, hd, hab, he⟩
        simp only [Prod.mk.injEq] at he hc
        obtain ⟨rfl, rfl⟩ := he
        subst hc
        exact ite_le (fun _ => arrRelaxed_le desc hf hs i ahead (by omega) _ _ hd hab _) fun _ => .ret ⟨hd, hab, rfl⟩
      · intro a b hab; exact .ret hab.2
    · exact .fail _

theorem objStrict_le (hf : FolLe fol fol') (i : Nat) : ∀ {f g : Nat}, f ≤ g → ∀ {d d' : Disp ε}, DispLe d d' →
    ∀ {ds ds' : Stack ε}, Rel2 DispLe ds ds' → ∀ q, LeP LoopLe (objStrict fin fol i f d ds q) (objStrict fin fol' i g d' ds' q)
  | 0, g, _, _, _, _, _, _, _, _ => .fuel _
  | f + 1, 0, hfg, _, _, _, _, _, _, _ => by omega
  | f + 1, g + 1, hfg, d, d', hd, ds, ds', hds, q => by
    simp only [objStrict]
    refine .op fun more => ite_le (fun _ => .op fun kv => ?_) fun _ => .ret ⟨hd, hds, rfl⟩
    split
    · split
      · exact .fail _
      · refine (dispatchItem_le hf (fun s s' h => h.fromKey _) _ hd hds q).bind ?_
        rintro ⟨d, a, q1, b⟩ ⟨d', a', q1', b'⟩ ⟨hd, hab, he⟩
        simp only [Prod.mk.injEq] at he
        obtain ⟨rfl, rfl⟩ := he
        simp only
        rw [states_isEmpty hd]
        exact ite_le (fun _ => objStrict_le hf i (by omega) hd hab _) fun _ => .ret ⟨hd, hab, rfl⟩
    · exact .fail _

theorem arrStrict_le (hf : FolLe fol fol') (i : Nat) (ahead : Option Nat) : ∀ {f g : Nat}, f ≤ g → ∀ (index neg : Int)
    {d d' : Disp ε}, DispLe d d' → ∀ {ds ds' : Stack ε}, Rel2 DispLe ds ds' → ∀ q,
    LeP LoopLe (arrStrict fin fol i ahead f index neg d ds q) (arrStrict fin fol' i ahead g index neg d' ds' q)
  | 0, g, _, _, _, _, _, _, _, _, _, _ => .fuel _
  | f + 1, 0, hfg, _, _, _, _, _, _, _, _, _ => by omega
  | f + 1, g + 1, hfg, index, neg, d, d', hd, ds, ds', hds, q => by
    simp only [arrStrict]
    refine .op fun more => ite_le (fun _ => .op fun kv => ?_) fun _ => .ret ⟨hd, hds, rfl⟩
    split
    · refine (dispatchItem_le hf (fun s s' h => h.fromIndex _ _) _ hd hds q).bind ?_
      rintro ⟨d, a, q1, b⟩ ⟨d', a', q1', b'⟩ ⟨hd, hab, he⟩
      simp only [Prod.mk.injEq] at he
      obtain ⟨rfl, rfl⟩ := he
      simp only
      rw [states_isEmpty hd]
      exact ite_le (fun _ => (LeP.rfl' _).bindEq fun neg => ite_le (fun _ => .ret ⟨hd, hab, rfl⟩) fun _ => arrStrict_le hf i ahead (by omega) _ _ hd hab _)
        fun _ => .ret ⟨hd, hab, rfl⟩
    · exact .fail _

theorem descend_le (hs : FolLe self self') (i : Nat) : ∀ {f g : Nat}, f ≤ g → ∀ {ds ds' : Stack ε}, Rel2 DispLe ds ds' → ∀ q,
    LeP ResLe (descend self i f ds q) (descend self' i g ds' q)
  | 0, g, _, _, _, _, _ => .fuel _
  | f + 1, 0, hfg, _, _, _, _ => by omega
  | f + 1, g + 1, hfg, ds, ds', hds, q => by
    simp only [descend]
    refine .op fun more => ite_le (fun _ => .op fun kv => ?_) fun _ => .ret ⟨hds, rfl⟩
    split
    · refine (hs _ _ _ _ hds).bind ?_
      rintro ⟨a, q1, b⟩ ⟨a', q1', b'⟩ ⟨hab, he⟩
      simp only [Prod.mk.injEq] at he
      obtain ⟨rfl, rfl⟩ := he
      exact ite_le (fun _ => descend_le hs i (by omega) hab _) fun _ => .ret ⟨hab, rfl⟩
    · exact .fail _

theorem finish_le {r r' : Disp ε × Stack ε × φ × Bool} (h : LoopLe r r') : LeP ResLe (finish fin r) (finish fin r') := by
  obtain ⟨d, a, q1, b⟩ := r
  obtain ⟨d', a', q1', b'⟩ := r'
  obtain ⟨hd, hab, he⟩ := h
  simp only [Prod.mk.injEq] at he
  obtain ⟨rfl, rfl⟩ := he
  refine (flushAll_le hd.states _ hab _).bind ?_
  rintro ⟨a, q1, b⟩ ⟨a', q1', b'⟩ ⟨hab, he⟩
  simp only [Prod.mk.injEq] at he
  obtain ⟨rfl, rfl⟩ := he
  exact .ret ⟨hab, rfl⟩

theorem lookLoop_le (la : Int) (a : Nat) : ∀ {f g : Nat}, f ≤ g → ∀ neg, LeP Eq (lookLoop la a f neg : IProg ε _) (lookLoop la a g neg)
  | 0, g, _, _ => .fuel _
  | f + 1, 0, hfg, _ => by omega
  | f + 1, g + 1, hfg, neg => by
    simp only [lookLoop]
    exact ite_le (fun _ => .op fun more => ite_le (fun _ => lookLoop_le la a (by omega) _) fun _ => .rfl' _) fun _ => .rfl' _

theorem lookStart_le (la : Int) (i : Nat) {f g : Nat} (h : f ≤ g) : LeP Eq (lookStart la i f : IProg ε _) (lookStart la i g) := by
  unfold lookStart
  refine ite_le (fun _ => .op fun p => ?_) fun _ => .rfl' _
  split
  · exact (lookLoop_le la _ h 0).bindEq fun _ => .rfl' _
  · exact .fail _

theorem strictEnd_le (desc : Bool) (hs : FolLe self self') (p : Val × Option Nat) {f g : Nat} (hfg : f ≤ g) {r r' : Disp ε × Stack ε × φ × Bool} (h : LoopLe r r') :
    LeP LoopLe (strictEnd desc self p f r) (strictEnd desc self' p g r') := by
  obtain ⟨d, a, q1, b⟩ := r
  obtain ⟨d', a', q1', b'⟩ := r'
  obtain ⟨hd, hab, he⟩ := h
  simp only [Prod.mk.injEq] at he
  obtain ⟨rfl, rfl⟩ := he
  unfold strictEnd
  simp only at hd hab ⊢
  refine ite_le (fun _ => ?_) fun _ => .ret ⟨hd, hab, rfl⟩
  split
  · exact (descend_le hs _ hfg hab _).bind fun a b hab => .ret ⟨hd, hab⟩
  · exact .fail _

end

/-- The same segment. -/
structure SegLe (s s' : Seg (CondP ε)) : Prop where
  desc : s.desc = s'.desc
  sels : Rel2 SelLe s.sels s'.sels

theorem newDisp_le {l l' : List (Sel (CondP ε))} (h : Rel2 SelLe l l') : DispLe (newDisp l) (newDisp l') := by
  refine ⟨rfl, ?_⟩
  unfold newDisp
  simp only
  induction h with
  | nil => exact .nil
  | cons h1 _ ih => exact .cons ⟨h1, rfl, rfl, rfl⟩ ih

theorem segLookahead_le' {l l' : List (Sel (CondP ε))} (h : Rel2 SelLe l l') : segLookahead l = segLookahead l' := by
  unfold segLookahead
  generalize (0 : Int) = z
  induction h generalizing z with
  | nil => rfl
  | cons h1 _ ih => simp only [List.foldl_cons, h1.lookahead]; exact ih _

theorem segP_le (strict : Bool) {F G : Nat} (hFG : F ≤ G) {seg seg' : Seg (CondP ε)} (hseg : SegLe seg seg')
    {fol fol' : Stack ε → φ → Val → IProg ε (Stack ε × φ × Bool)} (hf : FolLe fol fol') : ∀ {f g : Nat}, f ≤ g →
    FolLe (segP fin strict F seg fol f) (segP fin strict G seg' fol' g)
  | 0, g, _ => fun _ _ _ _ _ => .fuel _
  | f + 1, 0, hfg => by omega
  | f + 1, g + 1, hfg => by
    intro ds ds' q x hds
    have ih := segP_le strict hFG hseg hf (show f ≤ g by omega)
    simp only [segP]
    rw [hseg.desc, segLookahead_le' hseg.sels]
    split
    · refine ite_le (fun _ => (LeP.rfl' _).bindEq fun p => (objStrict_le hf _ hFG (newDisp_le hseg.sels) hds q).bind fun r r' hr =>
        (strictEnd_le _ ih p hFG hr).bind fun r r' hr => (LeP.rfl' _).bindEq fun _ => finish_le hr)
        fun _ => (objRelaxed_le _ hf ih _ hFG (newDisp_le hseg.sels) hds q).bind fun r r' hr => finish_le hr
    · refine (lookStart_le _ _ hFG).bindEq fun la => ite_le (fun _ => (LeP.rfl' _).bindEq fun p =>
        (arrStrict_le hf _ _ hFG _ _ (newDisp_le hseg.sels) hds q).bind fun r r' hr =>
        (strictEnd_le _ ih p hFG hr).bind fun r r' hr => (LeP.rfl' _).bindEq fun _ => (LeP.rfl' _).bindEq fun _ => finish_le hr)
        fun _ => (arrRelaxed_le _ hf ih _ _ hFG _ _ (newDisp_le hseg.sels) hds q).bind fun r r' hr => (LeP.rfl' _).bindEq fun _ => finish_le hr
    · exact .op fun _ => .ret ⟨hds, rfl⟩

theorem segsP_le (strict : Bool) {F G : Nat} (hFG : F ≤ G) {segs segs' : List (Seg (CondP ε))} (h : Rel2 SegLe segs segs') :
    FolLe (segsP fin strict F segs) (segsP fin strict G segs') := by
  induction h with
  | nil => intro ds ds' q x h; exact process_le h q x
  | cons h1 _ ih => exact segP_le strict hFG h1 ih hFG

/-! ## Comparables, functions, conditions -/

theorem singName_le (n : Bytes) (i : Nat) : ∀ {f g : Nat}, f ≤ g → LeP Eq (singName n i f : IProg ε _) (singName n i g)
  | 0, g, _ => .fuel _
  | f + 1, 0, hfg => by omega
  | f + 1, g + 1, hfg => by
    simp only [singName]
    refine .op fun more => ite_le (fun _ => .op fun kv => ?_) fun _ => .rfl' _
    split
    · split
      · exact .fail _
      · exact ite_le (fun _ => .rfl' _) fun _ => singName_le n i (by omega)
    · exact .fail _

theorem singIndexLoop_le (j : Int) (i : Nat) (ahead : Option Nat) : ∀ {f g : Nat}, f ≤ g → ∀ index neg,
    LeP Eq (singIndexLoop j i ahead f index neg : IProg ε _) (singIndexLoop j i ahead g index neg)
  | 0, g, _, _, _ => .fuel _
  | f + 1, 0, hfg, _, _ => by omega
  | f + 1, g + 1, hfg, index, neg => by
    simp only [singIndexLoop]
    refine .op fun more => ite_le (fun _ => .op fun kv => ?_) fun _ => .rfl' _
    split
    · exact .fail _
    · exact ite_le (fun _ => .rfl' _) fun _ => (LeP.rfl' _).bindEq fun _ => singIndexLoop_le j i ahead (by omega) _ _

theorem singIndex_le (j : Int) (i : Nat) {f g : Nat} (h : f ≤ g) : LeP Eq (singIndex j i f : IProg ε _) (singIndex j i g) := by
  unfold singIndex
  exact ite_le (fun _ => (lookStart_le _ _ h).bindEq fun la => (singIndexLoop_le j i _ h _ _).bindEq fun _ => .rfl' _) fun _ => singIndexLoop_le j i _ h _ _

theorem singEval_le {f g : Nat} (h : f ≤ g) : ∀ segs x, LeP Eq (singEval f segs x : IProg ε _) (singEval g segs x)
  | [], x => .rfl' _
  | seg :: segs, x => by
    simp only [singEval]
    refine LeP.bindEq ?_ fun r => ?_
    · split
      · exact singName_le _ _ h
      · exact singIndex_le _ _ h
      · exact .rfl' _
    · split
      · exact .rfl' _
      · exact singEval_le h segs _

/-- Comparables. -/
def CmpLe (c c' : CmpP ε) : Prop := ∀ x, LeP Eq (c x) (c' x)

theorem checkEqual_le {f g : Nat} (h : f ≤ g) : ∀ x y, LeP Eq (checkEqual f x y : IProg ε _) (checkEqual g x y)
  | some x, some y => valEqual_le h x y
  | none, none => .rfl' _
  | some _, none => .rfl' _
  | none, some _ => .rfl' _

theorem comparison_le {f g : Nat} (h : f ≤ g) {l l' r r' : CmpP ε} (hl : CmpLe l l') (hr : CmpLe r r') (eq lt neg : Bool) (x : Val) :
    LeP Eq (comparison f l eq lt neg r x) (comparison g l' eq lt neg r' x) := by
  unfold comparison compareVals
  exact .op fun _ => .op fun _ => (hl _).bindEq fun _ => (LeP.rfl' _).bindEq fun _ => (hr _).bindEq fun _ => (LeP.rfl' _).bindEq fun _ =>
    LeP.bindEq (LeP.bindEq (ite_le (fun _ => checkEqual_le h _ _) fun _ => .rfl' _) fun _ => .rfl' _) fun _ => .rfl' _

/-- Queries. -/
inductive QueryLe : QueryP ε → QueryP ε → Prop
  | run {segs segs'} : Rel2 SegLe segs segs' → QueryLe (.run segs) (.run segs')
  | inner (i) : QueryLe (.inner i) (.inner i)

theorem innerLoop_le (fin : φ → Val → IProg ε (φ × Bool)) (i : Nat) : ∀ {f g : Nat}, f ≤ g → ∀ q, LeP Eq (innerLoop fin i f q) (innerLoop fin i g q)
  | 0, g, _, _ => .fuel _
  | f + 1, 0, hfg, _ => by omega
  | f + 1, g + 1, hfg, q => by
    simp only [innerLoop]
    refine .op fun more => ite_le (fun _ => .op fun kv => ?_) fun _ => .rfl' _
    split
    · exact .fail _
    · exact (LeP.rfl' _).bindEq fun r => ite_le (fun _ => innerLoop_le fin i (by omega) _) fun _ => .rfl' _

/-- The same environment with more fuel. -/
def Env.more (e : Env) (g : Nat) : Env := { e with fuel := g }

theorem mapValue_le (e : Env) {g : Nat} (hg : e.fuel ≤ g) {q q' : QueryP ε} (h : QueryLe q q') (s : φ) (x : Val) :
    LeP Eq (mapValue e fin q s x) (mapValue (e.more g) fin q' s x) := by
  cases h with
  | run h =>
    refine (segsP_le (fin := fin) e.strict hg h [] [] s x .nil).bind ?_
    rintro a b ⟨-, hab⟩
    exact .ret hab
  | inner i =>
    show LeP Eq (mapValue e fin (.inner i) s x) (mapValue (e.more g) fin (.inner i) s x)
    simp only [mapValue]
    show LeP Eq (match e.ctx.queries[i]? with | none => _ | some h => _) (match e.ctx.queries[i]? with | none => _ | some h => _)
    split
    · exact .fail _
    · refine .op fun p => ?_
      split
      · exact (innerLoop_le fin _ hg s).bindEq fun _ => .rfl' _
      · exact .fail _

theorem queryTruth_le (e : Env) {g : Nat} (hg : e.fuel ≤ g) {q q' : QueryP ε} (h : QueryLe q q') (x : Val) :
    LeP Eq (queryTruth e q x) (queryTruth (e.more g) q' x) :=
  .op fun _ => (mapValue_le e hg h _ _).bindEq fun _ => .rfl' _

/-- Arguments. -/
inductive ArgLe : ArgP ε → ArgP ε → Prop
  | value {c c'} : CmpLe c c' → ArgLe (.value c) (.value c')
  | nodes {q q'} : QueryLe q q' → ArgLe (.nodes q) (.nodes q')

/-- Arguments that are evaluated. -/
inductive ArgVLe : ArgV ε → ArgV ε → Prop
  | value (x) : ArgVLe (.value x) (.value x)
  | nodes {q q'} (x) : QueryLe q q' → ArgVLe (.nodes q x) (.nodes q' x)

theorem countMembers_le (i : Nat) : ∀ {f g : Nat}, f ≤ g → ∀ n, LeP Eq (countMembers i f n : IProg ε _) (countMembers i g n)
  | 0, g, _, _ => .fuel _
  | f + 1, 0, hfg, _ => by omega
  | f + 1, g + 1, hfg, n => .op fun more => ite_le (fun _ => countMembers_le i (by omega) _) fun _ => .rfl' _

theorem runLength_le {f g : Nat} (h : f ≤ g) (x : Option Val) : LeP Eq (runLength f x : IProg ε _) (runLength g x) := by
  unfold runLength
  split
  · exact (countMembers_le _ h 0).bindEq fun _ => .rfl' _
  · exact (countMembers_le _ h 0).bindEq fun _ => .rfl' _
  · exact .rfl' _
  · exact .rfl' _

theorem rel2_argV {l l' : List (ArgV ε)} (h : Rel2 ArgVLe l l') {a b : ArgV ε} (hab : ArgVLe a b) : Rel2 ArgVLe (l ++ [a]) (l' ++ [b]) := by
  induction h with
  | nil => exact .cons hab .nil
  | cons h1 _ ih => exact .cons h1 ih

theorem runFn_le (e : Env) {g : Nat} (hg : e.fuel ≤ g) (f : Fn) {vs vs' : List (ArgV ε)} (h : Rel2 ArgVLe vs vs') :
    LeP Eq (runFn e f vs) (runFn (e.more g) f vs') := by
  cases h with
  | nil => cases f <;> exact .fail _
  | cons h1 h2 =>
    cases h2 with
    | nil =>
      cases h1 with
      | value x =>
        cases f with
        | length => exact runLength_le hg x
        | _ => exact .fail _
      | nodes x hq =>
        cases f with
        | count => exact (mapValue_le e hg hq _ _).bindEq fun _ => .rfl' _
        | value => exact (mapValue_le e hg hq _ _).bindEq fun _ => .rfl' _
        | _ => exact .fail _
    | cons h3 h4 =>
      cases h4 with
      | nil =>
        cases h1 with
        | value x =>
          cases h3 with
          | value y => cases f <;> exact .rfl' _
          | nodes y hq => cases f <;> exact .fail _
        | nodes x hq => cases h3 <;> cases f <;> exact .fail _
      | cons => cases h1 <;> cases h3 <;> cases f <;> exact .fail _

theorem runArgs_le (e : Env) {g : Nat} (hg : e.fuel ≤ g) (f : Fn) (x : Val) {l l' : List (ArgP ε)} (h : Rel2 ArgLe l l') :
    ∀ {vs vs' : List (ArgV ε)}, Rel2 ArgVLe vs vs' → LeP Eq (runArgs e f x l vs) (runArgs (e.more g) f x l' vs') := by
  induction h with
  | nil => intro vs vs' hv; exact runFn_le e hg f hv
  | cons h1 _ ih =>
    intro vs vs' hv
    cases h1 with
    | value hc => exact .op fun _ => (hc _).bindEq fun y => (ih (rel2_argV hv (.value y))).bindEq fun _ => .rfl' _
    | nodes hq => exact ih (rel2_argV hv (.nodes x hq))

theorem fnTruth_le (e : Env) {g : Nat} (hg : e.fuel ≤ g) (f : Fn) {l l' : List (ArgP ε)} (h : Rel2 ArgLe l l') (x : Val) :
    LeP Eq (fnTruth e f l x) (fnTruth (e.more g) f l' x) := (runArgs_le e hg f x h .nil).bindEq fun _ => .rfl' _

theorem fnValue_le (e : Env) {g : Nat} (hg : e.fuel ≤ g) (f : Fn) {l l' : List (ArgP ε)} (h : Rel2 ArgLe l l') (x : Val) :
    LeP Eq (fnValue e f l x) (fnValue (e.more g) f l' x) := (runArgs_le e hg f x h .nil).bindEq fun _ => .rfl' _

/-- Conditions. -/
def CondLe (c c' : CondP ε) : Prop := ∀ x, LeP Eq (c x) (c' x)

theorem orP_le {l l' : List (CondP ε)} (h : Rel2 CondLe l l') : CondLe (orP l) (orP l') := by
  induction h with
  | nil => intro x; exact .rfl' _
  | cons h1 _ ih => intro x; exact (h1 x).bindEq fun b => ite_le (fun _ => .rfl' _) fun _ => ih x

theorem andP_le {l l' : List (CondP ε)} (h : Rel2 CondLe l l') : CondLe (andP l) (andP l') := by
  induction h with
  | nil => intro x; exact .rfl' _
  | cons h1 _ ih => intro x; exact (h1 x).bindEq fun b => ite_le (fun _ => ih x) fun _ => .rfl' _

mutual
theorem condP_le (e : Env) {g : Nat} (hg : e.fuel ≤ g) : ∀ c : CondR, CondLe (ε := ε) (condP e c) (condP (e.more g) c)
  | .or l => by rw [condP, condP]; exact orP_le (condsP_le e hg l)
  | .and l => by rw [condP, condP]; exact andP_le (condsP_le e hg l)
  | .not c => by rw [condP, condP]; exact fun x => (condP_le e hg c x).bindEq fun _ => .rfl' _
  | .cmp l eq lt neg r => by rw [condP, condP]; exact fun x => comparison_le hg (cmpP_le e hg l) (cmpP_le e hg r) eq lt neg x
  | .query q => by rw [condP, condP]; exact queryTruth_le e hg (queryP_le e hg q)
  | .func f args => by rw [condP, condP]; exact fnTruth_le e hg f (argsP_le e hg args)
theorem condsP_le (e : Env) {g : Nat} (hg : e.fuel ≤ g) : ∀ l : List CondR, Rel2 (CondLe (ε := ε)) (condsP e l) (condsP (e.more g) l)
  | [] => by rw [condsP, condsP]; exact .nil
  | c :: l => by rw [condsP, condsP]; exact .cons (condP_le e hg c) (condsP_le e hg l)
theorem queryP_le (e : Env) {g : Nat} (hg : e.fuel ≤ g) : ∀ q : QueryR, QueryLe (ε := ε) (queryP e q) (queryP (e.more g) q)
  | .run segs => by rw [queryP, queryP]; exact .run (segsR_le e hg segs)
  | .inner i => by rw [queryP, queryP]; exact .inner i
theorem segsR_le (e : Env) {g : Nat} (hg : e.fuel ≤ g) : ∀ l : List SegR, Rel2 (SegLe (ε := ε)) (segsR e l) (segsR (e.more g) l)
  | [] => by rw [segsR, segsR]; exact .nil
  | c :: l => by rw [segsR, segsR]; exact .cons (segR_le e hg c) (segsR_le e hg l)
theorem segR_le (e : Env) {g : Nat} (hg : e.fuel ≤ g) : ∀ s : SegR, SegLe (ε := ε) (segR e s) (segR (e.more g) s)
  | .mk desc sels => by rw [segR, segR]; exact ⟨rfl, selsR_le e hg sels⟩
theorem selsR_le (e : Env) {g : Nat} (hg : e.fuel ≤ g) : ∀ l : List (Sel CondR), Rel2 (SelLe (ε := ε)) (selsR e l) (selsR (e.more g) l)
  | [] => by rw [selsR, selsR]; exact .nil
  | c :: l => by rw [selsR, selsR]; exact .cons (selR_le e hg c) (selsR_le e hg l)
theorem selR_le (e : Env) {g : Nat} (hg : e.fuel ≤ g) : ∀ s : Sel CondR, SelLe (ε := ε) (selR e s) (selR (e.more g) s)
  | .default => by rw [selR, selR]; exact .default
  | .name n => by rw [selR, selR]; exact .name n
  | .wild => by rw [selR, selR]; exact .wild
  | .index i => by rw [selR, selR]; exact .index i
  | .slice a b c => by rw [selR, selR]; exact .slice a b c
  | .rslice a b c => by rw [selR, selR]; exact .rslice a b c
  | .filter c => by rw [selR, selR]; exact .filter (condP_le e hg c)
theorem cmpP_le (e : Env) {g : Nat} (hg : e.fuel ≤ g) : ∀ c : CmpR, CmpLe (ε := ε) (cmpP e c) (cmpP (e.more g) c)
  | .lit l => by rw [cmpP, cmpP]; exact fun _ => .rfl' _
  | .sing segs => by rw [cmpP, cmpP]; exact fun x => singEval_le hg segs x
  | .inner i => by rw [cmpP, cmpP]; exact fun _ => .rfl' _
  | .func f args => by rw [cmpP, cmpP]; exact fnValue_le e hg f (argsP_le e hg args)
theorem argsP_le (e : Env) {g : Nat} (hg : e.fuel ≤ g) : ∀ l : List ArgR, Rel2 (ArgLe (ε := ε)) (argsP e l) (argsP (e.more g) l)
  | [] => by rw [argsP, argsP]; exact .nil
  | c :: l => by rw [argsP, argsP]; exact .cons (argP_le e hg c) (argsP_le e hg l)
theorem argP_le (e : Env) {g : Nat} (hg : e.fuel ≤ g) : ∀ a : ArgR, ArgLe (ε := ε) (argP e a) (argP (e.more g) a)
  | .value c => by rw [argP, argP]; exact .value (cmpP_le e hg c)
  | .nodes q => by rw [argP, argP]; exact .nodes (queryP_le e hg q)
end

/-! ## The main loop -/

theorem singCtx_le {f g : Nat} (h : f ≤ g) (x : Val) : ∀ l vs, LeP Eq (singCtx f x l vs : IProg ε _) (singCtx g x l vs)
  | [], vs => .rfl' _
  | segs :: l, vs => by
    simp only [singCtx]
    refine .op fun p => (singEval_le h segs _).bindEq fun y => ?_
    split
    · exact .fail _
    · exact (LeP.rfl' _).bindEq fun _ => singCtx_le h x l _
    · refine .op fun ts => .op fun it => .op fun _ => .op fun kv => ?_
      split
      · exact .fail _
      · exact (LeP.rfl' _).bindEq fun _ => singCtx_le h x l _

theorem queryCtx_le (lib : Lib) (strict : Bool) {f g : Nat} (h : f ≤ g) (x : Val) : ∀ l ctx,
    LeP Eq (queryCtx lib strict f x l ctx : IProg ε _) (queryCtx lib strict g x l ctx)
  | [], ctx => .rfl' _
  | segs :: l, ctx => by
    simp only [queryCtx]
    exact .op fun p => (mapValue_le ⟨lib, strict, f, ctx⟩ h (queryP_le ⟨lib, strict, f, ctx⟩ h _) _ _).bindEq fun r => .op fun it =>
      (LeP.rfl' _).bindEq fun _ => queryCtx_le lib strict h x l _

theorem runValue_le (lib : Lib) (strict : Bool) {f g : Nat} (h : f ≤ g) (r : MainR) (x : Val) :
    LeP Eq (runValue lib strict f r x) (runValue lib strict g r x) := by
  unfold runValue runContext
  exact LeP.bindEq ((singCtx_le h x _ _).bindEq fun _ => queryCtx_le lib strict h x _ _) fun ctx =>
    (mapValue_le ⟨lib, strict, f, ctx⟩ h (queryP_le ⟨lib, strict, f, ctx⟩ h _) _ _).bindEq fun _ => .rfl' _

theorem runQuery_le (lib : Lib) (strict : Bool) {f g : Nat} (h : f ≤ g) (r : MainR) : ∀ {n m : Nat}, n ≤ m →
    LeP Eq (runQuery lib strict f r n) (runQuery lib strict g r m)
  | 0, m, _ => .fuel _
  | n + 1, 0, hnm => by omega
  | n + 1, m + 1, hnm => by
    simp only [runQuery]
    refine .op fun more => ite_le (fun _ => .op fun kv => ?_) fun _ => .rfl' _
    split
    · exact .fail _
    · exact (runValue_le lib strict h r _).bindEq fun _ => runQuery_le lib strict h r (by omega)

/-- With more fuel the run is the same, unless the first one ends for want of fuel. -/
theorem runQuery_more {σ : Type} (m : IMach σ) (s : σ) (lib : Lib) (strict : Bool) (r : MainR) {f g n k : Nat} (hf : f ≤ g) (hn : n ≤ k)
    (h : ((runQuery lib strict f r n).run m s).2 ≠ .error .fuel) : (runQuery lib strict g r k).run m s = (runQuery lib strict f r n).run m s :=
  (runQuery_le lib strict hf r hn).run_eq m s h

end JPath
end Verif
