import Verif.Origin

/-!
# Queries write what they read

The engine of queries only passes on values that it has read: the values kept for later, those handed to the following segment and to the final
processor.  Literals and results of functions are only compared.
-/

set_option linter.unusedSimpArgs false
set_option linter.unusedVariables false

namespace Verif.Origin
open IProg JPath

variable {ε φ α β : Type} {P : Token → Prop} {E : ε → Prop}

/-! ## Equality -/

theorem safeEqual_says {eq : Val → Val → IProg ε Bool} (h : ∀ x y, Says P E (eq x y) fun _ => True) (x y : Val) :
    Says P E (safeEqual eq x y) fun _ => True := by
  unfold safeEqual
  exact .clone fun _ _ => .clone fun _ _ => (h _ _).next fun _ => (detachOpt_says _).next fun _ => (detachOpt_says _).next fun _ => .ret trivial

theorem arrEqual_says {eq : Val → Val → IProg ε Bool} (h : ∀ x y, Says P E (eq x y) fun _ => True) (i j : Nat) :
    ∀ f, Says P E (arrEqual eq i j f) fun _ => True
  | 0 => .fail
  | f + 1 => by
    rw [arrEqual]
    refine .adv fun a => ?_
    split
    · refine .adv fun b => ?_
      split
      · refine .cur fun x _ => .cur fun y _ => ?_
        split
        · refine (h _ _).next fun c => ?_
          split
          · exact arrEqual_says h i j f
          · exact .ret trivial
        · exact .fail
      · exact .ret trivial
    · exact .adv fun b => .ret trivial

theorem seekRight_says {eq : Val → Val → IProg ε Bool} (h : ∀ x y, Says P E (eq x y) fun _ => True) (key : Scalar) (val : Val) (j : Nat) :
    ∀ f ps, Says P E (seekRight eq key val j f ps) fun _ => True
  | 0, _ => .fail
  | f + 1, ps => by
    rw [seekRight]
    refine .adv fun b => ?_
    split
    · refine .cur fun kv _ => ?_
      split
      · split
        · exact .fail
        · exact (safeEqual_says h _ _).next fun _ => .ret trivial
        · exact .clone fun _ _ => seekRight_says h key val j f _
      · exact .fail
    · exact .ret trivial

theorem objLoop_says {eq : Val → Val → IProg ε Bool} (h : ∀ x y, Says P E (eq x y) fun _ => True) (i j g : Nat) :
    ∀ f ps, Says P E (objLoop eq i j g f ps) fun _ => True
  | 0, _ => .fail
  | f + 1, ps => by
    rw [objLoop]
    refine .adv fun b => ?_
    split
    · refine .cur fun kv _ => ?_
      split
      · split
        · exact .fail
        · split
          · exact .fail
          · refine (safeEqual_says h _ _).next fun c => ?_
            split
            · exact (detachOpt_says _).next fun _ => objLoop_says h i j g f _
            · exact .ret trivial
        · refine (seekRight_says h _ _ j g ps).next fun r => ?_
          split
          · exact objLoop_says h i j g f _
          · exact .ret trivial
      · exact .fail
    · split
      · exact .adv fun _ => .ret trivial
      · exact .ret trivial

theorem detachAll_says : ∀ l, Says P E (detachAll l) fun _ => True
  | [] => .ret trivial
  | p :: l => (detachOpt_says _).next fun _ => detachAll_says l

theorem valEqual_says : ∀ f x y, Says P E (valEqual f x y) fun _ => True
  | 0, _, _ => .fail
  | f + 1, x, y => by
    rw [valEqual.eq_def]
    simp only
    split
    · split
      · exact .fail
      · exact .ret trivial
    · exact arrEqual_says (valEqual_says f) _ _ _
    · exact (objLoop_says (valEqual_says f) _ _ _ _ _).next fun r => (detachAll_says _).next fun _ => .ret trivial
    · exact .ret trivial

/-! ## The engine -/

/-- A condition keeps the property. -/
def CondSays (P : Token → Prop) (E : ε → Prop) (c : CondP ε) : Prop := ∀ x, ValOk P x → Says P E (c x) fun _ => True

/-- The conditions of a selector keep the property. -/
def SelOk (P : Token → Prop) (E : ε → Prop) : Sel (CondP ε) → Prop
  | .filter c => CondSays P E c
  | _ => True

/-- The values kept have the property. -/
structure StOk (P : Token → Prop) (E : ε → Prop) (st : SelSt ε) : Prop where
  sel : SelOk P E st.sel
  pending : ∀ p ∈ st.pending, ValOk P p.1

/-- The same for lists of states. -/
def StsOk (P : Token → Prop) (E : ε → Prop) (l : List (SelSt ε)) : Prop := ∀ st ∈ l, StOk P E st

/-- The same for the stack. -/
def StackOk (P : Token → Prop) (E : ε → Prop) (ds : Stack ε) : Prop := ∀ d ∈ ds, StsOk P E d.states

theorem StsOk.cons {st : SelSt ε} {l : List (SelSt ε)} (h : StOk P E st) (h' : StsOk P E l) : StsOk P E (st :: l) := by
  intro s hs
  rcases List.mem_cons.1 hs with rfl | hs
  · exact h
  · exact h' s hs

theorem StsOk.head {st : SelSt ε} {l : List (SelSt ε)} (h : StsOk P E (st :: l)) : StOk P E st := h _ (by simp)

theorem StsOk.tail {st : SelSt ε} {l : List (SelSt ε)} (h : StsOk P E (st :: l)) : StsOk P E l := fun s hs => h s (List.mem_cons_of_mem _ hs)

theorem StackOk.cons {d : Disp ε} {ds : Stack ε} (h : StsOk P E d.states) (h' : StackOk P E ds) : StackOk P E (d :: ds) := by
  intro s hs
  rcases List.mem_cons.1 hs with rfl | hs
  · exact h
  · exact h' s hs

theorem StackOk.head {d : Disp ε} {ds : Stack ε} (h : StackOk P E (d :: ds)) : StsOk P E d.states := h _ (by simp)

theorem StackOk.tail {d : Disp ε} {ds : Stack ε} (h : StackOk P E (d :: ds)) : StackOk P E ds := fun s hs => h s (List.mem_cons_of_mem _ hs)

theorem StOk.push {st : SelSt ε} {p : Val × Option Nat} (h : StOk P E st) (hp : ValOk P p.1) : StOk P E { st with pending := st.pending ++ [p] } := by
  refine ⟨h.sel, ?_⟩
  intro q hq
  simp only [List.mem_append, List.mem_singleton] at hq
  rcases hq with hq | rfl
  · exact h.pending q hq
  · exact hp

theorem cloneIf_says {c : Bool} {x : Val} (hx : ValOk P x) : Says P E (cloneIf c x : IProg ε _) fun p => ValOk P p.1 := by
  unfold cloneIf
  split
  · exact .clone fun r hr => .ret (hr hx)
  · exact .ret hx

theorem cloneDesc_says {c : Bool} {x : Val} (hx : ValOk P x) : Says P E (cloneDesc c x : IProg ε _) fun p => ValOk P p.1 := by
  unfold cloneDesc
  split
  · exact .clone fun r hr => .ret (hr hx)
  · exact .ret hx

theorem appendAll_says {c : Bool} {x : Val} (hx : ValOk P x) : ∀ {l : List (SelSt ε)}, StsOk P E l → Says P E (appendAll c x l) (StsOk P E)
  | [], h => .ret h
  | st :: l, h => by
    rw [appendAll]
    split
    · exact (cloneIf_says hx).bind fun p hp => (appendAll_says hx h.tail).bind fun l' hl => .ret (.cons (h.head.push hp) hl)
    · exact (appendAll_says hx h.tail).bind fun l' hl => .ret (.cons h.head hl)

/-- A final processor: `S` is what is known of its state. -/
def FinOk (P : Token → Prop) (E : ε → Prop) (S : φ → Prop) (fin : φ → Val → IProg ε (φ × Bool)) : Prop :=
  ∀ q x, S q → ValOk P x → Says P E (fin q x) fun r => S r.1

/-- What is known of the results of the engine. -/
def ResOk (P : Token → Prop) (E : ε → Prop) (S : φ → Prop) (r : Stack ε × φ × Bool) : Prop := StackOk P E r.1 ∧ S r.2.1

/-- The same with a dispatcher. -/
def DResOk (P : Token → Prop) (E : ε → Prop) (S : φ → Prop) (r : Disp ε × Stack ε × φ × Bool) : Prop :=
  StsOk P E r.1.states ∧ StackOk P E r.2.1 ∧ S r.2.2.1

/-- What is done with a value. -/
def FollowOk (P : Token → Prop) (E : ε → Prop) (S : φ → Prop) (follow : Stack ε → φ → Val → IProg ε (Stack ε × φ × Bool)) : Prop :=
  ∀ ds q x, StackOk P E ds → S q → ValOk P x → Says P E (follow ds q x) (ResOk P E S)

variable {S : φ → Prop} {fin : φ → Val → IProg ε (φ × Bool)}

theorem process_says (hfin : FinOk P E S fin) : FollowOk P E S (process fin)
  | [], q, x, _, hq, hx => by
    rw [process]
    exact (hfin q x hq hx).bind fun r hr => .ret ⟨fun _ h => (by cases h), hr⟩
  | d :: ds, q, x, hd, hq, hx => by
    rw [process]
    split
    · exact .ret ⟨hd, hq⟩
    · rename_i st rest hs
      have hst : StsOk P E (st :: rest) := hs ▸ hd.head
      split
      · refine (cloneIf_says hx).bind fun p hp => ?_
        split
        · exact (appendAll_says hx hst.tail).bind fun l hl => .ret ⟨.cons (.cons (hst.head.push hp) hl) hd.tail, hq⟩
        · refine (process_says hfin ds q p.1 hd.tail hq hp).bind fun r hr => (detachOpt_says _).next fun _ => ?_
          split
          · exact (appendAll_says hx hst.tail).bind fun l hl => .ret ⟨.cons (.cons hst.head hl) hr.1, hr.2⟩
          · exact .ret ⟨.cons hd.head hr.1, hr.2⟩
      · exact (appendAll_says hx hst.tail).bind fun l hl => .ret ⟨.cons (.cons hst.head hl) hd.tail, hq⟩

theorem flushVals_says (hfin : FinOk P E S fin) : ∀ {l : List (Val × Option Nat)} {b : Bool} {ds : Stack ε} {q : φ}, (∀ p ∈ l, ValOk P p.1) →
    StackOk P E ds → S q → Says P E (flushVals fin l b ds q) (ResOk P E S)
  | [], b, ds, q, _, hd, hq => by rw [flushVals]; exact .ret ⟨hd, hq⟩
  | p :: l, true, ds, q, hl, hd, hq => by
    rw [flushVals]
    exact (process_says hfin ds q p.1 hd hq (hl p (by simp))).bind fun r hr => (detachOpt_says _).next fun _ =>
      flushVals_says hfin (fun p hp => hl p (List.mem_cons_of_mem _ hp)) hr.1 hr.2
  | p :: l, false, ds, q, hl, hd, hq => by
    rw [flushVals]
    exact (detachOpt_says _).next fun _ => flushVals_says hfin (fun p hp => hl p (List.mem_cons_of_mem _ hp)) hd hq

theorem flushSt_says (hfin : FinOk P E S fin) {st : SelSt ε} {b : Bool} {ds : Stack ε} {q : φ} (hs : StOk P E st) (hd : StackOk P E ds) (hq : S q) :
    Says P E (flushSt fin st b ds q) (ResOk P E S) := by
  unfold flushSt
  refine flushVals_says hfin ?_ hd hq
  split
  · intro p hp; exact hs.pending p (by simpa using hp)
  · exact hs.pending

theorem flushAll_says (hfin : FinOk P E S fin) : ∀ {l : List (SelSt ε)} {b : Bool} {ds : Stack ε} {q : φ}, StsOk P E l →
    StackOk P E ds → S q → Says P E (flushAll fin l b ds q) (ResOk P E S)
  | [], b, ds, q, _, hd, hq => by rw [flushAll]; exact .ret ⟨hd, hq⟩
  | st :: l, b, ds, q, hl, hd, hq => by
    rw [flushAll]
    exact (flushSt_says hfin hl.head hd hq).bind fun r hr => flushAll_says hfin hl.tail hr.1 hr.2

theorem decideAll_says {decide : Sel (CondP ε) → Decision} {x : Val} (hx : ValOk P x) : ∀ {l : List (SelSt ε)}, StsOk P E l →
    Says P E (decideAll decide x l) (StsOk P E)
  | [], h => by rw [decideAll]; exact .ret h
  | st :: l, h => by
    rw [decideAll]
    split
    · exact (decideAll_says hx h.tail).bind fun l' hl => .ret (.cons ⟨h.head.sel, h.head.pending⟩ hl)
    · refine Says.next (p := if (decide st.sel).yes then .ret true else if (decide st.sel).no then .ret false else fromValue x st.sel) ?_ fun b =>
        (decideAll_says hx h.tail).bind fun l' hl => .ret (.cons ⟨h.head.sel, h.head.pending⟩ hl)
      split
      · exact .ret trivial
      · split
        · exact .ret trivial
        · have := h.head.sel
          unfold fromValue
          split
          · rename_i c hc
            rw [hc] at this
            exact this x hx
          · exact .ret trivial

theorem dispatchLive_says (hfin : FinOk P E S fin) {follow : Stack ε → φ → Val → IProg ε (Stack ε × φ × Bool)} (hfo : FollowOk P E S follow)
    {x : Val} (hx : ValOk P x) {count : Nat} {c : Bool} {l : List (SelSt ε)} {ds : Stack ε} {q : φ} (hl : StsOk P E l) (hd : StackOk P E ds)
    (hq : S q) : Says P E (dispatchLive fin follow x count c l ds q) (DResOk P E S) := by
  cases l with
  | nil => rw [dispatchLive]; exact .ret ⟨hl, hd, hq⟩
  | cons st rest =>
    rw [dispatchLive]
    refine Says.bind (Q := fun r => StOk P E r.1 ∧ StackOk P E r.2.1 ∧ S r.2.2.1) ?_ ?_
    · split
      · exact .ret ⟨hl.head, hd, hq⟩
      · exact (flushSt_says hfin hl.head hd hq).bind fun r hr => .ret ⟨⟨hl.head.sel, by simp⟩, hr.1, hr.2⟩
    · rintro r ⟨h1, h2, h3⟩
      split
      · split
        · refine (hfo _ _ x (.cons (.cons h1 hl.tail) h2) h3 hx).bind fun r hr => ?_
          split
          · exact .fail
          · rename_i d ds' e
            have := hr.1
            rw [e] at this
            exact .ret ⟨this.head, this.tail, hr.2⟩
        · exact .ret ⟨.cons h1 hl.tail, h2, h3⟩
      · exact .ret ⟨.cons h1 hl.tail, h2, h3⟩

theorem dispatchItem_says (hfin : FinOk P E S fin) {follow : Stack ε → φ → Val → IProg ε (Stack ε × φ × Bool)} (hfo : FollowOk P E S follow)
    {decide : Sel (CondP ε) → Decision} {x : Val} (hx : ValOk P x) {d : Disp ε} {ds : Stack ε} {q : φ} (hs : StsOk P E d.states)
    (hd : StackOk P E ds) (hq : S q) : Says P E (dispatchItem fin follow decide x d ds q) (DResOk P E S) := by
  unfold dispatchItem
  refine (decideAll_says hx hs).bind fun states hst => ?_
  have ht : StsOk P E (states.takeWhile SelSt.over) := fun s h => hst s ((List.takeWhile_sublist _).subset h)
  have hw : StsOk P E (states.dropWhile SelSt.over) := fun s h => hst s ((List.dropWhile_sublist _).subset h)
  refine (flushAll_says hfin ht hd hq).bind fun r hr => ?_
  split
  · exact dispatchLive_says hfin hfo hx hw hr.1 hr.2
  · exact .ret ⟨hw, hr.1, hr.2⟩

theorem roundEnd_says {desc : Bool} {self : Stack ε → φ → Val → IProg ε (Stack ε × φ × Bool)} (hs : FollowOk P E S self) {p : Val × Option Nat}
    (hp : ValOk P p.1) {r : Disp ε × Stack ε × φ × Bool} (hr : DResOk P E S r) : Says P E (roundEnd desc self p r) fun r => DResOk P E S r.2 := by
  unfold roundEnd
  split
  · split
    · exact (hs _ _ _ hr.2.1 hr.2.2 hp).bind fun r' hr' => (detachOpt_says _).next fun _ => .ret ⟨hr.1, hr'.1, hr'.2⟩
    · exact .ret hr
  · exact (detachOpt_says _).next fun _ => .ret hr

theorem objRelaxed_says (hfin : FinOk P E S fin) {desc : Bool} {follow self : Stack ε → φ → Val → IProg ε (Stack ε × φ × Bool)}
    (hfo : FollowOk P E S follow) (hse : FollowOk P E S self) {i : Nat} : ∀ f {d : Disp ε} {ds : Stack ε} {q : φ}, StsOk P E d.states →
    StackOk P E ds → S q → Says P E (objRelaxed fin desc follow self i f d ds q) (DResOk P E S)
  | 0, _, _, _, _, _, _ => .fail
  | f + 1, d, ds, q, hs, hd, hq => by
    rw [objRelaxed]
    refine .adv fun more => ?_
    split
    · refine .cur fun kv hkv => ?_
      split
      · rename_i k x
        refine (cloneDesc_says (hkv x rfl)).bind fun p hp => ?_
        split
        · exact .fail
        · refine (dispatchItem_says hfin hfo (hkv x rfl) hs hd hq).bind fun r hr => (roundEnd_says hse hp hr).bind fun r hr => ?_
          split
          · exact objRelaxed_says hfin hfo hse f hr.1 hr.2.1 hr.2.2
          · exact .ret hr
      · exact .fail
    · exact .ret ⟨hs, hd, hq⟩

theorem nextNeg_says (a : Option Nat) (n : Int) : Says P E (nextNeg a n) fun _ => True := by
  unfold nextNeg
  split
  · exact .ret trivial
  · exact .adv fun _ => .ret trivial

theorem arrRelaxed_says (hfin : FinOk P E S fin) {desc : Bool} {follow self : Stack ε → φ → Val → IProg ε (Stack ε × φ × Bool)}
    (hfo : FollowOk P E S follow) (hse : FollowOk P E S self) {i : Nat} {ahead : Option Nat} : ∀ f {index neg : Int} {d : Disp ε} {ds : Stack ε}
    {q : φ}, StsOk P E d.states → StackOk P E ds → S q → Says P E (arrRelaxed fin desc follow self i ahead f index neg d ds q) (DResOk P E S)
  | 0, _, _, _, _, _, _, _, _ => .fail
  | f + 1, index, neg, d, ds, q, hs, hd, hq => by
    rw [arrRelaxed]
    refine .adv fun more => ?_
    split
    · refine .cur fun kv hkv => ?_
      split
      · rename_i x hx
        refine (cloneDesc_says (hkv x hx)).bind fun p hp => (dispatchItem_says hfin hfo (hkv x hx) hs hd hq).bind fun r hr => ?_
        split
        · refine (nextNeg_says _ _).next fun n => (roundEnd_says hse hp hr).bind fun r hr => ?_
          split
          · exact arrRelaxed_says hfin hfo hse f hr.1 hr.2.1 hr.2.2
          · exact .ret hr
        · exact (roundEnd_says hse hp hr).bind fun r hr => .ret hr
      · exact .fail
    · exact .ret ⟨hs, hd, hq⟩

theorem objStrict_says (hfin : FinOk P E S fin) {follow : Stack ε → φ → Val → IProg ε (Stack ε × φ × Bool)}
    (hfo : FollowOk P E S follow) {i : Nat} : ∀ f {d : Disp ε} {ds : Stack ε} {q : φ}, StsOk P E d.states →
    StackOk P E ds → S q → Says P E (objStrict fin follow i f d ds q) (DResOk P E S)
  | 0, _, _, _, _, _, _ => .fail
  | f + 1, d, ds, q, hs, hd, hq => by
    rw [objStrict]
    refine .adv fun more => ?_
    split
    · refine .cur fun kv hkv => ?_
      split
      · rename_i k x
        split
        · exact .fail
        · refine (dispatchItem_says hfin hfo (hkv x rfl) hs hd hq).bind fun r hr => ?_
          split
          · exact objStrict_says hfin hfo f hr.1 hr.2.1 hr.2.2
          · exact .ret hr
      · exact .fail
    · exact .ret ⟨hs, hd, hq⟩

theorem arrStrict_says (hfin : FinOk P E S fin) {follow : Stack ε → φ → Val → IProg ε (Stack ε × φ × Bool)}
    (hfo : FollowOk P E S follow) {i : Nat} {ahead : Option Nat} : ∀ f {index neg : Int} {d : Disp ε} {ds : Stack ε}
    {q : φ}, StsOk P E d.states → StackOk P E ds → S q → Says P E (arrStrict fin follow i ahead f index neg d ds q) (DResOk P E S)
  | 0, _, _, _, _, _, _, _, _ => .fail
  | f + 1, index, neg, d, ds, q, hs, hd, hq => by
    rw [arrStrict]
    refine .adv fun more => ?_
    split
    · refine .cur fun kv hkv => ?_
      split
      · rename_i x hx
        refine (dispatchItem_says hfin hfo (hkv x hx) hs hd hq).bind fun r hr => ?_
        split
        · refine (nextNeg_says _ _).next fun n => ?_
          split
          · exact .ret hr
          · exact arrStrict_says hfin hfo f hr.1 hr.2.1 hr.2.2
        · exact .ret hr
      · exact .fail
    · exact .ret ⟨hs, hd, hq⟩

theorem descend_says {self : Stack ε → φ → Val → IProg ε (Stack ε × φ × Bool)} (hse : FollowOk P E S self) {i : Nat} : ∀ f {ds : Stack ε} {q : φ},
    StackOk P E ds → S q → Says P E (descend self i f ds q) (ResOk P E S)
  | 0, _, _, _, _ => .fail
  | f + 1, ds, q, hd, hq => by
    rw [descend]
    refine .adv fun more => ?_
    split
    · refine .cur fun kv hkv => ?_
      split
      · rename_i x hx
        refine (hse _ _ x hd hq (hkv x hx)).bind fun r hr => ?_
        split
        · exact descend_says hse f hr.1 hr.2
        · exact .ret hr
      · exact .fail
    · exact .ret ⟨hd, hq⟩

theorem finish_says (hfin : FinOk P E S fin) {r : Disp ε × Stack ε × φ × Bool} (hr : DResOk P E S r) : Says P E (finish fin r) (ResOk P E S) := by
  unfold finish
  exact (flushAll_says hfin hr.1 hr.2.1 hr.2.2).bind fun r' hr' => .ret hr'

theorem lookLoop_says (l : Int) (a : Nat) : ∀ f n, Says P E (lookLoop l a f n) fun _ => True
  | 0, _ => .fail
  | f + 1, n => by
    rw [lookLoop]
    split
    · refine .adv fun more => ?_
      split
      · exact lookLoop_says l a f _
      · exact .ret trivial
    · exact .ret trivial

theorem lookStart_says (l : Int) (i f : Nat) : Says P E (lookStart l i f) fun _ => True := by
  unfold lookStart
  split
  · refine .clone fun p _ => ?_
    split
    · exact (lookLoop_says _ _ _ _).next fun _ => .ret trivial
    · exact .fail
  · exact .ret trivial

theorem strictEnd_says {desc : Bool} {self : Stack ε → φ → Val → IProg ε (Stack ε × φ × Bool)} (hse : FollowOk P E S self) {p : Val × Option Nat} {f : Nat}
    {r : Disp ε × Stack ε × φ × Bool} (hr : DResOk P E S r) : Says P E (strictEnd desc self p f r) (DResOk P E S) := by
  unfold strictEnd
  split
  · split
    · exact (descend_says hse f hr.2.1 hr.2.2).bind fun r' hr' => .ret ⟨hr.1, hr'.1, hr'.2⟩
    · exact .fail
  · exact .ret hr

/-- The conditions of a segment keep the property. -/
def SegOk (P : Token → Prop) (E : ε → Prop) (seg : Seg (CondP ε)) : Prop := ∀ s ∈ seg.sels, SelOk P E s

theorem newDisp_ok {sels : List (Sel (CondP ε))} (h : ∀ s ∈ sels, SelOk P E s) : StsOk P E (newDisp sels).states := by
  intro st hst
  simp only [newDisp, List.mem_map] at hst
  obtain ⟨s, hs, rfl⟩ := hst
  exact ⟨h s hs, by simp⟩

theorem segP_says (hfin : FinOk P E S fin) {strict : Bool} {F : Nat} {seg : Seg (CondP ε)} (hseg : SegOk P E seg)
    {follow : Stack ε → φ → Val → IProg ε (Stack ε × φ × Bool)} (hfo : FollowOk P E S follow) : ∀ g, FollowOk P E S (segP fin strict F seg follow g)
  | 0, _, _, _, _, _, _ => .fail
  | g + 1, ds, q, x, hd, hq, hx => by
    have hse := segP_says hfin (strict := strict) (F := F) hseg hfo g
    rw [segP.eq_def]
    simp only
    split
    · split
      · exact (cloneDesc_says hx).bind fun p hp => (objStrict_says hfin hfo F (newDisp_ok hseg) hd hq).bind fun r hr =>
          (strictEnd_says hse hr).bind fun r hr => (detachOpt_says _).next fun _ => finish_says hfin hr
      · exact (objRelaxed_says hfin hfo hse F (newDisp_ok hseg) hd hq).bind fun r hr => finish_says hfin hr
    · refine (lookStart_says _ _ _).next fun la => ?_
      split
      · exact (cloneDesc_says hx).bind fun p hp => (arrStrict_says hfin hfo F (newDisp_ok hseg) hd hq).bind fun r hr =>
          (strictEnd_says hse hr).bind fun r hr => (detachOpt_says _).next fun _ => (detachOpt_says _).next fun _ => finish_says hfin hr
      · exact (arrRelaxed_says hfin hfo hse F (newDisp_ok hseg) hd hq).bind fun r hr => (detachOpt_says _).next fun _ => finish_says hfin hr
    · exact .discard (.ret ⟨hd, hq⟩)

theorem segsP_says (hfin : FinOk P E S fin) {strict : Bool} {F : Nat} : ∀ {segs : List (Seg (CondP ε))}, (∀ s ∈ segs, SegOk P E s) →
    FollowOk P E S (segsP fin strict F segs)
  | [], _ => by rw [segsP]; exact process_says hfin
  | seg :: segs, h => by
    rw [segsP]
    exact segP_says hfin (h seg (by simp)) (segsP_says hfin fun s hs => h s (List.mem_cons_of_mem _ hs)) F

/-! ## Conditions -/

theorem singName_says (n : Bytes) (i : Nat) : ∀ f, Says P E (singName n i f) fun r => ∀ y, r = some y → ValOk P y
  | 0 => .fail
  | f + 1 => by
    rw [singName]
    refine .adv fun more => ?_
    split
    · refine .cur fun kv hkv => ?_
      split
      · rename_i k x
        split
        · exact .fail
        · split
          · exact .ret fun y hy => by cases hy; exact hkv _ rfl
          · exact singName_says n i f
      · exact .fail
    · exact .ret (by simp)

theorem singIndexLoop_says (j : Int) (i : Nat) (a : Option Nat) : ∀ f n m, Says P E (singIndexLoop j i a f n m) fun r => ∀ y, r = some y → ValOk P y
  | 0, _, _ => .fail
  | f + 1, n, m => by
    rw [singIndexLoop]
    refine .adv fun more => ?_
    split
    · refine .cur fun kv hkv => ?_
      split
      · exact .fail
      · rename_i x hx
        split
        · exact .ret fun y hy => by cases hy; exact hkv _ hx
        · exact (nextNeg_says _ _).next fun _ => singIndexLoop_says j i a f _ _
    · exact .ret (by simp)

theorem singEval_says (f : Nat) : ∀ (l : List SingSeg) {x : Val}, ValOk P x → Says P E (singEval f l x) fun r => ∀ y, r = some y → ValOk P y
  | [], x, hx => by rw [singEval]; exact .ret fun y hy => by cases hy; exact hx
  | seg :: segs, x, hx => by
    rw [singEval.eq_def]
    simp only
    refine Says.bind (Q := fun r => ∀ y, r = some y → ValOk P y) ?_ ?_
    · split
      · exact singName_says _ _ _
      · unfold singIndex
        split
        · exact (lookStart_says _ _ _).next fun la => (singIndexLoop_says _ _ _ _ _ _).bind fun r hr => (detachOpt_says _).next fun _ => .ret hr
        · exact singIndexLoop_says _ _ _ _ _ _
      · exact .ret (by simp)
    · intro r hr
      cases r with
      | none => exact .ret (by simp)
      | some y => exact singEval_says f segs (hr y rfl)

theorem cloneOpt_says (x : Option Val) : Says P E (cloneOpt x) fun _ => True := by
  unfold cloneOpt
  split
  · exact .ret trivial
  · exact .clone fun _ _ => .ret trivial

theorem compareVals_says (f : Nat) (eq lt neg : Bool) (x y : Option Val) : Says P E (compareVals f eq lt neg x y) fun _ => True := by
  unfold compareVals
  refine Says.next ?_ fun r => ?_
  · split
    · unfold checkEqual
      split
      · exact valEqual_says _ _ _
      · exact .ret trivial
      · exact .ret trivial
    · exact .ret trivial
  · split
    · split
      · exact .fail
      · exact .ret trivial
    · exact .ret trivial

/-- A comparable keeps the property; its value may be a literal. -/
def CmpSays (P : Token → Prop) (E : ε → Prop) (c : CmpP ε) : Prop := ∀ x, ValOk P x → Says P E (c x) fun _ => True

theorem comparison_says (f : Nat) {l r : CmpP ε} (eq lt neg : Bool) (hl : CmpSays P E l) (hr : CmpSays P E r) :
    CondSays P E (comparison f l eq lt neg r) := by
  intro x hx
  unfold comparison
  exact .clone fun p1 h1 => .clone fun p2 h2 => (hl _ (h1 hx)).next fun _ => (cloneOpt_says _).next fun _ => (hr _ (h2 hx)).next fun _ => (cloneOpt_says _).next fun _ =>
    (compareVals_says _ _ _ _ _ _).next fun _ => (detachOpt_says _).next fun _ => (detachOpt_says _).next fun _ => (detachOpt_says _).next fun _ =>
      (detachOpt_says _).next fun _ => .ret trivial

/-- The conditions of a query keep the property. -/
def QOk (P : Token → Prop) (E : ε → Prop) : QueryP ε → Prop
  | .run segs => ∀ s ∈ segs, SegOk P E s
  | .inner _ => True

theorem innerLoop_says (hfin : FinOk P E S fin) (i : Nat) : ∀ f {q : φ}, S q → Says P E (innerLoop fin i f q) fun r => S r.1
  | 0, _, _ => .fail
  | f + 1, q, hq => by
    rw [innerLoop]
    refine .adv fun more => ?_
    split
    · refine .cur fun kv hkv => ?_
      split
      · exact .fail
      · rename_i x hx
        refine (hfin q x hq (hkv x hx)).bind fun r hr => ?_
        split
        · exact innerLoop_says hfin i f hr
        · exact .ret hr
    · exact .ret hq

theorem mapValue_says (hfin : FinOk P E S fin) {e : Env} {qp : QueryP ε} (hqp : QOk P E qp) {q : φ} {x : Val} (hq : S q) (hx : ValOk P x) :
    Says P E (mapValue e fin qp q x) fun r => S r.1 := by
  unfold mapValue
  split
  · exact (segsP_says hfin hqp [] q x (fun _ h => by cases h) hq hx).bind fun r hr => .ret hr.2
  · split
    · exact .fail
    · refine .clone fun p _ => ?_
      split
      · exact (innerLoop_says hfin _ _ hq).bind fun r hr => (detachOpt_says _).next fun _ => .ret hr
      · exact .fail

theorem queryTruth_says {e : Env} {qp : QueryP ε} (hqp : QOk P E qp) : CondSays P E (queryTruth e qp) := by
  intro x hx
  unfold queryTruth
  exact .clone fun p hp => (mapValue_says (S := fun _ => True) (fun _ _ _ _ => .ret trivial) hqp trivial (hp hx)).bind fun _ _ =>
    (detachOpt_says _).next fun _ => .ret trivial

theorem countMembers_says (i : Nat) : ∀ f n, Says P E (countMembers i f n) fun _ => True
  | 0, _ => .fail
  | f + 1, n => by
    rw [countMembers]
    refine .adv fun more => ?_
    split
    · exact countMembers_says i f _
    · exact .ret trivial

theorem runLength_says (f : Nat) (x : Option Val) : Says P E (runLength f x) fun _ => True := by
  unfold runLength
  split
  · exact (countMembers_says _ _ _).next fun _ => .ret trivial
  · exact (countMembers_says _ _ _).next fun _ => .ret trivial
  · split
    · exact .ret trivial
    · split
      · exact .fail
      · exact .ret trivial
  · exact .ret trivial

theorem runMatch_says (lib : Lib) (w : Bool) (x y : Option Val) : Says P E (runMatch lib w x y) fun _ => True := by
  unfold runMatch
  refine Says.next ?_ fun _ => .ret trivial
  unfold matchIndex
  split
  · split
    · exact .ret trivial
    · split
      · exact .fail
      · split
        · refine .reject fun known => ?_
          split
          · exact .fail
          · exact .ret trivial
        · split
          · exact .fail
          · exact .ret trivial
  · exact .ret trivial

/-- Arguments, not evaluated. -/
def ArgOk (P : Token → Prop) (E : ε → Prop) : ArgP ε → Prop
  | .value c => CmpSays P E c
  | .nodes q => QOk P E q

/-- Arguments, evaluated. -/
def ArgVOk (P : Token → Prop) (E : ε → Prop) : ArgV ε → Prop
  | .value _ => True
  | .nodes q x => QOk P E q ∧ ValOk P x

theorem runFn_says {e : Env} {fn : Fn} {vs : List (ArgV ε)} (h : ∀ v ∈ vs, ArgVOk P E v) : Says P E (runFn e fn vs) fun _ => True := by
  unfold runFn
  split
  · exact runLength_says _ _
  · have := h _ (List.mem_singleton.2 rfl)
    exact (mapValue_says (S := fun _ => True) (fun _ _ _ _ => .ret trivial) this.1 trivial this.2).bind fun _ _ => .ret trivial
  · exact runMatch_says _ _ _ _
  · exact runMatch_says _ _ _ _
  · have := h _ (List.mem_singleton.2 rfl)
    refine (mapValue_says (S := fun _ => True) (fun q x _ _ => ?_) this.1 trivial this.2).bind fun _ _ => .ret trivial
    unfold valueFin
    split <;> exact .ret trivial
  · exact .fail

theorem runArgs_says {e : Env} {fn : Fn} {x : Val} (hx : ValOk P x) : ∀ {l : List (ArgP ε)} {vs : List (ArgV ε)}, (∀ a ∈ l, ArgOk P E a) →
    (∀ v ∈ vs, ArgVOk P E v) → Says P E (runArgs e fn x l vs) fun _ => True
  | [], vs, _, h => by rw [runArgs]; exact runFn_says h
  | .value c :: l, vs, hl, h => by
    rw [runArgs]
    refine .clone fun p hp => ((hl (.value c) (by simp) : CmpSays P E c) p.1 (hp hx)).next fun y =>
      (runArgs_says hx (fun a ha => hl a (List.mem_cons_of_mem _ ha)) ?_).next fun _ => (detachOpt_says _).next fun _ => .ret trivial
    intro v hv
    simp only [List.mem_append, List.mem_singleton] at hv
    rcases hv with hv | rfl
    · exact h v hv
    · trivial
  | .nodes q :: l, vs, hl, h => by
    rw [runArgs]
    refine runArgs_says hx (fun a ha => hl a (List.mem_cons_of_mem _ ha)) ?_
    intro v hv
    simp only [List.mem_append, List.mem_singleton] at hv
    rcases hv with hv | rfl
    · exact h v hv
    · exact ⟨hl (.nodes q) (by simp), hx⟩

theorem orP_says : ∀ {l : List (CondP ε)}, (∀ c ∈ l, CondSays P E c) → CondSays P E (orP l)
  | [], _, x, _ => by rw [orP]; exact .ret trivial
  | c :: l, h, x, hx => by
    rw [orP]
    refine (h c (by simp) x hx).next fun b => ?_
    split
    · exact .ret trivial
    · exact orP_says (fun c hc => h c (List.mem_cons_of_mem _ hc)) x hx

theorem andP_says : ∀ {l : List (CondP ε)}, (∀ c ∈ l, CondSays P E c) → CondSays P E (andP l)
  | [], _, x, _ => by rw [andP]; exact .ret trivial
  | c :: l, h, x, hx => by
    rw [andP]
    refine (h c (by simp) x hx).next fun b => ?_
    split
    · exact andP_says (fun c hc => h c (List.mem_cons_of_mem _ hc)) x hx
    · exact .ret trivial

mutual
theorem condP_says (e : Env) : ∀ c : CondR, CondSays P E (condP e c : CondP ε)
  | .or l => by rw [condP]; exact orP_says (condsP_says e l)
  | .and l => by rw [condP]; exact andP_says (condsP_says e l)
  | .not c => by
    rw [condP]
    exact fun x hx => (condP_says e c x hx).next fun _ => .ret trivial
  | .cmp l eq lt neg r => by rw [condP]; exact comparison_says _ _ _ _ (cmpP_says e l) (cmpP_says e r)
  | .query q => by rw [condP]; exact queryTruth_says (queryP_says e q)
  | .func f args => by
    rw [condP]
    intro x hx
    unfold fnTruth
    refine (runArgs_says hx (argsP_says e args) (fun _ h => by cases h)).next fun r => ?_
    cases r with
    | bool b => exact .ret trivial
    | value v => exact .fail
theorem condsP_says (e : Env) : ∀ l : List CondR, ∀ c ∈ (condsP e l : List (CondP ε)), CondSays P E c
  | [] => by rw [condsP]; intro c hc; cases hc
  | c :: l => by
    have h1 : CondSays P E (condP e c : CondP ε) := condP_says e c
    have h2 : ∀ c ∈ (condsP e l : List (CondP ε)), CondSays P E c := condsP_says e l
    rw [condsP]
    intro d hd
    rcases List.mem_cons.1 hd with hd | hd
    · rw [hd]; exact h1
    · exact h2 d hd
theorem queryP_says (e : Env) : ∀ q : QueryR, QOk P E (queryP e q : QueryP ε)
  | .run segs => by rw [queryP]; exact segsR_says e segs
  | .inner i => by rw [queryP]; trivial
theorem segsR_says (e : Env) : ∀ l : List SegR, ∀ s ∈ (segsR e l : List (Seg (CondP ε))), SegOk P E s
  | [] => by rw [segsR]; intro c hc; cases hc
  | c :: l => by
    have h1 : SegOk P E (segR e c : Seg (CondP ε)) := segR_says e c
    have h2 : ∀ s ∈ (segsR e l : List (Seg (CondP ε))), SegOk P E s := segsR_says e l
    rw [segsR]
    intro d hd
    rcases List.mem_cons.1 hd with hd | hd
    · rw [hd]; exact h1
    · exact h2 d hd
theorem segR_says (e : Env) : ∀ s : SegR, SegOk P E (segR e s : Seg (CondP ε))
  | .mk desc sels => by rw [segR]; exact selsR_says e sels
theorem selsR_says (e : Env) : ∀ l : List (Sel CondR), ∀ s ∈ (selsR e l : List (Sel (CondP ε))), SelOk P E s
  | [] => by rw [selsR]; intro c hc; cases hc
  | c :: l => by
    have h1 : SelOk P E (selR e c : Sel (CondP ε)) := selR_says e c
    have h2 : ∀ s ∈ (selsR e l : List (Sel (CondP ε))), SelOk P E s := selsR_says e l
    rw [selsR]
    intro d hd
    rcases List.mem_cons.1 hd with hd | hd
    · rw [hd]; exact h1
    · exact h2 d hd
theorem selR_says (e : Env) : ∀ s : Sel CondR, SelOk P E (selR e s : Sel (CondP ε))
  | .default => by rw [selR]; trivial
  | .name n => by rw [selR]; trivial
  | .wild => by rw [selR]; trivial
  | .index i => by rw [selR]; trivial
  | .slice a b c => by rw [selR]; trivial
  | .rslice a b c => by rw [selR]; trivial
  | .filter c => by rw [selR]; exact condP_says e c
theorem cmpP_says (e : Env) : ∀ c : CmpR, CmpSays P E (cmpP e c : CmpP ε)
  | .lit l => by rw [cmpP]; exact fun _ _ => .ret trivial
  | .sing segs => by rw [cmpP]; exact fun x hx => (singEval_says _ _ hx).mono fun _ _ => trivial
  | .inner i => by
    rw [cmpP]
    intro x _
    simp only
    split
    · exact .fail
    · exact .ret trivial
  | .func f args => by
    rw [cmpP]
    intro x hx
    unfold fnValue
    refine (runArgs_says hx (argsP_says e args) (fun _ h => by cases h)).next fun r => ?_
    cases r with
    | bool b => exact .fail
    | value v => exact .ret trivial
theorem argsP_says (e : Env) : ∀ l : List ArgR, ∀ a ∈ (argsP e l : List (ArgP ε)), ArgOk P E a
  | [] => by rw [argsP]; intro c hc; cases hc
  | c :: l => by
    have h1 : ArgOk P E (argP e c : ArgP ε) := argP_says e c
    have h2 : ∀ a ∈ (argsP e l : List (ArgP ε)), ArgOk P E a := argsP_says e l
    rw [argsP]
    intro d hd
    rcases List.mem_cons.1 hd with hd | hd
    · rw [hd]; exact h1
    · exact h2 d hd
theorem argP_says (e : Env) : ∀ a : ArgR, ArgOk P E (argP e a : ArgP ε)
  | .value c => by rw [argP]; exact cmpP_says e c
  | .nodes q => by rw [argP]; exact queryP_says e q
end

/-! ## The main loop -/

theorem mustDetach_says (t : Option Nat) : Says P E (mustDetach t) fun _ => True := by
  cases t with
  | none => exact .fail
  | some t => exact .detach (.ret trivial)

theorem singCtx_says (hP : Starts P) (fuel : Nat) {x : Val} (hx : ValOk P x) : ∀ l vs, Says P E (singCtx fuel x l vs) fun _ => True
  | [], vs => by rw [singCtx]; exact .ret trivial
  | segs :: l, vs => by
    rw [singCtx]
    refine .clone fun p hp => (singEval_says fuel segs (hp hx)).bind fun y hy => ?_
    cases y with
    | none => exact .fail
    | some y =>
      cases y with
      | scalar k => exact (mustDetach_says _).next fun _ => singCtx_says hP fuel hx l _
      | coll c i =>
        refine .copy hP fun ts hts => .data (hts trivial) fun it => .adv fun _ => .cur fun kv _ => ?_
        split
        · exact .fail
        · exact (mustDetach_says _).next fun _ => singCtx_says hP fuel hx l _

theorem queryCtx_says (hP : Starts P) (lib : Lib) (strict : Bool) (fuel : Nat) {x : Val} (hx : ValOk P x) : ∀ l ctx,
    Says P E (queryCtx lib strict fuel x l ctx) fun _ => True
  | [], ctx => by rw [queryCtx]; exact .ret trivial
  | segs :: l, ctx => by
    rw [queryCtx]
    refine .clone fun p hp => (mapValue_says (S := fun acc => ∀ t ∈ acc, P t) ?_ (queryP_says _ _) (by simp) (hp hx)).bind fun r hr =>
      .data hr fun it => (mustDetach_says _).next fun _ => queryCtx_says hP lib strict fuel hx l _
    intro acc y hacc hy
    unfold collectFin
    refine .copy hP fun ts hts => .ret ?_
    intro t ht
    rcases List.mem_append.1 ht with ht | ht
    · exact hacc t ht
    · exact hts hy t ht

theorem runValue_says (hP : Starts P) (lib : Lib) (strict : Bool) (fuel : Nat) (r : MainR) {x : Val} (hx : ValOk P x) :
    Says P P (runValue lib strict fuel r x) fun _ => True := by
  unfold runValue runContext
  refine ((singCtx_says hP fuel hx _ _).next fun vs => queryCtx_says hP lib strict fuel hx _ _).next fun ctx =>
    (mapValue_says (S := fun _ => True) ?_ (queryP_says _ _) trivial hx).bind fun _ _ => .ret trivial
  intro q y _ hy
  unfold writeFin
  exact .copy hP fun ts hts => (Says.putAll (hts hy)).next fun _ => .ret trivial

theorem runQuery_says (hP : Starts P) (lib : Lib) (strict : Bool) (fuel : Nat) (r : MainR) : ∀ f, Says P P (runQuery lib strict fuel r f) fun _ => True
  | 0 => .fail
  | f + 1 => by
    rw [runQuery]
    refine .adv fun more => ?_
    split
    · refine .cur fun kv hkv => ?_
      split
      · exact .fail
      · rename_i x hx
        exact (runValue_says hP lib strict fuel r (hkv x hx)).next fun _ => runQuery_says hP lib strict fuel r f
    · exact .ret trivial

theorem copyOut_says (hP : Starts P) {x : Val} (hx : ValOk P x) : Says P P (copyOut x) fun _ => True := by
  unfold copyOut
  exact .copy hP fun ts hts => .putAll (hts hx)

theorem explode_says (hP : Starts P) (f : Nat) {x : Val} (hx : ValOk P x) : Says P P (explodeArray f x) fun _ => True := by
  unfold explodeArray
  split
  · exact forEach_says (fun _ _ y _ hy => copyOut_says hP hy) _ _ _ trivial
  · exact copyOut_says hP hx

end Verif.Origin
