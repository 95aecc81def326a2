import Verif.JpvSubset
import Verif.JpvPure
import Verif.IndexNum
import Verif.JpvEncoder

/-!
# Lines and values (helper definitions and lemmas)

What the JPV decoder sends for a selection of the lines that stand for the leaves of a value.
-/

set_option linter.unusedSimpArgs false
set_option linter.unusedVariables false

namespace Verif.JpvTree
open JpvSpec JpvPure Jpv JVal.toks

/-- A line: path and value. -/
abbrev Ent := List Scalar × JVal

/-- The index keys of the decoder. -/
def ixKey (n : Nat) : Scalar := { bytes := itoa n ++ [0x5D], type := .num, key := true }

/-- The lines of a value, given the index keys, below the value. -/
def ents (ix : Nat → Scalar) : JVal → List Ent
  | .scalar s => [([], .scalar s)]
  | .arr l e => if l.isEmpty then [([], .arr l e)] else items 0 l
  | .obj l e => if l.isEmpty then [([], .obj l e)] else members l
where
  items (n : Nat) : List JVal → List Ent
    | [] => []
    | v :: l => (ents ix v).map (fun x => (ix n :: x.1, x.2)) ++ items (n + 1) l
  members : List (Scalar × JVal) → List Ent
    | [] => []
    | (k, v) :: l => (ents ix v).map (fun x => (k :: x.1, x.2)) ++ members l

/-- The lines of the members of a collection. -/
def kidEnts (ix : Nat → Scalar) : List (Scalar × JVal) → List Ent
  | [] => []
  | (k, v) :: l => (ents ix v).map (fun x => (k :: x.1, x.2)) ++ kidEnts ix l

/-- Number the items of an array. -/
def number (ix : Nat → Scalar) : Nat → List JVal → List (Scalar × JVal)
  | _, [] => []
  | n, v :: l => (ix n, v) :: number ix (n + 1) l

theorem ents_items (ix n l) : ents.items ix n l = kidEnts ix (number ix n l) := by
  induction l generalizing n with
  | nil => rfl
  | cons v l ih => simp [ents.items, number, kidEnts, ih]

theorem ents_members (ix l) : ents.members ix l = kidEnts ix l := by
  induction l with
  | nil => rfl
  | cons v l ih => obtain ⟨k, v⟩ := v; simp [ents.members, kidEnts, ih]

/-- The kept members of a collection. -/
def kidPrune : List (Scalar × JVal) → List Bool → List (Scalar × JVal)
  | [], _ => []
  | (k, v) :: l, m => ((prune v m).map fun v => (k, v)).toList ++ kidPrune l (m.drop (leafCount v))

/-- The members of a collection; items of arrays are numbered. -/
def kids (ix : Nat → Scalar) : JVal → List (Scalar × JVal)
  | .scalar _ => []
  | .arr l _ => number ix 0 l
  | .obj l _ => l

theorem number_snd (ix : Nat → Scalar) : ∀ (l : List JVal) (n : Nat), (number ix n l).map Prod.snd = l := by
  intro l
  induction l with
  | nil => intro n; rfl
  | cons v l ih => intro n; simp [number, ih]

theorem number_ne {ix : Nat → Scalar} {l : List JVal} {n : Nat} (h : ¬ l.isEmpty = true) : number ix n l ≠ [] := by
  cases l <;> simp [number] at h ⊢

theorem prune_members (l m) : prune.members l m = kidPrune l m := by
  induction l generalizing m with
  | nil => rfl
  | cons v l ih => obtain ⟨k, v⟩ := v; simp [prune.members, kidPrune, ih]

theorem prune_items (ix n l m) : prune.items l m = (kidPrune (number ix n l) m).map Prod.snd := by
  induction l generalizing m n with
  | nil => rfl
  | cons v l ih =>
    simp only [prune.items, number, kidPrune, List.map_append, ih (n + 1)]
    cases prune v m <;> simp

theorem leafCount_kids (l : List (Scalar × JVal)) (ix : Nat → Scalar) (h : ∀ m ∈ l, (ents ix m.2).length = leafCount m.2) :
    (kidEnts ix l).length = (l.map fun m => leafCount m.2).sum := by
  induction l with
  | nil => rfl
  | cons m l ih =>
    obtain ⟨k, v⟩ := m
    have := h _ (List.mem_cons_self ..)
    simp at this
    simp [kidEnts, this, ih fun m hm => h m (by simp [hm])]

theorem ents_length (ix : Nat → Scalar) (v : JVal) : (ents ix v).length = leafCount v := by
  induction v using JVal.induct with
  | scalar s => rfl
  | arr l e ih =>
    simp only [ents, leafCount]
    split
    · rfl
    · rw [ents_items, leafCount_kids]
      · have : ∀ l, leafCount.items l = (l.map leafCount).sum := by
          intro l; induction l <;> simp_all [leafCount.items]
        rw [this, show (number ix 0 l).map (fun m => leafCount m.2) = ((number ix 0 l).map Prod.snd).map leafCount by
          rw [List.map_map]; rfl, number_snd]
      · intro m hm
        apply ih
        have := List.mem_map_of_mem (f := Prod.snd) hm
        rwa [number_snd] at this
  | obj l e ih =>
    simp only [ents, leafCount]
    split
    · rfl
    · rw [ents_members, leafCount_kids _ _ ih]
      have : ∀ l, leafCount.members l = (l.map fun m => leafCount m.2).sum := by
        intro l; induction l <;> simp_all [leafCount.members]
      rw [this]

/-! ## Changes of path -/

/-- Lines below the path `p`, if they come first after the path `last`, are preceded by the tokens `E`. -/
def Enters (last p : List Scalar) (E : List Token) : Prop :=
  ∀ rest, upd last (p ++ rest) = .ok (E ++ follow rest false)

/-- Keys equal to themselves. -/
def PathOk (p : List Scalar) : Prop := ∀ k ∈ p, scalarEqual k k = some true

/-- What is sent for a key. -/
def keyTok (k : Scalar) : List Token := if k.type = .str then [.scalar k] else []

theorem enters_nil : Enters [] [] [] := by intro rest; simp [upd]

theorem Enters.child {last p : List Scalar} {E : List Token} (h : Enters last p E) (k : Scalar) :
    Enters last (p ++ [k]) ((E ++ [if k.type = .str then .startObj else .startArr]) ++ keyTok k) := by
  intro rest
  have := h (k :: rest)
  simp only [List.append_assoc, List.singleton_append]
  rw [this]
  simp [follow, keyTok]

theorem diff_common {p a b : List Scalar} (h : PathOk p) : diff (p ++ a) (p ++ b) = diff a b := by
  induction p with
  | nil => rfl
  | cons k p ih =>
    simp only [List.cons_append, diff, h k (by simp)]
    exact ih fun k hk => h k (by simp [hk])

theorem enters_next {p r : List Scalar} {k n : Scalar} (hp : PathOk p) (h : scalarEqual k n = some false) (ht : k.type = n.type) :
    Enters (p ++ k :: r) (p ++ [n]) (unwind r false ++ keyTok n) := by
  intro rest
  simp only [upd, List.append_assoc, List.singleton_append]
  rw [if_neg (by simp), diff_common hp]
  simp only [diff, h, ht, ne_eq, not_true_eq_false, if_false, Except.map]
  simp [unwind, follow, keyTok]

theorem unwind_cons (k : Scalar) (r : List Scalar) : unwind (k :: r) false = unwind r false ++ [closer k] := by
  simp [unwind]

/-! ## The decoder on lines -/

/-- The tokens sent for lines, and the last path. -/
def proc : List Scalar → List Ent → Except JErr (List Token × List Scalar)
  | last, [] => .ok ([], last)
  | last, (p, v) :: es => (upd last p).bind fun ts => (proc p es).map fun x => (ts ++ (v.toks ++ x.1), x.2)

theorem proc_append : ∀ (a b : List Ent) (last : List Scalar) {ts : List Token} {last' : List Scalar},
    proc last a = .ok (ts, last') → proc last (a ++ b) = (proc last' b).map fun y => (ts ++ y.1, y.2) := by
  intro a
  induction a with
  | nil =>
    intro b last ts last' h
    simp only [proc, Except.ok.injEq, Prod.mk.injEq] at h
    obtain ⟨rfl, rfl⟩ := h
    simp only [List.nil_append]
    cases proc last b <;> rfl
  | cons x a ih =>
    intro b last ts last' h
    obtain ⟨p, v⟩ := x
    simp only [proc, List.cons_append] at h ⊢
    cases hu : upd last p with
    | error e => rw [hu] at h; simp [Except.bind] at h
    | ok us =>
      rw [hu] at h
      simp only [Except.bind] at h ⊢
      cases hp : proc p a with
      | error e => rw [hp] at h; simp [Except.map] at h
      | ok y =>
        rw [hp] at h
        obtain ⟨ts1, last1⟩ := y
        simp only [Except.map, Except.ok.injEq, Prod.mk.injEq] at h
        obtain ⟨rfl, rfl⟩ := h
        rw [ih b p hp]
        cases proc last1 b <;> simp [Except.map]

/-- Lines below a path. -/
def below (p : List Scalar) (es : List Ent) : List Ent := es.map fun x => (p ++ x.1, x.2)

/-- The tokens of the members. -/
def kidToks : List (Scalar × JVal) → List Token
  | [] => []
  | (k, v) :: l => keyTok k ++ (v.toks ++ kidToks l)

theorem kidToks_append (a b) : kidToks (a ++ b) = kidToks a ++ kidToks b := by
  induction a with
  | nil => rfl
  | cons m a ih => obtain ⟨k, v⟩ := m; simp [kidToks, ih]

/-- What is sent for selected lines of a value. -/
def Sends (v : JVal) : Prop :=
  ∀ p last E m, PathOk p → Enters last p E →
    (prune v m = none → select (ents ixKey v) m = []) ∧
    ∀ v', prune v m = some v' → ∃ T r, proc last (below p (select (ents ixKey v) m)) = .ok (E ++ T, p ++ r) ∧
      v'.toks = T ++ unwind r false

theorem select_kids (k : Scalar) (v : JVal) (l : List (Scalar × JVal)) (m : List Bool) :
    select (kidEnts ixKey ((k, v) :: l)) m =
      below [k] (select (ents ixKey v) m) ++ select (kidEnts ixKey l) (m.drop (leafCount v)) := by
  simp only [kidEnts]
  rw [select_append, select_map, List.length_map, ents_length]
  rfl

theorem below_append (p a b) : below p (a ++ b) = below p a ++ below p b := by simp [below]
theorem below_below (p k a) : below p (below [k] a) = below (p ++ [k]) a := by simp [below]

/-- Members all of whose keys have the same type and are different. -/
structure Apart (t : SType) (l : List (Scalar × JVal)) : Prop where
  type : ∀ m ∈ l, m.1.type = t
  self : ∀ m ∈ l, scalarEqual m.1 m.1 = some true
  other : l.Pairwise fun m n => scalarEqual m.1 n.1 = some false

theorem sends_kids {t : SType} : ∀ (l : List (Scalar × JVal)), Apart t l → (∀ m ∈ l, Sends m.2) →
    ∀ p last base m, PathOk p → (∀ x ∈ l, Enters last (p ++ [x.1]) (base ++ keyTok x.1)) →
      (kidPrune l m = [] → select (kidEnts ixKey l) m = []) ∧
      (kidPrune l m ≠ [] → ∃ T k r, proc last (below p (select (kidEnts ixKey l) m)) = .ok (base ++ T, p ++ k :: r) ∧
        k.type = t ∧ kidToks (kidPrune l m) = T ++ unwind r false) := by
  intro l
  induction l with
  | nil => intro _ _ p last base m hp he; simp [kidPrune, kidEnts, select]
  | cons x l ih =>
    intro ha hs p last base m hp he
    obtain ⟨k, v⟩ := x
    have ha' : Apart t l := ⟨fun m hm => ha.type m (by simp [hm]), fun m hm => ha.self m (by simp [hm]), (List.pairwise_cons.1 ha.other).2⟩
    have hs' : ∀ m ∈ l, Sends m.2 := fun m hm => hs m (by simp [hm])
    rw [select_kids]
    have hk : PathOk (p ++ [k]) := by
      intro y hy
      rcases List.mem_append.1 hy with h | h
      · exact hp y h
      · simp at h; rw [h]; exact ha.self (k, v) (by simp)
    obtain ⟨h1, h2⟩ := hs (k, v) (by simp) (p ++ [k]) last (base ++ keyTok k) m hk (he (k, v) (by simp))
    simp only at h1 h2
    cases hv : prune v m with
    | none =>
      have := ih ha' hs' p last base (m.drop (leafCount v)) hp fun x hx => he x (by simp [hx])
      rw [h1 hv]
      simp only [kidPrune, hv, Option.map_none, Option.toList_none, List.nil_append, below, List.map_nil] at this ⊢
      exact this
    | some v' =>
      obtain ⟨T, r, g1, g2⟩ := h2 v' hv
      refine ⟨by simp [kidPrune, hv], fun _ => ?_⟩
      rw [below_append, below_below]
      have hp1 : p ++ [k] ++ r = p ++ k :: r := by simp
      rw [hp1] at g1
      rw [proc_append _ _ _ g1]
      obtain ⟨i1, i2⟩ := ih ha' hs' p (p ++ k :: r) (unwind r false) (m.drop (leafCount v)) hp fun x hx =>
        enters_next hp ((List.pairwise_cons.1 ha.other).1 x hx) (by rw [ha.type (k, v) (by simp), ha'.type x hx])
      by_cases hn : kidPrune l (m.drop (leafCount v)) = []
      · rw [i1 hn]
        refine ⟨keyTok k ++ T, k, r, ?_, ha.type (k, v) (by simp), ?_⟩
        · simp [below, proc, Except.map]
        · simp [kidPrune, hv, hn, kidToks, g2]
      · obtain ⟨T', k', r', j1, j2, j3⟩ := i2 hn
        rw [j1]
        refine ⟨keyTok k ++ (T ++ (unwind r false ++ T')), k', r', ?_, j2, ?_⟩
        · simp [Except.map]
        · simp [kidPrune, hv, kidToks, g2, j3]

/-- A leaf. -/
theorem sends_leaf {v : JVal} (h1 : ents ixKey v = [([], v)]) (h2 : ∀ m, prune v m = if m.head? = some true then some v else none) :
    Sends v := by
  intro p last E m hp he
  rw [h1, h2]
  cases m with
  | nil => simp [select]
  | cons b m =>
    cases b with
    | false => simp [select]
    | true =>
      simp only [List.head?_cons, if_true, select, reduceCtorEq, false_imp_iff, Option.some.injEq, true_and]
      rintro v' rfl
      refine ⟨v.toks, [], ?_, by simp [unwind]⟩
      have := he []
      simp only [List.append_nil, follow] at this
      simp [below, proc, this, Except.bind, Except.map]

/-- Values for which the decoder sends what it should: sibling keys are different, arrays are not too long, nothing is
elided. -/
inductive Sep : JVal → Prop
  | scalar {s} : Sep (.scalar s)
  | arr {l} : l.length ≤ 2 ^ 53 → (∀ v ∈ l, Sep v) → Sep (.arr l false)
  | obj {l} : Apart .str l → (∀ m ∈ l, Sep m.2) → Sep (.obj l false)

theorem kidToks_items {l : List (Scalar × JVal)} (h : ∀ m ∈ l, m.1.type = .num) : kidToks l = itemToks (l.map Prod.snd) := by
  induction l with
  | nil => simp [kidToks]
  | cons m l ih =>
    obtain ⟨k, v⟩ := m
    have := h (k, v) (by simp)
    simp at this
    simp [kidToks, keyTok, this, ih fun m hm => h m (by simp [hm])]

theorem kidToks_members {l : List (Scalar × JVal)} (h : ∀ m ∈ l, m.1.type = .str) : kidToks l = memberToks l := by
  induction l with
  | nil => simp [kidToks]
  | cons m l ih =>
    obtain ⟨k, v⟩ := m
    have := h (k, v) (by simp)
    simp at this
    simp [kidToks, keyTok, this, ih fun m hm => h m (by simp [hm])]

theorem kidPrune_key {t : SType} : ∀ {l : List (Scalar × JVal)} {m : List Bool}, (∀ x ∈ l, x.1.type = t) →
    ∀ x ∈ kidPrune l m, x.1.type = t := by
  intro l
  induction l with
  | nil => intro m h; simp [kidPrune]
  | cons y l ih =>
    intro m h x hx
    obtain ⟨k, v⟩ := y
    simp only [kidPrune, List.mem_append] at hx
    rcases hx with hx | hx
    · cases hv : prune v m with
      | none => simp [hv] at hx
      | some v' => simp [hv] at hx; rw [hx]; exact h (k, v) (by simp)
    · exact ih (fun x hx => h x (by simp [hx])) x hx

/-! ## Index keys -/

section
open Rfc8259

theorem ofNat_digit {n : Nat} (h : n < 10) : (UInt8.ofNat (0x30 + n)).toNat = 0x30 + n := ofNat_toNat (by omega)

theorem digit_ofNat {n : Nat} (h : n < 10) : Digit (UInt8.ofNat (0x30 + n)) := by
  have := ofNat_digit h
  unfold Digit
  constructor <;> (rw [UInt8.le_iff_toNat_le, this]; simp; try omega)

theorem digitsVal_append (a : Bytes) (d : Byte) : digitsVal (a ++ [d]) = 10 * digitsVal a + (d.toNat - 0x30) := by
  simp [digitsVal]

theorem itoa_val (n : Nat) : digitsVal (itoa n) = n := by
  induction n using itoa.induct with
  | case1 n h =>
    rw [itoa, if_pos h]
    simp only [digitsVal, List.foldl_cons, List.foldl_nil, ofNat_digit h]
    omega
  | case2 n h ih =>
    rw [itoa, if_neg h, digitsVal_append, ih, ofNat_digit (Nat.mod_lt _ (by decide))]
    omega

theorem itoa_int (n : Nat) : IntPart (itoa n) := by
  induction n using itoa.induct with
  | case1 n h =>
    rw [itoa, if_pos h]
    by_cases h0 : n = 0
    · left; rw [h0]; rfl
    · right
      refine ⟨_, [], ?_, ?_, by simp, rfl⟩
      all_goals (rw [UInt8.le_iff_toNat_le, ofNat_digit h]; simp; omega)
  | case2 n h ih =>
    rw [itoa, if_neg h]
    rcases ih with h0 | ⟨d, ds, h1, h2, h3, h4⟩
    · have := itoa_val (n / 10)
      rw [h0] at this
      have e : digitsVal [0x30] = 0 := rfl
      omega
    · right
      refine ⟨d, ds ++ [UInt8.ofNat (0x30 + n % 10)], h1, h2, ?_, by rw [h4]; rfl⟩
      intro x hx
      rcases List.mem_append.1 hx with hx | hx
      · exact h3 x hx
      · simp only [List.mem_singleton] at hx
        rw [hx]; exact digit_ofNat (Nat.mod_lt _ (by decide))

theorem ixKey_self (n : Nat) : scalarEqual (ixKey n) (ixKey n) = some true := by simp [scalarEqual, ixKey]

theorem ixKey_other {a b : Nat} (h : a ≠ b) (ha : a < 2 ^ 53) (hb : b < 2 ^ 53) : scalarEqual (ixKey a) (ixKey b) = some false := by
  have e1 := number_index (itoa_int a) (by rw [itoa_val]; exact ha)
  have e2 := number_index (itoa_int b) (by rw [itoa_val]; exact hb)
  rw [itoa_val] at e1 e2
  have hne : itoa a ++ [0x5D] ≠ itoa b ++ [0x5D] := by
    intro e
    have := List.append_cancel_right e
    rw [← itoa_val a, ← itoa_val b, this] at h
    exact h rfl
  unfold scalarEqual
  simp only [ixKey, ne_eq, not_true_eq_false, if_false, if_neg hne, e1, e2, Option.some.injEq, decide_eq_false_iff_not]
  intro e
  have := Rat.intCast_inj.1 e
  omega

theorem number_mem {ix : Nat → Scalar} : ∀ {l : List JVal} {n : Nat} {x : Scalar × JVal}, x ∈ number ix n l →
    x.2 ∈ l ∧ ∃ k, n ≤ k ∧ k < n + l.length ∧ x.1 = ix k := by
  intro l
  induction l with
  | nil => intro n x hx; simp [number] at hx
  | cons v l ih =>
    intro n x hx
    simp only [number, List.mem_cons] at hx
    rcases hx with rfl | hx
    · exact ⟨by simp, n, Nat.le_refl _, by simp, rfl⟩
    · obtain ⟨h1, k, h2, h3, h4⟩ := ih hx
      exact ⟨by simp [h1], k, by omega, by simp; omega, h4⟩

theorem number_apart : ∀ (l : List JVal) (n : Nat), n + l.length ≤ 2 ^ 53 → Apart .num (number ixKey n l) := by
  intro l
  induction l with
  | nil => intro n _; exact ⟨by simp [number], by simp [number], by simp [number]⟩
  | cons v l ih =>
    intro n hn
    simp only [List.length_cons] at hn
    have hi := ih (n + 1) (by omega)
    refine ⟨?_, ?_, ?_⟩
    · intro m hm
      obtain ⟨-, k, -, -, e⟩ := number_mem hm
      rw [e]; rfl
    · intro m hm
      obtain ⟨-, k, -, -, e⟩ := number_mem hm
      rw [e]; exact ixKey_self k
    · simp only [number, List.pairwise_cons]
      refine ⟨?_, hi.other⟩
      intro m hm
      obtain ⟨-, k, h1, h2, e⟩ := number_mem hm
      rw [e]
      exact ixKey_other (by omega) (by omega) (by omega)

end

/-! ## Values -/

/-- A collection that is not empty. -/
theorem sends_node {v : JVal} {t : SType} {l : List (Scalar × JVal)} (hl : l ≠ []) (ha : Apart t l) (hs : ∀ m ∈ l, Sends m.2)
    (h1 : ents ixKey v = kidEnts ixKey l)
    (h2 : ∀ m, kidPrune l m = [] → prune v m = none)
    (h3 : ∀ m v', prune v m = some v' → v'.toks = (if t = .str then .startObj else .startArr) ::
      (kidToks (kidPrune l m) ++ [if t = .str then .endObj else .endArr]))
    (h4 : ∀ m, prune v m = none → kidPrune l m = []) : Sends v := by
  intro p last E m hp he
  rw [h1]
  have := sends_kids l ha hs p last (E ++ [if t = .str then .startObj else .startArr]) m hp fun x hx => by
    have := he.child x.1
    rwa [ha.type x hx] at this
  refine ⟨fun h => this.1 (h4 m h), fun v' hv' => ?_⟩
  have hne : kidPrune l m ≠ [] := by
    intro e
    rw [h2 m e] at hv'
    cases hv'
  obtain ⟨T, k, r, g1, g2, g3⟩ := this.2 hne
  refine ⟨(if t = .str then .startObj else .startArr) :: T, k :: r, ?_, ?_⟩
  · rw [g1]; simp
  · rw [h3 m v' hv', g3, unwind_cons]
    simp [closer, g2]

theorem sends_value {v : JVal} (h : Sep v) : Sends v := by
  induction v using JVal.induct with
  | scalar s => exact sends_leaf rfl fun m => by simp [prune]
  | arr l e ih =>
    cases h with
    | arr hl hs =>
      by_cases h0 : l.isEmpty = true
      · exact sends_leaf (by simp [ents, h0]) fun m => by simp [prune, h0]
      · refine sends_node (t := .num) (l := number ixKey 0 l) (number_ne h0) (number_apart l 0 (by omega)) ?_ ?_ ?_ ?_ ?_
        · intro m hm
          have := (number_mem hm).1
          exact ih _ this (hs _ this)
        · simp [ents, h0, ents_items]
        · intro m hm
          simp only [prune, h0, prune_items ixKey 0, hm]
          simp
        · intro m v' hv
          simp only [prune, h0, Bool.false_eq_true, if_false] at hv
          split at hv
          · cases hv
          · simp only [Option.some.injEq] at hv
            rw [← hv, kidToks_items (kidPrune_key (t := .num) (number_apart l 0 (by omega)).type), prune_items ixKey 0]
            simp [elisionToks]
        · intro m hm
          simp only [prune, h0, Bool.false_eq_true, if_false] at hm
          split at hm
          · rename_i hi
            rw [prune_items ixKey 0] at hi
            simpa using hi
          · cases hm
  | obj l e ih =>
    cases h with
    | obj ha hs =>
      by_cases h0 : l.isEmpty = true
      · exact sends_leaf (by simp [ents, h0]) fun m => by simp [prune, h0]
      · refine sends_node (t := .str) (l := l) (by simpa using h0) ha ?_ ?_ ?_ ?_ ?_
        · intro m hm
          exact ih _ hm (hs _ hm)
        · simp [ents, h0, ents_members]
        · intro m hm
          simp only [prune, h0, prune_members, hm]
          simp
        · intro m v' hv
          simp only [prune, h0, Bool.false_eq_true, if_false] at hv
          split at hv
          · cases hv
          · simp only [Option.some.injEq] at hv
            rw [← hv, kidToks_members (kidPrune_key ha.type), prune_members]
            simp [elisionToks]
        · intro m hm
          simp only [prune, h0, Bool.false_eq_true, if_false] at hm
          split at hm
          · rename_i hi
            rw [prune_members] at hi
            simpa using hi
          · cases hm

/-- What is sent for selected lines of a value. -/
theorem proc_selected {v : JVal} (h : Sep v) (m : List Bool) :
    ∃ ts last, proc [] (select (ents ixKey v) m) = .ok (ts, last) ∧
      ts ++ unwind last false = streamToks (prune v m).toList := by
  obtain ⟨h1, h2⟩ := sends_value h [] [] [] m (by intro k hk; cases hk) enters_nil
  have e : ∀ l, below [] l = l := by intro l; simp [below]
  cases hp : prune v m with
  | none => rw [h1 hp]; exact ⟨[], [], rfl, rfl⟩
  | some v' =>
    obtain ⟨T, r, g1, g2⟩ := h2 v' hp
    rw [e] at g1
    exact ⟨T, r, by simpa using g1, by simp [g2]⟩

end Verif.JpvTree
