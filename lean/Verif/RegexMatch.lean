import Verif.RegexChars

/-!
# Matching finds the strings of the language
-/

namespace Verif.GoRe
open Rfc9485 (Item Lang)

/-- A part of a class for the library. -/
def goItem (tab : List Nat → Option (Nat → Bool)) : Item → Nat → Bool
  | .range lo hi => rng lo hi
  | .cat neg n => fun c => (tab n).getD (fun _ => false) c != neg

/-- A regular expression for the library. -/
def toGo (tab : List Nat → Option (Nat → Bool)) : Rfc9485.Re → Re
  | .set neg items => .set neg (items.map (goItem tab))
  | .eps => .eps
  | .cat a b => .cat (toGo tab a) (toGo tab b)
  | .alt a b => .alt (toGo tab a) (toGo tab b)
  | .rep lo hi r => .rep lo hi (toGo tab r)

/-- The names of categories are known. -/
def knownItem (tab : List Nat → Option (Nat → Bool)) : Item → Bool
  | .range _ _ => true
  | .cat _ n => (tab n).isSome

/-- What the library accepts of I-Regexps. -/
def accepted (tab : List Nat → Option (Nat → Bool)) : Rfc9485.Re → Bool
  | .set _ items => items.all (knownItem tab)
  | .eps => true
  | .cat a b => accepted tab a && accepted tab b
  | .alt a b => accepted tab a && accepted tab b
  | .rep lo hi r => accepted tab r && !(1000 < lo || hi.any (1000 < ·) || hi.any (· < lo)) && repeatValid 1000 (.rep lo hi (toGo tab r))

section
variable {m : List Nat → List (List Nat)}

/-- What a matcher finds. -/
def Finds (m : List Nat → List (List Nat)) (L : List Nat → Prop) : Prop := ∀ s e, e ∈ m s ↔ ∃ w, s = w ++ e ∧ L w

variable {L : List Nat → Prop} (h : Finds m L)
include h

theorem mem_copies : ∀ (n : Nat) (s e : List Nat), e ∈ copies m n s ↔ ∃ ws : List (List Nat), ws.length = n ∧ (∀ w ∈ ws, L w) ∧ s = ws.flatten ++ e := by
  intro n
  induction n with
  | zero =>
    intro s e
    simp only [copies, List.mem_singleton, List.length_eq_zero_iff]
    constructor
    · rintro rfl; exact ⟨[], rfl, by simp, rfl⟩
    · rintro ⟨ws, rfl, -, h⟩; exact h.symm
  | succ n ih =>
    intro s e
    simp only [copies, List.mem_flatMap, ih]
    constructor
    · rintro ⟨s', hs', ws, h1, h2, rfl⟩
      obtain ⟨w, rfl, hw⟩ := (h _ _).mp hs'
      exact ⟨w :: ws, by simp [h1], by simpa using ⟨hw, h2⟩, by simp⟩
    · rintro ⟨ws, h1, h2, rfl⟩
      obtain ⟨w, ws, rfl⟩ := List.exists_cons_of_length_eq_add_one h1
      exact ⟨ws.flatten ++ e, (h _ _).mpr ⟨w, by simp, h2 w (by simp)⟩, ws, by simpa using h1, fun x hx => h2 x (by simp [hx]), rfl⟩

theorem mem_atMost : ∀ (n : Nat) (s e : List Nat), e ∈ atMost m n s ↔ ∃ ws : List (List Nat), ws.length ≤ n ∧ (∀ w ∈ ws, L w) ∧ s = ws.flatten ++ e := by
  intro n
  induction n with
  | zero =>
    intro s e
    simp only [atMost, List.mem_singleton, Nat.le_zero, List.length_eq_zero_iff]
    constructor
    · rintro rfl; exact ⟨[], rfl, by simp, rfl⟩
    · rintro ⟨ws, rfl, -, h⟩; exact h.symm
  | succ n ih =>
    intro s e
    simp only [atMost, List.mem_append, List.mem_flatMap, ih, List.mem_singleton]
    constructor
    · rintro (⟨s', hs', ws, h1, h2, rfl⟩ | rfl)
      · obtain ⟨w, rfl, hw⟩ := (h _ _).mp hs'
        exact ⟨w :: ws, by simp [h1], by simpa using ⟨hw, h2⟩, by simp⟩
      · exact ⟨[], by simp, by simp, rfl⟩
    · rintro ⟨ws, h1, h2, rfl⟩
      cases ws with
      | nil => exact .inr rfl
      | cons w ws =>
        exact .inl ⟨ws.flatten ++ e, (h _ _).mpr ⟨w, by simp, h2 w (by simp)⟩, ws, by simpa using h1, fun x hx => h2 x (by simp [hx]), rfl⟩

theorem plus_sound : ∀ (f : Nat) (s e : List Nat), e ∈ plus m f s →
    ∃ ws : List (List Nat), 1 ≤ ws.length ∧ (∀ w ∈ ws, L w) ∧ s = ws.flatten ++ e := by
  intro f
  induction f with
  | zero => intro s e he; simp [plus] at he
  | succ f ih =>
    intro s e he
    simp only [plus, List.mem_flatMap, List.mem_append, List.mem_singleton] at he
    obtain ⟨s', hs', he⟩ := he
    obtain ⟨w, rfl, hw⟩ := (h _ _).mp hs'
    rcases he with he | rfl
    · split at he
      · obtain ⟨ws, h1, h2, rfl⟩ := ih _ _ he
        exact ⟨w :: ws, by simp, by simpa using ⟨hw, h2⟩, by simp⟩
      · simp at he
    · exact ⟨[w], by simp, by simpa using hw, by simp⟩

theorem plus_complete : ∀ (ws : List (List Nat)) (w : List Nat) (f : Nat) (e : List Nat), (∀ x ∈ ws, L x ∧ x ≠ []) → L w → (ws ≠ [] → w ≠ []) →
    (w ++ ws.flatten ++ e).length < f → e ∈ plus m f (w ++ ws.flatten ++ e) := by
  intro ws
  induction ws with
  | nil =>
    intro w f e _ hw _ hf
    obtain ⟨f, rfl⟩ : ∃ f', f = f' + 1 := ⟨f - 1, by omega⟩
    simp only [plus, List.mem_flatMap, List.mem_append, List.mem_singleton]
    exact ⟨e, (h _ _).mpr ⟨w, by simp, hw⟩, .inr rfl⟩
  | cons x ws ih =>
    intro w f e hx hw hn hf
    have hn := hn (by simp)
    have hl : 0 < w.length := List.length_pos_iff.mpr hn
    obtain ⟨f, rfl⟩ : ∃ f', f = f' + 1 := ⟨f - 1, by omega⟩
    simp only [plus, List.mem_flatMap, List.mem_append, List.mem_singleton]
    refine ⟨x ++ ws.flatten ++ e, (h _ _).mpr ⟨w, by simp, hw⟩, .inl ?_⟩
    rw [if_pos (by simp; omega)]
    exact ih x f e (fun y hy => hx y (by simp [hy])) (hx x (by simp)).1 (fun _ => (hx x (by simp)).2) (by simp at hf ⊢; omega)

theorem mem_plus (s e : List Nat) : e ∈ plus m (s.length + 1) s ↔
    ∃ ws : List (List Nat), 1 ≤ ws.length ∧ (∀ w ∈ ws, L w) ∧ s = ws.flatten ++ e := by
  constructor
  · exact plus_sound h _ s e
  · rintro ⟨ws, h1, h2, rfl⟩
    have hfl : ∀ l : List (List Nat), l.flatten = (l.filter (fun x => !x.isEmpty)).flatten := by
      intro l
      induction l with
      | nil => rfl
      | cons x l ih => cases x <;> simp [List.filter, ih]
    rw [hfl ws]
    have hm : ∀ x ∈ ws.filter (fun x => !x.isEmpty), L x ∧ x ≠ [] := by
      intro x hx
      rw [List.mem_filter] at hx
      exact ⟨h2 x hx.1, by simpa using hx.2⟩
    cases hw : ws.filter (fun x => !x.isEmpty) with
    | nil =>
      cases ws with
      | nil => simp at h1
      | cons w ws =>
        have : w = [] := by
          rw [List.filter_eq_nil_iff] at hw
          simpa using hw w (by simp)
        subst this
        have := plus_complete h [] [] (([] : List Nat).length + e.length + 1) e (by simp) (h2 _ (by simp)) (by simp) (by simp)
        simpa using this
    | cons w ws' =>
      rw [hw] at hm
      have := plus_complete h ws' w ((w ++ ws'.flatten ++ e).length + 1) e (fun y hy => hm y (by simp [hy])) (hm w (by simp)).1
        (fun _ => (hm w (by simp)).2) (by omega)
      simpa using this

end

/-- The tables of the library are those of Unicode, for some names. -/
def TableOk (P : List Nat → Prop) (tab : List Nat → Option (Nat → Bool)) (gc : List Nat → Nat → Prop) : Prop :=
  ∀ n, P n → ∀ f, tab n = some f → ∀ c, f c = true ↔ gc n c

/-- The categories of an expression are among these. -/
def Named (P : List Nat → Prop) : Rfc9485.Re → Prop
  | .set _ items => ∀ neg n, Item.cat neg n ∈ items → P n
  | .eps => True
  | .cat a b => Named P a ∧ Named P b
  | .alt a b => Named P a ∧ Named P b
  | .rep _ _ r => Named P r

theorem Named.mono {P Q : List Nat → Prop} (h : ∀ n, P n → Q n) {r : Rfc9485.Re} (hr : Named P r) : Named Q r := by
  induction r with
  | set neg items => exact fun neg n hn => h n (hr neg n hn)
  | eps => trivial
  | cat a b iha ihb => exact ⟨iha hr.1, ihb hr.2⟩
  | alt a b iha ihb => exact ⟨iha hr.1, ihb hr.2⟩
  | rep lo hi r ih => exact ih hr

theorem item_has {P tab gc} (ht : TableOk P tab gc) {i : Item} (hk : knownItem tab i = true) (hn : ∀ neg n, i = .cat neg n → P n)
    (c : Nat) : goItem tab i c = true ↔ i.Has gc c := by
  cases i with
  | range lo hi => simp [goItem, rng, Item.Has]
  | cat neg n =>
    simp only [knownItem, Option.isSome_iff_exists] at hk
    obtain ⟨f, hf⟩ := hk
    have := ht n (hn neg n rfl) f hf c
    simp only [goItem, hf, Option.getD_some, Item.Has]
    rw [← this]
    cases f c <;> cases neg <;> simp

/-- What the matcher finds is the language. -/
theorem ends_finds {P tab gc} (ht : TableOk P tab gc) (n : Nat) : ∀ (r : Rfc9485.Re), accepted tab r = true → Named P r →
    Finds (ends n (toGo tab r)) (Lang gc r) := by
  intro r
  induction r with
  | set neg items =>
    intro ha hn s e
    simp only [accepted, List.all_eq_true] at ha
    simp only [toGo, Lang]
    have hx : ∀ c, ((items.map (goItem tab)).any fun i => i c) = true ↔ ∃ i ∈ items, i.Has gc c := by
      intro c
      simp only [List.any_map, List.any_eq_true, Function.comp]
      exact ⟨fun ⟨i, hi, h⟩ => ⟨i, hi, (item_has ht (ha i hi) (fun neg n e => hn neg n (e ▸ hi)) c).mp h⟩,
        fun ⟨i, hi, h⟩ => ⟨i, hi, (item_has ht (ha i hi) (fun neg n e => hn neg n (e ▸ hi)) c).mpr h⟩⟩
    cases s with
    | nil =>
      simp only [ends, List.not_mem_nil, false_iff]
      rintro ⟨w, h, c, rfl, -⟩
      simp at h
    | cons c s =>
      simp only [ends]
      have hc := hx c
      constructor
      · intro h
        split at h
        · rename_i hb
          simp only [List.mem_singleton] at h
          subst h
          refine ⟨[c], rfl, c, rfl, ?_⟩
          rw [← hc]
          revert hb
          cases ((items.map (goItem tab)).any fun i => i c) <;> cases neg <;> simp
        · simp at h
      · rintro ⟨w, h, c', rfl, hw⟩
        simp only [List.cons_append, List.nil_append, List.cons.injEq] at h
        obtain ⟨rfl, rfl⟩ := h
        rw [if_pos]
        · simp
        · rw [← hc] at hw
          revert hw
          cases ((items.map (goItem tab)).any fun i => i c) <;> cases neg <;> simp
  | eps =>
    intro _ _ s e
    simp only [toGo, ends, List.mem_singleton, Lang]
    constructor
    · rintro rfl; exact ⟨[], rfl, rfl⟩
    · rintro ⟨w, rfl, rfl⟩; rfl
  | cat a b iha ihb =>
    intro ha hn s e
    simp only [accepted, Bool.and_eq_true] at ha
    simp only [toGo, ends, List.mem_flatMap, Lang]
    constructor
    · rintro ⟨s', h1, h2⟩
      obtain ⟨x, rfl, hx⟩ := (iha ha.1 hn.1 _ _).mp h1
      obtain ⟨y, rfl, hy⟩ := (ihb ha.2 hn.2 _ _).mp h2
      exact ⟨x ++ y, by simp, x, y, rfl, hx, hy⟩
    · rintro ⟨w, rfl, x, y, rfl, hx, hy⟩
      exact ⟨y ++ e, (iha ha.1 hn.1 _ _).mpr ⟨x, by simp, hx⟩, (ihb ha.2 hn.2 _ _).mpr ⟨y, rfl, hy⟩⟩
  | alt a b iha ihb =>
    intro ha hn s e
    simp only [accepted, Bool.and_eq_true] at ha
    simp only [toGo, ends, List.mem_append, Lang]
    rw [iha ha.1 hn.1, ihb ha.2 hn.2]
    constructor
    · rintro (⟨w, h, hw⟩ | ⟨w, h, hw⟩)
      · exact ⟨w, h, .inl hw⟩
      · exact ⟨w, h, .inr hw⟩
    · rintro ⟨w, h, hw | hw⟩
      · exact .inl ⟨w, h, hw⟩
      · exact .inr ⟨w, h, hw⟩
  | rep lo hi r ih =>
    intro ha hn s e
    simp only [accepted, Bool.and_eq_true] at ha
    have hr := ih ha.1.1 hn
    have hb := ha.1.2
    cases hi with
    | some m =>
      have hle : lo ≤ m := by simp at hb; omega
      simp only [toGo, ends, List.mem_flatMap, Lang]
      constructor
      · rintro ⟨s', h1, h2⟩
        obtain ⟨ws, h1, h5, rfl⟩ := (mem_copies hr _ _ _).mp h1
        obtain ⟨vs, h3, h4, rfl⟩ := (mem_atMost hr _ _ _).mp h2
        have h2 := h5
        refine ⟨(ws ++ vs).flatten, by simp, ws ++ vs, rfl, by simp; omega, ?_, ?_⟩
        · intro k hk; cases hk; simp; omega
        · intro w hw
          rcases List.mem_append.mp hw with hw | hw
          · exact h2 w hw
          · exact h4 w hw
      · rintro ⟨w, rfl, ws, rfl, h1, h2, h3⟩
        have h2 := h2 m rfl
        refine ⟨(ws.drop lo).flatten ++ e, (mem_copies hr _ _ _).mpr ⟨ws.take lo, by simp; omega, fun w hw => h3 w (List.mem_of_mem_take hw), ?_⟩,
          (mem_atMost hr _ _ _).mpr ⟨ws.drop lo, by simp; omega, fun w hw => h3 w (List.mem_of_mem_drop hw), rfl⟩⟩
        rw [← List.append_assoc, ← List.flatten_append, List.take_append_drop]
    | none =>
      cases lo with
      | zero =>
        simp only [toGo, ends, List.mem_append, List.mem_singleton, Lang]
        rw [mem_plus hr]
        constructor
        · rintro (⟨ws, h1, h2, rfl⟩ | rfl)
          · exact ⟨ws.flatten, rfl, ws, rfl, by omega, by simp, h2⟩
          · exact ⟨[], rfl, [], rfl, by simp, by simp, by simp⟩
        · rintro ⟨w, rfl, ws, rfl, -, -, h3⟩
          cases ws with
          | nil => exact .inr rfl
          | cons w ws => exact .inl ⟨w :: ws, by simp, h3, rfl⟩
      | succ lo =>
        simp only [toGo, ends, List.mem_flatMap, Lang]
        constructor
        · rintro ⟨s', h1, h2⟩
          obtain ⟨ws, h1, h5, rfl⟩ := (mem_copies hr _ _ _).mp h1
          obtain ⟨vs, h3, h4, rfl⟩ := (mem_plus hr _ _).mp h2
          have h2 := h5
          refine ⟨(ws ++ vs).flatten, by simp, ws ++ vs, rfl, by simp; omega, by simp, ?_⟩
          intro w hw
          rcases List.mem_append.mp hw with hw | hw
          · exact h2 w hw
          · exact h4 w hw
        · rintro ⟨w, rfl, ws, rfl, h1, h2, h3⟩
          refine ⟨(ws.drop lo).flatten ++ e, (mem_copies hr _ _ _).mpr ⟨ws.take lo, by simp; omega, fun w hw => h3 w (List.mem_of_mem_take hw), ?_⟩,
            (mem_plus hr _ _).mpr ⟨ws.drop lo, by simp; omega, fun w hw => h3 w (List.mem_of_mem_drop hw), rfl⟩⟩
          rw [← List.append_assoc, ← List.flatten_append, List.take_append_drop]

/-! ## Positions -/

theorem findFrom_isSome (r : Re) (n : Nat) : ∀ s, (findFrom r n s).isSome = true ↔ ∃ x y, s = x ++ y ∧ ends n r y ≠ [] := by
  intro s
  induction s with
  | nil =>
    simp only [findFrom, Option.isSome_map]
    constructor
    · intro h
      exact ⟨[], [], rfl, by rintro e; simp [e] at h⟩
    · rintro ⟨x, y, h, hy⟩
      obtain ⟨rfl, rfl⟩ := List.append_eq_nil_iff.mp h.symm
      cases he : ends n r [] with
      | nil => exact absurd he hy
      | cons => rfl
  | cons c s ih =>
    simp only [findFrom]
    cases he : ends n r (c :: s) with
    | cons e l =>
      simp only [Option.isSome_some, true_iff]
      exact ⟨[], _, rfl, by simp [he]⟩
    | nil =>
      simp only [ih]
      constructor
      · rintro ⟨x, y, rfl, hy⟩; exact ⟨c :: x, y, rfl, hy⟩
      · rintro ⟨x, y, h, hy⟩
        cases x with
        | nil => rw [List.nil_append] at h; subst h; exact absurd he hy
        | cons d x =>
          simp only [List.cons_append, List.cons.injEq] at h
          exact ⟨x, y, h.2, hy⟩

theorem findFrom_start (r : Re) (n : Nat) : ∀ s i j, findFrom r n s = some (i, j) → n - s.length ≤ i := by
  intro s
  induction s with
  | nil =>
    intro i j h
    simp only [findFrom, Option.map_eq_some_iff, Prod.mk.injEq] at h
    obtain ⟨_, _, rfl, _⟩ := h
    simp
  | cons c s ih =>
    intro i j h
    simp only [findFrom] at h
    split at h
    · cases h; exact Nat.le_refl _
    · have := ih i j h
      simp; omega

/-- The whole text is found if it is the preferred match at the start. -/
theorem findFrom_whole (r : Re) (s : List Nat) (hs : ∀ e ∈ ends s.length r s, e.length ≤ s.length) :
    findFrom r s.length s = some (0, s.length) ↔ (ends s.length r s).head? = some [] := by
  cases s with
  | nil =>
    simp only [findFrom, List.length_nil, Option.map_eq_some_iff, Prod.mk.injEq, true_and, Nat.zero_sub, and_true]
    constructor
    · rintro ⟨e, he⟩
      have := hs e (List.mem_of_mem_head? (by simpa using he))
      rw [he]
      simpa using this
    · intro h; exact ⟨_, h⟩
  | cons c s =>
    simp only [findFrom]
    cases he : ends (c :: s).length r (c :: s) with
    | nil =>
      simp only [List.head?_nil, reduceCtorEq, iff_false]
      intro h
      have := findFrom_start r _ s _ _ h
      simp at this
    | cons e l =>
      have := hs e (by rw [he]; simp)
      simp only [List.head?_cons, Option.some.injEq, Prod.mk.injEq, Nat.sub_self, true_and]
      constructor
      · intro h
        exact List.length_eq_zero_iff.mp (by simp at h this; omega)
      · rintro rfl; simp

end Verif.GoRe
