import Verif.PathList
import Verif.PathCmp2
import Verif.Props.C35
import Verif.Props.C36

/-!
# Selections and their specification

The nodes that the engine selects are those of RFC 9535, selector by selector.
-/

set_option linter.unusedSimpArgs false
set_option linter.unusedVariables false

namespace Verif.JPath
open AState IProg GoJson Rfc9535

/-! ## Arrays -/

/-- What a selector that is not a filter selects. -/
theorem arr_pick (sel : Sel (JVal → Bool)) (hs : ∀ c, sel ≠ .filter c) (L : Int) (full : List JVal) : ∀ (l : List JVal) (i : Nat),
    full.drop i = l → pick sel (arrItems (l.map (none, ·)) i (negIndexAt L full.length i)) =
      (scan sel L full.length i l.length).filterMap (full[·]?) := by
  intro l
  induction l with
  | nil => intro i _; rfl
  | cons v l ih =>
    intro i hd
    have hv : full[i]? = some v := by
      have := congrArg List.head? hd
      simpa [List.head?_drop] using this
    have hl : full.drop (i + 1) = l := by rw [← List.drop_drop, hd]; rfl
    have := ih (i + 1) hl
    simp only [List.map_cons, arrItems, pick, scan, List.length_cons]
    have ht : ∀ d, tselects d v sel = d.yes := by intro d; cases sel <;> first | rfl | exact absurd rfl (hs _)
    rw [ht]
    rw [show ((i : Int) + 1) = ((i + 1 : Nat) : Int) from rfl]
    rw [show windowNext (negIndexAt L full.length i).1 (negIndexAt L full.length i).2 = negIndexAt L full.length (i + 1) from rfl]
    cases (sel.fromIndex (↑i) (negIndexAt L full.length i).1).yes <;> cases (sel.fromIndex (↑i) (negIndexAt L full.length i).1).more <;> simp [hv] <;> exact this

theorem pick_arr (sel : Sel (JVal → Bool)) (hs : ∀ c, sel ≠ .filter c) (L : Int) (l : List JVal) (e : Bool) :
    pick sel (items L (.arr l e)) = (scan sel L l.length 0 l.length).filterMap (l[·]?) := by
  have := arr_pick sel hs L l l 0 rfl
  simp only [items, JVal.members, List.length_map]
  exact this

/-! ## Filters and wildcards -/

theorem pick_filter (c : JVal → Bool) : ∀ (l : List Item), (∀ it ∈ l, it.1 (.filter c) = {}) → pick (.filter c) l = (l.map (·.2)).filter c
  | [], _ => rfl
  | (d, v) :: l, h => by
    have h1 := h (d, v) List.mem_cons_self
    have ih := pick_filter c l fun it hit => h it (List.mem_cons_of_mem _ hit)
    simp only at h1
    simp only [pick, h1, List.map_cons, List.filter_cons, tselects, ih]
    cases c v <;> simp

theorem pick_wild : ∀ (l : List Item), (∀ it ∈ l, it.1 .wild = { yes := true }) → pick .wild l = l.map (·.2)
  | [], _ => rfl
  | (d, v) :: l, h => by
    have h1 := h (d, v) List.mem_cons_self
    have ih := pick_wild l fun it hit => h it (List.mem_cons_of_mem _ hit)
    simp only at h1
    simp only [pick, h1, List.map_cons, tselects, ih]
    simp

theorem arrItems_dec : ∀ (l : List (Option Scalar × JVal)) (i : Int) (w : Int × Option Nat), ∀ it ∈ arrItems l i w, ∃ a b, it.1 = (·.fromIndex a b)
  | [], _, _, it, h => nomatch h
  | (_, v) :: l, i, w, it, h => by
    rcases List.mem_cons.1 h with rfl | h
    · exact ⟨_, _, rfl⟩
    · exact arrItems_dec l _ _ it h

theorem items_dec (L : Int) (v : JVal) : ∀ it ∈ items L v, (∃ a b, it.1 = (·.fromIndex a b)) ∨ ∃ k, it.1 = (·.fromKey k) := by
  intro it h
  cases v with
  | scalar k => cases h
  | arr l e => exact .inl (arrItems_dec _ _ _ it h)
  | obj l e =>
    simp only [items, objItems, List.mem_map] at h
    obtain ⟨m, -, rfl⟩ := h
    exact .inr ⟨_, rfl⟩

theorem items_children (L : Int) (v : JVal) : (items L v).map (·.2) = children v := by
  cases v with
  | scalar k => rfl
  | arr l e => simp only [items, arrItems_snd, JVal.members, List.map_map, children]; exact List.map_id l
  | obj l e => simp only [items, objItems_snd, JVal.members, List.map_map, children]; rfl

/-! ## Objects -/

theorem denM_keys : ∀ {ms : List (Scalar × JVal)} {kds : List (Bytes × Data)}, DenMBy val ms kds → ms.map (fun m => tkey (some m.1)) = kds.map (·.1)
  | [], _, h => by cases h; rfl
  | (k, v) :: ms, _, h => by
    cases h with
    | cons h1 h2 h3 =>
      rw [List.map_cons, List.map_cons, denM_keys h3]
      simp only [tkey, Option.bind_some, toStr_ok h1, Option.getD_some]

theorem denM_key {ms : List (Scalar × JVal)} {kds : List (Bytes × Data)} (h : DenMBy val ms kds) (n : Bytes) : ∀ m ∈ ms, (tkey (some m.1) = n ↔ StrIs m.1 n) := by
  intro m hm
  obtain ⟨⟨s, hs⟩, -⟩ := h.mem m hm
  have : tkey (some m.1) = s := by simp only [tkey, Option.bind_some, toStr_ok hs, Option.getD_some]
  rw [this]
  constructor
  · rintro rfl; exact hs
  · exact fun h' => strIs_unique hs h'

open Classical in
/-- The member with a name. -/
theorem name_first (n : Bytes) : ∀ (ms : List (Scalar × JVal)), (∀ m ∈ ms, (tkey (some m.1) = n ↔ StrIs m.1 n)) →
    (ms.map (fun m => tkey (some m.1))).Nodup →
    (ms.flatMap fun m => if StrIs m.1 n then [m.2] else []) = (nameVal n (ms.map fun m => (some m.1, m.2))).toList
  | [], _, _ => rfl
  | m :: ms, h, hn => by
    have ih := name_first n ms (fun m hm => h m (List.mem_cons_of_mem _ hm)) (by rw [List.map_cons, List.nodup_cons] at hn; exact hn.2)
    have h1 := h m List.mem_cons_self
    simp only [List.flatMap_cons, List.map_cons, nameVal]
    by_cases hc : tkey (some m.1) = n
    · rw [if_pos (h1.1 hc), if_pos hc]
      simp only [Option.toList_some]
      rw [List.map_cons, List.nodup_cons] at hn
      have : (ms.flatMap fun m => if StrIs m.1 n then [m.2] else []) = [] := by
        rw [List.flatMap_eq_nil_iff]
        intro m' hm'
        rw [if_neg]
        intro hs
        have := (h m' (List.mem_cons_of_mem _ hm')).2 hs
        exact hn.1 (List.mem_map.2 ⟨m', hm', by rw [this, hc]⟩)
      rw [this]; rfl
    · rw [if_neg (fun e => hc (h1.2 e)), if_neg hc]
      exact ih

theorem pick_name (n : Bytes) : ∀ (ms : List (Scalar × JVal)), pick (.name n) (objItems (ms.map fun m => (some m.1, m.2))) =
    (nameVal n (ms.map fun m => (some m.1, m.2))).toList
  | [] => rfl
  | m :: ms => by
    have ih := pick_name n ms
    have hd : ∀ c : Bool, (Sel.name n : Sel (JVal → Bool)).fromKey (tkey (some m.1)) = if tkey (some m.1) = n then { yes := true, more := false } else { no := true } :=
      fun _ => rfl
    simp only [List.map_cons, nameVal]
    rw [show objItems ((some m.1, m.2) :: ms.map fun m => (some m.1, m.2)) =
      ((·.fromKey (tkey (some m.1))), m.2) :: objItems (ms.map fun m => (some m.1, m.2)) from rfl]
    by_cases hc : tkey (some m.1) = n
    · have h1 := hd true
      rw [if_pos hc] at h1
      simp only [pick, h1, tselects, if_pos hc]
      rfl
    · have h1 := hd true
      rw [if_neg hc] at h1
      simp only [pick, h1, tselects, if_neg hc]
      exact ih

theorem nameNodes_obj {ms : List (Scalar × JVal)} {e : Bool} {d : Data} (h : DenBy val (.obj ms e) d) (n : Bytes) :
    nameNodes n (.obj ms e) = (nameVal n (ms.map fun m => (some m.1, m.2))).toList := by
  cases h with
  | obj h1 h2 => exact name_first n ms (denM_key h1 n) (by rw [denM_keys h1]; exact h2)

theorem pick_stop (sel : Sel (JVal → Bool)) (hs : ∀ c, sel ≠ .filter c) : ∀ (l : List Item), (∀ it ∈ l, it.1 sel = { no := true, more := false }) → pick sel l = []
  | [], _ => rfl
  | (d, v) :: l, h => by
    have h1 := h (d, v) List.mem_cons_self
    have ht : ∀ d, tselects d v sel = d.yes := by intro d; cases sel <;> first | rfl | exact absurd rfl (hs _)
    simp only at h1
    simp only [pick, h1, ht]
    rfl

/-! ## Selectors -/

/-- What is asked of selectors: integers are in the range of I-JSON; slices go forward, from a start that need not be clamped. -/
def SelOk : Selector → Prop
  | .index i => IJson i
  | .slice a b c => (∀ x, a = some x → IJson x) ∧ (∀ x, b = some x → IJson x) ∧ IJson c ∧ 0 ≤ c ∧ (c ≤ 1 ∨ ∀ x, a = some x → 0 ≤ x)
  | _ => True

/-- Slices that go backward: integers are in the range of I-JSON, and the start need not be clamped. -/
def SelBack : Selector → Prop
  | .slice a b c => (∀ x, a = some x → IJson x) ∧ (∀ x, b = some x → IJson x) ∧ IJson c ∧ c < 0 ∧ (c = -1 ∨ ∀ x, a = some x → x < 0)
  | _ => False

section
variable (re : Sem) (root : JVal)

open Classical in
/-- The selector, with the specified conditions. -/
noncomputable def selSpec : Selector → Sel (JVal → Bool)
  | .name n => .name n
  | .wild => .wild
  | .index i => .index i
  | .slice a b c => compileSlice a b c
  | .filter c => .filter fun v => decide (holds re root c v)

/-- The segment. -/
noncomputable def segSpec : Segment → Seg (JVal → Bool)
  | .mk desc sels => ⟨desc, sels.map (selSpec re root)⟩

theorem selSpec_compiled {s : Selector} (h : SelOk s ∨ SelBack s) : Compiled (selSpec re root s) := by
  cases s with
  | name n => exact .name n
  | wild => exact .wild
  | index i => exact .index i (h.elim id False.elim)
  | slice a b c => exact h.elim (fun h => .slice a b c h.1 h.2.1 h.2.2.1) (fun h => .slice a b c h.1 h.2.1 h.2.2.1)
  | filter c => exact .filter _

theorem selSpec_reverses {s : Selector} (h : SelOk s) : (selSpec re root s).reverses = false := by
  cases s with
  | slice a b c => exact compileSlice_reverses a b c h.2.2.2.1
  | _ => rfl

theorem slice_not_filter (a b : Option Int) (s : Int) (c : JVal → Bool) : (compileSlice a b s : Sel (JVal → Bool)) ≠ .filter c := by
  unfold compileSlice
  split
  · exact fun h => by cases h
  · split
    · simp only; split <;> exact fun h => by cases h
    · simp only; split <;> exact fun h => by cases h

/-- Selectors select what RFC 9535 says. -/
theorem pick_spec {sels : List Selector} (hs : ∀ s ∈ sels, SelOk s ∨ SelBack s) {s : Selector} (hm : s ∈ sels) {v : JVal} {d : Data} (hv : DenBy val v d)
    (hn : (v.toks.length : Int) ≤ maxInt64) :
    ord (selSpec re root s) (pick (selSpec re root s) (items (segLookahead (sels.map (selSpec re root))) v)) = selNodes re root s v := by
  have hc : ∀ s ∈ sels.map (selSpec re root), Compiled s := by
    intro s' hs'
    obtain ⟨s, h, rfl⟩ := List.mem_map.1 hs'
    exact selSpec_compiled re root (hs s h)
  have hmem : selSpec re root s ∈ sels.map (selSpec re root) := List.mem_map.2 ⟨s, hm, rfl⟩
  have hok := hs s hm
  generalize sels.map (selSpec re root) = S at *
  cases s with
  | wild =>
    rw [ord_forward (by rfl), show selSpec re root .wild = .wild from rfl, pick_wild, items_children]
    · rw [selNodes]
    · intro it hit
      rcases items_dec _ v it hit with ⟨a, b, e⟩ | ⟨k, e⟩ <;> rw [e] <;> rfl
  | filter c =>
    rw [ord_forward (by rfl), selSpec, pick_filter, items_children]
    · rw [selNodes]
    · intro it hit
      rcases items_dec _ v it hit with ⟨a, b, e⟩ | ⟨k, e⟩ <;> rw [e] <;> rfl
  | name n =>
    rw [selNodes, ord_forward (by rfl)]
    cases v with
    | scalar k => rfl
    | arr l e =>
      rw [selSpec, pick_stop _ (fun c h => by cases h)]
      · rfl
      · intro it hit
        obtain ⟨a, b, e⟩ := arrItems_dec _ _ _ it hit
        rw [e]; rfl
    | obj ms e =>
      rw [nameNodes_obj hv]
      exact pick_name n ms
  | index i =>
    rw [selNodes, ord_forward (by rfl)]
    have hok := hok.elim id False.elim
    cases v with
    | scalar k => rfl
    | obj ms e =>
      rw [selSpec, pick_stop _ (fun c h => by cases h)]
      · rfl
      · intro it hit
        simp only [items, objItems, List.mem_map] at hit
        obtain ⟨m, -, rfl⟩ := hit
        rfl
    | arr l e =>
      rw [selSpec, pick_arr _ (fun c h => by cases h)]
      have := C35_index i hok S hc hmem l.length (by
        have := (members_len (.arr l e)).1
        simp only [JVal.members, List.length_map] at this
        omega)
      have h2 : scan (.index i : Sel (JVal → Bool)) (segLookahead S) l.length 0 l.length = (Rfc9535.index i l.length).toList := this
      rw [h2]
      show _ = ((Rfc9535.index i l.length).bind (l[·]?)).toList
      generalize Rfc9535.index i l.length = o
      cases o with
      | none => rfl
      | some a => cases hx : l[a]? <;> simp [hx]
  | slice a b c =>
    rw [selNodes]
    cases v with
    | scalar k => simp [items, pick, sliceNodes, ord]
    | obj ms e =>
      rw [selSpec, pick_stop _ (slice_not_filter a b c)]
      · simp [sliceNodes, ord]
      · intro it hit
        simp only [items, objItems, List.mem_map] at hit
        obtain ⟨m, -, rfl⟩ := hit
        unfold compileSlice
        split
        · rfl
        · split
          · simp only; split <;> rfl
          · simp only; split <;> rfl
    | arr l e =>
      rw [selSpec, pick_arr _ (slice_not_filter a b c)]
      have hlen : (l.length : Int) ≤ maxInt64 := by
        have := (members_len (.arr l e)).1
        simp only [JVal.members, List.length_map] at this
        omega
      have key : selected (compileSlice a b c : Sel (JVal → Bool)) (segLookahead S) l.length = Rfc9535.slice a b c l.length := by
        rcases hok with ⟨h1, h2, h3, h4, h5⟩ | ⟨h1, h2, h3, h4, h5⟩
        · refine (C36_exactly_when a b c h1 h2 h3 S hmem l.length hlen).2 ⟨fun hc => ?_, fun hc => by omega⟩
          rcases h5 with h5 | h5
          · rw [show c = 1 by omega]; exact .inr (.inl (Int.one_dvd _))
          · left
            cases a with
            | none =>
              rw [show startOf none c l.length = 0 by unfold startOf; rw [if_pos (by omega)]; rfl]
              unfold normalize; simp
            | some x =>
              have := h5 x rfl
              show 0 ≤ normalize x _
              unfold normalize; rw [if_pos this]; exact this
        · refine (C36_exactly_when a b c h1 h2 h3 S hmem l.length hlen).2 ⟨fun hc => by omega, fun hc => ?_⟩
          rcases h5 with h5 | h5
          · rw [h5]; exact .inr (.inl (Int.neg_dvd.2 (Int.one_dvd _)))
          · left
            cases a with
            | none =>
              rw [show startOf none c l.length = l.length - 1 by unfold startOf; rw [if_neg (by omega)]; rfl]
              unfold normalize; split <;> omega
            | some x =>
              have := h5 x rfl
              show normalize x _ ≤ _
              unfold normalize; rw [if_neg (by omega)]; omega
      show _ = (Rfc9535.slice a b c l.length).filterMap (l[·]?)
      rw [← key]
      unfold selected ord
      split
      · rw [List.filterMap_reverse]
      · rfl

theorem selsNodes_eq (sels : List Selector) (v : JVal) : selsNodes re root sels v = sels.flatMap fun s => selNodes re root s v := by
  induction sels with
  | nil => rw [selsNodes]; rfl
  | cons s l ih => rw [selsNodes, ih]; rfl

theorem pickAll_spec {sels : List Selector} (hs : ∀ s ∈ sels, SelOk s ∨ SelBack s) {v : JVal} {d : Data} (hv : DenBy val v d)
    (hn : (v.toks.length : Int) ≤ maxInt64) : pickAll (sels.map (selSpec re root)) v = selsNodes re root sels v := by
  rw [selsNodes_eq]
  unfold pickAll
  rw [List.flatMap_map]
  exact flatMap_congr' fun s hm => pick_spec re root hs hm hv hn

end

mutual
theorem descendants_eq : ∀ v : JVal, descendants v = subs v
  | .scalar k => by simp only [descendants, subs]
  | .arr l e => by simp only [descendants, subs, descendantsL_eq l]
  | .obj ms e => by simp only [descendants, subs, descendantsM_eq ms]
theorem descendantsL_eq : ∀ l : List JVal, descendantsL l = subsL l
  | [] => by simp only [descendantsL, subsL]
  | v :: l => by simp only [descendantsL, subsL, descendants_eq v, descendantsL_eq l]
theorem descendantsM_eq : ∀ l : List (Scalar × JVal), descendantsM l = subsM l
  | [] => by simp only [descendantsM, subsM]
  | (_, v) :: l => by simp only [descendantsM, subsM, descendants_eq v, descendantsM_eq l]
end

mutual
/-- A value is its first descendant; descendants are shorter; descendants of descendants are descendants. -/
theorem desc_self (v : JVal) : v ∈ descendants v := by rw [descendants_eq, subs_eq]; exact List.mem_cons_self
end

theorem desc_cons (v : JVal) : descendants v = v :: v.members.flatMap fun m => descendants m.2 := by
  rw [descendants_eq, subs_eq]
  congr 1
  exact flatMap_congr' fun m _ => (descendants_eq m.2).symm

theorem desc_ind {P : JVal → Prop} (h : ∀ v, P v → ∀ m ∈ v.members, P m.2) : ∀ (n : Nat) (v : JVal), v.toks.length ≤ n → P v → ∀ w ∈ descendants v, P w := by
  intro n
  induction n with
  | zero => intro v hv; have := toks_pos v; omega
  | succ n ih =>
    intro v hv hp w hw
    rw [desc_cons] at hw
    rcases List.mem_cons.1 hw with rfl | hw
    · exact hp
    · obtain ⟨m, hm, hw⟩ := List.mem_flatMap.1 hw
      exact ih m.2 (by have := (members_len v).2 m hm; omega) (h v hp m hm) w hw

theorem desc_trans {u v w : JVal} (h1 : v ∈ descendants u) (h2 : w ∈ descendants v) : w ∈ descendants u := by
  refine desc_ind (P := fun w => w ∈ descendants u) ?_ _ v (Nat.le_refl _) h1 w h2
  intro v hv m hm
  have key : ∀ (n : Nat) (u : JVal), u.toks.length ≤ n → v ∈ descendants u → m.2 ∈ descendants u := by
    intro n
    induction n with
    | zero => intro u hu; have := toks_pos u; omega
    | succ n ih =>
      intro u hu hv
      rw [desc_cons] at hv ⊢
      rcases List.mem_cons.1 hv with rfl | hv
      · exact List.mem_cons_of_mem _ (List.mem_flatMap.2 ⟨m, hm, desc_self _⟩)
      · obtain ⟨m', hm', hv⟩ := List.mem_flatMap.1 hv
        exact List.mem_cons_of_mem _ (List.mem_flatMap.2 ⟨m', hm', ih m'.2 (by have := (members_len u).2 m' hm'; omega) hv⟩)
  exact key _ u (Nat.le_refl _) hv

theorem desc_member {v : JVal} {m : Option Scalar × JVal} (hm : m ∈ v.members) : m.2 ∈ descendants v := by
  rw [desc_cons]; exact List.mem_cons_of_mem _ (List.mem_flatMap.2 ⟨m, hm, desc_self _⟩)

theorem desc_len {u v : JVal} (h : v ∈ descendants u) : v.toks.length ≤ u.toks.length :=
  desc_ind (P := fun w => w.toks.length ≤ u.toks.length) (fun v hv m hm => by have := (members_len v).2 m hm; omega) _ u (Nat.le_refl _)
    (Nat.le_refl _) v h

theorem den_member {v : JVal} {d : Data} (h : DenBy val v d) : ∀ m ∈ v.members, ∃ d, DenBy val m.2 d := by
  intro m hm
  cases h with
  | arr h1 =>
    simp only [JVal.members, List.mem_map] at hm
    obtain ⟨w, hw, rfl⟩ := hm
    exact h1.mem w hw
  | obj h1 h2 =>
    simp only [JVal.members, List.mem_map] at hm
    obtain ⟨w, hw, rfl⟩ := hm
    exact (h1.mem w hw).2
  | _ => cases hm

theorem den_desc {u v : JVal} {d : Data} (h : DenBy val u d) (hv : v ∈ descendants u) : ∃ d, DenBy val v d :=
  desc_ind (P := fun w => ∃ d, DenBy val w d) (fun v ⟨d, hd⟩ => den_member hd) _ u (Nat.le_refl _) ⟨d, h⟩ v hv

/-! ## Queries -/

section
variable (re : Sem) (root : JVal)

theorem child_member {v w : JVal} (h : w ∈ children v) : ∃ m ∈ v.members, m.2 = w := by
  cases v with
  | scalar k => cases h
  | arr l e => exact ⟨(none, w), List.mem_map.2 ⟨w, h, rfl⟩, rfl⟩
  | obj ms e =>
    obtain ⟨m, hm, rfl⟩ := List.mem_map.1 h
    exact ⟨(some m.1, m.2), List.mem_map.2 ⟨m, hm, rfl⟩, rfl⟩

theorem nameNodes_child {n : Bytes} {v w : JVal} (h : w ∈ nameNodes n v) : w ∈ children v := by
  cases v with
  | obj ms e =>
    simp only [nameNodes, List.mem_flatMap] at h
    obtain ⟨m, hm, h⟩ := h
    split at h
    · simp only [List.mem_singleton] at h
      subst h
      exact List.mem_map.2 ⟨m, hm, rfl⟩
    · cases h
  | _ => cases h

theorem indexNodes_child {i : Int} {v w : JVal} (h : w ∈ indexNodes i v) : w ∈ children v := by
  cases v with
  | arr l e =>
    simp only [indexNodes, Option.mem_toList, Option.bind_eq_some_iff] at h
    obtain ⟨j, -, h⟩ := h
    exact List.mem_of_getElem? h
  | _ => cases h

theorem selNodes_child {s : Selector} {v w : JVal} (h : w ∈ selNodes re root s v) : w ∈ children v := by
  cases s with
  | name n => rw [selNodes] at h; exact nameNodes_child h
  | wild => rw [selNodes] at h; exact h
  | index i => rw [selNodes] at h; exact indexNodes_child h
  | slice a b c =>
    rw [selNodes] at h
    cases v with
    | arr l e =>
      simp only [sliceNodes, List.mem_filterMap] at h
      obtain ⟨j, -, h⟩ := h
      exact List.mem_of_getElem? h
    | _ => cases h
  | filter c => rw [selNodes] at h; exact (List.mem_filter.1 h).1

theorem selsNodes_desc {sels : List Selector} {v w : JVal} (h : w ∈ selsNodes re root sels v) : w ∈ descendants v := by
  rw [selsNodes_eq] at h
  obtain ⟨s, -, h⟩ := List.mem_flatMap.1 h
  obtain ⟨m, hm, rfl⟩ := child_member (selNodes_child re root h)
  exact desc_member hm

theorem rfcSegNodes_desc {s : Segment} {v w : JVal} (h : w ∈ Rfc9535.segNodes re root s v) : w ∈ descendants v := by
  obtain ⟨desc, sels⟩ := s
  rw [Rfc9535.segNodes] at h
  split at h
  · obtain ⟨u, h1, h2⟩ := List.mem_flatMap.1 h
    exact desc_trans h1 (selsNodes_desc re root h2)
  · exact selsNodes_desc re root h

theorem nodes_desc : ∀ {segs : List Segment} {v w : JVal}, w ∈ nodes re root segs v → w ∈ descendants v
  | [], v, w, h => by rw [nodes] at h; simp only [List.mem_singleton] at h; subst h; exact desc_self _
  | s :: segs, v, w, h => by
    rw [nodes] at h
    obtain ⟨u, h1, h2⟩ := List.mem_flatMap.1 h
    exact desc_trans (rfcSegNodes_desc re root h1) (nodes_desc h2)

/-- The segment is one of those treated. -/
def SegOk : Segment → Prop
  | .mk _ sels => ∀ s ∈ sels, SelOk s

/-- The segment is one of those treated, or may go backward. -/
def SegOk' : Segment → Prop
  | .mk _ sels => ∀ s ∈ sels, SelOk s ∨ SelBack s

theorem SegOk.back {s : Segment} (h : SegOk s) : SegOk' s := by
  obtain ⟨d, sels⟩ := s
  exact fun s hs => .inl (h s hs)

theorem segNodes_spec {s : Segment} (hs : SegOk' s) {v : JVal} {d : Data} (hv : DenBy val v d) (hn : (v.toks.length : Int) ≤ maxInt64) :
    segNodes (segSpec re root s) v = Rfc9535.segNodes re root s v := by
  obtain ⟨desc, sels⟩ := s
  rw [Rfc9535.segNodes]
  unfold segNodes segSpec
  simp only
  split
  · rw [descendants_eq]
    refine flatMap_congr' fun w hw => ?_
    rw [← descendants_eq] at hw
    obtain ⟨d', hd⟩ := den_desc hv hw
    exact pickAll_spec re root hs hd (by have := desc_len hw; omega)
  · exact pickAll_spec re root hs hv hn

/-- Queries select what RFC 9535 says. -/
theorem nodes_spec' : ∀ {segs : List Segment}, (∀ s ∈ segs, SegOk' s) → ∀ {v : JVal} {d : Data}, DenBy val v d → (v.toks.length : Int) ≤ maxInt64 →
    tnodes (segs.map (segSpec re root)) v = nodes re root segs v
  | [], _, v, d, _, _ => by rw [nodes]; rfl
  | s :: segs, hs, v, d, hv, hn => by
    rw [nodes]
    simp only [List.map_cons, tnodes]
    rw [segNodes_spec re root (hs s List.mem_cons_self) hv hn]
    refine flatMap_congr' fun w hw => ?_
    have hw := rfcSegNodes_desc re root hw
    obtain ⟨d', hd⟩ := den_desc hv hw
    exact nodes_spec' (fun s h => hs s (List.mem_cons_of_mem _ h)) hd (by have := desc_len hw; omega)

theorem nodes_spec {segs : List Segment} (h : ∀ s ∈ segs, SegOk s) {v : JVal} {d : Data} : DenBy val v d → (v.toks.length : Int) ≤ maxInt64 →
    tnodes (segs.map (segSpec re root)) v = nodes re root segs v := nodes_spec' re root fun s hs => (h s hs).back

end

/-! ## Singular queries -/

theorem indexVal_nonneg {j : Int} (hj : 0 ≤ j) : ∀ (l : List (Option Scalar × JVal)) (i : Int) (w w' : Int × Option Nat),
    indexVal j l i w = indexVal j l i w'
  | [], _, _, _ => rfl
  | m :: l, i, w, w' => by
    simp only [indexVal]
    rw [indexVal_nonneg hj l _ (windowNext w.1 w.2) (windowNext w'.1 w'.2)]
    have : ∀ a b : Int, (Sel.index j : Sel Unit).fromIndex i a = (Sel.index j : Sel Unit).fromIndex i b := by
      intro a b
      simp only [Sel.fromIndex, Sel.offset, if_neg (show ¬ j < 0 by omega)]
    rw [this w.1 w'.1]

theorem indexVal_at {j : Int} (hj : IJson j) (L : Int) (hL0 : 0 ≤ L) (hL1 : L ≤ maxInt64) (hL : (Sel.index j : Sel Unit).lookahead ≤ L) (full : List JVal)
    (hn : (full.length : Int) ≤ maxInt64) : ∀ (l : List JVal) (i : Nat), full.drop i = l →
    indexVal j (l.map (none, ·)) i (negIndexAt L full.length i) = if i ≤ normalize j full.length then full[(normalize j full.length).toNat]? else none := by
  intro l
  induction l with
  | nil =>
    intro i hd
    have : full.length ≤ i := by simpa using hd
    simp only [List.map_nil, indexVal]
    split
    · symm; simp; omega
    · rfl
  | cons v l ih =>
    intro i hd
    have hv : full[i]? = some v := by
      have := congrArg List.head? hd
      simpa [List.head?_drop] using this
    have hi : i < full.length := by
      have := congrArg List.length hd
      simp at this; omega
    have hl : full.drop (i + 1) = l := by rw [← List.drop_drop, hd]; rfl
    have := ih (i + 1) hl
    simp only [List.map_cons, indexVal]
    rw [fromIndex_window _ (.index j hj) L hL0 hL1 hL _ i hi hn]
    have hj1 : minInt64 ≤ j := by unfold IJson minInt64 at *; omega
    have hj2 : j ≤ maxInt64 := by unfold IJson maxInt64 at *; omega
    simp only [Sel.fromIndex, offset_normal j hj1 hj2 _ i hi hn]
    rw [show windowNext (negIndexAt L full.length i).1 (negIndexAt L full.length i).2 = negIndexAt L full.length (i + 1) from rfl,
      show ((i : Int) + 1) = ((i + 1 : Nat) : Int) from rfl, this]
    by_cases c1 : (i : Int) - normalize j full.length > 0
    · rw [if_pos c1, if_neg (by decide), if_neg (by omega), if_neg (by omega)]
    · rw [if_neg c1]
      by_cases c2 : (i : Int) - normalize j full.length = 0
      · rw [if_pos c2, if_pos rfl, if_pos (by omega), show (normalize j full.length).toNat = i by omega, hv]
      · rw [if_neg c2, if_neg (by decide)]
        by_cases c3 : ((i + 1 : Nat) : Int) ≤ normalize j full.length
        · rw [if_pos c3, if_pos (by omega)]
        · rw [if_neg c3, if_neg (by omega)]

theorem indexNodes_arr {j : Int} (hj : IJson j) (l : List JVal) (e : Bool) (hn : (l.length : Int) ≤ maxInt64) :
    indexNodes j (.arr l e) = (indexValOf j (JVal.arr l e).members).toList := by
  have hle : (Sel.index j : Sel Unit).lookahead = max (-j) 0 := by
    simp only [Sel.lookahead]
    split
    · rw [i64_id _ (by unfold IJson minInt64 at *; omega) (by unfold IJson maxInt64 at *; omega)]; omega
    · omega
  have h1 : indexValOf j (JVal.arr l e).members = indexVal j (l.map (none, ·)) (0 : Nat) (negIndexAt (max (-j) 0) l.length 0) := by
    unfold indexValOf
    rw [hle]
    simp only [JVal.members, List.length_map]
    by_cases c : 0 ≤ j
    · exact indexVal_nonneg c _ _ _ _
    · rw [if_pos (by omega)]; rfl
  rw [h1, indexVal_at hj _ (by omega) (by unfold IJson maxInt64 at *; omega) (by rw [hle]; exact Int.le_refl _) l hn l 0 rfl]
  unfold indexNodes Rfc9535.index normalize
  by_cases c : 0 ≤ j
  · simp only [if_pos c]
    by_cases c2 : j < l.length
    · rw [if_pos ⟨c, c2⟩, if_pos (by omega)]; rfl
    · rw [if_neg (by omega), if_neg (by omega), if_pos (by omega)]
      rw [List.getElem?_eq_none (by omega)]
      rfl
  · simp only [if_neg c]
    rw [if_neg (by omega)]
    by_cases c2 : -j ≤ l.length
    · rw [if_pos ⟨by omega, c2⟩, if_pos (by omega)]; rfl
    · rw [if_neg (by omega), if_neg (by omega)]; rfl

/-- The indexes of a singular query are I-JSON integers. -/
def SingOk (segs : List SingSeg) : Prop := ∀ i, .index i ∈ segs → IJson i

theorem singNodes_spec : ∀ {segs : List SingSeg}, SingOk segs → ∀ {v : JVal} {d : Data}, DenBy val v d → (v.toks.length : Int) ≤ maxInt64 →
    singNodes segs v = (singVal segs v).toList
  | [], _, v, d, _, _ => rfl
  | .name n :: segs, hs, v, d, hv, hn => by
    have hs' : SingOk segs := fun i h => hs i (List.mem_cons_of_mem _ h)
    cases v with
    | obj ms e =>
      simp only [singNodes, singVal]
      rw [nameNodes_obj hv]
      cases hx : nameVal n ((JVal.obj ms e).members) with
      | none =>
        have hx : nameVal n (ms.map fun m => (some m.1, m.2)) = none := hx
        rw [hx]; rfl
      | some w =>
        have hx' : nameVal n (ms.map fun m => (some m.1, m.2)) = some w := hx
        rw [hx']
        obtain ⟨m, hm, rfl⟩ := nameVal_mem hx
        obtain ⟨d', hd⟩ := den_member hv m hm
        have := singNodes_spec hs' hd (by have := (members_len (.obj ms e)).2 m hm; omega)
        simp [this]
    | _ => rfl
  | .index j :: segs, hs, v, d, hv, hn => by
    have hs' : SingOk segs := fun i h => hs i (List.mem_cons_of_mem _ h)
    cases v with
    | arr l e =>
      simp only [singNodes, singVal]
      rw [indexNodes_arr (hs j List.mem_cons_self) l e (by
        have := (members_len (.arr l e)).1
        simp only [JVal.members, List.length_map] at this
        omega)]
      cases hx : indexValOf j ((JVal.arr l e).members) with
      | none => rfl
      | some w =>
        obtain ⟨m, hm, rfl⟩ := indexVal_mem hx
        obtain ⟨d', hd⟩ := den_member hv m hm
        have := singNodes_spec hs' hd (by have := (members_len (.arr l e)).2 m hm; omega)
        simp [this]
    | _ => rfl

end Verif.JPath
