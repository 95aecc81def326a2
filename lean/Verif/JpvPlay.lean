import Verif.JpvMeaning
import Verif.JpvWell
import Verif.JpvTree
import Verif.EqualLogic

/-!
# What the JPV decoder makes of lines (helper lemmas for C69)
-/

set_option linter.unusedVariables false
set_option linter.unusedSimpArgs false

namespace Verif
namespace JpvPlay
open Rfc8259 JpvSpec JpvPure Jpv

/-! ## Keys -/

theorem strIs_fun {k : Scalar} {s t : Bytes} (h1 : StrIs k s) (h2 : StrIs k t) : s = t := by
  have := strIs_unquote h1
  rw [strIs_unquote h2] at this
  exact (Option.some.inj this).symm

theorem indexIs_fun {k : Scalar} {i j : Nat} (h1 : IndexIs k i) (h2 : IndexIs k j) : i = j := by
  obtain ⟨_, d, _, e1, rfl⟩ := h1
  obtain ⟨_, d', _, e2, rfl⟩ := h2
  rw [e1] at e2
  rw [List.append_cancel_right e2]

theorem Same.type {k n : Scalar} (h : Same k n) : k.type = n.type := by
  rcases h with ⟨s, h1, h2⟩ | ⟨i, h1, h2⟩
  · rw [h1.1, h2.1]
  · rw [h1.1, h2.1]

theorem Same.symm {k n : Scalar} (h : Same k n) : Same n k := by
  rcases h with ⟨s, h1, h2⟩ | ⟨i, h1, h2⟩
  · exact .inl ⟨s, h2, h1⟩
  · exact .inr ⟨i, h2, h1⟩

theorem Same.trans {k n m : Scalar} (h : Same k n) (h' : Same n m) : Same k m := by
  rcases h with ⟨s, h1, h2⟩ | ⟨i, h1, h2⟩
  · rcases h' with ⟨t, h3, h4⟩ | ⟨j, h3, h4⟩
    · rw [strIs_fun h3 h2] at h4; exact .inl ⟨s, h1, h4⟩
    · have := h2.1.symm.trans h3.1; simp at this
  · rcases h' with ⟨t, h3, h4⟩ | ⟨j, h3, h4⟩
    · have := h2.1.symm.trans h3.1; simp at this
    · rw [indexIs_fun h3 h2] at h4; exact .inr ⟨i, h1, h4⟩

theorem Plain.self {k : Scalar} (h : Plain k) : Same k k := by
  rcases h with ⟨s, h⟩ | ⟨i, _, h⟩
  · exact .inl ⟨s, h, h⟩
  · exact .inr ⟨i, h, h⟩

theorem index_equal {k n : Scalar} {i j : Nat} (h1 : IndexIs k i) (h2 : IndexIs n j) (hi : i < 2 ^ 53) (hj : j < 2 ^ 53) :
    scalarEqual k n = some (decide (i = j)) := by
  obtain ⟨t1, d, p1, e1, rfl⟩ := h1
  obtain ⟨t2, d', p2, e2, rfl⟩ := h2
  have n1 := number_index p1 hi
  have n2 := number_index p2 hj
  unfold scalarEqual
  simp only [t1, t2, ne_eq, not_true_eq_false, if_false]
  by_cases hb : k.bytes = n.bytes
  · rw [if_pos hb]
    rw [e1, e2] at hb
    rw [List.append_cancel_right hb]; simp
  · rw [if_neg hb, e1, e2, n1, n2]
    simp only [Option.some.injEq, decide_eq_decide]
    rw [Rat.intCast_inj]; omega

theorem equal_same {k n : Scalar} (h1 : Plain k) (h2 : Plain n) (h : Same k n) : scalarEqual k n = some true := by
  rcases h with ⟨s, e1, e2⟩ | ⟨i, e1, e2⟩
  · rw [scalarEqual_str e1 e2]; simp
  · rcases h1 with ⟨t, h1⟩ | ⟨j, hj, h1⟩
    · have := h1.1.symm.trans e1.1; simp at this
    · rw [indexIs_fun h1 e1] at hj
      rw [index_equal e1 e2 hj hj]; simp

theorem equal_other {k n : Scalar} (h1 : Plain k) (h2 : Plain n) (h : ¬ Same k n) : scalarEqual k n = some false := by
  by_cases ht : k.type = n.type
  · rcases h1 with ⟨s, h1⟩ | ⟨i, hi, h1⟩
    · rcases h2 with ⟨t, h2⟩ | ⟨j, hj, h2⟩
      · rw [scalarEqual_str h1 h2]
        have : s ≠ t := by rintro rfl; exact h (.inl ⟨s, h1, h2⟩)
        simp [this]
      · rw [h1.1, h2.1] at ht; simp at ht
    · rcases h2 with ⟨t, h2⟩ | ⟨j, hj, h2⟩
      · rw [h1.1, h2.1] at ht; simp at ht
      · rw [index_equal h1 h2 hi hj]
        have : i ≠ j := by rintro rfl; exact h (.inr ⟨i, h1, h2⟩)
        simp [this]
  · unfold scalarEqual; rw [if_pos ht]

/-! ## Tokens of members -/

/-- The tokens of the parts of a collection. -/
def partToks (t : SType) (ms : List (Scalar × JVal)) : List Token :=
  ms.flatMap fun m => (if t = .str then [.scalar m.1] else []) ++ m.2.toks

theorem members_toks (ms : List (Scalar × JVal)) : JVal.toks.memberToks ms = partToks .str ms := by
  induction ms with
  | nil => rfl
  | cons m ms ih => obtain ⟨k, v⟩ := m; simp [partToks, ih]

theorem items_toks (ms : List (Scalar × JVal)) : JVal.toks.itemToks (ms.map Prod.snd) = partToks .num ms := by
  induction ms with
  | nil => rfl
  | cons m ms ih => obtain ⟨k, v⟩ := m; simp [partToks, ih]

theorem unwind_cons (k : Scalar) (p : List Scalar) : unwind (k :: p) false = unwind p false ++ [closer k] := by
  simp [unwind]

theorem unwind_true (k : Scalar) (p : List Scalar) : unwind (k :: p) true = unwind p false := by
  simp [unwind]

/-- Plain paths. -/
def PlainL (ls : List (List Scalar × JVal)) : Prop := ∀ l ∈ ls, ∀ k ∈ l.1, Plain k

/-! ## One line -/

theorem single (w : JVal) (p : List Scalar) (hp : ∀ k ∈ p, k.type = .str ∨ k.type = .num) :
    ∃ v, Means [(p, w)] v ∧ v.toks = follow p false ++ (w.toks ++ unwind p false) := by
  induction p with
  | nil => exact ⟨w, .leaf, by simp [follow, unwind]⟩
  | cons k p ih =>
    obtain ⟨v, h1, h2⟩ := ih fun x hx => hp x (by simp [hx])
    have hpart : ∀ t, k.type = t → Parts t [under (k, (p, w))] [(k, v)] := by
      intro t ht
      exact Parts.cons (g := []) (rest := []) ht (by simp) h1 (by simp) .nil
    rcases hp k (by simp) with ht | ht
    · refine ⟨_, .obj (hpart _ ht), ?_⟩
      rw [unwind_cons]
      simp [members_toks, partToks, follow, ht, h2, closer, elisionToks]
    · refine ⟨_, .arr (hpart _ ht), ?_⟩
      rw [unwind_cons]
      simp [items_toks, partToks, follow, ht, h2, closer, elisionToks]

theorem single_unique : ∀ {p : List Scalar} {w v : JVal}, Means [(p, w)] v →
    v.toks = follow p false ++ (w.toks ++ unwind p false) ∧ ∀ k ∈ p, k.type = .str ∨ k.type = .num := by
  intro p
  induction p with
  | nil =>
    intro w v h
    generalize hl : [(([] : List Scalar), w)] = ls at h
    cases h with
    | leaf => simp at hl; subst hl; simp [follow, unwind]
    | obj h => cases h with | cons => simp [under] at hl
    | arr h => cases h with | cons => simp [under] at hl
  | cons k p ih =>
    intro w v h
    generalize hl : [(k :: p, w)] = ls at h
    have hparts : ∀ t ms, Parts t [(k :: p, w)] ms → k.type = t ∧ ∃ u, ms = [(k, u)] ∧ Means [(p, w)] u := by
      intro t ms h
      generalize hl : [(k :: p, w)] = ls at h
      cases h with
      | nil => simp at hl
      | @cons _ k' l' u rest ms' g ht hs hm hd hr =>
        simp only [List.cons.injEq, List.nil_eq, List.append_eq_nil_iff, List.map_eq_nil_iff] at hl
        obtain ⟨h1, h2, h3⟩ := hl
        subst h2 h3
        obtain ⟨lp, lw⟩ := l'
        simp only [under, Prod.mk.injEq, List.cons.injEq] at h1
        obtain ⟨⟨rfl, rfl⟩, rfl⟩ := h1
        cases hr
        exact ⟨ht, u, rfl, by simpa using hm⟩
    cases h with
    | leaf => simp at hl
    | obj h =>
      rw [← hl] at h
      obtain ⟨ht, u, rfl, hm⟩ := hparts _ _ h
      obtain ⟨h1, h2⟩ := ih hm
      rw [unwind_cons]
      refine ⟨by simp [members_toks, partToks, follow, ht, h1, closer, elisionToks], ?_⟩
      intro x hx
      rcases List.mem_cons.1 hx with rfl | hx
      · exact .inl ht
      · exact h2 x hx
    | arr h =>
      rw [← hl] at h
      obtain ⟨ht, u, rfl, hm⟩ := hparts _ _ h
      obtain ⟨h1, h2⟩ := ih hm
      rw [unwind_cons]
      refine ⟨by simp [items_toks, partToks, follow, ht, h1, closer, elisionToks], ?_⟩
      intro x hx
      rcases List.mem_cons.1 hx with rfl | hx
      · exact .inr ht
      · exact h2 x hx

/-! ## One more line -/

/-- The tokens from a change of path on. -/
def tailToks (d : List Scalar × List Scalar) (w : JVal) (p' : List Scalar) : List Token :=
  unwind d.1 true ++ (follow d.2 true ++ (w.toks ++ unwind p' false))

theorem diff_same {k n : Scalar} {p p' : List Scalar} (h1 : Plain k) (h2 : Plain n) (h : Same k n) :
    diff (k :: p) (n :: p') = diff p p' := by
  simp [diff, equal_same h1 h2 h]

theorem diff_other {k n : Scalar} {p p' : List Scalar} (h1 : Plain k) (h2 : Plain n) (h : ¬ Same k n) (ht : k.type = n.type) :
    diff (k :: p) (n :: p') = .ok (k :: p, n :: p') := by
  simp [diff, equal_other h1 h2 h, ht]

theorem diff_types {k n : Scalar} {p p' : List Scalar} {d : List Scalar × List Scalar} (h1 : Plain k) (h2 : Plain n)
    (h : diff (k :: p) (n :: p') = .ok d) : k.type = n.type := by
  refine Classical.byContradiction fun ht => ?_
  have hns : ¬ Same k n := fun hs => ht (Same.type hs)
  simp [diff, equal_other h1 h2 hns, ht] at h

theorem plain_type {k : Scalar} (h : Plain k) : k.type = .str ∨ k.type = .num := by
  rcases h with ⟨s, h⟩ | ⟨i, _, h⟩
  · exact .inl h.1
  · exact .inr h.1

/-- The tokens of one part for one line. -/
theorem new_part {t : SType} {n : Scalar} {p' : List Scalar} {w v : JVal} (ht : n.type = t)
    (hv : v.toks = follow p' false ++ (w.toks ++ unwind p' false)) :
    partToks t [(n, v)] = follow (n :: p') true ++ (w.toks ++ unwind p' false) := by
  subst ht
  simp [partToks, follow, hv]

theorem last_of_group (k : Scalar) (l : List Scalar × JVal) (g : List (Scalar × (List Scalar × JVal))) :
    ∃ x, ((k, l) :: g).getLast? = some x ∧ (l :: g.map Prod.snd).getLast? = some x.2 ∧
      (under (k, l) :: g.map under).getLast? = some (under x) := by
  obtain ⟨x, hx⟩ : ∃ x, ((k, l) :: g).getLast? = some x := ⟨_, List.getLast?_eq_some_getLast (by simp)⟩
  refine ⟨x, hx, ?_, ?_⟩
  · have : (((k, l) :: g).map Prod.snd).getLast? = some x.2 := by rw [List.getLast?_map, hx]; rfl
    simpa using this
  · have : (((k, l) :: g).map under).getLast? = some (under x) := by rw [List.getLast?_map, hx]; rfl
    simpa using this

theorem mem_of_getLast {α : Type} {l : List α} {x : α} (h : l.getLast? = some x) : x ∈ l :=
  List.mem_of_getLast? h

mutual
theorem means_snoc : ∀ {ls : List (List Scalar × JVal)} {v : JVal}, Means ls v → PlainL ls →
    ∃ p u X, ls.getLast? = some (p, u) ∧ v.toks = X ++ unwind p false ∧
      ∀ p' w d, (∀ k ∈ p', Plain k) → diff p p' = .ok d →
        ∃ v', Means (ls ++ [(p', w)]) v' ∧ v'.toks = X ++ tailToks d w p'
  | _, _, .leaf (v := v), _ => ⟨[], v, v.toks, rfl, by simp [unwind], by intro p' w d _ h; simp [diff] at h⟩
  | _, _, .obj (l := l) (ls := ls) (ms := ms) h, hp => by
    obtain ⟨k, p, u, X, h1, h2, h3, h4⟩ := parts_snoc h hp (by simp)
    refine ⟨k :: p, u, .startObj :: X, h1, ?_, ?_⟩
    · rw [unwind_cons]; simp [members_toks, h3, closer, h2, elisionToks]
    · intro p' w d hp' hd
      cases p' with
      | nil => simp [diff] at hd
      | cons n p' =>
        obtain ⟨ms', g1, g2⟩ := h4 n p' w d hp' hd
        refine ⟨.obj ms' false, .obj g1, ?_⟩
        have ht := diff_types (hp _ (mem_of_getLast h1) k (by simp)) (hp' n (by simp)) hd
        simp [members_toks, g2, tailToks, unwind_cons, closer, ← ht, h2, elisionToks]
  | _, _, .arr (l := l) (ls := ls) (ms := ms) h, hp => by
    obtain ⟨k, p, u, X, h1, h2, h3, h4⟩ := parts_snoc h hp (by simp)
    refine ⟨k :: p, u, .startArr :: X, h1, ?_, ?_⟩
    · rw [unwind_cons]; simp [items_toks, h3, closer, h2, elisionToks]
    · intro p' w d hp' hd
      cases p' with
      | nil => simp [diff] at hd
      | cons n p' =>
        obtain ⟨ms', g1, g2⟩ := h4 n p' w d hp' hd
        refine ⟨.arr (ms'.map Prod.snd) false, .arr g1, ?_⟩
        have ht := diff_types (hp _ (mem_of_getLast h1) k (by simp)) (hp' n (by simp)) hd
        simp [items_toks, g2, tailToks, unwind_cons, closer, ← ht, h2, elisionToks]

theorem parts_snoc : ∀ {t : SType} {ls : List (List Scalar × JVal)} {ms : List (Scalar × JVal)}, Parts t ls ms → PlainL ls → ls ≠ [] →
    ∃ k p u X, ls.getLast? = some (k :: p, u) ∧ k.type = t ∧ partToks t ms = X ++ unwind p false ∧
      ∀ n p' w d, (∀ k ∈ n :: p', Plain k) → diff (k :: p) (n :: p') = .ok d →
        ∃ ms', Parts t (ls ++ [(n :: p', w)]) ms' ∧
          partToks t ms' = X ++ (unwind d.1 true ++ (follow d.2 true ++ (w.toks ++ unwind p' false)))
  | _, _, _, .nil, _, h => absurd rfl h
  | _, _, _, .cons (t := t) (k := k) (l := l) (g := g) (v := v) (rest := rest) (ms := ms) ht hs hm hd hr, hp, _ => by
    have hpl : PlainL (l :: g.map Prod.snd) := by
      intro x hx c hc
      rcases List.mem_cons.1 hx with rfl | hx
      · exact hp (under (k, x)) List.mem_cons_self c (by simp [under, hc])
      · obtain ⟨y, hy, rfl⟩ := List.mem_map.1 hx
        exact hp (under y) (by simp only [List.mem_cons, List.mem_append, List.mem_map]; exact .inr (.inl ⟨y, hy, rfl⟩)) c (by simp [under, hc])
    have hk : Plain k := hp _ List.mem_cons_self k (by simp [under])
    have ihm := means_snoc hm hpl
    have ihr := parts_snoc hr (by intro x hx; exact hp x (by simp only [List.mem_cons, List.mem_append] at hx ⊢; exact .inr (.inr hx)))
    cases rest with
    | nil =>
      obtain ⟨p, u, X, h1, h2, h3⟩ := ihm
      obtain ⟨⟨kl, lu⟩, e1, e2, e3⟩ := last_of_group k l g
      rw [h1] at e2
      cases e2
      have hkl : Same k kl := by
        rcases List.mem_cons.1 (mem_of_getLast e1) with h | h
        · cases h; exact Plain.self hk
        · exact hs _ h
      have hpk : Plain kl := hp (under (kl, (p, u))) (by simpa using mem_of_getLast e3) kl (by simp [under])
      cases hr
      refine ⟨kl, p, u, (if t = .str then [.scalar k] else []) ++ X, by simpa [under] using e3, by rw [← Same.type hkl, ht], by simp [partToks, h2], ?_⟩
      intro n p' w d hp' hdf
      have hn := hp' n (by simp)
      by_cases hsn : Same k n
      · rw [diff_same hpk hn (Same.trans (Same.symm hkl) hsn)] at hdf
        obtain ⟨v', g1, g2⟩ := h3 p' w d (fun x hx => hp' x (by simp [hx])) hdf
        refine ⟨[(k, v')], ?_, by simp [partToks, g2, tailToks]⟩
        have := Parts.cons (t := t) (k := k) (l := l) (g := g ++ [(n, (p', w))]) (rest := []) (v := v') ht
          (by intro x hx; rcases List.mem_append.1 hx with hx | hx
              · exact hs x hx
              · rw [List.mem_singleton.1 hx]; exact hsn) (by simpa using g1) (by simp) .nil
        simpa [under] using this
      · have hnk : ¬ Same kl n := fun h => hsn (Same.trans hkl h)
        have hty := diff_types hpk hn hdf
        rw [diff_other hpk hn hnk hty] at hdf
        cases hdf
        obtain ⟨v', g1, g2⟩ := single w p' fun x hx => plain_type (hp' x (by simp [hx]))
        have hnt : n.type = t := by rw [← hty, ← Same.type hkl, ht]
        have hnew : Parts t [under (n, (p', w))] [(n, v')] := Parts.cons (g := []) (rest := []) hnt (by simp) g1 (by simp) .nil
        refine ⟨[(k, v), (n, v')], ?_, ?_⟩
        · have := Parts.cons (t := t) (k := k) (l := l) (g := g) (v := v) ht hs hm
            (rest := [under (n, (p', w))]) (by intro n' p'' w' r h; simp only [under, List.cons.injEq, Prod.mk.injEq] at h; rw [← h.1.1.1]; exact hsn) hnew
          simpa [under] using this
        · have h5 := new_part (t := t) hnt g2
          simp only [partToks, List.flatMap_cons, List.flatMap_nil, List.append_nil] at h5 ⊢
          rw [h5, h2, unwind_true]
          simp
    | cons r0 rest =>
      obtain ⟨kl, p, u, X, h1, h2, h3, h4⟩ := ihr (by simp)
      refine ⟨kl, p, u, (if t = .str then [.scalar k] else []) ++ (v.toks ++ X), ?_, h2, ?_, ?_⟩
      · rw [← List.cons_append, List.getLast?_append, h1]; rfl
      · have : partToks t ((k, v) :: ms) = (if t = .str then [.scalar k] else []) ++ (v.toks ++ partToks t ms) := by simp [partToks]
        rw [this, h3]; simp
      · intro n p' w d hp' hdf
        obtain ⟨ms', g1, g2⟩ := h4 n p' w d hp' hdf
        refine ⟨(k, v) :: ms', ?_, ?_⟩
        · have := Parts.cons (t := t) (k := k) (l := l) (g := g) (v := v) ht hs hm (rest := (r0 :: rest) ++ [(n :: p', w)])
            (by intro n' p'' w' r h; simp only [List.cons_append, List.cons.injEq] at h; exact hd n' p'' w' rest (by rw [h.1])) g1
          simpa using this
        · have : partToks t ((k, v) :: ms') = (if t = .str then [.scalar k] else []) ++ (v.toks ++ partToks t ms') := by simp [partToks]
          rw [this, g2]; simp
end

theorem plain_group {k : Scalar} {l : List Scalar × JVal} {g : List (Scalar × (List Scalar × JVal))} {rest : List (List Scalar × JVal)}
    (hp : PlainL (under (k, l) :: (g.map under ++ rest))) : Plain k ∧ PlainL (l :: g.map Prod.snd) ∧ PlainL rest ∧ ∀ x ∈ g, Plain x.1 := by
  refine ⟨hp _ List.mem_cons_self k (by simp [under]), ?_, ?_, ?_⟩
  · intro x hx c hc
    rcases List.mem_cons.1 hx with rfl | hx
    · exact hp (under (k, x)) List.mem_cons_self c (by simp [under, hc])
    · obtain ⟨y, hy, rfl⟩ := List.mem_map.1 hx
      exact hp (under y) (by simp only [List.mem_cons, List.mem_append, List.mem_map]; exact .inr (.inl ⟨y, hy, rfl⟩)) c (by simp [under, hc])
  · intro x hx; exact hp x (by simp only [List.mem_cons, List.mem_append]; exact .inr (.inr hx))
  · intro x hx
    exact hp (under x) (by simp only [List.mem_cons, List.mem_append, List.mem_map]; exact .inr (.inl ⟨x, hx, rfl⟩)) x.1 (by simp [under])

theorem last_same {k kl : Scalar} {l lu : List Scalar × JVal} {g : List (Scalar × (List Scalar × JVal))} (hk : Plain k)
    (hs : ∀ x ∈ g, Same k x.1) (hg : ∀ x ∈ g, Plain x.1) (h : ((k, l) :: g).getLast? = some (kl, lu)) : Same k kl ∧ Plain kl := by
  rcases List.mem_cons.1 (mem_of_getLast h) with h | h
  · cases h; exact ⟨Plain.self hk, hk⟩
  · exact ⟨hs _ h, hg _ h⟩

theorem partToks_cons (t : SType) (k : Scalar) (v : JVal) (ms : List (Scalar × JVal)) :
    partToks t ((k, v) :: ms) = (if t = .str then [.scalar k] else []) ++ (v.toks ++ partToks t ms) := by simp [partToks]

theorem parts_path {t : SType} {ls : List (List Scalar × JVal)} {ms : List (Scalar × JVal)} (h : Parts t ls ms) :
    ∀ x ∈ ls, ∃ n p w, x = (n :: p, w) := by
  generalize hn : ls.length = m
  induction m using Nat.strongRecOn generalizing ls ms with
  | _ m ih =>
    cases h with
    | nil => simp
    | @cons _ k l v rest ms' g ht hs hm hd hr =>
      intro x hx
      simp only [List.mem_cons, List.mem_append, List.mem_map] at hx
      rcases hx with rfl | ⟨y, _, rfl⟩ | hx
      · exact ⟨_, _, _, rfl⟩
      · exact ⟨_, _, _, rfl⟩
      · exact ih rest.length (by simp at hn; omega) hr rfl x hx

theorem eq_nil_or_snoc {α : Type} (l : List α) : l = [] ∨ ∃ l' x, l = l' ++ [x] := by
  rcases List.eq_nil_or_concat l with h | ⟨l', x, h⟩
  · exact .inl h
  · exact .inr ⟨l', x, by simpa using h⟩

mutual
theorem means_unsnoc : ∀ {ls' ls : List (List Scalar × JVal)} {v' : JVal} {p' : List Scalar} {w : JVal}, Means ls' v' →
    ls' = ls ++ [(p', w)] → ls ≠ [] → PlainL ls' →
    ∃ v p u X d, Means ls v ∧ ls.getLast? = some (p, u) ∧ v.toks = X ++ unwind p false ∧ diff p p' = .ok d ∧
      v'.toks = X ++ tailToks d w p'
  | _, ls, _, p', w, .leaf (v := v), hl, hne, hp => by
    exfalso
    have e1 := congrArg List.length hl
    have e2 := List.length_pos_iff.2 hne
    simp only [List.length_append, List.length_cons, List.length_nil] at e1
    omega
  | _, ls, _, p', w, .obj (l := l) (ls := ls0) (ms := ms) h, hl, hne, hp => by
    obtain ⟨n, p', w', e⟩ := parts_path h (p', w) (by rw [hl]; simp)
    cases e
    obtain ⟨ms1, k, p, u, X, d, h1, h2, h3, h4, h5, h6⟩ := parts_unsnoc h hl hne hp
    obtain ⟨l1, ls1, rfl⟩ := List.exists_cons_of_ne_nil hne
    have ht : k.type = n.type := diff_types (hp (k :: p, u) (by rw [hl]; exact List.mem_append_left _ (mem_of_getLast h2)) k (by simp))
      (hp (n :: p', w) (by rw [hl]; simp) n (by simp)) h5
    refine ⟨_, k :: p, u, .startObj :: X, d, .obj h1, h2, ?_, h5, ?_⟩
    · rw [unwind_cons]; simp [members_toks, h4, closer, h3, elisionToks]
    · simp [members_toks, h6, tailToks, unwind_cons, closer, ← ht, h3, elisionToks]
  | _, ls, _, p', w, .arr (l := l) (ls := ls0) (ms := ms) h, hl, hne, hp => by
    obtain ⟨n, p', w', e⟩ := parts_path h (p', w) (by rw [hl]; simp)
    cases e
    obtain ⟨ms1, k, p, u, X, d, h1, h2, h3, h4, h5, h6⟩ := parts_unsnoc h hl hne hp
    obtain ⟨l1, ls1, rfl⟩ := List.exists_cons_of_ne_nil hne
    have ht : k.type = n.type := diff_types (hp (k :: p, u) (by rw [hl]; exact List.mem_append_left _ (mem_of_getLast h2)) k (by simp))
      (hp (n :: p', w) (by rw [hl]; simp) n (by simp)) h5
    refine ⟨_, k :: p, u, .startArr :: X, d, .arr h1, h2, ?_, h5, ?_⟩
    · rw [unwind_cons]; simp [items_toks, h4, closer, h3, elisionToks]
    · simp [items_toks, h6, tailToks, unwind_cons, closer, ← ht, h3, elisionToks]

theorem parts_unsnoc : ∀ {t : SType} {ls' ls : List (List Scalar × JVal)} {ms' : List (Scalar × JVal)} {n : Scalar} {p' : List Scalar}
    {w : JVal}, Parts t ls' ms' → ls' = ls ++ [(n :: p', w)] → ls ≠ [] → PlainL ls' →
    ∃ ms k p u X d, Parts t ls ms ∧ ls.getLast? = some (k :: p, u) ∧ k.type = t ∧ partToks t ms = X ++ unwind p false ∧
      diff (k :: p) (n :: p') = .ok d ∧
      partToks t ms' = X ++ (unwind d.1 true ++ (follow d.2 true ++ (w.toks ++ unwind p' false)))
  | _, _, ls, _, n, p', w, .nil, hl, _, _ => by simp at hl
  | _, _, ls, _, n, p', w, .cons (t := t) (k := k) (l := l) (g := g) (v := v) (rest := rest) (ms := ms) ht hs hm hd hr, hl, hne, hp => by
    obtain ⟨hk, hpl, hpr, hpg⟩ := plain_group hp
    have ihm := fun (L : List (List Scalar × JVal)) (q : List Scalar) (y : JVal) => means_unsnoc (ls := L) (p' := q) (w := y) hm
    have ihr := fun (L : List (List Scalar × JVal)) (m : Scalar) (q : List Scalar) (y : JVal) => parts_unsnoc (ls := L) (n := m) (p' := q) (w := y) hr
    have hpn : Plain n := hp (n :: p', w) (by rw [hl]; simp) n (by simp)
    rcases eq_nil_or_snoc rest with rfl | ⟨rest', x, rfl⟩
    · cases hr
      rcases eq_nil_or_snoc g with rfl | ⟨g', x, rfl⟩
      · exfalso
        have e1 := congrArg List.length hl
        have e2 := List.length_pos_iff.2 hne
        simp only [List.length_append, List.length_cons, List.length_nil, List.length_map] at e1
        omega
      · have hl' : (under (k, l) :: g'.map under) ++ [under x] = ls ++ [(n :: p', w)] := by simpa using hl
        obtain ⟨e1, e2⟩ := List.append_inj' hl' rfl
        obtain ⟨xk, xp, xw⟩ := x
        simp only [under, List.cons.injEq, Prod.mk.injEq, and_true] at e2
        obtain ⟨⟨rfl, rfl⟩, rfl⟩ := e2
        obtain ⟨v0, p, u, X, d, h1, h2, h3, h4, h5⟩ := ihm (l :: g'.map Prod.snd) xp xw (by simp) (by simp) hpl
        obtain ⟨⟨kl, lu⟩, f1, f2, f3⟩ := last_of_group k l g'
        rw [h2] at f2
        cases f2
        obtain ⟨hsl, hpkl⟩ := last_same hk (fun x hx => hs x (by simp [hx])) (fun x hx => hpg x (by simp [hx])) f1
        subst e1
        have hsx : Same k xk := hs (xk, (xp, xw)) (by simp)
        refine ⟨[(k, v0)], kl, p, u, (if t = .str then [.scalar k] else []) ++ X, d, ?_, ?_, by rw [← Same.type hsl, ht], ?_, ?_, ?_⟩
        · have := Parts.cons (t := t) (k := k) (l := l) (g := g') (rest := []) ht (fun x hx => hs x (by simp [hx])) h1 (by simp) .nil
          simpa using this
        · simpa [under] using f3
        · simp [partToks, h3]
        · rw [diff_same hpkl hpn (Same.trans (Same.symm hsl) hsx)]; exact h4
        · simp [partToks, h5, tailToks]
    · have hl' : (under (k, l) :: (g.map under ++ rest')) ++ [x] = ls ++ [(n :: p', w)] := by simpa using hl
      obtain ⟨e1, e2⟩ := List.append_inj' hl' rfl
      simp only [List.cons.injEq, and_true] at e2
      subst e2
      subst e1
      by_cases hr0 : rest' = []
      · subst hr0
        generalize hL : ([] ++ [(n :: p', w)] : List (List Scalar × JVal)) = L at hr
        have hns : ¬ Same k n := hd n p' w [] rfl
        cases hr with
        | nil => simp at hL
        | @cons _ k2 l2 v2 rest2 ms2 g2 ht2 hs2 hm2 hd2 hr2 =>
          simp only [List.nil_append, List.cons.injEq, List.nil_eq, List.append_eq_nil_iff, List.map_eq_nil_iff] at hL
          obtain ⟨a1, a2, a3⟩ := hL
          subst a2 a3
          cases hr2
          obtain ⟨lp, lw⟩ := l2
          simp only [under, Prod.mk.injEq, List.cons.injEq] at a1
          obtain ⟨⟨rfl, rfl⟩, rfl⟩ := a1
          obtain ⟨b1, _⟩ := single_unique (by simpa using hm2)
          obtain ⟨p, u, X, h1, h2, h3⟩ := means_snoc hm hpl
          obtain ⟨⟨kl, lu⟩, f1, f2, f3⟩ := last_of_group k l g
          rw [h1] at f2
          cases f2
          obtain ⟨hsl, hpkl⟩ := last_same hk hs hpg f1
          refine ⟨[(k, v)], kl, p, u, (if t = .str then [.scalar k] else []) ++ X, _, ?_, ?_, by rw [← Same.type hsl, ht], ?_,
            diff_other hpkl hpn (fun h => hns (Same.trans hsl h)) (by rw [← Same.type hsl, ht, ht2]), ?_⟩
          · have := Parts.cons (t := t) (k := k) (l := l) (g := g) (rest := []) ht hs hm (by simp) .nil
            simpa using this
          · simpa [under] using f3
          · simp [partToks, h2]
          · rw [partToks_cons, new_part ht2 b1, h2, unwind_true]; simp
      · obtain ⟨ms0, kl, p, u, X, d, h1, h2, h3, h4, h5, h6⟩ := ihr rest' n p' w rfl hr0 hpr
        refine ⟨(k, v) :: ms0, kl, p, u, (if t = .str then [.scalar k] else []) ++ (v.toks ++ X), d, ?_, ?_, h3, ?_, h5, ?_⟩
        · refine Parts.cons ht hs hm ?_ h1
          intro n' p'' w' r e
          exact hd n' p'' w' (r ++ [(n :: p', w)]) (by rw [e]; rfl)
        · rw [← List.cons_append, List.getLast?_append, h2]; rfl
        · rw [partToks_cons, h4]; simp
        · rw [partToks_cons, h6]; simp
end

/-! ## All lines -/

theorem lastPath_some {ls : List (List Scalar × JVal)} {p : List Scalar} {u : JVal} (h : ls.getLast? = some (p, u)) : lastPath ls = p := by
  simp [lastPath, h]

theorem lastPath_leaf (v : JVal) (ls : List (List Scalar × JVal)) : lastPath (([], v) :: ls) = lastPath ls := by
  cases ls with
  | nil => rfl
  | cons a ls => simp [lastPath]

theorem means_leaf {ls : List (List Scalar × JVal)} {v u : JVal} (h : Means ls v) (hl : ls.getLast? = some ([], u)) : ls = [([], v)] := by
  have hparts : ∀ t ms, Parts t ls ms → False := by
    intro t ms h
    obtain ⟨n, p, w, e⟩ := parts_path h _ (mem_of_getLast hl)
    cases e
  cases h with
  | leaf => rfl
  | obj h => exact (hparts _ _ h).elim
  | arr h => exact (hparts _ _ h).elim

theorem describes_snoc {ls : List (List Scalar × JVal)} {vs : List JVal} (h : Describes ls vs) (hp : PlainL ls) :
    ∃ X, streamToks vs = X ++ unwind (lastPath ls) false ∧ ∀ p' w ts, (∀ k ∈ p', Plain k) → JpvPure.upd (lastPath ls) p' = .ok ts →
      ∃ vs', Describes (ls ++ [(p', w)]) vs' ∧ streamToks vs' = X ++ (ts ++ (w.toks ++ unwind p' false)) := by
  induction h with
  | nil =>
    refine ⟨[], rfl, ?_⟩
    intro p' w ts hp' hu
    simp only [lastPath, JpvPure.upd, List.getLast?_nil, Option.map_none, Option.getD_none, if_true, Except.ok.injEq] at hu
    subst hu
    obtain ⟨v, h1, h2⟩ := single w p' fun k hk => plain_type (hp' k hk)
    exact ⟨[v], .last h1, by simp [h2]⟩
  | @last ls v h =>
    obtain ⟨p, u, X, h1, h2, h3⟩ := means_snoc h hp
    refine ⟨X, by rw [lastPath_some h1]; simp [h2], ?_⟩
    intro p' w ts hp' hu
    rw [lastPath_some h1] at hu
    by_cases hpn : p = []
    · subst hpn
      simp only [JpvPure.upd, if_true, Except.ok.injEq] at hu
      subst hu
      have := means_leaf h h1
      subst this
      obtain ⟨v', g1, g2⟩ := single w p' fun k hk => plain_type (hp' k hk)
      refine ⟨[v, v'], .cons (.last g1), ?_⟩
      have : v.toks = X := by simpa [unwind] using h2
      simp [g2, this]
    · rw [JpvPure.upd, if_neg hpn] at hu
      cases hd : diff p p' with
      | error e => rw [hd] at hu; simp [Except.map] at hu
      | ok d =>
        rw [hd] at hu
        simp only [Except.map, Except.ok.injEq] at hu
        subst hu
        obtain ⟨v', g1, g2⟩ := h3 p' w d hp' hd
        exact ⟨[v'], .last g1, by simp [g2, tailToks]⟩
  | @cons v ls vs h ih =>
    obtain ⟨X, h1, h2⟩ := ih fun x hx => hp x (List.mem_cons_of_mem _ hx)
    refine ⟨v.toks ++ X, by rw [lastPath_leaf]; simp [h1], ?_⟩
    intro p' w ts hp' hu
    rw [lastPath_leaf] at hu
    obtain ⟨vs', g1, g2⟩ := h2 p' w ts hp' hu
    exact ⟨v :: vs', .cons g1, by simp [g2]⟩

theorem describes_unsnoc {ls' ls : List (List Scalar × JVal)} {vs' : List JVal} {p' : List Scalar} {w : JVal} (h : Describes ls' vs')
    (hl : ls' = ls ++ [(p', w)]) (hp : PlainL ls') :
    ∃ vs X ts, Describes ls vs ∧ streamToks vs = X ++ unwind (lastPath ls) false ∧ JpvPure.upd (lastPath ls) p' = .ok ts ∧
      streamToks vs' = X ++ (ts ++ (w.toks ++ unwind p' false)) := by
  induction h generalizing ls with
  | nil => simp at hl
  | @last ls' v h =>
    by_cases hne : ls = []
    · subst hne
      rw [hl] at h
      obtain ⟨h1, _⟩ := single_unique h
      exact ⟨[], [], _, .nil, rfl, rfl, by simp [h1]⟩
    · obtain ⟨v0, p, u, X, d, h1, h2, h3, h4, h5⟩ := means_unsnoc h hl hne hp
      refine ⟨[v0], X, _, .last h1, by rw [lastPath_some h2]; simp [h3], ?_, by simp only [streamToks_cons, streamToks_nil, List.append_nil]; rw [h5, tailToks, ← List.append_assoc (unwind _ _)]⟩
      rw [lastPath_some h2, JpvPure.upd, if_neg, h4]
      · rfl
      · rintro rfl; simp [diff] at h4
  | @cons v ls0 vs h ih =>
    cases ls with
    | nil =>
      simp only [List.nil_append, List.cons.injEq, Prod.mk.injEq] at hl
      obtain ⟨⟨rfl, rfl⟩, rfl⟩ := hl
      cases h with
      | nil => exact ⟨[], [], [], .nil, rfl, rfl, by simp [unwind]⟩
      | last h => exact absurd h (by intro h; cases h)
    | cons a ls =>
      simp only [List.cons_append, List.cons.injEq] at hl
      obtain ⟨rfl, hl⟩ := hl
      obtain ⟨vs0, X, ts, h1, h2, h3, h4⟩ := ih hl fun x hx => hp x (List.mem_cons_of_mem _ hx)
      refine ⟨v :: vs0, v.toks ++ X, ts, .cons h1, by rw [lastPath_leaf]; simp [h2], by rw [lastPath_leaf]; exact h3, by simp [h4]⟩

/-- What the decoder sends for lines, without closing at the end. -/
def play : List Scalar → List (List Scalar × JVal) → Except JErr (List Token)
  | _, [] => .ok []
  | last, (p, v) :: ls => (JpvPure.upd last p).bind fun ts => (play p ls).map fun us => ts ++ (v.toks ++ us)

theorem play_snoc (ls : List (List Scalar × JVal)) : ∀ (last p' : List Scalar) (w : JVal), play last (ls ++ [(p', w)]) =
    (play last ls).bind fun us => (JpvPure.upd ((ls.getLast?.map Prod.fst).getD last) p').map fun ts => us ++ (ts ++ w.toks) := by
  induction ls with
  | nil => intro last p' w; cases h : JpvPure.upd last p' <;> simp [play, h, Except.bind, Except.map]
  | cons a ls ih =>
    intro last p' w
    obtain ⟨p, v⟩ := a
    simp only [List.cons_append, play, ih]
    have : ((List.getLast? ((p, v) :: ls)).map Prod.fst).getD last = ((ls.getLast?).map Prod.fst).getD p := by
      cases ls with
      | nil => rfl
      | cons b ls => simp [List.getLast?_cons]
    rw [this]
    cases JpvPure.upd last p with
    | error e => rfl
    | ok ts =>
      simp only [Except.bind]
      cases play p ls with
      | error e => rfl
      | ok us =>
        simp only [Except.map]
        cases JpvPure.upd (((ls.getLast?).map Prod.fst).getD p) p' <;> simp [Except.map]

theorem play_iff (n : Nat) : ∀ (ls : List (List Scalar × JVal)), ls.length = n → PlainL ls → ∀ ts,
    (∃ us, play [] ls = .ok us ∧ ts = us ++ unwind (lastPath ls) false) ↔ ∃ vs, Describes ls vs ∧ ts = streamToks vs := by
  induction n with
  | zero =>
    intro ls hn hp ts
    have := List.length_eq_zero_iff.1 hn
    subst this
    constructor
    · rintro ⟨us, h, rfl⟩
      simp only [play, Except.ok.injEq] at h
      subst h
      exact ⟨[], .nil, rfl⟩
    · rintro ⟨vs, h, rfl⟩
      refine ⟨[], rfl, ?_⟩
      cases h with
      | nil => rfl
      | last h => cases h
  | succ n ih =>
    intro ls hn hp ts
    rcases eq_nil_or_snoc ls with rfl | ⟨ls, x, rfl⟩
    · simp at hn
    · obtain ⟨p', w⟩ := x
      have hp0 : PlainL ls := fun x hx => hp x (List.mem_append_left _ hx)
      have hp' : ∀ k ∈ p', Plain k := hp (p', w) (by simp)
      have ih := ih ls (by simpa using hn) hp0
      rw [lastPath_snoc, play_snoc]
      have hlast : ((ls.getLast?.map Prod.fst).getD []) = lastPath ls := rfl
      rw [hlast]
      constructor
      · rintro ⟨us, h, rfl⟩
        cases hpl : play [] ls with
        | error e => rw [hpl] at h; simp [Except.bind] at h
        | ok us0 =>
          cases hu : JpvPure.upd (lastPath ls) p' with
          | error e => rw [hpl, hu] at h; simp [Except.bind, Except.map] at h
          | ok us1 =>
            rw [hpl, hu] at h
            simp only [Except.bind, Except.map, Except.ok.injEq] at h
            subst h
            obtain ⟨vs, h1, h2⟩ := (ih _).1 ⟨us0, hpl, rfl⟩
            obtain ⟨X, h3, h4⟩ := describes_snoc h1 hp0
            obtain ⟨vs', h5, h6⟩ := h4 p' w us1 hp' hu
            rw [h3] at h2
            have := List.append_cancel_right h2
            subst this
            exact ⟨vs', h5, by rw [h6]; simp⟩
      · rintro ⟨vs', h, rfl⟩
        obtain ⟨vs, X, us1, h1, h2, h3, h4⟩ := describes_unsnoc h rfl hp
        obtain ⟨us0, h5, h6⟩ := (ih _).2 ⟨vs, h1, rfl⟩
        rw [h2] at h6
        have := List.append_cancel_right h6
        subst this
        exact ⟨X ++ (us1 ++ w.toks), by rw [h5, h3]; rfl, by rw [h4]; simp⟩

/-! ## The decoder plays the lines -/

theorem produce_play {fin : RErr} {vfuel : Nat} (n : Nat) : ∀ {last : List Scalar} {r : Bytes} {ts : List Token} {r' : Bytes},
    2 * r.length + 1 ≤ vfuel → JpvPure.produce fin vfuel n last r = (ts, some (.ok r')) →
    ∃ ls d w us, Lines ls d ∧ Ws w ∧ r = d ++ (w ++ r') ∧ (r' = [] ∧ fin = .eof ∨ ∃ r'', r' = eofByte :: r'') ∧
      play last ls = .ok us ∧ ts = us ++ unwind ((ls.getLast?.map Prod.fst).getD last) false := by
  induction n with
  | zero => intro last r ts r' _ h; simp [JpvPure.produce] at h
  | succ n ih =>
    intro last r ts r' hv h
    obtain ⟨w, hws, hr⟩ := ws_split r
    rw [JpvPure.produce] at h
    cases hwr : Pure.ws r with
    | nil =>
      rw [hwr] at h
      simp only [Prod.mk.injEq, Option.some.injEq] at h
      by_cases hf : fin = .eof
      · rw [if_pos hf] at h
        simp only [Except.ok.injEq] at h
        obtain ⟨rfl, rfl⟩ := h
        exact ⟨[], [], w, [], .nil, hws, by simpa [hwr] using hr, .inl ⟨rfl, hf⟩, rfl, rfl⟩
      · rw [if_neg hf] at h
        simp at h
    | cons b r1 =>
      rw [hwr] at h
      simp only at h
      by_cases hb : b = eofByte
      · rw [if_pos hb] at h
        simp only [Prod.mk.injEq, Option.some.injEq, Except.ok.injEq] at h
        obtain ⟨rfl, rfl⟩ := h
        exact ⟨[], [], w, [], .nil, hws, by simpa [hwr] using hr, .inr ⟨r1, by rw [hb]⟩, rfl, rfl⟩
      · rw [if_neg hb] at h
        cases hh : JpvPure.head fin vfuel last (b :: r1) with
        | error e => cases e <;> simp [hh, JpvPure.line] at h
        | ok x =>
          obtain ⟨⟨us0, p⟩, r2⟩ := x
          obtain ⟨hd, e1, e2, e3⟩ := JpvGrammar.head_sound hh
          simp only at e1 e2 e3
          rw [hh] at h
          simp only [JpvPure.line] at h
          cases hval : Pure.value fin vfuel r2 with
          | mk vs o =>
            rw [hval] at h
            have hsd := (sound fin vfuel).1 r2
            rw [hval] at hsd
            match o, hsd, h with
            | none, _, h => simp [JpvPure.body] at h
            | some (.error e), _, h => simp [JpvPure.body] at h
            | some (.ok r3), hsd, h =>
              obtain ⟨w3, v, t, g1, g2, g3, g4⟩ := hsd
              subst g3
              simp only [JpvPure.body, Prod.mk.injEq] at h
              have hlen : 2 * r3.length + 1 ≤ vfuel := by
                have l1 := congrArg List.length hr
                have l2 := congrArg List.length e2
                have l3 := congrArg List.length g4
                rw [hwr] at l1
                simp only [List.length_append, List.length_cons] at l1 l2 l3
                omega
              obtain ⟨ls, d, w', us, k1, k2, k3, k4, k5, k6⟩ := ih (last := p) (r := r3) (ts := (JpvPure.produce fin vfuel n p r3).1) (r' := r') hlen
                (by rw [← h.2])
              refine ⟨(p, v) :: ls, w ++ ((hd ++ (w3 ++ t)) ++ d), w', us0 ++ (v.toks ++ us), .cons hws ⟨hd, w3, t, e1, g1, g2, rfl⟩ k1, k2, ?_, k4, ?_, ?_⟩
              · rw [hr, hwr, e2, g4, k3]; simp
              · simp [play, e3, k5, Except.bind, Except.map]
              · rw [← h.1, k6]
                have : ((List.getLast? ((p, v) :: ls)).map Prod.fst).getD last = ((ls.getLast?).map Prod.fst).getD p := by
                  cases ls with
                  | nil => rfl
                  | cons b ls => simp [List.getLast?_cons]
                rw [this]; simp

theorem lines_numEnd {fin : RErr} {ls : List (List Scalar × JVal)} {d w rest : Bytes} (h : Lines ls d) (hw : Ws w)
    (he : rest = [] ∧ fin = .eof ∨ ∃ r'', rest = eofByte :: r'') : NumEnd fin (d ++ (w ++ rest)) := by
  have hws : ∀ {w r : Bytes}, Ws w → NumEnd fin r → NumEnd fin (w ++ r) := by
    intro w r hw hn
    cases w with
    | nil => exact hn
    | cons b w =>
      refine ⟨.inr (by simp), ?_⟩
      intro x r' e
      simp only [List.cons_append, List.cons.injEq] at e
      rw [← e.1]
      rcases hw b List.mem_cons_self with rfl | rfl | rfl | rfl <;> (unfold Digit; decide)
  have hend : NumEnd fin rest := by
    rcases he with ⟨rfl, rfl⟩ | ⟨r'', rfl⟩
    · exact ⟨.inl rfl, by simp⟩
    · refine ⟨.inr (by simp), ?_⟩
      intro x r' e
      simp only [List.cons.injEq] at e
      rw [← e.1]
      unfold Digit; decide
  cases h with
  | nil => simpa using hws hw hend
  | cons h1 h2 h3 =>
    obtain ⟨hd, w1, t, ⟨b, w2, _, _, rfl⟩, _, _, rfl⟩ := h2
    rw [List.append_assoc]
    refine hws h1 ⟨.inr (by simp), ?_⟩
    intro x r' e
    simp only [List.cons_append, List.cons.injEq] at e
    rw [← e.1]
    unfold Digit; decide

theorem play_produce {fin : RErr} {vfuel : Nat} {ls : List (List Scalar × JVal)} {d : Bytes} (h : Lines ls d) :
    ∀ {n : Nat} {last : List Scalar} {us : List Token} {w rest : Bytes}, Ws w →
    (rest = [] ∧ fin = .eof ∨ ∃ r'', rest = eofByte :: r'') → 2 * (d ++ (w ++ rest)).length + 1 ≤ vfuel →
    (d ++ (w ++ rest)).length + 1 ≤ n → play last ls = .ok us →
    JpvPure.produce fin vfuel n last (d ++ (w ++ rest)) = (us ++ unwind ((ls.getLast?.map Prod.fst).getD last) false, some (.ok rest)) := by
  induction h with
  | nil =>
    intro n last us w rest hw he hv hn hp
    obtain ⟨n, rfl⟩ : ∃ k, n = k + 1 := ⟨n - 1, by omega⟩
    simp only [play, Except.ok.injEq] at hp
    subst hp
    rw [List.nil_append, JpvPure.produce, ws_append hw]
    rcases he with ⟨rfl, rfl⟩ | ⟨r'', rfl⟩
    · simp [Pure.ws]
    · rw [ws_stop (by decide)]
      simp
  | @cons w0 p v l ls b hw0 hl hls ih =>
    intro n last us w rest hw he hv hn hp
    obtain ⟨n, rfl⟩ : ∃ k, n = k + 1 := ⟨n - 1, by omega⟩
    have hne := lines_numEnd hls hw he
    obtain ⟨hd, w1, t, hh, hw1, ht, rfl⟩ := hl
    simp only [play] at hp
    cases hu : JpvPure.upd last p with
    | error e => rw [hu] at hp; simp [Except.bind] at hp
    | ok ts =>
      cases hpl : play p ls with
      | error e => rw [hu, hpl] at hp; simp [Except.bind, Except.map] at hp
      | ok us1 =>
        rw [hu, hpl] at hp
        simp only [Except.bind, Except.map, Except.ok.injEq] at hp
        subst hp
        have hh' := hh
        obtain ⟨pb, w2, _, _, hhe⟩ := hh
        have e : w0 ++ (hd ++ (w1 ++ t) ++ b) ++ (w ++ rest) = w0 ++ (hd ++ (w1 ++ (t ++ (b ++ (w ++ rest))))) := by simp
        rw [e] at hv hn ⊢
        have hlen : 1 ≤ hd.length := by rw [hhe]; simp
        have hstop : ∃ X, hd ++ (w1 ++ (t ++ (b ++ (w ++ rest)))) = 0x24 :: X := by rw [hhe]; exact ⟨_, rfl⟩
        have hhead := JpvGrammar.head_complete (fin := fin) (fuel := vfuel) (last := last) (r := w1 ++ (t ++ (b ++ (w ++ rest)))) hh'
          (by simp only [List.length_append] at hv; omega)
        have hval := complete ht (fin := fin) w1 (b ++ (w ++ rest)) vfuel hw1 (fun _ => hne) (by simp only [List.length_append] at hv ⊢; omega)
        have hrec := ih (n := n) (last := p) (us := us1) hw he (by simp only [List.length_append] at hv ⊢; omega)
          (by simp only [List.length_append] at hn ⊢; omega) hpl
        have hlast : ((List.getLast? ((p, v) :: ls)).map Prod.fst).getD last = ((ls.getLast?).map Prod.fst).getD p := by
          cases ls with
          | nil => rfl
          | cons b ls => simp [List.getLast?_cons]
        rw [JpvPure.produce, ws_append hw0]
        obtain ⟨X, hX⟩ := hstop
        rw [hX] at hhead ⊢
        rw [ws_stop (by decide)]
        simp only
        rw [if_neg (by decide), hhead, hu]
        simp only [Except.map, JpvPure.line]
        rw [hval]
        simp only [JpvPure.body]
        rw [hrec, hlast]
        simp

/-! ## Every line is found in the result -/

mutual
theorem means_found : ∀ {ls : List (List Scalar × JVal)} {v : JVal}, Means ls v → PlainL ls → ∀ x ∈ ls, Found v x.1 x.2
  | _, _, .leaf (v := v), _, x, hx => by rw [List.mem_singleton.1 hx]; exact .here
  | _, _, .obj h, hp, x, hx => by
    obtain ⟨n, p, w, k, u, rfl, h1, h2, h3⟩ := parts_found h hp x hx
    exact .member h1 h2 h3
  | _, _, .arr h, hp, x, hx => by
    obtain ⟨n, p, w, k, u, rfl, h1, h2, h3⟩ := parts_found h hp x hx
    exact .item (List.mem_map.2 ⟨(k, u), h1, rfl⟩) (by rw [← Same.type h2]; exact parts_type h _ h1) h3

theorem parts_found : ∀ {t : SType} {ls : List (List Scalar × JVal)} {ms : List (Scalar × JVal)}, Parts t ls ms → PlainL ls → ∀ x ∈ ls,
    ∃ n p w k u, x = (n :: p, w) ∧ (k, u) ∈ ms ∧ Same k n ∧ Found u p w
  | _, _, _, .nil, _, x, hx => by simp at hx
  | _, _, _, .cons (t := t) (k := k) (l := l) (g := g) (v := v) (rest := rest) (ms := ms) ht hs hm hd hr, hp, x, hx => by
    obtain ⟨hk, hpl, hpr, hpg⟩ := plain_group hp
    have ihm := means_found hm hpl
    have ihr := parts_found hr hpr
    simp only [List.mem_cons, List.mem_append, List.mem_map] at hx
    rcases hx with rfl | ⟨y, hy, rfl⟩ | hx
    · exact ⟨k, l.1, l.2, k, v, rfl, by simp, Plain.self hk, ihm l (by simp)⟩
    · exact ⟨y.1, y.2.1, y.2.2, k, v, rfl, by simp, hs y hy, ihm y.2 (by simp only [List.mem_cons, List.mem_map]; exact .inr ⟨y, hy, rfl⟩)⟩
    · obtain ⟨n, p, w, k', u, e, h1, h2, h3⟩ := ihr x hx
      exact ⟨n, p, w, k', u, e, by simp [h1], h2, h3⟩

theorem parts_type : ∀ {t : SType} {ls : List (List Scalar × JVal)} {ms : List (Scalar × JVal)}, Parts t ls ms → ∀ m ∈ ms, m.1.type = t
  | _, _, _, .nil, m, hm => by simp at hm
  | _, _, _, .cons ht hs hm hd hr, m, hmm => by
    have ih := parts_type hr
    rcases List.mem_cons.1 hmm with rfl | h
    · exact ht
    · exact ih m h
end

theorem describes_found {ls : List (List Scalar × JVal)} {vs : List JVal} (h : Describes ls vs) (hp : PlainL ls) :
    ∀ x ∈ ls, ∃ v ∈ vs, Found v x.1 x.2 := by
  induction h with
  | nil => simp
  | @last ls v h => intro x hx; exact ⟨v, by simp, means_found h hp x hx⟩
  | @cons v ls vs h ih =>
    intro x hx
    rcases List.mem_cons.1 hx with rfl | hx
    · exact ⟨v, by simp, .here⟩
    · obtain ⟨u, h1, h2⟩ := ih (fun x hx => hp x (List.mem_cons_of_mem _ hx)) x hx
      exact ⟨u, List.mem_cons_of_mem _ h1, h2⟩

end JpvPlay
end Verif
