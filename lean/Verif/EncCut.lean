import Verif.EncPrompt
import Verif.PathReach
import Verif.JsonColl

/-!
# Encoders in the middle of a value

What an encoder has printed of a value of which the end has not come.
-/

set_option linter.unusedSimpArgs false
set_option linter.unusedVariables false

namespace Verif
open AState IProg JPath JVal.toks

theorem Reach.wf {ε α : Type} {p p' : IProg ε α} {s s' : AState} {o : List ε} (h : Reach AState.mach p s o p' s') (hw : WF s) : WF s' := by
  induction h with
  | refl => exact hw
  | emit _ ih => exact ih hw
  | @op o k s s1 r out p' s' e _ ih => exact ih (WF.step (r := (s1, r)) hw e)

theorem Reach.putAll {ε α σ : Type} {m : IMach σ} (l : List ε) (q : Unit → IProg ε α) (s : σ) : Reach m ((putAll l).bind q) s l (q ()) s := by
  induction l with
  | nil => exact .refl _ _
  | cons x l ih => exact .emit ih

theorem Reach.put {ε α σ : Type} {m : IMach σ} (x : ε) (q : Unit → IProg ε α) (s : σ) : Reach m ((put x).bind q) s [x] (q ()) s := .emit (.refl _ _)

/-- The handle `i`, inside `l`, reads directly from the input and stands before the members `r`. -/
structure Loop (s : AState) (n0 i : Nat) (l : List Nat) (k : Kind) (r : List (Option Scalar × JVal)) : Prop where
  wf : WF s
  before : Before s n0 i k r false
  thr : (s.coll i).thr = 0
  spine : Spine s (i :: l)

theorem Loop.init {s : AState} {k i v l} (hw : WF s) (hf : Fresh s (.coll k i) v) (ht : (s.coll i).thr = 0) (hs : Spine s (i :: l)) (he : v.elision = false) :
    Loop s s.n i l k v.members := ⟨hw, by rw [← he]; exact (hf.before rfl).2, ht, hs⟩

theorem Loop.next {s : AState} {n0 i l k key v r} (h : Loop s n0 i l k ((key, v) :: r)) :
    ∃ s' x, s.step (.advance i) = .ok (s', true) ∧ s'.step (.current i) = .ok (s', (key, some x)) ∧ Loop s' n0 i l k r ∧ Fresh s' x v ∧
      (∀ h ∈ l, s'.coll h = s.coll h) ∧ (∀ j, x.idx = some j → n0 ≤ j) ∧ (∀ k j, x = .coll k j → (s'.coll j).thr = 0 ∧ Spine s' (j :: i :: l)) := by
  obtain ⟨s1, x, e1, e2, e3, e4, e5, e6, e7, e8, e9⟩ := adv_cons h.wf.links h.before
  have hcur : s1.step (.current i) = .ok (s1, (key, some x)) := by rw [current_ok e3, e5, e6]
  obtain ⟨g1, g2, g3, g4⟩ := h.spine.adv h.wf h.before h.thr e1 hcur
  refine ⟨s1, x, e1, hcur, ⟨WF.step (o := .advance i) (r := (s1, true)) h.wf e1, e3, g3, g1⟩, e7, g2, fun j hj => Nat.le_trans h.before.base (e8 j hj), fun k j hx => ⟨?_, g4 k j hx⟩⟩
  subst hx
  exact (adv_child h.wf.links h.before e1 e6).1.trans h.thr

theorem Loop.keep {s s' : AState} {n0 i l k r x} (h : Loop s n0 i l k r) (hk : Keep s.n x s s') (hx : ∀ j, x = some j → n0 ≤ j) (hw : WF s') :
    Loop s' n0 i l k r ∧ ∀ h ∈ l, s'.coll h = s.coll h := by
  have hlt := h.before.lt
  obtain ⟨g1, g2⟩ := h.spine.lt h.wf (by omega) i l rfl
  have hne : ∀ j, j ≤ i → some j ≠ x := by
    intro j hj e
    have := hx j e.symm
    have := h.before.i0
    omega
  have hi := hk.coll i hlt (hne i (Nat.le_refl _))
  have hc : ∀ h ∈ l, s'.coll h = s.coll h := fun h hh => hk.coll h (by have := g2 h hh; omega) (hne h (by have := g2 h hh; omega))
  refine ⟨⟨hw, h.before.keep hk hlt (hne i (Nat.le_refl _)), by rw [hi, h.thr], h.spine.congr hk.n fun j hj => ?_⟩, hc⟩
  rcases List.mem_cons.1 hj with rfl | hj
  · exact hi
  · exact hc j hj

theorem Loop.todo {s : AState} {n0 i l k r} (h : Loop s n0 i l k r) : frames s (i :: l) = bodyToks r ++ endToks k ++ frames s l := by
  simp only [frames, List.flatMap_cons, frame, h.before.kind, h.before.rest, h.before.e, elisionToks]
  simp

/-- The first members. -/
theorem forEach_all {ε β : Type} {body : β → Option Scalar → Val → IProg ε β} (out : β → Option Scalar → JVal → List ε) (nxt : β → Option Scalar → JVal → β)
    {n0 i l k} : ∀ (rest more : List (Option Scalar × JVal)) (f : Nat) (s : AState) (b : β), Loop s n0 i l k (rest ++ more) →
      (∀ m ∈ rest, ∀ b, Visits (body b m.1) m.2 (out b m.1 m.2) (nxt b m.1 m.2)) →
      ∃ s', Reach AState.mach (forEach body i (rest.length + f) b) s (foldOut out nxt b rest).1 (forEach body i f (foldOut out nxt b rest).2) s' ∧
        Loop s' n0 i l k more ∧ ∀ h ∈ l, s'.coll h = s.coll h := by
  intro rest
  induction rest with
  | nil =>
    intro more f s b hl _
    refine ⟨s, ?_, hl, fun _ _ => rfl⟩
    rw [List.length_nil, Nat.zero_add]
    exact .refl _ _
  | cons m rest ih =>
    intro more f s b hl hbody
    obtain ⟨key, v⟩ := m
    obtain ⟨s1, x, e1, e2, e3, e4, e5, e6, e7⟩ := hl.next
    obtain ⟨s2, g1, g2, g3⟩ := hbody (key, v) List.mem_cons_self b s1 x e3.wf.links e4
    obtain ⟨g4, g5⟩ := e3.keep g3 e6 ((Reach.of_run g1).wf e3.wf)
    obtain ⟨s3, k1, k2, k3⟩ := ih more f s2 (nxt b key v) g4 (fun m hm => hbody m (List.mem_cons_of_mem _ hm))
    refine ⟨s3, ?_, k2, fun h hh => by rw [k3 h hh, g5 h hh, e5 h hh]⟩
    rw [show ((key, v) :: rest).length + f = (rest.length + f) + 1 from by simp; omega]
    simp only [forEach, foldOut]
    refine .op e1 ?_
    simp only [if_true]
    refine .op e2 ?_
    exact (Reach.of_run_bind g1 _).trans k1

/-- The program deals with the value as far as it has come, and emits `o`; the ends `cl` have not been read. -/
def CutB {ε α : Type} (p : Val → IProg ε α) (v : JVal) (cl : List Token) (o : List ε) : Prop :=
  ∀ s k i l, WF s → Fresh s (.coll k i) v → (s.coll i).thr = 0 → Spine s (i :: l) →
    ∃ p' s' l', Reach AState.mach (p (.coll k i)) s o p' s' ∧ Spine s' l' ∧ cl ++ frames s l <:+ frames s' l'

theorem fresh_coll {s : AState} {x : Val} {v : JVal} (h : Fresh s x v) (hv : ∀ k, v ≠ .scalar k) : ∃ k j, x = .coll k j := by
  cases v with
  | scalar k => exact absurd rfl (hv k)
  | arr items e => obtain ⟨i, _, h, _⟩ := h; exact ⟨_, i, h⟩
  | obj items e => obtain ⟨i, _, h, _⟩ := h; exact ⟨_, i, h⟩

/-- The first members and a part of the last one. -/
theorem forEach_last {ε β : Type} {body : β → Option Scalar → Val → IProg ε β} (out : β → Option Scalar → JVal → List ε) (nxt : β → Option Scalar → JVal → β)
    {n0 i l k} (rest : List (Option Scalar × JVal)) {key : Option Scalar} {m : JVal} (hm : ∀ k, m ≠ .scalar k) {cl : List Token} {o : List ε} (f : Nat) (s : AState) (b : β)
    (hl : Loop s n0 i l k (rest ++ [(key, m)])) (hbody : ∀ m ∈ rest, ∀ b, Visits (body b m.1) m.2 (out b m.1 m.2) (nxt b m.1 m.2))
    (hcut : CutB (body (foldOut out nxt b rest).2 key) m cl o) :
    ∃ p' s' l', Reach AState.mach (forEach body i (rest.length + (f + 1)) b) s ((foldOut out nxt b rest).1 ++ o) p' s' ∧ Spine s' l' ∧
      cl ++ endToks k ++ frames s l <:+ frames s' l' := by
  obtain ⟨s1, h1, h2, h3⟩ := forEach_all out nxt rest [(key, m)] (f + 1) s b hl hbody
  obtain ⟨s2, x, e1, e2, e3, e4, e5, e6, e7⟩ := h2.next
  obtain ⟨kk, j, rfl⟩ := fresh_coll e4 hm
  obtain ⟨t1, t2⟩ := e7 kk j rfl
  obtain ⟨p', s', l', g1, g2, g3⟩ := hcut s2 kk j (i :: l) e3.wf e4 t1 t2
  have hr : ∃ p'', Reach AState.mach (forEach body i (f + 1) (foldOut out nxt b rest).2) s1 o p'' s' := by
    refine ⟨p'.bind fun b => forEach body i f b, ?_⟩
    simp only [forEach]
    refine .op e1 ?_
    simp only [if_true]
    refine .op e2 ?_
    exact g1.bind _
  obtain ⟨p'', hr⟩ := hr
  refine ⟨p'', s', l', h1.trans hr, g2, ?_⟩
  rw [e3.todo, frames_same e5, frames_same h3] at g3
  simpa [bodyToks] using g3

/-- The same for a handle. -/
def CutH {ε α : Type} (p : Nat → IProg ε α) (k : Kind) (v : JVal) (cl : List Token) (o : List ε) : Prop :=
  ∀ s i l, WF s → Fresh s (.coll k i) v → (s.coll i).thr = 0 → Spine s (i :: l) →
    ∃ p' s' l', Reach AState.mach (p i) s o p' s' ∧ Spine s' l' ∧ cl ++ frames s l <:+ frames s' l'

theorem CutB.pre {ε α β : Type} {p : Val → IProg ε α} {v cl o} (h : CutB p v cl o) (l : List ε) (q : α → IProg ε β) :
    CutB (fun x => (putAll l).bind fun _ => (p x).bind q) v cl (l ++ o) := by
  intro s k i l' h1 h2 h3 h4
  obtain ⟨p', s', l'', g1, g2, g3⟩ := h s k i l' h1 h2 h3 h4
  exact ⟨p'.bind q, s', l'', (Reach.putAll l _ s).trans (g1.bind _), g2, g3⟩

namespace Enc

/-- The number of bytes of printer calls, apart from new lines and their indentation. -/
def bytesOf (l : List POp) : Nat := (l.map fun | .bytes b => b.length | _ => 0).sum

@[simp] theorem bytesOf_nil : bytesOf [] = 0 := rfl
@[simp] theorem bytesOf_append (a b : List POp) : bytesOf (a ++ b) = bytesOf a + bytesOf b := by simp [bytesOf]
@[simp] theorem bytesOf_bytes (b : Bytes) (l : List POp) : bytesOf (.bytes b :: l) = b.length + bytesOf l := by simp [bytesOf]
@[simp] theorem bytesOf_newLine (l : List POp) : bytesOf (.newLine :: l) = bytesOf l := by simp [bytesOf]
@[simp] theorem bytesOf_indent (l : List POp) : bytesOf (.indent :: l) = bytesOf l := by simp [bytesOf]
@[simp] theorem bytesOf_dedent (l : List POp) : bytesOf (.dedent :: l) = bytesOf l := by simp [bytesOf]

/-- A collection with an item on each line, without its end. -/
def opened (o : POp) (l : List (List POp)) : List POp := if l = [] then [o] else o :: .indent :: preOps [itemSep, .newLine] true l

def closed (c : POp) (l : List (List POp)) : List POp := if l = [] then [c] else [.dedent, c]

theorem broken_eq (o c : POp) (l : List (List POp)) : broken o c l false = opened o l ++ closed c l := by
  unfold broken opened closed
  split
  · rename_i h; simp [h, flat, sepBy]
  · simp [preOps_true]

theorem opened_snoc (o : POp) (l : List (List POp)) (x y : List POp) : opened o (l ++ [x ++ y]) = opened o (l ++ [x]) ++ y := by
  simp [opened, preOps_append, preOps]

theorem fold_opened (o : POp) (g : Option Scalar → JVal → List POp) (ms : List (Option Scalar × JVal)) :
    o :: (foldOut (fun (b : Bool) k v => sepOps b ++ g k v) (fun _ _ _ => false) true ms).1 = opened o (ms.map fun m => g m.1 m.2) := by
  rw [foldOut_sep sepOps g]
  cases ms with
  | nil => rfl
  | cons m l => simp [opened, preOps, preOps_false, sepOps, List.flatMap_map]

theorem fold_last (o : POp) (g : Option Scalar → JVal → List POp) (ms : List (Option Scalar × JVal)) (y : List POp) :
    o :: ((foldOut (fun (b : Bool) k v => sepOps b ++ g k v) (fun _ _ _ => false) true ms).1 ++
      (sepOps (foldOut (fun (b : Bool) k v => sepOps b ++ g k v) (fun _ _ _ => false) true ms).2 ++ y)) = opened o (ms.map (fun m => g m.1 m.2) ++ [y]) := by
  rw [foldOut_sep sepOps g]
  cases ms with
  | nil => simp [opened, preOps, sepOps]
  | cons m l => simp [opened, preOps, preOps_append, preOps_false, sepOps, List.flatMap_map]

/-! ## Arrays -/

theorem broken_arr {cfg : EncCfg} (items : List JVal) (hw : ¬ 0 < cfg.widthLimit) :
    layout cfg (.arr items false) = opened openArr (items.map (layout cfg)) ++ closed closeArr (items.map (layout cfg)) := by
  simp only [layout, It.ops, it_arr, layArr, if_neg hw, broken_eq, List.map_map]
  rfl

theorem writeArray_leaf {cfg : EncCfg} {wv f} {items : List JVal} (hf : items.length ≤ f) (hwv : ∀ v ∈ items, WV cfg wv v) :
    CutH (writeArray wv f) .arr (.arr items false) [.endArr] (opened openArr (items.map (layout cfg))) := by
  intro s i l hw hfr ht hs
  obtain ⟨g, rfl⟩ : ∃ g, f = (items.map fun v => ((none : Option Scalar), v)).length + g := ⟨f - items.length, by simp; omega⟩
  obtain ⟨s', h1, h2, h3⟩ := forEach_all
    (body := fun (first : Bool) _ x => (putAll (if first then [.indent] else [itemSep, .newLine])).bind fun _ => (wv x).bind fun _ => .ret false)
    (fun b _ v => sepOps b ++ layout cfg v) (fun _ _ _ => false) (items.map (none, ·)) [] g s true
    (by have := Loop.init hw hfr ht hs rfl; rw [List.append_nil]; exact this) (by
      intro m hm b
      simp only [List.mem_map] at hm
      obtain ⟨v, hv, rfl⟩ := hm
      exact visits_prefix (hwv _ hv) _ _)
  have hr : ∃ p', Reach AState.mach (writeArray wv ((items.map fun v => ((none : Option Scalar), v)).length + g) i) s (opened openArr (items.map (layout cfg))) p' s' := by
    have := fold_opened openArr (fun _ v => layout cfg v) (items.map (none, ·))
    rw [List.map_map] at this
    rw [show items.map (layout cfg) = items.map ((fun m => layout cfg m.2) ∘ fun v => ((none : Option Scalar), v)) from rfl, ← this]
    exact ⟨_, .emit (h1.bind _)⟩
  obtain ⟨p', hr⟩ := hr
  refine ⟨p', s', i :: l, hr, h2.spine, ?_⟩
  rw [h2.todo, frames_same h3]
  simp [bodyToks, endToks]

theorem writeArray_last {cfg : EncCfg} {wv f} {items : List JVal} {m : JVal} (hf : items.length < f) (hwv : ∀ v ∈ items, WV cfg wv v) (hm : ∀ k, m ≠ .scalar k) {cl o}
    (hcut : CutB wv m cl o) :
    CutH (writeArray wv f) .arr (.arr (items ++ [m]) false) (cl ++ [.endArr]) (opened openArr (items.map (layout cfg) ++ [o])) := by
  intro s i l hw hfr ht hs
  obtain ⟨g, rfl⟩ : ∃ g, f = (items.map fun v => ((none : Option Scalar), v)).length + (g + 1) := ⟨f - items.length - 1, by simp; omega⟩
  obtain ⟨p', s', l', h1, h2, h3⟩ := forEach_last
    (body := fun (first : Bool) _ x => (putAll (if first then [.indent] else [itemSep, .newLine])).bind fun _ => (wv x).bind fun _ => .ret false)
    (fun b _ v => sepOps b ++ layout cfg v) (fun _ _ _ => false) (items.map (none, ·)) hm g s true
    (by have := Loop.init hw hfr ht hs rfl; simpa [JVal.members] using this) (by
      intro m hm b
      simp only [List.mem_map] at hm
      obtain ⟨v, hv, rfl⟩ := hm
      exact visits_prefix (hwv _ hv) _ _) (key := none) (hcut.pre _ _)
  have hr : ∃ p', Reach AState.mach (writeArray wv ((items.map fun v => ((none : Option Scalar), v)).length + (g + 1)) i) s (opened openArr (items.map (layout cfg) ++ [o])) p' s' := by
    have := fold_last openArr (fun _ v => layout cfg v) (items.map (none, ·)) o
    rw [List.map_map] at this
    rw [show items.map (layout cfg) = items.map ((fun m => layout cfg m.2) ∘ fun v => ((none : Option Scalar), v)) from rfl, ← this]
    exact ⟨_, .emit (h1.bind _)⟩
  obtain ⟨p', hr⟩ := hr
  exact ⟨p', s', l', hr, h2, by simpa [endToks] using h3⟩

/-! ## Objects -/

theorem broken_obj {cfg : EncCfg} (ms : List (Scalar × JVal)) (hw : ¬ (0 < cfg.maxItems ∧ fits cfg 0 (-2) (ms.map fun m => (m.1, it cfg m.2)) = true)) :
    layout cfg (.obj ms false) = opened openObj (ms.map fun m => keyOps cfg.color (some m.1) ++ layout cfg m.2) ++
      closed closeObj (ms.map fun m => keyOps cfg.color (some m.1) ++ layout cfg m.2) := by
  simp only [layout, It.ops, it_obj, layObj, if_neg hw, broken_eq, List.map_map]
  rfl

theorem CutB.key {wv : Val → IProg POp Unit} {v cl o} (h : CutB wv v cl o) (c : Option Colorizer) (k : Scalar) (l : List POp) {β : Type} (b : β) :
    CutB (fun x => (putAll l).bind fun _ => (writeKey c (some k)).bind fun _ => (wv x).bind fun _ => .ret b) v cl (l ++ (keyOps c (some k) ++ o)) := by
  intro s kk i l' h1 h2 h3 h4
  obtain ⟨p', s', l'', g1, g2, g3⟩ := h s kk i l' h1 h2 h3 h4
  refine ⟨p'.bind fun _ => .ret b, s', l'', (Reach.putAll l _ s).trans ?_, g2, g3⟩
  exact (Reach.putAll _ _ s).trans (g1.bind _)

theorem writeObject_leaf {cfg : EncCfg} {wv f} {ms : List (Scalar × JVal)} (hf : ms.length ≤ f) (hwv : ∀ m ∈ ms, WV cfg wv m.2) :
    CutH (writeObject cfg.color wv f) .obj (.obj ms false) [.endObj] (opened openObj (ms.map fun m => keyOps cfg.color (some m.1) ++ layout cfg m.2)) := by
  intro s i l hw hfr ht hs
  obtain ⟨g, rfl⟩ : ∃ g, f = (ms.map fun m => (some m.1, m.2)).length + g := ⟨f - ms.length, by simp; omega⟩
  obtain ⟨s', h1, h2, h3⟩ := forEach_all
    (body := fun (first : Bool) key x =>
      (putAll (if first then [.indent] else [itemSep, .newLine])).bind fun _ =>
      (writeKey cfg.color key).bind fun _ =>
      (wv x).bind fun _ => .ret false)
    (fun b k v => sepOps b ++ (keyOps cfg.color k ++ layout cfg v)) (fun _ _ _ => false) (ms.map fun m => (some m.1, m.2)) [] g s true
    (by have := Loop.init hw hfr ht hs rfl; rw [List.append_nil]; exact this) (by
      intro m hm b
      simp only [List.mem_map] at hm
      obtain ⟨v, hv, rfl⟩ := hm
      exact visits_key (hwv _ hv) _ _ _)
  have hr : ∃ p', Reach AState.mach (writeObject cfg.color wv ((ms.map fun m => (some m.1, m.2)).length + g) i) s
      (opened openObj (ms.map fun m => keyOps cfg.color (some m.1) ++ layout cfg m.2)) p' s' := by
    have := fold_opened openObj (fun k v => keyOps cfg.color k ++ layout cfg v) (ms.map fun m => (some m.1, m.2))
    rw [List.map_map] at this
    rw [show (ms.map fun m => keyOps cfg.color (some m.1) ++ layout cfg m.2) =
      ms.map ((fun m => keyOps cfg.color m.1 ++ layout cfg m.2) ∘ fun m => (some m.1, m.2)) from rfl, ← this]
    exact ⟨_, .emit (h1.bind _)⟩
  obtain ⟨p', hr⟩ := hr
  refine ⟨p', s', i :: l, hr, h2.spine, ?_⟩
  rw [h2.todo, frames_same h3]
  simp [bodyToks, endToks]

theorem writeObject_last {cfg : EncCfg} {wv f} {ms : List (Scalar × JVal)} {k : Scalar} {m : JVal} (hf : ms.length < f) (hwv : ∀ m ∈ ms, WV cfg wv m.2)
    (hm : ∀ k, m ≠ .scalar k) {cl o} (hcut : CutB wv m cl o) :
    CutH (writeObject cfg.color wv f) .obj (.obj (ms ++ [(k, m)]) false) (cl ++ [.endObj])
      (opened openObj ((ms.map fun m => keyOps cfg.color (some m.1) ++ layout cfg m.2) ++ [keyOps cfg.color (some k) ++ o])) := by
  intro s i l hw hfr ht hs
  obtain ⟨g, rfl⟩ : ∃ g, f = (ms.map fun m => (some m.1, m.2)).length + (g + 1) := ⟨f - ms.length - 1, by simp; omega⟩
  obtain ⟨p', s', l', h1, h2, h3⟩ := forEach_last
    (body := fun (first : Bool) key x =>
      (putAll (if first then [.indent] else [itemSep, .newLine])).bind fun _ =>
      (writeKey cfg.color key).bind fun _ =>
      (wv x).bind fun _ => .ret false)
    (fun b k v => sepOps b ++ (keyOps cfg.color k ++ layout cfg v)) (fun _ _ _ => false) (ms.map fun m => (some m.1, m.2)) hm g s true
    (by have := Loop.init hw hfr ht hs rfl; simpa [JVal.members] using this) (by
      intro m hm b
      simp only [List.mem_map] at hm
      obtain ⟨v, hv, rfl⟩ := hm
      exact visits_key (hwv _ hv) _ _ _) (key := some k) (CutB.key hcut _ k _ _)
  have hr : ∃ p', Reach AState.mach (writeObject cfg.color wv ((ms.map fun m => (some m.1, m.2)).length + (g + 1)) i) s
      (opened openObj ((ms.map fun m => keyOps cfg.color (some m.1) ++ layout cfg m.2) ++ [keyOps cfg.color (some k) ++ o])) p' s' := by
    have := fold_last openObj (fun k v => keyOps cfg.color k ++ layout cfg v) (ms.map fun m => (some m.1, m.2)) (keyOps cfg.color (some k) ++ o)
    rw [List.map_map] at this
    rw [show (ms.map fun m => keyOps cfg.color (some m.1) ++ layout cfg m.2) =
      ms.map ((fun m => keyOps cfg.color m.1 ++ layout cfg m.2) ∘ fun m => (some m.1, m.2)) from rfl, ← this]
    exact ⟨_, .emit (h1.bind _)⟩
  obtain ⟨p', hr⟩ := hr
  exact ⟨p', s', l', hr, h2, by simpa [endToks] using h3⟩

/-! ## Objects in compact form -/

/-- What the first loop does with a member. -/
def pendNext (cfg : EncCfg) (i f : Nat) (L : List (Scalar × Val)) (w : Int) (key : Scalar) : Val → IProg POp (Bool × List (Scalar × Val))
  | .scalar sc => if ((L ++ [(key, Val.scalar sc)]).length : Int) ≤ cfg.maxItems ∧ w + (key.bytes.length + sc.bytes.length + 4) ≤ cfg.widthLimit
      then pendingLoop cfg i f (L ++ [(key, .scalar sc)]) (w + (key.bytes.length + sc.bytes.length + 4)) else .ret (false, L ++ [(key, .scalar sc)])
  | .coll k j => .ret (false, L ++ [(key, .coll k j)])

/-- One round of the first loop. -/
theorem pending_step (cfg : EncCfg) {i f : Nat} {s s1 : AState} {L : List (Scalar × Val)} {w : Int} {key : Scalar} {x : Val}
    (e1 : s.step (.advance i) = .ok (s1, true)) (e2 : s1.step (.current i) = .ok (s1, (some key, some x))) :
    Reach AState.mach (pendingLoop cfg i (f + 1) L w) s [] (pendNext cfg i f L w key x) s1 := by
  simp only [pendingLoop]
  refine .op e1 ?_
  simp only [if_true]
  refine .op e2 ?_
  cases x <;> exact .refl _ _

/-- All members fit. -/
theorem pending_all (cfg : EncCfg) {n0 i l} : ∀ (ms : List (Scalar × JVal)) (f : Nat) (s : AState) (L : List (Scalar × Val)) (w : Int),
    Loop s n0 i l .obj (ms.map fun m => (some m.1, m.2)) → fits cfg L.length w (ms.map fun m => (m.1, it cfg m.2)) = true →
    ∃ p' s', Reach AState.mach (pendingLoop cfg i (ms.length + f) L w) s [] p' s' ∧ Loop s' n0 i l .obj [] ∧ ∀ h ∈ l, s'.coll h = s.coll h := by
  intro ms
  induction ms with
  | nil =>
    intro f s L w hl _
    exact ⟨_, s, .refl _ _, hl, fun _ _ => rfl⟩
  | cons m ms ih =>
    intro f s L w hl hfit
    obtain ⟨key, v⟩ := m
    obtain ⟨s1, x, e1, e2, e3, e4, e5, e6, e7⟩ := hl.next
    cases v with
    | arr items e => simp [fits] at hfit
    | obj items e => simp [fits] at hfit
    | scalar sc =>
      have hxs : x = .scalar sc := e4
      subst hxs
      simp only [List.map_cons, it_scalar, fits, Bool.and_eq_true, decide_eq_true_eq] at hfit
      obtain ⟨p', s', k1, k2, k3⟩ := ih f s1 (L ++ [(key, .scalar sc)]) (w + (key.bytes.length + sc.bytes.length + 4)) e3
        (by rw [List.length_append]; exact hfit.2)
      refine ⟨p', s', ?_, k2, fun h hh => by rw [k3 h hh, e5 h hh]⟩
      have := pending_step cfg (f := ms.length + f) (L := L) (w := w) e1 e2
      simp only [pendNext] at this
      rw [if_pos (by rw [List.length_append, List.length_singleton]; push_cast; exact hfit.1)] at this
      rw [show ((key, JVal.scalar sc) :: ms).length + f = (ms.length + f) + 1 by simp; omega]
      exact this.trans k1

/-- A member does not fit. -/
theorem pending_stop (cfg : EncCfg) {n0 i l} : ∀ (ms : List (Scalar × JVal)) (f : Nat) (s : AState) (L : List (Scalar × Val)) (w : Int), ms.length ≤ f →
    Loop s n0 i l .obj (ms.map fun m => (some m.1, m.2)) → fits cfg L.length w (ms.map fun m => (m.1, it cfg m.2)) = false →
    ∃ (ss : List (Scalar × Scalar)) (k : Scalar) (v : JVal) (post : List (Scalar × JVal)) (x : Val) (s' : AState),
      ms = ss.map (fun m => (m.1, .scalar m.2)) ++ (k, v) :: post ∧
      Reach AState.mach (pendingLoop cfg i f L w) s [] (.ret (false, L ++ ss.map (fun m => (m.1, .scalar m.2)) ++ [(k, x)])) s' ∧
      Loop s' n0 i l .obj (post.map fun m => (some m.1, m.2)) ∧ Fresh s' x v ∧ (∀ h ∈ l, s'.coll h = s.coll h) ∧
      (∀ j, x.idx = some j → n0 ≤ j) ∧ (∀ k j, x = .coll k j → (s'.coll j).thr = 0 ∧ Spine s' (j :: i :: l)) := by
  intro ms
  induction ms with
  | nil => intro f s L w _ _ h; simp [fits] at h
  | cons m ms ih =>
    intro f s L w hf hl hfit
    obtain ⟨f, rfl⟩ : ∃ f', f = f' + 1 := ⟨f - 1, by simp at hf; omega⟩
    obtain ⟨key, v⟩ := m
    obtain ⟨s1, x, e1, e2, e3, e4, e5, e6, e7⟩ := hl.next
    have hst := pending_step cfg (f := f) (L := L) (w := w) e1 e2
    have coll : ∀ k j, x = .coll k j → ∃ (ss : List (Scalar × Scalar)) (k' : Scalar) (v' : JVal) (post : List (Scalar × JVal)) (x : Val) (s' : AState),
        (key, v) :: ms = ss.map (fun m => (m.1, .scalar m.2)) ++ (k', v') :: post ∧
        Reach AState.mach (pendingLoop cfg i (f + 1) L w) s [] (.ret (false, L ++ ss.map (fun m => (m.1, .scalar m.2)) ++ [(k', x)])) s' ∧
        Loop s' n0 i l .obj (post.map fun m => (some m.1, m.2)) ∧ Fresh s' x v' ∧ (∀ h ∈ l, s'.coll h = s.coll h) ∧
        (∀ j, x.idx = some j → n0 ≤ j) ∧ (∀ k j, x = .coll k j → (s'.coll j).thr = 0 ∧ Spine s' (j :: i :: l)) := by
      intro k j hx
      refine ⟨[], key, v, ms, x, s1, rfl, ?_, e3, e4, e5, e6, e7⟩
      rw [hx] at hst ⊢
      simpa [pendNext] using hst
    cases v with
    | arr items e => obtain ⟨k, j, hx⟩ := fresh_coll e4 (by simp); exact coll k j hx
    | obj items e => obtain ⟨k, j, hx⟩ := fresh_coll e4 (by simp); exact coll k j hx
    | scalar sc =>
      have hxs : x = .scalar sc := e4
      subst hxs
      simp only [pendNext] at hst
      by_cases hc : ((L.length : Int) + 1 ≤ cfg.maxItems ∧ w + (key.bytes.length + sc.bytes.length + 4) ≤ cfg.widthLimit)
      · rw [if_pos (by rw [List.length_append, List.length_singleton]; push_cast; exact hc)] at hst
        simp only [List.map_cons, it_scalar, fits, hc, decide_true, Bool.and_true, Bool.true_and, and_self] at hfit
        obtain ⟨ss, k, v, post, x', s', g1, g2, g3, g4, g5, g6⟩ := ih f s1 (L ++ [(key, .scalar sc)]) (w + (key.bytes.length + sc.bytes.length + 4))
          (by simp at hf; omega) e3 (by rw [List.length_append]; exact hfit)
        refine ⟨(key, sc) :: ss, k, v, post, x', s', by simp [g1], ?_, g3, g4, fun h hh => by rw [g5 h hh, e5 h hh], g6⟩
        have := hst.trans g2
        simpa using this
      · rw [if_neg (by rw [List.length_append, List.length_singleton]; push_cast; exact hc)] at hst
        refine ⟨[], key, .scalar sc, ms, .scalar sc, s1, rfl, ?_, e3, e4, e5, e6, e7⟩
        simpa using hst

theorem writePending_reach {cfg : EncCfg} {wv} (hsc : Plain cfg wv) (sep : List POp) {α : Type} (tl : List (Scalar × Val))
    (q : Unit → IProg POp α) (s : AState) : ∀ (ss : List (Scalar × Scalar)) (first : Bool),
      Reach AState.mach ((writePending cfg.color wv sep first (ss.map (fun m => (m.1, .scalar m.2)) ++ tl)).bind q) s
        (preOps sep first (ss.map fun m => keyOps cfg.color (some m.1) ++ printScalar cfg.color m.2))
        ((writePending cfg.color wv sep (first && ss.isEmpty) tl).bind q) s := by
  intro ss
  induction ss with
  | nil => intro first; simp only [preOps, List.map_nil, List.nil_append, List.isEmpty_nil, Bool.and_true]; exact .refl _ _
  | cons m ss ih =>
    intro first
    simp only [List.map_cons, List.cons_append, writePending, IProg.bind_assoc, preOps, List.isEmpty_cons, Bool.and_false]
    have h1 := Reach.putAll (m := AState.mach) ((if first then [] else sep) ++ (printScalar cfg.color m.1 ++ [keySep])) (fun _ => (wv (.scalar m.2)).bind fun _ =>
      (writePending cfg.color wv sep false (ss.map (fun m => (m.1, .scalar m.2)) ++ tl)).bind q) s
    rw [hsc m.2] at h1 ⊢
    have := h1.trans ((Reach.putAll (m := AState.mach) (printScalar cfg.color m.2)
      (fun _ => (writePending cfg.color wv sep false (ss.map (fun m => (m.1, .scalar m.2)) ++ tl)).bind q) s).trans (ih false))
    simpa [keyOps] using this

/-- What follows the members that were held back. -/
def restP (cfg : EncCfg) (wv : Val → IProg POp Unit) (f i : Nat) : IProg POp Unit :=
  (forEach (fun (_ : Unit) key x =>
      (putAll [itemSep, .newLine]).bind fun _ =>
      (writeKey cfg.color key).bind fun _ =>
      (wv x).bind fun _ => .ret ()) i f ()).bind fun _ =>
    .op (.elided i) fun (e : Bool) =>
    (putAll (if e then [.newLine, elisionOp] else [])).bind fun _ =>
    (put .dedent).bind fun _ => put closeObj

/-- The members up to the one that does not fit. -/
theorem compact_stop {cfg : EncCfg} {wv f} {ms : List (Scalar × JVal)} (hf : ms.length ≤ f) (hsc : Plain cfg wv) (hfit : fits cfg 0 (-2) (ms.map fun m => (m.1, it cfg m.2)) = false)
    {s : AState} {n0 i l} (hl : Loop s n0 i l .obj (ms.map fun m => (some m.1, m.2))) :
    ∃ (ss : List (Scalar × Scalar)) (k : Scalar) (v : JVal) (post : List (Scalar × JVal)) (x : Val) (s' : AState),
      ms = ss.map (fun m => (m.1, .scalar m.2)) ++ (k, v) :: post ∧
      Reach AState.mach (writeObjectCompact cfg wv f i) s (opened openObj ((ss.map fun m => keyOps cfg.color (some m.1) ++ printScalar cfg.color m.2) ++ [keyOps cfg.color (some k)]))
        ((wv x).bind fun _ => restP cfg wv f i) s' ∧
      Loop s' n0 i l .obj (post.map fun m => (some m.1, m.2)) ∧ Fresh s' x v ∧ (∀ h ∈ l, s'.coll h = s.coll h) ∧
      (∀ j, x.idx = some j → n0 ≤ j) ∧ (∀ k j, x = .coll k j → (s'.coll j).thr = 0 ∧ Spine s' (j :: i :: l)) := by
  obtain ⟨ss, k, v, post, x, s', g1, g2, g3⟩ := pending_stop cfg ms f s [] (-2) hf hl hfit
  refine ⟨ss, k, v, post, x, s', g1, ?_, g3⟩
  have h1 := writePending_reach (cfg := cfg) hsc [itemSep, .newLine] [(k, x)] (fun _ => restP cfg wv f i) s' ss true
  have h3 : Reach AState.mach (writeObjectCompact cfg wv f i) s [openObj, .indent]
      ((writePending cfg.color wv [itemSep, .newLine] true (ss.map (fun m => (m.1, .scalar m.2)) ++ [(k, x)])).bind fun _ => restP cfg wv f i) s' := by
    have h2 := g2.bind (fun (r : Bool × List (Scalar × Val)) =>
      (put openObj).bind fun _ =>
      (if r.1 then
        (writePending cfg.color wv [compactSep] true r.2).bind fun _ =>
        .op (.elided i) fun (e : Bool) => putAll (if e then [elisionOp] else [])
      else
        (put .indent).bind fun _ =>
        (writePending cfg.color wv [itemSep, .newLine] true r.2).bind fun _ =>
        (forEach (fun (_ : Unit) key x =>
          (putAll [itemSep, .newLine]).bind fun _ =>
          (writeKey cfg.color key).bind fun _ =>
          (wv x).bind fun _ => .ret ()) i f ()).bind fun _ =>
        .op (.elided i) fun (e : Bool) =>
        (putAll (if e then [.newLine, elisionOp] else [])).bind fun _ =>
        put .dedent).bind fun _ =>
      put closeObj)
    refine h2.trans (.emit ?_)
    simp only [IProg.bind, Bool.false_eq_true, if_false]
    refine .emit ?_
    simp only [IProg.bind, IProg.bind_assoc, List.nil_append, restP]
    exact .refl _ _
  simp only [writePending, IProg.bind_assoc, IProg.bind] at h1
  have h4 := (h3.trans h1).trans (Reach.putAll (m := AState.mach) ((if (true && ss.isEmpty) = true then [] else [itemSep, .newLine]) ++ (printScalar cfg.color k ++ [keySep]))
    (fun _ => (wv x).bind fun _ => restP cfg wv f i) s')
  have e : opened openObj ((ss.map fun m => keyOps cfg.color (some m.1) ++ printScalar cfg.color m.2) ++ [keyOps cfg.color (some k)]) =
      [openObj, .indent] ++ preOps [itemSep, .newLine] true (ss.map fun m => keyOps cfg.color (some m.1) ++ printScalar cfg.color m.2) ++
        ((if (true && ss.isEmpty) = true then [] else [itemSep, .newLine]) ++ (printScalar cfg.color k ++ [keySep])) := by
    simp [opened, preOps_append, preOps, keyOps]
  rw [e]
  exact h4

theorem opened_more (o : POp) (l l' : List (List POp)) (hl : l ≠ []) : opened o (l ++ l') = opened o l ++ l'.flatMap fun y => [itemSep, .newLine] ++ y := by
  have : l.isEmpty = false := by cases l <;> simp at hl ⊢
  simp [opened, hl, preOps_append, this, preOps_false]

theorem writeObjectCompact_leaf {cfg : EncCfg} {wv f} {ms : List (Scalar × JVal)} (hf : ms.length ≤ f) (hsc : Plain cfg wv) (hwv : ∀ m ∈ ms, WV cfg wv m.2)
    (hfit : fits cfg 0 (-2) (ms.map fun m => (m.1, it cfg m.2)) = false) :
    CutH (writeObjectCompact cfg wv f) .obj (.obj ms false) [.endObj] (opened openObj (ms.map fun m => keyOps cfg.color (some m.1) ++ layout cfg m.2)) := by
  intro s i l hw hfr ht hs
  obtain ⟨ss, k, v, post, x, s1, g1, g2, g3, g4, g5, g6, g7⟩ := compact_stop hf hsc hfit (Loop.init hw hfr ht hs rfl)
  obtain ⟨s2, e1, e2, e3⟩ := hwv (k, v) (by rw [g1]; simp) s1 x g3.wf.links g4
  obtain ⟨e4, e5⟩ := g3.keep e3 g6 ((Reach.of_run e1).wf g3.wf)
  obtain ⟨g, rfl⟩ : ∃ g, f = (post.map fun m => (some m.1, m.2)).length + g := ⟨f - post.length, by rw [g1] at hf; simp at hf ⊢; omega⟩
  obtain ⟨s3, h1, h2, h3⟩ := forEach_all
    (body := fun (_ : Unit) key x =>
      (putAll [itemSep, .newLine]).bind fun _ =>
      (writeKey cfg.color key).bind fun _ =>
      (wv x).bind fun _ => .ret ())
    (fun b k v => [itemSep, .newLine] ++ (keyOps cfg.color k ++ layout cfg v)) (fun _ _ _ => ()) (post.map fun m => (some m.1, m.2)) [] g s2 ()
    (by rw [List.append_nil]; exact e4) (by
      intro m hm b
      simp only [List.mem_map] at hm
      obtain ⟨m, hv, rfl⟩ := hm
      exact visits_key (hwv m (by rw [g1]; simp [hv])) _ _ _)
  rw [foldOut_const (fun k v => [itemSep, .newLine] ++ (keyOps cfg.color k ++ layout cfg v))] at h1
  have hr := (g2.trans (Reach.of_run_bind e1 _)).trans (h1.bind _)
  have e : opened openObj (ms.map fun m => keyOps cfg.color (some m.1) ++ layout cfg m.2) =
      opened openObj ((ss.map fun m => keyOps cfg.color (some m.1) ++ printScalar cfg.color m.2) ++ [keyOps cfg.color (some k)]) ++ layout cfg v ++
        (post.map fun m => (some m.1, m.2)).flatMap fun m => [itemSep, .newLine] ++ (keyOps cfg.color m.1 ++ layout cfg m.2) := by
    rw [g1, List.map_append, List.map_cons, List.append_cons, opened_more _ _ _ (by simp), opened_snoc, List.map_map, List.flatMap_map, List.flatMap_map]
    simp [layout, It.ops, Function.comp_def]
  refine ⟨_, s3, i :: l, e ▸ hr, h2.spine, ?_⟩
  rw [h2.todo, frames_same fun h hh => by rw [h3 h hh, e5 h hh, g5 h hh]]
  simp [bodyToks, endToks]

theorem fits_coll {cfg : EncCfg} {kk : Scalar} {m : JVal} (hm : ∀ k, m ≠ .scalar k) (ms : List (Scalar × JVal)) :
    ∀ n w, fits cfg n w ((ms ++ [(kk, m)]).map fun m => (m.1, it cfg m.2)) = false := by
  induction ms with
  | nil =>
    intro n w
    cases m with
    | scalar k => exact absurd rfl (hm k)
    | arr _ _ => simp [fits]
    | obj _ _ => simp [fits]
  | cons a ms ih =>
    intro n w
    obtain ⟨a, b⟩ := a
    cases b with
    | scalar k => simp only [List.cons_append, List.map_cons, it_scalar, fits, ih, Bool.and_false]
    | arr _ _ => simp [fits]
    | obj _ _ => simp [fits]

theorem writeObjectCompact_last {cfg : EncCfg} {wv f} {ms : List (Scalar × JVal)} {kk : Scalar} {m : JVal} (hf : ms.length < f) (hsc : Plain cfg wv) (hwv : ∀ m ∈ ms, WV cfg wv m.2)
    (hm : ∀ k, m ≠ .scalar k) {cl o} (hcut : CutB wv m cl o) :
    CutH (writeObjectCompact cfg wv f) .obj (.obj (ms ++ [(kk, m)]) false) (cl ++ [.endObj])
      (opened openObj ((ms.map fun m => keyOps cfg.color (some m.1) ++ layout cfg m.2) ++ [keyOps cfg.color (some kk) ++ o])) := by
  intro s i l hw hfr ht hs
  obtain ⟨ss, k, v, post, x, s1, g1, g2, g3, g4, g5, g6, g7⟩ := compact_stop (f := f) (by simp; omega) hsc (fits_coll hm ms 0 (-2)) (Loop.init hw hfr ht hs rfl)
  rcases List.eq_nil_or_concat post with rfl | ⟨post, b, rfl⟩
  · -- it is the last member that does not fit
    obtain ⟨rfl, h2⟩ := List.append_inj' g1 rfl
    simp only [List.cons.injEq, Prod.mk.injEq, and_true] at h2
    obtain ⟨rfl, rfl⟩ := h2
    obtain ⟨k', j, rfl⟩ := fresh_coll g4 hm
    obtain ⟨t1, t2⟩ := g7 k' j rfl
    obtain ⟨p', s', l', r1, r2, r3⟩ := hcut s1 k' j (i :: l) g3.wf g4 t1 t2
    have hr := g2.trans (r1.bind _)
    rw [← opened_snoc] at hr
    refine ⟨p'.bind fun _ => restP cfg wv f i, s', l', ?_, r2, ?_⟩
    · simpa [layout, It.ops, Function.comp_def] using hr
    · rw [g3.todo, frames_same g5] at r3
      simpa [bodyToks, endToks] using r3
  · rw [show ss.map (fun m => (m.1, JVal.scalar m.2)) ++ (k, v) :: post.concat b = (ss.map (fun m => (m.1, JVal.scalar m.2)) ++ (k, v) :: post) ++ [b] by simp] at g1
    obtain ⟨rfl, h2⟩ := List.append_inj' g1 rfl
    simp only [List.cons.injEq, and_true] at h2
    subst h2
    obtain ⟨s2, e1, e2, e3⟩ := hwv (k, v) (by simp) s1 x g3.wf.links g4
    obtain ⟨e4, e5⟩ := g3.keep e3 g6 ((Reach.of_run e1).wf g3.wf)
    obtain ⟨g, rfl⟩ : ∃ g, f = (post.map fun m => (some m.1, m.2)).length + (g + 1) := ⟨f - post.length - 1, by simp at hf ⊢; omega⟩
    obtain ⟨p', s', l', h1, h2, h3⟩ := forEach_last
      (body := fun (_ : Unit) key x =>
        (putAll [itemSep, .newLine]).bind fun _ =>
        (writeKey cfg.color key).bind fun _ =>
        (wv x).bind fun _ => .ret ())
      (fun b k v => [itemSep, .newLine] ++ (keyOps cfg.color k ++ layout cfg v)) (fun _ _ _ => ()) (post.map fun m => (some m.1, m.2)) hm g s2 ()
      (by simpa using e4) (by
        intro m hm b
        simp only [List.mem_map] at hm
        obtain ⟨m, hv, rfl⟩ := hm
        exact visits_key (hwv m (by simp [hv])) _ _ _) (key := some kk) (CutB.key hcut _ kk _ _)
    rw [foldOut_const (fun k v => [itemSep, .newLine] ++ (keyOps cfg.color k ++ layout cfg v))] at h1
    have hr : ∃ p', Reach AState.mach _ s _ p' s' := ⟨_, (g2.trans (Reach.of_run_bind e1 _)).trans (h1.bind _)⟩
    obtain ⟨p'', hr⟩ := hr
    have e : opened openObj (((ss.map (fun m => (m.1, JVal.scalar m.2)) ++ (k, v) :: post).map fun m => keyOps cfg.color (some m.1) ++ layout cfg m.2) ++ [keyOps cfg.color (some kk) ++ o]) =
        opened openObj ((ss.map fun m => keyOps cfg.color (some m.1) ++ printScalar cfg.color m.2) ++ [keyOps cfg.color (some k)]) ++ layout cfg v ++
          (((post.map fun m => (some m.1, m.2)).flatMap fun m => [itemSep, .newLine] ++ (keyOps cfg.color m.1 ++ layout cfg m.2)) ++
          ([itemSep, .newLine] ++ (keyOps cfg.color (some kk) ++ o))) := by
      rw [List.map_append, List.map_cons, opened_more _ _ _ (by simp), List.append_cons, opened_more _ _ _ (by simp), opened_snoc, List.map_map, List.flatMap_map, List.flatMap_map]
      simp [layout, It.ops, Function.comp_def]
    refine ⟨p'', s', l', e ▸ hr, h2, ?_⟩
    rw [show frames s2 l = frames s l from frames_same fun h hh => by rw [e5 h hh, g5 h hh]] at h3
    simpa [endToks] using h3

/-- Objects that fit on one line: nothing is printed before the end. -/
theorem writeObjectCompact_fits {cfg : EncCfg} {wv f} {ms : List (Scalar × JVal)} (hf : ms.length ≤ f)
    (hfit : fits cfg 0 (-2) (ms.map fun m => (m.1, it cfg m.2)) = true) :
    CutH (writeObjectCompact cfg wv f) .obj (.obj ms false) [.endObj] [] := by
  intro s i l hw hfr ht hs
  obtain ⟨g, rfl⟩ : ∃ g, f = ms.length + g := ⟨f - ms.length, by omega⟩
  obtain ⟨p', s', h1, h2, h3⟩ := pending_all cfg ms g s [] (-2) (Loop.init hw hfr ht hs rfl) hfit
  refine ⟨_, s', i :: l, h1.bind _, h2.spine, ?_⟩
  rw [h2.todo, frames_same h3]
  simp [bodyToks, endToks]

theorem fits_bytes {cfg : EncCfg} (hc : cfg.color = none) : ∀ (ms : List (Scalar × It)) (n : Nat) (w : Int), fits cfg n w ms = true → ms ≠ [] →
    w + (bytesOf (ms.flatMap fun m => [compactSep] ++ memberOps cfg.color m) : Nat) ≤ cfg.widthLimit := by
  intro ms
  induction ms with
  | nil => intro n w _ h; exact absurd rfl h
  | cons m ms ih =>
    intro n w hfit _
    obtain ⟨k, x⟩ := m
    cases x with
    | inr l => simp [fits] at hfit
    | inl sc =>
      simp only [fits, Bool.and_eq_true, decide_eq_true_eq] at hfit
      have e : bytesOf ([compactSep] ++ memberOps cfg.color (k, .inl sc)) = k.bytes.length + sc.bytes.length + 4 := by
        simp [memberOps, printScalar, hc, It.ops, compactSep, keySep]
        omega
      rw [List.flatMap_cons, bytesOf_append, e]
      cases ms with
      | nil => simp; omega
      | cons m' ms =>
        have := ih _ _ hfit.2 (by simp)
        omega

theorem flat_bytes {cfg : EncCfg} (hc : cfg.color = none) (ms : List (Scalar × It)) (hfit : fits cfg 0 (-2) ms = true) :
    (bytesOf (flat openObj closeObj (ms.map (memberOps cfg.color)) false) : Int) ≤ max 0 cfg.widthLimit + 2 := by
  cases ms with
  | nil => simp [flat, sepBy, openObj, closeObj]; omega
  | cons m ms =>
    have := fits_bytes hc (m :: ms) 0 (-2) hfit (by simp)
    simp only [List.flatMap_cons, bytesOf_append] at this
    simp only [flat, sepBy, List.map_cons, List.flatMap_map, openObj, closeObj, bytesOf_bytes, bytesOf_append]
    simp [compactSep] at this ⊢
    omega

/-! ## Arrays in compact form -/

/-- Items that are held back fit on one line. -/
def ACInv (cfg : EncCfg) (st : ACState) : Prop :=
  (st.items = [] ∧ (st.width = -2 ∨ cfg.widthLimit < st.width)) ∨ (st.items ≠ [] ∧ ((bytesOf (lineOps none st.items) : Nat) : Int) = st.width ∧ st.width ≤ cfg.widthLimit)

theorem line_snoc (l : List Scalar) (s : Scalar) (hl : l ≠ []) : bytesOf (lineOps none (l ++ [s])) = bytesOf (lineOps none l) + (s.bytes.length + 2) := by
  unfold lineOps
  rw [← preOps_true, ← preOps_true, List.map_append, preOps_append]
  have : (l.map (printScalar none)).isEmpty = false := by cases l <;> simp at hl ⊢
  simp [this, preOps, printScalar, compactSep]
  omega

theorem line_one (s : Scalar) : bytesOf (lineOps none [s]) = s.bytes.length := by simp [lineOps, sepBy, printScalar]

theorem acInv_next {cfg : EncCfg} (hw : 0 < cfg.widthLimit) {st : ACState} (h : ACInv cfg st) (x : It) : ACInv cfg (acNext cfg st x) := by
  cases x with
  | inr l =>
    simp only [acNext]
    rcases h with ⟨h1, h2⟩ | ⟨h1, h2, h3⟩
    · rw [if_pos h1]; exact .inl ⟨rfl, h2⟩
    · rw [if_neg h1]; exact .inl ⟨rfl, .inl rfl⟩
  | inl s =>
    simp only [acNext]
    split
    · rename_i hle
      rcases h with ⟨h1, h2⟩ | ⟨h1, h2, h3⟩
      · refine .inr ⟨by simp, ?_, hle⟩
        rcases h2 with h2 | h2
        · simp only [h1, List.nil_append, line_one, h2]; omega
        · omega
      · refine .inr ⟨by simp, ?_, hle⟩
        simp only [line_snoc _ _ h1]
        push_cast
        omega
    · rename_i hle
      split
      · exact .inl ⟨rfl, .inr (by simp; omega)⟩
      · split
        · rename_i h; exact .inr ⟨by simp, by simp [line_one], h⟩
        · rename_i h; exact .inl ⟨rfl, .inr (by simp; omega)⟩

theorem acInv_fold {cfg : EncCfg} (hw : 0 < cfg.widthLimit) : ∀ (l : List It) {st : ACState}, ACInv cfg st → ACInv cfg (acFold cfg st l).2 := by
  intro l
  induction l with
  | nil => intro st h; exact h
  | cons x l ih => intro st h; exact ih (acInv_next hw h x)

theorem acFold_append (cfg : EncCfg) : ∀ (l l' : List It) (st : ACState),
    acFold cfg st (l ++ l') = ((acFold cfg st l).1 ++ (acFold cfg (acFold cfg st l).2 l').1, (acFold cfg (acFold cfg st l).2 l').2) := by
  intro l
  induction l with
  | nil => intro l' st; rfl
  | cons x l ih => intro l' st; simp [acFold, ih]

theorem writeArrayCompact_leaf {cfg : EncCfg} {wv f} {items : List JVal} (hf : items.length ≤ f) (hsc : Plain cfg wv) (hwv : ∀ v ∈ items, WV cfg wv v) :
    CutH (writeArrayCompact cfg wv f) .arr (.arr items false) [.endArr] (openArr :: (acFold cfg ⟨[], -2, true⟩ (items.map (it cfg))).1) := by
  intro s i l hw hfr ht hs
  obtain ⟨g, rfl⟩ : ∃ g, f = (items.map fun v => ((none : Option Scalar), v)).length + g := ⟨f - items.length, by simp; omega⟩
  obtain ⟨s', h1, h2, h3⟩ := forEach_all
    (body := fun st _ x => arrayCompactStep cfg wv st x)
    (fun st _ v => acOut cfg st (it cfg v)) (fun st _ v => acNext cfg st (it cfg v)) (items.map (none, ·)) [] g s ⟨[], -2, true⟩
    (by have := Loop.init hw hfr ht hs rfl; rw [List.append_nil]; exact this) (by
      intro m hm b
      simp only [List.mem_map] at hm
      obtain ⟨v, hv, rfl⟩ := hm
      exact acStep_visits hsc (hwv _ hv) b)
  rw [foldOut_ac] at h1
  refine ⟨_, s', i :: l, .emit (h1.bind _), h2.spine, ?_⟩
  rw [h2.todo, frames_same h3]
  simp [bodyToks, endToks]

/-- What is printed before a collection. -/
def acPre (cfg : EncCfg) (st : ACState) : List POp := sepOps st.first ++ if st.items = [] then [] else lineOps cfg.color st.items ++ sepOps false

theorem acOut_inr (cfg : EncCfg) (st : ACState) (l : List POp) : acOut cfg st (.inr l) = acPre cfg st ++ l := by
  simp only [acOut, acPre]
  split <;> simp

theorem writeItems_reach {cfg : EncCfg} {wv} (hsc : Plain cfg wv) {α : Type} (q : Unit → IProg POp α) (s : AState) (ss : List Scalar) :
    Reach AState.mach ((writeItems wv true ss).bind q) s (lineOps cfg.color ss) (q ()) s := by
  have key : ∀ (ss : List Scalar) (first : Bool), Reach AState.mach ((writeItems wv first ss).bind q) s (preOps [compactSep] first (ss.map (printScalar cfg.color))) (q ()) s := by
    intro ss
    induction ss with
    | nil => intro first; exact .refl _ _
    | cons m ss ih =>
      intro first
      simp only [List.map_cons, writeItems, IProg.bind_assoc, preOps]
      rw [hsc m]
      exact (Reach.putAll _ _ s).trans ((Reach.putAll _ _ s).trans (ih false))
  have := key ss true
  rwa [preOps_true] at this

theorem acStep_cut {cfg : EncCfg} {wv} (hsc : Plain cfg wv) {m cl o} (hcut : CutB wv m cl o) (st : ACState) : CutB (arrayCompactStep cfg wv st) m cl (acPre cfg st ++ o) := by
  intro s k i l h1 h2 h3 h4
  obtain ⟨p', s', l', g1, g2, g3⟩ := hcut s k i l h1 h2 h3 h4
  have hr : ∃ p', Reach AState.mach (arrayCompactStep cfg wv st (.coll k i)) s (acPre cfg st ++ o) p' s' := by
    simp only [arrayCompactStep, acPre]
    by_cases hi : st.items = []
    · simp only [hi, if_true, List.append_nil]
      exact ⟨_, (Reach.putAll _ _ s).trans (g1.bind _)⟩
    · simp only [hi, if_false]
      rw [List.append_assoc, List.append_assoc]
      exact ⟨_, (Reach.putAll _ _ s).trans ((writeItems_reach hsc _ s _).trans ((Reach.putAll _ _ s).trans (g1.bind _)))⟩
  obtain ⟨p', hr⟩ := hr
  exact ⟨p', s', l', hr, g2, g3⟩

theorem writeArrayCompact_last {cfg : EncCfg} {wv f} {items : List JVal} {m : JVal} (hf : items.length < f) (hsc : Plain cfg wv) (hwv : ∀ v ∈ items, WV cfg wv v)
    (hm : ∀ k, m ≠ .scalar k) {cl o} (hcut : CutB wv m cl o) :
    CutH (writeArrayCompact cfg wv f) .arr (.arr (items ++ [m]) false) (cl ++ [.endArr])
      (openArr :: ((acFold cfg ⟨[], -2, true⟩ (items.map (it cfg))).1 ++ (acPre cfg (acFold cfg ⟨[], -2, true⟩ (items.map (it cfg))).2 ++ o))) := by
  intro s i l hw hfr ht hs
  obtain ⟨g, rfl⟩ : ∃ g, f = (items.map fun v => ((none : Option Scalar), v)).length + (g + 1) := ⟨f - items.length - 1, by simp; omega⟩
  obtain ⟨p', s', l', h1, h2, h3⟩ := forEach_last
    (body := fun st _ x => arrayCompactStep cfg wv st x)
    (fun st _ v => acOut cfg st (it cfg v)) (fun st _ v => acNext cfg st (it cfg v)) (items.map (none, ·)) hm g s ⟨[], -2, true⟩
    (by have := Loop.init hw hfr ht hs rfl; simpa [JVal.members] using this) (by
      intro m hm b
      simp only [List.mem_map] at hm
      obtain ⟨v, hv, rfl⟩ := hm
      exact acStep_visits hsc (hwv _ hv) b) (key := none) (acStep_cut hsc hcut _)
  rw [foldOut_ac] at h1
  exact ⟨_, s', l', .emit (h1.bind _), h2, by simpa [endToks] using h3⟩

/-! ## Values -/

theorem CutH.val {cfg : EncCfg} {f : Nat} {v : JVal} {cl o} {p : Nat → IProg POp Unit} (h : CutH p v.kind v cl o)
    (hp : ∀ i, writeValue cfg f (.coll v.kind i) = p i) : CutB (writeValue cfg f) v cl o := by
  intro s k i l h1 h2 h3 h4
  obtain ⟨rfl, -⟩ := h2.before rfl
  obtain ⟨p', s', l', g1, g2, g3⟩ := h s i l h1 h2 h3 h4
  exact ⟨p', s', l', by rw [hp]; exact g1, g2, g3⟩

theorem closed_bytes (b : Bytes) (l : List (List POp)) : bytesOf (closed (.bytes b) l) = b.length := by
  unfold closed
  split <;> simp

/-- What follows the items of an array in compact form. -/
def acTail (cfg : EncCfg) (st : ACState) : List POp :=
  (if st.items = [] then [] else (if st.first then [] else [itemSep, .newLine]) ++ lineOps cfg.color st.items) ++
    ((if st.first then [] else [.dedent]) ++ [closeArr])

/-- How much the end of a text can be: bytes, lines and levels. -/
structure Tail (cfg : EncCfg) (d : Nat) (tail : List POp) : Prop where
  bytes : cfg.color = none → (bytesOf tail : Int) ≤ max 0 cfg.widthLimit + 2 + d
  indent : .indent ∉ tail
  reset : .reset ∉ tail
  line : tail.count .newLine ≤ 1
  dedent : tail.count .dedent ≤ d + 1

theorem Line.not_mem {l : List POp} (h : Line l) {x : POp} (hx : ∀ b, x ≠ .bytes b) : x ∉ l := by
  intro hm
  obtain ⟨b, rfl⟩ := h _ hm
  exact hx b rfl

theorem Line.count {l : List POp} (h : Line l) {x : POp} (hx : ∀ b, x ≠ .bytes b) : l.count x = 0 := List.count_eq_zero.2 (h.not_mem hx)

theorem Line.append {l l' : List POp} (h : Line l) (h' : Line l') : Line (l ++ l') := by
  intro o ho
  rcases List.mem_append.1 ho with h1 | h1
  · exact h o h1
  · exact h' o h1

theorem line_sepBy {sep : List POp} (hs : Line sep) : ∀ {l : List (List POp)}, (∀ x ∈ l, Line x) → Line (sepBy sep l)
  | [], _ => by intro o ho; simp [sepBy] at ho
  | x :: l, h => by
    rw [sepBy]
    refine (h x (by simp)).append fun o ho => ?_
    obtain ⟨y, hy, ho⟩ := List.mem_flatMap.1 ho
    exact (hs.append (h y (by simp [hy]))) o ho

theorem line_bytes (b : Bytes) : Line [.bytes b] := by intro o ho; exact ⟨b, by simpa using ho⟩

theorem line_lineOps (c : Option Colorizer) (l : List Scalar) : Line (lineOps c l) := by
  refine line_sepBy (line_bytes _) ?_
  simp only [List.mem_map]
  rintro x ⟨s, _, rfl⟩
  exact line_scalar _ _

theorem Line.tail {cfg : EncCfg} {d : Nat} {l : List POp} (h : Line l) (hb : cfg.color = none → (bytesOf l : Int) ≤ max 0 cfg.widthLimit + 2 + d) : Tail cfg d l :=
  ⟨hb, h.not_mem (by simp), h.not_mem (by simp), by rw [h.count (by simp)]; omega, by rw [h.count (by simp)]; omega⟩

theorem tail_closed (cfg : EncCfg) (b : Bytes) (hb : b.length = 1) (l : List (List POp)) : Tail cfg 0 (closed (.bytes b) l) := by
  refine ⟨fun _ => ?_, ?_, ?_, ?_, ?_⟩
  · rw [closed_bytes]; omega
  all_goals unfold closed; split <;> simp [List.count_cons]

theorem Tail.close {cfg : EncCfg} {d : Nat} {tail : List POp} (h : Tail cfg d tail) (b : Bytes) (hb : b.length = 1) : Tail cfg (d + 1) (tail ++ [.dedent, .bytes b]) := by
  refine ⟨fun hc => ?_, ?_, ?_, ?_, ?_⟩
  · have := h.bytes hc
    simp [hb]
    omega
  · simpa using h.indent
  · simpa using h.reset
  · simpa [List.count_cons] using h.line
  · have := h.dedent
    simp [List.count_cons]
    omega

theorem tail_acTail {cfg : EncCfg} (hw : 0 < cfg.widthLimit) {st : ACState} (hi : ACInv cfg st) : Tail cfg 0 (acTail cfg st) := by
  have hl := line_lineOps cfg.color st.items
  refine ⟨fun hc => ?_, ?_, ?_, ?_, ?_⟩
  · rw [acTail, hc]
    rcases hi with ⟨h1, h2⟩ | ⟨h1, h2, h3⟩
    · cases hfi : st.first <;> simp [h1, closeArr] <;> omega
    · cases hfi : st.first <;> simp [h1, closeArr, itemSep] <;> omega
  · have := hl.not_mem (x := .indent) (by simp)
    unfold acTail; split <;> split <;> simp_all [closeArr, itemSep]
  · have := hl.not_mem (x := .reset) (by simp)
    unfold acTail; split <;> split <;> simp_all [closeArr, itemSep]
  · have := hl.count (x := .newLine) (by simp)
    unfold acTail; split <;> split <;> simp_all [closeArr, itemSep, List.count_cons]
  · have := hl.count (x := .dedent) (by simp)
    unfold acTail; split <;> split <;> simp_all [closeArr, itemSep, List.count_cons]

theorem fits_line {cfg : EncCfg} {ms : List (Scalar × It)} (hfit : fits cfg 0 (-2) ms = true) : Line (flat openObj closeObj (ms.map (memberOps cfg.color)) false) := by
  have key : ∀ x ∈ ms.map (memberOps cfg.color), Line x := by
    simp only [List.mem_map]
    rintro x ⟨m, hm, rfl⟩
    obtain ⟨s, hs⟩ := fits_scalars cfg ms 0 (-2) hfit m hm
    rw [memberOps, hs]
    exact ((line_scalar _ _).append (line_bytes _)).append (line_scalar _ _)
  have h2 : flat openObj closeObj (ms.map (memberOps cfg.color)) false = [openObj] ++ (sepBy [compactSep] (ms.map (memberOps cfg.color)) ++ [closeObj]) := by
    simp [flat]
  rw [h2]
  exact (line_bytes _).append ((line_sepBy (line_bytes _) key).append (line_bytes _))

/-- What is printed of a value that is cut off, and how much of it is missing. -/
theorem writeValue_cut (cfg : EncCfg) {d v cl} (h : CutV d v cl) :
    ∃ o tail, (∀ f, v.toks.length ≤ f → CutB (writeValue cfg f) v cl o) ∧ layout cfg v = o ++ tail ∧ Tail cfg d tail := by
  induction h with
  | @leaf v hv he =>
    cases v with
    | scalar k => exact absurd rfl (hv k)
    | arr items e =>
      have he : e = false := he
      subst he
      have hb := itemToks_bound items
      have hsub : ∀ f, (itemToks items).length ≤ f → ∀ v ∈ items, WV cfg (writeValue cfg f) v := fun f hf v hm => writeValue_visits cfg _ v (by have := hb.2 v hm; omega)
      have hpos : ∀ f, (JVal.arr items false).toks.length ≤ f → ∃ f', f = f' + 1 + 1 ∧ (itemToks items).length ≤ f' := by
        intro f hf
        simp [JVal.toks, elisionToks] at hf
        exact ⟨f - 2, by omega, by omega⟩
      by_cases hw : 0 < cfg.widthLimit
      · refine ⟨openArr :: (acFold cfg ⟨[], -2, true⟩ (items.map (it cfg))).1, acTail cfg (acFold cfg ⟨[], -2, true⟩ (items.map (it cfg))).2, fun f hf => ?_, ?_, tail_acTail hw (acInv_fold hw _ (.inl ⟨rfl, .inl rfl⟩))⟩
        · obtain ⟨f, rfl, hf'⟩ := hpos f hf
          exact CutH.val (p := writeArrayCompact cfg (writeValue cfg (f + 1)) (f + 1))
            (writeArrayCompact_leaf (by omega) (plain_writeValue cfg f) (hsub _ (by omega))) (fun i => by simp [JVal.kind, writeValue, hw])
        · simp only [layout, It.ops, it_arr, layArr, hw, if_true, layArrCompact]
          simp [acTail]
      · refine ⟨_, _, fun f hf => ?_, broken_arr items hw, tail_closed cfg _ rfl _⟩
        obtain ⟨f, rfl, hf'⟩ := hpos f hf
        exact CutH.val (p := writeArray (writeValue cfg (f + 1)) (f + 1))
          (writeArray_leaf (by omega) (hsub _ (by omega))) (fun i => by simp [JVal.kind, writeValue, hw])
    | obj ms e =>
      have he : e = false := he
      subst he
      have hb := memberToks_bound ms
      have hsub : ∀ f, (memberToks ms).length ≤ f → ∀ m ∈ ms, WV cfg (writeValue cfg f) m.2 := fun f hf v hm => writeValue_visits cfg _ v.2 (by have := hb.2 v hm; omega)
      have hpos : ∀ f, (JVal.obj ms false).toks.length ≤ f → ∃ f', f = f' + 1 + 1 ∧ (memberToks ms).length ≤ f' := by
        intro f hf
        simp [JVal.toks, elisionToks] at hf
        exact ⟨f - 2, by omega, by omega⟩
      by_cases hw : 0 < cfg.maxItems
      · by_cases hfit : fits cfg 0 (-2) (ms.map fun m => (m.1, it cfg m.2)) = true
        · refine ⟨[], layout cfg (.obj ms false), fun f hf => ?_, rfl, ?_⟩
          · obtain ⟨f, rfl, hf'⟩ := hpos f hf
            exact CutH.val (p := writeObjectCompact cfg (writeValue cfg (f + 1)) (f + 1))
              (writeObjectCompact_fits (by omega) hfit) (fun i => by simp [JVal.kind, writeValue, hw])
          · have e : layout cfg (.obj ms false) = flat openObj closeObj ((ms.map fun m => (m.1, it cfg m.2)).map (memberOps cfg.color)) false := by
              simp only [layout, It.ops, it_obj, layObj, hw, hfit, true_and, if_true]
            rw [e]
            refine (fits_line hfit).tail fun hc => ?_
            have := flat_bytes hc _ hfit
            simpa using this
        · refine ⟨_, _, fun f hf => ?_, broken_obj ms (fun h => hfit h.2), tail_closed cfg _ rfl _⟩
          obtain ⟨f, rfl, hf'⟩ := hpos f hf
          exact CutH.val (p := writeObjectCompact cfg (writeValue cfg (f + 1)) (f + 1))
            (writeObjectCompact_leaf (by omega) (plain_writeValue cfg f) (hsub _ (by omega)) (by simpa using hfit)) (fun i => by simp [JVal.kind, writeValue, hw])
      · refine ⟨_, _, fun f hf => ?_, broken_obj ms (fun h => hw h.1), tail_closed cfg _ rfl _⟩
        obtain ⟨f, rfl, hf'⟩ := hpos f hf
        exact CutH.val (p := writeObject cfg.color (writeValue cfg (f + 1)) (f + 1))
          (writeObject_leaf (by omega) (hsub _ (by omega))) (fun i => by simp [JVal.kind, writeValue, hw])
  | @inn v l m d cl hv he hm hcut ih =>
    cases v with
    | scalar k => exact absurd rfl (hv k)
    | arr items e =>
      have he : e = false := he
      subst he
      simp only [JVal.members] at hm
      obtain ⟨l', l'', rfl, rfl, h2⟩ := List.map_eq_append_iff.1 hm
      obtain ⟨w, rfl, rfl⟩ := List.map_eq_singleton_iff.1 h2
      have hb := itemToks_bound (l' ++ [w])
      have hsub : ∀ f, (itemToks (l' ++ [w])).length ≤ f → ∀ v ∈ l', WV cfg (writeValue cfg f) v :=
        fun f hf v hm => writeValue_visits cfg _ v (by have := hb.2 v (by simp [hm]); omega)
      obtain ⟨o, tail, k1, k2, k3⟩ := ih
      have hpos : ∀ f, (JVal.arr (l' ++ [w]) false).toks.length ≤ f → ∃ f', f = f' + 1 + 1 ∧ (itemToks (l' ++ [w])).length ≤ f' := by
        intro f hf
        simp only [JVal.toks, List.length_append, List.length_cons] at hf
        exact ⟨f - 2, by omega, by omega⟩
      have hlen : ∀ f, (itemToks (l' ++ [w])).length ≤ f → l'.length < f + 1 ∧ w.toks.length ≤ f + 1 := by
        intro f hf
        have h1 := hb.1
        have h2 := hb.2 w (by simp)
        simp only [List.length_append, List.length_singleton] at h1
        omega
      by_cases hw : 0 < cfg.widthLimit
      · refine ⟨openArr :: (acFold cfg ⟨[], -2, true⟩ (l'.map (it cfg))).1 ++ (acPre cfg (acFold cfg ⟨[], -2, true⟩ (l'.map (it cfg))).2 ++ o), tail ++ [.dedent, closeArr],
          fun f hf => ?_, ?_, k3.close _ rfl⟩
        · obtain ⟨f, rfl, hf'⟩ := hpos f hf
          exact CutH.val (p := writeArrayCompact cfg (writeValue cfg (f + 1)) (f + 1))
            (writeArrayCompact_last (hlen f hf').1 (plain_writeValue cfg f) (hsub _ (by omega)) hcut.coll (k1 _ (hlen f hf').2)) (fun i => by simp [JVal.kind, writeValue, hw])
        · have hit : it cfg w = .inr (layout cfg w) := by
            have := hcut.coll
            cases w with
            | scalar k => exact absurd rfl (this k)
            | arr _ _ => simp [layout, It.ops]
            | obj _ _ => simp [layout, It.ops]
          conv => lhs; simp only [layout, It.ops, it_arr, layArr, hw, if_true, layArrCompact]
          rw [List.map_append, List.map_singleton, hit, acFold_append]
          simp only [acFold, acOut_inr, k2, acNext]
          split <;> simp
      · refine ⟨opened openArr (l'.map (layout cfg) ++ [o]), tail ++ [.dedent, closeArr], fun f hf => ?_, ?_, k3.close _ rfl⟩
        · obtain ⟨f, rfl, hf'⟩ := hpos f hf
          exact CutH.val (p := writeArray (writeValue cfg (f + 1)) (f + 1))
            (writeArray_last (hlen f hf').1 (hsub _ (by omega)) hcut.coll (k1 _ (hlen f hf').2)) (fun i => by simp [JVal.kind, writeValue, hw])
        · rw [broken_arr _ hw, List.map_append, List.map_singleton, k2, opened_snoc]
          simp [closed]
    | obj ms e =>
      have he : e = false := he
      subst he
      simp only [JVal.members] at hm
      obtain ⟨l', l'', rfl, rfl, h2⟩ := List.map_eq_append_iff.1 hm
      obtain ⟨⟨kk, w⟩, rfl, rfl⟩ := List.map_eq_singleton_iff.1 h2
      have hb := memberToks_bound (l' ++ [(kk, w)])
      have hsub : ∀ f, (memberToks (l' ++ [(kk, w)])).length ≤ f → ∀ m ∈ l', WV cfg (writeValue cfg f) m.2 :=
        fun f hf v hm => writeValue_visits cfg _ v.2 (by have := hb.2 v (by simp [hm]); omega)
      obtain ⟨o, tail, k1, k2, k3⟩ := ih
      have hpos : ∀ f, (JVal.obj (l' ++ [(kk, w)]) false).toks.length ≤ f → ∃ f', f = f' + 1 + 1 ∧ (memberToks (l' ++ [(kk, w)])).length ≤ f' := by
        intro f hf
        simp only [JVal.toks, List.length_append, List.length_cons] at hf
        exact ⟨f - 2, by omega, by omega⟩
      have hlen : ∀ f, (memberToks (l' ++ [(kk, w)])).length ≤ f → l'.length < f + 1 ∧ w.toks.length ≤ f + 1 := by
        intro f hf
        have h1 := hb.1
        have h2 := hb.2 (kk, w) (by simp)
        simp only [List.length_append, List.length_singleton] at h1 h2
        omega
      have hlay : ¬ (0 < cfg.maxItems ∧ fits cfg 0 (-2) ((l' ++ [(kk, w)]).map fun m => (m.1, it cfg m.2)) = true) := by
        rw [fits_coll hcut.coll]; simp
      refine ⟨opened openObj ((l'.map fun m => keyOps cfg.color (some m.1) ++ layout cfg m.2) ++ [keyOps cfg.color (some kk) ++ o]), tail ++ [.dedent, closeObj],
        fun f hf => ?_, ?_, k3.close _ rfl⟩
      · obtain ⟨f, rfl, hf'⟩ := hpos f hf
        by_cases hw : 0 < cfg.maxItems
        · exact CutH.val (p := writeObjectCompact cfg (writeValue cfg (f + 1)) (f + 1))
            (writeObjectCompact_last (hlen f hf').1 (plain_writeValue cfg f) (hsub _ (by omega)) hcut.coll (k1 _ (hlen f hf').2)) (fun i => by simp [JVal.kind, writeValue, hw])
        · exact CutH.val (p := writeObject cfg.color (writeValue cfg (f + 1)) (f + 1))
            (writeObject_last (hlen f hf').1 (hsub _ (by omega)) hcut.coll (k1 _ (hlen f hf').2)) (fun i => by simp [JVal.kind, writeValue, hw])
      · rw [broken_obj _ hlay, List.map_append, List.map_singleton, k2, ← List.append_assoc (keyOps _ _), opened_snoc]
        simp [closed]

/-- A bound on the length of a text without indents. -/
theorem render_bound (pc : PrinterCfg) {L : Nat} : ∀ (l : List POp) (lvl : Int), lvl ≤ L → .indent ∉ l → .reset ∉ l →
    (render pc lvl l).length ≤ bytesOf l + (l.count .newLine + l.count .dedent) * (1 + pc.indentSize.toNat * L) ∧
    (level pc lvl l = lvl - (l.count .dedent : Nat)) := by
  have hnl : ∀ lvl : Int, lvl ≤ L → (nlBytes pc lvl).length ≤ 1 + pc.indentSize.toNat * L := by
    intro lvl hl
    unfold nlBytes
    split
    · simp
    · rename_i hi
      have : (pc.indentSize * lvl).toNat ≤ pc.indentSize.toNat * L := by
        obtain ⟨n, hn⟩ := Int.eq_ofNat_of_zero_le (Int.not_lt.1 hi)
        have h1 : pc.indentSize * lvl ≤ pc.indentSize * L := Int.mul_le_mul_of_nonneg_left hl (Int.not_lt.1 hi)
        rw [hn] at h1 ⊢
        have h2 : ((n : Int) * (L : Int)) = ((n * L : Nat) : Int) := by simp
        rw [h2] at h1
        have h3 : ((n : Int)).toNat = n := by simp
        rw [h3]
        omega
      simp
      omega
  intro l
  induction l with
  | nil => intro lvl _ _ _; simp
  | cons o l ih =>
    intro lvl hl hi hr
    simp only [List.mem_cons, not_or] at hi hr
    cases o with
    | bytes b =>
      obtain ⟨h1, h2⟩ := ih lvl hl hi.2 hr.2
      refine ⟨?_, by rw [level_cons]; simpa using h2⟩
      simp at h1 ⊢
      omega
    | newLine =>
      obtain ⟨h1, h2⟩ := ih lvl hl hi.2 hr.2
      have := hnl lvl hl
      refine ⟨?_, by rw [level_cons]; simpa using h2⟩
      simp at h1 ⊢
      rw [show List.count POp.newLine l + 1 + List.count POp.dedent l = List.count POp.newLine l + List.count POp.dedent l + 1 by omega, Nat.succ_mul]
      omega
    | indent => exact absurd rfl hi.1
    | dedent =>
      obtain ⟨h1, h2⟩ := ih (lvl - 1) (by omega) hi.2 hr.2
      have := hnl (lvl - 1) (by omega)
      refine ⟨?_, by rw [level_cons]; simp at h2 ⊢; omega⟩
      simp at h1 ⊢
      rw [← Nat.add_assoc, Nat.succ_mul]
      omega
    | reset => exact absurd rfl hr.1

/-- The length of the end of a text. -/
theorem Tail.length {cfg : EncCfg} {d : Nat} {v : JVal} {o tail : List POp} (h : Tail cfg d tail) (hc : cfg.color = none) (e : layout cfg v = o ++ tail) (pc : PrinterCfg) :
    ((render pc (level pc 0 o) (tail ++ [.reset])).length : Int) ≤ max 0 cfg.widthLimit + 3 + d + ((d + 2) * (1 + pc.indentSize.toNat * (d + 1)) : Nat) := by
  have hb := (layout_balanced pc cfg v 0).1
  rw [e, level_append] at hb
  have h0 := (render_bound pc (L := (level pc 0 o).toNat) tail (level pc 0 o) (by omega) h.indent h.reset).2
  rw [hb] at h0
  have h4 := h.dedent
  have h5 := h.line
  obtain ⟨h1, -⟩ := render_bound pc (L := d + 1) tail (level pc 0 o) (by omega) h.indent h.reset
  have h2 := h.bytes hc
  have h3 : (tail.count .newLine + tail.count .dedent) * (1 + pc.indentSize.toNat * (d + 1)) ≤ (d + 2) * (1 + pc.indentSize.toNat * (d + 1)) :=
    Nat.mul_le_mul_right _ (by omega)
  rw [render_append, List.length_append, render_reset, List.length_singleton]
  omega

/-- The encoder on complete values and one that is cut off. -/
theorem consume_cut (cfg : EncCfg) (vs : List JVal) {d w cl} (hcut : CutV d w cl) (ts : List Token) (hw : w.toks = ts ++ cl) (hcl : cl ≠ []) :
    ∃ o tail, (∀ f, (streamToks (vs ++ [w])).length ≤ f → ∀ c, ∃ p' h',
        Reach Heap.mach (consume cfg f) (Heap.init (streamToks vs ++ ts ++ c)) (layoutAll cfg vs ++ o) p' h' ∧ c <:+ h'.st.src) ∧
      layout cfg w = o ++ tail ∧ Tail cfg d tail := by
  have hb := streamToks_bound (vs ++ [w])
  obtain ⟨o, tail, k1, k2, k3⟩ := writeValue_cut cfg hcut
  refine ⟨o, tail, fun f hf c => ?_, k2, k3⟩
  have k1 := k1 f (by have := hb.2 w (by simp); omega)
  obtain ⟨g, hg⟩ : ∃ g, f = vs.length + (g + 1) := ⟨f - vs.length - 1, by have := hb.1; simp at this; omega⟩
  have hl0 : Loop (AState.init (vs ++ [w])) 1 0 [] .top ((vs ++ [w]).map (none, ·)) := ⟨wf_init _, before_init _, rfl, .root⟩
  rw [List.map_append] at hl0
  obtain ⟨p', s', l', e1, e2, e3⟩ := forEach_last (body := fun (_ : Unit) _ x => (writeValue cfg f x).bind fun _ => put .reset)
    (fun _ _ v => layout cfg v ++ [.reset]) (fun _ _ _ => ()) (vs.map (none, ·)) hcut.coll g (AState.init (vs ++ [w])) () hl0 (by
      intro m hm b s x hl hfr
      simp only [List.mem_map] at hm
      obtain ⟨v, hv, rfl⟩ := hm
      obtain ⟨s', g1, g2, g3⟩ := writeValue_visits cfg f v (by have := hb.2 v (by simp [hv]); omega) s x hl hfr
      refine ⟨s', ?_, g2, g3⟩
      rw [run_ok_bind g1]
      simp [run_put]) (o := o) (by
      intro s k i l h1 h2 h3 h4
      obtain ⟨p', s', l', g1, g2, g3⟩ := k1 s k i l h1 h2 h3 h4
      exact ⟨_, s', l', g1.bind _, g2, g3⟩)
  rw [foldOut_const (fun _ v => layout cfg v ++ [POp.reset]), List.length_map, ← hg] at e1
  obtain ⟨h', r1, r2⟩ := e1.heap (ISim.init_sim _)
  have hs := e2.src r2
  have hcl' : cl <:+ h'.st.src := by
    refine List.IsSuffix.trans ?_ hs
    simpa [endToks, frames] using e3
  rw [streamToks_append, show streamToks [w] = w.toks by simp [streamToks], hw, ← List.append_assoc] at r1
  obtain ⟨h1', q1, q2⟩ := Reach.swap hcl r1 hcl' c
  refine ⟨p', h1', ?_, q2⟩
  simpa [layoutAll, List.flatMap_map, consume] using q1

end Enc
end Verif
