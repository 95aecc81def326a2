import Verif.JsonEncoder

/-!
# What the JSON encoder prints, as a function of the value

`Enc.layout` gives the printer calls for a value; the encoder makes exactly these calls.
-/

set_option linter.unusedSimpArgs false
set_option linter.unusedVariables false

namespace Verif
namespace Enc

open IProg AState JVal.toks

/-- A member of a collection: a scalar or what is printed for a collection. -/
abbrev It := Scalar ⊕ List POp

def It.ops (c : Option Colorizer) : It → List POp
  | .inl s => printScalar c s
  | .inr l => l

/-- Items with separators between them. -/
def sepBy (sep : List POp) : List (List POp) → List POp
  | [] => []
  | x :: l => x ++ l.flatMap fun y => sep ++ y

/-- A collection on one line. -/
def flat (o c : POp) (items : List (List POp)) (e : Bool) : List POp :=
  o :: (sepBy [compactSep] items ++ (if e then [elisionOp] else []) ++ [c])

/-- A collection with an item on each line; nothing to break when there are no items. -/
def broken (o c : POp) (items : List (List POp)) (e : Bool) : List POp :=
  if items = [] then flat o c items e
  else o :: .indent :: (sepBy [itemSep, .newLine] items ++ (if e then [.newLine, elisionOp] else []) ++ [.dedent, c])

/-- Members of an object fit on one line. -/
def fits (cfg : EncCfg) : Nat → Int → List (Scalar × It) → Bool
  | _, _, [] => true
  | n, w, (k, .inl s) :: l =>
    let w := w + (k.bytes.length + s.bytes.length + 4)
    ((n : Int) + 1 ≤ cfg.maxItems && w ≤ cfg.widthLimit) && fits cfg (n + 1) w l
  | _, _, (_, .inr _) :: _ => false

/-- What is printed for a member. -/
def memberOps (c : Option Colorizer) (m : Scalar × It) : List POp := printScalar c m.1 ++ [keySep] ++ m.2.ops c

def layObj (cfg : EncCfg) (ms : List (Scalar × It)) (e : Bool) : List POp :=
  if 0 < cfg.maxItems ∧ fits cfg 0 (-2) ms = true then flat openObj closeObj (ms.map (memberOps cfg.color)) e
  else broken openObj closeObj (ms.map (memberOps cfg.color)) e

def sepOps (first : Bool) : List POp := if first then [.indent] else [itemSep, .newLine]

/-- Scalars on one line. -/
def lineOps (c : Option Colorizer) (l : List Scalar) : List POp := sepBy [compactSep] (l.map (printScalar c))

/-- One item of an array in compact form. -/
def acOut (cfg : EncCfg) (st : ACState) : It → List POp
  | .inl s =>
    if st.width + (s.bytes.length + 2) ≤ cfg.widthLimit then []
    else sepOps st.first ++
      if st.items = [] then printScalar cfg.color s
      else lineOps cfg.color st.items ++
        if (s.bytes.length : Int) ≤ cfg.widthLimit then [] else sepOps false ++ printScalar cfg.color s
  | .inr l => sepOps st.first ++ if st.items = [] then l else lineOps cfg.color st.items ++ (sepOps false ++ l)

/-- The state after one item. -/
def acNext (cfg : EncCfg) (st : ACState) : It → ACState
  | .inl s =>
    if st.width + (s.bytes.length + 2) ≤ cfg.widthLimit then
      { st with items := st.items ++ [s], width := st.width + (s.bytes.length + 2) }
    else if st.items = [] then ⟨[], st.width + (s.bytes.length + 2), false⟩
    else if (s.bytes.length : Int) ≤ cfg.widthLimit then ⟨[s], s.bytes.length, false⟩
    else ⟨[], s.bytes.length, false⟩
  | .inr _ => if st.items = [] then ⟨[], st.width, false⟩ else ⟨[], -2, false⟩

def acFold (cfg : EncCfg) : ACState → List It → List POp × ACState
  | st, [] => ([], st)
  | st, x :: l => (acOut cfg st x ++ (acFold cfg (acNext cfg st x) l).1, (acFold cfg (acNext cfg st x) l).2)

/-- An array in compact form. -/
def layArrCompact (cfg : EncCfg) (items : List It) (e : Bool) : List POp :=
  let r := acFold cfg ⟨[], -2, true⟩ items
  openArr :: (r.1 ++
    ((if r.2.items = [] then [] else (if r.2.first then [] else [itemSep, .newLine]) ++ lineOps cfg.color r.2.items) ++
    ((if e then (if r.2.first then [] else [.newLine]) ++ [elisionOp] else []) ++
    ((if r.2.first then [] else [.dedent]) ++ [closeArr]))))

def layArr (cfg : EncCfg) (items : List It) (e : Bool) : List POp :=
  if 0 < cfg.widthLimit then layArrCompact cfg items e
  else broken openArr closeArr (items.map (It.ops cfg.color)) e

/-- A value as a member. -/
def it (cfg : EncCfg) : JVal → It
  | .scalar s => .inl s
  | .arr l e => .inr (layArr cfg (itItems l) e)
  | .obj ms e => .inr (layObj cfg (itMembers ms) e)
where
  itItems : List JVal → List It
    | [] => []
    | v :: l => it cfg v :: itItems l
  itMembers : List (Scalar × JVal) → List (Scalar × It)
    | [] => []
    | (k, v) :: l => (k, it cfg v) :: itMembers l

/-- The printer calls for a value. -/
def layout (cfg : EncCfg) (v : JVal) : List POp := (it cfg v).ops cfg.color

/-- The printer calls for a stream. -/
def layoutAll (cfg : EncCfg) (vs : List JVal) : List POp := vs.flatMap fun v => layout cfg v ++ [.reset]

theorem itItems_eq (cfg : EncCfg) (l : List JVal) : it.itItems cfg l = l.map (it cfg) := by
  induction l with
  | nil => simp [it.itItems]
  | cons v l ih => simp [it.itItems, ih]

theorem itMembers_eq (cfg : EncCfg) (l : List (Scalar × JVal)) : it.itMembers cfg l = l.map fun m => (m.1, it cfg m.2) := by
  induction l with
  | nil => simp [it.itMembers]
  | cons v l ih => obtain ⟨k, v⟩ := v; simp [it.itMembers, ih]

@[simp] theorem it_scalar (cfg : EncCfg) (s : Scalar) : it cfg (.scalar s) = .inl s := by simp [it]
@[simp] theorem it_arr (cfg : EncCfg) (l e) : it cfg (.arr l e) = .inr (layArr cfg (l.map (it cfg)) e) := by
  simp [it, itItems_eq]
@[simp] theorem it_obj (cfg : EncCfg) (l e) :
    it cfg (.obj l e) = .inr (layObj cfg (l.map fun m => (m.1, it cfg m.2)) e) := by
  simp [it, itMembers_eq]

/-! ## The programs -/

/-- `writeValue` prints a value. -/
def WV (cfg : EncCfg) (wv : Val → IProg POp Unit) (v : JVal) : Prop := Visits wv v (layout cfg v) ()

theorem visits_prefix {ε α : Type} {p : Val → IProg ε α} {v out a} (h : Visits p v out a) {β : Type} (l : List ε) (b : β) :
    Visits (fun x => (putAll l).bind fun _ => (p x).bind fun _ => .ret b) v (l ++ out) b := by
  intro s x hl hf
  obtain ⟨s', e1, e2, e3⟩ := h s x hl hf
  refine ⟨s', ?_, e2, e3⟩
  rw [run_putAll_bind, run_ok_bind e1]
  simp

theorem foldOut_sep {ε : Type} (f : Bool → List ε) (g : Option Scalar → JVal → List ε) (ms : List (Option Scalar × JVal)) :
    foldOut (fun (b : Bool) k v => f b ++ g k v) (fun _ _ _ => false) true ms =
      (match ms with
        | [] => ([], true)
        | m :: l => (f true ++ g m.1 m.2 ++ (l.flatMap fun m => f false ++ g m.1 m.2), false)) := by
  have hfalse : ∀ ms : List (Option Scalar × JVal),
      foldOut (fun (b : Bool) k v => f b ++ g k v) (fun _ _ _ => false) false ms =
      (ms.flatMap fun m => f false ++ g m.1 m.2, false) := by
    intro ms
    induction ms with
    | nil => rfl
    | cons m l ih => simp [foldOut, ih]
  cases ms with
  | nil => rfl
  | cons m l => simp [foldOut, hfalse]

theorem writeArray_visits {cfg : EncCfg} {wv f} {items e} (hf : items.length < f)
    (hwv : ∀ v ∈ items, WV cfg wv v) (hw : ¬ 0 < cfg.widthLimit) :
    ∀ s i, Links s → Fresh s (.coll .arr i) (.arr items e) →
      ∃ s', (writeArray wv f i).run AState.mach s = (layout cfg (.arr items e), .ok (s', ())) ∧ Links s' ∧
        Keep s.n (some i) s s' := by
  intro s i hl hfr
  obtain ⟨_, hb⟩ := hfr.before rfl
  obtain ⟨s', e1, e2, e3, e4, e5, e6, e7⟩ := forEach_run
    (body := fun (first : Bool) _ x =>
      (putAll (if first then [.indent] else [itemSep, .newLine])).bind fun _ => (wv x).bind fun _ => .ret false)
    (fun b _ v => sepOps b ++ layout cfg v) (fun _ _ _ => false) (by simp) _ f s true
    (by simpa [JVal.members] using hf) hl hb (by
      intro m hm b
      have : m.2 ∈ items := by
        simp only [JVal.members, List.mem_map] at hm
        obtain ⟨v, hv, rfl⟩ := hm
        exact hv
      exact visits_prefix (hwv _ this) _ _)
  refine ⟨s', ?_, e2, e3⟩
  simp only [writeArray]
  rw [run_put_bind, run_ok_bind e1, arun_op (elided_ok e4 e5), run_putAll_bind, run_putAll_bind]
  rw [foldOut_sep (fun b => sepOps b) (fun _ v => layout cfg v)]
  simp only [run_put, layout, It.ops, it_arr, layArr, if_neg hw, JVal.members, JVal.elision]
  cases items with
  | nil => simp [broken, flat, sepBy]
  | cons v l => simp [broken, sepBy, sepOps, List.flatMap_map, layout, It.ops]

/-- What is printed for a key. -/
def keyOps (c : Option Colorizer) (k : Option Scalar) : List POp :=
  match k with
  | none => []
  | some k => printScalar c k ++ [keySep]

theorem visits_key {c : Option Colorizer} {wv v out} (h : Visits wv v out ()) {β : Type} (l : List POp) (k : Scalar) (b : β) :
    Visits (fun x => (putAll l).bind fun _ => (writeKey c (some k)).bind fun _ => (wv x).bind fun _ => .ret b) v
      (l ++ (keyOps c (some k) ++ out)) b := by
  intro s x hl hf
  obtain ⟨s', e1, e2, e3⟩ := h s x hl hf
  refine ⟨s', ?_, e2, e3⟩
  rw [run_putAll_bind]
  simp only [writeKey]
  rw [run_putAll_bind, run_ok_bind e1]
  simp [keyOps]

theorem mem_members {ms : List (Scalar × JVal)} {e} {m} (hm : m ∈ (JVal.obj ms e).members) :
    ∃ k v, (k, v) ∈ ms ∧ m = (some k, v) := by
  simp only [JVal.members, List.mem_map] at hm
  obtain ⟨⟨k, v⟩, hv, rfl⟩ := hm
  exact ⟨k, v, hv, rfl⟩

theorem writeObject_visits {cfg : EncCfg} {wv f} {ms : List (Scalar × JVal)} {e} (hf : ms.length < f)
    (hwv : ∀ m ∈ ms, WV cfg wv m.2) (hw : ¬ 0 < cfg.maxItems) :
    ∀ s i, Links s → Fresh s (.coll .obj i) (.obj ms e) →
      ∃ s', (writeObject cfg.color wv f i).run AState.mach s = (layout cfg (.obj ms e), .ok (s', ())) ∧ Links s' ∧
        Keep s.n (some i) s s' := by
  intro s i hl hfr
  obtain ⟨_, hb⟩ := hfr.before rfl
  obtain ⟨s', e1, e2, e3, e4, e5, e6, e7⟩ := forEach_run
    (body := fun (first : Bool) key x =>
      (putAll (if first then [.indent] else [itemSep, .newLine])).bind fun _ =>
      (writeKey cfg.color key).bind fun _ =>
      (wv x).bind fun _ => .ret false)
    (fun b k v => sepOps b ++ (keyOps cfg.color k ++ layout cfg v)) (fun _ _ _ => false) (by simp) _ f s true
    (by simpa [JVal.members] using hf) hl hb (by
      intro m hm b
      obtain ⟨k, v, hv, rfl⟩ := mem_members hm
      exact visits_key (hwv (k, v) hv) _ _ _)
  refine ⟨s', ?_, e2, e3⟩
  simp only [writeObject]
  rw [run_put_bind, run_ok_bind e1, arun_op (elided_ok e4 e5), run_putAll_bind, run_putAll_bind]
  rw [foldOut_sep (fun b => sepOps b) (fun k v => keyOps cfg.color k ++ layout cfg v)]
  simp only [run_put, layout, It.ops, it_obj, layObj, hw, false_and, if_false, JVal.members, JVal.elision]
  cases ms with
  | nil => simp [broken, flat, sepBy]
  | cons v l => simp [broken, sepBy, sepOps, List.flatMap_map, layout, keyOps, memberOps, It.ops]

/-- The first loop of `writeObjectCompact`. -/
theorem pendingLoop_run (cfg : EncCfg) {n0 i e} : ∀ (ms : List (Scalar × JVal)) (f : Nat) (s : AState)
    (l : List (Scalar × Val)) (w : Int), ms.length < f → Links s →
    Before s n0 i .obj (ms.map fun m => (some m.1, m.2)) e →
    if fits cfg l.length w (ms.map fun m => (m.1, it cfg m.2)) = true then
      ∃ (ss : List (Scalar × Scalar)) (s' : AState), ms = ss.map (fun m => (m.1, .scalar m.2)) ∧
        (pendingLoop cfg i f l w).run AState.mach s = ([], .ok (s', (true, l ++ ss.map fun m => (m.1, .scalar m.2)))) ∧
        Links s' ∧ Keep n0 (some i) s s' ∧ i < s'.n ∧ (s'.coll i).elided = e
    else
      ∃ (ss : List (Scalar × Scalar)) (k : Scalar) (v : JVal) (post : List (Scalar × JVal)) (x : Val) (s' : AState),
        ms = ss.map (fun m => (m.1, .scalar m.2)) ++ (k, v) :: post ∧
        (pendingLoop cfg i f l w).run AState.mach s =
          ([], .ok (s', (false, l ++ ss.map (fun m => (m.1, .scalar m.2)) ++ [(k, x)]))) ∧
        Links s' ∧ Keep n0 (some i) s s' ∧ Before s' n0 i .obj (post.map fun m => (some m.1, m.2)) e ∧
        Fresh s' x v ∧ ∀ j, x.idx = some j → n0 ≤ j := by
  intro ms
  induction ms with
  | nil =>
    intro f s l w hf hl hb
    obtain ⟨f, rfl⟩ : ∃ f', f = f' + 1 := ⟨f - 1, by simp at hf; omega⟩
    obtain ⟨s', e1, e2, e3, e4, e5, e6, e7⟩ := adv_nil hl hb (by simp)
    simp only [List.map_nil, fits, if_true]
    refine ⟨[], s', rfl, ?_, e2, e3, e4, e5⟩
    simp only [pendingLoop]
    rw [arun_op e1]
    simp
  | cons m ms ih =>
    intro f s l w hf hl hb
    obtain ⟨f, rfl⟩ : ∃ f', f = f' + 1 := ⟨f - 1, by simp at hf; omega⟩
    obtain ⟨key, v⟩ := m
    obtain ⟨s1, x, e1, e2, e3, e4, e5, e6, e7, e8, e9⟩ := adv_cons hl hb
    have hx : ∀ j, x.idx = some j → n0 ≤ j := fun j e => Nat.le_trans hb.base (e8 j e)
    have hrun : (pendingLoop cfg i (f + 1) l w).run AState.mach s =
        (match ((some key, some x) : Option Scalar × Option Val) with
          | (some key, some (.scalar s)) =>
            let w := w + (key.bytes.length + s.bytes.length + 4)
            let l := l ++ [(key, .scalar s)]
            if (l.length : Int) ≤ cfg.maxItems ∧ w ≤ cfg.widthLimit then pendingLoop cfg i f l w else .ret (false, l)
          | (some key, some (.coll k j)) => .ret (false, l ++ [(key, .coll k j)])
          | _ => .fail .panic : IProg POp (Bool × List (Scalar × Val))).run AState.mach s1 := by
      simp only [pendingLoop]
      rw [arun_op e1]
      simp only [if_true]
      rw [arun_op (current_ok e3), e6, e5]
      rfl
    cases v with
    | scalar sc =>
      have hxs : x = .scalar sc := e7
      subst hxs
      simp only [List.map_cons, it_scalar, fits, Bool.and_eq_true, decide_eq_true_eq]
      by_cases hc : ((l.length : Int) + 1 ≤ cfg.maxItems ∧ w + (key.bytes.length + sc.bytes.length + 4) ≤ cfg.widthLimit)
      · have := ih f s1 (l ++ [(key, .scalar sc)]) (w + (key.bytes.length + sc.bytes.length + 4))
          (by simp at hf; omega) e2 e3
        simp only [hc, and_true, true_and]
        rw [List.length_append] at this
        simp only [List.length_singleton] at this
        have hrun2 : (pendingLoop cfg i (f + 1) l w).run AState.mach s =
            (pendingLoop cfg i f (l ++ [(key, .scalar sc)]) (w + (key.bytes.length + sc.bytes.length + 4))).run AState.mach s1 := by
          rw [hrun]
          simp only
          rw [if_pos (by simp only [List.length_append, List.length_singleton]; push_cast; exact hc)]
        by_cases hfit : fits cfg (l.length + 1) (w + (key.bytes.length + sc.bytes.length + 4))
            (ms.map fun m => (m.1, it cfg m.2)) = true
        · rw [if_pos hfit] at this ⊢
          obtain ⟨ss, s', g1, g2, g3, g4, g5⟩ := this
          refine ⟨(key, sc) :: ss, s', by simp [g1], ?_, g3, e4.trans g4, g5⟩
          rw [hrun2, g2]
          simp
        · rw [if_neg hfit] at this ⊢
          obtain ⟨ss, k, v, post, x', s', g1, g2, g3, g4, g5⟩ := this
          refine ⟨(key, sc) :: ss, k, v, post, x', s', by simp [g1], ?_, g3, e4.trans g4, g5⟩
          rw [hrun2, g2]
          simp
      · rw [if_neg (by intro h; exact hc h.1)]
        refine ⟨[], key, .scalar sc, ms, .scalar sc, s1, rfl, ?_, e2, e4, e3, e7, hx⟩
        rw [hrun]
        simp only
        rw [if_neg (by simp only [List.length_append, List.length_singleton]; push_cast; exact hc)]
        simp
    | arr items e' =>
      simp only [List.map_cons, it_arr, fits, Bool.false_eq_true, if_false]
      refine ⟨[], key, _, ms, x, s1, rfl, ?_, e2, e4, e3, e7, hx⟩
      obtain ⟨j, t, h1, _⟩ := e7
      rw [hrun, h1]
      simp
    | obj items e' =>
      simp only [List.map_cons, it_obj, fits, Bool.false_eq_true, if_false]
      refine ⟨[], key, _, ms, x, s1, rfl, ?_, e2, e4, e3, e7, hx⟩
      obtain ⟨j, t, h1, _⟩ := e7
      rw [hrun, h1]
      simp

/-- The writer of values on scalars. -/
def Plain (cfg : EncCfg) (wv : Val → IProg POp Unit) : Prop :=
  ∀ s, wv (.scalar s) = putAll (printScalar cfg.color s)

/-- Members with a separator before each of them but possibly the first one. -/
def preOps (sep : List POp) : Bool → List (List POp) → List POp
  | _, [] => []
  | first, x :: l => (if first then [] else sep) ++ (x ++ preOps sep false l)

theorem preOps_false (sep l) : preOps sep false l = l.flatMap fun y => sep ++ y := by
  induction l with
  | nil => rfl
  | cons x l ih => simp [preOps, ih]

theorem preOps_true (sep l) : preOps sep true l = sepBy sep l := by
  cases l with
  | nil => rfl
  | cons x l => simp [preOps, preOps_false, sepBy]

theorem preOps_append (sep) : ∀ l l' first, preOps sep first (l ++ l') = preOps sep first l ++ preOps sep (first && l.isEmpty) l' := by
  intro l
  induction l with
  | nil => simp [preOps]
  | cons x l ih => intro l' first; simp [preOps, ih]

theorem writePending_scalars {cfg : EncCfg} {wv} (hsc : Plain cfg wv) (sep : List POp) {α : Type} (tl : List (Scalar × Val))
    (q : Unit → IProg POp α) (s : AState) : ∀ (ss : List (Scalar × Scalar)) (first : Bool),
      ((writePending cfg.color wv sep first (ss.map (fun m => (m.1, .scalar m.2)) ++ tl)).bind q).run AState.mach s =
        (preOps sep first (ss.map fun m => memberOps cfg.color (m.1, .inl m.2)) ++
          (((writePending cfg.color wv sep (first && ss.isEmpty) tl).bind q).run AState.mach s).1,
          (((writePending cfg.color wv sep (first && ss.isEmpty) tl).bind q).run AState.mach s).2) := by
  intro ss
  induction ss with
  | nil => intro first; simp [preOps]
  | cons m ss ih =>
    intro first
    simp only [List.map_cons, List.cons_append, writePending, IProg.bind_assoc]
    rw [run_putAll_bind, hsc, run_putAll_bind, ih false]
    simp [preOps, memberOps, It.ops]

theorem writeObjectCompact_visits {cfg : EncCfg} {wv f} {ms : List (Scalar × JVal)} {e} (hf : ms.length < f)
    (hsc : Plain cfg wv) (hwv : ∀ m ∈ ms, WV cfg wv m.2) (hw : 0 < cfg.maxItems) :
    ∀ s i, Links s → Fresh s (.coll .obj i) (.obj ms e) →
      ∃ s', (writeObjectCompact cfg wv f i).run AState.mach s = (layout cfg (.obj ms e), .ok (s', ())) ∧ Links s' ∧
        Keep s.n (some i) s s' := by
  intro s i hl hfr
  obtain ⟨_, hb⟩ := hfr.before rfl
  have hp := pendingLoop_run cfg ms f s [] (-2) hf hl hb
  simp only [layout, It.ops, it_obj, layObj, hw, true_and]
  simp only [List.length_nil] at hp
  by_cases hfit : fits cfg 0 (-2) (ms.map fun m => (m.1, it cfg m.2)) = true
  · rw [if_pos hfit] at hp ⊢
    obtain ⟨ss, s', g1, g2, g3, g4, g5, g6⟩ := hp
    refine ⟨s', ?_, g3, g4⟩
    simp only [writeObjectCompact]
    rw [run_ok_bind g2]
    simp only [if_true, List.nil_append]
    rw [run_put_bind]
    simp only [IProg.bind_assoc]
    rw [show ss.map (fun m => (m.1, Val.scalar m.2)) = ss.map (fun m => (m.1, Val.scalar m.2)) ++ [] by simp,
      writePending_scalars hsc]
    simp only [writePending, IProg.bind]
    rw [arun_op (elided_ok g5 g6), run_putAll_bind, preOps_true]
    simp only [run_put, JVal.elision]
    cases e <;> simp [flat, g1, List.map_map, Function.comp_def]
  · rw [if_neg hfit] at hp ⊢
    obtain ⟨ss, k, v, post, x, s1, g1, g2, g3, g4, g5, g6, g7⟩ := hp
    have hmem : (k, v) ∈ ms := by rw [g1]; simp
    obtain ⟨s2, h1, h2, h3⟩ := hwv _ hmem s1 x g3 g6
    have hb2 := g5.keep (k := .obj) h3 g5.lt (by
      intro e; have := g7 _ e.symm; have := g5.i0; omega)
    have hk2 : Keep s.n (some i) s1 s2 := h3.weaken g4.n (fun j e => Or.inl (g7 j e))
    obtain ⟨s3, k1, k2, k3, k4, k5, k6, k7⟩ := forEach_run
      (body := fun (_ : Unit) key x =>
        (putAll [itemSep, .newLine]).bind fun _ =>
        (writeKey cfg.color key).bind fun _ =>
        (wv x).bind fun _ => .ret ())
      (fun b k v => [itemSep, .newLine] ++ (keyOps cfg.color k ++ layout cfg v)) (fun _ _ _ => ()) (by simp) _ f s2 ()
      (by rw [g1] at hf; simp at hf ⊢; omega) h2 hb2 (by
        intro m hm b
        obtain ⟨k, v, hv, rfl⟩ := mem_members (e := e) hm
        exact visits_key (hwv (k, v) (by rw [g1]; simp [hv])) _ _ _)
    refine ⟨s3, ?_, k2, (g4.trans hk2).trans k3⟩
    simp only [writeObjectCompact]
    rw [run_ok_bind g2]
    simp only [Bool.false_eq_true, if_false, List.nil_append]
    rw [run_put_bind]
    simp only [IProg.bind_assoc]
    rw [run_put_bind, writePending_scalars hsc]
    simp only [writePending, IProg.bind_assoc, IProg.bind]
    rw [run_putAll_bind, run_ok_bind h1, run_ok_bind k1, arun_op (elided_ok k4 k5), run_putAll_bind,
      run_put_bind, run_put]
    rw [foldOut_const]
    have hne : ms.map (memberOps cfg.color ∘ fun m => (m.1, it cfg m.2)) ≠ [] := by rw [g1]; simp
    simp only [broken, List.map_map, if_neg hne]
    rw [← preOps_true, g1]
    simp only [List.map_append, List.map_map, List.map_cons, preOps_append, preOps, preOps_false]
    simp [layout, It.ops, memberOps, keyOps, List.flatMap_map, Function.comp_def, List.isEmpty_map]
    cases e <;> simp [JVal.elision]

/-! ### Arrays in compact form -/

theorem writeItems_run {cfg : EncCfg} {wv} (hsc : Plain cfg wv) {α : Type} (q : Unit → IProg POp α) (s : AState) :
    ∀ (ss : List Scalar) (first : Bool),
      ((writeItems wv first ss).bind q).run AState.mach s =
        (preOps [compactSep] first (ss.map (printScalar cfg.color)) ++ ((q ()).run AState.mach s).1, ((q ()).run AState.mach s).2) := by
  intro ss
  induction ss with
  | nil => intro first; simp [preOps, writeItems, IProg.bind]
  | cons m ss ih =>
    intro first
    simp only [List.map_cons, writeItems, IProg.bind_assoc]
    rw [run_putAll_bind, hsc, run_putAll_bind, ih false]
    simp [preOps]

theorem writeItems_line {cfg : EncCfg} {wv} (hsc : Plain cfg wv) {α : Type} (q : Unit → IProg POp α) (s : AState)
    (ss : List Scalar) :
      ((writeItems wv true ss).bind q).run AState.mach s =
        (lineOps cfg.color ss ++ ((q ()).run AState.mach s).1, ((q ()).run AState.mach s).2) := by
  rw [writeItems_run hsc, preOps_true]; rfl

theorem acStep_coll {cfg : EncCfg} {wv} (hsc : Plain cfg wv) {v l} (hv : it cfg v = .inr l)
    (hwv : WV cfg wv v) (hcoll : ∀ s x, Fresh s x v → ∃ k j, x = .coll k j) (st : ACState) :
    Visits (arrayCompactStep cfg wv st) v (acOut cfg st (it cfg v)) (acNext cfg st (it cfg v)) := by
  intro s x hl hf
  obtain ⟨s', e1, e2, e3⟩ := hwv s x hl hf
  refine ⟨s', ?_, e2, e3⟩
  obtain ⟨k, j, hx⟩ := hcoll s x hf
  subst hx
  have hlay : layout cfg v = l := by simp [layout, hv, It.ops]
  rw [hlay] at e1
  rw [hv]
  simp only [arrayCompactStep, acOut, acNext]
  rw [run_putAll_bind]
  by_cases hi : st.items = []
  · simp only [hi, if_true]
    rw [run_ok_bind e1]
    simp [sepOps]
  · simp only [hi, if_false]
    rw [writeItems_line hsc, run_putAll_bind, run_ok_bind e1]
    simp [sepOps]

theorem acStep_visits {cfg : EncCfg} {wv} (hsc : Plain cfg wv) {v} (hwv : WV cfg wv v) (st : ACState) :
    Visits (arrayCompactStep cfg wv st) v (acOut cfg st (it cfg v)) (acNext cfg st (it cfg v)) := by
  cases v with
  | scalar sc =>
    intro s x hl hf
    have hx : x = .scalar sc := hf
    subst hx
    refine ⟨s, ?_, hl, Keep.refl _ _ _⟩
    simp only [arrayCompactStep, acOut, acNext, it_scalar]
    by_cases h1 : st.width + (sc.bytes.length + 2) ≤ cfg.widthLimit
    · simp only [h1, if_true, run_ret]
    · simp only [h1, if_false]
      rw [run_putAll_bind]
      by_cases hi : st.items = []
      · simp only [hi, if_true, hsc sc]
        rw [run_putAll_bind]
        simp [sepOps]
      · simp only [hi, if_false]
        rw [writeItems_line hsc]
        by_cases h2 : (sc.bytes.length : Int) ≤ cfg.widthLimit
        · simp [h2, sepOps]
        · simp only [h2, if_false, hsc sc]
          rw [run_putAll_bind, run_putAll_bind]
          simp [sepOps]
  | arr items e =>
    exact acStep_coll hsc (it_arr _ _ _) hwv (fun s x h => by obtain ⟨i, t, h1, _⟩ := h; exact ⟨_, _, h1⟩) st
  | obj items e =>
    exact acStep_coll hsc (it_obj _ _ _) hwv (fun s x h => by obtain ⟨i, t, h1, _⟩ := h; exact ⟨_, _, h1⟩) st

theorem foldOut_ac (cfg : EncCfg) : ∀ (l : List JVal) (st : ACState),
    foldOut (fun st _ v => acOut cfg st (it cfg v)) (fun st _ v => acNext cfg st (it cfg v)) st
      (l.map fun v => ((none : Option Scalar), v)) = acFold cfg st (l.map (it cfg)) := by
  intro l
  induction l with
  | nil => intro st; rfl
  | cons v l ih => intro st; simp [foldOut, acFold, ih]

theorem writeArrayCompact_visits {cfg : EncCfg} {wv f} {items : List JVal} {e} (hf : items.length < f)
    (hsc : Plain cfg wv) (hwv : ∀ v ∈ items, WV cfg wv v) (hw : 0 < cfg.widthLimit) :
    ∀ s i, Links s → Fresh s (.coll .arr i) (.arr items e) →
      ∃ s', (writeArrayCompact cfg wv f i).run AState.mach s = (layout cfg (.arr items e), .ok (s', ())) ∧ Links s' ∧
        Keep s.n (some i) s s' := by
  intro s i hl hfr
  obtain ⟨_, hb⟩ := hfr.before rfl
  obtain ⟨s', e1, e2, e3, e4, e5, e6, e7⟩ := forEach_run
    (body := fun st _ x => arrayCompactStep cfg wv st x)
    (fun st _ v => acOut cfg st (it cfg v)) (fun st _ v => acNext cfg st (it cfg v)) (by simp) _ f s ⟨[], -2, true⟩
    (by simpa [JVal.members] using hf) hl hb (by
      intro m hm b
      have : m.2 ∈ items := by
        simp only [JVal.members, List.mem_map] at hm
        obtain ⟨v, hv, rfl⟩ := hm
        exact hv
      exact acStep_visits hsc (hwv _ this) b)
  refine ⟨s', ?_, e2, e3⟩
  rw [show (JVal.arr items e).members = items.map fun v => ((none : Option Scalar), v) from rfl, foldOut_ac] at e1
  simp only [writeArrayCompact]
  rw [run_put_bind, run_ok_bind e1]
  simp only [layout, It.ops, it_arr, layArr, hw, if_true, layArrCompact]
  generalize acFold cfg ⟨[], -2, true⟩ (items.map (it cfg)) = r
  by_cases hi : r.2.items = []
  · simp only [hi, if_true, IProg.bind]
    rw [arun_op (elided_ok e4 e5), run_putAll_bind, run_putAll_bind]
    cases e <;> simp [JVal.elision]
  · simp only [hi, if_false, IProg.bind_assoc]
    rw [run_putAll_bind, writeItems_line hsc, arun_op (elided_ok e4 e5), run_putAll_bind, run_putAll_bind]
    cases e <;> simp [JVal.elision]

/-! ### Values and streams -/

theorem plain_writeValue (cfg : EncCfg) (f : Nat) : Plain cfg (writeValue cfg (f + 1)) := fun s => rfl

theorem writeValue_visits (cfg : EncCfg) : ∀ (f : Nat) (v : JVal), v.toks.length ≤ f → WV cfg (writeValue cfg f) v := by
  intro f
  induction f with
  | zero => intro v hv; have := toks_pos v; omega
  | succ f ih =>
    intro v hv s x hl hf
    cases v with
    | scalar sc =>
      have hx : x = .scalar sc := hf
      subst hx
      refine ⟨s, ?_, hl, Keep.refl _ _ _⟩
      simp [writeValue, layout, It.ops]
    | arr items e =>
      obtain ⟨i, t, rfl, h⟩ := id hf
      have hb := itemToks_bound items
      simp only [JVal.toks, List.length_append, List.length_cons] at hv
      obtain ⟨f, rfl⟩ : ∃ f', f = f' + 1 := ⟨f - 1, by omega⟩
      have hsub : ∀ v ∈ items, WV cfg (writeValue cfg (f + 1)) v := fun v hm => ih v (by have := hb.2 v hm; simp at hv; omega)
      by_cases hw : 0 < cfg.widthLimit
      · simp only [writeValue.eq_def cfg (f + 1 + 1), hw, if_true]
        exact writeArrayCompact_visits (by simp at hv; omega) (plain_writeValue cfg f) hsub hw s i hl hf
      · simp only [writeValue.eq_def cfg (f + 1 + 1), hw, if_false]
        exact writeArray_visits (by simp at hv; omega) hsub hw s i hl hf
    | obj items e =>
      obtain ⟨i, t, rfl, h⟩ := id hf
      have hb := memberToks_bound items
      simp only [JVal.toks, List.length_append, List.length_cons] at hv
      obtain ⟨f, rfl⟩ : ∃ f', f = f' + 1 := ⟨f - 1, by omega⟩
      have hsub : ∀ v ∈ items, WV cfg (writeValue cfg (f + 1)) v.2 := fun v hm => ih v.2 (by have := hb.2 v hm; simp at hv; omega)
      by_cases hw : 0 < cfg.maxItems
      · simp only [writeValue.eq_def cfg (f + 1 + 1), hw, if_true]
        exact writeObjectCompact_visits (by simp at hv; omega) (plain_writeValue cfg f) hsub hw s i hl hf
      · simp only [writeValue.eq_def cfg (f + 1 + 1), hw, if_false]
        exact writeObject_visits (by simp at hv; omega) hsub hw s i hl hf

/-- The encoder's calls to its printer, as a function of the values in the stream. -/
theorem consume_run (cfg : EncCfg) (vs : List JVal) (f : Nat) (hf : (streamToks vs).length < f) :
    ∃ h', (consume cfg f).run Heap.mach (Heap.init (streamToks vs)) = (layoutAll cfg vs, .ok (h', ())) := by
  have hb := streamToks_bound vs
  obtain ⟨s', e1, e2, e3⟩ := forEach_top (body := fun (_ : Unit) _ x => (writeValue cfg f x).bind fun _ => put .reset)
    (fun _ _ v => layout cfg v ++ [.reset]) (fun _ _ _ => ()) (vs.map (none, ·)) f (AState.init vs) ()
    (by simp; omega) (links_init vs) (before_init vs) rfl (by
      intro m hm b s x hl hfr
      simp only [List.mem_map] at hm
      obtain ⟨v, hv, rfl⟩ := hm
      obtain ⟨s', g1, g2, g3⟩ := writeValue_visits cfg f v (by have := hb.2 v hv; omega) s x hl hfr
      refine ⟨s', ?_, g2, g3⟩
      rw [run_ok_bind g1]
      simp [run_put])
  have := top_run (p := consume cfg f) e1
  rw [foldOut_const (fun _ v => layout cfg v ++ [POp.reset])] at this
  simpa [layoutAll, List.flatMap_map] using this

end Enc
end Verif
