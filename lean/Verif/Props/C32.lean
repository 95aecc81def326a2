import Verif.IterTransforms

/-!
# C32: legacy key extraction
-/

set_option linter.unusedSimpArgs false
set_option linter.unusedVariables false

namespace Verif
open IProg AState JVal.toks

/-- `name` gives the strings denoted by all keys in the value. -/
inductive Named (name : Scalar → Bytes) : JVal → Prop
  | scalar {s} : Named name (.scalar s)
  | arr {l e} : (∀ v ∈ l, Named name v) → Named name (.arr l e)
  | obj {l e} : (∀ m ∈ l, StrIs m.1 (name m.1)) → (∀ m ∈ l, Named name m.2) → Named name (.obj l e)

/-- Specification of `.key`: values of the members of an object with that key. -/
def extract (name : Scalar → Bytes) (key : Bytes) : JVal → List JVal
  | .obj ms _ => (ms.filter fun m => name m.1 = key).map Prod.snd
  | _ => []

/-- Specification of `...key`: values of members with that key in document order, not looking into a
value that is extracted. -/
def deepExtract (name : Scalar → Bytes) (key : Bytes) : JVal → List JVal
  | .scalar _ => []
  | .arr l _ => items l
  | .obj ms _ => members ms
where
  items : List JVal → List JVal
    | [] => []
    | v :: l => deepExtract name key v ++ items l
  members : List (Scalar × JVal) → List JVal
    | [] => []
    | (k, v) :: l => (if name k = key then [v] else deepExtract name key v) ++ members l

theorem keyExtractor_visits {name : Scalar → Bytes} (key : Bytes) (v : JVal) (hn : Named name v) (f : Nat)
    (hf : v.toks.length < f) : Visits (keyExtractor key f) v (streamToks (extract name key v)) () := by
  have hb := members_bound v
  intro s x hl hfr
  cases v with
  | scalar sc =>
    have hx : x = .scalar sc := hfr
    subst hx
    exact ⟨s, by simp [keyExtractor, extract], hl, Keep.refl _ _ _⟩
  | arr items e =>
    obtain ⟨i, t, h1, h⟩ := id hfr
    subst h1
    exact ⟨s, by simp [keyExtractor, extract, JVal.kind], hl, Keep.refl _ _ _⟩
  | obj ms e =>
    obtain ⟨i, t, h1, h⟩ := id hfr
    subst h1
    cases hn with
    | obj hn1 hn2 =>
    obtain ⟨s', e1, e2, e3⟩ := members_visits (body := fun k y => onKey key k (copyOut y) (.ret ()))
      (out := fun k v => if k.map name = some key then v.toks else []) (f := f) (by simp) (by omega) (by
        intro m hm
        simp only [JVal.members, List.mem_map] at hm
        obtain ⟨w, hw, rfl⟩ := hm
        simp only [onKey, equalsString_ok (hn1 w hw), Option.map_some, Option.some.injEq]
        by_cases hk : name w.1 = key
        · simp only [hk, decide_true, if_true]; exact copyOut_visits w.2
        · simp only [hk, decide_false, if_false]
          exact fun s x hl hf => ⟨s, rfl, hl, Keep.refl _ _ _⟩) hl hfr
    refine ⟨s', ?_, e2, e3⟩
    simp only [keyExtractor, JVal.kind]
    rw [e1]
    simp only [JVal.members, List.flatMap_map, extract, Option.map_some, Option.some.injEq]
    congr 1
    clear e1 hb hf hfr h hn1 hn2
    induction ms with
    | nil => rfl
    | cons m l ih =>
      by_cases hk : name m.1 = key <;> simp [hk, ih]

theorem deep_items (name key) (l : List JVal) : deepExtract.items name key l = l.flatMap (deepExtract name key) := by
  induction l with
  | nil => rfl
  | cons v l ih => simp [deepExtract.items, ih]

theorem deep_members (name key) (l : List (Scalar × JVal)) :
    deepExtract.members name key l = l.flatMap fun m => if name m.1 = key then [m.2] else deepExtract name key m.2 := by
  induction l with
  | nil => rfl
  | cons v l ih => obtain ⟨k, v⟩ := v; simp [deepExtract.members, ih]

theorem deepKeyExtractor_visits {name : Scalar → Bytes} (key : Bytes) : ∀ (f : Nat) (v : JVal), Named name v →
    v.toks.length < f → Visits (deepKeyExtractor key f) v (streamToks (deepExtract name key v)) () := by
  intro f
  induction f with
  | zero => intro v _ hf; omega
  | succ f ih =>
    intro v hn hf
    have hb := members_bound v
    intro s x hl hfr
    cases v with
    | scalar sc =>
      have hx : x = .scalar sc := hfr
      subst hx
      exact ⟨s, by simp [deepKeyExtractor, deepExtract], hl, Keep.refl _ _ _⟩
    | arr items e =>
      obtain ⟨i, t, h1, h⟩ := id hfr
      subst h1
      cases hn with
      | arr hn1 =>
      obtain ⟨s', e1, e2, e3⟩ := members_visits (body := fun _ y => deepKeyExtractor key f y)
        (out := fun k v => streamToks (deepExtract name key v)) (f := f + 1) (by simp) (by omega) (by
          intro m hm
          have hlt := hb.2 m hm
          simp only [JVal.members, List.mem_map] at hm
          obtain ⟨w, hw, rfl⟩ := hm
          exact ih w (hn1 w hw) (by simp only at hlt; omega)) hl hfr
      refine ⟨s', ?_, e2, e3⟩
      simp only [deepKeyExtractor, JVal.kind]
      rw [e1]
      simp [JVal.members, List.flatMap_map, deepExtract, deep_items, streamToks_flat]
    | obj ms e =>
      obtain ⟨i, t, h1, h⟩ := id hfr
      subst h1
      cases hn with
      | obj hn1 hn2 =>
      obtain ⟨s', e1, e2, e3⟩ := members_visits (body := fun k y => onKey key k (copyOut y) (deepKeyExtractor key f y))
        (out := fun k v => streamToks (if k.map name = some key then [v] else deepExtract name key v)) (f := f + 1)
        (by simp) (by omega) (by
          intro m hm
          have hlt := hb.2 m hm
          simp only [JVal.members, List.mem_map] at hm
          obtain ⟨w, hw, rfl⟩ := hm
          simp only [onKey, equalsString_ok (hn1 w hw), Option.map_some, Option.some.injEq]
          by_cases hk : name w.1 = key
          · simp only [hk, decide_true, if_true]
            have := copyOut_visits w.2
            simpa using this
          · simp only [hk, decide_false, if_false]
            exact ih w.2 (hn2 w hw) (by simp only at hlt; omega)) hl hfr
      refine ⟨s', ?_, e2, e3⟩
      simp only [deepKeyExtractor, JVal.kind]
      rw [e1]
      simp [JVal.members, List.flatMap_map, deepExtract, deep_members, streamToks_flat]

/-- C32, on the implementation: `.key` yields for each object the values of its members with that key,
in order, and nothing for other values; keys are compared as the strings they denote.  Missing: streams
with a key that denotes no string, see `C32_violated`. -/
theorem C32_key_partial (name : Scalar → Bytes) (key : Bytes) (vs : List JVal) (hn : ∀ v ∈ vs, Named name v) :
    runTransform (keyExtractor key) (streamToks vs) = some (streamToks (vs.flatMap (extract name key))) :=
  runTransform_eq fun v hv f hf => keyExtractor_visits key v (hn v hv) f hf

/-- C32, on the implementation: `...key` yields in document order the values of all members with that
key that are not inside a value already extracted.  Missing: streams with a key that denotes no string,
see `C32_violated`. -/
theorem C32_deep_key_partial (name : Scalar → Bytes) (key : Bytes) (vs : List JVal) (hn : ∀ v ∈ vs, Named name v) :
    runTransform (deepKeyExtractor key) (streamToks vs) = some (streamToks (vs.flatMap (deepExtract name key))) :=
  runTransform_eq fun v hv f hf => deepKeyExtractor_visits key f v (hn v hv) hf

/-- C32 is false for streams with a key that denotes no string: the JSON decoder accepts the invalid
escape `\q`, and a key spelled with it makes the extractor panic. -/
theorem C32_violated : runTransform (keyExtractor b%"a")
    [.startObj, .scalar ⟨b%"\"\\q\"", .str, true, false, false⟩, .scalar ⟨b%"1", .num, false, false, false⟩, .endObj] =
    none := by
  rfl

section NonVacuity

private def num (b : Bytes) : JVal := .scalar ⟨b, .num, false, false, false⟩

/-- `"a"` and its spelling with an escape. -/
private def k1 : Scalar := ⟨b%"\"a\"", .str, true, true, true⟩
private def k2 : Scalar := ⟨b%"\"\\u0061\"", .str, true, false, false⟩
private def k3 : Scalar := ⟨b%"\"b\"", .str, true, true, true⟩
private def nm (k : Scalar) : Bytes := if k = k3 then b%"b" else b%"a"

private theorem named1 : StrIs k1 (nm k1) :=
  ⟨rfl, b%"a", rfl, .char (r := 0x61) (by decide) (by unfold UScalar; decide) (by decide) (by decide) .nil, fun _ => by decide⟩
private theorem named2 : StrIs k2 (nm k2) :=
  ⟨rfl, b%"\\u0061", rfl, .hex (h := b%"0061") (n := 0x61) ⟨_, _, _, _, 0, 0, 6, 1, rfl, rfl, rfl, rfl, rfl, rfl⟩
    (by unfold UScalar; decide) .nil, fun h => by cases h⟩
private theorem named3 : StrIs k3 (nm k3) :=
  ⟨rfl, b%"b", rfl, .char (r := 0x62) (by decide) (by unfold UScalar; decide) (by decide) (by decide) .nil, fun _ => by decide⟩

/-- `{"b":{"\u0061":1,"b":2},"a":{"a":3}}` -/
private def doc : JVal := .obj [(k3, .obj [(k2, num b%"1"), (k3, num b%"2")] false), (k1, .obj [(k1, num b%"3")] false)] false

private theorem named_doc : Named nm doc := by
  refine .obj ?_ ?_ <;> simp only [List.forall_mem_cons, List.not_mem_nil, false_implies, implies_true, and_true]
  · exact ⟨named3, named1⟩
  · refine ⟨.obj ?_ ?_, .obj ?_ ?_⟩ <;>
      simp only [List.forall_mem_cons, List.not_mem_nil, false_implies, implies_true, and_true]
    · exact ⟨named2, named3⟩
    · exact ⟨.scalar, .scalar⟩
    · exact named1
    · exact .scalar

example : runTransform (deepKeyExtractor b%"a") (streamToks [doc]) =
    some (streamToks [num b%"1", .obj [(k1, num b%"3")] false]) :=
  C32_deep_key_partial nm b%"a" [doc] (by simpa using named_doc)

example : runTransform (keyExtractor b%"a") (streamToks [doc]) = some (streamToks [.obj [(k1, num b%"3")] false]) :=
  C32_key_partial nm b%"a" [doc] (by simpa using named_doc)

end NonVacuity

end Verif
