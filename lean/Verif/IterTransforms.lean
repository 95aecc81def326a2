import Verif.IterRoot
import Verif.Transforms
import Verif.StrSpec

/-!
# Transforms that work value by value

Model of `ExplodeArray` (`/repo/transform/builtin.go`) and of the legacy extractors
(`/repo/internal/legacy/transformers.go`) as programs over iterators.  Loops carry fuel.
-/

set_option linter.unusedSimpArgs false
set_option linter.unusedVariables false

namespace Verif
open IProg AState JVal.toks

/-- Go: `value.Copy(out)`. -/
def copyOut (x : Val) : IProg Token Unit := .op (.copy x) fun (ts : List Token) => putAll ts

theorem copyOut_visits (v : JVal) : Visits copyOut v v.toks () := by
  intro s x hl hf
  obtain ⟨s', e1, e2, e3⟩ := copy_fresh hl hf
  exact ⟨s', by simp only [copyOut]; rw [arun_op e1, run_putAll], e2, e3⟩

/-- Go: `ExplodeArray.TransformValue`, `/repo/transform/builtin.go:62-71`. -/
def explodeArray (f : Nat) : Val → IProg Token Unit
  | .coll .arr i => forEach (fun _ _ y => copyOut y) i f ()
  | x => copyOut x

/-- Go: the test `key.EqualsString(f.Key)` of both extractors. -/
def onKey (key : Bytes) (k : Option Scalar) (hit miss : IProg Token Unit) : IProg Token Unit :=
  match k with
  | none => .fail .panic
  | some k =>
    match GoJson.equalsString k key with
    | none => .fail .panic
    | some true => hit
    | some false => miss

/-- Go: `KeyExtractor.TransformValue`, `/repo/internal/legacy/transformers.go:26-35`. -/
def keyExtractor (key : Bytes) (f : Nat) : Val → IProg Token Unit
  | .coll .obj i => forEach (fun _ k y => onKey key k (copyOut y) (.ret ())) i f ()
  | _ => .ret ()

/-- Go: `DeepKeyExtractor.TransformValue` and `transformObject`,
`/repo/internal/legacy/transformers.go:49-71`. -/
def deepKeyExtractor (key : Bytes) : Nat → Val → IProg Token Unit
  | 0, _ => .fail .fuel
  | f + 1, .coll .obj i => forEach (fun _ k y => onKey key k (copyOut y) (deepKeyExtractor key f y)) i (f + 1) ()
  | f + 1, .coll .arr i => forEach (fun _ _ y => deepKeyExtractor key f y) i (f + 1) ()
  | _ + 1, _ => .ret ()

/-- A loop over the members of a collection that only writes. -/
theorem members_visits {ε : Type} {body : Option Scalar → Val → IProg ε Unit} {v : JVal} {f : Nat}
    {out : Option Scalar → JVal → List ε} (hv : ∀ s, v ≠ .scalar s) (hf : v.members.length < f)
    (h : ∀ m ∈ v.members, Visits (body m.1) m.2 (out m.1 m.2) ()) {s : AState} {k : Kind} {i : Nat} (hl : Links s)
    (hfr : Fresh s (.coll k i) v) :
    ∃ s', (forEach (fun (_ : Unit) k y => body k y) i f ()).run AState.mach s =
      (v.members.flatMap fun m => out m.1 m.2, .ok (s', ())) ∧ Links s' ∧ Keep s.n (some i) s s' := by
  obtain ⟨hk, hb⟩ := hfr.before rfl
  have hkt : k ≠ .top := by rw [hk]; cases v <;> simp [JVal.kind]
  obtain ⟨s', e1, e2, e3, e4⟩ := forEach_run (body := fun (_ : Unit) k y => body k y) (fun _ k v => out k v)
    (fun _ _ _ => ()) hkt v.members f s () hf hl hb (fun m hm _ => h m hm)
  rw [foldOut_const out] at e1
  exact ⟨s', e1, e2, e3⟩

theorem members_bound (v : JVal) :
    v.members.length < v.toks.length ∧ ∀ m ∈ v.members, m.2.toks.length < v.toks.length := by
  cases v with
  | scalar s => simp [JVal.members]
  | arr items e =>
    have := itemToks_bound items
    refine ⟨by simp [JVal.members]; omega, ?_⟩
    intro m hm
    simp only [JVal.members, List.mem_map] at hm
    obtain ⟨w, hw, rfl⟩ := hm
    have := this.2 w hw
    simp; omega
  | obj ms e =>
    have := memberToks_bound ms
    refine ⟨by simp [JVal.members]; omega, ?_⟩
    intro m hm
    simp only [JVal.members, List.mem_map] at hm
    obtain ⟨w, hw, rfl⟩ := hm
    have := this.2 w hw
    simp; omega

theorem streamToks_flat {α : Type} (l : List α) (g : α → List JVal) :
    streamToks (l.flatMap g) = l.flatMap fun a => streamToks (g a) := by
  induction l with
  | nil => rfl
  | cons v l ih => simp [streamToks_append, ih]

/-- A transform of values on the implementation of iterators, as a function of the tokens: `none` if it
does not return normally. -/
def runTransform (tv : Nat → Val → IProg Token Unit) (ts : List Token) : Option (List Token) :=
  match (transformAll (tv (ts.length + 1)) (ts.length + 1)).run Heap.mach (Heap.init ts) with
  | (out, .ok _) => some out
  | _ => none

theorem runTransform_eq {tv : Nat → Val → IProg Token Unit} {out : JVal → List JVal} {vs : List JVal}
    (h : ∀ v ∈ vs, ∀ f, v.toks.length < f → Visits (tv f) v (streamToks (out v)) ()) :
    runTransform tv (streamToks vs) = some (streamToks (vs.flatMap out)) := by
  have hb := streamToks_bound vs
  obtain ⟨h', e⟩ := transformAll_run (tv := tv ((streamToks vs).length + 1)) (out := fun v => streamToks (out v))
    (vs := vs) (Nat.lt_succ_self _) (fun v hv => h v hv _ (by have := hb.2 v hv; omega))
  unfold runTransform
  rw [e]
  simp only [Option.some.injEq]
  clear e h hb
  induction vs with
  | nil => rfl
  | cons v l ih => simp [streamToks_append, ih]

end Verif
