import Verif.PathQuery
import Verif.JpvTree

/-!
# Functions

What the programs for `length`, `count`, `value`, `match` and `search` do.
-/

set_option linter.unusedSimpArgs false
set_option linter.unusedVariables false

namespace Verif
namespace JPath
open AState IProg GoJson

variable {ε : Type} {C : Nat → Prop} {J : AState → Prop} {G H : JVal → Prop}

/-! ## Length -/

theorem countMembers_run {k : Kind} (hk : k ≠ .top) {n0 i : Nat} : ∀ (rest : List (Option Scalar × JVal)) (f n : Nat) (s : AState) (e : Bool), WF s →
    Before s n0 i k rest e → n0 ≤ s.n → rest.length < f →
    ∃ s', (countMembers i f n : IProg ε Nat).run AState.mach s = ([], .ok (s', n + rest.length)) ∧ Mod (fun h => h = i ∨ n0 ≤ h) s s' := by
  intro rest
  induction rest with
  | nil =>
    intro f n s e hw hb hn hf
    obtain ⟨f, rfl⟩ : ∃ g, f = g + 1 := ⟨f - 1, by simp at hf; omega⟩
    obtain ⟨s', e1, e2, -⟩ := adv_nil_mod hw hb hk
    refine ⟨s', ?_, e2.mono hw (fun h _ e => e.imp id (·.1))⟩
    unfold countMembers
    rw [arun_op e1]
    rfl
  | cons m rest ih =>
    intro f n s e hw hb hn hf
    obtain ⟨f, rfl⟩ : ∃ g, f = g + 1 := ⟨f - 1, by simp at hf; omega⟩
    obtain ⟨kk, v⟩ := m
    obtain ⟨s', x, e1, e2, e3, e4, e5, e6⟩ := adv_cons_mod hw hb
    obtain ⟨s2, g1, g2⟩ := ih f (n + 1) s' e e4.wf e3 (Nat.le_trans hn e4.n) (by simp at hf; omega)
    refine ⟨s2, ?_, (e4.mono hw (F' := fun h => h = i ∨ n0 ≤ h) (fun h _ e => e.imp id (·.1))).trans g2 (fun _ _ h => h)⟩
    unfold countMembers
    rw [arun_op e1]
    simp only [if_true, g1, List.length_cons]
    congr 3; omega

/-- What `length` returns; objects have length 0. -/
def lengthScalar : JVal → Option Scalar
  | .arr l _ => some (natScalar l.length)
  | .obj _ _ => some (natScalar 0)
  | .scalar k => if k.type = .str then (toStr k).map fun s => natScalar (Utf8.count s.length s) else none

theorem runLength_run {s : AState} {x : Val} {w : JVal} {d : Data} {f : Nat} (hw : WF s) (hx : Fresh s x w) (hd : DenBy val w d) (hf : w.toks.length ≤ f) :
    ∃ s', (runLength f (some x) : IProg ε FnRes).run AState.mach s = ([], .ok (s', .value ((lengthScalar w).map .scalar))) ∧
      Mod (fun j => x.idx = some j) s s' := by
  cases w with
  | scalar k =>
    have hx : x = .scalar k := hx
    subst hx
    refine ⟨s, ?_, .refl hw⟩
    by_cases ht : k.type = .str
    · have : ∃ t, StrIs k t := by cases hd with
        | null h => rw [h] at ht; cases ht
        | bool h => rw [h] at ht; cases ht
        | num h => rw [h] at ht; cases ht
        | str h => exact ⟨_, h⟩
      obtain ⟨t, h⟩ := this
      simp only [runLength, lengthScalar, if_pos ht, toStr_ok h]
      rw [if_neg (by simp [ht])]
      rfl
    · simp only [runLength, lengthScalar, if_neg ht]
      rw [if_pos ht]
      rfl
  | arr l e =>
    obtain ⟨i, t, rfl, h2, h3, h4, h5⟩ := id hx
    have hb := (hx.before rfl).2
    have hl := (members_len (.arr l e)).1
    obtain ⟨s', e1, e2⟩ := countMembers_run (ε := ε) (by simp [JVal.kind]) (JVal.arr l e).members f 0 s _ hw hb (Nat.le_refl _) (by omega)
    refine ⟨s', ?_, e2.mono hw (fun h hh e => by rcases e with rfl | e; rfl; omega)⟩
    show ((countMembers i f 0 : IProg ε Nat).bind _).run _ _ = _
    rw [run_ok_bind e1]
    simp [lengthScalar, JVal.members, IProg.run]
  | obj l e =>
    obtain ⟨i, t, rfl, h2, h3, h4, h5⟩ := id hx
    have hb := (hx.before rfl).2
    have hl := (members_len (.obj l e)).1
    obtain ⟨s', e1, e2⟩ := countMembers_run (ε := ε) (by simp [JVal.kind]) (JVal.obj l e).members f 0 s _ hw hb (Nat.le_refl _) (by omega)
    refine ⟨s', ?_, e2.mono hw (fun h hh e => by rcases e with rfl | e; rfl; omega)⟩
    show ((countMembers i f 0 : IProg ε Nat).bind _).run _ _ = _
    rw [run_ok_bind e1]
    simp [lengthScalar, IProg.run]

/-- `length`. -/
theorem cmp_length (hFr : Frame C J) {e : Env} {c : CmpP ε} {p : JVal → Option JVal} (hc : CmpOk C J G H False c p)
    (hH : ∀ w, H w → (∃ d, DenBy val w d) ∧ w.toks.length ≤ e.fuel) (hN : ∀ v w k, G v → p v = some w → lengthScalar w = some k → H (.scalar k)) {B : Prop} :
    CmpOk C J G H B (fnValue e .length [.value c]) (fun v => ((p v).bind lengthScalar).map .scalar) := by
  refine ⟨?_, ?_⟩
  · intro v w hv h
    simp only [Option.map_eq_some_iff, Option.bind_eq_some_iff] at h
    obtain ⟨k, ⟨w', h1, h2⟩, rfl⟩ := h
    exact hN v w' k hv h1 h2
  intro s x v hw hJ hx hv hxC
  have hCn := hFr.lt hJ
  obtain ⟨s1, p1, e1, m1, f1, o1, n1⟩ := clone_mod hw hx
  have J1 : J s1 := hFr.keep hJ m1 (fun h hc hi => hxC h hi hc)
  obtain ⟨s2, y, e2, m2, g2⟩ := hc.2 s1 p1.1 v m1.wf J1 o1.fresh hv (fun j hj hc => by have := (n1 j hj).1; have := hCn j hc; omega)
  have hrun : ∃ s3, (runLength e.fuel y : IProg ε FnRes).run AState.mach s2 = ([], .ok (s3, .value (((p v).bind lengthScalar).map .scalar))) ∧
      Mod (fun j => oidx y = some j) s2 s3 := by
    cases hp : p v with
    | none =>
      rw [hp] at g2
      have g2 : y = none := g2
      subst g2
      exact ⟨s2, rfl, .refl m2.wf⟩
    | some w =>
      rw [hp] at g2
      obtain ⟨z, rfl, h1, h2⟩ := g2
      obtain ⟨⟨d, hd⟩, hl⟩ := hH w (hc.1 v w hv hp)
      exact runLength_run m2.wf h1 hd hl
  obtain ⟨s3, e3, m3⟩ := hrun
  have m13 : Mod (fun j => p1.1.idx = some j) s1 s3 := m2.trans m3 (fun i hi h => by
    rcases (g2.lt i h).2 with h1 | h1 | h1
    · omega
    · exact h1
    · exact h1.1.elim)
  obtain ⟨s4, e4, m4, -⟩ := detach_mod (ε := ε) m1.wf m13 o1 (fun i hi => hi)
  refine ⟨s4, ((p v).bind lengthScalar).map .scalar, ?_, m1.trans m4 (fun i hi h => by have := (n1 i h).1; omega), ?_⟩
  · simp only [fnValue, runArgs, runFn, List.nil_append]
    simp only [IProg.bind]
    rw [arun_op e1]
    rw [IProg.bind_assoc, run_ok_bind e2, IProg.bind_assoc, run_ok_bind e3, IProg.bind_assoc, run_ok_bind e4]
    rfl
  · show Got _ _ _ (((p v).bind lengthScalar).map .scalar)
    cases hp : (p v).bind lengthScalar with
    | none => rfl
    | some k => exact ⟨.scalar k, rfl, rfl, fun j (hj : none = some j) => (by cases hj)⟩

/-! ## Count -/

theorem countFin_ok : FinOk (ε := ε) (fun o n n' => o = [] ∧ n = n') G countFin (fun (n : Nat) _ => (n + 1, true)) := by
  intro s x v acc q q' hw hx hv hR
  exact ⟨s, [], q + 1, rfl, by rw [List.append_nil]; exact ⟨hR.1, by rw [hR.2]⟩, .refl hw⟩

theorem count_floop : ∀ (l : List JVal) (n : Nat), floop (fun (n : Nat) _ => (n + 1, true)) l n = (n + l.length, true)
  | [], n => rfl
  | _ :: l, n => by
    simp only [floop, if_true, List.length_cons]
    rw [count_floop l (n + 1)]
    congr 1; omega

/-- `count`. -/
theorem cmp_count {e : Env} {q : QueryP ε} {single exact' : Prop} {nodes : JVal → List JVal} (hq : QueryOk e C J G single exact' q nodes)
    (hN : ∀ v, G v → H (.scalar (natScalar (nodes v).length))) {B : Prop} :
    CmpOk C J G H B (fnValue e .count [.nodes q]) (fun v => some (.scalar (natScalar (nodes v).length))) := by
  refine ⟨fun v w hv h => by cases h; exact hN v hv, ?_⟩
  intro s x v hw hJ hx hv hxC
  obtain ⟨N, h1, h2⟩ := hq Nat Nat countFin _ _ countFin_ok
  obtain ⟨s', o, q1, e1, ⟨e2, e2'⟩, e3⟩ := h2 s x v [] 0 0 hw hJ hx hv hxC ⟨rfl, rfl⟩ (.inl (by rw [count_floop]))
  rw [count_floop] at e1 e2'
  simp only [Nat.zero_add, List.nil_append] at e1 e2 e2'
  subst e2 e2'
  refine ⟨s', some (.scalar (natScalar (N v).length)), ?_, e3, ?_⟩
  · simp only [fnValue, runArgs, runFn, List.nil_append]
    rw [IProg.bind_assoc, run_ok_bind e1]
    rfl
  · rw [(h1 v hv).1.length_eq]
    exact ⟨_, rfl, rfl, fun j (hj : none = some j) => (by cases hj)⟩

/-! ## Value -/

/-- The final processor of `value`, on values. -/
def tvalueFin : Option JVal → JVal → Option JVal × Bool
  | some _, _ => (none, false)
  | none, v => (some v, true)

/-- Scalars are kept as they are. -/
def ValueRel (o : List ε) (q : Option Val) (q' : Option JVal) : Prop :=
  o = [] ∧ match q' with
    | none => q = none
    | some w => ∃ x, q = some x ∧ ∀ k, w = .scalar k → x = .scalar k

theorem valueFin_ok : FinOk (ε := ε) ValueRel G valueFin tvalueFin := by
  intro s x v acc q q' hw hx hv hR
  obtain ⟨h1, h2⟩ := hR
  cases q' with
  | none =>
    have h2 : q = none := h2
    subst h2
    exact ⟨s, [], some x, rfl, ⟨by rw [List.append_nil]; exact h1, x, rfl, fun k e => by subst e; exact hx⟩, .refl hw⟩
  | some w =>
    obtain ⟨y, rfl, h2⟩ := h2
    exact ⟨s, [], none, rfl, ⟨by rw [List.append_nil]; exact h1, rfl⟩, .refl hw⟩

/-- The value of a list with a single node. -/
def soleNode : List JVal → Option JVal
  | [w] => some w
  | _ => none

theorem value_floop : ∀ l : List JVal, (floop tvalueFin l none).1 = soleNode l ∧ (l.length ≤ 1 → (floop tvalueFin l none).2 = true)
  | [] => ⟨rfl, fun _ => rfl⟩
  | [w] => ⟨rfl, fun _ => rfl⟩
  | w :: w' :: l => ⟨rfl, fun h => by simp at h⟩

theorem soleNode_perm {l l' : List JVal} (h : l.Perm l') : soleNode l = soleNode l' := by
  match l, l', h with
  | [], l', h => rw [h.symm.eq_nil]
  | [w], l', h => rw [List.singleton_perm.1 h]
  | _ :: _ :: l, l', h =>
    have := h.length_eq
    match l', this with
    | _ :: _ :: _, _ => rfl

/-- `value`. -/
theorem cmp_value {e : Env} {q : QueryP ε} {single exact' : Prop} {nodes : JVal → List JVal} (hq : QueryOk e C J G single exact' q nodes)
    (hs : single ∨ ∀ v, G v → (nodes v).length ≤ 1) (hN : ∀ v w, G v → soleNode (nodes v) = some w → H w ∧ ∃ k, w = .scalar k) {B : Prop} :
    CmpOk C J G H B (fnValue e .value [.nodes q]) (fun v => soleNode (nodes v)) := by
  refine ⟨fun v w hv h => (hN v w hv h).1, ?_⟩
  intro s x v hw hJ hx hv hxC
  obtain ⟨N, h1, h2⟩ := hq (Option Val) (Option JVal) valueFin _ _ valueFin_ok
  have hp := (h1 v hv).1
  obtain ⟨s', o, q1, e1, ⟨e2, e2'⟩, e3⟩ := h2 s x v [] none none hw hJ hx hv hxC ⟨rfl, rfl⟩ (by
    rcases hs with hs | hs
    · exact .inr hs
    · exact .inl ((value_floop _).2 (by rw [hp.length_eq]; exact hs v hv)))
  rw [(value_floop _).1, soleNode_perm hp] at e2'
  simp only [List.nil_append] at e2
  subst e2
  refine ⟨s', q1, ?_, e3, ?_⟩
  · simp only [fnValue, runArgs, runFn, List.nil_append]
    rw [IProg.bind_assoc, run_ok_bind e1]
    rfl
  · show Got _ _ _ (soleNode (nodes v))
    cases ho : soleNode (nodes v) with
    | none => rw [ho] at e2'; exact e2'
    | some w =>
      rw [ho] at e2'
      obtain ⟨y, rfl, h⟩ := e2'
      obtain ⟨-, k, rfl⟩ := hN v w hv ho
      have := h k rfl
      subst this
      exact ⟨.scalar k, rfl, rfl, fun j (hj : none = some j) => (by cases hj)⟩

/-! ## Match and search -/

/-- What the function returns. -/
def findResult (whole : Bool) (s : Bytes) (l : Option (Nat × Nat)) : Bool :=
  if whole then decide (l = some (0, s.length)) else l.isSome

theorem strIs_plain {k : Scalar} {s : Bytes} (h : StrIs k s) (hu : k.unesc = true) : (k.bytes.drop 1).dropLast = s := by
  obtain ⟨h1, c, h2, h3, h4⟩ := h
  rw [h2]
  simp only [List.drop_succ_cons, List.drop_zero, List.dropLast_concat]
  exact denotes_plain h3 (h4 hu)

theorem matchIndex_ok {lib : Lib} {a b : Scalar} {s p : Bytes} {find} (ha : StrIs a s) (hb : StrIs b p) (hf : lib.regex p = some find) :
    (matchIndex lib (some (.scalar a)) (some (.scalar b)) : IProg ε _) = .ret ((find s).map fun l => ((l.1 : Int), (l.2 : Int) - s.length)) := by
  simp only [matchIndex]
  rw [if_neg (by simp [ha.1, hb.1]), strIs_unquote hb]
  simp only [hf]
  by_cases hu : a.unesc = true
  · simp only [findIndex, hu, if_true, strIs_plain ha hu, Option.map_some]
  · simp only [findIndex, hu, if_false, strIs_unquote ha, Option.map_some, Bool.false_eq_true]

theorem matchIndex_none {lib : Lib} {x y : Option Val} (h : ¬ ∃ a b, x = some (.scalar a) ∧ y = some (.scalar b) ∧ a.type = .str ∧ b.type = .str) :
    (matchIndex lib x y : IProg ε _) = .ret none := by
  unfold matchIndex
  split
  · rename_i a b
    rw [if_pos]
    apply Classical.byContradiction
    intro hn
    apply h
    exact ⟨a, b, rfl, rfl, by apply Classical.byContradiction; intro e; exact hn (.inl e), by apply Classical.byContradiction; intro e; exact hn (.inr e)⟩
  · rfl

/-- What the function computes; `find` is what the library does with the pattern. -/
def Finds (lib : Lib) (whole : Bool) (a b : Option JVal) (r : Bool) : Prop :=
  (∀ k k' s p, a = some (.scalar k) → b = some (.scalar k') → StrIs k s → StrIs k' p → ∃ find, lib.regex p = some find ∧ r = findResult whole s (find s)) ∧
  ((¬ ∃ k k' s p, a = some (.scalar k) ∧ b = some (.scalar k') ∧ StrIs k s ∧ StrIs k' p) → r = false)

theorem runMatch_ok {lib : Lib} {whole : Bool} {st st' : AState} {P P'} {x y : Option Val} {a b : Option JVal} {r : Bool} (hx : Got st P x a) (hy : Got st' P' y b)
    (ha : ∀ w, a = some w → ∃ d, DenBy val w d) (hb : ∀ w, b = some w → ∃ d, DenBy val w d) (hr : Finds lib whole a b r) :
    (runMatch lib whole x y : IProg ε FnRes) = .ret (.bool r) := by
  have key : ∀ {s : AState} {P} {x : Option Val} {o : Option JVal} {k}, Got s P x o → x = some (.scalar k) → o = some (.scalar k) := by
    intro s P x o k h e
    cases o with
    | none => have h : x = none := h; rw [h] at e; cases e
    | some w =>
      obtain ⟨z, h1, h2, -⟩ := h
      rw [e] at h1; cases h1
      cases w with
      | scalar k' => have h2 : Val.scalar k = .scalar k' := h2; cases h2; rfl
      | arr _ _ => obtain ⟨i, _, e, _⟩ := h2; cases e
      | obj _ _ => obtain ⟨i, _, e, _⟩ := h2; cases e
  have key' : ∀ {s : AState} {P} {x : Option Val} {k}, Got s P x (some (.scalar k)) → x = some (.scalar k) := by
    intro s P x k h
    obtain ⟨z, h1, h2, -⟩ := h
    have h2 : z = .scalar k := h2
    rw [h1, h2]
  have str : ∀ {k : Scalar}, (∃ d, DenBy val (.scalar k) d) → k.type = .str → ∃ s, StrIs k s := by
    rintro k ⟨d, hd⟩ ht
    cases hd with
    | null h => rw [h] at ht; cases ht
    | bool h => rw [h] at ht; cases ht
    | num h => rw [h] at ht; cases ht
    | str h => exact ⟨_, h⟩
  unfold runMatch
  by_cases h : ∃ k k' s p, a = some (.scalar k) ∧ b = some (.scalar k') ∧ StrIs k s ∧ StrIs k' p
  · obtain ⟨k, k', s, p, rfl, rfl, h3, h4⟩ := h
    obtain ⟨find, h5, rfl⟩ := hr.1 k k' s p rfl rfl h3 h4
    rw [key' hx, key' hy, matchIndex_ok h3 h4 h5]
    simp only [IProg.bind]
    congr 2
    unfold findResult
    cases whole with
    | false => simp
    | true =>
      simp only [if_true]
      rw [decide_eq_decide]
      cases find s with
      | none => simp
      | some l =>
        obtain ⟨l1, l2⟩ := l
        simp only [Option.map_some, Option.some.injEq, Prod.mk.injEq]
        omega
  · rw [hr.2 h, matchIndex_none]
    · simp only [IProg.bind]
      cases whole <;> simp
    · rintro ⟨k, k', rfl, rfl, h1, h2⟩
      have ea := key hx rfl
      have eb := key hy rfl
      subst ea eb
      obtain ⟨s, hs⟩ := str (ha _ rfl) h1
      obtain ⟨p, hp⟩ := str (hb _ rfl) h2
      exact h ⟨k, k', s, p, rfl, rfl, hs, hp⟩

theorem Got.stay {s s' : AState} {P} {y : Option Val} {o : Option JVal} (h : Got s P y o) (h0 : ∀ i, oidx y ≠ some i) : Got s' P y o := by
  cases o with
  | none => exact h
  | some w =>
    obtain ⟨x, rfl, h1, h2⟩ := h
    cases w with
    | scalar k => have h1 : x = .scalar k := h1; subst h1; exact ⟨_, rfl, rfl, h2⟩
    | arr _ _ => obtain ⟨i, _, rfl, _⟩ := h1; exact absurd rfl (h0 i)
    | obj _ _ => obtain ⟨i, _, rfl, _⟩ := h1; exact absurd rfl (h0 i)

/-- `match` and `search`. -/
theorem cond_match (hFr : Frame C J) {e : Env} {f : Fn} {whole : Bool} (hf : f = .fmatch ∧ whole = true ∨ f = .search ∧ whole = false) {c d : CmpP ε} {p q : JVal → Option JVal} {B B' : Prop}
    (hc : CmpOk C J G H B c p) (hd : CmpOk C J G H B' d q) (hH : ∀ w, H w → ∃ d, DenBy val w d) (r : JVal → Bool) (hr : ∀ v, G v → Finds e.lib whole (p v) (q v) (r v)) :
    CondOk C J G (fnTruth e f [.value c, .value d]) r := by
  intro s x v hw hJ hx hv hxC
  have hxn := fresh_lt hx
  have hCn := hFr.lt hJ
  obtain ⟨s1, p1, e1, m1, f1, o1, n1⟩ := clone_mod hw hx
  have J1 : J s1 := hFr.keep hJ m1 (fun h hc hi => hxC h hi hc)
  obtain ⟨s2, y, e2, m2, g2⟩ := hc.2 s1 p1.1 v m1.wf J1 o1.fresh hv (fun j hj hc => by have := (n1 j hj).1; have := hCn j hc; omega)
  have J2 : J s2 := hFr.keep J1 m2 (fun h hc hi => by have := (n1 h hi).1; have := hCn h hc; omega)
  have f2 : Fresh s2 x v := m2.fresh f1 (fun i hi h => by have := (n1 i h).1; have := hxn i hi; omega)
  obtain ⟨s3, p2, e3, m3, f3, o3, n3⟩ := clone_mod m2.wf f2
  have J3 : J s3 := hFr.keep J2 m3 (fun h hc hi => hxC h hi hc)
  have hn1 := m1.n
  have hn2 := m2.n
  have hn3 := m3.n
  obtain ⟨s4, z, e4, m4, g4⟩ := hd.2 s3 p2.1 v m3.wf J3 o3.fresh hv (fun j hj hc => by have := (n3 j hj).1; have := hCn j hc; omega)
  have hrun : (runMatch e.lib whole y z : IProg ε FnRes) = .ret (.bool (r v)) :=
    runMatch_ok g2 g4 (fun w hw' => hH w (hc.1 v w hv hw')) (fun w hw' => hH w (hd.1 v w hv hw')) (hr v hv)
  obtain ⟨s5, e5, m5, -⟩ := detach_mod (ε := ε) m3.wf m4 o3 (fun i hi => hi)
  have m15 : Mod (fun j => p1.1.idx = some j ∨ x.idx = some j) s1 s5 := by
    refine ((m2.mono m1.wf (F' := fun j => p1.1.idx = some j ∨ x.idx = some j) (fun _ _ h => .inl h)).trans m3 (fun _ _ h => .inr h)).trans m5 ?_
    intro i hi h
    have := (n3 i h).1; omega
  obtain ⟨s6, e6, m6, k6⟩ := detach_mod (ε := ε) m1.wf m15 o1 (fun i hi => .inl hi)
  have f5 : Fresh s5 x v := m5.fresh f3 (fun i hi h => by have := (n3 i h).1; have := hxn i hi; omega)
  have f6 : Fresh s6 x v := by
    refine f5.eff k6 (fun i hi => ⟨id, ?_⟩)
    intro ht
    have hi1 := f1.lt i hi
    have hi3 := f3.lt i hi
    cases hj : p1.1.idx with
    | none => rw [o1.none hj] at ht; cases ht
    | some j =>
      have hjn := (n1 j hj).1
      have hxi := hxn i hi
      obtain ⟨h1, h2⟩ := o1.own j hj
      rw [h1] at ht
      have ht : (s1.coll j).thr = (s5.coll i).thr := Option.some.inj ht
      rw [m5.eff.coll i hi3 (fun h => by have := (n3 i h).1; omega)] at ht
      have hnt := m1.wf.thr j (o1.fresh.lt j hj)
      rcases m3.eff.thr i hi3 with h3 | ⟨g, h3, h4, h5⟩
      · have := m2.eff.nt; omega
      · have hg : g = i := by
          rcases h4 with h4 | h4
          · rw [hi] at h4; exact (Option.some.inj h4).symm
          · exact h4
        subst hg
        rw [h5, m2.eff.coll g hi1 (fun h => by have := (n1 g h).1; omega)] at ht
        have := h2.thr g hi1 ht.symm
        omega
  refine ⟨s6, ?_, m1.trans m6 (fun i hi h => h.elim (fun h => by have := (n1 i h).1; omega) id), f6⟩
  · have ef : runFn e f [ArgV.value y, ArgV.value z] = (.ret (.bool (r v)) : IProg ε FnRes) := by
      rcases hf with ⟨rfl, rfl⟩ | ⟨rfl, rfl⟩ <;> exact hrun
    simp only [fnTruth, runArgs, List.nil_append, List.cons_append]
    simp only [IProg.bind]
    rw [arun_op e1]
    rw [IProg.bind_assoc, run_ok_bind e2]
    simp only [IProg.bind]
    rw [arun_op e3]
    simp only [IProg.bind_assoc]
    rw [run_ok_bind e4, ef]
    simp only [IProg.bind]
    rw [run_ok_bind e5, run_ok_bind e6]
    rfl

end JPath
end Verif
