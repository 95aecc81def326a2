import Verif.JpvEncoder
import Verif.JsonLayout

/-!
# What the JPV encoder prints, as a function of the value (helper definitions and lemmas)

`JEnc.lay` gives the printer calls for a value; the encoder makes exactly these calls.
-/

set_option linter.unusedSimpArgs false
set_option linter.unusedVariables false

namespace Verif
namespace JEnc

open IProg AState JVal.toks

/-- What is printed for an element of a path. -/
def elemOps (cfg : JEncCfg) (k : Scalar) : List POp :=
  if k.alnum && !cfg.quote then .bytes b%"." :: printScalar cfg.color { k with bytes := (k.bytes.drop 1).dropLast }
  else .bytes b%"[" :: (printScalar cfg.color k ++ [.bytes b%"]"])

/-- What is printed for a path. -/
def pathOps (cfg : JEncCfg) (p : List Scalar) : List POp :=
  .bytes b%"$" :: (p.flatMap (elemOps cfg) ++ [.bytes b%" = "])

/-- What is printed at the end of a collection with `n` members. -/
def restOps (cfg : JEncCfg) (p : List Scalar) (empty elided : Bytes) (n : Nat) (e : Bool) : List POp :=
  if e || n == 0 then
    pathOps cfg p ++ [.bytes (if !e then empty else if n ≠ 0 then b%"..." else elided), .newLine]
  else []

/-- What is printed for a value. -/
def lay (cfg : JEncCfg) (p : List Scalar) : JVal → List POp
  | .scalar s => pathOps cfg p ++ (printScalar cfg.color s ++ [.newLine])
  | .arr l e => items p 0 l ++ restOps cfg p b%"[]" b%"[...]" l.length e
  | .obj l e => members p l ++ restOps cfg p b%"{}" b%"{...}" l.length e
where
  items (p : List Scalar) (n : Nat) : List JVal → List POp
    | [] => []
    | v :: l => lay cfg (p ++ [indexKey n]) v ++ items p (n + 1) l
  members (p : List Scalar) : List (Scalar × JVal) → List POp
    | [] => []
    | (k, v) :: l => lay cfg (p ++ [k]) v ++ members p l

/-- No key marked as alphanumeric is shorter than its quotes. -/
def KeyOk (k : Scalar) : Prop := k.alnum = true → 2 ≤ k.bytes.length

/-- All keys of a value. -/
inductive KeysOk : JVal → Prop
  | scalar {s} : KeysOk (.scalar s)
  | arr {l e} : (∀ v ∈ l, KeysOk v) → KeysOk (.arr l e)
  | obj {l e} : (∀ m ∈ l, KeyOk m.1) → (∀ m ∈ l, KeysOk m.2) → KeysOk (.obj l e)

theorem indexKey_ok (n : Nat) : KeyOk (indexKey n) := by intro h; simp [indexKey] at h

theorem printSuccinct_eq {cfg : JEncCfg} {k : Scalar} (h : KeyOk k) (ha : k.alnum = true) :
    printSuccinct cfg.color k = putAll (printScalar cfg.color { k with bytes := (k.bytes.drop 1).dropLast }) := by
  have := h ha
  simp [printSuccinct, ha, show ¬ k.bytes.length < 2 by omega]

theorem writeElem_run {cfg : JEncCfg} {k : Scalar} (h : KeyOk k) {α : Type} (q : Unit → IProg POp α) (s : AState) :
    ((writeElem cfg k).bind q).run AState.mach s =
      (elemOps cfg k ++ ((q ()).run AState.mach s).1, ((q ()).run AState.mach s).2) := by
  unfold writeElem elemOps
  by_cases hk : (k.alnum && !cfg.quote) = true
  · simp only [hk, if_true, IProg.bind_assoc]
    rw [run_put_bind, printSuccinct_eq h (by simp at hk; exact hk.1), run_putAll_bind]
    simp
  · rw [if_neg hk, if_neg hk]
    simp only [IProg.bind_assoc]
    rw [run_put_bind, run_putAll_bind, run_put_bind]
    simp

theorem writeElems_run {cfg : JEncCfg} {α : Type} (q : Unit → IProg POp α) (s : AState) : ∀ (p : List Scalar),
    (∀ k ∈ p, KeyOk k) → ((writeElems cfg p).bind q).run AState.mach s =
      (p.flatMap (elemOps cfg) ++ ((q ()).run AState.mach s).1, ((q ()).run AState.mach s).2) := by
  intro p
  induction p with
  | nil => intro _; simp [writeElems, IProg.bind]
  | cons k p ih =>
    intro h
    simp only [writeElems, IProg.bind_assoc]
    rw [writeElem_run (h k (by simp)), ih fun k' hk => h k' (by simp [hk])]
    simp

theorem writePath_run {cfg : JEncCfg} {α : Type} (q : Unit → IProg POp α) (s : AState) {p : List Scalar}
    (h : ∀ k ∈ p, KeyOk k) : ((writePath cfg p).bind q).run AState.mach s =
      (pathOps cfg p ++ ((q ()).run AState.mach s).1, ((q ()).run AState.mach s).2) := by
  simp only [writePath, IProg.bind_assoc]
  rw [run_put_bind, writeElems_run _ _ _ h, run_put_bind]
  simp [pathOps]

/-- The values written below a path. -/
abbrev WVal (cfg : JEncCfg) (wv : List Scalar → Val → IProg POp Unit) (v : JVal) : Prop :=
  ∀ p, (∀ k ∈ p, KeyOk k) → Visits (wv p) v (lay cfg p v) ()

theorem writeRest_run {cfg : JEncCfg} {p : List Scalar} (h : ∀ k ∈ p, KeyOk k) {empty elided : Bytes} {i n : Nat} {e : Bool}
    {s : AState} (h1 : i < s.n) (h2 : (s.coll i).elided = e) :
    (writeRest cfg p empty elided i n).run AState.mach s = (restOps cfg p empty elided n e, .ok (s, ())) := by
  unfold writeRest restOps
  rw [arun_op (elided_ok h1 h2)]
  by_cases hc : (e || n == 0) = true
  · simp only [hc, if_true]
    rw [writePath_run _ _ h, run_put_bind, run_put]
  · simp only [hc, if_false, Bool.false_eq_true, run_ret]

theorem foldOut_items (cfg : JEncCfg) (p : List Scalar) : ∀ (l : List JVal) (n : Nat),
    foldOut (fun n _ v => lay cfg (p ++ [indexKey n]) v) (fun n _ _ => n + 1) n (l.map fun v => ((none : Option Scalar), v)) =
      (lay.items cfg p n l, n + l.length) := by
  intro l
  induction l with
  | nil => intro n; simp [foldOut, lay.items]
  | cons v l ih => intro n; simp [foldOut, lay.items, ih, Nat.add_assoc, Nat.add_comm 1]

/-- What is printed for a member, given its key. -/
def memOps (cfg : JEncCfg) (p : List Scalar) (k : Option Scalar) (v : JVal) : List POp :=
  match k with
  | none => []
  | some k => lay cfg (p ++ [k]) v

theorem foldOut_members (cfg : JEncCfg) (p : List Scalar) : ∀ (l : List (Scalar × JVal)) (n : Nat),
    foldOut (fun n k v => memOps cfg p k v) (fun n _ _ => n + 1) n (l.map fun m => (some m.1, m.2)) =
      (lay.members cfg p l, n + l.length) := by
  intro l
  induction l with
  | nil => intro n; simp [foldOut, lay.members]
  | cons v l ih => intro n; obtain ⟨k, v⟩ := v; simp only [List.map_cons, foldOut, lay.members, ih]; simp [memOps, Nat.add_assoc, Nat.add_comm 1]

theorem keyOk_snoc {p : List Scalar} {k : Scalar} (h : ∀ k ∈ p, KeyOk k) (hk : KeyOk k) : ∀ k' ∈ p ++ [k], KeyOk k' := by
  intro k' hk'
  rcases List.mem_append.1 hk' with h1 | h1
  · exact h _ h1
  · simp at h1; exact h1 ▸ hk

theorem writeArray_visits {cfg : JEncCfg} {wv f} {items e} (hf : items.length < f)
    (hwv : ∀ v ∈ items, WVal cfg wv v) {p : List Scalar} (hp : ∀ k ∈ p, KeyOk k) :
    ∀ s i, Links s → Fresh s (.coll .arr i) (.arr items e) →
      ∃ s', (writeArray cfg wv p f i).run AState.mach s = (lay cfg p (.arr items e), .ok (s', ())) ∧ Links s' ∧
        Keep s.n (some i) s s' := by
  intro s i hl hfr
  obtain ⟨_, hb⟩ := hfr.before rfl
  obtain ⟨s', e1, e2, e3, e4, e5, e6, e7⟩ := forEach_run
    (body := fun (index : Nat) _ x => (wv (p ++ [indexKey index]) x).bind fun _ => .ret (index + 1))
    (fun n _ v => lay cfg (p ++ [indexKey n]) v) (fun n _ _ => n + 1) (by simp) _ f s 0
    (by simpa [JVal.members] using hf) hl hb (by
      intro m hm n
      have : m.2 ∈ items := by
        simp only [JVal.members, List.mem_map] at hm
        obtain ⟨v, hv, rfl⟩ := hm
        exact hv
      intro s x hl hf
      obtain ⟨s', g1, g2, g3⟩ := hwv _ this (p ++ [indexKey n]) (keyOk_snoc hp (indexKey_ok n)) s x hl hf
      refine ⟨s', ?_, g2, g3⟩
      rw [run_ok_bind g1]
      simp)
  refine ⟨s', ?_, e2, e3⟩
  simp only [writeArray]
  rw [run_ok_bind e1, writeRest_run hp e4 e5]
  simp only [JVal.members]
  rw [foldOut_items]
  simp [lay, JVal.elision]

theorem writeObject_visits {cfg : JEncCfg} {wv f} {ms : List (Scalar × JVal)} {e} (hf : ms.length < f)
    (hk : ∀ m ∈ ms, KeyOk m.1) (hwv : ∀ m ∈ ms, WVal cfg wv m.2) {p : List Scalar} (hp : ∀ k ∈ p, KeyOk k) :
    ∀ s i, Links s → Fresh s (.coll .obj i) (.obj ms e) →
      ∃ s', (writeObject cfg wv p f i).run AState.mach s = (lay cfg p (.obj ms e), .ok (s', ())) ∧ Links s' ∧
        Keep s.n (some i) s s' := by
  intro s i hl hfr
  obtain ⟨_, hb⟩ := hfr.before rfl
  obtain ⟨s', e1, e2, e3, e4, e5, e6, e7⟩ := forEach_run
    (body := writeMember wv p)
    (fun n k v => memOps cfg p k v) (fun n _ _ => n + 1) (by simp) _ f s 0
    (by simpa [JVal.members] using hf) hl hb (by
      intro m hm n
      obtain ⟨k, v, hv, rfl⟩ := Enc.mem_members hm
      intro s x hl hf
      obtain ⟨s', g1, g2, g3⟩ := hwv _ hv (p ++ [k]) (keyOk_snoc hp (hk _ hv)) s x hl hf
      refine ⟨s', ?_, g2, g3⟩
      simp only [writeMember]
      rw [run_ok_bind g1]
      simp [memOps])
  refine ⟨s', ?_, e2, e3⟩
  unfold writeObject
  rw [run_ok_bind e1, writeRest_run hp e4 e5]
  simp only [JVal.members]
  rw [foldOut_members]
  simp [lay, JVal.elision]

theorem writeValue_visits (cfg : JEncCfg) : ∀ (f : Nat) (v : JVal), v.toks.length ≤ f → KeysOk v →
    WVal cfg (writeValue cfg f) v := by
  intro f
  induction f with
  | zero => intro v hv; have := toks_pos v; omega
  | succ f ih =>
    intro v hv hk p hp s x hl hf
    cases v with
    | scalar sc =>
      have hx : x = .scalar sc := hf
      subst hx
      refine ⟨s, ?_, hl, Keep.refl _ _ _⟩
      simp only [writeValue, writeScalar]
      rw [writePath_run _ _ hp, run_putAll_bind, run_put]
      simp [lay]
    | arr items e =>
      obtain ⟨i, t, rfl, h⟩ := id hf
      have hb := itemToks_bound items
      simp only [JVal.toks, List.length_append, List.length_cons] at hv
      cases hk with
      | arr hk =>
        exact writeArray_visits (by simp at hv; omega) (fun v hm => ih v (by have := hb.2 v hm; simp at hv; omega) (hk v hm))
          hp s i hl hf
    | obj items e =>
      obtain ⟨i, t, rfl, h⟩ := id hf
      have hb := memberToks_bound items
      simp only [JVal.toks, List.length_append, List.length_cons] at hv
      cases hk with
      | obj hk1 hk2 =>
        exact writeObject_visits (by simp at hv; omega) hk1
          (fun v hm => ih v.2 (by have := hb.2 v hm; simp at hv; omega) (hk2 v hm)) hp s i hl hf

/-- What is printed for a stream. -/
def layAll (cfg : JEncCfg) (vs : List JVal) : List POp := vs.flatMap fun v => lay cfg [] v ++ [.reset]

/-- The encoder's calls to its printer, as a function of the values in the stream. -/
theorem consume_run (cfg : JEncCfg) (vs : List JVal) (hk : ∀ v ∈ vs, KeysOk v) (f : Nat) (hf : (streamToks vs).length < f) :
    ∃ h', (consume cfg f).run Heap.mach (Heap.init (streamToks vs)) = (layAll cfg vs, .ok (h', ())) := by
  have hb := streamToks_bound vs
  obtain ⟨s', e1, e2, e3⟩ := forEach_top (body := fun (_ : Unit) _ x => (writeValue cfg f [] x).bind fun _ => put .reset)
    (fun _ _ v => lay cfg [] v ++ [.reset]) (fun _ _ _ => ()) (vs.map (none, ·)) f (AState.init vs) ()
    (by simp; omega) (links_init vs) (before_init vs) rfl (by
      intro m hm b s x hl hfr
      simp only [List.mem_map] at hm
      obtain ⟨v, hv, rfl⟩ := hm
      obtain ⟨s', g1, g2, g3⟩ := writeValue_visits cfg f v (by have := hb.2 v hv; omega) (hk v hv) [] (by simp) s x hl hfr
      refine ⟨s', ?_, g2, g3⟩
      rw [run_ok_bind g1]
      simp [run_put])
  have := top_run (p := consume cfg f) e1
  rw [foldOut_const (fun _ v => lay cfg [] v ++ [POp.reset])] at this
  simpa [layAll, List.flatMap_map] using this

end JEnc
end Verif
