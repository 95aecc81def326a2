import Verif.JpvRun
import Verif.ParseToks
import Verif.JpvGrammar
import Verif.Props.C04

/-!
# The stream sent by the JPV decoder (helper lemmas for C18)
-/

set_option linter.unusedVariables false
set_option linter.unusedSimpArgs false

namespace Verif
namespace JpvWell
open Jpv JpvPure

/-- Whether the keys of a path are strings, from the last to the first. -/
def shape (p : List Scalar) : List Bool := p.reverse.map fun k => decide (k.type = .str)

/-- A frame in which a value is expected. -/
def Pending : PFrame → Bool → Prop
  | .arr _ e, b => b = false ∧ e = false
  | .obj _ k e, b => b = true ∧ k.isSome = true ∧ e = false

/-- A frame behind a value. -/
def Between : PFrame → Bool → Prop
  | .arr _ e, b => b = false ∧ e = false
  | .obj _ k e, b => b = true ∧ k = none ∧ e = false

/-- A value is expected at the path. -/
def Low : List PFrame → List Bool → Prop
  | [], [] => True
  | f :: st, b :: bs => Pending f b ∧ Low st bs
  | _, _ => False

/-- A value has been read at the path. -/
def Whole : List PFrame → List Bool → Prop
  | [], [] => True
  | f :: st, b :: bs => Between f b ∧ Low st bs
  | _, _ => False

def KeyOk (k : Scalar) : Prop := k.type = .str ∧ k.key = true

/-- Everything read so far is proper. -/
def GoodF : PFrame → Prop
  | .arr items _ => ∀ v ∈ items, v.Proper
  | .obj ms k _ => (∀ m ∈ ms, KeyOk m.1 ∧ m.2.Proper) ∧ ∀ k', k = some k' → KeyOk k'

def Good (s : PState) : Prop := (∀ f ∈ s.stack, GoodF f) ∧ ∀ v ∈ s.top, v.Proper

theorem Whole.nil_iff {st : List PFrame} : Whole st [] ↔ st = [] := by
  cases st <;> simp [Whole]

theorem Low.nil_iff {st : List PFrame} : Low st [] ↔ st = [] := by
  cases st <;> simp [Low]

theorem Low.ready {s : PState} {bs : List Bool} (h : Low s.stack bs) : s.Ready := by
  obtain ⟨st, top⟩ := s
  match st, bs, h with
  | [], [], _ => trivial
  | .arr _ _ :: _, b :: bs, h => exact h.1.2
  | .obj _ _ _ :: _, b :: bs, h => exact h.1.2

theorem add_whole {s : PState} {bs : List Bool} {v : JVal} (h : Low s.stack bs) (hg : Good s) (hv : v.Proper) :
    ∃ s', s.add v = some s' ∧ Whole s'.stack bs ∧ Good s' := by
  obtain ⟨st, top⟩ := s
  obtain ⟨hg1, hg2⟩ := hg
  match st, bs, h with
  | [], [], _ =>
    refine ⟨⟨[], v :: top⟩, rfl, trivial, hg1, ?_⟩
    intro u hu
    exact (List.mem_cons.1 hu).elim (fun e => e ▸ hv) (hg2 u)
  | .arr items e :: st, b :: bs, ⟨⟨h1, h2⟩, h3⟩ =>
    subst h2
    refine ⟨⟨.arr (v :: items) false :: st, top⟩, rfl, ⟨⟨h1, rfl⟩, h3⟩, ?_, hg2⟩
    intro f hf
    rcases List.mem_cons.1 hf with rfl | hf
    · intro u hu
      exact (List.mem_cons.1 hu).elim (fun e => e ▸ hv) (hg1 (.arr items false) List.mem_cons_self u)
    · exact hg1 f (List.mem_cons_of_mem _ hf)
  | .obj ms k e :: st, b :: bs, ⟨⟨h1, h2, h2'⟩, h3⟩ =>
    subst h2'
    obtain ⟨k, rfl⟩ := Option.isSome_iff_exists.1 h2
    refine ⟨⟨.obj ((k, v) :: ms) none false :: st, top⟩, rfl, ⟨⟨h1, rfl, rfl⟩, h3⟩, ?_, hg2⟩
    have hk := hg1 (.obj ms (some k) false) List.mem_cons_self
    intro f hf
    rcases List.mem_cons.1 hf with rfl | hf
    · refine ⟨?_, by simp⟩
      intro m hm
      exact (List.mem_cons.1 hm).elim (fun e => e ▸ ⟨hk.2 k rfl, hv⟩) (hk.1 m)
    · exact hg1 f (List.mem_cons_of_mem _ hf)

theorem value_whole {s : PState} {bs : List Bool} {v : JVal} (h : Low s.stack bs) (hg : Good s) (hv : v.Proper) :
    ∃ s', s.run v.toks = some s' ∧ Whole s'.stack bs ∧ Good s' := by
  rw [PState.run_toks v s h.ready]
  exact add_whole h hg hv

/-- Closing a collection. -/
theorem close_whole {s : PState} {k : Scalar} {bs : List Bool} (h : Whole s.stack (decide (k.type = .str) :: bs))
    (hg : Good s) : ∃ s', s.step (closer k) = some s' ∧ Whole s'.stack bs ∧ Good s' := by
  obtain ⟨st, top⟩ := s
  match st, h with
  | .arr items e :: st, ⟨⟨h1, h2⟩, h3⟩ =>
    subst h2
    simp at h1
    have hp : (JVal.arr items.reverse false).Proper :=
      .arr fun v hv => hg.1 (.arr items false) List.mem_cons_self v (List.mem_reverse.1 hv)
    have hg' : Good ⟨st, top⟩ := ⟨fun f hf => hg.1 f (List.mem_cons_of_mem _ hf), hg.2⟩
    obtain ⟨s', e1, e2, e3⟩ := add_whole (s := ⟨st, top⟩) h3 hg' hp
    exact ⟨s', by simpa [closer, h1, PState.step] using e1, e2, e3⟩
  | .obj ms k' e :: st, ⟨⟨h1, h2, h2'⟩, h3⟩ =>
    subst h2 h2'
    simp at h1
    have hk := hg.1 (.obj ms none false) List.mem_cons_self
    have hp : (JVal.obj ms.reverse false).Proper :=
      .obj (fun m hm => (hk.1 m (List.mem_reverse.1 hm)).1) fun m hm => (hk.1 m (List.mem_reverse.1 hm)).2
    have hg' : Good ⟨st, top⟩ := ⟨fun f hf => hg.1 f (List.mem_cons_of_mem _ hf), hg.2⟩
    obtain ⟨s', e1, e2, e3⟩ := add_whole (s := ⟨st, top⟩) h3 hg' hp
    exact ⟨s', by simpa [closer, h1, PState.step] using e1, e2, e3⟩

/-- Closing several. -/
theorem closers_whole (l : List Scalar) : ∀ {s : PState} {bs : List Bool},
    Whole s.stack (l.map (fun k => decide (k.type = .str)) ++ bs) → Good s →
    ∃ s', s.run (l.map closer) = some s' ∧ Whole s'.stack bs ∧ Good s' := by
  induction l with
  | nil => intro s bs h hg; exact ⟨s, rfl, h, hg⟩
  | cons k l ih =>
    intro s bs h hg
    obtain ⟨s1, e1, e2, e3⟩ := close_whole (by simpa using h) hg
    obtain ⟨s2, f1, f2, f3⟩ := ih e2 e3
    exact ⟨s2, by simp [PState.run, e1, f1], f2, f3⟩

theorem unwind_whole {s : PState} (p : List Scalar) {bs : List Bool} (h : Whole s.stack (shape p ++ bs)) (hg : Good s) :
    ∃ s', s.run (unwind p false) = some s' ∧ Whole s'.stack bs ∧ Good s' := by
  have := closers_whole p.reverse h hg
  simpa [unwind, List.map_reverse] using this

theorem shape_cons (k : Scalar) (p : List Scalar) : shape (k :: p) = shape p ++ [decide (k.type = .str)] := by
  simp [shape]

theorem shape_append (p q : List Scalar) : shape (p ++ q) = shape q ++ shape p := by
  simp [shape]

/-- Opening collections. -/
theorem follow_low (p : List Scalar) : ∀ {s : PState} {bs : List Bool}, Low s.stack bs → Good s →
    (∀ k ∈ p, k.key = true) → ∃ s', s.run (follow p false) = some s' ∧ Low s'.stack (shape p ++ bs) ∧ Good s' := by
  induction p with
  | nil => intro s bs h hg _; exact ⟨s, rfl, h, hg⟩
  | cons k p ih =>
    intro s bs h hg hk
    by_cases ht : k.type = .str
    · have hg' : Good ⟨.obj [] (some k) false :: s.stack, s.top⟩ := by
        refine ⟨?_, hg.2⟩
        intro f hf
        rcases List.mem_cons.1 hf with rfl | hf
        · refine ⟨by simp, ?_⟩
          intro k' hk'; cases hk'; exact ⟨ht, hk k List.mem_cons_self⟩
        · exact hg.1 f hf
      obtain ⟨s', e1, e2, e3⟩ := ih (s := ⟨.obj [] (some k) false :: s.stack, s.top⟩)
        (bs := decide (k.type = .str) :: bs) ⟨⟨by simp [ht], rfl, rfl⟩, h⟩ hg'
        (fun x hx => hk x (List.mem_cons_of_mem _ hx))
      refine ⟨s', ?_, by simpa [shape_cons] using e2, e3⟩
      simp [follow, ht, PState.run, PState.step, e1]
    · have hg' : Good ⟨.arr [] false :: s.stack, s.top⟩ := by
        refine ⟨?_, hg.2⟩
        intro f hf
        rcases List.mem_cons.1 hf with rfl | hf
        · intro v hv; simp at hv
        · exact hg.1 f hf
      obtain ⟨s', e1, e2, e3⟩ := ih (s := ⟨.arr [] false :: s.stack, s.top⟩)
        (bs := decide (k.type = .str) :: bs) ⟨⟨by simp [ht], rfl⟩, h⟩ hg'
        (fun x hx => hk x (List.mem_cons_of_mem _ hx))
      refine ⟨s', ?_, by simpa [shape_cons] using e2, e3⟩
      simp [follow, ht, PState.run, PState.step, e1]

/-- Going on inside a collection. -/
theorem follow_in {s : PState} {bs : List Bool} (n : Scalar) (ns : List Scalar)
    (h : Whole s.stack (decide (n.type = .str) :: bs)) (hg : Good s) (hk : ∀ k ∈ n :: ns, k.key = true) :
    ∃ s', s.run (follow (n :: ns) true) = some s' ∧ Low s'.stack (shape (n :: ns) ++ bs) ∧ Good s' := by
  obtain ⟨st, top⟩ := s
  match st, h with
  | .arr items e :: st, ⟨⟨h1, h2⟩, h3⟩ =>
    simp at h1
    obtain ⟨s', e1, e2, e3⟩ := follow_low ns (s := ⟨.arr items e :: st, top⟩) (bs := decide (n.type = .str) :: bs)
      ⟨⟨by simpa using h1, h2⟩, h3⟩ hg (fun x hx => hk x (List.mem_cons_of_mem _ hx))
    exact ⟨s', by simpa [follow, h1] using e1, by simpa [shape_cons] using e2, e3⟩
  | .obj ms k' e :: st, ⟨⟨h1, h2, h2'⟩, h3⟩ =>
    subst h2 h2'
    simp at h1
    have hk0 := hg.1 (.obj ms none false) List.mem_cons_self
    have hg' : Good ⟨.obj ms (some n) false :: st, top⟩ := by
      refine ⟨?_, hg.2⟩
      intro f hf
      rcases List.mem_cons.1 hf with rfl | hf
      · refine ⟨hk0.1, ?_⟩
        intro k' hk'; cases hk'; exact ⟨h1, hk n List.mem_cons_self⟩
      · exact hg.1 f (List.mem_cons_of_mem _ hf)
    obtain ⟨s', e1, e2, e3⟩ := follow_low ns (s := ⟨.obj ms (some n) false :: st, top⟩)
      (bs := decide (n.type = .str) :: bs)
      ⟨⟨by simpa using h1, rfl, rfl⟩, h3⟩ hg' (fun x hx => hk x (List.mem_cons_of_mem _ hx))
    refine ⟨s', ?_, by simpa [shape_cons] using e2, e3⟩
    simp [follow, h1, PState.run, PState.step, e1]

theorem scalarEqual_type {a b : Scalar} (h : scalarEqual a b = some true) : a.type = b.type := by
  unfold scalarEqual at h
  split at h
  · simp at h
  · rename_i h'; simpa using h'

theorem diff_ok : ∀ {last new : List Scalar} {d : List Scalar × List Scalar}, diff last new = .ok d →
    ∃ a a' k ks n ns, last = a ++ k :: ks ∧ new = a' ++ n :: ns ∧ shape a = shape a' ∧ k.type = n.type ∧
      d = (k :: ks, n :: ns) := by
  intro last
  induction last with
  | nil => intro new d h; simp [diff] at h
  | cons k ks ih =>
    intro new d h
    cases new with
    | nil => simp [diff] at h
    | cons n ns =>
      rw [diff] at h
      split at h
      · simp at h
      · rename_i he
        obtain ⟨a, a', k1, ks1, n1, ns1, h1, h2, h3, h4, h5⟩ := ih h
        refine ⟨k :: a, n :: a', k1, ks1, n1, ns1, by simp [h1], by simp [h2], ?_, h4, h5⟩
        rw [shape_cons, shape_cons, h3, scalarEqual_type he]
      · split at h
        · simp at h
        · rename_i ht
          simp only [Except.ok.injEq] at h
          exact ⟨[], [], k, ks, n, ns, rfl, rfl, rfl, by simpa using ht, h.symm⟩

/-- A change of path. -/
theorem upd_low {s : PState} {last new : List Scalar} {ts : List Token} (h : Whole s.stack (shape last)) (hg : Good s)
    (hk : ∀ k ∈ new, k.key = true) (hu : upd last new = .ok ts) :
    ∃ s', s.run ts = some s' ∧ Low s'.stack (shape new) ∧ Good s' := by
  unfold upd at hu
  split at hu
  · rename_i hl
    subst hl
    simp only [Except.ok.injEq] at hu
    subst hu
    have h' : s.stack = [] := Whole.nil_iff.1 (by simpa [shape] using h)
    have := follow_low new (s := s) (bs := []) (Low.nil_iff.2 h') hg hk
    simpa using this
  · cases hd : diff last new with
    | error e => rw [hd] at hu; simp [Except.map] at hu
    | ok d =>
      rw [hd] at hu
      simp only [Except.map, Except.ok.injEq] at hu
      obtain ⟨a, a', k, ks, n, ns, h1, h2, h3, h4, rfl⟩ := diff_ok hd
      subst hu
      rw [h1, shape_append, shape_cons, List.append_assoc] at h
      obtain ⟨s1, e1, e2, e3⟩ := unwind_whole ks h hg
      rw [h4] at e2
      obtain ⟨s2, f1, f2, f3⟩ := follow_in n ns e2 e3 (fun x hx => hk x (by rw [h2]; exact List.mem_append_right _ hx))
      refine ⟨s2, ?_, ?_, f3⟩
      · rw [PState.run_append]
        have : unwind (k :: ks) true = unwind ks false := by simp [unwind]
        rw [this, e1]
        exact f1
      · rw [h2, shape_append, ← h3]; exact f2

/-! The run of the decoder -/

open Rfc8259 JpvSpec JpvGrammar

theorem Head.keys {p : List Scalar} {h : Bytes} (hh : Head p h) : ∀ k ∈ p, PathKey k := by
  obtain ⟨b, w, h1, _, _⟩ := hh
  exact path_key h1

/-- The tokens complete the values. -/
def Closes (s : PState) (ts : List Token) : Prop := ∃ s', s.run ts = some s' ∧ s'.stack = [] ∧ Good s'

/-- What a run of the decoder shows. -/
def Spec (fin : RErr) (D : Bytes) (s : PState) (x : JRes) : Prop :=
  match x with
  | (ts, some (.ok _)) => Closes s ts ∧ Accepted fin D
  | (ts, some (.error (.plain _))) => Closes s ts
  | (ts, some (.error (.perr _))) => Closes s ts ∨ InValue fin D
  | (_, some (.error .panic)) => Panics D
  | (_, none) => False

theorem Closes.pre {s s1 : PState} {ts us : List Token} (h : s.run ts = some s1) (hc : Closes s1 us) : Closes s (ts ++ us) := by
  obtain ⟨s', h1, h2, h3⟩ := hc
  exact ⟨s', by rw [PState.run_append, h]; exact h1, h2, h3⟩

theorem Spec.pre {fin : RErr} {D : Bytes} {s s1 : PState} {ts : List Token} {x : JRes} (h : s.run ts = some s1)
    (hc : Spec fin D s1 x) : Spec fin D s (ts ++ x.1, x.2) := by
  obtain ⟨us, o⟩ := x
  match o, hc with
  | some (.ok _), hc => exact ⟨hc.1.pre h, hc.2⟩
  | some (.error (.plain _)), hc => exact Closes.pre h hc
  | some (.error (.perr _)), .inl hc => exact .inl (hc.pre h)
  | some (.error (.perr _)), .inr hc => exact .inr hc
  | some (.error .panic), hc => exact hc

theorem closes_unwind {s : PState} {last : List Scalar} (h : Whole s.stack (shape last)) (hg : Good s) :
    Closes s (unwind last false) := by
  obtain ⟨s', e1, e2, e3⟩ := unwind_whole (bs := []) last (by simpa using h) hg
  exact ⟨s', e1, Whole.nil_iff.1 e2, e3⟩

theorem produce_spec {fin : RErr} {vfuel : Nat} (n : Nat) : ∀ {last : List Scalar} {ls : List (List Scalar × JVal)} {d r : Bytes}
    {s : PState}, Lines ls d → last = lastPath ls → (∀ k ∈ last, PathKey k) → 2 * r.length + 1 ≤ vfuel → r.length + 1 ≤ n →
    Whole s.stack (shape last) → Good s → Spec fin (d ++ r) s (JpvPure.produce fin vfuel n last r) := by
  induction n with
  | zero => intro last ls d r s _ _ _ _ hn; omega
  | succ n ih =>
    intro last ls d r s hl hlast hk hv hn hw hg
    obtain ⟨w, hws, hr⟩ := ws_split r
    rw [JpvPure.produce]
    cases hwr : Pure.ws r with
    | nil =>
      simp only
      by_cases hf : fin = .eof
      · rw [if_pos hf]
        exact ⟨closes_unwind hw hg, ls, d, w, [], hl, hws, by rw [hr, hwr], .inl ⟨rfl, hf⟩⟩
      · rw [if_neg hf]
        exact .inl (closes_unwind hw hg)
    | cons b r' =>
      simp only
      have hlen : r'.length < r.length := by
        have := congrArg List.length hr
        rw [hwr] at this
        simp only [List.length_append, List.length_cons] at this
        omega
      by_cases hb : b = eofByte
      · rw [if_pos hb]
        exact ⟨closes_unwind hw hg, ls, d, w, b :: r', hl, hws, by rw [hr, hwr], .inr ⟨r', by rw [hb]⟩⟩
      · rw [if_neg hb]
        cases hh : JpvPure.head fin vfuel last (b :: r') with
        | error e =>
          cases e with
          | panic =>
            obtain ⟨p, pb, w', x, rest, e1, e2, e3, e4, e5⟩ := head_panic (by omega) hh hk
            exact ⟨ls, d, w, p, pb, w', x, rest, hl, hws, e1, e2, e3, by rw [← e4, ← hwr, ← hr], by rw [← hlast]; exact e5⟩
          | perr e => exact .inl (closes_unwind hw hg)
          | plain e => exact closes_unwind hw hg
        | ok x =>
          obtain ⟨⟨ts, p⟩, r2⟩ := x
          obtain ⟨hd, e1, e2, e3⟩ := head_sound hh
          simp only at e1 e2 e3
          have hp := Head.keys e1
          obtain ⟨s1, f1, f2, f3⟩ := upd_low hw hg (fun k hkk => (hp k hkk).1) e3
          have hl2 : r2.length ≤ r'.length := by
            have := congrArg List.length e2
            obtain ⟨_, _, _, _, rfl⟩ := e1
            simp only [List.length_append, List.length_cons] at this
            omega
          simp only [JpvPure.line]
          cases hval : Pure.value fin vfuel r2 with
          | mk vs o =>
            cases o with
            | none =>
              have := (Pure.fits fin vfuel).1 r2 (by omega)
              rw [hval] at this
              exact this.elim
            | some o =>
              have hsd := (sound fin vfuel).1 r2
              rw [hval] at hsd
              cases o with
              | error e =>
                refine .inr ⟨ls, d, w, p, hd, r2, hl, hws, e1, by rw [← e2, ← hwr, ← hr], ?_⟩
                intro w' v t rr hw' ht e5 hnum
                have := complete ht (fin := fin) w' rr vfuel hw' hnum (by
                  have := congrArg List.length e5
                  simp only [List.length_append] at this ⊢
                  omega)
                rw [← e5, hval] at this
                simp at this
              | ok r3 =>
                obtain ⟨w3, v, t, g1, g2, g3, g4⟩ := hsd
                subst g3
                obtain ⟨s2, k1, k2, k3⟩ := value_whole f2 f3 (text_proper g2)
                have hl3 : r3.length ≤ r2.length := by
                  have := congrArg List.length g4
                  simp only [List.length_append] at this
                  omega
                have hstep := ih (last := p) (ls := ls ++ [(p, v)]) (d := d ++ (w ++ (hd ++ (w3 ++ t)))) (r := r3) (s := s2)
                  (hl.snoc hws ⟨hd, w3, t, e1, g1, g2, rfl⟩) (lastPath_snoc _ _ _).symm hp (by omega) (by omega) k2 k3
                have heq : d ++ (w ++ (hd ++ (w3 ++ t))) ++ r3 = d ++ r := by
                  rw [hr, hwr, e2, g4]; simp
                rw [heq] at hstep
                have hrun : s.run (ts ++ v.toks) = some s2 := by
                  rw [PState.run_append, f1]; exact k1
                have := Spec.pre hrun hstep
                simpa [JpvPure.body] using this

end JpvWell
end Verif
