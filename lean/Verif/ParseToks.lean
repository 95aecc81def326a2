import Verif.Token

/-!
# Recognising well-formed streams

A stack machine that turns a token sequence into the values it denotes; helper for the
specification of iterators.
-/

namespace Verif

open JVal.toks

/-- A collection under construction (items and members in reverse order). -/
inductive PFrame
  | arr (items : List JVal) (elided : Bool)
  | obj (members : List (Scalar × JVal)) (key : Option Scalar) (elided : Bool)

/-- State of the machine: open collections, and the finished top-level values in reverse order. -/
structure PState where
  stack : List PFrame
  top : List JVal

/-- Add a finished value. -/
def PState.add (s : PState) (v : JVal) : Option PState :=
  match s.stack with
  | [] => some { s with top := v :: s.top }
  | .arr items false :: st => some { s with stack := .arr (v :: items) false :: st }
  | .obj ms (some k) false :: st => some { s with stack := .obj ((k, v) :: ms) none false :: st }
  | _ => none

/-- Read a token. -/
def PState.step (s : PState) (t : Token) : Option PState :=
  match t with
  | .startArr => some { s with stack := .arr [] false :: s.stack }
  | .startObj => some { s with stack := .obj [] none false :: s.stack }
  | .endArr =>
    match s.stack with
    | .arr items e :: st => { s with stack := st }.add (.arr items.reverse e)
    | _ => none
  | .endObj =>
    match s.stack with
    | .obj ms none e :: st => { s with stack := st }.add (.obj ms.reverse e)
    | _ => none
  | .elision =>
    match s.stack with
    | .arr items false :: st => some { s with stack := .arr items true :: st }
    | .obj ms none false :: st => some { s with stack := .obj ms none true :: st }
    | _ => none
  | .scalar k =>
    match s.stack with
    | .obj ms none false :: st => some { s with stack := .obj ms (some k) false :: st }
    | _ => s.add (.scalar k)

/-- Read a list of tokens. -/
def PState.run (s : PState) : List Token → Option PState
  | [] => some s
  | t :: ts => (s.step t).bind fun s => s.run ts

/-- The values of a token sequence, if it is well formed. -/
def parseToks (ts : List Token) : Option (List JVal) :=
  match PState.run ⟨[], []⟩ ts with
  | some ⟨[], top⟩ => some top.reverse
  | _ => none

namespace PState

theorem run_append (s : PState) (l m : List Token) : s.run (l ++ m) = (s.run l).bind fun s => s.run m := by
  induction l generalizing s with
  | nil => simp [run]
  | cons t l ih =>
    simp only [List.cons_append, run]
    cases s.step t <;> simp [ih]

/-- A state that can take a value. -/
def Ready (s : PState) : Prop :=
  match s.stack with
  | [] => True
  | .arr _ e :: _ => e = false
  | .obj _ k e :: _ => k.isSome ∧ e = false

theorem run_toks (v : JVal) : ∀ s : PState, s.Ready → s.run v.toks = s.add v := by
  induction v using JVal.induct with
  | scalar k =>
    intro s hs
    obtain ⟨stack, top⟩ := s
    match stack with
    | [] => simp [run, step, add]
    | .arr items e :: st => simp [Ready] at hs; subst hs; simp [run, step, add]
    | .obj ms k e :: st =>
      simp [Ready] at hs
      obtain ⟨h1, rfl⟩ := hs
      obtain ⟨k, rfl⟩ := Option.isSome_iff_exists.1 h1
      simp [run, step, add]
  | arr items e ih =>
    intro s hs
    have hit : ∀ (l : List JVal) (acc : List JVal), (∀ v ∈ l, v ∈ items) →
        PState.run ⟨.arr acc false :: s.stack, s.top⟩ (itemToks l) =
          some ⟨.arr (l.reverse ++ acc) false :: s.stack, s.top⟩ := by
      intro l
      induction l with
      | nil => intro acc _; simp [run]
      | cons v l ihl =>
        intro acc hl
        rw [itemToks_cons, run_append, ih v (hl v (by simp)) _ (by simp [Ready])]
        simp only [add, Option.bind_some]
        rw [ihl _ (fun w hw => hl w (by simp [hw]))]
        simp
    simp only [toks_arr, run, step, Option.bind_some]
    rw [run_append, run_append, hit items [] (fun _ h => h)]
    cases e <;> simp [elisionToks, run, step] <;> cases PState.add _ _ <;> rfl
  | obj ms e ih =>
    intro s hs
    have hit : ∀ (l acc : List (Scalar × JVal)), (∀ m ∈ l, m ∈ ms) →
        PState.run ⟨.obj acc none false :: s.stack, s.top⟩ (memberToks l) =
          some ⟨.obj (l.reverse ++ acc) none false :: s.stack, s.top⟩ := by
      intro l
      induction l with
      | nil => intro acc _; simp [run]
      | cons m l ihl =>
        obtain ⟨k, v⟩ := m
        intro acc hl
        rw [memberToks_cons, run]
        simp only [step, Option.bind_some]
        rw [run_append, ih (k, v) (hl (k, v) (by simp)) _ (by simp [Ready])]
        simp only [add, Option.bind_some]
        rw [ihl _ (fun w hw => hl w (by simp [hw]))]
        simp
    simp only [toks_obj, run, step, Option.bind_some]
    rw [run_append, run_append, hit ms [] (fun _ h => h)]
    cases e <;> simp [elisionToks, run, step] <;> cases PState.add _ _ <;> rfl

/-- The tokens read so far. -/
def toksOf : List PFrame → List Token
  | [] => []
  | .arr items e :: st => toksOf st ++ (.startArr :: (itemToks items.reverse ++ elisionToks e))
  | .obj ms k e :: st => toksOf st ++
      (.startObj :: (memberToks ms.reverse ++ elisionToks e ++ (match k with | some k => [.scalar k] | none => [])))

/-- The tokens read so far. -/
def read (s : PState) : List Token := streamToks s.top.reverse ++ toksOf s.stack

/-- No key is pending behind an elision. -/
def Ok (s : PState) : Prop := ∀ ms k e, PFrame.obj ms (some k) e ∈ s.stack → e = false

theorem add_read {s s' : PState} {v : JVal} (h : s.add v = some s') (hok : s.Ok) :
    s'.read = s.read ++ v.toks ∧ s'.Ok := by
  obtain ⟨stack, top⟩ := s
  simp only [add] at h
  split at h
  · simp at h; subst h
    exact ⟨by simp [read, streamToks_append, toksOf], hok⟩
  · simp at h; subst h
    refine ⟨by simp [read, toksOf, itemToks_append, elisionToks], ?_⟩
    intro ms k e hm
    simp only [List.mem_cons] at hm
    rcases hm with hm | hm
    · cases hm
    · exact hok ms k e (by simp [hm])
  · simp at h; subst h
    refine ⟨by simp [read, toksOf, memberToks_append, elisionToks], ?_⟩
    intro ms k e hm
    simp only [List.mem_cons] at hm
    rcases hm with hm | hm
    · cases hm
    · exact hok ms k e (by simp [hm])
  · simp at h

theorem step_read {s s' : PState} {t : Token} (h : s.step t = some s') (hok : s.Ok) :
    s'.read = s.read ++ [t] ∧ s'.Ok := by
  obtain ⟨stack, top⟩ := s
  have hok' : ∀ f st, stack = f :: st → PState.Ok ⟨st, top⟩ := by
    intro f st e ms k el hm
    subst e
    exact hok ms k el (by simp; right; exact hm)
  cases t with
  | startArr =>
    simp only [step, Option.some.injEq] at h; subst h
    refine ⟨by simp [read, toksOf, elisionToks], ?_⟩
    intro ms k e hm
    simp only [List.mem_cons, reduceCtorEq, false_or] at hm
    exact hok ms k e hm
  | startObj =>
    simp only [step, Option.some.injEq] at h; subst h
    refine ⟨by simp [read, toksOf, elisionToks], ?_⟩
    intro ms k e hm
    simp only [List.mem_cons, PFrame.obj.injEq, reduceCtorEq, false_and, and_false, false_or] at hm
    exact hok ms k e hm
  | endArr =>
    simp only [step] at h
    split at h
    · obtain ⟨h1, h2⟩ := add_read h (hok' _ _ rfl)
      refine ⟨?_, h2⟩
      rw [h1]; simp [read, toksOf]
    · cases h
  | endObj =>
    simp only [step] at h
    split at h
    · obtain ⟨h1, h2⟩ := add_read h (hok' _ _ rfl)
      refine ⟨?_, h2⟩
      rw [h1]; simp [read, toksOf]
    · cases h
  | elision =>
    simp only [step] at h
    split at h
    · simp only [Option.some.injEq] at h; subst h
      refine ⟨by simp [read, toksOf, elisionToks], ?_⟩
      intro ms k e hm
      simp only [List.mem_cons, reduceCtorEq, false_or] at hm
      exact hok ms k e (by simp [hm])
    · simp only [Option.some.injEq] at h; subst h
      refine ⟨by simp [read, toksOf, elisionToks], ?_⟩
      intro ms' k e hm
      simp only [List.mem_cons, PFrame.obj.injEq, reduceCtorEq, false_and, and_false, false_or] at hm
      exact hok ms' k e (by simp [hm])
    · cases h
  | scalar k =>
    simp only [step] at h
    split at h
    · simp only [Option.some.injEq] at h; subst h
      refine ⟨by simp [read, toksOf, elisionToks], ?_⟩
      intro ms' k e hm
      simp only [List.mem_cons, PFrame.obj.injEq] at hm
      rcases hm with hm | hm
      · exact hm.2.2
      · exact hok ms' k e (by simp [hm])
    · obtain ⟨h1, h2⟩ := add_read h hok
      exact ⟨by simpa using h1, h2⟩

theorem run_read {s s' : PState} {ts : List Token} (h : s.run ts = some s') (hok : s.Ok) :
    s'.read = s.read ++ ts := by
  induction ts generalizing s with
  | nil => simp [run] at h; subst h; simp
  | cons t ts ih =>
    simp only [run] at h
    cases hs : s.step t with
    | none => rw [hs] at h; cases h
    | some s1 =>
      rw [hs] at h
      obtain ⟨h1, h2⟩ := step_read hs hok
      rw [ih h h2, h1]; simp

end PState

/-- Only well-formed sequences have values, and these are the right ones. -/
theorem parseToks_sound {ts : List Token} {vs : List JVal} (h : parseToks ts = some vs) :
    ts = streamToks vs := by
  simp only [parseToks] at h
  split at h
  · rename_i top hr
    simp at h
    have := PState.run_read hr (by simp [PState.Ok])
    simp [PState.read, PState.toksOf, h] at this
    exact this.symm
  · cases h

theorem parseToks_streamToks (vs : List JVal) : parseToks (streamToks vs) = some vs := by
  have : ∀ top, PState.run ⟨[], top⟩ (streamToks vs) = some ⟨[], vs.reverse ++ top⟩ := by
    induction vs with
    | nil => simp [PState.run]
    | cons v vs ih =>
      intro top
      rw [streamToks_cons, PState.run_append, PState.run_toks v _ (by simp [PState.Ready])]
      simp [PState.add, ih]
  simp [parseToks, this]

/-- A token sequence denotes at most one list of values. -/
theorem streamToks_inj {vs ws : List JVal} (h : streamToks vs = streamToks ws) : vs = ws := by
  have := parseToks_streamToks vs
  rw [h, parseToks_streamToks] at this
  exact (Option.some.inj this).symm

/-- Well-formedness can be decided by the machine. -/
theorem wellFormed_iff (ts : List Token) : WellFormed ts ↔ (parseToks ts).isSome := by
  constructor
  · rintro ⟨vs, rfl⟩; simp [parseToks_streamToks]
  · intro h
    obtain ⟨vs, h⟩ := Option.isSome_iff_exists.1 h
    exact ⟨vs, parseToks_sound h⟩

end Verif
