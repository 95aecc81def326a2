import Verif.CsvFields

/-!
# Scalars of the CSV decoder

They are made of the fields, one by one.
-/

set_option linter.unusedSimpArgs false
set_option linter.unusedVariables false

namespace Verif.Csv

/-- A name: from a given name, a field, or made up as `field_1` and so on. -/
def NameOf (names : List Bytes) (records : List (List Bytes)) (s : Scalar) : Prop :=
  ∃ f, (f ∈ names ∨ (∃ r ∈ records, f ∈ r) ∨ ∃ n : Nat, f = b%"field_" ++ itoa n) ∧ fieldToScalar f true = some s

/-- A value: made of a field. -/
def ValueOf (records : List (List Bytes)) (s : Scalar) : Prop :=
  ∃ r ∈ records, ∃ f ∈ r, fieldToScalar f false = some s

/-- Scalars sent. -/
def FromFields (names : List Bytes) (records : List (List Bytes)) (ts : List Token) : Prop :=
  ∀ s, .scalar s ∈ ts → NameOf names records s ∨ ValueOf records s

section
variable {names : List Bytes} {records : List (List Bytes)}

theorem header_bytes {f : Bytes} {s : Scalar} (h : fieldToScalar f true = some s) : s.bytes = c%'"' :: (f.flatMap escByte ++ [c%'"']) := by
  obtain ⟨s', e, hs, _⟩ := header_eq f
  cases e.symm.trans h
  exact hs

theorem value_of {f : Bytes} {r : List Bytes} (hr : r ∈ records) (hf : f ∈ r) {s : Scalar} (h : fieldToScalar f false = some s) : ValueOf records s :=
  ⟨r, hr, f, hf, h⟩

/-- `null`, or the beginning of a field (all of it unless it is misread as a number), or a field with quotes. -/
theorem value_bytes {f : Bytes} {s : Scalar} (h : fieldToScalar f false = some s) :
    (f = [] ∧ s.bytes = b%"null") ∨ s.bytes <+: f ∨ s.bytes = c%'"' :: (f.flatMap escByte ++ [c%'"']) := by
  obtain ⟨s', e, hk, _, hs⟩ := data_spec f
  cases e.symm.trans h
  rcases hs with ⟨h1, _, h2⟩ | ⟨_, _, h⟩ | ⟨_, _, _, ⟨_, _, _, h⟩ | ⟨_, _, h, _⟩ | ⟨_, _, _, _, h, _⟩⟩
  · exact .inl ⟨h1, h2⟩
  · exact .inr (.inl (h ▸ List.prefix_refl _))
  · exact .inr (.inl (h ▸ List.prefix_refl _))
  · exact .inr (.inr h)
  · exact .inr (.inl h)

theorem setFieldNames_of : ∀ (fs : List Bytes), (∀ f ∈ fs, f ∈ names ∨ ∃ r ∈ records, f ∈ r) → ∀ (ks : List Scalar), (∀ k ∈ ks, NameOf names records k) →
    ∀ {ks'}, setFieldNames ks fs = some ks' → ∀ k ∈ ks', NameOf names records k
  | [], _, ks, hk, ks', h => by cases h; exact hk
  | f :: fs, hf, ks, hk, ks', h => by
    rw [setFieldNames, Option.bind_eq_some_iff] at h
    obtain ⟨s, hs, h⟩ := h
    refine setFieldNames_of fs (fun g hg => hf g (List.mem_cons_of_mem _ hg)) _ ?_ h
    intro k hk'
    rcases List.mem_append.1 hk' with hk' | hk'
    · exact hk k hk'
    · cases List.mem_singleton.1 hk'
      exact ⟨f, (hf f (List.mem_cons_self ..)).elim .inl fun h => .inr (.inl h), hs⟩

theorem addNames_of : ∀ (n : Nat) (ks : List Scalar), (∀ k ∈ ks, NameOf names records k) → ∀ {ks'}, addNames ks n = some ks' → ∀ k ∈ ks', NameOf names records k
  | 0, ks, hk, ks', h => by cases h; exact hk
  | n + 1, ks, hk, ks', h => by
    rw [addNames, Option.bind_eq_some_iff] at h
    obtain ⟨s, hs, h⟩ := h
    refine addNames_of n _ ?_ h
    intro k hk'
    rcases List.mem_append.1 hk' with hk' | hk'
    · exact hk k hk'
    · cases List.mem_singleton.1 hk'
      exact ⟨_, .inr (.inr ⟨_, rfl⟩), hs⟩

theorem members_of {r : List Bytes} (hr : r ∈ records) : ∀ (fs : List Bytes), (∀ f ∈ fs, f ∈ r) → ∀ (ks : List Scalar) (i : Nat), (∀ k ∈ ks, NameOf names records k) →
    ∀ {x}, members ks i fs = some x → FromFields names records x.1 ∧ ∀ k ∈ x.2, NameOf names records k
  | [], _, ks, _, hk, x, h => by cases h; exact ⟨fun s hs => by (cases hs), hk⟩
  | f :: fs, hf, ks, i, hk, x, h => by
    simp only [members, getFieldName, Option.bind_eq_some_iff, Option.map_eq_some_iff, Prod.exists, Prod.mk.injEq] at h
    obtain ⟨k, ks1, ⟨ks2, h1, k', h2, rfl, rfl⟩, v, hv, ts, ks3, h3, rfl⟩ := h
    have h1 := addNames_of _ _ hk h1
    have h3 := members_of hr fs (fun g hg => hf g (List.mem_cons_of_mem _ hg)) _ _ h1 h3
    refine ⟨fun s hs => ?_, h3.2⟩
    rcases List.mem_cons.1 hs with e | hs
    · cases e; exact .inl (h1 _ (List.mem_of_getElem? h2))
    · rcases List.mem_cons.1 hs with e | hs
      · cases e; exact .inr (value_of hr (hf f (List.mem_cons_self ..)) hv)
      · exact h3.1 s hs

theorem items_of {r : List Bytes} (hr : r ∈ records) : ∀ (fs : List Bytes), (∀ f ∈ fs, f ∈ r) → ∀ {x}, items fs = some x → FromFields names records x
  | [], _, x, h => by cases h; exact fun s hs => by (cases hs)
  | f :: fs, hf, x, h => by
    simp only [items, Option.bind_eq_some_iff, Option.map_eq_some_iff] at h
    obtain ⟨v, hv, ts, h3, rfl⟩ := h
    intro s hs
    rcases List.mem_cons.1 hs with e | hs
    · cases e; exact .inr (value_of hr (hf f (List.mem_cons_self ..)) hv)
    · exact items_of hr fs (fun g hg => hf g (List.mem_cons_of_mem _ hg)) h3 s hs

theorem produceRecord_of {cfg : Cfg} {r : List Bytes} (hr : r ∈ records) {ks : List Scalar} (hk : ∀ k ∈ ks, NameOf names records k) {x}
    (h : produceRecord cfg ks r = some x) : FromFields names records x.1 ∧ ∀ k ∈ x.2, NameOf names records k := by
  unfold produceRecord at h
  split at h
  · simp only [Option.map_eq_some_iff, Prod.exists] at h
    obtain ⟨ts, ks', h, rfl⟩ := h
    have := members_of hr r (fun _ h => h) ks 0 hk h
    exact ⟨fun s hs => this.1 s (by simpa using hs), this.2⟩
  · simp only [Option.map_eq_some_iff] at h
    obtain ⟨ts, h, rfl⟩ := h
    exact ⟨fun s hs => items_of hr r (fun _ h => h) h s (by simpa using hs), hk⟩

theorem loop_of (cfg : Cfg) (fin : RErr) : ∀ (rs : List (List Bytes)), (∀ r ∈ rs, r ∈ records) → ∀ (first : Bool) (ks : List Scalar),
    (∀ k ∈ ks, NameOf names records k) → ∀ {x}, loop cfg fin first ks rs = some x → FromFields names records x.1
  | [], _, _, ks, hk, x, h => by cases h; exact fun s hs => by (cases hs)
  | r :: rs, hr, first, ks, hk, x, h => by
    have hr1 := hr r (List.mem_cons_self ..)
    have hr2 : ∀ r ∈ rs, r ∈ records := fun g hg => hr g (List.mem_cons_of_mem _ hg)
    rw [loop] at h
    split at h
    · simp only [Option.bind_eq_some_iff, Option.map_eq_some_iff, Prod.exists] at h
      obtain ⟨ts, ks', h1, us, e, ks2, h2, rfl⟩ := h
      have h1 := produceRecord_of hr1 hk h1
      intro s hs
      rcases List.mem_append.1 hs with hs | hs
      · exact h1.1 s hs
      · exact loop_of cfg fin rs hr2 false _ h1.2 h2 s hs
    · rw [Option.bind_eq_some_iff] at h
      obtain ⟨ks', h1, h⟩ := h
      exact loop_of cfg fin rs hr2 false _ (setFieldNames_of r (fun f hf => .inr ⟨r, hr1, hf⟩) ks hk h1) h

end

/-- The scalars that the CSV decoder sends come from the fields and from the names given. -/
theorem produce_of {cfg : Cfg} {preset : List Bytes} {inp : Input} {x} (h : produce cfg preset inp = some x) : FromFields preset inp.records x.1 := by
  simp only [produce, Option.bind_eq_some_iff, Option.map_eq_some_iff, Prod.exists] at h
  obtain ⟨ks, h1, ts, e, ks2, h2, rfl⟩ := h
  exact loop_of cfg inp.fin inp.records (fun _ h => h) true ks
    (setFieldNames_of preset (fun f hf => .inl hf) [] (fun k hk => by cases hk) h1) h2

end Verif.Csv
