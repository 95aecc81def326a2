import Verif.JsonFuel

/-!
# What is left at an error is a suffix of the input (helper lemmas)
-/

set_option linter.unusedVariables false

namespace Verif.Pure

/-- The offending byte of an error is in `r`. -/
def ErrSuf {α : Type} (r : Bytes) (x : Except PErr α) : Prop := ∀ m s, x = .error (.syn m s) → s <:+ r

/-- The rest after a run, or the offending byte, is in `r`. -/
def SufR (r : Bytes) (x : PRes) : Prop :=
  match x.2 with
  | some (.ok r') => r' <:+ r
  | some (.error (.syn _ s)) => s <:+ r
  | _ => True

theorem ErrSuf.ok {α : Type} {r : Bytes} {a : α} : ErrSuf r (.ok a) := fun _ _ h => by cases h
theorem ErrSuf.io {α : Type} {r : Bytes} {e} : ErrSuf r (.error (.io e) : Except PErr α) := fun _ _ h => by cases h
theorem ErrSuf.syn {α : Type} {r s : Bytes} {m} (h : s <:+ r) : ErrSuf r (.error (.syn m s) : Except PErr α) :=
  fun _ _ h' => by cases h'; exact h
theorem ErrSuf.trans {α : Type} {r r' : Bytes} {x : Except PErr α} (h : ErrSuf r' x) (hr : r' <:+ r) : ErrSuf r x :=
  fun m s h' => (h m s h').trans hr
theorem ErrSuf.map {α β : Type} {r : Bytes} {x : Except PErr α} (f : α → β) (h : ErrSuf r x) : ErrSuf r (x.map f) := by
  cases x with
  | ok a => exact .ok
  | error e => intro m s h'; simp only [Except.map, Except.error.injEq] at h'; exact h m s (by rw [h'])
theorem ErrSuf.bind {α β : Type} {r : Bytes} {x : Except PErr α} {f : α → Except PErr β} (h : ErrSuf r x)
    (hf : ∀ a, x = .ok a → ErrSuf r (f a)) : ErrSuf r (x.bind f) := by
  cases x with
  | ok a => exact hf a rfl
  | error e => intro m s h'; simp only [Except.bind, Except.error.injEq] at h'; exact h m s (by rw [h'])

theorem SufR.trans {r r' : Bytes} {x : PRes} (h : SufR r' x) (hr : r' <:+ r) : SufR r x := by
  obtain ⟨ts, x⟩ := x
  match x with
  | none => trivial
  | some (.ok r) => exact List.IsSuffix.trans h hr
  | some (.error (.io _)) => trivial
  | some (.error (.syn _ s)) => exact List.IsSuffix.trans h hr

theorem SufR.then {r : Bytes} {x : PRes} {f : Bytes → PRes} (h : SufR r x) (hf : ∀ r', SufR r' (f r')) : SufR r (x.then f) := by
  obtain ⟨ts, x⟩ := x
  match x with
  | none => trivial
  | some (.ok r') => exact SufR.trans (x := f r') (hf r') h
  | some (.error (.io _)) => trivial
  | some (.error (.syn _ s)) => exact h

theorem SufR.lift {α : Type} {r : Bytes} {x : Except PErr α} {f : α → PRes} (h : ErrSuf r x)
    (hf : ∀ a, x = .ok a → SufR r (f a)) : SufR r (Pure.lift x f) := by
  cases x with
  | ok a => exact hf a rfl
  | error e =>
    cases e with
    | io e => trivial
    | syn m s => exact h m s rfl

theorem SufR.put {r : Bytes} {x : PRes} (t : Token) (h : SufR r x) : SufR r (Pure.put t x) := h

theorem ws_suffix (r : Bytes) : ws r <:+ r := List.dropWhile_suffix _

theorem chk_suf (fin : RErr) (r : Bytes) : ErrSuf r (chk fin r) := by
  cases r with
  | nil => exact .io
  | cons b r => rw [chk]; split <;> first | exact .io | exact .ok

theorem chk_suffix {fin : RErr} {r : Bytes} {x} (h : chk fin r = .ok x) : x.2 <:+ r := by
  rw [(chk_ok h).1]; exact List.suffix_cons _ _

theorem str_suf (fin : RErr) (r : Bytes) : ∀ st al un first, ErrSuf r (str fin st al un first r) := by
  induction r with
  | nil => intro st al un first; rw [str]; exact .io
  | cons b r ih =>
    intro st al un first
    have hm : ∀ st al un first, ErrSuf (b :: r) ((str fin st al un first r).map fun x => (b :: x.1, x.2)) :=
      fun st al un first => ((ih st al un first).map _).trans (List.suffix_cons _ _)
    rw [str]
    split
    · exact .io
    · cases st with
      | esc => simp only; split <;> exact hm _ _ _ _
      | hex k =>
        cases k with
        | zero => simp only; split <;> first | exact hm _ _ _ _ | exact .syn (List.suffix_refl _)
        | succ k => simp only; split <;> first | exact hm _ _ _ _ | exact .syn (List.suffix_refl _)
      | norm =>
        simp only
        split
        · exact hm _ _ _ _
        split
        · exact .ok
        split
        · exact .syn (List.suffix_refl _)
        split
        · split <;> exact hm _ _ _ _
        · exact hm _ _ _ _

theorem string_suf (fin : RErr) (r : Bytes) : ErrSuf r (string fin r) := by
  cases r with
  | nil => exact .syn (List.suffix_refl _)
  | cons b r =>
    rw [string]
    split
    · exact .syn (List.suffix_refl _)
    · exact ((str_suf fin r _ _ _ _).map _).trans (List.suffix_cons _ _)

theorem nxt_suf (fin : RErr) (r s : Bytes) : ErrSuf s (nxt fin r) := by
  unfold nxt; split <;> first | exact .io | exact .ok

theorem digits1_suf (fin : RErr) (r : Bytes) : ErrSuf r (digits1 fin r) := by
  unfold digits1
  refine (nxt_suf _ _ _).bind fun _ _ => ?_
  split
  · exact .syn (List.dropWhile_suffix _)
  · exact .ok

theorem sign_suffix (r : Bytes) : (sign r).2 <:+ r := ⟨_, (sign_split r).symm⟩

theorem exp_suf (fin : RErr) (r : Bytes) : ErrSuf r (exp fin r) := by
  cases r with
  | nil => exact .ok
  | cons b r =>
    rw [exp]
    split
    · exact (nxt_suf _ _ _).bind fun _ _ =>
        ((digits1_suf fin _).map _).trans ((sign_suffix r).trans (List.suffix_cons _ _))
    · exact .ok

theorem frac_suf (fin : RErr) (r : Bytes) : ErrSuf r (frac fin r) := by
  cases r with
  | nil => exact .ok
  | cons b r =>
    rw [frac]
    split
    · refine ((digits1_suf fin r).bind fun x hx => ?_).trans (List.suffix_cons _ _)
      exact ((exp_suf fin _).map _).trans ⟨_, (digits1_split hx).1.symm⟩
    · exact exp_suf fin _

theorem int_suf (fin : RErr) (r : Bytes) : ErrSuf r (int fin r) := by
  unfold int
  refine (chk_suf fin r).bind fun x hx => ?_
  have hs := chk_suffix hx
  simp only
  split
  · exact (nxt_suf _ _ _).bind fun _ _ => ((frac_suf fin _).map _).trans hs
  split
  · exact (nxt_suf _ _ _).bind fun _ _ => ((frac_suf fin _).map _).trans ((List.dropWhile_suffix _).trans hs)
  · exact .syn (List.suffix_refl _)

theorem number_suf (fin : RErr) (r : Bytes) : ErrSuf r (number fin r) := by
  unfold number
  refine ErrSuf.map _ ?_
  cases r with
  | nil => exact int_suf fin []
  | cons b r =>
    rw [numBytes]
    split
    · exact ((int_suf fin r).map _).trans (List.suffix_cons _ _)
    · exact int_suf fin _

theorem fixed_suf (xs : Bytes) : ∀ r, ErrSuf r (fixed xs r) := by
  induction xs with
  | nil => intro r; rw [fixed]; exact .ok
  | cons x xs ih =>
    intro r
    cases r with
    | nil => exact .syn (List.suffix_refl _)
    | cons b r =>
      rw [fixed]
      split
      · exact .syn (List.suffix_refl _)
      · exact (ih r).trans (List.suffix_cons _ _)

theorem values_suf (fin : RErr) (n : Nat) : (∀ r, SufR r (value fin n r)) ∧ (∀ r, SufR r (items fin n r)) ∧
    (∀ r, SufR r (members fin n r)) := by
  induction n with
  | zero => exact ⟨fun _ => trivial, fun _ => trivial, fun _ => trivial⟩
  | succ n ih =>
    obtain ⟨hv, hi, hm⟩ := ih
    refine ⟨fun r => ?_, fun r => ?_, fun r => ?_⟩
    · rw [value]
      refine .lift ((chk_suf fin _).trans (ws_suffix r)) fun x hx => ?_
      have hs := (chk_suffix hx).trans (ws_suffix r)
      have hfix : ∀ xs s, SufR r (Pure.lift (fixed xs (ws r)) fun r => Pure.put (.scalar s) (done r)) := fun xs s =>
        .lift ((fixed_suf xs _).trans (ws_suffix r)) fun y hy =>
          show y <:+ r from List.IsSuffix.trans ⟨_, (fixed_split hy).symm⟩ (ws_suffix r)
      simp only
      split
      · exact .lift ((string_suf fin _).trans (ws_suffix r)) fun y hy =>
          show y.2 <:+ r from List.IsSuffix.trans ⟨_, (string_split hy).1.symm⟩ (ws_suffix r)
      split
      · refine SufR.trans (r' := x.2) ?_ hs
        refine .put _ (.lift ((chk_suf fin _).trans (ws_suffix _)) fun y hy => ?_)
        split
        · exact show y.2 <:+ x.2 from (chk_suffix hy).trans (ws_suffix _)
        · exact (hi _).trans (ws_suffix _)
      split
      · refine SufR.trans (r' := x.2) ?_ hs
        refine .put _ (.lift ((chk_suf fin _).trans (ws_suffix _)) fun y hy => ?_)
        split
        · exact show y.2 <:+ x.2 from (chk_suffix hy).trans (ws_suffix _)
        · exact (hm _).trans (ws_suffix _)
      split
      · exact hfix _ _
      split
      · exact hfix _ _
      split
      · exact hfix _ _
      split
      · exact .lift ((number_suf fin _).trans (ws_suffix r)) fun y hy =>
          show y.2 <:+ r from List.IsSuffix.trans ⟨_, (number_split hy).1.symm⟩ (ws_suffix r)
      · exact ws_suffix r
    · rw [items]
      refine (hv r).then fun r' => .lift ((chk_suf fin _).trans (ws_suffix _)) fun x hx => ?_
      have hs := (chk_suffix hx).trans (ws_suffix r')
      split
      · exact hs
      split
      · exact (hi _).trans hs
      · exact ws_suffix r'
    · rw [members]
      refine .lift (string_suf fin r) fun k hk => .put _ ?_
      have hks : k.2 <:+ r := ⟨_, (string_split hk).1.symm⟩
      refine SufR.trans (r' := k.2) (.lift ((chk_suf fin _).trans (ws_suffix _)) fun x hx => ?_) hks
      have hs := (chk_suffix hx).trans (ws_suffix k.2)
      split
      · exact ws_suffix _
      · refine SufR.trans ((hv x.2).then fun r' => .lift ((chk_suf fin _).trans (ws_suffix _)) fun y hy => ?_) hs
        have hs' := (chk_suffix hy).trans (ws_suffix r')
        split
        · exact hs'
        split
        · exact .lift ((chk_suf fin _).trans ((ws_suffix _).trans hs')) fun _ _ => (hm _).trans ((ws_suffix _).trans hs')
        · exact ws_suffix r'

theorem produce_suf (fin : RErr) (v n : Nat) : ∀ r, SufR r (produce fin v n r) := by
  induction n with
  | zero => intro r; trivial
  | succ n ih =>
    intro r
    have hs := ws_suffix r
    rw [produce]
    cases hw : ws r with
    | nil => simp only; split <;> first | exact List.nil_suffix | trivial
    | cons b r' =>
      rw [hw] at hs
      simp only
      split
      · exact hs
      · exact (((values_suf fin v).1 _).then ih).trans hs

end Verif.Pure
