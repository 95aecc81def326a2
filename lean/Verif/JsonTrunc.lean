import Verif.JsonFuel
import Verif.Prefix

/-!
# JSON input that ends too early

What is sent for input that ends is a prefix of what is sent if the input goes on, unless it goes on with a byte that could belong to a number.
-/

set_option linter.unusedSimpArgs false
set_option linter.unusedVariables false

namespace Verif.Pure
open Rfc8259

variable {f : RErr} {c : Byte} {E : Bytes}

/-- The first parser ends before the input does: then the second one, on the longer input, does the same. -/
def ExtE {α : Type} (T : Bytes) (x y : Except PErr (α × Bytes)) : Prop := ∀ a r, x = .ok (a, r) → y = .ok (a, r ++ T)

/-- The same, for parsers that send tokens; what is sent up to an error is a prefix. -/
def Ext (T : Bytes) (x y : PRes) : Prop :=
  match x.2 with
  | some (.ok r) => y = (x.1, some (.ok (r ++ T)))
  | _ => x.1 <+: y.1

theorem Ext.prefix {T : Bytes} {x y : PRes} (h : Ext T x y) : x.1 <+: y.1 := by
  unfold Ext at h
  split at h
  · rw [h]
    exact List.prefix_refl _
  · exact h

theorem Ext.then {T : Bytes} {x y : PRes} {g k : Bytes → PRes} (h : Ext T x y) (hg : ∀ r, Ext T (g r) (k (r ++ T))) : Ext T (x.then g) (y.then k) := by
  obtain ⟨ts, x⟩ := x
  match x, h with
  | some (.ok r), h =>
    have h : y = (ts, some (.ok (r ++ T))) := h
    subst h
    have := hg r
    unfold Ext at this ⊢
    simp only [PRes.then]
    split
    · rename_i r' e
      rw [e] at this
      simp only at this
      rw [this]
    · rename_i hn
      split at this
      · rename_i r' e
        exact absurd e (hn r')
      · exact (List.prefix_append_right_inj _).2 this
  | none, h =>
    have h : ts <+: y.1 := h
    show ts <+: _
    obtain ⟨ts', y⟩ := y
    match y with
    | some (.ok r) => exact h.trans (List.prefix_append _ _)
    | some (.error _) => exact h
    | none => exact h
  | some (.error _), h =>
    have h : ts <+: y.1 := h
    show ts <+: _
    obtain ⟨ts', y⟩ := y
    match y with
    | some (.ok r) => exact h.trans (List.prefix_append _ _)
    | some (.error _) => exact h
    | none => exact h

theorem Ext.put {T : Bytes} {x y : PRes} (t : Token) (h : Ext T x y) : Ext T (put t x) (put t y) := by
  obtain ⟨ts, x⟩ := x
  match x, h with
  | some (.ok r), h =>
    have h : y = (ts, some (.ok (r ++ T))) := h
    subst h
    exact rfl
  | none, h => exact (List.prefix_cons_inj t).2 h
  | some (.error _), h => exact (List.prefix_cons_inj t).2 h

theorem Ext.done {T : Bytes} (r : Bytes) : Ext T (done r) (done (r ++ T)) := rfl

theorem Ext.err {T : Bytes} {e : PErr} {y : PRes} : Ext T ([], some (.error e)) y := List.nil_prefix

theorem Ext.lift {α : Type} {T : Bytes} {x y : Except PErr (α × Bytes)} {g k : α × Bytes → PRes} (h : ExtE T x y) (hg : ∀ a r, Ext T (g (a, r)) (k (a, r ++ T))) :
    Ext T (lift x g) (lift y k) := by
  cases x with
  | error e => exact .err
  | ok z =>
    obtain ⟨a, r⟩ := z
    rw [h a r rfl]
    exact hg a r

theorem chk_ext (T r : Bytes) : ExtE T (chk .eof r) (chk f (r ++ T)) := by
  intro a r' h
  cases r with
  | nil => cases h
  | cons b r =>
    simp only [chk, List.cons_append] at h ⊢
    split at h
    · cases h
    · rename_i hb
      rw [if_neg hb]
      cases h
      rfl

theorem ws_ext (T r : Bytes) (h : ws r ≠ []) : ws (r ++ T) = ws r ++ T := by
  induction r with
  | nil => exact absurd rfl h
  | cons b r ih =>
    simp only [ws, List.cons_append, List.dropWhile_cons] at h ih ⊢
    split
    · rename_i hb
      rw [if_pos hb] at h
      exact ih h
    · rfl

theorem chkws_ext (T r : Bytes) : ExtE T (chk .eof (ws r)) (chk f (ws (r ++ T))) := by
  intro a r' h
  have : ws r ≠ [] := by
    intro e
    rw [e] at h
    cases h
  rw [ws_ext T r this]
  exact chk_ext T _ a r' h

theorem str_ext (T : Bytes) : ∀ (r : Bytes) (st : SSt) (al un first : Bool) (x : Bytes × Bool × Bool × Bytes), str .eof st al un first r = .ok x →
    str f st al un first (r ++ T) = .ok (x.1, x.2.1, x.2.2.1, x.2.2.2 ++ T)
  | [], st, al, un, first, x, h => by simp only [str] at h; cases h
  | b :: r, st, al, un, first, x, h => by
    have more : ∀ (st : SSt) (al un first : Bool), (str .eof st al un first r).map (fun x => (b :: x.1, x.2)) = .ok x →
        (str f st al un first (r ++ T)).map (fun x => (b :: x.1, x.2)) = .ok (x.1, x.2.1, x.2.2.1, x.2.2.2 ++ T) := by
      intro st al un first h
      cases hx : str .eof st al un first r with
      | error e => rw [hx] at h; cases h
      | ok z =>
        rw [hx] at h
        cases h
        rw [str_ext T r st al un first z hx]
        rfl
    rw [List.cons_append]
    unfold str at h ⊢
    simp only at h ⊢
    split at h
    · cases h
    · rename_i hb
      rw [if_neg hb]
      cases st with
      | esc =>
        simp only at h ⊢
        split at h
        · rename_i h1; rw [if_pos h1]; exact more _ _ _ _ h
        · rename_i h1; rw [if_neg h1]; exact more _ _ _ _ h
      | hex k =>
        cases k with
        | zero =>
          simp only at h ⊢
          split at h
          · rename_i h1; rw [if_pos h1]; exact more _ _ _ _ h
          · cases h
        | succ k =>
          simp only at h ⊢
          split at h
          · rename_i h1; rw [if_pos h1]; exact more _ _ _ _ h
          · cases h
      | norm =>
        simp only at h ⊢
        split at h
        · rename_i h1; rw [if_pos h1]; exact more _ _ _ _ h
        · rename_i h1
          rw [if_neg h1]
          split at h
          · rename_i h2; rw [if_pos h2]; cases h; rfl
          · rename_i h2
            rw [if_neg h2]
            split at h
            · cases h
            · rename_i h3
              rw [if_neg h3]
              split at h
              · rename_i h4
                rw [if_pos h4]
                split at h
                · rename_i h5; rw [if_pos h5]; exact more _ _ _ _ h
                · rename_i h5; rw [if_neg h5]; exact more _ _ _ _ h
              · rename_i h4; rw [if_neg h4]; exact more _ _ _ _ h

theorem string_ext (T r : Bytes) : ExtE T (string .eof r) (string f (r ++ T)) := by
  intro a r' h
  cases r with
  | nil => cases h
  | cons b r =>
    simp only [string, List.cons_append] at h ⊢
    split at h
    · cases h
    · rename_i hb
      rw [if_neg hb]
      cases hx : str .eof .norm true true true r with
      | error e => rw [hx] at h; cases h
      | ok z =>
        rw [hx] at h
        rw [str_ext T r _ _ _ _ z hx]
        cases h
        rfl

theorem fixed_ext (T : Bytes) : ∀ (w r r' : Bytes), fixed w r = .ok r' → fixed w (r ++ T) = .ok (r' ++ T)
  | [], r, r', h => by cases h; rfl
  | x :: w, [], r', h => by cases h
  | x :: w, b :: r, r', h => by
    simp only [fixed, List.cons_append] at h ⊢
    split at h
    · cases h
    · rename_i hb
      rw [if_neg hb]
      exact fixed_ext T w r r' h

/-! Numbers. -/

theorem takeWhile_ext {p : Byte → Bool} (hc : p c = false) (r : Bytes) : (r ++ c :: E).takeWhile p = r.takeWhile p ∧ (r ++ c :: E).dropWhile p = r.dropWhile p ++ c :: E := by
  induction r with
  | nil => simp [hc]
  | cons b r ih =>
    simp only [List.cons_append, List.takeWhile_cons, List.dropWhile_cons]
    split
    · exact ⟨by rw [ih.1], ih.2⟩
    · exact ⟨rfl, rfl⟩

theorem nxt_ext (r : Bytes) : nxt f (r ++ c :: E) = .ok () := by
  unfold nxt
  rw [if_neg (by simp)]

theorem nxt_eof (r : Bytes) : nxt .eof r = .ok () := by
  unfold nxt
  rw [if_neg (by simp)]

theorem digit_of {c : Byte} (hc : ¬ NumCont c) : isDigit c = false ∧ c ≠ c%'.' ∧ ¬(c = c%'e' ∨ c = c%'E') := by
  unfold NumCont Digit at hc
  refine ⟨?_, fun e => hc (.inr (.inl e)), fun e => hc (.inr (.inr e))⟩
  cases h : isDigit c with
  | false => rfl
  | true =>
    simp only [isDigit, Bool.and_eq_true, decide_eq_true_eq] at h
    exact absurd (.inl h) hc

theorem digits1_ext (hc : ¬ NumCont c) (r : Bytes) : ExtE (c :: E) (digits1 .eof r) (digits1 f (r ++ c :: E)) := by
  intro a r' h
  obtain ⟨e1, e2⟩ := takeWhile_ext (E := E) (digit_of hc).1 r
  simp only [digits1, nxt_eof, e1, e2, nxt_ext] at h ⊢
  simp only [Except.bind] at h ⊢
  split at h
  · cases h
  · rename_i hd
    rw [if_neg hd]
    cases h
    rfl

theorem exp_ext (hc : ¬ NumCont c) (r : Bytes) : ExtE (c :: E) (exp .eof r) (exp f (r ++ c :: E)) := by
  intro a r' h
  cases r with
  | nil =>
    cases h
    simp only [exp, List.nil_append, if_neg (digit_of hc).2.2]
  | cons b r =>
    simp only [exp, List.cons_append] at h ⊢
    split at h
    · rename_i hb
      rw [if_pos hb, nxt_ext]
      rw [nxt_eof] at h
      simp only [Except.bind] at h ⊢
      cases r with
      | nil => cases h
      | cons s r =>
        have es : sign (s :: (r ++ c :: E)) = ((sign (s :: r)).1, (sign (s :: r)).2 ++ c :: E) := by
          simp only [sign]
          split <;> rfl
        rw [List.cons_append, es]
        simp only
        cases hx : digits1 .eof (sign (s :: r)).2 with
        | error e => rw [hx] at h; cases h
        | ok z =>
          obtain ⟨z1, z2⟩ := z
          rw [hx] at h
          rw [digits1_ext hc _ z1 z2 hx]
          cases h
          rfl
    · rename_i hb
      rw [if_neg hb]
      cases h
      rfl

theorem frac_ext (hc : ¬ NumCont c) (r : Bytes) : ExtE (c :: E) (frac .eof r) (frac f (r ++ c :: E)) := by
  intro a r' h
  cases r with
  | nil =>
    cases h
    simp only [frac, List.nil_append, if_neg (digit_of hc).2.1, exp, if_neg (digit_of hc).2.2]
  | cons b r =>
    simp only [frac, List.cons_append] at h ⊢
    split at h
    · rename_i hb
      rw [if_pos hb]
      cases hx : digits1 .eof r with
      | error e => rw [hx] at h; cases h
      | ok z =>
        obtain ⟨z1, z2⟩ := z
        rw [hx] at h
        rw [digits1_ext hc _ z1 z2 hx]
        simp only [Except.bind] at h ⊢
        cases hy : exp .eof z2 with
        | error e => rw [hy] at h; cases h
        | ok y =>
          obtain ⟨y1, y2⟩ := y
          rw [hy] at h
          rw [exp_ext hc _ y1 y2 hy]
          cases h
          rfl
    · rename_i hb
      rw [if_neg hb]
      exact exp_ext hc (b :: r) a r' h

theorem int_ext (hc : ¬ NumCont c) (r : Bytes) : ExtE (c :: E) (int .eof r) (int f (r ++ c :: E)) := by
  intro a r' h
  have fr : ∀ (pre s : Bytes), (frac .eof s).map (fun y => (pre ++ y.1, y.2)) = .ok (a, r') →
      (frac f (s ++ c :: E)).map (fun y => (pre ++ y.1, y.2)) = .ok (a, r' ++ c :: E) := by
    intro pre s h
    cases hx : frac .eof s with
    | error e => rw [hx] at h; cases h
    | ok z =>
      obtain ⟨z1, z2⟩ := z
      rw [hx] at h
      rw [frac_ext hc _ z1 z2 hx]
      cases h
      rfl
  unfold int at h ⊢
  cases hx : chk .eof r with
  | error e => rw [hx] at h; cases h
  | ok z =>
    obtain ⟨z1, z2⟩ := z
    rw [hx] at h
    rw [chk_ext (f := f) (c :: E) r z1 z2 hx]
    simp only [Except.bind, nxt_eof, nxt_ext, (takeWhile_ext (E := E) (digit_of hc).1 z2).1, (takeWhile_ext (E := E) (digit_of hc).1 z2).2] at h ⊢
    split at h
    · rename_i h1; rw [if_pos h1]; exact fr [z1] z2 h
    · rename_i h1
      rw [if_neg h1]
      split at h
      · rename_i h2; rw [if_pos h2]; exact fr (z1 :: z2.takeWhile isDigit) _ h
      · cases h

theorem number_ext (hc : ¬ NumCont c) (r : Bytes) : ExtE (c :: E) (number .eof r) (number f (r ++ c :: E)) := by
  have nb : ExtE (c :: E) (numBytes .eof r) (numBytes f (r ++ c :: E)) := by
    intro a r' h
    cases r with
    | nil => cases h
    | cons b r =>
      simp only [numBytes, List.cons_append] at h ⊢
      split at h
      · rename_i hb
        rw [if_pos hb]
        cases hx : int .eof r with
        | error e => rw [hx] at h; cases h
        | ok z =>
          obtain ⟨z1, z2⟩ := z
          rw [hx] at h
          rw [int_ext hc _ z1 z2 hx]
          cases h
          rfl
      · rename_i hb
        rw [if_neg hb]
        exact int_ext hc (b :: r) a r' h
  intro a r' h
  unfold number at h ⊢
  cases hx : numBytes .eof r with
  | error e => rw [hx] at h; cases h
  | ok z =>
    obtain ⟨z1, z2⟩ := z
    rw [hx] at h
    rw [nb z1 z2 hx]
    cases h
    rfl

/-! Values. -/

theorem chkws_some {r : Bytes} {a : Byte} {r' : Bytes} (h : chk .eof (ws r) = .ok (a, r')) : ws r = a :: r' := by
  cases hw : ws r with
  | nil => rw [hw] at h; cases h
  | cons b t =>
    rw [hw] at h
    simp only [chk] at h
    split at h
    · cases h
    · cases h
      rfl

/-- Like `Ext.lift` for the next byte after white space, which is still there. -/
theorem Ext.next {T r : Bytes} {g k : Byte × Bytes → PRes} (hg : ∀ a t, ws r = a :: t → ws (r ++ T) = a :: (t ++ T) → Ext T (g (a, t)) (k (a, t ++ T))) :
    Ext T (Pure.lift (chk .eof (ws r)) g) (Pure.lift (chk f (ws (r ++ T))) k) := by
  cases hx : chk .eof (ws r) with
  | error e => exact .err
  | ok z =>
    obtain ⟨a, t⟩ := z
    have e := chkws_some hx
    rw [chkws_ext T r a t hx]
    exact hg a t e (by rw [ws_ext T r (by rw [e]; simp), e]; rfl)

theorem values_ext (hc : ¬ NumCont c) : ∀ n, (∀ r, Ext (c :: E) (value .eof n r) (value f n (r ++ c :: E))) ∧
    (∀ r, Ext (c :: E) (items .eof n r) (items f n (r ++ c :: E))) ∧ ∀ r, Ext (c :: E) (members .eof n r) (members f n (r ++ c :: E))
  | 0 => ⟨fun r => by simp only [value]; exact List.nil_prefix, fun r => by simp only [items]; exact List.nil_prefix,
      fun r => by simp only [members]; exact List.nil_prefix⟩
  | n + 1 => by
    obtain ⟨hv, hi, hm⟩ := values_ext hc n
    refine ⟨fun r => ?_, fun r => ?_, fun r => ?_⟩
    · simp only [value]
      refine .next fun b t e1 e2 => ?_
      rw [e1, e2]
      simp only
      have fx : ∀ (w : Bytes) (s : Scalar), Ext (c :: E) (lift (fixed w (b :: t)) fun r => put (.scalar s) (done r))
          (lift (fixed w (b :: (t ++ c :: E))) fun r => put (.scalar s) (done r)) := by
        intro w s
        cases hx : fixed w (b :: t) with
        | error e => exact .err
        | ok r' =>
          rw [show b :: (t ++ c :: E) = (b :: t) ++ c :: E from rfl, fixed_ext (c :: E) w _ r' hx]
          exact .put _ (.done _)
      split
      · exact .lift (string_ext (c :: E) (b :: t)) fun a r => .put _ (.done _)
      · split
        · refine .put _ (.next fun b2 t2 e3 e4 => ?_)
          simp only
          split
          · exact .put _ (.done _)
          · have := hi (ws t)
            rw [e3] at this ⊢
            rw [e4]
            exact this
        · split
          · refine .put _ (.next fun b2 t2 e3 e4 => ?_)
            simp only
            split
            · exact .put _ (.done _)
            · have := hm (ws t)
              rw [e3] at this ⊢
              rw [e4]
              exact this
          · split
            · exact fx _ _
            · split
              · exact fx _ _
              · split
                · exact fx _ _
                · split
                  · exact .lift (number_ext hc (b :: t)) fun a r => .put _ (.done _)
                  · exact .err
    · simp only [items]
      refine (hv r).then fun r => .next fun b t e1 e2 => ?_
      simp only
      split
      · exact .put _ (.done _)
      · split
        · exact hi t
        · exact .err
    · simp only [members]
      refine .lift (string_ext (c :: E) r) fun k r => .put _ (.next fun b t e1 e2 => ?_)
      simp only
      split
      · exact .err
      · refine (hv t).then fun r => .next fun b t e1 e2 => ?_
        simp only
        split
        · exact .put _ (.done _)
        · split
          · refine .next fun b2 t2 e3 e4 => ?_
            rw [e3, e4]
            exact hm (b2 :: t2)
          · exact .err

theorem produce_ext (hc : ¬ NumCont c) (v : Nat) : ∀ (n : Nat) (r : Bytes), (produce .eof v n r).1 <+: (produce f v n (r ++ c :: E)).1
  | 0, r => List.prefix_refl _
  | n + 1, r => by
    simp only [produce]
    cases hw : ws r with
    | nil => exact List.nil_prefix
    | cons b t =>
      rw [ws_ext (c :: E) r (by rw [hw]; simp), hw]
      simp only [List.cons_append]
      split
      · exact List.prefix_refl _
      · have h := (values_ext (f := f) (E := E) hc v).1 (b :: t)
        rw [List.cons_append] at h
        generalize value .eof v (b :: t) = X at h ⊢
        generalize value f v (b :: (t ++ c :: E)) = Y at h ⊢
        obtain ⟨ts, x⟩ := X
        match x, h with
        | some (.ok r'), h =>
          have h : Y = (ts, some (Except.ok (r' ++ c :: E))) := h
          rw [h]
          exact (List.prefix_append_right_inj _).2 (produce_ext hc v n r')
        | none, h =>
          have h : ts <+: Y.1 := h
          show ts <+: _
          obtain ⟨ts', y⟩ := Y
          match y with
          | some (.ok r) => exact h.trans (List.prefix_append _ _)
          | some (.error _) => exact h
          | none => exact h
        | some (.error _), h =>
          have h : ts <+: Y.1 := h
          show ts <+: _
          obtain ⟨ts', y⟩ := Y
          match y with
          | some (.ok r) => exact h.trans (List.prefix_append _ _)
          | some (.error _) => exact h
          | none => exact h

/-- What is sent for input that ends is a prefix of what is sent if it goes on with something that does not continue a number. -/
theorem decode_ext (D : Bytes) (hc : ¬ NumCont c) : (decode .eof D).1 <+: (decode f (D ++ c :: E)).1 := by
  have h : Json.fuelFor D.length ≤ Json.fuelFor (D ++ c :: E).length := by unfold Json.fuelFor; simp; omega
  have := produce_ext (f := f) (E := E) hc (Json.fuelFor (D ++ c :: E).length) (Json.fuelFor (D ++ c :: E).length) D
  rw [decode_eq .eof D h h, decode_eq f (D ++ c :: E) (Nat.le_refl _) (Nat.le_refl _)] at this
  exact this

end Verif.Pure
