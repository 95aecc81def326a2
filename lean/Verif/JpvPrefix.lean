import Verif.JpvRun
import Verif.Prefix

/-!
# JPV inputs with a common prefix (helper lemmas)

As `Verif.Prefix`, for the JPV decoder.  It closes the current path when it returns an error, so what is sent for an
input that is cut off is a prefix of what is sent for the whole input, followed by closing brackets.
-/

set_option linter.unusedVariables false

namespace Verif

namespace Jpv
open Prog Json

variable {Q : Byte → Prop} {P : Err → Prop} (hA : Allowed Q P) (hP : ∀ m, P (.plain m))
include hA hP

omit hA in
theorem tame_closeElem (b : Byte) (k : Scalar) : Tame False Q P (fun _ => True) (closeElem b k) := .ite (.fail (hP _)) (.ret trivial)

theorem tame_bracket (fuel : Nat) : Tame False Q P (fun _ => True) (bracket fuel) :=
  Tame.pk.bind fun b h => (tame_checkEOF hA h).bind fun b _ => .ite
    ((tame_parseString hA fuel).bind fun _ _ => (tame_rdChk hA).bind fun _ _ => tame_closeElem hP _ _)
    (Tame.start.bind fun _ _ => (tame_readDigits _ _).bind fun _ _ => .ite (tame_bad hA _)
      (Tame.finish.bind fun _ _ => tame_closeElem hP _ _))

omit hP in
theorem tame_dottedLoop (fuel : Nat) : Tame False Q P (fun _ => True) (dottedLoop fuel) := by
  induction fuel with
  | zero => exact .oof
  | succ n ih =>
    exact (tame_rdChk hA).bind fun b _ => .ite ih (Tame.goBack.bind fun _ _ => Tame.finish.bind fun _ _ => .ret trivial)

omit hP in
theorem tame_dotted (fuel : Nat) : Tame False Q P (fun _ => True) (dotted fuel) :=
  Tame.start.bind fun _ _ => (tame_rdChk hA).bind fun _ _ => .ite (tame_dottedLoop hA _) (tame_bad hA _)

theorem tame_parsePath (fuel : Nat) : ∀ p, Tame False Q P (fun _ => True) (parsePath fuel p) := by
  induction fuel with
  | zero => intro p; exact .oof
  | succ n ih =>
    intro p
    exact (tame_rdChk hA).bind fun b _ => .ite ((tame_bracket hA hP _).bind fun _ _ => ih _)
      (.ite ((tame_dotted hA _).bind fun _ _ => ih _) (Tame.goBack.bind fun _ _ => .ret trivial))

omit hA in
theorem tame_diverge (l : List Scalar) : ∀ n, Tame False Q P (fun _ => True) (diverge l n) := by
  induction l with
  | nil => intro n; exact .fail (hP _)
  | cons k l ih =>
    intro n
    cases n with
    | nil => exact .crash
    | cons n ns =>
      rw [diverge]
      split
      · exact .crash
      · exact ih _
      · exact .ite (.fail (hP _)) (.ret trivial)

omit hA hP in
theorem tame_sendAll (ts : List Token) : Tame False Q P (fun _ => True) (sendAll ts) := by
  induction ts with
  | nil => exact .ret trivial
  | cons t ts ih => exact .emit t ih

omit hA in
theorem tame_updatePath (l n : List Scalar) : Tame False Q P (fun _ => True) (updatePath l n) :=
  .ite (tame_sendAll _) ((tame_diverge hP _ _).bind fun _ _ => tame_sendAll _)

theorem tame_lineHead (fuel : Nat) (last : List Scalar) : Tame False Q P (fun _ => True) (lineHead fuel last) :=
  (tame_expectByte hA _).bind fun _ _ => (tame_parsePath hA hP _ _).bind fun _ _ => Tame.skRd.bind fun b h =>
    (tame_checkEOF hA h).bind fun b _ => .ite (tame_bad hA _) ((tame_updatePath hP _ _).bind fun _ _ => .ret trivial)

end Jpv

open Prog

/-- Closing brackets. -/
def Closers (cl : List Token) : Prop := ∀ t ∈ cl, t = .endObj ∨ t = .endArr

theorem closers_unwind (p : List Scalar) (b : Bool) : Closers (Jpv.unwind p b) := by
  intro t ht
  unfold Jpv.unwind at ht
  rw [List.mem_reverse, List.mem_map] at ht
  obtain ⟨k, _, rfl⟩ := ht
  unfold Jpv.closer
  split
  · exact .inl rfl
  · exact .inr rfl

/-- Comparison of two runs, where the first may end with closing brackets. -/
def AgreesJ {α : Type} (E : Bytes) (f e : RErr) (x y : List Token × Out AScan α) : Prop :=
  (∃ pre cl more, x.1 = pre ++ cl ∧ y.1 = pre ++ more ∧ Closers cl ∧ x.2 = .fail (.io e)) ∨
    (x.1 = y.1 ∧ Out.Follows E f e x.2 y.2)

theorem Agrees.toJ {α : Type} {C : Prop} {E : Bytes} {f e : RErr} {x y : List Token × Out AScan α} (h : Agrees C E f e x y)
    (hC : C → x.2 ≠ .panic) : AgreesJ E f e x y := by
  rcases h with ⟨⟨more, h⟩, h' | ⟨hc, h'⟩⟩ | h
  · exact .inl ⟨x.1, [], more, by simp, h, by simp [Closers], h'⟩
  · exact absurd h' (hC hc)
  · exact .inr h

theorem AgreesJ.guarded {α : Type} {E : Bytes} {f e : RErr} {x y : List Token × Out AScan α} (h : AgreesJ E f e x y)
    {cl : List Token} (hcl : Closers cl) : AgreesJ E f e (Prog.guardRes cl x) (Prog.guardRes cl y) := by
  obtain ⟨xs, x⟩ := x
  obtain ⟨ys, y⟩ := y
  rcases h with ⟨pre, c, more, h1, h2, h3, h4⟩ | ⟨h1, h2⟩
  · simp only at h1 h2 h4
    subst h4
    refine .inl ⟨pre, c ++ cl, ?_⟩
    have hc : Closers (c ++ cl) := by
      intro t ht
      rcases List.mem_append.1 ht with h | h
      · exact h3 t h
      · exact hcl t h
    cases y with
    | fail z => exact ⟨more ++ cl, by simp [Prog.guardRes, h1], by simp [Prog.guardRes, h2], hc, rfl⟩
    | ok a s => exact ⟨more, by simp [Prog.guardRes, h1], by simp [Prog.guardRes, h2], hc, rfl⟩
    | panic => exact ⟨more, by simp [Prog.guardRes, h1], by simp [Prog.guardRes, h2], hc, rfl⟩
    | stuck => exact ⟨more, by simp [Prog.guardRes, h1], by simp [Prog.guardRes, h2], hc, rfl⟩
    | oof => exact ⟨more, by simp [Prog.guardRes, h1], by simp [Prog.guardRes, h2], hc, rfl⟩
  · simp only at h1 h2
    subst h1
    refine .inr ?_
    cases x with
    | ok a s => obtain ⟨rfl, h⟩ := h2; exact ⟨rfl, rfl, h⟩
    | fail z => cases h2; exact ⟨rfl, rfl⟩
    | panic => cases h2; exact ⟨rfl, rfl⟩
    | stuck => cases h2; exact ⟨rfl, rfl⟩
    | oof => cases h2; exact ⟨rfl, rfl⟩

/-- The tokens of a program come before those of what follows. -/
theorem run_bind_fst {σ α β : Type} (M : Machine σ) (p : Prog α) (g : α → Prog β) (s : σ) :
    ∃ more, ((p.bind g).run M s).1 = (p.run M s).1 ++ more := by
  induction p generalizing s with
  | ret a => exact ⟨_, rfl⟩
  | fail e => exact ⟨[], rfl⟩
  | crash => exact ⟨[], rfl⟩
  | oof => exact ⟨[], rfl⟩
  | emit t k ih => obtain ⟨m, h⟩ := ih s; exact ⟨m, by simp [Prog.bind, Prog.run, h]⟩
  | read k ih => exact ih _ _
  | peek k ih => exact ih _ _
  | skipPeek k ih => exact ih _ _
  | skipRead k ih => exact ih _ _
  | back k ih =>
    simp only [Prog.bind, Prog.run]
    cases hb : M.back s with
    | ok s1 => exact ih _
    | error b => cases b <;> exact ⟨[], rfl⟩
  | startToken k ih =>
    simp only [Prog.bind, Prog.run]
    cases hb : M.startToken s with
    | some s1 => exact ih _
    | none => exact ⟨[], rfl⟩
  | endToken k ih =>
    simp only [Prog.bind, Prog.run]
    cases hb : M.endToken s with
    | some s1 => exact ih _ _
    | none => exact ⟨[], rfl⟩
  | currentPos k ih => exact ih _ _

theorem run_bind_stuck {σ α β : Type} {M : Machine σ} {p : Prog α} {f : α → Prog β} {s : σ} {ts}
    (h : p.run M s = (ts, .stuck)) : (p.bind f).run M s = (ts, .stuck) := by
  induction p generalizing s ts with
  | ret a => simp [Prog.run] at h
  | fail e' => simp [Prog.run] at h
  | crash => simp [Prog.run] at h
  | oof => simp [Prog.run] at h
  | emit t k ih =>
    simp only [Prog.run, Prod.mk.injEq] at h
    obtain ⟨rfl, h⟩ := h
    have := ih (s := s) (ts := (k.run M s).1) (by rw [← h])
    simp [Prog.bind, Prog.run, this]
  | read k ih => exact ih _ h
  | peek k ih => exact ih _ h
  | skipPeek k ih => exact ih _ h
  | skipRead k ih => exact ih _ h
  | back k ih =>
    simp only [Prog.run, Prog.bind] at h ⊢
    cases hb : M.back s with
    | ok s1 => simp only [hb] at h ⊢; exact ih h
    | error b => cases b <;> simp [hb] at h ⊢ <;> exact h
  | startToken k ih =>
    simp only [Prog.run, Prog.bind] at h ⊢
    cases hb : M.startToken s with
    | some s1 => simp only [hb] at h ⊢; exact ih h
    | none => simp [hb] at h
  | endToken k ih =>
    simp only [Prog.run, Prog.bind] at h ⊢
    cases hb : M.endToken s with
    | some s1 => simp only [hb] at h ⊢; exact ih _ h
    | none => simp [hb] at h
  | currentPos k ih => exact ih _ h

theorem AgreesJ.bind {α β : Type} {E : Bytes} {f e : RErr} {p : Prog α} {g : α → Prog β} {a : AScan}
    (h : AgreesJ E f e (p.run AScan.machine a) (p.run AScan.machine (a.ext E f)))
    (h2 : ∀ x s ts, p.run AScan.machine a = (ts, .ok x s) → s.fin = e →
      AgreesJ E f e ((g x).run AScan.machine s) ((g x).run AScan.machine (s.ext E f))) :
    AgreesJ E f e ((p.bind g).run AScan.machine a) ((p.bind g).run AScan.machine (a.ext E f)) := by
  obtain ⟨m, hm⟩ := run_bind_fst AScan.machine p g (a.ext E f)
  generalize hx : p.run AScan.machine a = x at h h2
  generalize hy : p.run AScan.machine (a.ext E f) = y at h
  obtain ⟨xs, x⟩ := x
  obtain ⟨ys, y⟩ := y
  rcases h with ⟨pre, c, more, h1, h3, h4, h5⟩ | ⟨h1, h3⟩
  · simp only at h1 h3 h5
    subst h5
    rw [run_bind_fail hx]
    refine .inl ⟨pre, c, more ++ m, h1, ?_, h4, rfl⟩
    rw [hm, hy, h3]
    simp
  · simp only at h1 h3
    subst h1
    cases x with
    | ok v s =>
      obtain ⟨rfl, hf⟩ := h3
      rw [run_bind_ok hx, run_bind_ok hy]
      rcases h2 v s _ rfl hf with ⟨pre, c, more, h1, h3, h4, h5⟩ | ⟨h1, h3⟩
      · exact .inl ⟨xs ++ pre, c, more, by simp [h1], by simp [h3], h4, h5⟩
      · exact .inr ⟨by simp [h1], h3⟩
    | fail z => cases h3; rw [run_bind_fail hx, run_bind_fail hy]; exact .inr ⟨rfl, rfl⟩
    | panic => cases h3; rw [Prog.run_bind_panic hx, Prog.run_bind_panic hy]; exact .inr ⟨rfl, rfl⟩
    | stuck => cases h3; rw [run_bind_stuck hx, run_bind_stuck hy]; exact .inr ⟨rfl, rfl⟩
    | oof => cases h3; rw [run_bind_oof hx, run_bind_oof hy]; exact .inr ⟨rfl, rfl⟩

theorem AgreesJ.guard {α : Type} {E : Bytes} {f e : RErr} {p : Prog α} {a : AScan}
    (h : AgreesJ E f e (p.run AScan.machine a) (p.run AScan.machine (a.ext E f))) (last : List Scalar) :
    AgreesJ E f e ((Jpv.guarded last p).run AScan.machine a) ((Jpv.guarded last p).run AScan.machine (a.ext E f)) := by
  rw [Prog.run_guarded, Prog.run_guarded]
  exact h.guarded (closers_unwind _ _)


open JpvPure

theorem agreesJ_produce {whole : Bytes} {e : RErr} (he : e ≠ .eof) (E : Bytes) (f : RErr) (vfuel n : Nat) :
    ∀ (pl : List Scalar) (r : Bytes) (a : AScan) (last : Bool),
    2 * r.length + 1 ≤ vfuel → r.length + 1 ≤ n → At whole e a none last r →
    AgreesJ E f e ((Jpv.produce vfuel n pl).run AScan.machine a) ((Jpv.produce vfuel n pl).run AScan.machine (a.ext E f)) := by
  have hA : Json.Allowed (fun _ => True) (fun _ => True) := ⟨fun _ _ _ => trivial, fun _ => trivial⟩
  induction n with
  | zero => intro pl r a last _ h; omega
  | succ n ih =>
    intro pl r a last hv hn h
    rw [Jpv.produce]
    refine AgreesJ.bind (((lockstep (C := False) (R := fun _ => True) Tame.skPk E f he a h.fin).toJ (fun h => h.elim)).guard pl) ?_
    intro b a1 ts1 hr1 hf1
    by_cases hb : b = eofByte
    · simp only [hb, if_true]
      rw [run_sendAll', run_sendAll']
      exact .inr ⟨rfl, rfl, hf1⟩
    simp only [hb, if_false]
    refine AgreesJ.bind (((lockstep (Jpv.tame_lineHead hA (fun _ => trivial) _ _) E f he a1 hf1).toJ (fun h => h.elim)).guard pl) ?_
    intro p a2 ts2 hr2 hf2
    -- where the decoder is after the beginning of the line
    obtain ⟨r2, hat2, hle2⟩ : ∃ r2, At whole e a2 none false r2 ∧ r2.length < r.length := by
      rw [run_guarded] at hr1 hr2
      cases hw : Pure.ws r with
      | nil =>
        have h1 := (h.run_skPk_nil hw).2 he
        rw [h1] at hr1
        simp [guardRes] at hr1
      | cons b' r' =>
        obtain ⟨a', h3, h4⟩ := h.run_skPk hw
        rw [h3] at hr1
        simp only [guardRes, Prod.mk.injEq, Out.ok.injEq] at hr1
        obtain ⟨_, rfl, rfl⟩ := hr1
        have hl := Pure.ws_le r
        rw [hw, List.length_cons] at hl
        have hh := corrH_head pl (last := false) (fuel := vfuel) (h := by simpa using h4) (by omega)
        cases hp : JpvPure.head e vfuel pl (b' :: r') with
        | error e =>
          rw [hp] at hh
          cases e <;> simp only [CorrH] at hh <;> rw [hh] at hr2 <;> simp [guardRes] at hr2
        | ok x =>
          obtain ⟨⟨ts, p'⟩, r2⟩ := x
          rw [hp] at hh
          have hle := head_le hp
          obtain ⟨a3, h5, h6⟩ := hh
          rw [h5] at hr2
          simp only [guardRes, Prod.mk.injEq, Out.ok.injEq] at hr2
          obtain ⟨_, rfl, rfl⟩ := hr2
          exact ⟨r2, h6, by omega⟩
    have hval := (corrP vfuel).1 r2 a2 false (by omega) hat2
    have hfit := (Pure.fits e vfuel).1 r2 (by omega)
    refine AgreesJ.bind (((lockstep (Json.tame_values hA (C := True) trivial vfuel).1 E f he a2 hf2).toJ (fun _ hpan => ?_)).guard p) ?_
    · generalize Pure.value e vfuel r2 = x at hval
      obtain ⟨vs, x⟩ := x
      match x, hval with
      | none, h => simp only [CorrP] at h; rw [h] at hpan; cases hpan
      | some (.error y), h => simp only [CorrP] at h; rw [h] at hpan; cases hpan
      | some (.ok y), ⟨a', h, _⟩ => rw [h] at hpan; cases hpan
    · intro u a3 ts3 hr3 hf3
      rw [run_guarded] at hr3
      generalize Pure.value e vfuel r2 = x at hval hfit
      obtain ⟨vs, x⟩ := x
      match x, hval with
      | none, h => simp only [CorrP] at h; rw [h] at hr3; simp [guardRes] at hr3
      | some (.error y), h => simp only [CorrP] at h; rw [h] at hr3; simp [guardRes] at hr3
      | some (.ok y), ⟨a', h, hat3⟩ =>
        rw [h] at hr3
        simp only [guardRes, Prod.mk.injEq, Out.ok.injEq] at hr3
        obtain ⟨_, _, rfl⟩ := hr3
        simp only [Pure.Fits] at hfit
        exact ih p y a' false (by omega) (by omega) hat3

/-- The errors that can occur in an input without the byte 0xFF that ends with a reader error. -/
def JKind (fin : RErr) : JErr → Prop
  | .perr (.io x) => x = fin
  | _ => True

theorem At.suffix {whole : Bytes} {fin : RErr} {a : AScan} {tok : Option Bytes} {last : Bool} {r : Bytes} (h : At whole fin a tok last r) :
    r <:+ whole := by
  obtain ⟨d, h3, _⟩ := h.split
  exact ⟨d, by simp [h3]⟩

theorem kind_produce {fin : RErr} (he : fin ≠ .eof) (vfuel n : Nat) : ∀ (pl : List Scalar) (r : Bytes),
    2 * r.length + 1 ≤ vfuel → r.length + 1 ≤ n → eofByte ∉ r →
    ∃ e, (JpvPure.produce fin vfuel n pl r).2 = some (.error e) ∧ JKind fin e := by
  have hA : Json.Allowed (fun b => b ≠ eofByte) (fun e => ∀ e', e ≠ .io e') := ⟨fun _ _ _ _ h => (by cases h), fun h => absurd rfl h⟩
  induction n with
  | zero => intro pl r _ h; omega
  | succ n ih =>
    intro pl r hv hn hr
    rw [JpvPure.produce]
    cases hw : Pure.ws r with
    | nil => exact ⟨.perr (.io fin), by simp only [if_neg he], rfl⟩
    | cons b r' =>
      have hsuf : (b :: r') <:+ r := by rw [← hw]; exact List.dropWhile_suffix _
      have hr1 : eofByte ∉ b :: r' := fun hm => hr (hsuf.subset hm)
      have hb : b ≠ eofByte := fun hb => hr1 (by simp [hb])
      have hl := hsuf.length_le
      simp only [List.length_cons] at hl
      simp only [hb, if_false]
      have hh := corrH_head pl (last := false) (fuel := vfuel) (At.new (b :: r') fin) (by omega)
      cases hp : JpvPure.head fin vfuel pl (b :: r') with
      | error e =>
        rw [hp] at hh
        match e, hh with
        | .panic, _ => exact ⟨_, rfl, trivial⟩
        | .plain m, _ => exact ⟨_, rfl, trivial⟩
        | .perr (.syn m s), _ => exact ⟨_, rfl, trivial⟩
        | .perr (.io x), hh =>
          refine ⟨_, rfl, ?_⟩
          exact only_reader_error (Jpv.tame_lineHead hA (fun _ _ h => (by cases h)) vfuel pl) he (AScan.new (b :: r') fin) rfl hr1
            (by simp [AScan.new]) x (by simp only [CorrH] at hh; rw [hh]; rfl)
      | ok x =>
        obtain ⟨⟨ts, p⟩, r2⟩ := x
        rw [hp] at hh
        have hle := head_le hp
        obtain ⟨a2, h5, h6⟩ := hh
        have hr2 : eofByte ∉ r2 := fun hm => hr1 (h6.suffix.subset hm)
        have hval := (corrP vfuel).1 r2 (AScan.new r2 fin) false (by omega) (At.new r2 fin)
        have hfit := (Pure.fits fin vfuel).1 r2 (by omega)
        simp only [JpvPure.line]
        generalize Pure.value fin vfuel r2 = x at hval hfit
        obtain ⟨vs, x⟩ := x
        match x, hval, hfit with
        | none, _, hfit => exact hfit.elim
        | some (.error (.syn m s)), _, _ => exact ⟨_, rfl, trivial⟩
        | some (.error (.io y)), h, _ =>
          refine ⟨_, rfl, ?_⟩
          exact only_reader_error (Json.tame_values hA (C := True) trivial vfuel).1 he (AScan.new r2 fin) rfl hr2
            (by simp [AScan.new]) y (by simp only [CorrP] at h; rw [h]; rfl)
        | some (.ok r3), ⟨a', h, hat⟩, hfit =>
          simp only [Pure.Fits] at hfit
          exact ih p r3 (by omega) (by omega) fun hm => hr2 (hat.suffix.subset hm)

/-- The result for an input with enough fuel. -/
theorem jpv_result (D : Bytes) (fin : RErr) {v n : Nat} (hv : 2 * D.length + 1 ≤ v) (hn : D.length + 1 ≤ n) :
    (Jpv.produce v n []).result AScan.machine (AScan.new D fin) = outOfJ D fin (JpvPure.produce fin v n [] D) :=
  (corrR_produce v n [] D (AScan.new D fin) false hv hn (At.new D fin)).result


/-! ## The fuel does not matter -/

theorem path_mono (fin : RErr) (n : Nat) : ∀ (p : List Scalar) (r : Bytes) (m : Nat), r.length < n → n ≤ m →
    JpvPure.path fin m p r = JpvPure.path fin n p r := by
  induction n with
  | zero => intro p r m h; omega
  | succ n ih =>
    intro p r m h hm
    obtain ⟨m, rfl⟩ : ∃ k, m = k + 1 := ⟨m - 1, by omega⟩
    rw [JpvPure.path, JpvPure.path]
    cases hc : Pure.chk fin r with
    | error e => rfl
    | ok x =>
      have hl := congrArg List.length (Pure.chk_ok hc).1
      simp only [List.length_cons] at hl
      simp only [up, Except.bind]
      split
      · cases hb : JpvPure.bracket fin x.2 with
        | error e => rfl
        | ok k => have := bracket_le hb; exact ih _ _ _ (by omega) (by omega)
      · split
        · cases hb : JpvPure.dotted fin x.2 with
          | error e => rfl
          | ok k => have := dotted_le hb; exact ih _ _ _ (by omega) (by omega)
        · rfl

theorem head_mono (fin : RErr) {n m : Nat} (pl : List Scalar) {b : Byte} {r : Bytes} (h : r.length < n) (hm : n ≤ m) :
    JpvPure.head fin m pl (b :: r) = JpvPure.head fin n pl (b :: r) := by
  rw [JpvPure.head, JpvPure.head, path_mono fin n [] r m h hm]

theorem jproduce_mono (fin : RErr) (n : Nat) : ∀ (pl : List Scalar) (r : Bytes) (v v' m : Nat), 2 * r.length + 1 ≤ v → v ≤ v' →
    r.length + 1 ≤ n → n ≤ m → JpvPure.produce fin v' m pl r = JpvPure.produce fin v n pl r := by
  induction n with
  | zero => intro pl r v v' m _ _ h; omega
  | succ n ih =>
    intro pl r v v' m hv hv' hn hm
    obtain ⟨m, rfl⟩ : ∃ k, m = k + 1 := ⟨m - 1, by omega⟩
    rw [JpvPure.produce, JpvPure.produce]
    cases hw : Pure.ws r with
    | nil => rfl
    | cons b r' =>
      have hl := Pure.ws_le r
      rw [hw, List.length_cons] at hl
      simp only
      split
      · rfl
      · rw [head_mono fin pl (n := v) (m := v') (by omega) hv']
        cases hp : JpvPure.head fin v pl (b :: r') with
        | error e => cases e <;> rfl
        | ok x =>
          obtain ⟨⟨ts, p⟩, r2⟩ := x
          have hle := head_le hp
          simp only [JpvPure.line]
          rw [(Pure.mono fin v).1 r2 v' (by omega) hv']
          have hfit := (Pure.fits fin v).1 r2 (by omega)
          generalize Pure.value fin v r2 = x at hfit
          obtain ⟨vs, x⟩ := x
          match x with
          | none => rfl
          | some (.error e) => rfl
          | some (.ok r3) =>
            simp only [Pure.Fits] at hfit
            simp only [body]
            rw [ih p r3 v v' m (by omega) hv' (by omega) (by omega)]

/-- A run on an input cut off by an error of the reader and a run on an extension of it. -/
theorem jpv_prefix (r₁ r₂ : Reader) (size₁ size₂ : Nat) (h₁ : 2 ≤ size₁) (h₂ : 2 ≤ size₂) (hf₂ : Fair r₂.sched)
    (D E : Bytes) (e : RErr) (he : e ≠ .eof) (hd : Delivers r₁ D e) (hr : r₂.rest = D ++ E)
    (hx : Jpv.decodeFrom r₁ size₁ =
      outOfJ D e (JpvPure.produce e (Json.fuelFor r₁.rest.length) (Json.fuelFor r₁.rest.length) [] D)) :
    (∃ pre cl more, (Jpv.decodeFrom r₁ size₁).1 = pre ++ cl ∧ (Jpv.decodeFrom r₂ size₂).1 = pre ++ more ∧ Closers cl ∧
      (Jpv.decodeFrom r₁ size₁).2 = .fail (.io e)) ∨
    Jpv.decodeFrom r₁ size₁ = Jpv.decodeFrom r₂ size₂ := by
  rw [hx, jpvDecodeFrom_fair r₂ size₂ h₂ hf₂, hr]
  have hl := hd.le
  have hv : ∀ n : Nat, 2 * n + 1 ≤ Json.fuelFor n := by intro n; unfold Json.fuelFor; omega
  have hl2 : D.length ≤ (D ++ E).length := by simp
  generalize hN : Json.fuelFor r₁.rest.length + Json.fuelFor (D ++ E).length = N
  have e1 := hv r₁.rest.length
  have e2 := hv (D ++ E).length
  rw [← jproduce_mono e (Json.fuelFor r₁.rest.length) [] D (Json.fuelFor r₁.rest.length) N N (by omega) (by omega) (by omega) (by omega)]
  rw [← jproduce_mono r₂.fin (Json.fuelFor (D ++ E).length) [] (D ++ E) (Json.fuelFor (D ++ E).length) N N (by omega) (by omega) (by omega) (by omega)]
  have h := agreesJ_produce (whole := D) he E r₂.fin N N [] D (AScan.new D e) false (by omega) (by omega) (At.new D e)
  rw [← jpv_result D e (v := N) (n := N) (by omega) (by omega), ← jpv_result (D ++ E) r₂.fin (v := N) (n := N) (by omega) (by omega)]
  unfold Prog.result
  rcases h with ⟨pre, cl, more, h1, h2, h3, h4⟩ | ⟨h1, h2⟩
  · exact .inl ⟨pre, cl, more, h1, h2, h3, by rw [h4]; rfl⟩
  · exact .inr (Prod.ext h1 h2.erase)

end Verif
