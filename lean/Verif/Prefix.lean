import Verif.JsonStream

/-!
# Inputs with a common prefix (helper lemmas)
-/

set_option linter.unusedVariables false

namespace Verif

namespace Prog

/-- The program returns reader errors at once (or panics, if `C`), uses only bytes for which `Q` holds, makes errors
for which `P` holds and returns results for which `R` holds. -/
inductive Tame (C : Prop) (Q : Byte → Prop) (P : Err → Prop) {α : Type} (R : α → Prop) : Prog α → Prop
  | ret {a} : R a → Tame C Q P R (.ret a)
  | fail {e} : P e → Tame C Q P R (.fail e)
  | crash : Tame C Q P R .crash
  | oof : Tame C Q P R .oof
  | emit (t) {k} : Tame C Q P R k → Tame C Q P R (.emit t k)
  | read {k} : (∀ e, k (.error e) = .fail (.io e) ∨ C ∧ k (.error e) = .crash) → (∀ b, Q b → Tame C Q P R (k (.ok b))) → Tame C Q P R (.read k)
  | peek {k} : (∀ e, k (.error e) = .fail (.io e) ∨ C ∧ k (.error e) = .crash) → (∀ b, Q b → Tame C Q P R (k (.ok b))) → Tame C Q P R (.peek k)
  | skipPeek {k} : (∀ e, k (.error e) = .fail (.io e) ∨ C ∧ k (.error e) = .crash) → (∀ b, Q b → Tame C Q P R (k (.ok b))) →
      Tame C Q P R (.skipPeek k)
  | skipRead {k} : (∀ e, k (.error e) = .fail (.io e) ∨ C ∧ k (.error e) = .crash) → (∀ b, Q b → Tame C Q P R (k (.ok b))) →
      Tame C Q P R (.skipRead k)
  | back {k} : Tame C Q P R k → Tame C Q P R (.back k)
  | startToken {k} : Tame C Q P R k → Tame C Q P R (.startToken k)
  | endToken {k} : (∀ b, Tame C Q P R (k b)) → Tame C Q P R (.endToken k)
  | currentPos {k} : (∀ p, Tame C Q P R (k p)) → Tame C Q P R (.currentPos k)

variable {C : Prop} {Q : Byte → Prop} {P : Err → Prop} {α β : Type} {R : α → Prop} {R' : β → Prop}

theorem Tame.bind {p : Prog α} (h : Tame C Q P R p) {f : α → Prog β} (hf : ∀ x, R x → Tame C Q P R' (f x)) : Tame C Q P R' (p.bind f) := by
  have key : ∀ {k : Rd → Prog α} {e}, k (.error e) = .fail (.io e) ∨ C ∧ k (.error e) = .crash →
      (k (.error e)).bind f = .fail (.io e) ∨ C ∧ (k (.error e)).bind f = .crash := by
    rintro k e (h | ⟨hc, h⟩) <;> rw [h]
    · exact .inl rfl
    · exact .inr ⟨hc, rfl⟩
  induction h with
  | ret h => exact hf _ h
  | fail h => exact .fail h
  | crash => exact .crash
  | oof => exact .oof
  | emit t _ ih => exact .emit t ih
  | read h1 _ ih => exact .read (fun e => key (h1 e)) ih
  | peek h1 _ ih => exact .peek (fun e => key (h1 e)) ih
  | skipPeek h1 _ ih => exact .skipPeek (fun e => key (h1 e)) ih
  | skipRead h1 _ ih => exact .skipRead (fun e => key (h1 e)) ih
  | back _ ih => exact .back ih
  | startToken _ ih => exact .startToken ih
  | endToken _ ih => exact .endToken ih
  | currentPos _ ih => exact .currentPos ih

theorem Tame.rd : Tame C Q P Q rd := .read (fun e => .inl rfl) (fun b h => .ret h)
theorem Tame.pk : Tame C Q P Q pk := .peek (fun e => .inl rfl) (fun b h => .ret h)
theorem Tame.skPk : Tame C Q P Q skPk := .skipPeek (fun e => .inl rfl) (fun b h => .ret h)
theorem Tame.skRd : Tame C Q P Q skRd := .skipRead (fun e => .inl rfl) (fun b h => .ret h)
theorem Tame.rdIgnore (hC : C) : Tame C Q P (fun _ => True) rdIgnore := .read (fun e => .inr ⟨hC, rfl⟩) (fun b _ => .ret trivial)
theorem Tame.send (t : Token) : Tame C Q P (fun _ => True) (send t) := .emit t (.ret trivial)
theorem Tame.goBack : Tame C Q P (fun _ => True) goBack := .back (.ret trivial)
theorem Tame.start : Tame C Q P (fun _ => True) start := .startToken (.ret trivial)
theorem Tame.finish : Tame C Q P (fun _ => True) finish := .endToken fun b => .ret trivial

theorem Tame.ite {c : Prop} [Decidable c] {p q : Prog α} (hp : Tame C Q P R p) (hq : Tame C Q P R q) :
    Tame C Q P R (if c then p else q) := by split <;> assumption

end Prog

namespace Json
open Prog

/-- Conditions for the JSON decoder: syntax errors are allowed, and the error `io.EOF` is if the
byte 0xFF can be read. -/
structure Allowed (Q : Byte → Prop) (P : Err → Prop) : Prop where
  syn : ∀ p m g, P (.syn p m g)
  eof : Q eofByte → P (.io .eof)

variable {C : Prop} {Q : Byte → Prop} {P : Err → Prop} (hA : Allowed Q P)
include hA

theorem tame_checkEOF {b : Byte} (h : Q b) : Tame C Q P Q (checkEOF b) := by
  unfold checkEOF
  split
  · rename_i hb; subst hb; exact .fail (hA.eof h)
  · exact .ret h

theorem tame_unexpected {α : Type} {R : α → Prop} (msg : String) : Tame C Q P R (unexpected msg : Prog α) :=
  .currentPos fun _ => Tame.rd.bind fun _ _ => .fail (hA.syn _ _ _)

theorem tame_bad {α : Type} {R : α → Prop} (msg : String) : Tame C Q P R (goBack.bind fun _ => (unexpected msg : Prog α)) :=
  Tame.goBack.bind fun _ _ => tame_unexpected hA msg

theorem tame_expectByte (x : Byte) : Tame C Q P (fun _ => True) (expectByte x) :=
  Tame.rd.bind fun _ _ => .ite (tame_bad hA _) (.ret trivial)

theorem tame_checkBytes (xs : Bytes) : Tame C Q P (fun _ => True) (checkBytes xs) := by
  induction xs with
  | nil => exact .ret trivial
  | cons x xs ih => exact (tame_expectByte hA x).bind fun _ _ => ih

theorem tame_rdChk : Tame C Q P Q rdChk := Tame.rd.bind fun _ h => tame_checkEOF hA h

theorem tame_hexLoop (n : Nat) : Tame C Q P (fun _ => True) (hexLoop n) := by
  induction n with
  | zero => exact .ret trivial
  | succ n ih => exact (tame_rdChk hA).bind fun _ _ => .ite ih (tame_bad hA _)

theorem tame_stringLoop (fuel : Nat) : ∀ al un first, Tame C Q P (fun _ => True) (stringLoop fuel al un first) := by
  induction fuel with
  | zero => intro _ _ _; exact .oof
  | succ n ih =>
    intro al un first
    refine (tame_rdChk hA).bind fun b _ => .ite ?_ (.ite ?_ (.ite (tame_bad hA _) (.ite (.ite (ih _ _ _) (ih _ _ _)) (ih _ _ _))))
    · exact (tame_rdChk hA).bind fun x _ => .ite ((tame_hexLoop hA 4).bind fun _ _ => ih _ _ _) (ih _ _ _)
    · exact Tame.finish.bind fun _ _ => .ret trivial

theorem tame_parseString (fuel : Nat) : Tame C Q P (fun _ => True) (parseString fuel) :=
  Tame.start.bind fun _ _ => (tame_expectByte hA _).bind fun _ _ => tame_stringLoop hA _ _ _ _

omit hA in
theorem tame_readDigits (fuel : Nat) : ∀ n, Tame C Q P (fun x => Q x.1) (readDigits fuel n) := by
  induction fuel with
  | zero => intro _; exact .oof
  | succ n ih => intro k; exact Tame.rd.bind fun b h => .ite (.ret h) (ih _)

theorem tame_numberExp (hC : C) (fuel : Nat) (b : Byte) : Tame C Q P (fun _ => True) (numberExp fuel b) := by
  have hd : Tame C Q P (fun _ => True) (goBack.bind fun _ => finish.bind fun bs => (.ret { bytes := bs, type := .num } : Prog Scalar)) :=
    Tame.goBack.bind fun _ _ => Tame.finish.bind fun _ _ => .ret trivial
  exact .ite (Tame.pk.bind fun _ _ => (Tame.ite (Tame.rdIgnore hC) (.ret trivial)).bind fun _ _ =>
    (tame_readDigits _ _).bind fun _ _ => .ite (tame_bad hA _) hd) hd

theorem tame_numberFrac (hC : C) (fuel : Nat) (b : Byte) : Tame C Q P (fun _ => True) (numberFrac fuel b) :=
  .ite ((tame_readDigits _ _).bind fun _ _ => .ite (tame_bad hA _) (tame_numberExp hA hC _ _)) (tame_numberExp hA hC _ _)

theorem tame_numberInt (hC : C) (fuel : Nat) {b : Byte} (h : Q b) : Tame C Q P (fun _ => True) (numberInt fuel b) :=
  (tame_checkEOF hA h).bind fun _ _ => .ite (Tame.rd.bind fun _ _ => tame_numberFrac hA hC _ _)
    (.ite ((tame_readDigits _ _).bind fun _ _ => tame_numberFrac hA hC _ _) (tame_bad hA _))

theorem tame_parseNumber (hC : C) (fuel : Nat) : Tame C Q P (fun _ => True) (parseNumber fuel) :=
  Tame.start.bind fun _ _ => Tame.rd.bind fun _ h =>
    .ite (Tame.rd.bind fun _ h => tame_numberInt hA hC _ h) (tame_numberInt hA hC _ h)

theorem tame_values (hC : C) (n : Nat) : Tame C Q P (fun _ => True) (parseValue n) ∧ Tame C Q P (fun _ => True) (items n) ∧
    Tame C Q P (fun _ => True) (members n) := by
  induction n with
  | zero => exact ⟨.oof, .oof, .oof⟩
  | succ n ih =>
    obtain ⟨hv, hi, hm⟩ := ih
    refine ⟨?_, ?_, ?_⟩
    · rw [parseValue]
      refine Tame.skPk.bind fun b h => (tame_checkEOF hA h).bind fun b _ => ?_
      refine .ite ((tame_parseString hA _).bind fun _ _ => .send _) (.ite ?_ (.ite ?_ (.ite ?_ (.ite ?_ (.ite ?_ (.ite ?_ ?_))))))
      · exact (tame_expectByte hA _).bind fun _ _ => (Tame.send _).bind fun _ _ => Tame.skPk.bind fun b h =>
          (tame_checkEOF hA h).bind fun b _ => .ite ((Tame.rdIgnore hC).bind fun _ _ => .send _) hi
      · exact (tame_expectByte hA _).bind fun _ _ => (Tame.send _).bind fun _ _ => Tame.skPk.bind fun b h =>
          (tame_checkEOF hA h).bind fun b _ => .ite ((Tame.rdIgnore hC).bind fun _ _ => .send _) hm
      · exact (tame_checkBytes hA _).bind fun _ _ => .send _
      · exact (tame_checkBytes hA _).bind fun _ _ => .send _
      · exact (tame_checkBytes hA _).bind fun _ _ => .send _
      · exact (tame_parseNumber hA hC _).bind fun _ _ => .send _
      · exact tame_unexpected hA _
    · rw [items]
      exact hv.bind fun _ _ => Tame.skPk.bind fun b h => (tame_checkEOF hA h).bind fun b _ =>
        .ite ((Tame.rdIgnore hC).bind fun _ _ => .send _) (.ite ((Tame.rdIgnore hC).bind fun _ _ => hi) (tame_unexpected hA _))
    · rw [members]
      exact (tame_parseString hA _).bind fun _ _ => (Tame.send _).bind fun _ _ => Tame.skPk.bind fun b h =>
        (tame_checkEOF hA h).bind fun b _ => .ite (tame_unexpected hA _) <| (Tame.rdIgnore hC).bind fun _ _ =>
        hv.bind fun _ _ => Tame.skPk.bind fun b h => (tame_checkEOF hA h).bind fun b _ =>
        .ite ((Tame.rdIgnore hC).bind fun _ _ => .send _) (.ite
          ((Tame.rdIgnore hC).bind fun _ _ => Tame.skPk.bind fun b h => (tame_checkEOF hA h).bind fun _ _ => hm) (tame_unexpected hA _))

theorem tame_produce (hC : C) (v n : Nat) : Tame C Q P (fun _ => True) (produce v n) := by
  induction n with
  | zero => exact .oof
  | succ n ih => exact Tame.skPk.bind fun b _ => .ite (.ret trivial) ((tame_values hA hC v).1.bind fun _ _ => ih)

end Json

/-! ## Running a program on an input and on an extension of it -/

/-- The same state with a longer input. -/
def AScan.ext (E : Bytes) (f : RErr) (a : AScan) : AScan := { a with rest := a.rest ++ E, fin := f }

theorem AScan.skip_ext (E : Bytes) (f : RErr) (l : Bytes) : ∀ a : AScan, a.rest = l →
    (a.skip l).rest = [] ∨ (a.ext E f).skip (l ++ E) = (a.skip l).ext E f := by
  induction l with
  | nil => intro a ha; exact .inl ha
  | cons b l ih =>
    intro a ha
    by_cases hs : isSpace b = true
    · rw [List.cons_append, AScan.skip, AScan.skip, if_pos hs, if_pos hs]
      have := ih { a with rest := l, hist := some b, tok := a.tok.map (· ++ [b]), pos := a.pos.adv b } rfl
      exact this
    · rw [List.cons_append, AScan.skip, AScan.skip, if_neg hs, if_neg hs]
      exact .inr rfl

theorem AScan.skip_fin (l : Bytes) : ∀ a : AScan, (a.skip l).fin = a.fin := by
  induction l with
  | nil => intro a; rfl
  | cons b l ih =>
    intro a
    rw [AScan.skip]
    split
    · rw [ih]
    · rfl

/-- The second run ends as the first does, with more input left. -/
def Out.Follows {α : Type} (E : Bytes) (f e : RErr) : Out AScan α → Out AScan α → Prop
  | .ok a s, y => y = .ok a (s.ext E f) ∧ s.fin = e
  | .fail x, y => y = .fail x
  | .panic, y => y = .panic
  | .stuck, y => y = .stuck
  | .oof, y => y = .oof

theorem Out.Follows.erase {α : Type} {E : Bytes} {f e : RErr} {x y : Out AScan α} (h : Out.Follows E f e x y) :
    x.erase = y.erase := by
  cases x <;> simp only [Out.Follows] at h
  · rw [h.1]; rfl
  all_goals rw [h]

/-- Comparison of two runs. -/
def Agrees {α : Type} (C : Prop) (E : Bytes) (f e : RErr) (x y : List Token × Out AScan α) : Prop :=
  ((∃ more, y.1 = x.1 ++ more) ∧ (x.2 = .fail (.io e) ∨ C ∧ x.2 = .panic)) ∨ (x.1 = y.1 ∧ Out.Follows E f e x.2 y.2)

theorem agrees_error {α : Type} {C : Prop} {E : Bytes} {f : RErr} {k : Rd → Prog α} {e : RErr} (h : k (.error e) = .fail (.io e) ∨ C ∧ k (.error e) = .crash)
    (s : AScan) (y) : Agrees C E f e ((k (.error e)).run AScan.machine s) y := by
  rcases h with h | ⟨hc, h⟩ <;> rw [h]
  · exact .inl ⟨⟨_, rfl⟩, .inl rfl⟩
  · exact .inl ⟨⟨_, rfl⟩, .inr ⟨hc, rfl⟩⟩

theorem lockstep {α : Type} {C : Prop} {R : α → Prop} {p : Prog α} (hp : p.Tame C (fun _ => True) (fun _ => True) R) (E : Bytes) (f : RErr)
    {e : RErr} (he : e ≠ .eof) : ∀ a : AScan, a.fin = e →
    Agrees C E f e (p.run AScan.machine a) (p.run AScan.machine (a.ext E f)) := by
  have hend : ∀ a : AScan, a.fin = e → a.atEnd = .error e := by
    intro a ha; unfold AScan.atEnd; rw [ha, if_neg he]
  induction hp with
  | ret _ => intro a ha; exact .inr ⟨rfl, rfl, ha⟩
  | fail _ => intro a ha; exact .inr ⟨rfl, rfl⟩
  | crash => intro a ha; exact .inr ⟨rfl, rfl⟩
  | oof => intro a ha; exact .inr ⟨rfl, rfl⟩
  | emit t _ ih =>
    intro a ha
    rcases ih a ha with ⟨⟨more, h1⟩, h2⟩ | ⟨h1, h2⟩
    · exact .inl ⟨⟨more, by simp only [Prog.run, h1, List.cons_append]⟩, h2⟩
    · exact .inr ⟨by simp only [Prog.run, h1], h2⟩
  | @read k h1 _ ih =>
    intro a ha
    simp only [Prog.run, AScan.machine, AScan.read]
    cases hr : a.rest with
    | nil => simp only [hend a ha]; exact agrees_error (h1 e) _ _
    | cons b r =>
      simp only [AScan.ext, hr, List.cons_append]
      exact ih b trivial (a.take1 b r) ha
  | @peek k h1 _ ih =>
    intro a ha
    simp only [Prog.run, AScan.machine, AScan.peek]
    cases hr : a.rest with
    | nil => simp only [hend a ha]; exact agrees_error (h1 e) _ _
    | cons b r =>
      have := ih b trivial a ha
      simp only [AScan.ext, hr, List.cons_append] at this ⊢
      exact this
  | @skipPeek k h1 _ ih =>
    intro a ha
    have hf : (a.skip a.rest).fin = e := by rw [AScan.skip_fin, ha]
    have hx : (a.ext E f).rest = a.rest ++ E := rfl
    simp only [Prog.run, AScan.machine, AScan.skipPeek, AScan.peek, hx]
    rcases AScan.skip_ext E f a.rest a rfl with h | h
    · simp only [h, hend _ hf]; exact agrees_error (h1 e) _ _
    · rw [h]
      generalize a.skip a.rest = a' at hf
      cases hr : a'.rest with
      | nil => simp only [hend a' hf]; exact agrees_error (h1 e) _ _
      | cons b r =>
        have := ih b trivial a' hf
        simp only [AScan.ext, hr, List.cons_append] at this ⊢
        exact this
  | @skipRead k h1 _ ih =>
    intro a ha
    have hf : (a.skip a.rest).fin = e := by rw [AScan.skip_fin, ha]
    have hx : (a.ext E f).rest = a.rest ++ E := rfl
    simp only [Prog.run, AScan.machine, AScan.skipRead, hx]
    rcases AScan.skip_ext E f a.rest a rfl with h | h
    · simp only [h, hend _ hf]; exact agrees_error (h1 e) _ _
    · rw [h]
      generalize a.skip a.rest = a' at hf
      cases hr : a'.rest with
      | nil => simp only [hend a' hf]; exact agrees_error (h1 e) _ _
      | cons b r =>
        simp only [AScan.ext, hr, List.cons_append]
        exact ih b trivial { a'.take1 b r with prevPos := a'.prevPos } hf
  | @back k _ ih =>
    intro a ha
    simp only [Prog.run, AScan.machine, AScan.back, AScan.ext]
    split
    · rename_i s hs
      split at hs
      · cases hs
      · rename_i hc
        rw [if_neg hc]
        cases hh : a.hist with
        | none => rw [hh] at hs; cases hs
        | some b =>
          rw [hh] at hs
          simp only at hs ⊢
          split at hs
          · rename_i h0
            rw [if_pos h0]
            cases hs
            exact ih _ ha
          · rename_i h0
            rw [if_neg h0]
            cases hs
            exact ih { a with rest := b :: a.rest, hist := none, tok := a.tok.map List.dropLast,
                              pos := a.prevPos, prevPos := ⟨-1, a.prevPos.col⟩ } ha
    · rename_i hs
      split at hs
      · rename_i hc
        rw [if_pos hc]
        exact .inr ⟨rfl, rfl⟩
      · cases hh : a.hist with
        | none => rw [hh] at hs; cases hs
        | some b => rw [hh] at hs; simp only at hs; split at hs <;> cases hs
    · rename_i hs
      split at hs
      · cases hs
      · rename_i hc
        rw [if_neg hc]
        cases hh : a.hist with
        | none => exact .inr ⟨rfl, rfl⟩
        | some b => rw [hh] at hs; simp only at hs; split at hs <;> cases hs
  | @startToken k _ ih =>
    intro a ha
    simp only [Prog.run, AScan.machine, AScan.startToken, AScan.ext]
    cases h : a.tok with
    | some t => exact .inr ⟨rfl, rfl⟩
    | none => exact ih { a with tok := some [], hist := none } ha
  | @endToken k _ ih =>
    intro a ha
    simp only [Prog.run, AScan.machine, AScan.endToken, AScan.ext]
    cases h : a.tok with
    | none => exact .inr ⟨rfl, rfl⟩
    | some t => exact ih t { a with tok := none } ha
  | @currentPos k _ ih => intro a ha; exact ih a.pos a ha

/-! ## Kinds of errors -/

theorem AScan.skip_rest (l : Bytes) : ∀ a : AScan, a.rest = l → eofByte ∉ l → a.hist ≠ some eofByte →
    eofByte ∉ (a.skip l).rest ∧ (a.skip l).hist ≠ some eofByte := by
  induction l with
  | nil => intro a ha h h'; exact ⟨by rw [show (a.skip []) = a from rfl, ha]; simp, h'⟩
  | cons b l ih =>
    intro a ha h h'
    rw [AScan.skip]
    split
    · exact ih _ rfl (fun hm => h (by simp [hm])) (by simp only [ne_eq, Option.some.injEq]; rintro rfl; simp at h)
    · rw [ha]; exact ⟨h, h'⟩

/-- A run on an input without the byte 0xFF that ends with a reader error other than `io.EOF`: this
is the only reader error that is returned. -/
theorem only_reader_error {α : Type} {C : Prop} {R : α → Prop} {p : Prog α}
    (hp : p.Tame C (fun b => b ≠ eofByte) (fun e => ∀ e', e ≠ .io e') R)
    {e : RErr} (he : e ≠ .eof) : ∀ a : AScan, a.fin = e → eofByte ∉ a.rest → a.hist ≠ some eofByte →
    ∀ e', (p.run AScan.machine a).2 = .fail (.io e') → e' = e := by
  have hend : ∀ a : AScan, a.fin = e → a.atEnd = .error e := by
    intro a ha; unfold AScan.atEnd; rw [ha, if_neg he]
  have herr : ∀ {k : Rd → Prog α}, k (.error e) = .fail (.io e) ∨ C ∧ k (.error e) = .crash → ∀ s e',
      ((k (.error e)).run AScan.machine s).2 = .fail (.io e') → e' = e := by
    rintro k (h | ⟨_, h⟩) s e' h' <;> rw [h] at h' <;> simp only [Prog.run] at h'
    · cases h'; rfl
    · cases h'
  have hne : ∀ {b : Byte} {r : Bytes}, eofByte ∉ b :: r → b ≠ eofByte ∧ eofByte ∉ r := by
    intro b r h; simp only [List.mem_cons, not_or] at h; exact ⟨fun h' => h.1 h'.symm, h.2⟩
  have hso : ∀ {b : Byte}, b ≠ eofByte → some b ≠ some eofByte := fun h h' => h (Option.some.inj h')
  induction hp with
  | ret _ => intro a ha _ _ e' h; cases h
  | fail h => intro a ha _ _ e' h'; cases h'; exact absurd rfl (h e')
  | crash => intro a ha _ _ e' h; cases h
  | oof => intro a ha _ _ e' h; cases h
  | emit t _ ih => intro a ha h1 h2 e' h; exact ih a ha h1 h2 e' h
  | @read k h1 _ ih =>
    intro a ha hr hh e'
    simp only [Prog.run, AScan.machine, AScan.read]
    cases hx : a.rest with
    | nil => simp only [hend a ha]; exact herr (h1 e) _ _
    | cons b r =>
      rw [hx] at hr
      exact ih b (hne hr).1 (a.take1 b r) ha (hne hr).2 (hso (hne hr).1) e'
  | @peek k h1 _ ih =>
    intro a ha hr hh e'
    simp only [Prog.run, AScan.machine, AScan.peek]
    cases hx : a.rest with
    | nil => simp only [hend a ha]; exact herr (h1 e) _ _
    | cons b r =>
      exact ih b (hne (hx ▸ hr)).1 a ha hr hh e'
  | @skipPeek k h1 _ ih =>
    intro a ha hr hh e'
    have hf : (a.skip a.rest).fin = e := by rw [AScan.skip_fin, ha]
    obtain ⟨hr', hh'⟩ := AScan.skip_rest a.rest a rfl hr hh
    simp only [Prog.run, AScan.machine, AScan.skipPeek, AScan.peek]
    generalize a.skip a.rest = a' at hf hr' hh'
    cases hx : a'.rest with
    | nil => simp only [hend a' hf]; exact herr (h1 e) _ _
    | cons b r => exact ih b (hne (hx ▸ hr')).1 a' hf hr' hh' e'
  | @skipRead k h1 _ ih =>
    intro a ha hr hh e'
    have hf : (a.skip a.rest).fin = e := by rw [AScan.skip_fin, ha]
    obtain ⟨hr', hh'⟩ := AScan.skip_rest a.rest a rfl hr hh
    simp only [Prog.run, AScan.machine, AScan.skipRead]
    generalize a.skip a.rest = a' at hf hr' hh'
    cases hx : a'.rest with
    | nil => simp only [hend a' hf]; exact herr (h1 e) _ _
    | cons b r =>
      rw [hx] at hr'
      exact ih b (hne hr').1 { a'.take1 b r with prevPos := a'.prevPos } hf (hne hr').2 (hso (hne hr').1) e'
  | @back k _ ih =>
    intro a ha hr hh e'
    simp only [Prog.run, AScan.machine, AScan.back]
    split
    · rename_i s hs
      split at hs
      · cases hs
      · cases hb : a.hist with
        | none => rw [hb] at hs; cases hs
        | some b =>
          rw [hb] at hs
          simp only at hs
          have hbne : b ≠ eofByte := fun h => hh (by rw [hb, h])
          split at hs
          · cases hs
            exact ih { a with hist := some b, eofCount := a.eofCount - 1 } ha hr (hso hbne) e'
          · cases hs
            exact ih { a with rest := b :: a.rest, hist := none, tok := a.tok.map List.dropLast,
                              pos := a.prevPos, prevPos := ⟨-1, a.prevPos.col⟩ } ha
              (by simp only [List.mem_cons, not_or]; exact ⟨fun h => hbne h.symm, hr⟩) (by simp) e'
    · intro h; cases h
    · intro h; cases h
  | @startToken k _ ih =>
    intro a ha hr hh e'
    simp only [Prog.run, AScan.machine, AScan.startToken]
    cases h : a.tok with
    | some t => intro h; cases h
    | none => exact ih { a with tok := some [], hist := none } ha hr (by simp) e'
  | @endToken k _ ih =>
    intro a ha hr hh e'
    simp only [Prog.run, AScan.machine, AScan.endToken]
    cases h : a.tok with
    | none => intro h; cases h
    | some t => exact ih t { a with tok := none } ha hr hh e'
  | @currentPos k _ ih => intro a ha hr hh e'; exact ih a.pos a ha hr hh e'

/-- A run on the unbuffered scanner, for any sufficient fuel. -/
theorem produce_result (D : Bytes) (fin : RErr) {v n : Nat} (hv : Json.fuelFor D.length ≤ v) (hn : Json.fuelFor D.length ≤ n) :
    (Json.produce v n).result AScan.machine (AScan.new D fin) = outOf D fin (Pure.decode fin D) := by
  have hc := (corrP_produce v n D (AScan.new D fin) false
    (by unfold Json.fuelFor at hv; omega) (by unfold Json.fuelFor at hn; omega) (At.new D fin)).result
  rw [hc, Pure.decode_eq fin D hv hn]

end Verif

namespace Verif
open Rfc8259

theorem outOf_ne_panic (D : Bytes) (fin : RErr) (x : Pure.PRes) : (outOf D fin x).2 ≠ .panic := by
  obtain ⟨ts, x⟩ := x
  match x with
  | none => simp [outOf]
  | some (.error e) => simp [outOf]
  | some (.ok r) => simp [outOf]

theorem Out.erase_fail {σ α : Type} {o : Out σ α} {e : Err} (h : o.erase = .fail e) : o = .fail e := by
  cases o <;> simp_all [Out.erase]

/-- A run on an input cut off by an error of the reader and a run on an extension of it. -/
theorem outOf_prefix (D E : Bytes) (f : RErr) {e : RErr} (he : e ≠ .eof) :
    ((outOf D e (Pure.decode e D)).1 <+: (outOf (D ++ E) f (Pure.decode f (D ++ E))).1 ∧
      (outOf D e (Pure.decode e D)).2 = .fail (.io e)) ∨
    outOf D e (Pure.decode e D) = outOf (D ++ E) f (Pure.decode f (D ++ E)) := by
  have hn : Json.fuelFor D.length ≤ Json.fuelFor (D ++ E).length := by unfold Json.fuelFor; simp; omega
  have hp := Json.tame_produce (C := True) (Q := fun _ => True) (P := fun _ => True) ⟨fun _ _ _ => trivial, fun _ => trivial⟩ trivial
    (Json.fuelFor (D ++ E).length) (Json.fuelFor (D ++ E).length)
  have h := lockstep hp E f he (AScan.new D e) rfl
  have h1 := produce_result D e hn hn
  have h2 := produce_result (D ++ E) f (Nat.le_refl _) (Nat.le_refl _)
  rw [← h1, ← h2]
  have h3 := outOf_ne_panic D e (Pure.decode e D)
  rw [← h1] at h3
  unfold Prog.result at h3 ⊢
  rcases h with ⟨⟨more, h⟩, h' | ⟨_, h'⟩⟩ | ⟨h, h'⟩
  · exact .inl ⟨⟨more, h.symm⟩, by rw [h']; rfl⟩
  · rw [h'] at h3; exact absurd rfl h3
  · exact .inr (Prod.ext h h'.erase)

theorem outOf_error (D : Bytes) {e : RErr} (he : e ≠ .eof) (hff : eofByte ∉ D) :
    ∀ e', (outOf D e (Pure.decode e D)).2 = .fail (.io e') → e' = e := by
  intro e' h
  have hp := Json.tame_produce (C := True) (Q := fun b => b ≠ eofByte) (P := fun e => ∀ e', e ≠ .io e')
    ⟨fun _ _ _ _ h => (by cases h), fun h => absurd rfl h⟩ trivial (Json.fuelFor D.length) (Json.fuelFor D.length)
  rw [← produce_result D e (Nat.le_refl _) (Nat.le_refl _)] at h
  exact only_reader_error hp he (AScan.new D e) rfl hff (by simp [AScan.new]) e' (Out.erase_fail h)

/-- Without the byte 0xFF, errors are the one of the reader or syntax errors. -/
theorem outOf_kinds (D : Bytes) {e : RErr} (he : e ≠ .eof) (hff : eofByte ∉ D) :
    (outOf D e (Pure.decode e D)).2 = .fail (.io e) ∨
    ∃ p m g, (outOf D e (Pure.decode e D)).2 = .fail (.syn p m g) := by
  have hk := outOf_error D he hff
  have hf := Pure.decode_fits e D
  have hp := sound_produce e (Json.fuelFor D.length) (Json.fuelFor D.length) D
  rw [show Pure.produce e (Json.fuelFor D.length) (Json.fuelFor D.length) D = Pure.decode e D from rfl] at hp
  generalize Pure.decode e D = x at hk hf hp
  obtain ⟨ts, x⟩ := x
  match x with
  | none => exact hf.elim
  | some (.ok r') =>
    obtain ⟨vs, b, h1, h2, h3, ⟨_, h4⟩ | ⟨r'', rfl⟩⟩ := hp
    · exact absurd h4 he
    · exact absurd (by rw [h3]; simp) hff
  | some (.error (.io e')) => have := hk e' rfl; subst this; exact .inl rfl
  | some (.error (.syn m [])) => simp [outOf, toErr, he]
  | some (.error (.syn m (b :: r))) => exact .inr ⟨_, _, _, rfl⟩

/-- The input goes on with something that cannot continue a number. -/
def Separated (fin : RErr) (r : Bytes) : Prop := (r = [] ∧ fin = .eof) ∨ ∃ x r', r = x :: r' ∧ ¬ NumCont x

theorem produce_append (fin : RErr) {vs : List JVal} {b : Bytes} (h : SepStream LaxChars vs b) (r : Bytes) (hr : Separated fin r) :
    ∀ v n, Json.fuelFor (b ++ r).length ≤ v → Json.fuelFor (b ++ r).length ≤ n →
      ∃ m, Json.fuelFor r.length ≤ m ∧
      Pure.produce fin v n (b ++ r) = (streamToks vs ++ (Pure.produce fin v m r).1, (Pure.produce fin v m r).2) := by
  induction h with
  | @nil w hw =>
    intro v n hv hn
    obtain ⟨n, rfl⟩ : ∃ k, n = k + 1 := ⟨n - 1, by unfold Json.fuelFor at hn; omega⟩
    refine ⟨n + 1, by unfold Json.fuelFor at hn ⊢; simp at hn; omega, ?_⟩
    rw [Pure.produce, Pure.produce, ws_append hw r]
    simp
  | @cons w v b vs r1 hw ht hsep _ ih =>
    intro fv n hv hn
    obtain ⟨n, rfl⟩ : ∃ k, n = k + 1 := ⟨n - 1, by unfold Json.fuelFor at hn; omega⟩
    obtain ⟨x, t, rfl, hx, hs⟩ := ws_text hw ht (r1 ++ r)
    have hf := startsValue_facts x hs
    have hl : 0 < (x :: t).length := by simp
    have hval := complete (fin := fin) ht [] (r1 ++ r) fv Ws.nil (by
        intro hnum
        have hnv : IsNumber v := by
          cases v with
          | scalar s => exact ⟨s, rfl, hnum⟩
          | arr _ _ => exact hnum.elim
          | obj _ _ => exact hnum.elim
        cases r1 with
        | cons y r1 =>
          refine ⟨.inr (by simp), fun b r' hr' => ?_⟩
          rw [List.cons_append, List.cons.injEq] at hr'
          have := hsep hnv y r1 rfl
          rw [hr'.1] at this
          unfold NumCont at this
          simp only [not_or] at this
          exact this
        | nil =>
          rw [List.nil_append]
          rcases hr with ⟨rfl, rfl⟩ | ⟨y, r', rfl, hy⟩
          · exact ⟨.inl rfl, fun b r' h => by cases h⟩
          · refine ⟨.inr (by simp), fun b r'' h => ?_⟩
            cases h
            unfold NumCont at hy
            simp only [not_or] at hy
            exact hy)
      (by unfold Json.fuelFor at hv; simp only [List.length_append, List.length_cons, List.length_nil] at hv ⊢; omega)
    have hle1 : Json.fuelFor (r1 ++ r).length ≤ fv := by
      unfold Json.fuelFor at hv ⊢; simp only [List.length_append, List.length_cons] at hv ⊢; omega
    have hle2 : Json.fuelFor (r1 ++ r).length ≤ n := by
      unfold Json.fuelFor at hn ⊢; simp only [List.length_append, List.length_cons] at hn ⊢; omega
    obtain ⟨m, hm, hrec⟩ := ih fv n hle1 hle2
    refine ⟨m, hm, ?_⟩
    rw [Pure.produce]
    rw [show w ++ (x :: t ++ r1) ++ r = w ++ (x :: t ++ (r1 ++ r)) by simp]
    rw [hx]
    simp only [hf.2.1, if_false]
    rw [List.nil_append, List.cons_append] at hval
    rw [hval]
    simp [Pure.PRes.then, hrec]

theorem decode_append (fin : RErr) {vs : List JVal} {b : Bytes} (h : SepStream LaxChars vs b) (r : Bytes) (hr : Separated fin r) :
    Pure.decode fin (b ++ r) = (streamToks vs ++ (Pure.decode fin r).1, (Pure.decode fin r).2) := by
  obtain ⟨m, hm, hx⟩ := produce_append fin h r hr _ _ (Nat.le_refl _) (Nat.le_refl _)
  rw [Pure.decode, hx, Pure.decode_eq fin r (by unfold Json.fuelFor; simp; omega) hm]

theorem outOf_fst (D : Bytes) (fin : RErr) (x : Pure.PRes) : (outOf D fin x).1 = x.1 := by
  obtain ⟨ts, x⟩ := x
  match x with
  | none => rfl
  | some (.ok _) => rfl
  | some (.error _) => rfl

end Verif
