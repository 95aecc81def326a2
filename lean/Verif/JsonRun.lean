import Verif.JsonPureLemmas

/-!
# Runs of the JSON decoder on the buffered scanner (helper lemmas)
-/

set_option linter.unusedVariables false

namespace Verif

namespace Prog

/-- The program ends without a result and without using the scanner. -/
inductive Dead {α : Type} : Prog α → Prop
  | fail (e) : Dead (.fail e)
  | crash : Dead .crash
  | oof : Dead .oof
  | emit (t) {k} : Dead k → Dead (.emit t k)

/-- After an error of the reader the program ends without a result. -/
inductive Strong {α : Type} : Prog α → Prop
  | ret (a) : Strong (.ret a)
  | fail (e) : Strong (.fail e)
  | crash : Strong .crash
  | oof : Strong .oof
  | emit (t) {k} : Strong k → Strong (.emit t k)
  | read {k} : (∀ e, Dead (k (.error e))) → (∀ b, Strong (k (.ok b))) → Strong (.read k)
  | peek {k} : (∀ e, Dead (k (.error e))) → (∀ b, Strong (k (.ok b))) → Strong (.peek k)
  | skipPeek {k} : (∀ e, Dead (k (.error e))) → (∀ b, Strong (k (.ok b))) → Strong (.skipPeek k)
  | skipRead {k} : (∀ e, Dead (k (.error e))) → (∀ b, Strong (k (.ok b))) → Strong (.skipRead k)
  | back {k} : Strong k → Strong (.back k)
  | startToken {k} : Strong k → Strong (.startToken k)
  | endToken {k} : (∀ b, Strong (k b)) → Strong (.endToken k)
  | currentPos {k} : (∀ p, Strong (k p)) → Strong (.currentPos k)

theorem Dead.bind {α β : Type} {p : Prog α} (h : Dead p) (f : α → Prog β) : Dead (p.bind f) := by
  induction h with
  | fail e => exact .fail e
  | crash => exact .crash
  | oof => exact .oof
  | emit t _ ih => exact .emit t ih

theorem Dead.noScan {α : Type} {p : Prog α} (h : Dead p) : NoScan p := by
  induction h with
  | fail e => exact .fail e
  | crash => exact .crash
  | oof => exact .oof
  | emit t _ ih => exact .emit t ih

theorem NoScan.failStop {α : Type} {p : Prog α} (h : NoScan p) : FailStop p := by
  induction h with
  | ret a => exact .ret a
  | fail e => exact .fail e
  | crash => exact .crash
  | oof => exact .oof
  | emit t _ ih => exact .emit t ih

theorem Strong.bind {α β : Type} {p : Prog α} (h : Strong p) {f : α → Prog β} (hf : ∀ x, Strong (f x)) : Strong (p.bind f) := by
  induction h with
  | ret a => exact hf a
  | fail e => exact .fail e
  | crash => exact .crash
  | oof => exact .oof
  | emit t _ ih => exact .emit t ih
  | read h1 _ ih => exact .read (fun e => (h1 e).bind f) ih
  | peek h1 _ ih => exact .peek (fun e => (h1 e).bind f) ih
  | skipPeek h1 _ ih => exact .skipPeek (fun e => (h1 e).bind f) ih
  | skipRead h1 _ ih => exact .skipRead (fun e => (h1 e).bind f) ih
  | back _ ih => exact .back ih
  | startToken _ ih => exact .startToken ih
  | endToken _ ih => exact .endToken ih
  | currentPos _ ih => exact .currentPos ih

theorem Strong.failStop {α : Type} {p : Prog α} (h : Strong p) : FailStop p := by
  have key : ∀ {k : Rd → Prog α}, (∀ e, Dead (k (.error e))) → (∀ b, FailStop (k (.ok b))) → ∀ r, FailStop (k r) := by
    intro k h1 h2 r
    cases r with
    | error e => exact (h1 e).noScan.failStop
    | ok b => exact h2 b
  induction h with
  | ret a => exact .ret a
  | fail e => exact .fail e
  | crash => exact .crash
  | oof => exact .oof
  | emit t _ ih => exact .emit t ih
  | read h1 _ ih => exact .read (fun e => (h1 e).noScan) (key h1 ih)
  | peek h1 _ ih => exact .peek (fun e => (h1 e).noScan) (key h1 ih)
  | skipPeek h1 _ ih => exact .skipPeek (fun e => (h1 e).noScan) (key h1 ih)
  | skipRead h1 _ ih => exact .skipRead (fun e => (h1 e).noScan) (key h1 ih)
  | back _ ih => exact .back ih
  | startToken _ ih => exact .startToken ih
  | endToken _ ih => exact .endToken ih
  | currentPos _ ih => exact .currentPos ih

theorem Strong.rd : Strong rd := .read (fun e => .fail _) (fun b => .ret b)
theorem Strong.pk : Strong pk := .peek (fun e => .fail _) (fun b => .ret b)
theorem Strong.skPk : Strong skPk := .skipPeek (fun e => .fail _) (fun b => .ret b)
theorem Strong.skRd : Strong skRd := .skipRead (fun e => .fail _) (fun b => .ret b)
theorem Strong.rdIgnore : Strong rdIgnore := .read (fun e => .crash) (fun b => .ret ())
theorem Strong.send (t : Token) : Strong (send t) := .emit t (.ret ())
theorem Strong.goBack : Strong goBack := .back (.ret ())
theorem Strong.start : Strong start := .startToken (.ret ())
theorem Strong.finish : Strong finish := .endToken fun b => .ret b

theorem Strong.ite {α : Type} {c : Prop} [Decidable c] {p q : Prog α} (hp : Strong p) (hq : Strong q) :
    Strong (if c then p else q) := by split <;> assumption

end Prog

namespace Json
open Prog

theorem strong_checkEOF (b : Byte) : Strong (checkEOF b) := .ite (.fail _) (.ret _)

theorem strong_unexpected {α : Type} (msg : String) : Strong (unexpected msg : Prog α) :=
  .currentPos fun _ => Strong.rd.bind fun _ => .fail _

theorem strong_bad {α : Type} (msg : String) : Strong (goBack.bind fun _ => (unexpected msg : Prog α)) :=
  Strong.goBack.bind fun _ => strong_unexpected msg

theorem strong_expectByte (x : Byte) : Strong (expectByte x) :=
  Strong.rd.bind fun _ => .ite (strong_bad _) (.ret _)

theorem strong_checkBytes (xs : Bytes) : Strong (checkBytes xs) := by
  induction xs with
  | nil => exact .ret _
  | cons x xs ih => exact (strong_expectByte x).bind fun _ => ih

theorem strong_rdChk : Strong rdChk := Strong.rd.bind strong_checkEOF

theorem strong_hexLoop (n : Nat) : Strong (hexLoop n) := by
  induction n with
  | zero => exact .ret _
  | succ n ih => exact strong_rdChk.bind fun _ => .ite ih (strong_bad _)

theorem strong_stringLoop (fuel : Nat) : ∀ al un first, Strong (stringLoop fuel al un first) := by
  induction fuel with
  | zero => intro _ _ _; exact .oof
  | succ n ih =>
    intro al un first
    refine strong_rdChk.bind fun b => .ite ?_ (.ite ?_ (.ite (strong_bad _) (.ite (.ite (ih _ _ _) (ih _ _ _)) (ih _ _ _))))
    · exact strong_rdChk.bind fun x => .ite ((strong_hexLoop 4).bind fun _ => ih _ _ _) (ih _ _ _)
    · exact Strong.finish.bind fun _ => .ret _

theorem strong_parseString (fuel : Nat) : Strong (parseString fuel) :=
  Strong.start.bind fun _ => (strong_expectByte _).bind fun _ => strong_stringLoop _ _ _ _

theorem strong_readDigits (fuel : Nat) : ∀ n, Strong (readDigits fuel n) := by
  induction fuel with
  | zero => intro _; exact .oof
  | succ n ih => intro k; exact Strong.rd.bind fun _ => .ite (.ret _) (ih _)

theorem strong_numberExp (fuel : Nat) (b : Byte) : Strong (numberExp fuel b) := by
  have hd : Strong (goBack.bind fun _ => finish.bind fun bs => (.ret { bytes := bs, type := .num } : Prog Scalar)) :=
    Strong.goBack.bind fun _ => Strong.finish.bind fun _ => .ret _
  exact .ite (Strong.pk.bind fun _ => (Strong.ite Strong.rdIgnore (.ret _)).bind fun _ =>
    (strong_readDigits _ _).bind fun _ => .ite (strong_bad _) hd) hd

theorem strong_numberFrac (fuel : Nat) (b : Byte) : Strong (numberFrac fuel b) :=
  .ite ((strong_readDigits _ _).bind fun _ => .ite (strong_bad _) (strong_numberExp _ _)) (strong_numberExp _ _)

theorem strong_numberInt (fuel : Nat) (b : Byte) : Strong (numberInt fuel b) :=
  (strong_checkEOF b).bind fun _ => .ite (Strong.rd.bind fun _ => strong_numberFrac _ _)
    (.ite ((strong_readDigits _ _).bind fun _ => strong_numberFrac _ _) (strong_bad _))

theorem strong_parseNumber (fuel : Nat) : Strong (parseNumber fuel) :=
  Strong.start.bind fun _ => Strong.rd.bind fun _ =>
    .ite (Strong.rd.bind fun _ => strong_numberInt _ _) (strong_numberInt _ _)

theorem strong_values (n : Nat) : Strong (parseValue n) ∧ Strong (items n) ∧ Strong (members n) := by
  induction n with
  | zero => exact ⟨.oof, .oof, .oof⟩
  | succ n ih =>
    obtain ⟨hv, hi, hm⟩ := ih
    refine ⟨?_, ?_, ?_⟩
    · rw [parseValue]
      refine Strong.skPk.bind fun b => (strong_checkEOF b).bind fun b => ?_
      refine .ite ((strong_parseString _).bind fun _ => .send _) (.ite ?_ (.ite ?_ (.ite ?_ (.ite ?_ (.ite ?_ (.ite ?_ ?_))))))
      · exact (strong_expectByte _).bind fun _ => (Strong.send _).bind fun _ => Strong.skPk.bind fun b =>
          (strong_checkEOF b).bind fun b => .ite (Strong.rdIgnore.bind fun _ => .send _) hi
      · exact (strong_expectByte _).bind fun _ => (Strong.send _).bind fun _ => Strong.skPk.bind fun b =>
          (strong_checkEOF b).bind fun b => .ite (Strong.rdIgnore.bind fun _ => .send _) hm
      · exact (strong_checkBytes _).bind fun _ => .send _
      · exact (strong_checkBytes _).bind fun _ => .send _
      · exact (strong_checkBytes _).bind fun _ => .send _
      · exact (strong_parseNumber _).bind fun _ => .send _
      · exact strong_unexpected _
    · rw [items]
      exact hv.bind fun _ => Strong.skPk.bind fun b => (strong_checkEOF b).bind fun b =>
        .ite (Strong.rdIgnore.bind fun _ => .send _) (.ite (Strong.rdIgnore.bind fun _ => hi) (strong_unexpected _))
    · rw [members]
      exact (strong_parseString _).bind fun _ => (Strong.send _).bind fun _ => Strong.skPk.bind fun b =>
        (strong_checkEOF b).bind fun b => .ite (strong_unexpected _) <| Strong.rdIgnore.bind fun _ =>
        hv.bind fun _ => Strong.skPk.bind fun b => (strong_checkEOF b).bind fun b =>
        .ite (Strong.rdIgnore.bind fun _ => .send _) (.ite
          (Strong.rdIgnore.bind fun _ => Strong.skPk.bind fun b => (strong_checkEOF b).bind fun _ => hm) (strong_unexpected _))

theorem strong_produce (v n : Nat) : Strong (produce v n) := by
  induction n with
  | zero => exact .oof
  | succ n ih => exact Strong.skPk.bind fun b => .ite (.ret _) ((strong_values v).1.bind fun _ => ih)

end Json

/-- What a run of a decoder program gives, in terms of the direct description. -/
def outOf (whole : Bytes) (fin : RErr) (x : Pure.PRes) : List Token × Out Unit Unit :=
  match x with
  | (ts, some (.ok _)) => (ts, .ok () ())
  | (ts, some (.error e)) => (ts, .fail (toErr whole fin e))
  | (ts, none) => (ts, .oof)

theorem CorrP.result {whole : Bytes} {fin : RErr} {p : Prog Unit} {a : AScan} {x : Pure.PRes} (h : CorrP whole fin p a x) :
    p.result AScan.machine a = outOf whole fin x := by
  obtain ⟨ts, x⟩ := x
  match x, h with
  | none, h => simp only [CorrP] at h; simp [Prog.result, h, outOf, Out.erase]
  | some (.error e), h => simp only [CorrP] at h; simp [Prog.result, h, outOf, Out.erase]
  | some (.ok r), ⟨a', h, _⟩ => simp [Prog.result, h, outOf, Out.erase]

theorem At.new (D : Bytes) (fin : RErr) : At D fin (AScan.new D fin) none false D :=
  ⟨rfl, rfl, rfl, rfl, [], rfl, rfl, by simp⟩

theorem outOf_ne_stuck (D : Bytes) (fin : RErr) (x : Pure.PRes) : (outOf D fin x).2 ≠ .stuck := by
  obtain ⟨ts, x⟩ := x
  match x with
  | none => simp [outOf]
  | some (.error e) => simp [outOf]
  | some (.ok r) => simp [outOf]

theorem Delivers.le {r : Reader} {D fin} (h : Delivers r D fin) : D.length ≤ r.rest.length := by
  rcases h with ⟨rfl, _⟩ | ⟨_, _, x, _, h⟩
  · omega
  · rw [h]; simp

/-- A run of the decoder on the buffered scanner. -/
theorem decodeFrom_eq (r : Reader) (size : Nat) (hs : 2 ≤ size) :
    ∃ D fin, Delivers r D fin ∧
      Json.decodeFrom r size = outOf D fin (Pure.produce fin (Json.fuelFor r.rest.length) (Json.fuelFor r.rest.length) D) := by
  obtain ⟨D, fin, hd, hx⟩ := simulation_new (Json.produce (Json.fuelFor r.rest.length) (Json.fuelFor r.rest.length))
    (Json.strong_produce _ _).failStop r size hs
  refine ⟨D, fin, hd, ?_⟩
  have hl := hd.le
  have hc := (corrP_produce (Json.fuelFor r.rest.length) (Json.fuelFor r.rest.length) D (AScan.new D fin) false
    (by unfold Json.fuelFor; omega) (by unfold Json.fuelFor; omega) (At.new D fin)).result
  rw [hc] at hx
  rcases hx with hx | hx
  · exact absurd hx (outOf_ne_stuck _ _ _)
  · exact hx

end Verif
