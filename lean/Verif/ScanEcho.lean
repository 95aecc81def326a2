import Verif.ScanMemory
import Verif.JsonDecoder

/-!
# Recorded tokens are sent

`Echo st Q p`: the program `p` follows, whatever the scanner returns, the protocol: a token is recorded, it is taken with `EndToken`, and a scalar with its
bytes is sent; nothing else is sent in between.  `st` is the state of the protocol at the start, `Q` is satisfied at the end.
-/

set_option linter.unusedSimpArgs false
set_option linter.unusedVariables false

namespace Verif

/-- States of the protocol. -/
inductive EchoSt
  | idle
  | recording
  | taken (b : Bytes)

/-- See the head of this file. -/
def Prog.Echo {α : Type} (Q : EchoSt → α → Prop) : Prog α → EchoSt → Prop
  | .ret a, st => Q st a
  | .fail _, _ => True
  | .crash, _ => True
  | .oof, _ => True
  | .emit t k, st =>
    match st with
    | .idle => k.Echo Q .idle
    | .recording => False
    | .taken b => (∃ s, t = .scalar s ∧ s.bytes = b) ∧ k.Echo Q .idle
  | .read k, st => ∀ r, (k r).Echo Q st
  | .peek k, st => ∀ r, (k r).Echo Q st
  | .skipPeek k, st => ∀ r, (k r).Echo Q st
  | .skipRead k, st => ∀ r, (k r).Echo Q st
  | .back k, st => k.Echo Q st
  | .startToken k, st => st = .idle ∧ k.Echo Q .recording
  | .endToken k, st => st = .recording ∧ ∀ b, (k b).Echo Q (.taken b)
  | .currentPos k, st => ∀ p, (k p).Echo Q st

namespace Prog.Echo

variable {α β : Type}

theorem bind {Q : EchoSt → α → Prop} {R : EchoSt → β → Prop} {f : α → Prog β} (hf : ∀ st a, Q st a → (f a).Echo R st) :
    ∀ {p : Prog α} {st : EchoSt}, p.Echo Q st → (p.bind f).Echo R st := by
  intro p
  induction p with
  | ret a => intro st h; exact hf st a h
  | fail e => intro st h; trivial
  | crash => intro st h; trivial
  | oof => intro st h; trivial
  | emit t k ih =>
    intro st h
    cases st with
    | idle => exact ih (st := .idle) h
    | recording => exact h
    | taken b => exact ⟨h.1, ih (st := .idle) h.2⟩
  | read k ih => intro st h r; exact ih r (h r)
  | peek k ih => intro st h r; exact ih r (h r)
  | skipPeek k ih => intro st h r; exact ih r (h r)
  | skipRead k ih => intro st h r; exact ih r (h r)
  | back k ih => intro st h; exact ih (st := st) h
  | startToken k ih => intro st h; exact ⟨h.1, ih h.2⟩
  | endToken k ih => intro st h; exact ⟨h.1, fun b => ih b (h.2 b)⟩
  | currentPos k ih => intro st h p; exact ih p (h p)

/-- The state does not change. -/
abbrev Stay (p : Prog α) : Prop := ∀ st, p.Echo (fun st' _ => st' = st) st

theorem stay {p : Prog α} (hp : Stay p) {R : EchoSt → β → Prop} {f : α → Prog β} {st : EchoSt} (hf : ∀ a, (f a).Echo R st) : (p.bind f).Echo R st :=
  bind (fun st' a h => by rw [h]; exact hf a) (hp st)

theorem stay_bind {p : Prog α} {f : α → Prog β} (hp : Stay p) (hf : ∀ a, Stay (f a)) : Stay (p.bind f) := fun st => stay hp fun a => hf a st

theorem stay_rd : Stay Prog.rd := fun st r => by cases r <;> first | trivial | rfl
theorem stay_pk : Stay Prog.pk := fun st r => by cases r <;> first | trivial | rfl
theorem stay_skPk : Stay Prog.skPk := fun st r => by cases r <;> first | trivial | rfl
theorem stay_skRd : Stay Prog.skRd := fun st r => by cases r <;> first | trivial | rfl
theorem stay_rdIgnore : Stay Prog.rdIgnore := fun st r => by cases r <;> first | trivial | rfl
theorem stay_goBack : Stay Prog.goBack := fun st => rfl
theorem stay_ret (a : α) : Stay (.ret a) := fun st => rfl

open Json in
theorem stay_checkEOF (b : Byte) : Stay (checkEOF b) := by
  unfold checkEOF
  split
  · intro st; trivial
  · exact stay_ret b

open Json in
theorem stay_unexpected {msg : String} : Stay (unexpected msg : Prog α) := fun st p => stay stay_rd fun b => trivial

open Json in
theorem stay_expectByte (x : Byte) : Stay (expectByte x) := by
  refine stay_bind stay_rd fun b => ?_
  split
  · exact stay_bind stay_goBack fun _ => stay_unexpected
  · exact stay_ret ()

open Json in
theorem stay_checkBytes : ∀ l, Stay (checkBytes l)
  | [] => stay_ret ()
  | x :: l => stay_bind (stay_expectByte x) fun _ => stay_checkBytes l

open Json in
theorem stay_rdChk : Stay rdChk := stay_bind stay_rd stay_checkEOF

open Json in
theorem stay_hexLoop : ∀ i, Stay (hexLoop i)
  | 0 => stay_ret ()
  | i + 1 => by
    refine stay_bind stay_rdChk fun b => ?_
    split
    · exact stay_hexLoop i
    · exact stay_bind stay_goBack fun _ => stay_unexpected

/-- A token is taken. -/
abbrev Takes (st : EchoSt) (s : Scalar) : Prop := st = .taken s.bytes

theorem weaken {p : Prog α} {Q R : EchoSt → α → Prop} {st : EchoSt} (h : p.Echo Q st) (hq : ∀ st a, Q st a → R st a) : p.Echo R st := by
  have := bind (f := .ret) (R := R) hq h
  rwa [show p.bind .ret = p from by
    clear this h
    induction p <;> simp_all [Prog.bind]] at this

open Json in
theorem takes_unexpected {msg : String} {st : EchoSt} {Q : EchoSt → α → Prop} : (unexpected msg : Prog α).Echo Q st :=
  fun p => stay stay_rd fun b => trivial

open Json in
theorem takes_stringLoop : ∀ (f : Nat) (a u x : Bool), (stringLoop f a u x).Echo Takes .recording
  | 0, _, _, _ => trivial
  | f + 1, a, u, x => by
    rw [stringLoop]
    refine stay stay_rdChk fun b => ?_
    split
    · refine stay stay_rdChk fun y => ?_
      split
      · exact stay (stay_hexLoop 4) fun _ => takes_stringLoop f _ _ _
      · exact takes_stringLoop f _ _ _
    · split
      · exact ⟨rfl, fun b => rfl⟩
      · split
        · exact stay stay_goBack fun _ => takes_unexpected
        · split
          · split <;> exact takes_stringLoop f _ _ _
          · exact takes_stringLoop f _ _ _

open Json in
theorem takes_parseString (f : Nat) : (parseString f).Echo Takes .idle := by
  unfold parseString
  refine ⟨rfl, ?_⟩
  exact stay (stay_expectByte _) fun _ => takes_stringLoop f _ _ _

open Json in
theorem stay_readDigits : ∀ (f n : Nat), Stay (readDigits f n)
  | 0, _ => fun st => trivial
  | f + 1, n => by
    refine stay_bind stay_rd fun b => ?_
    split
    · exact stay_ret _
    · exact stay_readDigits f _

open Json in
theorem takes_numberExp (f : Nat) (b : Byte) : (numberExp f b).Echo Takes .recording := by
  have done : (goBack.bind fun _ => finish.bind fun bs => .ret ({ bytes := bs, type := .num } : Scalar)).Echo Takes .recording :=
    stay stay_goBack fun _ => ⟨rfl, fun b => rfl⟩
  unfold numberExp
  simp only
  split
  · refine stay stay_pk fun b => ?_
    refine stay (p := if b = c%'-' ∨ b = c%'+' then rdIgnore else .ret ()) ?_ fun _ => stay (stay_readDigits _ _) fun r => ?_
    · split
      · exact stay_rdIgnore
      · exact stay_ret _
    · split
      · exact stay stay_goBack fun _ => takes_unexpected
      · exact done
  · exact done

open Json in
theorem takes_numberFrac (f : Nat) (b : Byte) : (numberFrac f b).Echo Takes .recording := by
  unfold numberFrac
  split
  · refine stay (stay_readDigits _ _) fun r => ?_
    split
    · exact stay stay_goBack fun _ => takes_unexpected
    · exact takes_numberExp _ _
  · exact takes_numberExp _ _

open Json in
theorem takes_numberInt (f : Nat) (b : Byte) : (numberInt f b).Echo Takes .recording := by
  unfold numberInt
  refine stay (stay_checkEOF b) fun b => ?_
  split
  · exact stay stay_rd fun b => takes_numberFrac _ _
  · split
    · exact stay (stay_readDigits _ _) fun r => takes_numberFrac _ _
    · exact stay stay_goBack fun _ => takes_unexpected

open Json in
theorem takes_parseNumber (f : Nat) : (parseNumber f).Echo Takes .idle := by
  unfold parseNumber
  refine ⟨rfl, ?_⟩
  refine stay stay_rd fun b => ?_
  split
  · exact stay stay_rd fun b => takes_numberInt _ _
  · exact takes_numberInt _ _

/-- Back in the idle state. -/
abbrev Idle (st : EchoSt) (_ : α) : Prop := st = .idle

theorem idle_send (t : Token) : (send t).Echo Idle .idle := rfl

theorem idle_scalar {p : Prog Scalar} (hp : p.Echo Takes .idle) {g : Scalar → Scalar} (hg : ∀ s, (g s).bytes = s.bytes) {f : Unit → Prog Unit}
    (hf : (f ()).Echo Idle .idle) : (p.bind fun s => (send (.scalar (g s))).bind f).Echo Idle .idle :=
  bind (fun st s h => by
    rw [show st = _ from h]
    exact ⟨⟨_, rfl, hg s⟩, hf⟩) hp

open Json in
theorem idle_value : ∀ (f : Nat), (parseValue f).Echo Idle .idle ∧ (items f).Echo Idle .idle ∧ (members f).Echo Idle .idle := by
  intro f
  induction f with
  | zero => exact ⟨by rw [parseValue]; trivial, by rw [items]; trivial, by rw [members]; trivial⟩
  | succ f ih =>
    obtain ⟨h1, h2, h3⟩ := ih
    have idle : ∀ {p : Prog Unit} {g : Unit → Prog Unit}, p.Echo Idle .idle → (g ()).Echo Idle .idle → (p.bind g).Echo Idle .idle := by
      intro p g hp hg
      exact bind (fun st a h => by rw [show st = _ from h]; exact hg) hp
    refine ⟨?_, ?_, ?_⟩
    · rw [parseValue]
      refine stay stay_skPk fun b => stay (stay_checkEOF b) fun b => ?_
      split
      · exact bind (fun st s h => by rw [show st = _ from h]; exact ⟨⟨_, rfl, rfl⟩, rfl⟩) (takes_parseString _)
      · split
        · unfold parseArray
          refine stay (stay_expectByte _) fun _ => idle (idle_send _) (stay stay_skPk fun b => stay (stay_checkEOF b) fun b => ?_)
          split
          · exact stay stay_rdIgnore fun _ => idle_send _
          · exact h2
        · split
          · unfold parseObject
            refine stay (stay_expectByte _) fun _ => idle (idle_send _) (stay stay_skPk fun b => stay (stay_checkEOF b) fun b => ?_)
            split
            · exact stay stay_rdIgnore fun _ => idle_send _
            · exact h3
          · split
            · exact stay (stay_checkBytes _) fun _ => idle_send _
            · split
              · exact stay (stay_checkBytes _) fun _ => idle_send _
              · split
                · exact stay (stay_checkBytes _) fun _ => idle_send _
                · split
                  · exact bind (fun st s h => by rw [show st = _ from h]; exact ⟨⟨_, rfl, rfl⟩, rfl⟩) (takes_parseNumber _)
                  · exact takes_unexpected
    · rw [items]
      refine idle h1 (stay stay_skPk fun b => stay (stay_checkEOF b) fun b => ?_)
      split
      · exact stay stay_rdIgnore fun _ => idle_send _
      · split
        · exact stay stay_rdIgnore fun _ => h2
        · exact takes_unexpected
    · rw [members]
      refine idle_scalar (takes_parseString _) (g := fun s => { s with key := true }) (fun _ => rfl) ?_
      refine stay stay_skPk fun b => stay (stay_checkEOF b) fun b => ?_
      split
      · exact takes_unexpected
      · refine stay stay_rdIgnore fun _ => idle h1 (stay stay_skPk fun b => stay (stay_checkEOF b) fun b => ?_)
        split
        · exact stay stay_rdIgnore fun _ => idle_send _
        · split
          · exact stay stay_rdIgnore fun _ => stay stay_skPk fun b => stay (stay_checkEOF b) fun _ => h3
          · exact takes_unexpected

open Json in
theorem idle_produce (v : Nat) : ∀ (f : Nat), (produce v f).Echo Idle .idle
  | 0 => trivial
  | f + 1 => by
    rw [produce]
    refine stay stay_skPk fun b => ?_
    split
    · exact rfl
    · exact bind (fun st a h => by rw [show st = _ from h]; exact idle_produce v f) (idle_value v).1

end Prog.Echo

/-! ## Runs -/

open CScan

/-- The state of the protocol agrees with the scanner. -/
def EchoSt.Fits (st : EchoSt) (c : CScan) : Prop := st = .recording ↔ c.tokStart.isSome = true

theorem EchoSt.Fits.onward {st : EchoSt} {c c' : CScan} (h : st.Fits c) (ho : Onward c c') : st.Fits c' := by
  unfold EchoSt.Fits
  rw [ho.tok]
  exact h

/-- In a state reached, the rest of the program follows the protocol; its run is the rest of the run. -/
theorem Prog.Reach.echo {α : Type} {p p' : Prog α} {c c' : CScan} {L : List Bytes} {Q : EchoSt → α → Prop} (hr : Prog.Reach CScan.machine p c L p' c')
    (hc : c.Tidy) {st : EchoSt} (h : p.Echo Q st) (hs : st.Fits c) :
    (∃ st', p'.Echo Q st' ∧ st'.Fits c') ∧ (p'.run CScan.machine c').1 <:+ (p.run CScan.machine c).1 ∧
      (p'.run CScan.machine c').2 = (p.run CScan.machine c).2 := by
  induction hr generalizing st with
  | refl => exact ⟨⟨st, h, hs⟩, List.suffix_refl _, rfl⟩
  | emit _ ih =>
    obtain ⟨h1, h2, h3⟩ : _ := by
      cases st with
      | idle => exact ih hc (st := .idle) h hs
      | recording => exact h.elim
      | taken b => exact ih hc (st := .idle) h.2 ⟨fun e => (by cases e), fun e => (by have := hs.2 e; cases this)⟩
    exact ⟨h1, h2.trans (List.suffix_cons _ _), h3⟩
  | read _ ih => exact ih (read_onward hc).tidy (h _) (hs.onward (read_onward hc))
  | peek _ ih => exact ih (peek_onward hc).tidy (h _) (hs.onward (peek_onward hc))
  | skipPeek _ ih => exact ih (skipPeek_onward hc).tidy (h _) (hs.onward (skipPeek_onward hc))
  | skipRead _ ih => exact ih (skipRead_onward hc).tidy (h _) (hs.onward (skipRead_onward hc))
  | back e _ ih =>
    have := ih (back_onward hc e).tidy h (hs.onward (back_onward hc e))
    simp only [Prog.run, e]
    exact this
  | startToken e _ ih =>
    have h1 := startToken_tidy hc e
    have := ih h1.1 h.2 ⟨fun _ => (by
      simp only [CScan.machine, CScan.startToken] at e
      split at e <;> cases e
      rfl), fun _ => rfl⟩
    simp only [Prog.run, e]
    exact this
  | endToken e _ ih =>
    have h1 := endToken_tidy hc e
    have := ih h1.1 (h.2 _) ⟨fun e => (by cases e), fun e' => (by
      simp only [CScan.machine, CScan.endToken] at e
      split at e
      · cases e
      · split at e <;> cases e <;> cases e')⟩
    simp only [Prog.run, e]
    exact this
  | currentPos _ ih => exact ih hc (h _) hs

/-- A token taken is sent. -/
theorem Prog.Echo.sent {α : Type} {Q : EchoSt → α → Prop} (hQ : ∀ b a, ¬ Q (.taken b) a) {b : Bytes} : ∀ {p : Prog α} {c c' : CScan} {a : α}, p.Echo Q (.taken b) →
    (p.run CScan.machine c).2 = .ok a c' → ∃ s, .scalar s ∈ (p.run CScan.machine c).1 ∧ s.bytes = b := by
  intro p
  induction p with
  | ret x => intro c c' a h e; exact absurd h (hQ b x)
  | fail e => intro c c' a h e; cases e
  | crash => intro c c' a h e; cases e
  | oof => intro c c' a h e; cases e
  | emit t k ih =>
    intro c c' a h e
    obtain ⟨⟨s, rfl, rfl⟩, _⟩ := h
    exact ⟨s, List.mem_cons_self, rfl⟩
  | read k ih => intro c c' a h e; exact ih _ (h _) e
  | peek k ih => intro c c' a h e; exact ih _ (h _) e
  | skipPeek k ih => intro c c' a h e; exact ih _ (h _) e
  | skipRead k ih => intro c c' a h e; exact ih _ (h _) e
  | back k ih =>
    intro c c' a h e
    simp only [Prog.run] at e ⊢
    split at e
    · exact ih h e
    · cases e
    · cases e
  | startToken k ih => intro c c' a h e; cases h.1
  | endToken k ih => intro c c' a h e; cases h.1
  | currentPos k ih => intro c c' a h e; exact ih _ (h _) e

/-- What is recorded is taken, and sent. -/
theorem Prog.Echo.taken {α : Type} {Q : EchoSt → α → Prop} (hQ : ∀ st a, Q st a → st = .idle) : ∀ {p : Prog α} {c c' : CScan} {a : α}, p.Echo Q .recording →
    (p.run CScan.machine c).2 = .ok a c' → ∃ b p' c2 s, Prog.Reach CScan.machine p c [b] p' c2 ∧ .scalar s ∈ (p.run CScan.machine c).1 ∧ s.bytes = b := by
  intro p
  induction p with
  | ret x => intro c c' a h e; cases hQ _ _ h
  | fail e => intro c c' a h e; cases e
  | crash => intro c c' a h e; cases e
  | oof => intro c c' a h e; cases e
  | emit t k ih => intro c c' a h e; exact h.elim
  | read k ih => intro c c' a h e; obtain ⟨b, p', c2, s, h1, h2, h3⟩ := ih _ (h _) e; exact ⟨b, p', c2, s, .read h1, h2, h3⟩
  | peek k ih => intro c c' a h e; obtain ⟨b, p', c2, s, h1, h2, h3⟩ := ih _ (h _) e; exact ⟨b, p', c2, s, .peek h1, h2, h3⟩
  | skipPeek k ih => intro c c' a h e; obtain ⟨b, p', c2, s, h1, h2, h3⟩ := ih _ (h _) e; exact ⟨b, p', c2, s, .skipPeek h1, h2, h3⟩
  | skipRead k ih => intro c c' a h e; obtain ⟨b, p', c2, s, h1, h2, h3⟩ := ih _ (h _) e; exact ⟨b, p', c2, s, .skipRead h1, h2, h3⟩
  | back k ih =>
    intro c c' a h e
    simp only [Prog.run] at e ⊢
    cases hb : CScan.machine.back c with
    | ok c1 =>
      rw [hb] at e
      obtain ⟨b, p', c2, s, h1, h2, h3⟩ := ih h e
      exact ⟨b, p', c2, s, .back hb h1, h2, h3⟩
    | error x => rw [hb] at e; cases x <;> cases e
  | startToken k ih => intro c c' a h e; cases h.1
  | endToken k ih =>
    intro c c' a h e
    simp only [Prog.run] at e ⊢
    cases hb : CScan.machine.endToken c with
    | none => rw [hb] at e; cases e
    | some r =>
      obtain ⟨b, c1⟩ := r
      rw [hb] at e
      obtain ⟨s, h2, h3⟩ := Prog.Echo.sent (fun b a h => by have := hQ _ _ h; cases this) (h.2 b) e
      exact ⟨b, k b, c1, s, .endToken hb (.refl _ _), h2, h3⟩
  | currentPos k ih => intro c c' a h e; obtain ⟨b, p', c2, s, h1, h2, h3⟩ := ih _ (h _) e; exact ⟨b, p', c2, s, .currentPos h1, h2, h3⟩

end Verif
