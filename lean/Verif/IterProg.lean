import Verif.Token

/-!
# Programs over iterators

Code that works on iterated values (`/repo/iterator/streamiterator.go`) is modelled as a program over
the operations of that package.  The operations are interpreted in `Verif.IterHeap` (as the package
implements them) and in `Verif.IterSpec` (as they are meant).
-/

namespace Verif

/-- What a handle is: `*Array`, `*Object` or `*Iterator`. -/
inductive Kind
  | arr | obj | top
deriving DecidableEq, Repr

/-- Go: the interface `Value`, `/repo/iterator/streamiterator.go:47-55`.  Collections are references:
a number in a heap. -/
inductive Val
  | scalar (s : Scalar)
  | coll (k : Kind) (i : Nat)
deriving DecidableEq, Repr

/-- Operations on collections and iterators.  `AsArray`, `AsObject` and `AsScalar` only inspect the
reference and need no operation. -/
inductive IOp
  /-- `Advance` -/
  | advance (i : Nat)
  /-- `CurrentKeyVal` of objects; the other kinds have only the value (`CurrentValue`) -/
  | current (i : Nat)
  /-- `Elided` -/
  | elided (i : Nat)
  /-- `Clone`; gives the clone and what its `detach` function detaches -/
  | clone (v : Val)
  /-- `Discard` -/
  | discard (v : Val)
  /-- `Copy` to a stream; gives the tokens put -/
  | copy (v : Val)
  /-- calling a `detach` function -/
  | detach (t : Nat)
  /-- `New(NewCursorFromData(ts))`; gives the iterator -/
  | data (ts : List Token)
  /-- `iregexp.Compile` of a pattern `p` that the library rejects, with the translation `q`; true if the cache has nil for it -/
  | reject (p q : Bytes)

/-- What an operation returns. -/
@[reducible] def IOp.Res : IOp → Type
  | .advance _ => Bool
  | .current _ => Option Scalar × Option Val
  | .elided _ => Bool
  | .clone _ => Val × Option Nat
  | .discard _ => Unit
  | .copy _ => List Token
  | .detach _ => Unit
  | .data _ => Nat
  | .reject _ _ => Bool

/-- Ways not to return. -/
inductive Stop
  /-- a run-time panic -/
  | panic
  /-- a loop of the model ran out of fuel -/
  | fuel
  /-- no statement is made about this run -/
  | stuck
deriving DecidableEq, Repr

/-- Programs that emit values of type `ε` and return an `α`. -/
inductive IProg (ε α : Type) : Type
  | ret (a : α)
  | fail (s : Stop)
  | emit (e : ε) (k : IProg ε α)
  | op (o : IOp) (k : o.Res → IProg ε α)

namespace IProg

variable {ε α β : Type}

/-- Sequencing. -/
def bind : IProg ε α → (α → IProg ε β) → IProg ε β
  | .ret a, f => f a
  | .fail s, _ => .fail s
  | .emit e k, f => .emit e (k.bind f)
  | .op o k, f => .op o fun r => (k r).bind f

instance : Monad (IProg ε) where
  pure := .ret
  bind := .bind

/-- A single operation. -/
def call (o : IOp) : IProg ε o.Res := .op o .ret

/-- Emit one value. -/
def put (e : ε) : IProg ε Unit := .emit e (.ret ())

/-- Emit several values. -/
def putAll : List ε → IProg ε Unit
  | [] => .ret ()
  | e :: l => .emit e (putAll l)

end IProg

/-- An interpretation of the operations. -/
structure IMach (σ : Type) where
  step : σ → (o : IOp) → Except Stop (σ × o.Res)

/-- Run a program: what it emitted, and how it ended. -/
def IProg.run {σ ε α : Type} (m : IMach σ) : IProg ε α → σ → List ε × Except Stop (σ × α)
  | .ret a, s => ([], .ok (s, a))
  | .fail e, _ => ([], .error e)
  | .emit e k, s => (e :: (k.run m s).1, (k.run m s).2)
  | .op o k, s =>
    match m.step s o with
    | .error e => ([], .error e)
    | .ok (s', r) => (k r).run m s'

/-- Continue a run. -/
def seqRun {σ ε α β : Type} (r : List ε × Except Stop (σ × α)) (f : σ → α → List ε × Except Stop (σ × β)) :
    List ε × Except Stop (σ × β) :=
  match r.2 with
  | .ok (s, a) => (r.1 ++ (f s a).1, (f s a).2)
  | .error e => (r.1, .error e)

namespace IProg

variable {σ ε α β : Type} (m : IMach σ)

@[simp] theorem pure_eq (a : α) : (pure a : IProg ε α) = .ret a := rfl

@[simp] theorem bind_eq (p : IProg ε α) (f : α → IProg ε β) : p >>= f = p.bind f := rfl

@[simp] theorem run_ret (a : α) (s : σ) : (ret a : IProg ε α).run m s = ([], .ok (s, a)) := rfl

@[simp] theorem run_fail (e : Stop) (s : σ) : (fail e : IProg ε α).run m s = ([], .error e) := rfl

theorem run_bind (p : IProg ε α) (f : α → IProg ε β) (s : σ) :
    (p.bind f).run m s = seqRun (p.run m s) fun s a => (f a).run m s := by
  induction p generalizing s with
  | ret a => simp [bind, seqRun]
  | fail e => simp [bind, seqRun]
  | emit e k ih =>
    simp only [bind, run, ih, seqRun]
    cases (k.run m s).2 <;> rfl
  | op o k ih =>
    simp only [bind, run]
    cases m.step s o with
    | error e => rfl
    | ok r => exact ih _ _

theorem run_op {o : IOp} {k : o.Res → IProg ε α} {s s' : σ} {r : o.Res} (h : m.step s o = .ok (s', r)) :
    (op o k).run m s = (k r).run m s' := by
  simp only [run, h]

@[simp] theorem bind_ret (p : IProg ε α) : p.bind .ret = p := by
  induction p with
  | ret a => rfl
  | fail e => rfl
  | emit e k ih => simp [bind, ih]
  | op o k ih => simp [bind, ih]

theorem bind_assoc {γ : Type} (p : IProg ε α) (f : α → IProg ε β) (g : β → IProg ε γ) :
    (p.bind f).bind g = p.bind fun a => (f a).bind g := by
  induction p with
  | ret a => rfl
  | fail e => rfl
  | emit e k ih => simp [bind, ih]
  | op o k ih => simp [bind, ih]

@[simp] theorem ret_bind (a : α) (f : α → IProg ε β) : (ret a).bind f = f a := rfl

@[simp] theorem fail_bind (e : Stop) (f : α → IProg ε β) : (fail e).bind f = fail e := rfl

@[simp] theorem run_call (o : IOp) (s : σ) : (call o : IProg ε o.Res).run m s = ([], m.step s o) := by
  simp only [call, run]
  cases m.step s o <;> rfl

@[simp] theorem run_put (e : ε) (s : σ) : (put e).run m s = ([e], .ok (s, ())) := rfl

@[simp] theorem run_putAll (l : List ε) (s : σ) : (putAll l).run m s = (l, .ok (s, ())) := by
  induction l with
  | nil => rfl
  | cons e l ih => simp [putAll, run, ih]

/-- Simulation of one interpretation by another, as long as the second makes a statement. -/
theorem run_sim {σ' : Type} (m' : IMach σ') (R : σ → σ' → Prop)
    (hstep : ∀ s s' o, R s s' → ∀ r', m'.step s' o = r' → r' ≠ .error .stuck →
      (match r' with
        | .error e => m.step s o = .error e
        | .ok (t', x) => ∃ t, m.step s o = .ok (t, x) ∧ R t t'))
    (p : IProg ε α) (s : σ) (s' : σ') (hR : R s s') (hns : (p.run m' s').2 ≠ .error .stuck) :
    (p.run m s).1 = (p.run m' s').1 ∧
      (match (p.run m' s').2 with
        | .error e => (p.run m s).2 = .error e
        | .ok (t', x) => ∃ t, (p.run m s).2 = .ok (t, x) ∧ R t t') := by
  induction p generalizing s s' with
  | ret a => simp [run, hR]
  | fail e => simp [run]
  | emit e k ih =>
    simp only [run] at *
    obtain ⟨h1, h2⟩ := ih s s' hR hns
    exact ⟨by rw [h1], h2⟩
  | op o k ih =>
    simp only [run] at hns ⊢
    have hs := hstep s s' o hR _ rfl
    cases hm : m'.step s' o with
    | error e =>
      rw [hm] at hns hs
      have hs := hs (by simpa using hns)
      rw [hs]
      simp
    | ok r =>
      obtain ⟨t', x⟩ := r
      rw [hm] at hns hs
      obtain ⟨t, ht, hR'⟩ := hs (by simp)
      rw [ht]
      exact ih x t t' hR' hns

end IProg
end Verif
