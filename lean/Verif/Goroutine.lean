import Verif.Pipeline
import Verif.HeapLocal
import Verif.Printer

/-!
# Programs over iterators as goroutines

The transformers and the encoders that use iterators read from a channel when they need to, and not before.  Here they are goroutines of
`Verif.Pipeline`: what has been received and not yet read is the input of the model of iterators (`Heap.st.src`); an operation is done when it needs no
more than that, and otherwise the goroutine waits.
-/

set_option linter.unusedSimpArgs false
set_option linter.unusedVariables false

namespace Verif.Pipeline
open Verif.Heap (HSame Root)
open Verif.Streams (Ok)

/-- What goroutines send: tokens.  The last goroutine does not send (see `Step.last`) but calls the printer, or reports a panic. -/
inductive Msg
  | token (t : Token)
  | print (o : POp)
  | panicked
deriving DecidableEq

universe u v

variable {ε β : Type} {α : Type u}

/-- A goroutine that runs a program: what is still to be done, the iterators, and whether it has seen that its channel is closed. -/
structure IRun (ε : Type) where
  prog : IProg ε Unit
  heap : Heap
  closed : Bool

/-- Something is received. -/
def more (h : Heap) (t : Token) : Heap := { h with st := { h.st with src := h.st.src ++ [t] } }

/-- The operation needs no more than what has been received: if there were another token it would remain unread.  (It does not matter which: see
`ready_step`.) -/
def ready (h : Heap) (o : IOp) : Bool :=
  match (more h .elision).step o with
  | .ok (h1, _) => !h1.st.src.isEmpty
  | .error _ => false

/-- What the goroutine does next.  Go: `ChannelReadStream.Next`, `/repo/token/tokenstream.go:21-23`, blocks until something is received or the channel is
closed, after which it always returns at once; `ChannelWriteStream.Put`, lines 48-50, sends.  Simplifications: an operation is done at one moment, when
all it needs has been received (`Copy`, `/repo/iterator/streamiterator.go:151-174`, sends what it has read before it reads on), and one that panics after
the end of the input.  What follows a panic is not modelled here: the goroutine goes on for ever without doing anything. -/
def IRun.act (f : ε → Msg) (r : IRun ε) : Act Msg (IRun ε) :=
  match r.prog with
  | .ret _ => .halt
  | .fail _ => .tau r
  | .emit e k => .put (f e) ⟨k, r.heap, r.closed⟩
  | .op o k =>
    if r.closed || ready r.heap o then
      match r.heap.step o with
      | .ok (h1, x) => .tau ⟨k x, h1, r.closed⟩
      | .error s => .tau ⟨.fail s, r.heap, r.closed⟩
    else .get fun
      | some (.token t) => ⟨.op o k, more r.heap t, false⟩
      | some _ => ⟨.op o k, r.heap, false⟩
      | none => ⟨.op o k, r.heap, true⟩

/-- The same for another type of states. -/
def Act.map {T : Type} {α : Type u} {β : Type v} (g : α → β) : Act T α → Act T β
  | .put t k => .put t (g k)
  | .get k => .get fun x => g (k x)
  | .tau k => .tau (g k)
  | .halt => .halt

/-- At the start nothing has been received. -/
def IRun.start (p : IProg ε Unit) : IRun ε := ⟨p, Heap.init [], false⟩

/-! ## Waiting and going on -/

theorem more_same (h : Heap) (t : Token) : HSame [t] [] (more h t) h :=
  ⟨⟨⟨h.st.src, rfl, by simp⟩, rfl, rfl, rfl, rfl, fun _ => rfl, fun _ _ => rfl⟩, rfl, rfl, rfl⟩

theorem more_ok {h : Heap} (hk : Ok h.st) (t : Token) : Ok (more h t).st := ⟨hk.inv, hk.data⟩

theorem same_symm {H h : Heap} (g : HSame [] [] H h) : HSame [] [] h H := by
  obtain ⟨a, s1, s2⟩ := g.st.src
  refine ⟨⟨⟨a, s2, s1⟩, g.st.np.symm, g.st.nt.symm, g.st.onChan.symm, g.st.curs.symm, fun p => ?_, fun p hp => ?_⟩, g.coll.symm, g.n.symm, g.bad.symm⟩
  · rw [g.st.pools p]; rfl
  · exact (g.st.data p (by rw [← g.st.onChan]; exact hp)).symm

/-- The operation does the same whatever follows. -/
theorem ready_step {h H : Heap} {o : IOp} {b : List Token} (hk : Ok h.st) (g : HSame b [] H h) (hr : ready h o = true) :
    ∃ (h' h1 H1 : Heap) (x : o.Res), (more h .elision).step o = .ok (h', x) ∧ h'.st.src ≠ [] ∧ h.step o = .ok (h1, x) ∧ H.step o = .ok (H1, x) ∧
      HSame [.elision] [] h' h1 ∧ b.length ≤ H1.st.src.length := by
  unfold ready at hr
  cases e : (more h .elision).step o with
  | error s => rw [e] at hr; cases hr
  | ok r =>
    obtain ⟨h', x⟩ := r
    rw [e] at hr
    have hne : h'.st.src ≠ [] := by
      intro hn
      simp only [hn, List.isEmpty_nil, Bool.not_true] at hr
      cases hr
    have hl : ([.elision] : List Token).length ≤ h'.st.src.length := by
      exact List.length_pos_iff.2 hne
    obtain ⟨h1, e1, g1⟩ := (more_same h .elision).step (fun e => absurd e (by simp)) (more_ok hk _) o e hl
    have g' : HSame [.elision] b (more h .elision) H := by
      obtain ⟨a, s1, s2⟩ := g.st.src
      simp only [List.append_nil] at s2
      refine ⟨⟨⟨a, ?_, s1⟩, g.st.np.symm, g.st.nt.symm, g.st.onChan.symm, g.st.curs.symm, fun p => ?_, fun p hp => ?_⟩, g.coll.symm, g.n.symm, g.bad.symm⟩
      · show h.st.src ++ _ = _
        rw [s2]
      · show H.st.pools p = (h.st.pools p).over (H.st.pools p).stream
        rw [g.st.pools p]
        rfl
      · show H.st.pools p = h.st.pools p
        exact (g.st.data p (by rw [← g.st.onChan]; exact hp)).symm
    obtain ⟨H1, e2, g2⟩ := g'.step (fun e => absurd e (by simp)) (more_ok hk _) o e hl
    obtain ⟨a, s1, s2⟩ := g2.st.src
    exact ⟨h', h1, H1, x, rfl, hne, e1, e2, g1, by rw [s2]; simp⟩

/-- Something is received of what follows. -/
theorem more_next {h H : Heap} {t : Token} {b : List Token} (g : HSame (t :: b) [] H h) : HSame b [] H (more h t) := by
  obtain ⟨a, s1, s2⟩ := g.st.src
  simp only [List.append_nil] at s2
  refine ⟨⟨⟨a ++ [t], by rw [s1]; simp, ?_⟩, g.st.np, g.st.nt, g.st.onChan, g.st.curs, g.st.pools, g.st.data⟩, g.coll, g.n, g.bad⟩
  show h.st.src ++ [t] = _
  rw [s2]; simp

variable {f : ε → Msg}

theorem act_emit {e : ε} {k : IProg ε Unit} {h : Heap} {c : Bool} : (⟨.emit e k, h, c⟩ : IRun ε).act f = .put (f e) ⟨k, h, c⟩ := rfl

theorem act_go {o : IOp} {k : o.Res → IProg ε Unit} {h h1 : Heap} {c : Bool} {x : o.Res} (hc : (c || ready h o) = true) (e : h.step o = .ok (h1, x)) :
    (⟨.op o k, h, c⟩ : IRun ε).act f = .tau ⟨k x, h1, c⟩ := by
  simp only [IRun.act, if_pos hc, e]

theorem act_wait {o : IOp} {k : o.Res → IProg ε Unit} {h : Heap} {c : Bool} (hc : ¬ (c || ready h o) = true) :
    (⟨.op o k, h, c⟩ : IRun ε).act f = .get fun
      | some (.token t) => ⟨.op o k, more h t, false⟩
      | some _ => ⟨.op o k, h, false⟩
      | none => ⟨.op o k, h, true⟩ := by
  simp only [IRun.act, if_neg hc]

/-- A goroutine that runs a program sends what the program emits for the whole input, and ends; if the program panics, it gets there. -/
theorem run_eval {act : α → Act Msg α} (lift : IRun ε → α) (hlift : ∀ r, (∀ s, r.prog ≠ .fail s) → act (lift r) = (r.act f).map lift)
    {fin : List Msg} (hfin : ∀ s h c input, fin ≠ [] → ∃ n, Eval act false (lift ⟨.fail s, h, c⟩) input fin n)
    (p : IProg ε Unit) : ∀ {H h : Heap} {out : List ε} {res : Except Stop (Heap × Unit)} {b : List Token} {c : Bool},
    p.run Heap.mach H = (out, res) → (∀ r, res = .ok r → fin = []) → (∀ s, res = .error s → fin ≠ []) →
    Ok H.st → Ok h.st → HSame b [] H h → (c = true → b = []) →
    ∃ n, Eval act false (lift ⟨p, h, c⟩) (b.map .token) (out.map f ++ fin) n := by
  induction p with
  | ret a =>
    intro H h out res b c hr h1 h2 hK hk g hc
    simp only [IProg.run, Prod.mk.injEq] at hr
    obtain ⟨rfl, rfl⟩ := hr
    rw [h1 _ rfl]
    exact ⟨0, .halt (by rw [hlift _ (by intro s hs; cases hs)]; rfl) fun e => nomatch e⟩
  | fail e =>
    intro H h out res b c hr h1 h2 hK hk g hc
    simp only [IProg.run, Prod.mk.injEq] at hr
    obtain ⟨rfl, rfl⟩ := hr
    exact hfin _ _ _ _ (h2 _ rfl)
  | emit e k ih =>
    intro H h out res b c hr h1 h2 hK hk g hc
    simp only [IProg.run, Prod.mk.injEq] at hr
    obtain ⟨rfl, hr⟩ := hr
    obtain ⟨n, hn⟩ := ih (show k.run Heap.mach H = ((k.run Heap.mach H).1, res) from Prod.ext rfl hr) h1 h2 hK hk g hc
    exact ⟨n + 1, .put (by rw [hlift _ (by intro s hs; cases hs)]; rfl) hn⟩
  | op o k ih =>
    intro H h out res b c hr h1 h2 hK hk g hc
    have hnf : ∀ (h : Heap) (c : Bool) (s : Stop), (⟨.op o k, h, c⟩ : IRun ε).prog ≠ .fail s := by intro h c s hs; cases hs
    simp only [IProg.run] at hr
    have wait : ∀ {b : List Token} {h : Heap} {c : Bool}, Ok h.st → HSame b [] H h → (c = true → b = []) →
        (∀ {b : List Token} {h : Heap} {c : Bool}, Ok h.st → HSame b [] H h → (c = true → b = []) → (c || ready h o) = true →
          ∃ n, Eval act false (lift ⟨.op o k, h, c⟩) (b.map .token) (out.map f ++ fin) n) →
        ∃ n, Eval act false (lift ⟨.op o k, h, c⟩) (b.map .token) (out.map f ++ fin) n := by
      intro b h c hk g hc goOn
      induction b generalizing h c with
      | nil =>
        by_cases hgo : (c || ready h o) = true
        · exact goOn hk g hc hgo
        · obtain ⟨n, hn⟩ := goOn (c := true) hk g (fun _ => rfl) rfl
          exact ⟨n + 1, .eof (by rw [hlift _ (hnf _ _), act_wait hgo]; rfl) hn⟩
      | cons t b ihb =>
        by_cases hgo : (c || ready h o) = true
        · exact goOn hk g hc hgo
        · obtain ⟨n, hn⟩ := ihb (h := more h t) (c := false) (more_ok hk t) (more_next g) (fun e => nomatch e)
          exact ⟨n + 1, .get (by rw [hlift _ (hnf _ _), act_wait hgo]; rfl) hn⟩
    refine wait hk g hc fun {b h c} hk g hc hgo => ?_
    have hnow : c = true ∨ (c = false ∧ ready h o = true) := by
      cases c with
      | true => exact .inl rfl
      | false => exact .inr ⟨rfl, hgo⟩
    cases e : Heap.mach.step H o with
    | error s =>
      rw [e] at hr
      have e : H.step o = .error s := e
      rcases hnow with rfl | ⟨rfl, hready⟩
      · have hb := hc rfl
        subst hb
        simp only [Prod.mk.injEq] at hr
        obtain ⟨rfl, rfl⟩ := hr
        obtain ⟨n, hn⟩ := hfin (match h.step o with | .error s => s | _ => s) h true [] (h2 _ rfl)
        refine ⟨n + 1, .tau (k := lift ⟨.fail (match h.step o with | .error s => s | _ => s), h, true⟩) ?_ hn⟩
        rw [hlift _ (hnf _ _)]
        cases e1 : h.step o with
        | error s' => simp only [IRun.act, Bool.true_or, if_true, e1]; rfl
        | ok r =>
          obtain ⟨h1', x⟩ := r
          have gs := same_symm g
          obtain ⟨H1, e2, -⟩ := gs.step (fun _ => rfl) hk o e1 (Nat.zero_le _)
          rw [e] at e2
          cases e2
      · obtain ⟨_, _, H1, _, _, _, _, e4, _, _⟩ := ready_step hk g hready
        rw [e] at e4
        cases e4
    | ok r =>
      obtain ⟨H1, x⟩ := r
      rw [e] at hr
      have e : H.step o = .ok (H1, x) := e
      have hl : b.length ≤ H1.st.src.length := by
        rcases hnow with rfl | ⟨rfl, hready⟩
        · rw [hc rfl]; exact Nat.zero_le _
        · obtain ⟨_, _, H1', _, _, _, _, e4, _, e6⟩ := ready_step hk g hready
          rw [e] at e4
          cases e4
          exact e6
      obtain ⟨h1', e1, g1⟩ := g.step (fun _ => rfl) hK o e hl
      obtain ⟨n, hn⟩ := ih x hr h1 h2 (Heap.step_down hK o e).ok (Heap.step_down hk o e1).ok g1 hc
      exact ⟨n + 1, .tau (by rw [hlift _ (hnf _ _), act_go hgo e1]; rfl) hn⟩

/-- From the start. -/
theorem start_eval {act : α → Act Msg α} (lift : IRun ε → α) (hlift : ∀ r, (∀ s, r.prog ≠ .fail s) → act (lift r) = (r.act f).map lift)
    {fin : List Msg} (hfin : ∀ s h c input, fin ≠ [] → ∃ n, Eval act false (lift ⟨.fail s, h, c⟩) input fin n)
    {p : IProg ε Unit} {ts : List Token} {out : List ε} {res : Except Stop (Heap × Unit)}
    (hr : p.run Heap.mach (Heap.init ts) = (out, res)) (h1 : ∀ r, res = .ok r → fin = []) (h2 : ∀ s, res = .error s → fin ≠ []) :
    ∃ n, Eval act false (lift (.start p)) (ts.map .token) (out.map f ++ fin) n :=
  run_eval lift hlift hfin p hr h1 h2 (Streams.ok_init _) (Streams.ok_init _)
    ⟨⟨⟨[], rfl, rfl⟩, rfl, rfl, rfl, rfl, fun _ => rfl, fun _ _ => rfl⟩, rfl, rfl, rfl⟩ (fun e => nomatch e)

/-! ## Programs that read to the end -/

/-- It has turned out that the input is at its end. -/
def ended : (o : IOp) → o.Res → Bool
  | .advance 0, r => !r
  | _, _ => false

/-- The program does not return before that. -/
def Drains {γ : Type} : IProg ε γ → Prop
  | .ret _ => False
  | .fail _ => True
  | .emit _ k => Drains k
  | .op o k => ∀ r, ended o r = true ∨ Drains (k r)

theorem Drains.bind {γ : Type} {g : γ → IProg ε β} : ∀ (p : IProg ε γ), (∀ a, Drains (g a)) → Drains (p.bind g)
  | .ret a, h => h a
  | .fail _, _ => trivial
  | .emit _ k, h => Drains.bind k h
  | .op _ k, h => fun r => .inr (Drains.bind (k r) h)

/-- Loops over the values of the input. -/
theorem drains_forEach (body : β → Option Scalar → Val → IProg ε β) : ∀ (n : Nat) (b : β), Drains (forEach body 0 n b)
  | 0, _ => trivial
  | n + 1, b => by
    intro (r : Bool)
    cases r with
    | false => exact .inl rfl
    | true =>
      refine .inr fun (kv : Option Scalar × Option Val) => .inr ?_
      obtain ⟨k, x⟩ := kv
      cases x with
      | none => exact trivial
      | some x => exact Drains.bind _ fun b => drains_forEach body n b

/-- A goroutine that has not seen the end of its input: its program does not return before, and it reads from the channel by its first iterator. -/
structure Draining (r : IRun ε) : Prop where
  ok : Ok r.heap.st
  root : Root r.heap
  drains : Drains r.prog
  cur : (r.heap.coll 0).cur.isSome = true ∨ ∃ k, r.prog = .op (.advance 0) k

theorem draining_start {p : IProg ε Unit} (h : Drains p) (hp : ∃ k, p = .op (.advance 0) k) : Draining (.start p) :=
  ⟨Streams.ok_init _, Heap.root_init _, h, .inr hp⟩

theorem Root.more {h : Heap} (g : Root h) (t : Token) : Root (more h t) := ⟨g.kind, g.stream, g.n⟩

/-- It keeps on. -/
theorem Draining.go {o : IOp} {k : o.Res → IProg ε Unit} {h : Heap} {c : Bool} (g : Draining ⟨.op o k, h, c⟩) (hr : ready h o = true) :
    ∃ h1 x, h.step o = .ok (h1, x) ∧ ∀ c', Draining ⟨k x, h1, c'⟩ := by
  have hs : HSame [] [] h h := ⟨⟨⟨h.st.src, by simp, by simp⟩, rfl, rfl, rfl, rfl, fun _ => rfl, fun _ _ => rfl⟩, rfl, rfl, rfl⟩
  obtain ⟨h', h1, _, x, e1, e2, e3, -, e5, -⟩ := ready_step g.ok hs hr
  refine ⟨h1, x, e3, fun c' => ?_⟩
  have hroot := Root.more g.root .elision
  have key : Root h' ∧ (h'.coll 0).cur.isSome = true := by
    rcases g.cur with hc | ⟨k', hk'⟩
    · rcases hroot.step hc o e1 with q | q
      · exact q
      · exact absurd q e2
    · cases hk'
      obtain ⟨q1, q2, q3⟩ := hroot.advance e1
      cases x with
      | true => exact ⟨q1, q2 rfl⟩
      | false => exact absurd (q3 rfl) e2
  have hend : ended o x = false := by
    cases he : ended o x with
    | false => rfl
    | true =>
      exfalso
      cases o with
      | advance i =>
        cases i with
        | zero =>
          have hx : x = false := by simpa [ended] using he
          exact e2 ((hroot.advance e1).2.2 hx)
        | succ i => cases he
      | current i => cases he
      | elided i => cases he
      | clone i => cases he
      | discard i => cases he
      | copy i => cases he
      | detach i => cases he
      | data i => cases he
      | reject p q => cases he
  refine ⟨(Heap.step_down g.ok o e3).ok, ⟨?_, ?_, ?_⟩, ?_, .inl ?_⟩
  · show (h1.coll 0).kind = _
    rw [e5.coll]; exact key.1.kind
  · show (h1.coll 0).stream = _
    rw [e5.coll]; exact key.1.stream
  · show h1.n ≠ 0
    rw [e5.n]; exact key.1.n
  · rcases g.drains x with q | q
    · rw [hend] at q; cases q
    · exact q
  · show (h1.coll 0).cur.isSome = true
    rw [e5.coll]; exact key.2

theorem Draining.wait {o : IOp} {k : o.Res → IProg ε Unit} {h : Heap} {c : Bool} (g : Draining ⟨.op o k, h, c⟩) (t : Token) (c' : Bool) :
    Draining ⟨.op o k, more h t, c'⟩ := ⟨more_ok g.ok t, Root.more g.root t, g.drains, g.cur⟩

end Verif.Pipeline
