import Verif.Goroutine
import Verif.EncFuel
import Verif.Program
import Verif.Props.C33

/-!
# The goroutines of the program

The pipeline that `main` (`/repo/cmd/jp/main.go:191-256`) sets up: the decoder, the transformers and the encoder, as goroutines.
-/

set_option linter.unusedSimpArgs false
set_option linter.unusedVariables false

namespace Verif.Pipeline
open Verif.Cmd

/-- Go: the goroutines of the program, `/repo/token/pipeline.go:20-49`. -/
inductive Gor : Type 1
  /-- The decoder (`StartStream`): it sends tokens, with steps of its own (`none`) in between; at the end it reports an error, if there is one (`bad`),
  and then its channel is closed. -/
  | source (todo : List (Option Token)) (bad reported : Bool)
  /-- A transformer that loops over tokens; `closed`: it has seen that its channel is closed. -/
  | loop (p : Proc Token) (closed : Bool)
  /-- A transformer that uses iterators. -/
  | stage (r : IRun Token)
  /-- The encoder. -/
  | sink (r : IRun POp)
  /-- `main` after a panic of the encoder (`/repo/cmd/jp/main.go:38-42`). -/
  | over

/-- What goroutines do next.  `source`: `/repo/token/pipeline.go:35-45`.  `sink`: a panic of the encoder, which runs in the main goroutine, is reported. -/
def Gor.act : Gor → Act Msg Gor
  | .source (some t :: l) bad rep => .put (.token t) (.source l bad rep)
  | .source (none :: l) bad rep => .tau (.source l bad rep)
  | .source [] bad rep => if bad && !rep then .tau (.source [] bad true) else .halt
  | .loop p c =>
    match p.step with
    | .put t p => .put (.token t) (.loop p c)
    | .get k => .get fun
      | some (.token t) => .loop (k (some t)) c
      | some _ => .loop p c
      | none => .loop (k none) true
    | .tau p => .tau (.loop p c)
    | .halt => .halt
  | .stage r => (r.act .token).map .stage
  | .sink r =>
    match r.prog with
    | .fail _ => .put .panicked .over
    | _ => (r.act .print).map .sink
  | .over => .halt

/-- Go: `token.TransformStream(stream, transformer)`, `/repo/cmd/jp/main.go:200-206`; loops have fuel. -/
def Transform.gor (env : Cmd.Env) (strict : Bool) (F : Nat) : Transform → Option Gor
  | .split => some (.stage (.start (transformAll (explodeArray F) F)))
  | .join => some (.loop Builtin.join.proc false)
  | .trace => some (.loop Builtin.trace.proc false)
  | .depth m => some (.loop (Builtin.depth m).proc false)
  | .query q => (JPath.compileQuery q).map fun r => .stage (.start (JPath.runQuery env.lib strict F r F))

def Transform.gors (env : Cmd.Env) (strict : Bool) (F : Nat) : List Transform → Option (List Gor)
  | [] => some []
  | t :: l => (Transform.gor env strict F t).bind fun g => (Transform.gors env strict F l).map (g :: ·)

/-- Go: the printer and the encoder, `/repo/cmd/jp/main.go:212-245`. -/
def printer (o : Options) : PrinterCfg := ⟨if o.compact then -1 else o.indent, o.terminal⟩

def encoder (o : Options) (F : Nat) : Option (IProg POp Unit) :=
  if o.outFormat = b%"json" then some (Enc.consume ⟨o.color, o.width, 2⟩ F)
  else if o.outFormat = b%"jpv" ∨ o.outFormat = b%"path" then some (JEnc.consume ⟨o.color, o.quoteKeys⟩ F)
  else none

/-- All goroutines, when they are started. -/
def goroutines (env : Cmd.Env) (o : Options) (F : Nat) (todo : List (Option Token)) (bad : Bool) (ts : List Transform) : Option (List Gor) :=
  (Transform.gors env o.strict F ts).bind fun gs => (encoder o F).map fun p => .source todo bad false :: gs ++ [.sink (.start p)]

/-! ## What they do on their own -/

theorem source_eval (bad : Bool) : ∀ (todo : List (Option Token)) (rep : Bool),
    ∃ n, Eval Gor.act false (.source todo bad rep) [] ((todo.filterMap id).map .token) n
  | [], rep => by
    by_cases h : (bad && !rep) = true
    · exact ⟨1, .tau (by simp only [Gor.act, if_pos h]; rfl) (.halt (by simp [Gor.act]) fun e => nomatch e)⟩
    · exact ⟨0, .halt (by simp only [Gor.act, if_neg h]) fun e => nomatch e⟩
  | some t :: l, rep => by
    obtain ⟨n, h⟩ := source_eval bad l rep
    exact ⟨n + 1, .put rfl h⟩
  | none :: l, rep => by
    obtain ⟨n, h⟩ := source_eval bad l rep
    exact ⟨n + 1, .tau rfl h⟩

theorem loop_lift {all : Bool} {p : Proc Token} {input output : List Token} {n : Nat} (h : Eval Proc.step all p input output n) :
    ∀ c, Eval Gor.act false (.loop p c) (input.map .token) (output.map .token) n := by
  induction h with
  | put h _ ih => exact fun c => .put (by simp only [Gor.act, h]) (ih c)
  | get h _ ih => exact fun c => .get (by simp only [Gor.act, h]; rfl) (ih c)
  | eof h _ ih => exact fun c => .eof (by simp only [Gor.act, h]; rfl) (ih true)
  | tau h _ ih => exact fun c => .tau (by simp only [Gor.act, h]) (ih c)
  | halt h _ => exact fun c => .halt (by simp only [Gor.act, h]) fun e => nomatch e

theorem stage_eval {p : IProg Token Unit} {ts out : List Token} {h' : Heap} (hr : p.run Heap.mach (Heap.init ts) = (out, .ok (h', ()))) :
    ∃ n, Eval Gor.act false (.stage (.start p)) (ts.map .token) (out.map .token) n := by
  have := start_eval (act := Gor.act) (f := .token) .stage (fun _ _ => rfl) (fin := []) (fun _ _ _ _ h => absurd rfl h) hr (fun _ _ => rfl)
    (fun s h => nomatch h)
  simpa using this

theorem sink_act {r : IRun POp} (h : ∀ s, r.prog ≠ .fail s) : Gor.act (.sink r) = (r.act .print).map .sink := by
  cases hp : r.prog with
  | fail s => exact absurd hp (h s)
  | ret a => simp only [Gor.act, hp]
  | emit e k => simp only [Gor.act, hp]
  | op o k => simp only [Gor.act, hp]

/-- What is seen of the end of the encoder. -/
def ending : Except Stop (Heap × Unit) → List Msg
  | .ok _ => []
  | .error _ => [.panicked]

theorem sink_eval {p : IProg POp Unit} {ts : List Token} {out : List POp} {res : Except Stop (Heap × Unit)}
    (hr : p.run Heap.mach (Heap.init ts) = (out, res)) :
    ∃ n, Eval Gor.act false (.sink (.start p)) (ts.map .token) (out.map .print ++ ending res) n := by
  refine start_eval (act := Gor.act) (f := .print) .sink (fun _ h => sink_act h) (fin := ending res) (fun s h c input he => ?_) hr (fun r h => by rw [h]; rfl)
    (fun s h => by rw [h]; exact fun e => nomatch e)
  cases res with
  | ok r => exact absurd rfl he
  | error s => exact ⟨1, .put rfl (.halt rfl fun e => nomatch e)⟩

/-- A transformer does the same as a goroutine. -/
theorem transform_eval {env : Cmd.Env} {strict : Bool} {t : Transform} {ts out : List Token} (h : t.Does env strict ts out) :
    ∃ F0, ∀ F, F0 ≤ F → ∃ g n, Transform.gor env strict F t = some g ∧ Eval Gor.act false g (ts.map .token) (out.map .token) n := by
  cases t with
  | split =>
    refine ⟨ts.length + 1, fun F hF => ⟨.stage (.start (transformAll (explodeArray F) F)), ?_⟩⟩
    have h : runTransform explodeArray ts = some out := h
    unfold runTransform at h
    cases hr : (transformAll (explodeArray (ts.length + 1)) (ts.length + 1)).run Heap.mach (Heap.init ts) with
    | mk o res =>
      rw [hr] at h
      cases res with
      | error s => cases h
      | ok x =>
        cases h
        have e := (split_le hF).run_eq Heap.mach (Heap.init ts) (by rw [hr]; exact fun e => nomatch e)
        rw [hr] at e
        obtain ⟨n, hn⟩ := stage_eval (h' := x.1) e
        exact ⟨n, rfl, hn⟩
  | join =>
    have h : joinStream ts = out := h
    obtain ⟨n, hn⟩ := builtin_eval .join ts
    exact ⟨0, fun F _ => ⟨_, n, rfl, h ▸ loop_lift hn false⟩⟩
  | trace =>
    have h : traceStream ts = out := h
    obtain ⟨n, hn⟩ := builtin_eval .trace ts
    exact ⟨0, fun F _ => ⟨_, n, rfl, h ▸ loop_lift hn false⟩⟩
  | depth m =>
    have h : maxDepthFilter m ts = out := h
    obtain ⟨n, hn⟩ := builtin_eval (.depth m) ts
    exact ⟨0, fun F _ => ⟨_, n, rfl, h ▸ loop_lift hn false⟩⟩
  | query q =>
    obtain ⟨-, r, hr, F0, h1, h2⟩ := (h : JPath.Outcome env.lib strict q ts out (.ok ()))
    cases hrun : (JPath.runQuery env.lib strict F0 r F0).run Heap.mach (Heap.init ts) with
    | mk o res =>
      rw [hrun] at h1 h2
      cases res with
      | error s => cases h2
      | ok x =>
        have h1 : o = out := h1
        subst h1
        refine ⟨F0, fun F hF => ?_⟩
        have e := JPath.runQuery_more Heap.mach (Heap.init ts) env.lib strict r hF hF (by rw [hrun]; exact fun e => nomatch e)
        rw [hrun] at e
        obtain ⟨n, hn⟩ := stage_eval (h' := x.1) e
        exact ⟨_, n, by simp only [Transform.gor, hr]; rfl, hn⟩

theorem transforms_eval {env : Cmd.Env} {strict : Bool} {ts : List Transform} {toks out : List Token} (h : DoAll env strict ts toks out) :
    ∃ F0, ∀ F, F0 ≤ F → ∃ gs n, Transform.gors env strict F ts = some gs ∧ Evals Gor.act false (toks.map .token) gs (out.map .token) n := by
  induction h with
  | nil => exact ⟨0, fun F _ => ⟨[], 0, rfl, .nil⟩⟩
  | cons h _ ih =>
    obtain ⟨F1, h1⟩ := transform_eval h
    obtain ⟨F2, h2⟩ := ih
    refine ⟨F1 + F2, fun F hF => ?_⟩
    obtain ⟨g, n, e1, e2⟩ := h1 F (by omega)
    obtain ⟨gs, m, e3, e4⟩ := h2 F (by omega)
    exact ⟨g :: gs, n + m, by simp only [Transform.gors, e1, e3]; rfl, .cons e2 e4⟩

/-! ## The end of a goroutine -/

theorem drains_query (lib : JPath.Lib) (strict : Bool) (fuel : Nat) (r : JPath.MainR) : ∀ n, Drains (JPath.runQuery lib strict fuel r n)
  | 0 => trivial
  | n + 1 => by
    intro (r' : Bool)
    cases r' with
    | false => exact .inl rfl
    | true =>
      refine .inr fun (kv : Option Scalar × Option Val) => .inr ?_
      obtain ⟨k, x⟩ := kv
      cases x with
      | none => exact trivial
      | some x => exact Drains.bind _ fun b => drains_query lib strict fuel r n

/-- It has seen that its channel is closed (the source has none). -/
def Gor.sawClose : Gor → Prop
  | .source _ _ _ => True
  | .loop _ c => c = true
  | .stage r => r.closed = true
  | .sink r => r.closed = true
  | .over => False

/-- Goroutines that do not end before they have seen that. -/
def Gor.Good (bad : Bool) : Gor → Prop
  | .source _ b rep => b = bad ∧ (rep = true → bad = true)
  | .loop p c => ∃ (δ : Type) (step : δ → Token → δ × List Token) (fin : δ → List Token) (st : Loop Token δ),
      p = ⟨loopNext step fin, st⟩ ∧ (c = false → ∃ l d, st = .emit l d)
  | .stage r => r.closed = false → Draining r
  | .sink r => r.closed = false → Draining r
  | .over => True

/-- Where goroutines are: the source first, the encoder last. -/
def Gor.kind : Gor → Nat
  | .source _ _ _ => 0
  | .loop _ _ => 1
  | .stage _ => 1
  | .sink _ => 2
  | .over => 2

/-- The program of a goroutine, a step further. -/
theorem run_next {ε : Type} {f : ε → Msg} {r : IRun ε} (hd : r.closed = false → Draining r) :
    match r.act f with
    | .put _ r' => (r'.closed = true → r.closed = true) ∧ (r'.closed = false → Draining r')
    | .tau r' => (r'.closed = true → r.closed = true) ∧ (r'.closed = false → Draining r')
    | .get k => (∀ t, ((k (some t)).closed = true → r.closed = true) ∧ ((k (some t)).closed = false → Draining (k (some t)))) ∧
        ((k none).closed = false → Draining (k none))
    | .halt => r.closed = true := by
  obtain ⟨p, h, c⟩ := r
  cases p with
  | ret a =>
    show c = true
    cases c with
    | true => rfl
    | false => exact (hd rfl).drains.elim
  | fail s => exact ⟨id, hd⟩
  | emit e k =>
    refine ⟨id, fun hc => ?_⟩
    have := hd hc
    exact ⟨this.ok, this.root, this.drains, .inl (this.cur.resolve_right fun ⟨k', hk⟩ => nomatch hk)⟩
  | op o k =>
    by_cases hgo : (c || ready h o) = true
    · cases c with
      | true =>
        simp only [IRun.act, Bool.true_or, if_true]
        cases h.step o with
        | error s => exact ⟨fun _ => trivial, fun e => nomatch e⟩
        | ok x => exact ⟨fun _ => trivial, fun e => nomatch e⟩
      | false =>
        obtain ⟨h1, x, e, hn⟩ := (hd rfl).go (by simpa using hgo)
        rw [act_go hgo e]
        exact ⟨id, fun _ => hn false⟩
    · have hc : c = false := by
        cases c with
        | false => rfl
        | true => exact absurd rfl hgo
      subst hc
      rw [act_wait hgo]
      refine ⟨fun t => ?_, fun e => nomatch e⟩
      cases t with
      | token t => exact ⟨id, fun _ => (hd rfl).wait t false⟩
      | print o => exact ⟨id, hd⟩
      | panicked => exact ⟨id, hd⟩

/-- Goroutines, a step further. -/
structure Next (bad : Bool) (g g' : Gor) : Prop where
  good : g'.Good bad
  saw : g'.sawClose → g.sawClose
  kind : g'.kind = g.kind

theorem gor_next {bad : Bool} {g : Gor} (hg : g.Good bad) :
    match g.act with
    | .put t g' => Next bad g g' ∧ (g' = .over → t = .panicked)
    | .tau g' => Next bad g g' ∧ g' ≠ .over
    | .get k => (∀ t, Next bad g (k (some t)) ∧ k (some t) ≠ .over) ∧ (k none).Good bad ∧ (k none).kind = g.kind ∧ k none ≠ .over ∧ g.kind ≠ 0
    | .halt => g.sawClose ∨ g = .over := by
  cases g with
  | source todo b rep =>
    cases todo with
    | nil =>
      obtain ⟨rfl, h2⟩ := hg
      by_cases h : (b && !rep) = true
      · simp only [Gor.act, if_pos h]
        exact ⟨⟨⟨rfl, fun _ => by simp at h; exact h.1⟩, fun _ => trivial, rfl⟩, fun e => nomatch e⟩
      · simp only [Gor.act, if_neg h]
        exact .inl trivial
    | cons t l =>
      cases t with
      | none => exact ⟨⟨hg, fun _ => trivial, rfl⟩, fun e => nomatch e⟩
      | some t => exact ⟨⟨hg, fun _ => trivial, rfl⟩, fun e => nomatch e⟩
  | loop p c =>
    obtain ⟨δ, step, fin, st, rfl, hc⟩ := hg
    cases st with
    | emit l d =>
      cases l with
      | nil =>
        refine ⟨fun t => ?_, ⟨δ, step, fin, _, rfl, fun e => nomatch e⟩, rfl, (fun e => nomatch e), (fun e => nomatch e)⟩
        cases t with
        | token t => exact ⟨⟨⟨δ, step, fin, _, rfl, fun _ => ⟨_, _, rfl⟩⟩, id, rfl⟩, fun e => nomatch e⟩
        | print o => exact ⟨⟨⟨δ, step, fin, _, rfl, hc⟩, id, rfl⟩, fun e => nomatch e⟩
        | panicked => exact ⟨⟨⟨δ, step, fin, _, rfl, hc⟩, id, rfl⟩, fun e => nomatch e⟩
      | cons t l => exact ⟨⟨⟨δ, step, fin, _, rfl, fun _ => ⟨_, _, rfl⟩⟩, id, rfl⟩, fun e => nomatch e⟩
    | finish l =>
      have hc : c = true := by
        cases c with
        | true => rfl
        | false => obtain ⟨_, _, e⟩ := hc rfl; cases e
      subst hc
      cases l with
      | nil => exact .inl rfl
      | cons t l => exact ⟨⟨⟨δ, step, fin, _, rfl, fun e => nomatch e⟩, id, rfl⟩, fun e => nomatch e⟩
  | stage r =>
    have := run_next (f := .token) hg
    simp only [Gor.act]
    cases e : r.act .token with
    | put t r' => rw [e] at this; exact ⟨⟨this.2, this.1, rfl⟩, fun e => nomatch e⟩
    | tau r' => rw [e] at this; exact ⟨⟨this.2, this.1, rfl⟩, fun e => nomatch e⟩
    | get k =>
      rw [e] at this
      exact ⟨fun t => ⟨⟨(this.1 t).2, (this.1 t).1, rfl⟩, fun e => nomatch e⟩, this.2, rfl, (fun e => nomatch e), (fun e => nomatch e)⟩
    | halt => rw [e] at this; exact .inl this
  | sink r =>
    by_cases hf : ∃ s, r.prog = .fail s
    · obtain ⟨s, hf⟩ := hf
      have : Gor.act (.sink r) = .put .panicked .over := by simp only [Gor.act, hf]
      rw [this]
      exact ⟨⟨trivial, fun h => h.elim, rfl⟩, fun _ => rfl⟩
    · rw [sink_act fun s hs => hf ⟨s, hs⟩]
      have := run_next (f := .print) hg
      cases e : r.act .print with
      | put t r' => rw [e] at this; exact ⟨⟨this.2, this.1, rfl⟩, fun e => nomatch e⟩
      | tau r' => rw [e] at this; exact ⟨⟨this.2, this.1, rfl⟩, fun e => nomatch e⟩
      | get k =>
        rw [e] at this
        exact ⟨fun t => ⟨⟨(this.1 t).2, (this.1 t).1, rfl⟩, fun e => nomatch e⟩, this.2, rfl, (fun e => nomatch e), (fun e => nomatch e)⟩
      | halt => rw [e] at this; exact .inl this
  | over => exact .inr rfl

/-! ## Whole pipelines -/

/-- A goroutine has seen that its channel is closed only if the one before it has ended. -/
def Linked : List Gor → Prop
  | u :: v :: r => (v.sawClose → u.act = .halt) ∧ Linked (v :: r)
  | _ => True

theorem linked_replace {s s' : Gor} (h1 : s'.sawClose → s.sawClose) (h2 : s.act ≠ .halt) (r : List Gor) : ∀ l, Linked (l ++ s :: r) → Linked (l ++ s' :: r)
  | [], h => by
    cases r with
    | nil => trivial
    | cons v r => exact ⟨fun e => absurd (h.1 e) h2, h.2⟩
  | [u], h => ⟨fun e => h.1 (h1 e), linked_replace h1 h2 r [] h.2⟩
  | u :: v :: l, h => ⟨h.1, linked_replace h1 h2 r (v :: l) h.2⟩

theorem linked_close {s u u' : Gor} (h1 : s.act = .halt) (h2 : u.act ≠ .halt) (r : List Gor) :
    ∀ l, Linked (l ++ s :: u :: r) → Linked (l ++ s :: u' :: r)
  | [], h => by
    refine ⟨fun _ => h1, ?_⟩
    cases r with
    | nil => trivial
    | cons v r => exact ⟨fun e => absurd (h.2.1 e) h2, h.2.2⟩
  | [v], h => ⟨h.1, linked_close h1 h2 r [] h.2⟩
  | v :: w :: l, h => ⟨h.1, linked_close h1 h2 r (w :: l) h.2⟩

/-- If the last one has seen it, all before have ended. -/
theorem linked_all {bad : Bool} {s : Gor} (hs : s.sawClose) : ∀ l, Linked (l ++ [s]) → (∀ g ∈ l, g.Good bad) → (∀ g ∈ l, g.kind ≠ 2) → ∀ g ∈ l, g.act = .halt
  | [], _, _, _ => by simp
  | u :: l, h, hg, hk => by
    have hall := linked_all hs l (by cases l with | nil => trivial | cons v l => exact h.2) (fun g m => hg g (by simp [m])) (fun g m => hk g (by simp [m]))
    have hu : u.act = .halt := by
      cases l with
      | nil => exact h.1 hs
      | cons v l =>
        refine h.1 ?_
        have hv := hall v (by simp)
        have := gor_next (hg v (by simp))
        rw [hv] at this
        rcases this with e | rfl
        · exact e
        · exact absurd rfl (hk .over (by simp))
    intro g hm
    rcases List.mem_cons.1 hm with rfl | hm
    · exact hu
    · exact hall g hm

/-- What is true of all states of the pipeline. -/
structure Inv (bad : Bool) (kinds : List Nat) (c : List Gor × List Msg) : Prop where
  good : ∀ g ∈ c.1, g.Good bad
  kinds : c.1.map Gor.kind = kinds
  linked : Linked c.1
  over : Gor.over ∈ c.1 → Msg.panicked ∈ c.2

/-- The source is first and the encoder is last. -/
structure Shape (kinds : List Nat) : Prop where
  first : kinds.head? = some 0
  last : ∀ k ∈ kinds.dropLast, k ≠ 2

theorem inv_step {bad : Bool} {kinds : List Nat} (hk : Shape kinds) {c c' : List Gor × List Msg} (h : Step Gor.act c c') (hi : Inv bad kinds c) :
    Inv bad kinds c' := by
  obtain ⟨i1, i2, i3, i4⟩ := hi
  cases h with
  | @tau l s s' r out h =>
    have := gor_next (i1 s (by simp))
    rw [h] at this
    obtain ⟨⟨n1, n2, n3⟩, n4⟩ := this
    refine ⟨fun g hg => ?_, ?_, linked_replace n2 (by rw [h]; exact fun e => nomatch e) r l i3, fun ho => ?_⟩
    · simp only [List.mem_append, List.mem_cons] at hg
      rcases hg with hg | rfl | hg
      · exact i1 g (by simp [hg])
      · exact n1
      · exact i1 g (by simp [hg])
    · rw [← i2]; simp [n3]
    · simp only [List.mem_append, List.mem_cons] at ho
      rcases ho with ho | ho | ho
      · exact i4 (by simp [ho])
      · exact absurd ho.symm n4
      · exact i4 (by simp [ho])
  | @pass l s t s' u k r out h h' =>
    have a1 := gor_next (i1 s (by simp))
    rw [h] at a1
    obtain ⟨⟨n1, n2, n3⟩, n4⟩ := a1
    have a2 := gor_next (i1 u (by simp))
    rw [h'] at a2
    obtain ⟨⟨m1, m2, m3⟩, m4⟩ := a2.1 t
    have hs2 : s.kind ≠ 2 := by
      apply hk.last
      rw [← i2]
      have : (l ++ s :: u :: r).map Gor.kind = (l.map Gor.kind ++ [s.kind]) ++ (u :: r).map Gor.kind := by simp
      show s.kind ∈ ((l ++ s :: u :: r).map Gor.kind).dropLast
      rw [this, List.dropLast_append_of_ne_nil (by simp)]
      simp
    have hs' : s' ≠ .over := by
      rintro rfl
      exact hs2 n3.symm
    have hl := linked_replace n2 (by rw [h]; exact fun e => nomatch e) (u :: r) l i3
    refine ⟨fun g hg => ?_, ?_, ?_, fun ho => ?_⟩
    · simp only [List.mem_append, List.mem_cons] at hg
      rcases hg with hg | rfl | rfl | hg
      · exact i1 g (by simp [hg])
      · exact n1
      · exact m1
      · exact i1 g (by simp [hg])
    · rw [← i2]; simp [n3, m3]
    · have := linked_replace (s := u) m2 (by rw [h']; exact fun e => nomatch e) r (l ++ [s']) (by simpa using hl)
      simpa using this
    · simp only [List.mem_append, List.mem_cons] at ho
      rcases ho with ho | ho | ho | ho
      · exact i4 (by simp [ho])
      · exact absurd ho.symm hs'
      · exact absurd ho.symm m4
      · exact i4 (by simp [ho])
  | @close l s u k r out h h' =>
    have a2 := gor_next (i1 u (by simp))
    rw [h'] at a2
    obtain ⟨-, m1, m3, m4, -⟩ := a2
    refine ⟨fun g hg => ?_, ?_, linked_close h (by rw [h']; exact fun e => nomatch e) r l i3, fun ho => ?_⟩
    · simp only [List.mem_append, List.mem_cons] at hg
      rcases hg with hg | rfl | rfl | hg
      · exact i1 g (by simp [hg])
      · exact i1 g (by simp)
      · exact m1
      · exact i1 g (by simp [hg])
    · rw [← i2]; simp [m3]
    · simp only [List.mem_append, List.mem_cons] at ho
      rcases ho with ho | ho | ho | ho
      · exact i4 (by simp [ho])
      · exact i4 (by simp [ho])
      · exact absurd ho.symm m4
      · exact i4 (by simp [ho])
  | @first s k r out h =>
    have a2 := gor_next (i1 s (by simp))
    rw [h] at a2
    have := hk.first
    rw [← i2] at this
    simp at this
    exact absurd this a2.2.2.2.2
  | @last l s t s' out h =>
    have := gor_next (i1 s (by simp))
    rw [h] at this
    obtain ⟨⟨n1, n2, n3⟩, n4⟩ := this
    refine ⟨fun g hg => ?_, ?_, linked_replace n2 (by rw [h]; exact fun e => nomatch e) [] l i3, fun ho => ?_⟩
    · simp only [List.mem_append, List.mem_cons, List.not_mem_nil, or_false] at hg
      rcases hg with hg | rfl
      · exact i1 g (by simp [hg])
      · exact n1
    · rw [← i2]; simp [n3]
    · simp only [List.mem_append, List.mem_cons, List.not_mem_nil, or_false] at ho
      rcases ho with ho | ho
      · exact List.mem_append_left _ (i4 (by simp [ho]))
      · exact List.mem_append_right _ (by rw [n4 ho.symm]; simp)

theorem inv_steps {bad : Bool} {kinds : List Nat} (hk : Shape kinds) {n : Nat} {c c' : List Gor × List Msg} (h : Steps Gor.act n c c') :
    Inv bad kinds c → Inv bad kinds c' := by
  induction h with
  | zero => exact id
  | succ h _ ih => exact fun hi => ih (inv_step hk h hi)

end Verif.Pipeline
