import Verif.ProgramGo
import Verif.Props.C55
import Verif.Props.C58

/-!
# C66: the program under every schedule
-/

set_option linter.unusedSimpArgs false
set_option linter.unusedVariables false

namespace Verif.Pipeline

universe u

open Verif.Cmd Verif.Rfc8259 Verif.Json

/-- The calls of the printer so far. -/
def calls (out : List Msg) : List POp := out.filterMap fun
  | .print o => some o
  | _ => none

/-- The bytes that the printer has written so far. -/
def printed (o : Options) (out : List Msg) : Bytes := evBytes ((printer o).execAll 0 (calls out)).1

/-- Something was reported on the standard error output: an error of the decoder, or a panic. -/
def reported (c : List Gor × List Msg) : Bool :=
  (c.1.any fun
    | .source _ _ rep => rep
    | _ => false) || c.2.contains .panicked

/-- The encoder has ended; so does the program then. -/
def Ended (c : List Gor × List Msg) : Prop := ∃ l s, c.1 = l ++ [s] ∧ s.act = .halt

/-- What the pipeline has done, as a result of the program. -/
def resultOf (o : Options) (c : List Gor × List Msg) : Result := ⟨printed o c.2, 0, reported c⟩

theorem calls_print (l : List POp) : calls (l.map .print) = l := by
  induction l with
  | nil => rfl
  | cons a l ih => show a :: calls _ = _; rw [ih]

theorem calls_append (a b : List Msg) : calls (a ++ b) = calls a ++ calls b := by simp [calls]

theorem calls_ending (res : Except Stop (Heap × Unit)) : calls (ending res) = [] := by cases res <;> rfl

theorem printed_prefix (o : Options) {a b : List Msg} (h : a <+: b) : printed o a <+: printed o b := by
  obtain ⟨c, rfl⟩ := h
  unfold printed
  rw [calls_append, PrinterCfg.execAll_append]
  simp [evBytes]

/-- What the encoder does. -/
theorem sink_run {o : Options} {sink : List Token → Bytes × COut Unit} (h : chooseSink o = some sink) (out : List Token) :
    ∃ ops res, (∀ F, out.length + 1 ≤ F → ∃ p, encoder o F = some p ∧ ((p.run Heap.mach (Heap.init out)) = (ops, res) ∨ res = .error .fuel) ∧
        Drains p ∧ ∃ k, p = .op (.advance 0) k) ∧
      sink out = (evBytes ((printer o).execAll 0 ops).1, match res with | .ok (_, a) => .ok a | .error e => .stop e) := by
  have key : ∀ (con : Nat → IProg POp Unit), (∀ {f g : Nat}, f ≤ g → LeP Eq (con f) (con g)) → (∀ F, Drains (con F)) →
      (∀ F, out.length + 1 ≤ F → encoder o F = some (con F)) → (∀ F, ∃ k, con (F + 1) = .op (.advance 0) k) →
      sink out = (con (out.length + 1)).runW Heap.mach (printer o) Enc.goodSink (Heap.init out) 0 [] →
      ∃ ops res, (∀ F, out.length + 1 ≤ F → ∃ p, encoder o F = some p ∧ ((p.run Heap.mach (Heap.init out)) = (ops, res) ∨ res = .error .fuel) ∧
        Drains p ∧ ∃ k, p = .op (.advance 0) k) ∧
      sink out = (evBytes ((printer o).execAll 0 ops).1, match res with | .ok (_, a) => .ok a | .error e => .stop e) := by
    intro con hle hdr henc hop hs
    refine ⟨((con (out.length + 1)).run Heap.mach (Heap.init out)).1, ((con (out.length + 1)).run Heap.mach (Heap.init out)).2, fun F hF => ?_, ?_⟩
    · obtain ⟨F, rfl⟩ : ∃ F', F = F' + 1 := ⟨F - 1, by omega⟩
      refine ⟨_, henc _ hF, ?_, hdr _, hop F⟩
      by_cases hf : ((con (out.length + 1)).run Heap.mach (Heap.init out)).2 = .error .fuel
      · exact .inr hf
      · exact .inl ((hle hF).run_eq _ _ hf)
    · rw [hs, IProg.runW_eq, Sink.feed_all (w := Enc.goodSink) fun _ _ => rfl]
      generalize (con (out.length + 1)).run Heap.mach (Heap.init out) = x
      obtain ⟨ops, r⟩ := x
      cases r <;> rfl
  unfold chooseSink at h
  by_cases h1 : o.outFormat = b%"json"
  · simp only [if_pos h1, Option.some.injEq] at h
    exact key (Enc.consume ⟨o.color, o.width, 2⟩) (Enc.consume_le _) (fun F => drains_forEach _ _ _) (fun F _ => by simp only [encoder, if_pos h1])
      (fun F => ⟨_, rfl⟩) (by rw [← h]; rfl)
  · simp only [if_neg h1] at h
    by_cases h2 : o.outFormat = b%"jpv" ∨ o.outFormat = b%"path"
    · simp only [if_pos h2, Option.some.injEq] at h
      exact key (JEnc.consume ⟨o.color, o.quoteKeys⟩) (JEnc.consume_le _) (fun F => drains_forEach _ _ _)
        (fun F _ => by simp only [encoder, if_neg h1, if_pos h2]) (fun F => ⟨_, rfl⟩) (by rw [← h]; rfl)
    · simp only [if_neg h2] at h
      cases h

/-- Transformers as they are started. -/
theorem gors_good {env : Cmd.Env} {strict : Bool} {bad : Bool} {F : Nat} : ∀ {ts : List Transform} {gs : List Gor},
    Transform.gors env strict (F + 1) ts = some gs → (∀ g ∈ gs, g.Good bad ∧ ¬ g.sawClose ∧ g.kind = 1)
  | [], gs, h => by cases h; simp
  | t :: l, gs, h => by
    simp only [Transform.gors, Option.bind_eq_some_iff, Option.map_eq_some_iff] at h
    obtain ⟨g, h1, gs', h2, rfl⟩ := h
    intro g' hg'
    rcases List.mem_cons.1 hg' with rfl | hg'
    · cases t with
      | split =>
        cases h1
        exact ⟨fun _ => draining_start (drains_forEach _ _ _) ⟨_, rfl⟩, (fun e => nomatch e), rfl⟩
      | join => cases h1; exact ⟨⟨_, _, _, _, rfl, fun _ => ⟨_, _, rfl⟩⟩, (fun e => nomatch e), rfl⟩
      | trace => cases h1; exact ⟨⟨_, _, _, _, rfl, fun _ => ⟨_, _, rfl⟩⟩, (fun e => nomatch e), rfl⟩
      | depth m => cases h1; exact ⟨⟨_, _, _, _, rfl, fun _ => ⟨_, _, rfl⟩⟩, (fun e => nomatch e), rfl⟩
      | query q =>
        simp only [Transform.gor, Option.map_eq_some_iff] at h1
        obtain ⟨r, -, rfl⟩ := h1
        exact ⟨fun _ => draining_start (drains_query _ _ _ _ _) ⟨_, rfl⟩, (fun e => nomatch e), rfl⟩
    · exact gors_good h2 g' hg'

theorem linked_start : ∀ (l : List Gor) (u : Gor), (∀ g ∈ l, ¬ g.sawClose) → Linked (u :: l)
  | [], _, _ => trivial
  | v :: l, u, h => ⟨fun e => absurd e (h v (by simp)), linked_start l v fun g hg => h g (by simp [hg])⟩

/-- The program as goroutines that are scheduled in any order, where the decoder sends its tokens with steps of its own in between.  If the program has
the result `res` when the goroutines are run one after the other (`Main`), then whatever the schedule: the number of steps is bounded, what
is printed at any time is the beginning of what is printed in the end, a step is possible until the encoder has ended, and then the result is `res`: all
is printed, and the errors of the decoder have been reported.  Unless the encoder panics, all goroutines have ended then. -/
theorem C66_schedules {env : Cmd.Env} {o : Options} {r : Reader} {res : Result} (h : Main env o r res)
    {source : Source} {ts : List Transform} {sink : List Token → Bytes × COut Unit} (hp : prepare o r = some (source, ts, sink)) :
    ∃ toks bad F0, source.tokens env = some (toks, bad) ∧ ∀ F, F0 ≤ F → ∀ todo : List (Option Token), todo.filterMap id = toks →
      ∃ gs N, goroutines env o F todo bad ts = some gs ∧ ∀ k c, Steps Gor.act k (gs, []) c →
        k ≤ N ∧ printed o c.2 <+: res.stdout ∧ (¬ Ended c → ∃ c', Step Gor.act c c') ∧
        (Ended c → resultOf o c = res ∧ (Msg.panicked ∉ c.2 → ∀ g ∈ c.1, g.act = .halt)) := by
  have main : ∀ {toks bad out bytes} {cres : COut Unit}, source.tokens env = some (toks, bad) → DoAll env o.strict ts toks out →
      sink out = (bytes, cres) → cres ≠ .stop .fuel → 
      ∃ toks bad' F0, source.tokens env = some (toks, bad') ∧ ∀ F, F0 ≤ F → ∀ todo : List (Option Token), todo.filterMap id = toks →
      ∃ gs N, goroutines env o F todo bad' ts = some gs ∧ ∀ k c, Steps Gor.act k (gs, []) c →
        k ≤ N ∧ printed o c.2 <+: bytes ∧ (¬ Ended c → ∃ c', Step Gor.act c c') ∧
        (Ended c → resultOf o c = ⟨bytes, 0, bad || cres != .ok ()⟩ ∧ (Msg.panicked ∉ c.2 → ∀ g ∈ c.1, g.act = .halt)) := by
    intro toks bad out bytes cres h1 h2 h3 hfuel
    have hsink : chooseSink o = some sink := by
      simp only [prepare, Option.bind_eq_some_iff, Option.map_eq_some_iff] at hp
      obtain ⟨⟨_, _⟩, -, _, -, _, -, k, hk, e⟩ := hp
      cases e
      exact hk
    obtain ⟨ops, pres, hops, hsk⟩ := sink_run hsink out
    rw [h3] at hsk
    cases hsk
    obtain ⟨F1, hF1⟩ := transforms_eval h2
    refine ⟨toks, bad, F1 + out.length + 1, h1, fun F hF todo htodo => ?_⟩
    obtain ⟨gs, n2, e1, e2⟩ := hF1 F (by omega)
    obtain ⟨p, e3, e4, e5, e6⟩ := hops F (by omega)
    have e4 := e4.resolve_right (by rintro rfl; exact hfuel rfl)
    obtain ⟨n1, e7⟩ := source_eval bad todo false
    obtain ⟨n3, e8⟩ := sink_eval e4
    rw [htodo] at e7
    have hev : Evals Gor.act false [] (.source todo bad false :: gs ++ [.sink (.start p)]) (ops.map .print ++ ending pres) (n1 + n2 + (n3 + 0)) :=
      evals_append.2 ⟨_, _, _, .cons e7 e2, .cons e8 .nil, rfl⟩
    refine ⟨_, n1 + n2 + (n3 + 0), by simp only [goroutines, e1, e3]; rfl, fun k c hs => ?_⟩
    have hbytes : printed o (ops.map .print ++ ending pres) = evBytes ((printer o).execAll 0 ops).1 := by
      unfold printed
      rw [calls_append, calls_print, calls_ending, List.append_nil]
    obtain ⟨i1, i2, l', s', i3, i4, i5⟩ := C33_schedules hev hs
    refine ⟨i1, hbytes ▸ printed_prefix o i2, fun hne => i4 fun hh => hne ⟨l', s', i3, hh⟩, fun hend => ?_⟩
    have hs' : s'.act = .halt := by
      obtain ⟨l2, s2, j1, j2⟩ := hend
      rw [i3] at j1
      have := List.append_inj' j1 rfl
      cases this.2
      exact j2
    have hout := i5 hs'
    obtain ⟨F', rfl⟩ : ∃ F', F = F' + 1 := ⟨F - 1, by omega⟩
    have hgood := gors_good (bad := bad) e1
    have hk : Shape ((.source todo bad false :: gs ++ [.sink (.start p)] : List Gor).map Gor.kind) := by
      refine ⟨rfl, fun k hk => ?_⟩
      have e : (.source todo bad false :: gs ++ [.sink (.start p)] : List Gor).map Gor.kind = (0 :: gs.map Gor.kind) ++ [2] := by simp [Gor.kind]
      rw [e, List.dropLast_concat] at hk
      rcases List.mem_cons.1 hk with rfl | hk
      · exact fun e => nomatch e
      · obtain ⟨g, hg, rfl⟩ := List.mem_map.1 hk
        rw [(hgood g hg).2.2]
        exact fun e => nomatch e
    have hg0 : ∀ g ∈ (.source todo bad false :: gs ++ [.sink (.start p)] : List Gor), g.Good bad := by
      intro g hg
      simp only [List.mem_append, List.mem_cons, List.not_mem_nil, or_false] at hg
      rcases hg with (rfl | hg) | rfl
      · exact ⟨rfl, fun e => nomatch e⟩
      · exact (hgood g hg).1
      · exact fun _ => draining_start e5 e6
    have hl0 : ∀ g ∈ gs ++ [.sink (.start p)], ¬ g.sawClose := by
      intro g hg
      simp only [List.mem_append, List.mem_cons, List.not_mem_nil, or_false] at hg
      rcases hg with hg | rfl
      · exact (hgood g hg).2.1
      · exact fun e => nomatch e
    have ho0 : Gor.over ∉ (.source todo bad false :: gs ++ [.sink (.start p)] : List Gor) := by
      intro ho
      simp only [List.mem_append, List.mem_cons, List.not_mem_nil, or_false] at ho
      rcases ho with (ho | ho) | ho
      · cases ho
      · exact absurd (hgood _ ho).2.2 (fun e => nomatch e)
      · cases ho
    have hinv : Inv bad _ c := inv_steps hk hs ⟨hg0, rfl, linked_start _ _ hl0, fun ho => absurd ho ho0⟩
    have hall : Msg.panicked ∉ c.2 → ∀ g ∈ c.1, g.act = .halt := by
      intro hnp
      have hsaw : s'.sawClose := by
        have := gor_next (hinv.good s' (by rw [i3]; simp))
        rw [hs'] at this
        rcases this with e | rfl
        · exact e
        · exact absurd (hinv.over (by rw [i3]; simp)) hnp
      have hl := hinv.linked
      rw [i3] at hl ⊢
      have hks := hinv.kinds
      rw [i3] at hks
      have := linked_all (bad := bad) hsaw l' hl (fun g hg => hinv.good g (by rw [i3]; simp [hg])) (fun g hg => by
        apply hk.last
        rw [← hks, List.map_append, List.map_singleton, List.dropLast_concat]
        exact List.mem_map.2 ⟨g, hg, rfl⟩)
      intro g hg
      rcases List.mem_append.1 hg with hg | hg
      · exact this g hg
      · rw [List.mem_singleton.1 hg]; exact hs'
    refine ⟨?_, hall⟩
    have hrep : reported c = (bad || (match pres with | .ok (_, a) => COut.ok a | .error e => .stop e) != .ok ()) := by
      cases pres with
      | error e =>
        have : Msg.panicked ∈ c.2 := by rw [hout]; simp [ending]
        unfold reported
        simp [this]
      | ok x =>
        have hnp : Msg.panicked ∉ c.2 := by rw [hout]; simp [ending]
        have hh := hall hnp
        have hks := hinv.kinds
        cases hc : c.1 with
        | nil => rw [hc] at i3; simp at i3
        | cons g0 rest =>
          rw [hc] at hks
          have hk0 : g0.kind = 0 := by simpa [Gor.kind] using (List.cons.inj hks).1
          have hrest : ∀ g ∈ rest, g.kind ≠ 0 := by
            intro g hg
            have := (List.cons.inj hks).2
            have hm : g.kind ∈ rest.map Gor.kind := List.mem_map.2 ⟨g, hg, rfl⟩
            rw [this] at hm
            obtain ⟨a, ha, hka⟩ := List.mem_map.1 hm
            rcases List.mem_append.1 ha with ha | ha
            · rw [← hka, (hgood a ha).2.2]; exact fun e => nomatch e
            · rw [← hka, List.mem_singleton.1 ha]; exact fun e => nomatch e
          cases g0 with
          | source td b rep =>
            have hg := hinv.good (.source td b rep) (by rw [hc]; simp)
            have ha := hh (.source td b rep) (by rw [hc]; simp)
            obtain ⟨rfl, hrb⟩ := hg
            have hany : (rest.any fun | .source _ _ rep => rep | _ => false) = false := by
              rw [List.any_eq_false]
              intro g hg
              have := hrest g hg
              cases g <;> simp [Gor.kind] at this ⊢
            have hrep : rep = b := by
              cases td with
              | cons t l => cases t <;> cases ha
              | nil =>
                by_cases hbr : (b && !rep) = true
                · simp only [Gor.act, if_pos hbr] at ha
                  cases ha
                · cases b <;> cases rep <;> simp_all
            unfold reported
            rw [hc, List.any_cons, hany, hrep]
            simp [hnp]
          | loop p c => cases hk0
          | stage r => cases hk0
          | sink r => cases hk0
          | over => cases hk0
    unfold resultOf
    rw [hrep, hout, hbytes]
  cases h with
  | fatal h => rw [hp] at h; cases h
  | @run _ _ _ _ bad _ _ h1 h2 h3 h4 =>
    rw [hp] at h1
    cases h1
    have := main h2 h3 h4 (fun e => nomatch e)
    have e : (bad || COut.ok () != .ok ()) = bad := by cases bad <;> rfl
    rw [e] at this
    exact this
  | @panic _ _ _ _ bad _ _ h1 h2 h3 h4 =>
    rw [hp] at h1
    cases h1
    have := main h2 h3 h4 (fun e => nomatch e)
    have e : (bad || (COut.stop .panic : COut Unit) != .ok ()) = true := by cases bad <;> rfl
    rw [e] at this
    exact this

theorem exists_end {T : Type} {α : Type u} {act : α → Act T α} {c0 : List α × List T} {N : Nat} (hN : ∀ k c, Steps act k c0 c → k ≤ N) :
    ∀ (d k : Nat) (c : List α × List T), Steps act k c0 c → N = k + d → ∃ k' c', Steps act k' c0 c' ∧ ∀ a, ¬ Step act c' a
  | 0, k, c, h, e => ⟨k, c, h, fun a ha => by
      have := hN _ _ (h.trans (.succ ha .zero))
      omega⟩
  | d + 1, k, c, h, e => by
    by_cases hs : ∃ a, Step act c a
    · obtain ⟨a, ha⟩ := hs
      exact exists_end hN d _ a (h.trans (.succ ha .zero)) (by omega)
    · exact ⟨k, c, h, fun a ha => hs ⟨a, ha⟩⟩

/-- With JSON input and arguments that have a meaning (see C55): whatever the schedule, the pipeline comes to an end, after as many steps as every other
schedule, and has printed JSON texts of the values that the specification gives, without an error. -/
theorem C66_json_partial {env : Cmd.Env} {o : Options} {r : Reader} (hi : JsonInput o r) (hf : Fair r.sched) (he : r.fin = .eof) (ho : o.outFormat = b%"json")
    {vs : List JVal} (hv : SepStream LaxChars vs r.rest) {ts : List Transform} (ha : parseArgs o.args = some ts) {out : List JVal}
    (hm : Means env o.strict ts vs out) :
    ∃ F0, ∀ F, F0 ≤ F → ∀ todo : List (Option Token), todo.filterMap id = streamToks vs →
      ∃ gs M, goroutines env o F todo false ts = some gs ∧ ∀ k c, Steps Gor.act k (gs, []) c →
        k ≤ M ∧ ((∀ c', ¬ Step Gor.act c c') ↔ k = M) ∧
        (k = M → resultOf o c = ⟨Enc.render o.printer 0 (Enc.layoutAll ⟨o.color, o.width, 2⟩ out), 0, false⟩ ∧ ∀ g ∈ c.1, g.act = .halt) := by
  obtain ⟨r', h2, h3, h4, h1⟩ := prepare_json hi hf ha ho
  obtain ⟨toks, bad, F0, e1, e2⟩ := C66_schedules (C55_pipeline_partial hi hf he ho hv ha hm) h1
  have ht : (Source.json r').tokens env = some (streamToks vs, false) := by
    rw [tokens_fair h4, h2, h3, he, decode_complete hv]
    rfl
  rw [ht] at e1
  cases e1
  refine ⟨F0, fun F hF todo htodo => ?_⟩
  obtain ⟨gs, N, e3, e4⟩ := e2 F hF todo htodo
  have hN : ∀ k c, Steps Gor.act k (gs, []) c → k ≤ N := fun k c hs => (e4 k c hs).1
  obtain ⟨M, cM, hM, hstuck⟩ := exists_end hN N 0 (gs, []) .zero (by omega)
  have hend : ∀ k c, Steps Gor.act k (gs, []) c → (∀ c', ¬ Step Gor.act c c') → Ended c := fun k c hs hst => by
    apply Classical.byContradiction
    intro hne
    obtain ⟨c', hc⟩ := (e4 k c hs).2.2.1 hne
    exact hst c' hc
  refine ⟨gs, M, e3, fun k c hs => ?_⟩
  obtain ⟨j1, j2, -⟩ := C33_end hM hstuck hs
  have hiff : (∀ c', ¬ Step Gor.act c c') ↔ k = M := by
    constructor
    · intro hst
      cases hmk : M - k with
      | zero => omega
      | succ n =>
        rw [hmk] at j2
        cases j2 with
        | succ h _ => exact absurd h (hst _)
    · rintro rfl
      rw [Nat.sub_self] at j2
      cases j2
      exact hstuck
  refine ⟨j1, hiff, fun hk => ?_⟩
  obtain ⟨i1, i2⟩ := (e4 k c hs).2.2.2 (hend k c hs (hiff.2 hk))
  refine ⟨i1, i2 fun hp => ?_⟩
  have : reported c = false := congrArg Result.reported i1
  unfold reported at this
  simp [hp] at this

/-! ## A transformer that panics -/

/-- A transformer has panicked, which ends the program at once. -/
def Crashed (c : List Gor × List Msg) : Prop := ∃ r, Gor.stage r ∈ c.1 ∧ r.prog = .fail .panic

def Gor.failed : Gor → Bool
  | .stage r => match r.prog with | .fail .panic => true | _ => false
  | _ => false

theorem crashed {c : List Gor × List Msg} (h : c.1.any Gor.failed = true) : Crashed c := by
  obtain ⟨g, hg, hf⟩ := List.any_eq_true.1 h
  cases g with
  | stage r =>
    refine ⟨r, hg, ?_⟩
    simp only [Gor.failed] at hf
    split at hf
    · assumption
    · cases hf
  | _ => cases hf

/-- C66 is false if a transformer panics: for `jp split` with the input `[1] [` on a terminal it depends on the schedule whether anything is printed
before the program crashes. -/
theorem C66_violated : ∃ source sink one gs, prepare { args := [b%"split"], terminal := true } (atOnce b%"[1] [") = some (source, [.split], sink) ∧
    source.tokens noEnv = some ([.startArr, one, .endArr, .startArr], true) ∧
    goroutines noEnv { args := [b%"split"], terminal := true } 20 [some .startArr, some one, some .endArr, some .startArr] true [.split] = some gs ∧
    (∃ k c, Steps Gor.act k (gs, []) c ∧ Crashed c ∧ printed { args := [b%"split"], terminal := true } c.2 = b%"1\n") ∧
    (∃ k c, Steps Gor.act k (gs, []) c ∧ Crashed c ∧ printed { args := [b%"split"], terminal := true } c.2 = []) := by
  obtain ⟨r', h2, h3, h4, h1⟩ := prepare_json (o := { args := [b%"split"], terminal := true }) (r := atOnce b%"[1] [") (atOnce_json rfl _ (.inr rfl)) (fair_atOnce _)
    (ts := [.split]) rfl rfl
  refine ⟨_, _, .scalar ⟨b%"1", .num, false, false, false⟩, _, h1, ?_, rfl, ?_, ?_⟩
  · rw [tokens_fair h4, h2, h3]
    decide +kernel
  · obtain ⟨k, hk⟩ := schedule_steps Gor.act (·.any Gor.failed) [2, 1, 0] 100
      ((goroutines noEnv { args := [b%"split"], terminal := true } 20 [some .startArr, some (.scalar ⟨b%"1", .num, false, false, false⟩), some .endArr, some .startArr] true [.split]).getD [], [])
    exact ⟨k, _, hk, crashed (by decide +kernel), by decide +kernel⟩
  · obtain ⟨k, hk⟩ := schedule_steps Gor.act (·.any Gor.failed) [0, 1, 2] 100
      ((goroutines noEnv { args := [b%"split"], terminal := true } 20 [some .startArr, some (.scalar ⟨b%"1", .num, false, false, false⟩), some .endArr, some .startArr] true [.split]).getD [], [])
    exact ⟨k, _, hk, crashed (by decide +kernel), by decide +kernel⟩

section NonVacuity

/-- A run of the program with an error in the input (C58), and one in which the encoder panics. -/
example : Main noEnv {} (atOnce b%"[1] x") ⟨b%"[1]\n", 0, true⟩ ∧ Main noEnv {} (atOnce b%"[1") ⟨b%"[", 0, true⟩ := ⟨C58_violated, C58_violated_panic⟩

/-- There are different schedules: at first the decoder can make a step of its own, or `join` can send. -/
example : ∃ gs c c', goroutines noEnv {} 10 [none, some .startArr, some .endArr] false [.join] = some gs ∧ Step Gor.act (gs, []) c ∧ Step Gor.act (gs, []) c' ∧
    c.1.length = 3 ∧ c'.1.length = 3 :=
  ⟨_, _, _, rfl, .tau (act := Gor.act) (l := []) (s := .source [none, some .startArr, some .endArr] false false) rfl,
    .pass (act := Gor.act) (l := [.source [none, some .startArr, some .endArr] false false]) (s := .loop Builtin.join.proc false) rfl rfl, rfl, rfl⟩

end NonVacuity

end Verif.Pipeline
