import Verif.CommandLine
import Verif.GoRegex
import Verif.ProgramLemmas

/-!
# Running the model

The model of the program is a relation (`Cmd.Program`), because fuel does not matter and because runs that panic have no result.  Here it is a function, for
given fuel, which is used to run the tests of the repository (`RepoTests`, `RepoCts`).
-/

namespace Verif.Cmd
open JPath

/-- Runs a query, if there is enough fuel and it does not panic. -/
def execQuery (lib : Lib) (strict : Bool) (fuel : Nat) (q : Query) (ts : List Token) : Option (List Token) :=
  match compileQuery q with
  | none => none
  | some r =>
    match (runQuery lib strict fuel r fuel).run Heap.mach (Heap.init ts) with
    | (out, .ok _) => some out
    | _ => none

theorem execQuery_outcome {lib : Lib} {strict : Bool} {fuel : Nat} {q : Query} {ts out : List Token} (h : execQuery lib strict fuel q ts = some out) :
    Outcome lib strict q ts out (.ok ()) := by
  unfold execQuery at h
  split at h
  · cases h
  · next r hr =>
    split at h
    · next hx =>
      cases h
      exact ⟨nofun, r, hr, fuel, by rw [hx], by rw [hx]; rfl⟩
    · cases h

/-- Runs a transformer. -/
def execTransform (env : Env) (strict : Bool) (fuel : Nat) : Transform → List Token → Option (List Token)
  | .split, ts => runTransform explodeArray ts
  | .join, ts => some (joinStream ts)
  | .trace, ts => some (traceStream ts)
  | .depth m, ts => some (maxDepthFilter m ts)
  | .query q, ts => execQuery env.lib strict fuel q ts

theorem execTransform_does {env : Env} {strict : Bool} {fuel : Nat} {t : Transform} {ts out : List Token} (h : execTransform env strict fuel t ts = some out) :
    t.Does env strict ts out := by
  cases t with
  | split => exact h
  | join => exact Option.some.inj h
  | trace => exact Option.some.inj h
  | depth m => exact Option.some.inj h
  | query q => exact execQuery_outcome h

/-- Runs transformers one after the other. -/
def execAll (env : Env) (strict : Bool) (fuel : Nat) : List Transform → List Token → Option (List Token)
  | [], ts => some ts
  | t :: l, ts =>
    match execTransform env strict fuel t ts with
    | none => none
    | some mid => execAll env strict fuel l mid

theorem execAll_does {env : Env} {strict : Bool} {fuel : Nat} {l : List Transform} : ∀ {ts out : List Token}, execAll env strict fuel l ts = some out →
    DoAll env strict l ts out := by
  induction l with
  | nil => intro ts out h; cases h; exact .nil
  | cons t l ih =>
    intro ts out h
    rw [execAll] at h
    split at h
    · cases h
    · next hm => exact .cons (execTransform_does hm) (ih h)

/-- Runs `main`, for given options. -/
def execMain (env : Env) (fuel : Nat) (o : Options) (r : Reader) : Option Result :=
  match prepare o r with
  | none => some ⟨[], 1, true⟩
  | some (source, ts, sink) =>
    match source.tokens env with
    | none => none
    | some (toks, bad) =>
      match execAll env o.strict fuel ts toks with
      | none => none
      | some out =>
        match sink out with
        | (bytes, .ok _) => some ⟨bytes, 0, bad⟩
        | (bytes, .stop .panic) => some ⟨bytes, 0, true⟩
        | _ => none

theorem execMain_main {env : Env} {fuel : Nat} {o : Options} {r : Reader} {x : Result} (h : execMain env fuel o r = some x) : Main env o r x := by
  unfold execMain at h
  split at h
  · next hp => cases h; exact .fatal hp
  · next hp =>
    split at h
    · cases h
    · next ht =>
      split at h
      · cases h
      · next ha =>
        split at h
        · next hs => cases h; exact .run hp ht (execAll_does ha) hs
        · next hs => cases h; exact .panic hp ht (execAll_does ha) hs
        · cases h

/-- Runs the program, with its command line. -/
def exec (env : Env) (fuel : Nat) (terminal : Bool) (words : List Bytes) (r : Reader) : Option Result :=
  match parseFlags words {} with
  | .help => some ⟨[], 0, false⟩
  | .bad => some ⟨[], 2, true⟩
  | .ok v args =>
    if v.helpInput || v.helpOutput || v.helpTransforms || v.helpCookbook then some ⟨[], 0, false⟩
    else match chooseColor v.colorMode terminal with
      | none => some ⟨[], 1, true⟩
      | some color => if v.file = [] then execMain env fuel (v.options terminal color args) r else some ⟨[], 1, true⟩

theorem exec_program {env : Env} {fuel : Nat} {terminal : Bool} {words : List Bytes} {r : Reader} {x : Result} (h : exec env fuel terminal words r = some x) :
    Program env terminal words r x := by
  unfold exec at h
  split at h
  · next hp => cases h; exact .usage hp
  · next hp => cases h; exact .bad hp
  · next hp =>
    split at h
    · next hi => cases h; exact .info hp hi
    · next hi =>
      have hi := Bool.eq_false_iff.2 hi
      split at h
      · next hc => cases h; exact .color hp hi hc
      · next hc =>
        split at h
        · next hf => exact .main hp hi hc hf (execMain_main h)
        · next hf => cases h; exact .file hp hi hc hf

end Verif.Cmd
