import Verif.ProgramLemmas
import Verif.JpvRun
import Verif.CsvLines

/-!
# C57: The result of the program does not depend on how the input arrives
-/

namespace Verif.Cmd

/-- The readers deliver the same bytes and then the same error, and never make 100 reads in a row that deliver nothing; otherwise they may cut the input
as they like. -/
structure SameInput (r r' : Reader) : Prop where
  rest : r.rest = r'.rest
  fin : r.fin = r'.fin
  fair : Fair r.sched
  fair' : Fair r'.sched

theorem SameInput.symm {r r' : Reader} (h : SameInput r r') : SameInput r' r := ⟨h.rest.symm, h.fin.symm, h.fair', h.fair⟩

/-- The same decoder, on readers that deliver the same. -/
private inductive SameSource : Source → Source → Prop
  | json {r r'} : SameInput r r' → SameSource (.json r) (.json r')
  | jpv {r r'} : SameInput r r' → SameSource (.jpv r) (.jpv r')
  | csv {cfg names r r'} : SameInput r r' → SameSource (.csv cfg names r) (.csv cfg names r')

private theorem sameSource_tokens {env : Env} {s s' : Source} (h : SameSource s s') : s.tokens env = s'.tokens env := by
  cases h with
  | json h =>
    simp only [Source.tokens]
    rw [decodeFrom_fair _ _ (by decide) h.fair, decodeFrom_fair _ _ (by decide) h.fair', h.rest, h.fin]
  | jpv h =>
    simp only [Source.tokens]
    rw [jpvDecodeFrom_fair _ _ (by decide) h.fair, jpvDecodeFrom_fair _ _ (by decide) h.fair', h.rest, h.fin]
  | csv h =>
    simp only [Source.tokens]
    rw [Csv.readInput_eq h.fair, Csv.readInput_eq h.fair', h.rest, h.fin]

private theorem same_choose {header format : Bytes} {r r' : Reader} (h : SameInput r r') :
    (chooseSource header format r = none ∧ chooseSource header format r' = none) ∨
      ∃ s s', chooseSource header format r = some s ∧ chooseSource header format r' = some s' ∧ SameSource s s' := by
  unfold chooseSource
  split
  · exact .inl ⟨rfl, rfl⟩
  split
  · exact .inr ⟨_, _, rfl, rfl, .json h⟩
  split
  · exact .inr ⟨_, _, rfl, rfl, .jpv h⟩
  split
  · refine .inr ⟨_, _, rfl, rfl, ?_⟩
    split
    · exact .csv h
    · exact .csv h
  split
  · exact .inr ⟨_, _, rfl, rfl, .csv h⟩
  · exact .inl ⟨rfl, rfl⟩

/-- The formats are chosen in the same way. -/
private def SameFormat (format : Bytes) (r r' : Reader) : Prop :=
  (chooseFormat format r = none ∧ chooseFormat format r' = none) ∨
    ∃ f s s', chooseFormat format r = some (f, s) ∧ chooseFormat format r' = some (f, s') ∧ SameInput s s'

private theorem same_main {env : Env} {o : Options} {r r' : Reader} (h : SameFormat o.inFormat r r') {x : Result} (hx : Main env o r x) :
    Main env o r' x := by
  have hp : (prepare o r = none ∧ prepare o r' = none) ∨ ∃ s s' ts sink, prepare o r = some (s, ts, sink) ∧ prepare o r' = some (s', ts, sink) ∧
      SameSource s s' := by
    unfold prepare
    rcases h with ⟨h1, h2⟩ | ⟨f, s, s', h1, h2, h3⟩
    · exact .inl (by simp [h1, h2])
    · simp only [h1, h2, Option.bind_some]
      rcases same_choose (header := o.csvHeader) (format := f) h3 with ⟨h4, h5⟩ | ⟨t, t', h4, h5, h6⟩
      · exact .inl (by simp [h4, h5])
      · simp only [h4, h5, Option.bind_some]
        cases parseArgs o.args with
        | none => exact .inl ⟨rfl, rfl⟩
        | some ts =>
          cases chooseSink o with
          | none => exact .inl ⟨rfl, rfl⟩
          | some sink => exact .inr ⟨t, t', ts, sink, rfl, rfl, h6⟩
  rcases hp with ⟨h1, h2⟩ | ⟨s, s', ts, sink, h1, h2, h3⟩
  · cases hx with
    | fatal _ => exact .fatal h2
    | run e => rw [h1] at e; cases e
    | panic e => rw [h1] at e; cases e
  · have ht := sameSource_tokens (env := env) h3
    cases hx with
    | fatal e => rw [h1] at e; cases e
    | run e h4 h5 h6 => rw [h1] at e; cases e; exact .run h2 (ht ▸ h4) h5 h6
    | panic e h4 h5 h6 => rw [h1] at e; cases e; exact .panic h2 (ht ▸ h4) h5 h6

private theorem sameInput_multi {start : Bytes} {r r' : Reader} (h1 : r.rest = r'.rest) (h2 : r.fin = r'.fin) (h3 : Fair r.sched) (h4 : Fair r'.sched) :
    SameInput (multiReader start r) (multiReader start r') :=
  ⟨by simp [multiReader, h1], h2, fair_multi h3, fair_multi h4⟩

private theorem sameFormat_explicit {f : Bytes} (hf : f ≠ b%"auto") {r r' : Reader} (h : SameInput r r') : SameFormat f r r' :=
  .inr ⟨f, r, r', by simp [chooseFormat, hf], by simp [chooseFormat, hf], h⟩

/-- If the input format is given by an option, then the result depends only on the bytes and the final error that the reader delivers. -/
theorem C57_explicit_partial {env : Env} {o : Options} (ho : o.inFormat ≠ b%"auto") {r r' : Reader} (h : SameInput r r') (x : Result) :
    Main env o r x ↔ Main env o r' x :=
  ⟨same_main (sameFormat_explicit ho h), same_main (sameFormat_explicit ho h.symm)⟩

/-- If it is to be guessed, then the result depends on nothing else, except for what the first read delivers. -/
theorem C57_auto_partial {env : Env} {o : Options} {r r' : Reader} (h : SameInput r r') (h1 : (r.read 40).1 = (r'.read 40).1)
    (h2 : (r.read 40).2.1 = (r'.read 40).2.1) (x : Result) : Main env o r x ↔ Main env o r' x := by
  have key : ∀ {r r' : Reader}, SameInput r r' → (r.read 40).1 = (r'.read 40).1 → (r.read 40).2.1 = (r'.read 40).2.1 → SameFormat o.inFormat r r' := by
    intro r r' h h1 h2
    by_cases ho : o.inFormat = b%"auto"
    · have hr : (r.read 40).1 ++ (r.read 40).2.2.rest = r.rest ∧ (r.read 40).2.2.fin = r.fin ∧ (r.read 40).2.2.sched = r.sched := by
        unfold Reader.read
        split <;> simp_all
      have hr' : (r'.read 40).1 ++ (r'.read 40).2.2.rest = r'.rest ∧ (r'.read 40).2.2.fin = r'.fin ∧ (r'.read 40).2.2.sched = r'.sched := by
        unfold Reader.read
        split <;> simp_all
      generalize e : r.read 40 = p at h1 h2 hr
      generalize e' : r'.read 40 = p' at h1 h2 hr'
      obtain ⟨b, er, s⟩ := p
      obtain ⟨b', er', s'⟩ := p'
      simp only at h1 h2 hr hr'
      subst h1 h2
      unfold SameFormat chooseFormat
      simp only [ho, if_true, e, e']
      cases er with
      | some _ => exact .inl ⟨rfl, rfl⟩
      | none =>
        simp only
        split
        · exact .inl ⟨rfl, rfl⟩
        · refine .inr ⟨_, _, _, rfl, rfl, sameInput_multi ?_ ?_ ?_ ?_⟩
          · exact List.append_cancel_left (hr.1.trans (h.rest.trans hr'.1.symm))
          · rw [hr.2.1, hr'.2.1, h.fin]
          · rw [hr.2.2]; exact h.fair
          · rw [hr'.2.2]; exact h.fair'
    · exact sameFormat_explicit ho h
  exact ⟨same_main (key h h1 h2), same_main (key h.symm h1.symm h2.symm)⟩

/-- JSON that begins with a brace or a bracket is always recognised, if the first read delivers at least one byte. -/
theorem C57_json_partial {env : Env} {o : Options} {r r' : Reader} (h : SameInput r r') (hi : JsonInput o r) (hi' : JsonInput o r') (x : Result) :
    Main env o r x ↔ Main env o r' x := by
  have key : ∀ {r r' : Reader}, SameInput r r' → JsonInput o r → JsonInput o r' → SameFormat o.inFormat r r' := by
    intro r r' h hi hi'
    obtain ⟨s, e1, e2, e3, e4⟩ := chooseFormat_json hi h.fair
    obtain ⟨s', e1', e2', e3', e4'⟩ := chooseFormat_json hi' h.fair'
    exact .inr ⟨_, s, s', e1, e1', ⟨by rw [e2, e2', h.rest], by rw [e3, e3', h.fin], e4, e4'⟩⟩
  exact ⟨same_main (key h hi hi'), same_main (key h.symm hi' hi)⟩

/-- `a,b`, a newline, `1,2` and a newline, one byte at a time. -/
def slowTable : Reader := ⟨b%"a,b\n1,2\n", .eof, fun _ => (1, false), 0⟩

/-- The same, all at once. -/
def fastTable : Reader := atOnce b%"a,b\n1,2\n"

/-- C57 is false: a table with a header is recognised if it arrives at once, but the program ends with a fatal error if the first read delivers only
one byte. -/
theorem C57_violated (env : Env) : SameInput slowTable fastTable ∧ Main env {} slowTable ⟨[], 1, true⟩ ∧ ¬ Main env {} fastTable ⟨[], 1, true⟩ := by
  refine ⟨⟨rfl, rfl, fun _ => ⟨0, by omega, by simp [slowTable]⟩, fair_atOnce _⟩, .fatal ?_, fun h => ?_⟩
  · have : chooseFormat b%"auto" slowTable = none := by
      have : guessFormat b%"a" = [] := by decide +kernel
      simp [chooseFormat, slowTable, Reader.read, this]
    simp [prepare, this]
  · cases h with
    | fatal e =>
      have hg : guessFormat b%"a,b\n1,2\n" = b%"csv-with-header" := by decide +kernel
      have : chooseFormat b%"auto" fastTable = some (b%"csv-with-header", multiReader b%"a,b\n1,2\n" ⟨[], .eof, fun _ => (8192, false), 1⟩) := by
        simp [chooseFormat, fastTable, atOnce, Reader.read, hg]
      rw [prepare, this] at e
      simp [chooseSource, parseArgs, chooseSink] at e

/-- There are different ways to deliver the same. -/
example : SameInput slowTable fastTable ∧ slowTable.sched 0 ≠ fastTable.sched 0 := ⟨(C57_violated noEnv).1, by decide⟩

end Verif.Cmd
