import Verif.ScanEcho
import Verif.EncQuiet
import Verif.HeldDesc
import Verif.JpvDecoder
import Verif.PathCompiler
import Verif.PathParser
import Verif.PathSamples
import Verif.IterTransforms

/-!
# C75: the memory does not grow with the input

What is counted: the bytes in the buffer of the scanner, the bytes of a token that were moved out of it, and the tokens in the windows of the cursor pools.
Objects that Go's garbage collector frees (collections that were read, slices that were sent) are not counted.
-/

set_option linter.unusedSimpArgs false
set_option linter.unusedVariables false

namespace Verif

/-- In every state that a run of a program of scanner operations (such as the decoders) reaches, from a new scanner with a buffer of `size` bytes: the buffer
holds at most `size` bytes; outside of tokens nothing is stored besides; and in a token what is stored is, up to a byte, part of the token that `EndToken`
will return. -/
theorem C75_scanner {α : Type} {p p' : Prog α} {r : Reader} {size : Nat} {L : List Bytes} {c : CScan}
    (h : Prog.Reach CScan.machine p (CScan.new r size) L p' c) :
    c.buf.length ≤ size ∧ (c.tokStart = none → c.parts = []) ∧
      ∀ {b L' p'' c'}, c.tokStart ≠ none → Prog.Reach CScan.machine p' c (b :: L') p'' c' → c.parts.flatten.length ≤ b.length + 1 := by
  obtain ⟨h1, h2⟩ := h.tidy (CScan.tidy_new r size)
  refine ⟨by have := h1.buf; rw [h2] at this; exact this, h1.parts, ?_⟩
  intro b L' p'' c' hn hr
  have h3 := hr.recorded h1 (by cases e : c.tokStart <;> simp_all)
  have h4 : c.flag ≤ 1 := by unfold CScan.flag; split <;> omega
  unfold CScan.recorded at h3
  omega

/-- If a JSON input is decoded without error, then in all states that the decoder reaches, what is stored is at most the buffer and one byte more than a
scalar of the input has. -/
theorem C75_json {r : Reader} {size : Nat} {ts : List Token} (h : Json.decodeFrom r size = (ts, .ok () ())) {L : List Bytes} {p : Prog Unit} {c : CScan}
    (hr : Prog.Reach CScan.machine (Json.produce (Json.fuelFor r.rest.length) (Json.fuelFor r.rest.length)) (CScan.new r size) L p c) :
    c.buf.length ≤ size ∧ (c.parts = [] ∨ ∃ s, .scalar s ∈ ts ∧ c.parts.flatten.length ≤ s.bytes.length + 1) := by
  obtain ⟨h1, h2, h3⟩ := C75_scanner hr
  refine ⟨h1, ?_⟩
  cases hp : c.parts with
  | nil => exact .inl rfl
  | cons x l =>
    refine .inr ?_
    have hn : c.tokStart ≠ none := fun e => by rw [h2 e] at hp; cases hp
    obtain ⟨⟨st, e1, e2⟩, e3, e4⟩ := hr.echo (CScan.tidy_new r size) (Prog.Echo.idle_produce _ _) ⟨fun e => (by cases e), fun e => (by cases e)⟩
    have hst : st = .recording := e2.2 (by cases e : c.tokStart <;> simp_all)
    rw [hst] at e1
    have hok : ∃ c', (p.run CScan.machine c).2 = .ok () c' ∧ ts = ((Json.produce (Json.fuelFor r.rest.length) (Json.fuelFor r.rest.length)).run CScan.machine
        (CScan.new r size)).1 := by
      rw [e4]
      unfold Json.decodeFrom Prog.result at h
      cases e : (Json.produce (Json.fuelFor r.rest.length) (Json.fuelFor r.rest.length)).run CScan.machine (CScan.new r size) with
      | mk o x =>
        rw [e] at h
        cases x <;> simp_all [Out.erase]
    obtain ⟨c', hok, rfl⟩ := hok
    obtain ⟨b, p', c2, s, f1, f2, rfl⟩ := Prog.Echo.taken (fun _ _ h => h) e1 hok
    rw [← hp]
    exact ⟨s, e3.subset f2, h3 hn f1⟩

theorem held_init (ts : List Token) : (Streams.init ts).held = [] := rfl

theorem Heap.Chan.held {h : Heap} (hc : h.Chan) : h.st.held = [] := by rw [hc.st]; rfl

/-- In all states that `split` reaches, on any stream of tokens, no token is stored. -/
theorem C75_split (f g : Nat) {ts out : List Token} {p : IProg Token Unit} {h : Heap}
    (hr : Reach Heap.mach (transformAll (explodeArray f) g) (Heap.init ts) out p h) : h.st.held = [] :=
  (IProg.Quiet.chan hr (IProg.Quiet.forEach (fun _ _ x => IProg.Quiet.explodeArray f x) g ()) (Heap.chan_init ts)).held

/-- In all states that the encoders reach, on any stream of tokens, no token is stored in the iterators.  (The JSON encoder keeps a few scalars of a collection
that may fit on a line.) -/
theorem C75_encoders (cfg : EncCfg) (cfg' : JEncCfg) (f : Nat) {ts : List Token} {out : List POp} {p : IProg POp Unit} {h : Heap}
    (hr : Reach Heap.mach (Enc.consume cfg f) (Heap.init ts) out p h ∨ Reach Heap.mach (JEnc.consume cfg' f) (Heap.init ts) out p h) : h.st.held = [] := by
  rcases hr with hr | hr
  · exact (IProg.Quiet.chan hr (Enc.mute_consume cfg f) (Heap.chan_init ts)).held
  · exact (IProg.Quiet.chan hr (JEnc.mute_consume cfg' f) (Heap.chan_init ts)).held

namespace JPath

/-- A selector that decides on each item when it comes: a name, a wildcard, an index or a forward slice without negative numbers. -/
def Forward : Selector → Prop
  | .name _ => True
  | .wild => True
  | .index i => 0 ≤ i
  | .slice a b c => (∀ x, a = some x → 0 ≤ x ∧ x < 2 ^ 63) ∧ (∀ x, b = some x → 0 ≤ x ∧ x < 2 ^ 63) ∧ 0 ≤ c
  | .filter _ => False

theorem Forward.compile {s : Selector} (h : Forward s) (tab : Tables) : ∃ r, compileSel tab s = some (tab, r) ∧ r.Direct ∧ r.lookahead = 0 := by
  cases s with
  | name n => exact ⟨.name n, by rw [compileSel], trivial, rfl⟩
  | wild => exact ⟨.wild, by rw [compileSel], trivial, rfl⟩
  | index i => exact ⟨.index i, by rw [compileSel], trivial, if_neg (by have : 0 ≤ i := h; omega)⟩
  | filter c => exact h.elim
  | slice a b c =>
    obtain ⟨h1, h2, h3⟩ := h
    refine ⟨compileSlice a b c, by rw [compileSel], ?_⟩
    unfold compileSlice
    split
    · exact ⟨trivial, rfl⟩
    · rw [if_neg (by omega)]
      simp only
      split
      · exact ⟨trivial, rfl⟩
      · refine ⟨trivial, ?_⟩
        have ha : 0 ≤ a.getD 0 ∧ a.getD 0 < 2 ^ 63 := by
          cases a with
          | none => decide
          | some x => exact h1 x rfl
        have hb : 0 ≤ b.getD maxInt64 ∧ b.getD maxInt64 < 2 ^ 63 := by
          cases b with
          | none => decide
          | some x => exact h2 x rfl
        generalize a.getD 0 = x at ha
        generalize b.getD maxInt64 = y at hb
        unfold Sel.lookahead i64
        simp only
        have hx : (-x + 2 ^ 63) % 2 ^ 64 - 2 ^ 63 = -x := by omega
        have hy : (-y + 2 ^ 63) % 2 ^ 64 - 2 ^ 63 = -y := by omega
        rw [hx, hy]
        split
        · rw [if_neg (by omega)]
        · rw [if_neg (by omega)]

theorem forward_compile : ∀ {segs : List Segment}, (∀ s ∈ segs, ∃ x, s = .mk false [x] ∧ Forward x) → ∀ (tab : Tables),
    ∃ r, compileSegs tab segs = some (tab, r) ∧ ∀ s ∈ r, SegR.Direct s
  | [], _, tab => ⟨[], by rw [compileSegs], fun _ h => by cases h⟩
  | s :: l, h, tab => by
    obtain ⟨r, e1, e2⟩ := forward_compile (segs := l) (fun s hs => h s (List.mem_cons_of_mem _ hs)) tab
    obtain ⟨x, rfl, hx⟩ := h s List.mem_cons_self
    obtain ⟨y, f1, f2, f3⟩ := hx.compile tab
    refine ⟨.mk false [y] :: r, ?_, ?_⟩
    · rw [compileSegs, e1]
      simp only [Option.bind_some, compileSeg, compileSels, f1, Option.map_some]
    · intro s hs
      rcases List.mem_cons.1 hs with rfl | hs
      · refine ⟨rfl, by simp, ?_, ?_⟩
        · intro z hz
          rcases List.mem_singleton.1 hz with rfl
          exact f2
        · simp [segLookahead, f3]
      · exact e2 s hs

/-- In all states that a query of child segments with one selector each reaches, if they decide on each item when it comes, no token is stored, in both modes and on any stream of tokens.
Missing: filters, negative indices, several selectors in a segment (in strict mode), and descendant segments, for which it is false. -/
theorem C75_queries_partial {lib : Lib} {strict : Bool} {fuel f : Nat} {q : Query} {r : MainR} (hq : ∀ s ∈ q.segs, ∃ x, s = .mk false [x] ∧ Forward x)
    (hc : compileQuery q = some r) {ts out : List Token} {p : IProg Token Unit} {h : Heap}
    (hr : Reach Heap.mach (runQuery lib strict fuel r f) (Heap.init ts) out p h) : h.st.held = [] := by
  obtain ⟨segs, e1, e2⟩ := forward_compile hq {}
  unfold compileQuery at hc
  rw [e1] at hc
  cases hc
  exact (IProg.Quiet.chan hr (quiet_runQuery e2 f) (Heap.chan_init ts)).held

/-- C75 is false: `$..a` on `[[1,…,1]]`, with any number of items of the inner array, stores all of them before it goes on, although it selects nothing. -/
theorem C75_violated (lib : Lib) (n f : Nat) : ∃ r p h,
    parseQuery b%"$..a" = some ⟨true, [.mk true [.name b%"a"]]⟩ ∧ compileQuery ⟨true, [.mk true [.name b%"a"]]⟩ = some r ∧
    Reach Heap.mach (runQuery lib false (n + f + 3) r (n + f + 3))
      (Heap.init (streamToks [.arr [.arr (List.replicate n (num b%"1")) false] false])) [] p h ∧ n ≤ h.st.held.length := by
  obtain ⟨p, h, h1, h2⟩ := desc_reach lib ⟨b%"1", .num, false, false, false⟩ [.endArr, .endArr] n f
  have e : ∀ n, JVal.toks.itemToks (List.replicate n (num b%"1")) = List.replicate n (.scalar ⟨b%"1", .num, false, false, false⟩) := by
    intro n
    induction n with
    | zero => rfl
    | succ n ih => rw [List.replicate_succ, List.replicate_succ, JVal.toks.itemToks, ih]; rfl
  refine ⟨descR, p, h, rfl, rfl, ?_, ?_⟩
  · have : streamToks [.arr [.arr (List.replicate n (num b%"1")) false] false] =
        .startArr :: .startArr :: (List.replicate n (.scalar ⟨b%"1", .num, false, false, false⟩) ++ [.endArr, .endArr]) := by
      simp [streamToks, JVal.toks.itemToks, JVal.toks, e, elisionToks]
    rw [this]
    exact h1
  · simp [Streams.held, h2.np, h2.window]

section NonVacuity

/-- `$.items[:10]` and `$.items[*]` -/
example : ∀ s ∈ [Segment.mk false [.name b%"items"], .mk false [.slice none (some 10) 1]], ∃ x, s = .mk false [x] ∧ Forward x := by
  intro s hs
  simp only [List.mem_cons, List.not_mem_nil, or_false] at hs
  rcases hs with rfl | rfl
  · exact ⟨_, rfl, trivial⟩
  · exact ⟨_, rfl, (fun x h => by cases h), (fun x h => by cases h; decide), by decide⟩

example : ∃ r, compileQuery ⟨true, [.mk false [.name b%"items"], .mk false [.wild]]⟩ = some r := ⟨_, rfl⟩

end NonVacuity

end JPath

section NonVacuity

/-- `"abcdefgh"` in a buffer of four bytes: the first part is stored while the token is read. -/
example : ∃ L p c, Prog.Reach CScan.machine (Prog.startToken (.read fun _ => .read fun _ => .read fun _ => .read fun _ => .read fun _ => .endToken fun _ => .ret ()))
    (CScan.new ⟨b%"\"abcdefgh\"", .eof, fun _ => (4, false), 0⟩ 4) L p c ∧ c.tokStart ≠ none ∧ c.parts = [b%"\"ab"] :=
  ⟨_, _, _, .startToken rfl (.read (.read (.read (.read (.read (.refl _ _)))))), by decide, by decide⟩

example : (Json.decodeFrom ⟨b%"\"abcdefgh\"", .eof, fun _ => (4, false), 0⟩ 4).2 = .ok () () := rfl

/-- The last state of `split` on `[1]`. -/
example : ∃ p h out, Reach Heap.mach (transformAll (explodeArray 9) 9) (Heap.init (streamToks [.arr [.scalar ⟨b%"1", .num, false, false, false⟩] false])) out p h ∧
    out = [.scalar ⟨b%"1", .num, false, false, false⟩] :=
  ⟨_, _, _, Reach.of_run rfl, rfl⟩

/-- The last state of the JPV encoder on `[1]`. -/
example : ∃ p h out, Reach Heap.mach (JEnc.consume ⟨none, false⟩ 9) (Heap.init (streamToks [.arr [.scalar ⟨b%"1", .num, false, false, false⟩] false])) out p h ∧
    out.length = 8 :=
  ⟨_, _, _, Reach.of_run rfl, rfl⟩

end NonVacuity

end Verif
