import Verif.OriginPath
import Verif.OriginEnc
import Verif.JsonOrigin
import Verif.JpvOrigin
import Verif.CsvOrigin
import Verif.Props.C77
import Verif.Props.C78

/-!
# C79: Strings and numbers are passed on as they are in the input
-/

set_option linter.unusedSimpArgs false
set_option linter.unusedVariables false

namespace Verif

/-- What is known of the tokens written: scalars and elisions are among those read. -/
private def FromInput (ts : List Token) (t : Token) : Prop := (∀ s, t = .scalar s → .scalar s ∈ ts) ∧ (t = .elision → .elision ∈ ts)

private theorem fromInput_starts (ts : List Token) : Origin.Starts (FromInput ts) :=
  ⟨⟨fun s e => (by cases e), fun e => (by cases e)⟩, ⟨fun s e => (by cases e), fun e => (by cases e)⟩⟩

private theorem fromInput_init (ts : List Token) : Origin.Ok (FromInput ts) (Heap.init ts) :=
  Origin.ok_init fun t ht => ⟨fun s e => e ▸ ht, fun e => e ▸ ht⟩

/-- The scalars that a query writes (with their flags, so that keys stay keys) are among the tokens it reads; so are elisions.  This holds for all tokens,
whether they make up values or not, in both modes, and also for what is written before a panic. -/
theorem JPath.C79_queries {lib : Lib} {strict : Bool} {q : Query} {ts out : List Token} {e : Except Stop Unit} (h : Outcome lib strict q ts out e) :
    (∀ s, .scalar s ∈ out → .scalar s ∈ ts) ∧ (.elision ∈ out → .elision ∈ ts) := by
  obtain ⟨_, r, _, f, rfl, _⟩ := h
  have := (Origin.runQuery_says (fromInput_starts ts) lib strict f r f _ (fromInput_init ts)).1
  exact ⟨fun s hs => (this _ hs).1 s rfl, fun hs => (this _ hs).2 rfl⟩

private theorem onKey_says {P : Token → Prop} {key : Bytes} {k : Option Scalar} {hit miss : IProg Token Unit} (h : Origin.Says P P hit fun _ => True)
    (h' : Origin.Says P P miss fun _ => True) : Origin.Says P P (onKey key k hit miss) fun _ => True := by
  unfold onKey
  split
  · exact .fail
  · split
    · exact .fail
    · exact h
    · exact h'

private theorem deep_says {P : Token → Prop} (hP : Origin.Starts P) (key : Bytes) : ∀ f x, Origin.ValOk P x →
    Origin.Says P P (deepKeyExtractor key f x) fun _ => True
  | 0, _, _ => .fail
  | f + 1, .coll .obj i, _ => by
    rw [deepKeyExtractor]
    exact Origin.forEach_says (fun _ k y _ hy => onKey_says (Origin.copyOut_says hP hy) (deep_says hP key f y hy)) _ _ _ trivial
  | f + 1, .coll .arr i, _ => by
    rw [deepKeyExtractor]
    exact Origin.forEach_says (fun _ k y _ hy => deep_says hP key f y hy) _ _ _ trivial
  | f + 1, .coll .top i, _ => .ret trivial
  | f + 1, .scalar s, _ => .ret trivial

/-- The same for the transformer `split` and for the two extractors of the package `legacy`. -/
theorem C79_transformers {tv : Nat → Val → IProg Token Unit} (htv : tv = explodeArray ∨ ∃ key, tv = keyExtractor key ∨ tv = deepKeyExtractor key)
    {ts out : List Token} (h : runTransform tv ts = some out) : (∀ s, .scalar s ∈ out → .scalar s ∈ ts) ∧ (.elision ∈ out → .elision ∈ ts) := by
  have hP := fromInput_starts ts
  have hs : ∀ f x, Origin.ValOk (FromInput ts) x → Origin.Says (FromInput ts) (FromInput ts) (tv f x) fun _ => True := by
    intro f x hx
    rcases htv with rfl | ⟨key, rfl | rfl⟩
    · exact Origin.explode_says hP f hx
    · unfold keyExtractor
      split
      · exact Origin.forEach_says (fun _ k y _ hy => onKey_says (Origin.copyOut_says hP hy) (.ret trivial)) _ _ _ trivial
      · exact .ret trivial
    · exact deep_says hP key f x hx
  have := (Origin.forEach_says (T := fun _ => True) (body := fun (_ : Unit) _ x => tv (ts.length + 1) x) (fun _ _ x _ hx => hs _ x hx) 0 (ts.length + 1) ()
    trivial _ (fromInput_init ts)).1
  unfold runTransform transformAll at h
  split at h
  · rename_i o _ e
    rw [e] at this
    cases h
    exact ⟨fun s hs => (this _ hs).1 s rfl, fun hs => (this _ hs).2 rfl⟩
  · cases h

private theorem mem_ite {c : Prop} [Decidable c] {a b : Token} (h : a ∈ if c then [b] else []) : a = b := by
  split at h
  · exact List.mem_singleton.1 h
  · cases h

private theorem depth_scalar (m : Int) (s : Scalar) : ∀ (d : Int) (ts : List Token), .scalar s ∈ maxDepthLoop m d ts → .scalar s ∈ ts
  | _, [], h => h
  | d, t :: ts, h => by
    rw [maxDepthLoop] at h
    simp only [List.mem_append] at h
    rcases h with h | h | h
    · have := mem_ite h
      exact this ▸ List.mem_cons_self
    · exact absurd (mem_ite h) (by simp)
    · exact List.mem_cons_of_mem _ (depth_scalar m s _ ts h)

/-- Only `depth` puts in elisions. -/
def Cmd.Elides : Transform → Prop
  | .depth _ => True
  | _ => False

/-- The same for any number of arguments of the program, one after the other; elisions are those of the input, unless `depth` is among the arguments. -/
theorem Cmd.C79_chain {env : Cmd.Env} {strict : Bool} {l : List Transform} {ts out : List Token} (h : DoAll env strict l ts out) :
    (∀ s, .scalar s ∈ out → .scalar s ∈ ts) ∧ (.elision ∈ out → .elision ∈ ts ∨ ∃ t ∈ l, Elides t) := by
  induction h with
  | nil => exact ⟨fun _ h => h, .inl⟩
  | @cons t l ts mid out h _ ih =>
    have key : (∀ s, .scalar s ∈ mid → .scalar s ∈ ts) ∧ (.elision ∈ mid → .elision ∈ ts ∨ Elides t) := by
      cases t with
      | split => exact ⟨(C79_transformers (.inl rfl) h).1, fun g => .inl ((C79_transformers (.inl rfl) h).2 g)⟩
      | join =>
        have h : joinStream ts = mid := h
        subst h
        exact ⟨fun s hs => by simpa [joinStream] using hs, fun hs => .inl (by simpa [joinStream] using hs)⟩
      | trace =>
        have h : traceStream ts = mid := h
        subst h
        exact ⟨fun s hs => (by cases hs), fun hs => (by cases hs)⟩
      | depth m =>
        have h : maxDepthFilter m ts = mid := h
        subst h
        exact ⟨fun s hs => depth_scalar m s 0 ts hs, fun _ => .inr trivial⟩
      | query q =>
        have := JPath.C79_queries (lib := env.lib) h
        exact ⟨this.1, fun g => .inl (this.2 g)⟩
    refine ⟨fun s hs => key.1 s (ih.1 s hs), fun hs => ?_⟩
    rcases ih.2 hs with g | ⟨t', ht', g⟩
    · rcases key.2 g with g | g
      · exact .inl g
      · exact .inr ⟨t, by simp, g⟩
    · exact .inr ⟨t', List.mem_cons_of_mem _ ht', g⟩

/-- The codes of a colorizer, if there is one. -/
def Colour (c : Option Colorizer) (b : Bytes) : Prop := ∃ k, c = some k ∧ (b = k.keyCode ∨ b = k.resetCode ∨ ∃ t, b = k.codes t)

/-- What the JSON encoder writes for tokens `ts`, whatever they are and whatever the options: layout and codes of colours, and the bytes of scalars in `ts`. -/
def JsonPiece (c : Option Colorizer) (ts : List Token) (b : Bytes) : Prop :=
  b ∈ [b%"", b%"\n", b%" ", b%"...", b%"{", b%"}", b%"[", b%"]", b%",", b%", ", b%": "] ∨ Colour c b ∨ ∃ s, .scalar s ∈ ts ∧ b = s.bytes

/-- What the JPV encoder writes: also indices, and keys of letters and digits without their quotes. -/
def JpvPiece (c : Option Colorizer) (ts : List Token) (b : Bytes) : Prop :=
  b ∈ [b%"", b%"\n", b%" ", b%".", b%"[", b%"]", b%"$", b%" = ", b%"...", b%"{}", b%"{...}", b%"[]", b%"[...]"] ∨ Colour c b ∨
    (∃ s, .scalar s ∈ ts ∧ b = s.bytes) ∨ (∃ n, b = itoa n) ∨ ∃ s, .scalar s ∈ ts ∧ s.alnum = true ∧ b = (s.bytes.drop 1).dropLast

/-- The output of the JSON encoder is made of layout and of scalars that it has read. -/
theorem C79_json_encoder (cfg : EncCfg) (pc : PrinterCfg) (ts : List Token) :
    ∃ ps : List Bytes, (Enc.encode cfg pc Enc.goodSink ts).1 = ps.flatten ∧ ∀ b ∈ ps, JsonPiece cfg.color ts b := by
  obtain ⟨ps, h1, h2⟩ := Origin.runW_pieces (P := fun t => t ∈ ts) (Origin.Json.consume_says cfg (ts.length + 1)) (fun t h => h) pc
  refine ⟨ps, h1, fun b hb => ?_⟩
  rcases h2 b hb with h | h | h | (h | h) | h
  · exact .inl (by simp [h])
  · exact .inl (by simp [h])
  · exact .inl (by simp [h])
  · exact .inl (by simp only [Origin.jsonLayout] at h; simp only [List.mem_cons] at h ⊢; grind)
  · exact .inr (.inl h)
  · exact .inr (.inr h)

/-- The output of the JPV encoder is made of layout, of scalars that it has read, of keys without their quotes, and of indices. -/
theorem C79_jpv_encoder (cfg : JEncCfg) (pc : PrinterCfg) (ts : List Token) :
    ∃ ps : List Bytes, (JEnc.encode cfg pc Enc.goodSink ts).1 = ps.flatten ∧ ∀ b ∈ ps, JpvPiece cfg.color ts b := by
  obtain ⟨ps, h1, h2⟩ := Origin.runW_pieces (P := fun t => t ∈ ts) (Origin.JpvOut.consume_says cfg (ts.length + 1)) (fun t h => h) pc
  refine ⟨ps, h1, fun b hb => ?_⟩
  rcases h2 b hb with h | h | h | (h | h | h | h) | h
  · exact .inl (by simp [h])
  · exact .inl (by simp [h])
  · exact .inl (by simp [h])
  · exact .inl (by simp only [Origin.JpvOut.jpvLayout] at h; simp only [List.mem_cons] at h ⊢; grind)
  · exact .inr (.inl h)
  · exact .inr (.inr (.inr (.inl h)))
  · exact .inr (.inr (.inr (.inr h)))
  · exact .inr (.inr (.inl h))

namespace Cmd

/-- Whatever the options, the arguments and the input, in all formats: the program writes layout, and scalars of the tokens that the decoder has sent (for JPV
output, keys can be without quotes, and there are indices).  If nothing is written, there need not be any tokens. -/
theorem C79_program {env : Env} {o : Options} {r : Reader} {x : Result} (h : Main env o r x) :
    x.stdout = [] ∨ ∃ source ts sink toks bad, prepare o r = some (source, ts, sink) ∧ source.tokens env = some (toks, bad) ∧
      ∃ ps : List Bytes, x.stdout = ps.flatten ∧ ∀ b ∈ ps, if o.outFormat = b%"json" then JsonPiece o.color toks b else JpvPiece o.color toks b := by
  rcases main_parts h with ⟨h, _⟩ | ⟨s, l, k, toks, bad, out, p1, p2, p3, p4⟩
  · exact .inl h
  · refine .inr ⟨s, l, k, toks, bad, p1, p2, ?_⟩
    have hs : chooseSink o = some k := by
      simp only [prepare, Option.bind_eq_some_iff, Option.map_eq_some_iff, Prod.mk.injEq] at p1
      obtain ⟨_, _, _, _, _, _, sink, q3, _, _, rfl⟩ := p1
      exact q3
    have hin := (C79_chain p3).1
    rw [← p4]
    unfold chooseSink at hs
    simp only at hs
    by_cases hj : o.outFormat = b%"json"
    · rw [if_pos hj] at hs
      cases hs
      obtain ⟨ps, e1, e2⟩ := C79_json_encoder ⟨o.color, o.width, 2⟩ ⟨if o.compact then -1 else o.indent, o.terminal⟩ out
      refine ⟨ps, e1, fun b hb => ?_⟩
      rw [if_pos hj]
      rcases e2 b hb with h | h | ⟨s, h, rfl⟩
      · exact .inl h
      · exact .inr (.inl h)
      · exact .inr (.inr ⟨s, hin s h, rfl⟩)
    · rw [if_neg hj] at hs
      split at hs
      · cases hs
        obtain ⟨ps, e1, e2⟩ := C79_jpv_encoder ⟨o.color, o.quoteKeys⟩ ⟨if o.compact then -1 else o.indent, o.terminal⟩ out
        refine ⟨ps, e1, fun b hb => ?_⟩
        rw [if_neg hj]
        rcases e2 b hb with h | h | ⟨s, h, rfl⟩ | h | ⟨s, h, ha, rfl⟩
        · exact .inl h
        · exact .inr (.inl h)
        · exact .inr (.inr (.inl ⟨s, hin s h, rfl⟩))
        · exact .inr (.inr (.inr (.inl h)))
        · exact .inr (.inr (.inr (.inr ⟨s, hin s h, ha, rfl⟩)))
      · cases hs

private theorem delivers_infix {r : Reader} {D : Bytes} {fin : RErr} (h : Delivers r D fin) {s : Bytes} (hs : s <:+: D) : s <:+: r.rest := by
  rcases h with ⟨rfl, _⟩ | ⟨_, _, x, _, e⟩
  · exact hs
  · rw [e]; exact hs.trans (List.prefix_append _ _).isInfix

private theorem outcome_fst {σ : Type} {x : List Token × Out σ Unit} {toks : List Token} {bad : Bool} (h : outcome x = some (toks, bad)) : toks = x.1 := by
  obtain ⟨ts, y⟩ := x
  cases y <;> cases h <;> rfl

/-- The scalars that the JSON decoder sends, for input that is valid or not and however it arrives or fails, are slices of the input, byte by byte. -/
theorem C79_json_slices {env : Env} {r : Reader} {toks : List Token} {bad : Bool} (h : (Source.json r).tokens env = some (toks, bad)) :
    ∀ s, .scalar s ∈ toks → s.bytes <:+: r.rest := by
  intro s hs
  rw [outcome_fst h] at hs
  obtain ⟨D, fin, hd, e⟩ := decodeFrom_eq r 8192 (by decide)
  rw [e, outOf_fst] at hs
  exact delivers_infix hd ((Pure.produce_slices fin _ _ D (List.suffix_refl _)).1 s hs).1

/-- The scalars that the JPV decoder sends are slices of the input, or keys that follow a dot, with quotes added. -/
theorem C79_jpv_slices {env : Env} {r : Reader} {toks : List Token} {bad : Bool} (h : (Source.jpv r).tokens env = some (toks, bad)) :
    ∀ s, .scalar s ∈ toks → s.bytes <:+: r.rest ∨ ∃ k, c%'.' :: k <:+: r.rest ∧ s.bytes = c%'"' :: (k ++ [c%'"']) := by
  intro s hs
  rw [outcome_fst h] at hs
  obtain ⟨D, fin, hd, e⟩ := jpvDecodeFrom_eq r 8192 (by decide)
  have e' : (Jpv.decodeFrom r).1 = (JpvPure.produce fin (Json.fuelFor r.rest.length) (Json.fuelFor r.rest.length) [] D).1 := by
    rw [e]
    generalize JpvPure.produce fin _ _ [] D = y
    obtain ⟨ts, y⟩ := y
    match y with
    | none => rfl
    | some (.ok _) => rfl
    | some (.error (.perr _)) => rfl
    | some (.error (.plain _)) => rfl
    | some (.error .panic) => rfl
  rw [e'] at hs
  rcases JpvPure.produce_pieces fin _ _ [] D (List.suffix_refl _) s hs with h | ⟨k, h, _, e⟩
  · exact .inl (delivers_infix hd h.1)
  · exact .inr ⟨k, delivers_infix hd h, e⟩

/-- A byte of a CSV field in a string. -/
def escaped (b : Byte) : Bytes := if b = 0x22 then [0x5C, 0x22] else if b = 0x5C then [0x5C, 0x5C] else if b = 0x0A then [0x5C, c%'n'] else [b]

private theorem escaped_eq : Csv.escByte = escaped := by
  funext b
  unfold Csv.escByte escaped
  by_cases h1 : b = 0x22
  · subst h1; decide
  · by_cases h2 : b = 0x5C
    · subst h2; decide
    · have : ¬ (b = c%'\\' ∨ b = c%'"') := fun h => h.elim h2 h1
      rw [if_neg this, if_neg h1, if_neg h2]

/-- A scalar that the CSV decoder sends is made of one field: it is `null` for an empty field, or the bytes of the field (or, see C21, a number with which it
begins), or the field in quotes; names can also be those given, or `field_1` and so on. -/
theorem C79_csv_fields {env : Env} {cfg : Csv.Cfg} {names : List Bytes} {r : Reader} {toks : List Token} {bad : Bool}
    (h : (Source.csv cfg names r).tokens env = some (toks, bad)) : ∀ s, .scalar s ∈ toks →
    (∃ f, (f ∈ names ∨ (∃ l ∈ (Csv.readInput r).records, f ∈ l) ∨ ∃ n : Nat, f = b%"field_" ++ itoa n) ∧ s.bytes = c%'"' :: (f.flatMap escaped ++ [c%'"'])) ∨
    ∃ l ∈ (Csv.readInput r).records, ∃ f ∈ l, (f = [] ∧ s.bytes = b%"null") ∨ s.bytes <+: f := by
  intro s hs
  simp only [Source.tokens, Option.map_eq_some_iff, Prod.exists, Prod.mk.injEq] at h
  obtain ⟨ts, e, h, rfl, _⟩ := h
  rw [← escaped_eq]
  rcases Csv.produce_of h s hs with ⟨f, hf, h⟩ | ⟨l, hl, f, hf, h⟩
  · exact .inl ⟨f, hf, Csv.header_bytes h⟩
  rcases Csv.value_bytes h with h | h | h
  · exact .inr ⟨l, hl, f, hf, .inl h⟩
  · exact .inr ⟨l, hl, f, hf, .inr h⟩
  · exact .inl ⟨f, .inr (.inl ⟨l, hl, hf⟩), h⟩

/-! ## Non-vacuity -/
section NonVacuity

private def num' : Token := .scalar ⟨b%"1.50", .num, false, false, false⟩
private def str' : Token := .scalar ⟨b%"\"\\u0041\"", .str, false, true, false⟩

/-- `jp split <<< '[1.50,"\u0041"]'`: the number and the string are written as they were. -/
example : Main noEnv { inFormat := b%"json", args := [b%"split"] } (atOnce b%"[1.50,\"\\u0041\"]") ⟨b%"1.50\n\"\\u0041\"\n", 0, false⟩ :=
  .run (source := .json (atOnce b%"[1.50,\"\\u0041\"]")) (ts := [.split]) (toks := [.startArr, num', str', .endArr]) (out := [num', str']) rfl
    (by decide +kernel) (.cons (by show runTransform explodeArray _ = _; decide +kernel) .nil) (by decide +kernel)

/-- For JPV output there are indices, and keys without quotes. -/
example : Main noEnv { inFormat := b%"json", outFormat := b%"jpv" } (atOnce b%"{\"a\": [1.50]}") ⟨b%"$.a[0] = 1.50\n\n", 0, false⟩ :=
  .run (source := .json (atOnce b%"{\"a\": [1.50]}")) (ts := [])
    (toks := [.startObj, .scalar ⟨b%"\"a\"", .str, true, true, true⟩, .startArr, num', .endArr, .endObj]) rfl (by decide +kernel) .nil (by decide +kernel)

/-- The decoder sends the scalars before an error. -/
example : (Source.json (atOnce b%"[1.50, tru")).tokens noEnv = some ([.startArr, num'], true) := by decide +kernel

/-- JPV input with a key after a dot, and CSV input. -/
example : (Source.jpv (atOnce b%"$.a = 1.50\n")).tokens noEnv = some ([.startObj, .scalar ⟨b%"\"a\"", .str, true, true, false⟩, num', .endObj], false) := by
  decide +kernel

example : (Source.csv ⟨false, false⟩ [] (atOnce b%"1.50,\n")).tokens noEnv =
    some ([.startArr, num', .scalar ⟨b%"null", .null, false, false, false⟩, .endArr], false) := by
  decide +kernel

end NonVacuity
end Cmd

/-- Queries run on tokens that do not make up values. -/
example (lib : JPath.Lib) (strict : Bool) : ∃ q, JPath.parseQuery b%"$..[?@.a == $[0]]" = some q ∧
    ∃ out e, JPath.Outcome lib strict q [.startArr, .startObj, .elision, .endArr, .startArr] out e :=
  have h : ((JPath.parseQuery b%"$..[?@.a == $[0]]").bind JPath.compileQuery).isSome = true := by decide +kernel
  match hq : JPath.parseQuery b%"$..[?@.a == $[0]]" with
  | none => by rw [hq] at h; cases h
  | some q =>
    have ⟨out, e, h', _⟩ := JPath.C77_queries_end lib strict (q := q) (by rw [hq] at h; exact h) [.startArr, .startObj, .elision, .endArr, .startArr]
    ⟨q, rfl, out, e, h'⟩

/-- A query that picks one of two numbers. -/
example (strict : Bool) : JPath.Outcome JPath.noLib strict ⟨true, [.mk true [.index 1]]⟩ (streamToks [(.arr [.arr [JPath.num b%"1"] false, .arr [JPath.num b%"2"] false] false)])
    (streamToks [.arr [JPath.num b%"2"] false]) (.ok ()) :=
  .of_run 10 (by cases strict <;> decide +kernel)

end Verif
