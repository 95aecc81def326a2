import Verif.RegexDet
import Verif.FormatFloat
import Verif.Props.C42
import Verif.Props.C55

/-!
# C70: `match` and `search` follow RFC 9485

The regular expressions of Go are modelled in `GoRegex`; C48 is about the translation, C42 about the functions with any library.
-/

set_option linter.unusedSimpArgs false

namespace Verif.GoRe

open JPath Rfc9535 Rfc9485

section
variable {tab : List Nat → Option (Nat → Bool)} {small : Re → Bool} {other : Bytes → Option (Bytes → Option (Nat × Nat))} {gc : List Nat → Nat → Prop}

private theorem compiled {p : Bytes} {t : List Nat} {r} (hc : Chars p t) (hi : IRegexp t r) (hp : portable .out t = true) {find' : Bytes → Option (Nat × Nat)}
    (hf : regex tab small other p = some find') : accepted tab r = true ∧ find' = find (toGo tab r) := by
  rw [regex_eq hc hi hp] at hf
  split at hf
  · rename_i h
    rw [Bool.and_eq_true] at h
    exact ⟨h.1, (Option.some.inj hf).symm⟩
  · cases hf

/-- A compiled pattern finds something in a string exactly if a part of the string matches, where `L` are the strings that match by RFC 9485.  The
tables `tab` of the library are supposed to agree with Unicode for the categories that the pattern mentions.  Missing (false): patterns with unescaped
`^` or `$` and counts with leading zeros (`portable`), patterns that the library rejects. -/
theorem C70_search_partial {p s : Bytes} {t cs : List Nat} {r : Rfc9485.Re} (hp : Chars p t) (hi : IRegexp t r) (hport : portable .out t = true)
    (ht : ∀ n, (∃ a b, t = a ++ n%'{' :: (n ++ n%'}' :: b)) → ∀ f, tab n = some f → ∀ c, f c = true ↔ gc n c) {find' : Bytes → Option (Nat × Nat)}
    (hf : regex tab small other p = some find') (hs : Chars s cs) :
    ∃ L, iregexp gc p = some L ∧ ((find' s).isSome = true ↔ ∃ x y z, s = x ++ y ++ z ∧ L y) := by
  obtain ⟨ha, rfl⟩ := compiled hp hi hport hf
  obtain ⟨L, h1, h2⟩ := iregexp_some hp hi hport ht ha
  refine ⟨L, h1, ?_⟩
  rw [find_search ht hi ha hs]
  constructor
  · rintro ⟨x, w, e, rfl, hw⟩
    have h3 : ∀ l : List Nat, (∀ c ∈ l, c ∈ x ++ w ++ e) → Chars (l.flatMap Utf8.encode) l := fun l hl => ⟨rfl, fun c hc => hs.2 c (hl c hc)⟩
    exact ⟨x.flatMap Utf8.encode, w.flatMap Utf8.encode, e.flatMap Utf8.encode, by rw [hs.1]; simp,
      (h2 _).mpr ⟨w, h3 w (fun c hc => by simp [hc]), hw⟩⟩
  · rintro ⟨x, y, z, rfl, hy⟩
    obtain ⟨ds, h3, h4⟩ := (h2 y).mp hy
    obtain ⟨a, e, h5⟩ := substring_chars hs h3 rfl
    exact ⟨a, ds, e, h5, h4⟩

/-- If a compiled pattern finds the whole string, then the string matches.  The converse is false, see `C70_violated_match`. -/
theorem C70_match_sound_partial {p s : Bytes} {t cs : List Nat} {r : Rfc9485.Re} (hp : Chars p t) (hi : IRegexp t r) (hport : portable .out t = true)
    (ht : ∀ n, (∃ a b, t = a ++ n%'{' :: (n ++ n%'}' :: b)) → ∀ f, tab n = some f → ∀ c, f c = true ↔ gc n c) {find' : Bytes → Option (Nat × Nat)}
    (hf : regex tab small other p = some find') (hs : Chars s cs) (h : find' s = some (0, s.length)) : ∃ L, iregexp gc p = some L ∧ L s := by
  obtain ⟨ha, rfl⟩ := compiled hp hi hport hf
  obtain ⟨L, h1, h2⟩ := iregexp_some hp hi hport ht ha
  refine ⟨L, h1, (h2 s).mpr ⟨cs, hs, ?_⟩⟩
  rw [find_match ht hi ha hs] at h
  obtain ⟨w, h3, h4⟩ := (ends_finds ht cs.length r ha (named hi) _ _).mp (List.mem_of_mem_head? (by simpa using h))
  rw [List.append_nil] at h3
  rwa [h3]

/-- A compiled deterministic pattern finds the whole string exactly if the string matches.  Missing (false): patterns of which the next character does
not decide how they are matched, like `a|ab`; and what is missing in `C70_search_partial`. -/
theorem C70_match_partial {p s : Bytes} {t cs : List Nat} {r : Rfc9485.Re} (hp : Chars p t) (hi : IRegexp t r) (hport : portable .out t = true)
    (ht : ∀ n, (∃ a b, t = a ++ n%'{' :: (n ++ n%'}' :: b)) → ∀ f, tab n = some f → ∀ c, f c = true ↔ gc n c)
    (hd : Deterministic gc r fun _ => False) {find' : Bytes → Option (Nat × Nat)}
    (hf : regex tab small other p = some find') (hs : Chars s cs) : ∃ L, iregexp gc p = some L ∧ (find' s = some (0, s.length) ↔ L s) := by
  obtain ⟨ha, e⟩ := compiled hp hi hport hf
  obtain ⟨L, h1, h2⟩ := iregexp_some hp hi hport ht ha
  refine ⟨L, h1, fun h => ?_, fun h => ?_⟩
  · obtain ⟨L', h3, h4⟩ := C70_match_sound_partial hp hi hport ht hf hs h
    rw [h1] at h3
    exact Option.some.inj h3 ▸ h4
  · obtain ⟨ds, h3, h4⟩ := (h2 s).mp h
    rw [e]
    exact find_det ht hi ha hd h3 h4

/-- Patterns without counts are not rejected, if the library knows the categories and does not refuse the pattern for its size.  Missing (false): large
counts, see `C70_violated_count`. -/
theorem C70_accepted_partial {p : Bytes} {t : List Nat} {r : Rfc9485.Re} (hp : Chars p t) (hi : IRegexp t r) (hport : portable .out t = true)
    (hu : Uncounted (fun n => (tab n).isSome = true) r) (hsmall : ∀ r, small r = true) : (regex tab small other p).isSome = true := by
  rw [regex_eq hp hi hport, uncounted_accepted hu, hsmall]
  rfl

/-! ## In queries -/

/-- `@` and names -/
private def path (names : List Bytes) : List Segment := names.map fun n => .mk false [.name n]

private theorem path_basic (names : List Bytes) : ∀ s ∈ path names, s.Basic := by
  intro s hs
  obtain ⟨n, -, rfl⟩ := List.mem_map.mp hs
  intro x hx
  simp only [List.mem_singleton] at hx
  subst hx
  trivial

private theorem path_singular (names : List Bytes) : asSingular (path names) = some (names.map .name) := by
  induction names with
  | nil => rfl
  | cons n l ih => simp only [path, List.map_cons, asSingular]; rw [show (l.map fun n => Segment.mk false [.name n]) = path l from rfl, ih]; rfl

private theorem dataOf_str {val : Bytes → Rat} {v : JVal} {s : Bytes} : dataOf val v = some (.str s) ↔ ∃ k, v = .scalar k ∧ StrIs k s := by
  constructor
  · intro h
    have hd : DenBy val v (.str s) := by
      unfold dataOf at h
      split at h
      · rename_i hx
        have := hx.choose_spec
        rw [Option.some.inj h] at this
        exact this
      · cases h
    cases hd with
    | str h => exact ⟨_, rfl, h⟩
  · rintro ⟨k, rfl, h⟩
    exact DenBy.dataOf (.str h)

private theorem toValue_str {val : Bytes → Rat} {l : List JVal} {s : Bytes} : (ArgData.nodes l).toValue val = some (.str s) ↔ ∃ k, l = [.scalar k] ∧ StrIs k s := by
  match l with
  | [] => simp [ArgData.toValue]
  | [v] => simp [ArgData.toValue, dataOf_str]
  | _ :: _ :: _ => simp [ArgData.toValue]

private theorem run_query {lib : Lib} {re : Sem} (whole strict : Bool) (names : List Bytes) {p : Bytes} {t : List Nat} {L : Bytes → Prop}
    (hp : Chars p t) (hL : re.lang p = some L) (hok : ∀ s cs, Chars s cs → RegexOk lib re whole s p) {vs : List JVal}
    (h : ∀ v ∈ vs, (∃ d, Den v d) ∧ (v.toks.length : Int) ≤ maxInt64) :
    Outcome lib strict (filterQuery (.func (if whole then b%"match" else b%"search") [.query false (path names), .lit (.str p)])) (streamToks vs)
      (streamToks (vs.flatMap fun v => keep (fun w => ∃ k s, nodes re v (path names) w = [.scalar k] ∧ StrIs k s ∧
        if whole then L s else ∃ x y z, s = x ++ y ++ z ∧ L y) (children v))) (.ok ()) := by
  have hchk : checkFn (if whole then b%"match" else b%"search") 2 .logical = some (if whole then .fmatch else .search) := by cases whole <;> decide
  have hname : Fn.ofName (if whole then b%"match" else b%"search") = some (if whole then .fmatch else .search) := by cases whole <;> decide
  have hin : (if whole then Fn.fmatch else Fn.search).inputs = [.value, .value] := by cases whole <;> rfl
  have key := C42_tests_partial (lib := lib) (re := re) (S := fun _ => True) (n := if whole then b%"match" else b%"search")
    (args := [.query false (path names), .lit (.str p)]) strict
    (by simp [compileCond, hchk, hin, compileArgs, compileArg, path_singular]) (vs := vs)
    fun v hv => ⟨(h v hv).1, fun _ _ _ => trivial, (h v hv).2, safe_filter.2 (by
      rw [safeCond]
      intro f hf
      rw [hname] at hf
      obtain rfl := Option.some.inj hf
      refine ⟨?_, ?_⟩
      · rw [hin]
        simp only [safeArgs, safeArg]
        exact ⟨⟨basic_safeSegs (path_basic names), fun e => nomatch e⟩, ⟨t, hp⟩, trivial⟩
      · have main : ∀ w ∈ descendants v, ∀ a b s q, argsData re v [.query false (path names), .lit (.str p)] w = [a, b] → a.toValue re.val = some (.str s) →
            b.toValue re.val = some (.str q) → RegexOk lib re whole s q := by
          intro w _ a b s q h1 h2 h3
          simp only [argsData, argData, Bool.false_eq_true, if_false, List.cons.injEq, and_true] at h1
          obtain ⟨rfl, rfl⟩ := h1
          simp only [ArgData.toValue, litData, Option.some.injEq, Data.str.injEq] at h3
          obtain rfl := h3
          obtain ⟨k, -, hk⟩ := toValue_str.mp h2
          obtain ⟨cs, hc⟩ := hk.chars
          exact hok s cs hc
        cases whole
        · exact main
        · exact main)⟩
  have : ∀ v w, fnHolds re (if whole then b%"match" else b%"search") (argsData re v [.query false (path names), .lit (.str p)] w) ↔
      ∃ k s, nodes re v (path names) w = [.scalar k] ∧ StrIs k s ∧ if whole then L s else ∃ x y z, s = x ++ y ++ z ∧ L y := by
    intro v w
    constructor
    · rintro ⟨a, b, s, q, L', h1, h2, h3, h4, h5⟩
      simp only [argsData, argData, Bool.false_eq_true, if_false, List.cons.injEq, and_true] at h1
      obtain ⟨rfl, rfl⟩ := h1
      simp only [ArgData.toValue, litData, Option.some.injEq, Data.str.injEq] at h3
      obtain rfl := h3
      obtain ⟨k, h6, h7⟩ := toValue_str.mp h2
      rw [hL] at h4
      obtain rfl := Option.some.inj h4
      refine ⟨k, s, h6, h7, ?_⟩
      cases whole
      · rcases h5 with ⟨e, -⟩ | ⟨-, h5⟩
        · exact absurd e (by decide)
        · exact h5
      · rcases h5 with ⟨-, h5⟩ | ⟨e, -⟩
        · exact h5
        · exact absurd e (by decide)
    · rintro ⟨k, s, h1, h2, h3⟩
      refine ⟨_, _, s, p, L, by simp only [argsData, argData]; rfl, toValue_str.mpr ⟨k, h1, h2⟩, rfl, hL, ?_⟩
      cases whole
      · exact .inr ⟨rfl, h3⟩
      · exact .inl ⟨rfl, h3⟩
  simpa only [this] using key

/-- `$[?search(@.a.b,"p")]` writes exactly the children in which the path leads to a string of which a part matches.  Missing: as in
`C70_search_partial`; other arguments (for these see C42, with `C70_search_partial`). -/
theorem C70_query_search_partial {p : Bytes} {t : List Nat} {r : Rfc9485.Re} (fmt : Rat → Bytes) (strict : Bool) (names : List Bytes) (hp : Chars p t) (hi : IRegexp t r)
    (hport : portable .out t = true) (ht : ∀ n, (∃ a b, t = a ++ n%'{' :: (n ++ n%'}' :: b)) → ∀ f, tab n = some f → ∀ c, f c = true ↔ gc n c)
    (hf : (regex tab small other p).isSome = true) {vs : List JVal} (h : ∀ v ∈ vs, (∃ d, Den v d) ∧ (v.toks.length : Int) ≤ maxInt64) :
    ∃ L, iregexp gc p = some L ∧ Outcome ⟨fmt, regex tab small other⟩ strict
      (filterQuery (.func b%"search" [.query false (names.map fun n => .mk false [.name n]), .lit (.str p)])) (streamToks vs)
      (streamToks (vs.flatMap fun v => keep (fun w => ∃ k s, nodes ⟨iregexp gc, decimal⟩ v (names.map fun n => .mk false [.name n]) w = [.scalar k] ∧ StrIs k s ∧
        ∃ x y z, s = x ++ y ++ z ∧ L y) (children v))) (.ok ()) := by
  obtain ⟨find', hf⟩ := Option.isSome_iff_exists.mp hf
  obtain ⟨L, hL, -⟩ := C70_search_partial hp hi hport ht hf Chars.nil
  refine ⟨L, hL, run_query (re := ⟨iregexp gc, decimal⟩) false strict names hp hL (fun s cs hs => ?_) h⟩
  obtain ⟨L', h1, h2⟩ := C70_search_partial hp hi hport ht hf hs
  exact ⟨find', L', hf, h1, h2⟩

/-- `$[?match(@.a.b,"p")]` writes exactly the children in which the path leads to a string that matches.  Missing: as in `C70_match_partial`; other
arguments. -/
theorem C70_query_match_partial {p : Bytes} {t : List Nat} {r : Rfc9485.Re} (fmt : Rat → Bytes) (strict : Bool) (names : List Bytes) (hp : Chars p t) (hi : IRegexp t r)
    (hport : portable .out t = true) (ht : ∀ n, (∃ a b, t = a ++ n%'{' :: (n ++ n%'}' :: b)) → ∀ f, tab n = some f → ∀ c, f c = true ↔ gc n c)
    (hd : Deterministic gc r fun _ => False) (hf : (regex tab small other p).isSome = true) {vs : List JVal}
    (h : ∀ v ∈ vs, (∃ d, Den v d) ∧ (v.toks.length : Int) ≤ maxInt64) :
    ∃ L, iregexp gc p = some L ∧ Outcome ⟨fmt, regex tab small other⟩ strict
      (filterQuery (.func b%"match" [.query false (names.map fun n => .mk false [.name n]), .lit (.str p)])) (streamToks vs)
      (streamToks (vs.flatMap fun v => keep (fun w => ∃ k s, nodes ⟨iregexp gc, decimal⟩ v (names.map fun n => .mk false [.name n]) w = [.scalar k] ∧ StrIs k s ∧
        L s) (children v))) (.ok ()) := by
  obtain ⟨find', hf⟩ := Option.isSome_iff_exists.mp hf
  obtain ⟨L, hL, -⟩ := C70_match_partial hp hi hport ht hd hf Chars.nil
  refine ⟨L, hL, run_query (re := ⟨iregexp gc, decimal⟩) true strict names hp hL (fun s cs hs => ?_) h⟩
  obtain ⟨L', h1, h2⟩ := C70_match_partial hp hi hport ht hd hf hs
  exact ⟨find', L', hf, h1, h2⟩

/-- Patterns that are matched as RFC 9485 says: see `C70_search_partial` and `C70_match_partial`. -/
def Pattern (tab : List Nat → Option (Nat → Bool)) (small : Re → Bool) (other : Bytes → Option (Bytes → Option (Nat × Nat))) (gc : List Nat → Nat → Prop)
    (whole : Bool) (p : Bytes) : Prop :=
  ∃ t r, Chars p t ∧ IRegexp t r ∧ portable .out t = true ∧ (∀ n, (∃ a b, t = a ++ n%'{' :: (n ++ n%'}' :: b)) → ∀ f, tab n = some f → ∀ c, f c = true ↔ gc n c) ∧
    (regex tab small other p).isSome = true ∧ (whole = true → Deterministic gc r fun _ => False)

/-- The program, from texts to texts: queries with filters of the class of `C55_filters_partial`, where `match` and `search` have literal patterns of `Pattern`.  The
values that are written are those of the nodelists of RFC 9535, with patterns as in RFC 9485 and number literals that have the values of the nearest IEEE 754 double.
Missing: what is missing there and in `C70_search_partial` and `C70_match_partial`. -/
theorem C70_program_partial {fmt : Rat → Bytes} (hfmt : FmtOk fmt) {val : Bytes → Rat} (hval : Double val) {o : Cmd.Options} {r : Reader}
    (hi : Cmd.JsonInput o r) (hf : Fair r.sched) (he : r.fin = .eof) (ho : o.outFormat = b%"json") (hcol : o.color = none) {S : Bytes → Prop}
    (hS : ∀ c, S c → LaxChars c) {vs : List JVal} (hv : Rfc8259.SepStream S vs r.rest)
    (hd : ∀ v ∈ vs, (∃ d, Den v d) ∧ NumsIn InRange64 v ∧ v.toks.length < 2 ^ 53) {s : Bytes} {q : Query} (hq : QueryText false s q)
    (hb : shapeSegs (Pattern tab small other gc) (∀ v ∈ vs, IsColl v) q.segs) (hx : ∀ seg ∈ q.segs, seg.Exact o.strict) (ha : o.args = [s]) :
    ∃ bytes, Cmd.Main ⟨⟨fmt, regex tab small other⟩⟩ o r ⟨bytes, 0, false⟩ ∧ Rfc8259.SepStream S (vs.flatMap (eval ⟨iregexp gc, val⟩ q)) bytes := by
  refine Cmd.C55_filters_partial (env := ⟨⟨fmt, regex tab small other⟩⟩) hi hf he ho hcol hS hv hd hfmt hval ?_ hq hb hx ha
  rintro whole p ⟨t, x, hp, hi, hport, ht, hf, hdet⟩ s cs hs
  obtain ⟨find', hf⟩ := Option.isSome_iff_exists.mp hf
  cases whole with
  | true =>
    obtain ⟨L, h1, h2⟩ := C70_match_partial hp hi hport ht (hdet rfl) hf hs
    exact ⟨find', L, hf, h1, h2⟩
  | false =>
    obtain ⟨L, h1, h2⟩ := C70_search_partial hp hi hport ht hf hs
    exact ⟨find', L, hf, h1, h2⟩

/-- The same with the model of `strconv.FormatFloat`, and with the nearest doubles as the values of number literals: nothing is assumed of the Go library, besides the tables
of Unicode categories. -/
theorem C70_jp_partial {o : Cmd.Options} {r : Reader} (hi : Cmd.JsonInput o r) (hf : Fair r.sched) (he : r.fin = .eof) (ho : o.outFormat = b%"json")
    (hcol : o.color = none) {S : Bytes → Prop} (hS : ∀ c, S c → LaxChars c) {vs : List JVal} (hv : Rfc8259.SepStream S vs r.rest)
    (hd : ∀ v ∈ vs, (∃ d, Den v d) ∧ NumsIn InRange64 v ∧ v.toks.length < 2 ^ 53) {s : Bytes} {q : Query} (hq : QueryText false s q)
    (hb : shapeSegs (Pattern tab small other gc) (∀ v ∈ vs, IsColl v) q.segs) (hx : ∀ seg ∈ q.segs, seg.Exact o.strict) (ha : o.args = [s]) :
    ∃ bytes, Cmd.Main ⟨⟨GoFmt.formatFloat, regex tab small other⟩⟩ o r ⟨bytes, 0, false⟩ ∧
      Rfc8259.SepStream S (vs.flatMap (eval ⟨iregexp gc, nearest64⟩ q)) bytes :=
  C70_program_partial GoFmt.formatFloat_ok double_nearest hi hf he ho hcol hS hv hd hq hb hx ha

end

/-! ## Violations -/

section
variable (tab : List Nat → Option (Nat → Bool)) (small : Re → Bool) (other : Bytes → Option (Bytes → Option (Nat × Nat))) (gc : List Nat → Nat → Prop)

private theorem lit_a : Piece u%"a" (.char n%'a') := .atom (.normal (by simp [NormalChar]))
private theorem lit_b : Piece u%"b" (.char n%'b') := .atom (.normal (by simp [NormalChar]))
private theorem lit_d : Piece u%"$" (.char n%'$') := .atom (.normal (by simp [NormalChar]))

private theorem one {t : List Nat} {r} (h : Piece t r) : Branch t (.cat r .eps) := by
  have := Branch.cons h .nil
  rwa [List.append_nil] at this

private theorem lang_char (c : Nat) : Lang gc (.char c) [c] := ⟨c, rfl, by simp [Item.Has]⟩

private theorem lang_one {r w} (h : Lang gc r w) : Lang gc (.cat r .eps) w := ⟨w, [], by simp, h, rfl⟩

private theorem known {p s : Bytes} {t cs : List Nat} {r} (hp : Chars p t) (hi : IRegexp t r) (hs : Chars s cs) (hl : Lang gc r cs) :
    ∃ L, iregexp gc p = some L ∧ L s := by
  unfold iregexp
  rw [if_pos ⟨t, r, hp, hi⟩]
  exact ⟨_, rfl, t, r, cs, hp, hi, hs, hl⟩

/-- C70 is false: `a|ab` matches `ab`, but the library finds `a`. -/
theorem C70_violated_match (hsmall : ∀ r, small r = true) : (∃ L, iregexp gc b%"a|ab" = some L ∧ L b%"ab") ∧
    ∃ find', regex tab small other b%"a|ab" = some find' ∧ find' b%"ab" = some (0, 1) := by
  have hi : IRegexp u%"a|ab" (.alt (.cat (.char n%'a') .eps) (.cat (.char n%'a') (.cat (.char n%'b') .eps))) :=
    .more (t := u%"a") (one lit_a) (.one (.cons lit_a (one lit_b)))
  have hp : Chars b%"a|ab" u%"a|ab" := ⟨by decide, by simp [UScalar]⟩
  refine ⟨known gc hp hi (cs := u%"ab") ⟨by decide, by simp [UScalar]⟩
    (.inr ⟨u%"a", u%"b", rfl, lang_char gc _, lang_one gc (lang_char gc _)⟩), ?_⟩
  rw [regex_eq hp hi (by decide), hsmall]
  refine ⟨_, rfl, ?_⟩
  show find (.alt (.cat (lit 0x61) .eps) (.cat (lit 0x61) (.cat (lit 0x62) .eps))) b%"ab" = _
  decide +kernel

/-- C70 is false: in RFC 9485 `$` is an ordinary character, and so `a$` matches `a$`; for the library it is the end of the text, and nothing is found
there, but in `a`. -/
theorem C70_violated_anchor (hsmall : ∀ r, small r = true) : (∃ L, iregexp gc b%"a$" = some L ∧ L b%"a$") ∧
    ∃ find', regex tab small other b%"a$" = some find' ∧ find' b%"a$" = none ∧ find' b%"a" = some (0, 1) := by
  have hi : IRegexp u%"a$" (.cat (.char n%'a') (.cat (.char n%'$') .eps)) := .one (.cons lit_a (one lit_d))
  have hp : Chars b%"a$" u%"a$" := ⟨by decide, by simp [UScalar]⟩
  refine ⟨known gc hp hi (cs := u%"a$") ⟨by decide, by simp [UScalar]⟩ ⟨u%"a", u%"$", rfl, lang_char gc _, lang_one gc (lang_char gc _)⟩, ?_⟩
  have : parse tab u%"a$" = .ok (.cat (lit 0x61) (.cat .eot .eps)) := rfl
  refine ⟨find (.cat (lit 0x61) (.cat .eot .eps)), ?_, by decide +kernel, by decide +kernel⟩
  unfold regex
  rw [show iregexpString b%"a$" = b%"a$" by decide]
  simp only [show pattern (b%"a$" : Bytes).length b%"a$" = some u%"a$" by decide, this, hsmall, if_true]

private theorem quant_a {q : List Nat} {lo : Nat} {hi : Option Nat} (hq : Quantifier q lo hi) : IRegexp (u%"a" ++ q) (.cat (.rep lo hi (.char n%'a')) .eps) :=
  .one (one (.quant (.normal (by simp [NormalChar])) hq))

/-- C70 is false: `a{01}` matches `a`; for the library it is four literals. -/
theorem C70_violated_zero (hsmall : ∀ r, small r = true) : (∃ L, iregexp gc b%"a{01}" = some L ∧ L b%"a") ∧
    ∃ find', regex tab small other b%"a{01}" = some find' ∧ find' b%"a" = none ∧ find' b%"a{01}" = some (0, 5) := by
  have hi := quant_a (.exact (ds := u%"01") (n := 1) ⟨by simp, by simp, rfl⟩)
  have hp : Chars b%"a{01}" u%"a{01}" := ⟨by decide, by simp [UScalar]⟩
  refine ⟨known gc hp hi (cs := u%"a") ⟨by decide, by simp [UScalar]⟩
    (lang_one gc ⟨[u%"a"], rfl, by simp, by simp, by simpa using lang_char gc _⟩), ?_⟩
  let r : Re := .cat (lit 0x61) (.cat (lit 0x7B) (.cat (lit 0x30) (.cat (lit 0x31) (.cat (lit 0x7D) .eps))))
  have : parse tab u%"a{01}" = .ok r := rfl
  refine ⟨find r, ?_, by decide +kernel, by decide +kernel⟩
  unfold regex
  rw [show iregexpString b%"a{01}" = b%"a{01}" by decide]
  simp only [show pattern (b%"a{01}" : Bytes).length b%"a{01}" = some u%"a{01}" by decide, this, hsmall, if_true]

/-- C70 is false: `a{1001}` is an I-Regexp, but the library rejects it. -/
theorem C70_violated_count : (∃ L, iregexp gc b%"a{1001}" = some L ∧ L (List.replicate 1001 c%'a')) ∧ regex tab small other b%"a{1001}" = none := by
  have hi := quant_a (.exact (ds := u%"1001") (n := 1001) ⟨by simp, by simp, rfl⟩)
  have hp : Chars b%"a{1001}" u%"a{1001}" := ⟨by decide, by simp [UScalar]⟩
  have hrep : ∀ n, (List.replicate n (u%"a" : List Nat)).flatten = List.replicate n n%'a' := by
    intro n
    induction n with
    | zero => rfl
    | succ n ih => rw [List.replicate_succ, List.flatten_cons, ih]; rfl
  have hfm : ∀ n, (List.replicate n c%'a' : Bytes) = (List.replicate n n%'a').flatMap Utf8.encode := by
    intro n
    induction n with
    | zero => rfl
    | succ n ih => rw [List.replicate_succ, List.replicate_succ, List.flatMap_cons, ← ih]; rfl
  refine ⟨known gc hp hi (cs := List.replicate 1001 n%'a') ⟨hfm _, fun r hr => by rw [List.eq_of_mem_replicate hr]; simp [UScalar]⟩
    (lang_one gc ⟨List.replicate 1001 u%"a", (hrep _).symm, by rw [List.length_replicate]; exact Nat.le_refl _, fun h e => by cases e; rw [List.length_replicate]; exact Nat.le_refl _, fun w hw => by rw [List.eq_of_mem_replicate hw]; exact lang_char gc _⟩), ?_⟩
  rw [regex_eq hp hi (by decide), show accepted tab (.cat (.rep 1001 (some 1001) (.char n%'a')) .eps) = false from rfl]
  rfl

end

section NonVacuity

/-- No categories. -/
private def noTab : List Nat → Option (Nat → Bool) := fun _ => none

/-- `a*b` -/
private def aStarB : Rfc9485.Re := .cat (.rep 0 none (.char n%'a')) (.cat (.char n%'b') .eps)

private theorem aStarB_reads : IRegexp u%"a*b" aStarB := .one (.cons (t := u%"a*") (.quant (t := u%"a") (.normal (by simp [NormalChar])) .star) (one lit_b))

private theorem first_char {gc : List Nat → Nat → Prop} {c d : Nat} (h : First gc (.char c) d) : d = c := by
  obtain ⟨w, x, h1, h2⟩ := h
  simp only [List.cons.injEq] at h1
  simp [Item.Has] at h2
  omega

private theorem aStarB_det (gc : List Nat → Nat → Prop) : Deterministic gc aStarB fun _ => False := by
  refine ⟨⟨fun _ => ⟨?_, fun c h1 h2 => ?_⟩, trivial⟩, trivial, trivial⟩
  · rintro ⟨c, h, -⟩; cases h
  · have := first_char h1
    subst this
    rcases h2 with ⟨w, x, y, h3, ⟨c, rfl, h4⟩, rfl⟩ | ⟨-, h2⟩
    · simp only [List.append_nil, List.cons.injEq] at h3
      simp [Item.Has] at h4
      omega
    · exact h2

/-- All conditions hold for `a*b`. -/
example (gc : List Nat → Nat → Prop) (s : Bytes) (cs : List Nat) (hs : Chars s cs) :
    ∃ find' L, regex noTab (fun _ => true) (fun _ => none) b%"a*b" = some find' ∧ iregexp gc b%"a*b" = some L ∧ (find' s = some (0, s.length) ↔ L s) := by
  have hp : Chars b%"a*b" u%"a*b" := ⟨by decide, by simp [UScalar]⟩
  have hf := C70_accepted_partial (tab := noTab) (small := fun _ => true) (other := fun _ => none) hp aStarB_reads (by decide)
    ⟨⟨.inl ⟨rfl, rfl⟩, fun neg n h => by simp at h⟩, fun neg n h => by simp at h, trivial⟩ (fun _ => rfl)
  obtain ⟨find', hf⟩ := Option.isSome_iff_exists.mp hf
  obtain ⟨L, h1, h2⟩ := C70_match_partial (gc := gc) hp aStarB_reads (by decide) (fun _ _ _ h => by cases h) (aStarB_det gc) hf hs
  exact ⟨find', L, hf, h1, h2⟩

/-- `(a|b)[^c-e\p{L}].` is read as an I-Regexp and is portable. -/
example : ∃ r, IRegexp u%"(a|b)[^c-e\\p{L}]." r :=
  ⟨_, .one (.cons (t := u%"(a|b)") (.atom (.group (t := u%"a|b") (.more (t := u%"a") (one lit_a) (.one (one lit_b)))))
    (.cons (t := u%"[^c-e\\p{L}]") (.atom (.cls (.neg (t := u%"c-e\\p{L}") (.item (t := u%"c-e") (.range (t := u%"c") (.plain (by simp)) (.plain (by simp)) (by decide))
      (.cons (t := u%"\\p{L}") (u := []) (.cat (.cat (n := u%"L") (by decide))) .nil))))) (.cons (t := u%".") (.atom .dot) .nil)))⟩

example : portable .out u%"(a|b)[^c-e\\p{L}]." = true := by decide

/-- Searching a dot: the library gets `[^

]`. -/
example : (regex noTab (fun _ => true) (fun _ => none) b%"a.").map (· b%"xa\nab") = some (some (3, 5)) := by decide +kernel

/-- `[?match(@.a,"a*b")]` is a query of `C70_program_partial`. -/
example (gc : List Nat → Nat → Prop) : shapeSegs (Pattern noTab (fun _ => true) (fun _ => none) gc) False
    [.mk false [.filter (.func b%"match" [.query false [.mk false [.name b%"a"]], .lit (.str b%"a*b")])]] := by
  have hp : Chars b%"a*b" u%"a*b" := ⟨by decide, by simp [UScalar]⟩
  have hf := C70_accepted_partial (tab := noTab) (small := fun _ => true) (other := fun _ => none) hp aStarB_reads (by decide)
    ⟨⟨.inl ⟨rfl, rfl⟩, fun neg n h => by simp at h⟩, fun neg n h => by simp at h, trivial⟩ (fun _ => rfl)
  simp only [shapeSegs, shapeSeg, shapeSels, shapeSel, shapeCond, and_true]
  exact ⟨true, _, _, rfl, rfl, rfl, _, _, hp, aStarB_reads, by decide, (fun _ _ _ h => by cases h), hf, fun _ => aStarB_det gc⟩

end NonVacuity

end Verif.GoRe
