import Verif.CommandSpec
import Verif.Props.C58

/-!
# C64: The command line
-/

namespace Verif.Cmd

/-- **C64 (numbers of options).**  A word is accepted as the value of a numeric option exactly if it is an integer literal of Go with 64 bits, and it means
its value. -/
theorem C64_number (s : Bytes) (i : Int) : parseInt0 s = some i ↔ IntWord s i := number_iff s i

example : IntWord b%"-0x_1F" (-31) :=
  .minus (.preSep (l := [1, 15]) (.inr (.inr ⟨.inl rfl, rfl⟩))
    (.more ⟨by decide, .inl ⟨by decide, by decide, by decide⟩⟩ (.one ⟨by decide, .inr (.inr ⟨by decide, by decide, by decide⟩)⟩))) (by decide)


/-- **C64 (exact syntax; partial: the old options for colours may have values).**  The command line is accepted exactly if it consists of options and
arguments as specified, and then the options have the specified effect. -/
theorem C64_exact_partial (words : List Bytes) (v v' : Vars) (args : List Bytes) :
    parseFlags words v = .ok v' args ↔ ∃ f, CommandLine true words f args ∧ v' = f v := by
  constructor
  · intro h
    obtain ⟨opts, rest, rfl, f, h1, h2⟩ := parse_split _ words (Nat.le_refl _) v
    rw [h] at h2
    cases h2 with
    | ok ht => exact ⟨f, ⟨opts, rest, rfl, h1, ht⟩, rfl⟩
  · rintro ⟨f, ⟨opts, rest, rfl, h1, h2⟩, rfl⟩
    rw [parse_opts h1, parse_tail h2]

private theorem opt_lax {ws f} (h : Opt false ws f) : Opt true ws f := by
  cases h with
  | bool a b => exact .bool a b
  | boolValue a b c => exact .boolValue a b c
  | int a b c => exact .int a b c
  | intValue a b c => exact .intValue a b c
  | str a b => exact .str a b
  | strValue a b => exact .strValue a b
  | color a b => exact .color a b
  | colorValue a _ _ => cases a

private theorem opts_lax {ws f} (h : Opts false ws f) : Opts true ws f := by
  induction h with
  | nil => exact .nil
  | cons h _ ih => exact .cons (opt_lax h) ih

/-- **C64 (accepts).**  Every specified command line is accepted. -/
theorem C64_accepts {words : List Bytes} {f : Vars → Vars} {args : List Bytes} (h : CommandLine false words f args) (v : Vars) :
    parseFlags words v = .ok (f v) args := by
  obtain ⟨opts, rest, hw, h1, h2⟩ := h
  exact (C64_exact_partial words v _ args).2 ⟨f, ⟨opts, rest, hw, opts_lax h1, h2⟩, rfl⟩

/-- **C64 (help).**  The help text is shown exactly if after some options a word asks for it. -/
theorem C64_help (words : List Bytes) (v : Vars) :
    parseFlags words v = .help ↔ ∃ opts a rest f, words = opts ++ a :: rest ∧ Opts true opts f ∧ HelpWord a := by
  constructor
  · intro h
    obtain ⟨opts, rest, rfl, f, h1, h2⟩ := parse_split _ words (Nat.le_refl _) v
    rw [h] at h2
    cases h2 with
    | help ha => exact ⟨opts, _, _, f, rfl, h1, ha⟩
  · rintro ⟨opts, a, rest, f, rfl, h1, h2⟩
    rw [parse_opts h1, help_parse h2]

/-- **C64 (status 2).**  The program ends with status 2 exactly if the words are not a command line and do not ask for help.  Then it writes and reads
nothing. -/
theorem C64_status {env : Env} {terminal : Bool} {words : List Bytes} {r : Reader} {x : Result} (h : Program env terminal words r x) :
    (x.status = 2 ↔ (¬ ∃ f args, CommandLine true words f args) ∧ ¬ ∃ opts a rest f, words = opts ++ a :: rest ∧ Opts true opts f ∧ HelpWord a) ∧
    (x.status = 2 → x.stdout = [] ∧ x.reported = true) := by
  rw [← C64_help words {}]
  have hok : ∀ {v args}, parseFlags words {} = .ok v args → ∃ f args, CommandLine true words f args := by
    intro v args h
    obtain ⟨f, h, _⟩ := (C64_exact_partial _ _ _ _).1 h
    exact ⟨f, args, h⟩
  have hne : ∀ {n : Nat}, n ≠ 2 → (∃ f args, CommandLine true words f args) → (n = 2 ↔ (¬ ∃ f args, CommandLine true words f args) ∧ ¬ parseFlags words {} = .help) :=
    fun h h' => ⟨fun e => absurd e h, fun e => absurd h' e.1⟩
  cases h with
  | usage h => exact ⟨⟨fun e => (by cases e), fun e => absurd h e.2⟩, fun e => (by cases e)⟩
  | bad h =>
    refine ⟨⟨fun _ => ⟨?_, by rw [h]; decide⟩, fun _ => rfl⟩, fun _ => ⟨rfl, rfl⟩⟩
    rintro ⟨f, args, h'⟩
    rw [(C64_exact_partial _ _ _ _).2 ⟨f, h', rfl⟩] at h
    cases h
  | info h _ => exact ⟨hne (by decide) (hok h), fun e => (by cases e)⟩
  | color h _ _ => exact ⟨hne (by decide) (hok h), fun e => (by cases e)⟩
  | file h _ _ _ => exact ⟨hne (by decide) (hok h), fun e => (by cases e)⟩
  | main h _ _ _ hm =>
    have : x.status ≠ 2 := by
      intro e
      rcases Classical.em _ with hp | hp
      · rw [(C58_status_partial hm).1 hp] at e; cases e
      · rw [(C58_status_partial hm).2 hp] at e; cases e
    exact ⟨hne this (hok h), fun e => absurd e this⟩

/-- Whether a help text is asked for. -/
def Vars.info (v : Vars) : Bool := v.helpInput || v.helpOutput || v.helpTransforms || v.helpCookbook

/-- Specification: the colours of a mode, if it is known. -/
inductive Colors (terminal : Bool) : Bytes → Option Colorizer → Prop
  | always : Colors terminal b%"always" (some defaultColorizer)
  | never : Colors terminal b%"never" none
  | auto : Colors terminal b%"auto" (if terminal then some defaultColorizer else none)

private theorem colors_iff {terminal : Bool} {mode : Bytes} {color : Option Colorizer} : chooseColor mode terminal = some color ↔ Colors terminal mode color := by
  constructor
  · intro h
    unfold chooseColor at h
    split at h
    · rename_i e; subst e; cases h; exact .always
    split at h
    · rename_i e; subst e; cases h; exact .never
    split at h
    · rename_i e; subst e; cases h; exact .auto
    · cases h
  · intro h
    cases h <;> rfl

/-- **C64 (what the options mean).**  A command line that does not ask for help, with a known mode for colours and without a file: the program is the main
program with the options that the words set. -/
theorem C64_main {env : Env} {terminal : Bool} {words : List Bytes} {f : Vars → Vars} {args : List Bytes} (h : CommandLine true words f args) {color : Option Colorizer}
    (hi : (f {}).info = false) (hc : Colors terminal (f {}).colorMode color) (hf : (f {}).file = []) (r : Reader) (x : Result) :
    Program env terminal words r x ↔
      Main env { inFormat := (f {}).inFormat, outFormat := (f {}).outFormat, indent := (f {}).indent, compact := (f {}).compact, width := (f {}).width,
                 quoteKeys := (f {}).quoteKeys, csvHeader := (f {}).csvHeader, strict := (f {}).strict, color := color, terminal := terminal, args := args } r x := by
  have hp := (C64_exact_partial words {} _ args).2 ⟨f, h, rfl⟩
  have hc := colors_iff.2 hc
  constructor
  · intro h
    cases h with
    | usage h => rw [hp] at h; cases h
    | bad h => rw [hp] at h; cases h
    | info h h' => rw [hp] at h; cases h; rw [Vars.info, h'] at hi; cases hi
    | color h _ h' => rw [hp] at h; cases h; rw [hc] at h'; cases h'
    | file h _ _ h' => rw [hp] at h; cases h; exact absurd hf h'
    | main h _ h' _ hm => rw [hp] at h; cases h; rw [hc] at h'; cases h'; exact hm
  · intro h; exact .main hp hi hc hf h

/-- **C64 (defaults).**  Without options, the program is the main program with the options that the documentation gives as defaults. -/
theorem C64_default {env : Env} {terminal : Bool} {args : List Bytes} (h : ∀ a, args.head? = some a → NotOption a) (r : Reader) (x : Result) :
    Program env terminal args r x ↔
      Main env { inFormat := b%"auto", outFormat := b%"json", indent := 2, compact := false, width := 60, quoteKeys := false, csvHeader := [], strict := false,
                 color := if terminal then some defaultColorizer else none, terminal := terminal, args := args } r x := by
  have hc : CommandLine true args id args := by
    refine ⟨[], args, rfl, .nil, ?_⟩
    cases args with
    | nil => exact .nil
    | cons a l => exact .args (h a rfl)
  exact C64_main hc rfl .auto rfl r x

/-- **C64 (help texts).**  If a help text is asked for, the status is 0, and nothing is read or written to the standard output. -/
theorem C64_info {env : Env} {terminal : Bool} {words : List Bytes}
    (h : (∃ f args, CommandLine true words f args ∧ (f {}).info = true) ∨ ∃ opts a rest f, words = opts ++ a :: rest ∧ Opts true opts f ∧ HelpWord a) (r : Reader) (x : Result) :
    Program env terminal words r x ↔ x = ⟨[], 0, false⟩ := by
  rw [← C64_help words {}] at h
  rcases h with ⟨f, args, h, hi⟩ | h
  · have hp := (C64_exact_partial words {} _ args).2 ⟨f, h, rfl⟩
    constructor
    · intro h
      cases h with
      | usage h => rfl
      | bad h => rw [hp] at h; cases h
      | info h h' => rfl
      | color h h' _ => rw [hp] at h; cases h; rw [Vars.info, h'] at hi; cases hi
      | file h h' _ _ => rw [hp] at h; cases h; rw [Vars.info, h'] at hi; cases hi
      | main h h' _ _ _ => rw [hp] at h; cases h; rw [Vars.info, h'] at hi; cases hi
    · rintro rfl; exact .info hp hi
  · constructor
    · intro h'
      cases h' with
      | usage h => rfl
      | bad h' => rw [h] at h'; cases h'
      | info h' _ => rfl
      | color h' _ _ => rw [h] at h'; cases h'
      | file h' _ _ _ => rw [h] at h'; cases h'
      | main h' _ _ _ _ => rw [h] at h'; cases h'
    · rintro rfl; exact .usage h

/-- **C64 (fatal options).**  With an unknown mode for colours, or with the removed option for a file, nothing is read or written, and the status is 1. -/
theorem C64_fatal {env : Env} {terminal : Bool} {words : List Bytes} {f : Vars → Vars} {args : List Bytes} (h : CommandLine true words f args)
    (hi : (f {}).info = false) (hc : (∀ color, ¬ Colors terminal (f {}).colorMode color) ∨ (f {}).file ≠ []) (r : Reader) (x : Result) :
    Program env terminal words r x ↔ x = ⟨[], 1, true⟩ := by
  have hp := (C64_exact_partial words {} _ args).2 ⟨f, h, rfl⟩
  constructor
  · intro h
    cases h with
    | usage h => rw [hp] at h; cases h
    | bad h => rw [hp] at h; cases h
    | info h h' => rw [hp] at h; cases h; rw [Vars.info, h'] at hi; cases hi
    | color _ _ _ => rfl
    | file _ _ _ _ => rfl
    | main h _ h1 h2 _ =>
      rw [hp] at h; cases h
      rcases hc with hc | hc
      · exact absurd (colors_iff.1 h1) (hc _)
      · exact absurd h2 hc
  · rintro rfl
    cases hm : chooseColor (f {}).colorMode terminal with
    | none => exact .color hp hi hm
    | some color =>
      rcases hc with hc | hc
      · exact absurd (colors_iff.1 hm) (hc _)
      · exact .file hp hi hm hc

/-- **C64 (other names).**  The documented other names of options mean the same, in all forms. -/
theorem C64_alias {env : Env} {terminal : Bool} {pre : List Bytes} {f : Vars → Vars} (hpre : Opts true pre f) {n n' : Bytes}
    (hn : (n, n') ∈ [(b%"json-lines", b%"json-compact"), (b%"indent", b%"json-indent"), (b%"compactwidth", b%"json-compact-width"), (b%"quotekeys", b%"jpv-quote-keys")])
    {d w : Bytes} (hd : Dashes d) (hw : w = [] ∨ w.head? = some c%'=') (post : List Bytes) (r : Reader) (x : Result) :
    Program env terminal (pre ++ (d ++ n ++ w) :: post) r x ↔ Program env terminal (pre ++ (d ++ n' ++ w) :: post) r x := by
  have key : parseFlags (pre ++ (d ++ n ++ w) :: post) {} = parseFlags (pre ++ (d ++ n' ++ w) :: post) {} := by
    rw [parse_opts hpre, parse_opts hpre]
    obtain ⟨y, rfl⟩ : ∃ y, w = eqValue y := by
      rcases hw with rfl | hw
      · exact ⟨none, rfl⟩
      · cases w with
        | nil => cases hw
        | cons b w => cases hw; exact ⟨some w, rfl⟩
    have h1 : GoodName n ∧ GoodName n' ∧ findFlag n = findFlag n' ∧ findFlag n' ≠ none := by
      simp only [List.mem_cons, List.not_mem_nil, or_false, Prod.mk.injEq] at hn
      rcases hn with ⟨rfl, rfl⟩ | ⟨rfl, rfl⟩ | ⟨rfl, rfl⟩ | ⟨rfl, rfl⟩ <;>
        exact ⟨⟨by decide, by decide, by decide⟩, ⟨by decide, by decide, by decide⟩, rfl, by simp [findFlag, flags]⟩
    obtain ⟨fl, hfl⟩ := Option.ne_none_iff_exists'.1 h1.2.2.2
    rw [parseFlags, parseFlags]
    simp only [class_of hd h1.1, class_of hd h1.2.1, h1.2.2.1, hfl]
    cases fl <;> rfl
  constructor
  · intro h
    cases h with
    | usage h => exact .usage (key ▸ h)
    | bad h => exact .bad (key ▸ h)
    | info h a => exact .info (key ▸ h) a
    | color h a b => exact .color (key ▸ h) a b
    | file h a b c => exact .file (key ▸ h) a b c
    | main h a b c e => exact .main (key ▸ h) a b c e
  · intro h
    cases h with
    | usage h => exact .usage (key ▸ h)
    | bad h => exact .bad (key ▸ h)
    | info h a => exact .info (key ▸ h) a
    | color h a b => exact .color (key ▸ h) a b
    | file h a b c => exact .file (key ▸ h) a b c
    | main h a b c e => exact .main (key ▸ h) a b c e

/-- A word that begins with a hyphen is not a transform. -/
private theorem hyphen_bad {a : Bytes} (h : a.head? = some c%'-') : parseTransformer a = none := by
  cases a with
  | nil => cases h
  | cons b a =>
    cases h
    have hp : ∀ {c : Byte} {l : Bytes}, c ≠ c%'-' → ¬ (c :: l) <+: (c%'-' :: a) := by
      rintro c l hc ⟨t, ht⟩
      cases ht
      exact hc rfl
    have he : ∀ {c : Byte} {l : Bytes}, c ≠ c%'-' → ¬ (c%'-' :: a) = (c :: l) := by
      rintro c l hc ht
      cases ht
      exact hc rfl
    rw [parseTransformer, if_neg (he (by decide)), if_neg (he (by decide)), if_neg (he (by decide)), if_neg (hp (by decide)), if_neg (hp (by decide)),
      if_neg (hp (by decide)), if_neg (hp (by decide))]

/-- **C64 (order).**  Options come before transforms: with an option behind the first transform, nothing is written and the status is 1 — unless a help text is
asked for before it. -/
theorem C64_order {env : Env} {terminal : Bool} {pre : List Bytes} {f : Vars → Vars} (hpre : Opts true pre f) (hi : (f {}).info = false) {a b : Bytes} {l : List Bytes}
    (ha : NotOption a) (hb : b ∈ l) (hb' : b.head? = some c%'-') (r : Reader) (x : Result) :
    Program env terminal (pre ++ a :: l) r x ↔ x = ⟨[], 1, true⟩ := by
  have hp : parseFlags (pre ++ a :: l) {} = .ok (f {}) (a :: l) := by rw [parse_opts hpre, parse_tail (.args ha)]
  have hm : ∀ color x, Main env ((f {}).options terminal color (a :: l)) r x ↔ x = ⟨[], 1, true⟩ := fun color x =>
    C58_bad_argument (a := b) (List.mem_cons_of_mem _ hb) (hyphen_bad hb') x
  constructor
  · intro h
    cases h with
    | usage h => rw [hp] at h; cases h
    | bad h => rw [hp] at h; cases h
    | info h h' => rw [hp] at h; cases h; rw [Vars.info, h'] at hi; cases hi
    | color _ _ _ => rfl
    | file _ _ _ _ => rfl
    | main h _ _ _ h' => rw [hp] at h; cases h; exact (hm _ _).1 h'
  · rintro rfl
    cases hc : chooseColor (f {}).colorMode terminal with
    | none => exact .color hp hi hc
    | some color =>
      by_cases hf : (f {}).file = []
      · exact .main hp hi hc hf ((hm _ _).2 rfl)
      · exact .file hp hi hc hf

/-- **C64 (fails for a documented option).**  The help text (`/repo/cmd/jp/main.go:416-418`) gives `-strict` as the option for strict queries, but there is no
such option: whatever the
other words and the input are, the program ends with status 2. -/
theorem C64_violated_strict {env : Env} {terminal : Bool} (words : List Bytes) (r : Reader) (x : Result) :
    Program env terminal (b%"-strict" :: words) r x ↔ x = ⟨[], 2, true⟩ := by
  have hp : parseFlags (b%"-strict" :: words) {} = .bad := rfl
  constructor
  · intro h
    cases h with
    | usage h => rw [hp] at h; cases h
    | bad h => rfl
    | info h _ => rw [hp] at h; cases h
    | color h _ _ => rw [hp] at h; cases h
    | file h _ _ _ => rw [hp] at h; cases h
    | main h _ _ _ _ => rw [hp] at h; cases h
  · rintro rfl; exact .bad hp

/-- **C64 (fails for old options).**  `-colors=false` switches colours on, and `-nocolors=false` switches them off. -/
theorem C64_violated_colors : parseFlags [b%"-colors=false"] {} = .ok { colorMode := b%"always" } [] ∧
    parseFlags [b%"-nocolors=false"] {} = .ok { colorMode := b%"never" } [] ∧ ¬ ∃ f args, CommandLine false [b%"-colors=false"] f args := by
  refine ⟨by decide +kernel, by decide +kernel, ?_⟩
  rintro ⟨f, args, opts, rest, hw, ho, ht⟩
  cases ho with
  | nil =>
    have : rest = [b%"-colors=false"] := hw.symm
    subst this
    have hc : classify b%"-colors=false" = .flag b%"colors" (some b%"false") := by decide +kernel
    cases ht with
    | args h => rw [classify_arg.2 h] at hc; cases hc
  | cons h _ =>
    have key : ∀ {s : Bytes} {n : Bytes} {y : Option Bytes}, b%"-colors=false" = s → classify s = .flag n y → n = b%"colors" ∧ y = some b%"false" := by
      rintro s n y rfl h
      have hc : classify b%"-colors=false" = .flag b%"colors" (some b%"false") := by decide +kernel
      rw [hc] at h
      cases h; exact ⟨rfl, rfl⟩
    cases h with
    | bool hd hn => cases (key (List.cons.inj hw).1 (class_none hd (good_bool hn))).2
    | boolValue hd hn _ => rw [(key (List.cons.inj hw).1 (class_value hd (good_bool hn))).1] at hn; cases hn
    | int hd hn _ => cases (key (List.cons.inj hw).1 (class_none hd (good_int hn))).2
    | intValue hd hn _ => rw [(key (List.cons.inj hw).1 (class_value hd (good_int hn))).1] at hn; cases hn
    | str hd hn => cases (key (List.cons.inj hw).1 (class_none hd (good_str hn))).2
    | strValue hd hn => rw [(key (List.cons.inj hw).1 (class_value hd (good_str hn))).1] at hn; cases hn
    | color hd hn => cases (key (List.cons.inj hw).1 (class_none hd (good_color hn))).2
    | colorValue h _ _ => cases h

/-! ## Examples -/

/-- `jp -in csv --csv-header=a,b -json-lines -json-indent=4 split`. -/
example : CommandLine false [b%"-in", b%"csv", b%"--csv-header=a,b", b%"-json-lines", b%"-json-indent=4", b%"split"]
    (fun v => { v with inFormat := b%"csv", csvHeader := b%"a,b", compact := true, indent := 4 }) [b%"split"] :=
  ⟨[b%"-in", b%"csv", b%"--csv-header=a,b", b%"-json-lines", b%"-json-indent=4"], [b%"split"], rfl,
    .cons (.str (d := b%"-") (.inl rfl) .in_) (.cons (.strValue (d := b%"--") (w := b%"a,b") (.inr rfl) .header)
      (.cons (.bool (d := b%"-") (.inl rfl) .lines) (.cons (.intValue (d := b%"-") (w := b%"4") (i := 4) (.inl rfl) .indent
        (.plain (.dec (l := [4]) (.one ⟨by decide, .inl ⟨by decide, by decide, rfl⟩⟩) (by decide)) (by decide))) .nil))),
    .args (.inr (by decide))⟩

example : ∀ color, ¬ Colors false b%"sometimes" color := by rintro color ⟨⟩
example : HelpWord b%"--help=x" := ⟨b%"--", b%"help", b%"=x", .inr rfl, .inr rfl, .inr rfl, rfl⟩
example : Program noEnv false [b%"-h"] (atOnce b%"1") ⟨[], 0, false⟩ := .usage (by decide +kernel)
example : Program noEnv false [b%"-json-indent", b%"1__0"] (atOnce b%"1") ⟨[], 2, true⟩ := .bad (by decide +kernel)
example : Opts true [b%"-json-compact=0"] (fun v => { v with compact := false }) :=
  .cons (.boolValue (d := b%"-") (w := b%"0") (.inl rfl) .compact (.no (by decide))) .nil

end Verif.Cmd
