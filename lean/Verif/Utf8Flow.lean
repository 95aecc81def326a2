import Verif.JsonOrigin
import Verif.JpvOrigin
import Verif.CsvOrigin
import Verif.CsvLines
import Verif.JsonStream
import Verif.FmtOk

/-!
# UTF-8 from the input to the output

Scalars are cut out of the input at ASCII characters.
-/

set_option linter.unusedSimpArgs false
set_option linter.unusedVariables false

namespace Verif
open Rfc8259

theorem utf8_nil : Utf8 [] := ⟨[], by simp, rfl⟩

theorem utf8_append {a b : Bytes} (ha : Utf8 a) (hb : Utf8 b) : Utf8 (a ++ b) := by
  obtain ⟨cs, h, rfl⟩ := ha
  obtain ⟨ds, h', rfl⟩ := hb
  exact ⟨cs ++ ds, fun n hn => (List.mem_append.1 hn).elim (h n) (h' n), by rw [List.flatMap_append]⟩

theorem utf8_ascii1 {b : Byte} (hb : b < 0x80) : Utf8 [b] := by
  have h : b.toNat < 0x80 := hb
  refine ⟨[b.toNat], ?_, ?_⟩
  · intro n hn
    cases List.mem_singleton.1 hn
    unfold Rfc8259.UScalar
    omega
  · simp [utf8_mem_ascii h]

theorem utf8_ascii : ∀ {b : Bytes}, (∀ x ∈ b, x < 0x80) → Utf8 b
  | [], _ => utf8_nil
  | b :: s, h => utf8_append (a := [b]) (utf8_ascii1 (h b (List.mem_cons_self ..))) (utf8_ascii fun x hx => h x (List.mem_cons_of_mem _ hx))

theorem utf8_flatten : ∀ {ps : List Bytes}, (∀ b ∈ ps, Utf8 b) → Utf8 ps.flatten
  | [], _ => utf8_nil
  | b :: ps, h => by
    rw [List.flatten_cons]
    exact utf8_append (h b (List.mem_cons_self ..)) (utf8_flatten fun x hx => h x (List.mem_cons_of_mem _ hx))

/-- A character of ASCII can be taken away at the front. -/
theorem utf8_tail {b : Byte} {s : Bytes} (hb : b < 0x80) (h : Utf8 (b :: s)) : Utf8 s := (utf8_split (x := []) hb h).2

/-- A string in quotes whose contents are UTF-8, or ASCII. -/
def Fine (b : Bytes) : Prop := (∃ m, Utf8 m ∧ b = c%'"' :: (m ++ [c%'"'])) ∨ ∀ x ∈ b, x < 0x80

theorem Fine.utf8 {b : Bytes} (h : Fine b) : Utf8 b := by
  rcases h with ⟨m, hm, rfl⟩ | h
  · exact utf8_append (a := [c%'"']) (utf8_ascii1 (by decide)) (utf8_append hm (utf8_ascii1 (by decide)))
  · exact utf8_ascii h

theorem Fine.inner {b : Bytes} (h : Fine b) : Utf8 (b.drop 1).dropLast := by
  rcases h with ⟨m, hm, rfl⟩ | h
  · simpa using hm
  · exact utf8_ascii fun x hx => h x (List.mem_of_mem_drop (List.dropLast_subset _ hx))

theorem Fine.slice {D b : Bytes} (hD : Utf8 D) (h : b <:+: D) (hs : Pure.Shaped b) : Fine b := by
  rcases hs.1 with ⟨m, rfl⟩ | hs
  · obtain ⟨x, y, e⟩ := h
    have e' : D = x ++ c%'"' :: (m ++ c%'"' :: y) := by rw [← e]; simp
    rw [e'] at hD
    exact .inl ⟨m, (utf8_split (by decide) (utf8_split (by decide) hD).2).1, rfl⟩
  · exact .inr hs

/-- Scalars that are cut out well. -/
def FineToks (ts : List Token) : Prop := ∀ s, .scalar s ∈ ts → Fine s.bytes

theorem json_fine {r : Reader} (hu : Utf8 r.rest) : FineToks (Json.decodeFrom r).1 := by
  intro s hs
  obtain ⟨D, fin, hd, e⟩ := decodeFrom_eq r 8192 (by decide)
  have e' : (Json.decodeFrom r).1 = (Pure.produce fin (Json.fuelFor r.rest.length) (Json.fuelFor r.rest.length) D).1 := by
    rw [e]
    generalize Pure.produce fin _ _ D = y
    obtain ⟨ts, y⟩ := y
    match y with
    | none => rfl
    | some (.ok _) => rfl
    | some (.error _) => rfl
  rw [e'] at hs
  have := (Pure.produce_slices fin _ _ D (List.suffix_refl _)).1 s hs
  refine .slice hu ?_ this.2
  rcases hd with ⟨rfl, _⟩ | ⟨_, _, x, _, e⟩
  · exact this.1
  · rw [e]; exact this.1.trans (List.prefix_append _ _).isInfix

theorem jpv_fine {r : Reader} (hu : Utf8 r.rest) : FineToks (Jpv.decodeFrom r).1 := by
  intro s hs
  obtain ⟨D, fin, hd, e⟩ := jpvDecodeFrom_eq r 8192 (by decide)
  have e' : (Jpv.decodeFrom r).1 = (JpvPure.produce fin (Json.fuelFor r.rest.length) (Json.fuelFor r.rest.length) [] D).1 := by
    rw [e]
    generalize JpvPure.produce fin _ _ [] D = y
    obtain ⟨ts, y⟩ := y
    match y with
    | none => rfl
    | some (.ok _) => rfl
    | some (.error (.perr _)) => rfl
    | some (.error (.plain _)) => rfl
    | some (.error .panic) => rfl
  rw [e'] at hs
  rcases JpvPure.produce_pieces fin _ _ [] D (List.suffix_refl _) s hs with h | ⟨k, _, hk, e⟩
  · refine .slice hu ?_ h.2
    rcases hd with ⟨rfl, _⟩ | ⟨_, _, x, _, e⟩
    · exact h.1
    · rw [e]; exact h.1.trans (List.prefix_append _ _).isInfix
  · rw [e]; exact .inl ⟨k, utf8_ascii fun x hx => (hk x hx).2, rfl⟩

namespace Csv
open CsvSpec

theorem utf8_esc : ∀ {f : Bytes}, Utf8 f → Utf8 (f.flatMap escByte) := by
  intro f h
  obtain ⟨cs, hc, rfl⟩ := h
  induction cs with
  | nil => exact utf8_nil
  | cons n cs ih =>
    rw [List.flatMap_cons, List.flatMap_append]
    refine utf8_append ?_ (ih fun m hm => hc m (List.mem_cons_of_mem _ hm))
    have hn := hc n (List.mem_cons_self ..)
    by_cases h : n < 0x80
    · rw [utf8_mem_ascii h]
      have hb : (UInt8.ofNat n) < 0x80 := by
        rw [UInt8.lt_iff_toNat_lt, UInt8.toNat_ofNat]
        show n % 256 < 128
        omega
      generalize UInt8.ofNat n = b at hb
      show Utf8 (escByte b ++ [])
      rw [List.append_nil]
      unfold escByte
      split
      · exact utf8_append (a := [_]) (utf8_ascii1 (by decide)) (utf8_ascii1 hb)
      · split
        · exact utf8_ascii (by decide)
        · exact utf8_ascii1 hb
    · have : (utf8 n).flatMap escByte = utf8 n := by
        have hi : ∀ l : Bytes, (∀ x ∈ l, 0x80 ≤ x) → l.flatMap escByte = l := by
          intro l hl
          induction l with
          | nil => rfl
          | cons x l ih =>
            rw [List.flatMap_cons, ih fun y hy => hl y (List.mem_cons_of_mem _ hy)]
            have hx := hl x (List.mem_cons_self ..)
            rw [UInt8.le_iff_toNat_le] at hx
            have ne : ∀ c : Byte, c < 0x80 → x ≠ c := by
              rintro c hc rfl
              rw [UInt8.lt_iff_toNat_lt] at hc
              omega
            unfold escByte
            rw [if_neg (fun h => h.elim (ne _ (by decide)) (ne _ (by decide))), if_neg (ne _ (by decide))]
            rfl
        exact hi _ fun x hx => (utf8_mem_high hn (by omega) x hx).1
      rw [this]
      exact ⟨[n], by simpa using hn, by simp⟩

theorem name_fine {f : Bytes} (hu : Utf8 f) {s : Scalar} (h : fieldToScalar f true = some s) : Fine s.bytes := by
  rw [header_bytes h]
  exact .inl ⟨_, utf8_esc hu, rfl⟩

theorem value_fine {f : Bytes} (hu : Utf8 f) {s : Scalar} (h : fieldToScalar f false = some s) : Fine s.bytes := by
  obtain ⟨s', e, hk, _, hs⟩ := data_spec f
  cases e.symm.trans h
  rcases hs with ⟨h1, _, h2⟩ | ⟨h1, _, h⟩ | ⟨_, _, _, ⟨hn, _, _, h⟩ | ⟨_, _, h, _⟩ | ⟨_, _, _, hn, _⟩⟩
  · rw [h2]; exact .inr (by decide)
  · rw [h]; rcases h1 with rfl | rfl <;> exact .inr (by decide)
  · rw [h]; exact .inr fun x hx => (Pure.numChar_ascii (number_chars hn x hx)).2
  · rw [h]; exact .inl ⟨_, utf8_esc hu, rfl⟩
  · exact .inr fun x hx => (Pure.numChar_ascii (number_chars hn x hx)).2

/-- Properties of bytes that are kept when they are cut at the characters of CSV, and when they are put together. -/
structure Cuts (Q : Bytes → Prop) : Prop where
  nil : Q []
  append : ∀ {a b}, Q a → Q b → Q (a ++ b)
  char : ∀ c ∈ [c%'"', c%'\n'], Q [c]
  split : ∀ c ∈ [c%'"', c%'\n', c%',', c%'\r'], ∀ {x y}, Q (x ++ c :: y) → Q x ∧ Q y

theorem cuts_utf8 : Cuts Utf8 :=
  ⟨utf8_nil, utf8_append, fun c hc => utf8_ascii fun x hx => by cases List.mem_singleton.1 hx; revert c; decide, fun c hc _ _ h => utf8_split (by clear h; revert c; decide) h⟩

section
variable {Q : Bytes → Prop} (hQ : Cuts Q)
include hQ
variable {σ : Type} {rl : σ → Bytes × Option RErr × σ} {Inv : σ → Prop}

theorem skip_cuts (hrl : ∀ s, Inv s → Q (rl s).1 ∧ Inv (rl s).2.2) : ∀ (f : Nat) (s : σ), Inv s → Q (skipLines rl f s).1 ∧ Inv (skipLines rl f s).2.2
  | 0, s, h => ⟨hQ.nil, h⟩
  | f + 1, s, h => by
    have h1 := hrl s h
    rw [skipLines]
    simp only
    split
    · exact skip_cuts hrl f _ h1.2
    · exact h1

theorem cuts_until {c : Byte} (hc : c ∈ [c%'"', c%'\n', c%',', c%'\r']) {l : Bytes} (hm : c ∈ l) (h : Q l) :
    Q (l.takeWhile (· ≠ c)) ∧ Q (l.drop ((l.takeWhile (· ≠ c)).length + 1)) := by
  have e : l = l.takeWhile (· ≠ c) ++ c :: l.drop ((l.takeWhile (· ≠ c)).length + 1) := by
    clear h
    induction l with
    | nil => cases hm
    | cons x l ih =>
      by_cases hx : x = c
      · subst hx; simp
      · rw [List.takeWhile_cons]
        simp only [ne_eq, hx, not_false_eq_true, decide_true, if_true, List.length_cons, List.drop_succ_cons, List.cons_append, List.cons.injEq, true_and]
        exact ih ((List.mem_cons.1 hm).resolve_left (fun e => hx e.symm))
  rw [e] at h
  exact hQ.split c hc h

theorem cuts_line {l : Bytes} (h : Q l) : Q (l.take (l.length - lengthNL l)) := by
  unfold lengthNL
  split
  · rename_i hl
    obtain ⟨l', e⟩ := List.getLast?_eq_some_iff.1 hl
    subst e
    simp only [List.length_append, List.length_singleton, Nat.add_sub_cancel, List.take_left']
    exact (hQ.split _ (by decide) (y := []) h).1
  · simpa using h

theorem cuts_head {b : Byte} (hb : b ∈ [c%'"', c%'\n', c%',', c%'\r']) {l : Bytes} (h : l.head? = some b) (hu : Q l) : Q (l.drop 1) := by
  cases l with
  | nil => cases h
  | cons x l => cases h; exact (hQ.split _ hb (x := []) hu).2

theorem fields_cuts (hrl : ∀ s, Inv s → Q (rl s).1 ∧ Inv (rl s).2.2) : ∀ (f : Nat) (s : σ) (line : Bytes) (e : Option RErr) (acc : List Bytes)
    (cur : Option Bytes), Inv s → Q line → (∀ x ∈ acc, Q x) → (∀ c, cur = some c → Q c) →
    (∀ x ∈ (parseFields rl f s line e acc cur).1, Q x) ∧ Inv (parseFields rl f s line e acc cur).2.2
  | 0, s, line, e, acc, cur, hs, hl, ha, hc => by rw [parseFields]; exact ⟨ha, hs⟩
  | f + 1, s, line, e, acc, none, hs, hl, ha, hc => by
    have add : ∀ {x : Bytes}, Q x → ∀ y ∈ acc ++ [x], Q y := by
      intro x hx y hy
      rcases List.mem_append.1 hy with hy | hy
      · exact ha y hy
      · cases List.mem_singleton.1 hy; exact hx
    rw [parseFields]
    split
    · simp only
      split
      · rename_i hm
        have h2 := cuts_until hQ (by decide) hm hl
        split
        · exact ⟨ha, hs⟩
        · exact fields_cuts hrl f s _ e _ none hs h2.2 (add h2.1) (fun c hc => by cases hc)
      · split
        · exact ⟨ha, hs⟩
        · exact ⟨add (cuts_line hQ hl), hs⟩
    · rename_i hh
      exact fields_cuts hrl f s _ e acc (some []) hs (cuts_head hQ (by decide) (Decidable.not_not.1 hh) hl) ha (fun c hc => by cases hc; exact hQ.nil)
  | f + 1, s, line, e, acc, some cur, hs, hl, ha, hc => by
    have hcur := hc cur rfl
    have add : ∀ {x : Bytes}, Q x → ∀ y ∈ acc ++ [x], Q y := by
      intro x hx y hy
      rcases List.mem_append.1 hy with hy | hy
      · exact ha y hy
      · cases List.mem_singleton.1 hy; exact hx
    rw [parseFields]
    split
    · rename_i hm
      have h2 := cuts_until hQ (by decide) hm hl
      simp only
      split
      · rename_i hh
        exact fields_cuts hrl f s _ e acc _ hs (cuts_head hQ (by decide) hh h2.2) ha
          (fun c hc => by cases hc; exact hQ.append (hQ.append hcur h2.1) (hQ.char _ (by decide)))
      · split
        · rename_i hh
          exact fields_cuts hrl f s _ e _ none hs (cuts_head hQ (by decide) hh h2.2) (add (hQ.append hcur h2.1)) (fun c hc => by cases hc)
        · split
          · exact ⟨add (hQ.append hcur h2.1), hs⟩
          · exact ⟨ha, hs⟩
    · split
      · split
        · exact ⟨ha, hs⟩
        · have h1 := hrl s hs
          simp only
          exact fields_cuts hrl f _ _ _ acc _ h1.2 h1.1 ha (fun c hc => by cases hc; exact hQ.append hcur hl)
      · split
        · exact ⟨ha, hs⟩
        · exact ⟨add hcur, hs⟩

theorem all_cuts (hrl : ∀ s, Inv s → Q (rl s).1 ∧ Inv (rl s).2.2) (f : Nat) : ∀ (k n : Nat) (s : σ), Inv s →
    ∀ r ∈ (readAll rl f k n s).records, ∀ x ∈ r, Q x
  | 0, _, _, _, r, hr => by cases hr
  | k + 1, n, s, hs, r, hr => by
    have h1 := skip_cuts hQ hrl f s hs
    have h2 := fields_cuts hQ hrl f (skipLines rl f s).2.2 (skipLines rl f s).1 (skipLines rl f s).2.1 [] none h1.2 h1.1 (fun x hx => by cases hx)
      (fun c hc => by cases hc)
    have h3 : ∀ l, (readRecord rl f n s).1 = .ok l → (∀ x ∈ l, Q x) ∧ Inv (readRecord rl f n s).2.2 := by
      intro l hl
      unfold readRecord at hl ⊢
      generalize skipLines rl f s = y at hl h2 ⊢
      obtain ⟨line, er, s1⟩ := y
      simp only at hl h2 ⊢
      split at hl
      · cases hl
      · rename_i he
        rw [if_neg he]
        generalize parseFields rl f s1 line er [] none = z at hl h2 ⊢
        obtain ⟨fs, e, s2⟩ := z
        cases e with
        | some e => cases hl
        | none =>
          simp only at hl h2 ⊢
          split at hl
          · cases hl
          · rename_i hw
            rw [if_neg hw]
            cases hl
            exact h2
    rw [readAll] at hr
    generalize readRecord rl f n s = y at hr h3
    obtain ⟨x, n', s'⟩ := y
    cases x with
    | error e => cases hr
    | ok l =>
      have h3 := h3 l rfl
      rcases List.mem_cons.1 hr with rfl | hr
      · exact h3.1
      · exact all_cuts hrl f k n' s' h3.2 r hr

theorem finish_cuts {l : Bytes} {e : Option RErr} (h : Q l) : Q (finishLine l e).1 := by
  have cr : ∀ {l : Bytes}, Q l → l.getLast? = some c%'\r' → Q l.dropLast := by
    intro l h hl
    obtain ⟨l', e⟩ := List.getLast?_eq_some_iff.1 hl
    subst e
    rw [List.dropLast_concat]
    exact (hQ.split _ (by decide) (y := []) h).1
  have crlf : ∀ {l : Bytes}, Q l → [c%'\r', c%'\n'] <:+ l → Q (l.dropLast.dropLast ++ [c%'\n']) := by
    rintro l h ⟨t, rfl⟩
    have e : (t ++ [c%'\r', c%'\n']).dropLast.dropLast = t := by
      rw [show t ++ [c%'\r', c%'\n'] = (t ++ [c%'\r']) ++ [c%'\n'] by simp, List.dropLast_concat, List.dropLast_concat]
    rw [e]
    exact hQ.append (hQ.split _ (by decide) (y := [c%'\n']) h).1 (hQ.char _ (by decide))
  unfold finishLine
  by_cases h1 : l.length > 0 ∧ e = some .eof
  · rw [if_pos h1]
    have h2 : Q (if l.getLast? = some c%'\r' then l.dropLast else l) := by
      split
      · exact cr h (by assumption)
      · exact h
    generalize (if l.getLast? = some c%'\r' then l.dropLast else l) = l1 at h2 ⊢
    simp only
    split
    · exact crlf h2 (by assumption)
    · exact h2
  · rw [if_neg h1]
    simp only
    split
    · exact crlf h (by assumption)
    · exact h

theorem textLine_cuts (fin : RErr) (D : Bytes) (h : Q D) : Q (textLine fin D).1 ∧ Q (textLine fin D).2.2 := by
  unfold textLine
  split
  · rename_i hm
    have h2 := cuts_until hQ (by decide) hm h
    refine ⟨finish_cuts hQ (hQ.append h2.1 (hQ.char _ (by decide))), ?_⟩
    have : (lineOf D).length = (D.takeWhile (· ≠ c%'\n')).length + 1 := by simp [lineOf]
    rw [this]
    exact h2.2
  · exact ⟨finish_cuts hQ h, hQ.nil⟩

end

theorem csv_fine {cfg : Cfg} {names : List Bytes} (hn : ∀ f ∈ names, Utf8 f) {r : Reader} (hf : Fair r.sched) (hu : Utf8 r.rest) {x}
    (h : produce cfg names (readInput r) = some x) : FineToks x.1 := by
  have hr : ∀ l ∈ (readInput r).records, ∀ f ∈ l, Utf8 f := by
    rw [readInput_eq hf]
    exact all_cuts cuts_utf8 (Inv := Utf8) (textLine_cuts cuts_utf8 r.fin) _ _ _ _ hu
  intro s hs
  rcases produce_of h s hs with ⟨f, hf, e⟩ | ⟨l, hl, f, hf, e⟩
  · refine name_fine ?_ e
    rcases hf with hf | ⟨l, hl, hf⟩ | ⟨n, rfl⟩
    · exact hn f hf
    · exact hr l hl f hf
    · refine utf8_append (utf8_ascii (by decide)) (utf8_ascii fun x hx => ?_)
      have := JPath.itoa_digits n x hx
      unfold Digit at this
      exact UInt8.lt_of_le_of_lt this.2 (by decide)
  · exact value_fine (hr l hl f hf) e

end Csv
end Verif
