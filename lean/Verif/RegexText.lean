import Verif.RegexParse
import Verif.PathSafe

/-!
# Matching on UTF-8
-/

namespace Verif.GoRe
open Utf8 Rfc9485

/-! ## Substrings -/

/-- The first byte of a character is not a continuation byte; the others are. -/
theorem encode_cont {r : Nat} (h : UScalar r) : ∃ b l, encode r = b :: l ∧ isCont b = false ∧ ∀ x ∈ l, isCont x = true := by
  obtain ⟨h1, h2⟩ := h
  have c : ∀ n, n < 64 → isCont (UInt8.ofNat (0x80 + n)) = true := by
    intro n hn
    simp only [isCont, u8le, ofNat_toNat (show 0x80 + n < 256 by omega), Bool.and_eq_true, decide_eq_true_eq]
    simp; omega
  have nc : ∀ n, n < 256 → (n < 0x80 ∨ 0xC0 ≤ n) → isCont (UInt8.ofNat n) = false := by
    intro n hn h
    simp only [isCont, u8le, ofNat_toNat hn, Bool.and_eq_false_iff, decide_eq_false_iff_not]
    simp; omega
  unfold encode
  split
  · exact ⟨_, _, rfl, nc _ (by omega) (by omega), by simp⟩
  · split
    · refine ⟨_, _, rfl, nc _ (by omega) (by omega), fun x hx => ?_⟩
      simp only [List.mem_cons, List.not_mem_nil, or_false] at hx
      rcases hx with rfl
      exact c _ (by omega)
    · rw [if_neg (by simp [isSurrogate]; omega)]
      split
      · refine ⟨_, _, rfl, nc _ (by omega) (by omega), fun x hx => ?_⟩
        simp only [List.mem_cons, List.not_mem_nil, or_false] at hx
        rcases hx with rfl | rfl <;> exact c _ (by omega)
      · refine ⟨_, _, rfl, nc _ (by omega) (by omega), fun x hx => ?_⟩
        simp only [List.mem_cons, List.not_mem_nil, or_false] at hx
        rcases hx with rfl | rfl | rfl <;> exact c _ (by omega)

theorem flatMap_split : ∀ (cs : List Nat), (∀ c ∈ cs, UScalar c) → ∀ (x : Bytes) (b : Byte) (t : Bytes), isCont b = false → cs.flatMap encode = x ++ b :: t →
    ∃ a d, cs = a ++ d ∧ x = a.flatMap encode ∧ b :: t = d.flatMap encode := by
  intro cs
  induction cs with
  | nil => intro _ x b t _ h; simp at h
  | cons c cs ih =>
    intro hu x b t hb h
    obtain ⟨b0, l, he, h1, h2⟩ := encode_cont (hu c (by simp))
    cases x with
    | nil => exact ⟨[], c :: cs, rfl, rfl, h.symm⟩
    | cons x0 x =>
      rw [List.flatMap_cons, he] at h
      simp only [List.cons_append, List.cons.injEq] at h
      obtain ⟨rfl, h⟩ := h
      rcases List.append_eq_append_iff.mp h with ⟨m, hm, hm'⟩ | ⟨m, hm, hm'⟩
      · obtain ⟨a, d, rfl, h3, h4⟩ := ih (fun c hc => hu c (by simp [hc])) m b t hb hm'
        exact ⟨c :: a, d, rfl, by rw [List.flatMap_cons, he, hm, ← h3]; rfl, h4⟩
      · cases m with
        | nil =>
          obtain ⟨a, d, rfl, h3, h4⟩ := ih (fun c hc => hu c (by simp [hc])) [] b t hb (by simpa using hm'.symm)
          exact ⟨c :: a, d, rfl, by rw [List.flatMap_cons, he, ← h3]; simpa using hm.symm, h4⟩
        | cons m0 m =>
          simp only [List.cons_append, List.cons.injEq] at hm'
          have := h2 m0 (by rw [hm]; simp)
          rw [← hm'.1, hb] at this
          cases this

theorem chars_prefix : ∀ (ds cs : List Nat), (∀ c ∈ ds, UScalar c) → (∀ c ∈ cs, UScalar c) → ∀ z, cs.flatMap encode = ds.flatMap encode ++ z →
    ∃ es, cs = ds ++ es ∧ z = es.flatMap encode := by
  intro ds
  induction ds with
  | nil => intro cs _ _ z h; exact ⟨cs, rfl, by simpa using h.symm⟩
  | cons d ds ih =>
    intro cs hd hc z h
    cases cs with
    | nil =>
      have := encode_ne_nil d
      simp [this] at h
    | cons c cs =>
      rw [List.flatMap_cons, List.flatMap_cons, List.append_assoc] at h
      have e1 := decode_encode (hc c (by simp)) (cs.flatMap encode)
      have e2 := decode_encode (hd d (by simp)) (ds.flatMap encode ++ z)
      rw [h, e2] at e1
      simp only [Option.some.injEq, Prod.mk.injEq] at e1
      obtain ⟨rfl, -⟩ := e1
      obtain ⟨es, rfl, h'⟩ := ih cs (fun c hc => hd c (by simp [hc])) (fun x hx => hc x (by simp [hx])) z (List.append_cancel_left h)
      exact ⟨es, rfl, h'⟩

/-- Substrings of bytes that consist of characters are substrings of characters. -/
theorem substring_chars {s y : Bytes} {cs ds : List Nat} (hs : Chars s cs) (hy : Chars y ds) {x z : Bytes} (h : s = x ++ y ++ z) :
    ∃ a e, cs = a ++ ds ++ e := by
  cases ds with
  | nil => exact ⟨[], cs, rfl⟩
  | cons d ds =>
    obtain ⟨hu, y', rfl, hy'⟩ := chars_cons_inv hy
    obtain ⟨b, l, he, h1, h2⟩ := encode_cont hu
    have h' : cs.flatMap encode = x ++ b :: (l ++ y' ++ z) := by
      rw [← hs.1, h, he]; simp
    obtain ⟨a, c, rfl, h3, h4⟩ := flatMap_split cs hs.2 x b _ h1 h'
    obtain ⟨es, rfl, -⟩ := chars_prefix (d :: ds) c hy.2 (fun c hc => hs.2 c (by simp [hc])) z (by rw [← hy.1, ← h4, he]; simp)
    exact ⟨a, es, by simp⟩

/-! ## Finding -/

theorem findFrom_bounds (r : Re) (n : Nat) : ∀ s i j, findFrom r n s = some (i, j) → i ≤ n ∧ j ≤ n := by
  intro s
  induction s with
  | nil =>
    intro i j h
    simp only [findFrom, Option.map_eq_some_iff, Prod.mk.injEq] at h
    obtain ⟨_, _, rfl, rfl⟩ := h
    omega
  | cons c s ih =>
    intro i j h
    simp only [findFrom] at h
    split at h
    · cases h; omega
    · exact ih i j h

theorem widths_length {s : Bytes} {cs : List Nat} (h : Chars s cs) : (cs.map fun c => (encode c).length).sum = s.length := by
  rw [h.1, List.length_flatMap]

theorem sum_take_inj {l : List Nat} (h : ∀ x ∈ l, 0 < x) : ∀ i ≤ l.length, (l.take i).sum = l.sum → i = l.length := by
  induction l with
  | nil => intro i hi _; simpa using hi
  | cons x l ih =>
    intro i hi he
    cases i with
    | zero =>
      have := h x (by simp)
      simp at he; omega
    | succ i =>
      simp only [List.take_succ_cons, List.sum_cons, Nat.add_left_cancel_iff] at he
      have := ih (fun x hx => h x (by simp [hx])) i (by simpa using hi) he
      simp [this]

theorem sum_take_zero {l : List Nat} (h : ∀ x ∈ l, 0 < x) : ∀ i ≤ l.length, (l.take i).sum = 0 → i = 0 := by
  intro i hi he
  cases i with
  | zero => rfl
  | succ i =>
    cases l with
    | nil => simp at hi
    | cons x l =>
      have := h x (by simp)
      simp at he; omega

theorem find_eq {s : Bytes} {cs : List Nat} (h : Chars s cs) (r : Re) : find r s = (findFrom r cs.length cs).map fun p =>
    (((cs.map fun c => (encode c).length).take p.1).sum, ((cs.map fun c => (encode c).length).take p.2).sum) := by
  unfold find
  rw [runes_chars cs s.length s h (Nat.le_refl _)]
  simp only [List.length_map, List.map_map]
  congr 1
  · funext p
    simp only [← List.map_take, List.map_map]
    rfl
  · congr 1
    induction cs <;> simp_all [Function.comp_def]

theorem find_isSome {s : Bytes} {cs : List Nat} (h : Chars s cs) (r : Re) : (find r s).isSome = (findFrom r cs.length cs).isSome := by
  rw [find_eq h, Option.isSome_map]

theorem find_whole {s : Bytes} {cs : List Nat} (h : Chars s cs) (r : Re) : find r s = some (0, s.length) ↔ findFrom r cs.length cs = some (0, cs.length) := by
  have hp : ∀ x ∈ cs.map fun c => (encode c).length, 0 < x := by
    intro x hx
    obtain ⟨c, -, rfl⟩ := List.mem_map.mp hx
    exact List.length_pos_iff.mpr (encode_ne_nil c)
  have hw := widths_length h
  rw [find_eq h]
  constructor
  · intro he
    simp only [Option.map_eq_some_iff, Prod.mk.injEq] at he
    obtain ⟨⟨i, j⟩, h1, h2, h3⟩ := he
    obtain ⟨h4, h5⟩ := findFrom_bounds r _ _ _ _ h1
    have e1 := sum_take_zero hp i (by simpa using h4) h2
    have e2 := sum_take_inj hp j (by simpa using h5) (by rw [hw]; exact h3)
    rw [h1, e1, e2]; simp
  · intro he
    rw [he]
    simp only [Option.map_some, List.take_zero, List.sum_nil, Option.some.injEq, Prod.mk.injEq, true_and]
    rw [List.take_of_length_le (by simp), hw]

/-! ## The library on portable I-Regexps -/

/-- The pattern has this name between braces. -/
def Mentions (t n : List Nat) : Prop := ∃ a b, t = a ++ n%'{' :: (n ++ n%'}' :: b)

theorem Mentions.of_append {t n : List Nat} (x y : List Nat) (h : Mentions t n) : Mentions (x ++ (t ++ y)) n := by
  obtain ⟨a, b, rfl⟩ := h
  exact ⟨x ++ a, b ++ y, by simp⟩

theorem Mentions.left {t n : List Nat} (y : List Nat) (h : Mentions t n) : Mentions (t ++ y) n := h.of_append [] y

theorem Mentions.right {t n : List Nat} (x : List Nat) (h : Mentions t n) : Mentions (x ++ t) n := by
  have := h.of_append x []
  rwa [List.append_nil] at this

theorem named_items {t : List Nat} {i : Rfc9485.Item} (h : CatEsc t i) : ∀ neg n, i = .cat neg n → Mentions t n := by
  intro neg n e
  cases h with
  | cat _ => cases e; exact ⟨u%"\\p", [], by simp⟩
  | compl _ => cases e; exact ⟨u%"\\P", [], by simp⟩

theorem named_cce1 {t : List Nat} {i : Rfc9485.Item} (h : CCE1 t i) : ∀ neg n, i = .cat neg n → Mentions t n := by
  intro neg n e
  cases h with
  | char _ => cases e
  | range _ _ _ => cases e
  | cat h => exact named_items h neg n e

theorem named_cce1s {t : List Nat} {l : List Rfc9485.Item} (h : CCE1s t l) : ∀ neg n, Rfc9485.Item.cat neg n ∈ l → Mentions t n := by
  induction h with
  | nil => intro neg n h; simp at h
  | dash => intro neg n h; simp at h
  | cons h _ ih =>
    intro neg n hm
    rcases List.mem_cons.mp hm with hm | hm
    · exact (named_cce1 h neg n hm.symm).left _
    · exact (ih neg n hm).right _

theorem named_body {t : List Nat} {l : List Rfc9485.Item} (h : ClassBody t l) : ∀ neg n, Rfc9485.Item.cat neg n ∈ l → Mentions t n := by
  intro neg n hm
  cases h with
  | dash h =>
    rcases List.mem_cons.mp hm with hm | hm
    · cases hm
    · exact (named_cce1s h neg n hm).right [n%'-']
  | item h h' =>
    rcases List.mem_cons.mp hm with hm | hm
    · exact (named_cce1 h neg n hm.symm).left _
    · exact (named_cce1s h' neg n hm).right _

theorem named_class {t : List Nat} {r} (h : ClassExpr t r) : Named (Mentions t) r := by
  cases h with
  | pos h _ => exact fun neg n hm => ((named_body h neg n hm).left _).right [n%'[']
  | neg h => exact fun neg n hm => ((named_body h neg n hm).left _).right [n%'[', n%'^']

/-- The categories of an I-Regexp are mentioned in it. -/
theorem named {t : List Nat} {r} (h : IRegexp t r) : Named (Mentions t) r :=
  IRegexp.rec (motive_1 := fun t r _ => Named (Mentions t) r) (motive_2 := fun t r _ => Named (Mentions t) r)
    (motive_3 := fun t r _ => Named (Mentions t) r) (motive_4 := fun t r _ => Named (Mentions t) r)
    (fun _ ih => ih) (fun _ _ ih ih' => ⟨ih.mono fun _ h => h.left _, ih'.mono fun _ h => (h.right [n%'|']).right _⟩) trivial
    (fun _ _ ih ih' => ⟨ih.mono fun _ h => h.left _, ih'.mono fun _ h => h.right _⟩) (fun _ ih => ih) (fun _ _ ih => ih.mono fun _ h => h.left _)
    (fun _ neg n h => by simp at h) (fun neg n h => by simp at h) (fun _ neg n h => by simp at h)
    (fun h neg n hm => named_items h neg n (List.mem_singleton.mp hm).symm) (fun h => named_class h)
    (fun _ ih => ih.mono fun _ h => (h.left _).right [n%'(']) h

variable {tab : List Nat → Option (Nat → Bool)} {small : Re → Bool} {other : Bytes → Option (Bytes → Option (Nat × Nat))}

/-- Compiling a portable I-Regexp. -/
theorem regex_eq {p : Bytes} {t : List Nat} {r} (hc : Chars p t) (h : IRegexp t r) (hp : portable .out t = true) :
    regex tab small other p = if accepted tab r && small (toGo tab r) then some (find (toGo tab r)) else none := by
  unfold regex
  rw [JPath.iregexpString_eq]
  have hq := tr_chars t false false p hc
  simp only [pattern_chars _ _ _ hq (Nat.le_refl _)]
  rw [parse_iregexp h hp]
  cases accepted tab r <;> simp

/-- Searching. -/
theorem find_search {gc} {t : List Nat} (ht : TableOk (Mentions t) tab gc) {r} (h : IRegexp t r) (ha : accepted tab r = true) {s : Bytes} {cs : List Nat} (hs : Chars s cs) :
    (find (toGo tab r) s).isSome = true ↔ ∃ x w e, cs = x ++ w ++ e ∧ Lang gc r w := by
  rw [find_isSome hs, findFrom_isSome]
  have hf := ends_finds ht cs.length r ha (named h)
  constructor
  · rintro ⟨x, y, rfl, hy⟩
    obtain ⟨e, he⟩ := List.exists_mem_of_ne_nil _ hy
    obtain ⟨w, rfl, hw⟩ := (hf _ _).mp he
    exact ⟨x, w, e, by simp, hw⟩
  · rintro ⟨x, w, e, rfl, hw⟩
    exact ⟨x, w ++ e, by simp, List.ne_nil_of_mem ((hf _ _).mpr ⟨w, rfl, hw⟩)⟩

/-- The whole string: the preferred match at the start. -/
theorem find_match {gc} {t : List Nat} (ht : TableOk (Mentions t) tab gc) {r} (h : IRegexp t r) (ha : accepted tab r = true) {s : Bytes} {cs : List Nat} (hs : Chars s cs) :
    find (toGo tab r) s = some (0, s.length) ↔ (ends cs.length (toGo tab r) cs).head? = some [] := by
  rw [find_whole hs, findFrom_whole]
  intro e he
  obtain ⟨w, hw, -⟩ := (ends_finds ht cs.length r ha (named h) _ _).mp he
  have := congrArg List.length hw
  simp at this; omega

/-- The language does not depend on how the pattern is read. -/
theorem lang_unique {gc} {t : List Nat} {r r'} (h : IRegexp t r) (h' : IRegexp t r') (hp : portable .out t = true) (ht : TableOk (Mentions t) tab gc)
    (ha : accepted tab r = true) (w : List Nat) : Lang gc r w ↔ Lang gc r' w := by
  have e := parse_iregexp (tab := tab) h hp
  have e' := parse_iregexp (tab := tab) h' hp
  rw [e, ha, if_pos rfl] at e'
  have ha' : accepted tab r' = true := by
    cases hx : accepted tab r' with
    | true => rfl
    | false => rw [hx] at e'; cases e'
  rw [ha', if_pos rfl] at e'
  have e' := Except.ok.inj e'
  have f := ends_finds ht 0 r ha (named h) w []
  have f' := ends_finds ht 0 r' ha' (named h') w []
  rw [e'] at f
  simp only [List.append_nil] at f f'
  constructor
  · intro hw
    obtain ⟨w', rfl, h⟩ := f'.mp (f.mpr ⟨w, rfl, hw⟩)
    exact h
  · intro hw
    obtain ⟨w', rfl, h⟩ := f.mp (f'.mpr ⟨w, rfl, hw⟩)
    exact h

/-- The strings of a pattern. -/
theorem iregexp_some {gc} {p : Bytes} {t : List Nat} {r} (hc : Chars p t) (h : IRegexp t r) (hp : portable .out t = true) (ht : TableOk (Mentions t) tab gc)
    (ha : accepted tab r = true) : ∃ L, iregexp gc p = some L ∧ ∀ s, L s ↔ ∃ cs, Chars s cs ∧ Lang gc r cs := by
  unfold iregexp
  rw [if_pos ⟨t, r, hc, h⟩]
  refine ⟨_, rfl, fun s => ⟨?_, fun ⟨cs, h1, h2⟩ => ⟨t, r, cs, hc, h, h1, h2⟩⟩⟩
  rintro ⟨t', r', cs, h1, h2, h3, h4⟩
  obtain rfl := h1.unique hc
  exact ⟨cs, h3, (lang_unique h h2 hp ht ha cs).mpr h4⟩

end Verif.GoRe
