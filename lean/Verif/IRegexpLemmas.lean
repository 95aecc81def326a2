import Verif.IRegexp
import Verif.IRegexpSpec

/-!
# The translation of I-Regexp

Helper lemmas for C48: the loop with its builder is a simple recursion.
-/

namespace Verif.JPath
open Rfc9485

/-- The translation as a recursion over the pattern. -/
def tr : Bool → Bool → Bytes → Bytes
  | _, _, [] => []
  | c, true, b :: r => b :: tr c false r
  | c, false, b :: r =>
    if b = c%'\\' then b :: tr c true r
    else if b = c%'[' then b :: tr true false r
    else if b = c%']' then b :: tr false false r
    else if b = c%'.' ∧ c = false then notNewline ++ tr c false r
    else b :: tr c false r

/-- What has been written and what is still to be written of the part that has been read. -/
def seen (ptn : Bytes) (s : IState) (i : Nat) : Bytes := s.out ++ (ptn.drop s.last).take (i - s.last)

theorem take_succ_drop (l : Bytes) (i j : Nat) (b : Byte) (h : i ≤ j) (hb : l[j]? = some b) :
    (l.drop i).take (j + 1 - i) = (l.drop i).take (j - i) ++ [b] := by
  rw [show j + 1 - i = (j - i) + 1 by omega, List.take_add_one, List.getElem?_drop, show i + (j - i) = j by omega, hb]
  rfl

theorem iloop_eq (ptn : Bytes) : ∀ (r : Bytes) (s : IState) (i : Nat), ptn.drop i = r → s.last ≤ i → (s.last = 0 → s.out = []) → i ≤ ptn.length →
    let f := iloop ptn s i r
    f.out ++ ptn.drop f.last = seen ptn s i ++ tr s.inClass s.escape r ∧ (f.last = 0 → f.out = []) := by
  intro r
  induction r with
  | nil =>
    intro s i hd hl h0 hi
    simp only [iloop, tr, List.append_nil, seen]
    refine ⟨?_, h0⟩
    have hlen : i = ptn.length := by
      have := congrArg List.length hd
      simp only [List.length_drop, List.length_nil] at this
      omega
    rw [List.take_of_length_le (by simp only [List.length_drop]; omega)]
  | cons b r ih =>
    intro s i hd hl h0 hi
    have hb : ptn[i]? = some b := by
      have := congrArg (·[0]?) hd
      simpa using this
    have hi' : i < ptn.length := by
      rcases Nat.lt_or_ge i ptn.length with h | h
      · exact h
      · rw [List.getElem?_eq_none h] at hb; cases hb
    have hd' : ptn.drop (i + 1) = r := by rw [← List.drop_drop, hd]; rfl
    have hseen : ∀ s' : IState, s'.last = s.last → s'.out = s.out → seen ptn s' (i + 1) = seen ptn s i ++ [b] := by
      intro s' e1 e2
      unfold seen
      rw [e1, e2, take_succ_drop ptn s.last i b hl hb, List.append_assoc]
    simp only [iloop]
    by_cases he : s.escape = true
    · have hs : istep ptn s i b = { s with escape := false } := by unfold istep; rw [if_pos he]
      rw [hs]
      have := ih { s with escape := false } (i + 1) hd' (by simp only; omega) h0 (by omega)
      simp only [hseen { s with escape := false } rfl rfl] at this
      rw [he]
      simp only [tr]
      simpa using this
    · have he' : s.escape = false := by simpa using he
      rw [he']
      simp only [tr]
      by_cases h1 : b = c%'\\'
      · have hs : istep ptn s i b = { s with escape := true } := by unfold istep; rw [if_neg he, if_pos h1]
        rw [hs, if_pos h1]
        have := ih { s with escape := true } (i + 1) hd' (by simp only; omega) h0 (by omega)
        simp only [hseen { s with escape := true } rfl rfl] at this
        simpa using this
      rw [if_neg h1]
      by_cases h2 : b = c%'['
      · have hs : istep ptn s i b = { s with inClass := true } := by unfold istep; rw [if_neg he, if_neg h1, if_pos h2]
        rw [hs, if_pos h2]
        have := ih { s with inClass := true } (i + 1) hd' (by simp only; omega) h0 (by omega)
        simp only [hseen { s with inClass := true } rfl rfl] at this
        simpa [he'] using this
      rw [if_neg h2]
      by_cases h3 : b = c%']'
      · have hs : istep ptn s i b = { s with inClass := false } := by unfold istep; rw [if_neg he, if_neg h1, if_neg h2, if_pos h3]
        rw [hs, if_pos h3]
        have := ih { s with inClass := false } (i + 1) hd' (by simp only; omega) h0 (by omega)
        simp only [hseen { s with inClass := false } rfl rfl] at this
        simpa [he'] using this
      rw [if_neg h3]
      by_cases h4 : b = c%'.' ∧ s.inClass = false
      · have hs : istep ptn s i b = { s with out := seen ptn s i ++ notNewline, last := i + 1 } := by
          unfold istep; rw [if_neg he, if_neg h1, if_neg h2, if_neg h3, if_pos h4]; rfl
        rw [hs, if_pos h4]
        have := ih { s with out := seen ptn s i ++ notNewline, last := i + 1 } (i + 1) hd' (Nat.le_refl _)
          (by intro h; simp only at h; omega) (by omega)
        have hnew : seen ptn { s with out := seen ptn s i ++ notNewline, last := i + 1 } (i + 1) = seen ptn s i ++ notNewline := by
          rw [seen]; simp
        simp only [hnew] at this
        simpa [he'] using this
      · have hs : istep ptn s i b = s := by unfold istep; rw [if_neg he, if_neg h1, if_neg h2, if_neg h3, if_neg h4]
        rw [hs, if_neg h4]
        have := ih s (i + 1) hd' (by omega) h0 (by omega)
        simp only [hseen s rfl rfl, he'] at this
        simpa using this

/-- The translation. -/
theorem iregexpString_eq (p : Bytes) : iregexpString p = tr false false p := by
  have h := iloop_eq p p {} 0 (by simp) (Nat.le_refl _) (fun _ => rfl) (by omega)
  simp only [seen, List.nil_append, List.drop_zero, Nat.sub_self, List.take_zero] at h
  unfold iregexpString
  simp only []
  by_cases h0 : (iloop p {} 0 p).last = 0
  · rw [if_pos h0]
    have := h.1
    rw [h.2 h0, h0] at this
    simpa using this
  · rw [if_neg h0]
    split
    · exact h.1
    · rename_i hl
      have := h.1
      rw [List.drop_eq_nil_of_le (by omega), List.append_nil] at this
      exact this

theorem tr_class {c : Bytes} (h : Class c) : ∀ p, tr true false (c ++ p) = c ++ tr true false p := by
  induction h with
  | nil => intro p; rfl
  | @esc b c _ ih => intro p; simp [tr, ih]
  | @char b c h1 h2 _ ih =>
    intro p
    simp only [List.cons_append, tr, ih]
    rw [if_neg h1, if_neg h2]
    split
    · rfl
    · rw [if_neg (by simp)]

theorem dots_tr {p q : Bytes} (h : Dots p q) : tr false false p = q := by
  induction h with
  | nil => rfl
  | dot _ ih => simp [tr, ih, notNewline]
  | esc _ ih => simp [tr, ih]
  | @cls c p q hc _ ih =>
    rw [show tr false false (c%'[' :: (c ++ c%']' :: p)) = c%'[' :: tr true false (c ++ c%']' :: p) by simp [tr], tr_class hc]
    simp [tr, ih]
  | @char b p q h1 h2 h3 _ ih =>
    simp only [tr, ih]
    rw [if_neg h2, if_neg h3]
    split
    · rfl
    · rw [if_neg (by simp [h1])]
  | lastEsc => rfl
  | @openCls c hc =>
    have := tr_class hc []
    rw [List.append_nil] at this
    rw [show tr false false (c%'[' :: c) = c%'[' :: tr true false c by simp [tr], this]
    simp [tr]
  | @openEsc c hc =>
    rw [show tr false false (c%'[' :: (c ++ [c%'\\'])) = c%'[' :: tr true false (c ++ [c%'\\']) by simp [tr], tr_class hc]
    rfl

theorem class_split : ∀ n (r : Bytes), r.length ≤ n →
    (∃ c p, r = c ++ c%']' :: p ∧ Class c) ∨ Class r ∨ ∃ c, Class c ∧ r = c ++ [c%'\\'] := by
  intro n
  induction n with
  | zero => intro r h; cases r with
    | nil => exact .inr (.inl .nil)
    | cons => simp at h
  | succ n ih =>
    intro r h
    cases r with
    | nil => exact .inr (.inl .nil)
    | cons b r =>
      simp only [List.length_cons] at h
      by_cases h1 : b = c%'\\'
      · subst h1
        cases r with
        | nil => exact .inr (.inr ⟨[], .nil, rfl⟩)
        | cons x r =>
          simp only [List.length_cons] at h
          rcases ih r (by omega) with ⟨c, p, rfl, hc⟩ | hc | ⟨c, hc, rfl⟩
          · exact .inl ⟨_, p, rfl, hc.esc (b := x)⟩
          · exact .inr (.inl hc.esc)
          · exact .inr (.inr ⟨_, hc.esc (b := x), rfl⟩)
      · by_cases h2 : b = c%']'
        · subst h2; exact .inl ⟨[], r, rfl, .nil⟩
        · rcases ih r (by omega) with ⟨c, p, rfl, hc⟩ | hc | ⟨c, hc, rfl⟩
          · exact .inl ⟨_, p, rfl, hc.char h1 h2⟩
          · exact .inr (.inl (hc.char h1 h2))
          · exact .inr (.inr ⟨_, hc.char h1 h2, rfl⟩)

theorem dots_total : ∀ n (p : Bytes), p.length ≤ n → ∃ q, Dots p q := by
  intro n
  induction n with
  | zero => intro p h; cases p with
    | nil => exact ⟨_, .nil⟩
    | cons => simp at h
  | succ n ih =>
    intro p h
    cases p with
    | nil => exact ⟨_, .nil⟩
    | cons b p =>
      simp only [List.length_cons] at h
      by_cases h1 : b = c%'\\'
      · subst h1
        cases p with
        | nil => exact ⟨_, .lastEsc⟩
        | cons x p =>
          simp only [List.length_cons] at h
          obtain ⟨q, hq⟩ := ih p (by omega)
          exact ⟨_, hq.esc⟩
      by_cases h2 : b = c%'.'
      · subst h2
        obtain ⟨q, hq⟩ := ih p (by omega)
        exact ⟨_, hq.dot⟩
      by_cases h3 : b = c%'['
      · subst h3
        rcases class_split p.length p (Nat.le_refl _) with ⟨c, r, rfl, hc⟩ | hc | ⟨c, hc, rfl⟩
        · simp only [List.length_append, List.length_cons] at h
          obtain ⟨q, hq⟩ := ih r (by omega)
          exact ⟨_, .cls hc hq⟩
        · exact ⟨_, .openCls hc⟩
        · exact ⟨_, .openEsc hc⟩
      obtain ⟨q, hq⟩ := ih p (by omega)
      exact ⟨_, .char h2 h1 h3 hq⟩

/-- Translating twice is translating once. -/
theorem tr_idem : ∀ (p : Bytes) (c e : Bool), tr c e (tr c e p) = tr c e p := by
  intro p
  induction p with
  | nil => intro c e; cases e <;> rfl
  | cons b p ih =>
    intro c e
    cases e with
    | true => simp only [tr, ih]
    | false =>
      simp only [tr]
      by_cases h1 : b = c%'\\'
      · rw [if_pos h1]; simp only [tr]; rw [if_pos h1, ih]
      rw [if_neg h1]
      by_cases h2 : b = c%'['
      · rw [if_pos h2]; simp only [tr]; rw [if_neg h1, if_pos h2, ih]
      rw [if_neg h2]
      by_cases h3 : b = c%']'
      · rw [if_pos h3]; simp only [tr]; rw [if_neg h1, if_neg h2, if_pos h3, ih]
      rw [if_neg h3]
      by_cases h4 : b = c%'.' ∧ c = false
      · rw [if_pos h4]
        obtain ⟨-, rfl⟩ := h4
        simp [tr, notNewline, ih]
      · rw [if_neg h4]; simp only [tr]; rw [if_neg h1, if_neg h2, if_neg h3, if_neg h4, ih]

/-- The cache after some compilations holds nil for the translations of the patterns that do not compile, and nothing else. -/
theorem icache_eq {R : Type} (re : Bytes → Option R) (hist : List Bytes) : ∀ (done : List Bytes) (cache : ICache R),
    (∀ q, cache q = if ∃ p ∈ done, iregexpString p = q ∧ re q = none then some none else none) →
    ∀ q, icompileAll re cache hist q = if ∃ p ∈ done ++ hist, iregexpString p = q ∧ re q = none then some none else none := by
  induction hist with
  | nil => intro done cache h q; rw [List.append_nil]; exact h q
  | cons p tl ih =>
    intro done cache h q
    rw [icompileAll, show done ++ p :: tl = (done ++ [p]) ++ tl by simp]
    refine ih (done ++ [p]) _ (fun q => ?_) q
    unfold icompile
    rcases hp : cache p with _ | r
    · simp only []
      rcases hr : re (iregexpString p) with _ | r
      · simp only []
        by_cases hq : q = iregexpString p
        · rw [if_pos hq, if_pos ⟨p, by simp, hq.symm, by rw [hq]; exact hr⟩]
        · rw [if_neg hq, h q]
          congr 1
          refine propext ⟨fun ⟨x, hx, h1, h2⟩ => ⟨x, by simp [hx], h1, h2⟩, fun ⟨x, hx, h1, h2⟩ => ?_⟩
          rcases List.mem_append.1 hx with hx | hx
          · exact ⟨x, hx, h1, h2⟩
          · simp only [List.mem_singleton] at hx
            subst hx
            exact absurd h1.symm hq
      · simp only []
        rw [h q]
        congr 1
        refine propext ⟨fun ⟨x, hx, h1, h2⟩ => ⟨x, by simp [hx], h1, h2⟩, fun ⟨x, hx, h1, h2⟩ => ?_⟩
        rcases List.mem_append.1 hx with hx | hx
        · exact ⟨x, hx, h1, h2⟩
        · simp only [List.mem_singleton] at hx
          subst hx
          rw [← h1, hr] at h2
          cases h2
    · simp only []
      rw [h q]
      congr 1
      refine propext ⟨fun ⟨x, hx, h1, h2⟩ => ⟨x, by simp [hx], h1, h2⟩, fun ⟨x, hx, h1, h2⟩ => ?_⟩
      rcases List.mem_append.1 hx with hx | hx
      · exact ⟨x, hx, h1, h2⟩
      · simp only [List.mem_singleton] at hx
        subst hx
        rw [h x] at hp
        split at hp
        · rename_i hex
          obtain ⟨y, hy, h3, h4⟩ := hex
          refine ⟨y, hy, ?_, h2⟩
          rw [← h1, ← h3, iregexpString_eq, iregexpString_eq, tr_idem]
        · cases hp

end Verif.JPath
