import Verif.JsonLex

/-!
# Where the number scanner stops

The scanner stops behind a number exactly if the next byte cannot continue it.
-/

set_option linter.unusedSimpArgs false

namespace Verif
open Rfc8259

namespace NumPrefix

theorem dropWhile_head {p : Byte → Bool} : ∀ {l : Bytes} {b : Byte} {r : Bytes}, l.dropWhile p = b :: r → p b = false
  | x :: l, b, r, h => by
    cases hx : p x with
    | true => rw [List.dropWhile_cons_of_pos hx] at h; exact dropWhile_head h
    | false =>
      rw [List.dropWhile_cons_of_neg (by simp [hx])] at h
      obtain ⟨rfl, rfl⟩ := List.cons.inj h
      exact hx

theorem digits1_inv {l ds r : Bytes} (h : Pure.digits1 .eof l = .ok (ds, r)) :
    l = ds ++ r ∧ ds ≠ [] ∧ (∀ x ∈ ds, Digit x) ∧ ∀ b r', r = b :: r' → ¬ Digit b := by
  simp only [Pure.digits1, nxt_ok (Or.inl rfl), Except.bind] at h
  split at h
  · simp at h
  · rename_i hn
    simp only [Except.ok.injEq, Prod.mk.injEq] at h
    obtain ⟨h1, h2⟩ := h
    subst h1 h2
    refine ⟨List.takeWhile_append_dropWhile.symm, hn, takeWhile_digits l, ?_⟩
    intro b r' hb hd
    have := dropWhile_head hb
    rw [(isDigit_iff b).2 hd] at this
    exact Bool.noConfusion this

theorem digits1_stable {l x r t : Bytes} {b : Byte} (h : Pure.digits1 .eof l = .ok (x, b :: r)) :
    Pure.digits1 .eof (x ++ b :: t) = .ok (x, b :: t) := by
  obtain ⟨_, h2, h3, h4⟩ := digits1_inv h
  refine digits1_complete h2 h3 ?_ (.inl rfl)
  rintro b' r' e
  obtain ⟨rfl, rfl⟩ := List.cons.inj e
  exact h4 _ _ rfl

theorem exp_stable {l x r : Bytes} {b : Byte} (t : Bytes) (h : Pure.exp .eof l = .ok (x, b :: r)) :
    Pure.exp .eof (x ++ b :: t) = .ok (x, b :: t) := by
  cases l with
  | nil => simp [Pure.exp] at h
  | cons c l =>
    simp only [Pure.exp] at h
    split at h
    · rename_i hc
      rw [nxt_ok (Or.inl rfl)] at h
      simp only [Except.bind] at h
      cases hd : Pure.digits1 .eof (Pure.sign l).2 with
      | error e => rw [hd] at h; simp [Except.map] at h
      | ok y =>
        obtain ⟨ds, r1⟩ := y
        rw [hd] at h
        simp only [Except.map, Except.ok.injEq, Prod.mk.injEq] at h
        obtain ⟨rfl, rfl⟩ := h
        have h1 := digits1_stable (t := t) hd
        obtain ⟨_, h2, h3, _⟩ := digits1_inv hd
        simp only [List.cons_append, Pure.exp, hc, if_true]
        rw [nxt_ok (Or.inl rfl)]
        simp only [Except.bind]
        have hs : Pure.sign ((Pure.sign l).1 ++ ds ++ b :: t) = ((Pure.sign l).1, ds ++ b :: t) := by
          obtain ⟨d, ds', rfl⟩ : ∃ d ds', ds = d :: ds' := by
            cases ds with
            | nil => exact absurd rfl h2
            | cons d ds' => exact ⟨d, ds', rfl⟩
          have hd' : ¬ (d = c%'-' ∨ d = c%'+') := by
            have := h3 d (by simp)
            rintro (rfl | rfl) <;> (revert this; unfold Digit; decide)
          cases l with
          | nil => simp [Pure.sign, hd']
          | cons x l =>
            by_cases hx : x = c%'-' ∨ x = c%'+'
            · simp only [Pure.sign, hx, if_true, List.cons_append, List.nil_append]
            · simp only [Pure.sign, hx, hd', if_false, List.cons_append, List.nil_append]
        rw [hs, h1]
        simp [Except.map]
    · rename_i hc
      simp only [Except.ok.injEq, Prod.mk.injEq, List.cons.injEq] at h
      obtain ⟨rfl, rfl, rfl⟩ := h
      simp only [List.nil_append, Pure.exp, hc, if_false]

theorem exp_split {l : Bytes} {y : Bytes × Bytes} (h : Pure.exp .eof l = .ok y) : l = y.1 ++ y.2 := by
  cases l with
  | nil => simp only [Pure.exp, Except.ok.injEq] at h; subst h; rfl
  | cons c l =>
    simp only [Pure.exp] at h
    split at h
    · rw [nxt_ok (Or.inl rfl)] at h
      simp only [Except.bind] at h
      cases hd : Pure.digits1 .eof (Pure.sign l).2 with
      | error e => rw [hd] at h; simp [Except.map] at h
      | ok y =>
        obtain ⟨ds, r1⟩ := y
        rw [hd] at h
        simp only [Except.map, Except.ok.injEq] at h
        subst h
        obtain ⟨h1, _⟩ := digits1_inv hd
        have : l = (Pure.sign l).1 ++ (Pure.sign l).2 := by
          cases l with
          | nil => rfl
          | cons x l => simp only [Pure.sign]; split <;> rfl
        simp only [List.cons_append, List.append_assoc, ← h1, ← this]
    · simp only [Except.ok.injEq] at h; subst h; rfl

theorem frac_stable {l x r : Bytes} {b : Byte} (t : Bytes) (h : Pure.frac .eof l = .ok (x, b :: r)) :
    Pure.frac .eof (x ++ b :: t) = .ok (x, b :: t) := by
  cases l with
  | nil => simp [Pure.frac] at h
  | cons c l =>
    simp only [Pure.frac] at h
    split at h
    · rename_i hc
      cases hd : Pure.digits1 .eof l with
      | error e => rw [hd] at h; simp [Except.bind] at h
      | ok y =>
        obtain ⟨ds, r1⟩ := y
        rw [hd] at h
        simp only [Except.bind] at h
        cases he : Pure.exp .eof r1 with
        | error e => rw [he] at h; simp [Except.map] at h
        | ok z =>
          obtain ⟨z1, z2⟩ := z
          rw [he] at h
          simp only [Except.map, Except.ok.injEq, Prod.mk.injEq] at h
          obtain ⟨rfl, rfl⟩ := h
          have h2 := exp_stable t he
          obtain ⟨_, g2, g3, g4⟩ := digits1_inv hd
          have hr1 := exp_split he
          simp only at hr1
          have h1 : Pure.digits1 .eof (ds ++ (z1 ++ b :: t)) = .ok (ds, z1 ++ b :: t) := by
            refine digits1_complete g2 g3 ?_ (.inl rfl)
            intro b' r' e
            cases z1 with
            | nil => obtain ⟨rfl, rfl⟩ := List.cons.inj e; exact g4 b r (by rw [hr1]; rfl)
            | cons w z1 => obtain ⟨rfl, rfl⟩ := List.cons.inj e; exact g4 w (z1 ++ b :: r) (by rw [hr1]; rfl)
          simp only [List.cons_append, List.append_assoc, Pure.frac, hc, if_true, h1, Except.bind, h2, Except.map]
    · rename_i hc
      have h1 := exp_stable t h
      have h2 := exp_split h
      cases x with
      | nil =>
        simp only [List.nil_append, List.cons.injEq] at h2
        rw [← h2.1] at h1 ⊢
        simp only [List.nil_append, Pure.frac, hc, if_false]
        exact h1
      | cons w x =>
        simp only [List.cons_append, List.cons.injEq] at h2
        rw [← h2.1] at h1 ⊢
        simp only [List.cons_append, Pure.frac, hc, if_false]
        exact h1

theorem frac_split {l : Bytes} {y : Bytes × Bytes} (h : Pure.frac .eof l = .ok y) : l = y.1 ++ y.2 := by
  cases l with
  | nil => simp only [Pure.frac, Except.ok.injEq] at h; subst h; rfl
  | cons c l =>
    simp only [Pure.frac] at h
    split at h
    · cases hd : Pure.digits1 .eof l with
      | error e => rw [hd] at h; simp [Except.bind] at h
      | ok y =>
        obtain ⟨ds, r1⟩ := y
        rw [hd] at h
        simp only [Except.bind] at h
        cases he : Pure.exp .eof r1 with
        | error e => rw [he] at h; simp [Except.map] at h
        | ok z =>
          rw [he] at h
          simp only [Except.map, Except.ok.injEq] at h
          subst h
          have h1 := (digits1_inv hd).1
          have h2 := exp_split he
          simp only [List.cons_append, List.append_assoc, ← h2, ← h1]
    · exact exp_split h

theorem int_stable {l x r : Bytes} {b : Byte} (t : Bytes) (h : Pure.int .eof l = .ok (x, b :: r)) :
    Pure.int .eof (x ++ b :: t) = .ok (x, b :: t) := by
  cases l with
  | nil => simp [Pure.int, Pure.chk, Except.bind] at h
  | cons c l =>
    by_cases hce : c = eofByte
    · simp [Pure.int, Pure.chk, Except.bind, hce] at h
    simp only [Pure.int, Pure.chk, hce, if_false, Except.bind] at h
    split at h
    · rename_i h0
      rw [nxt_ok (Or.inl rfl)] at h
      simp only at h
      cases hf : Pure.frac .eof l with
      | error e => rw [hf] at h; simp [Except.map] at h
      | ok z =>
        obtain ⟨z1, z2⟩ := z
        rw [hf] at h
        simp only [Except.map, Except.ok.injEq, Prod.mk.injEq] at h
        obtain ⟨rfl, rfl⟩ := h
        have h1 := frac_stable t hf
        subst h0
        have hce : (c%'0' : Byte) ≠ eofByte := by decide
        simp only [List.cons_append, Pure.int, Pure.chk, hce, if_false, Except.bind, if_true, nxt_ok (Or.inl rfl), h1, Except.map]
    · rename_i h0
      split at h
      · rename_i h9
        rw [nxt_ok (Or.inl rfl)] at h
        simp only at h
        cases hf : Pure.frac .eof (l.dropWhile isDigit) with
        | error e => rw [hf] at h; simp [Except.map] at h
        | ok z =>
          obtain ⟨z1, z2⟩ := z
          rw [hf] at h
          simp only [Except.map, Except.ok.injEq, Prod.mk.injEq] at h
          obtain ⟨rfl, rfl⟩ := h
          have h1 := frac_stable t hf
          have h2 := frac_split hf
          simp only at h2
          obtain ⟨s1, s2⟩ := span_digits (ds := l.takeWhile isDigit) (r := z1 ++ b :: t) (takeWhile_digits l) (by
            intro b' r' e hd
            have hz : ∃ r'', l.dropWhile isDigit = b' :: r'' := by
              cases z1 with
              | nil => obtain ⟨rfl, rfl⟩ := List.cons.inj e; exact ⟨_, h2⟩
              | cons w z1 => obtain ⟨rfl, rfl⟩ := List.cons.inj e; exact ⟨_, h2⟩
            obtain ⟨r'', hz⟩ := hz
            have := dropWhile_head hz
            rw [(isDigit_iff b').2 hd] at this
            exact Bool.noConfusion this)
          simp only [List.cons_append, List.append_assoc, Pure.int, Pure.chk, hce, if_false, Except.bind, h0, h9, and_self, if_true, s1, s2,
            nxt_ok (Or.inl rfl), h1, Except.map]
      · simp at h

theorem numBytes_stable {l x r : Bytes} {b : Byte} (t : Bytes) (h : Pure.numBytes .eof l = .ok (x, b :: r)) :
    Pure.numBytes .eof (x ++ b :: t) = .ok (x, b :: t) := by
  cases l with
  | nil => simp [Pure.numBytes, Pure.int, Pure.chk, Except.bind] at h
  | cons c l =>
    simp only [Pure.numBytes] at h
    split at h
    · rename_i hc
      cases hi : Pure.int .eof l with
      | error e => rw [hi] at h; simp [Except.map] at h
      | ok z =>
        obtain ⟨z1, z2⟩ := z
        rw [hi] at h
        simp only [Except.map, Except.ok.injEq, Prod.mk.injEq] at h
        obtain ⟨rfl, rfl⟩ := h
        simp only [List.cons_append, Pure.numBytes, hc, if_true, int_stable t hi, Except.map]
    · rename_i hc
      have h1 := int_stable t h
      have : ∃ x', x = c :: x' := by
        by_cases hce : c = eofByte
        · simp [Pure.int, Pure.chk, Except.bind, hce] at h
        simp only [Pure.int, Pure.chk, hce, if_false, Except.bind, nxt_ok (Or.inl rfl)] at h
        split at h
        · cases hf : Pure.frac .eof l with
          | error e => rw [hf] at h; simp [Except.map] at h
          | ok z =>
            rw [hf] at h
            simp only [Except.map, Except.ok.injEq, Prod.mk.injEq] at h
            exact ⟨_, h.1.symm⟩
        · split at h
          · cases hf : Pure.frac .eof (l.dropWhile isDigit) with
            | error e => rw [hf] at h; simp [Except.map] at h
            | ok z =>
              rw [hf] at h
              simp only [Except.map, Except.ok.injEq, Prod.mk.injEq] at h
              exact ⟨_, h.1.symm⟩
          · simp at h
      obtain ⟨x', rfl⟩ := this
      simp only [List.cons_append, Pure.numBytes, hc, if_false] at h1 ⊢
      exact h1

/-- The scanner stops only where the number cannot go on. -/
theorem stop_final {l : Bytes} {s : Scalar} {b : Byte} {r : Bytes} (h : Pure.number .eof l = .ok (s, b :: r)) :
    ¬ ∃ t, Number (s.bytes ++ b :: t) := by
  rintro ⟨t, hn⟩
  have h1 := number_complete (fin := .eof) (r := []) hn ⟨.inl rfl, by simp⟩
  simp only [Pure.number] at h h1
  cases hb : Pure.numBytes .eof l with
  | error e => rw [hb] at h; simp [Except.map] at h
  | ok y =>
    obtain ⟨x, r'⟩ := y
    rw [hb] at h
    simp only [Except.map, Except.ok.injEq, Prod.mk.injEq] at h
    obtain ⟨rfl, rfl⟩ := h
    rw [List.append_nil, numBytes_stable t hb] at h1
    simp [Except.map] at h1

theorem digit_number : Digit 0x30 := by unfold Digit; decide

/-- Where a number cannot go on the scanner stops. -/
theorem final_stop {p : Bytes} {b : Byte} (r : Bytes) (hp : Number p) (hb : ¬ ∃ t, Number (p ++ b :: t)) :
    Pure.number .eof (p ++ b :: r) = .ok ({ bytes := p, type := .num }, b :: r) := by
  obtain ⟨m, i, f, e, hm, hi, hf, he, rfl⟩ := hp
  have key : Pure.int .eof (i ++ (f ++ (e ++ b :: r))) = .ok (i ++ (f ++ e), b :: r) := by
    have hE : Pure.exp .eof (e ++ b :: r) = .ok (e, b :: r) ∧ (e ≠ [] ∨ f ≠ [] ∨ i ≠ [0x30] → ¬ Digit b) ∧ (e = [] → f = [] → b ≠ 0x2E) := by
      rcases he with rfl | ⟨c, s, ds, hc, hs, h0, hd, rfl⟩
      · have hbe : ¬ (b = c%'e' ∨ b = c%'E') := by
          intro hbe
          exact hb ⟨[0x30], m, i, f, [b, 0x30], hm, hi, hf, .inr ⟨b, [], [0x30], hbe, .inl rfl, by simp, by simpa using digit_number, rfl⟩, by simp⟩
        refine ⟨by simp only [List.nil_append, Pure.exp, hbe, if_false], ?_, ?_⟩
        · intro hx hdig
          rcases hf with rfl | ⟨ds, h0, hd, rfl⟩
          · rcases hi with rfl | ⟨d, ds, h1, h2, h3, rfl⟩
            · simp at hx
            · refine hb ⟨[], m, d :: (ds ++ [b]), [], [], hm, .inr ⟨d, ds ++ [b], h1, h2, ?_, rfl⟩, .inl rfl, .inl rfl, by simp⟩
              intro x hx; rcases List.mem_append.1 hx with h | h
              · exact h3 x h
              · rw [List.mem_singleton.1 h]; exact hdig
          · refine hb ⟨[], m, i, 0x2E :: (ds ++ [b]), [], hm, hi, .inr ⟨ds ++ [b], by simp, ?_, rfl⟩, .inl rfl, by simp⟩
            intro x hx; rcases List.mem_append.1 hx with h | h
            · exact hd x h
            · rw [List.mem_singleton.1 h]; exact hdig
        · rintro _ rfl rfl
          exact hb ⟨[0x30], m, i, [0x2E, 0x30], [], hm, hi, .inr ⟨[0x30], by simp, by simpa using digit_number, rfl⟩, .inl rfl, by simp⟩
      · have hnd : ¬ Digit b := by
          intro hdig
          refine hb ⟨[], m, i, f, c :: (s ++ (ds ++ [b])), hm, hi, hf, .inr ⟨c, s, ds ++ [b], hc, hs, by simp, ?_, rfl⟩, by simp⟩
          intro x hx; rcases List.mem_append.1 hx with h | h
          · exact hd x h
          · rw [List.mem_singleton.1 h]; exact hdig
        refine ⟨?_, fun _ => hnd, by simp⟩
        have hd1 : Pure.digits1 .eof (ds ++ b :: r) = .ok (ds, b :: r) :=
          digits1_complete h0 hd (by rintro b' r' e; obtain ⟨rfl, rfl⟩ := List.cons.inj e; exact hnd) (.inl rfl)
        have hsg : Pure.sign (s ++ (ds ++ b :: r)) = (s, ds ++ b :: r) := by
          obtain ⟨d, ds', rfl⟩ : ∃ d ds', ds = d :: ds' := by
            cases ds with
            | nil => exact absurd rfl h0
            | cons d ds' => exact ⟨d, ds', rfl⟩
          have hd' : ¬ (d = c%'-' ∨ d = c%'+') := by
            have := hd d (by simp)
            rintro (rfl | rfl) <;> (revert this; unfold Digit; decide)
          rcases hs with rfl | rfl | rfl
          · simp [Pure.sign, hd']
          · rfl
          · rfl
        have hc' : c = c%'e' ∨ c = c%'E' := hc
        simp only [List.cons_append, List.append_assoc, Pure.exp, hc', if_true, nxt_ok (Or.inl rfl), Except.bind, hsg, hd1, Except.map]
    obtain ⟨hE, hD, hP⟩ := hE
    have hF : Pure.frac .eof (f ++ (e ++ b :: r)) = .ok (f ++ e, b :: r) := by
      rcases hf with rfl | ⟨ds, h0, hd, rfl⟩
      · simp only [List.nil_append]
        have : ∀ x l, e ++ b :: r = x :: l → x ≠ c%'.' := by
          intro x l hx
          rcases he with rfl | ⟨c, s, ds, hc, hs, h0, hd, rfl⟩
          · obtain ⟨rfl, rfl⟩ := List.cons.inj hx; exact hP rfl rfl
          · obtain ⟨rfl, rfl⟩ := List.cons.inj hx; rcases hc with rfl | rfl <;> decide
        cases hx : e ++ b :: r with
        | nil => simp at hx
        | cons x l =>
          rw [hx] at hE
          simp only [Pure.frac, this x l hx, if_false]
          exact hE
      · have hd1 : Pure.digits1 .eof (ds ++ (e ++ b :: r)) = .ok (ds, e ++ b :: r) := by
          refine digits1_complete h0 hd ?_ (.inl rfl)
          intro x l hx
          rcases he with rfl | ⟨c, s, ds, hc, hs, h0, hd, rfl⟩
          · obtain ⟨rfl, rfl⟩ := List.cons.inj hx; exact hD (.inr (.inl (by simp)))
          · obtain ⟨rfl, rfl⟩ := List.cons.inj hx
            rcases hc with rfl | rfl <;> (unfold Digit; decide)
        have hdot : (0x2E : Byte) = c%'.' := rfl
        simp only [List.cons_append, Pure.frac, hdot, if_true, hd1, Except.bind, hE, Except.map]
    rcases hi with rfl | ⟨d, ds, ha, hb', hd, rfl⟩
    · have : (0x30 : Byte) ≠ eofByte := by decide
      have h0 : (0x30 : Byte) = c%'0' := rfl
      simp only [List.cons_append, List.nil_append, Pure.int, Pure.chk, this, if_false, Except.bind, h0, if_true, nxt_ok (Or.inl rfl), hF, Except.map]
    · have h3 : d ≠ eofByte := by rintro rfl; revert hb'; decide
      have h4 : d ≠ c%'0' := by rintro rfl; revert ha; decide
      have h9 : c%'1' ≤ d ∧ d ≤ c%'9' := ⟨ha, hb'⟩
      obtain ⟨h5, h6⟩ := span_digits (ds := ds) (r := f ++ (e ++ b :: r)) hd (by
        intro x l hx
        rcases hf with rfl | ⟨fs, _, _, rfl⟩
        · rcases he with rfl | ⟨c, s, ds, hc, hs, h0, hd, rfl⟩
          · obtain ⟨rfl, rfl⟩ := List.cons.inj hx; exact hD (.inr (.inr (by rintro e; simp only [List.cons.injEq] at e; exact h4 e.1)))
          · obtain ⟨rfl, rfl⟩ := List.cons.inj hx
            rcases hc with rfl | rfl <;> (unfold Digit; decide)
        · obtain ⟨rfl, rfl⟩ := List.cons.inj hx
          unfold Digit; decide)
      simp only [List.cons_append, Pure.int, Pure.chk, h3, h4, h9, if_false, Except.bind, and_self, if_true, h5, h6, nxt_ok (Or.inl rfl), hF, Except.map]
  have h2 : Pure.numBytes .eof (m ++ (i ++ (f ++ (e ++ b :: r)))) = .ok (m ++ (i ++ (f ++ e)), b :: r) := by
    rcases hm with rfl | rfl
    · have : ∃ d ds, i = d :: ds ∧ d ≠ 0x2D := by
        rcases hi with rfl | ⟨d, ds, ha, _, _, rfl⟩
        · exact ⟨_, _, rfl, by decide⟩
        · exact ⟨d, ds, rfl, by rintro rfl; revert ha; decide⟩
      obtain ⟨d, ds, rfl, hne⟩ := this
      simp only [List.nil_append, List.cons_append] at key ⊢
      simp only [Pure.numBytes, hne, if_false]
      exact key
    · simp only [List.cons_append, List.nil_append, Pure.numBytes, if_true, key, Except.map]
  simp only [List.append_assoc] at h2 ⊢
  simp [Pure.number, h2, Except.map]

end NumPrefix
end Verif
