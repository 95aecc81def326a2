import Verif.JsonStream

/-!
# Exactly what the JSON decoder accepts
-/

set_option linter.unusedSimpArgs false
set_option linter.unusedVariables false

namespace Verif

/-- A stream of texts, separated by white space or adjacent, in which each number ends where no digit follows, except for `0` and `-0`. -/
inductive Rfc8259.ReadStream (S : Bytes → Prop) : List JVal → Bytes → Prop
  | nil {w} : Ws w → ReadStream S [] w
  | cons {w v b vs r} : Ws w → Text S v b →
      (∀ s x r', v = .scalar s → s.type = .num → r = x :: r' → Digit x → s.bytes = b%"0" ∨ s.bytes = b%"-0") →
      ReadStream S vs r → ReadStream S (v :: vs) (w ++ (b ++ r))

open Rfc8259

/-! ## Numbers end where they must -/

theorem digits1_rest {fin : RErr} {r : Bytes} {x} (h : Pure.digits1 fin r = .ok x) {d : Byte} {r' : Bytes} (hx : x.2 = d :: r') : ¬ Digit d := by
  unfold Pure.digits1 at h
  cases hn : Pure.nxt fin (r.dropWhile isDigit) with
  | error e => simp [hn, Except.bind] at h
  | ok u =>
    simp only [hn, Except.bind] at h
    split at h
    · simp at h
    · simp only [Except.ok.injEq] at h
      subst h
      simp only at hx
      have := List.head?_dropWhile_not isDigit r
      rw [hx] at this
      simp at this
      rw [← isDigit_iff]
      simp [this]

theorem exp_rest {fin : RErr} {r : Bytes} {x} (h : Pure.exp fin r = .ok x) {d : Byte} {r' : Bytes} (hx : x.2 = d :: r') (hd : Digit d) : x.1 = [] ∧ r = x.2 := by
  cases r with
  | nil => simp only [Pure.exp, Except.ok.injEq] at h; subst h; exact ⟨rfl, rfl⟩
  | cons b r =>
    simp only [Pure.exp] at h
    split at h
    · cases hn : Pure.nxt fin r with
      | error e => simp [hn, Except.bind] at h
      | ok u =>
        simp only [hn, Except.bind] at h
        cases hg : Pure.digits1 fin (Pure.sign r).2 with
        | error e => simp [hg, Except.map] at h
        | ok y =>
          simp only [hg, Except.map, Except.ok.injEq] at h
          subst h
          exact absurd hd (digits1_rest hg hx)
    · simp only [Except.ok.injEq] at h; subst h; exact ⟨rfl, rfl⟩

theorem frac_rest {fin : RErr} {r : Bytes} {x} (h : Pure.frac fin r = .ok x) {d : Byte} {r' : Bytes} (hx : x.2 = d :: r') (hd : Digit d) : x.1 = [] ∧ r = x.2 := by
  cases r with
  | nil => simp only [Pure.frac, Except.ok.injEq] at h; subst h; exact ⟨rfl, rfl⟩
  | cons b r =>
    simp only [Pure.frac] at h
    split at h
    · cases hg : Pure.digits1 fin r with
      | error e => simp [hg, Except.bind] at h
      | ok y =>
        simp only [hg, Except.bind] at h
        cases he : Pure.exp fin y.2 with
        | error e => simp [he, Except.map] at h
        | ok z =>
          simp only [he, Except.map, Except.ok.injEq] at h
          subst h
          simp only at hx
          obtain ⟨h1, h2⟩ := exp_rest he hx hd
          exact absurd hd (digits1_rest hg (h2.trans hx))
    · exact exp_rest h hx hd

theorem int_rest {fin : RErr} {r : Bytes} {x} (h : Pure.int fin r = .ok x) {d : Byte} {r' : Bytes} (hx : x.2 = d :: r') (hd : Digit d) : x.1 = b%"0" := by
  unfold Pure.int at h
  cases hc : Pure.chk fin r with
  | error e => simp [hc, Except.bind] at h
  | ok y =>
    simp only [hc, Except.bind] at h
    split at h
    · rename_i h0
      cases hn : Pure.nxt fin y.2 with
      | error e => simp [hn] at h
      | ok u =>
        simp only [hn] at h
        cases hf : Pure.frac fin y.2 with
        | error e => simp [hf, Except.map] at h
        | ok z =>
          simp only [hf, Except.map, Except.ok.injEq] at h
          subst h
          simp only at hx
          rw [(frac_rest hf hx hd).1, h0]
    · split at h
      · cases hn : Pure.nxt fin (y.2.dropWhile isDigit) with
        | error e => simp [hn] at h
        | ok u =>
          simp only [hn] at h
          cases hf : Pure.frac fin (y.2.dropWhile isDigit) with
          | error e => simp [hf, Except.map] at h
          | ok z =>
            simp only [hf, Except.map, Except.ok.injEq] at h
            subst h
            simp only at hx
            have e := (frac_rest hf hx hd).2
            have := List.head?_dropWhile_not isDigit y.2
            rw [e, hx] at this
            simp [(isDigit_iff d).2 hd] at this
      · simp at h

theorem number_rest {fin : RErr} {r : Bytes} {x} (h : Pure.number fin r = .ok x) {d : Byte} {r' : Bytes} (hx : x.2 = d :: r') (hd : Digit d) :
    x.1.bytes = b%"0" ∨ x.1.bytes = b%"-0" := by
  unfold Pure.number at h
  cases hn : Pure.numBytes fin r with
  | error e => simp [hn, Except.map] at h
  | ok y =>
    simp only [hn, Except.map, Except.ok.injEq] at h
    subst h
    simp only at hx ⊢
    cases r with
    | nil => exact .inl (int_rest hn hx hd)
    | cons b r =>
      simp only [Pure.numBytes] at hn
      split at hn
      · rename_i hb
        cases hi : Pure.int fin r with
        | error e => simp [hi, Except.map] at hn
        | ok z =>
          simp only [hi, Except.map, Except.ok.injEq] at hn
          subst hn
          simp only at hx ⊢
          rw [int_rest hi hx hd, hb]
          exact .inr rfl
      · exact .inl (int_rest hn hx hd)

theorem value_num {fin : RErr} {n : Nat} {r r' : Bytes} {s : Scalar} (h : Pure.value fin n r = ([.scalar s], some (.ok r'))) (hs : s.type = .num) :
    Pure.number fin (Pure.ws r) = .ok (s, r') := by
  cases n with
  | zero => simp [Pure.value] at h
  | succ n =>
    rw [Pure.value] at h
    cases hc : Pure.chk fin (Pure.ws r) with
    | error e => simp [hc, Pure.lift] at h
    | ok x =>
      simp only [hc, Pure.lift] at h
      split at h
      · cases hx : Pure.string fin (Pure.ws r) with
        | error e => simp [hx] at h
        | ok y =>
          have : y.1.type = .str := by
            generalize Pure.ws r = q at hx
            cases q with
            | nil => simp [Pure.string] at hx
            | cons b q =>
              simp only [Pure.string] at hx
              split at hx
              · simp at hx
              · cases hz : Pure.str fin .norm true true true q with
                | error e => simp [hz, Except.map] at hx
                | ok z => simp only [hz, Except.map, Except.ok.injEq] at hx; rw [← hx]
          simp [hx, Pure.put, Pure.done] at h
          rw [← h.1, this] at hs
          simp at hs
      · split at h
        · simp [Pure.arr, Pure.put] at h
        · split at h
          · simp [Pure.obj, Pure.put] at h
          · split at h
            · cases hx : Pure.fixed b%"true" (Pure.ws r) <;> simp [hx, Pure.put, Pure.done] at h
              rw [← h.1] at hs; simp [Json.trueScalar] at hs
            · split at h
              · cases hx : Pure.fixed b%"false" (Pure.ws r) <;> simp [hx, Pure.put, Pure.done] at h
                rw [← h.1] at hs; simp [Json.falseScalar] at hs
              · split at h
                · cases hx : Pure.fixed b%"null" (Pure.ws r) <;> simp [hx, Pure.put, Pure.done] at h
                  rw [← h.1] at hs; simp [Json.nullScalar] at hs
                · split at h
                  · cases hx : Pure.number fin (Pure.ws r) <;> simp [hx, Pure.put, Pure.done] at h
                    rename_i y
                    obtain ⟨rfl, rfl⟩ := h
                    rfl
                  · simp at h

theorem exact_produce (fin : RErr) (v n : Nat) : ∀ r ts r', Pure.produce fin v n r = (ts, some (.ok r')) →
    ∃ vs b, ReadStream LaxChars vs b ∧ ts = streamToks vs ∧ r = b ++ r' ∧ ((r' = [] ∧ fin = .eof) ∨ ∃ r'', r' = eofByte :: r'') := by
  induction n with
  | zero => intro r ts r' h; simp [Pure.produce] at h
  | succ n ih =>
    intro r ts r' h
    rw [Pure.produce] at h
    obtain ⟨w, h1, h2⟩ := ws_split r
    cases hw : Pure.ws r with
    | nil =>
      rw [hw, List.append_nil] at h2
      simp only [hw] at h
      split at h
      · simp only [Pure.done, Prod.mk.injEq, Option.some.injEq, Except.ok.injEq] at h
        obtain ⟨rfl, rfl⟩ := h
        exact ⟨[], w, .nil h1, rfl, by simp [h2], .inl ⟨rfl, by assumption⟩⟩
      · simp at h
    | cons b r1 =>
      rw [hw] at h2
      simp only [hw] at h
      by_cases hb : b = eofByte
      · subst hb
        simp only [if_true, Pure.done, Prod.mk.injEq, Option.some.injEq, Except.ok.injEq] at h
        obtain ⟨rfl, rfl⟩ := h
        exact ⟨[], w, .nil h1, rfl, h2, .inr ⟨_, rfl⟩⟩
      · simp only [hb, if_false] at h
        have hv := (sound fin v).1 (b :: r1)
        cases hx : Pure.value fin v (b :: r1) with
        | mk ts1 y =>
          rw [hx] at h hv
          match y with
          | none => simp [Pure.PRes.then] at h
          | some (.error e) => simp [Pure.PRes.then] at h
          | some (.ok r2) =>
            obtain ⟨w2, v2, b2, h3, h4, h5, h6⟩ := hv
            simp only [Pure.PRes.then] at h
            cases hy : Pure.produce fin v n r2 with
            | mk ts' y' =>
              rw [hy] at h
              simp only [Prod.mk.injEq] at h
              obtain ⟨rfl, rfl⟩ := h
              obtain ⟨vs, b3, h7, h8, h9, h10⟩ := ih _ _ _ hy
              have hww : Ws (w ++ w2) := by
                intro x hx
                rcases List.mem_append.1 hx with hx | hx
                · exact h1 x hx
                · exact h3 x hx
              refine ⟨v2 :: vs, _, .cons hww h4 ?_ h7, by simp [h8, h5], by rw [h2, h6, h9]; simp, h10⟩
              rintro s x r4 rfl hs hb3 hd
              rw [h5] at hx
              have := value_num hx hs
              exact number_rest this (by rw [h9, hb3]; rfl) hd

/-! ## Completeness -/

set_option maxRecDepth 10000 in
theorem numStart_facts (x : Byte) : x = c%'-' ∨ (c%'0' ≤ x ∧ x ≤ c%'9') →
    isSpace x = false ∧ x ≠ eofByte ∧ x ≠ c%'"' ∧ x ≠ c%'[' ∧ x ≠ c%'{' ∧ x ≠ c%'t' ∧ x ≠ c%'f' ∧ x ≠ c%'n' := by
  revert x; apply forall_byte; decide

set_option maxRecDepth 10000 in
theorem follow_facts (z : Byte) : isSpace z = true ∨ startsValue z = true → z ≠ 0x2E ∧ z ≠ 0x65 ∧ z ≠ 0x45 := by
  revert z; apply forall_byte; decide

theorem zero_followed {fin : RErr} {d : Byte} (hd : Digit d) (r : Bytes) (neg : Bool) :
    Pure.number fin ((if neg then b%"-0" else b%"0") ++ d :: r) = .ok ({ bytes := if neg then b%"-0" else b%"0", type := .num }, d :: r) := by
  have hd1 : d ≠ c%'.' := by rintro rfl; exact absurd hd (by unfold Digit; decide)
  have hd2 : ¬ (d = c%'e' ∨ d = c%'E') := by rintro (rfl | rfl) <;> exact absurd hd (by unfold Digit; decide)
  have hi : Pure.int fin (c%'0' :: d :: r) = .ok (b%"0", d :: r) := by
    have hn : Pure.nxt fin (d :: r) = .ok () := by simp [Pure.nxt]
    simp only [not_or] at hd2
    simp [Pure.int, Pure.chk, eofByte, Except.bind, hn, Pure.frac, hd1, Pure.exp, hd2.1, hd2.2, Except.map]
  cases neg
  · simp [Pure.number, Pure.numBytes, hi, Except.map]
  · simp [Pure.number, Pure.numBytes, hi, Except.map]

theorem value_number {fin : RErr} {w b r : Bytes} {x : Byte} {t : Bytes} (hw : Ws w) (hb : b = x :: t) (hx : x = c%'-' ∨ (c%'0' ≤ x ∧ x ≤ c%'9')) {s : Scalar}
    (h : Pure.number fin (b ++ r) = .ok (s, r)) (n : Nat) : Pure.value fin (n + 1) (w ++ (b ++ r)) = ([.scalar s], some (.ok r)) := by
  subst hb
  have hf : isSpace x = false ∧ x ≠ eofByte ∧ x ≠ c%'"' ∧ x ≠ c%'[' ∧ x ≠ c%'{' ∧ x ≠ c%'t' ∧ x ≠ c%'f' ∧ x ≠ c%'n' :=
    numStart_facts x hx
  rw [Pure.value, ws_append hw, List.cons_append, ws_stop hf.1]
  rw [List.cons_append] at h
  simp [Pure.chk, hf.2, Pure.lift, hx, h, Pure.put, Pure.done]

theorem exact_complete {fin : RErr} {vs : List JVal} {b rest : Bytes} (h : ReadStream LaxChars vs b)
    (hr : (rest = [] ∧ fin = .eof) ∨ ∃ r'', rest = eofByte :: r'') : ∀ v n, 2 * (b ++ rest).length + 1 ≤ v → (b ++ rest).length + 1 ≤ n →
    Pure.produce fin v n (b ++ rest) = (streamToks vs, some (.ok rest)) := by
  induction h with
  | @nil w hw =>
    intro v n hv hn
    obtain ⟨n, rfl⟩ : ∃ k, n = k + 1 := ⟨n - 1, by omega⟩
    rw [Pure.produce, ws_append hw]
    rcases hr with ⟨rfl, rfl⟩ | ⟨r'', rfl⟩
    · rfl
    · rw [ws_stop (by decide)]
      simp [Pure.done]
  | @cons w v b vs r hw ht hsep hs ih =>
    intro fv n hv hn
    obtain ⟨n, rfl⟩ : ∃ k, n = k + 1 := ⟨n - 1, by omega⟩
    obtain ⟨x, t, hb, hst⟩ := text_head ht
    have hf := startsValue_facts x hst
    have hl : 0 < b.length := by simp [hb]
    have hval : Pure.value fin fv (b ++ (r ++ rest)) = (v.toks, some (.ok (r ++ rest))) := by
      by_cases hz : ∃ s d r', v = .scalar s ∧ s.type = .num ∧ r = d :: r' ∧ Digit d
      · obtain ⟨s, d, r', rfl, hnum, rfl, hd⟩ := hz
        obtain ⟨fv, rfl⟩ : ∃ k, fv = k + 1 := ⟨fv - 1, by omega⟩
        have h0 := hsep s d r' rfl hnum rfl hd
        have hbs : b = s.bytes ∧ s = { bytes := s.bytes, type := .num } := by
          cases ht <;> simp_all [strScalar]
        rw [hbs.1]
        rw [hbs.2]
        simp only
        have e : ∃ neg : Bool, s.bytes = if neg then b%"-0" else b%"0" := by
          rcases h0 with h0 | h0
          · exact ⟨false, h0⟩
          · exact ⟨true, h0⟩
        obtain ⟨neg, e⟩ := e
        rw [e]
        have := zero_followed (fin := fin) hd (r' ++ rest) neg
        cases neg
        · exact value_number (w := []) Ws.nil (b := b%"0") rfl (by decide) this fv
        · exact value_number (w := []) Ws.nil (b := b%"-0") rfl (by decide) this fv
      · have := complete (fin := fin) ht [] (r ++ rest) fv Ws.nil (by
          intro hnum
          have hv : ∃ s, v = .scalar s ∧ s.type = .num := by
            cases v with
            | scalar s => exact ⟨s, rfl, hnum⟩
            | arr _ _ => exact hnum.elim
            | obj _ _ => exact hnum.elim
          obtain ⟨s, rfl, hnum⟩ := hv
          refine ⟨?_, ?_⟩
          · rcases hr with ⟨_, h⟩ | ⟨_, rfl⟩
            · exact .inl h
            · exact .inr (by simp)
          · intro y r' he
            cases r with
            | nil =>
              rcases hr with ⟨rfl, _⟩ | ⟨_, rfl⟩
              · simp at he
              · simp at he
                rw [← he.1]
                unfold Digit; decide
            | cons z r =>
              simp only [List.cons_append, List.cons.injEq] at he
              obtain ⟨rfl, _⟩ := he
              refine ⟨fun hd => hz ⟨s, z, r, rfl, hnum, rfl, hd⟩, ?_⟩
              have key : isSpace z = true ∨ startsValue z = true := by
                generalize hz' : z :: r = zr at hs
                cases hs with
                | nil hw' => left; exact (isSpace_iff z).2 (hw' z (by rw [← hz']; simp))
                | @cons w' v' b' vs' r'' hw' ht' _ _ =>
                  cases w' with
                  | nil =>
                    obtain ⟨x', t', hb', hst'⟩ := text_head ht'
                    rw [hb'] at hz'
                    simp at hz'
                    rw [hz'.1]; exact .inr hst'
                  | cons a w' =>
                    simp at hz'
                    rw [hz'.1]; exact .inl ((isSpace_iff a).2 (hw' a (by simp)))
              exact follow_facts z key)
          (by simp only [List.length_append, List.length_cons, List.length_nil] at hv ⊢; omega)
        simpa using this
    have hws : Pure.ws (w ++ (b ++ r) ++ rest) = x :: (t ++ (r ++ rest)) := by
      rw [List.append_assoc, List.append_assoc, ws_append hw, hb, List.cons_append, ws_stop hf.1]
    rw [Pure.produce, hws]
    simp only [hf.2.1, if_false]
    rw [hb, List.cons_append] at hval
    rw [hval]
    have hrec := ih fv n (by simp only [List.length_append] at hv ⊢; omega) (by simp only [List.length_append] at hn ⊢; omega)
    simp [Pure.PRes.then, hrec]

end Verif
