import Verif.JsonLex

/-!
# The decoder and the grammar (helper lemmas)
-/

set_option linter.unusedVariables false
set_option linter.unusedSimpArgs false

namespace Verif
open Rfc8259 JVal.toks

/-! ## Soundness -/

/-- What a run of the value parser shows. -/
def SoundV (r : Bytes) (x : Pure.PRes) : Prop :=
  match x with
  | (ts, some (.ok r')) => ∃ w v b, Ws w ∧ Text LaxChars v b ∧ ts = v.toks ∧ r = w ++ (b ++ r')
  | (ts, some (.error _)) => ∃ v b more, Text LaxChars v b ∧ v.toks = ts ++ more
  | (_, none) => True

/-- What a run of the array loop shows. -/
def SoundI (r : Bytes) (x : Pure.PRes) : Prop :=
  match x with
  | (ts, some (.ok r')) => ∃ vs b, Items LaxChars vs b ∧ ts = itemToks vs ++ [.endArr] ∧ r = b ++ 0x5D :: r'
  | (ts, some (.error _)) => ∃ vs b more, Items LaxChars vs b ∧ itemToks vs ++ [.endArr] = ts ++ more
  | (_, none) => True

/-- What a run of the object loop shows. -/
def SoundM (r : Bytes) (x : Pure.PRes) : Prop :=
  match x with
  | (ts, some (.ok r')) => ∃ ms b, Members LaxChars ms b ∧ ts = memberToks ms ++ [.endObj] ∧ r = b ++ 0x7D :: r'
  | (ts, some (.error _)) => ∃ ms b more, Members LaxChars ms b ∧ memberToks ms ++ [.endObj] = ts ++ more
  | (_, none) => True

theorem wsPair (r : Bytes) : ∃ w, Ws w ∧ r = w ++ Pure.ws r := ws_split r

theorem Ws.nil : Ws [] := by intro b h; simp at h

theorem items_cons_ws {S : Bytes → Prop} {vs : List JVal} {b : Bytes} (h : Items S vs b) {w : Bytes} (hw : Ws w) :
    Items S vs (w ++ b) := by
  have hww : ∀ {w1 : Bytes}, Ws w1 → Ws (w ++ w1) := by
    intro w1 h1 x hx
    rcases List.mem_append.1 hx with hx | hx
    · exact hw x hx
    · exact h1 x hx
  cases h with
  | one h1 h2 h3 => rw [← List.append_assoc]; exact .one (hww h1) h2 h3
  | more h1 h2 h3 h4 => rw [← List.append_assoc]; exact .more (hww h1) h2 h3 h4

theorem members_cons_ws {S : Bytes → Prop} {vs : List (Scalar × JVal)} {b : Bytes} (h : Members S vs b) {w : Bytes} (hw : Ws w) :
    Members S vs (w ++ b) := by
  have hww : ∀ {w1 : Bytes}, Ws w1 → Ws (w ++ w1) := by
    intro w1 h1 x hx
    rcases List.mem_append.1 hx with hx | hx
    · exact hw x hx
    · exact h1 x hx
  cases h with
  | one h1 h2 h3 h4 h5 h6 => rw [← List.append_assoc]; exact .one (hww h1) h2 h3 h4 h5 h6
  | more h1 h2 h3 h4 h5 h6 h7 => rw [← List.append_assoc]; exact .more (hww h1) h2 h3 h4 h5 h6 h7

theorem emptyString : Text LaxChars (.scalar (strScalar [])) [0x22, 0x22] := .str .nil

theorem soundV_chk {fin : RErr} {r : Bytes} {f : Byte × Bytes → Pure.PRes}
    (h : ∀ w b r', Ws w → r = w ++ b :: r' → Pure.ws r = b :: r' → b ≠ eofByte → SoundV r (f (b, r'))) :
    SoundV r (Pure.lift (Pure.chk fin (Pure.ws r)) f) := by
  cases hc : Pure.chk fin (Pure.ws r) with
  | error e => exact ⟨_, _, _, emptyString, rfl⟩
  | ok x =>
    obtain ⟨b, r'⟩ := x
    obtain ⟨hw, hne⟩ := Pure.chk_ok hc
    obtain ⟨w, h1, h2⟩ := ws_split r
    rw [hw] at h2
    exact h w b r' h1 h2 hw hne

theorem scalarV_sound {w b r r' : Bytes} {s : Scalar} (hw : Ws w) (ht : Text LaxChars (.scalar s) b)
    (hr : r = w ++ (b ++ r')) : SoundV r (Pure.put (.scalar s) (Pure.done r')) :=
  ⟨w, _, b, hw, ht, rfl, hr⟩

theorem sound (fin : RErr) (n : Nat) :
    (∀ r, SoundV r (Pure.value fin n r)) ∧ (∀ r, SoundI r (Pure.items fin n r)) ∧
    (∀ r, SoundM r (Pure.members fin n r)) := by
  induction n with
  | zero => exact ⟨fun _ => trivial, fun _ => trivial, fun _ => trivial⟩
  | succ n ih =>
    obtain ⟨ihv, ihi, ihm⟩ := ih
    refine ⟨?_, ?_, ?_⟩
    · intro r
      rw [Pure.value]
      refine soundV_chk fun w b r' hw hr hws hne => ?_
      have hfix : ∀ (xs : Bytes) (s : Scalar), Text LaxChars (.scalar s) xs →
          SoundV r (Pure.lift (Pure.fixed xs (Pure.ws r)) fun r => Pure.put (.scalar s) (Pure.done r)) := by
        intro xs s ht
        cases hf : Pure.fixed xs (Pure.ws r) with
        | error e => exact ⟨_, _, _, emptyString, rfl⟩
        | ok r1 =>
          have := Pure.fixed_split hf
          exact scalarV_sound hw ht (by rw [hr, ← hws, this])
      simp only
      split
      · cases hs : Pure.string fin (Pure.ws r) with
        | error e => exact ⟨_, _, _, emptyString, rfl⟩
        | ok x =>
          obtain ⟨c, h1, h2, h3⟩ := string_sound hs
          simp only [Pure.lift, h2]
          refine scalarV_sound hw (.str h1) ?_
          rw [hr, ← hws, h3]; simp
      split
      · rename_i hb
        subst hb
        rw [Pure.arr]
        cases hc : Pure.chk fin (Pure.ws r') with
        | error e => exact ⟨.arr [] false, _, _, .arr0 Ws.nil, rfl⟩
        | ok x =>
          obtain ⟨b1, r1⟩ := x
          obtain ⟨hw1, hne1⟩ := Pure.chk_ok hc
          obtain ⟨w1, h1, h2⟩ := ws_split r'
          simp only [Pure.lift]
          split
          · rename_i hb1
            refine ⟨w, .arr [] false, _, hw, .arr0 h1, rfl, ?_⟩
            rw [hr, h2, hw1, hb1]; simp
          · have := ihi (Pure.ws r')
            revert this
            cases hx : Pure.items fin n (Pure.ws r') with
            | mk ts y =>
              match y with
              | none => intro _; trivial
              | some (.error e) =>
                rintro ⟨vs, b3, more, h0, h⟩
                exact ⟨.arr vs false, _, more, .arr h0, by simp [Pure.put, elisionToks, h]⟩
              | some (.ok r2) =>
                rintro ⟨vs, b2, h3, h4, h5⟩
                refine ⟨w, .arr vs false, _, hw, .arr (items_cons_ws h3 h1), by simp [h4, elisionToks], ?_⟩
                rw [hr, h2, h5]; simp
      split
      · rename_i hb
        subst hb
        rw [Pure.obj]
        cases hc : Pure.chk fin (Pure.ws r') with
        | error e => exact ⟨.obj [] false, _, _, .obj0 Ws.nil, rfl⟩
        | ok x =>
          obtain ⟨b1, r1⟩ := x
          obtain ⟨hw1, hne1⟩ := Pure.chk_ok hc
          obtain ⟨w1, h1, h2⟩ := ws_split r'
          simp only [Pure.lift]
          split
          · rename_i hb1
            refine ⟨w, .obj [] false, _, hw, .obj0 h1, rfl, ?_⟩
            rw [hr, h2, hw1, hb1]; simp
          · have := ihm (Pure.ws r')
            revert this
            cases hx : Pure.members fin n (Pure.ws r') with
            | mk ts y =>
              match y with
              | none => intro _; trivial
              | some (.error e) =>
                rintro ⟨vs, b3, more, h0, h⟩
                exact ⟨.obj vs false, _, more, .obj h0, by simp [Pure.put, elisionToks, h]⟩
              | some (.ok r2) =>
                rintro ⟨vs, b2, h3, h4, h5⟩
                refine ⟨w, .obj vs false, _, hw, .obj (members_cons_ws h3 h1), by simp [h4, elisionToks], ?_⟩
                rw [hr, h2, h5]; simp
      split
      · exact hfix _ _ .true
      split
      · exact hfix _ _ .false
      split
      · exact hfix _ _ .null
      split
      · cases hs : Pure.number fin (Pure.ws r) with
        | error e => exact ⟨_, _, _, emptyString, rfl⟩
        | ok x =>
          obtain ⟨h1, h2, h3⟩ := number_sound hs
          simp only [Pure.lift]
          rw [h2]
          refine scalarV_sound hw (.num h1) ?_
          rw [hr, ← hws]; exact congrArg _ h3
      · exact ⟨_, _, _, emptyString, rfl⟩
    · intro r
      rw [Pure.items]
      have := ihv r
      revert this
      cases hx : Pure.value fin n r with
      | mk ts y =>
        match y with
        | none => intro _; trivial
        | some (.error e) =>
          rintro ⟨v, b3, more, h0, h⟩
          exact ⟨[v], _, more ++ [.endArr], .one Ws.nil h0 Ws.nil, by simp [h]⟩
        | some (.ok r2) =>
          rintro ⟨w, v, b, h1, h2, rfl, h4⟩
          simp only [Pure.PRes.then]
          obtain ⟨w', h5, h6⟩ := ws_split r2
          cases hc : Pure.chk fin (Pure.ws r2) with
          | error e => exact ⟨[v], _, [.endArr], .one Ws.nil h2 Ws.nil, by simp [Pure.lift]⟩
          | ok x =>
            obtain ⟨b1, r1⟩ := x
            obtain ⟨hw1, hne1⟩ := Pure.chk_ok hc
            rw [hw1] at h6
            simp only [Pure.lift]
            split
            · rename_i hb; subst hb
              refine ⟨[v], _, .one h1 h2 h5, by simp [Pure.put, Pure.done], ?_⟩
              rw [h4, h6]; simp
            split
            · rename_i hb; subst hb
              have := ihi r1
              revert this
              cases hy : Pure.items fin n r1 with
              | mk ts' y' =>
                match y' with
                | none => intro _; trivial
                | some (.error e) =>
                  rintro ⟨vs, b3, more, h0, h⟩
                  exact ⟨v :: vs, _, more, .more Ws.nil h2 Ws.nil h0, by simp [h]⟩
                | some (.ok r3) =>
                  rintro ⟨vs, b2, h7, h8, h9⟩
                  refine ⟨v :: vs, _, .more h1 h2 h5 h7, by simp [h8], ?_⟩
                  rw [h4, h6, h9]; simp
            · exact ⟨[v], _, [.endArr], .one Ws.nil h2 Ws.nil, by simp⟩
    · intro r
      rw [Pure.members]
      cases hk : Pure.string fin r with
      | error e => exact ⟨_, _, _, .one Ws.nil .nil Ws.nil Ws.nil emptyString Ws.nil, rfl⟩
      | ok k =>
        obtain ⟨c, hc1, hc2, hc3⟩ := string_sound hk
        obtain ⟨w1, hw1, hw2⟩ := ws_split k.2
        simp only [Pure.lift, hc2]
        cases hc : Pure.chk fin (Pure.ws k.2) with
        | error e => exact ⟨_, _, _, .one Ws.nil hc1 Ws.nil Ws.nil emptyString Ws.nil, rfl⟩
        | ok x =>
          obtain ⟨b1, r1⟩ := x
          obtain ⟨hw3, hne1⟩ := Pure.chk_ok hc
          rw [hw3] at hw2
          simp only
          split
          · exact ⟨_, _, _, .one Ws.nil hc1 Ws.nil Ws.nil emptyString Ws.nil, rfl⟩
          rename_i hb
          simp only [ne_eq, Decidable.not_not] at hb
          subst hb
          have := ihv r1
          revert this
          cases hx : Pure.value fin n r1 with
          | mk ts y =>
            match y with
            | none => intro _; trivial
            | some (.error e) =>
              rintro ⟨v, b3, more, h0, h⟩
              exact ⟨_, _, more ++ [.endObj], .one Ws.nil hc1 Ws.nil Ws.nil h0 Ws.nil, by simp [h, Pure.put, Pure.PRes.then]⟩
            | some (.ok r2) =>
              rintro ⟨w, v, b, h1, h2, rfl, h4⟩
              simp only [Pure.PRes.then]
              obtain ⟨w', h5, h6⟩ := ws_split r2
              cases hc : Pure.chk fin (Pure.ws r2) with
              | error e => exact ⟨_, _, [.endObj], .one Ws.nil hc1 Ws.nil Ws.nil h2 Ws.nil, by simp [Pure.put]⟩
              | ok x =>
                obtain ⟨b1, r3⟩ := x
                obtain ⟨hw4, hne2⟩ := Pure.chk_ok hc
                rw [hw4] at h6
                simp only
                split
                · rename_i hb; subst hb
                  refine ⟨_, _, .one Ws.nil hc1 hw1 h1 h2 h5, by simp [Pure.put, Pure.done], ?_⟩
                  rw [hc3, hw2, h4, h6]; simp
                split
                · rename_i hb; subst hb
                  obtain ⟨w'', h7, h8⟩ := ws_split r3
                  cases hc' : Pure.chk fin (Pure.ws r3) with
                  | error e => exact ⟨_, _, [.endObj], .one Ws.nil hc1 Ws.nil Ws.nil h2 Ws.nil, by simp [Pure.put]⟩
                  | ok x =>
                    simp only
                    have := ihm (Pure.ws r3)
                    revert this
                    cases hy : Pure.members fin n (Pure.ws r3) with
                    | mk ts' y' =>
                      match y' with
                      | none => intro _; trivial
                      | some (.error e) =>
                        rintro ⟨ms, b3, more, h0, h⟩
                        exact ⟨_, _, more, .more Ws.nil hc1 Ws.nil Ws.nil h2 Ws.nil h0, by simp [h, Pure.put]⟩
                      | some (.ok r4) =>
                        rintro ⟨ms, b2, h9, h10, h11⟩
                        refine ⟨_, _, .more Ws.nil hc1 hw1 h1 h2 h5 (members_cons_ws h9 h7), by simp [h10, Pure.put], ?_⟩
                        rw [hc3, hw2, h4, h6, h8, h11]; simp
                · exact ⟨_, _, [.endObj], .one Ws.nil hc1 Ws.nil Ws.nil h2 Ws.nil, by simp [Pure.put]⟩

/-- Soundness of the stream parser. -/
theorem sound_produce (fin : RErr) (v n : Nat) : ∀ r,
    match Pure.produce fin v n r with
    | (ts, some (.ok r')) => ∃ vs b, Stream LaxChars vs b ∧ ts = streamToks vs ∧ r = b ++ r' ∧
        ((r' = [] ∧ fin = .eof) ∨ ∃ r'', r' = eofByte :: r'')
    | (ts, some (.error _)) => ∃ vs b more, Stream LaxChars vs b ∧ streamToks vs = ts ++ more
    | (_, none) => True := by
  induction n with
  | zero => intro r; trivial
  | succ n ih =>
    intro r
    rw [Pure.produce]
    obtain ⟨w, h1, h2⟩ := ws_split r
    cases hw : Pure.ws r with
    | nil =>
      rw [hw, List.append_nil] at h2
      simp only
      split
      all_goals rename_i heq
      · split at heq
        · simp only [Pure.done, Prod.mk.injEq, Option.some.injEq, Except.ok.injEq] at heq
          obtain ⟨rfl, rfl⟩ := heq
          exact ⟨[], w, .nil h1, rfl, by simp [h2], .inl ⟨rfl, by assumption⟩⟩
        · simp at heq
      · split at heq
        · simp [Pure.done] at heq
        · simp only [Prod.mk.injEq] at heq
          obtain ⟨rfl, _⟩ := heq
          exact ⟨[], [], [], .nil Ws.nil, rfl⟩
      · trivial
    | cons b r1 =>
      rw [hw] at h2
      simp only
      by_cases hb : b = eofByte
      · subst hb
        simp only [if_true, Pure.done]
        exact ⟨[], w, .nil h1, rfl, h2, .inr ⟨_, rfl⟩⟩
      · simp only [hb, if_false]
        have hv := (sound fin v).1 (b :: r1)
        revert hv
        cases hx : Pure.value fin v (b :: r1) with
        | mk ts y =>
          match y with
          | none => intro _; trivial
          | some (.error e) =>
            rintro ⟨v, b3, more, h0, h⟩
            exact ⟨[v], _, more, .cons Ws.nil h0 (.nil Ws.nil), by simpa using h⟩
          | some (.ok r2) =>
            rintro ⟨w2, v2, b2, h3, h4, rfl, h6⟩
            simp only [Pure.PRes.then]
            have := ih r2
            revert this
            cases hy : Pure.produce fin v n r2 with
            | mk ts' y' =>
              match y' with
              | none => intro _; trivial
              | some (.error e) =>
                rintro ⟨vs, b3, more, h0, h⟩
                exact ⟨v2 :: vs, _, more, .cons Ws.nil h4 h0, by simp [h]⟩
              | some (.ok r4) =>
                rintro ⟨vs, b3, h7, h8, h9, h10⟩
                have hww : Ws (w ++ w2) := by
                  intro x hx
                  rcases List.mem_append.1 hx with hx | hx
                  · exact h1 x hx
                  · exact h3 x hx
                refine ⟨v2 :: vs, _, .cons hww h4 h7, by simp [h8], ?_, h10⟩
                rw [h2, h6, h9]; simp

/-! ## Completeness -/

/-- The value is a number. -/
def isNum : JVal → Prop
  | .scalar s => s.type = .num
  | _ => False

/-- Bytes that start a value. -/
def startsValue (b : Byte) : Bool :=
  b == 0x22 || b == 0x5B || b == 0x7B || b == 0x74 || b == 0x66 || b == 0x6E || b == 0x2D || isDigit b

theorem text_head {S : Bytes → Prop} {v : JVal} {b : Bytes} (h : Text S v b) : ∃ x t, b = x :: t ∧ startsValue x = true := by
  cases h with
  | num hn =>
    obtain ⟨d, r, rfl, h⟩ := number_head hn
    refine ⟨d, r, rfl, ?_⟩
    rcases h with rfl | h
    · decide
    · simp [startsValue, (isDigit_iff d).2 h]
  | true => exact ⟨_, _, rfl, by decide⟩
  | false => exact ⟨_, _, rfl, by decide⟩
  | null => exact ⟨_, _, rfl, by decide⟩
  | str _ => exact ⟨_, _, rfl, by decide⟩
  | arr0 _ => exact ⟨_, _, rfl, by decide⟩
  | arr _ => exact ⟨_, _, rfl, by decide⟩
  | obj0 _ => exact ⟨_, _, rfl, by decide⟩
  | obj _ => exact ⟨_, _, rfl, by decide⟩

set_option maxRecDepth 10000 in
theorem startsValue_facts (b : Byte) : startsValue b = true →
    isSpace b = false ∧ b ≠ eofByte ∧ b ≠ 0x5D ∧ b ≠ 0x7D ∧ b ≠ 0x2C := by
  revert b
  apply forall_byte
  decide

theorem ws_ws (r : Bytes) : Pure.ws (Pure.ws r) = Pure.ws r := by
  obtain ⟨w, h1, h2⟩ := ws_split r
  have := ws_append h1 (Pure.ws r)
  rw [← h2] at this
  exact this.symm

theorem value_ws (fin : RErr) (n : Nat) (r : Bytes) : Pure.value fin n (Pure.ws r) = Pure.value fin n r := by
  cases n with
  | zero => rfl
  | succ n => rw [Pure.value, Pure.value, ws_ws]

theorem items_ws (fin : RErr) (n : Nat) (r : Bytes) : Pure.items fin n (Pure.ws r) = Pure.items fin n r := by
  cases n with
  | zero => rfl
  | succ n => rw [Pure.items, Pure.items, value_ws]

theorem ws_text {S : Bytes → Prop} {v : JVal} {b w : Bytes} (hw : Ws w) (h : Text S v b) (r : Bytes) :
    ∃ x t, b = x :: t ∧ Pure.ws (w ++ (b ++ r)) = x :: (t ++ r) ∧ startsValue x = true := by
  obtain ⟨x, t, rfl, hx⟩ := text_head h
  refine ⟨x, t, rfl, ?_, hx⟩
  rw [ws_append hw]
  exact ws_stop (startsValue_facts x hx).1 _

theorem chk_cons {fin : RErr} {b : Byte} (h : b ≠ eofByte) (r : Bytes) : Pure.chk fin (b :: r) = .ok (b, r) := by
  simp [Pure.chk, h]

theorem chk_ws {fin : RErr} {w r : Bytes} {b : Byte} (hw : Ws w) (h1 : isSpace b = false) (h2 : b ≠ eofByte) :
    Pure.chk fin (Pure.ws (w ++ b :: r)) = .ok (b, r) := by
  rw [ws_append hw, ws_stop h1]
  simp [Pure.chk, h2]

theorem numEnd_ws {fin : RErr} {w r : Bytes} {b : Byte} (hw : Ws w) (hb : b = 0x2C ∨ b = 0x5D ∨ b = 0x7D) : NumEnd fin (w ++ b :: r) := by
  refine ⟨.inr (by simp), ?_⟩
  intro c r' h
  have : (c = 0x20 ∨ c = 0x09 ∨ c = 0x0A ∨ c = 0x0D) ∨ c = b := by
    cases w with
    | nil => simp at h; exact .inr h.1.symm
    | cons x w => simp at h; rw [← h.1]; exact .inl (hw x (by simp))
  rcases this with (rfl | rfl | rfl | rfl) | rfl
  · unfold Digit; decide
  · unfold Digit; decide
  · unfold Digit; decide
  · unfold Digit; decide
  · rcases hb with rfl | rfl | rfl <;> (unfold Digit; decide)

mutual

theorem complete {fin : RErr} : ∀ {v : JVal} {b : Bytes}, Text LaxChars v b → ∀ (w r : Bytes) (n : Nat), Ws w →
    (isNum v → NumEnd fin r) → 2 * (w ++ (b ++ r)).length + 1 ≤ n →
    Pure.value fin n (w ++ (b ++ r)) = (v.toks, some (.ok r))
  | _, _, .true => by
    intro w r n hw hn hf
    obtain ⟨n, rfl⟩ : ∃ k, n = k + 1 := ⟨n - 1, by omega⟩
    rw [Pure.value, ws_append hw, List.cons_append, ws_stop (by decide)]
    have := fixed_complete b%"true" r
    simp only [List.cons_append, List.nil_append] at this
    simp [Pure.chk, Pure.lift, eofByte, this, Pure.put, Pure.done, Json.trueScalar]
  | _, _, .false => by
    intro w r n hw hn hf
    obtain ⟨n, rfl⟩ : ∃ k, n = k + 1 := ⟨n - 1, by omega⟩
    rw [Pure.value, ws_append hw, List.cons_append, ws_stop (by decide)]
    have := fixed_complete b%"false" r
    simp only [List.cons_append, List.nil_append] at this
    simp [Pure.chk, Pure.lift, eofByte, this, Pure.put, Pure.done, Json.falseScalar]
  | _, _, .null => by
    intro w r n hw hn hf
    obtain ⟨n, rfl⟩ : ∃ k, n = k + 1 := ⟨n - 1, by omega⟩
    rw [Pure.value, ws_append hw, List.cons_append, ws_stop (by decide)]
    have := fixed_complete b%"null" r
    simp only [List.cons_append, List.nil_append] at this
    simp [Pure.chk, Pure.lift, eofByte, this, Pure.put, Pure.done, Json.nullScalar]
  | _, _, .num (b := b) h => by
    intro w r n hw hn hf
    obtain ⟨n, rfl⟩ : ∃ k, n = k + 1 := ⟨n - 1, by omega⟩
    have hc := number_complete h (hn rfl)
    obtain ⟨d, t, rfl, hd⟩ := number_head h
    have hs : startsValue d = true := by
      rcases hd with rfl | hd
      · decide
      · simp [startsValue, (isDigit_iff d).2 hd]
    have hx := startsValue_facts d hs
    have hd' : d = 0x2D ∨ (0x30 ≤ d ∧ d ≤ 0x39) := hd
    have hne : d ≠ 0x22 ∧ d ≠ 0x5B ∧ d ≠ 0x7B ∧ d ≠ 0x74 ∧ d ≠ 0x66 ∧ d ≠ 0x6E := by
      rcases hd with rfl | hd
      · decide
      · refine ⟨?_, ?_, ?_, ?_, ?_, ?_⟩ <;> (rintro rfl; revert hd; unfold Digit; decide)
    rw [Pure.value, ws_append hw, List.cons_append, ws_stop hx.1]
    rw [List.cons_append] at hc
    simp [Pure.chk, Pure.lift, hx.2.1, hne, hd', hc, Pure.put, Pure.done]
  | _, _, .str (c := c) h => by
    intro w r n hw hn hf
    obtain ⟨n, rfl⟩ : ∃ k, n = k + 1 := ⟨n - 1, by omega⟩
    rw [Pure.value, ws_append hw, List.cons_append, ws_stop (by decide)]
    have := string_complete (fin := fin) h r
    simp [Pure.chk, Pure.lift, eofByte, this, Pure.put, Pure.done]
  | _, _, .arr0 (w := w0) h => by
    intro w r n hw hn hf
    obtain ⟨n, rfl⟩ : ∃ k, n = k + 1 := ⟨n - 1, by omega⟩
    rw [Pure.value, ws_append hw, List.cons_append, ws_stop (by decide)]
    have := chk_ws (fin := fin) (r := r) h (show isSpace 0x5D = false by decide) (by decide)
    rw [chk_cons (by decide)]
    simp [Pure.lift, Pure.arr, elisionToks, this, Pure.put, Pure.done]
  | _, _, .obj0 (w := w0) h => by
    intro w r n hw hn hf
    obtain ⟨n, rfl⟩ : ∃ k, n = k + 1 := ⟨n - 1, by omega⟩
    rw [Pure.value, ws_append hw, List.cons_append, ws_stop (by decide)]
    have := chk_ws (fin := fin) (r := r) h (show isSpace 0x7D = false by decide) (by decide)
    rw [chk_cons (by decide)]
    simp [Pure.lift, Pure.obj, elisionToks, this, Pure.put, Pure.done]
  | _, _, .arr (vs := vs) (b := b) h => by
    intro w r n hw hn hf
    obtain ⟨n, rfl⟩ : ∃ k, n = k + 1 := ⟨n - 1, by omega⟩
    rw [Pure.value, ws_append hw, List.cons_append, ws_stop (by decide)]
    have hi := completeI (fin := fin) h r n (by
      simp only [List.length_append, List.length_cons, List.length_nil] at hf ⊢; omega)
    have hh : ∃ x t, Pure.ws (b ++ 0x5D :: r) = x :: t ∧ startsValue x = true := by
      cases h with
      | one h1 h2 h3 =>
        rw [List.append_assoc, List.append_assoc]
        obtain ⟨x, t, _, h5, h6⟩ := ws_text h1 h2 _
        exact ⟨x, _, h5, h6⟩
      | more h1 h2 h3 h4 =>
        rw [List.append_assoc, List.append_assoc]
        obtain ⟨x, t, _, h5, h6⟩ := ws_text h1 h2 _
        exact ⟨x, _, h5, h6⟩
    obtain ⟨x, t, hx, hsv⟩ := hh
    have hfx := startsValue_facts x hsv
    have hc : Pure.chk fin (Pure.ws (b ++ 0x5D :: r)) = .ok (x, t) := by rw [hx]; simp [Pure.chk, hfx.2.1]
    simp only [List.append_assoc, List.cons_append, List.nil_append]
    rw [chk_cons (by decide)]
    simp [Pure.lift, Pure.arr, elisionToks, hc, hfx.2.2.1, Pure.put, items_ws, hi]
  | _, _, .obj (ms := ms) (b := b) h => by
    intro w r n hw hn hf
    obtain ⟨n, rfl⟩ : ∃ k, n = k + 1 := ⟨n - 1, by omega⟩
    rw [Pure.value, ws_append hw, List.cons_append, ws_stop (by decide)]
    have hi := completeM (fin := fin) h r n (by
      simp only [List.length_append, List.length_cons, List.length_nil] at hf ⊢; omega)
    have hh : ∃ t, Pure.ws (b ++ 0x7D :: r) = 0x22 :: t := by
      cases h with
      | one h1 h2 h3 =>
        rw [List.append_assoc, ws_append h1, List.cons_append, ws_stop (by decide)]
        exact ⟨_, rfl⟩
      | more h1 h2 h3 h4 =>
        rw [List.append_assoc, ws_append h1, List.cons_append, ws_stop (by decide)]
        exact ⟨_, rfl⟩
    obtain ⟨t, hx⟩ := hh
    have hc : Pure.chk fin (Pure.ws (b ++ 0x7D :: r)) = .ok (0x22, t) := by rw [hx]; simp [Pure.chk, eofByte]
    simp only [List.append_assoc, List.cons_append, List.nil_append]
    rw [chk_cons (by decide)]
    simp [Pure.lift, Pure.obj, elisionToks, hc, Pure.put, hi]

theorem completeI {fin : RErr} : ∀ {vs : List JVal} {b : Bytes}, Items LaxChars vs b → ∀ (r : Bytes) (n : Nat),
    2 * (b ++ 0x5D :: r).length + 2 ≤ n →
    Pure.items fin n (b ++ 0x5D :: r) = (itemToks vs ++ [.endArr], some (.ok r))
  | _, _, .one (w := w) (v := v) (b := b) (w' := w') h1 h2 h3 => by
    intro r n hf
    obtain ⟨n, rfl⟩ : ∃ k, n = k + 1 := ⟨n - 1, by omega⟩
    have hv := complete (fin := fin) h2 w (w' ++ 0x5D :: r) n h1 (fun _ => numEnd_ws h3 (by simp))
      (by simp only [List.length_append, List.length_cons] at hf ⊢; omega)
    rw [Pure.items]
    simp only [List.append_assoc] at hv ⊢
    rw [hv]
    have := chk_ws (fin := fin) (r := r) h3 (show isSpace 0x5D = false by decide) (by decide)
    simp [Pure.PRes.then, this, Pure.lift, Pure.put, Pure.done]
  | _, _, .more (w := w) (v := v) (b := b) (w' := w') (vs := vs) (r := b2) h1 h2 h3 h4 => by
    intro r n hf
    obtain ⟨n, rfl⟩ : ∃ k, n = k + 1 := ⟨n - 1, by omega⟩
    have hv := complete (fin := fin) h2 w (w' ++ 0x2C :: (b2 ++ 0x5D :: r)) n h1 (fun _ => numEnd_ws h3 (by simp))
      (by simp only [List.length_append, List.length_cons] at hf ⊢; omega)
    have hi := completeI (fin := fin) h4 r n (by simp only [List.length_append, List.length_cons] at hf ⊢; omega)
    rw [Pure.items]
    simp only [List.append_assoc, List.cons_append] at hv ⊢
    rw [hv]
    have := chk_ws (fin := fin) (r := b2 ++ 0x5D :: r) h3 (show isSpace 0x2C = false by decide) (by decide)
    simp [Pure.PRes.then, this, Pure.lift, hi]

theorem completeM {fin : RErr} : ∀ {ms : List (Scalar × JVal)} {b : Bytes}, Members LaxChars ms b → ∀ (r : Bytes) (n : Nat),
    2 * (b ++ 0x7D :: r).length + 2 ≤ n →
    Pure.members fin n (Pure.ws (b ++ 0x7D :: r)) = (memberToks ms ++ [.endObj], some (.ok r))
  | _, _, .one (w0 := w0) (c := c) (w1 := w1) (w := w) (v := v) (b := b) (w' := w') h0 hc h1 h2 h3 h4 => by
    intro r n hf
    obtain ⟨n, rfl⟩ : ∃ k, n = k + 1 := ⟨n - 1, by omega⟩
    have hv := complete (fin := fin) h3 w (w' ++ 0x7D :: r) n h2 (fun _ => numEnd_ws h4 (by simp))
      (by simp only [List.length_append, List.length_cons] at hf ⊢; omega)
    rw [List.append_assoc, ws_append h0, List.cons_append, ws_stop (by decide), Pure.members]
    simp only [List.append_assoc, List.cons_append] at hv ⊢
    rw [string_complete hc]
    have hcol := chk_ws (fin := fin) (r := w ++ (b ++ (w' ++ 0x7D :: r))) h1 (show isSpace 0x3A = false by decide) (by decide)
    have hend := chk_ws (fin := fin) (r := r) h4 (show isSpace 0x7D = false by decide) (by decide)
    simp [Pure.lift, hcol, Pure.PRes.then, hv, hend, Pure.put, Pure.done]
  | _, _, .more (w0 := w0) (c := c) (w1 := w1) (w := w) (v := v) (b := b) (w' := w') (ms := ms) (r := b2) h0 hc h1 h2 h3 h4 h5 => by
    intro r n hf
    obtain ⟨n, rfl⟩ : ∃ k, n = k + 1 := ⟨n - 1, by omega⟩
    have hv := complete (fin := fin) h3 w (w' ++ 0x2C :: (b2 ++ 0x7D :: r)) n h2 (fun _ => numEnd_ws h4 (by simp))
      (by simp only [List.length_append, List.length_cons] at hf ⊢; omega)
    have hm := completeM (fin := fin) h5 r n (by simp only [List.length_append, List.length_cons] at hf ⊢; omega)
    have hh : ∃ t, Pure.ws (b2 ++ 0x7D :: r) = 0x22 :: t := by
      cases h5 with
      | one h1 h2 h3 =>
        rw [List.append_assoc, ws_append h1, List.cons_append, ws_stop (by decide)]
        exact ⟨_, rfl⟩
      | more h1 h2 h3 h4 =>
        rw [List.append_assoc, ws_append h1, List.cons_append, ws_stop (by decide)]
        exact ⟨_, rfl⟩
    obtain ⟨t, hx⟩ := hh
    have hcx : Pure.chk fin (Pure.ws (b2 ++ 0x7D :: r)) = .ok (0x22, t) := by rw [hx]; simp [Pure.chk, eofByte]
    rw [List.append_assoc, ws_append h0, List.cons_append, ws_stop (by decide), Pure.members]
    simp only [List.append_assoc, List.cons_append] at hv ⊢
    rw [string_complete hc]
    have hcol := chk_ws (fin := fin) (r := w ++ (b ++ (w' ++ 0x2C :: (b2 ++ 0x7D :: r)))) h1 (show isSpace 0x3A = false by decide) (by decide)
    have hcom := chk_ws (fin := fin) (r := b2 ++ 0x7D :: r) h4 (show isSpace 0x2C = false by decide) (by decide)
    simp [Pure.lift, hcol, Pure.PRes.then, hv, hcom, hcx, Pure.put, Pure.done, hm]

end

end Verif
