import Verif.JsonOrigin
import Verif.JpvRun

/-!
# Scalars of the JPV decoder

The scalars that the JPV decoder sends are slices of the input, or keys after a dot, to which it adds the quotes.
-/

set_option linter.unusedSimpArgs false
set_option linter.unusedVariables false

namespace Verif.JpvPure
open Pure Jpv

variable {D : Bytes} {fin : RErr}

/-- A slice of the input, or a key after a dot with quotes added. -/
def Piece (D : Bytes) (s : Scalar) : Prop := s.bytes <:+: D ∧ Shaped s.bytes ∨
  ∃ k, c%'.' :: k <:+: D ∧ (∀ x ∈ k, 0x20 ≤ x ∧ x < 0x80) ∧ s.bytes = c%'"' :: (k ++ [c%'"'])

/-- The keys of a path. -/
def Keys (D : Bytes) (p : List Scalar) : Prop := ∀ k ∈ p, k.type = .str → Piece D k

theorem up_ok {α : Type} {x : Except PErr α} {a : α} (h : up x = .ok a) : x = .ok a := by
  cases x with
  | ok b => cases h; rfl
  | error e => cases h

theorem bind_ok {ε α β : Type} {x : Except ε α} {f : α → Except ε β} {b : β} (h : x.bind f = .ok b) : ∃ a, x = .ok a ∧ f a = .ok b := by
  cases x with
  | ok a => exact ⟨a, rfl, h⟩
  | error e => cases h

theorem close_ok {b : Byte} {key : Scalar} {r : Bytes} {k} (h : close b key r = .ok k) : k = (key, r) := by
  unfold close at h
  split at h
  · cases h
  · cases h; rfl

theorem bracket_piece {r : Bytes} (hr : r <:+ D) {k} (h : bracket fin r = .ok k) : (k.1.type = .str → Piece D k.1) ∧ k.2 <:+ D := by
  unfold bracket at h
  obtain ⟨x, hx, h⟩ := bind_ok h
  split at h
  · obtain ⟨s, hs, h⟩ := bind_ok h
    obtain ⟨y, hy, h⟩ := bind_ok h
    cases close_ok h
    have e := (string_split (up_ok hs)).1
    have sh : Shaped s.1.bytes := string_shaped (up_ok hs)
    exact ⟨fun _ => .inl ⟨infix_of hr e, sh⟩, (chk_suffix (up_ok hy)).trans (suffix_of hr e)⟩
  · obtain ⟨d, hd, h⟩ := bind_ok h
    cases close_ok h
    have e := (digits1_split (up_ok hd)).1
    exact ⟨fun h => (by cases h), (List.tail_suffix _).trans (suffix_of hr e)⟩

set_option maxRecDepth 10000 in
theorem alnum_ascii {b : Byte} : isAlnum b = true → 0x20 ≤ b ∧ b < 0x80 := by
  revert b
  apply forall_byte
  decide

theorem mem_takeWhile (p : Byte → Bool) : ∀ (l : Bytes) (x : Byte), x ∈ l.takeWhile p → p x = true
  | [], _, h => by cases h
  | b :: l, x, h => by
    rw [List.takeWhile_cons] at h
    split at h
    · rcases List.mem_cons.1 h with rfl | h
      · assumption
      · exact mem_takeWhile p l x h
    · cases h

theorem dotted_piece {r : Bytes} (hr : c%'.' :: r <:+ D) {k} (h : dotted fin r = .ok k) : Piece D k.1 ∧ k.2 <:+ D := by
  unfold dotted at h
  obtain ⟨x, hx, h⟩ := bind_ok h
  have hx := (chk_ok (up_ok hx)).1
  have hs : r <:+ D := (List.suffix_cons _ _).trans hr
  split at h
  · obtain ⟨y, hy, h⟩ := bind_ok h
    cases h
    have e : r = (x.1 :: x.2.takeWhile isAlnum) ++ x.2.dropWhile isAlnum := by
      rw [List.cons_append, List.takeWhile_append_dropWhile]; exact hx
    refine ⟨.inr ⟨_, infix_of hr (s := c%'.' :: (x.1 :: x.2.takeWhile isAlnum)) (congrArg (c%'.' :: ·) e), ?_, by simp⟩, suffix_of hs e⟩
    intro y hy
    rcases List.mem_cons.1 hy with rfl | hy
    · exact alnum_ascii (by simp [isAlnum, *])
    · exact alnum_ascii (mem_takeWhile _ _ _ hy)
  · cases h

theorem path_pieces (fin : RErr) : ∀ (n : Nat) (p : List Scalar) (r : Bytes), r <:+ D → Keys D p → ∀ {q}, path fin n p r = .ok q → Keys D q.1 ∧ q.2 <:+ D
  | 0, _, _, _, _, _, h => by cases h
  | n + 1, p, r, hr, hp, q, h => by
    rw [path] at h
    obtain ⟨x, hx, h⟩ := bind_ok h
    have hx := (chk_ok (up_ok hx)).1
    have step : ∀ {k : Scalar}, (k.type = .str → Piece D k) → Keys D (p ++ [k]) := by
      intro k hk y hy
      rcases List.mem_append.1 hy with hy | hy
      · exact hp y hy
      · cases List.mem_singleton.1 hy; exact hk
    split at h
    · obtain ⟨k, hk, h⟩ := bind_ok h
      have hk := bracket_piece (suffix_of (s := [x.1]) hr hx) hk
      exact path_pieces fin n _ _ hk.2 (step hk.1) h
    · split at h
      · rename_i hd
        obtain ⟨k, hk, h⟩ := bind_ok h
        have hk := dotted_piece (by rw [← hd, ← hx]; exact hr) hk
        exact path_pieces fin n _ _ hk.2 (step fun _ => hk.1) h
      · cases h; exact ⟨hp, hr⟩

theorem follow_pieces : ∀ (p : List Scalar) (b : Bool), Keys D p → ∀ s, Token.scalar s ∈ follow p b → Piece D s
  | [], _, _, _, h => by cases h
  | k :: ks, b, hp, s, h => by
    rw [follow] at h
    simp only [List.mem_append] at h
    rcases h with h | h | h
    · split at h
      · cases h
      · rw [List.mem_singleton] at h; split at h <;> cases h
    · split at h
      · rename_i ht
        cases List.mem_singleton.1 h
        exact hp k (List.mem_cons_self ..) ht
      · cases h
    · exact follow_pieces ks false (fun k hk => hp k (List.mem_cons_of_mem _ hk)) s h

theorem unwind_none (p : List Scalar) (b : Bool) (s : Scalar) : Token.scalar s ∉ unwind p b := by
  intro h
  unfold unwind at h
  rw [List.mem_reverse, List.mem_map] at h
  obtain ⟨k, _, h⟩ := h
  unfold closer at h
  split at h <;> cases h

theorem diff_keys : ∀ (a b : List Scalar), Keys D b → ∀ {d}, diff a b = .ok d → Keys D d.2
  | [], _, _, _, h => by cases h
  | _ :: _, [], _, _, h => by cases h
  | k :: ks, n :: ns, hb, d, h => by
    rw [diff] at h
    split at h
    · cases h
    · exact diff_keys ks ns (fun k hk => hb k (List.mem_cons_of_mem _ hk)) h
    · split at h
      · cases h
      · cases h; exact hb

theorem upd_pieces {last new : List Scalar} (hn : Keys D new) {ts} (h : upd last new = .ok ts) : ∀ s, Token.scalar s ∈ ts → Piece D s := by
  unfold upd at h
  split at h
  · cases h; exact follow_pieces _ _ hn
  · cases hd : diff last new with
    | error e => rw [hd] at h; cases h
    | ok d =>
      rw [hd] at h
      cases h
      intro s hs
      rcases List.mem_append.1 hs with hs | hs
      · exact absurd hs (unwind_none _ _ _)
      · exact follow_pieces _ _ (diff_keys _ _ hn hd) s hs

theorem head_pieces {n : Nat} {last : List Scalar} : ∀ {r : Bytes}, r <:+ D → ∀ {x}, head fin n last r = .ok x →
    (∀ s, Token.scalar s ∈ x.1.1 → Piece D s) ∧ x.2 <:+ D
  | [], _, _, h => by cases h
  | b :: r, hr, x, h => by
    rw [head] at h
    split at h
    · cases h
    · obtain ⟨p, hp, h⟩ := bind_ok h
      obtain ⟨y, hy, h⟩ := bind_ok h
      have hp := path_pieces fin n [] r ((List.suffix_cons _ _).trans hr) (fun k hk => by cases hk) hp
      split at h
      · cases h
      · cases hu : upd last p.1 with
        | error e => rw [hu] at h; cases h
        | ok ts =>
          rw [hu] at h
          cases h
          exact ⟨upd_pieces hp.1 hu, (chk_suffix (up_ok hy)).trans ((ws_suffix _).trans hp.2)⟩

/-- The scalars sent. -/
def Pieces (D : Bytes) (ts : List Token) : Prop := ∀ s, Token.scalar s ∈ ts → Piece D s

theorem produce_pieces (fin : RErr) (v : Nat) : ∀ n last r, r <:+ D → Pieces D (produce fin v n last r).1
  | 0, _, _, _ => by rw [produce]; intro s hs; cases hs
  | n + 1, last, r, hr => by
    have hw : ws r <:+ D := (ws_suffix _).trans hr
    have un : ∀ p, Pieces D (unwind p false) := fun p s hs => absurd hs (unwind_none _ _ _)
    have app : ∀ {a b : List Token}, Pieces D a → Pieces D b → Pieces D (a ++ b) := fun ha hb s hs => (List.mem_append.1 hs).elim (ha s) (hb s)
    rw [produce]
    split
    · exact un _
    · rename_i b r' e
      rw [e] at hw
      split
      · exact un _
      · unfold line
        split
        · intro s hs; cases hs
        · exact un _
        · rename_i ts p r1 hh
          have hh := head_pieces hw hh
          have hv := (values_slices fin v).1 r1 hh.2
          have hv1 : Pieces D (value fin v r1).1 := fun s hs => .inl (hv.1 s hs)
          unfold body
          split
          · rename_i vs r2 hx
            rw [hx] at hv hv1
            exact app hh.1 (app hv1 (produce_pieces fin v n p r2 (hv.2 r2 rfl)))
          · rename_i vs e' hx
            rw [hx] at hv1
            exact app hh.1 (app hv1 (un _))
          · rename_i vs hx
            rw [hx] at hv1
            exact app hh.1 hv1

end Verif.JpvPure
