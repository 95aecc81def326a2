import Verif.ScannerLemmas

/-!
# The state of the buffered scanner after a run

For readers that do not give up (`Fair`), and with the state of both scanners in the end.
-/

set_option linter.unusedSimpArgs false
set_option linter.unusedVariables false

namespace Verif

/-- The buffered scanner corresponds to the unbuffered one that holds everything the reader has got. -/
def Live (c : CScan) (a : AScan) : Prop := Fair c.reader.sched ∧ Sim c c.reader.rest c.reader.fin a

theorem Live.op {aop : AScan → Rd × AScan} {c c' : CScan} {r : Rd} {a : AScan} (h : Live c a) (hop : OpSpec aop c r c') :
    (aop a).1 = r ∧ Live c' (aop a).2 ∧ c'.reader.rest <:+ c.reader.rest := by
  obtain ⟨hf, hs⟩ := h
  obtain ⟨h1, h2, new, h3, h4⟩ := hop
  rcases h4 with h4 | ⟨e, he, hne, h4⟩
  · obtain ⟨h5, h6⟩ := h4 c'.reader.rest c.reader.fin a (by rw [← h3]; exact hs)
    exact ⟨h5, ⟨by rw [h2]; exact hf, by rw [h1]; exact h6⟩, ⟨new, h3.symm⟩⟩
  · rcases he with ⟨hrest, hfin⟩ | ⟨hf', _, _⟩
    · rw [hrest, List.append_nil] at h3
      obtain ⟨h5, h6⟩ := h4 a (by rw [← h3, hfin, h1]; exact hs)
      exact ⟨h5, ⟨by rw [h2]; exact hf, by rw [hrest, ← hfin]; exact h6⟩, by rw [hrest]; exact List.nil_suffix⟩
    · rw [h2] at hf'; exact absurd hf hf'

/-- The end of a run on the buffered scanner, from that on the unbuffered one. -/
def Follows {α : Type} (c : CScan) (o : Out CScan α) : Out AScan α → Prop
  | .ok x a => ∃ c', o = .ok x c' ∧ Live c' a ∧ c'.reader.rest <:+ c.reader.rest
  | .fail e => o = .fail e
  | .panic => o = .panic
  | .stuck => True
  | .oof => o = .oof

theorem Follows.mono {α : Type} {c c1 : CScan} {o : Out CScan α} {x : Out AScan α} (h : Follows c1 o x)
    (hs : c1.reader.rest <:+ c.reader.rest) : Follows c o x := by
  cases x with
  | ok x a => obtain ⟨c', h1, h2, h3⟩ := h; exact ⟨c', h1, h2, h3.trans hs⟩
  | _ => exact h

/-- Every program gives the same result on both scanners (unless it does something that the unbuffered scanner does not
specify), and the states correspond in the end. -/
theorem live_run {α : Type} (p : Prog α) : ∀ (c : CScan) (a : AScan), Live c a → (p.run AScan.machine a).2 ≠ .stuck →
    (p.run CScan.machine c).1 = (p.run AScan.machine a).1 ∧ Follows c (p.run CScan.machine c).2 (p.run AScan.machine a).2 := by
  induction p with
  | ret x => intro c a h _; exact ⟨rfl, c, rfl, h, List.suffix_refl _⟩
  | fail e => intro c a h _; exact ⟨rfl, rfl⟩
  | crash => intro c a h _; exact ⟨rfl, rfl⟩
  | oof => intro c a h _; exact ⟨rfl, rfl⟩
  | emit t k ih =>
    intro c a h hn
    simp only [Prog.run] at hn ⊢
    obtain ⟨h1, h2⟩ := ih c a h hn
    exact ⟨by rw [h1], h2⟩
  | read k ih =>
    intro c a h hn
    obtain ⟨h1, h2, h3⟩ := h.op (read_spec c ⟨_, _, _, h.2⟩)
    simp only [Prog.run, AScan.machine, CScan.machine] at hn ⊢
    rw [h1] at hn ⊢
    obtain ⟨h4, h5⟩ := ih _ _ _ h2 hn
    exact ⟨h4, h5.mono h3⟩
  | peek k ih =>
    intro c a h hn
    obtain ⟨h1, h2, h3⟩ := h.op (peek_spec c ⟨_, _, _, h.2⟩)
    simp only [Prog.run, AScan.machine, CScan.machine] at hn ⊢
    rw [h1] at hn ⊢
    obtain ⟨h4, h5⟩ := ih _ _ _ h2 hn
    exact ⟨h4, h5.mono h3⟩
  | skipPeek k ih =>
    intro c a h hn
    obtain ⟨h1, h2, h3⟩ := h.op (skipPeekLoop_spec _ c (Nat.lt_succ_self _) ⟨_, _, _, h.2⟩)
    simp only [Prog.run, AScan.machine, CScan.machine] at hn ⊢
    rw [h1] at hn ⊢
    obtain ⟨h4, h5⟩ := ih _ _ _ h2 hn
    exact ⟨h4, h5.mono h3⟩
  | skipRead k ih =>
    intro c a h hn
    obtain ⟨h1, h2, h3⟩ := h.op (skipReadLoop_spec _ c (Nat.lt_succ_self _) ⟨_, _, _, h.2⟩)
    simp only [Prog.run, AScan.machine, CScan.machine] at hn ⊢
    rw [h1] at hn ⊢
    obtain ⟨h4, h5⟩ := ih _ _ _ h2 hn
    exact ⟨h4, h5.mono h3⟩
  | back k ih =>
    intro c a h hn
    have hb := h.2.back
    simp only [Prog.run, AScan.machine, CScan.machine] at hn ⊢
    cases hab : a.back with
    | ok a' =>
      rw [hab] at hb hn
      obtain ⟨c', hc', hs, hr⟩ := hb
      simp only [hc'] at hn ⊢
      obtain ⟨h4, h5⟩ := ih c' a' ⟨by rw [hr]; exact h.1, by rw [hr]; exact hs⟩ hn
      exact ⟨h4, h5.mono (by rw [hr]; exact List.suffix_refl _)⟩
    | error b =>
      rw [hab] at hb hn
      cases b
      · simp at hn
      · simp only at hb; simp only [hb]; exact ⟨trivial, rfl⟩
  | startToken k ih =>
    intro c a h hn
    have hb := h.2.startToken
    simp only [Prog.run, AScan.machine, CScan.machine] at hn ⊢
    cases hab : a.startToken with
    | some a' =>
      rw [hab] at hb hn
      obtain ⟨c', hc', hs, hr⟩ := hb
      simp only [hc'] at hn ⊢
      obtain ⟨h4, h5⟩ := ih c' a' ⟨by rw [hr]; exact h.1, by rw [hr]; exact hs⟩ hn
      exact ⟨h4, h5.mono (by rw [hr]; exact List.suffix_refl _)⟩
    | none =>
      rw [hab] at hb hn
      simp only at hb; simp only [hb]; exact ⟨trivial, rfl⟩
  | endToken k ih =>
    intro c a h hn
    have hb := h.2.endToken
    simp only [Prog.run, AScan.machine, CScan.machine] at hn ⊢
    cases hab : a.endToken with
    | some x =>
      obtain ⟨t, a'⟩ := x
      rw [hab] at hb hn
      obtain ⟨c', hc', hs, hr⟩ := hb
      simp only [hc'] at hn ⊢
      obtain ⟨h4, h5⟩ := ih t c' a' ⟨by rw [hr]; exact h.1, by rw [hr]; exact hs⟩ hn
      exact ⟨h4, h5.mono (by rw [hr]; exact List.suffix_refl _)⟩
    | none =>
      rw [hab] at hb hn
      simp only at hb; simp only [hb]; exact ⟨trivial, rfl⟩
  | currentPos k ih =>
    intro c a h hn
    simp only [Prog.run, AScan.machine, CScan.machine] at hn ⊢
    rw [h.2.pos] at hn ⊢
    exact ih _ c a h hn

theorem Live.init (r : Reader) (size : Nat) (h : 2 ≤ size) (hf : Fair r.sched) :
    Live (CScan.new r size) (AScan.new r.rest r.fin) := ⟨hf, Sim.init r size h _ _⟩

end Verif
