import Verif.EncCut
import Verif.PromptSpec
import Verif.Bufio
import Verif.JpvRound

/-!
# What encoders have written while they wait for input
-/

namespace Verif

namespace Enc

/-- The JSON encoder, run on an input that starts with the tokens `ts`, has done `evs` to its writer before it reads the token after `ts`, whatever that is
and whether or not there is one.  (Fuel is for termination only.) -/
def Prints (cfg : EncCfg) (pc : PrinterCfg) (ts : List Token) (evs : List WEv) : Prop :=
  ∃ ops, (pc.execAll 0 ops).1 = evs ∧ ∃ F, ∀ f, F ≤ f → ∀ c, ∃ p' h', Reach Heap.mach (consume cfg f) (Heap.init (ts ++ c)) ops p' h' ∧ c <:+ h'.st.src

theorem prints_values (cfg : EncCfg) (pc : PrinterCfg) (vs : List JVal) : Prints cfg pc (streamToks vs) (pc.execAll 0 (layoutAll cfg vs)).1 :=
  ⟨_, rfl, _, fun f hf c => consume_prompt cfg vs f hf c⟩

theorem level_layoutAll (cfg : EncCfg) (pc : PrinterCfg) : ∀ vs : List JVal, level pc 0 (layoutAll cfg vs) = 0
  | [] => rfl
  | v :: vs => by
    rw [show layoutAll cfg (v :: vs) = layout cfg v ++ ([.reset] ++ layoutAll cfg vs) by simp [layoutAll], level_append, level_append, level_reset]
    exact level_layoutAll cfg pc vs

/-- No line ends inside of what is printed with `PrintBytes`. -/
def Quiet (l : List POp) : Prop := ∀ b, .bytes b ∈ l → 0x0A ∉ b

/-- No scalar of the value contains a line feed. -/
def OneLine (v : JVal) : Prop := ∀ s, .scalar s ∈ v.toks → 0x0A ∉ s.bytes

theorem Quiet.append {l l' : List POp} (h : Quiet l) (h' : Quiet l') : Quiet (l ++ l') := by
  intro b hb
  rcases List.mem_append.1 hb with h1 | h1
  · exact h b h1
  · exact h' b h1

theorem quiet_nil : Quiet [] := fun _ h => by cases h
theorem quiet_one {b : Bytes} (h : 0x0A ∉ b) : Quiet [.bytes b] := by
  intro b' hb
  simp at hb
  exact hb ▸ h

theorem quiet_other {o : POp} (h : ∀ b, o ≠ .bytes b) : Quiet [o] := by
  intro b hb
  simp at hb
  exact absurd hb.symm (h b)

theorem quiet_cons {b : Bytes} (h : 0x0A ∉ b) {l : List POp} (hl : Quiet l) : Quiet (.bytes b :: l) := (quiet_one h).append hl

theorem quiet_newLine : Quiet [.newLine] := quiet_other (by simp)

theorem Joined.quiet {l r} (h : Joined l r) (hl : ∀ x ∈ l, Quiet x) : Quiet r := by
  induction h with
  | one x => exact hl x (by simp)
  | comp h ih => exact (hl _ (by simp)).append (quiet_cons (by decide) (ih fun x hx => hl x (by simp [hx])))
  | line h ih => exact (hl _ (by simp)).append (quiet_cons (by decide) (quiet_newLine.append (ih fun x hx => hl x (by simp [hx]))))

theorem Coll.quiet {o c e l r} (ho : 0x0A ∉ o) (hc : 0x0A ∉ c) (h : Coll (.bytes o) (.bytes c) e l r) (hl : ∀ x ∈ l, Quiet x) : Quiet r := by
  cases h with
  | flat _ =>
    refine quiet_cons ho (Quiet.append (Quiet.append ?_ ?_) (quiet_one hc))
    · cases l with
      | nil => exact quiet_nil
      | cons x l => exact (joined_flat (x :: l) (by simp)).quiet hl
    · split
      · exact quiet_one (by decide)
      · exact quiet_nil
  | broken hj =>
    have h1 := hj.quiet hl
    have h2 : Quiet (if e then [.newLine, elisionOp] else []) := by
      split
      · exact quiet_newLine.append (quiet_one (by decide))
      · exact quiet_nil
    exact quiet_cons ho ((quiet_other (by simp) : Quiet [.indent]).append (h1.append (h2.append ((quiet_other (by simp) : Quiet [.dedent]).append (quiet_one hc)))))

/-- Neither do codes of colours contain line feeds. -/
def QuietColor (c : Option Colorizer) : Prop := ∀ x, c = some x → (∀ s, 0x0A ∉ x.code s) ∧ 0x0A ∉ x.resetCode

theorem quiet_scalar {c : Option Colorizer} (hc : QuietColor c) {s : Scalar} (hs : 0x0A ∉ s.bytes) : Quiet (printScalar c s) := by
  cases c with
  | none => exact quiet_one hs
  | some c =>
    obtain ⟨h1, h2⟩ := hc c rfl
    exact quiet_cons (h1 s) (quiet_cons hs (quiet_one h2))

private theorem mem_itemToks {l : List JVal} {v : JVal} (hm : v ∈ l) {t : Token} (ht : t ∈ v.toks) : t ∈ JVal.toks.itemToks l := by
  induction l with
  | nil => cases hm
  | cons a l ih =>
    rw [JVal.toks.itemToks, List.mem_append]
    rcases List.mem_cons.1 hm with rfl | h
    · exact .inl ht
    · exact .inr (ih h)

private theorem mem_memberKeys {l : List (Scalar × JVal)} {m : Scalar × JVal} (hm : m ∈ l) : .scalar m.1 ∈ JVal.toks.memberToks l := by
  induction l with
  | nil => cases hm
  | cons a l ih =>
    rw [JVal.toks.memberToks, List.mem_cons, List.mem_append]
    rcases List.mem_cons.1 hm with rfl | h
    · exact .inl rfl
    · exact .inr (.inr (ih h))

private theorem mem_memberToks {l : List (Scalar × JVal)} {m : Scalar × JVal} (hm : m ∈ l) {t : Token} (ht : t ∈ m.2.toks) : t ∈ JVal.toks.memberToks l := by
  induction l with
  | nil => cases hm
  | cons a l ih =>
    rw [JVal.toks.memberToks, List.mem_cons, List.mem_append]
    rcases List.mem_cons.1 hm with rfl | h
    · exact .inr (.inl ht)
    · exact .inr (.inr (ih h))

theorem layout_quiet {cfg : EncCfg} (hc : QuietColor cfg.color) {v : JVal} (hv : OneLine v) : Quiet (layout cfg v) := by
  induction v using JVal.induct with
  | scalar s => rw [layout_scalar]; exact quiet_scalar hc (hv s (by simp [JVal.toks]))
  | arr l e ih =>
    refine (layout_arr cfg l e).quiet (by decide) (by decide) ?_
    simp only [List.mem_map]
    rintro x ⟨v, hm, rfl⟩
    refine ih v hm fun s hs => hv s ?_
    simp only [JVal.toks, List.mem_cons, List.mem_append]
    exact .inr (.inl (.inl (mem_itemToks hm hs)))
  | obj l e ih =>
    refine (layout_obj cfg l e).quiet (by decide) (by decide) ?_
    simp only [List.mem_map]
    rintro x ⟨m, hm, rfl⟩
    refine (quiet_scalar hc (hv m.1 ?_)).append (quiet_cons (by decide) (ih m hm fun s hs => hv s ?_))
    · simp only [JVal.toks, List.mem_cons, List.mem_append]
      exact .inr (.inl (.inl (mem_memberKeys hm)))
    · simp only [JVal.toks, List.mem_cons, List.mem_append]
      exact .inr (.inl (.inl (mem_memberToks hm hs)))

/-- With a flusher only a part of a line waits in the buffer. -/
theorem quiet_buf (pc : PrinterCfg) (hf : pc.flusher = true) : ∀ (l : List POp) (lvl : Int) (s : Bufio.State), Quiet l → 0x0A ∉ s.buf →
    0x0A ∉ (Bufio.run s (pc.execAll lvl l).1).buf
  | [], _, s, _, hs => hs
  | o :: l, lvl, s, hl, hs => by
    show 0x0A ∉ (Bufio.run s ((pc.exec lvl o).1 ++ (pc.execAll (pc.exec lvl o).2 l).1)).buf
    rw [Bufio.run_append]
    refine quiet_buf pc hf l _ _ (fun b hb => hl b (by simp [hb])) ?_
    have hw : ∀ (s : Bufio.State) (p : Bytes), 0x0A ∉ s.buf → 0x0A ∉ p → 0x0A ∉ (Bufio.write s p).buf := by
      intro s p h1 h2 hm
      unfold Bufio.write at hm
      split at hm
      · rcases List.mem_append.1 hm with h | h
        · exact h1 h
        · exact h2 h
      · split at hm
        · cases hm
        · simp only at hm
          split at hm
          · exact h2 (List.mem_of_mem_drop hm)
          · cases hm
    have hn : ∀ s : Bufio.State, 0x0A ∉ (Bufio.run s pc.writeNL).buf := by
      intro s
      simp [PrinterCfg.writeNL, hf, Bufio.run, Bufio.event, Bufio.flush]
    have hsp : ∀ (n : Nat) (s : Bufio.State), 0x0A ∉ s.buf → 0x0A ∉ (Bufio.run s (List.replicate n (.write [0x20]))).buf := by
      intro n
      induction n with
      | zero => intro s h; exact h
      | succ n ih => intro s h; exact ih _ (hw s _ h (by decide))
    have hnl : ∀ (lvl : Int) (s : Bufio.State), 0x0A ∉ s.buf → 0x0A ∉ (Bufio.run s (pc.newLine lvl)).buf := by
      intro lvl s h
      unfold PrinterCfg.newLine
      split
      · exact h
      · rw [Bufio.run_append]
        exact hsp _ _ (hn s)
    cases o with
    | bytes b => exact hw s b hs (hl b (by simp))
    | newLine => exact hnl _ _ hs
    | indent => exact hnl _ _ hs
    | dedent => exact hnl _ _ hs
    | reset => exact hn s

theorem prints_cut (cfg : EncCfg) (pc : PrinterCfg) (vs : List JVal) {d w ts} (hcut : Cut d w ts) :
    ∃ evs rest, Prints cfg pc (streamToks vs ++ ts) evs ∧ (encode cfg pc goodSink (streamToks (vs ++ [w]))).1 = evBytes evs ++ rest ∧
      (cfg.color = none → (rest.length : Int) ≤ max 0 cfg.widthLimit + 3 + d + ((d + 2) * (1 + pc.indentSize.toNat * (d + 1)) : Nat)) ∧
      (pc.flusher = true → QuietColor cfg.color → (∀ v ∈ vs ++ [w], OneLine v) → 0x0A ∉ (Bufio.run Bufio.new evs).buf) := by
  obtain ⟨cl, h1, h2, h3⟩ := hcut.cutV
  obtain ⟨o, tail, k1, k2, k3⟩ := consume_cut cfg vs h1 ts h2 h3
  have e1 : layoutAll cfg (vs ++ [w]) = (layoutAll cfg vs ++ o) ++ (tail ++ [.reset]) := by
    rw [layoutAll, List.flatMap_append, List.flatMap_singleton, k2, List.append_assoc o, ← List.append_assoc]
    rfl
  have e2 : (encode cfg pc goodSink (streamToks (vs ++ [w]))).1 = render pc 0 (layoutAll cfg vs ++ o) ++ render pc (level pc 0 o) (tail ++ [.reset]) := by
    rw [encode_good, e1, render_append, level_append, level_layoutAll]
  have e3 := fun hc => k3.length hc k2 pc
  have e4 : pc.flusher = true → QuietColor cfg.color → (∀ v ∈ vs ++ [w], OneLine v) → 0x0A ∉ (Bufio.run Bufio.new (pc.execAll 0 (layoutAll cfg vs ++ o)).1).buf := by
    intro hf hc hv
    refine quiet_buf pc hf _ 0 _ ?_ (by simp [Bufio.new])
    refine Quiet.append ?_ ?_
    · intro b hb
      simp only [layoutAll, List.mem_flatMap, List.mem_append] at hb
      obtain ⟨v, hm, h | h⟩ := hb
      · exact layout_quiet hc (hv v (by simp [hm])) b h
      · simp at h
    · intro b hb
      refine layout_quiet hc (hv w (by simp)) b ?_
      rw [k2]
      exact List.mem_append_left _ hb
  generalize render pc (level pc 0 o) (tail ++ [.reset]) = rest at e2 e3
  exact ⟨(pc.execAll 0 (layoutAll cfg vs ++ o)).1, rest, ⟨layoutAll cfg vs ++ o, rfl, _, k1⟩, e2, e3, e4⟩

/-- With a flusher, everything of complete values has been passed on. -/
theorem flushed (pc : PrinterCfg) (hf : pc.flusher = true) (l : List POp) : (Bufio.run Bufio.new (pc.execAll 0 (l ++ [.reset])).1).out = render pc 0 (l ++ [.reset]) := by
  have e : (pc.execAll 0 (l ++ [.reset])).1 = ((pc.execAll 0 l).1 ++ [.write [0x0A]]) ++ [.flush] := by
    rw [PrinterCfg.execAll_append]
    simp [PrinterCfg.execAll, PrinterCfg.exec, PrinterCfg.writeNL, hf]
  rw [render, e, Bufio.run_flush]
  simp [Bufio.new, evBytes, WEv.payload]

end Enc

namespace JEnc

/-- The same for the JPV encoder. -/
def Prints (cfg : JEncCfg) (pc : PrinterCfg) (ts : List Token) (evs : List WEv) : Prop :=
  ∃ ops, (pc.execAll 0 ops).1 = evs ∧ ∃ F, ∀ f, F ≤ f → ∀ c, ∃ p' h', Reach Heap.mach (consume cfg f) (Heap.init (ts ++ c)) ops p' h' ∧ c <:+ h'.st.src

theorem prints_values (cfg : JEncCfg) (pc : PrinterCfg) (vs : List JVal) (hk : ∀ v ∈ vs, KeysOk v) : Prints cfg pc (streamToks vs) (pc.execAll 0 (layAll cfg vs)).1 :=
  ⟨_, rfl, _, fun f hf c => consume_prompt cfg vs hk f hf c⟩

end JEnc

end Verif
