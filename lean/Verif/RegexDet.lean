import Verif.RegexText

/-!
# The preferred match of a deterministic pattern is the longest one
-/

namespace Verif.GoRe
open Rfc9485

variable {P : List Nat → Prop} {tab : List Nat → Option (Nat → Bool)} {gc : List Nat → Nat → Prop}

/-- What follows starts with one of these characters, if there is something. -/
def Starts (F : Nat → Prop) (e : List Nat) : Prop := ∀ c u, e = c :: u → F c

theorem head_flatMap {l : List (List Nat)} {a e : List Nat} {f : List Nat → List (List Nat)} (h : l.head? = some a) (h' : (f a).head? = some e) :
    (l.flatMap f).head? = some e := by
  cases l with
  | nil => simp at h
  | cons x l =>
    simp only [List.head?_cons, Option.some.injEq] at h
    subst h
    rw [List.flatMap_cons, List.head?_append, h']
    rfl

section
variable {m : List Nat → List (List Nat)} {L : List Nat → Prop}

theorem no_ends (h : Finds m L) (h0 : ¬ L []) {s : List Nat} (hs : ∀ c u, s = c :: u → ¬ ∃ w, L (c :: w)) : m s = [] := by
  rw [List.eq_nil_iff_forall_not_mem]
  intro e he
  obtain ⟨w, rfl, hw⟩ := (h _ _).mp he
  cases w with
  | nil => exact h0 hw
  | cons c w => exact hs c _ rfl ⟨w, hw⟩

theorem starts_rest {F : Nat → Prop} {ws : List (List Nat)} (hw : ∀ w ∈ ws, L w) {e : List Nat} (he : Starts F e) :
    Starts (fun c => (∃ w, L (c :: w)) ∨ F c) (ws.flatten ++ e) := by
  induction ws with
  | nil => intro c u h; exact .inr (he c u h)
  | cons w ws ih =>
    intro c u h
    cases w with
    | nil => exact ih (fun w hx => hw w (by simp [hx])) c u (by simpa using h)
    | cons d w =>
      simp only [List.flatten_cons, List.cons_append, List.cons.injEq] at h
      exact .inl ⟨w, h.1 ▸ hw _ (by simp)⟩

variable {F : Nat → Prop}

theorem copies_head (hm : ∀ w e, L w → Starts (fun c => (∃ w, L (c :: w)) ∨ F c) e → (m (w ++ e)).head? = some e) {e : List Nat} (he : Starts F e) :
    ∀ (ws : List (List Nat)), (∀ w ∈ ws, L w) → (copies m ws.length (ws.flatten ++ e)).head? = some e := by
  intro ws
  induction ws with
  | nil => intro _; rfl
  | cons w ws ih =>
    intro hw
    simp only [List.length_cons, copies, List.flatten_cons, List.append_assoc]
    exact head_flatMap (hm w _ (hw w (by simp)) (starts_rest (fun w hx => hw w (by simp [hx])) he)) (ih fun w hx => hw w (by simp [hx]))

theorem atMost_head (hm : ∀ w e, L w → Starts (fun c => (∃ w, L (c :: w)) ∨ F c) e → (m (w ++ e)).head? = some e) {e : List Nat} (he : Starts F e)
    (hn : m e = []) : ∀ (ws : List (List Nat)) (k : Nat), ws.length ≤ k → (∀ w ∈ ws, L w) → (atMost m k (ws.flatten ++ e)).head? = some e := by
  intro ws
  induction ws with
  | nil =>
    intro k _ _
    cases k with
    | zero => rfl
    | succ k => simp [atMost, hn]
  | cons w ws ih =>
    intro k hk hw
    obtain ⟨k, rfl⟩ : ∃ k', k = k' + 1 := ⟨k - 1, by simp at hk; omega⟩
    simp only [atMost, List.flatten_cons, List.append_assoc]
    rw [List.head?_append, head_flatMap (hm w _ (hw w (by simp)) (starts_rest (fun w hx => hw w (by simp [hx])) he))
      (ih k (by simpa using hk) fun w hx => hw w (by simp [hx]))]
    rfl

theorem plus_head (hm : ∀ w e, L w → Starts (fun c => (∃ w, L (c :: w)) ∨ F c) e → (m (w ++ e)).head? = some e) {e : List Nat} (he : Starts F e)
    (hn : m e = []) (h0 : ¬ L []) : ∀ (ws : List (List Nat)) (f : Nat), (ws.flatten ++ e).length < f → (∀ w ∈ ws, L w) → ws ≠ [] →
    (plus m f (ws.flatten ++ e)).head? = some e := by
  have hz : ∀ f, plus m f e = [] := by
    intro f
    cases f with
    | zero => rfl
    | succ f => simp [plus, hn]
  intro ws
  induction ws with
  | nil => intro f _ _ h; exact absurd rfl h
  | cons w ws ih =>
    intro f hf hw _
    obtain ⟨f, rfl⟩ : ∃ k', f = k' + 1 := ⟨f - 1, by omega⟩
    simp only [plus, List.flatten_cons, List.append_assoc]
    refine head_flatMap (hm w _ (hw w (by simp)) (starts_rest (fun w hx => hw w (by simp [hx])) he)) ?_
    have hl : 0 < w.length := by
      rw [List.length_pos_iff]; rintro rfl; exact h0 (hw _ (by simp))
    rw [if_pos (by simp; omega)]
    cases ws with
    | nil => simp [hz]
    | cons v ws =>
      rw [List.head?_append, ih f (by simp at hf ⊢; omega) (fun w hx => hw w (by simp [hx])) (by simp)]
      rfl

end

theorem ends_head (ht : TableOk P tab gc) (n : Nat) : ∀ (r : Rfc9485.Re) (F : Nat → Prop), accepted tab r = true → Named P r → Deterministic gc r F →
    ∀ w e, Lang gc r w → Starts F e → (ends n (toGo tab r) (w ++ e)).head? = some e := by
  intro r
  induction r with
  | set neg items =>
    intro F ha hn _ w e hw _
    have := (ends_finds ht n (.set neg items) ha hn (w ++ e) e).mpr ⟨w, rfl, hw⟩
    obtain ⟨c, rfl, -⟩ := hw
    simp only [toGo, ends, List.cons_append, List.nil_append] at this ⊢
    split at this
    · rename_i hb; rw [if_pos hb]; rfl
    · simp at this
  | eps =>
    intro F _ _ _ w e hw _
    obtain rfl := hw
    rfl
  | cat a b iha ihb =>
    intro F ha hn hd w e hw he
    simp only [accepted, Bool.and_eq_true] at ha
    obtain ⟨x, y, rfl, hx, hy⟩ := hw
    simp only [toGo, ends, List.append_assoc]
    refine head_flatMap (iha _ ha.1 hn.1 hd.1 x (y ++ e) hx ?_) (ihb _ ha.2 hn.2 hd.2 y e hy he)
    intro c u h
    cases y with
    | nil => exact .inr ⟨hy, he c u h⟩
    | cons d y =>
      simp only [List.cons_append, List.cons.injEq] at h
      exact .inl ⟨y, h.1 ▸ hy⟩
  | alt a b iha ihb =>
    intro F ha hn hd w e hw he
    simp only [accepted, Bool.and_eq_true] at ha
    simp only [toGo, ends]
    rcases hw with hw | hw
    · rw [List.head?_append, iha _ ha.1 hn.1 hd.2.2.1 w e hw he]; rfl
    · rw [no_ends (ends_finds ht n a ha.1 hn.1) hd.1, List.nil_append, ihb _ ha.2 hn.2 hd.2.2.2 w e hw he]
      intro c u h hf
      refine hd.2.1 c hf ?_
      cases w with
      | nil => exact .inr ⟨hw, he c u h⟩
      | cons d w =>
        simp only [List.cons_append, List.cons.injEq] at h
        exact .inl ⟨w, h.1 ▸ hw⟩
  | rep lo hi r ih =>
    intro F ha hn hd w e hw he
    simp only [accepted, Bool.and_eq_true] at ha
    have hf := ends_finds ht n r ha.1.1 hn
    have hm := ih _ ha.1.1 hn hd.2
    have hb := ha.1.2
    have hne : hi ≠ some lo → ends n (toGo tab r) e = [] := fun hx =>
      no_ends hf (hd.1 hx).1 fun c u h hc => (hd.1 hx).2 c hc (he c u h)
    obtain ⟨ws, rfl, h1, h2, h3⟩ := hw
    have hsplit : ∀ k, ws.flatten = (ws.take k).flatten ++ (ws.drop k).flatten := by
      intro k; rw [← List.flatten_append, List.take_append_drop]
    have hcop : ∀ k, k ≤ ws.length → (copies (ends n (toGo tab r)) k (ws.flatten ++ e)).head? = some ((ws.drop k).flatten ++ e) := by
      intro k hk
      have := copies_head (F := fun c => (∃ w, Lang gc r (c :: w)) ∨ F c) (L := Lang gc r) (m := ends n (toGo tab r))
        (fun w e hw he => hm w e hw (fun c u h => by exact (he c u h).elim .inl id))
        (starts_rest (ws := ws.drop k) (fun w hx => h3 w (List.mem_of_mem_drop hx)) he) (ws.take k) (fun w hx => h3 w (List.mem_of_mem_take hx))
      rw [List.length_take, Nat.min_eq_left hk, ← List.append_assoc, ← hsplit] at this
      exact this
    have hd3 : ∀ k, ∀ w ∈ ws.drop k, Lang gc r w := fun k w hx => h3 w (List.mem_of_mem_drop hx)
    cases hi with
    | some m =>
      have h2 := h2 m rfl
      simp only [toGo, ends]
      refine head_flatMap (hcop lo h1) ?_
      by_cases hx : m = lo
      · subst hx
        rw [show ws.drop m = [] from List.drop_of_length_le (by omega), Nat.sub_self]
        rfl
      · exact atMost_head hm he (hne (by simpa using hx)) (ws.drop lo) _ (by simp; omega) (hd3 lo)
    | none =>
      have h0 := (hd.1 (by simp)).1
      replace hne := hne (by simp)
      cases lo with
      | zero =>
        simp only [toGo, ends]
        cases ws with
        | nil =>
          have : plus (ends n (toGo tab r)) (e.length + 1) e = [] := by simp [plus, hne]
          simp [this]
        | cons w ws =>
          rw [List.head?_append, plus_head hm he hne h0 (w :: ws) _ (by omega) h3 (by simp)]
          rfl
      | succ lo =>
        simp only [toGo, ends]
        refine head_flatMap (hcop lo (by omega)) ?_
        exact plus_head hm he hne h0 (ws.drop lo) _ (by omega) (hd3 lo) (by
          intro h; have := congrArg List.length h; simp at this; omega)

/-- A deterministic pattern matches the whole string if the string is in the language. -/
theorem find_det {t : List Nat} (ht : TableOk (Mentions t) tab gc) {r} (h : IRegexp t r) (ha : accepted tab r = true)
    (hd : Deterministic gc r fun _ => False) {s : Bytes} {cs : List Nat} (hs : Chars s cs) (hw : Lang gc r cs) :
    find (toGo tab r) s = some (0, s.length) := by
  rw [find_match ht h ha hs]
  have := ends_head ht cs.length r _ ha (named h) hd cs [] hw (by intro c u h; simp at h)
  rwa [List.append_nil] at this

/-- Without counts nothing is too much. -/
theorem uncounted_valid {known : List Nat → Prop} : ∀ {r : Rfc9485.Re}, Uncounted known r → ∀ n, 1 ≤ n → repeatValid n (toGo tab r) = true := by
  intro r
  induction r with
  | set neg items => intro _ n _; rfl
  | eps => intro _ n _; rfl
  | cat a b iha ihb => intro h n hn; simp [toGo, repeatValid, iha h.1 n hn, ihb h.2 n hn]
  | alt a b iha ihb => intro h n hn; simp [toGo, repeatValid, iha h.1 n hn, ihb h.2 n hn]
  | rep lo hi r ih =>
    intro h n hn
    have := ih h.2 n hn
    rcases h.1 with ⟨rfl, rfl⟩ | ⟨rfl, rfl⟩ | ⟨rfl, rfl⟩
    · simp [toGo, repeatValid, this]
    · simp [toGo, repeatValid, this]; omega
    · simp [toGo, repeatValid, this]; omega

theorem uncounted_accepted : ∀ {r : Rfc9485.Re}, Uncounted (fun n => (tab n).isSome = true) r → accepted tab r = true := by
  intro r
  induction r with
  | set neg items =>
    intro h
    simp only [accepted, List.all_eq_true]
    intro i hi
    cases i with
    | range => rfl
    | cat b n => exact h b n hi
  | eps => intro _; rfl
  | cat a b iha ihb => intro h; simp [accepted, iha h.1, ihb h.2]
  | alt a b iha ihb => intro h; simp [accepted, iha h.1, ihb h.2]
  | rep lo hi r ih =>
    intro h
    have := uncounted_valid (tab := tab) h 1000 (by omega)
    simp only [toGo] at this
    simp only [accepted, ih h.2, this]
    rcases h.1 with ⟨rfl, rfl⟩ | ⟨rfl, rfl⟩ | ⟨rfl, rfl⟩ <;> decide

end Verif.GoRe
