import Verif.JsonColl
import Verif.EncSpec
import Verif.JsonStream

/-!
# What the JSON encoder prints is JSON text
-/

set_option linter.unusedSimpArgs false
set_option linter.unusedVariables false

namespace Verif
namespace Enc

open Rfc8259 EncSpec

theorem ws_nil : Ws [] := by intro b hb; cases hb
theorem ws_sp : Ws [0x20] := by intro b hb; simp at hb; exact .inl hb
theorem ws_nl : Ws [0x0A] := by intro b hb; simp at hb; simp [hb]
theorem ws_append {a b} (ha : Ws a) (hb : Ws b) : Ws (a ++ b) := by
  intro x hx
  rcases List.mem_append.1 hx with h | h
  · exact ha x h
  · exact hb x h

theorem ws_nlBytes (pc lvl) : Ws (nlBytes pc lvl) := by
  intro b hb
  unfold nlBytes at hb
  split at hb
  · cases hb
  · rcases List.mem_cons.1 hb with h | h
    · simp [h]
    · rw [(List.mem_replicate.1 h).2]; exact .inl rfl

/-- The hints a decoder sets. -/
def canon (s : Scalar) : Scalar :=
  match s.type with
  | .str =>
    let c := s.bytes.tail.dropLast
    { s with alnum := alnumFlag c, unesc := !c.contains 0x5C }
  | _ => { s with alnum := false, unesc := false }

theorem text_canon {S : Bytes → Prop} {s : Scalar} {b} (h : Text S (.scalar s) b) : b = s.bytes ∧ canon s = s ∧ s.key = false ∧
    (s.type = .str → ∃ c, S c ∧ s = strScalar c) := by
  cases h with
  | true => exact ⟨rfl, rfl, rfl, by simp⟩
  | false => exact ⟨rfl, rfl, rfl, by simp⟩
  | null => exact ⟨rfl, rfl, rfl, by simp⟩
  | num h => exact ⟨rfl, rfl, rfl, by simp⟩
  | str h =>
    refine ⟨rfl, ?_, rfl, fun _ => ⟨_, h, rfl⟩⟩
    simp [canon, strScalar]

theorem canon_forget (s : Scalar) : forgetFlags (canon s) = forgetFlags s := by
  unfold canon; split <;> rfl

theorem canon_hints (s : Scalar) (a u : Bool) : canon { s with alnum := a, unesc := u } = canon s := by
  unfold canon; cases s.type <;> rfl

theorem canon_key (s : Scalar) (k : Bool) : canon { s with key := k } = { canon s with key := k } := by
  unfold canon; cases s.type <;> rfl

theorem spelled_text {S : Bytes → Prop} {s : Scalar} (h : SpelledScalar S s) :
    Text S (.scalar { canon s with key := false }) s.bytes := by
  obtain ⟨a, u, h⟩ := h
  have h1 := (text_canon h).2.1
  have h2 : canon { s with key := false, alnum := a, unesc := u } = { canon s with key := false } := by
    rw [show ({ s with key := false, alnum := a, unesc := u } : Scalar) =
      { ({ s with alnum := a, unesc := u } : Scalar) with key := false } from rfl, canon_key, canon_hints]
  rw [← h2, h1]
  exact h

theorem spelled_key {S : Bytes → Prop} {s : Scalar} (h : SpelledScalar S s) (ht : s.type = .str) (hk : s.key = true) :
    ∃ c, S c ∧ canon s = { strScalar c with key := true } ∧ s.bytes = 0x22 :: (c ++ [0x22]) := by
  have h1 := spelled_text h
  obtain ⟨e1, e2, e3, e4⟩ := text_canon h1
  obtain ⟨c, hc, e⟩ := e4 (by simp only [canon, ht])
  refine ⟨c, hc, ?_, ?_⟩
  · rw [← e]
    have : (canon s).key = s.key := by unfold canon; cases s.type <;> rfl
    cases hcs : canon s with
    | mk b t k a u => rw [hcs] at this; simp at this; simp [this, hk]
  · rw [e1, e]; rfl

theorem render_bal {pc lvl l l'} (h : Balanced pc l) : render pc lvl (l ++ l') = render pc lvl l ++ render pc lvl l' := by
  rw [render_append, (h lvl).1]

theorem render_comp (pc lvl x r) (hx : Balanced pc x) :
    render pc lvl (x ++ compactSep :: r) = render pc lvl x ++ 0x2C :: 0x20 :: render pc lvl r := by
  rw [render_bal hx]
  simp [compactSep]

theorem render_line (pc lvl x r) (hx : Balanced pc x) :
    render pc lvl (x ++ itemSep :: .newLine :: r) = render pc lvl x ++ 0x2C :: (nlBytes pc lvl ++ render pc lvl r) := by
  rw [render_bal hx]
  simp [itemSep]

theorem render_coll_flat (pc lvl o c e l) (hl : ∀ x ∈ l, Balanced pc x) :
    render pc lvl (flat (.bytes o) (.bytes c) l e) =
      o ++ (render pc lvl (sepBy [compactSep] l) ++ ((if e then b%"..." else []) ++ c)) := by
  have : Balanced pc (sepBy [compactSep] l) := by
    cases l with
    | nil => exact balanced_nil pc
    | cons x l => exact (joined_flat (x :: l) (by simp)).balanced hl
  simp only [flat]
  rw [render_cons_bytes, List.append_assoc, render_bal this]
  cases e <;> simp [elisionOp]

theorem render_coll_broken {pc lvl o c} {e : Bool} {l r} (hj : Joined l r) (hl : ∀ x ∈ l, Balanced pc x) :
    render pc lvl (.bytes o :: .indent :: (r ++ ((if e then [.newLine, elisionOp] else []) ++ [.dedent, .bytes c]))) =
      o ++ (nlBytes pc (lvl + 1) ++ (render pc (lvl + 1) r ++ ((if e then nlBytes pc (lvl + 1) ++ b%"..." else []) ++
        (nlBytes pc lvl ++ c)))) := by
  rw [render_cons_bytes, render_cons_indent, render_bal (hj.balanced hl)]
  have : lvl + 1 - 1 = lvl := by omega
  cases e <;> simp [elisionOp, this]

/-! ## Items and members as texts -/

theorem joined_items {pc : PrinterCfg} {S : Bytes → Prop} {cfg : EncCfg} {f : JVal → JVal} {lvl : Int} {l r} (h : Joined l r) :
    ∀ vs : List JVal, l = vs.map (layout cfg) → (∀ v ∈ vs, Text S (f v) (render pc lvl (layout cfg v))) →
      ∀ w w', Ws w → Ws w' → Items S (vs.map f) (w ++ (render pc lvl r ++ w')) := by
  induction h with
  | one x =>
    intro vs hv hT w w' hw hw'
    match vs, hv with
    | [v], hv =>
      simp at hv
      rw [hv]
      exact .one hw (hT v (by simp)) hw'
  | comp h ih =>
    intro vs hv hT w w' hw hw'
    match vs, hv with
    | v :: vs, hv =>
      simp at hv
      obtain ⟨rfl, hv'⟩ := hv
      rw [render_comp _ _ _ _ (layout_balanced pc cfg v)]
      have := Items.more hw (hT v (by simp)) ws_nil (ih vs hv' (fun v hv => hT v (by simp [hv])) [0x20] w' ws_sp hw')
      simpa using this
  | line h ih =>
    intro vs hv hT w w' hw hw'
    match vs, hv with
    | v :: vs, hv =>
      simp at hv
      obtain ⟨rfl, hv'⟩ := hv
      rw [render_line _ _ _ _ (layout_balanced pc cfg v)]
      have := Items.more hw (hT v (by simp)) ws_nil
        (ih vs hv' (fun v hv => hT v (by simp [hv])) (nlBytes pc lvl) w' (ws_nlBytes _ _) hw')
      simpa using this

theorem layMember_balanced (pc cfg m) : Balanced pc (layMember cfg m) :=
  (printScalar_balanced pc _ _).append (balanced_cons_bytes _ (layout_balanced pc cfg _))

theorem render_member {pc cfg lvl} (hc : cfg.color = none) (m : Scalar × JVal) :
    render pc lvl (layMember cfg m) = m.1.bytes ++ 0x3A :: 0x20 :: render pc lvl (layout cfg m.2) := by
  simp only [layMember]
  rw [render_bal (printScalar_balanced pc _ _)]
  simp [keySep, hc, printScalar]

theorem joined_members {pc : PrinterCfg} {S : Bytes → Prop} {cfg : EncCfg} {f : JVal → JVal} {g : Scalar → Scalar} {lvl : Int}
    (hc : cfg.color = none) {l r} (h : Joined l r) :
    ∀ ms : List (Scalar × JVal), l = ms.map (layMember cfg) →
      (∀ m ∈ ms, ∃ c, S c ∧ g m.1 = { strScalar c with key := true } ∧ m.1.bytes = 0x22 :: (c ++ [0x22])) →
      (∀ m ∈ ms, Text S (f m.2) (render pc lvl (layout cfg m.2))) →
      ∀ w w', Ws w → Ws w' → Members S (ms.map fun m => (g m.1, f m.2)) (w ++ (render pc lvl r ++ w')) := by
  induction h with
  | one x =>
    intro vs hv hk hT w w' hw hw'
    match vs, hv with
    | [v], hv =>
      simp at hv
      obtain ⟨c, h1, h2, h3⟩ := hk v (by simp)
      rw [hv, render_member hc, h3]
      have := Members.one hw h1 ws_nil ws_sp (hT v (by simp)) hw'
      simpa [h2] using this
  | comp h ih =>
    intro vs hv hk hT w w' hw hw'
    match vs, hv with
    | v :: vs, hv =>
      simp at hv
      obtain ⟨rfl, hv'⟩ := hv
      obtain ⟨c, h1, h2, h3⟩ := hk v (by simp)
      rw [render_comp _ _ _ _ (layMember_balanced pc cfg v), render_member hc, h3]
      have := Members.more hw h1 ws_nil ws_sp (hT v (by simp)) ws_nil
        (ih vs hv' (fun v hv => hk v (by simp [hv])) (fun v hv => hT v (by simp [hv])) [0x20] w' ws_sp hw')
      simpa [h2] using this
  | line h ih =>
    intro vs hv hk hT w w' hw hw'
    match vs, hv with
    | v :: vs, hv =>
      simp at hv
      obtain ⟨rfl, hv'⟩ := hv
      obtain ⟨c, h1, h2, h3⟩ := hk v (by simp)
      rw [render_line _ _ _ _ (layMember_balanced pc cfg v), render_member hc, h3]
      have := Members.more hw h1 ws_nil ws_sp (hT v (by simp)) ws_nil
        (ih vs hv' (fun v hv => hk v (by simp [hv])) (fun v hv => hT v (by simp [hv])) (nlBytes pc lvl) w' (ws_nlBytes _ _) hw')
      simpa [h2] using this

theorem render_scalar {pc lvl} {cfg : EncCfg} (hc : cfg.color = none) (s : Scalar) :
    render pc lvl (layout cfg (.scalar s)) = s.bytes := by
  rw [layout_scalar]; simp [printScalar, hc]

theorem layout_text (pc : PrinterCfg) {S : Bytes → Prop} {cfg : EncCfg} (hc : cfg.color = none) (v : JVal)
    (hs : Spelled S v) (hn : Complete v) : ∀ lvl, Text S (mapScalars canon v) (render pc lvl (layout cfg v)) := by
  induction v using JVal.induct with
  | scalar s =>
    intro lvl
    cases hs with
    | scalar hk h =>
      rw [render_scalar hc, mapScalars_scalar]
      have := spelled_text h
      have hk' : (canon s).key = false := by rw [← hk]; unfold canon; cases s.type <;> rfl
      have he : ({ canon s with key := false } : Scalar) = canon s := by
        cases hcs : canon s with
        | mk b t k a u => rw [hcs] at hk'; simp at hk'; simp [hk']
      rwa [he] at this
  | arr l e ih =>
    intro lvl
    cases hs with
    | arr hs =>
    cases hn with
    | arr hn =>
    have hb : ∀ x ∈ l.map (layout cfg), Balanced pc x := by
      simp only [List.mem_map]; rintro x ⟨v, _, rfl⟩; exact layout_balanced pc cfg v
    rw [mapScalars_arr]
    have hlay := layout_arr cfg l false
    generalize layout cfg (.arr l false) = r at hlay
    cases hlay with
    | flat _ =>
      rw [openArr, closeArr, render_coll_flat _ _ _ _ _ _ hb]
      cases l with
      | nil => simpa [sepBy] using Text.arr0 (S := S) ws_nil
      | cons v l =>
        have := joined_items (joined_flat ((v :: l).map (layout cfg)) (by simp)) (v :: l) rfl
          (fun v hv => ih v hv (hs v hv) (hn v hv) lvl) [] [] ws_nil ws_nil
        simpa using Text.arr this
    | broken hj =>
      rw [openArr, closeArr, render_coll_broken hj hb]
      have := joined_items hj l rfl (fun v hv => ih v hv (hs v hv) (hn v hv) (lvl + 1)) _ _ (ws_nlBytes pc (lvl + 1))
        (ws_nlBytes pc lvl)
      simpa using Text.arr this
  | obj l e ih =>
    intro lvl
    cases hs with
    | obj hk hs =>
    cases hn with
    | obj hn =>
    have hb : ∀ x ∈ l.map (layMember cfg), Balanced pc x := by
      simp only [List.mem_map]; rintro x ⟨v, _, rfl⟩; exact layMember_balanced pc cfg v
    have hkeys : ∀ m ∈ l, ∃ c, S c ∧ canon m.1 = { strScalar c with key := true } ∧ m.1.bytes = 0x22 :: (c ++ [0x22]) :=
      fun m hm => spelled_key (hk m hm).2.2 (hk m hm).2.1 (hk m hm).1
    rw [mapScalars_obj]
    have hlay := layout_obj cfg l false
    generalize layout cfg (.obj l false) = r at hlay
    cases hlay with
    | flat _ =>
      rw [openObj, closeObj, render_coll_flat _ _ _ _ _ _ hb]
      cases l with
      | nil => simpa [sepBy] using Text.obj0 (S := S) ws_nil
      | cons v l =>
        have := joined_members (g := canon) hc (joined_flat ((v :: l).map (layMember cfg)) (by simp)) (v :: l) rfl hkeys
          (fun v hv => ih v hv (hs v hv) (hn v hv) lvl) [] [] ws_nil ws_nil
        simpa using Text.obj this
    | broken hj =>
      rw [openObj, closeObj, render_coll_broken hj hb]
      have := joined_members (g := canon) hc hj l rfl hkeys
        (fun v hv => ih v hv (hs v hv) (hn v hv) (lvl + 1)) _ _ (ws_nlBytes pc (lvl + 1))
        (ws_nlBytes pc lvl)
      simpa using Text.obj this

/-! ## Streams -/

theorem render_layoutAll (pc : PrinterCfg) (cfg : EncCfg) : ∀ vs : List JVal,
    render pc 0 (layoutAll cfg vs) = vs.flatMap fun v => render pc 0 (layout cfg v) ++ [0x0A] := by
  intro vs
  induction vs with
  | nil => rfl
  | cons v vs ih =>
    simp only [layoutAll, List.flatMap_cons, List.append_assoc] at ih ⊢
    rw [render_bal (layout_balanced pc cfg v), List.singleton_append, render_cons_reset, ih]
    simp

theorem layoutAll_stream (pc : PrinterCfg) {S : Bytes → Prop} {cfg : EncCfg} (hc : cfg.color = none) (vs : List JVal)
    (hs : ∀ v ∈ vs, Spelled S v) (hn : ∀ v ∈ vs, Complete v) :
    ∀ w, Ws w → SepStream S (vs.map (mapScalars canon)) (w ++ render pc 0 (layoutAll cfg vs)) := by
  rw [render_layoutAll]
  induction vs with
  | nil => intro w hw; simpa using SepStream.nil hw
  | cons v vs ih =>
    intro w hw
    have h1 := layout_text pc hc v (hs v (by simp)) (hn v (by simp)) 0
    have h2 := ih (fun v hv => hs v (by simp [hv])) (fun v hv => hn v (by simp [hv])) [0x0A] ws_nl
    have := SepStream.cons hw h1 (by
      intro _ x r' e
      simp at e
      rw [← e.1]
      unfold NumCont Digit
      decide) h2
    simpa using this

theorem hinted_canon {S : Bytes → Prop} {v : JVal} (h : Hinted S v) : mapScalars canon v = v := by
  induction v using JVal.induct with
  | scalar s =>
    cases h with
    | scalar h => simp [(text_canon h).2.1]
  | arr l e ih =>
    cases h with
    | arr h =>
      simp only [mapScalars_arr, JVal.arr.injEq, and_true]
      conv => rhs; rw [← List.map_id l]
      exact List.map_congr_left fun v hv => ih v hv (h v hv)
  | obj l e ih =>
    cases h with
    | obj hk h =>
      simp only [mapScalars_obj, JVal.obj.injEq, and_true]
      conv => rhs; rw [← List.map_id l]
      refine List.map_congr_left fun m hm => ?_
      obtain ⟨k, v⟩ := m
      have h1 := (text_canon (hk _ hm)).2.1
      rw [canon_key] at h1
      have h2 : canon k = k := by
        have h3 : (canon k).key = k.key := by unfold canon; cases k.type <;> rfl
        cases hck : canon k
        cases k
        rw [hck] at h1 h3
        simp at h1 h3 ⊢
        exact ⟨h1.1, h1.2.1, h3, h1.2.2.1, h1.2.2.2⟩
      simp [ih _ hm (h _ hm), h2]

theorem canon_toks (v : JVal) : (mapScalars canon v).toks.map forgetTok = v.toks.map forgetTok := by
  induction v using JVal.induct with
  | scalar s => simp [forgetTok, canon_forget]
  | arr l e ih =>
    have : (JVal.toks.itemToks (l.map (mapScalars canon))).map forgetTok = (JVal.toks.itemToks l).map forgetTok := by
      clear e
      induction l with
      | nil => simp
      | cons v l ihl =>
        simp [ih v (by simp), ihl fun v hv => ih v (by simp [hv])]
    simp [this]
  | obj l e ih =>
    have : (JVal.toks.memberToks (l.map fun m => (canon m.1, mapScalars canon m.2))).map forgetTok =
        (JVal.toks.memberToks l).map forgetTok := by
      clear e
      induction l with
      | nil => simp
      | cons m l ihl =>
        obtain ⟨k, v⟩ := m
        simp [ih _ (List.mem_cons_self ..), ihl fun v hv => ih v (by simp [hv]), forgetTok, canon_forget]
    simp [this]

end Enc
end Verif
