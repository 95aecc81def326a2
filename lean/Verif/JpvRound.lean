import Verif.JpvTree
import Verif.JpvGrammar
import Verif.JpvLayout
import Verif.JpvRun
import Verif.JsonRound

/-!
# From values to JPV and back (helper lemmas)
-/

set_option linter.unusedSimpArgs false
set_option linter.unusedVariables false

namespace Verif.JpvRound
open Rfc8259 EncSpec Enc JpvSpec JpvTree JpvPure Jpv JVal.toks JpvGrammar

/-! ## The decoder on lines -/

/-- Lines, with white space after each of them. -/
inductive Lined : List Ent → List Bytes → Prop
  | nil : Lined [] []
  | cons {p v l w es ls} : Line p v l → Ws w → Lined es ls → Lined ((p, v) :: es) ((l ++ w) :: ls)

theorem Lined.select {es ls} (h : Lined es ls) : ∀ m, Lined (select es m) (select ls m) := by
  induction h with
  | nil => intro m; simp [JpvSpec.select]; exact .nil
  | cons h1 h2 h3 ih =>
    intro m
    cases m with
    | nil => simp [JpvSpec.select]; exact .nil
    | cons b m =>
      simp only [JpvSpec.select]
      split
      · exact .cons h1 h2 (ih m)
      · exact ih m

theorem line_head {p v l} (h : Line p v l) : ∃ l', l = 0x24 :: l' := by
  obtain ⟨h, w, t, ⟨b, w', -, -, rfl⟩, -, -, rfl⟩ := h
  exact ⟨_, rfl⟩

theorem lined_numEnd {es ls w w'} (h : Lined es ls) (hw : Ws w) (hw' : Ws w') : NumEnd .eof (w ++ (ls.flatten ++ w')) := by
  refine ⟨.inl rfl, ?_⟩
  intro b r e
  cases w with
  | cons a w =>
    simp only [List.cons_append, List.cons.injEq] at e
    have := hw a (by simp)
    rw [← e.1]
    rcases this with rfl | rfl | rfl | rfl <;> (unfold Digit; decide)
  | nil =>
    cases h with
    | nil =>
      cases w' with
      | nil => simp at e
      | cons a w' =>
        simp only [List.flatten_nil, List.nil_append, List.cons.injEq] at e
        have := hw' a (by simp)
        rw [← e.1]
        rcases this with rfl | rfl | rfl | rfl <;> (unfold Digit; decide)
    | cons h1 _ _ =>
      obtain ⟨l', rfl⟩ := line_head h1
      simp only [List.flatten_cons, List.nil_append, List.cons_append, List.cons.injEq] at e
      rw [← e.1]
      unfold Digit; decide

theorem produce_lined {w' : Bytes} (hw' : Ws w') (vf : Nat) : ∀ {es : List Ent} {ls : List Bytes}, Lined es ls →
    ∀ {n : Nat} {last : List Scalar} {w : Bytes} {ts last'}, Ws w → proc last es = .ok (ts, last') →
      (ls.flatten).length < n → 2 * (w ++ (ls.flatten ++ w')).length + 1 ≤ vf →
      JpvPure.produce .eof vf n last (w ++ (ls.flatten ++ w')) = (ts ++ unwind last' false, some (.ok [])) := by
  intro es ls h
  induction h with
  | nil =>
    intro n last w ts last' hw hp hn hv
    obtain ⟨n, rfl⟩ : ∃ k, n = k + 1 := ⟨n - 1, by omega⟩
    simp only [proc, Except.ok.injEq, Prod.mk.injEq] at hp
    obtain ⟨rfl, rfl⟩ := hp
    have : Pure.ws (w ++ w') = [] := by
      rw [ws_append hw]
      have := ws_append (r := []) hw'
      simpa [Pure.ws] using this
    simp only [JpvPure.produce, List.flatten_nil, List.nil_append, this]
    rfl
  | @cons p v l w1 es ls h1 h2 h3 ih =>
    intro n last w ts last' hw hp hn hv
    obtain ⟨n, rfl⟩ : ∃ k, n = k + 1 := ⟨n - 1, by omega⟩
    simp only [proc] at hp
    cases hu : upd last p with
    | error e => rw [hu] at hp; simp [Except.bind] at hp
    | ok us =>
      rw [hu] at hp
      simp only [Except.bind] at hp
      cases hq : proc p es with
      | error e => rw [hq] at hp; simp [Except.map] at hp
      | ok y =>
        obtain ⟨ts1, last1⟩ := y
        rw [hq] at hp
        simp only [Except.map, Except.ok.injEq, Prod.mk.injEq] at hp
        obtain ⟨rfl, rfl⟩ := hp
        obtain ⟨hd, wv, t, hh, hwv, ht, rfl⟩ := h1
        obtain ⟨hd', hhd⟩ : ∃ hd', hd = 0x24 :: hd' := by
          obtain ⟨b, w'', -, -, rfl⟩ := hh; exact ⟨_, rfl⟩
        have hrest : Pure.ws (w ++ (((hd ++ (wv ++ t) ++ w1) :: ls).flatten ++ w')) =
            0x24 :: (hd' ++ (wv ++ (t ++ (w1 ++ (ls.flatten ++ w'))))) := by
          rw [Verif.ws_append hw, hhd]
          simp only [List.flatten_cons, List.cons_append, List.append_assoc]
          rw [ws_stop (by decide)]
        simp only [JpvPure.produce, hrest]
        rw [if_neg (by decide)]
        have hlen : (w ++ (((hd ++ (wv ++ t) ++ w1) :: ls).flatten ++ w')).length =
            w.length + (hd.length + (wv ++ (t ++ (w1 ++ (ls.flatten ++ w')))).length) := by
          simp only [List.flatten_cons, List.length_append]; omega
        rw [hlen] at hv
        have hc := head_complete (fin := .eof) (fuel := vf) (last := last) (r := wv ++ (t ++ (w1 ++ (ls.flatten ++ w')))) hh
          (by omega)
        rw [hu, hhd] at hc
        simp only [List.cons_append, Except.map] at hc
        rw [hc]
        simp only [line]
        rw [complete ht wv (w1 ++ (ls.flatten ++ w')) vf hwv (fun _ => lined_numEnd h3 h2 hw') (by omega)]
        simp only [body]
        rw [ih h2 hq (by simp only [List.flatten_cons, List.length_append, hhd, List.length_cons] at hn; omega)
          (by simp only [List.length_append] at hv ⊢; omega)]
        simp

/-! ## What the encoder prints -/

/-- An element of a path, as it is printed. -/
def elemText (quote : Bool) (k : Scalar) : Bytes :=
  if k.alnum && !quote then 0x2E :: (k.bytes.drop 1).dropLast else 0x5B :: (k.bytes ++ [0x5D])

/-- A leaf, as it is printed. -/
def leafText : JVal → Bytes
  | .scalar s => s.bytes
  | .arr _ _ => b%"[]"
  | .obj _ _ => b%"{}"

/-- A line without its end. -/
def bodyText (quote : Bool) (x : Ent) : Bytes := 0x24 :: (x.1.flatMap (elemText quote) ++ (b%" = " ++ leafText x.2))

/-- A line. -/
def lineText (quote : Bool) (pc : PrinterCfg) (x : Ent) : Bytes := bodyText quote x ++ nlBytes pc 0

theorem render_elem (pc : PrinterCfg) (quote : Bool) (k : Scalar) (tl : List POp) :
    render pc 0 (JEnc.elemOps ⟨none, quote⟩ k ++ tl) = elemText quote k ++ render pc 0 tl := by
  unfold JEnc.elemOps elemText
  split <;> simp [printScalar]

theorem render_elems (pc : PrinterCfg) (quote : Bool) (tl : List POp) : ∀ p : List Scalar,
    render pc 0 (p.flatMap (JEnc.elemOps ⟨none, quote⟩) ++ tl) = p.flatMap (elemText quote) ++ render pc 0 tl := by
  intro p
  induction p with
  | nil => rfl
  | cons k p ih => simp only [List.flatMap_cons, List.append_assoc]; rw [render_elem, ih]

theorem render_path (pc : PrinterCfg) (quote : Bool) (p : List Scalar) (tl : List POp) :
    render pc 0 (JEnc.pathOps ⟨none, quote⟩ p ++ tl) = 0x24 :: (p.flatMap (elemText quote) ++ (b%" = " ++ render pc 0 tl)) := by
  simp only [JEnc.pathOps, List.cons_append, List.append_assoc, render_cons_bytes]
  rw [render_elems]
  simp

theorem below_kids (p : List Scalar) (k : Scalar) (v : JVal) (l : List (Scalar × JVal)) :
    below p (kidEnts JEnc.indexKey ((k, v) :: l)) = below (p ++ [k]) (ents JEnc.indexKey v) ++ below p (kidEnts JEnc.indexKey l) := by
  simp [below, kidEnts]

theorem render_lay (pc : PrinterCfg) (quote : Bool) (v : JVal) (h : Complete v) : ∀ (p : List Scalar) (tl : List POp),
    render pc 0 (JEnc.lay ⟨none, quote⟩ p v ++ tl) =
      ((below p (ents JEnc.indexKey v)).map (lineText quote pc)).flatten ++ render pc 0 tl := by
  induction v using JVal.induct with
  | scalar s =>
    intro p tl
    simp only [JEnc.lay, List.append_assoc]
    rw [render_path]
    simp [printScalar, below, ents, lineText, bodyText, leafText]
  | arr l e ih =>
    intro p tl
    cases h with
    | arr h =>
      simp only [JEnc.lay, ents]
      by_cases h0 : l.isEmpty = true
      · have : l = [] := by simpa using h0
        subst this
        simp only [JEnc.lay.items, List.nil_append, JEnc.restOps, List.length_nil, beq_self_eq_true, Bool.or_true, if_true,
          List.append_assoc]
        rw [render_path]
        simp [below, lineText, bodyText, leafText]
      · have hr : JEnc.restOps ⟨none, quote⟩ p b%"[]" b%"[...]" l.length false = [] := by
          unfold JEnc.restOps
          rw [if_neg (by simpa using h0)]
        rw [hr, if_neg h0, ents_items, List.append_nil]
        clear hr h0
        generalize 0 = n
        induction l generalizing n tl with
        | nil => simp [JEnc.lay.items, number, kidEnts, below]
        | cons v l ihl =>
          simp only [JEnc.lay.items, number, List.append_assoc]
          rw [ih v (by simp) (h v (by simp)), ihl (fun v hv => ih v (by simp [hv])) _ (fun v hv => h v (by simp [hv])), below_kids]
          simp
  | obj l e ih =>
    intro p tl
    cases h with
    | obj h =>
      simp only [JEnc.lay, ents]
      by_cases h0 : l.isEmpty = true
      · have : l = [] := by simpa using h0
        subst this
        simp only [JEnc.lay.members, List.nil_append, JEnc.restOps, List.length_nil, beq_self_eq_true, Bool.or_true, if_true,
          List.append_assoc]
        rw [render_path]
        simp [below, lineText, bodyText, leafText]
      · have hr : JEnc.restOps ⟨none, quote⟩ p b%"{}" b%"{...}" l.length false = [] := by
          unfold JEnc.restOps
          rw [if_neg (by simpa using h0)]
        rw [hr, if_neg h0, ents_members, List.append_nil]
        clear hr h0
        induction l generalizing tl with
        | nil => simp [JEnc.lay.members, kidEnts, below]
        | cons m l ihl =>
          obtain ⟨k, v⟩ := m
          simp only [JEnc.lay.members, List.append_assoc]
          rw [ih _ (List.mem_cons_self ..) (h _ (List.mem_cons_self ..)),
            ihl (fun v hv => ih v (by simp [hv])) _ (fun v hv => h v (by simp [hv])), below_kids]
          simp

/-- The lines printed for a value. -/
def linesOf (quote : Bool) (pc : PrinterCfg) (v : JVal) : List Bytes := (ents JEnc.indexKey v).map (lineText quote pc)

theorem render_layAll (pc : PrinterCfg) (quote : Bool) : ∀ (vs : List JVal), (∀ v ∈ vs, Complete v) →
    render pc 0 (JEnc.layAll ⟨none, quote⟩ vs) = (vs.map fun v => (linesOf quote pc v).flatten ++ [0x0A]).flatten := by
  intro vs
  induction vs with
  | nil => intro _; rfl
  | cons v vs ih =>
    intro h
    have h1 : JEnc.layAll ⟨none, quote⟩ (v :: vs) = JEnc.lay ⟨none, quote⟩ [] v ++ (.reset :: JEnc.layAll ⟨none, quote⟩ vs) := by
      simp [JEnc.layAll]
    have h2 : ∀ l, below [] l = l := by intro l; simp [below]
    rw [h1, render_lay pc quote v (h v (by simp)), h2, render_cons_reset, ih fun v hv => h v (by simp [hv])]
    simp [linesOf]

/-! ## The text of a line -/

/-- A scalar as the decoder sees it. -/
def dk (quote : Bool) (k : Scalar) : Scalar :=
  if k.key && k.alnum && !quote then { k with unesc := false } else canon k

/-- A key of a path as the decoder sees it. -/
def dkey (quote : Bool) (k : Scalar) : Scalar :=
  if k.type = .num then { bytes := k.bytes ++ [0x5D], type := .num, key := true } else dk quote k

theorem dk_forget (quote : Bool) (k : Scalar) : forgetFlags (dk quote k) = forgetFlags k := by
  unfold dk
  split
  · rfl
  · exact canon_forget k

theorem dk_bytes (quote : Bool) (k : Scalar) : (dk quote k).bytes = k.bytes :=
  show (forgetFlags (dk quote k)).bytes = (forgetFlags k).bytes by rw [dk_forget]
theorem dk_type (quote : Bool) (k : Scalar) : (dk quote k).type = k.type :=
  show (forgetFlags (dk quote k)).type = (forgetFlags k).type by rw [dk_forget]

/-- Keys of paths. -/
def KeyGood (quote : Bool) (k : Scalar) : Prop :=
  (∃ n, k = JEnc.indexKey n) ∨
    (k.key = true ∧ k.type = .str ∧ SpelledScalar LaxChars k ∧ (quote = false → k.alnum = true → Ident k))

/-- Leaves. -/
def LeafGood (v : JVal) : Prop :=
  (∃ s, v = .scalar s ∧ s.key = false ∧ SpelledScalar LaxChars s) ∨ v = .arr [] false ∨ v = .obj [] false

theorem elem_good {quote : Bool} {k : Scalar} (h : KeyGood quote k) : Elem (dkey quote k) (elemText quote k) := by
  rcases h with ⟨n, rfl⟩ | ⟨hk, ht, hs, ha⟩
  · have hd := intPart_digits (itoa_int n)
    have := Elem.index hd.1 hd.2
    simpa [dkey, elemText, JEnc.indexKey] using this
  · unfold dkey elemText
    rw [if_neg (by simp [ht])]
    by_cases hq : (k.alnum && !quote) = true
    · simp only [Bool.and_eq_true, Bool.not_eq_true'] at hq
      obtain ⟨a, as, h1, h2, h3⟩ := ha hq.2 hq.1
      have := Elem.dotted h1 h2
      obtain ⟨b, t, ky, al, un⟩ := k
      simp only at hk ht hq h3
      subst hk ht
      have h4 : (0x22 :: (a :: as ++ [0x22]) : Bytes).drop 1 = (a :: as) ++ [0x22] := rfl
      simp only [dk, hq.1, hq.2, Bool.true_and, Bool.not_false, if_true, h3, h4, List.dropLast_concat]
      exact this
    · obtain ⟨c, h1, h2, h3⟩ := spelled_key hs ht hk
      rw [if_neg hq]
      have : dk quote k = canon k := by
        unfold dk
        rw [if_neg (by simpa [hk] using hq)]
      rw [this, h2, h3]
      have := Elem.quoted h1
      simpa using this

theorem path_good {quote : Bool} : ∀ {p : List Scalar}, (∀ k ∈ p, KeyGood quote k) →
    Path (p.map (dkey quote)) (p.flatMap (elemText quote)) := by
  intro p
  induction p with
  | nil => intro _; exact .nil
  | cons k p ih => intro h; exact .cons (elem_good (h k (by simp))) (ih fun k hk => h k (by simp [hk]))

theorem leaf_good {quote : Bool} {v : JVal} (h : LeafGood v) : Text LaxChars (mapScalars (dk quote) v) (leafText v) := by
  rcases h with ⟨s, rfl, hk, hs⟩ | rfl | rfl
  · have := spelled_text hs
    have e : dk quote s = canon s := by unfold dk; rw [if_neg (by simp [hk])]
    have hk' : (canon s).key = false := by rw [← hk]; unfold canon; cases s.type <;> rfl
    have he : ({ canon s with key := false } : Scalar) = canon s := by
      cases hcs : canon s with
      | mk b t k a u => rw [hcs] at hk'; simp at hk'; simp [hk']
    rw [he] at this
    simpa [leafText, e] using this
  · simpa [leafText] using Text.arr0 (S := LaxChars) ws_nil
  · simpa [leafText] using Text.obj0 (S := LaxChars) ws_nil

theorem line_good {quote : Bool} {x : Ent} (hp : ∀ k ∈ x.1, KeyGood quote k) (hl : LeafGood x.2) :
    Line (x.1.map (dkey quote)) (mapScalars (dk quote) x.2) (bodyText quote x) :=
  ⟨_, [0x20], _, ⟨_, [0x20], path_good hp, ws_sp, rfl⟩, ws_sp, leaf_good hl, by simp [bodyText]⟩

/-- A line as the decoder sees it. -/
def seen (quote : Bool) (x : Ent) : Ent := (x.1.map (dkey quote), mapScalars (dk quote) x.2)

theorem dkey_index (quote : Bool) (n : Nat) : dkey quote (JEnc.indexKey n) = ixKey n := by
  simp [dkey, JEnc.indexKey, ixKey]

theorem dkey_str (quote : Bool) {k : Scalar} (h : k.type = .str) : dkey quote k = dk quote k := by
  simp [dkey, h]

/-- The members as the decoder sees them. -/
theorem kidEnts_map {quote : Bool} : ∀ {l l' : List (Scalar × JVal)},
    l' = l.map (fun m => (dkey quote m.1, mapScalars (dk quote) m.2)) →
    (∀ m ∈ l, ents ixKey (mapScalars (dk quote) m.2) = (ents JEnc.indexKey m.2).map (seen quote)) →
    kidEnts ixKey l' = (kidEnts JEnc.indexKey l).map (seen quote) := by
  intro l
  induction l with
  | nil => rintro l' rfl _; rfl
  | cons m l ih =>
    rintro l' rfl h
    obtain ⟨k, v⟩ := m
    have := h (k, v) (by simp)
    simp only at this
    simp only [List.map_cons, kidEnts, List.map_append, List.map_map, this]
    rw [ih rfl fun m hm => h m (by simp [hm])]
    congr 1

theorem number_map {quote : Bool} : ∀ (l : List JVal) (n : Nat), number ixKey n (l.map (mapScalars (dk quote))) =
    (number JEnc.indexKey n l).map (fun m => (dkey quote m.1, mapScalars (dk quote) m.2)) := by
  intro l
  induction l with
  | nil => intro n; rfl
  | cons v l ih => intro n; simp [number, ih, dkey_index]

theorem ents_map {quote : Bool} {S : Bytes → Prop} {v : JVal} (h : Spelled S v) :
    ents ixKey (mapScalars (dk quote) v) = (ents JEnc.indexKey v).map (seen quote) := by
  induction v using JVal.induct with
  | scalar s => simp [ents, seen]
  | arr l e ih =>
    cases h with
    | arr h =>
      simp only [mapScalars_arr, ents, List.isEmpty_map]
      split
      · simp [seen]
      · rw [ents_items, ents_items]
        refine kidEnts_map (number_map l 0) ?_
        intro m hm
        have := (number_mem hm).1
        exact ih _ this (h _ this)
  | obj l e ih =>
    cases h with
    | obj hk h =>
      simp only [mapScalars_obj, ents, List.isEmpty_map]
      split
      · simp [seen]
      · rw [ents_members, ents_members]
        refine kidEnts_map ?_ fun m hm => ih m hm (h m hm)
        apply List.map_congr_left
        intro m hm
        rw [dkey_str quote (hk m hm).2.1]

/-- The lines of a value are good. -/
def Goods (quote : Bool) (v : JVal) : Prop :=
  ∀ x ∈ ents JEnc.indexKey v, (∀ k ∈ x.1, KeyGood quote k) ∧ LeafGood x.2

theorem goods_kids {quote : Bool} : ∀ {l : List (Scalar × JVal)}, (∀ m ∈ l, KeyGood quote m.1 ∧ Goods quote m.2) →
    ∀ x ∈ kidEnts JEnc.indexKey l, (∀ k ∈ x.1, KeyGood quote k) ∧ LeafGood x.2 := by
  intro l
  induction l with
  | nil => intro _ x hx; cases hx
  | cons m l ih =>
    intro h x hx
    obtain ⟨k, v⟩ := m
    simp only [kidEnts, List.mem_append, List.mem_map] at hx
    rcases hx with ⟨y, hy, rfl⟩ | hx
    · obtain ⟨h1, h2⟩ := h (k, v) (by simp)
      obtain ⟨h3, h4⟩ := h2 y hy
      refine ⟨?_, h4⟩
      intro k' hk'
      rcases List.mem_cons.1 hk' with rfl | hk'
      · exact h1
      · exact h3 k' hk'
    · exact ih (fun m hm => h m (by simp [hm])) x hx

theorem goods {quote : Bool} {v : JVal} (h : Spelled LaxChars v) (hc : Complete v) (ha : quote = false → TrueAlnum v) :
    Goods quote v := by
  induction v using JVal.induct with
  | scalar s =>
    cases h with
    | scalar hk hs =>
      intro x hx
      simp only [ents, List.mem_singleton] at hx
      subst hx
      exact ⟨by simp, .inl ⟨s, rfl, hk, hs⟩⟩
  | arr l e ih =>
    cases h with
    | arr h =>
      cases hc with
      | arr hc =>
        intro x hx
        simp only [ents] at hx
        split at hx
        · rename_i h0
          simp only [List.mem_singleton] at hx
          subst hx
          have : l = [] := by simpa using h0
          subst this
          exact ⟨by simp, .inr (.inl rfl)⟩
        · rw [ents_items] at hx
          refine goods_kids ?_ x hx
          intro m hm
          obtain ⟨h1, n, -, -, h2⟩ := number_mem hm
          refine ⟨.inl ⟨n, h2⟩, ih _ h1 (h _ h1) (hc _ h1) fun hq => ?_⟩
          cases ha hq with
          | arr ha => exact ha _ h1
  | obj l e ih =>
    cases h with
    | obj hk h =>
      cases hc with
      | obj hc =>
        intro x hx
        simp only [ents] at hx
        split at hx
        · rename_i h0
          simp only [List.mem_singleton] at hx
          subst hx
          have : l = [] := by simpa using h0
          subst this
          exact ⟨by simp, .inr (.inr rfl)⟩
        · rw [ents_members] at hx
          refine goods_kids ?_ x hx
          intro m hm
          obtain ⟨h1, h2, h3⟩ := hk m hm
          refine ⟨.inr ⟨h1, h2, h3, fun hq => ?_⟩, ih _ hm (h _ hm) (hc _ hm) fun hq => ?_⟩
          · cases ha hq with
            | obj ha _ => exact ha m hm
          · cases ha hq with
            | obj _ ha => exact ha m hm

theorem lined_good {quote : Bool} (pc : PrinterCfg) : ∀ {es : List Ent},
    (∀ x ∈ es, (∀ k ∈ x.1, KeyGood quote k) ∧ LeafGood x.2) → Lined (es.map (seen quote)) (es.map (lineText quote pc)) := by
  intro es
  induction es with
  | nil => intro _; exact .nil
  | cons x es ih =>
    intro h
    have := h x (by simp)
    exact .cons (line_good this.1 this.2) (ws_nlBytes pc 0) (ih fun x hx => h x (by simp [hx]))

/-- The printed lines are lines of the value as the decoder sees it. -/
theorem lined {quote : Bool} (pc : PrinterCfg) {v : JVal} (h : Spelled LaxChars v) (hc : Complete v)
    (ha : quote = false → TrueAlnum v) : Lined (ents ixKey (mapScalars (dk quote) v)) (linesOf quote pc v) := by
  rw [ents_map h]
  exact lined_good pc (goods h hc ha)

/-! ## Different keys -/

theorem scalarEqual_self {k : Scalar} (h : k.type = .str) : scalarEqual k k = some true := by
  simp [scalarEqual, h]

theorem unquote_key {k : Scalar} {s : Bytes} (h : KeyStr k s) : GoJson.unquote k.bytes = some s := by
  obtain ⟨c, hb, hd⟩ := h
  have := toStr_ok (k := { bytes := k.bytes, type := .str }) ⟨rfl, c, hb, hd, by simp⟩
  simpa [GoJson.toStr] using this

theorem scalarEqual_other {a b : Scalar} (ha : a.type = .str) (hb : b.type = .str) {s t : Bytes} (h1 : KeyStr a s) (h2 : KeyStr b t)
    (h : s ≠ t) : scalarEqual a b = some false := by
  have e1 := unquote_key h1
  have e2 := unquote_key h2
  have hne : a.bytes ≠ b.bytes := by
    intro e; rw [e, e2] at e1; simp only [Option.some.injEq] at e1; exact h e1.symm
  unfold scalarEqual
  simp only [ha, hb, ne_eq, not_true_eq_false, if_false, if_neg hne, e1, e2]
  split
  · rfl
  · simp [h]

theorem keyStr_dk {quote : Bool} {k : Scalar} {s : Bytes} (h : KeyStr k s) : KeyStr (dk quote k) s := by
  obtain ⟨c, h1, h2⟩ := h
  exact ⟨c, by rw [dk_bytes, h1], h2⟩

theorem sep {quote : Bool} {S : Bytes → Prop} {v : JVal} (h : Spelled S v) (hc : Complete v) (hd : DistinctKeys v) (hs : Short v) :
    Sep (mapScalars (dk quote) v) := by
  induction v using JVal.induct with
  | scalar s => simp only [mapScalars_scalar]; exact .scalar
  | arr l e ih =>
    cases h with
    | arr h =>
      cases hc with
      | arr hc =>
        cases hd with
        | arr hd =>
          cases hs with
          | arr hl hs =>
            simp only [mapScalars_arr]
            refine .arr (by simpa using hl) ?_
            intro v hv
            simp only [List.mem_map] at hv
            obtain ⟨u, hu, rfl⟩ := hv
            exact ih u hu (h u hu) (hc u hu) (hd u hu) (hs u hu)
  | obj l e ih =>
    cases h with
    | obj hk h =>
      cases hc with
      | obj hc =>
        cases hd with
        | obj hx hy hd =>
          cases hs with
          | obj hs =>
            simp only [mapScalars_obj]
            refine .obj ⟨?_, ?_, ?_⟩ ?_
            · intro m hm
              simp only [List.mem_map] at hm
              obtain ⟨u, hu, rfl⟩ := hm
              simp only [dk_type]
              exact (hk u hu).2.1
            · intro m hm
              simp only [List.mem_map] at hm
              obtain ⟨u, hu, rfl⟩ := hm
              apply scalarEqual_self
              simp only [dk_type]
              exact (hk u hu).2.1
            · rw [List.pairwise_map]
              refine hy.imp_of_mem ?_
              intro a b ha hb hab
              obtain ⟨s, h1⟩ := hx a ha
              obtain ⟨t, h2⟩ := hx b hb
              refine scalarEqual_other ?_ ?_ (keyStr_dk h1) (keyStr_dk h2) (hab s t h1 h2)
              · rw [dk_type]; exact (hk a ha).2.1
              · rw [dk_type]; exact (hk b hb).2.1
            · intro m hm
              simp only [List.mem_map] at hm
              obtain ⟨u, hu, rfl⟩ := hm
              exact ih u hu (h u hu) (hc u hu) (hd u hu) (hs u hu)

/-! ## Hints -/

theorem mapScalars_toks {f : Scalar → Scalar} (hf : ∀ s, forgetFlags (f s) = forgetFlags s) (v : JVal) :
    (mapScalars f v).toks.map forgetTok = v.toks.map forgetTok := by
  induction v using JVal.induct with
  | scalar s => simp [forgetTok, hf]
  | arr l e ih =>
    have : (itemToks (l.map (mapScalars f))).map forgetTok = (itemToks l).map forgetTok := by
      clear e
      induction l with
      | nil => simp
      | cons v l ihl => simp [ih v (by simp), ihl fun v hv => ih v (by simp [hv])]
    simp [this]
  | obj l e ih =>
    have : (memberToks (l.map fun m => (f m.1, mapScalars f m.2))).map forgetTok = (memberToks l).map forgetTok := by
      clear e
      induction l with
      | nil => simp
      | cons m l ihl =>
        obtain ⟨k, v⟩ := m
        simp [ih _ (List.mem_cons_self ..), ihl fun v hv => ih v (by simp [hv]), forgetTok, hf]
    simp [this]

theorem leafCount_map (f : Scalar → Scalar) (v : JVal) : leafCount (mapScalars f v) = leafCount v := by
  induction v using JVal.induct with
  | scalar s => simp [leafCount]
  | arr l e ih =>
    simp only [mapScalars_arr, leafCount, List.isEmpty_map]
    congr 1
    clear e
    induction l with
    | nil => rfl
    | cons v l ihl => simp [leafCount.items, ih v (by simp), ihl fun v hv => ih v (by simp [hv])]
  | obj l e ih =>
    simp only [mapScalars_obj, leafCount, List.isEmpty_map]
    congr 1
    clear e
    induction l with
    | nil => rfl
    | cons m l ihl =>
      obtain ⟨k, v⟩ := m
      have := ih _ (List.mem_cons_self ..)
      simp only at this
      simp [leafCount.members, this, ihl fun v hv => ih v (by simp [hv])]

theorem prune_map (f : Scalar → Scalar) (v : JVal) : ∀ m, prune (mapScalars f v) m = (prune v m).map (mapScalars f) := by
  induction v using JVal.induct with
  | scalar s => intro m; simp only [mapScalars_scalar, prune]; split <;> simp
  | arr l e ih =>
    intro m
    have : ∀ m, prune.items (l.map (mapScalars f)) m = (prune.items l m).map (mapScalars f) := by
      clear e m
      induction l with
      | nil => intro m; rfl
      | cons v l ihl =>
        intro m
        simp only [List.map_cons, prune.items, ih v (by simp), leafCount_map, ihl fun v hv => ih v (by simp [hv])]
        cases prune v m <;> simp
    simp only [mapScalars_arr, prune, List.isEmpty_map, this]
    split
    · split <;> simp
    · split <;> simp
  | obj l e ih =>
    intro m
    have : ∀ m, prune.members (l.map fun m => (f m.1, mapScalars f m.2)) m =
        (prune.members l m).map fun m => (f m.1, mapScalars f m.2) := by
      clear e m
      induction l with
      | nil => intro m; rfl
      | cons x l ihl =>
        intro m
        obtain ⟨k, v⟩ := x
        have := ih _ (List.mem_cons_self ..)
        simp only at this
        simp only [List.map_cons, prune.members, this, leafCount_map, ihl fun v hv => ih v (by simp [hv])]
        cases prune v m <;> simp
    simp only [mapScalars_obj, prune, List.isEmpty_map, this]
    split
    · split <;> simp
    · split <;> simp

theorem prune_all (v : JVal) : ∀ n, leafCount v ≤ n → prune v (List.replicate n true) = some v := by
  induction v using JVal.induct with
  | scalar s =>
    intro n hn
    obtain ⟨n, rfl⟩ : ∃ k, n = k + 1 := ⟨n - 1, by simp [leafCount] at hn; omega⟩
    simp [prune, List.replicate_succ]
  | arr l e ih =>
    intro n hn
    have : ∀ n, leafCount.items l ≤ n → prune.items l (List.replicate n true) = l := by
      clear e hn
      induction l with
      | nil => intro n _; rfl
      | cons v l ihl =>
        intro n hn
        simp only [leafCount.items] at hn
        simp only [prune.items, ih v (by simp) n (by omega), List.drop_replicate]
        rw [ihl (fun v hv => ih v (by simp [hv])) _ (by omega)]
        simp
    simp only [leafCount] at hn
    simp only [prune]
    split
    · rename_i h0
      rw [if_pos h0] at hn
      obtain ⟨n, rfl⟩ : ∃ k, n = k + 1 := ⟨n - 1, by omega⟩
      simp [List.replicate_succ]
    · rename_i h0
      rw [if_neg h0] at hn
      rw [this n hn, if_neg h0]
  | obj l e ih =>
    intro n hn
    have : ∀ n, leafCount.members l ≤ n → prune.members l (List.replicate n true) = l := by
      clear e hn
      induction l with
      | nil => intro n _; rfl
      | cons x l ihl =>
        intro n hn
        obtain ⟨k, v⟩ := x
        have := ih _ (List.mem_cons_self ..)
        simp only at this
        simp only [leafCount.members] at hn
        simp only [prune.members, this n (by omega), List.drop_replicate]
        rw [ihl (fun v hv => ih v (by simp [hv])) _ (by omega)]
        simp
    simp only [leafCount] at hn
    simp only [prune]
    split
    · rename_i h0
      rw [if_pos h0] at hn
      obtain ⟨n, rfl⟩ : ∃ k, n = k + 1 := ⟨n - 1, by omega⟩
      simp [List.replicate_succ]
    · rename_i h0
      rw [if_neg h0] at hn
      rw [this n hn, if_neg h0]

/-! ## Encoding and decoding -/

theorem keysOk {S : Bytes → Prop} {v : JVal} (h : Spelled S v) : JEnc.KeysOk v := by
  induction v using JVal.induct with
  | scalar s => exact .scalar
  | arr l e ih =>
    cases h with
    | arr h => exact .arr fun v hv => ih v hv (h v hv)
  | obj l e ih =>
    cases h with
    | obj hk h =>
      refine .obj ?_ fun v hv => ih v hv (h v hv)
      intro m hm _
      obtain ⟨h1, h2, h3⟩ := hk m hm
      obtain ⟨c, -, -, hb⟩ := spelled_key h3 h2 h1
      rw [hb]
      simp

theorem encode_eq (cfg : JEncCfg) (pc : PrinterCfg) (w : Sink) (vs : List JVal) (hk : ∀ v ∈ vs, JEnc.KeysOk v) :
    JEnc.encode cfg pc w (streamToks vs) =
      match w.feed [] (pc.execAll 0 (JEnc.layAll cfg vs)).1 with
      | (b, .error e) => (b, .printerError e)
      | (b, .ok _) => (b, .ok ()) := by
  obtain ⟨h', e1⟩ := JEnc.consume_run cfg vs hk ((streamToks vs).length + 1) (by omega)
  unfold JEnc.encode
  rw [IProg.runW_eq, e1]
  rfl

theorem encode_good (quote : Bool) (pc : PrinterCfg) (vs : List JVal) {S : Bytes → Prop} (hs : ∀ v ∈ vs, Spelled S v)
    (hc : ∀ v ∈ vs, Complete v) :
    JEnc.encode ⟨none, quote⟩ pc goodSink (streamToks vs) =
      ((vs.map fun v => (linesOf quote pc v).flatten ++ [0x0A]).flatten, .ok ()) := by
  rw [encode_eq _ _ _ _ fun v hv => keysOk (hs v hv), Sink.feed_all (w := goodSink) (fun _ _ => rfl)]
  show (render pc 0 (JEnc.layAll ⟨none, quote⟩ vs), _) = _
  rw [render_layAll pc quote vs hc]

/-- The decoder on lines. -/
theorem decode_lined {es : List Ent} {ls : List Bytes} {w : Bytes} (h : Lined es ls) (hw : Ws w) {ts : List Token}
    {last : List Scalar} (hp : proc [] es = .ok (ts, last)) (r : Reader) (size : Nat) (hs : 2 ≤ size) (hf : Fair r.sched)
    (hfin : r.fin = .eof) (hr : r.rest = ls.flatten ++ w) : Jpv.decodeFrom r size = (ts ++ unwind last false, .ok () ()) := by
  rw [jpvDecodeFrom_fair r size hs hf, hfin, hr]
  have := produce_lined hw (Json.fuelFor (ls.flatten ++ w).length) h (n := Json.fuelFor (ls.flatten ++ w).length)
    (w := []) ws_nil hp (by simp only [Json.fuelFor, List.length_append]; omega)
    (by simp only [Json.fuelFor, List.length_append, List.nil_append]; omega)
  simp only [List.nil_append] at this
  rw [this]
  rfl

/-- What is decoded from selected lines. -/
theorem decode_selected {quote : Bool} {pc : PrinterCfg} {v : JVal} (h : Spelled LaxChars v) (hc : Complete v)
    (hd : DistinctKeys v) (hl : Short v) (ha : quote = false → TrueAlnum v) (m : List Bool) {w : Bytes} (hw : Ws w)
    (r : Reader) (size : Nat) (hs : 2 ≤ size) (hf : Fair r.sched) (hfin : r.fin = .eof)
    (hr : r.rest = (select (linesOf quote pc v) m).flatten ++ w) :
    Jpv.decodeFrom r size = (streamToks ((prune v m).map (mapScalars (dk quote))).toList, .ok () ()) := by
  obtain ⟨ts, last, e1, e2⟩ := proc_selected (sep (quote := quote) h hc hd hl) m
  rw [decode_lined ((lined pc h hc ha).select m) hw e1 r size hs hf hfin hr, e2, prune_map]

theorem streamToks_map {f : Scalar → Scalar} (hf : ∀ s, forgetFlags (f s) = forgetFlags s) (vs : List JVal) :
    (streamToks (vs.map (mapScalars f))).map forgetTok = (streamToks vs).map forgetTok := by
  induction vs with
  | nil => rfl
  | cons v vs ih => simp only [List.map_cons, streamToks_cons, List.map_append, mapScalars_toks hf, ih]

theorem dk_true : dk true = canon := by
  funext k; simp [dk]

/-! ## Line breaks -/

theorem nl_utf8 {n : Nat} (h : 0x20 ≤ n) (h' : n < 0x110000) : (0x0A : Byte) ∉ utf8 n := by
  have key : ∀ k : Nat, k < 256 → 0x0A < k → (0x0A : Byte) ≠ .ofNat k := by
    intro k hk h1 e
    have := congrArg UInt8.toNat e
    rw [ofNat_toNat hk] at this
    simp at this
    omega
  unfold utf8
  split
  · simp only [List.mem_singleton]; exact key n (by omega) (by omega)
  · split
    · simp only [List.mem_cons, List.not_mem_nil, or_false, not_or]
      exact ⟨key _ (by omega) (by omega), key _ (by omega) (by omega)⟩
    · split
      · simp only [List.mem_cons, List.not_mem_nil, or_false, not_or]
        exact ⟨key _ (by omega) (by omega), key _ (by omega) (by omega), key _ (by omega) (by omega)⟩
      · simp only [List.mem_cons, List.not_mem_nil, or_false, not_or]
        exact ⟨key _ (by omega) (by omega), key _ (by omega) (by omega), key _ (by omega) (by omega), key _ (by omega) (by omega)⟩

theorem nl_hex {h : Byte} (hh : Hex h) : (0x0A : Byte) ≠ h := by
  rintro rfl; revert hh; unfold Hex; decide

theorem nl_digit {h : Byte} (hh : Digit h) : (0x0A : Byte) ≠ h := by
  rintro rfl; revert hh; unfold Digit; decide

theorem nl_chars {c : Bytes} (h : RfcChars c) : (0x0A : Byte) ∉ c := by
  induction h with
  | nil => simp
  | plain h _ ih =>
    obtain ⟨n, hu, h1, -, -, rfl⟩ := h
    simp only [List.mem_append, not_or]
    exact ⟨nl_utf8 h1 (by rcases hu with hu | hu <;> omega), ih⟩
  | esc h _ ih =>
    simp only [List.mem_cons, not_or]
    refine ⟨by decide, ?_, ih⟩
    rintro rfl
    revert h; unfold RfcEsc; decide
  | uni h1 h2 h3 h4 _ ih =>
    simp only [List.mem_cons, not_or]
    exact ⟨by decide, by decide, nl_hex h1, nl_hex h2, nl_hex h3, nl_hex h4, ih⟩

theorem nl_digits {ds : Bytes} (h : ∀ x ∈ ds, Digit x) : (0x0A : Byte) ∉ ds := fun hm => nl_digit (h _ hm) rfl

theorem nl_number {b : Bytes} (h : Number b) : (0x0A : Byte) ∉ b := by
  obtain ⟨m, i, f, e, hm, hi, hf, he, rfl⟩ := h
  simp only [List.mem_append, not_or]
  refine ⟨?_, nl_digits (intPart_digits hi).2, ?_, ?_⟩
  · rcases hm with rfl | rfl <;> decide
  · rcases hf with rfl | ⟨ds, -, h, rfl⟩
    · simp
    · simp only [List.mem_cons, not_or]; exact ⟨by decide, nl_digits h⟩
  · rcases he with rfl | ⟨e, s, ds, he, hs, -, h, rfl⟩
    · simp
    · simp only [List.mem_cons, List.mem_append, not_or]
      refine ⟨?_, ?_, nl_digits h⟩
      · rcases he with rfl | rfl <;> decide
      · rcases hs with rfl | rfl | rfl <;> decide

theorem nl_scalar {s : Scalar} (h : SpelledScalar RfcChars s) : (0x0A : Byte) ∉ s.bytes := by
  obtain ⟨a, u, h⟩ := h
  generalize hv : JVal.scalar { s with key := false, alnum := a, unesc := u } = v at h
  generalize s.bytes = b at h
  cases h with
  | true => decide
  | false => decide
  | null => decide
  | num h => exact nl_number h
  | str h =>
    simp only [List.mem_cons, List.mem_append, List.not_mem_nil, or_false, not_or]
    exact ⟨by decide, nl_chars h, by decide⟩
  | arr0 _ => cases hv
  | arr _ => cases hv
  | obj0 _ => cases hv
  | obj _ => cases hv

/-- No line breaks in a line. -/
def OneLineEnt (x : Ent) : Prop := (∀ k ∈ x.1, (0x0A : Byte) ∉ k.bytes) ∧ (0x0A : Byte) ∉ leafText x.2

theorem nl_kids : ∀ {l : List (Scalar × JVal)}, (∀ m ∈ l, (0x0A : Byte) ∉ m.1.bytes ∧ ∀ x ∈ ents JEnc.indexKey m.2, OneLineEnt x) →
    ∀ x ∈ kidEnts JEnc.indexKey l, OneLineEnt x := by
  intro l
  induction l with
  | nil => intro _ x hx; cases hx
  | cons m l ih =>
    intro h x hx
    obtain ⟨k, v⟩ := m
    simp only [kidEnts, List.mem_append, List.mem_map] at hx
    rcases hx with ⟨y, hy, rfl⟩ | hx
    · obtain ⟨h1, h2⟩ := h (k, v) (by simp)
      obtain ⟨h3, h4⟩ := h2 y hy
      refine ⟨?_, h4⟩
      intro k' hk'
      rcases List.mem_cons.1 hk' with rfl | hk'
      · exact h1
      · exact h3 k' hk'
    · exact ih (fun m hm => h m (by simp [hm])) x hx

theorem nl_ents {v : JVal} (h : Spelled RfcChars v) : ∀ x ∈ ents JEnc.indexKey v, OneLineEnt x := by
  induction v using JVal.induct with
  | scalar s =>
    cases h with
    | scalar hk hs =>
      intro x hx
      simp only [ents, List.mem_singleton] at hx
      subst hx
      exact ⟨by simp, nl_scalar hs⟩
  | arr l e ih =>
    cases h with
    | arr h =>
      intro x hx
      simp only [ents] at hx
      split at hx
      · simp only [List.mem_singleton] at hx
        subst hx
        exact ⟨by simp, by simp [leafText]⟩
      · rw [ents_items] at hx
        refine nl_kids ?_ x hx
        intro m hm
        obtain ⟨h1, n, -, -, h2⟩ := number_mem hm
        refine ⟨?_, ih _ h1 (h _ h1)⟩
        rw [h2]
        exact nl_digits (intPart_digits (itoa_int n)).2
  | obj l e ih =>
    cases h with
    | obj hk h =>
      intro x hx
      simp only [ents] at hx
      split at hx
      · simp only [List.mem_singleton] at hx
        subst hx
        exact ⟨by simp, by simp [leafText]⟩
      · rw [ents_members] at hx
        refine nl_kids ?_ x hx
        intro m hm
        exact ⟨nl_scalar (hk m hm).2.2, ih _ hm (h _ hm)⟩

theorem nl_body {quote : Bool} {x : Ent} (h : OneLineEnt x) : (0x0A : Byte) ∉ bodyText quote x := by
  simp only [bodyText, List.mem_cons, List.mem_append, not_or, List.mem_flatMap, not_exists, not_and, List.not_mem_nil, not_false_eq_true,
    and_true]
  refine ⟨by decide, ?_, ⟨by decide, by decide, by decide⟩, h.2⟩
  intro k hk
  have := h.1 k hk
  unfold elemText
  split
  · simp only [List.mem_cons, not_or]
    exact ⟨by decide, fun hm => this (List.mem_of_mem_drop ((List.dropLast_sublist _).subset hm))⟩
  · simp only [List.mem_cons, List.mem_append, List.not_mem_nil, or_false, not_or]
    exact ⟨by decide, this, by decide⟩

/-- The lines of proper JSON are lines. -/
theorem lines_proper {quote : Bool} {pc : PrinterCfg} (hpc : 0 ≤ pc.indentSize) {v : JVal} (h : Spelled RfcChars v) :
    ∀ l ∈ linesOf quote pc v, ∃ b, l = b ++ [0x0A] ∧ (0x0A : Byte) ∉ b := by
  intro l hl
  simp only [linesOf, List.mem_map] at hl
  obtain ⟨x, hx, rfl⟩ := hl
  refine ⟨bodyText quote x, ?_, nl_body (nl_ents h x hx)⟩
  simp [lineText, nlBytes, show ¬ pc.indentSize < 0 by omega]

theorem spelled_mono {S S' : Bytes → Prop} (hS : ∀ c, S c → S' c) {v : JVal} (h : Spelled S v) : Spelled S' v := by
  have hsc : ∀ {s : Scalar}, SpelledScalar S s → SpelledScalar S' s := by
    rintro s ⟨a, u, h⟩
    refine ⟨a, u, ?_⟩
    generalize hv : JVal.scalar { s with key := false, alnum := a, unesc := u } = v at h ⊢
    generalize s.bytes = b at h ⊢
    cases h with
    | true => exact .true
    | false => exact .false
    | null => exact .null
    | num h => exact .num h
    | str h => exact .str (hS _ h)
    | arr0 _ => cases hv
    | arr _ => cases hv
    | obj0 _ => cases hv
    | obj _ => cases hv
  induction h with
  | scalar hk hs => exact .scalar hk (hsc hs)
  | arr _ ih => exact .arr ih
  | obj hk _ ih => exact .obj (fun m hm => ⟨(hk m hm).1, (hk m hm).2.1, hsc (hk m hm).2.2⟩) ih

end Verif.JpvRound
