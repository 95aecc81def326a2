import Verif.PrintSpec
import Verif.JpvLayout

/-!
# The JPV encoder in the middle of a value

What the encoder has printed of a value of which the end has not come.
-/

set_option linter.unusedSimpArgs false
set_option linter.unusedVariables false

namespace Verif
open AState IProg JPath JVal.toks

namespace JEnc

/-- What is printed only when the end has come: nothing, or the line of an empty collection. -/
def Left (cfg : JEncCfg) (p : List Scalar) (d : Nat) (ts : List Token) (tail : List POp) : Prop :=
  (tail = [] ∧ ts.getLast? ≠ some .startArr ∧ ts.getLast? ≠ some .startObj) ∨
  (∃ q, q.length = d ∧ tail = pathOps cfg (p ++ q) ++ [.bytes b%"[]", .newLine] ∧ ts.getLast? = some .startArr) ∨
  (∃ q, q.length = d ∧ tail = pathOps cfg (p ++ q) ++ [.bytes b%"{}", .newLine] ∧ ts.getLast? = some .startObj)

theorem Left.under {cfg p k d ts tail} (h : Left cfg (p ++ [k]) d ts tail) (hts : ts ≠ []) (l : List Token) : Left cfg p (d + 1) (l ++ ts) tail := by
  have e : (l ++ ts).getLast? = ts.getLast? := by
    rw [List.getLast?_append]
    cases h : ts.getLast? with
    | none => rw [List.getLast?_eq_none_iff] at h; exact absurd h hts
    | some _ => rfl
  unfold Left
  rw [e]
  rcases h with h | ⟨q, h1, h2, h3⟩ | ⟨q, h1, h2, h3⟩
  · exact .inl h
  · exact .inr (.inl ⟨k :: q, by simp [h1], by simpa using h2, h3⟩)
  · exact .inr (.inr ⟨k :: q, by simp [h1], by simpa using h2, h3⟩)

theorem toks_last (v : JVal) : ∃ t, v.toks.getLast? = some t ∧ t ≠ .startArr ∧ t ≠ .startObj := by
  cases v with
  | scalar s => exact ⟨.scalar s, by simp [JVal.toks], by simp, by simp⟩
  | arr l e => exact ⟨.endArr, by simp [JVal.toks, List.getLast?_append, List.getLast?_cons], by simp, by simp⟩
  | obj l e => exact ⟨.endObj, by simp [JVal.toks, List.getLast?_append, List.getLast?_cons], by simp, by simp⟩

theorem last_append {a : Token} {l l' : List Token} {t : Token} (h : l'.getLast? = some t) : (a :: (l ++ l')).getLast? = some t := by
  rw [← List.cons_append, List.getLast?_append, h]
  rfl

theorem left_arr (cfg : JEncCfg) (p : List Scalar) (l : List JVal) : Left cfg p 0 (.startArr :: itemToks l) (restOps cfg p b%"[]" b%"[...]" l.length false) := by
  rcases List.eq_nil_or_concat l with rfl | ⟨l, v, rfl⟩
  · exact .inr (.inl ⟨[], rfl, by simp [restOps], by simp [itemToks]⟩)
  · obtain ⟨t, h1, h2, h3⟩ := toks_last v
    refine .inl ⟨by simp [restOps], ?_, ?_⟩ <;>
    · rw [List.concat_eq_append, itemToks_append, last_append (t := t) (by simpa [itemToks] using h1)]
      simpa

theorem left_obj (cfg : JEncCfg) (p : List Scalar) (l : List (Scalar × JVal)) : Left cfg p 0 (.startObj :: memberToks l) (restOps cfg p b%"{}" b%"{...}" l.length false) := by
  rcases List.eq_nil_or_concat l with rfl | ⟨l, ⟨k, v⟩, rfl⟩
  · exact .inr (.inr ⟨[], rfl, by simp [restOps], by simp [memberToks]⟩)
  · obtain ⟨t, h1, h2, h3⟩ := toks_last v
    refine .inl ⟨by simp [restOps], ?_, ?_⟩ <;>
    · rw [List.concat_eq_append, memberToks_append, last_append (t := t) (by
        rw [show memberToks [(k, v)] = [.scalar k] ++ v.toks by simp [memberToks], List.getLast?_append, h1]; rfl)]
      simpa

theorem items_append (cfg : JEncCfg) (p : List Scalar) : ∀ (l l' : List JVal) (n : Nat), lay.items cfg p n (l ++ l') = lay.items cfg p n l ++ lay.items cfg p (n + l.length) l'
  | [], _, _ => by simp [lay.items]
  | v :: l, l', n => by simp [lay.items, items_append cfg p l l' (n + 1), Nat.add_assoc, Nat.add_comm 1]

theorem members_append (cfg : JEncCfg) (p : List Scalar) : ∀ (l l' : List (Scalar × JVal)), lay.members cfg p (l ++ l') = lay.members cfg p l ++ lay.members cfg p l'
  | [], _ => by simp [lay.members]
  | (k, v) :: l, l' => by simp [lay.members, members_append cfg p l l']

/-- A member of an array. -/
theorem items_body {cfg : JEncCfg} {wv} {items : List JVal} (hwv : ∀ v ∈ items, WVal cfg wv v) {p : List Scalar} (hp : ∀ k ∈ p, KeyOk k) :
    ∀ m ∈ items.map (fun v => ((none : Option Scalar), v)), ∀ n : Nat,
      Visits (fun x => (wv (p ++ [indexKey n]) x).bind fun _ => (.ret (n + 1) : IProg POp Nat)) m.2 (lay cfg (p ++ [indexKey n]) m.2) (n + 1) := by
  intro m hm n s x hl hf
  simp only [List.mem_map] at hm
  obtain ⟨v, hv, rfl⟩ := hm
  obtain ⟨s', g1, g2, g3⟩ := hwv _ hv (p ++ [indexKey n]) (keyOk_snoc hp (indexKey_ok n)) s x hl hf
  refine ⟨s', ?_, g2, g3⟩
  rw [run_ok_bind g1]
  simp

/-- A member of an object. -/
theorem members_body {cfg : JEncCfg} {wv} {ms : List (Scalar × JVal)} (hk : ∀ m ∈ ms, KeyOk m.1) (hwv : ∀ m ∈ ms, WVal cfg wv m.2) {p : List Scalar}
    (hp : ∀ k ∈ p, KeyOk k) : ∀ m ∈ ms.map (fun m => (some m.1, m.2)), ∀ n : Nat, Visits (writeMember wv p n m.1) m.2 (memOps cfg p m.1 m.2) (n + 1) := by
  intro m hm n s x hl hf
  simp only [List.mem_map] at hm
  obtain ⟨⟨k, v⟩, hv, rfl⟩ := hm
  obtain ⟨s', g1, g2, g3⟩ := hwv _ hv (p ++ [k]) (keyOk_snoc hp (hk _ hv)) s x hl hf
  refine ⟨s', ?_, g2, g3⟩
  simp only [writeMember]
  rw [run_ok_bind g1]
  simp [memOps]

theorem CutH.val {cfg : JEncCfg} {f : Nat} {path : List Scalar} {v : JVal} {cl o} {p : Nat → IProg POp Unit} (h : CutH p v.kind v cl o)
    (hp : ∀ i, writeValue cfg f path (.coll v.kind i) = p i) : CutB (writeValue cfg f path) v cl o := by
  intro s k i l h1 h2 h3 h4
  obtain ⟨rfl, -⟩ := h2.before rfl
  obtain ⟨p', s', l', g1, g2, g3⟩ := h s i l h1 h2 h3 h4
  exact ⟨p', s', l', by rw [hp]; exact g1, g2, g3⟩

theorem writeArray_leaf {cfg : JEncCfg} {wv f} {items : List JVal} (hf : items.length ≤ f) (hwv : ∀ v ∈ items, WVal cfg wv v) {p : List Scalar} (hp : ∀ k ∈ p, KeyOk k) :
    CutH (writeArray cfg wv p f) .arr (.arr items false) [.endArr] (lay.items cfg p 0 items) := by
  intro s i l hw hfr ht hs
  obtain ⟨g, rfl⟩ : ∃ g, f = (items.map fun v => ((none : Option Scalar), v)).length + g := ⟨f - items.length, by simp; omega⟩
  obtain ⟨s', h1, h2, h3⟩ := forEach_all
    (body := fun (index : Nat) _ x => (wv (p ++ [indexKey index]) x).bind fun _ => .ret (index + 1))
    (fun n _ v => lay cfg (p ++ [indexKey n]) v) (fun n _ _ => n + 1) (items.map (none, ·)) [] g s 0
    (by have := Loop.init hw hfr ht hs rfl; rw [List.append_nil]; exact this) (items_body hwv hp)
  rw [foldOut_items] at h1
  refine ⟨_, s', i :: l, h1.bind _, h2.spine, ?_⟩
  rw [h2.todo, frames_same h3]
  simp [bodyToks, endToks]

theorem writeArray_last {cfg : JEncCfg} {wv f} {items : List JVal} {m : JVal} (hf : items.length < f) (hwv : ∀ v ∈ items, WVal cfg wv v) {p : List Scalar}
    (hp : ∀ k ∈ p, KeyOk k) (hm : ∀ k, m ≠ .scalar k) {cl o} (hcut : CutB (wv (p ++ [indexKey items.length])) m cl o) :
    CutH (writeArray cfg wv p f) .arr (.arr (items ++ [m]) false) (cl ++ [.endArr]) (lay.items cfg p 0 items ++ o) := by
  intro s i l hw hfr ht hs
  obtain ⟨g, rfl⟩ : ∃ g, f = (items.map fun v => ((none : Option Scalar), v)).length + (g + 1) := ⟨f - items.length - 1, by simp; omega⟩
  obtain ⟨p', s', l', h1, h2, h3⟩ := forEach_last
    (body := fun (index : Nat) _ x => (wv (p ++ [indexKey index]) x).bind fun _ => .ret (index + 1))
    (fun n _ v => lay cfg (p ++ [indexKey n]) v) (fun n _ _ => n + 1) (items.map (none, ·)) hm g s 0
    (by have := Loop.init hw hfr ht hs rfl; simpa [JVal.members] using this) (items_body hwv hp) (key := none) (cl := cl) (o := o) (by
      rw [foldOut_items]
      intro s k i l h1 h2 h3 h4
      obtain ⟨p', s', l', g1, g2, g3⟩ := hcut s k i l h1 h2 h3 h4
      rw [Nat.zero_add]
      exact ⟨_, s', l', g1.bind _, g2, g3⟩)
  rw [foldOut_items] at h1
  exact ⟨_, s', l', h1.bind _, h2, by simpa [endToks] using h3⟩

theorem writeObject_leaf {cfg : JEncCfg} {wv f} {ms : List (Scalar × JVal)} (hf : ms.length ≤ f) (hk : ∀ m ∈ ms, KeyOk m.1) (hwv : ∀ m ∈ ms, WVal cfg wv m.2)
    {p : List Scalar} (hp : ∀ k ∈ p, KeyOk k) :
    CutH (writeObject cfg wv p f) .obj (.obj ms false) [.endObj] (lay.members cfg p ms) := by
  intro s i l hw hfr ht hs
  obtain ⟨g, rfl⟩ : ∃ g, f = (ms.map fun m => (some m.1, m.2)).length + g := ⟨f - ms.length, by simp; omega⟩
  obtain ⟨s', h1, h2, h3⟩ := forEach_all (body := writeMember wv p)
    (fun n k v => memOps cfg p k v) (fun n _ _ => n + 1) (ms.map fun m => (some m.1, m.2)) [] g s 0
    (by have := Loop.init hw hfr ht hs rfl; rw [List.append_nil]; exact this) (members_body hk hwv hp)
  rw [foldOut_members] at h1
  refine ⟨_, s', i :: l, h1.bind _, h2.spine, ?_⟩
  rw [h2.todo, frames_same h3]
  simp [bodyToks, endToks]

theorem writeObject_last {cfg : JEncCfg} {wv f} {ms : List (Scalar × JVal)} {k : Scalar} {m : JVal} (hf : ms.length < f) (hk : ∀ m ∈ ms, KeyOk m.1)
    (hwv : ∀ m ∈ ms, WVal cfg wv m.2) {p : List Scalar} (hp : ∀ k ∈ p, KeyOk k) (hm : ∀ k, m ≠ .scalar k) {cl o} (hcut : CutB (wv (p ++ [k])) m cl o) :
    CutH (writeObject cfg wv p f) .obj (.obj (ms ++ [(k, m)]) false) (cl ++ [.endObj]) (lay.members cfg p ms ++ o) := by
  intro s i l hw hfr ht hs
  obtain ⟨g, rfl⟩ : ∃ g, f = (ms.map fun m => (some m.1, m.2)).length + (g + 1) := ⟨f - ms.length - 1, by simp; omega⟩
  obtain ⟨p', s', l', h1, h2, h3⟩ := forEach_last (body := writeMember wv p)
    (fun n k v => memOps cfg p k v) (fun n _ _ => n + 1) (ms.map fun m => (some m.1, m.2)) hm g s 0
    (by have := Loop.init hw hfr ht hs rfl; simpa [JVal.members] using this) (members_body hk hwv hp) (key := some k) (cl := cl) (o := o) (by
      intro s kk i l h1 h2 h3 h4
      obtain ⟨p', s', l', g1, g2, g3⟩ := hcut s kk i l h1 h2 h3 h4
      exact ⟨p'.bind _, s', l', g1.bind _, g2, g3⟩)
  rw [foldOut_members] at h1
  exact ⟨_, s', l', h1.bind _, h2, by simpa [endToks] using h3⟩

/-- Nothing, or ended by a line feed. -/
def Ended (l : List POp) : Prop := l = [] ∨ ∃ l', l = l' ++ [.newLine] ∨ l = l' ++ [.reset]

theorem Ended.append {l l' : List POp} (h : Ended l) (h' : Ended l') : Ended (l ++ l') := by
  rcases h' with rfl | ⟨x, rfl | rfl⟩
  · simpa using h
  · exact .inr ⟨l ++ x, .inl (by simp)⟩
  · exact .inr ⟨l ++ x, .inr (by simp)⟩

theorem ended_rest (cfg : JEncCfg) (p : List Scalar) (a b : Bytes) (n : Nat) (e : Bool) : Ended (restOps cfg p a b n e) := by
  unfold restOps
  split
  · exact .inr ⟨pathOps cfg p ++ [_], .inl (by simp; rfl)⟩
  · exact .inl rfl

mutual
theorem ended_lay (cfg : JEncCfg) : ∀ (p : List Scalar) (v : JVal), Ended (lay cfg p v)
  | p, .scalar s => by rw [lay, ← List.append_assoc]; exact .inr ⟨_, .inl rfl⟩
  | p, .arr l e => by rw [lay]; exact (ended_items cfg p 0 l).append (ended_rest ..)
  | p, .obj l e => by rw [lay]; exact (ended_members cfg p l).append (ended_rest ..)
theorem ended_items (cfg : JEncCfg) : ∀ (p : List Scalar) (n : Nat) (l : List JVal), Ended (lay.items cfg p n l)
  | _, _, [] => by rw [lay.items]; exact .inl rfl
  | p, n, v :: l => by rw [lay.items]; exact (ended_lay cfg _ v).append (ended_items cfg p (n + 1) l)
theorem ended_members (cfg : JEncCfg) : ∀ (p : List Scalar) (l : List (Scalar × JVal)), Ended (lay.members cfg p l)
  | _, [] => by rw [lay.members]; exact .inl rfl
  | p, (k, v) :: l => by rw [lay.members]; exact (ended_lay cfg _ v).append (ended_members cfg p l)
end

theorem cut_coll {d w ts} (h : Cut d w ts) : ∀ k, w ≠ .scalar k := by cases h <;> simp

theorem cut_ne {d w ts} (h : Cut d w ts) : ts ≠ [] := by cases h <;> simp

/-- A value that is cut off. -/
theorem writeValue_cut (cfg : JEncCfg) {d w ts} (h : Cut d w ts) : KeysOk w → ∀ p, (∀ k ∈ p, KeyOk k) →
    ∃ cl o tail, w.toks = ts ++ cl ∧ cl ≠ [] ∧ (∀ f, w.toks.length ≤ f → CutB (writeValue cfg f p) w cl o) ∧ lay cfg p w = o ++ tail ∧ Left cfg p d ts tail ∧ Ended o := by
  induction h with
  | @arr l =>
    intro hk p hp
    cases hk with
    | arr hk =>
      refine ⟨[.endArr], _, _, by simp [JVal.toks, elisionToks], by simp, fun f hf => ?_, by rw [lay], left_arr cfg p l, ended_items cfg p 0 l⟩
      have hb := itemToks_bound l
      simp [JVal.toks, elisionToks] at hf
      obtain ⟨f, rfl⟩ : ∃ g, f = g + 1 := ⟨f - 1, by omega⟩
      exact CutH.val (p := writeArray cfg (writeValue cfg f) p f)
        (writeArray_leaf (by omega) (fun v hv => writeValue_visits cfg f v (by have := hb.2 v hv; omega) (hk v hv)) hp) (fun i => by simp [JVal.kind, writeValue])
  | @obj l =>
    intro hk p hp
    cases hk with
    | obj hk1 hk2 =>
      refine ⟨[.endObj], _, _, by simp [JVal.toks, elisionToks], by simp, fun f hf => ?_, by rw [lay], left_obj cfg p l, ended_members cfg p l⟩
      have hb := memberToks_bound l
      simp [JVal.toks, elisionToks] at hf
      obtain ⟨f, rfl⟩ : ∃ g, f = g + 1 := ⟨f - 1, by omega⟩
      exact CutH.val (p := writeObject cfg (writeValue cfg f) p f)
        (writeObject_leaf (by omega) hk1 (fun v hv => writeValue_visits cfg f v.2 (by have := hb.2 v hv; omega) (hk2 v hv)) hp) (fun i => by simp [JVal.kind, writeValue])
  | @item d l v ts hc ih =>
    intro hk p hp
    cases hk with
    | arr hk =>
      obtain ⟨cl, o, tail, k1, k2, k3, k4, k5, k6⟩ := ih (hk v (by simp)) (p ++ [indexKey l.length]) (keyOk_snoc hp (indexKey_ok _))
      refine ⟨cl ++ [.endArr], lay.items cfg p 0 l ++ o, tail, by simp [JVal.toks, elisionToks, itemToks_append, itemToks, k1], by simp, fun f hf => ?_, ?_,
        by simpa using k5.under (cut_ne hc) (.startArr :: itemToks l), (ended_items cfg p 0 l).append k6⟩
      · have hb := itemToks_bound (l ++ [v])
        simp only [JVal.toks, List.length_append, List.length_cons] at hf
        obtain ⟨f, rfl⟩ : ∃ g, f = g + 1 := ⟨f - 1, by omega⟩
        have h1 := hb.1
        have h2 := hb.2 v (by simp)
        simp only [List.length_append, List.length_singleton] at h1
        exact CutH.val (p := writeArray cfg (writeValue cfg f) p f)
          (writeArray_last (by omega) (fun v hv => writeValue_visits cfg f v (by have := hb.2 v (by simp [hv]); omega) (hk v (by simp [hv]))) hp (cut_coll hc)
            (k3 f (by omega))) (fun i => by simp [JVal.kind, writeValue])
      · rw [lay, items_append]
        simp [lay.items, k4, restOps]
  | @member d l k v ts hc ih =>
    intro hk p hp
    cases hk with
    | obj hk1 hk2 =>
      obtain ⟨cl, o, tail, k1, k2, k3, k4, k5, k6⟩ := ih (hk2 (k, v) (by simp)) (p ++ [k]) (keyOk_snoc hp (hk1 (k, v) (by simp)))
      refine ⟨cl ++ [.endObj], lay.members cfg p l ++ o, tail, by simp [JVal.toks, elisionToks, memberToks_append, memberToks, k1], by simp, fun f hf => ?_, ?_,
        by
          rw [show Token.startObj :: (memberToks l ++ .scalar k :: ts) = (.startObj :: (memberToks l ++ [.scalar k])) ++ ts by simp]
          exact k5.under (cut_ne hc) _, (ended_members cfg p l).append k6⟩
      · have hb := memberToks_bound (l ++ [(k, v)])
        simp only [JVal.toks, List.length_append, List.length_cons] at hf
        obtain ⟨f, rfl⟩ : ∃ g, f = g + 1 := ⟨f - 1, by omega⟩
        have h1 := hb.1
        have h2 := hb.2 (k, v) (by simp)
        simp only [List.length_append, List.length_singleton] at h1 h2
        exact CutH.val (p := writeObject cfg (writeValue cfg f) p f)
          (writeObject_last (by omega) (fun m hm => hk1 m (by simp [hm])) (fun v hv => writeValue_visits cfg f v.2 (by have := hb.2 v (by simp [hv]); omega) (hk2 v (by simp [hv]))) hp
            (cut_coll hc) (k3 f (by omega))) (fun i => by simp [JVal.kind, writeValue])
      · rw [lay, members_append]
        simp [lay.members, k4, restOps]

/-- The encoder on complete values and one that is cut off. -/
theorem consume_cut (cfg : JEncCfg) (vs : List JVal) {d w ts} (hcut : Cut d w ts) (hk : ∀ v ∈ vs ++ [w], KeysOk v) :
    ∃ o tail, (∀ f, (streamToks (vs ++ [w])).length ≤ f → ∀ c, ∃ p' h',
        Reach Heap.mach (consume cfg f) (Heap.init (streamToks vs ++ ts ++ c)) (layAll cfg vs ++ o) p' h' ∧ c <:+ h'.st.src) ∧
      lay cfg [] w = o ++ tail ∧ Left cfg [] d ts tail ∧ Ended o := by
  have hb := streamToks_bound (vs ++ [w])
  obtain ⟨cl, o, tail, hw, hcl, k1, k2, k3, k4⟩ := writeValue_cut cfg hcut (hk w (by simp)) [] (by simp)
  refine ⟨o, tail, fun f hf c => ?_, k2, k3, k4⟩
  have k1 := k1 f (by have := hb.2 w (by simp); omega)
  obtain ⟨g, hg⟩ : ∃ g, f = vs.length + (g + 1) := ⟨f - vs.length - 1, by have := hb.1; simp at this; omega⟩
  have hl0 : Loop (AState.init (vs ++ [w])) 1 0 [] .top ((vs ++ [w]).map (none, ·)) := ⟨wf_init _, before_init _, rfl, .root⟩
  rw [List.map_append] at hl0
  obtain ⟨p', s', l', e1, e2, e3⟩ := forEach_last (body := fun (_ : Unit) _ x => (writeValue cfg f [] x).bind fun _ => put .reset)
    (fun _ _ v => lay cfg [] v ++ [.reset]) (fun _ _ _ => ()) (vs.map (none, ·)) (cut_coll hcut) g (AState.init (vs ++ [w])) () hl0 (by
      intro m hm b s x hl hfr
      simp only [List.mem_map] at hm
      obtain ⟨v, hv, rfl⟩ := hm
      obtain ⟨s', g1, g2, g3⟩ := writeValue_visits cfg f v (by have := hb.2 v (by simp [hv]); omega) (hk v (by simp [hv])) [] (by simp) s x hl hfr
      refine ⟨s', ?_, g2, g3⟩
      rw [run_ok_bind g1]
      simp [run_put]) (o := o) (by
      intro s k i l h1 h2 h3 h4
      obtain ⟨p', s', l', g1, g2, g3⟩ := k1 s k i l h1 h2 h3 h4
      exact ⟨_, s', l', g1.bind _, g2, g3⟩)
  rw [foldOut_const (fun _ v => lay cfg [] v ++ [POp.reset]), List.length_map, ← hg] at e1
  obtain ⟨h', r1, r2⟩ := e1.heap (ISim.init_sim _)
  have hs := e2.src r2
  have hcl' : cl <:+ h'.st.src := by
    refine List.IsSuffix.trans ?_ hs
    simpa [endToks, frames] using e3
  rw [streamToks_append, show streamToks [w] = w.toks by simp [streamToks], hw, ← List.append_assoc] at r1
  obtain ⟨h1', q1, q2⟩ := Reach.swap hcl r1 hcl' c
  refine ⟨p', h1', ?_, q2⟩
  simpa [layAll, List.flatMap_map, consume] using q1

/-- All calls are `PrintBytes`, `NewLine` or `Reset`. -/
def Level (l : List POp) : Prop := .indent ∉ l ∧ .dedent ∉ l

theorem Level.append {l l' : List POp} (h : Level l) (h' : Level l') : Level (l ++ l') := ⟨by simp [h.1, h'.1], by simp [h.2, h'.2]⟩
theorem Level.left {l l' : List POp} (h : Level (l ++ l')) : Level l := ⟨fun g => h.1 (by simp [g]), fun g => h.2 (by simp [g])⟩
theorem Level.cons {l : List POp} (b : Bytes) (h : Level l) : Level (.bytes b :: l) := ⟨by simp [h.1], by simp [h.2]⟩
theorem level_nil : Level [] := ⟨by simp, by simp⟩
theorem level_nl : Level [.newLine] := ⟨by simp, by simp⟩

theorem level_scalar (c : Option Colorizer) (s : Scalar) : Level (printScalar c s) := by
  cases c with
  | none => exact Level.cons _ level_nil
  | some c => exact Level.cons _ (Level.cons _ (Level.cons _ level_nil))

theorem level_path (cfg : JEncCfg) (p : List Scalar) : Level (pathOps cfg p) := by
  refine Level.cons _ (Level.append ?_ (Level.cons _ level_nil))
  induction p with
  | nil => exact level_nil
  | cons k p ih =>
    refine Level.append ?_ ih
    unfold elemOps
    split
    · exact Level.cons _ (level_scalar _ _)
    · exact Level.cons _ ((level_scalar _ _).append (Level.cons _ level_nil))

theorem level_rest (cfg : JEncCfg) (p : List Scalar) (a b : Bytes) (n : Nat) (e : Bool) : Level (restOps cfg p a b n e) := by
  unfold restOps
  split
  · exact (level_path _ _).append (Level.cons _ level_nl)
  · exact level_nil

mutual
theorem level_lay (cfg : JEncCfg) : ∀ (p : List Scalar) (v : JVal), Level (lay cfg p v)
  | p, .scalar s => by rw [lay]; exact (level_path _ _).append ((level_scalar _ _).append level_nl)
  | p, .arr l e => by rw [lay]; exact (level_items cfg p 0 l).append (level_rest ..)
  | p, .obj l e => by rw [lay]; exact (level_members cfg p l).append (level_rest ..)
theorem level_items (cfg : JEncCfg) : ∀ (p : List Scalar) (n : Nat) (l : List JVal), Level (lay.items cfg p n l)
  | _, _, [] => by rw [lay.items]; exact level_nil
  | p, n, v :: l => by rw [lay.items]; exact (level_lay cfg _ v).append (level_items cfg p (n + 1) l)
theorem level_members (cfg : JEncCfg) : ∀ (p : List Scalar) (l : List (Scalar × JVal)), Level (lay.members cfg p l)
  | _, [] => by rw [lay.members]; exact level_nil
  | p, (k, v) :: l => by rw [lay.members]; exact (level_lay cfg _ v).append (level_members cfg p l)
end

theorem level_layAll (cfg : JEncCfg) : ∀ vs : List JVal, Level (layAll cfg vs)
  | [] => level_nil
  | v :: vs => by
    rw [layAll, List.flatMap_cons]
    exact ((level_lay cfg [] v).append ⟨by simp, by simp⟩).append (level_layAll cfg vs)

theorem Level.level {pc : PrinterCfg} : ∀ {l : List POp}, Level l → Enc.level pc 0 l = 0
  | [], _ => rfl
  | o :: l, h => by
    have h' : Level l := ⟨fun g => h.1 (by simp [g]), fun g => h.2 (by simp [g])⟩
    rw [Enc.level_cons]
    cases o with
    | bytes b => exact h'.level
    | newLine => exact h'.level
    | indent => exact absurd (List.mem_cons_self) h.1
    | dedent => exact absurd (List.mem_cons_self) h.2
    | reset => exact h'.level

/-- What has been printed is on the writer's other side if every line is flushed. -/
theorem Ended.out {pc : PrinterCfg} (hf : pc.flusher = true) (hi : 0 ≤ pc.indentSize) {l : List POp} (hl : Level l) (h : Ended l) :
    (Bufio.run Bufio.new (pc.execAll 0 l).1).out = evBytes (pc.execAll 0 l).1 := by
  rcases h with rfl | ⟨l', rfl | rfl⟩
  · rfl
  · have e : (pc.execAll 0 (l' ++ [.newLine])).1 = ((pc.execAll 0 l').1 ++ [.write [0x0A]]) ++ [.flush] := by
      rw [PrinterCfg.execAll_append]
      have : (pc.execAll 0 l').2 = 0 := hl.left.level
      simp [PrinterCfg.execAll, PrinterCfg.exec, PrinterCfg.newLine, PrinterCfg.writeNL, hf, this, Int.not_lt.2 hi]
    rw [e, Bufio.run_flush]
    simp [Bufio.new, evBytes, WEv.payload]
  · exact Enc.flushed pc hf l'

/-- The JPV encoder in the middle of a value. -/
theorem prints_cut (cfg : JEncCfg) (pc : PrinterCfg) (vs : List JVal) {d w ts} (hcut : Cut d w ts) (hk : ∀ v ∈ vs ++ [w], KeysOk v) :
    ∃ evs tail, Prints cfg pc (streamToks vs ++ ts) evs ∧ (encode cfg pc Enc.goodSink (streamToks (vs ++ [w]))).1 = evBytes evs ++ Enc.render pc 0 (tail ++ [.reset]) ∧
      Left cfg [] d ts tail ∧ (pc.flusher = true → 0 ≤ pc.indentSize → (Bufio.run Bufio.new evs).out = evBytes evs) := by
  obtain ⟨o, tail, k1, k2, k3, k4⟩ := consume_cut cfg vs hcut hk
  have e1 : layAll cfg (vs ++ [w]) = (layAll cfg vs ++ o) ++ (tail ++ [.reset]) := by
    rw [layAll, List.flatMap_append, List.flatMap_singleton, k2, List.append_assoc o, ← List.append_assoc]
    rfl
  have hl : Level (layAll cfg vs ++ o) := (level_layAll cfg vs).append (Level.left (l' := tail) (k2 ▸ level_lay cfg [] w))
  refine ⟨(pc.execAll 0 (layAll cfg vs ++ o)).1, tail, ⟨layAll cfg vs ++ o, rfl, _, k1⟩, ?_, k3, fun hf hi => ?_⟩
  · rw [JpvRound.encode_eq _ _ _ _ hk, Sink.feed_all (w := Enc.goodSink) (fun _ _ => rfl)]
    show Enc.render pc 0 (layAll cfg (vs ++ [w])) = Enc.render pc 0 (layAll cfg vs ++ o) ++ _
    rw [e1, Enc.render_append, hl.level]
  · refine Ended.out hf hi hl (Ended.append ?_ k4)
    clear k1 e1 hl hk
    induction vs with
    | nil => exact .inl rfl
    | cons v vs ih =>
      rw [layAll, List.flatMap_cons]
      exact Ended.append (.inr ⟨_, .inr rfl⟩) ih

end JEnc
end Verif
