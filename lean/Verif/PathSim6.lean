import Verif.PathSim5

/-!
# The engine on handles does what it does on values: queries
-/

set_option linter.unusedSimpArgs false
set_option linter.unusedVariables false

namespace Verif.JPath
open AState IProg GoJson

variable {ε φ ψ : Type} {C : Nat → Prop} {J : AState → Prop} {G P : JVal → Prop} {R : List ε → φ → ψ → Prop}
variable {fin : φ → Val → IProg ε (φ × Bool)} {tfin : ψ → JVal → ψ × Bool}

/-- The values in a value are treated, and keys have strings. -/
structure Closed (G : JVal → Prop) : Prop where
  mem : ∀ {v}, G v → ∀ m ∈ v.members, G m.2
  key : ∀ {v}, G v → v.kind = .obj → ∀ m ∈ v.members, ∃ k key, m.1 = some k ∧ toStr k = some key

theorem toks_pos (v : JVal) : 0 < v.toks.length := by cases v <;> simp

theorem items_len : ∀ (l : List JVal), l.length ≤ (JVal.toks.itemToks l).length ∧ ∀ v ∈ l, v.toks.length ≤ (JVal.toks.itemToks l).length
  | [] => by simp
  | v :: l => by
    obtain ⟨h1, h2⟩ := items_len l
    have := toks_pos v
    refine ⟨by simp; omega, ?_⟩
    intro w hw
    rcases List.mem_cons.1 hw with rfl | hw
    · simp
    · have := h2 w hw; simp; omega

theorem membs_len : ∀ (l : List (Scalar × JVal)), l.length ≤ (JVal.toks.memberToks l).length ∧
    ∀ m ∈ l, m.2.toks.length ≤ (JVal.toks.memberToks l).length
  | [] => by simp
  | (k, v) :: l => by
    obtain ⟨h1, h2⟩ := membs_len l
    refine ⟨by simp; omega, ?_⟩
    intro w hw
    rcases List.mem_cons.1 hw with rfl | hw
    · simp; omega
    · have := h2 w hw; simp; omega

theorem members_len (v : JVal) : v.members.length < v.toks.length ∧ ∀ m ∈ v.members, m.2.toks.length < v.toks.length := by
  cases v with
  | scalar k => simp [JVal.members]
  | arr l e =>
    obtain ⟨h1, h2⟩ := items_len l
    refine ⟨by simp [JVal.members]; omega, ?_⟩
    intro m hm
    simp only [JVal.members, List.mem_map] at hm
    obtain ⟨w, hw, rfl⟩ := hm
    have := h2 w hw
    simp; omega
  | obj l e =>
    obtain ⟨h1, h2⟩ := membs_len l
    refine ⟨by simp [JVal.members]; omega, ?_⟩
    intro m hm
    simp only [JVal.members, List.mem_map] at hm
    obtain ⟨w, hw, rfl⟩ := hm
    have := h2 w hw
    simp; omega

theorem Fresh.before' {s : AState} {x : Val} {v : JVal} {k i n0} (h : Fresh s x v) (hx : x = .coll k i) (h0 : i < n0) (hn : n0 ≤ s.n) :
    Before s n0 i k v.members v.elision := by
  obtain ⟨_, hb⟩ := h.before hx
  refine ⟨hb.lt, hb.kind, hb.done, hb.elided, hb.rest, hb.e, hb.thr, hb.alive, ?_, hn, h0⟩
  intro k' j e
  rw [h.cur i (by rw [hx]; rfl)] at e
  cases e

theorem didx_new (sels : List (Sel (CondP ε))) : didx (newDisp sels).states = [] := by
  simp only [newDisp]
  induction sels with
  | nil => rfl
  | cons a l ih => simpa using ih

theorem new_rel {s : AState} {sels : List (Sel (CondP ε))} {tsels} (h : Rel2 (SelRel C J G P) sels tsels) :
    Rel2 (StRel C J G P s) (newDisp sels).states (tnew tsels) :=
  h.map₂ fun a b hab => ⟨hab, rfl, rfl, .nil, by simp⟩

theorem look_rel {sels : List (Sel (CondP ε))} {tsels} (h : Rel2 (SelRel C J G P) sels tsels) : segLookahead sels = segLookahead tsels := by
  unfold segLookahead
  generalize (0 : Int) = z
  induction h generalizing z with
  | nil => rfl
  | cons hab _ ih =>
    simp only [List.foldl_cons]
    rw [hab.lookahead]
    exact ih _

theorem Inv.new {s : AState} {ds : Stack ε} {T acc} {q : φ} {q' : ψ} (hi : Inv C J G P R true s ds T acc q q')
    {sels : List (Sel (CondP ε))} {tsels} (h : Rel2 (SelRel C J G P) sels tsels) :
    Inv C J G P R false s (newDisp sels :: ds) (tnew tsels :: T) acc q q' :=
  hi.cons (new_rel h) (by rw [didx_new]; exact .nil) (by rw [didx_new]; simp) false (fun e => nomatch e)

/-- A clone, if there is one, is detached. -/
theorem Ok.detach' (hFr : Frame C J) (c : Bool) {b b0 s F} {S : Stack ε} {T acc} {q0 : φ} {q0' : ψ} {T' q' s' S' o q p v}
    (h : Ok C J G P R b s F S acc T' q' s' S' o q) (hi : Inv C J G P R b0 s S T acc q0 q0') (hC : ∀ i, F i → ¬ C i)
    (ho : c = true → Owned s p v ∧ (∀ i, p.1.idx = some i → F i) ∧ (∀ i, p.1.idx = some i → i ∉ idxs S)) (hn : c = false → p.2 = none) :
    ∃ s'', (detachOpt p.2 : IProg ε Unit).run AState.mach s' = ([], .ok (s'', ())) ∧ Ok C J G P R b s F S acc T' q' s'' S' o q := by
  cases c with
  | false => rw [hn rfl]; exact ⟨s', rfl, h⟩
  | true => exact h.detach hFr hi hC (ho rfl).1 (ho rfl).2.1 (ho rfl).2.2

theorem lookStart_ok (hFr : Frame C J) {look : Int} {s : AState} {S : Stack ε} {T acc} {q : φ} {q' : ψ} {i : Nat} {v : JVal} {b : Bool} {f : Nat}
    (hi : Inv C J G P R b s S T acc q q') (hx : Fresh s (.coll .arr i) v) (hxi : ¬ C i ∧ i ∉ idxs S) (hf : v.members.length < f) :
    ∃ s1 s2 ahead p, (lookStart look i f : IProg ε _).run AState.mach s = ([], .ok (s2, (ahead, p.2, (windowInit look v.members.length).1))) ∧
      Ok C J G P R b s (· = i) S acc T q' s1 S [] q ∧ Ok C J G P R b s1 (LF s1 s1.n (fun h => ahead = some h)) S acc T q' s2 S [] q ∧
      Fresh s2 (.coll .arr i) v ∧ Ahead s2 s1.n ahead (windowInit look v.members.length).2 ∧
      (ahead.isSome = true → Owned s1 p v ∧ p.1.idx = ahead) ∧ (ahead.isSome = false → p.2 = none) ∧
      (∀ a, ahead = some a → s.n ≤ a ∧ a < s1.n) := by
  unfold lookStart windowInit
  by_cases hc : look > 0
  · rw [if_pos hc, if_pos hc]
    obtain ⟨s1, p, e1, e2, e3, e4, e5⟩ := clone_mod hi.wf hx
    have hk := (hx.before rfl).1
    obtain ⟨a, ha⟩ : ∃ a, p.1 = .coll .arr a := by
      have := e4.fresh
      cases v with
      | scalar k => cases hx
      | arr items e => obtain ⟨i, _, h, _⟩ := this; exact ⟨i, h⟩
      | obj items e => cases hk
    have hpa : p.1.idx = some a := by rw [ha]; rfl
    have hl := e5 a hpa
    have hlt := e4.fresh.lt a hpa
    have hok1 : Ok C J G P R b s (· = i) S acc T q' s1 S [] q :=
      (Ok.refl hi).more (F' := (· = i)) (e2.mono hi.wf (fun j _ e => (Option.some.inj e).symm))
        (hFr.keep hi.j e2 (fun j hc e => hxi.1 ((Option.some.inj e : i = j) ▸ hc))) (fun j hj e => hxi.2 (e ▸ hj)) (fun j _ e => .inl e)
    have hi1 := hok1.inv
    rw [List.append_nil] at hi1
    have hb : Before s1 s1.n a .arr v.members v.elision := (e4.fresh.before ha).2
    obtain ⟨s2, f1, f2, f3⟩ := lookLoop_run (ε := ε) (look := look) v.members f 0 s1 v.elision e2.wf hb hf
    have f2' : Mod (LF s1 s1.n (fun h => some a = some h)) s1 s2 := f2.mono e2.wf (fun j _ e => Or.imp (fun e => by rw [e]) id e)
    refine ⟨s1, s2, some a, p, ?_, hok1, ?_, ?_, f3, fun _ => ⟨e4, hpa⟩, (nomatch ·), ?_⟩
    · rw [arun_op e1]
      simp only [ha]
      rw [run_ok_bind f1]
      rfl
    · refine (Ok.refl hi1).more f2' (hFr.keep hi1.j f2' ?_) ?_ (fun j _ e => .inl e)
      · rintro h hc (e | e)
        · have := hFr.lt hi.j h hc; have := Option.some.inj e; omega
        · have := hFr.lt hi1.j h hc; omega
      · rintro h hh (e | e)
        · have := hi.lt h hh; have := Option.some.inj e; omega
        · have := hi1.lt h hh; omega
    · refine f2'.fresh e3 ?_
      rintro j hj (e | e)
      · have := Option.some.inj hj; have := Option.some.inj e; have := (hx.before rfl).2.lt; omega
      · have := Option.some.inj hj; have := e3.lt j hj; omega
    · intro a' e
      cases e
      exact ⟨hl.1, hlt⟩
  · rw [if_neg hc, if_neg hc]
    exact ⟨s, s, none, (.coll .arr 0, none), rfl, Ok.refl hi, Ok.refl hi, hx, trivial, (nomatch ·), fun _ => rfl, fun a e => nomatch e⟩

/-- Corresponding segments. -/
structure SegRel (C : Nat → Prop) (J : AState → Prop) (G P : JVal → Prop) (a : Seg (CondP ε)) (b : Seg (JVal → Bool)) : Prop where
  desc : a.desc = b.desc
  sels : Rel2 (SelRel C J G P) a.sels b.sels

/-- The values a segment can treat with fuel `g`. -/
def Fits (G : JVal → Prop) (g : Nat) (v : JVal) : Prop := G v ∧ v.toks.length ≤ g

theorem Fits.mem {v : JVal} {g : Nat} (hG : Closed G) (h : Fits G (g + 1) v) : ∀ m ∈ v.members, Fits G g m.2 :=
  fun m hm => ⟨hG.mem h.1 m hm, by have := (members_len v).2 m hm; have := h.2; omega⟩

/-- What a segment needs to know of a value: the property holds of the nodes that it selects. -/
def Leads (G Q : JVal → Prop) (seg : Seg (JVal → Bool)) (g : Nat) (v : JVal) : Prop := Fits G g v ∧ ∀ w ∈ segNodes seg v, Q w

theorem segNodes_child {seg : Seg (JVal → Bool)} {v : JVal} : ∀ s ∈ seg.sels, ∀ w ∈ pick s (items (segLookahead seg.sels) v), w ∈ segNodes seg v := by
  intro s hs w hw
  have h : w ∈ pickAll seg.sels v := List.mem_flatMap.2 ⟨s, hs, mem_ord.2 hw⟩
  unfold segNodes
  split
  · exact List.mem_flatMap.2 ⟨v, by rw [subs_eq]; exact List.mem_cons_self, h⟩
  · exact h

theorem segNodes_mem {seg : Seg (JVal → Bool)} (hd : seg.desc = true) {v : JVal} {m} (hm : m ∈ v.members) : ∀ w ∈ segNodes seg m.2, w ∈ segNodes seg v := by
  intro w hw
  simp only [segNodes, hd, if_true, List.mem_flatMap] at hw ⊢
  obtain ⟨u, h1, h2⟩ := hw
  exact ⟨u, by rw [subs_eq]; exact List.mem_cons_of_mem _ (List.mem_flatMap.2 ⟨m, hm, h1⟩), h2⟩

theorem segP_ok (hFr : Frame C J) (hG : Closed G) (hfin : FinOk R G fin tfin) (strict : Bool) {F : Nat} {seg : Seg (CondP ε)}
    {tsg : Seg (JVal → Bool)} (hseg : SegRel C J G P seg tsg)
    {follow : Stack ε → φ → Val → IProg ε (Stack ε × φ × Bool)} {tfollow : TStack → ψ → JVal → TStack × ψ × Bool}
    {Q : JVal → Prop} (hf : FollowOk C J G P (fun v => Fits G F v ∧ Q v) R follow tfollow) (hk : Keeps tfollow) :
    ∀ g ≤ F, FollowOk C J G P (Leads G Q tsg g) R (segP fin strict F seg follow g) (tseg tfin strict tsg tfollow g) := by
  intro g
  induction g with
  | zero =>
    intro _ s S T q q' acc x v hi hx hD hxi
    have := toks_pos v
    have := hD.1.2
    omega
  | succ g ih =>
    intro hgF s S T q q' acc x v hi hx hD hxi
    have hself := ih (by omega)
    have hlen : v.members.length < F := by have := (members_len v).1; have := hD.1.2; omega
    have hfm : ∀ m ∈ v.members, MemOk G (Fits G F) (fun v => tsg.desc = true → Leads G Q tsg g v) m := fun m hm => by
      have := Fits.mem hG hD.1 m hm
      exact ⟨this.1, ⟨this.1, by have := this.2; omega⟩, fun hd => ⟨this, fun w hw => hD.2 w (segNodes_mem hd hm w hw)⟩⟩
    have hso : Sound Q (sh (tnew tsg.sels)) (items (segLookahead tsg.sels) v) := .new fun s hs w hw => hD.2 w (segNodes_child s hs w hw)
    have hks := seg_keeps (fin := tfin) strict tsg hk g
    have hin := hi.new hseg.sels
    have hidx : ∀ h, h ∈ idxs (newDisp seg.sels :: S) ↔ h ∈ idxs S := by intro h; simp [didx_new]
    cases v with
    | scalar k =>
      have hx' : x = .scalar k := hx
      subst hx'
      exact ⟨s, [], S, q, rfl, Ok.refl hi⟩
    | obj ms e =>
      obtain ⟨i, _, hxe, _⟩ := id hx
      have hxe : x = .coll .obj i := hxe
      subst hxe
      obtain ⟨hkind, hb⟩ := hx.before rfl
      have hiC := hxi i rfl
      have hfm' : ∀ m ∈ (JVal.obj ms e).members, MemOk G (Fits G F) (fun v => tsg.desc = true → Leads G Q tsg g v) m ∧ ∃ k key, m.1 = some k ∧ toStr k = some key :=
        fun m hm => ⟨hfm m hm, hG.key hD.1.1 rfl m hm⟩
      have hln : ∀ {s1 : AState}, J s1 → s.n ≤ s1.n → Loop C s1.n (· = i) := fun hj hn =>
        ⟨fun h hc => ⟨hFr.lt hj h hc, fun e => hiC.1 (e ▸ hc)⟩, fun h e => by have := hb.lt; omega⟩
      cases strict with
      | false =>
        simp only [segP, tseg, Bool.false_eq_true, if_false, hseg.desc]
        obtain ⟨s1, o1, d1, ds1, q1, a1, a2⟩ := objRelaxed_ok hFr hfin tsg.desc hf hk hself (fun _ => hks) (hln hi.j (Nat.le_refl _)) _ F s _ _ S T acc q q' hlen hin hb
          (by rw [hidx]; exact hiC.2) hso hfm'
        obtain ⟨s2, o2, ds2, q2, b1, b2⟩ := finish_ok hFr hfin _ a2 (didx_new _)
        refine ⟨s2, o1 ++ o2, ds2, q2, ?_, b2.mono hi.wf ?_⟩
        · rw [run_ok_bind a1, b1]
        · rintro j hj (e | e)
          · exact .inl (by rw [e]; rfl)
          · omega
      | true =>
        simp only [segP, tseg, if_true, hseg.desc]
        obtain ⟨s1, p, a1, a2, a3, a4, a5, a6⟩ := cloneDesc_ok hFr tsg.desc hin hx (fun j hj => ⟨(hxi j hj).1, by rw [hidx]; exact (hxi j hj).2⟩)
        have hi1 := a2.inv
        rw [List.append_nil] at hi1
        have hn1 := a2.mod.n
        have hpj : tsg.desc = true → ∀ j, p.1.idx = some j → ¬ C j ∧ j ∉ idxs (newDisp seg.sels :: S) ∧ j ≠ i ∧ s.n ≤ j := fun hd j hj => by
          have := (a4 hd).2 j hj
          exact ⟨fun e => by have := hFr.lt hi.j j e; omega, fun e => by have := hin.lt j e; omega, fun e => by have := hb.lt; omega, this⟩
        obtain ⟨s2, o2, d2, ds2, q2, b1, b2⟩ := objStrict_ok (E := fun v => tsg.desc = true → Leads G Q tsg g v) hFr hfin hf hk (hln hi1.j hn1) _ F s1 _ _ S T acc q q' hlen hi1
          (a3.before rfl).2 (by rw [hidx]; exact hiC.2) hso hfm'
        have hpF : tsg.desc = true → ∀ j, p.1.idx = some j → ¬ LF s1 s1.n (· = i) j := fun hd j hj =>
          LF.own ((a4 hd).1.own j hj).2 (hpj hd j hj).2.2.1
        obtain ⟨s3, o3, d3, ds3, q3, c1, c2⟩ := strictEnd_ok (p := p) hFr tsg.desc hself
          (tobjStrict tfin tfollow (JVal.obj ms e).members (tnew tsg.sels) T q').2.2.2 F hlen b2.inv
          (fun hd => ⟨b2.mod.owned hi1.wf (a4 hd).1 (fun j hj e => e.elim (hpF hd j hj) (hpj hd j hj).2.1), fun j hj =>
            ⟨(hpj hd j hj).1, b2.still (A := fun j => p.1.idx = some j) (fun h e => (a4 hd).1.fresh.lt h e) (fun h e => (hpj hd h e).2.1) j hj⟩⟩)
          (fun k e => nomatch e) (fun hd m hm => (hfm m hm).self hd)
        have r1 := (b2.mono (F' := fun j => LF s1 s1.n (· = i) j ∨ (tsg.desc = true ∧ p.1.idx = some j)) hi1.wf (fun j _ e => .inl (.inl e))).trans c2
          (fun j _ e => .inl (.inr e))
        obtain ⟨s4, e1, e2⟩ := r1.detach' (p := p) (v := .obj ms e) hFr tsg.desc hi1
          (fun j e => e.elim (fun e hc => (hln hi1.j hn1).noC j hc e) (fun e => (hpj e.1 j e.2).1))
          (fun hd => ⟨(a4 hd).1, fun j hj => .inr ⟨hd, hj⟩, fun j hj => (hpj hd j hj).2.1⟩) a5
        have r2 := a2.trans0 e2 (fun j hj e => by
          rcases e with (e | e) | e
          · exact .inl (by rw [e]; rfl)
          · omega
          · have := (hpj e.1 j e.2).2.2.2; omega)
        obtain ⟨s5, o5, ds5, q5, g1, g2⟩ := finish_ok hFr hfin (tstrictEnd tsg.desc (tseg tfin true tsg tfollow g) (JVal.obj ms e).members
          (tobjStrict tfin tfollow (JVal.obj ms e).members (tnew tsg.sels) T q')).2.2.2 r2 (didx_new _)
        refine ⟨s5, (o2 ++ o3) ++ o5, ds5, q5, ?_, g2⟩
        rw [run_ok_bind a1, run_ok_bind b1, run_ok_bind c1, run_ok_bind e1, g1]
        simp
    | arr items e =>
      obtain ⟨i, _, hxe, _⟩ := id hx
      have hxe : x = .coll .arr i := hxe
      subst hxe
      obtain ⟨hkind, hb⟩ := hx.before rfl
      have hiC := hxi i rfl
      have hilt := hb.lt
      obtain ⟨s1, s2, ahead, p, a1, a2, a3, a4, a5, a6, a7, a8⟩ := lookStart_ok (look := segLookahead seg.sels) (f := F) hFr hin hx
        ⟨hiC.1, by rw [hidx]; exact hiC.2⟩ hlen
      have hi1 := a2.inv
      rw [List.append_nil] at hi1
      have hi2 := a3.inv
      rw [List.append_nil] at hi2
      have hn1 := a2.mod.n
      have hn2 := a3.mod.n
      have hl : Loop C s1.n (fun h => h = i ∨ ahead = some h) := by
        refine ⟨fun h hc => ⟨hFr.lt hi1.j h hc, ?_⟩, ?_⟩
        · rintro (e | e)
          · exact hiC.1 (e ▸ hc)
          · have := (a8 h e).1; have := hFr.lt hi.j h hc; omega
        · rintro h (e | e)
          · omega
          · exact (a8 h e).2
      have hia : ahead ≠ some i := fun e => by have := (a8 i e).1; omega
      have hS : ∀ h, h = i ∨ ahead = some h → h ∉ idxs (newDisp seg.sels :: S) := by
        rintro h (e | e)
        · rw [hidx, e]; exact hiC.2
        · intro e'; have := (a8 h e).1; have := hin.lt h e'; omega
      have hpa : ∀ j, ahead.isSome = true → p.1.idx = some j → ahead = some j := fun j hs hj => by rw [← (a6 hs).2]; exact hj
      have hll : LF s1 s1.n (fun h => h = i ∨ ahead = some h) = LF s1 s1.n (fun h => h = i ∨ ahead = some h) := rfl
      -- the end, from the last state of the loops
      have last : ∀ {F' t4 T4 q4' s4 d4 ds4 o4 q4} (r : Bool), (∀ j < s1.n, F' j → j = i ∨ ahead = some j) →
          Ok C J G P R false s1 F' (newDisp seg.sels :: S) acc (t4 :: T4) q4' s4 (d4 :: ds4) o4 q4 →
          ∃ s' o' S' q1, ((detachOpt p.2).bind fun _ => finish fin (d4, ds4, q4, r)).run AState.mach s4 =
              (o', .ok (s', (S', q1, (tfinish tfin (t4, T4, q4', r)).2.2))) ∧
            Ok C J G P R true s (fun j => Val.idx (.coll .arr i) = some j) S acc (tfinish tfin (t4, T4, q4', r)).1
              (tfinish tfin (t4, T4, q4', r)).2.1 s' S' (o4 ++ o') q1 := by
        intro F' t4 T4 q4' s4 d4 ds4 o4 q4 r hF' h
        have h' := h.mono (F' := fun h => h = i ∨ ahead = some h) hi1.wf (fun j hj e => .inl (hF' j hj e))
        obtain ⟨s5, e1, e2⟩ := h'.detach' (p := p) (v := .arr items e) hFr ahead.isSome hi1 (fun j e hc => (hl.ctx j hc).2 e)
          (fun hs => ⟨(a6 hs).1, fun j hj => .inr (hpa j hs hj), fun j hj => hS j (.inr (hpa j hs hj))⟩) a7
        have r2 := a2.trans0 e2 (fun j hj e => by
          rcases e with e | e
          · exact .inl e
          · have := (a8 j e).1; omega)
        obtain ⟨s6, o6, ds6, q6, g1, g2⟩ := finish_ok hFr hfin r r2 (didx_new _)
        refine ⟨s6, o6, ds6, q6, ?_, g2.mono hi.wf (fun j _ e => .inl (by rw [e]; rfl))⟩
        rw [run_ok_bind e1, g1]
        simp
      have hlook := look_rel hseg.sels
      have a3' : ∀ {A : Nat → Prop}, (∀ h, ahead = some h → A h) → Ok C J G P R false s1 (LF s1 s1.n A) (newDisp seg.sels :: S) acc (tnew tsg.sels :: T) q' s2
          (newDisp seg.sels :: S) [] q := fun hA => a3.mono hi1.wf (fun j _ e => .inl (Or.imp (hA j) id e))
      cases strict with
      | false =>
        simp only [segP, tseg, Bool.false_eq_true, if_false, hseg.desc]
        obtain ⟨s3, o3, d3, ds3, q3, b1, b2⟩ := arrRelaxed_ok hFr hfin tsg.desc hf hk hself (fun _ => hks) hl hia _ F 0
          (windowInit (segLookahead seg.sels) (JVal.arr items e).members.length) s2 _ _ S T acc q q' hlen hi2
          (Fresh.before' a4 rfl (by omega) hn2) a5 hS (hlook ▸ hso) hfm
        have r1 := (a3' (A := fun h => h = i ∨ ahead = some h) (fun h e => .inr e)).trans0 b2 (fun j hj e => .inl (e.back a3.mod hj))
        obtain ⟨s4, o4, ds4, q4, g1, g2⟩ := last (tarrRelaxed tfin tsg.desc tfollow (tseg tfin false tsg tfollow g) (JVal.arr items e).members 0
          (windowInit (segLookahead seg.sels) (JVal.arr items e).members.length) (tnew tsg.sels) T q').2.2.2
          (fun j hj e => e.elim id (fun e => by omega)) r1
        rw [hlook] at a1 b1 g1 g2
        rw [hlook]
        refine ⟨s4, o3 ++ o4, ds4, q4, ?_, g2⟩
        rw [run_ok_bind a1]
        simp only [Bool.false_eq_true, if_false]
        rw [run_ok_bind b1, g1]
        simp
      | true =>
        simp only [segP, tseg, if_true, hseg.desc]
        obtain ⟨s3, pd, b1, b2, b3, b4, b5, b6⟩ := cloneDesc_ok hFr tsg.desc hi2 a4
          (fun j hj => ⟨(hxi j hj).1, by rw [hidx]; exact (hxi j hj).2⟩)
        have hi3 := b2.inv
        rw [List.append_nil] at hi3
        have hn3 := b2.mod.n
        have hpj : tsg.desc = true → ∀ j, pd.1.idx = some j → ¬ C j ∧ j ∉ idxs (newDisp seg.sels :: S) ∧ ¬ (j = i ∨ ahead = some j) ∧ s2.n ≤ j := fun hd j hj => by
          have := (b4 hd).2 j hj
          exact ⟨fun e => by have := hFr.lt hi.j j e; omega, fun e => by have := hin.lt j e; omega,
            fun e => by have := hl.lt j e; omega, this⟩
        have ha3 : Ahead s3 s1.n ahead (windowInit (segLookahead seg.sels) (JVal.arr items e).members.length).2 := a5.mod b2.mod (by
          rintro j hj (e | e)
          · exact hia (by rw [hj]; exact e.symm)
          · exact hS j (.inr hj) e)
        obtain ⟨s4, o4, d4, ds4, q4, c1, c2⟩ := arrStrict_ok (E := fun v => tsg.desc = true → Leads G Q tsg g v) hFr hfin hf hk hl hia _ F 0
          (windowInit (segLookahead seg.sels) (JVal.arr items e).members.length) s3 _ _ S T acc q q' hlen hi3
          (Fresh.before' b3 rfl (by omega) (by omega)) ha3 hS (hlook ▸ hso) hfm
        have hpF : tsg.desc = true → ∀ j, pd.1.idx = some j → ¬ LF s3 s1.n (fun h => h = i ∨ ahead = some h) j := fun hd j hj =>
          LF.own ((b4 hd).1.own j hj).2 (hpj hd j hj).2.2.1
        obtain ⟨s5, o5, d5, ds5, q5, k1, k2⟩ := strictEnd_ok (p := pd) hFr tsg.desc hself
          (tarrStrict tfin tfollow (JVal.arr items e).members 0 (windowInit (segLookahead seg.sels) (JVal.arr items e).members.length)
            (tnew tsg.sels) T q').2.2.2 F hlen c2.inv
          (fun hd => ⟨c2.mod.owned hi3.wf (b4 hd).1 (fun j hj e => e.elim (hpF hd j hj) (hpj hd j hj).2.1), fun j hj =>
            ⟨(hpj hd j hj).1, c2.still (A := fun j => pd.1.idx = some j) (fun h e => (b4 hd).1.fresh.lt h e) (fun h e => (hpj hd h e).2.1) j hj⟩⟩)
          (fun k e => nomatch e) (fun hd m hm => (hfm m hm).self hd)
        have r1 := (c2.mono (F' := fun j => LF s3 s1.n (fun h => h = i ∨ ahead = some h) j ∨ (tsg.desc = true ∧ pd.1.idx = some j)) hi3.wf
          (fun j _ e => .inl (.inl e))).trans k2 (fun j _ e => .inl (.inr e))
        obtain ⟨s6, e1, e2⟩ := r1.detach' (p := pd) (v := .arr items e) hFr tsg.desc hi3
          (fun j e => e.elim (fun e hc => hl.noC j hc e) (fun e => (hpj e.1 j e.2).1))
          (fun hd => ⟨(b4 hd).1, fun j hj => .inr ⟨hd, hj⟩, fun j hj => (hpj hd j hj).2.1⟩) b5
        have b2' := b2.mono (F' := fun j => Val.idx (.coll .arr i) = some j ∨ LF s2 s1.n (fun h => h = i ∨ ahead = some h) j) hi2.wf (fun j _ e => .inl (.inl e))
        have r2 := b2'.trans0 e2 (fun j hj e => by
          rcases e with e | e
          · exact .inl (.inr (e.back b2.mod hj))
          · have := (hpj e.1 j e.2).2.2.2; omega)
        have r3 := (a3' (A := fun h => h = i ∨ ahead = some h) (fun h e => .inr e)).trans0 r2 (fun j hj e => by
          rcases e with e | e
          · exact .inl (.inl (.inl (Option.some.inj e).symm))
          · exact .inl (e.back a3.mod hj))
        obtain ⟨s7, o7, ds7, q7, g1, g2⟩ := last (tstrictEnd tsg.desc (tseg tfin true tsg tfollow g) (JVal.arr items e).members
          (tarrStrict tfin tfollow (JVal.arr items e).members 0 (windowInit (segLookahead seg.sels) (JVal.arr items e).members.length)
            (tnew tsg.sels) T q')).2.2.2
          (fun j hj e => e.elim id (fun e => by omega)) r3
        rw [hlook] at a1 c1 k1 g1 g2
        rw [hlook]
        refine ⟨s7, (o4 ++ o5) ++ o7, ds7, q7, ?_, g2⟩
        rw [run_ok_bind a1]
        simp only [if_true]
        rw [run_ok_bind b1, run_ok_bind c1, run_ok_bind k1, run_ok_bind e1, g1]
        simp

theorem segsP_ok (hFr : Frame C J) (hG : Closed G) (hfin : FinOk R G fin tfin) (strict : Bool) {F : Nat} {segs : List (Seg (CondP ε))}
    {tsgs : List (Seg (JVal → Bool))} (h : Rel2 (SegRel C J G P) segs tsgs) :
    FollowOk C J G P (fun v => Fits G F v ∧ ∀ w ∈ tnodes tsgs v, P w) R (segsP fin strict F segs) (tsegs tfin strict F tsgs) := by
  induction h with
  | nil =>
    intro s S T q q' acc x v hi hx hD hxi
    exact process_ok hFr hfin s S T q q' acc x v hi hx ⟨hD.1.1, hD.2 v (List.mem_singleton.2 rfl)⟩ hxi
  | @cons _ b _ bs hab _ ih =>
    intro s S T q q' acc x v hi hx hD hxi
    exact segP_ok hFr hG hfin strict hab ih (segs_keeps strict F bs) F (Nat.le_refl _) s S T q q' acc x v hi hx
      ⟨hD.1, fun w hw u hu => hD.2 u (List.mem_flatMap.2 ⟨w, hw, hu⟩)⟩ hxi

end Verif.JPath
