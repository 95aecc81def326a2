import Verif.IterSim

/-!
# Advancing an iterator
-/

set_option linter.unusedSimpArgs false
set_option linter.unusedVariables false

namespace Verif

open Streams JVal.toks

/-- Implementation and specification agree. -/
def ISimE (h : Heap) (s : AState) : Prop := ∃ stk view lt dat junk, ISim h s stk view lt dat junk

@[simp] theorem Heap.set_set (h : Heap) (i : Nat) (c c' : Coll) : (h.set i c).set i c' = h.set i c' := by
  simp only [Heap.set, Heap.mk.injEq, true_and, and_true]
  funext j
  split <;> rfl

theorem Heap.set_alloc_set (h : Heap) (i : Nat) (c c' ch : Coll) :
    ((h.set i c).alloc ch).1.set i c' = (h.alloc ch).1.set i c' := by
  simp only [Heap.set, Heap.alloc, Heap.mk.injEq, true_and, and_true]
  funext j
  split
  · rfl
  · rename_i e
    simp [e]

@[simp] theorem Streams.upd_upd {α : Type} (f : Nat → α) (i : Nat) (x y : α) : upd (upd f i x) i y = upd f i y := by
  funext j; simp only [upd]; split <;> rfl

theorem bodyToks_items (items : List JVal) : bodyToks (items.map fun v => (none, v)) = itemToks items := by
  induction items with
  | nil => rfl
  | cons v l ih => simp [bodyToks, ih]

theorem bodyToks_members (ms : List (Scalar × JVal)) :
    bodyToks (ms.map fun m => (some m.1, m.2)) = memberToks ms := by
  induction ms with
  | nil => rfl
  | cons m l ih => obtain ⟨k, v⟩ := m; simp [bodyToks, ih]

theorem bodyToks_top (vs : List JVal) : bodyToks (vs.map fun v => (none, v)) = streamToks vs := by
  induction vs with
  | nil => rfl
  | cons v l ih => simp [bodyToks, ih]

/-- The first token of a value. -/
def firstTok : JVal → Token
  | .scalar k => .scalar k
  | .arr _ _ => .startArr
  | .obj _ _ => .startObj

/-- The tokens after the first. -/
def restToks : JVal → List Token
  | .scalar _ => []
  | .arr items e => itemToks items ++ elisionToks e ++ [.endArr]
  | .obj ms e => memberToks ms ++ elisionToks e ++ [.endObj]

theorem toks_eq (v : JVal) : v.toks = firstTok v :: restToks v := by
  cases v <;> simp [firstTok, restToks]

/-- A fresh handle on a value. -/
def handleH (h : Heap) (v : JVal) (t : Nat) : Heap × Val :=
  match v with
  | .scalar k => (h, .scalar k)
  | .arr _ _ => ((h.alloc ⟨.arr, t, false, false, false, none, none⟩).1, .coll .arr h.n)
  | .obj _ _ => ((h.alloc ⟨.obj, t, false, false, false, none, none⟩).1, .coll .obj h.n)

theorem streamedValue_eq (h : Heap) (v : JVal) (t : Nat) :
    h.streamedValue (firstTok v) t = .ok (handleH h v t) := by
  cases v <;> rfl

theorem handle_val {h : Heap} {s : AState} (hn : h.n = s.n) (v : JVal) (t : Nat) :
    (handleH h v t).2 = (s.handle v t).2 := by
  cases v <;> simp [handleH, AState.handle, hn]

theorem handleH_old {h : Heap} (v : JVal) (t : Nat) {i : Nat} (hi : i < h.n) :
    (handleH h v t).1.coll i = h.coll i := by
  cases v <;> simp [handleH, Heap.alloc, Heap.set] <;> omega

theorem handleH_set (h : Heap) (v : JVal) (t : Nat) (i : Nat) (c c' : Coll) :
    ((handleH (h.set i c) v t).1).set i c' = (handleH h v t).1.set i c' := by
  cases v with
  | scalar k => simp [handleH]
  | arr items e => exact Heap.set_alloc_set ..
  | obj ms e => exact Heap.set_alloc_set ..

namespace ISim

variable {h : Heap} {s : AState} {stk : Nat → List Nat} {view : Nat → Option (List Token)}
  {lt : Option Nat} {dat : Nat → Bool} {junk : Nat → List Token}

/-- The next member of a handle after its first tokens have been read. -/
theorem member (H : ISim h s stk view lt dat junk) {t i tl} (hs : stk t = i :: tl) (hc : ChildDone s i)
    {k v r} (hr : (s.coll i).rest = (k, v) :: r) {st' : Streams}
    (hsw : SW st' (upd view t (some (restToks v ++ (bodyToks r ++ elisionToks (s.coll i).e ++
      endToks (s.coll i).kind) ++ frames s tl ++ junk t))) lt dat) (hnt : st'.nt = h.st.nt) (c : AColl)
    (hcc : c = { s.coll i with started := (s.coll i).kind ≠ .top, key := k,
                               cur := some (s.handle v t).2, rest := r }) :
    ISimE ((handleH { h with st := st' } v t).1.set i c.toColl) ((s.handle v t).1.set i c) := by
  have hm := H.inv.mem t i (by simp [hs])
  have hg := H.inv.good i hm.1
  have ha := H.alive_of_mem (t := t) (i := i) (by simp [hs])
  have hgc : Good c := by
    subst hcc
    refine ⟨?_, ?_, ?_, ?_⟩
    · intro e
      have e' : (s.coll i).kind ≠ .top := e
      simp [e']
    · intro m hm'
      exact hg.keys m (by rw [hr]; simp [show m ∈ r from hm'])
    · intro e
      have e' : (s.coll i).kind = .top := e
      have := hg.top e'
      exact ⟨this.1, this.2.1, by simp [e']⟩
    · intro e
      have e' : (s.coll i).kind ≠ .obj := e
      have := hg.keys (k, v) (by rw [hr]; simp)
      cases k with
      | none => rfl
      | some k => exact absurd (this.1 rfl) e'
  have hfr : frame c = bodyToks r ++ elisionToks (s.coll i).e ++ endToks (s.coll i).kind := by
    subst hcc; rfl
  have htl : ∀ j ∈ tl, j ≠ i ∧ j < s.n := fun j hj => by
    have := H.inv.sorted (l := []) (by simpa using hs) j hj
    have := (H.inv.mem t j (by simp [hs, hj])).1
    omega
  have hkind : c.kind = (s.coll i).kind := by subst hcc; rfl
  have hthr : c.thr = (s.coll i).thr := by subst hcc; rfl
  have hdone : c.done = (s.coll i).done := by subst hcc; rfl
  have hcur : c.cur = some (s.handle v t).2 := by subst hcc; rfl
  clear hcc
  -- allocation of a collection
  have hpush : ∀ ch : AColl, Good ch → ch.kind ≠ .top → ch.thr = t → ch.done = false → ch.cur = none →
      c.cur = some (.coll ch.kind s.n) → frame ch = restToks v →
      ISimE (({ h with st := st' } : Heap).alloc ch.toColl |>.1.set i c.toColl) ((s.alloc ch).set i c) := by
    intro ch g1 g2 g3 g4 g5 g6 g7
    refine ⟨_, _, lt, dat, junk, H.inv.push hs hc c ch hgc hkind hthr hdone g6 g1 g2 g3 g4 g5, ?_, ?_, ?_, hsw, ?_⟩
    · show h.n + 1 = s.n + 1
      rw [H.n]
    · exact hnt.trans H.nt
    · intro j hj
      by_cases hji : j = i
      · subst hji; rw [Heap.set_same, AState.set_same]
      · rw [Heap.set_ne _ _ hji, AState.set_ne _ _ hji]
        simp only [Heap.alloc, Heap.set, AInv.alloc_coll, H.n]
        split
        · rfl
        · exact H.coll j (by
            have : j < s.n + 1 := hj
            omega)
    · intro u hu
      have hu' : u < s.nt := hu
      have hfold : ∀ j, j < s.n → j ≠ i → frame (((s.alloc ch).set i c).coll j) = frame (s.coll j) := by
        intro j h1 h2
        rw [AState.set_ne _ _ h2, AInv.alloc_old h1]
      by_cases hut : u = t
      · subst hut
        rw [upd_same, upd_same]
        have : ((s.alloc ch).set i c).dead u = false := ha
        rw [this]
        simp only [frames_cons]
        rw [show ((s.alloc ch).set i c).coll s.n = ch by
          rw [AState.set_ne _ _ (by have := hm.1; omega), AInv.alloc_new]]
        rw [AState.set_same, hfr, g7, frames_congr (s := s) fun j hj => hfold j (htl j hj).2 (htl j hj).1]
        simp
      · rw [upd_ne _ _ hut, upd_ne _ _ hut, H.view u hu']
        rw [frames_congr (s := s) fun j hj => hfold j (H.inv.mem u j hj).1 (by
          rintro rfl
          exact hut ((H.inv.mem u _ hj).2.1.symm.trans hm.2.1))]
        rfl
  cases v with
  | scalar x =>
    refine ⟨stk, _, lt, dat, junk, H.inv.setCur hm.1 hc c hgc hkind hthr hdone ?_, H.n, hnt.trans H.nt,
      H.coll_set i c { h with st := st' } rfl, hsw, ?_⟩
    · intro k' j e; rw [hcur] at e; simp [AState.handle] at e
    · intro u hu
      show _ = if (s.set i c).dead u then none else some (frames (s.set i c) (stk u) ++ junk u)
      by_cases hut : u = t
      · subst hut
        rw [upd_same]
        have : (s.set i c).dead u = false := ha
        rw [this, hs]
        simp only [frames_cons]
        rw [AState.set_same, hfr, frames_congr (s' := s.set i c) (s := s) fun j hj => by
          rw [AState.set_ne _ _ (htl j hj).1]]
        simp [restToks]
      · rw [upd_ne _ _ hut, H.view u hu]
        rw [frames_congr (s' := s.set i c) (s := s) fun j hj => by
          rw [AState.set_ne _ _ (by
            rintro rfl
            exact hut ((H.inv.mem u _ hj).2.1.symm.trans hm.2.1))]]
        rfl
  | arr items e =>
    exact hpush ⟨.arr, t, false, false, false, none, none, items.map (none, ·), e⟩
      ⟨by simp, by simp, by simp, by simp⟩ (by simp) rfl rfl rfl hcur
      (by simp [frame, restToks, bodyToks_items, endToks])
  | obj ms e =>
    exact hpush ⟨.obj, t, false, false, false, none, none, ms.map fun m => (some m.1, m.2), e⟩
      ⟨by simp, by simp; rintro a b x y _ rfl _; rfl, by simp, by simp⟩ (by simp) rfl rfl rfl hcur
      (by simp [frame, restToks, bodyToks_members, endToks])

/-- `Advance` after the current value has been discarded. -/
def tail (k : Kind) (f : Nat) (h : Heap) (i : Nat) : Except Stop (Heap × Bool) :=
  match k with
  | .top => do
    let (h, x) ← h.next (h.coll i).stream
    match x with
    | none => .ok (h.set i { h.coll i with cur := none }, false)
    | some x =>
      let (h, v) ← h.streamedValue x (h.coll i).stream
      .ok (h.set i { h.coll i with cur := some v }, true)
  | .obj => do
    let (h, x) ← h.next (h.coll i).stream
    match x with
    | none => .error .panic
    | some (.scalar k) =>
      let h := h.set i { h.coll i with started := true, key := some k }
      let (h, y) ← h.next (h.coll i).stream
      match y with
      | none => .error .panic
      | some y =>
        let (h, v) ← h.streamedValue y (h.coll i).stream
        .ok (h.set i { h.coll i with cur := some v }, true)
    | some .endObj => .ok (h.set i { h.coll i with done := true }, false)
    | some .elision => Heap.advance f (h.set i { h.coll i with elided := true }) i
    | some _ => .error .panic
  | .arr => do
    let (h, x) ← h.next (h.coll i).stream
    match x with
    | none => .error .panic
    | some .endArr => .ok (h.set i { h.coll i with done := true }, false)
    | some .elision => Heap.advance f (h.set i { h.coll i with elided := true }) i
    | some x =>
      let h := h.set i { h.coll i with started := true }
      let (h, v) ← h.streamedValue x (h.coll i).stream
      .ok (h.set i { h.coll i with cur := some v }, true)

theorem advance_eq (f : Nat) (h : Heap) (i : Nat)
    (hst : (h.coll i).kind ≠ .top → (h.coll i).started = (h.coll i).cur.isSome)
    (hd : (h.coll i).kind ≠ .top → (h.coll i).done = false) :
    Heap.advance (f + 1) h i = (discardCurH h.n h i).bind fun h' => tail (h.coll i).kind f h' i := by
  simp only [Heap.advance, discardCurH]
  cases hk : (h.coll i).kind with
  | top =>
    cases hc : (h.coll i).cur <;> rfl
  | arr =>
    rw [hk] at hst hd
    simp only [hd (by simp), hst (by simp)]
    cases hc : (h.coll i).cur <;> rfl
  | obj =>
    rw [hk] at hst hd
    simp only [hd (by simp), hst (by simp)]
    cases hc : (h.coll i).cur <;> rfl

/-- Discarding a finished value does nothing. -/
theorem discardCurH_done {f : Nat} (hf : 0 < f) {h : Heap} {i : Nat}
    (hc : ∀ k j, (h.coll i).cur = some (.coll k j) → (h.coll j).done = true) :
    discardCurH f h i = .ok h := by
  obtain ⟨f', rfl⟩ : ∃ f', f = f' + 1 := ⟨f - 1, by omega⟩
  simp only [discardCurH]
  cases hcur : (h.coll i).cur with
  | none => rfl
  | some v =>
    cases v with
    | scalar x => rfl
    | coll k j => simp [Heap.discard, hc k j hcur]

theorem next_eq {h : Heap} {t : Nat} {st' : Streams} {x : Option Token} (e : h.st.next t = some (st', x)) :
    h.next t = .ok ({ h with st := st' }, x) := by
  simp [Heap.next, e]

/-- The relation of outcomes. -/
def Agree {α : Type} (c : Except Stop (Heap × α)) (a : Except Stop (AState × α)) : Prop :=
  match a with
  | .error e => c = .error e
  | .ok (s', b) => ∃ h', c = .ok (h', b) ∧ ISimE h' s'

/-- Reading the closing token. -/
theorem tail_end (H : ISim h s stk view lt dat junk) {i tl} (hs : stk (s.coll i).thr = i :: tl)
    (hk : (s.coll i).kind ≠ .top) (hc : ChildDone s i) (hr : (s.coll i).rest = []) (f : Nat) (hf : 0 < f) :
    ∃ h', tail (s.coll i).kind f h i = .ok (h', false) ∧
      ISimE h' (s.set i { s.coll i with done := true, elided := (s.coll i).elided || (s.coll i).e }) := by
  have hm := H.inv.mem _ i (show i ∈ stk (s.coll i).thr by simp [hs])
  have hcoll := H.coll i hm.1
  have hstr : (h.coll i).stream = (s.coll i).thr := by rw [hcoll]; rfl
  have htnt : (s.coll i).thr < h.st.nt := by rw [H.nt]; exact H.inv.thr i hm.1
  have ha := H.alive_of_mem (show i ∈ stk (s.coll i).thr by simp [hs])
  have hl : (s.coll i).thr = 0 → lt = none := by
    intro e; rw [e] at hs; exact H.inv.lt_none hs hc
  have hview := H.alive (H.inv.thr i hm.1) ha
  rw [hs, frames_cons, frame, hr] at hview
  simp only [bodyToks, List.nil_append, List.append_assoc] at hview
  have hkk : (s.coll i).kind = .arr ∨ (s.coll i).kind = .obj := by
    cases hkk : (s.coll i).kind <;> simp_all
  cases he : (s.coll i).e with
  | false =>
    rw [he] at hview
    simp only [elisionToks, List.nil_append, Bool.or_false, Bool.false_eq_true, if_false] at hview ⊢
    rcases hkk with hkk | hkk
    · have hview' := hview
      rw [hkk] at hview'
      obtain ⟨st', e1, e2, e3⟩ := H.sw.next htnt (by simpa [endToks] using hview') hl
      rw [← hstr] at e1
      refine ⟨({ h with st := st' } : Heap).set i { h.coll i with done := true }, ?_, ?_⟩
      · rw [hkk]
        simp only [tail, next_eq e1]; rfl
      · obtain ⟨v', l', hfin⟩ := H.finish hs hk hc e2 e3 (s.coll i).elided
        rw [show ({ h.coll i with done := true, elided := (s.coll i).elided } : Coll) =
          { h.coll i with done := true } by rw [hcoll]; rfl] at hfin
        exact ⟨_, _, _, _, _, hfin⟩
    · have hview' := hview
      rw [hkk] at hview'
      obtain ⟨st', e1, e2, e3⟩ := H.sw.next htnt (by simpa [endToks] using hview') hl
      rw [← hstr] at e1
      refine ⟨({ h with st := st' } : Heap).set i { h.coll i with done := true }, ?_, ?_⟩
      · rw [hkk]
        simp only [tail, next_eq e1]; rfl
      · obtain ⟨v', l', hfin⟩ := H.finish hs hk hc e2 e3 (s.coll i).elided
        rw [show ({ h.coll i with done := true, elided := (s.coll i).elided } : Coll) =
          { h.coll i with done := true } by rw [hcoll]; rfl] at hfin
        exact ⟨_, _, _, _, _, hfin⟩
  | true =>
    rw [he] at hview
    simp only [elisionToks, List.cons_append, List.nil_append, Bool.or_true, if_true] at hview ⊢
    obtain ⟨f', rfl⟩ : ∃ f', f = f' + 1 := ⟨f - 1, by omega⟩
    obtain ⟨st1, a1, a2, a3⟩ := H.sw.next htnt hview hl
    have hgood := H.inv.good i hm.1
    have hn0 : 0 < h.n := by rw [H.n]; exact H.inv.zero_lt
    -- the recursive call
    have hrec : ∀ h2 : Heap, h2 = ({ h with st := st1 } : Heap).set i { h.coll i with elided := true } →
        Heap.advance (f' + 1) h2 i = tail (s.coll i).kind f' h2 i := by
      intro h2 e2
      have hc2 : h2.coll i = { h.coll i with elided := true } := by rw [e2, Heap.set_same]
      rw [advance_eq]
      · rw [discardCurH_done]
        · simp only [Except.bind]
          rw [hc2, hcoll]; rfl
        · rw [e2]; exact hn0
        · intro k j e
          rw [hc2] at e
          have e' : (s.coll i).cur = some (.coll k j) := by rw [hcoll] at e; exact e
          have hj := H.inv.cur i hm.1 k j e'
          rw [e2, Heap.set_ne _ _ (by omega)]
          show (h.coll j).done = true
          rw [H.coll j hj.2.1]
          exact hc k j e'
      · intro _
        rw [hc2, hcoll]
        exact hgood.started hk
      · intro _
        rw [hc2, hcoll]
        exact hm.2.2
    have hfinal : ∀ st2, st2.nt = st1.nt → SW st2 (upd (upd view (s.coll i).thr
        (some (endToks (s.coll i).kind ++ (frames s tl ++ junk (s.coll i).thr)))) (s.coll i).thr
          (some (frames s tl ++ junk (s.coll i).thr))) lt dat →
        ISimE (({ h with st := st2 } : Heap).set i { h.coll i with done := true, elided := true })
          (s.set i { s.coll i with done := true, elided := true }) := by
      intro st2 b1 b2
      rw [Streams.upd_upd] at b2
      obtain ⟨v', l', hfin⟩ := H.finish hs hk hc b2 (b1.trans a3) true
      exact ⟨_, _, _, _, _, hfin⟩
    have hset : ∀ (st2 : Streams),
        (({ ({ h with st := st1 } : Heap).set i { h.coll i with elided := true } with st := st2 } : Heap).set i
          { (({ h with st := st1 } : Heap).set i { h.coll i with elided := true }).coll i with done := true }) =
        ({ h with st := st2 } : Heap).set i { h.coll i with done := true, elided := true } := by
      intro st2
      rw [Heap.set_same]
      exact Heap.set_set { h with st := st2 } i _ _
    have hstr2 : ((({ h with st := st1 } : Heap).set i { h.coll i with elided := true }).coll i).stream =
        (s.coll i).thr := by
      rw [Heap.set_same]; exact hstr
    rcases hkk with hkk | hkk
    · obtain ⟨st2, b1, b2, b3⟩ := a2.next (by rw [a3]; exact htnt)
        (by rw [upd_same, hkk]; rfl) hl
      refine ⟨({ h with st := st2 } : Heap).set i { h.coll i with done := true, elided := true }, ?_, ?_⟩
      · have hx := hrec _ rfl
        rw [← hstr] at a1
        rw [← hstr2] at b1
        rw [hkk] at hx ⊢
        have : tail .arr (f' + 1) h i =
            Heap.advance (f' + 1) (({ h with st := st1 } : Heap).set i { h.coll i with elided := true }) i := by
          simp only [tail, next_eq a1]; rfl
        rw [this, hx]
        simp only [tail]
        rw [next_eq (h := ({ h with st := st1 } : Heap).set i { h.coll i with elided := true }) b1]
        simp only [bind, Except.bind]
        exact congrArg (fun q => Except.ok (q, false)) (hset st2)
      · exact hfinal st2 b3 (by rw [Streams.upd_upd] at b2 ⊢; exact b2)
    · obtain ⟨st2, b1, b2, b3⟩ := a2.next (by rw [a3]; exact htnt)
        (by rw [upd_same, hkk]; rfl) hl
      refine ⟨({ h with st := st2 } : Heap).set i { h.coll i with done := true, elided := true }, ?_, ?_⟩
      · have hx := hrec _ rfl
        rw [← hstr] at a1
        rw [← hstr2] at b1
        rw [hkk] at hx ⊢
        have : tail .obj (f' + 1) h i =
            Heap.advance (f' + 1) (({ h with st := st1 } : Heap).set i { h.coll i with elided := true }) i := by
          simp only [tail, next_eq a1]; rfl
        rw [this, hx]
        simp only [tail]
        rw [next_eq (h := ({ h with st := st1 } : Heap).set i { h.coll i with elided := true }) b1]
        simp only [bind, Except.bind]
        exact congrArg (fun q => Except.ok (q, false)) (hset st2)
      · exact hfinal st2 b3 (by rw [Streams.upd_upd] at b2 ⊢; exact b2)

end ISim
end Verif
