import Verif.Props.C26

/-!
# C27: Copy reproduces the value
-/

set_option linter.unusedSimpArgs false
set_option linter.unusedVariables false

namespace Verif
open AState IProg JVal.toks

/-- Write a value again: at each place (a path of member numbers) either by `Copy` or member by member,
as `whole` says.  `f` bounds the depth and the number of members. -/
def rebuild (whole : List Nat → Bool) : Nat → List Nat → Val → IProg Token Unit
  | 0, _, _ => .fail .fuel
  | f + 1, p, x =>
    if whole p then .op (.copy x) fun (ts : List Token) => putAll ts
    else match x with
      | .scalar s => put (.scalar s)
      | .coll k i =>
        (put (openTok k)).bind fun _ =>
          (forEach (fun n key y => (putAll (key.toList.map .scalar)).bind fun _ =>
            (rebuild whole f (p ++ [n]) y).bind fun _ => .ret (n + 1)) i (f + 1) 0).bind fun _ =>
          .op (.elided i) fun (e : Bool) => putAll (elisionToks e ++ endToks k)

theorem streamToks_flatMap (vs : List JVal) : vs.flatMap JVal.toks = streamToks vs := by
  induction vs with
  | nil => rfl
  | cons v l ih => simp [ih]

theorem foldOut_body (n : Nat) (l : List (Option Scalar × JVal)) :
    (foldOut (fun (_ : Nat) key v => (key.toList.map Token.scalar) ++ v.toks) (fun n _ _ => n + 1) n l).1 = bodyToks l := by
  induction l generalizing n with
  | nil => rfl
  | cons m l ih =>
    obtain ⟨k, v⟩ := m
    simp only [foldOut, ih]
    cases k <;> simp [bodyToks]

theorem rebuild_visits (whole : List Nat → Bool) : ∀ (f : Nat) (v : JVal) (p : List Nat), v.toks.length ≤ f →
    Visits (rebuild whole f p) v v.toks () := by
  intro f
  induction f with
  | zero => intro v p hv; have := toks_pos v; omega
  | succ f ih =>
    intro v p hv s x hl hf
    by_cases hw : whole p = true
    · obtain ⟨s', e1, e2, e3⟩ := copy_fresh hl hf
      refine ⟨s', ?_, e2, e3⟩
      simp only [rebuild, hw, if_true]
      rw [arun_op e1, run_putAll]
    · have body : ∀ (k : Kind) (i : Nat) (ts : List Token), x = .coll k i → k ≠ .top →
          ts = openTok k :: (bodyToks v.members ++ elisionToks v.elision ++ endToks k) →
          v.members.length < f + 1 → (∀ m ∈ v.members, m.2.toks.length ≤ f) →
          ∃ s', (rebuild whole (f + 1) p x).run AState.mach s = (ts, .ok (s', ())) ∧ Links s' ∧ Keep s.n x.idx s s' := by
        intro k i ts hx hk hts hlen hsub
        obtain ⟨-, hb⟩ := hf.before hx
        obtain ⟨s', e1, e2, e3, e4, e5, e6, e7⟩ := forEach_run
          (body := fun n key y => (putAll (key.toList.map .scalar)).bind fun _ =>
            (rebuild whole f (p ++ [n]) y).bind fun _ => .ret (n + 1))
          (fun (_ : Nat) key v => (key.toList.map Token.scalar) ++ v.toks) (fun n _ _ => n + 1) hk
          v.members (f + 1) s 0 hlen hl hb (by
            intro m hm n s x hl hfr
            obtain ⟨s', g1, g2, g3⟩ := ih m.2 (p ++ [n]) (hsub m hm) s x hl hfr
            refine ⟨s', ?_, g2, g3⟩
            rw [run_putAll_bind, run_ok_bind g1]
            simp)
        refine ⟨s', ?_, e2, by rw [hx]; exact e3⟩
        simp only [rebuild, hw, if_false, hx, Bool.false_eq_true]
        rw [run_put_bind, run_ok_bind e1, arun_op (elided_ok e4 e5), run_putAll, hts, foldOut_body]
        simp
      cases v with
      | scalar sc =>
        have hx : x = .scalar sc := hf
        subst hx
        refine ⟨s, ?_, hl, Keep.refl _ _ _⟩
        simp [rebuild, hw]
      | arr items e =>
        obtain ⟨i, t, h1, h⟩ := id hf
        have hb := itemToks_bound items
        simp only [JVal.toks, List.length_append, List.length_cons] at hv
        refine body .arr i _ h1 (by simp) ?_ ?_ ?_
        · simp [JVal.members, bodyToks_items, openTok, endToks, JVal.elision]
        · simp [JVal.members]; omega
        · intro m hm
          simp only [JVal.members, List.mem_map] at hm
          obtain ⟨w, hw, rfl⟩ := hm
          have := hb.2 w hw; simp at hv ⊢; omega
      | obj ms e =>
        obtain ⟨i, t, h1, h⟩ := id hf
        have hb := memberToks_bound ms
        simp only [JVal.toks, List.length_append, List.length_cons] at hv
        refine body .obj i _ h1 (by simp) ?_ ?_ ?_
        · simp [JVal.members, bodyToks_members, openTok, endToks, JVal.elision]
        · simp [JVal.members]; omega
        · intro m hm
          simp only [JVal.members, List.mem_map] at hm
          obtain ⟨w, hw, rfl⟩ := hm
          have := hb.2 w hw; simp at hv ⊢; omega

/-- C27, on the implementation: copying the values of a stream one after the other writes exactly the
tokens of the stream. -/
theorem C27_copy_stream (vs : List JVal) (f : Nat) (hf : (streamToks vs).length < f) :
    ∃ h, (transformAll (fun x => .op (.copy x) fun (ts : List Token) => putAll ts) f).run Heap.mach
      (Heap.init (streamToks vs)) = (streamToks vs, .ok (h, ())) := by
  have := transformAll_run (tv := fun x => .op (.copy x) fun (ts : List Token) => putAll ts) (out := JVal.toks) hf (by
    intro v _ s x hl hfr
    obtain ⟨s', e1, e2, e3⟩ := copy_fresh hl hfr
    exact ⟨s', by rw [arun_op e1, run_putAll], e2, e3⟩)
  simpa [streamToks_flatMap] using this

/-- C27, on the implementation: after any partial readings of the first `n` values, `Copy` of the next
value gives exactly its tokens, and the advance after that delivers the value that follows. -/
theorem C27_copy_in_step {ε : Type} (ls : Nat → Look) (vs : List JVal) (n : Nat) :
    ∃ h, ((skim (fun n => (ls n).prog) n).bind fun _ => nextValue.bind fun a => nextValue.bind fun b => .ret (a, b) :
        IProg ε _).run Heap.mach (Heap.init (streamToks vs)) =
      ([], .ok (h, (vs[n]?.map JVal.toks, vs[n + 1]?.map JVal.toks))) := by
  have next2 : ∀ {s : AState} {vs : List JVal}, Root s (vs.map (none, ·)) → WF s →
      ∃ s', (nextValue : IProg ε _).run AState.mach s = ([], .ok (s', vs.head?.map JVal.toks)) ∧
        Root s' (vs.tail.map (none, ·)) ∧ WF s' := by
    intro s vs h hw
    cases vs with
    | nil =>
      obtain ⟨s2, e1, e2, e3⟩ := h.end hw
      refine ⟨s2, ?_, e2, e3⟩
      simp only [nextValue]
      rw [arun_op e1]
      rfl
    | cons v l =>
      obtain ⟨s2, x, e1, e2, e3, e4, e5, e6⟩ := h.next hw
      obtain ⟨s3, e7, e8, e9⟩ := copy_fresh e4.links e5
      refine ⟨s3, ?_, ?_, e4.step e7⟩
      · simp only [nextValue]
        rw [arun_op e1]
        simp only [if_true]
        rw [arun_op e2]
        simp only
        rw [arun_op e7]
        rfl
      · exact e3.step e4 (by simp) e7
  obtain ⟨s1, h1, r1, w1⟩ := skim_look (ε := ε) ls vs n
  obtain ⟨s2, h2, r2, w2⟩ := next2 r1 w1
  obtain ⟨s3, h3, r3, w3⟩ := next2 r2 w2
  refine top_run (s' := s3) ?_
  rw [run_ok_bind h1, run_ok_bind h2, run_ok_bind h3]
  simp

/-- C27, on the implementation: writing the values of a stream again, each part of each value either by
`Copy` or member by member (keys, members, elision mark), gives exactly the tokens of the stream. -/
theorem C27_member_by_member (whole : List Nat → Bool) (vs : List JVal) (f : Nat) (hf : (streamToks vs).length < f) :
    ∃ h, (transformAll (rebuild whole f []) f).run Heap.mach (Heap.init (streamToks vs)) =
      (streamToks vs, .ok (h, ())) := by
  have hb := streamToks_bound vs
  have := transformAll_run hf (fun v hv => rebuild_visits whole f v [] (by have := hb.2 v hv; omega))
  simpa [streamToks_flatMap] using this

/-- The property is about values that were not read: `Copy` of a value that was skipped by `Discard`
(`Copy` only checks that iteration has not started) writes the start of the value followed by what
comes after it in the stream, here `[` followed by `[1]` for the stream `[] [1]`. -/
theorem C27_copy_of_discarded :
    ((.op (.advance 0) fun _ => .op (.current 0) fun (kv : Option Scalar × Option Val) =>
      match kv.2 with
      | none => .fail .panic
      | some x => .op (.discard x) fun _ => .op (.copy x) fun (ts : List Token) => putAll ts : IProg Token Unit).run
        Heap.mach (Heap.init (streamToks [.arr [] false, .arr [.scalar ⟨b%"1", .num, false, false, false⟩] false]))).1 =
      [.startArr, .startArr, .scalar ⟨b%"1", .num, false, false, false⟩, .endArr] := by
  rfl

section NonVacuity

private def num (b : Bytes) : Scalar := ⟨b, .num, false, false, false⟩
private def key (b : Bytes) : Scalar := ⟨b, .str, true, true, true⟩

/-- `[{"a":1},[2,...]]` with the outer array taken member by member and its members copied. -/
example : ∃ h, (transformAll (rebuild (fun p => p.length == 1) 12 []) 12).run Heap.mach
      (Heap.init (streamToks [.arr [.obj [(key b%"\"a\"", .scalar (num b%"1"))] false, .arr [.scalar (num b%"2")] true] false])) =
    ([.startArr, .startObj, .scalar (key b%"\"a\""), .scalar (num b%"1"), .endObj, .startArr, .scalar (num b%"2"),
      .elision, .endArr, .endArr], .ok (h, ())) :=
  C27_member_by_member _ _ _ (by decide)

end NonVacuity

end Verif
