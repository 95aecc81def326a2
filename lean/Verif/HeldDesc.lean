import Verif.Reach
import Verif.PathRun

/-!
# The tokens stored by a descendant segment

The run of `$..a` on an array with one array of `n` numbers, up to the moment when the inner array has been read: all its items are then in the window of the
pool that the inner array and its clone read from.
-/

set_option linter.unusedSimpArgs false
set_option linter.unusedVariables false

namespace Verif

/-- The tokens stored in the windows of all pools. -/
def Streams.held (s : Streams) : List Token := (List.range s.np).flatMap fun p => (s.pools p).window

namespace JPath
open IProg

/-- The compiled query `$..a`. -/
def descR : MainR := ⟨[.mk true [.name [0x61]]], [], []⟩

/-- In the inner array. -/
structure Inner (h : Heap) (w rest : List Token) : Prop where
  kind : (h.coll 3).kind = .arr
  stream : (h.coll 3).stream = 2
  done : (h.coll 3).done = false
  cur : (h.coll 3).started = true → ∃ s, (h.coll 3).cur = some (.scalar s)
  n : h.n = 4
  curs : h.st.curs 2 = (0, 1)
  chan : h.st.onChan 0 = true
  np : h.st.np = 1
  pos : (h.st.pools 0).windowPos = 0
  window : (h.st.pools 0).window = w
  att : (h.st.pools 0).cur 1 = ⟨true, w.length⟩
  src : h.st.src = rest

theorem Inner.next {h : Heap} {w rest : List Token} {x : Token} (H : Inner h w (x :: rest)) :
    ∃ h', h.next 2 = .ok (h', some x) ∧ h'.coll = h.coll ∧ Inner h' (w ++ [x]) rest := by
  obtain ⟨st, coll, n, bad⟩ := h
  obtain ⟨h1, h2, h3, h4, h5, h6, h7, h8, h9, h10, h11, h12⟩ := H
  simp only at h1 h2 h3 h4 h5 h6 h7 h8 h9 h10 h11 h12
  refine ⟨⟨st.setPool 0 { (st.pools 0).setCur 1 ⟨true, (w.length : Int) + 1⟩ with stream := rest, window := w ++ [x] }, coll, n, bad⟩, ?_, rfl, ?_⟩
  · simp only [Heap.next, Streams.next, h6, Streams.pool, h7, if_true, Pool.next, h11, Pool.advanceCursor, h9, h10, h12]
    simp [Pool.setCur, h9]
  · refine ⟨h1, h2, h3, h4, h5, h6, h7, h8, ?_, ?_, ?_, ?_⟩ <;> simp [Streams.setPool, h7, Pool.setCur, h9]

theorem Inner.advance {h : Heap} {w rest : List Token} {s : Scalar} (H : Inner h w (.scalar s :: rest)) :
    ∃ h', h.step (.advance 3) = .ok (h', true) ∧ Inner h' (w ++ [.scalar s]) rest ∧ h'.step (.current 3) = .ok (h', ((h'.coll 3).key, some (.scalar s))) := by
  obtain ⟨h1, e1, e2, H1⟩ := H.next
  refine ⟨(h1.set 3 { h1.coll 3 with started := true }).set 3 { (h1.set 3 { h1.coll 3 with started := true }).coll 3 with cur := some (.scalar s) }, ?_, ?_, ?_⟩
  · show Heap.advance (h.avail (h.coll 3).stream + 2) h 3 = _
    rw [Heap.advance]
    simp only [H.kind, H.done, H.stream, H.n, Bool.false_eq_true, if_false]
    split
    · rename_i hs
      obtain ⟨k, hk⟩ := H.cur hs
      simp only [hk, Heap.discard, Bind.bind, Except.bind, H.stream, e1]
      rfl
    · simp only [Bind.bind, Except.bind, H.stream, e1]
      rfl
  · exact ⟨H1.kind, H1.stream, H1.done, fun _ => ⟨s, rfl⟩, H1.n, H1.curs, H1.chan, H1.np, H1.pos, H1.window, H1.att, H1.src⟩
  · show (Heap.current _ 3).map _ = _
    rw [Heap.current]
    rw [if_neg]
    · rfl
    · intro h
      have := h.2
      have e : (h1.coll 3).done = true := this
      rw [H1.done] at e
      cases e

private theorem hop {ε α : Type} {o : IOp} {k : o.Res → IProg ε α} {h h1 : Heap} {r : o.Res} {out : List ε} {p' : IProg ε α} {h' : Heap}
    (e : h.step o = .ok (h1, r)) (hr : Reach Heap.mach (k r) h1 out p' h') : Reach Heap.mach (.op o k) h out p' h' := .op e hr

/-- The dispatchers of the inner array after its first item. -/
private def none_ : Disp Token := ⟨false, []⟩

/-- The loop over the inner array. -/
theorem inner_loop {self : Stack Token → Unit → Val → IProg Token (Stack Token × Unit × Bool)} {follow : Stack Token → Unit → Val → IProg Token (Stack Token × Unit × Bool)}
    (hself : ∀ ds q s, self ds q (.scalar s) = .op (.discard (.scalar s)) fun _ => .ret (ds, q, true)) (s : Scalar) (rest : List Token) (f' : Nat) :
    ∀ (n : Nat) (h : Heap) (w : List Token) (index : Int) (d : Disp Token) (ds : Stack Token), Inner h w (List.replicate n (.scalar s) ++ rest) →
      (d = newDisp [.name [0x61]] ∨ d = none_) →
      ∃ p' h', Reach Heap.mach (arrRelaxed writeFin true follow self 3 none (n + f') index (minInt64 + 1) d ds ()) h [] p' h' ∧
        Inner h' (w ++ List.replicate n (.scalar s)) rest := by
  intro n
  induction n with
  | zero => intro h w index d ds H _; exact ⟨_, h, .refl _ _, by simpa using H⟩
  | succ n ih =>
    intro h w index d ds H hd
    obtain ⟨h1, e1, H1, e2⟩ := H.advance
    have hdisp : dispatchItem writeFin follow (·.fromIndex index (minInt64 + 1)) (.scalar s) d ds () = .ret (none_, ds, (), true) := by
      rcases hd with rfl | rfl <;> rfl
    obtain ⟨p', h2, r1, H2⟩ := ih h1 _ (index + 1) none_ ds H1 (.inr rfl)
    refine ⟨p', h2, ?_, by rw [List.append_assoc] at H2; exact H2⟩
    rw [show n + 1 + f' = (n + f') + 1 by omega, arrRelaxed]
    refine hop e1 ?_
    rw [if_pos rfl]
    refine hop e2 ?_
    refine hop (o := .clone (.scalar s)) (r := (.scalar s, none)) (h1 := h1) rfl ?_
    simp only [IProg.ret_bind]
    rw [hdisp]
    simp only [IProg.ret_bind, if_true, nextNeg, roundEnd, hself]
    have hn : h1.n = 4 := H1.n
    refine hop (o := .discard (.scalar s)) (r := ()) (h1 := h1) ?_ ?_
    · show (Heap.discard h1.n h1 _).map _ = _
      rw [hn]
      rfl
    · exact r1

/-- The program gets to a state with the property, and has written nothing. -/
private def Gets {ε α : Type} (P : Heap → Prop) (p : IProg ε α) (h : Heap) : Prop := ∃ p' h', Reach Heap.mach p h [] p' h' ∧ P h'

private theorem Gets.op {ε α : Type} {P : Heap → Prop} {o : IOp} {k : o.Res → IProg ε α} {h h1 : Heap} {r : o.Res} (e : h.step o = .ok (h1, r))
    (hr : Gets P (k r) h1) : Gets P (.op o k) h := by
  obtain ⟨p', h', hr, hp⟩ := hr
  exact ⟨p', h', hop e hr, hp⟩

private theorem Gets.bind {ε α β : Type} {P : Heap → Prop} {p : IProg ε α} {f : α → IProg ε β} {h : Heap} (hr : Gets P p h) : Gets P (p.bind f) h := by
  obtain ⟨p', h', hr, hp⟩ := hr
  exact ⟨_, h', hr.bind f, hp⟩

private theorem runValue_desc (lib : Lib) (fuel : Nat) (x : Val) : runValue lib false fuel descR x =
    ((segsP writeFin false fuel [⟨true, [.name [0x61]]⟩] [] () x).bind fun r => .ret r.2).bind fun _ => .ret () := rfl

private theorem segP_arr (F g i : Nat) (follow : Stack Token → Unit → Val → IProg Token (Stack Token × Unit × Bool)) (ds : Stack Token) :
    segP writeFin false F ⟨true, [.name [0x61]]⟩ follow (g + 1) ds () (.coll .arr i) =
      (arrRelaxed writeFin true follow (segP writeFin false F ⟨true, [.name [0x61]]⟩ follow g) i none F 0 (minInt64 + 1) (newDisp [.name [0x61]]) ds ()).bind
        fun r => finish writeFin r := by
  rw [segP]
  rfl

private theorem seg_inner (s : Scalar) (rest : List Token) (n f : Nat) {h1 : Heap} (ds : Stack Token) (H : Inner h1 [] (List.replicate n (.scalar s) ++ rest)) :
    Gets (fun h' => Inner h' (List.replicate n (.scalar s)) rest) (segP writeFin false (n + f + 3) ⟨true, [.name [0x61]]⟩
      (segsP writeFin false (n + f + 3) []) (n + f + 2) ds () (.coll .arr 3)) h1 := by
  have key : Gets (fun h' => Inner h' (List.replicate n (.scalar s)) rest)
      (arrRelaxed writeFin true (segsP writeFin false (n + f + 3) []) (segP writeFin false (n + f + 3) ⟨true, [.name [0x61]]⟩
      (segsP writeFin false (n + f + 3) []) (n + f + 1)) 3 none (n + f + 3) 0 (minInt64 + 1) (newDisp [.name [0x61]]) ds ()) h1 := by
    rw [Nat.add_assoc n f 3]
    exact inner_loop (fun _ _ _ => rfl) s rest (f + 3) n _ [] 0 _ _ H (.inl rfl)
  rw [segP_arr]
  exact Gets.bind key

/-- The state in which the query starts with the outer array. -/
private def outer (ts : List Token) : Heap :=
  { st := Streams.init (.startArr :: ts)
    coll := fun j => if j = 0 then ⟨.top, 0, false, false, false, none, some (.coll .arr 1)⟩ else if j = 1 then ⟨.arr, 0, false, false, false, none, none⟩
      else ⟨.top, 0, false, false, false, none, none⟩
    n := 2 }

private theorem seg_outer (s : Scalar) (rest : List Token) (n f : Nat) (ds : Stack Token) :
    Gets (fun h' => Inner h' (List.replicate n (.scalar s)) rest) (segP writeFin false (n + f + 3) ⟨true, [.name [0x61]]⟩
      (segsP writeFin false (n + f + 3) []) (n + f + 3) ds () (.coll .arr 1)) (outer (List.replicate n (.scalar s) ++ rest)) := by
  have key : ∀ h1, Inner h1 [] (List.replicate n (.scalar s) ++ rest) → _ := fun h1 H => seg_inner s rest n f ds H
  generalize List.replicate n (Token.scalar s) ++ rest = ts at key
  rw [segP_arr]
  refine Gets.bind ?_
  rw [arrRelaxed]
  refine Gets.op (r := true) rfl ?_
  refine Gets.op (r := (none, some (.coll .arr 2))) rfl ?_
  refine Gets.op (o := .clone (.coll .arr 2)) (r := (.coll .arr 3, some 2)) rfl ?_
  refine Gets.bind (p := roundEnd true (segP writeFin false (n + f + 3) ⟨true, [.name [0x61]]⟩ (segsP writeFin false (n + f + 3) []) (n + f + 2)) (.coll .arr 3, some 2) (none_, ds, (), true)) ?_
  refine Gets.bind (key _ ?_)
  exact ⟨rfl, rfl, rfl, fun h => (by cases h), rfl, rfl, rfl, rfl, rfl, rfl, rfl, rfl⟩

/-- The whole run up to the end of the inner array. -/
theorem desc_reach (lib : Lib) (s : Scalar) (rest : List Token) (n f : Nat) :
    ∃ p' h', Reach Heap.mach (runQuery lib false (n + f + 3) descR (n + f + 3)) (Heap.init (.startArr :: .startArr :: (List.replicate n (.scalar s) ++ rest))) [] p' h' ∧
      Inner h' (List.replicate n (.scalar s)) rest := by
  show Gets (fun h' => Inner h' (List.replicate n (.scalar s)) rest) _ _
  rw [runQuery]
  refine Gets.op rfl ?_
  refine Gets.op rfl ?_
  refine Gets.bind ?_
  rw [runValue_desc]
  refine Gets.bind (Gets.bind ?_)
  exact seg_outer s rest n f []

end JPath
end Verif
