import Verif.Transforms

/-!
# C30: depth limiting
-/

namespace Verif
open JVal.toks

/-- Specification: a value cut at depth `n`.  A collection reached at depth 0 is emptied and
marked as elided. -/
def JVal.trunc : Nat → JVal → JVal
  | _, .scalar s => .scalar s
  | 0, .arr _ _ => .arr [] true
  | 0, .obj _ _ => .obj [] true
  | n + 1, .arr items e => .arr (items.map (JVal.trunc n)) e
  | n + 1, .obj ms e => .obj (ms.map fun m => (m.1, JVal.trunc n m.2)) e

/-- Specification: nesting depth of a value (a scalar has depth 0). -/
def JVal.depth : JVal → Nat
  | .scalar _ => 0
  | .arr items _ => 1 + (items.attach.map fun ⟨v, _⟩ => v.depth).foldr max 0
  | .obj ms _ => 1 + (ms.attach.map fun ⟨m, _⟩ => m.2.depth).foldr max 0
decreasing_by
  · have := List.sizeOf_lt_of_mem ‹_ ∈ items›; simp; omega
  · have := List.sizeOf_lt_of_mem ‹_ ∈ ms›
    have h2 : sizeOf m.2 < sizeOf m := by cases m; simp; omega
    simp; omega

theorem loop_scalar (m d : Int) (s : Scalar) (ts) :
    maxDepthLoop m d (.scalar s :: ts) =
      (if d ≤ m then [.scalar s] else []) ++ maxDepthLoop m d ts := by
  simp [maxDepthLoop, Token.isStart, Token.isEnd]

theorem loop_elision (m d : Int) (e : Bool) (ts) :
    maxDepthLoop m d (elisionToks e ++ ts) =
      (if d ≤ m then elisionToks e else []) ++ maxDepthLoop m d ts := by
  cases e <;> simp [elisionToks, maxDepthLoop, Token.isStart, Token.isEnd]

theorem loop_start (m d : Int) (t : Token) (h : t.isStart = true) (h' : t.isEnd = false) (ts) :
    maxDepthLoop m d (t :: ts) =
      (if d ≤ m then [t] else []) ++ ((if d = m then [.elision] else []) ++ maxDepthLoop m (d + 1) ts) := by
  simp [maxDepthLoop, h, h']

theorem loop_end (m d : Int) (t : Token) (h : t.isStart = false) (h' : t.isEnd = true) (ts) :
    maxDepthLoop m d (t :: ts) =
      (if d - 1 ≤ m then [t] else []) ++ maxDepthLoop m (d - 1) ts := by
  simp [maxDepthLoop, h, h']

/-- Items below the limit are dropped. -/
theorem loop_items_drop {m d : Int} (l : List JVal)
    (h : ∀ v ∈ l, ∀ ts, maxDepthLoop m d (v.toks ++ ts) = maxDepthLoop m d ts) (ts) :
    maxDepthLoop m d (itemToks l ++ ts) = maxDepthLoop m d ts := by
  induction l generalizing ts with
  | nil => simp
  | cons v l ih => simp_all

theorem loop_members_drop {m d : Int} (hd : m < d) (l : List (Scalar × JVal))
    (h : ∀ v ∈ l, ∀ ts, maxDepthLoop m d (v.2.toks ++ ts) = maxDepthLoop m d ts) (ts) :
    maxDepthLoop m d (memberToks l ++ ts) = maxDepthLoop m d ts := by
  induction l generalizing ts with
  | nil => simp
  | cons a l ih =>
    obtain ⟨k, v⟩ := a
    have hv := h (k, v) (by simp)
    have hl := ih (fun v hv ts => h v (by simp [hv]) ts)
    have : ¬ d ≤ m := by omega
    simp only [memberToks_cons, List.cons_append, loop_scalar, this, if_false, List.nil_append,
      List.append_assoc]
    simp only at hv
    rw [hv, hl]

theorem loop_val_drop {m : Int} (v : JVal) : ∀ {d : Int}, m < d → ∀ ts,
    maxDepthLoop m d (v.toks ++ ts) = maxDepthLoop m d ts := by
  induction v using JVal.induct with
  | scalar s => intro d hd ts; have : ¬ d ≤ m := by omega
                simp [loop_scalar, this]
  | arr items e ih =>
    intro d hd ts
    have h1 : ¬ d ≤ m := by omega
    have h2 : ¬ d = m := by omega
    have h3 : ¬ d + 1 ≤ m := by omega
    simp only [toks_arr, List.cons_append, List.append_assoc]
    rw [loop_start _ _ _ (by simp [Token.isStart]) (by simp [Token.isEnd]),
      loop_items_drop items (fun v hv ts => ih v hv (by omega) ts), loop_elision]
    rw [loop_end _ _ _ (by simp [Token.isStart]) (by simp [Token.isEnd])]
    simp [h1, h2, h3]
  | obj ms e ih =>
    intro d hd ts
    have h1 : ¬ d ≤ m := by omega
    have h2 : ¬ d = m := by omega
    have h3 : ¬ d + 1 ≤ m := by omega
    simp only [toks_obj, List.cons_append, List.append_assoc]
    rw [loop_start _ _ _ (by simp [Token.isStart]) (by simp [Token.isEnd]),
      loop_members_drop (by omega) ms (fun v hv ts => ih v hv (by omega) ts), loop_elision]
    rw [loop_end _ _ _ (by simp [Token.isStart]) (by simp [Token.isEnd])]
    simp [h1, h2, h3]

theorem loop_items_keep {m d : Int} (f : JVal → JVal) (l : List JVal)
    (h : ∀ v ∈ l, ∀ ts, maxDepthLoop m d (v.toks ++ ts) = (f v).toks ++ maxDepthLoop m d ts) (ts) :
    maxDepthLoop m d (itemToks l ++ ts) = itemToks (l.map f) ++ maxDepthLoop m d ts := by
  induction l generalizing ts with
  | nil => simp
  | cons v l ih => simp_all

theorem loop_members_keep {m d : Int} (hd : d ≤ m) (f : JVal → JVal) (l : List (Scalar × JVal))
    (h : ∀ v ∈ l, ∀ ts, maxDepthLoop m d (v.2.toks ++ ts) = (f v.2).toks ++ maxDepthLoop m d ts) (ts) :
    maxDepthLoop m d (memberToks l ++ ts) =
      memberToks (l.map fun x => (x.1, f x.2)) ++ maxDepthLoop m d ts := by
  induction l generalizing ts with
  | nil => simp
  | cons a l ih =>
    obtain ⟨k, v⟩ := a
    have hv := h (k, v) (by simp)
    have hl := ih (fun v hv ts => h v (by simp [hv]) ts)
    simp only at hv
    simp only [memberToks_cons, List.cons_append, loop_scalar, hd, if_true, List.map_cons,
      List.append_assoc]
    rw [hv, hl]
    simp

theorem loop_val_keep (v : JVal) : ∀ (n : Nat) (m d : Int), m = d + n → ∀ ts,
    maxDepthLoop m d (v.toks ++ ts) = (v.trunc n).toks ++ maxDepthLoop m d ts := by
  induction v using JVal.induct with
  | scalar s => intro n m d hd ts
                have : d ≤ m := by omega
                simp [loop_scalar, this, JVal.trunc]
  | arr items e ih =>
    intro n m d hd ts
    have h1 : d ≤ m := by omega
    simp only [toks_arr, List.cons_append, List.append_assoc]
    rw [loop_start _ _ _ (by simp [Token.isStart]) (by simp [Token.isEnd])]
    cases n with
    | zero =>
      have h2 : d = m := by omega
      have h3 : ¬ d + 1 ≤ m := by omega
      rw [loop_items_drop items (fun v _ ts => loop_val_drop v (by omega) ts), loop_elision]
      rw [loop_end _ _ _ (by simp [Token.isStart]) (by simp [Token.isEnd])]
      simp [h2, JVal.trunc, elisionToks]
      omega
    | succ n =>
      have h2 : ¬ d = m := by omega
      have h3 : d + 1 ≤ m := by omega
      rw [loop_items_keep (JVal.trunc n) items (fun v hv ts => ih v hv n m (d+1) (by omega) ts),
        loop_elision]
      rw [loop_end _ _ _ (by simp [Token.isStart]) (by simp [Token.isEnd])]
      simp [h1, h2, h3, JVal.trunc]
  | obj ms e ih =>
    intro n m d hd ts
    have h1 : d ≤ m := by omega
    simp only [toks_obj, List.cons_append, List.append_assoc]
    rw [loop_start _ _ _ (by simp [Token.isStart]) (by simp [Token.isEnd])]
    cases n with
    | zero =>
      have h2 : d = m := by omega
      have h3 : ¬ d + 1 ≤ m := by omega
      rw [loop_members_drop (by omega) ms (fun v _ ts => loop_val_drop v.2 (by omega) ts), loop_elision]
      rw [loop_end _ _ _ (by simp [Token.isStart]) (by simp [Token.isEnd])]
      simp [h2, JVal.trunc, elisionToks]
      omega
    | succ n =>
      have h2 : ¬ d = m := by omega
      have h3 : d + 1 ≤ m := by omega
      rw [loop_members_keep h3 (JVal.trunc n) ms (fun v hv ts => ih v hv n m (d+1) (by omega) ts),
        loop_elision]
      rw [loop_end _ _ _ (by simp [Token.isStart]) (by simp [Token.isEnd])]
      simp [h1, h2, h3, JVal.trunc]

/-- **C30.** Limiting a well-formed stream to depth `n ≥ 0` gives the well-formed stream of the
values cut at depth `n`. -/
theorem C30_maxDepth (n : Nat) (vs : List JVal) :
    maxDepthFilter n (streamToks vs) = streamToks (vs.map (JVal.trunc n)) := by
  have := loop_items_keep (m := n) (d := 0) (JVal.trunc n) vs
    (fun v _ ts => loop_val_keep v n n 0 (by omega) ts) []
  simpa [maxDepthFilter, streamToks, maxDepthLoop] using this

/-- **C30.** A negative limit removes everything. -/
theorem C30_maxDepth_negative (m : Int) (h : m < 0) (vs : List JVal) :
    maxDepthFilter m (streamToks vs) = [] := by
  have := loop_items_drop (m := m) (d := 0) vs (fun v _ ts => loop_val_drop v (by omega) ts) []
  simpa [maxDepthFilter, streamToks, maxDepthLoop] using this

theorem foldr_max_le {α : Type} (l : List α) (f : α → Nat) (n : Nat) (h : ∀ x ∈ l, f x ≤ n) :
    (l.map f).foldr max 0 ≤ n := by
  induction l with
  | nil => simp
  | cons a l ih => have h1 := h a (by simp); have h2 := ih (fun x hx => h x (by simp [hx])); simp; omega

/-- **C30.** The nesting of the result is at most one more than the limit. -/
theorem C30_depth_bound (n : Nat) (v : JVal) : (v.trunc n).depth ≤ n + 1 := by
  induction v using JVal.induct generalizing n with
  | scalar s => simp [JVal.trunc, JVal.depth]
  | arr items e ih =>
    cases n with
    | zero => simp [JVal.trunc, JVal.depth]
    | succ n =>
      have : ((items.map (JVal.trunc n)).attach.map (fun x => x.1.depth)).foldr max 0 ≤ n + 1 := by
        apply foldr_max_le
        intro x _
        obtain ⟨x, hx⟩ := x
        obtain ⟨v, hv, rfl⟩ := List.mem_map.1 hx
        exact ih v hv n
      simp only [JVal.trunc, JVal.depth]
      omega
  | obj ms e ih =>
    cases n with
    | zero => simp [JVal.trunc, JVal.depth]
    | succ n =>
      have : ((ms.map (fun m => (m.1, JVal.trunc n m.2))).attach.map (fun x => x.1.2.depth)).foldr max 0
          ≤ n + 1 := by
        apply foldr_max_le
        intro x _
        obtain ⟨x, hx⟩ := x
        obtain ⟨v, hv, rfl⟩ := List.mem_map.1 hx
        exact ih v hv n
      simp only [JVal.trunc, JVal.depth]
      omega

/-- Cutting twice is cutting at the smaller depth. -/
theorem trunc_trunc (m n : Nat) (v : JVal) : (v.trunc n).trunc m = v.trunc (min m n) := by
  induction v using JVal.induct generalizing m n with
  | scalar s => simp [JVal.trunc]
  | arr items e ih =>
    cases n with
    | zero => cases m <;> simp [JVal.trunc]
    | succ n =>
      cases m with
      | zero => simp [JVal.trunc]
      | succ m =>
        rw [Nat.succ_min_succ]
        simp only [JVal.trunc, List.map_map, JVal.arr.injEq, and_true]
        exact List.map_congr_left (fun v hv => by simp [ih v hv])
  | obj ms e ih =>
    cases n with
    | zero => cases m <;> simp [JVal.trunc]
    | succ n =>
      cases m with
      | zero => simp [JVal.trunc]
      | succ m =>
        rw [Nat.succ_min_succ]
        simp only [JVal.trunc, List.map_map, JVal.obj.injEq, and_true]
        exact List.map_congr_left (fun v hv => by simp [ih v hv])

/-- **C30.** Limiting to `m` after limiting to `n` is limiting to `min m n`, for all depths. -/
theorem C30_compose (m n : Int) (vs : List JVal) :
    maxDepthFilter m (maxDepthFilter n (streamToks vs)) = maxDepthFilter (min m n) (streamToks vs) := by
  by_cases hn : n < 0
  · rw [C30_maxDepth_negative n hn, C30_maxDepth_negative (min m n) (by omega)]
    simp [maxDepthFilter, maxDepthLoop]
  · obtain ⟨n, rfl⟩ := Int.eq_ofNat_of_zero_le (by omega : 0 ≤ n)
    by_cases hm : m < 0
    · rw [C30_maxDepth, C30_maxDepth_negative m hm, C30_maxDepth_negative (min m n) (by omega)]
    · obtain ⟨m, rfl⟩ := Int.eq_ofNat_of_zero_le (by omega : 0 ≤ m)
      have : (min (m : Int) (n : Int)) = ((min m n : Nat) : Int) := by omega
      rw [this, C30_maxDepth, C30_maxDepth, C30_maxDepth, List.map_map]
      congr 1
      exact List.map_congr_left (fun v _ => by simp [trunc_trunc])

/-- Cutting below the depth of a value changes nothing. -/
theorem C30_deep_enough (n : Nat) (v : JVal) (h : v.depth ≤ n) : v.trunc n = v := by
  induction v using JVal.induct generalizing n with
  | scalar s => simp [JVal.trunc]
  | arr items e ih =>
    cases n with
    | zero => simp [JVal.depth] at h
    | succ n =>
      simp only [JVal.trunc, JVal.arr.injEq, and_true]
      conv => rhs; rw [← List.map_id items]
      apply List.map_congr_left
      intro v hv
      simp only [JVal.depth] at h
      refine ih v hv n ?_
      have h2 : ∀ l : List Nat, ∀ x ∈ l, x ≤ l.foldr max 0 := by
        intro l; induction l with
        | nil => simp
        | cons a l ih => intro x hx; rcases List.mem_cons.1 hx with h | h
                         · subst h; simp; omega
                         · have := ih x h; simp; omega
      have := h2 (items.attach.map fun x => x.1.depth) v.depth
        (List.mem_map.2 ⟨⟨v, hv⟩, by simp, rfl⟩)
      omega
  | obj ms e ih =>
    cases n with
    | zero => simp [JVal.depth] at h
    | succ n =>
      simp only [JVal.trunc, JVal.obj.injEq, and_true]
      conv => rhs; rw [← List.map_id ms]
      apply List.map_congr_left
      intro v hv
      simp only [JVal.depth] at h
      have h2 : ∀ l : List Nat, ∀ x ∈ l, x ≤ l.foldr max 0 := by
        intro l; induction l with
        | nil => simp
        | cons a l ih => intro x hx; rcases List.mem_cons.1 hx with h | h
                         · subst h; simp; omega
                         · have := ih x h; simp; omega
      have := h2 (ms.attach.map fun x => x.1.2.depth) v.2.depth
        (List.mem_map.2 ⟨⟨v, hv⟩, by simp, rfl⟩)
      have := ih v hv n (by omega)
      simp [this]

/-- Non-vacuity: the example in the documentation of `MaxDepthFilter`, at depth 1. -/
example :
    let n1 : Scalar := ⟨b%"1", .num, false, false, false⟩
    let x : Scalar := ⟨b%"\"x\"", .str, true, true, true⟩
    maxDepthFilter 1 (streamToks [.arr [.scalar n1, .obj [(x, .arr [.scalar n1] false)] false] false]) =
      [.startArr, .scalar n1, .startObj, .elision, .endObj, .endArr] := by
  decide

end Verif
