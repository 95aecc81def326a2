import Verif.PathParseSound

/-!
# The fuel of the parser is enough, and more fuel does not change the result
-/

namespace Verif.JPath
namespace Parser
variable {α β : Type}

/-- More fuel: `out` may become something else. -/
def Le (p q : Parser α) : Prop := ∀ s, p s = .out ∨ p s = q s

theorem Le.refl (p : Parser α) : Le p p := fun _ => .inr rfl

theorem Le.out (q : Parser α) : Le (fun _ => .out) q := fun _ => .inl rfl

theorem Le.bind {p q : Parser α} {f g : α → Parser β} (h : Le p q) (hf : ∀ a, Le (f a) (g a)) : Le (p.bind f) (q.bind g) := by
  intro s
  unfold Parser.bind
  rcases h s with e | e
  · rw [e]; exact .inl rfl
  · rw [← e]
    cases p s with
    | ok a r => exact hf a r
    | fail => exact .inr rfl
    | out => exact .inl rfl

theorem Le.map {p q : Parser α} {f : α → β} (h : Le p q) : Le (p.map f) (q.map f) := h.bind fun _ => .refl _

theorem Le.or {p q p' q' : Parser α} (h : Le p q) (h' : Le p' q') : Le (p.or p') (q.or q') := by
  intro s
  unfold Parser.or
  rcases h s with e | e
  · rw [e]; exact .inl rfl
  · rw [← e]
    cases p s with
    | ok a r => exact .inr rfl
    | fail => exact h' s
    | out => exact .inl rfl

theorem Le.opt {p q : Parser α} (h : Le p q) : Le p.opt q.opt := h.map.or (.refl _)

theorem Le.many {p q : Parser α} (h : Le p q) : ∀ {n m}, n ≤ m → Le (many n p) (many m q)
  | 0, _, _ => .out _
  | n + 1, 0, hn => absurd hn (by omega)
  | n + 1, m + 1, hn => (h.bind fun _ => (h.many (n := n) (m := m) (by omega)).map).or (.refl _)

/-- At most `n` tokens: a result, and tokens are left over. -/
def Total (n : Nat) (p : Parser α) : Prop := ∀ s, s.length ≤ n → p s ≠ .out ∧ ∀ a r, p s = .ok a r → r.length ≤ s.length

/-- The same for parsers that read tokens. -/
def Eats (n : Nat) (p : Parser α) : Prop := ∀ s, s.length ≤ n → p s ≠ .out ∧ ∀ a r, p s = .ok a r → r.length < s.length

variable {n : Nat} {p q : Parser α} {f : α → Parser β}

theorem Eats.total (h : Eats n p) : Total n p := fun s hs => ⟨(h s hs).1, fun a r e => Nat.le_of_lt ((h s hs).2 a r e)⟩

theorem Total.le {m : Nat} (h : Total n p) (hm : m ≤ n) : Total m p := fun s hs => h s (by omega)

theorem Eats.le {m : Nat} (h : Eats n p) (hm : m ≤ n) : Eats m p := fun s hs => h s (by omega)

theorem total_pure (a : α) : Total n (pure a) := fun s _ => ⟨(fun h => by cases h), fun a r e => by cases e; exact Nat.le_refl _⟩

theorem Eats.bind (h : Eats n p) (hf : ∀ a, 1 ≤ n → Total (n - 1) (f a)) : Eats n (p.bind f) := by
  intro s hs
  have := h s hs
  unfold Parser.bind
  cases e : p s with
  | out => exact absurd e this.1
  | fail => exact ⟨(fun h => by cases h), fun _ _ h => by cases h⟩
  | ok a r =>
    have hr := this.2 a r e
    have := hf a (by omega) r (by omega)
    exact ⟨this.1, fun b r' e' => by have := this.2 b r' e'; omega⟩

theorem Total.bind (h : Total n p) (hf : ∀ a, Total n (f a)) : Total n (p.bind f) := by
  intro s hs
  have := h s hs
  unfold Parser.bind
  cases e : p s with
  | out => exact absurd e this.1
  | fail => exact ⟨(fun h => by cases h), fun _ _ h => by cases h⟩
  | ok a r =>
    have hr := this.2 a r e
    have := hf a r (by omega)
    exact ⟨this.1, fun b r' e' => by have := this.2 b r' e'; omega⟩

theorem Total.bindEats (h : Total n p) (hf : ∀ a, Eats n (f a)) : Eats n (p.bind f) := by
  intro s hs
  have := h s hs
  unfold Parser.bind
  cases e : p s with
  | out => exact absurd e this.1
  | fail => exact ⟨(fun h => by cases h), fun _ _ h => by cases h⟩
  | ok a r =>
    have hr := this.2 a r e
    have := hf a r (by omega)
    exact ⟨this.1, fun b r' e' => by have := this.2 b r' e'; omega⟩

theorem Eats.map {g : α → β} (h : Eats n p) : Eats n (p.map g) := h.bind fun _ _ => total_pure _

theorem Total.map {g : α → β} (h : Total n p) : Total n (p.map g) := h.bind fun _ => total_pure _

theorem Eats.or (h : Eats n p) (h' : Eats n q) : Eats n (p.or q) := by
  intro s hs
  have := h s hs
  unfold Parser.or
  cases e : p s with
  | out => exact absurd e this.1
  | fail => exact h' s hs
  | ok a r => exact ⟨(fun h => by cases h), fun _ _ h => by cases h; exact this.2 a r e⟩

theorem Total.or (h : Total n p) (h' : Total n q) : Total n (p.or q) := by
  intro s hs
  have := h s hs
  unfold Parser.or
  cases e : p s with
  | out => exact absurd e this.1
  | fail => exact h' s hs
  | ok a r => exact ⟨(fun h => by cases h), fun _ _ h => by cases h; exact this.2 a r e⟩

theorem Total.opt (h : Total n p) : Total n p.opt := h.map.or (total_pure _)

theorem eats_kind (k : TokKind) : Eats n (kind k) := by
  intro s _
  cases s with
  | nil => exact ⟨(fun h => by cases h), fun _ _ h => by cases h⟩
  | cons t s =>
    simp only [kind]
    split
    · exact ⟨(fun h => by cases h), fun _ _ h => by cases h; simp⟩
    · exact ⟨(fun h => by cases h), fun _ _ h => by cases h⟩

theorem eats_op (v : Bytes) : Eats n (op v) := by
  intro s _
  cases s with
  | nil => exact ⟨(fun h => by cases h), fun _ _ h => by cases h⟩
  | cons t s =>
    simp only [op]
    split
    · exact ⟨(fun h => by cases h), fun _ _ h => by cases h; simp⟩
    · exact ⟨(fun h => by cases h), fun _ _ h => by cases h⟩

theorem Eats.many (h : Eats n p) {m : Nat} (hm : n < m) : Total n (many m p) := by
  induction m generalizing n with
  | zero => exact absurd hm (by omega)
  | succ m ih =>
    refine Total.or (Eats.total (h.bind fun a hn => Total.map (ih (h.le (by omega)) (by omega)))) (total_pure _)

/-- A separator before each element. -/
theorem Eats.sep (h : 1 ≤ n → Eats (n - 1) p) (v : Bytes) : Eats n ((op v).bind fun _ => p) :=
  (eats_op v).bind fun _ hn => (h hn).total

end Parser
open Parser

theorem pString_eats {n : Nat} : Eats n pString := (eats_kind _).map.or (eats_kind _).map

theorem pLiteral_eats {n : Nat} : Eats n pLiteral :=
  ((eats_kind _).map.or (eats_kind _).map).or <| pString_eats.map.or <| (eats_kind _).map.or (eats_kind _).map

theorem pSlice_eats {n : Nat} : Eats n pSlice :=
  (Total.opt (eats_kind _).total).bindEats fun _ => (eats_op _).bind fun _ _ =>
    (Total.opt (eats_kind _).total).bind fun _ => Total.map <| Total.opt <| Total.bind (eats_op _).total fun _ => Total.opt (eats_kind _).total

theorem pSingSeg_eats {n : Nat} : Eats n pSingSeg :=
  ((eats_op _).bind fun _ _ => (pString_eats.total).bind fun _ => Total.map (eats_op _).total).or <|
    (eats_kind _).map.or <| (eats_op _).bind fun _ _ => ((eats_kind _).total).bind fun _ => Total.map (eats_op _).total

theorem pSing_eats {n m : Nat} (h : n < m) : Eats n (pSing m) :=
  ((eats_op _).bind fun _ _ => Total.map (pSingSeg_eats.many (by omega))).or
    ((eats_op _).bind fun _ _ => Total.map (pSingSeg_eats.many (by omega)))

/-- For `n` tokens the fuel is enough. -/
structure Enough (n : Nat) : Prop where
  segment : ∀ m, 8 * n + 1 ≤ m → Eats n (pSegment m)
  selector : ∀ m, 8 * n + 1 ≤ m → Eats n (pSelector m)
  query : ∀ m, 8 * n + 1 ≤ m → Eats n (pQueryIn m)
  func : ∀ m, 8 * n + 1 ≤ m → Eats n (pFunc m)
  comparable : ∀ m, 8 * n + 2 ≤ m → Eats n (pComparable m)
  basic : ∀ m, 8 * n + 3 ≤ m → Eats n (pBasic m)
  and : ∀ m, 8 * n + 4 ≤ m → Eats n (pAnd m)
  or : ∀ m, 8 * n + 5 ≤ m → Eats n (pOr m)
  arg : ∀ m, 8 * n + 6 ≤ m → Eats n (pArg m)

theorem enough_step {n : Nat} (ih : 1 ≤ n → Enough (n - 1)) : Enough n := by
  have segment : ∀ m, 8 * n + 1 ≤ m → Eats n (pSegment m) := by
    intro m hm
    obtain ⟨m, rfl⟩ : ∃ k, m = k + 1 := ⟨m - 1, by omega⟩
    rw [pSegment]
    have sel : 1 ≤ n → Eats (n - 1) (pSelector m) := fun hn => (ih hn).selector m (by omega)
    have br : ∀ (v : Bytes) (mk : PSelector → List PSelector → PSegment), Eats n ((op v).bind fun _ => (pSelector m).bind fun f =>
        (many m ((op b%",").bind fun _ => pSelector m)).bind fun r => (op b%"]").map fun _ => mk f r) := fun v mk =>
      (eats_op _).bind fun _ hn => (sel hn).total.bind fun _ =>
        (Eats.many (Eats.sep (fun _ => (sel hn).le (by omega)) _) (by omega)).bind fun _ => Total.map (eats_op _).total
    exact (br _ _).or <| (eats_op _).map.or <| (eats_kind _).map.or <| (br _ _).or <| (eats_op _).map.or (eats_kind _).map
  have selector : ∀ m, 8 * n + 1 ≤ m → Eats n (pSelector m) := by
    intro m hm
    obtain ⟨m, rfl⟩ : ∃ k, m = k + 1 := ⟨m - 1, by omega⟩
    rw [pSelector]
    exact pString_eats.map.or <| (eats_op _).map.or <| pSlice_eats.or <| (eats_kind _).map.or <|
      (eats_op _).bind fun _ hn => Total.map ((ih hn).or m (by omega)).total
  have query : ∀ m, 8 * n + 1 ≤ m → Eats n (pQueryIn m) := by
    intro m hm
    obtain ⟨m, rfl⟩ : ∃ k, m = k + 1 := ⟨m - 1, by omega⟩
    rw [pQueryIn]
    have seg : 1 ≤ n → Total (n - 1) (many m (pSegment m)) := fun hn => ((ih hn).segment m (by omega)).many (by omega)
    exact ((eats_op _).bind fun _ hn => (seg hn).map).or ((eats_op _).bind fun _ hn => (seg hn).map)
  have func : ∀ m, 8 * n + 1 ≤ m → Eats n (pFunc m) := by
    intro m hm
    obtain ⟨m, rfl⟩ : ∃ k, m = k + 1 := ⟨m - 1, by omega⟩
    rw [pFunc]
    have arg : 1 ≤ n → Eats (n - 1) (pArg m) := fun hn => (ih hn).arg m (by omega)
    exact (eats_kind _).bind fun _ hn =>
      (Total.opt ((arg hn).total.bind fun _ => Total.map (Eats.many (Eats.sep (fun _ => (arg hn).le (by omega)) _) (by omega)))).bind fun _ =>
        Total.map (eats_op _).total
  have comparable : ∀ m, 8 * n + 2 ≤ m → Eats n (pComparable m) := by
    intro m hm
    obtain ⟨m, rfl⟩ : ∃ k, m = k + 1 := ⟨m - 1, by omega⟩
    rw [pComparable]
    exact pLiteral_eats.map.or <| (pSing_eats (by omega)).map.or (func m (by omega)).map
  have basic : ∀ m, 8 * n + 3 ≤ m → Eats n (pBasic m) := by
    intro m hm
    obtain ⟨m, rfl⟩ : ∃ k, m = k + 1 := ⟨m - 1, by omega⟩
    rw [pBasic]
    refine Eats.or ?_ (Eats.or ?_ ?_)
    · exact (Total.opt (eats_op _).total).bindEats fun _ => (eats_op _).bind fun _ hn =>
        ((ih hn).or m (by omega)).total.bind fun _ => Total.map (eats_op _).total
    · exact (comparable m (by omega)).bind fun _ hn => (eats_kind _).total.bind fun _ => Total.map ((comparable m (by omega)).le (by omega)).total
    · exact (Total.opt (eats_op _).total).bindEats fun _ => (query m (by omega)).map.or (func m (by omega)).map
  have and : ∀ m, 8 * n + 4 ≤ m → Eats n (pAnd m) := by
    intro m hm
    obtain ⟨m, rfl⟩ : ∃ k, m = k + 1 := ⟨m - 1, by omega⟩
    rw [pAnd]
    exact (basic m (by omega)).bind fun _ hn =>
      Total.map (Eats.many (Eats.sep (fun _ => (basic m (by omega)).le (by omega)) _) (by omega))
  have or : ∀ m, 8 * n + 5 ≤ m → Eats n (pOr m) := by
    intro m hm
    obtain ⟨m, rfl⟩ : ∃ k, m = k + 1 := ⟨m - 1, by omega⟩
    rw [pOr]
    exact (and m (by omega)).bind fun _ hn =>
      Total.map (Eats.many (Eats.sep (fun _ => (and m (by omega)).le (by omega)) _) (by omega))
  have arg : ∀ m, 8 * n + 6 ≤ m → Eats n (pArg m) := by
    intro m hm
    obtain ⟨m, rfl⟩ : ∃ k, m = k + 1 := ⟨m - 1, by omega⟩
    rw [pArg]
    exact pLiteral_eats.map.or <| (query m (by omega)).map.or <| (func m (by omega)).map.or (or m (by omega)).map
  exact ⟨segment, selector, query, func, comparable, basic, and, or, arg⟩

theorem enough_all : ∀ n, Enough n
  | 0 => enough_step fun h => absurd h (by omega)
  | n + 1 => enough_step fun _ => enough_all n

/-- The fuel of `parseQuery` is enough. -/
theorem pQuery_ne_out (s : List Tok) {m : Nat} (h : enough s ≤ m) : pQuery m s ≠ .out := by
  unfold enough at h
  have : Eats s.length (pQuery m) :=
    (eats_op _).bind fun _ hn => (((enough_all s.length).segment m (by omega)).many (by omega)).le (by omega)
  exact (this s (Nat.le_refl _)).1

/-- All parsers do not change their results with more fuel. -/
structure AllLe (n m : Nat) : Prop where
  segment : Le (pSegment n) (pSegment m)
  selector : Le (pSelector n) (pSelector m)
  or : Le (pOr n) (pOr m)
  and : Le (pAnd n) (pAnd m)
  basic : Le (pBasic n) (pBasic m)
  query : Le (pQueryIn n) (pQueryIn m)
  comparable : Le (pComparable n) (pComparable m)
  func : Le (pFunc n) (pFunc m)
  arg : Le (pArg n) (pArg m)

theorem allLe : ∀ {n m : Nat}, n ≤ m → AllLe n m
  | 0, m, _ => by
    constructor
    · rw [pSegment]; exact .out _
    · rw [pSelector]; exact .out _
    · rw [pOr]; exact .out _
    · rw [pAnd]; exact .out _
    · rw [pBasic]; exact .out _
    · rw [pQueryIn]; exact .out _
    · rw [pComparable]; exact .out _
    · rw [pFunc]; exact .out _
    · rw [pArg]; exact .out _
  | n + 1, 0, h => absurd h (by omega)
  | n + 1, m + 1, h => by
    have hnm : n ≤ m := by omega
    have ih := allLe hnm
    constructor
    · rw [pSegment, pSegment]
      have br : ∀ (v : Bytes) (mk : PSelector → List PSelector → PSegment), Le ((op v).bind fun _ => (pSelector n).bind fun f =>
          (many n ((op b%",").bind fun _ => pSelector n)).bind fun r => (op b%"]").map fun _ => mk f r)
          ((op v).bind fun _ => (pSelector m).bind fun f =>
          (many m ((op b%",").bind fun _ => pSelector m)).bind fun r => (op b%"]").map fun _ => mk f r) := fun v mk =>
        (Le.refl _).bind fun _ => ih.selector.bind fun _ => (Le.many ((Le.refl _).bind fun _ => ih.selector) hnm).bind fun _ => .refl _
      exact (br _ _).or <| (Le.refl _).or <| (Le.refl _).or <| (br _ _).or (.refl _)
    · rw [pSelector, pSelector]
      exact (Le.refl _).or <| (Le.refl _).or <| (Le.refl _).or <| (Le.refl _).or <| (Le.refl _).bind fun _ => ih.or.map
    · rw [pOr, pOr]
      exact ih.and.bind fun _ => (Le.many ((Le.refl _).bind fun _ => ih.and) hnm).map
    · rw [pAnd, pAnd]
      exact ih.basic.bind fun _ => (Le.many ((Le.refl _).bind fun _ => ih.basic) hnm).map
    · rw [pBasic, pBasic]
      exact ((Le.refl _).bind fun _ => (Le.refl _).bind fun _ => ih.or.bind fun _ => .refl _).or <|
        (ih.comparable.bind fun _ => (Le.refl _).bind fun _ => ih.comparable.map).or <|
          (Le.refl _).bind fun _ => ih.query.map.or ih.func.map
    · rw [pQueryIn, pQueryIn]
      exact ((Le.refl _).bind fun _ => (ih.segment.many hnm).map).or ((Le.refl _).bind fun _ => (ih.segment.many hnm).map)
    · rw [pComparable, pComparable]
      have : Le (pSing n) (pSing m) :=
        ((Le.refl _).bind fun _ => ((Le.refl _).many hnm).map).or ((Le.refl _).bind fun _ => ((Le.refl _).many hnm).map)
      exact (Le.refl _).or <| this.map.or ih.func.map
    · rw [pFunc, pFunc]
      exact (Le.refl _).bind fun _ =>
        (ih.arg.bind fun _ => (Le.many ((Le.refl _).bind fun _ => ih.arg) hnm).map).opt.bind fun _ => .refl _
    · rw [pArg, pArg]
      exact (Le.refl _).or <| ih.query.map.or <| ih.func.map.or ih.or.map

/-- Every fuel that is enough gives the same result. -/
theorem pQuery_fuel (s : List Tok) {m : Nat} (h : enough s ≤ m) : pQuery m s = pQuery (enough s) s := by
  have : Le (pQuery (enough s)) (pQuery m) := (Le.refl _).bind fun _ => (allLe h).segment.many h
  rcases this s with e | e
  · exact absurd e (pQuery_ne_out s (Nat.le_refl _))
  · exact e.symm

end Verif.JPath
