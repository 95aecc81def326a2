import Verif.PathParseFuel

/-!
# The parser reads back the tokens of a parse tree
-/

namespace Verif.JPath
namespace Parser
variable {α β : Type}

/-- With enough fuel the parser returns `a`, and `r` remains. -/
def Runs (p : Nat → Parser α) (s : List Tok) (a : α) (r : List Tok) : Prop := ∃ k, ∀ n, k ≤ n → p n s = .ok a r

/-- With enough fuel the parser fails. -/
def Fails (p : Nat → Parser α) (s : List Tok) : Prop := ∃ k, ∀ n, k ≤ n → p n s = .fail

/-- Repeating the parser gives `l`, and `r` remains. -/
def RunsMany (p : Nat → Parser α) (s : List Tok) (l : List α) (r : List Tok) : Prop :=
  ∃ k, ∀ m n, k ≤ m → k ≤ n → many m (p n) s = .ok l r

variable {p q : Nat → Parser α} {f : Nat → α → Parser β} {s r r' : List Tok} {a : α} {b : β} {l : List α}

theorem runs_const {p : Parser α} (h : p s = .ok a r) : Runs (fun _ => p) s a r := ⟨0, fun _ _ => h⟩

theorem fails_const {p : Parser α} (h : p s = .fail) : Fails (fun _ => p) s := ⟨0, fun _ _ => h⟩

theorem Runs.bind (h : Runs p s a r) (h' : Runs (fun n => f n a) r b r') : Runs (fun n => (p n).bind (f n)) s b r' := by
  obtain ⟨k, h⟩ := h
  obtain ⟨k', h'⟩ := h'
  refine ⟨max k k', fun n hn => ?_⟩
  simp only [Parser.bind, h n (by omega)]
  exact h' n (by omega)

theorem Fails.bind (h : Fails p s) : Fails (fun n => (p n).bind (f n)) s := by
  obtain ⟨k, h⟩ := h
  exact ⟨k, fun n hn => by simp only [Parser.bind, h n hn]⟩

theorem Runs.bindFail (h : Runs p s a r) (h' : Fails (fun n => f n a) r) : Fails (fun n => (p n).bind (f n)) s := by
  obtain ⟨k, h⟩ := h
  obtain ⟨k', h'⟩ := h'
  refine ⟨max k k', fun n hn => ?_⟩
  simp only [Parser.bind, h n (by omega)]
  exact h' n (by omega)

theorem Runs.map {g : α → β} (h : Runs p s a r) : Runs (fun n => (p n).map g) s (g a) r := h.bind (f := fun _ a => pure (g a)) ⟨0, fun _ _ => rfl⟩

theorem Fails.map {g : α → β} (h : Fails p s) : Fails (fun n => (p n).map g) s := h.bind (f := fun _ a => pure (g a))

theorem Runs.or (h : Runs p s a r) : Runs (fun n => (p n).or (q n)) s a r := by
  obtain ⟨k, h⟩ := h
  exact ⟨k, fun n hn => by simp only [Parser.or, h n hn]⟩

theorem Fails.or (h : Fails p s) (h' : Runs q s a r) : Runs (fun n => (p n).or (q n)) s a r := by
  obtain ⟨k, h⟩ := h
  obtain ⟨k', h'⟩ := h'
  refine ⟨max k k', fun n hn => ?_⟩
  simp only [Parser.or, h n (by omega)]
  exact h' n (by omega)

theorem Fails.orFail (h : Fails p s) (h' : Fails q s) : Fails (fun n => (p n).or (q n)) s := by
  obtain ⟨k, h⟩ := h
  obtain ⟨k', h'⟩ := h'
  refine ⟨max k k', fun n hn => ?_⟩
  simp only [Parser.or, h n (by omega)]
  exact h' n (by omega)

theorem Runs.opt (h : Runs p s a r) : Runs (fun n => (p n).opt) s (some a) r := h.map.or

theorem Fails.opt (h : Fails p s) : Runs (fun n => (p n).opt) s none s := h.map.or ⟨0, fun _ _ => rfl⟩

theorem Fails.many (h : Fails p s) : RunsMany p s [] s := by
  obtain ⟨k, h⟩ := h
  refine ⟨k + 1, fun m n hm hn => ?_⟩
  obtain ⟨m, rfl⟩ : ∃ j, m = j + 1 := ⟨m - 1, by omega⟩
  simp only [Parser.many, Parser.or, Parser.bind, h n (by omega)]
  rfl

theorem Runs.many (h : Runs p s a r) (h' : RunsMany p r l r') : RunsMany p s (a :: l) r' := by
  obtain ⟨k, h⟩ := h
  obtain ⟨k', h'⟩ := h'
  refine ⟨max k k' + 1, fun m n hm hn => ?_⟩
  obtain ⟨m, rfl⟩ : ∃ j, m = j + 1 := ⟨m - 1, by omega⟩
  simp only [Parser.many, Parser.or, Parser.bind, h n (by omega), Parser.map, h' m n (by omega) (by omega)]
  rfl

theorem RunsMany.runs (h : RunsMany p s l r) : Runs (fun n => Parser.many n (p n)) s l r := by
  obtain ⟨k, h⟩ := h
  exact ⟨k, fun n hn => h n n hn hn⟩

/-- A parser with one unit of fuel more. -/
theorem Runs.step {p' : Nat → Parser α} (e : ∀ n, p (n + 1) = p' n) (h : Runs p' s a r) : Runs p s a r := by
  obtain ⟨k, h⟩ := h
  refine ⟨k + 1, fun n hn => ?_⟩
  obtain ⟨n, rfl⟩ : ∃ j, n = j + 1 := ⟨n - 1, by omega⟩
  rw [e]
  exact h n (by omega)

theorem Fails.step {p' : Nat → Parser α} (e : ∀ n, p (n + 1) = p' n) (h : Fails p' s) : Fails p s := by
  obtain ⟨k, h⟩ := h
  refine ⟨k + 1, fun n hn => ?_⟩
  obtain ⟨n, rfl⟩ : ∃ j, n = j + 1 := ⟨n - 1, by omega⟩
  rw [e]
  exact h n (by omega)

theorem op_self (v : Bytes) (r : List Tok) : op v (opTok v :: r) = .ok () r := by simp [op, opTok]

theorem runs_op (v : Bytes) (r : List Tok) : Runs (fun _ => op v) (opTok v :: r) () r := runs_const (op_self v r)

theorem fails_op {v w : Bytes} {r : List Tok} (h : w ≠ v) : Fails (fun _ => op v) (opTok w :: r) := fails_const (by simp [op, opTok, h])

theorem fails_op_kind {k : TokKind} {v t : Bytes} {r : List Tok} (h : k ≠ .op) : Fails (fun _ => op v) (⟨k, t⟩ :: r) :=
  fails_const (by simp [op, h])

theorem runs_kind (k : TokKind) (t : Bytes) (r : List Tok) : Runs (fun _ => kind k) (⟨k, t⟩ :: r) t r := runs_const (by simp [kind])

theorem fails_kind {k k' : TokKind} {t : Bytes} {r : List Tok} (h : k' ≠ k) : Fails (fun _ => kind k) (⟨k', t⟩ :: r) :=
  fails_const (by simp [kind, h])

theorem fails_kind_op {k : TokKind} {v : Bytes} {r : List Tok} (h : .op ≠ k) : Fails (fun _ => kind k) (opTok v :: r) :=
  fails_const (by simp [kind, opTok, h])

end Parser
open Parser

/-- The operators that can follow a basic expression. -/
def stops : List Bytes := [b%")", b%"]", b%",", b%"||", b%"&&"]

/-- The next token is one of these operators. -/
def Next (vs : List Bytes) (s : List Tok) : Prop := ∃ v r, v ∈ vs ∧ s = opTok v :: r

theorem Next.mono {vs ws : List Bytes} {s : List Tok} (h : Next vs s) (hv : ∀ v ∈ vs, v ∈ ws) : Next ws s := by
  obtain ⟨v, r, h1, h2⟩ := h
  exact ⟨v, r, hv v h1, h2⟩

theorem next_cons (v : Bytes) (vs : List Bytes) (r : List Tok) (h : v ∈ vs) : Next vs (opTok v :: r) := ⟨v, r, h, rfl⟩

/-- The tokens after a query. -/
def Stops (s : List Tok) : Prop := s = [] ∨ Next stops s

theorem pString_runs (x : PString) (r : List Tok) : pString (x.tok :: r) = .ok x r := by
  cases x <;> rfl

theorem pLiteral_runs (x : PLiteral) (r : List Tok) : pLiteral (x.tok :: r) = .ok x r := by
  cases x with
  | num i t => cases i <;> rfl
  | str s => cases s <;> rfl
  | bool b => cases b <;> rfl
  | null => rfl

/-- Evaluation of a parser without fuel on known tokens. -/
macro "evalp" : tactic => `(tactic| simp [Parser.or, Parser.bind, Parser.map, Parser.pure, Parser.opt, Parser.op, Parser.kind, pString, pLiteral, pSlice,
  pStep, pSingSeg, PString.tok, opTok, boundToks, stepToks, rootTok])

theorem pString_op (v : Bytes) (r : List Tok) : pString (opTok v :: r) = .fail := by evalp

theorem pLiteral_op (v : Bytes) (r : List Tok) : pLiteral (opTok v :: r) = .fail := by evalp

theorem pLiteral_func (t : Bytes) (r : List Tok) : pLiteral (⟨.func, t⟩ :: r) = .fail := by evalp

theorem pSingSeg_stops {s : List Tok} (h : Stops s) : pSingSeg s = .fail := by
  rcases h with rfl | ⟨v, r, hv, rfl⟩
  · rfl
  · simp only [stops, List.mem_cons, List.not_mem_nil, or_false] at hv
    rcases hv with rfl | rfl | rfl | rfl | rfl <;> evalp

theorem pSegment_stops {s : List Tok} (h : Stops s) : Fails pSegment s := by
  refine ⟨1, fun n hn => ?_⟩
  obtain ⟨n, rfl⟩ : ∃ j, n = j + 1 := ⟨n - 1, by omega⟩
  rw [pSegment]
  rcases h with rfl | ⟨v, r, hv, rfl⟩
  · rfl
  · simp only [stops, List.mem_cons, List.not_mem_nil, or_false] at hv
    rcases hv with rfl | rfl | rfl | rfl | rfl <;> evalp

theorem pSingSeg_runs (x : PSingSeg) (r : List Tok) : pSingSeg (x.toks ++ r) = .ok x r := by
  cases x with
  | bracket s => cases s <;> simp only [PSingSeg.toks, List.cons_append, List.nil_append] <;> evalp
  | dot t => simp only [PSingSeg.toks, List.cons_append, List.nil_append]; evalp
  | index t => simp only [PSingSeg.toks, List.cons_append, List.nil_append]; evalp

theorem singSegs_run {r : List Tok} (h : pSingSeg r = .fail) : ∀ l, RunsMany (fun _ => pSingSeg) (singToks l ++ r) l r
  | [] => Fails.many (fails_const h)
  | x :: l => by
    have : singToks (x :: l) ++ r = x.toks ++ (singToks l ++ r) := by simp [singToks]
    rw [this]
    exact Runs.many (runs_const (pSingSeg_runs x _)) (singSegs_run h l)

theorem pSing_runs (q : PSingQuery) {r : List Tok} (h : pSingSeg r = .fail) : Runs pSing (q.toks ++ r) q r := by
  obtain ⟨root, l⟩ := q
  have := (singSegs_run h l).runs
  cases root with
  | false => exact (Runs.bind (runs_op b%"@" _) this.map).or
  | true => exact Fails.or (Fails.bind (fails_op (by decide))) (Runs.bind (runs_op b%"$" _) this.map)

theorem pSing_fails_op {v : Bytes} {r : List Tok} (h : v ≠ b%"@") (h' : v ≠ b%"$") : Fails pSing (opTok v :: r) :=
  (Fails.bind (fails_op h)).orFail (Fails.bind (fails_op h'))

theorem pSing_fails_func {t : Bytes} {r : List Tok} : Fails pSing (⟨.func, t⟩ :: r) :=
  (Fails.bind (fails_op_kind (by decide))).orFail (Fails.bind (fails_op_kind (by decide)))

theorem pFunc_fails_op {v : Bytes} {r : List Tok} : Fails pFunc (opTok v :: r) :=
  Fails.step (fun n => by rw [pFunc]) (Fails.bind (fails_kind_op (by decide)))

theorem pQueryIn_fails_op {v : Bytes} {r : List Tok} (h : v ≠ b%"@") (h' : v ≠ b%"$") : Fails pQueryIn (opTok v :: r) :=
  Fails.step (fun n => by rw [pQueryIn]) ((Fails.bind (fails_op h)).orFail (Fails.bind (fails_op h')))

theorem pQueryIn_fails_func {t : Bytes} {r : List Tok} : Fails pQueryIn (⟨.func, t⟩ :: r) :=
  Fails.step (fun n => by rw [pQueryIn]) ((Fails.bind (fails_op_kind (by decide))).orFail (Fails.bind (fails_op_kind (by decide))))

theorem pComparable_fails_op {v : Bytes} {r : List Tok} (h : v ≠ b%"@") (h' : v ≠ b%"$") : Fails pComparable (opTok v :: r) :=
  Fails.step (fun n => by rw [pComparable])
    ((Fails.map (fails_const (pLiteral_op _ _))).orFail ((pSing_fails_op h h').map.orFail pFunc_fails_op.map))

theorem pBasic_fails_close {r : List Tok} : Fails pBasic (opTok b%")" :: r) := by
  have h1 : Runs (fun _ => (op b%"!").opt) (opTok b%")" :: r) none (opTok b%")" :: r) := Fails.opt (fails_op (by decide))
  refine Fails.step (fun n => by rw [pBasic]) (Fails.orFail ?_ (Fails.orFail ?_ ?_))
  · exact Runs.bindFail h1 (Fails.bind (fails_op (by decide)))
  · exact Fails.bind (pComparable_fails_op (by decide) (by decide))
  · exact Runs.bindFail h1 (Fails.orFail (pQueryIn_fails_op (by decide) (by decide)).map pFunc_fails_op.map)

theorem pArg_fails_close {r : List Tok} : Fails pArg (opTok b%")" :: r) :=
  Fails.step (fun n => by rw [pArg])
    ((Fails.map (fails_const (pLiteral_op _ _))).orFail ((pQueryIn_fails_op (by decide) (by decide)).map.orFail (pFunc_fails_op.map.orFail
      (Fails.map (Fails.step (fun n => by rw [pOr]) (Fails.bind (Fails.step (fun n => by rw [pAnd]) (Fails.bind pBasic_fails_close))))))))

/-- The next token is not a comparison operator. -/
def NoCmp (s : List Tok) : Prop := Fails (fun _ => kind .cmp) s

theorem noCmp_stops {s : List Tok} (h : Stops s) : NoCmp s := by
  rcases h with rfl | ⟨v, r, hv, rfl⟩
  · exact fails_const rfl
  · exact fails_kind_op (by decide)

/-- A segment is read as a singular segment, or not at all. -/
theorem seg_sing (x : PSegment) (r : List Tok) :
    (∃ y, pSingSeg (x.toks ++ r) = .ok y r) ∨ (pSingSeg (x.toks ++ r) = .fail ∧ NoCmp (x.toks ++ r)) := by
  cases x with
  | dotName t => exact .inl ⟨.dot t, by simp only [PSegment.toks, List.cons_append, List.nil_append]; evalp⟩
  | dotWild =>
    refine .inr ⟨?_, fails_const ?_⟩
    all_goals simp only [PSegment.toks, List.cons_append, List.nil_append]; evalp
  | descWild =>
    refine .inr ⟨?_, fails_const ?_⟩
    all_goals simp only [PSegment.toks, List.cons_append, List.nil_append]; evalp
  | descName t =>
    refine .inr ⟨?_, fails_const ?_⟩
    all_goals simp only [PSegment.toks, List.cons_append, List.nil_append]; evalp
  | descBracketed f l =>
    refine .inr ⟨?_, fails_const ?_⟩
    all_goals simp only [PSegment.toks, List.cons_append, List.nil_append]; evalp
  | bracketed f l =>
    have hc : NoCmp ((PSegment.bracketed f l).toks ++ r) := by
      simp only [PSegment.toks, List.cons_append]; exact fails_kind_op (by decide)
    cases l with
    | nil =>
      cases f with
      | name s => exact .inl ⟨.bracket s, by cases s <;> simp only [PSegment.toks, PSelector.toks, selsToks, List.cons_append, List.nil_append] <;> evalp⟩
      | index t => exact .inl ⟨.index t, by simp only [PSegment.toks, PSelector.toks, selsToks, List.cons_append, List.nil_append]; evalp⟩
      | wild => exact .inr ⟨by simp only [PSegment.toks, PSelector.toks, selsToks, List.cons_append, List.nil_append]; evalp, hc⟩
      | filter e => exact .inr ⟨by simp only [PSegment.toks, PSelector.toks, selsToks, List.cons_append, List.nil_append]; evalp, hc⟩
      | slice a b c => exact .inr ⟨by cases a <;> simp only [PSegment.toks, PSelector.toks, selsToks, List.cons_append, List.nil_append] <;> evalp, hc⟩
    | cons g l =>
      refine .inr ⟨?_, hc⟩
      cases f with
      | name s => cases s <;> simp only [PSegment.toks, PSelector.toks, selsToks, List.cons_append, List.nil_append] <;> evalp
      | index t => simp only [PSegment.toks, PSelector.toks, selsToks, List.cons_append, List.nil_append]; evalp
      | wild => simp only [PSegment.toks, PSelector.toks, selsToks, List.cons_append, List.nil_append]; evalp
      | filter e => simp only [PSegment.toks, PSelector.toks, selsToks, List.cons_append, List.nil_append]; evalp
      | slice a b c => cases a <;> simp only [PSegment.toks, PSelector.toks, selsToks, List.cons_append, List.nil_append] <;> evalp

/-- After the singular segments at the beginning of a query there is no comparison operator. -/
theorem segs_sing {rest : List Tok} (h : Stops rest) : ∀ l, ∃ y r, RunsMany (fun _ => pSingSeg) (segsToks l ++ rest) y r ∧ NoCmp r
  | [] => ⟨[], rest, by rw [segsToks]; exact Fails.many (fails_const (pSingSeg_stops h)), noCmp_stops h⟩
  | x :: l => by
    obtain ⟨y, r, h1, h2⟩ := segs_sing h l
    rw [segsToks, List.append_assoc]
    rcases seg_sing x (segsToks l ++ rest) with ⟨z, hz⟩ | ⟨h3, h4⟩
    · exact ⟨z :: y, r, Runs.many (runs_const hz) h1, h2⟩
    · exact ⟨[], _, Fails.many (fails_const h3), h4⟩

/-- A query is not the first half of a comparison. -/
theorem query_not_cmp {rest : List Tok} (h : Stops rest) (root : Bool) (l : List PSegment) {f : Nat → PComparable → Bytes → Parser PLogical} :
    Fails (fun n => (pComparable n).bind fun x => (kind .cmp).bind fun o => f n x o) (rootTok root :: (segsToks l ++ rest)) := by
  obtain ⟨y, r, h1, h2⟩ := segs_sing h l
  have hs : Runs pSing (rootTok root :: (segsToks l ++ rest)) ⟨root, y⟩ r := by
    cases root with
    | false => exact (Runs.bind (runs_op b%"@" _) h1.runs.map).or
    | true => exact Fails.or (Fails.bind (fails_op (by decide))) (Runs.bind (runs_op b%"$" _) h1.runs.map)
  have hl : pLiteral (rootTok root :: (segsToks l ++ rest)) = .fail := by cases root <;> exact pLiteral_op _ _
  have hc : Runs pComparable (rootTok root :: (segsToks l ++ rest)) (.sing ⟨root, y⟩) r :=
    Runs.step (fun n => by rw [pComparable]) ((Fails.map (fails_const hl)).or hs.map.or)
  exact hc.bindFail (f := fun n x => (kind .cmp).bind fun o => f n x o) (Fails.bind h2)

theorem pSlice_runs (a b : Option Bytes) (c : Option (Option Bytes)) {rest : List Tok} (h : Next [b%",", b%"]"] rest) :
    pSlice (boundToks a ++ (opTok b%":" :: (boundToks b ++ stepToks c)) ++ rest) = .ok (.slice a b c) rest := by
  obtain ⟨v, r, hv, rfl⟩ := h
  simp only [List.mem_cons, List.not_mem_nil, or_false] at hv
  rcases hv with rfl | rfl <;> rcases a with _ | a <;> rcases b with _ | b <;> rcases c with _ | _ | c <;> evalp

theorem pSlice_index {t : Bytes} {rest : List Tok} (h : Next [b%",", b%"]"] rest) : pSlice (⟨.int, t⟩ :: rest) = .fail := by
  obtain ⟨v, r, hv, rfl⟩ := h
  simp only [List.mem_cons, List.not_mem_nil, or_false] at hv
  rcases hv with rfl | rfl <;> evalp

/-- The first token of the operand of a comparison. -/
theorem comparable_head (x : PComparable) (r : List Tok) :
    Fails (fun _ => op b%"!") (x.toks ++ r) ∧ Fails (fun _ => op b%"(") (x.toks ++ r) := by
  cases x with
  | lit l =>
    simp only [PComparable.toks, List.cons_append, List.nil_append]
    constructor <;> refine fails_const ?_ <;> rcases l with ⟨i, t⟩ | s | b | _
    all_goals first
      | (cases i <;> simp [PLiteral.tok, op])
      | (cases s <;> simp [PLiteral.tok, PString.tok, op])
      | (cases b <;> simp [PLiteral.tok, op])
      | simp [PLiteral.tok, op]
  | sing q =>
    simp only [PComparable.toks, PSingQuery.toks, List.cons_append]
    cases q.root <;> exact ⟨fails_op (by decide), fails_op (by decide)⟩
  | func n args =>
    simp only [PComparable.toks, List.cons_append]
    exact ⟨fails_op_kind (by decide), fails_op_kind (by decide)⟩

/-- A negation sign, or not. -/
theorem not_runs (n : Bool) {s : List Tok} (h : Fails (fun _ => op b%"!") s) :
    ∃ o : Option Unit, o.isSome = n ∧ Runs (fun _ => (op b%"!").opt) (notToks n ++ s) o s := by
  cases n with
  | false => exact ⟨none, rfl, h.opt⟩
  | true => exact ⟨some (), rfl, (runs_op _ _).opt⟩

theorem query_runs (root : Bool) {l : List PSegment} {s rest : List Tok} (h : RunsMany pSegment s l rest) :
    Runs pQueryIn (rootTok root :: s) (root, l) rest := by
  refine Runs.step (fun n => by rw [pQueryIn]) ?_
  cases root with
  | false => exact (Runs.bind (runs_op b%"@" _) h.runs.map).or
  | true => exact Fails.or (Fails.bind (fails_op (by decide))) (Runs.bind (runs_op b%"$" _) h.runs.map)

mutual
theorem seg_runs (x : PSegment) (h : x.ok false) (rest : List Tok) : Runs pSegment (x.toks ++ rest) x rest := by
  cases x with
  | bracketed f l =>
    simp only [PSegment.ok] at h
    have e : (PSegment.bracketed f l).toks ++ rest = opTok b%"[" :: (f.toks ++ (selsToks l ++ (opTok b%"]" :: rest))) := by simp [PSegment.toks]
    rw [e]
    refine Runs.step (fun n => by rw [pSegment]) (Runs.or ?_)
    refine Runs.bind (runs_op _ _) ?_
    refine Runs.bind (f := fun n f => (many n ((op b%",").bind fun _ => pSelector n)).bind fun r => (op b%"]").map fun _ => PSegment.bracketed f r)
      (sel_runs f h.1 _ ?_) ?_
    · cases l with
      | nil => rw [selsToks]; exact next_cons _ _ _ (by decide)
      | cons g l => rw [selsToks]; exact next_cons _ _ _ (by decide)
    · exact Runs.bind (f := fun n r => (op b%"]").map fun _ => PSegment.bracketed f r) (sels_run l h.2 rest).runs (Runs.map (runs_op _ _))
  | descBracketed f l =>
    simp only [PSegment.ok] at h
    have e : (PSegment.descBracketed f l).toks ++ rest = opTok b%"..[" :: (f.toks ++ (selsToks l ++ (opTok b%"]" :: rest))) := by simp [PSegment.toks]
    rw [e]
    refine Runs.step (fun n => by rw [pSegment]) (Fails.or (Fails.bind (fails_op (by decide))) (Fails.or (Fails.map (fails_op (by decide)))
      (Fails.or (Fails.map (fails_kind_op (by decide))) (Runs.or ?_))))
    refine Runs.bind (runs_op _ _) ?_
    refine Runs.bind (f := fun n f => (many n ((op b%",").bind fun _ => pSelector n)).bind fun r => (op b%"]").map fun _ => PSegment.descBracketed f r)
      (sel_runs f h.1 _ ?_) ?_
    · cases l with
      | nil => rw [selsToks]; exact next_cons _ _ _ (by decide)
      | cons g l => rw [selsToks]; exact next_cons _ _ _ (by decide)
    · exact Runs.bind (f := fun n r => (op b%"]").map fun _ => PSegment.descBracketed f r) (sels_run l h.2 rest).runs (Runs.map (runs_op _ _))
  | dotWild => exact Runs.step (fun n => by rw [pSegment]) ⟨0, fun n _ => by simp only [PSegment.toks]; rfl⟩
  | dotName t => exact Runs.step (fun n => by rw [pSegment]) ⟨0, fun n _ => by simp only [PSegment.toks]; rfl⟩
  | descWild => exact Runs.step (fun n => by rw [pSegment]) ⟨0, fun n _ => by simp only [PSegment.toks]; rfl⟩
  | descName t => exact Runs.step (fun n => by rw [pSegment]) ⟨0, fun n _ => by simp only [PSegment.toks]; rfl⟩
theorem segs_run (l : List PSegment) (h : segsOk false l) {rest : List Tok} (hr : Stops rest) : RunsMany pSegment (segsToks l ++ rest) l rest := by
  match l with
  | [] => rw [segsToks]; exact (pSegment_stops hr).many
  | x :: l =>
    rw [segsOk] at h
    rw [segsToks, List.append_assoc]
    exact (seg_runs x h.1 _).many (segs_run l h.2 hr)
theorem sel_runs (x : PSelector) (h : x.ok false) (rest : List Tok) (hr : Next [b%",", b%"]"] rest) : Runs pSelector (x.toks ++ rest) x rest := by
  refine Runs.step (fun n => by rw [pSelector]) ?_
  cases x with
  | name s =>
    simp only [PSelector.toks, List.cons_append, List.nil_append]
    exact (runs_const (pString_runs s _)).map.or
  | wild =>
    simp only [PSelector.toks, List.cons_append, List.nil_append]
    exact Fails.or (Fails.map (fails_const (pString_op _ _))) (Runs.or (Runs.map (runs_op _ _)))
  | slice a b c =>
    simp only [PSelector.toks]
    refine Fails.or (Fails.map (fails_const ?_)) (Fails.or (Fails.map (fails_const ?_)) (Runs.or (runs_const (pSlice_runs a b c hr))))
    · cases a <;> simp only [boundToks, List.cons_append, List.nil_append] <;> evalp
    · cases a <;> simp only [boundToks, List.cons_append, List.nil_append] <;> evalp
  | index t =>
    simp only [PSelector.toks, List.cons_append, List.nil_append]
    exact Fails.or (Fails.map (fails_const (by evalp))) (Fails.or (Fails.map (fails_op_kind (by decide)))
      (Fails.or (fails_const (pSlice_index hr)) (Runs.or (Runs.map (runs_kind _ _ _)))))
  | filter e =>
    simp only [PSelector.ok] at h
    simp only [PSelector.toks, List.cons_append]
    exact Fails.or (Fails.map (fails_const (pString_op _ _))) (Fails.or (Fails.map (fails_op (by decide))) (Fails.or (fails_const (by evalp))
      (Fails.or (Fails.map (fails_kind_op (by decide))) (Runs.bind (runs_op _ _) (or_runs e h _ (hr.mono (by decide))).map))))
theorem sels_run (l : List PSelector) (h : selsOk false l) (rest : List Tok) :
    RunsMany (fun n => (op b%",").bind fun _ => pSelector n) (selsToks l ++ (opTok b%"]" :: rest)) l (opTok b%"]" :: rest) := by
  match l with
  | [] => rw [selsToks]; exact Fails.many (Fails.bind (fails_op (by decide)))
  | x :: l =>
    rw [selsOk] at h
    have e : selsToks (x :: l) ++ (opTok b%"]" :: rest) = opTok b%"," :: (x.toks ++ (selsToks l ++ (opTok b%"]" :: rest))) := by simp [selsToks]
    rw [e]
    refine Runs.many (Runs.bind (runs_op _ _) (sel_runs x h.1 _ ?_)) (sels_run l h.2 rest)
    cases l with
    | nil => rw [selsToks]; exact next_cons _ _ _ (by decide)
    | cons g l => rw [selsToks]; exact next_cons _ _ _ (by decide)
theorem or_runs (x : PLogical) (h : x.okOr false) (rest : List Tok) (hr : Next [b%")", b%"]", b%","] rest) : Runs pOr (x.toks ++ rest) x rest := by
  refine Runs.step (fun n => by rw [pOr]) ?_
  match x, h with
  | .or f l, h =>
    rw [PLogical.okOr] at h
    rw [PLogical.toks, List.append_assoc]
    refine Runs.bind (f := fun n f => (many n ((op b%"||").bind fun _ => pAnd n)).map fun r => PLogical.or f r) (and_runs f h.1 _ ?_)
      (ands_run l h.2 rest hr).runs.map
    cases l with
    | nil => rw [orsToks]; exact hr.mono (by decide)
    | cons g l => rw [orsToks]; exact next_cons _ _ _ (by decide)
theorem ands_run (l : List PLogical) (h : andsOk false l) (rest : List Tok) (hr : Next [b%")", b%"]", b%","] rest) :
    RunsMany (fun n => (op b%"||").bind fun _ => pAnd n) (orsToks l ++ rest) l rest := by
  match l with
  | [] =>
    rw [orsToks]
    obtain ⟨v, r, hv, rfl⟩ := hr
    exact Fails.many (Fails.bind (fails_op (by revert v; decide)))
  | x :: l =>
    rw [andsOk] at h
    have e : orsToks (x :: l) ++ rest = opTok b%"||" :: (x.toks ++ (orsToks l ++ rest)) := by simp [orsToks]
    rw [e]
    refine Runs.many (Runs.bind (runs_op _ _) (and_runs x h.1 _ ?_)) (ands_run l h.2 rest hr)
    cases l with
    | nil => rw [orsToks]; exact hr.mono (by decide)
    | cons g l => rw [orsToks]; exact next_cons _ _ _ (by decide)
theorem and_runs (x : PLogical) (h : x.okAnd false) (rest : List Tok) (hr : Next [b%")", b%"]", b%",", b%"||"] rest) :
    Runs pAnd (x.toks ++ rest) x rest := by
  refine Runs.step (fun n => by rw [pAnd]) ?_
  match x, h with
  | .and f l, h =>
    rw [PLogical.okAnd] at h
    rw [PLogical.toks, List.append_assoc]
    refine Runs.bind (f := fun n f => (many n ((op b%"&&").bind fun _ => pBasic n)).map fun r => PLogical.and f r) (basic_runs f h.1 _ ?_)
      (basics_run l h.2 rest hr).runs.map
    cases l with
    | nil => rw [andsToks]; exact hr.mono (by decide)
    | cons g l => rw [andsToks]; exact next_cons _ _ _ (by decide)
theorem basics_run (l : List PLogical) (h : basicsOk false l) (rest : List Tok) (hr : Next [b%")", b%"]", b%",", b%"||"] rest) :
    RunsMany (fun n => (op b%"&&").bind fun _ => pBasic n) (andsToks l ++ rest) l rest := by
  match l with
  | [] =>
    rw [andsToks]
    obtain ⟨v, r, hv, rfl⟩ := hr
    exact Fails.many (Fails.bind (fails_op (by revert v; decide)))
  | x :: l =>
    rw [basicsOk] at h
    have e : andsToks (x :: l) ++ rest = opTok b%"&&" :: (x.toks ++ (andsToks l ++ rest)) := by simp [andsToks]
    rw [e]
    refine Runs.many (Runs.bind (runs_op _ _) (basic_runs x h.1 _ ?_)) (basics_run l h.2 rest hr)
    cases l with
    | nil => rw [andsToks]; exact hr.mono (by decide)
    | cons g l => rw [andsToks]; exact next_cons _ _ _ (by decide)
theorem basic_runs (x : PLogical) (h : x.okBasic false) (rest : List Tok) (hr : Next stops rest) : Runs pBasic (x.toks ++ rest) x rest := by
  refine Runs.step (fun n => by rw [pBasic]) ?_
  match x, h with
  | .paren n e, h =>
    rw [PLogical.okBasic] at h
    have e1 : (PLogical.paren n e).toks ++ rest = notToks n ++ (opTok b%"(" :: (e.toks ++ (opTok b%")" :: rest))) := by simp [PLogical.toks]
    rw [e1]
    obtain ⟨o, rfl, ho⟩ := not_runs n (fails_op (v := b%"!") (w := b%"(") (r := e.toks ++ (opTok b%")" :: rest)) (by decide))
    exact Runs.or (Runs.bind ho (Runs.bind (runs_op _ _)
      (Runs.bind (f := fun _ e => (op b%")").map fun _ => PLogical.paren o.isSome e) (or_runs e h _ (next_cons _ _ _ (by decide))) (Runs.map (runs_op _ _)))))
  | .cmp l c r, h =>
    rw [PLogical.okBasic] at h
    have e1 : (PLogical.cmp l c r).toks ++ rest = l.toks ++ (⟨.cmp, opText c⟩ :: (r.toks ++ rest)) := by simp [PLogical.toks]
    rw [e1]
    obtain ⟨h1, h2⟩ := comparable_head l (⟨.cmp, opText c⟩ :: (r.toks ++ rest))
    refine Fails.or (Runs.bindFail h1.opt (Fails.bind h2)) (Runs.or ?_)
    have hc : cmpOp (opText c) = c := by cases c <;> rfl
    have := Runs.bind (f := fun n l => (kind .cmp).bind fun o => (pComparable n).map fun r => PLogical.cmp l (cmpOp o) r)
      (comparable_runs l h.1 (⟨.cmp, opText c⟩ :: (r.toks ++ rest)) (by evalp))
      (Runs.bind (f := fun n o => (pComparable n).map fun r => PLogical.cmp l (cmpOp o) r) (runs_kind _ _ _)
        (comparable_runs r h.2 rest (pSingSeg_stops (.inr hr))).map)
    rw [hc] at this
    exact this
  | .query n root l, h =>
    rw [PLogical.okBasic] at h
    have e1 : (PLogical.query n root l).toks ++ rest = notToks n ++ (rootTok root :: (segsToks l ++ rest)) := by simp [PLogical.toks]
    rw [e1]
    have h1 : Fails (fun _ => op b%"!") (rootTok root :: (segsToks l ++ rest)) := by cases root <;> exact fails_op (by decide)
    have h2 : Fails (fun _ => op b%"(") (rootTok root :: (segsToks l ++ rest)) := by cases root <;> exact fails_op (by decide)
    obtain ⟨o, rfl, ho⟩ := not_runs n h1
    refine Fails.or (Runs.bindFail ho (Fails.bind h2)) (Fails.or ?_ (Runs.bind ho (Runs.or (Runs.map (query_runs root (segs_run l h (.inr hr)))))))
    cases o with
    | none => exact query_not_cmp (.inr hr) root l
    | some u => exact Fails.bind (pComparable_fails_op (by decide) (by decide))
  | .func n name args, h =>
    rw [PLogical.okBasic] at h
    have e1 : (PLogical.func n name args).toks ++ rest = notToks n ++ (⟨.func, name⟩ :: (argsToks args ++ (opTok b%")" :: rest))) := by simp [PLogical.toks]
    rw [e1]
    have hf := func_runs name args h rest
    obtain ⟨o, rfl, ho⟩ := not_runs n (fails_op_kind (v := b%"!") (k := .func) (t := name) (r := argsToks args ++ (opTok b%")" :: rest)) (by decide))
    refine Fails.or (Runs.bindFail ho (Fails.bind (fails_op_kind (by decide)))) (Fails.or ?_ (Runs.bind ho (Fails.or pQueryIn_fails_func.map hf.map)))
    cases o with
    | none =>
      have hc : Runs pComparable (⟨.func, name⟩ :: (argsToks args ++ (opTok b%")" :: rest))) (.func name args) rest :=
        Runs.step (fun n => by rw [pComparable]) (Fails.or (Fails.map (fails_const (pLiteral_func _ _))) (Fails.or pSing_fails_func.map hf.map))
      exact hc.bindFail (f := fun n l => (kind .cmp).bind fun o => (pComparable n).map fun r => PLogical.cmp l (cmpOp o) r) (Fails.bind (noCmp_stops (.inr hr)))
    | some u => exact Fails.bind (pComparable_fails_op (by decide) (by decide))
theorem comparable_runs (x : PComparable) (h : x.ok false) (rest : List Tok) (hr : pSingSeg rest = .fail) : Runs pComparable (x.toks ++ rest) x rest := by
  refine Runs.step (fun n => by rw [pComparable]) ?_
  cases x with
  | lit l =>
    simp only [PComparable.toks, List.cons_append, List.nil_append]
    exact (runs_const (pLiteral_runs l _)).map.or
  | sing q =>
    simp only [PComparable.toks]
    refine Fails.or (Fails.map (fails_const ?_)) (pSing_runs q hr).map.or
    obtain ⟨root, l⟩ := q
    cases root <;> exact pLiteral_op _ _
  | func name args =>
    simp only [PComparable.ok] at h
    have e1 : (PComparable.func name args).toks ++ rest = ⟨.func, name⟩ :: (argsToks args ++ (opTok b%")" :: rest)) := by simp [PComparable.toks]
    rw [e1]
    exact Fails.or (Fails.map (fails_const (pLiteral_func _ _))) (Fails.or pSing_fails_func.map (func_runs name args h rest).map)
theorem func_runs (name : Bytes) (args : List PArg) (h : argsOk false args) (rest : List Tok) :
    Runs pFunc (⟨.func, name⟩ :: (argsToks args ++ (opTok b%")" :: rest))) (name, args) rest := by
  refine Runs.step (fun n => by rw [pFunc]) ?_
  refine Runs.bind (f := fun n f => ((pArg n).bind fun a => (many n ((op b%",").bind fun _ => pArg n)).map fun l => a :: l).opt.bind fun args =>
        (op b%")").map fun _ => (f, args.getD [])) (runs_kind _ _ _) ?_
  match args with
  | [] =>
    rw [argsToks]
    have h0 : Runs (fun n => ((pArg n).bind fun a => (many n ((op b%",").bind fun _ => pArg n)).map fun l => a :: l).opt) ([] ++ opTok b%")" :: rest)
      none (opTok b%")" :: rest) := Fails.opt (Fails.bind pArg_fails_close)
    exact Runs.bind (f := fun _ args => (op b%")").map fun _ => (name, args.getD [])) h0 (Runs.map (g := fun _ => (name, [])) (runs_op _ _))
  | x :: l =>
    rw [argsOk] at h
    rw [argsToks, List.append_assoc]
    refine Runs.bind (f := fun _ args => (op b%")").map fun _ => (name, args.getD [])) (a := some (x :: l))
      (Runs.opt (Runs.bind (f := fun n a => (many n ((op b%",").bind fun _ => pArg n)).map fun l => a :: l) (arg_runs x h.1 _ ?_)
        (args_run l h.2 rest).runs.map)) (Runs.map (runs_op _ _))
    cases l with
    | nil => rw [restToks]; exact next_cons _ _ _ (by decide)
    | cons g l => rw [restToks]; exact next_cons _ _ _ (by decide)
theorem arg_runs (x : PArg) (h : x.ok false) (rest : List Tok) (hr : Next [b%",", b%")"] rest) : Runs pArg (x.toks ++ rest) x rest := by
  refine Runs.step (fun n => by rw [pArg]) ?_
  match x, h with
  | .lit l, _ =>
    simp only [PArg.toks, List.cons_append, List.nil_append]
    exact (runs_const (pLiteral_runs l _)).map.or
  | .query root l, h =>
    rw [PArg.ok] at h
    rw [PArg.toks, List.cons_append]
    refine Fails.or (Fails.map (fails_const ?_)) (query_runs root (segs_run l h (.inr (hr.mono (by decide))))).map.or
    cases root <;> exact pLiteral_op _ _
  | .func name args, h =>
    rw [PArg.ok] at h
    have e1 : (PArg.func name args).toks ++ rest = ⟨.func, name⟩ :: (argsToks args ++ (opTok b%")" :: rest)) := by simp [PArg.toks]
    rw [e1]
    exact Fails.or (Fails.map (fails_const (pLiteral_func _ _))) (Fails.or pQueryIn_fails_func.map (func_runs name args h rest).map.or)
  | .logical e, h =>
    rw [PArg.ok] at h
    exact absurd h.1 (by decide)
theorem args_run (l : List PArg) (h : argsOk false l) (rest : List Tok) :
    RunsMany (fun n => (op b%",").bind fun _ => pArg n) (restToks l ++ (opTok b%")" :: rest)) l (opTok b%")" :: rest) := by
  match l with
  | [] => rw [restToks]; exact Fails.many (Fails.bind (fails_op (by decide)))
  | x :: l =>
    rw [argsOk] at h
    have e : restToks (x :: l) ++ (opTok b%")" :: rest) = opTok b%"," :: (x.toks ++ (restToks l ++ (opTok b%")" :: rest))) := by simp [restToks]
    rw [e]
    refine Runs.many (Runs.bind (runs_op _ _) (arg_runs x h.1 _ ?_)) (args_run l h.2 rest)
    cases l with
    | nil => rw [restToks]; exact next_cons _ _ _ (by decide)
    | cons g l => rw [restToks]; exact next_cons _ _ _ (by decide)
end

/-- The parser reads the tokens of a query. -/
theorem pQuery_runs (l : List PSegment) (h : segsOk false l) :
    pQuery (enough (opTok b%"$" :: segsToks l)) (opTok b%"$" :: segsToks l) = .ok l [] := by
  have : Runs pQuery (opTok b%"$" :: (segsToks l ++ [])) l [] := Runs.bind (f := fun n _ => many n (pSegment n)) (runs_op _ _) (segs_run l h (.inl rfl)).runs
  rw [List.append_nil] at this
  obtain ⟨k, hk⟩ := this
  rw [← pQuery_fuel _ (Nat.le_max_left _ k)]
  exact hk _ (Nat.le_max_right _ _)

end Verif.JPath
