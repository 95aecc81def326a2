import Verif.PathUnparse

/-!
# What the parser returns is spelled by the tokens that it has read
-/

namespace Verif.JPath
namespace Parser
variable {α β : Type}

theorem bind_ok {p : Parser α} {f : α → Parser β} {s : List Tok} {b : β} {r' : List Tok} (h : p.bind f s = .ok b r') :
    ∃ a r, p s = .ok a r ∧ f a r = .ok b r' := by
  unfold bind at h
  cases hp : p s with
  | ok a r => rw [hp] at h; exact ⟨a, r, rfl, h⟩
  | fail => rw [hp] at h; cases h
  | out => rw [hp] at h; cases h

theorem map_ok {p : Parser α} {f : α → β} {s : List Tok} {b : β} {r : List Tok} (h : p.map f s = .ok b r) : ∃ a, p s = .ok a r ∧ f a = b := by
  obtain ⟨a, r', h1, h2⟩ := bind_ok h
  cases h2
  exact ⟨a, h1, rfl⟩

theorem or_ok {p q : Parser α} {s : List Tok} {a : α} {r : List Tok} (h : p.or q s = .ok a r) : p s = .ok a r ∨ q s = .ok a r := by
  unfold Parser.or at h
  cases hp : p s with
  | ok a r => rw [hp] at h; exact .inl h
  | fail => rw [hp] at h; exact .inr h
  | out => rw [hp] at h; cases h

theorem opt_ok {p : Parser α} {s : List Tok} {o : Option α} {r : List Tok} (h : p.opt s = .ok o r) :
    (∃ a, o = some a ∧ p s = .ok a r) ∨ (o = none ∧ r = s) := by
  rcases or_ok h with h' | h'
  · obtain ⟨a, h, rfl⟩ := map_ok h'
    exact .inl ⟨a, rfl, ‹_›⟩
  · cases h'
    exact .inr ⟨rfl, rfl⟩

theorem kind_ok {k : TokKind} {s : List Tok} {t : Bytes} {r : List Tok} (h : kind k s = .ok t r) : s = ⟨k, t⟩ :: r := by
  cases s with
  | nil => cases h
  | cons x s =>
    simp only [kind] at h
    split at h
    · rename_i e; cases h; cases x; simp_all
    · cases h

theorem op_ok {v : Bytes} {s : List Tok} {u : Unit} {r : List Tok} (h : op v s = .ok u r) : s = opTok v :: r := by
  cases s with
  | nil => cases h
  | cons x s =>
    simp only [op] at h
    split at h
    · rename_i e; cases h; cases x; simp_all [opTok]
    · cases h

/-- The texts of the tokens that the parser does not look at. -/
def _root_.Verif.JPath.Tok.Fine (t : Tok) : Prop :=
  (t.kind = .cmp → t.text ∈ cmpOps) ∧ (t.kind = .bool → t.text = b%"true" ∨ t.text = b%"false") ∧ (t.kind = .null → t.text = b%"null")

/-- What is parsed is spelled by the tokens that were read. -/
def Sound (p : Parser α) (pr : α → List Tok) (Q : α → Prop) : Prop :=
  ∀ s a r, (∀ t ∈ s, t.Fine) → p s = .ok a r → s = pr a ++ r ∧ Q a

theorem Sound.many {p : Parser α} {pr : α → List Tok} {Q : α → Prop} (h : Sound p pr Q) :
    ∀ n, Sound (many n p) (fun l => l.flatMap pr) (fun l => ∀ a ∈ l, Q a)
  | 0 => fun s a r _ e => by cases e
  | n + 1 => fun s l r hs e => by
    replace e := or_ok e
    rcases e with e | e
    · replace e := bind_ok e
      obtain ⟨a, r1, e1, e2⟩ := e
      obtain ⟨l', e3, rfl⟩ := map_ok e2
      obtain ⟨rfl, ha⟩ := h _ _ _ hs e1
      obtain ⟨rfl, hl⟩ := h.many n _ _ _ (fun t ht => hs t (List.mem_append_right _ ht)) e3
      refine ⟨by simp, fun x hx => ?_⟩
      rcases List.mem_cons.1 hx with rfl | hx
      · exact ha
      · exact hl x hx
    · cases e
      exact ⟨rfl, fun x hx => by cases hx⟩

end Parser
open Parser

theorem pString_sound : Sound pString (fun s => [s.tok]) (fun _ => True) := by
  intro s a r hs e
  replace e := or_ok e
  rcases e with e | e
  all_goals replace e := map_ok e
  all_goals obtain ⟨t, e, rfl⟩ := e
  all_goals exact ⟨kind_ok e, trivial⟩

theorem pLiteral_sound : Sound pLiteral (fun s => [s.tok]) (fun _ => True) := by
  intro s a r hs e
  replace e := or_ok e
  rcases e with e | e
  · replace e := or_ok e
    rcases e with e | e
    all_goals replace e := map_ok e
    all_goals obtain ⟨t, e, rfl⟩ := e
    all_goals exact ⟨kind_ok e, trivial⟩
  replace e := or_ok e
  rcases e with e | e
  · replace e := map_ok e
    obtain ⟨t, e, rfl⟩ := e
    exact pString_sound _ _ _ hs e
  replace e := or_ok e
  rcases e with e | e
  · replace e := map_ok e
    obtain ⟨t, e, rfl⟩ := e
    have h := kind_ok e
    subst h
    have := (hs _ (List.mem_cons_self ..)).2.1 rfl
    rcases this with h | h
    all_goals
      simp only at h
      subst h
      exact ⟨rfl, trivial⟩
  · replace e := map_ok e
    obtain ⟨t, e, rfl⟩ := e
    have h := kind_ok e
    subst h
    have := (hs _ (List.mem_cons_self ..)).2.2 rfl
    simp only at this
    subst this
    exact ⟨rfl, trivial⟩

theorem pSlice_sound : Sound pSlice PSelector.toks (fun x => ∀ lg, x.ok lg) := by
  intro s a r hs e
  replace e := bind_ok e
  obtain ⟨a, r1, e1, e⟩ := e
  replace e := bind_ok e
  obtain ⟨_, r2, e2, e⟩ := e
  replace e := bind_ok e
  obtain ⟨b, r3, e3, e⟩ := e
  replace e := map_ok e
  obtain ⟨c, e4, rfl⟩ := e
  have bound : ∀ {s o r}, (kind .int).opt s = .ok o r → s = boundToks o ++ r := by
    intro s o r e
    replace e := opt_ok e
    rcases e with ⟨t, rfl, e⟩ | ⟨rfl, rfl⟩
    · exact kind_ok e
    · rfl
  have h1 := bound e1
  have h2 := op_ok e2
  have h3 := bound e3
  have h4 : r3 = stepToks c ++ r := by
    rcases opt_ok e4 with ⟨t, rfl, e⟩ | ⟨rfl, rfl⟩
    · replace e := bind_ok e
      obtain ⟨_, r', e5, e6⟩ := e
      rw [op_ok e5, bound e6]; rfl
    · rfl
  refine ⟨?_, fun _ => by simp [PSelector.ok]⟩
  rw [h1, h2, h3, h4]
  simp [PSelector.toks]

theorem pSingSeg_sound : Sound pSingSeg PSingSeg.toks (fun _ => True) := by
  intro s a r hs e
  refine ⟨?_, trivial⟩
  replace e := or_ok e
  rcases e with e | e
  · replace e := bind_ok e
    obtain ⟨_, r1, e1, e⟩ := e
    replace e := bind_ok e
    obtain ⟨x, r2, e2, e⟩ := e
    replace e := map_ok e
    obtain ⟨_, e3, rfl⟩ := e
    have h1 := op_ok e1
    subst h1
    have h2 := (pString_sound _ _ _ (fun t ht => hs t (List.mem_cons_of_mem _ ht)) e2).1
    rw [h2, op_ok e3]; rfl
  replace e := or_ok e
  rcases e with e | e
  · replace e := map_ok e
    obtain ⟨t, e, rfl⟩ := e
    exact kind_ok e
  · replace e := bind_ok e
    obtain ⟨_, r1, e1, e⟩ := e
    replace e := bind_ok e
    obtain ⟨x, r2, e2, e⟩ := e
    replace e := map_ok e
    obtain ⟨_, e3, rfl⟩ := e
    rw [op_ok e1, kind_ok e2, op_ok e3]; rfl

theorem pSing_sound (n : Nat) : Sound (pSing n) PSingQuery.toks (fun _ => True) := by
  intro s a r hs e
  refine ⟨?_, trivial⟩
  replace e := or_ok e
  rcases e with e | e
  all_goals
    replace e := bind_ok e
    obtain ⟨_, r1, e1, e⟩ := e
    replace e := map_ok e
    obtain ⟨x, e2, rfl⟩ := e
    have h1 := op_ok e1
    subst h1
    have := (pSingSeg_sound.many n _ _ _ (fun t ht => hs t (List.mem_cons_of_mem _ ht)) e2).1
    rw [this]
    rfl

theorem selsToks_eq : ∀ l, selsToks l = l.flatMap (fun s => opTok b%"," :: s.toks)
  | [] => by simp [selsToks]
  | s :: l => by simp [selsToks, selsToks_eq l]

theorem segsToks_eq : ∀ l, segsToks l = l.flatMap PSegment.toks
  | [] => by simp [segsToks]
  | s :: l => by simp [segsToks, segsToks_eq l]

theorem orsToks_eq : ∀ l, orsToks l = l.flatMap (fun s => opTok b%"||" :: s.toks)
  | [] => by simp [orsToks]
  | s :: l => by simp [orsToks, orsToks_eq l]

theorem andsToks_eq : ∀ l, andsToks l = l.flatMap (fun s => opTok b%"&&" :: s.toks)
  | [] => by simp [andsToks]
  | s :: l => by simp [andsToks, andsToks_eq l]

theorem restToks_eq : ∀ l, restToks l = l.flatMap (fun s => opTok b%"," :: s.toks)
  | [] => by simp [restToks]
  | s :: l => by simp [restToks, restToks_eq l]

theorem selsOk_iff {lg : Bool} : ∀ {l}, selsOk lg l ↔ ∀ x ∈ l, x.ok lg
  | [] => by simp [selsOk]
  | s :: l => by simp [selsOk, selsOk_iff (l := l)]

theorem segsOk_iff {lg : Bool} : ∀ {l}, segsOk lg l ↔ ∀ x ∈ l, x.ok lg
  | [] => by simp [segsOk]
  | s :: l => by simp [segsOk, segsOk_iff (l := l)]

theorem andsOk_iff {lg : Bool} : ∀ {l}, andsOk lg l ↔ ∀ x ∈ l, x.okAnd lg
  | [] => by simp [andsOk]
  | s :: l => by simp [andsOk, andsOk_iff (l := l)]

theorem basicsOk_iff {lg : Bool} : ∀ {l}, basicsOk lg l ↔ ∀ x ∈ l, x.okBasic lg
  | [] => by simp [basicsOk]
  | s :: l => by simp [basicsOk, basicsOk_iff (l := l)]

theorem argsOk_iff {lg : Bool} : ∀ {l}, argsOk lg l ↔ ∀ x ∈ l, x.ok lg
  | [] => by simp [argsOk]
  | s :: l => by simp [argsOk, argsOk_iff (l := l)]

theorem Sound.sep {α : Type} {p : Parser α} {pr : α → List Tok} {Q : α → Prop} (h : Sound p pr Q) (v : Bytes) :
    Sound ((op v).bind fun _ => p) (fun a => opTok v :: pr a) Q := by
  intro s a r hs e
  replace e := bind_ok e
  obtain ⟨_, r1, e1, e⟩ := e
  have h1 := op_ok e1
  subst h1
  obtain ⟨h2, h3⟩ := h _ _ _ (fun t ht => hs t (List.mem_cons_of_mem _ ht)) e
  exact ⟨by rw [h2]; rfl, h3⟩

theorem opText_cmpOp {t : Bytes} (h : t ∈ cmpOps) : opText (cmpOp t) = t := by
  revert t
  decide

/-- All parsers are sound for this fuel. -/
structure AllSound (n : Nat) : Prop where
  segment : Sound (pSegment n) PSegment.toks (·.ok true)
  selector : Sound (pSelector n) PSelector.toks (·.ok true)
  or : Sound (pOr n) PLogical.toks (·.okOr true)
  and : Sound (pAnd n) PLogical.toks (·.okAnd true)
  basic : Sound (pBasic n) PLogical.toks (·.okBasic true)
  query : Sound (pQueryIn n) (fun q => rootTok q.1 :: segsToks q.2) (fun q => segsOk true q.2)
  comparable : Sound (pComparable n) PComparable.toks (·.ok true)
  func : Sound (pFunc n) (fun f => ⟨.func, f.1⟩ :: (argsToks f.2 ++ [opTok b%")"])) (fun f => argsOk true f.2)
  arg : Sound (pArg n) PArg.toks (·.ok true)

theorem not_ok {s r : List Tok} {o : Option Unit} (e : (op b%"!").opt s = .ok o r) : s = notToks o.isSome ++ r := by
  replace e := opt_ok e
  rcases e with ⟨t, rfl, e⟩ | ⟨rfl, rfl⟩
  · exact op_ok e
  · rfl

theorem allSound : ∀ n, AllSound n
  | 0 => by constructor <;> (intro s a r _ e; cases e)
  | n + 1 => by
    have ih := allSound n
    have brackets : ∀ {v : Bytes} {s r : List Tok} {a : PSegment} (mk : PSelector → List PSelector → PSegment), (∀ t ∈ s, t.Fine) →
        ((op v).bind fun _ => (pSelector n).bind fun f => (many n ((op b%",").bind fun _ => pSelector n)).bind fun r =>
          (op b%"]").map fun _ => mk f r) s = .ok a r →
        ∃ f l, a = mk f l ∧ f.ok true ∧ selsOk true l ∧ s = opTok v :: (f.toks ++ (selsToks l ++ [opTok b%"]"])) ++ r := by
      intro v s r a mk hs e
      replace e := bind_ok e
      obtain ⟨_, r1, e1, e⟩ := e
      replace e := bind_ok e
      obtain ⟨f, r2, e2, e⟩ := e
      replace e := bind_ok e
      obtain ⟨l, r3, e3, e⟩ := e
      replace e := map_ok e
      obtain ⟨_, e4, rfl⟩ := e
      have h1 := op_ok e1
      subst h1
      have hs1 := fun t ht => hs t (List.mem_cons_of_mem _ ht)
      obtain ⟨h2, hf⟩ := ih.selector _ _ _ hs1 e2
      subst h2
      obtain ⟨h3, hl⟩ := (Sound.sep ih.selector b%",").many n _ _ _ (fun t ht => hs1 t (List.mem_append_right _ ht)) e3
      simp only [← selsToks_eq] at h3
      rw [op_ok e4] at h3
      refine ⟨f, l, rfl, hf, selsOk_iff.2 hl, ?_⟩
      rw [h3]
      simp
    constructor
    · intro s a r hs e
      rw [pSegment] at e
      replace e := or_ok e
      rcases e with e | e
      · obtain ⟨f, l, rfl, hf, hl, h⟩ := brackets .bracketed hs e
        exact ⟨by rw [h]; simp [PSegment.toks], by simp only [PSegment.ok]; exact ⟨hf, hl⟩⟩
      replace e := or_ok e
      rcases e with e | e
      · replace e := map_ok e
        obtain ⟨_, e, rfl⟩ := e
        exact ⟨op_ok e, by simp [PSegment.ok]⟩
      replace e := or_ok e
      rcases e with e | e
      · replace e := map_ok e
        obtain ⟨_, e, rfl⟩ := e
        exact ⟨kind_ok e, by simp [PSegment.ok]⟩
      replace e := or_ok e
      rcases e with e | e
      · obtain ⟨f, l, rfl, hf, hl, h⟩ := brackets .descBracketed hs e
        exact ⟨by rw [h]; simp [PSegment.toks], by simp only [PSegment.ok]; exact ⟨hf, hl⟩⟩
      replace e := or_ok e
      rcases e with e | e
      · replace e := map_ok e
        obtain ⟨_, e, rfl⟩ := e
        exact ⟨op_ok e, by simp [PSegment.ok]⟩
      · replace e := map_ok e
        obtain ⟨_, e, rfl⟩ := e
        exact ⟨kind_ok e, by simp [PSegment.ok]⟩
    · intro s a r hs e
      rw [pSelector] at e
      replace e := or_ok e
      rcases e with e | e
      · replace e := map_ok e
        obtain ⟨x, e, rfl⟩ := e
        exact ⟨by rw [(pString_sound _ _ _ hs e).1]; simp [PSelector.toks], by simp [PSelector.ok]⟩
      replace e := or_ok e
      rcases e with e | e
      · replace e := map_ok e
        obtain ⟨x, e, rfl⟩ := e
        exact ⟨by rw [op_ok e]; simp [PSelector.toks], by simp [PSelector.ok]⟩
      replace e := or_ok e
      rcases e with e | e
      · obtain ⟨h1, h2⟩ := pSlice_sound _ _ _ hs e
        exact ⟨h1, h2 true⟩
      replace e := or_ok e
      rcases e with e | e
      · replace e := map_ok e
        obtain ⟨x, e, rfl⟩ := e
        exact ⟨by rw [kind_ok e]; simp [PSelector.toks], by simp [PSelector.ok]⟩
      · replace e := bind_ok e
        obtain ⟨_, r1, e1, e⟩ := e
        replace e := map_ok e
        obtain ⟨x, e, rfl⟩ := e
        have h1 := op_ok e1
        subst h1
        obtain ⟨h2, h3⟩ := ih.or _ _ _ (fun t ht => hs t (List.mem_cons_of_mem _ ht)) e
        exact ⟨by rw [h2]; simp [PSelector.toks], by simpa only [PSelector.ok] using h3⟩
    · intro s a r hs e
      rw [pOr] at e
      replace e := bind_ok e
      obtain ⟨f, r2, e2, e⟩ := e
      replace e := map_ok e
      obtain ⟨l, e3, rfl⟩ := e
      obtain ⟨h2, hf⟩ := ih.and _ _ _ hs e2
      subst h2
      obtain ⟨h3, hl⟩ := (Sound.sep ih.and b%"||").many n _ _ _ (fun t ht => hs t (List.mem_append_right _ ht)) e3
      simp only [← orsToks_eq] at h3
      refine ⟨by rw [h3]; simp [PLogical.toks], ?_⟩
      simp only [PLogical.okOr]
      exact ⟨hf, andsOk_iff.2 hl⟩
    · intro s a r hs e
      rw [pAnd] at e
      replace e := bind_ok e
      obtain ⟨f, r2, e2, e⟩ := e
      replace e := map_ok e
      obtain ⟨l, e3, rfl⟩ := e
      obtain ⟨h2, hf⟩ := ih.basic _ _ _ hs e2
      subst h2
      obtain ⟨h3, hl⟩ := (Sound.sep ih.basic b%"&&").many n _ _ _ (fun t ht => hs t (List.mem_append_right _ ht)) e3
      simp only [← andsToks_eq] at h3
      refine ⟨by rw [h3]; simp [PLogical.toks], ?_⟩
      simp only [PLogical.okAnd]
      exact ⟨hf, basicsOk_iff.2 hl⟩
    · intro s a r hs e
      rw [pBasic] at e
      replace e := or_ok e
      rcases e with e | e
      · replace e := bind_ok e
        obtain ⟨o, r1, e1, e⟩ := e
        replace e := bind_ok e
        obtain ⟨_, r2, e2, e⟩ := e
        replace e := bind_ok e
        obtain ⟨x, r3, e3, e⟩ := e
        replace e := map_ok e
        obtain ⟨_, e4, rfl⟩ := e
        have h1 := not_ok e1
        subst h1
        have h2 := op_ok e2
        subst h2
        obtain ⟨h3, hx⟩ := ih.or _ _ _ (fun t ht => hs t (List.mem_append_right _ (List.mem_cons_of_mem _ ht))) e3
        rw [op_ok e4] at h3
        refine ⟨by rw [h3]; simp [PLogical.toks], ?_⟩
        simpa only [PLogical.okBasic] using hx
      replace e := or_ok e
      rcases e with e | e
      · replace e := bind_ok e
        obtain ⟨l, r1, e1, e⟩ := e
        replace e := bind_ok e
        obtain ⟨o, r2, e2, e⟩ := e
        replace e := map_ok e
        obtain ⟨x, e3, rfl⟩ := e
        obtain ⟨h1, hl⟩ := ih.comparable _ _ _ hs e1
        subst h1
        have h2 := kind_ok e2
        subst h2
        obtain ⟨h3, hx⟩ := ih.comparable _ _ _ (fun t ht => hs t (List.mem_append_right _ (List.mem_cons_of_mem _ ht))) e3
        have ho := (hs ⟨.cmp, o⟩ (List.mem_append_right _ (List.mem_cons_self ..))).1 rfl
        refine ⟨by rw [h3]; simp [PLogical.toks, opText_cmpOp ho], ?_⟩
        simp only [PLogical.okBasic]
        exact ⟨hl, hx⟩
      · replace e := bind_ok e
        obtain ⟨o, r1, e1, e⟩ := e
        have h1 := not_ok e1
        subst h1
        have hs' := fun t ht => hs t (List.mem_append_right _ ht)
        replace e := or_ok e
        rcases e with e | e
        · replace e := map_ok e
          obtain ⟨q, e, rfl⟩ := e
          obtain ⟨h, hq⟩ := ih.query _ _ _ hs' e
          exact ⟨by rw [h]; simp [PLogical.toks], by simpa only [PLogical.okBasic] using hq⟩
        · replace e := map_ok e
          obtain ⟨q, e, rfl⟩ := e
          obtain ⟨h, hq⟩ := ih.func _ _ _ hs' e
          exact ⟨by rw [h]; simp [PLogical.toks], by simpa only [PLogical.okBasic] using hq⟩
    · intro s a r hs e
      rw [pQueryIn] at e
      replace e := or_ok e
      rcases e with e | e
      all_goals
        replace e := bind_ok e
        obtain ⟨_, r1, e1, e⟩ := e
        replace e := map_ok e
        obtain ⟨x, e2, rfl⟩ := e
        have h1 := op_ok e1
        subst h1
        obtain ⟨h, hl⟩ := ih.segment.many n _ _ _ (fun t ht => hs t (List.mem_cons_of_mem _ ht)) e2
        simp only [← segsToks_eq] at h
        exact ⟨by rw [h]; simp [rootTok], segsOk_iff.2 hl⟩
    · intro s a r hs e
      rw [pComparable] at e
      replace e := or_ok e
      rcases e with e | e
      · replace e := map_ok e
        obtain ⟨x, e, rfl⟩ := e
        exact ⟨by rw [(pLiteral_sound _ _ _ hs e).1]; simp [PComparable.toks], by simp [PComparable.ok]⟩
      replace e := or_ok e
      rcases e with e | e
      · replace e := map_ok e
        obtain ⟨x, e, rfl⟩ := e
        exact ⟨by rw [(pSing_sound n _ _ _ hs e).1]; simp [PComparable.toks], by simp [PComparable.ok]⟩
      · replace e := map_ok e
        obtain ⟨x, e, rfl⟩ := e
        obtain ⟨h, hq⟩ := ih.func _ _ _ hs e
        exact ⟨by rw [h]; simp [PComparable.toks], by simpa only [PComparable.ok] using hq⟩
    · intro s a r hs e
      rw [pFunc] at e
      replace e := bind_ok e
      obtain ⟨f, r1, e1, e⟩ := e
      replace e := bind_ok e
      obtain ⟨o, r2, e2, e⟩ := e
      replace e := map_ok e
      obtain ⟨_, e3, rfl⟩ := e
      have h1 := kind_ok e1
      subst h1
      have hs' := fun t ht => hs t (List.mem_cons_of_mem _ ht)
      have h3 := op_ok e3
      rcases opt_ok e2 with ⟨l, rfl, e⟩ | ⟨rfl, rfl⟩
      · replace e := bind_ok e
        obtain ⟨x, r4, e4, e⟩ := e
        replace e := map_ok e
        obtain ⟨l, e5, rfl⟩ := e
        obtain ⟨h4, hx⟩ := ih.arg _ _ _ hs' e4
        subst h4
        obtain ⟨h5, hl⟩ := (Sound.sep ih.arg b%",").many n _ _ _ (fun t ht => hs' t (List.mem_append_right _ ht)) e5
        simp only [← restToks_eq] at h5
        refine ⟨by rw [h5, h3]; simp [argsToks], argsOk_iff.2 fun y hy => ?_⟩
        rcases List.mem_cons.1 hy with rfl | hy
        · exact hx
        · exact hl y hy
      · exact ⟨by rw [h3]; simp [argsToks], by simp [argsOk]⟩
    · intro s a r hs e
      rw [pArg] at e
      replace e := or_ok e
      rcases e with e | e
      · replace e := map_ok e
        obtain ⟨x, e, rfl⟩ := e
        exact ⟨by rw [(pLiteral_sound _ _ _ hs e).1]; simp [PArg.toks], by simp [PArg.ok]⟩
      replace e := or_ok e
      rcases e with e | e
      · replace e := map_ok e
        obtain ⟨x, e, rfl⟩ := e
        obtain ⟨h, hq⟩ := ih.query _ _ _ hs e
        exact ⟨by rw [h]; simp [PArg.toks], by simpa only [PArg.ok] using hq⟩
      replace e := or_ok e
      rcases e with e | e
      · replace e := map_ok e
        obtain ⟨x, e, rfl⟩ := e
        obtain ⟨h, hq⟩ := ih.func _ _ _ hs e
        exact ⟨by rw [h]; simp [PArg.toks], by simpa only [PArg.ok] using hq⟩
      · replace e := map_ok e
        obtain ⟨x, e, rfl⟩ := e
        obtain ⟨h, hq⟩ := ih.or _ _ _ hs e
        exact ⟨by rw [h]; simp [PArg.toks], by simp only [PArg.ok]; exact ⟨trivial, hq⟩⟩

/-- The segments of a query that was parsed are spelled by the tokens. -/
theorem pQuery_sound {n : Nat} {s r : List Tok} {l : List PSegment} (hs : ∀ t ∈ s, t.Fine) (h : pQuery n s = .ok l r) :
    s = opTok b%"$" :: (segsToks l ++ r) ∧ segsOk true l := by
  obtain ⟨_, r1, e1, e2⟩ := bind_ok h
  have h1 := op_ok e1
  subst h1
  obtain ⟨h, hl⟩ := (allSound n).segment.many n _ _ _ (fun t ht => hs t (List.mem_cons_of_mem _ ht)) e2
  simp only [← segsToks_eq] at h
  exact ⟨by rw [h], segsOk_iff.2 hl⟩

end Verif.JPath
