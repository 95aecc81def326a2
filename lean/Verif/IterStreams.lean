import Verif.StreamsLemmas
import Verif.IterHeap
import Verif.IterSpec

/-!
# Reading values from streams

The channel is treated as stream 0 like the others; and the loops of `Discard` and `Copy` read exactly
the rest of a value.
-/

set_option linter.unusedSimpArgs false

namespace Verif
namespace Streams

theorem SV.congr {s view view' rest lt dat} (h : SV s view rest lt dat)
    (hv : ∀ t, 0 < t → t < s.nt → view' t = view t) : SV s view' rest lt dat := by
  obtain ⟨ap, h1, h2, h3, h4⟩ := h
  exact ⟨ap, h1, fun t h0 ht => by rw [hv t h0 ht, h2 t h0 ht], h3, h4⟩

theorem SV.avail {s view rest lt dat t l} (h : SV s view rest lt dat) (h0 : 0 < t) (h1 : t < s.nt)
    (hv : view t = some l) : l.length ≤ s.src.length + (s.pool (s.curs t).1).window.length := by
  obtain ⟨ap, hi, hvw, hlt, hd⟩ := h
  have hviewt := hvw t h0 h1
  rw [hviewt] at hv
  obtain ⟨hp, hc⟩ := hi.curs t h0 h1
  simp only [viewOf, Option.map_eq_some_iff] at hv
  obtain ⟨n, hn, rfl⟩ := hv
  have hinv := hi.inv _ hp
  have hw := hinv.window
  have hlo := hinv.lo _ _ hn
  have hwf := hinv.wfr
  have hwp := hinv.wpos
  have hfr := hinv.fr
  have hpw : (s.pool (s.curs t).1).window = (s.pools (s.curs t).1).window := by
    simp only [pool]; split <;> rfl
  simp only at hw hlo hwf hwp hfr
  have hwl : (s.pools (s.curs t).1).window.length =
      (ap (s.curs t).1).frontier - (s.pools (s.curs t).1).windowPos.toNat := by
    rw [hw]; simp [Nat.min_eq_left hfr]
  rw [hpw, hwl, List.length_drop]
  by_cases hl : (lt.map fun t => (s.curs t).1) = some (s.curs t).1
  · have hs := hi.src
    rw [hl] at hs
    have : s.src.length ≥ (ap (s.curs t).1).all.length - (ap (s.curs t).1).frontier := by
      rw [hs]; simp [lentRem]
    omega
  · have := hi.exh _ hp hl
    omega

/-- Like `SV`, with the channel as stream 0. -/
def SW (s : Streams) (view : Nat → Option (List Token)) (lt : Option Nat) (dat : Nat → Bool) : Prop :=
  0 < s.nt ∧ ∃ rest, view 0 = some rest ∧ SV s view rest lt dat

theorem SV.nt_pos {s view rest lt dat} (h : SV s view rest lt dat) : 0 < s.nt := by
  obtain ⟨_, h, _⟩ := h
  exact h.nt

theorem sw_init (ts : List Token) (dat) : SW (init ts) (fun _ => some ts) none dat :=
  ⟨by simp [init], ts, rfl, sv_init ts _ dat⟩

theorem SW.avail {s view lt dat t l} (h : SW s view lt dat) (h1 : t < s.nt)
    (hv : view t = some l) : l.length ≤ s.src.length + (s.pool (s.curs t).1).window.length := by
  obtain ⟨_, rest, hr, h⟩ := h
  rcases Nat.eq_zero_or_pos t with rfl | h0
  · rw [hr] at hv
    simp at hv; subst hv
    obtain ⟨ap, hi, _⟩ := h
    have := congrArg List.length hi.src
    simp at this
    omega
  · exact h.avail h0 h1 hv

theorem SW.release {s view t dat} (h : SW s view (some t) dat) (hv : view t = some []) :
    SW s view none dat := by
  obtain ⟨hn, rest, hr, h⟩ := h
  exact ⟨hn, rest, hr, h.release hv⟩

theorem SW.next {s view lt dat t x l} (h : SW s view lt dat) (h1 : t < s.nt)
    (hv : view t = some (x :: l)) (hl : t = 0 → lt = none) :
    ∃ s', s.next t = some (s', some x) ∧ SW s' (upd view t (some l)) lt dat ∧ s'.nt = s.nt := by
  obtain ⟨hn, rest, hr, h⟩ := h
  rcases Nat.eq_zero_or_pos t with rfl | h0
  · rw [hr] at hv
    simp at hv; subst hv
    have := hl rfl; subst this
    obtain ⟨s', e1, e2, e3⟩ := h.next_chan
    refine ⟨s', e1, ⟨by omega, l, by simp, e2.congr ?_⟩, e3⟩
    intro t h0 _
    rw [upd_ne _ _ (by omega)]
  · obtain ⟨s', e1, e2, e3⟩ := h.next_cur h0 h1 hv
    exact ⟨s', e1, ⟨by omega, rest, by rw [upd_ne _ _ (by omega), hr], e2⟩, e3⟩

theorem SW.next_nil {s view lt dat t} (h : SW s view lt dat) (h1 : t < s.nt)
    (hv : view t = some []) (hl : t = 0 → lt = none) (hd : t ≠ 0 → dat t = true) :
    ∃ s', s.next t = some (s', none) ∧ SW s' (if t = 0 then view else upd view t none) lt dat ∧
      s'.nt = s.nt := by
  obtain ⟨hn, rest, hr, h⟩ := h
  rcases Nat.eq_zero_or_pos t with rfl | h0
  · rw [hr] at hv
    simp at hv; subst hv
    have := hl rfl; subst this
    exact ⟨s, h.next_chan_nil, by simpa using ⟨hn, [], hr, h⟩, rfl⟩
  · obtain ⟨s', e1, e2, e3⟩ := h.next_data_nil h0 h1 (hd (by omega)) hv
    rw [if_neg (by omega)]
    exact ⟨s', e1, ⟨by omega, rest, by rw [upd_ne _ _ (by omega), hr], e2⟩, e3⟩

theorem SW.pos_of_none {s view lt dat t} (h : SW s view lt dat) (hv : view t = none) : 0 < t := by
  obtain ⟨hn, rest, hr, h⟩ := h
  rcases Nat.eq_zero_or_pos t with rfl | h0
  · rw [hr] at hv; cases hv
  · exact h0

theorem SW.next_dead {s view lt dat t} (h : SW s view lt dat) (h1 : t < s.nt)
    (hv : view t = none) :
    ∃ s', s.next t = some (s', none) ∧ SW s' view lt dat ∧ s'.nt = s.nt := by
  have h0 := h.pos_of_none hv
  obtain ⟨hn, rest, hr, h⟩ := h
  obtain ⟨s', e1, e2, e3⟩ := h.next_dead h0 h1 hv
  exact ⟨s', e1, ⟨by omega, rest, hr, e2⟩, e3⟩

theorem SW.detach {s view lt dat t} (h : SW s view lt dat) (h0 : 0 < t) (h1 : t < s.nt) :
    ∃ s', s.detach t = some s' ∧ SW s' (upd view t none) lt dat ∧ s'.nt = s.nt := by
  obtain ⟨hn, rest, hr, h⟩ := h
  obtain ⟨s', e1, e2, e3⟩ := h.detach h0 h1
  exact ⟨s', e1, ⟨by omega, rest, by rw [upd_ne _ _ (by omega), hr], e2⟩, e3⟩

theorem SW.clone_dead {s view lt dat t} (h : SW s view lt dat) (h1 : t < s.nt)
    (hv : view t = none) : s.clone t = (s, t, t) := by
  have h0 := h.pos_of_none hv
  obtain ⟨hn, rest, hr, h⟩ := h
  exact h.clone_dead h0 h1 hv

theorem SW.clone_cur {s view lt dat t l} (h : SW s view lt dat) (h0 : 0 < t) (h1 : t < s.nt)
    (hv : view t = some l) :
    ∃ s', s.clone t = (s', t, s.nt) ∧
      SW s' (upd view s.nt (some l)) lt (upd dat s.nt (dat t)) ∧ s'.nt = s.nt + 1 := by
  obtain ⟨hn, rest, hr, h⟩ := h
  obtain ⟨s', e1, e2, e3⟩ := h.clone_cur h0 h1 hv
  exact ⟨s', e1, ⟨by omega, rest, by rw [upd_ne _ _ (by omega), hr], e2⟩, e3⟩

theorem SW.clone_chan {s view X rest dat} (h : SW s view none dat) (hv : view 0 = some (X ++ rest)) :
    ∃ s', s.clone 0 = (s', s.nt, s.nt + 1) ∧
      SW s' (upd (upd (upd view 0 (some rest)) s.nt (some X)) (s.nt + 1) (some X)) (some s.nt)
        (upd (upd dat s.nt false) (s.nt + 1) false) ∧ s'.nt = s.nt + 2 := by
  obtain ⟨hn, rest', hr, h⟩ := h
  rw [hr] at hv
  simp at hv; subst hv
  obtain ⟨s', e1, e2, e3⟩ := h.clone_chan
  refine ⟨s', e1, ⟨by omega, rest, ?_, e2.congr ?_⟩, e3⟩
  · rw [upd_ne _ _ (by omega), upd_ne _ _ (by omega), upd_same]
  · intro t h0 h1
    simp only [upd]
    by_cases ht : t = 0
    · omega
    · simp [ht]

theorem SW.clone_chan_nil {s view lt dat} (h : SW s view lt dat) :
    ∃ s', s.clone 0 = (s', s.nt, s.nt + 1) ∧
      SW s' (upd (upd view s.nt (some [])) (s.nt + 1) (some [])) lt
        (upd (upd dat s.nt false) (s.nt + 1) false) ∧ s'.nt = s.nt + 2 := by
  obtain ⟨hn, rest, hr, h⟩ := h
  obtain ⟨s', e1, e2, e3⟩ := h.clone_chan_nil
  refine ⟨s', e1, ⟨by omega, rest, ?_, e2⟩, e3⟩
  rw [upd_ne _ _ (by omega), upd_ne _ _ (by omega), hr]

theorem SW.fromData {s view lt dat} (h : SW s view lt dat) (ts : List Token) :
    ∃ s', s.fromData ts = (s', s.nt) ∧
      SW s' (upd view s.nt (some ts)) lt (upd dat s.nt true) ∧ s'.nt = s.nt + 1 := by
  obtain ⟨hn, rest, hr, h⟩ := h
  obtain ⟨e1, e2, e3⟩ := h.fromData ts
  refine ⟨(s.fromData ts).1, Prod.ext rfl e1, ⟨by omega, rest, ?_, e2⟩, e3⟩
  rw [upd_ne _ _ (by omega), hr]

end Streams

open Streams Heap JVal.toks

/-- A token list ends with the token at which the loops of `Discard` and `Copy` stop. -/
def Closes : Int → List Token → Prop
  | _, [] => False
  | d, x :: l => if depthAfter d x < 0 then l = [] else Closes (depthAfter d x) l

theorem closes_toks (v : JVal) : ∀ (d : Int) (l : List Token), 0 ≤ d →
    (Closes d (v.toks ++ l) ↔ Closes d l) := by
  have hel : ∀ (e : Bool) (d : Int) (l : List Token), 0 ≤ d →
      (Closes d (elisionToks e ++ l) ↔ Closes d l) := by
    intro e d l hd
    cases e
    · simp [elisionToks]
    · simp [elisionToks, Closes, depthAfter, Token.isStart, Token.isEnd]
      omega
  induction v using JVal.induct with
  | scalar k =>
    intro d l hd
    simp [Closes, depthAfter, Token.isStart, Token.isEnd]
    omega
  | arr items e ih =>
    intro d l hd
    have hit : ∀ (is : List JVal), (∀ v ∈ is, v ∈ items) → ∀ l,
        (Closes (d + 1) (itemToks is ++ l) ↔ Closes (d + 1) l) := by
      intro is
      induction is with
      | nil => simp
      | cons v is ihl =>
        intro hl l
        rw [itemToks_cons, List.append_assoc, ih v (hl v (by simp)) _ _ (by omega)]
        exact ihl (fun w hw => hl w (by simp [hw])) l
    simp only [toks_arr, List.cons_append, List.append_assoc, Closes, depthAfter, Token.isStart]
    rw [if_neg (by simp; omega)]
    simp only [if_true]
    rw [hit items (fun _ h => h), hel _ _ _ (by omega)]
    simp only [List.nil_append, Closes, depthAfter, Token.isStart, Token.isEnd]
    simp
    intro; omega
  | obj ms e ih =>
    intro d l hd
    have hit : ∀ (is : List (Scalar × JVal)), (∀ v ∈ is, v ∈ ms) → ∀ l,
        (Closes (d + 1) (memberToks is ++ l) ↔ Closes (d + 1) l) := by
      intro is
      induction is with
      | nil => simp
      | cons m is ihl =>
        obtain ⟨k, v⟩ := m
        intro hl l
        rw [memberToks_cons, List.cons_append, List.append_assoc, Closes]
        simp only [depthAfter, Token.isStart, Token.isEnd]
        simp only [Bool.false_eq_true, if_false, show ¬ d + 1 < 0 by omega]
        rw [ih (k, v) (hl (k, v) (by simp)) _ _ (by omega)]
        exact ihl (fun w hw => hl w (by simp [hw])) l
    simp only [toks_obj, List.cons_append, List.append_assoc, Closes, depthAfter, Token.isStart]
    rw [if_neg (by simp; omega)]
    simp only [if_true]
    rw [hit ms (fun _ h => h), hel _ _ _ (by omega)]
    simp only [List.nil_append, Closes, depthAfter, Token.isStart, Token.isEnd]
    simp
    intro; omega

theorem closes_body (ms : List (Option Scalar × JVal)) (e : Bool) (k : Kind) (hk : k ≠ .top) :
    Closes 0 (bodyToks ms ++ elisionToks e ++ endToks k) := by
  induction ms with
  | nil =>
    cases k
    · cases e <;> simp [bodyToks, elisionToks, endToks, Closes, depthAfter, Token.isStart, Token.isEnd]
    · cases e <;> simp [bodyToks, elisionToks, endToks, Closes, depthAfter, Token.isStart, Token.isEnd]
    · exact absurd rfl hk
  | cons m ms ih =>
    obtain ⟨key, v⟩ := m
    cases key with
    | none =>
      simp only [bodyToks, List.append_assoc] at ih ⊢
      rw [closes_toks _ _ _ (by omega)]
      exact ih
    | some key =>
      simp only [bodyToks, List.append_assoc, List.cons_append, Closes, depthAfter, Token.isStart,
        Token.isEnd] at ih ⊢
      simp only [Bool.false_eq_true, if_false, show ¬ (0 : Int) < 0 by omega]
      rw [closes_toks _ _ _ (by omega)]
      exact ih

/-- The loops read up to and including the closing token. -/
theorem readToEnd_spec {t : Nat} {lt dat R} (hl : t = 0 → lt = none) :
    ∀ (L : List Token) (d : Int) (f : Nat) (h : Heap) (view),
      SW h.st view lt dat → t < h.st.nt → view t = some (L ++ R) → Closes d L → L.length < f →
      ∃ st', readToEnd f h t d = .ok ({ h with st := st' }, L) ∧
        SW st' (upd view t (some R)) lt dat ∧ st'.nt = h.st.nt := by
  intro L
  induction L with
  | nil => intro d f h view _ _ _ hc; simp [Closes] at hc
  | cons x L ih =>
    intro d f h view hs ht hv hc hf
    cases f with
    | zero => omega
    | succ f =>
      obtain ⟨s', e1, e2, e3⟩ := hs.next ht (by simpa using hv) hl
      simp only [readToEnd, Heap.next, e1]
      simp only [Closes] at hc
      by_cases hd : depthAfter d x < 0
      · rw [if_pos hd] at hc
        subst hc
        refine ⟨s', ?_, by simpa using e2, e3⟩
        simp [bind, Except.bind, hd]
      · rw [if_neg hd] at hc
        obtain ⟨st', r1, r2, r3⟩ := ih (depthAfter d x) f { h with st := s' } _ e2 (by simp only; omega)
          (by simp) hc (by simp at hf; omega)
        refine ⟨st', ?_, ?_, by rw [r3]; exact e3⟩
        · simp [bind, Except.bind, hd, r1]
        · have : upd (upd view t (some (L ++ R))) t (some R) = upd view t (some R) := by
            funext u; simp only [upd]; split <;> rfl
          rw [← this]; exact r2

/-- On a detached stream they read nothing. -/
theorem readToEnd_dead {t : Nat} {lt dat view} {h : Heap} (f : Nat) (d : Int)
    (hs : SW h.st view lt dat) (ht : t < h.st.nt) (hv : view t = none) :
    ∃ st', readToEnd (f + 1) h t d = .ok ({ h with st := st' }, []) ∧
      SW st' view lt dat ∧ st'.nt = h.st.nt := by
  obtain ⟨s', e1, e2, e3⟩ := hs.next_dead ht hv
  refine ⟨s', ?_, e2, e3⟩
  simp [readToEnd, Heap.next, e1, bind, Except.bind]

end Verif
