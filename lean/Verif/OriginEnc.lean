import Verif.Origin
import Verif.JpvEncoder
import Verif.EncTrunc

/-!
# What the encoders print

Layout, and the bytes of scalars that they have read.
-/

set_option linter.unusedSimpArgs false
set_option linter.unusedVariables false

namespace Verif.Origin
open IProg

/-- A call to the printer is about layout (of which `F` says what bytes it may be), or it prints a scalar with property `P`. -/
def Printed (F : Bytes → Prop) (P : Token → Prop) : POp → Prop
  | .bytes b => F b ∨ ∃ s, P (.scalar s) ∧ b = s.bytes
  | _ => True

/-- The bytes of layout of the JSON encoder. -/
def jsonLayout : List Bytes := [b%"...", b%"{", b%"}", b%"[", b%"]", b%",", b%", ", b%": "]

/-- Codes of colours. -/
def Codes (c : Option Colorizer) (b : Bytes) : Prop := ∃ k, c = some k ∧ (b = k.keyCode ∨ b = k.resetCode ∨ ∃ t, b = k.codes t)

/-- What the JSON encoder prints that is not a scalar. -/
def JsonFix (c : Option Colorizer) (b : Bytes) : Prop := b ∈ jsonLayout ∨ Codes c b

variable {P : Token → Prop} {F : Bytes → Prop}

theorem printScalar_ok {c : Option Colorizer} {s : Scalar} (hF : ∀ b, Codes c b → F b) (hs : P (.scalar s)) : ∀ o ∈ printScalar c s, Printed F P o := by
  intro o ho
  cases c with
  | none =>
    simp only [printScalar, List.mem_singleton] at ho
    subst ho
    exact .inr ⟨s, hs, rfl⟩
  | some c =>
    simp only [printScalar, List.mem_cons, List.not_mem_nil, or_false] at ho
    rcases ho with rfl | rfl | rfl
    · refine .inl (hF _ ⟨c, rfl, ?_⟩)
      unfold Colorizer.code
      split
      · exact .inl rfl
      · exact .inr (.inr ⟨_, rfl⟩)
    · exact .inr ⟨s, hs, rfl⟩
    · exact .inl (hF _ ⟨c, rfl, .inr (.inl rfl)⟩)

namespace Json
open Enc

variable {c : Option Colorizer}

theorem codes (b : Bytes) (h : Codes c b) : JsonFix c b := .inr h

/-- Layout. -/
theorem lay {l : List POp} (h : ∀ o ∈ l, o ∈ [elisionOp, openObj, closeObj, openArr, closeArr, itemSep, compactSep, keySep, .newLine, .indent, .dedent, .reset]) :
    ∀ o ∈ l, Printed (JsonFix c) P o := by
  intro o ho
  have := h o ho
  simp only [List.mem_cons, List.not_mem_nil, or_false] at this
  rcases this with rfl | rfl | rfl | rfl | rfl | rfl | rfl | rfl | rfl | rfl | rfl | rfl <;>
    first | exact trivial | exact .inl (.inl (by decide))

theorem writeKey_says {key : Option Scalar} (hk : ∀ k, key = some k → P (.scalar k)) :
    Says P (Printed (JsonFix c) P) (writeKey c key) fun _ => True := by
  unfold writeKey
  split
  · exact .fail
  · refine .putAll fun o ho => ?_
    rcases List.mem_append.1 ho with ho | ho
    · exact printScalar_ok codes (hk _ rfl) o ho
    · exact lay (by simp) o ho

/-- `writeValue` prints layout and scalars. -/
def WvOk (P : Token → Prop) (c : Option Colorizer) (wv : Val → IProg POp Unit) : Prop :=
  ∀ x, ValOk P x → Says P (Printed (JsonFix c) P) (wv x) fun _ => True

variable {wv : Val → IProg POp Unit}

theorem layP {l : List POp} (h : ∀ o ∈ l, o ∈ [elisionOp, openObj, closeObj, openArr, closeArr, itemSep, compactSep, keySep, .newLine, .indent, .dedent, .reset]) :
    Says P (Printed (JsonFix c) P) (putAll l) fun _ => True := .putAll (lay h)

theorem lay1 {o : POp} (h : o ∈ [elisionOp, openObj, closeObj, openArr, closeArr, itemSep, compactSep, keySep, .newLine, .indent, .dedent, .reset]) :
    Says P (Printed (JsonFix c) P) (put o) fun _ => True := .put (lay (l := [o]) (by simpa using h) o (by simp))

theorem writeObject_says (hw : WvOk P c wv) (f i : Nat) : Says P (Printed (JsonFix c) P) (writeObject c wv f i) fun _ => True := by
  unfold writeObject
  refine (lay1 (by simp)).next fun _ => Says.next ?_ fun first => .elided fun e =>
    (layP (by split <;> (try split) <;> simp)).next fun _ => (layP (by split <;> simp)).next fun _ => lay1 (by simp)
  exact forEach_key (T := fun _ => True) (fun b k x _ hk hx => (layP (by split <;> simp)).next fun _ => (writeKey_says hk).next fun _ =>
    (hw x hx).next fun _ => .ret trivial) _ _ _ trivial

/-- Pending members. -/
def PendOk (P : Token → Prop) (l : List (Scalar × Val)) : Prop := ∀ p ∈ l, P (.scalar p.1) ∧ ValOk P p.2

theorem PendOk.push {l : List (Scalar × Val)} {k : Scalar} {x : Val} (h : PendOk P l) (hk : P (.scalar k)) (hx : ValOk P x) : PendOk P (l ++ [(k, x)]) := by
  intro p hp
  simp only [List.mem_append, List.mem_singleton] at hp
  rcases hp with hp | rfl
  · exact h p hp
  · exact ⟨hk, hx⟩

theorem pendingLoop_says {E : POp → Prop} (cfg : EncCfg) (i : Nat) : ∀ f {l : List (Scalar × Val)} {w : Int}, PendOk P l →
    Says P E (pendingLoop cfg i f l w) fun r => PendOk P r.2
  | 0, _, _, _ => .fail
  | f + 1, l, w, hl => by
    rw [pendingLoop]
    refine .adv fun more => ?_
    split
    · refine .curKey fun kv hkv hk => ?_
      split
      · rename_i key s
        have := hl.push (hk key rfl) (hkv _ rfl)
        simp only
        split
        · exact pendingLoop_says cfg i f this
        · exact .ret this
      · rename_i key k j
        exact .ret (hl.push (hk key rfl) (hkv _ rfl))
      · exact .fail
    · exact .ret hl

theorem writePending_says (hw : WvOk P c wv) {sep : List POp}
    (hs : ∀ o ∈ sep, o ∈ [elisionOp, openObj, closeObj, openArr, closeArr, itemSep, compactSep, keySep, .newLine, .indent, .dedent, .reset]) :
    ∀ {first : Bool} {l : List (Scalar × Val)}, PendOk P l → Says P (Printed (JsonFix c) P) (writePending c wv sep first l) fun _ => True
  | _, [], _ => by rw [writePending]; exact .ret trivial
  | first, (key, x) :: l, hl => by
    rw [writePending]
    have hx := hl (key, x) (by simp)
    refine (Says.putAll fun o ho => ?_).next fun _ => (hw x hx.2).next fun _ => writePending_says hw hs fun p hp => hl p (List.mem_cons_of_mem _ hp)
    rcases List.mem_append.1 ho with ho | ho
    · refine lay (l := sep) hs o ?_
      split at ho
      · cases ho
      · exact ho
    · rcases List.mem_append.1 ho with ho | ho
      · exact printScalar_ok codes hx.1 o ho
      · exact lay (by simp) o ho

theorem writeObjectCompact_says (cfg : EncCfg) (hw : WvOk P cfg.color wv) (f i : Nat) :
    Says P (Printed (JsonFix cfg.color) P) (writeObjectCompact cfg wv f i) fun _ => True := by
  unfold writeObjectCompact
  refine (pendingLoop_says cfg i f (l := []) (fun _ h => by cases h)).bind ?_
  rintro ⟨compact, pending⟩ hp
  refine (lay1 (by simp)).next fun _ => Says.next ?_ fun _ => lay1 (by simp)
  split
  · exact (writePending_says hw (by simp) hp).next fun _ => .elided fun e => layP (by split <;> simp)
  · refine (lay1 (by simp)).next fun _ => (writePending_says hw (by simp) hp).next fun _ => Says.next ?_ fun _ => .elided fun e =>
      (layP (by split <;> simp)).next fun _ => lay1 (by simp)
    exact forEach_key (T := fun _ => True) (fun b k x _ hk hx => (layP (by simp)).next fun _ => (writeKey_says hk).next fun _ =>
      (hw x hx).next fun _ => .ret trivial) _ _ _ trivial

theorem writeArray_says (hw : WvOk P c wv) (f i : Nat) : Says P (Printed (JsonFix c) P) (writeArray wv f i) fun _ => True := by
  unfold writeArray
  refine (lay1 (by simp)).next fun _ => Says.next ?_ fun first => .elided fun e =>
    (layP (by split <;> (try split) <;> simp)).next fun _ => (layP (by split <;> simp)).next fun _ => lay1 (by simp)
  exact forEach_key (T := fun _ => True) (fun b k x _ hk hx => (layP (by split <;> simp)).next fun _ =>
    (hw x hx).next fun _ => .ret trivial) _ _ _ trivial

theorem writeItems_says (hw : WvOk P c wv) : ∀ {first : Bool} {l : List Scalar}, (∀ s ∈ l, P (.scalar s)) →
    Says P (Printed (JsonFix c) P) (writeItems wv first l) fun _ => True
  | _, [], _ => by rw [writeItems]; exact .ret trivial
  | first, s :: l, hl => by
    rw [writeItems]
    exact (layP (by split <;> simp)).next fun _ => (hw (.scalar s) (hl s (by simp))).next fun _ => writeItems_says hw fun p hp => hl p (List.mem_cons_of_mem _ hp)

theorem arrayCompactStep_says (cfg : EncCfg) (hw : WvOk P cfg.color wv) {st : ACState} {x : Val} (hs : ∀ s ∈ st.items, P (.scalar s)) (hx : ValOk P x) :
    Says P (Printed (JsonFix cfg.color) P) (arrayCompactStep cfg wv st x) fun st => ∀ s ∈ st.items, P (.scalar s) := by
  unfold arrayCompactStep
  simp only
  split
  · rename_i s
    have hs1 : P (.scalar s) := hx
    split
    · refine .ret fun t ht => ?_
      simp only [List.mem_append, List.mem_singleton] at ht
      rcases ht with ht | rfl
      · exact hs t ht
      · exact hs1
    · refine (layP (by split <;> simp)).next fun _ => ?_
      split
      · exact (hw _ hx).next fun _ => .ret (by simp)
      · refine (writeItems_says hw hs).next fun _ => ?_
        split
        · exact .ret (by simpa using hs1)
        · exact (layP (by simp)).next fun _ => (hw _ hx).next fun _ => .ret (by simp)
  · refine (layP (by split <;> simp)).next fun _ => ?_
    split
    · exact (hw _ hx).next fun _ => .ret (by simp)
    · exact (writeItems_says hw hs).next fun _ => (layP (by simp)).next fun _ => (hw _ hx).next fun _ => .ret (by simp)

theorem writeArrayCompact_says (cfg : EncCfg) (hw : WvOk P cfg.color wv) (f i : Nat) :
    Says P (Printed (JsonFix cfg.color) P) (writeArrayCompact cfg wv f i) fun _ => True := by
  unfold writeArrayCompact
  refine (lay1 (by simp)).next fun _ => Says.bind (Q := fun st => ∀ s ∈ st.items, P (.scalar s)) ?_ fun st hst => Says.next ?_ fun _ => .elided fun e =>
    (layP (by split <;> (try split) <;> simp)).next fun _ => (layP (by split <;> simp)).next fun _ => lay1 (by simp)
  · exact forEach_key (fun st k x hs _ hx => arrayCompactStep_says cfg hw hs hx) _ _ _ (by simp)
  · split
    · exact .ret trivial
    · exact (layP (by split <;> simp)).next fun _ => writeItems_says hw hst

theorem writeValue_says (cfg : EncCfg) : ∀ f, WvOk P cfg.color (writeValue cfg f)
  | 0, _, _ => .fail
  | f + 1, x, hx => by
    have ih : WvOk P cfg.color (writeValue cfg f) := writeValue_says cfg f
    rw [writeValue.eq_def]
    simp only
    split
    · exact .putAll (printScalar_ok codes hx)
    · split
      · exact writeObjectCompact_says cfg ih _ _
      · exact writeObject_says ih _ _
    · split
      · exact writeArrayCompact_says cfg ih _ _
      · exact writeArray_says ih _ _
    · exact .fail

theorem consume_says (cfg : EncCfg) (f : Nat) : Says P (Printed (JsonFix cfg.color) P) (consume cfg f) fun _ => True := by
  unfold consume
  exact forEach_says (T := fun _ => True) (fun _ k x _ hx => (writeValue_says cfg f x hx).next fun _ => lay1 (by simp)) _ _ _ trivial

end Json

namespace JpvOut
open JEnc

variable {c : Option Colorizer}

/-- The bytes of layout of the JPV encoder. -/
def jpvLayout : List Bytes := [b%".", b%"[", b%"]", b%"$", b%" = ", b%"...", b%"{}", b%"{...}", b%"[]", b%"[...]"]

/-- What the JPV encoder prints that is not a whole scalar of the input: layout, indices, and keys without their quotes. -/
def JpvFix (P : Token → Prop) (c : Option Colorizer) (b : Bytes) : Prop :=
  b ∈ jpvLayout ∨ Codes c b ∨ (∃ n, b = itoa n) ∨ ∃ s, P (.scalar s) ∧ s.alnum = true ∧ b = (s.bytes.drop 1).dropLast

theorem codes (b : Bytes) (h : Codes c b) : JpvFix P c b := .inr (.inl h)

theorem lay1 {b : Bytes} (h : b ∈ jpvLayout) : Says P (Printed (JpvFix P c) P) (put (.bytes b)) fun _ => True := .put (.inl (.inl h))

theorem nl : Says P (Printed (JpvFix P c) P) (put .newLine) fun _ => True := .put trivial

theorem print_fix {s : Scalar} (h : JpvFix P c s.bytes) : ∀ o ∈ printScalar c s, Printed (JpvFix P c) P o := by
  intro o ho
  cases c with
  | none =>
    simp only [printScalar, List.mem_singleton] at ho
    subst ho
    exact .inl h
  | some c =>
    simp only [printScalar, List.mem_cons, List.not_mem_nil, or_false] at ho
    rcases ho with rfl | rfl | rfl
    · refine .inl (codes _ ⟨c, rfl, ?_⟩)
      unfold Colorizer.code
      split
      · exact .inl rfl
      · exact .inr (.inr ⟨_, rfl⟩)
    · exact .inl h
    · exact .inl (codes _ ⟨c, rfl, .inr (.inl rfl)⟩)

/-- Elements of paths. -/
def ElemOk (P : Token → Prop) (k : Scalar) : Prop := P (.scalar k) ∨ ∃ n, k = indexKey n

theorem writeElem_says (cfg : JEncCfg) {k : Scalar} (hk : ElemOk P k) : Says P (Printed (JpvFix P cfg.color) P) (writeElem cfg k) fun _ => True := by
  have whole : ∀ o ∈ printScalar cfg.color k, Printed (JpvFix P cfg.color) P o := by
    rcases hk with hk | ⟨n, rfl⟩
    · exact printScalar_ok codes hk
    · exact print_fix (.inr (.inr (.inl ⟨n, rfl⟩)))
  unfold writeElem
  split
  · refine (lay1 (by decide)).next fun _ => ?_
    unfold printSuccinct
    split
    · rename_i ha
      split
      · exact .fail
      · rcases hk with hk | ⟨n, rfl⟩
        · exact .putAll (print_fix (.inr (.inr (.inr ⟨k, hk, ha, rfl⟩))))
        · cases ha
    · exact .putAll whole
  · exact (lay1 (by decide)).next fun _ => (Says.putAll whole).next fun _ => lay1 (by decide)

theorem writeElems_says (cfg : JEncCfg) : ∀ {l : List Scalar}, (∀ k ∈ l, ElemOk P k) → Says P (Printed (JpvFix P cfg.color) P) (writeElems cfg l) fun _ => True
  | [], _ => by rw [writeElems]; exact .ret trivial
  | k :: l, h => by
    rw [writeElems]
    exact (writeElem_says cfg (h k (by simp))).next fun _ => writeElems_says cfg fun k hk => h k (List.mem_cons_of_mem _ hk)

theorem writePath_says (cfg : JEncCfg) {l : List Scalar} (h : ∀ k ∈ l, ElemOk P k) : Says P (Printed (JpvFix P cfg.color) P) (writePath cfg l) fun _ => True := by
  unfold writePath
  exact (lay1 (by decide)).next fun _ => (writeElems_says cfg h).next fun _ => lay1 (by decide)

theorem writeRest_says (cfg : JEncCfg) {l : List Scalar} (h : ∀ k ∈ l, ElemOk P k) {e1 e2 : Bytes} (h1 : e1 ∈ jpvLayout) (h2 : e2 ∈ jpvLayout) (i n : Nat) :
    Says P (Printed (JpvFix P cfg.color) P) (writeRest cfg l e1 e2 i n) fun _ => True := by
  unfold writeRest
  refine .elided fun e => ?_
  split
  · refine (writePath_says cfg h).next fun _ => (lay1 ?_).next fun _ => nl
    split
    · exact h1
    · split
      · decide
      · exact h2
  · exact .ret trivial

theorem ElemOk.push {l : List Scalar} {k : Scalar} (h : ∀ k ∈ l, ElemOk P k) (hk : ElemOk P k) : ∀ k' ∈ l ++ [k], ElemOk P k' := by
  intro k' hk'
  simp only [List.mem_append, List.mem_singleton] at hk'
  rcases hk' with h' | rfl
  · exact h k' h'
  · exact hk

theorem writeValue_says (cfg : JEncCfg) : ∀ f path x, (∀ k ∈ path, ElemOk P k) → ValOk P x →
    Says P (Printed (JpvFix P cfg.color) P) (writeValue cfg f path x) fun _ => True
  | 0, _, _, _, _ => .fail
  | f + 1, path, x, hp, hx => by
    have ih : ∀ path x, (∀ k ∈ path, ElemOk P k) → ValOk P x → Says P (Printed (JpvFix P cfg.color) P) (writeValue cfg f path x) fun _ => True :=
      writeValue_says cfg f
    rw [writeValue.eq_def]
    simp only
    split
    · unfold writeScalar
      exact (writePath_says cfg hp).next fun _ => (Says.putAll (printScalar_ok codes hx)).next fun _ => nl
    · unfold writeObject
      refine Says.next ?_ fun n => writeRest_says cfg hp (by decide) (by decide) _ _
      refine forEach_key (T := fun _ => True) (fun b k y _ hk hy => ?_) _ _ _ trivial
      unfold writeMember
      split
      · exact .fail
      · exact (ih _ y (ElemOk.push hp (.inl (hk _ rfl))) hy).next fun _ => .ret trivial
    · unfold writeArray
      refine Says.next ?_ fun n => writeRest_says cfg hp (by decide) (by decide) _ _
      exact forEach_key (T := fun _ => True) (fun b k y _ hk hy => (ih _ y (ElemOk.push hp (.inr ⟨_, rfl⟩)) hy).next fun _ => .ret trivial) _ _ _ trivial
    · exact .fail

theorem consume_says (cfg : JEncCfg) (f : Nat) : Says P (Printed (JpvFix P cfg.color) P) (consume cfg f) fun _ => True := by
  unfold consume
  have reset : Says P (Printed (JpvFix P cfg.color) P) (put .reset) fun _ => True := .put trivial
  exact forEach_says (T := fun _ => True) (fun _ k x _ hx => (writeValue_says cfg f [] x (fun _ h => by cases h) hx).next fun _ => reset) _ _ _ trivial

end JpvOut

/-! ## The printer -/

/-- What is written if calls are about layout or scalars. -/
theorem execAll_pieces (pc : PrinterCfg) : ∀ (l : List POp) (lvl : Int), (∀ o ∈ l, Printed F P o) →
    ∀ e ∈ (pc.execAll lvl l).1, e.payload = [] ∨ e.payload = b%"\n" ∨ e.payload = b%" " ∨ F e.payload ∨ ∃ s, P (.scalar s) ∧ e.payload = s.bytes
  | [], _, _, e, he => by simp [PrinterCfg.execAll] at he
  | o :: l, lvl, h, e, he => by
    rw [PrinterCfg.execAll] at he
    rcases List.mem_append.1 he with he | he
    · have nl : ∀ {e : WEv}, e ∈ pc.writeNL → e.payload = [] ∨ e.payload = b%"\n" := by
        intro e he
        simp only [PrinterCfg.writeNL, List.mem_cons] at he
        rcases he with rfl | he
        · exact .inr rfl
        · split at he
          · rw [List.mem_singleton.1 he]; exact .inl rfl
          · cases he
      have nl2 : ∀ {e : WEv} {k : Int}, e ∈ pc.newLine k → e.payload = [] ∨ e.payload = b%"\n" ∨ e.payload = b%" " := by
        intro e k he
        unfold PrinterCfg.newLine at he
        split at he
        · cases he
        · rcases List.mem_append.1 he with he | he
          · rcases nl he with h | h
            · exact .inl h
            · exact .inr (.inl h)
          · rw [List.eq_of_mem_replicate he]; exact .inr (.inr rfl)
      have ho := h o (by simp)
      cases o with
      | bytes b =>
        simp only [PrinterCfg.exec, List.mem_singleton] at he
        subst he
        exact .inr (.inr (.inr ho))
      | reset =>
        rcases nl he with h | h
        · exact .inl h
        · exact .inr (.inl h)
      | newLine => rcases nl2 he with h | h | h <;> simp [h]
      | indent => rcases nl2 he with h | h | h <;> simp [h]
      | dedent => rcases nl2 he with h | h | h <;> simp [h]
    · exact execAll_pieces pc l _ (fun o ho => h o (List.mem_cons_of_mem _ ho)) e he

theorem runW_pieces {p : IProg POp Unit} {ts : List Token} {Q : Unit → Prop} (hp : Says P (Printed F P) p Q) (ht : ∀ t ∈ ts, P t) (pc : PrinterCfg) :
    ∃ ps : List Bytes, (p.runW Heap.mach pc Enc.goodSink (Heap.init ts) 0 []).1 = ps.flatten ∧
      ∀ b ∈ ps, b = [] ∨ b = b%"\n" ∨ b = b%" " ∨ F b ∨ ∃ s, P (.scalar s) ∧ b = s.bytes := by
  rw [IProg.runW_eq, Sink.feed_all (w := Enc.goodSink) (fun _ _ => rfl)]
  refine ⟨(pc.execAll 0 (p.run Heap.mach (Heap.init ts)).1).1.map WEv.payload, ?_, ?_⟩
  · simp [evBytes, List.flatMap_def]
  · intro b hb
    obtain ⟨e, he, rfl⟩ := List.mem_map.1 hb
    exact execAll_pieces pc _ 0 (hp _ (ok_init ht)).1 e he

end Verif.Origin
