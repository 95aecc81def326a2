import Verif.Quiet
import Verif.JsonEncoder
import Verif.JpvEncoder

/-!
# The encoders clone nothing
-/

set_option linter.unusedSimpArgs false
set_option linter.unusedVariables false

namespace Verif

/-- `Quiet`, whatever is returned. -/
abbrev IProg.Mute {ε α : Type} (p : IProg ε α) : Prop := p.Quiet fun _ => True

namespace Enc
open IProg

variable {wv : Val → IProg POp Unit}

theorem mute_put (o : POp) : (put o).Mute := trivial

theorem mute_writeKey (c : Option Colorizer) (key : Option Scalar) : (writeKey c key).Mute := by
  cases key with
  | none => trivial
  | some k => exact Quiet.putAll _

theorem mute_writeObject (c : Option Colorizer) (hw : ∀ x, (wv x).Mute) (f i : Nat) : (writeObject c wv f i).Mute := by
  refine (mute_put _).bind fun _ _ => (Quiet.forEach (fun b k x => ?_) f _).bind fun first _ => ⟨trivial, fun e => ?_⟩
  · exact (Quiet.putAll _).bind fun _ _ => (mute_writeKey c k).bind fun _ _ => (hw x).bind fun _ _ => trivial
  · exact (Quiet.putAll _).bind fun _ _ => (Quiet.putAll _).bind fun _ _ => mute_put _

theorem mute_pendingLoop (cfg : EncCfg) (i : Nat) : ∀ (f : Nat) (l : List (Scalar × Val)) (w : Int), (pendingLoop cfg i f l w).Mute
  | 0, _, _ => trivial
  | f + 1, l, w => by
    refine ⟨trivial, fun (more : Bool) => ?_⟩
    cases more with
    | false => trivial
    | true =>
      refine ⟨trivial, fun (kv : Option Scalar × Option Val) => ?_⟩
      obtain ⟨k, x⟩ := kv
      cases k with
      | none => trivial
      | some k =>
        cases x with
        | none => trivial
        | some x =>
          cases x with
          | scalar s =>
            simp only
            split
            · exact mute_pendingLoop cfg i f _ _
            · trivial
          | coll k j => trivial

theorem mute_writePending (c : Option Colorizer) (hw : ∀ x, (wv x).Mute) (sep : List POp) : ∀ (l : List (Scalar × Val)) (first : Bool),
    (writePending c wv sep first l).Mute
  | [], _ => trivial
  | (k, x) :: l, first => (Quiet.putAll _).bind fun _ _ => (hw x).bind fun _ _ => mute_writePending c hw sep l false

theorem mute_writeObjectCompact (cfg : EncCfg) (hw : ∀ x, (wv x).Mute) (f i : Nat) : (writeObjectCompact cfg wv f i).Mute := by
  refine (mute_pendingLoop cfg i f _ _).bind fun r _ => ?_
  obtain ⟨compact, pending⟩ := r
  refine (mute_put _).bind fun _ _ => Quiet.bind (Q := fun _ => True) ?_ fun _ _ => mute_put _
  split
  · exact (mute_writePending _ hw _ _ _).bind fun _ _ => ⟨trivial, fun e => Quiet.putAll _⟩
  · refine (mute_put _).bind fun _ _ => (mute_writePending _ hw _ _ _).bind fun _ _ => (Quiet.forEach (fun b k x => ?_) f _).bind fun first _ => ⟨trivial, fun e => ?_⟩
    · exact (Quiet.putAll _).bind fun _ _ => (mute_writeKey _ k).bind fun _ _ => (hw x).bind fun _ _ => trivial
    · exact (Quiet.putAll _).bind fun _ _ => mute_put _

theorem mute_writeArray (hw : ∀ x, (wv x).Mute) (f i : Nat) : (writeArray wv f i).Mute := by
  refine (mute_put _).bind fun _ _ => (Quiet.forEach (fun b k x => ?_) f _).bind fun first _ => ⟨trivial, fun e => ?_⟩
  · exact (Quiet.putAll _).bind fun _ _ => (hw x).bind fun _ _ => trivial
  · exact (Quiet.putAll _).bind fun _ _ => (Quiet.putAll _).bind fun _ _ => mute_put _

theorem mute_writeItems (hw : ∀ x, (wv x).Mute) : ∀ (l : List Scalar) (first : Bool), (writeItems wv first l).Mute
  | [], _ => trivial
  | s :: l, first => (Quiet.putAll _).bind fun _ _ => (hw _).bind fun _ _ => mute_writeItems hw l false

theorem mute_arrayCompactStep (cfg : EncCfg) (hw : ∀ x, (wv x).Mute) (st : ACState) (x : Val) : (arrayCompactStep cfg wv st x).Mute := by
  unfold arrayCompactStep
  split
  · simp only
    split
    · trivial
    · refine (Quiet.putAll _).bind fun _ _ => ?_
      split
      · exact (hw _).bind fun _ _ => trivial
      · refine (mute_writeItems hw _ _).bind fun _ _ => ?_
        split
        · trivial
        · exact (Quiet.putAll _).bind fun _ _ => (hw _).bind fun _ _ => trivial
  · refine (Quiet.putAll _).bind fun _ _ => ?_
    split
    · exact (hw _).bind fun _ _ => trivial
    · exact (mute_writeItems hw _ _).bind fun _ _ => (Quiet.putAll _).bind fun _ _ => (hw _).bind fun _ _ => trivial

theorem mute_writeArrayCompact (cfg : EncCfg) (hw : ∀ x, (wv x).Mute) (f i : Nat) : (writeArrayCompact cfg wv f i).Mute := by
  refine (mute_put _).bind fun _ _ => (Quiet.forEach (fun b k x => mute_arrayCompactStep cfg hw b x) f _).bind fun st _ =>
    Quiet.bind (Q := fun _ => True) ?_ fun _ _ => ⟨trivial, fun e => ?_⟩
  · split
    · trivial
    · exact (Quiet.putAll _).bind fun _ _ => mute_writeItems hw _ _
  · exact (Quiet.putAll _).bind fun _ _ => (Quiet.putAll _).bind fun _ _ => mute_put _

theorem mute_writeValue (cfg : EncCfg) : ∀ (f : Nat) (x : Val), (writeValue cfg f x).Mute
  | 0, _ => trivial
  | f + 1, x => by
    unfold writeValue
    split
    · exact Quiet.putAll _
    · split
      · exact mute_writeObjectCompact cfg (mute_writeValue cfg f) f _
      · exact mute_writeObject _ (mute_writeValue cfg f) f _
    · split
      · exact mute_writeArrayCompact cfg (mute_writeValue cfg f) f _
      · exact mute_writeArray (mute_writeValue cfg f) f _
    · trivial

theorem mute_consume (cfg : EncCfg) (f : Nat) : (consume cfg f).Mute :=
  Quiet.forEach (fun _ _ x => (mute_writeValue cfg f x).bind fun _ _ => mute_put _) f ()

end Enc

namespace JEnc
open IProg

theorem mute_printSuccinct (c : Option Colorizer) (s : Scalar) : (printSuccinct c s).Mute := by
  unfold printSuccinct
  split
  · split
    · trivial
    · exact Quiet.putAll _
  · exact Quiet.putAll _

theorem mute_writeElem (cfg : JEncCfg) (k : Scalar) : (writeElem cfg k).Mute := by
  unfold writeElem
  split
  · exact (Enc.mute_put _).bind fun _ _ => mute_printSuccinct _ _
  · exact (Enc.mute_put _).bind fun _ _ => (Quiet.putAll _).bind fun _ _ => Enc.mute_put _

theorem mute_writeElems (cfg : JEncCfg) : ∀ (l : List Scalar), (writeElems cfg l).Mute
  | [] => trivial
  | k :: l => (mute_writeElem cfg k).bind fun _ _ => mute_writeElems cfg l

theorem mute_writePath (cfg : JEncCfg) (l : List Scalar) : (writePath cfg l).Mute :=
  (Enc.mute_put _).bind fun _ _ => (mute_writeElems cfg l).bind fun _ _ => Enc.mute_put _

theorem mute_writeRest (cfg : JEncCfg) (path : List Scalar) (a b : Bytes) (i n : Nat) : (writeRest cfg path a b i n).Mute := by
  refine ⟨trivial, fun e => ?_⟩
  dsimp only
  split
  · exact (mute_writePath cfg path).bind fun _ _ => (Enc.mute_put _).bind fun _ _ => Enc.mute_put _
  · trivial

theorem mute_writeValue (cfg : JEncCfg) : ∀ (f : Nat) (path : List Scalar) (x : Val), (writeValue cfg f path x).Mute
  | 0, _, _ => trivial
  | f + 1, path, x => by
    unfold writeValue
    split
    · exact (mute_writePath cfg path).bind fun _ _ => (Quiet.putAll _).bind fun _ _ => Enc.mute_put _
    · refine (Quiet.forEach (fun n k x => ?_) f _).bind fun _ _ => mute_writeRest _ _ _ _ _ _
      unfold writeMember
      split
      · trivial
      · exact (mute_writeValue cfg f _ _).bind fun _ _ => trivial
    · refine (Quiet.forEach (fun n k x => ?_) f _).bind fun _ _ => mute_writeRest _ _ _ _ _ _
      exact (mute_writeValue cfg f _ _).bind fun _ _ => trivial
    · trivial

theorem mute_consume (cfg : JEncCfg) (f : Nat) : (consume cfg f).Mute :=
  Quiet.forEach (fun _ _ x => (mute_writeValue cfg f [] x).bind fun _ _ => Enc.mute_put _) f ()

end JEnc
end Verif
