import Verif.PathFuel
import Verif.JpvEncoder
import Verif.IterTransforms

/-!
# Fuel does not matter to the encoders and to `split`

A run that does not end for want of fuel is the same with more fuel.
-/

set_option linter.unusedSimpArgs false
set_option linter.unusedVariables false

namespace Verif

variable {ε α β : Type}

theorem forEach_le {body body' : β → Option Scalar → Val → IProg ε β} (h : ∀ b k x, LeP Eq (body b k x) (body' b k x)) (i : Nat) :
    ∀ {f g : Nat}, f ≤ g → ∀ b, LeP Eq (forEach body i f b) (forEach body' i g b)
  | 0, g, _, _ => .fuel _
  | f + 1, 0, hfg, _ => by omega
  | f + 1, g + 1, hfg, b => by
    simp only [forEach]
    refine .op fun more => ite_le (fun _ => .op fun kv => ?_) fun _ => .rfl' _
    split
    · exact .fail _
    · exact (h _ _ _).bindEq fun b => forEach_le h i (by omega) b

theorem explodeArray_le {f g : Nat} (h : f ≤ g) (x : Val) : LeP Eq (explodeArray f x) (explodeArray g x) := by
  unfold explodeArray
  split
  · exact forEach_le (fun _ _ _ => .rfl' _) _ h _
  · exact .rfl' _

theorem split_le {f g : Nat} (h : f ≤ g) : LeP Eq (transformAll (explodeArray f) f) (transformAll (explodeArray g) g) :=
  forEach_le (fun _ _ x => explodeArray_le h x) 0 h ()

namespace Enc

section
variable {wv wv' : Val → IProg POp Unit} (hw : ∀ x, LeP Eq (wv x) (wv' x))
include hw

theorem writeObject_le (c : Option Colorizer) {f g : Nat} (h : f ≤ g) (i : Nat) : LeP Eq (writeObject c wv f i) (writeObject c wv' g i) :=
  (LeP.rfl' _).bindEq fun _ => (forEach_le (fun _ _ _ => (LeP.rfl' _).bindEq fun _ => (LeP.rfl' _).bindEq fun _ => (hw _).bindEq fun _ => .rfl' _) i h _).bindEq
    fun _ => .rfl' _

omit hw in
theorem pendingLoop_le (cfg : EncCfg) (i : Nat) : ∀ {f g : Nat}, f ≤ g → ∀ l w, LeP Eq (pendingLoop cfg i f l w) (pendingLoop cfg i g l w)
  | 0, g, _, _, _ => .fuel _
  | f + 1, 0, hfg, _, _ => by omega
  | f + 1, g + 1, hfg, l, w => by
    simp only [pendingLoop]
    refine .op fun more => ite_le (fun _ => .op fun kv => ?_) fun _ => .rfl' _
    split
    · exact ite_le (fun _ => pendingLoop_le cfg i (by omega) _ _) fun _ => .rfl' _
    · exact .rfl' _
    · exact .rfl' _

theorem writePending_le (c : Option Colorizer) (sep : List POp) : ∀ first l, LeP Eq (writePending c wv sep first l) (writePending c wv' sep first l)
  | _, [] => .rfl' _
  | first, (key, x) :: l => (LeP.rfl' _).bindEq fun _ => (hw _).bindEq fun _ => writePending_le c sep false l

theorem writeObjectCompact_le (cfg : EncCfg) {f g : Nat} (h : f ≤ g) (i : Nat) : LeP Eq (writeObjectCompact cfg wv f i) (writeObjectCompact cfg wv' g i) := by
  unfold writeObjectCompact
  refine (pendingLoop_le cfg i h _ _).bindEq fun p => ?_
  obtain ⟨compact, pending⟩ := p
  refine (LeP.rfl' _).bindEq fun _ => LeP.bindEq (ite_le (fun _ => ?_) fun _ => ?_) fun _ => .rfl' _
  · exact (writePending_le hw _ _ _ _).bindEq fun _ => .rfl' _
  · exact (LeP.rfl' _).bindEq fun _ => (writePending_le hw _ _ _ _).bindEq fun _ =>
      (forEach_le (fun _ _ _ => (LeP.rfl' _).bindEq fun _ => (LeP.rfl' _).bindEq fun _ => (hw _).bindEq fun _ => .rfl' _) i h _).bindEq fun _ => .rfl' _

theorem writeArray_le {f g : Nat} (h : f ≤ g) (i : Nat) : LeP Eq (writeArray wv f i) (writeArray wv' g i) :=
  (LeP.rfl' _).bindEq fun _ => (forEach_le (fun _ _ _ => (LeP.rfl' _).bindEq fun _ => (hw _).bindEq fun _ => .rfl' _) i h _).bindEq fun _ => .rfl' _

theorem writeItems_le : ∀ first l, LeP Eq (writeItems wv first l) (writeItems wv' first l)
  | _, [] => .rfl' _
  | first, s :: l => (LeP.rfl' _).bindEq fun _ => (hw _).bindEq fun _ => writeItems_le false l

theorem arrayCompactStep_le (cfg : EncCfg) (st : ACState) (x : Val) : LeP Eq (arrayCompactStep cfg wv st x) (arrayCompactStep cfg wv' st x) := by
  unfold arrayCompactStep
  cases x with
  | scalar s =>
    refine ite_le (fun _ => .rfl' _) fun _ => (LeP.rfl' _).bindEq fun _ => ite_le (fun _ => (hw _).bindEq fun _ => .rfl' _) fun _ =>
      (writeItems_le hw _ _).bindEq fun _ => ite_le (fun _ => .rfl' _) fun _ => (LeP.rfl' _).bindEq fun _ => (hw _).bindEq fun _ => .rfl' _
  | coll k i =>
    exact (LeP.rfl' _).bindEq fun _ => ite_le (fun _ => (hw _).bindEq fun _ => .rfl' _) fun _ =>
      (writeItems_le hw _ _).bindEq fun _ => (LeP.rfl' _).bindEq fun _ => (hw _).bindEq fun _ => .rfl' _

theorem writeArrayCompact_le (cfg : EncCfg) {f g : Nat} (h : f ≤ g) (i : Nat) : LeP Eq (writeArrayCompact cfg wv f i) (writeArrayCompact cfg wv' g i) :=
  (LeP.rfl' _).bindEq fun _ => (forEach_le (fun _ _ _ => arrayCompactStep_le hw cfg _ _) i h _).bindEq fun _ =>
    (ite_le (fun _ => .rfl' _) fun _ => (LeP.rfl' _).bindEq fun _ => writeItems_le hw _ _).bindEq fun _ => .rfl' _

end

theorem writeValue_le (cfg : EncCfg) : ∀ {f g : Nat}, f ≤ g → ∀ x, LeP Eq (writeValue cfg f x) (writeValue cfg g x)
  | 0, g, _, _ => .fuel _
  | f + 1, 0, hfg, _ => by omega
  | f + 1, g + 1, hfg, x => by
    have ih := fun x => writeValue_le cfg (f := f) (g := g) (by omega) x
    simp only [writeValue]
    split
    · exact .rfl' _
    · exact ite_le (fun _ => writeObjectCompact_le ih cfg (by omega) _) fun _ => writeObject_le ih _ (by omega) _
    · exact ite_le (fun _ => writeArrayCompact_le ih cfg (by omega) _) fun _ => writeArray_le ih (by omega) _
    · exact .rfl' _

theorem consume_le (cfg : EncCfg) {f g : Nat} (h : f ≤ g) : LeP Eq (consume cfg f) (consume cfg g) :=
  forEach_le (fun _ _ _ => (writeValue_le cfg h _).bindEq fun _ => .rfl' _) 0 h ()

end Enc

namespace JEnc

theorem writeValue_le (cfg : JEncCfg) : ∀ {f g : Nat}, f ≤ g → ∀ path x, LeP Eq (writeValue cfg f path x) (writeValue cfg g path x)
  | 0, g, _, _, _ => .fuel _
  | f + 1, 0, hfg, _, _ => by omega
  | f + 1, g + 1, hfg, path, x => by
    have ih := fun path x => writeValue_le cfg (f := f) (g := g) (by omega) path x
    simp only [writeValue]
    split
    · exact .rfl' _
    · refine (forEach_le (fun _ k _ => ?_) _ (by omega) _).bindEq fun _ => .rfl' _
      cases k with
      | none => exact .rfl' _
      | some k => exact (ih _ _).bindEq fun _ => .rfl' _
    · exact (forEach_le (fun _ _ _ => (ih _ _).bindEq fun _ => .rfl' _) _ (by omega) _).bindEq fun _ => .rfl' _
    · exact .rfl' _

theorem consume_le (cfg : JEncCfg) {f g : Nat} (h : f ≤ g) : LeP Eq (consume cfg f) (consume cfg g) :=
  forEach_le (fun _ _ _ => (writeValue_le cfg h _ _).bindEq fun _ => .rfl' _) 0 h ()

end JEnc
end Verif
