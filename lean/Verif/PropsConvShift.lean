import Verif.PropsConvSmooth
import Verif.PropsConvMixture
import Verif.Shift

/-!
# C99: only differences of raw weights matter in convolutional circuits
-/

open Classical MeasureTheory
open scoped ENNReal
noncomputable section
namespace Einet
open Tensor

/-- a number `s i o y x` added to the raw weights of all children of the sum node `o` at the position `(y, x)` of layer `i`
(entries `[o, :, y, x]` of the parameter of shape `[out_channels, in_channels, height, width]`, conv_pc.py:300-311). -/
def ConvParams.shift (s : Nat → Nat → Nat → Nat → ℝ) (P : ConvParams) : ConvParams :=
  { P with logits := fun i l => P.logits i l + s i (at' 0 l) (at' 2 l) (at' 3 l) }

/-- one layer with shifted raw weights. -/
def ConvSum.plus (s : Nat → Nat → Nat → ℝ) (L : ConvSum) : ConvSum :=
  { L with logits := fun l => L.logits l + s (at' 0 l) (at' 2 l) (at' 3 l) }

theorem at'_setAt_one (k : Nat) (l : List Nat) :
    at' 0 (setAt 1 k l) = at' 0 l ∧ at' 2 (setAt 1 k l) = at' 2 l ∧ at' 3 (setAt 1 k l) = at' 3 l := by
  rcases l with _ | ⟨a, _ | ⟨b, l⟩⟩ <;> exact ⟨rfl, rfl, rfl⟩

theorem ConvSum.plus_logSoftmax (s : Nat → Nat → Nat → ℝ) (L : ConvSum) :
    (L.plus s).param.logSoftmax 1 = L.param.logSoftmax 1 := by
  unfold Tensor.logSoftmax
  have hr : ∀ L : ConvSum, 1 < L.param.rank := fun L => by simp [ConvSum.param, rank]
  rw [(require_ok_iff ..).2 (hr _), (require_ok_iff ..).2 (hr _)]
  show Except.ok (Tensor.mk _ _) = Except.ok (Tensor.mk _ _)
  refine congrArg Except.ok (congrArg (Tensor.mk _) ?_)
  funext l
  refine Eq.trans ?_ (Fl.logSoftmax_add _ (fun k => L.param.get (setAt 1 k l)) (s (at' 0 l) (at' 2 l) (at' 3 l)) (at' 1 l))
  have : (fun k => (L.plus s).param.get (setAt 1 k l)) =
      fun k => L.param.get (setAt 1 k l) + .fin (s (at' 0 l) (at' 2 l) (at' 3 l)) := by
    funext k
    show Fl.fin (L.logits (setAt 1 k l) + s _ _ _) = Fl.fin (L.logits _ + _)
    obtain ⟨e0, e2, e3⟩ := at'_setAt_one k l
    rw [e0, e2, e3]
  rw [this]
  rfl

theorem ConvSum.plus_forward (s : Nat → Nat → Nat → ℝ) (L : ConvSum) (x : Tensor Fl) : (L.plus s).forward x = L.forward x := by
  unfold ConvSum.forward
  rw [ConvSum.plus_logSoftmax]

/-- layers that differ by shifts of the raw weights only. -/
inductive ConvLayer.Near : ConvLayer → ConvLayer → Prop
  | sum (L : ConvSum) (s : Nat → Nat → Nat → ℝ) : Near (.sum L) (.sum (L.plus s))
  | prod (kh kw : Nat) : Near (.prod kh kw) (.prod kh kw)
  | sumProd (o : String) (L : ConvSum) (s : Nat → Nat → Nat → ℝ) (kh kw : Nat) : Near (.sumProd o L kh kw) (.sumProd o (L.plus s) kh kw)

theorem ConvLayer.Near.forward {l l' : ConvLayer} (h : Near l l') (x : Tensor Fl) : l'.forward x = l.forward x := by
  cases h with
  | sum L s => simp only [ConvLayer.forward, ConvSum.plus_forward]
  | prod kh kw => rfl
  | sumProd o L s kh kw => simp only [ConvLayer.forward, ConvSum.plus_forward]

theorem forwardConv_near {ls ls' : List ConvLayer} (h : List.Forall₂ ConvLayer.Near ls ls') (x : Tensor Fl) :
    forwardConv ls' x = forwardConv ls x := by
  induction h generalizing x with
  | nil => rfl
  | cons h1 h2 ih =>
    unfold forwardConv
    rw [h1.forward]
    split
    · rw [ih]
    · simp only [List.map_const', h2.length_eq]

theorem mkSumProd_near {i o h w kh kw : Nat} {order : String} (lg : List Nat → ℝ) (s : Nat → Nat → Nat → ℝ) :
    Res.Rel ConvLayer.Near (ConvLayer.mkSumProd i o h w kh kw order lg)
      (ConvLayer.mkSumProd i o h w kh kw order fun l => lg l + s (at' 0 l) (at' 2 l) (at' 3 l)) := by
  unfold ConvLayer.mkSumProd
  refine Res.Rel.same fun _ _ => ?_
  split_ifs
  · exact .sumProd _ ⟨_, _, _, _, lg⟩ s _ _
  · exact .sumProd _ ⟨_, _, _, _, lg⟩ s _ _

theorem convBottomUp_near (P : ConvParams) (s : Nat → Nat → Nat → Nat → ℝ) (order : String) (k : Nat) (cs : List Nat) (i h w : Nat) :
    Res.Rel (List.Forall₂ ConvLayer.Near) (convBottomUp P order k cs i h w) (convBottomUp (P.shift s) order k cs i h w) := by
  induction cs generalizing i h w with
  | nil => rfl
  | cons c cs ih =>
    cases cs with
    | nil => exact Res.Rel.bind' (mkSumProd_near _ (s i)) fun a b hab => List.Forall₂.cons hab .nil
    | cons c' cs =>
      exact Res.Rel.bind' (mkSumProd_near _ (s i)) fun a b hab =>
        Res.Rel.bind' (ih (i + 1) (h / k) (w / k)) fun as bs h2 => List.Forall₂.cons hab h2

theorem convTopDown_near (P : ConvParams) (s : Nat → Nat → Nat → Nat → ℝ) (order : String) (p : Nat) (cs : List Nat) (i : Nat) :
    Res.Rel (List.Forall₂ ConvLayer.Near) (convTopDown P order p cs i) (convTopDown (P.shift s) order p cs i) := by
  induction cs generalizing p i with
  | nil => exact List.Forall₂.cons (.sum ⟨p, 1, 1, 1, P.logits i⟩ (s i)) .nil
  | cons c cs ih =>
    exact Res.Rel.bind' (mkSumProd_near _ (s i)) fun a b hab =>
      Res.Rel.bind' (ih c (i + 1)) fun as bs h2 => List.Forall₂.cons hab h2

theorem convLayers_near (c : ConvConfig) (d : ImgShape) (P : ConvParams) (s : Nat → Nat → Nat → Nat → ℝ) :
    Res.Rel (List.Forall₂ ConvLayer.Near) (convLayers c d P) (convLayers c d (P.shift s)) := by
  unfold convLayers
  split_ifs
  · exact convBottomUp_near ..
  · exact Res.Rel.bind' (convTopDown_near ..) fun as bs h2 => List.Forall₂.cons (.prod _ _) h2
  · rfl

/-- circuits that differ by shifts of the raw weights only. -/
def ConvModel.Near (M M' : ConvModel) : Prop :=
  M'.num_channels = M.num_channels ∧ M'.height = M.height ∧ M'.width = M.width ∧ M'.leaf = M.leaf ∧
    List.Forall₂ ConvLayer.Near M.layers M'.layers

theorem buildConv_near (c : ConvConfig) (d : ImgShape) (P : ConvParams) (s : Nat → Nat → Nat → Nat → ℝ) :
    Res.Rel ConvModel.Near (buildConv c d P) (buildConv c d (P.shift s)) := by
  unfold buildConv
  refine Res.Rel.same fun _ _ => Res.Rel.same fun _ _ => Res.Rel.same fun _ _ => Res.Rel.same fun _ _ => Res.Rel.same fun _ _ => ?_
  exact Res.Rel.bind' (convLayers_near c d P s) fun as bs h => ⟨rfl, rfl, rfl, rfl, h⟩

namespace Props

/-- **C99**, construction: shifting raw weights does not change whether the circuit can be built. -/
theorem C99_builds (c : ConvConfig) (d : ImgShape) (P : ConvParams) (s : Nat → Nat → Nat → Nat → ℝ) :
    (∃ M, buildConv c d P = .ok M) ↔ ∃ M, buildConv c d (P.shift s) = .ok M := by
  have h := buildConv_near c d P s
  revert h
  cases buildConv c d P <;> cases buildConv c d (P.shift s) <;> simp [Res.Rel]

/-- **C99**, `forward`: adding a number to the raw weights of every sum node (a number for each node, the same for all its children)
does not change the results of the forward pass nor its exceptions; all circuits and inputs, valid or not. -/
theorem C99_forward (c : ConvConfig) (d : ImgShape) (P : ConvParams) (s : Nat → Nat → Nat → Nat → ℝ) (M M' : ConvModel)
    (h : buildConv c d P = .ok M) (h' : buildConv c d (P.shift s) = .ok M') (x : Tensor Fl) : M'.forward x = M.forward x := by
  have hn := buildConv_near c d P s
  rw [h, h'] at hn
  obtain ⟨e1, e2, e3, e4, e5⟩ := (hn : ConvModel.Near M M')
  unfold ConvModel.forward ConvModel.forwardAll ConvModel.forwardLeaf
  rw [e1, e2, e3, e4]
  split
  · rfl
  · rw [forwardConv_near e5]

/-- the hypotheses are met, with different raw weights. -/
example (s o : String) (hs : s = "bottom-up" ∨ s = "top-down") (ho : o = "sum-prod" ∨ o = "prod-sum") :
    ∃ (P : ConvParams) (δ : Nat → Nat → Nat → Nat → ℝ) (M M' : ConvModel), buildConv (exConv s o) ⟨3, 8, 24⟩ P = .ok M ∧
      buildConv (exConv s o) ⟨3, 8, 24⟩ (P.shift δ) = .ok M' ∧ (P.shift δ).logits 1 [0, 1, 0, 1] ≠ P.logits 1 [0, 1, 0, 1] ∧
      ∃ y, M.forward (full [5, 3, 8, 24] (.fin 1)) = .ok y := by
  have hu : (exConv s o).Usual ⟨3, 8, 24⟩ := ⟨by simp [exConv], by norm_num, by norm_num, ho⟩
  have hf : (exConv s o).SizeFits ⟨3, 8, 24⟩ := ⟨fun _ => by norm_num [exConv], fun _ => by norm_num [exConv]⟩
  let P : ConvParams := ⟨.normal (fun _ _ i _ => i) (fun _ _ i _ => i), fun i l => i + l.sum⟩
  obtain ⟨M, hM⟩ : ∃ M, buildConv (exConv s o) ⟨3, 8, 24⟩ P = .ok M :=
    buildConv_ok (by simp [exConv]) (by norm_num) hu (fun _ => hf) hs (by simp [P, LeafSpec.build, exConv])
  obtain ⟨M', hM'⟩ := (C99_builds (exConv s o) ⟨3, 8, 24⟩ P fun i a b c => i + a + b + c).1 ⟨M, hM⟩
  refine ⟨P, _, M, M', hM, hM', ?_, ?_⟩
  · simp only [ConvParams.shift, at', ne_eq, add_eq_left]
    norm_num
  · obtain ⟨-, -, -, -, -, -, e1, e2, e3⟩ := buildConv_spec hM
    obtain ⟨y, hy, -⟩ := conv_forward hu hf (by simp [exConv]) (show P.leaf.Good from trivial) hM (N := 5)
      (x := full [5, 3, 8, 24] (.fin 1)) (by rw [e1, e2, e3]; exact ⟨rfl, fun _ _ _ _ _ _ _ _ => Or.inr ⟨1, rfl, trivial⟩⟩)
    exact ⟨y, hy⟩

end Props
end Einet
