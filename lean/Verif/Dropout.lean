import Verif.Layers

/-!
# Dropout

Model of the dropout blocks of `SumLayer`, `MixingLayer`, `LinsumLayer` and `LinsumLayer2` in training mode.  The draws of the
Bernoulli distribution are an arbitrary function of the round and of the position in the tensor, so every theorem holds for every
outcome of the draws.  The `while` loop need not end; it is modelled by the result after a number of rounds, `none` if it is still
running.
-/

open Classical
noncomputable section
namespace Einet
open Tensor

/-- `dropout_indices.sum(d) == dropout_indices.shape[d]` (e.g. sum.py:70): all entries along dimension `d` are dropped. -/
def allDropped (d : Nat) (t : Tensor Bool) : Tensor Bool :=
  ⟨delAt d t.shape, fun j => decide (∀ k, k < t.size d → t.get (insAt d k j) = true)⟩

/-- `invalid_index.any()`. -/
def anyTrue (t : Tensor Bool) : Prop := ∃ i, InB t.shape i ∧ t.get i = true

/-- `dropout_indices[invalid_index] = self._bernoulli_dist.sample(dropout_indices[invalid_index].shape)` (e.g. sum.py:73).  Indexing
with a boolean tensor raises an `IndexError` unless the shape of the index is a prefix of the shape of the indexed tensor; it then
selects every position whose leading coordinates are marked. -/
def maskedAssign (t mask : Tensor Bool) (fresh : List Nat → Bool) : Res (Tensor Bool) := do
  require .index (mask.shape <+: t.shape)
  return ⟨t.shape, fun i => if mask.get (i.take mask.rank) = true then fresh i else t.get i⟩

/-- the `while` loop (e.g. sum.py:71-74): at most `fuel` tests of the condition, `k` counts the draws made so far. -/
def dropoutLoop (d : Nat) (draw : Nat → List Nat → Bool) : Nat → Nat → Tensor Bool → Res (Option (Tensor Bool))
  | 0, _, _ => .ok none
  | fuel + 1, k, t =>
    if anyTrue (allDropped d t) then
      (maskedAssign t (allDropped d t) (draw k)).bind fun t' => dropoutLoop d draw fuel (k + 1) t'
    else .ok (some t)

/-- `torch.log(1 - dropout_indices)` (e.g. sum.py:75). -/
def logKeep (t : Tensor Bool) : Tensor Fl := t.map fun b => Fl.log (.fin 1 - if b then .fin 1 else .fin 0)

/-- the dropout block for a tensor of shape `s` (e.g. sum.py:68-75): `dropout_indices` after the loop. -/
def dropoutMask (d : Nat) (s : List Nat) (draw : Nat → List Nat → Bool) (fuel : Nat) : Res (Option (Tensor Bool)) :=
  dropoutLoop d draw fuel 1 ⟨s, draw 0⟩

/-- `forward` in training mode with dropout probability `p`; `d` is the dimension the loop tests and `s` the shape of the mask. -/
def trainForward (p : ℝ) (d : Nat) (s : List Nat) (draw : Nat → List Nat → Bool) (fuel : Nat)
    (forward : Option (Tensor Fl) → Res (Tensor Fl × Cache)) : Res (Option (Tensor Fl × Cache)) :=
  if 0 < p then
    (dropoutMask d s draw fuel).bind fun m =>
      match m with
      | none => .ok none
      | some m => (forward (some (logKeep m))).map some
  else (forward none).map some

/-- `SumLayer.forward` in training mode (sum.py:62-87); the loop tests dimension 3. -/
def SumLayer.train (L : SumL) (p : ℝ) (draw : Nat → List Nat → Bool) (fuel : Nat) (x : Tensor Fl) :
    Res (Option (Tensor Fl × Cache)) :=
  trainForward p 3 x.shape draw fuel fun m => SumLayer.forward L m x

/-- `MixingLayer.forward` in training mode (mixing.py:44-66); the loop tests dimension 3. -/
def MixingLayer.train (L : SumL) (p : ℝ) (draw : Nat → List Nat → Bool) (fuel : Nat) (x : Tensor Fl) :
    Res (Option (Tensor Fl × Cache)) :=
  trainForward p 3 x.shape draw fuel fun m => MixingLayer.forward L m x

/-- `LinsumLayer.forward` in training mode (linsum.py:64-110); the mask has the shape of `prod_output` (line 87), the loop tests
dimension 2. -/
def LinsumLayer.train (L : SumL) (p : ℝ) (draw : Nat → List Nat → Bool) (fuel : Nat) (x : Tensor Fl) :
    Res (Option (Tensor Fl × Cache)) :=
  trainForward p 2 [x.size 0, LinsumLayer.numFeaturesOut L, x.size 2, 1, x.size 3] draw fuel fun m => LinsumLayer.forward L m x

/-- `LinsumLayer2.forward` in training mode (linsum.py:264-308); the mask has the shape of `prod_output` (line 287), the loop tests
dimension 2. -/
def LinsumLayer2.train (L : SumL) (p : ℝ) (draw : Nat → List Nat → Bool) (fuel : Nat) (x : Tensor Fl) :
    Res (Option (Tensor Fl × Cache)) :=
  trainForward p 2 [x.size 0, LinsumLayer2.numFeaturesOut L, L.num_sums_out, x.size 3] draw fuel fun m =>
    LinsumLayer2.forward L m x

end Einet
