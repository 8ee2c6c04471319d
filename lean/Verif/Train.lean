import Verif.Einet

/-!
# Losses and evaluation

Models of `log_likelihoods`, the losses of `train` and the function `test` of main.py, of the losses and the accuracy of
models_pl.py (`SpnGenerative`, `SpnDiscriminative`) and of `calc_bpd` (simple_einet/utils.py).  Simplifications: batches are
given after preprocessing (see `Quantise.lean` for it), the optimiser, mixed precision, devices and the trainer of
`lightning` are left out.
-/

open Classical
noncomputable section
namespace Einet
open Tensor

namespace Tensor

/-- `t.sum()`. -/
def sumAll (t : Tensor Fl) : Fl := Fl.sumN t.numel fun i => t.get (unflat t.shape i)

/-- `t.mean()`; NaN for an empty tensor. -/
def meanAll (t : Tensor Fl) : Fl := t.sumAll / .fin t.numel

/-- `t.squeeze().tolist()`, added to a list: a tensor with one entry is turned into a number, which cannot be added to a list. -/
def appendList (l : List Fl) (t : Tensor Fl) : Res (List Fl) := do
  require .type (t.numel ≠ 1)
  return l ++ (List.range t.numel).map fun i => t.get (unflat t.shape i)

end Tensor

/-- `F.nll_loss(input, target, reduction="mean")`, also `nn.NLLLoss()` (torch, used in main.py:68 and models_pl.py:260): targets
outside of the classes raise, targets equal to -100 are ignored. -/
def nllLoss (input : Tensor Fl) (target : Tensor ℤ) : Res Fl := do
  require .value (input.rank = 2 ∧ target.shape = [input.size 0])
  let N := input.size 0
  require .index (∀ n, n < N → target.get [n] = -100 ∨ (0 ≤ target.get [n] ∧ target.get [n] < input.size 1))
  let used := fun n => target.get [n] ≠ -100
  return -(Fl.sumN N fun n => if used n then input.get [n, (target.get [n]).toNat] else .fin 0) /
    .fin ((List.range N).countP fun n => decide (used n))

/-- `labels == predicted`, summed (main.py:82-83, 126-128, models_pl.py:297). -/
def correct (target : Tensor ℤ) (predicted : Tensor Nat) : Nat :=
  (List.range (predicted.size 0)).countP fun n => decide (target.get [n] = (predicted.get [n] : ℤ))

/-- `log_likelihoods` (main.py:29-40). -/
def logLikelihoods (outputs : Tensor Fl) (targets : Option (Tensor Nat) := none) : Res (Tensor Fl) := do
  require .index (0 < outputs.rank)
  match targets with
  | none =>
    let num_roots := outputs.size (outputs.rank - 1)
    if num_roots = 1 then return outputs
    else (outputs.map fun v => v - .fin (Real.log num_roots)).logsumexp (outputs.rank - 1)
  | some t => outputs.gather (outputs.rank - 1) (← t.unsqueeze t.rank)

/-- the loss of a training step in main.py (lines 64-71). -/
def trainLoss (M : Model) (classification : Bool) (data : Tensor Fl) (target : Tensor ℤ) : Res Fl := do
  let outputs ← M.forward data
  if classification then
    let _ ← M.posterior data
    nllLoss outputs target
  else
    return .fin (-1) * (← logLikelihoods outputs).meanAll

/-- the variables of the loop in `test`. -/
structure EvalState where
  /-- `test_loss` -/
  test_loss : Fl := .fin 0
  /-- `test_losses` -/
  test_losses : List Fl := []
  /-- `correct` -/
  correct : Nat := 0
  /-- `total` -/
  total : Nat := 0

/-- one iteration of the loop in `test` (main.py:110-128); `outputs.max(1)` returns the first maximal position. -/
def evalStep (M : Model) (classification : Bool) (s : EvalState) (b : Tensor Fl × Tensor ℤ) : Res EvalState := do
  let outputs ← M.forward b.1
  let lls ← logLikelihoods outputs
  let s := { s with test_loss := s.test_loss + Fl.fin (-1) * lls.sumAll }
  let s := { s with test_losses := ← lls.appendList s.test_losses }
  if classification then
    let predicted ← outputs.argmax 1
    require .shape (b.2.shape = predicted.shape)
    return { s with total := s.total + b.2.size 0, correct := s.correct + Einet.correct b.2 predicted }
  else return s

/-- `test` (main.py:100-137): the printed average loss and, for a classifier, the printed accuracy; `len` is the size of the
dataset.  Simplification: `predicted.eq(target)` would broadcast targets of another shape, here they raise. -/
def evaluate (M : Model) (classification : Bool) (batches : List (Tensor Fl × Tensor ℤ)) (len : Nat) : Res (Fl × Option Fl) := do
  let s ← batches.foldlM (evalStep M classification) {}
  require .zeroDivision (¬(classification = true ∧ s.total = 0))
  let acc := if classification then some (Fl.fin (100 * s.correct / s.total)) else none
  require .zeroDivision (¬(batches = [] ∧ len = 0))
  return (s.test_loss / .fin len, acc)

/-- `SpnGenerative.negative_log_likelihood` (models_pl.py:182-199). -/
def negativeLogLikelihood (M : Model) (data : Tensor Fl) (reduction : String := "mean") : Res Fl := do
  let nll := (← M.forward data).map (.fin (-1) * ·)
  if reduction = "mean" then return nll.meanAll
  else if reduction = "sum" then return nll.sumAll
  else .error .value

/-- `SpnDiscriminative._get_cross_entropy_and_accuracy` (models_pl.py:279-298) after `preprocess`. -/
def crossEntropyAndAccuracy (M : Model) (data : Tensor Fl) (labels : Tensor ℤ) : Res (Fl × Fl) := do
  let ll_y_g_x ← M.posterior data
  let loss ← nllLoss ll_y_g_x labels
  let accuracy := Fl.fin (correct labels (← ll_y_g_x.argmax 1)) / .fin (ll_y_g_x.size 0)
  return (loss, accuracy)

/-- `calc_bpd` (utils.py:27-51). -/
def calcBpd (log_p : Tensor Fl) (image_shape : Nat × Nat × Nat) (has_gauss_dist : Bool) (n_bins : Nat) : Fl :=
  let n_pixels := image_shape.1 * image_shape.2.1 * image_shape.2.2
  if has_gauss_dist then
    let bpd := log_p.map fun v => v - .fin (Real.log n_bins * n_pixels)
    (bpd.map fun v => -v / .fin (Real.log 2 * n_pixels)).meanAll
  else
    let bpd := log_p.map fun v => v - .fin (Real.log n_bins * n_pixels)
    (bpd.map fun v => -v / .fin (Real.log 2 * n_pixels)).meanAll

end Einet
