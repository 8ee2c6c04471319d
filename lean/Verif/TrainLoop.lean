import Verif.Train
import Verif.Lit

/-!
# The training run of main.py

Models of the construction of the Einet in main.py (lines 147-196), of `train` (lines 43-97) and of the loop over the epochs
(lines 223-225).  The optimiser is an arbitrary function of its state, the loss, the data and the targets: nothing is
assumed about gradients.  Simplifications: images are given with flattened pixels (see C07 for images of rank 4), devices and
mixed precision are left out, the dropout is 0 (main.py:184) so that `model.train()` has no effect.
-/

open Classical
noncomputable section
namespace Einet
open Tensor

/-- the command line arguments (args.py) read by main.py; `--dropout` and `--mixture` are not among them. -/
structure MainArgs where
  dataset : String
  dist : String
  n_bits : Nat
  min_sigma : ℝ
  max_sigma : ℝ
  D : ℤ
  S : ℤ
  I : ℤ
  R : ℤ
  layer : String
  structure' : String
  classification : Bool
  epochs : ℤ
  log_interval : ℤ
  debug : Bool
  dry_run : Bool

/-- the values of all trainable parameters. -/
structure Values where
  arrays : LeafArrays
  logits : Nat → List Nat → ℝ
  rootLogits : List Nat → ℝ
  mixLogits : List Nat → ℝ
  classLogits : List Nat → ℝ

/-- the random choices of the constructor that are kept for the life of the model. -/
structure Draws where
  shuffle : List Nat → List Nat
  randperm : Nat → Nat → List Nat

/-- leaf class and keyword arguments (main.py:154-168).  For any other name `leaf_type` is never assigned (`NameError`);
`piecewise_linear` is not covered here: the script never initialises these leaves, their `forward` raises (C69). -/
def mainLeaf (a : MainArgs) (A : LeafArrays) : Res LeafSpec :=
  if a.dist = "binomial" then .ok (.binomial (2 ^ a.n_bits - 1) A.p)
  else if a.dist = "normal" then .ok (.normal A.p A.q)
  else if a.dist = "normal_rat" then .ok (.ratNormal a.min_sigma a.max_sigma none none A.p A.q)
  else if a.dist = "categorical" then .ok (.categorical (2 ^ a.n_bits) A.logits)
  else if a.dist = "piecewise_linear" then .error .other
  else .error .unboundLocal

/-- the `EinetConfig` of main.py (lines 150-153, 171-186): ten classes for classification, one otherwise. -/
def mainConfig (a : MainArgs) (s : ImgShape) : Config where
  num_features := s.num_pixels
  num_channels := s.channels
  depth := a.D
  num_sums := a.S
  num_leaves := a.I
  num_repetitions := a.R
  num_classes := if a.classification then 10 else 1
  dropout := some (.fin 0)
  layer_type := a.layer
  structure' := a.structure'

/-- all parameters of the constructor. -/
def Values.params (v : Values) (d : Draws) (leaf : LeafSpec) : Params where
  leaf := leaf
  logits := v.logits
  rootLogits := v.rootLogits
  mixLogits := v.mixLogits
  classLogits := v.classLogits
  shuffle := d.shuffle
  randperm := d.randperm

/-- the model of the script and `has_gauss_dist` (main.py:190-196): `model.leaf.base_leaf` exists for factorized leaves only. -/
def mainModel (a : MainArgs) (d : Draws) (v : Values) : Res (Model × Bool) := do
  let s ← getDataShape a.dataset
  let leaf ← mainLeaf a v.arrays
  let M ← build (mainConfig a s) (v.params d leaf)
  match M.leaf with
  | .direct _ => .error .attribute
  | _ => return (M, decide (a.dist = "normal" ∨ a.dist = "normal_rat"))

/-- an optimiser together with the parameters it holds: `step` stands for `zero_grad`, `backward` and `step`
(main.py:61, 74, 77). -/
structure Optim (σ : Type) where
  values : σ → Values
  step : σ → Fl → Tensor Fl → Tensor ℤ → σ

/-- a batch of the loader with the noise drawn for it by `torch.rand_like`. -/
structure LoaderBatch where
  image : Tensor Fl
  target : Tensor ℤ
  noise : List Nat → ℝ

/-- the result of `preprocess` as input of the model. -/
def asFloats : Tensor Fl ⊕ Tensor ℤ → Tensor Fl
  | .inl x => x
  | .inr x => ⟨x.shape, fun i => .fin (x.get i)⟩

/-- one iteration of the loop in `train` up to `optimizer.step()` (main.py:52-77): the new state, the loss, the outputs and the
number of rows.  The model is given by the present values of the parameters. -/
def trainStep {σ : Type} (a : MainArgs) (d : Draws) (O : Optim σ) (s : σ) (b : LoaderBatch) : Res (σ × Fl × Tensor Fl × Nat) := do
  let (M, gauss) ← mainModel a d (O.values s)
  let data := asFloats (← preprocess b.noise b.image a.n_bits (2 ^ a.n_bits) true gauss)
  let outputs ← M.forward data
  let loss ← trainLoss M a.classification data b.target
  return (O.step s loss data b.target, loss, outputs, data.size 0)

/-- the log line of `train` (main.py:81-97): the accuracy of the batch in a classification run. -/
def trainLog (a : MainArgs) (target : Tensor ℤ) (outputs : Tensor Fl) (n : Nat) : Res (Option Fl) :=
  if a.classification then do
    let predicted ← outputs.argmax 1
    require .shape (target.shape = predicted.shape)
    require .zeroDivision (0 < n)
    return some (.fin (100 * correct target predicted / n))
  else .ok none

/-- `train` from batch number `i` on (main.py:43-97): the state after the last step, the losses and the log lines.  An interval
of 0 raises a `ZeroDivisionError` in `batch_idx % args.log_interval`. -/
def trainFrom {σ : Type} (a : MainArgs) (d : Draws) (O : Optim σ) : Nat → σ → List LoaderBatch → Res (σ × List Fl × List (Option Fl))
  | _, s, [] => .ok (s, [], [])
  | i, s, b :: bs =>
    if a.debug = true ∧ 2 < i then .ok (s, [], [])
    else do
      let (s', loss, outputs, n) ← trainStep a d O s b
      require .zeroDivision (a.log_interval ≠ 0)
      if (i : ℤ) % a.log_interval = 0 then do
        let acc ← trainLog a b.target outputs n
        if a.dry_run then return (s', [loss], [acc])
        else
          let (s'', l, m) ← trainFrom a d O (i + 1) s' bs
          return (s'', loss :: l, acc :: m)
      else
        let (s'', l, m) ← trainFrom a d O (i + 1) s' bs
        return (s'', loss :: l, m)

/-- the epochs from `e` on (main.py:224-225); the loader delivers new batches in every epoch. -/
def epochsFrom {σ : Type} (a : MainArgs) (d : Draws) (O : Optim σ) (batches : Nat → List LoaderBatch) : Nat → Nat → σ → Res (σ × List Fl × List (Option Fl))
  | 0, _, s => .ok (s, [], [])
  | k + 1, e, s => do
    let (s', l, m) ← trainFrom a d O 0 s (batches e)
    let (s'', l', m') ← epochsFrom a d O batches k (e + 1) s'
    return (s'', l ++ l', m ++ m')

/-- `for epoch in range(1, args.epochs + 1)` (main.py:224-225). -/
def mainTrain {σ : Type} (a : MainArgs) (d : Draws) (O : Optim σ) (batches : Nat → List LoaderBatch) (s : σ) :
    Res (σ × List Fl × List (Option Fl)) :=
  epochsFrom a d O batches a.epochs.toNat 1 s

end Einet
