import Verif.Lit

/-!
# Convolutional circuits of main_pl.py

`make_convpc`, and the methods of `SpnGenerative` that use the circuit.
-/

open Classical MeasureTheory
noncomputable section
namespace Einet
open Tensor

/-- the section `convpc` of the configuration (conf/config.yaml:27-31). -/
def defaultConvpc : ConvConfig where
  channels := [8, 16, 16, 16]
  kernel_size := 2
  structure' := "top-down"
  order := "sum-prod"

/-- `make_convpc` (models_pl.py:59-88) without `mixture`; `cp` is the section `convpc` of the configuration, `logits` are the
parameters of the layers.  The number of classes is stored in the `ConvPcConfig` and read nowhere. -/
def makeConvpc (cfg : LitCfg) (cp : ConvConfig) (A : LeafArrays) (logits : Nat → List Nat → ℝ) : Res ConvModel := do
  let s ← getDataShape cfg.dataset
  buildConv cp s ⟨cfg.leaf A, logits⟩

/-- `SpnGenerative.negative_log_likelihood` (models_pl.py:182-199) of a `ConvPc`. -/
def convNll (M : ConvModel) (data : Tensor Fl) (reduction : String := "mean") : Res Fl := do
  let nll := (← M.forward data).map (.fin (-1) * ·)
  if reduction = "mean" then return nll.meanAll
  else if reduction = "sum" then return nll.sumAll
  else .error .value

/-- the arguments of `spn.sample` in `generate_samples` (models_pl.py:213). -/
def convGenerateArgs (num_samples : Nat) : ConvArgs where
  num_samples := some num_samples
  mpe_at_leaves := true

/-- `SpnGenerative.generate_samples` (models_pl.py:201-219) of a `ConvPc`; `μ` is the law of the noise.  `ConvPc.sample`
(conv_pc.py:658-670) has no argument `is_differentiable`: a `TypeError`. -/
def convGenerate (μ : Measure ℝ) (M : ConvModel) (s : ImgShape) (num_samples : Nat) (differentiable : Bool) : Rand (Tensor Fl) :=
  (if differentiable then Rand.lift (.error .type) else M.sample μ (convGenerateArgs num_samples)).bind fun samples =>
    Rand.lift do
      let samples ← viewFirst [s.channels, s.height, s.width] samples
      return samples.map (· / .fin 255)

end Einet
