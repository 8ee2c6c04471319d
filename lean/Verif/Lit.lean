import Verif.Quantise
import Verif.Conv
import Verif.DiffLaw
import Verif.Train

/-!
# The image models of the training scripts

`make_einet` (models_pl.py:23-56), `LitModel.preprocess` (models_pl.py:120-125) and `SpnGenerative.generate_samples`
(models_pl.py:201-219), with the shapes of the data sets (data.py:45-114, 301-324).  Preprocessing is given here as a function of
values; the effect on the storage of the batch is in Heap.lean.
-/

open Classical MeasureTheory
noncomputable section
namespace Einet
open Tensor

/-- `Shape.num_pixels` (data.py:66-68). -/
def ImgShape.num_pixels (s : ImgShape) : Nat := s.width * s.height

/-- number of columns of the data sets `DEBD` (data.py:301-324). -/
def debdShapes : List (String × Nat) := [
  ("accidents", 111), ("ad", 1556), ("baudio", 100), ("bbc", 1058), ("bnetflix", 100), ("book", 500),
  ("c20ng", 910), ("cr52", 889), ("cwebkb", 839), ("dna", 180), ("jester", 100), ("kdd", 64),
  ("kosarek", 190), ("moviereview", 1001), ("msnbc", 17), ("msweb", 294), ("nltcs", 16), ("plants", 69),
  ("pumsb_star", 163), ("tmovie", 500), ("tretail", 135), ("voting", 1359)]

/-- the table of `get_data_shape` (data.py:87-114). -/
def imageShapes : List (String × ImgShape) := [
  ("mnist-16", ⟨1, 16, 16⟩), ("mnist-32", ⟨1, 32, 32⟩), ("mnist-bin", ⟨1, 28, 28⟩), ("mnist", ⟨1, 28, 28⟩),
  ("fmnist", ⟨1, 28, 28⟩), ("fmnist-16", ⟨1, 16, 16⟩), ("fmnist-32", ⟨1, 32, 32⟩), ("cifar", ⟨3, 32, 32⟩),
  ("svhn", ⟨3, 32, 32⟩), ("svhn-extra", ⟨3, 32, 32⟩), ("celeba", ⟨3, 128, 128⟩), ("celeba-small", ⟨3, 64, 64⟩),
  ("celeba-tiny", ⟨3, 32, 32⟩), ("lsun", ⟨3, 32, 32⟩), ("fake", ⟨3, 32, 32⟩), ("flowers", ⟨3, 32, 32⟩),
  ("tiny-imagenet", ⟨3, 32, 32⟩), ("lfw", ⟨3, 32, 32⟩), ("20newsgroup", ⟨1, 50, 1⟩), ("kddcup99", ⟨1, 118, 1⟩),
  ("covtype", ⟨1, 54, 1⟩), ("breast_cancer", ⟨1, 30, 1⟩), ("wine", ⟨1, 13, 1⟩), ("digits", ⟨1, 8, 8⟩)]

/-- `get_data_shape` (data.py:71-114): channels, height and width of the data; other names raise a `KeyError`. -/
def getDataShape (dataset_name : String) : Res ImgShape :=
  if "synth".toList <:+: dataset_name.toList then .ok ⟨2, 1, 1⟩
  else match debdShapes.lookup dataset_name with
    | some n => .ok ⟨1, n, 1⟩
    | none => match imageShapes.lookup dataset_name with
      | some s => .ok s
      | none => .error .other

/-- the fields of the configuration read by `make_einet` (conf/config.yaml). -/
structure LitCfg where
  dataset : String
  dist : DistName
  n_bits : Nat
  min_sigma : ℝ
  max_sigma : ℝ
  D : ℤ
  S : ℤ
  I : ℤ
  R : ℤ
  layer_type : String
  structure' : String
  dropout : Option Fl
  num_classes : ℤ

/-- free parameters of the leaves: two arrays of four dimensions and one of five, of which every leaf class uses some. -/
structure LeafArrays where
  p : Par
  q : Par
  logits : Nat → Nat → Nat → Nat → Nat → ℝ

namespace LitCfg

/-- the leaf class chosen by the configuration (models_pl.py:35). -/
def leaf (cfg : LitCfg) (A : LeafArrays) : LeafSpec := getDistribution cfg.n_bits cfg.min_sigma cfg.max_sigma A.p A.q A.logits cfg.dist

/-- the `EinetConfig` of the scripts (models_pl.py:37-50). -/
def config (cfg : LitCfg) (s : ImgShape) : Config where
  num_features := s.num_pixels
  num_channels := s.channels
  depth := cfg.D
  num_sums := cfg.S
  num_leaves := cfg.I
  num_repetitions := cfg.R
  num_classes := cfg.num_classes
  dropout := cfg.dropout
  layer_type := cfg.layer_type
  structure' := cfg.structure'

end LitCfg

/-- `make_einet` (models_pl.py:23-56) without `mixture`; `P` holds the parameters and random choices of the constructor. -/
def makeEinet (cfg : LitCfg) (A : LeafArrays) (P : Params) : Res Model := do
  let s ← getDataShape cfg.dataset
  build (cfg.config s) { P with leaf := cfg.leaf A }

/-- `LitModel.preprocess` (models_pl.py:120-125). -/
def litPreprocess (dist : DistName) (data : Tensor Fl) : Tensor Fl :=
  match dist with
  | .binomial => data.map (· * .fin 255)
  | _ => data

/-- `t.view(-1, *s)`: the first size is inferred. -/
def viewFirst (s : List Nat) (t : Tensor Fl) : Res (Tensor Fl) := do
  require .shape (numelS s ≠ 0 ∧ t.numel % numelS s = 0)
  t.view (t.numel / numelS s :: s)

/-- the arguments of `spn.sample` in `generate_samples`. -/
def generateArgs (num_samples : Nat) : SampleArgs where
  num_samples := some num_samples
  mpe_at_leaves := true

/-- `SpnGenerative.generate_samples` (models_pl.py:201-219) of an Einet; `μ` is the law of the noise of differentiable sampling. -/
def generateSamples (μ : Measure ℝ) (M : Model) (s : ImgShape) (num_samples : Nat) (differentiable : Bool) : Rand (Tensor Fl) :=
  (if differentiable then M.sampleR μ (generateArgs num_samples) else M.sample (generateArgs num_samples)).bind fun samples =>
    Rand.lift do
      let samples ← viewFirst [s.channels, s.height, s.width] samples
      return samples.map (· / .fin 255)

end Einet
