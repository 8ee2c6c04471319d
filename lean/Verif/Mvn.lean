import Verif.MvnMath
import Verif.ConvEnd
import Verif.Build

/-!
# Einets with multivariate normal leaves (index sampling mode)

Model of `layers/distributions/multivariate_normal.py` inside an `Einet`: a leaf covers `cardinality` neighbouring features
of a channel.  The layers above see one feature per block.
-/

open Classical MeasureTheory ProbabilityTheory Matrix
open scoped ENNReal
noncomputable section
namespace Einet
open Tensor

/-- values of the parameters `means`, `L_diag_log` and `L_offdiag` (multivariate_normal.py:51-57), by channel, block, leaf,
repetition and position in the block. -/
structure MvnParams where
  means : Nat → Nat → Nat → Nat → Nat → ℝ
  L_diag_log : Nat → Nat → Nat → Nat → Nat → ℝ
  L_offdiag : Nat → Nat → Nat → Nat → Nat → Nat → ℝ

/-- `MultivariateNormal` (multivariate_normal.py:14-55). -/
structure MvnLeaf where
  num_features : Nat
  num_channels : Nat
  num_leaves : Nat
  num_repetitions : Nat
  cardinality : Nat
  params : MvnParams

/-- `t.repeat(1, …, k, …, 1)` with `k` at position `d`. -/
def Tensor.repeatDim {α : Type} (k d : Nat) (t : Tensor α) : Res (Tensor α) := do
  require .index (d < t.rank)
  return ⟨setAt d (t.size d * k) t.shape, fun i => t.get (setAt d (at' d i % t.size d) i)⟩

namespace MvnLeaf

/-- `self.out_features` (multivariate_normal.py:45): `ceil(num_features / cardinality)`; the float division is idealised. -/
def out_features (L : MvnLeaf) : Nat := (L.num_features + L.cardinality - 1) / L.cardinality

/-- `self._pad_value` (multivariate_normal.py:44). -/
def pad_value (L : MvnLeaf) : Nat := L.num_features % L.cardinality

/-- `param_shape` (multivariate_normal.py:48). -/
def paramShape (L : MvnLeaf) : List Nat := [L.num_channels, L.out_features, L.num_leaves, L.num_repetitions]

/-- `self._num_dists` (multivariate_normal.py:49). -/
def num_dists (L : MvnLeaf) : Nat := numelS L.paramShape

/-- mean of one of the normal distributions; `j` is a position in `param_shape`. -/
def loc (L : MvnLeaf) (j : List Nat) : Fin L.cardinality → ℝ := fun k =>
  L.params.means (at' 0 j) (at' 1 j) (at' 2 j) (at' 3 j) k

/-- `scale_tril` (multivariate_normal.py:57-63). -/
def scale_tril (L : MvnLeaf) (j : List Nat) : Matrix (Fin L.cardinality) (Fin L.cardinality) ℝ := Matrix.of fun a b =>
  (if a = b then Real.exp (L.params.L_diag_log (at' 0 j) (at' 1 j) (at' 2 j) (at' 3 j) a) else 0) +
  (if b < a then L.params.L_offdiag (at' 0 j) (at' 1 j) (at' 2 j) (at' 3 j) a b else 0)

/-- `log_prob` of one of the normal distributions.  Simplification: the result for infinite arguments (an infinity or NaN)
is NaN. -/
def distLogProb (L : MvnLeaf) (j : List Nat) (v : Nat → Fl) : Fl :=
  if ∀ k, k < L.cardinality → (v k).IsFin then .fin (mvnLogProb (L.loc j) (L.scale_tril j) fun k => (v k).val) else .nan

/-- `CustomMultivariateNormalDist.log_prob` (multivariate_normal.py:112-138) of a tensor of shape `[N, C, F, 1, 1]`.
`F.pad` refuses to reflect two dimensions of a tensor of rank 5; `repeat` of sizes one is `expand`. -/
def logProb (L : MvnLeaf) (x : Tensor Fl) : Res (Tensor Fl) := do
  require .notImplemented (L.pad_value = 0)
  let x ← x.view [x.size 0, L.num_channels, L.out_features, 1, 1, L.cardinality]
  let x ← x.expand [none, none, none, some L.num_leaves, some L.num_repetitions, none]
  let x ← x.view [x.size 0, L.num_dists, L.cardinality]
  let y : Tensor Fl := ⟨[x.size 0, L.num_dists], fun j =>
    L.distLogProb (unflat L.paramShape (at' 1 j)) fun k => x.get [at' 0 j, at' 1 j, k]⟩
  y.view [y.size 0, L.num_channels, L.out_features, L.num_leaves, L.num_repetitions]

/-- the index tensor `s` of `_marginalize_input` (abstract_leaf.py:248-256): a Python list has no method `div`. -/
def adjust (L : MvnLeaf) (s : Scopes) : Res Scopes := do
  if 1 < L.cardinality then
    require .attribute (s.isList = false)
    return ⟨false, s.idx.map (Int.fdiv · L.cardinality)⟩
  else return s

/-- `_marginalize_input` (abstract_leaf.py:236-264). -/
def marginalize (L : MvnLeaf) (y : Tensor Fl) : Option Scopes → Res (Tensor Fl)
  | some s => do
    let l ← (← L.adjust s).resolve L.out_features
    return ⟨y.shape, fun j => if at' 2 j ∈ l then .fin 0 else y.get j⟩
  | none => return y.map fun v => if v.isnan then .fin 0 else v

/-- `x[nan_mask] = torch.nan` (abstract_leaf.py:288-290): the mask has the shape of the input, which must agree with the
leading sizes of the result. -/
def putNan (L : MvnLeaf) (x y : Tensor Fl) : Res (Tensor Fl) :=
  if AllIdx x.shape fun i => (x.get i).isnan = false then .ok y
  else do
    require .index (x.size 2 = L.out_features)
    return ⟨y.shape, fun j => if (x.get [at' 0 j, at' 1 j, at' 2 j]).isnan then .nan else y.get j⟩

/-- `AbstractLeaf.forward` (abstract_leaf.py:266-294) for this leaf. -/
def forward (L : MvnLeaf) (x : Tensor Fl) (marginalized_scopes : Option Scopes) : Res (Tensor Fl) := do
  let x0 := x.map fun v => if v.isnan then .fin 0 else v
  let y ← L.logProb (x0.unsqueezeEnd 2)
  let y ← L.putNan x y
  L.marginalize y marginalized_scopes

/-- `self.mv.sample(sample_shape)`: `loc + scale_tril @ eps` for standard normal `eps`; shape `[n, num_dists, K]`. -/
def rawSample (L : MvnLeaf) (n : Nat) : Rand (Tensor ℝ) :=
  (Rand.drawAll (box [n, L.num_dists]) (fun _ => drawVec (gaussianReal 0 1) L.cardinality) (fun _ _ => 0)).bind fun eps =>
    .pure ⟨[n, L.num_dists, L.cardinality], fun j =>
      if h : at' 2 j < L.cardinality then
        (L.loc (unflat L.paramShape (at' 1 j)) +
          L.scale_tril (unflat L.paramShape (at' 1 j)) *ᵥ fun k => eps [at' 0 j, at' 1 j] k) ⟨at' 2 j, h⟩
      else 0⟩

/-- `self.mean.repeat(num_samples, 1, 1, 1, 1)` (multivariate_normal.py:173); the sizes one are left out. -/
def rawMode (L : MvnLeaf) (n : Nat) : Tensor ℝ :=
  ⟨[n, L.num_dists, L.cardinality], fun j =>
    if h : at' 2 j < L.cardinality then L.loc (unflat L.paramShape (at' 1 j)) ⟨at' 2 j, h⟩ else 0⟩

/-- the common end of `sample` and `mpe` (multivariate_normal.py:143-155, 175-188): shape `[N, C, F, I, R]`. -/
def arrange (L : MvnLeaf) (n : Nat) (t : Tensor ℝ) : Res (Tensor ℝ) := do
  let t ← t.view [n, L.num_channels, L.out_features, L.num_leaves, L.num_repetitions, L.cardinality]
  let t ← t.permute [0, 1, 2, 5, 3, 4]
  t.view [n, L.num_channels, L.num_features, L.num_leaves, L.num_repetitions]

/-- `dist_sample` up to and including the selection of the repetition (abstract_leaf.py:95-149), not returning parameters:
shape `[N, C, F, I]`.  The leaf temperature is not used for this distribution (abstract_leaf.py:120-125). -/
def sampleAll (L : MvnLeaf) (ctx : Ctx) : Rand (Tensor ℝ) := do
  let t ← if ctx.is_mpe = true ∨ ctx.mpe_at_leaves = true then .pure (L.rawMode ctx.num_samples)
    else L.rawSample ctx.num_samples
  Rand.lift do
    let samples ← L.arrange ctx.num_samples t
    let r_idxs ← (ctx.indices_repetition.unsqueezeEnd 4).expand
      [none, some L.num_channels, some L.num_features, some L.num_leaves, none]
    (← samples.gather 4 r_idxs).squeeze 4

end MvnLeaf

/-- an `Einet` with multivariate normal leaves; of the base leaf of `net` only the sizes are used. -/
structure MvnEinet where
  leaf : MvnLeaf
  net : Model

namespace MvnEinet

/-- `Einet.forward` with the input caches it fills (einet.py:121-204). -/
def run (E : MvnEinet) (x : Tensor Fl) (marginalized_scopes : Option Scopes) : Res (Tensor Fl × Caches) := do
  let x ← { E.net with num_features := E.leaf.num_features }.prepInput x
  let y ← E.leaf.forward x marginalized_scopes
  let y ← E.net.leaf.merge y
  E.net.upper y

/-- `model(x, marginalized_scopes)`. -/
def forward (E : MvnEinet) (x : Tensor Fl) (marginalized_scopes : Option Scopes := none) : Res (Tensor Fl) :=
  (E.run x marginalized_scopes).map Prod.fst

/-- selection of the leaf components: `FactorizedLeaf._index_leaf_samples` (factorized_leaf.py:129-158),
`FactorizedLeafSimple._index_leaf_samples` (325-367) or, without factorized leaf, the end of `dist_sample`
(abstract_leaf.py:151-165). -/
def select (E : MvnEinet) (ctx : Ctx) (samples : Tensor ℝ) : Res (Tensor ℝ) := do
  match E.net.leaf with
  | .factorized L =>
    require .assertion (samples.shape = [ctx.num_samples, E.leaf.num_channels, E.leaf.num_features, E.leaf.num_leaves])
    let g ← ctx.indices_out.gather 1 (L.groupIdx ctx.indices_repetition)
    let g ← g.viewInfer [ctx.num_samples, 1]
    let g ← (g.unsqueezeEnd 1).expand [none, some E.leaf.num_channels, none, none]
    let g ← g.repeatDim E.leaf.cardinality 2
    (← samples.gather 3 g).squeeze 3
  | .simple L =>
    require .assertion (samples.shape = [ctx.num_samples, E.leaf.num_channels, E.leaf.num_features, E.leaf.num_leaves])
    let i ← L.unfoldIndices ctx.indices_out
    (← samples.gather 3 (i.unsqueezeEnd 1)).squeeze 3
  | .direct _ =>
    let p_idxs ← ctx.indices_out.view [ctx.indices_out.numel / E.leaf.num_features, 1, E.leaf.num_features]
    let p_idxs ← (p_idxs.unsqueezeEnd 1).expand [none, some E.leaf.num_channels, none, none]
    (← samples.gather 3 p_idxs).squeeze 3

/-- `self.leaf.sample(ctx)`. -/
def sampleLeaf (E : MvnEinet) (ctx : Ctx) : Rand (Tensor ℝ) :=
  (E.leaf.sampleAll ctx).bind fun samples => Rand.lift (E.select ctx samples)

/-- the forward pass on the evidence that fills the input caches (sampling_utils.py:49-56). -/
def evidenceCaches (E : MvnEinet) (a : SampleArgs) : Res Caches :=
  match a.evidence with
  | none => .ok ⟨[], none⟩
  | some e => (E.run e a.marginalized_scopes).map Prod.snd

/-- `Einet.sample` (einet.py:533-697). -/
def sample (E : MvnEinet) (a : SampleArgs) : Rand (Tensor Fl) :=
  (Rand.lift (a.check E.net)).bind fun _ =>
    (Rand.lift (E.evidenceCaches a)).bind fun caches =>
      (E.net.samplePath a caches).bind fun ctx =>
        (E.sampleLeaf ctx).bind fun samples => Rand.lift (Model.finish a samples)

end MvnEinet

/-- the configuration as seen by the layers above the leaves: one feature per block (einet.py:503). -/
def Config.blocks (c : Config) (K : ℤ) : Config :=
  { c with num_features := ((c.num_features.toNat + K.toNat - 1) / K.toNat : Nat), cardinality := none }

/-- `Einet(config)` with `leaf_type=MultivariateNormal` and `leaf_kwargs={"cardinality": K}` (einet.py:94-115, 238-508).  A
missing `cardinality` raises a `TypeError`.  Simplification: the checks of the leaf come before those of the layers. -/
def buildMvn (c : Config) (P : Params) (θ : MvnParams) : Res MvnEinet := do
  c.assertValid
  let K ← match c.cardinality with
    | none => Except.error Err.type
    | some K => Except.ok K
  let _ ← checkValid (.int K) .int (some (.int 1))
  let leaf : MvnLeaf := {
    num_features := c.num_features.toNat
    num_channels := c.num_channels.toNat
    num_leaves := c.num_leaves.toNat
    num_repetitions := c.num_repetitions.toNat
    cardinality := K.toNat
    params := θ }
  let P' := { P with leaf := .normal (fun _ _ _ _ => 0) (fun _ _ _ _ => 0) }
  if c.structure' = "top-down" then return ⟨leaf, ← buildTopDown (c.blocks K) P'⟩
  else if c.structure' = "bottom-up" then return ⟨leaf, ← buildBottomUp { c with cardinality := none } P'⟩
  else .error .value

end Einet
