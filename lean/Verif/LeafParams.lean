import Verif.Build

/-!
# Parameters of the leaves

Models of `get_params` of the leaf distributions and of `Einet.sample` with `return_leaf_params = True` and integer indices.
-/

open Classical
noncomputable section
namespace Einet
open Tensor

/-- `torch.stack([a, b], dim=-1)` of two parameters of shape `[1, C, F, I, R]`. -/
def stackPar (d : LeafDims) (a b : Par) : Tensor Fl :=
  ⟨[1, d.num_channels, d.num_features, d.num_leaves, d.num_repetitions, 2], fun j =>
    if at' 5 j = 0 then .fin (a (at' 1 j) (at' 2 j) (at' 3 j) (at' 4 j)) else .fin (b (at' 1 j) (at' 2 j) (at' 3 j) (at' 4 j))⟩

namespace LeafSpec

/-- `get_params` (normal.py:41-42, 114-116; binomial.py:60-61; categorical.py:36-37; `Bernoulli` inherits
abstract_leaf.py:317-325): shape `[1, C, F, I, R, P]`.  If `RatNormal` uses the constant `sigma = 1.0` (normal.py:104),
`torch.stack` gets a float and raises a `TypeError`. -/
def getParams (s : LeafSpec) (d : LeafDims) : Res (Tensor Fl) :=
  match s with
  | normal means logvar => .ok (stackPar d means logvar)
  | ratNormal min_sigma max_sigma min_mean max_mean means stds => do
    require .assertion (∀ hi, max_mean = some hi → hi ≠ 0 → min_mean ≠ none)
    require .type (min_sigma < max_sigma)
    let proj : Nat → Nat → Nat → Nat → ℝ × ℝ := fun c f i r =>
      match ratProject min_sigma max_sigma min_mean max_mean (means c f i r) (stds c f i r) with
      | .ok p => p
      | .error _ => (0, 1)
    return stackPar d (fun c f i r => (proj c f i r).1) (fun c f i r => (proj c f i r).2)
  | binomial _ logits => .ok ⟨[1, d.num_channels, d.num_features, d.num_leaves, d.num_repetitions, 1], fun j =>
      .fin (logits (at' 1 j) (at' 2 j) (at' 3 j) (at' 4 j))⟩
  | bernoulli _ => .error .notImplemented
  | categorical num_bins logits =>
    .ok ⟨[1, d.num_channels, d.num_features, d.num_leaves, d.num_repetitions, num_bins.toNat], fun j =>
      .fin (logits (at' 1 j) (at' 2 j) (at' 3 j) (at' 4 j) (at' 5 j))⟩

end LeafSpec

/-- `BaseLeaf` sizes as constructor arguments. -/
def BaseLeaf.dims (B : BaseLeaf) : LeafDims := ⟨B.num_features, B.num_channels, B.num_leaves, B.num_repetitions⟩

/-- `FactorizedLeaf._index_leaf_params` with integer indices (factorized_leaf.py:178-202); cardinality 1, so the `repeat` of line
199 does nothing. -/
def FactLeaf.indexParams (L : FactLeaf) (ctx : Ctx) (params : Tensor Fl) : Res (Tensor Fl) := do
  let num_params := params.size (params.rank - 1)
  let r_idxs ← (ctx.indices_repetition.unsqueezeEnd 5).expand
    [none, some L.base.num_channels, some L.base.num_features, some L.base.num_leaves, none, some num_params]
  let params ← params.expand [some ctx.num_samples, none, none, none, none, none]
  let params ← (← params.gather 4 r_idxs).squeeze 4
  let g ← ctx.indices_out.gather 1 (L.groupIdx ctx.indices_repetition)
  let g ← g.viewInfer [ctx.num_samples, 1]
  let g ← (g.unsqueezeEnd 2).expand [none, some L.base.num_channels, none, none, some num_params]
  let params ← (← params.gather 3 g).squeeze 3
  require .assertion (params.shape = [ctx.num_samples, L.base.num_channels, L.base.num_features, num_params])
  return params

/-- `FactorizedLeafSimple._index_leaf_params` with integer indices (factorized_leaf.py:369-413). -/
def FactSimple.indexParams (L : FactSimple) (ctx : Ctx) (params : Tensor Fl) : Res (Tensor Fl) := do
  let num_params := params.size (params.rank - 1)
  let i ← L.unfoldIndices ctx.indices_out
  let i ← (i.unsqueezeEnd 2).expand [none, none, none, none, some num_params]
  let params ← params.squeeze 4
  let params ← params.expand [some ctx.num_samples, none, none, none, none]
  let params ← (← params.gather 3 i).squeeze 3
  require .assertion (params.shape = [ctx.num_samples, L.base.num_channels, L.base.num_features, num_params])
  return params

/-- `get_params` of the distribution object (abstract_leaf.py:118): `CustomNormal` stacks `mu` and `2 * log(sigma)`
(normal.py:177-178); the constant `sigma = 1.0` has no `log`; `dist.Binomial` and `dist.Categorical` have no `get_params`;
`Bernoulli` fails when its distribution is asked for with a context (abstract_leaf.py:308). -/
def LeafSpec.distParams (s : LeafSpec) (d : LeafDims) : Res (Tensor Fl) :=
  match s with
  | .normal means logvar => .ok ⟨[1, d.num_channels, d.num_features, d.num_leaves, d.num_repetitions, 2], fun j =>
      if at' 5 j = 0 then .fin (means (at' 1 j) (at' 2 j) (at' 3 j) (at' 4 j))
      else Fl.log (.fin (Real.exp (1 / 2 * logvar (at' 1 j) (at' 2 j) (at' 3 j) (at' 4 j)))) * .fin 2⟩
  | .ratNormal min_sigma max_sigma min_mean max_mean means stds => do
    require .assertion (∀ hi, max_mean = some hi → hi ≠ 0 → min_mean ≠ none)
    require .attribute (min_sigma < max_sigma)
    let proj : Nat → Nat → Nat → Nat → ℝ × ℝ := fun c f i r =>
      match ratProject min_sigma max_sigma min_mean max_mean (means c f i r) (stds c f i r) with
      | .ok p => p
      | .error _ => (0, 1)
    return ⟨[1, d.num_channels, d.num_features, d.num_leaves, d.num_repetitions, 2], fun j =>
      if at' 5 j = 0 then .fin (proj (at' 1 j) (at' 2 j) (at' 3 j) (at' 4 j)).1
      else Fl.log (.fin (proj (at' 1 j) (at' 2 j) (at' 3 j) (at' 4 j)).2) * .fin 2⟩
  | .binomial _ _ => .error .attribute
  | .bernoulli _ => .error .type
  | .categorical _ _ => .error .attribute

/-- the indexing of `dist_sample` with integer indices, applied to parameters (abstract_leaf.py:138-165). -/
def BaseLeaf.indexParams (B : BaseLeaf) (ctx : Ctx) (samples : Tensor Fl) : Res (Tensor Fl) := do
  let r_idxs ← (ctx.indices_repetition.unsqueezeEnd 5).expand
    [none, some B.num_channels, some B.num_features, some B.num_leaves, none, none]
  let samples ← (← samples.gather 4 r_idxs).squeeze 4
  let p_idxs ← ctx.indices_out.view [ctx.indices_out.numel / B.num_features, 1, B.num_features]
  let p_idxs ← (p_idxs.unsqueezeEnd 2).expand [none, some B.num_channels, none, none, none]
  (← samples.gather 3 p_idxs).squeeze 4

/-- `self.leaf.sample(ctx)` with `ctx.return_leaf_params` (abstract_leaf.py:95-165; factorized_leaf.py:119-123, 314-319). -/
def Leaf.sampleParams (s : LeafSpec) : Leaf → Ctx → Res (Tensor Fl)
  | .direct B, ctx => do
    let samples ← s.distParams B.dims
    B.indexParams ctx samples
  | .factorized L, ctx => do
    let params ← s.getParams L.base.dims
    L.indexParams ctx params
  | .simple L, ctx => do
    let params ← s.getParams L.base.dims
    L.indexParams ctx params

/-- `Einet.sample(..., return_leaf_params=True)` (einet.py:533-681) on a model whose leaf was constructed from `s`: the parameters
are returned before the evidence is filled in. -/
def Model.sampleParams (M : Model) (s : LeafSpec) (a : SampleArgs) : Rand (Tensor Fl) :=
  (Rand.lift (a.check M)).bind fun _ =>
    (Rand.lift (M.evidenceCaches a)).bind fun caches =>
      (M.samplePath a caches).bind fun ctx => Rand.lift (M.leaf.sampleParams s ctx)

end Einet
