import Verif.Einet

/-!
# Differentiable sampling

Models of the branches `is_differentiable=True` of `Einet.sample` and of the functions below it: integer indices are replaced
by one-hot tensors, `gather` by `index_one_hot` and the draw by `SIMPLE` (simple_einet/sampling_utils.py, einet.py, the sum
layers and the leaves).  Gradients are not modelled, only the values.

The Gumbel noise of one call of `SIMPLE` is an argument (`noise`), an arbitrary tensor: what is proved holds for every outcome
of the generator.
-/

open Classical
noncomputable section
namespace Einet
open Tensor

/-- `index_one_hot` (sampling_utils.py:248-295); the einsum branch is switched off in the code. -/
def indexOneHot (tensor index : Tensor Fl) (dim : Nat) : Res (Tensor Fl) := do
  require .index (dim < tensor.rank ∧ dim < index.rank)
  require .assertion (tensor.size dim = index.size dim)
  require .assertion (tensor.rank = index.rank)
  (← tensor.mul index).sum dim

/-- `y_hard` and the straight-through value (sampling_utils.py:197-203): one-hot of the largest entry of `perturbed` along
`dim`, minus `y`, plus `y`. -/
def straightThrough (y perturbed : Tensor Fl) (dim : Nat) : Res (Tensor Fl) := do
  let index ← perturbed.argmax dim
  let y_hard : Tensor Fl := ⟨perturbed.shape, fun i => if at' dim i = index.get (delAt dim i) then .fin 1 else .fin 0⟩
  let y_hard ← y_hard.view y.shape
  (← y_hard.sub y).add y

/-- adding the Gumbel noise, unless it is `none` (sampling_utils.py:191-193). -/
def perturb (noise : Option (List Nat → Fl)) (w : List Nat → Fl) (i : List Nat) : Fl :=
  match noise with
  | none => w i
  | some g => w i + g i

/-- `SIMPLE` (sampling_utils.py:166-203). `noise = none` is `is_mpe=True`. -/
def simple (logits logWeights : Option (Tensor Fl)) (dim : Nat) (noise : Option (List Nat → Fl)) : Res (Tensor Fl) := do
  require .assertion (xor logits.isSome logWeights.isSome = true)
  let (y, base) ← match logits, logWeights with
    | some l, _ => do .ok (← l.softmax dim, l)
    | none, some w => .ok (w.map Fl.exp, w)
    | none, none => .error .other
  let base : Tensor Fl := ⟨base.shape, perturb noise base.get⟩
  let perturbed ← base.softmax dim
  straightThrough y perturbed dim

/-- `SamplingContext` with one-hot indices: `indices_out` of shape `[N, D, S]` and `indices_repetition` of shape `[N, R]`
(sampling_utils.py:85-132). -/
structure DCtx where
  num_samples : Nat
  indices_out : Tensor Fl
  indices_repetition : Tensor Fl
  is_mpe : Bool := false
  mpe_at_leaves : Bool := false
  temperature_leaves : ℝ := 1
  temperature_sums : ℝ := 1

/-- `AbstractSumLayer._check_context_shapes` and `_check_repetition_indices` for one-hot indices
(abstract_layers.py:165-186); `D`, `S`, `R` are `num_features_out`, `num_sums_out` and `num_repetitions` of the layer. -/
def checkContextD (D S R : Nat) (ctx : DCtx) : Res Unit := do
  require .index (2 ≤ ctx.indices_out.rank ∧ 1 ≤ ctx.indices_repetition.rank)
  require .assertion (ctx.indices_out.size 0 = ctx.num_samples)
  require .assertion (ctx.indices_out.size 1 = D)
  require .assertion (ctx.indices_repetition.size 0 = ctx.num_samples)
  require .assertion (ctx.indices_out.rank = 3)
  require .assertion (ctx.indices_out.size 2 = S)
  require .assertion (ctx.indices_repetition.rank = 2)
  require .assertion (ctx.indices_repetition.size 1 = R)
  require .assertion (ctx.indices_repetition.size 0 = ctx.indices_out.size 0)

/-- `sample_categorical_differentiably(dim, is_mpe, log_weights=...)` with the default method
(sampling_utils.py:206-236). -/
def drawOneHot (ctx : DCtx) (noise : List Nat → Fl) (logWeights : Tensor Fl) : Res (Tensor Fl) :=
  simple none (some logWeights) 2 (if ctx.is_mpe then none else some noise)

/-- `AbstractSumLayer.sample` (abstract_layers.py:191-206), one-hot indices. -/
def absSampleD (D S R : Nat) (select : DCtx → Res (Tensor Fl)) (condition : Cache → DCtx → Tensor Fl → Res (Tensor Fl))
    (post : DCtx → Tensor Fl → Res (Tensor Fl)) (cache : Option Cache) (noise : List Nat → Fl) (ctx : DCtx) :
    Res DCtx := do
  checkContextD D S R ctx
  let w ← select ctx
  let w ← match cache with
    | none => .ok w
    | some c => condition c ctx w
  let indices ← drawOneHot ctx noise w
  let indices ← post ctx indices
  return { ctx with indices_out := indices }

/-- `t.view(a, -1, b)`. -/
def viewMid {α : Type} (a b : Nat) (t : Tensor α) : Res (Tensor α) := do
  require .shape (0 < a * b)
  t.view [a, t.numel / (a * b), b]

/-- `logits` selected by the one-hot channels `p_idxs` (already of shape `[N, D, S]`) and the one-hot repetitions, for logits of
shape `[D, S_in, S_out, R]` (sum.py:91-105, linsum.py:162-176, linsum.py:357-370). -/
def selectOneHot (L : SumL) (D : Nat) (ctx : DCtx) (p_idxs : Tensor Fl) : Res (Tensor Fl) := do
  let logits ← L.logits.unsqueeze 0
  let p_idxs := (← p_idxs.unsqueeze 2).unsqueezeEnd 1
  let logits ← indexOneHot logits p_idxs 3
  require .assertion (logits.shape = [ctx.num_samples, D, L.num_sums_in, L.num_repetitions])
  let r_idxs ← ctx.indices_repetition.view [ctx.num_samples, 1, 1, L.num_repetitions]
  indexOneHot logits r_idxs 3

namespace SumLayer

/-- `SumLayer._select_weights`, one-hot branch (sum.py:89-105, 120-126). -/
def selectWeightsD (L : SumL) (ctx : DCtx) : Res (Tensor Fl) := do
  let logits ← selectOneHot L L.num_features ctx ctx.indices_out
  require .assertion (logits.shape = [ctx.num_samples, L.num_features, L.num_sums_in])
  logitsToLogWeights logits 2 ctx.temperature_sums

/-- `SumLayer._condition_weights_on_evidence`, one-hot branch (sum.py:142-158). -/
def conditionD (L : SumL) (c : Cache) (ctx : DCtx) (logWeights : Tensor Fl) : Res (Tensor Fl) := do
  match c with
  | .two _ _ => .error .other
  | .one lls =>
    let r_idxs ← ctx.indices_repetition.view [ctx.num_samples, 1, 1, L.num_repetitions]
    posteriorWeights logWeights (← indexOneHot lls r_idxs 3)

/-- `SumLayer.sample`, one-hot branch. -/
def sampleD (L : SumL) (cache : Option Cache) (noise : List Nat → Fl) (ctx : DCtx) : Res DCtx :=
  absSampleD L.num_features L.num_sums_out L.num_repetitions (selectWeightsD L) (conditionD L) (fun _ i => .ok i) cache noise ctx

end SumLayer

namespace MixingLayer

/-- `MixingLayer._select_weights`, one-hot branch (mixing.py:101-106, 118-124). -/
def selectWeightsD (L : SumL) (ctx : DCtx) : Res (Tensor Fl) := do
  let logits ← L.logits.unsqueeze 0
  let logits ← indexOneHot logits (ctx.indices_out.unsqueezeEnd 1) 2
  require .assertion (logits.shape = [ctx.num_samples, L.num_features, L.num_sums_in])
  logitsToLogWeights logits 2 ctx.temperature_sums

/-- `MixingLayer._condition_weights_on_evidence`, one-hot branch (mixing.py:83-99). -/
def conditionD (L : SumL) (c : Cache) (ctx : DCtx) (logWeights : Tensor Fl) : Res (Tensor Fl) := do
  match c with
  | .two _ _ => .error .other
  | .one lls =>
    let p_idxs ← ctx.indices_out.view [ctx.num_samples, 1, L.num_sums_out, 1]
    posteriorWeights logWeights (← indexOneHot lls p_idxs 2)

/-- `MixingLayer.sample`, one-hot branch; the layer has `num_repetitions = 1` (mixing.py:33-35). -/
def sampleD (L : SumL) (cache : Option Cache) (noise : List Nat → Fl) (ctx : DCtx) : Res DCtx :=
  absSampleD L.num_features L.num_sums_out 1 (selectWeightsD L) (conditionD L) (fun _ i => .ok i) cache noise ctx

end MixingLayer

namespace LinsumLayer

/-- `LinsumLayer._select_weights`, one-hot branch (linsum.py:160-176, 194-199). -/
def selectWeightsD (L : SumL) (ctx : DCtx) : Res (Tensor Fl) := do
  let logits ← selectOneHot L (numFeaturesOut L) ctx ctx.indices_out
  require .assertion (logits.shape = [ctx.num_samples, numFeaturesOut L, L.num_sums_in])
  logitsToLogWeights logits 2 ctx.temperature_sums

/-- `LinsumLayer._condition_weights_on_evidence`, one-hot branch (linsum.py:138-158). -/
def conditionD (L : SumL) (c : Cache) (ctx : DCtx) (logWeights : Tensor Fl) : Res (Tensor Fl) := do
  match c with
  | .one _ => .error .other
  | .two left right =>
    let r_idxs ← ctx.indices_repetition.view [ctx.num_samples, 1, 1, L.num_repetitions]
    let llsLeft ← indexOneHot left r_idxs 3
    let llsRight ← indexOneHot right r_idxs 3
    let lls ← (← llsLeft.add llsRight).view [ctx.num_samples, numFeaturesOut L, L.num_sums_in]
    posteriorWeights logWeights lls

/-- index part of `LinsumLayer._sample_from_weights`, one-hot branch (linsum.py:117-118, 132-134). -/
def postD (L : SumL) (ctx : DCtx) (indices : Tensor Fl) : Res (Tensor Fl) := do
  let indices ← indices.repeatInterleave 2 1
  let indices ← viewMid ctx.num_samples L.num_sums_in indices
  if 0 < pad L then indices.take 1 (indices.size 1 - pad L) else .ok indices

/-- `LinsumLayer.sample`, one-hot branch. -/
def sampleD (L : SumL) (cache : Option Cache) (noise : List Nat → Fl) (ctx : DCtx) : Res DCtx :=
  absSampleD (numFeaturesOut L) L.num_sums_out L.num_repetitions (selectWeightsD L) (conditionD L) (postD L) cache noise ctx

end LinsumLayer

namespace LinsumLayer2

/-- `LinsumLayer2._select_weights`, one-hot branch (linsum.py:346-370, 395-400). -/
def selectWeightsD (L : SumL) (ctx : DCtx) : Res (Tensor Fl) := do
  let p_idxs ← ctx.indices_out.repeatInterleave 2 1
  let p_idxs ← if 0 < pad L then p_idxs.take 1 (p_idxs.size 1 - pad L) else .ok p_idxs
  let logits ← selectOneHot L L.num_features ctx p_idxs
  require .assertion (logits.shape = [ctx.num_samples, L.num_features, L.num_sums_in])
  logitsToLogWeights logits 2 ctx.temperature_sums

/-- `LinsumLayer2._condition_weights_on_evidence`, one-hot branch (linsum.py:327-343). -/
def conditionD (L : SumL) (c : Cache) (ctx : DCtx) (logWeights : Tensor Fl) : Res (Tensor Fl) := do
  match c with
  | .two _ _ => .error .other
  | .one x =>
    let r_idxs ← ctx.indices_repetition.view [ctx.num_samples, 1, 1, L.num_repetitions]
    posteriorWeights logWeights (← indexOneHot x r_idxs 3)

/-- index part of `LinsumLayer2._sample_from_weights`, one-hot branch (linsum.py:308, 320-322). -/
def postD (L : SumL) (ctx : DCtx) (indices : Tensor Fl) : Res (Tensor Fl) := do
  let indices ← viewMid ctx.num_samples L.num_sums_in indices
  if 0 < pad L then indices.take 1 (indices.size 1 - pad L) else .ok indices

/-- `LinsumLayer2.sample`, one-hot branch. -/
def sampleD (L : SumL) (cache : Option Cache) (noise : List Nat → Fl) (ctx : DCtx) : Res DCtx :=
  absSampleD (numFeaturesOut L) L.num_sums_out L.num_repetitions (selectWeightsD L) (conditionD L) (postD L) cache noise ctx

end LinsumLayer2

namespace EinsumLayer

/-- `unraveled_channel_indices_oh_0` and `_1` (einsum.py:76-88): one-hot of the row, or of the column, of a flattened pair. -/
def unraveledOH (S : Nat) (f : Nat → Nat) : Tensor Fl :=
  ⟨[1, 1, S * S, S], fun i => if at' 3 i = f (at' 2 i) then .fin 1 else .fin 0⟩

/-- `torch.stack((a, b), dim=2)` for tensors of rank 3. -/
def stack2 (a b : Tensor Fl) : Res (Tensor Fl) := do
  require .shape (a.shape = b.shape ∧ 2 ≤ a.rank)
  return ⟨insAt 2 2 a.shape, fun i => if at' 2 i = 0 then a.get (delAt 2 i) else b.get (delAt 2 i)⟩

/-- index part of `EinsumLayer._sample_from_weights`, one-hot branch (einsum.py:159-163). -/
def postD (L : SumL) (ctx : DCtx) (indices : Tensor Fl) : Res (Tensor Fl) := do
  let indices := indices.unsqueezeEnd 1
  let a ← (← indices.mul (unraveledOH L.num_sums_in fun k => k / L.num_sums_in)).sum 2
  let b ← (← indices.mul (unraveledOH L.num_sums_in fun k => k % L.num_sums_in)).sum 2
  viewMid ctx.num_samples L.num_sums_in (← stack2 a b)

/-- `EinsumLayer._select_weights`, one-hot branch (einsum.py:201-216, 234-241). -/
def selectWeightsD (L : SumL) (ctx : DCtx) : Res (Tensor Fl) := do
  let logits ← L.logits.unsqueeze 0
  let logits ← indexOneHot logits (ctx.indices_out.unsqueezeEnd 3) 2
  require .assertion (logits.shape =
    [ctx.num_samples, numFeaturesOut L, L.num_repetitions, L.num_sums_in, L.num_sums_in])
  let r_idxs ← ctx.indices_repetition.view [ctx.num_samples, 1, L.num_repetitions, 1, 1]
  let logits ← indexOneHot logits r_idxs 2
  require .assertion (logits.shape = [ctx.num_samples, numFeaturesOut L, L.num_sums_in, L.num_sums_in])
  let logits ← logits.view [logits.size 0, logits.size 1, L.num_sums_in ^ 2]
  logitsToLogWeights logits 2 ctx.temperature_sums

/-- `EinsumLayer._condition_weights_on_evidence`, one-hot branch (einsum.py:178-198). -/
def conditionD (L : SumL) (c : Cache) (ctx : DCtx) (logWeights : Tensor Fl) : Res (Tensor Fl) := do
  match c with
  | .one _ => .error .other
  | .two left right =>
    let r_idxs ← ctx.indices_repetition.view [ctx.num_samples, 1, 1, L.num_repetitions]
    let llsLeft ← (← indexOneHot left r_idxs 3).unsqueeze 3
    let llsRight ← (← indexOneHot right r_idxs 3).unsqueeze 2
    let lls ← (← llsLeft.add llsRight).view [ctx.num_samples, numFeaturesOut L, L.num_sums_in ^ 2]
    posteriorWeights logWeights lls

/-- `EinsumLayer.sample`, one-hot branch. -/
def sampleD (L : SumL) (cache : Option Cache) (noise : List Nat → Fl) (ctx : DCtx) : Res DCtx :=
  absSampleD (numFeaturesOut L) L.num_sums_out L.num_repetitions (selectWeightsD L) (conditionD L) (postD L) cache noise ctx

end EinsumLayer

/-- `RootProductLayer.sample` (product.py:25-29) on one-hot indices. -/
def RootProductLayer.sampleD (num_features : Nat) (ctx : DCtx) : Res DCtx := do
  require .index (1 < ctx.indices_out.rank)
  let t := ctx.indices_out
  return { ctx with indices_out :=
    ⟨setAt 1 (t.size 1 * num_features) t.shape, fun i => t.get (setAt 1 (at' 1 i % t.size 1) i)⟩ }

/-- `layer.sample(ctx)`, one-hot indices. -/
def Layer.sampleD : Layer → Option Cache → (List Nat → Fl) → DCtx → Res DCtx
  | sum L, c, g, ctx => SumLayer.sampleD L c g ctx
  | linsum L, c, g, ctx => LinsumLayer.sampleD L c g ctx
  | linsum2 L, c, g, ctx => LinsumLayer2.sampleD L c g ctx
  | einsum L, c, g, ctx => EinsumLayer.sampleD L c g ctx
  | rootProduct F _, _, _, ctx => RootProductLayer.sampleD F ctx

/-- the loop over the layers from the top (einet.py:658-660); `noise k` belongs to the layer with `k` layers above it. -/
def sampleLayersD : List Layer → List (Option Cache) → (Nat → List Nat → Fl) → DCtx → Res DCtx
  | [], _, _, ctx => .ok ctx
  | l :: ls, cs, noise, ctx => do
    let ctx ← sampleLayersD ls cs.tail noise ctx
    l.sampleD (cs.head?.getD none) (noise ls.length) ctx

namespace BaseLeaf

/-- the part of the context `dist_sample` reads to draw the components. -/
def drawCtx (ctx : DCtx) : Ctx where
  num_samples := ctx.num_samples
  indices_out := full [] 0
  indices_repetition := full [] 0
  is_mpe := ctx.is_mpe
  mpe_at_leaves := ctx.mpe_at_leaves
  temperature_leaves := ctx.temperature_leaves
  temperature_sums := ctx.temperature_sums

/-- the leaf with the base distribution of differentiable sampling (abstract_leaf.py:308, binomial.py:52-58). -/
def diff (B : BaseLeaf) : BaseLeaf := { B with law := B.lawD }

/-- `dist_sample` up to the selection of the repetition, one-hot branch (abstract_leaf.py:95-144): shape `[N, C, F, I]`. -/
def sampleAllD (B : BaseLeaf) (ctx : DCtx) : Rand (Tensor Fl) := do
  Rand.lift (require .type (B.samplable = true))
  let vals ← B.diff.draws (drawCtx ctx)
  let samples : Tensor Fl :=
    ⟨[ctx.num_samples, B.num_channels, B.num_features, B.num_leaves, B.num_repetitions], fun j => .fin (vals j)⟩
  Rand.lift do
    require .shape (0 < B.num_repetitions)
    let r_idxs ← ctx.indices_repetition.view
      [ctx.indices_repetition.numel / B.num_repetitions, 1, 1, 1, B.num_repetitions]
    indexOneHot samples r_idxs 4

/-- `AbstractLeaf.sample` with `ctx.indices_out` set, one-hot branch (abstract_leaf.py:151-155): shape `[N, C, F]`. -/
def sampleD (B : BaseLeaf) (ctx : DCtx) : Rand (Tensor Fl) := do
  let samples ← B.sampleAllD ctx
  Rand.lift do
    indexOneHot samples (← ctx.indices_out.unsqueeze 1) 3

end BaseLeaf

/-- `FactorizedLeaf.sample`, one-hot branch (factorized_leaf.py:100-143). -/
def FactLeaf.sampleD (L : FactLeaf) (ctx : DCtx) : Rand (Tensor Fl) := do
  let samples ← L.base.sampleAllD ctx
  Rand.lift do
    require .assertion (samples.shape = [ctx.num_samples, L.base.num_channels, L.base.num_features, L.base.num_leaves])
    let scopes ← L.scopes.unsqueeze 0
    require .shape (0 < ctx.num_samples)
    let r_idx ← ctx.indices_repetition.view [ctx.num_samples, 1, 1, ctx.indices_repetition.numel / ctx.num_samples]
    let scopes ← indexOneHot scopes r_idx 3
    let indices_in ← indexOneHot (← ctx.indices_out.unsqueeze 1) (scopes.unsqueezeEnd 1) 2
    indexOneHot samples (← indices_in.unsqueeze 1) 3

namespace FactSimple

/-- the index part of `FactorizedLeafSimple._index_leaf_samples`, one-hot branch (factorized_leaf.py:335-350). -/
def unfoldD (L : FactSimple) (indices_out : Tensor Fl) : Res (Tensor Fl) := do
  let i ← (← indices_out.unsqueeze 1).expand [none, some L.cardinality, none, none]
  let i ← i.view [i.size 0, L.base.num_features + L.numDummy, i.size 3]
  let i ← i.indexDim1 L.inverse_permutation
  if 0 < L.numDummy then i.take 1 (i.size 1 - L.numDummy) else .ok i

/-- `FactorizedLeafSimple.sample`, one-hot branch (factorized_leaf.py:296-350). -/
def sampleD (L : FactSimple) (ctx : DCtx) : Rand (Tensor Fl) := do
  let samples ← L.base.sampleAllD ctx
  Rand.lift do
    require .assertion (samples.shape = [ctx.num_samples, L.base.num_channels, L.base.num_features, L.base.num_leaves])
    let i ← L.unfoldD ctx.indices_out
    indexOneHot samples (← i.unsqueeze 1) 3

end FactSimple

/-- `self.leaf.sample(ctx)`, one-hot branch. -/
def Leaf.sampleD : Leaf → DCtx → Rand (Tensor Fl)
  | .direct B => B.sampleD
  | .factorized L => L.sampleD
  | .simple L => L.sampleD

namespace Model

/-- the initial sampling context (einet.py:590-596, 601-613). -/
def initCtxD (a : SampleArgs) : DCtx where
  num_samples := a.count
  indices_out := full [a.count, 1, 1] (.fin 1)
  indices_repetition := full [a.count, 1] (.fin 1)
  is_mpe := a.is_mpe
  mpe_at_leaves := a.mpe_at_leaves
  temperature_leaves := a.temperature_leaves
  temperature_sums := a.temperature_sums

/-- choice of the class, one-hot branch (einet.py:615-644).  For a list, the attribute `requireds_grad_` of line 629 does not
exist; for an integer the classes lie in dimension 1 (line 637). -/
def pickClassD (M : Model) (a : SampleArgs) (noise : List Nat → Fl) (ctx : DCtx) : Res DCtx :=
  if 1 < M.num_classes then
    match a.class_index with
    | some (.list l) => do
      require .shape (l.length ≤ a.count)
      require .index (∀ c ∈ l, c < M.num_classes)
      .error .attribute
    | some (.int c) => do
      require .index (0 < a.count → c < M.num_classes)
      return { ctx with indices_out := ⟨[a.count, M.num_classes, 1], fun i => if at' 1 i = c then .fin 1 else .fin 0⟩ }
    | none => SumLayer.sampleD M.classRoot none noise ctx
  else .ok ctx

/-- choice of the repetition, one-hot branch (einet.py:646-656). -/
def pickRepD (M : Model) (cache : Option Cache) (noise : List Nat → Fl) (ctx : DCtx) : Res DCtx :=
  if 1 < M.num_repetitions then do
    let c ← MixingLayer.sampleD M.mixing cache noise ctx
    let r ← c.indices_out.view [ctx.num_samples, M.num_repetitions]
    return { c with indices_repetition := r, indices_out := ctx.indices_out }
  else .ok ctx

/-- application of the inverse permutation, one-hot branch (einet.py:662-671). -/
def unpermuteD (M : Model) (ctx : DCtx) : Res DCtx :=
  match M.permutation with
  | none => .ok ctx
  | some (_, q) => do
    let permutation_inv : Tensor Fl := ⟨[ctx.num_samples, M.num_repetitions, M.num_features],
      fun j => .fin ((q.getD (at' 1 j) []).getD (at' 2 j) 0 : Nat)⟩
    let p ← indexOneHot permutation_inv (ctx.indices_repetition.unsqueezeEnd 1) 1
    let p ← (p.unsqueezeEnd 1).expand [none, none, some M.num_leaves]
    let i ← ctx.indices_out.gather 1 (p.map fun v => ⌊v.val⌋₊)
    return { ctx with indices_out := i }

/-- the path (einet.py:615-671), one-hot branch.  The noise of the class root is `noise 0`, of the mixing layer `noise 1`, of
the layers the rest. -/
def samplePathD (M : Model) (a : SampleArgs) (noise : Nat → List Nat → Fl) (caches : Caches) : Res DCtx := do
  let ctx ← M.pickClassD a (noise 0) (initCtxD a)
  let ctx ← M.pickRepD caches.mixing (noise 1) ctx
  let ctx ← sampleLayersD M.layers caches.layers (fun k => noise (k + 2)) ctx
  M.unpermuteD ctx

/-- filling the holes of the evidence (einet.py:683-695), as `Model.fill`. -/
def fillD (evidence samples : Tensor Fl) (marginalized_scopes : Option Scopes) : Res (Tensor Fl) := do
  let e ← evidence.view samples.shape
  match marginalized_scopes with
  | none =>
    let e : Tensor Fl := ⟨e.shape, fun j => if (e.get j).isnan then samples.get j else e.get j⟩
    e.view evidence.shape
  | some s =>
    let l ← indexList (samples.size 2) s
    let e : Tensor Fl := ⟨e.shape, fun j => if at' 2 j ∈ l then samples.get j else e.get j⟩
    e.view evidence.shape

/-- result of `Einet.sample` from the sampled values (einet.py:683-697). -/
def finishD (a : SampleArgs) (samples : Tensor Fl) : Res (Tensor Fl) :=
  match a.evidence with
  | none => .ok samples
  | some e => fillD e samples a.marginalized_scopes

/-- `Einet.sample(..., is_differentiable=True)` (einet.py:533-697) for given Gumbel noise. -/
def sampleD (M : Model) (a : SampleArgs) (noise : Nat → List Nat → Fl) : Rand (Tensor Fl) :=
  (Rand.lift (a.check M)).bind fun _ =>
    (Rand.lift (M.evidenceCaches a)).bind fun caches =>
      (Rand.lift (M.samplePathD a noise caches)).bind fun ctx =>
        (M.leaf.sampleD ctx).bind fun samples => Rand.lift (finishD a samples)

/-- `Einet.mpe(..., is_differentiable=True)` (einet.py:515-531). No noise is drawn; the argument is not read. -/
def mpeD (M : Model) (evidence : Option (Tensor Fl)) (marginalized_scopes : Option Scopes := none)
    (noise : Nat → List Nat → Fl := fun _ _ => .fin 0) : Rand (Tensor Fl) :=
  M.sampleD { evidence := evidence, is_mpe := true, marginalized_scopes := marginalized_scopes } noise

end Model
end Einet
