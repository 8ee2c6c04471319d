import Verif.Prob

/-!
# Sum and product layers (index sampling mode)

Models of `simple_einet/abstract_layers.py`, `layers/sum.py`, `layers/mixing.py`, `layers/linsum.py`,
`layers/einsum.py` and `layers/product.py` (`RootProductLayer`), with integer index sampling
(`ctx.is_differentiable == False`).  The one-hot mode is in `Verif/Diff.lean`, dropout in `Verif/Dropout.lean`.

Every `forward` takes an optional `mask`, the tensor `log(1 - dropout_indices)` that is added in training mode;
`none` is evaluation mode (or `dropout == 0`).  The input cache is the value returned next to the output.
-/

open Classical
noncomputable section
namespace Einet
open Tensor

/-- `SamplingContext` (simple_einet/sampling_utils.py:73-116), the fields used with integer indices.
`indices_repetition` is never `None` on the paths modelled (einet.py:586-594 always sets it). -/
structure Ctx where
  num_samples : Nat
  indices_out : Tensor Nat
  indices_repetition : Tensor Nat
  is_mpe : Bool := false
  mpe_at_leaves : Bool := false
  temperature_leaves : ℝ := 1
  temperature_sums : ℝ := 1
  num_repetitions : Nat := 1
  return_leaf_params : Bool := false

/-- `AbstractSumLayer` attributes (abstract_layers.py:121-142). -/
structure SumL where
  num_features : Nat
  num_sums_in : Nat
  num_sums_out : Nat
  num_repetitions : Nat
  logits : Tensor Fl

/-- `_input_cache` of a sum layer: a dictionary with the key `"in"`/`"x"`, or with the keys `"left"` and `"right"`. -/
inductive Cache where
  | one (x : Tensor Fl)
  | two (left right : Tensor Fl)

/-- `logits_to_log_weights` (abstract_layers.py:45-56). -/
def logitsToLogWeights (logits : Tensor Fl) (dim : Nat) (temperature : ℝ := 1) : Res (Tensor Fl) :=
  (logits.map (· / Fl.fin temperature)).logSoftmax dim

/-- `x = x + dropout_indices` when dropout is active, otherwise nothing (e.g. sum.py:69-78). -/
def applyMask (x : Tensor Fl) : Option (Tensor Fl) → Res (Tensor Fl)
  | none => .ok x
  | some m => x.add m

/-- `AbstractSumLayer._check_context_shapes` and `_check_repetition_indices` for integer indices
(abstract_layers.py:165-189); `Dout` is `self.num_features_out`. -/
def checkContext (Dout : Nat) (ctx : Ctx) : Res Unit := do
  require .index (2 ≤ ctx.indices_out.rank ∧ 1 ≤ ctx.indices_repetition.rank)
  require .assertion (ctx.indices_out.size 0 = ctx.num_samples)
  require .assertion (ctx.indices_out.size 1 = Dout)
  require .assertion (ctx.indices_repetition.size 0 = ctx.num_samples)
  require .assertion (ctx.indices_out.rank = 2)
  require .assertion (ctx.indices_repetition.rank = 1)
  require .assertion (ctx.indices_repetition.size 0 = ctx.indices_out.size 0)

/-- `argmax(dim=2)` for MPE, a categorical draw otherwise (e.g. sum.py:134-139). -/
def drawIndices (ctx : Ctx) (logWeights : Tensor Fl) : Rand (Tensor Nat) :=
  if ctx.is_mpe then Rand.lift (logWeights.argmax 2) else logWeights.categorical 2

/-- `log_posterior - logsumexp(log_posterior, dim=2, keepdim=True)` with `log_posterior = log_prior + lls`
(e.g. sum.py:154-157). -/
def posteriorWeights (logPrior lls : Tensor Fl) : Res (Tensor Fl) := do
  let logPosterior ← logPrior.add lls
  logPosterior.sub (← logPosterior.logsumexpKeep 2)

/-- `AbstractSumLayer.sample` (abstract_layers.py:191-206). The cache argument is `none` unless the cache is enabled
and filled. -/
def absSample (Dout : Nat) (select : Ctx → Res (Tensor Fl)) (condition : Cache → Ctx → Tensor Fl → Res (Tensor Fl))
    (post : Ctx → Tensor Nat → Res (Tensor Nat)) (cache : Option Cache) (ctx : Ctx) : Rand Ctx := do
  Rand.lift (checkContext Dout ctx)
  let logWeights ← Rand.lift (select ctx)
  let logWeights ← match cache with
    | none => Rand.pure logWeights
    | some c => Rand.lift (condition c ctx logWeights)
  let indices ← drawIndices ctx logWeights
  let indices ← Rand.lift (post ctx indices)
  return { ctx with indices_out := indices }

namespace SumLayer

/-- `SumLayer.weight_shape` (sum.py:59-60); `num_features_out = num_features` (sum.py:55-57). -/
def weightShape (L : SumL) : List Nat := [L.num_features, L.num_sums_in, L.num_sums_out, L.num_repetitions]

/-- `SumLayer.forward` (sum.py:62-87). -/
def forward (L : SumL) (mask : Option (Tensor Fl)) (x : Tensor Fl) : Res (Tensor Fl × Cache) := do
  let c := Cache.one x
  let x ← applyMask x mask
  let lw ← (← logitsToLogWeights L.logits 1).unsqueeze 0
  let x ← x.unsqueeze 3
  let lls ← (← x.add lw).logsumexp 2
  require .assertion (lls.shape = [x.size 0, x.size 1, L.num_sums_out, L.num_repetitions])
  return (lls, c)

/-- `SumLayer._select_weights` (sum.py:107-126). -/
def selectWeights (L : SumL) (ctx : Ctx) : Res (Tensor Fl) := do
  let logits ← L.logits.unsqueeze 0
  let logits ← logits.expand [some ctx.num_samples, none, none, none, none]
  let p_idxs := ctx.indices_out.unsqueezeEnd 3
  let p_idxs ← p_idxs.expand [none, none, some L.num_sums_in, none, some L.num_repetitions]
  let logits ← logits.gather 3 p_idxs
  let logits ← logits.squeeze 3
  let r_idxs := ctx.indices_repetition.unsqueezeEnd 3
  let r_idxs ← r_idxs.expand [none, some L.num_features, some L.num_sums_in, none]
  let logits ← logits.gather 3 r_idxs
  let logits ← logits.squeeze 3
  require .assertion (logits.shape = [ctx.num_samples, L.num_features, L.num_sums_in])
  logitsToLogWeights logits 2 ctx.temperature_sums

/-- `SumLayer._condition_weights_on_evidence` (sum.py:142-158). -/
def condition (L : SumL) (c : Cache) (ctx : Ctx) (logWeights : Tensor Fl) : Res (Tensor Fl) := do
  match c with
  | .two _ _ => .error .other
  | .one lls =>
    let r_idxs ← (ctx.indices_repetition.unsqueezeEnd 3).expand [none, some L.num_features, some L.num_sums_in, some 1]
    let lls ← (← lls.gather 3 r_idxs).squeeze 3
    posteriorWeights logWeights lls

/-- `SumLayer.sample` (abstract_layers.py:191-206 with sum.py:128-140). -/
def sample (L : SumL) (cache : Option Cache) (ctx : Ctx) : Rand Ctx :=
  absSample L.num_features (selectWeights L) (condition L) (fun _ i => .ok i) cache ctx

end SumLayer

namespace MixingLayer

/-- `MixingLayer.weight_shape` (mixing.py:40-41). -/
def weightShape (L : SumL) : List Nat := [L.num_features, L.num_sums_out, L.num_sums_in]

/-- `MixingLayer.forward` (mixing.py:43-64). -/
def forward (L : SumL) (mask : Option (Tensor Fl)) (x : Tensor Fl) : Res (Tensor Fl × Cache) := do
  let c := Cache.one x
  let x ← applyMask x mask
  let lw ← (← logitsToLogWeights L.logits 2).unsqueeze 0
  return (← (← x.add lw).logsumexp 3, c)

/-- `MixingLayer._select_weights` (mixing.py:99-120). -/
def selectWeights (L : SumL) (ctx : Ctx) : Res (Tensor Fl) := do
  let logits ← L.logits.unsqueeze 0
  let logits ← logits.expand [some ctx.num_samples, none, none, none]
  let p_idxs := ctx.indices_out.unsqueezeEnd 2
  let p_idxs ← p_idxs.expand [none, none, none, some L.num_sums_in]
  let logits ← logits.gather 2 p_idxs
  let logits ← logits.squeeze 2
  require .assertion (logits.shape = [ctx.num_samples, L.num_features, L.num_sums_in])
  logitsToLogWeights logits 2 ctx.temperature_sums

/-- `MixingLayer._condition_weights_on_evidence` (mixing.py:81-97). -/
def condition (L : SumL) (c : Cache) (ctx : Ctx) (logWeights : Tensor Fl) : Res (Tensor Fl) := do
  match c with
  | .two _ _ => .error .other
  | .one lls =>
    let p_idxs ← (ctx.indices_out.unsqueezeEnd 2).expand [none, some 1, some 1, some L.num_sums_in]
    let lls ← (← lls.gather 2 p_idxs).squeeze 2
    posteriorWeights logWeights lls

/-- `MixingLayer.sample` (abstract_layers.py:191-206 with mixing.py:68-81). -/
def sample (L : SumL) (cache : Option Cache) (ctx : Ctx) : Rand Ctx :=
  absSample L.num_features (selectWeights L) (condition L) (fun _ i => .ok i) cache ctx

end MixingLayer

namespace LinsumLayer

/-- `self._pad` (linsum.py:42). -/
def pad (L : SumL) : Nat := L.num_features % 2

/-- `LinsumLayer.num_features_out` (linsum.py:57-59). -/
def numFeaturesOut (L : SumL) : Nat := (L.num_features + pad L) / 2

/-- `LinsumLayer.weight_shape` (linsum.py:61-62). -/
def weightShape (L : SumL) : List Nat := [numFeaturesOut L, L.num_sums_in, L.num_sums_out, L.num_repetitions]

/-- append `torch.zeros_like(right[:, :pad])` (linsum.py:84-86). -/
def padRight (p : Nat) (right : Tensor Fl) : Res (Tensor Fl) :=
  if 0 < p then do
    let z ← right.take 1 p
    right.cat (full z.shape (Fl.fin 0)) 1
  else .ok right

/-- `LinsumLayer.forward` (linsum.py:64-110). -/
def forward (L : SumL) (mask : Option (Tensor Fl)) (x : Tensor Fl) : Res (Tensor Fl × Cache) := do
  require .value (x.rank = 4)
  let left ← x.slice 1 0 2
  let right ← x.slice 1 1 2
  let right ← padRight (pad L) right
  let prod ← (← left.add right).unsqueeze 3
  let prod ← applyMask prod mask
  let lw ← (← logitsToLogWeights L.logits 1).unsqueeze 0
  let prob ← (← prod.add lw).logsumexp 2
  return (prob, Cache.two left right)

/-- index part of `LinsumLayer._sample_from_weights` (linsum.py:128-136). -/
def post (L : SumL) (ctx : Ctx) (indices : Tensor Nat) : Res (Tensor Nat) := do
  let indices ← indices.repeatInterleave 2 1
  let indices ← indices.viewInfer [ctx.num_samples]
  if 0 < pad L then indices.take 1 (indices.size 1 - pad L) else .ok indices

/-- `LinsumLayer._select_weights` (linsum.py:179-199). -/
def selectWeights (L : SumL) (ctx : Ctx) : Res (Tensor Fl) := do
  let logits ← L.logits.unsqueeze 0
  let logits ← logits.expand [some ctx.num_samples, none, none, none, none]
  let p_idxs := ctx.indices_out.unsqueezeEnd 3
  let p_idxs ← p_idxs.expand [none, none, some L.num_sums_in, none, some L.num_repetitions]
  let logits ← logits.gather 3 p_idxs
  let logits ← logits.squeeze 3
  let r_idxs := ctx.indices_repetition.unsqueezeEnd 3
  let r_idxs ← r_idxs.expand [none, some (numFeaturesOut L), some L.num_sums_in, none]
  let logits ← logits.gather 3 r_idxs
  let logits ← logits.squeeze 3
  require .assertion (logits.shape = [ctx.num_samples, numFeaturesOut L, L.num_sums_in])
  logitsToLogWeights logits 2 ctx.temperature_sums

/-- `LinsumLayer._condition_weights_on_evidence` (linsum.py:138-158). -/
def condition (L : SumL) (c : Cache) (ctx : Ctx) (logWeights : Tensor Fl) : Res (Tensor Fl) := do
  match c with
  | .one _ => .error .other
  | .two left right =>
    let r_idxs ← (ctx.indices_repetition.unsqueezeEnd 3).expand
      [none, some (numFeaturesOut L), some L.num_sums_in, none]
    let llsLeft ← (← left.gather 3 r_idxs).squeeze 3
    let llsRight ← (← right.gather 3 r_idxs).squeeze 3
    let lls ← (← llsLeft.add llsRight).view [ctx.num_samples, numFeaturesOut L, L.num_sums_in]
    posteriorWeights logWeights lls

/-- `LinsumLayer.sample` (abstract_layers.py:191-206 with linsum.py:112-136). -/
def sample (L : SumL) (cache : Option Cache) (ctx : Ctx) : Rand Ctx :=
  absSample (numFeaturesOut L) (selectWeights L) (condition L) (post L) cache ctx

end LinsumLayer

namespace LinsumLayer2

/-- `self._pad` (linsum.py:251). -/
def pad (L : SumL) : Nat := L.num_features % 2

/-- `LinsumLayer2.num_features_out` (linsum.py:254-256). -/
def numFeaturesOut (L : SumL) : Nat := (L.num_features + pad L) / 2

/-- `LinsumLayer2.weight_shape` (linsum.py:258-259). -/
def weightShape (L : SumL) : List Nat := [L.num_features, L.num_sums_in, L.num_sums_out, L.num_repetitions]

/-- `LinsumLayer2.forward` (linsum.py:261-301). -/
def forward (L : SumL) (mask : Option (Tensor Fl)) (x : Tensor Fl) : Res (Tensor Fl × Cache) := do
  let c := Cache.one x
  let lw ← (← logitsToLogWeights L.logits 1).unsqueeze 0
  let x ← x.unsqueeze 3
  let sumOutput ← (← x.add lw).logsumexp 2
  let left ← sumOutput.slice 1 0 2
  let right ← sumOutput.slice 1 1 2
  let right ← LinsumLayer.padRight (pad L) right
  let prod ← left.add right
  return (← applyMask prod mask, c)

/-- index part of `LinsumLayer2._sample_from_weights` (linsum.py:317-325). -/
def post (L : SumL) (ctx : Ctx) (indices : Tensor Nat) : Res (Tensor Nat) := do
  let indices ← indices.viewInfer [ctx.num_samples]
  if 0 < pad L then indices.take 1 (indices.size 1 - pad L) else .ok indices

/-- `LinsumLayer2._select_weights` (linsum.py:345-396). -/
def selectWeights (L : SumL) (ctx : Ctx) : Res (Tensor Fl) := do
  let logits ← L.logits.unsqueeze 0
  let logits ← logits.expand [some ctx.num_samples, none, none, none, none]
  let p_idxs ← ctx.indices_out.repeatInterleave 2 1
  let p_idxs ← if 0 < pad L then p_idxs.take 1 (p_idxs.size 1 - pad L) else .ok p_idxs
  let p_idxs := p_idxs.unsqueezeEnd 3
  let p_idxs ← p_idxs.expand [none, none, some L.num_sums_in, none, some L.num_repetitions]
  let logits ← logits.gather 3 p_idxs
  let logits ← logits.squeeze 3
  let r_idxs := ctx.indices_repetition.unsqueezeEnd 3
  let r_idxs ← r_idxs.expand [none, some L.num_features, some L.num_sums_in, none]
  let logits ← logits.gather 3 r_idxs
  let logits ← logits.squeeze 3
  require .assertion (logits.shape = [ctx.num_samples, L.num_features, L.num_sums_in])
  logitsToLogWeights logits 2 ctx.temperature_sums

/-- `LinsumLayer2._condition_weights_on_evidence` (linsum.py:327-343). -/
def condition (L : SumL) (c : Cache) (ctx : Ctx) (logWeights : Tensor Fl) : Res (Tensor Fl) := do
  match c with
  | .two _ _ => .error .other
  | .one x =>
    let r_idxs ← (ctx.indices_repetition.unsqueezeEnd 3).expand [none, some L.num_features, some L.num_sums_in, none]
    let lls ← (← x.gather 3 r_idxs).squeeze 3
    posteriorWeights logWeights lls

/-- `LinsumLayer2.sample` (abstract_layers.py:191-206 with linsum.py:310-325). -/
def sample (L : SumL) (cache : Option Cache) (ctx : Ctx) : Rand Ctx :=
  absSample (numFeaturesOut L) (selectWeights L) (condition L) (post L) cache ctx

end LinsumLayer2

namespace EinsumLayer

/-- `EinsumLayer.num_features_out` (einsum.py:92-94). -/
def numFeaturesOut (L : SumL) : Nat := L.num_features / 2

/-- `EinsumLayer.weight_shape` (einsum.py:96-103). -/
def weightShape (L : SumL) : List Nat :=
  [numFeaturesOut L, L.num_sums_out, L.num_repetitions, L.num_sums_in, L.num_sums_in]

/-- `unraveled_channel_indices` (einsum.py:70-73). -/
def unraveled (S : Nat) : List (Nat × Nat) :=
  (List.range S).flatMap fun i => (List.range S).map fun j => (i, j)

/-- the buffer as a tensor of shape `[S*S, 2]`. -/
def unraveledT (S : Nat) : Tensor Nat :=
  ⟨[(unraveled S).length, 2], fun i =>
    let p := (unraveled S).getD (at' 0 i) (0, 0)
    if at' 1 i = 0 then p.1 else p.2⟩

/-- `torch.einsum("ndir,ndjr,dorij->ndor", left, right, weights)` (einsum.py:143), all sizes equal. -/
def einsum (l r w : Tensor Fl) : Res (Tensor Fl) := do
  require .shape (l.rank = 4 ∧ r.rank = 4 ∧ w.rank = 5)
  require .shape (l.size 0 = r.size 0 ∧ l.size 1 = r.size 1 ∧ l.size 3 = r.size 3 ∧
    w.size 0 = l.size 1 ∧ w.size 2 = l.size 3 ∧ w.size 3 = l.size 2 ∧ w.size 4 = r.size 2)
  return ⟨[l.size 0, l.size 1, w.size 1, l.size 3], fun i =>
    let n := at' 0 i; let d := at' 1 i; let o := at' 2 i; let rr := at' 3 i
    Fl.sumN (l.size 2) fun a => Fl.sumN (r.size 2) fun b =>
      l.get [n, d, a, rr] * r.get [n, d, b, rr] * w.get [d, o, rr, a, b]⟩

/-- `EinsumLayer.forward` (einsum.py:105-152). Dropout: the constructor does not hand `dropout` to the base class
(einsum.py:62-67), so it is always 0 and lines 115-118 never run. -/
def forward (L : SumL) (x : Tensor Fl) : Res (Tensor Fl × Cache) := do
  require .value (x.rank = 4)
  let Dout := x.size 1 / 2
  let left ← x.slice 1 0 2
  let right ← x.slice 1 1 2
  let leftMax ← left.maxKeep 2
  let leftProb := (← left.sub leftMax).map Fl.exp
  let rightMax ← right.maxKeep 2
  let rightProb := (← right.sub rightMax).map Fl.exp
  let logits ← L.logits.viewInfer [Dout, L.num_sums_out, L.num_repetitions]
  let weights ← logits.softmax 3
  let weights ← weights.view (weightShape L)
  let prob ← einsum leftProb rightProb weights
  let prob ← (← (prob.map Fl.log).add leftMax).add rightMax
  return (prob, Cache.two left right)

/-- index part of `EinsumLayer._sample_from_weights` (einsum.py:174-175). -/
def post (L : SumL) (ctx : Ctx) (indices : Tensor Nat) : Res (Tensor Nat) := do
  let indices ← (unraveledT L.num_sums_in).indexRows indices
  indices.viewInfer [ctx.num_samples]

/-- `EinsumLayer._select_weights` (einsum.py:218-241). -/
def selectWeights (L : SumL) (ctx : Ctx) : Res (Tensor Fl) := do
  let logits ← L.logits.unsqueeze 0
  let logits ← logits.expand [some ctx.num_samples, none, none, none, none, none]
  let p_idxs := ctx.indices_out.unsqueezeEnd 4
  let p_idxs ← p_idxs.expand [none, none, none, some L.num_repetitions, some L.num_sums_in, some L.num_sums_in]
  let logits ← logits.gather 2 p_idxs
  let logits ← logits.squeeze 2
  let r_idxs := ctx.indices_repetition.unsqueezeEnd 4
  let r_idxs ← r_idxs.expand [none, some (numFeaturesOut L), none, some L.num_sums_in, some L.num_sums_in]
  let logits ← logits.gather 2 r_idxs
  let logits ← logits.squeeze 2
  require .assertion (logits.shape = [ctx.num_samples, numFeaturesOut L, L.num_sums_in, L.num_sums_in])
  let logits ← logits.view [logits.size 0, logits.size 1, L.num_sums_in ^ 2]
  logitsToLogWeights logits 2 ctx.temperature_sums

/-- `EinsumLayer._condition_weights_on_evidence` (einsum.py:178-198). -/
def condition (L : SumL) (c : Cache) (ctx : Ctx) (logWeights : Tensor Fl) : Res (Tensor Fl) := do
  match c with
  | .one _ => .error .other
  | .two left right =>
    let r_idxs ← (ctx.indices_repetition.unsqueezeEnd 3).expand
      [none, some (numFeaturesOut L), some L.num_sums_in, none]
    let llsLeft ← (← (← left.gather 3 r_idxs).squeeze 3).unsqueeze 3
    let llsRight ← (← (← right.gather 3 r_idxs).squeeze 3).unsqueeze 2
    let lls ← (← llsLeft.add llsRight).view [ctx.num_samples, numFeaturesOut L, L.num_sums_in ^ 2]
    posteriorWeights logWeights lls

/-- `EinsumLayer.sample` (abstract_layers.py:191-206 with einsum.py:154-176). -/
def sample (L : SumL) (cache : Option Cache) (ctx : Ctx) : Rand Ctx :=
  absSample (numFeaturesOut L) (selectWeights L) (condition L) (post L) cache ctx

end EinsumLayer

namespace RootProductLayer

/-- `RootProductLayer.forward` (product.py:21-23). -/
def forward (num_features : Nat) (x : Tensor Fl) : Res (Tensor Fl) := do
  require .index (1 < x.rank)
  require .assertion (x.size 1 = num_features)
  x.reduceKeep Fl.sumN 1

/-- `RootProductLayer.sample` (product.py:25-29): `indices_out.repeat(1, num_features)`. -/
def sample (num_features : Nat) (ctx : Ctx) : Res Ctx := do
  require .index (1 < ctx.indices_out.rank)
  let t := ctx.indices_out
  return { ctx with indices_out :=
    ⟨setAt 1 (t.size 1 * num_features) t.shape, fun i => t.get (setAt 1 (at' 1 i % t.size 1) i)⟩ }

end RootProductLayer

/-- A layer of `Einet.layers`. -/
inductive Layer where
  | sum (L : SumL)
  | linsum (L : SumL)
  | linsum2 (L : SumL)
  | einsum (L : SumL)
  | rootProduct (num_features num_repetitions : Nat)

namespace Layer

/-- `layer(x)`; the second component is what the layer stores when its input cache is enabled. -/
def forward : Layer → Option (Tensor Fl) → Tensor Fl → Res (Tensor Fl × Option Cache)
  | sum L, m, x => do let (y, c) ← SumLayer.forward L m x; return (y, some c)
  | linsum L, m, x => do let (y, c) ← LinsumLayer.forward L m x; return (y, some c)
  | linsum2 L, m, x => do let (y, c) ← LinsumLayer2.forward L m x; return (y, some c)
  | einsum L, _, x => do let (y, c) ← EinsumLayer.forward L x; return (y, some c)
  | rootProduct F _, _, x => do let y ← RootProductLayer.forward F x; return (y, none)

/-- `layer.sample(ctx)`. -/
def sample : Layer → Option Cache → Ctx → Rand Ctx
  | sum L, c, ctx => SumLayer.sample L c ctx
  | linsum L, c, ctx => LinsumLayer.sample L c ctx
  | linsum2 L, c, ctx => LinsumLayer2.sample L c ctx
  | einsum L, c, ctx => EinsumLayer.sample L c ctx
  | rootProduct F _, _, ctx => Rand.lift (RootProductLayer.sample F ctx)

end Layer
end Einet
