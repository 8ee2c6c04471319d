import Verif.LayerFwd

/-!
# Leaf layers (index sampling mode)

Models of `layers/distributions/abstract_leaf.py` and `layers/factorized_leaf.py`.  A concrete distribution is a value of
`BaseLeaf` (instances in `Verif/Dists.lean`).  Only leaves of cardinality one are modelled here (the multivariate
normal leaf is in `Verif/Mvn.lean`).
-/

open Classical MeasureTheory
open scoped ENNReal
noncomputable section
namespace Einet
open Tensor

/-- A leaf layer (`AbstractLeaf`, abstract_leaf.py:168-217) with its distribution for every channel, feature, leaf and
repetition (`_get_base_distribution`).  Simplification: the support check of the torch distribution does not depend on
the parameters.  Support and reference measure may depend on the feature, as in a `MultiDistributionLayer`. -/
structure BaseLeaf where
  num_features : Nat
  num_channels : Nat
  num_leaves : Nat
  num_repetitions : Nat
  /-- argument check of `log_prob` (torch distributions with validation) of a feature for non-NaN values -/
  valid : Nat → Fl → Prop
  /-- `distribution.log_prob` for channel, feature, leaf, repetition -/
  logProb : Nat → Nat → Nat → Nat → Fl → Fl
  /-- reference measure of the density of a feature -/
  ref : Nat → Measure ℝ
  /-- distribution of `distribution.sample()` at a leaf temperature -/
  law : ℝ → Nat → Nat → Nat → Nat → Measure ℝ
  /-- `dist_mode` -/
  mode : Nat → Nat → Nat → Nat → ℝ
  /-- `_get_base_distribution` accepts a context argument (abstract_leaf.py:308); false for `Bernoulli`
  (bernoulli.py:29), whose sampling therefore raises -/
  samplable : Bool
  /-- distribution of `sample()` with `ctx.is_differentiable`; the same but for `Binomial` (binomial.py:55-56) -/
  lawD : ℝ → Nat → Nat → Nat → Nat → Measure ℝ := law

/-- A `marginalized_scopes` argument: a Python list or a long tensor of integers. -/
structure Scopes where
  isList : Bool
  idx : List Int

/-- Python index `i` of a dimension of size `n`. -/
def wrapIdx (n : Nat) (i : Int) : Nat := (if i < 0 then i + n else i).toNat

/-- The index tensor `s` used in `x[:, :, s]` (abstract_leaf.py:248-258): an empty list gives a float tensor, which
torch refuses as an index; out of range indices are refused. -/
def Scopes.resolve (F : Nat) (s : Scopes) : Res (List Nat) := do
  require .index (¬ (s.isList = true ∧ s.idx = []))
  require .index (∀ i ∈ s.idx, -(F : Int) ≤ i ∧ i < F)
  return s.idx.map (wrapIdx F)

/-- the same for an optional argument. -/
def Scopes.resolveOpt (F : Nat) : Option Scopes → Res (Option (List Nat))
  | none => .ok none
  | some s => (s.resolve F).map some

namespace BaseLeaf

/-- Value of one entry after `AbstractLeaf.forward` (abstract_leaf.py:266-293): `logProb` of the (placeholder-filled)
value, NaN put back, then marginalization (236-264). -/
def entry (B : BaseLeaf) (sc : Option (List Nat)) (x : Fl) (c f i r : Nat) : Fl :=
  let y := if x.isnan then Fl.nan else B.logProb c f i r x
  match sc with
  | some s => if f ∈ s then .fin 0 else y
  | none => if y.isnan then .fin 0 else y

/-- `AbstractLeaf.forward` (abstract_leaf.py:266-293 with dist_forward 17-42).  Simplification: the sizes of `x` must
agree with the leaf (torch would also broadcast sizes one; `Einet.forward` asserts the sizes before). -/
def forward (B : BaseLeaf) (x : Tensor Fl) (marginalized_scopes : Option Scopes) : Res (Tensor Fl) := do
  require .shape (x.rank = 3 ∧ x.size 1 = B.num_channels ∧ x.size 2 = B.num_features)
  -- NaN is replaced by the placeholder 0 before the argument check
  require .value (AllIdx x.shape fun i => B.valid (at' 2 i) (if (x.get i).isnan then .fin 0 else x.get i))
  let sc ← Scopes.resolveOpt B.num_features marginalized_scopes
  return ⟨x.shape ++ [B.num_leaves, B.num_repetitions], fun j =>
    B.entry sc (x.get [at' 0 j, at' 1 j, at' 2 j]) (at' 1 j) (at' 2 j) (at' 3 j) (at' 4 j)⟩

/-- The draw (or mode) of every component (abstract_leaf.py:107-133). -/
def draws (B : BaseLeaf) (ctx : Ctx) : Rand (List Nat → ℝ) :=
  if ctx.is_mpe = true ∨ ctx.mpe_at_leaves = true
  then Rand.pure fun j => B.mode (at' 1 j) (at' 2 j) (at' 3 j) (at' 4 j)
  else Rand.drawAll (box [ctx.num_samples, B.num_channels, B.num_features, B.num_leaves, B.num_repetitions])
    (fun j => Rand.leaf (B.law ctx.temperature_leaves (at' 1 j) (at' 2 j) (at' 3 j) (at' 4 j)) Rand.pure) (fun _ => 0)

/-- `dist_sample` up to and including the selection of the repetition (abstract_leaf.py:95-149), not returning
parameters: shape `[N, C, F, I]`. -/
def sampleAll (B : BaseLeaf) (ctx : Ctx) : Rand (Tensor ℝ) := do
  Rand.lift (require .type (B.samplable = true))
  let vals ← B.draws ctx
  let samples : Tensor ℝ :=
    ⟨[ctx.num_samples, B.num_channels, B.num_features, B.num_leaves, B.num_repetitions], vals⟩
  Rand.lift do
    let r_idxs ← (ctx.indices_repetition.unsqueezeEnd 4).expand
      [none, some B.num_channels, some B.num_features, some B.num_leaves, none]
    (← samples.gather 4 r_idxs).squeeze 4

/-- `AbstractLeaf.sample` with `ctx.indices_out` set (abstract_leaf.py:298-310, 151-165): shape `[N, C, F]`. -/
def sample (B : BaseLeaf) (ctx : Ctx) : Rand (Tensor ℝ) := do
  let samples ← B.sampleAll ctx
  Rand.lift do
    let p_idxs ← ctx.indices_out.view [ctx.indices_out.numel / B.num_features, 1, B.num_features]
    let p_idxs ← (p_idxs.unsqueezeEnd 1).expand [none, some B.num_channels, none, none]
    (← samples.gather 3 p_idxs).squeeze 3

end BaseLeaf

/-- `FactorizedLeaf` (factorized_leaf.py:11-66): base leaf, number of groups and the 0/1 tensor `scopes` of shape
`[F, O, R]`. -/
structure FactLeaf where
  base : BaseLeaf
  num_features_out : Nat
  scopes : Tensor Fl

namespace FactLeaf

/-- `torch.einsum("bicr,ior->bocr", x, scopes)` (factorized_leaf.py:90). -/
def mergeScopes (x scopes : Tensor Fl) : Res (Tensor Fl) := do
  require .shape (x.rank = 4 ∧ scopes.rank = 3)
  require .shape (x.size 1 = scopes.size 0 ∧ x.size 3 = scopes.size 2)
  return ⟨[x.size 0, scopes.size 1, x.size 2, x.size 3], fun j =>
    Fl.sumN (x.size 1) fun f => x.get [at' 0 j, f, at' 2 j, at' 3 j] * scopes.get [f, at' 1 j, at' 3 j]⟩

/-- `FactorizedLeaf.forward` after the base leaf (factorized_leaf.py:83-98). -/
def merge (L : FactLeaf) (x : Tensor Fl) : Res (Tensor Fl) := do
  let x ← x.sum 1
  if L.base.num_features = L.num_features_out then return x
  else
    let x ← mergeScopes x L.scopes
    require .assertion (x.shape = [x.size 0, L.num_features_out, L.base.num_leaves, L.base.num_repetitions])
    return x

/-- `FactorizedLeaf.forward` (factorized_leaf.py:69-98). -/
def forward (L : FactLeaf) (x : Tensor Fl) (marginalized_scopes : Option Scopes) : Res (Tensor Fl) := do
  L.merge (← L.base.forward x marginalized_scopes)

/-- `(scopes[..., indices_repetition].permute(2, 0, 1) * arange(O)).sum(-1).long()` (factorized_leaf.py:148-150), as a
natural number (the entries of `scopes` are 0 or 1). -/
def groupIdx (L : FactLeaf) (rep : Tensor Nat) : Tensor Nat :=
  ⟨rep.shape ++ [L.base.num_features], fun j =>
    ⌊(Fl.sumN L.num_features_out fun o =>
      L.scopes.get [at' 1 j, o, rep.get [at' 0 j]] * .fin o).val⌋₊⟩

/-- `FactorizedLeaf.sample` without returning parameters (factorized_leaf.py:100-158); cardinality 1, so the `repeat` of
line 156 does nothing. -/
def sample (L : FactLeaf) (ctx : Ctx) : Rand (Tensor ℝ) := do
  let samples ← L.base.sampleAll ctx
  Rand.lift do
    require .assertion (samples.shape = [ctx.num_samples, L.base.num_channels, L.base.num_features, L.base.num_leaves])
    let g ← ctx.indices_out.gather 1 (L.groupIdx ctx.indices_repetition)
    let g ← g.viewInfer [ctx.num_samples, 1]
    let g ← (g.unsqueezeEnd 1).expand [none, some L.base.num_channels, none, none]
    (← samples.gather 3 g).squeeze 3

end FactLeaf

/-- `FactorizedLeafSimple` (factorized_leaf.py:208-254): base leaf, number of groups, permutation and its inverse. -/
structure FactSimple where
  base : BaseLeaf
  num_features_out : Nat
  permutation : List Nat
  inverse_permutation : List Nat

/-- `t[:, p]` for a long tensor `p`. -/
def Tensor.indexDim1 {α : Type} (t : Tensor α) (p : List Nat) : Res (Tensor α) := do
  require .index (1 < t.rank)
  require .index (∀ k ∈ p, k < t.size 1)
  return ⟨setAt 1 p.length t.shape, fun i => t.get (setAt 1 (p.getD (at' 1 i) 0) i)⟩

/-- `t[:, :, p]` for a long tensor `p`. -/
def Tensor.indexDim2 {α : Type} (t : Tensor α) (p : List Nat) : Res (Tensor α) := do
  require .index (2 < t.rank)
  require .index (∀ k ∈ p, k < t.size 2)
  return ⟨setAt 2 p.length t.shape, fun i => t.get (setAt 2 (p.getD (at' 2 i) 0) i)⟩

namespace FactSimple

/-- `self.cardinality` (factorized_leaf.py:244): `ceil(F / O)`. -/
def cardinality (L : FactSimple) : Nat := (L.base.num_features + L.num_features_out - 1) / L.num_features_out

/-- `self.num_dummy_nodes` (factorized_leaf.py:247). -/
def numDummy (L : FactSimple) : Nat := L.cardinality * L.num_features_out - L.base.num_features

/-- padding with dummy nodes (factorized_leaf.py:273-277). -/
def padDummy (L : FactSimple) (x : Tensor Fl) : Res (Tensor Fl) :=
  if 0 < L.numDummy then x.cat (full [x.size 0, L.numDummy, x.size 2, x.size 3] (.fin 0)) 1 else .ok x

/-- `FactorizedLeafSimple.forward` after the base leaf (factorized_leaf.py:270-294). -/
def merge (L : FactSimple) (x : Tensor Fl) : Res (Tensor Fl) := do
  let x ← x.sum 1
  let x ← L.padDummy x
  let x ← x.indexDim1 L.permutation
  let x ← x.view [x.size 0, L.num_features_out, L.cardinality, x.size 2, x.size 3]
  let x ← x.sum 2
  require .assertion (x.shape = [x.size 0, L.num_features_out, L.base.num_leaves, L.base.num_repetitions])
  return x

/-- `FactorizedLeafSimple.forward` (factorized_leaf.py:256-294). -/
def forward (L : FactSimple) (x : Tensor Fl) (marginalized_scopes : Option Scopes) : Res (Tensor Fl) := do
  L.merge (← L.base.forward x marginalized_scopes)

/-- the index part of `FactorizedLeafSimple._index_leaf_samples` (factorized_leaf.py:352-364). -/
def unfoldIndices (L : FactSimple) (indices_out : Tensor Nat) : Res (Tensor Nat) := do
  let i ← (← indices_out.unsqueeze 1).unsqueeze 1
  let i ← i.expand [none, some L.base.num_channels, some L.cardinality, none]
  let i ← i.view [i.size 0, L.base.num_channels, L.base.num_features + L.numDummy]
  let i ← i.indexDim2 L.inverse_permutation
  if 0 < L.numDummy then i.take 2 (i.size 2 - L.numDummy) else .ok i

/-- `FactorizedLeafSimple.sample` without returning parameters (factorized_leaf.py:296-367). -/
def sample (L : FactSimple) (ctx : Ctx) : Rand (Tensor ℝ) := do
  let samples ← L.base.sampleAll ctx
  Rand.lift do
    require .assertion (samples.shape = [ctx.num_samples, L.base.num_channels, L.base.num_features, L.base.num_leaves])
    let i ← L.unfoldIndices ctx.indices_out
    (← samples.gather 3 (i.unsqueezeEnd 1)).squeeze 3

end FactSimple

/-- `Einet.leaf`: a plain leaf (bottom-up structure) or one of the factorized leaves (top-down structure). -/
inductive Leaf where
  | direct (B : BaseLeaf)
  | factorized (L : FactLeaf)
  | simple (L : FactSimple)

namespace Leaf

/-- the leaf distribution. -/
def base : Leaf → BaseLeaf
  | direct B => B
  | factorized L => L.base
  | simple L => L.base

/-- what the factorized leaves do with the output of their base leaf. -/
def merge : Leaf → Tensor Fl → Res (Tensor Fl)
  | direct _ => .ok
  | factorized L => L.merge
  | simple L => L.merge

/-- `self.leaf(x, marginalized_scopes)`. -/
def forward : Leaf → Tensor Fl → Option Scopes → Res (Tensor Fl)
  | direct B => B.forward
  | factorized L => L.forward
  | simple L => L.forward

/-- `self.leaf.sample(ctx)`. -/
def sample : Leaf → Ctx → Rand (Tensor ℝ)
  | direct B => B.sample
  | factorized L => L.sample
  | simple L => L.sample

end Leaf
end Einet
