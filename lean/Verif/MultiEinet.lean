import Verif.Multi
import Verif.Build

/-!
# Einets with a `MultiDistributionLayer`

`leaf_type=MultiDistributionLayer, leaf_kwargs={"scopes_to_dist": ...}`: the same network as with other leaves, with
`MultiLeaf` in the place of the base leaf.
-/

open Classical
noncomputable section
namespace Einet
open Tensor

/-- `FactorizedLeaf._index_leaf_samples` (factorized_leaf.py:129-158); cardinality 1. -/
def FactLeaf.index (L : FactLeaf) (ctx : Ctx) (samples : Tensor ℝ) : Res (Tensor ℝ) := do
  require .assertion (samples.shape = [ctx.num_samples, L.base.num_channels, L.base.num_features, L.base.num_leaves])
  let g ← ctx.indices_out.gather 1 (L.groupIdx ctx.indices_repetition)
  let g ← g.viewInfer [ctx.num_samples, 1]
  let g ← (g.unsqueezeEnd 1).expand [none, some L.base.num_channels, none, none]
  (← samples.gather 3 g).squeeze 3

/-- `FactorizedLeafSimple._index_leaf_samples` (factorized_leaf.py:325-367). -/
def FactSimple.index (L : FactSimple) (ctx : Ctx) (samples : Tensor ℝ) : Res (Tensor ℝ) := do
  require .assertion (samples.shape = [ctx.num_samples, L.base.num_channels, L.base.num_features, L.base.num_leaves])
  let i ← L.unfoldIndices ctx.indices_out
  (← samples.gather 3 (i.unsqueezeEnd 1)).squeeze 3

/-- An einet with a `MultiDistributionLayer`.  Of the base leaf of `net` only the sizes are used. -/
structure MultiEinet where
  leaf : MultiLeaf
  net : Model

namespace MultiEinet

/-- `Einet.forward` with the input caches it fills (einet.py:121-204). -/
def run (E : MultiEinet) (x : Tensor Fl) (marginalized_scopes : Option Scopes) : Res (Tensor Fl × Caches) := do
  let x ← E.net.prepInput x
  let y ← E.leaf.forward x marginalized_scopes
  let y ← E.net.leaf.merge y
  E.net.upper y

/-- `model(x, marginalized_scopes)`. -/
def forward (E : MultiEinet) (x : Tensor Fl) (marginalized_scopes : Option Scopes := none) : Res (Tensor Fl) :=
  (E.run x marginalized_scopes).map Prod.fst

/-- `self.leaf.sample(ctx)`: the factorized leaves call the base leaf with `indices_out = None` (factorized_leaf.py:100-128,
296-323). -/
def sampleLeaf (E : MultiEinet) (ctx : Ctx) : Rand (Tensor ℝ) :=
  match E.net.leaf with
  | .direct _ => E.leaf.sample ctx
  | .factorized L => (E.leaf.sampleAll ctx).bind fun samples => Rand.lift (L.index ctx samples)
  | .simple L => (E.leaf.sampleAll ctx).bind fun samples => Rand.lift (L.index ctx samples)

/-- the forward pass on the evidence that fills the input caches (sampling_utils.py:49-56). -/
def evidenceCaches (E : MultiEinet) (a : SampleArgs) : Res Caches :=
  match a.evidence with
  | none => .ok ⟨[], none⟩
  | some e => (E.run e a.marginalized_scopes).map Prod.snd

/-- `Einet.sample` (einet.py:533-697). -/
def sample (E : MultiEinet) (a : SampleArgs) : Rand (Tensor Fl) :=
  (Rand.lift (a.check E.net)).bind fun _ =>
    (Rand.lift (E.evidenceCaches a)).bind fun caches =>
      (E.net.samplePath a caches).bind fun ctx =>
        (E.sampleLeaf ctx).bind fun samples => Rand.lift (Model.finish a samples)

/-- `Einet.mpe` (einet.py:515-531). -/
def mpe (E : MultiEinet) (evidence : Option (Tensor Fl)) (marginalized_scopes : Option Scopes := none) : Rand (Tensor Fl) :=
  E.sample { evidence := evidence, is_mpe := true, marginalized_scopes := marginalized_scopes }

end MultiEinet

/-- the parameters with a normal distribution in place of the leaves. -/
def Params.standIn (P : Params) : Params := { P with leaf := .normal (fun _ _ _ _ => 0) (fun _ _ _ _ => 0) }

/-- `Einet(config)` with a `MultiDistributionLayer` (einet.py:94-115, 475-508).  An additional `cardinality` among the
`leaf_kwargs` raises a `TypeError`, as for the stand-in.  Simplification: the checks of the leaf come before those of the
layers. -/
def buildMulti (c : Config) (P : Params) (scopes_to_dist : List (List Nat × LeafSpec)) : Res MultiEinet := do
  c.assertValid
  let leaf ← MultiLeaf.init scopes_to_dist c.num_features.toNat c.num_channels.toNat c.num_leaves.toNat c.num_repetitions.toNat
  return ⟨leaf, ← build c P.standIn⟩

end Einet
