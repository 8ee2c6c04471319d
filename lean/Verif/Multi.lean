import Verif.Mixture

/-!
# Leaves with several distributions

Model of simple_einet/layers/distributions/multidistribution.py with integer indices.  Scopes are lists of natural numbers (a
Python list of negative numbers would count from the end).
-/

open Classical
noncomputable section
namespace Einet

namespace Tensor
variable {α : Type}

/-- `torch.cat(l, dim=d)`: raises for an empty list. -/
def catAll (d : Nat) : List (Tensor α) → Res (Tensor α)
  | [] => .error .other
  | [t] => .ok t
  | t :: u :: l => do
    let r ← catAll d (u :: l)
    t.cat r d

end Tensor
open Tensor

/-- `MultiDistributionLayer` (multidistribution.py:12-68).  `parts` is `zip(self.scopes, self.dists)`. -/
structure MultiLeaf where
  num_features : Nat
  num_channels : Nat
  num_leaves : Nat
  num_repetitions : Nat
  parts : List (List Nat × BaseLeaf)
  inverted_index : List Nat
  needs_inversion : Bool

namespace MultiLeaf

/-- `all_scopes` (multidistribution.py:39-42). -/
def allScopes {β : Type} (scopes_to_dist : List (List Nat × β)) : List Nat := (scopes_to_dist.map Prod.fst).flatten

/-- construction of the distribution of one scope (multidistribution.py:47-57, abstract_layers.py:17-37). -/
def initPart (C I R : Nat) (s : List Nat × LeafSpec) : Res (List Nat × BaseLeaf) := do
  require .value (1 ≤ s.1.length)
  let B ← s.2.build none ⟨s.1.length, C, I, R⟩
  return (s.1, B)

/-- `MultiDistributionLayer.__init__` (multidistribution.py:13-68).  The only check of the scopes is the one on their total
number (44). -/
def init (scopes_to_dist : List (List Nat × LeafSpec)) (num_features num_channels num_leaves num_repetitions : Nat) :
    Res MultiLeaf := do
  require .value (1 ≤ num_features ∧ 1 ≤ num_channels ∧ 1 ≤ num_leaves ∧ 1 ≤ num_repetitions)
  require .assertion ((allScopes scopes_to_dist).length = num_features)
  let parts ← scopes_to_dist.mapM (initPart num_channels num_leaves num_repetitions)
  return {
    num_features := num_features
    num_channels := num_channels
    num_leaves := num_leaves
    num_repetitions := num_repetitions
    parts := parts
    -- `torch.argsort` (utils.py:23-24); for equal entries the order is unspecified
    inverted_index := sortPerm (allScopes scopes_to_dist)
    needs_inversion := decide (allScopes scopes_to_dist ≠ (allScopes scopes_to_dist).mergeSort) }

/-- `if self.needs_inversion: t = t[:, :, self.inverted_index]` (multidistribution.py:84-85, 116-117). -/
def reorder {α : Type} (L : MultiLeaf) (t : Tensor α) : Res (Tensor α) :=
  if L.needs_inversion then t.indexDim2 L.inverted_index else .ok t

/-- `_marginalize_input` on the reordered values (multidistribution.py:88, abstract_leaf.py:236-264). -/
def marginalize (L : MultiLeaf) (lls : Tensor Fl) (marginalized_scopes : Option Scopes) : Res (Tensor Fl) := do
  let sc ← Scopes.resolveOpt L.num_features marginalized_scopes
  return ⟨lls.shape, fun j => match sc with
    | some s => if at' 2 j ∈ s then .fin 0 else lls.get j
    | none => if (lls.get j).isnan then .fin 0 else lls.get j⟩

/-- `MultiDistributionLayer.forward` (multidistribution.py:70-90). -/
def forward (L : MultiLeaf) (x : Tensor Fl) (marginalized_scopes : Option Scopes) : Res (Tensor Fl) := do
  let lls_all ← L.parts.mapM fun p => do
    let x_d ← x.indexDim2 p.1
    p.2.forward x_d none
  let lls ← catAll 2 lls_all
  let lls ← L.reorder lls
  L.marginalize lls marginalized_scopes

/-- `MultiDistributionLayer.sample` (multidistribution.py:92-119) with `ctx.indices_out` given, not returning parameters. -/
def sample (L : MultiLeaf) (ctx : Ctx) : Rand (Tensor ℝ) :=
  (Rand.forEach L.parts fun p => (Rand.lift (ctx.indices_out.indexDim1 p.1)).bind fun i =>
    p.2.sample { ctx with indices_out := i }).bind fun all_samples => Rand.lift do
      let samples ← catAll 2 all_samples
      L.reorder samples

/-- `MultiDistributionLayer.sample` with `ctx.indices_out = None`, as called by the factorized leaves (factorized_leaf.py:117). -/
def sampleAll (L : MultiLeaf) (ctx : Ctx) : Rand (Tensor ℝ) :=
  (Rand.forEach L.parts fun p => p.2.sampleAll ctx).bind fun all_samples => Rand.lift do
    let samples ← catAll 2 all_samples
    L.reorder samples

/-- padding of the parameters of a part with zeros up to `m` (multidistribution.py:136-141). -/
def padParams (m : Nat) (p : Tensor Fl) : Res (Tensor Fl) :=
  if p.size (p.rank - 1) < m
  then p.cat (full (setAt (p.rank - 1) (m - p.size (p.rank - 1)) p.shape) (.fin 0)) (p.rank - 1)
  else .ok p

/-- `MultiDistributionLayer.get_params` (multidistribution.py:124-142) for given parameters of the parts: they are put together in
the order of the parts. -/
def getParams (params : List (Tensor Fl)) : Res (Tensor Fl) := do
  require .value (params ≠ [])
  let params ← params.mapM (padParams ((params.map fun p => p.size (p.rank - 1)).foldr max 0))
  catAll 2 params

end MultiLeaf
end Einet
