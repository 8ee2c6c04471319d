import Verif.StateDict

/-!
# Number of parameters: `count_params`

`count_params(model)` (exp_utils.py:120-130, again at 166-176; benchmark/benchmark_simple_vs_og.py:27-28): the sum of
`p.numel()` over the parameters with `requires_grad`.  Buffers are not parameters; `marginalization_constant`, `dropout` and
`_class_sampling_root.weights` are parameters without gradient (abstract_leaf.py:210, abstract_layers.py:137, einet.py:335-340,468-473).
-/

open Classical
noncomputable section
namespace Einet
open Tensor

/-- `t.numel()`. -/
def Entry.numel (e : Entry) : Nat := numelS e.shape

/-- names of the parameters with gradient of a leaf class (normal.py:34-35,80-87; binomial.py:50; bernoulli.py:27;
categorical.py:30). -/
def LeafSpec.trainable : LeafSpec → List String
  | normal _ _ => ["means", "logvar"]
  | ratNormal _ _ _ _ _ _ => ["means", "stds"]
  | binomial _ _ => ["logits"]
  | bernoulli _ => ["probs"]
  | categorical _ _ => ["logits"]

namespace Net

/-- names of the parameters with gradient of an `Einet`: those of the leaf, the logits of the layers (abstract_layers.py:134;
`RootProductLayer` has none), of `mixing` and of `_class_sampling_root` (einet.py:319-340,452-473). -/
def trainable (N : Net) : List Key :=
  (N.spec.trainable.map fun x => match N.model.leaf with | .direct _ => .leaf x | _ => .base x) ++
  ((List.range N.model.layers.length).filter fun i => match N.model.layers[i]? with
    | some (.rootProduct _ _) => false
    | _ => true).map (fun i => .layer i "logits") ++
  (if 1 < N.model.num_repetitions then [.mixing "logits"] else []) ++
  (if 1 < N.model.num_classes then [.classRoot "logits"] else [])

/-- `count_params(model)`. -/
def countParams (N : Net) : Nat := (N.trainable.map fun k => ((N.stateDict k).map Entry.numel).getD 0).sum

end Net
end Einet
