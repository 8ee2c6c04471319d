import Verif.Dists
import Verif.TypeChecks

/-!
# Construction of an Einet from a configuration

Model of `Einet.__init__` (einet.py:94-115), `_build_structure_top_down` (238-340), `_build_structure_bottom_up`
(342-473), `_build_input_distribution*` (475-508) and of the constructors of the layers and leaves.

Everything random or trainable is a field of `Params`: the proofs quantify over it, so they hold for every
initialisation and for every later value of the parameters.  Parameters are finite real numbers (`torch.log(torch.rand())`
can produce `-inf` when the generator returns exactly 0; this is excluded).
-/

open Classical
noncomputable section
namespace Einet
open Tensor

/-- `torch.argsort(p)` (layers/factorized_leaf.py:254, utils.py `invert_permutation`) for a list of natural numbers. -/
def argsort (p : List Nat) : List Nat :=
  (List.range p.length).mergeSort fun a b => decide (p.getD a 0 ≤ p.getD b 0)

/-- leaf class with its `leaf_kwargs` and the values of its parameters. -/
inductive LeafSpec where
  | normal (means logvar : Par)
  | ratNormal (min_sigma max_sigma : ℝ) (min_mean max_mean : Option ℝ) (means stds : Par)
  | binomial (total_count : ℤ) (logits : Par)
  | bernoulli (probs : Par)
  | categorical (num_bins : ℤ) (logits : Nat → Nat → Nat → Nat → Nat → ℝ)

/-- the random choices of the constructors and the values of all parameters. -/
structure Params where
  leaf : LeafSpec
  /-- logits of the layers in the order of construction -/
  logits : Nat → List Nat → ℝ
  /-- logits of the root sum layer (bottom-up only) -/
  rootLogits : List Nat → ℝ
  mixLogits : List Nat → ℝ
  /-- logits of `_class_sampling_root`; the constructor only sets an unused attribute `weights` (einet.py:335-340) -/
  classLogits : List Nat → ℝ
  /-- result of `np.random.shuffle` -/
  shuffle : List Nat → List Nat
  /-- result of the `r`-th call `torch.randperm(n)` -/
  randperm : Nat → Nat → List Nat

/-- the random choices are rearrangements. -/
structure Params.Random (P : Params) : Prop where
  shuffle : ∀ l, (P.shuffle l).Perm l
  randperm : ∀ r n, (P.randperm r n).Perm (List.range n)

/-- an optional Python float as argument of `check_valid`. -/
def optReal : Option ℝ → PyVal
  | none => .none
  | some x => .float (.fin x)

/-- an optional Python float as bound. -/
def optBound (x : Option ℝ) : Option Num := x.map fun x => .float (.fin x)

namespace LeafSpec

/-- Construction of the leaf distribution: `AbstractLeaf.__init__` (abstract_leaf.py:183-215) and the constructors of
the subclasses (normal.py:15-35,54-92; binomial.py:21-50; bernoulli.py:14-27; categorical.py:16-30).  An unknown keyword
`cardinality` raises a `TypeError`.  Simplifications: the assertion of `RatNormal._project_params` is raised here instead
of at the first use. -/
def build (s : LeafSpec) (cardinality : Option ℤ) (d : LeafDims) : Res BaseLeaf := do
  require .type (cardinality = none)
  match s with
  | normal means logvar => return normalLeaf d means logvar
  | ratNormal min_sigma max_sigma min_mean max_mean means stds => do
    let _ ← checkValid (optReal (some min_sigma)) .float (some (.float (.fin 0))) (optBound (some max_sigma))
    let _ ← checkValid (optReal (some max_sigma)) .float (optBound (some min_sigma))
    let _ ← checkValid (optReal min_mean) .float none (optBound max_mean) true
    let _ ← checkValid (optReal max_mean) .float (optBound min_mean) none true
    require .assertion (∀ hi, max_mean = some hi → hi ≠ 0 → min_mean ≠ none)
    let proj : Nat → Nat → Nat → Nat → ℝ × ℝ := fun c f i r =>
      match ratProject min_sigma max_sigma min_mean max_mean (means c f i r) (stds c f i r) with
      | .ok p => p
      | .error _ => (0, 1)
    return gaussLeaf d (fun c f i r => (proj c f i r).1) (fun c f i r => (proj c f i r).2)
  | binomial total_count logits => do
    let _ ← checkValid (.int total_count) .int (some (.int 1))
    return binomialLeaf d total_count.toNat logits
  | bernoulli probs => return bernoulliLeaf d probs
  | categorical num_bins logits => do
    require .value (0 ≤ num_bins)
    return categoricalLeaf d num_bins.toNat logits

/-- keyword arguments for which the leaf is a probability distribution: at least one category, standard deviations
positive (the constructor of `RatNormal` does not enforce `min_sigma >= 0`). -/
def Good : LeafSpec → Prop
  | ratNormal min_sigma max_sigma _ _ _ _ => 0 ≤ min_sigma ∧ 0 < max_sigma
  | categorical num_bins _ => 1 ≤ num_bins
  | _ => True

/-- leaves whose `sample` does not raise: all but `Bernoulli`. -/
def CanSample : LeafSpec → Prop
  | bernoulli _ => False
  | _ => True

end LeafSpec

/-! ### Leaf groups -/

/-- group sizes before shuffling (factorized_leaf.py:45-51); the float division is idealised. -/
def groupSizes (F O : Nat) : List Nat := (List.range O).map fun i => if i < F % O then F / O + 1 else F / O

/-- `low` of group `o` (factorized_leaf.py:59-62): the sum of the sizes before. -/
def groupLow (sizes : List Nat) (o : Nat) : Nat := (sizes.take o).sum

/-- `high` of group `o` (factorized_leaf.py:61-64). -/
def groupHigh (F O : Nat) (sizes : List Nat) (o : Nat) : Nat :=
  if o + 1 = O then F else groupLow sizes o + sizes.getD o 0

/-- `FactorizedLeaf.__init__` (factorized_leaf.py:23-67).  Each assignment of line 65 writes to its own column of
`scopes`, so they are done at once here. -/
def FactLeaf.build (P : Params) (B : BaseLeaf) (O : Nat) : FactLeaf where
  base := B
  num_features_out := O
  scopes := ⟨[B.num_features, O, B.num_repetitions], fun j =>
    let sizes := P.shuffle (groupSizes B.num_features O)
    let idxs := P.randperm (at' 2 j) B.num_features
    let low := groupLow sizes (at' 1 j)
    let high := groupHigh B.num_features O sizes (at' 1 j)
    if at' 0 j ∈ (idxs.take high).drop low then .fin 1 else .fin 0⟩

/-- `FactorizedLeafSimple.__init__` (factorized_leaf.py:220-254). -/
def FactSimple.build (P : Params) (B : BaseLeaf) (O : Nat) : FactSimple :=
  let perm := P.randperm 0 (B.num_features + ((B.num_features + O - 1) / O * O - B.num_features))
  { base := B
    num_features_out := O
    permutation := perm
    inverse_permutation := argsort perm }

/-- `_build_input_distribution` (einet.py:486-508). -/
def buildInput (P : Params) (B : BaseLeaf) (O : Nat) : Leaf :=
  if B.num_repetitions = 1 then .simple (FactSimple.build P B O) else .factorized (FactLeaf.build P B O)

/-! ### Layers -/

/-- Checks of `AbstractLayer.__init__` and `AbstractSumLayer.__init__` (abstract_layers.py:17-37,121-142): sizes, then
`check_valid(dropout, float, 0.0, 1.0)`, which refuses `None`, then `torch.distributions.Bernoulli(probs=dropout)`, which
refuses negative numbers. -/
def checkSumLayer (F S O R : ℤ) (dropout : Option Fl) : Res Unit := do
  let _ ← checkValid (.int F) .int (some (.int 1))
  let _ ← checkValid (.int R) .int (some (.int 1))
  let _ ← checkValid (.int S) .int (some (.int 1))
  let _ ← checkValid (.int O) .int (some (.int 1))
  let _ ← checkValid (optFloat dropout) .float (some (.float (.fin 0))) (some (.float (.fin 1)))
  require .value (∀ p, dropout = some p → flGe p (.fin 0))

/-- a sum layer's data; `w` are the values of its logits. -/
def mkSumL (F S O R : Nat) (shape : SumL → List Nat) (w : List Nat → ℝ) : SumL :=
  let L : SumL := ⟨F, S, O, R, ⟨[], fun _ => .fin 0⟩⟩
  { L with logits := ⟨shape L, fun i => .fin (w i)⟩ }

/-- the `if`/`elif` over `layer_type` (einet.py:273-300, 380-407).  `EinsumLayer` does not pass `dropout` on
(einsum.py:62-68), so its layers use the default 0.0. -/
def mkLayer (c : Config) (F S O : Nat) (w : List Nat → ℝ) : Res Layer :=
  let R := c.num_repetitions.toNat
  if c.layer_type = "einsum" then do
    checkSumLayer F S O c.num_repetitions (some (.fin 0))
    return .einsum (mkSumL F S O R EinsumLayer.weightShape w)
  else if c.layer_type = "linsum" then do
    checkSumLayer F S O c.num_repetitions c.dropout
    return .linsum (mkSumL F S O R LinsumLayer.weightShape w)
  else if c.layer_type = "linsum2" then do
    checkSumLayer F S O c.num_repetitions c.dropout
    return .linsum2 (mkSumL F S O R LinsumLayer2.weightShape w)
  else .error .value

/-- `SumLayer(...)`. -/
def mkSum (F S O R : ℤ) (dropout : Option Fl) (w : List Nat → ℝ) : Res SumL := do
  checkSumLayer F S O R dropout
  return mkSumL F.toNat S.toNat O.toNat R.toNat SumLayer.weightShape w

/-- `layer.num_features_out` of the layers used by the bottom-up structure. -/
def Layer.numFeaturesOut : Layer → Nat
  | .sum L => L.num_features
  | .linsum L => LinsumLayer.numFeaturesOut L
  | .linsum2 L => LinsumLayer2.numFeaturesOut L
  | .einsum L => EinsumLayer.numFeaturesOut L
  | .rootProduct _ _ => 1

/-- the loop of `_build_structure_top_down` for `i = 1 .. n` (einet.py:251-302); the layers are listed from bottom to
top, as after `reversed` (einet.py:320). -/
def topDownLayers (c : Config) (P : Params) : Nat → Res (List Layer)
  | 0 => .ok []
  | n + 1 => do
    let above ← topDownLayers c P n
    let i := n + 1
    let S := if (i : ℤ) < c.depth then c.num_sums else c.num_leaves
    let O := if i = 1 then c.num_classes else c.num_sums
    let l ← mkLayer c (2 ^ i) S.toNat O.toNat (P.logits i)
    return l :: above

/-- the loop of `_build_structure_bottom_up` for `i = 0 .. n-1` (einet.py:355-412) with the current `in_features`. -/
def bottomUpLayers (c : Config) (P : Params) : Nat → Res (List Layer × Nat)
  | 0 => .ok ([], c.num_features.toNat)
  | i + 1 => do
    let (below, in_features) ← bottomUpLayers c P i
    let S := if i = 0 then c.num_leaves else c.num_sums
    let l ← mkLayer c in_features S.toNat c.num_sums.toNat (P.logits i)
    return (below ++ [l], l.numFeaturesOut)

/-- the mixing layer and the class sampling root (einet.py:322-340, 448-473); unused when there is one repetition or one
class, and then set to something irrelevant.  `MixingLayer` does not take a number of repetitions (mixing.py:33). -/
def buildRoots (c : Config) (P : Params) : Res (SumL × SumL) := do
  if 1 < c.num_repetitions then checkSumLayer 1 c.num_repetitions c.num_classes 1 c.dropout else .ok ()
  let mixing := mkSumL 1 c.num_repetitions.toNat c.num_classes.toNat 1 MixingLayer.weightShape P.mixLogits
  if 1 < c.num_classes then checkSumLayer 1 c.num_classes 1 1 (some (.fin 0)) else .ok ()
  let classRoot := mkSumL 1 c.num_classes.toNat 1 1 SumLayer.weightShape P.classLogits
  return (mixing, classRoot)

/-- sizes of the leaf layer. -/
def Config.leafDims (c : Config) : LeafDims where
  num_features := c.num_features.toNat
  num_channels := c.num_channels.toNat
  num_leaves := c.num_leaves.toNat
  num_repetitions := c.num_repetitions.toNat

/-- the layers of the top-down structure: for a negative depth `intermediate_layers[-1]` raises an `IndexError`
(einet.py:251-316).  The second component is `leaf_num_features_out`. -/
def topDownStructure (c : Config) (P : Params) : Res (List Layer × Nat) :=
  if c.depth = 0 then do
    let L ← mkSum 1 c.num_leaves c.num_classes c.num_repetitions c.dropout (P.logits 0)
    return ([.sum L], 1)
  else if c.depth < 0 then .error .index
  else do
    let ls ← topDownLayers c P c.depth.toNat
    return (ls, 2 ^ c.depth.toNat)

/-- the layers of the bottom-up structure: for depth 0 (and negative depths) the variable `_num_sums_out` is never
assigned (einet.py:355-436). -/
def bottomUpStructure (c : Config) (P : Params) : Res (List Layer) :=
  if c.depth ≤ 0 then .error .unboundLocal
  else do
    let (ls, f) ← bottomUpLayers c P c.depth.toNat
    let root ← mkSum f c.num_sums c.num_classes c.num_repetitions (some (.fin 0)) P.rootLogits
    return ls ++ [.sum root, .rootProduct f c.num_repetitions.toNat]

/-- `_build_structure_top_down` (einet.py:238-340). -/
def buildTopDown (c : Config) (P : Params) : Res Model := do
  let (layers, O) ← topDownStructure c P
  let B ← P.leaf.build c.cardinality c.leafDims
  let (mixing, classRoot) ← buildRoots c P
  return {
    num_features := c.num_features.toNat
    num_channels := c.num_channels.toNat
    num_classes := c.num_classes.toNat
    num_leaves := c.num_leaves.toNat
    num_repetitions := c.num_repetitions.toNat
    leaf := buildInput P B O
    permutation := none
    layers, mixing, classRoot }

/-- `_build_structure_bottom_up` (einet.py:342-473). -/
def buildBottomUp (c : Config) (P : Params) : Res Model := do
  let layers ← bottomUpStructure c P
  let B ← P.leaf.build c.cardinality c.leafDims
  let perms := (List.range c.num_repetitions.toNat).map fun r => P.randperm r c.num_features.toNat
  let (mixing, classRoot) ← buildRoots c P
  return {
    num_features := c.num_features.toNat
    num_channels := c.num_channels.toNat
    num_classes := c.num_classes.toNat
    num_leaves := c.num_leaves.toNat
    num_repetitions := c.num_repetitions.toNat
    leaf := .direct B
    permutation := some (perms, perms.map argsort)
    layers, mixing, classRoot }

/-- `Einet(config)` (einet.py:94-115). -/
def build (c : Config) (P : Params) : Res Model := do
  c.assertValid
  if c.structure' = "top-down" then buildTopDown c P
  else if c.structure' = "bottom-up" then buildBottomUp c P
  else .error .value

end Einet
