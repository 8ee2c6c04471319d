import Verif.Build

/-!
# Saving and restoring an Einet

Model of `model.state_dict()` and `model.load_state_dict(...)` (main.py:228,234; both of `torch.nn.Module`) for the modules of an
`Einet`: which values are registered as parameters or buffers by the constructors, and what loading replaces.

A dotted name such as `layers.2.logits` is a structured `Key`; a dictionary is a partial function on keys.  Simplifications: entries with
the same value in every object are listed in the dictionary, but loading does not change them (`marginalization_constant`,
`unraveled_channel_indices*`, the unused `weights` of the class root); the conversion of entries with one element into numbers for files
of very old versions of torch is left out.
-/

open Classical
noncomputable section
namespace Einet
open Tensor

/-- a value in a state dict. -/
inductive Entry where
  | float (t : Tensor Fl)
  | long (t : Tensor Nat)

namespace Entry

/-- `t.shape`. -/
def shape : Entry → List Nat
  | float t => t.shape
  | long t => t.shape

/-- the values as floats. -/
def toFloat : Entry → Tensor Fl
  | float t => t
  | long t => ⟨t.shape, fun j => .fin (t.get j : ℝ)⟩

/-- the values as indices (the cast truncates). -/
def toLong : Entry → Tensor Nat
  | float t => ⟨t.shape, fun j => ⌊(t.get j).val⌋₊⟩
  | long t => t

/-- a parameter or buffer of a leaf distribution: shape `[1, C, F, I, R]` (normal.py:34-35, binomial.py:50, bernoulli.py:27). -/
def ofPar (d : LeafDims) (p : Par) : Entry :=
  float ⟨[1, d.num_channels, d.num_features, d.num_leaves, d.num_repetitions], fun j => .fin (p (at' 1 j) (at' 2 j) (at' 3 j) (at' 4 j))⟩

/-- the values of `ofPar`. -/
def toPar (e : Entry) : Par := fun c f i r => (e.toFloat.get [0, c, f, i, r]).val

/-- a permutation, as a long tensor. -/
def ofList (l : List Nat) : Entry := long ⟨[l.length], fun j => l.getD (at' 0 j) 0⟩

/-- the values of `ofList`. -/
def toList (e : Entry) : List Nat := (List.range (at' 0 e.shape)).map fun i => e.toLong.get [i]

/-- permutations as rows of a matrix with `n` columns (einet.py:440-449). -/
def ofRows (n : Nat) (l : List (List Nat)) : Entry := long ⟨[l.length, n], fun j => (l.getD (at' 0 j) []).getD (at' 1 j) 0⟩

/-- the values of `ofRows`. -/
def toRows (e : Entry) : List (List Nat) :=
  (List.range (at' 0 e.shape)).map fun r => (List.range (at' 1 e.shape)).map fun f => e.toLong.get [r, f]

end Entry

/-- the dotted names: `leaf.x`, `leaf.base_leaf.x`, `layers.i.x`, `mixing.x`, `_class_sampling_root.x`, `x`. -/
inductive Key where
  | leaf (x : String)
  | base (x : String)
  | layer (i : Nat) (x : String)
  | mixing (x : String)
  | classRoot (x : String)
  | top (x : String)

/-- a state dict. -/
abbrev Saved := Key → Option Entry

/-- what loading puts in the place of an entry. -/
abbrev Put := Key → Entry → Entry

/-! ### Leaf distributions -/

namespace LeafSpec

/-- `[1]`-shaped parameter of every leaf (abstract_leaf.py:210). -/
def constant : Entry := .float ⟨[1], fun _ => .fin 0⟩

/-- parameters of the leaf distributions (abstract_leaf.py:210; normal.py:34-35,80-87; binomial.py:50; bernoulli.py:27;
categorical.py:30). -/
def registered (d : LeafDims) : LeafSpec → String → Option Entry
  | s, x =>
    if x = "marginalization_constant" then some constant else
    match s with
    | normal means logvar =>
      if x = "means" then some (.ofPar d means) else if x = "logvar" then some (.ofPar d logvar) else none
    | ratNormal _ _ _ _ means stds =>
      if x = "means" then some (.ofPar d means) else if x = "stds" then some (.ofPar d stds) else none
    | binomial _ logits => if x = "logits" then some (.ofPar d logits) else none
    | bernoulli probs => if x = "probs" then some (.ofPar d probs) else none
    | categorical n logits =>
      if x = "logits" then some (.float ⟨[1, d.num_channels, d.num_features, d.num_leaves, d.num_repetitions, n.toNat], fun j =>
        .fin (logits (at' 1 j) (at' 2 j) (at' 3 j) (at' 4 j) (at' 5 j))⟩) else none

/-- the leaf with the entries replaced; the keyword arguments stay. -/
def replace (d : LeafDims) (put : String → Entry → Entry) : LeafSpec → LeafSpec
  | normal means logvar => normal (put "means" (.ofPar d means)).toPar (put "logvar" (.ofPar d logvar)).toPar
  | ratNormal a b lo hi means stds => ratNormal a b lo hi (put "means" (.ofPar d means)).toPar (put "stds" (.ofPar d stds)).toPar
  | binomial n logits => binomial n (put "logits" (.ofPar d logits)).toPar
  | bernoulli probs => bernoulli (put "probs" (.ofPar d probs)).toPar
  | categorical n logits =>
    categorical n fun c f i r k =>
      ((put "logits" (.float ⟨[1, d.num_channels, d.num_features, d.num_leaves, d.num_repetitions, n.toNat], fun j =>
        .fin (logits (at' 1 j) (at' 2 j) (at' 3 j) (at' 4 j) (at' 5 j))⟩)).toFloat.get [0, c, f, i, r, k]).val

/-- the distribution of a leaf that was constructed: the result of `build` without the checks of the keyword arguments. -/
def leafOf (d : LeafDims) : LeafSpec → BaseLeaf
  | normal means logvar => normalLeaf d means logvar
  | ratNormal min_sigma max_sigma min_mean max_mean means stds =>
    let proj : Nat → Nat → Nat → Nat → ℝ × ℝ := fun c f i r =>
      match ratProject min_sigma max_sigma min_mean max_mean (means c f i r) (stds c f i r) with
      | .ok p => p
      | .error _ => (0, 1)
    gaussLeaf d (fun c f i r => (proj c f i r).1) (fun c f i r => (proj c f i r).2)
  | binomial total_count logits => binomialLeaf d total_count.toNat logits
  | bernoulli probs => bernoulliLeaf d probs
  | categorical num_bins logits => categoricalLeaf d num_bins.toNat logits

end LeafSpec

/-! ### The other modules -/

/-- parameters of a sum layer (abstract_layers.py:134-137). -/
def SumL.registered (L : SumL) (dropout : Fl) (x : String) : Option Entry :=
  if x = "logits" then some (.float L.logits) else if x = "dropout" then some (.float ⟨[], fun _ => dropout⟩) else none

/-- index maps of an `EinsumLayer` for `S` inputs (einsum.py:70-88). -/
def einsumIndices (S : Nat) (x : String) : Option Entry :=
  if x = "unraveled_channel_indices" then some (.long ⟨[S * S, 2], fun j => if at' 1 j = 0 then at' 0 j / S else at' 0 j % S⟩)
  else if x = "unraveled_channel_indices_oh_0" then
    some (.long ⟨[1, 1, S * S, S], fun j => if at' 3 j = at' 2 j / S then 1 else 0⟩)
  else if x = "unraveled_channel_indices_oh_1" then
    some (.long ⟨[1, 1, S * S, S], fun j => if at' 3 j = at' 2 j % S then 1 else 0⟩)
  else none

/-- entries of one of the modules in `layers`; `RootProductLayer` has none (product.py:15-18). -/
def Layer.registered (l : Layer) (dropout : Fl) (x : String) : Option Entry :=
  match l with
  | .sum L => L.registered dropout x
  | .linsum L => L.registered dropout x
  | .linsum2 L => L.registered dropout x
  | .einsum L => (L.registered dropout x).orElse fun _ => einsumIndices L.num_sums_in x
  | .rootProduct _ _ => none

/-- the layer with its logits replaced. -/
def SumL.replace (put : String → Entry → Entry) (L : SumL) : SumL := { L with logits := (put "logits" (.float L.logits)).toFloat }

/-- a module of `layers` with its logits replaced. -/
def Layer.replace (put : String → Entry → Entry) : Layer → Layer
  | .sum L => .sum (L.replace put)
  | .linsum L => .linsum (L.replace put)
  | .linsum2 L => .linsum2 (L.replace put)
  | .einsum L => .einsum (L.replace put)
  | .rootProduct f r => .rootProduct f r

/-- `dropout` with its value replaced. -/
def dropReplace (put : String → Entry → Entry) (dropout : Fl) : Fl :=
  (put "dropout" (.float ⟨[], fun _ => dropout⟩)).toFloat.get []

/-! ### Einet -/

/-- An `Einet` object: the model, the leaf distribution with its keyword arguments, and the dropout of the modules (`layers`, `mixing`,
`_class_sampling_root`). -/
structure Net where
  model : Model
  spec : LeafSpec
  drop : Nat → Fl
  mixDrop : Fl
  classDrop : Fl

namespace Net

/-- sizes of the leaf distribution. -/
def dims (N : Net) : LeafDims where
  num_features := N.model.leaf.base.num_features
  num_channels := N.model.leaf.base.num_channels
  num_leaves := N.model.leaf.base.num_leaves
  num_repetitions := N.model.leaf.base.num_repetitions

/-- `Einet(config)`: the dropout is the one of the configuration, except in `EinsumLayer`, in the root of the bottom-up structure and in
`_class_sampling_root`, which use the default (einet.py:267-340,380-473; einsum.py:62-68). -/
def create (c : Config) (P : Params) : Res Net := do
  let M ← build c P
  let d := c.dropout.getD (.fin 0)
  return {
    model := M
    spec := P.leaf
    drop := fun i => match M.layers[i]? with
      | some (.einsum _) => .fin 0
      | some (.sum _) => if c.structure' = "bottom-up" then .fin 0 else d
      | _ => d
    mixDrop := d
    classDrop := .fin 0 }

/-- `model.state_dict()`: the leaf (`leaf.base_leaf` below a factorized leaf; buffers at factorized_leaf.py:67,251,254), the layers,
`mixing` and `_class_sampling_root` if they exist (einet.py:319-340,452-473), the permutations of the bottom-up structure
(einet.py:448-449). -/
def stateDict (N : Net) : Saved
  | .leaf x =>
    match N.model.leaf with
    | .direct _ => N.spec.registered N.dims x
    | .factorized L => if x = "scopes" then some (.float L.scopes) else none
    | .simple L =>
      if x = "permutation" then some (.ofList L.permutation)
      else if x = "inverse_permutation" then some (.ofList L.inverse_permutation) else none
  | .base x =>
    match N.model.leaf with
    | .direct _ => none
    | _ => N.spec.registered N.dims x
  | .layer i x =>
    match N.model.layers[i]? with
    | some l => l.registered (N.drop i) x
    | none => none
  | .mixing x => if 1 < N.model.num_repetitions then N.model.mixing.registered N.mixDrop x else none
  | .classRoot x =>
    if 1 < N.model.num_classes then
      if x = "weights" then
        some (.float ⟨[1, N.model.num_classes, 1, 1], fun _ => .fin (Real.log (1 / N.model.num_classes))⟩)
      else N.model.classRoot.registered N.classDrop x
    else none
  | .top x =>
    match N.model.permutation with
    | some (p, q) =>
      if x = "permutation" then some (.ofRows N.model.num_features p)
      else if x = "permutation_inv" then some (.ofRows N.model.num_features q) else none
    | none => none

/-- the leaf distribution with its entries replaced. -/
def replaceSpec (put : Put) (N : Net) : LeafSpec :=
  N.spec.replace N.dims fun x => put (match N.model.leaf with | .direct _ => .leaf x | _ => .base x)

/-- the object with its entries replaced. -/
def replace (put : Put) (N : Net) : Net :=
  let B := (N.replaceSpec put).leafOf N.dims
  { model := { N.model with
      leaf := match N.model.leaf with
        | .direct _ => .direct B
        | .factorized L => .factorized { L with base := B, scopes := (put (.leaf "scopes") (.float L.scopes)).toFloat }
        | .simple L => .simple { L with
            base := B
            permutation := (put (.leaf "permutation") (.ofList L.permutation)).toList
            inverse_permutation := (put (.leaf "inverse_permutation") (.ofList L.inverse_permutation)).toList }
      permutation := N.model.permutation.map fun pq =>
        ((put (.top "permutation") (.ofRows N.model.num_features pq.1)).toRows,
         (put (.top "permutation_inv") (.ofRows N.model.num_features pq.2)).toRows)
      layers := N.model.layers.mapIdx fun i l => l.replace fun x => put (.layer i x)
      mixing := if 1 < N.model.num_repetitions then N.model.mixing.replace fun x => put (.mixing x) else N.model.mixing
      classRoot := if 1 < N.model.num_classes then N.model.classRoot.replace fun x => put (.classRoot x) else N.model.classRoot }
    spec := N.replaceSpec put
    drop := fun i => dropReplace (fun x => put (.layer i x)) (N.drop i)
    mixDrop := dropReplace (fun x => put (.mixing x)) N.mixDrop
    classDrop := dropReplace (fun x => put (.classRoot x)) N.classDrop }

/-- names and shapes agree. -/
def Fits (N : Net) (sd : Saved) : Prop := ∀ k, (N.stateDict k).map Entry.shape = (sd k).map Entry.shape

/-- `model.load_state_dict(sd)`: entries with a known name and the right shape are copied, one after the other; afterwards a
`RuntimeError` is raised if a name is missing or unexpected or a shape differs.  The first component is the object after the call. -/
def load (N : Net) (sd : Saved) : Net × Res Unit :=
  (N.replace fun k e => match sd k with
    | some e' => if e'.shape = e.shape then e' else e
    | none => e,
   if N.Fits sd then .ok () else .error .other)

end Net

end Einet
