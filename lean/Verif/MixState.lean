import Verif.StateDict
import Verif.Mixture

/-!
# Saving and restoring mixtures

`state_dict` and `load_state_dict` of `Mixture` (simple_einet/mixture.py) with `EinetConfig` components: the entries of the components
under `models.<i>.` (line 38) and the buffers `mixture_weights` and `centroids` (lines 40-41).  The `KMeans` object (line 39) is not a
module; of it only the function `max_sim` is used after the initialisation (line 77), which does not depend on its state.
-/

open Classical
noncomputable section
namespace Einet
open Tensor

/-- names of the entries. -/
inductive MixKey where
  | models (i : Nat) (k : Key)
  | mixture_weights
  | centroids

/-- A `Mixture` object. -/
structure MixNet where
  nets : List Net
  num_features : Nat
  weights : Tensor Fl
  centroids : Tensor Fl
  nearest : List Fl → List (List Fl) → Nat

namespace MixNet

/-- a list as tensor of one dimension. -/
def vec (l : List Fl) : Tensor Fl := ⟨[l.length], fun i => l.getD (at' 0 i) .nan⟩

/-- rows of length `d` as tensor of two dimensions. -/
def mat (d : Nat) (l : List (List Fl)) : Tensor Fl := ⟨[l.length, d], fun i => (l.getD (at' 0 i) []).getD (at' 1 i) .nan⟩

/-- entries of a tensor of one dimension. -/
def toVec (t : Tensor Fl) : List Fl := (List.range (t.size 0)).map fun i => t.get [i]

/-- rows of a tensor of two dimensions. -/
def toMat (t : Tensor Fl) : List (List Fl) := (List.range (t.size 0)).map fun i => (List.range (t.size 1)).map fun j => t.get [i, j]

/-- what the methods of `Mixture` read. -/
def mixture (X : MixNet) : Mixture where
  models := X.nets.map Net.model
  num_features := X.num_features
  mixture_weights := toVec X.weights
  centroids := toMat X.centroids
  nearest := X.nearest

/-- `Mixture(n_components, config)` (mixture.py:18-41); `w` and `m` are the contents of the memory that `torch.empty` returns. -/
def create (n_components : Int) (c : Config) (P : Nat → Params) (w : List Nat → Fl) (m : List Nat → Fl)
    (nearest : List Fl → List (List Fl) → Nat) : Res MixNet := do
  let _ ← checkValid (.int n_components) .int (some (.int 1))
  let nets ← (List.range n_components.toNat).mapM fun k => Net.create c (P k)
  return {
    nets := nets
    num_features := c.num_features.toNat
    weights := ⟨[n_components.toNat], w⟩
    centroids := ⟨[n_components.toNat, c.num_features.toNat], m⟩
    nearest := nearest }

/-- `Mixture.initialize` from the result of the clustering (mixture.py:59-67): the predictions and the centroids, one row per cluster
of the length `d` of the flattened data (line 59).  `.data = ...` replaces also the shape of a buffer. -/
def init (X : MixNet) (predictions : List Nat) (d : Nat) (centroids : List (List Fl)) (total_count : Option ℝ) : MixNet :=
  { X with
    weights := vec (Mixture.weightsOf predictions)
    centroids := mat d (match total_count with
      | none => centroids
      | some t => centroids.map fun l => l.map fun v => v * .fin t) }

/-- `mixture.state_dict()`. -/
def stateDict (X : MixNet) : MixKey → Option Entry
  | .models i k => (X.nets[i]?).bind fun N => N.stateDict k
  | .mixture_weights => some (.float X.weights)
  | .centroids => some (.float X.centroids)

/-- an entry is copied if its shape is the right one. -/
def copy (sd : MixKey → Option Entry) (k : MixKey) (t : Tensor Fl) : Tensor Fl :=
  match sd k with
  | some e => if e.shape = t.shape then e.toFloat else t
  | none => t

/-- names and shapes agree. -/
def Fits (X : MixNet) (sd : MixKey → Option Entry) : Prop := ∀ k, (X.stateDict k).map Entry.shape = (sd k).map Entry.shape

/-- `mixture.load_state_dict(sd)`, as `Net.load`. -/
def load (X : MixNet) (sd : MixKey → Option Entry) : MixNet × Res Unit :=
  ({ X with
      nets := X.nets.mapIdx fun i N => (N.load fun k => sd (.models i k)).1
      weights := copy sd .mixture_weights X.weights
      centroids := copy sd .centroids X.centroids },
   if X.Fits sd then .ok () else .error .other)

end MixNet
end Einet
