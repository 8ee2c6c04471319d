import Verif.Dists
import Verif.Prob

/-!
Model of `init_einet_stats` (simple_einet/sampling_utils.py:298-360): the parameters of Gaussian leaves are set from statistics of
the batches of a data loader.
-/

noncomputable section

namespace Einet
open MeasureTheory ProbabilityTheory

/-- mean along a dimension of size `n`; for `n = 0` it is `0 / 0`. -/
def Fl.meanN (n : Nat) (f : Nat → Fl) : Fl := Fl.sumN n f / .fin n

/-- `torch.var` along a dimension of size `n`, with Bessel's correction; for `n = 1` it is `0 / 0`. -/
def Fl.varN (n : Nat) (f : Nat → Fl) : Fl :=
  Fl.sumN n (fun i => (f i - Fl.meanN n f) * (f i - Fl.meanN n f)) / .fin ((n - 1 : Nat) : ℝ)

/-- square root. -/
def Fl.sqrt : Fl → Fl
  | .fin a => if 0 ≤ a then .fin (√a) else .nan
  | .pinf => .pinf
  | _ => .nan

/-- `stats_mean` and `stats_var`. -/
abbrev Stats := Tensor Fl × Tensor Fl

/-- `s += t`: the result must have the shape of `s`. -/
def Tensor.addInto (s t : Tensor Fl) : Res (Tensor Fl) := do
  let u ← s.add t
  require .shape (u.shape = s.shape)
  return u

/-- one pass of the loop over batches (sampling_utils.py:312-319). -/
def statsStep (acc : Option Stats) (data : Tensor Fl) : Res (Option Stats) := do
  let m ← data.reduce Fl.meanN 0
  let v ← data.reduce Fl.varN 0
  match acc with
  | none => return some (m, v)
  | some (sm, sv) => do
    let sm ← sm.addInto m
    let sv ← sv.addInto v
    return some (sm, sv)

/-- the statistics (sampling_utils.py:308-323); without a batch `None /= 0` raises. -/
def batchStats (batches : List (Tensor Fl)) : Res Stats := do
  match ← batches.foldlM statsStep none with
  | none => .error .type
  | some (m, v) => return (m.map (· / .fin batches.length), v.map (· / .fin batches.length))

/-- `t.repeat(*k)` for as many numbers as dimensions. -/
def Tensor.repeatT (k : List Nat) (t : Tensor Fl) : Tensor Fl :=
  ⟨List.zipWith (· * ·) k t.shape, fun i => t.get (List.zipWith (· % ·) i t.shape)⟩

/-- the statistics in the shape of the leaf parameters (sampling_utils.py:338-347). -/
def tileLeaf (d : LeafDims) (t : Tensor Fl) : Res (Tensor Fl) := do
  let t ← t.view [t.numel, 1, 1]
  (t.repeatT [1, d.num_leaves, d.num_repetitions]).view [1, d.num_channels, d.num_features, d.num_leaves, d.num_repetitions]

/-- `torch.std` of all entries. -/
def Tensor.stdAll (t : Tensor Fl) : Fl := Fl.sqrt (Fl.varN t.numel fun k => t.get (Tensor.unflat t.shape k))

/-- `torch.normal(torch.zeros_like(t), s)`: raises unless `s ≥ 0`.  (An infinite `s` is not the standard deviation of any tensor; the
model raises as well.) -/
def noiseLike (t : Tensor Fl) (s : Fl) : Rand (Tensor Fl) :=
  match s with
  | .fin r => if 0 ≤ r then
      (Rand.drawAll (box t.shape) (fun _ => Rand.leaf (gaussianReal 0 (r ^ 2).toNNReal) Rand.pure) fun _ => 0).bind fun f =>
        .pure ⟨t.shape, fun i => .fin (f i)⟩
    else .fail .value
  | _ => .fail .value

/-- new values of `means` and `logvar` of one Einet (sampling_utils.py:350-358). -/
def setLeaf (m v : Tensor Fl) : Rand Stats :=
  (noiseLike m m.stdAll).bind fun z =>
  (Rand.lift (m.add (z.map (.fin (1 / 10) * ·)))).bind fun means =>
  (noiseLike v v.stdAll).bind fun z' =>
  (Rand.lift ((v.map (· + .fin (1 / 1000))).add (z'.map fun x => Fl.max2 (.fin (1 / 10) * x) (.fin 0)))).bind fun var =>
  .pure (means, var.map Fl.log)

/-- the loop over the Einets of a mixture. -/
def setLeaves (m v : Tensor Fl) : Nat → Rand (List Stats)
  | 0 => .pure []
  | n + 1 => (setLeaf m v).bind fun a => (setLeaves m v n).bind fun l => .pure (a :: l)

/-- the model passed to `init_einet_stats`: an `Einet`, a `Mixture` of `n` Einets, or something else. -/
inductive InitTarget where
  | einet
  | mixture (n : Nat)
  | other

/-- `init_einet_stats` (sampling_utils.py:298-360).  `normal` says whether the configured leaf class is `Normal`, `d` are the sizes of
the leaves.  The result lists the new `means` and `logvar` of the Einets; it is empty when no parameter is set. -/
def initEinetStats (target : InitTarget) (normal : Bool) (d : LeafDims) (batches : List (Tensor Fl)) : Rand (List Stats) :=
  (Rand.lift (batchStats batches)).bind fun st =>
    if normal then
      match target with
      | .einet => (Rand.lift (tileLeaf d st.1)).bind fun m => (Rand.lift (tileLeaf d st.2)).bind fun v => setLeaves m v 1
      | .mixture n => (Rand.lift (tileLeaf d st.1)).bind fun m => (Rand.lift (tileLeaf d st.2)).bind fun v => setLeaves m v n
      | .other => .fail .value
    else .pure []

/-- the batches of a `DataLoader` with `drop_last=False` (data.py:866-876) for the rows in the order of its sampler. -/
def loaderBatches {α : Type} (batch_size : Nat) (rows : List α) : List (List α) :=
  (List.range ((rows.length + batch_size - 1) / batch_size)).map fun j => (rows.drop (j * batch_size)).take batch_size

end Einet

end
