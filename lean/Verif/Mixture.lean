import Verif.Einet
import Verif.Build

/-!
# Mixtures of Einets

Model of simple_einet/mixture.py for `EinetConfig` components.  The clustering library `fast_pytorch_kmeans` is not part of the
repository: `KMeans.max_sim` is an arbitrary function `nearest` of a row and the centroids, `KMeans.fit_predict` an arbitrary
list of predictions.  Not modelled: `seed` (each component call would seed the generator anew), the loading of data.
-/

open Classical
noncomputable section
namespace Einet

namespace Tensor
variable {α : Type}

/-- `t[n]`. -/
def row (t : Tensor α) (n : Nat) : Tensor α := ⟨t.shape.tail, fun i => t.get (n :: i)⟩

/-- the rows met when iterating over a tensor. -/
def rows (t : Tensor α) : List (Tensor α) := (List.range (t.size 0)).map t.row

/-- `torch.stack(l, dim=0)`: raises for an empty list and for rows of different shapes. -/
def stack : List (Tensor α) → Res (Tensor α)
  | [] => .error .other
  | t :: l => do
    require .shape (∀ u ∈ l, u.shape = t.shape)
    return ⟨(t :: l).length :: t.shape, fun i => ((t :: l).getD i.head! t).get i.tail⟩

/-- `t[permutation]` along dimension 0. -/
def takeRows (t : Tensor α) (p : List Nat) : Res (Tensor α) := do
  require .index (∀ i ∈ p, i < t.size 0)
  return ⟨p.length :: t.shape.tail, fun i => t.get (p.getD i.head! 0 :: i.tail)⟩

end Tensor
open Tensor

/-- `d[k].append(v)` for a `defaultdict(list)`, which keeps the order in which keys were inserted. -/
def dictAppend {β : Type} (k : Nat) (v : β) : List (Nat × List β) → List (Nat × List β)
  | [] => [(k, [v])]
  | (k', l) :: d => if k' = k then (k', l ++ [v]) :: d else (k', l) :: dictAppend k v d

/-- the loop `for i, k in enumerate(ks): d[k].append(i)` starting at index `i` (mixture.py:84-86). -/
def separateFrom : Nat → List Nat → List (Nat × List Nat) → List (Nat × List Nat)
  | _, [], d => d
  | i, k :: ks, d => separateFrom (i + 1) ks (dictAppend k i d)

/-- `separated_idxs` (mixture.py:80-88). -/
def separate (ks : List Nat) : List (Nat × List Nat) := separateFrom 0 ks []

/-- the order of Python tuples. -/
def tupleLe (a b : Nat × Nat) : Bool := decide (a.1 < b.1) || (decide (a.1 = b.1) && decide (a.2 ≤ b.2))

/-- `permutation` (mixture.py:107-110, 176-179, 206-209): second components of the sorted list of pairs `(ks[i], i)`. -/
def sortPerm (ks : List Nat) : List Nat := (ks.zipIdx.mergeSort tupleLe).map Prod.snd

namespace Rand
variable {α β : Type}

/-- a loop that collects the results. -/
def forEach : List α → (α → Rand β) → Rand (List β)
  | [], _ => .pure []
  | a :: l, f => (f a).bind fun b => (forEach l f).bind fun bs => .pure (b :: bs)

/-- `n` independent draws of `k < K` with probabilities `softmax(w)`. -/
def drawList (K : Nat) (w : Nat → Fl) : Nat → Rand (List Nat)
  | 0 => .pure []
  | n + 1 => .draw K w fun k => (drawList K w n).bind fun ks => .pure (k :: ks)

end Rand

/-- `Mixture` (mixture.py:18-41) with its buffers. -/
structure Mixture where
  models : List Model
  num_features : Nat
  mixture_weights : List Fl
  centroids : List (List Fl)
  /-- `self._kmeans.max_sim(a, b)[1]` for one row of `a` and the rows of `b` -/
  nearest : List Fl → List (List Fl) → Nat

/-- arguments of `Mixture.sample` (mixture.py:116-128). -/
structure MixArgs where
  num_samples : Option Nat := none
  num_samples_per_cluster : Option Nat := none
  class_index : Option ClassIndex := none
  evidence : Option (Tensor Fl) := none
  is_mpe : Bool := false
  temperature_leaves : ℝ := 1
  temperature_sums : ℝ := 1
  marginalized_scopes : Option Scopes := none
  mpe_at_leaves : Bool := false

/-- `x.view(x.shape[0], -1)[n]` as a list. -/
def flatRow (x : Tensor Fl) (n : Nat) : List Fl :=
  (List.range (numelS x.shape.tail)).map fun j => (x.row n).get (unflat x.shape.tail j)

/-- `l[keep_idx]`. -/
def pickCols (keep : List Nat) (l : List Fl) : List Fl := keep.map fun j => l.getD j .nan

namespace Mixture

/-- the components built by `Mixture.__init__` (mixture.py:20-37); component `k` has its own random parameters `P k`. -/
def buildModels (c : Config) (P : Nat → Params) (n_components : Int) : Res (List Model) := do
  let _ ← checkValid (.int n_components) .int (some (.int 1))
  (List.range n_components.toNat).mapM fun k => build c (P k)

/-- `torch.bincount(predictions)`: one entry per value up to the largest. -/
def bincount (p : List Nat) : List Nat := (List.range (p.foldl (fun m k => max m (k + 1)) 0)).map fun k => p.count k

/-- `counts / counts.sum()` (mixture.py:60-61). -/
def weightsOf (predictions : List Nat) : List Fl :=
  (bincount predictions).map fun k : Nat => Fl.fin (k : ℝ) / Fl.fin ((bincount predictions).sum : ℕ)

/-- `Mixture.initialize` from the result of the clustering (mixture.py:59-67); `total_count` is `some` for Binomial leaves. -/
def init (X : Mixture) (predictions : List Nat) (centroids : List (List Fl)) (total_count : Option ℝ) : Mixture :=
  { X with
    mixture_weights := weightsOf predictions
    centroids := match total_count with
      | none => centroids
      | some t => centroids.map fun l => l.map fun v => v * .fin t }

/-- `keep_idx` (mixture.py:72). -/
def keepIdx (X : Mixture) (s : Scopes) : List Nat := (List.range X.num_features).filter fun i => ¬ (i : Int) ∈ s.idx

/-- `_predict_cluster` (mixture.py:69-77). -/
def predictCluster (X : Mixture) (x : Tensor Fl) (ms : Option Scopes) : Res (List Nat) := do
  require .shape (0 < x.rank ∧ 0 < x.size 0)
  match ms with
  | none => do
    require .shape (∀ l ∈ X.centroids, l.length = numelS x.shape.tail)
    return (List.range (x.size 0)).map fun n => X.nearest (flatRow x n) X.centroids
  | some s => do
    require .index (∀ i ∈ X.keepIdx s, i < numelS x.shape.tail ∧ ∀ l ∈ X.centroids, i < l.length)
    return (List.range (x.size 0)).map fun n =>
      X.nearest (pickCols (X.keepIdx s) (flatRow x n)) (X.centroids.map (pickCols (X.keepIdx s)))

/-- `self.models[k]`. -/
def model (X : Mixture) (k : Nat) : Res Model :=
  match X.models[k]? with
  | some M => .ok M
  | none => .error .index

/-- one pass of the loop over the clusters (mixture.py:97-104): pairs of row index and result. -/
def forwardGroup (X : Mixture) (x : Tensor Fl) (g : Nat × List Nat) : Res (List (Nat × Tensor Fl)) := do
  let data ← stack (g.2.map x.row)
  let M ← X.model g.1
  let lls ← M.forward data
  return g.2.zip lls.rows

/-- results back into the order of the batch (mixture.py:106-114, 205-212). -/
def restore (l : List (Nat × Tensor Fl)) : Res (Tensor Fl) := do
  require .value (l ≠ [])
  let r ← stack (l.map Prod.snd)
  r.takeRows (sortPerm (l.map Prod.fst))

/-- `Mixture.forward` (mixture.py:90-114). -/
def forward (X : Mixture) (x : Tensor Fl) (marginalized_scope : Option Scopes := none) : Res (Tensor Fl) := do
  let ks ← X.predictCluster x marginalized_scope
  let parts ← (separate ks).mapM (X.forwardGroup x)
  restore parts.flatten

/-- `Categorical(probs=self.mixture_weights)`: the weights must be non-negative and have a positive sum. -/
def weightsOK (X : Mixture) : Prop :=
  (∀ w ∈ X.mixture_weights, ∃ r : ℝ, w = .fin r ∧ 0 ≤ r) ∧ ∃ w ∈ X.mixture_weights, w ≠ .fin 0

/-- logarithm of a mixture weight. -/
def logWeight (X : Mixture) (k : Nat) : Fl := Fl.log (X.mixture_weights.getD k .nan)

/-- number of samples (mixture.py:129-138). -/
def count (X : Mixture) (a : MixArgs) : Nat :=
  match a.evidence with
  | some e => e.size 0
  | none => match a.num_samples, a.num_samples_per_cluster with
    | some n, _ => n
    | none, some m => m * X.models.length
    | none, none => 1

/-- `cluster_idxs` (mixture.py:140-150). -/
def drawClusters (X : Mixture) (a : MixArgs) : Rand (List Nat) :=
  if a.is_mpe then
    (Rand.lift (require .index (X.mixture_weights ≠ []))).bind fun _ =>
      .pure [Fl.argmaxN X.mixture_weights.length fun k => X.mixture_weights.getD k .nan]
  else match a.num_samples_per_cluster with
    | some m => .pure ((List.range X.models.length).flatMap fun k => List.replicate m k)
    | none => (Rand.lift (require .value X.weightsOK)).bind fun _ =>
        Rand.drawList X.mixture_weights.length X.logWeight (X.count a)

/-- arguments of the component call without evidence (mixture.py:160-170). -/
def freeArgs (a : MixArgs) (n : Nat) : SampleArgs where
  num_samples := some n
  class_index := a.class_index
  is_mpe := a.is_mpe
  mpe_at_leaves := a.mpe_at_leaves
  temperature_leaves := a.temperature_leaves
  temperature_sums := a.temperature_sums
  marginalized_scopes := a.marginalized_scopes

/-- arguments of the component call with evidence (mixture.py:192-198): `mpe_at_leaves` is not passed on. -/
def evidenceArgs (a : MixArgs) (e : Tensor Fl) : SampleArgs where
  evidence := some e
  is_mpe := a.is_mpe
  temperature_leaves := a.temperature_leaves
  temperature_sums := a.temperature_sums
  marginalized_scopes := a.marginalized_scopes

/-- sampling without evidence (mixture.py:152-183); the counts of the code are the lengths of the lists in `separate`, and the
concatenation of the results is the list of their rows. -/
def sampleFree (X : Mixture) (a : MixArgs) (ks : List Nat) : Rand (Tensor Fl) :=
  (Rand.forEach (separate ks) fun g => (Rand.lift (X.model g.1)).bind fun M => M.sample (freeArgs a g.2.length)).bind
    fun parts => Rand.lift do
      let all ← stack (parts.flatMap rows)
      all.takeRows (sortPerm ks)

/-- sampling with evidence (mixture.py:184-212). -/
def sampleEvidence (X : Mixture) (a : MixArgs) (e : Tensor Fl) : Rand (Tensor Fl) :=
  (Rand.lift (X.predictCluster e a.marginalized_scopes)).bind fun ks =>
    (Rand.forEach (separate ks) fun g => (Rand.lift (stack (g.2.map e.row))).bind fun data =>
      (Rand.lift (X.model g.1)).bind fun M => (M.sample (evidenceArgs a data)).bind fun s =>
        .pure (g.2.zip s.rows)).bind
      fun parts => Rand.lift (restore parts.flatten)

/-- `Mixture.sample` (mixture.py:116-214). -/
def sample (X : Mixture) (a : MixArgs) : Rand (Tensor Fl) :=
  (Rand.lift (require .assertion (a.num_samples.isNone ∨ a.num_samples_per_cluster.isNone))).bind fun _ =>
    (X.drawClusters a).bind fun ks =>
      match a.evidence with
      | none => X.sampleFree a ks
      | some e => X.sampleEvidence a e

/-- `Mixture.mpe` (mixture.py:216-229). -/
def mpe (X : Mixture) (evidence : Option (Tensor Fl) := none) (marginalized_scopes : Option Scopes := none) :
    Rand (Tensor Fl) :=
  X.sample { evidence := evidence, is_mpe := true, marginalized_scopes := marginalized_scopes }

end Mixture
end Einet
