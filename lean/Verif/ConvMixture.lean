import Verif.Mixture
import Verif.Conv

/-!
# Mixtures of convolutional circuits

`Mixture` (mixture.py) with a `ConvPcConfig`.
-/

open Classical MeasureTheory
noncomputable section
namespace Einet
open Tensor

/-- `Mixture` (mixture.py:18-41) of `ConvPc`s, with its buffers. -/
structure ConvMixture where
  models : List ConvModel
  num_features : Nat
  mixture_weights : List Fl
  centroids : List (List Fl)
  /-- `self._kmeans.max_sim(a, b)[1]` for one row of `a` and the rows of `b` -/
  nearest : List Fl → List (List Fl) → Nat

namespace ConvMixture

/-- the components and `num_features` of `Mixture.__init__` (mixture.py:20-37). -/
def buildModels (c : ConvConfig) (d : ImgShape) (P : Nat → ConvParams) (n_components : Int) : Res (List ConvModel × Nat) := do
  let _ ← checkValid (.int n_components) .int (some (.int 1))
  let models ← (List.range n_components.toNat).mapM fun k => buildConv c d (P k)
  return (models, d.width * d.height * d.channels)

/-- buffers and clustering, which do not depend on the class of the components. -/
def clusters (X : ConvMixture) : Mixture := ⟨[], X.num_features, X.mixture_weights, X.centroids, X.nearest⟩

/-- `self.models[k]`. -/
def model (X : ConvMixture) (k : Nat) : Res ConvModel :=
  match X.models[k]? with
  | some M => .ok M
  | none => .error .index

/-- one pass of the loop over the clusters (mixture.py:97-104). -/
def forwardGroup (X : ConvMixture) (x : Tensor Fl) (g : Nat × List Nat) : Res (List (Nat × Tensor Fl)) := do
  let data ← stack (g.2.map x.row)
  let M ← X.model g.1
  let lls ← M.forward data
  return g.2.zip lls.rows

/-- `Mixture.forward` (mixture.py:90-114). -/
def forward (X : ConvMixture) (x : Tensor Fl) (marginalized_scope : Option Scopes := none) : Res (Tensor Fl) := do
  let ks ← X.clusters.predictCluster x marginalized_scope
  let parts ← (separate ks).mapM (X.forwardGroup x)
  Mixture.restore parts.flatten

/-- number of samples (mixture.py:129-138). -/
def count (X : ConvMixture) (a : MixArgs) : Nat :=
  match a.evidence with
  | some e => e.size 0
  | none => match a.num_samples, a.num_samples_per_cluster with
    | some n, _ => n
    | none, some m => m * X.models.length
    | none, none => 1

/-- `cluster_idxs` (mixture.py:140-150). -/
def drawClusters (X : ConvMixture) (a : MixArgs) : Rand (List Nat) :=
  if a.is_mpe then
    (Rand.lift (require .index (X.mixture_weights ≠ []))).bind fun _ =>
      .pure [Fl.argmaxN X.mixture_weights.length fun k => X.mixture_weights.getD k .nan]
  else match a.num_samples_per_cluster with
    | some m => .pure ((List.range X.models.length).flatMap fun k => List.replicate m k)
    | none => (Rand.lift (require .value X.clusters.weightsOK)).bind fun _ =>
        Rand.drawList X.mixture_weights.length X.clusters.logWeight (X.count a)

/-- arguments of the component call without evidence (mixture.py:160-170); `ConvPc.sample` ignores the classes and scopes. -/
def freeArgs (a : MixArgs) (n : Nat) : ConvArgs where
  num_samples := some n
  is_mpe := a.is_mpe
  mpe_at_leaves := a.mpe_at_leaves
  temperature_leaves := a.temperature_leaves
  temperature_sums := a.temperature_sums

/-- arguments of the component call with evidence (mixture.py:192-198). -/
def evidenceArgs (a : MixArgs) (e : Tensor Fl) : ConvArgs where
  evidence := some e
  is_mpe := a.is_mpe
  temperature_leaves := a.temperature_leaves
  temperature_sums := a.temperature_sums

/-- sampling without evidence (mixture.py:152-183), as in `Mixture.sampleFree`; `μ` is the law of the noise. -/
def sampleFree (μ : Measure ℝ) (X : ConvMixture) (a : MixArgs) (ks : List Nat) : Rand (Tensor Fl) :=
  (Rand.forEach (separate ks) fun g => (Rand.lift (X.model g.1)).bind fun M => M.sample μ (freeArgs a g.2.length)).bind
    fun parts => Rand.lift do
      let all ← stack (parts.flatMap rows)
      all.takeRows (sortPerm ks)

/-- sampling with evidence (mixture.py:184-212). -/
def sampleEvidence (μ : Measure ℝ) (X : ConvMixture) (a : MixArgs) (e : Tensor Fl) : Rand (Tensor Fl) :=
  (Rand.lift (X.clusters.predictCluster e a.marginalized_scopes)).bind fun ks =>
    (Rand.forEach (separate ks) fun g => (Rand.lift (stack (g.2.map e.row))).bind fun data =>
      (Rand.lift (X.model g.1)).bind fun M => (M.sample μ (evidenceArgs a data)).bind fun s =>
        .pure (g.2.zip s.rows)).bind
      fun parts => Rand.lift (Mixture.restore parts.flatten)

/-- `Mixture.sample` (mixture.py:116-214). -/
def sample (μ : Measure ℝ) (X : ConvMixture) (a : MixArgs) : Rand (Tensor Fl) :=
  (Rand.lift (require .assertion (a.num_samples.isNone ∨ a.num_samples_per_cluster.isNone))).bind fun _ =>
    (X.drawClusters a).bind fun ks =>
      match a.evidence with
      | none => X.sampleFree μ a ks
      | some e => X.sampleEvidence μ a e

end ConvMixture
end Einet
