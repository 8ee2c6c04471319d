import Verif.Leaf
import Verif.Chain

/-!
# The Einet module: forward pass and sampling (index mode)

Models of `Einet.forward`, `Einet.posterior`, `Einet.sample` and `Einet.mpe` (simple_einet/einet.py) for integer index
sampling, in evaluation mode.  Construction from a configuration is in `Verif/Build.lean`; the state that survives
between calls (leaf cache, input caches, random generator) is in `Verif/State.lean`.
-/

open Classical
noncomputable section
namespace Einet
open Tensor

/-- An `Einet` object: the parts of the configuration read at run time and the modules built by the constructor. -/
structure Model where
  num_features : Nat
  num_channels : Nat
  num_classes : Nat
  num_leaves : Nat
  num_repetitions : Nat
  leaf : Leaf
  /-- buffers `permutation` and `permutation_inv`, one list per repetition (bottom-up structure only) -/
  permutation : Option (List (List Nat) × List (List Nat))
  layers : List Layer
  /-- `self.mixing`; exists and is used only if `num_repetitions > 1` -/
  mixing : SumL
  /-- `self._class_sampling_root`; exists and is used only if `num_classes > 1` -/
  classRoot : SumL

/-- contents of the input caches after a forward pass in which they were enabled. -/
structure Caches where
  layers : List (Option Cache)
  mixing : Option Cache

namespace Model

/-- `Einet.forward`, bringing the input to rank 3 and checking its sizes (einet.py:134-147). -/
def prepInput (M : Model) (x : Tensor Fl) : Res (Tensor Fl) := do
  let x ← if x.rank = 2 then x.unsqueeze 1 else .ok x
  let x ← if x.rank = 4 then x.viewInfer [x.size 0, M.num_channels] else .ok x
  require .assertion (x.rank = 3)
  require .assertion (x.size 1 = M.num_channels)
  require .assertion (x.size 2 = M.num_features)
  return x

/-- factorising the input channels and checking the shape (einet.py:161-175). -/
def factorize (M : Model) (y : Tensor Fl) : Res (Tensor Fl) :=
  match M.leaf with
  | .direct _ => do
    let x ← y.sum 1
    require .assertion (x.shape = [x.size 0, M.num_features, M.num_leaves, M.num_repetitions])
    return x
  | .factorized L => do
    require .assertion (y.shape = [y.size 0, L.num_features_out, M.num_leaves, M.num_repetitions])
    return y
  | .simple L => do
    require .assertion (y.shape = [y.size 0, L.num_features_out, M.num_leaves, M.num_repetitions])
    return y

/-- `x[:, :, :, i] = x[:, self.permutation[i], :, i]` for every repetition `i` (einet.py:177-180).  Each assignment only
touches the entries of its own repetition, so they are done at once here. -/
def permute (M : Model) (x : Tensor Fl) : Res (Tensor Fl) :=
  match M.permutation with
  | none => .ok x
  | some (p, _) => do
    require .index (∀ r, r < M.num_repetitions → ∀ k ∈ p.getD r [], k < x.size 1)
    require .shape (∀ r, r < M.num_repetitions → (p.getD r []).length = x.size 1)
    return ⟨x.shape, fun j => x.get (setAt 1 ((p.getD (at' 3 j) []).getD (at' 1 j) 0) j)⟩

/-- mixing of the repetitions, or removal of their dimension (einet.py:190-197). -/
def mixReps (M : Model) (x : Tensor Fl) : Res (Tensor Fl × Option Cache) :=
  if 1 < M.num_repetitions
    then (MixingLayer.forward M.mixing none x).map fun p => (p.1, some p.2)
    else (x.squeeze 3).map fun y => (y, none)

/-- repetition mixing and removal of the feature dimension (einet.py:185-204). -/
def root (M : Model) (x : Tensor Fl) : Res (Tensor Fl × Option Cache) := do
  require .value (x.rank = 4)
  require .assertion (x.size 1 = 1)
  require .assertion (x.size 2 = M.num_classes)
  let (y, c) ← M.mixReps x
  let y ← y.squeeze 1
  require .assertion (y.shape = [x.size 0, M.num_classes])
  return (y, c)

/-- `Einet.forward` after the leaf (einet.py:161-204); also returns what the layers cache. -/
def upper (M : Model) (y : Tensor Fl) : Res (Tensor Fl × Caches) := do
  let x ← M.factorize y
  let x ← M.permute x
  let (x, cs) ← forwardLayers M.layers x
  let (z, mc) ← M.root x
  return (z, ⟨cs, mc⟩)

/-- `Einet.forward` (einet.py:121-204) without `cache_index`, with the input caches it fills. -/
def run (M : Model) (x : Tensor Fl) (marginalized_scopes : Option Scopes) : Res (Tensor Fl × Caches) := do
  let x ← M.prepInput x
  let y ← M.leaf.forward x marginalized_scopes
  M.upper y

/-- `model(x, marginalized_scopes)`. -/
def forward (M : Model) (x : Tensor Fl) (marginalized_scopes : Option Scopes := none) : Res (Tensor Fl) :=
  (M.run x marginalized_scopes).map Prod.fst

end Model

/-- module function `posterior` (einet.py:703-720); `np.log(1.0 / num_classes)` is exact. -/
def posterior (ll_x_g_y : Tensor Fl) (num_classes : Nat) : Res (Tensor Fl) := do
  let ll_y : Fl := Fl.log (Fl.fin 1 / Fl.fin num_classes)
  let ll_x_and_y := ll_x_g_y.map (· + ll_y)
  let ll_x ← ll_x_and_y.logsumexpKeep 1
  (ll_x_g_y.map (· + ll_y)).sub ll_x

namespace Model

/-- `Einet.posterior` (einet.py:221-236). -/
def posterior (M : Model) (x : Tensor Fl) : Res (Tensor Fl) := do
  require .assertion (1 < M.num_classes)
  let ll ← M.forward x
  Einet.posterior ll M.num_classes

end Model

/-- a `class_index` argument: an integer or a list of integers (negative values, which torch refuses as an index of
`gather`, are not modelled). -/
inductive ClassIndex where
  | int (c : Nat)
  | list (l : List Nat)

/-- arguments of `Einet.sample` (einet.py:533-546) in index mode, not returning parameters. -/
structure SampleArgs where
  num_samples : Option Nat := none
  class_index : Option ClassIndex := none
  evidence : Option (Tensor Fl) := none
  is_mpe : Bool := false
  mpe_at_leaves : Bool := false
  temperature_leaves : ℝ := 1
  temperature_sums : ℝ := 1
  marginalized_scopes : Option Scopes := none

namespace SampleArgs

/-- number of samples (einet.py:583-588). -/
def count (a : SampleArgs) : Nat :=
  match a.evidence with
  | some e => e.size 0
  | none => a.num_samples.getD 1

/-- assertions on the combination of arguments (einet.py:578-581). -/
def check (a : SampleArgs) (M : Model) : Res Unit := do
  require .assertion (a.class_index.isNone ∨ a.evidence.isNone)
  require .assertion (a.num_samples.isNone ∨ a.evidence.isNone)
  require .assertion (M.num_classes = 1 → a.class_index.isNone)

end SampleArgs

namespace Model

/-- the initial sampling context (einet.py:597-613). -/
def initCtx (M : Model) (a : SampleArgs) : Ctx where
  num_samples := a.count
  indices_out := full [a.count, 1] 0
  indices_repetition := full [a.count] 0
  is_mpe := a.is_mpe
  mpe_at_leaves := a.mpe_at_leaves
  temperature_leaves := a.temperature_leaves
  temperature_sums := a.temperature_sums
  num_repetitions := M.num_repetitions

/-- choice of the class (einet.py:615-644); returns the local variable `num_samples` too. The class root never caches
(it is not part of the forward pass). -/
def pickClass (M : Model) (a : SampleArgs) (ctx : Ctx) : Rand (Ctx × Nat) :=
  if 1 < M.num_classes then
    match a.class_index with
    | some (.list l) => .pure ({ ctx with indices_out := ⟨[l.length, 1], fun i => l.getD (at' 0 i) 0⟩ }, l.length)
    | some (.int c) => .pure ({ ctx with indices_out := full [a.count, 1] c }, a.count)
    | none => (SumLayer.sample M.classRoot none ctx).bind fun ctx => .pure (ctx, a.count)
  else .pure (ctx, a.count)

/-- choice of the repetition (einet.py:646-656). -/
def pickRep (M : Model) (cache : Option Cache) (ctx : Ctx) (num_samples : Nat) : Rand Ctx :=
  if 1 < M.num_repetitions then
    (MixingLayer.sample M.mixing cache ctx).bind fun c =>
      (Rand.lift (c.indices_out.view [num_samples])).bind fun r =>
        .pure { c with indices_repetition := r, indices_out := ctx.indices_out }
  else .pure ctx

/-- application of the inverse permutation (einet.py:662-674). -/
def unpermute (M : Model) (ctx : Ctx) : Res Ctx :=
  match M.permutation with
  | none => .ok ctx
  | some (_, q) => do
    require .index (AllIdx ctx.indices_repetition.shape fun i => ctx.indices_repetition.get i < M.num_repetitions)
    let permutation_inv : Tensor Nat := ⟨ctx.indices_repetition.shape ++ [M.num_features],
      fun j => (q.getD (ctx.indices_repetition.get [at' 0 j]) []).getD (at' 1 j) 0⟩
    let i ← ctx.indices_out.gather 1 permutation_inv
    return { ctx with indices_out := i }

/-- the path: class, repetition and channel of every leaf region (einet.py:615-674). -/
def samplePath (M : Model) (a : SampleArgs) (caches : Caches) : Rand Ctx :=
  (M.pickClass a (M.initCtx a)).bind fun (ctx, n) =>
    (M.pickRep caches.mixing ctx n).bind fun ctx =>
      (sampleLayers M.layers caches.layers ctx).bind fun ctx => Rand.lift (M.unpermute ctx)

/-- Python integer list or tensor used as an index into a dimension of size `n` (`x[:, :, s]`). -/
def indexList (n : Nat) (s : Scopes) : Res (List Nat) := do
  require .index (∀ i ∈ s.idx, -(n : Int) ≤ i ∧ i < n)
  return s.idx.map (wrapIdx n)

/-- filling the holes of the evidence (einet.py:683-695); works on a copy, so the caller's tensor is not part of the
state here. -/
def fill (evidence : Tensor Fl) (samples : Tensor ℝ) (marginalized_scopes : Option Scopes) : Res (Tensor Fl) := do
  let e ← evidence.view samples.shape
  match marginalized_scopes with
  | none =>
    let e : Tensor Fl := ⟨e.shape, fun j => if (e.get j).isnan then .fin (samples.get j) else e.get j⟩
    e.view evidence.shape
  | some s =>
    let l ← indexList (samples.size 2) s
    let e : Tensor Fl := ⟨e.shape, fun j => if at' 2 j ∈ l then .fin (samples.get j) else e.get j⟩
    e.view evidence.shape

/-- result of `Einet.sample` from the sampled values (einet.py:683-697). -/
def finish (a : SampleArgs) (samples : Tensor ℝ) : Res (Tensor Fl) :=
  match a.evidence with
  | none => .ok (samples.map .fin)
  | some e => fill e samples a.marginalized_scopes

/-- the forward pass on the evidence that fills the input caches (sampling_utils.py:49-56). -/
def evidenceCaches (M : Model) (a : SampleArgs) : Res Caches :=
  match a.evidence with
  | none => .ok ⟨[], none⟩
  | some e => (M.run e a.marginalized_scopes).map Prod.snd

/-- `Einet.sample` (einet.py:533-697) on a model whose input caches are disabled when the call starts. -/
def sample (M : Model) (a : SampleArgs) : Rand (Tensor Fl) :=
  (Rand.lift (a.check M)).bind fun _ =>
    (Rand.lift (M.evidenceCaches a)).bind fun caches =>
      (M.samplePath a caches).bind fun ctx =>
        (M.leaf.sample ctx).bind fun samples => Rand.lift (finish a samples)

/-- `Einet.mpe` (einet.py:515-531). -/
def mpe (M : Model) (evidence : Option (Tensor Fl)) (marginalized_scopes : Option Scopes := none) : Rand (Tensor Fl) :=
  M.sample { evidence := evidence, is_mpe := true, marginalized_scopes := marginalized_scopes }

end Model
end Einet
