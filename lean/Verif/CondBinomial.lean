import Verif.MultiEinet
import Verif.Conv

/-!
# `ConditionalBinomial` leaves

Model of `ConditionalBinomial` (layers/distributions/binomial.py:131-282) and of einets that use it.  The logits of the
first half of the features are shifted by the output of a module `cond_fn` that reads the features `cond_idxs` of the
same input.
-/

open Classical MeasureTheory
noncomputable section
namespace Einet
open Tensor

/-- sizes of the result of an elementwise torch operation on tensors of the same rank. -/
def bcastShape : List Nat → List Nat → Option (List Nat)
  | [], [] => some []
  | a :: s, b :: t => do
    let r ← bcastShape s t
    if a = b then return a :: r
    else if a = 1 then return b :: r
    else if b = 1 then return a :: r
    else none
  | _, _ => none

/-- elementwise operation with broadcasting; the tensors have the same rank. -/
def bcast {α β γ : Type} (f : α → β → γ) (s : Tensor α) (t : Tensor β) : Res (Tensor γ) :=
  match bcastShape s.shape t.shape with
  | some r => .ok ⟨r, fun i => f (s.get (clipAll s.shape i)) (t.get (clipAll t.shape i))⟩
  | none => .error .shape

/-- `dist.Binomial(n, logits=l).log_prob` of one value.  Simplification: NaN for infinite logits. -/
def binomialLogProb (n : Nat) (x l : Fl) : Fl :=
  match l with
  | .fin v => Fl.log (.fin (binomialPmf n (Real.sigmoid v) ⌊x.val⌋₊))
  | _ => .nan

/-- distribution of `dist.Binomial(n, logits=l).sample()`.  Simplification: infinite logits count as 0. -/
def binomialLaw (n : Nat) (l : Fl) : Measure ℝ :=
  ∑ k ∈ Finset.range (n + 1), ENNReal.ofReal (binomialPmf n (Real.sigmoid l.val) k) • Measure.dirac (k : ℝ)

/-- A `ConditionalBinomial` (binomial.py:154-183): sizes, keyword arguments and the two parameter tensors of shape
`[1, C, F // 2, S, R]`.  `cond_fn` is any module from tensors to tensors. -/
structure CondLeaf where
  num_features : Nat
  num_channels : Nat
  num_leaves : Nat
  num_repetitions : Nat
  total_count : Nat
  cond_fn : Tensor Fl → Res (Tensor Fl)
  cond_idxs : Scopes
  probs_conditioned_base : Par
  probs_unconditioned : Par

namespace CondLeaf

/-- a parameter of shape `[1, C, F // 2, S, R]` (binomial.py:178-183). -/
def par (L : CondLeaf) (p : Par) : Tensor Fl :=
  ⟨[1, L.num_channels, L.num_features / 2, L.num_leaves, L.num_repetitions],
    fun j => .fin (p (at' 1 j) (at' 2 j) (at' 3 j) (at' 4 j))⟩

/-- `x[:, :, self.cond_idxs, None, None]` (binomial.py:231, 253). -/
def condInput (L : CondLeaf) (x : Tensor Fl) : Res (Tensor Fl) := do
  require .index (2 < x.rank)
  let l ← L.cond_idxs.resolve (x.size 2)
  return (← x.indexDim2 l).unsqueezeEnd 2

/-- `get_conditioned_distribution` (binomial.py:185-217): the logits of the distribution.  Simplification: `view(-1, ...)`
of a tensor without entries is refused as in torch; the rank of the input is 3. -/
def logits (L : CondLeaf) (x : Tensor Fl) : Res (Tensor Fl) := do
  let x_cond ← L.condInput x
  let hw := Nat.sqrt (x_cond.size 2)
  require .assertion (hw * hw = x_cond.size 2)
  require .shape (x_cond.numel ≠ 0)
  let probs_cond ← L.cond_fn (← x_cond.view [x_cond.size 0, x_cond.size 1, hw, hw])
  let probs_cond ← probs_cond.view [x_cond.size 0, x_cond.size 1, L.num_leaves, L.num_repetitions, hw * hw]
  let probs_cond ← probs_cond.permute [0, 1, 4, 2, 3]
  let probs_cond ← bcast (· + ·) (L.par L.probs_conditioned_base) probs_cond
  let probs_unc ← (L.par L.probs_unconditioned).expand [some (x_cond.size 0), none, none, none, none]
  let probs ← probs_cond.cat probs_unc 2
  -- argument check of `dist.Binomial`
  require .value (AllIdx probs.shape fun i => (probs.get i).isnan = false)
  return probs

/-- `_marginalize_input` (abstract_leaf.py:236-264) for cardinality one. -/
def marginalize (y : Tensor Fl) : Option Scopes → Res (Tensor Fl)
  | some s => do
    let l ← s.resolve (y.size 2)
    return ⟨y.shape, fun j => if at' 2 j ∈ l then .fin 0 else y.get j⟩
  | none => return y.map fun v => if v.isnan then .fin 0 else v

/-- `ConditionalBinomial.forward` (binomial.py:219-240, dist_forward abstract_leaf.py:17-42): missing values are not
replaced before the argument check of `log_prob`. -/
def forward (L : CondLeaf) (x : Tensor Fl) (marginalized_scopes : Option Scopes) : Res (Tensor Fl) := do
  let probs ← L.logits x
  require .value (AllIdx x.shape fun i => ∃ k, k < L.total_count + 1 ∧ x.get i = .fin (k : ℝ))
  let y ← bcast (binomialLogProb L.total_count) (x.unsqueezeEnd 2) probs
  marginalize y marginalized_scopes

/-- `dist_mode` (abstract_leaf.py:77-84): repeated only when there is one row. -/
def modes (L : CondLeaf) (probs : Tensor Fl) (num_samples : Nat) : Tensor ℝ :=
  let m : Tensor ℝ := probs.map fun l => (⌊Real.sigmoid l.val * (L.total_count + 1)⌋₊ : ℝ)
  if m.size 0 = 1 then ⟨setAt 0 num_samples m.shape, fun j => m.get (setAt 0 0 j)⟩ else m

/-- `ConditionalBinomial.sample` up to the selection of the repetition (binomial.py:242-266); `evidence` is
`ctx.evidence`. -/
def sampleAll (L : CondLeaf) (ctx : Ctx) (evidence : Option (Tensor Fl)) : Rand (Tensor ℝ) :=
  (Rand.lift (match evidence with
    | none => .error .type
    | some ev => L.logits ev)).bind fun probs =>
  (if ctx.is_mpe = true then Rand.pure (L.modes probs ctx.num_samples)
    else (Rand.drawAll (box probs.shape) (fun j => Rand.leaf (binomialLaw L.total_count (probs.get j)) Rand.pure)
      (fun _ => 0)).bind fun v => Rand.pure ⟨probs.shape, v⟩).bind fun samples =>
  Rand.lift do
    let r_idxs ← (ctx.indices_repetition.unsqueezeEnd 4).expand
      [none, some L.num_channels, some L.num_features, some L.num_leaves, none]
    (← samples.gather 4 r_idxs).squeeze 4

/-- `ConditionalBinomial.sample` with `ctx.indices_out` set (binomial.py:268-271); the index has one dimension less than
the samples. -/
def sample (L : CondLeaf) (ctx : Ctx) (evidence : Option (Tensor Fl)) : Rand (Tensor ℝ) :=
  (L.sampleAll ctx evidence).bind fun samples => Rand.lift do
    (← samples.gather 2 (ctx.indices_out.unsqueezeEnd 1)).squeeze 3

end CondLeaf

/-- An einet with `ConditionalBinomial` leaves.  Of the base leaf of `net` only the sizes are used. -/
structure CondEinet where
  leaf : CondLeaf
  net : Model

namespace CondEinet

/-- `Einet.forward` with the input caches it fills (einet.py:121-204). -/
def run (E : CondEinet) (x : Tensor Fl) (marginalized_scopes : Option Scopes) : Res (Tensor Fl × Caches) := do
  let x ← E.net.prepInput x
  let y ← E.leaf.forward x marginalized_scopes
  let y ← E.net.leaf.merge y
  E.net.upper y

/-- `model(x, marginalized_scopes)`. -/
def forward (E : CondEinet) (x : Tensor Fl) (marginalized_scopes : Option Scopes := none) : Res (Tensor Fl) :=
  (E.run x marginalized_scopes).map Prod.fst

/-- `self.leaf.sample(ctx)` (factorized_leaf.py:100-127, 296-323); `evidence` is `ctx.evidence`. -/
def sampleLeaf (E : CondEinet) (ctx : Ctx) (evidence : Option (Tensor Fl)) : Rand (Tensor ℝ) :=
  match E.net.leaf with
  | .direct _ => E.leaf.sample ctx evidence
  | .factorized L => (E.leaf.sampleAll ctx evidence).bind fun samples => Rand.lift (L.index ctx samples)
  | .simple L => (E.leaf.sampleAll ctx evidence).bind fun samples => Rand.lift (L.index ctx samples)

/-- the forward pass on the evidence that fills the input caches (sampling_utils.py:49-56). -/
def evidenceCaches (E : CondEinet) (a : SampleArgs) : Res Caches :=
  match a.evidence with
  | none => .ok ⟨[], none⟩
  | some e => (E.run e a.marginalized_scopes).map Prod.snd

/-- `Einet.sample` (einet.py:533-697); the context carries the evidence (einet.py:608). -/
def sample (E : CondEinet) (a : SampleArgs) : Rand (Tensor Fl) :=
  (Rand.lift (a.check E.net)).bind fun _ =>
    (Rand.lift (E.evidenceCaches a)).bind fun caches =>
      (E.net.samplePath a caches).bind fun ctx =>
        (E.sampleLeaf ctx a.evidence).bind fun samples => Rand.lift (Model.finish a samples)

end CondEinet

/-- the parameters with a binomial distribution with the given logits in place of the leaves. -/
def Params.binomialAt (P : Params) (total_count : ℤ) (logits : Par) : Params :=
  { P with leaf := .binomial total_count logits }

/-- `Einet(config)` with `leaf_type=ConditionalBinomial` (einet.py:94-115, 475-508; binomial.py:154-183).  An additional
`cardinality` among the `leaf_kwargs` raises a `TypeError` and a `total_count` below 1 a `ValueError`, as for `Binomial`,
which stands in for the sizes. -/
def buildCond (c : Config) (P : Params) (total_count : ℤ) (cond_fn : Tensor Fl → Res (Tensor Fl)) (cond_idxs : Scopes)
    (base unc : Par) : Res CondEinet := do
  let net ← build c (P.binomialAt total_count fun _ _ _ _ => 0)
  return ⟨⟨net.num_features, net.num_channels, net.num_leaves, net.num_repetitions, total_count.toNat, cond_fn, cond_idxs,
    base, unc⟩, net⟩

end Einet
