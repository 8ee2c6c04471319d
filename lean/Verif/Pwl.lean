import Verif.Piecewise
import Verif.CondFacts

/-!
# Einets with piecewise linear leaves

Model of the class `PiecewiseLinear` as leaf layer of an `Einet` (layers/distributions/piecewise_linear.py).  The functions for a
single component are in `Verif/Piecewise.lean`.
-/

open Classical MeasureTheory
open scoped ENNReal
noncomputable section
namespace Einet
open Tensor

/-- `PiecewiseLinearDist.log_prob` (piecewise_linear.py:375-394) of a component; `none` stands for a stored function whose values
are NaN.  At infinity the interpolation is `0 * inf + b`, which is NaN. -/
def pwlLogProb : Option (List ℝ × List ℝ) → Fl → Fl
  | some (xs, ys), .fin x => plLogProb xs ys x
  | _, _ => .nan

/-- what `initialize` stores (piecewise_linear.py:77, 96, 188-212): the domains, the functions by channel, feature, leaf and repetition,
and `mixture_weights` by repetition and leaf. -/
structure PwlTable where
  domain : Nat → Domain
  fn : Nat → Nat → Nat → Nat → Option (List ℝ × List ℝ)
  weights : Nat → Nat → ℝ

/-- Law of `PiecewiseLinearDist.sample` of a component (piecewise_linear.py:304-350).  Drawing from a function of NaN values is not
modelled. -/
def pwlLaw : Domain → Option (List ℝ × List ℝ) → Measure ℝ
  | .continuous, some (xs, ys) => Measure.map (plDraw xs ys) (volume.restrict (Set.Ico 0 1))
  | .discrete _, some (_, ys) => ∑ k ∈ Finset.range (ys.length - 2), ENNReal.ofReal (plDiscreteMass ys k) • Measure.dirac (k : ℝ)
  | _, none => 0

/-- reference measure of a feature: Lebesgue measure or counting measure on the values. -/
def pwlRef : Domain → Measure ℝ
  | .continuous => volume
  | .discrete values => (values.map fun v => Measure.dirac v).sum

/-- An initialised `PiecewiseLinear` leaf (piecewise_linear.py:219-225, 279-394).  There is no check of the arguments, and the
leaf temperature is ignored (abstract_leaf.py:123-128). -/
def pwlLeaf (d : LeafDims) (T : PwlTable) : BaseLeaf where
  num_features := d.num_features
  num_channels := d.num_channels
  num_leaves := d.num_leaves
  num_repetitions := d.num_repetitions
  valid _ _ := True
  logProb c f i r x := pwlLogProb (T.fn c f i r) x
  ref f := pwlRef (T.domain f)
  law _ c f i r := pwlLaw (T.domain f) (T.fn c f i r)
  mode c f i r := (T.fn c f i r).elim 0 fun p => plMode p.1 p.2
  samplable := true

/-- An `Einet` whose leaf type is `PiecewiseLinear`: `net` is everything but the leaf distribution, `state` what
`model.leaf.base_leaf.initialize` has stored (`None` before). -/
structure PwlEinet where
  net : Model
  alpha : ℝ
  state : Option PwlTable

/-- `Einet(config)` with `leaf_type=PiecewiseLinear`, `leaf_kwargs={"alpha": alpha}` (einet.py:94-115,
piecewise_linear.py:33-55).  The leaf constructor has no influence on the other modules: they are those of an `Einet` with another
leaf type, whose leaf is then not used. -/
def buildPwl (c : Config) (P : Params) (alpha : ℝ) : Res PwlEinet := do
  let net ← build c { P with leaf := .normal (fun _ _ _ _ => 0) fun _ _ _ _ => 0 }
  let _ ← checkValid (.float (.fin alpha)) .float (some (.float (.fin 0)))
  return ⟨net, alpha, none⟩

namespace PwlEinet

/-- sizes of the leaf layer. -/
def dims (E : PwlEinet) : LeafDims := ⟨E.net.num_features, E.net.num_channels, E.net.num_leaves, E.net.num_repetitions⟩

/-- the values of a channel and feature in the rows of a cluster (piecewise_linear.py:98-115). -/
def clusterData (data : Tensor ℝ) (assign : Nat → Nat) (i c f : Nat) : List ℝ :=
  ((List.range (data.size 0)).filter fun n => decide (assign n = i)).map fun n => data.get [n, c, f]

/-- length of `torch.bincount(predictions)` (piecewise_linear.py:94-95). -/
def binLength (N : Nat) (assign : Nat → Nat) : Nat := ((List.range N).map fun n => assign n + 1).foldr max 0

/-- entry of `counts / counts.sum()`, assigned to a row of `mixture_weights`; a single entry is broadcast (96). -/
def clusterWeight (N : Nat) (assign : Nat → Nat) (i : Nat) : ℝ :=
  if binLength N assign = 1 then 1 else ((List.range N).countP fun n => decide (assign n = i)) / N

/-- `PiecewiseLinear.initialize` (piecewise_linear.py:57-212).  The clustering is given: `assign r n` is the cluster of row `n` in
repetition `r`, as `KMeans` (an external package) finds it.  Indices beyond the sizes are never used and set to the last one.
Simplifications: `predict` and `max_sim` agree; the data are finite and have three dimensions (the code reads `shape[1]` and `shape[2]`
only); an exception in the computation of a function is reported as an index error. -/
def init (E : PwlEinet) (data : Tensor ℝ) (domains : List Domain) (assign : Nat → Nat → Nat) : Res PwlEinet := do
  require .assertion (data.rank = 3 ∧ data.size 1 = E.net.num_channels)
  require .assertion (data.size 2 = E.net.num_features)
  require .shape (∀ r, r < E.net.num_repetitions →
    binLength (data.size 0) (assign r) = E.net.num_leaves ∨ binLength (data.size 0) (assign r) = 1)
  require .index (E.net.num_features ≤ domains.length)
  let fit := fun c f i r => plFit (domains.getD f .continuous) E.alpha (clusterData data (assign r) i c f)
  require .index (∀ c, c < E.net.num_channels → ∀ f, f < E.net.num_features → ∀ i, i < E.net.num_leaves →
    ∀ r, r < E.net.num_repetitions → ∃ p, fit c f i r = .ok p)
  let stored := fun c f i r =>
    match fit c f i r with
    | .ok p => p
    | .error _ => none
  return { E with state := some {
    domain := fun f => domains.getD (min f (E.net.num_features - 1)) .continuous
    fn := fun c f i r => stored (min c (E.net.num_channels - 1)) (min f (E.net.num_features - 1)) (min i (E.net.num_leaves - 1))
      (min r (E.net.num_repetitions - 1))
    weights := fun r i => clusterWeight (data.size 0) (assign r) i } }

/-- `reset` (piecewise_linear.py:214-217). -/
def reset (E : PwlEinet) : PwlEinet := { E with state := none }

/-- the network with its leaf distribution; `_get_base_distribution` raises a `ValueError` before the initialisation
(piecewise_linear.py:219-225). -/
def model (E : PwlEinet) : Res Model :=
  match E.state with
  | none => .error .value
  | some T => .ok (E.net.withBase (pwlLeaf E.dims T))

/-- `Einet.forward` (einet.py:121-204): sizes first, then the leaf. -/
def forward (E : PwlEinet) (x : Tensor Fl) (marginalized_scopes : Option Scopes := none) : Res (Tensor Fl) := do
  let x ← E.net.prepInput x
  (← E.model).forward x marginalized_scopes

/-- `Einet.sample` (einet.py:533-697).  Simplification: the exception for a missing initialisation comes before those for the
arguments. -/
def sample (E : PwlEinet) (a : SampleArgs) : Rand (Tensor Fl) := (Rand.lift E.model).bind fun M => M.sample a

/-- `exp(model(x)[0, k])` for a batch with one row; an exception counts as 0. -/
def density (E : PwlEinet) (k : Nat) (X : Data) : ℝ≥0∞ :=
  match E.forward (rowTensor E.net.num_channels E.net.num_features X) with
  | .ok t => toP (t.get [0, k])
  | .error _ => 0

end PwlEinet
end Einet
