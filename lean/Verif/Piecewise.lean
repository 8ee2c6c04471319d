import Verif.Histogram
import Verif.Dists

/-!
# Piecewise linear leaves

Model of `simple_einet/layers/distributions/piecewise_linear.py`: one component (fixed channel, feature, leaf and repetition).
The clustering that assigns data to components is not modelled; the data of one cluster are an argument.
-/

open Classical MeasureTheory
noncomputable section
namespace Einet
open Tensor

/-- `torch.diff`. -/
def diffs : List ℝ → List ℝ
  | a :: b :: l => (b - a) :: diffs (b :: l)
  | _ => []

/-- slopes `m = torch.diff(fp) / torch.diff(xp)` (piecewise_linear.py:261). -/
def slopes (xp fp : List ℝ) : List ℝ := List.zipWith (· / ·) (diffs fp) (diffs xp)

/-- offsets `b = fp[:-1] - m * xp[:-1]` (piecewise_linear.py:262). -/
def offsets (xp fp : List ℝ) : List ℝ :=
  List.zipWith (fun y p => y - p.1 * p.2) fp.dropLast (List.zip (slopes xp fp) xp.dropLast)

/-- `torch.searchsorted(xp, x, right=False)` for increasing `xp`: the number of entries below `x`. -/
def searchsorted (xp : List ℝ) (x : ℝ) : ℕ := xp.countP fun k => decide (k < x)

/-- `interp` (piecewise_linear.py:232-276) with constant extrapolation, the only way it is called. -/
def interp (x : ℝ) (xp fp : List ℝ) : ℝ :=
  let m := (0 : ℝ) :: slopes xp fp ++ [0]
  let b := fp.headD 0 :: offsets xp fp ++ [fp.getLastD 0]
  let i := searchsorted xp x
  max (m.getD i 0 * x + b.getD i 0) 0

/-- `torch.trapezoid(x=x, y=y)`. -/
def trapezoid : List ℝ → List ℝ → ℝ
  | x0 :: x1 :: xs, y0 :: y1 :: ys => (x1 - x0) * (y0 + y1) / 2 + trapezoid (x1 :: xs) (y1 :: ys)
  | _, _ => 0

/-- `DataType` (dist.py:16-20). -/
inductive DataType where
  | continuous
  | discrete
  deriving DecidableEq

/-- midpoints of neighbouring breaks (piecewise_linear.py:165). -/
def midpoints : List ℝ → List ℝ
  | a :: b :: l => (a + (b - a) / 2) :: midpoints (b :: l)
  | _ => []

/-- knots from breaks (piecewise_linear.py:156-169). -/
def knots (t : DataType) (breaks : List ℝ) : List ℝ :=
  match t with
  | .discrete => let x := breaks.dropLast; (x.headD 0 - 1) :: x ++ [x.getLastD 0 + 1]
  | .continuous => (breaks.headD 0 - 1e-8) :: midpoints breaks ++ [breaks.getLastD 0 + 1e-8]

/-- Laplace smoothing (piecewise_linear.py:147-152); `n` is the number of data points. -/
def smooth (alpha : ℝ) (n : ℕ) (breaks densities : List ℝ) : List ℝ :=
  if 0 < alpha then densities.map fun d => (d * n + alpha) / (n + ((breaks.length : ℝ) - 1) * alpha) else densities

/-- number of data points in bin `i`: bins are half open, the last one is closed. -/
def binCount (data breaks : List ℝ) (i : ℕ) : ℕ := data.countP fun x => decide (breaks.getD i 0 ≤ x ∧
  (x < breaks.getD (i + 1) 0 ∨ (i + 2 = breaks.length ∧ x ≤ breaks.getD (i + 1) 0)))

/-- number of data points in all bins. -/
def binTotal (data breaks : List ℝ) : ℕ := ∑ j ∈ Finset.range (breaks.length - 1), binCount data breaks j

/-- `torch.histogram(data, bins=breaks, density=True).hist`: counts of the bins divided by their sum and the width of the bin.
`none` if no data point lies in a bin: all entries are then NaN. -/
def histDensity (data breaks : List ℝ) : Option (List ℝ) :=
  if binTotal data breaks = 0 then none
  else some ((List.range (breaks.length - 1)).map fun i : ℕ =>
    (binCount data breaks i : ℝ) / (binTotal data breaks * (breaks.getD (i + 1) 0 - breaks.getD i 0)))

/-- The end of `initialize` for one component (piecewise_linear.py:147-186): knots and normalised values. -/
def plInit (t : DataType) (alpha : ℝ) (n : ℕ) (breaks densities : List ℝ) : Res (List ℝ × List ℝ) := do
  let densities := smooth alpha n breaks densities
  require .assertion (densities.length + 1 = breaks.length)
  let x := knots t breaks
  let y := (0 : ℝ) :: densities ++ [0]
  require .assertion (x.length = y.length)
  let auc := trapezoid x y
  return (x, y.map (· / auc))

/-- `Domain` (dist.py:22-43): a discrete domain lists its values. -/
inductive Domain where
  | discrete (values : List ℝ)
  | continuous

/-- `initialize` for the data of one component (piecewise_linear.py:114-186). `none`: all values of the stored function are NaN,
because the densities are (the smoothing and the normalisation keep NaN). -/
def plFit (d : Domain) (alpha : ℝ) (data : List ℝ) : Res (Option (List ℝ × List ℝ)) :=
  match d with
  | .discrete values => do
    require .index (values ≠ [])
    let breaks := values ++ [values.getLastD 0 + 1]
    let ds := if data = [] then some (List.replicate values.length (1 / (values.length : ℝ))) else histDensity data breaks
    ds.elim (pure none) fun ds => some <$> plInit .discrete alpha data.length breaks ds
  | .continuous => do
    let e ← binEdges (data.map Fl.fin) none false
    (histDensity data e.1).elim (pure none) fun ds => some <$> plInit .continuous alpha data.length e.1 ds

/-- `PiecewiseLinearDist.log_prob` of one component (piecewise_linear.py:375-394). -/
def plLogProb (xs ys : List ℝ) (x : ℝ) : Fl :=
  let l := Fl.log (.fin (interp x xs ys))
  if l = .ninf then .fin (-300) else l

/-- `PiecewiseLinearDist.mpe` of one component (piecewise_linear.py:352-373): the knot with the largest value. -/
def plMode (xs ys : List ℝ) : ℝ := xs.getD (argmaxR (fun i => ys.getD i 0) ys.length) 0

/-- `_compute_cdf` (piecewise_linear.py:290-302). -/
def plCdf (xs ys : List ℝ) : List ℝ :=
  let areas := List.zipWith (fun d p => 1 / 2 * d * (p.1 + p.2)) (diffs xs) (List.zip ys.dropLast ys.tail)
  let cdf := (List.range (areas.length + 1)).map fun i => (areas.take i).sum
  cdf.map (· / cdf.getLastD 0)

/-- a draw from a continuous component (piecewise_linear.py:323-342) as a function of the uniform number `u`. -/
def plDraw (xs ys : List ℝ) (u : ℝ) : ℝ :=
  let cdf := plCdf xs ys
  let i := cdf.countP fun c => decide (c ≤ u)
  let i := max 1 (min i (xs.length - 1))
  let slope := (xs.getD i 0 - xs.getD (i - 1) 0) / (cdf.getD i 0 - cdf.getD (i - 1) 0 + 1e-8)
  xs.getD (i - 1) 0 + slope * (u - cdf.getD (i - 1) 0)

/-- distribution of a draw from a discrete component (piecewise_linear.py:318-322): the values without the tails are the weights of
a categorical distribution, whose outcome (a position) is the sample. -/
def plDiscreteMass (ys : List ℝ) (k : ℕ) : ℝ := ys.tail.dropLast.getD k 0 / ys.tail.dropLast.sum

end Einet
