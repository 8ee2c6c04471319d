import Verif.Tensor
import Mathlib.Analysis.SpecialFunctions.Log.Base
import Mathlib.Analysis.SpecialFunctions.Pow.Real

/-!
# Automatic histogram edges

Model of the torch half of `simple_einet/histogram.py` (24-112), on one-dimensional data.  Entries and ranges are floats
(`Fl`, with NaN and infinities); arithmetic on finite numbers is exact, also in `torch.linspace(..., dtype=float32)`.
-/

open Classical
noncomputable section
namespace Einet

/-- the smaller of two floats; NaN wins, as in `torch.min`. -/
def Fl.min2 (a b : Fl) : Fl := if a = .nan then .nan else if b = .nan then .nan else if Fl.lt b a then b else a

/-- the larger of two floats; NaN wins. -/
def Fl.max2' (a b : Fl) : Fl := if a = .nan then .nan else if b = .nan then .nan else if Fl.lt a b then b else a

/-- `a.min()` of a non-empty tensor. -/
def minOf : List Fl → Fl
  | [] => .nan
  | [x] => x
  | x :: xs => Fl.min2 x (minOf xs)

/-- `a.max()` of a non-empty tensor. -/
def maxOf : List Fl → Fl
  | [] => .nan
  | [x] => x
  | x :: xs => Fl.max2' x (maxOf xs)

/-- `torch.quantile(x, q)`: linear interpolation between the two neighbouring order statistics. -/
def quantile (x : List ℝ) (q : ℝ) : ℝ :=
  let s := x.mergeSort fun a b => decide (a ≤ b)
  let h := q * (x.length - 1)
  let lo := s.getD ⌊h⌋₊ 0
  let hi := s.getD ⌈h⌉₊ 0
  lo + (h - ⌊h⌋₊) * (hi - lo)

/-- `_ptp_torch` (histogram.py:31-32). -/
def ptp (x : List ℝ) : ℝ := (maxOf (x.map .fin)).val - (minOf (x.map .fin)).val

/-- `_hist_bin_fd_torch` (histogram.py:24-26). -/
def binFd (x : List ℝ) : ℝ := 2 * (quantile x (3/4) - quantile x (1/4)) * (x.length : ℝ) ^ (-1/3 : ℝ)

/-- `_hist_bin_sturges_torch` (histogram.py:28-29). -/
def binSturges (x : List ℝ) : ℝ := ptp x / (Real.logb 2 x.length + 1)

/-- `_hist_bin_auto_torch` (histogram.py:34-37). -/
def binAuto (x : List ℝ) : ℝ := if 0 < binFd x then min (binFd x) (binSturges x) else binSturges x

/-- `torch.isfinite`. -/
def finite (x : Fl) : Prop := x.IsFin

/-- `first_edge, last_edge` before the expansion (histogram.py:93-106). -/
def rawEdges (a : List Fl) (range : Option (Fl × Fl)) : Res (Fl × Fl) :=
  match range with
  | some (lo, hi) => do
    require .value (¬ Fl.lt hi lo)
    require .value (finite lo ∧ finite hi)
    return (lo, hi)
  | none =>
    if a = [] then .ok (.fin 0, .fin 1)
    else do
      require .value (finite (minOf a) ∧ finite (maxOf a))
      return (minOf a, maxOf a)

/-- expansion of an empty range (histogram.py:108-110); the edges are finite here, so the result is real. -/
def expandEdges (p : Fl × Fl) : ℝ × ℝ :=
  if p.1.val = p.2.val then (p.1.val - 1/2, p.2.val + 1/2) else (p.1.val, p.2.val)

/-- `_get_outer_edges_torch` (histogram.py:89-112). -/
def outerEdges (a : List Fl) (range : Option (Fl × Fl)) : Res (ℝ × ℝ) := (rawEdges a range).map expandEdges

/-- filtering by the range (histogram.py:66-68); comparisons with NaN are false. -/
def inRange (range : Option (Fl × Fl)) (first last : ℝ) (a : List Fl) : List Fl :=
  match range with
  | none => a
  | some _ => a.filter fun x => decide (¬ Fl.lt x (.fin first) ∧ ¬ Fl.lt (.fin last) x ∧ x ≠ .nan)

/-- number of bins (histogram.py:70-81). -/
def numBins (first last : ℝ) (a : List Fl) : ℕ :=
  if a = [] then 1
  else
    let width := binAuto (a.map Fl.val)
    if 0 < width then ⌈(last - first) / width⌉.toNat else 1

/-- `torch.linspace(first, last, n + 1)` (histogram.py:84-86). -/
def linspace (first last : ℝ) (n : ℕ) : List ℝ := (List.range (n + 1)).map fun i : ℕ => first + i * ((last - first) / n)

/-- `_get_bin_edges_torch` (histogram.py:40-87). -/
def binEdges (a : List Fl) (range : Option (Fl × Fl) := none) (weights : Bool := false) :
    Res (List ℝ × ℝ × ℝ × ℕ) := do
  require .type (weights = false)
  let (first, last) ← outerEdges a range
  let n := numBins first last (inRange range first last a)
  return (linspace first last n, first, last, n)

end Einet
