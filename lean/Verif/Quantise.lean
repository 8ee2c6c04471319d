import Verif.Build

/-!
# Pixel preprocessing and choice of the leaf

Models of `reduce_bits`, `dequantize_image` and `preprocess` (simple_einet/utils.py:55-85) and of `get_distribution`
(simple_einet/dist.py:65-104).
-/

open Classical
noncomputable section
namespace Einet
open Tensor

/-- `reduce_bits` (utils.py:58-64). -/
def reduceBits (image : Tensor Fl) (n_bits : ℤ) : Res (Tensor Fl) := do
  require .assertion ((AllIdx image.shape fun i => flGe (image.get i) (.fin 0)) ∧
    AllIdx image.shape fun i => flGe (.fin 1) (image.get i))
  let image := image.map (· * .fin 255)
  if n_bits < 8 then
    return image.map fun x => .fin ⌊(x / .fin ((2 : ℝ) ^ (8 - n_bits))).val⌋
  else return image

/-- `dequantize_image` (utils.py:54-55); `noise` is the result of `torch.rand_like`. -/
def dequantize (noise : List Nat → ℝ) (image : Tensor Fl) (n_bins : ℝ) : Tensor Fl :=
  ⟨image.shape, fun i => image.get i + .fin (noise i) / .fin n_bins⟩

/-- `image.long()`: truncation. -/
def toLong (x : Fl) : ℤ := if 0 ≤ x.val then ⌊x.val⌋ else ⌈x.val⌉

/-- `preprocess` (utils.py:67-82); the result of `.long()` is given as integers. -/
def preprocess (noise : List Nat → ℝ) (image : Tensor Fl) (n_bits : ℤ) (n_bins : ℝ) (deq : Bool := true)
    (gauss : Bool := true) : Res (Tensor Fl ⊕ Tensor ℤ) := do
  let image ← reduceBits image n_bits
  if gauss then
    let image := image.map fun x => x / .fin n_bins - .fin (1/2)
    if deq then return .inl (dequantize noise image n_bins) else return .inl image
  else return .inr (image.map toLong)

/-- `Dist` (dist.py:5-13) as far as the leaves are modelled. -/
inductive DistName where
  | normal
  | normalRat
  | binomial
  | categorical

/-- `get_distribution` (dist.py:65-104): class and keyword arguments; the parameters of the leaf are given separately. The
arguments `n_bits`, `min_sigma`, `max_sigma` are the fields of `cfg`. -/
def getDistribution (n_bits : ℕ) (min_sigma max_sigma : ℝ) (p q : Par) (logits : Nat → Nat → Nat → Nat → Nat → ℝ) :
    DistName → LeafSpec
  | .normal => .normal p q
  | .normalRat => .ratNormal min_sigma max_sigma none none p q
  | .binomial => .binomial (2 ^ n_bits - 1) p
  | .categorical => .categorical (2 ^ n_bits - 1) logits

end Einet
