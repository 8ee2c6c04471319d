import Verif.Lit
import Verif.Data

/-!
# Reconstructions in main.py

The completion of test images in main.py:306-342 and 352-364 with `is_differentiable=False`.  Simplifications: `seed=0` (see
Sampler.lean for seeds), the grid of images and the files are left out; the loop over `num_samples = 1` samples is a single call.
-/

open Classical
noncomputable section
namespace Einet
open Tensor

/-- `list(image_scope[:, 0 : round(data_shape[-1] / 2), :].reshape(-1))` (main.py:309-310): positions in an array of the shape of the
images, all channels. -/
def reconstructionScopes (s : ImgShape) : List Int :=
  (List.range s.channels).flatMap fun c => (List.range (min (pyRound ((s.width : ℚ) / 2)).toNat s.height)).flatMap fun i =>
    (List.range s.width).map fun j => (((c * s.height + i) * s.width + j : Nat) : Int)

/-- division by the number of bins unless the leaves are normal, `squeeze` and `view(-1, *data_shape)` (main.py:333-338, 358-362).
`squeeze` keeps the order of the entries, so that it has no influence on the following `view`. -/
def reconstructionImages (s : ImgShape) (has_gauss_dist : Bool) (n_bins : Nat) (t : Tensor Fl) : Res (Tensor Fl) := do
  let t := if has_gauss_dist then t else t.map (· / .fin n_bins)
  require .shape (s.channels * s.height * s.width ≠ 0)
  t.view [t.numel / (s.channels * s.height * s.width), s.channels, s.height, s.width]

/-- the reconstructions of main.py:306-338. -/
def reconstructions (M : Model) (s : ImgShape) (has_gauss_dist : Bool) (n_bins : Nat) (test_x : Tensor Fl) (temperature_leaves : ℝ)
    (mpe_at_leaves : Bool) : Rand (Tensor Fl) :=
  (M.sample { evidence := some test_x, marginalized_scopes := some ⟨true, reconstructionScopes s⟩,
              temperature_leaves := temperature_leaves, mpe_at_leaves := mpe_at_leaves }).bind fun t =>
    Rand.lift (reconstructionImages s has_gauss_dist n_bins t)

/-- the reconstructions with the most likely explanation (main.py:352-362). -/
def reconstructionsMpe (M : Model) (s : ImgShape) (has_gauss_dist : Bool) (n_bins : Nat) (test_x : Tensor Fl) : Rand (Tensor Fl) :=
  (M.mpe (some test_x) (some ⟨true, reconstructionScopes s⟩)).bind fun t =>
    Rand.lift (reconstructionImages s has_gauss_dist n_bins t)

end Einet
end
