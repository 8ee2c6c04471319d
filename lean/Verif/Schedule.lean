import Mathlib.Data.Nat.Size
import Mathlib.Data.Real.Basic
import Mathlib.Tactic.NormNum
import Mathlib.Tactic.Ring
import Mathlib.Tactic.Linarith

/-!
# Learning rates

Models of the learning rate schedules of models_pl.py, main.py and main_pwl.py.  Simplifications: the learning rate is a real
number, so rounding in `lr * gamma` is left out; the optimiser itself is not modelled.  The milestones are computed in double
precision with rounding as in the code.
-/

noncomputable section
namespace Einet

/-- rounding of a non-negative integer multiple of a fixed power of two to 53 significant bits, ties to even (IEEE 754 double
precision, Python's `float`; exponents are not bounded). -/
def roundBits (x : Nat) : Nat :=
  let k := Nat.size x - 53
  let q := x / 2 ^ k
  let r := x % 2 ^ k
  if 2 * r < 2 ^ k ∨ 2 * r = 2 ^ k ∧ q % 2 = 0 then q * 2 ^ k else (q + 1) * 2 ^ k

/-- `int(c * n)` for an integer `n ≥ 0` and the double `c = m / 2 ** 53`: `n` is converted to a double, the product is rounded and
then truncated (models_pl.py:134, main_pwl.py:308). -/
def intMul (m n : Nat) : Nat := roundBits (m * roundBits n) / 2 ^ 53

/-- the double `0.7` is this number divided by `2 ** 53`. -/
def double07 : Nat := 6305039478318694

/-- the double `0.8` is this number divided by `2 ** 53`. -/
def double08 : Nat := 7205759403792794

/-- the double `0.9` is this number divided by `2 ** 53`. -/
def double09 : Nat := 8106479329266893

/-- an optimiser's learning rate with a `MultiStepLR` scheduler (torch.optim.lr_scheduler). -/
structure MultiStepLR where
  milestones : List Nat
  gamma : ℝ
  lr : ℝ
  last_epoch : ℤ

namespace MultiStepLR

/-- `MultiStepLR.step()`: the counter is increased and the rate is multiplied by `gamma` once for each milestone equal to it
(torch, `MultiStepLR.get_lr`; `milestones` is a `Counter`). -/
def step (s : MultiStepLR) : MultiStepLR :=
  let e := s.last_epoch + 1
  { s with last_epoch := e, lr := s.lr * s.gamma ^ (s.milestones.countP fun m : Nat => (m : ℤ) = e) }

/-- `MultiStepLR(optimizer, milestones, gamma)`: the constructor calls `step` once. -/
def init (lr : ℝ) (milestones : List Nat) (gamma : ℝ) : MultiStepLR := step ⟨milestones, gamma, lr, -1⟩

/-- the scheduler after `n` calls of `step`. -/
def steps : Nat → MultiStepLR → MultiStepLR
  | 0, s => s
  | n + 1, s => (steps n s).step

end MultiStepLR

/-- `configure_optimizers` of `LitModel` (models_pl.py:127-137). -/
def litScheduler (lr : ℝ) (epochs : Nat) : MultiStepLR :=
  .init lr [intMul double07 epochs, intMul double09 epochs] (1 / 10)

/-- the learning rate during epoch `e` (from 0) of the training by `trainer.fit` (main_pl.py:145-187): the trainer calls `step` at the
end of every epoch. -/
def litRate (lr : ℝ) (epochs e : Nat) : ℝ := ((litScheduler lr epochs).steps e).lr

/-- the learning rate during epoch `e` (from 0) of main_pwl.py (lines 306-344). -/
def pwlRate (lr : ℝ) (epochs e : Nat) : ℝ :=
  ((MultiStepLR.init lr [intMul double08 epochs, intMul double09 epochs] (1 / 2)).steps e).lr

/-- an optimiser's learning rate with a `StepLR` scheduler (torch.optim.lr_scheduler). -/
structure StepLR where
  step_size : Nat
  gamma : ℝ
  lr : ℝ
  last_epoch : ℤ

namespace StepLR

/-- `StepLR.step()`. -/
def step (s : StepLR) : StepLR :=
  let e := s.last_epoch + 1
  { s with last_epoch := e, lr := if e = 0 ∨ e % s.step_size ≠ 0 then s.lr else s.lr * s.gamma }

/-- `StepLR(optimizer, step_size, gamma)`: the constructor calls `step` once. -/
def init (lr : ℝ) (step_size : Nat) (gamma : ℝ) : StepLR := step ⟨step_size, gamma, lr, -1⟩

end StepLR

/-- the loop over the epochs in main.py (lines 223-226): the learning rate of every epoch; the call of `lr_scheduler.step()` at the
end of the body is a comment. -/
def mainLoop (s : StepLR) : Nat → List ℝ
  | 0 => []
  | n + 1 => s.lr :: mainLoop s n

/-- the learning rates of the epochs of main.py (lines 199-226). -/
def mainRates (lr : ℝ) (epochs : Nat) : List ℝ := mainLoop (.init lr 2 (1 / 10)) epochs

end Einet
