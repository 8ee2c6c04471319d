import Mathlib.Analysis.SpecialFunctions.Log.Basic
import Mathlib.Algebra.BigOperators.Fin
import Mathlib.Algebra.BigOperators.Field

/-!
# Ideal floating point numbers

A torch float is modelled by an exact real number or one of NaN, -inf, +inf, with the IEEE-754 rules for the
special values.  Rounding, overflow and underflow are not modelled.
-/

open Classical
noncomputable section
namespace Einet

/-- Torch float without rounding. -/
inductive Fl where
  | nan
  | ninf
  | pinf
  | fin (r : ℝ)

namespace Fl

instance : Inhabited Fl := ⟨nan⟩
instance : Zero Fl := ⟨fin 0⟩
instance : One Fl := ⟨fin 1⟩

/-- `a + b` of torch: NaN is absorbing and `inf + -inf` is NaN. -/
def add : Fl → Fl → Fl
  | nan, _ => nan
  | _, nan => nan
  | pinf, ninf => nan
  | ninf, pinf => nan
  | pinf, _ => pinf
  | _, pinf => pinf
  | ninf, _ => ninf
  | _, ninf => ninf
  | fin a, fin b => fin (a + b)

/-- unary minus. -/
def neg : Fl → Fl
  | nan => nan
  | ninf => pinf
  | pinf => ninf
  | fin a => fin (-a)

instance : Add Fl := ⟨add⟩
instance : Neg Fl := ⟨neg⟩
instance : Sub Fl := ⟨fun a b => a + -b⟩

/-- infinity with the sign of `s` times infinity; NaN for `s = 0`. -/
def infMul (b : ℝ) : Fl := if b = 0 then nan else if 0 < b then pinf else ninf

/-- `a * b` of torch: `0 * inf` is NaN. -/
def mul : Fl → Fl → Fl
  | nan, _ => nan
  | _, nan => nan
  | fin a, fin b => fin (a * b)
  | pinf, fin b => infMul b
  | fin b, pinf => infMul b
  | ninf, fin b => infMul (-b)
  | fin b, ninf => infMul (-b)
  | pinf, pinf => pinf
  | ninf, ninf => pinf
  | pinf, ninf => ninf
  | ninf, pinf => ninf

instance : Mul Fl := ⟨mul⟩

/-- `a / b` of torch (zero is taken as `+0`). -/
def div : Fl → Fl → Fl
  | nan, _ => nan
  | _, nan => nan
  | fin a, fin b => if b = 0 then infMul a else fin (a / b)
  | fin _, _ => fin 0
  | pinf, fin b => if 0 ≤ b then pinf else ninf
  | ninf, fin b => if 0 ≤ b then ninf else pinf
  | _, _ => nan

instance : Div Fl := ⟨div⟩

/-- `torch.exp`. -/
def exp : Fl → Fl
  | nan => nan
  | ninf => fin 0
  | pinf => pinf
  | fin a => fin (Real.exp a)

/-- `torch.log`. -/
def log : Fl → Fl
  | nan => nan
  | ninf => nan
  | pinf => pinf
  | fin a => if 0 < a then fin (Real.log a) else if a = 0 then ninf else nan

/-- `torch.isnan`. -/
def isnan : Fl → Bool
  | nan => true
  | _ => false

/-- IEEE `a < b`. -/
def lt : Fl → Fl → Prop
  | nan, _ => False
  | _, nan => False
  | ninf, ninf => False
  | ninf, _ => True
  | _, ninf => False
  | pinf, _ => False
  | _, pinf => True
  | fin a, fin b => a < b

/-- `torch.max(a, b)`: NaN propagates. -/
def max2 : Fl → Fl → Fl
  | nan, _ => nan
  | _, nan => nan
  | a, b => if lt a b then b else a

/-- The order used by `torch.argmax`: NaN counts as the largest value. -/
def better (a b : Fl) : Prop := (b = nan ∧ a ≠ nan) ∨ lt a b

/-- Sum of `f 0, ..., f (n-1)` (`torch.sum` along a dimension of size `n`). -/
def sumN : Nat → (Nat → Fl) → Fl
  | 0, _ => fin 0
  | n + 1, f => sumN n f + f n

/-- `torch.logsumexp` along a dimension of size `n`. -/
def lse (n : Nat) (f : Nat → Fl) : Fl := log (sumN n fun i => exp (f i))

/-- `torch.max` along a dimension of size `n` (torch raises for `n = 0`; here -inf, callers check). -/
def maxN : Nat → (Nat → Fl) → Fl
  | 0, _ => ninf
  | n + 1, f => if n = 0 then f 0 else max2 (maxN n f) (f n)

/-- `torch.argmax` along a dimension of size `n`: the first maximal position. -/
def argmaxN : Nat → (Nat → Fl) → Nat
  | 0, _ => 0
  | n + 1, f => if better (f (argmaxN n f)) (f n) then n else argmaxN n f

/-- `F.log_softmax` along a dimension of size `n`, entry `k`. -/
def logSoftmax (n : Nat) (f : Nat → Fl) (k : Nat) : Fl := f k - lse n f

/-- `F.softmax` along a dimension of size `n`, entry `k`. -/
def softmax (n : Nat) (f : Nat → Fl) (k : Nat) : Fl := exp (logSoftmax n f k)

/-! ### Lemmas on finite values -/

@[simp] theorem zero_def : (0 : Fl) = fin 0 := rfl
@[simp] theorem one_def : (1 : Fl) = fin 1 := rfl
@[simp] theorem fin_add (a b : ℝ) : fin a + fin b = fin (a + b) := rfl
@[simp] theorem fin_neg (a : ℝ) : -fin a = fin (-a) := rfl
@[simp] theorem fin_sub (a b : ℝ) : fin a - fin b = fin (a - b) := by
  show fin (a + -b) = _; rw [sub_eq_add_neg]
@[simp] theorem fin_mul (a b : ℝ) : fin a * fin b = fin (a * b) := rfl
@[simp] theorem exp_fin (a : ℝ) : exp (fin a) = fin (Real.exp a) := rfl
theorem log_fin {a : ℝ} (h : 0 < a) : log (fin a) = fin (Real.log a) := by simp [log, h]
theorem fin_div (a : ℝ) {b : ℝ} (h : b ≠ 0) : fin a / fin b = fin (a / b) := by
  show div (fin a) (fin b) = _; simp [div, h]
@[simp] theorem nan_add (a : Fl) : nan + a = nan := by cases a <;> rfl
@[simp] theorem add_nan (a : Fl) : a + nan = nan := by cases a <;> rfl
@[simp] theorem neg_nan : -nan = nan := rfl
@[simp] theorem nan_sub (a : Fl) : nan - a = nan := nan_add _
@[simp] theorem sub_nan (a : Fl) : a - nan = nan := add_nan _
@[simp] theorem nan_mul (a : Fl) : nan * a = nan := by cases a <;> rfl
@[simp] theorem mul_nan (a : Fl) : a * nan = nan := by cases a <;> rfl
@[simp] theorem exp_nan : exp nan = nan := rfl
@[simp] theorem log_nan : log nan = nan := rfl
@[simp] theorem isnan_nan : isnan nan = true := rfl
@[simp] theorem isnan_fin (a : ℝ) : isnan (fin a) = false := rfl
theorem isnan_iff (a : Fl) : isnan a = true ↔ a = nan := by cases a <;> simp [isnan]
@[simp] theorem lt_fin (a b : ℝ) : lt (fin a) (fin b) ↔ a < b := Iff.rfl
@[simp] theorem better_fin (a b : ℝ) : better (fin a) (fin b) ↔ a < b := by simp [better]
@[simp] theorem max2_fin (a b : ℝ) : max2 (fin a) (fin b) = fin (max a b) := by
  simp only [max2, lt_fin]
  split_ifs with h
  · rw [max_eq_right h.le]
  · rw [max_eq_left (not_lt.1 h)]

theorem fin_injective : Function.Injective fin := fun _ _ h => by cases h; rfl

/-- a finite float. -/
def IsFin (a : Fl) : Prop := ∃ r, a = fin r

/-- the real value of a finite float (0 otherwise; only used under `IsFin`). -/
def val : Fl → ℝ
  | fin r => r
  | _ => 0

@[simp] theorem val_fin (r : ℝ) : val (fin r) = r := rfl
theorem IsFin.eq {a : Fl} (h : IsFin a) : a = fin a.val := by obtain ⟨r, rfl⟩ := h; rfl
@[simp] theorem isFin_fin (r : ℝ) : IsFin (fin r) := ⟨r, rfl⟩

theorem sumN_congr {n : Nat} {f g : Nat → Fl} (h : ∀ i, i < n → f i = g i) : sumN n f = sumN n g := by
  induction n with
  | zero => rfl
  | succ n ih => simp only [sumN]; rw [ih fun i hi => h i (by omega), h n (by omega)]

theorem sumN_fin (n : Nat) (g : Nat → ℝ) :
    sumN n (fun i => fin (g i)) = fin (∑ i ∈ Finset.range n, g i) := by
  induction n with
  | zero => simp [sumN]
  | succ n ih => simp only [sumN, ih, fin_add, Finset.sum_range_succ]

theorem sumN_eq_fin {n : Nat} {f : Nat → Fl} {g : Nat → ℝ} (h : ∀ i, i < n → f i = fin (g i)) :
    sumN n f = fin (∑ i ∈ Finset.range n, g i) := by rw [sumN_congr h, sumN_fin]

theorem lse_congr {n : Nat} {f g : Nat → Fl} (h : ∀ i, i < n → f i = g i) : lse n f = lse n g := by
  unfold lse; rw [sumN_congr fun i hi => by rw [h i hi]]

theorem sum_exp_pos {n : Nat} (hn : 0 < n) (g : Nat → ℝ) : 0 < ∑ i ∈ Finset.range n, Real.exp (g i) :=
  Finset.sum_pos (fun _ _ => Real.exp_pos _) ⟨0, by simpa using hn⟩

theorem lse_eq_fin {n : Nat} (hn : 0 < n) {f : Nat → Fl} {g : Nat → ℝ} (h : ∀ i, i < n → f i = fin (g i)) :
    lse n f = fin (Real.log (∑ i ∈ Finset.range n, Real.exp (g i))) := by
  unfold lse
  rw [sumN_eq_fin (g := fun i => Real.exp (g i)) fun i hi => by rw [h i hi]; rfl]
  exact log_fin (sum_exp_pos hn g)

theorem logSoftmax_congr {n : Nat} {f g : Nat → Fl} (h : ∀ i, i < n → f i = g i) {k : Nat} (hk : k < n) :
    logSoftmax n f k = logSoftmax n g k := by unfold logSoftmax; rw [lse_congr h, h k hk]

/-- real-valued log-softmax over `0..n-1`. -/
def rlsm (n : Nat) (g : Nat → ℝ) (k : Nat) : ℝ := g k - Real.log (∑ i ∈ Finset.range n, Real.exp (g i))

theorem logSoftmax_eq_fin {n : Nat} {f : Nat → Fl} {g : Nat → ℝ} (h : ∀ i, i < n → f i = fin (g i))
    {k : Nat} (hk : k < n) : logSoftmax n f k = fin (rlsm n g k) := by
  unfold logSoftmax rlsm
  rw [lse_eq_fin (by omega) h, h k hk, fin_sub]

theorem rlsm_congr {n : Nat} {f g : Nat → ℝ} (h : ∀ i, i < n → f i = g i) {k : Nat} (hk : k < n) :
    rlsm n f k = rlsm n g k := by
  unfold rlsm; rw [h k hk, Finset.sum_congr rfl fun i hi => by rw [h i (by simpa using hi)]]

theorem exp_rlsm {n : Nat} (hn : 0 < n) (g : Nat → ℝ) (k : Nat) :
    Real.exp (rlsm n g k) = Real.exp (g k) / ∑ i ∈ Finset.range n, Real.exp (g i) := by
  unfold rlsm
  rw [Real.exp_sub, Real.exp_log (sum_exp_pos hn g)]

theorem sum_exp_rlsm {n : Nat} (hn : 0 < n) (g : Nat → ℝ) :
    ∑ k ∈ Finset.range n, Real.exp (rlsm n g k) = 1 := by
  simp only [exp_rlsm hn]
  rw [← Finset.sum_div]
  exact div_self (sum_exp_pos hn g).ne'

theorem maxN_eq_fin {n : Nat} (hn : 0 < n) {f : Nat → Fl} {g : Nat → ℝ} (h : ∀ i, i < n → f i = fin (g i)) :
    ∃ m, maxN n f = fin m := by
  induction n with
  | zero => omega
  | succ n ih =>
    by_cases h0 : n = 0
    · subst h0; exact ⟨g 0, by simp [maxN, h 0 (by omega)]⟩
    · obtain ⟨m, hm⟩ := ih (by omega) fun i hi => h i (by omega)
      exact ⟨max m (g n), by simp [maxN, h0, hm, h n (by omega)]⟩

theorem maxN_congr {n : Nat} {f g : Nat → Fl} (h : ∀ i, i < n → f i = g i) : maxN n f = maxN n g := by
  induction n with
  | zero => rfl
  | succ n ih => simp only [maxN]; rw [ih fun i hi => h i (by omega), h n (by omega), h 0 (by omega)]

theorem argmaxN_lt {n : Nat} (hn : 0 < n) (f : Nat → Fl) : argmaxN n f < n := by
  induction n with
  | zero => omega
  | succ n ih =>
    simp only [argmaxN]
    split_ifs
    · omega
    · by_cases h0 : n = 0
      · subst h0; simp [argmaxN]
      · have := ih (by omega); omega

theorem argmaxN_max {n : Nat} {f : Nat → Fl} {g : Nat → ℝ} (h : ∀ i, i < n → f i = fin (g i)) :
    ∀ i, i < n → g i ≤ g (argmaxN n f) := by
  induction n with
  | zero => intro i hi; omega
  | succ n ih =>
    have ih' := ih fun i hi => h i (by omega)
    intro i hi
    have hfa : f (argmaxN n f) = fin (g (argmaxN n f)) := by
      by_cases h0 : n = 0
      · subst h0; simpa [argmaxN] using h 0 (by omega)
      · exact h _ (by have := argmaxN_lt (n := n) (by omega) f; omega)
    simp only [argmaxN, hfa, h n (by omega), better_fin]
    split_ifs with hlt
    · by_cases hin : i = n
      · rw [hin]
      · exact (ih' i (by omega)).trans hlt.le
    · by_cases hin : i = n
      · rw [hin]; exact not_lt.1 hlt
      · exact ih' i (by omega)

theorem argmaxN_congr {n : Nat} {f g : Nat → Fl} (h : ∀ i, i < n → f i = g i) : argmaxN n f = argmaxN n g := by
  induction n with
  | zero => rfl
  | succ n ih =>
    have e := ih fun i hi => h i (by omega)
    simp only [argmaxN, e, h n (by omega)]
    by_cases h0 : n = 0
    · subst h0; split_ifs <;> rfl
    · rw [h _ (by have := argmaxN_lt (n := n) (by omega) g; omega)]

end Fl
end Einet
