import Verif.Schedule
import Mathlib.Tactic.IntervalCases

/-!
# Property C77: learning rate schedules
-/

open Classical
noncomputable section
namespace Einet.Props
open Einet

/-! ### Lemmas -/

theorem roundBits_small {x : Nat} (h : x < 2 ^ 53) : roundBits x = x := by
  have : Nat.size x - 53 = 0 := by have := Nat.size_le.2 h; omega
  unfold roundBits
  simp only [this, pow_zero, Nat.div_one, Nat.mod_one, mul_zero, mul_one]
  norm_num

theorem roundBits_bounds {x k : Nat} (h : x < 2 ^ (53 + k)) (hk : k ≤ 53) :
    x / 2 ^ 53 * 2 ^ 53 ≤ roundBits x ∧ 2 * roundBits x ≤ 2 * x + 2 ^ k := by
  have hs : Nat.size x - 53 ≤ k := by have := Nat.size_le.2 h; omega
  unfold roundBits
  dsimp only
  set j := Nat.size x - 53
  have hj : 2 ^ j ≤ 2 ^ k := Nat.pow_le_pow_right (by norm_num) hs
  have hd := Nat.div_add_mod x (2 ^ j)
  have h1 : x / 2 ^ 53 * 2 ^ 53 ≤ x / 2 ^ j * 2 ^ j := by
    obtain ⟨d, hd⟩ : ∃ d, 53 = j + d := ⟨53 - j, by omega⟩
    have : x / 2 ^ 53 * 2 ^ 53 = (x / 2 ^ 53 * 2 ^ d) * 2 ^ j := by
      conv_lhs => rw [hd]
      rw [pow_add]
      conv_rhs => rw [hd]
      rw [pow_add]
      ring
    rw [this]
    refine Nat.mul_le_mul_right _ ?_
    rw [Nat.le_div_iff_mul_le (by positivity), ← this]
    exact Nat.div_mul_le_self _ _
  have hcomm : x / 2 ^ j * 2 ^ j = 2 ^ j * (x / 2 ^ j) := Nat.mul_comm _ _
  have hr : x % 2 ^ j < 2 ^ j := Nat.mod_lt _ (by positivity)
  split_ifs with hc
  · refine ⟨h1, ?_⟩
    omega
  · push Not at hc
    have h2 : (x / 2 ^ j + 1) * 2 ^ j = x / 2 ^ j * 2 ^ j + 2 ^ j := by ring
    rw [h2]
    refine ⟨by omega, ?_⟩
    have := hc.1
    omega

theorem intMul_09 {n : Nat} (h : n < 2 ^ 49) : intMul double09 n = 9 * n / 10 := by
  unfold intMul
  rw [roundBits_small (h.trans (by norm_num))]
  have hb := roundBits_bounds (x := double09 * n) (k := 49) (by unfold double09; norm_num at h ⊢; omega) (by norm_num)
  generalize roundBits (double09 * n) = y at hb
  unfold double09 at hb
  norm_num at h hb ⊢
  omega

theorem intMul_08 {n : Nat} (h : n < 2 ^ 49) : intMul double08 n = 8 * n / 10 := by
  unfold intMul
  rw [roundBits_small (h.trans (by norm_num))]
  have hb := roundBits_bounds (x := double08 * n) (k := 49) (by unfold double08; norm_num at h ⊢; omega) (by norm_num)
  generalize roundBits (double08 * n) = y at hb
  unfold double08 at hb
  norm_num at h hb ⊢
  omega

theorem intMul_07 {n : Nat} (h : n < 2 ^ 49) :
    intMul double07 n ≤ 7 * n / 10 ∧ 7 * n / 10 ≤ intMul double07 n + 1 ∧ (n % 10 ≠ 0 → intMul double07 n = 7 * n / 10) := by
  unfold intMul
  rw [roundBits_small (h.trans (by norm_num))]
  have hb := roundBits_bounds (x := double07 * n) (k := 49) (by unfold double07; norm_num at h ⊢; omega) (by norm_num)
  generalize roundBits (double07 * n) = y at hb
  unfold double07 at hb
  norm_num at h hb ⊢
  obtain ⟨a, r, hr, rfl⟩ : ∃ a r, r < 10 ∧ n = 10 * a + r := ⟨n / 10, n % 10, Nat.mod_lt _ (by norm_num), by omega⟩
  interval_cases r <;> omega

/-- the rounding of `0.7 * n` for multiples of 10. -/
theorem intMul_07_tens {a : Nat} (ha : 0 < a) (h : 10 * a < 2 ^ 49) :
    intMul double07 (10 * a) = if ∃ k, 7 * a ≤ 2 ^ k ∧ 2 ^ k < 8 * a then 7 * a - 1 else 7 * a := by
  unfold intMul
  rw [roundBits_small (h.trans (by norm_num))]
  set K := Nat.size (7 * a - 1) with hK
  have h1 : 7 * a - 1 < 2 ^ K := Nat.lt_size_self _
  have h2 : ∀ k, 7 * a ≤ 2 ^ k → K ≤ k := fun k hk => Nat.size_le.2 (by omega)
  have hK0 : 0 < K := by
    rcases Nat.eq_zero_or_pos K with e | e
    · rw [e] at h1; omega
    · exact e
  have h3 : 2 ^ (K - 1) ≤ 7 * a - 1 := Nat.lt_size.1 (by omega)
  have hK52 : K ≤ 52 := h2 52 (by norm_num at h ⊢; omega)
  have hv : double07 * (10 * a) + 4 * a = 7 * a * 2 ^ 53 := by unfold double07; norm_num; ring
  have hsz : Nat.size (double07 * (10 * a)) = K + 53 := by
    refine le_antisymm (Nat.size_le.2 ?_) ?_
    · rw [pow_add]
      have : 7 * a * 2 ^ 53 ≤ 2 ^ K * 2 ^ 53 := Nat.mul_le_mul_right _ (by omega)
      omega
    · have h4 : K + 52 < Nat.size (double07 * (10 * a)) := by
        refine Nat.lt_size.2 ?_
        have e : 2 ^ (K + 52) = 2 ^ (K - 1) * 2 ^ 53 := by rw [← pow_add]; congr 1; omega
        have h5 : 2 ^ (K - 1) * 2 ^ 53 ≤ (7 * a - 1) * 2 ^ 53 := Nat.mul_le_mul_right _ h3
        have h6 : (7 * a - 1) * 2 ^ 53 + 2 ^ 53 = 7 * a * 2 ^ 53 := by
          obtain ⟨b, hb⟩ : ∃ b, 7 * a = b + 1 := ⟨7 * a - 1, by omega⟩
          rw [hb]
          simp only [Nat.add_sub_cancel]
          ring
        have h7 : 4 * a < 2 ^ 53 := by norm_num at h ⊢; omega
        omega
      omega
  obtain ⟨d, hd, hd0⟩ : ∃ d, 53 = K + d ∧ 0 < d := ⟨53 - K, by omega, by omega⟩
  have h53 : 2 ^ 53 = 2 ^ K * 2 ^ d := by rw [← pow_add, ← hd]
  obtain ⟨m, hm⟩ : ∃ m, 7 * a * 2 ^ d = 2 * m + 2 := by
    obtain ⟨d', rfl⟩ : ∃ d', d = d' + 1 := ⟨d - 1, by omega⟩
    have : 1 ≤ 7 * a * 2 ^ d' := Nat.mul_pos (by omega) (by positivity)
    refine ⟨7 * a * 2 ^ d' - 1, ?_⟩
    rw [pow_succ]
    have e : 7 * a * (2 ^ d' * 2) = 2 * (7 * a * 2 ^ d') := by ring
    omega
  have hva : double07 * (10 * a) = 2 ^ K * (2 * m + 1) + (2 ^ K - 4 * a) := by
    have e : 7 * a * 2 ^ 53 = 2 ^ K * (2 * m + 2) := by rw [← hm, h53]; ring
    have e2 : 2 ^ K * (2 * m + 2) = 2 ^ K * (2 * m + 1) + 2 ^ K := by ring
    omega
  have hr : 2 ^ K - 4 * a < 2 ^ K := by omega
  have hq : double07 * (10 * a) / 2 ^ K = 2 * m + 1 := by
    rw [hva, Nat.mul_add_div (by positivity), Nat.div_eq_of_lt hr, Nat.add_zero]
  have hrm : double07 * (10 * a) % 2 ^ K = 2 ^ K - 4 * a := by
    rw [hva, Nat.mul_add_mod, Nat.mod_eq_of_lt hr]
  have hiff : (∃ k, 7 * a ≤ 2 ^ k ∧ 2 ^ k < 8 * a) ↔ 2 ^ K < 8 * a :=
    ⟨fun ⟨k, h4, h5⟩ => lt_of_le_of_lt (Nat.pow_le_pow_right (by norm_num) (h2 k h4)) h5, fun h4 => ⟨K, by omega, h4⟩⟩
  unfold roundBits
  rw [hsz]
  simp only [Nat.add_sub_cancel, hq, hrm]
  have e7 : 7 * a * 2 ^ 53 = (2 * m + 1 + 1) * 2 ^ K := by
    rw [h53]
    calc 7 * a * (2 ^ K * 2 ^ d) = (7 * a * 2 ^ d) * 2 ^ K := by ring
      _ = _ := by rw [hm]
  by_cases hc : 2 ^ K < 8 * a
  · rw [if_pos (Or.inl (by omega)), if_pos (hiff.2 hc)]
    have e8 : (2 * m + 1 + 1) * 2 ^ K = (2 * m + 1) * 2 ^ K + 2 ^ K := by ring
    have hle : 2 ^ K ≤ 2 ^ 53 := Nat.pow_le_pow_right (by norm_num) (by omega)
    have hpos : 0 < 2 ^ K := by positivity
    have key : ∀ p w : Nat, 7 * a * 2 ^ 53 = w + p → p ≤ 2 ^ 53 → 0 < p → w / 2 ^ 53 = 7 * a - 1 := by
      clear * - ha
      intro p w h1 h2 h3
      norm_num at h1 h2 ⊢
      omega
    exact key _ _ (e7.trans e8) hle hpos
  · rw [if_neg (by rintro (h4 | h4) <;> omega), if_neg (fun h => hc (hiff.1 h)), ← e7]
    exact Nat.mul_div_cancel _ (by positivity)

theorem countP_le_succ (l : List Nat) (n : Nat) :
    l.countP (fun m => decide (m ≤ n + 1)) = l.countP (fun m => decide (m ≤ n)) + l.countP (fun m => decide (m = n + 1)) := by
  induction l with
  | nil => rfl
  | cons a l ih =>
    simp only [List.countP_cons, ih, decide_eq_true_eq]
    split_ifs <;> omega

theorem steps_eq (lr : ℝ) (ms : List Nat) (γ : ℝ) (n : Nat) :
    ((MultiStepLR.init lr ms γ).steps n) = ⟨ms, γ, lr * γ ^ (ms.countP fun m => m ≤ n), n⟩ := by
  induction n with
  | zero =>
    unfold MultiStepLR.steps MultiStepLR.init MultiStepLR.step
    dsimp only
    norm_num
  | succ n ih =>
    unfold MultiStepLR.steps
    rw [ih]
    unfold MultiStepLR.step
    dsimp only
    have e : (ms.countP fun m : Nat => (m : ℤ) = (n : ℤ) + 1) = ms.countP (fun m => decide (m = n + 1)) := by
      refine List.countP_congr fun m _ => ?_
      simp only [decide_eq_true_eq]
      omega
    rw [e, countP_le_succ, pow_add, mul_assoc]
    push_cast
    rfl

/-! ### C77 -/

/-- the rate is multiplied by `γ` before the epochs `a` and `b`, counted from 0. -/
def decays (lr γ : ℝ) (a b e : Nat) : ℝ := if e < a then lr else if e < b then lr * γ else lr * γ ^ 2

theorem rate_decays (lr γ : ℝ) {a b : Nat} (h : a ≤ b) (e : Nat) :
    lr * γ ^ ([a, b].countP fun m => decide (m ≤ e)) = decays lr γ a b e := by
  unfold decays
  simp only [List.countP_cons, List.countP_nil, decide_eq_true_eq]
  split_ifs <;> first | omega | simp

/-- the epoch (from 0) of the first decay in a training of `E` epochs: 70 percent of `E`, rounded down; one less if `E` is a
multiple of 10 and there is a power of two that is at least 70 and less than 80 percent of `E`. -/
def firstDecay (E : Nat) : Nat :=
  if E % 10 = 0 ∧ ∃ k, 7 * (E / 10) ≤ 2 ^ k ∧ 2 ^ k < 8 * (E / 10) then 7 * E / 10 - 1 else 7 * E / 10

/-- **C77**: the learning rate of every epoch of a training of `E` epochs with main_pl.py: the second decay is exactly before the
epoch with (0-based) number `⌊9 E / 10⌋`, the first one before epoch `firstDecay E`. -/
theorem C77_exact (lr : ℝ) (E : Nat) (hE : E < 2 ^ 49) (e : Nat) :
    litRate lr E e = decays lr (1 / 10) (firstDecay E) (9 * E / 10) e := by
  obtain ⟨h1, h2, h3⟩ := intMul_07 hE
  have h : intMul double07 E = firstDecay E := by
    unfold firstDecay
    by_cases h10 : E % 10 = 0
    · rcases Nat.eq_zero_or_pos (E / 10) with h0 | h0
      · have : E = 0 := by omega
        subst this
        rw [if_neg]
        · exact Nat.le_zero.1 h1
        · rintro ⟨-, k, -, hk⟩
          simp at hk
      · have e10 : E = 10 * (E / 10) := by omega
        have := intMul_07_tens h0 (by omega)
        rw [← e10] at this
        rw [this]
        by_cases hk : ∃ k, 7 * (E / 10) ≤ 2 ^ k ∧ 2 ^ k < 8 * (E / 10)
        · rw [if_pos hk, if_pos ⟨h10, hk⟩]; omega
        · rw [if_neg hk, if_neg fun h => hk h.2]; omega
    · rw [if_neg fun h => h10 h.1]
      exact h3 h10
  unfold litRate litScheduler
  rw [steps_eq, intMul_09 hE, ← h]
  exact rate_decays lr _ (by omega) e

/-- **C77** (part): the rate is as configured in the first 70 percent of the epochs (rounded down, minus one epoch in some
trainings), a tenth until 90 percent and a hundredth from then on.  Missing for the full property: this one epoch
(`C77_refuted_ninety`). -/
theorem C77_rate_partial (lr : ℝ) (E : Nat) (hE : E < 2 ^ 49) (e : Nat) :
    (e + 1 < 7 * E / 10 → litRate lr E e = lr) ∧ (7 * E / 10 ≤ e → e < 9 * E / 10 → litRate lr E e = lr / 10) ∧
    (9 * E / 10 ≤ e → litRate lr E e = lr / 100) ∧ (E % 10 ≠ 0 → e < 7 * E / 10 → litRate lr E e = lr) := by
  rw [C77_exact lr E hE]
  have h1 : firstDecay E ≤ 7 * E / 10 ∧ 7 * E / 10 ≤ firstDecay E + 1 ∧ (E % 10 ≠ 0 → firstDecay E = 7 * E / 10) := by
    unfold firstDecay
    split_ifs with h
    · exact ⟨by omega, by omega, fun h' => absurd h.1 h'⟩
    · exact ⟨le_rfl, by omega, fun _ => rfl⟩
  unfold decays
  refine ⟨fun h => ?_, fun h h' => ?_, fun h => ?_, fun h h' => ?_⟩
  · rw [if_pos (by omega)]
  · rw [if_neg (by omega), if_pos h']; ring
  · rw [if_neg (by omega), if_neg (by omega)]; ring
  · rw [if_pos (by have := h1.2.2 h; omega)]

/-- the default of conf/config.yaml: seven epochs with the full rate, two with a tenth, one with a hundredth. -/
example (lr : ℝ) : (List.range 10).map (litRate lr 10) = (List.range 10).map (decays lr (1 / 10) 7 9) := by
  refine List.map_congr_left fun e _ => ?_
  unfold litRate litScheduler
  rw [steps_eq, show intMul double07 10 = 7 by decide +kernel, intMul_09 (by norm_num)]
  exact rate_decays lr _ (by norm_num) e

/-- what the rates are at the ends of the training: at least two epochs start with the configured rate, and the last epoch of any
training has a hundredth of it. -/
theorem C77_ends (lr : ℝ) (E : Nat) (hE : E < 2 ^ 49) :
    (2 ≤ E → litRate lr E 0 = lr) ∧ (0 < E → litRate lr E (E - 1) = lr / 100) := by
  have h := C77_rate_partial lr E hE
  refine ⟨fun h2 => ?_, fun h2 => (h (E - 1)).2.2.1 (by omega)⟩
  by_cases h5 : E % 10 = 0
  · exact (h 0).1 (by omega)
  · exact (h 0).2.2.2 h5 (by omega)

example : (2 : Nat) ≤ 10 ∧ 10 < 2 ^ 49 := by norm_num

/-- **C77 is false** of 90 epochs: `0.7 * 90` is rounded below 63, so the 63rd epoch, still within the first 70 percent, is run
with a tenth of the rate. -/
theorem C77_refuted_ninety (lr : ℝ) : (62 + 1) * 10 ≤ 7 * 90 ∧ litRate lr 90 61 = lr ∧ litRate lr 90 62 = lr / 10 := by
  have h1 : intMul double07 90 = 62 := by decide +kernel
  have h2 : intMul double09 90 = 81 := by decide +kernel
  have h : ∀ e, litRate lr 90 e = decays lr (1 / 10) 62 81 e := by
    intro e
    unfold litRate litScheduler
    rw [steps_eq, h1, h2]
    exact rate_decays lr _ (by norm_num) e
  refine ⟨by norm_num, ?_, ?_⟩
  · rw [h]; norm_num [decays]
  · rw [h]; norm_num [decays]; ring

/-- **C77 is false** of one epoch: both milestones are 0, so the whole training is run with a hundredth of the rate. -/
theorem C77_refuted_one (lr : ℝ) : litRate lr 1 0 = lr / 100 := (C77_ends lr 1 (by norm_num)).2 one_pos

/-- **C77** for main_pwl.py: the rate is halved before epoch `⌊8 E / 10⌋` and again before epoch `⌊9 E / 10⌋`. -/
theorem C77_pwl (lr : ℝ) (E : Nat) (hE : E < 2 ^ 49) (e : Nat) :
    pwlRate lr E e = decays lr (1 / 2) (8 * E / 10) (9 * E / 10) e := by
  unfold pwlRate
  rw [steps_eq, intMul_08 hE, intMul_09 hE]
  exact rate_decays lr _ (by omega) e

/-- the five epochs of main_pwl.py: the last one with a quarter of the rate. -/
example (lr : ℝ) : (List.range 5).map (pwlRate lr 5) = [lr, lr, lr, lr, lr / 4] := by
  have h := C77_pwl lr 5 (by norm_num)
  simp only [List.range_succ, List.range_zero, List.map_append, List.map_cons, List.map_nil, h]
  norm_num [decays]
  ring

/-- **C77** for main.py: every epoch is run with the configured rate. -/
theorem C77_main (lr : ℝ) (E : Nat) : mainRates lr E = List.replicate E lr := by
  have h0 : (StepLR.init lr 2 (1 / 10)).lr = lr := by
    unfold StepLR.init StepLR.step
    norm_num
  unfold mainRates
  induction E with
  | zero => rfl
  | succ n ih =>
    unfold mainLoop
    rw [ih, h0]
    rfl

end Einet.Props
