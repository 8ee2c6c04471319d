import Verif.PropsTrain
import Verif.PropsSample

/-!
# Gibbs' inequality

In a form that needs no integrability: the expected positive part of `log r` is at most the expected negative part, if `r` has
expectation at most one.  A finite family of measures stands for a random label.
-/

open Classical MeasureTheory
open scoped ENNReal
noncomputable section
namespace Einet

/-- the two parts of `log r` and the gap `r - 1 - log r`. -/
theorem log_parts {r : ℝ} (hr : 0 < r) :
    ENNReal.ofReal (Real.log r) + ENNReal.ofReal (r - 1 - Real.log r) + 1 =
      ENNReal.ofReal r + ENNReal.ofReal (-Real.log r) := by
  have h := Real.log_le_sub_one_of_pos hr
  rw [← ENNReal.ofReal_one]
  rcases le_total 0 (Real.log r) with h0 | h0
  · rw [ENNReal.ofReal_of_nonpos (p := -Real.log r) (by linarith), add_zero, ← ENNReal.ofReal_add h0 (by linarith),
      ← ENNReal.ofReal_add (by linarith) zero_le_one]
    congr 1; ring
  · rw [ENNReal.ofReal_of_nonpos h0, zero_add, ← ENNReal.ofReal_add (by linarith) zero_le_one,
      ← ENNReal.ofReal_add hr.le (by linarith)]
    congr 1; ring

/-- **Gibbs' inequality** with the case of equality. -/
theorem gibbs {ι Ω : Type} [MeasurableSpace Ω] (s : Finset ι) (P : ι → Measure Ω) (r : ι → Ω → ℝ)
    (hm : ∀ i ∈ s, AEMeasurable (r i) (P i)) (hr : ∀ i ∈ s, ∀ᵐ ω ∂P i, 0 < r i ω) (h1 : ∑ i ∈ s, P i Set.univ = 1)
    (hi : ∑ i ∈ s, ∫⁻ ω, ENNReal.ofReal (r i ω) ∂P i ≤ 1) :
    (∑ i ∈ s, ∫⁻ ω, ENNReal.ofReal (Real.log (r i ω)) ∂P i ≤ ∑ i ∈ s, ∫⁻ ω, ENNReal.ofReal (-Real.log (r i ω)) ∂P i) ∧
    ∑ i ∈ s, ∫⁻ ω, ENNReal.ofReal (Real.log (r i ω)) ∂P i ≤ 1 ∧
    (∑ i ∈ s, ∫⁻ ω, ENNReal.ofReal (Real.log (r i ω)) ∂P i = ∑ i ∈ s, ∫⁻ ω, ENNReal.ofReal (-Real.log (r i ω)) ∂P i →
      ∀ i ∈ s, ∀ᵐ ω ∂P i, r i ω = 1) := by
  have e : ∀ i ∈ s, ∫⁻ ω, ENNReal.ofReal (Real.log (r i ω)) ∂P i + ∫⁻ ω, ENNReal.ofReal (r i ω - 1 - Real.log (r i ω)) ∂P i +
      P i Set.univ = ∫⁻ ω, ENNReal.ofReal (r i ω) ∂P i + ∫⁻ ω, ENNReal.ofReal (-Real.log (r i ω)) ∂P i := by
    intro i hi'
    have m1 : AEMeasurable (fun ω => Real.log (r i ω)) (P i) := Real.measurable_log.comp_aemeasurable (hm i hi')
    have m2 : AEMeasurable (fun ω => ENNReal.ofReal (Real.log (r i ω))) (P i) := m1.ennreal_ofReal
    have m3 : AEMeasurable (fun ω => ENNReal.ofReal (r i ω)) (P i) := (hm i hi').ennreal_ofReal
    have m4 : AEMeasurable (fun ω => ENNReal.ofReal (r i ω - 1 - Real.log (r i ω))) (P i) :=
      (((hm i hi').sub_const 1).sub m1).ennreal_ofReal
    rw [← lintegral_one, ← lintegral_add_left' m2, ← lintegral_add_right _ measurable_const, ← lintegral_add_left' m3]
    refine lintegral_congr_ae ?_
    filter_upwards [hr i hi'] with ω hω using log_parts hω
  set A := ∑ i ∈ s, ∫⁻ ω, ENNReal.ofReal (Real.log (r i ω)) ∂P i
  set B := ∑ i ∈ s, ∫⁻ ω, ENNReal.ofReal (-Real.log (r i ω)) ∂P i
  set G := ∑ i ∈ s, ∫⁻ ω, ENNReal.ofReal (r i ω - 1 - Real.log (r i ω)) ∂P i with hG
  have et : A + G + 1 = ∑ i ∈ s, ∫⁻ ω, ENNReal.ofReal (r i ω) ∂P i + B := by
    rw [← h1, ← Finset.sum_add_distrib, ← Finset.sum_add_distrib, ← Finset.sum_add_distrib]
    exact Finset.sum_congr rfl e
  have hle : A + G ≤ B := by
    have : A + G + 1 ≤ B + 1 := by rw [et, add_comm B]; gcongr
    exact (ENNReal.add_le_add_iff_right ENNReal.one_ne_top).1 this
  have hA : A ≤ 1 := by
    refine le_trans (Finset.sum_le_sum fun i hi' => lintegral_mono_ae ?_) hi
    filter_upwards [hr i hi'] with ω hω
    exact ENNReal.ofReal_le_ofReal (by linarith [Real.log_le_sub_one_of_pos hω])
  refine ⟨le_self_add.trans hle, hA, fun hAB i hi' => ?_⟩
  have hG0 : G = 0 := by
    rw [← hAB] at hle
    have hA' : A ≠ ⊤ := ne_top_of_le_ne_top ENNReal.one_ne_top hA
    have : A + G ≤ A + 0 := by simpa using hle
    simpa using (ENNReal.add_le_add_iff_left hA').1 this
  have hGi := (Finset.sum_eq_zero_iff.1 (hG ▸ hG0 : _ = (0 : ℝ≥0∞))) i hi'
  have m1 : AEMeasurable (fun ω => Real.log (r i ω)) (P i) := Real.measurable_log.comp_aemeasurable (hm i hi')
  have m4 : AEMeasurable (fun ω => ENNReal.ofReal (r i ω - 1 - Real.log (r i ω))) (P i) :=
    (((hm i hi').sub_const 1).sub m1).ennreal_ofReal
  rw [lintegral_eq_zero_iff' m4] at hGi
  filter_upwards [hr i hi', hGi] with ω hω h0
  by_contra hne
  have hlt := Real.log_lt_sub_one_of_pos hω hne
  have : r i ω - 1 - Real.log (r i ω) ≤ 0 := by simpa using h0
  linarith

end Einet
