import Mathlib.MeasureTheory.Measure.Lebesgue.Basic
import Mathlib.LinearAlgebra.Matrix.Block
import Mathlib.LinearAlgebra.Matrix.NonsingularInverse
import Verif.Gumbel
import Verif.Dists
import Verif.EinetLaw

/-!
# Multivariate normal distributions given by a Cholesky factor

`torch.distributions.MultivariateNormal(loc, scale_tril)` computes `log_prob` by solving a triangular system; `sample`
returns `loc + scale_tril @ eps` for independent standard normal `eps`.  Here: the density integrates to one and is the
density of the law of the samples.
-/

open Classical MeasureTheory ProbabilityTheory Matrix
open scoped ENNReal
noncomputable section
namespace Einet

/-- `MultivariateNormal.log_prob` (torch): the squared Mahalanobis distance from the triangular system and half the log
determinant from the diagonal. -/
def mvnLogProb {K : Nat} (mu : Fin K → ℝ) (A : Matrix (Fin K) (Fin K) ℝ) (x : Fin K → ℝ) : ℝ :=
  -(K * Real.log (2 * Real.pi) + ∑ i, ((A⁻¹ *ᵥ (x - mu)) i) ^ 2) / 2 - ∑ i, Real.log (A i i)

/-- a Cholesky factor: lower triangular with positive diagonal. -/
structure LowerPos {K : Nat} (A : Matrix (Fin K) (Fin K) ℝ) : Prop where
  pos : ∀ i, 0 < A i i
  zero : ∀ i j, i < j → A i j = 0

namespace LowerPos

theorem det_eq {K : Nat} {A : Matrix (Fin K) (Fin K) ℝ} (h : LowerPos A) : A.det = ∏ i, A i i :=
  Matrix.det_of_isLowerTriangular A fun i j hij => h.zero i j hij

theorem det_pos {K : Nat} {A : Matrix (Fin K) (Fin K) ℝ} (h : LowerPos A) : 0 < A.det := by
  rw [h.det_eq]
  exact Finset.prod_pos fun i _ => h.pos i

/-- the density of the transformed noise. -/
theorem exp_logProb {K : Nat} {A : Matrix (Fin K) (Fin K) ℝ} (h : LowerPos A) (mu z : Fin K → ℝ) :
    ENNReal.ofReal (Real.exp (mvnLogProb mu A (mu + A *ᵥ z))) =
      ENNReal.ofReal |A.det⁻¹| * ∏ i, gaussianPDF 0 1 (z i) := by
  have hu : IsUnit A.det := isUnit_iff_ne_zero.2 h.det_pos.ne'
  have e : A⁻¹ *ᵥ (mu + A *ᵥ z - mu) = z := by
    rw [add_sub_cancel_left, Matrix.mulVec_mulVec, Matrix.nonsing_inv_mul _ hu, Matrix.one_mulVec]
  unfold mvnLogProb
  rw [e, abs_of_pos (inv_pos.2 h.det_pos), h.det_eq]
  simp only [gaussianPDF]
  rw [← ENNReal.ofReal_prod_of_nonneg fun i _ => gaussianPDFReal_nonneg 0 1 _,
    ← ENNReal.ofReal_mul (inv_nonneg.2 (Finset.prod_nonneg fun i _ => (h.pos i).le))]
  congr 1
  have hpi : (0 : ℝ) < 2 * Real.pi := by positivity
  have hg : ∀ i, gaussianPDFReal 0 1 (z i) = Real.exp (-(Real.log (2 * Real.pi)) / 2 - (z i) ^ 2 / 2) := by
    intro i
    have h1 : -(Real.log (2 * Real.pi)) / 2 = -Real.log √(2 * Real.pi) := by rw [Real.log_sqrt hpi.le]; ring
    rw [gaussianPDFReal, Real.exp_sub, h1, Real.exp_neg, Real.exp_log (Real.sqrt_pos.2 hpi), div_eq_mul_inv (√(2 * Real.pi))⁻¹, ← Real.exp_neg (z i ^ 2 / 2)]
    simp [div_eq_mul_inv]
  simp only [hg]
  rw [← Real.exp_sum, Real.exp_sub, ← Real.log_prod fun i _ => (h.pos i).ne', Real.exp_log (Finset.prod_pos fun i _ => h.pos i),
    div_eq_inv_mul]
  congr 2
  simp only [Finset.sum_sub_distrib, Finset.sum_const, Finset.card_univ, Fintype.card_fin, nsmul_eq_mul, ← Finset.sum_div]
  ring

theorem measurable_affine {K : Nat} (A : Matrix (Fin K) (Fin K) ℝ) (mu : Fin K → ℝ) :
    Measurable fun z : Fin K → ℝ => mu + A *ᵥ z := by
  refine measurable_pi_lambda _ fun i => ?_
  simp only [Pi.add_apply, Matrix.mulVec, dotProduct]
  fun_prop

theorem measurable_logProb {K : Nat} (A : Matrix (Fin K) (Fin K) ℝ) (mu : Fin K → ℝ) :
    Measurable fun x : Fin K → ℝ => mvnLogProb mu A x := by
  unfold mvnLogProb
  simp only [Matrix.mulVec, dotProduct, Pi.sub_apply]
  fun_prop

/-- change of variables. -/
theorem lintegral_affine {K : Nat} {A : Matrix (Fin K) (Fin K) ℝ} (h : LowerPos A) (mu : Fin K → ℝ)
    {f : (Fin K → ℝ) → ℝ≥0∞} (hf : Measurable f) :
    ENNReal.ofReal |A.det⁻¹| * ∫⁻ x, f x = ∫⁻ z, f (mu + A *ᵥ z) := by
  have hA : Measurable (Matrix.toLin' A) := by
    have := measurable_affine A 0
    simp only [zero_add] at this
    exact this
  have h1 := Real.map_matrix_volume_pi_eq_smul_volume_pi h.det_pos.ne'
  have hg : Measurable fun y => f (mu + y) := hf.comp (measurable_const_add mu)
  have h2 : ∫⁻ z, f (mu + A *ᵥ z) = ∫⁻ y, f (mu + y) ∂(Measure.map (Matrix.toLin' A) volume) := by
    rw [lintegral_map hg hA]
    rfl
  rw [h2, h1, lintegral_smul_measure, smul_eq_mul]
  congr 1
  exact (lintegral_add_left_eq_self f mu).symm

/-- the density against a test function is the expectation over standard normal noise. -/
theorem lintegral_density {K : Nat} {A : Matrix (Fin K) (Fin K) ℝ} (h : LowerPos A) (mu : Fin K → ℝ)
    {f : (Fin K → ℝ) → ℝ≥0∞} (hf : Measurable f) :
    ∫⁻ x, f x * ENNReal.ofReal (Real.exp (mvnLogProb mu A x)) =
      ∫⁻ z, f (mu + A *ᵥ z) * ∏ i, gaussianPDF 0 1 (z i) := by
  have hm : Measurable fun x => f x * ENNReal.ofReal (Real.exp (mvnLogProb mu A x)) :=
    hf.mul (measurable_logProb A mu).exp.ennreal_ofReal
  have h1 := h.lintegral_affine mu hm
  have hne : ENNReal.ofReal |A.det⁻¹| ≠ 0 := by
    have := h.det_pos
    simp only [ne_eq, ENNReal.ofReal_eq_zero, not_le]
    exact abs_pos.2 (inv_ne_zero this.ne')
  simp only [h.exp_logProb] at h1
  rw [show (fun z => f (mu + A *ᵥ z) * (ENNReal.ofReal |A.det⁻¹| * ∏ i, gaussianPDF 0 1 (z i))) =
    fun z => ENNReal.ofReal |A.det⁻¹| * (f (mu + A *ᵥ z) * ∏ i, gaussianPDF 0 1 (z i)) by ext z; ring,
    lintegral_const_mul'] at h1
  · exact (ENNReal.mul_right_inj hne ENNReal.ofReal_ne_top).1 h1
  · exact ENNReal.ofReal_ne_top

end LowerPos

/-- a vector as a function on the natural numbers. -/
def extV {K : Nat} (z : Fin K → ℝ) : Nat → ℝ := fun k => if h : k < K then z ⟨k, h⟩ else 0

theorem measurable_extV {K : Nat} : Measurable (extV (K := K)) := by
  refine measurable_pi_lambda _ fun k => ?_
  unfold extV
  split_ifs
  · exact measurable_pi_apply _
  · exact measurable_const

/-- independent draws have the product law. -/
theorem E_drawVec_pi (mu : Measure ℝ) [SigmaFinite mu] (n : Nat) {f : (Nat → ℝ) → ℝ≥0∞} (hf : Measurable f) :
    (drawVec mu n).E f = ∫⁻ z : Fin n → ℝ, f (extV z) ∂(Measure.pi fun _ => mu) := by
  induction n generalizing f with
  | zero =>
    rw [Measure.pi_of_empty, lintegral_dirac]
    simp only [drawVec, Rand.E]
    congr 1
  | succ n ih =>
    rw [drawVec, Rand.E_bind]
    simp only [Rand.E]
    have hu : Measurable fun p : (Nat → ℝ) × ℝ => (fun k => if k = n then p.2 else p.1 k : Nat → ℝ) := by
      refine measurable_pi_lambda _ fun k => ?_
      split_ifs
      · exact measurable_snd
      · exact (measurable_pi_apply k).comp measurable_fst
    have hm : Measurable fun v : Nat → ℝ => ∫⁻ x, f (fun k => if k = n then x else v k) ∂mu :=
      (hf.comp hu).lintegral_prod_right'
    rw [ih hm]
    have mp := (measurePreserving_piFinSuccAbove (fun _ : Fin (n + 1) => mu) (Fin.last n)).symm
    refine Eq.trans ?_ (mp.lintegral_comp (hf.comp measurable_extV))
    have hm2 : Measurable fun p : ℝ × (Fin n → ℝ) =>
        f (extV ((MeasurableEquiv.piFinSuccAbove (fun _ : Fin (n + 1) => ℝ) (Fin.last n)).symm p)) :=
      (hf.comp measurable_extV).comp (MeasurableEquiv.measurable _)
    rw [lintegral_prod_symm _ hm2.aemeasurable]
    refine lintegral_congr fun z => lintegral_congr fun x => ?_
    congr 1
    ext k
    by_cases hk : k < n
    · have h1 : k ≠ n := by omega
      have h2 : k < n + 1 := by omega
      rw [if_neg h1]
      simp only [extV, hk, h2, dif_pos]
      rw [MeasurableEquiv.piFinSuccAbove_symm_apply]
      have := Fin.insertNth_apply_succAbove (α := fun _ => ℝ) (Fin.last n) x z ⟨k, hk⟩
      rw [Fin.succAbove_last] at this
      exact this.symm
    · by_cases hn : k = n
      · subst hn
        rw [if_pos rfl]
        simp only [extV, Nat.lt_succ_self, dif_pos]
        rw [MeasurableEquiv.piFinSuccAbove_symm_apply]
        exact (Fin.insertNth_apply_same (α := fun _ => ℝ) (Fin.last k) x z).symm
      · have h2 : ¬ k < n + 1 := by omega
        rw [if_neg hn]
        simp only [extV, hk, h2, dif_neg, not_false_eq_true]

/-- product of densities. -/
theorem pi_withDensity' {n : Nat} {g : ℝ → ℝ≥0∞} (hg : Measurable g) [SigmaFinite ((volume : Measure ℝ).withDensity g)] :
    (Measure.pi fun _ : Fin n => (volume : Measure ℝ).withDensity g) =
      (volume : Measure (Fin n → ℝ)).withDensity fun z => ∏ i, g (z i) := by
  refine Measure.pi_eq fun s hs => ?_
  rw [withDensity_apply _ (MeasurableSet.univ_pi hs), ← lintegral_indicator (MeasurableSet.univ_pi hs)]
  have e : ∀ z : Fin n → ℝ, (Set.univ.pi s).indicator (fun z => ∏ i, g (z i)) z = ∏ i, (s i).indicator g (z i) := by
    intro z
    by_cases hz : z ∈ Set.univ.pi s
    · rw [Set.indicator_of_mem hz]
      exact Finset.prod_congr rfl fun i _ => (Set.indicator_of_mem (hz i trivial) g).symm
    · rw [Set.indicator_of_notMem hz]
      simp only [Set.mem_pi, Set.mem_univ, true_imp_iff, not_forall] at hz
      obtain ⟨i, hi⟩ := hz
      exact (Finset.prod_eq_zero (Finset.mem_univ i) (Set.indicator_of_notMem hi g)).symm
  simp only [e]
  rw [volume_pi, lintegral_pi_prod (f := fun i => (s i).indicator g) fun i => hg.indicator (hs i)]
  refine Finset.prod_congr rfl fun i _ => ?_
  rw [lintegral_indicator (hs i), withDensity_apply _ (hs i)]

/-- The law of `loc + scale_tril @ eps` has the density `exp(log_prob)`. -/
theorem LowerPos.E_noise {K : Nat} {A : Matrix (Fin K) (Fin K) ℝ} (h : LowerPos A) (mu : Fin K → ℝ)
    {f : (Fin K → ℝ) → ℝ≥0∞} (hf : Measurable f) :
    (drawVec (gaussianReal 0 1) K).E (fun v => f (mu + A *ᵥ fun k => v k)) =
      ∫⁻ x, f x * ENNReal.ofReal (Real.exp (mvnLogProb mu A x)) := by
  have hm : Measurable fun v : Nat → ℝ => f (mu + A *ᵥ fun k : Fin K => v k) :=
    hf.comp ((LowerPos.measurable_affine A mu).comp (measurable_pi_lambda _ fun k => measurable_pi_apply _))
  rw [E_drawVec_pi _ _ hm, h.lintegral_density mu hf]
  have hga : gaussianReal 0 1 = (volume : Measure ℝ).withDensity (gaussianPDF 0 1) := gaussianReal_of_var_ne_zero 0 one_ne_zero
  have : SigmaFinite ((volume : Measure ℝ).withDensity (gaussianPDF 0 1)) := by rw [← hga]; infer_instance
  rw [show (fun _ : Fin K => gaussianReal 0 1) = fun _ => (volume : Measure ℝ).withDensity (gaussianPDF 0 1) by rw [hga],
    pi_withDensity' (measurable_gaussianPDF 0 1)]
  have hmz : Measurable fun z : Fin K → ℝ => ∏ i, gaussianPDF 0 1 (z i) :=
    Finset.measurable_fun_prod _ fun i _ => (measurable_gaussianPDF 0 1).comp (measurable_pi_apply i)
  have hme : Measurable fun z : Fin K → ℝ => f (mu + A *ᵥ fun k : Fin K => extV z k) := hm.comp measurable_extV
  rw [lintegral_withDensity_eq_lintegral_mul _ hmz hme]
  refine lintegral_congr fun z => ?_
  simp only [Pi.mul_apply]
  rw [mul_comm]
  congr 3
  ext k
  simp [extV]

/-- The density integrates to one. -/
theorem LowerPos.integral_one {K : Nat} {A : Matrix (Fin K) (Fin K) ℝ} (h : LowerPos A) (mu : Fin K → ℝ) :
    ∫⁻ x, ENNReal.ofReal (Real.exp (mvnLogProb mu A x)) = 1 := by
  have h1 := h.E_noise mu (f := fun _ => 1) measurable_const
  simp only [one_mul] at h1
  rw [← h1, E_drawVec_pi _ _ measurable_const]
  simp

/-- splitting `B * K` coordinates into blocks. -/
theorem lintegral_blocks {B K : Nat} (μ : Nat → Measure ℝ) [∀ i, SigmaFinite (μ i)] {f : (Fin (B * K) → ℝ) → ℝ≥0∞}
    (hf : Measurable f) :
    ∫⁻ x, f x ∂(Measure.pi fun i : Fin _ => μ i) =
      ∫⁻ y : Fin B → Fin K → ℝ, f (fun i => y (finProdFinEquiv.symm i).1 (finProdFinEquiv.symm i).2)
        ∂(Measure.pi fun b : Fin B => Measure.pi fun k : Fin K => μ (b * K + k)) := by
  have hmu : Measurable fun y : Fin B → Fin K → ℝ => (fun i => y (finProdFinEquiv.symm i).1 (finProdFinEquiv.symm i).2 :
      Fin (B * K) → ℝ) := by
    refine measurable_pi_lambda _ fun i => ?_
    exact (measurable_pi_apply _).comp (measurable_pi_apply _)
  rw [← lintegral_map hf hmu]
  congr 1
  refine Measure.pi_eq fun s hs => ?_
  rw [Measure.map_apply hmu (MeasurableSet.univ_pi hs)]
  have e : (fun y : Fin B → Fin K → ℝ => (fun i => y (finProdFinEquiv.symm i).1 (finProdFinEquiv.symm i).2 :
      Fin (B * K) → ℝ)) ⁻¹' Set.univ.pi s = Set.univ.pi fun b => Set.univ.pi fun k => s (finProdFinEquiv (b, k)) := by
    ext y
    simp only [Set.mem_preimage, Set.mem_pi, Set.mem_univ, true_imp_iff]
    constructor
    · intro h b k
      have := h (finProdFinEquiv (b, k))
      simpa using this
    · intro h i
      have := h (finProdFinEquiv.symm i).1 (finProdFinEquiv.symm i).2
      rwa [Prod.mk.eta, Equiv.apply_symm_apply] at this
  rw [e, Measure.pi_pi]
  simp only [Measure.pi_pi]
  rw [← Fintype.prod_prod_type' (f := fun (b : Fin B) (k : Fin K) => μ (b * K + k) (s (finProdFinEquiv (b, k))))]
  refine Fintype.prod_equiv finProdFinEquiv _ _ fun p => ?_
  have hv : ((finProdFinEquiv p : Fin (B * K)) : Nat) = p.1 * K + p.2 := by
    rw [finProdFinEquiv_apply_val]; ring
  rw [hv]

/-- integral of a product over blocks. -/
theorem lintegral_block_prod {B K F : Nat} (hF : B * K = F) (μ : Nat → Measure ℝ) [∀ i, SigmaFinite (μ i)]
    {h : Nat → (Fin K → ℝ) → ℝ≥0∞} (hm : ∀ b, Measurable (h b)) :
    ∫⁻ x : Fin F → ℝ, ∏ b ∈ Finset.range B, h b (fun k : Fin K => extV x (b * K + k)) ∂(Measure.pi fun i : Fin _ => μ i) =
      ∏ b ∈ Finset.range B, ∫⁻ v, h b v ∂(Measure.pi fun k : Fin K => μ (b * K + k)) := by
  subst hF
  have hmm : Measurable fun x : Fin (B * K) → ℝ => ∏ b ∈ Finset.range B, h b (fun k : Fin K => extV x (b * K + k)) :=
    Finset.measurable_fun_prod _ fun b _ => (hm b).comp
      (measurable_pi_lambda _ fun k => (measurable_pi_apply (b * K + (k : Nat))).comp (measurable_extV (K := B * K)))
  rw [lintegral_blocks μ hmm, ← Fin.prod_univ_eq_prod_range (fun b => ∫⁻ v, h b v ∂(Measure.pi fun k : Fin K => μ (b * K + k))),
    ← lintegral_pi_prod (f := fun b : Fin B => h b) fun b => hm b]
  refine lintegral_congr fun y => ?_
  rw [← Fin.prod_univ_eq_prod_range (fun b => h b _)]
  refine Finset.prod_congr rfl fun b _ => ?_
  congr 1
  ext k
  have hlt : (b : Nat) * K + k < B * K := by
    calc (b : Nat) * K + k < b * K + K := by omega
      _ = (b + 1) * K := by ring
      _ ≤ _ := Nat.mul_le_mul_right _ b.2
  have e : finProdFinEquiv (b, k) = ⟨(b : Nat) * K + k, hlt⟩ := by
    ext
    rw [finProdFinEquiv_apply_val]; ring
  simp only [extV, hlt, dif_pos]
  rw [← e, Equiv.symm_apply_apply]

/-- products of point masses. -/
theorem lintegral_pi_dirac {K : Nat} (a : Fin K → ℝ) {f : (Fin K → ℝ) → ℝ≥0∞} (hf : Measurable f) :
    ∫⁻ v, f v ∂(Measure.pi fun k => Measure.dirac (a k)) = f a := by
  have e : (Measure.pi fun k => Measure.dirac (a k)) = Measure.dirac a := by
    refine Measure.pi_eq fun s hs => ?_
    rw [Measure.dirac_apply' _ (MeasurableSet.univ_pi hs)]
    simp only [Measure.dirac_apply' _ (hs _)]
    by_cases ha : a ∈ Set.univ.pi s
    · rw [Set.indicator_of_mem ha]
      exact (Finset.prod_eq_one fun i _ => Set.indicator_of_mem (ha i trivial) _).symm
    · rw [Set.indicator_of_notMem ha]
      simp only [Set.mem_pi, Set.mem_univ, true_imp_iff, not_forall] at ha
      obtain ⟨i, hi⟩ := ha
      exact (Finset.prod_eq_zero (Finset.mem_univ i) (Set.indicator_of_notMem hi _)).symm
  rw [e, lintegral_dirac' _ hf]

/-- integral over data of a product over channels and blocks. -/
theorem lintegral_block_data {C B K F : Nat} (hF : B * K = F) (μ : Nat → Nat → Measure ℝ) [∀ c i, SigmaFinite (μ c i)]
    {h : Nat → Nat → (Fin K → ℝ) → ℝ≥0∞} (hm : ∀ c b, Measurable (h c b)) :
    ∫⁻ ω : Pt C F, ∏ b ∈ Finset.range B, ∏ c ∈ Finset.range C, h c b (fun k : Fin K => (ω.data c (b * K + k)).val)
        ∂(Measure.pi fun c : Fin C => Measure.pi fun i : Fin F => μ c i) =
      ∏ b ∈ Finset.range B, ∏ c ∈ Finset.range C, ∫⁻ v, h c b v ∂(Measure.pi fun k : Fin K => μ c (b * K + k)) := by
  rw [Finset.prod_comm, ← Fin.prod_univ_eq_prod_range
    (fun c => ∏ b ∈ Finset.range B, ∫⁻ v, h c b v ∂(Measure.pi fun k : Fin K => μ c (b * K + k)))]
  have hmm : ∀ c, Measurable fun x : Fin F → ℝ => ∏ b ∈ Finset.range B, h c b (fun k : Fin K => extV x (b * K + k)) := fun c =>
    Finset.measurable_fun_prod _ fun b _ => (hm c b).comp
      (measurable_pi_lambda _ fun k => (measurable_pi_apply (b * K + (k : Nat))).comp (measurable_extV (K := F)))
  rw [Finset.prod_congr rfl fun (c : Fin C) _ => (lintegral_block_prod hF (μ c) (hm c)).symm,
    ← lintegral_pi_prod (f := fun (c : Fin C) (x : Fin F → ℝ) =>
      ∏ b ∈ Finset.range B, h c b (fun k : Fin K => extV x (b * K + k))) fun c => hmm c]
  refine lintegral_congr fun ω => ?_
  rw [Finset.prod_comm, ← Fin.prod_univ_eq_prod_range (fun c => ∏ b ∈ Finset.range B, h c b _)]
  refine Finset.prod_congr rfl fun c _ => Finset.prod_congr rfl fun b hb => ?_
  congr 1
  ext k
  have hb' : b < B := by simpa using hb
  have hlt : b * K + k < F := by
    rw [← hF]
    calc b * K + k < b * K + K := by omega
      _ = (b + 1) * K := by ring
      _ ≤ _ := Nat.mul_le_mul_right _ hb'
  rw [Pt.data_eq ω c.2 hlt]
  simp [extV, hlt, Fl.val]

end Einet
