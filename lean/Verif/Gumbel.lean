import Verif.Prob
import Mathlib.MeasureTheory.Function.Jacobian
import Mathlib.MeasureTheory.Integral.IntegralEqImproper
import Mathlib.Analysis.SpecialFunctions.Log.Deriv

/-!
# Gumbel noise and the Gumbel-max law

`sample_gumbel` (simple_einet/sampling_utils.py:151-164) and the law of the largest entry of `weights + noise`.
-/

open Classical MeasureTheory Set
open scoped ENNReal
noncomputable section
namespace Einet

/-- `sample_gumbel` for one entry (sampling_utils.py:162-164): `-log(-log(U + eps) + eps)`, computed with the operations of
`torch` on the value `u` of `torch.rand`. -/
def gumbelFn (eps u : ℝ) : Fl := -(Fl.log (-(Fl.log (.fin (u + eps))) + .fin eps))

/-- the same as a real number. -/
def gumbelVal (eps u : ℝ) : ℝ := -Real.log (-Real.log (u + eps) + eps)

/-- the law of an entry of `sample_gumbel`: `U` is uniform on `[0, 1)`. -/
def gumbelM (eps : ℝ) : Measure ℝ := (volume.restrict (Ico (0 : ℝ) 1)).map (gumbelVal eps)

/-- density of `w + g` for a standard Gumbel variable `g`, with `r = exp w`. -/
def gumbelD (r x : ℝ) : ℝ := r * Real.exp (-x) * Real.exp (-(r * Real.exp (-x)))

/-- the standard Gumbel law. -/
def gumbel0 : Measure ℝ := volume.withDensity fun x => ENNReal.ofReal (gumbelD 1 x)

theorem gumbel_arg_pos {eps u : ℝ} (he : 0 < eps) (hu : u ∈ Ico (0 : ℝ) 1) : 0 < -Real.log (u + eps) + eps := by
  have h0 : 0 < u + eps := by have := hu.1; linarith
  have := Real.log_lt_sub_one_of_pos h0
  by_cases h1 : u + eps = 1
  · rw [h1]; simpa using he
  · have := Real.log_lt_sub_one_of_pos h0 h1
    have := hu.2
    linarith

/-- for a positive `eps` the noise is a finite number, whatever `torch.rand` returns. -/
theorem gumbelFn_eq {eps u : ℝ} (he : 0 < eps) (hu : u ∈ Ico (0 : ℝ) 1) : gumbelFn eps u = .fin (gumbelVal eps u) := by
  have h0 : 0 < u + eps := by have := hu.1; linarith
  unfold gumbelFn gumbelVal
  rw [Fl.log_fin h0]
  show -(Fl.log (Fl.fin (-Real.log (u + eps) + eps))) = _
  rw [Fl.log_fin (gumbel_arg_pos he hu)]
  rfl

theorem gumbelVal_measurable (eps : ℝ) : Measurable (gumbelVal eps) := by
  unfold gumbelVal
  fun_prop

theorem gumbelD_measurable (r : ℝ) : Measurable (gumbelD r) := by
  unfold gumbelD
  fun_prop

theorem gumbelD_nonneg {r : ℝ} (hr : 0 ≤ r) (x : ℝ) : 0 ≤ gumbelD r x := by
  unfold gumbelD
  positivity

/-- inverse of `gumbelVal`. -/
def gumbelInv (eps x : ℝ) : ℝ := Real.exp (eps - Real.exp (-x)) - eps

theorem gumbelVal_inv (eps x : ℝ) : gumbelVal eps (gumbelInv eps x) = x := by
  simp [gumbelVal, gumbelInv]

theorem gumbelInv_val {eps u : ℝ} (he : 0 ≤ eps) (hu : u ∈ Ioo (0 : ℝ) 1) : gumbelInv eps (gumbelVal eps u) = u := by
  have h0 : 0 < u + eps := by have := hu.1; linarith
  have hp : 0 < -Real.log (u + eps) + eps := by
    rcases he.eq_or_lt with h | h
    · rw [← h]; have := Real.log_neg hu.1 hu.2; simpa using this
    · exact gumbel_arg_pos h ⟨hu.1.le, hu.2⟩
  simp [gumbelVal, gumbelInv, Real.exp_log hp, Real.exp_log h0]

theorem gumbelInv_deriv (eps x : ℝ) :
    HasDerivAt (gumbelInv eps) (Real.exp (-x) * Real.exp (eps - Real.exp (-x))) x := by
  have h1 : HasDerivAt (fun x : ℝ => Real.exp (-x)) (-Real.exp (-x)) x := by
    simpa using (hasDerivAt_neg x).exp
  have h2 : HasDerivAt (fun x : ℝ => eps - Real.exp (-x)) (Real.exp (-x)) x := by
    simpa using h1.const_sub eps
  have h3 := (h2.exp).sub_const eps
  rw [mul_comm]
  exact h3

theorem lintegral_gumbelM {eps : ℝ} (he : 0 ≤ eps) {f : ℝ → ℝ≥0∞} (hf : Measurable f) :
    ∫⁻ x, f x ∂gumbelM eps ≤ ENNReal.ofReal (Real.exp eps) * ∫⁻ x, f x ∂gumbel0 := by
  have hinj : Set.InjOn (gumbelInv eps) univ := fun a _ b _ h => by
    have := congrArg (gumbelVal eps) h
    simpa [gumbelVal_inv] using this
  have hcv := lintegral_image_eq_lintegral_abs_deriv_mul (s := univ) MeasurableSet.univ
    (fun x _ => (gumbelInv_deriv eps x).hasDerivWithinAt) hinj fun u => f (gumbelVal eps u)
  have hsub : Ioo (0 : ℝ) 1 ⊆ gumbelInv eps '' univ := fun u hu => ⟨_, trivial, gumbelInv_val he hu⟩
  unfold gumbelM gumbel0
  rw [lintegral_map hf (gumbelVal_measurable eps), lintegral_withDensity_eq_lintegral_mul _
    (gumbelD_measurable 1).ennreal_ofReal hf, ← lintegral_const_mul _
    ((gumbelD_measurable 1).ennreal_ofReal.mul hf)]
  rw [restrict_Ico_eq_restrict_Ioc, ← restrict_Ioo_eq_restrict_Ioc]
  refine (lintegral_mono_set hsub).trans ?_
  rw [hcv]
  simp only [Measure.restrict_univ, gumbelVal_inv, Pi.mul_apply]
  refine lintegral_mono fun x => ?_
  rw [← mul_assoc]
  gcongr
  rw [← ENNReal.ofReal_mul (Real.exp_pos _).le]
  refine ENNReal.ofReal_le_ofReal ?_
  rw [abs_of_nonneg (by positivity), gumbelD, sub_eq_add_neg, Real.exp_add]
  refine le_of_eq ?_
  ring_nf

/-- the noise of the code has at most `exp eps` times the probability of standard Gumbel noise. -/
theorem gumbelM_le {eps : ℝ} (he : 0 ≤ eps) : gumbelM eps ≤ ENNReal.ofReal (Real.exp eps) • gumbel0 := by
  refine Measure.le_iff.2 fun s hs => ?_
  have := lintegral_gumbelM he (measurable_const.indicator hs : Measurable (s.indicator fun _ => (1 : ℝ≥0∞)))
  rw [lintegral_indicator hs, lintegral_indicator hs] at this
  simpa using this

/-! ### The largest of several Gumbel variables -/

/-- distribution function of `w + g`, `r = exp w`. -/
theorem gumbel_cdf {r : ℝ} (hr : 0 < r) (x : ℝ) :
    ∫⁻ y in Iio x, ENNReal.ofReal (gumbelD r y) = ENNReal.ofReal (Real.exp (-(r * Real.exp (-x)))) := by
  have hd : ∀ y, HasDerivAt (fun y : ℝ => Real.exp (-(r * Real.exp (-y)))) (gumbelD r y) y := by
    intro y
    have h1 : HasDerivAt (fun x : ℝ => Real.exp (-x)) (-Real.exp (-y)) y := by simpa using (hasDerivAt_neg y).exp
    have h2 : HasDerivAt (fun x : ℝ => -(r * Real.exp (-x))) (r * Real.exp (-y)) y := by
      have := h1.const_mul (-r)
      simp only [neg_mul, mul_neg, neg_neg] at this
      exact this
    have h3 := h2.exp
    rw [gumbelD, mul_comm]
    exact h3
  have hmono : StrictMono fun y : ℝ => Real.exp (-(r * Real.exp (-y))) := by
    intro a b hab
    simp only [Real.exp_lt_exp]
    have : Real.exp (-b) < Real.exp (-a) := Real.exp_lt_exp.2 (by linarith)
    nlinarith
  have hcv := lintegral_image_eq_lintegral_abs_deriv_mul (s := Iio x) measurableSet_Iio
    (fun y _ => (hd y).hasDerivWithinAt) hmono.injective.injOn fun _ => 1
  have him : (fun y : ℝ => Real.exp (-(r * Real.exp (-y)))) '' Iio x = Ioo 0 (Real.exp (-(r * Real.exp (-x)))) := by
    ext v
    constructor
    · rintro ⟨y, hy, rfl⟩
      exact ⟨Real.exp_pos _, hmono hy⟩
    · rintro ⟨h0, h1⟩
      have hv1 : v < 1 := h1.trans (Real.exp_lt_one_iff.2 (by have := Real.exp_pos (-x); nlinarith))
      have hl : 0 < -Real.log v / r := div_pos (by have := Real.log_neg h0 hv1; linarith) hr
      have e : Real.exp (-(r * Real.exp (- -Real.log (-Real.log v / r)))) = v := by
        rw [neg_neg, Real.exp_log hl]
        field_simp
        rw [Real.exp_log h0]
      refine ⟨-Real.log (-Real.log v / r), ?_, e⟩
      rw [mem_Iio, ← hmono.lt_iff_lt]
      show Real.exp (-(r * Real.exp (- -Real.log (-Real.log v / r)))) < _
      rw [e]; exact h1
  rw [him] at hcv
  simp only [mul_one, lintegral_const, Measure.restrict_apply MeasurableSet.univ, univ_inter, one_mul, Real.volume_Ioo,
    sub_zero] at hcv
  rw [hcv]
  refine lintegral_congr fun y => ?_
  rw [abs_of_nonneg (gumbelD_nonneg hr.le y)]

theorem lintegral_gumbel0_add {f : ℝ → ℝ≥0∞} (hf : Measurable f) (w : ℝ) :
    ∫⁻ y, f (w + y) ∂gumbel0 = ∫⁻ x, ENNReal.ofReal (gumbelD (Real.exp w) x) * f x := by
  unfold gumbel0
  have hf' : Measurable fun y => f (w + y) := hf.comp (measurable_const_add w)
  rw [lintegral_withDensity_eq_lintegral_mul _ (gumbelD_measurable 1).ennreal_ofReal hf',
    ← lintegral_add_left_eq_self (fun x => ENNReal.ofReal (gumbelD (Real.exp w) x) * f x) w]
  refine lintegral_congr fun y => ?_
  have : gumbelD (Real.exp w) (w + y) = gumbelD 1 y := by
    unfold gumbelD
    have : Real.exp w * Real.exp (-(w + y)) = Real.exp (-y) := by rw [← Real.exp_add]; ring_nf
    rw [this]; ring_nf
  simp [this]

instance gumbel0_prob : IsProbabilityMeasure gumbel0 := by
  constructor
  have hlim : ∀ x : ℝ, ENNReal.ofReal (Real.exp (-(Real.exp (-x)))) = gumbel0 (Iio x) := by
    intro x
    rw [gumbel0, withDensity_apply _ measurableSet_Iio, gumbel_cdf one_pos, one_mul]
  have hU : (⋃ n : ℕ, Iio (n : ℝ)) = univ := by
    ext x
    simp only [mem_iUnion, mem_Iio, mem_univ, iff_true]
    exact exists_nat_gt x
  have h1 := tendsto_measure_iUnion_atTop (μ := gumbel0) (s := fun n : ℕ => Iio (n : ℝ))
    (fun a b h => Iio_subset_Iio (by exact_mod_cast h))
  rw [hU] at h1
  have h2 : Filter.Tendsto (fun n : ℕ => ENNReal.ofReal (Real.exp (-(Real.exp (-(n : ℝ)))))) Filter.atTop (nhds 1) := by
    have : Filter.Tendsto (fun x : ℝ => Real.exp (-(Real.exp (-x)))) Filter.atTop (nhds (Real.exp (-0))) :=
      (Real.continuous_exp.tendsto _).comp ((Real.tendsto_exp_neg_atTop_nhds_zero).neg)
    have h3 := ENNReal.tendsto_ofReal (this.comp tendsto_natCast_atTop_atTop)
    simpa using h3
  refine tendsto_nhds_unique h1 (h2.congr fun n => ?_)
  simp [hlim]

/-- `n` independent numbers. -/
def drawVec (μ : Measure ℝ) : Nat → Rand (Nat → ℝ)
  | 0 => .pure fun _ => 0
  | n + 1 => (drawVec μ n).bind fun v => .leaf μ fun x => .pure fun k => if k = n then x else v k

/-- the joint law of the position and the value of the largest of `w k + g k`. -/
theorem E_drawVec_max (w : Nat → ℝ) (n : Nat) {h : Nat → ℝ → ℝ≥0∞} (hm : ∀ j, Measurable (h j)) :
    (drawVec gumbel0 (n + 1)).E (fun v =>
      h (Fl.argmaxN (n + 1) fun k => .fin (w k + v k))
        (w (Fl.argmaxN (n + 1) fun k => .fin (w k + v k)) + v (Fl.argmaxN (n + 1) fun k => .fin (w k + v k)))) =
    ∫⁻ x, ∑ j ∈ Finset.range (n + 1), ENNReal.ofReal (Real.exp (w j) * Real.exp (-x) *
      Real.exp (-((∑ i ∈ Finset.range (n + 1), Real.exp (w i)) * Real.exp (-x)))) * h j x := by
  induction n generalizing h with
  | zero =>
    simp only [drawVec, Rand.pure_bind, Rand.E, Fl.argmaxN]
    have e := lintegral_gumbel0_add (hm 0) (w 0)
    simp only [gumbelD] at e
    simpa using e
  | succ n ih =>
    set R := ∑ i ∈ Finset.range (n + 1), Real.exp (w i) with hR
    have hRpos : 0 < R := Finset.sum_pos (fun i _ => Real.exp_pos _) ⟨0, by simp⟩
    set r := Real.exp (w (n + 1)) with hr
    have hrpos : 0 < r := Real.exp_pos _
    -- the last draw
    let g : Nat → ℝ → ℝ → ℝ≥0∞ := fun j x y => if x < y then h (n + 1) y else h j x
    let h' : Nat → ℝ → ℝ≥0∞ := fun j x => ∫⁻ y, g j x (w (n + 1) + y) ∂gumbel0
    have hgm : ∀ j, Measurable fun p : ℝ × ℝ => g j p.1 p.2 := fun j =>
      Measurable.ite (measurableSet_lt measurable_fst measurable_snd) ((hm _).comp measurable_snd)
        ((hm j).comp measurable_fst)
    have hm' : ∀ j, Measurable (h' j) := fun j => by
      have h1 : Measurable fun p : ℝ × ℝ => g j p.1 (w (n + 1) + p.2) :=
        (hgm j).comp (measurable_fst.prodMk (measurable_const.add measurable_snd))
      exact h1.lintegral_prod_right'
    have step : (drawVec gumbel0 (n + 1 + 1)).E (fun v =>
        h (Fl.argmaxN (n + 1 + 1) fun k => .fin (w k + v k))
          (w (Fl.argmaxN (n + 1 + 1) fun k => .fin (w k + v k)) +
            v (Fl.argmaxN (n + 1 + 1) fun k => .fin (w k + v k)))) =
        (drawVec gumbel0 (n + 1)).E (fun v =>
          h' (Fl.argmaxN (n + 1) fun k => .fin (w k + v k))
            (w (Fl.argmaxN (n + 1) fun k => .fin (w k + v k)) +
              v (Fl.argmaxN (n + 1) fun k => .fin (w k + v k)))) := by
      conv_lhs => rw [drawVec]
      rw [Rand.E_bind]
      congr 1
      funext v
      simp only [Rand.E]
      refine lintegral_congr fun y => ?_
      have ea : (Fl.argmaxN (n + 1) fun k => Fl.fin (w k + if k = n + 1 then y else v k)) =
          Fl.argmaxN (n + 1) fun k => .fin (w k + v k) :=
        Fl.argmaxN_congr fun i hi => by rw [if_neg (by omega)]
      have hlt := Fl.argmaxN_lt (n := n + 1) (by omega) fun k => Fl.fin (w k + v k)
      show h (Fl.argmaxN (n + 1 + 1) _) _ = _
      have eb : (Fl.argmaxN (n + 1 + 1) fun k => Fl.fin (w k + if k = n + 1 then y else v k)) =
          if w (Fl.argmaxN (n + 1) fun k => .fin (w k + v k)) + v (Fl.argmaxN (n + 1) fun k => .fin (w k + v k))
            < w (n + 1) + y then n + 1 else Fl.argmaxN (n + 1) fun k => .fin (w k + v k) := by
        rw [Fl.argmaxN]
        simp only [ea, Fl.better_fin, if_true]
        rw [if_neg (by omega : ¬ (Fl.argmaxN (n + 1) fun k => Fl.fin (w k + v k)) = n + 1)]
      rw [eb]
      show _ = g _ _ (w (n + 1) + y)
      simp only [g]
      split_ifs with hc h2 h2
      · simp
      · simp at h2
      · omega
      · rfl
    rw [step, ih hm', Finset.sum_range_succ (n := n + 1)]
    -- value of the last draw
    have hh' : ∀ j x, h' j x = (∫⁻ y in Ioi x, ENNReal.ofReal (gumbelD r y) * h (n + 1) y) +
        ENNReal.ofReal (Real.exp (-(r * Real.exp (-x)))) * h j x := by
      intro j x
      show ∫⁻ y, g j x (w (n + 1) + y) ∂gumbel0 = _
      have hgx : Measurable (g j x) := (hgm j).comp (measurable_const.prodMk measurable_id)
      rw [lintegral_gumbel0_add hgx]
      have e1 : ∀ y, ENNReal.ofReal (gumbelD (Real.exp (w (n + 1))) y) * g j x y =
          (Ioi x).indicator (fun y => ENNReal.ofReal (gumbelD r y) * h (n + 1) y) y +
          (Iic x).indicator (fun y => ENNReal.ofReal (gumbelD r y) * h j x) y := by
        intro y
        by_cases hxy : x < y
        · simp [g, hxy, not_le.2 hxy, hr]
        · simp [g, hxy, not_lt.1 hxy, hr]
      simp only [e1]
      have hB : Measurable fun y => ENNReal.ofReal (gumbelD r y) * h (n + 1) y :=
        (gumbelD_measurable r).ennreal_ofReal.mul (hm _)
      rw [lintegral_add_left (hB.indicator measurableSet_Ioi),
        lintegral_indicator measurableSet_Ioi, lintegral_indicator measurableSet_Iic,
        lintegral_mul_const _ (gumbelD_measurable r).ennreal_ofReal, ← restrict_Iio_eq_restrict_Iic, gumbel_cdf hrpos]
    have hA : Measurable fun x => ENNReal.ofReal (gumbelD R x) := (gumbelD_measurable R).ennreal_ofReal
    have hexp : ∀ x : ℝ, Real.exp (-(R * Real.exp (-x))) * Real.exp (-(r * Real.exp (-x))) =
        Real.exp (-((R + r) * Real.exp (-x))) := by
      intro x
      rw [← Real.exp_add]
      congr 1
      ring
    -- the first draws
    have hterm : ∀ x, ∑ j ∈ Finset.range (n + 1), ENNReal.ofReal (Real.exp (w j) * Real.exp (-x) *
          Real.exp (-(R * Real.exp (-x)))) * h' j x =
        ENNReal.ofReal (gumbelD R x) * (∫⁻ y in Ioi x, ENNReal.ofReal (gumbelD r y) * h (n + 1) y) +
        ∑ j ∈ Finset.range (n + 1), ENNReal.ofReal (Real.exp (w j) * Real.exp (-x) *
          Real.exp (-((R + r) * Real.exp (-x)))) * h j x := by
      intro x
      simp only [hh', mul_add, Finset.sum_add_distrib]
      congr 1
      · rw [← Finset.sum_mul, ← ENNReal.ofReal_sum_of_nonneg (fun i _ => by positivity)]
        congr 2
        rw [gumbelD, hR, Finset.sum_mul, Finset.sum_mul]
      · refine Finset.sum_congr rfl fun j _ => ?_
        rw [← mul_assoc, ← ENNReal.ofReal_mul (by positivity), mul_assoc (Real.exp (w j) * Real.exp (-x)), hexp]
    simp only [← hR] at *
    simp only [hterm]
    have hmsum : Measurable fun x => ∑ j ∈ Finset.range (n + 1), ENNReal.ofReal (Real.exp (w j) * Real.exp (-x) *
          Real.exp (-((R + r) * Real.exp (-x)))) * h j x :=
      Finset.measurable_fun_sum _ fun j _ => (Measurable.ennreal_ofReal (by fun_prop)).mul (hm j)
    have hswap : ∫⁻ x, ENNReal.ofReal (gumbelD R x) * (∫⁻ y in Ioi x, ENNReal.ofReal (gumbelD r y) * h (n + 1) y) =
        ∫⁻ y, ENNReal.ofReal (r * Real.exp (-y) * Real.exp (-((R + r) * Real.exp (-y)))) * h (n + 1) y := by
      have hB : Measurable fun y => ENNReal.ofReal (gumbelD r y) * h (n + 1) y :=
        (gumbelD_measurable r).ennreal_ofReal.mul (hm _)
      have e2 : ∀ x, ENNReal.ofReal (gumbelD R x) * (∫⁻ y in Ioi x, ENNReal.ofReal (gumbelD r y) * h (n + 1) y) =
          ∫⁻ y, if x < y then ENNReal.ofReal (gumbelD R x) * (ENNReal.ofReal (gumbelD r y) * h (n + 1) y) else 0 := by
        intro x
        rw [← lintegral_const_mul _ hB, ← lintegral_indicator measurableSet_Ioi]
        rfl
      simp only [e2]
      rw [lintegral_lintegral_swap]
      · refine lintegral_congr fun y => ?_
        have e3 : ∀ x, (if x < y then ENNReal.ofReal (gumbelD R x) * (ENNReal.ofReal (gumbelD r y) * h (n + 1) y) else 0) =
            (Iio y).indicator (fun x => ENNReal.ofReal (gumbelD R x) * (ENNReal.ofReal (gumbelD r y) * h (n + 1) y)) x :=
          fun x => rfl
        simp only [e3]
        rw [lintegral_indicator measurableSet_Iio, lintegral_mul_const _ hA, gumbel_cdf hRpos, ← mul_assoc,
          ← ENNReal.ofReal_mul (Real.exp_pos _).le, gumbelD]
        rw [mul_left_comm, hexp]
      · exact (Measurable.ite (measurableSet_lt measurable_fst measurable_snd)
          ((hA.comp measurable_fst).mul (hB.comp measurable_snd)) measurable_const).aemeasurable
    have hB' : Measurable fun y => ENNReal.ofReal (r * Real.exp (-y) * Real.exp (-((R + r) * Real.exp (-y)))) * h (n + 1) y :=
      (Measurable.ennreal_ofReal (by fun_prop)).mul (hm _)
    rw [lintegral_add_right _ hmsum, hswap, ← lintegral_add_left hB']
    refine lintegral_congr fun x => ?_
    rw [Finset.sum_range_succ (n := n + 1), add_comm]

theorem lintegral_gumbelD {R : ℝ} (hR : 0 < R) : ∫⁻ x, ENNReal.ofReal (gumbelD R x) = 1 := by
  have e := lintegral_gumbel0_add (f := fun _ => 1) measurable_const (Real.log R)
  simp only [lintegral_const, measure_univ, mul_one, Real.exp_log hR] at e
  exact e.symm

/-- **Gumbel-max law**: the position of the largest entry of `w + g` has the probabilities `softmax(w)`. -/
theorem E_drawVec_argmax {w : Nat → Fl} {n : Nat} (hn : 0 < n) (hw : ∀ k, k < n → (w k).IsFin) (f : Nat → ℝ≥0∞) :
    (drawVec gumbel0 n).E (fun v => f (Fl.argmaxN n fun k => w k + .fin (v k))) =
      ∑ j ∈ Finset.range n, toP (Fl.logSoftmax n w j) * f j := by
  obtain ⟨m, rfl⟩ : ∃ m, n = m + 1 := ⟨n - 1, by omega⟩
  set u : Nat → ℝ := fun k => (w k).val with hu
  have hwu : ∀ k, k < m + 1 → w k = .fin (u k) := fun k hk => (hw k hk).eq
  have e0 : ∀ v : Nat → ℝ, (Fl.argmaxN (m + 1) fun k => w k + .fin (v k)) = Fl.argmaxN (m + 1) fun k => .fin (u k + v k) :=
    fun v => Fl.argmaxN_congr fun i hi => by rw [hwu i hi]; rfl
  simp only [e0]
  have hms : ∀ j, Measurable fun x : ℝ => ENNReal.ofReal (Real.exp (u j) * Real.exp (-x) *
      Real.exp (-((∑ i ∈ Finset.range (m + 1), Real.exp (u i)) * Real.exp (-x)))) * f j := fun j =>
    (Measurable.ennreal_ofReal (by fun_prop)).mul measurable_const
  rw [E_drawVec_max u m (h := fun j _ => f j) fun j => measurable_const, lintegral_finsetSum _ fun j _ => hms j]
  refine Finset.sum_congr rfl fun j hj => ?_
  have hjm : j < m + 1 := by simpa using hj
  have hRpos : 0 < ∑ i ∈ Finset.range (m + 1), Real.exp (u i) := Finset.sum_pos (fun i _ => Real.exp_pos _) ⟨0, by simp⟩
  rw [lintegral_mul_const _ (Measurable.ennreal_ofReal (by fun_prop))]
  congr 1
  have e1 : ∀ x, ENNReal.ofReal (Real.exp (u j) * Real.exp (-x) *
      Real.exp (-((∑ i ∈ Finset.range (m + 1), Real.exp (u i)) * Real.exp (-x)))) =
      ENNReal.ofReal (Real.exp (u j) / ∑ i ∈ Finset.range (m + 1), Real.exp (u i)) *
        ENNReal.ofReal (gumbelD (∑ i ∈ Finset.range (m + 1), Real.exp (u i)) x) := by
    intro x
    rw [← ENNReal.ofReal_mul (by positivity), gumbelD]
    congr 1
    field_simp
  simp only [e1]
  rw [lintegral_const_mul _ (gumbelD_measurable _).ennreal_ofReal, lintegral_gumbelD hRpos, mul_one,
    Fl.logSoftmax_eq_fin hwu hjm]
  show _ = ENNReal.ofReal (Real.exp (Fl.rlsm (m + 1) u j))
  rw [Fl.exp_rlsm (by omega)]

/-! ### Domination -/

theorem Rand.E_const_mul {α : Type} (x : Rand α) (f : α → ℝ≥0∞) {c : ℝ≥0∞} (hc : c ≠ ⊤) :
    x.E (fun a => c * f a) = c * x.E f := by
  induction x with
  | pure a => rfl
  | fail e => simp [Rand.E]
  | draw K w k ih =>
    simp only [Rand.E, ih, Finset.mul_sum]
    exact Finset.sum_congr rfl fun j _ => mul_left_comm _ _ _
  | leaf μ k ih =>
    simp only [Rand.E, ih]
    exact lintegral_const_mul' _ _ hc

/-- a constant added to a function adds at most that constant to its expectation. -/
def Rand.Near {α : Type} (P : α → Prop) (x : Rand α) : Prop :=
  ∀ (f f' : α → ℝ≥0∞) (t : ℝ≥0∞), (∀ a, P a → f a ≤ f' a + t) → x.E f ≤ x.E f' + t

theorem Rand.E_zero {α : Type} (x : Rand α) : x.E (fun _ => 0) = 0 := by
  have := x.E_const_mul (fun _ => 0) (c := 0) ENNReal.zero_ne_top
  simpa using this

theorem Rand.E_mono {α : Type} {x : Rand α} {f g : α → ℝ≥0∞} (h : ∀ a, f a ≤ g a) : x.E f ≤ x.E g := by
  induction x with
  | pure a => exact h a
  | fail e => exact le_rfl
  | draw K w k ih =>
    simp only [Rand.E]
    exact Finset.sum_le_sum fun j _ => mul_le_mul_right (ih j) _
  | leaf μ k ih => exact lintegral_mono fun x => ih x

namespace Rand.Near
variable {α β : Type} {P : α → Prop} {Q : β → Prop}

theorem le {x : Rand α} (h : x.Near P) {f : α → ℝ≥0∞} {t : ℝ≥0∞} (hf : ∀ a, P a → f a ≤ t) : x.E f ≤ t := by
  have := h f (fun _ => 0) t fun a ha => by rw [zero_add]; exact hf a ha
  rwa [x.E_zero, zero_add] at this

theorem pure {a : α} (h : P a) : Rand.Near P (.pure a) := fun _ _ _ hf => hf a h

theorem bind {x : Rand α} {k : α → Rand β} (h : x.Near P) (hk : ∀ a, P a → (k a).Near Q) : (x.bind k).Near Q := by
  intro f f' t hf
  rw [Rand.E_bind, Rand.E_bind]
  exact h _ _ t fun a ha => hk a ha f f' t hf

theorem leaf {μ : Measure ℝ} (hμ : μ Set.univ = 1) {k : ℝ → Rand α} (h : ∀ x, (k x).Near P) : Rand.Near P (.leaf μ k) := by
  intro f f' t hf
  have e : t = ∫⁻ _, t ∂μ := by rw [lintegral_const, hμ, mul_one]
  show ∫⁻ x, (k x).E f ∂μ ≤ ∫⁻ x, (k x).E f' ∂μ + t
  calc ∫⁻ x, (k x).E f ∂μ ≤ ∫⁻ x, ((k x).E f' + t) ∂μ := lintegral_mono fun x => h x f f' t hf
    _ = ∫⁻ x, (k x).E f' ∂μ + t := by rw [lintegral_add_right _ measurable_const, ← e]

theorem drawAll {is : List (List Nat)} {p : List Nat → Rand α} {d : List Nat → α}
    (h : ∀ i, (p i).Near fun _ => True) : (Rand.drawAll is p d).Near fun _ => True := by
  induction is with
  | nil => exact pure trivial
  | cons i is ih => exact bind (h i) fun v _ => bind ih fun f _ => pure trivial

theorem drawVec {μ : Measure ℝ} (hμ : μ Set.univ = 1) (n : Nat) : (Einet.drawVec μ n).Near fun _ => True := by
  induction n with
  | zero => exact pure trivial
  | succ n ih => exact bind ih fun v _ => leaf hμ fun x => pure trivial

end Rand.Near

/-- the laws of `x` and `y` differ by at most `c - 1`, up to related outcomes. -/
structure RNear {α β : Type} (c : ℝ≥0∞) (R : α → β → Prop) (x : Rand α) (y : Rand β) : Prop where
  one_le : 1 ≤ c ∨ ∀ g, y.E g = 0
  left : x.Near fun a => ∃ b, R a b
  right : y.Near fun b => ∃ a, R a b
  gap : ∀ (f : α → ℝ≥0∞) (g : β → ℝ≥0∞), (∀ a b, R a b → g b ≤ f a) → (∀ a b, R a b → g b ≤ 1) → y.E g ≤ x.E f + (c - 1)

theorem gap_mul {c c' : ℝ≥0∞} (h : 1 ≤ c) (h' : 1 ≤ c') : (c' - 1) + (c - 1) ≤ c * c' - 1 := by
  obtain ⟨d, rfl⟩ := exists_add_of_le h
  obtain ⟨d', rfl⟩ := exists_add_of_le h'
  rw [ENNReal.add_sub_cancel_left ENNReal.one_ne_top, ENNReal.add_sub_cancel_left ENNReal.one_ne_top]
  refine ENNReal.le_sub_of_add_le_left ENNReal.one_ne_top ?_
  have : (1 + d) * (1 + d') = 1 + (d' + d) + d * d' := by ring
  rw [this]
  exact le_self_add

/-- `x` is dominated by `y`: up to related outcomes, every event has at most `c` times the probability; if `b.1`, every event has
the same probability; if `b.2`, the probabilities differ by at most `c - 1`. -/
def RLe {α β : Type} (b : Prop × Prop) (c : ℝ≥0∞) (R : α → β → Prop) (x : Rand α) (y : Rand β) : Prop :=
  (∀ (f : α → ℝ≥0∞) (g : β → ℝ≥0∞), (∀ a b, R a b → f a ≤ g b) → x.E f ≤ c * y.E g) ∧
  (b.1 → ∀ (f : α → ℝ≥0∞) (g : β → ℝ≥0∞), (∀ a b, R a b → g b ≤ f a) → y.E g ≤ x.E f) ∧ (b.2 → RNear c R x y)

/-- what is needed of the noise for the last two parts of `RLe`. -/
def NoiseOK (b : Prop × Prop) (μ ν : Measure ℝ) : Prop := (b.1 → μ = ν) ∧ (b.2 → μ Set.univ = 1)

namespace RLe
variable {α β α' β' : Type} {R : α → β → Prop} {R' : α' → β' → Prop} {b : Prop × Prop} {c c' : ℝ≥0∞}

theorem pure {a : α} {a' : β} (h : R a a') : RLe b 1 R (.pure a) (.pure a') :=
  ⟨fun f g hfg => by rw [one_mul]; exact hfg a a' h, fun _ f g hfg => hfg a a' h, fun _ =>
    ⟨Or.inl le_rfl, .pure ⟨a', h⟩, .pure ⟨a, h⟩, fun f g hfg _ => le_add_right (hfg a a' h)⟩⟩

theorem bind {x : Rand α} {y : Rand β} {k : α → Rand α'} {l : β → Rand β'} (hc : c' ≠ ⊤) (h : RLe b c R x y)
    (hk : ∀ a a', R a a' → RLe b c' R' (k a) (l a')) : RLe b (c * c') R' (x.bind k) (y.bind l) := by
  refine ⟨fun f g hfg => ?_, fun hb f g hfg => ?_, fun hb => ?_⟩
  · rw [Rand.E_bind, Rand.E_bind]
    refine (h.1 _ (fun b => c' * (l b).E g) fun a b hab => (hk a b hab).1 f g hfg).trans ?_
    rw [Rand.E_const_mul _ _ hc, mul_assoc]
  · rw [Rand.E_bind, Rand.E_bind]
    exact h.2.1 hb _ _ fun a a' haa => (hk a a' haa).2.1 hb f g hfg
  · have h1 := h.2.2 hb
    have hL : (x.bind k).Near fun a => ∃ b, R' a b := h1.left.bind fun a ⟨a', haa⟩ => ((hk a a' haa).2.2 hb).left
    have hR : (y.bind l).Near fun b => ∃ a, R' a b := h1.right.bind fun a' ⟨a, haa⟩ => ((hk a a' haa).2.2 hb).right
    rcases h1.one_le with hc0 | h0
    · by_cases hc1 : 1 ≤ c'
      · refine ⟨Or.inl (one_le_mul hc0 hc1), hL, hR, fun f g hfg hg1 => ?_⟩
        rw [Rand.E_bind, Rand.E_bind]
        refine (h1.gap (fun a => (k a).E f + (c' - 1)) _ (fun a a' haa => ((hk a a' haa).2.2 hb).gap f g hfg hg1)
          fun a a' haa => ((hk a a' haa).2.2 hb).right.le fun b ⟨a, hab⟩ => hg1 a b hab).trans ?_
        refine (add_le_add_left (h1.left _ (fun a => (k a).E f) (c' - 1) fun a _ => le_rfl) _).trans ?_
        rw [add_assoc]
        exact add_le_add_right (gap_mul hc0 hc1) _
      · have h0 : ∀ g, (y.bind l).E g = 0 := fun g => by
          rw [Rand.E_bind]
          refine le_antisymm (h1.right.le fun a' ⟨a, haa⟩ => ?_) zero_le
          exact (((hk a a' haa).2.2 hb).one_le.resolve_left hc1 g).le
        exact ⟨Or.inr h0, hL, hR, fun f g _ _ => by rw [h0]; exact zero_le⟩
    · have h0 : ∀ g, (y.bind l).E g = 0 := fun g => by rw [Rand.E_bind]; exact h0 _
      exact ⟨Or.inr h0, hL, hR, fun f g _ _ => by rw [h0]; exact zero_le⟩

theorem mono {x : Rand α} {y : Rand β} {S : α → β → Prop} (h : RLe b c R x y) (hcc : c ≤ c') (hRS : ∀ a a', R a a' → S a a') :
    RLe b c' S x y :=
  ⟨fun f g hfg => (h.1 f g fun a b hab => hfg a b (hRS a b hab)).trans (mul_le_mul_left hcc _),
    fun hb f g hfg => h.2.1 hb f g fun a a' haa => hfg a a' (hRS a a' haa), fun hb =>
    have h1 := h.2.2 hb
    ⟨h1.one_le.imp_left fun h => h.trans hcc, fun f f' t hf => h1.left f f' t fun a ⟨a', haa⟩ => hf a ⟨a', hRS a a' haa⟩,
      fun f f' t hf => h1.right f f' t fun a' ⟨a, haa⟩ => hf a' ⟨a, hRS a a' haa⟩, fun f g hfg hg1 =>
      (h1.gap f g (fun a a' haa => hfg a a' (hRS a a' haa)) fun a a' haa => hg1 a a' (hRS a a' haa)).trans
        (add_le_add_right (tsub_le_tsub_right hcc 1) _)⟩⟩

theorem lift {x : Res α} {y : Res β} {a : α} {a' : β} (hx : x = .ok a) (hy : y = .ok a') (h : R a a') :
    RLe b 1 R (Rand.lift x) (Rand.lift y) := by subst hx hy; exact pure h

theorem refl (x : Rand α) (hx : b.2 → x.Near fun _ => True) : RLe b 1 (fun a a' => a = a') x x :=
  ⟨fun f g hfg => by rw [one_mul]; exact Rand.E_mono fun a => hfg a a rfl, fun _ f g hfg => Rand.E_mono fun a => hfg a a rfl,
    fun hb => ⟨Or.inl le_rfl, fun f f' t hf => hx hb f f' t fun a _ => hf a ⟨a, rfl⟩,
      fun f f' t hf => hx hb f f' t fun a _ => hf a ⟨a, rfl⟩,
      fun f g hfg _ => le_add_right (Rand.E_mono fun a => hfg a a rfl)⟩⟩

theorem drawAll {is : List (List Nat)} {p : List Nat → Rand α} {q : List Nat → Rand β} {d : List Nat → α} {d' : List Nat → β}
    {R : List Nat → α → β → Prop} (hc : c ≠ ⊤) (h : ∀ i ∈ is, RLe b c (R i) (p i) (q i)) :
    RLe b (c ^ is.length) (fun f g => ∀ i ∈ is, R i (f i) (g i)) (Rand.drawAll is p d) (Rand.drawAll is q d') := by
  induction is with
  | nil =>
    rw [List.length_nil, pow_zero]
    refine pure ?_
    intro i hi
    cases hi
  | cons a l ih =>
    rw [List.length_cons, pow_succ']
    refine bind (ENNReal.pow_ne_top hc) (h a (by simp)) fun v w hvw => ?_
    rw [← mul_one (c ^ l.length)]
    refine bind ENNReal.one_ne_top (ih fun i hi => h i (by simp [hi])) fun f g hfg => pure ?_
    intro i hi
    show R i (if i = a then v else f i) (if i = a then w else g i)
    split_ifs with e
    · subst e; exact hvw
    · exact hfg i (by simpa [e] using hi)

end RLe

/-- expectations under two laws of which one is at most `c` times the other. -/
theorem lintegral_gap {μ ν : Measure ℝ} {c : ℝ≥0∞} (h : μ ≤ c • ν) (hμ : μ Set.univ = 1) (hν : ν Set.univ = 1) (hc : 1 ≤ c)
    {g : ℝ → ℝ≥0∞} (hg : ∀ x, g x ≤ 1) : ∫⁻ x, g x ∂ν ≤ ∫⁻ x, g x ∂μ + (c - 1) := by
  obtain ⟨s, hs, hsg, he⟩ := exists_measurable_le_lintegral_eq ν g
  rw [he]
  refine le_trans ?_ (add_le_add_left (lintegral_mono hsg) _)
  have hs1 : ∀ x, s x ≤ 1 := fun x => (hsg x).trans (hg x)
  have hm : Measurable fun x => 1 - s x := measurable_const.sub hs
  have split : ∀ ρ : Measure ℝ, ρ Set.univ = 1 → ∫⁻ x, s x ∂ρ + ∫⁻ x, (1 - s x) ∂ρ = 1 := by
    intro ρ hρ
    rw [← lintegral_add_left hs]
    have : ∀ x, s x + (1 - s x) = 1 := fun x => add_tsub_cancel_of_le (hs1 x)
    simp [this, hρ]
  have h1 := split μ hμ
  have h2 := split ν hν
  set p' := ∫⁻ x, (1 - s x) ∂ν with hp'
  have hp1 : p' ≤ 1 := by rw [← h2]; exact le_add_self
  have h3 : ∫⁻ x, (1 - s x) ∂μ ≤ c * p' := by
    refine (lintegral_mono' h le_rfl).trans ?_
    rw [lintegral_smul_measure, smul_eq_mul]
  have h4 : c * p' ≤ p' + (c - 1) := by
    obtain ⟨d, rfl⟩ := exists_add_of_le hc
    rw [ENNReal.add_sub_cancel_left ENNReal.one_ne_top, add_mul, one_mul]
    exact add_le_add_right (mul_le_of_le_one_right zero_le hp1) _
  have hpt : p' ≠ ⊤ := (lt_of_le_of_lt hp1 ENNReal.one_lt_top).ne
  refine (ENNReal.add_le_add_iff_right hpt).1 ?_
  rw [h2, add_assoc, add_comm (c - 1)]
  exact h1.ge.trans (add_le_add_right (h3.trans h4) _)

theorem drawVec_dom {μ ν : Measure ℝ} {b : Prop × Prop} {c : ℝ≥0∞} (hc : c ≠ ⊤) (h : μ ≤ c • ν) (hν : ν Set.univ = 1)
    (hb : NoiseOK b μ ν) (n : Nat) : RLe b (c ^ n) (fun v w => v = w) (drawVec μ n) (drawVec ν n) := by
  induction n with
  | zero => rw [pow_zero]; exact RLe.pure rfl
  | succ n ih =>
    rw [pow_succ]
    refine RLe.bind hc ih fun v w hvw => ?_
    subst hvw
    refine ⟨fun f g hfg => ?_, fun hb' f g hfg => ?_, fun hb' => ?_⟩
    · simp only [Rand.E]
      refine (lintegral_mono fun x => hfg _ _ rfl).trans ((lintegral_mono' h fun _ => le_rfl).trans ?_)
      rw [lintegral_smul_measure, smul_eq_mul]
    · simp only [Rand.E]
      rw [hb.1 hb']
      exact lintegral_mono fun x => hfg _ _ rfl
    · have hμ := hb.2 hb'
      have h1 : 1 ≤ c := by
        have := h Set.univ
        rwa [Measure.smul_apply, hμ, hν, smul_eq_mul, mul_one] at this
      refine ⟨Or.inl h1, .leaf hμ fun x => .pure ⟨_, rfl⟩, .leaf hν fun x => .pure ⟨_, rfl⟩, fun f g hfg hg1 => ?_⟩
      simp only [Rand.E]
      exact (lintegral_gap h hμ hν h1 fun x => hg1 _ _ rfl).trans (add_le_add_left (lintegral_mono fun x => hfg _ _ rfl) _)

/-- the choice made with the noise of the code against a draw from the categorical distribution. -/
theorem drawVec_categorical {μ : Measure ℝ} {b : Prop × Prop} {c : ℝ≥0∞} (hc : c ≠ ⊤) (h : μ ≤ c • gumbel0)
    (hb : NoiseOK b μ gumbel0) {w : Nat → Fl} {n : Nat} (hn : 0 < n) (hw : ∀ k, k < n → (w k).IsFin) :
    RLe b (c ^ n) (fun v k => k = Fl.argmaxN n fun k => w k + .fin (v k)) (drawVec μ n) (Rand.categorical n w) := by
  have hnan : ∀ k, k < n → Fl.logSoftmax n w k ≠ .nan := fun k hk => by
    rw [Fl.logSoftmax_eq_fin (fun k hk => (hw k hk).eq) hk]
    exact Fl.noConfusion
  have hd := drawVec_dom hc h (measure_univ (μ := gumbel0)) hb n
  have key : ∀ g : Nat → ℝ≥0∞, (Rand.categorical n w).E g = (drawVec gumbel0 n).E fun v => g (Fl.argmaxN n fun k => w k + .fin (v k)) :=
    fun g => by rw [E_drawVec_argmax hn hw, Rand.E_categorical hn hnan]
  refine ⟨fun f g hfg => ?_, fun hb' f g hfg => ?_, fun hb' => ?_⟩
  · rw [key]
    exact hd.1 f _ fun v w' e => by subst e; exact hfg _ _ rfl
  · rw [key]
    exact hd.2.1 hb' f _ fun v w' e => by subst e; exact hfg _ _ rfl
  · have h1 := hd.2.2 hb'
    refine ⟨h1.one_le.imp_right fun h0 g => by rw [key]; exact h0 _, fun f f' t hf => h1.left f f' t fun a _ => hf a ⟨_, rfl⟩,
      fun f f' t hf => ?_, fun f g hfg hg1 => ?_⟩
    · rw [key, key]
      exact h1.right _ _ t fun v _ => hf _ ⟨v, rfl⟩
    · rw [key]
      exact h1.gap f _ (fun v w' e => by subst e; exact hfg _ _ rfl) fun v w' e => hg1 w' _ rfl

end Einet
