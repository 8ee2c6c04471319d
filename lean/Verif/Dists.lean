import Verif.Density
import Mathlib.Probability.Distributions.Gaussian.Real
import Mathlib.Analysis.SpecialFunctions.Sigmoid
import Mathlib.Data.Nat.Choose.Sum
import Mathlib.MeasureTheory.Function.Floor

/-!
# Leaf distributions

Models of `layers/distributions/normal.py`, `binomial.py`, `bernoulli.py` and `categorical.py`.  The `torch.distributions`
classes they use are taken to compute the logarithm of the textbook density or mass function, to reject values outside
the support, and to sample from the textbook distribution.
-/

open Classical MeasureTheory ProbabilityTheory
open scoped ENNReal
noncomputable section
namespace Einet
open Tensor

/-- a parameter tensor of shape `[1, C, F, I, R]`. -/
abbrev Par := Nat → Nat → Nat → Nat → ℝ

/-- sizes of a leaf layer. -/
structure LeafDims where
  num_features : Nat
  num_channels : Nat
  num_leaves : Nat
  num_repetitions : Nat

/-- `dist.Normal(mu, sigma).log_prob`; infinite values have log-density `-inf`. -/
def normalLogProb (mu sigma : ℝ) : Fl → Fl
  | .nan => .nan
  | .ninf => .ninf
  | .pinf => .ninf
  | .fin x => .fin (-((x - mu) ^ 2) / (2 * sigma ^ 2) - Real.log sigma - Real.log √(2 * Real.pi))

/-- A leaf whose base distribution is `CustomNormal(mu, sigma)` (normal.py:118-176); `dist.Normal` accepts every value but
NaN (argument check of `log_prob`).  Sampling scales `sigma` by the square root of the temperature
(abstract_leaf.py:124-125). -/
def gaussLeaf (d : LeafDims) (mu sigma : Par) : BaseLeaf where
  num_features := d.num_features
  num_channels := d.num_channels
  num_leaves := d.num_leaves
  num_repetitions := d.num_repetitions
  valid _ x := x ≠ .nan
  logProb c f i r := normalLogProb (mu c f i r) (sigma c f i r)
  ref _ := volume
  law T c f i r := gaussianReal (mu c f i r) ((sigma c f i r * √T) ^ 2).toNNReal
  mode := mu
  samplable := true

/-- `Normal` (normal.py:12-42): `sigma = exp(0.5 * logvar)`. -/
def normalLeaf (d : LeafDims) (means logvar : Par) : BaseLeaf :=
  gaussLeaf d means fun c f i r => Real.exp (1 / 2 * logvar c f i r)

/-- A leaf with a mass function on `0 .. K-1` (`law` and `mode` are given): values outside the support are rejected. -/
def massLeaf (d : LeafDims) (K : Nat) (pmf : Nat → Nat → Nat → Nat → Nat → ℝ) (tempered : ℝ → Nat → Nat → Nat → Nat → Nat → ℝ)
    (mode : Nat → Nat → Nat → Nat → Nat) (samplable : Bool) : BaseLeaf where
  num_features := d.num_features
  num_channels := d.num_channels
  num_leaves := d.num_leaves
  num_repetitions := d.num_repetitions
  valid _ x := ∃ k, k < K ∧ x = .fin (k : ℝ)
  logProb c f i r x := Fl.log (.fin (pmf c f i r ⌊x.val⌋₊))
  ref _ := ∑ k ∈ Finset.range K, Measure.dirac (k : ℝ)
  law T c f i r := ∑ k ∈ Finset.range K, ENNReal.ofReal (tempered T c f i r k) • Measure.dirac (k : ℝ)
  mode c f i r := mode c f i r
  samplable := samplable

/-- mass function of the binomial distribution. -/
def binomialPmf (n : Nat) (p : ℝ) (k : Nat) : ℝ := n.choose k * p ^ k * (1 - p) ^ (n - k)

/-- `DifferentiableBinomial.sample` (binomial.py:81-113): a normal variable with the mean and the variance of the binomial
distribution, clipped to `[0, total_count]`. -/
def clippedNormal (n : Nat) (p : ℝ) : Measure ℝ :=
  (gaussianReal (n * p) (n * p * (1 - p)).toNNReal).map fun x => min (max x 0) n

/-- `Binomial` (binomial.py:18-61) in index mode; mode `floor(p * (n + 1))` (abstract_leaf.py:75-82); the leaf temperature
has no effect. -/
def binomialMass (d : LeafDims) (total_count : Nat) (logits : Par) : BaseLeaf :=
  massLeaf d (total_count + 1) (fun c f i r => binomialPmf total_count (Real.sigmoid (logits c f i r)))
    (fun _ c f i r => binomialPmf total_count (Real.sigmoid (logits c f i r)))
    (fun c f i r => ⌊Real.sigmoid (logits c f i r) * (total_count + 1)⌋₊) true

/-- `Binomial` (binomial.py:18-61); with `is_differentiable` the samples come from `DifferentiableBinomial`
(binomial.py:55-56). -/
def binomialLeaf (d : LeafDims) (total_count : Nat) (logits : Par) : BaseLeaf :=
  { binomialMass d total_count logits with
    lawD := fun _ c f i r => clippedNormal total_count (Real.sigmoid (logits c f i r)) }

/-- `Bernoulli` (bernoulli.py:8-31): `_get_base_distribution` takes no context, so `sample` raises a `TypeError`
(abstract_leaf.py:308). -/
def bernoulliLeaf (d : LeafDims) (probs : Par) : BaseLeaf :=
  massLeaf d 2 (fun c f i r k => if k = 1 then Real.sigmoid (probs c f i r) else 1 - Real.sigmoid (probs c f i r))
    (fun _ c f i r k => if k = 1 then Real.sigmoid (probs c f i r) else 1 - Real.sigmoid (probs c f i r))
    (fun c f i r => if 1 / 2 ≤ Real.sigmoid (probs c f i r) then 1 else 0) false

/-- softmax of real numbers. -/
def softmaxR (K : Nat) (l : Nat → ℝ) (k : Nat) : ℝ := Real.exp (l k) / ∑ j ∈ Finset.range K, Real.exp (l j)

/-- position of the first maximum, as `torch.argmax`. -/
def argmaxR (f : Nat → ℝ) : Nat → Nat
  | 0 => 0
  | n + 1 => if n = 0 then 0 else if f (argmaxR f n) < f n then n else argmaxR f n

/-- `Categorical` (categorical.py:10-37): `logits` has a last dimension of size `num_bins`; sampling divides the
log-probabilities by the temperature (abstract_leaf.py:126-127). -/
def categoricalLeaf (d : LeafDims) (num_bins : Nat) (logits : Nat → Nat → Nat → Nat → Nat → ℝ) : BaseLeaf :=
  massLeaf d num_bins (fun c f i r => softmaxR num_bins (logits c f i r))
    (fun T c f i r => softmaxR num_bins fun k => Real.log (softmaxR num_bins (logits c f i r) k) / T)
    (fun c f i r => argmaxR (softmaxR num_bins (logits c f i r)) num_bins) true

/-- `RatNormal._project_params` (normal.py:101-112), bounds given as real numbers or `None`; an `AssertionError` if a
(non-zero) upper bound for the mean comes without a lower bound. -/
def ratProject (min_sigma max_sigma : ℝ) (min_mean max_mean : Option ℝ) (mean std : ℝ) : Res (ℝ × ℝ) := do
  let sigma := if min_sigma < max_sigma then min_sigma + (max_sigma - min_sigma) * Real.sigmoid std else 1
  match max_mean with
  | none => return (mean, sigma)
  | some hi =>
    if hi = 0 then return (mean, sigma)
    else match min_mean with
      | none => .error .assertion
      | some lo => return (Real.sigmoid mean * (hi - lo) + lo, sigma)

/-- sampling a leaf distribution: probability laws, equal to the density at temperature 1. -/
structure BaseLeaf.Samp (B : BaseLeaf) : Prop where
  samplable : B.samplable = true
  prob : ∀ T, 0 < T → ∀ c f i r, IsProbabilityMeasure (B.law T c f i r)
  law_one : ∀ c f i r, ∀ h : ℝ → ℝ≥0∞, Measurable h →
    ∫⁻ x, h x ∂B.law 1 c f i r = ∫⁻ x, h x * toP (B.logProb c f i r (.fin x)) ∂B.ref f
  probD : ∀ T, 0 < T → ∀ c f i r, IsProbabilityMeasure (B.lawD T c f i r)

theorem toP_normalLogProb {mu sigma : ℝ} (hs : 0 < sigma) (x : ℝ) :
    toP (normalLogProb mu sigma (.fin x)) = gaussianPDF mu (sigma ^ 2).toNNReal x := by
  have hpi : (0 : ℝ) < 2 * Real.pi := by positivity
  have hq : 0 < √(2 * Real.pi) := Real.sqrt_pos.2 hpi
  simp only [normalLogProb, toP_fin, gaussianPDF, gaussianPDFReal, Real.coe_toNNReal _ (sq_nonneg sigma)]
  congr 1
  rw [Real.exp_sub, Real.exp_sub, Real.exp_log hs, Real.exp_log hq, Real.sqrt_mul hpi.le, Real.sqrt_sq hs.le]
  field_simp

theorem gaussLeaf_proper (d : LeafDims) (mu : Par) {sigma : Par} (hs : ∀ c f i r, 0 < sigma c f i r) :
    (gaussLeaf d mu sigma).Proper where
  sigmaFinite _ := inferInstanceAs (SigmaFinite (volume : Measure ℝ))
  measurable c f i r := by
    show Measurable fun x => toP (normalLogProb _ _ (.fin x))
    simp only [toP_normalLogProb (hs c f i r)]
    exact measurable_gaussianPDF _ _
  integral c _ f _ i _ r _ := by
    show ∫⁻ x, toP (normalLogProb _ _ (.fin x)) ∂volume = 1
    simp only [toP_normalLogProb (hs c f i r)]
    exact lintegral_gaussianPDF_eq_one _ (by
      have := hs c f i r
      simp only [ne_eq, Real.toNNReal_eq_zero, not_le]
      positivity)
  isFin c _ f _ i _ r _ x _ := Fl.isFin_fin _
  ae_valid _ := Filter.Eventually.of_forall fun x => by simp [gaussLeaf]
  valid_zero _ := by simp [gaussLeaf]

theorem gaussLeaf_samp (d : LeafDims) (mu : Par) {sigma : Par} (hs : ∀ c f i r, 0 < sigma c f i r) :
    (gaussLeaf d mu sigma).Samp where
  samplable := rfl
  prob T _ c f i r := inferInstanceAs (IsProbabilityMeasure (gaussianReal _ _))
  probD T _ c f i r := inferInstanceAs (IsProbabilityMeasure (gaussianReal _ _))
  law_one c f i r h hh := by
    show ∫⁻ x, h x ∂gaussianReal _ ((sigma c f i r * √1) ^ 2).toNNReal =
      ∫⁻ x, h x * toP (normalLogProb _ _ (.fin x)) ∂volume
    simp only [toP_normalLogProb (hs c f i r), Real.sqrt_one, mul_one]
    have hv : ((sigma c f i r) ^ 2).toNNReal ≠ 0 := by
      have := hs c f i r
      simp only [ne_eq, Real.toNNReal_eq_zero, not_le]
      positivity
    rw [gaussianReal_of_var_ne_zero _ hv, lintegral_withDensity_eq_lintegral_mul _ (measurable_gaussianPDF _ _) hh]
    exact lintegral_congr fun x => mul_comm _ _

theorem normalLeaf_proper (d : LeafDims) (means logvar : Par) : (normalLeaf d means logvar).Proper :=
  gaussLeaf_proper d means fun _ _ _ _ => Real.exp_pos _

theorem normalLeaf_samp (d : LeafDims) (means logvar : Par) : (normalLeaf d means logvar).Samp :=
  gaussLeaf_samp d means fun _ _ _ _ => Real.exp_pos _

section mass
variable {d : LeafDims} {K : Nat} {pmf : Nat → Nat → Nat → Nat → Nat → ℝ}
  {tempered : ℝ → Nat → Nat → Nat → Nat → Nat → ℝ} {mode : Nat → Nat → Nat → Nat → Nat} {b : Bool}

/-- integration against the counting measure of `0 .. K-1`. -/
theorem lintegral_count (K : Nat) (w : Nat → ℝ≥0∞) {h : ℝ → ℝ≥0∞} (hh : Measurable h) :
    ∫⁻ x, h x ∂(∑ k ∈ Finset.range K, w k • Measure.dirac (k : ℝ)) = ∑ k ∈ Finset.range K, w k * h k := by
  rw [lintegral_finsetSum_measure]
  refine Finset.sum_congr rfl fun k _ => ?_
  rw [lintegral_smul_measure, lintegral_dirac' _ hh, smul_eq_mul]

theorem lintegral_count' (K : Nat) {h : ℝ → ℝ≥0∞} (hh : Measurable h) :
    ∫⁻ x, h x ∂(∑ k ∈ Finset.range K, Measure.dirac (k : ℝ)) = ∑ k ∈ Finset.range K, h k := by
  rw [lintegral_finsetSum_measure]
  exact Finset.sum_congr rfl fun k _ => lintegral_dirac' _ hh

theorem massLeaf_measurable (c f i r : Nat) :
    Measurable fun x : ℝ => toP ((massLeaf d K pmf tempered mode b).logProb c f i r (.fin x)) := by
  show Measurable fun x : ℝ => toP (Fl.log (.fin (pmf c f i r ⌊x⌋₊)))
  exact (Measurable.of_discrete (f := fun k : ℕ => toP (Fl.log (.fin (pmf c f i r k))))).comp Nat.measurable_floor

theorem massLeaf_toP (hpos : ∀ c f i r k, k < K → 0 < pmf c f i r k) (c f i r : Nat) {k : Nat} (hk : k < K) :
    toP ((massLeaf d K pmf tempered mode b).logProb c f i r (.fin (k : ℝ))) = ENNReal.ofReal (pmf c f i r k) := by
  show toP (Fl.log (.fin (pmf c f i r ⌊(k : ℝ)⌋₊))) = _
  rw [Nat.floor_natCast, (toP_log (hpos c f i r k hk).le).1]

theorem massLeaf_proper (hK : 0 < K) (hpos : ∀ c f i r k, k < K → 0 < pmf c f i r k)
    (hsum : ∀ c f i r, ∑ k ∈ Finset.range K, pmf c f i r k = 1) : (massLeaf d K pmf tempered mode b).Proper where
  sigmaFinite _ := by
    have : IsFiniteMeasure (∑ k ∈ Finset.range K, Measure.dirac (k : ℝ)) := by infer_instance
    show SigmaFinite (∑ k ∈ Finset.range K, Measure.dirac (k : ℝ))
    infer_instance
  measurable := massLeaf_measurable
  integral c _ f _ i _ r _ := by
    show ∫⁻ x, _ ∂(∑ k ∈ Finset.range K, Measure.dirac (k : ℝ)) = 1
    rw [lintegral_count' K (massLeaf_measurable c f i r),
      Finset.sum_congr rfl fun k hk => massLeaf_toP hpos c f i r (Finset.mem_range.1 hk),
      ← ENNReal.ofReal_sum_of_nonneg fun k hk => (hpos c f i r k (Finset.mem_range.1 hk)).le, hsum]
    simp
  isFin c _ f _ i _ r _ x := by
    rintro ⟨k, hk, e⟩
    rw [e]
    have h1 := massLeaf_toP (d := d) (tempered := tempered) (mode := mode) (b := b) hpos c f i r hk
    have h2 : NN ((massLeaf d K pmf tempered mode b).logProb c f i r (.fin (k : ℝ))) := by
      show NN (Fl.log (.fin (pmf c f i r ⌊(k : ℝ)⌋₊)))
      rw [Nat.floor_natCast]
      exact (toP_log (hpos c f i r k hk).le).2
    refine h2.isFin ?_
    rw [h1]
    simpa using hpos c f i r k hk
  ae_valid _ := by
    show ∀ᵐ x ∂(∑ k ∈ Finset.range K, Measure.dirac (k : ℝ)), ∃ k, k < K ∧ (Fl.fin x) = .fin (k : ℝ)
    rw [ae_finsetSum_measure_iff]
    intro k hk
    rw [ae_dirac_eq]
    exact ⟨k, Finset.mem_range.1 hk, rfl⟩
  valid_zero _ := ⟨0, hK, by simp⟩

theorem massLeaf_prob (ht : ∀ T, 0 < T → ∀ c f i r k, k < K → 0 ≤ tempered T c f i r k)
    (hts : ∀ T, 0 < T → ∀ c f i r, ∑ k ∈ Finset.range K, tempered T c f i r k = 1) (T : ℝ) (hT : 0 < T) (c f i r : Nat) :
    IsProbabilityMeasure ((massLeaf d K pmf tempered mode b).law T c f i r) :=
  ⟨by
    show (∑ k ∈ Finset.range K, ENNReal.ofReal (tempered T c f i r k) • Measure.dirac (k : ℝ)) Set.univ = 1
    rw [← lintegral_one, lintegral_count K _ measurable_const]
    simp only [mul_one]
    rw [← ENNReal.ofReal_sum_of_nonneg fun k hk => ht T hT c f i r k (Finset.mem_range.1 hk), hts T hT]
    simp⟩

theorem massLeaf_samp (hb : b = true) (hpos : ∀ c f i r k, k < K → 0 < pmf c f i r k)
    (ht : ∀ T, 0 < T → ∀ c f i r k, k < K → 0 ≤ tempered T c f i r k)
    (hts : ∀ T, 0 < T → ∀ c f i r, ∑ k ∈ Finset.range K, tempered T c f i r k = 1)
    (h1 : ∀ c f i r k, k < K → tempered 1 c f i r k = pmf c f i r k) :
    (massLeaf d K pmf tempered mode b).Samp where
  samplable := hb
  prob := massLeaf_prob (d := d) (pmf := pmf) (mode := mode) (b := b) ht hts
  probD := massLeaf_prob (d := d) (pmf := pmf) (mode := mode) (b := b) ht hts
  law_one c f i r h hh := by
    show ∫⁻ x, h x ∂(∑ k ∈ Finset.range K, ENNReal.ofReal (tempered 1 c f i r k) • Measure.dirac (k : ℝ)) =
      ∫⁻ x, _ ∂(∑ k ∈ Finset.range K, Measure.dirac (k : ℝ))
    rw [lintegral_count K _ hh, lintegral_count' K (h := fun x => h x * toP ((massLeaf d K pmf tempered mode b).logProb c f i r (.fin x)))
      (hh.mul (massLeaf_measurable c f i r))]
    refine Finset.sum_congr rfl fun k hk => ?_
    rw [h1 c f i r k (Finset.mem_range.1 hk), mul_comm]
    have := massLeaf_toP (d := d) (tempered := tempered) (mode := mode) (b := b) hpos c f i r (Finset.mem_range.1 hk)
    rw [this]

end mass

theorem sigmoid_pos' (x : ℝ) : 0 < Real.sigmoid x ∧ 0 < 1 - Real.sigmoid x :=
  ⟨Real.sigmoid_pos x, by linarith [Real.sigmoid_lt_one x]⟩

theorem binomialPmf_pos {n : Nat} {p : ℝ} (h0 : 0 < p) (h1 : 0 < 1 - p) {k : Nat} (hk : k < n + 1) :
    0 < binomialPmf n p k := by
  unfold binomialPmf
  have : 0 < n.choose k := Nat.choose_pos (by omega)
  positivity

theorem binomialPmf_sum (n : Nat) (p : ℝ) : ∑ k ∈ Finset.range (n + 1), binomialPmf n p k = 1 := by
  have := add_pow p (1 - p) n
  rw [show p + (1 - p) = 1 by ring, one_pow] at this
  rw [this]
  exact Finset.sum_congr rfl fun k _ => by unfold binomialPmf; ring

/-- the law of differentiable sampling does not matter for densities. -/
theorem BaseLeaf.Proper.withLawD {B : BaseLeaf} (h : B.Proper) (l : ℝ → Nat → Nat → Nat → Nat → Measure ℝ) :
    ({ B with lawD := l } : BaseLeaf).Proper :=
  ⟨h.sigmaFinite, h.measurable, h.integral, h.isFin, h.ae_valid, h.valid_zero⟩

theorem BaseLeaf.Samp.withLawD {B : BaseLeaf} (h : B.Samp) {l : ℝ → Nat → Nat → Nat → Nat → Measure ℝ}
    (hl : ∀ T, 0 < T → ∀ c f i r, IsProbabilityMeasure (l T c f i r)) : ({ B with lawD := l } : BaseLeaf).Samp :=
  ⟨h.samplable, h.prob, h.law_one, hl⟩

instance clippedNormal_prob (n : Nat) (p : ℝ) : IsProbabilityMeasure (clippedNormal n p) :=
  Measure.isProbabilityMeasure_map (by fun_prop)

theorem binomialMass_proper (d : LeafDims) (n : Nat) (logits : Par) : (binomialMass d n logits).Proper :=
  massLeaf_proper (by omega) (fun _ _ _ _ _ hk => binomialPmf_pos (sigmoid_pos' _).1 (sigmoid_pos' _).2 hk)
    fun _ _ _ _ => binomialPmf_sum _ _

theorem binomialMass_samp (d : LeafDims) (n : Nat) (logits : Par) : (binomialMass d n logits).Samp :=
  massLeaf_samp rfl (fun _ _ _ _ _ hk => binomialPmf_pos (sigmoid_pos' _).1 (sigmoid_pos' _).2 hk)
    (fun _ _ _ _ _ _ _ hk => (binomialPmf_pos (sigmoid_pos' _).1 (sigmoid_pos' _).2 hk).le)
    (fun _ _ _ _ _ _ => binomialPmf_sum _ _) fun _ _ _ _ _ _ => rfl

theorem binomialLeaf_proper (d : LeafDims) (n : Nat) (logits : Par) : (binomialLeaf d n logits).Proper :=
  (binomialMass_proper d n logits).withLawD _

theorem binomialLeaf_samp (d : LeafDims) (n : Nat) (logits : Par) : (binomialLeaf d n logits).Samp :=
  (binomialMass_samp d n logits).withLawD fun _ _ _ _ _ _ => clippedNormal_prob _ _

theorem bernoulliLeaf_proper (d : LeafDims) (probs : Par) : (bernoulliLeaf d probs).Proper :=
  massLeaf_proper (by omega) (fun _ _ _ _ k _ => by
    split_ifs
    · exact (sigmoid_pos' _).1
    · exact (sigmoid_pos' _).2) fun _ _ _ _ => by simp [Finset.sum_range_succ]

theorem softmaxR_pos {K : Nat} (l : Nat → ℝ) {k : Nat} (hk : k < K) : 0 < softmaxR K l k := by
  unfold softmaxR
  have : 0 < ∑ j ∈ Finset.range K, Real.exp (l j) :=
    Finset.sum_pos (fun _ _ => Real.exp_pos _) ⟨k, Finset.mem_range.2 hk⟩
  have := Real.exp_pos (l k)
  positivity

theorem softmaxR_sum {K : Nat} (hK : 0 < K) (l : Nat → ℝ) : ∑ k ∈ Finset.range K, softmaxR K l k = 1 := by
  unfold softmaxR
  have : 0 < ∑ j ∈ Finset.range K, Real.exp (l j) :=
    Finset.sum_pos (fun _ _ => Real.exp_pos _) ⟨0, Finset.mem_range.2 hK⟩
  rw [← Finset.sum_div, div_self this.ne']

theorem softmaxR_log {K : Nat} (hK : 0 < K) (l : Nat → ℝ) {k : Nat} (hk : k < K) :
    softmaxR K (fun k => Real.log (softmaxR K l k)) k = softmaxR K l k := by
  conv_lhs => unfold softmaxR
  have e : ∑ j ∈ Finset.range K, Real.exp (Real.log (softmaxR K l j)) = 1 := by
    rw [← softmaxR_sum hK l]
    exact Finset.sum_congr rfl fun j hj => Real.exp_log (softmaxR_pos l (Finset.mem_range.1 hj))
  have e' := Real.exp_log (softmaxR_pos l hk)
  change Real.exp (Real.log (softmaxR K l k)) / ∑ j ∈ Finset.range K, Real.exp (Real.log (softmaxR K l j)) = _
  rw [e, e', div_one]

theorem categoricalLeaf_proper (d : LeafDims) {K : Nat} (hK : 0 < K) (logits : Nat → Nat → Nat → Nat → Nat → ℝ) :
    (categoricalLeaf d K logits).Proper :=
  massLeaf_proper hK (fun _ _ _ _ _ hk => softmaxR_pos _ hk) fun _ _ _ _ => softmaxR_sum hK _

theorem categoricalLeaf_samp (d : LeafDims) {K : Nat} (hK : 0 < K) (logits : Nat → Nat → Nat → Nat → Nat → ℝ) :
    (categoricalLeaf d K logits).Samp :=
  massLeaf_samp rfl (fun _ _ _ _ _ hk => softmaxR_pos _ hk) (fun _ _ _ _ _ _ _ hk => (softmaxR_pos _ hk).le)
    (fun _ _ _ _ _ _ => softmaxR_sum hK _) fun c f i r k hk => by
      simp only [div_one]
      exact softmaxR_log hK _ hk

end Einet
