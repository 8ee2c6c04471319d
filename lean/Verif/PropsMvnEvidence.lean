import Verif.MvnGiven
import Verif.PropsMvnMpe
import Verif.CondFwd

/-!
# Property C76: samples given evidence with multivariate normal leaves
-/

open Classical MeasureTheory ProbabilityTheory Matrix
open scoped ENNReal
noncomputable section
namespace Einet.Props
open Tensor

/-- the density of the forward pass on the features with `S f`, given the values `X` of the others. -/
def givenLaw (E : MvnEinet) (S : Nat → Prop) (X : Nat → Nat → ℝ) (k : Nat) :
    Measure (Fin E.leaf.num_channels → Fin E.leaf.num_features → ℝ) :=
  (∫⁻ ω, E.density none k (Pt.data ω) ∂(outMeasure E.leaf.num_channels E.leaf.num_features S X))⁻¹ •
    (outMeasure E.leaf.num_channels E.leaf.num_features S X).withDensity fun ω => E.density none k (Pt.data ω)

/-- the entries with `S f` from `ω`, the others from `X`. -/
def writeBack {C F : Nat} (S : Nat → Prop) (X : Nat → Nat → ℝ) (ω : Fin C → Fin F → ℝ) : Fin C → Fin F → ℝ :=
  fun c f => if S f then ω c f else X c f

/-- **C76** (part): given finite evidence and a tensor of scopes, the rows are independent; in each row all features of the
blocks that contain a listed feature are drawn from the distribution of these blocks given the features of the *other*
blocks, and then the features that are not listed get their known values back.  Missing for the full property: the known
features of a block with a listed feature play no role (`C76_refuted_correlation`); otherwise as in `C54_law_partial`. -/
theorem C76_exact_partial (c : Config) (P : Params) (hP : P.Random) (θ : MvnParams) (E : MvnEinet)
    (h : buildMvn c P θ = .ok E) (htd : c.structure' = "top-down") (K : ℤ) (hK : c.cardinality = some K)
    (hdiv : K ∣ c.num_features) (hR : 1 < c.num_repetitions) (hlt : (2 : ℤ) ^ c.depth.toNat * K < c.num_features)
    (hal : c.num_leaves = 1 ∨ K = 1 ∨ c.depth = 0) (hone : E.net.num_classes = 1)
    (N : Nat) (hN : 0 < N) (x : Tensor Fl) (hx : FiniteBatch N E.leaf.num_channels E.leaf.num_features x)
    (s : Scopes) (hs : s.isList = false) (hu : Usable E.leaf.num_features s)
    (φ : (Fin N → Fin E.leaf.num_channels → Fin E.leaf.num_features → ℝ) → ℝ≥0∞) (hφ : Measurable φ) :
    (E.sample { evidence := some x, marginalized_scopes := some s }).E (fun t => φ fun n c f => (t.get [n, c, f]).val) =
      ∫⁻ ω, φ ω ∂Measure.pi fun n : Fin N =>
        (givenLaw E (Touched E.leaf.num_features K.toNat s) (fun c f => (x.get [n, c, f]).val) 0).map
          (writeBack (Listed E.leaf.num_features s) fun c f => (x.get [n, c, f]).val) := by
  obtain ⟨hsa, ho, hmir⟩ := buildMvn_samplable hP h htd hK hdiv hR
  obtain ⟨K', hK', h1, hl, _⟩ := buildMvn_spec hP h htd
  rw [hK] at hK'
  cases hK'
  have hal' : E.Aligned := by
    rcases hal with h | h | h
    · left
      rw [hl, h]; rfl
    · right; right; left
      rw [hl, h]; rfl
    · right; right; right
      rw [ho, h]; rfl
  have hcard : E.leaf.cardinality = K.toNat := by rw [hl]
  have hF := MvnLeaf.out_mul hsa.wf.card hsa.pad
  obtain rfl : (⟨none, none, some x, false, false, 1, 1, some s⟩ : SampleArgs).count = N := by
    simp [SampleArgs.count, Tensor.size, hx.1, at']
  obtain ⟨l, hl1, hl2⟩ := MvnEinet.marg_tensor hsa.wf.card hsa.pad hs hu
  obtain ⟨lf, hf1, hf2⟩ := usable_resolve hu
  have hlf : ∀ f, f ∈ lf → f < E.leaf.num_features := by
    cases hr : s.resolve E.leaf.num_features with
    | error e => simp [Scopes.resolveOpt, hr, Except.map] at hf1
    | ok l' =>
      simp [Scopes.resolveOpt, hr, Except.map] at hf1
      subst hf1
      exact resolve_lt hr
  have hb : ∀ f, f < E.leaf.num_features → f / E.leaf.cardinality < E.leaf.out_features := by
    intro f hf
    rw [Nat.div_lt_iff_lt_mul hsa.wf.card, hF]; exact hf
  refine (MvnEinet.given_measure hsa hal' (hmir hlt) (a := ⟨none, none, some x, false, false, 1, 1, some s⟩) rfl hx.is3
    (fun n hn => hx.2 n hn) hl1 hf1 (fun f hf => ?_) hN rfl rfl rfl rfl rfl hφ).trans ?_
  · rw [hl2 _ (hb f (hlf f hf))]
    exact ⟨f, hlf f hf, (hf2 f (hlf f hf)).1 hf, rfl⟩
  congr 2
  funext n
  have e1 : E.mixBlocks none n l (fun c f => x.get [n, c, f]) =
      givenLaw E (Touched E.leaf.num_features K.toNat s) (fun c f => (x.get [n, c, f]).val) 0 := by
    have e2 : E.blocksOut l (fun c f => x.get [n, c, f]) = outMeasure E.leaf.num_channels E.leaf.num_features
        (Touched E.leaf.num_features K.toNat s) fun c f => (x.get [n, c, f]).val := by
      unfold MvnEinet.blocksOut outMeasure
      refine congrArg Measure.pi (funext fun c => congrArg Measure.pi (funext fun f => if_congr ?_ rfl rfl))
      rw [hl2 _ (hb f f.2), hcard]
      rfl
    unfold MvnEinet.mixBlocks MvnEinet.lawBlocks givenLaw Model.classW
    rw [hone, e2]
    simp only [lt_irrefl, if_false, Finset.range_one, Finset.sum_singleton, if_true, one_smul]
  rw [e1]
  congr 1
  funext ω c f
  unfold MvnEinet.over writeBack
  by_cases hf : (f : Nat) ∈ lf
  · rw [if_pos hf, if_pos ((hf2 f f.2).1 hf)]
  · rw [if_neg hf, if_neg fun h => hf ((hf2 f f.2).2 h)]

/-- writing back the values that are fixed anyway changes nothing. -/
theorem writeBack_givenLaw (E : MvnEinet) (S : Nat → Prop) (X : Nat → Nat → ℝ) (k : Nat) :
    (givenLaw E S X k).map (writeBack S X) = givenLaw E S X k := by
  have hm : Measurable (writeBack (C := E.leaf.num_channels) (F := E.leaf.num_features) S X) := MvnEinet.over_measurable S X
  have hae : ∀ᵐ ω ∂outMeasure E.leaf.num_channels E.leaf.num_features S X, writeBack S X ω = ω := by
    have hsf : ∀ (c : Fin E.leaf.num_channels) (f : Fin E.leaf.num_features),
        SigmaFinite (if S f then volume else Measure.dirac (X c f) : Measure ℝ) := by
      intro c f; split_ifs <;> infer_instance
    have h1 : ∀ (c : Fin E.leaf.num_channels) (f : Fin E.leaf.num_features),
        ∀ᵐ ω ∂outMeasure E.leaf.num_channels E.leaf.num_features S X, writeBack S X ω c f = ω c f := by
      intro c f
      by_cases hf : S f
      · exact Filter.Eventually.of_forall fun ω => if_pos hf
      · unfold outMeasure
        have h2 : ∀ᵐ y ∂(if S f then volume else Measure.dirac (X c f) : Measure ℝ), X c f = y := by
          rw [if_neg hf, ae_dirac_eq]
          rfl
        have h3 := (Measure.tendsto_eval_ae_ae (μ := fun f : Fin E.leaf.num_features =>
          (if S f then volume else Measure.dirac (X c f) : Measure ℝ)) (i := f)).eventually h2
        have h4 := (Measure.tendsto_eval_ae_ae (μ := fun c : Fin E.leaf.num_channels => Measure.pi fun f : Fin E.leaf.num_features =>
          (if S f then volume else Measure.dirac (X c f) : Measure ℝ)) (i := c)).eventually h3
        filter_upwards [h4] with ω hω
        unfold writeBack
        rw [if_neg hf]
        exact hω
    filter_upwards [ae_all_iff.2 fun c => ae_all_iff.2 fun f => h1 c f] with ω hω
    funext c f
    exact hω c f
  have hae2 : ∀ᵐ ω ∂givenLaw E S X k, writeBack S X ω = ω := by
    unfold givenLaw
    exact Measure.ae_smul_measure ((withDensity_absolutelyContinuous _ _).ae_le hae) _
  rw [Measure.map_congr hae2]
  exact Measure.map_id

/-- **C76** (part): if the listed features form whole blocks, the rows are independent and each follows the conditional
distribution of the listed features given all others.  Missing for the full property: as in `C76_exact_partial`. -/
theorem C76_conditional_law_partial (c : Config) (P : Params) (hP : P.Random) (θ : MvnParams) (E : MvnEinet)
    (h : buildMvn c P θ = .ok E) (htd : c.structure' = "top-down") (K : ℤ) (hK : c.cardinality = some K)
    (hdiv : K ∣ c.num_features) (hR : 1 < c.num_repetitions) (hlt : (2 : ℤ) ^ c.depth.toNat * K < c.num_features)
    (hal : c.num_leaves = 1 ∨ K = 1 ∨ c.depth = 0) (hone : E.net.num_classes = 1)
    (N : Nat) (hN : 0 < N) (x : Tensor Fl) (hx : FiniteBatch N E.leaf.num_channels E.leaf.num_features x)
    (s : Scopes) (hs : s.isList = false) (hu : Usable E.leaf.num_features s)
    (hblocks : ∀ f f', Listed E.leaf.num_features s f → f < E.leaf.num_features → f' < E.leaf.num_features →
      f / K.toNat = f' / K.toNat → Listed E.leaf.num_features s f')
    (φ : (Fin N → Fin E.leaf.num_channels → Fin E.leaf.num_features → ℝ) → ℝ≥0∞) (hφ : Measurable φ) :
    (E.sample { evidence := some x, marginalized_scopes := some s }).E (fun t => φ fun n c f => (t.get [n, c, f]).val) =
      ∫⁻ ω, φ ω ∂Measure.pi fun n : Fin N =>
        givenLaw E (Listed E.leaf.num_features s) (fun c f => (x.get [n, c, f]).val) 0 := by
  rw [C76_exact_partial c P hP θ E h htd K hK hdiv hR hlt hal hone N hN x hx s hs hu φ hφ]
  congr 2
  funext n
  refine Eq.trans ?_ (writeBack_givenLaw E _ _ 0)
  congr 1
  have e : outMeasure E.leaf.num_channels E.leaf.num_features (Touched E.leaf.num_features K.toNat s)
      (fun c f => (x.get [n, c, f]).val) = outMeasure E.leaf.num_channels E.leaf.num_features (Listed E.leaf.num_features s)
      (fun c f => (x.get [n, c, f]).val) := by
    unfold outMeasure
    refine congrArg Measure.pi (funext fun c => congrArg Measure.pi (funext fun f => if_congr ?_ rfl rfl))
    exact ⟨fun ⟨f', h1, h2, h3⟩ => hblocks f' f h2 h1 f.2 h3, fun h1 => ⟨f, f.2, h1, rfl⟩⟩
  unfold givenLaw
  rw [e]

/-- six features in three blocks of one group, two repetitions, one class; two rows, the first and the last block missing. -/
example : ∃ E, buildMvn (mvnConfig 6 2 2 1 0 "einsum" "top-down") (exParams exLeaf) corrParams = .ok E ∧ (2 : ℤ) ∣ 6 ∧
    (2 : ℤ) ^ (mvnConfig 6 2 2 1 0 "einsum" "top-down").depth.toNat * 2 < 6 ∧ E.net.num_classes = 1 ∧
    FiniteBatch 2 E.leaf.num_channels E.leaf.num_features ⟨[2, 2, 6], fun i => .fin i.sum⟩ ∧
    Usable E.leaf.num_features ⟨false, [0, 1, -2, -1]⟩ := by
  obtain ⟨E, h⟩ := mvnConfig_topDown (F := 6) (C := 2) (R := 2) (k := 1) (d := 0) (by norm_num) (by norm_num) (by norm_num)
    (by norm_num) (by norm_num) (layer := "einsum") (by simp) (by norm_num [Int.fdiv]) (exParams exLeaf) corrParams
  obtain ⟨K, hK, _, hl, hcl, _⟩ := buildMvn_spec (exParams_random _) h rfl
  cases hK
  have hF : E.leaf.num_features = 6 := by rw [hl]; rfl
  have hC : E.leaf.num_channels = 2 := by rw [hl]; rfl
  refine ⟨E, h, by norm_num, by norm_num [mvnConfig], hcl, ?_, ?_⟩
  · rw [hF, hC]; exact ⟨rfl, fun _ _ _ _ _ _ => Fl.isFin_fin _⟩
  · rw [hF]; exact ⟨by simp, by simp⟩

/-- the distribution in `C76_exact_partial` and `C76_conditional_law_partial` is a probability distribution. -/
theorem C76_law_prob (c : Config) (P : Params) (hP : P.Random) (θ : MvnParams) (E : MvnEinet)
    (h : buildMvn c P θ = .ok E) (htd : c.structure' = "top-down") (K : ℤ) (hK : c.cardinality = some K)
    (hdiv : K ∣ c.num_features) (s : Scopes) (hs : s.isList = false) (hu : Usable E.leaf.num_features s)
    (X : Nat → Nat → ℝ) (k : Nat) (hk : k < E.net.num_classes) :
    IsProbabilityMeasure (givenLaw E (Touched E.leaf.num_features K.toNat s) X k) := by
  obtain ⟨y, -, -, hy⟩ := C55_blocks_partial c P hP θ E h htd K hK hdiv s hs hu 1
    ⟨[1, E.leaf.num_channels, E.leaf.num_features], fun j => .fin (X (at' 1 j) (at' 2 j))⟩ ⟨rfl, fun _ _ _ _ _ _ => Fl.isFin_fin _⟩
  obtain ⟨v, -, hv⟩ := hy 0 one_pos k hk
  have e : (fun c f => ((⟨[1, E.leaf.num_channels, E.leaf.num_features], fun j => .fin (X (at' 1 j) (at' 2 j))⟩ : Tensor Fl).get
      [0, c, f]).val) = X := rfl
  rw [e] at hv
  refine ⟨?_⟩
  unfold givenLaw
  rw [Measure.smul_apply, withDensity_apply _ MeasurableSet.univ, Measure.restrict_univ, smul_eq_mul, ← hv]
  exact ENNReal.inv_mul_cancel (by simp [Real.exp_pos]) (by simp)

/-- **C76** (part): known features keep their values, for all temperatures and numbers of classes, and every entry of the
result is a number. -/
theorem C76_evidence_kept_partial (c : Config) (P : Params) (hP : P.Random) (θ : MvnParams) (E : MvnEinet)
    (h : buildMvn c P θ = .ok E) (htd : c.structure' = "top-down") (K : ℤ) (hK : c.cardinality = some K)
    (hdiv : K ∣ c.num_features) (hR : 1 < c.num_repetitions) (a : SampleArgs) (hm : a.is_mpe = false)
    (hml : a.mpe_at_leaves = false) (N : Nat) (hN : 0 < N) (x : Tensor Fl)
    (hx : FiniteBatch N E.leaf.num_channels E.leaf.num_features x)
    (hev : a.evidence = some x) (hns : a.num_samples = none) (hci : a.class_index = none) (hT : a.temperature_sums ≠ 0)
    (s : Scopes) (hms : a.marginalized_scopes = some s) (hs : s.isList = false) (hu : Usable E.leaf.num_features s) :
    (E.sample a).All fun t => t.shape = x.shape ∧ ∀ n, n < N → ∀ d, d < E.leaf.num_channels → ∀ f, f < E.leaf.num_features →
      (t.get [n, d, f]).IsFin ∧ (¬ Listed E.leaf.num_features s f → t.get [n, d, f] = x.get [n, d, f]) := by
  obtain ⟨hsa, ho, hmir⟩ := buildMvn_samplable hP h htd hK hdiv hR
  have hcount : a.count = N := by unfold SampleArgs.count; rw [hev]; simp [Tensor.size, hx.1, at']
  subst hcount
  have hnd : ∀ B, E.net.leaf ≠ .direct B := by obtain ⟨L, hL⟩ := hsa.fact; intro B; rw [hL]; simp
  have hcok : E.net.ClassOK a.count a.class_index := by rw [hci]; trivial
  obtain ⟨l, hl1, hl2⟩ := MvnEinet.marg_tensor hsa.wf.card hsa.pad hs hu
  obtain ⟨lf, hf1, hf2⟩ := usable_resolve hu
  obtain ⟨cs, e, hcs, hevm, hfin, hrow⟩ := MvnEinet.evidence_caches hsa.wf hsa.pad hev hx.is3 (fun n hn => hx.2 n hn)
    (by rw [hms]; exact hl1)
  rw [MvnEinet.sample_eq' E (Model.check_ok hcok fun _ => ⟨hci, hns⟩) hcs hsa.wf hnd]
  refine Rand.All.bind (MvnEinet.values_All hsa hevm hfin hN hm hml hT hcok) fun v hv => ?_
  refine Rand.All.lift ?_
  have hv3 : v.Is3 a.count E.leaf.num_channels E.leaf.num_features fun n c f => v.get [n, c, f] :=
    Is.is3 (Is.refl v hv) fun _ _ _ _ _ _ => rfl
  obtain ⟨r, hr, hr'⟩ := Model.fill_is hx.is3 hv3 (ms := a.marginalized_scopes) (sc := some lf) (by rw [hms]; exact hf1)
  refine ⟨r, ?_, hr'.1.trans hx.1.symm, fun n hn d hd f hf => ?_⟩
  · unfold Model.finish
    rw [hev]
    exact hr
  · rw [hr'.get hn hd hf]
    unfold holeAt
    by_cases hfl : f ∈ lf
    · simp only [if_pos hfl]
      exact ⟨Fl.isFin_fin _, fun h => absurd ((hf2 f hf).1 hfl) h⟩
    · simp only [if_neg hfl]
      exact ⟨hx.2 n hn d hd f hf, fun _ => trivial⟩

/-- density of two variables, the second one the first one plus noise. -/
theorem corr_split (a y : ℝ) :
    ENNReal.ofReal (Real.exp (-Real.log (2 * Real.pi) - (a ^ 2 + (y - a) ^ 2) / 2)) = gaussianPDF 0 1 a * gaussianPDF a 1 y := by
  unfold gaussianPDF
  rw [← ENNReal.ofReal_mul (gaussianPDFReal_nonneg _ _ _)]
  congr 1
  unfold gaussianPDFReal
  have h2 : (0 : ℝ) < 2 * Real.pi := by positivity
  simp only [NNReal.coe_one, mul_one, sub_zero]
  have e : (√(2 * Real.pi))⁻¹ * (√(2 * Real.pi))⁻¹ = Real.exp (-Real.log (2 * Real.pi)) := by
    rw [Real.exp_neg, Real.exp_log h2, ← mul_inv, Real.mul_self_sqrt h2.le]
  rw [mul_mul_mul_comm, e, ← Real.exp_add, ← Real.exp_add]
  congr 1
  ring

/-- the same density, conditioned on the second variable. -/
theorem corr_bayes (a y : ℝ) : gaussianPDF 0 1 a * gaussianPDF a 1 y = gaussianPDF (y / 2) (1 / 2) a * gaussianPDF 0 2 y := by
  unfold gaussianPDF
  rw [← ENNReal.ofReal_mul (gaussianPDFReal_nonneg _ _ _), ← ENNReal.ofReal_mul (gaussianPDFReal_nonneg _ _ _)]
  congr 1
  unfold gaussianPDFReal
  have h2 : (0 : ℝ) < 2 * Real.pi := by positivity
  simp only [NNReal.coe_one, mul_one, sub_zero, NNReal.coe_div, NNReal.coe_ofNat]
  rw [mul_mul_mul_comm, mul_mul_mul_comm (√(2 * Real.pi * (1 / 2)))⁻¹, ← Real.exp_add, ← Real.exp_add, ← mul_inv, ← mul_inv,
    ← Real.sqrt_mul h2.le, ← Real.sqrt_mul (by positivity)]
  congr 1
  · congr 2; ring
  · congr 1; ring

theorem outP_two {E : MvnEinet} {g : Nat → Nat → Nat} (hw : E.WF g) (hk : 0 < E.net.num_classes) (hout : E.leaf.out_features = 2)
    (hC : E.leaf.num_channels = 1) (w : Nat → Nat → ℝ≥0∞) : E.net.outP g 1 (fun c b _ _ => w c b) 0 = w 0 0 * w 0 1 := by
  have e := Model.outP_mul hw.net (one_ne_zero (α := ℝ)) w (fun _ _ _ _ => 1) hk
  simp only [mul_one] at e
  rw [Model.outP_one hw.net hk, mul_one] at e
  rw [e, hw.features, hw.channels, hout, hC, Finset.prod_range_succ, Finset.prod_range_one, Finset.prod_range_one,
    Finset.prod_range_one]

/-- the law of the first variable of a block. -/
theorem corr_blkE {E : MvnEinet} (hK : E.leaf.cardinality = 2) (hθ : E.leaf.params = corrParams) (c b i r : Nat) {φ : ℝ → ℝ≥0∞}
    (hφ : Measurable φ) :
    E.blkE c b i r (fun v => φ (v ⟨0, by rw [hK]; norm_num⟩)) = ∫⁻ y, φ y ∂gaussianReal 0 1 := by
  obtain ⟨⟨F, C, L, R, K, θ⟩, net⟩ := E
  dsimp only at hK hθ
  subst hK hθ
  have e : ∀ v : Fin 2 → ℝ, ENNReal.ofReal (Real.exp (mvnLogProb (MvnLeaf.loc ⟨F, C, L, R, 2, corrParams⟩ [c, b, i, r])
      (MvnLeaf.scale_tril ⟨F, C, L, R, 2, corrParams⟩ [c, b, i, r]) v)) = gaussianPDF 0 1 (v 0) * gaussianPDF (v 0) 1 (v 1) := by
    intro v
    have h1 := corr_blockP (E := ⟨⟨F, C, L, R, 2, corrParams⟩, net⟩) rfl rfl (fun _ f => .fin (if f = b * 2 then v 0 else v 1)) c b i r
    simp only [Fl.val, if_true, Nat.add_eq_left, one_ne_zero, if_false] at h1
    rw [corr_split] at h1
    rw [← h1]
    unfold MvnEinet.blockP
    dsimp only
    congr 3
    funext j
    fin_cases j <;> simp [Fl.val]
  unfold MvnEinet.blkE
  dsimp only
  simp only [e]
  have hm : Measurable fun p : ℝ × ℝ => φ p.1 * (gaussianPDF 0 1 p.1 * gaussianPDF p.1 1 p.2) := by
    refine (hφ.comp measurable_fst).mul (((measurable_gaussianPDF 0 1).comp measurable_fst).mul ?_)
    unfold gaussianPDF gaussianPDFReal
    fun_prop
  have h2 := (volume_preserving_finTwoArrow ℝ).lintegral_comp hm
  refine Eq.trans ?_ (h2.trans ?_)
  · rfl
  rw [Measure.volume_eq_prod, lintegral_prod _ hm.aemeasurable]
  rw [gaussianReal_of_var_ne_zero _ one_ne_zero, lintegral_withDensity_eq_lintegral_mul _ (measurable_gaussianPDF _ _) hφ]
  refine lintegral_congr fun a => ?_
  simp only [← mul_assoc]
  rw [lintegral_const_mul _ (measurable_gaussianPDF _ _), lintegral_gaussianPDF_eq_one _ one_ne_zero, mul_one, mul_comm]
  rfl

theorem prod_first {C F : Nat} (hC : C = 1) (hF : F = 4) (φ : ℝ → ℝ≥0∞) (ω : Fin C → Fin F → ℝ) :
    ∏ f : Fin F, ∏ c : Fin C, (if (f : Nat) = 0 then φ else fun _ => 1) (ω c f) = φ (ω ⟨0, by omega⟩ ⟨0, by omega⟩) := by
  subst hC hF
  simp [Fin.prod_univ_four]

/-- **C76 is false** of holes in a block that is known in part: for some model with one class and one channel, four features in
two blocks, feature 0 is missing and the others are known.  The value drawn for feature 0 is standard normal, whatever the
known values are, although its conditional distribution is normal with mean half the value of feature 1 and variance 1/2. -/
theorem C76_refuted_correlation : ∃ (c : Config) (P : Params) (θ : MvnParams) (E : MvnEinet), P.Random ∧
    buildMvn c P θ = .ok E ∧ c.structure' = "top-down" ∧ c.cardinality = some 2 ∧ c.num_repetitions = 2 ∧
    E.leaf.num_features = 4 ∧ E.leaf.num_channels = 1 ∧ E.net.num_classes = 1 ∧ ∀ X : Nat → ℝ,
      (∀ φ : ℝ → ℝ≥0∞, Measurable φ →
        (E.sample { evidence := some ⟨[1, 1, 4], fun j => .fin (X (at' 2 j))⟩,
                    marginalized_scopes := some ⟨false, [0]⟩ }).E (fun t => φ (t.get [0, 0, 0]).val) =
          ∫⁻ y, φ y ∂gaussianReal 0 1) ∧
      ∃ m, m ≠ 0 ∧ m ≠ ⊤ ∧ ∀ y, E.density none 0 (fun _ f => .fin (if f = 0 then y else X f)) = gaussianPDF (X 1 / 2) (1 / 2) y * m := by
  obtain ⟨E, h⟩ := mvnConfig_topDown (F := 4) (C := 1) (R := 2) (k := 1) (d := 0) (by norm_num) (by norm_num) (by norm_num)
    (by norm_num) (by norm_num) (layer := "einsum") (by simp) (by norm_num [Int.fdiv]) (exParams exLeaf) corrParams
  obtain ⟨K, hK, _, hl, hcl, _⟩ := buildMvn_spec (exParams_random _) h rfl
  cases hK
  obtain ⟨hw, hp⟩ := buildMvn_ok (exParams_random _) h rfl rfl (by norm_num [mvnConfig])
  have hF : E.leaf.num_features = 4 := by rw [hl]; rfl
  have hC : E.leaf.num_channels = 1 := by rw [hl]; rfl
  have hcard : E.leaf.cardinality = 2 := by rw [hl]; rfl
  have hθ : E.leaf.params = corrParams := by rw [hl]
  have hout : E.leaf.out_features = 2 := by unfold MvnLeaf.out_features; rw [hF, hcard]
  have hcl1 : E.net.num_classes = 1 := hcl
  have hk : 0 < E.net.num_classes := by rw [hcl1]; exact one_pos
  refine ⟨_, _, _, E, exParams_random _, h, rfl, rfl, rfl, hF, hC, hcl1, fun X => ⟨fun φ hφ => ?_, ?_⟩⟩
  · have hu : Usable E.leaf.num_features ⟨false, [0]⟩ := by rw [hF]; exact ⟨by simp, by simp⟩
    have h1 := C76_exact_partial _ _ (exParams_random _) _ E h rfl 2 rfl (by norm_num [mvnConfig]) (by norm_num [mvnConfig])
      (by norm_num [mvnConfig]) (Or.inr (Or.inr rfl)) hcl1 1 one_pos ⟨[1, 1, 4], fun j => .fin (X (at' 2 j))⟩
      (by rw [hC, hF]; exact ⟨rfl, fun _ _ _ _ _ _ => Fl.isFin_fin _⟩) ⟨false, [0]⟩ rfl hu
      (fun ω => φ (ω 0 ⟨0, by omega⟩ ⟨0, by omega⟩))
      (hφ.comp ((measurable_pi_apply _).comp ((measurable_pi_apply _).comp (measurable_pi_apply _))))
    refine h1.trans ?_
    set Y : Nat → Nat → ℝ := fun c f => X f
    have hprob := C76_law_prob _ _ (exParams_random _) _ E h rfl 2 rfl (by norm_num [mvnConfig]) ⟨false, [0]⟩ rfl hu Y 0 hk
    have hwm : Measurable (writeBack (C := E.leaf.num_channels) (F := E.leaf.num_features) (Listed E.leaf.num_features ⟨false, [0]⟩) Y) :=
      MvnEinet.over_measurable _ _
    have hpm : IsProbabilityMeasure ((givenLaw E (Touched E.leaf.num_features (2 : ℤ).toNat ⟨false, [0]⟩) Y 0).map
        (writeBack (Listed E.leaf.num_features ⟨false, [0]⟩) Y)) := Measure.isProbabilityMeasure_map hwm.aemeasurable
    have hφ1 : Measurable fun ω : Fin E.leaf.num_channels → Fin E.leaf.num_features → ℝ => φ (ω ⟨0, by omega⟩ ⟨0, by omega⟩) :=
      hφ.comp ((measurable_pi_apply _).comp (measurable_pi_apply _))
    refine ((measurePreserving_eval (fun _ : Fin 1 => (givenLaw E (Touched E.leaf.num_features (2 : ℤ).toNat ⟨false, [0]⟩) Y 0).map
      (writeBack (Listed E.leaf.num_features ⟨false, [0]⟩) Y)) 0).lintegral_comp hφ1).trans ?_
    rw [lintegral_map hφ1 hwm]
    have h0 : ∀ ω : Fin E.leaf.num_channels → Fin E.leaf.num_features → ℝ,
        writeBack (Listed E.leaf.num_features ⟨false, [0]⟩) Y ω ⟨0, by omega⟩ ⟨0, by omega⟩ = ω ⟨0, by omega⟩ ⟨0, by omega⟩ :=
      fun ω => if_pos ⟨0, by simp, by simp⟩
    simp only [h0]
    have e2 : outMeasure E.leaf.num_channels E.leaf.num_features (Touched E.leaf.num_features (2 : ℤ).toNat ⟨false, [0]⟩) Y =
        E.blocksOut [0] (fun _ f => .fin (X f)) := by
      unfold MvnEinet.blocksOut outMeasure
      refine congrArg Measure.pi (funext fun c => congrArg Measure.pi (funext fun f => ?_))
      have h3 : Touched E.leaf.num_features (2 : ℤ).toNat ⟨false, [0]⟩ f ↔ (f : Nat) / E.leaf.cardinality ∈ [0] := by
        rw [hcard, List.mem_singleton]
        constructor
        · rintro ⟨f', h1, ⟨i, hi, h2⟩, h3⟩
          simp at hi
          have : (2 : ℤ).toNat = 2 := rfl
          rw [this] at h3
          omega
        · intro h3
          exact ⟨0, by omega, ⟨0, by simp, by simp⟩, h3.symm⟩
      by_cases h4 : Touched E.leaf.num_features (2 : ℤ).toNat ⟨false, [0]⟩ f
      · rw [if_pos h4, if_pos (h3.1 h4)]
      · rw [if_neg h4, if_neg (fun h => h4 (h3.2 h))]
        rfl
    have e3 : givenLaw E (Touched E.leaf.num_features (2 : ℤ).toNat ⟨false, [0]⟩) Y 0 = E.lawBlocks [0] (fun _ f => .fin (X f)) 0 := by
      unfold givenLaw MvnEinet.lawBlocks
      rw [e2]
    rw [e3, MvnEinet.lawBlocks_lintegral hw hp hk _ _ hφ1]
    have htm : ∀ (c f : Nat), Measurable (if f = 0 then φ else fun _ : ℝ => (1 : ℝ≥0∞)) := by
      intro c f
      split_ifs
      · exact hφ
      · exact measurable_const
    have e4 := MvnEinet.density_test_blocks hw hp (X := fun _ f => .fin (X f)) (l := [0]) hk
      (t := fun c f => if f = 0 then φ else fun _ => 1) htm
    have e5 := MvnEinet.integral_blocks hw hp (X := fun _ f => .fin (X f)) (l := [0]) hk
    simp only [prod_first hC hF] at e4
    rw [e4, e5]
    have e6 : ∀ c i r, E.blkE c 0 i r (E.blockTest (fun c f => if f = 0 then φ else fun _ => 1) c 0) =
        ∫⁻ y, φ y ∂gaussianReal 0 1 := by
      intro c i r
      rw [← corr_blkE hcard hθ c 0 i r hφ]
      congr 1
      funext v
      unfold MvnEinet.blockTest
      rw [Finset.prod_eq_single ⟨0, by rw [hcard]; norm_num⟩]
      · simp
      · intro j _ hj
        dsimp only
        rw [if_neg]
        intro h
        apply hj
        apply Fin.ext
        simpa using h
      · simp
    have e7 : ∀ c : Nat, E.blockTest (fun c f => if f = 0 then φ else fun _ => 1) c 1
        (fun j => (Fl.fin (X (1 * E.leaf.cardinality + j))).val) = 1 := by
      intro c
      unfold MvnEinet.blockTest
      refine Finset.prod_eq_one fun j _ => ?_
      dsimp only
      rw [if_neg (by have := hw.card; omega)]
    have e8 := outP_two hw hk hout hC (fun c b => if b ∈ [0] then ∫⁻ y, φ y ∂gaussianReal 0 1 else
      gaussianPDF 0 1 (X 2) * gaussianPDF (X 2) 1 (X 3))
    have e9 := outP_two hw hk hout hC (fun c b => if b ∈ [0] then 1 else gaussianPDF 0 1 (X 2) * gaussianPDF (X 2) 1 (X 3))
    rw [if_pos (by simp), if_neg (by simp)] at e8 e9
    have hbp : ∀ c i r, E.blockP (fun _ f => .fin (X f)) c 1 i r = gaussianPDF 0 1 (X 2) * gaussianPDF (X 2) 1 (X 3) := by
      intro c i r
      rw [corr_blockP hcard hθ, corr_split]
      rfl
    have hb2 : ∀ b, b < E.net.num_features → b = 0 ∨ b = 1 := by
      intro b hb
      rw [hw.features, hout] at hb
      omega
    rw [Model.outP_congr hw.net (q := fun c b _ _ => if b ∈ [0] then ∫⁻ y, φ y ∂gaussianReal 0 1 else
        gaussianPDF 0 1 (X 2) * gaussianPDF (X 2) 1 (X 3)) (fun c hc b hb i _ r _ => ?_) hk, e8,
      Model.outP_congr hw.net (q := fun c b _ _ => if b ∈ [0] then 1 else
        gaussianPDF 0 1 (X 2) * gaussianPDF (X 2) 1 (X 3)) (fun c hc b hb i _ r _ => ?_) hk, e9]
    · rw [one_mul]
      refine ENNReal.mul_div_cancel_right ?_ ?_
      · exact mul_ne_zero (gaussianPDF_pos _ one_ne_zero _).ne' (gaussianPDF_pos _ one_ne_zero _).ne'
      · exact ENNReal.mul_ne_top gaussianPDF_ne_top gaussianPDF_ne_top
    · rcases hb2 b hb with rfl | rfl
      · rfl
      · rw [if_neg (by simp), if_neg (by simp), hbp]
    · rcases hb2 b hb with rfl | rfl
      · rw [if_pos (by simp), if_pos (by simp), e6]
      · rw [if_neg (by simp), if_neg (by simp), hbp, e7, one_mul]
  · refine ⟨gaussianPDF 0 2 (X 1) * (gaussianPDF 0 1 (X 2) * gaussianPDF (X 2) 1 (X 3)), ?_, ?_, fun y => ?_⟩
    · exact mul_ne_zero (gaussianPDF_pos _ (by norm_num) _).ne' (mul_ne_zero (gaussianPDF_pos _ one_ne_zero _).ne' (gaussianPDF_pos _ one_ne_zero _).ne')
    · exact ENNReal.mul_ne_top gaussianPDF_ne_top (ENNReal.mul_ne_top gaussianPDF_ne_top gaussianPDF_ne_top)
    · rw [MvnEinet.density_eq hw hp (fun c hc f hf => Fl.isFin_fin _) (ms := none) (l := []) rfl hk]
      simp only [List.not_mem_nil, if_false, corr_blockP hcard hθ, corr_split]
      rw [outP_two hw hk hout hC]
      simp only [Fl.val]
      norm_num
      rw [corr_bayes, mul_assoc]

end Einet.Props
