import Verif.PropsRegionsExact
import Verif.PropsSampleNeg

/-!
# C13 for models whose regions are single features

With several repetitions and `2 ** depth == num_features` the forward pass reads feature `f` in region `f`, the sampler in
the region chosen by the random `scopes`.
-/

open Classical MeasureTheory
open scoped ENNReal
noncomputable section
namespace Einet
namespace Props
open Tensor Einet

theorem gProb1_eq (d : LeafDims) (c f i r : Nat) :
    toP ((gBase d).logProb c f i r (.fin 1)) = ENNReal.ofReal (1 - wProb i) := by
  have := massLeaf_toP (d := d) (K := 2)
    (pmf := fun c f i r => softmaxR 2 ((fun _ _ i _ k => if i = 1 ∧ k = 1 then Real.log 2 else 0 : Nat → Nat → Nat → Nat → Nat → ℝ) c f i r))
    (tempered := fun T c f i r => softmaxR 2 fun k => Real.log (softmaxR 2 (fun k => if i = 1 ∧ k = 1 then Real.log 2 else 0) k) / T)
    (mode := fun c f i r => argmaxR (softmaxR 2 (fun k => if i = 1 ∧ k = 1 then Real.log 2 else 0)) 2) (b := true)
    (fun c f i r k _ => by unfold softmaxR; positivity) c f i r (k := 1) (by norm_num)
  rw [Nat.cast_one] at this
  refine this.trans ?_
  congr 1
  unfold softmaxR wProb
  rw [Finset.sum_range_succ, Finset.sum_range_one]
  by_cases hi : i = 1
  · simp [hi, Real.exp_log]; norm_num
  · simp [hi]; norm_num

theorem gTest (S : Nat → Bool) (d : LeafDims) (c f i r : Nat) :
    ∫⁻ x, wt S f x * toP ((gBase d).logProb c f i r (.fin x)) ∂(gBase d).ref f = ENNReal.ofReal (wq S f i) := by
  have hm : Measurable fun x : ℝ => toP ((gBase d).logProb c f i r (.fin x)) := massLeaf_measurable c f i r
  show ∫⁻ x, _ ∂(∑ k ∈ Finset.range 2, Measure.dirac (k : ℝ)) = _
  rw [lintegral_finsetSum_measure, Finset.sum_range_succ, Finset.sum_range_one]
  have hm' : Measurable fun x : ℝ => wt S f x * toP ((gBase d).logProb c f i r (.fin x)) := (wt_measurable S f).mul hm
  rw [lintegral_dirac' _ hm', lintegral_dirac' _ hm']
  unfold wt wq
  simp only [Nat.cast_zero, Nat.cast_one, gProb_eq, gProb1_eq]
  split_ifs with h1 h2
  · norm_num at h2
  · simp
  · rw [one_mul, one_mul, ← ENNReal.ofReal_add (wProb_pos i) (by unfold wProb; split_ifs <;> norm_num)]
    congr 1
    ring

section
variable {c : Config} {P : Params} {M : Model} (hP : P.Random) (hl : P.leaf = wLeaf) (hcard : c.cardinality = none)
  (h : build c P = .ok M)
include hP hl hcard h

theorem g_base : M.leaf.base = gBase c.leafDims := by
  have := build_leaf hP h
  rw [hl, hcard, gLeaf_build] at this
  exact (Except.ok.inj this).symm

omit hcard in
theorem g_samplable : M.Samplable (buildGroups c P) :=
  build_samplable hP (by rw [hl]; exact wLeaf_good.1) (by rw [hl]; exact wLeaf_good.2) h

/-- expectation of the test functions under the region densities of the forward pass. -/
theorem g_rowLaw {k : Nat} (hk : k < M.num_classes) (S : Nat → Bool) :
    rowLaw M wLeaf.ref k {ω | ∀ c f, S f.val = true → ω c f = 0} =
      M.topP 1 (M.regionP (buildGroups c P) fun _ f i _ => ENNReal.ofReal (wq S f i)) k := by
  have hs := g_samplable hP hl h
  have hpr : M.leaf.base.Proper := (build_WF hP h).2.2.1 (by rw [hl]; exact wLeaf_good.1)
  have hm : MeasurableSet {ω : Fin M.num_channels → Fin M.num_features → ℝ | ∀ c f, S f.val = true → ω c f = 0} := by
    have : {ω : Fin M.num_channels → Fin M.num_features → ℝ | ∀ c f, S f.val = true → ω c f = 0} =
        ⋂ c, ⋂ f, ⋂ _ : S f.val = true, (fun ω => ω c f) ⁻¹' {0} := by
      ext ω; simp [Set.mem_iInter]
    rw [this]
    refine MeasurableSet.iInter fun c => MeasurableSet.iInter fun f => MeasurableSet.iInter fun _ => ?_
    exact (measurableSet_singleton 0).preimage (by fun_prop)
  have e := Model.density_test hs.wf hpr (Model.observed_nan _) (k := k) hk
    (t := fun _ f => wt S f) fun _ f => wt_measurable S f
  have href : M.leaf.base.ref = fun _ => wLeaf.ref := by
    rw [← hl]; exact LeafSpec.ref_eq (build_leaf hP h)
  unfold Props.rowLaw
  rw [withDensity_apply _ hm, ← lintegral_indicator hm]
  rw [Model.outP_eq] at e
  have hms : (missing M.num_channels M.num_features M.leaf.base.ref fun _ _ => .nan) =
      Measure.pi fun _ : Fin M.num_channels => Measure.pi fun _ : Fin M.num_features => wLeaf.ref := by
    unfold missing; simp [href]
  rw [hms] at e
  refine Eq.trans ?_ (e.symm.trans ?_)
  · refine lintegral_congr fun ω => ?_
    by_cases hω : ω ∈ {ω : Fin M.num_channels → Fin M.num_features → ℝ | ∀ c f, S f.val = true → ω c f = 0}
    · rw [Set.indicator_of_mem hω]
      rw [Set.mem_ofPred_eq] at hω
      rw [Finset.prod_eq_one, one_mul]
      intro f _
      refine Finset.prod_eq_one fun c _ => ?_
      unfold wt
      split_ifs with h1 h2
      · rfl
      · exact absurd (hω c f h1) h2
      · rfl
    · rw [Set.indicator_of_notMem hω]
      rw [Set.mem_ofPred_eq] at hω
      push Not at hω
      obtain ⟨c, f, h1, h2⟩ := hω
      rw [Finset.prod_eq_zero (Finset.mem_univ f), zero_mul]
      refine Finset.prod_eq_zero (Finset.mem_univ c) ?_
      unfold wt
      rw [if_pos h1, if_neg h2]
  · unfold Model.entryRef
    simp only [if_true, g_base hP hl hcard h, gTest]

/-- expectation of the test functions under `sample`. -/
theorem g_sample (hK : M.num_classes = 1) (S : Nat → Bool) :
    (M.sample { num_samples := some 1 }).E
        (fun s => if ∀ c f, c < M.num_channels → f < M.num_features → S f = true → s.get [0, c, f] = .fin 0 then 1 else 0) =
      M.topP 1 (M.regionS (buildGroups c P) fun _ f i _ => ENNReal.ofReal (wq S f i)) 0 := by
  have hs := g_samplable hP hl h
  have e := Model.sample_E hs (a := { num_samples := some 1 }) rfl one_pos rfl one_ne_zero one_pos trivial
    (t := fun _ _ f x => if S f then if x = .fin 0 then 1 else 0 else 1) (fun n c f => by
      have := wt_measurable S f
      unfold wt at this
      simpa using this)
  rw [hK] at e
  refine Eq.trans ?_ (e.trans ?_)
  · congr 1
    funext s
    unfold prod3
    simp only [SampleArgs.count, Option.getD_some, Finset.range_one, Finset.prod_singleton]
    split_ifs with h1
    · rw [Finset.prod_eq_one]
      intro f hf
      refine Finset.prod_eq_one fun c hc => ?_
      split_ifs with h2 h3
      · rfl
      · exact absurd (h1 c f (by simpa using hc) (by simpa using hf) h2) h3
      · rfl
    · push Not at h1
      obtain ⟨c, f, hc, hf, h2, h3⟩ := h1
      rw [Finset.prod_eq_zero (Finset.mem_range.2 hf)]
      refine Finset.prod_eq_zero (Finset.mem_range.2 hc) ?_
      rw [if_pos h2, if_neg h3]
  · simp only [SampleArgs.count, Option.getD_some, Finset.range_one, Finset.prod_singleton, Finset.sum_singleton]
    unfold Model.classW
    rw [hK, if_neg (by omega), if_pos rfl, one_mul]
    congr 2
    funext c' f i r
    unfold BaseLeaf.compE
    rw [if_neg (by simp)]
    rw [hs.samp.law_one c' f i r _ (by have := wt_measurable S f; unfold wt at this; simpa using this), g_base hP hl hcard h]
    rw [← gTest S c.leafDims c' f i r]
    unfold wt
    simp

end

/-- two features, two repetitions, depth 1. -/
def fdConfig : Config := { wConfig 2 1 1 with num_repetitions := 2 }

/-- weights 1/3, 2/3 for region 0 and 1/2, 1/2 for region 1; the permutations of the features are reversed. -/
def fdParams : Params := { gParams (fun n => (List.range n).reverse) with
  logits := fun _ i => if at' 0 i = 0 ∧ at' 1 i = 1 then Real.log 2 else 0 }

theorem fdParams_random : fdParams.Random := ⟨fun _ => List.Perm.refl _, fun _ _ => List.reverse_perm _⟩

theorem fd_valid : fdConfig.assertValid = .ok () := by
  rw [assertValid_iff]
  refine ⟨by norm_num [fdConfig, wConfig], by norm_num [fdConfig, wConfig], by norm_num [fdConfig, wConfig],
    by norm_num [fdConfig, wConfig], by norm_num [fdConfig, wConfig], by norm_num [fdConfig, wConfig], ?_, rfl,
    ?_, ?_, ?_, by norm_num [fdConfig, wConfig], ?_⟩
  · rintro q ⟨⟩
    norm_num [Fl.lt]
  · simp [fdConfig, wConfig]
  · simp [fdConfig, wConfig]
  · simp [fdConfig, wConfig]
  · norm_num [fdConfig, wConfig, Int.fdiv_one]

theorem fd_exists : ∃ M, build fdConfig fdParams = .ok M :=
  (build_iff (c := fdConfig) (P := fdParams)).2
    ⟨fd_valid, ⟨_, gLeaf_build _⟩, by norm_num [fdConfig, wConfig], by simp [fdConfig, wConfig], fun _ => wDrop⟩

theorem fd_layers {M : Model} (h : build fdConfig fdParams = .ok M) :
    M.layers = [.linsum2 (mkSumL 2 2 1 2 LinsumLayer2.weightShape (fdParams.logits 1))] := by
  obtain ⟨O, e⟩ := build_layers h rfl
  unfold topDownStructure at e
  rw [if_neg (by norm_num [fdConfig, wConfig]), if_neg (by norm_num [fdConfig, wConfig])] at e
  obtain ⟨L, hL, e⟩ := bind_ok e
  simp only [Res.pure_eq, Except.ok.injEq, Prod.mk.injEq] at e
  rw [← e.1]
  rw [show fdConfig.depth.toNat = 0 + 1 from rfl] at hL
  simp only [topDownLayers, Res.ok_bind] at hL
  obtain ⟨l, hl, hL⟩ := bind_ok hL
  simp only [Res.pure_eq, Except.ok.injEq] at hL
  rw [← hL]
  unfold mkLayer at hl
  rw [if_neg (by simp [fdConfig, wConfig]), if_neg (by simp [fdConfig, wConfig]), if_pos (by simp [fdConfig, wConfig])] at hl
  obtain ⟨_, _, hl⟩ := bind_ok hl
  simp only [Res.pure_eq, Except.ok.injEq] at hl
  rw [← hl]
  rfl

/-- the density for region densities that do not depend on the repetition. -/
theorem fd_topP {M : Model} (h : build fdConfig fdParams = .ok M) (u : Nat → Nat → ℝ) (hu : ∀ d i, 0 ≤ u d i) (v : PRow)
    (hv : ∀ d, d < 2 → ∀ i, i < 2 → ∀ r, r < 2 → v d i r = ENNReal.ofReal (u d i)) :
    M.topP 1 v 0 = ENNReal.ofReal ((u 0 0 + 2 * u 0 1) / 3 * ((u 1 0 + u 1 1) / 2)) := by
  obtain ⟨hz, hw, -, -⟩ := build_WF fdParams_random h
  have hR : M.num_repetitions = 2 := hz.reps
  have key : ∀ d, d < 2 → ∀ r, r < 2 → ∑ i ∈ Finset.range 2,
      toP ((mkSumL 2 2 1 2 LinsumLayer2.weightShape (fdParams.logits 1)).lw 1 d i 0 r) * v d i r =
        ENNReal.ofReal (if d = 0 then (u d 0 + 2 * u d 1) / 3 else (u d 0 + u d 1) / 2) := by
    intro d hd r hr
    rw [Finset.sum_range_succ, Finset.sum_range_one, Wit.weight (by omega), Wit.weight (by omega), hv d hd 0 (by omega) r hr,
      hv d hd 1 (by omega) r hr]
    rw [← ENNReal.ofReal_mul (by positivity), ← ENNReal.ofReal_mul (by positivity), ← ENNReal.ofReal_add]
    · congr 1
      by_cases h0 : d = 0
      · simp [h0, fdParams, at', Real.exp_log]
        ring
      · simp [h0, fdParams, at']
        ring
    · exact mul_nonneg (by positivity) (hu _ _)
    · exact mul_nonneg (by positivity) (hu _ _)
  have hden : ∀ r, r < 2 → denL 1 M.layers v 0 0 r = ENNReal.ofReal ((u 0 0 + 2 * u 0 1) / 3 * ((u 1 0 + u 1 1) / 2)) := by
    intro r hr
    rw [fd_layers h]
    simp only [denL, Layer.den]
    unfold rightP
    rw [show (mkSumL 2 2 1 2 LinsumLayer2.weightShape (fdParams.logits 1)).num_sums_in = 2 from rfl, if_pos (by simp [mkSumL])]
    rw [show 2 * 0 = 0 from rfl, show 0 + 1 = 1 from rfl, key 0 (by omega) r hr]
    refine (congrArg _ (key 1 (by omega) r hr)).trans ?_
    rw [if_pos rfl, if_neg one_ne_zero, ENNReal.ofReal_mul]
    have := hu 0 0; have := hu 0 1
    linarith
  unfold Model.topP
  rw [if_pos (by omega), Finset.sum_congr rfl fun r hr => by rw [hden r (by rw [hR] at hr; simpa using hr)], ← Finset.sum_mul]
  obtain ⟨m1, m2, m3, m4, m5⟩ := hw.mix (by omega)
  have hw := (M.mixing.lwMix_fin (T := 1) (D := 1) (by rw [m4]; simp [MixingLayer.weightShape, m1]) m5 (by omega) one_ne_zero
    (d := 0) (by omega) (s := 0) (by rw [m3, show M.num_classes = 1 from hz.classes]; omega)).2
  rw [m2] at hw
  rw [hw, one_mul]

/-- **C13 is false** also for several repetitions when `2 ** depth == num_features`: for some valid configuration with one
class, `sample` returns a row whose first feature is `0` with probability 5/12, whereas the density `exp(model(x))` gives
these rows probability 7/18.  (`FactorizedLeaf.forward` returns before the features are assigned to their random groups.) -/
theorem C13_refuted_full_depth : ∃ (c : Config) (P : Params) (M : Model), P.Random ∧ P.leaf.Good ∧ P.leaf.CanSample ∧
    build c P = .ok M ∧ 1 < M.num_repetitions ∧ M.num_classes = 1 ∧ M.num_channels = 1 ∧ M.num_features = 2 ∧
    (M.sample { num_samples := some 1 }).E (fun s => if s.get [0, 0, 0] = .fin 0 then 1 else 0) = ENNReal.ofReal (5 / 12) ∧
    rowLaw M P.leaf.ref 0 {ω | ∀ c f, f.val = 0 → ω c f = 0} = ENNReal.ofReal (7 / 18) := by
  obtain ⟨M, h⟩ := fd_exists
  obtain ⟨hz, hw, -, -⟩ := build_WF fdParams_random h
  have hF : M.num_features = 2 := hz.features
  have hC : M.num_channels = 1 := hz.channels
  have hR : M.num_repetitions = 2 := hz.reps
  have hK : M.num_classes = 1 := hz.classes
  have hleaf : ∃ B : BaseLeaf, B.num_features = 2 ∧ M.leaf = .factorized (FactLeaf.build fdParams B 2) := by
    have h' := h
    unfold build at h'
    rw [fd_valid] at h'
    simp only [Res.ok_bind] at h'
    rw [if_pos (by rfl)] at h'
    obtain ⟨_, _, _, B, hB, e⟩ := buildTopDown_spec fdParams_random fd_valid h'
    obtain ⟨_, ⟨d1, d2, d3, d4⟩, _, _⟩ := LeafSpec.build_spec hB
    refine ⟨B, d1, ?_⟩
    rw [e]
    unfold buildInput
    rw [if_neg (by rw [d4]; decide)]
    rfl
  obtain ⟨B, hB, hL⟩ := hleaf
  have hgF : ∀ r f, M.grpF (buildGroups fdConfig fdParams) r f = f := by
    intro r f
    unfold Model.grpF
    rw [hL]
    exact if_pos hB
  have hgS : ∀ r f, f < 2 → M.grpS (buildGroups fdConfig fdParams) r f = 1 - f := by
    intro r f hf
    unfold Model.grpS
    rw [hL]
    show findGroup (groupSizes 2 2) ((argsort (List.range 2).reverse).getD f 0) = 1 - f
    have hp := argsort_isPerm (List.reverse_perm (List.range 2))
    have : (argsort (List.range 2).reverse).getD f 0 = 1 - f := by
      have := hp.qp (1 - f) (by omega)
      interval_cases f <;> simpa [List.range_succ] using this
    rw [this]
    interval_cases f <;> simp [groupSizes, List.range_succ, findGroup]
  have hset : ∀ s : Tensor Fl, (∀ c f, c < M.num_channels → f < M.num_features → decide (f = 0) = true → s.get [0, c, f] = .fin 0) ↔
      s.get [0, 0, 0] = .fin 0 := by
    intro s
    rw [hC, hF]
    refine ⟨fun h => h 0 0 (by omega) (by omega) rfl, fun h c f hc hf h0 => ?_⟩
    obtain rfl : c = 0 := by omega
    obtain rfl : f = 0 := by simpa using h0
    exact h
  refine ⟨_, _, M, fdParams_random, wLeaf_good.1, wLeaf_good.2, h, by omega, hK, hC, hF, ?_, ?_⟩
  · have e := g_sample fdParams_random rfl rfl h hK fun f => decide (f = 0)
    simp only [hset] at e
    rw [e, fd_topP h (fun d i => if d = 1 then wProb i else 1) (by intro d i; split_ifs; exacts [wProb_pos i, zero_le_one])]
    · congr 1
      norm_num [wProb]
    · intro d hd i hi r hr
      unfold Model.regionS
      rw [hF, hC, Finset.prod_range_succ, Finset.prod_range_one, hgS r 0 (by omega), hgS r 1 (by omega)]
      interval_cases d <;> simp [wq]
  · have e := g_rowLaw fdParams_random rfl rfl h (k := 0) (by omega) fun f => decide (f = 0)
    refine Eq.trans ?_ (e.trans ?_)
    · simp only [decide_eq_true_eq]; rfl
    rw [fd_topP h (fun d i => if d = 0 then wProb i else 1) (by intro d i; split_ifs; exacts [wProb_pos i, zero_le_one])]
    · congr 1
      norm_num [wProb]
    · intro d hd i hi r hr
      unfold Model.regionP
      rw [hF, hC, Finset.prod_range_succ, Finset.prod_range_one, hgF r 0, hgF r 1]
      interval_cases d <;> simp [wq]

end Props
end Einet
