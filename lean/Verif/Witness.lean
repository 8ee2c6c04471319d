import Verif.PropsSample

/-!
# Small explicit models used as counterexamples

Two-valued categorical leaves with `p(0) = 1/2` for component 0 and `p(0) = 1/3` for component 1, one channel, one
repetition, two leaf components; identity permutations.
-/

open Classical MeasureTheory
open scoped ENNReal
noncomputable section
namespace Einet
open Tensor

/-- the leaf of all witnesses. -/
def wLeaf : LeafSpec := .categorical 2 fun _ _ i _ k => if i = 1 ∧ k = 1 then Real.log 2 else 0

/-- configuration of the witnesses. -/
def wConfig (F K depth : ℤ) : Config where
  num_features := F
  num_channels := 1
  num_sums := 2
  num_leaves := 2
  num_repetitions := 1
  num_classes := K
  depth := depth
  dropout := some (.fin 0)
  layer_type := "linsum2"
  structure' := "top-down"

/-- parameters of the witnesses. -/
def wParams (w : Nat → List Nat → ℝ) (cl : List Nat → ℝ) : Params where
  leaf := wLeaf
  logits := w
  rootLogits _ := 0
  mixLogits _ := 0
  classLogits := cl
  shuffle := id
  randperm _ n := List.range n

theorem wParams_random (w : Nat → List Nat → ℝ) (cl : List Nat → ℝ) : (wParams w cl).Random :=
  ⟨fun _ => List.Perm.refl _, fun _ _ => List.Perm.refl _⟩

theorem wLeaf_good : wLeaf.Good ∧ wLeaf.CanSample := by simp [wLeaf, LeafSpec.Good, LeafSpec.CanSample]

/-- the leaf distribution of the witnesses. -/
def wBase (F : ℤ) : BaseLeaf :=
  categoricalLeaf (wConfig F 1 0).leafDims 2 fun _ _ i _ k => if i = 1 ∧ k = 1 then Real.log 2 else 0

theorem wConfig_valid {F K d : ℤ} (hF : 2 ≤ F) (hK : 1 ≤ K) (hd : (2 : ℚ) ^ d ≤ F) :
    (wConfig F K d).assertValid = .ok () := by
  rw [assertValid_iff]
  refine ⟨hF, by norm_num [wConfig], hK, by norm_num [wConfig], by norm_num [wConfig], by norm_num [wConfig], ?_, rfl,
    ?_, ?_, ?_, by norm_num [wConfig], ?_⟩
  · rintro q ⟨⟩
    norm_num [Fl.lt]
  · simp [wConfig]
  · simp [wConfig]
  · simp [wConfig]
  · simpa [wConfig, Int.fdiv_one] using hd

theorem wDrop : DropOK (some (.fin 0)) := ⟨0, rfl, le_refl _, one_pos⟩

theorem wLeaf_build (F K d : ℤ) : wLeaf.build none (wConfig F K d).leafDims = .ok (wBase F) := by
  unfold wLeaf LeafSpec.build
  rw [require_true _ rfl]
  simp only [Res.ok_bind]
  rw [require_true _ (by norm_num)]
  rfl

theorem build_layers {c : Config} {P : Params} {M : Model} (h : build c P = .ok M) (hs : c.structure' = "top-down") :
    ∃ O, topDownStructure c P = .ok (M.layers, O) := by
  unfold build at h
  obtain ⟨_, _, h⟩ := bind_ok h
  rw [if_pos hs] at h
  unfold buildTopDown at h
  obtain ⟨⟨l, O⟩, hl, h⟩ := bind_ok h
  obtain ⟨_, _, h⟩ := bind_ok h
  obtain ⟨_, _, h⟩ := bind_ok h
  simp only [Res.pure_eq, Except.ok.injEq] at h
  rw [← h]
  exact ⟨O, hl⟩

/-- what is needed to evaluate a witness. -/
structure Wit (F K : Nat) (d : ℤ) (w : Nat → List Nat → ℝ) (cl : List Nat → ℝ) (M : Model) : Prop where
  build : build (wConfig F K d) (wParams w cl) = .ok M
  features : M.num_features = F
  channels : M.num_channels = 1
  leaves : M.num_leaves = 2
  reps : M.num_repetitions = 1
  classes : M.num_classes = K
  leaf : M.leaf = .simple (FactSimple.build (wParams w cl) (wBase F) (2 ^ d.toNat))

theorem wit_exists {F K : Nat} {d : ℤ} (hF : 2 ≤ F) (hK : 1 ≤ K) (hd0 : 0 ≤ d) (hd : (2 : ℚ) ^ d ≤ F)
    (w : Nat → List Nat → ℝ) (cl : List Nat → ℝ) : ∃ M, Wit F K d w cl M := by
  have hv := wConfig_valid (F := F) (K := K) (d := d) (by exact_mod_cast hF) (by exact_mod_cast hK) (by exact_mod_cast hd)
  obtain ⟨M, h⟩ := (build_iff (c := wConfig F K d) (P := wParams w cl)).2
    ⟨hv, ⟨_, wLeaf_build F K d⟩, hd0, by simp [wConfig], fun _ => wDrop⟩
  have hz := (build_WF (wParams_random w cl) h).1
  refine ⟨M, h, by rw [hz.features]; simp [wConfig], by rw [hz.channels]; simp [wConfig],
    by rw [hz.leaves]; simp [wConfig], by rw [hz.reps]; simp [wConfig], by rw [hz.classes]; simp [wConfig], ?_⟩
  have h' := h
  unfold Einet.build at h'
  rw [hv] at h'
  simp only [Res.ok_bind] at h'
  rw [if_pos (by rfl)] at h'
  obtain ⟨_, _, _, B, hB, e⟩ := buildTopDown_spec (wParams_random w cl) hv h'
  have : B = wBase F := by
    have h2 := hB.symm.trans (wLeaf_build F K d)
    exact Except.ok.inj h2
  subst this
  rw [e]
  unfold buildInput
  rw [if_pos (show (wBase F).num_repetitions = 1 from rfl)]
  rfl

theorem argsort_range (n f : Nat) (hf : f < n) : (argsort (List.range n)).getD f 0 = f := by
  have h := argsort_isPerm (List.Perm.refl (List.range n))
  have := h.qp f hf
  rwa [show (List.range n).getD f 0 = f by rw [getD_of_lt (by simpa using hf), List.getElem_range]] at this

/-- the probability of the value 0 under component `i`. -/
def wProb (i : Nat) : ℝ := if i = 1 then 1 / 3 else 1 / 2

theorem wProb_eq (F : ℤ) (c f i r : Nat) : toP ((wBase F).logProb c f i r (.fin 0)) = ENNReal.ofReal (wProb i) := by
  have := massLeaf_toP (d := (wConfig F 1 0).leafDims) (K := 2)
    (pmf := fun c f i r => softmaxR 2 ((fun _ _ i _ k => if i = 1 ∧ k = 1 then Real.log 2 else 0 : Nat → Nat → Nat → Nat → Nat → ℝ) c f i r))
    (tempered := fun T c f i r => softmaxR 2 fun k => Real.log (softmaxR 2 (fun k => if i = 1 ∧ k = 1 then Real.log 2 else 0) k) / T)
    (mode := fun c f i r => argmaxR (softmaxR 2 (fun k => if i = 1 ∧ k = 1 then Real.log 2 else 0)) 2) (b := true)
    (fun c f i r k _ => by unfold softmaxR; positivity) c f i r (k := 0) (by norm_num)
  rw [Nat.cast_zero] at this
  refine this.trans ?_
  congr 1
  unfold softmaxR wProb
  rw [Finset.sum_range_succ, Finset.sum_range_one]
  by_cases hi : i = 1
  · simp [hi, Real.exp_log]; norm_num
  · simp [hi]; norm_num

theorem wProb_pos (i : Nat) : 0 ≤ wProb i := by unfold wProb; split_ifs <;> norm_num

/-- test function: indicator of 0 for the features in `S`, 1 for the others. -/
def wt (S : Nat → Bool) (f : Nat) (x : ℝ) : ℝ≥0∞ := if S f then if x = 0 then 1 else 0 else 1

/-- expected value of the test function under component `i`. -/
def wq (S : Nat → Bool) (f i : Nat) : ℝ := if S f then wProb i else 1

theorem wq_nonneg (S : Nat → Bool) (f i : Nat) : 0 ≤ wq S f i := by
  unfold wq; split_ifs
  · exact wProb_pos i
  · norm_num

theorem wt_measurable (S : Nat → Bool) (f : Nat) : Measurable (wt S f) := by
  unfold wt
  split_ifs
  · exact Measurable.ite (measurableSet_singleton 0) measurable_const measurable_const
  · exact measurable_const

theorem wProb1_eq (F : ℤ) (c f i r : Nat) :
    toP ((wBase F).logProb c f i r (.fin 1)) = ENNReal.ofReal (1 - wProb i) := by
  have := massLeaf_toP (d := (wConfig F 1 0).leafDims) (K := 2)
    (pmf := fun c f i r => softmaxR 2 ((fun _ _ i _ k => if i = 1 ∧ k = 1 then Real.log 2 else 0 : Nat → Nat → Nat → Nat → Nat → ℝ) c f i r))
    (tempered := fun T c f i r => softmaxR 2 fun k => Real.log (softmaxR 2 (fun k => if i = 1 ∧ k = 1 then Real.log 2 else 0) k) / T)
    (mode := fun c f i r => argmaxR (softmaxR 2 (fun k => if i = 1 ∧ k = 1 then Real.log 2 else 0)) 2) (b := true)
    (fun c f i r k _ => by unfold softmaxR; positivity) c f i r (k := 1) (by norm_num)
  rw [Nat.cast_one] at this
  refine this.trans ?_
  congr 1
  unfold softmaxR wProb
  rw [Finset.sum_range_succ, Finset.sum_range_one]
  by_cases hi : i = 1
  · simp [hi, Real.exp_log]; norm_num
  · simp [hi]; norm_num

theorem wTest (S : Nat → Bool) (F : ℤ) (c f i r : Nat) :
    ∫⁻ x, wt S f x * toP ((wBase F).logProb c f i r (.fin x)) ∂(wBase F).ref f = ENNReal.ofReal (wq S f i) := by
  have hm : Measurable fun x : ℝ => toP ((wBase F).logProb c f i r (.fin x)) := massLeaf_measurable c f i r
  show ∫⁻ x, _ ∂(∑ k ∈ Finset.range 2, Measure.dirac (k : ℝ)) = _
  rw [lintegral_finsetSum_measure, Finset.sum_range_succ, Finset.sum_range_one]
  have hm' : Measurable fun x : ℝ => wt S f x * toP ((wBase F).logProb c f i r (.fin x)) := (wt_measurable S f).mul hm
  rw [lintegral_dirac' _ hm', lintegral_dirac' _ hm']
  unfold wt wq
  simp only [Nat.cast_zero, Nat.cast_one, wProb_eq, wProb1_eq]
  split_ifs with h1 h2
  · norm_num at h2
  · simp
  · rw [one_mul, one_mul, ← ENNReal.ofReal_add (wProb_pos i) (by unfold wProb; split_ifs <;> norm_num)]
    congr 1
    ring

namespace Wit
variable {F K : Nat} {d : ℤ} {w : Nat → List Nat → ℝ} {cl : List Nat → ℝ} {M : Model}

theorem base (h : Wit F K d w cl M) : M.leaf.base = wBase F := by rw [h.leaf]; rfl

theorem samplable (h : Wit F K d w cl M) : M.Samplable (buildGroups (wConfig F K d) (wParams w cl)) :=
  build_samplable (wParams_random w cl) wLeaf_good.1 wLeaf_good.2 h.build

theorem proper (h : Wit F K d w cl M) : M.leaf.base.Proper := (build_WF (wParams_random w cl) h.build).2.2.1 wLeaf_good.1

/-- expectation of the test functions under the region densities of the forward pass. -/
theorem rowLaw_eq (h : Wit F K d w cl M) {k : Nat} (hk : k < K) (S : Nat → Bool) :
    Props.rowLaw M wLeaf.ref k {ω | ∀ c f, S f.val = true → ω c f = 0} =
      M.topP 1 (M.regionP (buildGroups (wConfig F K d) (wParams w cl)) fun _ f i _ => ENNReal.ofReal (wq S f i)) k := by
  have hm : MeasurableSet {ω : Fin M.num_channels → Fin M.num_features → ℝ | ∀ c f, S f.val = true → ω c f = 0} := by
    have : {ω : Fin M.num_channels → Fin M.num_features → ℝ | ∀ c f, S f.val = true → ω c f = 0} =
        ⋂ c, ⋂ f, ⋂ _ : S f.val = true, (fun ω => ω c f) ⁻¹' {0} := by
      ext ω; simp [Set.mem_iInter]
    rw [this]
    refine MeasurableSet.iInter fun c => MeasurableSet.iInter fun f => MeasurableSet.iInter fun _ => ?_
    exact (measurableSet_singleton 0).preimage (by fun_prop)
  have e := Model.density_test h.samplable.wf h.proper (Model.observed_nan _) (k := k) (by rw [h.classes]; exact hk)
    (t := fun _ f => wt S f) fun _ f => wt_measurable S f
  have href : M.leaf.base.ref = fun _ => wLeaf.ref := LeafSpec.ref_eq (build_leaf (wParams_random w cl) h.build)
  unfold Props.rowLaw
  rw [withDensity_apply _ hm, ← lintegral_indicator hm]
  rw [Model.outP_eq] at e
  have hms : (missing M.num_channels M.num_features M.leaf.base.ref fun _ _ => .nan) =
      Measure.pi fun _ : Fin M.num_channels => Measure.pi fun _ : Fin M.num_features => wLeaf.ref := by
    unfold missing; simp [href]
  rw [hms] at e
  refine Eq.trans ?_ (e.symm.trans ?_)
  · refine lintegral_congr fun ω => ?_
    by_cases hω : ω ∈ {ω : Fin M.num_channels → Fin M.num_features → ℝ | ∀ c f, S f.val = true → ω c f = 0}
    · rw [Set.indicator_of_mem hω]
      rw [Set.mem_ofPred_eq] at hω
      rw [Finset.prod_eq_one, one_mul]
      intro f _
      refine Finset.prod_eq_one fun c _ => ?_
      unfold wt
      split_ifs with h1 h2
      · rfl
      · exact absurd (hω c f h1) h2
      · rfl
    · rw [Set.indicator_of_notMem hω]
      rw [Set.mem_ofPred_eq] at hω
      push Not at hω
      obtain ⟨c, f, h1, h2⟩ := hω
      rw [Finset.prod_eq_zero (Finset.mem_univ f), zero_mul]
      refine Finset.prod_eq_zero (Finset.mem_univ c) ?_
      unfold wt
      rw [if_pos h1, if_neg h2]
  · unfold Model.entryRef
    simp only [if_true, h.base, wTest]

/-- expectation of the test functions under `sample`. -/
theorem sample_eq (h : Wit F K d w cl M) (ci : Option ClassIndex) (hc : M.ClassOK 1 ci) (S : Nat → Bool) :
    (M.sample { num_samples := some 1, class_index := ci }).E
        (fun s => if ∀ f, f < F → S f = true → s.get [0, 0, f] = .fin 0 then 1 else 0) =
      ∑ k ∈ Finset.range K, M.classW 1 ci 0 k *
        M.topP 1 (M.regionS (buildGroups (wConfig F K d) (wParams w cl)) fun _ f i _ => ENNReal.ofReal (wq S f i)) k := by
  have e := Model.sample_E h.samplable (a := { num_samples := some 1, class_index := ci }) rfl one_pos rfl one_ne_zero one_pos hc
    (t := fun _ _ f x => if S f then if x = .fin 0 then 1 else 0 else 1) (fun n c f => by
      have := wt_measurable S f
      unfold wt at this
      simpa using this)
  rw [h.classes] at e
  refine Eq.trans ?_ (e.trans ?_)
  · congr 1
    funext s
    unfold prod3
    rw [h.channels, h.features]
    simp only [SampleArgs.count, Option.getD_some, Finset.range_one, Finset.prod_singleton]
    split_ifs with h1
    · rw [Finset.prod_eq_one]
      intro f hf
      split_ifs with h2 h3
      · rfl
      · exact absurd (h1 f (by simpa using hf) h2) h3
      · rfl
    · push Not at h1
      obtain ⟨f, hf, h2, h3⟩ := h1
      rw [Finset.prod_eq_zero (Finset.mem_range.2 hf)]
      rw [if_pos h2, if_neg h3]
  · simp only [SampleArgs.count, Option.getD_some, Finset.range_one, Finset.prod_singleton]
    refine Finset.sum_congr rfl fun k _ => ?_
    congr 3
    funext c f i r
    unfold BaseLeaf.compE
    rw [if_neg (by simp)]
    rw [h.samplable.samp.law_one c f i r _ (by have := wt_measurable S f; unfold wt at this; simpa using this), h.base]
    rw [← wTest S F c f i r]
    unfold wt
    simp

theorem layers0 (h : Wit F K 0 w cl M) : M.layers = [.sum (mkSumL 1 2 K 1 SumLayer.weightShape (w 0))] := by
  obtain ⟨O, e⟩ := build_layers h.build rfl
  unfold topDownStructure at e
  rw [if_pos (by rfl)] at e
  obtain ⟨L, hL, e⟩ := bind_ok e
  simp only [Res.pure_eq, Except.ok.injEq, Prod.mk.injEq] at e
  rw [← e.1]
  unfold mkSum at hL
  obtain ⟨_, _, hL⟩ := bind_ok hL
  simp only [Res.pure_eq, Except.ok.injEq] at hL
  rw [← hL]
  simp [wConfig, wParams]

theorem layers1 (h : Wit F K 1 w cl M) : M.layers = [.linsum2 (mkSumL 2 2 K 1 LinsumLayer2.weightShape (w 1))] := by
  obtain ⟨O, e⟩ := build_layers h.build rfl
  unfold topDownStructure at e
  rw [if_neg (by norm_num [wConfig]), if_neg (by norm_num [wConfig])] at e
  obtain ⟨L, hL, e⟩ := bind_ok e
  simp only [Res.pure_eq, Except.ok.injEq, Prod.mk.injEq] at e
  rw [← e.1]
  rw [show (wConfig F K 1).depth.toNat = 0 + 1 from rfl] at hL
  simp only [topDownLayers, Res.ok_bind] at hL
  obtain ⟨l, hl, hL⟩ := bind_ok hL
  simp only [Res.pure_eq, Except.ok.injEq] at hL
  rw [← hL]
  unfold mkLayer at hl
  rw [if_neg (by simp [wConfig]), if_neg (by simp [wConfig]), if_pos (by simp [wConfig])] at hl
  obtain ⟨_, _, hl⟩ := bind_ok hl
  simp only [Res.pure_eq, Except.ok.injEq] at hl
  rw [← hl]
  simp [wConfig, wParams]

theorem weight {D O R : Nat} {shape : SumL → List Nat} {g : List Nat → ℝ} {e s r k : Nat} (hk : k < 2) :
    toP ((mkSumL D 2 O R shape g).lw 1 e k s r) =
      ENNReal.ofReal (Real.exp (g [e, k, s, r]) / (Real.exp (g [e, 0, s, r]) + Real.exp (g [e, 1, s, r]))) := by
  have e1 : (mkSumL D 2 O R shape g).lw 1 e k s r = .fin (Real.log (sw 2 (fun k => g [e, k, s, r]) 1 k)) :=
    logSoftmax_sw (f := fun k => .fin (g [e, k, s, r])) one_ne_zero (fun k _ => Fl.isFin_fin _) hk
  rw [e1, toP_fin, Real.exp_log (sw_pos _ _ _ _)]
  unfold sw Fl.rlsm
  simp only [div_one]
  rw [Real.exp_sub, Real.exp_log (Finset.sum_pos (fun _ _ => Real.exp_pos _) ⟨0, by simp⟩), Finset.sum_range_succ,
    Finset.sum_range_one]

/-- depth 0: a mixture of the two components of the single region. -/
theorem topP0 (h : Wit F K 0 w cl M) (u : Nat → Nat → ℝ) (hu : ∀ d i, 0 ≤ u d i) (v : PRow)
    (hv : ∀ i, i < 2 → v 0 i 0 = ENNReal.ofReal (u 0 i)) (k : Nat) :
    M.topP 1 v k = ENNReal.ofReal
      ((Real.exp (w 0 [0, 0, k, 0]) * u 0 0 + Real.exp (w 0 [0, 1, k, 0]) * u 0 1) /
        (Real.exp (w 0 [0, 0, k, 0]) + Real.exp (w 0 [0, 1, k, 0]))) := by
  unfold Model.topP
  rw [if_neg (by rw [h.reps]; omega), h.layers0]
  simp only [denL, Layer.den]
  rw [show (mkSumL 1 2 K 1 SumLayer.weightShape (w 0)).num_sums_in = 2 from rfl, Finset.sum_range_succ,
    Finset.sum_range_one, weight (by omega), weight (by omega), hv 0 (by omega), hv 1 (by omega)]
  rw [← ENNReal.ofReal_mul (by positivity), ← ENNReal.ofReal_mul (by positivity), ← ENNReal.ofReal_add]
  · congr 1; ring
  · exact mul_nonneg (by positivity) (hu _ _)
  · exact mul_nonneg (by positivity) (hu _ _)

/-- depth 1 with uniform weights: the product over the two regions of the average of the two components. -/
theorem topP1 (h : Wit F K 1 w cl M) (hw : ∀ i, w 1 i = 0) (u : Nat → Nat → ℝ) (hu : ∀ d i, 0 ≤ u d i) (v : PRow)
    (hv : ∀ d, d < 2 → ∀ i, i < 2 → v d i 0 = ENNReal.ofReal (u d i)) (k : Nat) :
    M.topP 1 v k = ENNReal.ofReal ((u 0 0 + u 0 1) / 2 * ((u 1 0 + u 1 1) / 2)) := by
  have key : ∀ d, d < 2 → ∑ i ∈ Finset.range 2,
      toP ((mkSumL 2 2 K 1 LinsumLayer2.weightShape (w 1)).lw 1 d i k 0) * v d i 0 =
        ENNReal.ofReal ((u d 0 + u d 1) / 2) := by
    intro d hd
    rw [Finset.sum_range_succ, Finset.sum_range_one, weight (by omega), weight (by omega), hv d hd 0 (by omega),
      hv d hd 1 (by omega)]
    rw [← ENNReal.ofReal_mul (by positivity), ← ENNReal.ofReal_mul (by positivity), ← ENNReal.ofReal_add]
    · congr 1; simp only [hw, Real.exp_zero]; ring
    · exact mul_nonneg (by positivity) (hu _ _)
    · exact mul_nonneg (by positivity) (hu _ _)
  unfold Model.topP
  rw [if_neg (by rw [h.reps]; omega), h.layers1]
  simp only [denL, Layer.den]
  unfold rightP
  rw [show (mkSumL 2 2 K 1 LinsumLayer2.weightShape (w 1)).num_sums_in = 2 from rfl, if_pos (by simp [mkSumL])]
  rw [show 2 * 0 = 0 from rfl, show 0 + 1 = 1 from rfl, key 0 (by omega)]
  refine (congrArg _ (key 1 (by omega))).trans ?_
  rw [ENNReal.ofReal_mul]
  have := hu 0 0; have := hu 0 1
  linarith

theorem grpS (h : Wit F K d w cl M) (hdiv : (F + 2 ^ d.toNat - 1) / 2 ^ d.toNat * 2 ^ d.toNat = F) (g : Nat → Nat → Nat)
    {f : Nat} (hf : f < F) : M.grpS g 0 f = f % 2 ^ d.toNat := by
  unfold Model.grpS
  rw [h.leaf]
  simp only [FactSimple.build, wParams]
  rw [show (wBase F).num_features = F from rfl, hdiv, Nat.sub_self, Nat.add_zero, argsort_range _ _ hf]

theorem grpF (h : Wit F K d w cl M) (hdiv : (F + 2 ^ d.toNat - 1) / 2 ^ d.toNat * 2 ^ d.toNat = F) (g : Nat → Nat → Nat)
    {f : Nat} (hf : f < F) : M.grpF g 0 f = f / ((F + 2 ^ d.toNat - 1) / 2 ^ d.toNat) := by
  unfold Model.grpF
  rw [h.leaf]
  simp only [FactSimple.build, wParams, FactSimple.cardinality]
  rw [show (wBase F).num_features = F from rfl, hdiv, Nat.sub_self, Nat.add_zero, argsort_range _ _ hf]

/-- region density for the features `f` with `G f = o`. -/
def reg (F : Nat) (S : Nat → Bool) (G : Nat → Nat) (o i : Nat) : ℝ :=
  ∏ f ∈ Finset.range F, if G f = o then wq S f i else 1

theorem reg_nonneg (F : Nat) (S : Nat → Bool) (G : Nat → Nat) (o i : Nat) : 0 ≤ reg F S G o i :=
  Finset.prod_nonneg fun f _ => by
    split_ifs
    · exact wq_nonneg _ _ _
    · norm_num

theorem regionS_eq (h : Wit F K d w cl M) (hdiv : (F + 2 ^ d.toNat - 1) / 2 ^ d.toNat * 2 ^ d.toNat = F)
    (g : Nat → Nat → Nat) (S : Nat → Bool) (o i : Nat) :
    M.regionS g (fun _ f i _ => ENNReal.ofReal (wq S f i)) o i 0 =
      ENNReal.ofReal (reg F S (fun f => f % 2 ^ d.toNat) o i) := by
  unfold Model.regionS reg
  rw [h.features, h.channels, ENNReal.ofReal_prod_of_nonneg]
  · refine Finset.prod_congr rfl fun f hf => ?_
    rw [h.grpS hdiv g (by simpa using hf), Finset.range_one, Finset.prod_singleton]
    split_ifs
    · rfl
    · simp
  · intro f _
    split_ifs
    · exact wq_nonneg _ _ _
    · norm_num

theorem regionP_eq (h : Wit F K d w cl M) (hdiv : (F + 2 ^ d.toNat - 1) / 2 ^ d.toNat * 2 ^ d.toNat = F)
    (g : Nat → Nat → Nat) (S : Nat → Bool) (o i : Nat) :
    M.regionP g (fun _ f i _ => ENNReal.ofReal (wq S f i)) o i 0 =
      ENNReal.ofReal (reg F S (fun f => f / ((F + 2 ^ d.toNat - 1) / 2 ^ d.toNat)) o i) := by
  unfold Model.regionP reg
  rw [h.features, h.channels, ENNReal.ofReal_prod_of_nonneg]
  · refine Finset.prod_congr rfl fun f hf => ?_
    rw [h.grpF hdiv g (by simpa using hf), Finset.range_one, Finset.prod_singleton]
    split_ifs
    · rfl
    · simp
  · intro f _
    split_ifs
    · exact wq_nonneg _ _ _
    · norm_num

end Wit
end Einet
