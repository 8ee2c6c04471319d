import Verif.Witness
import Verif.Raise

/-!
# Sampling properties that are false of the code: C13, C16, C17, C24

Explicit small models for which `sample` does not have the claimed law.
-/

open Classical MeasureTheory
open scoped ENNReal
noncomputable section
namespace Einet
namespace Props
open Tensor Einet

/-- **C13 is false** (also **C34**): for some valid configuration with one class, the probability that `sample` returns a
row starting with `0, 0` is 25/144, whereas the density `exp(model(x))` gives these rows probability 13/72.  (Four binary
features, depth 1, one repetition, top-down: the forward pass groups features 0, 1 and 2, 3, the sampler 0, 2 and 1, 3.) -/
theorem C13_refuted : ∃ (c : Config) (P : Params) (M : Model), P.Random ∧ P.leaf.Good ∧ P.leaf.CanSample ∧
    build c P = .ok M ∧ M.num_classes = 1 ∧ M.num_channels = 1 ∧ M.num_features = 4 ∧
    (M.sample { num_samples := some 1 }).E
      (fun s => if s.get [0, 0, 0] = .fin 0 ∧ s.get [0, 0, 1] = .fin 0 then 1 else 0) = ENNReal.ofReal (25 / 144) ∧
    rowLaw M P.leaf.ref 0 {ω | ∀ c f, f.val < 2 → ω c f = 0} = ENNReal.ofReal (13 / 72) := by
  obtain ⟨M, h⟩ := wit_exists (F := 4) (K := 1) (d := 1) (by norm_num) (by norm_num) (by norm_num) (by norm_num)
    (fun _ _ => 0) (fun _ => 0)
  refine ⟨_, _, M, wParams_random _ _, wLeaf_good.1, wLeaf_good.2, h.build, h.classes, h.channels, h.features, ?_, ?_⟩
  · have e := h.sample_eq none trivial fun f => decide (f < 2)
    rw [Finset.range_one, Finset.sum_singleton] at e
    rw [h.topP1 (fun _ => rfl) (Wit.reg 4 (fun f => decide (f < 2)) fun f => f % 2 ^ (1 : ℤ).toNat)
      (Wit.reg_nonneg _ _ _) _ (fun d _ i _ => h.regionS_eq (by norm_num) _ _ d i)] at e
    refine Eq.trans ?_ (e.trans ?_)
    · congr 1
      funext s
      refine if_congr ⟨fun h f hf h2 => ?_, fun h => ⟨h 0 (by omega) (by simp), h 1 (by omega) (by simp)⟩⟩ rfl rfl
      rw [decide_eq_true_eq] at h2
      interval_cases f
      · exact h.1
      · exact h.2
    · unfold Model.classW
      rw [h.classes, if_neg (by omega), if_pos rfl, one_mul]
      congr 1
      simp [Wit.reg, Finset.prod_range_succ, wq, wProb]
      norm_num
  · have e := h.rowLaw_eq (k := 0) (by norm_num) fun f => decide (f < 2)
    rw [h.topP1 (fun _ => rfl) (Wit.reg 4 (fun f => decide (f < 2)) fun f => f / ((4 + 2 ^ (1 : ℤ).toNat - 1) / 2 ^ (1 : ℤ).toNat))
      (Wit.reg_nonneg _ _ _) _ (fun d _ i _ => h.regionP_eq (by norm_num) _ _ d i)] at e
    refine Eq.trans ?_ (e.trans ?_)
    · simp only [decide_eq_true_eq]; rfl
    · congr 1
      simp [Wit.reg, Finset.prod_range_succ, wq, wProb]
      norm_num

/-- sum layer weights of the two-class witness: uniform for class 0, (1/3, 2/3) for class 1. -/
def w2 : Nat → List Nat → ℝ := fun _ i => if i = [0, 1, 1, 0] then Real.log 2 else 0

/-- probability of the features in `S` being zero in class `k`. -/
theorem w2_topP {cl : List Nat → ℝ} {M : Model} (h : Wit 2 2 0 w2 cl M) (S : Nat → Bool) (v : PRow)
    (hv : ∀ i, i < 2 → v 0 i 0 = ENNReal.ofReal (wq S 0 i * wq S 1 i)) (k : Nat) (hk : k < 2) :
    M.topP 1 v k = ENNReal.ofReal (if k = 0 then (wq S 0 0 * wq S 1 0 + wq S 0 1 * wq S 1 1) / 2 else
      (wq S 0 0 * wq S 1 0 + 2 * (wq S 0 1 * wq S 1 1)) / 3) := by
  rw [h.topP0 (fun _ i => wq S 0 i * wq S 1 i) (fun _ i => mul_nonneg (wq_nonneg _ _ _) (wq_nonneg _ _ _)) v hv k]
  congr 1
  interval_cases k <;> simp [w2, Real.exp_log] <;> norm_num

theorem w2_regS {cl : List Nat → ℝ} {M : Model} (h : Wit 2 2 0 w2 cl M) (g : Nat → Nat → Nat) (S : Nat → Bool) (i : Nat) :
    M.regionS g (fun _ f i _ => ENNReal.ofReal (wq S f i)) 0 i 0 = ENNReal.ofReal (wq S 0 i * wq S 1 i) := by
  rw [h.regionS_eq (by norm_num)]
  simp [Wit.reg, Finset.prod_range_succ]

theorem w2_regP {cl : List Nat → ℝ} {M : Model} (h : Wit 2 2 0 w2 cl M) (g : Nat → Nat → Nat) (S : Nat → Bool) (i : Nat) :
    M.regionP g (fun _ f i _ => ENNReal.ofReal (wq S f i)) 0 i 0 = ENNReal.ofReal (wq S 0 i * wq S 1 i) := by
  rw [h.regionP_eq (by norm_num)]
  simp [Wit.reg, Finset.prod_range_succ]

/-- **C17 is false**, prior: for some valid configuration with two classes, `sample` without `class_index` returns the row
`0, 0` with probability 107/648, whereas the uniform mixture of the class laws gives it probability 73/432.  (The class
sampling root is created with random logits; the uniform `weights` assigned to it are never read.) -/
theorem C17_refuted_uniform : ∃ (c : Config) (P : Params) (M : Model), P.Random ∧ P.leaf.Good ∧ P.leaf.CanSample ∧
    build c P = .ok M ∧ MirrorCfg c ∧ M.num_classes = 2 ∧ M.num_channels = 1 ∧ M.num_features = 2 ∧
    (M.sample { num_samples := some 1 }).E
      (fun s => if s.get [0, 0, 0] = .fin 0 ∧ s.get [0, 0, 1] = .fin 0 then 1 else 0) = ENNReal.ofReal (107 / 648) ∧
    ((M.num_classes : ℝ≥0∞)⁻¹ • ∑ k ∈ Finset.range M.num_classes, rowLaw M P.leaf.ref k) {ω | ∀ c f, ω c f = 0} =
      ENNReal.ofReal (73 / 432) := by
  obtain ⟨M, h⟩ := wit_exists (F := 2) (K := 2) (d := 0) (by norm_num) (by norm_num) (by norm_num) (by norm_num)
    w2 (fun i => if i = [0, 1, 0, 0] then Real.log 2 else 0)
  refine ⟨_, _, M, wParams_random _ _, wLeaf_good.1, wLeaf_good.2, h.build, Or.inr (Or.inr ⟨rfl, Or.inl rfl⟩), h.classes,
    h.channels, h.features, ?_, ?_⟩
  · have e := h.sample_eq none trivial fun _ => true
    rw [Finset.sum_range_succ, Finset.sum_range_one, w2_topP h _ _ (fun i _ => w2_regS h _ _ i) 0 (by omega),
      w2_topP h _ _ (fun i _ => w2_regS h _ _ i) 1 (by omega)] at e
    rw [classW_eq (wParams_random _ _) h.build (by rw [h.classes]; omega) 0 (by rw [h.classes]; omega),
      classW_eq (wParams_random _ _) h.build (by rw [h.classes]; omega) 0 (by rw [h.classes]; omega), h.classes] at e
    refine Eq.trans ?_ (e.trans ?_)
    · congr 1
      funext s
      refine if_congr ⟨fun h f hf h2 => ?_, fun h => ⟨h 0 (by omega) rfl, h 1 (by omega) rfl⟩⟩ rfl rfl
      interval_cases f
      · exact h.1
      · exact h.2
    · unfold classWeight
      rw [← ENNReal.ofReal_mul (by positivity), ← ENNReal.ofReal_mul (by positivity), ← ENNReal.ofReal_add]
      · congr 1
        simp [wq, wProb, Finset.sum_range_succ, wParams, Real.exp_log]
        norm_num
      · refine mul_nonneg (by positivity) ?_
        simp [wq, wProb]
        norm_num
      · refine mul_nonneg (by positivity) ?_
        simp [wq, wProb]
        norm_num
  · have hset : {ω : Fin M.num_channels → Fin M.num_features → ℝ | ∀ c f, ω c f = 0} =
        {ω | ∀ c f, (fun _ => true : Nat → Bool) f.val = true → ω c f = 0} := by simp
    rw [Measure.smul_apply, Measure.finsetSum_apply, h.classes, Finset.sum_range_succ, Finset.sum_range_one, hset]
    have e0 := h.rowLaw_eq (k := 0) (by norm_num) fun _ => true
    have e1 := h.rowLaw_eq (k := 1) (by norm_num) fun _ => true
    rw [w2_topP h _ _ (fun i _ => w2_regP h _ _ i) _ (by omega)] at e0 e1
    refine (congrArg _ (congrArg₂ _ e0 e1)).trans ?_
    rw [smul_eq_mul, ← ENNReal.ofReal_add, ← ENNReal.ofReal_natCast, ← ENNReal.ofReal_inv_of_pos (by norm_num),
      ← ENNReal.ofReal_mul (by positivity)]
    · congr 1
      simp [wq, wProb]
      norm_num
    · simp [wq, wProb]
      norm_num
    · simp [wq, wProb]
      norm_num

/-- evidence `0, NaN`. -/
def evRow : Data := fun _ f => if f = 0 then .fin 0 else .nan

theorem evRow_data : wLeaf.Data 1 2 evRow := by
  intro c _ f _
  unfold evRow
  split_ifs
  · right
    exact ⟨0, rfl, 0, by norm_num, by norm_num⟩
  · exact Or.inl rfl

theorem w2_test {cl : List Nat → ℝ} {M : Model} (h : Wit 2 2 0 w2 cl M) {k : Nat} (hk : k < 2) (b : Bool) :
    ∫⁻ ω, (∏ f : Fin M.num_features, ∏ c : Fin M.num_channels, wt (fun f => b && decide (f = 1)) f (ω c f)) *
        M.density none k (Pt.data ω) ∂(missing M.num_channels M.num_features M.leaf.base.ref evRow) =
      ENNReal.ofReal (if k = 0 then (if b then 13 / 72 else 5 / 12) else if b then 17 / 108 else 7 / 18) := by
  have hobs : M.leaf.base.Observed evRow := by
    rw [build_observed (wParams_random _ _) h.build, h.channels, h.features]; exact evRow_data
  have e := Model.density_test h.samplable.wf h.proper hobs (k := k) (by rw [h.classes]; exact hk)
    (t := fun _ f => wt (fun f => b && decide (f = 1)) f) fun _ f => wt_measurable _ f
  rw [← e, Model.outP_eq]
  have e2 : ∀ i, M.regionP (buildGroups (wConfig (2 : ℕ) (2 : ℕ) 0) (wParams w2 cl)) (fun c f i r =>
      ∫⁻ x, wt (fun f => b && decide (f = 1)) f x * toP (M.leaf.base.logProb c f i r (.fin x))
        ∂(Model.entryRef (M.leaf.base.ref f) (evRow c f))) 0 i 0 =
      M.regionP (buildGroups (wConfig (2 : ℕ) (2 : ℕ) 0) (wParams w2 cl))
        (fun _ f i _ => ENNReal.ofReal (wq (fun f => decide (f = 0) || b && decide (f = 1)) f i)) 0 i 0 := by
    intro i
    unfold Model.regionP
    refine Finset.prod_congr rfl fun f hf => ?_
    congr 1
    refine Finset.prod_congr rfl fun c hc => ?_
    rw [h.features, Finset.mem_range] at hf
    rw [h.base]
    have hm : Measurable fun x : ℝ => wt (fun f => b && decide (f = 1)) f x * toP ((wBase (2 : ℕ)).logProb c f i 0 (.fin x)) :=
      (wt_measurable _ f).mul (massLeaf_measurable c f i 0)
    dsimp only
    unfold Model.entryRef evRow
    interval_cases f
    · rw [if_pos rfl, if_neg (by simp), Fl.val, lintegral_dirac' _ hm, wProb_eq]
      simp [wt, wq]
    · rw [if_neg one_ne_zero, if_pos rfl, wTest]
      simp [wq]
  rw [w2_topP h (fun f => decide (f = 0) || b && decide (f = 1)) _ (fun i _ => (e2 i).trans (w2_regP h _ _ i)) k hk]
  congr 1
  cases b <;> simp [wq, wProb] <;> norm_num

theorem w2_density {cl : List Nat → ℝ} {M : Model} (h : Wit 2 2 0 w2 cl M) {k : Nat} (hk : k < 2) :
    M.density none k evRow = ENNReal.ofReal (if k = 0 then 5 / 12 else 7 / 18) := by
  have hobs : M.leaf.base.Observed evRow := by
    rw [build_observed (wParams_random _ _) h.build, h.channels, h.features]; exact evRow_data
  rw [Model.density_missing h.samplable.wf h.proper hobs (by rw [h.classes]; exact hk)]
  have := w2_test h hk false
  simpa [wt] using this

theorem w2_given {cl : List Nat → ℝ} {M : Model} (h : Wit 2 2 0 w2 cl M) {k : Nat} (hk : k < 2) :
    rowLawGiven M wLeaf.ref k evRow {ω | ∀ c f, f.val = 1 → ω c f = 0} =
      ENNReal.ofReal (if k = 0 then 13 / 30 else 17 / 42) := by
  have hm : MeasurableSet {ω : Fin M.num_channels → Fin M.num_features → ℝ | ∀ c f, f.val = 1 → ω c f = 0} := by
    have : {ω : Fin M.num_channels → Fin M.num_features → ℝ | ∀ c f, f.val = 1 → ω c f = 0} =
        ⋂ c, ⋂ f, ⋂ _ : f.val = 1, (fun ω => ω c f) ⁻¹' {0} := by
      ext ω; simp [Set.mem_iInter]
    rw [this]
    refine MeasurableSet.iInter fun c => MeasurableSet.iInter fun f => MeasurableSet.iInter fun _ => ?_
    exact (measurableSet_singleton 0).preimage (by fun_prop)
  have href : M.leaf.base.ref = fun _ => wLeaf.ref := LeafSpec.ref_eq (build_leaf (wParams_random w2 cl) h.build)
  have e := w2_test h hk true
  unfold missing at e
  rw [href] at e
  unfold rowLawGiven
  rw [Measure.smul_apply, withDensity_apply _ hm, ← lintegral_indicator hm, w2_density h hk, smul_eq_mul]
  refine (congrArg _ (Eq.trans ?_ e)).trans ?_
  · refine lintegral_congr fun ω => ?_
    by_cases hω : ω ∈ {ω : Fin M.num_channels → Fin M.num_features → ℝ | ∀ c f, f.val = 1 → ω c f = 0}
    · rw [Set.indicator_of_mem hω]
      rw [Set.mem_ofPred_eq] at hω
      rw [Finset.prod_eq_one, one_mul]
      intro f _
      refine Finset.prod_eq_one fun c _ => ?_
      unfold wt
      split_ifs with h1 h2
      · rfl
      · exact absurd (hω c f (by simpa using h1)) h2
      · rfl
    · rw [Set.indicator_of_notMem hω]
      rw [Set.mem_ofPred_eq] at hω
      push Not at hω
      obtain ⟨c, f, h1, h2⟩ := hω
      rw [Finset.prod_eq_zero (Finset.mem_univ f), zero_mul]
      refine Finset.prod_eq_zero (Finset.mem_univ c) ?_
      unfold wt
      rw [if_pos (by simpa using h1), if_neg h2]
  · rw [← ENNReal.ofReal_inv_of_pos (by split_ifs <;> norm_num), ← ENNReal.ofReal_mul]
    · congr 1
      simp only [if_true]
      split_ifs <;> norm_num
    · split_ifs <;> norm_num

/-- the law the property asks for: the class has its posterior probability given the observed entries. -/
def posteriorLaw (M : Model) (ref : Measure ℝ) (X : Data) : Measure (Fin M.num_channels → Fin M.num_features → ℝ) :=
  ∑ k ∈ Finset.range M.num_classes,
    (M.density none k X / ∑ j ∈ Finset.range M.num_classes, M.density none j X) • rowLawGiven M ref k X

/-- **C17 is false**, posterior: for some valid configuration with two classes and uniform class weights, `sample` with
evidence `[0, NaN]` returns `0, 0` with probability 44/105, whereas this has probability 73/174 when the class is drawn from
its posterior given the evidence.  (The class sampling root never sees the evidence.) -/
theorem C17_refuted_posterior : ∃ (c : Config) (P : Params) (M : Model) (x : Tensor Fl), P.Random ∧ P.leaf.Good ∧
    P.leaf.CanSample ∧ build c P = .ok M ∧ MirrorCfg c ∧ M.num_classes = 2 ∧ M.num_channels = 1 ∧ M.num_features = 2 ∧
    (∀ k, P.classLogits [0, k, 0, 0] = 0) ∧ Evidence M P.leaf 1 none x ∧
    (∀ c f, x.get [0, c, f] = evRow c f) ∧
    (M.sample { evidence := some x }).E (fun s => if s.get [0, 0, 1] = .fin 0 then 1 else 0) = ENNReal.ofReal (44 / 105) ∧
    posteriorLaw M P.leaf.ref evRow {ω | ∀ c f, f.val = 1 → ω c f = 0} = ENNReal.ofReal (73 / 174) := by
  obtain ⟨M, h⟩ := wit_exists (F := 2) (K := 2) (d := 0) (by norm_num) (by norm_num) (by norm_num) (by norm_num)
    w2 (fun _ => 0)
  have hmir : MirrorCfg (wConfig (2 : ℕ) (2 : ℕ) 0) := Or.inr (Or.inr ⟨rfl, Or.inl rfl⟩)
  have hx : Evidence M wLeaf 1 none ⟨[1, 1, 2], fun i => evRow (at' 1 i) (at' 2 i)⟩ := by
    refine ⟨⟨by rw [h.channels, h.features], fun n hn => ?_⟩, by simp, fun n _ c _ f _ e => e⟩
    rw [h.channels, h.features]
    exact evRow_data
  refine ⟨_, _, M, ⟨[1, 1, 2], fun i => evRow (at' 1 i) (at' 2 i)⟩, wParams_random _ _, wLeaf_good.1, wLeaf_good.2, h.build,
    hmir, h.classes, h.channels, h.features, fun _ => rfl, hx, fun c f => rfl, ?_, ?_⟩
  · have hm : MeasurableSet {ω : Fin M.num_channels → Fin M.num_features → ℝ | ∀ c f, f.val = 1 → ω c f = 0} := by
      have : {ω : Fin M.num_channels → Fin M.num_features → ℝ | ∀ c f, f.val = 1 → ω c f = 0} =
          ⋂ c, ⋂ f, ⋂ _ : f.val = 1, (fun ω => ω c f) ⁻¹' {0} := by
        ext ω; simp [Set.mem_iInter]
      rw [this]
      refine MeasurableSet.iInter fun c => MeasurableSet.iInter fun f => MeasurableSet.iInter fun _ => ?_
      exact (measurableSet_singleton 0).preimage (by fun_prop)
    have hm2 := MeasurableSet.univ_pi (δ := Fin 1) fun _ => hm
    have e := C17_class_evidence_partial _ _ (wParams_random _ _) wLeaf_good.1 wLeaf_good.2 M h.build hmir
      (by rw [h.classes]; omega) 1 one_pos none _ hx (Set.indicator (Set.univ.pi fun _ : Fin 1 =>
        {ω | ∀ c f, f.val = 1 → ω c f = 0}) 1) (measurable_one.indicator hm2)
    rw [lintegral_indicator_one hm2] at e
    have hk : ∀ n, known M.num_features none (⟨[1, 1, 2], fun i => evRow (at' 1 i) (at' 2 i)⟩ : Tensor Fl) n = evRow := by
      intro n
      funext c f
      unfold known Hole
      split_ifs with h1
      · exact h1.symm
      · rfl
    simp only [hk] at e
    have hpr : ∀ k, k < 2 → IsProbabilityMeasure (rowLawGiven M (wParams w2 fun _ => 0).leaf.ref k evRow) := fun k hk =>
      (C13_rowLaw_prob _ _ (wParams_random _ _) wLeaf_good.1 M h.build k (by rw [h.classes]; exact hk)).2.2 evRow
        (by rw [h.channels, h.features]; exact evRow_data)
    have hfin : IsFiniteMeasure (∑ k ∈ Finset.range M.num_classes,
        ENNReal.ofReal (classWeight (wParams w2 fun _ => 0) M.num_classes k) •
          rowLawGiven M (wParams w2 fun _ => 0).leaf.ref k evRow) := by
      rw [h.classes, Finset.sum_range_succ, Finset.sum_range_one]
      have := hpr 0 (by omega); have := hpr 1 (by omega)
      have hsm := fun r (k : Nat) (_ : IsProbabilityMeasure (rowLawGiven M (wParams w2 fun _ => 0).leaf.ref k evRow)) =>
        Measure.smul_finite (rowLawGiven M (wParams w2 fun _ => 0).leaf.ref k evRow) (ENNReal.ofReal_ne_top (r := r))
      have := hsm (classWeight (wParams w2 fun _ => 0) 2 0) 0 (hpr 0 (by omega))
      have := hsm (classWeight (wParams w2 fun _ => 0) 2 1) 1 (hpr 1 (by omega))
      infer_instance
    rw [Measure.pi_pi, Fin.prod_univ_one, Measure.finsetSum_apply, h.classes] at e
    simp only [Finset.sum_range_succ, Finset.range_zero, Finset.sum_empty, zero_add, Measure.smul_apply, smul_eq_mul] at e
    have e0 := w2_given h (k := 0) (by omega)
    have e1 := w2_given h (k := 1) (by omega)
    have e' := e.trans (congrArg₂ _ (congrArg _ e0) (congrArg _ e1))
    have hall := C15_evidence_kept _ _ (wParams_random _ _) wLeaf_good.1 wLeaf_good.2 M h.build 1 one_pos _
      { evidence := some (⟨[1, 1, 2], fun i => evRow (at' 1 i) (at' 2 i)⟩ : Tensor Fl) } hx rfl rfl rfl one_ne_zero
    refine Eq.trans (Rand.E_congr hall fun s hs => ?_) (e'.trans ?_)
    · have h1 := hs.2 0 (by omega) 0 (by rw [h.channels]; omega) 1 (by rw [h.features]; omega)
      rw [if_pos (by simp [Hole, evRow, at'])] at h1
      obtain ⟨v, hv⟩ := h1
      rw [hv]
      by_cases h0 : v = 0
      · rw [if_pos (by rw [h0]), Set.indicator_of_mem]
        · rfl
        · intro n _
          rw [Set.mem_ofPred_eq]
          intro c f hf
          have hc : c.val < 1 := lt_of_lt_of_eq c.2 h.channels
          obtain rfl : n = 0 := Subsingleton.elim _ _
          show (s.get [0, c.val, f.val]).val = 0
          rw [hf, show c.val = 0 by omega, hv, h0]
          rfl
      · rw [if_neg (by simpa using h0), Set.indicator_of_notMem]
        intro hmem
        have := hmem 0 trivial
        rw [Set.mem_ofPred_eq] at this
        have h2 := this ⟨0, by rw [h.channels]; omega⟩ ⟨1, by rw [h.features]; omega⟩ rfl
        have h3 : (s.get [0, 0, 1]).val = 0 := h2
        rw [hv] at h3
        exact h0 h3
    · unfold classWeight
      rw [← ENNReal.ofReal_mul (by positivity), ← ENNReal.ofReal_mul (by positivity), ← ENNReal.ofReal_add (by positivity)]
      · congr 1
        simp [wParams]
        norm_num
      · positivity
  · unfold posteriorLaw
    rw [Measure.finsetSum_apply, h.classes]
    simp only [Finset.sum_range_succ, Finset.range_zero, Finset.sum_empty, zero_add, Measure.smul_apply, smul_eq_mul]
    rw [w2_density h (by omega), w2_density h (by omega)]
    have e0 := w2_given h (k := 0) (by omega)
    have e1 := w2_given h (k := 1) (by omega)
    refine (congrArg₂ _ (congrArg _ e0) (congrArg _ e1)).trans ?_
    rw [if_pos rfl, if_neg one_ne_zero, if_pos rfl, if_neg one_ne_zero, ← ENNReal.ofReal_add (by norm_num) (by norm_num),
      ← ENNReal.ofReal_div_of_pos (by norm_num), ← ENNReal.ofReal_div_of_pos (by norm_num),
      ← ENNReal.ofReal_mul (by norm_num), ← ENNReal.ofReal_mul (by norm_num), ← ENNReal.ofReal_add (by norm_num) (by norm_num)]
    congr 1
    norm_num

/-- **C16 is false** for lists: whenever the length of the class list is not `num_samples` (1 if omitted), `sample` raises
for every random outcome, in every model with several classes. -/
theorem C16_list_refuted (c : Config) (P : Params) (hP : P.Random) (M : Model) (h : build c P = .ok M)
    (hK : 1 < c.num_classes) (l : List Nat) (hl : 2 ≤ l.length) :
    (M.sample { class_index := some (.list l) }).Raises := by
  refine Model.sample_list_raises (build_hasSum h) _ l rfl ?_ ?_
  · rw [(build_WF hP h).1.classes]; omega
  · show l.length ≠ 1
    omega

/-- the hypotheses are met: three classes, list `[2, 0]`. -/
example : ∃ M, build (exConfig "linsum" "bottom-up") (exParams exLeaf) = .ok M ∧
    1 < (exConfig "linsum" "bottom-up").num_classes :=
  (exConfig_normal (Or.inr ⟨rfl, rfl⟩)).imp fun _ h => ⟨h, by norm_num [exConfig]⟩

/-- **C24 is false** for `Bernoulli` leaves: every call of `sample` (and `mpe`) raises, for every random outcome. -/
theorem C24_refuted_bernoulli (c : Config) (P : Params) (hP : P.Random) (probs : Par) (hl : P.leaf = .bernoulli probs)
    (M : Model) (h : build c P = .ok M) (a : SampleArgs) : (M.sample a).Raises := by
  refine Model.sample_raises ?_ a
  have e := build_leaf hP h
  rw [hl] at e
  unfold LeafSpec.build at e
  obtain ⟨_, _, e⟩ := bind_ok e
  simp only [Res.pure_eq, Except.ok.injEq] at e
  rw [← e]
  rfl

/-- such models exist. -/
example : ∃ M, build (exConfig "linsum" "bottom-up") (exParams (.bernoulli fun c f i r => c + f - i * r)) = .ok M :=
  exConfig_builds (Or.inr ⟨rfl, rfl⟩) ⟨_, by simp [LeafSpec.build]; rfl⟩

end Props
end Einet
