import Verif.PropsDiffLaw

/-!
# C49: differentiable sampling of `Binomial` leaves is not sampling
-/

open Classical MeasureTheory ProbabilityTheory
open scoped ENNReal
noncomputable section
namespace Einet
namespace Props
open Tensor Einet

/-- probability, as a function of the returned tensor, that its first entry is not a whole number. -/
def fractional (t : Tensor Fl) : ℝ≥0∞ :=
  if InB t.shape [0, 0, 0] ∧ ¬ ∃ k : ℤ, t.get [0, 0, 0] = .fin k then 1 else 0

/-- the numbers that are not whole. -/
def nonInt : Set ℝ := (Set.range fun k : ℤ => (k : ℝ))ᶜ

theorem measurable_nonInt : MeasurableSet nonInt := (Set.countable_range _).measurableSet.compl

/-- test function of the first entry. -/
def firstTest (n c f : Nat) (x : ℝ) : ℝ≥0∞ := if n = 0 ∧ c = 0 ∧ f = 0 then nonInt.indicator 1 x else 1

theorem firstTest_measurable (n c f : Nat) : Measurable (firstTest n c f) := by
  unfold firstTest
  split_ifs
  · exact measurable_one.indicator measurable_nonInt
  · exact measurable_const

theorem fractional_eq {N C F : Nat} (hN : 0 < N) (hC : 0 < C) (hF : 0 < F) {t : Tensor Fl} {S : Nat → Nat → Nat → ℝ}
    (h : t.Is3 N C F fun n c f => .fin (S n c f)) : fractional t = prod3 N C F fun n c f => firstTest n c f (S n c f) := by
  unfold prod3 fractional
  rw [h.get hN hC hF, Finset.prod_eq_single_of_mem 0 (by simpa using hN), Finset.prod_eq_single_of_mem 0 (by simpa using hF),
    Finset.prod_eq_single_of_mem 0 (by simpa using hC)]
  · unfold firstTest nonInt
    simp only [and_self, if_true, Set.indicator, Set.mem_compl_iff, Set.mem_range, Fl.fin.injEq, Pi.one_apply]
    have hb : InB t.shape [0, 0, 0] := by rw [h.1]; simp [hN, hC, hF]
    by_cases hk : ∃ k : ℤ, S 0 0 0 = k
    · rw [if_neg (by simp [hk]), if_neg (by obtain ⟨k, hk⟩ := hk; exact not_not.2 ⟨k, hk.symm⟩)]
    · rw [if_pos ⟨hb, hk⟩, if_pos (by rintro ⟨k, h⟩; exact hk ⟨k, h.symm⟩)]
  · intro c _ hc; simp [firstTest, hc]
  · intro f _ hf; exact Finset.prod_eq_one fun c _ => by simp [firstTest, hf]
  · intro n _ hn; exact Finset.prod_eq_one fun f _ => Finset.prod_eq_one fun c _ => by simp [firstTest, hn]

/-- the expectation of the test function is a probability of the first component. -/
theorem prod_firstTest {N C F : Nat} (hN : 0 < N) (hC : 0 < C) (hF : 0 < F) (B : BaseLeaf) {T : ℝ}
    (hp : ∀ c f i r, IsProbabilityMeasure (B.law T c f i r)) (K : Nat → Nat → Nat) (rr : Nat → Nat) :
    (prod3 N C F fun n c f => B.compE false T c f (K n f) (rr n) (firstTest n c f)) = B.law T 0 0 (K 0 0) (rr 0) nonInt := by
  have h1 : ∀ n c f, ¬ (n = 0 ∧ c = 0 ∧ f = 0) → B.compE false T c f (K n f) (rr n) (firstTest n c f) = 1 := by
    intro n c f h
    have := hp c f (K n f) (rr n)
    simp [BaseLeaf.compE, firstTest, h]
  unfold prod3
  rw [Finset.prod_eq_single_of_mem 0 (by simpa using hN), Finset.prod_eq_single_of_mem 0 (by simpa using hF),
    Finset.prod_eq_single_of_mem 0 (by simpa using hC)]
  · simp only [BaseLeaf.compE, firstTest, and_self, if_true, Bool.false_eq_true, if_false]
    rw [lintegral_indicator_one measurable_nonInt]
  · intro c _ hc; exact h1 _ _ _ (by simp [hc])
  · intro f _ hf; exact Finset.prod_eq_one fun c _ => h1 _ _ _ (by simp [hf])
  · intro n _ hn; exact Finset.prod_eq_one fun f _ => Finset.prod_eq_one fun c _ => h1 _ _ _ (by simp [hn])

theorem binomial_nonInt (d : LeafDims) (n : Nat) (p : Par) (T : ℝ) (c f i r : Nat) :
    (binomialLeaf d n p).law T c f i r nonInt = 0 := by
  show (∑ k ∈ Finset.range (n + 1), _ • Measure.dirac (k : ℝ)) nonInt = 0
  rw [Measure.finsetSum_apply]
  refine Finset.sum_eq_zero fun k _ => ?_
  rw [Measure.smul_apply, Measure.dirac_apply' _ measurable_nonInt, Set.indicator_of_notMem, smul_zero]
  exact fun h => h ⟨k, by simp⟩

theorem clippedNormal_nonInt {n : Nat} (hn : 1 ≤ n) {p : ℝ} (h0 : 0 < p) (h1 : p < 1) : 0 < clippedNormal n p nonInt := by
  have hn' : (1 : ℝ) ≤ n := by exact_mod_cast hn
  have hv : (n * p * (1 - p)).toNNReal ≠ 0 := by
    have : 0 < n * p * (1 - p) := by have := sub_pos.2 h1; positivity
    simpa using this
  unfold clippedNormal
  rw [Measure.map_apply (by fun_prop) measurable_nonInt]
  have hsub : Set.Ioo (0 : ℝ) 1 ⊆ (fun x => min (max x 0) (n : ℝ)) ⁻¹' nonInt := by
    rintro x ⟨hx0, hx1⟩ ⟨k, hk⟩
    simp only [max_eq_left hx0.le, min_eq_left (hx1.le.trans hn')] at hk
    rw [← hk] at hx0 hx1
    have a1 : 0 < k := by exact_mod_cast hx0
    have a2 : k < 1 := by exact_mod_cast hx1
    omega
  refine lt_of_lt_of_le (pos_iff_ne_zero.2 fun h => ?_) (measure_mono hsub)
  have := gaussianReal_absolutelyContinuous' (n * p) hv h
  simp at this

theorem Rand.E_mono' {α : Type} {x : Einet.Rand α} {f g : α → ℝ≥0∞} (h : ∀ a, f a ≤ g a) : x.E f ≤ x.E g := by
  exact Rand.E_mono h

/-- differentiable samples of `Binomial` leaves have a fractional first entry with positive probability. -/
theorem binomial_diff_pos (c : Config) (P : Params) (hP : P.Random) (n : ℤ) (p : Par) (hl : P.leaf = .binomial n p)
    (M : Model) (h : build c P = .ok M) (a : SampleArgs) (hev : a.evidence = none) (hN : 0 < a.count)
    (hm : a.is_mpe = false) (hm' : a.mpe_at_leaves = false) (hci : a.class_index = none) (hT : a.temperature_sums ≠ 0)
    (hL : 0 < a.temperature_leaves) (μ : Measure ℝ) (hμ : μ Set.univ = 1) (φ : Tensor Fl → ℝ≥0∞)
    (hφ : ∀ (t : Tensor Fl) (S : Nat → Nat → Nat → ℝ), t.Is3 a.count M.num_channels M.num_features (fun n c f => .fin (S n c f)) →
      fractional t ≤ φ t) : 0 < (M.sampleR μ a).E φ := by
  have hsam := build_samplable hP (by rw [hl]; trivial) (by rw [hl]; trivial) h
  have hfr := hsam.wf.front
  have hC0 : 0 < M.num_channels := by
    rw [(build_WF hP h).1.channels]
    have := (assertValid_iff c).1 (build_valid h)
    omega
  have hcok : M.ClassOK a.count a.class_index := by rw [hci]; trivial
  have hck := Model.check_ok (M := M) (a := a) hcok (by simp [hev])
  have hcs : M.evidenceCaches a = .ok ⟨[], none⟩ := by unfold Model.evidenceCaches; rw [hev]
  have hb := build_leaf hP h
  rw [hl] at hb
  obtain ⟨_, _, hb⟩ := bind_ok hb
  have hn1 : 1 ≤ n := ((checkInt_iff n 1 one_ne_zero _ _).1 hb).1
  obtain ⟨_, hn, hb⟩ := bind_ok hb
  simp only [Res.pure_eq, Except.ok.injEq] at hb
  have hlt : ∀ {idx : Nat → Nat → Nat} {rr : Nat → Nat}, (∀ n, n < a.count → ∀ d, d < M.numOut → idx n d < M.num_leaves) →
      (∀ n, n < a.count → rr n < M.num_repetitions) → ∀ n, n < a.count → ∀ f, f < M.num_features →
      idx n (M.grpS _ (rr n) f) < M.num_leaves := fun h1 h2 n hn f hf => h1 n hn _ (hfr.grpS_lt (h2 n hn) hf)
  obtain ⟨m, hm0, hmin⟩ : ∃ m : ℝ≥0∞, 0 < m ∧ ∀ i, i < M.num_leaves → ∀ r, r < M.num_repetitions →
      m ≤ M.leaf.base.lawD a.temperature_leaves 0 0 i r nonInt := by
    refine ⟨(Finset.range M.num_leaves ×ˢ Finset.range M.num_repetitions).inf fun q =>
      M.leaf.base.lawD a.temperature_leaves 0 0 q.1 q.2 nonInt, ?_, fun i hi r hr =>
      Finset.inf_le (f := fun q : Nat × Nat => M.leaf.base.lawD a.temperature_leaves 0 0 q.1 q.2 nonInt) (b := (i, r))
        (by simp [hi, hr])⟩
    rw [Finset.lt_inf_iff (by simp)]
    intro q _
    rw [← hb]
    exact clippedNormal_nonInt (by omega) (sigmoid_pos' _).1 (sub_pos.1 (sigmoid_pos' _).2)
  refine lt_of_lt_of_le hm0 ?_
  rw [Model.sampleR_eq μ M a hck hcs, Rand.E_bind, Model.sampleValuesR_eq, Rand.E_bind]
  refine (Model.corePathR_full hμ hsam.wf hci hN hT (Model.evM_none M _) (Model.finZero M _) m _).1
    fun ctx ⟨⟨idx, rr, ho⟩, he⟩ => ?_
  obtain ⟨res, r1, r2⟩ := Model.leafD_sample_eq hfr hsam.wf.reps_pos hsam.samp.samplable hN ho
  rw [r1, Rand.E_bind]
  have hpD : ∀ c f i r, IsProbabilityMeasure (M.leaf.base.diff.law (BaseLeaf.drawCtx ctx).temperature_leaves c f i r) := by
    rw [he]; exact hsam.samp.probD _ hL
  have key := M.leaf.base.diff.draws_E (ctx := BaseLeaf.drawCtx ctx) (N := a.count) (by rw [he]; rfl) hpD
    (K := fun n f => idx n (M.grpS _ (rr n) f)) (rr := rr)
    (fun n hn f hf => by
      show _ < M.leaf.base.num_leaves
      rw [hfr.leaves]
      exact hlt ho.io_lt ho.ir_lt n hn f (by rw [← hfr.features]; exact hf))
    (fun n hn => by show _ < M.leaf.base.num_repetitions; rw [hfr.reps]; exact ho.ir_lt n hn) firstTest_measurable
  have hmode : ((BaseLeaf.drawCtx ctx).is_mpe || (BaseLeaf.drawCtx ctx).mpe_at_leaves) = false := by
    rw [he]; simp [BaseLeaf.drawCtx, Model.initCtxD, hm, hm']
  have hc' : M.leaf.base.diff.num_channels = M.num_channels := hfr.channels
  have hf' : M.leaf.base.diff.num_features = M.num_features := hfr.features
  rw [hmode, hc', hf', prod_firstTest hN hC0 hsam.features_pos _ hpD] at key
  refine le_trans (hmin _ (hlt ho.io_lt ho.ir_lt 0 hN 0 hsam.features_pos) _ (ho.ir_lt 0 hN)) (le_trans (le_of_eq (Eq.trans ?_
    key.symm)) (Rand.E_mono' fun v => ?_))
  · show _ = M.leaf.base.lawD _ _ _ _ _ nonInt
    rw [he]
    rfl
  · obtain ⟨t, e1, e2⟩ := r2 v
    rw [e1, Rand.lift_ok, Rand.E_pure]
    have hf1 : Model.finishD a t = .ok t := by unfold Model.finishD; rw [hev]
    rw [hf1, Rand.lift_ok, Rand.E_pure]
    exact (fractional_eq hN hC0 hsam.features_pos e2).symm.le.trans (hφ t _ e2)

/-- **C49** is false for `Binomial` leaves: ordinary samples are whole numbers with probability one, while the first entry of a
differentiable sample is not a whole number with positive probability, for every law of the noise. -/
theorem C49_refuted_binomial (c : Config) (P : Params) (hP : P.Random) (n : ℤ) (p : Par) (hl : P.leaf = .binomial n p)
    (M : Model) (h : build c P = .ok M) (a : SampleArgs) (hev : a.evidence = none) (hN : 0 < a.count)
    (hm : a.is_mpe = false) (hm' : a.mpe_at_leaves = false) (hci : a.class_index = none) (hT : a.temperature_sums ≠ 0)
    (hL : 0 < a.temperature_leaves) (μ : Measure ℝ) (hμ : μ Set.univ = 1) :
    (M.sample a).E fractional = 0 ∧ 0 < (M.sampleR μ a).E fractional := by
  have hsam := build_samplable hP (by rw [hl]; trivial) (by rw [hl]; trivial) h
  have hfr := hsam.wf.front
  have hC0 : 0 < M.num_channels := by
    rw [(build_WF hP h).1.channels]
    have := (assertValid_iff c).1 (build_valid h)
    omega
  have hcok : M.ClassOK a.count a.class_index := by rw [hci]; trivial
  have hck := Model.check_ok (M := M) (a := a) hcok (by simp [hev])
  have hcs : M.evidenceCaches a = .ok ⟨[], none⟩ := by unfold Model.evidenceCaches; rw [hev]
  have hb := build_leaf hP h
  rw [hl] at hb
  obtain ⟨_, _, hb⟩ := bind_ok hb
  have hn1 : 1 ≤ n := ((checkInt_iff n 1 one_ne_zero _ _).1 hb).1
  obtain ⟨_, hn, hb⟩ := bind_ok hb
  simp only [Res.pure_eq, Except.ok.injEq] at hb
  have hlt : ∀ {idx : Nat → Nat → Nat} {rr : Nat → Nat}, (∀ n, n < a.count → ∀ d, d < M.numOut → idx n d < M.num_leaves) →
      (∀ n, n < a.count → rr n < M.num_repetitions) → ∀ n, n < a.count → ∀ f, f < M.num_features →
      idx n (M.grpS _ (rr n) f) < M.num_leaves := fun h1 h2 n hn f hf => h1 n hn _ (hfr.grpS_lt (h2 n hn) hf)
  constructor
  · rw [Model.sample_eq M a hck hcs, Rand.E_bind, Model.sampleValues_eq, Rand.E_bind]
    refine (Rand.E_congr (g := fun _ => 0) (Model.corePath_All hsam.wf hN hT hcok (Model.evM_none M _) (Model.finZero M _))
      fun ctx ⟨idx, rr, ho, he⟩ => ?_).trans (by simpa using Rand.E_const_mul (c := 0) (x := M.corePath a ⟨[], none⟩) (f := fun _ => 1))
    obtain ⟨res, r1, r2⟩ := Model.leaf_sample_eq hfr hsam.features_pos hsam.samp.samplable hN ho
    rw [r1, Rand.E_bind]
    have key := M.leaf.base.draws_E (ctx := ctx) ho.ns (by rw [he]; exact hsam.samp.prob _ hL)
      (K := fun n f => idx n (M.grpS _ (rr n) f)) (rr := rr)
      (fun n hn f hf => by rw [hfr.leaves]; exact hlt ho.io_lt ho.ir_lt n hn f (by rw [← hfr.features]; exact hf))
      (fun n hn => by rw [hfr.reps]; exact ho.ir_lt n hn) firstTest_measurable
    have hmode : (ctx.is_mpe || ctx.mpe_at_leaves) = false := by rw [he]; simp [Model.initCtx, hm, hm']
    rw [hmode, hfr.channels, hfr.features, prod_firstTest hN hC0 hsam.features_pos _ (by rw [he]; exact hsam.samp.prob _ hL),
      ← hb, binomial_nonInt, hb] at key
    rw [← key]
    refine congrArg _ (funext fun v => ?_)
    obtain ⟨t, e1, e2⟩ := r2 v
    rw [e1, Rand.lift_ok, Rand.E_pure]
    have hf1 : Model.finish a t = .ok (t.map .fin) := by unfold Model.finish; rw [hev]
    rw [hf1, Rand.lift_ok, Rand.E_pure]
    exact fractional_eq hN hC0 hsam.features_pos (map_is _ e2)
  · exact binomial_diff_pos c P hP n p hl M h a hev hN hm hm' hci hT hL μ hμ fractional fun _ _ _ => le_rfl

theorem fractional_same (t t' : Tensor Fl) (h : Same t t') : fractional t = fractional t' := by
  unfold fractional
  rw [← h.1]
  by_cases hb : InB t.shape [0, 0, 0]
  · rw [h.2 _ hb]
  · simp [hb]

/-- so no bound between the laws of the two modes holds for `Binomial` leaves, with any noise. -/
theorem C49_refuted_binomial_law (c : Config) (P : Params) (hP : P.Random) (n : ℤ) (p : Par) (hl : P.leaf = .binomial n p)
    (M : Model) (h : build c P = .ok M) (a : SampleArgs) (hev : a.evidence = none) (hN : 0 < a.count)
    (hm : a.is_mpe = false) (hm' : a.mpe_at_leaves = false) (hci : a.class_index = none) (hT : a.temperature_sums ≠ 0)
    (hL : 0 < a.temperature_leaves) (μ : Measure ℝ) (hμ : μ Set.univ = 1) (k : ℝ≥0∞) :
    ¬ Dominated k (M.sampleR μ a) (M.sample a) := by
  intro hd
  obtain ⟨h1, h2⟩ := C49_refuted_binomial c P hP n p hl M h a hev hN hm hm' hci hT hL μ hμ
  have := hd fractional fractional_same
  rw [h1, mul_zero] at this
  exact absurd h2 (not_lt.2 this)

/-- a model with `Binomial` leaves. -/
example : ∃ M, build (exConfig "linsum" "top-down") (exParams (.binomial 7 fun _ _ i _ => i)) = .ok M := by
  refine exConfig_builds (Or.inl ⟨Or.inl rfl, rfl⟩) ?_
  unfold LeafSpec.build
  simp
  exact ⟨_, (checkInt_iff 7 1 one_ne_zero _ _).2 ⟨by norm_num, rfl⟩⟩

end Props
end Einet
