import Verif.Gibbs

/-!
# C87: the losses are minimal at the distribution that generated the data

The data have the distribution of a model `M`; `M'` is any other model, of any structure, size and leaf type, on the same data space.
Expectations of losses may be infinite, so "the expected loss of `M'` is at least that of `M`" is stated as: the expected amount by
which the loss of `M` exceeds that of `M'` is finite and at most the expected amount by which it falls below it.
-/

open Classical MeasureTheory
open scoped ENNReal
noncomputable section
namespace Einet.Props
open Tensor Einet

/-! ### Specification -/

/-- the rows `ω` as input of a model. -/
def batchOf {N C F : Nat} (ω : Fin N → Fin C → Fin F → ℝ) : Tensor Fl :=
  ⟨[N, C, F], fun i => if h : at' 0 i < N then Pt.data (ω ⟨at' 0 i, h⟩) (at' 1 i) (at' 2 i) else .fin 0⟩

/-- the distribution with density `p(x)`, all classes being equally likely. -/
def dataLaw (M : Model) (ref : Measure ℝ) : Measure (Fin M.num_channels → Fin M.num_features → ℝ) :=
  (Measure.pi fun _ => Measure.pi fun _ => ref).withDensity fun ω => ENNReal.ofReal (rowProb M (Pt.data ω))

/-- the loss as a real number. -/
def lossValue : Res Fl → ℝ
  | .ok (.fin v) => v
  | _ => 0

/-- the loss is finite. -/
def Defined (l : Res Fl) : Prop := ∃ v, l = .ok (.fin v)

/-- in expectation the second loss is at least the first one. -/
def NotWorse {Ω : Type} [MeasurableSpace Ω] (μ : Measure Ω) (l l' : Ω → Res Fl) : Prop :=
  (∀ᵐ ω ∂μ, Defined (l ω) ∧ Defined (l' ω)) ∧
  ∫⁻ ω, ENNReal.ofReal (lossValue (l ω) - lossValue (l' ω)) ∂μ ≤ 1 ∧
  ∫⁻ ω, ENNReal.ofReal (lossValue (l ω) - lossValue (l' ω)) ∂μ ≤
    ∫⁻ ω, ENNReal.ofReal (lossValue (l' ω) - lossValue (l ω)) ∂μ

/-- the same for examples with a label `k < K`, all labels being equally likely and the rows with label `k` having law `μ k`. -/
def NotWorseLabelled {Ω : Type} [MeasurableSpace Ω] (K : Nat) (μ : Nat → Measure Ω) (l l' : Nat → Ω → Res Fl) : Prop :=
  (∀ k, k < K → ∀ᵐ ω ∂μ k, Defined (l k ω) ∧ Defined (l' k ω)) ∧
  (∑ k ∈ Finset.range K, ∫⁻ ω, ENNReal.ofReal (lossValue (l k ω) - lossValue (l' k ω)) ∂μ k) / K ≤ 1 ∧
  (∑ k ∈ Finset.range K, ∫⁻ ω, ENNReal.ofReal (lossValue (l k ω) - lossValue (l' k ω)) ∂μ k) / K ≤
    (∑ k ∈ Finset.range K, ∫⁻ ω, ENNReal.ofReal (lossValue (l' k ω) - lossValue (l k ω)) ∂μ k) / K

/-! ### Lemmas -/

section
variable {c : Config} {P : Params} {M : Model} {C F : Nat} {ref : Measure ℝ}

theorem gb_point (hP : P.Random) (hg : P.leaf.Good) (h : build c P = .ok M) (hC : M.num_channels = C) (hF : M.num_features = F)
    (hr : P.leaf.ref = ref) : ∀ᵐ ω : Fin C → Fin F → ℝ ∂(Measure.pi fun _ => Measure.pi fun _ => ref),
      P.leaf.Data M.num_channels M.num_features (Pt.data ω) := by
  subst hC hF hr
  filter_upwards [train_point hP hg h] with ω hω
  exact hω.2 0 one_pos

theorem gb_pos (hP : P.Random) (hg : P.leaf.Good) (h : build c P = .ok M) {X : Data}
    (hX : P.leaf.Data M.num_channels M.num_features X) {k : Nat} (hk : k < M.num_classes) :
    0 < classProb M k X ∧ ENNReal.ofReal (classProb M k X) = M.density none k X := by
  have hb : Batch P.leaf 1 M.num_channels M.num_features (rowTensor M.num_channels M.num_features X) := ⟨rfl, fun n _ => hX⟩
  obtain ⟨y, -, -, hv⟩ := build_log hP hg h hb
  obtain ⟨h1, h2, -⟩ := hv 0 one_pos k hk
  exact ⟨h1, ENNReal.ofReal_toReal h2⟩

theorem gb_row_pos (hP : P.Random) (hg : P.leaf.Good) (h : build c P = .ok M) {X : Data}
    (hX : P.leaf.Data M.num_channels M.num_features X) :
    0 < ∑ j ∈ Finset.range M.num_classes, classProb M j X ∧ 0 < rowProb M X := by
  have hK := train_classes hP h
  have : 0 < ∑ j ∈ Finset.range M.num_classes, classProb M j X :=
    Finset.sum_pos (fun k hk => (gb_pos hP hg h hX (Finset.mem_range.1 hk)).1) ⟨0, by simpa using hK⟩
  exact ⟨this, div_pos this (by exact_mod_cast hK)⟩

theorem gb_meas (hP : P.Random) (hg : P.leaf.Good) (h : build c P = .ok M) (hC : M.num_channels = C) (hF : M.num_features = F)
    (hr : P.leaf.ref = ref) {k : Nat} (hk : k < M.num_classes) :
    AEMeasurable (fun ω : Fin C → Fin F → ℝ => M.density none k (Pt.data ω)) (Measure.pi fun _ => Measure.pi fun _ => ref) := by
  subst hC hF hr
  obtain ⟨-, hw, hp, _⟩ := build_WF hP h
  have := Model.density_aemeasurable hw (hp hg) (Model.observed_nan _) hk
  unfold missing at this
  simp only [if_true] at this
  rwa [LeafSpec.ref_eq (build_leaf hP h)] at this

theorem gb_int (hP : P.Random) (hg : P.leaf.Good) (h : build c P = .ok M) (hC : M.num_channels = C) (hF : M.num_features = F)
    (hr : P.leaf.ref = ref) {k : Nat} (hk : k < M.num_classes) :
    ∫⁻ ω : Fin C → Fin F → ℝ, M.density none k (Pt.data ω) ∂(Measure.pi fun _ => Measure.pi fun _ => ref) = 1 := by
  subst hC hF hr
  exact C01_density_integral c P hP hg M h k hk

theorem gb_row_int (hP : P.Random) (hg : P.leaf.Good) (h : build c P = .ok M) (hC : M.num_channels = C) (hF : M.num_features = F)
    (hr : P.leaf.ref = ref) :
    ∫⁻ ω : Fin C → Fin F → ℝ, ENNReal.ofReal (rowProb M (Pt.data ω)) ∂(Measure.pi fun _ => Measure.pi fun _ => ref) = 1 := by
  subst hC hF hr
  exact C58_integral c P hP hg M h

theorem gb_row_meas (hP : P.Random) (hg : P.leaf.Good) (h : build c P = .ok M) (hC : M.num_channels = C) (hF : M.num_features = F)
    (hr : P.leaf.ref = ref) :
    AEMeasurable (fun ω : Fin C → Fin F → ℝ => rowProb M (Pt.data ω)) (Measure.pi fun _ => Measure.pi fun _ => ref) := by
  unfold rowProb classProb
  exact (Finset.aemeasurable_fun_sum _ fun k hk =>
    (gb_meas hP hg h hC hF hr (Finset.mem_range.1 hk)).ennreal_toReal).div_const _

theorem dataLaw_prob (hP : P.Random) (hg : P.leaf.Good) (h : build c P = .ok M) :
    IsProbabilityMeasure (dataLaw M P.leaf.ref) := by
  refine ⟨?_⟩
  unfold dataLaw
  rw [withDensity_apply _ MeasurableSet.univ, Measure.restrict_univ]
  exact C58_integral c P hP hg M h

end

/-- product of independent factors, almost everywhere measurable. -/
theorem lintegral_pi_prod_ae {n : ℕ} {E : Type} [MeasurableSpace E] {μ : Measure E} [SigmaFinite μ]
    {f : E → ℝ≥0∞} (hf : AEMeasurable f μ) :
    ∫⁻ x : Fin n → E, ∏ i, f (x i) ∂(Measure.pi fun _ => μ) = (∫⁻ x, f x ∂μ) ^ n := by
  have e : ∀ᵐ x : Fin n → E ∂(Measure.pi fun _ => μ), ∏ i, f (x i) = ∏ i, hf.mk f (x i) := by
    have : ∀ i : Fin n, ∀ᵐ x : Fin n → E ∂(Measure.pi fun _ => μ), f (x i) = hf.mk f (x i) := fun i =>
      (Measure.tendsto_eval_ae_ae (μ := fun _ : Fin n => μ) (i := i)).eventually (p := fun y => f y = hf.mk f y) hf.ae_eq_mk
    filter_upwards [Filter.eventually_all.2 this] with x hx
    exact Finset.prod_congr rfl fun i _ => hx i
  rw [lintegral_congr_ae e, lintegral_pi_prod (f := fun _ => hf.mk f) fun _ => hf.measurable_mk,
    lintegral_congr_ae hf.ae_eq_mk]
  simp

theorem batchOf_row {N C F : Nat} (ω : Fin N → Fin C → Fin F → ℝ) (n : Fin N) : rowAt (batchOf ω) n = Pt.data (ω n) := by
  funext a b
  simp [rowAt, batchOf, at']

/-! ### C87 -/

section
variable {c c' : Config} {P P' : Params} {M M' : Model}

theorem ratio_facts (hP : P.Random) (hg : P.leaf.Good) (h : build c P = .ok M) (hP' : P'.Random) (hg' : P'.leaf.Good)
    (h' : build c' P' = .ok M') (hC : M'.num_channels = M.num_channels) (hF : M'.num_features = M.num_features)
    (hr : P'.leaf.ref = P.leaf.ref) :
    (∀ᵐ ω ∂dataLaw M P.leaf.ref, P.leaf.Data M.num_channels M.num_features (Pt.data ω) ∧
      P'.leaf.Data M'.num_channels M'.num_features (Pt.data ω)) ∧
    AEMeasurable (fun ω => rowProb M' (Pt.data ω) / rowProb M (Pt.data ω)) (dataLaw M P.leaf.ref) ∧
    ∫⁻ ω, ENNReal.ofReal (rowProb M' (Pt.data ω) / rowProb M (Pt.data ω)) ∂dataLaw M P.leaf.ref = 1 := by
  have hac : dataLaw M P.leaf.ref ≪ Measure.pi fun _ => Measure.pi fun _ => P.leaf.ref := withDensity_absolutelyContinuous _ _
  have hp := gb_point hP hg h rfl rfl rfl
  have hp' := gb_point hP' hg' h' hC hF hr
  have m := gb_row_meas hP hg h rfl rfl rfl
  have m' := gb_row_meas hP' hg' h' hC hF hr
  refine ⟨hac.ae_le (hp.and hp'), (m'.div m).mono_ac hac, ?_⟩
  unfold dataLaw
  have md : AEMeasurable (fun ω : Fin M.num_channels → Fin M.num_features → ℝ =>
      ENNReal.ofReal (rowProb M' (Pt.data ω) / rowProb M (Pt.data ω))) (Measure.pi fun _ => Measure.pi fun _ => P.leaf.ref) :=
    (m'.div m).ennreal_ofReal
  rw [lintegral_withDensity_eq_lintegral_mul₀ m.ennreal_ofReal md, ← gb_row_int hP' hg' h' hC hF hr]
  refine lintegral_congr_ae ?_
  filter_upwards [hp, hp'] with ω hω hω'
  have h0 := (gb_row_pos hP hg h hω).2
  simp only [Pi.mul_apply]
  rw [← ENNReal.ofReal_mul h0.le, mul_div_cancel₀ _ h0.ne']

end

/-- **C87**, main.py without classification: for batches of independent rows with density `p(x)` the training loss is in
expectation not larger than that of any other model. -/
theorem C87_generative (c c' : Config) (P P' : Params) (hP : P.Random) (hg : P.leaf.Good) (hP' : P'.Random) (hg' : P'.leaf.Good)
    (M M' : Model) (h : build c P = .ok M) (h' : build c' P' = .ok M') (hC : M'.num_channels = M.num_channels)
    (hF : M'.num_features = M.num_features) (hr : P'.leaf.ref = P.leaf.ref) (N : Nat) (hN : 0 < N) (t : Tensor ℤ) :
    NotWorse (Measure.pi fun _ : Fin N => dataLaw M P.leaf.ref) (fun ω => trainLoss M false (batchOf ω) t)
      (fun ω => trainLoss M' false (batchOf ω) t) := by
  have := dataLaw_prob hP hg h
  obtain ⟨hv, hm, hi⟩ := ratio_facts hP hg h hP' hg' h' hC hF hr
  set μ := dataLaw M P.leaf.ref with hμ
  have hae : ∀ᵐ ω : Fin N → Fin M.num_channels → Fin M.num_features → ℝ ∂(Measure.pi fun _ => μ), ∀ n,
      P.leaf.Data M.num_channels M.num_features (Pt.data (ω n)) ∧ P'.leaf.Data M'.num_channels M'.num_features (Pt.data (ω n)) :=
    Filter.eventually_all.2 fun n => (Measure.tendsto_eval_ae_ae (μ := fun _ : Fin N => μ) (i := n)).eventually
      (p := fun ω => P.leaf.Data M.num_channels M.num_features (Pt.data ω) ∧ P'.leaf.Data M'.num_channels M'.num_features (Pt.data ω)) hv
  let r : (Fin N → Fin M.num_channels → Fin M.num_features → ℝ) → ℝ := fun ω =>
    ∏ n, (rowProb M' (Pt.data (ω n)) / rowProb M (Pt.data (ω n)))
  have hN0 : (0 : ℝ) < N := by exact_mod_cast hN
  have hl : ∀ᵐ ω : Fin N → Fin M.num_channels → Fin M.num_features → ℝ ∂(Measure.pi fun _ => μ), 0 < r ω ∧ ∃ v v',
      trainLoss M false (batchOf ω) t = .ok (.fin v) ∧ trainLoss M' false (batchOf ω) t = .ok (.fin v') ∧
      v - v' = (N : ℝ)⁻¹ * Real.log (r ω) := by
    filter_upwards [hae] with ω hω
    have b : Batch P.leaf N M.num_channels M.num_features (batchOf ω) :=
      ⟨rfl, fun n hn => by have := (hω ⟨n, hn⟩).1; rwa [← batchOf_row ω ⟨n, hn⟩] at this⟩
    have b' : Batch P'.leaf N M'.num_channels M'.num_features (batchOf ω) :=
      ⟨by rw [hC, hF]; rfl, fun n hn => by have := (hω ⟨n, hn⟩).2; rwa [← batchOf_row ω ⟨n, hn⟩] at this⟩
    have q : ∀ n, 0 < rowProb M (Pt.data (ω n)) := fun n => (gb_row_pos hP hg h (hω n).1).2
    have q' : ∀ n, 0 < rowProb M' (Pt.data (ω n)) := fun n => (gb_row_pos hP' hg' h' (hω n).2).2
    refine ⟨Finset.prod_pos fun n _ => div_pos (q' n) (q n), _, _, C58_train c P hP hg M h N hN _ b t,
      C58_train c' P' hP' hg' M' h' N hN _ b' t, ?_⟩
    rw [Real.log_prod fun n _ => (div_pos (q' n) (q n)).ne', ← Fin.sum_univ_eq_sum_range
      (fun n => Real.log (rowProb M (rowAt (batchOf ω) n))), ← Fin.sum_univ_eq_sum_range
      (fun n => Real.log (rowProb M' (rowAt (batchOf ω) n)))]
    simp only [batchOf_row]
    rw [Finset.sum_congr rfl fun n _ => Real.log_div (q' n).ne' (q n).ne', Finset.sum_sub_distrib]
    field_simp
    ring
  have hrm : AEMeasurable r (Measure.pi fun _ => μ) := by
    refine Finset.aemeasurable_fun_prod _ fun n _ => ?_
    exact hm.comp_quasiMeasurePreserving (Measure.quasiMeasurePreserving_eval _ n)
  have hri : ∫⁻ ω, ENNReal.ofReal (r ω) ∂(Measure.pi fun _ => μ) ≤ 1 := by
    have : ∀ᵐ ω ∂(Measure.pi fun _ : Fin N => μ), ENNReal.ofReal (r ω) =
        ∏ n, ENNReal.ofReal (rowProb M' (Pt.data (ω n)) / rowProb M (Pt.data (ω n))) := by
      filter_upwards [hae] with ω hω
      exact ENNReal.ofReal_prod_of_nonneg fun n _ =>
        (div_pos (gb_row_pos hP' hg' h' (hω n).2).2 (gb_row_pos hP hg h (hω n).1).2).le
    rw [lintegral_congr_ae this, lintegral_pi_prod_ae hm.ennreal_ofReal, hi, one_pow]
  obtain ⟨g1, g2, -⟩ := gibbs {()} (fun _ => Measure.pi fun _ : Fin N => μ) (fun _ => r) (fun _ _ => hrm)
    (fun _ _ => hl.mono fun _ h => h.1) (by simp) (by simpa using hri)
  simp only [Finset.sum_singleton] at g1 g2
  have e1 : ∫⁻ ω, ENNReal.ofReal (lossValue (trainLoss M false (batchOf ω) t) - lossValue (trainLoss M' false (batchOf ω) t))
      ∂(Measure.pi fun _ : Fin N => μ) = ENNReal.ofReal (N : ℝ)⁻¹ * ∫⁻ ω, ENNReal.ofReal (Real.log (r ω)) ∂(Measure.pi fun _ => μ) := by
    rw [← lintegral_const_mul' _ _ ENNReal.ofReal_ne_top]
    refine lintegral_congr_ae ?_
    filter_upwards [hl] with ω ⟨_, v, v', e, e', hd⟩
    rw [e, e', ← ENNReal.ofReal_mul (by positivity), ← hd]
    rfl
  have e2 : ∫⁻ ω, ENNReal.ofReal (lossValue (trainLoss M' false (batchOf ω) t) - lossValue (trainLoss M false (batchOf ω) t))
      ∂(Measure.pi fun _ : Fin N => μ) = ENNReal.ofReal (N : ℝ)⁻¹ * ∫⁻ ω, ENNReal.ofReal (-Real.log (r ω)) ∂(Measure.pi fun _ => μ) := by
    rw [← lintegral_const_mul' _ _ ENNReal.ofReal_ne_top]
    refine lintegral_congr_ae ?_
    filter_upwards [hl] with ω ⟨_, v, v', e, e', hd⟩
    rw [e, e', ← ENNReal.ofReal_mul (by positivity), mul_neg, ← hd, neg_sub]
    rfl
  have hN1 : ENNReal.ofReal (N : ℝ)⁻¹ ≤ 1 := by
    rw [← ENNReal.ofReal_one]
    exact ENNReal.ofReal_le_ofReal (inv_le_one_of_one_le₀ (by exact_mod_cast hN))
  refine ⟨hl.mono fun ω ⟨_, v, v', e, e', _⟩ => ⟨⟨v, e⟩, v', e'⟩, ?_, ?_⟩
  · rw [e1]; exact mul_le_one' hN1 g2
  · rw [e1, e2]; gcongr

/-- the loss of one row. -/
theorem train_row {c : Config} {P : Params} {M : Model} (hP : P.Random) (hg : P.leaf.Good) (h : build c P = .ok M) {X : Data} {C F : Nat}
    (hC : M.num_channels = C) (hF : M.num_features = F) (hX : P.leaf.Data M.num_channels M.num_features X) (t : Tensor ℤ) :
    trainLoss M false (rowTensor C F X) t = .ok (.fin (-Real.log (rowProb M X))) := by
  subst hC hF
  rw [C58_train c P hP hg M h 1 one_pos _ ⟨rfl, fun n _ => hX⟩ t]
  simp only [Finset.range_one, Finset.sum_singleton, Nat.cast_one, div_one]
  rfl

/-- **C87**, the minimum is attained by no other distribution: if the expected loss of `M'` is that of `M`, then `M'` has the same
density almost everywhere. -/
theorem C87_unique (c c' : Config) (P P' : Params) (hP : P.Random) (hg : P.leaf.Good) (hP' : P'.Random) (hg' : P'.leaf.Good)
    (M M' : Model) (h : build c P = .ok M) (h' : build c' P' = .ok M') (hC : M'.num_channels = M.num_channels)
    (hF : M'.num_features = M.num_features) (hr : P'.leaf.ref = P.leaf.ref) (t : Tensor ℤ)
    (heq : ∫⁻ ω, ENNReal.ofReal (lossValue (trainLoss M false (rowTensor M.num_channels M.num_features (Pt.data ω)) t) -
        lossValue (trainLoss M' false (rowTensor M.num_channels M.num_features (Pt.data ω)) t)) ∂dataLaw M P.leaf.ref =
      ∫⁻ ω, ENNReal.ofReal (lossValue (trainLoss M' false (rowTensor M.num_channels M.num_features (Pt.data ω)) t) -
        lossValue (trainLoss M false (rowTensor M.num_channels M.num_features (Pt.data ω)) t)) ∂dataLaw M P.leaf.ref) :
    ∀ᵐ ω : Fin M.num_channels → Fin M.num_features → ℝ ∂(Measure.pi fun _ => Measure.pi fun _ => P.leaf.ref),
      rowProb M' (Pt.data ω) = rowProb M (Pt.data ω) := by
  have := dataLaw_prob hP hg h
  obtain ⟨hv, hm, hi⟩ := ratio_facts hP hg h hP' hg' h' hC hF hr
  have hpos : ∀ᵐ ω ∂dataLaw M P.leaf.ref, 0 < rowProb M' (Pt.data ω) / rowProb M (Pt.data ω) := by
    filter_upwards [hv] with ω hω
    exact div_pos (gb_row_pos hP' hg' h' hω.2).2 (gb_row_pos hP hg h hω.1).2
  obtain ⟨-, -, g3⟩ := gibbs {()} (fun _ => dataLaw M P.leaf.ref) (fun _ ω => rowProb M' (Pt.data ω) / rowProb M (Pt.data ω))
    (fun _ _ => hm) (fun _ _ => hpos) (by simp) (by simp [hi])
  simp only [Finset.sum_singleton, Finset.mem_singleton] at g3
  have hlog : ∀ᵐ ω ∂dataLaw M P.leaf.ref,
      lossValue (trainLoss M false (rowTensor M.num_channels M.num_features (Pt.data ω)) t) -
        lossValue (trainLoss M' false (rowTensor M.num_channels M.num_features (Pt.data ω)) t) =
      Real.log (rowProb M' (Pt.data ω) / rowProb M (Pt.data ω)) := by
    filter_upwards [hv] with ω hω
    rw [train_row hP hg h rfl rfl hω.1, train_row hP' hg' h' hC hF hω.2,
      Real.log_div (gb_row_pos hP' hg' h' hω.2).2.ne' (gb_row_pos hP hg h hω.1).2.ne']
    simp only [lossValue]
    ring
  have h1 := g3 ((lintegral_congr_ae (hlog.mono fun ω e => by rw [← e])).trans (heq.trans
    (lintegral_congr_ae (hlog.mono fun ω e => by dsimp only; rw [← e, neg_sub]))))
  unfold dataLaw at h1
  rw [ae_withDensity_iff' (gb_row_meas hP hg h rfl rfl rfl).ennreal_ofReal] at h1
  filter_upwards [h1 () trivial, gb_point hP hg h rfl rfl rfl] with ω e hω
  have h0 := (gb_row_pos hP hg h hω).2
  have := e (by simpa using h0)
  rwa [div_eq_one_iff_eq h0.ne'] at this

/-! ### Classification -/

theorem notWorse_labelled {Ω : Type} [MeasurableSpace Ω] {K : Nat} (hK : 0 < K) {μ : Nat → Measure Ω} (hμ : ∀ k, k < K → μ k Set.univ = 1)
    {l l' : Nat → Ω → Res Fl} (r : Nat → Ω → ℝ) (hm : ∀ k, k < K → AEMeasurable (r k) (μ k))
    (hl : ∀ k, k < K → ∀ᵐ ω ∂μ k, 0 < r k ω ∧ ∃ v v', l k ω = .ok (.fin v) ∧ l' k ω = .ok (.fin v') ∧ v - v' = Real.log (r k ω))
    (hi : ∑ k ∈ Finset.range K, ∫⁻ ω, ENNReal.ofReal (r k ω) ∂μ k ≤ K) : NotWorseLabelled K μ l l' := by
  have hK0 : (K : ℝ≥0∞) ≠ 0 := by simpa using hK.ne'
  have hKt : (K : ℝ≥0∞) ≠ ⊤ := ENNReal.natCast_ne_top K
  have sm : ∀ f : Nat → Ω → ℝ≥0∞, ∑ k ∈ Finset.range K, ∫⁻ ω, f k ω ∂((K : ℝ≥0∞)⁻¹ • μ k) =
      (∑ k ∈ Finset.range K, ∫⁻ ω, f k ω ∂μ k) / K := by
    intro f
    simp only [lintegral_smul_measure, smul_eq_mul, ← Finset.mul_sum]
    rw [mul_comm, div_eq_mul_inv]
  have ac : ∀ k, (K : ℝ≥0∞)⁻¹ • μ k ≪ μ k := fun k => Measure.smul_absolutelyContinuous
  obtain ⟨g1, g2, -⟩ := gibbs (Finset.range K) (fun k => (K : ℝ≥0∞)⁻¹ • μ k) r
    (fun k hk => (hm k (Finset.mem_range.1 hk)).mono_ac (ac k))
    (fun k hk => (ac k).ae_le ((hl k (Finset.mem_range.1 hk)).mono fun _ h => h.1))
    (by
      simp only [Measure.smul_apply, smul_eq_mul]
      rw [Finset.sum_congr rfl fun k hk => by rw [hμ k (Finset.mem_range.1 hk), mul_one]]
      simp only [Finset.sum_const, Finset.card_range, nsmul_eq_mul]
      exact ENNReal.mul_inv_cancel hK0 hKt)
    (by
      rw [sm fun k ω => ENNReal.ofReal (r k ω)]
      exact ENNReal.div_le_of_le_mul (by simpa using hi))
  rw [sm fun k ω => ENNReal.ofReal (Real.log (r k ω))] at g1 g2
  rw [sm fun k ω => ENNReal.ofReal (-Real.log (r k ω))] at g1
  have e1 : ∑ k ∈ Finset.range K, ∫⁻ ω, ENNReal.ofReal (lossValue (l k ω) - lossValue (l' k ω)) ∂μ k =
      ∑ k ∈ Finset.range K, ∫⁻ ω, ENNReal.ofReal (Real.log (r k ω)) ∂μ k := by
    refine Finset.sum_congr rfl fun k hk => lintegral_congr_ae ?_
    filter_upwards [hl k (Finset.mem_range.1 hk)] with ω ⟨_, v, v', e, e', hd⟩
    rw [e, e', ← hd]; rfl
  have e2 : ∑ k ∈ Finset.range K, ∫⁻ ω, ENNReal.ofReal (lossValue (l' k ω) - lossValue (l k ω)) ∂μ k =
      ∑ k ∈ Finset.range K, ∫⁻ ω, ENNReal.ofReal (-Real.log (r k ω)) ∂μ k := by
    refine Finset.sum_congr rfl fun k hk => lintegral_congr_ae ?_
    filter_upwards [hl k (Finset.mem_range.1 hk)] with ω ⟨_, v, v', e, e', hd⟩
    rw [e, e', ← hd, neg_sub]; rfl
  refine ⟨fun k hk => (hl k hk).mono fun ω ⟨_, v, v', e, e', _⟩ => ⟨⟨v, e⟩, v', e'⟩, ?_, ?_⟩
  · rw [e1]; exact g2
  · rw [e1, e2]; exact g1

section
variable {c : Config} {P : Params} {M : Model} {C F : Nat}

theorem label_ok {k K : Nat} (hk : k < K) : ∀ n, n < 1 → 0 ≤ (full [1] (k : ℤ)).get [n] ∧ (full [1] (k : ℤ)).get [n] < K :=
  fun n _ => ⟨Int.natCast_nonneg k, by show (k : ℤ) < _; exact_mod_cast hk⟩

theorem cross_row (hP : P.Random) (hg : P.leaf.Good) (h : build c P = .ok M) (hK : 2 ≤ M.num_classes) {X : Data}
    (hC : M.num_channels = C) (hF : M.num_features = F) (hX : P.leaf.Data M.num_channels M.num_features X) {k : Nat} (hk : k < M.num_classes) :
    (crossEntropyAndAccuracy M (rowTensor C F X) (full [1] (k : ℤ))).map Prod.fst = .ok (.fin (-Real.log (bayes M k X))) := by
  subst hC hF
  rw [(C59_loss c P hP hg M h hK 1 one_pos _ ⟨rfl, fun n _ => hX⟩ _ rfl (label_ok hk)).1]
  simp only [Finset.range_one, Finset.sum_singleton, Nat.cast_one, div_one]
  rfl

theorem nll_row (hP : P.Random) (hg : P.leaf.Good) (h : build c P = .ok M) (hK : 2 ≤ M.num_classes) {X : Data}
    (hC : M.num_channels = C) (hF : M.num_features = F) (hX : P.leaf.Data M.num_channels M.num_features X) {k : Nat} (hk : k < M.num_classes) :
    trainLoss M true (rowTensor C F X) (full [1] (k : ℤ)) = .ok (.fin (-Real.log (classProb M k X))) := by
  subst hC hF
  rw [C59_train_partial c P hP hg M h hK 1 one_pos _ ⟨rfl, fun n _ => hX⟩ _ rfl (label_ok hk)]
  simp only [Finset.range_one, Finset.sum_singleton, Nat.cast_one, div_one]
  show Except.ok (Fl.fin (-Real.log (bayes M k X) - Real.log (∑ j ∈ Finset.range M.num_classes, classProb M j X))) = _
  unfold bayes
  rw [Real.log_div (gb_pos hP hg h hX hk).1.ne' (gb_row_pos hP hg h hX).1.ne']
  congr 2
  ring

end

/-- **C87**, models_pl.py with classification: for labelled rows, `p(x | y = k)` being the distribution of the rows with label
`k`, the cross entropy of the posterior is in expectation not larger than that of any other model with as many classes. -/
theorem C87_discriminative (c c' : Config) (P P' : Params) (hP : P.Random) (hg : P.leaf.Good) (hP' : P'.Random) (hg' : P'.leaf.Good)
    (M M' : Model) (h : build c P = .ok M) (h' : build c' P' = .ok M') (hC : M'.num_channels = M.num_channels)
    (hF : M'.num_features = M.num_features) (hr : P'.leaf.ref = P.leaf.ref) (hK : 2 ≤ M.num_classes)
    (hK' : M'.num_classes = M.num_classes) :
    NotWorseLabelled M.num_classes (rowLaw M P.leaf.ref)
      (fun k ω => (crossEntropyAndAccuracy M (rowTensor M.num_channels M.num_features (Pt.data ω)) (full [1] (k : ℤ))).map Prod.fst)
      (fun k ω => (crossEntropyAndAccuracy M' (rowTensor M.num_channels M.num_features (Pt.data ω)) (full [1] (k : ℤ))).map Prod.fst) := by
  have hac : ∀ k, rowLaw M P.leaf.ref k ≪ Measure.pi fun _ => Measure.pi fun _ => P.leaf.ref :=
    fun k => withDensity_absolutelyContinuous _ _
  have hp := gb_point hP hg h rfl rfl rfl
  have hp' := gb_point hP' hg' h' hC hF hr
  have m : ∀ k, k < M.num_classes → AEMeasurable (fun ω : Fin M.num_channels → Fin M.num_features → ℝ => bayes M k (Pt.data ω))
      (Measure.pi fun _ => Measure.pi fun _ => P.leaf.ref) := by
    intro k hk
    exact (gb_meas hP hg h rfl rfl rfl hk).ennreal_toReal.div (Finset.aemeasurable_fun_sum _ fun j hj =>
      (gb_meas hP hg h rfl rfl rfl (Finset.mem_range.1 hj)).ennreal_toReal)
  have m' : ∀ k, k < M.num_classes → AEMeasurable (fun ω : Fin M.num_channels → Fin M.num_features → ℝ => bayes M' k (Pt.data ω))
      (Measure.pi fun _ => Measure.pi fun _ => P.leaf.ref) := by
    intro k hk
    exact (gb_meas hP' hg' h' hC hF hr (by omega)).ennreal_toReal.div (Finset.aemeasurable_fun_sum _ fun j hj =>
      (gb_meas hP' hg' h' hC hF hr (Finset.mem_range.1 hj)).ennreal_toReal)
  have md : ∀ k, k < M.num_classes → AEMeasurable (fun ω : Fin M.num_channels → Fin M.num_features → ℝ =>
      bayes M' k (Pt.data ω) / bayes M k (Pt.data ω)) (Measure.pi fun _ => Measure.pi fun _ => P.leaf.ref) :=
    fun k hk => (m' k hk).div (m k hk)
  refine notWorse_labelled (by omega) (fun k hk => (C13_rowLaw_prob c P hP hg M h k hk).1.measure_univ)
    (fun k ω => bayes M' k (Pt.data ω) / bayes M k (Pt.data ω)) (fun k hk => (md k hk).mono_ac (hac k)) ?_ ?_
  · intro k hk
    filter_upwards [(hac k).ae_le hp, (hac k).ae_le hp'] with ω hω hω'
    have b : 0 < bayes M k (Pt.data ω) := div_pos (gb_pos hP hg h hω hk).1 (gb_row_pos hP hg h hω).1
    have b' : 0 < bayes M' k (Pt.data ω) := div_pos (gb_pos hP' hg' h' hω' (by omega)).1 (gb_row_pos hP' hg' h' hω').1
    refine ⟨div_pos b' b, _, _, cross_row hP hg h hK rfl rfl hω hk, cross_row hP' hg' h' (by omega) hC hF hω' (by omega), ?_⟩
    rw [Real.log_div b'.ne' b.ne']
    ring
  · have e : ∀ k ∈ Finset.range M.num_classes, ∫⁻ ω, ENNReal.ofReal (bayes M' k (Pt.data ω) / bayes M k (Pt.data ω)) ∂rowLaw M P.leaf.ref k =
        ∫⁻ ω : Fin M.num_channels → Fin M.num_features → ℝ, ENNReal.ofReal (bayes M' k (Pt.data ω) *
          ∑ j ∈ Finset.range M.num_classes, classProb M j (Pt.data ω)) ∂(Measure.pi fun _ => Measure.pi fun _ => P.leaf.ref) := by
      intro k hk
      have hk := Finset.mem_range.1 hk
      unfold rowLaw
      rw [lintegral_withDensity_eq_lintegral_mul₀ (gb_meas hP hg h rfl rfl rfl hk) (md k hk).ennreal_ofReal]
      refine lintegral_congr_ae ?_
      filter_upwards [hp, hp'] with ω hω hω'
      have h0 := gb_pos hP hg h hω hk
      have h1 := (gb_row_pos hP hg h hω).1
      simp only [Pi.mul_apply]
      rw [← h0.2, ← ENNReal.ofReal_mul h0.1.le]
      congr 1
      have h00 := h0.1.ne'
      have h10 := h1.ne'
      have : bayes M k (Pt.data ω) = classProb M k (Pt.data ω) / ∑ j ∈ Finset.range M.num_classes, classProb M j (Pt.data ω) := rfl
      rw [this]
      field_simp
    rw [Finset.sum_congr rfl e, ← lintegral_finsetSum']
    · have e2 : ∫⁻ ω : Fin M.num_channels → Fin M.num_features → ℝ, (∑ k ∈ Finset.range M.num_classes, ENNReal.ofReal (bayes M' k (Pt.data ω) *
          ∑ j ∈ Finset.range M.num_classes, classProb M j (Pt.data ω))) ∂(Measure.pi fun _ => Measure.pi fun _ => P.leaf.ref) =
          ∫⁻ ω : Fin M.num_channels → Fin M.num_features → ℝ, (M.num_classes : ℝ≥0∞) * ENNReal.ofReal (rowProb M (Pt.data ω))
            ∂(Measure.pi fun _ => Measure.pi fun _ => P.leaf.ref) := by
        refine lintegral_congr_ae ?_
        filter_upwards [hp, hp'] with ω hω hω'
        have h1 := (gb_row_pos hP hg h hω).1
        have h1' := (gb_row_pos hP' hg' h' hω').1
        have b' : ∀ k ∈ Finset.range M.num_classes, 0 ≤ bayes M' k (Pt.data ω) := fun k hk =>
          (div_pos (gb_pos hP' hg' h' hω' (by have := Finset.mem_range.1 hk; omega)).1 h1').le
        rw [← ENNReal.ofReal_sum_of_nonneg fun k hk => mul_nonneg (b' k hk) h1.le, ← Finset.sum_mul]
        have : ∑ k ∈ Finset.range M.num_classes, bayes M' k (Pt.data ω) = 1 := by
          unfold bayes
          rw [← Finset.sum_div, ← hK', div_self h1'.ne']
        rw [this, one_mul, ← ENNReal.ofReal_natCast, ← ENNReal.ofReal_mul (Nat.cast_nonneg _)]
        congr 1
        unfold rowProb
        have : (M.num_classes : ℝ) ≠ 0 := by have : 0 < M.num_classes := by omega
                                             exact_mod_cast this.ne'
        field_simp
      rw [e2, lintegral_const_mul' _ _ (ENNReal.natCast_ne_top _), C58_integral c P hP hg M h, mul_one]
    · intro k hk
      exact ((m' k (Finset.mem_range.1 hk)).mul (Finset.aemeasurable_fun_sum _ fun j hj =>
        (gb_meas hP hg h rfl rfl rfl (Finset.mem_range.1 hj)).ennreal_toReal)).ennreal_ofReal

/-- **C87**, main.py with classification: the same for its loss, the negative log-likelihood of the row given its label. -/
theorem C87_class_nll (c c' : Config) (P P' : Params) (hP : P.Random) (hg : P.leaf.Good) (hP' : P'.Random) (hg' : P'.leaf.Good)
    (M M' : Model) (h : build c P = .ok M) (h' : build c' P' = .ok M') (hC : M'.num_channels = M.num_channels)
    (hF : M'.num_features = M.num_features) (hr : P'.leaf.ref = P.leaf.ref) (hK : 2 ≤ M.num_classes)
    (hK' : M'.num_classes = M.num_classes) :
    NotWorseLabelled M.num_classes (rowLaw M P.leaf.ref)
      (fun k ω => trainLoss M true (rowTensor M.num_channels M.num_features (Pt.data ω)) (full [1] (k : ℤ)))
      (fun k ω => trainLoss M' true (rowTensor M.num_channels M.num_features (Pt.data ω)) (full [1] (k : ℤ))) := by
  have hac : ∀ k, rowLaw M P.leaf.ref k ≪ Measure.pi fun _ => Measure.pi fun _ => P.leaf.ref :=
    fun k => withDensity_absolutelyContinuous _ _
  have hp := gb_point hP hg h rfl rfl rfl
  have hp' := gb_point hP' hg' h' hC hF hr
  have md : ∀ k, k < M.num_classes → AEMeasurable (fun ω : Fin M.num_channels → Fin M.num_features → ℝ =>
      classProb M' k (Pt.data ω) / classProb M k (Pt.data ω)) (Measure.pi fun _ => Measure.pi fun _ => P.leaf.ref) :=
    fun k hk => (gb_meas hP' hg' h' hC hF hr (by omega)).ennreal_toReal.div (gb_meas hP hg h rfl rfl rfl hk).ennreal_toReal
  refine notWorse_labelled (by omega) (fun k hk => (C13_rowLaw_prob c P hP hg M h k hk).1.measure_univ)
    (fun k ω => classProb M' k (Pt.data ω) / classProb M k (Pt.data ω)) (fun k hk => (md k hk).mono_ac (hac k)) ?_ ?_
  · intro k hk
    filter_upwards [(hac k).ae_le hp, (hac k).ae_le hp'] with ω hω hω'
    have b := (gb_pos hP hg h hω hk).1
    have b' := (gb_pos hP' hg' h' hω' (k := k) (by omega)).1
    refine ⟨div_pos b' b, _, _, nll_row hP hg h hK rfl rfl hω hk, nll_row hP' hg' h' (by omega) hC hF hω' (by omega), ?_⟩
    rw [Real.log_div b'.ne' b.ne']
    ring
  · have e : ∀ k ∈ Finset.range M.num_classes,
        ∫⁻ ω, ENNReal.ofReal (classProb M' k (Pt.data ω) / classProb M k (Pt.data ω)) ∂rowLaw M P.leaf.ref k = 1 := by
      intro k hk
      have hk := Finset.mem_range.1 hk
      unfold rowLaw
      rw [lintegral_withDensity_eq_lintegral_mul₀ (gb_meas hP hg h rfl rfl rfl hk) (md k hk).ennreal_ofReal,
        ← gb_int hP' hg' h' hC hF hr (k := k) (by omega)]
      refine lintegral_congr_ae ?_
      filter_upwards [hp, hp'] with ω hω hω'
      have h0 := gb_pos hP hg h hω hk
      simp only [Pi.mul_apply]
      rw [← h0.2, ← ENNReal.ofReal_mul h0.1.le, mul_div_cancel₀ _ h0.1.ne', (gb_pos hP' hg' h' hω' (by omega)).2]
    rw [Finset.sum_congr rfl e]
    simp

/-- two models of different structure and different leaves on the same data space. -/
example : ∃ M M', build (exConfig "einsum" "top-down") (exParams exLeaf) = .ok M ∧
    build (exConfig "linsum" "bottom-up") (exParams (.normal (fun _ _ _ _ => 0) fun _ _ _ _ => 1)) = .ok M' ∧
    M'.num_channels = M.num_channels ∧ M'.num_features = M.num_features ∧
    (exParams (.normal (fun _ _ _ _ => 0) fun _ _ _ _ => 1)).leaf.ref = (exParams exLeaf).leaf.ref ∧ 2 ≤ M.num_classes ∧
    M'.num_classes = M.num_classes := by
  obtain ⟨M, h⟩ := exConfig_normal (l := "einsum") (s := "top-down") (Or.inl ⟨Or.inr (Or.inr rfl), rfl⟩)
  obtain ⟨e1, e2, e3⟩ := exSizes h
  obtain ⟨M', h'⟩ := exConfig_builds (l := "linsum") (s := "bottom-up") (leaf := .normal (fun _ _ _ _ => 0) fun _ _ _ _ => 1)
    (Or.inr ⟨rfl, rfl⟩) ⟨normalLeaf _ _ _, by simp [LeafSpec.build]; rfl⟩
  have hz := (build_WF (exParams_random _) h').1
  exact ⟨M, M', h, h', by rw [e1, hz.channels]; rfl, by rw [e2, hz.features]; rfl, rfl, by omega, by rw [e3, hz.classes]; rfl⟩

end Einet.Props
