import Verif.Temper

/-!
# Properties of the temperatures: C41
-/

open Classical MeasureTheory ProbabilityTheory
open scoped ENNReal
noncomputable section
namespace Einet
namespace Props
open Tensor Einet

/-- **C41**, scaling: multiplying the logits of all sum layers by a positive factor and `temperature_sums` by the same factor
leaves `sample` unchanged: it is the same random program (same random choices with the same weights, same result, same
exceptions).  For every model and all arguments without evidence, sampling and MPE. -/
theorem C41_scale (M : Model) (a : SampleArgs) (ha : a.evidence = none) (s : ℝ) (hs : 0 < s) :
    (M.scale s).sample { a with temperature_sums := s * a.temperature_sums } = M.sample a :=
  (M.sample_scale hs a ha).symm

/-- **C41**: sampling at `temperature_sums = T` is sampling at temperature 1 from the model whose logits are divided by
`T`. -/
theorem C41_divide (M : Model) (a : SampleArgs) (ha : a.evidence = none) (hT : 0 < a.temperature_sums) :
    M.sample a = (M.scale (1 / a.temperature_sums)).sample { a with temperature_sums := 1 } := by
  rw [M.sample_scale (one_div_pos.2 hT) a ha, one_div_mul_cancel hT.ne']

/-- scaling changes the model: the effect of the two theorems above is not trivial. -/
example : ∃ (M : Model), build (exConfig "einsum" "top-down") (exParams exLeaf) = .ok M ∧ (M.scale 2).num_classes = 3 ∧
    (M.scale 2).classRoot.logits.get [0, 1, 0, 0] ≠ M.classRoot.logits.get [0, 1, 0, 0] := by
  obtain ⟨M, h⟩ := exConfig_normal (l := "einsum") (s := "top-down") (Or.inl ⟨Or.inr (Or.inr rfl), rfl⟩)
  refine ⟨M, h, (exSizes h).2.2, ?_⟩
  have e : M.classRoot.logits.get [0, 1, 0, 0] = .fin 3 := by
    rw [build_classRoot h]; simp [mkSumL, exParams]
  show Fl.fin 2 * M.classRoot.logits.get [0, 1, 0, 0] ≠ _
  rw [e]
  show Fl.fin (2 * 3) ≠ _
  norm_num

/-- **C41**: `temperature_leaves = 1` leaves the leaf distributions unchanged: what is drawn for a component has the density
that the forward pass uses for this component. -/
theorem C41_leaf_one (c : Config) (P : Params) (hP : P.Random) (hg : P.leaf.Good) (hs : P.leaf.CanSample) (M : Model)
    (h : build c P = .ok M) (d f i r : Nat) :
    M.leaf.base.law 1 d f i r = P.leaf.ref.withDensity fun x => cell M (.fin x) d f i r := by
  have hsam := (build_samplable hP hg hs h).samp
  have hp := (build_WF hP h).2.2.1 hg
  have href : M.leaf.base.ref = fun _ => P.leaf.ref := LeafSpec.ref_eq (build_leaf hP h)
  ext A hA
  have := hsam.law_one d f i r (A.indicator 1) (measurable_one.indicator hA)
  rw [lintegral_indicator_one hA, href] at this
  rw [this, withDensity_apply _ hA, ← lintegral_indicator hA]
  refine lintegral_congr fun x => ?_
  unfold cell
  by_cases hx : x ∈ A
  · simp [hx]
  · simp [hx]

/-- the law of the draws for a leaf component at temperature `T`, from the documentation: the variance of a (rat) normal leaf is
multiplied by `T`, the logits of a categorical leaf are divided by `T`; a binomial leaf ignores `T`. -/
def leafLaw (T : ℝ) (d f i r : Nat) : LeafSpec → Measure ℝ → Prop
  | .normal m lv, μ => μ = gaussianReal (m d f i r) (T * Real.exp (lv d f i r)).toNNReal
  | .categorical n l, μ => μ = ∑ k ∈ Finset.range n.toNat,
      ENNReal.ofReal (Real.exp (l d f i r k / T) / ∑ j ∈ Finset.range n.toNat, Real.exp (l d f i r j / T)) • Measure.dirac (k : ℝ)
  | .binomial n l, μ => μ = ∑ k ∈ Finset.range (n.toNat + 1), ENNReal.ofReal (n.toNat.choose k * Real.sigmoid (l d f i r) ^ k *
      (1 - Real.sigmoid (l d f i r)) ^ (n.toNat - k)) • Measure.dirac (k : ℝ)
  | .ratNormal lo hi mlo mhi m sd, μ => ∀ p, ratProject lo hi mlo mhi (m d f i r) (sd d f i r) = .ok p →
      μ = gaussianReal p.1 (T * p.2 ^ 2).toNNReal
  | .bernoulli _, _ => True

theorem softmax_log_div {n : Nat} {l : Nat → ℝ} {T : ℝ} {k : Nat} (hk : k < n) :
    softmaxR n (fun k => Real.log (softmaxR n l k) / T) k = Real.exp (l k / T) / ∑ j ∈ Finset.range n, Real.exp (l j / T) := by
  have hS : 0 < ∑ j ∈ Finset.range n, Real.exp (l j) :=
    Finset.sum_pos (fun _ _ => Real.exp_pos _) ⟨k, Finset.mem_range.2 hk⟩
  set S := ∑ j ∈ Finset.range n, Real.exp (l j) with hSdef
  have e : ∀ j, Real.exp (Real.log (softmaxR n l j) / T) = Real.exp (l j / T) * Real.exp (-(Real.log S / T)) := by
    intro j
    unfold softmaxR
    rw [Real.log_div (Real.exp_pos _).ne' hS.ne', Real.log_exp, ← Real.exp_add]
    congr 1
    ring
  rw [show softmaxR n (fun k => Real.log (softmaxR n l k) / T) k = Real.exp (Real.log (softmaxR n l k) / T) /
    ∑ j ∈ Finset.range n, Real.exp (Real.log (softmaxR n l j) / T) from rfl]
  simp only [e]
  rw [← Finset.sum_mul, mul_div_mul_right _ _ (Real.exp_pos _).ne']

/-- **C41**: the law of the draws at any positive leaf temperature. -/
theorem C41_leaf (c : Config) (P : Params) (hP : P.Random) (M : Model) (h : build c P = .ok M) (T : ℝ) (hT : 0 < T)
    (d f i r : Nat) : leafLaw T d f i r P.leaf (M.leaf.base.law T d f i r) := by
  have hb := build_leaf hP h
  cases hl : P.leaf with
  | normal m lv =>
    rw [hl] at hb
    unfold LeafSpec.build at hb
    obtain ⟨_, _, hb⟩ := bind_ok hb
    simp only [Res.pure_eq, Except.ok.injEq] at hb
    rw [← hb]
    show gaussianReal _ _ = gaussianReal _ _
    congr 2
    rw [mul_pow, Real.sq_sqrt hT.le, ← Real.exp_nat_mul, mul_comm]
    congr 2
    push_cast
    ring
  | categorical n l =>
    rw [hl] at hb
    unfold LeafSpec.build at hb
    obtain ⟨_, _, hb⟩ := bind_ok hb
    obtain ⟨_, _, hb⟩ := bind_ok hb
    simp only [Res.pure_eq, Except.ok.injEq] at hb
    rw [← hb]
    show ∑ k ∈ Finset.range n.toNat, ENNReal.ofReal (softmaxR n.toNat (fun k => Real.log (softmaxR n.toNat (l d f i r) k) / T) k) •
      Measure.dirac (k : ℝ) = _
    refine Finset.sum_congr rfl fun k hk => ?_
    rw [softmax_log_div (by simpa using hk)]
  | binomial n l =>
    rw [hl] at hb
    unfold LeafSpec.build at hb
    obtain ⟨_, _, hb⟩ := bind_ok hb
    obtain ⟨_, _, hb⟩ := bind_ok hb
    simp only [Res.pure_eq, Except.ok.injEq] at hb
    rw [← hb]
    rfl
  | bernoulli p => trivial
  | ratNormal lo hi mlo mhi m sd =>
    rw [hl] at hb
    unfold LeafSpec.build at hb
    obtain ⟨_, _, hb⟩ := bind_ok hb
    obtain ⟨_, _, hb⟩ := bind_ok hb
    obtain ⟨_, _, hb⟩ := bind_ok hb
    obtain ⟨_, _, hb⟩ := bind_ok hb
    obtain ⟨_, _, hb⟩ := bind_ok hb
    obtain ⟨_, _, hb⟩ := bind_ok hb
    simp only [Res.pure_eq, Except.ok.injEq] at hb
    rw [← hb]
    intro p hp
    dsimp only [gaussLeaf]
    rw [hp]
    dsimp only
    rw [mul_pow, Real.sq_sqrt hT.le, mul_comm]

end Props
end Einet
