import Verif.MvnSample
import Verif.LawExt

/-!
# Law of the samples of an einet with multivariate normal leaves
-/

open Classical MeasureTheory ProbabilityTheory Matrix
open scoped ENNReal
noncomputable section
namespace Einet
open Tensor

namespace MvnEinet

/-- cases in which all features of a block use the same component. -/
def Aligned (E : MvnEinet) : Prop :=
  E.leaf.num_leaves = 1 ∨ E.leaf.out_features = 1 ∨ E.leaf.cardinality = 1 ∨ E.net.numOut = 1

/-- product of test functions over a block. -/
def blockTest (E : MvnEinet) (t : Nat → Nat → ℝ → ℝ≥0∞) (c b : Nat) (v : Fin E.leaf.cardinality → ℝ) : ℝ≥0∞ :=
  ∏ k : Fin E.leaf.cardinality, t c (b * E.leaf.cardinality + k) (v k)

theorem blockTest_measurable (E : MvnEinet) {t : Nat → Nat → ℝ → ℝ≥0∞} (ht : ∀ c f, Measurable (t c f)) (c b : Nat) :
    Measurable (E.blockTest t c b) :=
  Finset.measurable_fun_prod _ fun k _ => (ht _ _).comp (measurable_pi_apply k)

theorem sample_E {E : MvnEinet} {g : Nat → Nat → Nat} (h : E.Samplable g) (hal : E.Aligned) (hmir : E.net.Mirrored g) {a : SampleArgs}
    (hev : a.evidence = none)
    (hN : 0 < a.count) (hm : a.is_mpe = false) (hml : a.mpe_at_leaves = false) (hT : a.temperature_sums ≠ 0)
    (hc : E.net.ClassOK a.count a.class_index) {t : Nat → Nat → Nat → ℝ → ℝ≥0∞} (ht : ∀ n c f, Measurable (t n c f)) :
    (E.sample a).E (fun s => prod3 a.count E.leaf.num_channels E.leaf.num_features fun n c f => t n c f (s.get [n, c, f]).val) =
      ∏ n ∈ Finset.range a.count, ∑ k ∈ Finset.range E.net.num_classes,
        E.net.classW a.temperature_sums a.class_index n k *
        E.net.outP g a.temperature_sums (fun c b i r => E.blkE c b i r (E.blockTest (t n) c b)) k := by
  rw [sample_path_E h hev hN hm hml hT hc ht]
  obtain ⟨wf, pad, ⟨L, hL⟩, hF0⟩ := h
  have hF := MvnLeaf.out_mul wf.card pad
  have hB0 : 0 < E.leaf.out_features := by
    rcases Nat.eq_zero_or_pos E.leaf.out_features with e | e
    · rw [e] at hF; omega
    · exact e
  have hcp := Model.corePath_E wf.net hN hm hT hc (Model.evM_none E.net a.count) (Model.finZero E.net _)
    (fun n => E.net.regionS g fun c b i r => E.blkE c b i r (E.blockTest (t n) c b))
  refine Eq.trans ?_ (hcp.trans ?_)
  · refine Rand.E_congr (Model.corePath_All wf.net hN hT hc (Model.evM_none E.net a.count) (Model.finZero E.net _))
      fun ctx ⟨idx, rr, hctx, hce⟩ => ?_
    have hrr : ∀ n, n < a.count → ctx.indices_repetition.get [n] = rr n := fun n hn =>
      Is.get hctx.ir (i := [n]) ⟨hn, by simp⟩
    unfold prod2
    refine Finset.prod_congr rfl fun n hn => ?_
    have hn' : n < a.count := by simpa using hn
    dsimp only
    rw [hrr n hn']
    have e2 : ∏ o ∈ Finset.range E.net.numOut, E.net.regionS g (fun c b i r => E.blkE c b i r (E.blockTest (t n) c b)) o
        (ctx.indices_out.get [n, o]) (rr n) = _ :=
      Model.prod_regionS wf.net.front (hctx.ir_lt n hn') (fun c b i r => E.blkE c b i r (E.blockTest (t n) c b))
        fun o => ctx.indices_out.get [n, o]
    rw [e2, wf.features, wf.channels]
    refine Finset.prod_congr rfl fun b hb => Finset.prod_congr rfl fun c hcc => ?_
    have hb' : b < E.leaf.out_features := by simpa using hb
    have hgl : ∀ f, f < E.leaf.out_features → E.net.grpS g (rr n) f < E.net.numOut := fun f hf =>
      wf.net.front.grpS_lt (hctx.ir_lt n hn') (by rw [wf.features]; exact hf)
    have hil : ∀ f, f < E.leaf.out_features → ctx.indices_out.get [n, E.net.grpS g (rr n) f] < E.leaf.num_leaves := by
      intro f hf
      rw [hctx.io.get hn' (hgl f hf), ← wf.leaves]
      exact hctx.io_lt n hn' _ (hgl f hf)
    have hsame : ∀ k : Fin E.leaf.cardinality,
        ctx.indices_out.get [n, E.net.grpS g (rr n) ((b * E.leaf.cardinality + k) % E.leaf.out_features)] =
          ctx.indices_out.get [n, E.net.grpS g (rr n) b] := by
      intro k
      rcases hal with e | e | e | e
      · have h1 := hil _ (Nat.mod_lt (b * E.leaf.cardinality + k) hB0)
        have h2 := hil b hb'
        omega
      · have : b = 0 := by omega
        rw [e, this, Nat.mod_one]
      · have h1 : (k : Nat) = 0 := by have := k.2; omega
        rw [h1, e, Nat.mul_one, Nat.add_zero, Nat.mod_eq_of_lt hb']
      · have h1 := hgl _ (Nat.mod_lt (b * E.leaf.cardinality + k) hB0)
        have h2 := hgl b hb'
        rw [show E.net.grpS g (rr n) ((b * E.leaf.cardinality + k) % E.leaf.out_features) = E.net.grpS g (rr n) b by omega]
    simp only [hsame]
    rw [Finset.prod_eq_single (ctx.indices_out.get [n, E.net.grpS g (rr n) b])]
    · simp only [if_true]
      rfl
    · intro i _ hne
      simp only [if_neg (Ne.symm hne), Finset.prod_const_one]
      exact E.blkE_one c b i (rr n)
    · intro hne
      exact absurd (Finset.mem_range.2 (hil b hb')) hne
  · refine Finset.prod_congr rfl fun n _ => Finset.sum_congr rfl fun k hk => ?_
    have hk' : k < E.net.num_classes := by simpa using hk
    rw [Model.pathVal_uncond wf.net hT hk', Model.outP_eq]
    congr 1
    refine Model.topP_congr wf.net hk' fun o _ i _ r hr => ?_
    exact Model.regionS_eq hmir _ hr

/-- a product of test functions times the density, block by block. -/
theorem density_blocks {E : MvnEinet} {g : Nat → Nat → Nat} (h : E.WF g) (hp : E.leaf.pad_value = 0) {k : Nat}
    (hk : k < E.net.num_classes) {t : Nat → Nat → ℝ → ℝ≥0∞} (ω : Pt E.leaf.num_channels E.leaf.num_features) :
    (∏ f : Fin E.leaf.num_features, ∏ c : Fin E.leaf.num_channels, t c f (ω c f)) * E.density none k ω.data =
      E.net.outP g 1 (fun c b i r => E.blockTest t c b (fun j => (ω.data c (b * E.leaf.cardinality + j)).val) *
        E.blockP ω.data c b i r) k := by
  have hF := MvnLeaf.out_mul h.card hp
  rw [density_eq h hp (complete_data ω) (ms := none) (l := []) rfl hk,
    Model.outP_mul h.net one_ne_zero (fun c b => E.blockTest t c b fun j => (ω.data c (b * E.leaf.cardinality + j)).val) _ hk]
  simp only [List.not_mem_nil, if_false]
  congr 1
  have e0 : (∏ f : Fin E.leaf.num_features, ∏ c : Fin E.leaf.num_channels, t c f (ω c f)) =
      ∏ f ∈ Finset.range E.leaf.num_features, ∏ c ∈ Finset.range E.leaf.num_channels, t c f (ω.data c f).val := by
    rw [Finset.prod_range]
    refine Finset.prod_congr rfl fun f _ => ?_
    rw [Finset.prod_range]
    refine Finset.prod_congr rfl fun c _ => ?_
    rw [ω.data_eq c.2 f.2]
    rfl
  rw [e0, h.features, h.channels]
  have e1 : ∏ f ∈ Finset.range E.leaf.num_features, ∏ c ∈ Finset.range E.leaf.num_channels, t c f (ω.data c f).val =
      ∏ b ∈ Finset.range E.leaf.out_features, ∏ j ∈ Finset.range E.leaf.cardinality,
        ∏ c ∈ Finset.range E.leaf.num_channels, t c (b * E.leaf.cardinality + j)
          (ω.data c (b * E.leaf.cardinality + j)).val := by
    rw [← prod_range_mul E.leaf.out_features E.leaf.cardinality (fun f =>
      ∏ c ∈ Finset.range E.leaf.num_channels, t c f (ω.data c f).val), hF]
  rw [e1]
  refine Finset.prod_congr rfl fun b _ => ?_
  rw [Finset.prod_comm]
  refine Finset.prod_congr rfl fun c _ => ?_
  unfold blockTest
  rw [Finset.prod_range]

/-- integral of a product of test functions against the density. -/
theorem density_test {E : MvnEinet} {g : Nat → Nat → Nat} (h : E.WF g) (hp : E.leaf.pad_value = 0) {k : Nat}
    (hk : k < E.net.num_classes) {t : Nat → Nat → ℝ → ℝ≥0∞} (ht : ∀ c f, Measurable (t c f)) :
    E.net.outP g 1 (fun c b i r => E.blkE c b i r (E.blockTest t c b)) k =
      ∫⁻ ω : Pt E.leaf.num_channels E.leaf.num_features,
        (∏ f : Fin E.leaf.num_features, ∏ c : Fin E.leaf.num_channels, t c f (ω c f)) * E.density none k ω.data := by
  have hF := MvnLeaf.out_mul h.card hp
  have e : ∀ ω : Pt E.leaf.num_channels E.leaf.num_features,
      (∏ f : Fin E.leaf.num_features, ∏ c : Fin E.leaf.num_channels, t c f (ω c f)) * E.density none k ω.data =
      E.net.outP g 1 (fun c b i r => E.blockTest t c b (fun j => (ω.data c (b * E.leaf.cardinality + j)).val) *
        E.blockP ω.data c b i r) k := density_blocks h hp hk
  simp only [e]
  have hmp : ∀ c b i r, Measurable fun v : Fin E.leaf.cardinality → ℝ =>
      ENNReal.ofReal (Real.exp (mvnLogProb (E.leaf.loc [c, b, i, r]) (E.leaf.scale_tril [c, b, i, r]) v)) := fun c b i r =>
    (Real.measurable_exp.comp (LowerPos.measurable_logProb _ _)).ennreal_ofReal
  have hmd := E.measurable_entry
  symm
  refine Model.outP_lintegral h.net one_ne_zero (fun c b i r => ?_) (fun r hr idx hidx => ?_) hk
  · exact ((E.blockTest_measurable ht c b).comp (measurable_pi_lambda _ fun k => hmd _ _)).mul
      ((hmp c b i r).comp (measurable_pi_lambda _ fun k => hmd _ _))
  rw [h.features, h.channels]
  exact lintegral_block_data hF (fun c f => volume)
    (h := fun c b v => E.blockTest t c b v * ENNReal.ofReal (Real.exp (mvnLogProb (E.leaf.loc [c, b, idx b, r])
      (E.leaf.scale_tril [c, b, idx b, r]) v))) fun c b => (E.blockTest_measurable ht c b).mul (hmp c b _ r)

theorem density_measurable {E : MvnEinet} {g : Nat → Nat → Nat} (h : E.WF g) (hp : E.leaf.pad_value = 0) {k : Nat}
    (hk : k < E.net.num_classes) :
    Measurable fun ω : Pt E.leaf.num_channels E.leaf.num_features => E.density none k ω.data := by
  have e : (fun ω : Pt E.leaf.num_channels E.leaf.num_features => E.density none k ω.data) = fun ω =>
      E.net.outP g 1 (fun c b i r => E.blockP ω.data c b i r) k := by
    funext ω
    rw [density_eq h hp (complete_data ω) (ms := none) (l := []) rfl hk]
    simp only [List.not_mem_nil, if_false]
  rw [e]
  have hpm : ∀ c b i r, Measurable fun ω : Pt E.leaf.num_channels E.leaf.num_features => E.blockP ω.data c b i r :=
    fun c b i r => ((Real.measurable_exp.comp (LowerPos.measurable_logProb (E.leaf.scale_tril [c, b, i, r])
      (E.leaf.loc [c, b, i, r]))).ennreal_ofReal).comp (measurable_pi_lambda _ fun k => E.measurable_entry _ _)
  have hmm : ∀ r, r < E.net.num_repetitions → Measurable fun ω : Pt E.leaf.num_channels E.leaf.num_features =>
      denL 1 E.net.layers (E.net.regionP g fun c b i r => E.blockP ω.data c b i r) 0 k r :=
    fun r hr => Model.denL_measurable h.net.chain one_ne_zero hr hk fun d k' => Model.regionP_measurable hpm d k' r
  unfold Model.outP
  split_ifs with hR
  · exact Finset.measurable_fun_sum _ fun r hr => (hmm r (by simpa using hr)).const_mul _
  · exact hmm 0 h.net.reps_pos

/-- the distribution with the density of the forward pass for class `k`. -/
def law (E : MvnEinet) (k : Nat) : Measure (Pt E.leaf.num_channels E.leaf.num_features) :=
  volume.withDensity fun ω => E.density none k ω.data

theorem law_prob {E : MvnEinet} {g : Nat → Nat → Nat} (h : E.WF g) (hp : E.leaf.pad_value = 0) {k : Nat}
    (hk : k < E.net.num_classes) : IsProbabilityMeasure (E.law k) := by
  refine ⟨?_⟩
  unfold law
  rw [withDensity_apply _ MeasurableSet.univ, Measure.restrict_univ]
  exact integral_density h hp hk

/-- the laws of the classes, mixed with the class weights used by the sampler. -/
def mixLaw (E : MvnEinet) (ci : Option ClassIndex) (n : Nat) : Measure (Pt E.leaf.num_channels E.leaf.num_features) :=
  ∑ k ∈ Finset.range E.net.num_classes, E.net.classW 1 ci n k • E.law k

theorem mixLaw_prob {E : MvnEinet} {g : Nat → Nat → Nat} (h : E.WF g) (hp : E.leaf.pad_value = 0)
    {ci : Option ClassIndex} {N n : Nat} (hc : E.net.ClassOK N ci) (hn : n < N) : IsProbabilityMeasure (E.mixLaw ci n) := by
  refine ⟨?_⟩
  unfold mixLaw
  rw [Measure.finsetSum_apply, ← Model.classW_sum h.net one_ne_zero hc hn]
  refine Finset.sum_congr rfl fun k hk => ?_
  have := law_prob h hp (k := k) (by simpa using hk)
  rw [Measure.smul_apply, measure_univ, smul_eq_mul, mul_one]

/-- the values returned by `sample` have a law. -/
theorem sample_hasLaw {E : MvnEinet} {g : Nat → Nat → Nat} (h : E.Samplable g) {a : SampleArgs} (hev : a.evidence = none)
    (hN : 0 < a.count) (hm : a.is_mpe = false) (hml : a.mpe_at_leaves = false) (hT : a.temperature_sums ≠ 0)
    (hc : E.net.ClassOK a.count a.class_index) :
    (E.sample a).HasLaw (Tensor.vals a.count E.leaf.num_channels E.leaf.num_features) := by
  obtain ⟨wf, pad, ⟨L, hL⟩, hF0⟩ := h
  have hnd : ∀ B, E.net.leaf ≠ .direct B := by intro B; rw [hL]; simp
  have hw : E.width = E.leaf.num_features := by unfold width; rw [hL]
  rw [sample_eq E (Model.check_ok hc (by simp [hev])) hev wf hnd, Rand.bind_assoc]
  refine Rand.HasLaw.bind (Model.disc_corePath E.net a _)
    (Model.corePath_All wf.net hN hT hc (Model.evM_none E.net a.count) (Model.finZero E.net _))
    fun ctx ⟨idx, rr, hctx, hce⟩ => ?_
  have hcm : ctx.is_mpe = false := by rw [hce]; exact hm
  have hcml : ctx.mpe_at_leaves = false := by rw [hce]; exact hml
  obtain ⟨res, h1, h2⟩ := sampleLeaf_eq wf pad hnd hF0 hN hctx hcm hcml
  rw [hw] at h2
  rw [h1, Rand.bind_assoc]
  have hd : (Rand.drawAll (box [a.count, E.leaf.num_dists]) (fun _ => drawVec (gaussianReal 0 1) E.leaf.cardinality)
      (fun _ _ => 0)).HasLaw fun v => v := by
    refine Rand.HasLaw.drawAll' _ _ (fun i => ⟨(Measure.pi fun _ : Fin E.leaf.cardinality => gaussianReal 0 1).map extV,
      inferInstance, fun φ hφ => ?_⟩) _
    rw [E_drawVec_pi _ _ hφ, lintegral_map hφ measurable_extV]
  have hmm : Measurable fun (eps : List Nat → Nat → ℝ) => (fun n c f => E.leaf.noisy eps n c (f / E.leaf.cardinality)
      (idx n (E.net.grpS g (rr n) (f % E.leaf.out_features))) (rr n) ⟨f % E.leaf.cardinality, Nat.mod_lt _ wf.card⟩ :
        Fin a.count → Pt E.leaf.num_channels E.leaf.num_features) := by
    refine measurable_pi_iff.2 fun n => measurable_pi_iff.2 fun c => measurable_pi_iff.2 fun f => ?_
    unfold MvnLeaf.noisy
    exact (measurable_pi_apply _).comp ((LowerPos.measurable_affine _ _).comp (measurable_pi_lambda _ fun k =>
      (measurable_pi_apply _).comp (measurable_pi_apply _)))
  obtain ⟨ν, hν⟩ := hd.map hmm
  refine ⟨ν, fun φ hφ => ?_⟩
  rw [← hν φ hφ, Rand.E_bind]
  congr 1
  funext eps
  obtain ⟨s, hs, hs'⟩ := h2 eps
  rw [hs]
  show φ _ = φ _
  congr 1
  funext n c f
  exact hs'.get n.2 c.2 f.2

/-- **Law of `sample` at temperature 1** when all features of a block use the same component. -/
theorem sample_measure {E : MvnEinet} {g : Nat → Nat → Nat} (h : E.Samplable g) (hal : E.Aligned)
    (hmir : E.net.Mirrored g) {a : SampleArgs} (hev : a.evidence = none)
    (hN : 0 < a.count) (hm : a.is_mpe = false) (hml : a.mpe_at_leaves = false) (hT : a.temperature_sums = 1)
    (hc : E.net.ClassOK a.count a.class_index)
    {φ : (Fin a.count → Pt E.leaf.num_channels E.leaf.num_features) → ℝ≥0∞} (hφ : Measurable φ) :
    (E.sample a).E (fun s => φ (s.vals a.count E.leaf.num_channels E.leaf.num_features)) =
      ∫⁻ ω, φ ω ∂Measure.pi fun n : Fin a.count => E.mixLaw a.class_index n := by
  have hT0 : a.temperature_sums ≠ 0 := by rw [hT]; exact one_ne_zero
  have := fun n : Fin a.count => mixLaw_prob h.wf h.pad hc n.2
  refine law_of_prod (sample_hasLaw h hev hN hm hml hT0 hc) (fun t ht _ => ?_) hφ
  rw [sample_E h hal hmir hev hN hm hml hT0 hc ht, hT, Finset.prod_range]
  refine Finset.prod_congr rfl fun n _ => ?_
  unfold mixLaw
  rw [lintegral_finsetSum_measure]
  refine Finset.sum_congr rfl fun k hk => ?_
  have hk' : k < E.net.num_classes := by simpa using hk
  rw [lintegral_smul_measure, smul_eq_mul, density_test h.wf h.pad hk' (ht n)]
  unfold law
  rw [lintegral_withDensity_eq_lintegral_mul₀ (density_measurable h.wf h.pad hk').aemeasurable
    (Model.measurable_prod (ht n)).aemeasurable]
  simp only [Pi.mul_apply, mul_comm]

end MvnEinet
end Einet
