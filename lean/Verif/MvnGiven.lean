import Verif.MvnEvidence

/-!
# Einets with multivariate normal leaves: samples given evidence
-/

open Classical MeasureTheory ProbabilityTheory Matrix
open scoped ENNReal
noncomputable section
namespace Einet
open Tensor

namespace MvnEinet

/-- law of the values in terms of the path. -/
theorem values_path_E {E : MvnEinet} {g : Nat → Nat → Nat} (h : E.Samplable g) {a : SampleArgs} {cond : Bool} {cs : Caches}
    {e : Nat → Row} (hevm : E.net.EvM cond a.count cs e) (he : E.net.FinRows a.count e) (hN : 0 < a.count) (hm : a.is_mpe = false) (hml : a.mpe_at_leaves = false) (hT : a.temperature_sums ≠ 0)
    (hc : E.net.ClassOK a.count a.class_index) {t : Nat → Nat → Nat → ℝ → ℝ≥0∞} (ht : ∀ n c f, Measurable (t n c f)) :
    ((E.net.corePath a cs).bind fun ctx => E.sampleLeaf ctx).E
        (fun s => prod3 a.count E.leaf.num_channels E.leaf.num_features fun n c f => t n c f (s.get [n, c, f])) =
      (E.net.corePath a cs).E fun ctx => prod3 a.count E.leaf.num_channels E.leaf.out_features fun n c b =>
        ∏ i ∈ Finset.range E.leaf.num_leaves, E.blkE c b i (ctx.indices_repetition.get [n]) fun v =>
          ∏ k : Fin E.leaf.cardinality,
            if ctx.indices_out.get [n, E.net.grpS g (ctx.indices_repetition.get [n])
              ((b * E.leaf.cardinality + k) % E.leaf.out_features)] = i
            then t n c (b * E.leaf.cardinality + k) (v k) else 1 := by
  obtain ⟨wf, pad, ⟨L, hL⟩, hF0⟩ := h
  have hF := MvnLeaf.out_mul wf.card pad
  have hB0 : 0 < E.leaf.out_features := by
    rcases Nat.eq_zero_or_pos E.leaf.out_features with e | e
    · rw [e] at hF; omega
    · exact e
  have hnd : ∀ B, E.net.leaf ≠ .direct B := by intro B; rw [hL]; simp
  have hw : E.width = E.leaf.num_features := by unfold width; rw [hL]
  rw [Rand.E_bind]
  refine Rand.E_congr (Model.corePath_All wf.net hN hT hc hevm he)
    fun ctx ⟨idx, rr, hctx, hce⟩ => ?_
  have hcm : ctx.is_mpe = false := by rw [hce]; exact hm
  have hcml : ctx.mpe_at_leaves = false := by rw [hce]; exact hml
  obtain ⟨res, h1, h2⟩ := sampleLeaf_eq wf pad hnd hF0 hN hctx hcm hcml
  rw [hw] at h2
  have hrr : ∀ n, n < a.count → ctx.indices_repetition.get [n] = rr n := fun n hn =>
    Is.get hctx.ir (i := [n]) ⟨hn, by simp⟩
  have hgl : ∀ n, n < a.count → ∀ f, E.net.grpS g (rr n) (f % E.leaf.out_features) < E.net.numOut := by
    intro n hn f
    refine wf.net.front.grpS_lt (hctx.ir_lt n hn) ?_
    rw [wf.features]
    exact Nat.mod_lt _ hB0
  have hil : ∀ n, n < a.count → ∀ f, idx n (E.net.grpS g (rr n) (f % E.leaf.out_features)) < E.leaf.num_leaves := by
    intro n hn f
    rw [← wf.leaves]
    exact hctx.io_lt n hn _ (hgl n hn f)
  rw [h1, Rand.E_bind]
  have e1 : ∀ eps, (Rand.lift (res eps)).E (fun s =>
      prod3 a.count E.leaf.num_channels E.leaf.num_features fun n c f => t n c f (s.get [n, c, f])) =
      prod3 a.count E.leaf.num_channels E.leaf.out_features fun n c b => ∏ i ∈ Finset.range E.leaf.num_leaves,
        (fun v : Fin E.leaf.cardinality → ℝ => ∏ k : Fin E.leaf.cardinality,
          if idx n (E.net.grpS g (rr n) ((b * E.leaf.cardinality + k) % E.leaf.out_features)) = i
          then t n c (b * E.leaf.cardinality + k) (v k) else 1) (E.leaf.noisy eps n c b i (rr n)) := by
    intro eps
    obtain ⟨s, hs, hs'⟩ := h2 eps
    rw [hs]
    show prod3 a.count E.leaf.num_channels E.leaf.num_features (fun n c f => t n c f (s.get [n, c, f])) = _
    rw [prod3_blocks hF]
    refine prod3_congr fun n hn c hcc b hb => ?_
    dsimp only
    rw [Finset.prod_comm]
    refine Finset.prod_congr rfl fun k _ => ?_
    rw [Finset.prod_ite_eq, if_pos (Finset.mem_range.2 (hil n hn _))]
    have hlt : b * E.leaf.cardinality + k < E.leaf.num_features := by
      rw [← hF]
      calc b * E.leaf.cardinality + k < b * E.leaf.cardinality + E.leaf.cardinality := by omega
        _ = (b + 1) * E.leaf.cardinality := by ring
        _ ≤ _ := Nat.mul_le_mul_right _ hb
    rw [hs'.get hn hcc hlt]
    simp only [index_div wf.card, index_mod]
  refine (congrArg _ (funext e1)).trans ?_
  refine (MvnLeaf.noise_E E.leaf (fun n hn => by rw [← wf.reps]; exact hctx.ir_lt n hn)
    (h := fun n c b i v => ∏ k : Fin E.leaf.cardinality,
          if idx n (E.net.grpS g (rr n) ((b * E.leaf.cardinality + k) % E.leaf.out_features)) = i
          then t n c (b * E.leaf.cardinality + k) (v k) else 1) fun n c b i => ?_).trans ?_
  · refine Finset.measurable_fun_prod _ fun k _ => ?_
    split_ifs
    · exact (ht _ _ _).comp (measurable_pi_apply k)
    · exact measurable_const
  · refine prod3_congr fun n hn c hcc b hb => ?_
    refine Finset.prod_congr rfl fun i _ => ?_
    rw [hrr n hn]
    unfold blkE
    refine lintegral_congr fun v => ?_
    congr 1
    refine Finset.prod_congr rfl fun k _ => ?_
    rw [hctx.io.get hn (hgl n hn _)]

/-- law of the values when all features of a block use the same component. -/
theorem values_E {E : MvnEinet} {g : Nat → Nat → Nat} (h : E.Samplable g) (hal : E.Aligned) {a : SampleArgs}
    {cond : Bool} {cs : Caches} {e : Nat → Row} (hevm : E.net.EvM cond a.count cs e) (he : E.net.FinRows a.count e)
    (hN : 0 < a.count) (hm : a.is_mpe = false) (hml : a.mpe_at_leaves = false) (hT : a.temperature_sums ≠ 0)
    (hc : E.net.ClassOK a.count a.class_index) {t : Nat → Nat → Nat → ℝ → ℝ≥0∞} (ht : ∀ n c f, Measurable (t n c f)) :
    ((E.net.corePath a cs).bind fun ctx => E.sampleLeaf ctx).E
        (fun s => prod3 a.count E.leaf.num_channels E.leaf.num_features fun n c f => t n c f (s.get [n, c, f])) =
      ∏ n ∈ Finset.range a.count, ∑ k ∈ Finset.range E.net.num_classes,
        E.net.classW a.temperature_sums a.class_index n k *
        E.net.pathVal cond a.temperature_sums (e n) (E.net.regionS g fun c b i r => E.blkE c b i r (E.blockTest (t n) c b)) k := by
  rw [values_path_E h hevm he hN hm hml hT hc ht]
  obtain ⟨wf, pad, ⟨L, hL⟩, hF0⟩ := h
  have hF := MvnLeaf.out_mul wf.card pad
  have hB0 : 0 < E.leaf.out_features := by
    rcases Nat.eq_zero_or_pos E.leaf.out_features with e | e
    · rw [e] at hF; omega
    · exact e
  have hcp := Model.corePath_E wf.net hN hm hT hc hevm he
    (fun n => E.net.regionS g fun c b i r => E.blkE c b i r (E.blockTest (t n) c b))
  refine Eq.trans ?_ hcp
  · refine Rand.E_congr (Model.corePath_All wf.net hN hT hc hevm he)
      fun ctx ⟨idx, rr, hctx, hce⟩ => ?_
    have hrr : ∀ n, n < a.count → ctx.indices_repetition.get [n] = rr n := fun n hn =>
      Is.get hctx.ir (i := [n]) ⟨hn, by simp⟩
    unfold prod2
    refine Finset.prod_congr rfl fun n hn => ?_
    have hn' : n < a.count := by simpa using hn
    dsimp only
    rw [hrr n hn']
    have e2 : ∏ o ∈ Finset.range E.net.numOut, E.net.regionS g (fun c b i r => E.blkE c b i r (E.blockTest (t n) c b)) o
        (ctx.indices_out.get [n, o]) (rr n) = _ :=
      Model.prod_regionS wf.net.front (hctx.ir_lt n hn') (fun c b i r => E.blkE c b i r (E.blockTest (t n) c b))
        fun o => ctx.indices_out.get [n, o]
    rw [e2, wf.features, wf.channels]
    refine Finset.prod_congr rfl fun b hb => Finset.prod_congr rfl fun c hcc => ?_
    have hb' : b < E.leaf.out_features := by simpa using hb
    have hgl : ∀ f, f < E.leaf.out_features → E.net.grpS g (rr n) f < E.net.numOut := fun f hf =>
      wf.net.front.grpS_lt (hctx.ir_lt n hn') (by rw [wf.features]; exact hf)
    have hil : ∀ f, f < E.leaf.out_features → ctx.indices_out.get [n, E.net.grpS g (rr n) f] < E.leaf.num_leaves := by
      intro f hf
      rw [hctx.io.get hn' (hgl f hf), ← wf.leaves]
      exact hctx.io_lt n hn' _ (hgl f hf)
    have hsame : ∀ k : Fin E.leaf.cardinality,
        ctx.indices_out.get [n, E.net.grpS g (rr n) ((b * E.leaf.cardinality + k) % E.leaf.out_features)] =
          ctx.indices_out.get [n, E.net.grpS g (rr n) b] := by
      intro k
      rcases hal with e | e | e | e
      · have h1 := hil _ (Nat.mod_lt (b * E.leaf.cardinality + k) hB0)
        have h2 := hil b hb'
        omega
      · have : b = 0 := by omega
        rw [e, this, Nat.mod_one]
      · have h1 : (k : Nat) = 0 := by have := k.2; omega
        rw [h1, e, Nat.mul_one, Nat.add_zero, Nat.mod_eq_of_lt hb']
      · have h1 := hgl _ (Nat.mod_lt (b * E.leaf.cardinality + k) hB0)
        have h2 := hgl b hb'
        rw [show E.net.grpS g (rr n) ((b * E.leaf.cardinality + k) % E.leaf.out_features) = E.net.grpS g (rr n) b by omega]
    simp only [hsame]
    rw [Finset.prod_eq_single (ctx.indices_out.get [n, E.net.grpS g (rr n) b])]
    · simp only [if_true]
      rfl
    · intro i _ hne
      simp only [if_neg (Ne.symm hne), Finset.prod_const_one]
      exact E.blkE_one c b i (rr n)
    · intro hne
      exact absurd (Finset.mem_range.2 (hil b hb')) hne

/-- the values have a law. -/
theorem values_hasLaw {E : MvnEinet} {g : Nat → Nat → Nat} (h : E.Samplable g) {a : SampleArgs} {cond : Bool} {cs : Caches}
    {e : Nat → Row} (hevm : E.net.EvM cond a.count cs e) (he : E.net.FinRows a.count e) (hN : 0 < a.count) (hm : a.is_mpe = false) (hml : a.mpe_at_leaves = false) (hT : a.temperature_sums ≠ 0)
    (hc : E.net.ClassOK a.count a.class_index) :
    ((E.net.corePath a cs).bind fun ctx => E.sampleLeaf ctx).HasLaw fun s =>
      (fun n c f => s.get [n, c, f] : Fin a.count → Pt E.leaf.num_channels E.leaf.num_features) := by
  obtain ⟨wf, pad, ⟨L, hL⟩, hF0⟩ := h
  have hnd : ∀ B, E.net.leaf ≠ .direct B := by intro B; rw [hL]; simp
  have hw : E.width = E.leaf.num_features := by unfold width; rw [hL]
  refine Rand.HasLaw.bind (Model.disc_corePath E.net a _)
    (Model.corePath_All wf.net hN hT hc hevm he)
    fun ctx ⟨idx, rr, hctx, hce⟩ => ?_
  have hcm : ctx.is_mpe = false := by rw [hce]; exact hm
  have hcml : ctx.mpe_at_leaves = false := by rw [hce]; exact hml
  obtain ⟨res, h1, h2⟩ := sampleLeaf_eq wf pad hnd hF0 hN hctx hcm hcml
  rw [hw] at h2
  rw [h1]
  have hd : (Rand.drawAll (box [a.count, E.leaf.num_dists]) (fun _ => drawVec (gaussianReal 0 1) E.leaf.cardinality)
      (fun _ _ => 0)).HasLaw fun v => v := by
    refine Rand.HasLaw.drawAll' _ _ (fun i => ⟨(Measure.pi fun _ : Fin E.leaf.cardinality => gaussianReal 0 1).map extV,
      inferInstance, fun φ hφ => ?_⟩) _
    rw [E_drawVec_pi _ _ hφ, lintegral_map hφ measurable_extV]
  have hmm : Measurable fun (eps : List Nat → Nat → ℝ) => (fun n c f => E.leaf.noisy eps n c (f / E.leaf.cardinality)
      (idx n (E.net.grpS g (rr n) (f % E.leaf.out_features))) (rr n) ⟨f % E.leaf.cardinality, Nat.mod_lt _ wf.card⟩ :
        Fin a.count → Pt E.leaf.num_channels E.leaf.num_features) := by
    refine measurable_pi_iff.2 fun n => measurable_pi_iff.2 fun c => measurable_pi_iff.2 fun f => ?_
    unfold MvnLeaf.noisy
    exact (measurable_pi_apply _).comp ((LowerPos.measurable_affine _ _).comp (measurable_pi_lambda _ fun k =>
      (measurable_pi_apply _).comp (measurable_pi_apply _)))
  obtain ⟨ν, hν⟩ := hd.map hmm
  refine ⟨ν, fun φ hφ => ?_⟩
  rw [← hν φ hφ, Rand.E_bind]
  congr 1
  funext eps
  obtain ⟨s, hs, hs'⟩ := h2 eps
  rw [hs]
  show φ _ = φ _
  congr 1
  funext n c f
  exact hs'.get n.2 c.2 f.2

/-- shape of the values. -/
theorem values_All {E : MvnEinet} {g : Nat → Nat → Nat} (h : E.Samplable g) {a : SampleArgs} {cond : Bool} {cs : Caches}
    {e : Nat → Row} (hevm : E.net.EvM cond a.count cs e) (he : E.net.FinRows a.count e) (hN : 0 < a.count) (hm : a.is_mpe = false)
    (hml : a.mpe_at_leaves = false) (hT : a.temperature_sums ≠ 0) (hc : E.net.ClassOK a.count a.class_index) :
    ((E.net.corePath a cs).bind fun ctx => E.sampleLeaf ctx).All fun s =>
      s.shape = [a.count, E.leaf.num_channels, E.leaf.num_features] := by
  obtain ⟨wf, pad, ⟨L, hL⟩, hF0⟩ := h
  have hnd : ∀ B, E.net.leaf ≠ .direct B := by intro B; rw [hL]; simp
  have hw : E.width = E.leaf.num_features := by unfold width; rw [hL]
  refine Rand.All.bind (Model.corePath_All wf.net hN hT hc hevm he) fun ctx ⟨idx, rr, hctx, hce⟩ => ?_
  have hcm : ctx.is_mpe = false := by rw [hce]; exact hm
  have hcml : ctx.mpe_at_leaves = false := by rw [hce]; exact hml
  obtain ⟨res, h1, h2⟩ := sampleLeaf_eq wf pad hnd hF0 hN hctx hcm hcml
  rw [hw] at h2
  rw [h1]
  refine Rand.All.bind (P := fun _ => True) ?_ fun eps _ => ?_
  · exact (Rand.All_drawAll (P := fun _ _ => True) fun i _ => All_drawVec _ _).mono fun _ _ => trivial
  · obtain ⟨s, hs, hs'⟩ := h2 eps
    rw [hs]
    exact hs'.1

/-- integral of a product of test functions against the density, some blocks fixed. -/
theorem density_test_blocks {E : MvnEinet} {g : Nat → Nat → Nat} (h : E.WF g) (hp : E.leaf.pad_value = 0) {X : Data}
    {l : List Nat} {k : Nat} (hk : k < E.net.num_classes) {t : Nat → Nat → ℝ → ℝ≥0∞} (ht : ∀ c f, Measurable (t c f)) :
    ∫⁻ ω, (∏ f : Fin E.leaf.num_features, ∏ c : Fin E.leaf.num_channels, t c f (ω c f)) * E.density none k ω.data
        ∂(E.blocksOut l X) =
      E.net.outP g 1 (fun c b i r => if b ∈ l then E.blkE c b i r (E.blockTest t c b) else
        E.blockTest t c b (fun j => (X c (b * E.leaf.cardinality + j)).val) * E.blockP X c b i r) k := by
  have hF := MvnLeaf.out_mul h.card hp
  have e : ∀ ω : Pt E.leaf.num_channels E.leaf.num_features,
      (∏ f : Fin E.leaf.num_features, ∏ c : Fin E.leaf.num_channels, t c f (ω c f)) * E.density none k ω.data =
      E.net.outP g 1 (fun c b i r => E.blockTest t c b (fun j => (ω.data c (b * E.leaf.cardinality + j)).val) *
        E.blockP ω.data c b i r) k := density_blocks h hp hk
  simp only [e]
  have hmp : ∀ c b i r, Measurable fun v : Fin E.leaf.cardinality → ℝ =>
      ENNReal.ofReal (Real.exp (mvnLogProb (E.leaf.loc [c, b, i, r]) (E.leaf.scale_tril [c, b, i, r]) v)) := fun c b i r =>
    (Real.measurable_exp.comp (LowerPos.measurable_logProb _ _)).ennreal_ofReal
  have hmd := E.measurable_entry
  refine Model.outP_lintegral h.net one_ne_zero (fun c b i r => ?_) (fun r hr idx hidx => ?_) hk
  · exact ((E.blockTest_measurable ht c b).comp (measurable_pi_lambda _ fun k => hmd _ _)).mul
      ((hmp c b i r).comp (measurable_pi_lambda _ fun k => hmd _ _))
  rw [h.features, h.channels]
  have hsf : ∀ c f : Nat, SigmaFinite (if f / E.leaf.cardinality ∈ l then volume else Measure.dirac (X c f).val : Measure ℝ) := by
    intro c f; split_ifs <;> infer_instance
  have hm2 : ∀ c b, Measurable fun v => E.blockTest t c b v * ENNReal.ofReal (Real.exp (mvnLogProb (E.leaf.loc [c, b, idx b, r])
      (E.leaf.scale_tril [c, b, idx b, r]) v)) := fun c b => (E.blockTest_measurable ht c b).mul (hmp c b _ r)
  refine (lintegral_block_data hF (fun c f => if f / E.leaf.cardinality ∈ l then volume else Measure.dirac (X c f).val)
    (h := fun c b v => E.blockTest t c b v * ENNReal.ofReal (Real.exp (mvnLogProb (E.leaf.loc [c, b, idx b, r])
      (E.leaf.scale_tril [c, b, idx b, r]) v))) hm2).trans ?_
  refine Finset.prod_congr rfl fun b hb => Finset.prod_congr rfl fun c hc => ?_
  have hdiv : ∀ j : Fin E.leaf.cardinality, (b * E.leaf.cardinality + j) / E.leaf.cardinality = b := by
    intro j
    rw [Nat.mul_comm, Nat.mul_add_div h.card, Nat.div_eq_of_lt j.2, Nat.add_zero]
  simp only [hdiv]
  by_cases hbl : b ∈ l
  · simp only [if_pos hbl]
    rfl
  · simp only [if_neg hbl]
    exact lintegral_pi_dirac (fun j => (X c (b * E.leaf.cardinality + j)).val) (hm2 c b)

/-- the factor of one row in the law of `sample` given evidence. -/
theorem pathVal_blocks {E : MvnEinet} {g : Nat → Nat → Nat} (h : E.WF g) (hp : E.leaf.pad_value = 0) (hmir : E.net.Mirrored g)
    {X : Data} {l : List Nat} {e : Row}
    (he : ∀ d, d < E.net.numOut → ∀ k, k < E.net.num_leaves → ∀ r, r < E.net.num_repetitions → (e d k r).IsFin)
    (hrow : ∀ o, o < E.net.numOut → ∀ i, i < E.net.num_leaves → ∀ r, r < E.net.num_repetitions →
      pRow e o i r = E.net.regionP g (fun c b i r => if b ∈ l then 1 else E.blockP X c b i r) o i r)
    {t : Nat → Nat → ℝ → ℝ≥0∞} (ht : ∀ c f, Measurable (t c f))
    (hcst : ∀ c f y, f / E.leaf.cardinality ∉ l → t c f y = t c f (X c f).val) {k : Nat} (hk : k < E.net.num_classes) :
    E.net.pathVal true 1 e (E.net.regionS g fun c b i r => E.blkE c b i r (E.blockTest t c b)) k =
      (∫⁻ ω, (∏ f : Fin E.leaf.num_features, ∏ c : Fin E.leaf.num_channels, t c f (ω c f)) * E.density none k ω.data
        ∂(E.blocksOut l X)) / ∫⁻ ω, E.density none k ω.data ∂(E.blocksOut l X) := by
  rw [(Model.pathVal_cond h.net he hk).2.2]
  congr 1
  · rw [density_test_blocks h hp hk ht, Model.outP_eq]
    refine Model.topP_congr h.net hk fun o ho i hi r hr => ?_
    rw [Model.regionS_eq hmir _ hr, hrow o ho i hi r hr, Model.regionP_mul]
    refine congrFun (congrFun (congrFun (congrArg _ ?_) _) _) _
    funext c b i r
    by_cases hb : b ∈ l
    · simp only [if_pos hb, mul_one]
    · simp only [if_neg hb]
      congr 1
      have e2 : E.blockTest t c b = fun _ => E.blockTest t c b (fun j => (X c (b * E.leaf.cardinality + j)).val) := by
        funext v
        unfold blockTest
        refine Finset.prod_congr rfl fun j _ => ?_
        exact hcst c _ (v j) (by rw [index_div h.card]; exact hb)
      rw [e2]
      unfold blkE
      dsimp only
      have hmm : Measurable fun v : Fin E.leaf.cardinality → ℝ =>
          ENNReal.ofReal (Real.exp (mvnLogProb (E.leaf.loc [c, b, i, r]) (E.leaf.scale_tril [c, b, i, r]) v)) :=
        (Real.measurable_exp.comp (LowerPos.measurable_logProb _ _)).ennreal_ofReal
      rw [lintegral_const_mul _ hmm]
      have := E.blkE_one c b i r
      unfold blkE at this
      simp only [one_mul] at this
      rw [this, mul_one]
  · rw [integral_blocks h hp hk, Model.outP_eq]
    exact Model.topP_congr h.net hk hrow

/-- the conditional law of class `k` given the blocks outside `l`. -/
def lawBlocks (E : MvnEinet) (l : List Nat) (X : Data) (k : Nat) : Measure (Pt E.leaf.num_channels E.leaf.num_features) :=
  (∫⁻ ω, E.density none k ω.data ∂(E.blocksOut l X))⁻¹ • (E.blocksOut l X).withDensity fun ω => E.density none k ω.data

theorem lawBlocks_lintegral {E : MvnEinet} {g : Nat → Nat → Nat} (h : E.WF g) (hp : E.leaf.pad_value = 0) {k : Nat}
    (hk : k < E.net.num_classes) (l : List Nat) (X : Data) {φ : Pt E.leaf.num_channels E.leaf.num_features → ℝ≥0∞}
    (hφ : Measurable φ) :
    ∫⁻ ω, φ ω ∂(E.lawBlocks l X k) =
      (∫⁻ ω, φ ω * E.density none k ω.data ∂(E.blocksOut l X)) / ∫⁻ ω, E.density none k ω.data ∂(E.blocksOut l X) := by
  unfold lawBlocks
  rw [lintegral_smul_measure, smul_eq_mul, lintegral_withDensity_eq_lintegral_mul₀ (density_measurable h hp hk).aemeasurable
    hφ.aemeasurable, mul_comm, div_eq_mul_inv]
  simp only [Pi.mul_apply, mul_comm]

/-- the entries with `S f` from `ω`, the others from `X`. -/
def over {C F : Nat} (S : Nat → Prop) (X : Nat → Nat → ℝ) (ω : Fin C → Fin F → ℝ) : Fin C → Fin F → ℝ :=
  fun c f => if S f then ω c f else X c f

theorem over_measurable {C F : Nat} (S : Nat → Prop) (X : Nat → Nat → ℝ) : Measurable (over (C := C) (F := F) S X) := by
  refine measurable_pi_iff.2 fun c => measurable_pi_iff.2 fun f => ?_
  unfold over
  split_ifs
  · exact (measurable_pi_apply f).comp (measurable_pi_apply c)
  · exact measurable_const

/-- what `sample` needs to know about the evidence and the scopes. -/
structure Given (E : MvnEinet) (g : Nat → Nat → Nat) (a : SampleArgs) (X : Nat → Data) (l lf : List Nat) (cs : Caches) (e : Nat → Row) :
    Prop where
  evm : E.net.EvM true a.count cs e
  fin : E.net.FinRows a.count e
  row : ∀ n, n < a.count → ∀ o, o < E.net.numOut → ∀ i, i < E.net.num_leaves → ∀ r, r < E.net.num_repetitions →
        pRow (e n) o i r = E.net.regionP g (fun c b i r => if b ∈ l then 1 else E.blockP (X n) c b i r) o i r
  sub : ∀ f, f ∈ lf → f / E.leaf.cardinality ∈ l

/-- the law of a row, for products of test functions. -/
theorem given_E {E : MvnEinet} {g : Nat → Nat → Nat} (h : E.Samplable g) (hal : E.Aligned) (hmir : E.net.Mirrored g) {a : SampleArgs}
    {X : Nat → Data} {l lf : List Nat} {cs : Caches} {e : Nat → Row} (hg : E.Given g a X l lf cs e)
    (hN : 0 < a.count) (hm : a.is_mpe = false) (hml : a.mpe_at_leaves = false) (hT : a.temperature_sums = 1)
    (hc : E.net.ClassOK a.count a.class_index) {t : Nat → Nat → Nat → ℝ → ℝ≥0∞} (ht : ∀ n c f, Measurable (t n c f)) :
    ((E.net.corePath a cs).bind fun ctx => E.sampleLeaf ctx).E
        (fun s => prod3 a.count E.leaf.num_channels E.leaf.num_features fun n c f =>
          t n c f (if f ∈ lf then s.get [n, c, f] else (X n c f).val)) =
      ∏ n ∈ Finset.range a.count, ∑ k ∈ Finset.range E.net.num_classes, E.net.classW 1 a.class_index n k *
        ∫⁻ ω, (∏ f : Fin E.leaf.num_features, ∏ c : Fin E.leaf.num_channels,
          t n c f (over (· ∈ lf) (fun c f => (X n c f).val) ω c f)) ∂(E.lawBlocks l (X n) k) := by
  set t' : Nat → Nat → Nat → ℝ → ℝ≥0∞ := fun n c f y => t n c f (if f ∈ lf then y else (X n c f).val) with ht'
  have htm : ∀ n c f, Measurable (t' n c f) := by
    intro n c f
    by_cases hf : f ∈ lf
    · simp only [ht', if_pos hf]; exact ht n c f
    · simp only [ht', if_neg hf]; exact measurable_const
  refine (values_E h hal hg.evm hg.fin hN hm hml (by rw [hT]; exact one_ne_zero) hc htm).trans ?_
  rw [hT]
  refine Finset.prod_congr rfl fun n hn => Finset.sum_congr rfl fun k hk => ?_
  simp only [Finset.mem_range] at hn hk
  congr 1
  have ho : ∀ (ω : Pt E.leaf.num_channels E.leaf.num_features) (c : Fin E.leaf.num_channels) (f : Fin E.leaf.num_features),
      t n c f (over (· ∈ lf) (fun c f => (X n c f).val) ω c f) = t' n c f (ω c f) := by
    intro ω c f
    unfold over
    rw [ht']
    dsimp only
    by_cases hf : (f : Nat) ∈ lf
    · rw [if_pos hf, if_pos hf]
    · rw [if_neg hf, if_neg hf]
  simp only [ho]
  rw [pathVal_blocks h.wf h.pad hmir (hg.fin n hn) (hg.row n hn) (htm n) (fun c f y hf => ?_) hk,
    lawBlocks_lintegral h.wf h.pad hk]
  · exact Model.measurable_prod (htm n)
  · have : f ∉ lf := fun h => hf (hg.sub f h)
    simp only [ht', if_neg this]

theorem lawBlocks_prob {E : MvnEinet} {g : Nat → Nat → Nat} (h : E.WF g) (hp : E.leaf.pad_value = 0) {X : Data} {l : List Nat}
    {e : Row} (he : ∀ d, d < E.net.numOut → ∀ k, k < E.net.num_leaves → ∀ r, r < E.net.num_repetitions → (e d k r).IsFin)
    (hrow : ∀ o, o < E.net.numOut → ∀ i, i < E.net.num_leaves → ∀ r, r < E.net.num_repetitions →
      pRow e o i r = E.net.regionP g (fun c b i r => if b ∈ l then 1 else E.blockP X c b i r) o i r)
    {k : Nat} (hk : k < E.net.num_classes) : IsProbabilityMeasure (E.lawBlocks l X k) := by
  refine ⟨?_⟩
  have h1 := lawBlocks_lintegral h hp hk l X (φ := fun _ => 1) measurable_const
  simp only [lintegral_const, one_mul] at h1
  rw [h1]
  have h2 := Model.pathVal_cond h.net he (u := fun _ _ _ => 1) hk
  rw [integral_blocks h hp hk, Model.outP_eq, ← Model.topP_congr h.net hk hrow]
  exact ENNReal.div_self h2.1 h2.2.1

/-- the law of the rows before the known entries are written back. -/
def mixBlocks (E : MvnEinet) (ci : Option ClassIndex) (n : Nat) (l : List Nat) (X : Data) :
    Measure (Pt E.leaf.num_channels E.leaf.num_features) :=
  ∑ k ∈ Finset.range E.net.num_classes, E.net.classW 1 ci n k • E.lawBlocks l X k

theorem mixBlocks_prob {E : MvnEinet} {g : Nat → Nat → Nat} (h : E.WF g) (hp : E.leaf.pad_value = 0) {a : SampleArgs}
    {X : Nat → Data} {l lf : List Nat} {cs : Caches} {e : Nat → Row} (hg : E.Given g a X l lf cs e)
    (hc : E.net.ClassOK a.count a.class_index) {n : Nat} (hn : n < a.count) :
    IsProbabilityMeasure (E.mixBlocks a.class_index n l (X n)) := by
  refine ⟨?_⟩
  unfold mixBlocks
  rw [Measure.finsetSum_apply, ← Model.classW_sum h.net one_ne_zero hc hn]
  refine Finset.sum_congr rfl fun k hk => ?_
  have := lawBlocks_prob h hp (hg.fin n hn) (hg.row n hn) (k := k) (by simpa using hk)
  rw [Measure.smul_apply, measure_univ, smul_eq_mul, mul_one]

/-- **Law of `sample` given evidence at temperature 1**: every row draws all features of the blocks in `l` from their
conditional law given the features of the other blocks, then the known entries are written back. -/
theorem given_measure {E : MvnEinet} {g : Nat → Nat → Nat} (h : E.Samplable g) (hal : E.Aligned) (hmir : E.net.Mirrored g)
    {a : SampleArgs} {x : Tensor Fl} {X : Nat → Data} {l lf : List Nat} (hev : a.evidence = some x)
    (hx : x.Is3 a.count E.leaf.num_channels E.leaf.num_features X) (hX : ∀ n, n < a.count → E.Complete (X n))
    (hs : E.Marg a.marginalized_scopes l)
    (hsc : Scopes.resolveOpt E.leaf.num_features a.marginalized_scopes = .ok (some lf))
    (hsub : ∀ f, f ∈ lf → f / E.leaf.cardinality ∈ l)
    (hN : 0 < a.count) (hns : a.num_samples = none) (hci : a.class_index = none)
    (hm : a.is_mpe = false) (hml : a.mpe_at_leaves = false) (hT : a.temperature_sums = 1)
    {φ : (Fin a.count → Pt E.leaf.num_channels E.leaf.num_features) → ℝ≥0∞} (hφ : Measurable φ) :
    (E.sample a).E (fun s => φ (Tensor.vals a.count E.leaf.num_channels E.leaf.num_features s)) =
      ∫⁻ ω, φ ω ∂Measure.pi fun n : Fin a.count =>
        (E.mixBlocks none n l (X n)).map (over (· ∈ lf) fun c f => (X n c f).val) := by
  have hnd : ∀ B, E.net.leaf ≠ .direct B := by obtain ⟨L, hL⟩ := h.fact; intro B; rw [hL]; simp
  have hw : E.width = E.leaf.num_features := by obtain ⟨L, hL⟩ := h.fact; unfold width; rw [hL]
  have hc : E.net.ClassOK a.count a.class_index := by rw [hci]; trivial
  obtain ⟨cs, e, hcs, hevm, hfin, hrow⟩ := evidence_caches h.wf h.pad hev hx hX hs
  have hg : E.Given g a X l lf cs e := ⟨hevm, hfin, hrow, hsub⟩
  have hT0 : a.temperature_sums ≠ 0 := by rw [hT]; exact one_ne_zero
  rw [sample_eq' E (Model.check_ok hc fun _ => ⟨hci, hns⟩) hcs h.wf hnd, Rand.E_bind]
  have hP : ∀ n : Fin a.count, IsProbabilityMeasure (E.mixBlocks none n l (X n)) := fun n => by
    have := mixBlocks_prob h.wf h.pad hg hc n.2
    rwa [hci] at this
  have hPm : ∀ n : Fin a.count, IsFiniteMeasure
      ((E.mixBlocks none n l (X n)).map (over (· ∈ lf) fun c f => (X n c f).val)) := fun n => inferInstance
  have hl := values_hasLaw h hevm hfin hN hm hml hT0 hc
  have hom : Measurable fun ω : Fin a.count → Pt E.leaf.num_channels E.leaf.num_features =>
      fun n : Fin a.count => over (· ∈ lf) (fun c f => (X n c f).val) (ω n) :=
    measurable_pi_iff.2 fun n => (over_measurable _ _).comp (measurable_pi_apply n)
  have hl2 : ((E.net.corePath a cs).bind fun ctx => E.sampleLeaf ctx).HasLaw fun s =>
      (fun n => over (· ∈ lf) (fun c f => (X n c f).val) fun c f => s.get [n, c, f] :
        Fin a.count → Pt E.leaf.num_channels E.leaf.num_features) := hl.map hom
  have hov : ∀ (n : Nat) (ω : Pt E.leaf.num_channels E.leaf.num_features) (c : Fin E.leaf.num_channels) (f : Fin E.leaf.num_features),
      over (· ∈ lf) (fun c f => (X n c f).val) ω c f = if (f : Nat) ∈ lf then ω c f else (X n c f).val := by
    intro n ω c f
    unfold over
    by_cases hf : (f : Nat) ∈ lf
    · rw [if_pos hf, if_pos hf]
    · rw [if_neg hf, if_neg hf]
  have key := law_of_prod' hl2 (μ := fun n : Fin a.count => (E.mixBlocks none n l (X n)).map (over (· ∈ lf) fun c f => (X n c f).val))
    (fun t ht _ => by
      have := given_E h hal hmir hg hN hm hml hT hc ht
      simp only [prod3_fin, Finset.prod_range] at this
      simp only [hov]
      refine this.trans ?_
      refine Finset.prod_congr rfl fun n _ => ?_
      rw [lintegral_map (Model.measurable_prod (ht n)) (over_measurable _ _), hci]
      unfold mixBlocks
      rw [lintegral_finsetSum_measure]
      refine Finset.sum_congr rfl fun k hk => ?_
      rw [lintegral_smul_measure, smul_eq_mul]) hφ
  refine Eq.trans ?_ key
  refine Rand.E_congr (values_All h hevm hfin hN hm hml hT0 hc) fun s hsh => ?_
  have hs3 : s.Is3 a.count E.leaf.num_channels E.leaf.num_features fun n c f => s.get [n, c, f] :=
    Is.is3 (Is.refl s hsh) fun _ _ _ _ _ _ => rfl
  obtain ⟨r, hr, hr'⟩ := Model.fill_is hx hs3 hsc
  unfold Model.finish
  rw [hev]
  dsimp only
  rw [hr]
  show φ _ = φ _
  congr 1
  funext n c f
  rw [hov]
  unfold Tensor.vals
  rw [hr'.get n.2 c.2 f.2]
  unfold holeAt
  by_cases hf : (f : Nat) ∈ lf
  · simp only [if_pos hf]; rfl
  · simp only [if_neg hf]

end MvnEinet
end Einet
