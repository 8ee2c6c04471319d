import Verif.PropsMultiEinet
import Verif.PropsExactLaw

/-!
# C57: the law of `sample` of a network with several leaf distributions, for every configuration and temperature

`E.asModel` is the network with the layers of `E` and one leaf layer, whose components are, for each feature, those of the distribution
that owns the feature (`C57_plain`).  `freeRow` and `givenRow` are the laws of PropsExactLaw.lean.
-/

open Classical MeasureTheory
open scoped ENNReal
noncomputable section
namespace Einet
namespace Props
open Tensor Einet

/-- **C57**: what the network `E.asModel` of the following theorems is. -/
theorem C57_plain (c : Config) (P : Params) (hP : P.Random) (sd : List (List Nat × LeafSpec)) (E : MultiEinet)
    (h : buildMulti c P sd = .ok E) (hp : Partition sd E.net.num_features) :
    build c P.standIn = .ok E.net ∧ E.asModel.layers = E.net.layers ∧ E.asModel.mixing = E.net.mixing ∧
      E.asModel.num_channels = E.net.num_channels ∧ E.asModel.num_features = E.net.num_features ∧
      E.asModel.num_leaves = E.net.num_leaves ∧ E.asModel.num_repetitions = E.net.num_repetitions ∧
      E.asModel.num_classes = E.net.num_classes ∧ E.asModel.numOut = E.net.numOut ∧
      ∀ s spec, (s, spec) ∈ sd → ∀ j f, s[j]? = some f → ∃ B,
        spec.build none ⟨s.length, E.net.num_channels, E.net.num_leaves, E.net.num_repetitions⟩ = .ok B ∧
        ∀ c i r, E.asModel.leaf.base.logProb c f i r = B.logProb c j i r ∧ E.asModel.leaf.base.mode c f i r = B.mode c j i r ∧
          ∀ T, E.asModel.leaf.base.law T c f i r = B.law T c j i r := by
  have hW := buildMulti_WF hP h hp
  refine ⟨(buildMulti_spec hP h).1, rfl, rfl, rfl, rfl, rfl, rfl, rfl, E.asModel_numOut, fun s spec hs j f hj => ?_⟩
  obtain ⟨hjl, e⟩ := List.getElem?_eq_some_iff.1 hj
  have hf : f ∈ s := e ▸ List.getElem_mem hjl
  obtain ⟨hm, e1, hpos, hB⟩ := hW.owner hs hf
  have hpj : E.leaf.pos f = j := by
    have := (hW.ok.part_spec hm (j := j) (by rw [e1]; exact hjl)).2
    rwa [show (E.leaf.part f).1[j]'(by rw [e1]; exact hjl) = f by simp only [e1]; exact e] at this
  refine ⟨_, hB, fun c i r => ?_⟩
  rw [E.asModel_base]
  unfold MultiLeaf.toBase
  simp only [hpj, and_self, implies_true]

theorem standIn_good (P : Params) : P.standIn.leaf.Good ∧ P.standIn.leaf.CanSample := by
  simp [Params.standIn, LeafSpec.Good, LeafSpec.CanSample]

/-- the groupings of the features are those of the network with normal leaves of the same structure. -/
theorem multi_groups {c : Config} {P : Params} (hP : P.Random) {sd : List (List Nat × LeafSpec)} {E : MultiEinet}
    (h : buildMulti c P sd = .ok E) :
    ForwardIn E.net P.standIn.leaf E.net.numOut (E.asModel.grpF (buildGroups c P.standIn)) ∧
      SampledIn E.net E.net.numOut (E.asModel.grpS (buildGroups c P.standIn)) ∧
      ∀ r, r < E.net.num_repetitions → ∀ f, f < E.net.num_features →
        E.asModel.grpF (buildGroups c P.standIn) r f < E.net.numOut ∧ E.asModel.grpS (buildGroups c P.standIn) r f < E.net.numOut := by
  have hb := (buildMulti_spec hP h).1
  obtain ⟨hg, hs⟩ := standIn_good P
  have hsam := build_samplable (standIn_random hP) hg hs hb
  rw [E.asModel_grpF, E.asModel_grpS]
  exact ⟨forwardIn (standIn_random hP) hg hb, sampledIn (standIn_random hP) hg hs hb,
    fun r hr f hf => ⟨hsam.wf.front.grpF_lt hr hf, hsam.wf.front.grpS_lt hr hf⟩⟩

theorem multi_classShare {c : Config} {P : Params} (hP : P.Random) {sd : List (List Nat × LeafSpec)} {E : MultiEinet}
    (h : buildMulti c P sd = .ok E) {T : ℝ} (hT : T ≠ 0) (ci : Option ClassIndex) (n : Nat) {k : Nat} (hk : k < E.net.num_classes) :
    E.asModel.classW T ci n k = classShare P E.asModel.num_classes T ci n k :=
  classShare_eq (standIn_random hP) (buildMulti_spec hP h).1 hT ci n hk

/-- **C57**: the law of `sample` without evidence, for every configuration, class argument, temperature and `mpe_at_leaves`, as in
`C13_exact_law`. -/
theorem C57_exact_law (c : Config) (P : Params) (hP : P.Random) (sd : List (List Nat × LeafSpec)) (E : MultiEinet)
    (h : buildMulti c P sd = .ok E) (hp : Partition sd E.net.num_features) (hg : ∀ s ∈ sd, s.2.Good ∧ s.2.CanSample) :
    ∃ H : Nat → Nat → Nat, SampledIn E.net E.net.numOut H ∧
      (∀ r, r < E.net.num_repetitions → ∀ f, f < E.net.num_features → H r f < E.net.numOut) ∧
      ∀ (N : Nat) (ci : Option ClassIndex) (TS TL : ℝ) (mode : Bool), 0 < N → ClassArg E.net N ci → TS ≠ 0 → 0 < TL →
        (∀ n, n < N → IsProbabilityMeasure (freeRow E.asModel P H ci TS TL mode n)) ∧
        ∀ φ : (Fin N → Fin E.net.num_channels → Fin E.net.num_features → ℝ) → ℝ≥0∞, Measurable φ →
          (E.sample { num_samples := some N, class_index := ci, mpe_at_leaves := mode, temperature_leaves := TL
                      temperature_sums := TS }).E (fun s => φ fun n c f => (s.get [n, c, f]).val) =
            ∫⁻ ω, φ ω ∂Measure.pi fun n : Fin N => freeRow E.asModel P H ci TS TL mode n := by
  have hW := buildMulti_WF hP h hp
  have hsam := hW.asSamplable hg
  obtain ⟨-, q2, q3⟩ := multi_groups hP h
  refine ⟨_, q2, fun r hr f hf => (q3 r hr f hf).2, fun N ci TS TL mode hN hc hTS hTL => ?_⟩
  have hcok : E.asModel.ClassOK N ci := ClassArg.ok (M := E.asModel) hc
  have hrow : ∀ n, freeRow E.asModel P (E.asModel.grpS (buildGroups c P.standIn)) ci TS TL mode n =
      E.asModel.freeMix (E.asModel.grpS (buildGroups c P.standIn)) ci TS TL mode n := by
    intro n
    unfold freeRow Model.freeMix
    exact Finset.sum_congr rfl fun k hk => by rw [multi_classShare hP h hTS ci n (Finset.mem_range.1 hk)]
  have hprob : ∀ n, n < N → IsProbabilityMeasure (freeRow E.asModel P (E.asModel.grpS (buildGroups c P.standIn)) ci TS TL mode n) := by
    intro n hn
    rw [hrow n]
    constructor
    rw [← lintegral_one]
    unfold Model.freeMix
    rw [classes_lintegral]
    refine Eq.trans ?_ (Model.classW_sum hsam.wf hTS hcok hn)
    refine Finset.sum_congr rfl fun k hk => ?_
    rw [lintegral_one, mixedRows_univ hsam.samp _ mode hTL, shares_sum hsam.wf hTS (by simpa using hk), mul_one]
  refine ⟨hprob, fun φ hφ => ?_⟩
  let a : SampleArgs := { num_samples := some N, class_index := ci, mpe_at_leaves := mode, temperature_leaves := TL
                          temperature_sums := TS }
  have := fun n : Fin N => hprob n n.2
  simp only [hrow] at this ⊢
  refine Eq.trans ?_ (Model.free_measure hsam (a := a) hN rfl hTS hTL hcok this hφ)
  rw [MultiEinet.sample_eq E a (Model.check_ok (M := E.asModel) hcok (by simp [a])) (cs := ⟨[], none⟩) rfl, Rand.E_bind]
  exact MultiEinet.sampleValues_E hW hg (a := a) hN hTS hTL hcok (Model.evM_none _ _) (Model.finZero _ _) hφ

/-- **C57**: the law of `sample` given evidence at `temperature_sums = 1`, for every configuration, as in `C14_exact_law`. -/
theorem C57_exact_given (c : Config) (P : Params) (hP : P.Random) (sd : List (List Nat × LeafSpec)) (E : MultiEinet)
    (h : buildMulti c P sd = .ok E) (hp : Partition sd E.net.num_features) (hg : ∀ s ∈ sd, s.2.Good ∧ s.2.CanSample) :
    ∃ G H : Nat → Nat → Nat, ForwardIn E.net P.standIn.leaf E.net.numOut G ∧ SampledIn E.net E.net.numOut H ∧
      (∀ r, r < E.net.num_repetitions → ∀ f, f < E.net.num_features → G r f < E.net.numOut ∧ H r f < E.net.numOut) ∧
      (∀ k, k < E.net.num_classes → ∀ X : Data, (∀ c, c < E.net.num_channels → ∀ s spec, (s, spec) ∈ sd → ∀ f ∈ s,
          X c f = .nan ∨ ∃ v : ℝ, X c f = .fin v ∧ spec.InSupport v) →
        E.density none k X = ∑ r ∈ Finset.range E.net.num_repetitions, ∑ κ : Choice E.asModel,
          repShare E.asModel 1 k r * choiceShare E.asModel 1 k r κ * choiceLikelihood E.asModel G X r κ) ∧
      ∀ (N : Nat) (ms : Option Scopes) (x : Tensor Fl) (TL : ℝ) (mode : Bool), 0 < N → MultiEvidence E sd N ms x → 0 < TL →
        (∀ n, n < N → IsProbabilityMeasure (givenRow E.asModel P G H TL mode (known E.net.num_features ms x n))) ∧
        ∀ φ : (Fin N → Fin E.net.num_channels → Fin E.net.num_features → ℝ) → ℝ≥0∞, Measurable φ →
          (E.sample { evidence := some x, marginalized_scopes := ms, mpe_at_leaves := mode, temperature_leaves := TL }).E
              (fun s => φ fun n c f => (s.get [n, c, f]).val) =
            ∫⁻ ω, φ ω ∂Measure.pi fun n : Fin N => givenRow E.asModel P G H TL mode (known E.net.num_features ms x n) := by
  have hW := buildMulti_WF hP h hp
  have hsam := hW.asSamplable hg
  have hg' : ∀ s ∈ sd, s.2.Good := fun s hs => (hg s hs).1
  have hpr := hW.proper hg'
  obtain ⟨q1, q2, q3⟩ := multi_groups hP h
  refine ⟨_, _, q1, q2, q3, fun k hk X hX => ?_, fun N ms x TL mode hN hx hTL => ?_⟩
  · have hobs := multi_observed hW hX
    rw [MultiEinet.density_eq hW hg' hobs (sc := none) rfl hk, MultiEinet.hide_none,
      density_val hsam.wf hpr hobs hk, topP_expand hsam.wf one_ne_zero _ hk]
    rfl
  obtain ⟨sc, hsc, -, hh⟩ := multi_scopes hx.usable
  let X : Nat → Data := fun n c f => x.get [n, c, f]
  have hX := multi_evidence hW hx (hh x)
  have hrow : ∀ n, givenRow E.asModel P (E.asModel.grpF (buildGroups c P.standIn)) (E.asModel.grpS (buildGroups c P.standIn)) TL mode
      (known E.net.num_features ms x n) = E.asModel.givenMix (E.asModel.grpF (buildGroups c P.standIn))
        (E.asModel.grpS (buildGroups c P.standIn)) TL mode n (masked sc (X n)) := by
    intro n
    rw [givenRow_congr (Y := masked sc (X n)) fun d _ f hf => by unfold known masked; simp only [hh x n d f hf, X]]
    unfold givenRow Model.givenMix
    exact Finset.sum_congr rfl fun k hk => by rw [multi_classShare hP h one_ne_zero none n (Finset.mem_range.1 hk)]; rfl
  have hprob : ∀ n, n < N → IsProbabilityMeasure (givenRow E.asModel P (E.asModel.grpF (buildGroups c P.standIn))
      (E.asModel.grpS (buildGroups c P.standIn)) TL mode (known E.net.num_features ms x n)) := by
    intro n hn
    rw [hrow n]
    constructor
    rw [← lintegral_one]
    unfold Model.givenMix
    rw [classes_lintegral]
    refine Eq.trans ?_ (Model.classW_sum hsam.wf one_ne_zero (ci := none) (N := N) trivial hn)
    refine Finset.sum_congr rfl fun k hk => ?_
    rw [lintegral_one, mixedRows_univ hsam.samp _ mode hTL, posteriorShare_sum hsam hpr (hX n hn) (by simpa using hk), mul_one]
  refine ⟨hprob, fun φ hφ => ?_⟩
  let a : SampleArgs := { evidence := some x, marginalized_scopes := ms, mpe_at_leaves := mode, temperature_leaves := TL }
  obtain rfl : a.count = N := by simp [a, SampleArgs.count, Tensor.size, hx.batch.shape, at']
  have := fun n : Fin a.count => hprob n n.2
  simp only [hrow] at this ⊢
  obtain ⟨cs, hcs, hevm⟩ := MultiEinet.evidence_caches hW hg' (a := a) rfl hx.batch.is3 hsc hX
  have hfin := Model.evidence_finRows hsam.wf hpr hX
  refine Eq.trans ?_ (Model.given_measure hsam hpr (a := a) hN rfl rfl rfl hTL rfl hx.batch.is3 hsc hX hevm this hφ)
  rw [MultiEinet.sample_eq E a (Model.check_ok (M := E.asModel) trivial fun _ => ⟨rfl, rfl⟩) hcs]
  exact MultiEinet.sample_evidence_same hW hg (a := a) rfl hN hx.batch.is3 rfl one_ne_zero hTL hsc hX hevm hφ

/-- one repetition, five features in four regions and three classes: not among the configurations of `C57_law_partial`. -/
example : ∃ E, buildMulti (exFlat "einsum") (exParams exLeaf) exMulti = .ok E ∧ Partition exMulti E.net.num_features ∧
    (∀ s ∈ exMulti, s.2.Good ∧ s.2.CanSample) ∧ ¬ MirrorCfg (exFlat "einsum") ∧ ClassArg E.net 4 (some (.list [2, 0, 0, 1])) ∧
    MultiEvidence E exMulti 3 none exMultiBatch := by
  obtain ⟨M, h, -, -, -⟩ := exFlat_builds (l := "einsum") (Or.inr (Or.inr rfl))
  obtain ⟨E, hE⟩ := exMulti_builds h ⟨rfl, rfl, rfl, by norm_num [exFlat]⟩ rfl
  have hz := (buildMulti_spec (exParams_random _) hE).2.1
  have e1 : E.net.num_features = 5 := hz.features
  have e2 : E.net.num_channels = 2 := hz.channels
  have e3 : E.net.num_classes = 3 := hz.classes
  refine ⟨E, hE, by rw [e1]; exact exMulti_partition, exMulti_good, ?_, ⟨by omega, rfl, by rw [e3]; simp⟩,
    ⟨by rw [e1, e2]; exact exMultiBatch_ok, by simp, fun n _ c _ f _ e => e⟩⟩
  rintro (h | ⟨h, -⟩ | ⟨-, h | h⟩)
  · simp [exFlat, exConfig] at h
  · simp [exFlat] at h
  · simp [exFlat, exConfig] at h
  · exact absurd h (by show ¬ ((2 : ℤ) ^ 2 = 5); norm_num)

end Props
end Einet
