import Verif.SampleEnd
import Verif.BuildFwd

/-!
# Sampling from constructed models

Lemmas that transfer the laws of `Verif/SampleEnd.lean` to models obtained from the constructor.
-/

open Classical MeasureTheory
open scoped ENNReal
noncomputable section
namespace Einet
open Tensor

theorem build_samplable {c : Config} {P : Params} (hP : P.Random) (hg : P.leaf.Good) (hs : P.leaf.CanSample) {M : Model}
    (h : build c P = .ok M) : M.Samplable (buildGroups c P) := by
  obtain ⟨hz, hw, _, hsa⟩ := build_WF hP h
  obtain ⟨v1, _⟩ := (assertValid_iff c).1 (build_valid h)
  refine ⟨hw, hsa hg hs, ?_⟩
  rw [hz.features]
  omega

/-- configurations for which the sampler uses the grouping of the forward pass, whatever the random choices made during
construction. -/
def MirrorCfg (c : Config) : Prop :=
  c.structure' = "bottom-up" ∨ (1 < c.num_repetitions ∧ (2 : ℤ) ^ c.depth.toNat < c.num_features) ∨
    (c.num_repetitions = 1 ∧ (c.depth = 0 ∨ (2 : ℤ) ^ c.depth.toNat = c.num_features))

theorem build_mirrored {c : Config} {P : Params} (hP : P.Random) {M : Model} (h : build c P = .ok M) (hm : MirrorCfg c) :
    M.Mirrored (buildGroups c P) := by
  obtain ⟨hz, hw, _, _⟩ := build_WF hP h
  have hv := build_valid h
  obtain ⟨v1, v2, v3, v4, v5, v6, v7, v8, v9, v10, v11, v12, v13⟩ := (assertValid_iff c).1 hv
  have hfront := hw.front
  unfold build at h
  rw [hv] at h
  simp only [Res.ok_bind] at h
  split_ifs at h with h1 h2
  · obtain ⟨hd, hs, hw, B, hB, e⟩ := buildTopDown_spec hP hv h
    obtain ⟨_, ⟨d1, d2, d3, d4⟩, _, _⟩ := LeafSpec.build_spec hB
    have d1' : B.num_features = c.num_features.toNat := d1
    have d4' : B.num_repetitions = c.num_repetitions.toNat := d4
    have hpow : ((2 ^ c.depth.toNat : ℕ) : ℤ) = (2 : ℤ) ^ c.depth.toNat := by push_cast; rfl
    intro r hr f hf
    unfold Model.grpS Model.grpF
    rw [e]
    unfold buildInput
    by_cases hR : B.num_repetitions = 1
    · rw [if_pos hR]
      dsimp only
      have hR' : c.num_repetitions = 1 := by omega
      have hsw := factSimple_WF hP B (O := 2 ^ c.depth.toNat) (Nat.pow_pos (by norm_num)) hR
      have hF : M.num_features = B.num_features := by rw [hz.features, d1']
      have hfB : f < B.num_features := by omega
      rcases hm with hm | ⟨hm, _⟩ | ⟨_, hm⟩
      · rw [h1] at hm; exact absurd hm (by decide)
      · omega
      · have hO : (FactSimple.build P B (2 ^ c.depth.toNat)).num_features_out = 2 ^ c.depth.toNat := rfl
        have hlen : (P.randperm 0 (B.num_features + ((B.num_features + 2 ^ c.depth.toNat - 1) / 2 ^ c.depth.toNat *
          2 ^ c.depth.toNat - B.num_features))).Perm (List.range _) := hP.randperm 0 _
        rcases hm with hm | hm
        · have e1 : (2 : ℕ) ^ c.depth.toNat = 1 := by rw [hm]; rfl
          rw [hO, e1, Nat.mod_one]
          have hq := (argsort_isPerm hlen).q_lt f (by rw [e1]; omega)
          have hcard : (FactSimple.build P B 1).cardinality = B.num_features := by
            unfold FactSimple.cardinality FactSimple.build
            simp
          rw [hcard]
          refine (Nat.div_eq_of_lt ?_).symm
          rw [e1] at hq
          simpa [FactSimple.build] using hq
        · have e1 : (2 : ℕ) ^ c.depth.toNat = B.num_features := by omega
          rw [hO, e1]
          have hpos : 0 < B.num_features := by omega
          have hcard : (FactSimple.build P B B.num_features).cardinality = 1 := by
            unfold FactSimple.cardinality
            show (B.num_features + B.num_features - 1) / B.num_features = 1
            exact Nat.div_eq_of_lt_le (by omega) (by omega)
          rw [hcard, Nat.div_one]
          have hq := (argsort_isPerm hlen).q_lt f (by omega)
          rw [e1] at hq
          have hk : (B.num_features + B.num_features - 1) / B.num_features = 1 :=
            Nat.div_eq_of_lt_le (by omega) (by omega)
          rw [hk] at hq
          refine Nat.mod_eq_of_lt ?_
          have : (FactSimple.build P B B.num_features).inverse_permutation =
            argsort (P.randperm 0 (B.num_features + (1 * B.num_features - B.num_features))) := by
            unfold FactSimple.build; dsimp only; rw [hk]
          rw [this]
          omega
    · rw [if_neg hR]
      dsimp only
      rcases hm with hm | ⟨_, hm⟩ | ⟨hm, _⟩
      · rw [h1] at hm; exact absurd hm (by decide)
      · rw [if_neg]
        show ¬ B.num_features = 2 ^ c.depth.toNat
        omega
      · exact absurd (by rw [d4', hm]; rfl) hR
  · obtain ⟨hd, hs, hw, B, hB, e⟩ := buildBottomUp_spec hP hv h2 h (buildGroups c P)
    intro r hr f hf
    unfold Model.grpS Model.grpF
    rw [e]

namespace Model

/-- outcomes of `sample` without evidence. -/
theorem sample_All {M : Model} {g : Nat → Nat → Nat} (h : M.Samplable g) {a : SampleArgs} (hev : a.evidence = none)
    (hN : 0 < a.count) (hT : a.temperature_sums ≠ 0) (hc : M.ClassOK a.count a.class_index) :
    (M.sample a).All fun s => s.shape = [a.count, M.num_channels, M.num_features] ∧
      ∀ n, n < a.count → ∀ c, c < M.num_channels → ∀ f, f < M.num_features → (s.get [n, c, f]).IsFin := by
  have h2 : M.evidenceCaches a = .ok ⟨[], none⟩ := by unfold evidenceCaches; rw [hev]
  rw [sample_eq M a (check_ok hc (by simp [hev])) h2]
  refine (sampleValues_All h hN hT hc (evM_none M a.count) (finZero M _)).bind fun s hs => ?_
  unfold finish
  rw [hev]
  exact ⟨hs, fun n _ c _ f _ => ⟨s.get [n, c, f], rfl⟩⟩

/-- outcomes of `sample` with evidence. -/
theorem sample_evidence_All {M : Model} {g : Nat → Nat → Nat} (h : M.Samplable g) (hp : M.leaf.base.Proper)
    {a : SampleArgs} {x : Tensor Fl} {X : Nat → Data} (hev : a.evidence = some x)
    (hN : 0 < a.count) (hx : x.Is3 a.count M.num_channels M.num_features X) (hns : a.num_samples = none)
    (hci : a.class_index = none) (hT : a.temperature_sums ≠ 0) {sc : Option (List Nat)}
    (hs : Scopes.resolveOpt M.num_features a.marginalized_scopes = .ok sc)
    (hX : ∀ n, n < a.count → EvidenceOK M.leaf.base sc (X n)) :
    (M.sample a).All fun s => ∃ v : Nat → Nat → Nat → ℝ, s.Is3 a.count M.num_channels M.num_features
      fun n c f => if holeAt sc (X n) c f then .fin (v n c f) else X n c f := by
  obtain ⟨cs, hcs, hevm, hfin⟩ := evidence_caches h.wf hp hev hx hs hX
  have hcok : M.ClassOK a.count a.class_index := by rw [hci]; trivial
  rw [sample_eq M a (check_ok hcok fun _ => ⟨hci, hns⟩) hcs]
  refine (sampleValues_All h hN hT hcok hevm hfin).bind fun s hsh => ?_
  have hs3 : s.Is3 a.count M.num_channels M.num_features fun n c f => s.get [n, c, f] :=
    Is.is3 (Is.refl s hsh) fun _ _ _ _ _ _ => rfl
  obtain ⟨r, hr, hr'⟩ := fill_is hx hs3 hs
  unfold finish
  rw [hev]
  dsimp only
  rw [hr]
  exact ⟨_, hr'⟩

end Model
end Einet
