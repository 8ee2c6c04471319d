import Verif.PropsCondSample
import Verif.PropsExactLaw

/-!
# C63: the law of samples with `ConditionalBinomial` leaves, for every configuration of the top-down structure

Each row is drawn as by the network with binomial leaves whose logits are computed from this row of the evidence (`C63_row`).
-/

open Classical MeasureTheory
open scoped ENNReal
noncomputable section
namespace Einet
namespace Props
open Tensor Einet

/-- **C63**: for each row `X` the einet with `Binomial` leaves with the logits of `X` can be built; it is the network of
`C63_exact_law`. -/
theorem C63_row (c : Config) (P : Params) (hP : P.Random) (n : ℤ) (fn : Tensor Fl → Res (Tensor Fl)) (idxs : Scopes)
    (base unc : Par) (E : CondEinet) (h : buildCond c P n fn idxs base unc = .ok E) (w : Nat)
    (g : (Nat → Nat → Nat → Fl) → Nat → ℝ)
    (ha : CondArgs E.net.num_features E.net.num_channels E.net.num_leaves E.net.num_repetitions fn idxs w g) (X : Data) :
    build c { P with leaf := .binomial n (condLogits E.net.num_features E.net.num_leaves E.net.num_repetitions w idxs base unc g X) } =
      .ok (E.atRow g (condList E.net.num_features idxs) X) := by
  have := buildCond_row hP h g (condList E.net.num_features idxs) X
  rw [cond_theta hP h ha] at this
  exact this

theorem cond_given {E : CondEinet} {grp : Nat → Nat → Nat} {g : (Nat → Nat → Nat → Fl) → Nat → ℝ} {l : List Nat}
    (h : E.WF grp g l) (hM : E.Merged) {a : SampleArgs} {x : Tensor Fl}
    {X : Nat → Data} {sc : Option (List Nat)} (ha : E.Given g l a x X sc) (hnan : ∀ n c f, (X n c f).isnan = false)
    (hci : a.class_index = none) (hns : a.num_samples = none) (hT : a.temperature_sums = 1)
    (hs : Scopes.resolveOpt E.net.num_features a.marginalized_scopes = .ok sc)
    (hprob : ∀ n : Fin a.count, IsProbabilityMeasure ((E.atRow g l (X n)).givenMix ((E.atRow g l (X n)).grpF grp)
      ((E.atRow g l (X n)).grpS grp) 1 false n (masked sc (X n))))
    {φ : (Fin a.count → Pt E.net.num_channels E.net.num_features) → ℝ≥0∞} (hφ : Measurable φ) :
    (E.sample a).E (fun s => φ (s.vals a.count E.net.num_channels E.net.num_features)) =
      ∫⁻ ω, φ ω ∂Measure.pi fun n : Fin a.count => (show Measure (Pt E.net.num_channels E.net.num_features) from
        (E.atRow g l (X n)).givenMix ((E.atRow g l (X n)).grpF grp) ((E.atRow g l (X n)).grpS grp) 1 false n (masked sc (X n))) := by
  obtain ⟨cs, hcs, hevm⟩ := CondEinet.evidence_caches h ha.evidence ha.count ha.is3 ha.counts hnan hs
  rw [CondEinet.sample_eq E a (Model.check_ok (by rw [hci]; trivial) fun _ => ⟨hci, hns⟩) hcs]
  have hEv : ∀ n, n < a.count → EvidenceOK (E.atRow g l (X n)).leaf.base sc (X n) := fun n hn => by
    rw [CondEinet.atRow_base]; exact CondEinet.evidenceOK (ha.counts n hn) sc
  let u : (Fin a.count → Pt E.net.num_channels E.net.num_features) → Fin a.count → Pt E.net.num_channels E.net.num_features :=
    fun ω n c f => if holeAt sc (X n) c f then ω n c f else (X n c f).val
  have hm' : Measurable u := by
    refine measurable_pi_iff.2 fun n => measurable_pi_iff.2 fun c => measurable_pi_iff.2 fun f => ?_
    simp only [u]
    split_ifs
    · exact (measurable_pi_apply f).comp ((measurable_pi_apply c).comp (measurable_pi_apply n))
    · exact measurable_const
  have e0 : ((E.sampleValues a cs).bind fun s => Rand.lift (Model.finish a s)).E
        (fun s => φ (s.vals a.count E.net.num_channels E.net.num_features)) =
      (E.sampleValues a cs).E fun s => φ (u fun n c f => s.get [n, c, f]) := by
    rw [Rand.E_bind]
    refine Rand.E_congr (CondEinet.sampleValues_All h hM ha hevm) fun s hsh => ?_
    have hs3 : s.Is3 a.count E.net.num_channels E.net.num_features fun n c f => s.get [n, c, f] :=
      Is.is3 (Is.refl s hsh) fun _ _ _ _ _ _ => rfl
    obtain ⟨r, hr, hr'⟩ := Model.fill_is ha.is3 hs3 hs
    unfold Model.finish
    rw [ha.evidence]
    dsimp only
    rw [hr]
    show φ _ = φ _
    congr 1
    funext n c f
    unfold Tensor.vals
    rw [hr'.get n.2 c.2 f.2]
    simp only [u]
    split_ifs <;> rfl
  rw [e0]
  have : ∀ n : Fin a.count, IsFiniteMeasure (show Measure (Pt E.net.num_channels E.net.num_features) from
      (E.atRow g l (X n)).givenMix ((E.atRow g l (X n)).grpF grp) ((E.atRow g l (X n)).grpS grp) 1 false n (masked sc (X n))) :=
    fun n => by have := hprob n; exact inferInstanceAs (IsFiniteMeasure ((E.atRow g l (X n)).givenMix _ _ 1 false n (masked sc (X n))))
  refine law_of_prod' ((CondEinet.sampleValues_hasLaw h hM ha hevm).map hm') (fun t ht _ => ?_) hφ
  set t' : Nat → Nat → Nat → ℝ → ℝ≥0∞ := fun n c f y => if holeAt sc (X n) c f then t n c f y else t n c f (X n c f).val with ht'
  have ht'm : ∀ n c f, Measurable (t' n c f) := by
    intro n c f
    rw [ht']
    dsimp only
    split_ifs
    · exact ht n c f
    · exact measurable_const
  have e1 := CondEinet.sampleValues_E h hM ha hevm ht'm
  simp only [prod3_fin] at e1
  have e2 : ∀ (s : Tensor ℝ) (n : Fin a.count) (c : Fin E.net.num_channels) (f : Fin E.net.num_features),
      t n c f (u (fun n c f => s.get [n, c, f]) n c f) = t' n c f (s.get [n, c, f]) := by
    intro s n c f
    simp only [u, ht']
    split_ifs <;> rfl
  simp only [e2]
  rw [e1, Finset.prod_range]
  refine Finset.prod_congr rfl fun n _ => ?_
  unfold Model.givenMix
  rw [hT, hci]
  refine Eq.trans ?_ (classes_lintegral E.net.num_classes _ _ _).symm
  refine Finset.sum_congr rfl fun k hk => ?_
  refine congrArg₂ (· * ·) rfl ?_
  have hpv := pathVal_given (CondEinet.samplable_row h (X n)) (CondEinet.atRow_proper (X n)) false one_pos (hEv n n.2)
    (t := t n) (ht n) (k := k) (Finset.mem_range.1 hk)
  rw [CondEinet.regionS_row h, CondEinet.atRow_base] at hpv
  exact hpv

/-- **C63**: the law of `sample` given counts, for every configuration with the top-down structure, any number of classes and any
features listed.  The rows are independent; row `i` follows the law of `C14_exact_law` for the einet with `Binomial` leaves whose logits
are computed from row `i` of the evidence, also from entries that are listed.  `mpe_at_leaves` and `temperature_leaves` are ignored. -/
theorem C63_exact_law (c : Config) (P : Params) (hP : P.Random) (n : ℤ) (fn : Tensor Fl → Res (Tensor Fl)) (idxs : Scopes)
    (base unc : Par) (E : CondEinet) (h : buildCond c P n fn idxs base unc = .ok E) (w : Nat)
    (g : (Nat → Nat → Nat → Fl) → Nat → ℝ)
    (ha : CondArgs E.net.num_features E.net.num_channels E.net.num_leaves E.net.num_repetitions fn idxs w g)
    (ht : c.structure' = "top-down") :
    ∃ G H : Nat → Nat → Nat,
      (∀ X : Data, ForwardIn (E.atRow g (condList E.net.num_features idxs) X)
          (.binomial n (condLogits E.net.num_features E.net.num_leaves E.net.num_repetitions w idxs base unc g X)) E.net.numOut G ∧
        SampledIn (E.atRow g (condList E.net.num_features idxs) X) E.net.numOut H) ∧
      (∀ r, r < E.net.num_repetitions → ∀ f, f < E.net.num_features → G r f < E.net.numOut ∧ H r f < E.net.numOut) ∧
      ∀ (N : Nat) (s : Scopes) (x : Tensor Fl) (leaves : Bool) (T : ℝ), 0 < N → Usable E.net.num_features s →
        CountBatch n N E.net.num_channels E.net.num_features x →
        (∀ i, i < N → IsProbabilityMeasure (givenRow (E.atRow g (condList E.net.num_features idxs)
          (entries N E.net.num_channels E.net.num_features x i)) P G H 1 false (known E.net.num_features (some s) x i))) ∧
        ∀ φ : (Fin N → Fin E.net.num_channels → Fin E.net.num_features → ℝ) → ℝ≥0∞, Measurable φ →
          (E.sample { evidence := some x, marginalized_scopes := some s, mpe_at_leaves := leaves, temperature_leaves := T }).E
              (fun t => φ fun i c f => (t.get [i, c, f]).val) =
            ∫⁻ ω, φ ω ∂Measure.pi fun i : Fin N =>
              (show Measure (Fin E.net.num_channels → Fin E.net.num_features → ℝ) from
                givenRow (E.atRow g (condList E.net.num_features idxs) (entries N E.net.num_channels E.net.num_features x i)) P G H 1
                  false (known E.net.num_features (some s) x i)) := by
  have hw := cond_WF hP h ha
  set grp := buildGroups c (P.binomialAt n fun _ _ _ _ => 0) with hgrp
  set l := condList E.net.num_features idxs with hl'
  have eF : ∀ X, (E.atRow g l X).grpF grp = E.net.grpF grp := fun X => Model.withBase_grpF (hw.same X) _
  have eS : ∀ X, (E.atRow g l X).grpS grp = E.net.grpS grp := fun X => Model.withBase_grpS (hw.same X) _
  have eO : ∀ X, (E.atRow g l X).numOut = E.net.numOut := fun X => Model.withBase_numOut _ _ (hw.same X)
  have hb := fun X => C63_row c P hP n fn idxs base unc E h w g ha X
  have hR : ∀ θ, Params.Random { P with leaf := .binomial n θ } := fun θ => ⟨hP.1, hP.2⟩
  refine ⟨E.net.grpF grp, E.net.grpS grp, fun X => ⟨?_, ?_⟩, fun r hr f hf => ?_, fun N s x leaves T hN hs hx => ?_⟩
  · have := forwardIn (hR _) trivial (hb X)
    rw [eO] at this
    exact eF X ▸ this
  · have := sampledIn (hR _) trivial trivial (hb X)
    rw [eO] at this
    exact eS X ▸ this
  · have hsam := CondEinet.samplable_row hw fun _ _ => .nan
    have h1 := hsam.wf.front.grpF_lt hr hf
    have h2 := hsam.wf.front.grpS_lt hr hf
    rw [eF, eO] at h1
    rw [eS, eO] at h2
    exact ⟨h1, h2⟩
  obtain ⟨sl, hl, hm⟩ := usable_resolve hs
  obtain rfl : (⟨none, none, some x, false, leaves, T, 1, some s⟩ : SampleArgs).count = N := by
    simp [SampleArgs.count, Tensor.size, hx.1, at']
  set N := (⟨none, none, some x, false, leaves, T, 1, some s⟩ : SampleArgs).count with hNe
  let X : Nat → Data := entries N E.net.num_channels E.net.num_features x
  have hEv : ∀ i, i < N → EvidenceOK (E.atRow g l (X i)).leaf.base (some sl) (X i) := fun i hi => by
    rw [CondEinet.atRow_base]; exact CondEinet.evidenceOK (cond_counts_row h (entries_row hx hi)) _
  have hrow : ∀ i, i < N → givenRow (E.atRow g l (X i)) P (E.net.grpF grp) (E.net.grpS grp) 1 false
      (known E.net.num_features (some s) x i) =
      (E.atRow g l (X i)).givenMix ((E.atRow g l (X i)).grpF grp) ((E.atRow g l (X i)).grpS grp) 1 false i (masked (some sl) (X i)) := by
    intro i hi
    rw [givenRow_congr (Y := masked (some sl) (X i)) fun d hd f hf => ?_, eF, eS]
    · unfold givenRow Model.givenMix
      exact Finset.sum_congr rfl fun k hk => by
        rw [classShare_eq (hR _) (hb (X i)) one_ne_zero none i (Finset.mem_range.1 hk)]; rfl
    · have e : x.get [i, d, f] = X i d f := (entries_of hi hd hf).symm
      unfold known masked
      rw [e]
      simp only [Hole, holeAt, hm f hf]
      by_cases hq : Listed E.net.num_features s f <;> simp only [hq, if_true, if_false]
  have hprob : ∀ i, i < N → IsProbabilityMeasure (givenRow (E.atRow g l (X i)) P (E.net.grpF grp) (E.net.grpS grp) 1 false
      (known E.net.num_features (some s) x i)) := by
    intro i hi
    rw [hrow i hi]
    have hsam := CondEinet.samplable_row hw (X i)
    constructor
    rw [← lintegral_one]
    unfold Model.givenMix
    rw [classes_lintegral]
    refine Eq.trans ?_ (Model.classW_sum hsam.wf one_ne_zero (ci := none) (N := N) trivial hi)
    refine Finset.sum_congr rfl fun k hk => ?_
    rw [lintegral_one, mixedRows_univ hsam.samp _ false one_pos,
      posteriorShare_sum hsam (CondEinet.atRow_proper (X i)) (hEv i hi) (Finset.mem_range.1 hk), mul_one]
  refine ⟨hprob, fun φ hφ => ?_⟩
  have := cond_given hw (cond_merged h ht) (a := ⟨none, none, some x, false, leaves, T, 1, some s⟩) (X := X)
    (sc := some sl) ⟨rfl, hN, entries_is hx.1, fun i hi => cond_counts_row h (entries_row hx hi), rfl, one_ne_zero, trivial⟩
    (entries_nan hx) rfl rfl rfl hl (fun i => by have := hprob i i.2; rw [hrow i i.2] at this; exact this) hφ
  refine this.trans ?_
  rw [show (fun i : Fin N => (show Measure (Pt E.net.num_channels E.net.num_features) from
      (E.atRow g l (X i)).givenMix ((E.atRow g l (X i)).grpF grp) ((E.atRow g l (X i)).grpS grp) 1 false i (masked (some sl) (X i)))) =
    fun i : Fin N => givenRow (E.atRow g l (X i)) P (E.net.grpF grp) (E.net.grpS grp) 1 false
      (known E.net.num_features (some s) x i) from funext fun i => (hrow i i.2).symm]

/-- one repetition, six features in four regions, three classes. -/
def exSixFlat : Config := { exSix "einsum" "top-down" with num_repetitions := 1, num_classes := 3 }

/-- the hypotheses hold for a configuration that `C63_law_partial` leaves out, with the conditioning feature listed. -/
example : ∃ E, buildCond exSixFlat (exParams exLeaf) 10 (exCond 8) ⟨true, [4]⟩ (fun c f i r => c + f - i * r)
      (fun c f i r => c - f + i + r) = .ok E ∧ exSixFlat.structure' = "top-down" ∧ (exParams exLeaf).Random ∧
    CondArgs E.net.num_features E.net.num_channels E.net.num_leaves E.net.num_repetitions (exCond 8) ⟨true, [4]⟩ 1 exCondG ∧
    ¬ MirrorCfg exSixFlat ∧ E.net.num_classes = 3 ∧ Usable E.net.num_features ⟨true, [0, 4]⟩ ∧
    CountBatch 10 3 E.net.num_channels E.net.num_features ⟨[3, 2, 6], fun j => .fin (at' 0 j + at' 1 j + at' 2 j : Nat)⟩ := by
  have hP := binomialAt_random (exParams_random exLeaf) 10 fun _ _ _ _ => 0
  have hv : exSixFlat.assertValid = .ok () := by
    obtain ⟨v1, v2, v3, v4, v5, v6, v7, v8, v9, v10, v11, v12, v13⟩ := (assertValid_iff _).1
      (exConfig_valid (l := "einsum") (s := "top-down") (Or.inl ⟨Or.inr (Or.inr rfl), rfl⟩))
    rw [assertValid_iff]
    exact ⟨by norm_num [exSixFlat, exSix], v2, by norm_num [exSixFlat], v4, by norm_num [exSixFlat], v6, v7, v8, v9, v10, v11, v12,
      by norm_num [exSixFlat, exSix, exConfig, Int.fdiv_one]⟩
  obtain ⟨M, hM⟩ := (build_iff (c := exSixFlat) (P := (exParams exLeaf).binomialAt 10 fun _ _ _ _ => 0)).2
    ⟨hv, ⟨_, by
      show (LeafSpec.binomial 10 _).build none _ = _
      unfold LeafSpec.build
      rw [require_true _ rfl]
      simp only [Res.ok_bind]
      exact (checkInt_iff 10 1 one_ne_zero _ _).2 ⟨by norm_num, rfl⟩⟩, by norm_num [exSixFlat, exSix, exConfig],
      fun _ => by norm_num [exSixFlat, exSix, exConfig], fun _ => ⟨1 / 4, rfl, by norm_num, by norm_num⟩⟩
  have hz := (build_WF hP hM).1
  have e1 : M.num_features = 6 := by rw [hz.features]; rfl
  have e2 : M.num_channels = 2 := by rw [hz.channels]; rfl
  have e3 : M.num_leaves = 4 := by rw [hz.leaves]; rfl
  have e4 : M.num_repetitions = 1 := by rw [hz.reps]; rfl
  have e5 : M.num_classes = 3 := by rw [hz.classes]; rfl
  unfold buildCond
  rw [hM]
  refine ⟨_, rfl, rfl, exParams_random _, ?_, ?_, e5, ?_, ?_⟩
  · show CondArgs M.num_features M.num_channels M.num_leaves M.num_repetitions _ _ _ _
    rw [e1, e2, e3, e4]
    exact ⟨rfl, ⟨by simp, by simp⟩, rfl, Or.inr rfl, exCond_rowWise (by norm_num) one_pos 8⟩
  · rintro (h | ⟨h, -⟩ | ⟨-, h | h⟩)
    · simp [exSixFlat, exSix, exConfig] at h
    · simp [exSixFlat] at h
    · simp [exSixFlat, exSix, exConfig] at h
    · exact absurd h (by show ¬ ((2 : ℤ) ^ 2 = 6); norm_num)
  · show Usable M.num_features _
    rw [e1]; exact ⟨by simp, by simp⟩
  · show CountBatch 10 3 M.num_channels M.num_features _
    rw [e1, e2]
    refine ⟨rfl, fun i hi c hc f hf => ⟨i + c + f, by omega, by simp [at']⟩⟩

end Props
end Einet
