import Verif.MultiEinetLaw

/-!
# Einets with a `MultiDistributionLayer`: the result of `sample`
-/

open Classical MeasureTheory
open scoped ENNReal
noncomputable section
namespace Einet
open Tensor
namespace MultiEinet
variable {E : MultiEinet} {sd : List (List Nat × LeafSpec)} {g : Nat → Nat → Nat}

/-- outcomes of drawing the values. -/
theorem sampleValues_All (h : E.WF sd g) (hg : ∀ s ∈ sd, s.2.Good ∧ s.2.CanSample) {a : SampleArgs} (hN : 0 < a.count)
    (hT : a.temperature_sums ≠ 0) (hc : E.asModel.ClassOK a.count a.class_index) {cond : Bool} {cs : Caches} {e : Nat → Row}
    (hev : E.asModel.EvM cond a.count cs e) (he : E.asModel.FinRows a.count e) :
    (E.sampleValues a cs).All fun t => t.shape = [a.count, E.net.num_channels, E.net.num_features] := by
  have e0 : E.sampleValues a cs = (E.asModel.corePath a cs).bind fun ctx =>
      (Rand.lift (E.net.unpermute ctx)).bind fun c => E.sampleLeaf c := by
    unfold sampleValues
    rw [Model.samplePath_eq, Rand.bind_assoc]
    rfl
  rw [e0]
  refine (Model.corePath_All (asModel_WF h.net) hN hT hc hev he).bind fun ctx ⟨idx, rr, hctx, _⟩ => ?_
  obtain ⟨res, h1, h2⟩ := leaf_run h hg hN (by rw [asModel_numOut] at hctx; exact hctx)
  rw [h1]
  refine Rand.All.bind (Rand.All_forEach_length (D := E.leaf.parts) (f := fun p => p.2.draws ctx) fun p _ => p.2.draws_All ctx)
    fun vs hv => Rand.All.lift ((h2 vs hv).mono fun t ht => ht.1)

/-- what evidence leaves in the caches. -/
theorem evidence_caches (h : E.WF sd g) (hg : ∀ s ∈ sd, s.2.Good) {a : SampleArgs}
    {x : Tensor Fl} {X : Nat → Data} (hev : a.evidence = some x) (hx : x.Is3 a.count E.net.num_channels E.net.num_features X)
    {sc : Option (List Nat)} (hs : Scopes.resolveOpt E.net.num_features a.marginalized_scopes = .ok sc)
    (hX : ∀ n, n < a.count → EvidenceOK E.asModel.leaf.base sc (X n)) :
    ∃ cs, E.evidenceCaches a = .ok cs ∧ E.asModel.EvM true a.count cs (fun n => E.asModel.frontRow sc (X n)) := by
  have hfr := (asModel_WF h.net).front
  have hp := h.proper hg
  have key : Res.Sat (E.run x a.marginalized_scopes) fun y => E.asModel.CachesOK a.count y.2 fun n => E.asModel.frontRow sc (X n) := by
    unfold run
    rw [Model.prepInput_is hx]
    simp only [Res.ok_bind]
    refine (leaf_forward_is h hg hx (fun n hn => (hX n hn).observed) hs).bind fun y hy => ?_
    refine (upper_entry h.net (X := X) (sc := sc) (hy.congr ((AllIdx_iff _ _).2 fun j hj => ?_))).mono fun z hz => hz.2
    match j, hj with
    | [n, c, f, i, r], hj =>
      obtain ⟨hn, hc, hf, hi, hr, -⟩ := hj
      have hc' : c < E.asModel.leaf.base.num_channels := by rw [hfr.channels]; exact hc
      have hf' : f < E.asModel.leaf.base.num_features := by rw [hfr.features]; exact hf
      show (if (∃ l, sc = some l ∧ f ∈ l) ∨ X n c f = .nan then Fl.fin 0 else E.asModel.leaf.base.logProb c f i r (X n c f)) =
        BaseLeaf.entry _ sc (X n c f) c f i r
      rw [(hX n hn).entry hp hc' hf' (by rw [hfr.leaves]; exact hi) (by rw [hfr.reps]; exact hr)]
      have hhole : ((∃ l, sc = some l ∧ f ∈ l) ∨ X n c f = .nan) ↔ holeAt sc (X n) c f := by
        constructor
        · rintro (⟨l, rfl, hl⟩ | e)
          · exact hl
          · exact (hX n hn).nan_hole c hc' f hf' e
        · intro hh
          cases sc with
          | none => exact Or.inr hh
          | some l => exact Or.inl ⟨l, rfl, hh⟩
      unfold masked
      by_cases hh : holeAt sc (X n) c f
      · rw [if_pos (hhole.2 hh), if_pos hh]
        simp [BaseLeaf.entry, Fl.isnan]
      · rw [if_neg (fun e => hh (hhole.1 e)), if_neg hh]
        rcases (hX n hn).observed c hc' f hf' with e | ⟨v, e, hv⟩
        · exact absurd ((hX n hn).nan_hole c hc' f hf' e) hh
        · obtain ⟨w, hw⟩ := hp.isFin c hc' f hf' i (by rw [hfr.leaves]; exact hi) r (by rw [hfr.reps]; exact hr) v hv
          rw [e]
          simp [BaseLeaf.entry, hw, Fl.isnan]
  obtain ⟨y, hy, hcs⟩ := key
  refine ⟨y.2, ?_, Model.CachesOK.evM hcs⟩
  unfold evidenceCaches
  rw [hev]
  dsimp only
  rw [hy]
  rfl

/-- outcomes without evidence. -/
theorem sample_All (h : E.WF sd g) (hg : ∀ s ∈ sd, s.2.Good ∧ s.2.CanSample) {a : SampleArgs} (hev : a.evidence = none)
    (hN : 0 < a.count) (hT : a.temperature_sums ≠ 0) (hc : E.asModel.ClassOK a.count a.class_index) :
    (E.sample a).All fun s => s.shape = [a.count, E.net.num_channels, E.net.num_features] ∧ ∀ i, ∃ v : ℝ, s.get i = .fin v := by
  have h2 : E.evidenceCaches a = .ok ⟨[], none⟩ := by unfold evidenceCaches; rw [hev]
  rw [sample_eq E a (Model.check_ok (M := E.asModel) hc (by simp [hev])) h2]
  refine (sampleValues_All h hg hN hT hc (Model.evM_none E.asModel a.count) (Model.finZero E.asModel _)).bind fun t ht => ?_
  unfold Model.finish
  rw [hev]
  exact ⟨ht, fun i => ⟨_, rfl⟩⟩

/-- outcomes with evidence. -/
theorem sample_evidence_All (h : E.WF sd g) (hg : ∀ s ∈ sd, s.2.Good ∧ s.2.CanSample) {a : SampleArgs} {x : Tensor Fl}
    {X : Nat → Data} (hev : a.evidence = some x) (hN : 0 < a.count) (hx : x.Is3 a.count E.net.num_channels E.net.num_features X)
    (hns : a.num_samples = none) (hci : a.class_index = none) (hT : a.temperature_sums ≠ 0) {sc : Option (List Nat)}
    (hs : Scopes.resolveOpt E.net.num_features a.marginalized_scopes = .ok sc)
    (hX : ∀ n, n < a.count → EvidenceOK E.asModel.leaf.base sc (X n)) :
    (E.sample a).All fun s => ∃ v : Nat → Nat → Nat → ℝ, s.Is3 a.count E.net.num_channels E.net.num_features
      fun n c f => if holeAt sc (X n) c f then .fin (v n c f) else X n c f := by
  have hcok : E.asModel.ClassOK a.count a.class_index := by rw [hci]; trivial
  obtain ⟨cs, hcs, hevm⟩ := evidence_caches h (fun s hs => (hg s hs).1) hev hx hs hX
  rw [sample_eq E a (Model.check_ok (M := E.asModel) hcok fun _ => ⟨hci, hns⟩) hcs]
  refine (sampleValues_All h hg hN hT hcok hevm
    (Model.evidence_finRows (asModel_WF h.net) (h.proper fun s hs => (hg s hs).1) hX)).bind fun t ht => ?_
  have hs3 : t.Is3 a.count E.net.num_channels E.net.num_features fun n c f => t.get [n, c, f] :=
    Is.is3 (Is.refl t ht) fun _ _ _ _ _ _ => rfl
  unfold Model.finish
  rw [hev]
  exact Rand.All.lift ((Model.fill_is hx hs3 hs).mono fun r hr => ⟨_, hr⟩)

/-- **Law without evidence.** -/
theorem sample_measure (h : E.WF sd g) (hg : ∀ s ∈ sd, s.2.Good ∧ s.2.CanSample) (hmir : E.asModel.Mirrored g) {a : SampleArgs}
    (hev : a.evidence = none) (hN : 0 < a.count) (hm : a.is_mpe = false) (hml : a.mpe_at_leaves = false)
    (hT : a.temperature_sums = 1) (hL : a.temperature_leaves = 1) (hc : E.asModel.ClassOK a.count a.class_index)
    {φ : (Fin a.count → Pt E.net.num_channels E.net.num_features) → ℝ≥0∞} (hφ : Measurable φ) :
    (E.sample a).E (fun s => φ (s.vals a.count E.net.num_channels E.net.num_features)) =
      ∫⁻ ω, φ ω ∂Measure.pi fun n : Fin a.count => E.asModel.mixLaw a.class_index n fun _ _ => .nan := by
  rw [← Model.sample_measure (h.asSamplable hg) (h.proper fun s hs => (hg s hs).1) hmir hev hN hm hml hT hL hc hφ]
  have hck : a.check E.asModel = .ok () := Model.check_ok hc (by simp [hev])
  have h2 : E.evidenceCaches a = .ok ⟨[], none⟩ := by unfold evidenceCaches; rw [hev]
  have h2' : E.asModel.evidenceCaches a = .ok ⟨[], none⟩ := by unfold Model.evidenceCaches; rw [hev]
  rw [sample_eq E a hck h2, Model.sample_eq E.asModel a hck h2', Rand.E_bind, Rand.E_bind]
  have e : ∀ s : Tensor ℝ, (Rand.lift (Model.finish a s)).E (fun s => φ (s.vals a.count E.net.num_channels E.net.num_features)) =
      φ (s.reals a.count E.net.num_channels E.net.num_features) := by
    intro s
    unfold Model.finish
    rw [hev]
    rfl
  have e' : ∀ s : Tensor ℝ, (Rand.lift (Model.finish a s)).E (fun s => φ (s.vals a.count E.asModel.num_channels
      E.asModel.num_features)) = φ (s.reals a.count E.net.num_channels E.net.num_features) := e
  simp only [e, e']
  exact sampleValues_E h hg hN (by rw [hT]; exact one_ne_zero) (by rw [hL]; exact one_pos) hc (Model.evM_none _ _)
    (Model.finZero _ _) hφ

/-- with evidence the values written into the holes have the law of those of `asModel`. -/
theorem sample_evidence_same (h : E.WF sd g) (hg : ∀ s ∈ sd, s.2.Good ∧ s.2.CanSample)
    {a : SampleArgs} {x : Tensor Fl} {X : Nat → Data} (hev : a.evidence = some x)
    (hN : 0 < a.count) (hx : x.Is3 a.count E.net.num_channels E.net.num_features X)
    (hci : a.class_index = none) (hT0 : a.temperature_sums ≠ 0) (hL0 : 0 < a.temperature_leaves) {sc : Option (List Nat)}
    (hs : Scopes.resolveOpt E.net.num_features a.marginalized_scopes = .ok sc)
    (hX : ∀ n, n < a.count → EvidenceOK E.asModel.leaf.base sc (X n))
    {cs : Caches} (hevm : E.asModel.EvM true a.count cs fun n => E.asModel.frontRow sc (X n))
    {φ : (Fin a.count → Pt E.net.num_channels E.net.num_features) → ℝ≥0∞} (hφ : Measurable φ) :
    ((E.sampleValues a cs).bind fun s => Rand.lift (Model.finish a s)).E
        (fun s => φ (s.vals a.count E.net.num_channels E.net.num_features)) =
      ((E.asModel.sampleValues a cs).bind fun s => Rand.lift (Model.finish a s)).E
        (fun s => φ (s.vals a.count E.net.num_channels E.net.num_features)) := by
  have hp := h.proper fun s hs => (hg s hs).1
  have hS := h.asSamplable hg
  have hcok : E.asModel.ClassOK a.count a.class_index := by rw [hci]; trivial
  have hfin := Model.evidence_finRows hS.wf hp hX
  rw [Rand.E_bind, Rand.E_bind]
  let u : (Fin a.count → Pt E.net.num_channels E.net.num_features) → Fin a.count → Pt E.net.num_channels E.net.num_features :=
    fun ω n c f => if holeAt sc (X n) c f then ω n c f else (X n c f).val
  have hu : Measurable u := by
    refine measurable_pi_iff.2 fun n => measurable_pi_iff.2 fun c => measurable_pi_iff.2 fun f => ?_
    by_cases hh : holeAt sc (X n) c f
    · simp only [u, hh, if_true]
      exact (measurable_pi_apply f).comp ((measurable_pi_apply c).comp (measurable_pi_apply n))
    · simp only [u, hh, if_false]
      exact measurable_const
  have e : ∀ s : Tensor ℝ, s.shape = [a.count, E.net.num_channels, E.net.num_features] →
      (Rand.lift (Model.finish a s)).E (fun s => φ (s.vals a.count E.net.num_channels E.net.num_features)) =
        φ (u (s.reals a.count E.net.num_channels E.net.num_features)) := by
    intro s hsh
    have hs3 : s.Is3 a.count E.net.num_channels E.net.num_features fun n c f => s.get [n, c, f] :=
      Is.is3 (Is.refl s hsh) fun _ _ _ _ _ _ => rfl
    obtain ⟨r, hr, hr'⟩ := Model.fill_is hx hs3 hs
    unfold Model.finish
    rw [hev]
    dsimp only
    rw [hr]
    show φ _ = φ _
    congr 1
    funext n c f
    unfold Tensor.vals
    rw [hr'.get n.2 c.2 f.2]
    simp only [u]
    split_ifs <;> rfl
  rw [Rand.E_congr (sampleValues_All h hg hN hT0 hcok hevm hfin) e]
  refine (sampleValues_E h hg hN hT0 hL0 hcok hevm hfin (hφ.comp hu)).trans ?_
  exact (Rand.E_congr (Model.sampleValues_All hS hN hT0 hcok hevm hfin) (fun s hsh => e s hsh)).symm

/-- **Law given evidence.** -/
theorem sample_evidence_measure (h : E.WF sd g) (hg : ∀ s ∈ sd, s.2.Good ∧ s.2.CanSample) (hmir : E.asModel.Mirrored g)
    {a : SampleArgs} {x : Tensor Fl} {X : Nat → Data} (hev : a.evidence = some x)
    (hN : 0 < a.count) (hx : x.Is3 a.count E.net.num_channels E.net.num_features X) (hns : a.num_samples = none)
    (hci : a.class_index = none) (hm : a.is_mpe = false) (hml : a.mpe_at_leaves = false)
    (hT : a.temperature_sums = 1) (hL : a.temperature_leaves = 1) {sc : Option (List Nat)}
    (hs : Scopes.resolveOpt E.net.num_features a.marginalized_scopes = .ok sc)
    (hX : ∀ n, n < a.count → EvidenceOK E.asModel.leaf.base sc (X n))
    {φ : (Fin a.count → Pt E.net.num_channels E.net.num_features) → ℝ≥0∞} (hφ : Measurable φ) :
    (E.sample a).E (fun s => φ (s.vals a.count E.net.num_channels E.net.num_features)) =
      ∫⁻ ω, φ ω ∂Measure.pi fun n : Fin a.count => E.asModel.mixLaw none n (masked sc (X n)) := by
  have hp := h.proper fun s hs => (hg s hs).1
  have hS := h.asSamplable hg
  have hcok : E.asModel.ClassOK a.count a.class_index := by rw [hci]; trivial
  have hT0 : a.temperature_sums ≠ 0 := by rw [hT]; exact one_ne_zero
  have hL0 : 0 < a.temperature_leaves := by rw [hL]; exact one_pos
  obtain ⟨cs, hcs, hevm⟩ := evidence_caches h (fun s hs => (hg s hs).1) hev hx hs hX
  have hfin := Model.evidence_finRows hS.wf hp hX
  rw [← Model.sampleValues_evidence_measure hS hp hmir hev hN hx hci hm hml hT hL hs hX hevm hφ]
  rw [sample_eq E a (Model.check_ok (M := E.asModel) hcok fun _ => ⟨hci, hns⟩) hcs]
  exact sample_evidence_same h hg hev hN hx hci hT0 hL0 hs hX hevm hφ

end MultiEinet

/-! ### Almost every point is in the support -/

theorem Model.ae_observed {M : Model} {g : Nat → Nat → Nat} (h : M.FrontWF g) (hp : M.leaf.base.Proper) {X : Data}
    (hX : M.leaf.base.Observed X) :
    ∀ᵐ ω ∂(missing M.num_channels M.num_features M.leaf.base.ref X), M.leaf.base.Observed (Pt.data ω) := by
  have hC := h.channels; have hF := h.features
  have := hp.sigmaFinite
  have hsf : ∀ c f, SigmaFinite (if X c f = .nan then M.leaf.base.ref f else Measure.dirac (X c f).val) := by
    intro c f; split_ifs <;> infer_instance
  have hae : ∀ᵐ ω ∂(missing M.num_channels M.num_features M.leaf.base.ref X), ∀ c (f : Fin M.num_features),
      M.leaf.base.valid f (.fin (ω c f)) := by
    unfold missing
    rw [ae_all_iff]; intro c
    rw [ae_all_iff]; intro f
    have hcf : ∀ᵐ x ∂(if X c f = .nan then M.leaf.base.ref f else Measure.dirac (X c f).val),
        M.leaf.base.valid f (.fin x) := by
      rcases hX c (by rw [hC]; exact c.2) f (by rw [hF]; exact f.2) with e | ⟨x, e, hv⟩
      · rw [if_pos e]; exact hp.ae_valid f
      · rw [e, if_neg (by simp), ae_dirac_eq]
        exact hv
    have h1 := (Measure.tendsto_eval_ae_ae (μ := fun f : Fin M.num_features =>
      if X c f = .nan then M.leaf.base.ref f else Measure.dirac (X c f).val) (i := f)).eventually hcf
    exact (Measure.tendsto_eval_ae_ae (μ := fun c : Fin M.num_channels => Measure.pi fun f : Fin M.num_features =>
      if X c f = .nan then M.leaf.base.ref f else Measure.dirac (X c f).val) (i := c)).eventually h1
  filter_upwards [hae] with ω hω using observed_data hC hF hω

namespace MultiEinet
variable {E : MultiEinet} {sd : List (List Nat × LeafSpec)} {g : Nat → Nat → Nat}

theorem hide_none (X : Data) : hide none X = X := by
  funext c f
  unfold hide
  by_cases h : X c f = .nan
  · exact (if_pos (Or.inr h)).trans h.symm
  · exact if_neg (by simp [h])

/-- the two densities agree almost everywhere. -/
theorem density_ae (h : E.WF sd g) (hg : ∀ s ∈ sd, s.2.Good) {X : Data} (hX : E.asModel.leaf.base.Observed X) {k : Nat}
    (hk : k < E.net.num_classes) :
    (fun ω => E.asModel.density none k (Pt.data ω)) =ᵐ[missing E.net.num_channels E.net.num_features E.asModel.leaf.base.ref X]
      fun ω => E.density none k (Pt.data ω) := by
  filter_upwards [Model.ae_observed (asModel_WF h.net).front (h.proper hg) hX] with ω hω
  exact ((density_eq h hg hω (ms := none) rfl hk).trans (by rw [hide_none]; rfl)).symm

end MultiEinet

/-! ### Construction -/

theorem standIn_random {P : Params} (hP : P.Random) : P.standIn.Random := ⟨hP.1, hP.2⟩

/-- what the constructor returns. -/
theorem buildMulti_spec {c : Config} {P : Params} (hP : P.Random) {sd : List (List Nat × LeafSpec)} {E : MultiEinet}
    (h : buildMulti c P sd = .ok E) : build c P.standIn = .ok E.net ∧ E.net.Sizes c ∧ E.net.WF (buildGroups c P.standIn) ∧
      MultiLeaf.init sd E.net.num_features E.net.num_channels E.net.num_leaves E.net.num_repetitions = .ok E.leaf := by
  unfold buildMulti at h
  obtain ⟨_, -, h⟩ := bind_ok h
  obtain ⟨L, hL, h⟩ := bind_ok h
  obtain ⟨M, hM, h⟩ := bind_ok h
  simp only [Res.pure_eq, Except.ok.injEq] at h
  subst h
  obtain ⟨hz, hw, -, -⟩ := build_WF (standIn_random hP) hM
  refine ⟨hM, hz, hw, ?_⟩
  rw [hz.features, hz.channels, hz.leaves, hz.reps]
  exact hL

theorem buildMulti_WF {c : Config} {P : Params} (hP : P.Random) {sd : List (List Nat × LeafSpec)} {E : MultiEinet}
    (h : buildMulti c P sd = .ok E) (hp : Props.Partition sd E.net.num_features) : E.WF sd (buildGroups c P.standIn) :=
  ⟨(buildMulti_spec hP h).2.2.1, (buildMulti_spec hP h).2.2.2, hp⟩

theorem buildMulti_mirrored {c : Config} {P : Params} (hP : P.Random) {sd : List (List Nat × LeafSpec)} {E : MultiEinet}
    (h : buildMulti c P sd = .ok E) (hm : MirrorCfg c) : E.asModel.Mirrored (buildGroups c P.standIn) := by
  have := build_mirrored (standIn_random hP) (buildMulti_spec hP h).1 hm
  intro r hr f hf
  rw [MultiEinet.asModel_grpS, MultiEinet.asModel_grpF]
  exact this r hr f hf

end Einet
