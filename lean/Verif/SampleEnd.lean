import Verif.SampleLaw

/-!
# `Einet.sample` end to end

The law of the result without and with evidence.
-/

open Classical MeasureTheory
open scoped ENNReal
noncomputable section
namespace Einet
open Tensor

/-- entries to be filled by the sampler: NaN entries, or the features in `marginalized_scopes`. -/
def holeAt (sc : Option (List Nat)) (X : Data) (c f : Nat) : Prop :=
  match sc with
  | none => X c f = .nan
  | some s => f ∈ s

/-- the evidence with NaN in the entries to be filled. -/
def masked (sc : Option (List Nat)) (X : Data) : Data := fun c f => if holeAt sc X c f then .nan else X c f

/-- evidence in the support, with NaN only in the entries to be filled. -/
structure EvidenceOK (B : BaseLeaf) (sc : Option (List Nat)) (X : Data) : Prop where
  observed : B.Observed X
  nan_hole : ∀ c, c < B.num_channels → ∀ f, f < B.num_features → X c f = .nan → holeAt sc X c f

theorem EvidenceOK.masked {B : BaseLeaf} {sc : Option (List Nat)} {X : Data} (h : EvidenceOK B sc X) :
    B.Observed (masked sc X) := by
  intro c hc f hf
  unfold Einet.masked
  split_ifs with hh
  · exact Or.inl rfl
  · rcases h.observed c hc f hf with e | e
    · exact absurd (h.nan_hole c hc f hf e) hh
    · exact Or.inr e

theorem EvidenceOK.entry {B : BaseLeaf} (hp : B.Proper) {sc : Option (List Nat)} {X : Data} (h : EvidenceOK B sc X)
    {c f i r : Nat} (hc : c < B.num_channels) (hf : f < B.num_features) (hi : i < B.num_leaves)
    (hr : r < B.num_repetitions) : B.entry sc (X c f) c f i r = B.entry none (Einet.masked sc X c f) c f i r := by
  unfold Einet.masked
  cases sc with
  | none =>
    unfold holeAt
    dsimp only
    split_ifs with hh
    · rw [hh]
    · rfl
  | some s =>
    unfold holeAt
    dsimp only
    split_ifs with hh
    · simp [BaseLeaf.entry, hh, Fl.isnan]
    · rcases h.observed c hc f hf with e | ⟨x, e, hv⟩
      · exact absurd (h.nan_hole c hc f hf e) hh
      · obtain ⟨v, hv⟩ := hp.isFin c hc f hf i hi r hr x hv
        simp [BaseLeaf.entry, hh, e, hv, Fl.isnan]

namespace Model

theorem indexList_of_resolve {F : Nat} {s : Scopes} {l : List Nat} (h : s.resolve F = .ok l) : indexList F s = .ok l := by
  unfold Scopes.resolve at h
  unfold indexList
  by_cases h1 : ¬ (s.isList = true ∧ s.idx = [])
  · by_cases h2 : ∀ i ∈ s.idx, -(F : Int) ≤ i ∧ i < F
    · rw [require_true _ h1, Res.ok_bind, require_true _ h2] at h
      rw [require_true _ h2]
      exact h
    · rw [require_true _ h1, Res.ok_bind, require_false _ h2] at h
      exact absurd h (by simp)
  · rw [require_false _ h1] at h
    exact absurd h (by simp)

theorem resolveOpt_some {F : Nat} {s : Scopes} {sc : Option (List Nat)} (h : Scopes.resolveOpt F (some s) = .ok sc) :
    ∃ l, sc = some l ∧ s.resolve F = .ok l := by
  simp only [Scopes.resolveOpt] at h
  cases hr : s.resolve F with
  | error e => rw [hr] at h; exact absurd h (by simp [Except.map])
  | ok l =>
    rw [hr] at h
    simp only [Except.map, Except.ok.injEq] at h
    exact ⟨l, h.symm, rfl⟩

theorem view_self {α : Type} {t : Tensor α} {s : List Nat} {g : List Nat → α} (h : t.Is s g) :
    Res.Sat (t.view s) fun t' => t'.Is s g := by
  refine (view_is h rfl).mono fun t' ht' => ?_
  refine ht'.congr ((AllIdx_iff _ _).2 fun i hi => ?_)
  rw [unflat_flat hi]

/-- filling the holes of a batch of rank 3. -/
theorem fill_is {e : Tensor Fl} {s : Tensor ℝ} {N C F : Nat} {X : Nat → Data} {S : Nat → Nat → Nat → ℝ}
    (he : e.Is3 N C F X) (hs : s.Is3 N C F S) {ms : Option Scopes} {sc : Option (List Nat)}
    (hsc : Scopes.resolveOpt F ms = .ok sc) :
    Res.Sat (fill e s ms) fun t => t.Is3 N C F fun n c f => if holeAt sc (X n) c f then .fin (S n c f) else X n c f := by
  unfold fill
  rw [hs.1]
  refine (view_self he).bind fun e' he' => ?_
  cases ms with
  | none =>
    simp only [Scopes.resolveOpt, Except.ok.injEq] at hsc
    subst hsc
    dsimp only
    rw [he.1]
    refine view_self (Is.intro (by exact he'.1) fun j hj => ?_)
    dsimp only
    rw [Is.get he' hj, Is.get hs hj]
    unfold holeAt
    dsimp only
    by_cases hn : X (at' 0 j) (at' 1 j) (at' 2 j) = .nan
    · simp [hn, Fl.isnan]
    · have : (X (at' 0 j) (at' 1 j) (at' 2 j)).isnan = false := by
        cases hx : X (at' 0 j) (at' 1 j) (at' 2 j) <;> simp_all [Fl.isnan]
      simp [hn, this]
  | some ms =>
    obtain ⟨l, rfl, hl⟩ := resolveOpt_some hsc
    have hF : s.size 2 = F := by simp [size, hs.1, at']
    dsimp only
    rw [hF, indexList_of_resolve hl, he.1]
    refine view_self (Is.intro (by exact he'.1) fun j hj => ?_)
    dsimp only
    rw [Is.get he' hj, Is.get hs hj]
    unfold holeAt
    dsimp only
    by_cases hm : at' 2 j ∈ l <;> simp [hm]

theorem check_ok {M : Model} {a : SampleArgs} (hc : M.ClassOK a.count a.class_index)
    (he : a.evidence.isSome → a.class_index = none ∧ a.num_samples = none) : a.check M = .ok () := by
  unfold SampleArgs.check
  cases hev : a.evidence with
  | none =>
    cases hci : a.class_index with
    | none => simp [require]
    | some ci =>
      rw [hci] at hc
      cases ci with
      | int c =>
        have := hc.1
        have h1 : M.num_classes ≠ 1 := by omega
        simp [require, h1]
      | list l =>
        have := hc.1
        have h1 : M.num_classes ≠ 1 := by omega
        simp [require, h1]
  | some e =>
    obtain ⟨h1, h2⟩ := he (by simp [hev])
    simp [h1, h2, require]

theorem finZero (M : Model) (N : Nat) : M.FinRows N fun _ _ _ _ => .fin 0 := fun _ _ _ _ _ _ _ _ => Fl.isFin_fin _

/-- **Law of `sample` without evidence**, for all temperatures. -/
theorem sample_E {M : Model} {g : Nat → Nat → Nat} (h : M.Samplable g) {a : SampleArgs} (hev : a.evidence = none)
    (hN : 0 < a.count) (hm : a.is_mpe = false) (hT : a.temperature_sums ≠ 0) (hL : 0 < a.temperature_leaves)
    (hc : M.ClassOK a.count a.class_index) {t : Nat → Nat → Nat → Fl → ℝ≥0∞}
    (ht : ∀ n c f, Measurable fun x : ℝ => t n c f (.fin x)) :
    (M.sample a).E (fun s => prod3 a.count M.num_channels M.num_features fun n c f => t n c f (s.get [n, c, f])) =
      ∏ n ∈ Finset.range a.count, ∑ k ∈ Finset.range M.num_classes, M.classW a.temperature_sums a.class_index n k *
        M.topP a.temperature_sums (M.regionS g fun c f i r => M.leaf.base.compE a.mpe_at_leaves a.temperature_leaves
          c f i r fun x => t n c f (.fin x)) k := by
  have h2 : M.evidenceCaches a = .ok ⟨[], none⟩ := by unfold evidenceCaches; rw [hev]
  rw [sample_eq M a (check_ok hc (by simp [hev])) h2, Rand.E_bind]
  have e1 := sampleValues_E h hN hm hT hL hc (evM_none M a.count) (finZero M _) (t := fun n c f x => t n c f (.fin x)) ht
  refine Eq.trans ?_ (e1.trans ?_)
  · congr 1
    funext s
    unfold finish
    rw [hev]
    rfl
  · refine Finset.prod_congr rfl fun n _ => Finset.sum_congr rfl fun k hk => ?_
    rw [pathVal_uncond h.wf hT (by simpa using hk)]

/-- density of the result of `sample` for one row: the class weights mix the class densities. -/
def mixDensity (M : Model) (ci : Option ClassIndex) (n : Nat) (X : Data) : ℝ≥0∞ :=
  ∑ k ∈ Finset.range M.num_classes, M.classW 1 ci n k * M.density none k X

theorem density_measurable_test {M : Model} {g : Nat → Nat → Nat} (h : M.WF g) (hp : M.leaf.base.Proper) {X : Data}
    (hX : M.leaf.base.Observed X) {k : Nat} (hk : k < M.num_classes) {t : Nat → Nat → ℝ → ℝ≥0∞}
    (ht : ∀ c f, Measurable (t c f)) :
    AEMeasurable (fun ω : Pt M.num_channels M.num_features =>
      (∏ f : Fin M.num_features, ∏ c : Fin M.num_channels, t c f (ω c f)) * M.density none k (Pt.data ω))
      (missing M.num_channels M.num_features M.leaf.base.ref X) := by
  obtain ⟨p, hpm, hpe, -⟩ := density_ae h hp hX hk ht
  refine ⟨fun ω => M.outP g 1 (p ω) k, ?_, hpe⟩
  have hmm : ∀ r, r < M.num_repetitions → Measurable fun ω => denL 1 M.layers (M.regionP g (p ω)) 0 k r :=
    fun r hr => denL_measurable h.chain one_ne_zero hr hk fun d k' => regionP_measurable hpm d k' r
  unfold outP
  split_ifs with hR
  · exact Finset.measurable_fun_sum _ fun r hr => (hmm r (by simpa using hr)).const_mul _
  · exact hmm 0 h.reps_pos

/-- **Law of `sample` without evidence at temperature 1**: independent rows with the density of the forward pass. -/
theorem sample_law {M : Model} {g : Nat → Nat → Nat} (h : M.Samplable g) (hp : M.leaf.base.Proper) (hmir : M.Mirrored g)
    {a : SampleArgs} (hev : a.evidence = none) (hN : 0 < a.count) (hm : a.is_mpe = false) (hml : a.mpe_at_leaves = false)
    (hT : a.temperature_sums = 1) (hL : a.temperature_leaves = 1) (hc : M.ClassOK a.count a.class_index)
    {t : Nat → Nat → Nat → Fl → ℝ≥0∞} (ht : ∀ n c f, Measurable fun x : ℝ => t n c f (.fin x)) :
    (M.sample a).E (fun s => prod3 a.count M.num_channels M.num_features fun n c f => t n c f (s.get [n, c, f])) =
      ∏ n ∈ Finset.range a.count, ∫⁻ ω, (∏ f : Fin M.num_features, ∏ c : Fin M.num_channels, t n c f (.fin (ω c f))) *
        M.mixDensity a.class_index n (Pt.data ω)
        ∂(Measure.pi fun _ : Fin M.num_channels => Measure.pi fun f : Fin M.num_features => M.leaf.base.ref f) := by
  rw [sample_E h hev hN hm (by rw [hT]; exact one_ne_zero) (by rw [hL]; exact one_pos) hc ht, hT, hL, hml]
  refine Finset.prod_congr rfl fun n _ => ?_
  have ho : M.leaf.base.Observed fun _ _ => .nan := fun _ _ _ _ => Or.inl rfl
  have hmeas : (missing M.num_channels M.num_features M.leaf.base.ref fun _ _ => .nan) =
      Measure.pi fun _ : Fin M.num_channels => Measure.pi fun f : Fin M.num_features => M.leaf.base.ref f := by
    unfold missing; simp
  rw [← hmeas]
  unfold mixDensity
  simp only [Finset.mul_sum]
  have hae : ∀ k ∈ Finset.range M.num_classes, AEMeasurable (fun ω : Pt M.num_channels M.num_features =>
      (∏ f : Fin M.num_features, ∏ c : Fin M.num_channels, t n c f (.fin (ω c f))) * M.density none k (Pt.data ω))
      (missing M.num_channels M.num_features M.leaf.base.ref fun _ _ => .nan) := fun k hk =>
    density_measurable_test h.wf hp ho (by simpa using hk) (t := fun c f x => t n c f (.fin x)) (ht n)
  simp only [mul_left_comm _ (M.classW 1 a.class_index n _)]
  rw [lintegral_finsetSum' _ fun k hk => (hae k hk).const_mul _]
  refine Finset.sum_congr rfl fun k hk => ?_
  have hk' : k < M.num_classes := by simpa using hk
  rw [lintegral_const_mul'' _ (hae k hk), ← density_test h.wf hp ho hk' (t := fun c f x => t n c f (.fin x)) (ht n),
    outP_eq]
  congr 1
  refine topP_congr h.wf hk' fun o _ i _ r hr => ?_
  rw [regionS_eq hmir _ hr]
  unfold BaseLeaf.compE entryRef
  simp only [Bool.false_eq_true, if_false, if_true]
  congr 1
  funext c f i r
  exact h.samp.law_one c f i r _ (ht n c f)

theorem regionP_mul (M : Model) (g : Nat → Nat → Nat) (p q : Nat → Nat → Nat → Nat → ℝ≥0∞) (o i r : Nat) :
    M.regionP g p o i r * M.regionP g q o i r = M.regionP g (fun c f i r => p c f i r * q c f i r) o i r := by
  unfold regionP
  rw [← Finset.prod_mul_distrib]
  refine Finset.prod_congr rfl fun f _ => ?_
  split_ifs
  · rw [Finset.prod_mul_distrib]
  · rw [mul_one]

/-- evidence in the support has finite leaf values. -/
theorem evidence_finRows {M : Model} {g : Nat → Nat → Nat} (h : M.WF g) (hp : M.leaf.base.Proper) {N : Nat} {X : Nat → Data}
    {sc : Option (List Nat)} (hX : ∀ n, n < N → EvidenceOK M.leaf.base sc (X n)) : M.FinRows N fun n => M.frontRow sc (X n) := by
  intro n hn d hd k hk r hr
  refine (frontRow_den h.front (b := true) (fun _ => rfl) hr (fun c hc f hf => ?_) hd).1
  have hC := h.front.channels; have hF := h.front.features; have hI := h.front.leaves; have hR := h.front.reps
  rw [(hX n hn).entry hp (by omega) (by omega) (by omega) (by omega)]
  exact (entry_none hp (by omega) (by omega) (by omega) (by omega) (hX n hn).masked).1

/-- what evidence leaves in the caches. -/
theorem evidence_caches {M : Model} {g : Nat → Nat → Nat} (h : M.WF g) (hp : M.leaf.base.Proper) {a : SampleArgs}
    {x : Tensor Fl} {X : Nat → Data} (hev : a.evidence = some x) (hx : x.Is3 a.count M.num_channels M.num_features X)
    {sc : Option (List Nat)} (hs : Scopes.resolveOpt M.num_features a.marginalized_scopes = .ok sc)
    (hX : ∀ n, n < a.count → EvidenceOK M.leaf.base sc (X n)) :
    ∃ cs, M.evidenceCaches a = .ok cs ∧ M.EvM true a.count cs (fun n => M.frontRow sc (X n)) ∧
      M.FinRows a.count fun n => M.frontRow sc (X n) := by
  obtain ⟨y, hy, h1, h2⟩ := run_is h hx (fun n hn => (hX n hn).observed.valid hp.valid_zero) hs
  refine ⟨y.2, ?_, CachesOK.evM h2, evidence_finRows h hp hX⟩
  unfold evidenceCaches
  rw [hev]
  dsimp only
  rw [hy]
  rfl

/-- the factor of one row in the law of `sample` given evidence. -/
theorem pathVal_evidence {M : Model} {g : Nat → Nat → Nat} (h : M.Samplable g) (hp : M.leaf.base.Proper)
    (hmir : M.Mirrored g) {X : Data} {sc : Option (List Nat)} (hX : EvidenceOK M.leaf.base sc X) {t : Nat → Nat → Fl → ℝ≥0∞}
    (ht : ∀ c f, Measurable fun x : ℝ => t c f (.fin x)) {k : Nat} (hk : k < M.num_classes) :
    M.pathVal true 1 (M.frontRow sc X) (M.regionS g fun c f i r => M.leaf.base.compE false 1 c f i r fun y =>
        if holeAt sc X c f then t c f (.fin y) else t c f (X c f)) k =
      (∫⁻ ω, (∏ f : Fin M.num_features, ∏ c : Fin M.num_channels, t c f (.fin (ω c f))) *
        M.density none k (Pt.data ω) ∂(missing M.num_channels M.num_features M.leaf.base.ref (masked sc X))) /
      M.density none k (masked sc X) := by
  have hC := h.wf.front.channels; have hF := h.wf.front.features; have hI := h.wf.front.leaves
  have hR := h.wf.front.reps
  have hfin := evidence_finRows h.wf hp (N := 1) (X := fun _ => X) fun _ _ => hX
  rw [(pathVal_cond h.wf (e := M.frontRow sc X) (hfin 0 one_pos) hk).2.2]
  have hrow : ∀ o, o < M.numOut → ∀ i, i < M.num_leaves → ∀ r, r < M.num_repetitions →
      pRow (M.frontRow sc X) o i r =
        M.regionP g (fun c f i r => toP (M.leaf.base.entry sc (X c f) c f i r)) o i r := by
    intro o ho i hi r hr
    refine (frontRow_den h.wf.front (b := true) (fun _ => rfl) hr (fun c hc f hf => ?_) ho).2
    rw [hX.entry hp (by omega) (by omega) (by omega) (by omega)]
    exact (entry_none hp (by omega) (by omega) (by omega) (by omega) hX.masked).1
  congr 1
  · rw [← density_test h.wf hp hX.masked hk (t := fun c f x => t c f (.fin x)) ht, outP_eq]
    refine topP_congr h.wf hk fun o ho i hi r hr => ?_
    rw [regionS_eq hmir _ hr, hrow o ho i hi r hr, regionP_mul]
    unfold regionP
    refine Finset.prod_congr rfl fun f hf => ?_
    split_ifs
    · refine Finset.prod_congr rfl fun c hc => ?_
      simp only [Finset.mem_range] at hf hc
      dsimp only
      rw [hX.entry hp (by omega) (by omega) (by omega) (by omega),
        (entry_none hp (by omega) (by omega) (by omega) (by omega) hX.masked).2]
      unfold BaseLeaf.compE entryRef
      simp only [Bool.false_eq_true, if_false]
      by_cases hh : holeAt sc X c f
      · have em : masked sc X c f = .nan := by unfold masked; rw [if_pos hh]
        rw [em, if_pos rfl, hp.integral c (by omega) f (by omega) i (by omega) r (by omega), mul_one]
        simp only [hh, if_true]
        exact h.samp.law_one c f i r _ (ht c f)
      · have em : masked sc X c f = X c f := by unfold masked; rw [if_neg hh]
        rcases hX.observed c (by omega) f (by omega) with e | ⟨y, e, hv⟩
        · exact absurd (hX.nan_hole c (by omega) f (by omega) e) hh
        · have := h.samp.prob 1 one_pos c f i r
          rw [em, e, if_neg (by simp), lintegral_dirac' _ (hp.measurable c f i r),
            lintegral_dirac' (f := fun x => t c f (.fin x) * toP (M.leaf.base.logProb c f i r (.fin x))) _
              ((ht c f).mul (hp.measurable c f i r))]
          simp only [hh, if_false, lintegral_const, measure_univ, mul_one]
          rfl
    · rfl
  · rw [density_eq h.wf hp hX.masked (ms := none) rfl hk, (outRow_den h.wf (b := true) (fun _ => rfl) (sc := none)
      (fun c hc f hf i hi r hr => (entry_none hp (by omega) (by omega) (by omega) (by omega) hX.masked).1) hk).2, outP_eq]
    refine topP_congr h.wf hk fun o ho i hi r hr => ?_
    rw [hrow o ho i hi r hr]
    unfold regionP
    refine Finset.prod_congr rfl fun f hf => ?_
    split_ifs
    · refine Finset.prod_congr rfl fun c hc => ?_
      simp only [Finset.mem_range] at hf hc
      dsimp only
      rw [hX.entry hp (by omega) (by omega) (by omega) (by omega)]
    · rfl

/-- the law of `sample` given evidence, from caches that hold the evidence. -/
theorem sampleValues_evidence_law {M : Model} {g : Nat → Nat → Nat} (h : M.Samplable g) (hp : M.leaf.base.Proper)
    (hmir : M.Mirrored g) {a : SampleArgs} {x : Tensor Fl} {X : Nat → Data} (hev : a.evidence = some x)
    (hN : 0 < a.count) (hx : x.Is3 a.count M.num_channels M.num_features X)
    (hci : a.class_index = none) (hm : a.is_mpe = false) (hml : a.mpe_at_leaves = false)
    (hT : a.temperature_sums = 1) (hL : a.temperature_leaves = 1) {sc : Option (List Nat)}
    (hs : Scopes.resolveOpt M.num_features a.marginalized_scopes = .ok sc)
    (hX : ∀ n, n < a.count → EvidenceOK M.leaf.base sc (X n)) {cs : Caches}
    (hevm : M.EvM true a.count cs fun n => M.frontRow sc (X n)) {t : Nat → Nat → Nat → Fl → ℝ≥0∞}
    (ht : ∀ n c f, Measurable fun x : ℝ => t n c f (.fin x)) :
    ((M.sampleValues a cs).bind fun s => Rand.lift (finish a s)).E
        (fun s => prod3 a.count M.num_channels M.num_features fun n c f => t n c f (s.get [n, c, f])) =
      ∏ n ∈ Finset.range a.count, ∑ k ∈ Finset.range M.num_classes, M.classW 1 none n k *
        ((∫⁻ ω, (∏ f : Fin M.num_features, ∏ c : Fin M.num_channels, t n c f (.fin (ω c f))) *
          M.density none k (Pt.data ω) ∂(missing M.num_channels M.num_features M.leaf.base.ref (masked sc (X n)))) /
        M.density none k (masked sc (X n))) := by
  have hC := h.wf.front.channels; have hF := h.wf.front.features; have hI := h.wf.front.leaves
  have hR := h.wf.front.reps
  have hfin := evidence_finRows h.wf hp hX
  have hcok : M.ClassOK a.count a.class_index := by rw [hci]; trivial
  have hT0 : a.temperature_sums ≠ 0 := by rw [hT]; exact one_ne_zero
  rw [Rand.E_bind]
  set t' : Nat → Nat → Nat → ℝ → ℝ≥0∞ := fun n c f y =>
    if holeAt sc (X n) c f then t n c f (.fin y) else t n c f (X n c f) with ht'
  have ht'm : ∀ n c f, Measurable (t' n c f) := by
    intro n c f
    rw [ht']
    dsimp only
    split_ifs
    · exact ht n c f
    · exact measurable_const
  have e0 : (M.sampleValues a cs).E (fun s => (Rand.lift (finish a s)).E fun s =>
        prod3 a.count M.num_channels M.num_features fun n c f => t n c f (s.get [n, c, f])) =
      (M.sampleValues a cs).E (fun s => prod3 a.count M.num_channels M.num_features fun n c f =>
        t' n c f (s.get [n, c, f])) := by
    refine Rand.E_congr (sampleValues_All h hN hT0 hcok hevm hfin) fun s hsh => ?_
    have hs3 : s.Is3 a.count M.num_channels M.num_features fun n c f => s.get [n, c, f] :=
      Is.is3 (Is.refl s hsh) fun _ _ _ _ _ _ => rfl
    obtain ⟨r, hr, hr'⟩ := fill_is hx hs3 hs
    unfold finish
    rw [hev]
    dsimp only
    rw [hr]
    refine prod3_congr fun n hn c hc f hf => ?_
    rw [hr'.get hn hc hf, ht']
    dsimp only
    split_ifs <;> rfl
  rw [e0, sampleValues_E h hN hm hT0 (by rw [hL]; exact one_pos) hcok hevm hfin ht'm, hT, hL, hci, hml]
  refine Finset.prod_congr rfl fun n hn => Finset.sum_congr rfl fun k hk => ?_
  congr 1
  exact pathVal_evidence h hp hmir (hX n (by simpa using hn)) (ht n) (by simpa using hk)

/-- **Law of `sample` given evidence at temperature 1**: independent rows; the class is drawn from the class weights
*without* looking at the evidence, then the missing entries from the conditional density of that class; entries outside
the holes keep their value. -/
theorem sample_evidence_law {M : Model} {g : Nat → Nat → Nat} (h : M.Samplable g) (hp : M.leaf.base.Proper)
    (hmir : M.Mirrored g) {a : SampleArgs} {x : Tensor Fl} {X : Nat → Data} (hev : a.evidence = some x)
    (hN : 0 < a.count) (hx : x.Is3 a.count M.num_channels M.num_features X) (hns : a.num_samples = none)
    (hci : a.class_index = none) (hm : a.is_mpe = false) (hml : a.mpe_at_leaves = false)
    (hT : a.temperature_sums = 1) (hL : a.temperature_leaves = 1) {sc : Option (List Nat)}
    (hs : Scopes.resolveOpt M.num_features a.marginalized_scopes = .ok sc)
    (hX : ∀ n, n < a.count → EvidenceOK M.leaf.base sc (X n)) {t : Nat → Nat → Nat → Fl → ℝ≥0∞}
    (ht : ∀ n c f, Measurable fun x : ℝ => t n c f (.fin x)) :
    (M.sample a).E (fun s => prod3 a.count M.num_channels M.num_features fun n c f => t n c f (s.get [n, c, f])) =
      ∏ n ∈ Finset.range a.count, ∑ k ∈ Finset.range M.num_classes, M.classW 1 none n k *
        ((∫⁻ ω, (∏ f : Fin M.num_features, ∏ c : Fin M.num_channels, t n c f (.fin (ω c f))) *
          M.density none k (Pt.data ω) ∂(missing M.num_channels M.num_features M.leaf.base.ref (masked sc (X n)))) /
        M.density none k (masked sc (X n))) := by
  obtain ⟨cs, hcs, hevm, -⟩ := evidence_caches h.wf hp hev hx hs hX
  rw [sample_eq M a (check_ok (by rw [hci]; trivial) fun _ => ⟨hci, hns⟩) hcs]
  exact sampleValues_evidence_law h hp hmir hev hN hx hci hm hml hT hL hs hX hevm ht

end Model
end Einet
