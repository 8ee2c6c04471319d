import Verif.SampleBuild
import Mathlib.MeasureTheory.MeasurableSpace.Pi
import Mathlib.MeasureTheory.Measure.WithDensity

/-!
# The law of `sample` as a measure

`Verif/SampleEnd.lean` computes expectations of products of functions of single entries.  Here the law is identified as
a measure on the space of all results, so that the expectation of *every* measurable function of the result follows.
-/

open Classical MeasureTheory
open scoped ENNReal
noncomputable section
namespace Einet
open Tensor

namespace Rand
variable {α β Ω : Type} [MeasurableSpace Ω]

/-- the expectations of measurable functions of `v` are integrals against a measure. -/
def HasLaw (x : Rand α) (v : α → Ω) : Prop :=
  ∃ ν : Measure Ω, ∀ φ : Ω → ℝ≥0∞, Measurable φ → x.E (fun a => φ (v a)) = ∫⁻ ω, φ ω ∂ν

theorem HasLaw.pure (a : α) (v : α → Ω) : HasLaw (Rand.pure a) v :=
  ⟨Measure.dirac (v a), fun _ hφ => (lintegral_dirac' _ hφ).symm⟩

theorem HasLaw.bind {x : Rand α} {g : α → Rand β} {v : β → Ω} {P : α → Prop} (hd : x.Disc) (h : x.All P)
    (hg : ∀ a, P a → HasLaw (g a) v) : HasLaw (x.bind g) v := by
  induction x with
  | pure a => exact hg a h
  | fail e => exact h.elim
  | draw K w k ih =>
    have : ∀ j, ∃ ν : Measure Ω, j < K → toP (Fl.logSoftmax K w j) ≠ 0 → ∀ φ : Ω → ℝ≥0∞, Measurable φ →
        ((k j).bind g).E (fun a => φ (v a)) = ∫⁻ ω, φ ω ∂ν := by
      intro j
      by_cases hj : j < K ∧ toP (Fl.logSoftmax K w j) ≠ 0
      · obtain ⟨ν, hν⟩ := ih j (hd j) (h.2 j hj.1 hj.2)
        exact ⟨ν, fun _ _ => hν⟩
      · exact ⟨0, fun h1 h2 => absurd ⟨h1, h2⟩ hj⟩
    choose ν hν using this
    refine ⟨∑ j ∈ Finset.range K, toP (Fl.logSoftmax K w j) • ν j, fun φ hφ => ?_⟩
    rw [lintegral_finsetSum_measure]
    refine Finset.sum_congr rfl fun j hj => ?_
    rw [lintegral_smul_measure, smul_eq_mul]
    by_cases h0 : toP (Fl.logSoftmax K w j) = 0
    · rw [h0, zero_mul, zero_mul]
    · rw [hν j (by simpa using hj) h0 φ hφ]
  | leaf μ k ih => exact hd.elim

theorem HasLaw.map {x : Rand α} {v : α → Ω} (h : HasLaw x v) {Ω' : Type} [MeasurableSpace Ω'] {f : Ω → Ω'}
    (hf : Measurable f) : HasLaw x fun a => f (v a) := by
  obtain ⟨ν, hν⟩ := h
  exact ⟨ν.map f, fun φ hφ => by rw [lintegral_map hφ hf]; exact hν _ (hφ.comp hf)⟩

theorem HasLaw.congr {x : Rand α} {v w : α → Ω} {P : α → Prop} (h : HasLaw x v) (ha : x.All P)
    (he : ∀ a, P a → w a = v a) : HasLaw x w := by
  obtain ⟨ν, hν⟩ := h
  exact ⟨ν, fun φ hφ => by rw [← hν φ hφ]; exact E_congr ha fun a hp => by rw [he a hp]⟩

/-- the law of independent draws from leaf distributions. -/
theorem drawAll_law (is : List (List Nat)) (μ : List Nat → Measure ℝ) [∀ i, SFinite (μ i)] (d : List Nat → ℝ) :
    ∃ ν : Measure (List Nat → ℝ), SFinite ν ∧ ∀ φ : (List Nat → ℝ) → ℝ≥0∞, Measurable φ →
      (Rand.drawAll is (fun i => Rand.leaf (μ i) Rand.pure) d).E φ = ∫⁻ ω, φ ω ∂ν := by
  induction is with
  | nil => exact ⟨Measure.dirac d, inferInstance, fun φ hφ => (lintegral_dirac' _ hφ).symm⟩
  | cons i is ih =>
    obtain ⟨ν, hs, hν⟩ := ih
    let u : ℝ × (List Nat → ℝ) → List Nat → ℝ := fun p j => if j = i then p.1 else p.2 j
    have hu : Measurable u := by
      refine measurable_pi_iff.2 fun j => ?_
      by_cases hj : j = i
      · simp only [u, hj, if_true]; exact measurable_fst
      · simp only [u, hj, if_false]; exact (measurable_pi_apply j).comp measurable_snd
    refine ⟨((μ i).prod ν).map u, inferInstance, fun φ hφ => ?_⟩
    rw [lintegral_map hφ hu, lintegral_prod (fun p => φ (u p)) (hφ.comp hu).aemeasurable]
    show ∫⁻ x, _ ∂μ i = _
    refine lintegral_congr fun x => ?_
    simp only [pure_bind, E_bind]
    exact hν (fun f => φ (u (x, f))) ((hφ.comp hu).comp measurable_prodMk_left)

/-- independent draws from leaf distributions. -/
theorem HasLaw.drawAll (is : List (List Nat)) (μ : List Nat → Measure ℝ) [∀ i, SFinite (μ i)] (d : List Nat → ℝ) :
    HasLaw (Rand.drawAll is (fun i => Rand.leaf (μ i) Rand.pure) d) fun f => f := by
  obtain ⟨ν, _, h⟩ := drawAll_law is μ d
  exact ⟨ν, h⟩

end Rand

/-! ### Measures on the space of results -/

/-- measurable rectangles. -/
def boxes (N C F : Nat) : Set (Set (Fin N → Pt C F)) :=
  Set.univ.pi '' Set.univ.pi fun _ : Fin N => Set.univ.pi '' Set.univ.pi fun _ : Fin C =>
    Set.univ.pi '' Set.univ.pi fun _ : Fin F => {s : Set ℝ | MeasurableSet s}

theorem spanning_univ {α : Type} {S : Set (Set α)} (h : Set.univ ∈ S) : IsCountablySpanning S :=
  ⟨fun _ => Set.univ, fun _ => h, Set.iUnion_const _⟩

theorem univ_mem_pi {ι : Type} {α : Type} {S : Set (Set α)} (h : Set.univ ∈ S) :
    (Set.univ : Set (ι → α)) ∈ Set.univ.pi '' Set.univ.pi fun _ : ι => S :=
  ⟨fun _ => Set.univ, fun _ _ => h, by simp⟩

theorem generate_pi {ι : Type} [Finite ι] {α : Type} [m : MeasurableSpace α] {S : Set (Set α)}
    (h : MeasurableSpace.generateFrom S = m) (hu : Set.univ ∈ S) :
    MeasurableSpace.generateFrom (Set.univ.pi '' Set.univ.pi fun _ : ι => S) = MeasurableSpace.pi :=
  generateFrom_eq_pi (fun _ => h) fun _ => spanning_univ hu

theorem boxes_spec (N C F : Nat) :
    MeasurableSpace.generateFrom (boxes N C F) = MeasurableSpace.pi ∧ IsPiSystem (boxes N C F) := by
  have h0 : MeasurableSpace.generateFrom {s : Set ℝ | MeasurableSet s} = borel ℝ := by
    rw [← BorelSpace.measurable_eq (α := ℝ)]
    exact MeasurableSpace.generateFrom_measurableSet
  have u0 : (Set.univ : Set ℝ) ∈ {s : Set ℝ | MeasurableSet s} := by
    rw [Set.mem_ofPred_eq]; exact MeasurableSet.univ
  have h1 := generate_pi (ι := Fin F) (h0.trans (BorelSpace.measurable_eq (α := ℝ)).symm) u0
  have u1 := univ_mem_pi (ι := Fin F) u0
  have h2 := generate_pi (ι := Fin C) h1 u1
  have u2 := univ_mem_pi (ι := Fin C) u1
  refine ⟨generate_pi (ι := Fin N) h2 u2, ?_⟩
  exact IsPiSystem.pi fun _ => IsPiSystem.pi fun _ => IsPiSystem.pi fun _ => MeasurableSpace.isPiSystem_measurableSet

/-- two finite measures that agree on rectangles are equal. -/
theorem ext_boxes {N C F : Nat} {μ ν : Measure (Fin N → Pt C F)} [IsFiniteMeasure μ]
    (h : ∀ A : Fin N → Fin C → Fin F → Set ℝ, (∀ n c f, MeasurableSet (A n c f)) →
      μ {ω | ∀ n c f, ω n c f ∈ A n c f} = ν {ω | ∀ n c f, ω n c f ∈ A n c f}) : μ = ν := by
  refine ext_of_generate_finite (boxes N C F) (boxes_spec N C F).1.symm (boxes_spec N C F).2 ?_ ?_
  · rintro s ⟨A1, hA1, rfl⟩
    have h1 : ∀ n, ∃ A2 : Fin C → Set (Fin F → ℝ), (∀ c, A2 c ∈ Set.univ.pi '' Set.univ.pi fun _ : Fin F =>
        {s : Set ℝ | MeasurableSet s}) ∧ Set.univ.pi A2 = A1 n := by
      intro n
      obtain ⟨A2, h1, h2⟩ := hA1 n trivial
      exact ⟨A2, fun c => h1 c trivial, h2⟩
    choose A2 hA2 e2 using h1
    have h2 : ∀ n c, ∃ A3 : Fin F → Set ℝ, (∀ f, MeasurableSet (A3 f)) ∧ Set.univ.pi A3 = A2 n c := by
      intro n c
      obtain ⟨A3, h1, h2⟩ := hA2 n c
      exact ⟨A3, fun f => h1 f trivial, h2⟩
    choose A3 hA3 e3 using h2
    have := h A3 hA3
    have e : {ω : Fin N → Pt C F | ∀ n c f, ω n c f ∈ A3 n c f} = Set.univ.pi A1 := by
      ext ω
      simp only [Set.mem_pi, Set.mem_univ, true_imp_iff, Set.mem_ofPred_eq, ← e2, ← e3]
    rwa [e] at this
  · have := h (fun _ _ _ => Set.univ) fun _ _ _ => MeasurableSet.univ
    simpa using this

/-- the values of a result as a point of the product space. -/
def Tensor.vals (N C F : Nat) (s : Tensor Fl) : Fin N → Pt C F := fun n c f => (s.get [n, c, f]).val

theorem prod3_fin (N C F : Nat) (h : Nat → Nat → Nat → ℝ≥0∞) :
    prod3 N C F h = ∏ n : Fin N, ∏ f : Fin F, ∏ c : Fin C, h n c f := by
  unfold prod3
  rw [Finset.prod_range]
  refine Finset.prod_congr rfl fun n _ => ?_
  rw [Finset.prod_range]
  exact Finset.prod_congr rfl fun f _ => by rw [Finset.prod_range]

theorem prod_indicator {N C F : Nat} (A : Fin N → Fin C → Fin F → Set ℝ) (ω : Fin N → Pt C F) :
    (∏ n, ∏ f, ∏ c, (A n c f).indicator 1 (ω n c f) : ℝ≥0∞) =
      Set.indicator {ω : Fin N → Pt C F | ∀ n c f, ω n c f ∈ A n c f} 1 ω := by
  by_cases h : ∀ n c f, ω n c f ∈ A n c f
  · rw [Set.indicator_of_mem (by rw [Set.mem_ofPred_eq]; exact h)]
    simp only [Set.indicator_of_mem (h _ _ _), Pi.one_apply, Finset.prod_const_one]
  · rw [Set.indicator_of_notMem (by rw [Set.mem_ofPred_eq]; exact h)]
    push Not at h
    obtain ⟨n, c, f, h⟩ := h
    refine Finset.prod_eq_zero (Finset.mem_univ n) (Finset.prod_eq_zero (Finset.mem_univ f)
      (Finset.prod_eq_zero (Finset.mem_univ c) ?_))
    rw [Set.indicator_of_notMem h]

/-- a law known on products of functions of single values. -/
theorem law_of_prod' {α : Type} {N C F : Nat} {x : Rand α} {v : α → Fin N → Pt C F} (hl : x.HasLaw v)
    {μ : Fin N → Measure (Pt C F)} [∀ n, IsFiniteMeasure (μ n)]
    (h : ∀ t : Nat → Nat → Nat → ℝ → ℝ≥0∞, (∀ n c f, Measurable (t n c f)) → (∀ n c f y, t n c f y ≤ 1) →
      x.E (fun s => ∏ n : Fin N, ∏ f : Fin F, ∏ c : Fin C, t n c f (v s n c f)) =
        ∏ n : Fin N, ∫⁻ ω, ∏ f : Fin F, ∏ c : Fin C, t n c f (ω c f) ∂μ n)
    {φ : (Fin N → Pt C F) → ℝ≥0∞} (hφ : Measurable φ) :
    x.E (fun s => φ (v s)) = ∫⁻ ω, φ ω ∂Measure.pi μ := by
  obtain ⟨ν, hν⟩ := hl
  have key : ∀ A : Fin N → Fin C → Fin F → Set ℝ, (∀ n c f, MeasurableSet (A n c f)) →
      ν {ω | ∀ n c f, ω n c f ∈ A n c f} = (Measure.pi μ) {ω | ∀ n c f, ω n c f ∈ A n c f} := by
    intro A hA
    have hm1 : ∀ n, MeasurableSet {ω : Pt C F | ∀ c f, ω c f ∈ A n c f} := by
      intro n
      have : {ω : Pt C F | ∀ c f, ω c f ∈ A n c f} = ⋂ c, ⋂ f, (fun ω : Pt C F => ω c f) ⁻¹' A n c f := by
        ext ω; simp
      rw [this]
      exact MeasurableSet.iInter fun c => MeasurableSet.iInter fun f =>
        ((measurable_pi_apply f).comp (measurable_pi_apply c)) (hA n c f)
    have hm : MeasurableSet {ω : Fin N → Pt C F | ∀ n c f, ω n c f ∈ A n c f} := by
      have : {ω : Fin N → Pt C F | ∀ n c f, ω n c f ∈ A n c f} =
          ⋂ n, (fun ω : Fin N → Pt C F => ω n) ⁻¹' {ω : Pt C F | ∀ c f, ω c f ∈ A n c f} := by
        ext ω; simp
      rw [this]
      exact MeasurableSet.iInter fun n => (measurable_pi_apply n) (hm1 n)
    let t : Nat → Nat → Nat → ℝ → ℝ≥0∞ := fun n c f x =>
      if hh : n < N ∧ c < C ∧ f < F then (A ⟨n, hh.1⟩ ⟨c, hh.2.1⟩ ⟨f, hh.2.2⟩).indicator 1 x else 1
    have ht : ∀ n c f, Measurable (t n c f) := by
      intro n c f
      by_cases hh : n < N ∧ c < C ∧ f < F
      · simp only [t, hh, and_self, dite_true]
        exact measurable_one.indicator (hA _ _ _)
      · simp only [t, hh, dite_false]; exact measurable_const
    have ht' : ∀ (n : Fin N) (c : Fin C) (f : Fin F) (y : ℝ), t n c f y = (A n c f).indicator 1 y := by
      intro n c f y
      simp [t]
    have h1 := h t ht fun n c f y => by
      by_cases hh : n < N ∧ c < C ∧ f < F
      · simp only [t, hh, and_self, dite_true]
        exact Set.indicator_le_self' (fun _ _ => zero_le) y
      · simp only [t, hh, dite_false]; exact le_rfl
    simp only [ht'] at h1
    have h2 := hν (Set.indicator {ω : Fin N → Pt C F | ∀ n c f, ω n c f ∈ A n c f} 1) (measurable_one.indicator hm)
    rw [lintegral_indicator_one hm] at h2
    rw [← h2]
    have e1 : ∀ s, Set.indicator {ω : Fin N → Pt C F | ∀ n c f, ω n c f ∈ A n c f} (1 : (Fin N → Pt C F) → ℝ≥0∞) (v s) =
        ∏ n : Fin N, ∏ f : Fin F, ∏ c : Fin C, (A n c f).indicator (1 : ℝ → ℝ≥0∞) (v s n c f) := fun s =>
      (prod_indicator A (v s)).symm
    simp only [e1]
    rw [h1]
    have e2 : {ω : Fin N → Pt C F | ∀ n c f, ω n c f ∈ A n c f} =
        Set.univ.pi fun n => {ω : Pt C F | ∀ c f, ω c f ∈ A n c f} := by
      ext ω; simp [Set.mem_pi]
    rw [e2, Measure.pi_pi]
    refine Finset.prod_congr rfl fun n _ => ?_
    rw [← lintegral_indicator_one (hm1 n)]
    refine lintegral_congr fun ω => ?_
    have := prod_indicator (N := 1) (fun _ => A n) (fun _ => ω)
    simp only [Finset.univ_unique, Finset.prod_singleton] at this
    rw [this]
    simp [Set.indicator_apply]
  have hfin : IsFiniteMeasure ν := by
    refine ⟨?_⟩
    have := key (fun _ _ _ => Set.univ) fun _ _ _ => MeasurableSet.univ
    have e : {ω : Fin N → Pt C F | ∀ n c f, ω n c f ∈ (Set.univ : Set ℝ)} = Set.univ := by simp
    rw [e] at this
    rw [this]
    exact measure_lt_top _ _
  rw [hν φ hφ, ext_boxes key]

/-- a law known on products of functions of single entries. -/
theorem law_of_prod {N C F : Nat} {x : Rand (Tensor Fl)} (hl : x.HasLaw (Tensor.vals N C F))
    {μ : Fin N → Measure (Pt C F)} [∀ n, IsFiniteMeasure (μ n)]
    (h : ∀ t : Nat → Nat → Nat → ℝ → ℝ≥0∞, (∀ n c f, Measurable (t n c f)) → (∀ n c f y, t n c f y ≤ 1) →
      x.E (fun s => prod3 N C F fun n c f => t n c f (s.get [n, c, f]).val) =
        ∏ n : Fin N, ∫⁻ ω, ∏ f : Fin F, ∏ c : Fin C, t n c f (ω c f) ∂μ n)
    {φ : (Fin N → Pt C F) → ℝ≥0∞} (hφ : Measurable φ) :
    x.E (fun s => φ (Tensor.vals N C F s)) = ∫⁻ ω, φ ω ∂Measure.pi μ := by
  refine law_of_prod' hl (fun t ht h1 => ?_) hφ
  rw [← h t ht h1]
  simp only [prod3_fin]
  rfl

namespace Model

/-- the values drawn have a law. -/
theorem sampleValues_hasLaw {M : Model} {g : Nat → Nat → Nat} (h : M.Samplable g) {a : SampleArgs} (hN : 0 < a.count)
    (hT : a.temperature_sums ≠ 0) (hL : 0 < a.temperature_leaves)
    (hc : M.ClassOK a.count a.class_index) {cond : Bool} {cs : Caches} {e : Nat → Row}
    (hev : M.EvM cond a.count cs e) (he : M.FinRows a.count e) :
    (M.sampleValues a cs).HasLaw fun s => (fun n c f => s.get [(n : Nat), (c : Nat), (f : Nat)] :
      Fin a.count → Pt M.num_channels M.num_features) := by
  rw [sampleValues_eq]
  refine Rand.HasLaw.bind (disc_corePath M a cs) (corePath_All h.wf hN hT hc hev he) fun ctx ⟨idx, rr, hctx, hce⟩ => ?_
  obtain ⟨res, h1, h2⟩ := leaf_sample_eq h.wf.front h.features_pos h.samp.samplable hN hctx
  rw [h1]
  have hTl : ctx.temperature_leaves = a.temperature_leaves := by rw [hce]; rfl
  have hd : (M.leaf.base.draws ctx).HasLaw fun v => v := by
    unfold BaseLeaf.draws
    split_ifs
    · exact Rand.HasLaw.pure _ _
    · have : ∀ j : List Nat, SFinite (M.leaf.base.law ctx.temperature_leaves (at' 1 j) (at' 2 j) (at' 3 j) (at' 4 j)) := by
        intro j
        have := h.samp.prob ctx.temperature_leaves (by rw [hTl]; exact hL) (at' 1 j) (at' 2 j) (at' 3 j) (at' 4 j)
        infer_instance
      exact Rand.HasLaw.drawAll _ _ _
  have hm : Measurable fun (v : List Nat → ℝ) => (fun n c f => v [(n : Nat), (c : Nat), (f : Nat),
      idx n (M.grpS g (rr n) f), rr n] : Fin a.count → Pt M.num_channels M.num_features) :=
    measurable_pi_iff.2 fun n => measurable_pi_iff.2 fun c => measurable_pi_iff.2 fun f => measurable_pi_apply _
  obtain ⟨ν, hν⟩ := hd.map hm
  refine ⟨ν, fun φ hφ => ?_⟩
  rw [← hν φ hφ, Rand.E_bind]
  congr 1
  funext v
  obtain ⟨s, hs, hs'⟩ := h2 v
  rw [hs]
  show φ _ = φ _
  congr 1
  funext n c f
  exact hs'.get n.2 c.2 f.2

theorem density_aemeasurable {M : Model} {g : Nat → Nat → Nat} (h : M.WF g) (hp : M.leaf.base.Proper) {X : Data}
    (hX : M.leaf.base.Observed X) {k : Nat} (hk : k < M.num_classes) :
    AEMeasurable (fun ω : Pt M.num_channels M.num_features => M.density none k (Pt.data ω))
      (missing M.num_channels M.num_features M.leaf.base.ref X) := by
  have := density_measurable_test h hp hX hk (t := fun _ _ _ => 1) fun _ _ => measurable_const
  simpa using this

/-- `p(x | y = k)` with the entries of `X` given: density relative to the measure on the missing entries. -/
def condLaw (M : Model) (k : Nat) (X : Data) : Measure (Pt M.num_channels M.num_features) :=
  (M.density none k X)⁻¹ • (missing M.num_channels M.num_features M.leaf.base.ref X).withDensity
    fun ω => M.density none k (Pt.data ω)

theorem density_pos {M : Model} {g : Nat → Nat → Nat} (h : M.WF g) (hp : M.leaf.base.Proper) {X : Data}
    (hX : M.leaf.base.Observed X) {k : Nat} (hk : k < M.num_classes) :
    M.density none k X ≠ 0 ∧ M.density none k X ≠ ⊤ := by
  have hf := h.front
  rw [density_eq h hp hX (ms := none) rfl hk]
  have := (Model.outRow_den h (sc := none) (X := X) (b := true) (fun _ => rfl) (fun c hc f hf' i hi r hr =>
    (Model.entry_none hp (by rw [hf.channels]; exact hc) (by rw [hf.features]; exact hf')
      (by rw [hf.leaves]; exact hi) (by rw [hf.reps]; exact hr) hX).1) hk).1
  exact ⟨toP_ne_zero this, toP_ne_top this⟩

theorem condLaw_prob {M : Model} {g : Nat → Nat → Nat} (h : M.WF g) (hp : M.leaf.base.Proper) {X : Data}
    (hX : M.leaf.base.Observed X) {k : Nat} (hk : k < M.num_classes) : IsProbabilityMeasure (M.condLaw k X) := by
  refine ⟨?_⟩
  unfold condLaw
  rw [Measure.smul_apply, withDensity_apply _ MeasurableSet.univ, Measure.restrict_univ, ← density_missing h hp hX hk,
    smul_eq_mul]
  exact ENNReal.inv_mul_cancel (density_pos h hp hX hk).1 (density_pos h hp hX hk).2

theorem lintegral_condLaw {M : Model} {g : Nat → Nat → Nat} (h : M.WF g) (hp : M.leaf.base.Proper) {X : Data}
    (hX : M.leaf.base.Observed X) {k : Nat} (hk : k < M.num_classes)
    {u : Pt M.num_channels M.num_features → ℝ≥0∞} (hu : Measurable u) :
    ∫⁻ ω, u ω ∂M.condLaw k X = (∫⁻ ω, u ω * M.density none k (Pt.data ω)
      ∂(missing M.num_channels M.num_features M.leaf.base.ref X)) / M.density none k X := by
  unfold condLaw
  rw [lintegral_smul_measure, smul_eq_mul,
    lintegral_withDensity_eq_lintegral_mul₀ (density_aemeasurable h hp hX hk) hu.aemeasurable, div_eq_mul_inv, mul_comm]
  simp only [Pi.mul_apply, mul_comm]

/-- the row laws of all classes, mixed with the class weights used by the sampler. -/
def mixLaw (M : Model) (ci : Option ClassIndex) (n : Nat) (X : Data) : Measure (Pt M.num_channels M.num_features) :=
  ∑ k ∈ Finset.range M.num_classes, M.classW 1 ci n k • M.condLaw k X

theorem mixLaw_prob {M : Model} {g : Nat → Nat → Nat} (h : M.WF g) (hp : M.leaf.base.Proper) {X : Data}
    (hX : M.leaf.base.Observed X) {ci : Option ClassIndex} {N n : Nat} (hc : M.ClassOK N ci) (hn : n < N) :
    IsProbabilityMeasure (M.mixLaw ci n X) := by
  refine ⟨?_⟩
  unfold mixLaw
  rw [Measure.finsetSum_apply]
  rw [← classW_sum h one_ne_zero hc hn]
  refine Finset.sum_congr rfl fun k hk => ?_
  have := condLaw_prob h hp hX (k := k) (by simpa using hk)
  rw [Measure.smul_apply, measure_univ, smul_eq_mul, mul_one]

theorem measurable_prod {C F : Nat} {t : Nat → Nat → ℝ → ℝ≥0∞} (ht : ∀ c f, Measurable (t c f)) :
    Measurable fun ω : Pt C F => ∏ f : Fin F, ∏ c : Fin C, t c f (ω c f) :=
  Finset.measurable_fun_prod _ fun f _ => Finset.measurable_fun_prod _ fun c _ =>
    (ht c f).comp ((measurable_pi_apply f).comp (measurable_pi_apply c))

theorem observed_nan (B : BaseLeaf) : B.Observed fun _ _ => .nan := fun _ _ _ _ => Or.inl rfl

/-- **Law of `sample` without evidence at temperature 1** for all measurable functions of the result. -/
theorem sample_measure {M : Model} {g : Nat → Nat → Nat} (h : M.Samplable g) (hp : M.leaf.base.Proper)
    (hmir : M.Mirrored g) {a : SampleArgs} (hev : a.evidence = none) (hN : 0 < a.count) (hm : a.is_mpe = false)
    (hml : a.mpe_at_leaves = false) (hT : a.temperature_sums = 1) (hL : a.temperature_leaves = 1)
    (hc : M.ClassOK a.count a.class_index) {φ : (Fin a.count → Pt M.num_channels M.num_features) → ℝ≥0∞}
    (hφ : Measurable φ) :
    (M.sample a).E (fun s => φ (s.vals a.count M.num_channels M.num_features)) =
      ∫⁻ ω, φ ω ∂Measure.pi fun n : Fin a.count => M.mixLaw a.class_index n fun _ _ => .nan := by
  have hT0 : a.temperature_sums ≠ 0 := by rw [hT]; exact one_ne_zero
  have := fun n : Fin a.count => mixLaw_prob h.wf hp (observed_nan _) hc n.2
  refine law_of_prod ?_ (fun t ht _ => ?_) hφ
  · have h2 : M.evidenceCaches a = .ok ⟨[], none⟩ := by unfold evidenceCaches; rw [hev]
    rw [sample_eq M a (check_ok hc (by simp [hev])) h2]
    obtain ⟨ν, hν⟩ := sampleValues_hasLaw h hN hT0 (by rw [hL]; exact one_pos) hc (evM_none M a.count) (finZero M _)
    refine ⟨ν, fun φ hφ => ?_⟩
    rw [← hν φ hφ, Rand.E_bind]
    congr 1
    funext s
    unfold finish
    rw [hev]
    rfl
  · have := sample_law h hp hmir hev hN hm hml hT hL hc (t := fun n c f x => t n c f x.val) ht
    refine this.trans ?_
    rw [Finset.prod_range]
    refine Finset.prod_congr rfl fun n _ => ?_
    have hmeas : (missing M.num_channels M.num_features M.leaf.base.ref fun _ _ => .nan) =
        Measure.pi fun _ : Fin M.num_channels => Measure.pi fun f : Fin M.num_features => M.leaf.base.ref f := by
      unfold missing; simp
    have hmt : Measurable fun ω : Pt M.num_channels M.num_features =>
        ∏ f : Fin M.num_features, ∏ c : Fin M.num_channels, t n c f (ω c f) := measurable_prod (ht n)
    unfold mixLaw
    rw [lintegral_finsetSum_measure, ← hmeas]
    unfold mixDensity
    simp only [Finset.mul_sum]
    have hae : ∀ k ∈ Finset.range M.num_classes, AEMeasurable (fun ω : Pt M.num_channels M.num_features =>
        (∏ f : Fin M.num_features, ∏ c : Fin M.num_channels, t n c f (ω c f)) * M.density none k (Pt.data ω))
        (missing M.num_channels M.num_features M.leaf.base.ref fun _ _ => .nan) := fun k hk =>
      density_measurable_test h.wf hp (observed_nan _) (by simpa using hk) (ht n)
    simp only [mul_left_comm _ (M.classW 1 a.class_index n _), Fl.val]
    rw [lintegral_finsetSum' _ fun k hk => (hae k hk).const_mul _]
    refine Finset.sum_congr rfl fun k hk => ?_
    have hk' : k < M.num_classes := by simpa using hk
    rw [lintegral_const_mul'' _ (hae k hk), lintegral_smul_measure, smul_eq_mul,
      lintegral_condLaw h.wf hp (observed_nan _) hk' hmt]
    have h1 : M.density none k (fun _ _ => .nan) = 1 := by
      rw [density_missing h.wf hp (observed_nan _) hk', hmeas]
      exact density_integral h.wf hp hk'
    rw [h1, div_one]

/-- the law of `sample` given evidence as a measure, from caches that hold the evidence. -/
theorem sampleValues_evidence_measure {M : Model} {g : Nat → Nat → Nat} (h : M.Samplable g) (hp : M.leaf.base.Proper)
    (hmir : M.Mirrored g) {a : SampleArgs} {x : Tensor Fl} {X : Nat → Data} (hev : a.evidence = some x)
    (hN : 0 < a.count) (hx : x.Is3 a.count M.num_channels M.num_features X)
    (hci : a.class_index = none) (hm : a.is_mpe = false) (hml : a.mpe_at_leaves = false)
    (hT : a.temperature_sums = 1) (hL : a.temperature_leaves = 1) {sc : Option (List Nat)}
    (hs : Scopes.resolveOpt M.num_features a.marginalized_scopes = .ok sc)
    (hX : ∀ n, n < a.count → EvidenceOK M.leaf.base sc (X n)) {cs : Caches}
    (hevm : M.EvM true a.count cs fun n => M.frontRow sc (X n))
    {φ : (Fin a.count → Pt M.num_channels M.num_features) → ℝ≥0∞} (hφ : Measurable φ) :
    ((M.sampleValues a cs).bind fun s => Rand.lift (finish a s)).E (fun s => φ (s.vals a.count M.num_channels M.num_features)) =
      ∫⁻ ω, φ ω ∂Measure.pi fun n : Fin a.count => M.mixLaw none n (masked sc (X n)) := by
  have hT0 : a.temperature_sums ≠ 0 := by rw [hT]; exact one_ne_zero
  have := fun n : Fin a.count => mixLaw_prob h.wf hp (hX n n.2).masked (ci := none) (N := a.count) trivial n.2
  refine law_of_prod ?_ (fun t ht _ => ?_) hφ
  · have hfin := evidence_finRows h.wf hp hX
    have hcok : M.ClassOK a.count a.class_index := by rw [hci]; trivial
    have hm : Measurable fun (ω : Fin a.count → Pt M.num_channels M.num_features) =>
        (fun n c f => if holeAt sc (X n) c f then ω n c f else (X n c f).val :
          Fin a.count → Pt M.num_channels M.num_features) := by
      refine measurable_pi_iff.2 fun n => measurable_pi_iff.2 fun c => measurable_pi_iff.2 fun f => ?_
      split_ifs
      · exact (measurable_pi_apply f).comp ((measurable_pi_apply c).comp (measurable_pi_apply n))
      · exact measurable_const
    obtain ⟨ν, hν⟩ := (sampleValues_hasLaw h hN hT0 (by rw [hL]; exact one_pos) hcok hevm hfin).map hm
    refine ⟨ν, fun φ hφ => ?_⟩
    rw [← hν φ hφ, Rand.E_bind]
    refine Rand.E_congr (sampleValues_All h hN hT0 hcok hevm hfin) fun s hsh => ?_
    have hs3 : s.Is3 a.count M.num_channels M.num_features fun n c f => s.get [n, c, f] :=
      Is.is3 (Is.refl s hsh) fun _ _ _ _ _ _ => rfl
    obtain ⟨r, hr, hr'⟩ := fill_is hx hs3 hs
    unfold finish
    rw [hev]
    dsimp only
    rw [hr]
    show φ _ = φ _
    congr 1
    funext n c f
    unfold Tensor.vals
    rw [hr'.get n.2 c.2 f.2]
    split_ifs <;> rfl
  · have := sampleValues_evidence_law h hp hmir hev hN hx hci hm hml hT hL hs hX hevm (t := fun n c f x => t n c f x.val) ht
    refine this.trans ?_
    rw [Finset.prod_range]
    refine Finset.prod_congr rfl fun n _ => ?_
    have hmt : Measurable fun ω : Pt M.num_channels M.num_features =>
        ∏ f : Fin M.num_features, ∏ c : Fin M.num_channels, t n c f (ω c f) := measurable_prod (ht n)
    unfold mixLaw
    rw [lintegral_finsetSum_measure]
    refine Finset.sum_congr rfl fun k hk => ?_
    rw [lintegral_smul_measure, smul_eq_mul, lintegral_condLaw h.wf hp (hX n n.2).masked (by simpa using hk) hmt]
    rfl

/-- **Law of `sample` given evidence at temperature 1** for all measurable functions of the result. -/
theorem sample_evidence_measure {M : Model} {g : Nat → Nat → Nat} (h : M.Samplable g) (hp : M.leaf.base.Proper)
    (hmir : M.Mirrored g) {a : SampleArgs} {x : Tensor Fl} {X : Nat → Data} (hev : a.evidence = some x)
    (hN : 0 < a.count) (hx : x.Is3 a.count M.num_channels M.num_features X) (hns : a.num_samples = none)
    (hci : a.class_index = none) (hm : a.is_mpe = false) (hml : a.mpe_at_leaves = false)
    (hT : a.temperature_sums = 1) (hL : a.temperature_leaves = 1) {sc : Option (List Nat)}
    (hs : Scopes.resolveOpt M.num_features a.marginalized_scopes = .ok sc)
    (hX : ∀ n, n < a.count → EvidenceOK M.leaf.base sc (X n))
    {φ : (Fin a.count → Pt M.num_channels M.num_features) → ℝ≥0∞} (hφ : Measurable φ) :
    (M.sample a).E (fun s => φ (s.vals a.count M.num_channels M.num_features)) =
      ∫⁻ ω, φ ω ∂Measure.pi fun n : Fin a.count => M.mixLaw none n (masked sc (X n)) := by
  obtain ⟨cs, hcs, hevm, -⟩ := evidence_caches h.wf hp hev hx hs hX
  rw [sample_eq M a (check_ok (by rw [hci]; trivial) fun _ => ⟨hci, hns⟩) hcs]
  exact sampleValues_evidence_measure h hp hmir hev hN hx hci hm hml hT hL hs hX hevm hφ

end Model
end Einet
