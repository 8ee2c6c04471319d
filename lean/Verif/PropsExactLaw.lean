import Verif.PropsMax

/-!
# C13, C14, C16, C17, C41: the law of `sample` for every configuration and every temperature

The theorems of PropsSample.lean identify the law of `sample` with the density of the forward pass, which is only right for the
configurations in `MirrorCfg`.  Here the law is given for all configurations: as a mixture over the choice of a class, a repetition and a
leaf component for each region.  The forward pass and the sampler group the features into regions in their own ways, `G` and `H`.
-/

open Classical MeasureTheory
open scoped ENNReal
noncomputable section
namespace Einet
namespace Props
open Tensor Einet

/-! ### Specification -/

/-- one leaf component for each region. -/
abbrev Choice (M : Model) := Fin M.numOut → Fin M.num_leaves

/-- component chosen for region `o`. -/
def Choice.of {M : Model} (κ : Choice M) (o : Nat) : Nat := if h : o < M.numOut then κ ⟨o, h⟩ else 0

/-- probability of repetition `r` for class `k` at temperature `T`: the weight in the mixing layer. -/
def repShare (M : Model) (T : ℝ) (k r : Nat) : ℝ≥0∞ :=
  if 1 < M.num_repetitions then toP (M.mixing.lwMix T 0 k r) else if r = 0 then 1 else 0

/-- probability of the components `κ` for class `k` and repetition `r` at temperature `T`: the value of the layers for inputs that are
one for the chosen components and zero for all others. -/
def choiceShare (M : Model) (T : ℝ) (k r : Nat) (κ : Choice M) : ℝ≥0∞ :=
  denL T M.layers (fun o i _ => if κ.of o = i then 1 else 0) 0 k r

/-- probability of class `k` for row `n` at temperature `T`: given by `class_index`, else the softmax of the logits of the class
sampling root divided by the temperature. -/
def classShare (P : Params) (K : Nat) (T : ℝ) (ci : Option ClassIndex) (n k : Nat) : ℝ≥0∞ :=
  if 1 < K then
    match ci with
    | some (.int c) => if k = c then 1 else 0
    | some (.list l) => if k = l.getD n 0 then 1 else 0
    | none => ENNReal.ofReal (Real.exp (P.classLogits [0, k, 0, 0] / T) /
        ∑ j ∈ Finset.range K, Real.exp (P.classLogits [0, j, 0, 0] / T))
  else if k = 0 then 1 else 0

/-- law of the value of a component: its mode with `mpe_at_leaves`. -/
def componentLaw (M : Model) (mode : Bool) (T : ℝ) (c f i r : Nat) : Measure ℝ :=
  if mode then Measure.dirac (M.leaf.base.mode c f i r) else M.leaf.base.law T c f i r

/-- law of a row once repetition and components are chosen: the missing entries of `X` are independent draws from the components of
their regions, the other entries are those of `X`. -/
def rowOfChoice (M : Model) (H : Nat → Nat → Nat) (mode : Bool) (T : ℝ) (X : Data) (r : Nat) (κ : Choice M) :
    Measure (Fin M.num_channels → Fin M.num_features → ℝ) :=
  Measure.pi fun c : Fin M.num_channels => Measure.pi fun f : Fin M.num_features =>
    if X c f = .nan then componentLaw M mode T c f (κ.of (H r f)) r else Measure.dirac (X c f).val

/-- likelihood of the entries of `X` for the chosen components. -/
def choiceLikelihood (M : Model) (G : Nat → Nat → Nat) (X : Data) (r : Nat) (κ : Choice M) : ℝ≥0∞ :=
  ∏ o ∈ Finset.range M.numOut, regionVal M G X o (κ.of o) r

/-- mixture of the rows over repetitions and components, with weights `w`. -/
def mixedRows (M : Model) (H : Nat → Nat → Nat) (mode : Bool) (T : ℝ) (X : Data) (w : Nat → Choice M → ℝ≥0∞) :
    Measure (Fin M.num_channels → Fin M.num_features → ℝ) :=
  ∑ r ∈ Finset.range M.num_repetitions, ∑ κ : Choice M, w r κ • rowOfChoice M H mode T X r κ

/-! ### Lemmas -/

theorem Choice.of_fin {M : Model} (κ : Choice M) (o : Fin M.numOut) : κ.of o = κ o := by
  unfold Choice.of
  rw [dif_pos o.2]

theorem Choice.of_lt {M : Model} (κ : Choice M) {o : Nat} (ho : o < M.numOut) : κ.of o < M.num_leaves := by
  unfold Choice.of
  rw [dif_pos ho]
  exact (κ ⟨o, ho⟩).2

theorem denL_expand {M : Model} {g : Nat → Nat → Nat} (h : M.WF g) {T : ℝ} (hT : T ≠ 0) (u : PRow) {k r : Nat} (hk : k < M.num_classes)
    (hr : r < M.num_repetitions) :
    denL T M.layers u 0 k r = ∑ κ : Choice M, choiceShare M T k r κ * ∏ o ∈ Finset.range M.numOut, u o (κ.of o) r := by
  let ms : MeasurableSpace (Choice M) := ⊤
  let w : Choice M → ℝ≥0∞ := fun κ => ∏ o ∈ Finset.range M.numOut, u o (κ.of o) r
  let ν : Measure (Choice M) := ∑ κ : Choice M, w κ • Measure.dirac κ
  have hint : ∀ f : Choice M → ℝ≥0∞, ∫⁻ κ, f κ ∂ν = ∑ κ : Choice M, w κ * f κ := by
    intro f
    show ∫⁻ κ, f κ ∂(∑ κ : Choice M, w κ • Measure.dirac κ) = _
    rw [lintegral_finsetSum_measure]
    refine Finset.sum_congr rfl fun κ _ => ?_
    rw [lintegral_smul_measure, lintegral_dirac' _ (by exact measurable_from_top), smul_eq_mul]
  have := denL_lintegral (ν := ν) (u := fun κ : Choice M => fun o i _ => if κ.of o = i then 1 else 0) (v := u) h.chain hT hr hk
    (fun d k => measurable_from_top) (fun idx hidx => ?_)
  · rw [← this, hint]
    exact Finset.sum_congr rfl fun κ _ => mul_comm _ _
  · rw [hint, Finset.sum_eq_single (fun o : Fin M.numOut => (⟨idx o, hidx o o.2⟩ : Fin M.num_leaves))]
    · have e : ∀ o, o < M.numOut → Choice.of (M := M) (fun o : Fin M.numOut => (⟨idx o, hidx o o.2⟩ : Fin M.num_leaves)) o = idx o := by
        intro o ho
        unfold Choice.of
        rw [dif_pos ho]
      rw [Finset.prod_eq_one (fun o ho => by rw [if_pos (e o (by simpa using ho))]), mul_one]
      exact Finset.prod_congr rfl fun o ho => by rw [e o (by simpa using ho)]
    · intro κ _ hκ
      obtain ⟨o, ho⟩ : ∃ o : Fin M.numOut, κ o ≠ ⟨idx o, hidx o o.2⟩ := by
        by_contra hcon
        push Not at hcon
        exact hκ (funext hcon)
      have : (∏ d ∈ Finset.range M.numOut, if Choice.of (M := M) κ d = idx d then (1 : ℝ≥0∞) else 0) = 0 := by
        refine Finset.prod_eq_zero (Finset.mem_range.2 o.2) ?_
        rw [if_neg]
        rw [Choice.of_fin]
        exact fun e => ho (Fin.ext e)
      rw [this, mul_zero]
    · intro hn
      exact absurd (Finset.mem_univ _) hn

theorem topP_expand {M : Model} {g : Nat → Nat → Nat} (h : M.WF g) {T : ℝ} (hT : T ≠ 0) (u : PRow) {k : Nat} (hk : k < M.num_classes) :
    M.topP T u k = ∑ r ∈ Finset.range M.num_repetitions, ∑ κ : Choice M,
      repShare M T k r * choiceShare M T k r κ * ∏ o ∈ Finset.range M.numOut, u o (κ.of o) r := by
  unfold Model.topP repShare
  split_ifs with hR
  · refine Finset.sum_congr rfl fun r hr => ?_
    rw [denL_expand h hT u hk (by simpa using hr), Finset.mul_sum]
    exact Finset.sum_congr rfl fun κ _ => (mul_assoc _ _ _).symm
  · have : M.num_repetitions = 1 := by have := h.reps_pos; omega
    rw [this, Finset.sum_range_one, denL_expand h hT u hk h.reps_pos]
    simp only [if_true, one_mul]

theorem shares_sum {M : Model} {g : Nat → Nat → Nat} (h : M.WF g) {T : ℝ} (hT : T ≠ 0) {k : Nat} (hk : k < M.num_classes) :
    ∑ r ∈ Finset.range M.num_repetitions, ∑ κ : Choice M, repShare M T k r * choiceShare M T k r κ = 1 := by
  have := topP_expand h hT (fun _ _ _ => 1) hk
  simp only [Finset.prod_const_one, mul_one] at this
  rw [← this]
  unfold Model.topP
  split_ifs with hR
  · obtain ⟨h1, h2, h3, h4, h5⟩ := h.mix hR
    have hw := M.mixing.lwMix_fin (T := T) (D := 1) (by rw [h4]; simp [MixingLayer.weightShape, h1]) h5 (by omega)
      hT (d := 0) (by omega) (s := k) (by rw [h3]; exact hk)
    have hw2 := hw.2
    rw [h2] at hw2
    refine Eq.trans (Finset.sum_congr rfl fun r hr => ?_) hw2
    rw [denL_one h.chain hT (by simpa using hr) (fun _ _ _ _ => rfl) (by omega) hk, mul_one]
  · exact denL_one h.chain hT h.reps_pos (fun _ _ _ _ => rfl) (by omega) hk

theorem componentLaw_prob {M : Model} (h : M.leaf.base.Samp) {mode : Bool} {T : ℝ} (hT : 0 < T) (c f i r : Nat) :
    IsProbabilityMeasure (componentLaw M mode T c f i r) := by
  unfold componentLaw
  cases mode
  · exact h.prob T hT c f i r
  · exact Measure.dirac.isProbabilityMeasure

theorem componentLaw_lintegral (M : Model) (mode : Bool) (T : ℝ) (c f i r : Nat) {t : ℝ → ℝ≥0∞} (ht : Measurable t) :
    ∫⁻ x, t x ∂componentLaw M mode T c f i r = M.leaf.base.compE mode T c f i r t := by
  unfold componentLaw BaseLeaf.compE
  cases mode
  · rfl
  · simp only [if_true]
    exact lintegral_dirac' _ ht

/-- the law of one entry. -/
def entryOfChoice (M : Model) (H : Nat → Nat → Nat) (mode : Bool) (T : ℝ) (X : Data) (r : Nat) (κ : Choice M) (c f : Nat) : Measure ℝ :=
  if X c f = .nan then componentLaw M mode T c f (κ.of (H r f)) r else Measure.dirac (X c f).val

theorem entryOfChoice_prob {M : Model} (h : M.leaf.base.Samp) (H : Nat → Nat → Nat) {mode : Bool} {T : ℝ} (hT : 0 < T) (X : Data) (r : Nat)
    (κ : Choice M) (c f : Nat) : IsProbabilityMeasure (entryOfChoice M H mode T X r κ c f) := by
  unfold entryOfChoice
  split_ifs
  · exact componentLaw_prob h hT _ _ _ _
  · exact Measure.dirac.isProbabilityMeasure

theorem rowOfChoice_lintegral {M : Model} (h : M.leaf.base.Samp) (H : Nat → Nat → Nat) (mode : Bool) {T : ℝ} (hT : 0 < T) (X : Data)
    (r : Nat) (κ : Choice M) {t : Nat → Nat → ℝ → ℝ≥0∞} (ht : ∀ c f, Measurable (t c f)) :
    ∫⁻ ω, ∏ f : Fin M.num_features, ∏ c : Fin M.num_channels, t c f (ω c f) ∂rowOfChoice M H mode T X r κ =
      ∏ f ∈ Finset.range M.num_features, ∏ c ∈ Finset.range M.num_channels, ∫⁻ x, t c f x ∂entryOfChoice M H mode T X r κ c f := by
  have := fun c f => entryOfChoice_prob h H (mode := mode) hT X r κ c f
  show ∫⁻ ω, ∏ f : Fin M.num_features, ∏ c : Fin M.num_channels, t c f (ω c f) ∂(Measure.pi fun c : Fin M.num_channels =>
    Measure.pi fun f : Fin M.num_features => entryOfChoice M H mode T X r κ c f) = _
  simp only [Finset.prod_comm (s := (Finset.univ : Finset (Fin M.num_features)))]
  rw [lintegral_pi_prod (f := fun (c : Fin M.num_channels) (y : Fin M.num_features → ℝ) => ∏ f : Fin M.num_features, t c f (y f))
    (fun c => Finset.measurable_fun_prod _ fun f _ => (ht c f).comp (measurable_pi_apply f)), Finset.prod_comm,
    Finset.prod_range (fun c => ∏ f ∈ Finset.range M.num_features, ∫⁻ x, t c f x ∂entryOfChoice M H mode T X r κ c f)]
  refine Finset.prod_congr rfl fun c _ => ?_
  rw [lintegral_pi_prod (f := fun (f : Fin M.num_features) (x : ℝ) => t c f x) (fun f => ht c f),
    Finset.prod_range (fun f => ∫⁻ x, t c f x ∂entryOfChoice M H mode T X r κ c f)]

theorem rowOfChoice_prob {M : Model} (h : M.leaf.base.Samp) (H : Nat → Nat → Nat) (mode : Bool) {T : ℝ} (hT : 0 < T) (X : Data)
    (r : Nat) (κ : Choice M) : IsProbabilityMeasure (rowOfChoice M H mode T X r κ) := by
  have := fun c f => entryOfChoice_prob h H (mode := mode) hT X r κ c f
  show IsProbabilityMeasure (Measure.pi fun c : Fin M.num_channels => Measure.pi fun f : Fin M.num_features =>
    entryOfChoice M H mode T X r κ c f)
  infer_instance

theorem mixedRows_lintegral (M : Model) (H : Nat → Nat → Nat) (mode : Bool) (T : ℝ) (X : Data) (w : Nat → Choice M → ℝ≥0∞)
    (φ : (Fin M.num_channels → Fin M.num_features → ℝ) → ℝ≥0∞) :
    ∫⁻ ω, φ ω ∂mixedRows M H mode T X w = ∑ r ∈ Finset.range M.num_repetitions, ∑ κ : Choice M,
      w r κ * ∫⁻ ω, φ ω ∂rowOfChoice M H mode T X r κ := by
  unfold mixedRows
  rw [lintegral_finsetSum_measure]
  refine Finset.sum_congr rfl fun r _ => ?_
  rw [lintegral_finsetSum_measure]
  refine Finset.sum_congr rfl fun κ _ => ?_
  rw [lintegral_smul_measure, smul_eq_mul]

theorem mixedRows_univ {M : Model} (h : M.leaf.base.Samp) (H : Nat → Nat → Nat) (mode : Bool) {T : ℝ} (hT : 0 < T) (X : Data)
    (w : Nat → Choice M → ℝ≥0∞) :
    mixedRows M H mode T X w Set.univ = ∑ r ∈ Finset.range M.num_repetitions, ∑ κ : Choice M, w r κ := by
  have := mixedRows_lintegral M H mode T X w fun _ => 1
  rw [lintegral_one] at this
  rw [this]
  refine Finset.sum_congr rfl fun r _ => Finset.sum_congr rfl fun κ _ => ?_
  have := rowOfChoice_prob h H mode hT X r κ
  rw [lintegral_one, measure_univ, mul_one]

/-- a mixture of the classes. -/
theorem classes_lintegral {Ω : Type} [MeasurableSpace Ω] (K : Nat) (w : Nat → ℝ≥0∞) (μ : Nat → Measure Ω) (φ : Ω → ℝ≥0∞) :
    ∫⁻ ω, φ ω ∂(∑ k ∈ Finset.range K, w k • μ k) = ∑ k ∈ Finset.range K, w k * ∫⁻ ω, φ ω ∂μ k := by
  rw [lintegral_finsetSum_measure]
  refine Finset.sum_congr rfl fun k _ => ?_
  rw [lintegral_smul_measure, smul_eq_mul]

theorem classShare_eq {c : Config} {P : Params} (hP : P.Random) {M : Model} (h : build c P = .ok M) {T : ℝ} (hT : T ≠ 0)
    (ci : Option ClassIndex) (n : Nat) {k : Nat} (hk : k < M.num_classes) :
    M.classW T ci n k = classShare P M.num_classes T ci n k := by
  have hz := (build_WF hP h).1.classes
  unfold Model.classW classShare
  by_cases hK : 1 < M.num_classes
  · rw [if_pos hK, if_pos hK]
    cases ci with
    | some ci => cases ci <;> rfl
    | none =>
      dsimp only
      rw [build_classRoot h, ← hz]
      have e : (mkSumL 1 M.num_classes 1 1 SumLayer.weightShape P.classLogits).lw T 0 k 0 0 =
          .fin (Real.log (sw M.num_classes (fun k => P.classLogits [0, k, 0, 0]) T k)) :=
        logSoftmax_sw (f := fun k => .fin (P.classLogits [0, k, 0, 0])) hT (fun k _ => Fl.isFin_fin _) hk
      rw [e, toP_fin, Real.exp_log (sw_pos _ _ _ _)]
      unfold sw Fl.rlsm
      rw [Real.exp_sub, Real.exp_log (Finset.sum_pos (fun _ _ => Real.exp_pos _) ⟨0, by simp; omega⟩)]
  · rw [if_neg hK, if_neg hK]

theorem classShare_sum {c : Config} {P : Params} (hP : P.Random) {M : Model} (h : build c P = .ok M) {T : ℝ} (hT : T ≠ 0)
    {ci : Option ClassIndex} {N : Nat} (hc : ClassArg M N ci) {n : Nat} (hn : n < N) :
    ∑ k ∈ Finset.range M.num_classes, classShare P M.num_classes T ci n k = 1 := by
  rw [← Model.classW_sum (build_WF hP h).2.1 hT hc.ok hn]
  exact Finset.sum_congr rfl fun k hk => (classShare_eq hP h hT ci n (by simpa using hk)).symm

/-- the integral over a row of a choice, as the product over the regions. -/
theorem rowOfChoice_regions {M : Model} {g : Nat → Nat → Nat} (h : M.Samplable g) (mode : Bool) {T : ℝ} (hT : 0 < T) (X : Data)
    {r : Nat} (hr : r < M.num_repetitions) (κ : Choice M) {t : Nat → Nat → ℝ → ℝ≥0∞} (ht : ∀ c f, Measurable (t c f)) :
    ∏ o ∈ Finset.range M.numOut, M.regionS g (fun c f i r => M.leaf.base.compE mode T c f i r fun y =>
        if X c f = .nan then t c f y else t c f (X c f).val) o (κ.of o) r =
      ∫⁻ ω, ∏ f : Fin M.num_features, ∏ c : Fin M.num_channels, t c f (ω c f) ∂rowOfChoice M (M.grpS g) mode T X r κ := by
  rw [Model.prod_regionS h.wf.front hr _ fun o => κ.of o, rowOfChoice_lintegral h.samp (M.grpS g) mode hT X r κ ht]
  refine Finset.prod_congr rfl fun f _ => Finset.prod_congr rfl fun c _ => ?_
  unfold entryOfChoice
  by_cases hX : X c f = .nan
  · simp only [hX, if_true]
    exact (componentLaw_lintegral M mode T c f _ r (ht c f)).symm
  · simp only [hX, if_false]
    rw [lintegral_dirac' _ (ht c f), ← componentLaw_lintegral M mode T c f _ r measurable_const]
    have := componentLaw_prob h.samp (mode := mode) hT c f (κ.of (M.grpS g r f)) r
    rw [lintegral_const, measure_univ, mul_one]

/-- weights of the choices given `X`. -/
theorem topP_choices {M : Model} {g : Nat → Nat → Nat} (h : M.Samplable g) (G : Nat → Nat → Nat) (mode : Bool) {T : ℝ} (hT : 0 < T)
    {TS : ℝ} (hTS : TS ≠ 0) (X : Data) {t : Nat → Nat → ℝ → ℝ≥0∞} (ht : ∀ c f, Measurable (t c f)) {k : Nat} (hk : k < M.num_classes) :
    M.topP TS (fun o i r => M.regionS g (fun c f i r => M.leaf.base.compE mode T c f i r fun y =>
        if X c f = .nan then t c f y else t c f (X c f).val) o i r * regionVal M G X o i r) k =
      ∫⁻ ω, ∏ f : Fin M.num_features, ∏ c : Fin M.num_channels, t c f (ω c f) ∂mixedRows M (M.grpS g) mode T X fun r κ =>
        repShare M TS k r * choiceShare M TS k r κ * choiceLikelihood M G X r κ := by
  rw [topP_expand h.wf hTS _ hk, mixedRows_lintegral]
  refine Finset.sum_congr rfl fun r hr => Finset.sum_congr rfl fun κ _ => ?_
  rw [Finset.prod_mul_distrib, rowOfChoice_regions h mode hT X (by simpa using hr) κ ht]
  unfold choiceLikelihood
  ring

/-- the law of a row without evidence. -/
def freeRow (M : Model) (P : Params) (H : Nat → Nat → Nat) (ci : Option ClassIndex) (TS TL : ℝ) (mode : Bool) (n : Nat) :
    Measure (Fin M.num_channels → Fin M.num_features → ℝ) :=
  ∑ k ∈ Finset.range M.num_classes, classShare P M.num_classes TS ci n k •
    mixedRows M H mode TL (fun _ _ => .nan) fun r κ => repShare M TS k r * choiceShare M TS k r κ

/-- probability of a repetition and of the components given the known entries `X`: Bayes' rule. -/
def posteriorShare (M : Model) (G : Nat → Nat → Nat) (X : Data) (k r : Nat) (κ : Choice M) : ℝ≥0∞ :=
  repShare M 1 k r * choiceShare M 1 k r κ * choiceLikelihood M G X r κ /
    ∑ r' ∈ Finset.range M.num_repetitions, ∑ κ' : Choice M,
      repShare M 1 k r' * choiceShare M 1 k r' κ' * choiceLikelihood M G X r' κ'

/-- the law of a row given the known entries `X`. -/
def givenRow (M : Model) (P : Params) (G H : Nat → Nat → Nat) (TL : ℝ) (mode : Bool) (X : Data) :
    Measure (Fin M.num_channels → Fin M.num_features → ℝ) :=
  ∑ k ∈ Finset.range M.num_classes, classShare P M.num_classes 1 none 0 k • mixedRows M H mode TL X (posteriorShare M G X k)

theorem givenRow_congr {M : Model} {P : Params} {G H : Nat → Nat → Nat} {TL : ℝ} {mode : Bool} {X Y : Data}
    (e : ∀ d, d < M.num_channels → ∀ f, f < M.num_features → X d f = Y d f) : givenRow M P G H TL mode X = givenRow M P G H TL mode Y := by
  have e1 : ∀ r κ, rowOfChoice M H mode TL X r κ = rowOfChoice M H mode TL Y r κ := by
    intro r κ
    unfold rowOfChoice
    congr 1
    funext d
    congr 1
    funext f
    rw [e d d.2 f f.2]
  have e2 : ∀ r κ, choiceLikelihood M G X r κ = choiceLikelihood M G Y r κ := by
    intro r κ
    unfold choiceLikelihood regionVal
    refine Finset.prod_congr rfl fun o _ => Finset.prod_congr rfl fun f hf => ?_
    congr 1
    refine Finset.prod_congr rfl fun d hd => ?_
    rw [e d (Finset.mem_range.1 hd) f (by simpa using hf)]
  unfold givenRow mixedRows posteriorShare
  simp only [e1, e2]

/-- `freeRow` with the weights of the class root as they are in the model. -/
def _root_.Einet.Model.freeMix (M : Model) (H : Nat → Nat → Nat) (ci : Option ClassIndex) (TS TL : ℝ) (mode : Bool) (n : Nat) :
    Measure (Fin M.num_channels → Fin M.num_features → ℝ) :=
  ∑ k ∈ Finset.range M.num_classes, M.classW TS ci n k •
    mixedRows M H mode TL (fun _ _ => .nan) fun r κ => repShare M TS k r * choiceShare M TS k r κ

/-- the law of the values drawn without evidence. -/
theorem _root_.Einet.Model.free_measure {M : Model} {g : Nat → Nat → Nat} (hsam : M.Samplable g) {a : SampleArgs} (hN : 0 < a.count)
    (hm : a.is_mpe = false) (hTS : a.temperature_sums ≠ 0) (hTL : 0 < a.temperature_leaves)
    (hc : M.ClassOK a.count a.class_index)
    (hprob : ∀ n : Fin a.count, IsProbabilityMeasure (M.freeMix (M.grpS g) a.class_index a.temperature_sums a.temperature_leaves
      a.mpe_at_leaves n))
    {φ : (Fin a.count → Fin M.num_channels → Fin M.num_features → ℝ) → ℝ≥0∞} (hφ : Measurable φ) :
    (M.sampleValues a ⟨[], none⟩).E (fun s => φ fun n c f => s.get [n, c, f]) =
      ∫⁻ ω, φ ω ∂Measure.pi fun n : Fin a.count =>
        M.freeMix (M.grpS g) a.class_index a.temperature_sums a.temperature_leaves a.mpe_at_leaves n := by
  refine law_of_prod' (Model.sampleValues_hasLaw hsam hN hTS hTL hc (Model.evM_none M a.count) (Model.finZero M _)) (fun t ht _ => ?_) hφ
  have := Model.sampleValues_E hsam hN hm hTS hTL hc (Model.evM_none M a.count) (Model.finZero M _) ht
  simp only [prod3_fin] at this
  refine this.trans ?_
  rw [Finset.prod_range]
  refine Finset.prod_congr rfl fun n _ => ?_
  unfold Model.freeMix
  rw [classes_lintegral]
  refine Finset.sum_congr rfl fun k hk => ?_
  have hk' : k < M.num_classes := by simpa using hk
  congr 1
  rw [Model.pathVal_uncond hsam.wf hTS hk']
  have e := topP_choices hsam (fun _ _ => 0) a.mpe_at_leaves hTL hTS (fun _ _ => .nan) (ht n) hk'
  simp only [regionVal_nan, choiceLikelihood, Finset.prod_const_one, mul_one, if_true] at e
  exact e

theorem freeRow_prob {c : Config} {P : Params} (hP : P.Random) (hg : P.leaf.Good) (hs : P.leaf.CanSample) {M : Model}
    (h : build c P = .ok M) (H : Nat → Nat → Nat) {N : Nat} {ci : Option ClassIndex} (hc : ClassArg M N ci) {TS TL : ℝ} (hTS : TS ≠ 0)
    (hTL : 0 < TL) (mode : Bool) {n : Nat} (hn : n < N) : IsProbabilityMeasure (freeRow M P H ci TS TL mode n) := by
  have hsam := build_samplable hP hg hs h
  constructor
  rw [← lintegral_one]
  unfold freeRow
  rw [classes_lintegral]
  refine Eq.trans ?_ (classShare_sum hP h hTS hc hn)
  refine Finset.sum_congr rfl fun k hk => ?_
  rw [lintegral_one, mixedRows_univ hsam.samp H mode hTL, shares_sum hsam.wf hTS (by simpa using hk), mul_one]

/-- **C13**, **C16**, **C17**, **C41**: the law of `sample` without evidence, for every configuration, class argument, temperature
and `mpe_at_leaves`.  The rows are independent; for each a class, a repetition and a component for every region are chosen with the
weights of the model at `temperature_sums`, and every entry is drawn from the component of its region at `temperature_leaves`. -/
theorem C13_exact_law (c : Config) (P : Params) (hP : P.Random) (hg : P.leaf.Good) (hs : P.leaf.CanSample)
    (M : Model) (h : build c P = .ok M) :
    ∃ H : Nat → Nat → Nat, SampledIn M M.numOut H ∧
      (∀ r, r < M.num_repetitions → ∀ f, f < M.num_features → H r f < M.numOut) ∧
      ∀ (N : Nat) (ci : Option ClassIndex) (TS TL : ℝ) (mode : Bool), 0 < N → ClassArg M N ci → TS ≠ 0 → 0 < TL →
        (∀ n, n < N → IsProbabilityMeasure (freeRow M P H ci TS TL mode n)) ∧
        ∀ φ : (Fin N → Fin M.num_channels → Fin M.num_features → ℝ) → ℝ≥0∞, Measurable φ →
          (M.sample { num_samples := some N, class_index := ci, mpe_at_leaves := mode, temperature_leaves := TL
                      temperature_sums := TS }).E (fun s => φ fun n c f => (s.get [n, c, f]).val) =
            ∫⁻ ω, φ ω ∂Measure.pi fun n : Fin N => freeRow M P H ci TS TL mode n := by
  have hsam := build_samplable hP hg hs h
  refine ⟨_, sampledIn hP hg hs h, fun r hr f hf => hsam.wf.front.grpS_lt hr hf, fun N ci TS TL mode hN hc hTS hTL => ?_⟩
  have hprob := fun n hn => freeRow_prob hP hg hs h (M.grpS (buildGroups c P)) hc hTS hTL mode (n := n) hn
  refine ⟨hprob, fun φ hφ => ?_⟩
  let a : SampleArgs := { num_samples := some N, class_index := ci, mpe_at_leaves := mode, temperature_leaves := TL
                          temperature_sums := TS }
  have hrow : ∀ n, freeRow M P (M.grpS (buildGroups c P)) ci TS TL mode n = M.freeMix (M.grpS (buildGroups c P)) ci TS TL mode n := by
    intro n
    unfold freeRow Model.freeMix
    exact Finset.sum_congr rfl fun k hk => by rw [classShare_eq hP h hTS ci n (by simpa using hk)]
  have := fun n : Fin N => hprob n n.2
  simp only [hrow] at this ⊢
  refine Eq.trans ?_ (Model.free_measure hsam (a := a) hN rfl hTS hTL hc.ok this hφ)
  rw [Model.sample_eq M a (Model.check_ok hc.ok (by simp [a])) (cs := ⟨[], none⟩) rfl, Rand.E_bind]
  rfl

theorem choices_total {M : Model} {g : Nat → Nat → Nat} (h : M.Samplable g) (hp : M.leaf.base.Proper) {sc : Option (List Nat)}
    {X : Data} (hX : EvidenceOK M.leaf.base sc X) {k : Nat} (hk : k < M.num_classes) :
    M.topP 1 (pRow (M.frontRow sc X)) k = ∑ r ∈ Finset.range M.num_repetitions, ∑ κ : Choice M,
      repShare M 1 k r * choiceShare M 1 k r κ * choiceLikelihood M (M.grpF g) (masked sc X) r κ := by
  rw [Model.topP_congr h.wf hk (fun o ho i hi r hr => frontRow_val h.wf hp hX ho hi hr), topP_expand h.wf one_ne_zero _ hk]
  rfl

theorem posteriorShare_sum {M : Model} {g : Nat → Nat → Nat} (h : M.Samplable g) (hp : M.leaf.base.Proper) {sc : Option (List Nat)}
    {X : Data} (hX : EvidenceOK M.leaf.base sc X) {k : Nat} (hk : k < M.num_classes) :
    ∑ r ∈ Finset.range M.num_repetitions, ∑ κ : Choice M, posteriorShare M (M.grpF g) (masked sc X) k r κ = 1 := by
  have hfin := Model.evidence_finRows h.wf hp (N := 1) (X := fun _ => X) fun _ _ => hX
  obtain ⟨h0, h1, -⟩ := Model.pathVal_cond h.wf (e := M.frontRow sc X) (hfin 0 one_pos) (u := fun _ _ _ => 1) hk
  rw [choices_total h hp hX hk] at h0 h1
  unfold posteriorShare
  simp only [div_eq_mul_inv, ← Finset.sum_mul]
  exact ENNReal.mul_inv_cancel h0 h1

theorem givenRow_prob {c : Config} {P : Params} (hP : P.Random) (hg : P.leaf.Good) (hs : P.leaf.CanSample) {M : Model}
    (h : build c P = .ok M) (H : Nat → Nat → Nat) {sc : Option (List Nat)} {X : Data} (hX : EvidenceOK M.leaf.base sc X) {TL : ℝ}
    (hTL : 0 < TL) (mode : Bool) :
    IsProbabilityMeasure (givenRow M P (M.grpF (buildGroups c P)) H TL mode (masked sc X)) := by
  have hsam := build_samplable hP hg hs h
  constructor
  rw [← lintegral_one]
  unfold givenRow
  rw [classes_lintegral]
  refine Eq.trans ?_ (classShare_sum hP h one_ne_zero (ci := none) (N := 1) trivial one_pos)
  refine Finset.sum_congr rfl fun k hk => ?_
  rw [lintegral_one, mixedRows_univ hsam.samp H mode hTL, posteriorShare_sum hsam ((build_WF hP h).2.2.1 hg) hX (by simpa using hk),
    mul_one]

/-- the factor of one row in the law given evidence. -/
theorem pathVal_given {M : Model} {g : Nat → Nat → Nat} (h : M.Samplable g) (hp : M.leaf.base.Proper) (mode : Bool) {TL : ℝ}
    (hTL : 0 < TL) {sc : Option (List Nat)} {X : Data} (hX : EvidenceOK M.leaf.base sc X) {t : Nat → Nat → ℝ → ℝ≥0∞}
    (ht : ∀ c f, Measurable (t c f)) {k : Nat} (hk : k < M.num_classes) :
    M.pathVal true 1 (M.frontRow sc X) (M.regionS g fun c f i r => M.leaf.base.compE mode TL c f i r fun y =>
        if holeAt sc X c f then t c f y else t c f (X c f).val) k =
      ∫⁻ ω, ∏ f : Fin M.num_features, ∏ c : Fin M.num_channels, t c f (ω c f) ∂mixedRows M (M.grpS g) mode TL (masked sc X)
        (posteriorShare M (M.grpF g) (masked sc X) k) := by
  have hfin := Model.evidence_finRows h.wf hp (N := 1) (X := fun _ => X) fun _ _ => hX
  rw [(Model.pathVal_cond h.wf (e := M.frontRow sc X) (hfin 0 one_pos) hk).2.2, choices_total h hp hX hk]
  have e := topP_choices h (M.grpF g) mode hTL one_ne_zero (masked sc X) ht hk
  rw [mixedRows_lintegral] at e ⊢
  unfold posteriorShare
  simp only [div_eq_mul_inv, mul_right_comm _ (_⁻¹) _, ← Finset.sum_mul]
  congr 1
  rw [← e]
  refine Model.topP_congr h.wf hk fun o ho i hi r hr => ?_
  rw [frontRow_val h.wf hp hX ho hi hr]
  congr 1
  unfold Model.regionS
  refine Finset.prod_congr rfl fun f hf => ?_
  split_ifs
  · refine Finset.prod_congr rfl fun c hc => ?_
    dsimp only
    congr 1
    funext y
    have hc' : c < M.leaf.base.num_channels := by rw [h.wf.front.channels]; simpa using hc
    have hf' : f < M.leaf.base.num_features := by rw [h.wf.front.features]; simpa using hf
    unfold masked
    by_cases hh : holeAt sc X c f
    · simp only [hh, if_true]
    · have : X c f ≠ .nan := fun e => hh (hX.nan_hole c hc' f hf' e)
      simp only [hh, this, if_false]
  · rfl

/-- `givenRow` with the weights of the class root as they are in the model. -/
def _root_.Einet.Model.givenMix (M : Model) (G H : Nat → Nat → Nat) (TL : ℝ) (mode : Bool) (n : Nat) (X : Data) :
    Measure (Fin M.num_channels → Fin M.num_features → ℝ) :=
  ∑ k ∈ Finset.range M.num_classes, M.classW 1 none n k • mixedRows M H mode TL X (posteriorShare M G X k)

/-- the law of the result with the known entries written back. -/
theorem _root_.Einet.Model.given_measure {M : Model} {g : Nat → Nat → Nat} (hsam : M.Samplable g) (hp : M.leaf.base.Proper)
    {a : SampleArgs} (hN : 0 < a.count)
    (hm : a.is_mpe = false) (hci : a.class_index = none) (hTS : a.temperature_sums = 1) (hTL : 0 < a.temperature_leaves)
    {x : Tensor Fl} (hev : a.evidence = some x) {X : Nat → Data}
    (hx : x.Is3 a.count M.num_channels M.num_features X) {sc : Option (List Nat)}
    (hsc : Scopes.resolveOpt M.num_features a.marginalized_scopes = .ok sc) (hX : ∀ n, n < a.count → EvidenceOK M.leaf.base sc (X n))
    {cs : Caches} (hevm : M.EvM true a.count cs fun n => M.frontRow sc (X n))
    (hprob : ∀ n : Fin a.count, IsProbabilityMeasure (M.givenMix (M.grpF g) (M.grpS g) a.temperature_leaves a.mpe_at_leaves n
      (masked sc (X n))))
    {φ : (Fin a.count → Fin M.num_channels → Fin M.num_features → ℝ) → ℝ≥0∞} (hφ : Measurable φ) :
    ((M.sampleValues a cs).bind fun s => Rand.lift (Model.finish a s)).E (fun s => φ fun n c f => (s.get [n, c, f]).val) =
      ∫⁻ ω, φ ω ∂Measure.pi fun n : Fin a.count =>
        M.givenMix (M.grpF g) (M.grpS g) a.temperature_leaves a.mpe_at_leaves n (masked sc (X n)) := by
  have hT0 : a.temperature_sums ≠ 0 := by rw [hTS]; exact one_ne_zero
  have hcok : M.ClassOK a.count a.class_index := by rw [hci]; trivial
  have hfin := Model.evidence_finRows hsam.wf hp hX
  have hfill : ∀ s : Tensor ℝ, s.shape = [a.count, M.num_channels, M.num_features] → ∃ r, Model.finish a s = .ok r ∧
      r.Is3 a.count M.num_channels M.num_features fun n c f => if holeAt sc (X n) c f then .fin (s.get [n, c, f]) else X n c f := by
    intro s hsh
    have hs3 : s.Is3 a.count M.num_channels M.num_features fun n c f => s.get [n, c, f] :=
      Is.is3 (Is.refl s hsh) fun _ _ _ _ _ _ => rfl
    obtain ⟨r, hr, hr'⟩ := Model.fill_is hx hs3 hsc
    refine ⟨r, ?_, hr'⟩
    unfold Model.finish
    rw [hev]
    exact hr
  let u : (Fin a.count → Pt M.num_channels M.num_features) → Fin a.count → Pt M.num_channels M.num_features :=
    fun ω n c f => if holeAt sc (X n) c f then ω n c f else (X n c f).val
  have hm' : Measurable u := by
    refine measurable_pi_iff.2 fun n => measurable_pi_iff.2 fun c => measurable_pi_iff.2 fun f => ?_
    simp only [u]
    split_ifs
    · exact (measurable_pi_apply f).comp ((measurable_pi_apply c).comp (measurable_pi_apply n))
    · exact measurable_const
  have e0 : ((M.sampleValues a cs).bind fun s => Rand.lift (Model.finish a s)).E (fun s => φ fun n c f => (s.get [n, c, f]).val) =
      (M.sampleValues a cs).E fun s => φ (u fun n c f => s.get [n, c, f]) := by
    rw [Rand.E_bind]
    refine Rand.E_congr (Model.sampleValues_All hsam hN hT0 hcok hevm hfin) fun s hsh => ?_
    obtain ⟨r, hr, hr'⟩ := hfill s hsh
    rw [hr]
    show φ _ = φ _
    congr 1
    funext n c f
    rw [hr'.get n.2 c.2 f.2]
    simp only [u]
    split_ifs <;> rfl
  rw [e0]
  refine law_of_prod' ((Model.sampleValues_hasLaw hsam hN hT0 hTL hcok hevm hfin).map hm') (fun t ht _ => ?_) hφ
  set t' : Nat → Nat → Nat → ℝ → ℝ≥0∞ := fun n c f y => if holeAt sc (X n) c f then t n c f y else t n c f (X n c f).val with ht'
  have ht'm : ∀ n c f, Measurable (t' n c f) := by
    intro n c f
    rw [ht']
    dsimp only
    split_ifs
    · exact ht n c f
    · exact measurable_const
  have e1 := Model.sampleValues_E hsam hN hm hT0 hTL hcok hevm hfin ht'm
  simp only [prod3_fin] at e1
  have e2 : ∀ (s : Tensor ℝ) (n : Fin a.count) (c : Fin M.num_channels) (f : Fin M.num_features),
      t n c f (u (fun n c f => s.get [n, c, f]) n c f) = t' n c f (s.get [n, c, f]) := by
    intro s n c f
    simp only [u, ht']
    split_ifs <;> rfl
  simp only [e2]
  rw [e1, Finset.prod_range]
  refine Finset.prod_congr rfl fun n _ => ?_
  unfold Model.givenMix
  rw [classes_lintegral, hTS, hci]
  refine Finset.sum_congr rfl fun k hk => ?_
  congr 1
  exact pathVal_given hsam hp a.mpe_at_leaves hTL (hX n n.2) (ht n) (by simpa using hk)

/-- **C14**, **C41**: the law of `sample` given evidence at `temperature_sums = 1`, for every configuration.  The rows are
independent.  For each a class is chosen with the weights of the class root (not with the posterior, `C17_refuted_posterior`), then the
repetition and the components by Bayes' rule from the known entries as the forward pass groups them, and the missing entries are drawn
from the components of their regions as the sampler groups them; the known entries stay. -/
theorem C14_exact_law (c : Config) (P : Params) (hP : P.Random) (hg : P.leaf.Good) (hs : P.leaf.CanSample)
    (M : Model) (h : build c P = .ok M) :
    ∃ G H : Nat → Nat → Nat, ForwardIn M P.leaf M.numOut G ∧ SampledIn M M.numOut H ∧
      (∀ r, r < M.num_repetitions → ∀ f, f < M.num_features → G r f < M.numOut ∧ H r f < M.numOut) ∧
      ∀ (N : Nat) (ms : Option Scopes) (x : Tensor Fl) (TL : ℝ) (mode : Bool), 0 < N → Evidence M P.leaf N ms x → 0 < TL →
        (∀ n, n < N → IsProbabilityMeasure (givenRow M P G H TL mode (known M.num_features ms x n))) ∧
        ∀ φ : (Fin N → Fin M.num_channels → Fin M.num_features → ℝ) → ℝ≥0∞, Measurable φ →
          (M.sample { evidence := some x, marginalized_scopes := ms, mpe_at_leaves := mode, temperature_leaves := TL }).E
              (fun s => φ fun n c f => (s.get [n, c, f]).val) =
            ∫⁻ ω, φ ω ∂Measure.pi fun n : Fin N => givenRow M P G H TL mode (known M.num_features ms x n) := by
  have hsam := build_samplable hP hg hs h
  have hp := (build_WF hP h).2.2.1 hg
  refine ⟨_, _, forwardIn hP hg h, sampledIn hP hg hs h,
    fun r hr f hf => ⟨hsam.wf.front.grpF_lt hr hf, hsam.wf.front.grpS_lt hr hf⟩, fun N ms x TL mode hN hx hTL => ?_⟩
  obtain ⟨sc, hsc, hh⟩ := hx.scopes
  let X : Nat → Data := fun n c f => x.get [n, c, f]
  have hX : ∀ n, n < N → EvidenceOK M.leaf.base sc (X n) := hx.ok hP h hh
  have hrow : ∀ n, givenRow M P (M.grpF (buildGroups c P)) (M.grpS (buildGroups c P)) TL mode (known M.num_features ms x n) =
      givenRow M P (M.grpF (buildGroups c P)) (M.grpS (buildGroups c P)) TL mode (masked sc (X n)) := by
    intro n
    have e : ∀ d f, f < M.num_features → known M.num_features ms x n d f = masked sc (X n) d f := by
      intro d f hf
      unfold known masked
      simp only [hh n d f hf, X]
    have e1 : ∀ r κ, rowOfChoice M (M.grpS (buildGroups c P)) mode TL (known M.num_features ms x n) r κ =
        rowOfChoice M (M.grpS (buildGroups c P)) mode TL (masked sc (X n)) r κ := by
      intro r κ
      unfold rowOfChoice
      congr 1
      funext d
      congr 1
      funext f
      rw [e d f f.2]
    have e2 : ∀ r κ, choiceLikelihood M (M.grpF (buildGroups c P)) (known M.num_features ms x n) r κ =
        choiceLikelihood M (M.grpF (buildGroups c P)) (masked sc (X n)) r κ := by
      intro r κ
      unfold choiceLikelihood regionVal
      refine Finset.prod_congr rfl fun o _ => Finset.prod_congr rfl fun f hf => ?_
      congr 1
      refine Finset.prod_congr rfl fun d _ => ?_
      rw [e d f (by simpa using hf)]
    unfold givenRow mixedRows posteriorShare
    simp only [e1, e2]
  have hprob : ∀ n, n < N → IsProbabilityMeasure (givenRow M P (M.grpF (buildGroups c P)) (M.grpS (buildGroups c P)) TL mode
      (known M.num_features ms x n)) := by
    intro n hn
    rw [hrow n]
    exact givenRow_prob hP hg hs h _ (hX n hn) hTL mode
  refine ⟨hprob, fun φ hφ => ?_⟩
  let a : SampleArgs := { evidence := some x, marginalized_scopes := ms, mpe_at_leaves := mode, temperature_leaves := TL }
  have hev : a.evidence = some x := rfl
  obtain rfl : a.count = N := by simp [a, SampleArgs.count, Tensor.size, hx.batch.1, at']
  have hx3 : x.Is3 a.count M.num_channels M.num_features X := hx.batch.is3
  obtain ⟨cs, hcs, hevm, hfin⟩ := Model.evidence_caches hsam.wf hp hev hx3 hsc hX
  have := fun n : Fin a.count => hprob n n.2
  have hmix : ∀ n, givenRow M P (M.grpF (buildGroups c P)) (M.grpS (buildGroups c P)) TL mode (known M.num_features ms x n) =
      M.givenMix (M.grpF (buildGroups c P)) (M.grpS (buildGroups c P)) TL mode n (masked sc (X n)) := by
    intro n
    rw [hrow n]
    unfold givenRow Model.givenMix
    exact Finset.sum_congr rfl fun k hk => by rw [classShare_eq hP h one_ne_zero none n (by simpa using hk)]; rfl
  simp only [hmix] at this ⊢
  rw [Model.sample_eq M a (Model.check_ok trivial fun _ => ⟨rfl, rfl⟩) hcs]
  exact Model.given_measure hsam hp (a := a) hN rfl rfl rfl hTL hev hx3 hsc hX hevm this hφ

/-- **C13**, the forward pass beside it: for every configuration the density of the model is the mixture over the same choices with the
same weights, with the entries grouped into regions by `G`; it is also the total in the weights of `C14_exact_law`. -/
theorem C13_forward_mixture (c : Config) (P : Params) (hP : P.Random) (hg : P.leaf.Good) (M : Model) (h : build c P = .ok M) :
    ∃ G : Nat → Nat → Nat, ForwardIn M P.leaf M.numOut G ∧
      ∀ k, k < M.num_classes → ∀ X, P.leaf.Data M.num_channels M.num_features X →
        M.density none k X = ∑ r ∈ Finset.range M.num_repetitions, ∑ κ : Choice M,
          repShare M 1 k r * choiceShare M 1 k r κ * choiceLikelihood M G X r κ := by
  obtain ⟨-, hw, hp, _⟩ := build_WF hP h
  refine ⟨_, forwardIn hP hg h, fun k hk X hX => ?_⟩
  rw [density_val hw (hp hg) ((build_observed hP h).2 hX) hk, topP_expand hw one_ne_zero _ hk]
  rfl

/-- the weights are probabilities at every temperature. -/
theorem C41_shares (c : Config) (P : Params) (hP : P.Random) (M : Model) (h : build c P = .ok M) (T : ℝ) (hT : T ≠ 0) (k : Nat)
    (hk : k < M.num_classes) :
    ∑ r ∈ Finset.range M.num_repetitions, ∑ κ : Choice M, repShare M T k r * choiceShare M T k r κ = 1 :=
  shares_sum (build_WF hP h).2.1 hT hk

/-- one repetition, five features in four regions: not among the configurations in `MirrorCfg`. -/
def exFlat (l : String) : Config := { exConfig l "top-down" with num_repetitions := 1 }

theorem exFlat_builds {l : String} (h : l = "linsum" ∨ l = "linsum2" ∨ l = "einsum") : ∃ M,
    build (exFlat l) (exParams exLeaf) = .ok M ∧ M.num_channels = 2 ∧ M.num_features = 5 ∧ M.num_classes = 3 := by
  obtain ⟨h1, h2, h3, h4, h5, h6, h7, h8, h9, h10, h11, h12, h13⟩ := (assertValid_iff _).1
    (exConfig_valid (l := l) (s := "top-down") (Or.inl ⟨h, rfl⟩))
  have hv : (exFlat l).assertValid = .ok () :=
    (assertValid_iff _).2 ⟨h1, h2, h3, h4, by norm_num [exFlat], h6, h7, h8, h9, h10, h11, h12, h13⟩
  obtain ⟨M, hM⟩ := (build_iff (c := exFlat l) (P := exParams exLeaf)).2
    ⟨hv, ⟨normalLeaf _ _ _, by simp [exParams, exLeaf, exFlat, exConfig, LeafSpec.build]; rfl⟩, by norm_num [exFlat, exConfig],
      fun _ => by norm_num [exFlat, exConfig], fun _ => ⟨1 / 4, rfl, by norm_num, by norm_num⟩⟩
  have hz := (build_WF (exParams_random _) hM).1
  exact ⟨M, hM, by rw [hz.channels]; rfl, by rw [hz.features]; rfl, by rw [hz.classes]; rfl⟩

/-- the hypotheses hold for a configuration that the laws of PropsSample.lean leave out, with classes given and evidence. -/
example : ∃ M, build (exFlat "einsum") (exParams exLeaf) = .ok M ∧ ¬ MirrorCfg (exFlat "einsum") ∧ (exParams exLeaf).leaf.Good ∧
    (exParams exLeaf).leaf.CanSample ∧ ClassArg M 4 (some (.list [2, 0, 0, 1])) ∧ Evidence M (exParams exLeaf).leaf 3 none exBatch := by
  obtain ⟨M, h, e1, e2, e3⟩ := exFlat_builds (l := "einsum") (Or.inr (Or.inr rfl))
  obtain ⟨hg, hs⟩ := exLeaf_good (exParams exLeaf) rfl
  refine ⟨M, h, ?_, hg, hs, ⟨by omega, rfl, by rw [e3]; simp⟩, exEvidence e1 e2⟩
  rintro (h | ⟨h, -⟩ | ⟨-, h | h⟩)
  · simp [exFlat, exConfig] at h
  · simp [exFlat] at h
  · simp [exFlat, exConfig] at h
  · exact absurd h (by show ¬ ((2 : ℤ) ^ 2 = 5); norm_num)
