import Verif.DiffMass
import Verif.Modes
import Verif.SampleBuild

/-!
# Outcomes of sampling with probability one, and the support of the leaves
-/

open MeasureTheory Classical
open scoped ENNReal BigOperators
noncomputable section
namespace Einet
open Tensor

variable {α : Type}

/-- a sum of exponentials with a NaN or `+inf` among the exponents. -/
theorem sumN_bad {K : Nat} {w : Nat → Fl} {i : Nat} (hi : i < K) (h : ¬ NN (w i)) :
    Fl.sumN K (fun k => Fl.exp (w k)) = .nan ∨ Fl.sumN K (fun k => Fl.exp (w k)) = .pinf := by
  have hb : Fl.exp (w i) = .nan ∨ Fl.exp (w i) = .pinf := by cases e : w i <;> simp_all [NN, Fl.exp]
  have hne : ∀ n, Fl.sumN n (fun k => Fl.exp (w k)) ≠ .ninf := by
    intro n
    induction n with
    | zero => simp [Fl.sumN]
    | succ n ih =>
      simp only [Fl.sumN]
      cases e : Fl.sumN n (fun k => Fl.exp (w k)) <;> cases w n <;> first | exact absurd e ih | exact Fl.noConfusion
  induction K with
  | zero => omega
  | succ n ih =>
    simp only [Fl.sumN]
    rcases Nat.lt_succ_iff_lt_or_eq.1 hi with h1 | rfl
    · rcases ih h1 with e | e <;> rw [e] <;> cases w n <;> first | exact Or.inl rfl | exact Or.inr rfl
    · have := hne i
      rcases hb with e | e <;> rw [e] <;> cases e' : Fl.sumN i (fun k => Fl.exp (w k)) <;>
        first | exact absurd e' this | exact Or.inl rfl | exact Or.inr rfl

/-- a distribution with one category of positive probability has total probability one. -/
theorem sum_logSoftmax_of_pos {K : Nat} {w : Nat → Fl} (h : ∃ j, j < K ∧ toP (Fl.logSoftmax K w j) ≠ 0) :
    ∑ k ∈ Finset.range K, toP (Fl.logSoftmax K w k) = 1 := by
  obtain ⟨j, hj, h0⟩ := h
  have hn : ∀ i, i < K → NN (w i) := by
    by_contra hc
    push Not at hc
    obtain ⟨i, hi, hi'⟩ := hc
    refine h0 ?_
    unfold Fl.logSoftmax Fl.lse
    rcases sumN_bad hi hi' with e | e <;> rw [e] <;> cases w j <;> rfl
  refine sum_toP_logSoftmax hn fun hz => h0 ?_
  have hw : w j = .ninf := toP_injective (hn j hj) trivial
    ((Finset.sum_eq_zero_iff.1 hz) j (by simpa using hj))
  have hl : Fl.lse K w = .ninf := toP_injective (NN_lse hn) trivial (by rw [toP_lse hn, hz]; rfl)
  unfold Fl.logSoftmax
  rw [hl, hw]
  rfl

namespace Full

/-- discrete draws: outcomes that satisfy `P` always do so with probability one. -/
theorem of_all {x : Rand α} {P : α → Prop} (hd : x.Disc) (h : x.All P) : Full P x := by
  induction x with
  | pure a => exact pure h
  | fail e => exact h.elim
  | leaf μ k _ => exact hd.elim
  | draw K w k ih =>
    intro t g
    have e : t = ∑ j ∈ Finset.range K, toP (Fl.logSoftmax K w j) * t := by
      rw [← Finset.sum_mul, sum_logSoftmax_of_pos h.1, one_mul]
    have hj : ∀ j ∈ Finset.range K, toP (Fl.logSoftmax K w j) ≠ 0 → Full P (k j) := fun j hj h0 =>
      ih j (hd j) (h.2 j (by simpa using hj) h0)
    refine ⟨fun hg => ?_, fun hg => ?_⟩
    · show t ≤ ∑ j ∈ Finset.range K, toP (Fl.logSoftmax K w j) * (k j).E g
      conv_lhs => rw [e]
      refine Finset.sum_le_sum fun j hj' => ?_
      by_cases h0 : toP (Fl.logSoftmax K w j) = 0
      · rw [h0, zero_mul, zero_mul]
      · exact mul_le_mul_right ((hj j hj' h0 t g).1 hg) _
    · show ∑ j ∈ Finset.range K, toP (Fl.logSoftmax K w j) * (k j).E g ≤ t
      conv_rhs => rw [e]
      refine Finset.sum_le_sum fun j hj' => ?_
      by_cases h0 : toP (Fl.logSoftmax K w j) = 0
      · rw [h0, zero_mul, zero_mul]
      · exact mul_le_mul_right ((hj j hj' h0 t g).2 hg) _

theorem leaf_ae {μ : Measure ℝ} (hμ : μ Set.univ = 1) {k : ℝ → Rand α} {P : α → Prop} (h : ∀ᵐ x ∂μ, Full P (k x)) :
    Full P (.leaf μ k) := by
  intro t g
  have e : t = ∫⁻ _, t ∂μ := by rw [lintegral_const, hμ, mul_one]
  refine ⟨fun hg => ?_, fun hg => ?_⟩
  · rw [e]; exact lintegral_mono_ae (h.mono fun x hx => (hx t g).1 hg)
  · rw [e]; exact lintegral_mono_ae (h.mono fun x hx => (hx t g).2 hg)

theorem drawAll_mem {is : List (List Nat)} {p : List Nat → Rand α} {d : List Nat → α} {P : List Nat → α → Prop}
    (h : ∀ i ∈ is, Full (P i) (p i)) : Full (fun f => ∀ i ∈ is, P i (f i)) (Rand.drawAll is p d) := by
  induction is with
  | nil => exact pure (by simp)
  | cons a l ih =>
    refine bind (h a (by simp)) fun v hv => ?_
    refine bind (ih fun i hi => h i (by simp [hi])) fun f hf => pure ?_
    intro i hi
    show P i (if i = a then v else f i)
    split_ifs with e
    · subst e; exact hv
    · exact hf i (by simpa [e] using hi)

/-- probability of an event. -/
theorem prob {x : Rand α} {P : α → Prop} (h : Full P x) : x.E (fun a => if P a then 1 else 0) = 1 :=
  le_antisymm ((h 1 _).2 fun t _ => by split_ifs; simp) ((h 1 _).1 fun t ht => by rw [if_pos ht])

end Full

/-- draws and modes of a leaf are values the leaf accepts. -/
structure BaseLeaf.DrawsValid (B : BaseLeaf) : Prop where
  law : ∀ T c f i r, ∀ᵐ x ∂B.law T c f i r, B.valid f (.fin x)
  mode : ∀ c f i r, B.valid f (.fin (B.mode c f i r))

theorem massLeaf_drawsValid {d : LeafDims} {K : Nat} {pmf : Nat → Nat → Nat → Nat → Nat → ℝ}
    {tempered : ℝ → Nat → Nat → Nat → Nat → Nat → ℝ} {mode : Nat → Nat → Nat → Nat → Nat} {b : Bool}
    (hm : ∀ c f i r, mode c f i r < K) : (massLeaf d K pmf tempered mode b).DrawsValid where
  law T c f i r := by
    show ∀ᵐ x ∂(∑ k ∈ Finset.range K, ENNReal.ofReal (tempered T c f i r k) • Measure.dirac (k : ℝ)),
      ∃ k : ℕ, k < K ∧ Fl.fin x = .fin (k : ℝ)
    rw [ae_iff]
    rw [Measure.finsetSum_apply]
    refine Finset.sum_eq_zero fun k hk => ?_
    rw [Measure.smul_apply, smul_eq_mul]
    have : Measure.dirac (k : ℝ) {x | ¬ ∃ k : ℕ, k < K ∧ Fl.fin x = .fin (k : ℝ)} = 0 := by
      rw [← ae_iff, ae_dirac_eq]
      exact ⟨k, by simpa using hk, rfl⟩
    rw [this, mul_zero]
  mode c f i r := ⟨_, hm c f i r, rfl⟩

theorem gaussLeaf_drawsValid (d : LeafDims) (mu sigma : Par) : (gaussLeaf d mu sigma).DrawsValid where
  law T c f i r := Filter.Eventually.of_forall fun x => by simp [gaussLeaf]
  mode c f i r := by simp [gaussLeaf]

theorem LeafSpec.drawsValid {s : LeafSpec} (hg : s.Good) {card : Option ℤ} {d : LeafDims} {B : BaseLeaf}
    (h : s.build card d = .ok B) : B.DrawsValid := by
  unfold LeafSpec.build at h
  obtain ⟨_, _, h⟩ := bind_ok h
  cases s with
  | normal means logvar =>
    simp only [Res.pure_eq, Except.ok.injEq] at h
    subst h
    exact gaussLeaf_drawsValid _ _ _
  | ratNormal lo hi mlo mhi means stds =>
    obtain ⟨_, h1, h⟩ := bind_ok h
    obtain ⟨_, _, h⟩ := bind_ok h
    obtain ⟨_, _, h⟩ := bind_ok h
    obtain ⟨_, _, h⟩ := bind_ok h
    obtain ⟨_, _, h⟩ := bind_ok h
    simp only [Res.pure_eq, Except.ok.injEq] at h
    subst h
    exact gaussLeaf_drawsValid _ _ _
  | binomial n l =>
    obtain ⟨_, _, h⟩ := bind_ok h
    simp only [Res.pure_eq, Except.ok.injEq] at h
    subst h
    have : (binomialMass d n.toNat l).DrawsValid := massLeaf_drawsValid fun c f i r => by
      obtain ⟨h1, h2⟩ := binomialPmf_mode n.toNat (p := Real.sigmoid (l c f i r)) (Real.sigmoid_pos _) (Real.sigmoid_lt_one _)
      omega
    exact ⟨this.law, this.mode⟩
  | bernoulli p =>
    simp only [Res.pure_eq, Except.ok.injEq] at h
    subst h
    exact massLeaf_drawsValid fun c f i r => by split_ifs <;> omega
  | categorical n l =>
    obtain ⟨_, _, h⟩ := bind_ok h
    simp only [Res.pure_eq, Except.ok.injEq] at h
    subst h
    have hn : 0 < n.toNat := by have : 1 ≤ n := hg; omega
    exact massLeaf_drawsValid fun c f i r => (argmaxR_max _ hn).1

namespace Model

/-- draws of all components, with probability one. -/
theorem draws_valid {B : BaseLeaf} (hv : B.DrawsValid) {ctx : Ctx}
    (hp : ∀ c f i r, IsProbabilityMeasure (B.law ctx.temperature_leaves c f i r)) :
    Full (fun v => ∀ i ∈ box [ctx.num_samples, B.num_channels, B.num_features, B.num_leaves, B.num_repetitions],
      B.valid (at' 2 i) (.fin (v i))) (B.draws ctx) := by
  unfold BaseLeaf.draws
  split_ifs
  · exact Full.pure fun i _ => hv.mode _ _ _ _
  · exact Full.drawAll_mem (P := fun i x => B.valid (at' 2 i) (.fin x)) fun i _ => Full.leaf_ae (hp _ _ _ _).measure_univ
      ((hv.law _ _ _ _ _).mono fun x hx => Full.pure hx)

/-- values drawn lie in the support, with probability one. -/
theorem sampleValues_full {M : Model} {g : Nat → Nat → Nat} (h : M.Samplable g) (hv : M.leaf.base.DrawsValid)
    {a : SampleArgs} (hN : 0 < a.count)
    (hT : a.temperature_sums ≠ 0) (hL : 0 < a.temperature_leaves) (hc : M.ClassOK a.count a.class_index) {cond : Bool}
    {cs : Caches} {e : Nat → Row}
    (hev : M.EvM cond a.count cs e) (he : M.FinRows a.count e) :
    Full (fun t => ∃ S : Nat → Nat → Nat → ℝ, t.Is3 a.count M.num_channels M.num_features S ∧
      ∀ n, n < a.count → ∀ c, c < M.num_channels → ∀ f, f < M.num_features → M.leaf.base.valid f (.fin (S n c f)))
      (M.sampleValues a cs) := by
  rw [sampleValues_eq]
  refine Full.bind (Full.of_all (disc_corePath _ _ _) (corePath_All h.wf hN hT hc hev he)) fun ctx ⟨idx, rr, hctx, hce⟩ => ?_
  obtain ⟨res, h1, h2⟩ := leaf_sample_eq h.wf.front h.features_pos h.samp.samplable hN hctx
  have hF := h.wf.front.features; have hC := h.wf.front.channels; have hI := h.wf.front.leaves
  have hR := h.wf.front.reps
  have hTl : ctx.temperature_leaves = a.temperature_leaves := by rw [hce]; rfl
  rw [h1]
  refine Full.bind (draws_valid hv (by rw [hTl]; exact h.samp.prob _ hL)) fun v hv' =>
    Full.lift ((h2 v).mono fun t ht => ⟨_, ht, fun n hn c hc f hf => ?_⟩)
  refine hv' [n, c, f, idx n (M.grpS g (rr n) f), rr n] (mem_box.2 ⟨by rw [hctx.ns]; exact hn, by omega, by omega, ?_, ?_, trivial⟩)
  · rw [hI]; exact hctx.io_lt n hn _ (h.wf.front.grpS_lt (hctx.ir_lt n hn) hf)
  · rw [hR]; exact hctx.ir_lt n hn

/-- `sample` without evidence. -/
theorem sample_full {M : Model} {g : Nat → Nat → Nat} (h : M.Samplable g) (hv : M.leaf.base.DrawsValid)
    {a : SampleArgs} (hev : a.evidence = none)
    (hN : 0 < a.count) (hT : a.temperature_sums ≠ 0) (hL : 0 < a.temperature_leaves) (hc : M.ClassOK a.count a.class_index) :
    Full (fun s => ∃ S : Nat → Nat → Nat → ℝ, s.Is3 a.count M.num_channels M.num_features (fun n c f => .fin (S n c f)) ∧
      ∀ n, n < a.count → ∀ c, c < M.num_channels → ∀ f, f < M.num_features → M.leaf.base.valid f (.fin (S n c f)))
      (M.sample a) := by
  have h2 : M.evidenceCaches a = .ok ⟨[], none⟩ := by unfold evidenceCaches; rw [hev]
  rw [sample_eq M a (check_ok hc (by simp [hev])) h2]
  refine Full.bind (sampleValues_full h hv hN hT hL hc (evM_none M a.count) (finZero M _)) fun s ⟨S, hs, hS⟩ => ?_
  unfold finish
  rw [hev]
  exact Full.pure ⟨S, ⟨hs.1, fun n hn c hc f hf => by
    show Fl.fin (s.get [n, c, f]) = .fin (S n c f); rw [hs.get hn hc hf]⟩, hS⟩

/-- `sample` with evidence. -/
theorem sample_evidence_full {M : Model} {g : Nat → Nat → Nat} (h : M.Samplable g) (hv : M.leaf.base.DrawsValid)
    (hp : M.leaf.base.Proper)
    {a : SampleArgs} {x : Tensor Fl} {X : Nat → Data} (hev : a.evidence = some x)
    (hN : 0 < a.count) (hx : x.Is3 a.count M.num_channels M.num_features X) (hns : a.num_samples = none)
    (hci : a.class_index = none) (hT : a.temperature_sums ≠ 0) (hL : 0 < a.temperature_leaves) {sc : Option (List Nat)}
    (hs : Scopes.resolveOpt M.num_features a.marginalized_scopes = .ok sc)
    (hX : ∀ n, n < a.count → EvidenceOK M.leaf.base sc (X n)) :
    Full (fun s => ∃ v : Nat → Nat → Nat → ℝ, s.Is3 a.count M.num_channels M.num_features (fun n c f => .fin (v n c f)) ∧
      ∀ n, n < a.count → ∀ c, c < M.num_channels → ∀ f, f < M.num_features → M.leaf.base.valid f (.fin (v n c f)))
      (M.sample a) := by
  obtain ⟨cs, hcs, hevm, hfin⟩ := evidence_caches h.wf hp hev hx hs hX
  have hF := h.wf.front.features; have hC := h.wf.front.channels
  have hcok : M.ClassOK a.count a.class_index := by rw [hci]; trivial
  rw [sample_eq M a (check_ok hcok fun _ => ⟨hci, hns⟩) hcs]
  refine Full.bind (sampleValues_full h hv hN hT hL hcok hevm hfin) fun s ⟨S, hs3, hS⟩ => Full.lift ?_
  obtain ⟨r, hr, hr'⟩ := fill_is hx hs3 hs
  unfold finish
  rw [hev]
  refine ⟨r, hr, fun n c f => if holeAt sc (X n) c f then S n c f else (X n c f).val, ?_, ?_⟩
  · refine Is.is3 hr' fun n hn c hc f hf => ?_
    show (if holeAt sc (X n) c f then Fl.fin (S n c f) else X n c f) = .fin (if _ then _ else _)
    split_ifs with hh
    · rfl
    · rcases (hX n hn).observed c (by omega) f (by omega) with e | ⟨y, e, hy⟩
      · exact absurd ((hX n hn).nan_hole c (by omega) f (by omega) e) hh
      · rw [e]; rfl
  · intro n hn c hc f hf
    dsimp only
    split_ifs with hh
    · exact hS n hn c hc f hf
    · rcases (hX n hn).observed c (by omega) f (by omega) with e | ⟨y, e, hy⟩
      · exact absurd ((hX n hn).nan_hole c (by omega) f (by omega) e) hh
      · rw [e]; exact hy

end Model
end Einet
