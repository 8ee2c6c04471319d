import Verif.DiffMass
import Verif.PropsDiff

/-!
# C49: the law of differentiable sampling
-/

open Classical MeasureTheory
open scoped ENNReal
noncomputable section
namespace Einet
namespace Props
open Tensor Einet

/-! ### Specification -/

/-- two tensors with the same shape and the same entries. -/
def Same (t t' : Tensor Fl) : Prop := t.shape = t'.shape ∧ ∀ i, InB t.shape i → t.get i = t'.get i

/-- `x` gives no event more than `c` times the probability that `y` gives it: for every nonnegative function of the returned
entries, the expectation under `x` is at most `c` times the expectation under `y`. -/
def Dominated (c : ℝ≥0∞) (x y : Rand (Tensor Fl)) : Prop :=
  ∀ f : Tensor Fl → ℝ≥0∞, (∀ t t', Same t t' → f t = f t') → x.E f ≤ c * y.E f

/-- `x` and `y` have the same law on the returned entries. -/
def SameLaw (x y : Rand (Tensor Fl)) : Prop := ∀ f : Tensor Fl → ℝ≥0∞, (∀ t t', Same t t' → f t = f t') → x.E f = y.E f

theorem dominated {b : Prop × Prop} {c : ℝ≥0∞} {x y : Rand (Tensor Fl)} (h : RLe b c Same x y) : Dominated c x y := fun f hf =>
  h.1 f f fun a b hab => (hf a b hab).le

theorem sameLaw {x y : Rand (Tensor Fl)} (h : RLe (True, False) 1 Same x y) : SameLaw x y := fun f hf =>
  le_antisymm (by simpa using h.1 f f fun a b hab => (hf a b hab).le) (h.2.1 trivial f f fun a b hab => (hf a b hab).ge)

/-- the probabilities of every event under `x` and `y` differ by at most `d`, and so do the expectations of functions of the
returned entries with values in the unit interval. -/
def Close (d : ℝ≥0∞) (x y : Rand (Tensor Fl)) : Prop :=
  ∀ f : Tensor Fl → ℝ≥0∞, (∀ t t', Same t t' → f t = f t') → (∀ t, f t ≤ 1) → x.E f ≤ y.E f + d ∧ y.E f ≤ x.E f + d

theorem close {c : ℝ≥0∞} {x y : Rand (Tensor Fl)} (h : RLe (False, True) c Same x y) : Close (c - 1) x y := by
  intro f hf h1
  have hn := h.2.2 trivial
  refine ⟨?_, hn.gap f f (fun a b hab => (hf a b hab).ge) fun a b _ => h1 b⟩
  have h2 : x.E f ≤ c * y.E f := h.1 f f fun a b hab => (hf a b hab).le
  have h3 : y.E f ≤ 1 := hn.right.le fun b _ => h1 b
  rcases hn.one_le with hc | h0
  · obtain ⟨d, rfl⟩ := exists_add_of_le hc
    rw [ENNReal.add_sub_cancel_left ENNReal.one_ne_top]
    rw [add_mul, one_mul] at h2
    exact h2.trans (add_le_add_right (mul_le_of_le_one_right zero_le h3) _)
  · rw [h0, mul_zero] at h2
    exact h2.trans zero_le

theorem gap_exp {r : ℝ} : ENNReal.ofReal (Real.exp r) - 1 = ENNReal.ofReal (Real.exp r - 1) := by
  rw [ENNReal.ofReal_sub _ zero_le_one, ENNReal.ofReal_one]

/-- the bound for noise computed with `eps`: a factor `exp(eps)` per entry of noise. -/
theorem gumbelM_bound (eps : ℝ) (n : Nat) :
    ENNReal.ofReal (Real.exp eps) ^ n = ENNReal.ofReal (Real.exp (eps * n)) := by
  rw [← ENNReal.ofReal_pow (Real.exp_pos _).le, ← Real.exp_nat_mul, mul_comm]

/-- leaves whose samples have the same law in both modes: all but `Binomial`, or if the modes of the leaves are returned. -/
def SameLeafLaw (l : LeafSpec) (a : SampleArgs) : Prop := a.mpe_at_leaves = true ∨ ∀ n p, l ≠ .binomial n p

theorem leafSpec_lawD {s : LeafSpec} {card : Option ℤ} {d : LeafDims} {B : BaseLeaf} (h : s.build card d = .ok B)
    (hb : ∀ n p, s ≠ .binomial n p) : B.lawD = B.law := by
  unfold LeafSpec.build at h
  obtain ⟨_, hc, h⟩ := bind_ok h
  cases s with
  | normal means logvar =>
    simp only [Res.pure_eq, Except.ok.injEq] at h
    subst h
    rfl
  | bernoulli probs =>
    simp only [Res.pure_eq, Except.ok.injEq] at h
    subst h
    rfl
  | binomial n logits => exact absurd rfl (hb n logits)
  | categorical n logits =>
    obtain ⟨_, _, h⟩ := bind_ok h
    simp only [Res.pure_eq, Except.ok.injEq] at h
    subst h
    rfl
  | ratNormal min_sigma max_sigma min_mean max_mean means stds =>
    obtain ⟨_, _, h⟩ := bind_ok h
    obtain ⟨_, _, h⟩ := bind_ok h
    obtain ⟨_, _, h⟩ := bind_ok h
    obtain ⟨_, _, h⟩ := bind_ok h
    obtain ⟨_, _, h⟩ := bind_ok h
    simp only [Res.pure_eq, Except.ok.injEq] at h
    subst h
    rfl

theorem build_lawD {c : Config} {P : Params} (hP : P.Random) {M : Model} (h : build c P = .ok M) {a : SampleArgs}
    (hB : SameLeafLaw P.leaf a) : a.mpe_at_leaves = true ∨ M.leaf.base.lawD = M.leaf.base.law :=
  hB.imp_right fun hb => leafSpec_lawD (build_leaf hP h) hb

/-- both modes on evidence, for noise with law `μ`. -/
theorem evidence_le {μ : Measure ℝ} {b : Prop × Prop} {k : ℝ≥0∞} (hk : k ≠ ⊤) (hμ : μ ≤ k • gumbel0)
    (hb : NoiseOK b μ gumbel0) (c : Config) (P : Params) (hP : P.Random)
    (hg : P.leaf.Good) (hs : P.leaf.CanSample) (M : Model) (h : build c P = .ok M) (N : Nat) (hN : 0 < N) (x : Tensor Fl)
    (a : SampleArgs) (ha : a.is_mpe = false) (hx : Evidence M P.leaf N a.marginalized_scopes x) (hev : a.evidence = some x)
    (hns : a.num_samples = none) (hci : a.class_index = none) (hT : a.temperature_sums ≠ 0)
    (hB : SameLeafLaw P.leaf a) (hL : b.2 → 0 < a.temperature_leaves) :
    RLe b (k ^ (N * M.noise)) Same (M.sampleR μ a) (M.sample a) := by
  have hsam := build_samplable hP hg hs h
  obtain ⟨sc, hsc, hh⟩ := hx.scopes
  have hcount : a.count = N := by unfold SampleArgs.count; rw [hev]; simp [Tensor.size, hx.batch.1, at']
  have hp := (build_WF hP h).2.2.1 hg
  have hx3 : x.Is3 a.count M.num_channels M.num_features fun n c f => x.get [n, c, f] := by
    rw [hcount]; exact hx.batch.is3
  have hX : ∀ n, n < a.count → EvidenceOK M.leaf.base sc fun c f => x.get [n, c, f] := by
    rw [hcount]; exact hx.ok hP h hh
  obtain ⟨cs, hcs, hevm, hfin⟩ := Model.evidence_caches hsam.wf hp hev hx3 hsc hX
  have hcok : M.ClassOK a.count a.class_index := by rw [hci]; trivial
  have hck := Model.check_ok (a := a) hcok fun _ => ⟨hci, hns⟩
  rw [Model.sampleR_eq μ M a hck hcs, Model.sample_eq M a hck hcs, ← mul_one (k ^ _)]
  rw [← hcount]
  refine RLe.bind ENNReal.one_ne_top (Model.sampleValuesR_le hk hμ hb hsam hci (by omega) ha hT (build_lawD hP h hB) hevm hfin hL)
    fun v2 v1 ⟨S, i2, i1⟩ => ?_
  obtain ⟨s1, f1, j1⟩ := Model.fill_is hx3 i1 hsc
  obtain ⟨s2, f2, j2⟩ := Model.fillD_is hx3 i2 hsc
  have hf1 : Model.finish a v1 = .ok s1 := by unfold Model.finish; rw [hev]; exact f1
  have hf2 : Model.finishD a v2 = .ok s2 := by unfold Model.finishD; rw [hev]; exact f2
  refine RLe.lift hf2 hf1 ⟨j2.1.trans j1.1.symm, fun i hi => ?_⟩
  rw [j2.1] at hi
  rw [Is.get j2 hi, Is.get j1 hi]

/-- both modes without evidence, for noise with law `μ`. -/
theorem free_le {μ : Measure ℝ} {b : Prop × Prop} {k : ℝ≥0∞} (hk : k ≠ ⊤) (hμ : μ ≤ k • gumbel0)
    (hb : NoiseOK b μ gumbel0) (c : Config) (P : Params) (hP : P.Random)
    (hg : P.leaf.Good) (hs : P.leaf.CanSample) (M : Model) (h : build c P = .ok M)
    (a : SampleArgs) (ha : a.is_mpe = false) (hev : a.evidence = none) (hN : 0 < a.count)
    (hci : a.class_index = none) (hT : a.temperature_sums ≠ 0)
    (hB : SameLeafLaw P.leaf a) (hL : b.2 → 0 < a.temperature_leaves) :
    RLe b (k ^ (a.count * M.noise)) Same (M.sampleR μ a) (M.sample a) := by
  have hsam := build_samplable hP hg hs h
  have hcok : M.ClassOK a.count a.class_index := by rw [hci]; trivial
  have hck := Model.check_ok (M := M) (a := a) hcok (by simp [hev])
  have hcs : M.evidenceCaches a = .ok ⟨[], none⟩ := by unfold Model.evidenceCaches; rw [hev]
  rw [Model.sampleR_eq μ M a hck hcs, Model.sample_eq M a hck hcs, ← mul_one (k ^ _)]
  refine RLe.bind ENNReal.one_ne_top (Model.sampleValuesR_le hk hμ hb hsam hci hN ha hT (build_lawD hP h hB) (Model.evM_none M _) (Model.finZero M _) hL)
    fun v2 v1 ⟨S, i2, i1⟩ => ?_
  have hf1 : Model.finish a v1 = .ok (v1.map .fin) := by unfold Model.finish; rw [hev]
  have hf2 : Model.finishD a v2 = .ok v2 := by unfold Model.finishD; rw [hev]
  refine RLe.lift hf2 hf1 ⟨i2.1.trans i1.1.symm, fun i hi => ?_⟩
  rw [i2.1] at hi
  rw [Is.get i2 hi]
  show _ = Fl.fin (v1.get i)
  rw [Is.get i1 hi]

/-! ### C49 -/

/-- **C49**, the noise: for a positive `eps` every entry computed by `sample_gumbel` from a number of `torch.rand` is finite. -/
theorem C49_noise {eps u : ℝ} (he : 0 < eps) (h0 : 0 ≤ u) (h1 : u < 1) : ∃ v : ℝ, gumbelFn eps u = .fin v :=
  ⟨_, gumbelFn_eq he ⟨h0, h1⟩⟩

theorem gumbelM_mass (eps : ℝ) : gumbelM eps Set.univ = 1 := by
  unfold gumbelM
  rw [Measure.map_apply (gumbelVal_measurable eps) MeasurableSet.univ]
  simp

/-- **C49** with evidence: no event on the returned tensor has more than `exp(eps * n)` times its probability under ordinary
sampling, `n` the number of entries of noise. Missing for the full claim: a `class_index`. -/
theorem C49_evidence_partial (c : Config) (P : Params) (hP : P.Random) (hg : P.leaf.Good) (hs : P.leaf.CanSample) (M : Model)
    (h : build c P = .ok M) (N : Nat) (hN : 0 < N) (x : Tensor Fl) (a : SampleArgs) (ha : a.is_mpe = false)
    (hx : Evidence M P.leaf N a.marginalized_scopes x) (hev : a.evidence = some x) (hns : a.num_samples = none)
    (hci : a.class_index = none) (hT : a.temperature_sums ≠ 0) (hB : SameLeafLaw P.leaf a) (eps : ℝ) (he : 0 ≤ eps) :
    Dominated (ENNReal.ofReal (Real.exp (eps * ((N * M.noise : Nat) : ℝ)))) (M.sampleR (gumbelM eps) a) (M.sample a) := by
  rw [← gumbelM_bound]
  exact dominated (evidence_le (b := (False, False)) ENNReal.ofReal_ne_top (gumbelM_le he) ⟨False.elim, False.elim⟩ c P hP hg hs M h N hN x a ha hx hev
    hns hci hT hB False.elim)

/-- **C49** without evidence. -/
theorem C49_free_partial (c : Config) (P : Params) (hP : P.Random) (hg : P.leaf.Good) (hs : P.leaf.CanSample) (M : Model)
    (h : build c P = .ok M) (a : SampleArgs) (ha : a.is_mpe = false) (hev : a.evidence = none) (hN : 0 < a.count)
    (hci : a.class_index = none) (hT : a.temperature_sums ≠ 0) (hB : SameLeafLaw P.leaf a) (eps : ℝ) (he : 0 ≤ eps) :
    Dominated (ENNReal.ofReal (Real.exp (eps * ((a.count * M.noise : Nat) : ℝ)))) (M.sampleR (gumbelM eps) a) (M.sample a) := by
  rw [← gumbelM_bound]
  exact dominated (free_le (b := (False, False)) ENNReal.ofReal_ne_top (gumbelM_le he) ⟨False.elim, False.elim⟩ c P hP hg hs M h a ha hev hN hci hT hB False.elim)

/-- **C49**, distance of the laws: with the noise of the code no event on the returned tensor changes its probability by more than
`exp(eps * n) - 1`, in either direction, `n` the number of entries of noise; with and without evidence. -/
theorem C49_close_partial (c : Config) (P : Params) (hP : P.Random) (hg : P.leaf.Good) (hs : P.leaf.CanSample) (M : Model)
    (h : build c P = .ok M) (a : SampleArgs) (ha : a.is_mpe = false) (hN : 0 < a.count) (hci : a.class_index = none)
    (hev : ∀ x, a.evidence = some x → a.num_samples = none ∧ Evidence M P.leaf a.count a.marginalized_scopes x)
    (hT : a.temperature_sums ≠ 0) (hL : 0 < a.temperature_leaves) (hB : SameLeafLaw P.leaf a) (eps : ℝ) (he : 0 ≤ eps) :
    Close (ENNReal.ofReal (Real.exp (eps * ((a.count * M.noise : Nat) : ℝ)) - 1)) (M.sampleR (gumbelM eps) a) (M.sample a) := by
  rw [← gap_exp, ← gumbelM_bound]
  cases he' : a.evidence with
  | none =>
    exact close (free_le ENNReal.ofReal_ne_top (gumbelM_le he) ⟨False.elim, fun _ => gumbelM_mass eps⟩ c P hP hg hs M h a ha he' hN
      hci hT hB fun _ => hL)
  | some x =>
    obtain ⟨k1, k2⟩ := hev x he'
    exact close (evidence_le ENNReal.ofReal_ne_top (gumbelM_le he) ⟨False.elim, fun _ => gumbelM_mass eps⟩ c P hP hg hs M h _ hN x a
      ha k2 he' k1 hci hT hB fun _ => hL)

/-- **C49**, exact Gumbel noise: the law of the returned tensor is that of ordinary sampling, with and without evidence. -/
theorem C49_exact_partial (c : Config) (P : Params) (hP : P.Random) (hg : P.leaf.Good) (hs : P.leaf.CanSample) (M : Model)
    (h : build c P = .ok M) (a : SampleArgs) (ha : a.is_mpe = false) (hN : 0 < a.count) (hci : a.class_index = none)
    (hev : ∀ x, a.evidence = some x → a.num_samples = none ∧ Evidence M P.leaf a.count a.marginalized_scopes x)
    (hT : a.temperature_sums ≠ 0) (hB : SameLeafLaw P.leaf a) : SameLaw (M.sampleR gumbel0 a) (M.sample a) := by
  have h1 : gumbel0 ≤ (1 : ℝ≥0∞) • gumbel0 := by rw [one_smul]
  cases he : a.evidence with
  | none =>
    have := free_le (b := (True, False)) ENNReal.one_ne_top h1 ⟨fun _ => rfl, False.elim⟩ c P hP hg hs M h a ha he hN hci hT hB False.elim
    rw [one_pow] at this
    exact sameLaw this
  | some x =>
    obtain ⟨k1, k2⟩ := hev x he
    have := evidence_le (b := (True, False)) ENNReal.one_ne_top h1 ⟨fun _ => rfl, False.elim⟩ c P hP hg hs M h _ hN x a ha k2 he k1 hci hT hB False.elim
    rw [one_pow] at this
    exact sameLaw this

/-- **C49**, total probability: differentiable sampling returns, with probability one, and every outcome has one entry per
position; so the bounds above are bounds between probability laws. -/
theorem C49_total (c : Config) (P : Params) (hP : P.Random) (hg : P.leaf.Good) (hs : P.leaf.CanSample) (M : Model)
    (h : build c P = .ok M) (a : SampleArgs) (hev : a.evidence = none) (hN : 0 < a.count)
    (hci : a.class_index = none) (hT : a.temperature_sums ≠ 0) (hL : 0 < a.temperature_leaves) (μ : Measure ℝ)
    (hμ : μ Set.univ = 1) :
    (M.sampleR μ a).E (fun _ => 1) = 1 ∧
    (M.sampleR μ a).E (fun t => if t.shape = [a.count, M.num_channels, M.num_features] then 1 else 0) = 1 := by
  have hsam := build_samplable hP hg hs h
  have hcok : M.ClassOK a.count a.class_index := by rw [hci]; trivial
  have hck := Model.check_ok (M := M) (a := a) hcok (by simp [hev])
  have hcs : M.evidenceCaches a = .ok ⟨[], none⟩ := by unfold Model.evidenceCaches; rw [hev]
  have hfull : Full (fun t : Tensor Fl => t.shape = [a.count, M.num_channels, M.num_features]) (M.sampleR μ a) := by
    rw [Model.sampleR_eq μ M a hck hcs]
    refine Full.bind (Model.sampleValuesR_mass hμ hsam hci hN hT hL (Model.evM_none M _) (Model.finZero M _)) fun v ⟨S, i⟩ => ?_
    have hf2 : Model.finishD a v = .ok v := by unfold Model.finishD; rw [hev]
    rw [hf2]
    exact Full.pure i.1
  refine ⟨hfull.mass, le_antisymm ((hfull 1 _).2 fun t _ => ?_) ((hfull 1 _).1 fun t ht => ?_)⟩
  · split_ifs <;> simp
  · rw [if_pos ht]

/-- **C49**, total probability with evidence. -/
theorem C49_total_evidence (c : Config) (P : Params) (hP : P.Random) (hg : P.leaf.Good) (hs : P.leaf.CanSample) (M : Model)
    (h : build c P = .ok M) (N : Nat) (hN : 0 < N) (x : Tensor Fl) (a : SampleArgs)
    (hx : Evidence M P.leaf N a.marginalized_scopes x) (hev : a.evidence = some x) (hns : a.num_samples = none)
    (hci : a.class_index = none) (hT : a.temperature_sums ≠ 0) (hL : 0 < a.temperature_leaves) (μ : Measure ℝ)
    (hμ : μ Set.univ = 1) :
    (M.sampleR μ a).E (fun _ => 1) = 1 ∧ (M.sampleR μ a).E (fun t => if t.shape = x.shape then 1 else 0) = 1 := by
  have hsam := build_samplable hP hg hs h
  obtain ⟨sc, hsc, hh⟩ := hx.scopes
  have hcount : a.count = N := by unfold SampleArgs.count; rw [hev]; simp [Tensor.size, hx.batch.1, at']
  have hp := (build_WF hP h).2.2.1 hg
  have hx3 : x.Is3 a.count M.num_channels M.num_features fun n c f => x.get [n, c, f] := by
    rw [hcount]; exact hx.batch.is3
  have hX : ∀ n, n < a.count → EvidenceOK M.leaf.base sc fun c f => x.get [n, c, f] := by
    rw [hcount]; exact hx.ok hP h hh
  obtain ⟨cs, hcs, hevm, hfin⟩ := Model.evidence_caches hsam.wf hp hev hx3 hsc hX
  have hcok : M.ClassOK a.count a.class_index := by rw [hci]; trivial
  have hck := Model.check_ok (a := a) hcok fun _ => ⟨hci, hns⟩
  have hfull : Full (fun t : Tensor Fl => t.shape = x.shape) (M.sampleR μ a) := by
    rw [Model.sampleR_eq μ M a hck hcs]
    refine Full.bind (Model.sampleValuesR_mass hμ hsam hci (by omega) hT hL hevm hfin) fun v ⟨S, i⟩ => Full.lift ?_
    obtain ⟨s2, f2, j2⟩ := Model.fillD_is hx3 i hsc
    have hf2 : Model.finishD a v = .ok s2 := by unfold Model.finishD; rw [hev]; exact f2
    exact ⟨s2, hf2, j2.1.trans hx3.1.symm⟩
  refine ⟨hfull.mass, le_antisymm ((hfull 1 _).2 fun t _ => ?_) ((hfull 1 _).1 fun t ht => ?_)⟩
  · split_ifs <;> simp
  · rw [if_pos ht]

/-- models, evidence and noise to which the theorems apply. -/
example : ∃ M, build (exConfig "linsum" "bottom-up") (exParams exLeaf) = .ok M ∧
    Evidence M (exParams exLeaf).leaf 3 none exBatch ∧
    (gumbelM (1 / 2) ≤ ENNReal.ofReal (Real.exp (1 / 2)) • gumbel0) ∧ gumbelM (1 / 2) Set.univ = 1 := by
  obtain ⟨M, h⟩ := exConfig_normal (l := "linsum") (s := "bottom-up") (Or.inr ⟨rfl, rfl⟩)
  obtain ⟨e1, e2, e3⟩ := exSizes h
  exact ⟨M, h, exEvidence e1 e2, gumbelM_le (by norm_num), gumbelM_mass _⟩

end Props
end Einet
