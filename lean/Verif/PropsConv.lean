import Verif.ConvBuild
import Verif.PropsDiffBinomial

/-!
# C40: convolutional circuits
-/

open Classical MeasureTheory
open scoped ENNReal
noncomputable section
namespace Einet
namespace Props
open Tensor Einet

/-! ### Specification -/

/-- `x` is a batch of `N` images whose entries are missing (NaN) or in the support of the leaf class. -/
def ImgBatch (s : LeafSpec) (N C H W : Nat) (x : Tensor Fl) : Prop :=
  x.shape = [N, C, H, W] ∧ ∀ n, n < N → ∀ c, c < C → ∀ y, y < H → ∀ z, z < W →
    x.get [n, c, y, z] = .nan ∨ ∃ v : ℝ, x.get [n, c, y, z] = .fin v ∧ s.InSupport v

/-- a batch of one complete image. -/
def oneImage {C H W : Nat} (ω : Fin C → Fin H → Fin W → ℝ) : Tensor Fl :=
  ⟨[1, C, H, W], fun i => if h : at' 1 i < C ∧ at' 2 i < H ∧ at' 3 i < W then
    .fin (ω ⟨_, h.1⟩ ⟨_, h.2.1⟩ ⟨_, h.2.2⟩) else .nan⟩

/-- `exp(model(x))` for one complete image, 0 if the call raises (images outside of the support). -/
def imgDensity (M : ConvModel) (ω : Fin M.num_channels → Fin M.height → Fin M.width → ℝ) : ℝ≥0∞ :=
  match M.forward (oneImage ω) with
  | .ok y => toP (y.get [0])
  | .error _ => 0

/-- the product of tests of the entries of a batch of `N` images. -/
def imgTest (N C H W : Nat) (t : Nat → Nat → Nat → Nat → ℝ → ℝ≥0∞) (s : Tensor Fl) : ℝ≥0∞ :=
  if s.shape = [N, C, H, W] then
    ∏ n ∈ Finset.range N, ∏ c ∈ Finset.range C, ∏ y ∈ Finset.range H, ∏ x ∈ Finset.range W, t n c y x (s.get [n, c, y, x]).val
  else 0

/-! ### Lemmas -/

section
variable {c : ConvConfig} {d : ImgShape} {P : ConvParams} {M : ConvModel}

theorem conv_leaves (h : buildConv c d P = .ok M) : M.leaf.num_leaves = c.channels.headD 0 :=
  (LeafSpec.build_spec (buildConv_spec h).2.2.2.2.1).2.1.2.2.1

theorem conv_proper (hg : P.leaf.Good) (h : buildConv c d P = .ok M) : M.leaf.Proper :=
  (LeafSpec.build_spec (buildConv_spec h).2.2.2.2.1).2.2.1 hg

theorem conv_samp (hg : P.leaf.Good) (hs : P.leaf.CanSample) (h : buildConv c d P = .ok M) : M.leaf.Samp :=
  (LeafSpec.build_spec (buildConv_spec h).2.2.2.2.1).2.2.2 hg hs

theorem conv_ref (h : buildConv c d P = .ok M) : M.leaf.ref = fun _ => P.leaf.ref := LeafSpec.ref_eq (buildConv_spec h).2.2.2.2.1

theorem ImgBatch.observed (h : buildConv c d P = .ok M) {N : Nat} {x : Tensor Fl}
    (hx : ImgBatch P.leaf N M.num_channels M.height M.width x) {n : Nat} (hn : n < N) :
    M.ObservedImg fun c y z => x.get [n, c, y, z] := fun c hc y hy z hz =>
  (hx.2 n hn c hc y hy z hz).imp_right fun ⟨v, e, hv⟩ => ⟨v, e, (LeafSpec.valid_iff (buildConv_spec h).2.2.2.2.1 v).2 hv⟩

theorem ImgBatch.is4 {s : LeafSpec} {N C H W : Nat} {x : Tensor Fl} (hx : ImgBatch s N C H W x) :
    x.Is4 N C H W fun n c y z => x.get [n, c, y, z] := by
  refine Is.intro hx.1 fun i hi => ?_
  match i, hi with
  | [n, c, y, z], _ => rfl

/-- `forward` on a batch of images that fit. -/
theorem conv_forward (hu : c.Usual d) (hf : c.SizeFits d) (h2 : c.channels.headD 0 ≠ 1) (hg : P.leaf.Good)
    (h : buildConv c d P = .ok M) {N : Nat} {x : Tensor Fl} (hx : ImgBatch P.leaf N M.num_channels M.height M.width x) :
    ∃ y, M.forward x = .ok y ∧ y.shape = [N] ∧ ∀ n, n < N → y.get [n] = M.outRow fun c y z => x.get [n, c, y, z] := by
  have hw := buildConv_WF hu hf h
  obtain ⟨y, hy, hy'⟩ := ConvModel.forward_is hw (by rwa [conv_leaves h]) hx.is4 fun n hn =>
    ((hx.observed h hn).flat hw.toFront).valid (conv_proper hg h).valid_zero
  exact ⟨y, hy, hy'.1, fun n hn => hy'.get (i := [n]) ⟨hn, trivial⟩⟩

theorem oneImage_batch (h : buildConv c d P = .ok M) {ω : Fin M.num_channels → Fin M.height → Fin M.width → ℝ}
    (hω : ∀ c (y : Fin M.height) (x : Fin M.width), M.leaf.valid (y * M.width + x) (.fin (ω c y x))) : ImgBatch P.leaf 1 M.num_channels M.height M.width (oneImage ω) := by
  refine ⟨rfl, fun n hn c hc y hy z hz => Or.inr ⟨ω ⟨c, hc⟩ ⟨y, hy⟩ ⟨z, hz⟩, ?_, ?_⟩⟩
  · simp [oneImage, at', hc, hy, hz]
  · exact (LeafSpec.valid_iff (buildConv_spec h).2.2.2.2.1 _).1 (hω _ _ _)

theorem imgDensity_eq (hu : c.Usual d) (hf : c.SizeFits d) (h2 : c.channels.headD 0 ≠ 1) (hg : P.leaf.Good)
    (h : buildConv c d P = .ok M) {ω : Fin M.num_channels → Fin M.height → Fin M.width → ℝ}
    (hω : ∀ c (y : Fin M.height) (x : Fin M.width), M.leaf.valid (y * M.width + x) (.fin (ω c y x))) : imgDensity M ω = toP (M.outRow (ImgPt.data ω)) := by
  obtain ⟨y, hy, _, hv⟩ := conv_forward hu hf h2 hg h (oneImage_batch h hω)
  unfold imgDensity
  rw [hy]
  show toP _ = _
  rw [hv 0 one_pos]
  rfl

theorem ae_valid_img (hg : P.leaf.Good) (h : buildConv c d P = .ok M) :
    ∀ᵐ ω : ImgPt M.num_channels M.height M.width
      ∂(Measure.pi fun _ => Measure.pi fun _ => Measure.pi fun _ => P.leaf.ref), ∀ c (y : Fin M.height) (x : Fin M.width), M.leaf.valid (y * M.width + x) (.fin (ω c y x)) := by
  have := ConvModel.missingImg_valid (conv_proper hg h) (M := M) (X := fun _ _ _ => .nan) fun _ _ _ _ _ _ => Or.inl rfl
  unfold missingImg at this
  simpa [conv_ref h] using this

end

/-! ### C40: forward -/

/-- **C40**, the first half: `exp(model(x))` is normalised.  Missing: circuits whose `channels[0]` is 1, for which it is false. -/
theorem C40_density_partial (c : ConvConfig) (d : ImgShape) (P : ConvParams) (hu : c.Usual d) (hf : c.SizeFits d)
    (h2 : c.channels.headD 0 ≠ 1) (hg : P.leaf.Good) (M : ConvModel) (h : buildConv c d P = .ok M) :
    ∫⁻ ω : Fin M.num_channels → Fin M.height → Fin M.width → ℝ, imgDensity M ω
      ∂(Measure.pi fun _ => Measure.pi fun _ => Measure.pi fun _ => P.leaf.ref) = 1 := by
  rw [← ConvModel.outRow_total (buildConv_WF hu hf h) (conv_proper hg h), conv_ref h]
  refine lintegral_congr_ae ?_
  filter_upwards [ae_valid_img hg h] with ω hω
  exact imgDensity_eq hu hf h2 hg h hω

/-- **C40** with missing pixels: every image with NaN entries gets a finite log-density, and its exponential is the integral of
`exp(model(x))` over the missing entries. -/
theorem C40_marginal_partial (c : ConvConfig) (d : ImgShape) (P : ConvParams) (hu : c.Usual d) (hf : c.SizeFits d)
    (h2 : c.channels.headD 0 ≠ 1) (hg : P.leaf.Good) (M : ConvModel) (h : buildConv c d P = .ok M) (N : Nat) (x : Tensor Fl)
    (hx : ImgBatch P.leaf N M.num_channels M.height M.width x) (n : Nat) (hn : n < N) :
    ∃ (y : Tensor Fl) (v : ℝ), M.forward x = .ok y ∧ y.shape = [N] ∧ y.get [n] = .fin v ∧
      ENNReal.ofReal (Real.exp v) = ∫⁻ ω : Fin M.num_channels → Fin M.height → Fin M.width → ℝ, imgDensity M ω
        ∂(Measure.pi fun c : Fin M.num_channels => Measure.pi fun y : Fin M.height => Measure.pi fun z : Fin M.width =>
          if x.get [n, c, y, z] = .nan then P.leaf.ref else Measure.dirac (x.get [n, c, y, z]).val) := by
  have hw := buildConv_WF hu hf h
  have hp := conv_proper hg h
  obtain ⟨y, hy, hs, hv⟩ := conv_forward hu hf h2 hg h hx
  have ho := hx.observed h hn
  obtain ⟨hfin, -⟩ := ConvModel.outRow_den hw hp ho
  obtain ⟨v, hfin⟩ := hfin
  refine ⟨y, v, hy, hs, by rw [hv n hn, hfin], ?_⟩
  have hm := ConvModel.outRow_missing hw hp ho
  rw [hfin] at hm
  refine (show _ = toP (.fin v) from rfl).trans (hm.trans ?_)
  have hv := ConvModel.missingImg_valid hp ho
  rw [conv_ref h] at hv ⊢
  refine lintegral_congr_ae ?_
  filter_upwards [hv] with ω hω
  exact (imgDensity_eq hu hf h2 hg h hω).symm

/-- **C40**, which images fit: `model(x)` returns a value exactly for the sizes that can be divided by the kernels all the way
up, and raises for all others. -/
theorem C40_fits_partial (c : ConvConfig) (d : ImgShape) (P : ConvParams) (hu : c.Usual d) (h2 : c.channels.headD 0 ≠ 1)
    (hg : P.leaf.Good) (M : ConvModel) (h : buildConv c d P = .ok M) (N : Nat) (x : Tensor Fl)
    (hx : ImgBatch P.leaf N M.num_channels M.height M.width x) : (∃ y, M.forward x = .ok y) ↔ c.SizeFits d := by
  refine ⟨fun ⟨y, hy⟩ => ?_, fun hf => ?_⟩
  · by_contra hf
    obtain ⟨e, he⟩ := buildConv_fails hu hf h (by rwa [conv_leaves h]) hx.is4 fun n hn =>
      ((hx.observed h hn).flat (buildConv_front hu.2.1 hu.2.2.1 h)).valid (conv_proper hg h).valid_zero
    rw [hy] at he
    cases he
  · obtain ⟨y, hy, -⟩ := conv_forward hu hf h2 hg h hx
    exact ⟨y, hy⟩

theorem conv_rejects {M : ConvModel} {x : Tensor Fl} {N : Nat} {X : Nat → Img Fl}
    (hx : x.Is4 N M.num_channels M.height M.width X) {n c y z : Nat} (hn : n < N) (hc : c < M.num_channels) (hy : y < M.height)
    (hz : z < M.width) {v : ℝ} (hv : X n c y z = .fin v) (hi : ¬ M.leaf.valid (y * M.width + z) (.fin v)) : Fails (M.forward x) := by
  have key : Fails (M.forwardLeaf x) := by
    unfold ConvModel.forwardLeaf
    refine Fails.require fun _ => ?_
    have hs0 : x.size 0 = N := by simp [Tensor.size, hx.1, at']
    rw [hs0]
    refine Fails.of_sat (view_is (s' := [N, M.num_channels, M.height * M.width]) hx (by simp [numelS]))
      fun u hu => ?_
    refine Fails.bind ?_ _
    unfold BaseLeaf.forward
    refine Fails.require fun _ => ?_
    refine Fails.require fun hall => ?_
    exfalso
    have hb : InB [N, M.num_channels, M.height * M.width] [n, c, y * M.width + z] := ⟨hn, hc, block_lt hy hz, trivial⟩
    have := (AllIdx_iff _ _).1 hall [n, c, y * M.width + z] (by rw [hu.1]; exact hb)
    rw [Is.get hu hb] at this
    have e : unflat [N, M.num_channels, M.height, M.width] (flat [N, M.num_channels, M.height * M.width]
        [n, c, y * M.width + z]) = [n, c, y, z] := by
      refine unflat_eq ⟨hn, hc, hy, hz, trivial⟩ ?_
      simp only [flat, numelS, mul_one]
      ring
    rw [e] at this
    exact hi (by simpa [at', hv, Fl.isnan] using this)
  obtain ⟨e, he⟩ := key
  exact ⟨e, by unfold ConvModel.forward ConvModel.forwardAll; rw [he]⟩

/-- **C40**: an image with an entry that is a number outside of the support of the leaf class is rejected, whatever the other
entries are. -/
theorem C40_rejects (c : ConvConfig) (d : ImgShape) (P : ConvParams) (M : ConvModel) (h : buildConv c d P = .ok M) (N : Nat) (x : Tensor Fl) (hx : x.shape = [N, d.channels, d.height, d.width])
    (n : Nat) (hn : n < N) (k : Nat) (hk : k < d.channels) (y : Nat) (hy : y < d.height) (z : Nat) (hz : z < d.width) (v : ℝ)
    (hv : x.get [n, k, y, z] = .fin v) (hi : ¬ P.leaf.InSupport v) : ∃ e, M.forward x = .error e := by
  obtain ⟨-, -, -, -, e0, -, e1, e2, e3⟩ := buildConv_spec h
  rw [← e1, ← e2, ← e3] at hx
  rw [← e1] at hk
  rw [← e2] at hy
  rw [← e3] at hz
  refine conv_rejects (X := fun n c y z => x.get [n, c, y, z]) (Is.intro hx fun i hi => ?_) hn hk hy hz
    hv fun hh => hi ((LeafSpec.valid_iff e0 v).1 hh)
  match i, hi with
  | [n, c, y, z], _ => rfl

/-- **C40** is false for `channels[0] = 1`: `squeeze(-1)` (conv_pc.py:641-642) removes the channels and every call of the model
raises. -/
theorem C40_refuted_single_channel (c : ConvConfig) (d : ImgShape) (P : ConvParams) (h1 : c.channels.headD 0 = 1) (M : ConvModel)
    (h : buildConv c d P = .ok M) (x : Tensor Fl) : ∃ e, M.forward x = .error e := by
  have hl := conv_leaves h
  have key : Fails (M.forwardLeaf x) := by
    cases hq : M.forwardLeaf x with
    | error e => exact ⟨e, rfl⟩
    | ok y =>
      exfalso
      unfold ConvModel.forwardLeaf at hq
      obtain ⟨_, -, hq⟩ := bind_ok hq
      obtain ⟨x1, -, hq⟩ := bind_ok hq
      obtain ⟨x2, -, hq⟩ := bind_ok hq
      obtain ⟨x3, e3, hq⟩ := bind_ok hq
      obtain ⟨x4, e4, hq⟩ := bind_ok hq
      obtain ⟨x5, e5, hq⟩ := bind_ok hq
      have s3 : x3.shape = [x2.size 0, M.num_channels, M.height, M.width, 1] := by
        unfold Tensor.view at e3
        obtain ⟨_, -, e3⟩ := bind_ok e3
        simp only [Res.pure_eq, Except.ok.injEq] at e3
        rw [← e3, hl, h1]
      have s4 : x4.shape = [x2.size 0, M.height, M.width, 1] := by
        unfold Tensor.sum at e4
        obtain ⟨_, -, e4⟩ := bind_ok e4
        simp only [Res.pure_eq, Except.ok.injEq] at e4
        rw [← e4]
        simp [s3, delAt]
      have s5 : x5.shape = [x2.size 0, M.height, M.width] := by
        unfold Tensor.squeeze at e5
        obtain ⟨_, -, e5⟩ := bind_ok e5
        rw [if_pos (by simp [Tensor.size, Tensor.rank, s4, at'])] at e5
        simp only [Res.pure_eq, Except.ok.injEq] at e5
        rw [← e5]
        simp [s4, delAt, Tensor.rank]
      unfold Tensor.permute at hq
      obtain ⟨_, e6, -⟩ := bind_ok hq
      rw [require_ok_iff] at e6
      have := e6.length_eq
      simp [Tensor.rank, s5] at this
  obtain ⟨e, he⟩ := key
  exact ⟨e, by unfold ConvModel.forward ConvModel.forwardAll; rw [he]⟩

/-! ### C40: sampling -/

/-- two programs with the same law up to a factor. -/
theorem conv_dominated {b : Prop × Prop} {k : ℝ≥0∞} {x y : Rand (Tensor Fl)} (h : RLe b k ConvModel.Eqv x y) : Dominated k x y :=
  dominated (b := b) h

theorem imgTest_same {N C H W : Nat} (t : Nat → Nat → Nat → Nat → ℝ → ℝ≥0∞) (s s' : Tensor Fl) (h : Same s s') :
    imgTest N C H W t s = imgTest N C H W t s' := by
  unfold imgTest
  rw [← h.1]
  split_ifs with hs
  · refine Finset.prod_congr rfl fun n hn => Finset.prod_congr rfl fun c hc => Finset.prod_congr rfl fun y hy =>
      Finset.prod_congr rfl fun x hx => ?_
    simp only [Finset.mem_range] at hn hc hy hx
    rw [h.2 _ (by rw [hs]; exact ⟨hn, hc, hy, hx, trivial⟩)]
  · rfl

theorem conv_spec_test (c : ConvConfig) (d : ImgShape) (P : ConvParams) (hu : c.Usual d) (hf : c.SizeFits d)
    (h2 : c.channels.headD 0 ≠ 1) (hg : P.leaf.Good) (hs : P.leaf.CanSample) (hb : ∀ n p, P.leaf ≠ .binomial n p)
    (M : ConvModel) (h : buildConv c d P = .ok M) (N : Nat) (a : ConvArgs) (hm : a.is_mpe = false)
    (hm' : a.mpe_at_leaves = false) (hT : a.temperature_sums = 1) (hL : a.temperature_leaves = 1)
    (t : Nat → Nat → Nat → Nat → ℝ → ℝ≥0∞) (ht : ∀ n c y x, Measurable (t n c y x)) :
    (M.spec N a).E (imgTest N M.num_channels M.height M.width t) = ∏ n ∈ Finset.range N,
      ∫⁻ ω : Fin M.num_channels → Fin M.height → Fin M.width → ℝ, (∏ c : Fin M.num_channels, ∏ y : Fin M.height, ∏ x : Fin M.width, t n c y x (ω c y x)) *
        imgDensity M ω
        ∂(Measure.pi fun _ => Measure.pi fun _ => Measure.pi fun _ => P.leaf.ref) := by
  have hw := buildConv_WF hu hf h
  have hp := conv_proper hg h
  have := ConvModel.spec_density hw hp (conv_samp hg hs h) (leafSpec_lawD (buildConv_spec h).2.2.2.2.1 hb) (N := N) hm hm' hT hL ht
  rw [conv_ref h] at this
  refine Eq.trans ?_ (this.trans (Finset.prod_congr rfl fun n _ => lintegral_congr_ae ?_))
  · unfold ConvModel.spec
    simp only [Rand.E_bind, Rand.E_pure]
    refine congrArg _ (funext fun ix => congrArg _ (funext fun v => ?_))
    unfold imgTest
    exact if_pos rfl
  · filter_upwards [ae_valid_img hg h] with ω hω
    rw [imgDensity_eq hu hf h2 hg h hω]

/-- **C40**, the second half: images sampled with exact Gumbel noise follow the density of `forward`, independently for every
sample.  The law is given by the expectations of products of tests of the pixels. -/
theorem C40_sample_partial (c : ConvConfig) (d : ImgShape) (P : ConvParams) (hu : c.Usual d) (hf : c.SizeFits d)
    (h2 : c.channels.headD 0 ≠ 1) (hg : P.leaf.Good) (hs : P.leaf.CanSample) (hb : ∀ n p, P.leaf ≠ .binomial n p)
    (M : ConvModel) (h : buildConv c d P = .ok M) (N : Nat) (a : ConvArgs) (hN : a.num_samples = some N)
    (he : a.evidence = none) (hm : a.is_mpe = false)
    (hm' : a.mpe_at_leaves = false) (hT : a.temperature_sums = 1) (hL : a.temperature_leaves = 1)
    (t : Nat → Nat → Nat → Nat → ℝ → ℝ≥0∞) (ht : ∀ n c y x, Measurable (t n c y x)) :
    (M.sample gumbel0 a).E (imgTest N M.num_channels M.height M.width t) = ∏ n ∈ Finset.range N,
      ∫⁻ ω : Fin M.num_channels → Fin M.height → Fin M.width → ℝ, (∏ c : Fin M.num_channels, ∏ y : Fin M.height, ∏ x : Fin M.width, t n c y x (ω c y x)) *
        imgDensity M ω
        ∂(Measure.pi fun _ => Measure.pi fun _ => Measure.pi fun _ => P.leaf.ref) := by
  rw [← conv_spec_test c d P hu hf h2 hg hs hb M h N a hm hm' hT hL t ht]
  unfold ConvModel.sample
  rw [he, hN]
  have := ConvModel.draw_le (μ := gumbel0) (b := (True, False)) (k := 1) ENNReal.one_ne_top (by simp) ⟨fun _ => rfl, False.elim⟩
    (buildConv_WF hu hf h) (conv_samp hg hs h).samplable (N := N) hm (by rw [hT]; exact one_ne_zero) False.elim
  rw [one_pow] at this
  exact sameLaw this _ (imgTest_same t)

/-- **C40** with the noise that the code computes (`eps = 1e-20`): no event on the sampled images is more than `exp(eps * N * k)`
times as probable as under the density of `forward`, where `k` depends on the configuration only. -/
theorem C40_noise_partial (c : ConvConfig) (d : ImgShape) (P : ConvParams) (hu : c.Usual d) (hf : c.SizeFits d)
    (h2 : c.channels.headD 0 ≠ 1) (hg : P.leaf.Good) (hs : P.leaf.CanSample) (hb : ∀ n p, P.leaf ≠ .binomial n p)
    (M : ConvModel) (h : buildConv c d P = .ok M) : ∃ k : Nat, ∀ (eps : ℝ) (_ : 0 < eps) (N : Nat) (a : ConvArgs)
    (_ : a.num_samples = some N) (_ : a.evidence = none) (_ : a.is_mpe = false)
    (_ : a.mpe_at_leaves = false) (_ : a.temperature_sums = 1) (_ : a.temperature_leaves = 1)
    (t : Nat → Nat → Nat → Nat → ℝ → ℝ≥0∞) (_ : ∀ n c y x, Measurable (t n c y x)),
    (M.sample (gumbelM eps) a).E (imgTest N M.num_channels M.height M.width t) ≤
      ENNReal.ofReal (Real.exp (eps * (N * k : ℕ))) * ∏ n ∈ Finset.range N,
      ∫⁻ ω : Fin M.num_channels → Fin M.height → Fin M.width → ℝ, (∏ c : Fin M.num_channels, ∏ y : Fin M.height, ∏ x : Fin M.width, t n c y x (ω c y x)) *
        imgDensity M ω
        ∂(Measure.pi fun _ => Measure.pi fun _ => Measure.pi fun _ => P.leaf.ref) := by
  refine ⟨noiseAtoms M.atoms, fun eps hp N a hN he hm hm' hT hL t ht => ?_⟩
  rw [← conv_spec_test c d P hu hf h2 hg hs hb M h N a hm hm' hT hL t ht]
  unfold ConvModel.sample
  rw [he, hN]
  have := ConvModel.draw_le (μ := gumbelM eps) (b := (False, False)) (k := ENNReal.ofReal (Real.exp eps)) ENNReal.ofReal_ne_top
    (gumbelM_le hp.le) ⟨False.elim, False.elim⟩
    (buildConv_WF hu hf h) (conv_samp hg hs h).samplable (N := N) hm (by rw [hT]; exact one_ne_zero) False.elim
  rw [gumbelM_bound] at this
  exact conv_dominated this _ (imgTest_same t)

/-- **C40** with the noise that the code computes, in both directions: the expectation of a product of tests of the pixels with values
in the unit interval differs by at most `exp(eps * N * k) - 1` from the one under the density of `forward`. -/
theorem C40_close_partial (c : ConvConfig) (d : ImgShape) (P : ConvParams) (hu : c.Usual d) (hf : c.SizeFits d)
    (h2 : c.channels.headD 0 ≠ 1) (hg : P.leaf.Good) (hs : P.leaf.CanSample) (hb : ∀ n p, P.leaf ≠ .binomial n p)
    (M : ConvModel) (h : buildConv c d P = .ok M) : ∃ k : Nat, ∀ (eps : ℝ) (_ : 0 < eps) (N : Nat) (a : ConvArgs)
    (_ : a.num_samples = some N) (_ : a.evidence = none) (_ : a.is_mpe = false)
    (_ : a.mpe_at_leaves = false) (_ : a.temperature_sums = 1) (_ : a.temperature_leaves = 1)
    (t : Nat → Nat → Nat → Nat → ℝ → ℝ≥0∞) (_ : ∀ n c y x, Measurable (t n c y x)) (_ : ∀ n c y x v, t n c y x v ≤ 1)
    (D : ℝ≥0∞) (_ : D = ∏ n ∈ Finset.range N,
      ∫⁻ ω : Fin M.num_channels → Fin M.height → Fin M.width → ℝ, (∏ c : Fin M.num_channels, ∏ y : Fin M.height, ∏ x : Fin M.width, t n c y x (ω c y x)) *
        imgDensity M ω
        ∂(Measure.pi fun _ => Measure.pi fun _ => Measure.pi fun _ => P.leaf.ref)),
    (M.sample (gumbelM eps) a).E (imgTest N M.num_channels M.height M.width t) ≤
      D + ENNReal.ofReal (Real.exp (eps * (N * k : ℕ)) - 1) ∧
    D ≤ (M.sample (gumbelM eps) a).E (imgTest N M.num_channels M.height M.width t) +
      ENNReal.ofReal (Real.exp (eps * (N * k : ℕ)) - 1) := by
  refine ⟨noiseAtoms M.atoms, fun eps hp N a hN he hm hm' hT hL t ht ht1 D hD => ?_⟩
  rw [hD, ← conv_spec_test c d P hu hf h2 hg hs hb M h N a hm hm' hT hL t ht]
  unfold ConvModel.sample
  rw [he, hN]
  have := ConvModel.draw_le (μ := gumbelM eps) (b := (False, True)) (k := ENNReal.ofReal (Real.exp eps)) ENNReal.ofReal_ne_top
    (gumbelM_le hp.le) ⟨False.elim, fun _ => gumbelM_mass eps⟩
    (buildConv_WF hu hf h) (conv_samp hg hs h).samplable (N := N) hm (by rw [hT]; exact one_ne_zero) fun _ =>
      Model.draws_near fun c f i r => (conv_samp hg hs h).probD _ (by
        show (0 : ℝ) < a.temperature_leaves
        rw [hL]; exact one_pos) c f i r
  rw [gumbelM_bound] at this
  rw [← gap_exp]
  refine close this _ (imgTest_same t) fun s => ?_
  unfold imgTest
  split_ifs
  · exact Finset.prod_le_one' fun n _ => Finset.prod_le_one' fun c _ => Finset.prod_le_one' fun y _ => Finset.prod_le_one' fun x _ =>
      ht1 _ _ _ _ _
  · exact zero_le

/-- **C40**: with any leaf class that can sample, any temperatures and any law of the noise, sampling returns with probability
one, and returns finite images of the right size.  `channels[0] = 1` is included. -/
theorem C40_total (c : ConvConfig) (d : ImgShape) (P : ConvParams) (hu : c.Usual d) (hf : c.SizeFits d)
    (hg : P.leaf.Good) (hs : P.leaf.CanSample) (M : ConvModel) (h : buildConv c d P = .ok M) (N : Nat) (a : ConvArgs)
    (hN : a.num_samples = some N) (he : a.evidence = none) (hT : a.temperature_sums ≠ 0) (hL : 0 < a.temperature_leaves)
    (μ : Measure ℝ) (hμ : μ Set.univ = 1) :
    (M.sample μ a).E (fun t => if t.shape = [N, d.channels, d.height, d.width] ∧
      ∀ i, InB t.shape i → ∃ v : ℝ, t.get i = .fin v then 1 else 0) = 1 := by
  unfold ConvModel.sample
  rw [he, hN]
  have hf := ConvModel.draw_full hμ (buildConv_WF hu hf h) (conv_samp hg hs h) (N := N) (a := a) hT hL
  obtain ⟨-, -, -, -, -, -, e1, e2, e3⟩ := buildConv_spec h
  refine le_antisymm ((hf 1 _).2 fun t _ => ?_) ((hf 1 _).1 fun t ⟨S, ht⟩ => ?_)
  · split_ifs <;> simp
  · rw [if_pos ⟨by rw [← e1, ← e2, ← e3]; exact ht.1, fun i hi => ⟨_, Is.get ht (by rwa [← ht.1])⟩⟩]

/-- the values returned for chosen components in the mode `is_mpe`. -/
theorem conv_pick {μ : Measure ℝ} {M : ConvModel} (hw : M.WF) (hs : M.leaf.samplable = true) {N : Nat} {a : ConvArgs}
    (hm : a.is_mpe = true) {cs : List (Option (Tensor Fl))} {q : DCtx} {ix : Nat → Nat → Nat → Nat}
    (h1 : sampleConv μ M.layers cs (ConvModel.initCtx N a) = .pure q)
    (h2 : q = { ConvModel.initCtx N a with indices_out := q.indices_out })
    (h3 : CCtx q N M.leaf.num_leaves M.height M.width ix) : ∃ t, M.draw μ cs N a = .pure t ∧
      t.shape = [N, M.num_channels, M.height, M.width] ∧
        ∀ n, n < N → ∀ k, k < M.num_channels → ∀ y, y < M.height → ∀ x, x < M.width →
          t.get [n, k, y, x] = .fin (M.leaf.mode k (y * M.width + x) (ix n y x) 0) := by
  obtain ⟨res, r1, r2⟩ := ConvModel.end_eq hw hs h2 h3
  have hd : M.leaf.diff.draws (BaseLeaf.drawCtx (ConvModel.initCtx N a)) = .pure fun j =>
      M.leaf.mode (at' 1 j) (at' 2 j) (at' 3 j) (at' 4 j) := if_pos (Or.inl hm)
  refine ⟨res fun j => M.leaf.mode (at' 1 j) (at' 2 j) (at' 3 j) (at' 4 j), ?_, (r2 _).1, ?_⟩
  · unfold ConvModel.draw
    rw [h1, Rand.pure_bind, r1, hd, Rand.pure_bind]
  · intro n hn k hk y hy x hx
    rw [(r2 _).2 _ (by rw [(r2 _).1]; exact ⟨hn, hk, hy, hx, trivial⟩)]
    rfl

/-- the chosen components in the mode `is_mpe`. -/
theorem conv_mpe {M : ConvModel} (hw : M.WF) (N : Nat) (a : ConvArgs) (μ : Measure ℝ) (hm : a.is_mpe = true)
    (hT : a.temperature_sums ≠ 0) : ∃ d, sampleConv μ M.layers [] (ConvModel.initCtx N a) = .pure d ∧
      d = { ConvModel.initCtx N a with indices_out := d.indices_out } ∧
      CCtx d N M.leaf.num_leaves M.height M.width fun _ => bestAtoms a.temperature_sums M.atoms fun _ _ => 0 := by
  rw [sampleConv_atoms hw.known]
  exact sampleAtoms_mpe (μ := μ) hw.chain (ctx := ConvModel.initCtx N a) (idx := fun _ _ => 0) hm hT (ConvModel.initCtx_ok N a)

/-- **C40**: with `is_mpe=True` the call is deterministic, and returns the same image for every sample: for every pixel the modes
of one component, the same component for all channels of the pixel. -/
theorem C40_mpe (c : ConvConfig) (d : ImgShape) (P : ConvParams) (hu : c.Usual d) (hf : c.SizeFits d)
    (hg : P.leaf.Good) (hs : P.leaf.CanSample) (M : ConvModel) (h : buildConv c d P = .ok M) (T : ℝ) (hT : T ≠ 0) :
    ∃ ix : Nat → Nat → Nat, (∀ y, y < d.height → ∀ x, x < d.width → ix y x < c.channels.headD 0) ∧
      ∀ (N : Nat) (a : ConvArgs) (μ : Measure ℝ), a.num_samples = some N → a.evidence = none → a.is_mpe = true →
        a.temperature_sums = T → ∃ t, M.sample μ a = .pure t ∧ t.shape = [N, d.channels, d.height, d.width] ∧
          ∀ n, n < N → ∀ k, k < d.channels → ∀ y, y < d.height → ∀ x, x < d.width →
            t.get [n, k, y, x] = .fin (M.leaf.mode k (y * d.width + x) (ix y x) 0) := by
  have hw := buildConv_WF hu hf h
  obtain ⟨-, -, -, -, -, -, e1, e2, e3⟩ := buildConv_spec h
  refine ⟨bestAtoms T M.atoms fun _ _ => 0, ?_, fun N a μ hN he hm ht => ?_⟩
  · intro y hy x hx
    obtain ⟨d, -, -, h3⟩ := conv_mpe hw 1 { is_mpe := true, temperature_sums := T } 0 rfl hT
    have := h3.lt 0 one_pos y (by rwa [e2]) x (by rwa [e3])
    rwa [conv_leaves h] at this
  · obtain ⟨q, h1, h2, h3⟩ := conv_mpe hw N a μ hm (by rwa [ht])
    rw [ht] at h3
    obtain ⟨t, h4, h5⟩ := conv_pick hw (conv_samp hg hs h).samplable hm h1 h2 h3
    rw [e1, e2, e3] at h5
    refine ⟨t, ?_, h5⟩
    unfold ConvModel.sample
    rw [he, hN]
    exact h4

/-! ### C40: `Binomial` leaves -/

/-- **C40** is false for `Binomial` leaves: with positive probability a sampled image is one that `forward` rejects.  (The
sampling of `ConvPc` always uses the clipped normal of `DifferentiableBinomial`.) -/
theorem C40_refuted_binomial (c : ConvConfig) (d : ImgShape) (P : ConvParams) (hu : c.Usual d) (hf : c.SizeFits d)
    (n : ℤ) (p : Par) (hl : P.leaf = .binomial n p) (M : ConvModel) (h : buildConv c d P = .ok M) (N : Nat) (hN0 : 0 < N)
    (a : ConvArgs) (hN : a.num_samples = some N) (he : a.evidence = none) (hm : a.is_mpe = false) (hm' : a.mpe_at_leaves = false)
    (hT : a.temperature_sums ≠ 0) (hL : 0 < a.temperature_leaves) (μ : Measure ℝ) (hμ : μ Set.univ = 1) :
    0 < (M.sample μ a).E fun t => if ∃ e, M.forward t = .error e then 1 else 0 := by
  have hg : P.leaf.Good := by rw [hl]; trivial
  have hsam := conv_samp hg (by rw [hl]; trivial) h
  have hw := buildConv_WF hu hf h
  obtain ⟨-, -, hC0, -, hb, -, e1, e2, e3⟩ := buildConv_spec h
  rw [← e1] at hC0
  have hvalid := fun f => LeafSpec.valid_iff hb (f := f)
  rw [hl] at hb
  obtain ⟨_, _, hb⟩ := bind_ok hb
  have hn1 : 1 ≤ n := ((checkInt_iff n 1 one_ne_zero _ _).1 hb).1
  obtain ⟨_, hn, hb⟩ := bind_ok hb
  simp only [Res.pure_eq, Except.ok.injEq] at hb
  obtain ⟨m, hm0, hmin⟩ : ∃ m : ℝ≥0∞, 0 < m ∧ ∀ i, i < M.leaf.num_leaves →
      m ≤ M.leaf.lawD a.temperature_leaves 0 0 i 0 nonInt := by
    refine ⟨(Finset.range M.leaf.num_leaves).inf fun q =>
      M.leaf.lawD a.temperature_leaves 0 0 q 0 nonInt, ?_, fun i hi =>
      Finset.inf_le (f := fun q : Nat => M.leaf.lawD a.temperature_leaves 0 0 q 0 nonInt) (by simpa using hi)⟩
    rw [Finset.lt_inf_iff (by simp)]
    intro q _
    rw [← hb]
    exact clippedNormal_nonInt (by omega) (sigmoid_pos' _).1 (sub_pos.1 (sigmoid_pos' _).2)
  refine lt_of_lt_of_le hm0 ?_
  unfold ConvModel.sample
  rw [he, hN]
  show _ ≤ (ConvModel.draw μ M [] N a).E _
  unfold ConvModel.draw
  rw [sampleConv_atoms hw.known, Rand.E_bind]
  refine (sampleAtoms_full hμ hw.chain (ctx := ConvModel.initCtx N a) hT (ConvModel.initCtx_ok N a) m _).1
    fun q ⟨hq, ix, hq'⟩ => ?_
  obtain ⟨res, r1, r2⟩ := ConvModel.end_eq hw hsam.samplable hq hq'
  rw [r1, Rand.E_bind]
  have hF0 : 0 < M.leaf.num_features := by rw [hw.features]; exact Nat.mul_pos hw.hpos hw.wpos
  have hpD : ∀ c f i r, IsProbabilityMeasure (M.leaf.diff.law (BaseLeaf.drawCtx (ConvModel.initCtx N a)).temperature_leaves c f i r) :=
    hsam.probD _ hL
  have key := M.leaf.diff.draws_E (ctx := BaseLeaf.drawCtx (ConvModel.initCtx N a)) (N := N) rfl hpD
    (K := fun n f => ix n (f / M.width) (f % M.width)) (rr := fun _ => 0)
    (fun n hn f hf => by
      show _ < M.leaf.num_leaves
      have hf' : f < M.height * M.width := by rw [← hw.features]; exact hf
      exact hq'.lt n hn _ (Nat.div_lt_of_lt_mul (by rwa [mul_comm])) _ (Nat.mod_lt _ hw.wpos))
    (fun n hn => by show _ < M.leaf.num_repetitions; rw [hw.reps]; exact one_pos) firstTest_measurable
  have hmode : ((BaseLeaf.drawCtx (ConvModel.initCtx N a)).is_mpe || (BaseLeaf.drawCtx (ConvModel.initCtx N a)).mpe_at_leaves) =
      false := by simp [BaseLeaf.drawCtx, ConvModel.initCtx, hm, hm']
  have hc' : M.leaf.diff.num_channels = M.num_channels := hw.channels
  have hf' : M.leaf.diff.num_features = M.leaf.num_features := rfl
  rw [hmode, hc', hf', prod_firstTest hN0 hC0 hF0 _ hpD] at key
  simp only [Nat.zero_div, Nat.zero_mod] at key
  refine le_trans (hmin _ (hq'.lt 0 hN0 0 hw.hpos 0 hw.wpos)) (le_trans (le_of_eq key.symm) (Rand.E_mono' fun v => ?_))
  rw [Rand.E_pure, ← fractional_eq hN0 hC0 hF0 (t := ⟨[N, M.num_channels, M.leaf.num_features], fun j =>
    .fin (v [at' 0 j, at' 1 j, at' 2 j, ix (at' 0 j) (at' 2 j / M.width) (at' 2 j % M.width), 0])⟩)
    (S := fun n c f => v [n, c, f, ix n (f / M.width) (f % M.width), 0]) (Is.intro rfl fun _ _ => rfl)]
  unfold fractional
  split_ifs with h1 h2
  · exact le_rfl
  · exfalso
    refine h2 (conv_rejects (X := fun n c y x => .fin (v [n, c, y * M.width + x, ix n y x, 0]))
      (Is.intro (r2 v).1 fun i hi => ?_) hN0 hC0 hw.hpos hw.wpos rfl fun hh => h1.2 ?_)
    · rw [(r2 v).2 _ (by rw [(r2 v).1]; exact hi)]
      rfl
    · have := (hvalid _ _).1 hh
      rw [hl] at this
      obtain ⟨k, -, hk⟩ := this
      refine ⟨k, ?_⟩
      simpa [at'] using hk
  all_goals simp

/-! ### Witnesses -/

/-- a configuration with three layers of kernels. -/
def exConv (s o : String) : ConvConfig := ⟨[3, 2, 4], 2, s, o⟩

/-- parameters of circuits. -/
def exConvParams (l : LeafSpec) : ConvParams := ⟨l, fun k i => k + at' 0 i * at' 1 i⟩

/-- all structures and orders have circuits for which the hypotheses of C40 hold, for images of 8 × 24 pixels. -/
example (s o : String) (hs : s = "bottom-up" ∨ s = "top-down") (ho : o = "sum-prod" ∨ o = "prod-sum") (l : LeafSpec)
    (hl : l = .normal (fun _ _ i _ => i) (fun _ _ _ _ => 0) ∨ l = .binomial 7 fun _ _ i _ => i) :
    ∃ M, buildConv (exConv s o) ⟨3, 8, 24⟩ (exConvParams l) = .ok M ∧ (exConv s o).Usual ⟨3, 8, 24⟩ ∧
      (exConv s o).SizeFits ⟨3, 8, 24⟩ ∧ (exConv s o).channels.headD 0 ≠ 1 ∧ l.Good ∧ l.CanSample := by
  have hu : (exConv s o).Usual ⟨3, 8, 24⟩ := ⟨by simp [exConv], by norm_num, by norm_num, ho⟩
  have hf : (exConv s o).SizeFits ⟨3, 8, 24⟩ := ⟨fun _ => by norm_num [exConv], fun _ => by norm_num [exConv]⟩
  obtain ⟨M, hM⟩ := buildConv_ok (P := exConvParams l) (by simp [exConv]) (by norm_num) hu (fun _ => hf) hs (by
    rcases hl with rfl | rfl <;> simp [exConvParams, LeafSpec.build, exConv]
    exact ⟨_, (checkInt_iff 7 1 one_ne_zero _ _).2 ⟨by norm_num, rfl⟩⟩)
  refine ⟨M, hM, hu, hf, by simp [exConv], ?_⟩
  rcases hl with rfl | rfl <;> exact ⟨trivial, trivial⟩

/-- circuits are also built for images that do not fit the structure. -/
example : ∃ M, buildConv (exConv "top-down" "sum-prod") ⟨3, 8, 20⟩ (exConvParams (.bernoulli fun _ _ i _ => i)) = .ok M ∧
    (exConv "top-down" "sum-prod").Usual ⟨3, 8, 20⟩ ∧ ¬ (exConv "top-down" "sum-prod").SizeFits ⟨3, 8, 20⟩ := by
  have hu : (exConv "top-down" "sum-prod").Usual ⟨3, 8, 20⟩ := ⟨by simp [exConv], by norm_num, by norm_num, Or.inl rfl⟩
  obtain ⟨M, hM⟩ := buildConv_ok (P := exConvParams (.bernoulli fun _ _ i _ => i)) (by simp [exConv]) (by norm_num) hu
    (fun h => absurd h (by decide)) (Or.inr rfl) (by simp [exConvParams, LeafSpec.build, exConv])
  exact ⟨M, hM, hu, fun h => by have := (h.2 rfl).2; norm_num [exConv] at this⟩

/-- a circuit with one input channel of the lowest layer. -/
example : ∃ M, buildConv ⟨[1, 2], 2, "bottom-up", "sum-prod"⟩ ⟨1, 2, 2⟩ (exConvParams (.bernoulli fun _ _ i _ => i)) = .ok M := by
  refine buildConv_ok (by simp) (by norm_num) ⟨by simp, by norm_num, by norm_num, Or.inl rfl⟩
    (fun _ => ⟨fun _ => by norm_num, fun h => absurd h (by decide)⟩) (Or.inl rfl) (by simp [exConvParams, LeafSpec.build])

end Props
end Einet
