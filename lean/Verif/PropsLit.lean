import Verif.LitFacts
import Verif.PropsAccept
import Verif.PropsTrain
import Verif.PropsRat

/-!
# C67: images of the data sets and generated images are data for the model of the training scripts
-/

open Classical MeasureTheory
open scoped ENNReal
noncomputable section
namespace Einet
namespace Props
open Tensor Einet

/-! ### Specification -/

/-- `x` is a batch of `N` images with eight bits per pixel, as `ToTensor` delivers them: entry `k / 255` for the pixel value `k`. -/
def Pixels (N : Nat) (s : ImgShape) (k : Nat → Nat → Nat → Nat → Nat) (x : Tensor Fl) : Prop :=
  x.shape = [N, s.channels, s.height, s.width] ∧
    ∀ n, n < N → ∀ c, c < s.channels → ∀ i, i < s.height → ∀ j, j < s.width →
      k n c i j ≤ 255 ∧ x.get [n, c, i, j] = .fin (k n c i j / 255)

/-- `P` holds for every pixel of every image. -/
def EveryPixel (N : Nat) (s : ImgShape) (P : Nat → Nat → Nat → Nat → Prop) : Prop :=
  ∀ n, n < N → ∀ c, c < s.channels → ∀ i, i < s.height → ∀ j, j < s.width → P n c i j

/-- pixel values a model of the scripts can be trained on: all of them with normal leaves, those of at most `n_bits` bits with
binomial leaves, black and white with categorical leaves. -/
def PixelFits (n_bits : Nat) : DistName → Nat → Prop
  | .normal, _ => True
  | .normalRat, _ => True
  | .binomial, k => k < 2 ^ n_bits
  | .categorical, k => k = 0 ∨ k = 255 ∧ 2 ≤ n_bits

/-- images as a model with binomial leaves should generate them: shape of the data, entries `k / 255` for integers of `n_bits` bits,
and after `preprocess` the model gives them a finite loss. -/
def GoodImages (cfg : LitCfg) (M : Model) (s : ImgShape) (N : Nat) (t : Tensor Fl) : Prop :=
  t.shape = [N, s.channels, s.height, s.width] ∧
    EveryPixel N s (fun n c i j => ∃ k : ℕ, k < 2 ^ cfg.n_bits ∧ t.get [n, c, i, j] = .fin (k / 255)) ∧
    ∃ r : ℝ, negativeLogLikelihood M (litPreprocess cfg.dist t) = .ok (.fin r)

/-- images with the shape of the data, no pixel brighter than `b`. -/
def DarkImages (b : ℝ) (s : ImgShape) (N : Nat) (t : Tensor Fl) : Prop :=
  t.shape = [N, s.channels, s.height, s.width] ∧
    EveryPixel N s fun n c i j => ∃ v : ℝ, v ≤ b ∧ t.get [n, c, i, j] = .fin v

/-! ### Lemmas -/

theorem nll_congr {M : Model} {x x' : Tensor Fl} (h : SameResult (M.forward x) (M.forward x')) (r : String) :
    negativeLogLikelihood M x r = negativeLogLikelihood M x' r := by
  unfold negativeLogLikelihood
  cases hy : M.forward x with
  | error e =>
    cases hy' : M.forward x' with
    | error e' => rw [hy, hy'] at h; rw [show e = e' from h]
    | ok y' => rw [hy, hy'] at h; exact h.elim
  | ok y =>
    cases hy' : M.forward x' with
    | error e' => rw [hy, hy'] at h; exact h.elim
    | ok y' =>
      rw [hy, hy'] at h
      obtain ⟨h1, h2⟩ := h
      have e : (y.map (Fl.fin (-1) * ·)).sumAll = (y'.map (Fl.fin (-1) * ·)).sumAll := by
        unfold sumAll
        simp only [Tensor.map, numel, ← h1]
        refine Fl.sumN_congr fun i hi => ?_
        rw [(AllIdx_iff _ _).1 h2 _ (unflat_inB hi)]
      have e' : (y.map (Fl.fin (-1) * ·)).meanAll = (y'.map (Fl.fin (-1) * ·)).meanAll := by
        unfold meanAll
        rw [e]
        simp only [Tensor.map, numel, ← h1]
      simp only [Res.ok_bind, e, e']

/-- images with finite entries: the loss is a number if all entries are in the support, and a `ValueError` otherwise. -/
theorem nll_images {c : Config} {P : Params} (hP : P.Random) (hg : P.leaf.Good) {M : Model} (h : build c P = .ok M) {s : ImgShape}
    (hs : M.num_channels = s.channels ∧ M.num_features = s.height * s.width) {N : Nat} (hN : 0 < N) {x : Tensor Fl}
    (hx : x.shape = [N, s.channels, s.height, s.width]) {v : Nat → Nat → Nat → Nat → ℝ}
    (hv : EveryPixel N s fun n c i j => x.get [n, c, i, j] = .fin (v n c i j)) :
    (EveryPixel N s (fun n c i j => P.leaf.InSupport (v n c i j)) → ∃ r : ℝ, negativeLogLikelihood M x = .ok (.fin r)) ∧
    (¬ EveryPixel N s (fun n c i j => P.leaf.InSupport (v n c i j)) → negativeLogLikelihood M x = .error .value) := by
  obtain ⟨e1, e2⟩ := hs
  set x' : Tensor Fl := ⟨[N, M.num_channels, s.height * s.width], fun i => x.get [at' 0 i, at' 1 i, at' 2 i / s.width, at' 2 i % s.width]⟩ with hx'
  have hF : 0 < s.height * s.width := by
    rw [← e2, (build_WF hP h).1.features]
    have := (assertValid_iff c).1 (build_valid h)
    omega
  have hW : 0 < s.width := Nat.pos_of_mul_pos_left hF
  have hd : ∀ i j, j < s.width → (i * s.width + j) / s.width = i ∧ (i * s.width + j) % s.width = j := fun i j hj =>
    ⟨by rw [Nat.mul_comm, Nat.mul_add_div hW, Nat.div_eq_of_lt hj, Nat.add_zero], by rw [Nat.mul_comm, Nat.mul_add_mod, Nat.mod_eq_of_lt hj]⟩
  have hsame : SameResult (M.forward x) (M.forward x') := by
    refine C07_rank4 c P hP M h N s.height s.width hN x x' (by rw [e1]; exact hx) rfl e2.symm (fun n hn c hc i hi j hj => ?_) none
    show x.get [n, c, (i * s.width + j) / s.width, (i * s.width + j) % s.width] = _
    rw [(hd i j hj).1, (hd i j hj).2]
  have hget : ∀ n, n < N → ∀ c, c < s.channels → ∀ f, f < s.height * s.width →
      x'.get [n, c, f] = .fin (v n c (f / s.width) (f % s.width)) := fun n hn c hc f hf =>
    hv n hn c hc _ ((Nat.div_lt_iff_lt_mul hW).2 hf) _ (Nat.mod_lt _ hW)
  rw [nll_congr hsame]
  have hz := (build_WF hP h).1
  constructor
  · intro hin
    refine ⟨_, negativeLogLikelihood_mean hP hg h hN ⟨by rw [e2], fun n hn c hc f hf => Or.inr ⟨_, hget n hn c (by omega) f (by omega), ?_⟩⟩⟩
    rw [e2] at hf
    exact hin n hn c (by omega) _ ((Nat.div_lt_iff_lt_mul hW).2 hf) _ (Nat.mod_lt _ hW)
  · intro hin
    have := (C66_accepts_iff c P hP hg M h N x' (by rw [← hz.channels, ← hz.features, e2]) (fun i hi => ?_)).2 fun hb => hin ?_
    · unfold negativeLogLikelihood; rw [this]; rfl
    · match i, hi with
      | [n, c, f], ⟨h0, h1, h2, _⟩ => exact Or.inr ⟨_, hget n h0 c (by rw [← e1]; exact h1) f h2⟩
    · intro n hn c hc i hi j hj
      have hlt : i * s.width + j < s.height * s.width := by nlinarith
      have hg' := hget n hn c hc _ hlt
      rw [(hd i j hj).1, (hd i j hj).2] at hg'
      rcases hb.2 n hn c (by rw [← hz.channels, e1]; exact hc) (i * s.width + j) (by rw [← hz.features, e2]; exact hlt) with e | ⟨r, e, hr⟩
      · change x'.get _ = _ at e; rw [hg'] at e; cases e
      · change x'.get _ = _ at e
        rw [hg'] at e
        rwa [Fl.fin_injective e]

theorem makeEinet_spec {cfg : LitCfg} {A : LeafArrays} {P : Params} (hP : P.Random) {M : Model} (h : makeEinet cfg A P = .ok M)
    {s : ImgShape} (hs : getDataShape cfg.dataset = .ok s) :
    build (cfg.config s) { P with leaf := cfg.leaf A } = .ok M ∧ ({ P with leaf := cfg.leaf A } : Params).Random ∧
      M.num_channels = s.channels ∧ M.num_features = s.height * s.width := by
  unfold makeEinet at h
  rw [hs, Res.ok_bind] at h
  have hP' : ({ P with leaf := cfg.leaf A } : Params).Random := ⟨hP.1, hP.2⟩
  have hz := (build_WF hP' h).1
  exact ⟨h, hP', by rw [hz.channels]; simp [LitCfg.config], by
    rw [hz.features]; simp only [LitCfg.config, ImgShape.num_pixels, Int.toNat_natCast, Nat.mul_comm]⟩

/-- value of a pixel after preprocessing. -/
def scaled (d : DistName) (x : ℝ) : ℝ := match d with | .binomial => x * 255 | _ => x

theorem litPreprocess_shape (d : DistName) (x : Tensor Fl) : (litPreprocess d x).shape = x.shape := by cases d <;> rfl

theorem litPreprocess_get {d : DistName} {x : Tensor Fl} {i : List Nat} {v : ℝ} (h : x.get i = .fin v) :
    (litPreprocess d x).get i = .fin (scaled d v) := by
  cases d
  · exact h
  · exact h
  · show x.get i * .fin 255 = _
    rw [h]; rfl
  · exact h

theorem scaled_fits {cfg : LitCfg} {A : LeafArrays} (hg : (cfg.leaf A).Good) {k : Nat} (hk : k ≤ 255) :
    (cfg.leaf A).InSupport (scaled cfg.dist (k / 255)) ↔ PixelFits cfg.n_bits cfg.dist k := by
  unfold LitCfg.leaf at hg ⊢
  cases hd : cfg.dist with
  | normal => simp [getDistribution, LeafSpec.InSupport, PixelFits]
  | normalRat => simp [getDistribution, LeafSpec.InSupport, PixelFits]
  | binomial =>
    simp only [getDistribution, LeafSpec.InSupport, PixelFits, scaled]
    have e : (k : ℝ) / 255 * 255 = k := by field_simp
    rw [e]
    constructor
    · rintro ⟨m, hm, e⟩
      have : k = m := by exact_mod_cast e
      subst this
      have : (k : ℤ) < 2 ^ cfg.n_bits := by omega
      exact_mod_cast this
    · intro hlt
      have : (k : ℤ) < 2 ^ cfg.n_bits := by exact_mod_cast hlt
      exact ⟨k, by omega, rfl⟩
  | categorical =>
    rw [hd] at hg
    simp only [getDistribution, LeafSpec.InSupport, LeafSpec.Good, PixelFits, scaled] at hg ⊢
    constructor
    · rintro ⟨m, hm, e⟩
      have e' : (k : ℝ) = 255 * m := by field_simp at e; linarith
      have e'' : k = 255 * m := by exact_mod_cast e'
      rcases Nat.eq_zero_or_pos m with h0 | h0
      · exact Or.inl (by rw [e'', h0])
      · have h1 : m = 1 := by omega
        refine Or.inr ⟨by rw [e'', h1], ?_⟩
        by_contra hlt
        have : cfg.n_bits = 0 ∨ cfg.n_bits = 1 := by omega
        rcases this with e | e <;> rw [e] at hm <;> norm_num at hm <;> omega
    · rintro (rfl | ⟨rfl, h2⟩)
      · exact ⟨0, by push_cast; omega, by simp⟩
      · refine ⟨1, ?_, by norm_num⟩
        have : (2 : ℤ) ^ 2 ≤ 2 ^ cfg.n_bits := pow_le_pow_right₀ (by norm_num) h2
        push_cast; omega

/-! ### Theorems -/

/-- **C67**, which models can be built: `make_einet` succeeds exactly for known data sets with at least two pixels, positive sizes,
a depth whose number of regions does not exceed the number of pixels, known layers, and at least one bit for binomial leaves.
The model has the sizes of the images and of the configuration. -/
theorem C67_builds (cfg : LitCfg) (A : LeafArrays) (P : Params) (hP : P.Random) (q : ℝ) (hq : 0 ≤ q ∧ q < 1)
    (hd : cfg.dropout = some (.fin q)) (hs : cfg.dist = .normalRat → 0 < cfg.min_sigma ∧ cfg.min_sigma < cfg.max_sigma) :
    ((∃ M, makeEinet cfg A P = .ok M) ↔ ∃ s, getDataShape cfg.dataset = .ok s ∧ 2 ≤ s.height * s.width ∧ 1 ≤ s.channels ∧
      1 ≤ cfg.num_classes ∧ 1 ≤ cfg.S ∧ 1 ≤ cfg.R ∧ 1 ≤ cfg.I ∧ 0 ≤ cfg.D ∧ 2 ^ cfg.D.toNat ≤ s.height * s.width ∧
      cfg.layer_type ∈ ["linsum", "linsum2", "einsum"] ∧ cfg.structure' ∈ ["top-down", "bottom-up"] ∧
      (cfg.structure' = "bottom-up" → cfg.layer_type = "linsum" ∧ 0 < cfg.D) ∧ (cfg.dist = .binomial → 1 ≤ cfg.n_bits)) ∧
    ∀ M, makeEinet cfg A P = .ok M → ∃ s, getDataShape cfg.dataset = .ok s ∧ M.num_channels = s.channels ∧
      M.num_features = s.height * s.width ∧ (M.num_classes : ℤ) = cfg.num_classes ∧ (M.num_leaves : ℤ) = cfg.I ∧
      (M.num_repetitions : ℤ) = cfg.R := by
  constructor
  · cases hds : getDataShape cfg.dataset with
    | error e =>
      unfold makeEinet
      rw [hds]
      constructor
      · rintro ⟨M, h⟩; cases h
      · rintro ⟨s, h, -⟩; cases h
    | ok s =>
      unfold makeEinet
      rw [hds]
      simp only [Res.ok_bind]
      rw [build_iff, assertValid_iff]
      have hleaf : (∃ B, (cfg.leaf A).build none (cfg.config s).leafDims = .ok B) ↔ (cfg.dist = .binomial → 1 ≤ cfg.n_bits) := by
        unfold LitCfg.leaf
        cases hdd : cfg.dist with
        | normal => simp [getDistribution, LeafSpec.build]
        | normalRat =>
          obtain ⟨B, hB, -⟩ := C39_named cfg.n_bits (hs hdd).1 (hs hdd).2 A.p A.q A.logits (cfg.config s).leafDims
          simp [hB]
        | binomial =>
          have e : (1 : ℤ) ≤ 2 ^ cfg.n_bits - 1 ↔ 1 ≤ cfg.n_bits := by
            rcases Nat.eq_zero_or_pos cfg.n_bits with h0 | h0
            · rw [h0]; norm_num
            · have : (2 : ℤ) ^ 1 ≤ 2 ^ cfg.n_bits := pow_le_pow_right₀ (by norm_num) h0
              exact ⟨fun _ => h0, fun _ => by omega⟩
          simp only [getDistribution, LeafSpec.build, require_true, Res.ok_bind, forall_const]
          rw [← e]
          constructor
          · rintro ⟨B, hB⟩
            exact ((checkInt_iff _ 1 one_ne_zero _ _).1 hB).1
          · exact fun h => ⟨_, (checkInt_iff _ 1 one_ne_zero _ _).2 ⟨h, rfl⟩⟩
        | categorical =>
          have h1 : (1 : ℤ) ≤ 2 ^ cfg.n_bits := one_le_pow₀ (by norm_num)
          simp only [getDistribution, LeafSpec.build, require_true, Res.ok_bind]
          rw [require_true _ (show (0 : ℤ) ≤ 2 ^ cfg.n_bits - 1 by omega)]
          simp
      have hpow : ∀ D : ℤ, 0 ≤ D → ((2 : ℚ) ^ D ≤ (Int.fdiv ((s.height * s.width : ℕ) : ℤ) 1 : ℤ) ↔ 2 ^ D.toNat ≤ s.height * s.width) := by
        intro D hD
        obtain ⟨d, rfl⟩ := Int.eq_ofNat_of_zero_le hD
        rw [Int.fdiv_one]
        simp only [Int.toNat_natCast, zpow_natCast, Int.cast_natCast]
        exact_mod_cast Iff.rfl
      have hpix : ((cfg.config s).num_features : ℤ) = ((s.height * s.width : ℕ) : ℤ) := by
        simp only [LitCfg.config, ImgShape.num_pixels, Nat.mul_comm]
      have hdrop : DropOK (cfg.config s).dropout := ⟨q, hd, hq⟩
      rw [hpix]
      constructor
      · rintro ⟨⟨v1, v2, v3, v4, v5, v6, -, -, v9, v10, v11, -, v13⟩, hB, hD, hD', -⟩
        refine ⟨s, rfl, by exact_mod_cast v1,
          by change (1 : ℤ) ≤ (s.channels : ℕ) at v2; exact_mod_cast v2, v3, v4, v5, v6, hD, (hpow _ hD).1 v13, v9, v10,
          fun e => ⟨v11 e, hD' e⟩, hleaf.1 hB⟩
      · rintro ⟨s', e, v1, v2, v3, v4, v5, v6, hD, v13, v9, v10, v11, hl⟩
        obtain rfl : s = s' := by injection e
        refine ⟨⟨by exact_mod_cast v1, by show (1 : ℤ) ≤ (s.channels : ℕ); exact_mod_cast v2, v3, v4, v5, v6, ?_, rfl, v9, v10,
          fun e => (v11 e).1, by show (1 : ℤ) ≠ 0; norm_num, (hpow _ hD).2 v13⟩, hleaf.2 hl, hD, fun e => (v11 e).2, fun _ => hdrop⟩
        intro q' e'
        have : q' = .fin q := by
          have : some (Fl.fin q) = some q' := by rw [← hd]; exact e'
          injection this with this; exact this.symm
        rw [this]
        simpa [Fl.lt] using hq.2
  · intro M h
    cases hds : getDataShape cfg.dataset with
    | error e =>
      unfold makeEinet at h
      rw [hds] at h
      cases h
    | ok s =>
      obtain ⟨hb, hP', e1, e2⟩ := makeEinet_spec hP h hds
      have hz := (build_WF hP' hb).1
      have hv := (assertValid_iff _).1 (build_valid hb)
      have v3 : 1 ≤ cfg.num_classes := hv.2.2.1
      have v5 : 1 ≤ cfg.R := hv.2.2.2.2.1
      have v6 : 1 ≤ cfg.I := hv.2.2.2.2.2.1
      refine ⟨s, rfl, e1, e2, ?_, ?_, ?_⟩
      · rw [hz.classes]; exact Int.toNat_of_nonneg (by show 0 ≤ cfg.num_classes; omega)
      · rw [hz.leaves]; exact Int.toNat_of_nonneg (by show 0 ≤ cfg.I; omega)
      · rw [hz.reps]; exact Int.toNat_of_nonneg (by show 0 ≤ cfg.R; omega)

/-- **C67**, which images a model of the scripts accepts: after `preprocess`, the loss of a batch of images with eight bits per
pixel is a number if every pixel fits the leaf distribution, and otherwise a `ValueError` is raised. -/
theorem C67_data (cfg : LitCfg) (A : LeafArrays) (P : Params) (hP : P.Random) (hg : (cfg.leaf A).Good) (M : Model)
    (h : makeEinet cfg A P = .ok M) (s : ImgShape) (hs : getDataShape cfg.dataset = .ok s) (N : Nat) (hN : 0 < N)
    (k : Nat → Nat → Nat → Nat → Nat) (x : Tensor Fl) (hx : Pixels N s k x) :
    if EveryPixel N s (fun n c i j => PixelFits cfg.n_bits cfg.dist (k n c i j)) then
      ∃ r : ℝ, negativeLogLikelihood M (litPreprocess cfg.dist x) = .ok (.fin r)
    else negativeLogLikelihood M (litPreprocess cfg.dist x) = .error .value := by
  obtain ⟨hb, hP', e⟩ := makeEinet_spec hP h hs
  have key := nll_images hP' hg hb e hN (x := litPreprocess cfg.dist x) (by rw [litPreprocess_shape]; exact hx.1)
    (v := fun n c i j => scaled cfg.dist (k n c i j / 255))
    fun n hn c hc i hi j hj => litPreprocess_get (hx.2 n hn c hc i hi j hj).2
  have hiff : EveryPixel N s (fun n c i j => PixelFits cfg.n_bits cfg.dist (k n c i j)) ↔
      EveryPixel N s fun n c i j => (cfg.leaf A).InSupport (scaled cfg.dist (k n c i j / 255)) :=
    ⟨fun H n hn c hc i hi j hj => (scaled_fits hg (hx.2 n hn c hc i hi j hj).1).2 (H n hn c hc i hi j hj),
      fun H n hn c hc i hi j hj => (scaled_fits hg (hx.2 n hn c hc i hi j hj).1).1 (H n hn c hc i hi j hj)⟩
  split_ifs with hc
  · exact key.1 (hiff.1 hc)
  · exact key.2 fun H => hc (hiff.2 H)

/-- what `generate_samples` returns: images of modes of the leaves, divided by 255. -/
theorem generate_modes {cfg : LitCfg} {A : LeafArrays} {P : Params} (hP : P.Random) (hg : (cfg.leaf A).Good) {M : Model}
    (h : makeEinet cfg A P = .ok M) {s : ImgShape} (hs : getDataShape cfg.dataset = .ok s) {N : Nat} (hN : 0 < N)
    {μ : Measure ℝ} (hμ : μ Set.univ = 1) (differentiable : Bool) :
    Full (fun t : Tensor Fl => t.shape = [N, s.channels, s.height, s.width] ∧ EveryPixel N s fun n c i j =>
      ∃ a r, t.get [n, c, i, j] = .fin (M.leaf.base.mode c (i * s.width + j) a r / 255)) (generateSamples μ M s N differentiable) := by
  obtain ⟨hb, hP', e1, e2⟩ := makeEinet_spec hP h hs
  have hcs : (cfg.leaf A).CanSample := by
    unfold LitCfg.leaf
    cases cfg.dist <;> trivial
  have hsam := build_samplable hP' hg hcs hb
  have hv := (assertValid_iff _).1 (build_valid hb)
  have hF : 0 < s.height * s.width := by
    rw [← e2, (build_WF hP' hb).1.features]
    omega
  have hC : 0 < s.channels := by
    rw [← e1, (build_WF hP' hb).1.channels]
    omega
  have hcount : (generateArgs N).count = N := rfl
  have key : Full (M.OfModes N) (if differentiable then M.sampleR μ (generateArgs N) else M.sample (generateArgs N)) := by
    split_ifs
    · exact Model.sampleR_modes hμ hsam (a := generateArgs N) rfl rfl hN one_ne_zero rfl
    · exact Model.sample_modes hsam (a := generateArgs N) rfl rfl hN one_ne_zero trivial
  unfold generateSamples
  refine Full.bind key fun t ⟨ix, rr, _, _, ht⟩ => Full.lift ?_
  rw [e1, e2, Nat.mul_comm s.height] at ht
  refine (viewFirst_is hC hF ht).bind fun u hu => ⟨_, rfl, hu.1, fun n hn c hc i hi j hj => ⟨ix n (i * s.width + j), rr n, ?_⟩⟩
  show u.get [n, c, i, j] / .fin 255 = _
  rw [hu.get (i := [n, c, i, j]) ⟨hn, hc, hi, hj, trivial⟩]
  exact Fl.fin_div _ (by norm_num)

/-- **C67**, generated images of a model with binomial leaves: with probability one, in both modes of sampling, they have the shape
of the data, pixels are integers of `n_bits` bits divided by 255, and `preprocess` turns them into data to which the model gives a
finite loss.  Missing: the other leaf distributions, for which the scale is wrong (`C67_refuted_normal`). -/
theorem C67_generated_partial (cfg : LitCfg) (A : LeafArrays) (P : Params) (hP : P.Random) (hd : cfg.dist = .binomial) (M : Model)
    (h : makeEinet cfg A P = .ok M) (s : ImgShape) (hs : getDataShape cfg.dataset = .ok s) (N : Nat) (hN : 0 < N)
    (μ : Measure ℝ) (hμ : μ Set.univ = 1) (differentiable : Bool) :
    (generateSamples μ M s N differentiable).E (fun t => if GoodImages cfg M s N t then 1 else 0) = 1 := by
  have hl : cfg.leaf A = .binomial (2 ^ cfg.n_bits - 1) A.p := by unfold LitCfg.leaf; rw [hd]; rfl
  have hg : (cfg.leaf A).Good := by rw [hl]; trivial
  obtain ⟨hb, hP', e⟩ := makeEinet_spec hP h hs
  have hdv := LeafSpec.drawsValid hg (build_leaf hP' hb)
  refine Full.prob (P := GoodImages cfg M s N) ((generate_modes hP hg h hs hN hμ differentiable).mono fun t ⟨ht, hp⟩ => ?_)
  have hmode : ∀ c f a r, ∃ k : ℕ, k < 2 ^ cfg.n_bits ∧ M.leaf.base.mode c f a r = k := by
    intro c f a r
    have := (LeafSpec.valid_iff (build_leaf hP' hb) _).1 (hdv.mode c f a r)
    change (cfg.leaf A).InSupport _ at this
    rw [hl] at this
    obtain ⟨k, hk, e⟩ := this
    have hk' : (k : ℤ) < 2 ^ cfg.n_bits := by omega
    exact ⟨k, by exact_mod_cast hk', e⟩
  have hpix : EveryPixel N s (fun n c i j => ∃ k : ℕ, k < 2 ^ cfg.n_bits ∧ t.get [n, c, i, j] = .fin (k / 255)) := by
    intro n hn c hc i hi j hj
    obtain ⟨a, r, e⟩ := hp n hn c hc i hi j hj
    obtain ⟨k, hk, e'⟩ := hmode c (i * s.width + j) a r
    exact ⟨k, hk, by rw [e, e']⟩
  refine ⟨ht, hpix, ?_⟩
  choose! k hk hk' using hpix
  refine (nll_images hP' hg hb e hN (x := litPreprocess cfg.dist t) (by rw [litPreprocess_shape]; exact ht)
    (v := fun n c i j => scaled cfg.dist (k n c i j / 255))
    fun n hn c hc i hi j hj => litPreprocess_get (hk' n hn c hc i hi j hj)).1 fun n hn c hc i hi j hj => ?_
  show (cfg.leaf A).InSupport _
  rw [hl, hd]
  have hlt : (k n c i j : ℤ) < 2 ^ cfg.n_bits := by exact_mod_cast hk n hn c hc i hi j hj
  exact ⟨k n c i j, by omega, by simp only [scaled]; field_simp⟩

/-- **C67 is false for normal leaves**: `preprocess` leaves images in `[0, 1]`, but `generate_samples` divides by 255 all the same.
A model all of whose means are values of pixels, at most 1, generates images without any pixel brighter than 1/255. -/
theorem C67_refuted_normal (cfg : LitCfg) (A : LeafArrays) (P : Params) (hP : P.Random) (hd : cfg.dist = .normal)
    (hA : ∀ c f i r, A.p c f i r ≤ 1) (M : Model)
    (h : makeEinet cfg A P = .ok M) (s : ImgShape) (hs : getDataShape cfg.dataset = .ok s) (N : Nat) (hN : 0 < N)
    (μ : Measure ℝ) (hμ : μ Set.univ = 1) (differentiable : Bool) :
    (generateSamples μ M s N differentiable).E (fun t => if DarkImages (1 / 255) s N t then 1 else 0) = 1 := by
  have hl : cfg.leaf A = .normal A.p A.q := by unfold LitCfg.leaf; rw [hd]; rfl
  have hg : (cfg.leaf A).Good := by rw [hl]; trivial
  obtain ⟨hb, hP', e⟩ := makeEinet_spec hP h hs
  have hm : M.leaf.base.mode = A.p := by
    have := build_leaf hP' hb
    change (cfg.leaf A).build _ _ = _ at this
    rw [hl] at this
    obtain ⟨_, _, this⟩ := bind_ok this
    simp only [Res.pure_eq, Except.ok.injEq] at this
    rw [← this]
    rfl
  refine Full.prob (P := DarkImages (1 / 255) s N) ((generate_modes hP hg h hs hN hμ differentiable).mono fun t ⟨ht, hp⟩ =>
    ⟨ht, fun n hn c hc i hi j hj => ?_⟩)
  obtain ⟨a, r, e⟩ := hp n hn c hc i hi j hj
  rw [hm] at e
  exact ⟨_, by have := hA c (i * s.width + j) a r; gcongr, e⟩

/-- **C67 is false for categorical leaves**: `preprocess` does not scale the images, so every batch with a pixel that is neither
black nor white is refused. -/
theorem C67_refuted_categorical (cfg : LitCfg) (A : LeafArrays) (P : Params) (hP : P.Random) (hd : cfg.dist = .categorical)
    (hb : 1 ≤ cfg.n_bits) (M : Model) (h : makeEinet cfg A P = .ok M) (s : ImgShape) (hs : getDataShape cfg.dataset = .ok s)
    (N : Nat) (k : Nat → Nat → Nat → Nat → Nat) (x : Tensor Fl) (hx : Pixels N s k x) (n c i j : Nat)
    (hn : n < N) (hc : c < s.channels) (hi : i < s.height) (hj : j < s.width) (hk : 0 < k n c i j ∧ k n c i j < 255) :
    negativeLogLikelihood M (litPreprocess cfg.dist x) = .error .value := by
  have hl : cfg.leaf A = .categorical (2 ^ cfg.n_bits - 1) A.logits := by unfold LitCfg.leaf; rw [hd]; rfl
  have hg : (cfg.leaf A).Good := by
    rw [hl]
    have : (2 : ℤ) ^ 1 ≤ 2 ^ cfg.n_bits := pow_le_pow_right₀ (by norm_num) hb
    show (1 : ℤ) ≤ _
    omega
  have := C67_data cfg A P hP hg M h s hs N (by omega) k x hx
  rwa [if_neg fun H => ?_] at this
  have := H n hn c hc i hi j hj
  rw [hd] at this
  rcases this with e | ⟨e, -⟩ <;> omega

/-- **C67 is false for binomial leaves of fewer than eight bits**: `preprocess` scales to 0..255, so every batch with a pixel of more
than `n_bits` bits is refused. -/
theorem C67_refuted_bits (cfg : LitCfg) (A : LeafArrays) (P : Params) (hP : P.Random) (hd : cfg.dist = .binomial)
    (M : Model) (h : makeEinet cfg A P = .ok M) (s : ImgShape) (hs : getDataShape cfg.dataset = .ok s)
    (N : Nat) (k : Nat → Nat → Nat → Nat → Nat) (x : Tensor Fl) (hx : Pixels N s k x) (n c i j : Nat)
    (hn : n < N) (hc : c < s.channels) (hi : i < s.height) (hj : j < s.width) (hk : 2 ^ cfg.n_bits ≤ k n c i j) :
    negativeLogLikelihood M (litPreprocess cfg.dist x) = .error .value := by
  have hg : (cfg.leaf A).Good := by unfold LitCfg.leaf; rw [hd]; trivial
  have := C67_data cfg A P hP hg M h s hs N (by omega) k x hx
  rwa [if_neg fun H => ?_] at this
  have := H n hn c hc i hi j hj
  rw [hd] at this
  change k n c i j < 2 ^ cfg.n_bits at this
  omega

/-- **C67 is false for the synthetic data sets**: their two columns are taken for two channels of one pixel, so no configuration
gives a model. -/
theorem C67_refuted_synth (cfg : LitCfg) (A : LeafArrays) (P : Params) (hs : "synth".toList <:+: cfg.dataset.toList) :
    ∃ e, makeEinet cfg A P = .error e := by
  have hd : getDataShape cfg.dataset = .ok ⟨2, 1, 1⟩ := if_pos hs
  cases h : makeEinet cfg A P with
  | error e => exact ⟨e, rfl⟩
  | ok M =>
    unfold makeEinet at h
    rw [hd, Res.ok_bind] at h
    have := (assertValid_iff _).1 (build_valid h)
    simp [LitCfg.config, ImgShape.num_pixels] at this

/-! ### Examples -/

/-- the default configuration of the scripts (conf/config.yaml) for images of digits. -/
def exLit (d : DistName) (n_bits : Nat) : LitCfg where
  dataset := "mnist"
  dist := d
  n_bits := n_bits
  min_sigma := 1 / 100
  max_sigma := 2
  D := 3
  S := 10
  I := 10
  R := 1
  layer_type := "linsum"
  structure' := "top-down"
  dropout := some (.fin 0)
  num_classes := 10

/-- parameters of the leaves for the examples. -/
def exArrays : LeafArrays := ⟨fun _ _ i _ => 1 / (i + 1), fun _ _ _ _ => 0, fun _ _ _ _ k => k⟩

theorem exLit_shape (d : DistName) (n : Nat) : getDataShape (exLit d n).dataset = .ok ⟨1, 28, 28⟩ := by
  have h : ¬ "synth".toList <:+: "mnist".toList := by decide
  show (if "synth".toList <:+: "mnist".toList then _ else _) = _
  rw [if_neg h]
  rfl

theorem exLit_builds (d : DistName) (n : Nat) (hn : 1 ≤ n) : (∃ M, makeEinet (exLit d n) exArrays (exParams exLeaf) = .ok M) ∧
    ((exLit d n).leaf exArrays).Good := by
  have hpow : (2 : ℤ) ^ 1 ≤ 2 ^ n := pow_le_pow_right₀ (by norm_num) hn
  have hg : ((exLit d n).leaf exArrays).Good := by
    unfold LitCfg.leaf
    cases d
    · trivial
    · exact ⟨by norm_num [exLit], by norm_num [exLit]⟩
    · trivial
    · show (1 : ℤ) ≤ 2 ^ n - 1
      omega
  refine ⟨?_, hg⟩
  unfold makeEinet
  rw [exLit_shape, Res.ok_bind]
  refine build_iff.2 ⟨(assertValid_iff _).2 ⟨by norm_num [LitCfg.config, ImgShape.num_pixels], by norm_num [LitCfg.config],
    by norm_num [LitCfg.config, exLit], by norm_num [LitCfg.config, exLit], by norm_num [LitCfg.config, exLit],
    by norm_num [LitCfg.config, exLit], ?_, rfl, by simp [LitCfg.config, exLit], by simp [LitCfg.config, exLit],
    by simp [LitCfg.config, exLit], by norm_num [LitCfg.config, exLit],
    by norm_num [LitCfg.config, exLit, ImgShape.num_pixels, Int.fdiv_one]⟩, ?_, by norm_num [LitCfg.config, exLit],
    fun _ => by norm_num [LitCfg.config, exLit], fun _ => ⟨0, rfl, by norm_num, by norm_num⟩⟩
  · rintro q ⟨⟩
    norm_num [Fl.lt]
  · show ∃ B, ((exLit d n).leaf exArrays).build none _ = .ok B
    cases d
    · exact ⟨normalLeaf _ _ _, by simp [LitCfg.leaf, exLit, getDistribution, LeafSpec.build]; rfl⟩
    · obtain ⟨B, hB, -⟩ := C39_named n (lo := 1 / 100) (hi := 2) (by norm_num) (by norm_num) exArrays.p exArrays.q exArrays.logits
        ((exLit .normalRat n).config ⟨1, 28, 28⟩).leafDims
      exact ⟨B, hB⟩
    · unfold LitCfg.leaf
      simp [exLit, getDistribution, LeafSpec.build]
      exact ⟨_, (checkInt_iff _ 1 one_ne_zero _ _).2 ⟨by omega, rfl⟩⟩
    · unfold LitCfg.leaf
      simp [exLit, getDistribution, LeafSpec.build]
      have : (1 : ℤ) ≤ 2 ^ n := by omega
      exact ⟨_, by rw [require_true _ this]; rfl⟩

/-- eight grey images of digits for models with any leaves: pixels up to 200 for binomial leaves with eight bits, too bright for seven
bits, and with grey pixels for categorical leaves. -/
example (d : DistName) (n : Nat) (hn : 1 ≤ n) : (∃ M, makeEinet (exLit d n) exArrays (exParams exLeaf) = .ok M) ∧
    ((exLit d n).leaf exArrays).Good ∧ getDataShape (exLit d n).dataset = .ok ⟨1, 28, 28⟩ ∧ (∀ c f i r, exArrays.p c f i r ≤ 1) ∧
    ∃ k x, Pixels 8 ⟨1, 28, 28⟩ k x ∧ EveryPixel 8 ⟨1, 28, 28⟩ (fun n c i j => PixelFits 8 .binomial (k n c i j)) ∧
      2 ^ 7 ≤ k 3 0 13 20 ∧ k 3 0 13 20 < 255 := by
  refine ⟨(exLit_builds d n hn).1, (exLit_builds d n hn).2, exLit_shape d n, fun c f i r => ?_, fun n _ i _ => 200 - n - i,
    ⟨[8, 1, 28, 28], fun q => .fin ((200 - at' 0 q - at' 2 q : ℕ) / 255)⟩, ⟨rfl, fun n hn c hc i hi j hj => ⟨show 200 - n - i ≤ 255 by omega, rfl⟩⟩,
    fun n hn c hc i hi j hj => ?_, by norm_num, by norm_num⟩
  · show (1 : ℝ) / (i + 1) ≤ 1
    have : (0 : ℝ) ≤ i := Nat.cast_nonneg i
    rw [div_le_one (by linarith)]
    linarith
  · show 200 - n - i < 256
    omega

/-- the hypotheses of `C67_builds`. -/
example (d : DistName) (n : Nat) : (exLit d n).dropout = some (.fin 0) ∧ 0 < (exLit d n).min_sigma ∧
    (exLit d n).min_sigma < (exLit d n).max_sigma := ⟨rfl, by norm_num [exLit], by norm_num [exLit]⟩

/-- a synthetic data set. -/
example : "synth".toList <:+: ({ exLit .normal 8 with dataset := "synth-2-moons" } : LitCfg).dataset.toList := by decide

end Props
end Einet
