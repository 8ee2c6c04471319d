import Verif.PropsReconstruct
import Verif.PropsExactLaw

/-!
# C14, C74: the law of samples given evidence of rank 2 and 4 and of reconstructions, for every configuration

`givenRow` is the specification of PropsExactLaw.lean: a mixture over the choice of a class, a repetition and a leaf component for each
region, weighted by the likelihood of the known entries under the choice.
-/

open Classical MeasureTheory
open scoped ENNReal
noncomputable section
namespace Einet
namespace Props
open Tensor Einet

/-! ### Lemmas -/

/-- the statement of the exact law for a batch `x'` of rank 3 given as the tensor `x`, whose entry at `pos n c f` is the one of channel
`c` and feature `f` in row `n`. -/
theorem exact_of_shaped {c : Config} {P : Params} (hP : P.Random) (hg : P.leaf.Good) (hs : P.leaf.CanSample)
    {M : Model} (h : build c P = .ok M) :
    ∃ G H : Nat → Nat → Nat, ForwardIn M P.leaf M.numOut G ∧ SampledIn M M.numOut H ∧
      (∀ r, r < M.num_repetitions → ∀ f, f < M.num_features → G r f < M.numOut ∧ H r f < M.numOut) ∧
      ∀ (N : Nat) (ms : Option Scopes) (x' x : Tensor Fl) (pos : Nat → Nat → Nat → List Nat) (TL : ℝ) (mode : Bool), 0 < N →
        Shaped M N x' x pos → Evidence M P.leaf N ms x' → 0 < TL →
        (∀ n, n < N → IsProbabilityMeasure (givenRow M P G H TL mode (known M.num_features ms x' n))) ∧
        ∀ φ : (Fin N → Fin M.num_channels → Fin M.num_features → ℝ) → ℝ≥0∞, Measurable φ →
          (M.sample { evidence := some x, marginalized_scopes := ms, mpe_at_leaves := mode, temperature_leaves := TL }).E
              (fun s => φ fun n c f => (s.get (pos n c f)).val) =
            ∫⁻ ω, φ ω ∂Measure.pi fun n : Fin N => givenRow M P G H TL mode (known M.num_features ms x' n) := by
  obtain ⟨G, H, h1, h2, h3, h4⟩ := C14_exact_law c P hP hg hs M h
  refine ⟨G, H, h1, h2, h3, fun N ms x' x pos TL mode hN hsh hx hTL => ?_⟩
  obtain ⟨z, hz, hsim⟩ := hsh.sim
    { evidence := some x, marginalized_scopes := ms, mpe_at_leaves := mode, temperature_leaves := TL }
  obtain ⟨hp, hl⟩ := h4 N ms z TL mode hN (evidence_congr hx hz) hTL
  have hrow : ∀ n, n < N → givenRow M P G H TL mode (known M.num_features ms z n) =
      givenRow M P G H TL mode (known M.num_features ms x' n) := by
    intro n hn
    refine givenRow_congr fun c hc f hf => ?_
    unfold known
    rw [hz.get hn hc hf]
    exact if_congr (hole_congr hz hn hc hf) rfl rfl
  refine ⟨fun n hn => hrow n hn ▸ hp n hn, fun φ hφ => ?_⟩
  refine ((hsim.E (φ := fun s => φ fun n c f => (s.get [n, c, f]).val) fun t s ⟨_, h2⟩ => ?_).symm.trans (hl φ hφ)).trans ?_
  · congr 1
    funext n c f
    rw [h2 n n.2 c c.2 f f.2]
  · congr 2
    funext n
    exact hrow n n.2

/-! ### C14 -/

/-- **C14**, evidence `[N, D]` of a model with one channel, every configuration, temperature of the leaves and `mpe_at_leaves`: the
exact law of the result.  `x'` is the evidence as `[N, 1, D]`. -/
theorem C14_exact_rank2 (c : Config) (P : Params) (hP : P.Random) (hg : P.leaf.Good) (hs : P.leaf.CanSample)
    (M : Model) (h : build c P = .ok M) (hC : M.num_channels = 1) :
    ∃ G H : Nat → Nat → Nat, ForwardIn M P.leaf M.numOut G ∧ SampledIn M M.numOut H ∧
      (∀ r, r < M.num_repetitions → ∀ f, f < M.num_features → G r f < M.numOut ∧ H r f < M.numOut) ∧
      ∀ (N : Nat) (ms : Option Scopes) (x x' : Tensor Fl) (TL : ℝ) (mode : Bool), 0 < N → x.shape = [N, M.num_features] →
        (∀ n, n < N → ∀ f, f < M.num_features → x'.get [n, 0, f] = x.get [n, f]) → Evidence M P.leaf N ms x' → 0 < TL →
        (∀ n, n < N → IsProbabilityMeasure (givenRow M P G H TL mode (known M.num_features ms x' n))) ∧
        ∀ φ : (Fin N → Fin M.num_channels → Fin M.num_features → ℝ) → ℝ≥0∞, Measurable φ →
          (M.sample { evidence := some x, marginalized_scopes := ms, mpe_at_leaves := mode, temperature_leaves := TL }).E
              (fun s => φ fun n _ f => (s.get [n, f]).val) =
            ∫⁻ ω, φ ω ∂Measure.pi fun n : Fin N => givenRow M P G H TL mode (known M.num_features ms x' n) := by
  obtain ⟨G, H, h1, h2, h3, h4⟩ := exact_of_shaped hP hg hs h
  exact ⟨G, H, h1, h2, h3, fun N ms x x' TL mode hN hxs heq hx hTL => h4 N ms x' x _ TL mode hN (shaped2 hC hxs heq) hx hTL⟩

/-- **C14**, images `[N, C, H, W]` as evidence, every configuration, temperature of the leaves and `mpe_at_leaves`: the exact law of the
result.  `x'` are the flattened images. -/
theorem C14_exact_rank4 (c : Config) (P : Params) (hP : P.Random) (hg : P.leaf.Good) (hs : P.leaf.CanSample)
    (M : Model) (h : build c P = .ok M) :
    ∃ G H : Nat → Nat → Nat, ForwardIn M P.leaf M.numOut G ∧ SampledIn M M.numOut H ∧
      (∀ r, r < M.num_repetitions → ∀ f, f < M.num_features → G r f < M.numOut ∧ H r f < M.numOut) ∧
      ∀ (N h w : Nat) (ms : Option Scopes) (x x' : Tensor Fl) (TL : ℝ) (mode : Bool), 0 < N → h * w = M.num_features →
        x.shape = [N, M.num_channels, h, w] →
        (∀ n, n < N → ∀ c, c < M.num_channels → ∀ i, i < h → ∀ j, j < w → x'.get [n, c, i * w + j] = x.get [n, c, i, j]) →
        Evidence M P.leaf N ms x' → 0 < TL →
        (∀ n, n < N → IsProbabilityMeasure (givenRow M P G H TL mode (known M.num_features ms x' n))) ∧
        ∀ φ : (Fin N → Fin M.num_channels → Fin M.num_features → ℝ) → ℝ≥0∞, Measurable φ →
          (M.sample { evidence := some x, marginalized_scopes := ms, mpe_at_leaves := mode, temperature_leaves := TL }).E
              (fun s => φ fun n c f => (s.get [n, c, f / w, f % w]).val) =
            ∫⁻ ω, φ ω ∂Measure.pi fun n : Fin N => givenRow M P G H TL mode (known M.num_features ms x' n) := by
  have hC : 0 < M.num_channels := by
    rw [(build_WF hP h).1.channels]
    have := (assertValid_iff c).1 (build_valid h)
    omega
  obtain ⟨G, H, h1, h2, h3, h4⟩ := exact_of_shaped hP hg hs h
  exact ⟨G, H, h1, h2, h3, fun N a b ms x x' TL mode hN hHW hxs heq hx hTL =>
    h4 N ms x' x _ TL mode hN (shaped4 hN hC hHW hxs heq) hx hTL⟩

/-! ### C74 -/

/-- **C74**, grey images, every configuration, any number of classes, every temperature of the leaves and `mpe_at_leaves`: the exact law
of the displayed images.  They are independent; each follows the mixture of the model weighted by the likelihood of the lower part of the
test image. -/
theorem C74_exact_law (c : Config) (P : Params) (hP : P.Random) (hg : P.leaf.Good) (hs : P.leaf.CanSample)
    (M : Model) (h : build c P = .ok M) (s : ImgShape) (hM : ForImages M s) (h1 : s.channels = 1) (hW : 2 ≤ s.width) :
    ∃ G H : Nat → Nat → Nat, ForwardIn M P.leaf M.numOut G ∧ SampledIn M M.numOut H ∧
      (∀ r, r < M.num_repetitions → ∀ f, f < M.num_features → G r f < M.numOut ∧ H r f < M.numOut) ∧
      ∀ (N : Nat) (x : Tensor Fl) (gauss : Bool) (n_bins : Nat) (TL : ℝ) (mode : Bool), 0 < N → TestImages P.leaf s N x → 0 < n_bins →
        0 < TL →
        (∀ n, n < N → IsProbabilityMeasure (givenRow M P G H TL mode (lowerPart s x n))) ∧
        ∀ φ : (Fin N → Fin M.num_channels → Fin M.num_features → ℝ) → ℝ≥0∞, Measurable φ →
          (reconstructions M s gauss n_bins x TL mode).E (fun r => φ fun n c f => (r.get [n, c, f / s.width, f % s.width]).val) =
            ∫⁻ ω, φ (fun n c f => shown gauss n_bins (ω n c f)) ∂Measure.pi fun n : Fin N =>
              givenRow M P G H TL mode (lowerPart s x n) := by
  obtain ⟨G, H, g1, g2, g3, g4⟩ := C14_exact_rank4 c P hP hg hs M h
  refine ⟨G, H, g1, g2, g3, fun N x gauss n_bins TL mode hN hx hn hTL => ?_⟩
  have hF : 0 < M.num_features := by
    rw [(build_WF hP h).1.features]
    have := (assertValid_iff c).1 (build_valid h)
    omega
  have hHW : 0 < s.height * s.width := hM.2 ▸ hF
  have hH : 0 < s.height := Nat.pos_of_mul_pos_right hHW
  let z : Tensor Fl := ⟨[N, M.num_channels, M.num_features], fun i => x.get [at' 0 i, at' 1 i, at' 2 i / s.width, at' 2 i % s.width]⟩
  have heq : ∀ n, n < N → ∀ c, c < M.num_channels → ∀ i, i < s.height → ∀ j, j < s.width →
      z.get [n, c, i * s.width + j] = x.get [n, c, i, j] := by
    intro n hn c hc i hi j hj
    show x.get [n, c, (i * s.width + j) / s.width, (i * s.width + j) % s.width] = _
    rw [(div_of_pixel hj).1, (div_of_pixel hj).2]
  have hev := testImages_evidence hx hM h1 hW hH
  have hxs : x.shape = [N, M.num_channels, s.height, s.width] := by rw [hx.1, hM.1]
  have hmeas : Measurable fun ω : Fin N → Fin M.num_channels → Fin M.num_features → ℝ => fun n c f => shown gauss n_bins (ω n c f) := by
    refine measurable_pi_lambda _ fun n => measurable_pi_lambda _ fun c => measurable_pi_lambda _ fun f => ?_
    unfold shown
    cases gauss
    · simp only [Bool.false_eq_true, if_false]
      fun_prop
    · simp only [if_true]
      fun_prop
  obtain ⟨hprob, hl⟩ := g4 N s.height s.width (some ⟨true, reconstructionScopes s⟩) x z TL mode hN hM.2.symm hxs heq hev hTL
  have hrow : ∀ n, n < N → givenRow M P G H TL mode (known M.num_features (some ⟨true, reconstructionScopes s⟩) z n) =
      givenRow M P G H TL mode (lowerPart s x n) := by
    intro n _
    refine givenRow_congr fun d hd f hf => ?_
    show (if Listed M.num_features ⟨true, reconstructionScopes s⟩ f then Fl.nan else x.get [n, d, f / s.width, f % s.width]) = _
    unfold lowerPart
    exact if_congr (by rw [hM.2] at hf ⊢; exact listed_grey h1 hf) rfl rfl
  refine ⟨fun n hn => hrow n hn ▸ hprob n hn, fun φ hφ => ?_⟩
  have hk := C15_rank4 c P hP hg hs M h N s.height s.width hN hM.2.symm x z hxs heq
    { evidence := some x, marginalized_scopes := some ⟨true, reconstructionScopes s⟩, mpe_at_leaves := mode, temperature_leaves := TL }
    hev rfl rfl rfl one_ne_zero
  unfold reconstructions
  rw [Rand.E_bind]
  refine (Rand.E_congr hk fun t ⟨ht, hv⟩ => ?_).trans ((hl _ (hφ.comp hmeas)).trans ?_)
  · rw [hM.1] at ht
    obtain ⟨r, hr, hrs, hrv⟩ := reconstructionImages_spec (gauss := gauss) (n_bins := n_bins) (by rw [h1, Nat.one_mul]; exact hHW) ht
    rw [hr]
    show φ _ = φ _
    congr 1
    funext n c f
    have hf : (f : Nat) < s.height * s.width := lt_of_lt_of_eq f.2 hM.2
    have hi : f / s.width < s.height := (Nat.div_lt_iff_lt_mul (by omega)).2 hf
    have hj : f % s.width < s.width := Nat.mod_lt _ (by omega)
    have hc : (c : Nat) < s.channels := hM.1 ▸ c.2
    rw [hrv n n.2 c hc _ hi _ hj]
    have hfin : ∃ v : ℝ, t.get [n, c, f / s.width, f % s.width] = .fin v := by
      have := hv n n.2 c c.2 _ hi _ hj
      split_ifs at this
      · exact this
      · rw [this]
        obtain ⟨v, e, -⟩ := hx.2 n n.2 c hc _ hi _ hj
        exact ⟨v, e⟩
    obtain ⟨v, e⟩ := hfin
    simp only [e]
    rw [shown_fl gauss hn]
    rfl
  · rw [show (fun n : Fin N => givenRow M P G H TL mode (known M.num_features (some ⟨true, reconstructionScopes s⟩) z n)) =
      fun n : Fin N => givenRow M P G H TL mode (lowerPart s x n) from funext fun n => hrow n n.2]
    rfl

/-- images of 3 x 2 pixels, three classes and one repetition: not among the configurations of `C74_law_partial`. -/
example : ∃ M, build { exImage with num_repetitions := 1 } (exParams exLeaf) = .ok M ∧ ¬ MirrorCfg { exImage with num_repetitions := 1 } ∧
    M.num_classes = 3 ∧ ForImages M ⟨1, 3, 2⟩ ∧ upperRows ⟨1, 3, 2⟩ = 1 ∧
    ∃ x, TestImages (exParams exLeaf).leaf ⟨1, 3, 2⟩ 4 x ∧ x.get [2, 0, 1, 1] = .fin 17 := by
  have : ∃ M, build { exImage with num_repetitions := 1 } (exParams exLeaf) = .ok M := by
    obtain ⟨M, h⟩ := exImage_builds
    obtain ⟨hv, ⟨B, hB⟩, h2, h3, h4⟩ := build_iff.1 ⟨M, h⟩
    obtain ⟨h1, h2', h3', h4', h5, h6, h7, h8, h9, h10, h11, h12, h13⟩ := (assertValid_iff _).1 hv
    exact build_iff.2 ⟨(assertValid_iff _).2 ⟨h1, h2', h3', h4', by norm_num, h6, h7, h8, h9, h10, h11, h12, h13⟩,
      ⟨normalLeaf _ _ _, build_normal _ _ _⟩, h2, h3, fun _ => h4 (Or.inr (Or.inr (by norm_num [exImage, exConfig])))⟩
  obtain ⟨M, h⟩ := this
  have hz := (build_WF (exParams_random _) h).1
  refine ⟨M, h, ?_, by rw [hz.classes]; rfl, ⟨by rw [hz.channels]; rfl, by rw [hz.features]; rfl⟩, upperRows_even rfl,
    ⟨[4, 1, 3, 2], fun i => .fin (at' 0 i * 7 + at' 2 i * 2 + at' 3 i : ℕ)⟩, ⟨rfl, fun n _ c _ i _ j _ => ?_⟩, ?_⟩
  · rintro (h | ⟨h, -⟩ | ⟨-, h | h⟩)
    · simp [exImage, exConfig] at h
    · simp at h
    · simp [exImage, exConfig] at h
    · exact absurd h (by show ¬ ((2 : ℤ) ^ 2 = 6); norm_num)
  · exact ⟨_, rfl, by simp [exParams, exLeaf, LeafSpec.InSupport]⟩
  · norm_num [at']

end Props
end Einet
