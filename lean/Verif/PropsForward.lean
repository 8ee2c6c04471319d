import Verif.PropsDensity

/-!
# Properties of the interface of the forward pass: C07, C08
-/

open Classical
noncomputable section
namespace Einet
open Tensor

/-- what `forward` does with an input of the right sizes. -/
theorem Model.forward_cases {M : Model} {g : Nat → Nat → Nat} (h : M.WF g) {x z : Tensor Fl} {N : Nat} {X : Nat → Data}
    (hz : M.prepInput x = .ok z) (hx : z.Is3 N M.num_channels M.num_features X) (ms : Option Scopes) :
    if ∀ n, n < N → M.leaf.base.Valid (X n) then
      match Scopes.resolveOpt M.num_features ms with
      | .ok sc => Res.Sat (M.forward x ms) fun y => y.Is2 N M.num_classes fun n => M.outRow sc (X n)
      | .error e => M.forward x ms = .error e
    else M.forward x ms = .error .value := by
  have hxz : M.forward x ms = M.forward z ms := by
    unfold forward run
    rw [hz, Model.prepInput_is hx]
  rw [hxz]
  have hC := h.front.channels
  have hF := h.front.features
  have hrun : ∀ e, M.leaf.base.forward z ms = .error e → M.forward z ms = .error e := by
    intro e he
    unfold forward run
    rw [Model.prepInput_is hx]
    simp only [Res.ok_bind]
    have : M.leaf.forward z ms = .error e := by
      cases hL : M.leaf with
      | direct B => rw [hL] at he; exact he
      | factorized L =>
        rw [hL] at he
        show FactLeaf.forward L z ms = _
        unfold FactLeaf.forward
        rw [show L.base.forward z ms = _ from he]
        rfl
      | simple L =>
        rw [hL] at he
        show FactSimple.forward L z ms = _
        unfold FactSimple.forward
        rw [show L.base.forward z ms = _ from he]
        rfl
    rw [this]
    rfl
  have hshape : z.rank = 3 ∧ z.size 1 = M.leaf.base.num_channels ∧ z.size 2 = M.leaf.base.num_features := by
    simp [rank, size, hx.1, at', hC, hF]
  have hall : (AllIdx z.shape fun i => M.leaf.base.valid (at' 2 i) (if (z.get i).isnan then .fin 0 else z.get i)) ↔
      ∀ n, n < N → M.leaf.base.Valid (X n) := by
    rw [AllIdx_iff, hx.1]
    constructor
    · intro hv n hn c hc f hf
      have h1 := hv [n, c, f] (by simp [InB, hn]; exact ⟨by omega, by omega⟩)
      rw [hx.get hn (by omega) (by omega)] at h1
      exact h1
    · intro hv i hi
      match i, hi with
      | [a, b, c], hi =>
        have h1 := InB_at (d := 0) hi (by simp)
        have h2 := InB_at (d := 1) hi (by simp)
        have h3 := InB_at (d := 2) hi (by simp)
        simp only [at'] at h1 h2 h3
        rw [hx.get h1 h2 h3]
        exact hv a h1 b (by omega) c (by omega)
  split_ifs with hv
  · cases hs : Scopes.resolveOpt M.num_features ms with
    | ok sc => exact forward_is h hx hv hs
    | error e =>
      refine hrun e ?_
      unfold BaseLeaf.forward
      rw [require_true _ hshape]
      simp only [Res.ok_bind]
      rw [require_true _ (hall.2 hv), hF, hs]
      rfl
  · refine hrun _ ?_
    unfold BaseLeaf.forward
    rw [require_true _ hshape]
    simp only [Res.ok_bind]
    rw [require_false _ (fun e => hv (hall.1 e))]
    rfl

theorem prepInput_rank2 {M : Model} {x : Tensor Fl} {N D : Nat} (hx : x.shape = [N, D]) :
    if 1 = M.num_channels ∧ D = M.num_features then
      ∃ z, M.prepInput x = .ok z ∧ z.Is3 N M.num_channels M.num_features fun n _ d => x.get [n, d]
    else M.prepInput x = .error .assertion := by
  have hi : x.Is [N, D] fun i => x.get i := Is.intro hx fun _ _ => rfl
  obtain ⟨z, hz, h1⟩ := unsqueeze_is (d := 1) hi (by simp)
  have hr : x.rank = 2 := by simp [rank, hx]
  have hzr : z.rank = 3 := by simp [rank, h1.1, insAt]
  have hz1 : z.size 1 = 1 := by simp [size, h1.1, insAt, at']
  have hz2 : z.size 2 = D := by simp [size, h1.1, insAt, at']
  unfold Model.prepInput
  rw [if_pos hr, hz]
  simp only [Res.ok_bind]
  rw [if_neg (show ¬ z.rank = 4 by omega)]
  rw [require_true _ hzr]
  simp only [Res.ok_bind]
  split_ifs with h
  · rw [require_true _ (by omega)]
    simp only [Res.ok_bind]
    rw [require_true _ (by omega)]
    refine ⟨z, rfl, Is.intro (by rw [h1.1, ← h.1, ← h.2]; simp [insAt]) fun j hj => ?_⟩
    rw [← h.1, ← h.2] at hj
    rw [Is.get h1 (by simpa [insAt] using hj)]
    match j, hj with
    | [a, b, c], _ => rfl
  · by_cases hc : 1 = M.num_channels
    · rw [require_true _ (by omega)]
      simp only [Res.ok_bind]
      rw [require_false _ (by have := fun e => h ⟨hc, e⟩; omega)]
      rfl
    · rw [require_false _ (by omega)]
      rfl

theorem prepInput_rank3 {M : Model} {x : Tensor Fl} {N C D : Nat} (hx : x.shape = [N, C, D]) :
    if C = M.num_channels ∧ D = M.num_features then
      M.prepInput x = .ok x ∧ x.Is3 N M.num_channels M.num_features fun n c d => x.get [n, c, d]
    else M.prepInput x = .error .assertion := by
  have hr : x.rank = 3 := by simp [rank, hx]
  have hz1 : x.size 1 = C := by simp [size, hx, at']
  have hz2 : x.size 2 = D := by simp [size, hx, at']
  unfold Model.prepInput
  rw [if_neg (show ¬ x.rank = 2 by omega)]
  simp only [Res.ok_bind]
  rw [if_neg (show ¬ x.rank = 4 by omega)]
  rw [require_true _ hr]
  simp only [Res.ok_bind]
  split_ifs with h
  · rw [require_true _ (by omega)]
    simp only [Res.ok_bind]
    rw [require_true _ (by omega)]
    refine ⟨rfl, Is.intro (by rw [hx, ← h.1, ← h.2]) fun j hj => ?_⟩
    match j, hj with
    | [a, b, c], _ => rfl
  · by_cases hc : C = M.num_channels
    · rw [require_true _ (by omega)]
      simp only [Res.ok_bind]
      rw [require_false _ (by have := fun e => h ⟨hc, e⟩; omega)]
      rfl
    · rw [require_false _ (by omega)]
      rfl

/-- a rank 4 input: the row-major view with the configured number of channels. -/
theorem prepInput_rank4 {M : Model} {x : Tensor Fl} {N C H W : Nat} (hx : x.shape = [N, C, H, W]) (hN : 0 < N)
    (hC0 : 0 < M.num_channels) :
    if C * (H * W) = M.num_channels * M.num_features then
      ∃ z, M.prepInput x = .ok z ∧ z.Is3 N M.num_channels M.num_features fun n c d =>
        x.get (unflat [N, C, H, W] (flat [N, M.num_channels, M.num_features] [n, c, d]))
    else ∃ e, M.prepInput x = .error e := by
  have hi : x.Is [N, C, H, W] fun i => x.get i := Is.intro hx fun _ _ => rfl
  have hr : x.rank = 4 := by simp [rank, hx]
  have hs0 : x.size 0 = N := by simp [size, hx, at']
  have hpos : numelS [N, M.num_channels] ≠ 0 := by simp [numelS]; omega
  have hnum : numelS [N, C, H, W] = N * (C * (H * W)) := by simp [numelS]
  unfold Model.prepInput
  rw [if_neg (show ¬ x.rank = 2 by omega)]
  simp only [Res.ok_bind]
  rw [if_pos hr, hs0]
  split_ifs with h
  · obtain ⟨z, hz, h1⟩ := viewInfer_is (m := M.num_features) hi hpos (by rw [hnum, h]; simp [numelS]; ring)
    have hzr : z.rank = 3 := by simp [rank, h1.1]
    rw [hz]
    simp only [Res.ok_bind]
    rw [require_true _ hzr, require_true _ (by simp [size, h1.1, at']), require_true _ (by simp [size, h1.1, at'])]
    refine ⟨z, rfl, Is.intro h1.1 fun j hj => ?_⟩
    rw [Is.get h1 hj]
    match j, hj with
    | [a, b, c], _ => rfl
  · by_cases hd : (N * (C * (H * W))) % (N * M.num_channels) = 0
    · have hm : N * (C * (H * W)) = N * M.num_channels * (N * (C * (H * W)) / (N * M.num_channels)) := by
        have := Nat.div_add_mod (N * (C * (H * W))) (N * M.num_channels); omega
      obtain ⟨z, hz, h1⟩ := viewInfer_is (m := N * (C * (H * W)) / (N * M.num_channels)) hi hpos
        (by rw [hnum]; simpa [numelS] using hm)
      rw [hz]
      simp only [Res.ok_bind]
      rw [require_true _ (by simp [rank, h1.1]), require_true _ (by simp [size, h1.1, at'])]
      simp only [Res.ok_bind]
      rw [require_false _ ?_]
      · exact ⟨_, rfl⟩
      · intro e
        have : z.size 2 = N * (C * (H * W)) / (N * M.num_channels) := by simp [size, h1.1, at']
        rw [e] at this
        rw [← this] at hm
        apply h
        rw [Nat.mul_assoc] at hm
        exact Nat.eq_of_mul_eq_mul_left hN hm
    · unfold viewInfer
      rw [require_false _ ?_]
      · exact ⟨_, rfl⟩
      · rintro ⟨_, e⟩
        apply hd
        rw [numel, hx, hnum] at e
        simpa [numelS] using e

theorem prepInput_other {M : Model} {x : Tensor Fl} (hx : x.rank ≠ 2 ∧ x.rank ≠ 3 ∧ x.rank ≠ 4) :
    M.prepInput x = .error .assertion := by
  unfold Model.prepInput
  rw [if_neg hx.1]
  simp only [Res.ok_bind]
  rw [if_neg hx.2.2]

  rw [require_false _ hx.2.1]
  rfl

end Einet

namespace Einet.Props
open Tensor Einet

/-! ### C07 -/

/-- two calls do the same: both raise the same exception, or both return equal tensors. -/
def SameResult (a b : Res (Tensor Fl)) : Prop :=
  match a, b with
  | .ok x, .ok y => x.shape = y.shape ∧ AllIdx x.shape fun i => x.get i = y.get i
  | .error e, .error e' => e = e'
  | _, _ => False

theorem sameResult_of {M : Model} {g : Nat → Nat → Nat} (h : M.WF g) {x x' z z' : Tensor Fl} {N : Nat} {X : Nat → Data}
    (hz : M.prepInput x = .ok z) (hx : z.Is3 N M.num_channels M.num_features X) (hz' : M.prepInput x' = .ok z')
    (hx' : z'.Is3 N M.num_channels M.num_features X) (ms : Option Scopes) :
    SameResult (M.forward x ms) (M.forward x' ms) := by
  have h1 := Model.forward_cases h hz hx ms
  have h2 := Model.forward_cases h hz' hx' ms
  split_ifs at h1 h2 with hv
  · cases hs : Scopes.resolveOpt M.num_features ms with
    | ok sc =>
      rw [hs] at h1 h2
      obtain ⟨y, hy, hi⟩ := h1
      obtain ⟨y', hy', hi'⟩ := h2
      rw [hy, hy']
      refine ⟨by rw [hi.1, hi'.1], ?_⟩
      rw [AllIdx_iff, hi.1]
      intro j hj
      rw [Is.get hi hj, Is.get hi' hj]
    | error e =>
      rw [hs] at h1 h2
      rw [h1, h2]
      rfl
  · rw [h1, h2]
    rfl

/-- **C07**: an input `[N, D]` is treated like `[N, 1, D]`, for all sizes and contents, also when it is rejected. -/
theorem C07_rank2 (c : Config) (P : Params) (hP : P.Random) (M : Model) (h : build c P = .ok M) (N D : Nat)
    (x x' : Tensor Fl) (hx : x.shape = [N, D]) (hx' : x'.shape = [N, 1, D])
    (heq : ∀ n, n < N → ∀ d, d < D → x'.get [n, 0, d] = x.get [n, d]) (ms : Option Scopes) :
    SameResult (M.forward x ms) (M.forward x' ms) := by
  have h1 := prepInput_rank2 (M := M) hx
  have h2 := prepInput_rank3 (M := M) hx'
  split_ifs at h1 h2 with e
  · obtain ⟨z, hz, hi⟩ := h1
    refine sameResult_of (build_WF hP h).2.1 hz hi h2.1 ?_ ms
    refine Is.congr h2.2 ((AllIdx_iff _ _).2 fun j hj => ?_)
    match j, hj with
    | [a, b, d], hj =>
      have h0 := InB_at (d := 0) hj (by simp)
      have h1 := InB_at (d := 1) hj (by simp)
      have h2 := InB_at (d := 2) hj (by simp)
      simp only [at'] at h0 h1 h2 ⊢
      have : b = 0 := by omega
      subst this
      exact heq a h0 d (by omega)
  · unfold Model.forward Model.run
    rw [h1, h2]
    rfl

/-- **C07**: an input `[N, C, H, W]` with the configured number of channels is treated like its row-major flattening
`[N, C, H * W]`. -/
theorem C07_rank4 (c : Config) (P : Params) (hP : P.Random) (M : Model) (h : build c P = .ok M) (N H W : Nat)
    (hN : 0 < N) (x x' : Tensor Fl) (hx : x.shape = [N, M.num_channels, H, W])
    (hx' : x'.shape = [N, M.num_channels, H * W]) (hHW : H * W = M.num_features)
    (heq : ∀ n, n < N → ∀ c, c < M.num_channels → ∀ i, i < H → ∀ j, j < W →
      x'.get [n, c, i * W + j] = x.get [n, c, i, j]) (ms : Option Scopes) :
    SameResult (M.forward x ms) (M.forward x' ms) := by
  have hC0 : 0 < M.num_channels := by
    rw [(build_WF hP h).1.channels]
    have := ((assertValid_iff c).1 (build_valid h))
    omega
  have h1 := prepInput_rank4 (M := M) hx hN hC0
  have h2 := prepInput_rank3 (M := M) hx'
  rw [if_pos (by rw [hHW])] at h1
  rw [if_pos ⟨rfl, hHW⟩] at h2
  obtain ⟨z, hz, hi⟩ := h1
  refine sameResult_of (build_WF hP h).2.1 hz hi h2.1 ?_ ms
  refine Is.congr h2.2 ((AllIdx_iff _ _).2 fun j hj => ?_)
  match j, hj with
  | [a, b, d], hj =>
    have h0 := InB_at (d := 0) hj (by simp)
    have h1 := InB_at (d := 1) hj (by simp)
    have h2 := InB_at (d := 2) hj (by simp)
    simp only [at'] at h0 h1 h2 ⊢
    have hW : 0 < W := by
      rcases Nat.eq_zero_or_pos W with e | e
      · rw [e] at hHW; omega
      · exact e
    have hdH : d / W < H := (Nat.div_lt_iff_lt_mul hW).2 (by omega)
    have hdW := Nat.mod_lt d hW
    have e := heq a h0 b h1 (d / W) hdH (d % W) hdW
    rw [Nat.div_add_mod'] at e
    rw [e]
    congr 1
    refine (unflat_eq (by simp [InB]; exact ⟨h0, h1, hdH, hdW⟩) ?_).symm
    simp only [flat, numelS]
    have := Nat.div_add_mod' d W
    rw [← hHW]
    nlinarith

/-- **C07**: inputs whose rank is not 2, 3 or 4, or whose sizes disagree with the configuration, raise; for rank 4 only
the number of entries per row is looked at (`C07_refuted`). -/
theorem C07_rejects_partial (c : Config) (P : Params) (hP : P.Random) (M : Model) (h : build c P = .ok M)
    (x : Tensor Fl) (ms : Option Scopes)
    (hx : match x.shape with
      | [_, D] => ¬ (M.num_channels = 1 ∧ D = M.num_features)
      | [_, C, D] => ¬ (C = M.num_channels ∧ D = M.num_features)
      | [N, C, H, W] => 0 < N ∧ C * H * W ≠ M.num_channels * M.num_features
      | _ => True) : ∃ e, M.forward x ms = .error e := by
  have hC0 : 0 < M.num_channels := by
    rw [(build_WF hP h).1.channels]
    have := ((assertValid_iff c).1 (build_valid h))
    omega
  have key : ∀ e, M.prepInput x = .error e → ∃ e, M.forward x ms = .error e := by
    intro e he
    unfold Model.forward Model.run
    rw [he]
    exact ⟨e, rfl⟩
  match hs : x.shape, hx with
  | [], _ => exact key _ (prepInput_other (by simp [rank, hs]))
  | [_], _ => exact key _ (prepInput_other (by simp [rank, hs]))
  | [N, D], hx =>
    have h1 := prepInput_rank2 (M := M) hs
    rw [if_neg (fun e => hx ⟨e.1.symm, e.2⟩)] at h1
    exact key _ h1
  | [N, C, D], hx =>
    have h1 := prepInput_rank3 (M := M) hs
    rw [if_neg hx] at h1
    exact key _ h1
  | [N, C, H, W], hx =>
    have h1 := prepInput_rank4 (M := M) hs hx.1 hC0
    rw [if_neg (by rw [← Nat.mul_assoc]; exact hx.2)] at h1
    obtain ⟨e, he⟩ := h1
    exact key _ he
  | _ :: _ :: _ :: _ :: _ :: _, _ => exact key _ (prepInput_other (by simp [rank, hs]))

/-- **C07 is false for images with the wrong number of channels**: a model with 2 channels of 5 features accepts a one
channel image with 10 pixels. -/
theorem C07_refuted : ∃ (M : Model) (x : Tensor Fl), build (exConfig "linsum" "top-down") (exParams exLeaf) = .ok M ∧
    M.num_channels = 2 ∧ M.num_features = 5 ∧ x.shape = [1, 1, 2, 5] ∧ ∃ y, M.forward x = .ok y := by
  obtain ⟨M, h⟩ := exConfig_normal (l := "linsum") (s := "top-down") (Or.inl ⟨Or.inl rfl, rfl⟩)
  obtain ⟨e1, e2, e3⟩ := exSizes h
  obtain ⟨-, hw, hp, _⟩ := build_WF (exParams_random _) h
  have h1 := prepInput_rank4 (M := M) (x := ⟨[1, 1, 2, 5], fun _ => .fin 0⟩) rfl (by norm_num) (by omega)
  rw [if_pos (by rw [e1, e2])] at h1
  obtain ⟨z, hz, hi⟩ := h1
  have h2 := Model.forward_cases hw hz hi none
  have hv : ∀ n, n < 1 → M.leaf.base.Valid fun _ _ => .fin 0 := by
    intro n hn c _ f _
    exact (hp (by simp [exParams, exLeaf, LeafSpec.Good])).valid_zero _
  rw [if_pos hv] at h2
  obtain ⟨y, hy, _⟩ := h2
  exact ⟨M, _, h, e1, e2, rfl, y, hy⟩

/-- a one channel configuration with 2 x 3 images. -/
def exImage : Config := { exConfig "einsum" "top-down" with num_features := 6, num_channels := 1 }

theorem exImage_builds : ∃ M, build exImage (exParams exLeaf) = .ok M := by
  refine build_iff.2 ⟨(assertValid_iff _).2 ⟨by norm_num [exImage, exConfig], by norm_num [exImage, exConfig],
    by norm_num [exImage, exConfig], by norm_num [exImage, exConfig], by norm_num [exImage, exConfig],
    by norm_num [exImage, exConfig], ?_, rfl, by simp [exImage, exConfig], by simp [exImage, exConfig],
    by simp [exImage, exConfig], by norm_num [exImage, exConfig], by norm_num [exImage, exConfig, Int.fdiv_one]⟩,
    ⟨normalLeaf _ _ _, by simp [exParams, exLeaf, LeafSpec.build, exImage, exConfig]; rfl⟩, by norm_num [exImage, exConfig], fun _ => by norm_num [exImage, exConfig],
    fun _ => ⟨1 / 4, rfl, by norm_num, by norm_num⟩⟩
  rintro q ⟨⟩
  norm_num [Fl.lt]

/-- batches `[4, 6]`, `[4, 1, 6]` and `[4, 1, 2, 3]` for which the hypotheses of `C07_rank2` and `C07_rank4` hold, and
one of shape `[4, 2, 6]` that is rejected. -/
example : ∃ M, build exImage (exParams exLeaf) = .ok M ∧ ∃ x2 x3 x4 : Tensor Fl,
    x2.shape = [4, 6] ∧ x3.shape = [4, 1, 6] ∧ x4.shape = [4, M.num_channels, 2, 3] ∧ 2 * 3 = M.num_features ∧
    (∀ n d, x3.get [n, 0, d] = x2.get [n, d]) ∧ (∀ n c i j, x3.get [n, c, i * 3 + j] = x4.get [n, c, i, j]) ∧
    x3.get [0, 0, 1] ≠ x3.get [0, 0, 2] ∧ ¬ (2 = M.num_channels ∧ 6 = M.num_features) := by
  obtain ⟨M, h⟩ := exImage_builds
  have hs := (build_WF (exParams_random _) h).1
  have h1 : M.num_channels = 1 := by rw [hs.channels]; rfl
  have h2 : M.num_features = 6 := by rw [hs.features]; rfl
  refine ⟨M, h, ⟨[4, 6], fun i => .fin (at' 0 i * 7 + at' 1 i : ℕ)⟩, ⟨[4, 1, 6], fun i => .fin (at' 0 i * 7 + at' 2 i : ℕ)⟩,
    ⟨[4, M.num_channels, 2, 3], fun i => .fin (at' 0 i * 7 + (at' 2 i * 3 + at' 3 i) : ℕ)⟩, rfl, rfl, rfl, by omega,
    fun n d => rfl, fun n c i j => rfl, ?_, by omega⟩
  simp [at']

/-! ### C08 -/

/-- **C08**, the module function: for every finite matrix of class-conditional log-likelihoods, `exp(posterior)` is the
Bayes posterior under a uniform prior; it is positive, sums to one and ranks the classes like the likelihoods. -/
theorem C08_posterior (N K : Nat) (hK : 2 ≤ K) (ll : Tensor Fl) (hs : ll.shape = [N, K]) (v : Nat → Nat → ℝ)
    (hv : ∀ n, n < N → ∀ k, k < K → ll.get [n, k] = .fin (v n k)) :
    ∃ (p : Tensor Fl) (q : Nat → Nat → ℝ), posterior ll K = .ok p ∧ p.shape = [N, K] ∧ ∀ n, n < N →
      (∀ k, k < K → p.get [n, k] = .fin (q n k) ∧
        Real.exp (q n k) = (1 / K * Real.exp (v n k)) / ∑ j ∈ Finset.range K, 1 / K * Real.exp (v n j)) ∧
      ∑ k ∈ Finset.range K, Real.exp (q n k) = 1 ∧
      (∀ k, k < K → ∀ j, j < K → (q n k ≤ q n j ↔ v n k ≤ v n j)) := by
  have hK0 : (0 : ℝ) < K := by exact_mod_cast (by omega : 0 < K)
  have hi : ll.Is [N, K] fun i => ll.get i := Is.intro hs fun _ _ => rfl
  have hy : Fl.log (Fl.fin 1 / Fl.fin K) = .fin (Real.log (1 / K)) := by
    rw [Fl.fin_div _ hK0.ne', Fl.log_fin (by positivity)]
  let q : Nat → Nat → ℝ := fun n k =>
    v n k + Real.log (1 / K) - Real.log (∑ j ∈ Finset.range K, Real.exp (v n j + Real.log (1 / K)))
  have hsum : ∀ n, 0 < ∑ j ∈ Finset.range K, Real.exp (v n j + Real.log (1 / K)) := fun n =>
    Fl.sum_exp_pos (by omega) _
  have hexp : ∀ n j, Real.exp (v n j + Real.log (1 / K)) = 1 / K * Real.exp (v n j) := fun n j => by
    rw [Real.exp_add, Real.exp_log (by positivity), mul_comm]
  have hq : ∀ n k, Real.exp (q n k) = (1 / K * Real.exp (v n k)) / ∑ j ∈ Finset.range K, 1 / K * Real.exp (v n j) := by
    intro n k
    rw [Real.exp_sub, Real.exp_log (hsum n), hexp]
    simp only [hexp]
  have main : Res.Sat (posterior ll K) fun p => p.shape = [N, K] ∧
      ∀ n, n < N → ∀ k, k < K → p.get [n, k] = .fin (q n k) := by
    unfold posterior
    have hm := map_is (· + Fl.log (Fl.fin 1 / Fl.fin K)) hi
    refine (logsumexpKeep_is (d := 1) hm (by simp)).bind fun t ht => ?_
    refine (zipWith_is (c := [N, K]) _ hm ht (by simp [setAt]) ?_).mono fun p hp => ⟨hp.1, fun n hn k hk => ?_⟩
    · simp [bshape, setAt]
    · rw [Is.get hp (by simp [InB, hn, hk])]
      simp only [clipAll, setAt, at', clip_of_lt hn, clip_of_lt hk]
      rw [hv n hn k hk, hy, Fl.lse_eq_fin (g := fun j => v n j + Real.log (1 / K)) (by simpa using (by omega : 0 < K))]
      · simp [q]
      · intro j hj
        have hj : j < K := hj
        simp [hv n hn j hj]
  obtain ⟨p, hp, hps, hpv⟩ := main
  refine ⟨p, q, hp, hps, fun n hn => ⟨fun k hk => ⟨hpv n hn k hk, hq n k⟩, ?_, fun k hk j hj => ?_⟩⟩
  · simp only [hq]
    rw [← Finset.sum_div]
    refine div_self ?_
    have := hsum n
    simp only [hexp] at this
    exact this.ne'
  · simp only [q]
    constructor <;> intro h <;> linarith

/-- **C08** for the method: for a batch of data, `model.posterior(x)` is the Bayes posterior of the class given the
row, for the class-conditional log-likelihoods returned by `model(x)`. -/
theorem C08_model (c : Config) (P : Params) (hP : P.Random) (hg : P.leaf.Good) (M : Model) (h : build c P = .ok M)
    (hK : 2 ≤ M.num_classes) (N : Nat) (x : Tensor Fl) (hx : Batch P.leaf N M.num_channels M.num_features x) :
    ∃ (y p : Tensor Fl) (v q : Nat → Nat → ℝ), M.forward x = .ok y ∧ M.posterior x = .ok p ∧
      p.shape = [N, M.num_classes] ∧ ∀ n, n < N →
      (∀ k, k < M.num_classes → y.get [n, k] = .fin (v n k) ∧ p.get [n, k] = .fin (q n k) ∧
        Real.exp (q n k) = Real.exp (v n k) / ∑ j ∈ Finset.range M.num_classes, Real.exp (v n j)) ∧
      ∑ k ∈ Finset.range M.num_classes, Real.exp (q n k) = 1 ∧
      (∀ k, k < M.num_classes → ∀ j, j < M.num_classes → (q n k ≤ q n j ↔ v n k ≤ v n j)) := by
  obtain ⟨y, hy, hys, hv⟩ := build_forward hP hg h hx (ms := none) rfl
  have hfin : ∀ n, n < N → ∀ k, k < M.num_classes → y.get [n, k] = .fin (y.get [n, k]).val := by
    intro n hn k hk
    rw [hv n hn k hk]
    obtain ⟨v, hv⟩ := (build_outRow hP hg h (hx.2 n hn) (sc := none) (fun _ _ _ _ e => e) hk).1
    rw [hv]
    rfl
  obtain ⟨p, q, hp, hps, hq⟩ := C08_posterior N M.num_classes hK y hys (fun n k => (y.get [n, k]).val) hfin
  refine ⟨y, p, fun n k => (y.get [n, k]).val, q, hy, ?_, hps, fun n hn => ?_⟩
  · unfold Model.posterior
    rw [require_true _ (by omega)]
    simp only [Res.ok_bind]
    rw [hy]
    exact hp
  · obtain ⟨h1, h2, h3⟩ := hq n hn
    refine ⟨fun k hk => ⟨hfin n hn k hk, (h1 k hk).1, ?_⟩, h2, h3⟩
    rw [(h1 k hk).2, ← Finset.mul_sum, mul_div_mul_left]
    have : (0 : ℝ) < M.num_classes := by exact_mod_cast (by omega : 0 < M.num_classes)
    positivity

/-- with a single class `model.posterior` raises. -/
theorem C08_single_class (M : Model) (hK : ¬ 2 ≤ M.num_classes) (x : Tensor Fl) :
    M.posterior x = .error .assertion := by
  unfold Model.posterior
  rw [require_false _ (by omega)]
  rfl

example : ∃ M, build (exConfig "linsum" "bottom-up") (exParams exLeaf) = .ok M ∧ 2 ≤ M.num_classes ∧
    Batch (exParams exLeaf).leaf 3 M.num_channels M.num_features exBatch := by
  obtain ⟨M, h⟩ := exConfig_normal (l := "linsum") (s := "bottom-up") (Or.inr ⟨rfl, rfl⟩)
  obtain ⟨e1, e2, e3⟩ := exSizes h
  refine ⟨M, h, by omega, ?_⟩
  rw [e1, e2]
  exact exBatch_batch

end Einet.Props
