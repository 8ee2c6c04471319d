import Verif.PropsConvMixture

/-!
# C96: the law of an image sampled from a mixture of convolutional circuits
-/

open Classical MeasureTheory
open scoped ENNReal
noncomputable section
namespace Einet
open Tensor
namespace Props

/-- observations of a tensor: functions of its shape and of its entries. -/
def Observes (f : Tensor Fl → ℝ≥0∞) : Prop :=
  ∀ t t' : Tensor Fl, t.shape = t'.shape → (∀ i, InB t.shape i → t.get i = t'.get i) → f t = f t'

/-- `ConvModel.draw_le` with the shape of the result. -/
theorem draw_shape {M : ConvModel} (h : M.WF) (hs : M.leaf.samplable = true) {N : Nat} {a : ConvArgs} (hm : a.is_mpe = false)
    (hT : a.temperature_sums ≠ 0) :
    RLe (True, False) 1 (fun t t' => ConvModel.Eqv t t' ∧ t'.shape = [N, M.num_channels, M.height, M.width])
      (M.draw gumbel0 [] N a) (M.spec N a) := by
  unfold ConvModel.draw ConvModel.spec
  rw [sampleConv_atoms h.known, ← one_mul (1 : ℝ≥0∞)]
  have h0 := sampleAtoms_le (μ := gumbel0) (b := (True, False)) (c := 1) ENNReal.one_ne_top (by simp) ⟨fun _ => rfl, False.elim⟩
    h.chain (ctx := ConvModel.initCtx N a) hm hT (ConvModel.initCtx_ok N a)
  rw [one_pow] at h0
  refine RLe.bind ENNReal.one_ne_top h0 fun d ix ⟨hd, hd'⟩ => ?_
  obtain ⟨res, h1, h2⟩ := ConvModel.end_eq h hs hd hd'
  rw [h1, ← mul_one (1 : ℝ≥0∞)]
  exact RLe.bind ENNReal.one_ne_top (RLe.refl _ False.elim) fun v v' hv => by subst hv; exact RLe.pure ⟨h2 v, rfl⟩

/-- a group of one image is the image. -/
theorem arrange_one {k : Nat} {s : Tensor Fl} {C H W : Nat} (h5 : s.shape = [1, C, H, W]) :
    ∃ y, (do let all ← stack ([s].flatMap rows); all.takeRows (sortPerm [k])) = .ok y ∧ ConvModel.Eqv y s := by
  have hsep : separate [k] = [(k, [0])] := rfl
  obtain ⟨y, hy, h1, -, h3⟩ := arrange_ok (ks := [k]) (by simp) (s := [C, H, W]) (parts := [s])
    (by rw [hsep]; exact .cons h5 .nil)
  have hp : sortPerm [k] = [0] := by simp [sortPerm]
  have hr : s.rows = [s.row 0] := by simp [Tensor.rows, Tensor.size, h5, at']
  have hr' : y.rows = [y.row 0] := by simp [Tensor.rows, Tensor.size, h1, at']
  rw [hp, hr'] at h3
  simp only [List.flatMap_cons, List.flatMap_nil, hr, List.append_nil, List.map_cons, List.map_nil] at h3
  have h6 : y.row 0 = s.row 0 := by simpa using h3
  refine ⟨y, hy, h1.trans h5.symm, fun i hi => ?_⟩
  rw [h1] at hi
  match i, hi with
  | n :: i, ⟨hn, _⟩ =>
    obtain rfl : n = 0 := by simpa using hn
    exact congrArg (fun t : Tensor Fl => t.get i) h6

/-- the loop over the clusters for one image. -/
theorem sampleFree_one {X : ConvMixture} {a : MixArgs} {k : Nat} {M : ConvModel} (hM : X.models[k]? = some M) (hw : M.WF)
    (hs : M.leaf.samplable = true) (hm : a.is_mpe = false) (hT : a.temperature_sums ≠ 0) {f : Tensor Fl → ℝ≥0∞} (hf : Observes f) :
    (X.sampleFree gumbel0 a [k]).E f = (M.draw gumbel0 [] 1 (ConvMixture.freeArgs a 1)).E f := by
  have hd := draw_shape hw hs (N := 1) (a := ConvMixture.freeArgs a 1) hm hT
  have e1 : (M.draw gumbel0 [] 1 (ConvMixture.freeArgs a 1)).E f = (M.spec 1 (ConvMixture.freeArgs a 1)).E f := by
    refine le_antisymm ?_ (hd.2.1 trivial f f fun t t' h => (hf _ _ h.1.1 h.1.2).ge)
    have := hd.1 f f fun t t' h => (hf _ _ h.1.1 h.1.2).le
    rwa [one_mul] at this
  have hfree : X.sampleFree gumbel0 a [k] = (M.draw gumbel0 [] 1 (ConvMixture.freeArgs a 1)).bind fun s =>
      Rand.lift (do let all ← stack ([s].flatMap rows); all.takeRows (sortPerm [k])) := by
    unfold ConvMixture.sampleFree
    have hmod : X.model k = .ok M := by unfold ConvMixture.model; rw [hM]
    show (((Rand.lift (X.model k)).bind fun M => M.sample gumbel0 (ConvMixture.freeArgs a 1)).bind fun b =>
      (Rand.pure []).bind fun bs => .pure (b :: bs)).bind _ = _
    rw [hmod, Rand.lift_ok, Rand.pure_bind, Rand.bind_assoc]
    rfl
  have hs' : RLe (True, False) (1 * 1) ConvModel.Eqv (X.sampleFree gumbel0 a [k])
      ((M.spec 1 (ConvMixture.freeArgs a 1)).bind .pure) := by
    rw [hfree]
    refine RLe.bind ENNReal.one_ne_top hd fun s s' ⟨h1, h2⟩ => ?_
    obtain ⟨y, hy, h3⟩ := arrange_one (k := k) (h1.1.trans h2)
    rw [hy, Rand.lift_ok]
    exact RLe.pure ⟨h3.1.trans h1.1, fun i hi => (h3.2 i hi).trans (h1.2 i (by rw [← h3.1]; exact hi))⟩
  rw [e1]
  have e2 : ((M.spec 1 (ConvMixture.freeArgs a 1)).bind .pure).E f = (M.spec 1 (ConvMixture.freeArgs a 1)).E f := by
    rw [Rand.E_bind]
    rfl
  rw [← e2]
  refine le_antisymm ?_ (hs'.2.1 trivial f f fun t t' h => (hf _ _ h.1 h.2).ge)
  have := hs'.1 f f fun t t' h => (hf _ _ h.1 h.2).le
  rwa [one_mul, one_mul] at this

/-- **C96**, the law of a sampled image: circuit `k` is selected with probability `w[k] / sum(w)`, and the image has the law of the
images sampled from this circuit alone with the same arguments.  Missing: several images in one call, and noise other than exact
Gumbel noise. -/
theorem C96_law_partial (c : ConvConfig) (d : ImgShape) (P : Nat → ConvParams) (X : ConvMixture) (hX : IsConvMixture c d P X)
    (hu : c.Usual d) (hf : c.SizeFits d) (hs : ∀ k, (P k).leaf.CanSample) (w : List ℝ) (hw : X.mixture_weights = w.map Fl.fin)
    (hw0 : ∀ r ∈ w, 0 ≤ r) (hw1 : 0 < w.sum) (hwl : w.length ≤ X.models.length) (a : MixArgs) (he : a.evidence = none)
    (hm : a.is_mpe = false) (hone : a.num_samples = none ∨ a.num_samples = some 1) (hpc : a.num_samples_per_cluster = none)
    (hT : a.temperature_sums ≠ 0) :
    ∃ M : Nat → ConvModel, (∀ k, k < w.length → X.models[k]? = some (M k)) ∧ ∀ f, Observes f →
      (X.sample gumbel0 a).E f = ∑ k ∈ Finset.range w.length, ENNReal.ofReal (w.getD k 0 / w.sum) *
        ((M k).sample gumbel0 { num_samples := some 1, mpe_at_leaves := a.mpe_at_leaves,
                                temperature_leaves := a.temperature_leaves, temperature_sums := a.temperature_sums }).E f := by
  have hex : ∀ k, ∃ M, k < w.length → X.models[k]? = some M := fun k => by
    by_cases hk : k < w.length
    · exact ⟨X.models[k]'(by omega), fun _ => List.getElem?_eq_getElem (by omega)⟩
    · obtain ⟨M, hM⟩ := List.exists_mem_of_length_pos hX.parts.1
      exact ⟨M, fun h => absurd h hk⟩
  choose M hM using hex
  refine ⟨M, hM, fun f hf' => ?_⟩
  obtain ⟨M0, -, -⟩ := wMix_exists 1 one_pos []
  have hl : (List.replicate X.models.length (M0 0)).length = X.models.length := List.length_replicate
  have hW : Weights ⟨List.replicate X.models.length (M0 0), X.num_features, X.mixture_weights, X.centroids, X.nearest⟩ w :=
    ⟨hw, hw0, hw1, by rw [hl]; exact hwl⟩
  have hwlen : X.mixture_weights.length = w.length := by rw [hw, List.length_map]
  have hok : X.clusters.weightsOK := hW.ok
  have hcount : X.count a = 1 := by
    unfold ConvMixture.count
    rw [he, hpc]
    rcases hone with h | h <;> rw [h]
  have hsam : X.sample gumbel0 a = (Rand.drawList X.mixture_weights.length X.clusters.logWeight 1).bind fun ks =>
      X.sampleFree gumbel0 a ks := by
    unfold ConvMixture.sample ConvMixture.drawClusters
    rw [require_true _ (by rw [hpc]; simp), Rand.lift_ok, Rand.pure_bind, if_neg (by simp [hm]), hpc, he]
    dsimp only
    rw [require_true _ hok, Rand.lift_ok, Rand.pure_bind, hcount]
  rw [hsam, Rand.E_bind]
  show (∑ k ∈ Finset.range X.mixture_weights.length, toP (Fl.logSoftmax X.mixture_weights.length X.clusters.logWeight k) *
    (X.sampleFree gumbel0 a [k]).E f) = _
  rw [hwlen]
  refine Finset.sum_congr rfl fun k hk => ?_
  have hk : k < w.length := Finset.mem_range.1 hk
  have hb := hX.parts.2.2 _ _ (hM k hk)
  have h1 := hW.draw hk
  dsimp only at h1
  rw [hwlen] at h1
  rw [sampleFree_one (hM k hk) (buildConv_WF hu hf hb) (conv_samp (hX.good _) (hs _) hb).samplable hm hT hf']
  have h2 : ConvMixture.freeArgs a 1 = { num_samples := some 1, mpe_at_leaves := a.mpe_at_leaves,
                                         temperature_leaves := a.temperature_leaves, temperature_sums := a.temperature_sums } := by
    unfold ConvMixture.freeArgs
    rw [hm]
  rw [show toP (Fl.logSoftmax w.length X.clusters.logWeight k) = ENNReal.ofReal (w.getD k 0 / w.sum) from h1, h2]
  rfl

/-- observations: the probability that a pixel of the first image is bright. -/
example (c y x : Nat) : Observes fun t => if InB t.shape [0, c, y, x] ∧ t.get [0, c, y, x] = .fin 1 then 1 else 0 := by
  intro t t' h1 h2
  dsimp only
  rw [h1]
  by_cases hi : InB t'.shape [0, c, y, x]
  · rw [h2 _ (by rw [h1]; exact hi)]
  · rw [if_neg fun h => hi h.1, if_neg fun h => hi h.1]

end Props
end Einet
