import Verif.MvnFwd
import Verif.SampleBuild
import Verif.LawExt

/-!
# Samples of an einet with multivariate normal leaves
-/

open Classical MeasureTheory ProbabilityTheory Matrix
open scoped ENNReal
noncomputable section
namespace Einet
open Tensor

/-! ### Products over blocks -/

theorem prod_range_mul {α : Type} [CommMonoid α] (a m : Nat) (q : Nat → α) :
    ∏ d ∈ Finset.range (a * m), q d = ∏ i ∈ Finset.range a, ∏ j ∈ Finset.range m, q (i * m + j) := by
  induction a with
  | zero => simp
  | succ a ih => rw [Nat.succ_mul, Finset.prod_range_add, ih, Finset.prod_range_succ]

theorem flat_unflat {s : List Nat} {d : Nat} (h : d < numelS s) : flat s (unflat s d) = d := by
  induction s generalizing d with
  | nil => simp [numelS] at h; simp [flat, h]
  | cons a s ih =>
    rw [numelS] at h
    have hs : 0 < numelS s := by
      rcases Nat.eq_zero_or_pos (numelS s) with e | e
      · rw [e] at h; simp at h
      · exact e
    have hlt : d / numelS s < a := (Nat.div_lt_iff_lt_mul hs).2 h
    simp only [flat, unflat]
    rw [ih (Nat.mod_lt _ hs), Nat.mod_eq_of_lt hlt]
    exact Nat.div_add_mod' d (numelS s)

theorem prod_range_numel (s : List Nat) (q : List Nat → ℝ≥0∞) :
    ∏ d ∈ Finset.range (numelS s), q (unflat s d) = prodBox s q := by
  induction s generalizing q with
  | nil => simp [numelS, unflat, prodBox_nil]
  | cons a s ih =>
    rw [prodBox_cons, numelS, prod_range_mul]
    refine Finset.prod_congr rfl fun i hi => ?_
    have hi' : i < a := by simpa using hi
    rw [← ih]
    refine Finset.prod_congr rfl fun j hj => ?_
    have hj' : j < numelS s := by simpa using hj
    congr 1
    simp only [unflat]
    rw [Nat.mul_comm i, Nat.mul_add_div (by omega), Nat.div_eq_of_lt hj', Nat.add_zero, Nat.mul_add_mod, Nat.mod_eq_of_lt hj',
      Nat.mod_eq_of_lt hi']

/-- independent draws whose laws are known. -/
theorem Rand.HasLaw.drawAll' {α : Type} [MeasurableSpace α] (is : List (List Nat)) (p : List Nat → Rand α)
    (hp : ∀ i, ∃ ν : Measure α, SFinite ν ∧ ∀ φ : α → ℝ≥0∞, Measurable φ → (p i).E φ = ∫⁻ ω, φ ω ∂ν) (d : List Nat → α) :
    Rand.HasLaw (Rand.drawAll is p d) fun f => f := by
  have : ∃ ν : Measure (List Nat → α), SFinite ν ∧ ∀ φ : (List Nat → α) → ℝ≥0∞, Measurable φ →
      (Rand.drawAll is p d).E φ = ∫⁻ ω, φ ω ∂ν := by
    induction is with
    | nil => exact ⟨Measure.dirac d, inferInstance, fun φ hφ => (lintegral_dirac' _ hφ).symm⟩
    | cons i is ih =>
      obtain ⟨ν, hs, hν⟩ := ih
      obtain ⟨μ, hs', hμ⟩ := hp i
      let u : α × (List Nat → α) → List Nat → α := fun p j => if j = i then p.1 else p.2 j
      have hu : Measurable u := by
        refine measurable_pi_iff.2 fun j => ?_
        by_cases hj : j = i
        · simp only [u, hj, if_true]; exact measurable_fst
        · simp only [u, hj, if_false]; exact (measurable_pi_apply j).comp measurable_snd
      refine ⟨(μ.prod ν).map u, inferInstance, fun φ hφ => ?_⟩
      rw [lintegral_map hφ hu, lintegral_prod (fun p => φ (u p)) (hφ.comp hu).aemeasurable]
      simp only [Rand.drawAll, Rand.E_bind, Rand.E_pure]
      have e : ∀ x, (Rand.drawAll is p d).E (fun f => φ (u (x, f))) = ∫⁻ f, φ (u (x, f)) ∂ν := fun x =>
        hν (fun f => φ (u (x, f))) ((hφ.comp hu).comp measurable_prodMk_left)
      refine Eq.trans ?_ (hμ (fun x => ∫⁻ f, φ (u (x, f)) ∂ν) (hφ.comp hu).lintegral_prod_right')
      congr 1
      funext x
      exact e x
  obtain ⟨ν, _, h⟩ := this
  exact ⟨ν, h⟩

namespace MvnLeaf

/-- `arrange` puts the values of neighbouring features side by side. -/
theorem arrange_is {L : MvnLeaf} (hK : 0 < L.cardinality) (hp : L.pad_value = 0) {t : Tensor ℝ} {N : Nat}
    {T : Nat → Nat → Nat → ℝ} (ht : t.Is3 N L.num_dists L.cardinality T) :
    Res.Sat (L.arrange N t) fun s => s.Is5 N L.num_channels L.num_features L.num_leaves L.num_repetitions
      fun n c f i r => T n (flat L.paramShape [c, f / L.cardinality, i, r]) (f % L.cardinality) := by
  have hF := out_mul hK hp
  unfold arrange
  refine (view_is ht (s' := [N, L.num_channels, L.out_features, L.num_leaves, L.num_repetitions, L.cardinality])
    (by simp only [numelS, num_dists, paramShape]; ring)).bind fun u hu => ?_
  refine (permute_is hu (p := [0, 1, 2, 5, 3, 4]) (show [0, 1, 2, 5, 3, 4].Perm (List.range 6) by decide) ?_).bind
    fun v hv => ?_
  · intro j hj
    match j, hj with
    | [n, c, b, k, i, r], ⟨hn, hc, hb, hk, hi, hr, _⟩ => exact ⟨hn, hc, hb, hi, hr, hk, trivial⟩
  refine (view_is hv (s' := [N, L.num_channels, L.num_features, L.num_leaves, L.num_repetitions]) ?_).mono fun w hw => ?_
  · simp only [List.map, at', numelS]
    rw [← hF]
    ring
  refine Is.congr hw ((AllIdx_iff _ _).2 fun j hj => ?_)
  match j, hj with
  | [n, c, f, i, r], ⟨hn, hc, hf, hi, hr, _⟩ =>
    have hb : f / L.cardinality < L.out_features := by
      rw [Nat.div_lt_iff_lt_mul hK, hF]; exact hf
    have hk : f % L.cardinality < L.cardinality := Nat.mod_lt _ hK
    have hd := Nat.div_add_mod f L.cardinality
    have e1 : unflat ([0, 1, 2, 5, 3, 4].map fun d => at' d
          [N, L.num_channels, L.out_features, L.num_leaves, L.num_repetitions, L.cardinality])
        (flat [N, L.num_channels, L.num_features, L.num_leaves, L.num_repetitions] [n, c, f, i, r]) =
        [n, c, f / L.cardinality, f % L.cardinality, i, r] := by
      refine unflat_eq ⟨hn, hc, hb, hk, hi, hr, trivial⟩ ?_
      simp only [List.map, at', flat, numelS]
      rw [← hF]
      calc _ = n * (L.num_channels * (L.out_features * L.cardinality * (L.num_leaves * L.num_repetitions))) +
            c * (L.out_features * L.cardinality * (L.num_leaves * L.num_repetitions)) +
            (L.cardinality * (f / L.cardinality) + f % L.cardinality) * (L.num_leaves * L.num_repetitions) +
            i * L.num_repetitions + r := by ring
        _ = _ := by rw [hd]; ring
    have e2 : unflat [N, L.num_dists, L.cardinality]
        (flat [N, L.num_channels, L.out_features, L.num_leaves, L.num_repetitions, L.cardinality]
          [n, c, f / L.cardinality, i, r, f % L.cardinality]) =
        [n, flat L.paramShape [c, f / L.cardinality, i, r], f % L.cardinality] := by
      refine unflat_eq ⟨hn, flat_lt (show InB L.paramShape [c, f / L.cardinality, i, r] from ⟨hc, hb, hi, hr, trivial⟩), hk,
        trivial⟩ ?_
      simp only [flat, numelS, num_dists, paramShape]
      ring
    rw [e1]
    show (fun j : List Nat => T (at' 0 j) (at' 1 j) (at' 2 j)) (unflat [N, L.num_dists, L.cardinality]
        (flat [N, L.num_channels, L.out_features, L.num_leaves, L.num_repetitions, L.cardinality]
          [n, c, f / L.cardinality, i, r, f % L.cardinality])) = _
    rw [e2]
    rfl

/-- `dist_sample` after the numbers were drawn: the chosen repetition. -/
def pick (L : MvnLeaf) (ctx : Ctx) (t : Tensor ℝ) : Res (Tensor ℝ) := do
  let samples ← L.arrange ctx.num_samples t
  let r_idxs ← (ctx.indices_repetition.unsqueezeEnd 4).expand
    [none, some L.num_channels, some L.num_features, some L.num_leaves, none]
  (← samples.gather 4 r_idxs).squeeze 4

theorem pick_is {L : MvnLeaf} (hK : 0 < L.cardinality) (hp : L.pad_value = 0) {t : Tensor ℝ} {N D S : Nat}
    {T : Nat → Nat → Nat → ℝ} (ht : t.Is3 N L.num_dists L.cardinality T) {ctx : Ctx} {idx : Nat → Nat → Nat} {rr : Nat → Nat}
    (h : CtxOK ctx N D S L.num_repetitions idx rr) :
    Res.Sat (L.pick ctx t) fun s => s.Is4 N L.num_channels L.num_features L.num_leaves
      fun n c f i => T n (flat L.paramShape [c, f / L.cardinality, i, rr n]) (f % L.cardinality) := by
  unfold pick
  rw [h.ns]
  refine (arrange_is hK hp ht).bind fun u hu => ?_
  refine (expand_is (unsqueezeEnd_is 4 h.ir) (s' := [N, L.num_channels, L.num_features, L.num_leaves, 1])
    (by simp [expandShape])).bind fun ri hri => ?_
  refine (gather_is hu hri (by simp) (by simp [leExcept]) ?_).bind fun t ht => ?_
  · rw [AllIdx_iff]
    intro j hj
    have h0 := InB_at (d := 0) hj (by simp)
    match j, hj with
    | [a, b, c, d, e], hj =>
      simp only [at'] at h0
      simp [clipAll, at', clip_of_lt h0, h.ir_lt a h0]
  · refine (squeeze_is ht (by simp) (by simp [at'])).mono fun u hu => ?_
    refine hu.is4 ?_
    intro n hn c hc f hf i hi
    simp [insAt, setAt, clipAll, at', clip_of_lt hn]

/-- value of position `k` of block `b` for the noise `eps`. -/
def noisy (L : MvnLeaf) (eps : List Nat → Nat → ℝ) (n c b i r : Nat) : Fin L.cardinality → ℝ :=
  L.loc [c, b, i, r] + L.scale_tril [c, b, i, r] *ᵥ fun k => eps [n, flat L.paramShape [c, b, i, r]] k

/-- independence of the components drawn by `dist_sample`. -/
theorem noise_E (L : MvnLeaf) {N : Nat} {rr : Nat → Nat} (hrr : ∀ n, n < N → rr n < L.num_repetitions)
    {h : Nat → Nat → Nat → Nat → (Fin L.cardinality → ℝ) → ℝ≥0∞} (hm : ∀ n c b i, Measurable (h n c b i)) :
    (Rand.drawAll (box [N, L.num_dists]) (fun _ => drawVec (gaussianReal 0 1) L.cardinality) (fun _ _ => 0)).E
      (fun eps => prod3 N L.num_channels L.out_features fun n c b => ∏ i ∈ Finset.range L.num_leaves,
        h n c b i (L.noisy eps n c b i (rr n))) =
      prod3 N L.num_channels L.out_features fun n c b => ∏ i ∈ Finset.range L.num_leaves, ∫⁻ v, h n c b i v *
        ENNReal.ofReal (Real.exp (mvnLogProb (L.loc [c, b, i, rr n]) (L.scale_tril [c, b, i, rr n]) v)) := by
  have hexp : ∀ q : Nat → List Nat → ℝ≥0∞, prodBox [N, L.num_dists] (fun j =>
      (fun n p => if at' 3 p = rr n then q n p else 1) (at' 0 j) (unflat L.paramShape (at' 1 j))) =
      prod3 N L.num_channels L.out_features fun n c b => ∏ i ∈ Finset.range L.num_leaves, q n [c, b, i, rr n] := by
    intro q
    rw [prodBox_cons]
    unfold prod3
    refine Finset.prod_congr rfl fun n hn => ?_
    rw [prodBox_cons]
    simp only [prodBox_nil]
    refine (prod_range_numel L.paramShape (fun p => if at' 3 p = rr n then q n p else 1)).trans ?_
    simp only [paramShape, prodBox_cons, prodBox_nil, at']
    rw [Finset.prod_comm]
    refine Finset.prod_congr rfl fun b _ => Finset.prod_congr rfl fun c _ => Finset.prod_congr rfl fun i _ => ?_
    rw [Finset.prod_eq_single (rr n)]
    · simp
    · intro r _ hne; simp [hne]
    · intro hne; exact absurd (Finset.mem_range.2 (hrr n (by simpa using hn))) hne
  set t : List Nat → (Nat → ℝ) → ℝ≥0∞ := fun j w =>
    (fun n p => if at' 3 p = rr n then
      h n (at' 0 p) (at' 1 p) (at' 2 p) (L.loc p + L.scale_tril p *ᵥ fun k => w k) else 1) (at' 0 j)
      (unflat L.paramShape (at' 1 j)) with ht
  have e1 : ∀ eps : List Nat → Nat → ℝ, (prod3 N L.num_channels L.out_features fun n c b =>
      ∏ i ∈ Finset.range L.num_leaves, h n c b i (L.noisy eps n c b i (rr n))) =
      ((box [N, L.num_dists]).map fun j => t j (eps j)).prod := by
    intro eps
    refine (hexp fun n p => h n (at' 0 p) (at' 1 p) (at' 2 p) (L.loc p + L.scale_tril p *ᵥ fun k =>
      eps [n, flat L.paramShape p] k)).symm.trans ?_
    refine prodBox_congr fun j hj => ?_
    match j, hj with
    | [n, d], ⟨hn, hd, _⟩ =>
      simp only [ht, at']
      rw [flat_unflat hd]
  simp only [e1]
  have hmt : ∀ j, Measurable fun w : Nat → ℝ => t j w := by
    intro j
    rw [ht]
    dsimp only
    split_ifs
    · refine (hm _ _ _ _).comp ?_
      refine (LowerPos.measurable_affine _ _).comp ?_
      exact measurable_pi_lambda _ fun k => measurable_pi_apply _
    · exact measurable_const
  have hEv : ∀ f : (Nat → ℝ) → ℝ≥0∞, Measurable f → (drawVec (gaussianReal 0 1) L.cardinality).E f =
      ∫⁻ z : Fin L.cardinality → ℝ, f (extV z) ∂(Measure.pi fun _ => gaussianReal 0 1) := fun f hf =>
    E_drawVec_pi _ _ hf
  rw [Rand.E_drawAll (box_nodup _)]
  · refine Eq.trans ?_ (hexp fun n p => ∫⁻ v, h n (at' 0 p) (at' 1 p) (at' 2 p) v *
        ENNReal.ofReal (Real.exp (mvnLogProb (L.loc p) (L.scale_tril p) v)))
    unfold prodBox
    congr 1
    refine List.map_congr_left fun j _ => ?_
    rw [ht]
    dsimp only
    split_ifs
    · exact (L.lowerPos _).E_noise _ (hm _ _ _ _)
    · rw [hEv _ measurable_const]
      simp
  · intro j _ c
    rw [hEv _ ((hmt j).mul_const c), hEv _ (hmt j)]
    exact lintegral_mul_const _ ((hmt j).comp measurable_extV)

/-- the numbers drawn by `dist_sample`. -/
def raw (L : MvnLeaf) (ctx : Ctx) : Rand (Tensor ℝ) :=
  if ctx.is_mpe = true ∨ ctx.mpe_at_leaves = true then .pure (L.rawMode ctx.num_samples) else L.rawSample ctx.num_samples

theorem sampleAll_eq (L : MvnLeaf) (ctx : Ctx) : L.sampleAll ctx = (L.raw ctx).bind fun t => Rand.lift (L.pick ctx t) := by
  unfold sampleAll raw pick
  simp only [Rand.bind_eq]
  split_ifs <;> rfl

end MvnLeaf

theorem Tensor.repeatDim_is {α : Type} {t : Tensor α} {s : List Nat} {g : List Nat → α} (h : t.Is s g) {k d : Nat}
    (hd : d < s.length) (hs : 0 < at' d s) :
    Res.Sat (t.repeatDim k d) fun u => u.Is (setAt d (at' d s * k) s) fun i => g (setAt d (at' d i % at' d s) i) := by
  have hsz : t.size d = at' d s := by rw [size, h.1]
  unfold repeatDim
  refine Res.Sat.require (by rw [rank, h.1]; exact hd) (Res.Sat.pure (Is.intro (by rw [hsz, h.1]) fun i hi => ?_))
  rw [hsz]
  refine h.get ?_
  exact InB_setAt hi (Nat.mod_lt _ hs)

namespace MvnEinet

/-- number of features in the result of `sample`: all of them with several repetitions, the number of blocks with one. -/
def width (E : MvnEinet) : Nat :=
  match E.net.leaf with
  | .factorized _ => E.leaf.num_features
  | _ => E.leaf.out_features

/-- selection of the leaf components. -/
theorem select_is {E : MvnEinet} {g : Nat → Nat → Nat} (h : E.WF g) (hp : E.leaf.pad_value = 0)
    (hnd : ∀ B, E.net.leaf ≠ .direct B) (hF0 : 0 < E.leaf.num_features) {ctx : Ctx} {N : Nat} (hN : 0 < N)
    {idx : Nat → Nat → Nat} {rr : Nat → Nat}
    (hc : CtxOK ctx N E.net.numOut E.net.num_leaves E.net.num_repetitions idx rr) {t : Tensor ℝ}
    {T : Nat → Nat → Nat → Nat → ℝ} (ht : t.Is4 N E.leaf.num_channels E.leaf.num_features E.leaf.num_leaves T) :
    Res.Sat (E.select ctx t) fun s => s.Is3 N E.leaf.num_channels E.width
      fun n c f => T n c f (idx n (E.net.grpS g (rr n) (f % E.leaf.out_features))) := by
  have hF := MvnLeaf.out_mul h.card hp
  have hB0 : 0 < E.leaf.out_features := by
    rcases Nat.eq_zero_or_pos E.leaf.out_features with e | e
    · rw [e] at hF; omega
    · exact e
  have hf1 := h.net.front.features; have hf2 := h.net.front.channels; have hf3 := h.net.front.leaves
  have hf4 := h.net.front.reps
  have hlt : ∀ n, n < N → ∀ f, idx n (E.net.grpS g (rr n) (f % E.leaf.out_features)) < E.leaf.num_leaves := by
    intro n hn f
    rw [← h.leaves]
    refine hc.io_lt n hn _ (h.net.front.grpS_lt (hc.ir_lt n hn) ?_)
    rw [h.features]
    exact Nat.mod_lt _ hB0
  unfold select width
  cases hL : E.net.leaf with
  | direct B => exact absurd hL (hnd B)
  | factorized L =>
    simp only [hL, Leaf.base] at hf1 hf2 hf3 hf4 ⊢
    have hO : E.net.numOut = L.num_features_out := by unfold Model.numOut; rw [hL]
    have hgs : ∀ r f, E.net.grpS g r f = g r f := by intro r f; unfold Model.grpS; rw [hL]
    simp only [hgs] at hlt ⊢
    have hW := h.net.front.fact L hL
    have hBF : L.base.num_features = E.leaf.out_features := by rw [hf1, h.features]
    have hctx' : CtxOK ctx N L.num_features_out E.net.num_leaves L.base.num_repetitions idx rr := by
      rw [hf4, ← hO]; exact hc
    refine Res.Sat.require (by rw [ht.1, hc.ns]) ?_
    have hg := FactLeaf.groupIdx_is hW hctx'
    rw [hBF] at hg
    refine (gather_is hctx'.io hg (by simp) (by simp [leExcept]) ?_).bind fun q hq => ?_
    · rw [AllIdx_iff]
      intro j hj
      exact hW.lt _ (hctx'.ir_lt _ (InB_at (d := 0) hj (by simp))) _ (by rw [hBF]; exact InB_at (d := 1) hj (by simp))
    rw [hc.ns]
    refine (viewInfer_is hq (m := E.leaf.out_features) (by simp [numelS]; omega) (by simp [numelS])).bind fun p hp' => ?_
    refine (expand_is (unsqueezeEnd_is 1 hp') (s' := [N, E.leaf.num_channels, E.leaf.out_features, 1])
      (by simp [expandShape])).bind fun p2 hp2 => ?_
    have hp3 : p2.Is [N, E.leaf.num_channels, E.leaf.out_features, 1] fun j =>
        idx (at' 0 j) (g (rr (at' 0 j)) (at' 2 j)) := by
      refine hp2.congr ((AllIdx_iff _ _).2 fun j hj => ?_)
      match j, hj with
      | [n, cc, f, z], hj =>
        have e : unflat [N, E.leaf.out_features] (flat [N, 1, E.leaf.out_features] [n, 0, f]) = [n, f] :=
          unflat_eq ⟨hj.1, hj.2.2.1, by simp⟩ (by simp only [flat, numelS]; ring)
        simp [clipAll, clip_of_lt hj.1, clip_of_lt hj.2.2.1, e, at', setAt]
    refine (Tensor.repeatDim_is hp3 (k := E.leaf.cardinality) (d := 2) (by simp) (by simpa [at'] using hB0)).bind
      fun p4 hp4 => ?_
    simp only [setAt, at', hF] at hp4
    refine (gather_is ht hp4 (by simp) (by simp [leExcept]) ?_).bind fun u hu => ?_
    · rw [AllIdx_iff]
      intro j hj
      match j, hj with
      | [n, cc, f, z], hj =>
        have := hlt n hj.1 f
        simpa only [at', setAt] using this
    · refine (squeeze_is hu (by simp) (by simp [at'])).mono fun w hw => ?_
      refine Is.is3 hw ?_
      intro n hn cc hcc f hf
      simp [insAt, setAt, at']
  | simple L =>
    simp only [hL, Leaf.base] at hf1 hf2 hf3 hf4 ⊢
    have hO : E.net.numOut = L.num_features_out := by unfold Model.numOut; rw [hL]
    have hgs : ∀ r f, E.net.grpS g r f = L.inverse_permutation.getD f 0 % L.num_features_out := by
      intro r f; unfold Model.grpS; rw [hL]
    simp only [hgs] at hlt ⊢
    have hW := h.net.front.simple L hL
    have hBF : L.base.num_features = E.leaf.out_features := by rw [hf1, h.features]
    have hctx' : CtxOK ctx N L.num_features_out E.net.num_leaves L.base.num_repetitions idx rr := by
      rw [hf4, ← hO]; exact hc
    refine Res.Sat.require (by rw [ht.1, hc.ns]) ?_
    refine (FactSimple.unfoldIndices_is hW hctx').bind fun i hi => ?_
    rw [hBF, hf2, h.channels] at hi
    have hle : E.leaf.out_features ≤ E.leaf.num_features := by
      rw [← hF]; exact Nat.le_mul_of_pos_right _ h.card
    refine (gather_is ht (unsqueezeEnd_is 1 hi) (by simp) (by simpa [leExcept] using hle) ?_).bind fun u hu => ?_
    · rw [AllIdx_iff]
      intro j hj
      match j, hj with
      | [n, cc, f, z], hj =>
        have := hlt n hj.1 f
        rw [Nat.mod_eq_of_lt hj.2.2.1] at this
        simpa only [at', List.take, List.length] using this
    · refine (squeeze_is hu (by simp) (by simp [at'])).mono fun w hw => ?_
      refine Is.is3 hw ?_
      intro n hn cc hcc f hf
      rw [Nat.mod_eq_of_lt hf]
      simp [insAt, setAt, at']

/-- noise as a tensor of values. -/
def _root_.Einet.MvnLeaf.rawOf (L : MvnLeaf) (n : Nat) (eps : List Nat → Nat → ℝ) : Tensor ℝ :=
  ⟨[n, L.num_dists, L.cardinality], fun j =>
      if h : at' 2 j < L.cardinality then
        (L.loc (unflat L.paramShape (at' 1 j)) +
          L.scale_tril (unflat L.paramShape (at' 1 j)) *ᵥ fun k => eps [at' 0 j, at' 1 j] k) ⟨at' 2 j, h⟩
      else 0⟩

/-- `self.leaf.sample(ctx)` for given noise. -/
theorem sampleLeaf_eq {E : MvnEinet} {g : Nat → Nat → Nat} (h : E.WF g) (hp : E.leaf.pad_value = 0)
    (hnd : ∀ B, E.net.leaf ≠ .direct B) (hF0 : 0 < E.leaf.num_features) {ctx : Ctx} {N : Nat} (hN : 0 < N)
    {idx : Nat → Nat → Nat} {rr : Nat → Nat}
    (hc : CtxOK ctx N E.net.numOut E.net.num_leaves E.net.num_repetitions idx rr) (hm : ctx.is_mpe = false)
    (hml : ctx.mpe_at_leaves = false) :
    ∃ res : (List Nat → Nat → ℝ) → Res (Tensor ℝ),
      E.sampleLeaf ctx = (Rand.drawAll (box [N, E.leaf.num_dists]) (fun _ => drawVec (gaussianReal 0 1) E.leaf.cardinality)
        (fun _ _ => 0)).bind (fun eps => Rand.lift (res eps)) ∧
      ∀ eps, Res.Sat (res eps) fun s => s.Is3 N E.leaf.num_channels E.width fun n c f =>
        E.leaf.noisy eps n c (f / E.leaf.cardinality) (idx n (E.net.grpS g (rr n) (f % E.leaf.out_features))) (rr n)
          ⟨f % E.leaf.cardinality, Nat.mod_lt _ h.card⟩ := by
  have hF := MvnLeaf.out_mul h.card hp
  have hB0 : 0 < E.leaf.out_features := by
    rcases Nat.eq_zero_or_pos E.leaf.out_features with e | e
    · rw [e] at hF; omega
    · exact e
  have hwl : E.width ≤ E.leaf.num_features := by
    have hle : E.leaf.out_features ≤ E.leaf.num_features := by
      rw [← hF]; exact Nat.le_mul_of_pos_right _ h.card
    unfold width
    split <;> omega
  refine ⟨fun eps => E.leaf.pick ctx (E.leaf.rawOf N eps) >>= E.select ctx, ?_, fun eps => ?_⟩
  · unfold sampleLeaf
    rw [MvnLeaf.sampleAll_eq, Rand.bind_assoc]
    unfold MvnLeaf.raw
    rw [if_neg (by simp [hm, hml]), hc.ns]
    unfold MvnLeaf.rawSample
    rw [Rand.bind_assoc]
    congr 1
    funext eps
    rw [Rand.pure_bind, Rand.lift_bind]
    rfl
  · have hraw : (E.leaf.rawOf N eps).Is3 N E.leaf.num_dists E.leaf.cardinality
        fun n d k => if hk : k < E.leaf.cardinality then (E.leaf.loc (unflat E.leaf.paramShape d) +
          E.leaf.scale_tril (unflat E.leaf.paramShape d) *ᵥ fun k => eps [n, d] k) ⟨k, hk⟩ else 0 :=
      Is.intro rfl fun _ _ => rfl
    have hc' : CtxOK ctx N E.net.numOut E.net.num_leaves E.leaf.num_repetitions idx rr := by rw [← h.reps]; exact hc
    refine (MvnLeaf.pick_is h.card hp hraw hc').bind fun t ht => ?_
    refine (select_is h hp hnd hF0 hN hc ht).mono fun s hs => Is.is3 hs ?_
    intro n hn c hcc f hf
    simp only [at']
    have hf' : f < E.leaf.num_features := by omega
    have hb : f / E.leaf.cardinality < E.leaf.out_features := by
      rw [Nat.div_lt_iff_lt_mul h.card, hF]; exact hf'
    have hi : idx n (E.net.grpS g (rr n) (f % E.leaf.out_features)) < E.leaf.num_leaves := by
      rw [← h.leaves]
      refine hc.io_lt n hn _ (h.net.front.grpS_lt (hc.ir_lt n hn) ?_)
      rw [h.features]
      exact Nat.mod_lt _ hB0
    have hr : rr n < E.leaf.num_repetitions := hc'.ir_lt n hn
    refine (dif_pos (Nat.mod_lt _ h.card)).trans ?_
    rw [unflat_flat (show InB E.leaf.paramShape [c, f / E.leaf.cardinality,
      idx n (E.net.grpS g (rr n) (f % E.leaf.out_features)), rr n] from ⟨hcc, hb, hi, hr, trivial⟩)]
    rfl

/-- expectation of a function of the values of a block under one component. -/
def blkE (E : MvnEinet) (c b i r : Nat) (h : (Fin E.leaf.cardinality → ℝ) → ℝ≥0∞) : ℝ≥0∞ :=
  ∫⁻ v, h v * ENNReal.ofReal (Real.exp (mvnLogProb (E.leaf.loc [c, b, i, r]) (E.leaf.scale_tril [c, b, i, r]) v))

theorem blkE_one (E : MvnEinet) (c b i r : Nat) : E.blkE c b i r (fun _ => 1) = 1 := by
  unfold blkE
  simp only [one_mul]
  exact (E.leaf.lowerPos _).integral_one _

theorem index_div {K : Nat} (hK : 0 < K) (b : Nat) (k : Fin K) : (b * K + k) / K = b := by
  rw [Nat.mul_comm, Nat.mul_add_div hK, Nat.div_eq_of_lt k.2, Nat.add_zero]

theorem index_mod {K : Nat} (b : Nat) (k : Fin K) : (b * K + k) % K = k := by
  rw [Nat.mul_comm, Nat.mul_add_mod, Nat.mod_eq_of_lt k.2]

theorem prod3_blocks {N C B K F : Nat} (hF : B * K = F) (q : Nat → Nat → Nat → ℝ≥0∞) :
    prod3 N C F q = prod3 N C B fun n c b => ∏ k : Fin K, q n c (b * K + k) := by
  unfold prod3
  refine Finset.prod_congr rfl fun n _ => ?_
  rw [← hF, prod_range_mul]
  refine Finset.prod_congr rfl fun b _ => ?_
  rw [Finset.prod_comm]
  refine Finset.prod_congr rfl fun c _ => ?_
  rw [Finset.prod_range]

/-- what the sampling calls need. -/
structure Samplable (E : MvnEinet) (g : Nat → Nat → Nat) : Prop where
  wf : E.WF g
  pad : E.leaf.pad_value = 0
  fact : ∃ L, E.net.leaf = .factorized L
  features_pos : 0 < E.leaf.num_features

theorem sample_eq (E : MvnEinet) {a : SampleArgs} (h1 : a.check E.net = .ok ()) (hev : a.evidence = none) {g : Nat → Nat → Nat}
    (h : E.WF g) (hnd : ∀ B, E.net.leaf ≠ .direct B) :
    E.sample a = ((E.net.corePath a ⟨[], none⟩).bind fun ctx => E.sampleLeaf ctx).bind fun s =>
      Rand.pure (s.map .fin) := by
  have hnp : E.net.permutation = none := h.net.front.noperm hnd
  have hun : ∀ ctx, E.net.unpermute ctx = .ok ctx := by intro ctx; unfold Model.unpermute; rw [hnp]
  unfold sample evidenceCaches
  rw [h1, hev]
  simp only [Rand.lift_ok, Rand.pure_bind]
  rw [Model.samplePath_eq]
  simp only [hun, Rand.lift_ok, Rand.bind_assoc, Rand.pure_bind]
  congr 1
  funext ctx
  congr 1
  funext s
  unfold Model.finish
  rw [hev]
  rfl

/-- Law of `sample` without evidence in terms of the path: feature `f` of a row uses the component chosen for block
`f % B`. -/
theorem sample_path_E {E : MvnEinet} {g : Nat → Nat → Nat} (h : E.Samplable g) {a : SampleArgs} (hev : a.evidence = none)
    (hN : 0 < a.count) (hm : a.is_mpe = false) (hml : a.mpe_at_leaves = false) (hT : a.temperature_sums ≠ 0)
    (hc : E.net.ClassOK a.count a.class_index) {t : Nat → Nat → Nat → ℝ → ℝ≥0∞} (ht : ∀ n c f, Measurable (t n c f)) :
    (E.sample a).E (fun s => prod3 a.count E.leaf.num_channels E.leaf.num_features fun n c f => t n c f (s.get [n, c, f]).val) =
      (E.net.corePath a ⟨[], none⟩).E fun ctx => prod3 a.count E.leaf.num_channels E.leaf.out_features fun n c b =>
        ∏ i ∈ Finset.range E.leaf.num_leaves, E.blkE c b i (ctx.indices_repetition.get [n]) fun v =>
          ∏ k : Fin E.leaf.cardinality,
            if ctx.indices_out.get [n, E.net.grpS g (ctx.indices_repetition.get [n])
              ((b * E.leaf.cardinality + k) % E.leaf.out_features)] = i
            then t n c (b * E.leaf.cardinality + k) (v k) else 1 := by
  obtain ⟨wf, pad, ⟨L, hL⟩, hF0⟩ := h
  have hF := MvnLeaf.out_mul wf.card pad
  have hB0 : 0 < E.leaf.out_features := by
    rcases Nat.eq_zero_or_pos E.leaf.out_features with e | e
    · rw [e] at hF; omega
    · exact e
  have hnd : ∀ B, E.net.leaf ≠ .direct B := by intro B; rw [hL]; simp
  have hw : E.width = E.leaf.num_features := by unfold width; rw [hL]
  rw [sample_eq E (Model.check_ok hc (by simp [hev])) hev wf hnd, Rand.E_bind, Rand.E_bind]
  refine Rand.E_congr (Model.corePath_All wf.net hN hT hc (Model.evM_none E.net a.count) (Model.finZero E.net _))
    fun ctx ⟨idx, rr, hctx, hce⟩ => ?_
  have hcm : ctx.is_mpe = false := by rw [hce]; exact hm
  have hcml : ctx.mpe_at_leaves = false := by rw [hce]; exact hml
  obtain ⟨res, h1, h2⟩ := sampleLeaf_eq wf pad hnd hF0 hN hctx hcm hcml
  rw [hw] at h2
  have hrr : ∀ n, n < a.count → ctx.indices_repetition.get [n] = rr n := fun n hn =>
    Is.get hctx.ir (i := [n]) ⟨hn, by simp⟩
  have hgl : ∀ n, n < a.count → ∀ f, E.net.grpS g (rr n) (f % E.leaf.out_features) < E.net.numOut := by
    intro n hn f
    refine wf.net.front.grpS_lt (hctx.ir_lt n hn) ?_
    rw [wf.features]
    exact Nat.mod_lt _ hB0
  have hil : ∀ n, n < a.count → ∀ f, idx n (E.net.grpS g (rr n) (f % E.leaf.out_features)) < E.leaf.num_leaves := by
    intro n hn f
    rw [← wf.leaves]
    exact hctx.io_lt n hn _ (hgl n hn f)
  rw [h1, Rand.E_bind]
  have e1 : ∀ eps, (Rand.lift (res eps)).E (fun s => (Rand.pure (s.map Fl.fin)).E fun s =>
      prod3 a.count E.leaf.num_channels E.leaf.num_features fun n c f => t n c f (s.get [n, c, f]).val) =
      prod3 a.count E.leaf.num_channels E.leaf.out_features fun n c b => ∏ i ∈ Finset.range E.leaf.num_leaves,
        (fun v : Fin E.leaf.cardinality → ℝ => ∏ k : Fin E.leaf.cardinality,
          if idx n (E.net.grpS g (rr n) ((b * E.leaf.cardinality + k) % E.leaf.out_features)) = i
          then t n c (b * E.leaf.cardinality + k) (v k) else 1) (E.leaf.noisy eps n c b i (rr n)) := by
    intro eps
    obtain ⟨s, hs, hs'⟩ := h2 eps
    rw [hs]
    show prod3 a.count E.leaf.num_channels E.leaf.num_features (fun n c f => t n c f (s.get [n, c, f])) = _
    rw [prod3_blocks hF]
    refine prod3_congr fun n hn c hcc b hb => ?_
    dsimp only
    rw [Finset.prod_comm]
    refine Finset.prod_congr rfl fun k _ => ?_
    rw [Finset.prod_ite_eq, if_pos (Finset.mem_range.2 (hil n hn _))]
    have hlt : b * E.leaf.cardinality + k < E.leaf.num_features := by
      rw [← hF]
      calc b * E.leaf.cardinality + k < b * E.leaf.cardinality + E.leaf.cardinality := by omega
        _ = (b + 1) * E.leaf.cardinality := by ring
        _ ≤ _ := Nat.mul_le_mul_right _ hb
    rw [hs'.get hn hcc hlt]
    simp only [index_div wf.card, index_mod]
  refine (congrArg _ (funext e1)).trans ?_
  refine (MvnLeaf.noise_E E.leaf (fun n hn => by rw [← wf.reps]; exact hctx.ir_lt n hn)
    (h := fun n c b i v => ∏ k : Fin E.leaf.cardinality,
          if idx n (E.net.grpS g (rr n) ((b * E.leaf.cardinality + k) % E.leaf.out_features)) = i
          then t n c (b * E.leaf.cardinality + k) (v k) else 1) fun n c b i => ?_).trans ?_
  · refine Finset.measurable_fun_prod _ fun k _ => ?_
    split_ifs
    · exact (ht _ _ _).comp (measurable_pi_apply k)
    · exact measurable_const
  · refine prod3_congr fun n hn c hcc b hb => ?_
    refine Finset.prod_congr rfl fun i _ => ?_
    rw [hrr n hn]
    unfold blkE
    refine lintegral_congr fun v => ?_
    congr 1
    refine Finset.prod_congr rfl fun k _ => ?_
    rw [hctx.io.get hn (hgl n hn _)]

end MvnEinet
end Einet
