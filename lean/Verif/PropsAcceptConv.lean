import Verif.PropsAccept
import Verif.PropsConv

/-!
**C66** for `ConvPc` (conv_pc.py:658-735): images sampled by a convolutional circuit are accepted by its forward pass.  Its sampling
is always differentiable, so `Binomial` leaves are the exception proved in `C40_refuted_binomial`, unless modes are returned.
-/

open MeasureTheory
open scoped ENNReal Classical

namespace Einet

open Tensor

/-- values drawn by differentiable sampling lie in the support if the law of the leaf is not replaced, or if modes are returned. -/
theorem diff_draws_valid {B : BaseLeaf} (hv : B.DrawsValid) {ctx : Ctx} (hb : B.lawD = B.law ∨ ctx.is_mpe = true ∨ ctx.mpe_at_leaves = true)
    (hp : ∀ c f i r, IsProbabilityMeasure (B.lawD ctx.temperature_leaves c f i r)) :
    Full (fun v => ∀ i ∈ box [ctx.num_samples, B.num_channels, B.num_features, B.num_leaves, B.num_repetitions],
      B.valid (at' 2 i) (.fin (v i))) (B.diff.draws ctx) := by
  rcases hb with hb | hb
  · have : B.diff = B := by cases B; simp only [BaseLeaf.diff] at hb ⊢; subst hb; rfl
    rw [this]
    exact Model.draws_valid hv (by rw [← hb]; exact hp)
  · unfold BaseLeaf.draws
    rw [if_pos (by rcases hb with e | e <;> simp [e])]
    exact Full.pure fun i _ => hv.mode _ _ _ _

namespace ConvModel

/-- images drawn by a circuit lie in the support, with probability one. -/
theorem draw_valid {μ : Measure ℝ} (hμ : μ Set.univ = 1) {M : ConvModel} (h : M.WF) (hs : M.leaf.Samp) (hv : M.leaf.DrawsValid)
    {N : Nat} {a : ConvArgs} (hT : a.temperature_sums ≠ 0) (hL : 0 < a.temperature_leaves)
    (hb : M.leaf.lawD = M.leaf.law ∨ a.is_mpe = true ∨ a.mpe_at_leaves = true) :
    Full (fun t => ∃ S : Nat → Img ℝ, t.Is4 N M.num_channels M.height M.width (fun n c y x => .fin (S n c y x)) ∧
      ∀ n, n < N → ∀ c, c < M.num_channels → ∀ y, y < M.height → ∀ x, x < M.width →
        M.leaf.valid (y * M.width + x) (.fin (S n c y x))) (M.draw μ [] N a) := by
  unfold draw
  rw [sampleConv_atoms h.known]
  refine Full.bind (sampleAtoms_full hμ h.chain (ctx := initCtx N a) hT (initCtx_ok N a)) fun d ⟨hd, ix, hd'⟩ => ?_
  obtain ⟨res, h1, h2⟩ := end_eq h hs.samplable hd hd'
  rw [h1]
  refine Full.bind (diff_draws_valid hv hb fun c f i r => hs.probD _ hL c f i r) fun v hv' => Full.pure ?_
  refine ⟨fun n c y x => v [n, c, y * M.width + x, ix n y x, 0], Is.intro (h2 v).1 fun j hj => ?_, ?_⟩
  · rw [(h2 v).2 j (by rw [(h2 v).1]; exact hj)]
    match j, hj with
    | [n, c, y, x], _ => rfl
  · intro n hn c hc y hy x hx
    refine hv' [n, c, y * M.width + x, ix n y x, 0] (mem_box.2 ⟨hn, by rw [h.channels]; exact hc, ?_, hd'.lt n hn y hy x hx, ?_, trivial⟩)
    · rw [h.features]
      calc y * M.width + x < y * M.width + M.width := by omega
        _ = (y + 1) * M.width := by ring
        _ ≤ M.height * M.width := Nat.mul_le_mul_right _ hy
    · rw [h.reps]; exact one_pos

end ConvModel

namespace Props

/-! ### Specification -/

/-- a tensor of `N` complete images in the support of the leaf class, given finite log-likelihoods by the circuit. -/
def ImgAccepted (M : ConvModel) (s : LeafSpec) (d : ImgShape) (N : Nat) (t : Tensor Fl) : Prop :=
  t.shape = [N, d.channels, d.height, d.width] ∧
  (∀ n, n < N → ∀ c, c < d.channels → ∀ y, y < d.height → ∀ x, x < d.width →
    ∃ v : ℝ, t.get [n, c, y, x] = .fin v ∧ s.InSupport v) ∧
  ∃ r, M.forward t = .ok r ∧ r.shape = [N] ∧ ∀ n, n < N → ∃ v : ℝ, r.get [n] = .fin v

/-! ### Theorem -/

/-- **C66** for `ConvPc`: with probability one the sampled images are complete, in the support of the leaf class, and given finite
log-likelihoods by the circuit, for any temperatures and any law of the noise.  Missing: `Binomial` leaves of which values are
drawn (false by `C40_refuted_binomial`) and circuits with `channels[0] = 1`, whose forward pass fails. -/
theorem C66_conv_samples_accepted_partial (c : ConvConfig) (d : ImgShape) (P : ConvParams) (hu : c.Usual d) (hf : c.SizeFits d)
    (h2 : c.channels.headD 0 ≠ 1) (hg : P.leaf.Good) (hs : P.leaf.CanSample) (M : ConvModel) (h : buildConv c d P = .ok M)
    (N : Nat) (a : ConvArgs) (hN : a.num_samples = some N) (he : a.evidence = none)
    (hb : (∀ n p, P.leaf ≠ .binomial n p) ∨ a.is_mpe = true ∨ a.mpe_at_leaves = true)
    (hT : a.temperature_sums ≠ 0) (hL : 0 < a.temperature_leaves) (μ : Measure ℝ) (hμ : μ Set.univ = 1) :
    (M.sample μ a).E (fun t => if ImgAccepted M P.leaf d N t then 1 else 0) = 1 := by
  obtain ⟨-, -, -, -, hl, -, e1, e2, e3⟩ := buildConv_spec h
  have hw := buildConv_WF hu hf h
  unfold ConvModel.sample
  rw [he, hN]
  refine Full.prob (P := ImgAccepted M P.leaf d N) ((ConvModel.draw_valid hμ hw (conv_samp hg hs h)
    (LeafSpec.drawsValid hg hl) hT hL (hb.imp_left (leafSpec_lawD hl))).mono fun t ⟨S, ht, hS⟩ => ?_)
  have hin : ∀ n, n < N → ∀ c, c < M.num_channels → ∀ y, y < M.height → ∀ x, x < M.width →
      ∃ v : ℝ, t.get [n, c, y, x] = .fin v ∧ P.leaf.InSupport v := fun n hn c hc y hy x hx =>
    ⟨_, Is.get ht (i := [n, c, y, x]) ⟨hn, hc, hy, hx, trivial⟩, (LeafSpec.valid_iff hl _).1 (hS n hn c hc y hy x hx)⟩
  have hbatch : ImgBatch P.leaf N M.num_channels M.height M.width t :=
    ⟨ht.1, fun n hn c hc y hy x hx => Or.inr (hin n hn c hc y hy x hx)⟩
  refine ⟨by rw [← e1, ← e2, ← e3]; exact ht.1, by rw [← e1, ← e2, ← e3]; exact hin, ?_⟩
  obtain ⟨r, hr, hr', hv⟩ := conv_forward hu hf h2 hg h hbatch
  exact ⟨r, hr, hr', fun n hn => by
    rw [hv n hn]; exact (ConvModel.outRow_den hw (conv_proper hg h) (hbatch.observed h hn)).1⟩

/-- categorical leaves drawn, and modes of `Binomial` leaves. -/
example : (∃ M, buildConv (exConv "top-down" "sum-prod") ⟨3, 8, 24⟩ (exConvParams (.categorical 3 fun _ _ i _ k => i + k)) = .ok M ∧
      (exConv "top-down" "sum-prod").Usual ⟨3, 8, 24⟩ ∧ (exConv "top-down" "sum-prod").SizeFits ⟨3, 8, 24⟩ ∧
      (exConv "top-down" "sum-prod").channels.headD 0 ≠ 1 ∧ (∀ n p, (exConvParams (.categorical 3 fun _ _ i _ k => i + k)).leaf ≠ .binomial n p) ∧
      (exConvParams (.categorical 3 fun _ _ i _ k => i + k)).leaf.Good ∧ (exConvParams (.categorical 3 fun _ _ i _ k => i + k)).leaf.CanSample) ∧
    ∃ M, buildConv (exConv "bottom-up" "prod-sum") ⟨3, 8, 24⟩ (exConvParams (.binomial 7 fun _ _ i _ => i)) = .ok M ∧
      (exConv "bottom-up" "prod-sum").Usual ⟨3, 8, 24⟩ ∧ (exConv "bottom-up" "prod-sum").SizeFits ⟨3, 8, 24⟩ ∧
      (exConvParams (.binomial 7 fun _ _ i _ => i)).leaf.Good ∧ (exConvParams (.binomial 7 fun _ _ i _ => i)).leaf.CanSample := by
  have hu : ∀ s o, (o = "sum-prod" ∨ o = "prod-sum") → (exConv s o).Usual ⟨3, 8, 24⟩ := fun s o ho =>
    ⟨by simp [exConv], by norm_num, by norm_num, ho⟩
  have hf : ∀ s o, (exConv s o).SizeFits ⟨3, 8, 24⟩ := fun s o => ⟨fun _ => by norm_num [exConv], fun _ => by norm_num [exConv]⟩
  constructor
  · obtain ⟨M, hM⟩ := buildConv_ok (P := exConvParams (.categorical 3 fun _ _ i _ k => i + k)) (c := exConv "top-down" "sum-prod")
      (d := ⟨3, 8, 24⟩) (by simp [exConv]) (by norm_num) (hu _ _ (Or.inl rfl)) (fun _ => hf _ _) (Or.inr rfl)
      (by simp [exConvParams, LeafSpec.build, exConv])
    exact ⟨M, hM, hu _ _ (Or.inl rfl), hf _ _, by simp [exConv], fun n p => LeafSpec.noConfusion, by norm_num [exConvParams, LeafSpec.Good], trivial⟩
  · obtain ⟨M, hM⟩ := buildConv_ok (P := exConvParams (.binomial 7 fun _ _ i _ => i)) (c := exConv "bottom-up" "prod-sum")
      (d := ⟨3, 8, 24⟩) (by simp [exConv]) (by norm_num) (hu _ _ (Or.inr rfl)) (fun _ => hf _ _) (Or.inl rfl) (by
        simp [exConvParams, LeafSpec.build, exConv]
        exact ⟨_, (checkInt_iff 7 1 one_ne_zero _ _).2 ⟨by norm_num, rfl⟩⟩)
    exact ⟨M, hM, hu _ _ (Or.inr rfl), hf _ _, trivial, trivial⟩

end Props
end Einet
