import Verif.Lit
import Verif.Accept

/-! Sampling with the modes of the leaves, in both modes of sampling. -/

open Classical MeasureTheory
open scoped ENNReal
noncomputable section
namespace Einet
open Tensor

namespace Model

/-- every row consists of modes of components, one component per feature and one repetition per row. -/
def OfModes (M : Model) (N : Nat) (s : Tensor Fl) : Prop :=
  ∃ (ix : Nat → Nat → Nat) (rr : Nat → Nat), (∀ n, n < N → rr n < M.num_repetitions) ∧
    (∀ n, n < N → ∀ f, f < M.num_features → ix n f < M.num_leaves) ∧
    s.Is3 N M.num_channels M.num_features fun n c f => .fin (M.leaf.base.mode c f (ix n f) (rr n))

/-- `sample(mpe_at_leaves=True)` without evidence. -/
theorem sample_modes {M : Model} {g : Nat → Nat → Nat} (h : M.Samplable g) {a : SampleArgs} (hev : a.evidence = none)
    (hm : a.mpe_at_leaves = true) (hN : 0 < a.count) (hT : a.temperature_sums ≠ 0) (hc : M.ClassOK a.count a.class_index) :
    Full (M.OfModes a.count) (M.sample a) := by
  have h2 : M.evidenceCaches a = .ok ⟨[], none⟩ := by unfold evidenceCaches; rw [hev]
  rw [sample_eq M a (check_ok hc (by simp [hev])) h2, sampleValues_eq, Rand.bind_assoc]
  refine Full.bind (Full.of_all (disc_corePath _ _ _) (corePath_All h.wf hN hT hc (evM_none M a.count) (finZero M _)))
    fun ctx ⟨idx, rr, hctx, hce⟩ => ?_
  obtain ⟨res, h1, h2⟩ := leaf_sample_eq h.wf.front h.features_pos h.samp.samplable hN hctx
  have hd : M.leaf.base.draws ctx = .pure fun j => M.leaf.base.mode (at' 1 j) (at' 2 j) (at' 3 j) (at' 4 j) :=
    if_pos (Or.inr (by rw [hce]; exact hm))
  rw [h1, hd, Rand.pure_bind]
  refine Full.bind (Full.lift (h2 _)) fun t ht => ?_
  unfold finish
  rw [hev]
  refine Full.pure ⟨fun n f => idx n (M.grpS g (rr n) f), rr, hctx.ir_lt, fun n hn f hf =>
    hctx.io_lt n hn _ (h.wf.front.grpS_lt (hctx.ir_lt n hn) hf), ht.1, fun n hn c hc f hf => ?_⟩
  show Fl.fin (t.get [n, c, f]) = _
  rw [ht.get hn hc hf]
  rfl

/-- `sample(mpe_at_leaves=True, is_differentiable=True)` without evidence. -/
theorem sampleR_modes {μ : Measure ℝ} (hμ : μ Set.univ = 1) {M : Model} {g : Nat → Nat → Nat} (h : M.Samplable g)
    {a : SampleArgs} (hev : a.evidence = none) (hm : a.mpe_at_leaves = true) (hN : 0 < a.count) (hT : a.temperature_sums ≠ 0)
    (hci : a.class_index = none) : Full (M.OfModes a.count) (M.sampleR μ a) := by
  have hc : M.ClassOK a.count a.class_index := by rw [hci]; trivial
  have h2 : M.evidenceCaches a = .ok ⟨[], none⟩ := by unfold evidenceCaches; rw [hev]
  rw [sampleR_eq μ M a (check_ok hc (by simp [hev])) h2, sampleValuesR_eq, Rand.bind_assoc]
  refine Full.bind (corePathR_full hμ h.wf hci hN hT (evM_none M a.count) (finZero M _)) fun d ⟨⟨idx, rr, hd⟩, hde⟩ => ?_
  obtain ⟨res, h1, h2⟩ := leafD_sample_eq h.wf.front h.wf.reps_pos h.samp.samplable hN hd
  have hdr : M.leaf.base.diff.draws (BaseLeaf.drawCtx d) = .pure fun j => M.leaf.base.mode (at' 1 j) (at' 2 j) (at' 3 j) (at' 4 j) :=
    if_pos (Or.inr (by rw [hde]; exact hm))
  rw [h1, hdr, Rand.pure_bind]
  refine Full.bind (Full.lift (h2 _)) fun t ht => ?_
  have hf2 : finishD a t = .ok t := by unfold finishD; rw [hev]
  rw [hf2]
  exact Full.pure ⟨fun n f => idx n (M.grpS g (rr n) f), rr, hd.ir_lt, fun n hn f hf =>
    hd.io_lt n hn _ (h.wf.front.grpS_lt (hd.ir_lt n hn) hf), ht⟩

end Model

/-- a reshape of rows to images. -/
theorem viewFirst_is {t : Tensor Fl} {N C H W : Nat} {X : Nat → Nat → Nat → Fl} (hC : 0 < C) (hHW : 0 < H * W)
    (ht : t.Is3 N C (W * H) X) : Res.Sat (viewFirst [C, H, W] t) fun s =>
      s.Is [N, C, H, W] fun i => X (at' 0 i) (at' 1 i) (at' 2 i * W + at' 3 i) := by
  have hn : t.numel = N * numelS [C, H, W] := by
    simp only [numel, ht.1, numelS]; ring
  have hpos : 0 < numelS [C, H, W] := by
    simp only [numelS]; rw [Nat.mul_one]; exact Nat.mul_pos hC hHW
  unfold viewFirst
  rw [require_true _ ⟨hpos.ne', by rw [hn]; simp⟩, Res.ok_bind, hn, Nat.mul_div_cancel _ hpos]
  unfold view
  rw [require_true _ (by rw [hn]; simp [numelS])]
  refine ⟨_, rfl, Is.intro rfl fun i hi => ?_⟩
  match i, hi with
  | [n, c, y, x], ⟨h0, h1, h2, h3, _⟩ =>
    have hlt : y * W + x < W * H := by nlinarith
    show t.get (unflat t.shape (flat [N, C, H, W] [n, c, y, x])) = X n c (y * W + x)
    rw [ht.1, unflat_eq (i := [n, c, y * W + x]) (s := [N, C, W * H]) ⟨h0, h1, hlt, trivial⟩ (by simp only [flat, numelS]; ring)]
    exact ht.get h0 h1 hlt

end Einet
