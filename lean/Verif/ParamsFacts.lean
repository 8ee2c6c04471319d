import Verif.LeafParams
import Verif.LeafSample
import Verif.Raise

/-!
# Indexing the parameters of the leaves
-/

open Classical
noncomputable section
namespace Einet
open Tensor

/-- `FactorizedLeaf._index_leaf_params`. -/
theorem FactLeaf.indexParams_is {L : FactLeaf} {g : Nat → Nat → Nat} (hW : L.WF g) {ctx : Ctx}
    {N : Nat} (hN : 0 < N) {idx : Nat → Nat → Nat} {rr : Nat → Nat}
    (hc : CtxOK ctx N L.num_features_out L.base.num_leaves L.base.num_repetitions idx rr) {t : Tensor Fl} {P : Nat} {w : List Nat → Fl}
    (ht : t.Is [1, L.base.num_channels, L.base.num_features, L.base.num_leaves, L.base.num_repetitions, P] w) :
    Res.Sat (L.indexParams ctx t) fun u => u.Is4 N L.base.num_channels L.base.num_features P
      fun n c f p => w [0, c, f, idx n (g (rr n) f), rr n, p] := by
  unfold FactLeaf.indexParams
  have hP : t.size (t.rank - 1) = P := by simp [size, rank, ht.1, at']
  rw [hP, hc.ns]
  dsimp only
  refine (expand_is (unsqueezeEnd_is 5 hc.ir) (s' := [N, L.base.num_channels, L.base.num_features, L.base.num_leaves, 1, P])
    (by simp [expandShape])).bind fun ri hri => ?_
  refine (expand_is ht (s' := [N, L.base.num_channels, L.base.num_features, L.base.num_leaves, L.base.num_repetitions, P])
    (by simp [expandShape])).bind fun e he => ?_
  refine (gather_is he hri (by simp) (by simp [leExcept]) ?_).bind fun u hu => ?_
  · rw [AllIdx_iff]
    intro j hj
    have h0 := InB_at (d := 0) hj (by simp)
    match j, hj with
    | [a, b, c, d, e, f], hj =>
      simp only [at'] at h0
      simp [clipAll, at', clip_of_lt h0, hc.ir_lt a h0]
  refine (squeeze_is hu (by simp) (by simp [at'])).bind fun s hs => ?_
  refine (gather_is hc.io (FactLeaf.groupIdx_is hW hc) (by simp) (by simp [leExcept]) ?_).bind fun q hq => ?_
  · rw [AllIdx_iff]
    intro j hj
    exact hW.lt _ (hc.ir_lt _ (InB_at (d := 0) hj (by simp))) _ (InB_at (d := 1) hj (by simp))
  refine (viewInfer_is hq (m := L.base.num_features) (by simp [numelS]; omega) (by simp [numelS])).bind fun p hp => ?_
  refine (expand_is (unsqueezeEnd_is 2 hp) (s' := [N, L.base.num_channels, L.base.num_features, 1, P])
    (by simp [expandShape])).bind fun p2 hp2 => ?_
  have hp3 : p2.Is [N, L.base.num_channels, L.base.num_features, 1, P] fun j =>
      idx (at' 0 j) (g (rr (at' 0 j)) (at' 2 j)) := by
    refine hp2.congr ((AllIdx_iff _ _).2 fun j hj => ?_)
    match j, hj with
    | [n, cc, f, z, y], hj =>
      have e : unflat [N, L.base.num_features] (flat [N, 1, L.base.num_features] [n, 0, f]) = [n, f] :=
        unflat_eq ⟨hj.1, hj.2.2.1, by simp⟩ (by simp only [flat, numelS]; ring)
      simp [clipAll, clip_of_lt hj.1, clip_of_lt hj.2.2.1, e, at', setAt]
  refine (gather_is hs hp3 (by simp [delAt]) (by simp [leExcept, delAt]) ?_).bind fun v hv => ?_
  · rw [AllIdx_iff]
    intro j hj
    exact hc.io_lt _ (InB_at (d := 0) hj (by simp)) _ (hW.lt _ (hc.ir_lt _ (InB_at (d := 0) hj (by simp))) _ (InB_at (d := 2) hj (by simp)))
  refine (squeeze_is hv (by simp) (by simp [at'])).bind fun x hx => ?_
  refine Res.Sat.require (by rw [hx.1]; simp [delAt]) (Res.Sat.pure ?_)
  refine hx.is4 ?_
  intro n hn c hcc f hf p hp
  have hi := hc.io_lt n hn _ (hW.lt _ (hc.ir_lt n hn) _ hf)
  have e1 : clip 1 n = 0 := rfl
  simp [insAt, setAt, clipAll, at', clip_of_lt hn, clip_of_lt hcc, clip_of_lt hf, clip_of_lt hp, clip_of_lt hi,
    clip_of_lt (hc.ir_lt n hn), e1]

/-- `FactorizedLeafSimple._index_leaf_params`. -/
theorem FactSimple.indexParams_is {L : FactSimple} (hW : L.WF) {ctx : Ctx}
    {N : Nat} {idx : Nat → Nat → Nat} {rr : Nat → Nat}
    (hc : CtxOK ctx N L.num_features_out L.base.num_leaves L.base.num_repetitions idx rr) {t : Tensor Fl} {P : Nat} {w : List Nat → Fl}
    (ht : t.Is [1, L.base.num_channels, L.base.num_features, L.base.num_leaves, L.base.num_repetitions, P] w)
    (hlt : ∀ n, n < N → ∀ f, f < L.base.num_features → idx n (L.inverse_permutation.getD f 0 % L.num_features_out) < L.base.num_leaves) :
    Res.Sat (L.indexParams ctx t) fun u => u.Is4 N L.base.num_channels L.base.num_features P
      fun n c f p => w [0, c, f, idx n (L.inverse_permutation.getD f 0 % L.num_features_out), rr n, p] := by
  unfold FactSimple.indexParams
  have hP : t.size (t.rank - 1) = P := by simp [size, rank, ht.1, at']
  rw [hP, hc.ns]
  dsimp only
  refine (FactSimple.unfoldIndices_is hW hc).bind fun i hi => ?_
  refine (expand_is (unsqueezeEnd_is 2 hi) (s' := [N, L.base.num_channels, L.base.num_features, 1, P])
    (by simp [expandShape])).bind fun i2 hi2 => ?_
  refine (squeeze_is ht (by simp) (by simp [at', hW.reps])).bind fun s hs => ?_
  refine (expand_is hs (s' := [N, L.base.num_channels, L.base.num_features, L.base.num_leaves, P])
    (by simp [expandShape, delAt])).bind fun e he => ?_
  refine (gather_is he hi2 (by simp) (by simp [leExcept]) ?_).bind fun v hv => ?_
  · rw [AllIdx_iff]
    intro j hj
    match j, hj with
    | [n, c, f, z, p], hj =>
      have := hlt n hj.1 f hj.2.2.1
      simpa [clipAll, at', clip_of_lt hj.1, clip_of_lt hj.2.1, clip_of_lt hj.2.2.1] using this
  refine (squeeze_is hv (by simp) (by simp [at'])).bind fun x hx => ?_
  refine Res.Sat.require (by rw [hx.1]; simp [delAt]) (Res.Sat.pure ?_)
  refine hx.is4 ?_
  intro n hn c hcc f hf p hp
  have e1 : clip 1 n = 0 := rfl
  have e2 : rr n = 0 := by have := hc.ir_lt n hn; have := hW.reps; omega
  have hi : idx n (L.inverse_permutation[f]?.getD 0 % L.num_features_out) < L.base.num_leaves := by simpa using hlt n hn f hf
  simp [insAt, delAt, setAt, clipAll, at', clip_of_lt hn, clip_of_lt hcc, clip_of_lt hf, clip_of_lt hp, e1, e2, clip_of_lt hi]

/-- a plain leaf asked for parameters: with one sample, the first parameter only. -/
theorem BaseLeaf.indexParams_one {B : BaseLeaf} (hF0 : 0 < B.num_features) {ctx : Ctx} {idx : Nat → Nat → Nat} {rr : Nat → Nat}
    (hc : CtxOK ctx 1 B.num_features B.num_leaves B.num_repetitions idx rr) {t : Tensor Fl} {P : Nat} (hP : 0 < P) {w : List Nat → Fl}
    (ht : t.Is [1, B.num_channels, B.num_features, B.num_leaves, B.num_repetitions, P] w) :
    Res.Sat (B.indexParams ctx t) fun u => u.Is4 1 B.num_channels B.num_features 1
      fun n c f _ => w [0, c, f, idx n f, rr n, 0] := by
  unfold BaseLeaf.indexParams
  refine (expand_is (unsqueezeEnd_is 5 hc.ir) (s' := [1, B.num_channels, B.num_features, B.num_leaves, 1, 1])
    (by simp [expandShape])).bind fun ri hri => ?_
  refine (gather_is ht hri (by simp) (by simp [leExcept]; omega) ?_).bind fun u hu => ?_
  · rw [AllIdx_iff]
    intro j hj
    have h0 := InB_at (d := 0) hj (by simp)
    match j, hj with
    | [a, b, c, d, e, f], hj =>
      simp only [at'] at h0
      have : a = 0 := by omega
      subst this
      have := hc.ir_lt 0 (by omega)
      simpa [clipAll, at', clip] using this
  refine (squeeze_is hu (by simp) (by simp [at'])).bind fun s hs => ?_
  have hnum : ctx.indices_out.numel / B.num_features = 1 := by
    rw [numel, hc.io.1]
    simp only [numelS, mul_one, one_mul]
    exact Nat.div_self hF0
  rw [hnum]
  refine (view_is hc.io (s' := [1, 1, B.num_features]) (by simp [numelS])).bind fun p hp => ?_
  refine (expand_is (unsqueezeEnd_is 2 hp) (s' := [1, B.num_channels, B.num_features, 1, 1])
    (by simp [expandShape])).bind fun p2 hp2 => ?_
  have hp3 : p2.Is [1, B.num_channels, B.num_features, 1, 1] fun j => idx (at' 0 j) (at' 2 j) := by
    refine hp2.congr ((AllIdx_iff _ _).2 fun j hj => ?_)
    match j, hj with
    | [n, cc, f, z, y], hj =>
      have h0 : n = 0 := by have := hj.1; omega
      subst h0
      have e : unflat [1, B.num_features] (flat [1, 1, B.num_features] [0, 0, f]) = [0, f] :=
        unflat_eq ⟨by omega, hj.2.2.1, by simp⟩ (by simp only [flat, numelS]; ring)
      have e0 : clip 1 0 = 0 := rfl
      simp [clipAll, clip_of_lt hj.2.2.1, e, e0, at']
  refine (gather_is hs hp3 (by simp [delAt]) (by simp [leExcept, delAt]) ?_).bind fun v hv => ?_
  · rw [AllIdx_iff]
    intro j hj
    exact hc.io_lt _ (InB_at (d := 0) hj (by simp)) _ (InB_at (d := 2) hj (by simp))
  refine (squeeze_is hv (by simp) (by simp [at'])).mono fun x hx => ?_
  refine hx.is4 ?_
  intro n hn c hcc f hf p hp
  have : n = 0 := by omega
  subst this
  have : p = 0 := by omega
  subst this
  have e0 : clip 1 0 = 0 := rfl
  simp [insAt, setAt, clipAll, at', e0]

/-- a plain leaf asked for the parameters of more than one sample raises. -/
theorem BaseLeaf.indexParams_raise {B : BaseLeaf} {ctx : Ctx} {N : Nat} (hN : 1 < N) {D : Nat} {idx : Nat → Nat → Nat} {rr : Nat → Nat}
    (hc : CtxOK ctx N D B.num_leaves B.num_repetitions idx rr) {t : Tensor Fl} {P : Nat}
    (ht : t.shape = [1, B.num_channels, B.num_features, B.num_leaves, B.num_repetitions, P]) :
    B.indexParams ctx t = .error .shape := by
  unfold BaseLeaf.indexParams
  obtain ⟨ri, hri, hri'⟩ := expand_is (unsqueezeEnd_is 5 hc.ir) (s' := [N, B.num_channels, B.num_features, B.num_leaves, 1, 1])
    (sizes := [none, some B.num_channels, some B.num_features, some B.num_leaves, none, none]) (by simp [expandShape])
  rw [hri, Res.ok_bind]
  unfold gather
  rw [require_true _ (by simp [rank, ht]), Res.ok_bind, require_false _ (by rw [hri'.1, ht]; simp [leExcept]; omega)]
  rfl

/-- the inverse permutation of a plain leaf. -/
theorem Model.unpermute_is {M : Model} {g : Nat → Nat → Nat} (h : M.FrontWF g) {B : BaseLeaf} (hL : M.leaf = .direct B)
    {ctx : Ctx} {N : Nat} {idx : Nat → Nat → Nat} {rr : Nat → Nat}
    (hc : CtxOK ctx N M.numOut M.num_leaves M.num_repetitions idx rr) :
    Res.Sat (M.unpermute ctx) fun c => CtxOK c N B.num_features B.num_leaves B.num_repetitions
      (fun n f => idx n (M.permInvAt (rr n) f)) rr := by
  have hF := h.features; have hC := h.channels; have hI := h.leaves; have hR := h.reps
  simp only [hL, Leaf.base] at hF hC hI hR
  have hO : M.numOut = M.num_features := by unfold numOut; rw [hL]; exact hF
  have hun : Res.Sat (M.unpermute ctx) fun c => c = { ctx with indices_out := c.indices_out } ∧
        c.indices_out.Is2 N M.num_features fun n f => idx n (M.permInvAt (rr n) f) := by
    unfold unpermute permInvAt
    cases hp : M.permutation with
    | none => exact Res.Sat.ok ⟨rfl, by rw [← hO]; exact hc.io⟩
    | some pq =>
      obtain ⟨p, q⟩ := pq
      dsimp only
      refine Res.Sat.require ?_ ?_
      · rw [AllIdx_iff]
        intro j hj
        rw [hc.ir.1] at hj
        rw [Is.get hc.ir hj]
        match j, hj with
        | [n], hj => exact hc.ir_lt n hj.1
      · have hq : ∀ n, n < N → ∀ f, f < M.num_features → (q.getD (rr n) []).getD f 0 < M.numOut := by
          intro n hn f hf
          rw [hO]
          exact (h.perm p q hp _ (hc.ir_lt n hn)).q_lt f hf
        have hpi : (⟨ctx.indices_repetition.shape ++ [M.num_features],
            fun j => (q.getD (ctx.indices_repetition.get [at' 0 j]) []).getD (at' 1 j) 0⟩ : Tensor Nat).Is2 N
              M.num_features fun n f => (q.getD (rr n) []).getD f 0 := by
          refine Is.intro (by simp [hc.ir.1]) fun j hj => ?_
          have h0 := InB_at (d := 0) hj (by simp)
          have : ctx.indices_repetition.get [at' 0 j] = rr (at' 0 j) :=
            Is.get hc.ir (i := [at' 0 j]) ⟨h0, by simp⟩
          dsimp only
          rw [this]
        refine (gather_is hc.io hpi (by simp) (by simp [leExcept]) ?_).bind fun t ht => Res.Sat.pure ⟨rfl, ?_⟩
        · rw [AllIdx_iff]
          intro j hj
          exact hq _ (InB_at (d := 0) hj (by simp)) _ (InB_at (d := 1) hj (by simp))
        · exact Is.is2 ht (by intro n hn f hf; simp [setAt, at'])

  refine hun.mono fun c ⟨hcc, hcio⟩ => ?_
  have hcr : c.indices_repetition = ctx.indices_repetition := by rw [hcc]
  have hcn : c.num_samples = ctx.num_samples := by rw [hcc]
  refine ⟨by rw [hcn]; exact hc.ns, by rw [hF]; exact hcio, fun n hn f hf => ?_, by rw [hcr]; exact hc.ir,
    fun n hn => by rw [hR]; exact hc.ir_lt n hn⟩
  have := h.grpS_lt (hc.ir_lt n hn) (f := f) (by omega)
  unfold grpS at this
  rw [hL] at this
  rw [hI]
  exact hc.io_lt n hn _ this

end Einet
