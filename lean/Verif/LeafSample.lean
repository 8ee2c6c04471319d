import Verif.Path
import Verif.LeafFwd

/-!
# Laws of the leaf sampling step
-/

open Classical MeasureTheory
open scoped ENNReal
noncomputable section
namespace Einet
open Tensor

theorem Rand.lift_bind {α β : Type} (x : Res α) (f : α → Res β) :
    Rand.lift (x >>= f) = (Rand.lift x).bind fun a => Rand.lift (f a) := by
  cases x <;> rfl

theorem Rand.lift_sat {α : Type} {x : Res α} {P : α → Prop} (h : Res.Sat x P) : ∃ a, P a ∧ Rand.lift x = Rand.pure a := by
  obtain ⟨a, rfl, ha⟩ := h
  exact ⟨a, ha, rfl⟩

namespace BaseLeaf

/-- selection of the repetition (abstract_leaf.py:135-149). -/
def selectRep (B : BaseLeaf) (ctx : Ctx) (vals : List Nat → ℝ) : Res (Tensor ℝ) := do
  let r_idxs ← (ctx.indices_repetition.unsqueezeEnd 4).expand
    [none, some B.num_channels, some B.num_features, some B.num_leaves, none]
  (← (⟨[ctx.num_samples, B.num_channels, B.num_features, B.num_leaves, B.num_repetitions], vals⟩ : Tensor ℝ).gather 4
    r_idxs).squeeze 4

theorem sampleAll_eq (B : BaseLeaf) (hs : B.samplable = true) (ctx : Ctx) :
    B.sampleAll ctx = (B.draws ctx).bind fun v => Rand.lift (B.selectRep ctx v) := by
  unfold sampleAll selectRep
  simp only [Rand.bind_eq, require, hs, if_true, Rand.lift_ok, Rand.pure_bind]

theorem selectRep_is {B : BaseLeaf} {ctx : Ctx} {N D S : Nat} {idx : Nat → Nat → Nat} {rr : Nat → Nat}
    (h : CtxOK ctx N D S B.num_repetitions idx rr) (v : List Nat → ℝ) :
    Res.Sat (B.selectRep ctx v) fun t => t.Is4 N B.num_channels B.num_features B.num_leaves
      fun n c f i => v [n, c, f, i, rr n] := by
  unfold selectRep
  refine (expand_is (unsqueezeEnd_is 4 h.ir) (s' := [N, B.num_channels, B.num_features, B.num_leaves, 1])
    (by simp [expandShape])).bind fun ri hri => ?_
  rw [h.ns]
  refine (gather_is (s := [N, B.num_channels, B.num_features, B.num_leaves, B.num_repetitions]) (g := v)
    (Is.intro rfl fun _ _ => rfl) hri (by simp) (by simp [leExcept]) ?_).bind fun t ht => ?_
  · rw [AllIdx_iff]
    intro j hj
    have h0 := InB_at (d := 0) hj (by simp)
    match j, hj with
    | [a, b, c, d, e], hj =>
      simp only [at'] at h0
      simp [clipAll, at', clip_of_lt h0, h.ir_lt a h0]
  · refine (squeeze_is ht (by simp) (by simp [at'])).mono fun u hu => ?_
    refine hu.is4 ?_
    intro n hn c hc f hf i hi
    simp [insAt, setAt, clipAll, at', clip_of_lt hn]

end BaseLeaf

theorem FactLeaf.groupIdx_is {L : FactLeaf} {g : Nat → Nat → Nat} (hW : L.WF g) {ctx : Ctx} {N D S : Nat}
    {idx : Nat → Nat → Nat} {rr : Nat → Nat} (h : CtxOK ctx N D S L.base.num_repetitions idx rr) :
    (L.groupIdx ctx.indices_repetition).Is2 N L.base.num_features fun n f => g (rr n) f := by
  refine Is.intro (by simp [FactLeaf.groupIdx, h.ir.1]) fun j hj => ?_
  have h0 := InB_at (d := 0) hj (by simp)
  have h1 := InB_at (d := 1) hj (by simp)
  have e : ctx.indices_repetition.get [at' 0 j] = rr (at' 0 j) :=
    Is.get h.ir (i := [at' 0 j]) ⟨h0, by simp⟩
  have hr : rr (at' 0 j) < L.base.num_repetitions := h.ir_lt _ h0
  have hl := hW.lt _ hr _ h1
  show ⌊(Fl.sumN L.num_features_out fun o =>
    L.scopes.get [at' 1 j, o, ctx.indices_repetition.get [at' 0 j]] * .fin o).val⌋₊ = _
  rw [e, Fl.sumN_congr (g := fun o => Fl.fin (if g (rr (at' 0 j)) (at' 1 j) = o then (o : ℝ) else 0)) fun o ho => by
    rw [hW.entry _ h1 o ho _ hr]
    split_ifs <;> simp, Fl.sumN_fin]
  simp [hl]

theorem FactSimple.unfoldIndices_is {L : FactSimple} (hW : L.WF) {ctx : Ctx} {N S R : Nat}
    {idx : Nat → Nat → Nat} {rr : Nat → Nat} (h : CtxOK ctx N L.num_features_out S R idx rr) :
    Res.Sat (L.unfoldIndices ctx.indices_out) fun i => i.Is3 N L.base.num_channels L.base.num_features
      fun n _ f => idx n (L.inverse_permutation.getD f 0 % L.num_features_out) := by
  have hsz := L.size_eq hW.out_pos
  unfold FactSimple.unfoldIndices
  refine (unsqueeze_is h.io (d := 1) (by simp)).bind fun a ha => ?_
  refine (unsqueeze_is ha (d := 1) (by simp [insAt])).bind fun b hb => ?_
  refine (expand_is hb (s' := [N, L.base.num_channels, L.cardinality, L.num_features_out])
    (by simp [expandShape, insAt])).bind fun c hc' => ?_
  have hcs : c.size 0 = N := by rw [size, hc'.1]; rfl
  rw [hcs]
  refine (view_is hc' (s' := [N, L.base.num_channels, L.base.num_features + L.numDummy])
    (by simp only [numelS, hsz]; ring)).bind fun d hd => ?_
  have hd3 : d.Is3 N L.base.num_channels (L.base.num_features + L.numDummy) fun n _ p =>
      idx n (p % L.num_features_out) := by
    refine Is.is3 hd ?_
    intro n hn cc hcc p hp
    have hpc : p / L.num_features_out < L.cardinality := by
      rw [hsz] at hp
      exact Nat.div_lt_of_lt_mul hp
    have hpm := Nat.mod_lt p hW.out_pos
    have e : unflat [N, L.base.num_channels, L.cardinality, L.num_features_out]
        (flat [N, L.base.num_channels, L.base.num_features + L.numDummy] [n, cc, p]) =
        [n, cc, p / L.num_features_out, p % L.num_features_out] := by
      refine unflat_eq ⟨hn, hcc, hpc, hpm, by simp⟩ ?_
      simp only [flat, numelS, hsz]
      have := Nat.div_add_mod p L.num_features_out
      calc _ = n * (L.base.num_channels * (L.cardinality * L.num_features_out)) +
          cc * (L.cardinality * L.num_features_out) +
          (L.num_features_out * (p / L.num_features_out) + p % L.num_features_out) := by ring
        _ = _ := by rw [this]; ring
    rw [e]
    simp [clipAll, insAt, delAt, at', clip_of_lt hn, clip_of_lt hpm]
  have hi : Res.Sat (d.indexDim2 L.inverse_permutation) fun i =>
      i.Is3 N L.base.num_channels (L.base.num_features + L.numDummy)
        fun n _ p => idx n (L.inverse_permutation.getD p 0 % L.num_features_out) := by
    unfold indexDim2
    refine Res.Sat.require (by simp [rank, hd3.1]) (Res.Sat.require ?_ (Res.Sat.pure ?_))
    · intro k hk
      have := hW.perm.symm.mem_lt k hk
      simpa [size, hd3.1, at'] using this
    · refine Is.intro (by simp [hd3.1, setAt, hW.perm.lq]) fun j hj => ?_
      have h2 := InB_at (d := 2) hj (by simp)
      have hlt2 : L.inverse_permutation.getD (at' 2 j) 0 < at' 2 [N, L.base.num_channels, L.base.num_features + L.numDummy] :=
        hW.perm.q_lt _ h2
      dsimp only
      rw [Is.get hd3 (InB_setAt' hj hlt2)]
      match j, hj with
      | [x, y, z], _ => rfl
  refine hi.bind fun i hi => ?_
  split_ifs with hdm
  · refine (take_is hi (by simp) (d := 2) (stop := i.size 2 - L.numDummy)).mono fun w hw => ?_
    have e2 : i.size 2 - L.numDummy = L.base.num_features := by simp [size, hi.1, at']
    rw [e2] at hw
    simp only [setAt, at', show min L.base.num_features (L.base.num_features + L.numDummy) = L.base.num_features by omega] at hw
    exact Is.is3 hw (by intro n hn cc hcc f hf; simp [at'])
  · have : L.numDummy = 0 := by omega
    rw [this] at hi
    exact Res.Sat.ok hi

namespace Model

/-- group of feature `f` in repetition `r` according to the sampler. -/
def grpS (M : Model) (g : Nat → Nat → Nat) (r f : Nat) : Nat :=
  match M.leaf with
  | .direct _ => M.permInvAt r f
  | .factorized _ => g r f
  | .simple L => L.inverse_permutation.getD f 0 % L.num_features_out

theorem FrontWF.grpS_lt {M : Model} {g : Nat → Nat → Nat} (h : M.FrontWF g) {r f : Nat} (hr : r < M.num_repetitions)
    (hf : f < M.num_features) : M.grpS g r f < M.numOut := by
  have hF := h.features; have hR := h.reps
  unfold grpS numOut
  cases hL : M.leaf with
  | direct B =>
    simp only [hL, Leaf.base] at hF ⊢
    rw [hF]; exact (h.permAt_inv hr hf).2.1
  | factorized L =>
    simp only [hL, Leaf.base] at hF hR ⊢
    exact (h.fact L hL).lt r (by rw [hR]; exact hr) f (by rw [hF]; exact hf)
  | simple L => exact Nat.mod_lt _ (h.simple L hL).out_pos

/-- `unpermute` followed by the leaf, after the values were drawn. -/
theorem leaf_sample_eq {M : Model} {g : Nat → Nat → Nat} (h : M.FrontWF g) (hF0 : 0 < M.num_features)
    (hs : M.leaf.base.samplable = true)
    {ctx : Ctx} {N : Nat} (hN : 0 < N) {idx : Nat → Nat → Nat} {rr : Nat → Nat}
    (hc : CtxOK ctx N M.numOut M.num_leaves M.num_repetitions idx rr) :
    ∃ res : (List Nat → ℝ) → Res (Tensor ℝ),
      ((Rand.lift (M.unpermute ctx)).bind fun c => M.leaf.sample c) =
        (M.leaf.base.draws ctx).bind (fun v => Rand.lift (res v)) ∧
      ∀ v, Res.Sat (res v) fun t => t.Is3 N M.num_channels M.num_features
        fun n c f => v [n, c, f, idx n (M.grpS g (rr n) f), rr n] := by
  have hF := h.features; have hC := h.channels; have hI := h.leaves; have hR := h.reps
  have hlt : ∀ n, n < N → ∀ f, f < M.num_features → idx n (M.grpS g (rr n) f) < M.num_leaves := fun n hn f hf =>
    hc.io_lt n hn _ (h.grpS_lt (hc.ir_lt n hn) hf)
  cases hL : M.leaf with
  | direct B =>
    simp only [hL, Leaf.base] at hF hC hI hR hs ⊢
    have hO : M.numOut = M.num_features := by unfold numOut; rw [hL]; exact hF
    have hgs : ∀ r f, M.grpS g r f = M.permInvAt r f := by intro r f; unfold grpS; rw [hL]
    have hun : Res.Sat (M.unpermute ctx) fun c => c = { ctx with indices_out := c.indices_out } ∧
        c.indices_out.Is2 N M.num_features fun n f => idx n (M.permInvAt (rr n) f) := by
      unfold unpermute permInvAt
      cases hp : M.permutation with
      | none => exact Res.Sat.ok ⟨rfl, by rw [← hO]; exact hc.io⟩
      | some pq =>
        obtain ⟨p, q⟩ := pq
        dsimp only
        refine Res.Sat.require ?_ ?_
        · rw [AllIdx_iff]
          intro j hj
          rw [hc.ir.1] at hj
          rw [Is.get hc.ir hj]
          match j, hj with
          | [n], hj => exact hc.ir_lt n hj.1
        · have hq : ∀ n, n < N → ∀ f, f < M.num_features → (q.getD (rr n) []).getD f 0 < M.numOut := by
            intro n hn f hf
            rw [hO]
            exact (h.perm p q hp _ (hc.ir_lt n hn)).q_lt f hf
          have hpi : (⟨ctx.indices_repetition.shape ++ [M.num_features],
              fun j => (q.getD (ctx.indices_repetition.get [at' 0 j]) []).getD (at' 1 j) 0⟩ : Tensor Nat).Is2 N
                M.num_features fun n f => (q.getD (rr n) []).getD f 0 := by
            refine Is.intro (by simp [hc.ir.1]) fun j hj => ?_
            have h0 := InB_at (d := 0) hj (by simp)
            have : ctx.indices_repetition.get [at' 0 j] = rr (at' 0 j) :=
              Is.get hc.ir (i := [at' 0 j]) ⟨h0, by simp⟩
            dsimp only
            rw [this]
          refine (gather_is hc.io hpi (by simp) (by simp [leExcept]) ?_).bind fun t ht => Res.Sat.pure ⟨rfl, ?_⟩
          · rw [AllIdx_iff]
            intro j hj
            exact hq _ (InB_at (d := 0) hj (by simp)) _ (InB_at (d := 1) hj (by simp))
          · exact Is.is2 ht (by intro n hn f hf; simp [setAt, at'])
    obtain ⟨c, hcu, hcc, hcio⟩ := hun
    have hdr : B.draws c = B.draws ctx := by rw [hcc]; rfl
    have hcr : c.indices_repetition = ctx.indices_repetition := by rw [hcc]
    have hcn : c.num_samples = ctx.num_samples := by rw [hcc]
    have hctx' : CtxOK c N M.num_features M.num_leaves B.num_repetitions (fun n f => idx n (M.permInvAt (rr n) f)) rr := by
      refine ⟨by rw [hcn]; exact hc.ns, hcio, fun n hn f hf => ?_, by rw [hcr]; exact hc.ir, fun n hn => by rw [hR]; exact hc.ir_lt n hn⟩
      have := hlt n hn f hf
      rwa [hgs] at this
    refine ⟨fun v => do
      let samples ← B.selectRep c v
      let p_idxs ← c.indices_out.view [c.indices_out.numel / B.num_features, 1, B.num_features]
      let p_idxs ← (p_idxs.unsqueezeEnd 1).expand [none, some B.num_channels, none, none]
      (← samples.gather 3 p_idxs).squeeze 3, ?_, fun v => ?_⟩
    · rw [hcu]
      show B.sample c = _
      unfold BaseLeaf.sample
      simp only [Rand.bind_eq]
      rw [B.sampleAll_eq hs, Rand.bind_assoc, hdr]
      congr 1
      funext v
      rw [Rand.lift_bind]
    · refine (BaseLeaf.selectRep_is hctx' v).bind fun t ht => ?_
      have hnum : c.indices_out.numel / B.num_features = N := by
        rw [numel, hcio.1, hF]
        simp only [numelS, mul_one]
        exact Nat.mul_div_cancel _ hF0
      rw [hnum, hF]
      refine (view_is hcio (s' := [N, 1, M.num_features]) (by simp [numelS])).bind fun p hp => ?_
      refine (expand_is (unsqueezeEnd_is 1 hp) (s' := [N, B.num_channels, M.num_features, 1])
        (by simp [expandShape])).bind fun p2 hp2 => ?_
      have hp3 : p2.Is [N, B.num_channels, M.num_features, 1] fun j => idx (at' 0 j) (M.permInvAt (rr (at' 0 j)) (at' 2 j)) := by
        refine hp2.congr ((AllIdx_iff _ _).2 fun j hj => ?_)
        match j, hj with
        | [n, cc, f, z], hj =>
          have e : unflat [N, M.num_features] (flat [N, 1, M.num_features] [n, 0, f]) = [n, f] :=
            unflat_eq ⟨hj.1, hj.2.2.1, by simp⟩ (by simp only [flat, numelS]; ring)
          simp [clipAll, clip_of_lt hj.1, clip_of_lt hj.2.2.1, e, at']
      rw [hF] at ht
      refine (gather_is ht hp3 (by simp) (by simp [leExcept]) ?_).bind fun u hu => ?_
      · rw [AllIdx_iff]
        intro j hj
        have := hlt _ (InB_at (d := 0) hj (by simp)) _ (InB_at (d := 2) hj (by simp))
        rw [hgs] at this
        simp only [at'] at this ⊢
        rw [hI]
        exact this
      · refine (squeeze_is hu (by simp) (by simp [at'])).mono fun w hw => ?_
        rw [← hC]
        refine Is.is3 hw ?_
        intro n hn cc hcc f hf
        simp [insAt, setAt, at', hgs]
  | factorized L =>
    simp only [hL, Leaf.base] at hF hC hI hR hs ⊢
    have hO : M.numOut = L.num_features_out := by unfold numOut; rw [hL]
    have hnp : M.permutation = none := h.noperm (by simp [hL])
    have hgs : ∀ r f, M.grpS g r f = g r f := by intro r f; unfold grpS; rw [hL]
    have hW := h.fact L hL
    have hctx' : CtxOK ctx N L.num_features_out M.num_leaves L.base.num_repetitions idx rr := by
      rw [hR, ← hO]; exact hc
    have hun : M.unpermute ctx = .ok ctx := by unfold unpermute; rw [hnp]
    refine ⟨fun v => do
      let samples ← L.base.selectRep ctx v
      require .assertion (samples.shape = [ctx.num_samples, L.base.num_channels, L.base.num_features, L.base.num_leaves])
      let g ← ctx.indices_out.gather 1 (L.groupIdx ctx.indices_repetition)
      let g ← g.viewInfer [ctx.num_samples, 1]
      let g ← (g.unsqueezeEnd 1).expand [none, some L.base.num_channels, none, none]
      (← samples.gather 3 g).squeeze 3, ?_, fun v => ?_⟩
    · rw [hun]
      show L.sample ctx = _
      unfold FactLeaf.sample
      simp only [Rand.bind_eq]
      rw [L.base.sampleAll_eq hs, Rand.bind_assoc]
      congr 1
      funext v
      rw [Rand.lift_bind]
    · refine (BaseLeaf.selectRep_is hctx' v).bind fun t ht => ?_
      refine Res.Sat.require (by rw [ht.1, hc.ns]) ?_
      have hg := FactLeaf.groupIdx_is hW hctx'
      refine (gather_is hctx'.io hg (by simp) (by simp [leExcept]) ?_).bind fun q hq => ?_
      · rw [AllIdx_iff]
        intro j hj
        exact hW.lt _ (hctx'.ir_lt _ (InB_at (d := 0) hj (by simp))) _ (InB_at (d := 1) hj (by simp))
      rw [hc.ns]
      refine (viewInfer_is hq (m := L.base.num_features) (by simp [numelS]; omega) (by simp [numelS])).bind fun p hp => ?_
      refine (expand_is (unsqueezeEnd_is 1 hp) (s' := [N, L.base.num_channels, L.base.num_features, 1])
        (by simp [expandShape])).bind fun p2 hp2 => ?_
      have hp3 : p2.Is [N, L.base.num_channels, L.base.num_features, 1] fun j =>
          idx (at' 0 j) (g (rr (at' 0 j)) (at' 2 j)) := by
        refine hp2.congr ((AllIdx_iff _ _).2 fun j hj => ?_)
        match j, hj with
        | [n, cc, f, z], hj =>
          have e : unflat [N, L.base.num_features] (flat [N, 1, L.base.num_features] [n, 0, f]) = [n, f] :=
            unflat_eq ⟨hj.1, hj.2.2.1, by simp⟩ (by simp only [flat, numelS]; ring)
          simp [clipAll, clip_of_lt hj.1, clip_of_lt hj.2.2.1, e, at', setAt]
      refine (gather_is ht hp3 (by simp) (by simp [leExcept]) ?_).bind fun u hu => ?_
      · rw [AllIdx_iff]
        intro j hj
        have := hlt _ (InB_at (d := 0) hj (by simp)) (at' 2 j) (by rw [← hF]; exact InB_at (d := 2) hj (by simp))
        rw [hgs] at this
        simp only [at'] at this ⊢
        rw [hI]
        exact this
      · refine (squeeze_is hu (by simp) (by simp [at'])).mono fun w hw => ?_
        rw [← hC, ← hF]
        refine Is.is3 hw ?_
        intro n hn cc hcc f hf
        simp [insAt, setAt, at', hgs]
  | simple L =>
    simp only [hL, Leaf.base] at hF hC hI hR hs ⊢
    have hO : M.numOut = L.num_features_out := by unfold numOut; rw [hL]
    have hnp : M.permutation = none := h.noperm (by simp [hL])
    have hgs : ∀ r f, M.grpS g r f = L.inverse_permutation.getD f 0 % L.num_features_out := by
      intro r f; unfold grpS; rw [hL]
    have hW := h.simple L hL
    have hctx' : CtxOK ctx N L.num_features_out M.num_leaves L.base.num_repetitions idx rr := by
      rw [hR, ← hO]; exact hc
    have hun : M.unpermute ctx = .ok ctx := by unfold unpermute; rw [hnp]
    refine ⟨fun v => do
      let samples ← L.base.selectRep ctx v
      require .assertion (samples.shape = [ctx.num_samples, L.base.num_channels, L.base.num_features, L.base.num_leaves])
      let i ← L.unfoldIndices ctx.indices_out
      (← samples.gather 3 (i.unsqueezeEnd 1)).squeeze 3, ?_, fun v => ?_⟩
    · rw [hun]
      show L.sample ctx = _
      unfold FactSimple.sample
      simp only [Rand.bind_eq]
      rw [L.base.sampleAll_eq hs, Rand.bind_assoc]
      congr 1
      funext v
      rw [Rand.lift_bind]
    · refine (BaseLeaf.selectRep_is hctx' v).bind fun t ht => ?_
      refine Res.Sat.require (by rw [ht.1, hc.ns]) ?_
      have hu := FactSimple.unfoldIndices_is hW hctx'
      refine hu.bind fun i hi => ?_
      refine (gather_is ht (unsqueezeEnd_is 1 hi) (by simp) (by simp [leExcept]) ?_).bind fun u hu => ?_
      · rw [AllIdx_iff]
        intro j hj
        match j, hj with
        | [n, cc, f, z], hj =>
          have := hlt n hj.1 f (by rw [← hF]; exact hj.2.2.1)
          rw [hgs] at this
          simp only [at', List.take, List.length] at this ⊢
          rw [hI]
          exact this
      · refine (squeeze_is hu (by simp) (by simp [at'])).mono fun w hw => ?_
        rw [← hC, ← hF]
        refine Is.is3 hw ?_
        intro n hn cc hcc f hf
        simp [insAt, setAt, at', hgs]

end Model
end Einet
