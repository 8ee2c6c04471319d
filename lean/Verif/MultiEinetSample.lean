import Verif.MultiEinetFwd

/-!
# Einets with a `MultiDistributionLayer`: the program that draws the values
-/

open Classical MeasureTheory
open scoped ENNReal
noncomputable section
namespace Einet
open Tensor

theorem Rand.forEach_bind_pure {α β γ : Type} {D : List α} {f : α → Rand β} {f' : α → Rand γ} {r : α → β → γ}
    (h : ∀ a ∈ D, f' a = (f a).bind fun b => .pure (r a b)) :
    Rand.forEach D f' = (Rand.forEach D f).bind fun bs => .pure (List.zipWith r D bs) := by
  induction D with
  | nil => rfl
  | cons a D ih =>
    unfold Rand.forEach
    rw [h a (by simp), ih fun a ha => h a (by simp [ha])]
    simp only [Rand.bind_assoc, Rand.pure_bind, List.zipWith_cons_cons]

theorem Rand.All_forEach_length {α β : Type} {D : List α} {f : α → Rand β} (h : ∀ a ∈ D, (f a).All fun _ => True) :
    (Rand.forEach D f).All fun bs => bs.length = D.length :=
  (Rand.All.forEach (Q := fun _ _ => True) h).mono fun _ hf => hf.length_eq.symm

theorem BaseLeaf.draws_All (B : BaseLeaf) (ctx : Ctx) : (B.draws ctx).All fun _ => True := by
  unfold BaseLeaf.draws
  split_ifs
  · trivial
  · refine (Rand.All_drawAll (P := fun _ _ => True) fun i _ => ?_).mono fun _ _ => trivial
    exact fun _ => trivial

/-- selection in a factorized leaf. -/
theorem FactLeaf.index_is {L : FactLeaf} {g : Nat → Nat → Nat} (hW : L.WF g) {ctx : Ctx} {N : Nat} (hN : 0 < N)
    {idx : Nat → Nat → Nat} {rr : Nat → Nat}
    (hc : CtxOK ctx N L.num_features_out L.base.num_leaves L.base.num_repetitions idx rr) {t : Tensor ℝ}
    {s : Nat → Nat → Nat → Nat → ℝ} (ht : t.Is4 N L.base.num_channels L.base.num_features L.base.num_leaves s) :
    Res.Sat (L.index ctx t) fun u => u.Is3 N L.base.num_channels L.base.num_features fun n c f => s n c f (idx n (g (rr n) f)) := by
  unfold FactLeaf.index
  refine Res.Sat.require (by rw [ht.1, hc.ns]) ?_
  have hg := FactLeaf.groupIdx_is hW hc
  refine (gather_is hc.io hg (by simp) (by simp [leExcept]) ?_).bind fun q hq => ?_
  · rw [AllIdx_iff]
    intro j hj
    exact hW.lt _ (hc.ir_lt _ (InB_at (d := 0) hj (by simp))) _ (InB_at (d := 1) hj (by simp))
  rw [hc.ns]
  refine (viewInfer_is hq (m := L.base.num_features) (by simp [numelS]; omega) (by simp [numelS])).bind fun p hp => ?_
  refine (expand_is (unsqueezeEnd_is 1 hp) (s' := [N, L.base.num_channels, L.base.num_features, 1])
    (by simp [expandShape])).bind fun p2 hp2 => ?_
  have hp3 : p2.Is [N, L.base.num_channels, L.base.num_features, 1] fun j =>
      idx (at' 0 j) (g (rr (at' 0 j)) (at' 2 j)) := by
    refine hp2.congr ((AllIdx_iff _ _).2 fun j hj => ?_)
    match j, hj with
    | [n, cc, f, z], hj =>
      have e : unflat [N, L.base.num_features] (flat [N, 1, L.base.num_features] [n, 0, f]) = [n, f] :=
        unflat_eq ⟨hj.1, hj.2.2.1, by simp⟩ (by simp only [flat, numelS]; ring)
      simp [clipAll, clip_of_lt hj.1, clip_of_lt hj.2.2.1, e, at', setAt]
  refine (gather_is ht hp3 (by simp) (by simp [leExcept]) ?_).bind fun u hu => ?_
  · rw [AllIdx_iff]
    intro j hj
    have := hc.io_lt _ (InB_at (d := 0) hj (by simp)) _ (hW.lt _ (hc.ir_lt _ (InB_at (d := 0) hj (by simp))) _
      (InB_at (d := 2) hj (by simp)))
    simpa only [at'] using this
  · refine (squeeze_is hu (by simp) (by simp [at'])).mono fun w hw => ?_
    refine Is.is3 hw ?_
    intro n hn cc hcc f hf
    simp [insAt, setAt, at']

/-- selection in a simple factorized leaf. -/
theorem FactSimple.index_is {L : FactSimple} (hW : L.WF) {ctx : Ctx} {N : Nat}
    {idx : Nat → Nat → Nat} {rr : Nat → Nat}
    (hc : CtxOK ctx N L.num_features_out L.base.num_leaves L.base.num_repetitions idx rr) {t : Tensor ℝ}
    {s : Nat → Nat → Nat → Nat → ℝ} (ht : t.Is4 N L.base.num_channels L.base.num_features L.base.num_leaves s) :
    Res.Sat (L.index ctx t) fun u => u.Is3 N L.base.num_channels L.base.num_features fun n c f =>
      s n c f (idx n (L.inverse_permutation.getD f 0 % L.num_features_out)) := by
  unfold FactSimple.index
  refine Res.Sat.require (by rw [ht.1, hc.ns]) ?_
  refine (FactSimple.unfoldIndices_is hW hc).bind fun i hi => ?_
  refine (gather_is ht (unsqueezeEnd_is 1 hi) (by simp) (by simp [leExcept]) ?_).bind fun u hu => ?_
  · rw [AllIdx_iff]
    intro j hj
    match j, hj with
    | [n, cc, f, z], hj =>
      have := hc.io_lt n hj.1 _ (Nat.mod_lt (L.inverse_permutation.getD f 0) hW.out_pos)
      simpa only [at', List.take, List.length] using this
  · refine (squeeze_is hu (by simp) (by simp [at'])).mono fun w hw => ?_
    refine Is.is3 hw ?_
    intro n hn cc hcc f hf
    simp [insAt, setAt, at']

/-- the inverse permutation in front of a plain leaf. -/
theorem Model.unpermute_ctx {M : Model} {g : Nat → Nat → Nat} (h : M.FrontWF g) {ctx : Ctx} {N : Nat} {idx : Nat → Nat → Nat}
    {rr : Nat → Nat} (hO : M.numOut = M.num_features) (hc : CtxOK ctx N M.numOut M.num_leaves M.num_repetitions idx rr) :
    Res.Sat (M.unpermute ctx) fun c => c = { ctx with indices_out := c.indices_out } ∧
      CtxOK c N M.num_features M.num_leaves M.num_repetitions (fun n f => idx n (M.permInvAt (rr n) f)) rr := by
  have hlt : ∀ n, n < N → ∀ f, f < M.num_features → idx n (M.permInvAt (rr n) f) < M.num_leaves := fun n hn f hf =>
    hc.io_lt n hn _ (by rw [hO]; exact (h.permAt_inv (hc.ir_lt n hn) hf).2.1)
  have key : Res.Sat (M.unpermute ctx) fun c => c = { ctx with indices_out := c.indices_out } ∧
      c.indices_out.Is2 N M.num_features fun n f => idx n (M.permInvAt (rr n) f) := by
    unfold unpermute permInvAt
    cases hp : M.permutation with
    | none => exact Res.Sat.ok ⟨rfl, by rw [← hO]; exact hc.io⟩
    | some pq =>
      obtain ⟨p, q⟩ := pq
      dsimp only
      refine Res.Sat.require ?_ ?_
      · rw [AllIdx_iff]
        intro j hj
        rw [hc.ir.1] at hj
        rw [Is.get hc.ir hj]
        match j, hj with
        | [n], hj => exact hc.ir_lt n hj.1
      · have hq : ∀ n, n < N → ∀ f, f < M.num_features → (q.getD (rr n) []).getD f 0 < M.numOut := by
          intro n hn f hf
          rw [hO]
          exact (h.perm p q hp _ (hc.ir_lt n hn)).q_lt f hf
        have hpi : (⟨ctx.indices_repetition.shape ++ [M.num_features],
            fun j => (q.getD (ctx.indices_repetition.get [at' 0 j]) []).getD (at' 1 j) 0⟩ : Tensor Nat).Is2 N
              M.num_features fun n f => (q.getD (rr n) []).getD f 0 := by
          refine Is.intro (by simp [hc.ir.1]) fun j hj => ?_
          have h0 := InB_at (d := 0) hj (by simp)
          have : ctx.indices_repetition.get [at' 0 j] = rr (at' 0 j) :=
            Is.get hc.ir (i := [at' 0 j]) ⟨h0, by simp⟩
          dsimp only
          rw [this]
        refine (gather_is hc.io hpi (by simp) (by simp [leExcept]) ?_).bind fun t ht => Res.Sat.pure ⟨rfl, ?_⟩
        · rw [AllIdx_iff]
          intro j hj
          exact hq _ (InB_at (d := 0) hj (by simp)) _ (InB_at (d := 1) hj (by simp))
        · exact Is.is2 ht (by intro n hn f hf; simp [setAt, at'])
  refine key.mono fun c ⟨e, h2⟩ => ⟨e, ⟨?_, h2, hlt, ?_, hc.ir_lt⟩⟩
  · rw [e]; exact hc.ns
  · rw [e]; exact hc.ir

namespace MultiLeaf

/-- what part `p` drew, in a list of draws of all parts. -/
def value (L : MultiLeaf) (vs : List (List Nat → ℝ)) (p : List Nat × BaseLeaf) : List Nat → ℝ :=
  vs.getD (L.partIdx (p.1.getD 0 0)) fun _ => 0

/-- the draws of all parts, feature by feature. -/
def join (L : MultiLeaf) (vs : List (List Nat → ℝ)) (j : List Nat) : ℝ :=
  L.value vs (L.part (at' 2 j)) (setAt 2 (L.pos (at' 2 j)) j)

/-- the draws of all parts. -/
def drawsAll (L : MultiLeaf) (ctx : Ctx) : Rand (List (List Nat → ℝ)) := Rand.forEach L.parts fun p => p.2.draws ctx

theorem OK.value_at {L : MultiLeaf} (h : L.OK) (h0 : ∀ p ∈ L.parts, 0 < p.1.length) {vs : List (List Nat → ℝ)} {k : Nat}
    (hk : k < L.parts.length) (hv : vs.length = L.parts.length) : L.value vs L.parts[k] = vs[k] := by
  have hl := h0 _ (List.getElem_mem hk)
  unfold value
  rw [List.getD_eq_getElem _ _ hl, h.part_eq hk (List.getElem_mem hl), List.getD_eq_getElem _ _ (by omega)]

theorem forall2_zip {L : MultiLeaf} (h : L.OK) (h0 : ∀ p ∈ L.parts, 0 < p.1.length) {vs : List (List Nat → ℝ)}
    (hv : vs.length = L.parts.length) {r : List Nat × BaseLeaf → (List Nat → ℝ) → Tensor ℝ}
    {Q : List Nat × BaseLeaf → Tensor ℝ → Prop} (hr : ∀ p ∈ L.parts, Q p (r p (L.value vs p))) :
    List.Forall₂ Q L.parts (List.zipWith r L.parts vs) := by
  rw [List.forall₂_iff_get]
  refine ⟨by simp [hv], fun i h1 h2 => ?_⟩
  simp only [List.get_eq_getElem, List.getElem_zipWith]
  rw [← h.value_at h0 h1 hv]
  exact hr _ (List.getElem_mem h1)

/-- the program of the layer for given parent indices. -/
theorem sample_run {L : MultiLeaf} (h : L.OK) (h0 : ∀ p ∈ L.parts, 0 < p.1.length) (hs : ∀ p ∈ L.parts, p.2.samplable = true)
    {ctx : Ctx} {N : Nat} {idx : Nat → Nat → Nat} {rr : Nat → Nat}
    (hc : CtxOK ctx N L.num_features L.num_leaves L.num_repetitions idx rr) :
    ∃ res : List (List Nat → ℝ) → Res (Tensor ℝ), L.sample ctx = (L.drawsAll ctx).bind (fun vs => Rand.lift (res vs)) ∧
      ∀ vs, vs.length = L.parts.length → Res.Sat (res vs) fun t => t.Is3 N L.num_channels L.num_features
        fun n c f => L.join vs [n, c, f, idx n f, rr n] := by
  have hrun : ∀ p, ∃ r : (List Nat → ℝ) → Tensor ℝ, p ∈ L.parts →
      ((Rand.lift (ctx.indices_out.indexDim1 p.1)).bind fun i => p.2.sample { ctx with indices_out := i }) =
        (p.2.draws ctx).bind (fun v => .pure (r v)) ∧
      ∀ v, (r v).Is3 N L.num_channels p.1.length fun n c j => v [n, c, j, idx n (p.1.getD j 0), rr n] := by
    intro p
    by_cases hp : p ∈ L.parts
    · obtain ⟨r, h1, h2⟩ := Props.part_run h hp (h0 p hp) (hs p hp) hc
      exact ⟨r, fun _ => ⟨h1, h2⟩⟩
    · exact ⟨fun _ => full [] 0, fun hp' => absurd hp' hp⟩
  choose r hr using hrun
  refine ⟨fun vs => do let t ← catAll 2 (List.zipWith r L.parts vs); L.reorder t, ?_, fun vs hv => ?_⟩
  · unfold MultiLeaf.sample drawsAll
    rw [Rand.forEach_bind_pure (f := fun p => p.2.draws ctx) (r := r) fun p hp => (hr p hp).1, Rand.bind_assoc]
    rfl
  · have hf2 := forall2_zip h h0 hv (r := r) (Q := fun p t => t.Is (setAt 2 p.1.length [N, L.num_channels, L.num_features])
      fun i => L.value vs p [at' 0 i, at' 1 i, at' 2 i, idx (at' 0 i) (p.1.getD (at' 2 i) 0), rr (at' 0 i)])
      fun p hp => (hr p hp).2 _
    obtain ⟨y, hy, hy1, hy2⟩ := assemble h (s := [N, L.num_channels, L.num_features]) (by simp) hf2
    refine ⟨y, hy, Is.intro hy1 fun j hj => ?_⟩
    match j, hj with
    | [n, c, f], hj =>
      obtain ⟨hn, hc', hf, -⟩ := hj
      obtain ⟨hm, hp, e⟩ := h.part_mem hf
      have := hy2 _ hm _ hp [n, c, 0] ⟨hn, hc', by simp, trivial⟩
      simp only [setAt, e, at'] at this
      rw [this, List.getD_eq_getElem _ _ hp, e]
      rfl

/-- the program of the layer without parent indices. -/
theorem sampleAll_run {L : MultiLeaf} (h : L.OK) (h0 : ∀ p ∈ L.parts, 0 < p.1.length) (hs : ∀ p ∈ L.parts, p.2.samplable = true)
    {ctx : Ctx} {N D S : Nat} {idx : Nat → Nat → Nat} {rr : Nat → Nat}
    (hc : CtxOK ctx N D S L.num_repetitions idx rr) :
    ∃ res : List (List Nat → ℝ) → Res (Tensor ℝ), L.sampleAll ctx = (L.drawsAll ctx).bind (fun vs => Rand.lift (res vs)) ∧
      ∀ vs, vs.length = L.parts.length → Res.Sat (res vs) fun t => t.Is4 N L.num_channels L.num_features L.num_leaves
        fun n c f i => L.join vs [n, c, f, i, rr n] := by
  have hrun : ∀ p, ∃ r : (List Nat → ℝ) → Tensor ℝ, p ∈ L.parts →
      p.2.sampleAll ctx = (p.2.draws ctx).bind (fun v => .pure (r v)) ∧
      ∀ v, (r v).Is4 N L.num_channels p.1.length L.num_leaves fun n c j i => v [n, c, j, i, rr n] := by
    intro p
    by_cases hp : p ∈ L.parts
    · obtain ⟨s1, s2, s3, s4⟩ := h.size p hp
      rw [← s4] at hc
      have hsel := fun v => BaseLeaf.selectRep_is hc v
      choose r hr1 hr2 using hsel
      rw [s1, s2, s3] at hr2
      refine ⟨r, fun _ => ⟨?_, hr2⟩⟩
      rw [p.2.sampleAll_eq (hs p hp)]
      congr 1
      funext v
      rw [hr1, Rand.lift_ok]
    · exact ⟨fun _ => full [] 0, fun hp' => absurd hp' hp⟩
  choose r hr using hrun
  refine ⟨fun vs => do let t ← catAll 2 (List.zipWith r L.parts vs); L.reorder t, ?_, fun vs hv => ?_⟩
  · unfold MultiLeaf.sampleAll drawsAll
    rw [Rand.forEach_bind_pure (f := fun p => p.2.draws ctx) (r := r) fun p hp => (hr p hp).1, Rand.bind_assoc]
    rfl
  · have hf2 := forall2_zip h h0 hv (r := r)
      (Q := fun p t => t.Is (setAt 2 p.1.length [N, L.num_channels, L.num_features, L.num_leaves])
        fun i => L.value vs p [at' 0 i, at' 1 i, at' 2 i, at' 3 i, rr (at' 0 i)])
      fun p hp => (hr p hp).2 _
    obtain ⟨y, hy, hy1, hy2⟩ := assemble h (s := [N, L.num_channels, L.num_features, L.num_leaves]) (by simp) hf2
    refine ⟨y, hy, Is.intro hy1 fun j hj => ?_⟩
    match j, hj with
    | [n, c, f, i], hj =>
      obtain ⟨hn, hc', hf, hi, -⟩ := hj
      obtain ⟨hm, hp, e⟩ := h.part_mem hf
      have := hy2 _ hm _ hp [n, c, 0, i] ⟨hn, hc', by simp, hi, trivial⟩
      simp only [setAt, e, at'] at this
      rw [this]
      rfl

end MultiLeaf

namespace MultiEinet
variable {E : MultiEinet} {sd : List (List Nat × LeafSpec)} {g : Nat → Nat → Nat}

theorem WF.nonempty (h : E.WF sd g) : ∀ p ∈ E.leaf.parts, 0 < p.1.length := by
  intro p hp
  obtain ⟨s, -, e, h1, -⟩ := h.parts_spec hp
  rw [e]; exact h1

theorem WF.samplable (h : E.WF sd g) (hg : ∀ s ∈ sd, s.2.Good ∧ s.2.CanSample) : ∀ p ∈ E.leaf.parts, p.2.samplable = true := by
  intro p hp
  obtain ⟨s, hs, -, -, hB⟩ := h.parts_spec hp
  exact ((LeafSpec.build_spec hB).2.2.2 (hg s hs).1 (hg s hs).2).samplable

/-- inverse permutation and leaf: the draws of all parts, followed by a selection. -/
theorem leaf_run (h : E.WF sd g) (hg : ∀ s ∈ sd, s.2.Good ∧ s.2.CanSample) {ctx : Ctx} {N : Nat} (hN : 0 < N)
    {idx : Nat → Nat → Nat} {rr : Nat → Nat}
    (hc : CtxOK ctx N E.net.numOut E.net.num_leaves E.net.num_repetitions idx rr) :
    ∃ res : List (List Nat → ℝ) → Res (Tensor ℝ), ((Rand.lift (E.net.unpermute ctx)).bind fun c => E.sampleLeaf c) =
        (E.leaf.drawsAll ctx).bind (fun vs => Rand.lift (res vs)) ∧
      ∀ vs, vs.length = E.leaf.parts.length → Res.Sat (res vs) fun t => t.Is3 N E.net.num_channels E.net.num_features
        fun n c f => E.leaf.join vs [n, c, f, idx n (E.net.grpS g (rr n) f), rr n] := by
  obtain ⟨e1, e2, e3, e4, hF0⟩ := h.sizes
  have hfr := h.net.front
  have hF := hfr.features; have hC := hfr.channels; have hI := hfr.leaves; have hR := hfr.reps
  have hs := h.samplable hg
  cases hL : E.net.leaf with
  | direct B =>
    simp only [hL, Leaf.base] at hF hC hI hR
    have hO : E.net.numOut = E.net.num_features := by unfold Model.numOut; rw [hL]; exact hF
    obtain ⟨c, hcu, hcc, hcok⟩ := Model.unpermute_ctx hfr hO hc
    rw [← e1, ← e3, ← e4] at hcok
    obtain ⟨res, h1, h2⟩ := E.leaf.sample_run h.ok h.nonempty hs hcok
    refine ⟨res, ?_, fun vs hv => (h2 vs hv).mono fun t ht => ?_⟩
    · rw [hcu]
      show E.sampleLeaf c = _
      unfold sampleLeaf
      rw [hL]
      dsimp only
      rw [h1, show E.leaf.drawsAll c = E.leaf.drawsAll ctx by rw [hcc]; rfl]
    · rw [e1, e2] at ht
      have hgs : ∀ r f, E.net.grpS g r f = E.net.permInvAt r f := by intro r f; unfold Model.grpS; rw [hL]
      simp only [hgs]
      exact ht
  | factorized L =>
    simp only [hL, Leaf.base] at hF hC hI hR
    have hO : E.net.numOut = L.num_features_out := by unfold Model.numOut; rw [hL]
    have hnp : E.net.permutation = none := hfr.noperm (by simp [hL])
    have hun : E.net.unpermute ctx = .ok ctx := by unfold Model.unpermute; rw [hnp]
    have hc2 := hc
    rw [← e4] at hc2
    rw [hO, ← hI, ← hR] at hc
    obtain ⟨res, h1, h2⟩ := E.leaf.sampleAll_run h.ok h.nonempty hs hc2
    refine ⟨fun vs => res vs >>= fun t => L.index ctx t, ?_, fun vs hv => ?_⟩
    · rw [hun]
      show E.sampleLeaf ctx = _
      unfold sampleLeaf
      rw [hL]
      dsimp only
      rw [h1, Rand.bind_assoc]
      congr 1
      funext vs
      rw [Rand.lift_bind]
    · refine (h2 vs hv).bind fun t ht => ?_
      rw [e1, e2, e3, ← hF, ← hC, ← hI] at ht
      refine (FactLeaf.index_is (hfr.fact L hL) hN hc ht).mono fun u hu => ?_
      rw [hF, hC] at hu
      have hgs : ∀ r f, E.net.grpS g r f = g r f := by intro r f; unfold Model.grpS; rw [hL]
      simp only [hgs]
      exact hu
  | simple L =>
    simp only [hL, Leaf.base] at hF hC hI hR
    have hO : E.net.numOut = L.num_features_out := by unfold Model.numOut; rw [hL]
    have hnp : E.net.permutation = none := hfr.noperm (by simp [hL])
    have hun : E.net.unpermute ctx = .ok ctx := by unfold Model.unpermute; rw [hnp]
    have hc2 := hc
    rw [← e4] at hc2
    rw [hO, ← hI, ← hR] at hc
    obtain ⟨res, h1, h2⟩ := E.leaf.sampleAll_run h.ok h.nonempty hs hc2
    refine ⟨fun vs => res vs >>= fun t => L.index ctx t, ?_, fun vs hv => ?_⟩
    · rw [hun]
      show E.sampleLeaf ctx = _
      unfold sampleLeaf
      rw [hL]
      dsimp only
      rw [h1, Rand.bind_assoc]
      congr 1
      funext vs
      rw [Rand.lift_bind]
    · refine (h2 vs hv).bind fun t ht => ?_
      rw [e1, e2, e3, ← hF, ← hC, ← hI] at ht
      refine (FactSimple.index_is (hfr.simple L hL) hc ht).mono fun u hu => ?_
      rw [hF, hC] at hu
      have hgs : ∀ r f, E.net.grpS g r f = L.inverse_permutation.getD f 0 % L.num_features_out := by
        intro r f; unfold Model.grpS; rw [hL]
      simp only [hgs]
      exact hu

end MultiEinet
end Einet
