import Verif.PropsSampleNeg

/-!
# The leaf layer groups features in the same way in both directions: C33 (second half), C34
-/

open Classical MeasureTheory
open scoped ENNReal
noncomputable section
namespace Einet
namespace Props
open Tensor Einet

/-! ### Specification -/

/-- density of one entry under component `i`; missing entries count 1. -/
def cell (M : Model) (x : Fl) (c f i r : Nat) : ℝ≥0∞ := if x = .nan then 1 else toP (M.leaf.base.logProb c f i r x)

/-- the forward pass evaluates feature `f` in region `G r f` of repetition `r`: the input of the first layer for region `o`
is the product of the densities of the features of this region. -/
def ForwardIn (M : Model) (s : LeafSpec) (O : Nat) (G : Nat → Nat → Nat) : Prop :=
  ∀ N x, Batch s N M.num_channels M.num_features x → ∃ y z w, M.leaf.forward x none = .ok y ∧ M.factorize y = .ok z ∧
    M.permute z = .ok w ∧ w.shape = [N, O, M.num_leaves, M.num_repetitions] ∧
    ∀ n, n < N → ∀ o, o < O → ∀ i, i < M.num_leaves → ∀ r, r < M.num_repetitions →
      toP (w.get [n, o, i, r]) = ∏ f ∈ Finset.range M.num_features,
        if G r f = o then ∏ c ∈ Finset.range M.num_channels, cell M (x.get [n, c, f]) c f i r else 1

/-- indices for `N` rows as they reach the leaf layer: a component for each of the `O` regions, and a repetition. -/
structure Choices (M : Model) (O N : Nat) (ctx : Ctx) : Prop where
  num : ctx.num_samples = N
  out : ctx.indices_out.shape = [N, O]
  out_lt : ∀ n, n < N → ∀ o, o < O → ctx.indices_out.get [n, o] < M.num_leaves
  rep : ctx.indices_repetition.shape = [N]
  rep_lt : ∀ n, n < N → ctx.indices_repetition.get [n] < M.num_repetitions

/-- the leaf sampler uses, for feature `f`, the component chosen for region `G r f`: after drawing a value `v[n,c,f,i,r]`
from every component, it returns `v[n, c, f, indices_out[n, G r f], r]` where `r` is the repetition chosen for row `n`. -/
def SampledIn (M : Model) (O : Nat) (G : Nat → Nat → Nat) : Prop :=
  ∀ N ctx, 0 < N → Choices M O N ctx → ∃ res : (List Nat → ℝ) → Res (Tensor ℝ),
    ((Rand.lift (M.unpermute ctx)).bind fun c => M.leaf.sample c) =
      (M.leaf.base.draws ctx).bind (fun v => Rand.lift (res v)) ∧
    ∀ v, ∃ t, res v = .ok t ∧ t.shape = [N, M.num_channels, M.num_features] ∧
      ∀ n, n < N → ∀ c, c < M.num_channels → ∀ f, f < M.num_features →
        t.get [n, c, f] = v [n, c, f, ctx.indices_out.get [n, G (ctx.indices_repetition.get [n]) f],
          ctx.indices_repetition.get [n]]

/-! ### Lemmas -/

theorem forwardIn {c : Config} {P : Params} (hP : P.Random) (hg : P.leaf.Good) {M : Model} (h : build c P = .ok M) :
    ForwardIn M P.leaf M.numOut (M.grpF (buildGroups c P)) := by
  obtain ⟨-, hw, hp, _⟩ := build_WF hP h
  have hp := hp hg
  have hf := hw.front
  intro N x hx
  have hobs : ∀ n, n < N → M.leaf.base.Observed fun c f => x.get [n, c, f] := fun n hn => (build_observed hP h).2 (hx.2 n hn)
  obtain ⟨y, hy, z, hz, w, hw', h1⟩ := Model.front_is hf hx.is3 (fun n hn => (hobs n hn).valid hp.valid_zero) (ms := none) rfl
  refine ⟨y, z, w, hy, hz, hw', h1.1, fun n hn o ho i hi r hr => ?_⟩
  rw [h1.get hn ho hi hr]
  have e : ∀ c, c < M.num_channels → ∀ f, f < M.num_features → ∀ i, i < M.num_leaves → ∀ r, r < M.num_repetitions →
      (M.leaf.base.entry none (x.get [n, c, f]) c f i r).IsFin ∧
      toP (M.leaf.base.entry none (x.get [n, c, f]) c f i r) = cell M (x.get [n, c, f]) c f i r := by
    intro c hc f hf' i hi r hr
    have hc' : c < M.leaf.base.num_channels := by rw [hf.channels]; exact hc
    have hf'' : f < M.leaf.base.num_features := by rw [hf.features]; exact hf'
    have e := Model.entry_none hp hc' hf'' (by rw [hf.leaves]; exact hi) (by rw [hf.reps]; exact hr) (hobs n hn)
    refine ⟨e.1, e.2.trans ?_⟩
    unfold cell
    rcases hobs n hn c hc' f hf'' with e0 | ⟨v, e0, hv⟩
    · simp only [e0, if_true]
      exact hp.integral c hc' f hf'' i (by rw [hf.leaves]; exact hi) r (by rw [hf.reps]; exact hr)
    · simp only [e0, reduceCtorEq, if_false]
      exact lintegral_dirac' _ (hp.measurable c f i r)
  rw [(Model.frontRow_den hf (b := true) (fun _ => rfl) hr (i := i) (fun c hc f hf' => (e c hc f hf' i hi r hr).1) ho).2]
  unfold Model.regionP
  refine Finset.prod_congr rfl fun f hf' => ?_
  congr 1
  exact Finset.prod_congr rfl fun c hc => (e c (by simpa using hc) f (by simpa using hf') i hi r hr).2

theorem sampledIn {c : Config} {P : Params} (hP : P.Random) (hg : P.leaf.Good) (hs : P.leaf.CanSample) {M : Model}
    (h : build c P = .ok M) : SampledIn M M.numOut (M.grpS (buildGroups c P)) := by
  have hsam := build_samplable hP hg hs h
  intro N ctx hN hc
  have hctx : CtxOK ctx N M.numOut M.num_leaves M.num_repetitions (fun n o => ctx.indices_out.get [n, o])
      (fun n => ctx.indices_repetition.get [n]) := by
    refine ⟨hc.num, Is.intro hc.out fun j hj => ?_, hc.out_lt, Is.intro hc.rep fun j hj => ?_, hc.rep_lt⟩
    · match j, hj with
      | [a, b], _ => rfl
    · match j, hj with
      | [a], _ => rfl
  obtain ⟨res, h1, h2⟩ := Model.leaf_sample_eq hsam.wf.front hsam.features_pos hsam.samp.samplable hN hctx
  refine ⟨res, h1, fun v => ?_⟩
  obtain ⟨t, ht, h3⟩ := h2 v
  exact ⟨t, ht, h3.1, fun n hn c hc f hf => h3.get hn hc hf⟩

theorem ForwardIn.congr {M : Model} {s : LeafSpec} {O : Nat} {G H : Nat → Nat → Nat} (h : ForwardIn M s O G)
    (e : ∀ r, r < M.num_repetitions → ∀ f, f < M.num_features → G r f = H r f) : ForwardIn M s O H := by
  intro N x hx
  obtain ⟨y, z, w, h1, h2, h3, h4, h5⟩ := h N x hx
  refine ⟨y, z, w, h1, h2, h3, h4, fun n hn o ho i hi r hr => ?_⟩
  rw [h5 n hn o ho i hi r hr]
  refine Finset.prod_congr rfl fun f hf => ?_
  rw [e r hr f (by simpa using hf)]

theorem SampledIn.congr {M : Model} {O : Nat} {G H : Nat → Nat → Nat} (h : SampledIn M O G)
    (e : ∀ r, r < M.num_repetitions → ∀ f, f < M.num_features → G r f = H r f) : SampledIn M O H := by
  intro N ctx hN hc
  obtain ⟨res, h1, h2⟩ := h N ctx hN hc
  refine ⟨res, h1, fun v => ?_⟩
  obtain ⟨t, h3, h4, h5⟩ := h2 v
  refine ⟨t, h3, h4, fun n hn c hc' f hf => ?_⟩
  rw [h5 n hn c hc' f hf, e _ (hc.rep_lt n hn) f hf]

theorem build_bottomUp {c : Config} {P : Params} (hP : P.Random) {M : Model} (h : build c P = .ok M)
    (hb : c.structure' = "bottom-up") : (∃ B, M.leaf = .direct B) ∧ ∀ r, r < M.num_repetitions → ∀ f,
      M.permInvAt r f = (argsort (P.randperm r M.num_features)).getD f 0 := by
  have hv := build_valid h
  unfold build at h
  rw [hv] at h
  simp only [Res.ok_bind] at h
  rw [if_neg (by rw [hb]; decide), if_pos hb] at h
  refine ⟨?_, fun r hr f => ?_⟩
  · obtain ⟨_, _, _, B, _, e⟩ := buildBottomUp_spec hP hv hb h (fun _ _ => 0)
    exact ⟨B, e⟩
  · unfold buildBottomUp at h
    obtain ⟨_, _, h⟩ := bind_ok h
    obtain ⟨_, _, h⟩ := bind_ok h
    obtain ⟨_, _, h⟩ := bind_ok h
    simp only [Res.pure_eq, Except.ok.injEq] at h
    subst h
    unfold Model.permInvAt
    dsimp only at hr ⊢
    rw [List.map_map, getD_map_range _ hr]
    rfl

theorem wMode (F : ℤ) (c f i r : Nat) : (wBase F).mode c f i r = if i = 1 then 1 else 0 := by
  show ((argmaxR (softmaxR 2 (fun k => if i = 1 ∧ k = 1 then Real.log 2 else 0)) 2 : ℕ) : ℝ) = _
  unfold argmaxR argmaxR
  unfold softmaxR
  rw [Finset.sum_range_succ, Finset.sum_range_one]
  by_cases hi : i = 1
  · simp [hi, Real.exp_log]; norm_num
  · simp [hi]

/-! ### C34, C33 -/

/-- **C34** (part): there is one assignment of the features to the regions of each repetition that describes both the
forward pass and the leaf sampler.  Missing: configurations outside `MirrorCfg` (`C34_refuted`). -/
theorem C34_mirrored_partial (c : Config) (P : Params) (hP : P.Random) (hg : P.leaf.Good) (hs : P.leaf.CanSample) (M : Model)
    (h : build c P = .ok M) (hm : MirrorCfg c) :
    ∃ O G, (∀ r, r < M.num_repetitions → ∀ f, f < M.num_features → G r f < O) ∧ ForwardIn M P.leaf O G ∧ SampledIn M O G := by
  have hf := (build_WF hP h).2.1.front
  have hmir := build_mirrored hP h hm
  exact ⟨M.numOut, M.grpS (buildGroups c P), fun r hr f hf' => hf.grpS_lt hr hf',
    (forwardIn hP hg h).congr fun r hr f hf' => (hmir r hr f hf').symm, sampledIn hP hg hs h⟩

example : ∃ M, build (exOne "einsum" "top-down") (exParams exLeaf) = .ok M ∧ MirrorCfg (exOne "einsum" "top-down") ∧
    (exParams exLeaf).leaf.Good ∧ (exParams exLeaf).leaf.CanSample := by
  obtain ⟨M, h, _, _, e⟩ := exOne_builds (l := "einsum") (s := "top-down") (Or.inl ⟨Or.inr (Or.inr rfl), rfl⟩)
  exact ⟨M, h, (exMirror _ _).2, exLeaf_good _ rfl⟩

/-- **C33**, second half: a bottom-up model has one region per feature, and feature `f` is evaluated in, and sampled from,
region `invert_permutation(p_r)[f]` where `p_r` is the permutation drawn for repetition `r`. -/
theorem C33_bottom_up (c : Config) (P : Params) (hP : P.Random) (hg : P.leaf.Good) (hs : P.leaf.CanSample) (M : Model)
    (h : build c P = .ok M) (hb : c.structure' = "bottom-up") :
    let G := fun r f => (argsort (P.randperm r M.num_features)).getD f 0
    ForwardIn M P.leaf M.num_features G ∧ SampledIn M M.num_features G := by
  obtain ⟨⟨B, hB⟩, hq⟩ := build_bottomUp hP h hb
  have hO : M.numOut = M.num_features := by
    have := (build_WF hP h).2.1.front.features
    unfold Model.numOut
    rw [hB] at this ⊢
    exact this
  have e1 := forwardIn hP hg h
  have e2 := sampledIn hP hg hs h
  rw [hO] at e1 e2
  exact ⟨e1.congr fun r hr f _ => by unfold Model.grpF; rw [hB]; exact hq r hr f,
    e2.congr fun r hr f _ => by unfold Model.grpS; rw [hB]; exact hq r hr f⟩

example : ∃ M, build (exConfig "linsum" "bottom-up") (exParams exLeaf) = .ok M ∧
    (exConfig "linsum" "bottom-up").structure' = "bottom-up" ∧ (exParams exLeaf).leaf.CanSample ∧
    (argsort ((exParams exLeaf).randperm 1 5)).getD 1 0 = 3 := by
  obtain ⟨M, h⟩ := exConfig_normal (l := "linsum") (s := "bottom-up") (Or.inr ⟨rfl, rfl⟩)
  refine ⟨M, h, rfl, (exLeaf_good _ rfl).2, ?_⟩
  exact (argsort_isPerm (List.reverse_perm (List.range 5))).qp 3 (by omega)

/-- **C34 is false**: for some valid configuration no assignment of features to regions describes both directions.  (Four
features, two regions, one repetition, top-down: `FactorizedLeafSimple.forward` groups neighbours, its sampler groups
features with the same parity.) -/
theorem C34_refuted : ∃ (c : Config) (P : Params) (M : Model), P.Random ∧ P.leaf.Good ∧ P.leaf.CanSample ∧
    build c P = .ok M ∧ M.num_features = 4 ∧ ∀ G, ForwardIn M P.leaf 2 G → SampledIn M 2 G → False := by
  obtain ⟨M, h⟩ := wit_exists (F := 4) (K := 1) (d := 1) (by norm_num) (by norm_num) (by norm_num) (by norm_num)
    (fun _ _ => 0) (fun _ => 0)
  have hR := wParams_random (fun _ _ => 0) (fun _ => 0)
  refine ⟨_, _, M, hR, wLeaf_good.1, wLeaf_good.2, h.build, h.features, fun G h1 h2 => ?_⟩
  have hO : M.numOut = 2 := by unfold Model.numOut; rw [h.leaf]; rfl
  have f1 := forwardIn hR wLeaf_good.1 h.build
  have f2 := sampledIn hR wLeaf_good.1 wLeaf_good.2 h.build
  rw [hO] at f1 f2
  -- forward: feature 1 is in region 0
  have hG : G 0 1 = 0 := by
    let x : Tensor Fl := ⟨[1, 1, 4], fun i => if at' 2 i = 1 then .fin 0 else .nan⟩
    have hx : Batch wLeaf 1 M.num_channels M.num_features x := by
      rw [h.channels, h.features]
      refine ⟨rfl, fun n _ c _ f _ => ?_⟩
      by_cases hf : f = 1
      · exact Or.inr ⟨0, by simp [x, at', hf], 0, by norm_num, by norm_num⟩
      · exact Or.inl (by simp [x, at', hf])
    obtain ⟨y, z, w, a1, a2, a3, -, a5⟩ := h1 1 x hx
    obtain ⟨y', z', w', b1, b2, b3, -, b5⟩ := f1 1 x hx
    cases a1.symm.trans b1
    cases a2.symm.trans b2
    cases a3.symm.trans b3
    have hi : 1 < M.num_leaves := by rw [h.leaves]; omega
    have hr : 0 < M.num_repetitions := by rw [h.reps]; omega
    have e := (a5 0 (by omega) 0 (by omega) 1 hi 0 hr).symm.trans (b5 0 (by omega) 0 (by omega) 1 hi 0 hr)
    rw [h.features, h.channels] at e
    have hg : ∀ f, f < 4 → M.grpF (buildGroups (wConfig (4 : ℕ) (1 : ℕ) 1) (wParams (fun _ _ => 0) fun _ => 0)) 0 f = f / 2 :=
      fun f hf => h.grpF (by norm_num) _ hf
    simp only [Finset.prod_range_succ, Finset.range_zero, Finset.prod_empty, one_mul, hg 0 (by omega), hg 1 (by omega),
      hg 2 (by omega), hg 3 (by omega)] at e
    by_contra hne
    simp [x, at', cell, h.base, hne] at e
    have e3 := e.trans (wProb_eq 4 0 1 1 0)
    rw [← ENNReal.ofReal_one, ENNReal.ofReal_eq_ofReal_iff (by norm_num) (wProb_pos 1)] at e3
    norm_num [wProb] at e3
  -- sampler: feature 1 uses the component of region 1
  let ctx : Ctx := ⟨1, ⟨[1, 2], fun i => at' 1 i⟩, ⟨[1], fun _ => 0⟩, true, false, 1, 1, 1, false⟩
  have hc : Choices M 2 1 ctx := by
    refine ⟨rfl, rfl, fun n _ o ho => ?_, rfl, fun n _ => ?_⟩
    · rw [h.leaves]; exact ho
    · rw [h.reps]; exact one_pos
  obtain ⟨res, a1, a2⟩ := h2 1 ctx one_pos hc
  obtain ⟨res', b1, b2⟩ := f2 1 ctx one_pos hc
  have e := a1.symm.trans b1
  have hd : M.leaf.base.draws ctx = .pure fun j => M.leaf.base.mode (at' 1 j) (at' 2 j) (at' 3 j) (at' 4 j) := by
    unfold BaseLeaf.draws; rw [if_pos (Or.inl rfl)]
  rw [hd] at e
  obtain ⟨t, t1, -, t3⟩ := a2 fun j => M.leaf.base.mode (at' 1 j) (at' 2 j) (at' 3 j) (at' 4 j)
  obtain ⟨t', t1', -, t3'⟩ := b2 fun j => M.leaf.base.mode (at' 1 j) (at' 2 j) (at' 3 j) (at' 4 j)
  have e' : (Rand.pure t : Rand (Tensor ℝ)) = .pure t' := by
    have : Rand.lift (res fun j => M.leaf.base.mode (at' 1 j) (at' 2 j) (at' 3 j) (at' 4 j)) =
      Rand.lift (res' fun j => M.leaf.base.mode (at' 1 j) (at' 2 j) (at' 3 j) (at' 4 j)) := e
    rw [t1, t1'] at this
    exact this
  cases e'
  have e2 := (t3 0 (by omega) 0 (by rw [h.channels]; omega) 1 (by rw [h.features]; omega)).symm.trans
    (t3' 0 (by omega) 0 (by rw [h.channels]; omega) 1 (by rw [h.features]; omega))
  simp only [ctx] at e2
  rw [hG, h.grpS (by norm_num) _ (by omega)] at e2
  rw [h.base] at e2
  have e3 : (wBase (4 : ℕ)).mode 0 1 0 0 = (wBase (4 : ℕ)).mode 0 1 1 0 := e2
  rw [wMode, wMode] at e3
  norm_num at e3

end Props
end Einet
