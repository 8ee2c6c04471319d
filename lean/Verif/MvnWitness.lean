import Verif.PropsMvnSample
import Verif.PropsConv
import Verif.Witness

/-!
# C54: a model whose samples do not follow the density
-/

open Classical MeasureTheory ProbabilityTheory Matrix
open scoped ENNReal
noncomputable section
namespace Einet
open Tensor

/-! ### Lemmas -/

theorem lintegral_exp_gaussian (a : ℝ) :
    ∫⁻ x, ENNReal.ofReal (Real.exp (a * x)) ∂gaussianReal 0 1 = ENNReal.ofReal (Real.exp (a ^ 2 / 2)) := by
  rw [← ofReal_integral_eq_lintegral_ofReal (integrable_exp_mul_gaussianReal a) (ae_of_all _ fun _ => (Real.exp_pos _).le)]
  congr 1
  have := congrFun (mgf_id_gaussianReal (μ := 0) (v := 1)) a
  simp only [mgf, id] at this
  rw [this]
  norm_num

/-- all means zero, all Cholesky factors `[[1, 0], [1, 1]]`. -/
def corrParams : MvnParams where
  means _ _ _ _ _ := 0
  L_diag_log _ _ _ _ _ := 0
  L_offdiag _ _ _ _ _ _ := 1

/-- expectations of exponentials of a block. -/
theorem corr_blkE {E : MvnEinet} (hK : E.leaf.cardinality = 2) (hθ : E.leaf.params = corrParams) (c b i r : Nat) (s t : ℝ) :
    E.blkE c b i r (fun v => ENNReal.ofReal (Real.exp (s * v ⟨0, by omega⟩ + t * v ⟨1, by omega⟩))) =
      ENNReal.ofReal (Real.exp (((s + t) ^ 2 + t ^ 2) / 2)) := by
  obtain ⟨⟨F, C, L, R, K, θ⟩, net⟩ := E
  dsimp only at hK hθ
  subst hK hθ
  have hA : MvnLeaf.scale_tril ⟨F, C, L, R, 2, corrParams⟩ [c, b, i, r] = !![1, 0; 1, 1] := by
    ext a b
    fin_cases a <;> fin_cases b <;> simp [MvnLeaf.scale_tril, corrParams]
  have hm : MvnLeaf.loc ⟨F, C, L, R, 2, corrParams⟩ [c, b, i, r] = 0 := rfl
  have hL := MvnLeaf.lowerPos ⟨F, C, L, R, 2, corrParams⟩ [c, b, i, r]
  unfold MvnEinet.blkE
  dsimp only
  have hmeas : Measurable fun v : Fin 2 → ℝ => ENNReal.ofReal (Real.exp (s * v 0 + t * v 1)) := by fun_prop
  refine (hL.E_noise _ hmeas).symm.trans ?_
  rw [hA, hm]
  simp only [drawVec, Rand.E_bind, Rand.E]
  have e : ∀ x y : ℝ, ENNReal.ofReal (Real.exp (s * ((0 : Fin 2 → ℝ) + !![1, 0; 1, 1] *ᵥ fun k : Fin 2 =>
      if (k : Nat) = 1 then y else if (k : Nat) = 0 then x else 0) 0 + t * ((0 : Fin 2 → ℝ) + !![1, 0; 1, 1] *ᵥ fun k : Fin 2 =>
      if (k : Nat) = 1 then y else if (k : Nat) = 0 then x else 0) 1)) =
      ENNReal.ofReal (Real.exp ((s + t) * x)) * ENNReal.ofReal (Real.exp (t * y)) := by
    intro x y
    rw [← ENNReal.ofReal_mul (Real.exp_pos _).le, ← Real.exp_add]
    congr 2
    simp [vecHead, vecTail]
    ring
  refine (lintegral_congr fun x => lintegral_congr fun y => e x y).trans ?_
  have e2 : ∀ x : ℝ, ∫⁻ y, ENNReal.ofReal (Real.exp ((s + t) * x)) * ENNReal.ofReal (Real.exp (t * y)) ∂gaussianReal 0 1 =
      ENNReal.ofReal (Real.exp ((s + t) * x)) * ENNReal.ofReal (Real.exp (t ^ 2 / 2)) := by
    intro x
    rw [lintegral_const_mul _ (by fun_prop), lintegral_exp_gaussian]
  simp only [e2]
  rw [lintegral_mul_const _ (by fun_prop), lintegral_exp_gaussian, ← ENNReal.ofReal_mul (Real.exp_pos _).le, ← Real.exp_add]
  congr 2
  ring

theorem buildMvn_layers {c : Config} {P : Params} {θ : MvnParams} {E : MvnEinet}
    (h : buildMvn c P θ = .ok E) (htd : c.structure' = "top-down") {K : ℤ} (hK : c.cardinality = some K) :
    ∃ O, topDownStructure (c.blocks K) { P with leaf := .normal (fun _ _ _ _ => 0) (fun _ _ _ _ => 0) } = .ok (E.net.layers, O) := by
  unfold buildMvn at h
  obtain ⟨_, _, h⟩ := bind_ok h
  rw [hK] at h
  simp only [Res.ok_bind] at h
  obtain ⟨_, _, h⟩ := bind_ok h
  rw [if_pos htd] at h
  obtain ⟨M, hM, h⟩ := bind_ok h
  simp only [Res.pure_eq, Except.ok.injEq] at h
  subst h
  unfold buildTopDown at hM
  obtain ⟨⟨l, O⟩, hl, hM⟩ := bind_ok hM
  obtain ⟨_, _, hM⟩ := bind_ok hM
  obtain ⟨_, _, hM⟩ := bind_ok hM
  simp only [Res.pure_eq, Except.ok.injEq] at hM
  subst hM
  exact ⟨O, hl⟩

/-- the model of the witness: three blocks of two features in two groups, two repetitions, two components. -/
abbrev repConfig : Config := Props.mvnConfig 6 1 2 1 1 "linsum2" "top-down"

abbrev repParams : Params := wParams (fun _ _ => 0) fun _ => 0

theorem rep_layers {E : MvnEinet} (h : buildMvn repConfig repParams corrParams = .ok E) :
    E.net.layers = [.linsum2 (mkSumL 2 2 1 2 LinsumLayer2.weightShape fun _ => 0)] := by
  obtain ⟨O, e⟩ := buildMvn_layers h rfl (K := 2) rfl
  unfold topDownStructure at e
  rw [if_neg (by norm_num [Props.mvnConfig, Config.blocks]), if_neg (by norm_num [Props.mvnConfig, Config.blocks])] at e
  obtain ⟨L, hL, e⟩ := bind_ok e
  simp only [Res.pure_eq, Except.ok.injEq, Prod.mk.injEq] at e
  rw [← e.1]
  rw [show (repConfig.blocks 2).depth.toNat = 0 + 1 from rfl] at hL
  simp only [topDownLayers, Res.ok_bind] at hL
  obtain ⟨l, hl, hL⟩ := bind_ok hL
  simp only [Res.pure_eq, Except.ok.injEq] at hL
  rw [← hL]
  unfold mkLayer at hl
  rw [if_neg (by simp [Props.mvnConfig, Config.blocks]), if_neg (by simp [Props.mvnConfig, Config.blocks]),
    if_pos (by simp [Props.mvnConfig, Config.blocks])] at hl
  obtain ⟨_, _, hl⟩ := bind_ok hl
  simp only [Res.pure_eq, Except.ok.injEq] at hl
  rw [← hl]
  simp [Props.mvnConfig, Config.blocks, wParams]

theorem rep_groups (r : Nat) : buildGroups (repConfig.blocks 2) { repParams with leaf := .normal (fun _ _ _ _ => 0) (fun _ _ _ _ => 0) } r 2 = 1 ∧
    buildGroups (repConfig.blocks 2) { repParams with leaf := .normal (fun _ _ _ _ => 0) (fun _ _ _ _ => 0) } r 0 = 0 := by
  show findGroup (groupSizes 3 2) ((argsort (List.range 3)).getD 2 0) = 1 ∧
    findGroup (groupSizes 3 2) ((argsort (List.range 3)).getD 0 0) = 0
  rw [argsort_range 3 2 (by norm_num), argsort_range 3 0 (by norm_num)]
  exact ⟨by decide, by decide⟩

theorem prod_fin_two {n : Nat} (h : n = 2) (G : Fin n → ℝ≥0∞) : ∏ k, G k = G ⟨0, by omega⟩ * G ⟨1, by omega⟩ := by
  subst h
  exact Fin.prod_univ_two G

/-- the test function: exponentials of features 2 and 3. -/
def expTest (f : Nat) (x : ℝ) : ℝ≥0∞ := if f = 2 ∨ f = 3 then ENNReal.ofReal (Real.exp x) else 1

theorem expTest_measurable (f : Nat) : Measurable (expTest f) := by
  unfold expTest
  split_ifs
  · fun_prop
  · exact measurable_const

theorem expTest_prod (x : Nat → ℝ) : ∏ f ∈ Finset.range 6, expTest f (x f) = ENNReal.ofReal (Real.exp (x 2 + x 3)) := by
  simp [Finset.prod_range_succ, expTest, Real.exp_add, ENNReal.ofReal_mul (Real.exp_pos _).le]

/-- expectation of the test function of block `b` if the features are kept or not. -/
theorem corr_test {E : MvnEinet} (hK : E.leaf.cardinality = 2) (hθ : E.leaf.params = corrParams) (c b i r : Nat)
    (u : Nat → Prop) (w : Nat → ℝ) (hw : ∀ f, w f = if u f then 1 else 0) :
    E.blkE c b i r (fun v => ∏ k : Fin E.leaf.cardinality,
        if u (b * E.leaf.cardinality + k) then expTest (b * E.leaf.cardinality + k) (v k) else 1) =
      if b = 1 then ENNReal.ofReal (Real.exp (((w 2 + w 3) ^ 2 + w 3 ^ 2) / 2)) else 1 := by
  split_ifs with hb
  · subst hb
    rw [← corr_blkE hK hθ c 1 i r]
    congr 1
    funext v
    rw [prod_fin_two hK, hw, hw]
    simp only [hK, one_mul, add_zero, expTest]
    norm_num
    split_ifs <;> simp [Real.exp_add, ENNReal.ofReal_mul (Real.exp_pos _).le]
  · refine Eq.trans ?_ (E.blkE_one c b i r)
    congr 1
    funext v
    refine Finset.prod_eq_one fun k _ => ?_
    have : (k : Nat) < 2 := by rw [← hK]; exact k.2
    have hne : ¬ (b * E.leaf.cardinality + k = 2 ∨ b * E.leaf.cardinality + k = 3) := by
      rw [show b * E.leaf.cardinality = b * 2 by rw [hK]]
      omega
    have : expTest (b * E.leaf.cardinality + k) (v k) = 1 := if_neg hne
    rw [this, ite_self]

namespace Props

/-- **C54 is false** of models with several components and several groups of blocks (more than one repetition): features of
one block are taken from different components, which loses their correlation.  For some model with one class, one channel and
six features in three blocks, the expectation of `exp(x₂ + x₃)` (both features are in the second block) over the samples is
smaller than over the density. -/
theorem C54_refuted_repeat : ∃ (c : Config) (P : Params) (θ : MvnParams) (E : MvnEinet), P.Random ∧
    buildMvn c P θ = .ok E ∧ c.structure' = "top-down" ∧ c.cardinality = some 2 ∧ c.num_repetitions = 2 ∧
    E.leaf.num_features = 6 ∧ E.leaf.num_channels = 1 ∧ E.net.num_classes = 1 ∧
    (E.sample { num_samples := some 1 }).E
        (fun s => ENNReal.ofReal (Real.exp ((s.get [0, 0, 2]).val + (s.get [0, 0, 3]).val))) <
      ∫⁻ ω : Fin E.leaf.num_channels → Fin E.leaf.num_features → ℝ,
        ENNReal.ofReal (Real.exp ((Pt.data ω 0 2).val + (Pt.data ω 0 3).val)) * E.density none 0 (Pt.data ω) := by
  have hP : repParams.Random := wParams_random _ _
  obtain ⟨E, h⟩ := mvnConfig_topDown (F := 6) (C := 1) (R := 2) (k := 1) (d := 1) (by norm_num) (by norm_num) (by norm_num)
    (by norm_num) (by norm_num) (layer := "linsum2") (by simp) (by norm_num [Int.fdiv]) repParams corrParams
  obtain ⟨K, hK, _, hl, hcl, _⟩ := buildMvn_spec hP h rfl
  cases hK
  obtain ⟨hs, ho, hmir⟩ := buildMvn_samplable hP h rfl (K := 2) rfl (by norm_num [mvnConfig]) (by norm_num [mvnConfig])
  have hF : E.leaf.num_features = 6 := by rw [hl]; rfl
  have hC : E.leaf.num_channels = 1 := by rw [hl]; rfl
  have hI : E.leaf.num_leaves = 2 := by rw [hl]; rfl
  have hcard : E.leaf.cardinality = 2 := by rw [hl]; rfl
  have hθ : E.leaf.params = corrParams := by rw [hl]
  have hout : E.leaf.out_features = 3 := by unfold MvnLeaf.out_features; rw [hF, hcard]
  have hcl1 : E.net.num_classes = 1 := hcl
  have hk : 0 < E.net.num_classes := by rw [hcl1]; exact one_pos
  have hreps : E.net.num_repetitions = 2 := by rw [hs.wf.reps, hl]; rfl
  have ho2 : E.net.numOut = 2 := ho
  have hgr : ∀ r, r < 2 → E.net.grpS (buildGroups (repConfig.blocks 2)
      { repParams with leaf := .normal (fun _ _ _ _ => 0) (fun _ _ _ _ => 0) }) r 2 = 1 ∧
      E.net.grpS (buildGroups (repConfig.blocks 2)
      { repParams with leaf := .normal (fun _ _ _ _ => 0) (fun _ _ _ _ => 0) }) r 0 = 0 := by
    intro r _
    obtain ⟨L, hL⟩ := hs.fact
    unfold Model.grpS
    rw [hL]
    exact rep_groups r
  refine ⟨_, _, _, E, hP, h, rfl, rfl, rfl, hF, hC, hcl1, ?_⟩
  have hden : ∫⁻ ω : Fin E.leaf.num_channels → Fin E.leaf.num_features → ℝ,
        ENNReal.ofReal (Real.exp ((Pt.data ω 0 2).val + (Pt.data ω 0 3).val)) * E.density none 0 (Pt.data ω) =
      ENNReal.ofReal (Real.exp (5 / 2)) := by
    have e := MvnEinet.density_test hs.wf hs.pad hk (t := fun _ => expTest) fun _ f => expTest_measurable f
    have e1 : ∀ ω : Pt E.leaf.num_channels E.leaf.num_features,
        (∏ f : Fin E.leaf.num_features, ∏ c : Fin E.leaf.num_channels, expTest f (ω c f)) =
          ENNReal.ofReal (Real.exp ((Pt.data ω 0 2).val + (Pt.data ω 0 3).val)) := by
      intro ω
      rw [← expTest_prod fun f => (ω.data 0 f).val]
      have : ∀ f : Fin E.leaf.num_features, ∏ c : Fin E.leaf.num_channels, expTest f (ω c f) =
          expTest f (ω.data 0 f).val := by
        intro f
        rw [ω.data_eq (by omega) f.2]
        have hc0 : ∀ c : Fin E.leaf.num_channels, c = ⟨0, by omega⟩ := fun c => by ext; have := c.2; omega
        rw [Finset.prod_congr rfl fun c _ => congrArg (fun c => expTest f (ω c f)) (hc0 c), Finset.prod_const,
          Finset.card_univ, Fintype.card_fin]
        exact (congrArg (fun n => _ ^ n) hC).trans (pow_one _)
      rw [Finset.prod_congr rfl fun f _ => this f, ← hF]
      exact (Finset.prod_range fun f => expTest f (ω.data 0 f).val).symm
    simp only [e1] at e
    rw [← e]
    have e2 := Model.outP_mul hs.wf.net (one_ne_zero (α := ℝ)) (fun _ b => if b = 1 then ENNReal.ofReal (Real.exp (5 / 2)) else 1)
      (fun _ _ _ _ => 1) hk
    simp only [mul_one] at e2
    rw [Model.outP_one hs.wf.net hk, mul_one] at e2
    refine Eq.trans ?_ (e2.trans ?_)
    · congr 1
      funext c b i r
      have := corr_test hcard hθ c b i r (fun _ => True) (fun _ => 1) (by simp)
      simp only [if_true] at this
      refine Eq.trans this ?_
      norm_num
    · rw [hs.wf.features, hs.wf.channels, hout, hC]
      simp
  have hsam : (E.sample { num_samples := some 1 }).E
        (fun s => ENNReal.ofReal (Real.exp ((s.get [0, 0, 2]).val + (s.get [0, 0, 3]).val))) =
      (E.net.corePath { num_samples := some 1 } ⟨[], none⟩).E fun ctx =>
        if ctx.indices_out.get [0, 0] = ctx.indices_out.get [0, 1] then ENNReal.ofReal (Real.exp (5 / 2))
        else ENNReal.ofReal (Real.exp (3 / 2)) := by
    have e := MvnEinet.sample_path_E hs (a := { num_samples := some 1 }) rfl one_pos rfl rfl one_ne_zero trivial
      (t := fun _ _ => expTest) fun _ _ f => expTest_measurable f
    refine Eq.trans ?_ (e.trans ?_)
    · congr 1
      funext s
      rw [← expTest_prod fun f => (s.get [0, 0, f]).val]
      unfold prod3
      rw [hF, hC]
      show _ = ∏ n ∈ Finset.range 1, _
      simp only [Finset.prod_range_one]
    · refine Rand.E_congr (Model.corePath_All hs.wf.net (a := { num_samples := some 1 }) one_pos one_ne_zero trivial (Model.evM_none E.net _)
        (Model.finZero E.net _)) fun ctx ⟨idx, rr, hctx, hce⟩ => ?_
      have hrr : ctx.indices_repetition.get [0] = rr 0 := Is.get hctx.ir (i := [0]) ⟨one_pos, by simp⟩
      have hr2 : rr 0 < 2 := by rw [← hreps]; exact hctx.ir_lt 0 one_pos
      have hi : ∀ o, o < 2 → ctx.indices_out.get [0, o] < 2 := by
        intro o ho'
        rw [hctx.io.get one_pos (by omega)]
        have := hctx.io_lt 0 one_pos o (by omega)
        rwa [hs.wf.leaves, hI] at this
      unfold prod3
      rw [hout, hC, hI]
      show ∏ n ∈ Finset.range 1, _ = _
      simp only [Finset.prod_range_one]
      rw [hrr]
      obtain ⟨g1, g0⟩ := hgr (rr 0) hr2
      have key : ∀ b i, _ := fun b i => corr_test hcard hθ 0 b i (rr 0) (fun f => ctx.indices_out.get [0, E.net.grpS (buildGroups (repConfig.blocks 2)
        { repParams with leaf := .normal (fun _ _ _ _ => 0) (fun _ _ _ _ => 0) }) (rr 0) (f % 3)] = i) (fun f =>
        if ctx.indices_out.get [0, E.net.grpS (buildGroups (repConfig.blocks 2)
        { repParams with leaf := .normal (fun _ _ _ _ => 0) (fun _ _ _ _ => 0) }) (rr 0) (f % 3)] = i then 1 else 0)
        fun f => by congr
      refine (Finset.prod_congr rfl fun b _ => Finset.prod_congr rfl fun i _ => Eq.trans ?_ (key b i)).trans ?_
      · congr 1
        funext v
        refine Finset.prod_congr rfl fun k _ => ?_
        congr
      simp only [Finset.prod_range_succ, Finset.prod_range_zero, one_mul]
      norm_num [g1, g0]
      have h0 := hi 0 (by norm_num)
      have h1 := hi 1 (by norm_num)
      generalize ctx.indices_out.get [0, 0] = p at *
      generalize ctx.indices_out.get [0, 1] = q at *
      have hp : p = 0 ∨ p = 1 := by omega
      have hq : q = 0 ∨ q = 1 := by omega
      rcases hp with rfl | rfl <;> rcases hq with rfl | rfl <;> norm_num
      · rw [← ENNReal.ofReal_mul (Real.exp_pos _).le, ← Real.exp_add]
        norm_num
      · rw [← ENNReal.ofReal_mul (Real.exp_pos _).le, ← Real.exp_add]
        norm_num
  have hcore := Model.corePath_E hs.wf.net (a := { num_samples := some 1 }) one_pos rfl one_ne_zero trivial
    (Model.evM_none E.net _) (Model.finZero E.net _)
  have hcw : E.net.classW 1 none 0 0 = 1 := by
    unfold Model.classW
    rw [if_neg (by omega), if_pos rfl]
  have hcore' : ∀ u : PRow, (E.net.corePath { num_samples := some 1 } ⟨[], none⟩).E (fun ctx =>
      u 0 (ctx.indices_out.get [0, 0]) (ctx.indices_repetition.get [0]) *
        u 1 (ctx.indices_out.get [0, 1]) (ctx.indices_repetition.get [0])) = E.net.topP 1 u 0 := by
    intro u
    have e := hcore fun _ => u
    rw [hcl1, ho2] at e
    refine Eq.trans ?_ (e.trans ?_)
    · congr 1
      funext ctx
      show _ = ∏ n ∈ Finset.range 1, _
      simp [Finset.prod_range_succ]
    · show ∏ n ∈ Finset.range 1, _ = _
      simp only [Finset.prod_range_one, Finset.sum_range_one]
      rw [hcw, one_mul, Model.pathVal_uncond hs.wf.net one_ne_zero hk]
  have hmix : ∀ u : PRow, E.net.topP 1 u 0 = ∑ r ∈ Finset.range 2,
      toP (E.net.mixing.lwMix 1 0 0 r) * denL 1 E.net.layers u 0 0 r := by
    intro u
    unfold Model.topP
    rw [if_pos (by omega), hreps]
  have hone : E.net.topP 1 (fun _ _ _ => 1) 0 = 1 := by
    refine Eq.trans ?_ (Model.outP_one hs.wf.net hk)
    rw [Model.outP_eq]
    refine Model.topP_congr hs.wf.net hk fun o _ i _ r _ => ?_
    unfold Model.regionP
    simp
  have htot : (E.net.corePath { num_samples := some 1 } ⟨[], none⟩).E (fun _ => 1) = 1 := by
    have := hcore' fun _ _ _ => 1
    rw [hone] at this
    simpa using this
  have hpos : (E.net.corePath { num_samples := some 1 } ⟨[], none⟩).E (fun ctx =>
      if ctx.indices_out.get [0, 0] = 0 ∧ ctx.indices_out.get [0, 1] = 1 then 1 else 0) ≠ 0 := by
    have e := hcore' fun o i _ => if i = o then 1 else 0
    have e1 : (fun ctx : Ctx => (if ctx.indices_out.get [0, 0] = 0 then (1 : ℝ≥0∞) else 0) *
        if ctx.indices_out.get [0, 1] = 1 then 1 else 0) = fun ctx =>
        if ctx.indices_out.get [0, 0] = 0 ∧ ctx.indices_out.get [0, 1] = 1 then 1 else 0 := by
      funext ctx
      by_cases h1 : ctx.indices_out.get [0, 0] = 0 <;> by_cases h2 : ctx.indices_out.get [0, 1] = 1 <;> simp [h1, h2]
    rw [← e1, e, hmix]
    have hd : ∀ r, denL 1 E.net.layers (fun o i _ => if i = o then 1 else 0) 0 0 r ≠ 0 := by
      intro r
      rw [rep_layers h]
      simp only [denL, Layer.den, rightP]
      rw [if_pos (by show 2 * 0 + 1 < 2; norm_num), show (mkSumL 2 2 1 2 LinsumLayer2.weightShape fun _ => 0).num_sums_in = 2 from rfl]
      simp only [Finset.sum_range_succ, Finset.sum_range_zero]
      rw [Wit.weight (by norm_num), Wit.weight (by norm_num), Wit.weight (by norm_num), Wit.weight (by norm_num)]
      norm_num
    intro h0
    have h1 := hone
    rw [hmix] at h1
    rw [Finset.sum_eq_zero_iff] at h0
    rw [Finset.sum_eq_zero fun r hr => ?_] at h1
    · exact zero_ne_one h1
    · rw [(mul_eq_zero.1 (h0 r hr)).resolve_right (hd r), zero_mul]
  rw [hden, hsam]
  set A := ENNReal.ofReal (Real.exp (5 / 2))
  set B := ENNReal.ofReal (Real.exp (3 / 2))
  have hAB : B < A := by
    refine (ENNReal.ofReal_lt_ofReal_iff (Real.exp_pos _)).2 (Real.exp_lt_exp.2 (by norm_num))
  have hle := (Rand.Disc.E_add (Model.disc_corePath E.net { num_samples := some 1 } ⟨[], none⟩) (fun ctx =>
        if ctx.indices_out.get [0, 0] = ctx.indices_out.get [0, 1] then A else B) (fun ctx => (A - B) *
        if ctx.indices_out.get [0, 0] = 0 ∧ ctx.indices_out.get [0, 1] = 1 then 1 else 0)).symm.trans_le
    (Rand.E_mono' (g := fun _ => A * 1) fun ctx => ?_)
  · rw [Rand.E_const_mul _ _ (by simp [A]), Rand.E_const_mul _ _ ENNReal.ofReal_ne_top, htot, mul_one] at hle
    refine lt_of_lt_of_le (ENNReal.lt_add_right ?_ ?_) hle
    · exact ne_top_of_le_ne_top ENNReal.ofReal_ne_top (le_trans le_self_add hle)
    · exact mul_ne_zero (tsub_pos_of_lt hAB).ne' hpos
  · rw [mul_one]
    split_ifs with h1 h2 h2
    · omega
    · simp
    · rw [mul_one, add_tsub_cancel_of_le hAB.le]
    · simpa using hAB.le

end Props
end Einet
