import Verif.PropsMpe
import Verif.Modes
import Verif.PropsSampleNeg

/-!
# Maximality of the most probable explanation: C20 (class), C21, C31
-/

open Classical MeasureTheory
open scoped ENNReal
noncomputable section
namespace Einet
namespace Props
open Tensor Einet

/-! ### Lemmas -/

theorem layer_den_mono (l : Layer) {T : ℝ} {u v : PRow} (h : ∀ d k r, u d k r ≤ v d k r) (d k r : Nat) :
    l.den T u d k r ≤ l.den T v d k r := by
  have hr : ∀ (D : Nat) {x y : PRow}, (∀ d k r, x d k r ≤ y d k r) → ∀ d k r, rightP D x d k r ≤ rightP D y d k r := by
    intro D x y hxy d k r
    unfold rightP
    split_ifs
    · exact hxy _ _ _
    · exact le_rfl
  have hs : ∀ (L : SumL) d k r, ∑ j ∈ Finset.range L.num_sums_in, toP (L.lw T d j k r) * u d j r ≤
      ∑ j ∈ Finset.range L.num_sums_in, toP (L.lw T d j k r) * v d j r := fun L d k r =>
    Finset.sum_le_sum fun j _ => mul_le_mul_right (h _ _ _) _
  cases l with
  | sum L => exact hs L d k r
  | linsum L => exact Finset.sum_le_sum fun j _ => mul_le_mul_right (mul_le_mul' (h _ _ _) (hr _ h _ _ _)) _
  | linsum2 L => exact mul_le_mul' (hs L _ _ _) (hr _ (fun d k r => hs L d k r) _ _ _)
  | einsum L => exact Finset.sum_le_sum fun j _ => mul_le_mul_right (mul_le_mul' (h _ _ _) (h _ _ _)) _
  | rootProduct F R => exact Finset.prod_le_prod' fun j _ => h _ _ _

theorem denL_mono (ls : List Layer) {T : ℝ} {u v : PRow} (h : ∀ d k r, u d k r ≤ v d k r) (d k r : Nat) :
    denL T ls u d k r ≤ denL T ls v d k r := by
  induction ls generalizing u v with
  | nil => exact h d k r
  | cons l ls ih => exact ih fun d k r => layer_den_mono l h d k r

theorem topP_mono (M : Model) {T : ℝ} {u v : PRow} (h : ∀ d k r, u d k r ≤ v d k r) (k : Nat) :
    M.topP T u k ≤ M.topP T v k := by
  unfold Model.topP
  split_ifs
  · exact Finset.sum_le_sum fun r _ => mul_le_mul_right (denL_mono _ h _ _ _) _
  · exact denL_mono _ h _ _ _

/-- the density of a row in terms of the densities of the leaf regions. -/
theorem density_val {M : Model} {g : Nat → Nat → Nat} (h : M.WF g) (hp : M.leaf.base.Proper) {X : Data}
    (hX : M.leaf.base.Observed X) {k : Nat} (hk : k < M.num_classes) :
    M.density none k X = M.topP 1 (regionVal M (M.grpF g) X) k := by
  have hC := h.front.channels; have hF := h.front.features; have hI := h.front.leaves; have hR := h.front.reps
  rw [Model.density_eq h hp hX (ms := none) rfl hk]
  rw [(Model.outRow_den h (b := true) (fun _ => rfl) (sc := none) (X := X) (fun c hc f hf i hi r hr =>
    (Model.entry_none hp (by omega) (by omega) (by omega) (by omega) hX).1) hk).2, Model.outP_eq]
  refine Model.topP_congr h hk fun o _ i hi r hr => ?_
  unfold Model.regionP regionVal
  refine Finset.prod_congr rfl fun f hf => ?_
  congr 1
  refine Finset.prod_congr rfl fun c hc => ?_
  simp only [Finset.mem_range] at hf hc
  refine (Model.entry_none hp (by omega) (by omega) (by omega) (by omega) hX).2.trans ?_
  unfold cell
  rcases hX c (by omega) f (by omega) with e | ⟨v, e, hv⟩
  · simp only [e, if_true]
    exact hp.integral c (by omega) f (by omega) i (by omega) r (by omega)
  · simp only [e, reduceCtorEq, if_false]
    exact lintegral_dirac' _ (hp.measurable c f i r)

theorem cell_mode {M : Model} (hm : M.leaf.base.ModeOK) {x : ℝ} {f : Nat} (hx : M.leaf.base.valid f (.fin x)) (c i r : Nat) :
    cell M (.fin x) c f i r ≤ cell M (.fin (M.leaf.base.mode c f i r)) c f i r := by
  obtain ⟨a, b, h1, h2, hab⟩ := (hm c f i r).2 x hx
  unfold cell
  simp only [reduceCtorEq, if_false, h1, h2, toP_fin]
  exact ENNReal.ofReal_le_ofReal (Real.exp_le_exp.2 hab)

/-! ### C31 -/

/-- no value of the support of the leaf has a larger density than `y` under component `i` of repetition `r`. -/
def MaxAt (M : Model) (s : LeafSpec) (c f i r : Nat) (y : ℝ) : Prop :=
  s.InSupport y ∧ ∀ x, s.InSupport x → cell M (.fin x) c f i r ≤ cell M (.fin y) c f i r

/-- **C31**: the value MPE takes for a leaf component is in the support of the leaf and no value of the support has a larger
density (probability) under that component.  For all leaf types, parameters and components. -/
theorem C31_mode (c : Config) (P : Params) (hP : P.Random) (hg : P.leaf.Good) (M : Model) (h : build c P = .ok M)
    (d f i r : Nat) : MaxAt M P.leaf d f i r (M.leaf.base.mode d f i r) := by
  have hb := build_leaf hP h
  have hm := LeafSpec.mode_ok hg hb
  exact ⟨(LeafSpec.valid_iff hb _).1 (hm d f i r).1, fun x hx => cell_mode hm ((LeafSpec.valid_iff hb _).2 hx) _ _ _⟩

/-- **C31**, as seen in the result of MPE with or without evidence: every entry that was not given maximises the density of
some component of the leaf of its channel and feature. -/
theorem C31_mpe (c : Config) (P : Params) (hP : P.Random) (hg : P.leaf.Good) (hs : P.leaf.CanSample) (M : Model)
    (h : build c P = .ok M) (a : SampleArgs) (ha : a.is_mpe = true) (hN : 0 < a.count) (hT : a.temperature_sums ≠ 0)
    (hc : a.evidence = none ∧ ClassArg M a.count a.class_index ∨
      ∃ x, a.evidence = some x ∧ Evidence M P.leaf a.count a.marginalized_scopes x ∧ a.num_samples = none ∧
        a.class_index = none) :
    ∃ s, M.sample a = .pure s ∧ ∀ n, n < a.count → ∀ d, d < M.num_channels → ∀ f, f < M.num_features →
      (∀ x, a.evidence = some x → Hole M.num_features a.marginalized_scopes x n d f) →
      ∃ i r y, i < M.num_leaves ∧ r < M.num_repetitions ∧ s.get [n, d, f] = .fin y ∧ MaxAt M P.leaf d f i r y := by
  rcases hc with ⟨hev, hc⟩ | ⟨x, hev, hx, hns, hci⟩
  · obtain ⟨H, s, _, hH, h1, _, h2⟩ := C20_greedy c P hP hg hs M h a ha hev hN hT hc
    refine ⟨s, h1, fun n hn d hd f hf _ => ?_⟩
    obtain ⟨k, r, idx, hg', hi, h3⟩ := h2 n hn
    exact ⟨_, r, _, hi _ (hH r hg'.rep.1 f hf), hg'.rep.1, h3 d hd f hf, C31_mode c P hP hg M h _ _ _ _⟩
  · obtain ⟨G, H, s, _, _, hH, h1, _, h2⟩ := C20_greedy_evidence_partial c P hP hg hs M h _ hN x a ha hx hev hns hci hT
    refine ⟨s, h1, fun n hn d hd f hf hh => ?_⟩
    obtain ⟨k, r, idx, hg', hi, h3⟩ := h2 n hn
    have e := h3 d hd f hf
    rw [if_pos (hh x hev)] at e
    exact ⟨_, r, _, hi _ (hH r hg'.rep.1 f hf).2, hg'.rep.1, e, C31_mode c P hP hg M h _ _ _ _⟩

example : ∀ l ∈ [exLeaf, .binomial 7 fun _ _ i _ => i, .categorical 4 fun _ _ i _ k => i * k, .bernoulli fun _ f _ _ => f],
    l.Good ∧ ∃ M, build (exConfig "linsum" "top-down") (exParams l) = .ok M := by
  intro l hl
  simp only [List.mem_cons, List.not_mem_nil, or_false] at hl
  rcases hl with rfl | rfl | rfl | rfl
  all_goals
    refine ⟨by simp [LeafSpec.Good, exLeaf], exConfig_builds (Or.inl ⟨Or.inl rfl, rfl⟩) ?_⟩
    unfold LeafSpec.build
    simp [exLeaf]
  exact ⟨_, (checkInt_iff 7 1 one_ne_zero _ _).2 ⟨by norm_num, rfl⟩⟩

/-! ### C21 -/

/-- `Y` completes the row `X`: all entries are numbers in the support, and those given in `X` are unchanged. -/
def Completes (s : LeafSpec) (C F : Nat) (X Y : Data) : Prop :=
  ∀ c, c < C → ∀ f, f < F → (X c f ≠ .nan → Y c f = X c f) ∧ ∃ y, Y c f = .fin y ∧ s.InSupport y

/-- all components of a leaf have the same most probable values, as is the case for a single component and for normal leaves
with equal means. -/
def SameModes (M : Model) (s : LeafSpec) : Prop := ∀ c, c < M.num_channels → ∀ f, f < M.num_features →
  ∀ i, i < M.num_leaves → ∀ r, r < M.num_repetitions → ∀ i', i' < M.num_leaves → ∀ r', r' < M.num_repetitions →
    ∀ y, MaxAt M s c f i r y → MaxAt M s c f i' r' y

theorem density_le {c : Config} {P : Params} (hP : P.Random) (hg : P.leaf.Good) {M : Model} (h : build c P = .ok M)
    {X Y : Data} (hX : P.leaf.Data M.num_channels M.num_features X) (hY : P.leaf.Data M.num_channels M.num_features Y)
    (hXY : ∀ d, d < M.num_channels → ∀ f, f < M.num_features → ∀ i, i < M.num_leaves → ∀ r, r < M.num_repetitions →
      cell M (X d f) d f i r ≤ cell M (Y d f) d f i r) {k : Nat} (hk : k < M.num_classes) :
    M.density none k X ≤ M.density none k Y := by
  obtain ⟨-, hw, hp, _⟩ := build_WF hP h
  have oX := (build_observed hP h).2 hX
  have oY := (build_observed hP h).2 hY
  rw [density_val hw (hp hg) oX hk, density_val hw (hp hg) oY hk]
  set G := M.grpF (buildGroups c P)
  rw [Model.topP_congr hw (v := fun o i r => if i < M.num_leaves ∧ r < M.num_repetitions then regionVal M G X o i r else 0) hk
    fun o _ i hi r hr => by rw [if_pos ⟨hi, hr⟩]]
  rw [Model.topP_congr hw (v := fun o i r => if i < M.num_leaves ∧ r < M.num_repetitions then regionVal M G Y o i r else 0)
    (u := regionVal M G Y) hk fun o _ i hi r hr => by rw [if_pos ⟨hi, hr⟩]]
  refine topP_mono M (fun o i r => ?_) k
  split_ifs with h0
  · unfold regionVal
    refine Finset.prod_le_prod' fun f hf => ?_
    split_ifs
    · exact Finset.prod_le_prod' fun d hd => hXY d (by simpa using hd) f (by simpa using hf) i h0.1 r h0.2
    · exact le_rfl
  · exact le_rfl

/-- **C21** (part): if all components of a leaf have the same most probable values, the rows returned by MPE maximise the
density `exp(model(x)[k])` of every class `k` among all completions of the evidence. Missing: the general case, for which the
claim is false (`C21_refuted`). -/
theorem C21_same_modes_partial (c : Config) (P : Params) (hP : P.Random) (hg : P.leaf.Good) (hs : P.leaf.CanSample)
    (M : Model) (h : build c P = .ok M) (hsame : SameModes M P.leaf) (N : Nat) (hN : 0 < N) (x : Tensor Fl) (a : SampleArgs)
    (ha : a.is_mpe = true) (hx : Evidence M P.leaf N a.marginalized_scopes x) (hev : a.evidence = some x)
    (hns : a.num_samples = none) (hci : a.class_index = none) (hT : a.temperature_sums ≠ 0) :
    ∃ s, M.sample a = .pure s ∧ ∀ n, n < N →
      Completes P.leaf M.num_channels M.num_features (known M.num_features a.marginalized_scopes x n)
        (fun d f => s.get [n, d, f]) ∧
      ∀ Y, Completes P.leaf M.num_channels M.num_features (known M.num_features a.marginalized_scopes x n) Y →
        ∀ k, k < M.num_classes → M.density none k Y ≤ M.density none k fun d f => s.get [n, d, f] := by
  obtain ⟨G, H, s, _, _, hH, h1, _, h2⟩ := C20_greedy_evidence_partial c P hP hg hs M h N hN x a ha hx hev hns hci hT
  refine ⟨s, h1, fun n hn => ?_⟩
  obtain ⟨k, r, idx, hg', hi, h3⟩ := h2 n hn
  have hdata := hx.batch.2 n hn
  have hcomp : Completes P.leaf M.num_channels M.num_features (known M.num_features a.marginalized_scopes x n)
      (fun d f => s.get [n, d, f]) := by
    intro d hd f hf
    dsimp only
    rw [h3 d hd f hf]
    unfold known
    by_cases hh : Hole M.num_features a.marginalized_scopes x n d f
    · rw [if_pos hh, if_pos hh]
      exact ⟨fun e => absurd rfl e, _, rfl, (C31_mode c P hP hg M h _ _ _ _).1⟩
    · rw [if_neg hh, if_neg hh]
      refine ⟨fun _ => rfl, ?_⟩
      rcases hdata d hd f hf with e | ⟨y, e, hy⟩
      · exact absurd (hx.nan n hn d hd f hf e) hh
      · exact ⟨y, e, hy⟩
  refine ⟨hcomp, fun Y hY k' hk' => density_le hP hg h (fun d hd f hf => Or.inr (hY d hd f hf).2)
    (fun d hd f hf => Or.inr (hcomp d hd f hf).2) (fun d hd f hf i hi' r' hr' => ?_) hk'⟩
  obtain ⟨hYe, y, hy, hys⟩ := hY d hd f hf
  rw [h3 d hd f hf]
  by_cases hh : Hole M.num_features a.marginalized_scopes x n d f
  · rw [if_pos hh, hy]
    exact (hsame d hd f hf _ (hi _ (hH r hg'.rep.1 f hf).2) _ hg'.rep.1 i hi' r' hr' _ (C31_mode c P hP hg M h _ _ _ _)).2 y hys
  · rw [if_neg hh]
    have e1 : known M.num_features a.marginalized_scopes x n d f = x.get [n, d, f] := by unfold known; rw [if_neg hh]
    have e2 : x.get [n, d, f] ≠ .nan := fun e => hh (hx.nan n hn d hd f hf e)
    rw [hYe (by rw [e1]; exact e2), e1]

/-- the hypothesis of `C21_same_modes_partial` holds if there is a single component, and for normal leaves whose means are the
same for all components, whatever the variances. -/
theorem sameModes {c : Config} {P : Params} (hP : P.Random) {M : Model} (h : build c P = .ok M)
    (hl : M.num_leaves = 1 ∧ M.num_repetitions = 1 ∨
      ∃ (m : Nat → Nat → ℝ) (lv : Par), P.leaf = .normal (fun d f _ _ => m d f) lv) : SameModes M P.leaf := by
  intro d _ f _ i hi r hr i' hi' r' hr' y hy
  rcases hl with ⟨h1, h2⟩ | ⟨m, lv, e⟩
  · obtain ⟨rfl, rfl, rfl, rfl⟩ : i = 0 ∧ i' = 0 ∧ r = 0 ∧ r' = 0 := by omega
    exact hy
  · have hg : P.leaf.Good := by rw [e]; trivial
    have hb := build_leaf hP h
    rw [e] at hb
    unfold LeafSpec.build at hb
    obtain ⟨_, _, hb⟩ := bind_ok hb
    simp only [Res.pure_eq, Except.ok.injEq] at hb
    have hmode : ∀ i r, M.leaf.base.mode d f i r = m d f := fun i r => by rw [← hb]; rfl
    have hym : y = m d f := by
      have h1 := hy.2 (m d f) (by rw [e]; trivial)
      unfold cell at h1
      simp only [reduceCtorEq, if_false, ← hb] at h1
      simp only [normalLeaf, gaussLeaf, normalLogProb, toP_fin] at h1
      rw [ENNReal.ofReal_le_ofReal_iff (Real.exp_pos _).le, Real.exp_le_exp] at h1
      have hs : 0 < 2 * Real.exp (1 / 2 * lv d f i r) ^ 2 := by positivity
      by_contra hne
      have h2 : 0 < (y - m d f) ^ 2 := by have := sub_ne_zero.2 hne; positivity
      have h3 := div_pos h2 hs
      simp only [sub_self, neg_div] at h1
      simp only [ne_eq, OfNat.ofNat_ne_zero, not_false_eq_true, zero_pow, zero_div, neg_zero] at h1
      linarith
    rw [hym, ← hmode i' r']
    exact C31_mode c P hP hg M h _ _ _ _

example : ∃ M, build (exConfig "einsum" "top-down") (exParams (.normal (fun d f _ _ => d + f) fun _ _ i r => i - r)) = .ok M ∧
    SameModes M (exParams (.normal (fun d f _ _ => d + f) fun _ _ i r => i - r)).leaf ∧
    Evidence M (exParams (.normal (fun d f _ _ => d + f) fun _ _ i r => i - r)).leaf 3 none exBatch ∧
    Completes (exParams (.normal (fun d f _ _ => d + f) fun _ _ i r => i - r)).leaf 2 5 (known 5 none exBatch 2)
      fun d f => .fin (d * f) := by
  obtain ⟨M, h⟩ := exConfig_builds (l := "einsum") (s := "top-down")
    (leaf := .normal (fun d f _ _ => d + f) fun _ _ i r => i - r) (Or.inl ⟨Or.inr (Or.inr rfl), rfl⟩)
    ⟨_, by simp [LeafSpec.build]; rfl⟩
  have hz := (build_WF (exParams_random _) h).1
  have e1 : M.num_channels = 2 := by rw [hz.channels]; rfl
  have e2 : M.num_features = 5 := by rw [hz.features]; rfl
  refine ⟨M, h, sameModes (exParams_random _) h (Or.inr ⟨fun d f => d + f, _, rfl⟩),
    ⟨by rw [e1, e2]; exact exBatch_batch, by simp, fun n _ c _ f _ e => e⟩, fun d hd f hf => ⟨fun hh => ?_, _, rfl, trivial⟩⟩
  exact absurd (by simp [known, Hole, exBatch, at']) hh

/-! ### C20 and C21 are false -/

namespace Wit0
variable {K : Nat} {w : Nat → List Nat → ℝ} {cl : List Nat → ℝ} {M : Model}

/-- the decision at the single sum layer of a witness of depth 0. -/
theorem decision {F : Nat} (h : Wit F K 0 w cl M) {T : ℝ} {v : PRow} {k : Nat} {idx : Nat → Nat}
    (hp : GreedyPath T 0 M.layers v (fun _ => k) idx) :
    IsArgmax 2 (fun i => ENNReal.ofReal (Real.exp (w 0 [0, i, k, 0] / T)) * v 0 i 0) (idx 0) := by
  rw [h.layers0] at hp
  obtain ⟨mid, rfl, hd⟩ := hp
  exact hd 0 Nat.one_pos

theorem numOut {F : Nat} (h : Wit F K 0 w cl M) : M.numOut = 1 := by
  unfold Model.numOut
  rw [h.leaf]
  rfl

/-- probability of a value under component `i`. -/
def val (x : Fl) (i : Nat) : ℝ := if x = .nan then 1 else if x = .fin 0 then wProb i else 1 - wProb i

theorem val_nonneg (x : Fl) (i : Nat) : 0 ≤ val x i := by
  unfold val wProb; split_ifs <;> norm_num

theorem cell_eq {F : Nat} {d : ℤ} (h : Wit F K d w cl M) {x : Fl} (hx : x = .nan ∨ x = .fin 0 ∨ x = .fin 1) (c f i r : Nat) :
    cell M x c f i r = ENNReal.ofReal (val x i) := by
  unfold cell val
  rcases hx with rfl | rfl | rfl
  · simp
  · simp [h.base, wProb_eq]
  · simp [h.base, wProb1_eq]

theorem region_eq (h : Wit 2 K 0 w cl M) {X : Data} (hX : ∀ f, f < 2 → X 0 f = .nan ∨ X 0 f = .fin 0 ∨ X 0 f = .fin 1)
    {G : Nat → Nat → Nat} (hG : ∀ f, f < 2 → G 0 f = 0) (i : Nat) :
    regionVal M G X 0 i 0 = ENNReal.ofReal (val (X 0 0) i * val (X 0 1) i) := by
  unfold regionVal
  rw [h.features, h.channels, Finset.prod_range_succ, Finset.prod_range_one, hG 0 (by omega), hG 1 (by omega)]
  simp only [if_true, Finset.prod_range_one]
  rw [cell_eq h (hX 0 (by omega)), cell_eq h (hX 1 (by omega)), ENNReal.ofReal_mul (val_nonneg _ _)]

theorem density (h : Wit 2 K 0 w cl M) {X : Data} (hX : ∀ f, f < 2 → X 0 f = .nan ∨ X 0 f = .fin 0 ∨ X 0 f = .fin 1)
    {k : Nat} (hk : k < K) : M.density none k X = ENNReal.ofReal
      ((Real.exp (w 0 [0, 0, k, 0]) * (val (X 0 0) 0 * val (X 0 1) 0) +
        Real.exp (w 0 [0, 1, k, 0]) * (val (X 0 0) 1 * val (X 0 1) 1)) /
        (Real.exp (w 0 [0, 0, k, 0]) + Real.exp (w 0 [0, 1, k, 0]))) := by
  have hobs : M.leaf.base.Observed X := by
    rw [build_observed (wParams_random _ _) h.build, h.channels, h.features]
    intro c hc f hf
    obtain rfl : c = 0 := by omega
    rcases hX f hf with e | e | e
    · exact Or.inl e
    · exact Or.inr ⟨0, e, 0, by norm_num, by norm_num⟩
    · exact Or.inr ⟨1, e, 1, by norm_num, by norm_num⟩
  rw [density_val h.samplable.wf h.proper hobs (by rw [h.classes]; exact hk)]
  refine h.topP0 (fun _ i => val (X 0 0) i * val (X 0 1) i) (fun _ i => mul_nonneg (val_nonneg _ _) (val_nonneg _ _)) _
    (fun i _ => region_eq h hX (fun f hf => ?_) i) k
  rw [h.grpF (by norm_num) _ hf]
  simp
  omega

end Wit0

/-- **C21** for `mpe` itself. -/
theorem C21_mpe_partial (c : Config) (P : Params) (hP : P.Random) (hg : P.leaf.Good) (hs : P.leaf.CanSample)
    (M : Model) (h : build c P = .ok M) (hsame : SameModes M P.leaf) (N : Nat) (hN : 0 < N) (x : Tensor Fl)
    (ms : Option Scopes) (hx : Evidence M P.leaf N ms x) :
    ∃ s, M.mpe (some x) ms = .pure s ∧ ∀ n, n < N →
      Completes P.leaf M.num_channels M.num_features (known M.num_features ms x n) (fun d f => s.get [n, d, f]) ∧
      ∀ Y, Completes P.leaf M.num_channels M.num_features (known M.num_features ms x n) Y →
        ∀ k, k < M.num_classes → M.density none k Y ≤ M.density none k fun d f => s.get [n, d, f] :=
  C21_same_modes_partial c P hP hg hs M h hsame N hN x { evidence := some x, is_mpe := true, marginalized_scopes := ms } rfl hx
    rfl rfl rfl one_ne_zero

/-- **C21 is false**: for some valid configuration with one class, `mpe()` returns the row `0, 0`, of probability 11/54, while
the row `1, 1` has probability 17/54. -/
theorem C21_refuted : ∃ (c : Config) (P : Params) (M : Model) (s : Tensor Fl), P.Random ∧ P.leaf.Good ∧ P.leaf.CanSample ∧
    build c P = .ok M ∧ M.num_classes = 1 ∧ M.num_channels = 1 ∧ M.num_features = 2 ∧
    M.sample { num_samples := some 1, is_mpe := true } = .pure s ∧
    (M.density none 0 fun d f => s.get [0, d, f]) = ENNReal.ofReal (11 / 54) ∧
    (M.density none 0 fun _ _ => .fin 1) = ENNReal.ofReal (17 / 54) := by
  obtain ⟨M, h⟩ := wit_exists (F := 2) (K := 1) (d := 0) (by norm_num) (by norm_num) (by norm_num) (by norm_num)
    (fun _ i => if i = [0, 0, 0, 0] then Real.log 2 else 0) (fun _ => 0)
  obtain ⟨H, s, _, hH, h1, _, h2⟩ := C20_greedy _ _ (wParams_random _ _) wLeaf_good.1 wLeaf_good.2 M h.build
    { num_samples := some 1, is_mpe := true } rfl rfl one_pos one_ne_zero trivial
  obtain ⟨k, r, idx, hg, hi, h3⟩ := h2 0 one_pos
  have hr : r = 0 := by have := hg.rep.1; rw [h.reps] at this; omega
  have hk : k = 0 := by have : k < M.num_classes := hg.cls.1; rw [h.classes] at this; omega
  subst hr hk
  have hd := Wit0.decision h hg.path
  have h0 : idx 0 = 0 := by
    by_contra hne
    have h1 : idx 0 = 1 := by have := hd.1; omega
    have := hd.2 0 (by omega)
    rw [h1] at this
    simp [Real.exp_log] at this
  have hs : ∀ f, f < 2 → s.get [0, 0, f] = .fin 0 := by
    intro f hf
    rw [h3 0 (by rw [h.channels]; omega) f (by rw [h.features]; exact hf)]
    have : H 0 f = 0 := by
      have := hH 0 (by rw [h.reps]; omega) f (by rw [h.features]; exact hf)
      rw [Wit0.numOut h] at this
      omega
    rw [this, h0, h.base, wMode]
    simp
  refine ⟨_, _, M, s, wParams_random _ _, wLeaf_good.1, wLeaf_good.2, h.build, h.classes, h.channels, h.features, h1, ?_, ?_⟩
  · rw [Wit0.density h (fun f hf => Or.inr (Or.inl (hs f hf))) one_pos]
    congr 1
    simp [hs, Wit0.val, wProb, Real.exp_log]
    norm_num
  · rw [Wit0.density h (fun f hf => Or.inr (Or.inr rfl)) one_pos]
    congr 1
    simp [Wit0.val, wProb, Real.exp_log]
    norm_num

/-- weights of the class witness: class 0 prefers component 1, class 1 prefers component 0. -/
def w3 : Nat → List Nat → ℝ := fun _ i => if i = [0, 1, 0, 0] ∨ i = [0, 0, 1, 0] then Real.log 9 else 0

/-- **C20 is false** for the class: for some valid configuration with two classes and the evidence `0, NaN`, class 1 has the
larger posterior weight (class weight times density of the evidence), and every path of maximal decisions from class 1 ends in
a component of mode 0, but `mpe` fills the hole with 1, the value of class 0.  (The class is chosen by the class weights
alone.) -/
theorem C20_refuted_class : ∃ (c : Config) (P : Params) (M : Model) (s : Tensor Fl), P.Random ∧ P.leaf.Good ∧
    P.leaf.CanSample ∧ build c P = .ok M ∧ M.num_classes = 2 ∧ M.num_channels = 1 ∧ M.num_features = 2 ∧
    ENNReal.ofReal (classWeight P 2 0) * M.density none 0 evRow < ENNReal.ofReal (classWeight P 2 1) * M.density none 1 evRow ∧
    M.sample { evidence := some (rowTensor 1 2 evRow), is_mpe := true } = .pure s ∧ s.get [0, 0, 1] = .fin 1 ∧
    ∃ G, ForwardIn M P.leaf M.numOut G ∧ ∀ idx, GreedyPath 1 0 M.layers (regionVal M G evRow) (fun _ => 1) idx →
      M.leaf.base.mode 0 1 (idx 0) 0 = 0 := by
  obtain ⟨M, h⟩ := wit_exists (F := 2) (K := 2) (d := 0) (by norm_num) (by norm_num) (by norm_num) (by norm_num)
    w3 (fun i => if i = [0, 0, 0, 0] then Real.log (11 / 10) else 0)
  have hev : Evidence M wLeaf 1 none (rowTensor 1 2 evRow) := by
    refine ⟨⟨by rw [h.channels, h.features]; rfl, fun n _ => ?_⟩, by simp, fun _ _ _ _ _ _ e => e⟩
    rw [h.channels, h.features]
    exact evRow_data
  have hX : ∀ f, f < 2 → evRow 0 f = .nan ∨ evRow 0 f = .fin 0 ∨ evRow 0 f = .fin 1 := by
    intro f _
    unfold evRow
    split_ifs <;> simp
  obtain ⟨G, H, s, hF, _, hGH, h1, _, h2⟩ := C20_greedy_evidence_partial _ _ (wParams_random _ _) wLeaf_good.1 wLeaf_good.2 M
    h.build 1 one_pos (rowTensor 1 2 evRow) { evidence := some (rowTensor 1 2 evRow), is_mpe := true } rfl hev rfl rfl rfl
    one_ne_zero
  have hG : ∀ f, f < 2 → G 0 f = 0 ∧ H 0 f = 0 := by
    intro f hf
    have := hGH 0 (by rw [h.reps]; omega) f (by rw [h.features]; exact hf)
    rw [Wit0.numOut h] at this
    omega
  obtain ⟨k, r, idx, hg, hi, h3⟩ := h2 0 one_pos
  have hr : r = 0 := by have := hg.rep.1; rw [h.reps] at this; omega
  subst hr
  have hk : k = 0 := by
    have hc := hg.cls
    unfold Model.ClassChoice at hc
    dsimp only at hc
    rw [h.classes] at hc
    by_contra hne
    have h1 : k = 1 := by have := hc.1; omega
    have := hc.2 0 (by omega)
    dsimp only at this
    rw [h1, if_pos (by omega), if_pos (by omega), build_classRoot h.build] at this
    have e : ∀ k, (mkSumL 1 (wConfig (2 : ℕ) (2 : ℕ) 0).num_classes.toNat 1 1 SumLayer.weightShape (wParams w3 fun i =>
        if i = [0, 0, 0, 0] then Real.log (11 / 10) else 0).classLogits).logits.get [0, k, 0, 0] =
        .fin (if k = 0 then Real.log (11 / 10) else 0) := fun k => by simp [mkSumL, wParams]
    rw [e, e] at this
    simp [expw, Fl.val, Real.exp_log] at this
    norm_num at this
  subst hk
  have hkn : known M.num_features none (rowTensor 1 2 evRow) 0 = evRow := by
    funext c f
    unfold known Hole rowTensor
    show (if evRow c f = .nan then Fl.nan else evRow c f) = evRow c f
    by_cases h0 : evRow c f = .nan
    · rw [if_pos h0, h0]
    · rw [if_neg h0]
  have hv : ∀ i, regionVal M G evRow 0 i 0 = ENNReal.ofReal (wProb i) := by
    intro i
    rw [Wit0.region_eq h hX (fun f hf => (hG f hf).1)]
    simp [evRow, Wit0.val]
  refine ⟨_, _, M, s, wParams_random _ _, wLeaf_good.1, wLeaf_good.2, h.build, h.classes, h.channels, h.features, ?_, h1, ?_,
    G, hF, fun idx' hp => ?_⟩
  · rw [Wit0.density h hX (by omega), Wit0.density h hX (by omega), ← ENNReal.ofReal_mul, ← ENNReal.ofReal_mul]
    · refine (ENNReal.ofReal_lt_ofReal_iff ?_).2 ?_
      all_goals
        simp [classWeight, Finset.sum_range_succ, wParams, w3, Real.exp_log, evRow, Wit0.val, wProb]
        norm_num
    all_goals
      unfold classWeight
      positivity
  · have := h3 0 (by rw [h.channels]; omega) 1 (by rw [h.features]; omega)
    rw [if_pos (by simp [Hole, rowTensor, evRow, at'])] at this
    rw [this, (hG 1 (by omega)).2]
    have hp := hg.path
    rw [hkn] at hp
    have hd := Wit0.decision h hp
    have h0 : idx 0 = 1 := by
      by_contra hne
      have h1 : idx 0 = 0 := by have := hd.1; omega
      have := hd.2 1 (by omega)
      rw [h1] at this
      simp only [hv] at this
      rw [← ENNReal.ofReal_mul (by positivity), ← ENNReal.ofReal_mul (by positivity),
        ENNReal.ofReal_le_ofReal_iff (mul_nonneg (by positivity) (wProb_pos _))] at this
      simp [Real.exp_log, w3, wProb] at this
      norm_num at this
    rw [h0, h.base, wMode]
    simp
  · have hd := Wit0.decision h hp
    have h0 : idx' 0 = 0 := by
      by_contra hne
      have h1 : idx' 0 = 1 := by have := hd.1; omega
      have := hd.2 0 (by omega)
      rw [h1] at this
      simp only [hv] at this
      rw [← ENNReal.ofReal_mul (by positivity), ← ENNReal.ofReal_mul (by positivity),
        ENNReal.ofReal_le_ofReal_iff (mul_nonneg (by positivity) (wProb_pos _))] at this
      simp [Real.exp_log, w3, wProb] at this
      norm_num at this
    rw [h0, h.base, wMode]
    simp

end Props
end Einet
