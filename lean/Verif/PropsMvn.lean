import Verif.MvnLaw
import Verif.PropsDensity

/-!
# C53, C55: density and marginals of einets with multivariate normal leaves
-/

open Classical MeasureTheory ProbabilityTheory Matrix
open scoped ENNReal
noncomputable section
namespace Einet
open Tensor

/-! ### Lemmas -/

/-- construction, for the top-down structure. -/
theorem buildMvn_topDown {c : Config} {K : ℤ} (P : Params) (θ : MvnParams) (hv : c.assertValid = .ok ()) (hK : c.cardinality = some K)
    (h1 : 1 ≤ K) (htd : c.structure' = "top-down") (hv' : (c.blocks K).assertValid = .ok ()) (hd : 0 ≤ c.depth)
    (hdr : DropOK c.dropout) : ∃ E, buildMvn c P θ = .ok E := by
  obtain ⟨M, hM⟩ := (build_iff (c := c.blocks K) (P := { P with leaf := .normal (fun _ _ _ _ => 0) (fun _ _ _ _ => 0) })).2
    ⟨hv', ⟨normalLeaf _ _ _, by unfold LeafSpec.build; dsimp only; rw [require_true _ (show (c.blocks K).cardinality = none from rfl)]; rfl⟩, hd, fun e => absurd (htd.symm.trans e) (by decide), fun _ => hdr⟩
  unfold build at hM
  rw [hv'] at hM
  simp only [Res.ok_bind] at hM
  rw [if_pos (show (c.blocks K).structure' = "top-down" from htd)] at hM
  unfold buildMvn
  rw [hv, hK]
  simp only [Res.ok_bind]
  obtain ⟨_, hc, _⟩ := bind_ok ((Props.checkInt_iff K 1 (by norm_num) (Except.ok ()) ()).2 ⟨h1, rfl⟩)
  rw [hc]
  simp only [Res.ok_bind]
  rw [if_pos htd, hM]
  exact ⟨_, rfl⟩

theorem buildMvn_ok {c : Config} {P : Params} {θ : MvnParams} (hP : P.Random) {E : MvnEinet}
    (h : buildMvn c P θ = .ok E) (htd : c.structure' = "top-down") {K : ℤ} (hK : c.cardinality = some K)
    (hdiv : K ∣ c.num_features) :
    E.WF (buildGroups (c.blocks K) { P with leaf := .normal (fun _ _ _ _ => 0) (fun _ _ _ _ => 0) }) ∧ E.leaf.pad_value = 0 := by
  obtain ⟨K', hK', h1, hl, _, hw, _⟩ := buildMvn_spec hP h htd
  rw [hK] at hK'
  cases hK'
  refine ⟨hw, ?_⟩
  rw [hl]
  show c.num_features.toNat % K.toNat = 0
  obtain ⟨m, hm⟩ := hdiv
  rw [hm]
  rcases le_or_gt 0 m with h0 | h0
  · rw [Int.toNat_mul (by omega) h0]; exact Nat.mul_mod_right _ _
  · rw [Int.toNat_eq_zero.2 (by nlinarith)]; exact Nat.zero_mod _

/-- construction, for the bottom-up structure. -/
theorem buildMvn_bottomUp {c : Config} {K : ℤ} (P : Params) (θ : MvnParams) (hv : c.assertValid = .ok ()) (hK : c.cardinality = some K)
    (h1 : 1 ≤ K) (hbu : c.structure' = "bottom-up") (hv' : ({ c with cardinality := none } : Config).assertValid = .ok ())
    (hd : 0 < c.depth) (hdr : DropOK c.dropout) : ∃ E, buildMvn c P θ = .ok E := by
  obtain ⟨M, hM⟩ := (build_iff (c := { c with cardinality := none })
      (P := { P with leaf := .normal (fun _ _ _ _ => 0) (fun _ _ _ _ => 0) })).2
    ⟨hv', ⟨normalLeaf _ _ _, by unfold LeafSpec.build; dsimp only; rw [require_true _ rfl]; rfl⟩, hd.le, fun _ => hd,
      fun _ => hdr⟩
  unfold build at hM
  rw [hv'] at hM
  simp only [Res.ok_bind] at hM
  have hnt : c.structure' ≠ "top-down" := by rw [hbu]; decide
  rw [if_neg hnt, if_pos hbu] at hM
  unfold buildMvn
  rw [hv, hK]
  simp only [Res.ok_bind]
  obtain ⟨_, hc, _⟩ := bind_ok ((Props.checkInt_iff K 1 (by norm_num) (Except.ok ()) ()).2 ⟨h1, rfl⟩)
  rw [hc]
  simp only [Res.ok_bind]
  rw [if_neg hnt, if_pos hbu, hM]
  exact ⟨_, rfl⟩

/-- sizes of the leaf, for both structures. -/
theorem buildMvn_leaf {c : Config} {P : Params} {θ : MvnParams} {E : MvnEinet} (h : buildMvn c P θ = .ok E) :
    ∃ K : ℤ, c.cardinality = some K ∧ 1 ≤ K ∧ 2 ≤ c.num_features ∧
      E.leaf = ⟨c.num_features.toNat, c.num_channels.toNat, c.num_leaves.toNat, c.num_repetitions.toNat, K.toNat, θ⟩ ∧
      E.net.num_channels = c.num_channels.toNat ∧
      (c.structure' = "bottom-up" → E.net.num_features = c.num_features.toNat ∧ ∃ B, E.net.leaf = .direct B) := by
  unfold buildMvn at h
  obtain ⟨_, hv, h⟩ := bind_ok h
  obtain ⟨v1, v2, v3, v4, v5, v6, v7, v8, v9, v10, v11, v12, v13⟩ := (assertValid_iff c).1 hv
  cases hcard : c.cardinality with
  | none => rw [hcard] at h; cases h
  | some K =>
  rw [hcard] at h
  simp only [Res.ok_bind] at h
  obtain ⟨_, hc, h⟩ := bind_ok h
  have hK1 : 1 ≤ K := by
    have := (Props.checkInt_iff K 1 (by norm_num) (Except.ok ()) ()).1 (by rw [hc]; rfl)
    exact this.1
  split_ifs at h with h1 h2
  · obtain ⟨M, hM, h⟩ := bind_ok h
    simp only [Res.pure_eq, Except.ok.injEq] at h
    refine ⟨K, rfl, hK1, v1, by rw [← h], ?_, fun e => absurd (h1.symm.trans e) (by decide)⟩
    rw [← h]
    unfold buildTopDown at hM
    obtain ⟨_, _, hM⟩ := bind_ok hM
    obtain ⟨_, _, hM⟩ := bind_ok hM
    obtain ⟨_, _, hM⟩ := bind_ok hM
    simp only [Res.pure_eq, Except.ok.injEq] at hM
    rw [← hM]
    rfl
  · obtain ⟨M, hM, h⟩ := bind_ok h
    simp only [Res.pure_eq, Except.ok.injEq] at h
    rw [← h]
    refine ⟨K, rfl, hK1, v1, rfl, ?_⟩
    unfold buildBottomUp at hM
    obtain ⟨_, _, hM⟩ := bind_ok hM
    obtain ⟨_, _, hM⟩ := bind_ok hM
    obtain ⟨_, _, hM⟩ := bind_ok hM
    simp only [Res.pure_eq, Except.ok.injEq] at hM
    rw [← hM]
    exact ⟨rfl, fun _ => ⟨rfl, _, rfl⟩⟩

/-- shape of the result of the leaf. -/
theorem MvnLeaf.forward_shape {L : MvnLeaf} {x y : Tensor Fl} {ms : Option Scopes} (h : L.forward x ms = .ok y) :
    L.pad_value = 0 ∧ ∃ N, y.shape = [N, L.num_channels, L.out_features, L.num_leaves, L.num_repetitions] := by
  unfold forward at h
  obtain ⟨a, ha, h⟩ := bind_ok h
  obtain ⟨b, hb, h⟩ := bind_ok h
  have hsa : L.pad_value = 0 ∧ ∃ N, a.shape = [N, L.num_channels, L.out_features, L.num_leaves, L.num_repetitions] := by
    unfold logProb at ha
    obtain ⟨_, h0, ha⟩ := bind_ok ha
    obtain ⟨_, _, ha⟩ := bind_ok ha
    obtain ⟨_, _, ha⟩ := bind_ok ha
    obtain ⟨_, _, ha⟩ := bind_ok ha
    unfold view at ha
    obtain ⟨_, _, ha⟩ := bind_ok ha
    simp only [Res.pure_eq, Except.ok.injEq] at ha
    refine ⟨by_contra fun hne => ?_, _, by rw [← ha]⟩
    rw [require_false _ hne] at h0
    cases h0
  refine ⟨hsa.1, ?_⟩
  obtain ⟨N, hN⟩ := hsa.2
  have hsb : b.shape = a.shape := by
    unfold putNan at hb
    split_ifs at hb
    · cases hb; rfl
    · obtain ⟨_, _, hb⟩ := bind_ok hb
      simp only [Res.pure_eq, Except.ok.injEq] at hb
      rw [← hb]
  refine ⟨N, ?_⟩
  rw [← hN, ← hsb]
  unfold marginalize at h
  cases ms with
  | none =>
    simp only [Res.pure_eq, Except.ok.injEq] at h
    rw [← h]; rfl
  | some s =>
    obtain ⟨_, _, h⟩ := bind_ok h
    obtain ⟨_, _, h⟩ := bind_ok h
    simp only [Res.pure_eq, Except.ok.injEq] at h
    rw [← h]

/-- a result of `model(x)` comes from a result of the leaf. -/
theorem MvnEinet.forward_leaf {E : MvnEinet} {x z : Tensor Fl} {ms : Option Scopes} (h : E.forward x ms = .ok z) :
    ∃ x' y y' w, E.leaf.forward x' ms = .ok y ∧ E.net.leaf.merge y = .ok y' ∧ E.net.factorize y' = .ok w ∧
      ({ E.net with num_features := E.leaf.num_features } : Model).prepInput x = .ok x' := by
  unfold forward run at h
  cases hr : (do
    let x ← ({ E.net with num_features := E.leaf.num_features } : Model).prepInput x
    let y ← E.leaf.forward x ms
    let y ← E.net.leaf.merge y
    E.net.upper y) with
  | error e => rw [hr] at h; cases h
  | ok p =>
    obtain ⟨x', h1, hr⟩ := bind_ok hr
    obtain ⟨y, h2, hr⟩ := bind_ok hr
    obtain ⟨y', h3, hr⟩ := bind_ok hr
    unfold Model.upper at hr
    obtain ⟨w, h4, _⟩ := bind_ok hr
    exact ⟨x', y, y', w, h2, h3, h4, h1⟩

/-- `marginalized_scopes` given as a tensor of usable indices. -/
theorem MvnEinet.marg_tensor {E : MvnEinet} (hK : 0 < E.leaf.cardinality) (hp : E.leaf.pad_value = 0) {s : Scopes}
    (hs : s.isList = false) (hu : Props.Usable E.leaf.num_features s) :
    ∃ l, E.Marg (some s) l ∧ ∀ b, b < E.leaf.out_features →
      (b ∈ l ↔ ∃ f, f < E.leaf.num_features ∧ Props.Listed E.leaf.num_features s f ∧ f / E.leaf.cardinality = b) := by
  have hF := MvnLeaf.out_mul hK hp
  have key : ∀ i ∈ s.idx, (-(E.leaf.out_features : ℤ) ≤ Int.fdiv i E.leaf.cardinality ∧
      Int.fdiv i E.leaf.cardinality < E.leaf.out_features) ∧
      wrapIdx E.leaf.out_features (Int.fdiv i E.leaf.cardinality) = wrapIdx E.leaf.num_features i / E.leaf.cardinality := by
    intro i hi
    have hb := hu.1 i hi
    rw [← hF] at hb ⊢
    rw [Int.fdiv_eq_ediv_of_nonneg _ (by omega)]
    generalize E.leaf.cardinality = K at *
    generalize E.leaf.out_features = B at *
    push_cast at hb
    have hK' : (0 : ℤ) < K := by omega
    have h1 : -(B : ℤ) ≤ i / K := (Int.le_ediv_iff_mul_le hK').2 (by linarith)
    have h2 : i / K < B := (Int.ediv_lt_iff_lt_mul hK').2 hb.2
    refine ⟨⟨h1, h2⟩, ?_⟩
    unfold wrapIdx
    have hdivN : ∀ j : ℤ, 0 ≤ j → (j / K).toNat = j.toNat / K := by
      intro j hj
      obtain ⟨m, rfl⟩ := Int.eq_ofNat_of_zero_le hj
      rw [Int.toNat_natCast, ← Int.natCast_ediv, Int.toNat_natCast]
    by_cases h0 : i < 0
    · have h3 : i / K < 0 := Int.ediv_neg_of_neg_of_pos h0 hK'
      rw [if_pos h0, if_pos h3]
      have e : (i + (B * K : ℕ)) / K = i / K + B := by
        push_cast
        exact Int.add_mul_ediv_right _ _ hK'.ne'
      have h4 : (0 : ℤ) ≤ i + (B * K : ℕ) := by push_cast; linarith
      rw [← hdivN _ h4, e]
    · have h3 : ¬ i / K < 0 := not_lt.2 (Int.ediv_nonneg (by omega) hK'.le)
      rw [if_neg h0, if_neg h3]
      exact hdivN i (by omega)
  have hr : ∀ t : Scopes, t.isList = false → t.idx = s.idx.map (Int.fdiv · E.leaf.cardinality) →
      t.resolve E.leaf.out_features = .ok (t.idx.map (wrapIdx E.leaf.out_features)) := by
    intro t h1 h2
    unfold Scopes.resolve
    rw [require_true _ (by simp [h1])]
    simp only [Res.ok_bind]
    rw [require_true _ (by
      intro i hi
      rw [h2, List.mem_map] at hi
      obtain ⟨j, hj, rfl⟩ := hi
      exact (key j hj).1)]
    rfl
  refine ⟨(s.idx.map (Int.fdiv · E.leaf.cardinality)).map (wrapIdx E.leaf.out_features), ?_, fun b hb => ?_⟩
  · unfold Marg MvnLeaf.adjust
    dsimp only
    split_ifs with h1
    · rw [require_true _ hs]
      exact hr ⟨false, _⟩ rfl rfl
    · have e1 : E.leaf.cardinality = 1 := by omega
      have := hr s hs (by rw [e1]; simp [Int.fdiv_one])
      refine this.trans ?_
      rw [e1]; simp [Int.fdiv_one]
  · rw [List.map_map, List.mem_map]
    constructor
    · rintro ⟨i, hi, rfl⟩
      have hb := hu.1 i hi
      refine ⟨wrapIdx E.leaf.num_features i, ?_, ⟨i, hi, ?_⟩, ((key i hi).2).symm⟩
      · unfold wrapIdx; split_ifs <;> omega
      · unfold wrapIdx; split_ifs <;> omega
    · rintro ⟨f, hf, ⟨i, hi, hif⟩, rfl⟩
      have hb := hu.1 i hi
      refine ⟨i, hi, (key i hi).2.trans ?_⟩
      congr 1
      unfold wrapIdx; split_ifs <;> omega

/-- finite batches. -/
def FiniteBatch (N C F : Nat) (x : Tensor Fl) : Prop :=
  x.shape = [N, C, F] ∧ ∀ n, n < N → ∀ c, c < C → ∀ f, f < F → (x.get [n, c, f]).IsFin

theorem FiniteBatch.is3 {N C F : Nat} {x : Tensor Fl} (h : FiniteBatch N C F x) :
    x.Is3 N C F fun n c f => x.get [n, c, f] :=
  Is.is3 (Is.refl x h.1) fun _ _ _ _ _ _ => rfl

namespace Props

/-! ### Concrete models -/

/-- configurations with blocks of two features and two components per block. -/
def mvnConfig (F C R k d : ℤ) (layer structure' : String) : Config where
  num_features := F
  num_channels := C
  num_sums := 2
  num_leaves := 2
  num_repetitions := R
  num_classes := k
  depth := d
  dropout := some (.fin 0)
  layer_type := layer
  structure' := structure'
  cardinality := some 2

/-- parameters that depend on all indices. -/
def mvnParams : MvnParams where
  means c b i r k := c + 2 * b + 3 * i + 5 * r + 7 * k
  L_diag_log c b i r k := c - b + i * r - k
  L_offdiag c b i r k j := c + b + i + r + 2 * k - j

theorem mvnConfig_valid {F C R k d : ℤ} {layer structure' : String} (hF : 2 ≤ F) (hC : 1 ≤ C) (hR : 1 ≤ R) (hk : 1 ≤ k)
    (hl : layer ∈ ["linsum", "linsum2", "einsum"]) (hs : structure' ∈ ["top-down", "bottom-up"])
    (hb : structure' = "bottom-up" → layer = "linsum") (K : Option ℤ) (hK : K.getD 1 ≠ 0)
    (hd : (2 : ℚ) ^ d ≤ (Int.fdiv F (K.getD 1) : ℤ)) :
    ({ mvnConfig F C R k d layer structure' with cardinality := K } : Config).assertValid = .ok () := by
  rw [assertValid_iff]
  refine ⟨hF, hC, hk, by norm_num [mvnConfig], hR, by norm_num [mvnConfig], ?_, rfl, hl, hs, hb, hK, hd⟩
  rintro q ⟨⟩
  norm_num [Fl.lt]

theorem mvnConfig_topDown {F C R k d : ℤ} {layer : String} (hF : 3 ≤ F) (hC : 1 ≤ C) (hR : 1 ≤ R) (hk : 1 ≤ k) (hd0 : 0 ≤ d)
    (hl : layer ∈ ["linsum", "linsum2", "einsum"]) (hd : (2 : ℚ) ^ d ≤ (Int.fdiv F 2 : ℤ)) (P : Params) (θ : MvnParams) :
    ∃ E, buildMvn (mvnConfig F C R k d layer "top-down") P θ = .ok E := by
  refine buildMvn_topDown (K := 2) P θ (mvnConfig_valid (by omega) hC hR hk hl (by simp) (by simp) (some 2) (by simp) hd) rfl
    (by norm_num) rfl ?_ hd0 ⟨0, rfl, le_refl _, one_pos⟩
  have hB : (mvnConfig F C R k d layer "top-down").blocks 2 =
      { mvnConfig ((F.toNat + 2 - 1) / 2 : Nat) C R k d layer "top-down" with cardinality := none } := rfl
  rw [hB]
  refine mvnConfig_valid (by omega) hC hR hk hl (by simp) (by simp) none (by simp) (hd.trans ?_)
  rw [Option.getD_none, Int.fdiv_one, Int.fdiv_eq_ediv_of_nonneg _ (by norm_num)]
  exact_mod_cast (by omega)

/-! ### C53 -/

/-- **C53** (part): for every top-down einet with multivariate normal leaves whose cardinality divides the number of
features, the density `exp(model(x)[0, k])` integrates to one over `ℝ^(C × F)`.  Missing for the full property: the other
accepted configurations raise in every forward pass (`C53_refuted_padding`, `C53_refuted_bottom_up`). -/
theorem C53_integral_partial (c : Config) (P : Params) (hP : P.Random) (θ : MvnParams) (E : MvnEinet)
    (h : buildMvn c P θ = .ok E) (htd : c.structure' = "top-down") (K : ℤ) (hK : c.cardinality = some K)
    (hdiv : K ∣ c.num_features) (k : Nat) (hk : k < E.net.num_classes) :
    ∫⁻ ω : Fin E.leaf.num_channels → Fin E.leaf.num_features → ℝ, E.density none k (Pt.data ω) = 1 := by
  obtain ⟨hw, hp⟩ := buildMvn_ok hP h htd hK hdiv
  exact MvnEinet.integral_density hw hp hk

/-- the hypotheses of the theorems of this file on construction are met. -/
example (l : String) (hl : l ∈ ["linsum", "linsum2", "einsum"]) :
    ∃ E, buildMvn (mvnConfig 6 2 2 3 1 l "top-down") (exParams exLeaf) mvnParams = .ok E ∧ (2 : ℤ) ∣ 6 ∧ 2 < E.net.num_classes := by
  obtain ⟨E, h⟩ := mvnConfig_topDown (F := 6) (C := 2) (R := 2) (k := 3) (d := 1) (by norm_num) (by norm_num) (by norm_num)
    (by norm_num) (by norm_num) hl (by norm_num [Int.fdiv]) (exParams exLeaf) mvnParams
  obtain ⟨_, _, _, _, h2, _⟩ := buildMvn_spec (exParams_random _) h rfl
  exact ⟨E, h, by norm_num, by rw [h2]; norm_num [mvnConfig]⟩

/-- **C53** (part): the result for a finite batch of any size has one finite entry per row and class, the logarithm of the
density of the row.  Missing: see `C53_integral_partial`. -/
theorem C53_rows_partial (c : Config) (P : Params) (hP : P.Random) (θ : MvnParams) (E : MvnEinet)
    (h : buildMvn c P θ = .ok E) (htd : c.structure' = "top-down") (K : ℤ) (hK : c.cardinality = some K)
    (hdiv : K ∣ c.num_features) (N : Nat) (x : Tensor Fl) (hx : FiniteBatch N E.leaf.num_channels E.leaf.num_features x) :
    ∃ y, E.forward x = .ok y ∧ y.shape = [N, E.net.num_classes] ∧ ∀ n, n < N → ∀ k, k < E.net.num_classes →
      ∃ v, y.get [n, k] = .fin v ∧ ENNReal.ofReal (Real.exp v) = E.density none k fun c f => x.get [n, c, f] := by
  obtain ⟨hw, hp⟩ := buildMvn_ok hP h htd hK hdiv
  obtain ⟨V, hV, z, hz, hz2⟩ := MvnEinet.run_is hw hp hx.is3 (fun n hn => hx.2 n hn) (ms := none) (l := []) rfl
  refine ⟨z.1, by unfold MvnEinet.forward; rw [hz]; rfl, hz2.1, fun n hn k hk => ?_⟩
  obtain ⟨⟨v, hv⟩, h2⟩ := hV n hn k hk
  refine ⟨v, by rw [hz2.get hn hk, hv], ?_⟩
  rw [MvnEinet.density_eq hw hp (hx.2 n hn) (ms := none) (l := []) rfl hk, ← h2, hv]
  rfl

/-- **C53 is false** of configurations whose number of features is not a multiple of the cardinality: they are accepted, but
every forward pass raises (the reflection padding is not implemented by torch for this rank). -/
theorem C53_refuted_padding (c : Config) (P : Params) (θ : MvnParams) (E : MvnEinet)
    (h : buildMvn c P θ = .ok E) (K : ℤ) (hK : c.cardinality = some K) (hdiv : ¬ K ∣ c.num_features) (x : Tensor Fl)
    (ms : Option Scopes) : ∃ e, E.forward x ms = .error e := by
  cases hf : E.forward x ms with
  | error e => exact ⟨e, rfl⟩
  | ok z =>
    obtain ⟨x', y, y', w, h1, _⟩ := MvnEinet.forward_leaf hf
    have hp := (MvnLeaf.forward_shape h1).1
    obtain ⟨K', hK', h1', h2, hl, _, _⟩ := buildMvn_leaf h
    rw [hK] at hK'
    cases hK'
    rw [hl] at hp
    have h3 : c.num_features.toNat % K.toNat = 0 := hp
    refine absurd ?_ hdiv
    have := Nat.dvd_of_mod_eq_zero h3
    have := Int.natCast_dvd_natCast.2 this
    rwa [Int.toNat_of_nonneg (by omega), Int.toNat_of_nonneg (by omega)] at this

/-- 5 features in blocks of two are accepted. -/
example : ∃ E, buildMvn (mvnConfig 5 2 2 3 1 "einsum" "top-down") (exParams exLeaf) mvnParams = .ok E ∧ ¬ (2 : ℤ) ∣ 5 := by
  obtain ⟨E, h⟩ := mvnConfig_topDown (F := 5) (C := 2) (R := 2) (k := 3) (d := 1) (by norm_num) (by norm_num) (by norm_num)
    (by norm_num) (by norm_num) (layer := "einsum") (by simp) (by norm_num [Int.fdiv]) (exParams exLeaf) mvnParams
  exact ⟨E, h, by norm_num⟩

/-- **C53 is false** of the bottom-up structure with cardinality 2 or more: every forward pass raises. -/
theorem C53_refuted_bottom_up (c : Config) (P : Params) (θ : MvnParams) (E : MvnEinet)
    (h : buildMvn c P θ = .ok E) (hbu : c.structure' = "bottom-up") (K : ℤ) (hK : c.cardinality = some K) (hK2 : 2 ≤ K)
    (x : Tensor Fl) (ms : Option Scopes) : ∃ e, E.forward x ms = .error e := by
  cases hf : E.forward x ms with
  | error e => exact ⟨e, rfl⟩
  | ok z =>
    obtain ⟨x', y, y', w, h1, h2, h3, _⟩ := MvnEinet.forward_leaf hf
    obtain ⟨K', hK', h1', hF2, hl, _, hb⟩ := buildMvn_leaf h
    rw [hK] at hK'
    cases hK'
    obtain ⟨hnf, B, hB⟩ := hb hbu
    obtain ⟨hp, N, hN⟩ := MvnLeaf.forward_shape h1
    rw [hB] at h2
    have : y' = y := by
      unfold Leaf.merge at h2
      exact (Except.ok.inj h2).symm
    subst this
    unfold Model.factorize at h3
    rw [hB] at h3
    dsimp only at h3
    obtain ⟨u, hu, h3⟩ := bind_ok h3
    obtain ⟨_, h4, _⟩ := bind_ok h3
    have hsu : u.shape = [N, E.leaf.out_features, E.leaf.num_leaves, E.leaf.num_repetitions] := by
      unfold Tensor.sum reduce at hu
      obtain ⟨_, _, hu⟩ := bind_ok hu
      simp only [Res.pure_eq, Except.ok.injEq] at hu
      rw [← hu, hN]
      rfl
    by_cases hne : u.shape = [u.size 0, E.net.num_features, E.net.num_leaves, E.net.num_repetitions]
    · rw [hsu] at hne
      have e : E.leaf.out_features = E.net.num_features := by
        injection hne with _ hne
        injection hne
      rw [hnf] at e
      have hc : E.leaf.cardinality = K.toNat := by rw [hl]
      have hm := MvnLeaf.out_mul (L := E.leaf) (by omega) hp
      have hf' : E.leaf.num_features = c.num_features.toNat := by rw [hl]
      rw [hf', e, hc] at hm
      have h5 : 2 ≤ K.toNat := by omega
      have h6 : 2 ≤ c.num_features.toNat := by omega
      nlinarith
    · rw [require_false _ hne] at h4
      cases h4

/-- such a bottom-up model is accepted. -/
example : ∃ E, buildMvn (mvnConfig 6 2 2 3 1 "linsum" "bottom-up") (exParams exLeaf) mvnParams = .ok E :=
  buildMvn_bottomUp (K := 2) _ _ (mvnConfig_valid (by norm_num) (by norm_num) (by norm_num) (by norm_num) (by simp) (by simp)
      (by simp) (some 2) (by simp) (by norm_num [Int.fdiv])) rfl (by norm_num) rfl
    (mvnConfig_valid (by norm_num) (by norm_num) (by norm_num) (by norm_num) (by simp) (by simp) (by simp) none (by simp)
      (by norm_num [Int.fdiv])) (by norm_num [mvnConfig]) ⟨0, rfl, le_refl _, one_pos⟩

/-! ### C55 -/

/-- feature `f` shares its block with a listed feature. -/
def Touched (F K : Nat) (s : Scopes) (f : Nat) : Prop := ∃ f', f' < F ∧ Listed F s f' ∧ f' / K = f / K

/-- the features with `S f` integrated out, the others fixed. -/
def outMeasure (C F : Nat) (S : Nat → Prop) (X : Nat → Nat → ℝ) : Measure (Fin C → Fin F → ℝ) :=
  Measure.pi fun c => Measure.pi fun f => if S f then volume else Measure.dirac (X c f)

/-- **C55** (part): with `marginalized_scopes` given as a tensor of indices, the result is the logarithm of the density
integrated over *all features of the blocks that contain a listed feature*.  Missing for the full property: only the
listed features should be integrated out (`C55_refuted_single`); lists and NaN entries raise (`C55_refuted_list`,
`C55_refuted_nan`). -/
theorem C55_blocks_partial (c : Config) (P : Params) (hP : P.Random) (θ : MvnParams) (E : MvnEinet)
    (h : buildMvn c P θ = .ok E) (htd : c.structure' = "top-down") (K : ℤ) (hK : c.cardinality = some K)
    (hdiv : K ∣ c.num_features) (s : Scopes) (hs : s.isList = false) (hu : Usable E.leaf.num_features s)
    (N : Nat) (x : Tensor Fl) (hx : FiniteBatch N E.leaf.num_channels E.leaf.num_features x) :
    ∃ y, E.forward x (some s) = .ok y ∧ y.shape = [N, E.net.num_classes] ∧ ∀ n, n < N → ∀ k, k < E.net.num_classes →
      ∃ v, y.get [n, k] = .fin v ∧ ENNReal.ofReal (Real.exp v) =
        ∫⁻ ω, E.density none k (Pt.data ω) ∂(outMeasure E.leaf.num_channels E.leaf.num_features
          (Touched E.leaf.num_features K.toNat s) fun c f => (x.get [n, c, f]).val) := by
  obtain ⟨hw, hp⟩ := buildMvn_ok hP h htd hK hdiv
  obtain ⟨l, hl, hl2⟩ := MvnEinet.marg_tensor hw.card hp hs hu
  have hF := MvnLeaf.out_mul hw.card hp
  obtain ⟨V, hV, z, hz, hz2⟩ := MvnEinet.run_is hw hp hx.is3 (fun n hn => hx.2 n hn) hl
  refine ⟨z.1, by unfold MvnEinet.forward; rw [hz]; rfl, hz2.1, fun n hn k hk => ?_⟩
  obtain ⟨⟨v, hv⟩, h2⟩ := hV n hn k hk
  refine ⟨v, by rw [hz2.get hn hk, hv], ?_⟩
  have h3 := MvnEinet.integral_blocks hw hp (X := fun c f => x.get [n, c, f]) (l := l) hk
  rw [← h2, hv] at h3
  refine Eq.trans h3.symm ?_
  congr 1
  unfold MvnEinet.blocksOut outMeasure
  refine congrArg Measure.pi (funext fun c => congrArg Measure.pi (funext fun f => if_congr ?_ rfl rfl))
  have hc : E.leaf.cardinality = K.toNat := by
    obtain ⟨K', hK', _, _, hl, _⟩ := buildMvn_leaf h
    rw [hK] at hK'
    cases hK'
    rw [hl]
  rw [hl2 _ (by rw [Nat.div_lt_iff_lt_mul hw.card, hF]; exact f.2), hc]
  rfl

/-- **C55** (part): if the listed features are a union of blocks, the listed features are integrated out.  Missing: see
`C55_blocks_partial`. -/
theorem C55_marginal_partial (c : Config) (P : Params) (hP : P.Random) (θ : MvnParams) (E : MvnEinet)
    (h : buildMvn c P θ = .ok E) (htd : c.structure' = "top-down") (K : ℤ) (hK : c.cardinality = some K)
    (hdiv : K ∣ c.num_features) (s : Scopes) (hs : s.isList = false) (hu : Usable E.leaf.num_features s)
    (hblocks : ∀ f f', Listed E.leaf.num_features s f → f < E.leaf.num_features → f' < E.leaf.num_features →
      f / K.toNat = f' / K.toNat → Listed E.leaf.num_features s f')
    (N : Nat) (x : Tensor Fl) (hx : FiniteBatch N E.leaf.num_channels E.leaf.num_features x) :
    ∃ y, E.forward x (some s) = .ok y ∧ y.shape = [N, E.net.num_classes] ∧ ∀ n, n < N → ∀ k, k < E.net.num_classes →
      ∃ v, y.get [n, k] = .fin v ∧ ENNReal.ofReal (Real.exp v) =
        ∫⁻ ω, E.density none k (Pt.data ω) ∂(outMeasure E.leaf.num_channels E.leaf.num_features
          (Listed E.leaf.num_features s) fun c f => (x.get [n, c, f]).val) := by
  obtain ⟨y, hy, hy2, hy3⟩ := C55_blocks_partial c P hP θ E h htd K hK hdiv s hs hu N x hx
  refine ⟨y, hy, hy2, fun n hn k hk => ?_⟩
  obtain ⟨v, hv, e⟩ := hy3 n hn k hk
  refine ⟨v, hv, e.trans ?_⟩
  congr 1
  unfold outMeasure
  refine congrArg Measure.pi (funext fun c => congrArg Measure.pi (funext fun f => if_congr ?_ rfl rfl))
  exact ⟨fun ⟨f', h1, h2, h3⟩ => hblocks f' f h2 h1 f.2 h3, fun h1 => ⟨f, f.2, h1, rfl⟩⟩

/-- scopes `[0, 1, -2, -1]` of 6 features form two blocks. -/
example : Usable 6 ⟨false, [0, 1, -2, -1]⟩ ∧ ∀ f f', Listed 6 ⟨false, [0, 1, -2, -1]⟩ f → f < 6 → f' < 6 →
    f / 2 = f' / 2 → Listed 6 ⟨false, [0, 1, -2, -1]⟩ f' := by
  refine ⟨⟨by simp, by simp⟩, fun f f' h h1 h2 h3 => ?_⟩
  have : f = 0 ∨ f = 1 ∨ f = 4 ∨ f = 5 := by
    obtain ⟨i, hi, h⟩ := h
    simp at hi
    omega
  have : f' = 0 ∨ f' = 1 ∨ f' = 4 ∨ f' = 5 := by omega
  rcases this with rfl | rfl | rfl | rfl
  · exact ⟨0, by simp, by simp⟩
  · exact ⟨1, by simp, by simp⟩
  · exact ⟨-2, by simp, by simp⟩
  · exact ⟨-1, by simp, by simp⟩

/-- all means zero, all covariances the identity. -/
def stdParams : MvnParams where
  means _ _ _ _ _ := 0
  L_diag_log _ _ _ _ _ := 0
  L_offdiag _ _ _ _ _ _ := 0

/-- density of a block of two independent standard normal variables. -/
theorem std_blockP {E : MvnEinet} (hK : E.leaf.cardinality = 2) (hθ : E.leaf.params = stdParams) (X : Data) (c b i r : Nat) :
    E.blockP X c b i r = gaussianPDF 0 1 (X c (b * 2)).val * gaussianPDF 0 1 (X c (b * 2 + 1)).val := by
  obtain ⟨⟨F, C, L, R, K, θ⟩, net⟩ := E
  dsimp only at hK hθ
  subst hK hθ
  have hA : MvnLeaf.scale_tril ⟨F, C, L, R, 2, stdParams⟩ [c, b, i, r] = 1 := by
    ext a b
    simp [MvnLeaf.scale_tril, stdParams, Matrix.one_apply]
  have hm : MvnLeaf.loc ⟨F, C, L, R, 2, stdParams⟩ [c, b, i, r] = 0 := rfl
  unfold MvnEinet.blockP gaussianPDF
  dsimp only
  rw [hA, hm, ← ENNReal.ofReal_mul (gaussianPDFReal_nonneg _ _ _)]
  congr 1
  unfold mvnLogProb gaussianPDFReal
  simp only [inv_one, one_mulVec, Fin.sum_univ_two, sub_zero, Matrix.one_apply_eq, Real.log_one, Fin.val_zero, Fin.val_one,
    add_zero, NNReal.coe_one, mul_one]
  have h2 : (0 : ℝ) < 2 * Real.pi := by positivity
  have e : (√(2 * Real.pi))⁻¹ * (√(2 * Real.pi))⁻¹ = Real.exp (-Real.log (2 * Real.pi)) := by
    rw [Real.exp_neg, Real.exp_log h2, ← mul_inv, Real.mul_self_sqrt h2.le]
  rw [mul_mul_mul_comm, e, ← Real.exp_add, ← Real.exp_add]
  congr 1
  push_cast
  ring

/-- **C55 is false** of single features: for some model with one class, 4 features and cardinality 2, marginalising
feature 0 gives `φ(x₂) φ(x₃)` (`φ` the standard normal density), although integrating the density over `x₀` gives
`φ(x₁) φ(x₂) φ(x₃)`. -/
theorem C55_refuted_single : ∃ (c : Config) (P : Params) (θ : MvnParams) (E : MvnEinet), P.Random ∧
    buildMvn c P θ = .ok E ∧ c.structure' = "top-down" ∧ c.cardinality = some 2 ∧ E.leaf.num_features = 4 ∧
    E.leaf.num_channels = 1 ∧ E.net.num_classes = 1 ∧ ∀ X : Nat → ℝ,
      E.density (some ⟨false, [0]⟩) 0 (fun _ f => .fin (X f)) = gaussianPDF 0 1 (X 2) * gaussianPDF 0 1 (X 3) ∧
      ∫⁻ t, E.density none 0 (fun _ f => .fin (if f = 0 then t else X f)) =
        gaussianPDF 0 1 (X 1) * (gaussianPDF 0 1 (X 2) * gaussianPDF 0 1 (X 3)) := by
  obtain ⟨E, h⟩ := mvnConfig_topDown (F := 4) (C := 1) (R := 1) (k := 1) (d := 0) (by norm_num) (by norm_num) (by norm_num)
    (by norm_num) (by norm_num) (layer := "einsum") (by simp) (by norm_num [Int.fdiv]) (exParams exLeaf) stdParams
  obtain ⟨K, hK, _, hl, hcl, _⟩ := buildMvn_spec (exParams_random _) h rfl
  cases hK
  obtain ⟨hw, hp⟩ := buildMvn_ok (exParams_random _) h rfl rfl (by norm_num [mvnConfig])
  have hF : E.leaf.num_features = 4 := by rw [hl]; rfl
  have hC : E.leaf.num_channels = 1 := by rw [hl]; rfl
  have hcard : E.leaf.cardinality = 2 := by rw [hl]; rfl
  have hθ : E.leaf.params = stdParams := by rw [hl]
  have hout : E.leaf.out_features = 2 := by unfold MvnLeaf.out_features; rw [hF, hcard]
  have hk : 0 < E.net.num_classes := by rw [hcl]; norm_num [mvnConfig]
  have hden : ∀ (X : Data) (ms : Option Scopes) (l : List Nat), E.Complete X → E.Marg ms l → E.density ms 0 X =
      (if 0 ∈ l then 1 else gaussianPDF 0 1 (X 0 0).val * gaussianPDF 0 1 (X 0 1).val) *
      (if 1 ∈ l then 1 else gaussianPDF 0 1 (X 0 2).val * gaussianPDF 0 1 (X 0 3).val) := by
    intro X ms l hX hm
    rw [MvnEinet.density_eq hw hp hX hm hk]
    have e := Model.outP_mul hw.net (one_ne_zero (α := ℝ)) (fun c b => if b ∈ l then 1 else
      gaussianPDF 0 1 (X c (b * 2)).val * gaussianPDF 0 1 (X c (b * 2 + 1)).val) (fun _ _ _ _ => 1) hk
    simp only [mul_one] at e
    rw [Model.outP_one hw.net hk, mul_one] at e
    refine Eq.trans ?_ (e.trans ?_)
    · congr 1
      funext c b i r
      rw [std_blockP hcard hθ]
    · rw [hw.features, hw.channels, hout, hC, Finset.prod_range_succ, Finset.prod_range_one, Finset.prod_range_one,
        Finset.prod_range_one]
  refine ⟨_, _, _, E, exParams_random _, h, rfl, rfl, hF, hC, by rw [hcl]; rfl, fun X => ⟨?_, ?_⟩⟩
  · obtain ⟨l, hl1, hl2⟩ := MvnEinet.marg_tensor (E := E) (s := ⟨false, [0]⟩) hw.card hp rfl ⟨by simp [hF], by simp⟩
    rw [hden _ _ l (fun _ _ _ _ => Fl.isFin_fin _) hl1]
    rw [hF, hcard, hout] at hl2
    rw [if_pos ((hl2 0 (by norm_num)).2 ⟨0, by norm_num, ⟨0, by simp, by simp⟩, rfl⟩), if_neg, one_mul]
    · rfl
    · rw [hl2 1 (by norm_num)]
      rintro ⟨f, hf, ⟨i, hi, h1⟩, h2⟩
      simp at hi
      omega
  · have e : ∀ t : ℝ, E.density none 0 (fun _ f => .fin (if f = 0 then t else X f)) =
        (gaussianPDF 0 1 (X 1) * (gaussianPDF 0 1 (X 2) * gaussianPDF 0 1 (X 3))) * gaussianPDF 0 1 t := by
      intro t
      rw [hden _ none [] (fun _ _ _ _ => Fl.isFin_fin _) rfl]
      simp only [List.not_mem_nil, if_false, Fl.val]
      norm_num
      ring
    simp only [e]
    rw [lintegral_const_mul _ (measurable_gaussianPDF 0 1), lintegral_gaussianPDF_eq_one 0 one_ne_zero, mul_one]

/-- **C55 is false** of `marginalized_scopes` given as a list (the type of the parameter in the signature) and cardinality 2
or more: `model(x, marginalized_scopes)` raises for every input. -/
theorem C55_refuted_list (c : Config) (P : Params) (θ : MvnParams) (E : MvnEinet)
    (h : buildMvn c P θ = .ok E) (K : ℤ) (hK : c.cardinality = some K) (hK2 : 2 ≤ K) (s : Scopes) (hs : s.isList = true)
    (x : Tensor Fl) : ∃ e, E.forward x (some s) = .error e := by
  cases hf : E.forward x (some s) with
  | error e => exact ⟨e, rfl⟩
  | ok z =>
    obtain ⟨x', y, y', w, h1, _⟩ := MvnEinet.forward_leaf hf
    obtain ⟨K', hK', h1', hF2, hl, hch, _⟩ := buildMvn_leaf h
    rw [hK] at hK'
    cases hK'
    have hc : E.leaf.cardinality = K.toNat := by rw [hl]
    unfold MvnLeaf.forward at h1
    obtain ⟨_, _, h1⟩ := bind_ok h1
    obtain ⟨_, _, h1⟩ := bind_ok h1
    unfold MvnLeaf.marginalize at h1
    obtain ⟨_, h2, _⟩ := bind_ok h1
    unfold MvnLeaf.adjust at h2
    rw [if_pos (by omega)] at h2
    rw [require_false _ (by simp [hs])] at h2
    cases h2

/-- **C55 is false** of NaN entries and cardinality 2 or more: `model(x)` raises for every input with a NaN entry. -/
theorem C55_refuted_nan (c : Config) (P : Params) (θ : MvnParams) (E : MvnEinet)
    (h : buildMvn c P θ = .ok E) (K : ℤ) (hK : c.cardinality = some K) (hK2 : 2 ≤ K) (N : Nat) (x : Tensor Fl)
    (hx : x.shape = [N, E.leaf.num_channels, E.leaf.num_features])
    (hnan : ∃ n, n < N ∧ ∃ c, c < E.leaf.num_channels ∧ ∃ f, f < E.leaf.num_features ∧ x.get [n, c, f] = .nan)
    (ms : Option Scopes) : ∃ e, E.forward x ms = .error e := by
  cases hf : E.forward x ms with
  | error e => exact ⟨e, rfl⟩
  | ok z =>
    obtain ⟨x', y, y', w, h1, _, _, h0⟩ := MvnEinet.forward_leaf hf
    obtain ⟨K', hK', h1', hF2, hl, hch, _⟩ := buildMvn_leaf h
    rw [hK] at hK'
    cases hK'
    have hc : E.leaf.cardinality = K.toNat := by rw [hl]
    have hf' : E.leaf.num_features = c.num_features.toNat := by rw [hl]
    have hp := (MvnLeaf.forward_shape h1).1
    have hm := MvnLeaf.out_mul (L := E.leaf) (by omega) hp
    have hx3 : x.Is3 N ({ E.net with num_features := E.leaf.num_features } : Model).num_channels
        ({ E.net with num_features := E.leaf.num_features } : Model).num_features fun n c f => x.get [n, c, f] := by
      show x.Is3 N E.net.num_channels E.leaf.num_features _
      rw [hch, show c.num_channels.toNat = E.leaf.num_channels by rw [hl]]
      exact Is.is3 (Is.refl x hx) fun _ _ _ _ _ _ => rfl
    rw [Model.prepInput_is hx3] at h0
    cases h0
    unfold MvnLeaf.forward at h1
    obtain ⟨_, _, h1⟩ := bind_ok h1
    obtain ⟨_, h2, h1⟩ := bind_ok h1
    unfold MvnLeaf.putNan at h2
    split_ifs at h2 with hall
    · obtain ⟨n, hn, cc, hcc, f, hff, hv⟩ := hnan
      rw [hx] at hall
      have := (AllIdx_iff _ _).1 hall [n, cc, f] ⟨hn, hcc, hff, trivial⟩
      rw [hv] at this
      cases this
    · obtain ⟨_, h3, _⟩ := bind_ok h2
      by_cases he : x.size 2 = E.leaf.out_features
      · have : x.size 2 = E.leaf.num_features := by simp [size, hx, at']
        rw [this] at he
        rw [← he, hc] at hm
        have h5 : 2 ≤ K.toNat := by omega
        have h6 : 2 ≤ E.leaf.num_features := by omega
        nlinarith
      · rw [require_false _ he] at h3
        cases h3

end Props
end Einet
