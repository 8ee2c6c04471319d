import Verif.PropsExactLaw
import Verif.MvnFwd

/-!
# C86: an einet is a mixture of independent features

The likelihood is a convex combination of products with exactly one leaf density per entry, with weights that do not depend on the
data.  Consequences: bounds, and every entry counts exactly once.
-/

open Classical MeasureTheory ProbabilityTheory
open scoped ENNReal
noncomputable section
namespace Einet
open Tensor

/-! ### Specification -/

/-- likelihood of row `n` of `x` when the features are independent and feature `f` has component `κ f` of repetition `r`; missing entries
count one. -/
def factorised (M : Model) (x : Tensor Fl) (n : Nat) (r : Nat) (κ : Nat → Nat) : ℝ≥0∞ :=
  ∏ f ∈ Finset.range M.num_features, ∏ c ∈ Finset.range M.num_channels, Props.cell M (x.get [n, c, f]) c f (κ f) r

namespace Props
open Tensor Einet

/-- **C86**: for every class there are weights of sum one, the same for all data, with which the likelihood of every row is the mixture of
products of leaf densities, one factor for every entry. -/
theorem C86_mixture (c : Config) (P : Params) (hP : P.Random) (hg : P.leaf.Good) (M : Model) (h : build c P = .ok M) (k : Nat)
    (hk : k < M.num_classes) :
    ∃ w : Nat → (Fin M.num_features → Fin M.num_leaves) → ℝ≥0∞,
      ∑ r ∈ Finset.range M.num_repetitions, ∑ κ, w r κ = 1 ∧
      ∀ N x, Batch P.leaf N M.num_channels M.num_features x → ∀ n, n < N → ∃ y v, M.forward x = .ok y ∧ y.get [n, k] = .fin v ∧
        ENNReal.ofReal (Real.exp v) = ∑ r ∈ Finset.range M.num_repetitions, ∑ κ : Fin M.num_features → Fin M.num_leaves,
          w r κ * factorised M x n r fun f => if hf : f < M.num_features then κ ⟨f, hf⟩ else 0 := by
  obtain ⟨-, hw, hp, _⟩ := build_WF hP h
  have hp := hp hg
  have hfr := hw.front
  let comp : Nat → Choice M → Fin M.num_features → Fin M.num_leaves := fun r κ f =>
    if hr : r < M.num_repetitions then ⟨κ.of (M.grpF (buildGroups c P) r f), κ.of_lt (hfr.grpF_lt hr f.2)⟩ else ⟨0, hw.leaves_pos⟩
  have hfib : ∀ (r : Nat) (F : Choice M → (Fin M.num_features → Fin M.num_leaves) → ℝ≥0∞),
      ∑ κ' : Fin M.num_features → Fin M.num_leaves, ∑ κ : Choice M, (if comp r κ = κ' then F κ κ' else 0) = ∑ κ : Choice M, F κ (comp r κ) := by
    intro r F
    rw [Finset.sum_comm]
    refine Finset.sum_congr rfl fun κ _ => ?_
    rw [Finset.sum_ite_eq]
    simp
  refine ⟨fun r κ' => ∑ κ : Choice M, if comp r κ = κ' then repShare M 1 k r * choiceShare M 1 k r κ else 0, ?_, ?_⟩
  · rw [← shares_sum hw one_ne_zero hk]
    exact Finset.sum_congr rfl fun r _ => hfib r fun κ _ => repShare M 1 k r * choiceShare M 1 k r κ
  · intro N x hx n hn
    obtain ⟨y, hy, _, hv⟩ := build_forward hP hg h hx (ms := none) rfl
    obtain ⟨⟨v, hfin⟩, -⟩ := build_outRow hP hg h (hx.2 n hn) (sc := none) (fun _ _ _ _ e => e) hk
    have hobs := (build_observed hP h).2 (hx.2 n hn)
    refine ⟨y, v, hy, by rw [hv n hn k hk, hfin], ?_⟩
    have hent : ∀ ch, ch < M.num_channels → ∀ f, f < M.num_features → ∀ i, i < M.num_leaves → ∀ r, r < M.num_repetitions →
        (M.leaf.base.entry none (x.get [n, ch, f]) ch f i r).IsFin ∧
        toP (M.leaf.base.entry none (x.get [n, ch, f]) ch f i r) = cell M (x.get [n, ch, f]) ch f i r := by
      intro ch hc f hf i hi r hr
      have := Model.entry_none hp (c := ch) (f := f) (i := i) (r := r) (by rw [hfr.channels]; exact hc) (by rw [hfr.features]; exact hf)
        (by rw [hfr.leaves]; exact hi) (by rw [hfr.reps]; exact hr) hobs
      refine ⟨this.1, ?_⟩
      unfold cell
      rcases hobs ch (by rw [hfr.channels]; exact hc) f (by rw [hfr.features]; exact hf) with e | ⟨z, e, hz⟩
      · have e : x.get [n, ch, f] = .nan := e
        rw [e]; simp [BaseLeaf.entry, Fl.isnan]
      · have e : x.get [n, ch, f] = .fin z := e
        obtain ⟨q, hq⟩ := hp.isFin ch (by rw [hfr.channels]; exact hc) f (by rw [hfr.features]; exact hf) i (by rw [hfr.leaves]; exact hi) r
          (by rw [hfr.reps]; exact hr) z hz
        rw [e]
        simp [BaseLeaf.entry, Fl.isnan, hq]
    have e1 := (Model.outRow_den hw (b := true) (fun _ => rfl) (sc := none) (X := fun ch f => x.get [n, ch, f])
      (fun ch hc f hf i hi r hr => (hent ch hc f hf i hi r hr).1) hk).2
    rw [hfin] at e1
    rw [show ENNReal.ofReal (Real.exp v) = toP (.fin v) from rfl, e1, Model.outP_eq, topP_expand hw one_ne_zero _ hk]
    refine Finset.sum_congr rfl fun r hr => ?_
    have hr' : r < M.num_repetitions := by simpa using hr
    simp only [Finset.sum_mul, ite_mul, zero_mul]
    rw [hfib r fun κ κ' => repShare M 1 k r * choiceShare M 1 k r κ * factorised M x n r fun f => if hf : f < M.num_features then κ' ⟨f, hf⟩ else 0]
    refine Finset.sum_congr rfl fun κ _ => ?_
    rw [Model.prod_regionP hfr hr']
    congr 1
    refine Finset.prod_congr rfl fun f hf => Finset.prod_congr rfl fun ch hc => ?_
    have hf' : f < M.num_features := by simpa using hf
    have hc' : ch < M.num_channels := by simpa using hc
    simp only [comp, dif_pos hf', dif_pos hr']
    exact (hent ch hc' f hf' _ (κ.of_lt (hfr.grpF_lt hr' hf')) r hr').2

/-- **C86**, bounds: a row is not more likely than the product of the largest densities of its entries over all components, and not less likely
than the product of the smallest ones. -/
theorem C86_bounds (c : Config) (P : Params) (hP : P.Random) (hg : P.leaf.Good) (M : Model) (h : build c P = .ok M) (N : Nat) (x : Tensor Fl)
    (hx : Batch P.leaf N M.num_channels M.num_features x) (n : Nat) (hn : n < N) (k : Nat) (hk : k < M.num_classes) (lo hi : Nat → Nat → ℝ≥0∞)
    (hb : ∀ ch, ch < M.num_channels → ∀ f, f < M.num_features → ∀ i, i < M.num_leaves → ∀ r, r < M.num_repetitions →
      lo ch f ≤ cell M (x.get [n, ch, f]) ch f i r ∧ cell M (x.get [n, ch, f]) ch f i r ≤ hi ch f) :
    ∃ y v, M.forward x = .ok y ∧ y.get [n, k] = .fin v ∧
      ∏ f ∈ Finset.range M.num_features, ∏ ch ∈ Finset.range M.num_channels, lo ch f ≤ ENNReal.ofReal (Real.exp v) ∧
      ENNReal.ofReal (Real.exp v) ≤ ∏ f ∈ Finset.range M.num_features, ∏ ch ∈ Finset.range M.num_channels, hi ch f := by
  obtain ⟨w, h1, h2⟩ := C86_mixture c P hP hg M h k hk
  obtain ⟨y, v, hy, hv, e⟩ := h2 N x hx n hn
  refine ⟨y, v, hy, hv, ?_⟩
  rw [e]
  have hF : ∀ r ∈ Finset.range M.num_repetitions, ∀ κ : Fin M.num_features → Fin M.num_leaves,
      (∏ f ∈ Finset.range M.num_features, ∏ ch ∈ Finset.range M.num_channels, lo ch f ≤
        factorised M x n r fun f => if hf : f < M.num_features then κ ⟨f, hf⟩ else 0) ∧
      (factorised M x n r fun f => if hf : f < M.num_features then κ ⟨f, hf⟩ else 0) ≤
        ∏ f ∈ Finset.range M.num_features, ∏ ch ∈ Finset.range M.num_channels, hi ch f := by
    intro r hr κ
    have hin : ∀ f ∈ Finset.range M.num_features, ∀ ch ∈ Finset.range M.num_channels, _ := fun f hf ch hc =>
      hb ch (by simpa using hc) f (by simpa using hf) (if hf : f < M.num_features then κ ⟨f, hf⟩ else 0) (by
        rw [dif_pos (by simpa using hf)]; exact Fin.is_lt _) r (by simpa using hr)
    exact ⟨Finset.prod_le_prod' fun f hf => Finset.prod_le_prod' fun ch hc => (hin f hf ch hc).1,
      Finset.prod_le_prod' fun f hf => Finset.prod_le_prod' fun ch hc => (hin f hf ch hc).2⟩
  constructor
  · rw [← one_mul (∏ f ∈ _, _), ← h1, Finset.sum_mul]
    refine Finset.sum_le_sum fun r hr => ?_
    rw [Finset.sum_mul]
    exact Finset.sum_le_sum fun κ _ => mul_le_mul_right ((hF r hr κ).1) _
  · refine le_of_le_of_eq ?_ (one_mul (∏ f ∈ _, _))
    rw [← h1, Finset.sum_mul]
    refine Finset.sum_le_sum fun r hr => ?_
    rw [Finset.sum_mul]
    exact Finset.sum_le_sum fun κ _ => mul_le_mul_right ((hF r hr κ).2) _

/-- **C86**: if all components of every entry agree, the weights do not matter: every entry counts exactly once. -/
theorem C86_agree (c : Config) (P : Params) (hP : P.Random) (hg : P.leaf.Good) (M : Model) (h : build c P = .ok M) (N : Nat) (x : Tensor Fl)
    (hx : Batch P.leaf N M.num_channels M.num_features x) (n : Nat) (hn : n < N) (k : Nat) (hk : k < M.num_classes) (p : Nat → Nat → ℝ≥0∞)
    (hb : ∀ ch, ch < M.num_channels → ∀ f, f < M.num_features → ∀ i, i < M.num_leaves → ∀ r, r < M.num_repetitions →
      cell M (x.get [n, ch, f]) ch f i r = p ch f) :
    ∃ y v, M.forward x = .ok y ∧ y.get [n, k] = .fin v ∧
      ENNReal.ofReal (Real.exp v) = ∏ f ∈ Finset.range M.num_features, ∏ ch ∈ Finset.range M.num_channels, p ch f := by
  obtain ⟨y, v, h1, h2, h3, h4⟩ := C86_bounds c P hP hg M h N x hx n hn k hk p p fun ch hc f hf i hi r hr => by
    rw [hb ch hc f hf i hi r hr]; exact ⟨le_rfl, le_rfl⟩
  exact ⟨y, v, h1, h2, le_antisymm h4 h3⟩

/-- number of known entries of row `n`. -/
def knownEntries (M : Model) (x : Tensor Fl) (n : Nat) : Nat :=
  ∑ f ∈ Finset.range M.num_features, ∑ ch ∈ Finset.range M.num_channels, if x.get [n, ch, f] = .nan then 0 else 1

theorem gauss_bound {c : Config} {P : Params} (hP : P.Random) (hg : P.leaf.Good) {M : Model} (h : build c P = .ok M) {N : Nat} {x : Tensor Fl}
    (hx : Batch P.leaf N M.num_channels M.num_features x) {n : Nat} (hn : n < N) {k : Nat} (hk : k < M.num_classes) {mu sg : Par} {s : ℝ}
    (hs : 0 < s) (hM : ∀ d f i r, M.leaf.base.logProb d f i r = normalLogProb (mu d f i r) (sg d f i r)) (hsg : ∀ d f i r, s ≤ sg d f i r) :
    ∃ y v, M.forward x = .ok y ∧ y.get [n, k] = .fin v ∧ v ≤ knownEntries M x n * (-Real.log (s * √(2 * Real.pi))) := by
  set B : ℝ := -Real.log (s * √(2 * Real.pi)) with hB
  have hpi : 0 < √(2 * Real.pi) := Real.sqrt_pos.2 (by positivity)
  obtain ⟨y, v, h1, h2, -, h4⟩ := C86_bounds c P hP hg M h N x hx n hn k hk (fun _ _ => 0)
    (fun ch f => ENNReal.ofReal (Real.exp (if x.get [n, ch, f] = .nan then 0 else B))) fun ch hc f hf i hi r hr => by
      refine ⟨zero_le, ?_⟩
      unfold cell
      rcases hx.2 n hn ch hc f hf with e | ⟨z, e, hz⟩
      · rw [if_pos e, if_pos e]; simp
      · have e : x.get [n, ch, f] = .fin z := e
        rw [e, if_neg (by simp), if_neg (by simp), hM]
        refine ENNReal.ofReal_le_ofReal (Real.exp_le_exp.2 ?_)
        have h3 : Real.log s ≤ Real.log (sg ch f i r) := Real.log_le_log hs (hsg _ _ _ _)
        have h5 : -((z - mu ch f i r) ^ 2) / (2 * sg ch f i r ^ 2) ≤ 0 :=
          div_nonpos_of_nonpos_of_nonneg (neg_nonpos.2 (sq_nonneg _)) (by positivity)
        rw [hB, Real.log_mul hs.ne' hpi.ne']
        linarith
  refine ⟨y, v, h1, h2, ?_⟩
  have e : ∏ f ∈ Finset.range M.num_features, ∏ ch ∈ Finset.range M.num_channels,
      ENNReal.ofReal (Real.exp (if x.get [n, ch, f] = .nan then 0 else B)) = ENNReal.ofReal (Real.exp (knownEntries M x n * B)) := by
    unfold knownEntries
    push_cast
    simp only [Finset.sum_mul]
    rw [Real.exp_sum, ENNReal.ofReal_prod_of_nonneg fun _ _ => (Real.exp_pos _).le]
    refine Finset.prod_congr rfl fun f _ => ?_
    rw [Real.exp_sum, ENNReal.ofReal_prod_of_nonneg fun _ _ => (Real.exp_pos _).le]
    refine Finset.prod_congr rfl fun ch _ => ?_
    split_ifs <;> simp
  rw [e, ENNReal.ofReal_le_ofReal_iff (Real.exp_pos _).le] at h4
  exact Real.exp_le_exp.1 h4

/-- **C86** for `Normal` leaves: if no standard deviation is below `s`, no log-likelihood exceeds `-log(s·√(2π))` per known entry. -/
theorem C86_normal (c : Config) (P : Params) (hP : P.Random) (m lv : Par) (hl : P.leaf = .normal m lv) (M : Model) (h : build c P = .ok M)
    (N : Nat) (x : Tensor Fl) (hx : Batch P.leaf N M.num_channels M.num_features x) (n : Nat) (hn : n < N) (k : Nat) (hk : k < M.num_classes)
    (s : ℝ) (hs : 0 < s) (hsd : ∀ d f i r, s ≤ Real.exp (1 / 2 * lv d f i r)) :
    ∃ y v, M.forward x = .ok y ∧ y.get [n, k] = .fin v ∧ v ≤ knownEntries M x n * (-Real.log (s * √(2 * Real.pi))) := by
  have hb := build_leaf hP h
  rw [hl] at hb
  unfold LeafSpec.build at hb
  obtain ⟨_, _, hb⟩ := bind_ok hb
  simp only [Res.pure_eq, Except.ok.injEq] at hb
  refine gauss_bound hP (by rw [hl]; trivial) h hx hn hk hs (mu := m) (sg := fun d f i r => Real.exp (1 / 2 * lv d f i r)) (fun d f i r => ?_) hsd
  rw [← hb]
  rfl

/-- **C86** for `RatNormal` leaves: with `0 < min_sigma < max_sigma` the bound holds with `min_sigma`, whatever is learned. -/
theorem C86_ratNormal (c : Config) (P : Params) (hP : P.Random) (smin smax : ℝ) (mmin mmax : Option ℝ) (m sd : Par)
    (hl : P.leaf = .ratNormal smin smax mmin mmax m sd) (h0 : 0 < smin) (h1 : smin < smax) (M : Model) (h : build c P = .ok M)
    (N : Nat) (x : Tensor Fl) (hx : Batch P.leaf N M.num_channels M.num_features x) (n : Nat) (hn : n < N) (k : Nat) (hk : k < M.num_classes) :
    ∃ y v, M.forward x = .ok y ∧ y.get [n, k] = .fin v ∧ v ≤ knownEntries M x n * (-Real.log (smin * √(2 * Real.pi))) := by
  have hb := build_leaf hP h
  rw [hl] at hb
  unfold LeafSpec.build at hb
  obtain ⟨_, _, hb⟩ := bind_ok hb
  obtain ⟨_, _, hb⟩ := bind_ok hb
  obtain ⟨_, _, hb⟩ := bind_ok hb
  obtain ⟨_, _, hb⟩ := bind_ok hb
  obtain ⟨_, _, hb⟩ := bind_ok hb
  obtain ⟨_, hreq, hb⟩ := bind_ok hb
  simp only [Res.pure_eq, Except.ok.injEq] at hb
  have hreq := (require_ok_iff _ _).1 hreq
  refine gauss_bound hP (by rw [hl]; exact ⟨h0.le, h0.trans h1⟩) h hx hn hk h0 (mu := fun d f i r => (match ratProject smin smax mmin mmax (m d f i r) (sd d f i r) with
      | .ok p => p
      | .error _ => (0, 1)).1) (sg := fun d f i r => (match ratProject smin smax mmin mmax (m d f i r) (sd d f i r) with
      | .ok p => p
      | .error _ => (0, 1)).2) (fun d f i r => ?_) fun d f i r => ?_
  · rw [← hb]
    rfl
  · have hsig : smin ≤ smin + (smax - smin) * Real.sigmoid (sd d f i r) := by
      have := Real.sigmoid_pos (sd d f i r)
      nlinarith
    have hok : ∃ p, ratProject smin smax mmin mmax (m d f i r) (sd d f i r) = .ok p ∧ p.2 = smin + (smax - smin) * Real.sigmoid (sd d f i r) := by
      unfold ratProject
      rw [if_pos h1]
      cases mmax with
      | none => exact ⟨_, rfl, rfl⟩
      | some hi =>
        dsimp only
        split_ifs with hz
        · exact ⟨_, rfl, rfl⟩
        · cases mmin with
          | none => exact absurd rfl (hreq hi rfl hz)
          | some lo => exact ⟨_, rfl, rfl⟩
    obtain ⟨p, hp1, hp2⟩ := hok
    rw [hp1]
    dsimp only
    rw [hp2]
    exact hsig

/-- normal leaves with standard deviation one whose means depend on the entry only. -/
def agreeLeaf : LeafSpec := .normal (fun c f _ _ => c + 2 * f) fun _ _ _ _ => 0

theorem agree_batch : Batch (exParams agreeLeaf).leaf 3 2 5 exBatch := by
  refine ⟨rfl, fun n _ c _ f _ => ?_⟩
  by_cases e : n = 2 ∨ n = 1 ∧ f = 3
  · left; simp [exBatch, at', e]
  · right; exact ⟨_, if_neg (by simpa [at'] using e), by simp [exParams, agreeLeaf, LeafSpec.InSupport]⟩

/-- the hypotheses of `C86_normal` and `C86_agree` hold for a model with five features, two channels, four components and two repetitions. -/
example : ∃ M, build (exConfig "einsum" "top-down") (exParams agreeLeaf) = .ok M ∧
    Batch (exParams agreeLeaf).leaf 3 M.num_channels M.num_features exBatch ∧ 0 < knownEntries M exBatch 1 ∧
    (∀ _ _ _ _ : Nat, (1 : ℝ) ≤ Real.exp (1 / 2 * 0)) ∧
    ∀ ch f i r i' r', cell M (exBatch.get [1, ch, f]) ch f i r = cell M (exBatch.get [1, ch, f]) ch f i' r' := by
  obtain ⟨M, h⟩ := exConfig_builds (l := "einsum") (s := "top-down") (leaf := agreeLeaf) (Or.inl ⟨Or.inr (Or.inr rfl), rfl⟩)
    ⟨normalLeaf _ _ _, by simp [agreeLeaf, LeafSpec.build]; rfl⟩
  have hz := (build_WF (exParams_random _) h).1
  have hC : M.num_channels = 2 := by rw [hz.channels]; rfl
  have hF : M.num_features = 5 := by rw [hz.features]; rfl
  refine ⟨M, h, by rw [hC, hF]; exact agree_batch, ?_, fun _ _ _ _ => by simp, ?_⟩
  · unfold knownEntries
    rw [hC, hF]
    refine Finset.sum_pos' (fun _ _ => Nat.zero_le _) ⟨0, by simp, ?_⟩
    refine Finset.sum_pos' (fun _ _ => Nat.zero_le _) ⟨0, by simp, ?_⟩
    simp [exBatch, at']
  · intro ch f i r i' r'
    have hb := build_leaf (exParams_random _) h
    rw [show (exParams agreeLeaf).leaf = .normal (fun c f _ _ => c + 2 * f) fun _ _ _ _ => 0 from rfl] at hb
    unfold LeafSpec.build at hb
    obtain ⟨_, _, hb⟩ := bind_ok hb
    simp only [Res.pure_eq, Except.ok.injEq] at hb
    unfold cell
    rw [← hb]
    rfl

end Props
end Einet
