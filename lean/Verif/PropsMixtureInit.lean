import Verif.PropsMixture

/-!
# The weights a mixture gets from its training data (C46) and the total mass of its likelihood (C47)
-/

namespace Einet

open Classical

noncomputable section

namespace Props

open Tensor MeasureTheory ENNReal

theorem foldl_max_le (p : List Nat) : ∀ a, a ≤ p.foldl (fun m k => max m (k + 1)) a ∧
    (∀ k ∈ p, k < p.foldl (fun m k => max m (k + 1)) a) ∧
    ∀ n, a ≤ n → (∀ k ∈ p, k < n) → p.foldl (fun m k => max m (k + 1)) a ≤ n := by
  induction p with
  | nil => intro a; exact ⟨le_refl _, by simp, fun n h _ => h⟩
  | cons x p ih =>
    intro a
    obtain ⟨h1, h2, h3⟩ := ih (max a (x + 1))
    refine ⟨by simp only [List.foldl_cons]; omega, ?_, ?_⟩
    · intro k hk
      rcases List.mem_cons.1 hk with rfl | hk
      · simp only [List.foldl_cons]; omega
      · exact h2 k hk
    · intro n ha hn
      refine h3 n ?_ fun k hk => hn k (List.mem_cons_of_mem _ hk)
      have := hn x List.mem_cons_self
      omega

theorem sum_count (p : List Nat) (n : Nat) (h : ∀ k ∈ p, k < n) : ∑ k ∈ Finset.range n, p.count k = p.length := by
  induction p with
  | nil => simp
  | cons x p ih =>
    simp only [List.count_cons, List.length_cons, Finset.sum_add_distrib]
    rw [ih fun k hk => h k (List.mem_cons_of_mem _ hk)]
    congr 1
    simp only [beq_iff_eq]
    rw [Finset.sum_ite_eq, if_pos (Finset.mem_range.2 (h x List.mem_cons_self))]

theorem bincount_spec (p : List Nat) : (∀ k, (Mixture.bincount p).getD k 0 = p.count k) ∧
    (Mixture.bincount p).sum = p.length ∧ (∀ n, (∀ k ∈ p, k < n) → (Mixture.bincount p).length ≤ n) := by
  obtain ⟨-, h2, h3⟩ := foldl_max_le p 0
  unfold Mixture.bincount
  refine ⟨fun k => ?_, ?_, fun n hn => ?_⟩
  · rcases lt_or_ge k (p.foldl (fun m k => max m (k + 1)) 0) with hk | hk
    · simp [List.getD, hk]
    · have : k ∉ p := fun hm => absurd (h2 k hm) (by omega)
      simp [List.getD, hk, List.count_eq_zero_of_not_mem this]
  · rw [← sum_count p _ h2]; rfl
  · simpa using h3 n (Nat.zero_le _) hn

/-- **C46** (part): after `initialize`, component `k` has as weight the fraction of the training rows that the clustering
assigned to cluster `k`, the weights are non-negative and sum to one, so that `sample` can use them.  Missing: one weight per
component (`C46_refuted_number`). -/
theorem C46_weights_partial (X : Mixture) (p : List Nat) (hp : p ≠ []) (hlt : ∀ k ∈ p, k < X.models.length)
    (cs : List (List Fl)) (t : Option ℝ) : ∃ w, Weights (X.init p cs t) w ∧ w.sum = 1 ∧
      ∀ k, w.getD k 0 = (p.countP fun j => j = k : ℕ) / (p.length : ℝ) := by
  obtain ⟨h1, h2, h3⟩ := bincount_spec p
  have hN : (p.length : ℝ) ≠ 0 := by
    have := List.length_pos_iff.2 hp
    positivity
  have hsum : ((Mixture.bincount p).map fun k : ℕ => (k : ℝ) / (p.length : ℝ)).sum = 1 := by
    have : ∀ l : List ℕ, (l.map fun k : ℕ => (k : ℝ) / (p.length : ℝ)).sum = (l.sum : ℕ) / (p.length : ℝ) := by
      intro l
      induction l with
      | nil => simp
      | cons a l ih => simp [ih, add_div]
    rw [this, h2, div_self hN]
  refine ⟨(Mixture.bincount p).map fun k : ℕ => (k : ℝ) / (p.length : ℝ), ⟨?_, ?_, ?_, ?_⟩, hsum, fun k => ?_⟩
  · unfold Mixture.init Mixture.weightsOf
    dsimp only
    rw [h2, List.map_map]
    refine List.map_congr_left fun k _ => ?_
    exact Fl.fin_div _ hN
  · simp only [List.mem_map]
    rintro v ⟨k, -, rfl⟩
    positivity
  · rw [hsum]; exact one_pos
  · rw [List.length_map]; exact h3 _ hlt
  · have : ((Mixture.bincount p).map fun k : ℕ => (k : ℝ) / (p.length : ℝ)).getD k 0 =
        ((Mixture.bincount p).getD k 0 : ℝ) / (p.length : ℝ) := by
      rcases lt_or_ge k (Mixture.bincount p).length with hk | hk
      · simp [List.getD, hk]
      · simp [List.getD, hk]
    rw [this, h1, List.count]
    congr 3

/-- the sampler uses each component with the relative frequency of its cluster in the training data. -/
theorem C46_sampled (X : Mixture) (p : List Nat) (hp : p ≠ []) (hlt : ∀ k ∈ p, k < X.models.length)
    (cs : List (List Fl)) (t : Option ℝ) : ∃ w, Weights (X.init p cs t) w ∧
      ∀ k, weight w k = ENNReal.ofReal ((p.countP fun j => j = k : ℕ) / (p.length : ℝ)) := by
  obtain ⟨w, h1, h2, h3⟩ := C46_weights_partial X p hp hlt cs t
  refine ⟨w, h1, fun k => ?_⟩
  unfold weight
  rw [h2, div_one, h3]

/-- **C46 is false** for the number of weights: in every mixture, if no training row is assigned to the last cluster, then
there are fewer weights than components. -/
theorem C46_refuted_number (X : Mixture) (p : List Nat) (hlt : ∀ k ∈ p, k + 1 < X.models.length)
    (hX : 0 < X.models.length) (cs : List (List Fl)) (t : Option ℝ) :
    (X.init p cs t).mixture_weights.length < (X.init p cs t).models.length := by
  have := (bincount_spec p).2.2 (X.models.length - 1) fun k hk => by have := hlt k hk; omega
  unfold Mixture.init Mixture.weightsOf
  dsimp only
  rw [List.length_map]
  omega

/-- a mixture remains one when it is initialised from centroids of the right size. -/
theorem IsMixture.init {c : Config} {P : Nat → Params} {X : Mixture} (hX : IsMixture c P X) (p : List Nat)
    (cs : List (List Fl)) (t : Option ℝ) (h1 : cs.length = X.models.length)
    (h2 : ∀ l ∈ cs, l.length = c.num_channels.toNat * c.num_features.toNat) : IsMixture c P (X.init p cs t) := by
  refine ⟨hX.random, hX.good, hX.built, hX.features, ?_, ?_, hX.nearest⟩
  · cases t <;> simp [Mixture.init, h1]
  · cases t with
    | none => exact h2
    | some t =>
      intro l hl
      simp only [Mixture.init, List.mem_map] at hl
      obtain ⟨l', hl', rfl⟩ := hl
      rw [List.length_map]
      exact h2 l' hl'

/-- the hypotheses are met: three components, eight training rows, one cluster empty, and the last cluster empty. -/
example : ∃ X, IsMixture (exConfig "einsum" "top-down") (fun _ => exParams exLeaf) X ∧ X.models.length = 3 ∧
    (∀ k ∈ [2, 0, 0, 2, 2, 2, 0, 2], k < X.models.length) ∧ ∀ k ∈ [1, 0, 0, 1, 0], k + 1 < X.models.length := by
  obtain ⟨X, h, h3, -⟩ := exMixture "einsum" "top-down" (Or.inl ⟨Or.inr (Or.inr rfl), rfl⟩)
  exact ⟨X, h, h3, by rw [h3]; simp, by rw [h3]; simp⟩

/-! ### C47 -/

/-- **C47** (part): with one component the mixture returns what the component returns, whose densities integrate to one
(`C01_density_integral`).  Missing: more components (`C47_refuted`). -/
theorem C47_single_partial (c : Config) (P : Nat → Params) (X : Mixture) (hX : IsMixture c P X) (h1 : X.models.length = 1)
    (N : Nat) (hN : 0 < N) (x : Tensor Fl) (hx : ∀ k, Batch (P k).leaf N c.num_channels.toNat c.num_features.toNat x) :
    ∃ y M z, X.forward x none = .ok y ∧ X.models[0]? = some M ∧ M.forward x none = .ok z ∧
      ∀ i, i < N → ∀ k, k < c.num_classes.toNat → y.get [i, k] = z.get [i, k] := by
  obtain ⟨y, hy, -, h2⟩ := hX.forward_rows hN hx none
  have hM := List.getElem?_eq_getElem hX.pos
  obtain ⟨e1, e2, e3⟩ := hX.sizes hM
  obtain ⟨z, hz, _, hz2⟩ := build_forward (hX.random _) (hX.good _) (hX.model hM) (N := N) (x := x) (ms := none) (sc := none)
    (by rw [e1, e2]; exact hx 0) rfl
  refine ⟨y, _, z, hy, hM, hz, fun i hi k hk => ?_⟩
  obtain ⟨M', hM', h⟩ := h2 i hi
  obtain ⟨hk', e⟩ := List.getElem?_eq_some_iff.1 hM'
  rw [h k hk, hz2 i hi k (by rw [e3]; exact hk), ← e]
  congr 2
  omega

/-- **C47 is false**: for some mixture of two components over two binary features, the densities of the four possible rows sum
to 35/36. -/
theorem C47_refuted : ∃ (c : Config) (P : Nat → Params) (X : Mixture) (y : Bool → Bool → Tensor Fl), IsMixture c P X ∧
    c.num_channels = 1 ∧ c.num_features = 2 ∧ X.models.length = 2 ∧
    (∀ a b, X.forward (wRow (if a then 1 else 0) (if b then 1 else 0)) none = .ok (y a b)) ∧
    ∑ a, ∑ b, toP ((y a b).get [0, 0]) = ENNReal.ofReal (35 / 36) := by
  obtain ⟨M, hM, hX⟩ := wMix_exists 2 (by norm_num) []
  have h01 : ∀ a : Bool, (if a then (1 : ℝ) else 0) = 0 ∨ (if a then (1 : ℝ) else 0) = 1 := by
    intro a; cases a <;> simp
  choose y hy h0 h1 using fun a b : Bool => hX.forward_rows one_pos (wRow_batch (h01 a) (h01 b)) none
  refine ⟨_, _, _, y, hX, rfl, rfl, by simp, hy, ?_⟩
  have hv : ∀ a b : Bool, toP ((y a b).get [0, 0]) = ENNReal.ofReal
      ((Wit0.val (.fin (if a then 1 else 0)) 0 * Wit0.val (.fin (if b then 1 else 0)) 0 + (if a then 1 else 2) *
        (Wit0.val (.fin (if a then 1 else 0)) 1 * Wit0.val (.fin (if b then 1 else 0)) 1)) / (if a then 2 else 3)) := by
    intro a b
    obtain ⟨M', hM', h2⟩ := h1 a b 0 one_pos
    rw [h2 0 (by simp [wConfig])]
    cases a
    · have : M 1 = M' := by simpa [clusterOf, exNear, keptCols, wConfig, wRow, at', List.range_succ] using hM'
      rw [← this, wRow_out (hM 1) (h01 _) (h01 _)]
      simp
    · have : M 0 = M' := by simpa [clusterOf, exNear, keptCols, wConfig, wRow, at', List.range_succ] using hM'
      rw [← this, wRow_out (hM 0) (h01 _) (h01 _)]
      simp
  simp only [hv, Fintype.sum_bool]
  have hp : ∀ a b c d : ℝ, 0 ≤ a → 0 ≤ b → 0 ≤ c → 0 ≤ d → ENNReal.ofReal a + ENNReal.ofReal b +
      (ENNReal.ofReal c + ENNReal.ofReal d) = ENNReal.ofReal (a + b + (c + d)) := by
    intro a b c d ha hb hc hd
    rw [ENNReal.ofReal_add (by positivity) (by positivity), ENNReal.ofReal_add ha hb, ENNReal.ofReal_add hc hd]
  rw [hp _ _ _ _ (by simp [Wit0.val, wProb]; norm_num) (by simp [Wit0.val, wProb]; norm_num) (by simp [Wit0.val, wProb]; norm_num)
    (by simp [Wit0.val, wProb]; norm_num)]
  congr 1
  simp [Wit0.val, wProb]
  norm_num

end Props
end
end Einet
