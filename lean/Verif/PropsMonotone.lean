import Verif.PropsTrain

/-!
# C79: probabilities of discrete data

With `Binomial`, `Bernoulli` or `Categorical` leaves the outputs are logarithms of probabilities: they are not positive, and an
observation with fewer known entries is at least as probable.
-/

open Classical
noncomputable section
namespace Einet
open Tensor MeasureTheory ENNReal

/-! ### Specification -/

/-- leaf classes with finitely many values. -/
def LeafSpec.Discrete : LeafSpec → Prop
  | .normal _ _ => False
  | .ratNormal _ _ _ _ _ _ => False
  | _ => True

/-- `x'` is `x` with further entries missing. -/
def Forgets (N C F : Nat) (x x' : Tensor Fl) : Prop :=
  x.shape = [N, C, F] ∧ x'.shape = [N, C, F] ∧ ∀ n, n < N → ∀ c, c < C → ∀ f, f < F →
    x'.get [n, c, f] = x.get [n, c, f] ∨ x'.get [n, c, f] = .nan

/-! ### Lemmas -/

theorem outerPi_mono {ι : Type} [Fintype ι] {α : ι → Type} {m m' : ∀ i, OuterMeasure (α i)} (h : ∀ i, m i ≤ m' i) :
    OuterMeasure.pi m ≤ OuterMeasure.pi m' := by
  refine OuterMeasure.le_boundedBy.2 fun s => (OuterMeasure.boundedBy_le s).trans ?_
  exact Finset.prod_le_prod' fun i _ => h i _

theorem measurePi_mono {ι : Type} [Fintype ι] {α : ι → Type} [∀ i, MeasurableSpace (α i)] {μ ν : ∀ i, Measure (α i)}
    (h : ∀ i, μ i ≤ ν i) : Measure.pi μ ≤ Measure.pi ν := by
  refine Measure.le_iff.2 fun s hs => ?_
  rw [Measure.pi_def, Measure.pi_def, toMeasure_apply _ _ hs, toMeasure_apply _ _ hs]
  exact outerPi_mono (fun i => Measure.le_iff'.1 (h i)) s

/-- every value of the support is counted once. -/
theorem LeafSpec.dirac_le_ref {s : LeafSpec} (hd : s.Discrete) {x : ℝ} (hx : s.InSupport x) : Measure.dirac x ≤ s.ref := by
  have key : ∀ (n : Nat) (k : Nat), k < n → Measure.dirac (k : ℝ) ≤ ∑ j ∈ Finset.range n, Measure.dirac (j : ℝ) := by
    intro n k hk
    refine Finset.single_le_sum (f := fun j : Nat => Measure.dirac (j : ℝ)) (fun _ _ => Measure.zero_le _) (Finset.mem_range.2 hk)
  cases s with
  | normal => exact hd.elim
  | ratNormal => exact hd.elim
  | binomial n l =>
    obtain ⟨k, hk, rfl⟩ := hx
    exact key _ k (by omega)
  | bernoulli p =>
    rcases hx with rfl | rfl
    · exact Measure.le_add_right le_rfl
    · exact Measure.le_add_left le_rfl
  | categorical n l =>
    obtain ⟨k, hk, rfl⟩ := hx
    exact key _ k (by omega)

namespace Props

/-- **C79**, monotonicity: an observation with further entries missing is at least as probable, for every class. -/
theorem C79_monotone (c : Config) (P : Params) (hP : P.Random) (hg : P.leaf.Good) (hd : P.leaf.Discrete) (M : Model)
    (h : build c P = .ok M) (N : Nat) (x x' : Tensor Fl) (hx : Batch P.leaf N M.num_channels M.num_features x)
    (hf : Forgets N M.num_channels M.num_features x x') (n : Nat) (hn : n < N) (k : Nat) (hk : k < M.num_classes) :
    ∃ y y' v v', M.forward x = .ok y ∧ M.forward x' = .ok y' ∧ y.get [n, k] = .fin v ∧ y'.get [n, k] = .fin v' ∧ v ≤ v' := by
  have hx' : Batch P.leaf N M.num_channels M.num_features x' := by
    refine ⟨hf.2.1, fun n hn ch hc f hff => ?_⟩
    rcases hf.2.2 n hn ch hc f hff with e | e
    · simp only [e]; exact hx.2 n hn ch hc f hff
    · exact Or.inl e
  obtain ⟨y, v, h1, h2, h3⟩ := C02_marginal c P hP hg M h N x hx n hn k hk
  obtain ⟨y', v', h1', h2', h3'⟩ := C02_marginal c P hP hg M h N x' hx' n hn k hk
  refine ⟨y, y', v, v', h1, h1', h2, h2', ?_⟩
  have hle : ENNReal.ofReal (Real.exp v) ≤ ENNReal.ofReal (Real.exp v') := by
    rw [h3, h3']
    refine lintegral_mono' (measurePi_mono fun ch => measurePi_mono fun f => ?_) le_rfl
    rcases hf.2.2 n hn ch ch.2 f f.2 with e | e
    · rw [e]
    · rw [if_pos e]
      split_ifs with e2
      · exact le_rfl
      · rcases hx.2 n hn ch ch.2 f f.2 with e3 | ⟨w, e3, e4⟩
        · exact absurd e3 e2
        · simp only at e3
          rw [e3]
          exact LeafSpec.dirac_le_ref hd e4
  rw [ENNReal.ofReal_le_ofReal_iff (Real.exp_pos _).le] at hle
  exact Real.exp_le_exp.1 hle

/-- **C79**: the log-likelihoods of discrete data are not positive, with or without missing entries. -/
theorem C79_nonpositive (c : Config) (P : Params) (hP : P.Random) (hg : P.leaf.Good) (hd : P.leaf.Discrete) (M : Model)
    (h : build c P = .ok M) (N : Nat) (x : Tensor Fl) (hx : Batch P.leaf N M.num_channels M.num_features x) (n : Nat) (hn : n < N)
    (k : Nat) (hk : k < M.num_classes) : ∃ y v, M.forward x = .ok y ∧ y.get [n, k] = .fin v ∧ v ≤ 0 := by
  obtain ⟨y, y', v, v', h1, h2, h3, h4, h5⟩ := C79_monotone c P hP hg hd M h N x ⟨[N, M.num_channels, M.num_features], fun _ => .nan⟩ hx
    ⟨hx.1, rfl, fun _ _ _ _ _ _ => Or.inr rfl⟩ n hn k hk
  obtain ⟨y₂, h6, h7⟩ := C02_all_missing c P hP hg M h N ⟨[N, M.num_channels, M.num_features], fun _ => .nan⟩
    ⟨rfl, fun _ _ _ _ _ _ => Or.inl rfl⟩ n hn (fun _ _ _ _ => rfl) k hk
  rw [h2, Except.ok.injEq] at h6
  rw [h6, h7] at h4
  exact ⟨y, v, h1, h3, h5.trans (Fl.fin_injective h4).ge⟩

/-- **C79** for `marginalized_scopes`: leaving features out does not lower the log-likelihood of complete discrete data. -/
theorem C79_scopes (c : Config) (P : Params) (hP : P.Random) (hg : P.leaf.Good) (hd : P.leaf.Discrete) (M : Model)
    (h : build c P = .ok M) (N : Nat) (x : Tensor Fl) (hx : Batch P.leaf N M.num_channels M.num_features x)
    (hnan : ∀ n, n < N → ∀ c, c < M.num_channels → ∀ f, f < M.num_features → x.get [n, c, f] ≠ .nan) (s : Scopes)
    (hs : Usable M.num_features s) (n : Nat) (hn : n < N) (k : Nat) (hk : k < M.num_classes) :
    ∃ y y' v v', M.forward x = .ok y ∧ M.forward x (some s) = .ok y' ∧ y.get [n, k] = .fin v ∧ y'.get [n, k] = .fin v' ∧ v ≤ v' := by
  obtain ⟨y', y₂, h1, h2, -, -, h3⟩ := C03_scopes_eq_nan c P hP hg M h N x hx hnan s hs
  have hfg : Forgets N M.num_channels M.num_features x (withNaN M.num_features s x) := by
    refine ⟨hx.1, hx.1, fun n _ ch _ f _ => ?_⟩
    show (if Listed M.num_features s f then _ else _) = _ ∨ (if Listed M.num_features s f then _ else _) = _
    split_ifs
    · exact Or.inr rfl
    · exact Or.inl rfl
  obtain ⟨y, y₃, v, v', g1, g2, g3, g4, g5⟩ := C79_monotone c P hP hg hd M h N x (withNaN M.num_features s x) hx hfg n hn k hk
  rw [h2, Except.ok.injEq] at g2
  subst g2
  exact ⟨y, y', v, v', g1, h1, g3, by rw [(h3 n hn k hk).2, g4], g5⟩

/-- **C79**, the loss of the generative model on discrete data is not negative. -/
theorem C79_loss (c : Config) (P : Params) (hP : P.Random) (hg : P.leaf.Good) (hd : P.leaf.Discrete) (M : Model)
    (h : build c P = .ok M) (N : Nat) (hN : 0 < N) (x : Tensor Fl) (hx : Batch P.leaf N M.num_channels M.num_features x) :
    ∃ r : ℝ, negativeLogLikelihood M x = .ok (.fin r) ∧ 0 ≤ r := by
  refine ⟨_, negativeLogLikelihood_mean hP hg h hN hx, ?_⟩
  have hle : ∀ n, n < N → ∀ k, k < M.num_classes → Real.log (classProb M k (rowAt x n)) ≤ 0 := by
    intro n hn k hk
    obtain ⟨y, v, h1, h2, h3⟩ := C79_nonpositive c P hP hg hd M h N x hx n hn k hk
    obtain ⟨y', g1, -, g2⟩ := train_forward hP hg h hx
    rw [h1, Except.ok.injEq] at g1
    subst g1
    rw [(g2 n hn k hk).2] at h2
    exact (Fl.fin_injective h2).trans_le h3
  refine div_nonneg (neg_nonneg.2 (Finset.sum_nonpos fun n hn => ?_)) (Nat.cast_nonneg _)
  exact div_nonpos_of_nonpos_of_nonneg (Finset.sum_nonpos fun k hk => hle n (Finset.mem_range.1 hn) k (Finset.mem_range.1 hk)) (Nat.cast_nonneg _)

/-- a model with `Bernoulli` leaves, a batch of two rows, the second with a missing entry, and one with the fourth feature of both rows
missing; the third class. -/
example (l s : String) (h : (l = "linsum" ∨ l = "linsum2" ∨ l = "einsum") ∧ s = "top-down" ∨ l = "linsum" ∧ s = "bottom-up") :
    ∃ M, build (exConfig l s) (exParams (.bernoulli fun _ f i _ => f - i)) = .ok M ∧ 2 < M.num_classes ∧
      Batch (exParams (.bernoulli fun _ f i _ => f - i)).leaf 2 M.num_channels M.num_features
        ⟨[2, 2, 5], fun i => if at' 0 i = 1 ∧ at' 2 i = 2 then .nan else .fin (if at' 2 i = at' 1 i then 1 else 0)⟩ ∧
      Forgets 2 M.num_channels M.num_features
        ⟨[2, 2, 5], fun i => if at' 0 i = 1 ∧ at' 2 i = 2 then .nan else .fin (if at' 2 i = at' 1 i then 1 else 0)⟩
        ⟨[2, 2, 5], fun i => if at' 0 i = 1 ∧ at' 2 i = 2 ∨ at' 2 i = 3 then .nan else .fin (if at' 2 i = at' 1 i then 1 else 0)⟩ := by
  obtain ⟨M, hM⟩ := exConfig_builds h (leaf := .bernoulli fun _ f i _ => f - i) ⟨bernoulliLeaf _ _, by simp [LeafSpec.build]; rfl⟩
  have hz := (build_WF (exParams_random _) hM).1
  have e1 : M.num_channels = 2 := hz.channels
  have e2 : M.num_features = 5 := hz.features
  have e3 : M.num_classes = 3 := hz.classes
  refine ⟨M, hM, ?_⟩
  rw [e1, e2, e3]
  refine ⟨by norm_num, ⟨rfl, fun n _ ch _ f _ => ?_⟩, rfl, rfl, fun n _ ch _ f _ => ?_⟩
  · by_cases e : n = 1 ∧ f = 2
    · exact Or.inl (if_pos e)
    · right
      refine ⟨_, if_neg e, ?_⟩
      by_cases e' : f = ch
      · exact Or.inr (if_pos e')
      · exact Or.inl (if_neg e')
  · by_cases e : (n = 1 ∧ f = 2) ∨ f = 3
    · exact Or.inr (if_pos e)
    · left
      have e' : ¬ (n = 1 ∧ f = 2) := fun q => e (Or.inl q)
      exact (if_neg e).trans (if_neg e').symm

end Props
end Einet
