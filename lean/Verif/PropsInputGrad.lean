import Verif.PropsLeafGrad

/-!
# C94: gradients by the inputs point to averages of means, and likelihoods fall outside of the range of the means
-/

open Classical MeasureTheory
open scoped ENNReal
noncomputable section
namespace Einet.Props
open Tensor Einet

/-! ### Specification -/

/-- the batch with another value at one place. -/
def withEntry (x : Tensor Fl) (n ch f : Nat) (v : ℝ) : Tensor Fl := ⟨x.shape, fun j => if j = [n, ch, f] then .fin v else x.get j⟩

/-! ### Lemmas -/

theorem gaussLog_value (mu sd x : ℝ) (hs : sd ≠ 0) : HasDerivAt (fun t => gaussLog mu sd t) ((mu - x) / sd ^ 2) x := by
  have h1 : HasDerivAt (fun t : ℝ => t - mu) 1 x := (hasDerivAt_id x).sub_const mu
  have h2 := ((((h1.pow 2).neg).div_const (2 * sd ^ 2)).sub_const (Real.log sd)).sub_const (Real.log √(2 * Real.pi))
  refine h2.congr_deriv ?_
  field_simp
  simp
  ring

theorem rowAt_withEntry (x : Tensor Fl) (n ch f : Nat) (v : ℝ) (c' f' : Nat) :
    rowAt (withEntry x n ch f v) n c' f' = if c' = ch ∧ f' = f then .fin v else rowAt x n c' f' := by
  unfold rowAt withEntry
  by_cases e : c' = ch ∧ f' = f
  · rw [if_pos e]; obtain ⟨rfl, rfl⟩ := e; simp
  · rw [if_neg e]
    show (if [n, c', f'] = [n, ch, f] then _ else _) = _
    rw [if_neg (by simpa using e)]

theorem withEntry_batch {s : LeafSpec} {N C F : Nat} {x : Tensor Fl} (hx : Batch s N C F x) (n ch f : Nat) {v : ℝ} (hv : s.InSupport v) :
    Batch s N C F (withEntry x n ch f v) := by
  refine ⟨hx.1, fun n' hn' c' hc' f' hf' => ?_⟩
  unfold withEntry
  dsimp only
  split_ifs
  · exact Or.inr ⟨v, rfl, hv⟩
  · exact hx.2 n' hn' c' hc' f' hf'

theorem withEntry_self {x : Tensor Fl} {n ch f : Nat} {v : ℝ} (h : x.get [n, ch, f] = .fin v) : withEntry x n ch f v = x := by
  obtain ⟨sh, g⟩ := x
  unfold withEntry
  congr 1
  funext j
  split_ifs with e
  · rw [e]; exact h.symm
  · rfl

theorem withEntry_twice (x : Tensor Fl) (n ch f : Nat) (v w : ℝ) : withEntry (withEntry x n ch f v) n ch f w = withEntry x n ch f w := by
  unfold withEntry
  congr 1
  funext j
  dsimp only
  split_ifs <;> rfl

/-! ### Theorems -/

/-- **C94**: with `Normal` leaves the derivative of a log-likelihood by a known value of the row is the average over all components of
the mean minus the value, divided by the variance, weighted with the posterior probabilities of the components. -/
theorem C94_gradient (c : Config) (P : Params) (hP : P.Random) (m lv : Par) (hl : P.leaf = .normal m lv) (M : Model)
    (h : build c P = .ok M) (N : Nat) (x : Tensor Fl) (hx : Batch P.leaf N M.num_channels M.num_features x) (n : Nat) (hn : n < N)
    (k : Nat) (hk : k < M.num_classes) :
    ∃ rho, Posterior M rho ∧ ∀ ch, ch < M.num_channels → ∀ f, f < M.num_features → ∀ v, x.get [n, ch, f] = .fin v →
      ∃ ll : ℝ → ℝ, (∀ t, ∃ y, M.forward (withEntry x n ch f t) = .ok y ∧ y.get [n, k] = .fin (ll t)) ∧
        HasDerivAt ll (∑ r ∈ Finset.range M.num_repetitions, ∑ i ∈ Finset.range M.num_leaves,
          rho f i r * ((m ch f i r - v) / Real.exp (lv ch f i r))) v := by
  have hg : P.leaf.Good := by rw [hl]; trivial
  have hsup : ∀ t, P.leaf.InSupport t := by rw [hl]; exact fun _ => trivial
  have hX := hx.2 n hn
  have hfr := (build_WF hP h).2.1.front
  have hG : ∀ f, f < M.num_features → ∀ r, r < M.num_repetitions → M.grpF (buildGroups c P) r f < M.numOut :=
    fun f hf r hr => hfr.grpF_lt hr hf
  have hB := build_leaf hP h
  have hd : M.leaf.base.SameDims M.leaf.base := ⟨rfl, rfl, rfl, rfl⟩
  have hself : M.withBase M.leaf.base = M := by
    have := build_otherLeaf (s := P.leaf) h hB hB hd
    exact Except.ok.inj (this.symm.trans h)
  have hmain : ∀ X, P.leaf.Data M.num_channels M.num_features X → classProb M k X = ∑ p ∈ allPairs M, jointW M k p *
      Real.exp (∑ f ∈ Finset.range M.num_features, ∑ ch ∈ Finset.range M.num_channels,
        entryLog P.leaf X ch f (p.2.of (M.grpF (buildGroups c P) p.1 f)) p.1) := by
    intro X hX
    have := density_joint hP h hB hd hg hX hk fun ch hc f hf i r => entryLog_spec hB hg hX hc hf i r
    rwa [hself] at this
  have hpos : 0 < ∑ p ∈ allPairs M, jointW M k p *
      Real.exp (∑ f ∈ Finset.range M.num_features, ∑ ch ∈ Finset.range M.num_channels,
        entryLog P.leaf (rowAt x n) ch f (p.2.of (M.grpF (buildGroups c P) p.1 f)) p.1) := by
    rw [← hmain (rowAt x n) hX]
    exact (gb_pos hP hg h (X := rowAt x n) hX hk).1
  refine ⟨compPost M (M.grpF (buildGroups c P)) k (entryLog P.leaf (rowAt x n)), ⟨fun f i r => ?_, fun f hf => ?_⟩,
    fun ch hc f hf v hv => ?_⟩
  · unfold compPost
    refine Finset.sum_nonneg fun p _ => ?_
    split_ifs
    · exact div_nonneg (mul_nonneg ENNReal.toReal_nonneg (Real.exp_pos _).le) hpos.le
    · exact le_rfl
  · have := compPost_pick M k (entryLog P.leaf (rowAt x n)) (hG f hf) fun _ _ => 1
    simp only [mul_one] at this
    rw [this]
    unfold jointPost
    rw [← Finset.sum_div, div_self hpos.ne']
  · refine ⟨fun t => Real.log (∑ p ∈ allPairs M, jointW M k p *
      Real.exp (∑ f' ∈ Finset.range M.num_features, ∑ ch' ∈ Finset.range M.num_channels,
        entryLog P.leaf (rowAt (withEntry x n ch f t) n) ch' f' (p.2.of (M.grpF (buildGroups c P) p.1 f')) p.1)), fun t => ?_, ?_⟩
    · have hb := withEntry_batch hx n ch f (hsup t)
      obtain ⟨y, h2, -, h3⟩ := train_forward hP hg h hb
      exact ⟨y, h2, by rw [(h3 n hn k hk).2, hmain (rowAt (withEntry x n ch f t) n) (hb.2 n hn)]⟩
    · have hself' : withEntry x n ch f v = x := withEntry_self hv
      have hE : ∀ p ∈ allPairs M, HasDerivAt (fun t => ∑ f' ∈ Finset.range M.num_features, ∑ ch' ∈ Finset.range M.num_channels,
          entryLog P.leaf (rowAt (withEntry x n ch f (v + t)) n) ch' f' (p.2.of (M.grpF (buildGroups c P) p.1 f')) p.1)
          ((m ch f (p.2.of (M.grpF (buildGroups c P) p.1 f)) p.1 - v) / Real.exp (lv ch f (p.2.of (M.grpF (buildGroups c P) p.1 f)) p.1)) 0 := by
        intro p _
        have hone : ∀ f' ch', HasDerivAt (fun t => entryLog P.leaf (rowAt (withEntry x n ch f (v + t)) n) ch' f'
            (p.2.of (M.grpF (buildGroups c P) p.1 f')) p.1) (if ch' = ch ∧ f' = f then
              (m ch f (p.2.of (M.grpF (buildGroups c P) p.1 f)) p.1 - v) / Real.exp (lv ch f (p.2.of (M.grpF (buildGroups c P) p.1 f)) p.1)
              else 0) 0 := by
          intro f' ch'
          unfold entryLog
          simp only [rowAt_withEntry]
          by_cases e : ch' = ch ∧ f' = f
          · obtain ⟨rfl, rfl⟩ := e
            simp only [and_self, if_true, reduceCtorEq, if_false]
            rw [hl]
            have := gaussLog_value (m ch' f' (p.2.of (M.grpF (buildGroups c P) p.1 f')) p.1)
              (Real.exp (1 / 2 * lv ch' f' (p.2.of (M.grpF (buildGroups c P) p.1 f')) p.1)) (v + 0) (Real.exp_pos _).ne'
            have h2 := HasDerivAt.comp (0 : ℝ) this ((hasDerivAt_id (0 : ℝ)).const_add v)
            refine h2.congr_deriv ?_
            rw [mul_one, add_zero, ← Real.exp_nat_mul]
            congr 2
            push_cast; ring
          · simp only [e, if_false]
            exact hasDerivAt_const _ _
        have := HasDerivAt.fun_sum (u := Finset.range M.num_features) fun f' _ =>
          HasDerivAt.fun_sum (u := Finset.range M.num_channels) fun ch' _ => hone f' ch'
        refine this.congr_deriv ?_
        rw [Finset.sum_eq_single f, Finset.sum_eq_single ch, if_pos ⟨rfl, rfl⟩]
        · intro b _ hb; rw [if_neg fun e => hb e.1]
        · intro hn; exact absurd (Finset.mem_range.2 hc) hn
        · intro b _ hb; exact Finset.sum_eq_zero fun a _ => by rw [if_neg fun e => hb e.2]
        · intro hn; exact absurd (Finset.mem_range.2 hf) hn
      have hpos' := hpos
      rw [← hself', ← add_zero v] at hpos'
      have hlog := logSumExp_deriv (allPairs M) (jointW M k) _ _ hE hpos'
      simp only [add_zero, hself'] at hlog
      have hshift : HasDerivAt (fun t => Real.log (∑ p ∈ allPairs M, jointW M k p *
          Real.exp (∑ f' ∈ Finset.range M.num_features, ∑ ch' ∈ Finset.range M.num_channels,
          entryLog P.leaf (rowAt (withEntry x n ch f (v + t)) n) ch' f' (p.2.of (M.grpF (buildGroups c P) p.1 f')) p.1)))
          (∑ r ∈ Finset.range M.num_repetitions, ∑ i ∈ Finset.range M.num_leaves,
          compPost M (M.grpF (buildGroups c P)) k (entryLog P.leaf (rowAt x n)) f i r * ((m ch f i r - v) / Real.exp (lv ch f i r))) (v - v) := by
        rw [sub_self, compPost_pick M k _ (hG f hf) fun i r => (m ch f i r - v) / Real.exp (lv ch f i r)]
        exact hlog
      have := HasDerivAt.comp_sub_const v v hshift
      simpa using this

/-- **C94**, outside of the means: with a known value at least as large as all means of its feature the log-likelihood falls strictly
when the value grows, and likewise below all means when it gets smaller. -/
theorem C94_outside (c : Config) (P : Params) (hP : P.Random) (m lv : Par) (hl : P.leaf = .normal m lv) (M : Model)
    (h : build c P = .ok M) (N : Nat) (x : Tensor Fl) (hx : Batch P.leaf N M.num_channels M.num_features x) (n : Nat) (hn : n < N)
    (k : Nat) (hk : k < M.num_classes) (ch : Nat) (hc : ch < M.num_channels) (f : Nat) (hf : f < M.num_features) :
    ∃ ll : ℝ → ℝ, (∀ t, ∃ y, M.forward (withEntry x n ch f t) = .ok y ∧ y.get [n, k] = .fin (ll t)) ∧
      (∀ a, (∀ i, i < M.num_leaves → ∀ r, r < M.num_repetitions → m ch f i r ≤ a) → StrictAntiOn ll (Set.Ici a)) ∧
      ∀ a, (∀ i, i < M.num_leaves → ∀ r, r < M.num_repetitions → a ≤ m ch f i r) → StrictMonoOn ll (Set.Iic a) := by
  have hsup : ∀ t, P.leaf.InSupport t := by rw [hl]; exact fun _ => trivial
  have hg : P.leaf.Good := by rw [hl]; trivial
  have hex : ∀ t, ∃ a : ℝ, ∃ y, M.forward (withEntry x n ch f t) = .ok y ∧ y.get [n, k] = .fin a := by
    intro t
    obtain ⟨y, h2, -, h3⟩ := train_forward hP hg h (withEntry_batch hx n ch f (hsup t))
    exact ⟨_, y, h2, (h3 n hn k hk).2⟩
  choose ll hll using hex
  have hder : ∀ v, ∃ rho, Posterior M rho ∧ HasDerivAt ll (∑ r ∈ Finset.range M.num_repetitions, ∑ i ∈ Finset.range M.num_leaves,
      rho f i r * ((m ch f i r - v) / Real.exp (lv ch f i r))) v := by
    intro v
    obtain ⟨rho, h1, h2⟩ := C94_gradient c P hP m lv hl M h N (withEntry x n ch f v) (withEntry_batch hx n ch f (hsup v)) n hn k hk
    obtain ⟨g, h3, h4⟩ := h2 ch hc f hf v (by unfold withEntry; simp)
    have : g = ll := by
      funext t
      obtain ⟨y, e1, e2⟩ := h3 t
      obtain ⟨y', e3, e4⟩ := hll t
      rw [withEntry_twice, e3] at e1
      cases e1
      rw [e4] at e2
      simpa using e2.symm
    exact ⟨rho, h1, this ▸ h4⟩
  have hcont : Continuous ll := continuous_iff_continuousAt.2 fun v => by
    obtain ⟨_, _, h2⟩ := hder v
    exact h2.continuousAt
  have hsome : ∀ rho : Nat → Nat → Nat → ℝ, Posterior M rho → ∃ r, r < M.num_repetitions ∧ ∃ i, i < M.num_leaves ∧ 0 < rho f i r := by
    intro rho hrho
    by_contra hcon
    push Not at hcon
    have := hrho.total f hf
    rw [Finset.sum_eq_zero fun r hr => Finset.sum_eq_zero fun i hi =>
      le_antisymm (hcon r (Finset.mem_range.1 hr) i (Finset.mem_range.1 hi)) (hrho.nonneg f i r)] at this
    exact zero_ne_one this
  refine ⟨ll, hll, fun a ha => ?_, fun a ha => ?_⟩
  · refine strictAntiOn_of_deriv_neg (convex_Ici a) hcont.continuousOn fun v hv => ?_
    rw [interior_Ici] at hv
    obtain ⟨rho, h1, h2⟩ := hder v
    rw [h2.deriv]
    obtain ⟨r, hr, i, hi, hp⟩ := hsome rho h1
    have hneg : ∀ i, i < M.num_leaves → ∀ r, r < M.num_repetitions → (m ch f i r - v) / Real.exp (lv ch f i r) < 0 := fun i hi r hr =>
      div_neg_of_neg_of_pos (by have := ha i hi r hr; have : a < v := hv; linarith) (Real.exp_pos _)
    refine Finset.sum_neg' (fun r hr => Finset.sum_nonpos fun i hi => mul_nonpos_of_nonneg_of_nonpos (h1.nonneg f i r)
      (hneg i (Finset.mem_range.1 hi) r (Finset.mem_range.1 hr)).le) ⟨r, Finset.mem_range.2 hr, ?_⟩
    exact Finset.sum_neg' (fun i hi => mul_nonpos_of_nonneg_of_nonpos (h1.nonneg f i r) (hneg i (Finset.mem_range.1 hi) r hr).le)
      ⟨i, Finset.mem_range.2 hi, mul_neg_of_pos_of_neg hp (hneg i hi r hr)⟩
  · refine strictMonoOn_of_deriv_pos (convex_Iic a) hcont.continuousOn fun v hv => ?_
    rw [interior_Iic] at hv
    obtain ⟨rho, h1, h2⟩ := hder v
    rw [h2.deriv]
    obtain ⟨r, hr, i, hi, hp⟩ := hsome rho h1
    have hpos : ∀ i, i < M.num_leaves → ∀ r, r < M.num_repetitions → 0 < (m ch f i r - v) / Real.exp (lv ch f i r) := fun i hi r hr =>
      div_pos (by have := ha i hi r hr; have : v < a := hv; linarith) (Real.exp_pos _)
    refine Finset.sum_pos' (fun r hr => Finset.sum_nonneg fun i hi => mul_nonneg (h1.nonneg f i r)
      (hpos i (Finset.mem_range.1 hi) r (Finset.mem_range.1 hr)).le) ⟨r, Finset.mem_range.2 hr, ?_⟩
    exact Finset.sum_pos' (fun i hi => mul_nonneg (h1.nonneg f i r) (hpos i (Finset.mem_range.1 hi) r hr).le)
      ⟨i, Finset.mem_range.2 hi, mul_pos hp (hpos i hi r hr)⟩

/-- a case that meets the hypotheses; all means of feature 3 in channel 1 are at most 30. -/
example : ∃ (M : Model) (x : Tensor Fl) (m lv : Par), build (exConfig "einsum" "top-down") (exParams exLeaf) = .ok M ∧ (exParams exLeaf).Random ∧
    (exParams exLeaf).leaf = .normal m lv ∧ Batch (exParams exLeaf).leaf 2 M.num_channels M.num_features x ∧ x.get [1, 0, 2] = .nan ∧
    x.get [0, 1, 3] = .fin 4 ∧ ∀ i, i < M.num_leaves → ∀ r, r < M.num_repetitions → 1 ≤ m 1 3 i r ∧ m 1 3 i r ≤ 30 := by
  obtain ⟨M, h⟩ := exConfig_normal (l := "einsum") (s := "top-down") (Or.inl ⟨Or.inr (Or.inr rfl), rfl⟩)
  obtain ⟨hs, -⟩ := build_WF (exParams_random _) h
  have hC : M.num_channels = 2 := hs.channels
  have hF : M.num_features = 5 := hs.features
  have hI : M.num_leaves = 4 := hs.leaves
  have hR : M.num_repetitions = 2 := hs.reps
  refine ⟨M, ⟨[2, 2, 5], fun i => if i = [1, 0, 2] then .nan else .fin i.sum⟩, _, _, h, exParams_random _, rfl,
    ?_, by simp, by norm_num, fun i hi r hr => ?_⟩
  · rw [hC, hF]
    refine ⟨rfl, fun n _ c _ f _ => ?_⟩
    dsimp only
    split_ifs
    · exact Or.inl rfl
    · exact Or.inr ⟨_, rfl, trivial⟩
  · have h1 : (i : ℝ) ≤ 3 := by exact_mod_cast (by omega : i ≤ 3)
    have h2 : (r : ℝ) ≤ 1 := by exact_mod_cast (by omega : r ≤ 1)
    have h3 : (0 : ℝ) ≤ i := Nat.cast_nonneg i
    have h4 : (0 : ℝ) ≤ r := Nat.cast_nonneg r
    push_cast
    constructor <;> linarith

end Einet.Props
