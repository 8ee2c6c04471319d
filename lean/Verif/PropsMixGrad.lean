import Verif.PropsProper
import Verif.PropsMax
import Verif.PropsSample
import Mathlib.Analysis.SpecialFunctions.Log.Deriv
import Mathlib.Analysis.SpecialFunctions.ExpDeriv

/-!
# C91: training the weights of the repetitions

The gradient with respect to a raw weight of the mixing layer is the responsibility of the repetition minus its weight; points where
the gradient of the loss vanishes are optimal.
-/

open Classical MeasureTheory
open scoped ENNReal
noncomputable section
namespace Einet.Props
open Tensor Einet

/-! ### Specification -/

/-- weight of repetition `r` of `R` in class `k`, for raw weights `m`. -/
def repWeight (m : List Nat → ℝ) (R k r : Nat) : ℝ := Real.exp (m [0, k, r]) / ∑ j ∈ Finset.range R, Real.exp (m [0, k, j])

/-- `t` is added to one raw weight. -/
def bump (m : List Nat → ℝ) (k r : Nat) (t : ℝ) : List Nat → ℝ := fun i => if i = [0, k, r] then m i + t else m i

/-- mixture of the likelihoods `q` of the repetitions. -/
def repMix (m : List Nat → ℝ) (R k : Nat) (q : Nat → ℝ) : ℝ := ∑ r ∈ Finset.range R, repWeight m R k r * q r

/-- responsibility of repetition `r`: its probability given the row. -/
def repResp (m : List Nat → ℝ) (R k : Nat) (q : Nat → ℝ) (r : Nat) : ℝ := repWeight m R k r * q r / repMix m R k q

/-! ### Lemmas -/

theorem repSum_pos (m : List Nat → ℝ) {R : Nat} (hR : 0 < R) (k : Nat) : 0 < ∑ j ∈ Finset.range R, Real.exp (m [0, k, j]) :=
  Finset.sum_pos (fun _ _ => Real.exp_pos _) ⟨0, by simpa using hR⟩

theorem repWeight_pos (m : List Nat → ℝ) {R : Nat} (hR : 0 < R) (k r : Nat) : 0 < repWeight m R k r :=
  div_pos (Real.exp_pos _) (repSum_pos m hR k)

theorem repWeight_sum (m : List Nat → ℝ) {R : Nat} (hR : 0 < R) (k : Nat) : ∑ r ∈ Finset.range R, repWeight m R k r = 1 := by
  unfold repWeight
  rw [← Finset.sum_div, div_self (repSum_pos m hR k).ne']

theorem repMix_eq (m : List Nat → ℝ) (R k : Nat) (q : Nat → ℝ) :
    repMix m R k q = (∑ j ∈ Finset.range R, Real.exp (m [0, k, j]) * q j) / ∑ j ∈ Finset.range R, Real.exp (m [0, k, j]) := by
  unfold repMix repWeight
  rw [Finset.sum_div]
  exact Finset.sum_congr rfl fun _ _ => by ring

theorem bump_zero (m : List Nat → ℝ) (k r : Nat) : bump m k r 0 = m := by
  funext i
  unfold bump
  split_ifs <;> simp

theorem bump_other (m : List Nat → ℝ) {k k' : Nat} (h : k' ≠ k) (r : Nat) (t : ℝ) (j : Nat) : bump m k' r t [0, k, j] = m [0, k, j] := by
  unfold bump
  rw [if_neg]
  intro e
  simp only [List.cons.injEq, true_and] at e
  exact h e.1.symm

theorem bump_deriv (m : List Nat → ℝ) (k r R : Nat) (hr : r < R) (q : Nat → ℝ) :
    HasDerivAt (fun t => ∑ j ∈ Finset.range R, Real.exp (bump m k r t [0, k, j]) * q j) (Real.exp (m [0, k, r]) * q r) 0 := by
  have h : ∀ j ∈ Finset.range R, HasDerivAt (fun t => Real.exp (bump m k r t [0, k, j]) * q j)
      (if j = r then Real.exp (m [0, k, r]) * q r else 0) 0 := by
    intro j _
    by_cases e : j = r
    · subst e
      simp only [if_true, bump]
      have h1 : HasDerivAt (fun t : ℝ => m [0, k, j] + t) 1 0 := (hasDerivAt_id 0).const_add _
      have h2 := (h1.exp).mul_const (q j)
      simpa using h2
    · simp only [bump, if_neg e, List.cons.injEq, true_and, and_true]
      exact hasDerivAt_const _ _
  have h2 := HasDerivAt.fun_sum h
  rwa [Finset.sum_ite_eq' (Finset.range R) r, if_pos (by simpa using hr)] at h2

theorem repMix_deriv (m : List Nat → ℝ) (k r R : Nat) (hr : r < R) (q : Nat → ℝ) (h : 0 < repMix m R k q) :
    HasDerivAt (fun t => Real.log (repMix (bump m k r t) R k q)) (repResp m R k q r - repWeight m R k r) 0 := by
  have hR : 0 < R := by omega
  have hS := repSum_pos m hR k
  have hA : 0 < ∑ j ∈ Finset.range R, Real.exp (m [0, k, j]) * q j := by
    rw [repMix_eq] at h
    exact (div_pos_iff_of_pos_right hS).1 h
  have d1 := bump_deriv m k r R hr q
  have d2 := bump_deriv m k r R hr fun _ => 1
  simp only [mul_one] at d2
  have z1 : ∑ j ∈ Finset.range R, Real.exp (bump m k r 0 [0, k, j]) * q j ≠ 0 := by rw [bump_zero]; exact hA.ne'
  have z2 : ∑ j ∈ Finset.range R, Real.exp (bump m k r 0 [0, k, j]) ≠ 0 := by rw [bump_zero]; exact hS.ne'
  simp only [repMix_eq]
  have := (d1.div d2 z2).log (div_ne_zero z1 z2)
  refine this.congr_deriv ?_
  show _ = _
  rw [Pi.div_apply]
  simp only [bump_zero]
  unfold repResp
  rw [repMix_eq]
  unfold repWeight
  field_simp

theorem repMix_bump_other (m : List Nat → ℝ) {k k' : Nat} (h : k' ≠ k) (r R : Nat) (t : ℝ) (q : Nat → ℝ) :
    repMix (bump m k' r t) R k q = repMix m R k q := by
  unfold repMix repWeight
  simp only [bump_other m h]

theorem topDownLayers_mix (c : Config) (P : Params) (w : List Nat → ℝ) (n : Nat) :
    topDownLayers c { P with mixLogits := w } n = topDownLayers c P n := by
  induction n with
  | zero => rfl
  | succ n ih => unfold topDownLayers; rw [ih]

theorem bottomUpLayers_mix (c : Config) (P : Params) (w : List Nat → ℝ) (n : Nat) :
    bottomUpLayers c { P with mixLogits := w } n = bottomUpLayers c P n := by
  induction n with
  | zero => rfl
  | succ n ih => unfold bottomUpLayers; rw [ih]

/-- the mixing layer with raw weights `w`. -/
def mixOf (c : Config) (w : List Nat → ℝ) : SumL := mkSumL 1 c.num_repetitions.toNat c.num_classes.toNat 1 MixingLayer.weightShape w

theorem buildRoots_mix {c : Config} {P : Params} {m k : SumL} (h : buildRoots c P = .ok (m, k)) (w : List Nat → ℝ) :
    buildRoots c { P with mixLogits := w } = .ok (mixOf c w, k) := by
  unfold buildRoots at h ⊢
  dsimp only at h ⊢
  split_ifs at h ⊢ <;>
  · obtain ⟨_, h1, h⟩ := bind_ok h
    obtain ⟨_, h2, h⟩ := bind_ok h
    rw [h1, Res.ok_bind, h2, Res.ok_bind]
    simp only [Res.pure_eq, Except.ok.injEq, Prod.mk.injEq] at h ⊢
    exact ⟨rfl, h.2⟩

theorem build_mix {c : Config} {P : Params} {M : Model} (h : build c P = .ok M) (w : List Nat → ℝ) :
    build c { P with mixLogits := w } = .ok { M with mixing := mixOf c w } := by
  unfold build at h ⊢
  obtain ⟨_, h0, h⟩ := bind_ok h
  rw [h0, Res.ok_bind]
  split_ifs at h ⊢ with h1 h2
  · unfold buildTopDown at h ⊢
    obtain ⟨⟨ls, O⟩, h3, h⟩ := bind_ok h
    obtain ⟨B, h4, h⟩ := bind_ok h
    obtain ⟨⟨m, k⟩, h5, h⟩ := bind_ok h
    rw [show topDownStructure c { P with mixLogits := w } = topDownStructure c P by unfold topDownStructure; rw [topDownLayers_mix],
      h3, Res.ok_bind]
    dsimp only at h ⊢
    rw [h4, Res.ok_bind, buildRoots_mix h5 w, Res.ok_bind]
    simp only [Res.pure_eq, Except.ok.injEq] at h ⊢
    rw [← h]; rfl
  · unfold buildBottomUp at h ⊢
    obtain ⟨ls, h3, h⟩ := bind_ok h
    obtain ⟨B, h4, h⟩ := bind_ok h
    dsimp only at h
    obtain ⟨⟨m, k⟩, h5, h⟩ := bind_ok h
    rw [show bottomUpStructure c { P with mixLogits := w } = bottomUpStructure c P by unfold bottomUpStructure; rw [bottomUpLayers_mix],
      h3, Res.ok_bind]
    dsimp only at h ⊢
    rw [h4, Res.ok_bind, buildRoots_mix h5 w, Res.ok_bind]
    simp only [Res.pure_eq, Except.ok.injEq] at h ⊢
    rw [← h]

theorem lwMix_weight (c : Config) (w : List Nat → ℝ) (k : Nat) {r : Nat} (hr : r < c.num_repetitions.toNat) :
    toP ((mixOf c w).lwMix 1 0 k r) = ENNReal.ofReal (repWeight w c.num_repetitions.toNat k r) := by
  have e : (mixOf c w).lwMix 1 0 k r = .fin (Fl.rlsm c.num_repetitions.toNat (fun j => w [0, k, j] / 1) r) :=
    Fl.logSoftmax_eq_fin (fun i _ => Fl.fin_div _ one_ne_zero) hr
  rw [e]
  show ENNReal.ofReal (Real.exp _) = _
  unfold Fl.rlsm repWeight
  simp only [div_one]
  rw [Real.exp_sub, Real.exp_log (repSum_pos w (by omega) k)]

/-- likelihood of a row under one repetition. -/
def repLik (c : Config) (P : Params) (M : Model) (X : Data) (k r : Nat) : ℝ :=
  (denL 1 M.layers (regionVal M (M.grpF (buildGroups c P)) X) 0 k r).toReal

theorem classProb_mix {c : Config} {P : Params} (hP : P.Random) (hg : P.leaf.Good) {M : Model} (h : build c P = .ok M) {X : Data}
    (hX : P.leaf.Data M.num_channels M.num_features X) {k : Nat} (hk : k < M.num_classes) (w : List Nat → ℝ) :
    classProb { M with mixing := mixOf c w } k X = repMix w c.num_repetitions.toNat k (repLik c P M X k) := by
  have h' := build_mix h w
  have hP' : ({ P with mixLogits := w } : Params).Random := ⟨hP.1, hP.2⟩
  have hz := (build_WF hP' h').1
  obtain ⟨-, hw, hp, _⟩ := build_WF hP' h'
  have hpos := gb_pos hP' hg h' (X := X) hX (k := k) hk
  have e := density_val hw (hp hg) ((build_observed hP' h').2 hX) (k := k) hk
  have hR : M.num_repetitions = c.num_repetitions.toNat := hz.reps
  have hR0 : 0 < c.num_repetitions.toNat := by rw [← hR]; exact hw.reps_pos
  have e' : ({ M with mixing := mixOf c w } : Model).density none k X =
      ∑ r ∈ Finset.range c.num_repetitions.toNat, ENNReal.ofReal (repWeight w c.num_repetitions.toNat k r) *
        denL 1 M.layers (regionVal M (M.grpF (buildGroups c P)) X) 0 k r := by
    rw [e]
    unfold Model.topP
    dsimp only
    rw [hR]
    split_ifs with h1
    · exact Finset.sum_congr rfl fun r hr => by rw [lwMix_weight c w k (by simpa using hr)]; rfl
    · have : c.num_repetitions.toNat = 1 := by omega
      rw [this, Finset.sum_range_one]
      have : repWeight w 1 k 0 = 1 := by
        have := repWeight_sum w one_pos k
        simpa using this
      rw [this, ENNReal.ofReal_one, one_mul]
      rfl
  have hfin : ({ M with mixing := mixOf c w } : Model).density none k X ≠ ⊤ := by rw [← hpos.2]; exact ENNReal.ofReal_ne_top
  unfold classProb
  rw [e'] at hfin ⊢
  rw [ENNReal.toReal_sum fun r hr => ENNReal.sum_ne_top.1 hfin r hr]
  refine Finset.sum_congr rfl fun r _ => ?_
  rw [ENNReal.toReal_mul, ENNReal.toReal_ofReal (repWeight_pos w hR0 k r).le]
  rfl

theorem loss_deriv (w : List Nat → ℝ) (R N : Nat) (q : Nat → Nat → ℝ) (hq : ∀ n, n < N → 0 < repMix w R 0 (q n)) {r : Nat} (hr : r < R) :
    HasDerivAt (fun t => -(∑ n ∈ Finset.range N, Real.log (repMix (bump w 0 r t) R 0 (q n))) / N)
      (-(∑ n ∈ Finset.range N, (repResp w R 0 (q n) r - repWeight w R 0 r)) / N) 0 :=
  ((HasDerivAt.fun_sum fun n hn => repMix_deriv w 0 r R hr (q n) (hq n (by simpa using hn))).fun_neg).div_const _

theorem loss_stationary (w : List Nat → ℝ) (R N : Nat) (hN : 0 < N) (q : Nat → Nat → ℝ) (hq : ∀ n, n < N → 0 < repMix w R 0 (q n)) {r : Nat}
    (hr : r < R) : HasDerivAt (fun t => -(∑ n ∈ Finset.range N, Real.log (repMix (bump w 0 r t) R 0 (q n))) / N) 0 0 ↔
      repWeight w R 0 r = (∑ n ∈ Finset.range N, repResp w R 0 (q n) r) / N := by
  have hd := loss_deriv w R N q hq hr
  have hN' : (N : ℝ) ≠ 0 := by exact_mod_cast hN.ne'
  have e : -(∑ n ∈ Finset.range N, (repResp w R 0 (q n) r - repWeight w R 0 r)) / N =
      repWeight w R 0 r - (∑ n ∈ Finset.range N, repResp w R 0 (q n) r) / N := by
    rw [Finset.sum_sub_distrib, Finset.sum_const, Finset.card_range, nsmul_eq_mul]
    field_simp
    ring
  rw [e] at hd
  constructor
  · intro h0
    exact sub_eq_zero.1 (hd.unique h0)
  · intro h0
    rwa [h0, sub_self] at hd

theorem loss_optimal (w w' : List Nat → ℝ) (R N : Nat) (hR : 0 < R) (hN : 0 < N) (q : Nat → Nat → ℝ)
    (hq : ∀ w n, n < N → 0 < repMix w R 0 (q n))
    (h : ∀ r, r < R → repWeight w R 0 r = (∑ n ∈ Finset.range N, repResp w R 0 (q n) r) / N) :
    -(∑ n ∈ Finset.range N, Real.log (repMix w R 0 (q n))) / N ≤ -(∑ n ∈ Finset.range N, Real.log (repMix w' R 0 (q n))) / N := by
  have hN' : (0 : ℝ) < N := by exact_mod_cast hN
  rw [div_le_div_iff_of_pos_right hN', neg_le_neg_iff, ← sub_nonpos, ← Finset.sum_sub_distrib]
  have h1 : ∀ n ∈ Finset.range N, Real.log (repMix w' R 0 (q n)) - Real.log (repMix w R 0 (q n)) ≤
      (∑ r ∈ Finset.range R, repWeight w' R 0 r / repWeight w R 0 r * repResp w R 0 (q n) r) - 1 := by
    intro n hn
    have hn : n < N := by simpa using hn
    have p := hq w n hn
    have p' := hq w' n hn
    rw [← Real.log_div p'.ne' p.ne']
    refine (Real.log_le_sub_one_of_pos (div_pos p' p)).trans (le_of_eq ?_)
    congr 1
    conv_lhs => unfold repMix
    rw [Finset.sum_div]
    refine Finset.sum_congr rfl fun r _ => ?_
    unfold repResp
    have := (repWeight_pos w hR 0 r).ne'
    rw [div_mul_div_comm, mul_comm (repWeight w R 0 r) (q n r), ← mul_assoc, mul_comm (repWeight w R 0 r) (repMix w R 0 (q n)),
      mul_div_mul_right _ _ this]
    rfl
  refine (Finset.sum_le_sum h1).trans ?_
  rw [Finset.sum_sub_distrib, Finset.sum_const, Finset.card_range, nsmul_eq_mul, mul_one, Finset.sum_comm]
  have h2 : ∀ r ∈ Finset.range R, ∑ n ∈ Finset.range N, repWeight w' R 0 r / repWeight w R 0 r * repResp w R 0 (q n) r =
      N * repWeight w' R 0 r := by
    intro r hr
    have e := h r (by simpa using hr)
    have := (repWeight_pos w hR 0 r).ne'
    rw [← Finset.mul_sum]
    have e2 : ∑ n ∈ Finset.range N, repResp w R 0 (q n) r = N * repWeight w R 0 r := by
      rw [eq_div_iff hN'.ne'] at e
      linarith
    rw [e2]
    field_simp
  rw [Finset.sum_congr rfl h2, ← Finset.mul_sum, repWeight_sum w' hR 0]
  simp

theorem rowProb_one {M : Model} (hK : M.num_classes = 1) (X : Data) : rowProb M X = classProb M 0 X := by
  unfold rowProb
  rw [hK, Finset.sum_range_one, Nat.cast_one, div_one]

/-! ### The theorems -/

/-- **C91**: for a batch there are likelihoods `q` of its rows under the single repetitions such that for all raw weights of the
repetitions the output is the logarithm of the mixture, and the derivative by a raw weight is the responsibility of the repetition
minus its weight; raw weights of other classes have derivative 0. -/
theorem C91_gradient (c : Config) (P : Params) (hP : P.Random) (hg : P.leaf.Good) (M : Model) (h : build c P = .ok M) (N : Nat)
    (x : Tensor Fl) (hx : Batch P.leaf N M.num_channels M.num_features x) :
    ∃ (q : Nat → Nat → Nat → ℝ) (ll : (List Nat → ℝ) → Nat → Nat → ℝ), (∀ n k r, 0 ≤ q n k r) ∧
      (∀ w, ∃ M' y, build c { P with mixLogits := w } = .ok M' ∧ M'.forward x = .ok y ∧
        ∀ n, n < N → ∀ k, k < M.num_classes → y.get [n, k] = .fin (ll w n k) ∧
          Real.exp (ll w n k) = repMix w M.num_repetitions k (q n k)) ∧
      ∀ w n, n < N → ∀ k, k < M.num_classes → ∀ r, r < M.num_repetitions →
        HasDerivAt (fun t => ll (bump w k r t) n k)
          (repResp w M.num_repetitions k (q n k) r - repWeight w M.num_repetitions k r) 0 ∧
        ∀ k', k' ≠ k → HasDerivAt (fun t => ll (bump w k' r t) n k) 0 0 := by
  have hR : M.num_repetitions = c.num_repetitions.toNat := (build_WF hP h).1.reps
  have hpos : ∀ w n, n < N → ∀ k, k < M.num_classes → 0 < repMix w M.num_repetitions k (repLik c P M (rowAt x n) k) := by
    intro w n hn k hk
    rw [hR, ← classProb_mix (X := rowAt x n) hP hg h (hx.2 n hn) hk w]
    exact (gb_pos (P := { P with mixLogits := w }) ⟨hP.1, hP.2⟩ hg (build_mix h w) (hx.2 n hn) hk).1
  refine ⟨fun n k r => repLik c P M (rowAt x n) k r, fun w n k => Real.log (repMix w M.num_repetitions k (repLik c P M (rowAt x n) k)),
    fun _ _ _ => ENNReal.toReal_nonneg, fun w => ?_, fun w n hn k hk r hr => ⟨?_, fun k' hk' => ?_⟩⟩
  · obtain ⟨y, h1, -, h3⟩ := train_forward (P := { P with mixLogits := w }) ⟨hP.1, hP.2⟩ hg (build_mix h w) (N := N) (x := x) hx
    refine ⟨_, y, build_mix h w, h1, fun n hn k hk => ⟨?_, Real.exp_log (hpos w n hn k hk)⟩⟩
    rw [(h3 n hn k hk).2, classProb_mix (X := rowAt x n) hP hg h (hx.2 n hn) hk w, hR]
  · exact repMix_deriv w k r _ hr _ (hpos w n hn k hk)
  · simp only [repMix_bump_other w hk']
    exact hasDerivAt_const _ _

/-- **C91**, training without classes: the gradient of the loss by the raw weights of the repetitions vanishes exactly where every
weight is the mean responsibility over the rows, and there the loss is minimal among all weights of the repetitions. -/
theorem C91_stationary (c : Config) (P : Params) (hP : P.Random) (hg : P.leaf.Good) (M : Model) (h : build c P = .ok M)
    (hK : M.num_classes = 1) (N : Nat) (hN : 0 < N) (x : Tensor Fl) (hx : Batch P.leaf N M.num_channels M.num_features x) :
    ∃ (q : Nat → Nat → ℝ) (L : (List Nat → ℝ) → ℝ), (∀ n r, 0 ≤ q n r) ∧
      (∀ w, ∃ M' y, build c { P with mixLogits := w } = .ok M' ∧ M'.forward x = .ok y ∧
        (∀ n, n < N → y.get [n, 0] = .fin (Real.log (repMix w M.num_repetitions 0 (q n)))) ∧
        ∀ t, trainLoss M' false x t = .ok (.fin (L w))) ∧
      ∀ w, ((∀ r, r < M.num_repetitions → HasDerivAt (fun t => L (bump w 0 r t)) 0 0) ↔
          ∀ r, r < M.num_repetitions →
            repWeight w M.num_repetitions 0 r = (∑ n ∈ Finset.range N, repResp w M.num_repetitions 0 (q n) r) / N) ∧
        ((∀ r, r < M.num_repetitions → HasDerivAt (fun t => L (bump w 0 r t)) 0 0) → ∀ w', L w ≤ L w') := by
  obtain ⟨hz, hw, -⟩ := build_WF hP h
  have hR : M.num_repetitions = c.num_repetitions.toNat := hz.reps
  have h0 : 0 < M.num_classes := by omega
  have hpos : ∀ w n, n < N → 0 < repMix w M.num_repetitions 0 (repLik c P M (rowAt x n) 0) := by
    intro w n hn
    rw [hR, ← classProb_mix (X := rowAt x n) hP hg h (hx.2 n hn) h0 w]
    exact (gb_pos (P := { P with mixLogits := w }) ⟨hP.1, hP.2⟩ hg (build_mix h w) (hx.2 n hn) h0).1
  have hst : ∀ w, ((∀ r, r < M.num_repetitions → HasDerivAt (fun t => -(∑ n ∈ Finset.range N,
      Real.log (repMix (bump w 0 r t) M.num_repetitions 0 (repLik c P M (rowAt x n) 0))) / N) 0 0) ↔ ∀ r, r < M.num_repetitions →
        repWeight w M.num_repetitions 0 r =
          (∑ n ∈ Finset.range N, repResp w M.num_repetitions 0 (repLik c P M (rowAt x n) 0) r) / N) := fun w =>
    forall₂_congr fun r hr => loss_stationary w _ N hN (fun n => repLik c P M (rowAt x n) 0) (hpos w) hr
  refine ⟨fun n r => repLik c P M (rowAt x n) 0 r,
    fun w => -(∑ n ∈ Finset.range N, Real.log (repMix w M.num_repetitions 0 (repLik c P M (rowAt x n) 0))) / N,
    fun _ _ => ENNReal.toReal_nonneg, fun w => ?_, fun w => ⟨hst w, fun hd w' => ?_⟩⟩
  · obtain ⟨y, h1, -, h3⟩ := train_forward (P := { P with mixLogits := w }) ⟨hP.1, hP.2⟩ hg (build_mix h w) (N := N) (x := x) hx
    refine ⟨_, y, build_mix h w, h1, fun n hn => ?_, fun t => ?_⟩
    · rw [(h3 n hn 0 h0).2, classProb_mix (X := rowAt x n) hP hg h (hx.2 n hn) h0 w, hR]
    · rw [C58_train c { P with mixLogits := w } ⟨hP.1, hP.2⟩ hg _ (build_mix h w) N hN x hx t]
      congr 4
      refine Finset.sum_congr rfl fun n hn => ?_
      rw [rowProb_one (M := { M with mixing := mixOf c w }) hK, classProb_mix (X := rowAt x n) hP hg h (hx.2 n (by simpa using hn)) h0 w, hR]
  · exact loss_optimal w w' _ N hw.reps_pos hN (fun n => repLik c P M (rowAt x n) 0) hpos ((hst w).1 hd)

/-- a case that meets the hypotheses: two repetitions, one class, a missing value. -/
example : ∃ (M : Model) (x : Tensor Fl), build (exOne "einsum" "top-down") (exParams exLeaf) = .ok M ∧ (exParams exLeaf).Random ∧
    (exParams exLeaf).leaf.Good ∧ M.num_classes = 1 ∧ M.num_repetitions = 2 ∧
    Batch (exParams exLeaf).leaf 3 M.num_channels M.num_features x := by
  obtain ⟨M, h, hC, hF, hK⟩ := exOne_builds (l := "einsum") (s := "top-down") (Or.inl ⟨Or.inr (Or.inr rfl), rfl⟩)
  refine ⟨M, ⟨[3, 2, 5], fun i => if i = [1, 0, 0] then .nan else .fin i.sum⟩, h, exParams_random _, trivial, hK,
    (build_WF (exParams_random _) h).1.reps, by rw [hC, hF], fun n _ c _ f _ => ?_⟩
  dsimp only
  split_ifs
  · exact Or.inl rfl
  · exact Or.inr ⟨_, rfl, trivial⟩

/-- the two repetitions of the specification can have different responsibilities: row likelihoods 1 and 3 with equal weights. -/
example : repResp (fun _ => 0) 2 0 (fun r => if r = 0 then 1 else 3) 1 = 3 / 4 ∧ repWeight (fun _ => 0) 2 0 1 = 1 / 2 := by
  constructor <;> norm_num [repResp, repMix, repWeight, Finset.sum_range_succ]

end Einet.Props
