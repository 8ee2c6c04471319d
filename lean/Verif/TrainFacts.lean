import Verif.Train
import Verif.MultiEinetEnd
import Verif.BuildFwd
import Mathlib.Analysis.Convex.SpecificFunctions.Basic
import Mathlib.MeasureTheory.Measure.Lebesgue.EqHaar

/-!
# Facts about losses and evaluation
-/

open Classical MeasureTheory
open scoped ENNReal
noncomputable section
namespace Einet
open Tensor

/-! ### Sums over tensors -/

theorem sum_range_mul (v : Nat → Nat → ℝ) (N K : Nat) :
    ∑ p ∈ Finset.range (N * K), v (p / K) (p % K) = ∑ n ∈ Finset.range N, ∑ k ∈ Finset.range K, v n k := by
  induction N with
  | zero => simp
  | succ N ih =>
    rw [Nat.succ_mul, Finset.sum_range_add, ih, Finset.sum_range_succ]
    congr 1
    refine Finset.sum_congr rfl fun k hk => ?_
    have hk := Finset.mem_range.1 hk
    rw [show N * K + k = K * N + k by ring, Nat.mul_add_div (by omega), Nat.mul_add_mod, Nat.div_eq_of_lt hk, Nat.mod_eq_of_lt hk,
      Nat.add_zero]

namespace Tensor

theorem sumAll_one {t : Tensor Fl} {N : Nat} (hs : t.shape = [N]) {v : Nat → ℝ} (hv : ∀ n, n < N → t.get [n] = .fin (v n)) :
    t.sumAll = .fin (∑ n ∈ Finset.range N, v n) := by
  unfold sumAll
  have e : t.numel = N := by simp [numel, hs, numelS]
  rw [e, hs]
  refine Fl.sumN_eq_fin fun n hn => ?_
  simp only [unflat, numelS, Nat.div_one, Nat.mod_eq_of_lt hn]
  exact hv n hn

theorem sumAll_two {t : Tensor Fl} {N K : Nat} (hs : t.shape = [N, K]) {v : Nat → Nat → ℝ}
    (hv : ∀ n, n < N → ∀ k, k < K → t.get [n, k] = .fin (v n k)) :
    t.sumAll = .fin (∑ n ∈ Finset.range N, ∑ k ∈ Finset.range K, v n k) := by
  unfold sumAll
  have e : t.numel = N * K := by simp [numel, hs, numelS]
  rw [e, hs, ← sum_range_mul]
  refine Fl.sumN_eq_fin fun p hp => ?_
  have hK : 0 < K := Nat.pos_of_ne_zero (by rintro rfl; simp at hp)
  have h1 : p / K < N := Nat.div_lt_of_lt_mul (by rwa [Nat.mul_comm] at hp)
  have h2 : p % K < K := Nat.mod_lt _ hK
  simp only [unflat, numelS, Nat.mul_one, Nat.div_one, Nat.mod_eq_of_lt h1, Nat.mod_mod]
  exact hv _ h1 _ h2

end Tensor

theorem Fl.argmaxN_first {n : Nat} {f : Nat → Fl} {g : Nat → ℝ} (h : ∀ i, i < n → f i = fin (g i)) :
    ∀ i, i < argmaxN n f → g i < g (argmaxN n f) := by
  induction n with
  | zero => intro i hi; simp [argmaxN] at hi
  | succ n ih =>
    have h' : ∀ i, i < n → f i = fin (g i) := fun i hi => h i (by omega)
    have ih' := ih h'
    by_cases h0 : n = 0
    · subst h0; intro i hi; have := argmaxN_lt (n := 0 + 1) (by omega) f; omega
    have hl := argmaxN_lt (n := n) (by omega) f
    intro i
    simp only [argmaxN, h' _ hl, h n (by omega), better_fin]
    split_ifs with hlt
    · intro hi
      exact (argmaxN_max h' i hi).trans_lt hlt
    · exact ih' i

/-- the position of the first maximum is characterised by being one. -/
theorem Fl.argmaxN_eq_iff {n : Nat} (hn : 0 < n) {f : Nat → Fl} {g : Nat → ℝ} (h : ∀ i, i < n → f i = fin (g i)) (k : Nat) :
    argmaxN n f = k ↔ k < n ∧ ∀ j, j < n → g j ≤ g k ∧ (j < k → g j < g k) := by
  constructor
  · rintro rfl
    exact ⟨argmaxN_lt hn f, fun j hj => ⟨argmaxN_max h j hj, argmaxN_first h j⟩⟩
  · rintro ⟨hk, hm⟩
    have hl := argmaxN_lt hn f
    rcases lt_trichotomy (argmaxN n f) k with e | e | e
    · exact absurd ((hm _ hl).2 e) (not_lt.2 (argmaxN_max h k hk))
    · exact e
    · exact absurd (argmaxN_first h k e) (not_lt.2 (hm _ hl).1)

/-! ### The entries of `forward` -/

/-- for valid rows the density is a positive real number and `forward` returns its logarithm. -/
theorem build_log {c : Config} {P : Params} (hP : P.Random) (hg : P.leaf.Good) {M : Model} (h : build c P = .ok M)
    {N : Nat} {x : Tensor Fl} (hx : Batch P.leaf N M.num_channels M.num_features x) :
    ∃ y, M.forward x = .ok y ∧ y.shape = [N, M.num_classes] ∧ ∀ n, n < N → ∀ k, k < M.num_classes →
      0 < (M.density none k fun c f => x.get [n, c, f]).toReal ∧ M.density none k (fun c f => x.get [n, c, f]) ≠ ⊤ ∧
      y.get [n, k] = .fin (Real.log (M.density none k fun c f => x.get [n, c, f]).toReal) := by
  obtain ⟨-, hw, hp, _⟩ := build_WF hP h
  obtain ⟨y, hy, hs, hv⟩ := build_forward hP hg h hx (ms := none) rfl
  refine ⟨y, hy, hs, fun n hn k hk => ?_⟩
  obtain ⟨v, hf⟩ := (build_outRow hP hg h (hx.2 n hn) (sc := none) (fun _ _ _ _ e => e) hk).1
  have hd := Model.density_eq hw (hp hg) ((build_observed hP h).2 (hx.2 n hn)) (ms := none) rfl hk
  rw [hf] at hd
  have hd' : M.density none k (fun c f => x.get [n, c, f]) = ENNReal.ofReal (Real.exp v) := hd
  rw [hv n hn k hk, hf, hd', ENNReal.toReal_ofReal (Real.exp_pos v).le, Real.log_exp]
  exact ⟨Real.exp_pos v, ENNReal.ofReal_ne_top, rfl⟩

end Einet
