import Verif.LayerLaw
import Verif.NanProp

/-!
# Properties of the sum layers: C10, C11
-/

open Classical
open scoped ENNReal
noncomputable section
namespace Einet

/-! ### Lemmas -/

/-- softmax of real logits `g / T`. -/
def sw (n : Nat) (g : Nat → ℝ) (T : ℝ) (k : Nat) : ℝ := Real.exp (Fl.rlsm n (fun k => g k / T) k)

theorem sw_pos (n : Nat) (g : Nat → ℝ) (T : ℝ) (k : Nat) : 0 < sw n g T k := Real.exp_pos _

theorem log_sw (n : Nat) (g : Nat → ℝ) (T : ℝ) (k : Nat) : Real.log (sw n g T k) = Fl.rlsm n (fun k => g k / T) k :=
  Real.log_exp _

theorem sw_sum {n : Nat} (hn : 0 < n) (g : Nat → ℝ) (T : ℝ) : ∑ k ∈ Finset.range n, sw n g T k = 1 :=
  Fl.sum_exp_rlsm hn _

theorem sw_le {n : Nat} (g : Nat → ℝ) {T : ℝ} (hT : 0 < T) (k j : Nat) : sw n g T k ≤ sw n g T j ↔ g k ≤ g j := by
  unfold sw Fl.rlsm
  rw [Real.exp_le_exp, sub_le_sub_iff_right, div_le_div_iff_of_pos_right hT]

theorem logSoftmax_sw {n : Nat} {f : Nat → Fl} {T : ℝ} (hT : T ≠ 0) (h : ∀ k, k < n → (f k).IsFin) {k : Nat} (hk : k < n) :
    Fl.logSoftmax n (fun k => f k / Fl.fin T) k = .fin (Real.log (sw n (fun k => (f k).val) T k)) := by
  rw [log_sw]
  refine Fl.logSoftmax_eq_fin (fun i hi => ?_) hk
  obtain ⟨r, hr⟩ := h i hi
  rw [hr, Fl.fin_div _ hT, Fl.val_fin]

theorem softmax_sw {n : Nat} {f : Nat → Fl} (h : ∀ k, k < n → (f k).IsFin) {k : Nat} (hk : k < n) :
    Fl.softmax n f k = .fin (sw n (fun k => (f k).val) 1 k) := by
  unfold Fl.softmax
  rw [Fl.logSoftmax_eq_fin (g := fun k => (f k).val) (fun i hi => ?_) hk]
  · simp [sw]
  · obtain ⟨r, hr⟩ := h i hi
    rw [hr, Fl.val_fin]

theorem lse_weighted {n : Nat} (hn : 0 < n) {x w : Nat → Fl} {e v : Nat → ℝ} (hv : ∀ k, 0 < v k)
    (hx : ∀ k, k < n → x k = .fin (e k)) (hw : ∀ k, k < n → w k = .fin (Real.log (v k))) :
    Fl.lse n (fun k => x k + w k) = .fin (Real.log (∑ k ∈ Finset.range n, v k * Real.exp (e k))) := by
  rw [Fl.lse_eq_fin hn (g := fun k => e k + Real.log (v k)) fun k hk => by rw [hx k hk, hw k hk, Fl.fin_add]]
  congr 2
  refine Finset.sum_congr rfl fun k _ => ?_
  rw [Real.exp_add, Real.exp_log (hv k), mul_comm]

/-- the real number whose logarithm a value represents: `0` for `-inf`. -/
def Fl.prob : Fl → ℝ
  | .fin r => Real.exp r
  | _ => 0

theorem Fl.prob_pos {a : Fl} (h : a.IsFin) : 0 < a.prob := by obtain ⟨r, rfl⟩ := h; exact Real.exp_pos _
theorem Fl.prob_nonneg (a : Fl) : 0 ≤ a.prob := by cases a <;> simp [Fl.prob, (Real.exp_pos _).le]

theorem Fl.maxN_NN {n : Nat} {f : Nat → Fl} (h : ∀ i, i < n → NN (f i)) :
    (∃ m, maxN n f = .fin m) ∧ (∃ i, i < n ∧ (f i).IsFin) ∨ maxN n f = .ninf ∧ ∀ i, i < n → f i = .ninf := by
  induction n with
  | zero => exact Or.inr ⟨rfl, fun i hi => by omega⟩
  | succ n ih =>
    have hn := h n (by omega)
    by_cases h0 : n = 0
    · subst h0
      have e : maxN (0 + 1) f = f 0 := by simp [maxN]
      rw [e]
      cases hf : f 0 with
      | nan => rw [hf] at hn; exact absurd hn id
      | pinf => rw [hf] at hn; exact absurd hn id
      | ninf => exact Or.inr ⟨rfl, fun i hi => by rw [show i = 0 by omega, hf]⟩
      | fin r => exact Or.inl ⟨⟨r, rfl⟩, 0, by omega, r, hf⟩
    · have e : maxN (n + 1) f = max2 (maxN n f) (f n) := by simp [maxN, h0]
      rw [e]
      rcases ih fun i hi => h i (by omega) with ⟨⟨m, hm⟩, i, hi, hfi⟩ | ⟨hm, hall⟩
      · rw [hm]
        refine Or.inl ⟨?_, i, by omega, hfi⟩
        cases hf : f n with
        | nan => rw [hf] at hn; exact absurd hn id
        | pinf => rw [hf] at hn; exact absurd hn id
        | ninf => exact ⟨m, by simp [max2, lt]⟩
        | fin r => exact ⟨max m r, by simp⟩
      · rw [hm]
        cases hf : f n with
        | nan => rw [hf] at hn; exact absurd hn id
        | pinf => rw [hf] at hn; exact absurd hn id
        | ninf => exact Or.inr ⟨by simp [max2, lt], fun i hi => by
            by_cases hin : i = n
            · rw [hin, hf]
            · exact hall i (by omega)⟩
        | fin r => exact Or.inl ⟨⟨r, by simp [max2, lt]⟩, n, by omega, r, hf⟩

/-- stabilised einsum of two vectors without NaN and `+inf`. -/
theorem einsum_stable {S : Nat} {a b : Nat → Fl} {w : Nat → Nat → Fl} {v : Nat → Nat → ℝ}
    (hv : ∀ i, i < S → ∀ j, j < S → w i j = .fin (v i j)) (hp : ∀ i j, 0 < v i j)
    (ha : ∀ i, i < S → NN (a i)) (hb : ∀ i, i < S → NN (b i))
    (ha' : ∃ i, i < S ∧ (a i).IsFin) (hb' : ∃ j, j < S ∧ (b j).IsFin) :
    Fl.log (Fl.sumN S fun i => Fl.sumN S fun j => Fl.exp (a i - Fl.maxN S a) * Fl.exp (b j - Fl.maxN S b) * w i j) +
      Fl.maxN S a + Fl.maxN S b =
    .fin (Real.log (∑ i ∈ Finset.range S, ∑ j ∈ Finset.range S, v i j * ((a i).prob * (b j).prob))) := by
  obtain ⟨i, hi, hai⟩ := ha'
  obtain ⟨j, hj, hbj⟩ := hb'
  have hA : ∃ m, Fl.maxN S a = .fin m := by
    rcases Fl.maxN_NN ha with ⟨h, _⟩ | ⟨_, h⟩
    · exact h
    · rw [h i hi] at hai; obtain ⟨r, hr⟩ := hai; cases hr
  have hB : ∃ m, Fl.maxN S b = .fin m := by
    rcases Fl.maxN_NN hb with ⟨h, _⟩ | ⟨_, h⟩
    · exact h
    · rw [h j hj] at hbj; obtain ⟨r, hr⟩ := hbj; cases hr
  obtain ⟨ml, hml⟩ := hA
  obtain ⟨mr, hmr⟩ := hB
  rw [hml, hmr]
  have hex : ∀ (a : Fl) (m : ℝ), NN a → Fl.exp (a - Fl.fin m) = Fl.fin (a.prob * Real.exp (-m)) := by
    intro a m h
    cases a with
    | nan => exact absurd h id
    | pinf => exact absurd h id
    | ninf => show Fl.fin 0 = _; simp [Fl.prob]
    | fin v => simp [Fl.prob, ← Real.exp_add, sub_eq_add_neg]
  have hsum : (Fl.sumN S fun i => Fl.sumN S fun j => Fl.exp (a i - .fin ml) * Fl.exp (b j - .fin mr) * w i j) =
      .fin (∑ i ∈ Finset.range S, ∑ j ∈ Finset.range S,
        (a i).prob * Real.exp (-ml) * ((b j).prob * Real.exp (-mr)) * v i j) := by
    refine Fl.sumN_eq_fin fun i hi => Fl.sumN_eq_fin fun j hj => ?_
    rw [hex _ _ (ha i hi), hex _ _ (hb j hj), hv i hi j hj]
    simp
  have hfac : (∑ i ∈ Finset.range S, ∑ j ∈ Finset.range S,
        (a i).prob * Real.exp (-ml) * ((b j).prob * Real.exp (-mr)) * v i j) =
      Real.exp (-ml) * Real.exp (-mr) *
        ∑ i ∈ Finset.range S, ∑ j ∈ Finset.range S, v i j * ((a i).prob * (b j).prob) := by
    rw [Finset.mul_sum]
    refine Finset.sum_congr rfl fun a _ => ?_
    rw [Finset.mul_sum]
    exact Finset.sum_congr rfl fun b _ => by ring
  have nn : ∀ i j, 0 ≤ v i j * ((a i).prob * (b j).prob) := fun i j =>
    mul_nonneg (hp i j).le (mul_nonneg (Fl.prob_nonneg _) (Fl.prob_nonneg _))
  have posZ : 0 < ∑ i ∈ Finset.range S, ∑ j ∈ Finset.range S, v i j * ((a i).prob * (b j).prob) :=
    Finset.sum_pos' (fun i _ => Finset.sum_nonneg fun j _ => nn i j) ⟨i, by simpa using hi,
      Finset.sum_pos' (fun j _ => nn i j) ⟨j, by simpa using hj,
        mul_pos (hp i j) (mul_pos (Fl.prob_pos hai) (Fl.prob_pos hbj))⟩⟩
  rw [hsum, hfac, Fl.log_fin (mul_pos (mul_pos (Real.exp_pos _) (Real.exp_pos _)) posZ)]
  simp only [Fl.fin_add]
  congr 1
  rw [Real.log_mul (mul_pos (Real.exp_pos _) (Real.exp_pos _)).ne' posZ.ne',
    Real.log_mul (Real.exp_pos _).ne' (Real.exp_pos _).ne', Real.log_exp, Real.log_exp]
  ring

/-- the stabilised einsum of a vector of `-inf` is NaN. -/
theorem einsum_unstable {S : Nat} (hS : 0 < S) {a b : Nat → Fl} {w : Nat → Nat → Fl}
    (ha : ∀ i, i < S → NN (a i)) (hb : ∀ i, i < S → NN (b i))
    (h : (∀ i, i < S → a i = .ninf) ∨ (∀ i, i < S → b i = .ninf)) :
    Fl.log (Fl.sumN S fun i => Fl.sumN S fun j => Fl.exp (a i - Fl.maxN S a) * Fl.exp (b j - Fl.maxN S b) * w i j) +
      Fl.maxN S a + Fl.maxN S b = .nan := by
  have key : ∀ (a : Nat → Fl), (∀ i, i < S → NN (a i)) → (∀ i, i < S → a i = .ninf) → Fl.exp (a 0 - Fl.maxN S a) = .nan := by
    intro a ha h
    rcases Fl.maxN_NN ha with ⟨_, i, hi, hf⟩ | ⟨hm, _⟩
    · rw [h i hi] at hf; obtain ⟨r, hr⟩ := hf; cases hr
    · rw [hm, h 0 hS]; rfl
  have hs : (Fl.sumN S fun i => Fl.sumN S fun j =>
      Fl.exp (a i - Fl.maxN S a) * Fl.exp (b j - Fl.maxN S b) * w i j) = .nan := by
    refine Fl.sumN_nan hS (Fl.sumN_nan hS ?_)
    rcases h with h | h
    · rw [key a ha h]; simp
    · rw [key b hb h]; simp
  rw [hs]
  simp

end Einet

namespace Einet.Props
open Tensor Einet

/-! ### C10 -/

/-- weights `w 0, …, w (n-1)` of a sum node obtained from the logits `g` at temperature `T`: positive, summing to one,
ranked like the logits. -/
structure NodeWeights (n : Nat) (g : Nat → ℝ) (w : Nat → ℝ) : Prop where
  pos : ∀ k, k < n → 0 < w k
  sum : ∑ k ∈ Finset.range n, w k = 1
  rank : ∀ k, k < n → ∀ j, j < n → (w k ≤ w j ↔ g k ≤ g j)

theorem sw_node {n : Nat} (hn : 0 < n) (g : Nat → ℝ) {T : ℝ} (hT : 0 < T) : NodeWeights n g (sw n g T) :=
  ⟨fun k _ => sw_pos n g T k, sw_sum hn g T, fun k _ j _ => sw_le g hT k j⟩

/-- **C10**, the function `logits_to_log_weights`: for finite logits of any shape and any positive temperature the
exponentials of the result along the chosen dimension are node weights. -/
theorem C10_logits_to_log_weights (t : Tensor Fl) (d : Nat) (hd : d < t.shape.length) (hpos : 0 < at' d t.shape)
    (v : List Nat → ℝ) (hv : ∀ i, InB t.shape i → t.get i = .fin (v i)) (T : ℝ) (hT : 0 < T) :
    ∃ (y : Tensor Fl) (w : List Nat → ℝ), logitsToLogWeights t d T = .ok y ∧ y.shape = t.shape ∧
      (∀ i, InB t.shape i → y.get i = .fin (Real.log (w i))) ∧
      ∀ i, InB t.shape i → NodeWeights (at' d t.shape) (fun k => v (setAt d k i)) fun k => w (setAt d k i) := by
  obtain ⟨y, hy, h1⟩ := logitsToLogWeights_is (T := T) (Is.refl t rfl) hd
  have hset : ∀ i, InB t.shape i → ∀ k, k < at' d t.shape → InB t.shape (setAt d k i) := fun i hi k hk =>
    InB_setAt' hi hk
  refine ⟨y, fun i => sw (at' d t.shape) (fun k => v (setAt d k i)) T (at' d i), hy, h1.1, fun i hi => ?_, fun i hi => ?_⟩
  · rw [Is.get h1 hi, logSoftmax_sw hT.ne' (fun k hk => ⟨_, hv _ (hset i hi k hk)⟩) (InB_at hi hd)]
    unfold sw Fl.rlsm
    simp only [Real.log_exp]
    congr 2
    · rw [hv _ (hset i hi _ (InB_at hi hd))]; simp
    · congr 1
      refine Finset.sum_congr rfl fun k hk => ?_
      rw [hv _ (hset i hi k (by simpa using hk))]; simp
  · have hlen : d < i.length := by rw [Tensor.InB.length hi]; exact hd
    have hn := sw_node hpos (fun k => v (setAt d k i)) hT
    simp only [setAt_setAt, at_setAt hlen]
    exact hn

example : ∃ t : Tensor Fl, t.shape = [2, 3, 4] ∧ 1 < t.shape.length ∧ 0 < at' 1 t.shape ∧
    ∀ i, InB t.shape i → t.get i = .fin (i.sum : ℝ) := ⟨⟨[2, 3, 4], fun i => .fin i.sum⟩, rfl, by simp, by simp [at'], fun _ _ => rfl⟩

/-- a finite tensor with the given entries. -/
def Entries4 (x : Tensor Fl) (N D S R : Nat) (e : Nat → Nat → Nat → Nat → ℝ) : Prop :=
  x.shape = [N, D, S, R] ∧ ∀ n, n < N → ∀ d, d < D → ∀ k, k < S → ∀ r, r < R → x.get [n, d, k, r] = .fin (e n d k r)

theorem Entries4.is4 {x : Tensor Fl} {N D S R : Nat} {e : Nat → Nat → Nat → Nat → ℝ} (h : Entries4 x N D S R e) :
    x.Is4 N D S R fun n d k r => .fin (e n d k r) := ⟨h.1, h.2⟩

theorem lw_sw {L : SumL} {D : Nat} (hL : L.logits.shape = [D, L.num_sums_in, L.num_sums_out, L.num_repetitions])
    (hf : L.FinLogits) {T : ℝ} (hT : T ≠ 0) {d s r : Nat} (hd : d < D)
    (hs : s < L.num_sums_out) (hr : r < L.num_repetitions) {k : Nat} (hk : k < L.num_sums_in) :
    L.lw T d k s r = .fin (Real.log (sw L.num_sums_in (fun k => (L.logits.get [d, k, s, r]).val) T k)) :=
  logSoftmax_sw hT (fun k hk => hf _ (by rw [hL]; exact ⟨hd, hk, hs, hr, by simp⟩)) hk

/-- **C10** for `SumLayer`: there are node weights such that `forward` computes the logarithm of the weighted sum over
the children, and sampling draws child `k` of a node with the weights of this node (equal to those used in `forward` if
the temperature is 1). -/
theorem C10_sum_layer (L : SumL) (hL : L.logits.shape = SumLayer.weightShape L) (hf : L.FinLogits)
    (hS : 0 < L.num_sums_in) :
    ∃ w : ℝ → Nat → Nat → Nat → Nat → ℝ,
      (∀ T, 0 < T → ∀ d, d < L.num_features → ∀ s, s < L.num_sums_out → ∀ r, r < L.num_repetitions →
        NodeWeights L.num_sums_in (fun k => (L.logits.get [d, k, s, r]).val) fun k => w T d k s r) ∧
      (∀ N x e, Entries4 x N L.num_features L.num_sums_in L.num_repetitions e → ∃ y c, SumLayer.forward L none x = .ok (y, c) ∧
        Entries4 y N L.num_features L.num_sums_out L.num_repetitions fun n d s r =>
          Real.log (∑ k ∈ Finset.range L.num_sums_in, w 1 d k s r * Real.exp (e n d k r))) ∧
      (∀ ctx N idx rr, CtxOK ctx N L.num_features L.num_sums_out L.num_repetitions idx rr → 0 < ctx.temperature_sums →
        ∃ W, SumLayer.selectWeights L ctx = .ok W ∧ W.shape = [N, L.num_features, L.num_sums_in] ∧
          ∀ n, n < N → ∀ d, d < L.num_features → ∀ k, k < L.num_sums_in →
            W.get [n, d, k] = .fin (Real.log (w ctx.temperature_sums d k (idx n d) (rr n)))) := by
  refine ⟨fun T d k s r => sw L.num_sums_in (fun k => (L.logits.get [d, k, s, r]).val) T k,
    fun T hT d hd s hs r hr => sw_node hS _ hT, fun N x e hx => ?_, fun ctx N idx rr h hT => ?_⟩
  · obtain ⟨⟨y, c⟩, hy, h1, _⟩ := SumLayer.forward_is hL hx.is4
    refine ⟨y, c, hy, h1.1, fun n hn d hd s hs r hr => ?_⟩
    rw [h1.get hn hd hs hr]
    exact lse_weighted hS (fun k => sw_pos _ _ _ k) (fun k _ => rfl) fun k hk =>
      lw_sw hL hf one_ne_zero hd hs hr hk
  · obtain ⟨W, hW, h1⟩ := SumLayer.selectWeights_is hL h
    refine ⟨W, hW, h1.1, fun n hn d hd k hk => ?_⟩
    rw [h1.get hn hd hk]
    exact lw_sw hL hf hT.ne' hd (h.io_lt n hn d hd) (h.ir_lt n hn) hk

/-- value of the right neighbour of feature `2 d`; an odd last feature is paired with a constant log-likelihood 0. -/
def rightOf (D : Nat) (e : Nat → Nat → Nat → ℝ) (d k r : Nat) : ℝ := if 2 * d + 1 < D then e (2 * d + 1) k r else 0

/-- **C10** for `LinsumLayer`: the same, for the weighted sum over `k` of the product of the `k`-th nodes of two
neighbouring features. -/
theorem C10_linsum_layer (L : SumL) (hL : L.logits.shape = LinsumLayer.weightShape L) (hf : L.FinLogits)
    (hS : 0 < L.num_sums_in) (hD : 2 ≤ L.num_features) :
    ∃ w : ℝ → Nat → Nat → Nat → Nat → ℝ,
      (∀ T, 0 < T → ∀ d, d < LinsumLayer.numFeaturesOut L → ∀ s, s < L.num_sums_out → ∀ r, r < L.num_repetitions →
        NodeWeights L.num_sums_in (fun k => (L.logits.get [d, k, s, r]).val) fun k => w T d k s r) ∧
      (∀ N x e, Entries4 x N L.num_features L.num_sums_in L.num_repetitions e →
        ∃ y c, LinsumLayer.forward L none x = .ok (y, c) ∧
        Entries4 y N (LinsumLayer.numFeaturesOut L) L.num_sums_out L.num_repetitions fun n d s r =>
          Real.log (∑ k ∈ Finset.range L.num_sums_in,
            w 1 d k s r * Real.exp (e n (2 * d) k r + rightOf L.num_features (e n) d k r))) ∧
      (∀ ctx N idx rr, CtxOK ctx N (LinsumLayer.numFeaturesOut L) L.num_sums_out L.num_repetitions idx rr →
        0 < ctx.temperature_sums →
        ∃ W, LinsumLayer.selectWeights L ctx = .ok W ∧ W.shape = [N, LinsumLayer.numFeaturesOut L, L.num_sums_in] ∧
          ∀ n, n < N → ∀ d, d < LinsumLayer.numFeaturesOut L → ∀ k, k < L.num_sums_in →
            W.get [n, d, k] = .fin (Real.log (w ctx.temperature_sums d k (idx n d) (rr n)))) := by
  refine ⟨fun T d k s r => sw L.num_sums_in (fun k => (L.logits.get [d, k, s, r]).val) T k,
    fun T hT d hd s hs r hr => sw_node hS _ hT, fun N x e hx => ?_, fun ctx N idx rr h hT => ?_⟩
  · obtain ⟨⟨y, c⟩, hy, h1, _⟩ := LinsumLayer.forward_is hL hD hx.is4
    refine ⟨y, c, hy, h1.1, fun n hn d hd s hs r hr => ?_⟩
    rw [h1.get hn hd hs hr]
    refine lse_weighted hS (fun k => sw_pos _ _ _ k) (fun k hk => ?_) fun k hk => lw_sw hL hf one_ne_zero hd hs hr hk
    unfold rightChild rightOf
    split_ifs <;> simp
  · obtain ⟨W, hW, h1⟩ := LinsumLayer.selectWeights_is hL h
    refine ⟨W, hW, h1.1, fun n hn d hd k hk => ?_⟩
    rw [h1.get hn hd hk]
    exact lw_sw hL hf hT.ne' hd (h.io_lt n hn d hd) (h.ir_lt n hn) hk

/-- **C10** for `LinsumLayer2`: product of two weighted sums. -/
theorem C10_linsum2_layer (L : SumL) (hL : L.logits.shape = LinsumLayer2.weightShape L) (hf : L.FinLogits)
    (hS : 0 < L.num_sums_in) (hD : 2 ≤ L.num_features) :
    ∃ w : ℝ → Nat → Nat → Nat → Nat → ℝ,
      (∀ T, 0 < T → ∀ d, d < L.num_features → ∀ s, s < L.num_sums_out → ∀ r, r < L.num_repetitions →
        NodeWeights L.num_sums_in (fun k => (L.logits.get [d, k, s, r]).val) fun k => w T d k s r) ∧
      (∀ N x e, Entries4 x N L.num_features L.num_sums_in L.num_repetitions e →
        ∃ y c, LinsumLayer2.forward L none x = .ok (y, c) ∧
        Entries4 y N (LinsumLayer2.numFeaturesOut L) L.num_sums_out L.num_repetitions fun n d s r =>
          Real.log (∑ k ∈ Finset.range L.num_sums_in, w 1 (2 * d) k s r * Real.exp (e n (2 * d) k r)) +
          rightOf L.num_features (fun d s r =>
            Real.log (∑ k ∈ Finset.range L.num_sums_in, w 1 d k s r * Real.exp (e n d k r))) d s r) ∧
      (∀ ctx N idx rr, CtxOK ctx N (LinsumLayer2.numFeaturesOut L) L.num_sums_out L.num_repetitions idx rr →
        0 < ctx.temperature_sums →
        ∃ W, LinsumLayer2.selectWeights L ctx = .ok W ∧ W.shape = [N, L.num_features, L.num_sums_in] ∧
          ∀ n, n < N → ∀ d, d < L.num_features → ∀ k, k < L.num_sums_in →
            W.get [n, d, k] = .fin (Real.log (w ctx.temperature_sums d k (idx n (d / 2)) (rr n)))) := by
  refine ⟨fun T d k s r => sw L.num_sums_in (fun k => (L.logits.get [d, k, s, r]).val) T k,
    fun T hT d hd s hs r hr => sw_node hS _ hT, fun N x e hx => ?_, fun ctx N idx rr h hT => ?_⟩
  · obtain ⟨⟨y, c⟩, hy, h1, _⟩ := LinsumLayer2.forward_is hL hD hx.is4
    refine ⟨y, c, hy, h1.1, fun n hn d hd s hs r hr => ?_⟩
    have hd2 : 2 * d < L.num_features := by unfold LinsumLayer2.numFeaturesOut LinsumLayer2.pad at hd; omega
    have key : ∀ d, d < L.num_features → SumLayer.row L (fun d k r => .fin (e n d k r)) d s r = .fin _ := fun d hd =>
      lse_weighted hS (v := fun k => sw L.num_sums_in (fun k => (L.logits.get [d, k, s, r]).val) 1 k)
        (fun k => sw_pos _ _ _ k) (fun k hk => rfl) fun k hk => lw_sw hL hf one_ne_zero hd hs hr hk
    rw [h1.get hn hd hs hr]
    unfold LinsumLayer2.row rightChild rightOf
    rw [key _ hd2]
    split_ifs with h2
    · rw [key _ h2, Fl.fin_add]; simp only [h2, if_true]
    · rw [Fl.fin_add]; simp only [h2, if_false]
  · obtain ⟨W, hW, h1⟩ := LinsumLayer2.selectWeights_is hL h
    refine ⟨W, hW, h1.1, fun n hn d hd k hk => ?_⟩
    rw [h1.get hn hd hk]
    have hd' : d / 2 < LinsumLayer2.numFeaturesOut L := by
      unfold LinsumLayer2.numFeaturesOut LinsumLayer2.pad; omega
    exact lw_sw hL hf hT.ne' hd (h.io_lt n hn _ hd') (h.ir_lt n hn) hk

/-- **C10** for `MixingLayer`: weighted sum over the repetitions. -/
theorem C10_mixing_layer (L : SumL) (hL : L.logits.shape = MixingLayer.weightShape L) (hf : L.FinLogits)
    (hS : 0 < L.num_sums_in) :
    ∃ w : ℝ → Nat → Nat → Nat → ℝ,
      (∀ T, 0 < T → ∀ d, d < L.num_features → ∀ s, s < L.num_sums_out →
        NodeWeights L.num_sums_in (fun k => (L.logits.get [d, s, k]).val) fun k => w T d s k) ∧
      (∀ N x e, Entries4 x N L.num_features L.num_sums_out L.num_sums_in e →
        ∃ y c, MixingLayer.forward L none x = .ok (y, c) ∧ y.shape = [N, L.num_features, L.num_sums_out] ∧
        ∀ n, n < N → ∀ d, d < L.num_features → ∀ s, s < L.num_sums_out → y.get [n, d, s] =
          .fin (Real.log (∑ k ∈ Finset.range L.num_sums_in, w 1 d s k * Real.exp (e n d s k)))) ∧
      (∀ ctx N R idx rr, CtxOK ctx N L.num_features L.num_sums_out R idx rr → 0 < ctx.temperature_sums →
        ∃ W, MixingLayer.selectWeights L ctx = .ok W ∧ W.shape = [N, L.num_features, L.num_sums_in] ∧
          ∀ n, n < N → ∀ d, d < L.num_features → ∀ k, k < L.num_sums_in →
            W.get [n, d, k] = .fin (Real.log (w ctx.temperature_sums d (idx n d) k))) := by
  have hlw : ∀ {T : ℝ}, T ≠ 0 → ∀ {d s : Nat}, d < L.num_features → s < L.num_sums_out → ∀ {k : Nat}, k < L.num_sums_in →
      L.lwMix T d s k = .fin (Real.log (sw L.num_sums_in (fun k => (L.logits.get [d, s, k]).val) T k)) :=
    fun hT d s hd hs k hk => logSoftmax_sw hT (fun k hk => hf _ (by rw [hL]; exact ⟨hd, hs, hk, by simp⟩)) hk
  refine ⟨fun T d s k => sw L.num_sums_in (fun k => (L.logits.get [d, s, k]).val) T k,
    fun T hT d hd s hs => sw_node hS _ hT, fun N x e hx => ?_, fun ctx N R idx rr h hT => ?_⟩
  · obtain ⟨⟨y, c⟩, hy, h1, _⟩ := MixingLayer.forward_is hL hx.is4
    refine ⟨y, c, hy, h1.1, fun n hn d hd s hs => ?_⟩
    rw [h1.get hn hd hs]
    exact lse_weighted hS (fun k => sw_pos _ _ _ k) (fun k _ => rfl) fun k hk => hlw one_ne_zero hd hs hk
  · obtain ⟨W, hW, h1⟩ := MixingLayer.selectWeights_is hL h
    refine ⟨W, hW, h1.1, fun n hn d hd k hk => ?_⟩
    rw [h1.get hn hd hk]
    exact hlw hT.ne' hd (h.io_lt n hn d hd) hk

/-! ### C10 and C11 for `EinsumLayer` -/

theorem ein_sw {L : SumL} (hL : L.logits.shape = EinsumLayer.weightShape L) (hf : L.FinLogits) (hS : 0 < L.num_sums_in)
    {d s r : Nat} (hd : d < EinsumLayer.numFeaturesOut L) (hs : s < L.num_sums_out) (hr : r < L.num_repetitions) :
    ∀ k, k < L.num_sums_in ^ 2 → (L.logits.get [d, s, r, k / L.num_sums_in, k % L.num_sums_in]).IsFin := fun k hk =>
  hf _ (by
    rw [hL]
    exact ⟨hd, hs, hr, Nat.div_lt_of_lt_mul (by rwa [← pow_two]), Nat.mod_lt _ hS, by simp⟩)

/-- weight of the pair of children `(i, j)` of a node of an einsum layer. -/
def pairWeight (L : SumL) (T : ℝ) (d s r i j : Nat) : ℝ :=
  sw (L.num_sums_in ^ 2) (fun k => (L.logits.get [d, s, r, k / L.num_sums_in, k % L.num_sums_in]).val) T
    (i * L.num_sums_in + j)

/-- **C10** for `EinsumLayer`: the weights of the pairs of children, both in `forward` and in sampling, form a
distribution over the `S * S` pairs that is ranked like the logits; the `k`-th category drawn in sampling is the pair
`(k / S, k % S)`, with the weight which `forward` gives to this pair (at temperature 1). -/
theorem C10_einsum_layer (L : SumL) (hL : L.logits.shape = EinsumLayer.weightShape L) (hf : L.FinLogits)
    (hD : L.num_features % 2 = 0) (hF : 0 < L.num_features) (hS : 0 < L.num_sums_in) (hO : 0 < L.num_sums_out)
    (hR : 0 < L.num_repetitions) :
    ∃ w : ℝ → Nat → Nat → Nat → Nat → Nat → ℝ,
      (∀ T, 0 < T → ∀ d, d < L.num_features / 2 → ∀ s, s < L.num_sums_out → ∀ r, r < L.num_repetitions →
        NodeWeights (L.num_sums_in ^ 2)
          (fun k => (L.logits.get [d, s, r, k / L.num_sums_in, k % L.num_sums_in]).val)
          fun k => w T d s r (k / L.num_sums_in) (k % L.num_sums_in)) ∧
      (∀ N x e, Entries4 x N L.num_features L.num_sums_in L.num_repetitions e →
        ∃ y c, EinsumLayer.forward L x = .ok (y, c) ∧
        Entries4 y N (L.num_features / 2) L.num_sums_out L.num_repetitions fun n d s r =>
          Real.log (∑ i ∈ Finset.range L.num_sums_in, ∑ j ∈ Finset.range L.num_sums_in,
            w 1 d s r i j * (Real.exp (e n (2 * d) i r) * Real.exp (e n (2 * d + 1) j r)))) ∧
      (∀ ctx N idx rr, CtxOK ctx N (L.num_features / 2) L.num_sums_out L.num_repetitions idx rr →
        0 < ctx.temperature_sums →
        ∃ W, EinsumLayer.selectWeights L ctx = .ok W ∧ W.shape = [N, L.num_features / 2, L.num_sums_in ^ 2] ∧
          ∀ n, n < N → ∀ d, d < L.num_features / 2 → ∀ k, k < L.num_sums_in ^ 2 → W.get [n, d, k] =
            .fin (Real.log (w ctx.temperature_sums d (idx n d) (rr n) (k / L.num_sums_in) (k % L.num_sums_in)))) := by
  refine ⟨pairWeight L, fun T hT d hd s hs r hr => ?_, fun N x e hx => ?_, fun ctx N idx rr h hT => ?_⟩
  · have := sw_node (Nat.pow_pos (n := 2) hS)
      (fun k => (L.logits.get [d, s, r, k / L.num_sums_in, k % L.num_sums_in]).val) hT
    simpa only [pairWeight, Nat.div_add_mod'] using this
  · obtain ⟨⟨y, c⟩, hy, h1, _⟩ := EinsumLayer.forward_is hL hD hF hS hO hR hx.is4
    refine ⟨y, c, hy, h1.1, fun n hn d hd s hs r hr => ?_⟩
    rw [h1.get hn hd hs hr]
    exact einsum_stable (fun i hi j hj => softmax_sw (ein_sw hL hf hS hd hs hr) (by nlinarith))
      (fun i j => sw_pos _ _ _ _) (fun _ _ => trivial) (fun _ _ => trivial) ⟨0, hS, _, rfl⟩ ⟨0, hS, _, rfl⟩
  · obtain ⟨W, hW, h1⟩ := EinsumLayer.selectWeights_is hL h
    refine ⟨W, hW, h1.1, fun n hn d hd k hk => ?_⟩
    rw [h1.get hn hd hk]
    simp only [pairWeight, Nat.div_add_mod']
    exact logSoftmax_sw hT.ne' (ein_sw hL hf hS hd (h.io_lt n hn d hd) (h.ir_lt n hn)) hk

/-- entries that are real or `-inf`. -/
def LogProbs4 (x : Tensor Fl) (N D S R : Nat) : Prop :=
  x.shape = [N, D, S, R] ∧ ∀ n, n < N → ∀ d, d < D → ∀ k, k < S → ∀ r, r < R →
    x.get [n, d, k, r] = .ninf ∨ ∃ e, x.get [n, d, k, r] = .fin e

theorem LogProbs4.nn {x : Tensor Fl} {N D S R : Nat} (h : LogProbs4 x N D S R) {n d k r : Nat} (hn : n < N) (hd : d < D)
    (hk : k < S) (hr : r < R) : NN (x.get [n, d, k, r]) := by
  rcases h.2 n hn d hd k hk r hr with h | ⟨e, h⟩ <;> rw [h] <;> trivial

/-- **C11**, the part that holds. On inputs that are real or `-inf`, `EinsumLayer.forward` succeeds, and each output
node with a non-zero left and a non-zero right child is the logarithm of the plain weighted sum of products, for the
softmax weights of the node. A node all of whose left children or all of whose right children are `-inf` is NaN
(see `C11_refuted`). -/
theorem C11_plain_sum_partial (L : SumL) (hL : L.logits.shape = EinsumLayer.weightShape L) (hf : L.FinLogits)
    (hD : L.num_features % 2 = 0) (hF : 0 < L.num_features) (hS : 0 < L.num_sums_in) (hO : 0 < L.num_sums_out)
    (hR : 0 < L.num_repetitions) {N : Nat} {x : Tensor Fl} (hx : LogProbs4 x N L.num_features L.num_sums_in L.num_repetitions) :
    ∃ y c, EinsumLayer.forward L x = .ok (y, c) ∧ y.shape = [N, L.num_features / 2, L.num_sums_out, L.num_repetitions] ∧
      ∀ n, n < N → ∀ d, d < L.num_features / 2 → ∀ s, s < L.num_sums_out → ∀ r, r < L.num_repetitions →
        ((∃ i, i < L.num_sums_in ∧ (x.get [n, 2 * d, i, r]).IsFin) ∧
          (∃ j, j < L.num_sums_in ∧ (x.get [n, 2 * d + 1, j, r]).IsFin) →
          y.get [n, d, s, r] = .fin (Real.log (
            (∑ i ∈ Finset.range L.num_sums_in, ∑ j ∈ Finset.range L.num_sums_in,
              Real.exp (L.logits.get [d, s, r, i, j]).val *
                ((x.get [n, 2 * d, i, r]).prob * (x.get [n, 2 * d + 1, j, r]).prob)) /
            ∑ i ∈ Finset.range L.num_sums_in, ∑ j ∈ Finset.range L.num_sums_in,
              Real.exp (L.logits.get [d, s, r, i, j]).val))) ∧
        ((∀ i, i < L.num_sums_in → x.get [n, 2 * d, i, r] = .ninf) ∨
          (∀ j, j < L.num_sums_in → x.get [n, 2 * d + 1, j, r] = .ninf) → y.get [n, d, s, r] = .nan) := by
  have hx4 : x.Is4 N L.num_features L.num_sums_in L.num_repetitions fun n d k r => x.get [n, d, k, r] :=
    ⟨hx.1, fun _ _ _ _ _ _ _ _ => rfl⟩
  obtain ⟨⟨y, c⟩, hy, h1, _⟩ := EinsumLayer.forward_is hL hD hF hS hO hR hx4
  refine ⟨y, c, hy, h1.1, fun n hn d hd s hs r hr => ?_⟩
  have hw : ∀ i, i < L.num_sums_in → ∀ j, j < L.num_sums_in → Fl.softmax (L.num_sums_in ^ 2)
      (fun k => L.logits.get [d, s, r, k / L.num_sums_in, k % L.num_sums_in]) (i * L.num_sums_in + j) = .fin (pairWeight L 1 d s r i j) :=
    fun i hi j hj => softmax_sw (ein_sw hL hf hS hd hs hr) (by nlinarith)
  rw [h1.get hn hd hs hr]
  refine ⟨fun h => ?_, fun h => einsum_unstable hS (fun i hi => hx.nn hn (by omega) hi hr) (fun i hi => hx.nn hn (by omega) hi hr) h⟩
  refine (einsum_stable hw (fun i j => sw_pos _ _ _ _) (fun i hi => hx.nn hn (by omega) hi hr) (fun i hi => hx.nn hn (by omega) hi hr) h.1 h.2).trans ?_
  congr 2
  rw [Finset.sum_div]
  refine Finset.sum_congr rfl fun i hi => ?_
  rw [Finset.sum_div]
  refine Finset.sum_congr rfl fun j hj => ?_
  have hi' : i < L.num_sums_in := by simpa using hi
  have hj' : j < L.num_sums_in := by simpa using hj
  have hdiv : (i * L.num_sums_in + j) / L.num_sums_in = i := by
    rw [Nat.mul_comm, Nat.mul_add_div hS, Nat.div_eq_of_lt hj', Nat.add_zero]
  have hmod : (i * L.num_sums_in + j) % L.num_sums_in = j := by
    rw [Nat.mul_comm, Nat.mul_add_mod, Nat.mod_eq_of_lt hj']
  have hsum : (∑ k ∈ Finset.range (L.num_sums_in ^ 2), Real.exp (L.logits.get [d, s, r, k / L.num_sums_in, k % L.num_sums_in]).val) =
      ∑ i ∈ Finset.range L.num_sums_in, ∑ j ∈ Finset.range L.num_sums_in, Real.exp (L.logits.get [d, s, r, i, j]).val :=
    (Finset.sum_square L.num_sums_in fun i j => Real.exp (L.logits.get [d, s, r, i, j]).val).symm
  have : pairWeight L 1 d s r i j = Real.exp (L.logits.get [d, s, r, i, j]).val /
      ∑ i ∈ Finset.range L.num_sums_in, ∑ j ∈ Finset.range L.num_sums_in, Real.exp (L.logits.get [d, s, r, i, j]).val := by
    unfold pairWeight sw
    rw [Fl.exp_rlsm (Nat.pow_pos hS)]
    simp only [hdiv, hmod, div_one]
    rw [hsum]
  rw [this, div_mul_eq_mul_div]

/-- an einsum layer with one region, two children on either side and one output. -/
def exEinsum : SumL := { num_features := 2, num_sums_in := 2, num_sums_out := 1, num_repetitions := 1, logits := full [1, 1, 1, 2, 2] (.fin 0) }

example : ∃ y c, EinsumLayer.forward exEinsum (⟨[1, 2, 2, 1], fun i => if i = [0, 0, 0, 0] then .ninf else .fin (-1)⟩) = .ok (y, c) ∧
    y.get [0, 0, 0, 0] = .fin (Real.log ((Real.exp (-1) * Real.exp (-1) + Real.exp (-1) * Real.exp (-1)) / 4)) := by
  obtain ⟨y, c, h, hs, he⟩ := C11_plain_sum_partial exEinsum rfl (fun i _ => ⟨0, rfl⟩) rfl (by decide) (by decide) (by decide)
    (by decide) (N := 1) (x := ⟨[1, 2, 2, 1], fun i => if i = [0, 0, 0, 0] then .ninf else .fin (-1)⟩)
    ⟨rfl, fun n hn d hd k hk r hr => by
      by_cases e : [n, d, k, r] = [0, 0, 0, 0]
      · left; exact if_pos e
      · right; exact ⟨-1, if_neg e⟩⟩
  refine ⟨y, c, h, ?_⟩
  rw [(he 0 (by decide) 0 (by decide) 0 (by decide) 0 (by decide)).1 ⟨⟨1, by decide, -1, by simp⟩, ⟨0, by decide, -1, by simp⟩⟩]
  simp [exEinsum, full, Finset.sum_range_succ, Fl.prob]
  congr 1
  ring

/-- **C11** fails in general: with every child on the left `-inf`, the plain weighted sum of products is `0` and its
logarithm `-inf`, but `EinsumLayer.forward` returns NaN. -/
theorem C11_refuted : ∃ (L : SumL) (x y : Tensor Fl) (c : Cache), L.logits.shape = EinsumLayer.weightShape L ∧ L.FinLogits ∧
    L.num_features = 2 ∧ L.num_sums_in = 2 ∧ L.num_sums_out = 1 ∧ L.num_repetitions = 1 ∧
    LogProbs4 x 1 2 2 1 ∧ EinsumLayer.forward L x = .ok (y, c) ∧ y.get [0, 0, 0, 0] = .nan := by
  have hx : LogProbs4 (⟨[1, 2, 2, 1], fun i => if at' 1 i = 0 then .ninf else .fin (-1)⟩) 1 2 2 1 :=
    ⟨rfl, fun n hn d hd k hk r hr => by
      by_cases e : d = 0
      · left; subst e; rfl
      · right; exact ⟨-1, by simp [at', e]⟩⟩
  obtain ⟨y, c, h, hs, he⟩ := C11_plain_sum_partial exEinsum rfl (fun i _ => ⟨0, rfl⟩) rfl (by decide) (by decide) (by decide)
    (by decide) hx
  exact ⟨exEinsum, _, y, c, rfl, fun i _ => ⟨0, rfl⟩, rfl, rfl, rfl, rfl, hx, h,
    (he 0 (by decide) 0 (by decide) 0 (by decide) 0 (by decide)).2 (Or.inl fun i _ => rfl)⟩

/-! The hypotheses of the theorems on layers hold for concrete layers. -/

example : (full [3, 2, 4, 5] (.fin 1) : Tensor Fl).shape =
      SumLayer.weightShape { num_features := 3, num_sums_in := 2, num_sums_out := 4, num_repetitions := 5, logits := full [3, 2, 4, 5] (.fin 1) } ∧
    SumL.FinLogits { num_features := 3, num_sums_in := 2, num_sums_out := 4, num_repetitions := 5, logits := full [3, 2, 4, 5] (.fin 1) } :=
  ⟨rfl, fun _ _ => ⟨1, rfl⟩⟩

example : (full [2, 2, 4, 5] (.fin 1) : Tensor Fl).shape =
      LinsumLayer.weightShape { num_features := 3, num_sums_in := 2, num_sums_out := 4, num_repetitions := 5, logits := full [2, 2, 4, 5] (.fin 1) } ∧
    (full [3, 4, 2] (.fin 1) : Tensor Fl).shape =
      MixingLayer.weightShape { num_features := 3, num_sums_in := 2, num_sums_out := 4, num_repetitions := 1, logits := full [3, 4, 2] (.fin 1) } :=
  ⟨rfl, rfl⟩

example : CtxOK ⟨2, full [2, 3] 1, full [2] 0, false, false, 1, 1 / 2, 1, false⟩ 2 3 2 1 (fun _ _ => 1) (fun _ => 0) :=
  ⟨rfl, ⟨rfl, fun _ _ _ _ => rfl⟩, fun _ _ _ _ => by omega, full_is _ _, fun _ _ => by omega⟩

end Einet.Props
