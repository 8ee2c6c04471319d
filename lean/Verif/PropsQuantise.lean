import Verif.Quantise
import Verif.BuildWF

/-!
# C35 and C43: quantised pixels
-/

open Classical
noncomputable section
namespace Einet
open Tensor

namespace Props

/-- an image with values in [0, 1]. -/
def UnitImage (image : Tensor Fl) : Prop :=
  ∀ i, InB image.shape i → ∃ x : ℝ, image.get i = .fin x ∧ 0 ≤ x ∧ x ≤ 1

theorem flGe_zero_one (x : Fl) : flGe x (.fin 0) ∧ flGe (.fin 1) x ↔ ∃ r : ℝ, x = .fin r ∧ 0 ≤ r ∧ r ≤ 1 := by
  cases x <;> simp [flGe, Fl.lt]
  rename_i r
  constructor
  · rintro ⟨h1 | h1, h2 | h2⟩ <;> constructor <;> linarith
  · rintro ⟨h1, h2⟩
    exact ⟨h1.lt_or_eq.imp id Eq.symm, h2.lt_or_eq.imp id Eq.symm⟩

/-- **C35**, error branch: images are accepted exactly if all values lie in [0, 1]. -/
theorem C35_accepts (image : Tensor Fl) (n : ℤ) : (∃ y, reduceBits image n = .ok y) ↔ UnitImage image := by
  have e : ((AllIdx image.shape fun i => flGe (image.get i) (.fin 0)) ∧
      AllIdx image.shape fun i => flGe (.fin 1) (image.get i)) ↔ UnitImage image := by
    rw [AllIdx_iff, AllIdx_iff]
    exact ⟨fun h i hi => (flGe_zero_one _).1 ⟨h.1 i hi, h.2 i hi⟩,
      fun h => ⟨fun i hi => ((flGe_zero_one _).2 (h i hi)).1, fun i hi => ((flGe_zero_one _).2 (h i hi)).2⟩⟩
  unfold reduceBits
  by_cases hU : UnitImage image
  · rw [require_true _ (e.2 hU), Res.ok_bind]
    dsimp only
    refine ⟨fun _ => hU, fun _ => ?_⟩
    split_ifs <;> exact ⟨_, rfl⟩
  · rw [require_false _ (fun h => hU (e.1 h))]
    exact ⟨fun ⟨_, h⟩ => (nomatch h), fun h => absurd h hU⟩

/-- the value of a pixel after `reduce_bits`. -/
theorem reduceBits_get {image y : Tensor Fl} {n : ℤ} (h : reduceBits image n = .ok y) :
    y.shape = image.shape ∧ ∀ i, InB image.shape i → ∃ x : ℝ, 0 ≤ x ∧ x ≤ 1 ∧ image.get i = .fin x ∧
      y.get i = .fin (if n < 8 then (⌊x * 255 / (2 : ℝ) ^ (8 - n)⌋ : ℝ) else x * 255) := by
  have hU := (C35_accepts image n).1 ⟨y, h⟩
  unfold reduceBits at h
  obtain ⟨_, -, h⟩ := bind_ok h
  dsimp only at h
  have hp : (2 : ℝ) ^ (8 - n) ≠ 0 := by positivity
  split_ifs at h with hn
  · cases h
    refine ⟨rfl, fun i hi => ?_⟩
    obtain ⟨x, hx, h0, h1⟩ := hU i hi
    refine ⟨x, h0, h1, hx, ?_⟩
    simp [Tensor.map, hx, hn, Fl.fin_div _ hp, Fl.val]
  · cases h
    refine ⟨rfl, fun i hi => ?_⟩
    obtain ⟨x, hx, h0, h1⟩ := hU i hi
    exact ⟨x, h0, h1, hx, by simp [Tensor.map, hx, hn]⟩

theorem level_bound {n : ℕ} {x : ℝ} (hx1 : x ≤ 1) :
    x * 255 / (2 : ℝ) ^ (8 - (n : ℤ)) < 2 ^ n := by
  have hp : (0 : ℝ) < 2 ^ (8 - (n : ℤ)) := by positivity
  rw [div_lt_iff₀ hp]
  have : (2 : ℝ) ^ n * 2 ^ (8 - (n : ℤ)) = 256 := by
    rw [← zpow_natCast, ← zpow_add₀ (by norm_num)]
    norm_num
  rw [this]
  linarith

/-- **C35** for fewer than 8 bits: every pixel becomes an integer between 0 and `2^n - 1`. (For 8 bits see
`C35_refuted_eight`.) -/
theorem C35_levels_partial {image y : Tensor Fl} {n : ℕ} (h1 : 1 ≤ n) (h7 : n ≤ 7) (h : reduceBits image n = .ok y) :
    y.shape = image.shape ∧ ∀ i, InB y.shape i → ∃ k : ℕ, k ≤ 2 ^ n - 1 ∧ y.get i = .fin k := by
  obtain ⟨hs, hy⟩ := reduceBits_get h
  refine ⟨hs, fun i hi => ?_⟩
  obtain ⟨x, h0, hx1, -, e⟩ := hy i (hs ▸ hi)
  rw [if_pos (by omega)] at e
  have hp : (0 : ℝ) < 2 ^ (8 - (n : ℤ)) := by positivity
  have hnn : 0 ≤ x * 255 / (2 : ℝ) ^ (8 - (n : ℤ)) := div_nonneg (by linarith) hp.le
  have hlt := level_bound (n := n) hx1
  have hk : (⌊x * 255 / (2 : ℝ) ^ (8 - (n : ℤ))⌋₊ : ℝ) = ⌊x * 255 / (2 : ℝ) ^ (8 - (n : ℤ))⌋ := by
    have := Int.natCast_floor_eq_floor hnn
    exact_mod_cast this
  refine ⟨⌊x * 255 / (2 : ℝ) ^ (8 - (n : ℤ))⌋₊, ?_, by rw [e, hk]⟩
  have : ⌊x * 255 / (2 : ℝ) ^ (8 - (n : ℤ))⌋₊ < 2 ^ n := (Nat.floor_lt hnn).2 (by exact_mod_cast hlt)
  omega

/-- **C35** for the binomial leaf and fewer than 8 bits: the leaf chosen by `get_distribution` can be built, and every quantised
pixel is in its support. -/
theorem C35_binomial_partial {image y : Tensor Fl} {n : ℕ} (h1 : 1 ≤ n) (h7 : n ≤ 7) (h : reduceBits image n = .ok y)
    (lo hi : ℝ) (p q : Par) (lg : Nat → Nat → Nat → Nat → Nat → ℝ) (d : LeafDims) :
    ∃ B, (getDistribution n lo hi p q lg .binomial).build none d = .ok B ∧ ∀ i, InB y.shape i → ∀ f, B.valid f (y.get i) := by
  have hpow : (2 : ℤ) ≤ 2 ^ n := by
    calc (2 : ℤ) = 2 ^ 1 := by norm_num
      _ ≤ 2 ^ n := pow_le_pow_right₀ (by norm_num) h1
  have hb : (getDistribution n lo hi p q lg .binomial).build none d =
      .ok (binomialLeaf d (2 ^ n - 1 : ℤ).toNat p) := by
    unfold getDistribution LeafSpec.build
    rw [require_true _ rfl, Res.ok_bind]
    dsimp only
    exact (checkInt_iff _ 1 (by norm_num) _ _).2 ⟨by omega, rfl⟩
  refine ⟨_, hb, fun i hi _ => ?_⟩
  obtain ⟨k, hk, e⟩ := (C35_levels_partial h1 h7 h).2 i hi
  refine ⟨k, ?_, e⟩
  have : (2 ^ n - 1 : ℤ).toNat = 2 ^ n - 1 := by
    have : ((2 ^ n : ℕ) : ℤ) = 2 ^ n := by push_cast; ring
    omega
  omega

/-- **C35** is false of the code for the categorical leaf, for every number of bits: `get_distribution` gives it one category too
few, so a white pixel is outside the support. -/
theorem C35_refuted_categorical {n : ℕ} (h1 : 1 ≤ n) (h8 : n ≤ 8) (lo hi : ℝ) (p q : Par)
    (lg : Nat → Nat → Nat → Nat → Nat → ℝ) (d : LeafDims) :
    ∃ y B, reduceBits (full [1] (.fin 1)) n = .ok y ∧
      (getDistribution n lo hi p q lg .categorical).build none d = .ok B ∧ ∀ f, ¬ B.valid f (y.get [0]) := by
  obtain ⟨y, hy⟩ := (C35_accepts (full [1] (.fin 1)) n).2 (fun i _ => ⟨1, rfl, by norm_num, by norm_num⟩)
  have hpow : (2 : ℤ) ≤ 2 ^ n := by
    calc (2 : ℤ) = 2 ^ 1 := by norm_num
      _ ≤ 2 ^ n := pow_le_pow_right₀ (by norm_num) h1
  have hb : (getDistribution n lo hi p q lg .categorical).build none d =
      .ok (categoricalLeaf d (2 ^ n - 1 : ℤ).toNat lg) := by
    unfold getDistribution LeafSpec.build
    rw [require_true _ rfl, Res.ok_bind]
    dsimp only
    rw [require_true _ (by omega)]
    rfl
  refine ⟨y, _, hy, hb, fun _ => ?_⟩
  rintro ⟨k, hk, e⟩
  obtain ⟨x, -, -, hx, hv⟩ := (reduceBits_get hy).2 [0] (by simp [full, InB])
  cases hx
  rw [hv, Fl.fin.injEq] at e
  have hval : (if (n : ℤ) < 8 then (⌊(1 : ℝ) * 255 / (2 : ℝ) ^ (8 - (n : ℤ))⌋ : ℝ) else 1 * 255) = 2 ^ n - 1 := by
    interval_cases n <;> norm_num
  rw [hval] at e
  have e' : (k : ℤ) = 2 ^ n - 1 := by exact_mod_cast e.symm
  omega

/-- **C35** is false of the code for 8 bits: values are only scaled, a mid-grey pixel becomes 127.5. -/
theorem C35_refuted_eight : ∃ y, reduceBits (full [1] (.fin (1/2))) 8 = .ok y ∧ ¬ ∃ k : ℤ, y.get [0] = .fin k := by
  obtain ⟨y, hy⟩ := (C35_accepts (full [1] (.fin (1/2))) 8).2 (fun i _ => ⟨1/2, rfl, by norm_num, by norm_num⟩)
  refine ⟨y, hy, ?_⟩
  rintro ⟨k, e⟩
  obtain ⟨x, -, -, hx, hv⟩ := (reduceBits_get hy).2 [0] (by simp [full, InB])
  cases hx
  rw [hv, if_neg (by norm_num), Fl.fin.injEq] at e
  have : (255 : ℤ) = 2 * k := by
    have : (255 : ℝ) = 2 * k := by linarith
    exact_mod_cast this
  omega

/-- **C35** through `preprocess` without a Gaussian leaf, all bit depths: the values are integers between 0 and `2^n - 1`. -/
theorem C35_preprocess (noise : List Nat → ℝ) {image : Tensor Fl} {n : ℕ} (h1 : 1 ≤ n) (h8 : n ≤ 8) (bins : ℝ) (deq : Bool)
    {r : Tensor Fl ⊕ Tensor ℤ} (h : preprocess noise image n bins deq false = .ok r) :
    ∃ y, r = .inr y ∧ y.shape = image.shape ∧ ∀ i, InB y.shape i → 0 ≤ y.get i ∧ y.get i ≤ 2 ^ n - 1 := by
  unfold preprocess at h
  obtain ⟨z, hz, h⟩ := bind_ok h
  cases h
  obtain ⟨hs, hy⟩ := reduceBits_get hz
  refine ⟨_, rfl, hs, fun i hi => ?_⟩
  obtain ⟨x, h0, hx1, -, e⟩ := hy i (hs ▸ hi)
  have hlt := level_bound (n := n) hx1
  have hp : (0 : ℝ) < 2 ^ (8 - (n : ℤ)) := by positivity
  have hnn : 0 ≤ x * 255 / (2 : ℝ) ^ (8 - (n : ℤ)) := div_nonneg (by linarith) hp.le
  have key : ∀ v : ℝ, 0 ≤ v → v < 2 ^ n → 0 ≤ toLong (.fin v) ∧ toLong (.fin v) ≤ 2 ^ n - 1 := by
    intro v hv0 hv1
    unfold toLong
    rw [if_pos (show 0 ≤ (Fl.fin v).val from hv0)]
    simp only [Fl.val]
    have : ⌊v⌋ < 2 ^ n := Int.floor_lt.2 (by push_cast; exact hv1)
    exact ⟨Int.floor_nonneg.2 hv0, by omega⟩
  show 0 ≤ toLong (z.get i) ∧ toLong (z.get i) ≤ 2 ^ n - 1
  rw [e]
  split_ifs with hn
  · exact key _ (by exact_mod_cast Int.floor_nonneg.2 hnn) (lt_of_le_of_lt (Int.floor_le _) hlt)
  · have hn8 : n = 8 := by omega
    subst hn8
    exact key _ (by linarith) (by norm_num at hlt ⊢; linarith)

/-- **C43.** With a Gaussian leaf, `n_bins = 2^n` and noise in [0, 1), the preprocessed values lie in [-1/2, 1/2); for fewer than
8 bits the level of the pixel can be read back from them, with or without noise. -/
theorem C43_preprocess {noise : List Nat → ℝ} (hn : ∀ i, 0 ≤ noise i ∧ noise i < 1) {image : Tensor Fl} {n : ℕ}
    (h1 : 1 ≤ n) (h8 : n ≤ 8) (deq : Bool) {r : Tensor Fl ⊕ Tensor ℤ}
    (h : preprocess noise image n (2 ^ n) deq true = .ok r) :
    ∃ y z, r = .inl y ∧ reduceBits image n = .ok z ∧ y.shape = image.shape ∧
      ∀ i, InB y.shape i → ∃ v l : ℝ, y.get i = .fin v ∧ z.get i = .fin l ∧ -1/2 ≤ v ∧ v < 1/2 ∧
        (n ≤ 7 → (⌊(v + 1/2) * 2 ^ n⌋ : ℝ) = l) := by
  unfold preprocess at h
  obtain ⟨z, hz, h⟩ := bind_ok h
  obtain ⟨hs, hy⟩ := reduceBits_get hz
  have hN : (0 : ℝ) < 2 ^ n := by positivity
  have hN0 : (2 : ℝ) ^ n ≠ 0 := hN.ne'
  -- noise that is really added
  obtain ⟨u, hu, y, rfl, hysh, hyv⟩ : ∃ u : List Nat → ℝ, (∀ i, 0 ≤ u i ∧ u i < 1) ∧ ∃ y, r = .inl y ∧ y.shape = z.shape ∧
      ∀ i (l : ℝ), z.get i = .fin l → y.get i = .fin (l / 2 ^ n - 1/2 + u i / 2 ^ n) := by
    cases deq with
    | true =>
      cases h
      refine ⟨noise, hn, _, rfl, rfl, fun i l hl => ?_⟩
      simp [dequantize, Tensor.map, hl, Fl.fin_div _ hN0]
    | false =>
      cases h
      refine ⟨fun _ => 0, fun _ => ⟨le_refl _, zero_lt_one⟩, _, rfl, rfl, fun i l hl => ?_⟩
      simp [Tensor.map, hl, Fl.fin_div _ hN0]
  refine ⟨y, z, rfl, hz, by rw [hysh, hs], fun i hi => ?_⟩
  obtain ⟨x, h0, hx1, -, e⟩ := hy i (by rw [← hs, ← hysh]; exact hi)
  obtain ⟨hu0, hu1⟩ := hu i
  have hp : (0 : ℝ) < 2 ^ (8 - (n : ℤ)) := by positivity
  have hnn : 0 ≤ x * 255 / (2 : ℝ) ^ (8 - (n : ℤ)) := div_nonneg (by linarith) hp.le
  have hlt := level_bound (n := n) hx1
  refine ⟨_, _, hyv i _ e, e, ?_⟩
  generalize hl : (if (n : ℤ) < 8 then (⌊x * 255 / (2 : ℝ) ^ (8 - (n : ℤ))⌋ : ℝ) else x * 255) = l
  have hl0 : 0 ≤ l := by
    rw [← hl]
    split_ifs
    · exact_mod_cast Int.floor_nonneg.2 hnn
    · linarith
  have hl1 : l + 1 ≤ 2 ^ n := by
    rw [← hl]
    split_ifs with h7
    · have : ⌊x * 255 / (2 : ℝ) ^ (8 - (n : ℤ))⌋ < 2 ^ n := Int.floor_lt.2 (by push_cast; exact hlt)
      exact_mod_cast this
    · have hn8 : n = 8 := by omega
      subst hn8
      norm_num
      linarith
  have e1 : l / 2 ^ n - 1/2 + u i / 2 ^ n = (l + u i) / 2 ^ n - 1/2 := by ring
  have e2 : ((l + u i) / 2 ^ n - 1/2 + 1/2) * 2 ^ n = l + u i := by field_simp; ring
  rw [e1]
  have hd0 : 0 ≤ (l + u i) / 2 ^ n := div_nonneg (by linarith) hN.le
  have hd1 : (l + u i) / 2 ^ n < 1 := (div_lt_one hN).2 (by linarith)
  refine ⟨by linarith, by linarith, fun h7 => ?_⟩
  rw [e2, ← hl, if_pos (by omega), Int.floor_intCast_add]
  have : ⌊u i⌋ = 0 := Int.floor_eq_zero_iff.2 ⟨hu0, hu1⟩
  rw [this, add_zero]

/-- an image that is accepted, and what 5 bits make of it. -/
example : ∃ y, reduceBits ⟨[2], fun i => if at' 0 i = 0 then .fin 1 else .fin (1/3)⟩ 5 = .ok y ∧
    y.get [0] = .fin 31 ∧ y.get [1] = .fin 10 := by
  obtain ⟨y, hy⟩ := (C35_accepts ⟨[2], fun i => if at' 0 i = 0 then .fin 1 else .fin (1/3)⟩ 5).2 (by
    intro i _
    dsimp only
    split_ifs
    · exact ⟨1, rfl, by norm_num, by norm_num⟩
    · exact ⟨1/3, rfl, by norm_num, by norm_num⟩)
  refine ⟨y, hy, ?_, ?_⟩
  · obtain ⟨x, -, -, hx, hv⟩ := (reduceBits_get hy).2 [0] (by simp [InB])
    simp [at'] at hx
    subst hx
    rw [hv, if_pos (by norm_num)]
    norm_num
  · obtain ⟨x, -, -, hx, hv⟩ := (reduceBits_get hy).2 [1] (by simp [InB])
    simp [at'] at hx
    subst hx
    rw [hv, if_pos (by norm_num)]
    norm_num

end Props
end Einet
