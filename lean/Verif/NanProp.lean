import Verif.Density

/-!
# Propagation of NaN

Lemmas: a NaN in the input of the circuit makes every output of the row NaN.
-/

open Classical
noncomputable section
namespace Einet
open Tensor

namespace Fl

theorem sumN_nan {n : Nat} {f : Nat → Fl} {i : Nat} (hi : i < n) (h : f i = nan) : sumN n f = nan := by
  induction n with
  | zero => omega
  | succ n ih =>
    unfold sumN
    by_cases e : i = n
    · rw [← e, h, add_nan]
    · rw [ih (by omega), nan_add]

theorem lse_nan {n : Nat} {f : Nat → Fl} {i : Nat} (hi : i < n) (h : f i = nan) : lse n f = nan := by
  unfold lse
  rw [sumN_nan hi (by rw [h, exp_nan]), log_nan]

theorem max2_nan_left (a : Fl) : max2 nan a = nan := by cases a <;> rfl
theorem max2_nan_right (a : Fl) : max2 a nan = nan := by cases a <;> rfl

theorem maxN_nan {n : Nat} {f : Nat → Fl} {i : Nat} (hi : i < n) (h : f i = nan) : maxN n f = nan := by
  induction n with
  | zero => omega
  | succ n ih =>
    unfold maxN
    split_ifs with h0
    · rw [← h]; congr 1; omega
    · by_cases e : i = n
      · rw [← e, h, max2_nan_right]
      · rw [ih (by omega), max2_nan_left]

end Fl

theorem Layer.row_nan {l : Layer} {Di Si Do So R : Nat} (h : l.WF Di Si Do So R) (hS : 0 < Si) {x : Row} {d r : Nat}
    (hd : d < Di) (hx : ∀ k, k < Si → x d k r = .nan) : ∃ d', d' < Do ∧ ∀ s, s < So → l.row x d' s r = .nan := by
  cases h with
  | sum L hL hf hS =>
    exact ⟨d, hd, fun s _ => Fl.lse_nan hS (by rw [hx 0 hS, Fl.nan_add])⟩
  | linsum L hL hf hS hD =>
    refine ⟨d / 2, by unfold LinsumLayer.numFeaturesOut LinsumLayer.pad; omega, fun s _ => Fl.lse_nan (i := 0) hS ?_⟩
    rcases Nat.mod_two_eq_zero_or_one d with h0 | h0
    · rw [show 2 * (d / 2) = d by omega, hx 0 hS, Fl.nan_add, Fl.nan_add]
    · rw [show rightChild L.num_features x (d / 2) 0 r = x d 0 r by
        unfold rightChild
        rw [if_pos (by omega), show 2 * (d / 2) + 1 = d by omega], hx 0 hS, Fl.add_nan, Fl.nan_add]
  | linsum2 L hL hf hS hD hE =>
    refine ⟨d / 2, by unfold LinsumLayer2.numFeaturesOut LinsumLayer2.pad; omega, fun s _ => ?_⟩
    have hs : SumLayer.row L x d s r = .nan := Fl.lse_nan hS (by rw [hx 0 hS, Fl.nan_add])
    show SumLayer.row L x (2 * (d / 2)) s r + rightChild L.num_features (SumLayer.row L x) (d / 2) s r = .nan
    rcases Nat.mod_two_eq_zero_or_one d with h0 | h0
    · rw [show 2 * (d / 2) = d by omega, hs, Fl.nan_add]
    · rw [show rightChild L.num_features (SumLayer.row L x) (d / 2) s r = SumLayer.row L x d s r by
        unfold rightChild
        rw [if_pos (by omega), show 2 * (d / 2) + 1 = d by omega], hs, Fl.add_nan]
  | einsum L hL hf hS hO hR hD hE =>
    refine ⟨d / 2, by unfold EinsumLayer.numFeaturesOut; omega, fun s _ => ?_⟩
    show EinsumLayer.row L x (d / 2) s r = .nan
    unfold EinsumLayer.row
    dsimp only
    rcases Nat.mod_two_eq_zero_or_one d with h0 | h0
    · rw [show 2 * (d / 2) = d by omega, Fl.maxN_nan (f := fun k => x d k r) hS (hx 0 hS), Fl.add_nan, Fl.nan_add]
    · rw [show 2 * (d / 2) + 1 = d by omega, Fl.maxN_nan (f := fun k => x d k r) hS (hx 0 hS), Fl.add_nan]
  | rootProduct => exact ⟨0, by omega, fun s hs => Fl.sumN_nan hd (hx s hs)⟩

theorem Chain.sums_pos {ls : List Layer} {Di Si Do So R : Nat} (h : Chain ls Di Si Do So R) (hO : 0 < So) : 0 < Si := by
  induction h with
  | nil D S R => exact hO
  | @cons l ls Di Si Dm Sm Do So R h hs ih =>
    have := ih hO
    cases h <;> assumption

theorem rowL_nan {ls : List Layer} {Di Si Do So R : Nat} (h : Chain ls Di Si Do So R) (hO : 0 < So) {x : Row} {d r : Nat}
    (hd : d < Di) (hx : ∀ k, k < Si → x d k r = .nan) : ∃ d', d' < Do ∧ ∀ s, s < So → rowL ls x d' s r = .nan := by
  induction h generalizing x d with
  | nil D S R => exact ⟨d, hd, hx⟩
  | @cons l ls Di Si Dm Sm Do So R h hs ih =>
    obtain ⟨d', hd', hx'⟩ := Layer.row_nan h ((Chain.cons h hs).sums_pos hO) hd hx
    exact ih hO hd' hx'

namespace Model

theorem leafSum_nan {B : BaseLeaf} {s : List Nat} {X : Data} {c f : Nat} (hc : c < B.num_channels) (hX : X c f = .nan)
    (hf : f ∉ s) (i r : Nat) :
    B.leafSum (some s) X f i r = .nan := by
  refine Fl.sumN_nan hc ?_
  simp [BaseLeaf.entry, hX, hf, Fl.isnan]

theorem frontRow_nan {M : Model} {g : Nat → Nat → Nat} (h : M.FrontWF g) {sc : Option (List Nat)} {X : Data} {f r : Nat}
    (hf : f < M.num_features) (hr : r < M.num_repetitions) (hX : ∀ i, M.leaf.base.leafSum sc X f i r = .nan) :
    ∃ o, o < M.numOut ∧ ∀ i, i < M.num_leaves → M.frontRow sc X o i r = .nan := by
  cases hL : M.leaf with
  | direct B =>
    simp only [hL, Leaf.base] at hX
    have h1 := h.permAt_inv hr hf
    have hF := h.features
    simp only [hL, Leaf.base] at hF
    refine ⟨M.permInvAt r f, by unfold numOut; rw [hL]; show _ < B.num_features; rw [hF]; exact h1.2.1, fun i _ => ?_⟩
    unfold frontRow
    simp only [hL]
    rw [h1.2.2.2, hX]
  | factorized L =>
    simp only [hL, Leaf.base] at hX
    have hw := h.fact L hL
    have hF := h.features
    have hR := h.reps
    simp only [hL, Leaf.base] at hF hR
    unfold frontRow numOut
    simp only [hL]
    by_cases e : L.base.num_features = L.num_features_out
    · exact ⟨f, by omega, fun i _ => by rw [if_pos e, hX]⟩
    · refine ⟨0, lt_of_le_of_lt (Nat.zero_le _) (hw.lt r (by omega) f (by omega)), fun i _ => ?_⟩
      rw [if_neg e]
      exact Fl.sumN_nan (i := f) (by omega) (by rw [hX, Fl.nan_mul])
  | simple L =>
    simp only [hL, Leaf.base] at hX
    have hw := h.simple L hL
    have hF := h.features
    simp only [hL, Leaf.base] at hF
    have hsz := L.size_eq hw.out_pos
    have hq := hw.perm.q_lt f (by omega)
    have hpq := hw.perm.pq f (by omega)
    have hcpos : 0 < L.cardinality := by
      rcases Nat.eq_zero_or_pos L.cardinality with h | h
      · rw [h] at hsz; omega
      · exact h
    unfold frontRow numOut
    simp only [hL]
    refine ⟨L.inverse_permutation.getD f 0 / L.cardinality, (Nat.div_lt_iff_lt_mul hcpos).2 (by omega), fun i _ => ?_⟩
    refine Fl.sumN_nan (Nat.mod_lt (L.inverse_permutation.getD f 0) hcpos) ?_
    rw [Nat.div_add_mod', hpq]
    unfold padRow
    rw [if_pos (by omega), hX]

/-- an entry that is NaN and not in the marginalized scopes makes all outputs of its row NaN. -/
theorem outRow_nan {M : Model} {g : Nat → Nat → Nat} (h : M.WF g) {s : List Nat} {X : Data} {c f k : Nat}
    (hc : c < M.num_channels) (hf : f < M.num_features) (hX : X c f = .nan) (hs : f ∉ s) (hk : k < M.num_classes) :
    M.outRow (some s) X k = .nan := by
  have key : ∀ r, r < M.num_repetitions → rowL M.layers (M.frontRow (some s) X) 0 k r = .nan := by
    intro r hr
    obtain ⟨o, ho, h1⟩ := frontRow_nan h.front hf hr fun i => leafSum_nan (by rw [h.front.channels]; exact hc) hX hs i r
    obtain ⟨d, hd, h2⟩ := rowL_nan h.chain h.classes_pos ho h1
    have : d = 0 := by omega
    subst this
    exact h2 k hk
  unfold outRow
  dsimp only
  split_ifs with h1
  · unfold MixingLayer.row
    exact Fl.lse_nan (i := 0) (by have := (h.mix h1).2.1; omega) (by rw [key 0 h.reps_pos, Fl.nan_add])
  · exact key 0 h.reps_pos

end Model
end Einet
