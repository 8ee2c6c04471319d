import Verif.NanProp
import Verif.SampleEnd
import Verif.BuildSpec

/-!
# Forward pass of constructed models: lemmas for the density properties
-/

open Classical MeasureTheory
open scoped ENNReal
noncomputable section
namespace Einet
open Tensor

theorem rightChild_congr {D : Nat} {x y : Row} {d k r : Nat} (h : ∀ d, d < D → x d k r = y d k r) :
    rightChild D x d k r = rightChild D y d k r := by
  unfold rightChild
  split_ifs with h1
  · exact h _ h1
  · rfl

theorem Layer.row_congr {l : Layer} {Di Si Do So R : Nat} (h : l.WF Di Si Do So R) {x y : Row} {r : Nat}
    (hxy : ∀ d, d < Di → ∀ k, k < Si → x d k r = y d k r) {d s : Nat} (hd : d < Do) (hs : s < So) :
    l.row x d s r = l.row y d s r := by
  cases h with
  | sum L hL hf hS => exact Fl.lse_congr fun k hk => by rw [hxy d hd k hk]
  | linsum L hL hf hS hD =>
    have h1 : 2 * d < L.num_features := by unfold LinsumLayer.numFeaturesOut LinsumLayer.pad at hd; omega
    refine Fl.lse_congr fun k hk => ?_
    rw [hxy _ h1 k hk, rightChild_congr fun d hd => hxy d hd k hk]
  | linsum2 L hL hf hS hD hE =>
    have h1 : 2 * d < L.num_features := by unfold LinsumLayer2.numFeaturesOut LinsumLayer2.pad at hd; omega
    have key : ∀ d, d < L.num_features → SumLayer.row L x d s r = SumLayer.row L y d s r := fun d hd =>
      Fl.lse_congr fun k hk => by rw [hxy d hd k hk]
    show SumLayer.row L x (2 * d) s r + _ = SumLayer.row L y (2 * d) s r + _
    rw [key _ h1, rightChild_congr key]
  | einsum L hL hf hS hO hR hD hE =>
    have h1 : 2 * d + 1 < L.num_features := by unfold EinsumLayer.numFeaturesOut at hd; omega
    show EinsumLayer.row L x d s r = EinsumLayer.row L y d s r
    unfold EinsumLayer.row
    dsimp only
    have e0 : Fl.maxN L.num_sums_in (fun k => x (2 * d) k r) = Fl.maxN L.num_sums_in (fun k => y (2 * d) k r) :=
      Fl.maxN_congr fun k hk => hxy _ (by omega) k hk
    have e1 : Fl.maxN L.num_sums_in (fun k => x (2 * d + 1) k r) = Fl.maxN L.num_sums_in (fun k => y (2 * d + 1) k r) :=
      Fl.maxN_congr fun k hk => hxy _ h1 k hk
    rw [e0, e1]
    congr 2
    refine congrArg Fl.log ?_
    refine Fl.sumN_congr fun i hi => Fl.sumN_congr fun j hj => ?_
    rw [hxy _ (by omega) i hi, hxy _ h1 j hj]
  | rootProduct F S R => exact Fl.sumN_congr fun k hk => hxy k hk s hs

theorem rowL_congr {ls : List Layer} {Di Si Do So R : Nat} (h : Chain ls Di Si Do So R) {x y : Row} {r : Nat}
    (hxy : ∀ d, d < Di → ∀ k, k < Si → x d k r = y d k r) {d s : Nat} (hd : d < Do) (hs : s < So) :
    rowL ls x d s r = rowL ls y d s r := by
  induction h generalizing x y with
  | nil D S R => exact hxy d hd s hs
  | cons h _ ih => exact ih (fun d hd k hk => Layer.row_congr h hxy hd hk) hd hs

namespace Model

theorem frontRow_congr {M : Model} {g : Nat → Nat → Nat} (h : M.FrontWF g) {sc sc' : Option (List Nat)} {X X' : Data}
    {i r : Nat} (hr : r < M.num_repetitions)
    (hX : ∀ f, f < M.num_features → M.leaf.base.leafSum sc X f i r = M.leaf.base.leafSum sc' X' f i r) {o : Nat}
    (ho : o < M.numOut) : M.frontRow sc X o i r = M.frontRow sc' X' o i r := by
  have hF := h.features
  cases hL : M.leaf with
  | direct B =>
    unfold numOut at ho
    simp only [hL, Leaf.base] at hX hF ho
    unfold frontRow
    simp only [hL]
    exact hX _ (h.permAt_inv hr (by omega)).1
  | factorized L =>
    unfold numOut at ho
    simp only [hL, Leaf.base] at hX hF ho
    unfold frontRow
    simp only [hL]
    split_ifs with e
    · exact hX _ (by omega)
    · exact Fl.sumN_congr fun f hf => by rw [hX f (by omega)]
  | simple L =>
    simp only [hL, Leaf.base] at hX hF
    unfold frontRow
    simp only [hL]
    refine Fl.sumN_congr fun j _ => ?_
    unfold padRow
    split_ifs with e
    · exact hX _ (by omega)
    · rfl

theorem outRow_congr {M : Model} {g : Nat → Nat → Nat} (h : M.WF g) {sc sc' : Option (List Nat)} {X X' : Data}
    (hX : ∀ c, c < M.num_channels → ∀ f, f < M.num_features → ∀ i, i < M.num_leaves → ∀ r, r < M.num_repetitions →
      M.leaf.base.entry sc (X c f) c f i r = M.leaf.base.entry sc' (X' c f) c f i r) {k : Nat} (hk : k < M.num_classes) :
    M.outRow sc X k = M.outRow sc' X' k := by
  have key : ∀ r, r < M.num_repetitions →
      rowL M.layers (M.frontRow sc X) 0 k r = rowL M.layers (M.frontRow sc' X') 0 k r := fun r hr =>
    rowL_congr h.chain (fun o ho i hi => frontRow_congr h.front hr (fun f hf =>
      Fl.sumN_congr fun c hc => hX c (by rw [← h.front.channels]; exact hc) f hf i hi r hr) ho) (by omega) hk
  unfold outRow
  dsimp only
  split_ifs with h1
  · unfold MixingLayer.row
    exact Fl.lse_congr fun r hr => by
      rw [key r (by have := (h.mix h1).2.1; omega)]
  · exact key 0 h.reps_pos

end Model

/-! ### Constructed models -/

theorem build_forward {c : Config} {P : Params} (hP : P.Random) (hg : P.leaf.Good) {M : Model} (h : build c P = .ok M)
    {N : Nat} {x : Tensor Fl} (hx : Batch P.leaf N M.num_channels M.num_features x) {ms : Option Scopes}
    {sc : Option (List Nat)} (hs : Scopes.resolveOpt M.num_features ms = .ok sc) :
    ∃ y, M.forward x ms = .ok y ∧ y.shape = [N, M.num_classes] ∧
      ∀ n, n < N → ∀ k, k < M.num_classes → y.get [n, k] = M.outRow sc (fun c f => x.get [n, c, f]) k := by
  obtain ⟨-, hw, hp, _⟩ := build_WF hP h
  obtain ⟨y, hy, h1⟩ := Model.forward_is hw hx.is3 (fun n hn =>
    ((build_observed hP h).2 (hx.2 n hn)).valid (hp hg).valid_zero) (ms := ms) hs
  exact ⟨y, hy, h1.1, fun n hn k hk => h1.get hn hk⟩

/-- rows without NaN outside the scopes: a finite result, the same as with NaN in the scopes. -/
theorem build_outRow {c : Config} {P : Params} (hP : P.Random) (hg : P.leaf.Good) {M : Model} (h : build c P = .ok M)
    {X : Data} (hX : P.leaf.Data M.num_channels M.num_features X) {sc : Option (List Nat)}
    (hn : ∀ c, c < M.num_channels → ∀ f, f < M.num_features → X c f = .nan → holeAt sc X c f)
    {k : Nat} (hk : k < M.num_classes) :
    (M.outRow sc X k).IsFin ∧ M.outRow sc X k = M.outRow none (masked sc X) k := by
  obtain ⟨-, hw, hp, _⟩ := build_WF hP h
  have hp := hp hg
  have hf := hw.front
  have hev : EvidenceOK M.leaf.base sc X := ⟨(build_observed hP h).2 hX, by rw [hf.channels, hf.features]; exact hn⟩
  have e : M.outRow sc X k = M.outRow none (masked sc X) k :=
    Model.outRow_congr hw (fun c hc f hf' i hi r hr => hev.entry hp (by rw [hf.channels]; exact hc)
      (by rw [hf.features]; exact hf') (by rw [hf.leaves]; exact hi) (by rw [hf.reps]; exact hr)) hk
  refine ⟨?_, e⟩
  rw [e]
  exact (Model.outRow_den hw (b := true) (fun _ => rfl) (fun c hc f hf' i hi r hr =>
    (Model.entry_none hp (by rw [hf.channels]; exact hc) (by rw [hf.features]; exact hf')
      (by rw [hf.leaves]; exact hi) (by rw [hf.reps]; exact hr) hev.masked).1) hk).1

/-- reference measure of a leaf class: Lebesgue measure for continuous values, counting measure for discrete ones. -/
def LeafSpec.ref : LeafSpec → Measure ℝ
  | .normal _ _ => volume
  | .ratNormal _ _ _ _ _ _ => volume
  | .binomial n _ => ∑ k ∈ Finset.range (n + 1).toNat, Measure.dirac (k : ℝ)
  | .bernoulli _ => Measure.dirac 0 + Measure.dirac 1
  | .categorical n _ => ∑ k ∈ Finset.range n.toNat, Measure.dirac (k : ℝ)

theorem LeafSpec.ref_eq {s : LeafSpec} {card : Option ℤ} {d : LeafDims} {B : BaseLeaf} (h : s.build card d = .ok B) :
    B.ref = fun _ => s.ref := by
  funext f
  unfold build at h
  obtain ⟨_, hc, h⟩ := bind_ok h
  cases s with
  | normal means logvar =>
    simp only [Res.pure_eq, Except.ok.injEq] at h
    subst h
    rfl
  | bernoulli probs =>
    simp only [Res.pure_eq, Except.ok.injEq] at h
    subst h
    show ∑ k ∈ Finset.range 2, Measure.dirac (k : ℝ) = _
    simp [Finset.sum_range_succ, LeafSpec.ref]
  | binomial n logits =>
    obtain ⟨_, h1, h⟩ := bind_ok h
    simp only [Res.pure_eq, Except.ok.injEq] at h
    subst h
    have hn : 1 ≤ n := by
      have := (Props.checkInt_iff n 1 (by norm_num) (Except.ok ()) ()).1 (by rw [h1]; rfl)
      exact this.1
    show ∑ k ∈ Finset.range (n.toNat + 1), Measure.dirac (k : ℝ) = _
    show _ = ∑ k ∈ Finset.range (n + 1).toNat, Measure.dirac (k : ℝ)
    rw [show (n + 1).toNat = n.toNat + 1 by omega]
  | categorical n logits =>
    obtain ⟨_, h1, h⟩ := bind_ok h
    simp only [Res.pure_eq, Except.ok.injEq] at h
    subst h
    rfl
  | ratNormal lo hi a b means stds =>
    obtain ⟨_, h1, h⟩ := bind_ok h
    obtain ⟨_, _, h⟩ := bind_ok h
    obtain ⟨_, _, h⟩ := bind_ok h
    obtain ⟨_, _, h⟩ := bind_ok h
    obtain ⟨_, hm, h⟩ := bind_ok h
    simp only [Res.pure_eq, Except.ok.injEq] at h
    subst h
    rfl

end Einet
