import Verif.CondBinomial
import Verif.MultiEinetEnd
import Verif.ConvEnd

/-!
# Einets whose leaf distributions depend on the batch row
-/

open Classical MeasureTheory
open scoped ENNReal
noncomputable section
namespace Einet
open Tensor

/-- leaves of the same sizes. -/
def BaseLeaf.SameDims (B B' : BaseLeaf) : Prop :=
  B.num_features = B'.num_features ∧ B.num_channels = B'.num_channels ∧ B.num_leaves = B'.num_leaves ∧
    B.num_repetitions = B'.num_repetitions

namespace Model

/-- the einet with another leaf. -/
def withBase (M : Model) (B : BaseLeaf) : Model := { M with leaf := M.leaf.withBase B }

variable (M : Model) (B : BaseLeaf)

theorem withBase_base : (M.withBase B).leaf.base = B := by
  unfold withBase
  cases M.leaf <;> rfl

theorem withBase_upper : (M.withBase B).upper = M.upper := by
  obtain ⟨_, _, _, _, _, leaf, _, _, _, _⟩ := M
  cases leaf <;> rfl

theorem withBase_merge (h : B.SameDims M.leaf.base) : (M.withBase B).leaf.merge = M.leaf.merge := by
  obtain ⟨h1, -, h3, h4⟩ := h
  obtain ⟨_, _, _, _, _, leaf, _, _, _, _⟩ := M
  cases leaf with
  | direct B' => rfl
  | factorized L =>
    funext x
    show FactLeaf.merge _ _ = FactLeaf.merge _ _
    unfold FactLeaf.merge
    simp only [Leaf.base] at h1 h3 h4
    simp only [h1, h3, h4]
  | simple L =>
    funext x
    show FactSimple.merge _ _ = FactSimple.merge _ _
    unfold FactSimple.merge FactSimple.padDummy FactSimple.numDummy FactSimple.cardinality
    simp only [Leaf.base] at h1 h3 h4
    simp only [h1, h3, h4]

theorem withBase_numOut (h : B.SameDims M.leaf.base) : (M.withBase B).numOut = M.numOut := by
  obtain ⟨h1, -, h3, h4⟩ := h
  obtain ⟨_, _, _, _, _, leaf, _, _, _, _⟩ := M
  cases leaf with
  | direct B' => exact h1
  | factorized L => rfl
  | simple L => rfl

theorem withBase_samplePath : (M.withBase B).samplePath = M.samplePath := by
  obtain ⟨_, _, _, _, _, leaf, _, _, _, _⟩ := M
  cases leaf <;> rfl

theorem withBase_WF {M : Model} {B : BaseLeaf} (hd : B.SameDims M.leaf.base) {g : Nat → Nat → Nat} (h : M.WF g) :
    (M.withBase B).WF g := by
  have hf := h.front
  obtain ⟨d1, d2, d3, d4⟩ := hd
  refine ⟨⟨?_, ?_, ?_, ?_, ?_, ?_, ?_, hf.perm⟩, ?_, h.classes_pos, h.leaves_pos, h.reps_pos, h.mix, h.root⟩
  · rw [withBase_base, d1]; exact hf.features
  · rw [withBase_base, d2]; exact hf.channels
  · rw [withBase_base, d3]; exact hf.leaves
  · rw [withBase_base, d4]; exact hf.reps
  · intro L hL
    cases hl : M.leaf with
    | direct B => simp [withBase, hl, Leaf.withBase] at hL
    | simple B => simp [withBase, hl, Leaf.withBase] at hL
    | factorized L' =>
      simp only [withBase, hl, Leaf.withBase, Leaf.factorized.injEq] at hL
      subst hL
      have := hf.fact L' hl
      simp only [hl, Leaf.base] at d1 d4
      exact ⟨by rw [this.shape, d1, d4], fun f hf o ho r hr => this.entry f (by rw [← d1]; exact hf) o ho r (by rw [← d4]; exact hr),
        fun r hr f hf => this.lt r (by rw [← d4]; exact hr) f (by rw [← d1]; exact hf)⟩
  · intro L hL
    cases hl : M.leaf with
    | direct B => simp [withBase, hl, Leaf.withBase] at hL
    | factorized B => simp [withBase, hl, Leaf.withBase] at hL
    | simple L' =>
      simp only [withBase, hl, Leaf.withBase, Leaf.simple.injEq] at hL
      subst hL
      have := hf.simple L' hl
      simp only [hl, Leaf.base] at d1 d4
      refine ⟨by rw [← this.reps]; exact d4, this.out_pos, ?_⟩
      have hq := this.perm
      unfold FactSimple.numDummy FactSimple.cardinality at hq ⊢
      simpa only [d1] using hq
  · intro hB
    refine hf.noperm fun B' hl => ?_
    exact hB B (by simp [withBase, hl, Leaf.withBase])
  · rw [withBase_numOut _ _ ⟨d1, d2, d3, d4⟩]; exact h.chain

theorem withBase_grpS {M : Model} {B : BaseLeaf} (hd : B.SameDims M.leaf.base) (g : Nat → Nat → Nat) :
    (M.withBase B).grpS g = M.grpS g := by
  obtain ⟨h1, -, h3, h4⟩ := hd
  obtain ⟨_, _, _, _, _, leaf, _, _, _, _⟩ := M
  cases leaf with
  | direct B' => rfl
  | factorized L =>
    simp only [Leaf.base] at h1
    funext r f
    simp only [grpS, withBase, Leaf.withBase]
  | simple L => rfl

theorem withBase_grpF {M : Model} {B : BaseLeaf} (hd : B.SameDims M.leaf.base) (g : Nat → Nat → Nat) :
    (M.withBase B).grpF g = M.grpF g := by
  obtain ⟨h1, -, h3, h4⟩ := hd
  obtain ⟨_, _, _, _, _, leaf, _, _, _, _⟩ := M
  cases leaf with
  | direct B' => rfl
  | factorized L =>
    simp only [Leaf.base] at h1
    funext r f
    simp only [grpF, withBase, Leaf.withBase, h1]
  | simple L =>
    simp only [Leaf.base] at h1
    funext r f
    simp only [grpF, withBase, Leaf.withBase, FactSimple.cardinality, h1]

theorem withBase_outP {M : Model} {B : BaseLeaf} (hd : B.SameDims M.leaf.base) : (M.withBase B).outP = M.outP := by
  funext g T p s
  have e := withBase_grpF hd g
  unfold outP regionP
  rw [e]
  rfl

/-- the layers above, from leaf values that are those of `B`. -/
theorem withBase_upper_entry {M : Model} {B : BaseLeaf} (hd : B.SameDims M.leaf.base) {g : Nat → Nat → Nat} (h : M.WF g)
    {y : Tensor Fl} {N : Nat} {X : Nat → Data} {sc : Option (List Nat)}
    (hy : y.Is5 N M.num_channels M.num_features M.num_leaves M.num_repetitions fun n c f i r => B.entry sc (X n c f) c f i r) :
    Res.Sat (M.leaf.merge y >>= M.upper) fun z => z.1.Is2 N M.num_classes (fun n => (M.withBase B).outRow sc (X n)) ∧
      (M.withBase B).CachesOK N z.2 fun n => (M.withBase B).frontRow sc (X n) := by
  have hW := withBase_WF hd h
  rw [← withBase_merge M B hd, ← withBase_upper M B]
  have hsum : Res.Sat (y.sum 1) fun z => z.Is4 N (M.withBase B).leaf.base.num_features (M.withBase B).leaf.base.num_leaves
      (M.withBase B).leaf.base.num_repetitions fun n => (M.withBase B).leaf.base.leafSum sc (X n) := by
    rw [hW.front.features, hW.front.leaves, hW.front.reps]
    refine (sum_is hy (by simp)).mono fun z hz => Is.is4 hz ?_
    intro n hn f hf i hi r hr
    simp only [insAt, at', BaseLeaf.leafSum]
    rw [hW.front.channels, withBase_base]
    exact Fl.sumN_congr fun c hc => rfl
  refine (merge_is hW.front hsum).bind fun z hz => ?_
  exact upper_is hW hz

end Model
end Einet
