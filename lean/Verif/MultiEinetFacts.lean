import Verif.MultiEinet
import Verif.PropsMulti
import Verif.MvnFacts
import Verif.LawExt

/-!
# Einets with a `MultiDistributionLayer`: reduction to one leaf with several distributions

`MultiLeaf.toBase` is the leaf whose distribution of a feature is the one of the part that owns the feature.
-/

open Classical MeasureTheory
open scoped ENNReal
noncomputable section
namespace Einet
open Tensor

namespace MultiLeaf

/-- position of the part that owns feature `f`. -/
def partIdx (L : MultiLeaf) (f : Nat) : Nat := L.parts.findIdx fun p => decide (f ∈ p.1)

/-- the part that owns feature `f`. -/
def part (L : MultiLeaf) (f : Nat) : List Nat × BaseLeaf :=
  L.parts.getD (L.partIdx f) ([], gaussLeaf ⟨1, 1, 1, 1⟩ (fun _ _ _ _ => 0) (fun _ _ _ _ => 1))

/-- the position of feature `f` in its part. -/
def pos (L : MultiLeaf) (f : Nat) : Nat := (L.part f).1.idxOf f

/-- the leaf with the distribution of the owner for every feature; sizes of `B`. -/
def toBase (L : MultiLeaf) (B : BaseLeaf) : BaseLeaf where
  num_features := B.num_features
  num_channels := B.num_channels
  num_leaves := B.num_leaves
  num_repetitions := B.num_repetitions
  valid f := (L.part f).2.valid (L.pos f)
  logProb c f i r := (L.part f).2.logProb c (L.pos f) i r
  ref f := (L.part f).2.ref (L.pos f)
  law T c f i r := (L.part f).2.law T c (L.pos f) i r
  mode c f i r := (L.part f).2.mode c (L.pos f) i r
  samplable := true
  lawD T c f i r := (L.part f).2.lawD T c (L.pos f) i r

theorem OK.nodup {L : MultiLeaf} (h : L.OK) : (allScopes L.parts).Nodup := h.perm.nodup_iff.2 List.nodup_range

theorem OK.part_eq {L : MultiLeaf} (h : L.OK) {k : Nat} (hk : k < L.parts.length) {f : Nat} (hf : f ∈ L.parts[k].1) :
    L.partIdx f = k := by
  have hn := h.nodup
  unfold allScopes at hn
  have hd := (List.nodup_flatten.1 hn).2
  rw [List.pairwise_map] at hd
  unfold partIdx
  rw [List.findIdx_eq hk]
  refine ⟨by simpa using hf, fun j hj => ?_⟩
  have hjl : j < L.parts.length := by omega
  have := List.pairwise_iff_getElem.1 hd j k hjl hk hj
  simpa using fun hm => this hm hf

theorem OK.part_spec {L : MultiLeaf} (h : L.OK) {p : List Nat × BaseLeaf} (hp : p ∈ L.parts) {j : Nat} (hj : j < p.1.length) :
    L.part p.1[j] = p ∧ L.pos p.1[j] = j := by
  obtain ⟨k, hk, rfl⟩ := List.mem_iff_getElem.1 hp
  have h1 : L.part (L.parts[k].1[j]) = L.parts[k] := by
    unfold part
    rw [h.part_eq hk (List.getElem_mem hj), List.getD_eq_getElem _ _ hk]
  refine ⟨h1, ?_⟩
  unfold MultiLeaf.pos
  rw [h1]
  have hn := h.nodup
  unfold allScopes at hn
  have hnd : L.parts[k].1.Nodup := (List.nodup_flatten.1 hn).1 _ (List.mem_map.2 ⟨_, hp, rfl⟩)
  exact List.Nodup.idxOf_getElem hnd j hj

theorem OK.part_mem {L : MultiLeaf} (h : L.OK) {f : Nat} (hf : f < L.num_features) :
    L.part f ∈ L.parts ∧ ∃ hj : L.pos f < (L.part f).1.length, (L.part f).1[L.pos f] = f := by
  have hm : f ∈ allScopes L.parts := h.perm.mem_iff.2 (List.mem_range.2 hf)
  obtain ⟨s, hs, hfs⟩ := List.mem_flatten.1 hm
  obtain ⟨p, hp, rfl⟩ := List.mem_map.1 hs
  obtain ⟨j, hj, rfl⟩ := List.mem_iff_getElem.1 hfs
  obtain ⟨e1, e2⟩ := h.part_spec hp hj
  refine ⟨by rw [e1]; exact hp, by rw [e1, e2]; exact hj, ?_⟩
  simp only [e1, e2]

theorem partIdx_default {L : MultiLeaf} {f : Nat} : L.part f ∈ L.parts ∨
    L.part f = ([], gaussLeaf ⟨1, 1, 1, 1⟩ (fun _ _ _ _ => 0) (fun _ _ _ _ => 1)) := by
  unfold part
  by_cases h : L.partIdx f < L.parts.length
  · left; rw [List.getD_eq_getElem _ _ h]; exact List.getElem_mem _
  · right; rw [List.getD_eq_default _ _ (by omega)]

theorem toBase_proper {L : MultiLeaf} (h : L.OK) (hp : ∀ p ∈ L.parts, p.2.Proper) {B : BaseLeaf}
    (h1 : B.num_features = L.num_features) (h2 : B.num_channels = L.num_channels) (h3 : B.num_leaves = L.num_leaves)
    (h4 : B.num_repetitions = L.num_repetitions) : (L.toBase B).Proper := by
  have key : ∀ f, (L.part f).2.Proper := by
    intro f
    rcases L.partIdx_default (f := f) with hm | e
    · exact hp _ hm
    · rw [e]; exact gaussLeaf_proper _ _ fun _ _ _ _ => one_pos
  have hsz : ∀ f, f < B.num_features → L.pos f < (L.part f).2.num_features ∧ (L.part f).2.num_channels = B.num_channels ∧
      (L.part f).2.num_leaves = B.num_leaves ∧ (L.part f).2.num_repetitions = B.num_repetitions := by
    intro f hf
    obtain ⟨hm, hj, -⟩ := h.part_mem (f := f) (by omega)
    obtain ⟨s1, s2, s3, s4⟩ := h.size _ hm
    exact ⟨by omega, by omega, by omega, by omega⟩
  refine ⟨fun f => (key f).sigmaFinite _, fun c f i r => (key f).measurable _ _ _ _, fun c hc f hf i hi r hr => ?_,
    fun c hc f hf i hi r hr => ?_, fun f => (key f).ae_valid _, fun f => (key f).valid_zero _⟩
  · obtain ⟨s1, s2, s3, s4⟩ := hsz f hf
    exact (key f).integral c (by rw [s2]; exact hc) _ s1 i (by rw [s3]; exact hi) r (by rw [s4]; exact hr)
  · obtain ⟨s1, s2, s3, s4⟩ := hsz f hf
    exact (key f).isFin c (by rw [s2]; exact hc) _ s1 i (by rw [s3]; exact hi) r (by rw [s4]; exact hr)

theorem toBase_samp {L : MultiLeaf} (hp : ∀ p ∈ L.parts, p.2.Samp) (B : BaseLeaf) : (L.toBase B).Samp := by
  have key : ∀ f, (L.part f).2.Samp := by
    intro f
    rcases L.partIdx_default (f := f) with hm | e
    · exact hp _ hm
    · rw [e]; exact gaussLeaf_samp _ _ fun _ _ _ _ => one_pos
  exact ⟨rfl, fun T hT c f i r => (key f).prob T hT _ _ _ _, fun c f i r => (key f).law_one _ _ _ _,
    fun T hT c f i r => (key f).probD T hT _ _ _ _⟩

end MultiLeaf

namespace MultiEinet

/-- the einet with the leaf `toBase`. -/
def asModel (E : MultiEinet) : Model := { E.net with leaf := E.net.leaf.withBase (E.leaf.toBase E.net.leaf.base) }

theorem asModel_base (E : MultiEinet) : E.asModel.leaf.base = E.leaf.toBase E.net.leaf.base := by
  unfold asModel
  cases E.net.leaf <;> rfl

theorem asModel_merge (E : MultiEinet) : E.asModel.leaf.merge = E.net.leaf.merge := by
  unfold asModel
  cases E.net.leaf <;> rfl

theorem asModel_upper (E : MultiEinet) : E.asModel.upper = E.net.upper := by
  obtain ⟨_, ⟨_, _, _, _, _, leaf, _, _, _, _⟩⟩ := E
  cases leaf <;> rfl

theorem asModel_numOut (E : MultiEinet) : E.asModel.numOut = E.net.numOut := by
  obtain ⟨_, ⟨_, _, _, _, _, leaf, _, _, _, _⟩⟩ := E
  cases leaf <;> rfl

theorem asModel_samplePath (E : MultiEinet) : E.asModel.samplePath = E.net.samplePath := rfl

theorem asModel_grpS (E : MultiEinet) (g : Nat → Nat → Nat) : E.asModel.grpS g = E.net.grpS g := by
  obtain ⟨_, ⟨_, _, _, _, _, leaf, _, _, _, _⟩⟩ := E
  cases leaf <;> rfl

theorem asModel_grpF (E : MultiEinet) (g : Nat → Nat → Nat) : E.asModel.grpF g = E.net.grpF g := by
  obtain ⟨_, ⟨_, _, _, _, _, leaf, _, _, _, _⟩⟩ := E
  cases leaf <;> rfl

theorem asModel_WF {E : MultiEinet} {g : Nat → Nat → Nat} (h : E.net.WF g) : E.asModel.WF g := by
  have hf := h.front
  refine ⟨⟨?_, ?_, ?_, ?_, ?_, ?_, ?_, hf.perm⟩, ?_, h.classes_pos, h.leaves_pos, h.reps_pos, h.mix, h.root⟩
  · rw [asModel_base]; exact hf.features
  · rw [asModel_base]; exact hf.channels
  · rw [asModel_base]; exact hf.leaves
  · rw [asModel_base]; exact hf.reps
  · intro L hL
    cases hl : E.net.leaf with
    | direct B => simp [asModel, hl, Leaf.withBase] at hL
    | simple B => simp [asModel, hl, Leaf.withBase] at hL
    | factorized L' =>
      simp only [asModel, hl, Leaf.withBase, Leaf.factorized.injEq] at hL
      subst hL
      have := hf.fact L' hl
      exact ⟨this.shape, this.entry, this.lt⟩
  · intro L hL
    cases hl : E.net.leaf with
    | direct B => simp [asModel, hl, Leaf.withBase] at hL
    | factorized B => simp [asModel, hl, Leaf.withBase] at hL
    | simple L' =>
      simp only [asModel, hl, Leaf.withBase, Leaf.simple.injEq] at hL
      subst hL
      have := hf.simple L' hl
      exact ⟨this.reps, this.out_pos, this.perm⟩
  · intro hB
    refine hf.noperm fun B hl => ?_
    exact hB (E.leaf.toBase B) (by simp [asModel, hl, Leaf.withBase, Leaf.base])
  · rw [asModel_numOut]; exact h.chain

end MultiEinet
end Einet
