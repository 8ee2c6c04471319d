import Verif.LeafFwd

/-!
# Forward pass of the whole model

`Model.WF`: what the constructor guarantees (proved in `Verif/Build.lean`).  `Model.run_is`: the forward pass in terms of
batch rows; `Model.outRow_den`: the probability it stands for, as a polynomial in the leaf densities.
-/

open Classical MeasureTheory
open scoped ENNReal
noncomputable section
namespace Einet
open Tensor
namespace Model

/-- the modules fit together and all logits are finite; `g` is the assignment of features to groups of a
`FactorizedLeaf` (irrelevant otherwise). -/
structure WF (M : Model) (g : Nat → Nat → Nat) : Prop where
  front : M.FrontWF g
  chain : Chain M.layers M.numOut M.num_leaves 1 M.num_classes M.num_repetitions
  classes_pos : 0 < M.num_classes
  leaves_pos : 0 < M.num_leaves
  reps_pos : 0 < M.num_repetitions
  mix : 1 < M.num_repetitions → M.mixing.num_features = 1 ∧ M.mixing.num_sums_in = M.num_repetitions ∧
    M.mixing.num_sums_out = M.num_classes ∧ M.mixing.logits.shape = MixingLayer.weightShape M.mixing ∧
    M.mixing.FinLogits
  root : 1 < M.num_classes → M.classRoot.num_features = 1 ∧ M.classRoot.num_sums_in = M.num_classes ∧
    M.classRoot.num_sums_out = 1 ∧ M.classRoot.num_repetitions = 1 ∧
    M.classRoot.logits.shape = SumLayer.weightShape M.classRoot ∧ M.classRoot.FinLogits

/-- result for a batch row and a class. -/
def outRow (M : Model) (sc : Option (List Nat)) (X : Data) (s : Nat) : Fl :=
  let x := rowL M.layers (M.frontRow sc X)
  if 1 < M.num_repetitions then MixingLayer.row M.mixing x 0 s else x 0 s 0

theorem prepInput_is {M : Model} {x : Tensor Fl} {N : Nat} {X : Nat → Data}
    (hx : x.Is3 N M.num_channels M.num_features X) : M.prepInput x = .ok x := by
  have h1 : x.rank = 3 := by simp [rank, hx.1]
  have h2 : x.size 1 = M.num_channels := by simp [size, hx.1, at']
  have h3 : x.size 2 = M.num_features := by simp [size, hx.1, at']
  unfold prepInput
  rw [if_neg (by omega)]
  simp only [Res.ok_bind]
  rw [if_neg (by omega)]
  simp [h1, h2, h3]

theorem root_is {M : Model} {g : Nat → Nat → Nat} (h : M.WF g) {x : Tensor Fl} {N : Nat} {y : Nat → Row}
    (hx : x.Is4 N 1 M.num_classes M.num_repetitions y) :
    Res.Sat (M.root x) fun z => z.1.Is2 N M.num_classes (fun n s =>
        if 1 < M.num_repetitions then MixingLayer.row M.mixing (y n) 0 s else y n 0 s 0) ∧
      z.2 = if 1 < M.num_repetitions then some (Cache.one x) else none := by
  unfold root
  refine Res.Sat.require (by simp [rank, hx.1]) (Res.Sat.require (by simp [size, hx.1, at'])
    (Res.Sat.require (by simp [size, hx.1, at']) ?_))
  have hmid : Res.Sat (M.mixReps x) fun z => z.1.Is3 N 1 M.num_classes (fun n d s =>
        if 1 < M.num_repetitions then MixingLayer.row M.mixing (y n) d s else y n d s 0) ∧
      z.2 = if 1 < M.num_repetitions then some (Cache.one x) else none := by
    unfold mixReps
    split_ifs with hR
    · obtain ⟨h1, h2, h3, h4, h5⟩ := h.mix hR
      have hx' : x.Is4 N M.mixing.num_features M.mixing.num_sums_out M.mixing.num_sums_in y := by
        rw [h1, h2, h3]; exact hx
      obtain ⟨p, hp, hp1, hp2⟩ := MixingLayer.forward_is h4 hx'
      rw [hp]
      refine Res.Sat.ok ⟨?_, by simp [hp2]⟩
      rw [h1, h3] at hp1
      exact hp1
    · have hR1 : M.num_repetitions = 1 := by have := h.reps_pos; omega
      obtain ⟨p, hp, hp1⟩ := squeeze_is (d := 3) hx (by simp) (by simp [at', hR1])
      rw [hp]
      refine Res.Sat.ok ⟨?_, rfl⟩
      exact Is.is3 hp1 (by intro n hn d hd s hs; rfl)
  refine hmid.bind fun z ⟨hz1, hz2⟩ => ?_
  refine (squeeze_is (d := 1) hz1 (by simp) (by simp [at'])).bind fun w hw => ?_
  refine Res.Sat.require (by rw [hw.1]; simp [delAt, size, hx.1, at']) (Res.Sat.pure ⟨?_, hz2⟩)
  exact Is.is2 hw (by intro n hn s hs; rfl)

/-- the caches hold the inputs of the layers for batch rows with leaf values `f`. -/
def CachesOK (M : Model) (N : Nat) (cs : Caches) (f : Nat → Row) : Prop :=
  CachesIs M.layers N cs.layers f ∧
  if 1 < M.num_repetitions then ∃ x, cs.mixing = some (Cache.one x) ∧
    x.Is4 N 1 M.num_classes M.num_repetitions fun n => rowL M.layers (f n)
  else cs.mixing = none

theorem upper_is {M : Model} {g : Nat → Nat → Nat} (h : M.WF g) {y : Tensor Fl} {N : Nat} {f : Nat → Row}
    (hy : Res.Sat (M.factorize y) fun z => Res.Sat (M.permute z) fun w =>
      w.Is4 N M.numOut M.num_leaves M.num_repetitions f) :
    Res.Sat (M.upper y) fun z => z.1.Is2 N M.num_classes (fun n s =>
        if 1 < M.num_repetitions then MixingLayer.row M.mixing (rowL M.layers (f n)) 0 s
        else rowL M.layers (f n) 0 s 0) ∧ M.CachesOK N z.2 f := by
  unfold upper
  refine hy.bind fun z hz => hz.bind fun w hw => ?_
  refine (forwardLayers_is h.chain hw).bind fun v ⟨hv, hc⟩ => ?_
  refine (root_is h hv).bind fun u ⟨hu, hu2⟩ => Res.Sat.pure ⟨hu, hc, ?_⟩
  dsimp only
  split_ifs with hR
  · rw [if_pos hR] at hu2
    exact ⟨v.1, hu2, hv⟩
  · rw [if_neg hR] at hu2
    exact hu2

/-- The forward pass succeeds on data in the support, its result for row `n` depends on row `n` only, and the caches hold
the inputs of the layers. -/
theorem run_is {M : Model} {g : Nat → Nat → Nat} (h : M.WF g) {x : Tensor Fl} {N : Nat} {X : Nat → Data}
    (hx : x.Is3 N M.num_channels M.num_features X) (hv : ∀ n, n < N → M.leaf.base.Valid (X n)) {ms : Option Scopes}
    {sc : Option (List Nat)} (hs : Scopes.resolveOpt M.num_features ms = .ok sc) :
    Res.Sat (M.run x ms) fun y => y.1.Is2 N M.num_classes (fun n => M.outRow sc (X n)) ∧
      M.CachesOK N y.2 fun n => M.frontRow sc (X n) := by
  unfold run
  rw [prepInput_is hx]
  simp only [Res.ok_bind]
  exact (front_is h.front hx hv hs).bind fun y hy => upper_is h hy

theorem forward_is {M : Model} {g : Nat → Nat → Nat} (h : M.WF g) {x : Tensor Fl} {N : Nat} {X : Nat → Data}
    (hx : x.Is3 N M.num_channels M.num_features X) (hv : ∀ n, n < N → M.leaf.base.Valid (X n)) {ms : Option Scopes}
    {sc : Option (List Nat)} (hs : Scopes.resolveOpt M.num_features ms = .ok sc) :
    Res.Sat (M.forward x ms) fun y => y.Is2 N M.num_classes fun n => M.outRow sc (X n) := by
  obtain ⟨y, hy, h1, -⟩ := run_is h hx hv hs
  unfold forward
  rw [hy]
  exact Res.Sat.ok h1

/-- some part of the model needs finite leaf values. -/
def needFin (M : Model) : Bool := needsFin M.layers || M.leafNeedsFin

/-- density as a polynomial in the component densities `p` (channel, feature, component, repetition). -/
def outP (M : Model) (g : Nat → Nat → Nat) (T : ℝ) (p : Nat → Nat → Nat → Nat → ℝ≥0∞) (s : Nat) : ℝ≥0∞ :=
  if 1 < M.num_repetitions then ∑ k ∈ Finset.range M.num_repetitions,
    toP (M.mixing.lwMix T 0 s k) * denL T M.layers (M.regionP g p) 0 s k
  else denL T M.layers (M.regionP g p) 0 s 0

theorem top_den {M : Model} {g : Nat → Nat → Nat} (h : M.WF g) {b : Bool} (hb : M.needFin = true → b = true)
    {sc : Option (List Nat)} {X : Data} {r : Nat} (hr : r < M.num_repetitions)
    (hX : ∀ c, c < M.num_channels → ∀ f, f < M.num_features → ∀ i, i < M.num_leaves →
      Okay b (M.leaf.base.entry sc (X c f) c f i r)) {s : Nat} (hs : s < M.num_classes) :
    Okay b (rowL M.layers (M.frontRow sc X) 0 s r) ∧ toP (rowL M.layers (M.frontRow sc X) 0 s r) =
      denL 1 M.layers (M.regionP g fun c f i r => toP (M.leaf.base.entry sc (X c f) c f i r)) 0 s r := by
  have hb1 : needsFin M.layers = true → b = true := fun hl => hb (by simp [needFin, hl])
  have hb2 : M.leafNeedsFin = true → b = true := fun hl => hb (by simp [needFin, hl])
  have hfr : ∀ d, d < M.numOut → ∀ k, k < M.num_leaves → _ := fun d hd k hk =>
    frontRow_den h.front hb2 (sc := sc) (X := X) hr (fun c hc f hf => hX c hc f hf k hk) hd
  have := rowL_den h.chain hb1 (x := M.frontRow sc X) hr (fun d hd k hk => (hfr d hd k hk).1) (by omega : 0 < 1) hs
  refine ⟨this.1, this.2.trans ?_⟩
  exact denL_congr h.chain (fun d hd k hk => (hfr d hd k hk).2) (by omega) hs

theorem outRow_den {M : Model} {g : Nat → Nat → Nat} (h : M.WF g) {b : Bool} (hb : M.needFin = true → b = true)
    {sc : Option (List Nat)} {X : Data}
    (hX : ∀ c, c < M.num_channels → ∀ f, f < M.num_features → ∀ i, i < M.num_leaves → ∀ r, r < M.num_repetitions →
      Okay b (M.leaf.base.entry sc (X c f) c f i r)) {s : Nat} (hs : s < M.num_classes) :
    Okay b (M.outRow sc X s) ∧ toP (M.outRow sc X s) =
      M.outP g 1 (fun c f i r => toP (M.leaf.base.entry sc (X c f) c f i r)) s := by
  have ht : ∀ r, r < M.num_repetitions → _ := fun r hr =>
    top_den h hb hr (fun c hc f hf i hi => hX c hc f hf i hi r hr) hs
  unfold outRow outP
  dsimp only
  split_ifs with hR
  · obtain ⟨h1, h2, h3, h4, h5⟩ := h.mix hR
    have hw := M.mixing.lwMix_fin (D := 1) (by rw [h4]; simp [MixingLayer.weightShape, h1]) h5 (by omega)
      one_ne_zero (d := 0) (by omega) (s := s) (by rw [h3]; exact hs)
    unfold MixingLayer.row
    have nn : ∀ k, k < M.mixing.num_sums_in →
        NN (rowL M.layers (M.frontRow sc X) 0 s k + M.mixing.lwMix 1 0 s k) := fun k hk =>
      (ht k (by rw [← h2]; exact hk)).1.nn.add (NN_of_isFin (hw.1 k hk))
    have e : toP (Fl.lse M.mixing.num_sums_in fun k =>
        rowL M.layers (M.frontRow sc X) 0 s k + M.mixing.lwMix 1 0 s k) =
        ∑ k ∈ Finset.range M.num_repetitions, toP (M.mixing.lwMix 1 0 s k) *
          denL 1 M.layers (M.regionP g fun c f i r => toP (M.leaf.base.entry sc (X c f) c f i r)) 0 s k := by
      rw [toP_lse nn, h2]
      refine Finset.sum_congr rfl fun k hk => ?_
      have hk' : k < M.num_repetitions := by simpa using hk
      rw [toP_add (ht k hk').1.nn (NN_of_isFin (hw.1 k (by rw [h2]; exact hk'))), (ht k hk').2, mul_comm]
    refine ⟨okay_of (NN_lse nn) fun hbt => ?_, e⟩
    rw [toP_lse nn]
    refine fun h0 => ?_
    have h00 := Finset.sum_eq_zero_iff.1 h0 0 (by simp; omega)
    have hk' : 0 < M.num_repetitions := h.reps_pos
    rw [toP_add (ht 0 hk').1.nn (NN_of_isFin (hw.1 0 (by omega)))] at h00
    exact mul_ne_zero ((ht 0 hk').1.ne_zero hbt) (toP_ne_zero (hw.1 0 (by omega))) h00
  · exact ht 0 h.reps_pos

end Model
end Einet
