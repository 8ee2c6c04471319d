import Verif.PropsShift
import Verif.PropsMixture
import Verif.PropsConvMixture
import Verif.PropsConvShiftLaw

/-!
# C100: only differences of raw weights matter in mixtures
-/

open Classical MeasureTheory
open scoped ENNReal
noncomputable section
namespace Einet
open Tensor

theorem Rand.Alike.forEach {α β : Type} {l : List α} {f g : α → Rand β} (h : ∀ a, Alike (f a) (g a)) :
    Alike (Rand.forEach l f) (Rand.forEach l g) := by
  induction l with
  | nil => exact .refl _
  | cons a l ih => exact (h a).bind fun b => ih.bind fun bs => .refl _

/-- the mixture after a number has been added to the raw weights of every sum node of every component. -/
def Mixture.shift (s : Nat → Shifts) (X : Mixture) : Mixture := { X with models := X.models.mapIdx fun k M => M.shift (s k) }

theorem Mixture.model_shift (s : Nat → Shifts) (X : Mixture) (k : Nat) :
    (X.shift s).model k = (X.model k).map fun M => M.shift (s k) := by
  unfold Mixture.model
  show (match (X.models.mapIdx fun k M => M.shift (s k))[k]? with | some M => Except.ok M | none => _) = _
  rw [List.getElem?_mapIdx]
  cases X.models[k]? <;> rfl

namespace Props

theorem IsMixture.of_model {c : Config} {P : Nat → Params} {X : Mixture} (hX : IsMixture c P X) {k : Nat} {M : Model}
    (h : X.model k = .ok M) : build c (P k) = .ok M := by
  refine hX.model ?_
  unfold Mixture.model at h
  split at h
  · rename_i h'; cases h; exact h'
  · cases h

/-- **C100**, `forward`: adding a number to the raw weights of every sum node of every component (a number for each node, the same for
all its children) changes neither the results of the mixture nor its exceptions; all inputs, valid or not, all scopes. -/
theorem C100_forward (c : Config) (P : Nat → Params) (X : Mixture) (hX : IsMixture c P X) (s : Nat → Shifts) (x : Tensor Fl)
    (ms : Option Scopes) : (X.shift s).forward x ms = X.forward x ms := by
  have hg : (X.shift s).forwardGroup x = X.forwardGroup x := by
    funext g
    unfold Mixture.forwardGroup
    rw [Mixture.model_shift]
    cases hM : X.model g.1 with
    | error e => rfl
    | ok M =>
      show (stack _ >>= fun data => (M.shift (s g.1)).forward data >>= _) = (stack _ >>= fun data => M.forward data >>= _)
      congr 1
      funext data
      rw [C85_forward c (P g.1) (hX.random _) M (hX.of_model hM)]
  unfold Mixture.forward
  rw [hg]
  rfl

/-- **C100**, `sample`: all arguments, with or without evidence: the same random choices are made with the same weights. -/
theorem C100_sample (c : Config) (P : Nat → Params) (X : Mixture) (hX : IsMixture c P X) (s : Nat → Shifts) (a : MixArgs)
    (hT : a.temperature_sums ≠ 0) : Rand.Alike (X.sample a) ((X.shift s).sample a) := by
  have hm : ∀ {β : Type} (k : Nat) (b : SampleArgs) (_ : b.temperature_sums ≠ 0) (F : Tensor Fl → Rand β),
      Rand.Alike ((Rand.lift (X.model k)).bind fun M => (M.sample b).bind F)
        ((Rand.lift ((X.shift s).model k)).bind fun M => (M.sample b).bind F) := by
    intro β k b hb F
    rw [Mixture.model_shift]
    cases hM : X.model k with
    | error e => exact .refl _
    | ok M => exact (C85_sample c (P k) (hX.random _) M (hX.of_model hM) (s k) b hb).bind fun _ => .refl _
  have hm' : ∀ (k : Nat) (b : SampleArgs) (_ : b.temperature_sums ≠ 0),
      Rand.Alike ((Rand.lift (X.model k)).bind fun M => M.sample b) ((Rand.lift ((X.shift s).model k)).bind fun M => M.sample b) := by
    intro k b hb
    have := hm k b hb .pure
    simpa only [Rand.bind_pure] using this
  have hd : (X.shift s).drawClusters a = X.drawClusters a := by
    unfold Mixture.drawClusters Mixture.count
    simp only [show (X.shift s).models.length = X.models.length from List.length_mapIdx]
    rfl
  unfold Mixture.sample
  rw [hd]
  refine (Rand.Alike.refl _).bind fun _ => (Rand.Alike.refl _).bind fun ks => ?_
  split
  · unfold Mixture.sampleFree
    exact (Rand.Alike.forEach fun g => hm' _ _ hT).bind fun _ => .refl _
  · unfold Mixture.sampleEvidence
    exact (Rand.Alike.refl _).bind fun ks => (Rand.Alike.forEach fun g => (Rand.Alike.refl _).bind fun data => hm _ _ hT _).bind fun _ => .refl _

/-- **C100**, `sample`: the law of the results is the same, and after the same seed the very same result (or exception). -/
theorem C100_law (c : Config) (P : Nat → Params) (X : Mixture) (hX : IsMixture c P X) (s : Nat → Shifts) (a : MixArgs)
    (hT : a.temperature_sums ≠ 0) : (∀ f : Tensor Fl → ℝ≥0∞, ((X.shift s).sample a).E f = (X.sample a).E f) ∧
      ∀ (G : Gen) (_ : Gen.Local G) (seed : Int), ((X.shift s).sample a).run G (G.seed seed) = (X.sample a).run G (G.seed seed) :=
  ⟨fun f => ((C100_sample c P X hX s a hT).E f).symm, fun _ hG _ => (alike_run (C100_sample c P X hX s a hT) hG _).symm⟩

/-- mixtures of convolutional circuits with the same buffers, the second one with shifted raw weights. -/
structure ConvShifted (c : ConvConfig) (d : ImgShape) (P : Nat → ConvParams) (s : Nat → Nat → Nat → Nat → Nat → ℝ) (X X' : ConvMixture) :
    Prop where
  first : IsConvMixture c d P X
  second : IsConvMixture c d (fun k => (P k).shift (s k)) X'
  number : X'.models.length = X.models.length
  weights : X'.mixture_weights = X.mixture_weights
  centroids : X'.centroids = X.centroids
  nearest : X'.nearest = X.nearest

theorem ConvShifted.model {c : ConvConfig} {d : ImgShape} {P : Nat → ConvParams} {s : Nat → Nat → Nat → Nat → Nat → ℝ} {X X' : ConvMixture}
    (h : ConvShifted c d P s X X') (k : Nat) :
    (X.model k = .error .index ∧ X'.model k = .error .index) ∨ ∃ M M', X.model k = .ok M ∧ X'.model k = .ok M' ∧
      buildConv c d (P k) = .ok M ∧ buildConv c d ((P k).shift (s k)) = .ok M' := by
  unfold ConvMixture.model
  by_cases hk : k < X.models.length
  · have e1 : X.models[k]? = some X.models[k] := List.getElem?_eq_getElem hk
    have hk' : k < X'.models.length := by rw [h.number]; exact hk
    have e2 : X'.models[k]? = some X'.models[k] := List.getElem?_eq_getElem hk'
    exact Or.inr ⟨_, _, by rw [e1], by rw [e2], h.first.parts.2.2 k _ e1, h.second.parts.2.2 k _ e2⟩
  · have e1 : X.models[k]? = none := List.getElem?_eq_none (by omega)
    have e2 : X'.models[k]? = none := List.getElem?_eq_none (by rw [h.number]; omega)
    exact Or.inl ⟨by rw [e1], by rw [e2]⟩

theorem ConvShifted.clusters {c : ConvConfig} {d : ImgShape} {P : Nat → ConvParams} {s : Nat → Nat → Nat → Nat → Nat → ℝ}
    {X X' : ConvMixture} (h : ConvShifted c d P s X X') : X'.clusters = X.clusters := by
  unfold ConvMixture.clusters
  rw [h.weights, h.centroids, h.nearest, h.first.parts.2.1, h.second.parts.2.1]

/-- **C100**, mixtures of convolutional circuits, `forward`: all inputs, valid or not. -/
theorem C100_conv_forward (c : ConvConfig) (d : ImgShape) (P : Nat → ConvParams) (s : Nat → Nat → Nat → Nat → Nat → ℝ)
    (X X' : ConvMixture) (h : ConvShifted c d P s X X') (x : Tensor Fl) (ms : Option Scopes) : X'.forward x ms = X.forward x ms := by
  have hg : X'.forwardGroup x = X.forwardGroup x := by
    funext g
    unfold ConvMixture.forwardGroup
    rcases h.model g.1 with ⟨e1, e2⟩ | ⟨M, M', e1, e2, b1, b2⟩
    · rw [e1, e2]
    · rw [e1, e2]
      show (stack _ >>= fun data => M'.forward data >>= _) = (stack _ >>= fun data => M.forward data >>= _)
      congr 1
      funext data
      rw [C99_forward c d _ _ M M' b1 b2]
  unfold ConvMixture.forward
  rw [hg, h.clusters]

/-- **C100**, mixtures of convolutional circuits, `sample`: the same random choices are made with the same weights. -/
theorem C100_conv_sample (c : ConvConfig) (d : ImgShape) (P : Nat → ConvParams) (s : Nat → Nat → Nat → Nat → Nat → ℝ)
    (X X' : ConvMixture) (h : ConvShifted c d P s X X') (μ : Measure ℝ) (a : MixArgs) (hT : a.temperature_sums ≠ 0) :
    Rand.Alike (X.sample μ a) (X'.sample μ a) := by
  have hm : ∀ {β : Type} (k : Nat) (b : ConvArgs) (_ : b.temperature_sums ≠ 0) (F : Tensor Fl → Rand β),
      Rand.Alike ((Rand.lift (X.model k)).bind fun M => (M.sample μ b).bind F)
        ((Rand.lift (X'.model k)).bind fun M => (M.sample μ b).bind F) := by
    intro β k b hb F
    rcases h.model k with ⟨e1, e2⟩ | ⟨M, M', e1, e2, b1, b2⟩
    · rw [e1, e2]; exact .refl _
    · rw [e1, e2]
      exact (C99_sample c d _ _ M M' b1 b2 μ b hb).bind fun _ => .refl _
  have hm' : ∀ (k : Nat) (b : ConvArgs) (_ : b.temperature_sums ≠ 0),
      Rand.Alike ((Rand.lift (X.model k)).bind fun M => M.sample μ b) ((Rand.lift (X'.model k)).bind fun M => M.sample μ b) := by
    intro k b hb
    have := hm k b hb .pure
    simpa only [Rand.bind_pure] using this
  have hd : X'.drawClusters a = X.drawClusters a := by
    unfold ConvMixture.drawClusters ConvMixture.count
    rw [h.number, h.clusters, h.weights]
  unfold ConvMixture.sample
  rw [hd]
  refine (Rand.Alike.refl _).bind fun _ => (Rand.Alike.refl _).bind fun ks => ?_
  split
  · unfold ConvMixture.sampleFree
    exact (Rand.Alike.forEach fun g => hm' _ _ hT).bind fun _ => .refl _
  · unfold ConvMixture.sampleEvidence
    rw [h.clusters]
    exact (Rand.Alike.refl _).bind fun ks => (Rand.Alike.forEach fun g => (Rand.Alike.refl _).bind fun data => hm _ _ hT _).bind fun _ => .refl _

/-- **C100**, mixtures of convolutional circuits, `sample`: the law of the images is the same, and after the same seed the very same
images (or exception). -/
theorem C100_conv_law (c : ConvConfig) (d : ImgShape) (P : Nat → ConvParams) (s : Nat → Nat → Nat → Nat → Nat → ℝ)
    (X X' : ConvMixture) (h : ConvShifted c d P s X X') (μ : Measure ℝ) (a : MixArgs) (hT : a.temperature_sums ≠ 0) :
    (∀ f : Tensor Fl → ℝ≥0∞, (X'.sample μ a).E f = (X.sample μ a).E f) ∧
      ∀ (G : Gen) (_ : Gen.Local G) (seed : Int), (X'.sample μ a).run G (G.seed seed) = (X.sample μ a).run G (G.seed seed) :=
  ⟨fun f => ((C100_conv_sample c d P s X X' h μ a hT).E f).symm,
    fun _ hG _ => (alike_run (C100_conv_sample c d P s X X' h μ a hT) hG _).symm⟩

/-! ### Examples -/

/-- the hypotheses are met by a mixture of three Einets; each component gets other shifts. -/
example : ∃ (X : Mixture) (s : Nat → Shifts), IsMixture (exConfig "einsum" "top-down") (fun _ => exParams exLeaf) X ∧
    X.models.length = 3 ∧ s 0 ≠ s 1 := by
  obtain ⟨X, h, h3, -⟩ := exMixture "einsum" "top-down" (Or.inl ⟨Or.inr (Or.inr rfl), rfl⟩)
  refine ⟨X, fun k => ⟨fun a b c d => a + 2 * b + 3 * c + d, fun a b => a + b, k⟩, h, h3, fun e => ?_⟩
  have := congrArg Shifts.classRoot e
  simp at this

/-- the hypotheses are met by mixtures of two convolutional circuits. -/
example (s o : String) (hs : s = "bottom-up" ∨ s = "top-down") (ho : o = "sum-prod" ∨ o = "prod-sum") :
    ∃ (P : Nat → ConvParams) (δ : Nat → Nat → Nat → Nat → Nat → ℝ) (X X' : ConvMixture), ConvShifted (exConv s o) ⟨3, 8, 24⟩ P δ X X' ∧
      ∀ k, ((P k).shift (δ k)).logits 1 [0, 1, 0, 1] ≠ (P k).logits 1 [0, 1, 0, 1] := by
  have hu : (exConv s o).Usual ⟨3, 8, 24⟩ := ⟨by simp [exConv], by norm_num, by norm_num, ho⟩
  have hf : (exConv s o).SizeFits ⟨3, 8, 24⟩ := ⟨fun _ => by norm_num [exConv], fun _ => by norm_num [exConv]⟩
  let P : Nat → ConvParams := fun k => ⟨.normal (fun _ _ i _ => i) (fun _ _ i _ => i), fun i l => i + l.sum + k⟩
  let δ : Nat → Nat → Nat → Nat → Nat → ℝ := fun k i a b c => k + i + a + b + c
  have hb : ∀ k, ∃ M, buildConv (exConv s o) ⟨3, 8, 24⟩ (P k) = .ok M := fun k =>
    buildConv_ok (by simp [exConv]) (by norm_num) hu (fun _ => hf) hs (by simp [P, LeafSpec.build, exConv])
  have hb' : ∀ k, ∃ M, buildConv (exConv s o) ⟨3, 8, 24⟩ ((P k).shift (δ k)) = .ok M := fun k =>
    (C99_builds (exConv s o) ⟨3, 8, 24⟩ (P k) (δ k)).1 (hb k)
  have mk : ∀ (Q : Nat → ConvParams) (M : Nat → ConvModel), (∀ k, buildConv (exConv s o) ⟨3, 8, 24⟩ (Q k) = .ok (M k)) →
      (∀ k, (Q k).leaf.Good) → IsConvMixture (exConv s o) ⟨3, 8, 24⟩ Q
        ⟨[M 0, M 1], 576, [1 / 4, 3 / 4].map Fl.fin, List.replicate 2 (List.replicate 576 (.fin 0)), exNearImg⟩ := by
    intro Q M hM hg
    refine ⟨hg, ⟨2, ?_⟩, rfl, ?_, ?_⟩
    · refine (checkInt_iff 2 1 one_ne_zero _ _).2 ⟨by norm_num, ?_⟩
      have e : (List.range (2 : Int).toNat).mapM (fun k => buildConv (exConv s o) ⟨3, 8, 24⟩ (Q k)) = .ok [M 0, M 1] := by
        show [0, 1].mapM _ = _
        simp [hM]
      rw [e]
      rfl
    · intro l hl
      rw [List.eq_of_mem_replicate hl]
      exact List.length_replicate
    · intro l cs hcs
      have := List.length_pos_iff.2 hcs
      show exNearImg l cs < _
      unfold exNearImg
      split_ifs with h
      · exact h.1
      · exact this
  choose M hM using hb
  choose M' hM' using hb'
  refine ⟨P, δ, _, _, ⟨mk P M hM fun _ => trivial, mk _ M' hM' fun _ => trivial, rfl, rfl, rfl, rfl⟩, fun k => ?_⟩
  simp only [ConvParams.shift, at', ne_eq, add_eq_left, δ]
  positivity

end Props
end Einet
