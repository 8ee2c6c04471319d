import Verif.ConvShiftSample
import Verif.PropsShift

/-!
# C99 for samples of convolutional circuits
-/

open Classical MeasureTheory
open scoped ENNReal
noncomputable section
namespace Einet
open Tensor
namespace Props

/-- **C99**, `sample`: all arguments with a temperature of the sums other than zero; the same random choices are made with the same
weights. -/
theorem C99_sample (c : ConvConfig) (d : ImgShape) (P : ConvParams) (s : Nat → Nat → Nat → Nat → ℝ) (M M' : ConvModel)
    (h : buildConv c d P = .ok M) (h' : buildConv c d (P.shift s) = .ok M') (μ : Measure ℝ) (a : ConvArgs)
    (hT : a.temperature_sums ≠ 0) : Rand.Alike (M.sample μ a) (M'.sample μ a) := by
  have hn := buildConv_near c d P s
  rw [h, h'] at hn
  exact ConvModel.Near.sample hn μ a hT

/-- **C99**, `sample`: the law of the results is the same. -/
theorem C99_law (c : ConvConfig) (d : ImgShape) (P : ConvParams) (s : Nat → Nat → Nat → Nat → ℝ) (M M' : ConvModel)
    (h : buildConv c d P = .ok M) (h' : buildConv c d (P.shift s) = .ok M') (μ : Measure ℝ) (a : ConvArgs)
    (hT : a.temperature_sums ≠ 0) (f : Tensor Fl → ℝ≥0∞) : (M'.sample μ a).E f = (M.sample μ a).E f :=
  ((C99_sample c d P s M M' h h' μ a hT).E f).symm

/-- **C99**, `sample` after the same seed: the very same images (or exception), and the generator is left in the same state. -/
theorem C99_seed (c : ConvConfig) (d : ImgShape) (P : ConvParams) (s : Nat → Nat → Nat → Nat → ℝ) (M M' : ConvModel)
    (h : buildConv c d P = .ok M) (h' : buildConv c d (P.shift s) = .ok M') (μ : Measure ℝ) (a : ConvArgs)
    (hT : a.temperature_sums ≠ 0) (G : Gen) (hG : Gen.Local G) (seed : Int) :
    (M'.sample μ a).run G (G.seed seed) = (M.sample μ a).run G (G.seed seed) :=
  (alike_run (C99_sample c d P s M M' h h' μ a hT) hG _).symm

/-- the hypotheses are met by a draw of four images with tempered weights from circuits with different raw weights. -/
example (s o : String) (hs : s = "bottom-up" ∨ s = "top-down") (ho : o = "sum-prod" ∨ o = "prod-sum") :
    ∃ (P : ConvParams) (δ : Nat → Nat → Nat → Nat → ℝ) (M M' : ConvModel), buildConv (exConv s o) ⟨3, 8, 24⟩ P = .ok M ∧
      buildConv (exConv s o) ⟨3, 8, 24⟩ (P.shift δ) = .ok M' ∧ (P.shift δ).logits 1 [0, 1, 0, 1] ≠ P.logits 1 [0, 1, 0, 1] ∧
      ({ num_samples := some 4, temperature_sums := 1 / 2 } : ConvArgs).temperature_sums ≠ 0 := by
  have hu : (exConv s o).Usual ⟨3, 8, 24⟩ := ⟨by simp [exConv], by norm_num, by norm_num, ho⟩
  have hf : (exConv s o).SizeFits ⟨3, 8, 24⟩ := ⟨fun _ => by norm_num [exConv], fun _ => by norm_num [exConv]⟩
  let P : ConvParams := ⟨.normal (fun _ _ i _ => i) (fun _ _ i _ => i), fun i l => i + l.sum⟩
  obtain ⟨M, hM⟩ : ∃ M, buildConv (exConv s o) ⟨3, 8, 24⟩ P = .ok M :=
    buildConv_ok (by simp [exConv]) (by norm_num) hu (fun _ => hf) hs (by simp [P, LeafSpec.build, exConv])
  obtain ⟨M', hM'⟩ := (C99_builds (exConv s o) ⟨3, 8, 24⟩ P fun i a b c => i + a + b + c).1 ⟨M, hM⟩
  refine ⟨P, _, M, M', hM, hM', ?_, by norm_num⟩
  simp only [ConvParams.shift, at', ne_eq, add_eq_left]
  norm_num

end Props
end Einet
