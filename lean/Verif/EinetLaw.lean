import Verif.EinetFwd
import Mathlib.MeasureTheory.Constructions.Pi

/-!
# Integration of the model density

The density is multilinear in the densities of the leaf components, so integrating the inputs of the model amounts to
integrating the leaf components.  Proved through the sampling law of the layers (`sampleLayers_E`).
-/

open Classical MeasureTheory
open scoped ENNReal
noncomputable section
namespace Einet
open Tensor

/-- integral of a product over a finite product space. -/
theorem lintegral_pi_prod {n : ℕ} {E : Type} [MeasurableSpace E] {μ : Fin n → Measure E} [∀ i, SigmaFinite (μ i)]
    {f : Fin n → E → ℝ≥0∞} (hf : ∀ i, Measurable (f i)) :
    ∫⁻ x, ∏ i, f i (x i) ∂(Measure.pi μ) = ∏ i, ∫⁻ x, f i x ∂(μ i) := by
  induction n with
  | zero => simp
  | succ n ih =>
    have hm : Measurable fun x : Fin n → E => ∏ i, f (Fin.succ i) (x i) :=
      Finset.measurable_fun_prod _ fun i _ => (hf _).comp (measurable_pi_apply i)
    rw [← ((measurePreserving_piFinSuccAbove μ 0).symm).lintegral_comp_emb (MeasurableEquiv.measurableEmbedding _),
      Fin.prod_univ_succ, ← ih fun i => hf _]
    simp_rw [MeasurableEquiv.piFinSuccAbove_symm_apply, Fin.insertNthEquiv, Fin.prod_univ_succ]
    simp only [Fin.zero_succAbove]
    exact lintegral_prod_mul (hf 0).aemeasurable hm.aemeasurable

/-- a context that asks for one path from output channel `s` of repetition `r`. -/
def pathCtx (T : ℝ) (s r : Nat) : Ctx where
  num_samples := 1
  indices_out := full [1, 1] s
  indices_repetition := full [1] r
  temperature_sums := T

/-- the density of a chain as an expectation over paths. -/
theorem denL_as_E {ls : List Layer} {Di Si So R : Nat} (h : Chain ls Di Si 1 So R) {T : ℝ} (hT : T ≠ 0)
    {r s : Nat} (hr : r < R) (hs : s < So) :
    ((sampleLayers ls [] (pathCtx T s r)).All fun c => ∃ idx : Nat → Nat, (∀ d, d < Di → idx d < Si) ∧
      ∀ d, d < Di → c.indices_out.get [0, d] = idx d) ∧
    ∀ w : PRow, (sampleLayers ls [] (pathCtx T s r)).E
      (fun c => ∏ d ∈ Finset.range Di, w d (c.indices_out.get [0, d]) r) = denL T ls w 0 s r := by
  have hc : CtxOK (pathCtx T s r) 1 1 So R (fun _ _ => s) (fun _ => r) :=
    { ns := rfl
      io := full_is _ _
      io_lt := fun _ _ _ _ => hs
      ir := full_is _ _
      ir_lt := fun _ _ => hr }
  have hev : EvL false ls 1 [] fun _ _ _ _ => .fin 0 := ⟨by simp, fun _ _ _ _ => rfl⟩
  have htop : ∀ (ls : List Layer) (e : Row), (∀ d k r, e d k r = .fin 0) → ∀ d k r, evTop false ls e d k r = .fin 0 := by
    intro ls
    induction ls with
    | nil => exact fun e he => he
    | cons l ls ih => exact fun e he => ih _ fun _ _ _ => rfl
  constructor
  · refine (sampleLayers_All h (b := true) (fun _ => rfl) (by omega) hc hT hev (fun _ _ _ _ _ _ => Fl.isFin_fin _)
      (fun n _ d _ => by rw [htop ls _ (fun _ _ _ => rfl)]; simp)).mono fun c ⟨_, idx, hc, _⟩ => ?_
    exact ⟨idx 0, fun d hd => hc.io_lt 0 (by omega) d hd, fun d hd => hc.io.get (by omega) hd⟩
  · intro w
    have := sampleLayers_E h (b := true) (fun _ => rfl) rfl (by omega) hc hT hev (fun _ _ _ _ _ _ => Fl.isFin_fin _)
      (fun n _ d _ => by rw [htop ls _ (fun _ _ _ => rfl)]; simp) fun _ => w
    simp only [prod2, Finset.prod_range_one] at this
    rw [this]
    exact valL_uncond h hT (fun _ _ _ => rfl) hr (by omega) hs

/-- integration through a chain of layers: it suffices to integrate products of inputs, one per feature. -/
theorem denL_lintegral {ls : List Layer} {Di Si So R : Nat} (h : Chain ls Di Si 1 So R) {T : ℝ} (hT : T ≠ 0)
    {Ω : Type} [MeasurableSpace Ω] {ν : Measure Ω} {u : Ω → PRow} {v : PRow} {r s : Nat} (hr : r < R) (hs : s < So)
    (hm : ∀ d k, Measurable fun ω => u ω d k r)
    (hu : ∀ idx : Nat → Nat, (∀ d, d < Di → idx d < Si) →
      ∫⁻ ω, ∏ d ∈ Finset.range Di, u ω d (idx d) r ∂ν = ∏ d ∈ Finset.range Di, v d (idx d) r) :
    ∫⁻ ω, denL T ls (u ω) 0 s r ∂ν = denL T ls v 0 s r := by
  obtain ⟨hall, key⟩ := denL_as_E h hT hr hs
  simp only [← key]
  rw [(disc_sampleLayers ls [] _).lintegral_comm]
  · refine Rand.E_congr hall fun c ⟨idx, h1, h2⟩ => ?_
    have e : ∀ w : PRow, (∏ d ∈ Finset.range Di, w d (c.indices_out.get [0, d]) r) =
        ∏ d ∈ Finset.range Di, w d (idx d) r := fun w =>
      Finset.prod_congr rfl fun d hd => by rw [h2 d (by simpa using hd)]
    simp only [e]
    exact hu _ h1
  · exact fun c => Finset.measurable_fun_prod _ fun d _ => hm _ _

namespace Model

theorem FrontWF.grpF_lt {M : Model} {g : Nat → Nat → Nat} (h : M.FrontWF g) {r f : Nat} (hr : r < M.num_repetitions)
    (hf : f < M.num_features) : M.grpF g r f < M.numOut := by
  have hF := h.features; have hR := h.reps
  unfold grpF numOut
  cases hL : M.leaf with
  | direct B =>
    simp only [hL, Leaf.base] at hF ⊢
    rw [hF]; exact (h.permAt_inv hr hf).2.1
  | factorized L =>
    simp only [hL, Leaf.base] at hF hR ⊢
    split_ifs with he
    · rw [← he, hF]; exact hf
    · exact (h.fact L hL).lt r (by rw [hR]; exact hr) f (by rw [hF]; exact hf)
  | simple L =>
    simp only [hL, Leaf.base] at hF ⊢
    have hW := h.simple L hL
    have hq := hW.perm.q_lt f (by omega)
    rw [L.size_eq hW.out_pos, Nat.mul_comm] at hq
    exact Nat.div_lt_of_lt_mul hq

/-- choosing a component per region is choosing one per feature. -/
theorem prod_regionP {M : Model} {g : Nat → Nat → Nat} (h : M.FrontWF g) {r : Nat} (hr : r < M.num_repetitions)
    (p : Nat → Nat → Nat → Nat → ℝ≥0∞) (idx : Nat → Nat) :
    ∏ o ∈ Finset.range M.numOut, M.regionP g p o (idx o) r =
      ∏ f ∈ Finset.range M.num_features, ∏ c ∈ Finset.range M.num_channels, p c f (idx (M.grpF g r f)) r := by
  unfold regionP
  rw [Finset.prod_comm]
  refine Finset.prod_congr rfl fun f hf => ?_
  rw [Finset.prod_ite_eq (Finset.range M.numOut) (M.grpF g r f),
    if_pos (Finset.mem_range.2 (h.grpF_lt hr (by simpa using hf)))]

theorem regionP_measurable {M : Model} {g : Nat → Nat → Nat} {Ω : Type} [MeasurableSpace Ω]
    {p : Ω → Nat → Nat → Nat → Nat → ℝ≥0∞} (hm : ∀ c f i r, Measurable fun ω => p ω c f i r) (o i r : Nat) :
    Measurable fun ω => M.regionP g (p ω) o i r := by
  unfold regionP
  refine Finset.measurable_fun_prod _ fun f _ => ?_
  split_ifs
  · exact Finset.measurable_fun_prod _ fun c _ => hm _ _ _ _
  · exact measurable_const

theorem denL_measurable {ls : List Layer} {Di Si So R : Nat} (h : Chain ls Di Si 1 So R) {T : ℝ} (hT : T ≠ 0)
    {Ω : Type} [MeasurableSpace Ω] {u : Ω → PRow} {r s : Nat} (hr : r < R) (hs : s < So)
    (hm : ∀ d k, Measurable fun ω => u ω d k r) : Measurable fun ω => denL T ls (u ω) 0 s r := by
  obtain ⟨-, key⟩ := denL_as_E h hT hr hs
  simp only [← key]
  refine (disc_sampleLayers ls [] _).measurable fun c => ?_
  exact Finset.measurable_fun_prod _ fun d _ => hm _ _

/-- integration of the model density. -/
theorem outP_lintegral {M : Model} {g : Nat → Nat → Nat} (h : M.WF g) {T : ℝ} (hT : T ≠ 0)
    {Ω : Type} [MeasurableSpace Ω] {ν : Measure Ω} {p : Ω → Nat → Nat → Nat → Nat → ℝ≥0∞}
    {q : Nat → Nat → Nat → Nat → ℝ≥0∞} (hm : ∀ c f i r, Measurable fun ω => p ω c f i r)
    (hq : ∀ r, r < M.num_repetitions → ∀ k : Nat → Nat, (∀ f, f < M.num_features → k f < M.num_leaves) →
      ∫⁻ ω, ∏ f ∈ Finset.range M.num_features, ∏ c ∈ Finset.range M.num_channels, p ω c f (k f) r ∂ν =
        ∏ f ∈ Finset.range M.num_features, ∏ c ∈ Finset.range M.num_channels, q c f (k f) r)
    {s : Nat} (hs : s < M.num_classes) : ∫⁻ ω, M.outP g T (p ω) s ∂ν = M.outP g T q s := by
  have hd : ∀ r, r < M.num_repetitions → ∫⁻ ω, denL T M.layers (M.regionP g (p ω)) 0 s r ∂ν =
      denL T M.layers (M.regionP g q) 0 s r := by
    intro r hr
    refine denL_lintegral h.chain hT hr hs (fun d k => regionP_measurable hm d k r) fun idx hidx => ?_
    simp only [prod_regionP h.front hr]
    exact hq r hr _ fun f hf => hidx _ (h.front.grpF_lt hr hf)
  unfold outP
  split_ifs with hR
  · have hmm : ∀ k, k < M.num_repetitions → Measurable fun ω => denL T M.layers (M.regionP g (p ω)) 0 s k :=
      fun k hk => denL_measurable h.chain hT hk hs fun d k' => regionP_measurable hm d k' k
    rw [lintegral_finsetSum' _ fun k hk => ((hmm k (by simpa using hk)).const_mul _).aemeasurable]
    refine Finset.sum_congr rfl fun k hk => ?_
    have hk' : k < M.num_repetitions := by simpa using hk
    rw [lintegral_const_mul _ (hmm k hk'), hd k hk']
  · exact hd 0 h.reps_pos

end Model
end Einet
