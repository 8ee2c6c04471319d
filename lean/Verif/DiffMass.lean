import Verif.DiffLaw

/-!
# Total probability of differentiable sampling
-/

open Classical MeasureTheory
open scoped ENNReal
noncomputable section
namespace Einet
open Tensor

/-- the outcomes have total probability one, and all of them satisfy `P`. -/
def Full {α : Type} (P : α → Prop) (x : Rand α) : Prop :=
  ∀ (t : ℝ≥0∞) (g : α → ℝ≥0∞), ((∀ a, P a → t ≤ g a) → t ≤ x.E g) ∧ ((∀ a, P a → g a ≤ t) → x.E g ≤ t)

variable {α β : Type}

namespace Full
variable {P : α → Prop} {Q : β → Prop}

theorem pure {a : α} (h : P a) : Full P (.pure a) := fun _ _ => ⟨fun hg => hg a h, fun hg => hg a h⟩

theorem bind {x : Rand α} {k : α → Rand β} (h : Full P x) (hk : ∀ a, P a → Full Q (k a)) : Full Q (x.bind k) := by
  intro t g
  rw [Rand.E_bind]
  exact ⟨fun hg => (h t _).1 fun a ha => (hk a ha t g).1 hg, fun hg => (h t _).2 fun a ha => (hk a ha t g).2 hg⟩

theorem mono {x : Rand α} {P' : α → Prop} (h : Full P x) (hP : ∀ a, P a → P' a) : Full P' x := fun t g =>
  ⟨fun hg => (h t g).1 fun a ha => hg a (hP a ha), fun hg => (h t g).2 fun a ha => hg a (hP a ha)⟩

theorem lift {x : Res α} (h : Res.Sat x P) : Full P (Rand.lift x) := by
  obtain ⟨a, rfl, ha⟩ := h
  exact pure ha

theorem leaf {μ : Measure ℝ} (hμ : μ Set.univ = 1) {k : ℝ → Rand α} (h : ∀ x, Full P (k x)) : Full P (.leaf μ k) := by
  intro t g
  have e : t = ∫⁻ _, t ∂μ := by rw [lintegral_const, hμ, mul_one]
  refine ⟨fun hg => ?_, fun hg => ?_⟩
  · rw [e]; exact lintegral_mono fun x => (h x t g).1 hg
  · rw [e]; exact lintegral_mono fun x => (h x t g).2 hg

theorem drawAll {is : List (List Nat)} {p : List Nat → Rand α} {d : List Nat → α}
    (h : ∀ i, Full (fun _ => True) (p i)) : Full (fun _ => True) (Rand.drawAll is p d) := by
  induction is with
  | nil => exact pure trivial
  | cons i is ih => exact bind (h i) fun v _ => bind ih fun f _ => pure trivial

theorem drawVec {μ : Measure ℝ} (hμ : μ Set.univ = 1) (n : Nat) : Full (fun _ => True) (Einet.drawVec μ n) := by
  induction n with
  | zero => exact pure trivial
  | succ n ih => exact bind ih fun v _ => leaf hμ fun x => pure trivial

theorem mass {x : Rand α} (h : Full P x) : x.E (fun _ => 1) = 1 :=
  le_antisymm ((h 1 _).2 fun _ _ => le_rfl) ((h 1 _).1 fun _ _ => le_rfl)

end Full

variable {μ : Measure ℝ}

theorem drawNoise_full (hμ : μ Set.univ = 1) (m : Bool) (w : Tensor Fl) (d : Nat) :
    Full (fun g => ∀ i, (g i).IsFin) (drawNoise μ m w d) := by
  unfold drawNoise
  split_ifs
  · exact Full.pure fun _ => Fl.isFin_fin _
  · exact Full.bind (Full.drawAll fun _ => Full.drawVec hμ _) fun v _ => Full.pure fun _ => Fl.isFin_fin _

theorem Layer.sampleR_full (hμ : μ Set.univ = 1) {l : Layer} {Di Si Do So R : Nat} (h : WF l Di Si Do So R) {ctx : DCtx}
    {N : Nat} (hN : 0 < N) {idx : Nat → Nat → Nat} {rr : Nat → Nat} (hctx : DCtxOK ctx N Do So R idx rr)
    (hT : ctx.temperature_sums ≠ 0) {cache : Option Cache} {e : Nat → Row} (hev : l.Ev N cache e)
    (he : ∀ n, n < N → ∀ d, d < Di → ∀ k, k < Si → ∀ r, r < R → (e n d k r).IsFin) :
    Full (fun c => c = { ctx with indices_out := c.indices_out } ∧ ∃ idx', DCtxOK c N Di Si R idx' rr)
      (l.sampleR μ cache ctx) := by
  by_cases hs : l.isSum = true
  · obtain ⟨W, hW, hW'⟩ := weightsD_exact h hs hctx hev he
    rw [sampleR_eq h hs, absSampleR_eq hctx.check hW]
    refine Full.bind (drawNoise_full hμ _ _ _) fun g hg => Full.lift ?_
    rw [← sampleD_eq h hs]
    exact (sampleD_is h hN hctx hT hev (fun _ => hg) he).mono fun c ⟨h1, h2⟩ => ⟨h1, _, h2⟩
  · have := sampleD_is h hN hctx hT hev (g := fun _ => .fin 0) (fun _ _ => Fl.isFin_fin _) he
    cases l with
    | rootProduct F R => exact Full.lift (this.mono fun c ⟨h1, h2⟩ => ⟨h1, _, h2⟩)
    | _ => exact absurd rfl hs

theorem sampleLayersR_full (hμ : μ Set.univ = 1) {ls : List Layer} {Di Si Do So R : Nat} (h : Chain ls Di Si Do So R)
    {ctx : DCtx} {N : Nat} (hN : 0 < N) {idx : Nat → Nat → Nat} {rr : Nat → Nat} (hctx : DCtxOK ctx N Do So R idx rr)
    (hT : ctx.temperature_sums ≠ 0) {cond : Bool} {cs : List (Option Cache)} {e : Nat → Row} (hev : EvL cond ls N cs e)
    (he : ∀ n, n < N → ∀ d, d < Di → ∀ k, k < Si → ∀ r, r < R → (e n d k r).IsFin) :
    Full (fun c => c = { ctx with indices_out := c.indices_out } ∧ ∃ idx', DCtxOK c N Di Si R idx' rr)
      (sampleLayersR μ ls cs ctx) := by
  induction h generalizing cs e with
  | nil D S R => exact Full.pure ⟨rfl, idx, hctx⟩
  | @cons l ls Di Si Dm Sm Do So R h hs ih =>
    refine Full.bind (ih hctx hev.head.2 fun n hn => evUp_fin h cond (he n hn)) fun c ⟨hce, idx', hcc⟩ => ?_
    refine (Layer.sampleR_full hμ h hN hcc (by rw [hce]; exact hT) hev.head.1.ev he).mono fun c' ⟨h1, h2⟩ => ⟨?_, h2⟩
    rw [h1, hce]

namespace Model

theorem pickClassR_full (hμ : μ Set.univ = 1) {M : Model} {g : Nat → Nat → Nat} (h : M.WF g) {a : SampleArgs}
    (hci : a.class_index = none) (hN : 0 < a.count) (hT : a.temperature_sums ≠ 0) :
    Full (fun c => c = { initCtxD a with indices_out := c.indices_out } ∧ ∃ cls : Nat → Nat,
      DCtxOK c a.count 1 M.num_classes 1 (fun n _ => cls n) fun _ => 0) (M.pickClassR μ a (initCtxD a)) := by
  unfold pickClassR
  by_cases hC : 1 < M.num_classes
  · rw [if_pos hC, hci]
    dsimp only
    refine (Layer.sampleR_full hμ (root_WF h hC) hN (initCtxD_ok a) hT (cache := none) (e := fun _ _ _ _ => .fin 0) (Or.inl rfl)
      (fun _ _ _ _ _ _ _ _ => Fl.isFin_fin _)).mono fun c ⟨k1, idx, k2⟩ => ⟨k1, fun n => idx n 0, ?_⟩
    refine ⟨k2.ns, Is.is3 k2.io ?_, fun n hn d hd => k2.io_lt n hn 0 (by omega), k2.ir, k2.ir_lt⟩
    intro n hn d hd s hs
    have : d = 0 := by omega
    subst this; rfl
  · have h1 : M.num_classes = 1 := by have := h.classes_pos; omega
    rw [if_neg hC]
    refine Full.pure ⟨rfl, fun _ => 0, ?_⟩
    rw [h1]
    exact initCtxD_ok a

theorem pickRepR_full (hμ : μ Set.univ = 1) {M : Model} {g : Nat → Nat → Nat} (h : M.WF g) {ctx : DCtx} {N : Nat}
    (hT : ctx.temperature_sums ≠ 0) {cls : Nat → Nat}
    (hctx : DCtxOK ctx N 1 M.num_classes 1 (fun n _ => cls n) (fun _ => 0)) {cond : Bool} {cs : Caches}
    {e : Nat → Row} (hev : M.EvM cond N cs e) (he : M.FinRows N e) :
    Full (fun c => c = { ctx with indices_repetition := c.indices_repetition } ∧ ∃ rr,
      DCtxOK c N 1 M.num_classes M.num_repetitions (fun n _ => cls n) rr) (M.pickRepR μ cs.mixing ctx) := by
  unfold pickRepR
  by_cases hR : 1 < M.num_repetitions
  · obtain ⟨h1, h2, h3, h4, h5⟩ := h.mix hR
    obtain ⟨W, hW, hW'⟩ := mixD_exact h hR hctx hev he
    simp only [if_pos hR]
    unfold MixingLayer.sampleR
    rw [h1, h3, absSampleR_eq hctx.check hW, Rand.bind_assoc]
    refine Full.bind (drawNoise_full hμ _ _ _) fun ns hg => ?_
    rw [Rand.lift_bind_lift]
    refine Full.lift ?_
    have := pickRepD_is h hT hctx hev he (noise := ns) (fun _ => hg)
    unfold pickRepD MixingLayer.sampleD at this
    rw [if_pos hR, h1, h3] at this
    exact this.mono fun c ⟨k1, k2⟩ => ⟨k1, _, k2⟩
  · have h1 : M.num_repetitions = 1 := by have := h.reps_pos; omega
    rw [if_neg hR]
    refine Full.pure ⟨rfl, fun _ => 0, ?_⟩
    rw [h1]
    exact hctx

theorem corePathR_full (hμ : μ Set.univ = 1) {M : Model} {g : Nat → Nat → Nat} (h : M.WF g) {a : SampleArgs}
    (hci : a.class_index = none) (hN : 0 < a.count) (hT : a.temperature_sums ≠ 0) {cond : Bool} {cs : Caches}
    {e : Nat → Row} (hev : M.EvM cond a.count cs e) (he : M.FinRows a.count e) :
    Full (fun d => (∃ idx rr, DCtxOK d a.count M.numOut M.num_leaves M.num_repetitions idx rr) ∧
        d = { initCtxD a with indices_out := d.indices_out, indices_repetition := d.indices_repetition })
      (M.corePathR μ a cs) := by
  unfold corePathR
  refine Full.bind (pickClassR_full hμ h hci hN hT) fun d1 ⟨de1, cls, do1⟩ => ?_
  refine Full.bind (pickRepR_full hμ h (by rw [de1]; exact hT) do1 hev he) fun d2 ⟨de2, rr, do2⟩ => ?_
  refine (sampleLayersR_full hμ h.chain hN do2 (by rw [de2, de1]; exact hT) hev.layers he).mono
    fun d3 ⟨de3, idx, do3⟩ => ⟨⟨idx, rr, do3⟩, ?_⟩
  rw [de3, de2, de1]

theorem draws_full {B : BaseLeaf} {ctx : Ctx} (hp : ∀ c f i r, IsProbabilityMeasure (B.law ctx.temperature_leaves c f i r)) :
    Full (fun _ => True) (B.draws ctx) := by
  unfold BaseLeaf.draws
  split_ifs
  · exact Full.pure trivial
  · exact Full.drawAll fun i => Full.leaf (hp _ _ _ _).measure_univ fun x => Full.pure trivial

/-- Values of one component per row, with total probability one. -/
theorem sampleValuesR_mass (hμ : μ Set.univ = 1) {M : Model} {g : Nat → Nat → Nat} (h : M.Samplable g) {a : SampleArgs}
    (hci : a.class_index = none) (hN : 0 < a.count) (hT : a.temperature_sums ≠ 0)
    (hL : 0 < a.temperature_leaves) {cond : Bool} {cs : Caches} {e : Nat → Row} (hev : M.EvM cond a.count cs e)
    (he : M.FinRows a.count e) :
    Full (fun s => ∃ S : Nat → Nat → Nat → ℝ, s.Is3 a.count M.num_channels M.num_features fun n c f => .fin (S n c f))
      (M.sampleValuesR μ a cs) := by
  rw [sampleValuesR_eq]
  refine Full.bind (corePathR_full hμ h.wf hci hN hT hev he) fun d ⟨⟨idx, rr, hd⟩, hde⟩ => ?_
  obtain ⟨res, h2, h2'⟩ := leafD_sample_eq h.wf.front h.wf.reps_pos h.samp.samplable hN hd
  rw [h2]
  refine Full.bind (draws_full fun c f i r => ?_) fun v _ => Full.lift ((h2' v).mono fun t ht => ⟨_, ht⟩)
  rw [hde]
  exact h.samp.probD _ hL c f i r

end Model
end Einet
