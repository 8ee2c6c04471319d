import Verif.EinetLaw

/-!
# The density computed by the forward pass

`Model.density` is `exp(model(x)[0, k])` for a single row; the integral over missing entries is the value computed with
NaN in their place.
-/

open Classical MeasureTheory
open scoped ENNReal
noncomputable section
namespace Einet
open Tensor

/-- a leaf distribution whose `log_prob` is the logarithm of a probability density with respect to `ref`. -/
structure BaseLeaf.Proper (B : BaseLeaf) : Prop where
  sigmaFinite : ∀ f, SigmaFinite (B.ref f)
  measurable : ∀ c f i r, Measurable fun x : ℝ => toP (B.logProb c f i r (.fin x))
  integral : ∀ c, c < B.num_channels → ∀ f, f < B.num_features → ∀ i, i < B.num_leaves → ∀ r, r < B.num_repetitions →
    ∫⁻ x, toP (B.logProb c f i r (.fin x)) ∂B.ref f = 1
  isFin : ∀ c, c < B.num_channels → ∀ f, f < B.num_features → ∀ i, i < B.num_leaves → ∀ r, r < B.num_repetitions →
    ∀ x, B.valid f (.fin x) → (B.logProb c f i r (.fin x)).IsFin
  ae_valid : ∀ f, ∀ᵐ x ∂B.ref f, B.valid f (.fin x)
  valid_zero : ∀ f, B.valid f (.fin 0)

/-- complete data as a point of a product space. -/
abbrev Pt (C F : Nat) := Fin C → Fin F → ℝ

/-- a point as a data row. -/
def Pt.data {C F : Nat} (ω : Pt C F) : Data := fun c f =>
  if h : c < C ∧ f < F then .fin (ω ⟨c, h.1⟩ ⟨f, h.2⟩) else .fin 0

theorem Pt.data_eq {C F : Nat} (ω : Pt C F) {c f : Nat} (hc : c < C) (hf : f < F) :
    ω.data c f = .fin (ω ⟨c, hc⟩ ⟨f, hf⟩) := by simp [Pt.data, hc, hf]

/-- a batch with one row. -/
def rowTensor (C F : Nat) (X : Data) : Tensor Fl := ⟨[1, C, F], fun i => X (at' 1 i) (at' 2 i)⟩

theorem rowTensor_is (C F : Nat) (X : Data) : (rowTensor C F X).Is3 1 C F fun _ => X :=
  Is.intro rfl fun _ _ => rfl

/-- partially observed data: every entry is NaN or a finite number in the support. -/
def BaseLeaf.Observed (B : BaseLeaf) (X : Data) : Prop :=
  ∀ c, c < B.num_channels → ∀ f, f < B.num_features → X c f = .nan ∨ ∃ x : ℝ, X c f = .fin x ∧ B.valid f (.fin x)

theorem BaseLeaf.Observed.valid {B : BaseLeaf} (h0 : ∀ f, B.valid f (.fin 0)) {X : Data} (h : B.Observed X) : B.Valid X := by
  intro c hc f hf
  rcases h c hc f hf with e | ⟨x, e, hv⟩
  · rw [e]; exact h0 f
  · rw [e]; exact hv

/-- Lebesgue (or counting) measure in the missing entries, point mass in the observed ones: integrating against it
integrates out the missing entries. -/
def missing (C F : Nat) (ref : Nat → Measure ℝ) (X : Data) : Measure (Pt C F) :=
  Measure.pi fun c => Measure.pi fun f => if X c f = .nan then ref f else Measure.dirac (X c f).val

namespace Model

/-- `exp(model(x)[0, k])` for a batch with one row; an exception counts as 0. -/
def density (M : Model) (ms : Option Scopes) (k : Nat) (X : Data) : ℝ≥0∞ :=
  match M.forward (rowTensor M.num_channels M.num_features X) ms with
  | .ok t => toP (t.get [0, k])
  | .error _ => 0

theorem density_eq {M : Model} {g : Nat → Nat → Nat} (h : M.WF g) (hp : M.leaf.base.Proper) {X : Data}
    (hX : M.leaf.base.Observed X) {ms : Option Scopes} {sc : Option (List Nat)}
    (hs : Scopes.resolveOpt M.num_features ms = .ok sc) {k : Nat} (hk : k < M.num_classes) :
    M.density ms k X = toP (M.outRow sc X k) := by
  obtain ⟨t, ht, h1⟩ := forward_is h (rowTensor_is _ _ X) (fun _ _ => hX.valid hp.valid_zero) hs
  unfold density
  rw [ht]
  dsimp only
  rw [h1.get (by omega) hk]

/-- value of a leaf entry as a probability: 1 for a missing entry. -/
theorem entry_none {B : BaseLeaf} (hp : B.Proper) {c f i r : Nat} (hc : c < B.num_channels) (hf : f < B.num_features)
    (hi : i < B.num_leaves) (hr : r < B.num_repetitions) {X : Data} (hX : B.Observed X) :
    (B.entry none (X c f) c f i r).IsFin ∧ toP (B.entry none (X c f) c f i r) =
      ∫⁻ x, toP (B.logProb c f i r (.fin x)) ∂(if X c f = .nan then B.ref f else Measure.dirac (X c f).val) := by
  rcases hX c hc f hf with e | ⟨x, e, hv⟩
  · rw [e, if_pos rfl, hp.integral c hc f hf i hi r hr]
    simp [BaseLeaf.entry, Fl.isnan]
  · have hfin := hp.isFin c hc f hf i hi r hr x hv
    have e2 : B.entry none (.fin x) c f i r = B.logProb c f i r (.fin x) := by
      obtain ⟨v, hv⟩ := hfin
      simp [BaseLeaf.entry, Fl.isnan, hv]
    rw [e, e2, if_neg (by simp), lintegral_dirac' _ (hp.measurable c f i r)]
    exact ⟨hfin, rfl⟩

theorem observed_data {B : BaseLeaf} {C F : Nat} (hC : B.num_channels = C) (hF : B.num_features = F) {ω : Pt C F}
    (h : ∀ (c : Fin C) (f : Fin F), B.valid f (.fin (ω c f))) : B.Observed ω.data := by
  intro c hc f hf
  exact Or.inr ⟨_, ω.data_eq (by omega) (by omega), h ⟨c, by omega⟩ ⟨f, by omega⟩⟩

/-- **Missing entries are integrated out.** -/
theorem density_missing {M : Model} {g : Nat → Nat → Nat} (h : M.WF g) (hp : M.leaf.base.Proper) {X : Data}
    (hX : M.leaf.base.Observed X) {k : Nat} (hk : k < M.num_classes) :
    M.density none k X =
      ∫⁻ ω, M.density none k ω.data ∂(missing M.num_channels M.num_features M.leaf.base.ref X) := by
  have hC := h.front.channels; have hF := h.front.features; have hI := h.front.leaves; have hR := h.front.reps
  have := hp.sigmaFinite
  have hsf : ∀ c f, SigmaFinite (if X c f = .nan then M.leaf.base.ref f else Measure.dirac (X c f).val) := by
    intro c f; split_ifs <;> infer_instance
  have hae : ∀ᵐ ω ∂(missing M.num_channels M.num_features M.leaf.base.ref X), ∀ c (f : Fin M.num_features), M.leaf.base.valid f (.fin (ω c f)) := by
    unfold missing
    rw [ae_all_iff]; intro c
    rw [ae_all_iff]; intro f
    have hcf : ∀ᵐ x ∂(if X c f = .nan then M.leaf.base.ref f else Measure.dirac (X c f).val),
        M.leaf.base.valid f (.fin x) := by
      rcases hX c (by rw [hC]; exact c.2) f (by rw [hF]; exact f.2) with e | ⟨x, e, hv⟩
      · rw [if_pos e]; exact hp.ae_valid f
      · rw [e, if_neg (by simp), ae_dirac_eq]
        exact hv
    have h1 := (Measure.tendsto_eval_ae_ae (μ := fun f : Fin M.num_features =>
      if X c f = .nan then M.leaf.base.ref f else Measure.dirac (X c f).val) (i := f)).eventually hcf
    exact (Measure.tendsto_eval_ae_ae (μ := fun c : Fin M.num_channels => Measure.pi fun f : Fin M.num_features =>
      if X c f = .nan then M.leaf.base.ref f else Measure.dirac (X c f).val) (i := c)).eventually h1
  rw [density_eq h hp hX (ms := none) rfl hk]
  have e1 := (outRow_den h (b := true) (fun _ => rfl) (sc := none) (X := X) (fun c hc f hf i hi r hr =>
    (entry_none hp (by omega) (by omega) (by omega) (by omega) hX).1) hk).2
  rw [e1]
  set p : Pt M.num_channels M.num_features → Nat → Nat → Nat → Nat → ℝ≥0∞ := fun ω c f i r =>
    if hh : c < M.num_channels ∧ f < M.num_features then
      toP (M.leaf.base.logProb c f i r (.fin (ω ⟨c, hh.1⟩ ⟨f, hh.2⟩))) else 1 with hpdef
  have e2 : ∀ᵐ ω ∂(missing M.num_channels M.num_features M.leaf.base.ref X),
      M.density none k ω.data = M.outP g 1 (p ω) k := by
    filter_upwards [hae] with ω hω
    have ho : M.leaf.base.Observed ω.data := observed_data hC hF hω
    rw [density_eq h hp ho (ms := none) rfl hk, (outRow_den h (b := true) (fun _ => rfl) (sc := none) (X := ω.data)
      (fun c hc f hf i hi r hr => (entry_none hp (by omega) (by omega) (by omega) (by omega) ho).1) hk).2]
    unfold outP
    have hreg : ∀ o, o < M.numOut → ∀ i, i < M.num_leaves → ∀ r, r < M.num_repetitions →
        M.regionP g (fun c f i r => toP (M.leaf.base.entry none (ω.data c f) c f i r)) o i r = M.regionP g (p ω) o i r := by
      intro o _ i hi r hr
      unfold regionP
      refine Finset.prod_congr rfl fun f hf => ?_
      split_ifs
      · refine Finset.prod_congr rfl fun c hc => ?_
        simp only [Finset.mem_range] at hf hc
        dsimp only
        rw [(entry_none hp (by omega) (by omega) (by omega) (by omega) ho).2, Pt.data_eq ω hc hf, if_neg (by simp)]
        rw [lintegral_dirac' _ (hp.measurable c f i r), hpdef]
        simp [hc, hf]
      · rfl
    split_ifs with hR'
    · refine Finset.sum_congr rfl fun r hr => ?_
      rw [denL_congr h.chain (fun d hd i hi => hreg d hd i hi r (by simpa using hr)) (by omega) hk]
    · exact denL_congr h.chain (fun d hd i hi => hreg d hd i hi 0 h.reps_pos) (by omega) hk
  rw [lintegral_congr_ae e2]
  symm
  refine outP_lintegral h one_ne_zero ?_ ?_ hk
  · intro c f i r
    rw [hpdef]
    dsimp only
    split_ifs with hh
    · exact (hp.measurable c f i r).comp ((measurable_pi_apply _).comp (measurable_pi_apply _))
    · exact measurable_const
  · intro r hr idx hidx
    have e3 : ∀ ω, (∏ f ∈ Finset.range M.num_features, ∏ c ∈ Finset.range M.num_channels, p ω c f (idx f) r) =
        ∏ c : Fin M.num_channels, ∏ f : Fin M.num_features,
          toP (M.leaf.base.logProb c f (idx f) r (.fin (ω c f))) := by
      intro ω
      rw [Finset.prod_comm, ← Fin.prod_univ_eq_prod_range
        (fun c => ∏ f ∈ Finset.range M.num_features, p ω c f (idx f) r)]
      refine Finset.prod_congr rfl fun c _ => ?_
      rw [← Fin.prod_univ_eq_prod_range (fun f => p ω c f (idx f) r)]
      refine Finset.prod_congr rfl fun f _ => ?_
      rw [hpdef]
      simp
    simp only [e3]
    have hmf : ∀ (c : Fin M.num_channels) (f : Fin M.num_features),
        Measurable fun x : ℝ => toP (M.leaf.base.logProb c f (idx f) r (.fin x)) := fun c f => hp.measurable _ _ _ _
    unfold missing
    rw [lintegral_pi_prod (f := fun (c : Fin M.num_channels) (y : Fin M.num_features → ℝ) =>
      ∏ f : Fin M.num_features, toP (M.leaf.base.logProb c f (idx f) r (.fin (y f)))) (fun c =>
        Finset.measurable_fun_prod _ fun f _ => (hmf c f).comp (measurable_pi_apply f))]
    rw [Finset.prod_comm, ← Fin.prod_univ_eq_prod_range (fun c => ∏ f ∈ Finset.range M.num_features,
      toP (M.leaf.base.entry none (X c f) c f (idx f) r))]
    refine Finset.prod_congr rfl fun c _ => ?_
    rw [lintegral_pi_prod (f := fun (f : Fin M.num_features) (x : ℝ) =>
      toP (M.leaf.base.logProb c f (idx f) r (.fin x))) (hmf c)]
    rw [← Fin.prod_univ_eq_prod_range (fun f => toP (M.leaf.base.entry none (X c f) c f (idx f) r))]
    refine Finset.prod_congr rfl fun f _ => ?_
    have := hidx f f.2
    rw [(entry_none hp (by rw [hC]; exact c.2) (by rw [hF]; exact f.2) (by omega) (by omega) hX).2]

/-- all entries missing: the result is `log 1 = 0`. -/
theorem outRow_all_nan {M : Model} {g : Nat → Nat → Nat} (h : M.WF g) {k : Nat} (hk : k < M.num_classes)
    {X : Data} (hX : ∀ c, c < M.num_channels → ∀ f, f < M.num_features → X c f = .nan) : M.outRow none X k = .fin 0 := by
  have he : ∀ c, c < M.num_channels → ∀ f, f < M.num_features → ∀ i r,
      M.leaf.base.entry none (X c f) c f i r = .fin 0 := by
    intro c hc f hf i r
    rw [hX c hc f hf]
    simp [BaseLeaf.entry, Fl.isnan]
  have := outRow_den h (b := true) (fun _ => rfl) (sc := none) (X := X) (fun c hc f hf i _ r _ => by
    rw [he c hc f hf]; exact Fl.isFin_fin _) hk
  refine toP_injective this.1.nn trivial (this.2.trans ?_)
  rw [toP_zero]
  have hreg : ∀ o i r, M.regionP g (fun c f i r => toP (M.leaf.base.entry none (X c f) c f i r)) o i r = 1 := by
    intro o i r
    unfold regionP
    refine Finset.prod_eq_one fun f hf => ?_
    split_ifs
    · refine Finset.prod_eq_one fun c hc => ?_
      dsimp only
      rw [he c (by simpa using hc) f (by simpa using hf), toP_zero]
    · rfl
  unfold outP
  split_ifs with hR
  · obtain ⟨h1, h2, h3, h4, h5⟩ := h.mix hR
    have hw := M.mixing.lwMix_fin (D := 1) (by rw [h4]; simp [MixingLayer.weightShape, h1]) h5 (by omega)
      one_ne_zero (d := 0) (by omega) (s := k) (by rw [h3]; exact hk)
    rw [← hw.2, h2]
    refine Finset.sum_congr rfl fun r hr => ?_
    rw [denL_one h.chain one_ne_zero (by simpa using hr) (fun d _ i _ => hreg d i r) (by omega) hk, mul_one]
  · exact denL_one h.chain one_ne_zero h.reps_pos (fun d _ i _ => hreg d i 0) (by omega) hk

/-- **The density integrates to one.** -/
theorem density_integral {M : Model} {g : Nat → Nat → Nat} (h : M.WF g) (hp : M.leaf.base.Proper) {k : Nat}
    (hk : k < M.num_classes) :
    ∫⁻ ω, M.density none k (Pt.data ω) ∂(Measure.pi fun _ : Fin M.num_channels => Measure.pi fun f : Fin M.num_features =>
      M.leaf.base.ref f) = 1 := by
  have ho : M.leaf.base.Observed fun _ _ => .nan := fun _ _ _ _ => Or.inl rfl
  have := density_missing h hp ho hk
  rw [density_eq h hp ho (ms := none) rfl hk, outRow_all_nan h hk fun _ _ _ _ => rfl, toP_zero] at this
  unfold missing at this
  simpa using this.symm

end Model
end Einet
