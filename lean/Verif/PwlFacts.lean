import Verif.Pwl
import Verif.PropsPiecewise
import Verif.PropsMax
import Verif.MvnFacts

/-!
# Einets with piecewise linear leaves: lemmas
-/

open Classical MeasureTheory
open scoped ENNReal
noncomputable section
namespace Einet
open Tensor

theorem interp_nonneg (xs ys : List ℝ) (x : ℝ) : 0 ≤ interp x xs ys := by rw [interp_eq]; exact le_max_right _ _

/-- the reported value of a component: its density where that is positive, `e^-300` elsewhere. -/
theorem plLogProb_val (xs ys : List ℝ) (x : ℝ) : (plLogProb xs ys x).IsFin ∧ toP (plLogProb xs ys x) =
    if 0 < interp x xs ys then ENNReal.ofReal (interp x xs ys) else ENNReal.ofReal (Real.exp (-300)) := by
  split_ifs with h
  · rw [Props.C36_logProb_partial h, toP_fin, Real.exp_log h]
    exact ⟨Fl.isFin_fin _, rfl⟩
  · have h0 : interp x xs ys = 0 := le_antisymm (not_lt.1 h) (interp_nonneg _ _ _)
    have : plLogProb xs ys x = .fin (-300) := by
      unfold plLogProb
      rw [h0]
      simp [Fl.log]
    rw [this, toP_fin]
    exact ⟨Fl.isFin_fin _, rfl⟩

namespace Model

theorem outP_mono (M : Model) (g : Nat → Nat → Nat) {T : ℝ} {p q : Nat → Nat → Nat → Nat → ℝ≥0∞}
    (h : ∀ c f i r, p c f i r ≤ q c f i r) (k : Nat) : M.outP g T p k ≤ M.outP g T q k := by
  have hreg : ∀ o i r, M.regionP g p o i r ≤ M.regionP g q o i r := by
    intro o i r
    unfold regionP
    refine Finset.prod_le_prod' fun f _ => ?_
    split_ifs
    · exact Finset.prod_le_prod' fun c _ => h _ _ _ _
    · exact le_rfl
  unfold outP
  split_ifs
  · exact Finset.sum_le_sum fun r _ => mul_le_mul_right (Props.denL_mono _ hreg _ _ _) _
  · exact Props.denL_mono _ hreg _ _ _

/-- value of a component at an entry: one if the entry is missing. -/
def valueAt (p : ℝ → ℝ≥0∞) (x : Fl) : ℝ≥0∞ := if x = .nan then 1 else p x.val

/-- every entry is NaN or finite. -/
def Known (M : Model) (X : Data) : Prop :=
  ∀ c, c < M.num_channels → ∀ f, f < M.num_features → X c f = .nan ∨ ∃ x : ℝ, X c f = .fin x

/-- components that integrate to one: the density with missing entries is the integral over these. -/
theorem outP_missing {M : Model} {g : Nat → Nat → Nat} (h : M.WF g) {p : Nat → Nat → Nat → Nat → ℝ → ℝ≥0∞}
    (hm : ∀ c f i r, Measurable (p c f i r)) {ref : Nat → Measure ℝ} [∀ f, SigmaFinite (ref f)]
    (hint : ∀ c, c < M.num_channels → ∀ f, f < M.num_features → ∀ i, i < M.num_leaves → ∀ r, r < M.num_repetitions →
      ∫⁻ x, p c f i r x ∂ref f = 1) (X : Data) {k : Nat} (hk : k < M.num_classes) :
    M.outP g 1 (fun c f i r => valueAt (p c f i r) (X c f)) k =
      ∫⁻ ω, M.outP g 1 (fun c f i r => valueAt (p c f i r) (Pt.data ω c f)) k ∂(missing M.num_channels M.num_features ref X) := by
  have hsf : ∀ c f, SigmaFinite (if X c f = .nan then ref f else Measure.dirac (X c f).val) := by
    intro c f; split_ifs <;> infer_instance
  have hval : ∀ c f i r (ω : Pt M.num_channels M.num_features), valueAt (p c f i r) (ω.data c f) =
      if hh : c < M.num_channels ∧ f < M.num_features then p c f i r (ω ⟨c, hh.1⟩ ⟨f, hh.2⟩) else p c f i r 0 := by
    intro c f i r ω
    unfold valueAt Pt.data
    split_ifs <;> simp_all [Fl.val]
  symm
  refine outP_lintegral h one_ne_zero ?_ ?_ hk
  · intro c f i r
    simp only [hval]
    split_ifs with hh
    · exact (hm c f i r).comp ((measurable_pi_apply _).comp (measurable_pi_apply _))
    · exact measurable_const
  · intro r hr idx hidx
    have e3 : ∀ ω : Pt M.num_channels M.num_features,
        (∏ f ∈ Finset.range M.num_features, ∏ c ∈ Finset.range M.num_channels, valueAt (p c f (idx f) r) (ω.data c f)) =
        ∏ c : Fin M.num_channels, ∏ f : Fin M.num_features, p c f (idx f) r (ω c f) := by
      intro ω
      rw [Finset.prod_comm, ← Fin.prod_univ_eq_prod_range
        (fun c => ∏ f ∈ Finset.range M.num_features, valueAt (p c f (idx f) r) (ω.data c f))]
      refine Finset.prod_congr rfl fun c _ => ?_
      rw [← Fin.prod_univ_eq_prod_range (fun f => valueAt (p c f (idx f) r) (ω.data c f))]
      refine Finset.prod_congr rfl fun f _ => ?_
      rw [hval]
      simp
    simp only [e3]
    unfold missing
    rw [lintegral_pi_prod (f := fun (c : Fin M.num_channels) (y : Fin M.num_features → ℝ) =>
      ∏ f : Fin M.num_features, p c f (idx f) r (y f)) (fun c =>
        Finset.measurable_fun_prod _ fun f _ => (hm _ _ _ _).comp (measurable_pi_apply f))]
    rw [Finset.prod_comm, ← Fin.prod_univ_eq_prod_range (fun c => ∏ f ∈ Finset.range M.num_features,
      valueAt (p c f (idx f) r) (X c f))]
    refine Finset.prod_congr rfl fun c _ => ?_
    rw [lintegral_pi_prod (f := fun (f : Fin M.num_features) (x : ℝ) => p c f (idx f) r x) (fun f => hm _ _ _ _)]
    rw [← Fin.prod_univ_eq_prod_range (fun f => valueAt (p c f (idx f) r) (X c f))]
    refine Finset.prod_congr rfl fun f _ => ?_
    unfold valueAt
    split_ifs with hn
    · exact hint c c.2 f f.2 _ (hidx f f.2) r hr
    · rw [lintegral_dirac' _ (hm _ _ _ _)]

end Model

namespace PwlEinet

/-- the network is well formed. -/
def WF (E : PwlEinet) (g : Nat → Nat → Nat) : Prop := E.net.WF g

theorem same {E : PwlEinet} {g : Nat → Nat → Nat} (h : E.WF g) (T : PwlTable) : (pwlLeaf E.dims T).SameDims E.net.leaf.base :=
  ⟨h.front.features.symm, h.front.channels.symm, h.front.leaves.symm, h.front.reps.symm⟩

theorem model_WF {E : PwlEinet} {g : Nat → Nat → Nat} (h : E.WF g) (T : PwlTable) :
    (E.net.withBase (pwlLeaf E.dims T)).WF g := Model.withBase_WF (same h T) h

theorem forward_eq {E : PwlEinet} {T : PwlTable} (hs : E.state = some T) {x : Tensor Fl} {N : Nat} {X : Nat → Data}
    (hx : x.Is3 N E.net.num_channels E.net.num_features X) (ms : Option Scopes) :
    E.forward x ms = (E.net.withBase (pwlLeaf E.dims T)).forward x ms := by
  unfold forward model
  rw [Model.prepInput_is hx, hs]
  rfl

/-- the stored functions are densities. -/
def Good (E : PwlEinet) (T : PwlTable) : Prop :=
  ∀ c, c < E.net.num_channels → ∀ f, f < E.net.num_features → ∀ i, i < E.net.num_leaves → ∀ r, r < E.net.num_repetitions →
    ∃ xs ys, T.fn c f i r = some (xs, ys) ∧ Props.IsPLDensity xs ys (fun x => interp x xs ys)

/-- density of a stored function. -/
def comp (T : PwlTable) (c f i r : Nat) (x : ℝ) : ℝ≥0∞ :=
  (T.fn c f i r).elim 1 fun p => ENNReal.ofReal (interp x p.1 p.2)

/-- the value reported for a stored function. -/
def rep (T : PwlTable) (c f i r : Nat) (x : ℝ) : ℝ≥0∞ :=
  (T.fn c f i r).elim 1 fun p =>
    if 0 < interp x p.1 p.2 then ENNReal.ofReal (interp x p.1 p.2) else ENNReal.ofReal (Real.exp (-300))

theorem entry_val {E : PwlEinet} {T : PwlTable} {c f i r : Nat} {x : Fl} (hx : x = .nan ∨ ∃ v : ℝ, x = .fin v) :
    ((pwlLeaf E.dims T).entry none x c f i r).IsFin ∧
      toP ((pwlLeaf E.dims T).entry none x c f i r) = Model.valueAt (rep T c f i r) x := by
  rcases hx with rfl | ⟨v, rfl⟩
  · simp [BaseLeaf.entry, Fl.isnan, Model.valueAt]
  · unfold BaseLeaf.entry Model.valueAt rep
    cases hf : T.fn c f i r with
    | none => simp [pwlLeaf, hf, pwlLogProb, Fl.isnan]
    | some p =>
      obtain ⟨xs, ys⟩ := p
      obtain ⟨⟨w, hw⟩, h2⟩ := plLogProb_val xs ys v
      have e : (pwlLeaf E.dims T).logProb c f i r (.fin v) = plLogProb xs ys v := by simp [pwlLeaf, hf, pwlLogProb]
      have hn : (plLogProb xs ys v).isnan = false := by rw [hw]; rfl
      rw [e]
      have hv : (Fl.fin v).isnan = false := rfl
      simp only [hn, hv, Bool.false_eq_true, if_false]
      refine ⟨⟨w, hw⟩, ?_⟩
      rw [if_neg (by simp)]
      exact h2

/-- The density in terms of the reported values; the result is finite. -/
theorem density_eq {E : PwlEinet} {g : Nat → Nat → Nat} (h : E.WF g) {T : PwlTable} (hs : E.state = some T) {X : Data}
    (hX : E.net.Known X) {k : Nat} (hk : k < E.net.num_classes) :
    (∃ v : ℝ, ∃ t, E.forward (rowTensor E.net.num_channels E.net.num_features X) = .ok t ∧ t.get [0, k] = .fin v) ∧
    E.density k X = E.net.outP g 1 (fun c f i r => Model.valueAt (rep T c f i r) (X c f)) k := by
  have hw := model_WF h T
  obtain ⟨t, ht, h1⟩ := Model.forward_is hw (rowTensor_is E.net.num_channels E.net.num_features X)
    (fun _ _ => by rw [Model.withBase_base]; exact fun _ _ _ _ => trivial) (ms := none) (sc := none) rfl
  have h2 := Model.outRow_den hw (b := true) (fun _ => rfl) (sc := none) (X := X) (fun c hc f hf i hi r hr => by
    rw [Model.withBase_base]; exact (entry_val (E := E) (T := T) (hX c hc f hf)).1) hk
  have e : E.forward (rowTensor E.net.num_channels E.net.num_features X) = .ok t := by
    rw [forward_eq hs (rowTensor_is _ _ X)]; exact ht
  refine ⟨?_, ?_⟩
  · obtain ⟨v, hv⟩ := h2.1
    exact ⟨v, t, e, by rw [h1.get (by omega) hk]; exact hv⟩
  · unfold density
    rw [e]
    dsimp only
    rw [h1.get (by omega) hk, h2.2, Model.withBase_outP (same h T), Model.withBase_base]
    exact Model.outP_congr h (fun c hc f hf i hi r hr => (entry_val (hX c hc f hf)).2) hk

end PwlEinet
end Einet
