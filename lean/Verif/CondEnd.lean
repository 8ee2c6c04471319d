import Verif.CondFwd

/-!
# Einets with `ConditionalBinomial` leaves: density
-/

open Classical MeasureTheory
open scoped ENNReal
noncomputable section
namespace Einet
open Tensor

/-! ### Splitting integrals over products -/

theorem measurePreserving_mix {ι : Type} [Fintype ι] {α : Type} [MeasurableSpace α] {μ ν ρ : ι → Measure α}
    [∀ i, SigmaFinite (μ i)] [∀ i, SigmaFinite (ν i)] [∀ i, SigmaFinite (ρ i)] {t : ι → α × α → α}
    (ht : ∀ i, MeasurePreserving (t i) ((μ i).prod (ν i)) (ρ i)) :
    MeasurePreserving (fun p : (ι → α) × (ι → α) => fun i => t i (p.1 i, p.2 i)) ((Measure.pi μ).prod (Measure.pi ν))
      (Measure.pi ρ) :=
  (measurePreserving_pi _ _ ht).comp
    (MeasurePreserving.symm (MeasurableEquiv.arrowProdEquivProdArrow α α ι) (measurePreserving_arrowProdEquivProdArrow α α ι μ ν))

/-- entries of the first point in the features of `H`, of the second one elsewhere. -/
def Pt.mix {C F : Nat} (H : Set Nat) (a b : Pt C F) : Pt C F := fun c f => if (f : Nat) ∈ H then a c f else b c f

/-- reference measure of the features of `H`, point mass for the others. -/
def partRef (ref : Nat → Measure ℝ) (H : Set Nat) (f : Nat) : Measure ℝ := if f ∈ H then ref f else Measure.dirac 0

instance {ref : Nat → Measure ℝ} [∀ f, SigmaFinite (ref f)] (H : Set Nat) (f : Nat) : SigmaFinite (partRef ref H f) := by
  unfold partRef; split_ifs <;> infer_instance

/-- reference measure in the features of `H`, point mass elsewhere. -/
def onPart (C F : Nat) (ref : Nat → Measure ℝ) (H : Set Nat) : Measure (Pt C F) :=
  Measure.pi fun _ => Measure.pi fun f : Fin F => partRef ref H f

instance {C F : Nat} {ref : Nat → Measure ℝ} [∀ f, SigmaFinite (ref f)] (H : Set Nat) : SigmaFinite (onPart C F ref H) := by
  unfold onPart; infer_instance

/-- reference measure in all features. -/
def onAll (C F : Nat) (ref : Nat → Measure ℝ) : Measure (Pt C F) := Measure.pi fun _ => Measure.pi fun f : Fin F => ref f

/-- the row with the features of `H` missing. -/
def Pt.without {C F : Nat} (H : Set Nat) (b : Pt C F) : Data := fun c f => if f ∈ H then .nan else b.data c f

theorem measurePreserving_Ptmix (C F : Nat) {ref : Nat → Measure ℝ} [∀ f, SigmaFinite (ref f)] (H : Set Nat) :
    MeasurePreserving (fun p : Pt C F × Pt C F => Pt.mix H p.1 p.2)
      ((onPart C F ref H).prod (onPart C F ref Hᶜ)) (onAll C F ref) := by
  have h1 : MeasurePreserving (fun p : (Fin F → ℝ) × (Fin F → ℝ) => fun f : Fin F => if (f : Nat) ∈ H then p.1 f else p.2 f)
      ((Measure.pi fun f : Fin F => partRef ref H f).prod (Measure.pi fun f : Fin F => partRef ref Hᶜ f))
      (Measure.pi fun f : Fin F => ref f) := by
    refine measurePreserving_mix (ι := Fin F) (t := fun f p => if (f : Nat) ∈ H then p.1 else p.2) fun f => ?_
    by_cases hf : (f : Nat) ∈ H
    · simp only [partRef, hf, if_true, Set.mem_compl_iff, not_true_eq_false, if_false]
      exact measurePreserving_fst
    · simp only [partRef, hf, if_false, Set.mem_compl_iff, not_false_eq_true, if_true]
      exact measurePreserving_snd
  exact measurePreserving_mix (ι := Fin C) (α := Fin F → ℝ) (t := fun _ p => fun f : Fin F => if (f : Nat) ∈ H then p.1 f else p.2 f)
    fun _ => h1

theorem measurePreserving_without (C F : Nat) {ref : Nat → Measure ℝ} [∀ f, SigmaFinite (ref f)] (H : Set Nat) (b : Pt C F) :
    MeasurePreserving (fun a : Pt C F => Pt.mix H a b) (onPart C F ref H) (missing C F ref (Pt.without H b)) := by
  have hs2 : ∀ (c : Fin C) (f : Fin F), SigmaFinite (if Pt.without H b c f = .nan then ref f else Measure.dirac (Pt.without H b c f).val) := by
    intro c f; split_ifs <;> infer_instance
  refine measurePreserving_pi _ _ (f := fun c (a : Fin F → ℝ) => fun f : Fin F => if (f : Nat) ∈ H then a f else b c f) fun c => ?_
  refine measurePreserving_pi _ _ (f := fun (f : Fin F) (x : ℝ) => if (f : Nat) ∈ H then x else b c f) fun f => ?_
  by_cases hf : (f : Nat) ∈ H
  · simp only [partRef, hf, if_true, Pt.without]
    exact MeasurePreserving.id _
  · have e : Pt.without H b c f = .fin (b c f) := by
      unfold Pt.without
      rw [if_neg hf, Pt.data_eq b c.2 f.2]
    simp only [partRef, hf, if_false, e]
    refine ⟨measurable_const, ?_⟩
    simp [Fl.val]

/-- integrating the features of `H` first. -/
theorem lintegral_split (C F : Nat) {ref : Nat → Measure ℝ} [∀ f, SigmaFinite (ref f)] (H : Set Nat) {u : Pt C F → ℝ≥0∞}
    (hu : Measurable u) : ∫⁻ ω, u ω ∂onAll C F ref =
      ∫⁻ b, ∫⁻ ω, u ω ∂missing C F ref (Pt.without H b) ∂onPart C F ref Hᶜ := by
  have hm := measurePreserving_Ptmix C F (ref := ref) H
  rw [← hm.lintegral_comp hu]
  refine (lintegral_prod_symm' (fun p : Pt C F × Pt C F => u (Pt.mix H p.1 p.2)) (hu.comp hm.measurable)).trans ?_
  refine lintegral_congr fun b => ?_
  exact (measurePreserving_without C F H b).lintegral_comp hu

/-! ### Counts -/

/-- counting measure on `0 .. n`. -/
def countRef (n : Nat) (_ : Nat) : Measure ℝ := ∑ k ∈ Finset.range (n + 1), Measure.dirac (k : ℝ)

instance (n f : Nat) : SigmaFinite (countRef n f) := by unfold countRef; infer_instance

theorem countRef_ae (n f : Nat) : ∀ᵐ (x : ℝ) ∂countRef n f, ∃ k : Nat, k < n + 1 ∧ x = (k : ℝ) :=
  by
  have := (binomialLeaf_proper ⟨1, 1, 1, 1⟩ n fun _ _ _ _ => 0).ae_valid f
  filter_upwards [this] with x hx
  obtain ⟨k, hk, e⟩ := hx
  exact ⟨k, hk, Fl.fin.inj e⟩

/-- rounding down every entry. -/
def Pt.floor {C F : Nat} (ω : Pt C F) : Pt C F := fun c f => (⌊ω c f⌋ : ℝ)

theorem measurable_comp_floor {C F : Nat} (v : Pt C F → ℝ≥0∞) : Measurable fun ω => v (Pt.floor ω) := by
  have h1 : Measurable fun (ω : Pt C F) => (fun c f => ⌊ω c f⌋ : Fin C → Fin F → ℤ) :=
    measurable_pi_iff.2 fun c => measurable_pi_iff.2 fun f =>
      Int.measurable_floor.comp ((measurable_pi_apply f).comp (measurable_pi_apply c))
  have h2 : Measurable fun (z : Fin C → Fin F → ℤ) => v fun c f => (z c f : ℝ) := Measurable.of_discrete
  exact h2.comp h1

/-- almost every point has the observed entries of `X` and counts elsewhere. -/
theorem missing_ae (C F n : Nat) (X : Data) (hX : ∀ c, c < C → ∀ f, f < F → X c f = .nan ∨ ∃ k : Nat, k < n + 1 ∧ X c f = .fin (k : ℝ)) :
    ∀ᵐ ω ∂missing C F (countRef n) X, ∀ (c : Fin C) (f : Fin F), (∃ k : Nat, k < n + 1 ∧ ω c f = (k : ℝ)) ∧ (X c f ≠ .nan → X c f = .fin (ω c f)) := by
  have hsf : ∀ (c : Fin C) (f : Fin F), SigmaFinite (if X c f = .nan then countRef n f else Measure.dirac (X c f).val) := by
    intro c f; split_ifs <;> infer_instance
  unfold missing
  rw [ae_all_iff]; intro c
  rw [ae_all_iff]; intro f
  have hcf : ∀ᵐ (x : ℝ) ∂(if X c f = .nan then countRef n f else Measure.dirac (X c f).val),
      (∃ k : Nat, k < n + 1 ∧ x = (k : ℝ)) ∧ (X c f ≠ .nan → X c f = .fin x) := by
    rcases hX c c.2 f f.2 with e | ⟨k, hk, e⟩
    · rw [if_pos e]
      filter_upwards [countRef_ae n f] with x hx
      exact ⟨hx, fun h => absurd e h⟩
    · rw [e, if_neg (by simp), ae_dirac_eq]
      exact ⟨⟨k, hk, rfl⟩, fun _ => rfl⟩
  have h1 := (Measure.tendsto_eval_ae_ae (μ := fun f : Fin F =>
    if X c f = .nan then countRef n f else Measure.dirac (X c f).val) (i := f)).eventually hcf
  exact (Measure.tendsto_eval_ae_ae (μ := fun c : Fin C => Measure.pi fun f : Fin F =>
    if X c f = .nan then countRef n f else Measure.dirac (X c f).val) (i := c)).eventually h1

theorem onAll_eq (C F : Nat) (ref : Nat → Measure ℝ) : onAll C F ref = missing C F ref fun _ _ => .nan := by
  unfold onAll missing
  simp

theorem onPart_ae (C F n : Nat) (H : Set Nat) :
    ∀ᵐ ω ∂onPart C F (countRef n) H, ∀ (c : Fin C) (f : Fin F), ∃ k : Nat, k < n + 1 ∧ ω c f = (k : ℝ) := by
  unfold onPart
  rw [ae_all_iff]; intro c
  rw [ae_all_iff]; intro f
  have hcf : ∀ᵐ (x : ℝ) ∂partRef (countRef n) H f, ∃ k : Nat, k < n + 1 ∧ x = (k : ℝ) := by
    unfold partRef
    split_ifs
    · exact countRef_ae n f
    · rw [ae_dirac_eq]
      exact ⟨0, by omega, by simp⟩
  have h1 := (Measure.tendsto_eval_ae_ae (μ := fun f : Fin F => partRef (countRef n) H f) (i := f)).eventually hcf
  exact (Measure.tendsto_eval_ae_ae (μ := fun _ : Fin C => Measure.pi fun f : Fin F => partRef (countRef n) H f)
    (i := c)).eventually h1

theorem floor_count {C F n : Nat} {ω : Pt C F} (h : ∀ c f, ∃ k : Nat, k < n + 1 ∧ ω c f = (k : ℝ)) : Pt.floor ω = ω := by
  funext c f
  obtain ⟨k, -, e⟩ := h c f
  simp [Pt.floor, e]

/-- integrating the features of `H` first, for any function of counts. -/
theorem lintegral_split_counts (C F n : Nat) (H : Set Nat) (v : Pt C F → ℝ≥0∞) : ∫⁻ ω, v ω ∂onAll C F (countRef n) =
    ∫⁻ b, ∫⁻ ω, v ω ∂missing C F (countRef n) (Pt.without H b) ∂onPart C F (countRef n) Hᶜ := by
  have e1 : ∫⁻ ω, v ω ∂onAll C F (countRef n) = ∫⁻ ω, v (Pt.floor ω) ∂onAll C F (countRef n) := by
    rw [onAll_eq]
    refine lintegral_congr_ae ?_
    filter_upwards [missing_ae C F n (fun _ _ => .nan) fun _ _ _ _ => Or.inl rfl] with ω hω
    rw [floor_count fun c f => (hω c f).1]
  rw [e1, lintegral_split C F H (measurable_comp_floor v)]
  refine lintegral_congr_ae ?_
  filter_upwards [onPart_ae C F n Hᶜ] with b hb
  have hw : ∀ c, c < C → ∀ f, f < F → Pt.without H b c f = .nan ∨ ∃ k : Nat, k < n + 1 ∧ Pt.without H b c f = .fin (k : ℝ) := by
    intro c hc f hf
    unfold Pt.without
    split_ifs
    · exact Or.inl rfl
    · obtain ⟨k, hk, e⟩ := hb ⟨c, hc⟩ ⟨f, hf⟩
      exact Or.inr ⟨k, hk, by rw [Pt.data_eq b hc hf, e]⟩
  refine lintegral_congr_ae ?_
  filter_upwards [missing_ae C F n _ hw] with ω hω
  rw [floor_count fun c f => (hω c f).1]

namespace CondEinet

/-- an einet with `ConditionalBinomial` leaves of fitting sizes. -/
structure WF (E : CondEinet) (grp : Nat → Nat → Nat) (g : (Nat → Nat → Nat → Fl) → Nat → ℝ) (l : List Nat) : Prop where
  net : E.net.WF grp
  features : E.leaf.num_features = E.net.num_features
  channels : E.leaf.num_channels = E.net.num_channels
  leaves : E.leaf.num_leaves = E.net.num_leaves
  reps : E.leaf.num_repetitions = E.net.num_repetitions
  ok : E.leaf.OK g l

/-- the einet with binomial leaves whose logits are those of the row `Y`. -/
def atRow (E : CondEinet) (g : (Nat → Nat → Nat → Fl) → Nat → ℝ) (l : List Nat) (Y : Data) : Model :=
  E.net.withBase (E.leaf.leafAt g l Y)

variable {E : CondEinet} {grp : Nat → Nat → Nat} {g : (Nat → Nat → Nat → Fl) → Nat → ℝ} {l : List Nat}

theorem WF.same (h : E.WF grp g l) (Y : Data) : (E.leaf.leafAt g l Y).SameDims E.net.leaf.base := by
  have hf := h.net.front
  exact ⟨h.features.trans hf.features.symm, h.channels.trans hf.channels.symm, h.leaves.trans hf.leaves.symm,
    h.reps.trans hf.reps.symm⟩

theorem WF.row (h : E.WF grp g l) (Y : Data) : (E.atRow g l Y).WF grp := Model.withBase_WF (h.same Y) h.net

theorem atRow_base (Y : Data) : (E.atRow g l Y).leaf.base = E.leaf.leafAt g l Y := Model.withBase_base _ _

theorem atRow_proper (Y : Data) : (E.atRow g l Y).leaf.base.Proper := by
  rw [atRow_base]; exact binomialLeaf_proper _ _ _

theorem atRow_ref (Y : Data) : (E.atRow g l Y).leaf.base.ref = countRef E.leaf.total_count := by
  rw [atRow_base]; rfl

/-- `exp(model(x)[0, k])` for a batch with one row; an exception counts as 0. -/
def density (E : CondEinet) (ms : Option Scopes) (k : Nat) (X : Data) : ℝ≥0∞ :=
  match E.forward (rowTensor E.net.num_channels E.net.num_features X) ms with
  | .ok t => toP (t.get [0, k])
  | .error _ => 0

/-- the logits depend on the conditioning features only. -/
theorem theta_congr (h : E.WF grp g l) {X Y : Data} (hX : ∀ c, c < E.net.num_channels → ∀ f ∈ l, (X c f).IsFin)
    (hY : ∀ c, c < E.net.num_channels → ∀ f ∈ l, X c f = Y c f) {c f i r : Nat} (hc : c < E.net.num_channels)
    (hi : i < E.net.num_leaves) (hr : r < E.net.num_repetitions) : E.leaf.theta g l X c f i r = E.leaf.theta g l Y c f i r := by
  by_cases hf : f < E.leaf.num_features / 2
  · have hmem : ∀ a, a < CondLeaf.side l → ∀ b, b < CondLeaf.side l → l.getD (a * CondLeaf.side l + b) 0 ∈ l := by
      intro a ha b hb
      have : a * CondLeaf.side l + b < CondLeaf.side l * CondLeaf.side l := by
        calc a * CondLeaf.side l + b < a * CondLeaf.side l + CondLeaf.side l := by omega
          _ = (a + 1) * CondLeaf.side l := by ring
          _ ≤ CondLeaf.side l * CondLeaf.side l := Nat.mul_le_mul_right _ ha
      rw [h.ok.square] at this
      rw [List.getD_eq_getElem _ _ this]
      exact List.getElem_mem this
    rw [CondLeaf.theta_lt hf, CondLeaf.theta_lt hf]
    congr 1
    refine h.ok.fn.congr (fun c hc a ha b hb => ?_) (fun c hc a ha b hb => ?_) ?_
    · exact hX c (by rw [← h.channels]; exact hc) _ (hmem a ha b hb)
    · exact hY c (by rw [← h.channels]; exact hc) _ (hmem a ha b hb)
    · have hk : clip l.length f < l.length := by
        rcases h.ok.len with e | e
        · rw [e, clip_of_lt hf]; exact hf
        · simp [e, clip]
      rw [← h.channels] at hc
      rw [← h.leaves] at hi
      rw [← h.reps] at hr
      have := flat_lt (s := [E.leaf.num_channels, E.leaf.num_leaves, E.leaf.num_repetitions, l.length])
        (i := [c, i, r, clip l.length f]) ⟨hc, hi, hr, hk, trivial⟩
      simp only [flat, numelS, mul_one] at this
      unfold CondLeaf.outs
      calc _ = c * (E.leaf.num_leaves * (E.leaf.num_repetitions * l.length)) + (i * (E.leaf.num_repetitions * l.length) +
            (r * l.length + (clip l.length f + 0))) := by ring
        _ < _ := this
        _ = _ := by ring
  · rw [CondLeaf.theta_ge hf, CondLeaf.theta_ge hf]

theorem entry_congr (h : E.WF grp g l) {X Y : Data} (hX : ∀ c, c < E.net.num_channels → ∀ f ∈ l, (X c f).IsFin)
    (hY : ∀ c, c < E.net.num_channels → ∀ f ∈ l, X c f = Y c f) {c f i r : Nat} (hc : c < E.net.num_channels)
    (hi : i < E.net.num_leaves) (hr : r < E.net.num_repetitions) (sc : Option (List Nat)) (v : Fl) :
    (E.leaf.leafAt g l X).entry sc v c f i r = (E.leaf.leafAt g l Y).entry sc v c f i r := by
  have e : (E.leaf.leafAt g l X).logProb c f i r v = (E.leaf.leafAt g l Y).logProb c f i r v := by
    show Fl.log (.fin (binomialPmf _ (Real.sigmoid (E.leaf.theta g l X c f i r)) _)) =
      Fl.log (.fin (binomialPmf _ (Real.sigmoid (E.leaf.theta g l Y c f i r)) _))
    rw [theta_congr h hX hY hc hi hr]
  unfold BaseLeaf.entry
  rw [e]

theorem counts_fin (h : E.WF grp g l) {X : Data} (hX : E.leaf.Counts X) : ∀ c, c < E.net.num_channels → ∀ f ∈ l, (X c f).IsFin := by
  intro c hc f hf
  obtain ⟨k, -, e⟩ := hX c (by rw [h.channels]; exact hc) f (resolve_lt h.ok.resolve f hf)
  exact ⟨_, e⟩

/-- a batch whose rows have the same logits. -/
theorem run_is (h : E.WF grp g l) {x : Tensor Fl} {N : Nat} (hN : 0 < N) {X : Nat → Data} {Y : Data}
    (hx : x.Is3 N E.net.num_channels E.net.num_features X) (hX : ∀ n, n < N → E.leaf.Counts (X n))
    (hY : ∀ n, n < N → ∀ c, c < E.net.num_channels → ∀ f ∈ l, X n c f = Y c f)
    {ms : Option Scopes} {sc : Option (List Nat)} (hsc : Scopes.resolveOpt E.net.num_features ms = .ok sc) :
    Res.Sat (E.run x ms) fun y => y.1.Is2 N E.net.num_classes (fun n => (E.atRow g l Y).outRow sc (X n)) ∧
      (E.atRow g l Y).CachesOK N y.2 fun n => (E.atRow g l Y).frontRow sc (X n) := by
  unfold run
  rw [Model.prepInput_is hx]
  simp only [Res.ok_bind]
  have hx' : x.Is3 N E.leaf.num_channels E.leaf.num_features X := by rw [h.channels, h.features]; exact hx
  have := CondLeaf.forward_is h.ok hN hx' hX (ms := ms) (sc := sc) (by rw [h.features]; exact hsc)
  rw [h.channels, h.features, h.leaves, h.reps] at this
  refine this.bind fun y hy => ?_
  refine Model.withBase_upper_entry (h.same Y) h.net (hy.congr ((AllIdx_iff _ _).2 fun j hj => ?_))
  match j, hj with
  | [n, c, f, i, r], ⟨hn, hc, hf, hi, hr, _⟩ => exact entry_congr h (counts_fin h (hX n hn)) (hY n hn) hc hi hr _ _

/-- **The density of a row** is that of the einet with the logits of that row. -/
theorem density_eq (h : E.WF grp g l) {X : Data} (hX : E.leaf.Counts X) {ms : Option Scopes} {sc : Option (List Nat)}
    (hs : Scopes.resolveOpt E.net.num_features ms = .ok sc) {k : Nat} (hk : k < E.net.num_classes) :
    E.density ms k X = (E.atRow g l X).density ms k X := by
  have ho : (E.atRow g l X).leaf.base.Observed X := by rw [atRow_base]; exact hX.observed X
  rw [Model.density_eq (h.row X) (atRow_proper X) ho hs hk]
  obtain ⟨t, ht, h1, -⟩ := run_is h one_pos (rowTensor_is _ _ X) (fun _ _ => hX) (fun _ _ _ _ _ _ => rfl) hs
  unfold density forward
  rw [ht]
  show toP (t.1.get [0, k]) = _
  rw [h1.get (by omega) hk]

/-- densities with different logits and masks agree when the leaf values agree. -/
theorem atRow_congr (h : E.WF grp g l) {X X' Y Y' : Data} {ms ms' : Option Scopes} {sc sc' : Option (List Nat)}
    (ho : (E.leaf.leafAt g l Y).Observed X) (ho' : (E.leaf.leafAt g l Y').Observed X')
    (hs : Scopes.resolveOpt E.net.num_features ms = .ok sc) (hs' : Scopes.resolveOpt E.net.num_features ms' = .ok sc')
    (hf : ∀ c, c < E.net.num_channels → ∀ f, f < E.net.num_features → ∀ i, i < E.net.num_leaves → ∀ r, r < E.net.num_repetitions →
      ((E.leaf.leafAt g l Y).entry sc (X c f) c f i r).IsFin)
    (he : ∀ c, c < E.net.num_channels → ∀ f, f < E.net.num_features → ∀ i, i < E.net.num_leaves → ∀ r, r < E.net.num_repetitions →
      (E.leaf.leafAt g l Y).entry sc (X c f) c f i r = (E.leaf.leafAt g l Y').entry sc' (X' c f) c f i r)
    {k : Nat} (hk : k < E.net.num_classes) : (E.atRow g l Y).density ms k X = (E.atRow g l Y').density ms' k X' := by
  rw [Model.density_eq (h.row Y) (atRow_proper Y) (by rw [atRow_base]; exact ho) hs hk,
    Model.density_eq (h.row Y') (atRow_proper Y') (by rw [atRow_base]; exact ho') hs' hk]
  have h1 := (Model.outRow_den (h.row Y) (b := true) (fun _ => rfl) (sc := sc) (X := X)
    (fun c hc f hf' i hi r hr => by rw [atRow_base]; exact hf c hc f hf' i hi r hr) (s := k) hk).2
  have h2 := (Model.outRow_den (h.row Y') (b := true) (fun _ => rfl) (sc := sc') (X := X')
    (fun c hc f hf' i hi r hr => by rw [atRow_base, ← he c hc f hf' i hi r hr]; exact hf c hc f hf' i hi r hr) (s := k) hk).2
  rw [h1, h2, atRow, atRow, Model.withBase_outP (h.same Y), Model.withBase_outP (h.same Y'), Model.withBase_base, Model.withBase_base]
  refine Model.outP_congr h.net (fun c hc f hf' i hi r hr => ?_) hk
  rw [he c hc f hf' i hi r hr]

/-- the row with the features of `H` missing. -/
def hideSet (H : Set Nat) (X : Data) : Data := fun c f => if f ∈ H then .nan else X c f

theorem counts_data (h : E.WF grp g l) {ω : Pt E.net.num_channels E.net.num_features}
    (hω : ∀ c f, ∃ k : Nat, k < E.leaf.total_count + 1 ∧ ω c f = (k : ℝ)) : E.leaf.Counts ω.data := by
  intro c hc f hf
  rw [h.channels] at hc
  rw [h.features] at hf
  obtain ⟨k, hk, e⟩ := hω ⟨c, hc⟩ ⟨f, hf⟩
  exact ⟨k, hk, by rw [Pt.data_eq ω hc hf, e]⟩

theorem observed_hide {X Y : Data} (hX : E.leaf.Counts X) (H : Set Nat) : (E.leaf.leafAt g l Y).Observed (hideSet H X) := by
  intro c hc f hf
  unfold hideSet
  split_ifs
  · exact Or.inl rfl
  · exact hX.observed Y c hc f hf

theorem entry_fin (h : E.WF grp g l) {X Y : Data} (hX : (E.leaf.leafAt g l Y).Observed X) {c f i r : Nat}
    (hc : c < E.net.num_channels) (hf : f < E.net.num_features) (hi : i < E.net.num_leaves) (hr : r < E.net.num_repetitions) :
    ((E.leaf.leafAt g l Y).entry none (X c f) c f i r).IsFin := by
  have := atRow_proper (E := E) (g := g) (l := l) Y
  rw [atRow_base] at this
  exact (Model.entry_none this (by rw [← h.channels] at hc; exact hc) (by rw [← h.features] at hf; exact hf)
    (by rw [← h.leaves] at hi; exact hi) (by rw [← h.reps] at hr; exact hr) hX).1

/-- on the rows that agree with `X` outside of `H`, the density is that of the einet with the logits of `X`. -/
theorem density_hide_ae (h : E.WF grp g l) {X : Data} (hX : E.leaf.Counts X) {H : Set Nat} (hH : ∀ f ∈ l, f ∉ H) {k : Nat}
    (hk : k < E.net.num_classes) :
    ∀ᵐ ω ∂missing E.net.num_channels E.net.num_features (countRef E.leaf.total_count) (hideSet H X),
      E.density none k (Pt.data ω) = (E.atRow g l X).density none k (Pt.data ω) := by
  have hae := missing_ae E.net.num_channels E.net.num_features E.leaf.total_count (hideSet H X) (by
    intro c hc f hf
    unfold hideSet
    split_ifs
    · exact Or.inl rfl
    · exact Or.inr (hX c (by rw [h.channels]; exact hc) f (by rw [h.features]; exact hf)))
  filter_upwards [hae] with ω hω
  have hcount : E.leaf.Counts (Pt.data ω) := counts_data h fun c f => (hω c f).1
  have hagree : ∀ c, c < E.net.num_channels → ∀ f ∈ l, Pt.data ω c f = X c f := by
    intro c hc f hf
    have hfl : f < E.net.num_features := by rw [← h.features]; exact resolve_lt h.ok.resolve f hf
    have e : hideSet H X c f = X c f := if_neg (hH f hf)
    obtain ⟨k, -, ek⟩ := hX c (by rw [h.channels]; exact hc) f (by rw [h.features]; exact hfl)
    have := (hω ⟨c, hc⟩ ⟨f, hfl⟩).2 (by show hideSet H X c f ≠ _; rw [e, ek]; simp)
    rw [Pt.data_eq ω hc hfl, ← this]
    exact e
  rw [density_eq h hcount (ms := none) rfl hk]
  exact atRow_congr h (hcount.observed _) (hcount.observed _) rfl rfl
    (fun c hc f hf i hi r hr => entry_fin h (hcount.observed _) hc hf hi hr)
    (fun c hc f hf i hi r hr => entry_congr h (counts_fin h hcount) hagree hc hi hr _ _) hk

/-- **Missing features that are not conditioning features are integrated out.** -/
theorem integral_hide (h : E.WF grp g l) {X : Data} (hX : E.leaf.Counts X) {H : Set Nat} (hH : ∀ f ∈ l, f ∉ H) {k : Nat}
    (hk : k < E.net.num_classes) :
    ∫⁻ ω, E.density none k (Pt.data ω) ∂missing E.net.num_channels E.net.num_features (countRef E.leaf.total_count) (hideSet H X) =
      (E.atRow g l X).density none k (hideSet H X) := by
  have hm := Model.density_missing (h.row X) (atRow_proper X) (X := hideSet H X) (by rw [atRow_base]; exact observed_hide hX H)
    (k := k) hk
  rw [atRow_ref] at hm
  refine Eq.trans ?_ hm.symm
  exact lintegral_congr_ae (density_hide_ae h hX hH hk)

/-- `marginalized_scopes` and missing values. -/
theorem density_scopes (h : E.WF grp g l) {X : Data} (hX : E.leaf.Counts X) {ms : Scopes} {lm : List Nat}
    (hs : Scopes.resolveOpt E.net.num_features (some ms) = .ok (some lm)) {k : Nat} (hk : k < E.net.num_classes) :
    E.density (some ms) k X = (E.atRow g l X).density none k (hideSet {f | f ∈ lm} X) := by
  rw [density_eq h hX hs hk]
  have key : ∀ c, c < E.net.num_channels → ∀ f, f < E.net.num_features → ∀ i, i < E.net.num_leaves → ∀ r,
      r < E.net.num_repetitions → (E.leaf.leafAt g l X).entry (some lm) (X c f) c f i r =
        (E.leaf.leafAt g l X).entry none (hideSet {f | f ∈ lm} X c f) c f i r := by
    intro c hc f hf i hi r hr
    by_cases hm : f ∈ lm
    · have : hideSet {f | f ∈ lm} X c f = .nan := if_pos hm
      rw [this]
      simp [BaseLeaf.entry, hm, Fl.isnan]
    · have e : hideSet {f | f ∈ lm} X c f = X c f := if_neg hm
      obtain ⟨k, hk', ek⟩ := hX c (by rw [h.channels]; exact hc) f (by rw [h.features]; exact hf)
      obtain ⟨v, hv⟩ := (binomialLeaf_proper ⟨E.leaf.num_features, E.leaf.num_channels, E.leaf.num_leaves,
        E.leaf.num_repetitions⟩ E.leaf.total_count (E.leaf.theta g l X)).isFin c (by rw [← h.channels] at hc; exact hc) f
        (by rw [← h.features] at hf; exact hf) i (by rw [← h.leaves] at hi; exact hi) r (by rw [← h.reps] at hr; exact hr)
        (k : ℝ) ⟨k, hk', rfl⟩
      have hv' : (E.leaf.leafAt g l X).logProb c f i r (.fin k) = .fin v := hv
      rw [e, ek]
      simp [BaseLeaf.entry, hm, hv', Fl.isnan]
  refine atRow_congr h (hX.observed _) (observed_hide hX _) hs rfl (fun c hc f hf i hi r hr => ?_) key hk
  rw [key c hc f hf i hi r hr]
  exact entry_fin h (observed_hide hX _) hc hf hi hr

/-- **Total mass** when the conditioning features lie in the unconditioned half. -/
theorem integral_eq_one (h : E.WF grp g l) (hl : ∀ f ∈ l, E.net.num_features / 2 ≤ f) {k : Nat} (hk : k < E.net.num_classes) :
    ∫⁻ ω, E.density none k (Pt.data ω) ∂onAll E.net.num_channels E.net.num_features (countRef E.leaf.total_count) = 1 := by
  let H : Set Nat := {f | f < E.net.num_features / 2}
  have hH : ∀ f ∈ l, f ∉ H := fun f hf hf' => absurd (hl f hf) (by simpa [H] using hf')
  let Y : Data := fun _ _ => .fin 0
  rw [lintegral_split_counts _ _ _ H]
  have h1 := Model.density_integral (h.row Y) (atRow_proper Y) (k := k) hk
  rw [atRow_ref] at h1
  have h1' : ∫⁻ ω, (E.atRow g l Y).density none k (Pt.data ω) ∂onAll E.net.num_channels E.net.num_features
    (countRef E.leaf.total_count) = 1 := h1
  rw [lintegral_split_counts _ _ _ H] at h1'
  rw [← h1']
  refine lintegral_congr_ae ?_
  filter_upwards [onPart_ae E.net.num_channels E.net.num_features E.leaf.total_count Hᶜ] with b hb
  have hcount : E.leaf.Counts (Pt.data b) := counts_data h hb
  have e : Pt.without H b = hideSet H (Pt.data b) := rfl
  rw [e, integral_hide h hcount hH hk]
  have hm := Model.density_missing (h.row Y) (atRow_proper Y) (X := hideSet H (Pt.data b))
    (by rw [atRow_base]; exact observed_hide hcount H) (k := k) hk
  rw [atRow_ref] at hm
  refine Eq.trans ?_ hm
  refine atRow_congr h (observed_hide hcount H) (observed_hide hcount H) rfl rfl
    (fun c hc f hf i hi r hr => entry_fin h (observed_hide hcount H) hc hf hi hr) (fun c hc f hf i hi r hr => ?_) hk
  by_cases hf' : f ∈ H
  · have e2 : hideSet H (Pt.data b) c f = .nan := if_pos hf'
    rw [e2]
    simp [BaseLeaf.entry, Fl.isnan]
  · have hge : ¬ f < E.leaf.num_features / 2 := by rw [h.features]; exact hf'
    have e3 : ∀ v, (E.leaf.leafAt g l (Pt.data b)).logProb c f i r v = (E.leaf.leafAt g l Y).logProb c f i r v := by
      intro v
      show Fl.log (.fin (binomialPmf _ (Real.sigmoid (E.leaf.theta g l (Pt.data b) c f i r)) _)) =
        Fl.log (.fin (binomialPmf _ (Real.sigmoid (E.leaf.theta g l Y c f i r)) _))
      rw [CondLeaf.theta_ge hge, CondLeaf.theta_ge hge]
    unfold BaseLeaf.entry
    rw [e3]

end CondEinet
end Einet
