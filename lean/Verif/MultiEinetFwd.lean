import Verif.MultiEinetFacts

/-!
# Einets with a `MultiDistributionLayer`: forward pass
-/

open Classical MeasureTheory
open scoped ENNReal
noncomputable section
namespace Einet
open Tensor

/-- the two parts of the einet fit together. -/
structure MultiEinet.WF (E : MultiEinet) (sd : List (List Nat × LeafSpec)) (g : Nat → Nat → Nat) : Prop where
  net : E.net.WF g
  init : MultiLeaf.init sd E.net.num_features E.net.num_channels E.net.num_leaves E.net.num_repetitions = .ok E.leaf
  part : Props.Partition sd E.net.num_features

namespace MultiEinet
variable {E : MultiEinet} {sd : List (List Nat × LeafSpec)} {g : Nat → Nat → Nat}

theorem WF.ok (h : E.WF sd g) : E.leaf.OK := Props.init_OK h.init h.part

/-- scopes and distributions of the parts. -/
theorem WF.owner (h : E.WF sd g) {s : List Nat} {spec : LeafSpec} (hs : (s, spec) ∈ sd) {f : Nat} (hf : f ∈ s) :
    E.leaf.part f ∈ E.leaf.parts ∧ (E.leaf.part f).1 = s ∧ E.leaf.pos f < s.length ∧
      spec.build none ⟨s.length, E.net.num_channels, E.net.num_leaves, E.net.num_repetitions⟩ = .ok (E.leaf.part f).2 := by
  obtain ⟨-, -, -, -, -, hall, -⟩ := Props.init_spec h.init
  obtain ⟨p, hp, h1, -, h2⟩ := Props.forall2_left hall hs
  obtain ⟨j, hj, rfl⟩ := List.mem_iff_getElem.1 (show f ∈ p.1 by rw [h1]; exact hf)
  obtain ⟨e1, e2⟩ := h.ok.part_spec hp hj
  rw [e1, e2]
  exact ⟨hp, h1, (congrArg List.length h1) ▸ hj, h2⟩

theorem WF.owner' (h : E.WF sd g) {f : Nat} (hf : f < E.net.num_features) : ∃ s spec, (s, spec) ∈ sd ∧ f ∈ s := by
  have := h.part.mem_iff.2 (List.mem_range.2 hf)
  obtain ⟨s', hs', hfs⟩ := List.mem_flatten.1 this
  obtain ⟨⟨s, spec⟩, hs, rfl⟩ := List.mem_map.1 hs'
  exact ⟨s, spec, hs, hfs⟩

theorem WF.ownerStr (h : E.WF sd g) {s : List Nat} {spec : LeafSpec} (hs : (s, spec) ∈ sd) {f : Nat} (hf : f ∈ s) :
    Props.Owner sd E.net.num_channels E.net.num_leaves E.net.num_repetitions f spec (E.leaf.part f).2 (E.leaf.pos f) := by
  obtain ⟨hm, e1, hj, hB⟩ := h.owner hs hf
  refine ⟨s, hs, ?_, hB⟩
  have hlt : f < E.leaf.num_features := h.ok.lt hm (by rw [e1]; exact hf)
  obtain ⟨-, hj', e⟩ := h.ok.part_mem hlt
  rw [List.getElem?_eq_getElem hj]
  congr 1
  simp only [e1] at e
  exact e

theorem WF.valid_iff (h : E.WF sd g) (B : BaseLeaf) {s : List Nat} {spec : LeafSpec} (hs : (s, spec) ∈ sd) {f : Nat} (hf : f ∈ s)
    (x : ℝ) : (E.leaf.toBase B).valid f (.fin x) ↔ spec.InSupport x :=
  LeafSpec.valid_iff (h.owner hs hf).2.2.2 x

theorem WF.ref_eq (h : E.WF sd g) (B : BaseLeaf) {s : List Nat} {spec : LeafSpec} (hs : (s, spec) ∈ sd) {f : Nat} (hf : f ∈ s) :
    (E.leaf.toBase B).ref f = spec.ref := by
  show (E.leaf.part f).2.ref (E.leaf.pos f) = _
  rw [LeafSpec.ref_eq (h.owner hs hf).2.2.2]

theorem WF.parts_spec (h : E.WF sd g) {p : List Nat × BaseLeaf} (hp : p ∈ E.leaf.parts) :
    ∃ s ∈ sd, p.1 = s.1 ∧ 0 < s.1.length ∧
      s.2.build none ⟨s.1.length, E.net.num_channels, E.net.num_leaves, E.net.num_repetitions⟩ = .ok p.2 := by
  obtain ⟨-, -, -, -, -, hall, -⟩ := Props.init_spec h.init
  exact Props.forall2_left hall.flip hp

theorem WF.sizes (h : E.WF sd g) : E.leaf.num_features = E.net.num_features ∧ E.leaf.num_channels = E.net.num_channels ∧
    E.leaf.num_leaves = E.net.num_leaves ∧ E.leaf.num_repetitions = E.net.num_repetitions ∧ 0 < E.net.num_features := by
  obtain ⟨e1, e2, e3, e4, e5, -⟩ := Props.init_spec h.init
  exact ⟨e1, e2, e3, e4, e5⟩

theorem WF.proper (h : E.WF sd g) (hg : ∀ s ∈ sd, s.2.Good) : E.asModel.leaf.base.Proper := by
  obtain ⟨e1, e2, e3, e4, -⟩ := h.sizes
  have hf := h.net.front
  rw [asModel_base]
  refine MultiLeaf.toBase_proper h.ok (fun p hp => ?_) (by rw [hf.features, e1]) (by rw [hf.channels, e2]) (by rw [hf.leaves, e3])
    (by rw [hf.reps, e4])
  obtain ⟨s, hs, -, -, hB⟩ := h.parts_spec hp
  exact (LeafSpec.build_spec hB).2.2.1 (hg s hs)

theorem WF.samp (h : E.WF sd g) (hg : ∀ s ∈ sd, s.2.Good ∧ s.2.CanSample) : E.asModel.leaf.base.Samp := by
  rw [asModel_base]
  refine MultiLeaf.toBase_samp (fun p hp => ?_) _
  obtain ⟨s, hs, -, -, hB⟩ := h.parts_spec hp
  exact (LeafSpec.build_spec hB).2.2.2 (hg s hs).1 (hg s hs).2

/-- the leaf layer: zero for marginalised features and missing values. -/
theorem leaf_forward_is (h : E.WF sd g) (hg : ∀ s ∈ sd, s.2.Good) {x : Tensor Fl} {N : Nat} {X : Nat → Data}
    (hx : x.Is3 N E.net.num_channels E.net.num_features X) (hX : ∀ n, n < N → E.asModel.leaf.base.Observed (X n))
    {ms : Option Scopes} {sc : Option (List Nat)} (hsc : Scopes.resolveOpt E.net.num_features ms = .ok sc) :
    Res.Sat (E.leaf.forward x ms) fun y =>
      y.Is5 N E.net.num_channels E.net.num_features E.net.num_leaves E.net.num_repetitions fun n c f i r =>
        if (∃ l, sc = some l ∧ f ∈ l) ∨ X n c f = .nan then .fin 0 else E.asModel.leaf.base.logProb c f i r (X n c f) := by
  have hfr := (asModel_WF h.net).front
  have hb : Props.MultiBatch sd N E.net.num_channels E.net.num_features x := by
    refine ⟨hx.1, fun n hn c hc s spec hs f hf => ?_⟩
    have hlt : f < E.net.num_features := by
      rw [← h.sizes.1]; exact h.ok.lt (h.owner hs hf).1 (by rw [(h.owner hs hf).2.1]; exact hf)
    rw [hx.get hn hc hlt]
    rcases hX n hn c (by rw [hfr.channels]; exact hc) f (by rw [hfr.features]; exact hlt) with e | ⟨v, e, hv⟩
    · exact Or.inl e
    · rw [asModel_base] at hv
      exact Or.inr ⟨v, e, (h.valid_iff _ hs hf v).1 hv⟩
  obtain ⟨y, hy, h1, h2⟩ := Props.C32_forward sd _ _ _ _ _ h.init h.part hg N x hb ms sc hsc
  refine ⟨y, hy, Is.intro h1 fun j hj => ?_⟩
  match j, hj with
  | [n, c, f, i, r], hj =>
    obtain ⟨hn, hc, hf, hi, hr, -⟩ := hj
    obtain ⟨s, spec, hs, hfs⟩ := h.owner' hf
    have := h2 f spec _ _ (h.ownerStr hs hfs) n hn c hc i hi r hr
    rw [this, hx.get hn hc hf, asModel_base]
    rfl

/-- the layers above, from leaf values that are those of `toBase`. -/
theorem upper_entry (h : E.net.WF g) {y : Tensor Fl} {N : Nat} {X : Nat → Data} {sc : Option (List Nat)}
    (hy : y.Is5 N E.net.num_channels E.net.num_features E.net.num_leaves E.net.num_repetitions fun n c f i r =>
      E.asModel.leaf.base.entry sc (X n c f) c f i r) :
    Res.Sat (E.net.leaf.merge y >>= E.net.upper) fun z => z.1.Is2 N E.net.num_classes (fun n => E.asModel.outRow sc (X n)) ∧
      E.asModel.CachesOK N z.2 fun n => E.asModel.frontRow sc (X n) := by
  have hW := asModel_WF h
  rw [← asModel_merge, ← asModel_upper]
  have hsum : Res.Sat (y.sum 1) fun z => z.Is4 N E.asModel.leaf.base.num_features E.asModel.leaf.base.num_leaves
      E.asModel.leaf.base.num_repetitions fun n => E.asModel.leaf.base.leafSum sc (X n) := by
    rw [hW.front.features, hW.front.leaves, hW.front.reps]
    refine (sum_is hy (by simp)).mono fun z hz => Is.is4 hz ?_
    intro n hn f hf i hi r hr
    simp only [insAt, at', BaseLeaf.leafSum]
    rw [hW.front.channels]
    exact Fl.sumN_congr fun c hc => rfl
  refine (Model.merge_is hW.front hsum).bind fun z hz => ?_
  exact Model.upper_is hW hz

/-- data with NaN in the missing and marginalised entries. -/
def hide (sc : Option (List Nat)) (X : Data) : Data := fun c f => if (∃ l, sc = some l ∧ f ∈ l) ∨ X c f = .nan then .nan else X c f

theorem hide_observed {B : BaseLeaf} {X : Data} (h : B.Observed X) (sc : Option (List Nat)) : B.Observed (hide sc X) := by
  intro c hc f hf
  unfold hide
  split_ifs
  · exact Or.inl rfl
  · exact h c hc f hf

/-- **The forward pass** is that of `asModel`, with missing and marginalised entries treated alike. -/
theorem run_is (h : E.WF sd g) (hg : ∀ s ∈ sd, s.2.Good) {x : Tensor Fl} {N : Nat} {X : Nat → Data}
    (hx : x.Is3 N E.net.num_channels E.net.num_features X) (hX : ∀ n, n < N → E.asModel.leaf.base.Observed (X n))
    {ms : Option Scopes} {sc : Option (List Nat)} (hsc : Scopes.resolveOpt E.net.num_features ms = .ok sc) :
    Res.Sat (E.run x ms) fun y => y.1.Is2 N E.net.num_classes (fun n => E.asModel.outRow none (hide sc (X n))) ∧
      E.asModel.CachesOK N y.2 fun n => E.asModel.frontRow none (hide sc (X n)) := by
  have hfr := (asModel_WF h.net).front
  unfold run
  rw [Model.prepInput_is hx]
  simp only [Res.ok_bind]
  refine (leaf_forward_is h hg hx hX hsc).bind fun y hy => ?_
  refine upper_entry h.net (hy.congr ((AllIdx_iff _ _).2 fun j hj => ?_))
  match j, hj with
  | [n, c, f, i, r], hj =>
    obtain ⟨hn, hc, hf, hi, hr, -⟩ := hj
    have hp := h.proper hg
    show (if (∃ l, sc = some l ∧ f ∈ l) ∨ X n c f = .nan then Fl.fin 0 else E.asModel.leaf.base.logProb c f i r (X n c f)) =
      BaseLeaf.entry _ none (hide sc (X n) c f) c f i r
    unfold hide
    by_cases hh : (∃ l, sc = some l ∧ f ∈ l) ∨ X n c f = .nan
    · rw [if_pos hh, if_pos hh]
      simp [BaseLeaf.entry, Fl.isnan]
    · rw [if_neg hh, if_neg hh]
      rcases hX n hn c (by rw [hfr.channels]; exact hc) f (by rw [hfr.features]; exact hf) with e | ⟨v, e, hv⟩
      · exact absurd (Or.inr e) hh
      · obtain ⟨w, hw⟩ := hp.isFin c (by rw [hfr.channels]; exact hc) f (by rw [hfr.features]; exact hf) i
          (by rw [hfr.leaves]; exact hi) r (by rw [hfr.reps]; exact hr) v hv
        rw [e]
        simp [BaseLeaf.entry, hw, Fl.isnan]

/-- `exp(model(x)[0, k])` for a batch with one row; an exception counts as 0. -/
def density (E : MultiEinet) (ms : Option Scopes) (k : Nat) (X : Data) : ℝ≥0∞ :=
  match E.forward (rowTensor E.net.num_channels E.net.num_features X) ms with
  | .ok t => toP (t.get [0, k])
  | .error _ => 0

theorem density_eq (h : E.WF sd g) (hg : ∀ s ∈ sd, s.2.Good) {X : Data} (hX : E.asModel.leaf.base.Observed X)
    {ms : Option Scopes} {sc : Option (List Nat)} (hs : Scopes.resolveOpt E.net.num_features ms = .ok sc) {k : Nat}
    (hk : k < E.net.num_classes) : E.density ms k X = E.asModel.density none k (hide sc X) := by
  rw [Model.density_eq (asModel_WF h.net) (h.proper hg) (hide_observed hX sc) (ms := none) rfl hk]
  obtain ⟨t, ht, h1, -⟩ := run_is h hg (rowTensor_is _ _ X) (fun _ _ => hX) hs
  unfold density forward
  rw [ht]
  show toP (t.1.get [0, k]) = _
  rw [h1.get (by omega) hk]

end MultiEinet
end Einet
