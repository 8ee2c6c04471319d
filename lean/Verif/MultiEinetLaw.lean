import Verif.MultiEinetSample

/-!
# Einets with a `MultiDistributionLayer`: the law of the samples
-/

open Classical MeasureTheory
open scoped ENNReal
noncomputable section
namespace Einet
open Tensor

/-- the law of the draws of one leaf. -/
theorem BaseLeaf.draws_law (B : BaseLeaf) (ctx : Ctx)
    (hp : ∀ c f i r, IsProbabilityMeasure (B.law ctx.temperature_leaves c f i r)) :
    ∃ ν : Measure (List Nat → ℝ), SFinite ν ∧ ∀ φ : (List Nat → ℝ) → ℝ≥0∞, Measurable φ → (B.draws ctx).E φ = ∫⁻ ω, φ ω ∂ν := by
  unfold BaseLeaf.draws
  split_ifs
  · exact ⟨Measure.dirac _, inferInstance, fun φ hφ => (lintegral_dirac' _ hφ).symm⟩
  · have : ∀ j : List Nat, SFinite (B.law ctx.temperature_leaves (at' 1 j) (at' 2 j) (at' 3 j) (at' 4 j)) := by
      intro j
      have := hp (at' 1 j) (at' 2 j) (at' 3 j) (at' 4 j)
      infer_instance
    exact Rand.drawAll_law _ _ _

/-- the law of independent programs, one after the other. -/
theorem Rand.forEach_law {α Ω : Type} [MeasurableSpace Ω] (d : Ω) {D : List α} {f : α → Rand Ω}
    (h : ∀ a ∈ D, ∃ ν : Measure Ω, SFinite ν ∧ ∀ φ : Ω → ℝ≥0∞, Measurable φ → (f a).E φ = ∫⁻ ω, φ ω ∂ν) :
    ∃ ν : Measure (Nat → Ω), SFinite ν ∧ ∀ φ : (Nat → Ω) → ℝ≥0∞, Measurable φ →
      (Rand.forEach D f).E (fun bs => φ fun k => bs.getD k d) = ∫⁻ ω, φ ω ∂ν := by
  induction D with
  | nil => exact ⟨Measure.dirac fun _ => d, inferInstance, fun φ hφ => (lintegral_dirac' _ hφ).symm⟩
  | cons a D ih =>
    obtain ⟨ν, hs, hν⟩ := ih fun a ha => h a (by simp [ha])
    obtain ⟨ρ, hs', hρ⟩ := h a (by simp)
    let u : Ω × (Nat → Ω) → Nat → Ω := fun p k => match k with | 0 => p.1 | k + 1 => p.2 k
    have hu : Measurable u := by
      refine measurable_pi_iff.2 fun k => ?_
      cases k with
      | zero => exact measurable_fst
      | succ k => exact (measurable_pi_apply k).comp measurable_snd
    refine ⟨(ρ.prod ν).map u, inferInstance, fun φ hφ => ?_⟩
    rw [lintegral_map hφ hu, lintegral_prod (fun p => φ (u p)) (hφ.comp hu).aemeasurable]
    unfold Rand.forEach
    simp only [Rand.E_bind, Rand.E_pure]
    have e : ∀ (b : Ω) (bs : List Ω), (fun k => (b :: bs).getD k d) = u (b, fun k => bs.getD k d) := by
      intro b bs
      funext k
      cases k <;> simp [u]
    simp only [e]
    have : ∀ b, (Rand.forEach D f).E (fun bs => φ (u (b, fun k => bs.getD k d))) = ∫⁻ ω, φ (u (b, ω)) ∂ν := fun b =>
      hν (fun ω => φ (u (b, ω))) ((hφ.comp hu).comp measurable_prodMk_left)
    simp only [this]
    exact hρ _ ((hφ.comp hu).lintegral_prod_right')

/-- the law of the value of one component. -/
def BaseLeaf.compLaw (B : BaseLeaf) (mode : Bool) (T : ℝ) (c f i r : Nat) : Measure ℝ :=
  if mode then Measure.dirac (B.mode c f i r) else B.law T c f i r

theorem BaseLeaf.lintegral_compLaw (B : BaseLeaf) (mode : Bool) (T : ℝ) (c f i r : Nat) {h : ℝ → ℝ≥0∞} (hm : Measurable h) :
    ∫⁻ x, h x ∂B.compLaw mode T c f i r = B.compE mode T c f i r h := by
  unfold compLaw compE
  split_ifs
  · exact lintegral_dirac' _ hm
  · rfl

theorem BaseLeaf.compLaw_prob {B : BaseLeaf} (mode : Bool) {T : ℝ} {c f i r : Nat} (h : IsProbabilityMeasure (B.law T c f i r)) :
    IsProbabilityMeasure (B.compLaw mode T c f i r) := by
  unfold compLaw
  split_ifs
  · infer_instance
  · exact h

/-- values as a point of the product space. -/
def Tensor.reals (N C F : Nat) (s : Tensor ℝ) : Fin N → Pt C F := fun n c f => s.get [n, c, f]

namespace MultiLeaf

theorem drawsAll_law {L : MultiLeaf} {ctx : Ctx} (hs : ∀ p ∈ L.parts, p.2.Samp) (hT : 0 < ctx.temperature_leaves) {N C F : Nat}
    (k : Nat → Nat → Nat → List Nat) :
    (L.drawsAll ctx).HasLaw fun vs => (fun n c f => L.join vs (k n c f) : Fin N → Pt C F) := by
  obtain ⟨ν, -, hν⟩ := Rand.forEach_law (d := fun _ => 0) (D := L.parts) (f := fun p => p.2.draws ctx) fun p hp =>
    p.2.draws_law ctx fun c f i r => (hs p hp).prob _ hT c f i r
  have h1 : (L.drawsAll ctx).HasLaw fun vs => fun k => vs.getD k fun _ => (0 : ℝ) := ⟨ν, hν⟩
  refine h1.map (f := fun w : Nat → List Nat → ℝ => (fun n c f => w (L.partIdx ((L.part (at' 2 (k n c f))).1.getD 0 0))
    (setAt 2 (L.pos (at' 2 (k n c f))) (k n c f)) : Fin N → Pt C F)) ?_
  exact measurable_pi_iff.2 fun n => measurable_pi_iff.2 fun c => measurable_pi_iff.2 fun f =>
    (measurable_pi_apply _).comp (measurable_pi_apply _)

theorem prod3_le_one {N C F : Nat} {h : Nat → Nat → Nat → ℝ≥0∞} (hh : ∀ n c f, h n c f ≤ 1) : prod3 N C F h ≤ 1 := by
  unfold prod3
  refine Finset.prod_le_one' fun n _ => Finset.prod_le_one' fun f _ => Finset.prod_le_one' fun c _ => hh n c f

/-- Expectation of a product of test functions on the values of the components chosen. -/
theorem drawsAll_E {L : MultiLeaf} (h : L.OK) (h0 : ∀ p ∈ L.parts, 0 < p.1.length) (hs : ∀ p ∈ L.parts, p.2.Samp) {ctx : Ctx}
    {N : Nat} (hN : ctx.num_samples = N) (hT : 0 < ctx.temperature_leaves) (B : BaseLeaf) {K : Nat → Nat → Nat} {rr : Nat → Nat}
    (hK : ∀ n, n < N → ∀ f, f < L.num_features → K n f < L.num_leaves) (hr : ∀ n, n < N → rr n < L.num_repetitions)
    {t : Nat → Nat → Nat → ℝ → ℝ≥0∞} (ht : ∀ n c f, Measurable (t n c f)) (h1 : ∀ n c f y, t n c f y ≤ 1) :
    (L.drawsAll ctx).E (fun vs => prod3 N L.num_channels L.num_features fun n c f => t n c f (L.join vs [n, c, f, K n f, rr n])) =
      prod3 N L.num_channels L.num_features fun n c f =>
        (L.toBase B).compE (ctx.is_mpe || ctx.mpe_at_leaves) ctx.temperature_leaves c f (K n f) (rr n) (t n c f) := by
  set H : List Nat × BaseLeaf → (List Nat → ℝ) → ℝ≥0∞ := fun p v => prod3 N L.num_channels p.1.length fun n c j =>
    t n c (p.1.getD j 0) (v [n, c, j, K n (p.1.getD j 0), rr n]) with hH
  set R : List Nat × BaseLeaf → ℝ≥0∞ := fun p => prod3 N L.num_channels p.1.length fun n c j =>
    p.2.compE (ctx.is_mpe || ctx.mpe_at_leaves) ctx.temperature_leaves c j (K n (p.1.getD j 0)) (rr n) (t n c (p.1.getD j 0)) with hR
  have hlen := Rand.All_forEach_length (D := L.parts) (f := fun p => p.2.draws ctx) fun p _ => p.2.draws_All ctx
  have e1 : (L.drawsAll ctx).E (fun vs => prod3 N L.num_channels L.num_features fun n c f =>
      t n c f (L.join vs [n, c, f, K n f, rr n])) = (L.drawsAll ctx).E fun vs => (List.zipWith H L.parts vs).prod := by
    refine Rand.E_congr hlen fun vs hv => ?_
    rw [Props.prod3_parts h]
    congr 1
    refine List.ext_getElem (by simp [hv]) fun i h2 h3 => ?_
    have hi : i < L.parts.length := by simpa using h2
    rw [List.getElem_map, List.getElem_zipWith]
    refine prod3_congr fun n hn c hc j hj => ?_
    have e := h.part_spec (List.getElem_mem hi) hj
    rw [List.getD_eq_getElem _ _ hj]
    unfold join
    show t n c _ (L.value vs (L.part L.parts[i].1[j]) (setAt 2 (L.pos L.parts[i].1[j]) _)) = _
    rw [e.1, e.2, h.value_at h0 hi hv]
    rfl
  rw [e1]
  refine (Props.E_forEach_zip (R := R) (fun p v => ?_) (fun p hp => ?_) fun p hp => ?_).trans ?_
  · exact ne_top_of_le_ne_top ENNReal.one_ne_top (prod3_le_one fun n c f => h1 _ _ _ _)
  · obtain ⟨s1, s2, s3, s4⟩ := h.size p hp
    have hmem : ∀ j, j < p.1.length → p.1.getD j 0 < L.num_features := by
      intro j hj
      refine h.lt hp ?_
      rw [List.getD_eq_getElem _ _ hj]; exact List.getElem_mem _
    have key := p.2.draws_E (ctx := ctx) hN (fun c f i r => (hs p hp).prob _ hT c f i r) (K := fun n j => K n (p.1.getD j 0)) (rr := rr)
      (fun n hn j hj => by rw [s3]; exact hK n hn _ (hmem j (by omega))) (fun n hn => by rw [s4]; exact hr n hn)
      (h := fun n c j => t n c (p.1.getD j 0)) (fun n c j => ht _ _ _)
    rw [s1, s2] at key
    exact key
  · refine ne_top_of_le_ne_top ENNReal.one_ne_top (prod3_le_one fun n c f => ?_)
    have := (hs p hp).prob _ hT c f (K n (p.1.getD f 0)) (rr n)
    unfold BaseLeaf.compE
    split_ifs
    · exact h1 _ _ _ _
    · calc _ ≤ ∫⁻ _, 1 ∂_ := lintegral_mono fun y => h1 _ _ _ _
        _ = 1 := by rw [lintegral_one, measure_univ]
  · rw [Props.prod3_parts h]
    congr 1
    refine List.map_congr_left fun p hp => ?_
    refine prod3_congr fun n hn c hc j hj => ?_
    have e := h.part_spec hp hj
    rw [List.getD_eq_getElem _ _ hj]
    unfold BaseLeaf.compE toBase
    dsimp only
    rw [e.1, e.2]

end MultiLeaf

/-- independent components. -/
theorem lintegral_components {C F : Nat} (μ : Nat → Nat → Nat → Measure ℝ) [∀ n c f, IsProbabilityMeasure (μ n c f)]
    {t : Nat → Nat → Nat → ℝ → ℝ≥0∞} (ht : ∀ n c f, Measurable (t n c f)) (n : Nat) :
    ∫⁻ ω : Pt C F, ∏ f : Fin F, ∏ c : Fin C, t n c f (ω c f) ∂(Measure.pi fun c : Fin C => Measure.pi fun f : Fin F => μ n c f) =
      ∏ f : Fin F, ∏ c : Fin C, ∫⁻ x, t n c f x ∂μ n c f := by
  have h1 : ∀ ω : Pt C F, ∏ f : Fin F, ∏ c : Fin C, t n c f (ω c f) = ∏ c : Fin C, ∏ f : Fin F, t n c f (ω c f) := fun ω =>
    Finset.prod_comm
  simp only [h1]
  rw [lintegral_pi_prod (f := fun (c : Fin C) (v : Fin F → ℝ) => ∏ f : Fin F, t n c f (v f)) fun c =>
    Finset.measurable_fun_prod _ fun f _ => (ht n c f).comp (measurable_pi_apply f), Finset.prod_comm]
  refine Finset.prod_congr rfl fun c _ => ?_
  exact lintegral_pi_prod (f := fun (f : Fin F) x => t n c f x) fun f => ht n c f

namespace MultiEinet
variable {E : MultiEinet} {sd : List (List Nat × LeafSpec)} {g : Nat → Nat → Nat}

theorem WF.samp_parts (h : E.WF sd g) (hg : ∀ s ∈ sd, s.2.Good ∧ s.2.CanSample) : ∀ p ∈ E.leaf.parts, p.2.Samp := by
  intro p hp
  obtain ⟨s, hs, -, -, hB⟩ := h.parts_spec hp
  exact (LeafSpec.build_spec hB).2.2.2 (hg s hs).1 (hg s hs).2

theorem WF.asSamplable (h : E.WF sd g) (hg : ∀ s ∈ sd, s.2.Good ∧ s.2.CanSample) : E.asModel.Samplable g :=
  ⟨asModel_WF h.net, h.samp hg, h.sizes.2.2.2.2⟩

/-- the leaf draws the values of the chosen components. -/
theorem leaf_E (h : E.WF sd g) (hg : ∀ s ∈ sd, s.2.Good ∧ s.2.CanSample) {ctx : Ctx} {N : Nat} (hN : 0 < N)
    {idx : Nat → Nat → Nat} {rr : Nat → Nat}
    (hc : CtxOK ctx N E.net.numOut E.net.num_leaves E.net.num_repetitions idx rr) (hT : 0 < ctx.temperature_leaves)
    {φ : (Fin N → Pt E.net.num_channels E.net.num_features) → ℝ≥0∞} (hφ : Measurable φ) :
    ((Rand.lift (E.net.unpermute ctx)).bind fun c => E.sampleLeaf c).E
        (fun s => φ (s.reals N E.net.num_channels E.net.num_features)) =
      ((Rand.lift (E.asModel.unpermute ctx)).bind fun c => E.asModel.leaf.sample c).E
        (fun s => φ (s.reals N E.net.num_channels E.net.num_features)) := by
  have hS := h.asSamplable hg
  obtain ⟨e1, e2, e3, e4, hF0⟩ := h.sizes
  have hfr := h.net.front
  have hfr' := hS.wf.front
  have hF : E.asModel.leaf.base.num_features = E.net.num_features := hfr'.features
  have hC : E.asModel.leaf.base.num_channels = E.net.num_channels := hfr'.channels
  have hI : E.asModel.leaf.base.num_leaves = E.net.num_leaves := hfr'.leaves
  have hR : E.asModel.leaf.base.num_repetitions = E.net.num_repetitions := hfr'.reps
  set K : Nat → Nat → Nat := fun n f => idx n (E.net.grpS g (rr n) f) with hKdef
  have hK : ∀ n, n < N → ∀ f, f < E.net.num_features → K n f < E.net.num_leaves := fun n hn f hf =>
    hc.io_lt n hn _ (hfr.grpS_lt (hc.ir_lt n hn) hf)
  set μ : Nat → Nat → Nat → Measure ℝ := fun n c f =>
    E.asModel.leaf.base.compLaw (ctx.is_mpe || ctx.mpe_at_leaves) ctx.temperature_leaves c f (K n f) (rr n) with hμ
  have : ∀ n c f, IsProbabilityMeasure (μ n c f) := fun n c f => BaseLeaf.compLaw_prob _ (hS.samp.prob _ hT _ _ _ _)
  have hcomp : ∀ t : Nat → Nat → Nat → ℝ → ℝ≥0∞, (∀ n c f, Measurable (t n c f)) →
      (prod3 N E.net.num_channels E.net.num_features fun n c f =>
        E.asModel.leaf.base.compE (ctx.is_mpe || ctx.mpe_at_leaves) ctx.temperature_leaves c f (K n f) (rr n) (t n c f)) =
      ∏ n : Fin N, ∫⁻ ω, ∏ f : Fin E.net.num_features, ∏ c : Fin E.net.num_channels, t n c f (ω c f)
        ∂(Measure.pi fun c : Fin E.net.num_channels => Measure.pi fun f : Fin E.net.num_features => μ n c f) := by
    intro t ht
    rw [prod3_fin]
    refine Finset.prod_congr rfl fun n _ => ?_
    rw [lintegral_components μ ht n]
    refine Finset.prod_congr rfl fun f _ => Finset.prod_congr rfl fun c _ => ?_
    exact (BaseLeaf.lintegral_compLaw _ _ _ _ _ _ _ (ht n c f)).symm
  have hlen := Rand.All_forEach_length (D := E.leaf.parts) (f := fun p => p.2.draws ctx) fun p _ => p.2.draws_All ctx
  obtain ⟨res, h1, h2⟩ := leaf_run h hg hN hc
  obtain ⟨res', h1', h2'⟩ := Model.leaf_sample_eq (M := E.asModel) hfr' hF0 hS.samp.samplable hN (idx := idx) (rr := rr)
    (by rw [asModel_numOut]; exact hc)
  rw [asModel_grpS] at h2'
  rw [h1, h1', Rand.E_bind, Rand.E_bind]
  have a1 : (E.leaf.drawsAll ctx).E (fun vs => (Rand.lift (res vs)).E fun s => φ (s.reals N E.net.num_channels E.net.num_features)) =
      (E.leaf.drawsAll ctx).E (fun vs => φ (fun n c f => E.leaf.join vs [(n : Nat), (c : Nat), (f : Nat), K n f, rr n])) := by
    refine Rand.E_congr hlen fun vs hv => ?_
    obtain ⟨s, hs, hs'⟩ := h2 vs hv
    rw [hs]
    show φ _ = φ _
    congr 1
    funext n c f
    exact hs'.get n.2 c.2 f.2
  have a2 : (E.asModel.leaf.base.draws ctx).E (fun v => (Rand.lift (res' v)).E fun s =>
      φ (s.reals N E.net.num_channels E.net.num_features)) =
      (E.asModel.leaf.base.draws ctx).E (fun v => φ (fun n c f => v [(n : Nat), (c : Nat), (f : Nat), K n f, rr n])) := by
    congr 1
    funext v
    obtain ⟨s, hs, hs'⟩ := h2' v
    rw [hs]
    show φ _ = φ _
    congr 1
    funext n c f
    exact hs'.get n.2 c.2 f.2
  rw [a1, a2]
  rw [law_of_prod' (x := E.leaf.drawsAll ctx)
    (v := fun vs => (fun n c f => E.leaf.join vs [(n : Nat), (c : Nat), (f : Nat), K n f, rr n]))
    (μ := fun n => Measure.pi fun c => Measure.pi fun f => μ n c f)
    (MultiLeaf.drawsAll_law (h.samp_parts hg) hT fun n c f => [n, c, f, K n f, rr n]) (fun t ht ht1 => ?_) hφ]
  · symm
    refine law_of_prod' (x := E.asModel.leaf.base.draws ctx)
      (v := fun v => (fun n c f => v [(n : Nat), (c : Nat), (f : Nat), K n f, rr n])) ?_ (fun t ht ht1 => ?_) hφ
    · obtain ⟨ν, -, hν⟩ := E.asModel.leaf.base.draws_law ctx fun c f i r => hS.samp.prob _ hT c f i r
      have hl : (E.asModel.leaf.base.draws ctx).HasLaw fun v => v := ⟨ν, hν⟩
      exact hl.map (measurable_pi_iff.2 fun n => measurable_pi_iff.2 fun c => measurable_pi_iff.2 fun f => measurable_pi_apply _)
    · rw [← hcomp t ht]
      have := E.asModel.leaf.base.draws_E hc.ns (fun c f i r => hS.samp.prob _ hT c f i r) (K := K) (rr := rr)
        (fun n hn f hf => by rw [hI]; exact hK n hn f (by omega)) (fun n hn => by rw [hR]; exact hc.ir_lt n hn) ht
      rw [hF, hC] at this
      rw [← this]
      simp only [prod3_fin]
  · rw [← hcomp t ht]
    have := MultiLeaf.drawsAll_E h.ok h.nonempty (h.samp_parts hg) hc.ns hT E.net.leaf.base (K := K) (rr := rr)
      (fun n hn f hf => by rw [e3]; exact hK n hn f (by omega)) (fun n hn => by rw [e4]; exact hc.ir_lt n hn) ht ht1
    rw [e1, e2] at this
    rw [asModel_base, ← this]
    simp only [prod3_fin]

/-- path, inverse permutation and leaf. -/
def sampleValues (E : MultiEinet) (a : SampleArgs) (cs : Caches) : Rand (Tensor ℝ) :=
  (E.net.samplePath a cs).bind fun ctx => E.sampleLeaf ctx

theorem sample_eq (E : MultiEinet) (a : SampleArgs) {cs : Caches} (h1 : a.check E.net = .ok ())
    (h2 : E.evidenceCaches a = .ok cs) :
    E.sample a = (E.sampleValues a cs).bind fun s => Rand.lift (Model.finish a s) := by
  unfold sample sampleValues
  rw [h1, h2]
  simp only [Rand.lift_ok, Rand.pure_bind, Rand.bind_assoc]

/-- the values have the law of those of `asModel`. -/
theorem sampleValues_E (h : E.WF sd g) (hg : ∀ s ∈ sd, s.2.Good ∧ s.2.CanSample) {a : SampleArgs} (hN : 0 < a.count)
    (hT : a.temperature_sums ≠ 0) (hL : 0 < a.temperature_leaves)
    (hc : E.asModel.ClassOK a.count a.class_index) {cond : Bool} {cs : Caches} {e : Nat → Row}
    (hev : E.asModel.EvM cond a.count cs e) (he : E.asModel.FinRows a.count e)
    {φ : (Fin a.count → Pt E.net.num_channels E.net.num_features) → ℝ≥0∞} (hφ : Measurable φ) :
    (E.sampleValues a cs).E (fun s => φ (s.reals a.count E.net.num_channels E.net.num_features)) =
      (E.asModel.sampleValues a cs).E (fun s => φ (s.reals a.count E.net.num_channels E.net.num_features)) := by
  have hS := h.asSamplable hg
  have e0 : E.sampleValues a cs = (E.asModel.corePath a cs).bind fun ctx =>
      (Rand.lift (E.net.unpermute ctx)).bind fun c => E.sampleLeaf c := by
    unfold sampleValues
    rw [Model.samplePath_eq, Rand.bind_assoc]
    rfl
  rw [e0, Model.sampleValues_eq, Rand.E_bind, Rand.E_bind]
  refine Rand.E_congr (Model.corePath_All hS.wf hN hT hc hev he) fun ctx ⟨idx, rr, hctx, hce⟩ => ?_
  have hTl : ctx.temperature_leaves = a.temperature_leaves := by rw [hce]; rfl
  exact leaf_E h hg hN (by rw [asModel_numOut] at hctx; exact hctx) (by rw [hTl]; exact hL) hφ

end MultiEinet
end Einet
