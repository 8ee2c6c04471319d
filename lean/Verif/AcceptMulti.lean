import Verif.Accept
import Verif.PropsMultiEinet

/-!
# Einets with a `MultiDistributionLayer`: samples lie in the support, with probability one
-/

open Classical MeasureTheory
open scoped ENNReal
noncomputable section
namespace Einet
open Tensor

theorem Full.forEach {α β : Type} {D : List α} {f : α → Rand β} {Q : α → β → Prop} (h : ∀ a ∈ D, Full (Q a) (f a)) :
    Full (fun bs => List.Forall₂ Q D bs) (Rand.forEach D f) := by
  induction D with
  | nil => exact Full.pure .nil
  | cons a l ih =>
    exact Full.bind (h a (by simp)) fun b hb => Full.bind (ih fun a ha => h a (by simp [ha])) fun bs hbs => Full.pure (.cons hb hbs)

namespace MultiEinet
variable {E : MultiEinet} {sd : List (List Nat × LeafSpec)} {g : Nat → Nat → Nat}

theorem sampleValues_full (h : E.WF sd g) (hg : ∀ s ∈ sd, s.2.Good ∧ s.2.CanSample) {a : SampleArgs} (hN : 0 < a.count)
    (hT : a.temperature_sums ≠ 0) (hL : 0 < a.temperature_leaves) (hc : E.asModel.ClassOK a.count a.class_index) {cond : Bool}
    {cs : Caches} {e : Nat → Row}
    (hev : E.asModel.EvM cond a.count cs e) (he : E.asModel.FinRows a.count e) :
    Full (fun t => ∃ S : Nat → Nat → Nat → ℝ, t.Is3 a.count E.net.num_channels E.net.num_features S ∧
      ∀ n, n < a.count → ∀ c, c < E.net.num_channels → ∀ f, f < E.net.num_features → E.asModel.leaf.base.valid f (.fin (S n c f)))
      (E.sampleValues a cs) := by
  have e0 : E.sampleValues a cs = (E.asModel.corePath a cs).bind fun ctx =>
      (Rand.lift (E.net.unpermute ctx)).bind fun c => E.sampleLeaf c := by
    unfold sampleValues
    rw [Model.samplePath_eq, Rand.bind_assoc]
    rfl
  rw [e0]
  refine Full.bind (Full.of_all (Model.disc_corePath _ _ _) (Model.corePath_All (asModel_WF h.net) hN hT hc hev he))
    fun ctx ⟨idx, rr, hctx, hce⟩ => ?_
  have hTl : ctx.temperature_leaves = a.temperature_leaves := by rw [hce]; rfl
  rw [asModel_numOut] at hctx
  obtain ⟨res, h1, h2⟩ := leaf_run h hg hN hctx
  rw [h1]
  refine Full.bind (Full.forEach (D := E.leaf.parts) (f := fun p => p.2.draws ctx)
    (Q := fun p v => ∀ i ∈ box [ctx.num_samples, p.2.num_channels, p.2.num_features, p.2.num_leaves, p.2.num_repetitions],
      p.2.valid (at' 2 i) (.fin (v i))) fun p hp => ?_) fun vs hv => ?_
  · obtain ⟨s, hs, -, -, hB⟩ := h.parts_spec hp
    exact Model.draws_valid (LeafSpec.drawsValid (hg s hs).1 hB)
      (by rw [hTl]; exact ((LeafSpec.build_spec hB).2.2.2 (hg s hs).1 (hg s hs).2).prob _ hL)
  · have hlen := hv.length_eq.symm
    refine Full.lift ((h2 vs hlen).mono fun t ht => ⟨_, ht, fun n hn c hc f hf => ?_⟩)
    obtain ⟨e1, e2, e3, e4, -⟩ := h.sizes
    obtain ⟨hm, hj, -⟩ := h.ok.part_mem (f := f) (by omega)
    obtain ⟨k, hk, ek⟩ := List.mem_iff_getElem.1 hm
    have hval : E.leaf.value vs (E.leaf.part f) = vs[k]'(by omega) := by rw [← ek]; exact h.ok.value_at h.nonempty hk hlen
    have hq := (List.forall₂_iff_get.1 hv).2 k hk (by omega)
    simp only [List.get_eq_getElem] at hq
    rw [ek] at hq
    obtain ⟨s1, s2, s3, s4⟩ := h.ok.size _ hm
    have := hq [n, c, E.leaf.pos f, idx n (E.net.grpS g (rr n) f), rr n] (mem_box.2 ⟨by rw [hctx.ns]; exact hn, by omega, by omega,
      ?_, ?_, trivial⟩)
    · rw [asModel_base]
      show (E.leaf.part f).2.valid (E.leaf.pos f) (.fin (E.leaf.value vs (E.leaf.part f)
        [n, c, E.leaf.pos f, idx n (E.net.grpS g (rr n) f), rr n]))
      rw [hval]
      exact this
    · have := hctx.io_lt n hn _ (h.net.front.grpS_lt (hctx.ir_lt n hn) hf)
      have e : E.asModel.num_leaves = E.net.num_leaves := rfl
      omega
    · have := hctx.ir_lt n hn
      have e : E.asModel.num_repetitions = E.net.num_repetitions := rfl
      omega

/-- `sample` without evidence. -/
theorem sample_full (h : E.WF sd g) (hg : ∀ s ∈ sd, s.2.Good ∧ s.2.CanSample) {a : SampleArgs} (hev : a.evidence = none)
    (hN : 0 < a.count) (hT : a.temperature_sums ≠ 0) (hL : 0 < a.temperature_leaves)
    (hc : E.asModel.ClassOK a.count a.class_index) :
    Full (fun s => ∃ S : Nat → Nat → Nat → ℝ, s.Is3 a.count E.net.num_channels E.net.num_features (fun n c f => .fin (S n c f)) ∧
      ∀ n, n < a.count → ∀ c, c < E.net.num_channels → ∀ f, f < E.net.num_features → E.asModel.leaf.base.valid f (.fin (S n c f)))
      (E.sample a) := by
  have h2 : E.evidenceCaches a = .ok ⟨[], none⟩ := by unfold evidenceCaches; rw [hev]
  rw [sample_eq E a (Model.check_ok (M := E.asModel) hc (by simp [hev])) h2]
  refine Full.bind (sampleValues_full h hg hN hT hL hc (Model.evM_none E.asModel a.count) (Model.finZero E.asModel _))
    fun s ⟨S, hs, hS⟩ => ?_
  unfold Model.finish
  rw [hev]
  exact Full.pure ⟨S, ⟨hs.1, fun n hn c hc f hf => by
    show Fl.fin (s.get [n, c, f]) = .fin (S n c f); rw [hs.get hn hc hf]⟩, hS⟩

/-- `sample` with evidence. -/
theorem sample_evidence_full (h : E.WF sd g) (hg : ∀ s ∈ sd, s.2.Good ∧ s.2.CanSample) {a : SampleArgs} {x : Tensor Fl}
    {X : Nat → Data} (hev : a.evidence = some x) (hN : 0 < a.count) (hx : x.Is3 a.count E.net.num_channels E.net.num_features X)
    (hns : a.num_samples = none) (hci : a.class_index = none) (hT : a.temperature_sums ≠ 0) (hL : 0 < a.temperature_leaves)
    {sc : Option (List Nat)} (hs : Scopes.resolveOpt E.net.num_features a.marginalized_scopes = .ok sc)
    (hX : ∀ n, n < a.count → EvidenceOK E.asModel.leaf.base sc (X n)) :
    Full (fun s => ∃ S : Nat → Nat → Nat → ℝ, s.Is3 a.count E.net.num_channels E.net.num_features (fun n c f => .fin (S n c f)) ∧
      ∀ n, n < a.count → ∀ c, c < E.net.num_channels → ∀ f, f < E.net.num_features → E.asModel.leaf.base.valid f (.fin (S n c f)))
      (E.sample a) := by
  have hfr := (asModel_WF h.net).front
  have hF : E.asModel.leaf.base.num_features = E.net.num_features := hfr.features
  have hC : E.asModel.leaf.base.num_channels = E.net.num_channels := hfr.channels
  have hcok : E.asModel.ClassOK a.count a.class_index := by rw [hci]; trivial
  obtain ⟨cs, hcs, hevm⟩ := evidence_caches h (fun s hs => (hg s hs).1) hev hx hs hX
  rw [sample_eq E a (Model.check_ok (M := E.asModel) hcok fun _ => ⟨hci, hns⟩) hcs]
  refine Full.bind (sampleValues_full h hg hN hT hL hcok hevm
    (Model.evidence_finRows (asModel_WF h.net) (h.proper fun s hs => (hg s hs).1) hX)) fun s ⟨S, hs3, hS⟩ => Full.lift ?_
  obtain ⟨r, hr, hr'⟩ := Model.fill_is hx hs3 hs
  unfold Model.finish
  rw [hev]
  refine ⟨r, hr, fun n c f => if holeAt sc (X n) c f then S n c f else (X n c f).val, ?_, ?_⟩
  · refine Is.is3 hr' fun n hn c hc f hf => ?_
    show (if holeAt sc (X n) c f then Fl.fin (S n c f) else X n c f) = .fin (if _ then _ else _)
    split_ifs with hh
    · rfl
    · rcases (hX n hn).observed c (by omega) f (by omega) with e | ⟨y, e, hy⟩
      · exact absurd ((hX n hn).nan_hole c (by omega) f (by omega) e) hh
      · rw [e]; rfl
  · intro n hn c hc f hf
    dsimp only
    split_ifs with hh
    · exact hS n hn c hc f hf
    · rcases (hX n hn).observed c (by omega) f (by omega) with e | ⟨y, e, hy⟩
      · exact absurd ((hX n hn).nan_hole c (by omega) f (by omega) e) hh
      · rw [e]; exact hy

end MultiEinet
end Einet
