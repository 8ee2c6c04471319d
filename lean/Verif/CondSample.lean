import Verif.CondBuild
import Verif.MultiEinetSample
import Verif.LawExt

/-!
# Samples of einets with `ConditionalBinomial` leaves
-/

open Classical MeasureTheory
open scoped ENNReal
noncomputable section
namespace Einet
open Tensor

namespace Model

/-- the input of the first layer depends on the leaf through its values only. -/
theorem frontRow_withBase {M : Model} {B B' : BaseLeaf} (hd : B.SameDims M.leaf.base) (hd' : B'.SameDims M.leaf.base)
    {sc sc' : Option (List Nat)} {X X' : Data} (h : B.leafSum sc X = B'.leafSum sc' X') :
    (M.withBase B).frontRow sc X = (M.withBase B').frontRow sc' X' := by
  have e : B.num_features = B'.num_features := hd.1.trans hd'.1.symm
  obtain ⟨_, _, _, _, _, leaf, _, _, _, _⟩ := M
  cases leaf with
  | direct _ =>
    simp only [withBase, Leaf.withBase, frontRow, h]
    rfl
  | factorized L => simp only [withBase, Leaf.withBase, frontRow, h, e]
  | simple L => simp only [withBase, Leaf.withBase, frontRow, FactSimple.cardinality, h, e]

theorem withBase_CachesOK (M : Model) (B : BaseLeaf) : (M.withBase B).CachesOK = M.CachesOK := rfl

/-- the layers above, when every batch row has its own leaf. -/
theorem rows_upper {M : Model} {g : Nat → Nat → Nat} (h : M.WF g) {B : Nat → BaseLeaf} (hd : ∀ n, (B n).SameDims M.leaf.base)
    {y : Tensor Fl} {N : Nat} {X : Nat → Data} {sc : Option (List Nat)}
    (hnan : ∀ n c f i r, ((B n).entry sc (X n c f) c f i r).isnan = false)
    (hy : y.Is5 N M.num_channels M.num_features M.num_leaves M.num_repetitions
      fun n c f i r => (B n).entry sc (X n c f) c f i r) :
    Res.Sat (M.leaf.merge y >>= M.upper) fun z => M.CachesOK N z.2 fun n => (M.withBase (B n)).frontRow sc (X n) := by
  set Y : Nat → Nat → Nat → Nat → Nat → Fl := fun n c f i r => (B n).entry sc (X n c f) c f i r with hY
  have hG : (M.leaf.base.ghost Y).SameDims M.leaf.base := ⟨rfl, rfl, rfl, rfl⟩
  have hentry : ∀ (n : Nat) c f i r, (M.leaf.base.ghost Y).entry none (.fin (n : ℝ)) c f i r = Y n c f i r := by
    intro n c f i r
    have e : (M.leaf.base.ghost Y).logProb c f i r (.fin n) = Y n c f i r := by
      show Y ⌊(n : ℝ)⌋₊ c f i r = _
      rw [Nat.floor_natCast]
    show (if ((M.leaf.base.ghost Y).logProb c f i r (.fin n)).isnan = true then Fl.fin 0
      else (M.leaf.base.ghost Y).logProb c f i r (.fin n)) = _
    rw [e, hnan n c f i r]
    rfl
  have hsum : ∀ n : Nat, (M.leaf.base.ghost Y).leafSum none (fun _ _ => .fin (n : ℝ)) = (B n).leafSum sc (X n) := by
    intro n
    funext f i r
    unfold BaseLeaf.leafSum
    rw [show (M.leaf.base.ghost Y).num_channels = (B n).num_channels from (hd n).2.1.symm]
    exact Fl.sumN_congr fun c _ => hentry n c f i r
  have := withBase_upper_entry hG h (y := y) (N := N) (X := fun n _ _ => .fin (n : ℝ)) (sc := none)
    (hy.congr ((AllIdx_iff _ _).2 fun j hj => by
      match j, hj with
      | [n, c, f, i, r], _ => exact (hentry n c f i r).symm))
  refine this.mono fun z hz => ?_
  have h2 := hz.2
  rw [withBase_CachesOK] at h2
  have e : (fun n : Nat => (M.withBase (M.leaf.base.ghost Y)).frontRow none fun _ _ => .fin (n : ℝ)) =
      fun n => (M.withBase (B n)).frontRow sc (X n) := by
    funext n
    exact frontRow_withBase hG (hd n) (hsum n)
  rw [e] at h2
  exact h2

end Model

namespace CondLeaf
variable {L : CondLeaf} {g : (Nat → Nat → Nat → Fl) → Nat → ℝ} {l : List Nat}

theorem leafAt_nan (X : Data) (sc : Option (List Nat)) {v : Fl} (hv : v.isnan = false) (c f i r : Nat) :
    ((L.leafAt g l X).entry sc v c f i r).isnan = false := by
  have hp : (0 : ℝ) ≤ binomialPmf L.total_count (Real.sigmoid (L.theta g l X c f i r)) ⌊v.val⌋₊ := by
    have := sigmoid_pos' (L.theta g l X c f i r)
    unfold binomialPmf
    have h1 := this.1.le; have h2 := this.2.le
    positivity
  have h : ((L.leafAt g l X).logProb c f i r v).isnan = false := by
    show (Fl.log (.fin (binomialPmf L.total_count (Real.sigmoid (L.theta g l X c f i r)) ⌊v.val⌋₊))).isnan = false
    unfold Fl.log
    rcases hp.lt_or_eq with h | h
    · simp [h, Fl.isnan]
    · simp [← h, Fl.isnan]
  unfold BaseLeaf.entry
  rw [hv]
  cases sc with
  | none => simp [h]
  | some s =>
    dsimp only
    rw [if_neg (by simp : ¬ (false = true))]
    split_ifs
    · rfl
    · exact h

/-- the values drawn. -/
def drawsAt (L : CondLeaf) (g : (Nat → Nat → Nat → Fl) → Nat → ℝ) (l : List Nat) (N : Nat) (X : Nat → Data) : Rand (List Nat → ℝ) :=
  Rand.drawAll (box [N, L.num_channels, L.num_features, L.num_leaves, L.num_repetitions])
    (fun j => Rand.leaf ((L.leafAt g l (X (at' 0 j))).law 1 (at' 1 j) (at' 2 j) (at' 3 j) (at' 4 j)) Rand.pure) (fun _ => 0)

theorem drawAll_congr {α : Type} (is : List (List Nat)) {p q : List Nat → Rand α} (h : ∀ i ∈ is, p i = q i) (d : List Nat → α) :
    Rand.drawAll is p d = Rand.drawAll is q d := by
  induction is with
  | nil => rfl
  | cons i is ih =>
    unfold Rand.drawAll
    rw [h i (by simp), ih fun j hj => h j (by simp [hj])]

/-- the leaf without selection: the draws of all rows, followed by the selection of the repetition. -/
theorem sampleAll_run (h : L.OK g l) {ctx : Ctx} {N O I : Nat} (hN : 0 < N) {idx : Nat → Nat → Nat} {rr : Nat → Nat}
    (hc : CtxOK ctx N O I L.num_repetitions idx rr) (hm : ctx.is_mpe = false) {x : Tensor Fl} {X : Nat → Data}
    (hx : x.Is3 N L.num_channels L.num_features X)
    (hX : ∀ n, n < N → ∀ c, c < L.num_channels → ∀ f ∈ l, (X n c f).IsFin) :
    ∃ res : (List Nat → ℝ) → Res (Tensor ℝ),
      L.sampleAll ctx (some x) = (L.drawsAt g l N X).bind (fun v => Rand.lift (res v)) ∧
      ∀ v, Res.Sat (res v) fun t => t.Is4 N L.num_channels L.num_features L.num_leaves fun n c f i => v [n, c, f, i, rr n] := by
  obtain ⟨p, hp, hpi⟩ := logits_is h hN hx hX
  have hps : p.shape = [N, L.num_channels, L.num_features, L.num_leaves, L.num_repetitions] := hpi.1
  refine ⟨fun v => do
    let r_idxs ← (ctx.indices_repetition.unsqueezeEnd 4).expand
      [none, some L.num_channels, some L.num_features, some L.num_leaves, none]
    (← (⟨[N, L.num_channels, L.num_features, L.num_leaves, L.num_repetitions], v⟩ : Tensor ℝ).gather 4 r_idxs).squeeze 4,
    ?_, fun v => ?_⟩
  · unfold sampleAll drawsAt
    dsimp only
    rw [hp, Rand.lift_ok, Rand.pure_bind, hm, if_neg (by simp), Rand.bind_assoc, hps]
    congr 1
    refine drawAll_congr _ (fun j hj => ?_) _
    have hj' := mem_box.1 hj
    match j, hj' with
    | [n, c, f, i, r], ⟨hn, hc, hf, hi, hr, _⟩ =>
      rw [Is.get hpi (i := [n, c, f, i, r]) ⟨hn, hc, hf, hi, hr, trivial⟩]
      rfl
  · refine (expand_is (unsqueezeEnd_is 4 hc.ir) (s' := [N, L.num_channels, L.num_features, L.num_leaves, 1])
      (by simp [expandShape])).bind fun ri hri => ?_
    refine (gather_is (s := [N, L.num_channels, L.num_features, L.num_leaves, L.num_repetitions]) (g := v)
      (Is.intro rfl fun _ _ => rfl) hri (by simp) (by simp [leExcept]) ?_).bind fun t ht => ?_
    · rw [AllIdx_iff]
      intro j hj
      have h0 := InB_at (d := 0) hj (by simp)
      match j, hj with
      | [a, b, c, d, e], hj =>
        simp only [at'] at h0
        simp [clipAll, at', clip_of_lt h0, hc.ir_lt a h0]
    · refine (squeeze_is ht (by simp) (by simp [at'])).mono fun u hu => ?_
      refine hu.is4 ?_
      intro n hn c hc f hf i hi
      simp [insAt, setAt, clipAll, at', clip_of_lt hn]

end CondLeaf

namespace CondEinet
variable {E : CondEinet} {grp : Nat → Nat → Nat} {g : (Nat → Nat → Nat → Fl) → Nat → ℝ} {l : List Nat}

/-- the leaves are combined by a factorized leaf (the structure is not bottom-up). -/
def Merged (E : CondEinet) : Prop := ∀ B, E.net.leaf ≠ .direct B

/-- the leaf: the draws of all rows, followed by a selection. -/
theorem leaf_run (h : E.WF grp g l) (hM : E.Merged) {ctx : Ctx} {N : Nat} (hN : 0 < N) {idx : Nat → Nat → Nat} {rr : Nat → Nat}
    (hc : CtxOK ctx N E.net.numOut E.net.num_leaves E.net.num_repetitions idx rr) (hm : ctx.is_mpe = false)
    {x : Tensor Fl} {X : Nat → Data} (hx : x.Is3 N E.net.num_channels E.net.num_features X)
    (hX : ∀ n, n < N → ∀ c, c < E.net.num_channels → ∀ f ∈ l, (X n c f).IsFin) :
    ∃ res : (List Nat → ℝ) → Res (Tensor ℝ), ((Rand.lift (E.net.unpermute ctx)).bind fun c => E.sampleLeaf c (some x)) =
        (E.leaf.drawsAt g l N X).bind (fun v => Rand.lift (res v)) ∧
      ∀ v, Res.Sat (res v) fun t => t.Is3 N E.net.num_channels E.net.num_features
        fun n c f => v [n, c, f, idx n (E.net.grpS grp (rr n) f), rr n] := by
  have hfr := h.net.front
  have hF := hfr.features; have hC := hfr.channels; have hI := hfr.leaves; have hR := hfr.reps
  have e1 := h.features; have e2 := h.channels; have e3 := h.leaves; have e4 := h.reps
  have hc2 := hc
  rw [← e4] at hc2
  have hnp : E.net.permutation = none := hfr.noperm hM
  have hun : E.net.unpermute ctx = .ok ctx := by unfold Model.unpermute; rw [hnp]
  obtain ⟨res, h1, h2⟩ := CondLeaf.sampleAll_run h.ok hN hc2 hm (by rw [e1, e2]; exact hx) (by rw [e2]; exact hX)
  cases hL : E.net.leaf with
  | direct B => exact absurd hL (hM B)
  | factorized L =>
    simp only [hL, Leaf.base] at hF hC hI hR
    have hO : E.net.numOut = L.num_features_out := by unfold Model.numOut; rw [hL]
    rw [hO, ← hI, ← hR] at hc
    refine ⟨fun v => res v >>= fun t => L.index ctx t, ?_, fun v => ?_⟩
    · rw [hun]
      show E.sampleLeaf ctx (some x) = _
      unfold sampleLeaf
      rw [hL]
      dsimp only
      rw [h1, Rand.bind_assoc]
      congr 1
      funext vs
      rw [Rand.lift_bind]
    · refine (h2 v).bind fun t ht => ?_
      rw [e1, e2, e3, ← hF, ← hC, ← hI] at ht
      refine (FactLeaf.index_is (hfr.fact L hL) hN hc ht).mono fun u hu => ?_
      rw [hF, hC] at hu
      have hgs : ∀ r f, E.net.grpS grp r f = grp r f := by intro r f; unfold Model.grpS; rw [hL]
      simp only [hgs]
      exact hu
  | simple L =>
    simp only [hL, Leaf.base] at hF hC hI hR
    have hO : E.net.numOut = L.num_features_out := by unfold Model.numOut; rw [hL]
    rw [hO, ← hI, ← hR] at hc
    refine ⟨fun v => res v >>= fun t => L.index ctx t, ?_, fun v => ?_⟩
    · rw [hun]
      show E.sampleLeaf ctx (some x) = _
      unfold sampleLeaf
      rw [hL]
      dsimp only
      rw [h1, Rand.bind_assoc]
      congr 1
      funext vs
      rw [Rand.lift_bind]
    · refine (h2 v).bind fun t ht => ?_
      rw [e1, e2, e3, ← hF, ← hC, ← hI] at ht
      refine (FactSimple.index_is (hfr.simple L hL) hc ht).mono fun u hu => ?_
      rw [hF, hC] at hu
      have hgs : ∀ r f, E.net.grpS grp r f = L.inverse_permutation.getD f 0 % L.num_features_out := by
        intro r f; unfold Model.grpS; rw [hL]
      simp only [hgs]
      exact hu

/-- what evidence leaves in the caches. -/
theorem evidence_caches (h : E.WF grp g l) {a : SampleArgs} {x : Tensor Fl} {X : Nat → Data} (hev : a.evidence = some x)
    (hN : 0 < a.count) (hx : x.Is3 a.count E.net.num_channels E.net.num_features X)
    (hX : ∀ n, n < a.count → E.leaf.Counts (X n)) (hnan : ∀ n c f, (X n c f).isnan = false)
    {sc : Option (List Nat)} (hs : Scopes.resolveOpt E.net.num_features a.marginalized_scopes = .ok sc) :
    ∃ cs, E.evidenceCaches a = .ok cs ∧ E.net.EvM true a.count cs (fun n => (E.atRow g l (X n)).frontRow sc (X n)) := by
  have hx' : x.Is3 a.count E.leaf.num_channels E.leaf.num_features X := by rw [h.channels, h.features]; exact hx
  have h1 := CondLeaf.forward_is h.ok hN hx' hX (ms := a.marginalized_scopes) (sc := sc) (by rw [h.features]; exact hs)
  rw [h.channels, h.features, h.leaves, h.reps] at h1
  have h2 : Res.Sat (E.run x a.marginalized_scopes) fun y =>
      E.net.CachesOK a.count y.2 fun n => (E.atRow g l (X n)).frontRow sc (X n) := by
    unfold run
    rw [Model.prepInput_is hx]
    simp only [Res.ok_bind]
    refine h1.bind fun y hy => ?_
    exact Model.rows_upper h.net (fun n => h.same (X n))
      (fun n c f i r => CondLeaf.leafAt_nan _ _ (hnan n c f) c f i r) hy
  obtain ⟨y, hy, hc⟩ := h2
  refine ⟨y.2, ?_, hc.evM⟩
  unfold evidenceCaches
  rw [hev]
  dsimp only
  rw [hy]
  rfl

/-- path, inverse permutation and leaf. -/
def sampleValues (E : CondEinet) (a : SampleArgs) (cs : Caches) : Rand (Tensor ℝ) :=
  (E.net.samplePath a cs).bind fun ctx => E.sampleLeaf ctx a.evidence

theorem sampleValues_eq (E : CondEinet) (a : SampleArgs) (cs : Caches) : E.sampleValues a cs =
    (E.net.corePath a cs).bind fun ctx => (Rand.lift (E.net.unpermute ctx)).bind fun c => E.sampleLeaf c a.evidence := by
  unfold sampleValues
  rw [Model.samplePath_eq, Rand.bind_assoc]

theorem sample_eq (E : CondEinet) (a : SampleArgs) {cs : Caches} (h1 : a.check E.net = .ok ())
    (h2 : E.evidenceCaches a = .ok cs) :
    E.sample a = (E.sampleValues a cs).bind fun s => Rand.lift (Model.finish a s) := by
  unfold sample sampleValues
  rw [h1, h2]
  simp only [Rand.lift_ok, Rand.pure_bind, Rand.bind_assoc]

theorem law_prob (L : CondLeaf) (g : (Nat → Nat → Nat → Fl) → Nat → ℝ) (l : List Nat) (Y : Data) (c f i r : Nat) :
    IsProbabilityMeasure ((L.leafAt g l Y).law 1 c f i r) :=
  (binomialLeaf_samp _ _ _).prob 1 one_pos c f i r

/-- a sampling call given counts as evidence. -/
structure Given (E : CondEinet) (g : (Nat → Nat → Nat → Fl) → Nat → ℝ) (l : List Nat) (a : SampleArgs) (x : Tensor Fl)
    (X : Nat → Data) (sc : Option (List Nat)) : Prop where
  evidence : a.evidence = some x
  count : 0 < a.count
  is3 : x.Is3 a.count E.net.num_channels E.net.num_features X
  counts : ∀ n, n < a.count → E.leaf.Counts (X n)
  mpe : a.is_mpe = false
  temp : a.temperature_sums ≠ 0
  cls : E.net.ClassOK a.count a.class_index

theorem Given.fin (h : E.WF grp g l) {a : SampleArgs} {x : Tensor Fl} {X : Nat → Data} {sc : Option (List Nat)}
    (ha : E.Given g l a x X sc) : ∀ n, n < a.count → ∀ c, c < E.net.num_channels → ∀ f ∈ l, (X n c f).IsFin :=
  fun n hn => counts_fin h (ha.counts n hn)

theorem evidenceOK {X Y : Data} (hX : E.leaf.Counts X) (sc : Option (List Nat)) : EvidenceOK (E.leaf.leafAt g l Y) sc X := by
  refine ⟨hX.observed Y, fun c hc f hf e => ?_⟩
  obtain ⟨k, -, e'⟩ := hX c hc f hf
  rw [e'] at e
  cases e

theorem finRows (h : E.WF grp g l) {N : Nat} {X : Nat → Data} (hX : ∀ n, n < N → E.leaf.Counts (X n))
    (sc : Option (List Nat)) : E.net.FinRows N fun n => (E.atRow g l (X n)).frontRow sc (X n) := by
  intro n hn d hd k hk r hr
  have := Model.evidence_finRows (h.row (X n)) (atRow_proper (X n)) (N := 1) (X := fun _ => X n) (sc := sc) (fun _ _ => by
    rw [atRow_base]; exact evidenceOK (hX n hn) sc)
  refine this 0 one_pos d ?_ k hk r hr
  rw [atRow, Model.withBase_numOut _ _ (h.same _)]
  exact hd

/-- outcomes of drawing the values. -/
theorem sampleValues_All (h : E.WF grp g l) (hM : E.Merged) {a : SampleArgs} {x : Tensor Fl} {X : Nat → Data}
    {sc : Option (List Nat)} (ha : E.Given g l a x X sc) {cs : Caches}
    (hev : E.net.EvM true a.count cs fun n => (E.atRow g l (X n)).frontRow sc (X n)) :
    (E.sampleValues a cs).All fun t => t.shape = [a.count, E.net.num_channels, E.net.num_features] := by
  rw [sampleValues_eq]
  refine (Model.corePath_All h.net ha.count ha.temp ha.cls hev (finRows h ha.counts sc)).bind fun ctx ⟨idx, rr, hctx, hce⟩ => ?_
  have hm : ctx.is_mpe = false := by rw [hce]; exact ha.mpe
  obtain ⟨res, h1, h2⟩ := leaf_run h hM ha.count hctx hm ha.is3 (ha.fin h)
  rw [ha.evidence, h1]
  refine Rand.All.bind (P := fun _ => True) ?_ fun v _ => Rand.All.lift ((h2 v).mono fun t ht => ht.1)
  unfold CondLeaf.drawsAt
  refine (Rand.All_drawAll (P := fun _ _ => True) fun i _ => ?_).mono fun _ _ => trivial
  exact fun _ => trivial

/-- the values drawn have a law. -/
theorem sampleValues_hasLaw (h : E.WF grp g l) (hM : E.Merged) {a : SampleArgs} {x : Tensor Fl} {X : Nat → Data}
    {sc : Option (List Nat)} (ha : E.Given g l a x X sc) {cs : Caches}
    (hev : E.net.EvM true a.count cs fun n => (E.atRow g l (X n)).frontRow sc (X n)) :
    (E.sampleValues a cs).HasLaw fun s => (fun n c f => s.get [(n : Nat), (c : Nat), (f : Nat)] :
      Fin a.count → Pt E.net.num_channels E.net.num_features) := by
  rw [sampleValues_eq]
  refine Rand.HasLaw.bind (Model.disc_corePath E.net a cs)
    (Model.corePath_All h.net ha.count ha.temp ha.cls hev (finRows h ha.counts sc)) fun ctx ⟨idx, rr, hctx, hce⟩ => ?_
  have hm : ctx.is_mpe = false := by rw [hce]; exact ha.mpe
  obtain ⟨res, h1, h2⟩ := leaf_run h hM ha.count hctx hm ha.is3 (ha.fin h)
  rw [ha.evidence, h1]
  have hd : (E.leaf.drawsAt g l a.count X).HasLaw fun v => v := by
    unfold CondLeaf.drawsAt
    have : ∀ j : List Nat, SFinite ((E.leaf.leafAt g l (X (at' 0 j))).law 1 (at' 1 j) (at' 2 j) (at' 3 j) (at' 4 j)) := by
      intro j
      have := law_prob E.leaf g l (X (at' 0 j)) (at' 1 j) (at' 2 j) (at' 3 j) (at' 4 j)
      infer_instance
    exact Rand.HasLaw.drawAll _ _ _
  have hm : Measurable fun (v : List Nat → ℝ) => (fun n c f => v [(n : Nat), (c : Nat), (f : Nat),
      idx n (E.net.grpS grp (rr n) f), rr n] : Fin a.count → Pt E.net.num_channels E.net.num_features) :=
    measurable_pi_iff.2 fun n => measurable_pi_iff.2 fun c => measurable_pi_iff.2 fun f => measurable_pi_apply _
  obtain ⟨ν, hν⟩ := hd.map hm
  refine ⟨ν, fun φ hφ => ?_⟩
  rw [← hν φ hφ, Rand.E_bind]
  congr 1
  funext v
  obtain ⟨s, hs, hs'⟩ := h2 v
  rw [hs]
  show φ _ = φ _
  congr 1
  funext n c f
  exact hs'.get n.2 c.2 f.2

/-- Law of the values drawn, as expectations of products of test functions. -/
theorem sampleValues_E (h : E.WF grp g l) (hM : E.Merged) {a : SampleArgs} {x : Tensor Fl} {X : Nat → Data}
    {sc : Option (List Nat)} (ha : E.Given g l a x X sc) {cs : Caches}
    (hev : E.net.EvM true a.count cs fun n => (E.atRow g l (X n)).frontRow sc (X n)) {t : Nat → Nat → Nat → ℝ → ℝ≥0∞}
    (ht : ∀ n c f, Measurable (t n c f)) :
    (E.sampleValues a cs).E (fun s => prod3 a.count E.net.num_channels E.net.num_features fun n c f =>
        t n c f (s.get [n, c, f])) =
      ∏ n ∈ Finset.range a.count, ∑ k ∈ Finset.range E.net.num_classes, E.net.classW a.temperature_sums a.class_index n k *
        E.net.pathVal true a.temperature_sums ((E.atRow g l (X n)).frontRow sc (X n)) (E.net.regionS grp fun c f i r =>
          (E.leaf.leafAt g l (X n)).compE false 1 c f i r (t n c f)) k := by
  rw [sampleValues_eq, Rand.E_bind, ← Model.corePath_E h.net ha.count ha.mpe ha.temp ha.cls hev (finRows h ha.counts sc)]
  refine Rand.E_congr (Model.corePath_All h.net ha.count ha.temp ha.cls hev (finRows h ha.counts sc))
    fun ctx ⟨idx, rr, hctx, hce⟩ => ?_
  have hm : ctx.is_mpe = false := by rw [hce]; exact ha.mpe
  obtain ⟨res, h1, h2⟩ := leaf_run h hM ha.count hctx hm ha.is3 (ha.fin h)
  rw [ha.evidence, h1, Rand.E_bind]
  have e1 : ∀ v, (Rand.lift (res v)).E (fun s => prod3 a.count E.net.num_channels E.net.num_features fun n c f =>
      t n c f (s.get [n, c, f])) = prod3 a.count E.leaf.num_channels E.leaf.num_features fun n c f =>
      t n c f (v [n, c, f, idx n (E.net.grpS grp (rr n) f), rr n]) := by
    intro v
    obtain ⟨s, hs, hs'⟩ := h2 v
    rw [hs, h.features, h.channels]
    exact prod3_congr fun n hn c hc f hf => by rw [hs'.get hn hc hf]
  simp only [e1]
  have : ∀ j : List Nat, IsProbabilityMeasure ((E.leaf.leafAt g l (X (at' 0 j))).law 1 (at' 1 j) (at' 2 j) (at' 3 j) (at' 4 j)) :=
    fun j => law_prob _ _ _ _ _ _ _ _
  unfold CondLeaf.drawsAt
  rw [BaseLeaf.drawAll_E (μ := fun j => (E.leaf.leafAt g l (X (at' 0 j))).law 1 (at' 1 j) (at' 2 j) (at' 3 j) (at' 4 j))
    (K := fun n f => idx n (E.net.grpS grp (rr n) f)) (rr := rr) (fun n hn f hf => by
      rw [h.leaves]
      exact hctx.io_lt n hn _ (h.net.front.grpS_lt (hctx.ir_lt n hn) (by rw [← h.features]; exact hf)))
    (fun n hn => by rw [h.reps]; exact hctx.ir_lt n hn) ht, h.channels, h.features]
  unfold prod3 prod2
  refine Finset.prod_congr rfl fun n hn => ?_
  have hn' : n < a.count := by simpa using hn
  have hrr : ctx.indices_repetition.get [n] = rr n := Is.get hctx.ir (i := [n]) ⟨hn', by simp⟩
  dsimp only
  rw [hrr]
  refine Eq.trans ?_ ((Model.prod_regionS h.net.front (hctx.ir_lt n hn') (fun c f i r =>
    (E.leaf.leafAt g l (X n)).compE false 1 c f i r (t n c f)) (idx n)).symm.trans ?_)
  · refine Finset.prod_congr rfl fun f _ => Finset.prod_congr rfl fun c _ => ?_
    simp only [at', BaseLeaf.compE, Bool.false_eq_true, if_false]
  · refine Finset.prod_congr rfl fun o ho => ?_
    rw [hctx.io.get hn' (by simpa using ho)]

theorem samplable_row (h : E.WF grp g l) (Y : Data) : (E.atRow g l Y).Samplable grp := by
  refine ⟨h.row Y, ?_, ?_⟩
  · rw [atRow_base]; exact binomialLeaf_samp _ _ _
  · have := h.ok.even; have := h.ok.pos
    show 0 < E.net.num_features
    rw [← h.features]
    omega

theorem mirrored_row (h : E.WF grp g l) (hmir : E.net.Mirrored grp) (Y : Data) : (E.atRow g l Y).Mirrored grp := by
  intro r hr f hf
  unfold atRow
  rw [Model.withBase_grpS (h.same Y), Model.withBase_grpF (h.same Y)]
  exact hmir r hr f hf

theorem regionS_row (h : E.WF grp g l) (Y : Data) : (E.atRow g l Y).regionS grp = E.net.regionS grp := by
  unfold Model.regionS atRow
  rw [Model.withBase_grpS (h.same Y)]
  rfl

/-- the law of a row with the logits of `X` and the entries of `Y` given. -/
def rowLaw (E : CondEinet) (g : (Nat → Nat → Nat → Fl) → Nat → ℝ) (l : List Nat) (X : Data) (k : Nat) (Y : Data) :
    Measure (Pt E.net.num_channels E.net.num_features) := (E.atRow g l X).condLaw k Y

/-- **Law of `sample` given counts**: independent rows; the class is drawn from the class weights, then the entries of the
listed features from the conditional density of that class. -/
theorem sample_evidence_measure (h : E.WF grp g l) (hM : E.Merged) (hmir : E.net.Mirrored grp) {a : SampleArgs} {x : Tensor Fl}
    {X : Nat → Data} {sc : Option (List Nat)} (ha : E.Given g l a x X sc) (hnan : ∀ n c f, (X n c f).isnan = false)
    (hci : a.class_index = none) (hns : a.num_samples = none) (hT : a.temperature_sums = 1)
    (hs : Scopes.resolveOpt E.net.num_features a.marginalized_scopes = .ok sc)
    {φ : (Fin a.count → Pt E.net.num_channels E.net.num_features) → ℝ≥0∞} (hφ : Measurable φ) :
    (E.sample a).E (fun s => φ (s.vals a.count E.net.num_channels E.net.num_features)) =
      ∫⁻ ω, φ ω ∂Measure.pi fun n : Fin a.count =>
        (∑ k ∈ Finset.range E.net.num_classes, E.net.classW 1 none n k • E.rowLaw g l (X n) k (masked sc (X n)) :
          Measure (Pt E.net.num_channels E.net.num_features)) := by
  obtain ⟨cs, hcs, hevm⟩ := evidence_caches h ha.evidence ha.count ha.is3 ha.counts hnan hs
  rw [sample_eq E a (Model.check_ok (by rw [hci]; trivial) fun _ => ⟨hci, hns⟩) hcs]
  have hEv : ∀ n, n < a.count → EvidenceOK (E.atRow g l (X n)).leaf.base sc (X n) := fun n hn => by
    rw [atRow_base]; exact evidenceOK (ha.counts n hn) sc
  have hprob : ∀ n : Fin a.count, IsProbabilityMeasure
      (∑ k ∈ Finset.range E.net.num_classes, E.net.classW 1 none n k • E.rowLaw g l (X n) k (masked sc (X n)) :
        Measure (Pt E.net.num_channels E.net.num_features)) := fun n =>
    Model.mixLaw_prob (h.row (X n)) (atRow_proper (X n)) (hEv n n.2).masked (ci := none) (N := a.count) trivial n.2
  refine law_of_prod ?_ (fun t ht _ => ?_) hφ
  · have hm : Measurable fun (ω : Fin a.count → Pt E.net.num_channels E.net.num_features) =>
        (fun n c f => if holeAt sc (X n) c f then ω n c f else (X n c f).val :
          Fin a.count → Pt E.net.num_channels E.net.num_features) := by
      refine measurable_pi_iff.2 fun n => measurable_pi_iff.2 fun c => measurable_pi_iff.2 fun f => ?_
      split_ifs
      · exact (measurable_pi_apply f).comp ((measurable_pi_apply c).comp (measurable_pi_apply n))
      · exact measurable_const
    obtain ⟨ν, hν⟩ := (sampleValues_hasLaw h hM ha hevm).map hm
    refine ⟨ν, fun φ hφ => ?_⟩
    rw [← hν φ hφ, Rand.E_bind]
    refine Rand.E_congr (sampleValues_All h hM ha hevm) fun s hsh => ?_
    have hs3 : s.Is3 a.count E.net.num_channels E.net.num_features fun n c f => s.get [n, c, f] :=
      Is.is3 (Is.refl s hsh) fun _ _ _ _ _ _ => rfl
    obtain ⟨r, hr, hr'⟩ := Model.fill_is ha.is3 hs3 hs
    unfold Model.finish
    rw [ha.evidence]
    dsimp only
    rw [hr]
    show φ _ = φ _
    congr 1
    funext n c f
    unfold Tensor.vals
    rw [hr'.get n.2 c.2 f.2]
    split_ifs <;> rfl
  · rw [Rand.E_bind]
    set t' : Nat → Nat → Nat → ℝ → ℝ≥0∞ := fun n c f y =>
      if holeAt sc (X n) c f then t n c f y else t n c f (X n c f).val with ht'
    have ht'm : ∀ n c f, Measurable (t' n c f) := by
      intro n c f
      rw [ht']
      dsimp only
      split_ifs
      · exact ht n c f
      · exact measurable_const
    have e0 : (E.sampleValues a cs).E (fun s => (Rand.lift (Model.finish a s)).E fun s =>
          prod3 a.count E.net.num_channels E.net.num_features fun n c f => t n c f (s.get [n, c, f]).val) =
        (E.sampleValues a cs).E (fun s => prod3 a.count E.net.num_channels E.net.num_features fun n c f =>
          t' n c f (s.get [n, c, f])) := by
      refine Rand.E_congr (sampleValues_All h hM ha hevm) fun s hsh => ?_
      have hs3 : s.Is3 a.count E.net.num_channels E.net.num_features fun n c f => s.get [n, c, f] :=
        Is.is3 (Is.refl s hsh) fun _ _ _ _ _ _ => rfl
      obtain ⟨r, hr, hr'⟩ := Model.fill_is ha.is3 hs3 hs
      unfold Model.finish
      rw [ha.evidence]
      dsimp only
      rw [hr]
      refine prod3_congr fun n hn c hc f hf => ?_
      rw [hr'.get hn hc hf, ht']
      dsimp only
      split_ifs <;> rfl
    rw [e0, sampleValues_E h hM ha hevm ht'm, hT, hci, Finset.prod_range]
    refine Finset.prod_congr rfl fun n _ => ?_
    have hmt : Measurable fun ω : Pt E.net.num_channels E.net.num_features =>
        ∏ f : Fin E.net.num_features, ∏ c : Fin E.net.num_channels, t n c f (ω c f) := Model.measurable_prod (ht n)
    rw [lintegral_finsetSum_measure]
    refine Finset.sum_congr rfl fun k hk => ?_
    have hk' : k < E.net.num_classes := by simpa using hk
    rw [lintegral_smul_measure, smul_eq_mul]
    congr 1
    refine Eq.trans ?_ (Model.lintegral_condLaw (h.row (X n)) (atRow_proper (X n)) (hEv n n.2).masked (k := k) hk' hmt).symm
    have hpv := Model.pathVal_evidence (samplable_row h (X n)) (atRow_proper (X n)) (mirrored_row h hmir (X n)) (hEv n n.2)
      (t := fun c f v => t n c f v.val) (fun c f => ht n c f) (k := k) hk'
    rw [regionS_row h, atRow_base] at hpv
    rw [atRow_base]
    exact hpv

/-! ### Most probable explanations -/

theorem sampleAll_mpe (h : E.leaf.OK g l) {ctx : Ctx} {N O I : Nat} (hN : 0 < N) {idx : Nat → Nat → Nat} {rr : Nat → Nat}
    (hc : CtxOK ctx N O I E.leaf.num_repetitions idx rr) (hm : ctx.is_mpe = true) {x : Tensor Fl} {X : Nat → Data}
    (hx : x.Is3 N E.leaf.num_channels E.leaf.num_features X)
    (hX : ∀ n, n < N → ∀ c, c < E.leaf.num_channels → ∀ f ∈ l, (X n c f).IsFin) :
    ∃ res : Res (Tensor ℝ), E.leaf.sampleAll ctx (some x) = Rand.lift res ∧
      Res.Sat res fun t => t.Is4 N E.leaf.num_channels E.leaf.num_features E.leaf.num_leaves
        fun n c f i => (E.leaf.leafAt g l (X n)).mode c f i (rr n) := by
  obtain ⟨p, hp, hpi⟩ := CondLeaf.logits_is h hN hx hX
  have hps : p.shape = [N, E.leaf.num_channels, E.leaf.num_features, E.leaf.num_leaves, E.leaf.num_repetitions] := hpi.1
  have hmod : (E.leaf.modes p ctx.num_samples).Is [N, E.leaf.num_channels, E.leaf.num_features, E.leaf.num_leaves,
      E.leaf.num_repetitions] fun j => (E.leaf.leafAt g l (X (at' 0 j))).mode (at' 1 j) (at' 2 j) (at' 3 j) (at' 4 j) := by
    have hval : ∀ n, n < N → ∀ c, c < E.leaf.num_channels → ∀ f, f < E.leaf.num_features → ∀ i, i < E.leaf.num_leaves →
        ∀ r, r < E.leaf.num_repetitions → (⌊Real.sigmoid (p.get [n, c, f, i, r]).val * (E.leaf.total_count + 1)⌋₊ : ℝ) =
          (E.leaf.leafAt g l (X n)).mode c f i r := by
      intro n hn c hc f hf i hi r hr
      rw [Is.get hpi (i := [n, c, f, i, r]) ⟨hn, hc, hf, hi, hr, trivial⟩]
      rfl
    have hs0 : (p.map fun l => (⌊Real.sigmoid l.val * (E.leaf.total_count + 1)⌋₊ : ℝ)).size 0 = N := by
      simp [Tensor.size, Tensor.map, hps, at']
    unfold CondLeaf.modes
    dsimp only
    rw [hs0, hc.ns]
    by_cases h1 : N = 1
    · subst h1
      rw [if_pos rfl]
      refine Is.intro (by simp [Tensor.map, hps, setAt]) fun j hj => ?_
      match j, hj with
      | [n, c, f, i, r], ⟨hn, hc, hf, hi, hr, _⟩ =>
        obtain rfl : n = 0 := by omega
        exact hval 0 hn c hc f hf i hi r hr
    · rw [if_neg h1]
      refine Is.intro (by simp [Tensor.map, hps]) fun j hj => ?_
      match j, hj with
      | [n, c, f, i, r], ⟨hn, hc, hf, hi, hr, _⟩ => exact hval n hn c hc f hf i hi r hr
  refine ⟨do
    let r_idxs ← (ctx.indices_repetition.unsqueezeEnd 4).expand
      [none, some E.leaf.num_channels, some E.leaf.num_features, some E.leaf.num_leaves, none]
    (← (E.leaf.modes p ctx.num_samples).gather 4 r_idxs).squeeze 4, ?_, ?_⟩
  · unfold CondLeaf.sampleAll
    dsimp only
    rw [hp, Rand.lift_ok, Rand.pure_bind, hm, if_pos rfl, Rand.pure_bind]
  · refine (expand_is (unsqueezeEnd_is 4 hc.ir) (s' := [N, E.leaf.num_channels, E.leaf.num_features, E.leaf.num_leaves, 1])
      (by simp [expandShape])).bind fun ri hri => ?_
    refine (gather_is hmod hri (by simp) (by simp [leExcept]) ?_).bind fun t ht => ?_
    · rw [AllIdx_iff]
      intro j hj
      have h0 := InB_at (d := 0) hj (by simp)
      match j, hj with
      | [a, b, c, d, e], hj =>
        simp only [at'] at h0
        simp [clipAll, at', clip_of_lt h0, hc.ir_lt a h0]
    · refine (squeeze_is ht (by simp) (by simp [at'])).mono fun u hu => ?_
      refine hu.is4 ?_
      intro n hn c hc f hf i hi
      simp [insAt, setAt, clipAll, at', clip_of_lt hn]

/-- what the leaf may return: for `is_mpe` the mode of the selected component. -/
theorem leaf_mpe (h : E.WF grp g l) (hM : E.Merged) {ctx : Ctx} {N : Nat} (hN : 0 < N) {idx : Nat → Nat → Nat} {rr : Nat → Nat}
    (hc : CtxOK ctx N E.net.numOut E.net.num_leaves E.net.num_repetitions idx rr) (hm : ctx.is_mpe = true)
    {x : Tensor Fl} {X : Nat → Data} (hx : x.Is3 N E.net.num_channels E.net.num_features X)
    (hX : ∀ n, n < N → ∀ c, c < E.net.num_channels → ∀ f ∈ l, (X n c f).IsFin) :
    ∃ res : Res (Tensor ℝ), ((Rand.lift (E.net.unpermute ctx)).bind fun c => E.sampleLeaf c (some x)) = Rand.lift res ∧
      Res.Sat res fun t => t.Is3 N E.net.num_channels E.net.num_features
        fun n c f => (E.leaf.leafAt g l (X n)).mode c f (idx n (E.net.grpS grp (rr n) f)) (rr n) := by
  have hfr := h.net.front
  have hF := hfr.features; have hC := hfr.channels; have hI := hfr.leaves; have hR := hfr.reps
  have e1 := h.features; have e2 := h.channels; have e3 := h.leaves; have e4 := h.reps
  have hc2 := hc
  rw [← e4] at hc2
  have hnp : E.net.permutation = none := hfr.noperm hM
  have hun : E.net.unpermute ctx = .ok ctx := by unfold Model.unpermute; rw [hnp]
  obtain ⟨res, h1, h2⟩ := sampleAll_mpe h.ok hN hc2 hm (by rw [e1, e2]; exact hx) (by rw [e2]; exact hX)
  cases hL : E.net.leaf with
  | direct B => exact absurd hL (hM B)
  | factorized L =>
    simp only [hL, Leaf.base] at hF hC hI hR
    have hO : E.net.numOut = L.num_features_out := by unfold Model.numOut; rw [hL]
    rw [hO, ← hI, ← hR] at hc
    refine ⟨res >>= fun t => L.index ctx t, ?_, ?_⟩
    · rw [hun]
      show E.sampleLeaf ctx (some x) = _
      unfold sampleLeaf
      rw [hL]
      dsimp only
      rw [h1, Rand.lift_bind]
    · refine h2.bind fun t ht => ?_
      rw [e1, e2, e3, ← hF, ← hC, ← hI] at ht
      refine (FactLeaf.index_is (hfr.fact L hL) hN hc ht).mono fun u hu => ?_
      rw [hF, hC] at hu
      have hgs : ∀ r f, E.net.grpS grp r f = grp r f := by intro r f; unfold Model.grpS; rw [hL]
      simp only [hgs]
      exact hu
  | simple L =>
    simp only [hL, Leaf.base] at hF hC hI hR
    have hO : E.net.numOut = L.num_features_out := by unfold Model.numOut; rw [hL]
    rw [hO, ← hI, ← hR] at hc
    refine ⟨res >>= fun t => L.index ctx t, ?_, ?_⟩
    · rw [hun]
      show E.sampleLeaf ctx (some x) = _
      unfold sampleLeaf
      rw [hL]
      dsimp only
      rw [h1, Rand.lift_bind]
    · refine h2.bind fun t ht => ?_
      rw [e1, e2, e3, ← hF, ← hC, ← hI] at ht
      refine (FactSimple.index_is (hfr.simple L hL) hc ht).mono fun u hu => ?_
      rw [hF, hC] at hu
      have hgs : ∀ r f, E.net.grpS grp r f = L.inverse_permutation.getD f 0 % L.num_features_out := by
        intro r f; unfold Model.grpS; rw [hL]
      simp only [hgs]
      exact hu

/-- **All outcomes**, with and without `is_mpe`: entries that are not listed keep their value; with `is_mpe` the others are
modes of leaves with the logits of the row. -/
theorem sample_All (h : E.WF grp g l) (hM : E.Merged) {a : SampleArgs} {x : Tensor Fl} {X : Nat → Data}
    (hev : a.evidence = some x) (hN : 0 < a.count) (hx : x.Is3 a.count E.net.num_channels E.net.num_features X)
    (hX : ∀ n, n < a.count → E.leaf.Counts (X n)) (hnan : ∀ n c f, (X n c f).isnan = false) (hci : a.class_index = none)
    (hns : a.num_samples = none) (hT : a.temperature_sums ≠ 0) {sc : Option (List Nat)}
    (hs : Scopes.resolveOpt E.net.num_features a.marginalized_scopes = .ok sc) :
    (E.sample a).All fun s => ∃ v : Nat → Nat → Nat → ℝ, s.Is3 a.count E.net.num_channels E.net.num_features
      (fun n c f => if holeAt sc (X n) c f then .fin (v n c f) else X n c f) ∧
      (a.is_mpe = true → ∀ n, n < a.count → ∀ c, c < E.net.num_channels → ∀ f, f < E.net.num_features →
        ∃ i r, i < E.net.num_leaves ∧ r < E.net.num_repetitions ∧ v n c f = (E.leaf.leafAt g l (X n)).mode c f i r) := by
  obtain ⟨cs, hcs, hevm⟩ := evidence_caches h hev hN hx hX hnan hs
  have hcok : E.net.ClassOK a.count a.class_index := by rw [hci]; trivial
  have hfinX : ∀ n, n < a.count → ∀ c, c < E.net.num_channels → ∀ f ∈ l, (X n c f).IsFin := fun n hn => counts_fin h (hX n hn)
  rw [sample_eq E a (Model.check_ok (by rw [hci]; trivial) fun _ => ⟨hci, hns⟩) hcs]
  have hv : (E.sampleValues a cs).All fun t => t.shape = [a.count, E.net.num_channels, E.net.num_features] ∧
      (a.is_mpe = true → ∀ n, n < a.count → ∀ c, c < E.net.num_channels → ∀ f, f < E.net.num_features →
        ∃ i r, i < E.net.num_leaves ∧ r < E.net.num_repetitions ∧ t.get [n, c, f] = (E.leaf.leafAt g l (X n)).mode c f i r) := by
    rw [sampleValues_eq, hev]
    refine (Model.corePath_All h.net hN hT hcok hevm (finRows h hX sc)).bind fun ctx ⟨idx, rr, hctx, hce⟩ => ?_
    by_cases hm : a.is_mpe = true
    · have hm' : ctx.is_mpe = true := by rw [hce]; exact hm
      obtain ⟨res, h1, h2⟩ := leaf_mpe h hM hN hctx hm' hx hfinX
      rw [h1]
      refine Rand.All.lift (h2.mono fun t ht => ⟨ht.1, fun _ n hn c hc f hf => ⟨idx n (E.net.grpS grp (rr n) f), rr n, ?_, ?_, ?_⟩⟩)
      · exact hctx.io_lt n hn _ (h.net.front.grpS_lt (hctx.ir_lt n hn) hf)
      · exact hctx.ir_lt n hn
      · exact ht.get hn hc hf
    · have hm' : ctx.is_mpe = false := by rw [hce]; exact (Bool.not_eq_true _).mp hm
      obtain ⟨res, h1, h2⟩ := leaf_run h hM hN hctx hm' hx hfinX
      rw [h1]
      refine Rand.All.bind (P := fun _ => True) ?_ fun v _ => Rand.All.lift ((h2 v).mono fun t ht => ⟨ht.1, fun e => absurd e hm⟩)
      unfold CondLeaf.drawsAt
      refine (Rand.All_drawAll (P := fun _ _ => True) fun i _ => ?_).mono fun _ _ => trivial
      exact fun _ => trivial
  refine hv.bind fun s ⟨hsh, hmode⟩ => ?_
  have hs3 : s.Is3 a.count E.net.num_channels E.net.num_features fun n c f => s.get [n, c, f] :=
    Is.is3 (Is.refl s hsh) fun _ _ _ _ _ _ => rfl
  unfold Model.finish
  rw [hev]
  dsimp only
  refine Rand.All.lift ((Model.fill_is hx hs3 hs).mono fun r hr => ⟨fun n c f => s.get [n, c, f], hr, hmode⟩)

/-! ### Calls that always raise -/

/-- without evidence the call raises. -/
theorem sample_none (E : CondEinet) {a : SampleArgs} (hev : a.evidence = none) (f : Tensor Fl → ℝ≥0∞) : (E.sample a).E f = 0 := by
  have hz : ∀ ctx, (E.sampleLeaf ctx none) = Rand.fail .type := by
    intro ctx
    unfold sampleLeaf CondLeaf.sample CondLeaf.sampleAll
    cases E.net.leaf <;> rfl
  unfold sample
  rw [hev]
  simp only [hz]
  have e : ∀ {α β : Type} (x : Rand α) (f : β → ℝ≥0∞) (g : α → Rand β), (∀ a, (g a).E f = 0) → (x.bind g).E f = 0 := by
    intro α β x f g hg
    rw [Rand.E_bind]
    simp only [hg]
    simpa using Rand.E_const_mul (c := 0) (x := x) (f := fun _ => 1) (by simp)
  exact e _ _ _ fun _ => e _ _ _ fun _ => e _ _ _ fun _ => rfl

/-- with a bottom-up structure the call raises. -/
theorem sample_direct (h : E.WF grp g l) {B : BaseLeaf} (hL : E.net.leaf = .direct B) {a : SampleArgs} {x : Tensor Fl}
    {X : Nat → Data} (hev : a.evidence = some x) (hN : 0 < a.count) (hx : x.Is3 a.count E.net.num_channels E.net.num_features X)
    (hX : ∀ n, n < a.count → E.leaf.Counts (X n)) (hnan : ∀ n c f, (X n c f).isnan = false) (hci : a.class_index = none)
    (hns : a.num_samples = none) (hT : a.temperature_sums ≠ 0) {sc : Option (List Nat)}
    (hs : Scopes.resolveOpt E.net.num_features a.marginalized_scopes = .ok sc) (f : Tensor Fl → ℝ≥0∞) : (E.sample a).E f = 0 := by
  obtain ⟨cs, hcs, hevm⟩ := evidence_caches h hev hN hx hX hnan hs
  have hcok : E.net.ClassOK a.count a.class_index := by rw [hci]; trivial
  have hfinX : ∀ n, n < a.count → ∀ c, c < E.leaf.num_channels → ∀ f ∈ l, (X n c f).IsFin := by
    rw [h.channels]; exact fun n hn => counts_fin h (hX n hn)
  have hx' : x.Is3 a.count E.leaf.num_channels E.leaf.num_features X := by rw [h.channels, h.features]; exact hx
  rw [sample_eq E a (Model.check_ok (by rw [hci]; trivial) fun _ => ⟨hci, hns⟩) hcs, sampleValues_eq, hev, Rand.bind_assoc,
    Rand.E_bind]
  refine (Rand.E_congr (g := fun _ => 0 * 1) (Model.corePath_All h.net hN hT hcok hevm (finRows h hX sc))
    fun ctx ⟨idx, rr, hctx, hce⟩ => ?_).trans (by
      simpa using Rand.E_const_mul (c := 0) (x := E.net.corePath a cs) (f := fun _ => 1) (by simp))
  have hfr := h.net.front
  have hO : E.net.numOut = E.net.num_features := by
    have := hfr.features
    unfold Model.numOut
    rw [hL] at this ⊢
    exact this
  obtain ⟨c, hcu, hcc, hcok'⟩ := Model.unpermute_ctx hfr hO hctx
  rw [← h.reps] at hcok'
  have hgather : ∀ t : Tensor ℝ, t.shape.length = 4 →
      ∃ e, (do (← t.gather 2 (c.indices_out.unsqueezeEnd 1)).squeeze 3 : Res (Tensor ℝ)) = .error e := by
    intro t ht
    have hr : (c.indices_out.unsqueezeEnd 1).shape = [a.count, E.net.num_features, 1] := by
      simp [Tensor.unsqueezeEnd, hcok'.io.1]
    refine ⟨.shape, ?_⟩
    unfold Tensor.gather
    rw [require_true _ (by rw [Tensor.rank, ht]; omega), hr]
    simp only [Res.ok_bind]
    rw [require_false]
    · rfl
    · match t.shape, ht with
      | [_, _, _, _], _ => simp [leExcept]
  rw [hcu]
  show ((E.sampleLeaf c (some x)).bind _).E f = _
  unfold sampleLeaf
  rw [hL]
  dsimp only
  unfold CondLeaf.sample
  by_cases hm : c.is_mpe = true
  · obtain ⟨res, h1, t, h2, h3⟩ := sampleAll_mpe h.ok hN hcok' hm hx' hfinX
    rw [h1, h2, Rand.lift_ok, Rand.pure_bind]
    obtain ⟨e, he⟩ := hgather t (by rw [h3.1]; rfl)
    rw [he]
    simp [Rand.lift, Rand.E]
  · obtain ⟨res, h1, h2⟩ := CondLeaf.sampleAll_run h.ok hN hcok' ((Bool.not_eq_true _).mp hm) hx' hfinX
    rw [h1]
    simp only [Rand.bind_assoc]
    rw [Rand.E_bind]
    have : ∀ v, ((Rand.lift (res v)).bind fun samples => (Rand.lift (do
        (← samples.gather 2 (c.indices_out.unsqueezeEnd 1)).squeeze 3)).bind fun s => Rand.lift (Model.finish a s)).E f = 0 * 1 := by
      intro v
      obtain ⟨t, h2, h3⟩ := h2 v
      rw [h2, Rand.lift_ok, Rand.pure_bind]
      obtain ⟨e, he⟩ := hgather t (by rw [h3.1]; rfl)
      rw [he]
      simp [Rand.lift, Rand.E]
    simp only [this]
    simpa using Rand.E_const_mul (c := 0) (x := E.leaf.drawsAt g l a.count X) (f := fun _ => 1) (by simp)

end CondEinet
end Einet
