import Verif.LeafSample
import Verif.Dists

/-!
# Laws of `Einet.sample`

Expectation of products of test functions on the entries of the result.
-/

open Classical MeasureTheory
open scoped ENNReal
noncomputable section
namespace Einet
open Tensor

/-- product over all entries of a batch. -/
def prod3 (N C F : Nat) (h : Nat → Nat → Nat → ℝ≥0∞) : ℝ≥0∞ :=
  ∏ n ∈ Finset.range N, ∏ f ∈ Finset.range F, ∏ c ∈ Finset.range C, h n c f

theorem prod3_congr {N C F : Nat} {h h' : Nat → Nat → Nat → ℝ≥0∞}
    (e : ∀ n, n < N → ∀ c, c < C → ∀ f, f < F → h n c f = h' n c f) : prod3 N C F h = prod3 N C F h' := by
  unfold prod3
  refine Finset.prod_congr rfl fun n hn => Finset.prod_congr rfl fun f hf => Finset.prod_congr rfl fun c hc => ?_
  exact e n (by simpa using hn) c (by simpa using hc) f (by simpa using hf)

namespace BaseLeaf

/-- expectation of a test function on the value drawn by one component (its mode if `mode`). -/
def compE (B : BaseLeaf) (mode : Bool) (T : ℝ) (c f i r : Nat) (h : ℝ → ℝ≥0∞) : ℝ≥0∞ :=
  if mode then h (B.mode c f i r) else ∫⁻ x, h x ∂B.law T c f i r

/-- independent draws, of which one component per entry is used. -/
theorem drawAll_E {μ : List Nat → Measure ℝ} [∀ j, IsProbabilityMeasure (μ j)] {N C F I R : Nat}
    {K : Nat → Nat → Nat} {rr : Nat → Nat} (hK : ∀ n, n < N → ∀ f, f < F → K n f < I)
    (hr : ∀ n, n < N → rr n < R) {h : Nat → Nat → Nat → ℝ → ℝ≥0∞} (hm : ∀ n c f, Measurable (h n c f)) :
    (Rand.drawAll (box [N, C, F, I, R]) (fun j => Rand.leaf (μ j) Rand.pure) (fun _ => 0)).E
        (fun v => prod3 N C F fun n c f => h n c f (v [n, c, f, K n f, rr n])) =
      prod3 N C F fun n c f => ∫⁻ x, h n c f x ∂μ [n, c, f, K n f, rr n] := by
  set t : List Nat → ℝ → ℝ≥0∞ := fun j x =>
    if at' 3 j = K (at' 0 j) (at' 2 j) ∧ at' 4 j = rr (at' 0 j) then h (at' 0 j) (at' 1 j) (at' 2 j) x else 1 with ht
  have hexp : ∀ q : List Nat → ℝ≥0∞, prodBox [N, C, F, I, R]
      (fun j => if at' 3 j = K (at' 0 j) (at' 2 j) ∧ at' 4 j = rr (at' 0 j) then q j else 1) =
      prod3 N C F fun n c f => q [n, c, f, K n f, rr n] := by
    intro q
    simp only [prodBox_cons, prodBox_nil, prod3, at']
    refine Finset.prod_congr rfl fun n hn => ?_
    rw [Finset.prod_comm]
    refine Finset.prod_congr rfl fun f hf => Finset.prod_congr rfl fun c hc => ?_
    rw [Finset.prod_eq_single (K n f)]
    · rw [Finset.prod_eq_single (rr n)]
      · simp
      · intro r _ hne; simp [hne]
      · intro hne; exact absurd (Finset.mem_range.2 (hr n (by simpa using hn))) hne
    · intro i _ hne; simp [hne]
    · intro hne; exact absurd (Finset.mem_range.2 (hK n (by simpa using hn) f (by simpa using hf))) hne
  have e1 : ∀ v : List Nat → ℝ, (prod3 N C F fun n c f => h n c f (v [n, c, f, K n f, rr n])) =
      ((box [N, C, F, I, R]).map fun j => t j (v j)).prod := by
    intro v
    exact (hexp fun j => h (at' 0 j) (at' 1 j) (at' 2 j) (v j)).symm
  simp only [e1]
  rw [Rand.E_drawAll (box_nodup _)]
  · refine Eq.trans ?_ (hexp fun j => ∫⁻ x, h (at' 0 j) (at' 1 j) (at' 2 j) x ∂μ j)
    unfold prodBox
    congr 1
    refine List.map_congr_left fun j _ => ?_
    show ∫⁻ x, t j x ∂_ = _
    rw [ht]
    dsimp only
    split_ifs
    · rfl
    · simp
  · intro j _ c
    show ∫⁻ x, t j x * c ∂_ = (∫⁻ x, t j x ∂_) * c
    refine lintegral_mul_const _ ?_
    rw [ht]
    dsimp only
    split_ifs
    · exact hm _ _ _
    · exact measurable_const

theorem draws_E (B : BaseLeaf) {ctx : Ctx} {N : Nat} (hN : ctx.num_samples = N)
    (hp : ∀ c f i r, IsProbabilityMeasure (B.law ctx.temperature_leaves c f i r))
    {K : Nat → Nat → Nat} {rr : Nat → Nat} (hK : ∀ n, n < N → ∀ f, f < B.num_features → K n f < B.num_leaves)
    (hr : ∀ n, n < N → rr n < B.num_repetitions) {h : Nat → Nat → Nat → ℝ → ℝ≥0∞} (hm : ∀ n c f, Measurable (h n c f)) :
    (B.draws ctx).E (fun v => prod3 N B.num_channels B.num_features fun n c f => h n c f (v [n, c, f, K n f, rr n])) =
      prod3 N B.num_channels B.num_features fun n c f =>
        B.compE (ctx.is_mpe || ctx.mpe_at_leaves) ctx.temperature_leaves c f (K n f) (rr n) (h n c f) := by
  unfold draws compE
  by_cases hmode : ctx.is_mpe = true ∨ ctx.mpe_at_leaves = true
  · have : (ctx.is_mpe || ctx.mpe_at_leaves) = true := by simpa using hmode
    rw [if_pos hmode]
    simp only [this, if_true, Rand.E_pure, at']
  · have hf : (ctx.is_mpe || ctx.mpe_at_leaves) = false := by simpa using hmode
    rw [if_neg hmode, hf, hN]
    simp only [Bool.false_eq_true, if_false]
    have : ∀ j : List Nat, IsProbabilityMeasure (B.law ctx.temperature_leaves (at' 1 j) (at' 2 j) (at' 3 j) (at' 4 j)) :=
      fun j => hp _ _ _ _
    exact drawAll_E (μ := fun j => B.law ctx.temperature_leaves (at' 1 j) (at' 2 j) (at' 3 j) (at' 4 j)) hK hr hm

end BaseLeaf

namespace Model

/-- like `regionP`, with the groups the sampler uses. -/
def regionS (M : Model) (g : Nat → Nat → Nat) (p : Nat → Nat → Nat → Nat → ℝ≥0∞) : PRow := fun o i r =>
  ∏ f ∈ Finset.range M.num_features, if M.grpS g r f = o then ∏ c ∈ Finset.range M.num_channels, p c f i r else 1

theorem prod_regionS {M : Model} {g : Nat → Nat → Nat} (h : M.FrontWF g) {r : Nat} (hr : r < M.num_repetitions)
    (p : Nat → Nat → Nat → Nat → ℝ≥0∞) (idx : Nat → Nat) :
    ∏ o ∈ Finset.range M.numOut, M.regionS g p o (idx o) r =
      ∏ f ∈ Finset.range M.num_features, ∏ c ∈ Finset.range M.num_channels, p c f (idx (M.grpS g r f)) r := by
  unfold regionS
  rw [Finset.prod_comm]
  refine Finset.prod_congr rfl fun f hf => ?_
  rw [Finset.prod_ite_eq (Finset.range M.numOut) (M.grpS g r f),
    if_pos (Finset.mem_range.2 (h.grpS_lt hr (by simpa using hf)))]

/-- path, inverse permutation and leaf. -/
def sampleValues (M : Model) (a : SampleArgs) (cs : Caches) : Rand (Tensor ℝ) :=
  (M.samplePath a cs).bind fun ctx => M.leaf.sample ctx

theorem sampleValues_eq (M : Model) (a : SampleArgs) (cs : Caches) : M.sampleValues a cs =
    (M.corePath a cs).bind fun ctx => (Rand.lift (M.unpermute ctx)).bind fun c => M.leaf.sample c := by
  unfold sampleValues
  rw [samplePath_eq, Rand.bind_assoc]

theorem sample_eq (M : Model) (a : SampleArgs) {cs : Caches} (h1 : a.check M = .ok ())
    (h2 : M.evidenceCaches a = .ok cs) :
    M.sample a = (M.sampleValues a cs).bind fun s => Rand.lift (finish a s) := by
  unfold sample sampleValues
  rw [h1, h2]
  simp only [Rand.lift_ok, Rand.pure_bind, Rand.bind_assoc]

/-- what the sampling calls need from the model. -/
structure Samplable (M : Model) (g : Nat → Nat → Nat) : Prop where
  wf : M.WF g
  samp : M.leaf.base.Samp
  features_pos : 0 < M.num_features

/-- outcomes of drawing the values. -/
theorem sampleValues_All {M : Model} {g : Nat → Nat → Nat} (h : M.Samplable g) {a : SampleArgs} (hN : 0 < a.count)
    (hT : a.temperature_sums ≠ 0) (hc : M.ClassOK a.count a.class_index) {cond : Bool} {cs : Caches} {e : Nat → Row}
    (hev : M.EvM cond a.count cs e) (he : M.FinRows a.count e) :
    (M.sampleValues a cs).All fun t => t.shape = [a.count, M.num_channels, M.num_features] := by
  rw [sampleValues_eq]
  refine (corePath_All h.wf hN hT hc hev he).bind fun ctx ⟨idx, rr, hctx, _⟩ => ?_
  obtain ⟨res, h1, h2⟩ := leaf_sample_eq h.wf.front h.features_pos h.samp.samplable hN hctx
  rw [h1]
  refine Rand.All.bind (P := fun _ => True) ?_ fun v _ => Rand.All.lift ((h2 v).mono fun t ht => ht.1)
  unfold BaseLeaf.draws
  split_ifs
  · trivial
  · refine (Rand.All_drawAll (P := fun _ _ => True) fun i _ => ?_).mono fun _ _ => trivial
    exact fun _ => trivial

/-- Law of the values drawn, as expectations of products of test functions. -/
theorem sampleValues_E {M : Model} {g : Nat → Nat → Nat} (h : M.Samplable g) {a : SampleArgs} (hN : 0 < a.count)
    (hm : a.is_mpe = false) (hT : a.temperature_sums ≠ 0) (hL : 0 < a.temperature_leaves)
    (hc : M.ClassOK a.count a.class_index) {cond : Bool} {cs : Caches} {e : Nat → Row}
    (hev : M.EvM cond a.count cs e) (he : M.FinRows a.count e) {t : Nat → Nat → Nat → ℝ → ℝ≥0∞}
    (ht : ∀ n c f, Measurable (t n c f)) :
    (M.sampleValues a cs).E (fun s => prod3 a.count M.num_channels M.num_features fun n c f =>
        t n c f (s.get [n, c, f])) =
      ∏ n ∈ Finset.range a.count, ∑ k ∈ Finset.range M.num_classes, M.classW a.temperature_sums a.class_index n k *
        M.pathVal cond a.temperature_sums (e n) (M.regionS g fun c f i r =>
          M.leaf.base.compE a.mpe_at_leaves a.temperature_leaves c f i r (t n c f)) k := by
  rw [sampleValues_eq, Rand.E_bind, ← corePath_E h.wf hN hm hT hc hev he]
  refine Rand.E_congr (corePath_All h.wf hN hT hc hev he) fun ctx ⟨idx, rr, hctx, hce⟩ => ?_
  obtain ⟨res, h1, h2⟩ := leaf_sample_eq h.wf.front h.features_pos h.samp.samplable hN hctx
  have hF := h.wf.front.features; have hC := h.wf.front.channels; have hI := h.wf.front.leaves
  have hR := h.wf.front.reps
  rw [h1, Rand.E_bind]
  have e1 : ∀ v, (Rand.lift (res v)).E (fun s => prod3 a.count M.num_channels M.num_features fun n c f =>
      t n c f (s.get [n, c, f])) = prod3 a.count M.leaf.base.num_channels M.leaf.base.num_features fun n c f =>
      t n c f (v [n, c, f, idx n (M.grpS g (rr n) f), rr n]) := by
    intro v
    obtain ⟨s, hs, hs'⟩ := h2 v
    rw [hs, hF, hC]
    exact prod3_congr fun n hn c hc f hf => by rw [hs'.get hn hc hf]
  simp only [e1]
  have hTl : ctx.temperature_leaves = a.temperature_leaves := by rw [hce]; rfl
  rw [M.leaf.base.draws_E hctx.ns (by rw [hTl]; exact h.samp.prob _ hL) (K := fun n f => idx n (M.grpS g (rr n) f))
    (rr := rr) (fun n hn f hf => by
      rw [hI]; exact hctx.io_lt n hn _ (h.wf.front.grpS_lt (hctx.ir_lt n hn) (by omega)))
    (fun n hn => by rw [hR]; exact hctx.ir_lt n hn) ht]
  have hmode : (ctx.is_mpe || ctx.mpe_at_leaves) = a.mpe_at_leaves := by
    rw [hce]; show (a.is_mpe || a.mpe_at_leaves) = _; rw [hm, Bool.false_or]
  rw [hmode, hTl, hF, hC]
  unfold prod3 prod2
  refine Finset.prod_congr rfl fun n hn => ?_
  have hn' : n < a.count := by simpa using hn
  have hrr : ctx.indices_repetition.get [n] = rr n := Is.get hctx.ir (i := [n]) ⟨hn', by simp⟩
  dsimp only
  rw [hrr, ← prod_regionS h.wf.front (hctx.ir_lt n hn') (fun c f i r =>
          M.leaf.base.compE a.mpe_at_leaves a.temperature_leaves c f i r (t n c f))]
  refine Finset.prod_congr rfl fun o ho => ?_
  rw [hctx.io.get hn' (by simpa using ho)]

/-- the grouping used by the sampler is the one used by the forward pass. -/
def Mirrored (M : Model) (g : Nat → Nat → Nat) : Prop :=
  ∀ r, r < M.num_repetitions → ∀ f, f < M.num_features → M.grpS g r f = M.grpF g r f

theorem regionS_eq {M : Model} {g : Nat → Nat → Nat} (h : M.Mirrored g) (p : Nat → Nat → Nat → Nat → ℝ≥0∞) {o i r : Nat}
    (hr : r < M.num_repetitions) : M.regionS g p o i r = M.regionP g p o i r := by
  unfold regionS regionP
  refine Finset.prod_congr rfl fun f hf => ?_
  rw [h r hr f (by simpa using hf)]

/-- factors that do not depend on the component come out of the density. -/
theorem outP_mul {M : Model} {g : Nat → Nat → Nat} (h : M.WF g) {T : ℝ} (hT : T ≠ 0) (w : Nat → Nat → ℝ≥0∞)
    (p : Nat → Nat → Nat → Nat → ℝ≥0∞) {k : Nat} (hk : k < M.num_classes) :
    M.outP g T (fun c f i r => w c f * p c f i r) k =
      (∏ f ∈ Finset.range M.num_features, ∏ c ∈ Finset.range M.num_channels, w c f) * M.outP g T p k := by
  have key : ∀ r, r < M.num_repetitions → denL T M.layers (M.regionP g fun c f i r => w c f * p c f i r) 0 k r =
      (∏ f ∈ Finset.range M.num_features, ∏ c ∈ Finset.range M.num_channels, w c f) *
        denL T M.layers (M.regionP g p) 0 k r := by
    intro r hr
    obtain ⟨-, hE⟩ := denL_as_E h.chain hT hr hk
    rw [← hE, ← hE, mul_comm, ← (disc_sampleLayers M.layers [] _).mul_const]
    congr 1
    funext c
    rw [prod_regionP h.front hr, prod_regionP h.front hr, mul_comm]
    simp only [Finset.prod_mul_distrib]
  unfold outP
  split_ifs with hR
  · rw [Finset.mul_sum]
    refine Finset.sum_congr rfl fun r hr => ?_
    rw [key r (by simpa using hr)]
    ring
  · exact key 0 h.reps_pos

/-- reference measure in missing entries, point mass in observed ones. -/
def entryRef (ref : Measure ℝ) (x : Fl) : Measure ℝ := if x = .nan then ref else Measure.dirac x.val

/-- the density as a polynomial in component densities, almost everywhere. -/
theorem density_ae {M : Model} {g : Nat → Nat → Nat} (h : M.WF g) (hp : M.leaf.base.Proper) {X : Data}
    (hX : M.leaf.base.Observed X) {k : Nat} (hk : k < M.num_classes) {t : Nat → Nat → ℝ → ℝ≥0∞}
    (ht : ∀ c f, Measurable (t c f)) :
    ∃ p : Pt M.num_channels M.num_features → Nat → Nat → Nat → Nat → ℝ≥0∞,
      (∀ c f i r, Measurable fun ω => p ω c f i r) ∧
      (∀ᵐ ω ∂(missing M.num_channels M.num_features M.leaf.base.ref X),
        (∏ f : Fin M.num_features, ∏ c : Fin M.num_channels, t c f (ω c f)) * M.density none k (Pt.data ω) =
          M.outP g 1 (p ω) k) ∧
      ∀ (ω) (c : Fin M.num_channels) (f : Fin M.num_features) (i r : Nat), p ω c f i r =
        t c f (ω c f) * toP (M.leaf.base.logProb c f i r (.fin (ω c f))) := by
  have hC := h.front.channels; have hF := h.front.features; have hI := h.front.leaves; have hR := h.front.reps
  have := hp.sigmaFinite
  have hsf : ∀ c f, SigmaFinite (if X c f = .nan then M.leaf.base.ref f else Measure.dirac (X c f).val) := by
    intro c f; split_ifs <;> infer_instance
  have hae : ∀ᵐ ω ∂(missing M.num_channels M.num_features M.leaf.base.ref X), ∀ c (f : Fin M.num_features), M.leaf.base.valid f (.fin (ω c f)) := by
    unfold missing
    rw [ae_all_iff]; intro c
    rw [ae_all_iff]; intro f
    have hcf : ∀ᵐ x ∂(if X c f = .nan then M.leaf.base.ref f else Measure.dirac (X c f).val),
        M.leaf.base.valid f (.fin x) := by
      rcases hX c (by rw [hC]; exact c.2) f (by rw [hF]; exact f.2) with e | ⟨x, e, hv⟩
      · rw [if_pos e]; exact hp.ae_valid f
      · rw [e, if_neg (by simp), ae_dirac_eq]
        exact hv
    have h1 := (Measure.tendsto_eval_ae_ae (μ := fun f : Fin M.num_features =>
      if X c f = .nan then M.leaf.base.ref f else Measure.dirac (X c f).val) (i := f)).eventually hcf
    exact (Measure.tendsto_eval_ae_ae (μ := fun c : Fin M.num_channels => Measure.pi fun f : Fin M.num_features =>
      if X c f = .nan then M.leaf.base.ref f else Measure.dirac (X c f).val) (i := c)).eventually h1
  set ext : Pt M.num_channels M.num_features → Nat → Nat → ℝ := fun ω c f =>
    if hh : c < M.num_channels ∧ f < M.num_features then ω ⟨c, hh.1⟩ ⟨f, hh.2⟩ else 0 with hext
  have hextm : ∀ c f, Measurable fun ω => ext ω c f := by
    intro c f
    rw [hext]
    dsimp only
    split_ifs with hh
    · exact (measurable_pi_apply _).comp (measurable_pi_apply _)
    · exact measurable_const
  have hextv : ∀ ω (c : Fin M.num_channels) (f : Fin M.num_features), ext ω c f = ω c f := by
    intro ω c f; rw [hext]; simp
  set p : Pt M.num_channels M.num_features → Nat → Nat → Nat → Nat → ℝ≥0∞ := fun ω c f i r =>
    t c f (ext ω c f) * toP (M.leaf.base.logProb c f i r (.fin (ext ω c f))) with hpdef
  have e2 : ∀ᵐ ω ∂(missing M.num_channels M.num_features M.leaf.base.ref X),
      (∏ f : Fin M.num_features, ∏ c : Fin M.num_channels, t c f (ω c f)) * M.density none k (Pt.data ω) =
        M.outP g 1 (p ω) k := by
    filter_upwards [hae] with ω hω
    have ho : M.leaf.base.Observed ω.data := observed_data hC hF hω
    rw [density_eq h hp ho (ms := none) rfl hk, (outRow_den h (b := true) (fun _ => rfl) (sc := none) (X := ω.data)
      (fun c hc f hf i hi r hr => (entry_none hp (by omega) (by omega) (by omega) (by omega) ho).1) hk).2]
    rw [hpdef, outP_mul h one_ne_zero (fun c f => t c f (ext ω c f))
      (fun c f i r => toP (M.leaf.base.logProb c f i r (.fin (ext ω c f)))) hk]
    congr 1
    · rw [← Fin.prod_univ_eq_prod_range (fun f => ∏ c ∈ Finset.range M.num_channels, t c f (ext ω c f))]
      refine Finset.prod_congr rfl fun f _ => ?_
      rw [← Fin.prod_univ_eq_prod_range (fun c => t c f (ext ω c f))]
      simp only [hextv]
    · rw [outP_eq, outP_eq]
      refine topP_congr h hk fun o _ i hi r hr => ?_
      unfold regionP
      refine Finset.prod_congr rfl fun f hf => ?_
      split_ifs
      · refine Finset.prod_congr rfl fun c hc => ?_
        simp only [Finset.mem_range] at hf hc
        dsimp only
        rw [(entry_none hp (by omega) (by omega) (by omega) (by omega) ho).2, Pt.data_eq ω hc hf, if_neg (by simp)]
        rw [lintegral_dirac' _ (hp.measurable c f i r), hext]
        simp [hc, hf]
      · rfl
  refine ⟨p, fun c f i r => ?_, e2, fun ω c f i r => ?_⟩
  · rw [hpdef]
    exact ((ht c f).comp (hextm c f)).mul ((hp.measurable c f i r).comp (hextm c f))
  · rw [hpdef]
    simp only [hextv]

/-- **Integrals of products of test functions against the density over the missing entries.** -/
theorem density_test {M : Model} {g : Nat → Nat → Nat} (h : M.WF g) (hp : M.leaf.base.Proper) {X : Data}
    (hX : M.leaf.base.Observed X) {k : Nat} (hk : k < M.num_classes) {t : Nat → Nat → ℝ → ℝ≥0∞}
    (ht : ∀ c f, Measurable (t c f)) :
    M.outP g 1 (fun c f i r => ∫⁻ x, t c f x * toP (M.leaf.base.logProb c f i r (.fin x)) ∂(entryRef (M.leaf.base.ref f) (X c f)))
        k =
      ∫⁻ ω, (∏ f : Fin M.num_features, ∏ c : Fin M.num_channels, t c f (ω c f)) * M.density none k (Pt.data ω)
        ∂(missing M.num_channels M.num_features M.leaf.base.ref X) := by
  have hC := h.front.channels; have hF := h.front.features; have hI := h.front.leaves; have hR := h.front.reps
  have := hp.sigmaFinite
  have hsf : ∀ c f, SigmaFinite (if X c f = .nan then M.leaf.base.ref f else Measure.dirac (X c f).val) := by
    intro c f; split_ifs <;> infer_instance
  obtain ⟨p, hpm, e2, hpe⟩ := density_ae h hp hX hk ht
  rw [lintegral_congr_ae e2]
  symm
  refine outP_lintegral h one_ne_zero ?_ ?_ hk
  · exact hpm
  · intro r hr idx hidx
    have e3 : ∀ ω, (∏ f ∈ Finset.range M.num_features, ∏ c ∈ Finset.range M.num_channels, p ω c f (idx f) r) =
        ∏ c : Fin M.num_channels, ∏ f : Fin M.num_features,
          (t c f (ω c f) * toP (M.leaf.base.logProb c f (idx f) r (.fin (ω c f)))) := by
      intro ω
      rw [Finset.prod_comm, ← Fin.prod_univ_eq_prod_range
        (fun c => ∏ f ∈ Finset.range M.num_features, p ω c f (idx f) r)]
      refine Finset.prod_congr rfl fun c _ => ?_
      rw [← Fin.prod_univ_eq_prod_range (fun f => p ω c f (idx f) r)]
      refine Finset.prod_congr rfl fun f _ => ?_
      exact hpe ω c f _ _
    simp only [e3]
    have hmf : ∀ (c : Fin M.num_channels) (f : Fin M.num_features),
        Measurable fun x : ℝ => t c f x * toP (M.leaf.base.logProb c f (idx f) r (.fin x)) :=
      fun c f => (ht c f).mul (hp.measurable _ _ _ _)
    unfold missing
    rw [lintegral_pi_prod (f := fun (c : Fin M.num_channels) (y : Fin M.num_features → ℝ) =>
      ∏ f : Fin M.num_features, (t c f (y f) * toP (M.leaf.base.logProb c f (idx f) r (.fin (y f))))) (fun c =>
        Finset.measurable_fun_prod _ fun f _ => (hmf c f).comp (measurable_pi_apply f))]
    rw [Finset.prod_comm, ← Fin.prod_univ_eq_prod_range (fun c => ∏ f ∈ Finset.range M.num_features,
      ∫⁻ x, t c f x * toP (M.leaf.base.logProb c f (idx f) r (.fin x)) ∂(entryRef (M.leaf.base.ref f) (X c f)))]
    refine Finset.prod_congr rfl fun c _ => ?_
    rw [lintegral_pi_prod (f := fun (f : Fin M.num_features) (x : ℝ) =>
      t c f x * toP (M.leaf.base.logProb c f (idx f) r (.fin x))) (hmf c)]
    rw [← Fin.prod_univ_eq_prod_range (fun f =>
      ∫⁻ x, t c f x * toP (M.leaf.base.logProb c f (idx f) r (.fin x)) ∂(entryRef (M.leaf.base.ref f) (X c f)))]
    rfl

end Model
end Einet
