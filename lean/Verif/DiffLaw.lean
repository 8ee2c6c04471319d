import Verif.Gumbel
import Verif.DiffModel
import Verif.SampleLaw

/-!
# Differentiable sampling with the noise drawn

`Model.sampleD` takes the Gumbel noise as an argument.  Here the noise is drawn inside the program, where the code draws it, and
the program is compared with ordinary sampling.
-/

open Classical MeasureTheory
open scoped ENNReal
noncomputable section
namespace Einet
open Tensor

/-- the noise added to the weights `w` (sampling_utils.py:151-164, 191-193): one independent entry with law `μ` per weight, none
for `is_mpe`.  The code draws all entries at once; here they are drawn vector by vector along the dimension of the weights. -/
def drawNoise (μ : Measure ℝ) (is_mpe : Bool) (w : Tensor Fl) (dim : Nat) : Rand (List Nat → Fl) :=
  if is_mpe then .pure fun _ => .fin 0 else
    (Rand.drawAll (box (delAt dim w.shape)) (fun _ => drawVec μ (w.size dim)) fun _ _ => 0).bind fun v =>
      .pure fun i => .fin (v (delAt dim i) (at' dim i))

/-- the weights of `AbstractSumLayer.sample` (abstract_layers.py:191-199), one-hot indices. -/
def absLogWeightsD (D S R : Nat) (select : DCtx → Res (Tensor Fl)) (condition : Cache → DCtx → Tensor Fl → Res (Tensor Fl))
    (cache : Option Cache) (ctx : DCtx) : Res (Tensor Fl) := do
  checkContextD D S R ctx
  let w ← select ctx
  match cache with
  | none => .ok w
  | some c => condition c ctx w

/-- `AbstractSumLayer.sample` (abstract_layers.py:191-206), one-hot indices, noise drawn. -/
def absSampleR (μ : Measure ℝ) (D S R : Nat) (select : DCtx → Res (Tensor Fl))
    (condition : Cache → DCtx → Tensor Fl → Res (Tensor Fl)) (post : DCtx → Tensor Fl → Res (Tensor Fl))
    (cache : Option Cache) (ctx : DCtx) : Rand DCtx :=
  (Rand.lift (absLogWeightsD D S R select condition cache ctx)).bind fun w =>
    (drawNoise μ ctx.is_mpe w 2).bind fun noise => Rand.lift do
      let indices ← drawOneHot ctx noise w
      let indices ← post ctx indices
      return { ctx with indices_out := indices }

/-- `SumLayer.sample` (sum.py:85-147), one-hot branch. -/
def SumLayer.sampleR (μ : Measure ℝ) (L : SumL) (cache : Option Cache) (ctx : DCtx) : Rand DCtx :=
  absSampleR μ L.num_features L.num_sums_out L.num_repetitions (selectWeightsD L) (conditionD L) (fun _ i => .ok i) cache ctx

/-- `MixingLayer.sample` (mixing.py:83-124), one-hot branch. -/
def MixingLayer.sampleR (μ : Measure ℝ) (L : SumL) (cache : Option Cache) (ctx : DCtx) : Rand DCtx :=
  absSampleR μ L.num_features L.num_sums_out 1 (selectWeightsD L) (conditionD L) (fun _ i => .ok i) cache ctx

/-- `layer.sample(ctx)`, one-hot indices (sum.py:85-147, linsum.py:107-207, linsum.py:303-401, einsum.py:154-241,
product.py:25-29). -/
def Layer.sampleR (μ : Measure ℝ) : Layer → Option Cache → DCtx → Rand DCtx
  | sum L, c, ctx => SumLayer.sampleR μ L c ctx
  | linsum L, c, ctx => absSampleR μ (LinsumLayer.numFeaturesOut L) L.num_sums_out L.num_repetitions
      (LinsumLayer.selectWeightsD L) (LinsumLayer.conditionD L) (LinsumLayer.postD L) c ctx
  | linsum2 L, c, ctx => absSampleR μ (LinsumLayer2.numFeaturesOut L) L.num_sums_out L.num_repetitions
      (LinsumLayer2.selectWeightsD L) (LinsumLayer2.conditionD L) (LinsumLayer2.postD L) c ctx
  | einsum L, c, ctx => absSampleR μ (EinsumLayer.numFeaturesOut L) L.num_sums_out L.num_repetitions
      (EinsumLayer.selectWeightsD L) (EinsumLayer.conditionD L) (EinsumLayer.postD L) c ctx
  | rootProduct F _, _, ctx => Rand.lift (RootProductLayer.sampleD F ctx)

/-- the loop over the layers from the top (einet.py:658-660). -/
def sampleLayersR (μ : Measure ℝ) : List Layer → List (Option Cache) → DCtx → Rand DCtx
  | [], _, ctx => .pure ctx
  | l :: ls, cs, ctx => (sampleLayersR μ ls cs.tail ctx).bind fun ctx => l.sampleR μ (cs.head?.getD none) ctx

namespace Model

/-- choice of the class, one-hot branch (einet.py:615-644). -/
def pickClassR (μ : Measure ℝ) (M : Model) (a : SampleArgs) (ctx : DCtx) : Rand DCtx :=
  if 1 < M.num_classes then
    match a.class_index with
    | some (.list l) => Rand.lift (do
      require .shape (l.length ≤ a.count)
      require .index (∀ c ∈ l, c < M.num_classes)
      .error .attribute)
    | some (.int c) => Rand.lift (do
      require .index (0 < a.count → c < M.num_classes)
      return { ctx with indices_out := ⟨[a.count, M.num_classes, 1], fun i => if at' 1 i = c then .fin 1 else .fin 0⟩ })
    | none => SumLayer.sampleR μ M.classRoot none ctx
  else .pure ctx

/-- choice of the repetition, one-hot branch (einet.py:646-656). -/
def pickRepR (μ : Measure ℝ) (M : Model) (cache : Option Cache) (ctx : DCtx) : Rand DCtx :=
  if 1 < M.num_repetitions then
    (MixingLayer.sampleR μ M.mixing cache ctx).bind fun c => Rand.lift do
      let r ← c.indices_out.view [ctx.num_samples, M.num_repetitions]
      return { c with indices_repetition := r, indices_out := ctx.indices_out }
  else .pure ctx

/-- the path (einet.py:615-671), one-hot branch. -/
def samplePathR (μ : Measure ℝ) (M : Model) (a : SampleArgs) (caches : Caches) : Rand DCtx :=
  (M.pickClassR μ a (initCtxD a)).bind fun ctx =>
    (M.pickRepR μ caches.mixing ctx).bind fun ctx =>
      (sampleLayersR μ M.layers caches.layers ctx).bind fun ctx => Rand.lift (M.unpermuteD ctx)

/-- `Einet.sample(..., is_differentiable=True)` (einet.py:533-697); the noise has law `μ`. -/
def sampleR (μ : Measure ℝ) (M : Model) (a : SampleArgs) : Rand (Tensor Fl) :=
  (Rand.lift (a.check M)).bind fun _ =>
    (Rand.lift (M.evidenceCaches a)).bind fun caches =>
      (M.samplePathR μ a caches).bind fun ctx =>
        (M.leaf.sampleD ctx).bind fun samples => Rand.lift (finishD a samples)

end Model

/-! ### The noise against the categorical draw -/

theorem Rand.bind_pure {α : Type} (x : Rand α) : x.bind .pure = x := by
  induction x with
  | pure a => rfl
  | fail e => rfl
  | draw K w k ih => exact congrArg (Rand.draw K w) (funext ih)
  | leaf μ k ih => exact congrArg (Rand.leaf μ) (funext ih)

theorem Rand.lift_bind_lift {α β : Type} (x : Res α) (f : α → Res β) :
    (Rand.lift x).bind (fun a => Rand.lift (f a)) = Rand.lift (x >>= f) := by
  cases x <;> rfl

theorem length_box (s : List Nat) : (box s).length = numelS s := by
  induction s with
  | nil => rfl
  | cons d s ih => simp [box, numelS, List.length_flatMap, ih]

/-- The largest perturbed weights against draws from the categorical distributions. -/
theorem drawNoise_le {μ : Measure ℝ} {b : Prop × Prop} {c : ℝ≥0∞} (hc : c ≠ ⊤) (hμ : μ ≤ c • gumbel0) (hb : NoiseOK b μ gumbel0) {W W' : Tensor Fl} {N D K : Nat}
    {w : Nat → Nat → Nat → Fl} (hW : W.Is3 N D K w) (hW' : W'.Is3 N D K w) (hK : 0 < K)
    (hw : ∀ n, n < N → ∀ d, d < D → ∀ k, k < K → (w n d k).IsFin) :
    RLe b (c ^ (N * D * K)) (fun (g : List Nat → Fl) (ix : Tensor Nat) => (∀ i, (g i).IsFin) ∧ ix.shape = [N, D] ∧
        ∀ n, n < N → ∀ d, d < D → ix.get [n, d] = Fl.argmaxN K fun k => w n d k + g [n, d, k])
      (drawNoise μ false W 2) (W'.categorical 2) := by
  unfold drawNoise Tensor.categorical
  rw [if_neg (by simp), Tensor.size, Tensor.size, hW.1, hW'.1]
  simp only [delAt, at']
  have hl : (box [N, D]).length = N * D := by simp [length_box, numelS]
  have h0 : RLe b ((c ^ K) ^ (box [N, D]).length) (fun (f : List Nat → Nat → ℝ) (g : List Nat → Nat) => ∀ i ∈ box [N, D],
      g i = Fl.argmaxN K fun k => w (at' 0 i) (at' 1 i) k + .fin (f i k))
      (Rand.drawAll (box [N, D]) (fun _ => drawVec μ K) fun _ _ => 0)
      (Rand.drawAll (box [N, D]) (fun i => Rand.categorical K fun k => W'.get (insAt 2 k i)) fun _ => 0) := by
    refine RLe.drawAll (R := fun i (f : Nat → ℝ) (j : Nat) => j = Fl.argmaxN K fun k => w (at' 0 i) (at' 1 i) k + .fin (f k))
      (ENNReal.pow_ne_top hc) fun i hi => ?_
    match i, mem_box.1 hi with
    | [n, d], hnd =>
      have e : ∀ k, k < K → W'.get (insAt 2 k [n, d]) = w n d k := fun k hk =>
        Is3.get hW' hnd.1 hnd.2.1 hk
      refine (drawVec_categorical hc hμ hb hK fun k hk => ?_).mono le_rfl fun v j hj => ?_
      · show (W'.get (insAt 2 k [n, d])).IsFin
        rw [e k hk]; exact hw n hnd.1 d hnd.2.1 k hk
      · rw [hj]
        exact Fl.argmaxN_congr fun k hk => by rw [e k hk]; rfl
  rw [hl, ← pow_mul, mul_comm K (N * D)] at h0
  rw [← mul_one (c ^ (N * D * K))]
  refine RLe.bind ENNReal.one_ne_top h0 fun v j hv => RLe.pure ⟨fun i => Fl.isFin_fin _, rfl, fun n hn d hd => ?_⟩
  exact hv [n, d] (mem_box.2 ⟨hn, hd, trivial⟩)

/-! ### One layer -/

theorem absSampleR_eq {μ : Measure ℝ} {D S R : Nat} {select : DCtx → Res (Tensor Fl)}
    {condition : Cache → DCtx → Tensor Fl → Res (Tensor Fl)} {post : DCtx → Tensor Fl → Res (Tensor Fl)}
    {cache : Option Cache} {ctx : DCtx} (hc : checkContextD D S R ctx = .ok ()) {W : Tensor Fl}
    (hW : absWeightsD select condition cache ctx = .ok W) :
    absSampleR μ D S R select condition post cache ctx = (drawNoise μ ctx.is_mpe W 2).bind fun g =>
      Rand.lift (absSampleD D S R select condition post cache g ctx) := by
  have h : absLogWeightsD D S R select condition cache ctx = .ok W := by
    unfold absLogWeightsD
    rw [hc]
    exact hW
  unfold absSampleR
  rw [h, Rand.lift_ok, Rand.pure_bind]
  congr 1
  funext g
  rw [absSampleD_eq hc hW]

namespace Layer

/-- entries of noise per row. -/
def noise (l : Layer) : Nat := if l.isSum = true then l.draws * l.choices else 0

theorem sampleR_eq {μ : Measure ℝ} {l : Layer} {Di Si Do So R : Nat} (h : WF l Di Si Do So R) (hs : l.isSum = true)
    (cache : Option Cache) (ctx : DCtx) :
    l.sampleR μ cache ctx = absSampleR μ Do So R l.selD l.cndD l.pstD cache ctx := by
  cases h <;> first | rfl | simp [isSum] at hs

/-- Both modes make the same choices with comparable probabilities. -/
theorem sampleR_le {μ : Measure ℝ} {b : Prop × Prop} {c : ℝ≥0∞} (hc : c ≠ ⊤) (hμ : μ ≤ c • gumbel0) (hb : NoiseOK b μ gumbel0) {l : Layer} {Di Si Do So R : Nat}
    (h : WF l Di Si Do So R) {ctx : Ctx} {dctx : DCtx} {N : Nat} (hN : 0 < N) (hm : ctx.is_mpe = false)
    (hm' : dctx.is_mpe = false) (hTT : dctx.temperature_sums = ctx.temperature_sums) {idx : Nat → Nat → Nat}
    {rr : Nat → Nat} (hctx : CtxOK ctx N Do So R idx rr) (hdctx : DCtxOK dctx N Do So R idx rr)
    (hT : ctx.temperature_sums ≠ 0) {cache : Option Cache} {e : Nat → Row} (hev : l.Ev N cache e)
    (he : ∀ n, n < N → ∀ d, d < Di → ∀ k, k < Si → ∀ r, r < R → (e n d k r).IsFin) :
    RLe b (c ^ (N * l.noise)) (fun d c => ∃ idx', (d = { dctx with indices_out := d.indices_out } ∧ DCtxOK d N Di Si R idx' rr) ∧
      c = { ctx with indices_out := c.indices_out } ∧ CtxOK c N Di Si R idx' rr)
      (l.sampleR μ cache dctx) (l.sample cache ctx) := by
  by_cases hs : l.isSum = true
  · obtain ⟨W, hW, hW'⟩ := weightsD_exact h hs hdctx hev he
    obtain ⟨V, hV, hV'⟩ := weights_exact h hs hctx hev
    have hfin : ∀ n, n < N → ∀ d, d < l.draws → ∀ k, k < l.choices → _ := fun n hn d hd k hk =>
      wt_fin h hs cache.isSome hT (hctx.ir_lt n hn) (fun d hd => hctx.io_lt n hn d hd)
        (fun d hd k hk => he n hn d hd k hk _ (hctx.ir_lt n hn)) hd hk
    have hR := absSampleR_eq (μ := μ) (post := l.pstD) hdctx.check hW
    rw [hm'] at hR
    rw [sampleR_eq h hs, hR, sample_eq h hs, absSample_eq hctx.check hV, noise, if_pos hs,
      ← mul_assoc, ← mul_one (c ^ (N * l.draws * l.choices))]
    unfold drawIndices
    rw [if_neg (by simp [hm])]
    rw [hTT] at hW'
    refine RLe.bind ENNReal.one_ne_top (drawNoise_le hc hμ hb hW' hV' (choices_pos h) hfin) fun g ix ⟨hg, hsh, hix⟩ => ?_
    obtain ⟨d, hd, hde, hdd⟩ := sampleD_is h hN hdctx (by rw [hTT]; exact hT) hev (g := g) (fun _ => hg) he
    rw [sampleD_eq h hs] at hd
    obtain ⟨o, ho, ho'⟩ := post_is h hs hN hctx.ns (ix := ix) hsh
      (fun n hn d hd => by rw [hix n hn d hd]; exact Fl.argmaxN_lt (choices_pos h) _)
    rw [hd, ho, Rand.lift_ok, Rand.lift_ok, Rand.pure_bind]
    refine RLe.pure ⟨_, ⟨hde, hdd⟩, rfl, hctx.ns, ?_, hdd.io_lt, hctx.ir, hctx.ir_lt⟩
    refine Is.is2 ho' ?_
    intro n hn d hd
    simp only [if_pos hs, hm', hTT]
    exact child_congr h hs (fun d hd => hix n hn d hd) hd
  · rw [noise, if_neg hs, Nat.mul_zero, pow_zero]
    cases h with
    | rootProduct =>
      obtain ⟨c', hc', h1, h2⟩ := rootProduct_sample (F := Di) hctx
      obtain ⟨d, hd, h3, h4⟩ := RootProductLayer.sampleD_is (F := Di) hdctx
      refine RLe.lift hd hc' ⟨fun n _ => idx n 0, ⟨h3, ?_⟩, h1, ?_⟩
      · exact ⟨by rw [h3]; exact hdctx.ns, h4, fun n hn d hd => hctx.io_lt n hn 0 (by omega), by rw [h3]; exact hdctx.ir, hctx.ir_lt⟩
      · exact ⟨by rw [h1]; exact hctx.ns, h2, fun n hn d hd => hctx.io_lt n hn 0 (by omega), by rw [h1]; exact hctx.ir, hctx.ir_lt⟩
    | _ => simp [isSum] at hs

end Layer

/-- entries of noise of a chain of layers per row. -/
def noiseL (ls : List Layer) : Nat := (ls.map Layer.noise).sum

theorem sampleLayersR_le {μ : Measure ℝ} {b : Prop × Prop} {c : ℝ≥0∞} (hc : c ≠ ⊤) (hμ : μ ≤ c • gumbel0) (hb : NoiseOK b μ gumbel0) {ls : List Layer}
    {Di Si Do So R : Nat} (h : Chain ls Di Si Do So R) {ctx : Ctx} {dctx : DCtx}
    {N : Nat} (hN : 0 < N) (hm : ctx.is_mpe = false) (hm' : dctx.is_mpe = false)
    (hTT : dctx.temperature_sums = ctx.temperature_sums) {idx : Nat → Nat → Nat} {rr : Nat → Nat}
    (hctx : CtxOK ctx N Do So R idx rr) (hdctx : DCtxOK dctx N Do So R idx rr)
    (hT : ctx.temperature_sums ≠ 0) {cond : Bool} {cs : List (Option Cache)} {e : Nat → Row} (hev : EvL cond ls N cs e)
    (he : ∀ n, n < N → ∀ d, d < Di → ∀ k, k < Si → ∀ r, r < R → (e n d k r).IsFin) :
    RLe b (c ^ (N * noiseL ls)) (fun d c => ∃ idx', (d = { dctx with indices_out := d.indices_out } ∧ DCtxOK d N Di Si R idx' rr) ∧
      c = { ctx with indices_out := c.indices_out } ∧ CtxOK c N Di Si R idx' rr)
      (sampleLayersR μ ls cs dctx) (sampleLayers ls cs ctx) := by
  induction h generalizing cs e with
  | nil D S R =>
    rw [show noiseL [] = 0 from rfl, Nat.mul_zero, pow_zero]
    exact RLe.pure ⟨idx, ⟨rfl, hdctx⟩, rfl, hctx⟩
  | @cons l ls Di Si Dm Sm Do So R h hs ih =>
    have e0 : c ^ (N * noiseL (l :: ls)) = c ^ (N * noiseL ls) * c ^ (N * l.noise) := by
      rw [← pow_add, ← Nat.mul_add]
      simp [noiseL, Nat.add_comm]
    rw [e0]
    refine RLe.bind (ENNReal.pow_ne_top hc) (ih hctx hdctx hev.head.2 fun n hn => evUp_fin h cond (he n hn))
      fun d c' ⟨idx', ⟨hde, hdd⟩, hce, hcc⟩ => ?_
    refine (Layer.sampleR_le hc hμ hb h hN (by rw [hce]; exact hm) (by rw [hde]; exact hm') (by rw [hde, hce]; exact hTT) hcc hdd
      (by rw [hce]; exact hT) hev.head.1.ev he).mono le_rfl fun d2 c2 ⟨i2, ⟨k1, k2⟩, k3, k4⟩ => ⟨i2, ⟨?_, k2⟩, ?_, k4⟩
    · rw [k1, hde]
    · rw [k3, hce]

/-! ### Class, repetition and path -/

namespace Model

/-- entries of noise per row for the choice of the class. -/
def noiseClass (M : Model) : Nat := if 1 < M.num_classes then (Layer.sum M.classRoot).noise else 0

/-- entries of noise per row for the choice of the repetition. -/
def noiseRep (M : Model) : Nat := if 1 < M.num_repetitions then M.num_repetitions else 0

theorem pickClassR_le {μ : Measure ℝ} {b : Prop × Prop} {c : ℝ≥0∞} (hc : c ≠ ⊤) (hμ : μ ≤ c • gumbel0) (hb : NoiseOK b μ gumbel0) {M : Model} {g : Nat → Nat → Nat}
    (h : M.WF g) {a : SampleArgs} (hci : a.class_index = none) (hN : 0 < a.count) (hm : a.is_mpe = false)
    (hT : a.temperature_sums ≠ 0) :
    RLe b (c ^ (a.count * M.noiseClass)) (fun d c => ∃ cls : Nat → Nat,
      (d = { initCtxD a with indices_out := d.indices_out } ∧ DCtxOK d a.count 1 M.num_classes 1 (fun n _ => cls n) fun _ => 0) ∧
      c = ({ M.initCtx a with indices_out := c.1.indices_out }, a.count) ∧
      CtxOK c.1 a.count 1 M.num_classes M.num_repetitions (fun n _ => cls n) fun _ => 0)
      (M.pickClassR μ a (initCtxD a)) (M.pickClass a (M.initCtx a)) := by
  unfold pickClassR pickClass noiseClass
  by_cases hC : 1 < M.num_classes
  · rw [if_pos hC, if_pos hC, if_pos hC, hci]
    dsimp only
    have h0 := Layer.sampleR_le hc hμ hb (root_WF h hC) hN (ctx := M.initCtx a) (dctx := initCtxD a) hm hm rfl
      (initCtx_ok a (by omega) (by omega)) (initCtxD_ok a) hT (cache := none) (e := fun _ _ _ _ => .fin 0) (Or.inl rfl)
      (fun _ _ _ _ _ _ _ _ => Fl.isFin_fin _)
    rw [← mul_one (c ^ _)]
    rw [show SumLayer.sampleR μ M.classRoot none (initCtxD a) = (SumLayer.sampleR μ M.classRoot none (initCtxD a)).bind .pure from
      (Rand.bind_pure _).symm]
    refine RLe.bind ENNReal.one_ne_top h0 fun d c ⟨idx, ⟨k1, k2⟩, k3, k4⟩ => RLe.pure ⟨fun n => idx n 0, ⟨k1, ?_⟩, by rw [k3], ?_⟩
    · refine ⟨k2.ns, Is.is3 k2.io ?_, fun n hn d hd => k2.io_lt n hn 0 (by omega), k2.ir, k2.ir_lt⟩
      intro n hn d hd s hs
      have : d = 0 := by omega
      subst this; rfl
    · refine ⟨k4.ns, Is.is2 k4.io ?_, fun n hn d hd => k4.io_lt n hn 0 (by omega), k4.ir, fun _ _ => h.reps_pos⟩
      intro n hn d hd
      have : d = 0 := by omega
      subst this; rfl
  · have h1 : M.num_classes = 1 := by have := h.classes_pos; omega
    rw [if_neg hC, if_neg hC, if_neg hC, Nat.mul_zero, pow_zero]
    refine RLe.pure ⟨fun _ => 0, ⟨rfl, ?_⟩, rfl, initCtx_ok a h.reps_pos h.classes_pos⟩
    rw [h1]
    exact initCtxD_ok a

theorem pickRepR_le {μ : Measure ℝ} {b : Prop × Prop} {c : ℝ≥0∞} (hc : c ≠ ⊤) (hμ : μ ≤ c • gumbel0) (hb : NoiseOK b μ gumbel0) {M : Model} {g : Nat → Nat → Nat}
    (h : M.WF g) {ctx : Ctx} {dctx : DCtx} {N : Nat} (hm : ctx.is_mpe = false)
    (hm' : dctx.is_mpe = false) (hTT : dctx.temperature_sums = ctx.temperature_sums) (hT : ctx.temperature_sums ≠ 0)
    {cls : Nat → Nat} (hctx : CtxOK ctx N 1 M.num_classes M.num_repetitions (fun n _ => cls n) (fun _ => 0))
    (hdctx : DCtxOK dctx N 1 M.num_classes 1 (fun n _ => cls n) (fun _ => 0)) {cond : Bool} {cs : Caches}
    {e : Nat → Row} (hev : M.EvM cond N cs e) (he : M.FinRows N e) :
    RLe b (c ^ (N * M.noiseRep)) (fun d c => ∃ rr : Nat → Nat,
      (d = { dctx with indices_repetition := d.indices_repetition } ∧
        DCtxOK d N 1 M.num_classes M.num_repetitions (fun n _ => cls n) rr) ∧
      c = { ctx with indices_repetition := c.indices_repetition } ∧
      CtxOK c N 1 M.num_classes M.num_repetitions (fun n _ => cls n) rr)
      (M.pickRepR μ cs.mixing dctx) (M.pickRep cs.mixing ctx N) := by
  unfold pickRepR pickRep noiseRep
  by_cases hR : 1 < M.num_repetitions
  · obtain ⟨h1, h2, h3, h4, h5⟩ := h.mix hR
    obtain ⟨V, hV, hV'⟩ := mix_exact h hR hctx hev
    obtain ⟨W, hW, hW'⟩ := mixD_exact h hR hdctx hev he
    rw [hTT] at hW'
    have hfin : ∀ n, n < N → ∀ r, r < M.num_repetitions → _ := fun n hn r hr =>
      wtMix_fin h hR hT cs.mixing.isSome he hn (hctx.io_lt n hn 0 (by omega)) hr
    have hD := absSampleR_eq (μ := μ) (post := fun _ i => .ok i) hdctx.check hW
    rw [hm'] at hD
    simp only [if_pos hR]
    unfold MixingLayer.sampleR MixingLayer.sample
    rw [h1, h3, hD, absSample_eq hctx.check hV]
    unfold drawIndices
    rw [if_neg (by simp [hm]), Rand.bind_assoc, Rand.bind_assoc, ← mul_one (c ^ _)]
    have h0 := drawNoise_le hc hμ hb hW' hV' (by omega) (fun n hn d _ => hfin n hn)
    rw [mul_one N] at h0
    refine RLe.bind ENNReal.one_ne_top h0 fun ns ix ⟨hg, hsh, hix⟩ => ?_
    obtain ⟨d, hd, hde, hdd⟩ := pickRepD_is h (by rw [hTT]; exact hT) hdctx hev he (noise := ns) (fun _ => hg)
    unfold pickRepD MixingLayer.sampleD at hd
    rw [if_pos hR, h1, h3] at hd
    obtain ⟨v, hv, hv'⟩ := view_is (s' := [N]) (Is.refl ix hsh) (by simp [numelS])
    rw [Rand.lift_bind_lift, hd, Rand.lift_ok, Rand.lift_ok, Rand.pure_bind, Rand.pure_bind, hv, Rand.lift_ok, Rand.pure_bind]
    refine RLe.pure ⟨_, ⟨hde, hdd⟩, rfl, hctx.ns, hctx.io, hctx.io_lt, Is.intro hv'.1 fun j hj => ?_, hdd.ir_lt⟩
    rw [Is.get hv' hj]
    match j, hj with
    | [n], hj =>
      have e0 : unflat [N, 1] (flat [N] [n]) = [n, 0] :=
        unflat_eq (s := [N, 1]) ⟨hj.1, by omega, by simp⟩ (by simp [flat, numelS])
      rw [e0, hix n hj.1 0 (by omega)]
      simp only [hm', hTT, pickMix, if_pos hR]
      rfl
  · have h1 : M.num_repetitions = 1 := by have := h.reps_pos; omega
    rw [if_neg hR, if_neg hR, if_neg hR, Nat.mul_zero, pow_zero]
    refine RLe.pure ⟨fun _ => 0, ⟨rfl, ?_⟩, rfl, hctx⟩
    rw [h1]
    exact hdctx

/-- the path without the inverse permutation, one-hot indices, noise drawn. -/
def corePathR (μ : Measure ℝ) (M : Model) (a : SampleArgs) (caches : Caches) : Rand DCtx :=
  (M.pickClassR μ a (initCtxD a)).bind fun ctx =>
    (M.pickRepR μ caches.mixing ctx).bind fun ctx => sampleLayersR μ M.layers caches.layers ctx

/-- entries of noise per row: one for every weight at every choice. -/
def noise (M : Model) : Nat := M.noiseClass + M.noiseRep + noiseL M.layers

theorem corePathR_le {μ : Measure ℝ} {b : Prop × Prop} {c : ℝ≥0∞} (hc : c ≠ ⊤) (hμ : μ ≤ c • gumbel0) (hb : NoiseOK b μ gumbel0) {M : Model} {g : Nat → Nat → Nat}
    (h : M.WF g) {a : SampleArgs} (hci : a.class_index = none) (hN : 0 < a.count) (hm : a.is_mpe = false)
    (hT : a.temperature_sums ≠ 0) {cond : Bool} {cs : Caches} {e : Nat → Row} (hev : M.EvM cond a.count cs e)
    (he : M.FinRows a.count e) :
    RLe b (c ^ (a.count * M.noise)) (fun d c => ∃ idx rr, (DCtxOK d a.count M.numOut M.num_leaves M.num_repetitions idx rr ∧
        d = { initCtxD a with indices_out := d.indices_out, indices_repetition := d.indices_repetition }) ∧
      CtxOK c a.count M.numOut M.num_leaves M.num_repetitions idx rr ∧
        c = { M.initCtx a with indices_out := c.indices_out, indices_repetition := c.indices_repetition })
      (M.corePathR μ a cs) (M.corePath a cs) := by
  have e0 : c ^ (a.count * M.noise) =
      c ^ (a.count * M.noiseClass) * (c ^ (a.count * M.noiseRep) * c ^ (a.count * noiseL M.layers)) := by
    rw [← pow_add, ← pow_add, noise]
    congr 1
    ring
  have hn : ∀ k : Nat, c ^ k ≠ ⊤ := fun k => ENNReal.pow_ne_top hc
  rw [e0]
  unfold corePathR corePath
  refine RLe.bind (ENNReal.mul_ne_top (hn _) (hn _)) (pickClassR_le hc hμ hb h hci hN hm hT)
    fun d1 ⟨c1, n1⟩ ⟨cls, ⟨de1, do1⟩, ce1, co1⟩ => ?_
  simp only [Prod.mk.injEq] at ce1
  obtain ⟨ce1, rfl⟩ := ce1
  refine RLe.bind (hn _) (pickRepR_le hc hμ hb h (by rw [ce1]; exact hm) (by rw [de1]; exact hm) (by rw [ce1, de1]; rfl)
    (by rw [ce1]; exact hT) co1 do1 hev he) fun d2 c2 ⟨rr, ⟨de2, do2⟩, ce2, co2⟩ => ?_
  refine (sampleLayersR_le hc hμ hb h.chain hN (by rw [ce2, ce1]; exact hm) (by rw [de2, de1]; exact hm)
    (by rw [ce2, ce1, de2, de1]; rfl) co2 do2 (by rw [ce2, ce1]; exact hT) hev.layers he).mono le_rfl
    fun d3 c3 ⟨idx, ⟨de3, do3⟩, ce3, co3⟩ => ⟨idx, rr, ⟨do3, ?_⟩, co3, ?_⟩
  · rw [de3, de2, de1]
  · rw [ce3, ce2, ce1]

/-! ### The values and the whole call -/

/-- the values drawn by the leaf. -/
def sampleValuesR (μ : Measure ℝ) (M : Model) (a : SampleArgs) (cs : Caches) : Rand (Tensor Fl) :=
  (M.samplePathR μ a cs).bind fun ctx => M.leaf.sampleD ctx

theorem sampleValuesR_eq (μ : Measure ℝ) (M : Model) (a : SampleArgs) (cs : Caches) : M.sampleValuesR μ a cs =
    (M.corePathR μ a cs).bind fun ctx => (Rand.lift (M.unpermuteD ctx)).bind fun c => M.leaf.sampleD c := by
  unfold sampleValuesR samplePathR corePathR
  simp only [Rand.bind_assoc]

theorem sampleR_eq (μ : Measure ℝ) (M : Model) (a : SampleArgs) {cs : Caches} (h1 : a.check M = .ok ())
    (h2 : M.evidenceCaches a = .ok cs) :
    M.sampleR μ a = (M.sampleValuesR μ a cs).bind fun s => Rand.lift (finishD a s) := by
  unfold sampleR sampleValuesR
  rw [h1, h2]
  simp only [Rand.lift_ok, Rand.pure_bind, Rand.bind_assoc]

/-- adding a constant to a function of the drawn values. -/
theorem draws_near {B : BaseLeaf} {ctx : Ctx} (hp : ∀ c f i r, IsProbabilityMeasure (B.law ctx.temperature_leaves c f i r)) :
    (B.draws ctx).Near fun _ => True := by
  unfold BaseLeaf.draws
  split_ifs
  · exact .pure trivial
  · exact .drawAll fun i => .leaf (hp _ _ _ _).measure_univ fun x => .pure trivial

theorem sampleValuesR_le {μ : Measure ℝ} {b : Prop × Prop} {c : ℝ≥0∞} (hc : c ≠ ⊤) (hμ : μ ≤ c • gumbel0) (hb : NoiseOK b μ gumbel0) {M : Model} {g : Nat → Nat → Nat}
    (h : M.Samplable g) {a : SampleArgs} (hci : a.class_index = none) (hN : 0 < a.count) (hm : a.is_mpe = false)
    (hT : a.temperature_sums ≠ 0) (hD : a.mpe_at_leaves = true ∨ M.leaf.base.lawD = M.leaf.base.law) {cond : Bool}
    {cs : Caches} {e : Nat → Row} (hev : M.EvM cond a.count cs e) (he : M.FinRows a.count e)
    (hL : b.2 → 0 < a.temperature_leaves) :
    RLe b (c ^ (a.count * M.noise)) (fun s2 s1 => ∃ S : Nat → Nat → Nat → ℝ,
        (s2.Is3 a.count M.num_channels M.num_features fun n c f => .fin (S n c f)) ∧
        s1.Is3 a.count M.num_channels M.num_features S)
      (M.sampleValuesR μ a cs) (M.sampleValues a cs) := by
  rw [sampleValuesR_eq, sampleValues_eq, ← mul_one (c ^ _)]
  refine RLe.bind ENNReal.one_ne_top (corePathR_le hc hμ hb h.wf hci hN hm hT hev he) fun d1 c1 ⟨idx, rr, ⟨do1, de1⟩, co1, ce1⟩ => ?_
  obtain ⟨res1, h1, h1'⟩ := leaf_sample_eq h.wf.front h.features_pos h.samp.samplable hN co1
  obtain ⟨res2, h2, h2'⟩ := leafD_sample_eq h.wf.front h.wf.reps_pos h.samp.samplable hN do1
  rw [h1, h2]
  have hdr : M.leaf.base.diff.draws (BaseLeaf.drawCtx d1) = M.leaf.base.draws c1 := by
    rw [de1, ce1]
    rcases hD with hD | hD
    · unfold BaseLeaf.draws
      rw [if_pos, if_pos]
      · rfl
      · exact Or.inr hD
      · exact Or.inr hD
    · unfold BaseLeaf.diff
      rw [hD]
      rfl
  rw [hdr, ← mul_one (1 : ℝ≥0∞)]
  refine RLe.bind ENNReal.one_ne_top (RLe.refl _ fun hb' => draws_near fun c f i r => ?_) fun v v' hv => ?_
  · rw [ce1]; exact h.samp.prob _ (hL hb') c f i r
  subst hv
  obtain ⟨s1, r1, hs1⟩ := h1' v
  obtain ⟨s2, r2, hs2⟩ := h2' v
  exact RLe.lift r2 r1 ⟨_, hs2, hs1⟩

end Model

end Einet
