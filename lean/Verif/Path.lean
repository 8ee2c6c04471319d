import Verif.EinetFwd

/-!
# The sampling path: class, repetition and one channel per region

Laws of `pickClass`, `pickRep` and their composition with the layers.
-/

open Classical MeasureTheory
open scoped ENNReal
noncomputable section
namespace Einet
open Tensor

theorem prod2_one (N : Nat) (f : Nat → Nat → ℝ≥0∞) : prod2 N 1 f = ∏ n ∈ Finset.range N, f n 0 := by
  simp [prod2]

namespace Model

/-- the `class_index` argument is absent, an integer in range, or a list of as many integers in range as samples are
drawn. -/
def ClassOK (M : Model) (N : Nat) : Option ClassIndex → Prop
  | none => True
  | some (.int c) => 1 < M.num_classes ∧ c < M.num_classes
  | some (.list l) => 1 < M.num_classes ∧ l.length = N ∧ ∀ n, n < N → l.getD n 0 < M.num_classes

/-- probability with which `sample` starts row `n` at class `k`. -/
def classW (M : Model) (T : ℝ) (ci : Option ClassIndex) (n k : Nat) : ℝ≥0∞ :=
  if 1 < M.num_classes then
    match ci with
    | some (.int c) => if k = c then 1 else 0
    | some (.list l) => if k = l.getD n 0 then 1 else 0
    | none => toP (M.classRoot.lw T 0 k 0 0)
  else if k = 0 then 1 else 0

theorem classW_sum {M : Model} {g : Nat → Nat → Nat} (h : M.WF g) {T : ℝ} (hT : T ≠ 0) {ci : Option ClassIndex}
    {N : Nat} (hc : M.ClassOK N ci) {n : Nat} (hn : n < N) :
    ∑ k ∈ Finset.range M.num_classes, M.classW T ci n k = 1 := by
  unfold classW
  split_ifs with hC
  · cases ci with
    | none =>
      obtain ⟨h1, h2, h3, h4, h5, h6⟩ := h.root hC
      have := M.classRoot.lw_fin (T := T) h5 h6 (by omega) hT (d := 0) (s := 0) (r := 0)
        (by omega) (by omega) (by omega)
      rw [← h2]
      exact this.2
    | some ci =>
      cases ci with
      | int c => simp [hc.2]
      | list l => simp [-List.getD_eq_getElem?_getD, hc.2.2 n hn]
  · have : M.num_classes = 1 := by have := h.classes_pos; omega
    simp [this]

theorem initCtx_ok {M : Model} (a : SampleArgs) {R S : Nat} (hR : 0 < R) (hS : 0 < S) :
    CtxOK (M.initCtx a) a.count 1 S R (fun _ _ => 0) (fun _ => 0) where
  ns := rfl
  io := full_is _ _
  io_lt _ _ _ _ := hS
  ir := full_is _ _
  ir_lt _ _ := hR

theorem root_WF {M : Model} {g : Nat → Nat → Nat} (h : M.WF g) (hC : 1 < M.num_classes) :
    Layer.WF (.sum M.classRoot) 1 M.num_classes 1 1 1 := by
  obtain ⟨h1, h2, h3, h4, h5, h6⟩ := h.root hC
  have := Layer.WF.sum M.classRoot h5 h6 (by omega)
  rwa [h1, h2, h3, h4] at this

theorem rootEv (M : Model) (N : Nat) : (Layer.sum M.classRoot).EvOK N none fun _ _ _ _ => .fin 0 :=
  Or.inl ⟨rfl, fun _ _ _ _ => rfl⟩

theorem root_den_ne {M : Model} {g : Nat → Nat → Nat} (h : M.WF g) (hC : 1 < M.num_classes) {T : ℝ} (hT : T ≠ 0) {d s : Nat}
    (hd : d < 1) (hs : s < 1) : (Layer.sum M.classRoot).den T (pRow fun _ _ _ => .fin 0) d s 0 = 1 :=
  Layer.den_one (x := pRow fun _ _ _ => .fin 0) (root_WF h hC) hT (by omega) (fun d _ k _ => by simp [pRow]) hd hs

/-- outcomes of the class choice. -/
theorem pickClass_All {M : Model} {g : Nat → Nat → Nat} (h : M.WF g) {a : SampleArgs} (hN : 0 < a.count)
    (hT : a.temperature_sums ≠ 0) (hc : M.ClassOK a.count a.class_index) :
    (M.pickClass a (M.initCtx a)).All fun p => p.2 = a.count ∧ p.1 = { M.initCtx a with indices_out := p.1.indices_out } ∧
      ∃ cls : Nat → Nat, CtxOK p.1 a.count 1 M.num_classes M.num_repetitions (fun n _ => cls n) (fun _ => 0) := by
  unfold pickClass
  split_ifs with hC
  · cases hci : a.class_index with
    | none =>
      dsimp only
      refine (Layer.sample_All (root_WF h hC) hN (initCtx_ok a (by omega) (by omega)) hT (rootEv M _)
        (fun _ _ _ _ _ _ => trivial) (fun n hn d hd => by
          rw [show (M.initCtx a).temperature_sums = a.temperature_sums from rfl, root_den_ne h hC hT hd (by omega)]
          simp)).bind fun c ⟨hc1, idx, ch, hctx, _⟩ => ⟨rfl, hc1, fun n => idx n 0, ?_⟩
      exact ⟨hctx.ns, Is.is2 hctx.io (by
        intro n hn d hd
        have : d = 0 := by omega
        subst this; rfl), fun n hn d _ => hctx.io_lt n hn 0 (by omega),
        hctx.ir, fun _ _ => h.reps_pos⟩
    | some ci =>
      rw [hci] at hc
      cases ci with
      | int c =>
        exact ⟨rfl, rfl, fun _ => c, ⟨rfl, full_is _ _, fun _ _ _ _ => hc.2, full_is _ _, fun _ _ => h.reps_pos⟩⟩
      | list l =>
        refine ⟨hc.2.1, rfl, fun n => l.getD n 0, ⟨rfl, ?_, fun n hn _ _ => hc.2.2 n hn, full_is _ _,
          fun _ _ => h.reps_pos⟩⟩
        refine Is.intro (by rw [hc.2.1]) fun j hj => ?_
        match j, hj with
        | [a, b], _ => rfl
  · exact ⟨rfl, rfl, fun _ => 0, initCtx_ok a h.reps_pos h.classes_pos⟩

/-- law of the class choice. -/
theorem pickClass_E {M : Model} {g : Nat → Nat → Nat} (h : M.WF g) {a : SampleArgs} (hN : 0 < a.count)
    (hm : a.is_mpe = false) (hT : a.temperature_sums ≠ 0) (hc : M.ClassOK a.count a.class_index) (v : Nat → Nat → ℝ≥0∞) :
    (M.pickClass a (M.initCtx a)).E (fun p => ∏ n ∈ Finset.range a.count, v n (p.1.indices_out.get [n, 0])) =
      ∏ n ∈ Finset.range a.count, ∑ k ∈ Finset.range M.num_classes, M.classW a.temperature_sums a.class_index n k * v n k := by
  unfold pickClass classW
  split_ifs with hC
  · cases hci : a.class_index with
    | none =>
      dsimp only
      rw [Rand.E_bind]
      have := Layer.sample_E (root_WF h hC) hN hm (initCtx_ok a (by omega) (by omega)) hT (rootEv M _)
        (fun _ _ _ _ _ _ => trivial) (fun n hn d hd => by
          rw [show (M.initCtx a).temperature_sums = a.temperature_sums from rfl, root_den_ne h hC hT hd (by omega)]
          simp) fun n _ k => v n k
      simp only [prod2_one] at this
      refine this.trans (Finset.prod_congr rfl fun n _ => ?_)
      rw [show (M.initCtx a).temperature_sums = a.temperature_sums from rfl,
        root_den_ne h hC hT (by omega) (by omega), div_one]
      simp only [Layer.den, pRow, toP_zero, mul_one]
      rw [(h.root hC).2.1]
    | some ci =>
      rw [hci] at hc
      cases ci with
      | int c =>
        dsimp only
        refine Finset.prod_congr rfl fun n _ => ?_
        simp [full, hc.2]
      | list l =>
        dsimp only
        refine Finset.prod_congr rfl fun n hn => ?_
        have := hc.2.2 n (by simpa using hn)
        simp [-List.getD_eq_getElem?_getD, at', this]
  · have : M.num_classes = 1 := by have := h.classes_pos; omega
    refine Finset.prod_congr rfl fun n _ => ?_
    simp [this, initCtx, full]

theorem disc_pickClass (M : Model) (a : SampleArgs) (ctx : Ctx) : (M.pickClass a ctx).Disc := by
  unfold pickClass
  split_ifs
  · split
    · trivial
    · trivial
    · exact (Layer.disc_sample (.sum M.classRoot) none ctx).bind fun _ => trivial
  · trivial

/-- Evidence available to the sampling pass: none, or the caches of a forward pass with leaf rows `e`. -/
structure EvM (M : Model) (cond : Bool) (N : Nat) (cs : Caches) (e : Nat → Row) : Prop where
  layers : EvL cond M.layers N cs.layers e
  mix : if cond = true ∧ 1 < M.num_repetitions then ∃ x, cs.mixing = some (Cache.one x) ∧
      x.Is4 N 1 M.num_classes M.num_repetitions (fun n => rowL M.layers (e n)) else cs.mixing = none

theorem CachesOK.evM {M : Model} {N : Nat} {cs : Caches} {f : Nat → Row} (h : M.CachesOK N cs f) : M.EvM true N cs f := by
  refine ⟨h.1, ?_⟩
  have := h.2
  split_ifs with hR
  · rw [if_pos hR.2] at this; exact this
  · rw [if_neg (by simpa using hR)] at this; exact this

theorem evM_none (M : Model) (N : Nat) : M.EvM false N ⟨[], none⟩ fun _ _ _ _ => .fin 0 :=
  ⟨⟨by simp, fun _ _ _ _ => rfl⟩, by simp⟩

/-- finite leaf rows. -/
def FinRows (M : Model) (N : Nat) (e : Nat → Row) : Prop :=
  ∀ n, n < N → ∀ d, d < M.numOut → ∀ k, k < M.num_leaves → ∀ r, r < M.num_repetitions → (e n d k r).IsFin

theorem evTop_fin {M : Model} {g : Nat → Nat → Nat} (h : M.WF g) {cond : Bool} {N : Nat} {e : Nat → Row}
    (he : M.FinRows N e) (hz : cond = false → ∀ n d k r, e n d k r = .fin 0) {n k r : Nat} (hn : n < N)
    (hk : k < M.num_classes) (hr : r < M.num_repetitions) : (evTop cond M.layers (e n) 0 k r).IsFin := by
  have h0 : ∀ (ls : List Layer) (e : Row), (∀ d k r, e d k r = .fin 0) → ∀ d k r, evTop false ls e d k r = .fin 0 := by
    intro ls
    induction ls with
    | nil => exact fun e he => he
    | cons l ls ih => exact fun e he => ih _ fun _ _ _ => rfl
  have h1 : ∀ (ls : List Layer) (e : Row), evTop true ls e = rowL ls e := by
    intro ls
    induction ls with
    | nil => exact fun _ => rfl
    | cons l ls ih => exact fun e => ih _
  cases cond
  · rw [h0 _ _ (hz rfl n)]; exact Fl.isFin_fin _
  · rw [h1]
    exact (rowL_den h.chain (b := true) (fun _ => rfl) hr (fun d hd k hk => he n hn d hd k hk r hr) (by omega) hk).1

/-- weight of a repetition. -/
def repW (M : Model) (cond : Bool) (T : ℝ) (e : Row) (k r : Nat) : ℝ≥0∞ :=
  toP (M.mixing.lwMix T 0 k r) * toP (evTop cond M.layers e 0 k r)

theorem evTop_true (ls : List Layer) (e : Row) : evTop true ls e = rowL ls e := by
  induction ls generalizing e with
  | nil => rfl
  | cons l ls ih => exact ih _

theorem evTop_false (ls : List Layer) (e : Row) (h : ∀ d k r, e d k r = .fin 0) (d k r : Nat) :
    evTop false ls e d k r = .fin 0 := by
  induction ls generalizing e with
  | nil => exact h d k r
  | cons l ls ih => exact ih _ fun _ _ _ => rfl

theorem mixWeights {M : Model} {g : Nat → Nat → Nat} (h : M.WF g) (hR : 1 < M.num_repetitions) {ctx : Ctx} {N : Nat}
    (hT : ctx.temperature_sums ≠ 0) {cls : Nat → Nat}
    (hctx : CtxOK ctx N 1 M.num_classes M.num_repetitions (fun n _ => cls n) (fun _ => 0)) {cond : Bool} {cs : Caches}
    {e : Nat → Row} (hev : M.EvM cond N cs e) (he : M.FinRows N e) :
    Res.Sat (absWeights (MixingLayer.selectWeights M.mixing) (MixingLayer.condition M.mixing) cs.mixing ctx) fun W =>
      ∃ g, Weighted W N 1 M.num_repetitions
        (fun n _ r => M.repW cond ctx.temperature_sums (e n) (cls n) r) g := by
  obtain ⟨h1, h2, h3, h4, h5⟩ := h.mix hR
  have hw := fun n (hn : n < N) => M.mixing.lwMix_fin (T := ctx.temperature_sums) (D := 1)
    (by rw [h4]; simp [MixingLayer.weightShape, h1]) h5 (by omega) hT (d := 0) (by omega) (s := cls n)
    (by rw [h3]; exact hctx.io_lt n hn 0 (by omega))
  have hctx' : CtxOK ctx N M.mixing.num_features M.mixing.num_sums_out M.num_repetitions (fun n _ => cls n) (fun _ => 0) := by
    rw [h1, h3]; exact hctx
  have hz : cond = false → ∀ n d k r, e n d k r = .fin 0 := by
    intro hc; have := hev.layers; unfold EvL at this; rw [hc] at this; exact this.2
  unfold absWeights
  refine (MixingLayer.selectWeights_is h4 hctx').bind fun lw hlw => ?_
  have hmix := hev.mix
  have hnn : ∀ n, n < N → ∀ d, d < M.mixing.num_features → ∀ k, k < M.mixing.num_sums_in →
      NN (M.mixing.lwMix ctx.temperature_sums d (cls n) k) := by
    intro n hn d hd k hk
    have : d = 0 := by omega
    subst this
    exact NN_of_isFin ((hw n hn).1 k hk)
  cases cond
  · rw [if_neg (by simp)] at hmix
    rw [hmix]
    refine Res.Sat.ok ?_
    have := weighted_of_is hlw hnn (fun n hn d hd => by
      have : d = 0 := by omega
      subst this
      exact (hw n hn).2)
    rw [h1, h2] at this
    refine ⟨_, this.congr fun n hn d hd k hk => ?_⟩
    have : d = 0 := by omega
    subst this
    unfold repW
    rw [evTop_false _ _ (hz rfl n)]
  · rw [if_pos ⟨rfl, hR⟩] at hmix
    obtain ⟨x, hx, hx4⟩ := hmix
    rw [hx]
    have hfin : ∀ n, n < N → ∀ d, d < M.mixing.num_features → ∀ k, k < M.mixing.num_sums_in →
        (rowL M.layers (e n) d (cls n) k).IsFin := by
      intro n hn d hd k hk
      have : d = 0 := by omega
      subst this
      rw [← evTop_true]
      exact evTop_fin h he hz hn (hctx.io_lt n hn 0 (by omega)) (by omega)
    refine (MixingLayer.condition_is h1 hctx' (e := fun n => rowL M.layers (e n)) (by rw [h1, h2, h3]; exact hx4) hlw hnn
      (fun n hn d hd k hk => NN_of_isFin (hfin n hn d hd k hk)) ?_).mono fun W ⟨g, hg⟩ => ⟨g, ?_⟩
    · intro n hn d hd h0
      have : d = 0 := by omega
      subst this
      have h00 := Finset.sum_eq_zero_iff.1 h0 0 (by simp; omega)
      exact mul_ne_zero (toP_ne_zero ((hw n hn).1 0 (by omega))) (toP_ne_zero (hfin n hn 0 hd 0 (by omega))) h00
    · rw [h1, h2] at hg
      refine hg.congr fun n hn d hd k hk => ?_
      have : d = 0 := by omega
      subst this
      unfold repW
      rw [evTop_true]

/-- outcomes of the repetition choice. -/
theorem pickRep_All {M : Model} {g : Nat → Nat → Nat} (h : M.WF g) {ctx : Ctx} {N : Nat}
    (hT : ctx.temperature_sums ≠ 0) {cls : Nat → Nat}
    (hctx : CtxOK ctx N 1 M.num_classes M.num_repetitions (fun n _ => cls n) (fun _ => 0)) {cond : Bool} {cs : Caches}
    {e : Nat → Row} (hev : M.EvM cond N cs e) (he : M.FinRows N e) :
    (M.pickRep cs.mixing ctx N).All fun c => c = { ctx with indices_repetition := c.indices_repetition } ∧
      ∃ rr : Nat → Nat, CtxOK c N 1 M.num_classes M.num_repetitions (fun n _ => cls n) rr ∧
        (1 < M.num_repetitions → ctx.is_mpe = true → ∀ n, n < N → ∀ r, r < M.num_repetitions →
          M.repW cond ctx.temperature_sums (e n) (cls n) r ≤ M.repW cond ctx.temperature_sums (e n) (cls n) (rr n)) := by
  unfold pickRep
  split_ifs with hR
  · obtain ⟨h1, h2, h3, h4, h5⟩ := h.mix hR
    have hall : (MixingLayer.sample M.mixing cs.mixing ctx).All fun c =>
        c = { ctx with indices_out := c.indices_out } ∧ c.indices_out.shape = [N, 1] ∧
        (∀ n, n < N → c.indices_out.get [n, 0] < M.num_repetitions ∧
          (ctx.is_mpe = true → ∀ r, r < M.num_repetitions → M.repW cond ctx.temperature_sums (e n) (cls n) r ≤
            M.repW cond ctx.temperature_sums (e n) (cls n) (c.indices_out.get [n, 0]))) := by
      unfold MixingLayer.sample
      refine absSample_All (by rw [h1]; exact hctx.check) (by omega) (mixWeights h hR hT hctx hev he) fun ix hix hc => ?_
      exact Res.Sat.ok ⟨rfl, hix, fun n hn => ⟨(hc n hn 0 (by omega)).1, (hc n hn 0 (by omega)).2.2⟩⟩
    refine hall.bind fun c ⟨hc, hsh, hlt⟩ => ?_
    obtain ⟨v, hv, hv'⟩ := view_is (s' := [N]) (Is.refl c.indices_out hsh) (by simp [numelS])
    rw [hv]
    have e0 : ∀ n, n < N → unflat [N, 1] (flat [N] [n]) = [n, 0] := fun n hn =>
      unflat_eq ⟨hn, by omega, by simp⟩ (by simp [flat, numelS])
    refine ⟨by rw [hc], fun n => c.indices_out.get [n, 0], ⟨by rw [hc]; exact hctx.ns, hctx.io, hctx.io_lt, ?_,
      fun n hn => (hlt n hn).1⟩, fun _ hmp n hn => (hlt n hn).2 hmp⟩
    refine Is.intro hv'.1 fun j hj => ?_
    rw [Is.get hv' hj]
    match j, hj with
    | [n], hj => rw [e0 n hj.1]; rfl
  · exact ⟨rfl, fun _ => 0, hctx, fun h1 => absurd h1 hR⟩

/-- law of the repetition choice. -/
theorem pickRep_E {M : Model} {g : Nat → Nat → Nat} (h : M.WF g) {ctx : Ctx} {N : Nat} (hm : ctx.is_mpe = false)
    (hT : ctx.temperature_sums ≠ 0) {cls : Nat → Nat}
    (hctx : CtxOK ctx N 1 M.num_classes M.num_repetitions (fun n _ => cls n) (fun _ => 0)) {cond : Bool} {cs : Caches}
    {e : Nat → Row} (hev : M.EvM cond N cs e) (he : M.FinRows N e) (v : Nat → Nat → ℝ≥0∞) :
    (M.pickRep cs.mixing ctx N).E (fun c => ∏ n ∈ Finset.range N, v n (c.indices_repetition.get [n])) =
      ∏ n ∈ Finset.range N, if 1 < M.num_repetitions then
        (∑ r ∈ Finset.range M.num_repetitions, M.repW cond ctx.temperature_sums (e n) (cls n) r * v n r) /
          ∑ r ∈ Finset.range M.num_repetitions, M.repW cond ctx.temperature_sums (e n) (cls n) r
      else v n 0 := by
  unfold pickRep
  split_ifs with hR
  · obtain ⟨h1, h2, h3, h4, h5⟩ := h.mix hR
    rw [Rand.E_bind]
    have key := absSample_E (D := M.mixing.num_features) (F := fun o => ∏ n ∈ Finset.range N, v n (o.get [n, 0])) (f := fun n _ r => v n r)
      (by rw [h1]; exact hctx.check) hm (by omega) (mixWeights h hR hT hctx hev he) (post := fun _ i => .ok i)
      (fun ix hix hc => Res.Sat.ok (by rw [prod2_one]))
    rw [prod2_one] at key
    rw [← key]
    have hall : (MixingLayer.sample M.mixing cs.mixing ctx).All fun c => c.indices_out.shape = [N, 1] := by
      unfold MixingLayer.sample
      exact absSample_All (by rw [h1]; exact hctx.check) (by omega) (mixWeights h hR hT hctx hev he) fun ix hix hc =>
        Res.Sat.ok hix
    refine Rand.E_congr hall fun c hsh => ?_
    obtain ⟨v', hv, hv'⟩ := view_is (s' := [N]) (Is.refl c.indices_out hsh) (by simp [numelS])
    rw [hv]
    show ∏ n ∈ Finset.range N, v n (v'.get [n]) = _
    refine Finset.prod_congr rfl fun n hn => ?_
    have hn' : n < N := by simpa using hn
    have e0 : unflat [N, 1] (flat [N] [n]) = [n, 0] :=
      unflat_eq ⟨hn', by omega, by simp⟩ (by simp [flat, numelS])
    rw [Is.get hv' (i := [n]) ⟨hn', by simp⟩, e0]
  · show ∏ n ∈ Finset.range N, v n (ctx.indices_repetition.get [n]) = _
    refine Finset.prod_congr rfl fun n hn => ?_
    have := Is.get hctx.ir (i := [n]) ⟨by simpa using hn, by simp⟩
    rw [this]

theorem disc_pickRep (M : Model) (c : Option Cache) (ctx : Ctx) (N : Nat) : (M.pickRep c ctx N).Disc := by
  unfold pickRep
  split_ifs
  · exact (disc_absSample _ _ _ _ _ _).bind fun _ => Rand.Disc.lift.bind fun _ => trivial
  · trivial

/-- the path without the inverse permutation (einet.py:615-660). -/
def corePath (M : Model) (a : SampleArgs) (caches : Caches) : Rand Ctx :=
  (M.pickClass a (M.initCtx a)).bind fun (ctx, n) =>
    (M.pickRep caches.mixing ctx n).bind fun ctx => sampleLayers M.layers caches.layers ctx

theorem samplePath_eq (M : Model) (a : SampleArgs) (caches : Caches) :
    M.samplePath a caches = (M.corePath a caches).bind fun ctx => Rand.lift (M.unpermute ctx) := by
  unfold samplePath corePath
  simp only [Rand.bind_assoc]

theorem disc_corePath (M : Model) (a : SampleArgs) (cs : Caches) : (M.corePath a cs).Disc :=
  (disc_pickClass _ _ _).bind fun _ => (disc_pickRep _ _ _ _).bind fun _ => disc_sampleLayers _ _ _

/-- expectation of a product of test functions on the channels chosen for the regions. -/
def pathVal (M : Model) (cond : Bool) (T : ℝ) (e : Row) (u : PRow) (k : Nat) : ℝ≥0∞ :=
  if 1 < M.num_repetitions then
    (∑ r ∈ Finset.range M.num_repetitions, M.repW cond T e k r * valL cond T M.layers e u 0 k r) /
      ∑ r ∈ Finset.range M.num_repetitions, M.repW cond T e k r
  else valL cond T M.layers e u 0 k 0

/-- outcomes of the path. -/
theorem corePath_All {M : Model} {g : Nat → Nat → Nat} (h : M.WF g) {a : SampleArgs} (hN : 0 < a.count)
    (hT : a.temperature_sums ≠ 0) (hc : M.ClassOK a.count a.class_index) {cond : Bool} {cs : Caches} {e : Nat → Row}
    (hev : M.EvM cond a.count cs e) (he : M.FinRows a.count e) :
    (M.corePath a cs).All fun c => ∃ idx rr, CtxOK c a.count M.numOut M.num_leaves M.num_repetitions idx rr ∧
      c = { M.initCtx a with indices_out := c.indices_out, indices_repetition := c.indices_repetition } := by
  have hz : cond = false → ∀ n d k r, e n d k r = .fin 0 := by
    intro hc; have := hev.layers; unfold EvL at this; rw [hc] at this; exact this.2
  unfold corePath
  refine (pickClass_All h hN hT hc).bind fun p ⟨hp2, hp1, cls, hctx⟩ => ?_
  obtain ⟨c1, n1⟩ := p
  subst hp2
  have hT1 : c1.temperature_sums ≠ 0 := by dsimp only at hp1; rw [hp1]; exact hT
  refine (pickRep_All h hT1 hctx hev he).bind fun c2 ⟨hc2, rr, hctx2, _⟩ => ?_
  have hT2 : c2.temperature_sums ≠ 0 := by rw [hc2]; exact hT1
  refine (sampleLayers_All h.chain (b := true) (fun _ => rfl) hN hctx2 hT2 hev.layers
    (fun n hn d hd k hk => he n hn d hd k hk _ (hctx2.ir_lt n hn)) (fun n hn d hd => ?_)).mono
    fun c3 ⟨hc3, idx, hctx3, _⟩ => ⟨idx, rr, hctx3, ?_⟩
  · have : d = 0 := by omega
    subst this
    exact toP_ne_zero (evTop_fin h he hz hn (hctx2.io_lt n hn 0 (by omega)) (hctx2.ir_lt n hn))
  · dsimp only at hp1
    rw [hc3, hc2, hp1]

/-- law of the path. -/
theorem corePath_E {M : Model} {g : Nat → Nat → Nat} (h : M.WF g) {a : SampleArgs} (hN : 0 < a.count)
    (hm : a.is_mpe = false) (hT : a.temperature_sums ≠ 0) (hc : M.ClassOK a.count a.class_index) {cond : Bool} {cs : Caches}
    {e : Nat → Row} (hev : M.EvM cond a.count cs e) (he : M.FinRows a.count e) (u : Nat → PRow) :
    (M.corePath a cs).E (fun c => prod2 a.count M.numOut fun n o =>
        u n o (c.indices_out.get [n, o]) (c.indices_repetition.get [n])) =
      ∏ n ∈ Finset.range a.count, ∑ k ∈ Finset.range M.num_classes,
        M.classW a.temperature_sums a.class_index n k * M.pathVal cond a.temperature_sums (e n) (u n) k := by
  have hz : cond = false → ∀ n d k r, e n d k r = .fin 0 := by
    intro hc; have := hev.layers; unfold EvL at this; rw [hc] at this; exact this.2
  unfold corePath
  rw [Rand.E_bind, ← pickClass_E h hN hm hT hc]
  refine Rand.E_congr (pickClass_All h hN hT hc) fun p ⟨hp2, hp1, cls, hctx⟩ => ?_
  obtain ⟨c1, n1⟩ := p
  subst hp2
  dsimp only at hp1 hctx ⊢
  have hT1 : c1.temperature_sums = a.temperature_sums := by rw [hp1]; rfl
  have hm1 : c1.is_mpe = false := by rw [hp1]; exact hm
  rw [Rand.E_bind]
  have e1 : ∏ n ∈ Finset.range a.count, M.pathVal cond a.temperature_sums (e n) (u n) (c1.indices_out.get [n, 0]) =
      (M.pickRep cs.mixing c1 a.count).E (fun c => ∏ n ∈ Finset.range a.count,
        valL cond a.temperature_sums M.layers (e n) (u n) 0 (cls n) (c.indices_repetition.get [n])) := by
    rw [pickRep_E h hm1 (by rw [hT1]; exact hT) hctx hev he (fun n r =>
      valL cond a.temperature_sums M.layers (e n) (u n) 0 (cls n) r)]
    refine Finset.prod_congr rfl fun n hn => ?_
    rw [hctx.io.get (by simpa using hn) (by omega), hT1]
    rfl
  rw [e1]
  refine Rand.E_congr (pickRep_All h (by rw [hT1]; exact hT) hctx hev he) fun c2 ⟨hc2, rr, hctx2, _⟩ => ?_
  have hT2 : c2.temperature_sums = a.temperature_sums := by rw [hc2]; exact hT1
  have hm2 : c2.is_mpe = false := by rw [hc2]; exact hm1
  have htop : ∀ n, n < a.count → ∀ d, d < 1 → toP (evTop cond M.layers (e n) d (cls n) (rr n)) ≠ 0 := by
    intro n hn d hd
    have : d = 0 := by omega
    subst this
    exact toP_ne_zero (evTop_fin h he hz hn (hctx2.io_lt n hn 0 (by omega)) (hctx2.ir_lt n hn))
  have e2 := sampleLayers_E h.chain (b := true) (fun _ => rfl) hm2 hN hctx2 (by rw [hT2]; exact hT) hev.layers
    (fun n hn d hd k hk => he n hn d hd k hk _ (hctx2.ir_lt n hn)) htop u
  have hrr : ∀ n, n < a.count → c2.indices_repetition.get [n] = rr n := fun n hn =>
    Is.get hctx2.ir (i := [n]) ⟨hn, by simp⟩
  rw [prod2_one, hT2] at e2
  have e3 : ∏ n ∈ Finset.range a.count, valL cond a.temperature_sums M.layers (e n) (u n) 0 (cls n)
      (c2.indices_repetition.get [n]) =
      ∏ n ∈ Finset.range a.count, valL cond a.temperature_sums M.layers (e n) (u n) 0 (cls n) (rr n) :=
    Finset.prod_congr rfl fun n hn => by rw [hrr n (by simpa using hn)]
  rw [e3, ← e2]
  refine Rand.E_congr (sampleLayers_All h.chain (b := true) (fun _ => rfl) hN hctx2 (by rw [hT2]; exact hT) hev.layers
    (fun n hn d hd k hk => he n hn d hd k hk _ (hctx2.ir_lt n hn)) htop) fun c3 ⟨hc3, idx, hctx3, _⟩ => ?_
  refine prod2_congr fun n hn d hd => ?_
  have : c3.indices_repetition.get [n] = rr n := by rw [hc3]; exact hrr n hn
  rw [this]

/-- value of the model density for region densities `u`. -/
def topP (M : Model) (T : ℝ) (u : PRow) (k : Nat) : ℝ≥0∞ :=
  if 1 < M.num_repetitions then ∑ r ∈ Finset.range M.num_repetitions,
    toP (M.mixing.lwMix T 0 k r) * denL T M.layers u 0 k r
  else denL T M.layers u 0 k 0

theorem outP_eq (M : Model) (g : Nat → Nat → Nat) (T : ℝ) (p : Nat → Nat → Nat → Nat → ℝ≥0∞) (k : Nat) :
    M.outP g T p k = M.topP T (M.regionP g p) k := rfl

theorem topP_congr {M : Model} {g : Nat → Nat → Nat} (h : M.WF g) {T : ℝ} {u v : PRow} {k : Nat} (hk : k < M.num_classes)
    (huv : ∀ d, d < M.numOut → ∀ i, i < M.num_leaves → ∀ r, r < M.num_repetitions → u d i r = v d i r) :
    M.topP T u k = M.topP T v k := by
  unfold topP
  split_ifs
  · refine Finset.sum_congr rfl fun r hr => ?_
    rw [denL_congr h.chain (fun d hd i hi => huv d hd i hi r (by simpa using hr)) (by omega) hk]
  · exact denL_congr h.chain (fun d hd i hi => huv d hd i hi 0 h.reps_pos) (by omega) hk

theorem pathVal_uncond {M : Model} {g : Nat → Nat → Nat} (h : M.WF g) {T : ℝ} (hT : T ≠ 0) {u : PRow} {k : Nat}
    (hk : k < M.num_classes) : M.pathVal false T (fun _ _ _ => .fin 0) u k = M.topP T u k := by
  unfold pathVal topP
  split_ifs with hR
  · obtain ⟨h1, h2, h3, h4, h5⟩ := h.mix hR
    have hw := M.mixing.lwMix_fin (T := T) (D := 1) (by rw [h4]; simp [MixingLayer.weightShape, h1]) h5 (by omega)
      hT (d := 0) (by omega) (s := k) (by rw [h3]; exact hk)
    have hr : ∀ r, M.repW false T (fun _ _ _ => .fin 0) k r = toP (M.mixing.lwMix T 0 k r) := by
      intro r
      unfold repW
      rw [evTop_false _ _ (fun _ _ _ => rfl), toP_zero, mul_one]
    simp only [hr]
    rw [← h2, hw.2, div_one]
    refine Finset.sum_congr rfl fun r hr => ?_
    rw [valL_uncond h.chain hT (fun _ _ _ => rfl) (by simp at hr; omega) (by omega) hk]
  · exact valL_uncond h.chain hT (fun _ _ _ => rfl) h.reps_pos (by omega) hk

theorem topP_eq_evTop {M : Model} {g : Nat → Nat → Nat} (h : M.WF g) {e : Row}
    (he : ∀ d, d < M.numOut → ∀ k, k < M.num_leaves → ∀ r, r < M.num_repetitions → (e d k r).IsFin) {k r : Nat}
    (hk : k < M.num_classes) (hr : r < M.num_repetitions) :
    toP (evTop true M.layers e 0 k r) = denL 1 M.layers (pRow e) 0 k r := by
  rw [evTop_true]
  exact (rowL_den h.chain (b := true) (fun _ => rfl) hr (fun d hd k hk => he d hd k hk r hr) (by omega) hk).2

theorem pathVal_cond {M : Model} {g : Nat → Nat → Nat} (h : M.WF g) {e : Row}
    (he : ∀ d, d < M.numOut → ∀ k, k < M.num_leaves → ∀ r, r < M.num_repetitions → (e d k r).IsFin)
    {u : PRow} {k : Nat} (hk : k < M.num_classes) :
    M.topP 1 (pRow e) k ≠ 0 ∧ M.topP 1 (pRow e) k ≠ ⊤ ∧
    M.pathVal true 1 e u k = M.topP 1 (fun d i r => u d i r * pRow e d i r) k / M.topP 1 (pRow e) k := by
  have hv : ∀ r, r < M.num_repetitions → valL true 1 M.layers e u 0 k r * denL 1 M.layers (pRow e) 0 k r =
      denL 1 M.layers (fun d i r => u d i r * pRow e d i r) 0 k r := fun r hr =>
    valL_cond h.chain (b := true) (fun _ => rfl) hr (fun d hd k hk => he d hd k hk r hr) (by omega) hk
  have hfin : ∀ r, r < M.num_repetitions → (evTop true M.layers e 0 k r).IsFin := by
    intro r hr
    rw [evTop_true]
    exact (rowL_den h.chain (b := true) (fun _ => rfl) hr (fun d hd k hk => he d hd k hk r hr) (by omega) hk).1
  have hd : ∀ r, r < M.num_repetitions → denL 1 M.layers (pRow e) 0 k r ≠ 0 ∧ denL 1 M.layers (pRow e) 0 k r ≠ ⊤ := by
    intro r hr
    rw [← topP_eq_evTop h he hk hr]
    exact ⟨toP_ne_zero (hfin r hr), toP_ne_top (hfin r hr)⟩
  unfold pathVal topP
  split_ifs with hR
  · obtain ⟨h1, h2, h3, h4, h5⟩ := h.mix hR
    have hw := M.mixing.lwMix_fin (T := 1) (D := 1) (by rw [h4]; simp [MixingLayer.weightShape, h1]) h5 (by omega)
      one_ne_zero (d := 0) (by omega) (s := k) (by rw [h3]; exact hk)
    refine ⟨fun h0 => ?_, ?_, ?_⟩
    · have h00 := Finset.sum_eq_zero_iff.1 h0 0 (by simp; omega)
      exact mul_ne_zero (toP_ne_zero (hw.1 0 (by omega))) (hd 0 (by omega)).1 h00
    · refine ENNReal.sum_ne_top.2 fun r hr => ?_
      have hr' : r < M.num_repetitions := by simpa using hr
      exact ENNReal.mul_ne_top (toP_ne_top (hw.1 r (by omega))) (hd r hr').2
    · have er : ∀ r ∈ Finset.range M.num_repetitions, M.repW true 1 e k r =
          toP (M.mixing.lwMix 1 0 k r) * denL 1 M.layers (pRow e) 0 k r := by
        intro r hr
        unfold repW
        rw [topP_eq_evTop h he hk (by simpa using hr)]
      rw [Finset.sum_congr rfl er]
      congr 1
      refine Finset.sum_congr rfl fun r hr => ?_
      have hr' : r < M.num_repetitions := by simpa using hr
      rw [er r hr, ← hv r hr']
      ring
  · refine ⟨(hd 0 h.reps_pos).1, (hd 0 h.reps_pos).2, ?_⟩
    rw [← hv 0 h.reps_pos, mul_div_assoc, ENNReal.div_self (hd 0 h.reps_pos).1 (hd 0 h.reps_pos).2, mul_one]

end Model
end Einet
