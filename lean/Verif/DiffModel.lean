import Verif.DiffFacts
import Verif.Mpe
import Verif.Raise

/-!
# One-hot sampling of the whole model

The differentiable path of `Einet.sample` chooses, for most probable explanations, the same class, repetition and channels as
the ordinary path; with noise it chooses some class, repetition and channels.
-/

open Classical
open scoped ENNReal
noncomputable section
namespace Einet
open Tensor

theorem Layer.EvOK.ev {l : Layer} {N : Nat} {cache : Option Cache} {e : Nat → Row} (h : l.EvOK N cache e) : l.Ev N cache e :=
  h.imp (fun h => h.1) id

theorem evUp_fin {l : Layer} {Di Si Do So R : Nat} (h : l.WF Di Si Do So R) (cond : Bool) {e : Row}
    (he : ∀ d, d < Di → ∀ k, k < Si → ∀ r, r < R → (e d k r).IsFin) :
    ∀ d, d < Do → ∀ k, k < So → ∀ r, r < R → (evUp cond l e d k r).IsFin := by
  intro d hd k hk r hr
  unfold evUp
  split_ifs
  · exact (Layer.row_den h (b := true) (fun _ => rfl) hr (fun d hd k hk => he d hd k hk r hr) hd hk).1
  · exact Fl.isFin_fin _

theorem sampleLayersD_is {ls : List Layer} {Di Si Do So R : Nat} (h : Chain ls Di Si Do So R) {ctx : DCtx} {N : Nat}
    (hN : 0 < N) {idx : Nat → Nat → Nat} {rr : Nat → Nat} (hctx : DCtxOK ctx N Do So R idx rr)
    (hT : ctx.temperature_sums ≠ 0) {cond : Bool} {cs : List (Option Cache)} {e : Nat → Row} (hev : EvL cond ls N cs e)
    {noise : Nat → List Nat → Fl} (hg : ctx.is_mpe = false → ∀ k i, (noise k i).IsFin)
    (he : ∀ n, n < N → ∀ d, d < Di → ∀ k, k < Si → ∀ r, r < R → (e n d k r).IsFin) :
    ∃ idx' : Nat → Nat → Nat, Res.Sat (sampleLayersD ls cs noise ctx) fun c =>
      c = { ctx with indices_out := c.indices_out } ∧ DCtxOK c N Di Si R idx' rr := by
  induction h generalizing cs e with
  | nil D S R => exact ⟨idx, Res.Sat.ok ⟨rfl, hctx⟩⟩
  | @cons l ls Di Si Dm Sm Do So R h hs ih =>
    obtain ⟨idx', c, hc, hce, hcc⟩ := ih hctx hev.head.2 fun n hn => evUp_fin h cond (he n hn)
    refine ⟨fun n => if l.isSum = true then l.pick (if c.is_mpe then none else some (noise ls.length))
      (l.wt (cs.head?.getD none).isSome c.temperature_sums (e n) (idx' n) (rr n)) n else fun _ => idx' n 0, ?_⟩
    show Res.Sat (sampleLayersD ls cs.tail noise ctx >>= _) _
    rw [hc]
    exact (Layer.sampleD_is h hN hcc (by rw [hce]; exact hT) hev.head.1.ev (fun hm => hg (by rw [hce] at hm; exact hm) _)
      he).mono fun c' ⟨h1, h2⟩ => ⟨by rw [h1, hce], h2⟩

/-- in MPE mode both paths choose the same channels. -/
theorem sampleLayers_both {ls : List Layer} {Di Si Do So R : Nat} (h : Chain ls Di Si Do So R) {ctx : Ctx} {dctx : DCtx}
    {N : Nat} (hN : 0 < N) (hm : ctx.is_mpe = true) (hm' : dctx.is_mpe = true)
    (hTT : dctx.temperature_sums = ctx.temperature_sums) {idx : Nat → Nat → Nat} {rr : Nat → Nat}
    (hctx : CtxOK ctx N Do So R idx rr) (hdctx : DCtxOK dctx N Do So R idx rr)
    (hT : ctx.temperature_sums ≠ 0) {cond : Bool} {cs : List (Option Cache)} {e : Nat → Row} (hev : EvL cond ls N cs e)
    (noise : Nat → List Nat → Fl)
    (he : ∀ n, n < N → ∀ d, d < Di → ∀ k, k < Si → ∀ r, r < R → (e n d k r).IsFin) :
    ∃ idx' : Nat → Nat → Nat, (∃ c, sampleLayers ls cs ctx = .pure c ∧ c = { ctx with indices_out := c.indices_out } ∧
      CtxOK c N Di Si R idx' rr) ∧ Res.Sat (sampleLayersD ls cs noise dctx) fun c =>
      c = { dctx with indices_out := c.indices_out } ∧ DCtxOK c N Di Si R idx' rr := by
  induction h generalizing cs e with
  | nil D S R => exact ⟨idx, ⟨ctx, rfl, rfl, hctx⟩, Res.Sat.ok ⟨rfl, hdctx⟩⟩
  | @cons l ls Di Si Dm Sm Do So R h hs ih =>
    obtain ⟨idx', ⟨c, hc, hce, hcc⟩, d, hd, hde, hdd⟩ := ih hctx hdctx hev.head.2 fun n hn => evUp_fin h cond (he n hn)
    obtain ⟨c2, k1, k2, k3⟩ := Layer.sample_exact h hN (by rw [hce]; exact hm) hcc hev.head.1.ev
    have k4 := Layer.sampleD_is h hN hdd (by rw [hde]; exact hTT ▸ hT) hev.head.1.ev (g := noise ls.length)
      (fun hf => absurd hf (by rw [hde]; simp [hm'])) he
    refine ⟨_, ⟨c2, ?_, by rw [k2, hce], k3⟩, ?_⟩
    · show (sampleLayers ls cs.tail ctx).bind _ = _
      rw [hc]
      exact k1
    · show Res.Sat (sampleLayersD ls cs.tail noise dctx >>= _) _
      rw [hd]
      refine k4.mono fun c' ⟨h1, h2⟩ => ⟨by rw [h1, hde], ?_⟩
      have e1 : d.is_mpe = true := by rw [hde]; exact hm'
      have e2 : d.temperature_sums = c.temperature_sums := by rw [hde, hce]; exact hTT
      rw [e1, e2] at h2
      exact h2

/-! ### The repetition -/

namespace Model

/-- log weight of a repetition below class `k`. -/
def wtMix (M : Model) (c : Bool) (T : ℝ) (e : Row) (k : Nat) : Nat → Fl :=
  if c then Fl.logSoftmax M.num_repetitions fun r => M.mixing.lwMix T 0 k r + e 0 k r else M.mixing.lwMix T 0 k

theorem mix_exact {M : Model} {g : Nat → Nat → Nat} (h : M.WF g) (hR : 1 < M.num_repetitions) {ctx : Ctx} {N : Nat}
    {cls : Nat → Nat} (hctx : CtxOK ctx N 1 M.num_classes M.num_repetitions (fun n _ => cls n) (fun _ => 0)) {cond : Bool}
    {cs : Caches} {e : Nat → Row} (hev : M.EvM cond N cs e) :
    Res.Sat (absWeights (MixingLayer.selectWeights M.mixing) (MixingLayer.condition M.mixing) cs.mixing ctx) fun W =>
      W.Is3 N 1 M.num_repetitions fun n _ =>
        M.wtMix cs.mixing.isSome ctx.temperature_sums (rowL M.layers (e n)) (cls n) := by
  obtain ⟨h1, h2, h3, h4, h5⟩ := h.mix hR
  have hctx' : CtxOK ctx N M.mixing.num_features M.mixing.num_sums_out M.num_repetitions (fun n _ => cls n) (fun _ => 0) := by
    rw [h1, h3]; exact hctx
  unfold absWeights
  refine (MixingLayer.selectWeights_is h4 hctx').bind fun lw hlw => ?_
  have hmix := hev.mix
  have hlw1 : lw.Is3 N 1 M.num_repetitions fun n _ r => M.mixing.lwMix ctx.temperature_sums 0 (cls n) r := by
    rw [h1, h2] at hlw
    refine Is.is3 hlw ?_
    intro n hn d hd k hk
    have : d = 0 := by omega
    subst this; rfl
  split_ifs at hmix with hcc
  · obtain ⟨x, hx, hx4⟩ := hmix
    rw [hx]
    show Res.Sat (MixingLayer.condition M.mixing (.one x) ctx lw) _
    have hio := unsqueezeEnd_is 2 hctx.io
    unfold MixingLayer.condition
    dsimp only
    rw [h2]
    refine (expand_is (s' := [N, 1, 1, M.num_repetitions]) hio (by simp [expandShape])).bind fun p hp => ?_
    refine (gather_is hx4 hp (by simp) (by simp [leExcept]) (by
      simp [at', clipAll]
      intro n hn k hk
      simpa [clip_of_lt, hn] using hctx.io_lt n hn 0 (by omega))).bind fun u hu => ?_
    refine (squeeze_is hu (by simp) (by simp [at'])).bind fun v hv => ?_
    refine posteriorWeights_exact hlw1 (e := fun n _ r => rowL M.layers (e n) 0 (cls n) r) (Is.is3 hv ?_)
    intro n hn d hd k hk
    have : d = 0 := by omega
    subst this
    simp [at', insAt, setAt, clipAll, clip_of_lt, hn]
  · rw [hmix]
    exact Res.Sat.ok hlw1

theorem mixD_exact {M : Model} {g : Nat → Nat → Nat} (h : M.WF g) (hR : 1 < M.num_repetitions) {ctx : DCtx} {N : Nat}
    {cls : Nat → Nat} (hctx : DCtxOK ctx N 1 M.num_classes 1 (fun n _ => cls n) (fun _ => 0)) {cond : Bool}
    {cs : Caches} {e : Nat → Row} (hev : M.EvM cond N cs e) (he : M.FinRows N e) :
    Res.Sat (absWeightsD (MixingLayer.selectWeightsD M.mixing) (MixingLayer.conditionD M.mixing) cs.mixing ctx) fun W =>
      W.Is3 N 1 M.num_repetitions fun n _ =>
        M.wtMix cs.mixing.isSome ctx.temperature_sums (rowL M.layers (e n)) (cls n) := by
  obtain ⟨h1, h2, h3, h4, h5⟩ := h.mix hR
  have hctx' : DCtxOK ctx N M.mixing.num_features M.mixing.num_sums_out 1 (fun n _ => cls n) (fun _ => 0) := by
    rw [h1, h3]; exact hctx
  unfold absWeightsD
  refine (MixingLayer.selectWeightsD_is h4 h5 hctx').bind fun lw hlw => ?_
  have hmix := hev.mix
  have hlw1 : lw.Is3 N 1 M.num_repetitions fun n _ r => M.mixing.lwMix ctx.temperature_sums 0 (cls n) r := by
    rw [h1, h2] at hlw
    refine Is.is3 hlw ?_
    intro n hn d hd k hk
    have : d = 0 := by omega
    subst this; rfl
  split_ifs at hmix with hcc
  · obtain ⟨x, hx, hx4⟩ := hmix
    rw [hx]
    show Res.Sat (MixingLayer.conditionD M.mixing (.one x) ctx lw) _
    unfold MixingLayer.conditionD
    dsimp only
    rw [hctx.ns, h3]
    refine (view_is (s' := [N, 1, M.num_classes, 1]) hctx.io (by simp [numelS])).bind fun p hp => ?_
    refine (indexOneHot_is (c := [N, 1, M.num_classes, M.num_repetitions]) hx4 hp (by simp) (by simp) (by simp [at'])
      (by simp [bshape])).bind fun u hu => ?_
    refine posteriorWeights_exact hlw1 (e := fun n _ r => rowL M.layers (e n) 0 (cls n) r) (Is.is3 hu ?_)
    intro n hn d hd r hr
    have : d = 0 := by omega
    subst this
    simp only [at', insAt]
    rw [← Fl.sumN_oh (f := fun k => rowL M.layers (e n) 0 k r) (hctx.io_lt n hn 0 (by omega)) fun k hk => by
      rw [← evTop_true]
      exact evTop_fin h he (cond := true) (by simp) hn hk hr]
    refine Fl.sumN_congr fun k hk => ?_
    have e0 : unflat [N, 1, M.num_classes] (flat [N, 1, M.num_classes, 1] [n, 0, k, 0]) = [n, 0, k] :=
      unflat_eq ⟨hn, by omega, hk, by simp⟩ (by simp [flat, numelS])
    simp [at', clipAll, clip_of_lt, hn, hk, hr, e0]
  · rw [hmix]
    exact Res.Sat.ok hlw1

theorem wtMix_fin {M : Model} {g : Nat → Nat → Nat} (h : M.WF g) (hR : 1 < M.num_repetitions) {T : ℝ} (hT : T ≠ 0)
    (c : Bool) {N : Nat} {e : Nat → Row} (he : M.FinRows N e) {n k r : Nat} (hn : n < N) (hk : k < M.num_classes)
    (hr : r < M.num_repetitions) : (M.wtMix c T (rowL M.layers (e n)) k r).IsFin := by
  obtain ⟨h1, h2, h3, h4, h5⟩ := h.mix hR
  have hw := (M.mixing.lwMix_fin (T := T) (D := 1) (by rw [h4]; simp [MixingLayer.weightShape, h1]) h5 (by omega) hT (d := 0)
    (by omega) (s := k) (by rw [h3]; exact hk)).1
  unfold wtMix
  split_ifs
  · rw [Fl.logSoftmax_eq_fin (g := fun r => (M.mixing.lwMix T 0 k r + rowL M.layers (e n) 0 k r).val) (fun r hr => ?_) hr]
    · exact Fl.isFin_fin _
    · obtain ⟨x, hx⟩ := Fl.isFin_add (hw r (by omega)) (b := rowL M.layers (e n) 0 k r) (by
        rw [← evTop_true]
        exact evTop_fin h he (cond := true) (by simp) hn hk hr)
      rw [hx]; rfl
  · exact hw r (by omega)

/-- repetition chosen from the perturbed weights. -/
def pickMix (M : Model) (noise : Option (List Nat → Fl)) (w : Nat → Fl) (n : Nat) : Nat :=
  if 1 < M.num_repetitions then Fl.argmaxN M.num_repetitions fun r => perturb noise (fun i => w (at' 2 i)) [n, 0, r] else 0

theorem pickRepD_is {M : Model} {g : Nat → Nat → Nat} (h : M.WF g) {ctx : DCtx} {N : Nat}
    (hT : ctx.temperature_sums ≠ 0) {cls : Nat → Nat}
    (hctx : DCtxOK ctx N 1 M.num_classes 1 (fun n _ => cls n) (fun _ => 0)) {cond : Bool} {cs : Caches}
    {e : Nat → Row} (hev : M.EvM cond N cs e) (he : M.FinRows N e) {noise : List Nat → Fl}
    (hg : ctx.is_mpe = false → ∀ i, (noise i).IsFin) :
    Res.Sat (M.pickRepD cs.mixing noise ctx) fun c => c = { ctx with indices_repetition := c.indices_repetition } ∧
      DCtxOK c N 1 M.num_classes M.num_repetitions (fun n _ => cls n) fun n =>
        M.pickMix (if ctx.is_mpe then none else some noise)
          (M.wtMix cs.mixing.isSome ctx.temperature_sums (rowL M.layers (e n)) (cls n)) n := by
  obtain rfl := hctx.ns
  unfold pickRepD pickMix
  by_cases hR : 1 < M.num_repetitions
  · obtain ⟨h1, h2, h3, h4, h5⟩ := h.mix hR
    obtain ⟨W, hW, hW'⟩ := mixD_exact h hR hctx hev he
    simp only [if_pos hR]
    unfold MixingLayer.sampleD
    rw [h1, h3, absSampleD_eq hctx.check hW]
    have hfin : ∀ n, n < ctx.num_samples → ∀ r, r < M.num_repetitions → _ := fun n hn r hr =>
      wtMix_fin h hR hT cs.mixing.isSome he hn (hctx.io_lt n hn 0 (by omega)) hr
    obtain ⟨ix, hix, hix'⟩ := simple_is (d := 2) (noise := if ctx.is_mpe then none else some noise) hW' (by simp)
      (by simp [at']; omega) (by
        rw [← AllIdx_iff]
        simp only [AllIdx_cons, AllIdx_nil, at']
        exact fun n hn d _ r hr => hfin n hn r hr) (by
        rw [← AllIdx_iff]
        simp only [AllIdx_cons, AllIdx_nil]
        intro n hn d hd r hr
        cases hm : ctx.is_mpe
        · exact Fl.isFin_add (hfin n hn r hr) (hg hm _)
        · exact hfin n hn r hr)
    unfold drawOneHot
    rw [hix]
    simp only [Res.ok_bind, Res.pure_eq]
    refine (view_is (s' := [ctx.num_samples, M.num_repetitions]) hix' (by simp [numelS])).bind fun v hv => Res.Sat.pure ⟨rfl, ?_⟩
    refine ⟨hctx.ns, hctx.io, hctx.io_lt, Is.is2 hv ?_, fun n hn => Fl.argmaxN_lt (by omega) _⟩
    intro n hn r hr
    have e0 : unflat [ctx.num_samples, 1, M.num_repetitions] (flat [ctx.num_samples, M.num_repetitions] [n, r]) = [n, 0, r] :=
      unflat_eq ⟨hn, by omega, hr, by simp⟩ (by simp [flat, numelS])
    rw [e0]
    simp only [at', setAt]
    cases ctx.is_mpe <;> rfl
  · have : M.num_repetitions = 1 := by have := h.reps_pos; omega
    simp only [if_neg hR]
    refine Res.Sat.ok ⟨rfl, ?_⟩
    rw [this]
    exact hctx

theorem pickRep_exact {M : Model} {g : Nat → Nat → Nat} (h : M.WF g) {ctx : Ctx} {N : Nat} (hm : ctx.is_mpe = true)
    {cls : Nat → Nat}
    (hctx : CtxOK ctx N 1 M.num_classes M.num_repetitions (fun n _ => cls n) (fun _ => 0)) {cond : Bool} {cs : Caches}
    {e : Nat → Row} (hev : M.EvM cond N cs e) :
    ∃ c, M.pickRep cs.mixing ctx N = .pure c ∧ c = { ctx with indices_repetition := c.indices_repetition } ∧
      CtxOK c N 1 M.num_classes M.num_repetitions (fun n _ => cls n) fun n =>
        M.pickMix none (M.wtMix cs.mixing.isSome ctx.temperature_sums (rowL M.layers (e n)) (cls n)) n := by
  unfold pickRep pickMix
  by_cases hR : 1 < M.num_repetitions
  · obtain ⟨h1, h2, h3, h4, h5⟩ := h.mix hR
    obtain ⟨W, hW, hW'⟩ := mix_exact h hR hctx hev
    simp only [if_pos hR]
    unfold MixingLayer.sample
    rw [h1, absSample_eq hctx.check hW]
    obtain ⟨ix, hix, hix'⟩ := argmax_is (d := 2) hW' (by simp) (by simp [at']; omega)
    unfold drawIndices
    rw [if_pos hm, hix]
    obtain ⟨v, hv, hv'⟩ := view_is (s' := [N]) hix' (by simp [numelS, delAt])
    simp only [Rand.lift_ok, Rand.pure_bind, hv]
    refine ⟨_, rfl, rfl, hctx.ns, hctx.io, hctx.io_lt, Is.intro hv'.1 fun j hj => ?_, fun n hn => Fl.argmaxN_lt (by omega) _⟩
    rw [Is.get hv' hj]
    match j, hj with
    | [n], hj =>
      have e0 : unflat (delAt 2 [N, 1, M.num_repetitions]) (flat [N] [n]) = [n, 0] :=
        unflat_eq (s := [N, 1]) ⟨hj.1, by omega, by simp⟩ (by simp [flat, numelS])
      rw [e0]
      rfl
  · have : M.num_repetitions = 1 := by have := h.reps_pos; omega
    simp only [if_neg hR]
    exact ⟨ctx, rfl, rfl, hctx⟩

end Model

/-! ### The class and the path -/

namespace Model

theorem initCtxD_ok (a : SampleArgs) : DCtxOK (initCtxD a) a.count 1 1 1 (fun _ _ => 0) (fun _ => 0) where
  ns := rfl
  io := Is.is3 (full_is _ _) (by intro n hn d hd s hs; rw [show s = 0 by omega, oh_self])
  io_lt _ _ _ _ := by omega
  ir := Is.is2 (full_is _ _) (by intro n hn r hr; rw [show r = 0 by omega, oh_self])
  ir_lt _ _ := by omega

/-- class chosen from the perturbed class weights. -/
def pickRoot (M : Model) (noise : Option (List Nat → Fl)) (T : ℝ) (n : Nat) : Nat :=
  if 1 < M.num_classes then
    (Layer.sum M.classRoot).pick noise ((Layer.sum M.classRoot).wt false T (fun _ _ _ => .fin 0) (fun _ => 0) 0) n 0
  else 0

theorem pickRoot_lt {M : Model} {g : Nat → Nat → Nat} (h : M.WF g) (noise : Option (List Nat → Fl)) (T : ℝ) (n : Nat) :
    M.pickRoot noise T n < M.num_classes := by
  unfold pickRoot
  split_ifs with hC
  · exact Layer.child_lt (root_WF h hC) rfl (fun d hd => Fl.argmaxN_lt (Layer.choices_pos (root_WF h hC)) _) (by omega)
  · exact h.classes_pos

theorem pickClassD_is {M : Model} {g : Nat → Nat → Nat} (h : M.WF g) {a : SampleArgs} (hci : a.class_index = none)
    (hN : 0 < a.count) (hT : a.temperature_sums ≠ 0) {noise : List Nat → Fl}
    (hg : a.is_mpe = false → ∀ i, (noise i).IsFin) :
    Res.Sat (M.pickClassD a noise (initCtxD a)) fun c => c = { initCtxD a with indices_out := c.indices_out } ∧
      DCtxOK c a.count 1 M.num_classes 1
        (fun n _ => M.pickRoot (if a.is_mpe then none else some noise) a.temperature_sums n) fun _ => 0 := by
  have hlt := M.pickRoot_lt h (if a.is_mpe then none else some noise) a.temperature_sums
  unfold pickClassD
  by_cases hC : 1 < M.num_classes
  · rw [if_pos hC, hci]
    dsimp only
    refine (Layer.sampleD_is (root_WF h hC) hN (initCtxD_ok a) hT (cache := none) (e := fun _ _ _ _ => .fin 0) (Or.inl rfl)
      hg (fun _ _ _ _ _ _ _ _ => Fl.isFin_fin _)).mono fun c ⟨h1, h2⟩ => ⟨h1, h2.ns, ?_, fun n _ _ _ => hlt n, h2.ir, h2.ir_lt⟩
    refine Is.is3 h2.io ?_
    intro n hn d hd s hs
    have : d = 0 := by omega
    subst this
    unfold pickRoot
    rw [if_pos hC]
    rfl
  · have h1 : M.num_classes = 1 := by have := h.classes_pos; omega
    rw [if_neg hC]
    refine Res.Sat.ok ⟨rfl, ?_⟩
    have e : (fun (n _ : Nat) => M.pickRoot (if a.is_mpe then none else some noise) a.temperature_sums n) = fun _ _ => 0 := by
      funext n _
      unfold pickRoot
      rw [if_neg hC]
    rw [e, h1]
    exact initCtxD_ok a

theorem pickClass_exact {M : Model} {g : Nat → Nat → Nat} (h : M.WF g) {a : SampleArgs} (hci : a.class_index = none)
    (hN : 0 < a.count) (hm : a.is_mpe = true) :
    ∃ c, M.pickClass a (M.initCtx a) = .pure (c, a.count) ∧ c = { M.initCtx a with indices_out := c.indices_out } ∧
      CtxOK c a.count 1 M.num_classes M.num_repetitions (fun n _ => M.pickRoot none a.temperature_sums n) fun _ => 0 := by
  have hlt := M.pickRoot_lt h none a.temperature_sums
  unfold pickClass
  by_cases hC : 1 < M.num_classes
  · rw [if_pos hC, hci]
    dsimp only
    obtain ⟨c, h1, h2, h3⟩ := Layer.sample_exact (root_WF h hC) hN (ctx := M.initCtx a) hm
      (initCtx_ok a (by omega) (by omega)) (cache := none) (e := fun _ _ _ _ => .fin 0) (Or.inl rfl)
    rw [show SumLayer.sample M.classRoot none (M.initCtx a) = .pure c from h1]
    refine ⟨c, rfl, h2, h3.ns, ?_, fun n _ _ _ => hlt n, h3.ir, fun _ _ => h.reps_pos⟩
    refine Is.is2 h3.io ?_
    intro n hn d hd
    have : d = 0 := by omega
    subst this
    unfold pickRoot
    rw [if_pos hC]
    rfl
  · have h1 : M.num_classes = 1 := by have := h.classes_pos; omega
    rw [if_neg hC]
    refine ⟨_, rfl, rfl, ?_⟩
    have e : (fun (n _ : Nat) => M.pickRoot none a.temperature_sums n) = fun _ _ => 0 := by
      funext n _
      unfold pickRoot
      rw [if_neg hC]
    rw [e]
    exact initCtx_ok a h.reps_pos h.classes_pos

/-- the path without the inverse permutation, one-hot indices. -/
def corePathD (M : Model) (a : SampleArgs) (noise : Nat → List Nat → Fl) (caches : Caches) : Res DCtx := do
  let ctx ← M.pickClassD a (noise 0) (initCtxD a)
  let ctx ← M.pickRepD caches.mixing (noise 1) ctx
  sampleLayersD M.layers caches.layers (fun k => noise (k + 2)) ctx

theorem samplePathD_eq (M : Model) (a : SampleArgs) (noise : Nat → List Nat → Fl) (caches : Caches) :
    M.samplePathD a noise caches = M.corePathD a noise caches >>= fun ctx => M.unpermuteD ctx := by
  unfold samplePathD corePathD
  cases h1 : M.pickClassD a (noise 0) (initCtxD a) with
  | error e => rfl
  | ok c =>
    simp only [Res.ok_bind]
    cases h2 : M.pickRepD caches.mixing (noise 1) c with
    | error e => rfl
    | ok c => rfl

/-- Outcomes of the one-hot path, for any noise: one-hot indices of existing channels and repetitions. -/
theorem corePathD_is {M : Model} {g : Nat → Nat → Nat} (h : M.WF g) {a : SampleArgs} (hci : a.class_index = none)
    (hN : 0 < a.count) (hT : a.temperature_sums ≠ 0) {noise : Nat → List Nat → Fl}
    (hg : a.is_mpe = false → ∀ k i, (noise k i).IsFin) {cond : Bool} {cs : Caches} {e : Nat → Row}
    (hev : M.EvM cond a.count cs e) (he : M.FinRows a.count e) :
    ∃ (idx : Nat → Nat → Nat) (rr : Nat → Nat), Res.Sat (M.corePathD a noise cs) fun c =>
      DCtxOK c a.count M.numOut M.num_leaves M.num_repetitions idx rr ∧
      c = { initCtxD a with indices_out := c.indices_out, indices_repetition := c.indices_repetition } := by
  obtain ⟨c1, k1, e1, o1⟩ := pickClassD_is h hci hN hT (hg · 0)
  obtain ⟨c2, k2, e2, o2⟩ := pickRepD_is h (by rw [e1]; exact hT) o1 hev he (noise := noise 1)
    fun hm => hg (by rw [e1] at hm; exact hm) 1
  obtain ⟨idx, c3, k3, e3, o3⟩ := sampleLayersD_is h.chain hN o2 (by rw [e2, e1]; exact hT) hev.layers
    (noise := fun k => noise (k + 2)) (fun hm => fun k => hg (by rw [e2, e1] at hm; exact hm) _) he
  refine ⟨idx, _, c3, ?_, o3, by rw [e3, e2, e1]⟩
  unfold corePathD
  rw [k1, Res.ok_bind, k2, Res.ok_bind, k3]

/-- In MPE mode both paths choose the same channels and repetitions. -/
theorem corePath_both {M : Model} {g : Nat → Nat → Nat} (h : M.WF g) {a : SampleArgs} (hci : a.class_index = none)
    (hN : 0 < a.count) (hm : a.is_mpe = true) (hT : a.temperature_sums ≠ 0) (noise : Nat → List Nat → Fl) {cond : Bool}
    {cs : Caches} {e : Nat → Row} (hev : M.EvM cond a.count cs e) (he : M.FinRows a.count e) :
    ∃ (idx : Nat → Nat → Nat) (rr : Nat → Nat), (∃ c, M.corePath a cs = .pure c ∧
      CtxOK c a.count M.numOut M.num_leaves M.num_repetitions idx rr ∧
      c = { M.initCtx a with indices_out := c.indices_out, indices_repetition := c.indices_repetition }) ∧
      Res.Sat (M.corePathD a noise cs) fun c => DCtxOK c a.count M.numOut M.num_leaves M.num_repetitions idx rr ∧
        c = { initCtxD a with indices_out := c.indices_out, indices_repetition := c.indices_repetition } := by
  obtain ⟨c1, k1, e1, o1⟩ := pickClassD_is (noise := noise 0) h hci hN hT fun hf => by simp [hm] at hf
  obtain ⟨c1', k1', e1', o1'⟩ := pickClass_exact h hci hN hm
  have m1 : c1.is_mpe = true := by rw [e1]; exact hm
  have m1' : c1'.is_mpe = true := by rw [e1']; exact hm
  have t1 : c1.temperature_sums = a.temperature_sums := by rw [e1]; rfl
  have t1' : c1'.temperature_sums = a.temperature_sums := by rw [e1']; rfl
  simp only [hm, if_true] at o1
  obtain ⟨c2, k2, e2, o2⟩ := pickRepD_is h (by rw [t1]; exact hT) o1 hev he (noise := noise 1) fun hf => by simp [m1] at hf
  obtain ⟨c2', k2', e2', o2'⟩ := pickRep_exact h m1' o1' hev
  simp only [m1, if_true] at o2
  rw [t1] at o2
  rw [t1'] at o2'
  obtain ⟨idx, ⟨c3', k3', e3', o3'⟩, c3, k3, e3, o3⟩ := sampleLayers_both h.chain hN (by rw [e2']; exact m1')
    (by rw [e2]; exact m1) (by rw [e2, e2']; exact t1.trans t1'.symm) o2' o2 (by rw [e2', t1']; exact hT) hev.layers
    (fun k => noise (k + 2)) he
  refine ⟨idx, _, ⟨c3', ?_, o3', by rw [e3', e2', e1']⟩, c3, ?_, o3, by rw [e3, e2, e1]⟩
  · unfold corePath
    rw [k1']
    show (M.pickRep cs.mixing c1' a.count).bind _ = _
    rw [k2']
    exact k3'
  · unfold corePathD
    rw [k1, Res.ok_bind, k2, Res.ok_bind, k3]

end Model

/-! ### The leaf -/

namespace BaseLeaf

/-- selection of the repetition, one-hot branch (abstract_leaf.py:95-144). -/
def selectRepD (B : BaseLeaf) (ctx : DCtx) (vals : List Nat → ℝ) : Res (Tensor Fl) := do
  require .shape (0 < B.num_repetitions)
  let r_idxs ← ctx.indices_repetition.view
    [ctx.indices_repetition.numel / B.num_repetitions, 1, 1, 1, B.num_repetitions]
  indexOneHot (⟨[ctx.num_samples, B.num_channels, B.num_features, B.num_leaves, B.num_repetitions], fun j => .fin (vals j)⟩)
    r_idxs 4

theorem sampleAllD_eq (B : BaseLeaf) (hs : B.samplable = true) (ctx : DCtx) :
    B.sampleAllD ctx = (B.diff.draws (drawCtx ctx)).bind fun v => Rand.lift (B.selectRepD ctx v) := by
  unfold sampleAllD selectRepD
  simp only [Rand.bind_eq, require, hs, if_true, Rand.lift_ok, Rand.pure_bind]

theorem selectRepD_is {B : BaseLeaf} {ctx : DCtx} {N D S : Nat} {idx : Nat → Nat → Nat} {rr : Nat → Nat}
    (hR : 0 < B.num_repetitions) (h : DCtxOK ctx N D S B.num_repetitions idx rr) (v : List Nat → ℝ) :
    Res.Sat (B.selectRepD ctx v) fun t => t.Is4 N B.num_channels B.num_features B.num_leaves
      fun n c f i => .fin (v [n, c, f, i, rr n]) := by
  unfold selectRepD
  refine Res.Sat.require hR ?_
  have hn : ctx.indices_repetition.numel / B.num_repetitions = N := by
    rw [numel, h.ir.1]
    simp only [numelS, mul_one]
    exact Nat.mul_div_cancel _ hR
  rw [hn]
  refine (view_is (s' := [N, 1, 1, 1, B.num_repetitions]) h.ir (by simp [numelS])).bind fun q hq => ?_
  rw [h.ns]
  refine (indexOneHot_is (c := [N, B.num_channels, B.num_features, B.num_leaves, B.num_repetitions])
    (s := [N, B.num_channels, B.num_features, B.num_leaves, B.num_repetitions]) (g := fun j => .fin (v j))
    (Is.intro rfl fun _ _ => rfl) hq (by simp) (by simp) (by simp [at']) (by simp [bshape])).mono fun t ht => Is.is4 ht ?_
  intro n hn c hc f hf i hi
  simp only [at', insAt]
  rw [← Fl.sumN_oh (f := fun r => .fin (v [n, c, f, i, r])) (h.ir_lt n hn) fun r _ => Fl.isFin_fin _]
  refine Fl.sumN_congr fun r hr => ?_
  have e0 : unflat [N, B.num_repetitions] (flat [N, 1, 1, 1, B.num_repetitions] [n, 0, 0, 0, r]) = [n, r] :=
    unflat_eq ⟨hn, hr, by simp⟩ (by simp [flat, numelS])
  simp [clipAll, at', clip_of_lt, hn, hc, hf, hi, hr, e0]

end BaseLeaf

/-- selecting the component of every feature. -/
theorem indexComp_is {t q : Tensor Fl} {N C F I : Nat} {v : Nat → Nat → Nat → Nat → ℝ} {j : Nat → Nat → Nat}
    (h : t.Is4 N C F I fun n c f i => .fin (v n c f i)) (hq : q.Is4 N 1 F I fun n _ f i => oh (j n f) i)
    (hj : ∀ n, n < N → ∀ f, f < F → j n f < I) :
    Res.Sat (indexOneHot t q 3) fun u => u.Is3 N C F fun n c f => .fin (v n c f (j n f)) := by
  refine (indexOneHot_is (c := [N, C, F, I]) h hq (by simp) (by simp) (by simp [at']) (by simp [bshape])).mono fun u hu =>
    Is.is3 hu ?_
  intro n hn c hc f hf
  simp only [at']
  rw [← Fl.sumN_oh (f := fun i => .fin (v n c f i)) (hj n hn f hf) fun i _ => Fl.isFin_fin _]
  refine Fl.sumN_congr fun i hi => ?_
  simp [insAt, clipAll, at', clip_of_lt, hn, hc, hf, hi]

namespace Model

theorem leafD_sample_eq {M : Model} {g : Nat → Nat → Nat} (h : M.FrontWF g) (hR0 : 0 < M.num_repetitions)
    (hs : M.leaf.base.samplable = true)
    {ctx : DCtx} {N : Nat} (hN : 0 < N) {idx : Nat → Nat → Nat} {rr : Nat → Nat}
    (hc : DCtxOK ctx N M.numOut M.num_leaves M.num_repetitions idx rr) :
    ∃ res : (List Nat → ℝ) → Res (Tensor Fl),
      ((Rand.lift (M.unpermuteD ctx)).bind fun c => M.leaf.sampleD c) =
        (M.leaf.base.diff.draws (BaseLeaf.drawCtx ctx)).bind (fun v => Rand.lift (res v)) ∧
      ∀ v, Res.Sat (res v) fun t => t.Is3 N M.num_channels M.num_features
        fun n c f => .fin (v [n, c, f, idx n (M.grpS g (rr n) f), rr n]) := by
  have hF := h.features; have hC := h.channels; have hI := h.leaves; have hR := h.reps
  have hlt : ∀ n, n < N → ∀ f, f < M.num_features → idx n (M.grpS g (rr n) f) < M.num_leaves := fun n hn f hf =>
    hc.io_lt n hn _ (h.grpS_lt (hc.ir_lt n hn) hf)
  cases hL : M.leaf with
  | direct B =>
    simp only [hL, Leaf.base] at hF hC hI hR hs ⊢
    have hO : M.numOut = M.num_features := by unfold numOut; rw [hL]; exact hF
    have hgs : ∀ r f, M.grpS g r f = M.permInvAt r f := by intro r f; unfold grpS; rw [hL]
    have hun : Res.Sat (M.unpermuteD ctx) fun c => c = { ctx with indices_out := c.indices_out } ∧
        c.indices_out.Is3 N M.num_features M.num_leaves fun n f => oh (idx n (M.permInvAt (rr n) f)) := by
      unfold unpermuteD permInvAt
      cases hp : M.permutation with
      | none => exact Res.Sat.ok ⟨rfl, by rw [← hO]; exact hc.io⟩
      | some pq =>
        obtain ⟨p, q⟩ := pq
        dsimp only
        have hq : ∀ n, n < N → ∀ f, f < M.num_features → (q.getD (rr n) []).getD f 0 < M.numOut := by
          intro n hn f hf
          rw [hO]
          exact (h.perm p q hp _ (hc.ir_lt n hn)).q_lt f hf
        refine (indexOneHot_is (c := [N, M.num_repetitions, M.num_features]) (s := [N, M.num_repetitions, M.num_features])
          (g := fun j => .fin ((q.getD (at' 1 j) []).getD (at' 2 j) 0 : Nat))
          (Is.intro (by simp [hc.ns]) fun _ _ => rfl) (unsqueezeEnd_is 1 hc.ir) (by simp) (by simp) (by simp [at'])
          (by simp [bshape])).bind fun w hw => ?_
        have hw2 : w.Is2 N M.num_features fun n f => .fin ((q.getD (rr n) []).getD f 0 : Nat) := by
          refine Is.is2 hw ?_
          intro n hn f hf
          simp only [at', insAt]
          rw [← Fl.sumN_oh (f := fun r => .fin ((q.getD r []).getD f 0 : Nat)) (hc.ir_lt n hn) fun r _ => Fl.isFin_fin _]
          refine Fl.sumN_congr fun r hr => ?_
          simp [-List.getD_eq_getElem?_getD, clipAll, at', clip_of_lt, hn, hf, hr]
        refine (expand_is (unsqueezeEnd_is 1 hw2) (s' := [N, M.num_features, M.num_leaves])
          (by simp [expandShape])).bind fun w2 hw3 => ?_
        have hw4 : (w2.map fun v => ⌊v.val⌋₊).Is3 N M.num_features M.num_leaves fun n f _ => (q.getD (rr n) []).getD f 0 := by
          refine Is.is3 (map_is _ hw3) ?_
          intro n hn f hf i hi
          simp [-List.getD_eq_getElem?_getD, clipAll, at', clip_of_lt, hn, hf, Fl.val]
        refine (gather_is hc.io hw4 (by simp) (by simp [leExcept]) ?_).bind fun t ht => Res.Sat.pure ⟨rfl, ?_⟩
        · rw [AllIdx_iff]
          intro j hj
          exact hq _ (InB_at (d := 0) hj (by simp)) _ (InB_at (d := 1) hj (by simp))
        · exact Is.is3 ht (by intro n hn f hf i hi; simp [setAt, at'])
    obtain ⟨c, hcu, hcc, hcio⟩ := hun
    have hdr : BaseLeaf.drawCtx c = BaseLeaf.drawCtx ctx := by rw [hcc]; rfl
    have hcr : c.indices_repetition = ctx.indices_repetition := by rw [hcc]
    have hcn : c.num_samples = ctx.num_samples := by rw [hcc]
    have hctx' : DCtxOK c N M.num_features M.num_leaves B.num_repetitions (fun n f => idx n (M.permInvAt (rr n) f)) rr := by
      refine ⟨by rw [hcn]; exact hc.ns, hcio, fun n hn f hf => ?_, by rw [hcr, hR]; exact hc.ir,
        fun n hn => by rw [hR]; exact hc.ir_lt n hn⟩
      have := hlt n hn f hf
      rwa [hgs] at this
    refine ⟨fun v => do
      let samples ← B.selectRepD c v
      indexOneHot samples (← c.indices_out.unsqueeze 1) 3, ?_, fun v => ?_⟩
    · rw [hcu]
      show B.sampleD c = _
      unfold BaseLeaf.sampleD
      simp only [Rand.bind_eq]
      rw [B.sampleAllD_eq hs, Rand.bind_assoc, hdr]
      congr 1
      funext v
      rw [Rand.lift_bind]
    · refine (BaseLeaf.selectRepD_is (by omega) hctx' v).bind fun t ht => ?_
      rw [hF, hI, hC] at ht
      refine (unsqueeze_is hcio (d := 1) (by simp)).bind fun q hq => ?_
      simp only [hgs]
      refine indexComp_is ht (j := fun n f => idx n (M.permInvAt (rr n) f)) (Is.is4 hq ?_) hctx'.io_lt
      intro n hn o ho f hf i hi
      simp [delAt, at']
  | factorized L =>
    simp only [hL, Leaf.base] at hF hC hI hR hs ⊢
    have hO : M.numOut = L.num_features_out := by unfold numOut; rw [hL]
    have hnp : M.permutation = none := h.noperm (by simp [hL])
    have hgs : ∀ r f, M.grpS g r f = g r f := by intro r f; unfold grpS; rw [hL]
    have hW := h.fact L hL
    have hctx' : DCtxOK ctx N L.num_features_out M.num_leaves L.base.num_repetitions idx rr := by
      rw [hR, ← hO]; exact hc
    have hun : M.unpermuteD ctx = .ok ctx := by unfold unpermuteD; rw [hnp]
    refine ⟨fun v => do
      let samples ← L.base.selectRepD ctx v
      require .assertion (samples.shape = [ctx.num_samples, L.base.num_channels, L.base.num_features, L.base.num_leaves])
      let scopes ← L.scopes.unsqueeze 0
      require .shape (0 < ctx.num_samples)
      let r_idx ← ctx.indices_repetition.view [ctx.num_samples, 1, 1, ctx.indices_repetition.numel / ctx.num_samples]
      let scopes ← indexOneHot scopes r_idx 3
      let indices_in ← indexOneHot (← ctx.indices_out.unsqueeze 1) (scopes.unsqueezeEnd 1) 2
      indexOneHot samples (← indices_in.unsqueeze 1) 3, ?_, fun v => ?_⟩
    · rw [hun]
      show L.sampleD ctx = _
      unfold FactLeaf.sampleD
      simp only [Rand.bind_eq]
      rw [L.base.sampleAllD_eq hs, Rand.bind_assoc]
      congr 1
      funext v
      rw [Rand.lift_bind]
    · refine (BaseLeaf.selectRepD_is (by omega) hctx' v).bind fun t ht => ?_
      refine Res.Sat.require (by rw [ht.1, hc.ns]) ?_
      refine (unsqueeze_is (Is.refl _ hW.shape) (d := 0) (by simp)).bind fun s0 hs0 => ?_
      refine Res.Sat.require (by rw [hc.ns]; exact hN) ?_
      have hnum : ctx.indices_repetition.numel / ctx.num_samples = L.base.num_repetitions := by
        rw [hc.ns, numel, hctx'.ir.1]
        simp only [numelS, mul_one]
        exact Nat.mul_div_cancel_left _ hN
      rw [hnum, hc.ns]
      refine (viewRep_is hctx'.ir).bind fun q hq => ?_
      have hs0' : s0.Is4 1 L.base.num_features L.num_features_out L.base.num_repetitions
          fun _ f o r => oh (g r f) o := by
        refine Is.is4 hs0 ?_
        intro z hz f hf o ho r hr
        simp only [delAt]
        rw [hW.entry f hf o ho r hr]
        unfold oh
        by_cases e : g r f = o
        · rw [if_pos e, if_pos e.symm]
        · rw [if_neg e, if_neg (Ne.symm e)]
      refine (indexOneHot_is (c := [N, L.base.num_features, L.num_features_out, L.base.num_repetitions]) hs0' hq (by simp)
        (by simp) (by simp [at']) (by simp [bshape])).bind fun s1 hs1 => ?_
      have hs1' : s1.Is3 N L.base.num_features L.num_features_out fun n f => oh (g (rr n) f) := by
        refine Is.is3 hs1 ?_
        intro n hn f hf o ho
        simp only [at', insAt]
        rw [← Fl.sumN_oh (f := fun r => oh (g r f) o) (hctx'.ir_lt n hn) fun r _ => oh_fin _ _]
        refine Fl.sumN_congr fun r hr => ?_
        simp [clipAll, at', clip_of_lt, hn, hf, ho, hr]
      refine (unsqueeze_is hctx'.io (d := 1) (by simp)).bind fun i0 hi0 => ?_
      refine (indexOneHot_is (c := [N, L.base.num_features, L.num_features_out, M.num_leaves]) hi0 (unsqueezeEnd_is 1 hs1')
        (by simp [insAt]) (by simp [insAt]) (by simp [insAt, at']) (by simp [insAt, bshape])).bind fun i1 hi1 => ?_
      have hi1' : i1.Is3 N L.base.num_features M.num_leaves fun n f => oh (idx n (g (rr n) f)) := by
        refine Is.is3 hi1 ?_
        intro n hn f hf i hi
        simp only [at', insAt]
        rw [← Fl.sumN_oh (f := fun o => oh (idx n o) i) (hW.lt _ (hctx'.ir_lt n hn) f hf) fun o _ => oh_fin _ _]
        refine Fl.sumN_congr fun o ho => ?_
        simp [clipAll, delAt, at', clip_of_lt, hn, hf, ho, hi]
      refine (unsqueeze_is hi1' (d := 1) (by simp)).bind fun q2 hq2 => ?_
      rw [hI, hC] at ht
      simp only [hgs]
      rw [← hF]
      refine indexComp_is ht (j := fun n f => idx n (g (rr n) f)) (Is.is4 hq2 ?_) ?_
      · intro n hn o ho f hf i hi
        simp [delAt, at']
      · intro n hn f hf
        have := hlt n hn f (by omega)
        rwa [hgs] at this
  | simple L =>
    simp only [hL, Leaf.base] at hF hC hI hR hs ⊢
    have hO : M.numOut = L.num_features_out := by unfold numOut; rw [hL]
    have hnp : M.permutation = none := h.noperm (by simp [hL])
    have hgs : ∀ r f, M.grpS g r f = L.inverse_permutation.getD f 0 % L.num_features_out := by
      intro r f; unfold grpS; rw [hL]
    have hW := h.simple L hL
    have hsz := L.size_eq hW.out_pos
    have hctx' : DCtxOK ctx N L.num_features_out M.num_leaves L.base.num_repetitions idx rr := by
      rw [hR, ← hO]; exact hc
    have hun : M.unpermuteD ctx = .ok ctx := by unfold unpermuteD; rw [hnp]
    refine ⟨fun v => do
      let samples ← L.base.selectRepD ctx v
      require .assertion (samples.shape = [ctx.num_samples, L.base.num_channels, L.base.num_features, L.base.num_leaves])
      let i ← L.unfoldD ctx.indices_out
      indexOneHot samples (← i.unsqueeze 1) 3, ?_, fun v => ?_⟩
    · rw [hun]
      show L.sampleD ctx = _
      unfold FactSimple.sampleD
      simp only [Rand.bind_eq]
      rw [L.base.sampleAllD_eq hs, Rand.bind_assoc]
      congr 1
      funext v
      rw [Rand.lift_bind]
    · refine (BaseLeaf.selectRepD_is (by omega) hctx' v).bind fun t ht => ?_
      refine Res.Sat.require (by rw [ht.1, hc.ns]) ?_
      have hu : Res.Sat (L.unfoldD ctx.indices_out) fun i => i.Is3 N L.base.num_features M.num_leaves
          fun n f => oh (idx n (L.inverse_permutation.getD f 0 % L.num_features_out)) := by
        unfold FactSimple.unfoldD
        refine (unsqueeze_is hctx'.io (d := 1) (by simp)).bind fun a ha => ?_
        refine (expand_is ha (s' := [N, L.cardinality, L.num_features_out, M.num_leaves])
          (by simp [expandShape, insAt])).bind fun c hc' => ?_
        have hcs : c.size 0 = N := by rw [size, hc'.1]; rfl
        have hcs3 : c.size 3 = M.num_leaves := by rw [size, hc'.1]; rfl
        rw [hcs, hcs3]
        refine (view_is hc' (s' := [N, L.base.num_features + L.numDummy, M.num_leaves])
          (by simp only [numelS, hsz]; ring)).bind fun d hd => ?_
        have hd3 : d.Is3 N (L.base.num_features + L.numDummy) M.num_leaves fun n p =>
            oh (idx n (p % L.num_features_out)) := by
          refine Is.is3 hd ?_
          intro n hn p hp i hi
          have hpc : p / L.num_features_out < L.cardinality := by
            rw [hsz] at hp
            exact Nat.div_lt_of_lt_mul hp
          have hpm := Nat.mod_lt p hW.out_pos
          have e : unflat [N, L.cardinality, L.num_features_out, M.num_leaves]
              (flat [N, L.base.num_features + L.numDummy, M.num_leaves] [n, p, i]) =
              [n, p / L.num_features_out, p % L.num_features_out, i] := by
            refine unflat_eq ⟨hn, hpc, hpm, hi, by simp⟩ ?_
            simp only [flat, numelS, hsz]
            have := Nat.div_add_mod p L.num_features_out
            calc _ = n * (L.cardinality * L.num_features_out * M.num_leaves) +
                (L.num_features_out * (p / L.num_features_out) + p % L.num_features_out) * M.num_leaves + i := by ring
              _ = _ := by rw [this]; ring
          rw [e]
          simp [clipAll, insAt, delAt, at', clip_of_lt hn, clip_of_lt hpm, clip_of_lt hi]
        have hi : Res.Sat (d.indexDim1 L.inverse_permutation) fun i =>
            i.Is3 N (L.base.num_features + L.numDummy) M.num_leaves
              fun n p => oh (idx n (L.inverse_permutation.getD p 0 % L.num_features_out)) := by
          unfold indexDim1
          refine Res.Sat.require (by simp [rank, hd3.1]) (Res.Sat.require ?_ (Res.Sat.pure ?_))
          · intro k hk
            have := hW.perm.symm.mem_lt k hk
            simpa [size, hd3.1, at'] using this
          · refine Is.intro (by simp [hd3.1, setAt, hW.perm.lq]) fun j hj => ?_
            have h2 := InB_at (d := 1) hj (by simp)
            have hlt2 : L.inverse_permutation.getD (at' 1 j) 0 < at' 1 [N, L.base.num_features + L.numDummy, M.num_leaves] :=
              hW.perm.q_lt _ h2
            dsimp only
            rw [Is.get hd3 (InB_setAt' hj hlt2)]
            match j, hj with
            | [x, y, z], _ => rfl
        refine hi.bind fun i hi => ?_
        split_ifs with hdm
        · refine (take_is hi (by simp) (d := 1) (stop := i.size 1 - L.numDummy)).mono fun w hw => ?_
          have e2 : i.size 1 - L.numDummy = L.base.num_features := by simp [size, hi.1, at']
          rw [e2] at hw
          simp only [setAt, at', show min L.base.num_features (L.base.num_features + L.numDummy) = L.base.num_features by omega] at hw
          exact Is.is3 hw (by intro n hn f hf i hi; simp [at'])
        · have : L.numDummy = 0 := by omega
          rw [this] at hi
          exact Res.Sat.ok hi
      refine hu.bind fun i hi => ?_
      refine (unsqueeze_is hi (d := 1) (by simp)).bind fun q2 hq2 => ?_
      rw [hI, hC] at ht
      simp only [hgs]
      rw [← hF]
      refine indexComp_is ht (j := fun n f => idx n (L.inverse_permutation.getD f 0 % L.num_features_out)) (Is.is4 hq2 ?_) ?_
      · intro n hn o ho f hf i hi
        simp [delAt, at']
      · intro n hn f hf
        have := hlt n hn f (by omega)
        rwa [hgs] at this

/-! ### The whole call -/

theorem fillD_is {e s : Tensor Fl} {N C F : Nat} {X : Nat → Data} {S : Nat → Nat → Nat → Fl}
    (he : e.Is3 N C F X) (hs : s.Is3 N C F S) {ms : Option Scopes} {sc : Option (List Nat)}
    (hsc : Scopes.resolveOpt F ms = .ok sc) :
    Res.Sat (fillD e s ms) fun t => t.Is3 N C F fun n c f => if holeAt sc (X n) c f then S n c f else X n c f := by
  unfold fillD
  rw [hs.1]
  refine (view_self he).bind fun e' he' => ?_
  cases ms with
  | none =>
    simp only [Scopes.resolveOpt, Except.ok.injEq] at hsc
    subst hsc
    dsimp only
    rw [he.1]
    refine view_self (Is.intro (by exact he'.1) fun j hj => ?_)
    dsimp only
    rw [Is.get he' hj, Is.get hs hj]
    unfold holeAt
    dsimp only
    by_cases hn : X (at' 0 j) (at' 1 j) (at' 2 j) = .nan
    · simp [hn, Fl.isnan]
    · have : (X (at' 0 j) (at' 1 j) (at' 2 j)).isnan = false := by
        cases hx : X (at' 0 j) (at' 1 j) (at' 2 j) <;> simp_all [Fl.isnan]
      simp [hn, this]
  | some ms =>
    obtain ⟨l, rfl, hl⟩ := resolveOpt_some hsc
    have hF : s.size 2 = F := by simp [size, hs.1, at']
    dsimp only
    rw [hF, indexList_of_resolve hl, he.1]
    refine view_self (Is.intro (by exact he'.1) fun j hj => ?_)
    dsimp only
    rw [Is.get he' hj, Is.get hs hj]
    unfold holeAt
    dsimp only
    by_cases hm : at' 2 j ∈ l <;> simp [hm]

/-- the values drawn by the leaf. -/
def sampleValuesD (M : Model) (a : SampleArgs) (noise : Nat → List Nat → Fl) (cs : Caches) : Rand (Tensor Fl) :=
  (Rand.lift (M.samplePathD a noise cs)).bind fun ctx => M.leaf.sampleD ctx

theorem sampleD_eq (M : Model) (a : SampleArgs) (noise : Nat → List Nat → Fl) {cs : Caches} (h1 : a.check M = .ok ())
    (h2 : M.evidenceCaches a = .ok cs) :
    M.sampleD a noise = (M.sampleValuesD a noise cs).bind fun s => Rand.lift (finishD a s) := by
  unfold sampleD sampleValuesD
  rw [h1, h2]
  simp only [Rand.lift_ok, Rand.pure_bind, Rand.bind_assoc]

/-- The values drawn in one-hot mode, for any finite noise: leaf values of one component of one repetition per row. -/
theorem sampleValuesD_eq {M : Model} {g : Nat → Nat → Nat} (h : M.Samplable g) {a : SampleArgs} (hci : a.class_index = none)
    (hN : 0 < a.count) (hT : a.temperature_sums ≠ 0) {noise : Nat → List Nat → Fl}
    (hg : a.is_mpe = false → ∀ k i, (noise k i).IsFin) {cond : Bool} {cs : Caches} {e : Nat → Row}
    (hev : M.EvM cond a.count cs e) (he : M.FinRows a.count e) :
    ∃ (idx : Nat → Nat → Nat) (rr : Nat → Nat) (dc : Ctx) (res : (List Nat → ℝ) → Res (Tensor Fl)),
      (∀ n, n < a.count → rr n < M.num_repetitions ∧ ∀ d, d < M.numOut → idx n d < M.num_leaves) ∧
      (dc.num_samples = a.count ∧ dc.is_mpe = a.is_mpe ∧ dc.mpe_at_leaves = a.mpe_at_leaves ∧
        dc.temperature_leaves = a.temperature_leaves) ∧
      M.sampleValuesD a noise cs = (M.leaf.base.diff.draws dc).bind (fun v => Rand.lift (res v)) ∧
      ∀ v, Res.Sat (res v) fun t => t.Is3 a.count M.num_channels M.num_features
        fun n c f => .fin (v [n, c, f, idx n (M.grpS g (rr n) f), rr n]) := by
  obtain ⟨idx, rr, c, hc, hok, hce⟩ := corePathD_is h.wf hci hN hT hg hev he
  obtain ⟨res, h1, h2⟩ := leafD_sample_eq h.wf.front h.wf.reps_pos h.samp.samplable hN hok
  refine ⟨idx, rr, BaseLeaf.drawCtx c, res, fun n hn => ⟨hok.ir_lt n hn, hok.io_lt n hn⟩, ?_, ?_, h2⟩
  swap
  · unfold sampleValuesD
    rw [samplePathD_eq, hc, Res.ok_bind, h1]
  · rw [hce]
    exact ⟨rfl, rfl, rfl, rfl⟩

/-- In MPE mode the values of both modes agree. -/
theorem sampleValues_both {M : Model} {g : Nat → Nat → Nat} (h : M.Samplable g) {a : SampleArgs} (hci : a.class_index = none)
    (hN : 0 < a.count) (hm : a.is_mpe = true) (hT : a.temperature_sums ≠ 0) (noise : Nat → List Nat → Fl) {cond : Bool}
    {cs : Caches} {e : Nat → Row} (hev : M.EvM cond a.count cs e) (he : M.FinRows a.count e) :
    ∃ (S : Nat → Nat → Nat → ℝ) (s1 : Tensor ℝ) (s2 : Tensor Fl), M.sampleValues a cs = .pure s1 ∧
      M.sampleValuesD a noise cs = .pure s2 ∧ s1.Is3 a.count M.num_channels M.num_features S ∧
      s2.Is3 a.count M.num_channels M.num_features fun n c f => .fin (S n c f) := by
  obtain ⟨idx, rr, ⟨c1, k1, o1, e1⟩, c2, k2, o2, e2⟩ := corePath_both h.wf hci hN hm hT noise hev he
  obtain ⟨res1, h1, h1'⟩ := leaf_sample_eq h.wf.front h.features_pos h.samp.samplable hN o1
  obtain ⟨res2, h2, h2'⟩ := leafD_sample_eq h.wf.front h.wf.reps_pos h.samp.samplable hN o2
  have m1 : c1.is_mpe = true := by rw [e1]; exact hm
  have m2 : (BaseLeaf.drawCtx c2).is_mpe = true := by rw [e2]; exact hm
  obtain ⟨s1, r1, hs1⟩ := h1' fun j => M.leaf.base.mode (at' 1 j) (at' 2 j) (at' 3 j) (at' 4 j)
  obtain ⟨s2, r2, hs2⟩ := h2' fun j => M.leaf.base.mode (at' 1 j) (at' 2 j) (at' 3 j) (at' 4 j)
  refine ⟨_, s1, s2, ?_, ?_, hs1, hs2⟩
  · rw [sampleValues_eq, k1]
    show (Rand.lift (M.unpermute c1)).bind _ = _
    rw [h1]
    unfold BaseLeaf.draws
    rw [if_pos (Or.inl m1)]
    show Rand.lift (res1 _) = _
    rw [r1]
    rfl
  · unfold sampleValuesD
    rw [samplePathD_eq, k2, Res.ok_bind, h2]
    unfold BaseLeaf.draws
    rw [if_pos (Or.inl m2)]
    show Rand.lift (res2 fun j => M.leaf.base.mode (at' 1 j) (at' 2 j) (at' 3 j) (at' 4 j)) = _
    rw [r2]
    rfl

end Model

/-! ### Contexts with the wrong number of channels -/

/-- the channels of the one-hot indices are not the `S` channels above. -/
def DCtx.Mis (S : Nat) (ctx : DCtx) : Prop := ctx.indices_out.size 2 ≠ S

theorem DCtx.Mis.check {S : Nat} {ctx : DCtx} (h : ctx.Mis S) (D R : Nat) (u : Unit) : checkContextD D S R ctx ≠ .ok u := by
  intro e
  unfold checkContextD at e
  obtain ⟨_, _, e⟩ := bind_ok e
  obtain ⟨_, _, e⟩ := bind_ok e
  obtain ⟨_, _, e⟩ := bind_ok e
  obtain ⟨_, _, e⟩ := bind_ok e
  obtain ⟨_, _, e⟩ := bind_ok e
  obtain ⟨_, h1, _⟩ := bind_ok e
  rw [require_false _ h] at h1
  cases h1

theorem absSampleD_raises {S : Nat} {ctx : DCtx} (h : ctx.Mis S) (D R : Nat) (s : DCtx → Res (Tensor Fl))
    (c : Cache → DCtx → Tensor Fl → Res (Tensor Fl)) (p : DCtx → Tensor Fl → Res (Tensor Fl)) (cache : Option Cache)
    (noise : List Nat → Fl) (x : DCtx) : absSampleD D S R s c p cache noise ctx ≠ .ok x := by
  intro e
  unfold absSampleD at e
  obtain ⟨u, h1, _⟩ := bind_ok e
  exact h.check D R u h1

theorem Layer.sampleD_raises {l : Layer} {Di Si Do So R : Nat} (hw : l.WF Di Si Do So R) (hl : l.isSum = true) {ctx : DCtx}
    (h : ctx.Mis So) (cache : Option Cache) (noise : List Nat → Fl) (x : DCtx) : l.sampleD cache noise ctx ≠ .ok x := by
  cases hw with
  | sum L =>
    show SumLayer.sampleD L cache noise ctx ≠ _
    exact absSampleD_raises h _ _ _ _ _ _ _ _
  | linsum L =>
    show LinsumLayer.sampleD L cache noise ctx ≠ _
    exact absSampleD_raises h _ _ _ _ _ _ _ _
  | linsum2 L =>
    show LinsumLayer2.sampleD L cache noise ctx ≠ _
    exact absSampleD_raises h _ _ _ _ _ _ _ _
  | einsum L =>
    show EinsumLayer.sampleD L cache noise ctx ≠ _
    exact absSampleD_raises h _ _ _ _ _ _ _ _
  | rootProduct => cases hl

theorem sampleLayersD_raises {ls : List Layer} {Di Si Do So R : Nat} (hc : Chain ls Di Si Do So R) {ctx : DCtx}
    (h : ctx.Mis So) (cs : List (Option Cache)) (noise : Nat → List Nat → Fl) {x : DCtx}
    (e : sampleLayersD ls cs noise ctx = .ok x) : (∀ l ∈ ls, l.isSum = false) ∧ x.Mis Si := by
  induction hc generalizing cs x with
  | nil =>
    simp only [sampleLayersD, Except.ok.injEq] at e
    subst e
    exact ⟨by simp, h⟩
  | cons hl hs ih =>
    rename_i l ls _ _ _ _ _ _ _
    unfold sampleLayersD at e
    obtain ⟨c, h1, h2⟩ := bind_ok e
    obtain ⟨h3, h4⟩ := ih h _ h1
    by_cases hi : l.isSum = true
    · exact absurd h2 (Layer.sampleD_raises hl hi h4 _ _ _)
    · refine ⟨?_, ?_⟩
      · intro l' hl'
        rcases List.mem_cons.1 hl' with rfl | hl'
        · simpa using hi
        · exact h3 l' hl'
      · cases hl with
        | rootProduct F S R =>
          change RootProductLayer.sampleD _ c = _ at h2
          unfold RootProductLayer.sampleD at h2
          obtain ⟨_, _, h2⟩ := bind_ok h2
          simp only [Res.pure_eq, Except.ok.injEq] at h2
          subst h2
          unfold DCtx.Mis at h4 ⊢
          have : ∀ (s : List Nat) m, at' 2 (setAt 1 m s) = at' 2 s := fun s m => by
            match s with
            | [] => rfl
            | [a] => rfl
            | a :: b :: s => rfl
          simpa [Tensor.size, this] using h4
        | _ => exact absurd rfl hi

/-- One-hot sampling with a class index raises in every model. -/
theorem Model.sampleD_class_raises {M : Model} {g : Nat → Nat → Nat} (h : M.WF g)
    (hs : ∃ l ∈ M.layers, l.isSum = true) (a : SampleArgs) (ci : ClassIndex) (hc : a.class_index = some ci)
    (noise : Nat → List Nat → Fl) : (M.sampleD a noise).Raises := by
  unfold sampleD
  by_cases hK : 1 < M.num_classes
  · refine Rand.Raises.bind_right fun _ => Rand.Raises.bind_right fun cs => Rand.Raises.bind_left ?_ _
    refine Rand.Raises.lift fun x e => ?_
    unfold samplePathD at e
    obtain ⟨c1, h1, e⟩ := bind_ok e
    obtain ⟨c2, h2, e⟩ := bind_ok e
    obtain ⟨c3, h3, _⟩ := bind_ok e
    unfold pickClassD at h1
    rw [if_pos hK, hc] at h1
    cases ci with
    | list l =>
      dsimp only at h1
      obtain ⟨_, _, h1⟩ := bind_ok h1
      obtain ⟨_, _, h1⟩ := bind_ok h1
      cases h1
    | int c =>
      dsimp only at h1
      obtain ⟨_, _, h1⟩ := bind_ok h1
      simp only [Res.pure_eq, Except.ok.injEq] at h1
      have hm : c1.Mis M.num_classes := by
        subst h1
        show 1 ≠ M.num_classes
        omega
      unfold pickRepD at h2
      split_ifs at h2 with hR
      · obtain ⟨c2', h2', _⟩ := bind_ok h2
        have := (h.mix hR).2.2.1
        unfold MixingLayer.sampleD at h2'
        rw [this] at h2'
        exact absSampleD_raises hm _ _ _ _ _ _ _ _ h2'
      · simp only [Except.ok.injEq] at h2
        subst h2
        obtain ⟨l, hl, hl'⟩ := hs
        have := (sampleLayersD_raises h.chain hm _ _ h3).1 l hl
        rw [this] at hl'
        cases hl'
  · refine Rand.Raises.bind_left (Rand.Raises.lift fun x e => ?_) _
    have h1 : M.num_classes = 1 := by have := h.classes_pos; omega
    unfold SampleArgs.check at e
    obtain ⟨_, _, e⟩ := bind_ok e
    obtain ⟨_, _, e⟩ := bind_ok e
    rw [require_false _ (by simp [h1, hc])] at e
    cases e

end Einet
