import Verif.PropsConvShift

/-!
# Sampling of convolutional circuits with shifted raw weights
-/

open Classical MeasureTheory
open scoped ENNReal
noncomputable section
namespace Einet
open Tensor

/-- `t'` is `t` plus a number that does not depend on coordinate 1. -/
def PlusE (t t' : Tensor Fl) : Prop :=
  t'.shape = t.shape ∧ ∃ δ : List Nat → ℝ, (∀ i k, δ (setAt 1 k i) = δ i) ∧ ∀ i, t'.get i = t.get i + .fin (δ i)

theorem PlusE.weights {t t' : Tensor Fl} (h : PlusE t t') {T : ℝ} (hT : T ≠ 0) : logitsToLogWeights t 1 T = logitsToLogWeights t' 1 T := by
  obtain ⟨hs, δ, hδ, hg⟩ := h
  obtain ⟨sh, g⟩ := t
  obtain ⟨sh', g'⟩ := t'
  dsimp only at hs hg
  subst hs
  unfold logitsToLogWeights Tensor.logSoftmax
  show (require _ _ >>= fun _ => Except.ok _) = (require _ _ >>= fun _ => Except.ok _)
  congr 1
  funext _
  refine congrArg Except.ok (congrArg (Tensor.mk _) ?_)
  funext i
  refine (Fl.logSoftmax_add _ (fun k => g (setAt 1 k i) / .fin T) (δ i / T) (at' 1 i)).symm.trans ?_
  have : (fun k => g' (setAt 1 k i) / .fin T) = fun k => g (setAt 1 k i) / .fin T + .fin (δ i / T) := by
    funext k
    rw [hg, hδ, Fl.add_div_fin _ _ hT]
  show _ = Fl.logSoftmax _ (fun k => g' (setAt 1 k i) / .fin T) _
  rw [this]
  rfl

/-- finite tensors before the sum over coordinate 1: the difference does not depend on coordinate 2. -/
def PlusE5 (t t' : Tensor Fl) : Prop :=
  t'.shape = t.shape ∧ ∃ u δ : List Nat → ℝ, (∀ i k o, δ (insAt 1 o (setAt 1 k i)) = δ (insAt 1 o i)) ∧
    ∀ i, t.get i = .fin (u i) ∧ t'.get i = .fin (u i + δ i)

theorem PlusE5.sum {t t' : Tensor Fl} (h : PlusE5 t t') : Res.Rel PlusE (t.sum 1) (t'.sum 1) := by
  obtain ⟨hs, u, δ, hδ, hg⟩ := h
  obtain ⟨sh, g⟩ := t
  obtain ⟨sh', g'⟩ := t'
  dsimp only at hs hg
  subst hs
  unfold Tensor.sum Tensor.reduce
  refine Res.Rel.same fun _ _ => ⟨rfl, fun i => ∑ o ∈ Finset.range (at' 1 sh'), δ (insAt 1 o i), fun i k => by simp only [hδ], fun i => ?_⟩
  show Fl.sumN (at' 1 sh') (fun o => g' (insAt 1 o i)) = Fl.sumN (at' 1 sh') (fun o => g (insAt 1 o i)) + _
  simp only [(hg _).1, (hg _).2]
  rw [Fl.sumN_fin, Fl.sumN_fin, Finset.sum_add_distrib]
  rfl

theorem ConvSum.unsqueeze_param (L : ConvSum) : L.param.unsqueeze 0 =
    .ok ⟨[1, L.out_channels, L.in_channels, L.height, L.width], fun i => .fin (L.logits (delAt 0 i))⟩ := by
  unfold Tensor.unsqueeze
  rw [(require_ok_iff ..).2 (Nat.zero_le _)]
  rfl

theorem ConvSum.plus_select (s : Nat → Nat → Nat → ℝ) (L : ConvSum) (ctx : DCtx) (hf : ∀ i, (ctx.indices_out.get i).IsFin)
    (hT : ctx.temperature_sums ≠ 0) : (L.plus s).selectWeights ctx = L.selectWeights ctx := by
  symm
  unfold ConvSum.selectWeights
  rw [ConvSum.unsqueeze_param, ConvSum.unsqueeze_param]
  show (ctx.indices_out.unsqueeze 2 >>= fun p => indexOneHot _ p 1 >>= fun l => logitsToLogWeights l 1 ctx.temperature_sums) =
    (ctx.indices_out.unsqueeze 2 >>= fun p => indexOneHot _ p 1 >>= fun l => logitsToLogWeights l 1 ctx.temperature_sums)
  cases hp : ctx.indices_out.unsqueeze 2 with
  | error e => rfl
  | ok p =>
    show (indexOneHot _ p 1 >>= _) = (indexOneHot _ p 1 >>= _)
    have hpg : ∀ i, p.get i = ctx.indices_out.get (delAt 2 i) := by
      intro i
      unfold Tensor.unsqueeze at hp
      obtain ⟨_, _, h2⟩ := bind_ok hp
      cases h2
      rfl
    have hr : ∀ i, ∃ r : ℝ, ctx.indices_out.get i = .fin r := fun i => by
      have := hf i
      revert this
      cases ctx.indices_out.get i <;> simp [Fl.IsFin]
    choose r hr using hr
    refine Res.Rel.bind (R := PlusE) ?_ fun a b h => h.weights hT
    unfold indexOneHot
    refine Res.Rel.same fun _ _ => Res.Rel.same fun _ _ => Res.Rel.same fun _ h5 => ?_
    rw [require_ok_iff] at h5
    have h5' : p.rank = 5 := h5.symm
    obtain ⟨psh, g⟩ := p
    obtain ⟨q0, q1, q2, q3, q4, rfl⟩ : ∃ q0 q1 q2 q3 q4, psh = [q0, q1, q2, q3, q4] := by
      have : psh.length = 5 := h5'
      match psh, this with
      | [q0, q1, q2, q3, q4], _ => exact ⟨q0, q1, q2, q3, q4, rfl⟩
    dsimp only at hpg
    unfold Tensor.mul Tensor.zipWith
    refine Res.Rel.bind' (R := PlusE5) ?_ fun A B h => h.sum
    show Res.Rel PlusE5
      (match bshape [1, L.out_channels, L.in_channels, L.height, L.width] [q0, q1, q2, q3, q4] with
        | some r => Except.ok _
        | none => Except.error _)
      (match bshape [1, L.out_channels, L.in_channels, L.height, L.width] [q0, q1, q2, q3, q4] with
        | some r => Except.ok _
        | none => Except.error _)
    cases bshape [1, L.out_channels, L.in_channels, L.height, L.width] [q0, q1, q2, q3, q4] with
    | none => rfl
    | some sh =>
      let l : List Nat → List Nat := fun i => delAt 0 (clipAll [1, L.out_channels, L.in_channels, L.height, L.width] i)
      let j : List Nat → List Nat := fun i => delAt 2 (clipAll [q0, q1, q2, q3, q4] i)
      have hg : ∀ i, g (clipAll [q0, q1, q2, q3, q4] i) = .fin (r (j i)) := fun i => by rw [hpg, hr]
      refine ⟨rfl, fun i => L.logits (l i) * r (j i), fun i => s (at' 0 (l i)) (at' 2 (l i)) (at' 3 (l i)) * r (j i), ?_, ?_⟩
      · intro i k o
        rcases i with _ | ⟨a, _ | ⟨b, i⟩⟩
        · rfl
        · rfl
        · rcases i with _ | ⟨c, _ | ⟨d, i⟩⟩ <;> rfl
      · intro i
        constructor
        · show Fl.fin _ * g (clipAll [q0, q1, q2, q3, q4] i) = _
          rw [hg]
          rfl
        · show Fl.fin _ * g (clipAll [q0, q1, q2, q3, q4] i) = _
          rw [hg]
          show Fl.fin ((L.logits (l i) + s (at' 0 (l i)) (at' 2 (l i)) (at' 3 (l i))) * r (j i)) = Fl.fin _
          rw [add_mul]

/-- all entries are finite. -/
def FinT (t : Tensor Fl) : Prop := ∀ i, (t.get i).IsFin

theorem FinT.zipWith {f : Fl → Fl → Fl} (hf : ∀ a b : Fl, a.IsFin → b.IsFin → (f a b).IsFin) {s t u : Tensor Fl} (hs : FinT s) (ht : FinT t)
    (h : Tensor.zipWith f s t = .ok u) : FinT u := by
  unfold Tensor.zipWith at h
  dsimp only at h
  split at h
  · cases h
    exact fun i => hf _ _ (hs _) (ht _)
  · cases h

theorem FinT.oneHot {s t u : Tensor Fl} (hs : FinT s) (ht : FinT t) {d : Nat} (h : indexOneHot s t d = .ok u) : FinT u := by
  unfold indexOneHot at h
  obtain ⟨_, _, h⟩ := bind_ok h
  obtain ⟨_, _, h⟩ := bind_ok h
  obtain ⟨_, _, h⟩ := bind_ok h
  obtain ⟨v, hv, h⟩ := bind_ok h
  have hv' : FinT v := FinT.zipWith (fun a b ha hb => by
    obtain ⟨x, rfl⟩ := ha
    obtain ⟨y, rfl⟩ := hb
    exact ⟨x * y, rfl⟩) hs ht hv
  unfold Tensor.sum Tensor.reduce at h
  obtain ⟨_, _, h⟩ := bind_ok h
  cases h
  intro i
  choose r hr using hv'
  refine ⟨_, (Fl.sumN_congr fun k _ => hr _).trans (Fl.sumN_fin _ _)⟩

theorem FinT.weights {t w : Tensor Fl} (ht : FinT t) {T : ℝ} (hT : T ≠ 0) (h : logitsToLogWeights t 1 T = .ok w) (hw : 0 < w.size 1) :
    FinT w := by
  unfold logitsToLogWeights Tensor.logSoftmax at h
  obtain ⟨_, _, h⟩ := bind_ok h
  cases h
  intro i
  have hw' : 0 < (t.map (· / Fl.fin T)).size 1 := hw
  choose r hr using ht
  have e : ∀ j, (t.map (· / Fl.fin T)).get j = .fin (r j / T) := fun j => by
    show t.get j / Fl.fin T = _
    rw [hr, Fl.fin_div _ hT]
  show (Fl.logSoftmax _ (fun k => (t.map (· / Fl.fin T)).get (setAt 1 k i)) _).IsFin
  unfold Fl.logSoftmax
  rw [Fl.lse_eq_fin hw' fun k _ => e _]
  dsimp only
  rw [e]
  exact ⟨_, rfl⟩

theorem FinT.simple {w r : Tensor Fl} (hw : 0 < w.size 1 → FinT w) {noise : Option (List Nat → Fl)}
    (h : simple none (some w) 1 noise = .ok r) : FinT r := by
  unfold Einet.simple at h
  obtain ⟨_, _, h⟩ := bind_ok h
  obtain ⟨⟨y, base⟩, hy, h⟩ := bind_ok h
  cases hy
  obtain ⟨q, hq, h⟩ := bind_ok h
  have hqs : q.shape = w.shape := by
    unfold Tensor.softmax at hq
    obtain ⟨_, _, hq⟩ := bind_ok hq
    cases hq
    rfl
  unfold straightThrough at h
  obtain ⟨ix, hix, h⟩ := bind_ok h
  unfold Tensor.argmax at hix
  obtain ⟨_, h0, _⟩ := bind_ok hix
  rw [require_ok_iff] at h0
  have hw' := hw (by unfold Tensor.size at h0 ⊢; rw [← hqs]; exact h0)
  have hy : FinT (w.map Fl.exp) := fun i => by
    obtain ⟨x, hx⟩ := hw' i
    exact ⟨Real.exp x, by show Fl.exp (w.get i) = _; rw [hx]; rfl⟩
  obtain ⟨v, hv, h⟩ := bind_ok h
  have hv' : FinT v := by
    unfold Tensor.view at hv
    obtain ⟨_, _, hv⟩ := bind_ok hv
    cases hv
    intro i
    show (if _ then Fl.fin 1 else Fl.fin 0).IsFin
    split_ifs <;> exact ⟨_, rfl⟩
  obtain ⟨u, hu, h⟩ := bind_ok h
  refine FinT.zipWith (fun a b ha hb => ?_) (FinT.zipWith (fun a b ha hb => ?_) hv' hy hu) hy h
  · obtain ⟨x, rfl⟩ := ha
    obtain ⟨z, rfl⟩ := hb
    exact ⟨x + z, rfl⟩
  · obtain ⟨x, rfl⟩ := ha
    obtain ⟨z, rfl⟩ := hb
    exact ⟨_, rfl⟩

/-- contexts with finite indices and the given temperature. -/
def FinCtx (T : ℝ) (ctx : DCtx) : Prop := FinT ctx.indices_out ∧ ctx.temperature_sums = T

theorem ConvSum.select_fin (L : ConvSum) {ctx : DCtx} {T : ℝ} (hT : T ≠ 0) (hc : FinCtx T ctx) {w : Tensor Fl}
    (h : L.selectWeights ctx = .ok w) (hw : 0 < w.size 1) : FinT w := by
  unfold ConvSum.selectWeights at h
  rw [ConvSum.unsqueeze_param] at h
  obtain ⟨p, hp, h⟩ := bind_ok (show (ctx.indices_out.unsqueeze 2 >>= _) = _ from h)
  obtain ⟨l, hl, h⟩ := bind_ok h
  refine FinT.weights (FinT.oneHot (fun i => ⟨_, rfl⟩) ?_ hl) (hc.2 ▸ hT) h hw
  unfold Tensor.unsqueeze at hp
  obtain ⟨_, _, hp⟩ := bind_ok hp
  cases hp
  exact fun i => hc.1 _

theorem ConvSum.sample_outs (μ : Measure ℝ) (L : ConvSum) {ctx : DCtx} {T : ℝ} (hT : T ≠ 0) (hc : FinCtx T ctx) :
    (L.sample μ none ctx).Outs (FinCtx T) := by
  unfold ConvSum.sample
  refine Rand.Outs.bind (P := fun w => L.selectWeights ctx = .ok w) (Rand.Outs.lift fun w h => ?_) fun w h => ?_
  · unfold ConvSum.logWeights at h
    obtain ⟨w', h1, h2⟩ := bind_ok h
    cases h2
    exact h1
  · refine Rand.Outs.bind (Rand.Outs.trivial _) fun noise _ => Rand.Outs.lift fun c h2 => ?_
    obtain ⟨ix, h3, h4⟩ := bind_ok h2
    cases h4
    exact ⟨FinT.simple (fun hw => L.select_fin hT hc h hw) h3, hc.2⟩

theorem ProdConv.sample_fin {kh kw : Nat} {ctx c : DCtx} {T : ℝ} (hc : FinCtx T ctx) (h : ProdConv.sample kh kw ctx = .ok c) : FinCtx T c := by
  have rep : ∀ {k d : Nat} {t u : Tensor Fl}, FinT t → t.repeatInterleave k d = .ok u → FinT u := fun {k d t u} ht hu => by
    unfold Tensor.repeatInterleave at hu
    obtain ⟨_, _, hu⟩ := bind_ok hu
    cases hu
    exact fun i => ht _
  unfold ProdConv.sample at h
  obtain ⟨_, _, h⟩ := bind_ok h
  obtain ⟨a, ha, h⟩ := bind_ok h
  obtain ⟨b, hb, h⟩ := bind_ok h
  cases h
  exact ⟨rep (rep hc.1 ha) hb, hc.2⟩

theorem ConvSum.plus_sample (μ : Measure ℝ) (s : Nat → Nat → Nat → ℝ) (L : ConvSum) {ctx : DCtx} {T : ℝ} (hT : T ≠ 0) (hc : FinCtx T ctx)
    (cache : Option (Tensor Fl)) : (L.plus s).sample μ cache ctx = L.sample μ cache ctx := by
  unfold ConvSum.sample ConvSum.logWeights
  rw [ConvSum.plus_select s L ctx hc.1 (hc.2 ▸ hT)]

theorem ConvLayer.Near.sample {l l' : ConvLayer} (h : Near l l') (μ : Measure ℝ) {ctx : DCtx} {T : ℝ} (hT : T ≠ 0) (hc : FinCtx T ctx) :
    Rand.Alike (l.sample μ none ctx) (l'.sample μ none ctx) ∧ (l.sample μ none ctx).Outs (FinCtx T) := by
  cases h with
  | sum L s => exact ⟨.of_eq (L.plus_sample μ s hT hc none).symm, L.sample_outs μ hT hc⟩
  | prod kh kw => exact ⟨.refl _, Rand.Outs.lift fun c h => ProdConv.sample_fin hc h⟩
  | sumProd o L s kh kw =>
    simp only [ConvLayer.sample]
    have hp : (Rand.lift (ProdConv.sample kh kw ctx)).Outs (FinCtx T) := Rand.Outs.lift fun c h => ProdConv.sample_fin hc h
    split_ifs
    · exact ⟨(Rand.Alike.refl _).bindP hp fun c h => .of_eq (L.plus_sample μ s hT h none).symm, hp.bind fun c h => L.sample_outs μ hT h⟩
    · rw [L.plus_sample μ s hT hc none]
      exact ⟨.refl _, (L.sample_outs μ hT hc).bind fun c h => Rand.Outs.lift fun c' h' => ProdConv.sample_fin h h'⟩
    · exact ⟨.refl _, hc⟩

theorem sampleConv_near {ls ls' : List ConvLayer} (h : List.Forall₂ ConvLayer.Near ls ls') (μ : Measure ℝ) {ctx : DCtx} {T : ℝ} (hT : T ≠ 0)
    (hc : FinCtx T ctx) :
    Rand.Alike (sampleConv μ ls [] ctx) (sampleConv μ ls' [] ctx) ∧ (sampleConv μ ls [] ctx).Outs (FinCtx T) := by
  induction h with
  | nil => exact ⟨.refl _, hc⟩
  | cons h1 _ ih =>
    exact ⟨ih.1.bindP ih.2 fun c h => (h1.sample μ hT h).1, ih.2.bind fun c h => (h1.sample μ hT h).2⟩

theorem ConvModel.Near.sample {M M' : ConvModel} (h : M.Near M') (μ : Measure ℝ) (a : ConvArgs) (hT : a.temperature_sums ≠ 0) :
    Rand.Alike (M.sample μ a) (M'.sample μ a) := by
  obtain ⟨e1, e2, e3, e4, e5⟩ := h
  unfold ConvModel.sample
  split
  · exact .refl _
  · exact .refl _
  · rename_i N _ _
    unfold ConvModel.draw ConvModel.select
    rw [e1, e2, e3, e4]
    exact (sampleConv_near e5 μ (ctx := ConvModel.initCtx N a) hT ⟨fun i => ⟨1, rfl⟩, rfl⟩).1.bind fun c => .refl _

end Einet
