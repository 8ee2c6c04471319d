import Verif.SampleBuild
import Verif.PropsLayers

/-!
# The most probable explanation: no random numbers, and the decisions on the path
-/

open Classical
open scoped ENNReal
noncomputable section
namespace Einet
open Tensor

/-! ### Specification of a greedy path -/

/-- `k` is one of `n` choices and none of them has a larger weight. -/
def IsArgmax (n : Nat) (w : Nat → ℝ≥0∞) (k : Nat) : Prop := k < n ∧ ∀ j, j < n → w j ≤ w k

/-- weight of a logit at temperature `T`, up to the normalisation common to all choices. -/
def expw (T : ℝ) (x : Fl) : ℝ≥0∞ := ENNReal.ofReal (Real.exp (x.val / T))

/-- The decisions of one layer in repetition `r`, where `v d k r` is the value (density of the evidence) of channel `k` of
feature `d` below the layer, `top` the channels chosen above and `bot` the channels chosen below. -/
def Decision (T : ℝ) (r : Nat) (v : PRow) : Layer → (Nat → Nat) → (Nat → Nat) → Prop
  | .sum L, top, bot => ∀ d, d < L.num_features →
      IsArgmax L.num_sums_in (fun k => expw T (L.logits.get [d, k, top d, r]) * v d k r) (bot d)
  | .linsum L, top, bot => ∀ d, d < (L.num_features + 1) / 2 → (2 * d + 1 < L.num_features → bot (2 * d + 1) = bot (2 * d)) ∧
      IsArgmax L.num_sums_in (fun k => expw T (L.logits.get [d, k, top d, r]) *
        (v (2 * d) k r * if 2 * d + 1 < L.num_features then v (2 * d + 1) k r else 1)) (bot (2 * d))
  | .linsum2 L, top, bot => ∀ d, d < L.num_features →
      IsArgmax L.num_sums_in (fun k => expw T (L.logits.get [d, k, top (d / 2), r]) * v d k r) (bot d)
  | .einsum L, top, bot => ∀ d, d < L.num_features / 2 → bot (2 * d) < L.num_sums_in ∧ bot (2 * d + 1) < L.num_sums_in ∧
      ∀ i, i < L.num_sums_in → ∀ j, j < L.num_sums_in →
        expw T (L.logits.get [d, top d, r, i, j]) * (v (2 * d) i r * v (2 * d + 1) j r) ≤
        expw T (L.logits.get [d, top d, r, bot (2 * d), bot (2 * d + 1)]) *
          (v (2 * d) (bot (2 * d)) r * v (2 * d + 1) (bot (2 * d + 1)) r)
  | .rootProduct F _, top, bot => ∀ d, d < F → bot d = top 0

/-- a path through the layers on which every decision is maximal given the values `v` at the leaves. The values above a
layer are those of the sum-product network at temperature 1 (`Layer.den`). -/
def GreedyPath (T : ℝ) (r : Nat) : List Layer → PRow → (Nat → Nat) → (Nat → Nat) → Prop
  | [], _, top, bot => bot = top
  | l :: ls, v, top, bot => ∃ mid, GreedyPath T r ls (l.den 1 v) top mid ∧ Decision T r v l mid bot

/-- the class of row `n`: the one asked for, or one of maximal weight of the class root. The evidence plays no role. -/
def Model.ClassChoice (M : Model) (a : SampleArgs) (n k : Nat) : Prop :=
  match a.class_index with
  | none => IsArgmax M.num_classes
      (fun k => if 1 < M.num_classes then expw a.temperature_sums (M.classRoot.logits.get [0, k, 0, 0]) else 1) k
  | some (.int c) => k = c
  | some (.list l) => k = l.getD n 0

/-- the decisions for row `n`: class `k`, repetition `r` and channels `idx` of the leaf regions, where `v` are the values
(densities of the evidence) of the leaf regions. -/
structure Model.GreedyChoice (M : Model) (a : SampleArgs) (n : Nat) (v : PRow) (k r : Nat) (idx : Nat → Nat) : Prop where
  cls : M.ClassChoice a n k
  rep : IsArgmax M.num_repetitions (fun r => (if 1 < M.num_repetitions then
    expw a.temperature_sums (M.mixing.logits.get [0, k, r]) else 1) * denL 1 M.layers v 0 k r) r
  path : GreedyPath a.temperature_sums r M.layers v (fun _ => k) idx

/-! ### No random numbers -/

namespace Rand
variable {α β : Type}

/-- no random number is requested, and a result satisfies `P`. -/
def DetP (P : α → Prop) : Rand α → Prop
  | pure a => P a
  | fail _ => True
  | _ => False

theorem DetP.bind {P : α → Prop} {Q : β → Prop} {x : Rand α} {f : α → Rand β} (h : DetP P x)
    (hf : ∀ a, P a → DetP Q (f a)) : DetP Q (x.bind f) := by
  cases x with
  | pure a => exact hf a h
  | fail e => trivial
  | draw => exact h.elim
  | leaf => exact h.elim

theorem DetP.lift {x : Res α} : DetP (fun _ => True) (Rand.lift x) := by cases x <;> trivial

theorem DetP.liftP {P : α → Prop} {x : Res α} (h : ∀ a, x = .ok a → P a) : DetP P (Rand.lift x) := by
  cases x with
  | ok a => exact h a rfl
  | error e => trivial

theorem DetP.det {P : α → Prop} {x : Rand α} (h : DetP P x) : x.Det := by
  cases x with
  | pure a => trivial
  | fail e => trivial
  | draw => exact h.elim
  | leaf => exact h.elim

theorem Det.pure {x : Rand α} {P : α → Prop} (h : x.Det) (ha : x.All P) : ∃ a, x = .pure a ∧ P a := by
  cases x with
  | pure a => exact ⟨a, rfl, ha⟩
  | fail e => exact ha.elim
  | draw => exact h.elim
  | leaf => exact h.elim

end Rand

theorem detP_absSample (Dout : Nat) (select : Ctx → Res (Tensor Fl))
    (condition : Cache → Ctx → Tensor Fl → Res (Tensor Fl)) (post : Ctx → Tensor Nat → Res (Tensor Nat))
    (cache : Option Cache) {ctx : Ctx} (h : ctx.is_mpe = true) :
    (absSample Dout select condition post cache ctx).DetP fun c => c.is_mpe = true := by
  have hd : ∀ w, (drawIndices ctx w).DetP fun _ => True := by
    intro w; unfold drawIndices; rw [if_pos h]; exact Rand.DetP.lift
  unfold absSample
  refine Rand.DetP.lift.bind fun _ _ => Rand.DetP.lift.bind fun w _ => ?_
  cases cache
  · exact (hd _).bind fun ix _ => Rand.DetP.lift.bind fun ix' _ => h
  · exact Rand.DetP.lift.bind fun w _ => (hd _).bind fun ix _ => Rand.DetP.lift.bind fun ix' _ => h

theorem detP_layer (l : Layer) (cache : Option Cache) {ctx : Ctx} (h : ctx.is_mpe = true) :
    (l.sample cache ctx).DetP fun c => c.is_mpe = true := by
  cases l with
  | sum L =>
    show (SumLayer.sample L cache ctx).DetP _
    exact detP_absSample _ _ _ _ _ h
  | linsum L =>
    show (LinsumLayer.sample L cache ctx).DetP _
    exact detP_absSample _ _ _ _ _ h
  | linsum2 L =>
    show (LinsumLayer2.sample L cache ctx).DetP _
    exact detP_absSample _ _ _ _ _ h
  | einsum L =>
    show (EinsumLayer.sample L cache ctx).DetP _
    exact detP_absSample _ _ _ _ _ h
  | rootProduct F R =>
    refine Rand.DetP.liftP fun c hc => ?_
    unfold RootProductLayer.sample at hc
    obtain ⟨_, _, hc⟩ := bind_ok hc
    cases hc
    exact h

theorem detP_sampleLayers (ls : List Layer) (cs : List (Option Cache)) {ctx : Ctx} (h : ctx.is_mpe = true) :
    (sampleLayers ls cs ctx).DetP fun c => c.is_mpe = true := by
  induction ls generalizing cs with
  | nil => exact h
  | cons l ls ih => exact (ih _).bind fun c hc => detP_layer l _ hc

theorem detP_draws (B : BaseLeaf) {ctx : Ctx} (h : ctx.is_mpe = true) : (B.draws ctx).DetP fun _ => True := by
  unfold BaseLeaf.draws; rw [if_pos (Or.inl h)]; trivial

theorem detP_sampleAll (B : BaseLeaf) {ctx : Ctx} (h : ctx.is_mpe = true) : (B.sampleAll ctx).DetP fun _ => True := by
  unfold BaseLeaf.sampleAll
  exact Rand.DetP.lift.bind fun _ _ => (detP_draws B h).bind fun _ _ => Rand.DetP.lift

theorem detP_leaf (L : Leaf) {ctx : Ctx} (h : ctx.is_mpe = true) : (L.sample ctx).DetP fun _ => True := by
  cases L with
  | direct B => exact (detP_sampleAll B h).bind fun _ _ => Rand.DetP.lift
  | factorized L => exact (detP_sampleAll L.base h).bind fun _ _ => Rand.DetP.lift
  | simple L => exact (detP_sampleAll L.base h).bind fun _ _ => Rand.DetP.lift

namespace Model

theorem detP_samplePath (M : Model) {a : SampleArgs} (cs : Caches) (h : a.is_mpe = true) :
    (M.samplePath a cs).DetP fun c => c.is_mpe = true := by
  unfold samplePath
  refine Rand.DetP.bind (P := fun p => p.1.is_mpe = true) ?_ fun p hp => ?_
  · unfold pickClass
    split_ifs
    · split
      · exact h
      · exact h
      · exact (detP_absSample _ _ _ _ _ (show (M.initCtx a).is_mpe = true from h)).bind fun c hc => hc
    · exact h
  · obtain ⟨c, n⟩ := p
    refine Rand.DetP.bind (P := fun c => c.is_mpe = true) ?_ fun c hc => (detP_sampleLayers _ _ hc).bind fun c hc => ?_
    · unfold pickRep
      split_ifs
      · exact (detP_absSample _ _ _ _ _ hp).bind fun c hc => Rand.DetP.lift.bind fun _ _ => hc
      · exact hp
    · refine Rand.DetP.liftP fun c' hc' => ?_
      unfold unpermute at hc'
      split at hc'
      · cases hc'; exact hc
      · obtain ⟨_, _, hc'⟩ := bind_ok hc'
        obtain ⟨_, _, hc'⟩ := bind_ok hc'
        cases hc'; exact hc

/-- `sample` with `is_mpe` requests no random number, whatever the model and the other arguments. -/
theorem sample_det (M : Model) {a : SampleArgs} (h : a.is_mpe = true) : (M.sample a).Det := by
  have : (M.sample a).DetP fun _ => True := by
    unfold sample
    exact Rand.DetP.lift.bind fun _ _ => Rand.DetP.lift.bind fun cs _ => (detP_samplePath M cs h).bind fun c hc =>
      (detP_leaf _ hc).bind fun _ _ => Rand.DetP.lift
  exact this.det

end Model

/-! ### Greedy decisions -/

theorem expw_pos (T : ℝ) (x : Fl) : expw T x ≠ 0 := by
  unfold expw; simp [Real.exp_pos]

/-- normalisation does not change the comparison of weights. -/
theorem softmax_le {n : Nat} {f : Nat → Fl} {T : ℝ} (hT : T ≠ 0) (h : ∀ k, k < n → (f k).IsFin) {j k : Nat} (hj : j < n)
    (hk : k < n) {a b : ℝ≥0∞} :
    toP (Fl.logSoftmax n (fun k => f k / Fl.fin T) j) * a ≤ toP (Fl.logSoftmax n (fun k => f k / Fl.fin T) k) * b ↔
      expw T (f j) * a ≤ expw T (f k) * b := by
  have e : ∀ i, i < n → toP (Fl.logSoftmax n (fun k => f k / Fl.fin T) i) =
      ENNReal.ofReal (Real.exp (-Real.log (∑ i ∈ Finset.range n, Real.exp ((f i).val / T)))) * expw T (f i) := by
    intro i hi
    rw [logSoftmax_sw hT h hi, log_sw]
    unfold expw
    rw [← ENNReal.ofReal_mul (Real.exp_pos _).le, ← Real.exp_add]
    show ENNReal.ofReal _ = _
    congr 2
    unfold Fl.rlsm
    ring
  rw [e j hj, e k hk, mul_assoc, mul_assoc]
  exact ENNReal.mul_le_mul_iff_right (by simp [Real.exp_pos]) ENNReal.ofReal_ne_top

theorem isArgmax_of {n : Nat} {f : Nat → Fl} {T : ℝ} (hT : T ≠ 0) (h : ∀ k, k < n → (f k).IsFin) {v : Nat → ℝ≥0∞} {k : Nat}
    (hk : k < n) (hm : ∀ j, j < n → toP (Fl.logSoftmax n (fun k => f k / Fl.fin T) j) * v j ≤
      toP (Fl.logSoftmax n (fun k => f k / Fl.fin T) k) * v k) : IsArgmax n (fun k => expw T (f k) * v k) k :=
  ⟨hk, fun j hj => (softmax_le hT h hj hk).1 (hm j hj)⟩

/-- the choices of maximal posterior weight are the decisions of the specification. -/
theorem decision_of {l : Layer} {Di Si Do So R : Nat} (h : l.WF Di Si Do So R) {T : ℝ} (hT : T ≠ 0) {r : Nat} (hr : r < R)
    {v : PRow} {top bot ch : Nat → Nat} (htop : ∀ d, d < Do → top d < So)
    (hc : if l.isSum = true then
          (∀ d, d < l.draws → ch d < l.choices) ∧ (∀ d, d < Di → bot d = l.child ch d) ∧
          (∀ d, d < l.draws → ∀ k, k < l.choices →
            toP (l.lwt T d (top (l.par d)) r k) * l.ev v d k r ≤
            toP (l.lwt T d (top (l.par d)) r (ch d)) * l.ev v d (ch d) r)
        else ∀ d, d < Di → bot d = top 0) : Decision T r v l top bot := by
  cases h with
  | sum L hL hf hS =>
    obtain ⟨h1, h2, h3⟩ := hc
    intro d hd
    rw [h2 d hd]
    exact isArgmax_of hT (fun k hk => hf _ (by rw [hL]; exact ⟨hd, hk, htop d hd, hr, trivial⟩)) (h1 d hd) (h3 d hd)
  | linsum L hL hf hS hD =>
    have hO : LinsumLayer.numFeaturesOut L = (L.num_features + L.num_features % 2) / 2 := rfl
    obtain ⟨h1, h2, h3⟩ := hc
    intro d hd
    have hd' : d < LinsumLayer.numFeaturesOut L := by omega
    have e : bot (2 * d) = ch d := by
      rw [h2 _ (by omega)]; show ch (2 * d / 2) = _; congr 1; omega
    refine ⟨fun hlt => ?_, ?_⟩
    · rw [e, h2 _ hlt]; show ch ((2 * d + 1) / 2) = _; congr 1; omega
    · rw [e]
      exact isArgmax_of hT (fun k hk => hf _ (by rw [hL]; exact ⟨hd', hk, htop d hd', hr, trivial⟩)) (h1 d hd')
        (h3 d hd')
  | linsum2 L hL hf hS hD hE =>
    have hO : LinsumLayer2.numFeaturesOut L = (L.num_features + L.num_features % 2) / 2 := rfl
    obtain ⟨h1, h2, h3⟩ := hc
    intro d hd
    rw [h2 d hd]
    exact isArgmax_of hT (fun k hk => hf _ (by rw [hL]; exact ⟨hd, hk, htop _ (by omega), hr, trivial⟩)) (h1 d hd) (h3 d hd)
  | einsum L hL hf hS hO hR hD hE =>
    have hO' : EinsumLayer.numFeaturesOut L = L.num_features / 2 := rfl
    obtain ⟨h1, h2, h3⟩ := hc
    intro d hd
    have hd' : d < EinsumLayer.numFeaturesOut L := by omega
    have hc := h1 d hd'
    have hc' : ch d < L.num_sums_in ^ 2 := hc
    have e0 : bot (2 * d) = ch d / L.num_sums_in := by
      rw [h2 _ (by omega)]
      show (if 2 * d % 2 = 0 then ch (2 * d / 2) / L.num_sums_in else _) = _
      rw [if_pos (by omega), show 2 * d / 2 = d by omega]
    have e1 : bot (2 * d + 1) = ch d % L.num_sums_in := by
      rw [h2 _ (by omega)]
      show (if (2 * d + 1) % 2 = 0 then _ else ch ((2 * d + 1) / 2) % L.num_sums_in) = _
      rw [if_neg (by omega), show (2 * d + 1) / 2 = d by omega]
    have hlt : ∀ k, k < L.num_sums_in ^ 2 → k / L.num_sums_in < L.num_sums_in := fun k hk =>
      Nat.div_lt_of_lt_mul (by rw [← sq]; exact hk)
    have hml : ∀ k, k % L.num_sums_in < L.num_sums_in := fun k => Nat.mod_lt _ hS
    rw [e0, e1]
    refine ⟨hlt _ hc', hml _, fun i hi j hj => ?_⟩
    have hij : i * L.num_sums_in + j < L.num_sums_in ^ 2 := by
      rw [sq]
      calc i * L.num_sums_in + j < i * L.num_sums_in + L.num_sums_in := by omega
        _ = (i + 1) * L.num_sums_in := by ring
        _ ≤ _ := Nat.mul_le_mul_right _ hi
    have := h3 d hd' (i * L.num_sums_in + j) hij
    have := (softmax_le (f := fun k => L.logits.get [d, top d, r, k / L.num_sums_in, k % L.num_sums_in]) hT (fun k hk =>
      hf _ (by rw [hL]; exact ⟨hd', htop d hd', hr, hlt k hk, hml k, trivial⟩)) hij hc').1 this
    have ed : (i * L.num_sums_in + j) / L.num_sums_in = i := by
      rw [mul_comm, Nat.mul_add_div hS, Nat.div_eq_of_lt hj, add_zero]
    have em : (i * L.num_sums_in + j) % L.num_sums_in = j := by
      rw [mul_comm, Nat.mul_add_mod, Nat.mod_eq_of_lt hj]
    simp only [Layer.ev, ed, em] at this
    exact this
  | rootProduct => exact hc

theorem IsArgmax.congr {n : Nat} {w w' : Nat → ℝ≥0∞} {k : Nat} (h : IsArgmax n w k) (hw : ∀ j, j < n → w j = w' j) :
    IsArgmax n w' k :=
  ⟨h.1, fun j hj => by rw [← hw j hj, ← hw k h.1]; exact h.2 j hj⟩

/-- decisions only depend on the values of the inputs of the layer. -/
theorem Decision.congr {l : Layer} {Di Si Do So R : Nat} (h : l.WF Di Si Do So R) {T : ℝ} {r : Nat}
    {v v' : PRow} {top bot : Nat → Nat} (hv : ∀ d, d < Di → ∀ k, k < Si → v d k r = v' d k r)
    (hd : Decision T r v l top bot) : Decision T r v' l top bot := by
  cases h with
  | sum L hL hf hS =>
    intro d hd'
    exact (hd d hd').congr fun j hj => by rw [hv d hd' j hj]
  | linsum L hL hf hS hD =>
    intro d hd'
    obtain ⟨h0, h1⟩ := hd d hd'
    refine ⟨h0, h1.congr fun j hj => ?_⟩
    rw [hv _ (by omega) j hj]
    split_ifs with hlt
    · rw [hv _ hlt j hj]
    · rfl
  | linsum2 L hL hf hS hD hE =>
    intro d hd'
    exact (hd d hd').congr fun j hj => by rw [hv d hd' j hj]
  | einsum L hL hf hS hO hR hD hE =>
    intro d hd'
    obtain ⟨h1, h2, h3⟩ := hd d hd'
    refine ⟨h1, h2, fun i hi j hj => ?_⟩
    have := h3 i hi j hj
    rwa [hv _ (by omega) i hi, hv _ (by omega) j hj, hv _ (by omega) _ h1, hv _ (by omega) _ h2] at this
  | rootProduct => exact hd

theorem GreedyPath.congr {ls : List Layer} {Di Si Do So R : Nat} (h : Chain ls Di Si Do So R) {T : ℝ} {r : Nat}
    {v v' : PRow} {top bot : Nat → Nat} (hv : ∀ d, d < Di → ∀ k, k < Si → v d k r = v' d k r)
    (hd : GreedyPath T r ls v top bot) : GreedyPath T r ls v' top bot := by
  induction h generalizing v v' bot with
  | nil => exact hd
  | cons h hs ih =>
    obtain ⟨mid, h1, h2⟩ := hd
    exact ⟨mid, ih (fun d hd k hk => Layer.den_congr h hv hd hk) h1, h2.congr h hv⟩

/-- the sampling pass over the layers in MPE mode follows a greedy path. -/
theorem sampleLayers_greedy {ls : List Layer} {Di Si Do So R : Nat} (h : Chain ls Di Si Do So R) {b : Bool}
    (hb : needsFin ls = true → b = true) {ctx : Ctx} (hm : ctx.is_mpe = true) {N : Nat} (hN : 0 < N)
    {idx : Nat → Nat → Nat} {rr : Nat → Nat} (hctx : CtxOK ctx N Do So R idx rr) (hT : ctx.temperature_sums ≠ 0)
    {cond : Bool} {cs : List (Option Cache)} {e : Nat → Row} (hev : EvL cond ls N cs e)
    (he : ∀ n, n < N → ∀ d, d < Di → ∀ k, k < Si → Okay b (e n d k (rr n)))
    (h0 : ∀ n, n < N → ∀ d, d < Do → toP (evTop cond ls (e n) d (idx n d) (rr n)) ≠ 0) :
    (sampleLayers ls cs ctx).All fun c => c = { ctx with indices_out := c.indices_out } ∧
      ∃ idx' : Nat → Nat → Nat, CtxOK c N Di Si R idx' rr ∧
        (∀ n, n < N → ∀ d, d < Di → toP (e n d (idx' n d) (rr n)) ≠ 0) ∧
        ∀ n, n < N → GreedyPath ctx.temperature_sums (rr n) ls (pRow (e n)) (idx n) (idx' n) := by
  induction h generalizing cs e with
  | nil D S R => exact ⟨rfl, idx, hctx, h0, fun _ _ => rfl⟩
  | @cons l ls Di Si Dm Sm Do So R h hs ih =>
    have hb1 : l.isEinsum = true → b = true := fun hl => hb (by simp [needsFin, hl])
    have hb2 : needsFin ls = true → b = true := fun hl => hb (by
      simp only [needsFin, List.any_cons] at hl ⊢; simp [hl])
    have he' : ∀ n, n < N → ∀ d, d < Dm → ∀ k, k < Sm → Okay b (evUp cond l (e n) d k (rr n)) := by
      intro n hn d hd k hk
      unfold evUp
      split_ifs
      · exact (Layer.row_den h hb1 (hctx.ir_lt n hn) (he n hn) hd hk).1
      · cases b
        · trivial
        · exact Fl.isFin_fin _
    have hup : ∀ n, n < N → ∀ d, d < Dm → ∀ k, k < Sm →
        pRow (evUp cond l (e n)) d k (rr n) = l.den 1 (pRow (e n)) d k (rr n) := by
      intro n hn d hd k hk
      unfold pRow evUp
      split_ifs with hcond
      · exact (Layer.row_den h hb1 (hctx.ir_lt n hn) (he n hn) hd hk).2
      · have hz2 : ∀ n d k r, e n d k r = .fin 0 := by
          unfold EvL at hev; rw [if_neg hcond] at hev; exact hev.2
        rw [Layer.den_one h one_ne_zero (hctx.ir_lt n hn) (fun d _ k _ => by simp [hz2]) hd hk, toP_zero]
    refine (ih hb2 hctx hev.head.2 he' h0).bind fun c ⟨hc, idx', hctx', h0', hg⟩ => ?_
    have hTc : c.temperature_sums = ctx.temperature_sums := by rw [hc]
    have hmc : c.is_mpe = true := by rw [hc]; exact hm
    refine (Layer.sample_All h hN hctx' (by rw [hTc]; exact hT) hev.head.1 (fun n hn d hd k hk => (he n hn d hd k hk).nn)
      ?_).mono fun c' ⟨hc', idx'', ch, hctx'', h0'', hch⟩ => ⟨by rw [hc', hc], idx'', hctx'', h0'', fun n hn => ?_⟩
    · intro n hn d hd hz
      rw [hTc] at hz
      have h1 := h0' n hn d hd
      change pRow (evUp cond l (e n)) d (idx' n d) (rr n) ≠ 0 at h1
      rw [hup n hn d hd _ (hctx'.io_lt n hn d hd)] at h1
      exact h1 (Layer.den_eq_zero_iff h one_ne_zero (hctx.ir_lt n hn) hd (hctx'.io_lt n hn d hd) hz hT)
    · refine ⟨idx' n, (hg n hn).congr hs (hup n hn), ?_⟩
      rw [hTc] at hch
      refine decision_of h hT (hctx.ir_lt n hn) (ch := ch n) (fun d hd => hctx'.io_lt n hn d hd) ?_
      split_ifs at hch ⊢ with hsum
      · exact ⟨hch.1 n hn, hch.2.1 n hn, hch.2.2 hmc n hn⟩
      · exact hch n hn

namespace Model

/-- outcomes of the class choice in MPE mode. -/
theorem pickClass_greedy {M : Model} {g : Nat → Nat → Nat} (h : M.WF g) {a : SampleArgs} (hm : a.is_mpe = true)
    (hN : 0 < a.count) (hT : a.temperature_sums ≠ 0) (hc : M.ClassOK a.count a.class_index) :
    (M.pickClass a (M.initCtx a)).All fun p => p.2 = a.count ∧ p.1 = { M.initCtx a with indices_out := p.1.indices_out } ∧
      ∃ cls : Nat → Nat, CtxOK p.1 a.count 1 M.num_classes M.num_repetitions (fun n _ => cls n) (fun _ => 0) ∧
        ∀ n, n < a.count → M.ClassChoice a n (cls n) := by
  unfold pickClass ClassChoice
  split_ifs with hC
  · cases hci : a.class_index with
    | none =>
      dsimp only
      refine (Layer.sample_All (root_WF h hC) hN (initCtx_ok a (by omega) (by omega)) hT (rootEv M _)
        (fun _ _ _ _ _ _ => trivial) (fun n hn d hd => by
          rw [show (M.initCtx a).temperature_sums = a.temperature_sums from rfl, root_den_ne h hC hT hd (by omega)]
          simp)).bind fun c ⟨hc1, idx, ch, hctx, _, hch⟩ => ⟨rfl, hc1, fun n => idx n 0, ?_, fun n hn => ?_⟩
      · exact ⟨hctx.ns, Is.is2 hctx.io (by
          intro n hn d hd
          have : d = 0 := by omega
          subst this; rfl), fun n hn d _ => hctx.io_lt n hn 0 (by omega),
          hctx.ir, fun _ _ => h.reps_pos⟩
      · obtain ⟨h1, h2, h3, h4, h5, h6⟩ := h.root hC
        rw [if_pos (show (Layer.sum M.classRoot).isSum = true from rfl)] at hch
        obtain ⟨c1, c2, c3⟩ := hch
        have hd : 0 < (Layer.sum M.classRoot).draws := by show 0 < M.classRoot.num_features; omega
        have hcc : (Layer.sum M.classRoot).choices = M.num_classes := h2
        have k1 := c1 n hn 0 hd
        have k3 := c3 hm n hn 0 hd
        have k2 : idx n 0 = ch n 0 := c2 n hn 0 (by omega)
        dsimp only; rw [k2]
        rw [hcc] at k1
        refine ⟨k1, fun j hj => ?_⟩
        have := k3 j (by rw [hcc]; exact hj)
        simp only [Layer.ev, pRow, toP_zero] at this
        have hf : ∀ k, k < M.classRoot.num_sums_in → (M.classRoot.logits.get [0, k, 0, 0]).IsFin := fun k hk =>
          h6 _ (by rw [h5]; exact ⟨by omega, hk, by omega, by omega, trivial⟩)
        have := (softmax_le (f := fun k => M.classRoot.logits.get [0, k, 0, 0]) hT hf (by omega) (by omega)).1 this
        simpa using this
    | some ci =>
      rw [hci] at hc
      cases ci with
      | int c =>
        exact ⟨rfl, rfl, fun _ => c, ⟨rfl, full_is _ _, fun _ _ _ _ => hc.2, full_is _ _, fun _ _ => h.reps_pos⟩,
          fun _ _ => rfl⟩
      | list l =>
        refine ⟨hc.2.1, rfl, fun n => l.getD n 0, ⟨rfl, ?_, fun n hn _ _ => hc.2.2 n hn, full_is _ _,
          fun _ _ => h.reps_pos⟩, fun _ _ => rfl⟩
        refine Is.intro (by rw [hc.2.1]) fun j hj => ?_
        match j, hj with
        | [a, b], _ => rfl
  · refine ⟨rfl, rfl, fun _ => 0, initCtx_ok a h.reps_pos h.classes_pos, fun n hn => ?_⟩
    cases hci : a.class_index with
    | none => exact ⟨h.classes_pos, fun j hj => le_rfl⟩
    | some ci =>
      rw [hci] at hc
      cases ci with
      | int c => exact absurd hc.1 hC
      | list l => exact absurd hc.1 hC

/-- outcomes of the path in MPE mode. -/
theorem corePath_greedy {M : Model} {g : Nat → Nat → Nat} (h : M.WF g) {a : SampleArgs} (hm : a.is_mpe = true)
    (hN : 0 < a.count) (hT : a.temperature_sums ≠ 0) (hc : M.ClassOK a.count a.class_index) {cond : Bool} {cs : Caches}
    {e : Nat → Row} (hev : M.EvM cond a.count cs e) (he : M.FinRows a.count e) :
    (M.corePath a cs).All fun c => ∃ (cls : Nat → Nat) (idx : Nat → Nat → Nat) (rr : Nat → Nat), CtxOK c a.count M.numOut M.num_leaves M.num_repetitions idx rr ∧
      c = { M.initCtx a with indices_out := c.indices_out, indices_repetition := c.indices_repetition } ∧
      ∀ n, n < a.count → M.GreedyChoice a n (pRow (e n)) (cls n) (rr n) (idx n) := by
  have hz : cond = false → ∀ n d k r, e n d k r = .fin 0 := by
    intro hc; have := hev.layers; unfold EvL at this; rw [hc] at this; exact this.2
  have htopd : ∀ n, n < a.count → ∀ k, k < M.num_classes → ∀ r, r < M.num_repetitions →
      toP (evTop cond M.layers (e n) 0 k r) = denL 1 M.layers (pRow (e n)) 0 k r := by
    intro n hn k hk r hr
    cases cond
    · rw [evTop_false _ _ (hz rfl n), toP_zero, denL_one h.chain one_ne_zero hr
        (fun d _ k _ => by simp [pRow, hz rfl n]) (by omega) hk]
    · exact topP_eq_evTop h (he n hn) hk hr
  unfold corePath
  refine (pickClass_greedy h hm hN hT hc).bind fun p ⟨hp2, hp1, cls, hctx, hcls⟩ => ?_
  obtain ⟨c1, n1⟩ := p
  subst hp2
  dsimp only at hp1
  have hT1 : c1.temperature_sums = a.temperature_sums := by rw [hp1]; rfl
  have hm1 : c1.is_mpe = true := by rw [hp1]; exact hm
  refine (pickRep_All h (by rw [hT1]; exact hT) hctx hev he).bind fun c2 ⟨hc2, rr, hctx2, hrep⟩ => ?_
  have hT2 : c2.temperature_sums = a.temperature_sums := by rw [hc2]; exact hT1
  have hm2 : c2.is_mpe = true := by rw [hc2]; exact hm1
  refine (sampleLayers_greedy h.chain (b := true) (fun _ => rfl) hm2 hN hctx2 (by rw [hT2]; exact hT) hev.layers
    (fun n hn d hd k hk => he n hn d hd k hk _ (hctx2.ir_lt n hn)) (fun n hn d hd => ?_)).mono
    fun c3 ⟨hc3, idx, hctx3, _, hgr⟩ => ⟨cls, idx, rr, hctx3, ?_, fun n hn => ⟨hcls n hn, ?_, ?_⟩⟩
  · have : d = 0 := by omega
    subst this
    exact toP_ne_zero (evTop_fin h he hz hn (hctx2.io_lt n hn 0 (by omega)) (hctx2.ir_lt n hn))
  · rw [hc3, hc2, hp1]
  · refine ⟨hctx2.ir_lt n hn, fun r hr => ?_⟩
    have hk := hctx2.io_lt n hn 0 (by omega)
    split_ifs with hR
    · obtain ⟨h1, h2, h3, h4, h5⟩ := h.mix hR
      have := hrep hR hm1 n hn r hr
      unfold repW at this
      rw [hT1] at this
      have hf : ∀ r, r < M.mixing.num_sums_in → (M.mixing.logits.get [0, cls n, r]).IsFin := fun r hr =>
        h5 _ (by rw [h4]; exact ⟨by omega, by rw [h3]; exact hk, hr, trivial⟩)
      have := (softmax_le (f := fun r => M.mixing.logits.get [0, cls n, r]) hT hf (by omega)
        (by have := hctx2.ir_lt n hn; omega)).1 this
      rwa [htopd n hn _ hk r hr, htopd n hn _ hk _ (hctx2.ir_lt n hn)] at this
    · have : M.num_repetitions = 1 := by have := h.reps_pos; omega
      have h2 := hctx2.ir_lt n hn
      rw [show r = rr n by omega]
  · have := hgr n hn
    rw [hT2] at this
    exact this

/-- outcomes of the values in MPE mode: the modes of the chosen components. -/
theorem sampleValues_greedy {M : Model} {g : Nat → Nat → Nat} (h : M.Samplable g) {a : SampleArgs} (hm : a.is_mpe = true)
    (hN : 0 < a.count) (hT : a.temperature_sums ≠ 0) (hc : M.ClassOK a.count a.class_index) {cond : Bool} {cs : Caches}
    {e : Nat → Row} (hev : M.EvM cond a.count cs e) (he : M.FinRows a.count e) :
    (M.sampleValues a cs).All fun t => ∃ (cls : Nat → Nat) (idx : Nat → Nat → Nat) (rr : Nat → Nat), t.Is3 a.count M.num_channels M.num_features
        (fun n c f => M.leaf.base.mode c f (idx n (M.grpS g (rr n) f)) (rr n)) ∧
      ∀ n, n < a.count → (∀ d, d < M.numOut → idx n d < M.num_leaves) ∧ M.GreedyChoice a n (pRow (e n)) (cls n) (rr n) (idx n) := by
  rw [sampleValues_eq]
  refine (corePath_greedy h.wf hm hN hT hc hev he).bind fun ctx ⟨cls, idx, rr, hctx, hce, hall⟩ => ?_
  obtain ⟨res, h1, h2⟩ := leaf_sample_eq h.wf.front h.features_pos h.samp.samplable hN hctx
  rw [h1]
  unfold BaseLeaf.draws
  rw [if_pos (Or.inl (by rw [hce]; exact hm))]
  refine Rand.All.lift ((h2 _).mono fun t ht => ⟨cls, idx, rr, ?_, fun n hn => ⟨fun d hd => hctx.io_lt n hn d hd, hall n hn⟩⟩)
  exact Is.is3 ht fun n hn c hc f hf => by simp [at']

end Model
end Einet
