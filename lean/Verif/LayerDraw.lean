import Verif.LayerLaw

/-!
# Sampling law of a layer

Every sum layer draws one of `choices` children at each of `draws` places.  The probability of a choice is proportional
to its weight times the evidence below it.  `sample_E` and `sample_All` state this for every layer type.
-/

open Classical MeasureTheory
open scoped ENNReal
noncomputable section
namespace Einet
open Tensor

theorem prod_pairs (D : Nat) (f : Nat → ℝ≥0∞) :
    ∏ d ∈ Finset.range D, f d =
      ∏ d ∈ Finset.range ((D + D % 2) / 2), f (2 * d) * (if 2 * d + 1 < D then f (2 * d + 1) else 1) := by
  induction D using Nat.twoStepInduction with
  | zero => simp
  | one => simp
  | more D ih _ =>
    have e : (D + 2 + (D + 2) % 2) / 2 = (D + D % 2) / 2 + 1 := by omega
    rw [e, Finset.prod_range_succ f]
    rcases Nat.mod_two_eq_zero_or_one D with h | h
    · have e2 : 2 * ((D + D % 2) / 2) = D := by omega
      rw [Finset.prod_range_succ f, Finset.prod_range_succ, ih, e2, if_pos (by omega), mul_assoc]
      congr 1
      refine Finset.prod_congr rfl fun d hd => ?_
      have hd' : d < (D + D % 2) / 2 := by simpa using hd
      rw [if_pos (by omega), if_pos (by omega)]
    · have e2 : 2 * ((D + D % 2) / 2) = D + 1 := by omega
      obtain ⟨m, rfl⟩ : ∃ m, D = 2 * m + 1 := ⟨D / 2, by omega⟩
      have e3 : (2 * m + 1 + (2 * m + 1) % 2) / 2 = m + 1 := by omega
      rw [Finset.prod_range_succ f (2 * m + 1), ih, e3]
      rw [Finset.prod_range_succ _ (m + 1), Finset.prod_range_succ _ m, Finset.prod_range_succ _ m, if_neg (by omega), if_pos (by omega), if_neg (by omega)]
      have : ∏ d ∈ Finset.range m, f (2 * d) * (if 2 * d + 1 < 2 * m + 1 then f (2 * d + 1) else 1) =
          ∏ d ∈ Finset.range m, f (2 * d) * (if 2 * d + 1 < 2 * m + 1 + 2 then f (2 * d + 1) else 1) := by
        refine Finset.prod_congr rfl fun d hd => ?_
        have hd' : d < m := by simpa using hd
        rw [if_pos (by omega), if_pos (by omega)]
      rw [this]
      have e4 : 2 * (m + 1) = 2 * m + 1 + 1 := by ring
      rw [e4]
      ring

theorem rightP_mul (D : Nat) (u x : PRow) (d k r : Nat) :
    rightP D (fun d k r => u d k r * x d k r) d k r = rightP D u d k r * rightP D x d k r := by
  unfold rightP; split_ifs <;> simp

theorem Weighted.congr {W : Tensor Fl} {N D K : Nat} {a b : Nat → Nat → Nat → ℝ≥0∞} {g : Nat → Nat → Nat → Fl}
    (h : Weighted W N D K a g) (hab : ∀ n, n < N → ∀ d, d < D → ∀ k, k < K → a n d k = b n d k) :
    Weighted W N D K b g := by
  have hs : ∀ n, n < N → ∀ d, d < D → ∑ j ∈ Finset.range K, a n d j = ∑ j ∈ Finset.range K, b n d j :=
    fun n hn d hd => Finset.sum_congr rfl fun k hk => hab n hn d hd k (by simpa using hk)
  refine ⟨h.is3, h.nn, fun n hn d hd k hk => ?_, fun n hn d hd => ?_, fun n hn d hd => ?_⟩
  · rw [h.eq n hn d hd k hk, hs n hn d hd, hab n hn d hd k hk]
  · rw [← hs n hn d hd]; exact h.ne_zero n hn d hd
  · rw [← hs n hn d hd]; exact h.ne_top n hn d hd

namespace Layer

/-- number of independent draws. -/
def draws : Layer → Nat
  | sum L => L.num_features
  | linsum L => LinsumLayer.numFeaturesOut L
  | linsum2 L => L.num_features
  | einsum L => EinsumLayer.numFeaturesOut L
  | rootProduct _ _ => 0

/-- number of outcomes of a draw. -/
def choices : Layer → Nat
  | sum L => L.num_sums_in
  | linsum L => L.num_sums_in
  | linsum2 L => L.num_sums_in
  | einsum L => L.num_sums_in ^ 2
  | rootProduct _ _ => 1

/-- log weight of choice `k` of draw `d` below output channel `s`. -/
def lwt (T : ℝ) : Layer → Nat → Nat → Nat → Nat → Fl
  | sum L, d, s, r, k => L.lw T d k s r
  | linsum L, d, s, r, k => L.lw T d k s r
  | linsum2 L, d, s, r, k => L.lw T d k s r
  | einsum L, d, s, r, k => L.lwEin T d s r k
  | rootProduct _ _, _, _, _, _ => .fin 0

/-- output feature above draw `d`. -/
def par : Layer → Nat → Nat
  | linsum2 _, d => d / 2
  | _, d => d

/-- what lies below choice `k` of draw `d`. -/
def ev : Layer → PRow → PRow
  | sum _, x => x
  | linsum L, x => fun d k r => x (2 * d) k r * rightP L.num_features x d k r
  | linsum2 _, x => x
  | einsum L, x => fun d k r => x (2 * d) (k / L.num_sums_in) r * x (2 * d + 1) (k % L.num_sums_in) r
  | rootProduct _ _, _ => fun _ _ _ => 1

/-- input channel of feature `d` after the draws `c`. -/
def child : Layer → (Nat → Nat) → (Nat → Nat)
  | sum _, c => c
  | linsum _, c => fun d => c (d / 2)
  | linsum2 _, c => c
  | einsum L, c => fun d => if d % 2 = 0 then c (d / 2) / L.num_sums_in else c (d / 2) % L.num_sums_in
  | rootProduct _ _, _ => fun _ => 0

/-- the layer draws (it is not the root product). -/
def isSum : Layer → Bool
  | rootProduct _ _ => false
  | _ => true

def sel : Layer → Ctx → Res (Tensor Fl)
  | sum L => SumLayer.selectWeights L
  | linsum L => LinsumLayer.selectWeights L
  | linsum2 L => LinsumLayer2.selectWeights L
  | einsum L => EinsumLayer.selectWeights L
  | rootProduct _ _ => fun _ => .error .other

def cnd : Layer → Cache → Ctx → Tensor Fl → Res (Tensor Fl)
  | sum L => SumLayer.condition L
  | linsum L => LinsumLayer.condition L
  | linsum2 L => LinsumLayer2.condition L
  | einsum L => EinsumLayer.condition L
  | rootProduct _ _ => fun _ _ _ => .error .other

def pst : Layer → Ctx → Tensor Nat → Res (Tensor Nat)
  | sum _ => fun _ i => .ok i
  | linsum L => LinsumLayer.post L
  | linsum2 L => LinsumLayer2.post L
  | einsum L => EinsumLayer.post L
  | rootProduct _ _ => fun _ _ => .error .other

theorem sample_eq {l : Layer} {Di Si Do So R : Nat} (h : WF l Di Si Do So R) (hs : l.isSum = true) (cache : Option Cache)
    (ctx : Ctx) : l.sample cache ctx = absSample Do l.sel l.cnd l.pst cache ctx := by
  cases h <;> first | rfl | simp [isSum] at hs

theorem choices_pos {l : Layer} {Di Si Do So R : Nat} (h : WF l Di Si Do So R) : 0 < l.choices := by
  cases h <;> simp only [choices] <;> first | assumption | positivity

theorem ev_mul (l : Layer) (u x : PRow) (d k r : Nat) :
    l.ev (fun d k r => u d k r * x d k r) d k r = l.ev u d k r * l.ev x d k r := by
  cases l with
  | sum L => rfl
  | linsum L => simp only [ev, rightP_mul]; ring
  | linsum2 L => rfl
  | einsum L => simp only [ev]; ring
  | rootProduct F R => simp [ev]

/-- `den` collects the draws below an output. -/
theorem prod_den {l : Layer} {Di Si Do So R : Nat} (h : WF l Di Si Do So R) (hs : l.isSum = true) (T : ℝ) (x y : PRow)
    (s : Nat → Nat) (r : Nat) (hx : ∀ d, d < Do → l.den T x d (s d) r ≠ 0) :
    ∏ d ∈ Finset.range l.draws, (∑ k ∈ Finset.range l.choices, toP (l.lwt T d (s (l.par d)) r k) * l.ev y d k r) /
        ∑ k ∈ Finset.range l.choices, toP (l.lwt T d (s (l.par d)) r k) * l.ev x d k r =
      ∏ d ∈ Finset.range Do, l.den T y d (s d) r / l.den T x d (s d) r := by
  cases h with
  | sum L hL hf hS => rfl
  | linsum L hL hf hS hD => rfl
  | einsum L hL hf hS hO hR hD hE => rfl
  | rootProduct => simp [isSum] at hs
  | linsum2 L hL hf hS hD hE =>
    have hO : LinsumLayer2.numFeaturesOut L = (L.num_features + L.num_features % 2) / 2 := rfl
    simp only [draws, choices, lwt, par, ev]
    rw [prod_pairs, ← hO]
    refine Finset.prod_congr rfl fun d hd => ?_
    have hd' : d < LinsumLayer2.numFeaturesOut L := by simpa using hd
    have h2 : 2 * d + 1 < L.num_features := by omega
    rw [if_pos h2]
    have hd0 := hx d hd'
    simp only [den, rightP, if_pos h2] at hd0 ⊢
    rw [show 2 * d / 2 = d by omega, show (2 * d + 1) / 2 = d by omega]
    rw [ENNReal.mul_div_mul_comm]
    · left; exact left_ne_zero_of_mul hd0
    · right; exact right_ne_zero_of_mul hd0

/-- the inputs chosen by the draws. -/
theorem prod_child {l : Layer} {Di Si Do So R : Nat} (h : WF l Di Si Do So R) (hs : l.isSum = true) (u : PRow) (r : Nat)
    (c : Nat → Nat) :
    ∏ d ∈ Finset.range Di, u d (l.child c d) r = ∏ d ∈ Finset.range l.draws, l.ev u d (c d) r := by
  cases h with
  | sum L hL hf hS => rfl
  | linsum2 L hL hf hS hD => rfl
  | linsum L hL hf hS hD =>
    have hO : LinsumLayer.numFeaturesOut L = (L.num_features + L.num_features % 2) / 2 := rfl
    simp only [child, draws, ev]
    rw [prod_pairs, ← hO]
    refine Finset.prod_congr rfl fun d hd => ?_
    simp only [rightP]
    rw [show 2 * d / 2 = d by omega, show (2 * d + 1) / 2 = d by omega]
  | einsum L hL hf hS hO hR hD hE =>
    have hO : EinsumLayer.numFeaturesOut L = L.num_features / 2 := rfl
    simp only [child, draws, ev]
    rw [prod_pairs, show (L.num_features + L.num_features % 2) / 2 = EinsumLayer.numFeaturesOut L by omega]
    refine Finset.prod_congr rfl fun d hd => ?_
    have hd' : d < EinsumLayer.numFeaturesOut L := by simpa using hd
    rw [if_pos (show 2 * d + 1 < L.num_features by omega), if_pos (show 2 * d % 2 = 0 by omega),
      if_neg (show ¬ (2 * d + 1) % 2 = 0 by omega), show 2 * d / 2 = d by omega, show (2 * d + 1) / 2 = d by omega]
  | rootProduct => simp [isSum] at hs

theorem child_lt {l : Layer} {Di Si Do So R : Nat} (h : WF l Di Si Do So R) (hs : l.isSum = true) {c : Nat → Nat}
    (hc : ∀ d, d < l.draws → c d < l.choices) {d : Nat} (hd : d < Di) : l.child c d < Si := by
  cases h with
  | sum L hL hf hS => exact hc d hd
  | linsum2 L hL hf hS hD => exact hc d hd
  | linsum L hL hf hS hD =>
    have hO : LinsumLayer.numFeaturesOut L = (L.num_features + L.num_features % 2) / 2 := rfl
    exact hc (d / 2) (by simp only [draws]; omega)
  | einsum L hL hf hS hO hR hD hE =>
    have hO : EinsumLayer.numFeaturesOut L = L.num_features / 2 := rfl
    have := hc (d / 2) (by simp only [draws]; omega)
    simp only [choices] at this
    simp only [child]
    split_ifs
    · exact Nat.div_lt_of_lt_mul (by rwa [← pow_two])
    · exact Nat.mod_lt _ hS
  | rootProduct => simp [isSum] at hs

theorem child_ne_zero {l : Layer} {Di Si Do So R : Nat} (h : WF l Di Si Do So R) (hs : l.isSum = true) {u : PRow} {r : Nat}
    {c : Nat → Nat} (hc : ∀ d, d < l.draws → l.ev u d (c d) r ≠ 0) {d : Nat} (hd : d < Di) :
    u d (l.child c d) r ≠ 0 := by
  have h1 : ∏ d ∈ Finset.range l.draws, l.ev u d (c d) r ≠ 0 :=
    Finset.prod_ne_zero_iff.2 fun d hd => hc d (by simpa using hd)
  rw [← prod_child h hs u r c] at h1
  exact Finset.prod_ne_zero_iff.1 h1 d (by simpa using hd)

theorem post_is {l : Layer} {Di Si Do So R : Nat} (h : WF l Di Si Do So R) (hs : l.isSum = true) {ctx : Ctx} {N : Nat}
    (hN : 0 < N) (hns : ctx.num_samples = N) {ix : Tensor Nat} (hix : ix.shape = [N, l.draws])
    (hc : ∀ n, n < N → ∀ d, d < l.draws → ix.get [n, d] < l.choices) :
    Res.Sat (l.pst ctx ix) fun o => o.Is2 N Di fun n => l.child fun d => ix.get [n, d] := by
  have h2 : ix.Is2 N l.draws fun n d => ix.get [n, d] := Is.is2 (Is.refl _ hix) (by intro n hn d hd; rfl)
  cases h with
  | sum L hL hf hS => exact Res.Sat.ok h2
  | linsum2 L hL hf hS hD hE => exact LinsumLayer2.post_is hE hN hns h2
  | linsum L hL hf hS hD => exact LinsumLayer.post_is hN hns h2
  | einsum L hL hf hS hO hR hD hE => exact EinsumLayer.post_is hE hN hns h2 hc
  | rootProduct => simp [isSum] at hs

/-- evidence available to `sample`: nothing, or the inputs cached by the forward pass. -/
def EvOK (l : Layer) (N : Nat) (cache : Option Cache) (e : Nat → Row) : Prop :=
  (cache = none ∧ ∀ n d k r, e n d k r = .fin 0) ∨ l.CacheIs N cache e

/-- `toP` of a row. -/
def _root_.Einet.pRow (x : Row) : PRow := fun d k r => toP (x d k r)

theorem rightChild_zero (D d k r : Nat) {x : Row} (h : ∀ d k r, x d k r = .fin 0) : rightChild D x d k r = .fin 0 := by
  unfold rightChild; split_ifs <;> simp [h]

theorem weights_is {l : Layer} {Di Si Do So R : Nat} (h : WF l Di Si Do So R) (hs : l.isSum = true) {ctx : Ctx} {N : Nat}
    {idx : Nat → Nat → Nat} {rr : Nat → Nat} (hctx : CtxOK ctx N Do So R idx rr) (hT : ctx.temperature_sums ≠ 0)
    {cache : Option Cache} {e : Nat → Row} (hev : l.EvOK N cache e)
    (he : ∀ n, n < N → ∀ d, d < Di → ∀ k, k < Si → NN (e n d k (rr n)))
    (h0 : ∀ n, n < N → ∀ d, d < Do → l.den ctx.temperature_sums (pRow (e n)) d (idx n d) (rr n) ≠ 0) :
    Res.Sat (absWeights l.sel l.cnd cache ctx) fun W => ∃ g, Weighted W N l.draws l.choices
      (fun n d k => toP (l.lwt ctx.temperature_sums d (idx n (l.par d)) (rr n) k) * l.ev (pRow (e n)) d k (rr n)) g := by
  unfold absWeights
  cases h with
  | sum L hL hf hS =>
    have hw := fun n (hn : n < N) d (hd : d < L.num_features) =>
      L.lw_fin hL hf hS hT hd (hctx.io_lt n hn d hd) (hctx.ir_lt n hn)
    refine (SumLayer.selectWeights_is hL hctx).bind fun lw hlw => ?_
    rcases hev with ⟨rfl, hz⟩ | ⟨x, rfl, hx⟩
    · refine Res.Sat.ok ?_
      simp only [ev, pRow, hz]
      exact ⟨_, weighted_of_is hlw (fun n hn d hd k hk => NN_of_isFin ((hw n hn d hd).1 k hk))
        fun n hn d hd => (hw n hn d hd).2⟩
    · exact SumLayer.condition_is hctx hx hlw (fun n hn d hd k hk => NN_of_isFin ((hw n hn d hd).1 k hk)) he h0
  | linsum L hL hf hS hD =>
    have hO : LinsumLayer.numFeaturesOut L = (L.num_features + L.num_features % 2) / 2 := rfl
    have hw := fun n (hn : n < N) d (hd : d < LinsumLayer.numFeaturesOut L) =>
      L.lw_fin hL hf hS hT hd (hctx.io_lt n hn d hd) (hctx.ir_lt n hn)
    refine (LinsumLayer.selectWeights_is hL hctx).bind fun lw hlw => ?_
    have hel : ∀ n, n < N → ∀ d, d < LinsumLayer.numFeaturesOut L → ∀ k, k < L.num_sums_in →
        NN (e n (2 * d) k (rr n)) := fun n hn d hd k hk => he n hn (2 * d) (by omega) k hk
    have her : ∀ n, n < N → ∀ d, d < LinsumLayer.numFeaturesOut L → ∀ k, k < L.num_sums_in → _ :=
      fun n hn d hd k hk => toP_rightChild (D := L.num_features) (x := e n) (d := d) (k := k) (r := rr n)
        fun hc => he n hn _ hc k hk
    have heq : ∀ n, n < N → ∀ d, d < LinsumLayer.numFeaturesOut L → ∀ k, k < L.num_sums_in →
        toP (e n (2 * d) k (rr n) + rightChild L.num_features (e n) d k (rr n)) =
          (Layer.linsum L).ev (pRow (e n)) d k (rr n) := fun n hn d hd k hk => by
      rw [toP_add (hel n hn d hd k hk) (her n hn d hd k hk).2, (her n hn d hd k hk).1]; rfl
    rcases hev with ⟨rfl, hz⟩ | ⟨l', r', rfl, hl, hr⟩
    · refine Res.Sat.ok ?_
      have : ∀ n d k, (Layer.linsum L).ev (pRow (e n)) d k (rr n) = toP (Fl.fin 0) := by
        intro n d k
        simp only [ev, pRow, hz, rightP]
        split_ifs <;> simp
      simp only [this]
      exact ⟨_, weighted_of_is hlw (fun n hn d hd k hk => NN_of_isFin ((hw n hn d hd).1 k hk))
        fun n hn d hd => (hw n hn d hd).2⟩
    · refine (LinsumLayer.condition_is hctx hl hr hlw (fun n hn d hd k hk => NN_of_isFin ((hw n hn d hd).1 k hk)) hel
        (fun n hn d hd k hk => (her n hn d hd k hk).2) ?_).mono fun W ⟨g, hg⟩ => ⟨g, ?_⟩
      · intro n hn d hd
        rw [Finset.sum_congr rfl fun k hk => by rw [heq n hn d hd k (by simpa using hk)]]
        exact h0 n hn d hd
      · exact hg.congr fun n hn d hd k hk => by rw [heq n hn d hd k hk]; rfl
  | linsum2 L hL hf hS hD hE =>
    have hO : LinsumLayer2.numFeaturesOut L = (L.num_features + L.num_features % 2) / 2 := rfl
    have hw := fun n (hn : n < N) d (hd : d < L.num_features) =>
      L.lw_fin hL hf hS hT hd (hctx.io_lt n hn (d / 2) (by omega)) (hctx.ir_lt n hn)
    refine (LinsumLayer2.selectWeights_is hL hctx).bind fun lw hlw => ?_
    rcases hev with ⟨rfl, hz⟩ | ⟨x, rfl, hx⟩
    · refine Res.Sat.ok ?_
      simp only [ev, pRow, hz]
      exact ⟨_, weighted_of_is hlw (fun n hn d hd k hk => NN_of_isFin ((hw n hn d hd).1 k hk))
        fun n hn d hd => (hw n hn d hd).2⟩
    · refine LinsumLayer2.condition_is hctx hx hlw (fun n hn d hd k hk => NN_of_isFin ((hw n hn d hd).1 k hk)) he ?_
      intro n hn d hd
      have h2 := h0 n hn (d / 2) (by omega)
      have h3 : 2 * (d / 2) + 1 < L.num_features := by omega
      simp only [den, rightP, if_pos h3] at h2
      rcases Nat.mod_two_eq_zero_or_one d with hm | hm
      · have := left_ne_zero_of_mul h2
        rwa [show 2 * (d / 2) = d by omega] at this
      · have := right_ne_zero_of_mul h2
        rwa [show 2 * (d / 2) + 1 = d by omega] at this
  | einsum L hL hf hS hO' hR hD hE =>
    have hO : EinsumLayer.numFeaturesOut L = L.num_features / 2 := rfl
    have hw := fun n (hn : n < N) d (hd : d < EinsumLayer.numFeaturesOut L) =>
      L.lwEin_fin hL hf hS hT hd (hctx.io_lt n hn d hd) (hctx.ir_lt n hn)
    refine (EinsumLayer.selectWeights_is hL hctx).bind fun lw hlw => ?_
    have hel : ∀ n, n < N → ∀ d, d < EinsumLayer.numFeaturesOut L → ∀ k, k < L.num_sums_in →
        NN (e n (2 * d) k (rr n)) := fun n hn d hd k hk => he n hn (2 * d) (by omega) k hk
    have her : ∀ n, n < N → ∀ d, d < EinsumLayer.numFeaturesOut L → ∀ k, k < L.num_sums_in →
        NN (e n (2 * d + 1) k (rr n)) := fun n hn d hd k hk => he n hn (2 * d + 1) (by omega) k hk
    have heq : ∀ n, n < N → ∀ d, d < EinsumLayer.numFeaturesOut L → ∀ k, k < L.num_sums_in ^ 2 →
        toP (e n (2 * d) (k / L.num_sums_in) (rr n) + e n (2 * d + 1) (k % L.num_sums_in) (rr n)) =
          (Layer.einsum L).ev (pRow (e n)) d k (rr n) := fun n hn d hd k hk => by
      rw [toP_add (hel n hn d hd _ (Nat.div_lt_of_lt_mul (by rwa [← pow_two]))) (her n hn d hd _ (Nat.mod_lt _ hS))]; rfl
    rcases hev with ⟨rfl, hz⟩ | ⟨l', r', rfl, hl, hr⟩
    · refine Res.Sat.ok ?_
      have : ∀ n d k, (Layer.einsum L).ev (pRow (e n)) d k (rr n) = toP (Fl.fin 0) := by
        intro n d k
        simp [ev, pRow, hz]
      simp only [this]
      exact ⟨_, weighted_of_is hlw (fun n hn d hd k hk => NN_of_isFin ((hw n hn d hd).1 k hk))
        fun n hn d hd => (hw n hn d hd).2⟩
    · refine (EinsumLayer.condition_is hctx hl hr hlw (fun n hn d hd k hk => NN_of_isFin ((hw n hn d hd).1 k hk)) hel
        her ?_).mono fun W ⟨g, hg⟩ => ⟨g, ?_⟩
      · intro n hn d hd
        rw [Finset.sum_congr rfl fun k hk => by rw [heq n hn d hd k (by simpa using hk)]]
        exact h0 n hn d hd
      · exact hg.congr fun n hn d hd k hk => by rw [heq n hn d hd k hk]; rfl
  | rootProduct => simp [isSum] at hs

theorem rootProduct_sample {F R N S : Nat} {ctx : Ctx} {idx : Nat → Nat → Nat} {rr : Nat → Nat}
    (h : CtxOK ctx N 1 S R idx rr) :
    Res.Sat (RootProductLayer.sample F ctx) fun c => c = { ctx with indices_out := c.indices_out } ∧
      c.indices_out.Is2 N F fun n _ => idx n 0 := by
  have h1 : ctx.indices_out.shape = [N, 1] := h.io.1
  refine Res.Sat.require (by simp [rank, h1]) (Res.Sat.pure ⟨rfl, ?_⟩)
  refine ⟨by simp [h1, size, at', setAt], ?_⟩
  simp only [AllIdx_cons, AllIdx_nil]
  intro n hn d hd
  simp only [size, h1, at', setAt, Nat.mod_one]
  exact h.io.get hn (by omega)

/-- Law of `layer.sample`: for any test function `u` on the chosen input channels. -/
theorem sample_E {l : Layer} {Di Si Do So R : Nat} (h : WF l Di Si Do So R) {ctx : Ctx} {N : Nat} (hN : 0 < N)
    (hm : ctx.is_mpe = false)
    {idx : Nat → Nat → Nat} {rr : Nat → Nat} (hctx : CtxOK ctx N Do So R idx rr) (hT : ctx.temperature_sums ≠ 0)
    {cache : Option Cache} {e : Nat → Row} (hev : l.EvOK N cache e)
    (he : ∀ n, n < N → ∀ d, d < Di → ∀ k, k < Si → NN (e n d k (rr n)))
    (h0 : ∀ n, n < N → ∀ d, d < Do → l.den ctx.temperature_sums (pRow (e n)) d (idx n d) (rr n) ≠ 0)
    (u : Nat → Nat → Nat → ℝ≥0∞) :
    (l.sample cache ctx).E (fun c => prod2 N Di fun n d => u n d (c.indices_out.get [n, d])) =
      prod2 N Do fun n d => l.den ctx.temperature_sums (fun d k r => u n d k * pRow (e n) d k r) d (idx n d) (rr n) /
        l.den ctx.temperature_sums (pRow (e n)) d (idx n d) (rr n) := by
  by_cases hs : l.isSum = true
  · rw [sample_eq h hs]
    have := absSample_E (F := fun o => prod2 N Di fun n d => u n d (o.get [n, d]))
      (f := fun n d k => l.ev (fun d k _ => u n d k) d k (rr n)) hctx.check hm (choices_pos h)
      (weights_is h hs hctx hT hev he h0) (post := l.pst) (fun ix hix hc => ?_)
    · rw [this]
      refine Finset.prod_congr rfl fun n hn => ?_
      have hn' : n < N := by simpa using hn
      have := prod_den h hs ctx.temperature_sums (pRow (e n)) (fun d k r => u n d k * pRow (e n) d k r) (idx n) (rr n)
        (h0 n hn')
      rw [← this]
      refine Finset.prod_congr rfl fun d hd => ?_
      dsimp only
      congr 1
      refine Finset.sum_congr rfl fun k _ => ?_
      rw [ev_mul l (fun d k _ => u n d k) (pRow (e n))]
      ring
    · refine (post_is h hs hN hctx.ns hix hc).mono fun o ho => ?_
      refine Finset.prod_congr rfl fun n hn => ?_
      have hn' : n < N := by simpa using hn
      rw [← prod_child h hs (fun d k _ => u n d k) (rr n) (fun d => ix.get [n, d])]
      refine Finset.prod_congr rfl fun d hd => ?_
      dsimp only
      rw [ho.get hn' (by simpa using hd)]
  · cases h with
    | rootProduct =>
      obtain ⟨c, hc, -, h2⟩ := rootProduct_sample (F := Di) hctx
      simp only [sample, hc, Rand.lift_ok, Rand.E_pure]
      refine Finset.prod_congr rfl fun n hn => ?_
      have hn' : n < N := by simpa using hn
      have h00 := h0 n hn' 0 (by omega)
      simp only [den] at h00 ⊢
      rw [Finset.prod_range_one, Finset.prod_mul_distrib, mul_div_assoc, ENNReal.div_self h00, mul_one]
      · exact Finset.prod_congr rfl fun d hd => by rw [h2.get hn' (by simpa using hd)]
      · exact ENNReal.prod_ne_top fun d hd =>
          (he n hn' d (by simpa using hd) _ (hctx.io_lt n hn' 0 (by omega))).ne_top
    | _ => simp [isSum] at hs

/-- Outcomes of `layer.sample`, sampling or MPE: it does not raise, chosen channels exist and are possible under the
evidence, only `indices_out` changes. For MPE every choice is a most probable one. -/
theorem sample_All {l : Layer} {Di Si Do So R : Nat} (h : WF l Di Si Do So R) {ctx : Ctx} {N : Nat} (hN : 0 < N)
    {idx : Nat → Nat → Nat} {rr : Nat → Nat} (hctx : CtxOK ctx N Do So R idx rr) (hT : ctx.temperature_sums ≠ 0)
    {cache : Option Cache} {e : Nat → Row} (hev : l.EvOK N cache e)
    (he : ∀ n, n < N → ∀ d, d < Di → ∀ k, k < Si → NN (e n d k (rr n)))
    (h0 : ∀ n, n < N → ∀ d, d < Do → l.den ctx.temperature_sums (pRow (e n)) d (idx n d) (rr n) ≠ 0) :
    (l.sample cache ctx).All fun c => c = { ctx with indices_out := c.indices_out } ∧
      ∃ idx' ch : Nat → Nat → Nat, CtxOK c N Di Si R idx' rr ∧
        (∀ n, n < N → ∀ d, d < Di → toP (e n d (idx' n d) (rr n)) ≠ 0) ∧
        (if l.isSum = true then
          (∀ n, n < N → ∀ d, d < l.draws → ch n d < l.choices) ∧ (∀ n, n < N → ∀ d, d < Di → idx' n d = l.child (ch n) d) ∧
          (ctx.is_mpe = true → ∀ n, n < N → ∀ d, d < l.draws → ∀ k, k < l.choices →
            toP (l.lwt ctx.temperature_sums d (idx n (l.par d)) (rr n) k) * l.ev (pRow (e n)) d k (rr n) ≤
            toP (l.lwt ctx.temperature_sums d (idx n (l.par d)) (rr n) (ch n d)) * l.ev (pRow (e n)) d (ch n d) (rr n))
        else ∀ n, n < N → ∀ d, d < Di → idx' n d = idx n 0) := by
  by_cases hs : l.isSum = true
  · rw [sample_eq h hs]
    refine absSample_All hctx.check (choices_pos h) (weights_is h hs hctx hT hev he h0) fun ix hix hc => ?_
    refine (post_is h hs hN hctx.ns hix fun n hn d hd => (hc n hn d hd).1).mono fun o ho => ⟨rfl, ?_⟩
    refine ⟨fun n => l.child fun d => ix.get [n, d], fun n d => ix.get [n, d], ⟨hctx.ns, ho, ?_, hctx.ir, hctx.ir_lt⟩, ?_, ?_⟩
    · exact fun n hn d hd => child_lt h hs (fun d hd => (hc n hn d hd).1) hd
    · exact fun n hn d hd => child_ne_zero h hs (u := pRow (e n))
        (fun d hd => right_ne_zero_of_mul (hc n hn d hd).2.1) hd
    · rw [if_pos hs]
      exact ⟨fun n hn d hd => (hc n hn d hd).1, fun n hn d hd => rfl, fun hm n hn d hd => (hc n hn d hd).2.2 hm⟩
  · cases h with
    | rootProduct =>
      refine Rand.All.lift ((rootProduct_sample (F := Di) hctx).mono fun c ⟨h1, h2⟩ => ⟨h1, ?_⟩)
      refine ⟨fun n _ => idx n 0, fun _ _ => 0, ⟨by rw [h1]; exact hctx.ns, h2, fun n hn d hd => hctx.io_lt n hn 0 (by omega),
        by rw [h1]; exact hctx.ir, hctx.ir_lt⟩, ?_, ?_⟩
      · intro n hn d hd
        exact Finset.prod_ne_zero_iff.1 (h0 n hn 0 (by omega)) d (by simpa using hd)
      · rw [if_neg (by simp [isSum])]; exact fun n hn d hd => rfl
    | _ => simp [isSum] at hs

theorem disc_sample (l : Layer) (cache : Option Cache) (ctx : Ctx) : (l.sample cache ctx).Disc := by
  cases l with
  | sum L => simp only [sample, SumLayer.sample]; exact disc_absSample _ _ _ _ _ _
  | linsum L => simp only [sample, LinsumLayer.sample]; exact disc_absSample _ _ _ _ _ _
  | linsum2 L => simp only [sample, LinsumLayer2.sample]; exact disc_absSample _ _ _ _ _ _
  | einsum L => simp only [sample, EinsumLayer.sample]; exact disc_absSample _ _ _ _ _ _
  | rootProduct F R => exact Rand.Disc.lift

end Layer
end Einet
