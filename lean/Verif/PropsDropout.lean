import Verif.Dropout
import Verif.LayerLaw

/-!
# C25: dropout
-/

open Classical
open scoped ENNReal
noncomputable section
namespace Einet
open Tensor

/-! ### The resampling loop -/

theorem maskedAssign_shape {t m t' : Tensor Bool} {f : List Nat → Bool} (h : maskedAssign t m f = .ok t') : t'.shape = t.shape := by
  unfold maskedAssign at h
  by_cases hp : m.shape <+: t.shape
  · rw [require_true _ hp, Res.ok_bind, Res.pure_eq, Except.ok.injEq] at h
    rw [← h]
  · rw [require_false _ hp] at h
    cases h

/-- what the loop returns has the shape of the mask and passes the test. -/
theorem dropoutLoop_some {d : Nat} {draw : Nat → List Nat → Bool} {fuel k : Nat} {t m : Tensor Bool}
    (h : dropoutLoop d draw fuel k t = .ok (some m)) : m.shape = t.shape ∧ ¬ anyTrue (allDropped d m) := by
  induction fuel generalizing k t with
  | zero => cases h
  | succ fuel ih =>
    unfold dropoutLoop at h
    split_ifs at h with ha
    · cases hm : maskedAssign t (allDropped d t) (draw k) with
      | error e => rw [hm] at h; cases h
      | ok t' =>
        rw [hm] at h
        obtain ⟨h1, h2⟩ := ih h
        exact ⟨h1.trans (maskedAssign_shape hm), h2⟩
    · injection h with h
      injection h with h
      subst h
      exact ⟨rfl, ha⟩

/-- if the loop tests the last dimension it never raises. -/
theorem dropoutLoop_ok {d : Nat} {draw : Nat → List Nat → Bool} (fuel k : Nat) (t : Tensor Bool)
    (hd : delAt d t.shape <+: t.shape) : ∃ r, dropoutLoop d draw fuel k t = .ok r := by
  induction fuel generalizing k t with
  | zero => exact ⟨_, rfl⟩
  | succ fuel ih =>
    unfold dropoutLoop
    split_ifs with ha
    · have : maskedAssign t (allDropped d t) (draw k) = .ok ⟨t.shape, fun i =>
          if (allDropped d t).get (i.take (allDropped d t).rank) = true then draw k i else t.get i⟩ := by
        unfold maskedAssign
        rw [require_true _ (show (allDropped d t).shape <+: t.shape from hd)]
        rfl
      rw [this]
      exact ih (k + 1) _ hd
    · exact ⟨_, rfl⟩

/-- a round in which nothing is dropped ends the loop. -/
theorem dropoutLoop_ends {a b c e : Nat} (he : 0 < e) {draw : Nat → List Nat → Bool} {k j : Nat} (hkj : k ≤ j)
    (hz : ∀ i, draw j i = false) (t : Tensor Bool) (ht : t.shape = [a, b, c, e]) :
    ∃ m, dropoutLoop 3 draw (j - k + 2) k t = .ok (some m) := by
  obtain ⟨n, hn⟩ : ∃ n, j - k = n := ⟨_, rfl⟩
  induction n generalizing k t with
  | zero =>
    obtain rfl : k = j := by omega
    rw [Nat.sub_self]
    unfold dropoutLoop
    split_ifs with ha
    · have hm : maskedAssign t (allDropped 3 t) (draw k) = .ok ⟨t.shape, fun i =>
          if (allDropped 3 t).get (i.take (allDropped 3 t).rank) = true then draw k i else t.get i⟩ := by
        unfold maskedAssign
        rw [require_true _ (show (allDropped 3 t).shape <+: t.shape by simp [allDropped, ht, delAt])]
        rfl
      rw [hm]
      show ∃ m, dropoutLoop 3 draw 1 (k + 1) _ = _
      unfold dropoutLoop
      rw [if_neg]
      · exact ⟨_, rfl⟩
      · rintro ⟨i, hi, hall⟩
        simp only [allDropped, ht, delAt, size, at', decide_eq_true_eq] at hi hall
        match i, hi with
        | [i0, i1, i2], _ =>
          by_cases hd : ∀ k, k < e → t.get [i0, i1, i2, k] = true
          · have := hall 0 he
            rw [if_pos] at this
            · rw [hz] at this; cases this
            · simpa [allDropped, ht, delAt, insAt, size, at', rank] using hd
          · refine hd fun q hq => ?_
            have := hall q hq
            rw [if_neg] at this
            · simpa [insAt] using this
            · simpa [allDropped, ht, delAt, insAt, size, at', rank] using hd
    · exact ⟨_, rfl⟩
  | succ n ih =>
    rw [show j - k + 2 = (j - (k + 1) + 2) + 1 by omega]
    unfold dropoutLoop
    split_ifs with ha
    · have hm : maskedAssign t (allDropped 3 t) (draw k) = .ok ⟨t.shape, fun i =>
          if (allDropped 3 t).get (i.take (allDropped 3 t).rank) = true then draw k i else t.get i⟩ := by
        unfold maskedAssign
        rw [require_true _ (show (allDropped 3 t).shape <+: t.shape by simp [allDropped, ht, delAt])]
        rfl
      rw [hm]
      exact ih (by omega) _ ht (by omega)
    · exact ⟨_, rfl⟩

/-! ### Masks and layers -/

/-- entry of `log(1 - dropout_indices)`. -/
def keepLog (b : Bool) : Fl := if b = true then .ninf else .fin 0

theorem logKeep_get (t : Tensor Bool) (i : List Nat) : (logKeep t).get i = keepLog (t.get i) := by
  show Fl.log _ = _
  unfold keepLog
  cases t.get i
  · show Fl.log (Fl.fin (1 - 0)) = _
    simp [Fl.log]
  · show Fl.log (Fl.fin (1 - 1)) = _
    simp [Fl.log]

theorem keepLog_nn (b : Bool) : NN (keepLog b) := by unfold keepLog; split_ifs <;> trivial

theorem add_keepLog (x : Fl) (b : Bool) (hx : x.IsFin) : x + keepLog b = if b = true then .ninf else x := by
  obtain ⟨r, rfl⟩ := hx
  unfold keepLog
  split_ifs
  · rfl
  · show Fl.fin (r + 0) = _
    rw [add_zero]

/-- a weighted sum with at least one finite child is finite. -/
theorem lse_isFin {n : Nat} {y w : Nat → Fl} (hy : ∀ k, k < n → NN (y k)) (hw : ∀ k, k < n → (w k).IsFin)
    (h : ∃ k, k < n ∧ (y k).IsFin) : (Fl.lse n fun k => y k + w k).IsFin := by
  have nn : ∀ k, k < n → NN (y k + w k) := fun k hk => (hy k hk).add (NN_of_isFin (hw k hk))
  refine (NN_lse nn).isFin ?_
  rw [toP_lse nn]
  obtain ⟨k, hk, hf⟩ := h
  intro h0
  have := Finset.sum_eq_zero_iff.1 h0 k (by simpa using hk)
  rw [toP_add (hy k hk) (NN_of_isFin (hw k hk))] at this
  rcases mul_eq_zero.1 this with h1 | h1
  · exact toP_ne_zero hf h1
  · exact toP_ne_zero (hw k hk) h1

/-- a weighted sum without children is minus infinity. -/
theorem lse_ninf {n : Nat} {y w : Nat → Fl} (hy : ∀ k, k < n → y k = .ninf) (hw : ∀ k, k < n → (w k).IsFin) :
    (Fl.lse n fun k => y k + w k) = .ninf := by
  have nn : ∀ k, k < n → NN (y k + w k) := fun k hk => by
    rw [hy k hk]; exact NN_ninf.add (NN_of_isFin (hw k hk))
  refine toP_injective (NN_lse nn) NN_ninf ?_
  rw [toP_lse nn, toP_ninf]
  refine Finset.sum_eq_zero fun k hk => ?_
  have hk' : k < n := by simpa using hk
  rw [hy k hk', toP_add NN_ninf (NN_of_isFin (hw k hk')), toP_ninf, zero_mul]

theorem add_mask_is {x : Tensor Fl} {m : Tensor Bool} {a b c e : Nat} (hx : x.shape = [a, b, c, e]) (hm : m.shape = [a, b, c, e]) :
    Res.Sat (x.add (logKeep m)) fun y => y.Is4 a b c e fun i j k l => x.get [i, j, k, l] + keepLog (m.get [i, j, k, l]) := by
  have hm' : (logKeep m).shape = [a, b, c, e] := hm
  refine (zipWith_is _ (Is.refl x hx) (Is.refl _ hm') (by simp) (by simp [bshape]; rfl)).mono fun y hy => ?_
  refine hy.is4 ?_
  intro i hi j hj k hk l hl
  simp [clipAll, clip_of_lt, hi, hj, hk, hl, logKeep_get]

/-- masking the input first gives the same output. -/
theorem SumLayer.forward_mask (L : SumL) (m x : Tensor Fl) :
    SumLayer.forward L (some m) x = (x.add m).bind fun x' => (SumLayer.forward L none x').map fun y => (y.1, Cache.one x) := by
  unfold SumLayer.forward
  simp only [applyMask]
  cases x.add m with
  | error e => rfl
  | ok x' =>
    simp only [Res.ok_bind, Except.bind]
    cases logitsToLogWeights L.logits 1 with
    | error e => rfl
    | ok lw =>
      simp only [Res.ok_bind]
      cases lw.unsqueeze 0 with
      | error e => rfl
      | ok lw =>
        simp only [Res.ok_bind]
        cases x'.unsqueeze 3 with
        | error e => rfl
        | ok x3 =>
          simp only [Res.ok_bind]
          cases x3.add lw with
          | error e => rfl
          | ok t =>
            simp only [Res.ok_bind]
            cases t.logsumexp 2 with
            | error e => rfl
            | ok lls =>
              simp only [Res.ok_bind]
              by_cases h : lls.shape = [x3.size 0, x3.size 1, L.num_sums_out, L.num_repetitions]
              · rw [require_true _ h]; rfl
              · rw [require_false _ h]; rfl

theorem MixingLayer.forward_mask (L : SumL) (m x : Tensor Fl) :
    MixingLayer.forward L (some m) x = (x.add m).bind fun x' => (MixingLayer.forward L none x').map fun y => (y.1, Cache.one x) := by
  unfold MixingLayer.forward
  simp only [applyMask]
  cases x.add m with
  | error e => rfl
  | ok x' =>
    simp only [Res.ok_bind, Except.bind]
    cases logitsToLogWeights L.logits 2 with
    | error e => rfl
    | ok lw =>
      simp only [Res.ok_bind]
      cases lw.unsqueeze 0 with
      | error e => rfl
      | ok lw =>
        simp only [Res.ok_bind]
        cases x'.add lw with
        | error e => rfl
        | ok t =>
          simp only [Res.ok_bind]
          cases t.logsumexp 3 with
          | error e => rfl
          | ok lls => rfl

theorem LinsumLayer.forward_mask_is {L : SumL} (hL : L.logits.shape = LinsumLayer.weightShape L) (hD : 2 ≤ L.num_features)
    {x : Tensor Fl} {N : Nat} {f : Nat → Row} (hx : x.Is4 N L.num_features L.num_sums_in L.num_repetitions f)
    {m : Tensor Bool} (hm : m.shape = [N, LinsumLayer.numFeaturesOut L, L.num_sums_in, 1, L.num_repetitions]) :
    Res.Sat (LinsumLayer.forward L (some (logKeep m)) x) fun y =>
      y.1.Is4 N (LinsumLayer.numFeaturesOut L) L.num_sums_out L.num_repetitions fun n d s r =>
        Fl.lse L.num_sums_in fun k => f n (2 * d) k r + rightChild L.num_features (f n) d k r +
          keepLog (m.get [n, d, k, 0, r]) + L.lw 1 d k s r := by
  have hm' : (logKeep m).shape = [N, LinsumLayer.numFeaturesOut L, L.num_sums_in, 1, L.num_repetitions] := hm
  refine Res.Sat.require (by simp [rank, hx.1]) ?_
  refine slices_is hD hx fun left right hl hr => ?_
  refine (zipWith_is _ hl hr (by simp) (by simp [bshape]; rfl)).bind fun p hp => ?_
  refine (unsqueeze_is hp (by simp)).bind fun p' hp' => ?_
  refine (zipWith_is _ hp' (Is.refl _ hm') (by simp [insAt])
    (by simp [insAt, bshape, LinsumLayer.numFeaturesOut, LinsumLayer.pad]; rfl)).bind fun p'' hp'' => ?_
  refine (logitsToLogWeights_is (Is.refl _ hL) (by simp [LinsumLayer.weightShape])).bind fun w hw => ?_
  refine (unsqueeze_is hw (by simp [LinsumLayer.weightShape])).bind fun w' hw' => ?_
  refine (zipWith_is _ hp'' hw' (by simp [insAt, LinsumLayer.weightShape])
    (by simp [insAt, LinsumLayer.weightShape, bshape, LinsumLayer.numFeaturesOut, LinsumLayer.pad]; rfl)).bind fun y hy => ?_
  refine (logsumexp_is hy (by simp)).bind fun z hz => ?_
  refine Res.Sat.pure (hz.is4 ?_)
  intro n hn d hd s hs r hr
  refine Fl.lse_congr fun k hk => ?_
  simp [insAt, delAt, clipAll, at', setAt, SumL.lw, LinsumLayer.weightShape] at hk ⊢
  simp [clip_of_lt, hn, hs, hr, hk, show d < (L.num_features + L.num_features % 2) / 2 from hd,
    show d < LinsumLayer.numFeaturesOut L from hd, logKeep_get]

theorem LinsumLayer2.forward_mask (L : SumL) (m x : Tensor Fl) :
    LinsumLayer2.forward L (some m) x = (LinsumLayer2.forward L none x).bind fun y => (y.1.add m).map fun z => (z, y.2) := by
  unfold LinsumLayer2.forward
  simp only [applyMask]
  cases logitsToLogWeights L.logits 1 with
  | error e => rfl
  | ok lw =>
    simp only [Res.ok_bind]
    cases lw.unsqueeze 0 with
    | error e => rfl
    | ok lw =>
      simp only [Res.ok_bind]
      cases x.unsqueeze 3 with
      | error e => rfl
      | ok x3 =>
        simp only [Res.ok_bind]
        cases x3.add lw with
        | error e => rfl
        | ok t =>
          simp only [Res.ok_bind]
          cases t.logsumexp 2 with
          | error e => rfl
          | ok so =>
            simp only [Res.ok_bind]
            cases so.slice 1 0 2 with
            | error e => rfl
            | ok l =>
              simp only [Res.ok_bind]
              cases so.slice 1 1 2 with
              | error e => rfl
              | ok r =>
                simp only [Res.ok_bind]
                cases LinsumLayer.padRight (LinsumLayer2.pad L) r with
                | error e => rfl
                | ok r =>
                  simp only [Res.ok_bind]
                  cases l.add r with
                  | error e => rfl
                  | ok p =>
                    simp only [Res.ok_bind, Except.bind, Res.pure_eq]
                    cases p.add m <;> rfl

namespace Props

/-- every entry of a tensor is finite. -/
def AllFinite (t : Tensor Fl) : Prop := ∀ i, InB t.shape i → (t.get i).IsFin

/-- after dropping, every group of children along dimension `d` has one left. -/
def KeepsChild (d : Nat) (m : Tensor Bool) : Prop :=
  ∀ j, InB (delAt d m.shape) j → ∃ k, k < m.size d ∧ m.get (insAt d k j) = false

/-- **C25**, the loop: whatever is drawn, when the loop ends every group of children along the tested dimension has one left. -/
theorem C25_loop {d : Nat} {s : List Nat} {draw : Nat → List Nat → Bool} {fuel : Nat} {m : Tensor Bool}
    (h : dropoutMask d s draw fuel = .ok (some m)) : m.shape = s ∧ KeepsChild d m := by
  obtain ⟨h1, h2⟩ := dropoutLoop_some h
  refine ⟨h1, fun j hj => ?_⟩
  by_contra hn
  push Not at hn
  refine h2 ⟨j, hj, ?_⟩
  simp only [allDropped, decide_eq_true_eq]
  exact fun k hk => by simpa using hn k hk

/-- **C25**, mixing layers: whatever is drawn the call does not raise, and when it returns all outputs are finite. -/
theorem C25_mixing {L : SumL} (hL : L.logits.shape = MixingLayer.weightShape L) (hf : L.FinLogits) {x : Tensor Fl} {N : Nat}
    (hx : x.shape = [N, L.num_features, L.num_sums_out, L.num_sums_in]) (hS : 0 < L.num_sums_in) (hfin : AllFinite x) (p : ℝ)
    (draw : Nat → List Nat → Bool) (fuel : Nat) :
    ∃ r, MixingLayer.train L p draw fuel x = .ok r ∧ ∀ y, r = some y →
      y.1.shape = [N, L.num_features, L.num_sums_out] ∧ AllFinite y.1 := by
  have hfin' : ∀ i j k l, i < N → j < L.num_features → k < L.num_sums_out → l < L.num_sums_in → (x.get [i, j, k, l]).IsFin :=
    fun i j k l h1 h2 h3 h4 => hfin _ (by rw [hx]; exact ⟨h1, h2, h3, h4, trivial⟩)
  have key : ∀ (x' : Tensor Fl) (f : Nat → Row), x'.Is4 N L.num_features L.num_sums_out L.num_sums_in f →
      (∀ n, n < N → ∀ d, d < L.num_features → ∀ s, s < L.num_sums_out → (∀ k, k < L.num_sums_in → NN (f n d s k)) ∧
        ∃ k, k < L.num_sums_in ∧ (f n d s k).IsFin) →
      ∃ y, MixingLayer.forward L none x' = .ok y ∧ y.1.shape = [N, L.num_features, L.num_sums_out] ∧ AllFinite y.1 := by
    intro x' f hx' hf'
    obtain ⟨y, hy, hy3, -⟩ := MixingLayer.forward_is hL hx'
    refine ⟨y, hy, hy3.1, fun i hi => ?_⟩
    rw [hy3.1] at hi
    match i, hi with
    | [n, d, s], hi =>
      obtain ⟨hn, hd, hs, -⟩ := hi
      rw [hy3.get hn hd hs]
      obtain ⟨h1, h2⟩ := hf' n hn d hd s hs
      exact lse_isFin h1 (L.lwMix_fin hL hf hS one_ne_zero hd hs).1 h2
  unfold MixingLayer.train trainForward
  split_ifs with hp
  · obtain ⟨r, hr⟩ := dropoutLoop_ok (d := 3) (draw := draw) fuel 1 ⟨x.shape, draw 0⟩ (by simp [hx, delAt])
    unfold dropoutMask
    rw [hr]
    cases r with
    | none => exact ⟨none, rfl, by simp⟩
    | some m =>
      obtain ⟨hm, hk⟩ := C25_loop hr
      have hm' := hm.trans hx
      obtain ⟨x', hx', h4⟩ := add_mask_is hx hm'
      obtain ⟨y, hy, hs, hall⟩ := key x' _ h4 (fun n hn d hd s hs => by
        refine ⟨fun k hk => (NN_of_isFin (hfin' n d s k hn hd hs hk)).add (keepLog_nn _), ?_⟩
        obtain ⟨k, hk1, hk2⟩ := hk [n, d, s] (by rw [hm']; exact ⟨hn, hd, hs, trivial⟩)
        have hk1' : k < L.num_sums_in := by simpa [size, hm', at'] using hk1
        refine ⟨k, hk1', ?_⟩
        rw [add_keepLog _ _ (hfin' n d s k hn hd hs hk1'), if_neg (by simpa [insAt] using hk2)]
        exact hfin' n d s k hn hd hs hk1')
      refine ⟨some (y.1, Cache.one x), ?_, fun z hz => ?_⟩
      · show (MixingLayer.forward L (some (logKeep m)) x).map some = _
        rw [MixingLayer.forward_mask, hx']
        show ((MixingLayer.forward L none x').map _).map some = _
        rw [hy]
        rfl
      · injection hz with hz
        subst hz
        exact ⟨hs, hall⟩
  · obtain ⟨y, hy, hs, hall⟩ := key x _ (Is4.refl x hx) (fun n hn d hd s hs =>
      ⟨fun k hk => NN_of_isFin (hfin' n d s k hn hd hs hk), 0, hS, hfin' n d s 0 hn hd hs hS⟩)
    refine ⟨some y, by dsimp only; rw [hy]; rfl, fun z hz => ?_⟩
    injection hz with hz
    subst hz
    exact ⟨hs, hall⟩

/-- **C25**, mixing layers: a round in which nothing is dropped ends the loop. -/
theorem C25_mixing_ends {L : SumL} {x : Tensor Fl} {N : Nat} (hx : x.shape = [N, L.num_features, L.num_sums_out, L.num_sums_in])
    (hL : L.logits.shape = MixingLayer.weightShape L) (hf : L.FinLogits) (hS : 0 < L.num_sums_in) (hfin : AllFinite x) (p : ℝ)
    (draw : Nat → List Nat → Bool) (j : Nat) (hj : 1 ≤ j) (hz : ∀ i, draw j i = false) :
    ∃ fuel y, MixingLayer.train L p draw fuel x = .ok (some y) := by
  obtain ⟨m, hm⟩ := dropoutLoop_ends hS hj hz ⟨x.shape, draw 0⟩ hx
  obtain ⟨r, hr, -⟩ := C25_mixing hL hf hx hS hfin p draw (j - 1 + 2)
  refine ⟨j - 1 + 2, ?_⟩
  cases r with
  | some y => exact ⟨y, hr⟩
  | none =>
    exfalso
    unfold MixingLayer.train trainForward dropoutMask at hr
    split_ifs at hr
    · rw [hm] at hr
      change (MixingLayer.forward L (some (logKeep m)) x).map some = _ at hr
      cases he : MixingLayer.forward L (some (logKeep m)) x with
      | error e => rw [he] at hr; cases hr
      | ok v => rw [he] at hr; cases hr
    · dsimp only at hr
      cases he : MixingLayer.forward L none x with
      | error e => rw [he] at hr; cases hr
      | ok v => rw [he] at hr; cases hr

theorem isFin_add {a b : Fl} (ha : a.IsFin) (hb : b.IsFin) : (a + b).IsFin := by
  obtain ⟨r, rfl⟩ := ha
  obtain ⟨q, rfl⟩ := hb
  exact ⟨r + q, rfl⟩

theorem allFinite4 {y : Tensor Fl} {a b c e : Nat} {f : Nat → Row} (h : y.Is4 a b c e f)
    (hf : ∀ i, i < a → ∀ j, j < b → ∀ k, k < c → ∀ l, l < e → (f i j k l).IsFin) : AllFinite y := by
  intro i hi
  rw [h.1] at hi
  match i, hi with
  | [n, d, s, r], hi =>
    obtain ⟨hn, hd, hs, hr, -⟩ := hi
    rw [h.get hn hd hs hr]
    exact hf n hn d hd s hs r hr

/-- **C25**, ordinary sum layers: the loop tests the wrong dimension.  An output is finite exactly if one of its children is kept,
which the loop does not ensure. -/
theorem C25_sum_iff {L : SumL} (hL : L.logits.shape = SumLayer.weightShape L) (hf : L.FinLogits) {x : Tensor Fl} {N : Nat}
    (hx : x.shape = [N, L.num_features, L.num_sums_in, L.num_repetitions]) (hS : 0 < L.num_sums_in) (hfin : AllFinite x) {p : ℝ}
    (hp : 0 < p) (draw : Nat → List Nat → Bool) (fuel : Nat) :
    ∃ o, dropoutMask 3 x.shape draw fuel = .ok o ∧
      (o = none → SumLayer.train L p draw fuel x = .ok none) ∧
      ∀ m, o = some m → ∃ y, SumLayer.train L p draw fuel x = .ok (some y) ∧
        y.1.shape = [N, L.num_features, L.num_sums_out, L.num_repetitions] ∧
        ∀ n, n < N → ∀ d, d < L.num_features → ∀ s, s < L.num_sums_out → ∀ r, r < L.num_repetitions →
          ((∃ k, k < L.num_sums_in ∧ m.get [n, d, k, r] = false) → (y.1.get [n, d, s, r]).IsFin) ∧
          ((∀ k, k < L.num_sums_in → m.get [n, d, k, r] = true) → y.1.get [n, d, s, r] = .ninf) := by
  have hfin' : ∀ i j k l, i < N → j < L.num_features → k < L.num_sums_in → l < L.num_repetitions → (x.get [i, j, k, l]).IsFin :=
    fun i j k l h1 h2 h3 h4 => hfin _ (by rw [hx]; exact ⟨h1, h2, h3, h4, trivial⟩)
  obtain ⟨o, ho⟩ := dropoutLoop_ok (d := 3) (draw := draw) fuel 1 ⟨x.shape, draw 0⟩ (by simp [hx, delAt])
  have ho' : dropoutMask 3 x.shape draw fuel = .ok o := ho
  refine ⟨o, ho', ?_, ?_⟩
  · rintro rfl
    unfold SumLayer.train trainForward
    rw [if_pos hp, ho']
    rfl
  · rintro m rfl
    obtain ⟨hm, -⟩ := C25_loop ho'
    obtain ⟨x', hx', h4⟩ := add_mask_is hx (hm.trans hx)
    obtain ⟨y, hy, hy4, -⟩ := SumLayer.forward_is hL h4
    refine ⟨(y.1, Cache.one x), ?_, hy4.1, ?_⟩
    · unfold SumLayer.train trainForward
      rw [if_pos hp, ho']
      show (SumLayer.forward L (some (logKeep m)) x).map some = _
      rw [SumLayer.forward_mask, hx']
      show ((SumLayer.forward L none x').map _).map some = _
      rw [hy]
      rfl
    · intro n hn d hd s hs r hr
      have hw := (L.lw_fin hL hf hS one_ne_zero hd hs hr).1
      dsimp only
      rw [hy4.get hn hd hs hr]
      constructor
      · rintro ⟨k, hk, hk'⟩
        refine lse_isFin (fun k hk => (NN_of_isFin (hfin' n d k r hn hd hk hr)).add (keepLog_nn _)) hw ⟨k, hk, ?_⟩
        dsimp only
        rw [add_keepLog _ _ (hfin' n d k r hn hd hk hr), if_neg (by simp [hk'])]
        exact hfin' n d k r hn hd hk hr
      · intro hall
        refine lse_ninf (fun k hk => ?_) hw
        dsimp only
        rw [add_keepLog _ _ (hfin' n d k r hn hd hk hr), if_pos (hall k hk)]

/-- **C25**, ordinary sum layers with one repetition: whatever is drawn, nothing stays dropped and the outputs are finite.  With more
repetitions the claim fails (`C25_refuted_sum`). -/
theorem C25_sum_partial {L : SumL} (hL : L.logits.shape = SumLayer.weightShape L) (hf : L.FinLogits) {x : Tensor Fl} {N : Nat}
    (hx : x.shape = [N, L.num_features, L.num_sums_in, L.num_repetitions]) (hS : 0 < L.num_sums_in) (hfin : AllFinite x) (p : ℝ)
    (hR : L.num_repetitions = 1) (draw : Nat → List Nat → Bool) (fuel : Nat) :
    ∃ o, SumLayer.train L p draw fuel x = .ok o ∧ ∀ y, o = some y →
      y.1.shape = [N, L.num_features, L.num_sums_out, L.num_repetitions] ∧ AllFinite y.1 := by
  by_cases hp : 0 < p
  · obtain ⟨o, ho, h1, h2⟩ := C25_sum_iff hL hf hx hS hfin hp draw fuel
    cases o with
    | none => exact ⟨none, h1 rfl, by simp⟩
    | some m =>
      obtain ⟨y, hy, hsh, hall⟩ := h2 m rfl
      refine ⟨some y, hy, fun z hz => ?_⟩
      injection hz with hz
      subst hz
      refine ⟨hsh, fun i hi => ?_⟩
      rw [hsh] at hi
      obtain ⟨hm, hk⟩ := C25_loop ho
      rw [hx] at hm
      match i, hi with
      | [n, d, s, r], hi =>
        obtain ⟨hn, hd, hs, hr, -⟩ := hi
        refine (hall n hn d hd s hs r hr).1 ⟨0, hS, ?_⟩
        obtain ⟨k, hk1, hk2⟩ := hk [n, d, 0] (by rw [hm]; exact ⟨hn, hd, hS, trivial⟩)
        have hk1' : k < L.num_repetitions := by simpa [size, hm, at'] using hk1
        obtain rfl : k = r := by omega
        simpa [insAt] using hk2
  · obtain ⟨y, hy, hy4, -⟩ := SumLayer.forward_is hL (Is4.refl x hx)
    refine ⟨some y, ?_, fun z hz => ?_⟩
    · unfold SumLayer.train trainForward
      rw [if_neg hp]
      dsimp only
      rw [hy]
      rfl
    · injection hz with hz
      subst hz
      refine ⟨hy4.1, allFinite4 hy4 fun n hn d hd s hs r hr => ?_⟩
      have hfin' : ∀ k, k < L.num_sums_in → (x.get [n, d, k, r]).IsFin :=
        fun k hk => hfin _ (by rw [hx]; exact ⟨hn, hd, hk, hr, trivial⟩)
      exact lse_isFin (fun k hk => NN_of_isFin (hfin' k hk)) (L.lw_fin hL hf hS one_ne_zero hd hs hr).1 ⟨0, hS, hfin' 0 hS⟩

/-- **C25** fails for ordinary sum layers with two or more repetitions: draws that drop all children in repetition 0 pass the test
at once and every output in repetition 0 is minus infinity. -/
theorem C25_refuted_sum {L : SumL} (hL : L.logits.shape = SumLayer.weightShape L) (hf : L.FinLogits) {x : Tensor Fl} {N : Nat}
    (hx : x.shape = [N, L.num_features, L.num_sums_in, L.num_repetitions]) (hS : 0 < L.num_sums_in) (hfin : AllFinite x) {p : ℝ}
    (hp : 0 < p) (hR : 2 ≤ L.num_repetitions) (fuel : Nat) :
    ∃ y, SumLayer.train L p (fun _ i => decide (at' 3 i = 0)) (fuel + 1) x = .ok (some y) ∧
      y.1.shape = [N, L.num_features, L.num_sums_out, L.num_repetitions] ∧
      ∀ n, n < N → ∀ d, d < L.num_features → ∀ s, s < L.num_sums_out → y.1.get [n, d, s, 0] = .ninf := by
  obtain ⟨o, ho, h1, h2⟩ := C25_sum_iff hL hf hx hS hfin hp (fun _ i => decide (at' 3 i = 0)) (fuel + 1)
  have hm : dropoutMask 3 x.shape (fun _ i => decide (at' 3 i = 0)) (fuel + 1) = .ok (some ⟨x.shape, fun i => decide (at' 3 i = 0)⟩) := by
    unfold dropoutMask dropoutLoop
    rw [if_neg]
    rintro ⟨i, hi, hall⟩
    simp only [allDropped, hx, delAt, size, at', decide_eq_true_eq] at hi hall
    match i, hi with
    | [i0, i1, i2], _ => have := hall 1 (by omega); simp [insAt, at'] at this
  rw [hm] at ho
  injection ho with ho
  obtain ⟨y, hy, hsh, hall⟩ := h2 _ ho.symm
  exact ⟨y, hy, hsh, fun n hn d hd s hs => (hall n hn d hd s hs 0 (by omega)).2 fun k _ => by simp [at']⟩

/-- **C25**, layers that first multiply and then sum: when the call returns, all outputs are finite.  Missing: the call may raise
(`C25_refuted_linsum`). -/
theorem C25_linsum_partial {L : SumL} (hL : L.logits.shape = LinsumLayer.weightShape L) (hf : L.FinLogits) (hD : 2 ≤ L.num_features)
    {x : Tensor Fl} {N : Nat} (hx : x.shape = [N, L.num_features, L.num_sums_in, L.num_repetitions]) (hS : 0 < L.num_sums_in)
    (hfin : AllFinite x) (p : ℝ) (draw : Nat → List Nat → Bool) (fuel : Nat) {y : Tensor Fl × Cache}
    (h : LinsumLayer.train L p draw fuel x = .ok (some y)) :
    y.1.shape = [N, LinsumLayer.numFeaturesOut L, L.num_sums_out, L.num_repetitions] ∧ AllFinite y.1 := by
  have hfin' : ∀ i j k l, i < N → j < L.num_features → k < L.num_sums_in → l < L.num_repetitions → (x.get [i, j, k, l]).IsFin :=
    fun i j k l h1 h2 h3 h4 => hfin _ (by rw [hx]; exact ⟨h1, h2, h3, h4, trivial⟩)
  have hpair : ∀ n, n < N → ∀ d, d < LinsumLayer.numFeaturesOut L → ∀ k, k < L.num_sums_in → ∀ r, r < L.num_repetitions →
      (x.get [n, 2 * d, k, r] + rightChild L.num_features (fun i j l => x.get [n, i, j, l]) d k r).IsFin := by
    intro n hn d hd k hk r hr
    have hd' : 2 * d < L.num_features := by
      simp only [LinsumLayer.numFeaturesOut, LinsumLayer.pad] at hd; omega
    refine isFin_add (hfin' n _ k r hn hd' hk hr) ?_
    unfold rightChild
    split_ifs with h2
    · exact hfin' n _ k r hn h2 hk hr
    · exact ⟨0, rfl⟩
  unfold LinsumLayer.train trainForward at h
  split_ifs at h with hp
  · cases hm : dropoutMask 2 [x.size 0, LinsumLayer.numFeaturesOut L, x.size 2, 1, x.size 3] draw fuel with
    | error e => rw [hm] at h; cases h
    | ok o =>
      rw [hm] at h
      cases o with
      | none => cases h
      | some m =>
        change (LinsumLayer.forward L (some (logKeep m)) x).map some = _ at h
        obtain ⟨hsh, hk⟩ := C25_loop hm
        have hsh' : m.shape = [N, LinsumLayer.numFeaturesOut L, L.num_sums_in, 1, L.num_repetitions] := by
          rw [hsh]; simp [size, hx, at']
        obtain ⟨z, hz, hz4⟩ := LinsumLayer.forward_mask_is hL hD (Is4.refl x hx) hsh'
        rw [hz] at h
        change Except.ok (some z) = _ at h
        injection h with h
        injection h with h
        subst h
        refine ⟨hz4.1, allFinite4 hz4 fun n hn d hd s hs r hr => ?_⟩
        refine lse_isFin (fun k hk => (NN_of_isFin (hpair n hn d hd k hk r hr)).add (keepLog_nn _))
          (L.lw_fin hL hf hS one_ne_zero hd hs hr).1 ?_
        obtain ⟨k, hk1, hk2⟩ := hk [n, d, 0, r] (by rw [hsh']; exact ⟨hn, hd, by simp, hr, trivial⟩)
        have hk1' : k < L.num_sums_in := by simpa [size, hsh', at'] using hk1
        refine ⟨k, hk1', ?_⟩
        rw [add_keepLog _ _ (hpair n hn d hd k hk1' r hr), if_neg (by simpa [insAt] using hk2)]
        exact hpair n hn d hd k hk1' r hr
  · obtain ⟨z, hz, hz4, -⟩ := LinsumLayer.forward_is hL hD (Is4.refl x hx)
    dsimp only at h
    rw [hz] at h
    change Except.ok (some z) = _ at h
    injection h with h
    injection h with h
    subst h
    refine ⟨hz4.1, allFinite4 hz4 fun n hn d hd s hs r hr => ?_⟩
    exact lse_isFin (fun k hk => NN_of_isFin (hpair n hn d hd k hk r hr)) (L.lw_fin hL hf hS one_ne_zero hd hs hr).1
      ⟨0, hS, hpair n hn d hd 0 hS r hr⟩

/-- **C25** fails for layers that first multiply and then sum: as soon as the first draw drops all children of one node the redraw
raises an `IndexError`, unless there is one input channel and one repetition. -/
theorem C25_refuted_linsum {L : SumL} {x : Tensor Fl} {N : Nat}
    (hx : x.shape = [N, L.num_features, L.num_sums_in, L.num_repetitions]) {p : ℝ} (hp : 0 < p)
    (hSR : L.num_sums_in ≠ 1 ∨ L.num_repetitions ≠ 1) (draw : Nat → List Nat → Bool) (fuel : Nat) {n d r : Nat} (hn : n < N)
    (hd : d < LinsumLayer.numFeaturesOut L) (hr : r < L.num_repetitions)
    (hall : ∀ k, k < L.num_sums_in → draw 0 [n, d, k, 0, r] = true) :
    LinsumLayer.train L p draw (fuel + 1) x = .error .index := by
  unfold LinsumLayer.train trainForward dropoutMask dropoutLoop
  rw [if_pos hp, if_pos]
  · unfold maskedAssign
    rw [require_false _ (show ¬ (allDropped 2 ⟨[x.size 0, LinsumLayer.numFeaturesOut L, x.size 2, 1, x.size 3], draw 0⟩).shape <+:
      [x.size 0, LinsumLayer.numFeaturesOut L, x.size 2, 1, x.size 3] by
        simp [allDropped, delAt, size, hx, at']; omega)]
    rfl
  · refine ⟨[n, d, 0, r], ?_, ?_⟩
    · simp only [allDropped, delAt, size, hx, at']
      exact ⟨hn, hd, by simp, hr, trivial⟩
    · simp only [allDropped, decide_eq_true_eq]
      simpa [size, hx, at', insAt] using hall

/-- **C25** fails for layers that first sum and then multiply: the mask falls on the products, so whatever the weights an output
whose entry is dropped is minus infinity, and with two or more output channels the test lets this pass. -/
theorem C25_refuted_linsum2 {L : SumL} (hL : L.logits.shape = LinsumLayer2.weightShape L) (hf : L.FinLogits) (hD : 2 ≤ L.num_features)
    {x : Tensor Fl} {N : Nat} (hx : x.shape = [N, L.num_features, L.num_sums_in, L.num_repetitions]) (hS : 0 < L.num_sums_in)
    (hfin : AllFinite x) {p : ℝ} (hp : 0 < p) (hO : 2 ≤ L.num_sums_out) (fuel : Nat) :
    ∃ y, LinsumLayer2.train L p (fun _ i => decide (at' 2 i = 0)) (fuel + 1) x = .ok (some y) ∧
      y.1.shape = [N, LinsumLayer2.numFeaturesOut L, L.num_sums_out, L.num_repetitions] ∧
      ∀ n, n < N → ∀ d, d < LinsumLayer2.numFeaturesOut L → ∀ r, r < L.num_repetitions → y.1.get [n, d, 0, r] = .ninf := by
  have hfin' : ∀ i j k l, i < N → j < L.num_features → k < L.num_sums_in → l < L.num_repetitions → (x.get [i, j, k, l]).IsFin :=
    fun i j k l h1 h2 h3 h4 => hfin _ (by rw [hx]; exact ⟨h1, h2, h3, h4, trivial⟩)
  have hs : [x.size 0, LinsumLayer2.numFeaturesOut L, L.num_sums_out, x.size 3] =
      [N, LinsumLayer2.numFeaturesOut L, L.num_sums_out, L.num_repetitions] := by simp [size, hx, at']
  obtain ⟨z, hz, hz4, -⟩ := LinsumLayer2.forward_is hL hD (Is4.refl x hx)
  set m : Tensor Bool := ⟨[N, LinsumLayer2.numFeaturesOut L, L.num_sums_out, L.num_repetitions], fun i => decide (at' 2 i = 0)⟩ with hmdef
  have hm : dropoutMask 2 [x.size 0, LinsumLayer2.numFeaturesOut L, L.num_sums_out, x.size 3] (fun _ i => decide (at' 2 i = 0)) (fuel + 1) =
      .ok (some m) := by
    rw [hs]
    unfold dropoutMask dropoutLoop
    rw [if_neg]
    rintro ⟨i, hi, hall⟩
    simp only [allDropped, delAt, size, at', decide_eq_true_eq] at hi hall
    match i, hi with
    | [i0, i1, i2], _ => have := hall 1 (by omega); simp [insAt, at'] at this
  obtain ⟨y, hy, hy4⟩ := add_mask_is hz4.1 (m := m) rfl
  refine ⟨(y, z.2), ?_, hy4.1, fun n hn d hd r hr => ?_⟩
  · unfold LinsumLayer2.train trainForward
    rw [if_pos hp, hm]
    show (LinsumLayer2.forward L (some (logKeep m)) x).map some = _
    rw [LinsumLayer2.forward_mask, hz]
    show ((z.1.add (logKeep m)).map _).map some = _
    rw [hy]
    rfl
  · dsimp only
    have hO' : 0 < L.num_sums_out := by omega
    rw [hy4.get hn hd hO' hr, add_keepLog, if_pos (by simp [hmdef, at'])]
    rw [hz4.get hn hd hO' hr]
    have hrow : ∀ d', d' < L.num_features → (SumLayer.row L (fun i j l => x.get [n, i, j, l]) d' 0 r).IsFin := fun d' hd' =>
      lse_isFin (fun k hk => NN_of_isFin (hfin' n d' k r hn hd' hk hr)) (L.lw_fin hL hf hS one_ne_zero (by omega) hO' hr).1
        ⟨0, hS, hfin' n d' 0 r hn hd' hS hr⟩
    have hd' : 2 * d < L.num_features := by
      simp only [LinsumLayer2.numFeaturesOut, LinsumLayer2.pad] at hd; omega
    refine isFin_add (hrow _ hd') ?_
    unfold rightChild
    split_ifs with h2
    · exact hrow _ h2
    · exact ⟨0, rfl⟩

/-- **C25**, einsum layers: dropout is not applied, finite inputs give finite outputs. -/
theorem C25_einsum {L : SumL} (hL : L.logits.shape = EinsumLayer.weightShape L) (hf : L.FinLogits) (hD : L.num_features % 2 = 0)
    (hF : 0 < L.num_features) (hS : 0 < L.num_sums_in) (hO : 0 < L.num_sums_out) (hR : 0 < L.num_repetitions) {x : Tensor Fl} {N : Nat}
    (hx : x.shape = [N, L.num_features, L.num_sums_in, L.num_repetitions]) (hfin : AllFinite x) :
    ∃ y, EinsumLayer.forward L x = .ok y ∧
      y.1.shape = [N, EinsumLayer.numFeaturesOut L, L.num_sums_out, L.num_repetitions] ∧ AllFinite y.1 := by
  have hfin' : ∀ i j k l, i < N → j < L.num_features → k < L.num_sums_in → l < L.num_repetitions → (x.get [i, j, k, l]).IsFin :=
    fun i j k l h1 h2 h3 h4 => hfin _ (by rw [hx]; exact ⟨h1, h2, h3, h4, trivial⟩)
  obtain ⟨y, hy, hy4, -⟩ := EinsumLayer.forward_is hL hD hF hS hO hR (Is4.refl x hx)
  refine ⟨y, hy, hy4.1, allFinite4 hy4 fun n hn d hd s hs r hr => ?_⟩
  have hd' : 2 * d + 1 < L.num_features := by simp only [EinsumLayer.numFeaturesOut] at hd; omega
  exact (EinsumLayer.row_fin hL hf hS hd hs hr (fun k hk => hfin' n _ k r hn (by omega) hk hr)
    (fun k hk => hfin' n _ k r hn hd' hk hr)).1

/-! ### The hypotheses are met -/

/-- a tensor with distinct finite entries. -/
def exRamp (s : List Nat) : Tensor Fl := ⟨s, fun i => .fin (i.foldl (fun a b => 2 * a + b) 0 : Nat)⟩

theorem exRamp_fin (s : List Nat) : AllFinite (exRamp s) := fun _ _ => ⟨_, rfl⟩

/-- two features, two input channels, two output channels, two repetitions. -/
def exDrop (s : List Nat) : SumL := ⟨2, 2, 2, 2, exRamp s⟩

example (draw : Nat → List Nat → Bool) (fuel : Nat) :
    ∃ r, MixingLayer.train (exDrop [2, 2, 2]) 0.5 draw fuel (exRamp [3, 2, 2, 2]) = .ok r ∧ ∀ y, r = some y →
      y.1.shape = [3, 2, 2] ∧ AllFinite y.1 :=
  C25_mixing (L := exDrop [2, 2, 2]) rfl (exRamp_fin _) rfl (by simp [exDrop]) (exRamp_fin _) 0.5 draw fuel

example : ∃ fuel y, MixingLayer.train (exDrop [2, 2, 2]) 0.5 (fun k _ => decide (k < 3)) fuel (exRamp [3, 2, 2, 2]) = .ok (some y) :=
  C25_mixing_ends (L := exDrop [2, 2, 2]) rfl rfl (exRamp_fin _) (by simp [exDrop]) (exRamp_fin _) 0.5 _ 3 (by simp) (by simp)

example : ∃ y, SumLayer.train (exDrop [2, 2, 2, 2]) 0.5 (fun _ i => decide (at' 3 i = 0)) 1 (exRamp [3, 2, 2, 2]) = .ok (some y) ∧
    y.1.get [0, 0, 0, 0] = .ninf := by
  obtain ⟨y, hy, -, h⟩ := C25_refuted_sum (L := exDrop [2, 2, 2, 2]) (x := exRamp [3, 2, 2, 2]) (N := 3) rfl (exRamp_fin _) rfl
    (by simp [exDrop]) (exRamp_fin _) (p := 0.5) (by norm_num) (by simp [exDrop]) 0
  exact ⟨y, hy, h 0 (by simp) 0 (by simp [exDrop]) 0 (by simp [exDrop])⟩

example (draw : Nat → List Nat → Bool) (fuel : Nat) : ∃ o, SumLayer.train ⟨2, 2, 2, 1, exRamp [2, 2, 2, 1]⟩ 0.5 draw fuel
    (exRamp [3, 2, 2, 1]) = .ok o ∧ ∀ y, o = some y → y.1.shape = [3, 2, 2, 1] ∧ AllFinite y.1 :=
  C25_sum_partial (L := ⟨2, 2, 2, 1, exRamp [2, 2, 2, 1]⟩) rfl (exRamp_fin _) rfl (by simp) (exRamp_fin _) 0.5 rfl draw fuel

example : LinsumLayer.train (exDrop [1, 2, 2, 2]) 0.5 (fun _ _ => true) 1 (exRamp [3, 2, 2, 2]) = .error .index :=
  C25_refuted_linsum (N := 3) (n := 0) (d := 0) (r := 0) rfl (by norm_num) (by simp [exDrop]) _ 0 (by simp)
    (by simp [exDrop, LinsumLayer.numFeaturesOut, LinsumLayer.pad]) (by simp [exDrop]) (by simp)

/-- a call of the layer that drops one of two children of every node and returns. -/
example : ∃ y, LinsumLayer.train (exDrop [1, 2, 2, 2]) 0.5 (fun _ i => decide (at' 2 i = 0)) 1 (exRamp [3, 2, 2, 2]) = .ok (some y) ∧
    AllFinite y.1 := by
  obtain ⟨y, hy⟩ : ∃ y, LinsumLayer.train (exDrop [1, 2, 2, 2]) 0.5 (fun _ i => decide (at' 2 i = 0)) 1 (exRamp [3, 2, 2, 2]) =
      .ok (some y) := by
    unfold LinsumLayer.train trainForward dropoutMask dropoutLoop
    rw [if_pos (by norm_num), if_neg]
    · obtain ⟨z, hz, -⟩ := LinsumLayer.forward_mask_is (L := exDrop [1, 2, 2, 2]) (x := exRamp [3, 2, 2, 2]) (N := 3) rfl (by simp [exDrop])
        (Is4.refl _ rfl) (m := ⟨[3, 1, 2, 1, 2], fun i => decide (at' 2 i = 0)⟩) rfl
      refine ⟨z, ?_⟩
      show (LinsumLayer.forward _ (some (logKeep _)) _).map some = _
      exact (congrArg (Except.map some) hz)
    · rintro ⟨i, hi, hall⟩
      simp only [allDropped, delAt, size, at', decide_eq_true_eq, exRamp] at hi hall
      match i, hi with
      | [i0, i1, i2, i3], _ => have := hall 1 (by simp); simp [insAt, at'] at this
  exact ⟨y, hy, (C25_linsum_partial (L := exDrop [1, 2, 2, 2]) (N := 3) rfl (exRamp_fin _) (by simp [exDrop]) rfl (by simp [exDrop]) (exRamp_fin _) 0.5 _ 1 hy).2⟩

example : ∃ y, LinsumLayer2.train (exDrop [2, 2, 2, 2]) 0.5 (fun _ i => decide (at' 2 i = 0)) 1 (exRamp [3, 2, 2, 2]) = .ok (some y) ∧
    y.1.get [0, 0, 0, 0] = .ninf := by
  obtain ⟨y, hy, -, h⟩ := C25_refuted_linsum2 (L := exDrop [2, 2, 2, 2]) (x := exRamp [3, 2, 2, 2]) (N := 3) rfl (exRamp_fin _)
    (by simp [exDrop]) rfl (by simp [exDrop]) (exRamp_fin _) (p := 0.5) (by norm_num) (by simp [exDrop]) 0
  exact ⟨y, hy, h 0 (by simp) 0 (by simp [exDrop, LinsumLayer2.numFeaturesOut, LinsumLayer2.pad]) 0 (by simp [exDrop])⟩

example : ∃ y, EinsumLayer.forward (exDrop [1, 2, 2, 2, 2]) (exRamp [3, 2, 2, 2]) = .ok y ∧ y.1.shape = [3, 1, 2, 2] ∧ AllFinite y.1 :=
  C25_einsum (L := exDrop [1, 2, 2, 2, 2]) rfl (exRamp_fin _) rfl (by simp [exDrop]) (by simp [exDrop]) (by simp [exDrop]) (by simp [exDrop]) rfl (exRamp_fin _)

end Props

end Einet
