import Verif.Layers

/-!
# Forward passes entry by entry

For each layer: the value of one output entry as a function of the corresponding batch row of the input
(`row`), and the proof that `forward` computes it.  These are lemmas; the properties are in the `Props` files.
-/

open Classical
noncomputable section
namespace Einet
open Tensor

/-- tensor of rank 4 given by a function of four coordinates. -/
def Tensor.Is4 {α : Type} (t : Tensor α) (a b c d : Nat) (f : Nat → Nat → Nat → Nat → α) : Prop :=
  t.Is [a, b, c, d] fun i => f (at' 0 i) (at' 1 i) (at' 2 i) (at' 3 i)

/-- tensor of rank 3 given by a function of three coordinates. -/
def Tensor.Is3 {α : Type} (t : Tensor α) (a b c : Nat) (f : Nat → Nat → Nat → α) : Prop :=
  t.Is [a, b, c] fun i => f (at' 0 i) (at' 1 i) (at' 2 i)

/-- tensor of rank 2 given by a function of two coordinates. -/
def Tensor.Is2 {α : Type} (t : Tensor α) (a b : Nat) (f : Nat → Nat → α) : Prop :=
  t.Is [a, b] fun i => f (at' 0 i) (at' 1 i)

theorem Tensor.Is.is4 {α : Type} {t : Tensor α} {a b c d : Nat} {g : List Nat → α} {f : Nat → Nat → Nat → Nat → α}
    (h : t.Is [a, b, c, d] g) (hf : ∀ i, i < a → ∀ j, j < b → ∀ k, k < c → ∀ l, l < d → g [i, j, k, l] = f i j k l) :
    t.Is4 a b c d f := h.congr (by simpa [at'] using hf)

theorem Tensor.Is.is3 {α : Type} {t : Tensor α} {a b c : Nat} {g : List Nat → α} {f : Nat → Nat → Nat → α}
    (h : t.Is [a, b, c] g) (hf : ∀ i, i < a → ∀ j, j < b → ∀ k, k < c → g [i, j, k] = f i j k) :
    t.Is3 a b c f := h.congr (by simpa [at'] using hf)

theorem Tensor.Is.is2 {α : Type} {t : Tensor α} {a b : Nat} {g : List Nat → α} {f : Nat → Nat → α}
    (h : t.Is [a, b] g) (hf : ∀ i, i < a → ∀ j, j < b → g [i, j] = f i j) :
    t.Is2 a b f := h.congr (by simpa [at'] using hf)

theorem Tensor.Is4.get {α : Type} {t : Tensor α} {a b c d : Nat} {f : Nat → Nat → Nat → Nat → α} (h : t.Is4 a b c d f)
    {i j k l : Nat} (hi : i < a) (hj : j < b) (hk : k < c) (hl : l < d) : t.get [i, j, k, l] = f i j k l :=
  Tensor.Is.get h (i := [i, j, k, l]) ⟨hi, hj, hk, hl, by simp⟩

theorem Tensor.Is3.get {α : Type} {t : Tensor α} {a b c : Nat} {f : Nat → Nat → Nat → α} (h : t.Is3 a b c f)
    {i j k : Nat} (hi : i < a) (hj : j < b) (hk : k < c) : t.get [i, j, k] = f i j k :=
  Tensor.Is.get h (i := [i, j, k]) ⟨hi, hj, hk, by simp⟩

theorem Tensor.Is2.get {α : Type} {t : Tensor α} {a b : Nat} {f : Nat → Nat → α} (h : t.Is2 a b f)
    {i j : Nat} (hi : i < a) (hj : j < b) : t.get [i, j] = f i j :=
  Tensor.Is.get h (i := [i, j]) ⟨hi, hj, by simp⟩

theorem Tensor.Is4.refl {α : Type} (t : Tensor α) {a b c d : Nat} (h : t.shape = [a, b, c, d]) :
    t.Is4 a b c d fun i j k l => t.get [i, j, k, l] :=
  (Is.refl t h).congr (by simp [at'])

theorem Tensor.Is4.congr {α : Type} {t : Tensor α} {a b c d : Nat} {f f' : Nat → Nat → Nat → Nat → α}
    (h : t.Is4 a b c d f) (hf : ∀ i, i < a → ∀ j, j < b → ∀ k, k < c → ∀ l, l < d → f i j k l = f' i j k l) :
    t.Is4 a b c d f' := Is.is4 h (by simpa [at'] using hf)

/-- entry of a batch row: feature, channel, repetition. -/
abbrev Row := Nat → Nat → Nat → Fl

/-- log weights of `SumLayer`, `LinsumLayer` and `LinsumLayer2`: feature, child, parent channel, repetition. -/
def SumL.lw (L : SumL) (T : ℝ) (d k s r : Nat) : Fl :=
  Fl.logSoftmax L.num_sums_in (fun k => L.logits.get [d, k, s, r] / Fl.fin T) k

/-- log weights of `MixingLayer`: feature, channel, repetition. -/
def SumL.lwMix (L : SumL) (T : ℝ) (d s k : Nat) : Fl :=
  Fl.logSoftmax L.num_sums_in (fun k => L.logits.get [d, s, k] / Fl.fin T) k

/-- log weights of `EinsumLayer` with the pair of children flattened row-major. -/
def SumL.lwEin (L : SumL) (T : ℝ) (d s r k : Nat) : Fl :=
  Fl.logSoftmax (L.num_sums_in ^ 2)
    (fun k => L.logits.get [d, s, r, k / L.num_sums_in, k % L.num_sums_in] / Fl.fin T) k

theorem logitsToLogWeights_is {t : Tensor Fl} {s : List Nat} {g : List Nat → Fl} {d : Nat} {T : ℝ} (h : t.Is s g)
    (hd : d < s.length) :
    Res.Sat (logitsToLogWeights t d T) fun t' =>
      t'.Is s fun i => Fl.logSoftmax (at' d s) (fun k => g (setAt d k i) / Fl.fin T) (at' d i) :=
  logSoftmax_is (map_is _ h) hd

/-- one output entry of `SumLayer.forward`. -/
def SumLayer.row (L : SumL) (x : Row) : Row := fun d s r =>
  Fl.lse L.num_sums_in fun k => x d k r + L.lw 1 d k s r

theorem SumLayer.forward_is {L : SumL} (hL : L.logits.shape = SumLayer.weightShape L) {x : Tensor Fl} {N : Nat}
    {f : Nat → Row} (hx : x.Is4 N L.num_features L.num_sums_in L.num_repetitions f) :
    Res.Sat (SumLayer.forward L none x) fun y =>
      y.1.Is4 N L.num_features L.num_sums_out L.num_repetitions (fun n => SumLayer.row L (f n)) ∧ y.2 = Cache.one x := by
  refine (Res.Sat.ok (P := fun y => y = x) rfl).bind fun x' hx' => ?_
  subst hx'
  refine (logitsToLogWeights_is (Is.refl _ hL) (by simp [weightShape])).bind fun w hw => ?_
  refine (unsqueeze_is hw (by simp [weightShape])).bind fun w' hw' => ?_
  refine (unsqueeze_is hx (by simp)).bind fun x'' hx'' => ?_
  refine (zipWith_is _ hx'' hw' (by simp [insAt, weightShape]) (by simp [insAt, weightShape, bshape]; rfl)).bind
    fun y hy => ?_
  refine (logsumexp_is hy (by simp)).bind fun z hz => ?_
  refine Res.Sat.require (by rw [hz.1]; simp [size, hx''.1, at', insAt, delAt]) (Res.Sat.pure ⟨hz.is4 ?_, rfl⟩)
  intro n hn d hd s hs r hr
  refine Fl.lse_congr fun k hk => ?_
  simp [insAt, delAt, clipAll, at', setAt, SumL.lw, weightShape] at hk ⊢
  simp [clip_of_lt, hn, hd, hs, hr, hk]

/-- one output entry of `MixingLayer.forward` (feature, class). -/
def MixingLayer.row (L : SumL) (x : Row) (d s : Nat) : Fl :=
  Fl.lse L.num_sums_in fun k => x d s k + L.lwMix 1 d s k

theorem MixingLayer.forward_is {L : SumL} (hL : L.logits.shape = MixingLayer.weightShape L) {x : Tensor Fl} {N : Nat}
    {f : Nat → Row} (hx : x.Is4 N L.num_features L.num_sums_out L.num_sums_in f) :
    Res.Sat (MixingLayer.forward L none x) fun y =>
      y.1.Is3 N L.num_features L.num_sums_out (fun n => MixingLayer.row L (f n)) ∧ y.2 = Cache.one x := by
  refine (Res.Sat.ok (P := fun y => y = x) rfl).bind fun x' hx' => ?_
  subst hx'
  refine (logitsToLogWeights_is (Is.refl _ hL) (by simp [weightShape])).bind fun w hw => ?_
  refine (unsqueeze_is hw (by simp [weightShape])).bind fun w' hw' => ?_
  refine (zipWith_is _ hx hw' (by simp [insAt, weightShape]) (by simp [insAt, weightShape, bshape]; rfl)).bind
    fun y hy => ?_
  refine (logsumexp_is hy (by simp)).bind fun z hz => ?_
  refine Res.Sat.pure ⟨hz.is3 ?_, rfl⟩
  intro n hn d hd s hs
  refine Fl.lse_congr fun k hk => ?_
  simp [insAt, delAt, clipAll, at', setAt, SumL.lwMix, weightShape] at hk ⊢
  simp [clip_of_lt, hn, hd, hs, hk]

/-- the right child of output feature `d`; a dummy with log-likelihood 0 when the number of features is odd. -/
def rightChild (D : Nat) (x : Row) : Row := fun d k r => if 2 * d + 1 < D then x (2 * d + 1) k r else Fl.fin 0

theorem LinsumLayer.padRight_is {D S R N : Nat} {right : Tensor Fl} {f : Nat → Row} (hD : 2 ≤ D)
    (h : right.Is4 N (D / 2) S R fun n d k r => f n (2 * d + 1) k r) :
    Res.Sat (LinsumLayer.padRight (D % 2) right) fun y =>
      y.Is4 N ((D + D % 2) / 2) S R fun n => rightChild D (f n) := by
  unfold LinsumLayer.padRight
  split_ifs with hp
  · refine (take_is h (by simp)).bind fun z hz => ?_
    refine (cat_is h (full_is z.shape _) (by simp) (by rw [hz.1]; simp [setAt])).mono fun y hy => ?_
    have e : at' 1 [N, D / 2, S, R] + at' 1 z.shape = (D + D % 2) / 2 := by
      rw [hz.1]; simp [at', setAt]; omega
    rw [e] at hy
    refine hy.is4 ?_
    intro n hn d hd k hk r hr
    show (if d < D / 2 then f n (2 * d + 1) k r else Fl.fin 0) = if 2 * d + 1 < D then f n (2 * d + 1) k r else Fl.fin 0
    have h2 : d < D / 2 ↔ 2 * d + 1 < D := by omega
    simp only [h2]
  · refine Res.Sat.ok ?_
    have e : (D + D % 2) / 2 = D / 2 := by omega
    rw [e]
    refine h.congr ?_
    intro n hn d hd k hk r hr
    simp only [rightChild]
    rw [if_pos (by omega)]

/-- the two slices `x[:, 0::2]` and padded `x[:, 1::2]`. -/
theorem slices_is {D S R N : Nat} {x : Tensor Fl} {f : Nat → Row} (hD : 2 ≤ D) (h : x.Is4 N D S R f)
    {β : Type} {k : Tensor Fl → Tensor Fl → Res β} {Q : β → Prop}
    (hk : ∀ left right, left.Is4 N ((D + D % 2) / 2) S R (fun n d k r => f n (2 * d) k r) →
      right.Is4 N ((D + D % 2) / 2) S R (fun n => rightChild D (f n)) → Res.Sat (k left right) Q) :
    Res.Sat (do
      let left ← x.slice 1 0 2
      let right ← x.slice 1 1 2
      let right ← LinsumLayer.padRight (D % 2) right
      k left right) Q := by
  refine (slice_is h (by simp) (by omega)).bind fun l hl => ?_
  refine (slice_is h (by simp) (by omega)).bind fun r hr => ?_
  have e : (at' 1 [N, D, S, R] - 0 + (2 - 1)) / 2 = (D + D % 2) / 2 := by simp [at']; omega
  have e' : (at' 1 [N, D, S, R] - 1 + (2 - 1)) / 2 = D / 2 := by simp [at']; omega
  rw [e] at hl
  rw [e'] at hr
  refine (LinsumLayer.padRight_is (f := f) hD (hr.is4 ?_)).bind fun r' hr' => ?_
  · intro n hn d hd k hk r hr
    simp [at', setAt, Nat.add_comm]
  · exact hk l r' (hl.is4 (by intro n hn d hd k hk r hr; simp [at', setAt])) hr'

/-- one output entry of `LinsumLayer.forward`. -/
def LinsumLayer.row (L : SumL) (x : Row) : Row := fun d s r =>
  Fl.lse L.num_sums_in fun k => x (2 * d) k r + rightChild L.num_features x d k r + L.lw 1 d k s r

theorem LinsumLayer.forward_is {L : SumL} (hL : L.logits.shape = LinsumLayer.weightShape L) (hD : 2 ≤ L.num_features)
    {x : Tensor Fl} {N : Nat} {f : Nat → Row} (hx : x.Is4 N L.num_features L.num_sums_in L.num_repetitions f) :
    Res.Sat (LinsumLayer.forward L none x) fun y =>
      y.1.Is4 N (numFeaturesOut L) L.num_sums_out L.num_repetitions (fun n => LinsumLayer.row L (f n)) ∧
      ∃ left right, y.2 = Cache.two left right ∧
        left.Is4 N (numFeaturesOut L) L.num_sums_in L.num_repetitions (fun n d k r => f n (2 * d) k r) ∧
        right.Is4 N (numFeaturesOut L) L.num_sums_in L.num_repetitions (fun n => rightChild L.num_features (f n)) := by
  refine Res.Sat.require (by simp [rank, hx.1]) ?_
  refine slices_is hD hx fun left right hl hr => ?_
  refine (zipWith_is _ hl hr (by simp) (by simp [bshape]; rfl)).bind fun p hp => ?_
  refine (unsqueeze_is hp (by simp)).bind fun p' hp' => ?_
  refine (Res.Sat.ok (P := fun y => y = p') rfl).bind fun x' hx' => ?_
  subst hx'
  refine (logitsToLogWeights_is (Is.refl _ hL) (by simp [weightShape])).bind fun w hw => ?_
  refine (unsqueeze_is hw (by simp [weightShape])).bind fun w' hw' => ?_
  refine (zipWith_is _ hp' hw' (by simp [insAt, weightShape])
    (by simp [insAt, weightShape, bshape, numFeaturesOut, pad]; rfl)).bind fun y hy => ?_
  refine (logsumexp_is hy (by simp)).bind fun z hz => ?_
  refine Res.Sat.pure ⟨hz.is4 ?_, left, right, rfl, hl, hr⟩
  intro n hn d hd s hs r hr
  refine Fl.lse_congr fun k hk => ?_
  simp [insAt, delAt, clipAll, at', setAt, SumL.lw, weightShape] at hk ⊢
  simp [clip_of_lt, hn, hs, hr, hk, show d < (L.num_features + L.num_features % 2) / 2 from hd,
    show d < numFeaturesOut L from hd]

/-- one output entry of `LinsumLayer2.forward`. -/
def LinsumLayer2.row (L : SumL) (x : Row) : Row := fun d s r =>
  SumLayer.row L x (2 * d) s r + rightChild L.num_features (SumLayer.row L x) d s r

theorem LinsumLayer2.forward_is {L : SumL} (hL : L.logits.shape = LinsumLayer2.weightShape L)
    (hD : 2 ≤ L.num_features) {x : Tensor Fl} {N : Nat} {f : Nat → Row}
    (hx : x.Is4 N L.num_features L.num_sums_in L.num_repetitions f) :
    Res.Sat (LinsumLayer2.forward L none x) fun y =>
      y.1.Is4 N (numFeaturesOut L) L.num_sums_out L.num_repetitions (fun n => LinsumLayer2.row L (f n)) ∧
      y.2 = Cache.one x := by
  refine (logitsToLogWeights_is (Is.refl _ hL) (by simp [weightShape])).bind fun w hw => ?_
  refine (unsqueeze_is hw (by simp [weightShape])).bind fun w' hw' => ?_
  refine (unsqueeze_is hx (by simp)).bind fun x'' hx'' => ?_
  refine (zipWith_is _ hx'' hw' (by simp [insAt, weightShape]) (by simp [insAt, weightShape, bshape]; rfl)).bind
    fun y hy => ?_
  refine (logsumexp_is hy (by simp)).bind fun z hz => ?_
  have hz' : z.Is4 N L.num_features L.num_sums_out L.num_repetitions (fun n => SumLayer.row L (f n)) := by
    refine hz.is4 ?_
    intro n hn d hd s hs r hr
    refine Fl.lse_congr fun k hk => ?_
    simp [insAt, delAt, clipAll, at', setAt, SumL.lw, weightShape] at hk ⊢
    simp [clip_of_lt, hn, hd, hs, hr, hk]
  refine slices_is hD hz' fun left right hl hr => ?_
  refine (zipWith_is _ hl hr (by simp) (by simp [bshape]; rfl)).bind fun p hp => ?_
  refine Res.Sat.pure ⟨hp.is4 ?_, rfl⟩
  intro n hn d hd s hs r hr
  simp [clipAll, at', clip_of_lt, hn, hs, hr, hd, LinsumLayer2.row]

/-- one output entry of `EinsumLayer.forward`, with the stabilisation by the maxima. -/
def EinsumLayer.row (L : SumL) (x : Row) : Row := fun d s r =>
  let S := L.num_sums_in
  let ml := Fl.maxN S fun k => x (2 * d) k r
  let mr := Fl.maxN S fun k => x (2 * d + 1) k r
  Fl.log (Fl.sumN S fun a => Fl.sumN S fun b =>
    Fl.exp (x (2 * d) a r - ml) * Fl.exp (x (2 * d + 1) b r - mr) *
      Fl.softmax (S ^ 2) (fun k => L.logits.get [d, s, r, k / S, k % S]) (a * S + b)) + ml + mr

theorem EinsumLayer.einsum_is {l r w : Tensor Fl} {N D O S R : Nat} {f g : Nat → Row}
    (hl : l.Is4 N D S R f) (hr : r.Is4 N D S R g) (hw : w.shape = [D, O, R, S, S]) :
    Res.Sat (EinsumLayer.einsum l r w) fun y => y.Is4 N D O R fun n d o rr =>
      Fl.sumN S fun a => Fl.sumN S fun b => f n d a rr * g n d b rr * w.get [d, o, rr, a, b] := by
  refine Res.Sat.require (by simp [rank, hl.1, hr.1, hw]) ?_
  refine Res.Sat.require (by simp [size, hl.1, hr.1, hw, at']) ?_
  have hs : ∀ k, l.size k = at' k [N, D, S, R] := fun k => by rw [size, hl.1]
  have hs' : ∀ k, r.size k = at' k [N, D, S, R] := fun k => by rw [size, hr.1]
  have hw1 : w.size 1 = O := by rw [size, hw]; rfl
  refine Res.Sat.pure ⟨by simp only [hs, hw1, at'], ?_⟩
  intro n hn d hd o ho rr hrr
  simp only [hs, hs', at']
  refine Fl.sumN_congr fun a ha => Fl.sumN_congr fun b hb => ?_
  rw [hl.get hn hd ha hrr, hr.get hn hd hb hrr]

theorem EinsumLayer.forward_is {L : SumL} (hL : L.logits.shape = EinsumLayer.weightShape L)
    (hD : L.num_features % 2 = 0) (hF : 0 < L.num_features) (hS : 0 < L.num_sums_in) (hO : 0 < L.num_sums_out)
    (hR : 0 < L.num_repetitions) {x : Tensor Fl} {N : Nat} {f : Nat → Row}
    (hx : x.Is4 N L.num_features L.num_sums_in L.num_repetitions f) :
    Res.Sat (EinsumLayer.forward L x) fun y =>
      y.1.Is4 N (numFeaturesOut L) L.num_sums_out L.num_repetitions (fun n => EinsumLayer.row L (f n)) ∧
      ∃ left right, y.2 = Cache.two left right ∧
        left.Is4 N (numFeaturesOut L) L.num_sums_in L.num_repetitions (fun n d k r => f n (2 * d) k r) ∧
        right.Is4 N (numFeaturesOut L) L.num_sums_in L.num_repetitions (fun n d k r => f n (2 * d + 1) k r) := by
  have hO' : 0 < numFeaturesOut L := by unfold numFeaturesOut; omega
  refine Res.Sat.require (by simp [rank, hx.1]) ?_
  refine (slice_is hx (by simp) (by omega)).bind fun l hl => ?_
  refine (slice_is hx (by simp) (by omega)).bind fun r hr => ?_
  have e : (at' 1 [N, L.num_features, L.num_sums_in, L.num_repetitions] - 0 + (2 - 1)) / 2 = numFeaturesOut L := by
    simp [at', numFeaturesOut]; omega
  have e' : (at' 1 [N, L.num_features, L.num_sums_in, L.num_repetitions] - 1 + (2 - 1)) / 2 = numFeaturesOut L := by
    simp [at', numFeaturesOut]; omega
  rw [e] at hl
  rw [e'] at hr
  have hl' : l.Is4 N (numFeaturesOut L) L.num_sums_in L.num_repetitions (fun n d k r => f n (2 * d) k r) :=
    hl.is4 (by intro n hn d hd k hk r hr; simp [at', setAt])
  have hr' : r.Is4 N (numFeaturesOut L) L.num_sums_in L.num_repetitions (fun n d k r => f n (2 * d + 1) k r) :=
    hr.is4 (by intro n hn d hd k hk r hr; simp [at', setAt, Nat.add_comm])
  refine (maxKeep_is hl' (by simp) (by simpa [at'] using hS)).bind fun lm hlm => ?_
  refine (zipWith_is _ hl' hlm (by simp [setAt]) (by simp [setAt, bshape]; rfl)).bind fun ld hld => ?_
  refine (maxKeep_is hr' (by simp) (by simpa [at'] using hS)).bind fun rm hrm => ?_
  refine (zipWith_is _ hr' hrm (by simp [setAt]) (by simp [setAt, bshape]; rfl)).bind fun rd hrd => ?_
  have hx1 : x.size 1 / 2 = numFeaturesOut L := by rw [size, hx.1]; rfl
  simp only [hx1]
  refine (viewInfer_is (m := L.num_sums_in ^ 2) (Is.refl _ hL) (by simp [numelS]; omega)
    (by simp [numelS, weightShape]; ring)).bind fun w hw => ?_
  refine (softmax_is hw (by simp)).bind fun w1 hw1 => ?_
  refine (view_is (s' := weightShape L) hw1 (by simp [numelS, weightShape, pow_two])).bind
    fun w2 hw2 => ?_
  have hw3 : ∀ d, d < numFeaturesOut L → ∀ s, s < L.num_sums_out → ∀ r, r < L.num_repetitions →
      ∀ a, a < L.num_sums_in → ∀ b, b < L.num_sums_in → w2.get [d, s, r, a, b] =
        Fl.softmax (L.num_sums_in ^ 2) (fun k => L.logits.get [d, s, r, k / L.num_sums_in, k % L.num_sums_in])
          (a * L.num_sums_in + b) := by
    intro d hd s hs r hr a ha b hb
    have hab : a * L.num_sums_in + b < L.num_sums_in ^ 2 := by nlinarith
    rw [hw2.get (i := [d, s, r, a, b]) ⟨hd, hs, hr, ha, hb, by simp⟩]
    rw [unflat_eq (s := [numFeaturesOut L, L.num_sums_out, L.num_repetitions] ++ [L.num_sums_in ^ 2])
      (i := [d, s, r, a * L.num_sums_in + b]) ⟨hd, hs, hr, hab, by simp⟩
      (by simp [flat, weightShape, numelS]; ring)]
    simp only [Fl.softmax]
    congr 1
    refine Fl.logSoftmax_congr (fun k hk => ?_) hab
    have hk' : k < L.num_sums_in * L.num_sums_in := by simpa [pow_two, at'] using hk
    congr 1
    refine unflat_eq ⟨hd, hs, hr, Nat.div_lt_of_lt_mul hk', Nat.mod_lt _ hS, by simp⟩ ?_
    have := Nat.div_add_mod k L.num_sums_in
    simp only [flat, weightShape, numelS, setAt, List.cons_append, List.nil_append]
    nlinarith
  have hlm' : lm.Is4 N (numFeaturesOut L) 1 L.num_repetitions
      (fun n d _ r => Fl.maxN L.num_sums_in fun k => f n (2 * d) k r) :=
    Is.is4 hlm (by intro n hn d hd k hk r hr; rfl)
  have hrm' : rm.Is4 N (numFeaturesOut L) 1 L.num_repetitions
      (fun n d _ r => Fl.maxN L.num_sums_in fun k => f n (2 * d + 1) k r) :=
    Is.is4 hrm (by intro n hn d hd k hk r hr; rfl)
  have hld' : (ld.map Fl.exp).Is4 N (numFeaturesOut L) L.num_sums_in L.num_repetitions
      (fun n d k r => Fl.exp (f n (2 * d) k r - Fl.maxN L.num_sums_in fun k => f n (2 * d) k r)) := by
    refine Is.is4 (map_is _ hld) ?_
    intro n hn d hd k hk r hr
    simp [clipAll, at', clip_of_lt, hn, hd, hk, hr, setAt]
  have hrd' : (rd.map Fl.exp).Is4 N (numFeaturesOut L) L.num_sums_in L.num_repetitions
      (fun n d k r => Fl.exp (f n (2 * d + 1) k r - Fl.maxN L.num_sums_in fun k => f n (2 * d + 1) k r)) := by
    refine Is.is4 (map_is _ hrd) ?_
    intro n hn d hd k hk r hr
    simp [clipAll, at', clip_of_lt, hn, hd, hk, hr, setAt]
  refine (einsum_is hld' hrd' hw2.1).bind fun p hp => ?_
  refine (zipWith_is _ (map_is Fl.log hp) hlm' (by simp) (by simp [bshape]; rfl)).bind fun p1 hp1 => ?_
  refine (zipWith_is _ hp1 hrm' (by simp) (by simp [bshape]; rfl)).bind fun p2 hp2 => ?_
  refine Res.Sat.pure ⟨hp2.is4 ?_, l, r, rfl, hl', hr'⟩
  intro n hn d hd s hs r hr
  simp [clipAll, at', clip_of_lt, hn, hd, hs, hr, EinsumLayer.row]
  congr 3
  refine Fl.sumN_congr fun a ha => Fl.sumN_congr fun b hb => ?_
  rw [hw3 d hd s hs r hr a ha b hb]

end Einet
