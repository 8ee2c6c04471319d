import Verif.LayerCond

/-!
# Meaning of a layer

`Layer.den` is the polynomial that a layer computes on probabilities; `Layer.row` is what `forward` computes on
log-probabilities.  Lemmas: `forward` computes `row`, `row` is `den` on logarithms, and `sample` draws children with
probabilities proportional to the terms of `den`.
-/

open Classical MeasureTheory
open scoped ENNReal
noncomputable section
namespace Einet
open Tensor

/-- probabilities by feature, channel, repetition. -/
abbrev PRow := Nat → Nat → Nat → ℝ≥0∞

/-- right child of a pair of features, 1 if it does not exist. -/
def rightP (D : Nat) (x : PRow) : PRow := fun d k r => if 2 * d + 1 < D then x (2 * d + 1) k r else 1

/-- `RootProductLayer.forward` on one entry. -/
def RootProductLayer.row (F : Nat) (x : Row) : Row := fun _ s r => Fl.sumN F fun j => x j s r

namespace Layer

/-- one output entry of `forward`. -/
def row : Layer → Row → Row
  | sum L, x => SumLayer.row L x
  | linsum L, x => LinsumLayer.row L x
  | linsum2 L, x => LinsumLayer2.row L x
  | einsum L, x => EinsumLayer.row L x
  | rootProduct F _, x => RootProductLayer.row F x

/-- the polynomial of the layer; weights at temperature `T`. -/
def den (T : ℝ) : Layer → PRow → PRow
  | sum L, x => fun d s r => ∑ k ∈ Finset.range L.num_sums_in, toP (L.lw T d k s r) * x d k r
  | linsum L, x => fun d s r => ∑ k ∈ Finset.range L.num_sums_in,
      toP (L.lw T d k s r) * (x (2 * d) k r * rightP L.num_features x d k r)
  | linsum2 L, x =>
      let y : PRow := fun d s r => ∑ k ∈ Finset.range L.num_sums_in, toP (L.lw T d k s r) * x d k r
      fun d s r => y (2 * d) s r * rightP L.num_features y d s r
  | einsum L, x => fun d s r => ∑ k ∈ Finset.range (L.num_sums_in ^ 2),
      toP (L.lwEin T d s r k) * (x (2 * d) (k / L.num_sums_in) r * x (2 * d + 1) (k % L.num_sums_in) r)
  | rootProduct F _, x => fun _ s r => ∏ j ∈ Finset.range F, x j s r

/-- Well-formed layer with input features and channels, output features and channels, and repetitions. -/
inductive WF : Layer → Nat → Nat → Nat → Nat → Nat → Prop
  | sum (L : SumL) (hL : L.logits.shape = SumLayer.weightShape L) (hf : L.FinLogits) (hS : 0 < L.num_sums_in) :
      WF (.sum L) L.num_features L.num_sums_in L.num_features L.num_sums_out L.num_repetitions
  | linsum (L : SumL) (hL : L.logits.shape = LinsumLayer.weightShape L) (hf : L.FinLogits) (hS : 0 < L.num_sums_in)
      (hD : 2 ≤ L.num_features) :
      WF (.linsum L) L.num_features L.num_sums_in (LinsumLayer.numFeaturesOut L) L.num_sums_out L.num_repetitions
  | linsum2 (L : SumL) (hL : L.logits.shape = LinsumLayer2.weightShape L) (hf : L.FinLogits) (hS : 0 < L.num_sums_in)
      (hD : 2 ≤ L.num_features) (hE : L.num_features % 2 = 0) :
      WF (.linsum2 L) L.num_features L.num_sums_in (LinsumLayer2.numFeaturesOut L) L.num_sums_out L.num_repetitions
  | einsum (L : SumL) (hL : L.logits.shape = EinsumLayer.weightShape L) (hf : L.FinLogits) (hS : 0 < L.num_sums_in)
      (hO : 0 < L.num_sums_out) (hR : 0 < L.num_repetitions)
      (hD : 2 ≤ L.num_features) (hE : L.num_features % 2 = 0) :
      WF (.einsum L) L.num_features L.num_sums_in (EinsumLayer.numFeaturesOut L) L.num_sums_out L.num_repetitions
  | rootProduct (F S R : Nat) : WF (.rootProduct F R) F S 1 S R

/-- the cache stored by `forward` on inputs `f`. -/
def CacheIs : Layer → Nat → Option Cache → (Nat → Row) → Prop
  | sum L, N, c, f => ∃ x, c = some (.one x) ∧ x.Is4 N L.num_features L.num_sums_in L.num_repetitions f
  | linsum2 L, N, c, f => ∃ x, c = some (.one x) ∧ x.Is4 N L.num_features L.num_sums_in L.num_repetitions f
  | linsum L, N, c, f => ∃ l r, c = some (.two l r) ∧
      l.Is4 N (LinsumLayer.numFeaturesOut L) L.num_sums_in L.num_repetitions (fun n d k r => f n (2 * d) k r) ∧
      r.Is4 N (LinsumLayer.numFeaturesOut L) L.num_sums_in L.num_repetitions (fun n => rightChild L.num_features (f n))
  | einsum L, N, c, f => ∃ l r, c = some (.two l r) ∧
      l.Is4 N (EinsumLayer.numFeaturesOut L) L.num_sums_in L.num_repetitions (fun n d k r => f n (2 * d) k r) ∧
      r.Is4 N (EinsumLayer.numFeaturesOut L) L.num_sums_in L.num_repetitions (fun n d k r => f n (2 * d + 1) k r)
  | rootProduct _ _, _, c, _ => c = none

theorem forward_is {l : Layer} {Di Si Do So R : Nat} (h : WF l Di Si Do So R) {x : Tensor Fl} {N : Nat} {f : Nat → Row}
    (hx : x.Is4 N Di Si R f) :
    Res.Sat (l.forward none x) fun y => y.1.Is4 N Do So R (fun n => l.row (f n)) ∧ l.CacheIs N y.2 f := by
  cases h with
  | sum L hL hf hS =>
    refine (SumLayer.forward_is hL hx).bind fun y hy => Res.Sat.pure ⟨hy.1, x, by rw [hy.2], hx⟩
  | linsum L hL hf hS hD =>
    refine (LinsumLayer.forward_is hL hD hx).bind fun y ⟨hy, l, r, h2, hl, hr⟩ =>
      Res.Sat.pure ⟨hy, l, r, by rw [h2], hl, hr⟩
  | linsum2 L hL hf hS hD hE =>
    refine (LinsumLayer2.forward_is hL hD hx).bind fun y hy => Res.Sat.pure ⟨hy.1, x, by rw [hy.2], hx⟩
  | einsum L hL hf hS hO hR hD hE =>
    refine (EinsumLayer.forward_is hL hE (by omega) hS hO hR hx).bind fun y ⟨hy, l, r, h2, hl, hr⟩ =>
      Res.Sat.pure ⟨hy, l, r, by rw [h2], hl, hr⟩
  | rootProduct =>
    refine Res.Sat.bind (P := fun y => y.Is4 N 1 Si R fun n => RootProductLayer.row Di (f n)) ?_
      fun y hy => Res.Sat.pure ⟨hy, rfl⟩
    refine Res.Sat.require (by simp [rank, hx.1]) (Res.Sat.require (by rw [size, hx.1]; rfl) ?_)
    refine (reduceKeep_is (fun _ _ _ => Fl.sumN_congr) hx (by simp)).mono fun y hy => ?_
    exact Is.is4 hy (by intro n hn d hd s hs r hr; rfl)

end Layer

/-- products of log-probabilities. -/
theorem toP_sumN {n : Nat} {f : Nat → Fl} (h : ∀ i, i < n → NN (f i)) :
    toP (Fl.sumN n f) = ∏ i ∈ Finset.range n, toP (f i) ∧ NN (Fl.sumN n f) := by
  induction n with
  | zero => simp [Fl.sumN]
  | succ n ih =>
    have := ih fun i hi => h i (by omega)
    simp only [Fl.sumN, Finset.prod_range_succ]
    rw [toP_add this.2 (h n (by omega)), this.1]
    exact ⟨rfl, this.2.add (h n (by omega))⟩

/-- `true`: finite floats; `false`: neither NaN nor `+inf`. -/
def Okay : Bool → Fl → Prop
  | true, a => a.IsFin
  | false, a => NN a

theorem Okay.nn {b : Bool} {a : Fl} (h : Okay b a) : NN a := by
  cases b
  · exact h
  · exact NN_of_isFin h

theorem okay_of {b : Bool} {a : Fl} (h : NN a) (h' : b = true → toP a ≠ 0) : Okay b a := by
  cases b
  · exact h
  · exact h.isFin (h' rfl)

theorem Okay.ne_zero {b : Bool} {a : Fl} (h : Okay b a) (hb : b = true) : toP a ≠ 0 := by
  subst hb; exact toP_ne_zero h

theorem toP_rightChild {D : Nat} {x : Row} {d k r : Nat} (h : 2 * d + 1 < D → NN (x (2 * d + 1) k r)) :
    toP (rightChild D x d k r) = rightP D (fun d k r => toP (x d k r)) d k r ∧ NN (rightChild D x d k r) := by
  unfold rightChild rightP
  split_ifs with hc
  · exact ⟨rfl, h hc⟩
  · simp

theorem Finset.sum_square {M : Type*} [AddCommMonoid M] (S : Nat) (f : Nat → Nat → M) :
    ∑ a ∈ Finset.range S, ∑ b ∈ Finset.range S, f a b = ∑ k ∈ Finset.range (S ^ 2), f (k / S) (k % S) := by
  have key : ∀ n, ∑ a ∈ Finset.range n, ∑ b ∈ Finset.range S, f a b = ∑ k ∈ Finset.range (n * S), f (k / S) (k % S) := by
    intro n
    induction n with
    | zero => simp
    | succ n ih =>
      rw [Finset.sum_range_succ, ih, Nat.succ_mul, Finset.sum_range_add]
      congr 1
      refine Finset.sum_congr rfl fun b hb => ?_
      have hb' : b < S := by simpa using hb
      have hS : 0 < S := by omega
      rw [Nat.mul_comm n S, Nat.mul_add_div hS, Nat.div_eq_of_lt hb', Nat.mul_add_mod, Nat.mod_eq_of_lt hb', Nat.add_zero]
  rw [key, pow_two]

/-- stabilised einsum on finite entries equals the plain sum of products. -/
theorem EinsumLayer.row_fin {L : SumL} (hL : L.logits.shape = EinsumLayer.weightShape L) (hf : L.FinLogits)
    (hS : 0 < L.num_sums_in) {x : Row} {d s r : Nat} (hd : d < EinsumLayer.numFeaturesOut L) (hs : s < L.num_sums_out)
    (hr : r < L.num_repetitions) (hl : ∀ k, k < L.num_sums_in → (x (2 * d) k r).IsFin)
    (hr' : ∀ k, k < L.num_sums_in → (x (2 * d + 1) k r).IsFin) :
    (EinsumLayer.row L x d s r).IsFin ∧ toP (EinsumLayer.row L x d s r) =
      ∑ k ∈ Finset.range (L.num_sums_in ^ 2), toP (L.lwEin 1 d s r k) *
        (toP (x (2 * d) (k / L.num_sums_in) r) * toP (x (2 * d + 1) (k % L.num_sums_in) r)) := by
  obtain ⟨ml, hml⟩ := Fl.maxN_eq_fin hS (f := fun k => x (2 * d) k r) fun k hk => (hl k hk).eq
  obtain ⟨mr, hmr⟩ := Fl.maxN_eq_fin hS (f := fun k => x (2 * d + 1) k r) fun k hk => (hr' k hk).eq
  have hw := L.lwEin_fin hL hf hS one_ne_zero hd hs hr
  have hdiv : ∀ k, k < L.num_sums_in ^ 2 → L.logits.get [d, s, r, k / L.num_sums_in, k % L.num_sums_in] / Fl.fin 1 =
      L.logits.get [d, s, r, k / L.num_sums_in, k % L.num_sums_in] := by
    intro k hk
    obtain ⟨v, hv⟩ := hf [d, s, r, k / L.num_sums_in, k % L.num_sums_in] (by
      rw [hL]
      exact ⟨hd, hs, hr, Nat.div_lt_of_lt_mul (by rwa [← pow_two]), Nat.mod_lt _ hS, by simp⟩)
    rw [hv, Fl.fin_div _ one_ne_zero, div_one]
  have hsm : ∀ k, k < L.num_sums_in ^ 2 → Fl.softmax (L.num_sums_in ^ 2)
      (fun k => L.logits.get [d, s, r, k / L.num_sums_in, k % L.num_sums_in]) k = Fl.fin (toP (L.lwEin 1 d s r k)).toReal := by
    intro k hk
    rw [← exp_toP (NN_of_isFin (hw.1 k hk))]
    unfold Fl.softmax SumL.lwEin
    rw [Fl.logSoftmax_congr hdiv hk]
  set A : Nat → ℝ := fun k => (toP (x (2 * d) k r)).toReal with hA
  set B : Nat → ℝ := fun k => (toP (x (2 * d + 1) k r)).toReal with hB
  set W : Nat → ℝ := fun k => (toP (L.lwEin 1 d s r k)).toReal with hW
  have hex : ∀ (a : Fl) (m : ℝ), a.IsFin → Fl.exp (a - Fl.fin m) = Fl.fin ((toP a).toReal * Real.exp (-m)) := by
    rintro _ m ⟨v, rfl⟩
    simp [(Real.exp_pos v).le, ← Real.exp_add, sub_eq_add_neg]
  have hsum : (Fl.sumN L.num_sums_in fun a => Fl.sumN L.num_sums_in fun b =>
      Fl.exp (x (2 * d) a r - Fl.fin ml) * Fl.exp (x (2 * d + 1) b r - Fl.fin mr) *
        Fl.softmax (L.num_sums_in ^ 2) (fun k => L.logits.get [d, s, r, k / L.num_sums_in, k % L.num_sums_in])
          (a * L.num_sums_in + b)) =
      Fl.fin (∑ a ∈ Finset.range L.num_sums_in, ∑ b ∈ Finset.range L.num_sums_in,
        A a * Real.exp (-ml) * (B b * Real.exp (-mr)) * W (a * L.num_sums_in + b)) := by
    refine Fl.sumN_eq_fin fun a ha => Fl.sumN_eq_fin fun b hb => ?_
    have hab : a * L.num_sums_in + b < L.num_sums_in ^ 2 := by nlinarith
    rw [hex _ _ (hl a ha), hex _ _ (hr' b hb), hsm _ hab]
    simp [hA, hB, hW]
  have hfac : (∑ a ∈ Finset.range L.num_sums_in, ∑ b ∈ Finset.range L.num_sums_in,
        A a * Real.exp (-ml) * (B b * Real.exp (-mr)) * W (a * L.num_sums_in + b)) =
      Real.exp (-ml) * Real.exp (-mr) * ∑ a ∈ Finset.range L.num_sums_in, ∑ b ∈ Finset.range L.num_sums_in,
        W (a * L.num_sums_in + b) * (A a * B b) := by
    rw [Finset.mul_sum]
    refine Finset.sum_congr rfl fun a _ => ?_
    rw [Finset.mul_sum]
    exact Finset.sum_congr rfl fun b _ => by ring
  have posA : ∀ a, a < L.num_sums_in → 0 < A a := fun a ha =>
    ENNReal.toReal_pos (toP_ne_zero (hl a ha)) (toP_ne_top (hl a ha))
  have posB : ∀ a, a < L.num_sums_in → 0 < B a := fun a ha =>
    ENNReal.toReal_pos (toP_ne_zero (hr' a ha)) (toP_ne_top (hr' a ha))
  have posW : ∀ a, a < L.num_sums_in ^ 2 → 0 < W a := fun a ha =>
    ENNReal.toReal_pos (toP_ne_zero (hw.1 a ha)) (toP_ne_top (hw.1 a ha))
  set Z := ∑ a ∈ Finset.range L.num_sums_in, ∑ b ∈ Finset.range L.num_sums_in, W (a * L.num_sums_in + b) * (A a * B b)
    with hZ
  have posT : ∀ a, a < L.num_sums_in → ∀ b, b < L.num_sums_in → 0 < W (a * L.num_sums_in + b) * (A a * B b) :=
    fun a ha b hb => mul_pos (posW _ (by nlinarith)) (mul_pos (posA a ha) (posB b hb))
  have hne : (Finset.range L.num_sums_in).Nonempty := ⟨0, by simpa using hS⟩
  have posZ : 0 < Z := Finset.sum_pos (fun a ha => Finset.sum_pos (fun b hb =>
    posT a (by simpa using ha) b (by simpa using hb)) hne) hne
  have hrow : EinsumLayer.row L x d s r = Fl.fin (Real.log Z) := by
    unfold EinsumLayer.row
    simp only [hml, hmr]
    rw [hsum, hfac, Fl.log_fin (mul_pos (mul_pos (Real.exp_pos _) (Real.exp_pos _)) posZ)]
    simp only [Fl.fin_add]
    congr 1
    rw [Real.log_mul (mul_pos (Real.exp_pos _) (Real.exp_pos _)).ne' posZ.ne',
      Real.log_mul (Real.exp_pos _).ne' (Real.exp_pos _).ne', Real.log_exp, Real.log_exp]
    ring
  refine ⟨⟨_, hrow⟩, ?_⟩
  rw [hrow, toP_fin, Real.exp_log posZ, hZ]
  rw [ENNReal.ofReal_sum_of_nonneg fun a ha => Finset.sum_nonneg fun b hb =>
    (posT a (by simpa using ha) b (by simpa using hb)).le]
  have : ∀ a ∈ Finset.range L.num_sums_in, ENNReal.ofReal (∑ b ∈ Finset.range L.num_sums_in,
      W (a * L.num_sums_in + b) * (A a * B b)) = ∑ b ∈ Finset.range L.num_sums_in,
        toP (L.lwEin 1 d s r (a * L.num_sums_in + b)) * (toP (x (2 * d) a r) * toP (x (2 * d + 1) b r)) := by
    intro a ha
    have ha' : a < L.num_sums_in := by simpa using ha
    rw [ENNReal.ofReal_sum_of_nonneg fun b hb => (posT a ha' b (by simpa using hb)).le]
    refine Finset.sum_congr rfl fun b hb => ?_
    have hb' : b < L.num_sums_in := by simpa using hb
    have hab : a * L.num_sums_in + b < L.num_sums_in ^ 2 := by nlinarith
    rw [ENNReal.ofReal_mul (posW _ hab).le, ENNReal.ofReal_mul (posA _ ha').le]
    simp only [hA, hB, hW]
    rw [ENNReal.ofReal_toReal (toP_ne_top (hw.1 _ hab)), ENNReal.ofReal_toReal (toP_ne_top (hl a ha')),
      ENNReal.ofReal_toReal (toP_ne_top (hr' b hb'))]
  rw [Finset.sum_congr rfl this]
  rw [Finset.sum_square L.num_sums_in fun a b => toP (L.lwEin 1 d s r (a * L.num_sums_in + b)) *
    (toP (x (2 * d) a r) * toP (x (2 * d + 1) b r))]
  refine Finset.sum_congr rfl fun k _ => ?_
  rw [Nat.div_add_mod' k L.num_sums_in]

namespace Layer

/-- the layer is an einsum layer, whose stabilised forward pass needs finite inputs. -/
def isEinsum : Layer → Bool
  | einsum _ => true
  | _ => false

/-- `forward` on log-probabilities computes the logarithm of `den`. -/
theorem row_den {l : Layer} {Di Si Do So R : Nat} (h : WF l Di Si Do So R) {b : Bool} (hb : l.isEinsum = true → b = true)
    {x : Row} {r : Nat} (hr : r < R) (hx : ∀ d, d < Di → ∀ k, k < Si → Okay b (x d k r)) {d s : Nat} (hd : d < Do)
    (hs : s < So) :
    Okay b (l.row x d s r) ∧ toP (l.row x d s r) = l.den 1 (fun d k r => toP (x d k r)) d s r := by
  have sumrow : ∀ (L : SumL) (D : Nat) (hL : L.logits.shape = [D, L.num_sums_in, L.num_sums_out, L.num_repetitions])
      (hf : L.FinLogits) (hS : 0 < L.num_sums_in) (d s : Nat) (_ : d < D) (_ : s < L.num_sums_out)
      (_ : r < L.num_repetitions) (y : Nat → Fl) (_ : ∀ k, k < L.num_sums_in → Okay b (y k)),
      Okay b (Fl.lse L.num_sums_in fun k => y k + L.lw 1 d k s r) ∧
      toP (Fl.lse L.num_sums_in fun k => y k + L.lw 1 d k s r) =
        ∑ k ∈ Finset.range L.num_sums_in, toP (L.lw 1 d k s r) * toP (y k) := by
    intro L D hL hf hS d s hd hs hr y hy
    have hw := L.lw_fin hL hf hS one_ne_zero hd hs hr
    have nn : ∀ k, k < L.num_sums_in → NN (y k + L.lw 1 d k s r) := fun k hk =>
      (hy k hk).nn.add (NN_of_isFin (hw.1 k hk))
    have e : toP (Fl.lse L.num_sums_in fun k => y k + L.lw 1 d k s r) =
        ∑ k ∈ Finset.range L.num_sums_in, toP (L.lw 1 d k s r) * toP (y k) := by
      rw [toP_lse nn]
      refine Finset.sum_congr rfl fun k hk => ?_
      have hk' : k < L.num_sums_in := by simpa using hk
      rw [toP_add (hy k hk').nn (NN_of_isFin (hw.1 k hk')), mul_comm]
    refine ⟨okay_of (NN_lse nn) fun hb => ?_, e⟩
    rw [e]
    intro h0
    have := Finset.sum_eq_zero_iff.1 h0 0 (by simpa using hS)
    rcases mul_eq_zero.1 this with h1 | h1
    · exact toP_ne_zero (hw.1 0 hS) h1
    · exact (hy 0 hS).ne_zero hb h1
  cases h with
  | sum L hL hf hS =>
    exact sumrow L _ hL hf hS d s hd hs hr (fun k => x d k r) (hx d hd)
  | linsum L hL hf hS hD =>
    have hO : LinsumLayer.numFeaturesOut L = (L.num_features + L.num_features % 2) / 2 := rfl
    have h2 : 2 * d < L.num_features := by omega
    have rc : ∀ k, k < L.num_sums_in → _ := fun k hk =>
      toP_rightChild (D := L.num_features) (x := x) (d := d) (k := k) (r := r) fun hc => (hx _ hc k hk).nn
    have ok : ∀ k, k < L.num_sums_in → Okay b (x (2 * d) k r + rightChild L.num_features x d k r) := by
      intro k hk
      refine okay_of ((hx _ h2 k hk).nn.add (rc k hk).2) fun hb => ?_
      rw [toP_add (hx _ h2 k hk).nn (rc k hk).2, (rc k hk).1]
      refine mul_ne_zero ((hx _ h2 k hk).ne_zero hb) ?_
      unfold rightP
      split_ifs with hc
      · exact (hx _ hc k hk).ne_zero hb
      · simp
    have := sumrow L _ hL hf hS d s hd hs hr (fun k => x (2 * d) k r + rightChild L.num_features x d k r) ok
    refine ⟨this.1, this.2.trans (Finset.sum_congr rfl fun k hk => ?_)⟩
    have hk' : k < L.num_sums_in := by simpa using hk
    rw [toP_add (hx _ h2 k hk').nn (rc k hk').2, (rc k hk').1]
  | linsum2 L hL hf hS hD hE =>
    have hO : LinsumLayer2.numFeaturesOut L = (L.num_features + L.num_features % 2) / 2 := rfl
    have h2 : 2 * d < L.num_features := by omega
    have s1 : Okay b (SumLayer.row L x (2 * d) s r) ∧ toP (SumLayer.row L x (2 * d) s r) = _ :=
      sumrow L _ hL hf hS (2 * d) s h2 hs hr (fun k => x (2 * d) k r) (hx _ h2)
    have s2 := fun hc : 2 * d + 1 < L.num_features =>
      sumrow L _ hL hf hS (2 * d + 1) s hc hs hr (fun k => x (2 * d + 1) k r) (hx _ hc)
    have rc := toP_rightChild (D := L.num_features) (x := SumLayer.row L x) (d := d) (k := s) (r := r)
      fun hc => (s2 hc).1.nn
    have e : toP (LinsumLayer2.row L x d s r) = den 1 (.linsum2 L) (fun d k r => toP (x d k r)) d s r := by
      unfold LinsumLayer2.row
      rw [toP_add s1.1.nn rc.2, rc.1, show toP (SumLayer.row L x (2 * d) s r) = _ from s1.2]
      simp only [den]
      congr 1
      unfold rightP
      split_ifs with hc
      · exact (s2 hc).2
      · rfl
    refine ⟨okay_of (s1.1.nn.add rc.2) fun hb => ?_, e⟩
    have : toP (SumLayer.row L x (2 * d) s r + rightChild L.num_features (SumLayer.row L x) d s r) ≠ 0 := by
      rw [toP_add s1.1.nn rc.2, rc.1]
      refine mul_ne_zero (s1.1.ne_zero hb) ?_
      unfold rightP
      split_ifs with hc
      · exact (s2 hc).1.ne_zero hb
      · simp
    exact this
  | einsum L hL hf hS hO hR hD hE =>
    have hb' := hb rfl
    subst hb'
    have hO' : EinsumLayer.numFeaturesOut L = L.num_features / 2 := rfl
    exact EinsumLayer.row_fin hL hf hS hd hs hr (fun k hk => hx (2 * d) (by omega) k hk)
      fun k hk => hx (2 * d + 1) (by omega) k hk
  | rootProduct =>
    have := toP_sumN (n := Di) (f := fun j => x j s r) fun j hj => (hx j hj s hs).nn
    refine ⟨okay_of this.2 fun hb => ?_, this.1⟩
    have h2 : toP (Fl.sumN Di fun j => x j s r) ≠ 0 := by
      rw [this.1]
      exact Finset.prod_ne_zero_iff.2 fun j hj => (hx j (by simpa using hj) s hs).ne_zero hb
    exact h2

/-- `den` depends on in-range entries of the same repetition only. -/
theorem den_congr {l : Layer} {Di Si Do So R : Nat} (h : WF l Di Si Do So R) {T : ℝ} {x y : PRow} {r : Nat}
    (hxy : ∀ d, d < Di → ∀ k, k < Si → x d k r = y d k r) {d s : Nat} (hd : d < Do) (hs : s < So) :
    l.den T x d s r = l.den T y d s r := by
  cases h with
  | sum L hL hf hS =>
    exact Finset.sum_congr rfl fun k hk => by rw [hxy d hd k (by simpa using hk)]
  | linsum L hL hf hS hD =>
    have hO : LinsumLayer.numFeaturesOut L = (L.num_features + L.num_features % 2) / 2 := rfl
    refine Finset.sum_congr rfl fun k hk => ?_
    have hk' : k < L.num_sums_in := by simpa using hk
    rw [hxy (2 * d) (by omega) k hk']
    unfold rightP
    split_ifs with hc
    · rw [hxy _ hc k hk']
    · rfl
  | linsum2 L hL hf hS hD hE =>
    have hO : LinsumLayer2.numFeaturesOut L = (L.num_features + L.num_features % 2) / 2 := rfl
    have key : ∀ d, d < L.num_features → ∑ k ∈ Finset.range L.num_sums_in, toP (L.lw T d k s r) * x d k r =
        ∑ k ∈ Finset.range L.num_sums_in, toP (L.lw T d k s r) * y d k r := fun d hd =>
      Finset.sum_congr rfl fun k hk => by rw [hxy d hd k (by simpa using hk)]
    simp only [den]
    rw [key (2 * d) (by omega)]
    unfold rightP
    split_ifs with hc
    · exact congrArg _ (key _ hc)
    · rfl
  | einsum L hL hf hS hO hR hD hE =>
    have hO' : EinsumLayer.numFeaturesOut L = L.num_features / 2 := rfl
    refine Finset.sum_congr rfl fun k hk => ?_
    have hk' : k < L.num_sums_in ^ 2 := by simpa using hk
    rw [hxy (2 * d) (by omega) _ (Nat.div_lt_of_lt_mul (by rwa [← pow_two])),
      hxy (2 * d + 1) (by omega) _ (Nat.mod_lt _ hS)]
  | rootProduct =>
    exact Finset.prod_congr rfl fun j hj => hxy j (by simpa using hj) s hs

/-- a node of probability zero stays at zero when its inputs are multiplied by anything. -/
theorem den_zero (l : Layer) {T : ℝ} {e u : PRow} {d s r : Nat} (h0 : l.den T e d s r = 0) :
    l.den T (fun d k r => u d k r * e d k r) d s r = 0 := by
  have rz : ∀ (D : Nat) (x y : PRow) (d k r : Nat), (∀ d, x d k r = 0 → y d k r = 0) → rightP D x d k r = 0 →
      rightP D y d k r = 0 := by
    intro D x y d k r h
    unfold rightP
    split_ifs with hc
    · exact h _
    · simp
  have mz : ∀ d k r, e d k r = 0 → u d k r * e d k r = 0 := fun d k r h => by rw [h, mul_zero]
  cases l with
  | sum L =>
    refine Finset.sum_eq_zero fun k hk => ?_
    have := Finset.sum_eq_zero_iff.1 h0 k hk
    rcases mul_eq_zero.1 this with h | h <;> dsimp only
    · rw [h, zero_mul]
    · rw [h, mul_zero, mul_zero]
  | linsum L =>
    refine Finset.sum_eq_zero fun k hk => ?_
    have := Finset.sum_eq_zero_iff.1 h0 k hk
    rcases mul_eq_zero.1 this with h | h <;> dsimp only
    · rw [h, zero_mul]
    · rcases mul_eq_zero.1 h with h | h
      · rw [h, mul_zero, zero_mul, mul_zero]
      · rw [rz _ e _ _ _ _ (fun d => mz d k r) h, mul_zero, mul_zero]
  | linsum2 L =>
    have key : ∀ d, ∑ k ∈ Finset.range L.num_sums_in, toP (L.lw T d k s r) * e d k r = 0 →
        ∑ k ∈ Finset.range L.num_sums_in, toP (L.lw T d k s r) * (u d k r * e d k r) = 0 := by
      intro d h0
      refine Finset.sum_eq_zero fun k hk => ?_
      have := Finset.sum_eq_zero_iff.1 h0 k hk
      rcases mul_eq_zero.1 this with h | h
      · rw [h, zero_mul]
      · rw [h, mul_zero, mul_zero]
    simp only [den] at h0 ⊢
    rcases mul_eq_zero.1 h0 with h | h
    · rw [key _ h, zero_mul]
    · rw [rz _ _ _ _ _ _ (fun d => key d) h, mul_zero]
  | einsum L =>
    refine Finset.sum_eq_zero fun k hk => ?_
    have := Finset.sum_eq_zero_iff.1 h0 k hk
    rcases mul_eq_zero.1 this with h | h <;> dsimp only
    · rw [h, zero_mul]
    · rcases mul_eq_zero.1 h with h | h
      · rw [h, mul_zero, zero_mul, mul_zero]
      · rw [h, mul_zero, mul_zero, mul_zero]
  | rootProduct F R =>
    simp only [den] at h0 ⊢
    obtain ⟨j, hj, h⟩ := Finset.prod_eq_zero_iff.1 h0
    exact Finset.prod_eq_zero hj (by rw [h, mul_zero])

/-- finite inputs give finite outputs. -/
theorem den_ne_top {l : Layer} {Di Si Do So R : Nat} (h : WF l Di Si Do So R) {T : ℝ} (hT : T ≠ 0) {x : PRow} {r : Nat}
    (hr : r < R) (hx : ∀ d, d < Di → ∀ k, k < Si → x d k r ≠ ⊤) {d s : Nat} (hd : d < Do) (hs : s < So) :
    l.den T x d s r ≠ ⊤ := by
  cases h with
  | sum L hL hf hS =>
    have hw := L.lw_fin hL hf hS hT hd hs hr
    exact ENNReal.sum_ne_top.2 fun k hk => ENNReal.mul_ne_top (toP_ne_top (hw.1 k (by simpa using hk)))
      (hx d hd k (by simpa using hk))
  | linsum L hL hf hS hD =>
    have hO : LinsumLayer.numFeaturesOut L = (L.num_features + L.num_features % 2) / 2 := rfl
    have hw := L.lw_fin hL hf hS hT hd hs hr
    refine ENNReal.sum_ne_top.2 fun k hk => ?_
    have hk' : k < L.num_sums_in := by simpa using hk
    refine ENNReal.mul_ne_top (toP_ne_top (hw.1 k hk')) (ENNReal.mul_ne_top (hx _ (by omega) k hk') ?_)
    unfold rightP
    split_ifs with hc
    · exact hx _ hc k hk'
    · simp
  | linsum2 L hL hf hS hD hE =>
    have hO : LinsumLayer2.numFeaturesOut L = (L.num_features + L.num_features % 2) / 2 := rfl
    have key : ∀ d, d < L.num_features → ∑ k ∈ Finset.range L.num_sums_in, toP (L.lw T d k s r) * x d k r ≠ ⊤ := by
      intro d hd
      have hw := L.lw_fin hL hf hS hT hd hs hr
      exact ENNReal.sum_ne_top.2 fun k hk => ENNReal.mul_ne_top (toP_ne_top (hw.1 k (by simpa using hk)))
        (hx d hd k (by simpa using hk))
    simp only [den]
    refine ENNReal.mul_ne_top (key _ (by omega)) ?_
    unfold rightP
    split_ifs with hc
    · exact key _ hc
    · simp
  | einsum L hL hf hS hO hR hD hE =>
    have hO' : EinsumLayer.numFeaturesOut L = L.num_features / 2 := rfl
    have hw := L.lwEin_fin hL hf hS hT hd hs hr
    refine ENNReal.sum_ne_top.2 fun k hk => ?_
    have hk' : k < L.num_sums_in ^ 2 := by simpa using hk
    exact ENNReal.mul_ne_top (toP_ne_top (hw.1 k hk'))
      (ENNReal.mul_ne_top (hx _ (by omega) _ (Nat.div_lt_of_lt_mul (by rwa [← pow_two])))
        (hx _ (by omega) _ (Nat.mod_lt _ hS)))
  | rootProduct =>
    exact ENNReal.prod_ne_top fun j hj => hx j (by simpa using hj) s hs

/-- sum weights are normalised: constant one inputs give one. -/
theorem den_one {l : Layer} {Di Si Do So R : Nat} (h : WF l Di Si Do So R) {T : ℝ} (hT : T ≠ 0) {x : PRow} {r : Nat}
    (hr : r < R) (hx : ∀ d, d < Di → ∀ k, k < Si → x d k r = 1) {d s : Nat} (hd : d < Do) (hs : s < So) :
    l.den T x d s r = 1 := by
  rw [den_congr h (y := fun _ _ _ => 1) hx hd hs]
  have r1 : ∀ D d k r, rightP D (fun _ _ _ => 1) d k r = 1 := by intro D d k r; unfold rightP; split_ifs <;> rfl
  cases h with
  | sum L hL hf hS => simp only [den, mul_one]; exact (L.lw_fin hL hf hS hT hd hs hr).2
  | linsum L hL hf hS hD => simp only [den, r1, mul_one]; exact (L.lw_fin hL hf hS hT hd hs hr).2
  | linsum2 L hL hf hS hD hE =>
    have hO : LinsumLayer2.numFeaturesOut L = (L.num_features + L.num_features % 2) / 2 := rfl
    simp only [den, mul_one]
    rw [(L.lw_fin hL hf hS hT (d := 2 * d) (by omega) hs hr).2]
    unfold rightP
    split_ifs with hc
    · rw [one_mul]; exact (L.lw_fin hL hf hS hT hc hs hr).2
    · simp
  | einsum L hL hf hS hO hR hD hE => simp only [den, mul_one]; exact (L.lwEin_fin hL hf hS hT hd hs hr).2
  | rootProduct => simp [den]

end Layer
end Einet
