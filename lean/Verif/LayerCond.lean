import Verif.LayerSample

/-!
# Conditioning on cached inputs and hand-over of indices

For every layer the weights it samples from, with or without cached evidence, and the index tensor it passes on.
-/

open Classical MeasureTheory
open scoped ENNReal
noncomputable section
namespace Einet
open Tensor

/-- select the repetition of a rank-4 tensor (`gather(3, r_idxs).squeeze(3)`). -/
theorem gatherRep_is {t : Tensor Fl} {q : Tensor Nat} {N D S R : Nat} {f : Nat → Row} {rr : Nat → Nat}
    (h : t.Is4 N D S R f) {gx : List Nat → Nat} (hq : q.Is [N, D, S, 1] gx)
    (hg : ∀ n, n < N → ∀ d, d < D → ∀ k, k < S → gx [n, d, k, 0] = rr n) (hr : ∀ n, n < N → rr n < R)
    {β : Type} {k : Tensor Fl → Res β} {Q : β → Prop}
    (hk : ∀ t' : Tensor Fl, t'.Is3 N D S (fun n d k => f n d k (rr n)) → Res.Sat (k t') Q) :
    Res.Sat (do
      let u ← t.gather 3 q
      let u ← u.squeeze 3
      k u) Q := by
  refine (gather_is h hq (by simp) (by simp [leExcept]) (by
    simp [at']
    intro n hn d hd k hk
    rw [hg n hn d hd k hk]; exact hr n hn)).bind fun u hu => ?_
  refine (squeeze_is hu (by simp) (by simp [at'])).bind fun v hv => hk v (Is.is3 hv ?_)
  intro n hn d hd k hk
  simp [at', insAt, setAt, hg n hn d hd k hk]

/-- the expanded repetition indices. -/
theorem repIdx_is {ir : Tensor Nat} {N : Nat} {rr : Nat → Nat} (h : ir.Is [N] fun i => rr (at' 0 i)) (D S : Nat)
    (last : Option Nat) (hl : last = none ∨ last = some 1) :
    Res.Sat ((ir.unsqueezeEnd 3).expand [none, some D, some S, last]) fun q =>
      ∃ gx, q.Is [N, D, S, 1] gx ∧ ∀ n, n < N → ∀ d, d < D → ∀ k, k < S → gx [n, d, k, 0] = rr n := by
  have h' := unsqueezeEnd_is 3 h
  refine (expand_is (s' := [N, D, S, 1]) h' (by rcases hl with rfl | rfl <;> simp [expandShape])).mono fun q hq => ⟨_, hq, ?_⟩
  intro n hn d hd k hk
  simp [at', clipAll, clip_of_lt, hn]

theorem SumLayer.condition_is {L : SumL} {ctx : Ctx} {N : Nat} {idx : Nat → Nat → Nat} {rr : Nat → Nat}
    (h : CtxOK ctx N L.num_features L.num_sums_out L.num_repetitions idx rr) {x lw : Tensor Fl} {e : Nat → Row}
    (hx : x.Is4 N L.num_features L.num_sums_in L.num_repetitions e) {w : Nat → Nat → Nat → Fl}
    (hlw : lw.Is3 N L.num_features L.num_sums_in w)
    (hw : ∀ n, n < N → ∀ d, d < L.num_features → ∀ k, k < L.num_sums_in → NN (w n d k))
    (he : ∀ n, n < N → ∀ d, d < L.num_features → ∀ k, k < L.num_sums_in → NN (e n d k (rr n)))
    (h0 : ∀ n, n < N → ∀ d, d < L.num_features →
      ∑ k ∈ Finset.range L.num_sums_in, toP (w n d k) * toP (e n d k (rr n)) ≠ 0) :
    Res.Sat (SumLayer.condition L (.one x) ctx lw) fun W =>
      ∃ g, Weighted W N L.num_features L.num_sums_in (fun n d k => toP (w n d k) * toP (e n d k (rr n))) g := by
  refine (repIdx_is h.ir L.num_features L.num_sums_in (some 1) (Or.inr rfl)).bind fun q ⟨gx, hq, hg⟩ => ?_
  exact gatherRep_is hx hq hg h.ir_lt fun t ht => posteriorWeights_is hlw ht hw he h0

theorem LinsumLayer2.condition_is {L : SumL} {ctx : Ctx} {N Do So : Nat} {idx : Nat → Nat → Nat} {rr : Nat → Nat}
    (h : CtxOK ctx N Do So L.num_repetitions idx rr) {x lw : Tensor Fl} {e : Nat → Row}
    (hx : x.Is4 N L.num_features L.num_sums_in L.num_repetitions e) {w : Nat → Nat → Nat → Fl}
    (hlw : lw.Is3 N L.num_features L.num_sums_in w)
    (hw : ∀ n, n < N → ∀ d, d < L.num_features → ∀ k, k < L.num_sums_in → NN (w n d k))
    (he : ∀ n, n < N → ∀ d, d < L.num_features → ∀ k, k < L.num_sums_in → NN (e n d k (rr n)))
    (h0 : ∀ n, n < N → ∀ d, d < L.num_features →
      ∑ k ∈ Finset.range L.num_sums_in, toP (w n d k) * toP (e n d k (rr n)) ≠ 0) :
    Res.Sat (LinsumLayer2.condition L (.one x) ctx lw) fun W =>
      ∃ g, Weighted W N L.num_features L.num_sums_in (fun n d k => toP (w n d k) * toP (e n d k (rr n))) g := by
  refine (repIdx_is h.ir L.num_features L.num_sums_in none (Or.inl rfl)).bind fun q ⟨gx, hq, hg⟩ => ?_
  exact gatherRep_is hx hq hg h.ir_lt fun t ht => posteriorWeights_is hlw ht hw he h0

theorem LinsumLayer.condition_is {L : SumL} {ctx : Ctx} {N So : Nat} {idx : Nat → Nat → Nat} {rr : Nat → Nat}
    (h : CtxOK ctx N (numFeaturesOut L) So L.num_repetitions idx rr) {l r lw : Tensor Fl} {el er : Nat → Row}
    (hl : l.Is4 N (numFeaturesOut L) L.num_sums_in L.num_repetitions el)
    (hr : r.Is4 N (numFeaturesOut L) L.num_sums_in L.num_repetitions er) {w : Nat → Nat → Nat → Fl}
    (hlw : lw.Is3 N (numFeaturesOut L) L.num_sums_in w)
    (hw : ∀ n, n < N → ∀ d, d < numFeaturesOut L → ∀ k, k < L.num_sums_in → NN (w n d k))
    (hel : ∀ n, n < N → ∀ d, d < numFeaturesOut L → ∀ k, k < L.num_sums_in → NN (el n d k (rr n)))
    (her : ∀ n, n < N → ∀ d, d < numFeaturesOut L → ∀ k, k < L.num_sums_in → NN (er n d k (rr n)))
    (h0 : ∀ n, n < N → ∀ d, d < numFeaturesOut L →
      ∑ k ∈ Finset.range L.num_sums_in, toP (w n d k) * toP (el n d k (rr n) + er n d k (rr n)) ≠ 0) :
    Res.Sat (LinsumLayer.condition L (.two l r) ctx lw) fun W => ∃ g, Weighted W N (numFeaturesOut L) L.num_sums_in
      (fun n d k => toP (w n d k) * toP (el n d k (rr n) + er n d k (rr n))) g := by
  refine (repIdx_is h.ir (numFeaturesOut L) L.num_sums_in none (Or.inl rfl)).bind fun q ⟨gx, hq, hg⟩ => ?_
  refine gatherRep_is hl hq hg h.ir_lt fun tl htl => ?_
  refine gatherRep_is hr hq hg h.ir_lt fun tr htr => ?_
  refine (zipWith_is _ htl htr (by simp) (by simp [bshape]; rfl)).bind fun s hs => ?_
  rw [h.ns]
  refine (view_is hs rfl).bind fun v hv => ?_
  refine posteriorWeights_is hlw (e := fun n d k => el n d k (rr n) + er n d k (rr n)) (Is.is3 hv ?_) hw
    (fun n hn d hd k hk => (hel n hn d hd k hk).add (her n hn d hd k hk)) h0
  intro n hn d hd k hk
  rw [unflat_flat (show InB [N, numFeaturesOut L, L.num_sums_in] [n, d, k] from ⟨hn, hd, hk, by simp⟩)]
  simp [at', clipAll, clip_of_lt, hn, hd, hk]

theorem EinsumLayer.condition_is {L : SumL} {ctx : Ctx} {N So : Nat} {idx : Nat → Nat → Nat} {rr : Nat → Nat}
    (h : CtxOK ctx N (numFeaturesOut L) So L.num_repetitions idx rr) {l r lw : Tensor Fl} {el er : Nat → Row}
    (hl : l.Is4 N (numFeaturesOut L) L.num_sums_in L.num_repetitions el)
    (hr : r.Is4 N (numFeaturesOut L) L.num_sums_in L.num_repetitions er) {w : Nat → Nat → Nat → Fl}
    (hlw : lw.Is3 N (numFeaturesOut L) (L.num_sums_in ^ 2) w)
    (hw : ∀ n, n < N → ∀ d, d < numFeaturesOut L → ∀ k, k < L.num_sums_in ^ 2 → NN (w n d k))
    (hel : ∀ n, n < N → ∀ d, d < numFeaturesOut L → ∀ k, k < L.num_sums_in → NN (el n d k (rr n)))
    (her : ∀ n, n < N → ∀ d, d < numFeaturesOut L → ∀ k, k < L.num_sums_in → NN (er n d k (rr n)))
    (h0 : ∀ n, n < N → ∀ d, d < numFeaturesOut L → ∑ k ∈ Finset.range (L.num_sums_in ^ 2),
      toP (w n d k) * toP (el n d (k / L.num_sums_in) (rr n) + er n d (k % L.num_sums_in) (rr n)) ≠ 0) :
    Res.Sat (EinsumLayer.condition L (.two l r) ctx lw) fun W =>
      ∃ g, Weighted W N (numFeaturesOut L) (L.num_sums_in ^ 2)
      (fun n d k => toP (w n d k) * toP (el n d (k / L.num_sums_in) (rr n) + er n d (k % L.num_sums_in) (rr n))) g := by
  refine (repIdx_is h.ir (numFeaturesOut L) L.num_sums_in none (Or.inl rfl)).bind fun q ⟨gx, hq, hg⟩ => ?_
  refine gatherRep_is hl hq hg h.ir_lt fun tl htl => ?_
  refine (unsqueeze_is htl (by simp)).bind fun tl' htl' => ?_
  refine gatherRep_is hr hq hg h.ir_lt fun tr htr => ?_
  refine (unsqueeze_is htr (by simp)).bind fun tr' htr' => ?_
  refine (zipWith_is _ htl' htr' (by simp [insAt]) (by simp [insAt, bshape]; rfl)).bind fun s hs => ?_
  rw [h.ns]
  refine (view_is hs (by simp [numelS, pow_two])).bind fun v hv => ?_
  have dm : ∀ k, k < L.num_sums_in ^ 2 → k / L.num_sums_in < L.num_sums_in ∧ k % L.num_sums_in < L.num_sums_in := by
    intro k hk
    have hS : 0 < L.num_sums_in := by
      rcases Nat.eq_zero_or_pos L.num_sums_in with h0 | h0
      · rw [h0] at hk; simp at hk
      · exact h0
    exact ⟨Nat.div_lt_of_lt_mul (by rwa [← pow_two]), Nat.mod_lt _ hS⟩
  refine posteriorWeights_is hlw
    (e := fun n d k => el n d (k / L.num_sums_in) (rr n) + er n d (k % L.num_sums_in) (rr n)) (Is.is3 hv ?_) hw
    (fun n hn d hd k hk => (hel n hn d hd _ (dm k hk).1).add (her n hn d hd _ (dm k hk).2)) h0
  intro n hn d hd k hk
  have hk' := hk
  rw [pow_two] at hk' ⊢
  rw [unflat_merge hn hd hk']
  simp [at', clipAll, clip_of_lt, hn, hd, (dm k hk).1, (dm k hk).2, insAt, delAt]

theorem MixingLayer.condition_is {L : SumL} (hD : L.num_features = 1) {ctx : Ctx} {N R : Nat}
    {idx : Nat → Nat → Nat} {rr : Nat → Nat}
    (h : CtxOK ctx N L.num_features L.num_sums_out R idx rr) {x lw : Tensor Fl} {e : Nat → Row}
    (hx : x.Is4 N L.num_features L.num_sums_out L.num_sums_in e) {w : Nat → Nat → Nat → Fl}
    (hlw : lw.Is3 N L.num_features L.num_sums_in w)
    (hw : ∀ n, n < N → ∀ d, d < L.num_features → ∀ k, k < L.num_sums_in → NN (w n d k))
    (he : ∀ n, n < N → ∀ d, d < L.num_features → ∀ k, k < L.num_sums_in → NN (e n d (idx n d) k))
    (h0 : ∀ n, n < N → ∀ d, d < L.num_features →
      ∑ k ∈ Finset.range L.num_sums_in, toP (w n d k) * toP (e n d (idx n d) k) ≠ 0) :
    Res.Sat (MixingLayer.condition L (.one x) ctx lw) fun W =>
      ∃ g, Weighted W N L.num_features L.num_sums_in (fun n d k => toP (w n d k) * toP (e n d (idx n d) k)) g := by
  have hio := unsqueezeEnd_is 2 h.io
  refine (expand_is (s' := [N, 1, 1, L.num_sums_in]) hio (by simp [expandShape, hD])).bind fun p hp => ?_
  refine (gather_is hx hp (by simp) (by simp [leExcept, hD]) (by
    simp [at', clipAll, hD]
    intro n hn k hk
    simpa [clip_of_lt, hn] using h.io_lt n hn 0 (by omega))).bind fun u hu => ?_
  refine (squeeze_is hu (by simp) (by simp [at'])).bind fun v hv => ?_
  refine posteriorWeights_is hlw (e := fun n d k => e n d (idx n d) k) ?_ hw he h0
  rw [hD]
  refine Is.is3 hv ?_
  intro n hn d hd k hk
  have : d = 0 := by omega
  subst this
  simp [at', insAt, setAt, clipAll, clip_of_lt, hn, hD]

/-- `LinsumLayer._sample_from_weights`: both children of a parent take its drawn channel. -/
theorem LinsumLayer.post_is {L : SumL} {ctx : Ctx} {N : Nat} (hN : 0 < N) (hns : ctx.num_samples = N)
    {ix : Tensor Nat} {c : Nat → Nat → Nat} (h : ix.Is2 N (numFeaturesOut L) c) :
    Res.Sat (LinsumLayer.post L ctx ix) fun o => o.Is2 N L.num_features fun n d => c n (d / 2) := by
  refine (repeatInterleave_is h (by simp)).bind fun p hp => ?_
  rw [hns]
  refine (viewInfer_is (m := numFeaturesOut L * 2) hp (by simp [numelS]; omega)
    (by simp [numelS, setAt, at'])).bind fun v hv => ?_
  have hv' : v.Is2 N (numFeaturesOut L * 2) fun n d => c n (d / 2) := by
    refine Is.is2 hv ?_
    intro n hn d hd
    have e : unflat (setAt 1 (at' 1 [N, numFeaturesOut L] * 2) [N, numFeaturesOut L])
        (flat ([N] ++ [numFeaturesOut L * 2]) [n, d]) = [n, d] :=
      unflat_flat (s := [N, numFeaturesOut L * 2]) ⟨hn, hd, by simp⟩
    rw [e]
    rfl
  have hO : numFeaturesOut L = (L.num_features + L.num_features % 2) / 2 := rfl
  split_ifs with h1
  · have hs : v.size 1 = numFeaturesOut L * 2 := by rw [size, hv'.1]; rfl
    rw [hs]
    refine (take_is hv' (by simp)).mono fun q hq => ?_
    have e : min (numFeaturesOut L * 2 - pad L) (at' 1 [N, numFeaturesOut L * 2]) = L.num_features := by
      show min (numFeaturesOut L * 2 - L.num_features % 2) (numFeaturesOut L * 2) = L.num_features
      omega
    rw [e] at hq
    exact Is.is2 hq (by intro n hn d hd; rfl)
  · have e : numFeaturesOut L * 2 = L.num_features := by unfold pad at h1; omega
    rw [e] at hv'
    exact Res.Sat.ok hv'

theorem LinsumLayer2.post_is {L : SumL} (hD : L.num_features % 2 = 0) {ctx : Ctx} {N : Nat} (hN : 0 < N)
    (hns : ctx.num_samples = N) {ix : Tensor Nat} {c : Nat → Nat → Nat} (h : ix.Is2 N L.num_features c) :
    Res.Sat (LinsumLayer2.post L ctx ix) fun o => o.Is2 N L.num_features c := by
  unfold LinsumLayer2.post
  rw [hns]
  refine (viewInfer_is (m := L.num_features) h (by simp [numelS]; omega) (by simp [numelS])).bind fun v hv => ?_
  rw [if_neg (by unfold pad; omega)]
  refine Res.Sat.ok (Is.is2 hv ?_)
  intro n hn d hd
  have e : unflat [N, L.num_features] (flat ([N] ++ [L.num_features]) [n, d]) = [n, d] :=
    unflat_flat (s := [N, L.num_features]) ⟨hn, hd, by simp⟩
  rw [e]
  rfl

theorem unraveled_getD (S : Nat) {k : Nat} (hk : k < S * S) :
    (EinsumLayer.unraveled S).getD k (0, 0) = (k / S, k % S) := by
  have key : ∀ n k, k < n * S →
      ((List.range n).flatMap fun i => (List.range S).map fun j => (i, j)).getD k (0, 0) = (k / S, k % S) ∧
      ((List.range n).flatMap fun i => (List.range S).map fun j => (i, j)).length = n * S := by
    intro n
    induction n with
    | zero => intro k hk; simp at hk
    | succ n ih =>
      intro k hk
      have hS : 0 < S := by
        rcases Nat.eq_zero_or_pos S with rfl | h
        · simp at hk
        · exact h
      have hlen : ((List.range n).flatMap fun i => (List.range S).map fun j => (i, j)).length = n * S := by
        simp [List.length_flatMap]
      rw [List.range_succ, List.flatMap_append]
      constructor
      · by_cases h1 : k < n * S
        · rw [List.getD_eq_getElem?_getD, List.getElem?_append_left (by rw [hlen]; exact h1),
            ← List.getD_eq_getElem?_getD]
          exact (ih k h1).1
        · rw [List.getD_eq_getElem?_getD, List.getElem?_append_right (by rw [hlen]; omega), hlen]
          have h2 : k - n * S < S := by
            have : (n + 1) * S = n * S + S := by ring
            omega
          have e : k = S * n + (k - n * S) := by
            have : S * n = n * S := Nat.mul_comm _ _
            omega
          have d1 : k / S = n := by
            rw [e, Nat.mul_add_div hS, Nat.div_eq_of_lt h2, Nat.add_zero]
          have d2 : k % S = k - n * S := by
            conv_lhs => rw [e]
            rw [Nat.mul_add_mod, Nat.mod_eq_of_lt h2]
          rw [d1, d2]
          simp [h2]
      · simp [List.length_flatMap, Nat.succ_mul]
  exact (key S k hk).1

theorem unraveled_length (S : Nat) : (EinsumLayer.unraveled S).length = S * S := by
  simp [EinsumLayer.unraveled, List.length_flatMap]

/-- `EinsumLayer._sample_from_weights`: the left child takes the row, the right child the column of the drawn pair. -/
theorem EinsumLayer.post_is {L : SumL} (hD : L.num_features % 2 = 0) {ctx : Ctx} {N : Nat} (hN : 0 < N)
    (hns : ctx.num_samples = N) {ix : Tensor Nat} {c : Nat → Nat → Nat} (h : ix.Is2 N (numFeaturesOut L) c)
    (hc : ∀ n, n < N → ∀ d, d < numFeaturesOut L → c n d < L.num_sums_in ^ 2) :
    Res.Sat (EinsumLayer.post L ctx ix) fun o => o.Is2 N L.num_features fun n d =>
      if d % 2 = 0 then c n (d / 2) / L.num_sums_in else c n (d / 2) % L.num_sums_in := by
  have hO : numFeaturesOut L = L.num_features / 2 := rfl
  have hlen := unraveled_length L.num_sums_in
  have hU : (unraveledT L.num_sums_in).Is (L.num_sums_in * L.num_sums_in :: [2])
      (fun i => if at' 1 i = 0 then at' 0 i / L.num_sums_in else at' 0 i % L.num_sums_in) := by
    refine ⟨by simp [unraveledT, hlen], ?_⟩
    simp only [AllIdx_cons, AllIdx_nil, unraveledT, at']
    intro k hk j hj
    rw [unraveled_getD _ hk]
  refine (indexRows_is hU h (by
    simp only [AllIdx_cons, AllIdx_nil, at']
    intro n hn d hd
    rw [← pow_two]; exact hc n hn d hd)).bind fun p hp => ?_
  rw [hns]
  refine (viewInfer_is (m := L.num_features) hp (by simp [numelS]; omega)
    (by simp only [numelS, List.cons_append, List.nil_append]; rw [hO, Nat.mul_one, Nat.mul_one]; congr 1; omega)).mono
    fun v hv => ?_
  refine Is.is2 hv ?_
  intro n hn d hd
  have e : unflat ([N, numFeaturesOut L] ++ [2]) (flat ([N] ++ [L.num_features]) [n, d]) = [n, d / 2, d % 2] := by
    refine unflat_eq (s := [N, numFeaturesOut L, 2]) ⟨hn, by omega, Nat.mod_lt _ (by omega), by simp⟩ ?_
    have e2 : numFeaturesOut L * 2 = L.num_features := by omega
    have := Nat.div_add_mod d 2
    simp only [flat, numelS, List.cons_append, List.nil_append, Nat.mul_one, e2]
    omega
  rw [e]
  simp [at']

end Einet
