import Verif.LayerFwd

/-!
# Sampling of the sum layers, entry by entry

Lemmas: which weights the sampling of each layer uses (`selectWeights`, `condition`), which distribution over child
indices results, and how the drawn indices are handed to the next layer.
-/

open Classical MeasureTheory
open scoped ENNReal
noncomputable section
namespace Einet
open Tensor

/-- the first maximal position carries the largest probability. -/
theorem argmaxN_toP {n : Nat} {f : Nat → Fl} (h : ∀ i, i < n → NN (f i)) :
    ∀ i, i < n → toP (f i) ≤ toP (f (Fl.argmaxN n f)) := by
  have key : ∀ a b : Fl, NN a → NN b → (Fl.better a b → toP a ≤ toP b) ∧ (¬ Fl.better a b → toP b ≤ toP a) := by
    intro a b ha hb
    cases a <;> cases b <;> simp_all [NN, Fl.better, Fl.lt, toP]
    · rename_i r s
      constructor
      · intro h; exact ENNReal.ofReal_le_ofReal (Real.exp_le_exp.2 h.le)
      · intro h; exact ENNReal.ofReal_le_ofReal (Real.exp_le_exp.2 h)
  induction n with
  | zero => intro i hi; omega
  | succ n ih =>
    have ih' := ih fun i hi => h i (by omega)
    intro i hi
    have hfa : NN (f (Fl.argmaxN n f)) := by
      by_cases h0 : n = 0
      · subst h0; simpa [Fl.argmaxN] using h 0 (by omega)
      · exact h _ (by have := Fl.argmaxN_lt (n := n) (by omega) f; omega)
    have k := key _ _ hfa (h n (by omega))
    simp only [Fl.argmaxN]
    split_ifs with hb
    · by_cases hin : i = n
      · rw [hin]
      · exact (ih' i (by omega)).trans (k.1 hb)
    · by_cases hin : i = n
      · rw [hin]; exact k.2 hb
      · exact ih' i (by omega)

/-- `W` holds, for every batch entry and feature, the normalised logarithms of the non-negative numbers `a n d k`. -/
structure Weighted (W : Tensor Fl) (N D K : Nat) (a : Nat → Nat → Nat → ℝ≥0∞) (g : Nat → Nat → Nat → Fl) : Prop where
  is3 : W.Is3 N D K g
  nn : ∀ n, n < N → ∀ d, d < D → ∀ k, k < K → NN (g n d k)
  eq : ∀ n, n < N → ∀ d, d < D → ∀ k, k < K → toP (g n d k) = a n d k / ∑ j ∈ Finset.range K, a n d j
  ne_zero : ∀ n, n < N → ∀ d, d < D → ∑ j ∈ Finset.range K, a n d j ≠ 0
  ne_top : ∀ n, n < N → ∀ d, d < D → ∑ j ∈ Finset.range K, a n d j ≠ ⊤

theorem Weighted.sum_eq {W : Tensor Fl} {N D K : Nat} {a : Nat → Nat → Nat → ℝ≥0∞} {g : Nat → Nat → Nat → Fl}
    (h : Weighted W N D K a g) {n d : Nat} (hn : n < N) (hd : d < D) :
    ∑ k ∈ Finset.range K, toP (g n d k) = 1 := by
  rw [Finset.sum_congr rfl fun k hk => h.eq n hn d hd k (by simpa using hk)]
  simp only [div_eq_mul_inv]
  rw [← Finset.sum_mul]
  exact ENNReal.mul_inv_cancel (h.ne_zero n hn d hd) (h.ne_top n hn d hd)

theorem Weighted.logSoftmax {W : Tensor Fl} {N D K : Nat} {a : Nat → Nat → Nat → ℝ≥0∞} {g : Nat → Nat → Nat → Fl}
    (h : Weighted W N D K a g) {n d k : Nat} (hn : n < N) (hd : d < D) (hk : k < K) :
    toP (Fl.logSoftmax K (g n d) k) = a n d k / ∑ j ∈ Finset.range K, a n d j ∧ NN (Fl.logSoftmax K (g n d) k) := by
  have := toP_logSoftmax (f := g n d) (fun k hk => h.nn n hn d hd k hk) (by rw [h.sum_eq hn hd]; simp) hk
  rw [h.sum_eq hn hd, div_one, h.eq n hn d hd k hk] at this
  exact this

theorem Weighted.pos {W : Tensor Fl} {N D K : Nat} {a : Nat → Nat → Nat → ℝ≥0∞} {g : Nat → Nat → Nat → Fl}
    (h : Weighted W N D K a g) {n d : Nat} (hn : n < N) (hd : d < D) : 0 < K := by
  rcases Nat.eq_zero_or_pos K with rfl | h0
  · exact absurd (by simp) (h.ne_zero n hn d hd)
  · exact h0

/-- context of a sampling pass: batch size `N`, parent channel `idx n d < S` for every output feature, repetition
`rr n < R`. -/
structure CtxOK (ctx : Ctx) (N D S R : Nat) (idx : Nat → Nat → Nat) (rr : Nat → Nat) : Prop where
  ns : ctx.num_samples = N
  io : ctx.indices_out.Is2 N D idx
  io_lt : ∀ n, n < N → ∀ d, d < D → idx n d < S
  ir : ctx.indices_repetition.Is [N] fun i => rr (at' 0 i)
  ir_lt : ∀ n, n < N → rr n < R

theorem CtxOK.check {ctx : Ctx} {N D S R : Nat} {idx : Nat → Nat → Nat} {rr : Nat → Nat}
    (h : CtxOK ctx N D S R idx rr) : checkContext D ctx = .ok () := by
  have h1 : ctx.indices_out.shape = [N, D] := h.io.1
  have h2 : ctx.indices_repetition.shape = [N] := h.ir.1
  simp [checkContext, rank, size, h1, h2, at', h.ns]

/-- product over batch and features. -/
def prod2 (N D : Nat) (f : Nat → Nat → ℝ≥0∞) : ℝ≥0∞ := ∏ n ∈ Finset.range N, ∏ d ∈ Finset.range D, f n d

theorem prodBox_two (N D : Nat) (h : List Nat → ℝ≥0∞) : prodBox [N, D] h = prod2 N D fun n d => h [n, d] := by
  simp only [prodBox_cons, prodBox_nil, prod2]

theorem prod2_congr {N D : Nat} {f g : Nat → Nat → ℝ≥0∞} (h : ∀ n, n < N → ∀ d, d < D → f n d = g n d) :
    prod2 N D f = prod2 N D g :=
  Finset.prod_congr rfl fun n hn => Finset.prod_congr rfl fun d hd => h n (by simpa using hn) d (by simpa using hd)

/-- law of the index draw of one layer. -/
theorem drawIndices_E {ctx : Ctx} (hm : ctx.is_mpe = false) {W : Tensor Fl} {N D K : Nat}
    {a : Nat → Nat → Nat → ℝ≥0∞} {g : Nat → Nat → Nat → Fl} (h : Weighted W N D K a g) (hK : 0 < K)
    (f : Nat → Nat → Nat → ℝ≥0∞) :
    (drawIndices ctx W).E (fun ix => prod2 N D fun n d => f n d (ix.get [n, d])) =
      prod2 N D fun n d => (∑ k ∈ Finset.range K, a n d k * f n d k) / ∑ k ∈ Finset.range K, a n d k := by
  have := Tensor.E_categorical (d := 2) h.is3 (by simp) (by simpa [at'] using hK)
    (by
      simp only [delAt, AllIdx_cons, AllIdx_nil, at', insAt]
      intro n hn d hd k hk
      exact (h.logSoftmax hn hd hk).2.ne_nan) (fun i k => f (at' 0 i) (at' 1 i) k)
  simp only [delAt, prodBox_two, insAt, at'] at this
  simp only [drawIndices, hm, Bool.false_eq_true, if_false]
  rw [this]
  refine prod2_congr fun n hn d hd => ?_
  rw [div_eq_mul_inv, Finset.sum_mul]
  refine Finset.sum_congr rfl fun k hk => ?_
  have e := (h.logSoftmax hn hd (by simpa using hk)).1
  rw [show Fl.logSoftmax K (fun k => g n d k) k = Fl.logSoftmax K (g n d) k from rfl, e, div_eq_mul_inv]
  ring

/-- outcomes of the index draw of one layer, for MPE and for sampling. -/
theorem drawIndices_All (ctx : Ctx) {W : Tensor Fl} {N D K : Nat}
    {a : Nat → Nat → Nat → ℝ≥0∞} {g : Nat → Nat → Nat → Fl} (h : Weighted W N D K a g) (hK : 0 < K) :
    (drawIndices ctx W).All fun ix => ix.shape = [N, D] ∧ ∀ n, n < N → ∀ d, d < D →
      ix.get [n, d] < K ∧ a n d (ix.get [n, d]) ≠ 0 ∧
      (ctx.is_mpe = true → ∀ k, k < K → a n d k ≤ a n d (ix.get [n, d])) := by
  unfold drawIndices
  split_ifs with hm
  · refine Rand.All.lift ((argmax_is h.is3 (by simp) (by simpa [at'] using hK)).mono fun ix hix => ?_)
    refine ⟨by rw [hix.1]; rfl, fun n hn d hd => ?_⟩
    have e : ix.get [n, d] = Fl.argmaxN K (g n d) := hix.get (i := [n, d]) ⟨hn, hd, by simp [delAt]⟩
    have hlt := Fl.argmaxN_lt hK (g n d)
    have hmax : ∀ k, k < K → a n d k ≤ a n d (Fl.argmaxN K (g n d)) := by
      intro k hk
      have := argmaxN_toP (f := g n d) (fun k hk => h.nn n hn d hd k hk) k hk
      rw [h.eq n hn d hd k hk, h.eq n hn d hd _ hlt] at this
      rw [ENNReal.div_le_iff (h.ne_zero n hn d hd) (h.ne_top n hn d hd),
        ENNReal.div_mul_cancel (h.ne_zero n hn d hd) (h.ne_top n hn d hd)] at this
      exact this
    rw [e]
    refine ⟨hlt, fun h0 => ?_, fun _ => hmax⟩
    refine h.ne_zero n hn d hd (Finset.sum_eq_zero fun k hk => ?_)
    have := hmax k (by simpa using hk)
    rw [h0] at this
    exact le_antisymm this zero_le
  · refine (Tensor.All_categorical h.is3 (by simp) (by simpa [at'] using hK) ?_).mono fun ix hix => ?_
    · simp only [delAt, AllIdx_cons, AllIdx_nil, at', insAt]
      intro n hn d hd k hk
      exact (h.logSoftmax hn hd hk).2.ne_nan
    · refine ⟨by rw [hix.1]; rfl, fun n hn d hd => ?_⟩
      have h2 := hix.2
      simp only [delAt, AllIdx_cons, AllIdx_nil, at', insAt] at h2
      have := h2 n hn d hd
      refine ⟨this.1, fun h0 => this.2 ?_, fun hh => absurd hh (by simpa using hm)⟩
      have e := (h.logSoftmax hn hd this.1).1
      rw [show Fl.logSoftmax K (fun k => g n d k) = Fl.logSoftmax K (g n d) from rfl, e, h0]
      simp

theorem disc_drawIndices (ctx : Ctx) (W : Tensor Fl) : (drawIndices ctx W).Disc := by
  unfold drawIndices; split_ifs
  · exact Rand.Disc.lift
  · exact Tensor.disc_categorical _ _

theorem disc_absSample (Dout : Nat) (select : Ctx → Res (Tensor Fl))
    (condition : Cache → Ctx → Tensor Fl → Res (Tensor Fl)) (post : Ctx → Tensor Nat → Res (Tensor Nat))
    (cache : Option Cache) (ctx : Ctx) : (absSample Dout select condition post cache ctx).Disc := by
  unfold absSample
  refine Rand.Disc.lift.bind fun _ => Rand.Disc.lift.bind fun w => ?_
  cases cache
  · exact (disc_drawIndices _ _).bind fun ix => Rand.Disc.lift.bind fun ix' => trivial
  · exact Rand.Disc.lift.bind fun w => (disc_drawIndices _ _).bind fun ix => Rand.Disc.lift.bind fun ix' => trivial

/-- the weights `AbstractSumLayer.sample` draws from. -/
def absWeights (select : Ctx → Res (Tensor Fl)) (condition : Cache → Ctx → Tensor Fl → Res (Tensor Fl))
    (cache : Option Cache) (ctx : Ctx) : Res (Tensor Fl) := do
  let lw ← select ctx
  match cache with
  | none => .ok lw
  | some c => condition c ctx lw

theorem absSample_eq {D : Nat} {select : Ctx → Res (Tensor Fl)}
    {condition : Cache → Ctx → Tensor Fl → Res (Tensor Fl)} {post : Ctx → Tensor Nat → Res (Tensor Nat)}
    {cache : Option Cache} {ctx : Ctx} (hc : checkContext D ctx = .ok ()) {W : Tensor Fl}
    (hW : absWeights select condition cache ctx = .ok W) :
    absSample D select condition post cache ctx =
      (drawIndices ctx W).bind fun ix => (Rand.lift (post ctx ix)).bind fun o =>
        Rand.pure { ctx with indices_out := o } := by
  unfold absSample
  rw [hc]
  unfold absWeights at hW
  cases hs : select ctx with
  | error e => rw [hs] at hW; simp at hW
  | ok lw =>
    rw [hs] at hW
    cases cache with
    | none =>
      simp only [Res.ok_bind, Except.ok.injEq] at hW
      subst hW; rfl
    | some c =>
      simp only [Res.ok_bind] at hW
      simp only [Rand.bind_eq, Rand.lift_ok, Rand.pure_bind, hW]
      rfl

/-- law of `AbstractSumLayer.sample`. -/
theorem absSample_E {D : Nat} {select : Ctx → Res (Tensor Fl)}
    {condition : Cache → Ctx → Tensor Fl → Res (Tensor Fl)} {post : Ctx → Tensor Nat → Res (Tensor Nat)}
    {cache : Option Cache} {ctx : Ctx} (hc : checkContext D ctx = .ok ()) (hm : ctx.is_mpe = false)
    {N Dx K : Nat} (hK : 0 < K) {a : Nat → Nat → Nat → ℝ≥0∞}
    (hW : Res.Sat (absWeights select condition cache ctx) fun W => ∃ g, Weighted W N Dx K a g)
    {F : Tensor Nat → ℝ≥0∞} {f : Nat → Nat → Nat → ℝ≥0∞}
    (hpost : ∀ ix : Tensor Nat, ix.shape = [N, Dx] → (∀ n, n < N → ∀ d, d < Dx → ix.get [n, d] < K) →
      Res.Sat (post ctx ix) fun o => F o = prod2 N Dx fun n d => f n d (ix.get [n, d])) :
    (absSample D select condition post cache ctx).E (fun c => F c.indices_out) =
      prod2 N Dx fun n d => (∑ k ∈ Finset.range K, a n d k * f n d k) / ∑ k ∈ Finset.range K, a n d k := by
  obtain ⟨W, hW, g, hg⟩ := hW
  rw [absSample_eq hc hW, Rand.E_bind, ← drawIndices_E hm hg hK f]
  refine Rand.E_congr (drawIndices_All ctx hg hK) fun ix hix => ?_
  obtain ⟨o, ho, hF⟩ := hpost ix hix.1 fun n hn d hd => (hix.2 n hn d hd).1
  rw [ho]
  exact hF

/-- outcomes of `AbstractSumLayer.sample`. -/
theorem absSample_All {D : Nat} {select : Ctx → Res (Tensor Fl)}
    {condition : Cache → Ctx → Tensor Fl → Res (Tensor Fl)} {post : Ctx → Tensor Nat → Res (Tensor Nat)}
    {cache : Option Cache} {ctx : Ctx} (hc : checkContext D ctx = .ok ())
    {N Dx K : Nat} (hK : 0 < K) {a : Nat → Nat → Nat → ℝ≥0∞}
    (hW : Res.Sat (absWeights select condition cache ctx) fun W => ∃ g, Weighted W N Dx K a g)
    {P : Ctx → Prop}
    (hpost : ∀ ix : Tensor Nat, ix.shape = [N, Dx] → (∀ n, n < N → ∀ d, d < Dx → ix.get [n, d] < K ∧
        a n d (ix.get [n, d]) ≠ 0 ∧ (ctx.is_mpe = true → ∀ k, k < K → a n d k ≤ a n d (ix.get [n, d]))) →
      Res.Sat (post ctx ix) fun o => P { ctx with indices_out := o }) :
    (absSample D select condition post cache ctx).All P := by
  obtain ⟨W, hW, g, hg⟩ := hW
  rw [absSample_eq hc hW]
  refine (drawIndices_All ctx hg hK).bind fun ix hix => ?_
  obtain ⟨o, ho, hP⟩ := hpost ix hix.1 hix.2
  rw [ho]
  exact hP

/-- `log_prior + lls`, normalised. -/
theorem posteriorWeights_is {lp lls : Tensor Fl} {N D K : Nat} {w e : Nat → Nat → Nat → Fl}
    (hlp : lp.Is3 N D K w) (hlls : lls.Is3 N D K e)
    (hw : ∀ n, n < N → ∀ d, d < D → ∀ k, k < K → NN (w n d k))
    (he : ∀ n, n < N → ∀ d, d < D → ∀ k, k < K → NN (e n d k))
    (h0 : ∀ n, n < N → ∀ d, d < D → ∑ k ∈ Finset.range K, toP (w n d k) * toP (e n d k) ≠ 0) :
    Res.Sat (posteriorWeights lp lls) fun W =>
      ∃ g, Weighted W N D K (fun n d k => toP (w n d k) * toP (e n d k)) g := by
  refine (zipWith_is _ hlp hlls (by simp) (by simp [bshape]; rfl)).bind fun p hp => ?_
  refine (logsumexpKeep_is hp (by simp)).bind fun l hl => ?_
  refine (zipWith_is _ hp hl (by simp [setAt]) (by simp [setAt, bshape]; rfl)).mono fun W hW => ?_
  have nnadd : ∀ n, n < N → ∀ d, d < D → ∀ k, k < K → NN (w n d k + e n d k) :=
    fun n hn d hd k hk => (hw n hn d hd k hk).add (he n hn d hd k hk)
  have padd : ∀ n, n < N → ∀ d, d < D → ∀ k, k < K →
      toP (w n d k + e n d k) = toP (w n d k) * toP (e n d k) :=
    fun n hn d hd k hk => toP_add (hw n hn d hd k hk) (he n hn d hd k hk)
  have hs : ∀ n, n < N → ∀ d, d < D → ∑ k ∈ Finset.range K, toP (w n d k + e n d k) =
      ∑ k ∈ Finset.range K, toP (w n d k) * toP (e n d k) :=
    fun n hn d hd => Finset.sum_congr rfl fun k hk => padd n hn d hd k (by simpa using hk)
  have key : ∀ n, n < N → ∀ d, d < D → ∀ k, k < K → _ := fun n hn d hd k hk =>
    toP_logSoftmax (f := fun k => w n d k + e n d k) (fun k hk => nnadd n hn d hd k hk)
      (by rw [hs n hn d hd]; exact h0 n hn d hd) hk
  refine ⟨fun n d k => Fl.logSoftmax K (fun k => w n d k + e n d k) k, hW.is3 ?_, ?_, ?_, h0, ?_⟩
  · intro n hn d hd k hk
    simp [clipAll, at', clip_of_lt, hn, hd, hk, setAt, Fl.logSoftmax]
    congr 1
    refine Fl.lse_congr fun j hj => ?_
    simp [clip_of_lt, hj]
  · exact fun n hn d hd k hk => (key n hn d hd k hk).2
  · intro n hn d hd k hk
    rw [(key n hn d hd k hk).1, hs n hn d hd, padd n hn d hd k hk]
  · intro n hn d hd
    rw [← hs n hn d hd]
    exact sum_toP_ne_top fun k hk => nnadd n hn d hd k hk

/-- unconditioned weights. -/
theorem weighted_of_is {lp : Tensor Fl} {N D K : Nat} {w : Nat → Nat → Nat → Fl} (hlp : lp.Is3 N D K w)
    (hw : ∀ n, n < N → ∀ d, d < D → ∀ k, k < K → NN (w n d k))
    (h1 : ∀ n, n < N → ∀ d, d < D → ∑ k ∈ Finset.range K, toP (w n d k) = 1) :
    Weighted lp N D K (fun n d k => toP (w n d k) * toP (Fl.fin 0)) w := by
  simp only [toP_zero, mul_one]
  exact ⟨hlp, hw, fun n hn d hd k _ => by rw [h1 n hn d hd, div_one],
    fun n hn d hd => by rw [h1 n hn d hd]; simp, fun n hn d hd => by rw [h1 n hn d hd]; simp⟩

/-- all logits of the layer are finite floats. -/
def SumL.FinLogits (L : SumL) : Prop := ∀ i, InB L.logits.shape i → (L.logits.get i).IsFin

theorem logSoftmax_fin {n : Nat} (hn : 0 < n) {f : Nat → Fl} (h : ∀ k, k < n → (f k).IsFin) {T : ℝ} (hT : T ≠ 0) :
    (∀ k, k < n → (Fl.logSoftmax n (fun k => f k / Fl.fin T) k).IsFin) ∧
    ∑ k ∈ Finset.range n, toP (Fl.logSoftmax n (fun k => f k / Fl.fin T) k) = 1 := by
  have h' : ∀ k, k < n → f k / Fl.fin T = Fl.fin ((f k).val / T) := fun k hk => by
    obtain ⟨r, hr⟩ := h k hk
    rw [hr, Fl.fin_div _ hT, Fl.val_fin]
  have nn : ∀ k, k < n → NN (f k / Fl.fin T) := fun k hk => by rw [h' k hk]; trivial
  have ne : ∑ k ∈ Finset.range n, toP (f k / Fl.fin T) ≠ 0 := by
    intro h0
    have := (Finset.sum_eq_zero_iff.1 h0) 0 (by simpa using hn)
    rw [h' 0 hn] at this
    exact toP_ne_zero (Fl.isFin_fin _) this
  refine ⟨fun k hk => ?_, sum_toP_logSoftmax nn ne⟩
  rw [Fl.logSoftmax_eq_fin h' hk]
  exact Fl.isFin_fin _

theorem SumL.lw_fin {L : SumL} {D : Nat} (hL : L.logits.shape = [D, L.num_sums_in, L.num_sums_out, L.num_repetitions])
    (hf : L.FinLogits) (hS : 0 < L.num_sums_in) {T : ℝ} (hT : T ≠ 0) {d s r : Nat} (hd : d < D)
    (hs : s < L.num_sums_out) (hr : r < L.num_repetitions) :
    (∀ k, k < L.num_sums_in → (L.lw T d k s r).IsFin) ∧ ∑ k ∈ Finset.range L.num_sums_in, toP (L.lw T d k s r) = 1 :=
  logSoftmax_fin hS (fun k hk => hf _ (by rw [hL]; exact ⟨hd, hk, hs, hr, by simp⟩)) hT

theorem SumL.lwMix_fin {L : SumL} {D : Nat} (hL : L.logits.shape = [D, L.num_sums_out, L.num_sums_in])
    (hf : L.FinLogits) (hS : 0 < L.num_sums_in) {T : ℝ} (hT : T ≠ 0) {d s : Nat} (hd : d < D)
    (hs : s < L.num_sums_out) :
    (∀ k, k < L.num_sums_in → (L.lwMix T d s k).IsFin) ∧ ∑ k ∈ Finset.range L.num_sums_in, toP (L.lwMix T d s k) = 1 :=
  logSoftmax_fin hS (fun k hk => hf _ (by rw [hL]; exact ⟨hd, hs, hk, by simp⟩)) hT

theorem SumL.lwEin_fin {L : SumL} (hL : L.logits.shape = EinsumLayer.weightShape L)
    (hf : L.FinLogits) (hS : 0 < L.num_sums_in) {T : ℝ} (hT : T ≠ 0) {d s r : Nat} (hd : d < EinsumLayer.numFeaturesOut L)
    (hs : s < L.num_sums_out) (hr : r < L.num_repetitions) :
    (∀ k, k < L.num_sums_in ^ 2 → (L.lwEin T d s r k).IsFin) ∧
      ∑ k ∈ Finset.range (L.num_sums_in ^ 2), toP (L.lwEin T d s r k) = 1 :=
  logSoftmax_fin (by positivity) (fun k hk => hf _ (by
    rw [hL]
    exact ⟨hd, hs, hr, Nat.div_lt_of_lt_mul (by rwa [← pow_two]), Nat.mod_lt _ hS, by simp⟩)) hT

theorem SumLayer.selectWeights_is {L : SumL} (hL : L.logits.shape = SumLayer.weightShape L) {ctx : Ctx} {N : Nat}
    {idx : Nat → Nat → Nat} {rr : Nat → Nat}
    (h : CtxOK ctx N L.num_features L.num_sums_out L.num_repetitions idx rr) :
    Res.Sat (SumLayer.selectWeights L ctx) fun lw => lw.Is3 N L.num_features L.num_sums_in
      fun n d k => L.lw ctx.temperature_sums d k (idx n d) (rr n) := by
  refine (unsqueeze_is (Is.refl _ hL) (by simp)).bind fun l0 h0 => ?_
  rw [h.ns]
  refine (expand_is h0 (by simp [insAt, weightShape, expandShape]; rfl)).bind fun l1 h1 => ?_
  refine (expand_is (unsqueezeEnd_is 3 h.io) (by simp [expandShape]; rfl)).bind fun p hp => ?_
  refine (gather_is h1 hp (by simp) (by simp [leExcept]) (by
    simp [at', clipAll]
    intro n hn d hd k hk r hr
    simpa [clip_of_lt, hn, hd] using h.io_lt n hn d hd)).bind fun l2 h2 => ?_
  refine (squeeze_is h2 (by simp) (by simp [at'])).bind fun l3 h3 => ?_
  refine (expand_is (unsqueezeEnd_is 3 h.ir) (by simp [expandShape]; rfl)).bind fun q hq => ?_
  refine (gather_is h3 hq (by simp [delAt]) (by simp [leExcept, delAt]) (by
    simp [at', clipAll, delAt]
    intro n hn d hd k hk
    simpa [clip_of_lt, hn] using h.ir_lt n hn)).bind fun l4 h4 => ?_
  refine (squeeze_is h4 (by simp) (by simp [at'])).bind fun l5 h5 => ?_
  refine Res.Sat.require (by rw [h5.1]; rfl) ?_
  refine (logitsToLogWeights_is h5 (by simp [delAt])).mono fun lw hlw => Is.is3 hlw ?_
  intro n hn d hd k hk
  simp only [SumL.lw, at', delAt]
  refine Fl.logSoftmax_congr (fun j hj => ?_) hk
  simp [at', insAt, setAt, clipAll, delAt, clip_of_lt, hn, hd, hj, h.io_lt n hn d hd, h.ir_lt n hn, weightShape]

theorem LinsumLayer.selectWeights_is {L : SumL} (hL : L.logits.shape = LinsumLayer.weightShape L) {ctx : Ctx} {N : Nat}
    {idx : Nat → Nat → Nat} {rr : Nat → Nat}
    (h : CtxOK ctx N (numFeaturesOut L) L.num_sums_out L.num_repetitions idx rr) :
    Res.Sat (LinsumLayer.selectWeights L ctx) fun lw => lw.Is3 N (numFeaturesOut L) L.num_sums_in
      fun n d k => L.lw ctx.temperature_sums d k (idx n d) (rr n) := by
  refine (unsqueeze_is (Is.refl _ hL) (by simp)).bind fun l0 h0 => ?_
  rw [h.ns]
  refine (expand_is h0 (by simp [insAt, weightShape, expandShape]; rfl)).bind fun l1 h1 => ?_
  refine (expand_is (unsqueezeEnd_is 3 h.io) (by simp [expandShape]; rfl)).bind fun p hp => ?_
  refine (gather_is h1 hp (by simp) (by simp [leExcept]) (by
    simp [at', clipAll]
    intro n hn d hd k hk r hr
    simpa [clip_of_lt, hn, hd] using h.io_lt n hn d hd)).bind fun l2 h2 => ?_
  refine (squeeze_is h2 (by simp) (by simp [at'])).bind fun l3 h3 => ?_
  refine (expand_is (unsqueezeEnd_is 3 h.ir) (by simp [expandShape]; rfl)).bind fun q hq => ?_
  refine (gather_is h3 hq (by simp [delAt]) (by simp [leExcept, delAt]) (by
    simp [at', clipAll, delAt]
    intro n hn d hd k hk
    simpa [clip_of_lt, hn] using h.ir_lt n hn)).bind fun l4 h4 => ?_
  refine (squeeze_is h4 (by simp) (by simp [at'])).bind fun l5 h5 => ?_
  refine Res.Sat.require (by rw [h5.1]; rfl) ?_
  refine (logitsToLogWeights_is h5 (by simp [delAt])).mono fun lw hlw => Is.is3 hlw ?_
  intro n hn d hd k hk
  simp only [SumL.lw, at', delAt]
  refine Fl.logSoftmax_congr (fun j hj => ?_) hk
  simp [at', insAt, setAt, clipAll, delAt, clip_of_lt, hn, hd, hj, h.io_lt n hn d hd, h.ir_lt n hn, weightShape]

/-- `indices_out.repeat_interleave(2, dim=1)`, cut to an odd number of features. -/
theorem interleave_is {t : Tensor Nat} {N D Dout : Nat} {idx : Nat → Nat → Nat} (hD : Dout = (D + D % 2) / 2)
    (h : t.Is2 N Dout idx) {β : Type} {k : Tensor Nat → Res β} {Q : β → Prop}
    (hk : ∀ t' : Tensor Nat, t'.Is2 N D (fun n d => idx n (d / 2)) → Res.Sat (k t') Q) :
    Res.Sat (do
      let p ← t.repeatInterleave 2 1
      let p ← if 0 < D % 2 then p.take 1 (p.size 1 - D % 2) else .ok p
      k p) Q := by
  refine (repeatInterleave_is h (by simp)).bind fun p hp => ?_
  have hp' : p.Is2 N (Dout * 2) (fun n d => idx n (d / 2)) :=
    hp.is2 (by intro n hn d hd; rfl)
  split_ifs with h1
  · have hs : p.size 1 = Dout * 2 := by rw [size, hp'.1]; rfl
    rw [hs]
    refine (take_is hp' (by simp)).bind fun q hq => hk q ?_
    have e : min (Dout * 2 - D % 2) (at' 1 [N, Dout * 2]) = D := by
      show min (Dout * 2 - D % 2) (Dout * 2) = D
      omega
    rw [e] at hq
    exact Is.is2 hq (by intro n hn d hd; rfl)
  · have e : Dout * 2 = D := by omega
    rw [e] at hp'
    exact hk p hp'

theorem LinsumLayer2.selectWeights_is {L : SumL} (hL : L.logits.shape = LinsumLayer2.weightShape L) {ctx : Ctx}
    {N : Nat} {idx : Nat → Nat → Nat} {rr : Nat → Nat}
    (h : CtxOK ctx N (numFeaturesOut L) L.num_sums_out L.num_repetitions idx rr) :
    Res.Sat (LinsumLayer2.selectWeights L ctx) fun lw => lw.Is3 N L.num_features L.num_sums_in
      fun n d k => L.lw ctx.temperature_sums d k (idx n (d / 2)) (rr n) := by
  refine (unsqueeze_is (Is.refl _ hL) (by simp)).bind fun l0 h0 => ?_
  rw [h.ns]
  refine (expand_is h0 (by simp [insAt, weightShape, expandShape]; rfl)).bind fun l1 h1 => ?_
  refine interleave_is rfl h.io fun t ht => ?_
  have hlt : ∀ n, n < N → ∀ d, d < L.num_features → idx n (d / 2) < L.num_sums_out := fun n hn d hd =>
    h.io_lt n hn _ (by unfold numFeaturesOut pad; omega)
  refine (expand_is (unsqueezeEnd_is 3 ht) (by simp [expandShape]; rfl)).bind fun p hp => ?_
  refine (gather_is h1 hp (by simp) (by simp [leExcept]) (by
    simp [at', clipAll]
    intro n hn d hd k hk r hr
    simpa [clip_of_lt, hn, hd] using hlt n hn d hd)).bind fun l2 h2 => ?_
  refine (squeeze_is h2 (by simp) (by simp [at'])).bind fun l3 h3 => ?_
  refine (expand_is (unsqueezeEnd_is 3 h.ir) (by simp [expandShape]; rfl)).bind fun q hq => ?_
  refine (gather_is h3 hq (by simp [delAt]) (by simp [leExcept, delAt]) (by
    simp [at', clipAll, delAt]
    intro n hn d hd k hk
    simpa [clip_of_lt, hn] using h.ir_lt n hn)).bind fun l4 h4 => ?_
  refine (squeeze_is h4 (by simp) (by simp [at'])).bind fun l5 h5 => ?_
  refine Res.Sat.require (by rw [h5.1]; rfl) ?_
  refine (logitsToLogWeights_is h5 (by simp [delAt])).mono fun lw hlw => Is.is3 hlw ?_
  intro n hn d hd k hk
  simp only [SumL.lw, at', delAt]
  refine Fl.logSoftmax_congr (fun j hj => ?_) hk
  simp [at', insAt, setAt, clipAll, delAt, clip_of_lt, hn, hd, hj, hlt n hn d hd, h.ir_lt n hn, weightShape]

theorem MixingLayer.selectWeights_is {L : SumL} (hL : L.logits.shape = MixingLayer.weightShape L) {ctx : Ctx}
    {N R : Nat} {idx : Nat → Nat → Nat} {rr : Nat → Nat} (h : CtxOK ctx N L.num_features L.num_sums_out R idx rr) :
    Res.Sat (MixingLayer.selectWeights L ctx) fun lw => lw.Is3 N L.num_features L.num_sums_in
      fun n d k => L.lwMix ctx.temperature_sums d (idx n d) k := by
  refine (unsqueeze_is (Is.refl _ hL) (by simp)).bind fun l0 h0 => ?_
  rw [h.ns]
  refine (expand_is h0 (by simp [insAt, weightShape, expandShape]; rfl)).bind fun l1 h1 => ?_
  refine (expand_is (unsqueezeEnd_is 2 h.io) (by simp [expandShape]; rfl)).bind fun p hp => ?_
  refine (gather_is h1 hp (by simp) (by simp [leExcept]) (by
    simp [at', clipAll]
    intro n hn d hd r hr
    simpa [clip_of_lt, hn, hd] using h.io_lt n hn d hd)).bind fun l2 h2 => ?_
  refine (squeeze_is h2 (by simp) (by simp [at'])).bind fun l5 h5 => ?_
  refine Res.Sat.require (by rw [h5.1]; rfl) ?_
  refine (logitsToLogWeights_is h5 (by simp [delAt])).mono fun lw hlw => Is.is3 hlw ?_
  intro n hn d hd k hk
  simp only [SumL.lwMix, at', delAt]
  refine Fl.logSoftmax_congr (fun j hj => ?_) hk
  simp [at', insAt, setAt, clipAll, delAt, clip_of_lt, hn, hd, hj, h.io_lt n hn d hd, weightShape]

/-- row-major merge of the two last dimensions of a rank-4 tensor. -/
theorem unflat_merge {a b c e : Nat} {i j k : Nat} (hi : i < a) (hj : j < b) (hk : k < c * e) :
    unflat [a, b, c, e] (flat [a, b, c * e] [i, j, k]) = [i, j, k / e, k % e] := by
  have he : 0 < e := by
    rcases Nat.eq_zero_or_pos e with rfl | h
    · simp at hk
    · exact h
  refine unflat_eq ⟨hi, hj, Nat.div_lt_of_lt_mul (by rwa [Nat.mul_comm]), Nat.mod_lt _ he, by simp⟩ ?_
  have := Nat.div_add_mod k e
  simp only [flat, numelS]
  nlinarith

theorem EinsumLayer.selectWeights_is {L : SumL} (hL : L.logits.shape = EinsumLayer.weightShape L) {ctx : Ctx}
    {N : Nat} {idx : Nat → Nat → Nat} {rr : Nat → Nat}
    (h : CtxOK ctx N (numFeaturesOut L) L.num_sums_out L.num_repetitions idx rr) :
    Res.Sat (EinsumLayer.selectWeights L ctx) fun lw => lw.Is3 N (numFeaturesOut L) (L.num_sums_in ^ 2)
      fun n d k => L.lwEin ctx.temperature_sums d (idx n d) (rr n) k := by
  refine (unsqueeze_is (Is.refl _ hL) (by simp)).bind fun l0 h0 => ?_
  rw [h.ns]
  refine (expand_is h0 (by simp [insAt, weightShape, expandShape]; rfl)).bind fun l1 h1 => ?_
  refine (expand_is (unsqueezeEnd_is 4 h.io) (by simp [expandShape]; rfl)).bind fun p hp => ?_
  refine (gather_is h1 hp (by simp) (by simp [leExcept]) (by
    simp [at', clipAll]
    intro n hn d hd k hk r hr s hs
    simpa [clip_of_lt, hn, hd] using h.io_lt n hn d hd)).bind fun l2 h2 => ?_
  refine (squeeze_is h2 (by simp) (by simp [at'])).bind fun l3 h3 => ?_
  refine (expand_is (unsqueezeEnd_is 4 h.ir) (by simp [expandShape]; rfl)).bind fun q hq => ?_
  refine (gather_is h3 hq (by simp [delAt]) (by simp [leExcept, delAt]) (by
    simp [at', clipAll, delAt]
    intro n hn d hd k hk s hs
    simpa [clip_of_lt, hn] using h.ir_lt n hn)).bind fun l4 h4 => ?_
  refine (squeeze_is h4 (by simp) (by simp [at'])).bind fun l5 h5 => ?_
  have e0 : l5.size 0 = N := by rw [size, h5.1]; rfl
  have e1 : l5.size 1 = numFeaturesOut L := by rw [size, h5.1]; rfl
  refine Res.Sat.require (by rw [h5.1]; rfl) ?_
  rw [e0, e1]
  refine (view_is h5 (by simp [numelS, delAt, pow_two])).bind fun l6 h6 => ?_
  refine (logitsToLogWeights_is h6 (by simp)).mono fun lw hlw => Is.is3 hlw ?_
  intro n hn d hd k hk
  simp only [SumL.lwEin, at', delAt]
  refine Fl.logSoftmax_congr (fun j hj => ?_) hk
  simp only [setAt]
  rw [pow_two] at hj ⊢
  rw [unflat_merge hn hd hj]
  have hS : 0 < L.num_sums_in := by
    rcases Nat.eq_zero_or_pos L.num_sums_in with h0 | h0
    · rw [h0] at hj; simp at hj
    · exact h0
  simp [at', insAt, setAt, clipAll, delAt, clip_of_lt, hn, hd, h.io_lt n hn d hd, h.ir_lt n hn, weightShape,
    Nat.div_lt_of_lt_mul hj, Nat.mod_lt _ hS]

end Einet
