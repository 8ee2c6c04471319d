import Verif.ConvFacts
import Verif.DiffMass

/-!
# Sampling law and integrals of convolutional circuits
-/

open Classical MeasureTheory
open scoped ENNReal
noncomputable section
namespace Einet
open Tensor

/-- splitting a product over a range into blocks. -/
theorem prod_range_mul' (n k : Nat) (f : Nat → ℝ≥0∞) :
    ∏ j ∈ Finset.range (n * k), f j = ∏ i ∈ Finset.range n, ∏ a ∈ Finset.range k, f (i * k + a) := by
  induction n with
  | zero => simp
  | succ n ih => rw [Nat.succ_mul, Finset.prod_range_add, ih, Finset.prod_range_succ]

theorem block_div {y k a : Nat} (ha : a < k) : (y * k + a) / k = y := by
  rw [Nat.add_comm, Nat.add_mul_div_right _ _ (by omega), Nat.div_eq_of_lt ha, Nat.zero_add]

theorem block_lt {y k a n : Nat} (hy : y < n) (ha : a < k) : y * k + a < n * k := by
  calc y * k + a < y * k + k := by omega
    _ = (y + 1) * k := by ring
    _ ≤ n * k := Nat.mul_le_mul_right _ hy

/-! ### Integrals -/

/-- the integral of the product over all pixels of one chosen channel each is the product of the numbers `m`. -/
def Splits {Ω : Type} [MeasurableSpace Ω] (ν : Measure Ω) (C H W : Nat) (g : Ω → Img ℝ≥0∞) (m : Img ℝ≥0∞) : Prop :=
  ∀ s : Nat → Nat → Nat, (∀ y, y < H → ∀ x, x < W → s y x < C) →
    ∫⁻ ω, ∏ y ∈ Finset.range H, ∏ x ∈ Finset.range W, g ω (s y x) y x ∂ν =
      ∏ y ∈ Finset.range H, ∏ x ∈ Finset.range W, m (s y x) y x

theorem prod_fin2 (H W : Nat) (f : Nat → Nat → ℝ≥0∞) :
    ∏ y ∈ Finset.range H, ∏ x ∈ Finset.range W, f y x = ∏ q : Fin H × Fin W, f q.1 q.2 := by
  rw [Fintype.prod_prod_type, Finset.prod_range]
  exact Finset.prod_congr rfl fun y _ => Finset.prod_range _

theorem ConvAtom.WF.splits {Ω : Type} [MeasurableSpace Ω] {ν : Measure Ω} {a : ConvAtom} {C H W C' H' W' : Nat}
    (h : a.WF C H W C' H' W') (T : ℝ) {g : Ω → Img ℝ≥0∞} (hg : ∀ c y x, Measurable fun ω => g ω c y x) {m : Img ℝ≥0∞}
    (hs : Splits ν C H W g m) : Splits ν C' H' W' (fun ω => a.den T (g ω)) (a.den T m) := by
  intro s hsl
  cases h with
  | sum L hI =>
    set wt : Fin L.height × Fin L.width → Nat → ℝ≥0∞ := fun q i => L.weight T (s q.1 q.2) i q.1 q.2 with hwt
    have e : ∀ p : Img ℝ≥0∞, ∏ y ∈ Finset.range L.height, ∏ x ∈ Finset.range L.width, (ConvAtom.sum L).den T p (s y x) y x =
        ∑ t ∈ Fintype.piFinset fun _ : Fin L.height × Fin L.width => Finset.range L.in_channels,
          (∏ q, wt q (t q)) * ∏ q : Fin L.height × Fin L.width, p (t q) q.1 q.2 := by
      intro p
      rw [prod_fin2]
      simp only [ConvAtom.den]
      rw [Finset.prod_univ_sum]
      exact Finset.sum_congr rfl fun t _ => Finset.prod_mul_distrib
    simp only [e]
    rw [lintegral_finsetSum _ fun t _ => ?_]
    · refine Finset.sum_congr rfl fun t ht => ?_
      rw [lintegral_const_mul _ (Finset.measurable_fun_prod _ fun q _ => hg _ _ _)]
      congr 1
      have hlt : ∀ q, t q < L.in_channels := fun q => by
        have := (Fintype.mem_piFinset.1 ht) q
        simpa using this
      have := hs (fun y x => if hh : y < L.height ∧ x < L.width then t (⟨y, hh.1⟩, ⟨x, hh.2⟩) else 0) (by
        intro y hy x hx
        rw [dif_pos ⟨hy, hx⟩]; exact hlt _)
      simp only [prod_fin2] at this
      simpa using this
    · exact (Finset.measurable_fun_prod _ fun q _ => hg _ _ _).const_mul _
  | prod kh kw C H W h1 h2 h3 h4 =>
    have e : ∀ p : Img ℝ≥0∞, ∏ y ∈ Finset.range H', ∏ x ∈ Finset.range W', (ConvAtom.prod kh kw).den T p (s y x) y x =
        ∏ y ∈ Finset.range (H' * kh), ∏ x ∈ Finset.range (W' * kw), p (s (y / kh) (x / kw)) y x := by
      intro p
      rw [prod_range_mul']
      refine Finset.prod_congr rfl fun y _ => ?_
      simp only [ConvAtom.den]
      rw [Finset.prod_comm]
      refine Finset.prod_congr rfl fun a ha => ?_
      rw [prod_range_mul']
      refine Finset.prod_congr rfl fun x _ => Finset.prod_congr rfl fun b hb => ?_
      rw [block_div (by simpa using ha), block_div (by simpa using hb)]
    simp only [e]
    exact hs (fun y x => s (y / kh) (x / kw)) fun y hy x hx =>
      hsl _ (Nat.div_lt_of_lt_mul (by rwa [mul_comm])) _ (Nat.div_lt_of_lt_mul (by rwa [mul_comm]))

theorem ConvAtom.den_measurable {Ω : Type} [MeasurableSpace Ω] (a : ConvAtom) (T : ℝ) {g : Ω → Img ℝ≥0∞}
    (hg : ∀ c y x, Measurable fun ω => g ω c y x) (c y x : Nat) : Measurable fun ω => a.den T (g ω) c y x := by
  cases a with
  | sum L => exact Finset.measurable_fun_sum _ fun i _ => (hg _ _ _).const_mul _
  | prod kh kw => exact Finset.measurable_fun_prod _ fun a _ => Finset.measurable_fun_prod _ fun b _ => hg _ _ _

theorem denAtoms_measurable {Ω : Type} [MeasurableSpace Ω] (as : List ConvAtom) (T : ℝ) {g : Ω → Img ℝ≥0∞}
    (hg : ∀ c y x, Measurable fun ω => g ω c y x) (c y x : Nat) : Measurable fun ω => denAtoms T as (g ω) c y x := by
  induction as generalizing g with
  | nil => exact hg c y x
  | cons a as ih => exact ih fun c y x => a.den_measurable T hg c y x

theorem denAtoms_splits {Ω : Type} [MeasurableSpace Ω] {ν : Measure Ω} {as : List ConvAtom} {C H W C' H' W' : Nat}
    (h : AChain as C H W C' H' W') (T : ℝ) {g : Ω → Img ℝ≥0∞} (hg : ∀ c y x, Measurable fun ω => g ω c y x) {m : Img ℝ≥0∞}
    (hs : Splits ν C H W g m) : Splits ν C' H' W' (fun ω => denAtoms T as (g ω)) (denAtoms T as m) := by
  induction h generalizing g m with
  | nil => exact hs
  | @cons a as _ _ _ _ _ _ _ _ _ h _ ih => exact ih (fun c y x => a.den_measurable T hg c y x) (h.splits T hg hs)

/-- a circuit with one root evaluates to the integral. -/
theorem denAtoms_lintegral {Ω : Type} [MeasurableSpace Ω] {ν : Measure Ω} {as : List ConvAtom} {C H W : Nat}
    (h : AChain as C H W 1 1 1) (T : ℝ) {g : Ω → Img ℝ≥0∞} (hg : ∀ c y x, Measurable fun ω => g ω c y x) {m : Img ℝ≥0∞}
    (hs : Splits ν C H W g m) : ∫⁻ ω, denAtoms T as (g ω) 0 0 0 ∂ν = denAtoms T as m 0 0 0 := by
  have := denAtoms_splits h T hg hs (fun _ _ => 0) (by simp)
  simpa using this

/-! ### Sampling -/

/-- one-hot indices with channel `idx n y x` for every pixel; one repetition. -/
structure CCtx (ctx : DCtx) (N C H W : Nat) (idx : Nat → Nat → Nat → Nat) : Prop where
  ns : ctx.num_samples = N
  io : ctx.indices_out.Is4 N C H W fun n c y x => oh (idx n y x) c
  lt : ∀ n, n < N → ∀ y, y < H → ∀ x, x < W → idx n y x < C
  ir : ctx.indices_repetition.Is2 N 1 fun _ _ => .fin 1

namespace ConvAtom

/-- the choice made by a step for every pixel: independent categorical variables. -/
def choice (T : ℝ) (N : Nat) : ConvAtom → (Nat → Nat → Nat → Nat) → Rand (Nat → Nat → Nat → Nat)
  | sum L, idx => (Rand.drawAll (box [N, L.height, L.width]) (fun j => Rand.categorical L.in_channels
      (Fl.logSoftmax L.in_channels fun i => .fin (L.logits [idx (at' 0 j) (at' 1 j) (at' 2 j), i, at' 1 j, at' 2 j] / T)))
      fun _ => 0).bind fun f => .pure fun n y x => f [n, y, x]
  | prod kh kw, idx => .pure fun n y x => idx n (y / kh) (x / kw)

/-- number of noise entries per sample. -/
def noise : ConvAtom → Nat
  | sum L => L.height * L.width * L.in_channels
  | prod _ _ => 0

theorem WF.choice_E {a : ConvAtom} {C H W C' H' W' : Nat} (h : a.WF C H W C' H' W') (T : ℝ) (N : Nat)
    (idx : Nat → Nat → Nat → Nat) (G : Nat → Img ℝ≥0∞) :
    (a.choice T N idx).E (fun ix => ∏ n ∈ Finset.range N, ∏ y ∈ Finset.range H, ∏ x ∈ Finset.range W, G n (ix n y x) y x) =
      ∏ n ∈ Finset.range N, ∏ y ∈ Finset.range H', ∏ x ∈ Finset.range W', a.den T (G n) (idx n y x) y x := by
  cases h with
  | sum L hI =>
    have hfin : ∀ o y x i, i < L.in_channels → _ := fun o y x i hi => L.weight_fin T (o := o) (y := y) (x := x) hi
    have hnan : ∀ o y x k, k < L.in_channels → Fl.logSoftmax L.in_channels (Fl.logSoftmax L.in_channels fun i =>
        .fin (L.logits [o, i, y, x] / T)) k ≠ .nan := by
      intro o y x k hk
      rw [Fl.logSoftmax_eq_fin (fun k hk => (hfin o y x k hk).eq) hk]
      simp
    have hsum : ∀ o y x, ∑ i ∈ Finset.range L.in_channels, toP (Fl.logSoftmax L.in_channels (fun i =>
        .fin (L.logits [o, i, y, x] / T)) i) = 1 := fun o y x => L.weight_sum hI T o y x
    have hw : ∀ o y x k, k < L.in_channels → toP (Fl.logSoftmax L.in_channels (Fl.logSoftmax L.in_channels fun i =>
        .fin (L.logits [o, i, y, x] / T)) k) = L.weight T o k y x := by
      intro o y x k hk
      rw [(toP_logSoftmax (fun i hi => NN_of_isFin (hfin o y x i hi)) (by rw [hsum]; simp) hk).1, hsum, div_one]
      rfl
    simp only [choice]
    rw [Rand.E_bind]
    simp only [Rand.E_pure]
    have hb : ∀ q : List Nat → ℝ≥0∞, ∏ n ∈ Finset.range N, ∏ y ∈ Finset.range L.height, ∏ x ∈ Finset.range L.width,
        q [n, y, x] = prodBox [N, L.height, L.width] q := by
      intro q
      simp only [prodBox_cons, prodBox_nil]
    rw [show (fun f : List Nat → Nat => ∏ n ∈ Finset.range N, ∏ y ∈ Finset.range L.height, ∏ x ∈ Finset.range L.width,
        G n (f [n, y, x]) y x) = fun f => prodBox [N, L.height, L.width] fun j =>
          G (at' 0 j) (f j) (at' 1 j) (at' 2 j) from funext fun f => hb fun j => G (at' 0 j) (f j) (at' 1 j) (at' 2 j)]
    unfold prodBox
    rw [Rand.E_drawAll (h := fun j k => G (at' 0 j) k (at' 1 j) (at' 2 j)) (box_nodup _)
      fun i _ c => (Rand.disc_categorical _ _).mul_const _ c]
    refine Eq.trans ?_ (hb fun j => (ConvAtom.sum L).den T (G (at' 0 j)) (idx (at' 0 j) (at' 1 j) (at' 2 j)) (at' 1 j)
      (at' 2 j)).symm
    refine congrArg List.prod (List.map_congr_left fun j hj => ?_)
    rw [Rand.E_categorical hI fun k hk => hnan _ _ _ k hk]
    exact Finset.sum_congr rfl fun k hk => by rw [hw _ _ _ k (by simpa using hk)]
  | prod kh kw C H W h1 h2 h3 h4 =>
    simp only [choice, Rand.E_pure]
    refine Finset.prod_congr rfl fun n _ => ?_
    rw [prod_range_mul']
    refine Finset.prod_congr rfl fun y _ => ?_
    simp only [ConvAtom.den]
    rw [Finset.prod_comm]
    rw [Finset.prod_comm]
    refine Eq.trans (b := ∏ a ∈ Finset.range kh, ∏ x ∈ Finset.range W', ∏ b ∈ Finset.range kw,
      G n (idx n y x) (y * kh + a) (x * kw + b)) ?_ Finset.prod_comm
    refine Finset.prod_congr rfl fun a ha => ?_
    rw [prod_range_mul']
    refine Finset.prod_congr rfl fun x _ => Finset.prod_congr rfl fun b hb => ?_
    rw [block_div (by simpa using ha), block_div (by simpa using hb)]

end ConvAtom

/-- the choices of a sequence of steps, from the top. -/
def choiceAtoms (T : ℝ) (N : Nat) : List ConvAtom → (Nat → Nat → Nat → Nat) → Rand (Nat → Nat → Nat → Nat)
  | [], idx => .pure idx
  | a :: as, idx => (choiceAtoms T N as idx).bind fun idx => a.choice T N idx

theorem choiceAtoms_E {as : List ConvAtom} {C H W C' H' W' : Nat} (h : AChain as C H W C' H' W') (T : ℝ) (N : Nat)
    (idx : Nat → Nat → Nat → Nat) (G : Nat → Img ℝ≥0∞) :
    (choiceAtoms T N as idx).E (fun ix => ∏ n ∈ Finset.range N, ∏ y ∈ Finset.range H, ∏ x ∈ Finset.range W,
        G n (ix n y x) y x) =
      ∏ n ∈ Finset.range N, ∏ y ∈ Finset.range H', ∏ x ∈ Finset.range W', denAtoms T as (G n) (idx n y x) y x := by
  induction h generalizing G with
  | nil => rfl
  | cons h _ ih =>
    simp only [choiceAtoms]
    rw [Rand.E_bind]
    simp only [h.choice_E T N]
    exact ih _

theorem ConvSum.selectWeights_is (L : ConvSum) {ctx : DCtx} {N : Nat} {idx : Nat → Nat → Nat → Nat}
    (hT : ctx.temperature_sums ≠ 0) (h : CCtx ctx N L.out_channels L.height L.width idx) :
    Res.Sat (L.selectWeights ctx) fun w => w.Is4 N L.in_channels L.height L.width fun n i y x =>
      Fl.logSoftmax L.in_channels (fun i => .fin (L.logits [idx n y x, i, y, x] / ctx.temperature_sums)) i := by
  unfold ConvSum.selectWeights
  have hp : L.param.Is [L.out_channels, L.in_channels, L.height, L.width] fun i => .fin (L.logits i) :=
    Is.intro rfl fun _ _ => rfl
  refine (unsqueeze_is hp (by simp)).bind fun l hl => ?_
  refine (unsqueeze_is h.io (by simp)).bind fun p hp => ?_
  refine (indexOneHot_is (c := [N, L.out_channels, L.in_channels, L.height, L.width]) hl hp (by simp [insAt]) (by simp [insAt])
    (by simp [insAt, at']) (by simp [insAt, bshape])).bind fun q hq => ?_
  have hq' : q.Is4 N L.in_channels L.height L.width fun n i y x => .fin (L.logits [idx n y x, i, y, x]) := by
    refine Is.is4 hq ?_
    intro n hn i hi y hy x hx
    rw [← Fl.sumN_oh (f := fun o => .fin (L.logits [o, i, y, x])) (h.lt n hn y hy x hx) fun o _ => Fl.isFin_fin _]
    show Fl.sumN L.out_channels _ = _
    refine Fl.sumN_congr fun o ho => ?_
    simp [insAt, delAt, clipAll, at', clip_of_lt, hn, ho, hi, hy, hx]
  refine (logitsToLogWeights_is hq' (by simp)).mono fun w hw => Is.is4 hw ?_
  intro n hn i hi y hy x hx
  simp only [at', setAt, Fl.fin_div _ hT]

/-- The one-hot choice against independent categorical draws. -/
theorem ConvSum.sample_le {μ : Measure ℝ} {b : Prop × Prop} {c : ℝ≥0∞} (hc : c ≠ ⊤) (hμ : μ ≤ c • gumbel0) (hb : NoiseOK b μ gumbel0)
    (L : ConvSum) (hI : 0 < L.in_channels) {ctx : DCtx} {N : Nat} {idx : Nat → Nat → Nat → Nat} (hm : ctx.is_mpe = false)
    (hT : ctx.temperature_sums ≠ 0) (h : CCtx ctx N L.out_channels L.height L.width idx) :
    RLe b (c ^ (N * (ConvAtom.sum L).noise)) (fun d ix => d = { ctx with indices_out := d.indices_out } ∧
        CCtx d N L.in_channels L.height L.width ix)
      (L.sample μ none ctx) ((ConvAtom.sum L).choice ctx.temperature_sums N idx) := by
  obtain ⟨w, hw, hw'⟩ := L.selectWeights_is hT h
  have hlw : L.logWeights none ctx = .ok w := by
    unfold ConvSum.logWeights
    rw [hw]
    rfl
  unfold ConvSum.sample
  rw [hlw, Rand.lift_ok, Rand.pure_bind]
  unfold drawNoise
  rw [if_neg (by simp [hm]), Rand.bind_assoc, Tensor.size, hw'.1]
  simp only [delAt, at', Rand.pure_bind, ConvAtom.choice]
  set lw : List Nat → Nat → Fl := fun j => Fl.logSoftmax L.in_channels fun i =>
    .fin (L.logits [idx (at' 0 j) (at' 1 j) (at' 2 j), i, at' 1 j, at' 2 j] / ctx.temperature_sums) with hlwdef
  have hfin : ∀ j i, i < L.in_channels → (lw j i).IsFin := fun j i hi => L.weight_fin _ hi
  have hl : (box [N, L.height, L.width]).length = N * L.height * L.width := by simp [length_box, numelS, mul_assoc]
  have h0 : RLe b ((c ^ L.in_channels) ^ (box [N, L.height, L.width]).length)
      (fun (f : List Nat → Nat → ℝ) (g : List Nat → Nat) => ∀ i ∈ box [N, L.height, L.width],
        g i = Fl.argmaxN L.in_channels fun k => lw i k + .fin (f i k))
      (Rand.drawAll (box [N, L.height, L.width]) (fun _ => drawVec μ L.in_channels) fun _ _ => 0)
      (Rand.drawAll (box [N, L.height, L.width]) (fun i => Rand.categorical L.in_channels (lw i)) fun _ => 0) :=
    RLe.drawAll (R := fun i (f : Nat → ℝ) (j : Nat) => j = Fl.argmaxN L.in_channels fun k => lw i k + .fin (f k))
      (ENNReal.pow_ne_top hc) fun i _ => drawVec_categorical hc hμ hb hI fun k hk => hfin i k hk
  have he : (c ^ L.in_channels) ^ (box [N, L.height, L.width]).length = c ^ (N * (ConvAtom.sum L).noise) := by
    rw [hl, ← pow_mul]
    congr 1
    simp only [ConvAtom.noise]
    ring
  rw [he] at h0
  rw [← mul_one (c ^ (N * (ConvAtom.sum L).noise))]
  refine RLe.bind ENNReal.one_ne_top h0 fun v g hvg => ?_
  obtain ⟨t, ht, ht'⟩ := simple_is (d := 1) (noise := some fun i => .fin (v (delAt 1 i) (at' 1 i))) hw' (by simp)
    (by simpa [at'] using hI) (fun i hi => by
      match i, hi with
      | [n, k, y, x], hi => exact hfin [n, y, x] k hi.2.1) (fun i hi => by
      match i, hi with
      | [n, k, y, x], hi => exact Fl.isFin_add (hfin [n, y, x] k hi.2.1) (Fl.isFin_fin _))
  have e : (do
      let indices ← simple none (some w) 1 (if ctx.is_mpe = true then none else some fun i => .fin (v (delAt 1 i) (at' 1 i)))
      return { ctx with indices_out := indices } : Res DCtx) = .ok { ctx with indices_out := t } := by
    rw [if_neg (by simp [hm]), ht]
    rfl
  rw [e]
  refine RLe.pure ⟨rfl, h.ns, ?_, ?_, h.ir⟩
  · refine Is.is4 ht' ?_
    intro n hn k hk y hy x hx
    simp only [at', setAt]
    have := hvg [n, y, x] (mem_box.2 ⟨hn, hy, hx, trivial⟩)
    rw [this]
    rfl
  · intro n hn y hy x hx
    rw [hvg [n, y, x] (mem_box.2 ⟨hn, hy, hx, trivial⟩)]
    exact Fl.argmaxN_lt hI _

theorem ProdConv.sample_is {kh kw : Nat} {ctx : DCtx} {N C H W : Nat} {idx : Nat → Nat → Nat → Nat}
    (h : CCtx ctx N C H W idx) : ∃ d, ProdConv.sample kh kw ctx = .ok d ∧
      d = { ctx with indices_out := d.indices_out } ∧
      CCtx d N C (H * kh) (W * kw) fun n y x => idx n (y / kh) (x / kw) := by
  have hr : ctx.indices_out.rank = 4 := by rw [rank, h.io.1]; rfl
  have hs : Res.Sat (ProdConv.sample kh kw ctx) fun d => d = { ctx with indices_out := d.indices_out } ∧
      d.indices_out.Is4 N C (H * kh) (W * kw) fun n c y x => oh (idx n (y / kh) (x / kw)) c := by
    unfold ProdConv.sample
    refine Res.Sat.require (by omega) ?_
    rw [hr]
    refine (repeatInterleave_is h.io (by simp)).bind fun t ht => ?_
    have hr' : t.rank = 4 := by rw [rank, ht.1]; simp [setAt]
    rw [hr']
    refine (repeatInterleave_is ht (by simp [setAt])).bind fun u hu => Res.Sat.pure ⟨rfl, ?_⟩
    refine Is.is4 (by simpa [setAt, at'] using hu) ?_
    intro n hn c hc y hy x hx
    simp [at', setAt]
  obtain ⟨d, hd, he, hi⟩ := hs
  refine ⟨d, hd, he, ?_, hi, ?_, ?_⟩
  · rw [he]; exact h.ns
  · intro n hn y hy x hx
    exact h.lt n hn _ (Nat.div_lt_of_lt_mul (by rwa [mul_comm])) _ (Nat.div_lt_of_lt_mul (by rwa [mul_comm]))
  · rw [he]; exact h.ir

/-- noise entries per sample of a sequence. -/
def noiseAtoms (as : List ConvAtom) : Nat := (as.map ConvAtom.noise).sum

theorem sampleAtoms_le {μ : Measure ℝ} {b : Prop × Prop} {c : ℝ≥0∞} (hc : c ≠ ⊤) (hμ : μ ≤ c • gumbel0) (hb : NoiseOK b μ gumbel0)
    {as : List ConvAtom} {C H W C' H' W' : Nat} (hw : AChain as C H W C' H' W') {ctx : DCtx} {N : Nat}
    {idx : Nat → Nat → Nat → Nat} (hm : ctx.is_mpe = false) (hT : ctx.temperature_sums ≠ 0) (h : CCtx ctx N C' H' W' idx) :
    RLe b (c ^ (N * noiseAtoms as)) (fun d ix => d = { ctx with indices_out := d.indices_out } ∧ CCtx d N C H W ix)
      (sampleAtoms μ as ctx) (choiceAtoms ctx.temperature_sums N as idx) := by
  induction hw with
  | nil =>
    rw [show N * noiseAtoms [] = 0 by simp [noiseAtoms], pow_zero]
    exact RLe.pure ⟨rfl, h⟩
  | @cons a as _ _ _ _ _ _ _ _ _ ha _ ih =>
    have e : c ^ (N * noiseAtoms (a :: as)) = c ^ (N * noiseAtoms as) * c ^ (N * a.noise) := by
      rw [← pow_add]
      congr 1
      simp only [noiseAtoms, List.map_cons, List.sum_cons]
      ring
    rw [e]
    refine RLe.bind (ENNReal.pow_ne_top hc) (ih h) fun d ix hd => ?_
    obtain ⟨hd1, hd2⟩ := hd
    have hdm : d.is_mpe = false := by rw [hd1]; exact hm
    have hdT : d.temperature_sums = ctx.temperature_sums := by rw [hd1]
    cases ha with
    | sum L hI =>
      rw [← hdT] at hT ⊢
      refine (L.sample_le hc hμ hb hI hdm hT hd2).mono le_rfl fun f jx hf => ⟨?_, hf.2⟩
      rw [hf.1, hd1]
    | prod kh kw C H W h1 h2 h3 h4 =>
      obtain ⟨f, hf, hf1, hf2⟩ := ProdConv.sample_is (kh := kh) (kw := kw) hd2
      rw [show N * (ConvAtom.prod kh kw).noise = 0 by simp [ConvAtom.noise], pow_zero]
      show RLe b 1 _ (Rand.lift (ProdConv.sample kh kw d)) _
      rw [hf]
      exact RLe.pure ⟨by rw [hf1, hd1], hf2⟩
end Einet
