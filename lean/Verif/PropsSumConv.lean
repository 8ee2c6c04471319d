import Verif.SumConv
import Verif.PropsConv

/-!
# C52: sums with shared kernels (`SumConv`)
-/

open Classical MeasureTheory
open scoped ENNReal
noncomputable section
namespace Einet.Props
open Einet Tensor

/-- Specification: the probability that a softmax over `n` scores gives to `i`. -/
def softmaxAt (n : Nat) (f : Nat → ℝ) (i : Nat) : ℝ := Real.exp (f i) / ∑ j ∈ Finset.range n, Real.exp (f j)

/-- Specification: the scores of the sum at pixel `(y, x)` and output channel `o`, with the kernel repeated over the image. -/
def kernelScore (L : SumConv) (T : ℝ) (o y x i : Nat) : ℝ := L.logits [o, i, y % L.kernel_size, x % L.kernel_size] / T

/-- Specification: the sampled channels are those of `ch`. -/
def ChosenAre (N H W : Nat) (ch : Nat → Nat → Nat → Nat) (t : Tensor Fl) : Prop :=
  ∀ n, n < N → ∀ y, y < H → ∀ x, x < W → t.get [n, ch n y x, y, x] = .fin 1

/-- **C52**, forward: every output entry is the mixture of the input channels of its pixel with the weights of the kernel, on
the scale of densities; `softmax` over the input channels. -/
theorem C52_forward (L : SumConv) (hK : 0 < L.kernel_size) (hI : 0 < L.in_channels) (N H W : Nat) (hH : L.kernel_size ∣ H)
    (hW : L.kernel_size ∣ W) (x : Tensor Fl) (X : Nat → Nat → Nat → Nat → ℝ) (hx : x.shape = [N, L.in_channels, H, W])
    (hX : ∀ n c y z, n < N → c < L.in_channels → y < H → z < W → x.get [n, c, y, z] = .fin (X n c y z)) :
    ∃ t, L.forward x = .ok t ∧ t.shape = [N, L.out_channels, H, W] ∧
      ∀ n o y z, n < N → o < L.out_channels → y < H → z < W → ∃ v, t.get [n, o, y, z] = .fin v ∧
        Real.exp v = ∑ i ∈ Finset.range L.in_channels, softmaxAt L.in_channels (kernelScore L 1 o y z) i * Real.exp (X n i y z) := by
  have hx' : x.Is4 N L.in_channels H W fun n c y z => .fin (X n c y z) := Is.intro hx fun i hi => by
    match i, hi with
    | [n, c, y, z], hi => exact hX n c y z hi.1 hi.2.1 hi.2.2.1 hi.2.2.2.1
  obtain ⟨t, ht, ht'⟩ := L.forward_is hK hH hW hx'
  refine ⟨t, ht, ht'.1, fun n o y z hn ho hy hz => ?_⟩
  rw [Is4.get ht' hn ho hy hz]
  set g : Nat → ℝ := fun i => L.logits [o, i, y % L.kernel_size, z % L.kernel_size] with hg
  have e : ∀ i, i < L.in_channels → (Fl.fin (X n i y z) + Fl.logSoftmax L.in_channels (fun i => .fin (g i)) i) =
      .fin (X n i y z + Fl.rlsm L.in_channels g i) := by
    intro i hi
    rw [Fl.logSoftmax_eq_fin (fun _ _ => rfl) hi, Fl.fin_add]
  refine ⟨_, Fl.lse_eq_fin hI e, ?_⟩
  rw [Real.exp_log (Fl.sum_exp_pos hI _)]
  refine Finset.sum_congr rfl fun i _ => ?_
  rw [Real.exp_add, Fl.rlsm, Real.exp_sub, Real.exp_log (Fl.sum_exp_pos hI _), softmaxAt]
  simp only [kernelScore, div_one, hg]
  ring

/-- **C52**, forward: images whose size is not a multiple of the kernel size are rejected. -/
theorem C52_rejects (L : SumConv) (x : Tensor Fl) (N C H W : Nat) (hx : x.shape = [N, C, H, W])
    (h : ¬ (L.kernel_size ∣ H ∧ L.kernel_size ∣ W)) : ∃ e, L.forward x = .error e := by
  unfold SumConv.forward
  rw [require_true _ (by simp [rank, hx])]
  simp only [Tensor.size, hx, at']
  by_cases h0 : L.kernel_size = 0
  · exact ⟨_, by rw [require_false _ (by simpa using h0)]; rfl⟩
  rw [require_true _ h0]
  by_cases h1 : L.kernel_size ∣ H
  · have h2 : ¬ L.kernel_size ∣ W := fun hh => h ⟨h1, hh⟩
    exact ⟨_, by rw [require_true _ (Nat.mod_eq_zero_of_dvd h1), require_false _ (fun hh => h2 (Nat.dvd_of_mod_eq_zero hh))]; rfl⟩
  · exact ⟨_, by rw [require_false _ (fun hh => h1 (Nat.dvd_of_mod_eq_zero hh))]; rfl⟩

/-- Specification: the weight that the code gives to channel `i` when it samples: the scores are normalised over the rows of
the image before the softmax over the channels. -/
def rowWeight (L : SumConv) (T : ℝ) (H : Nat) (o : Nat → Nat → Nat) (y x i : Nat) : ℝ :=
  kernelScore L T (o y x) y x i - Real.log (∑ y' ∈ Finset.range H, Real.exp (kernelScore L T (o y' x) y' x i))

theorem prod_one_iff {N : Nat} (p : Nat → Prop) [∀ n, Decidable (p n)] (f : Nat → ℝ≥0∞)
    (h : ∀ n, n < N → f n = if p n then 1 else 0) {q : Prop} [Decidable q]
    (hq : q ↔ ∀ n, n < N → p n) : ∏ n ∈ Finset.range N, f n = if q then 1 else 0 := by
  by_cases hp : q
  · rw [if_pos hp]
    rw [hq] at hp
    exact Finset.prod_eq_one fun n hn => by rw [h n (by simpa using hn), if_pos (hp n (by simpa using hn))]
  · rw [if_neg hp]
    rw [hq] at hp
    push Not at hp
    obtain ⟨n, hn, hpn⟩ := hp
    exact Finset.prod_eq_zero (i := n) (by simpa using hn) (by rw [h n hn, if_neg hpn])

theorem chosen_eq {d : DCtx} {N C H W : Nat} {ix ch : Nat → Nat → Nat → Nat} (h : CCtx d N C H W ix)
    (hc : ∀ n, n < N → ∀ y, y < H → ∀ x, x < W → ch n y x < C) :
    (if ChosenAre N H W ch d.indices_out then (1 : ℝ≥0∞) else 0) = ∏ n ∈ Finset.range N, ∏ y ∈ Finset.range H,
      ∏ x ∈ Finset.range W, if ix n y x = ch n y x then 1 else 0 := by
  have e : ChosenAre N H W ch d.indices_out ↔ ∀ n, n < N → ∀ y, y < H → ∀ x, x < W → ix n y x = ch n y x := by
    refine forall₂_congr fun n hn => forall₂_congr fun y hy => forall₂_congr fun x hx => ?_
    rw [Is4.get h.io hn (hc n hn y hy x hx) hy hx]
    unfold oh
    split_ifs with hh
    · simp [hh]
    · simp only [Fl.fin.injEq, zero_ne_one, false_iff]
      exact fun h' => hh h'.symm
  refine (prod_one_iff (fun n => ∀ y, y < H → ∀ x, x < W → ix n y x = ch n y x) _ (fun n hn => ?_) e).symm
  refine prod_one_iff (fun y => ∀ x, x < W → ix n y x = ch n y x) _ (fun y hy => ?_) Iff.rfl
  exact prod_one_iff (fun x => ix n y x = ch n y x) _ (fun x hx => by split_ifs <;> rfl) Iff.rfl

/-- **C52**, the law of the code: with exact Gumbel noise the channels are chosen independently for every pixel, with the
softmax of weights that are normalised over the rows of the image. -/
theorem C52_law (L : SumConv) (hK : 0 < L.kernel_size) (hI : 0 < L.in_channels) (N H W : Nat) (hH : L.kernel_size ∣ H)
    (hW : L.kernel_size ∣ W) (ctx : DCtx) (hm : ctx.is_mpe = false) (hT : ctx.temperature_sums ≠ 0) (o : Nat → Nat → Nat → Nat)
    (h : CCtx ctx N L.out_channels H W o) (ch : Nat → Nat → Nat → Nat)
    (hc : ∀ n, n < N → ∀ y, y < H → ∀ x, x < W → ch n y x < L.in_channels) :
    (L.sample gumbel0 ctx).E (fun d => if ChosenAre N H W ch d.indices_out then 1 else 0) =
      ∏ n ∈ Finset.range N, ∏ y ∈ Finset.range H, ∏ x ∈ Finset.range W, ENNReal.ofReal
        (softmaxAt L.in_channels (rowWeight L ctx.temperature_sums H (o n) y x) (ch n y x)) := by
  have hs := SumConv.sample_le (μ := gumbel0) (b := (True, False)) (c := 1) ENNReal.one_ne_top (by simp) ⟨fun _ => rfl, False.elim⟩ L hK hI hH hW hm hT h
  rw [one_pow] at hs
  have e : (L.sample gumbel0 ctx).E (fun d => if ChosenAre N H W ch d.indices_out then 1 else 0) =
      (L.choice ctx.temperature_sums N H W o).E fun ix => ∏ n ∈ Finset.range N, ∏ y ∈ Finset.range H,
        ∏ x ∈ Finset.range W, if ix n y x = ch n y x then 1 else 0 := by
    refine le_antisymm ?_ ?_
    · simpa using hs.1 _ _ fun d ix hd => (chosen_eq hd.2 hc).le
    · exact hs.2.1 trivial _ _ fun d ix hd => (chosen_eq hd.2 hc).ge
  rw [e, L.choice_E hI _ N H W o fun n i y x => if i = ch n y x then 1 else 0]
  refine Finset.prod_congr rfl fun n hn => Finset.prod_congr rfl fun y hy => Finset.prod_congr rfl fun x hx => ?_
  simp only [Finset.mem_range] at hn hy hx
  have hcc := hc n hn y hy x hx
  rw [Finset.sum_eq_single (ch n y x) (fun b _ hb => by rw [if_neg hb, mul_zero])
    fun hb => absurd (Finset.mem_range.2 hcc) hb, if_pos rfl, mul_one,
    Fl.logSoftmax_eq_fin (fun i _ => L.weightS_fin _ _ i x hy) hcc, toP_fin]
  congr 1
  rw [Fl.rlsm, Real.exp_sub, Real.exp_log (Fl.sum_exp_pos hI _)]
  rfl

/-- **C52**, sampling: the channel of every pixel is chosen with the weight with which `forward` mixes it (divided by the
temperature), if the scores summed over the rows of a column are the same for all channels.  Missing: all other parameters, for
which it is false. -/
theorem C52_sample_partial (L : SumConv) (hK : 0 < L.kernel_size) (hI : 0 < L.in_channels) (N H W : Nat) (hH : L.kernel_size ∣ H)
    (hW : L.kernel_size ∣ W) (ctx : DCtx) (hm : ctx.is_mpe = false) (hT : ctx.temperature_sums ≠ 0) (o : Nat → Nat → Nat → Nat)
    (h : CCtx ctx N L.out_channels H W o)
    (hbal : ∀ n, n < N → ∀ x, x < W → ∃ S, ∀ i, i < L.in_channels →
      ∑ y' ∈ Finset.range H, Real.exp (kernelScore L ctx.temperature_sums (o n y' x) y' x i) = S)
    (ch : Nat → Nat → Nat → Nat) (hc : ∀ n, n < N → ∀ y, y < H → ∀ x, x < W → ch n y x < L.in_channels) :
    (L.sample gumbel0 ctx).E (fun d => if ChosenAre N H W ch d.indices_out then 1 else 0) =
      ∏ n ∈ Finset.range N, ∏ y ∈ Finset.range H, ∏ x ∈ Finset.range W, ENNReal.ofReal
        (softmaxAt L.in_channels (kernelScore L ctx.temperature_sums (o n y x) y x) (ch n y x)) := by
  rw [C52_law L hK hI N H W hH hW ctx hm hT o h ch hc]
  refine Finset.prod_congr rfl fun n hn => Finset.prod_congr rfl fun y hy => Finset.prod_congr rfl fun x hx => ?_
  simp only [Finset.mem_range] at hn hy hx
  obtain ⟨S, hS⟩ := hbal n hn x hx
  congr 1
  unfold softmaxAt rowWeight
  rw [hS _ (hc n hn y hy x hx), Finset.sum_congr rfl fun i hi => by rw [hS i (by simpa using hi), Real.exp_sub], Real.exp_sub,
    ← Finset.sum_div, div_div_div_cancel_right₀ (Real.exp_pos _).ne']

/-- **C52** is false: for images of one row the sampled channel is uniform, whatever the parameters are. -/
theorem C52_refuted_row (L : SumConv) (hK : L.kernel_size = 1) (hI : 0 < L.in_channels) (N W : Nat) (ctx : DCtx)
    (hm : ctx.is_mpe = false) (hT : ctx.temperature_sums ≠ 0) (o : Nat → Nat → Nat → Nat)
    (h : CCtx ctx N L.out_channels 1 W o) (ch : Nat → Nat → Nat → Nat)
    (hc : ∀ n, n < N → ∀ y, y < 1 → ∀ x, x < W → ch n y x < L.in_channels) :
    (L.sample gumbel0 ctx).E (fun d => if ChosenAre N 1 W ch d.indices_out then 1 else 0) =
      ENNReal.ofReal (1 / L.in_channels) ^ (N * W) := by
  rw [C52_law L (by omega) hI N 1 W (by rw [hK]) (by rw [hK]; simp) ctx hm hT o h ch hc]
  have e : ∀ n y x i, y < 1 → rowWeight L ctx.temperature_sums 1 (o n) y x i = 0 := by
    intro n y x i hy
    obtain rfl : y = 0 := Nat.lt_one_iff.1 hy
    simp [rowWeight]
  rw [Finset.prod_congr rfl fun n hn => Finset.prod_congr rfl fun y hy => Finset.prod_congr rfl fun x hx => by
    rw [show softmaxAt L.in_channels (rowWeight L ctx.temperature_sums 1 (o n) y x) (ch n y x) = 1 / L.in_channels by
      simp [softmaxAt, e n y x _ (by simpa using hy)]]]
  simp only [Finset.prod_const, Finset.card_range, pow_one]
  rw [← pow_mul, mul_comm]

/-- A kernel of one pixel with two input channels that weights the second three times as much. -/
def exKernel : SumConv := ⟨2, 1, 1, fun i => if at' 1 i = 1 then Real.log 3 else 0⟩

/-- **C52** is false in the sense of the English claim: `forward` weights channel 1 with 3/4, but it is sampled with
probability 1/2. -/
theorem C52_refuted (ctx : DCtx) (hm : ctx.is_mpe = false) (hT : ctx.temperature_sums = 1)
    (h : CCtx ctx 1 1 1 1 fun _ _ _ => 0) :
    softmaxAt 2 (kernelScore exKernel 1 0 0 0) 1 = 3 / 4 ∧
      (exKernel.sample gumbel0 ctx).E (fun d => if d.indices_out.get [0, 1, 0, 0] = .fin 1 then 1 else 0) = 1 / 2 := by
  constructor
  · simp [softmaxAt, kernelScore, exKernel, Finset.sum_range_succ, at', Real.exp_log]
    norm_num
  · have := C52_refuted_row exKernel rfl (by norm_num [exKernel]) 1 1 ctx hm (by rw [hT]; exact one_ne_zero) (fun _ _ _ => 0) h
      (fun _ _ _ => 1) fun _ _ _ _ _ _ => by norm_num [exKernel]
    have e : ∀ t : Tensor Fl, ChosenAre 1 1 1 (fun _ _ _ => 1) t ↔ t.get [0, 1, 0, 0] = .fin 1 := by
      intro t
      refine ⟨fun hh => hh 0 one_pos 0 one_pos 0 one_pos, fun hh n hn y hy x hx => ?_⟩
      obtain rfl := Nat.lt_one_iff.1 hn
      obtain rfl := Nat.lt_one_iff.1 hy
      obtain rfl := Nat.lt_one_iff.1 hx
      exact hh
    simp only [e] at this
    rw [this]
    simp [exKernel]

/-! ### The hypotheses can be met -/

/-- a context that asks for channel 0 of every pixel. -/
def exKernelCtx (N C H W : Nat) : DCtx :=
  { num_samples := N, indices_out := ⟨[N, C, H, W], fun i => oh 0 (at' 1 i)⟩, indices_repetition := ⟨[N, 1], fun _ => .fin 1⟩ }

theorem exKernelCtx_ok (N C H W : Nat) (hC : 0 < C) : CCtx (exKernelCtx N C H W) N C H W fun _ _ _ => 0 :=
  ⟨rfl, Is.intro rfl fun _ _ => rfl, fun _ _ _ _ _ _ => hC, Is.intro rfl fun _ _ => rfl⟩

/-- the hypotheses of `C52_forward`, `C52_law` and `C52_refuted` hold together for an image of 4 x 6 pixels and for one pixel. -/
example : CCtx (exKernelCtx 3 1 4 6) 3 exKernel.out_channels 4 6 (fun _ _ _ => 0) ∧ exKernel.kernel_size ∣ 4 ∧
    CCtx (exKernelCtx 1 1 1 1) 1 1 1 1 (fun _ _ _ => 0) ∧ (exKernelCtx 1 1 1 1).temperature_sums = 1 :=
  ⟨exKernelCtx_ok 3 1 4 6 one_pos, one_dvd _, exKernelCtx_ok 1 1 1 1 one_pos, rfl⟩

/-- `C52_sample_partial`: a kernel of 2 x 2 pixels whose rows prefer different channels, on an image of one kernel. -/
example : let L : SumConv := ⟨2, 1, 2, fun i => if at' 1 i = at' 2 i then Real.log 3 else 0⟩
    ∀ x i, i < L.in_channels → ∑ y' ∈ Finset.range 2, Real.exp (kernelScore L 1 0 y' x i) = 4 := by
  intro L x i hi
  have hi : i < 2 := hi
  interval_cases i <;> simp [Finset.sum_range_succ, kernelScore, L, at', Real.exp_log] <;> norm_num

/-- `C52_rejects`: a kernel of 2 x 2 pixels on an image of 3 x 4. -/
example : ¬ ((2 : Nat) ∣ 3 ∧ (2 : Nat) ∣ 4) := by decide

end Einet.Props
