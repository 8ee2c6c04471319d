import Verif.ConvDraw

/-!
# Sums with shared kernels (`SumConv`, conv_pc.py:143-298)

The class is public but no configuration of `ConvPc` uses it.  Simplification: all views are taken of contiguous tensors; the
view of a permuted tensor in conv_pc.py:181 and 252 only adds dimensions of size one, which torch allows.
-/

open Classical MeasureTheory
open scoped ENNReal
noncomputable section
namespace Einet
open Tensor

/-- `SumConv` (conv_pc.py:143-153): `logits` has shape `[out_channels, in_channels, kernel_size, kernel_size]`. -/
structure SumConv where
  in_channels : Nat
  out_channels : Nat
  kernel_size : Nat
  logits : List Nat → ℝ

namespace SumConv

/-- `self.logits` as a tensor. -/
def param (L : SumConv) : Tensor Fl := ⟨[L.out_channels, L.in_channels, L.kernel_size, L.kernel_size], fun i => .fin (L.logits i)⟩

/-- `SumConv.forward` (conv_pc.py:155-189). -/
def forward (L : SumConv) (x : Tensor Fl) : Res (Tensor Fl) := do
  require .value (x.rank = 4)
  let N := x.size 0
  let C := x.size 1
  let H := x.size 2
  let W := x.size 3
  let K := L.kernel_size
  require .zeroDivision (K ≠ 0)
  require .assertion (H % K = 0)
  require .assertion (W % K = 0)
  let log_weights ← L.param.logSoftmax 1
  let log_weights ← log_weights.unsqueeze 0
  let x ← x.view [N, C, H / K, K, W / K, K]
  let x ← x.permute [0, 1, 2, 4, 3, 5]
  let x ← x.view [N, 1, C, H / K, W / K, K, K]
  let log_weights ← log_weights.view [1, L.out_channels, L.in_channels, 1, 1, K, K]
  let x ← (← x.add log_weights).logsumexp 2
  let x ← x.permute [0, 1, 2, 4, 3, 5]
  x.view [N, L.out_channels, H, W]

/-- `SumConv._select_weights` (conv_pc.py:236-266); the code after the first `return` is not reached. -/
def selectWeights (L : SumConv) (ctx : DCtx) : Res (Tensor Fl) := do
  require .index (ctx.indices_out.rank = 4)
  let N := ctx.num_samples
  let K := L.kernel_size
  let H := ctx.indices_out.size 2
  let W := ctx.indices_out.size 3
  let logits ← L.param.unsqueeze 0
  let x ← ctx.indices_out.unsqueeze 2
  require .zeroDivision (K ≠ 0)
  let x ← x.view [N, L.out_channels, H / K, K, W / K, K]
  let x ← x.permute [0, 1, 2, 4, 3, 5]
  let x ← x.view [N, L.out_channels, 1, H / K, W / K, K, K]
  let logits ← logits.view [1, L.out_channels, L.in_channels, 1, 1, K, K]
  let logits ← indexOneHot logits x 1
  require .assertion (logits.shape = [N, L.in_channels, H / K, W / K, K, K])
  let logits ← logits.permute [0, 1, 2, 4, 3, 5]
  let logits ← logits.view [N, L.in_channels, H, W]
  logitsToLogWeights logits 2 ctx.temperature_sums

/-- `SumConv.sample` without evidence (conv_pc.py:213-225, 285-289). -/
def sample (μ : Measure ℝ) (L : SumConv) (ctx : DCtx) : Rand DCtx :=
  (Rand.lift (L.selectWeights ctx)).bind fun w =>
    (drawNoise μ ctx.is_mpe w 1).bind fun noise => Rand.lift do
      let indices ← simple none (some w) 1 (if ctx.is_mpe then none else some noise)
      return { ctx with indices_out := indices }

/-! ### Facts -/

theorem patch {a K p u : Nat} (hp : p < a) (hu : u < K) : p * K + u < a * K := block_lt hp hu

/-- patches of an image. -/
theorem patches_is {t : Tensor Fl} {s : List Nat} {g : List Nat → Fl} {N C a b K : Nat} {e : Nat → Img Fl} (h : t.Is s g)
    (hnum : numelS s = N * C * (a * K) * (b * K))
    (hg : ∀ n, n < N → ∀ c, c < C → ∀ y, y < a * K → ∀ x, x < b * K →
      ∃ i, InB s i ∧ flat s i = flat [N, C, a * K, b * K] [n, c, y, x] ∧ g i = e n c y x) :
    Res.Sat (t.view [N, C, a, K, b, K]) fun x => Res.Sat (x.permute [0, 1, 2, 4, 3, 5]) fun v => v.Is [N, C, a, b, K, K] fun i =>
      e (at' 0 i) (at' 1 i) (at' 2 i * K + at' 4 i) (at' 3 i * K + at' 5 i) := by
  refine (view_is (s' := [N, C, a, K, b, K]) h (by rw [hnum]; simp [numelS]; ring)).mono fun v hv => ?_
  have hv' : v.Is [N, C, a, K, b, K] fun i => e (at' 0 i) (at' 1 i) (at' 2 i * K + at' 3 i) (at' 4 i * K + at' 5 i) := by
    refine Is.congr hv ((AllIdx_iff _ _).2 fun j hj => ?_)
    match j, hj with
    | [n, c, p, u, q, w], hj =>
      obtain ⟨hn, hc, hp, hu, hq, hw, -⟩ := hj
      obtain ⟨i, hi, hfl, hgi⟩ := hg n hn c hc _ (patch hp hu) _ (patch hq hw)
      have e : unflat s (flat [N, C, a, K, b, K] [n, c, p, u, q, w]) = i := by
        refine unflat_eq hi (hfl.trans ?_)
        simp only [flat, numelS]
        ring
      rw [e, hgi]
      rfl
  refine (permute_is hv' (show [0, 1, 2, 4, 3, 5].Perm (List.range 6) by decide) fun i hi => ?_).mono fun w hw => ?_
  · match i, hi with
    | [n, c, p, q, u, w], hi => exact ⟨hi.1, hi.2.1, hi.2.2.1, hi.2.2.2.2.1, hi.2.2.2.1, hi.2.2.2.2.2.1, trivial⟩
  · refine Is.congr hw ((AllIdx_iff _ _).2 fun j hj => ?_)
    match j, hj with
    | [n, c, p, q, u, w], hj => rfl

/-- images of patches. -/
theorem unpatch_is {t : Tensor Fl} {N C a b K : Nat} {e : Nat → Img Fl}
    (h : t.Is [N, C, a, b, K, K] fun i => e (at' 0 i) (at' 1 i) (at' 2 i * K + at' 4 i) (at' 3 i * K + at' 5 i)) (hK : 0 < K) :
    Res.Sat (t.permute [0, 1, 2, 4, 3, 5]) fun x => Res.Sat (x.view [N, C, a * K, b * K]) fun v => v.Is4 N C (a * K) (b * K) e := by
  refine (permute_is h (show [0, 1, 2, 4, 3, 5].Perm (List.range 6) by decide) fun i hi => ?_).mono fun w hw => ?_
  · match i, hi with
    | [n, c, p, u, q, w], hi => exact ⟨hi.1, hi.2.1, hi.2.2.1, hi.2.2.2.2.1, hi.2.2.2.1, hi.2.2.2.2.2.1, trivial⟩
  have hw' : w.Is [N, C, a, K, b, K] fun i => e (at' 0 i) (at' 1 i) (at' 2 i * K + at' 3 i) (at' 4 i * K + at' 5 i) := by
    refine Is.congr hw ((AllIdx_iff _ _).2 fun j hj => ?_)
    match j, hj with
    | [n, c, p, u, q, w], hj => rfl
  refine (view_is (s' := [N, C, a * K, b * K]) hw' (by simp only [numelS]; ring)).mono fun v hv => Is.is4 hv ?_
  intro n hn c hc y hy x hx
  have e1 : unflat [N, C, a, K, b, K] (flat [N, C, a * K, b * K] [n, c, y, x]) = [n, c, y / K, y % K, x / K, x % K] := by
    refine unflat_eq ⟨hn, hc, Nat.div_lt_of_lt_mul (by rwa [mul_comm]), Nat.mod_lt _ hK, Nat.div_lt_of_lt_mul (by rwa [mul_comm]),
      Nat.mod_lt _ hK, trivial⟩ ?_
    simp only [flat, numelS]
    have h1 := Nat.div_add_mod y K
    have h2 := Nat.div_add_mod x K
    calc _ = (((n * C + c) * (a * K)) * (b * K) + (K * (y / K) + y % K) * (b * K)) + (K * (x / K) + x % K) := by ring
      _ = _ := by rw [h1, h2]; ring
  rw [e1]
  simp only [at']
  rw [Nat.div_add_mod', Nat.div_add_mod']

theorem forward_is (L : SumConv) (hK : 0 < L.kernel_size) {x : Tensor Fl} {N H W : Nat} {X : Nat → Img Fl}
    (hH : L.kernel_size ∣ H) (hW : L.kernel_size ∣ W) (hx : x.Is4 N L.in_channels H W X) :
    Res.Sat (L.forward x) fun y => y.Is4 N L.out_channels H W fun n o y z => Fl.lse L.in_channels fun i =>
      X n i y z + Fl.logSoftmax L.in_channels (fun i => .fin (L.logits [o, i, y % L.kernel_size, z % L.kernel_size])) i := by
  obtain ⟨K, I, O, lg, rfl⟩ : ∃ K I O lg, L = ⟨I, O, K, lg⟩ := ⟨_, _, _, _, rfl⟩
  dsimp only at hK hH hW hx ⊢
  obtain ⟨a, rfl⟩ := hH
  obtain ⟨b, rfl⟩ := hW
  rw [mul_comm K a, mul_comm K b] at hx ⊢
  unfold forward
  refine Res.Sat.require (by simp [rank, hx.1]) ?_
  simp only [Tensor.size, hx.1, at']
  refine Res.Sat.require (by omega) ?_
  refine Res.Sat.require (by simp) ?_
  refine Res.Sat.require (by simp) ?_
  have hp : (SumConv.param ⟨I, O, K, lg⟩).Is [O, I, K, K] fun i => .fin (lg i) := Is.intro rfl fun _ _ => rfl
  refine (logSoftmax_is (d := 1) hp (by simp)).bind fun w1 h1 => ?_
  refine (unsqueeze_is (d := 0) h1 (by simp)).bind fun w2 h2 => ?_
  rw [Nat.mul_div_cancel _ hK, Nat.mul_div_cancel _ hK]
  refine (patches_is (N := N) (C := I) (a := a) (b := b) (K := K) (e := X) hx (by simp only [numelS]; ring)
    fun n hn c hc y hy x hx => ⟨[n, c, y, x], ⟨hn, hc, hy, hx, trivial⟩, rfl, rfl⟩).bind fun v1 hv1 => hv1.bind fun v2 h3 => ?_
  refine (view_is (s' := [N, 1, I, a, b, K, K]) h3 (by simp only [numelS]; ring)).bind fun v3 h4 => ?_
  refine (view_is (s' := [1, O, I, 1, 1, K, K]) h2 (by simp [insAt, numelS])).bind fun w3 h5 => ?_
  have h4' : v3.Is [N, 1, I, a, b, K, K] fun i => X (at' 0 i) (at' 2 i) (at' 3 i * K + at' 5 i) (at' 4 i * K + at' 6 i) := by
    refine Is.congr h4 ((AllIdx_iff _ _).2 fun j hj => ?_)
    match j, hj with
    | [n, z, i, p, q, u, w], ⟨hn, hz, hi, hp, hq, hu, hw, _⟩ =>
      obtain rfl : z = 0 := Nat.lt_one_iff.1 hz
      rw [unflat_eq (s := [N, I, a, b, K, K]) (i := [n, i, p, q, u, w]) ⟨hn, hi, hp, hq, hu, hw, trivial⟩
        (by simp only [flat, numelS]; ring)]
      rfl
  have h5' : w3.Is [1, O, I, 1, 1, K, K] fun i => Fl.logSoftmax I (fun k => .fin (lg [at' 1 i, k, at' 5 i, at' 6 i])) (at' 2 i) := by
    refine Is.congr h5 ((AllIdx_iff _ _).2 fun j hj => ?_)
    match j, hj with
    | [n, o, i, p, q, u, w], ⟨hn, ho, hi, hp, hq, hu, hw, _⟩ =>
      obtain rfl : n = 0 := Nat.lt_one_iff.1 hn
      obtain rfl : p = 0 := Nat.lt_one_iff.1 hp
      obtain rfl : q = 0 := Nat.lt_one_iff.1 hq
      rw [unflat_eq (i := [0, o, i, u, w]) (by exact ⟨hn, ho, hi, hu, hw, trivial⟩) (by simp only [insAt, flat, numelS]; ring)]
      rfl
  refine (zipWith_is (c := [N, O, I, a, b, K, K]) _ h4' h5' rfl (by simp [bshape])).bind fun s hs => ?_
  refine (logsumexp_is hs (by simp)).bind fun l hl => ?_
  have hl' : l.Is [N, O, a, b, K, K] fun i => (fun n o y z => Fl.lse I fun k =>
      X n k y z + Fl.logSoftmax I (fun k => .fin (lg [o, k, y % K, z % K])) k) (at' 0 i) (at' 1 i) (at' 2 i * K + at' 4 i)
        (at' 3 i * K + at' 5 i) := by
    refine Is.congr hl ((AllIdx_iff _ _).2 fun j hj => ?_)
    match j, hj with
    | [n, o, p, q, u, w], ⟨hn, ho, hp, hq, hu, hw, _⟩ =>
      refine Fl.lse_congr fun k hk => ?_
      have hk : k < I := hk
      simp [insAt, clipAll, at', clip_of_lt, hn, ho, hp, hq, hu, hw, hk, Nat.mod_eq_of_lt]
  exact (unpatch_is (e := fun n o y z => Fl.lse I fun k =>
      X n k y z + Fl.logSoftmax I (fun k => .fin (lg [o, k, y % K, z % K])) k) hl' hK).bind fun v hv => hv

/-- the weights with which `sample` chooses: normalised over the height of the image. -/
def weightS (L : SumConv) (T : ℝ) (H : Nat) (ch : Nat → Nat → Nat) (i y x : Nat) : Fl :=
  Fl.logSoftmax H (fun y' => .fin (L.logits [ch y' x, i, y' % L.kernel_size, x % L.kernel_size] / T)) y

theorem selectWeights_is (L : SumConv) (hK : 0 < L.kernel_size) {ctx : DCtx} {N H W : Nat} {idx : Nat → Nat → Nat → Nat}
    (hH : L.kernel_size ∣ H) (hW : L.kernel_size ∣ W) (hT : ctx.temperature_sums ≠ 0) (h : CCtx ctx N L.out_channels H W idx) :
    Res.Sat (L.selectWeights ctx) fun w => w.Is4 N L.in_channels H W fun n i y x =>
      L.weightS ctx.temperature_sums H (idx n) i y x := by
  obtain ⟨K, I, O, lg, rfl⟩ : ∃ K I O lg, L = ⟨I, O, K, lg⟩ := ⟨_, _, _, _, rfl⟩
  dsimp only at hK hH hW h ⊢
  obtain ⟨a, rfl⟩ := hH
  obtain ⟨b, rfl⟩ := hW
  rw [mul_comm K a, mul_comm K b] at h ⊢
  unfold selectWeights
  refine Res.Sat.require (by simp [rank, h.io.1]) ?_
  have hp : (SumConv.param ⟨I, O, K, lg⟩).Is [O, I, K, K] fun i => .fin (lg i) := Is.intro rfl fun _ _ => rfl
  refine (unsqueeze_is (d := 0) hp (by simp)).bind fun w2 h2 => ?_
  refine (unsqueeze_is (d := 2) h.io (by simp)).bind fun v0 h0 => ?_
  refine Res.Sat.require hK.ne' ?_
  simp only [Tensor.size, h.io.1, h.ns, at']
  rw [Nat.mul_div_cancel _ hK, Nat.mul_div_cancel _ hK]
  refine (patches_is (N := N) (C := O) (a := a) (b := b) (K := K) (e := fun n o y x => oh (idx n y x) o) h0
    (by simp only [insAt, numelS]; ring) fun n hn c hc y hy x hx => ⟨[n, c, 0, y, x], ⟨hn, hc, Nat.one_pos, hy, hx, trivial⟩,
      by simp only [insAt, flat, numelS]; ring, rfl⟩).bind fun v1 hv1 => hv1.bind fun v2 h3 => ?_
  refine (view_is (s' := [N, O, 1, a, b, K, K]) h3 (by simp only [numelS]; ring)).bind fun v3 h4 => ?_
  refine (view_is (s' := [1, O, I, 1, 1, K, K]) h2 (by simp [insAt, numelS])).bind fun w3 h5 => ?_
  have h4' : v3.Is [N, O, 1, a, b, K, K] fun i =>
      oh (idx (at' 0 i) (at' 3 i * K + at' 5 i) (at' 4 i * K + at' 6 i)) (at' 1 i) := by
    refine Is.congr h4 ((AllIdx_iff _ _).2 fun j hj => ?_)
    match j, hj with
    | [n, i, z, p, q, u, w], ⟨hn, hi, hz, hp, hq, hu, hw, _⟩ =>
      obtain rfl : z = 0 := Nat.lt_one_iff.1 hz
      rw [unflat_eq (s := [N, O, a, b, K, K]) (i := [n, i, p, q, u, w]) ⟨hn, hi, hp, hq, hu, hw, trivial⟩
        (by simp only [flat, numelS]; ring)]
      rfl
  have h5' : w3.Is [1, O, I, 1, 1, K, K] fun i => .fin (lg [at' 1 i, at' 2 i, at' 5 i, at' 6 i]) := by
    refine Is.congr h5 ((AllIdx_iff _ _).2 fun j hj => ?_)
    match j, hj with
    | [n, o, i, p, q, u, w], ⟨hn, ho, hi, hp, hq, hu, hw, _⟩ =>
      obtain rfl : n = 0 := Nat.lt_one_iff.1 hn
      obtain rfl : p = 0 := Nat.lt_one_iff.1 hp
      obtain rfl : q = 0 := Nat.lt_one_iff.1 hq
      rw [unflat_eq (i := [0, o, i, u, w]) (by exact ⟨hn, ho, hi, hu, hw, trivial⟩) (by simp only [insAt, flat, numelS]; ring)]
      rfl
  refine (indexOneHot_is (c := [N, O, I, a, b, K, K]) h5' h4' rfl (by simp) (by simp [at']) (by simp [bshape])).bind
    fun q hq => ?_
  refine Res.Sat.require hq.1 ?_
  have hq' : q.Is [N, I, a, b, K, K] fun i => (fun n i y x => Fl.fin (lg [idx n y x, i, y % K, x % K])) (at' 0 i) (at' 1 i)
      (at' 2 i * K + at' 4 i) (at' 3 i * K + at' 5 i) := by
    refine Is.congr hq ((AllIdx_iff _ _).2 fun j hj => ?_)
    match j, hj with
    | [n, i, p, q, u, w], ⟨hn, hi, hp, hq, hu, hw, _⟩ =>
      have e1 : (p * K + u) % K = u := by simp [Nat.mod_eq_of_lt hu]
      have e2 : (q * K + w) % K = w := by simp [Nat.mod_eq_of_lt hw]
      simp only [at', e1, e2]
      rw [← Fl.sumN_oh (f := fun o => .fin (lg [o, i, u, w])) (h.lt n hn _ (patch hp hu) _ (patch hq hw)) fun o _ => Fl.isFin_fin _]
      refine Fl.sumN_congr fun o ho => ?_
      simp [insAt, clipAll, at', clip_of_lt, hn, ho, hi, hp, hq, hu, hw]
  refine (unpatch_is (e := fun n i y x => Fl.fin (lg [idx n y x, i, y % K, x % K])) hq' hK).bind fun v hv => hv.bind fun r hr => ?_
  refine (logitsToLogWeights_is hr (by simp)).mono fun w hw => Is.is4 hw ?_
  intro n hn i hi y hy x hx
  simp only [at', setAt, Fl.fin_div _ hT]
  rfl

theorem weightS_fin (L : SumConv) (T : ℝ) {H : Nat} (ch : Nat → Nat → Nat) (i : Nat) {y : Nat} (x : Nat) (hy : y < H) :
    L.weightS T H ch i y x = .fin (Fl.rlsm H (fun y' => L.logits [ch y' x, i, y' % L.kernel_size, x % L.kernel_size] / T) y) :=
  Fl.logSoftmax_eq_fin (fun _ _ => rfl) hy

/-- independent categorical choices with the weights of `sample`. -/
def choice (L : SumConv) (T : ℝ) (N H W : Nat) (idx : Nat → Nat → Nat → Nat) : Rand (Nat → Nat → Nat → Nat) :=
  (Rand.drawAll (box [N, H, W]) (fun j => Rand.categorical L.in_channels fun i =>
    L.weightS T H (idx (at' 0 j)) i (at' 1 j) (at' 2 j)) fun _ => 0).bind fun f => .pure fun n y x => f [n, y, x]

theorem sample_le {μ : Measure ℝ} {b : Prop × Prop} {c : ℝ≥0∞} (hc : c ≠ ⊤) (hμ : μ ≤ c • gumbel0) (hb : NoiseOK b μ gumbel0)
    (L : SumConv) (hK : 0 < L.kernel_size) (hI : 0 < L.in_channels) {ctx : DCtx} {N H W : Nat} {idx : Nat → Nat → Nat → Nat}
    (hH : L.kernel_size ∣ H) (hW : L.kernel_size ∣ W) (hm : ctx.is_mpe = false)
    (hT : ctx.temperature_sums ≠ 0) (h : CCtx ctx N L.out_channels H W idx) :
    RLe b (c ^ (N * H * W * L.in_channels)) (fun d ix => d = { ctx with indices_out := d.indices_out } ∧
        CCtx d N L.in_channels H W ix)
      (L.sample μ ctx) (L.choice ctx.temperature_sums N H W idx) := by
  obtain ⟨w, hw, hw'⟩ := L.selectWeights_is hK hH hW hT h
  unfold sample
  rw [hw, Rand.lift_ok, Rand.pure_bind]
  unfold drawNoise
  rw [if_neg (by simp [hm]), Rand.bind_assoc, Tensor.size, hw'.1]
  simp only [delAt, at', Rand.pure_bind, choice]
  set lw : List Nat → Nat → Fl := fun j i => L.weightS ctx.temperature_sums H (idx (at' 0 j)) i (at' 1 j) (at' 2 j) with hlwdef
  have hfin : ∀ j, InB [N, H, W] j → ∀ i, i < L.in_channels → (lw j i).IsFin := by
    intro j hj i hi
    match j, hj with
    | [n, y, x], hj =>
      show (L.weightS _ _ (idx n) i y x).IsFin
      rw [L.weightS_fin _ _ _ _ hj.2.1]
      exact Fl.isFin_fin _
  have hl : (box [N, H, W]).length = N * H * W := by simp [length_box, numelS, mul_assoc]
  have h0 : RLe b ((c ^ L.in_channels) ^ (box [N, H, W]).length)
      (fun (f : List Nat → Nat → ℝ) (g : List Nat → Nat) => ∀ i ∈ box [N, H, W],
        g i = Fl.argmaxN L.in_channels fun k => lw i k + .fin (f i k))
      (Rand.drawAll (box [N, H, W]) (fun _ => drawVec μ L.in_channels) fun _ _ => 0)
      (Rand.drawAll (box [N, H, W]) (fun i => Rand.categorical L.in_channels (lw i)) fun _ => 0) :=
    RLe.drawAll (R := fun i (f : Nat → ℝ) (j : Nat) => j = Fl.argmaxN L.in_channels fun k => lw i k + .fin (f k))
      (ENNReal.pow_ne_top hc) fun i hi => drawVec_categorical hc hμ hb hI fun k hk => hfin i (mem_box.1 hi) k hk
  have he : (c ^ L.in_channels) ^ (box [N, H, W]).length = c ^ (N * H * W * L.in_channels) := by
    rw [hl, ← pow_mul]
    congr 1
    ring
  rw [he] at h0
  rw [← mul_one (c ^ (N * H * W * L.in_channels))]
  refine RLe.bind ENNReal.one_ne_top h0 fun v g hvg => ?_
  obtain ⟨t, ht, ht'⟩ := simple_is (d := 1) (noise := some fun i => .fin (v (delAt 1 i) (at' 1 i))) hw' (by simp)
    (by simpa [at'] using hI) (fun i hi => by
      match i, hi with
      | [n, k, y, x], hi => exact hfin [n, y, x] ⟨hi.1, hi.2.2⟩ k hi.2.1) (fun i hi => by
      match i, hi with
      | [n, k, y, x], hi => exact Fl.isFin_add (hfin [n, y, x] ⟨hi.1, hi.2.2⟩ k hi.2.1) (Fl.isFin_fin _))
  have e : (do
      let indices ← simple none (some w) 1 (if ctx.is_mpe = true then none else some fun i => .fin (v (delAt 1 i) (at' 1 i)))
      return { ctx with indices_out := indices } : Res DCtx) = .ok { ctx with indices_out := t } := by
    rw [if_neg (by simp [hm]), ht]
    rfl
  rw [e]
  refine RLe.pure ⟨rfl, h.ns, ?_, ?_, h.ir⟩
  · refine Is.is4 ht' ?_
    intro n hn k hk y hy x hx
    simp only [at', setAt]
    have := hvg [n, y, x] (mem_box.2 ⟨hn, hy, hx, trivial⟩)
    rw [this]
    rfl
  · intro n hn y hy x hx
    rw [hvg [n, y, x] (mem_box.2 ⟨hn, hy, hx, trivial⟩)]
    exact Fl.argmaxN_lt hI _

/-- the law of the choices. -/
theorem choice_E (L : SumConv) (hI : 0 < L.in_channels) (T : ℝ) (N H W : Nat) (idx : Nat → Nat → Nat → Nat)
    (G : Nat → Img ℝ≥0∞) :
    (L.choice T N H W idx).E (fun ix => ∏ n ∈ Finset.range N, ∏ y ∈ Finset.range H, ∏ x ∈ Finset.range W, G n (ix n y x) y x) =
      ∏ n ∈ Finset.range N, ∏ y ∈ Finset.range H, ∏ x ∈ Finset.range W, ∑ i ∈ Finset.range L.in_channels,
        toP (Fl.logSoftmax L.in_channels (fun i => L.weightS T H (idx n) i y x) i) * G n i y x := by
  unfold choice
  rw [Rand.E_bind]
  simp only [Rand.E_pure]
  have hb : ∀ q : List Nat → ℝ≥0∞, ∏ n ∈ Finset.range N, ∏ y ∈ Finset.range H, ∏ x ∈ Finset.range W,
      q [n, y, x] = prodBox [N, H, W] q := by
    intro q
    simp only [prodBox_cons, prodBox_nil]
  rw [show (fun f : List Nat → Nat => ∏ n ∈ Finset.range N, ∏ y ∈ Finset.range H, ∏ x ∈ Finset.range W,
      G n (f [n, y, x]) y x) = fun f => prodBox [N, H, W] fun j =>
        G (at' 0 j) (f j) (at' 1 j) (at' 2 j) from funext fun f => hb fun j => G (at' 0 j) (f j) (at' 1 j) (at' 2 j)]
  unfold prodBox
  rw [Rand.E_drawAll (h := fun j k => G (at' 0 j) k (at' 1 j) (at' 2 j)) (box_nodup _)
    fun i _ c => (Rand.disc_categorical _ _).mul_const _ c]
  refine Eq.trans ?_ (hb fun j => ∑ i ∈ Finset.range L.in_channels, toP (Fl.logSoftmax L.in_channels
    (fun i => L.weightS T H (idx (at' 0 j)) i (at' 1 j) (at' 2 j)) i) * G (at' 0 j) i (at' 1 j) (at' 2 j)).symm
  refine congrArg List.prod (List.map_congr_left fun j hj => ?_)
  refine Rand.E_categorical hI (fun k hk => ?_) _
  match j, mem_box.1 hj with
  | [n, y, x], hj =>
    simp only [at']
    rw [Fl.logSoftmax_eq_fin (fun i _ => L.weightS_fin T _ i x hj.2.1) hk]
    simp

end SumConv
end Einet
