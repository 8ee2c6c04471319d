import Verif.ConvEnd

/-!
# Samples of convolutional circuits
-/

open Classical MeasureTheory
open scoped ENNReal
noncomputable section
namespace Einet
open Tensor

/-! ### Total probability and the most probable branch -/

theorem ConvSum.sample_full {μ : Measure ℝ} (hμ : μ Set.univ = 1) (L : ConvSum) (hI : 0 < L.in_channels) {ctx : DCtx} {N : Nat}
    {idx : Nat → Nat → Nat → Nat} (hT : ctx.temperature_sums ≠ 0) (h : CCtx ctx N L.out_channels L.height L.width idx) :
    Full (fun d => d = { ctx with indices_out := d.indices_out } ∧ ∃ ix, CCtx d N L.in_channels L.height L.width ix)
      (L.sample μ none ctx) := by
  obtain ⟨w, hw, hw'⟩ := L.selectWeights_is hT h
  have hlw : L.logWeights none ctx = .ok w := by
    unfold ConvSum.logWeights
    rw [hw]
    rfl
  unfold ConvSum.sample
  rw [hlw, Rand.lift_ok, Rand.pure_bind]
  refine Full.bind (drawNoise_full hμ _ _ _) fun g hg => Full.lift ?_
  have hfin : ∀ i, InB [N, L.in_channels, L.height, L.width] i → ∃ n k y x, i = [n, k, y, x] ∧ k < L.in_channels := by
    intro i hi
    match i, hi with
    | [n, k, y, x], hi => exact ⟨n, k, y, x, rfl, hi.2.1⟩
  refine (simple_is (d := 1) (noise := if ctx.is_mpe = true then none else some g) hw' (by simp)
    (by simpa [at'] using hI) (fun i hi => by
      obtain ⟨n, k, y, x, rfl, hk⟩ := hfin i hi
      exact L.weight_fin _ hk) (fun i hi => by
      obtain ⟨n, k, y, x, rfl, hk⟩ := hfin i hi
      split_ifs
      · exact L.weight_fin _ hk
      · exact Fl.isFin_add (L.weight_fin _ hk) (hg _))).bind fun t ht => Res.Sat.pure ⟨rfl, ?_⟩
  refine ⟨fun n y x => Fl.argmaxN L.in_channels fun k => perturb (if ctx.is_mpe = true then none else some g)
    (fun i => Fl.logSoftmax L.in_channels (fun j => .fin (L.logits [idx (at' 0 i) (at' 2 i) (at' 3 i), j, at' 2 i, at' 3 i] /
      ctx.temperature_sums)) (at' 1 i)) [n, k, y, x], h.ns, ?_, ?_, h.ir⟩
  · refine Is.is4 ht ?_
    intro n hn k hk y hy x hx
    rfl
  · intro n hn y hy x hx
    exact Fl.argmaxN_lt hI _

theorem sampleAtoms_full {μ : Measure ℝ} (hμ : μ Set.univ = 1) {as : List ConvAtom} {C H W C' H' W' : Nat}
    (hw : AChain as C H W C' H' W') {ctx : DCtx} {N : Nat} {idx : Nat → Nat → Nat → Nat} (hT : ctx.temperature_sums ≠ 0)
    (h : CCtx ctx N C' H' W' idx) :
    Full (fun d => d = { ctx with indices_out := d.indices_out } ∧ ∃ ix, CCtx d N C H W ix) (sampleAtoms μ as ctx) := by
  induction hw with
  | nil => exact Full.pure ⟨rfl, _, h⟩
  | @cons a as _ _ _ _ _ _ _ _ _ ha _ ih =>
    refine Full.bind (ih h) fun d ⟨hd, ix, hd'⟩ => ?_
    cases ha with
    | sum L hI =>
      refine (L.sample_full hμ hI (by rw [hd]; exact hT) hd').mono fun f hf => ⟨?_, hf.2⟩
      rw [hf.1, hd]
    | prod kh kw C H W h1 h2 h3 h4 =>
      obtain ⟨f, hf, hf1, hf2⟩ := ProdConv.sample_is (kh := kh) (kw := kw) hd'
      show Full _ (Rand.lift (ProdConv.sample kh kw d))
      rw [hf]
      exact Full.pure ⟨by rw [hf1, hd], _, hf2⟩

/-- the most probable choice of every step. -/
def ConvAtom.best (T : ℝ) : ConvAtom → (Nat → Nat → Nat) → Nat → Nat → Nat
  | .sum L, idx => fun y x => Fl.argmaxN L.in_channels fun i => .fin (L.logits [idx y x, i, y, x] / T)
  | .prod kh kw, idx => fun y x => idx (y / kh) (x / kw)

/-- from the top. -/
def bestAtoms (T : ℝ) : List ConvAtom → (Nat → Nat → Nat) → Nat → Nat → Nat
  | [], idx => idx
  | a :: as, idx => a.best T (bestAtoms T as idx)

theorem argmaxN_logSoftmax_fin {n : Nat} (f : Nat → ℝ) :
    Fl.argmaxN n (Fl.logSoftmax n fun i => .fin (f i)) = Fl.argmaxN n fun i => .fin (f i) := by
  refine Fl.argmaxN_mono (g := fun k => Fl.rlsm n f k) (g' := f)
    (fun k hk => Fl.logSoftmax_eq_fin (fun _ _ => rfl) hk) (fun _ _ => rfl) fun i j => ?_
  simp [Fl.rlsm]

theorem sampleAtoms_mpe {μ : Measure ℝ} {as : List ConvAtom} {C H W C' H' W' : Nat} (hw : AChain as C H W C' H' W')
    {ctx : DCtx} {N : Nat} {idx : Nat → Nat → Nat} (hm : ctx.is_mpe = true) (hT : ctx.temperature_sums ≠ 0)
    (h : CCtx ctx N C' H' W' fun _ => idx) :
    ∃ d, sampleAtoms μ as ctx = .pure d ∧ d = { ctx with indices_out := d.indices_out } ∧
      CCtx d N C H W fun _ => bestAtoms ctx.temperature_sums as idx := by
  induction hw with
  | nil => exact ⟨ctx, rfl, rfl, h⟩
  | @cons a as _ _ _ _ _ _ _ _ _ ha _ ih =>
    obtain ⟨d, hd, hd1, hd2⟩ := ih h
    simp only [sampleAtoms]
    rw [hd, Rand.pure_bind]
    have hdT : d.temperature_sums = ctx.temperature_sums := by rw [hd1]
    have hdm : d.is_mpe = true := by rw [hd1]; exact hm
    cases ha with
    | sum L hI =>
      obtain ⟨w, hw, hw'⟩ := L.selectWeights_is (by rw [hdT]; exact hT) hd2
      have hlw : L.logWeights none d = .ok w := by
        unfold ConvSum.logWeights
        rw [hw]
        rfl
      have hs := simple_is (d := 1) (noise := none) hw' (by simp) (by simpa [at'] using hI)
        (fun i hi => by
          match i, hi with
          | [n, k, y, x], hi => exact L.weight_fin _ hi.2.1) (fun i hi => by
          match i, hi with
          | [n, k, y, x], hi => exact L.weight_fin _ hi.2.1)
      obtain ⟨t, ht, ht'⟩ := hs
      refine ⟨{ d with indices_out := t }, ?_, by rw [hd1], hd2.ns, ?_, ?_, hd2.ir⟩
      · show L.sample μ none d = _
        unfold ConvSum.sample drawNoise
        rw [hlw, Rand.lift_ok, Rand.pure_bind, if_pos hdm, Rand.pure_bind, if_pos hdm, ht]
        rfl
      · refine Is.is4 ht' ?_
        intro n hn k hk y hy x hx
        simp only [bestAtoms, ConvAtom.best, ← hdT]
        rw [← argmaxN_logSoftmax_fin]
        rfl
      · intro n hn y hy x hx
        exact Fl.argmaxN_lt hI _
    | prod kh kw C H W h1 h2 h3 h4 =>
      obtain ⟨f, hf, hf1, hf2⟩ := ProdConv.sample_is (kh := kh) (kw := kw) hd2
      refine ⟨f, ?_, by rw [hf1, hd1], hf2⟩
      show Rand.lift (ProdConv.sample kh kw d) = _
      rw [hf]
      rfl

/-! ### Bounds of the choices -/

theorem ConvAtom.WF.choice_all {a : ConvAtom} {C H W C' H' W' : Nat} (h : a.WF C H W C' H' W') (T : ℝ) {N : Nat}
    {idx : Nat → Nat → Nat → Nat} (hi : ∀ n, n < N → ∀ y, y < H' → ∀ x, x < W' → idx n y x < C') :
    (a.choice T N idx).All fun ix => ∀ n, n < N → ∀ y, y < H → ∀ x, x < W → ix n y x < C := by
  cases h with
  | sum L hI =>
    refine (Rand.All_drawAll (P := fun _ k => k < L.in_channels) fun i _ =>
      (Rand.All_categorical hI fun k hk => ?_).mono fun k hk => hk.1).bind fun f hf => ?_
    · rw [Fl.logSoftmax_eq_fin (fun k hk => (L.weight_fin T hk).eq) hk]
      simp
    · intro n hn y hy x hx
      exact hf [n, y, x] (mem_box.2 ⟨hn, hy, hx, trivial⟩)
  | prod kh kw C H W h1 h2 h3 h4 =>
    intro n hn y hy x hx
    exact hi n hn _ (Nat.div_lt_of_lt_mul (by rwa [mul_comm])) _ (Nat.div_lt_of_lt_mul (by rwa [mul_comm]))

theorem choiceAtoms_all {as : List ConvAtom} {C H W C' H' W' : Nat} (h : AChain as C H W C' H' W') (T : ℝ) {N : Nat}
    {idx : Nat → Nat → Nat → Nat} (hi : ∀ n, n < N → ∀ y, y < H' → ∀ x, x < W' → idx n y x < C') :
    (choiceAtoms T N as idx).All fun ix => ∀ n, n < N → ∀ y, y < H → ∀ x, x < W → ix n y x < C := by
  induction h with
  | nil => exact hi
  | cons h _ ih => exact (ih hi).bind fun ix hix => h.choice_all T hix

/-! ### Selection -/

theorem BaseLeaf.selectRepD_one {B : BaseLeaf} {ctx : DCtx} {N C H W : Nat} {idx : Nat → Nat → Nat → Nat}
    (hR : B.num_repetitions = 1) (h : CCtx ctx N C H W idx) (v : List Nat → ℝ) :
    Res.Sat (B.selectRepD ctx v) fun t => t.Is4 N B.num_channels B.num_features B.num_leaves
      fun n c f i => .fin (v [n, c, f, i, 0]) := by
  unfold selectRepD
  rw [hR]
  refine Res.Sat.require one_pos ?_
  have hn : ctx.indices_repetition.numel / 1 = N := by
    rw [numel, h.ir.1]
    simp [numelS]
  rw [hn]
  refine (view_is (s' := [N, 1, 1, 1, 1]) h.ir (by simp [numelS])).bind fun q hq => ?_
  rw [h.ns]
  refine (indexOneHot_is (c := [N, B.num_channels, B.num_features, B.num_leaves, 1])
    (s := [N, B.num_channels, B.num_features, B.num_leaves, 1]) (g := fun j => .fin (v j))
    (Is.intro rfl fun _ _ => rfl) hq (by simp) (by simp) (by simp [at']) (by simp [bshape])).mono fun t ht => Is.is4 ht ?_
  intro n hn c hc f hf i hi
  simp only [at', insAt]
  simp [clipAll, clip_of_lt, hn, hc, hf, hi, Fl.sumN_fin]

namespace ConvModel

theorem select_is {M : ConvModel} {ctx : DCtx} {N I : Nat} {idx : Nat → Nat → Nat → Nat}
    (h : CCtx ctx N I M.height M.width idx) {s : Tensor Fl} {S : Nat → Nat → Nat → Nat → ℝ}
    (hs : s.Is4 N M.num_channels (M.height * M.width) I fun n c f i => .fin (S n c f i)) :
    Res.Sat (M.select ctx s) fun t => t.Is4 N M.num_channels M.height M.width fun n c y x =>
      .fin (S n c (y * M.width + x) (idx n y x)) := by
  unfold select
  refine Res.Sat.require (by rw [rank, hs.1]; rfl) ?_
  have e0 : s.size 0 = N := by rw [size, hs.1]; rfl
  have e3 : s.size 3 = I := by rw [size, hs.1]; rfl
  rw [e0, e3]
  refine (view_is (s' := [N, M.num_channels, M.height, M.width, I]) hs (by simp only [numelS]; ring)).bind fun u hu => ?_
  refine (permute_is hu (show [0, 4, 1, 2, 3].Perm (List.range 5) by decide) ?_).bind fun w hw => ?_
  · intro i hi
    match i, hi with
    | [n, i, c, y, x], hi => exact ⟨hi.1, hi.2.2.1, hi.2.2.2.1, hi.2.2.2.2.1, hi.2.1, trivial⟩
  have hw' : w.Is5 N I M.num_channels M.height M.width fun n i c y x => .fin (S n c (y * M.width + x) i) := by
    refine Is.congr hw ((AllIdx_iff _ _).2 fun j hj => ?_)
    obtain ⟨n, i, c, y, x, rfl, hn, hi, hc, hy, hx⟩ : ∃ n i c y x, j = [n, i, c, y, x] ∧ n < N ∧ i < I ∧
        c < M.num_channels ∧ y < M.height ∧ x < M.width := by
      match j, hj with
      | [n, i, c, y, x], hj => exact ⟨n, i, c, y, x, rfl, hj.1, hj.2.1, hj.2.2.1, hj.2.2.2.1, hj.2.2.2.2.1⟩
    have e : unflat [N, M.num_channels, M.height * M.width, I] (flat [N, M.num_channels, M.height, M.width, I] [n, c, y, x, i]) =
        [n, c, y * M.width + x, i] := by
      refine unflat_eq ⟨hn, hc, block_lt hy hx, hi, trivial⟩ ?_
      simp only [flat, numelS]
      ring
    show _ = _
    rw [show ((List.range [N, M.num_channels, M.height, M.width, I].length).map fun d => at' (List.idxOf d [0, 4, 1, 2, 3])
      [n, i, c, y, x]) = [n, c, y, x, i] from rfl, e]
    rfl
  refine (unsqueeze_is h.io (by simp)).bind fun p hp => ?_
  refine (indexOneHot_is (c := [N, I, M.num_channels, M.height, M.width]) hw' hp (by simp [insAt]) (by simp)
    (by simp [insAt, at']) (by simp [insAt, bshape])).mono fun t ht => Is.is4 ht ?_
  intro n hn c hc y hy x hx
  rw [← Fl.sumN_oh (f := fun i => .fin (S n c (y * M.width + x) i)) (h.lt n hn y hy x hx) fun i _ => Fl.isFin_fin _]
  show Fl.sumN I _ = _
  refine Fl.sumN_congr fun i hi => ?_
  simp [insAt, delAt, clipAll, at', clip_of_lt, hn, hi, hc, hy, hx]

theorem initCtx_ok (N : Nat) (a : ConvArgs) : CCtx (initCtx N a) N 1 1 1 fun _ _ _ => 0 where
  ns := rfl
  io := by
    refine Is.is4 (full_is _ _) ?_
    intro n hn c hc y hy x hx
    have : c = 0 := by omega
    subst this
    simp [oh]
  lt _ _ _ _ _ _ := one_pos
  ir := full_is _ _

/-- the values of the chosen components. -/
def pick (M : ConvModel) (N : Nat) (ix : Nat → Nat → Nat → Nat) (v : List Nat → ℝ) : Tensor Fl :=
  ⟨[N, M.num_channels, M.height, M.width], fun j =>
    .fin (v [at' 0 j, at' 1 j, at' 2 j * M.width + at' 3 j, ix (at' 0 j) (at' 2 j) (at' 3 j), 0])⟩

/-- the sampling process in terms of the circuit: choices from the root, then values of the chosen components. -/
def spec (M : ConvModel) (N : Nat) (a : ConvArgs) : Rand (Tensor Fl) :=
  (choiceAtoms a.temperature_sums N M.atoms fun _ _ _ => 0).bind fun ix =>
    (M.leaf.diff.draws (BaseLeaf.drawCtx (initCtx N a))).bind fun v => .pure (M.pick N ix v)

/-- equal shapes and entries. -/
def Eqv (t t' : Tensor Fl) : Prop := t.shape = t'.shape ∧ ∀ i, InB t.shape i → t.get i = t'.get i

theorem end_eq {M : ConvModel} (h : M.WF) (hs : M.leaf.samplable = true) {N : Nat} {a : ConvArgs} {d : DCtx}
    {ix : Nat → Nat → Nat → Nat} (hd : d = { initCtx N a with indices_out := d.indices_out })
    (hd' : CCtx d N M.leaf.num_leaves M.height M.width ix) :
    ∃ res : (List Nat → ℝ) → Tensor Fl, ((M.leaf.sampleAllD d).bind fun s => Rand.lift (M.select d s)) =
        ((M.leaf.diff.draws (BaseLeaf.drawCtx (initCtx N a))).bind fun v => .pure (res v)) ∧
      ∀ v, Eqv (res v) (M.pick N ix v) := by
  have hsel : ∀ v, ∃ t, (M.leaf.selectRepD d v >>= fun s => M.select d s) = .ok t ∧ Eqv t (M.pick N ix v) := by
    intro v
    have := (BaseLeaf.selectRepD_one h.reps hd' v).bind (f := fun s => M.select d s)
      (Q := fun t : Tensor Fl => t.Is4 N M.num_channels M.height M.width fun n c y x => .fin (v [n, c, y * M.width + x, ix n y x, 0]))
      fun s hs => select_is hd' (S := fun n c f i => v [n, c, f, i, 0]) (by rw [← h.channels, ← h.features]; exact hs)
    obtain ⟨t, ht, ht'⟩ := this
    refine ⟨t, ht, ht'.1, fun i hi => ?_⟩
    rw [ht'.1] at hi
    exact Is.get ht' hi
  choose res hres hres' using hsel
  refine ⟨res, ?_, hres'⟩
  rw [M.leaf.sampleAllD_eq hs, Rand.bind_assoc]
  have : BaseLeaf.drawCtx d = BaseLeaf.drawCtx (initCtx N a) := by rw [hd]; rfl
  rw [this]
  congr 1
  funext v
  rw [← Rand.lift_ok, ← hres v]
  exact Rand.lift_bind_lift _ _

/-- sampling against the process. -/
theorem draw_le {μ : Measure ℝ} {b : Prop × Prop} {k : ℝ≥0∞} (hk : k ≠ ⊤) (hμ : μ ≤ k • gumbel0) (hb : NoiseOK b μ gumbel0)
    {M : ConvModel} (h : M.WF) (hs : M.leaf.samplable = true) {N : Nat} {a : ConvArgs} (hm : a.is_mpe = false)
    (hT : a.temperature_sums ≠ 0)
    (hdr : b.2 → (M.leaf.diff.draws (BaseLeaf.drawCtx (initCtx N a))).Near fun _ => True) : RLe b (k ^ (N * noiseAtoms M.atoms)) Eqv (M.draw μ [] N a) (M.spec N a) := by
  unfold draw spec
  rw [sampleConv_atoms h.known, ← mul_one (k ^ (N * noiseAtoms M.atoms))]
  refine RLe.bind ENNReal.one_ne_top (sampleAtoms_le hk hμ hb h.chain (ctx := initCtx N a) hm hT (initCtx_ok N a))
    fun d ix ⟨hd, hd'⟩ => ?_
  obtain ⟨res, h1, h2⟩ := end_eq h hs hd hd'
  rw [h1, ← mul_one (1 : ℝ≥0∞)]
  exact RLe.bind ENNReal.one_ne_top (RLe.refl _ hdr) fun v v' hv => by subst hv; exact RLe.pure (h2 v)

/-- samples exist with probability one. -/
theorem draw_full {μ : Measure ℝ} (hμ : μ Set.univ = 1) {M : ConvModel} (h : M.WF) (hs : M.leaf.Samp) {N : Nat} {a : ConvArgs}
    (hT : a.temperature_sums ≠ 0) (hL : 0 < a.temperature_leaves) :
    Full (fun t => ∃ S : Nat → Img ℝ, t.Is4 N M.num_channels M.height M.width fun n c y x => .fin (S n c y x))
      (M.draw μ [] N a) := by
  unfold draw
  rw [sampleConv_atoms h.known]
  refine Full.bind (sampleAtoms_full hμ h.chain (ctx := initCtx N a) hT (initCtx_ok N a)) fun d ⟨hd, ix, hd'⟩ => ?_
  obtain ⟨res, h1, h2⟩ := end_eq h hs.samplable hd hd'
  rw [h1]
  refine Full.bind (Model.draws_full fun c f i r => hs.probD _ hL c f i r) fun v _ => Full.pure ?_
  refine ⟨fun n c y x => v [n, c, y * M.width + x, ix n y x, 0], Is.intro (h2 v).1 fun j hj => ?_⟩
  rw [(h2 v).2 j (by rw [(h2 v).1]; exact hj)]
  match j, hj with
  | [n, c, y, x], _ => rfl

/-- products over all entries of a batch of images. -/
def prod4 (N C H W : Nat) (h : Nat → Nat → Nat → Nat → ℝ≥0∞) : ℝ≥0∞ :=
  ∏ n ∈ Finset.range N, ∏ c ∈ Finset.range C, ∏ y ∈ Finset.range H, ∏ x ∈ Finset.range W, h n c y x

theorem prod4_eq (N C H W : Nat) (h : Nat → Nat → Nat → Nat → ℝ≥0∞) :
    prod4 N C H W h = ∏ n ∈ Finset.range N, ∏ y ∈ Finset.range H, ∏ x ∈ Finset.range W, ∏ c ∈ Finset.range C, h n c y x := by
  refine Finset.prod_congr rfl fun n _ => ?_
  rw [Finset.prod_comm]
  exact Finset.prod_congr rfl fun y _ => Finset.prod_comm

theorem prod_pixels (N C H W : Nat) (h : Nat → Nat → Nat → Nat → ℝ≥0∞) :
    prod4 N C H W h = prod3 N C (H * W) fun n c f => h n c (f / W) (f % W) := by
  rw [prod4_eq]
  unfold prod3
  refine Finset.prod_congr rfl fun n _ => ?_
  rw [prod_range_mul']
  refine Finset.prod_congr rfl fun y _ => Finset.prod_congr rfl fun x hx => Finset.prod_congr rfl fun c _ => ?_
  have hx' : x < W := by simpa using hx
  show _ = h n c ((y * W + x) / W) ((y * W + x) % W)
  rw [block_div hx', Nat.mul_comm, Nat.mul_add_mod, Nat.mod_eq_of_lt hx']

theorem spec_E {M : ConvModel} (h : M.WF) (hs : M.leaf.Samp) {N : Nat} {a : ConvArgs} (hL : 0 < a.temperature_leaves)
    {t : Nat → Nat → Nat → Nat → ℝ → ℝ≥0∞} (ht : ∀ n c y x, Measurable (t n c y x)) :
    (M.spec N a).E (fun s => prod4 N M.num_channels M.height M.width fun n c y x => t n c y x (s.get [n, c, y, x]).val) =
      ∏ n ∈ Finset.range N, denAtoms a.temperature_sums M.atoms (fun i y x => ∏ c ∈ Finset.range M.num_channels,
        M.leaf.diff.compE (a.is_mpe || a.mpe_at_leaves) a.temperature_leaves c (y * M.width + x) i 0 (t n c y x)) 0 0 0 := by
  unfold spec
  rw [Rand.E_bind]
  have hall := choiceAtoms_all h.chain a.temperature_sums (N := N) (idx := fun _ _ _ => 0)
    (fun _ _ _ hy _ hx => one_pos)
  refine (Rand.E_congr hall (g := fun ix => ∏ n ∈ Finset.range N, ∏ y ∈ Finset.range M.height, ∏ x ∈ Finset.range M.width,
    ∏ c ∈ Finset.range M.num_channels, M.leaf.diff.compE (a.is_mpe || a.mpe_at_leaves) a.temperature_leaves c
      (y * M.width + x) (ix n y x) 0 (t n c y x)) fun ix hix => ?_).trans ?_
  · rw [Rand.E_bind]
    simp only [Rand.E_pure]
    have e1 : ∀ v : List Nat → ℝ, (prod4 N M.num_channels M.height M.width fun n c y x =>
        t n c y x ((M.pick N ix v).get [n, c, y, x]).val) = prod3 N M.leaf.diff.num_channels M.leaf.diff.num_features fun n c f =>
          t n c (f / M.width) (f % M.width) (v [n, c, f, ix n (f / M.width) (f % M.width), 0]) := by
      intro v
      rw [prod_pixels]
      show prod3 N M.num_channels (M.height * M.width) _ = prod3 N M.leaf.num_channels M.leaf.num_features _
      rw [h.channels, h.features]
      refine prod3_congr fun n _ c _ f _ => ?_
      show t n c _ _ (v [n, c, f / M.width * M.width + f % M.width, _, 0]) = _
      rw [Nat.div_add_mod']
      rfl
    simp only [e1]
    refine (BaseLeaf.draws_E M.leaf.diff (ctx := BaseLeaf.drawCtx (initCtx N a)) (N := N) rfl (fun c f i r => hs.probD _ hL c f i r)
      (K := fun n f => ix n (f / M.width) (f % M.width)) (rr := fun _ => 0) (fun n hn f hf => ?_)
      (fun n _ => by show 0 < M.leaf.num_repetitions; rw [h.reps]; exact one_pos)
      (h := fun n c f => t n c (f / M.width) (f % M.width)) fun n c f => ht _ _ _ _).trans ?_
    · have hf' : f < M.height * M.width := by rw [← h.features]; exact hf
      exact hix n hn _ (Nat.div_lt_of_lt_mul (by rwa [mul_comm])) _ (Nat.mod_lt _ h.wpos)
    · rw [← prod4_eq N M.num_channels M.height M.width fun n c y x => M.leaf.diff.compE (a.is_mpe || a.mpe_at_leaves)
        a.temperature_leaves c (y * M.width + x) (ix n y x) 0 (t n c y x), prod_pixels]
      show prod3 N M.leaf.num_channels M.leaf.num_features _ = prod3 N M.num_channels (M.height * M.width) _
      rw [h.channels, h.features]
      refine prod3_congr fun n _ c _ f _ => ?_
      rw [Nat.div_add_mod']
      rfl
  · rw [choiceAtoms_E h.chain a.temperature_sums N (fun _ _ _ => 0) fun n i y x => ∏ c ∈ Finset.range M.num_channels,
      M.leaf.diff.compE (a.is_mpe || a.mpe_at_leaves) a.temperature_leaves c (y * M.width + x) i 0 (t n c y x)]
    simp

/-- factors that do not depend on the channel can be pulled out. -/
theorem ConvAtom.WF.den_mul {a : ConvAtom} {C H W C' H' W' : Nat} (h : a.WF C H W C' H' W') (T : ℝ) (K : Nat → Nat → ℝ≥0∞) :
    ∃ K' : Nat → Nat → ℝ≥0∞, (∀ p c y x, a.den T (fun c y x => K y x * p c y x) c y x = K' y x * a.den T p c y x) ∧
      ∏ y ∈ Finset.range H', ∏ x ∈ Finset.range W', K' y x = ∏ y ∈ Finset.range H, ∏ x ∈ Finset.range W, K y x := by
  cases h with
  | sum L hI =>
    refine ⟨K, fun p c y x => ?_, rfl⟩
    simp only [ConvAtom.den]
    rw [Finset.mul_sum]
    exact Finset.sum_congr rfl fun i _ => by ring
  | prod kh kw C H W h1 h2 h3 h4 =>
    refine ⟨fun y x => ∏ a ∈ Finset.range kh, ∏ b ∈ Finset.range kw, K (y * kh + a) (x * kw + b), fun p c y x => ?_, ?_⟩
    · simp only [ConvAtom.den, Finset.prod_mul_distrib]
    · rw [prod_range_mul']
      refine Finset.prod_congr rfl fun y _ => ?_
      rw [Finset.prod_comm]
      refine Finset.prod_congr rfl fun a _ => ?_
      rw [prod_range_mul']

theorem denAtoms_mul {as : List ConvAtom} {C H W C' H' W' : Nat} (h : AChain as C H W C' H' W') (T : ℝ) (K : Nat → Nat → ℝ≥0∞) :
    ∃ K' : Nat → Nat → ℝ≥0∞, (∀ p c y x, denAtoms T as (fun c y x => K y x * p c y x) c y x = K' y x * denAtoms T as p c y x) ∧
      ∏ y ∈ Finset.range H', ∏ x ∈ Finset.range W', K' y x = ∏ y ∈ Finset.range H, ∏ x ∈ Finset.range W, K y x := by
  induction h generalizing K with
  | nil => exact ⟨K, fun _ _ _ _ => rfl, rfl⟩
  | @cons a as _ _ _ _ _ _ _ _ _ h _ ih =>
    obtain ⟨K1, e1, e2⟩ := ConvAtom.WF.den_mul h T K
    obtain ⟨K2, e3, e4⟩ := ih K1
    refine ⟨K2, fun p c y x => ?_, e4.trans e2⟩
    simp only [denAtoms]
    rw [show a.den T (fun c y x => K y x * p c y x) = fun c y x => K1 y x * a.den T p c y x from
      funext fun c => funext fun y => funext fun x => e1 p c y x]
    exact e3 _ c y x

/-- at temperature one the samples follow the density. -/
theorem spec_density {M : ConvModel} (h : M.WF) (hp : M.leaf.Proper) (hs : M.leaf.Samp) (hD : M.leaf.lawD = M.leaf.law)
    {N : Nat} {a : ConvArgs} (hm : a.is_mpe = false) (hm' : a.mpe_at_leaves = false) (hT : a.temperature_sums = 1)
    (hL : a.temperature_leaves = 1) {t : Nat → Nat → Nat → Nat → ℝ → ℝ≥0∞} (ht : ∀ n c y x, Measurable (t n c y x)) :
    (M.spec N a).E (fun s => prod4 N M.num_channels M.height M.width fun n c y x => t n c y x (s.get [n, c, y, x]).val) =
      ∏ n ∈ Finset.range N, ∫⁻ ω : ImgPt M.num_channels M.height M.width,
        (∏ c : Fin M.num_channels, ∏ y : Fin M.height, ∏ x : Fin M.width, t n c y x (ω c y x)) * toP (M.outRow ω.data)
          ∂(Measure.pi fun _ => Measure.pi fun y : Fin M.height => Measure.pi fun x : Fin M.width =>
            M.leaf.ref (y * M.width + x)) := by
  rw [spec_E h hs (by rw [hL]; exact one_pos) ht]
  have := hp.sigmaFinite
  refine Finset.prod_congr rfl fun n _ => ?_
  rw [hm, hm', hT, hL]
  have hval : ∀ᵐ ω : ImgPt M.num_channels M.height M.width
      ∂(Measure.pi fun _ => Measure.pi fun y : Fin M.height => Measure.pi fun x : Fin M.width =>
            M.leaf.ref (y * M.width + x)), ∀ c (y : Fin M.height) (x : Fin M.width),
        M.leaf.valid (y * M.width + x) (.fin (ω c y x)) := by
    have := missingImg_valid hp (M := M) (X := fun _ _ _ => .nan) fun _ _ _ _ _ _ => Or.inl rfl
    unfold missingImg at this
    simpa using this
  have hs1 := lintegral_splits (M := M) hp (ν := fun _ y x => M.leaf.ref (y * M.width + x)) (fun _ _ _ => this _) (h := t n) (ht n)
  have e := denAtoms_lintegral h.chain 1 (fun i y x => ?_) hs1
  · refine Eq.trans ?_ (e.symm.trans (lintegral_congr_ae ?_))
    · refine denAtoms_congr h.chain (fun i hi y hy x hx => Finset.prod_congr rfl fun c _ => ?_) one_pos one_pos one_pos
      show ∫⁻ v, t n c y x v ∂(M.leaf.lawD 1 c (y * M.width + x) i 0) = _
      rw [hD]
      exact hs.law_one _ _ _ _ _ (ht n c y x)
    · filter_upwards [hval] with ω hω
      rw [(outRow_den h hp (observed_data hω)).2]
      rw [denAtoms_congr h.chain (fun i hi y hy x hx => leafP_data h hp hω hi hy hx) one_pos one_pos one_pos]
      obtain ⟨K', k1, k2⟩ := denAtoms_mul h.chain 1 fun y x => ∏ c ∈ Finset.range M.num_channels,
        if hh : c < M.num_channels ∧ y < M.height ∧ x < M.width then
          t n c y x (ω ⟨c, hh.1⟩ ⟨y, hh.2.1⟩ ⟨x, hh.2.2⟩) else 1
      have k3 := k1 (M.ptP ω) 0 0 0
      have k4 : K' 0 0 = ∏ c : Fin M.num_channels, ∏ y : Fin M.height, ∏ x : Fin M.width, t n c y x (ω c y x) := by
        have : ∏ y ∈ Finset.range 1, ∏ x ∈ Finset.range 1, K' y x = K' 0 0 := by simp
        rw [← this, k2, prod_img M.num_channels M.height M.width fun c y x =>
          if hh : c < M.num_channels ∧ y < M.height ∧ x < M.width then
            t n c y x (ω ⟨c, hh.1⟩ ⟨y, hh.2.1⟩ ⟨x, hh.2.2⟩) else 1]
        refine Finset.prod_congr rfl fun c _ => Finset.prod_congr rfl fun y _ => Finset.prod_congr rfl fun x _ => ?_
        rw [dif_pos ⟨c.2, y.2, x.2⟩]
      rw [← k4, ← k3]
      refine denAtoms_congr h.chain (fun i hi y hy x hx => ?_) one_pos one_pos one_pos
      unfold ptP
      rw [← Finset.prod_mul_distrib]
      refine Finset.prod_congr rfl fun c hc => ?_
      have hc' : c < M.num_channels := by simpa using hc
      rw [dif_pos ⟨hc', hy, hx⟩, dif_pos ⟨hc', hy, hx⟩, dif_pos ⟨hc', hy, hx⟩]
  · refine Finset.measurable_fun_prod _ fun c _ => ?_
    split_ifs with hh
    · have m : Measurable fun ω : ImgPt M.num_channels M.height M.width => ω ⟨c, hh.1⟩ ⟨y, hh.2.1⟩ ⟨x, hh.2.2⟩ :=
        (measurable_pi_apply _).comp ((measurable_pi_apply _).comp (measurable_pi_apply _))
      exact ((ht n c y x).comp m).mul ((hp.measurable c _ i 0).comp m)
    · exact measurable_const

end ConvModel
end Einet
