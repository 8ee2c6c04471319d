import Verif.ConvLit
import Verif.PropsLit
import Verif.PropsConv

/-!
# C95: convolutional circuits of main_pl.py
-/

open Classical MeasureTheory
open scoped ENNReal
noncomputable section
namespace Einet
open Tensor
namespace Props

/-- data sets whose images have sides that are multiples of 16. -/
def multiplesOf16 : List String := ["mnist-16", "mnist-32", "fmnist-16", "fmnist-32", "cifar", "svhn", "svhn-extra", "celeba",
  "celeba-small", "celeba-tiny", "lsun", "fake", "flowers", "tiny-imagenet", "lfw"]

theorem lookup_mem {α : Type} {k : String} {v : α} {l : List (String × α)} (h : l.lookup k = some v) : (k, v) ∈ l := by
  induction l with
  | nil => cases h
  | cons a l ih =>
    rw [List.lookup_cons] at h
    split at h
    · rename_i e
      cases h
      rw [beq_iff_eq] at e
      subst e
      exact List.mem_cons_self
    · exact List.mem_cons_of_mem _ (ih h)

theorem sides_16 {name : String} {s : ImgShape} (h : getDataShape name = .ok s) :
    (16 ∣ s.height ∧ 16 ∣ s.width) ↔ name ∈ multiplesOf16 := by
  unfold getDataShape at h
  split at h
  · rename_i hs
    cases h
    refine iff_of_false (by norm_num) fun hm => ?_
    simp only [multiplesOf16, List.mem_cons, List.not_mem_nil, or_false] at hm
    revert hs
    rcases hm with rfl | rfl | rfl | rfl | rfl | rfl | rfl | rfl | rfl | rfl | rfl | rfl | rfl | rfl | rfl <;> decide
  · split at h
    · rename_i n hn
      cases h
      refine iff_of_false (by norm_num) fun hm => ?_
      have hm' := lookup_mem hn
      simp only [debdShapes, List.mem_cons, List.not_mem_nil, or_false, Prod.mk.injEq] at hm'
      revert hm
      rcases hm' with ⟨rfl, _⟩ | ⟨rfl, _⟩ | ⟨rfl, _⟩ | ⟨rfl, _⟩ | ⟨rfl, _⟩ | ⟨rfl, _⟩ | ⟨rfl, _⟩ | ⟨rfl, _⟩ | ⟨rfl, _⟩ | ⟨rfl, _⟩ |
        ⟨rfl, _⟩ | ⟨rfl, _⟩ | ⟨rfl, _⟩ | ⟨rfl, _⟩ | ⟨rfl, _⟩ | ⟨rfl, _⟩ | ⟨rfl, _⟩ | ⟨rfl, _⟩ | ⟨rfl, _⟩ | ⟨rfl, _⟩ | ⟨rfl, _⟩ |
        ⟨rfl, _⟩ <;> decide
    · split at h
      · rename_i t ht
        cases h
        have hm := lookup_mem ht
        simp only [imageShapes, List.mem_cons, List.not_mem_nil, or_false, Prod.mk.injEq] at hm
        rcases hm with ⟨rfl, rfl⟩ | ⟨rfl, rfl⟩ | ⟨rfl, rfl⟩ | ⟨rfl, rfl⟩ | ⟨rfl, rfl⟩ | ⟨rfl, rfl⟩ | ⟨rfl, rfl⟩ | ⟨rfl, rfl⟩ |
          ⟨rfl, rfl⟩ | ⟨rfl, rfl⟩ | ⟨rfl, rfl⟩ | ⟨rfl, rfl⟩ | ⟨rfl, rfl⟩ | ⟨rfl, rfl⟩ | ⟨rfl, rfl⟩ | ⟨rfl, rfl⟩ | ⟨rfl, rfl⟩ |
          ⟨rfl, rfl⟩ | ⟨rfl, rfl⟩ | ⟨rfl, rfl⟩ | ⟨rfl, rfl⟩ | ⟨rfl, rfl⟩ | ⟨rfl, rfl⟩ | ⟨rfl, rfl⟩ <;> decide
      · cases h

theorem makeConvpc_spec {cfg : LitCfg} {cp : ConvConfig} {A : LeafArrays} {lg : Nat → List Nat → ℝ} {M : ConvModel}
    (h : makeConvpc cfg cp A lg = .ok M) {s : ImgShape} (hs : getDataShape cfg.dataset = .ok s) :
    buildConv cp s ⟨cfg.leaf A, lg⟩ = .ok M ∧ M.num_channels = s.channels ∧ M.height = s.height ∧ M.width = s.width := by
  unfold makeConvpc at h
  rw [hs, Res.ok_bind] at h
  obtain ⟨-, -, -, -, -, -, e1, e2, e3⟩ := buildConv_spec h
  exact ⟨h, e1, e2, e3⟩

/-- images whose pixels fit the leaves are a valid batch after preprocessing. -/
theorem pixels_batch {cfg : LitCfg} {A : LeafArrays} (hg : (cfg.leaf A).Good) {s : ImgShape} {N : Nat}
    {k : Nat → Nat → Nat → Nat → Nat} {x : Tensor Fl} (hx : Pixels N s k x)
    (hk : EveryPixel N s fun n c i j => PixelFits cfg.n_bits cfg.dist (k n c i j)) :
    ImgBatch (cfg.leaf A) N s.channels s.height s.width (litPreprocess cfg.dist x) :=
  ⟨by rw [litPreprocess_shape]; exact hx.1, fun n hn c hc i hi j hj => Or.inr ⟨_, litPreprocess_get (hx.2 n hn c hc i hi j hj).2,
    (scaled_fits hg (hx.2 n hn c hc i hi j hj).1).2 (hk n hn c hc i hi j hj)⟩⟩

/-- the loss in terms of the log-likelihoods. -/
theorem convNll_eq {M : ConvModel} {N : Nat} (hN : 0 < N) {x y : Tensor Fl} {v : Nat → ℝ} (hy : M.forward x = .ok y)
    (hys : y.shape = [N]) (hv' : ∀ n, n < N → y.get [n] = .fin (v n)) :
    convNll M x = .ok (.fin (-(∑ n ∈ Finset.range N, v n) / N)) := by
  have hN0 : (N : ℝ) ≠ 0 := by exact_mod_cast hN.ne'
  unfold convNll
  rw [hy, Res.ok_bind]
  simp only [if_true]
  have hnum : (y.map (Fl.fin (-1) * ·)).numel = N := by simp [numel, Tensor.map, hys, numelS]
  have e : (y.map (Fl.fin (-1) * ·)).sumAll = .fin (∑ n ∈ Finset.range N, -1 * v n) := by
    unfold sumAll
    rw [hnum]
    refine Fl.sumN_eq_fin fun i hi => ?_
    show Fl.fin (-1) * y.get (unflat y.shape i) = _
    rw [hys, show unflat [N] i = [i] from unflat_eq (i := [i]) ⟨hi, trivial⟩ (by simp [flat, numelS]), hv' i hi]
    rfl
  unfold meanAll
  rw [e, hnum, Fl.fin_div _ hN0]
  show Except.ok (Fl.fin _) = _
  congr 3
  rw [← Finset.mul_sum]
  ring

/-- the loss of a batch of valid images. -/
theorem conv_loss {cfg : LitCfg} {cp : ConvConfig} {A : LeafArrays} {lg : Nat → List Nat → ℝ} (hg : (cfg.leaf A).Good)
    {M : ConvModel} {s : ImgShape} (hb : buildConv cp s ⟨cfg.leaf A, lg⟩ = .ok M) (hu : cp.Usual s)
    (h2 : cp.channels.headD 0 ≠ 1) (hf : cp.SizeFits s) {N : Nat} (hN : 0 < N) {x : Tensor Fl}
    (hB : ImgBatch (cfg.leaf A) N M.num_channels M.height M.width x) :
    ∃ (y : Tensor Fl) (v : Nat → ℝ), M.forward x = .ok y ∧ y.shape = [N] ∧
      (∀ n, n < N → y.get [n] = .fin (v n)) ∧ convNll M x = .ok (.fin (-(∑ n ∈ Finset.range N, v n) / N)) := by
  obtain ⟨y, hy, hys, hv⟩ := conv_forward hu hf h2 hg hb hB
  have hfin : ∀ n, ∃ r : ℝ, n < N → y.get [n] = .fin r := fun n => by
    by_cases hn : n < N
    · obtain ⟨y', r, hy', -, hr, -⟩ := C40_marginal_partial cp s ⟨cfg.leaf A, lg⟩ hu hf h2 hg M hb N _ hB n hn
      rw [hy] at hy'
      cases hy'
      exact ⟨r, fun _ => hr⟩
    · exact ⟨0, fun h => absurd h hn⟩
  choose v hv' using hfin
  exact ⟨y, v, hy, hys, hv', convNll_eq hN hy hys hv'⟩

/-- **C95**: the training loss of a convolutional circuit of main_pl.py.  If the sizes of the images fit the circuit and
`channels[0]` is not 1, it is the mean of the negative log-likelihoods of the images, and otherwise every training step raises.
There is one log-likelihood per image, whatever the number of classes.  Missing: the values per class, which do not exist
(`C95_not_classes`). -/
theorem C95_loss_partial (cfg : LitCfg) (cp : ConvConfig) (A : LeafArrays) (lg : Nat → List Nat → ℝ) (hg : (cfg.leaf A).Good)
    (M : ConvModel) (h : makeConvpc cfg cp A lg = .ok M) (s : ImgShape) (hs : getDataShape cfg.dataset = .ok s) (hu : cp.Usual s)
    (N : Nat) (hN : 0 < N) (k : Nat → Nat → Nat → Nat → Nat) (x : Tensor Fl) (hx : Pixels N s k x)
    (hk : EveryPixel N s fun n c i j => PixelFits cfg.n_bits cfg.dist (k n c i j)) :
    if cp.SizeFits s ∧ cp.channels.headD 0 ≠ 1 then ∃ (y : Tensor Fl) (v : Nat → ℝ), M.forward (litPreprocess cfg.dist x) = .ok y ∧ y.shape = [N] ∧
      (∀ n, n < N → y.get [n] = .fin (v n)) ∧
      convNll M (litPreprocess cfg.dist x) = .ok (.fin (-(∑ n ∈ Finset.range N, v n) / N))
    else ∃ e, convNll M (litPreprocess cfg.dist x) = .error e := by
  obtain ⟨hb, e1, e2, e3⟩ := makeConvpc_spec h hs
  have hB := pixels_batch hg hx hk
  rw [← e1, ← e2, ← e3] at hB
  split_ifs with hf
  · exact conv_loss hg hb hu hf.2 hf.1 hN hB
  · have herr : ∀ e, M.forward (litPreprocess cfg.dist x) = .error e → ∃ e, convNll M (litPreprocess cfg.dist x) = .error e :=
      fun e he => ⟨e, by unfold convNll; rw [he]; rfl⟩
    by_cases h2 : cp.channels.headD 0 = 1
    · obtain ⟨e, he⟩ := C40_refuted_single_channel cp s ⟨cfg.leaf A, lg⟩ h2 M hb (litPreprocess cfg.dist x)
      exact herr e he
    obtain hF := (not_congr (C40_fits_partial cp s ⟨cfg.leaf A, lg⟩ hu h2 hg M hb N _ hB)).2 fun H => hf ⟨H, h2⟩
    cases hy : M.forward (litPreprocess cfg.dist x) with
    | ok y => exact absurd ⟨y, hy⟩ hF
    | error e => exact herr e hy

theorem shape_pos {name : String} {s : ImgShape} (h : getDataShape name = .ok s) : 0 < s.height ∧ 0 < s.width ∧ 0 < s.channels := by
  unfold getDataShape at h
  split at h
  · cases h; norm_num
  · split at h
    · rename_i n hn
      cases h
      have hm := lookup_mem hn
      refine ⟨?_, by norm_num, by norm_num⟩
      show 0 < n
      have : ∀ p ∈ debdShapes, 0 < p.2 := by decide
      exact this _ hm
    · split at h
      · rename_i t ht
        cases h
        have : ∀ p ∈ imageShapes, 0 < p.2.height ∧ 0 < p.2.width ∧ 0 < p.2.channels := by decide
        exact this _ (lookup_mem ht)
      · cases h

/-- **C95**, the circuit of conf/config.yaml: the data sets it can be trained on are those whose images have sides that are
multiples of 16; for all other names, every training step raises. -/
theorem C95_default_partial (cfg : LitCfg) (A : LeafArrays) (lg : Nat → List Nat → ℝ) (hg : (cfg.leaf A).Good)
    (M : ConvModel) (h : makeConvpc cfg defaultConvpc A lg = .ok M) (s : ImgShape) (hs : getDataShape cfg.dataset = .ok s)
    (N : Nat) (hN : 0 < N) (k : Nat → Nat → Nat → Nat → Nat) (x : Tensor Fl) (hx : Pixels N s k x)
    (hk : EveryPixel N s fun n c i j => PixelFits cfg.n_bits cfg.dist (k n c i j)) :
    (cfg.dataset ∈ multiplesOf16 → ∃ r : ℝ, convNll M (litPreprocess cfg.dist x) = .ok (.fin r)) ∧
    (cfg.dataset ∉ multiplesOf16 → ∃ e, convNll M (litPreprocess cfg.dist x) = .error e) := by
  obtain ⟨p1, p2, -⟩ := shape_pos hs
  have key := C95_loss_partial cfg defaultConvpc A lg hg M h s hs ⟨by decide, p1, p2, Or.inl rfl⟩ N hN k x hx hk
  have hf : defaultConvpc.SizeFits s ↔ cfg.dataset ∈ multiplesOf16 := by
    rw [← sides_16 hs]
    exact ⟨fun H => H.2 rfl, fun H => ⟨fun h => absurd h (by decide), fun _ => H⟩⟩
  constructor
  · intro hm
    rw [if_pos ⟨hf.2 hm, by decide⟩] at key
    obtain ⟨_, _, -, -, -, hr⟩ := key
    exact ⟨_, hr⟩
  · intro hm
    rwa [if_neg fun H => hm (hf.1 H.1)] at key

/-- images as a convolutional circuit should generate them: the shape of the data, and for every pixel of every image one of the
`K` components of the leaves, whose modes, divided by 255, are the values of all channels of the pixel. -/
def ConvImages (M : ConvModel) (K : Nat) (s : ImgShape) (N : Nat) (t : Tensor Fl) : Prop :=
  t.shape = [N, s.channels, s.height, s.width] ∧ ∃ ix : Nat → Nat → Nat → Nat, EveryPixel N s fun n c i j =>
    ix n i j < K ∧ t.get [n, c, i, j] = .fin (M.leaf.mode c (i * s.width + j) (ix n i j) 0 / 255)

/-- sampling with `mpe_at_leaves` picks modes. -/
theorem draw_modes {μ : Measure ℝ} (hμ : μ Set.univ = 1) {M : ConvModel} (h : M.WF) (hs : M.leaf.samplable = true) {N : Nat}
    {a : ConvArgs} (hT : a.temperature_sums ≠ 0) (hm : a.mpe_at_leaves = true) :
    Full (fun t => ∃ ix : Nat → Nat → Nat → Nat,
        (∀ n, n < N → ∀ y, y < M.height → ∀ x, x < M.width → ix n y x < M.leaf.num_leaves) ∧
        t.Is4 N M.num_channels M.height M.width fun n c y x => .fin (M.leaf.mode c (y * M.width + x) (ix n y x) 0))
      (M.draw μ [] N a) := by
  unfold ConvModel.draw
  rw [sampleConv_atoms h.known]
  refine Full.bind (sampleAtoms_full hμ h.chain (ctx := ConvModel.initCtx N a) hT (ConvModel.initCtx_ok N a))
    fun d ⟨hd, ix, hd'⟩ => ?_
  obtain ⟨res, h1, h2⟩ := ConvModel.end_eq h hs hd hd'
  have hv : M.leaf.diff.draws (BaseLeaf.drawCtx (ConvModel.initCtx N a)) = .pure fun j =>
      M.leaf.mode (at' 1 j) (at' 2 j) (at' 3 j) (at' 4 j) := if_pos (Or.inr hm)
  rw [h1, hv, Rand.pure_bind]
  refine Full.pure ⟨ix, hd'.lt, Is.intro (h2 _).1 fun j hj => ?_⟩
  rw [(h2 _).2 j (by rw [(h2 _).1]; exact hj)]
  match j, hj with
  | [n, c, y, x], _ => rfl

theorem generate_images {cfg : LitCfg} {cp : ConvConfig} {A : LeafArrays} {lg : Nat → List Nat → ℝ} (hg : (cfg.leaf A).Good)
    {M : ConvModel} (h : makeConvpc cfg cp A lg = .ok M) {s : ImgShape} (hs : getDataShape cfg.dataset = .ok s) (hu : cp.Usual s)
    (hf : cp.SizeFits s) (N : Nat) {μ : Measure ℝ} (hμ : μ Set.univ = 1) :
    Full (ConvImages M (cp.channels.headD 0) s N) (convGenerate μ M s N false) := by
  obtain ⟨hb, e1, e2, e3⟩ := makeConvpc_spec h hs
  obtain ⟨p1, p2, p3⟩ := shape_pos hs
  have hcs : (cfg.leaf A).CanSample := by
    unfold LitCfg.leaf
    cases cfg.dist <;> trivial
  have hd := draw_modes hμ (buildConv_WF hu hf hb) (conv_samp hg hcs hb).samplable (N := N) (a := convGenerateArgs N) one_ne_zero
    rfl
  unfold convGenerate
  rw [if_neg (by decide)]
  refine Full.bind hd fun t ⟨ix, hix, ht⟩ => Full.lift ?_
  rw [e2, e3, conv_leaves hb] at hix
  rw [e1, e2, e3] at ht
  have hn : t.numel = N * numelS [s.channels, s.height, s.width] := by simp only [numel, ht.1, numelS]
  have hpos : 0 < numelS [s.channels, s.height, s.width] := by simp only [numelS]; positivity
  unfold viewFirst
  have hv : Res.Sat (do
      require .shape (numelS [s.channels, s.height, s.width] ≠ 0 ∧ t.numel % numelS [s.channels, s.height, s.width] = 0)
      t.view (t.numel / numelS [s.channels, s.height, s.width] :: [s.channels, s.height, s.width])) fun u =>
        u.Is4 N s.channels s.height s.width fun n c y x => .fin (M.leaf.mode c (y * s.width + x) (ix n y x) 0) := by
    refine Res.Sat.require ⟨hpos.ne', by rw [hn, Nat.mul_mod_left]⟩ ?_
    rw [hn, Nat.mul_div_cancel _ hpos]
    refine (view_is ht rfl).mono fun u hu => Is.intro hu.1 fun j hj => ?_
    rw [Is.get hu hj, unflat_eq hj rfl]
  refine hv.bind fun u hu => ⟨_, rfl, hu.1, ix, fun n hn c hc i hi j hj => ⟨hix n hn i hi j hj, ?_⟩⟩
  exact (congrArg (· / Fl.fin 255) (Is.get hu (i := [n, c, i, j]) ⟨hn, hc, hi, hj, trivial⟩)).trans (Fl.fin_div _ (by norm_num))

/-- **C95**, images at the end of an epoch: if the sizes fit, `generate_samples` returns with probability one, and returns images of
the shape of the data; the channels of a pixel are the modes of one component of the leaves, divided by 255.
`differentiable=True` always raises.  `channels[0] = 1` is included. -/
theorem C95_generate (cfg : LitCfg) (cp : ConvConfig) (A : LeafArrays) (lg : Nat → List Nat → ℝ) (hg : (cfg.leaf A).Good)
    (M : ConvModel) (h : makeConvpc cfg cp A lg = .ok M) (s : ImgShape) (hs : getDataShape cfg.dataset = .ok s) (hu : cp.Usual s)
    (hf : cp.SizeFits s) (N : Nat) (μ : Measure ℝ) (hμ : μ Set.univ = 1) :
    (convGenerate μ M s N false).E (fun t => if ConvImages M (cp.channels.headD 0) s N t then 1 else 0) = 1 ∧
    ∀ g, (convGenerate μ M s N true).E g = 0 := by
  refine ⟨Full.prob (P := ConvImages M (cp.channels.headD 0) s N) (generate_images hg h hs hu hf N hμ), fun g => ?_⟩
  unfold convGenerate
  rw [if_pos rfl]
  rfl

/-- images with the shape of the data, entries `k / 255` for integers of `n_bits` bits, and a finite loss after `preprocess`. -/
def GoodConvImages (cfg : LitCfg) (M : ConvModel) (s : ImgShape) (N : Nat) (t : Tensor Fl) : Prop :=
  t.shape = [N, s.channels, s.height, s.width] ∧
    EveryPixel N s (fun n c i j => ∃ k : ℕ, k < 2 ^ cfg.n_bits ∧ t.get [n, c, i, j] = .fin (k / 255)) ∧
    ∃ r : ℝ, convNll M (litPreprocess cfg.dist t) = .ok (.fin r)

/-- **C95**, generated images of a circuit with binomial leaves: with probability one their entries are integers of `n_bits` bits
divided by 255, and `preprocess` turns them into data with a finite loss.  Missing: the other leaf distributions, and circuits whose
`channels[0]` is 1. -/
theorem C95_generated_partial (cfg : LitCfg) (cp : ConvConfig) (A : LeafArrays) (lg : Nat → List Nat → ℝ)
    (hd : cfg.dist = .binomial) (M : ConvModel) (h : makeConvpc cfg cp A lg = .ok M) (s : ImgShape)
    (hs : getDataShape cfg.dataset = .ok s) (hu : cp.Usual s) (h2 : cp.channels.headD 0 ≠ 1) (hf : cp.SizeFits s) (N : Nat)
    (hN : 0 < N) (μ : Measure ℝ) (hμ : μ Set.univ = 1) :
    (convGenerate μ M s N false).E (fun t => if GoodConvImages cfg M s N t then 1 else 0) = 1 := by
  have hl : cfg.leaf A = .binomial (2 ^ cfg.n_bits - 1) A.p := by unfold LitCfg.leaf; rw [hd]; rfl
  have hg : (cfg.leaf A).Good := by rw [hl]; trivial
  obtain ⟨hb, e1, e2, e3⟩ := makeConvpc_spec h hs
  obtain ⟨-, -, -, -, hbl, -⟩ := buildConv_spec hb
  have hdv := LeafSpec.drawsValid hg hbl
  have hmode : ∀ c f a r, ∃ k : ℕ, k < 2 ^ cfg.n_bits ∧ M.leaf.mode c f a r = k := by
    intro c f a r
    have := (LeafSpec.valid_iff hbl _).1 (hdv.mode c f a r)
    change (cfg.leaf A).InSupport _ at this
    rw [hl] at this
    obtain ⟨k, hk, e⟩ := this
    have hk' : (k : ℤ) < 2 ^ cfg.n_bits := by omega
    exact ⟨k, by exact_mod_cast hk', e⟩
  refine Full.prob (P := GoodConvImages cfg M s N)
    ((generate_images hg h hs hu hf N hμ).mono fun t ⟨ht, ix, hp⟩ => ?_)
  have hpix : EveryPixel N s (fun n c i j => ∃ k : ℕ, k < 2 ^ cfg.n_bits ∧ t.get [n, c, i, j] = .fin (k / 255)) := by
    intro n hn c hc i hi j hj
    obtain ⟨k, hk, e'⟩ := hmode c (i * s.width + j) (ix n i j) 0
    exact ⟨k, hk, by rw [(hp n hn c hc i hi j hj).2, e']⟩
  refine ⟨ht, hpix, ?_⟩
  have hB : ImgBatch (cfg.leaf A) N M.num_channels M.height M.width (litPreprocess cfg.dist t) := by
    rw [e1, e2, e3]
    refine ⟨by rw [litPreprocess_shape]; exact ht, fun n hn c hc i hi j hj => Or.inr ?_⟩
    obtain ⟨k, hk, e⟩ := hpix n hn c hc i hi j hj
    refine ⟨_, litPreprocess_get e, ?_⟩
    rw [hl, hd]
    have hlt : (k : ℤ) < 2 ^ cfg.n_bits := by exact_mod_cast hk
    exact ⟨k, by omega, by simp only [scaled]; field_simp⟩
  obtain ⟨_, _, -, -, -, hr⟩ := conv_loss hg hb hu h2 hf hN hB
  exact ⟨_, hr⟩

/-! ### What is false -/

/-- configurations for the refutations. -/
def mnistConv (name : String) (K : ℤ) : LitCfg := { exLit .normal 8 with dataset := name, num_classes := K }

theorem default_builds {cfg : LitCfg} {A : LeafArrays} (lg : Nat → List Nat → ℝ) {s : ImgShape}
    (hs : getDataShape cfg.dataset = .ok s) (hd : cfg.dist = .normal) : ∃ M, makeConvpc cfg defaultConvpc A lg = .ok M := by
  unfold makeConvpc
  rw [hs, Res.ok_bind]
  obtain ⟨p1, p2, p3⟩ := shape_pos hs
  refine buildConv_ok (by decide) p3 ⟨by decide, p1, p2, Or.inl rfl⟩ (fun h => absurd h (by decide)) (Or.inr rfl) ?_
  unfold LitCfg.leaf
  rw [hd]
  simp [getDistribution, LeafSpec.build]

theorem black_pixels (N : Nat) (s : ImgShape) : Pixels N s (fun _ _ _ _ => 0) (full [N, s.channels, s.height, s.width] (.fin 0)) :=
  ⟨rfl, fun _ _ _ _ _ _ _ _ => ⟨by norm_num, by simp [full]⟩⟩

/-- **C95** fails as stated: the circuit of conf/config.yaml is constructed for the digits of `mnist`, and then every training
step raises. -/
theorem C95_not_mnist (A : LeafArrays) (lg : Nat → List Nat → ℝ) (K : ℤ) :
    ∃ M, makeConvpc (mnistConv "mnist" K) defaultConvpc A lg = .ok M ∧ ∀ (N : Nat) (_ : 0 < N) (k : Nat → Nat → Nat → Nat → Nat)
      (x : Tensor Fl) (_ : Pixels N ⟨1, 28, 28⟩ k x), ∃ e, convNll M (litPreprocess .normal x) = .error e := by
  have hs : getDataShape (mnistConv "mnist" K).dataset = .ok ⟨1, 28, 28⟩ := exLit_shape .normal 8
  obtain ⟨M, hM⟩ := default_builds (A := A) lg hs rfl
  exact ⟨M, hM, fun N hN k x hx => (C95_default_partial (mnistConv "mnist" K) A lg trivial M hM _ hs N hN k x hx fun _ _ _ _ _ _ _ _ => trivial).2
    (by show "mnist" ∉ multiplesOf16; decide)⟩

/-- **C95** fails as stated: with ten classes, the circuit has one log-likelihood per image and not one per class. -/
theorem C95_not_classes (A : LeafArrays) (lg : Nat → List Nat → ℝ) (N : Nat) (hN : 0 < N) :
    ∃ M x y, makeConvpc (mnistConv "mnist-32" 10) defaultConvpc A lg = .ok M ∧ Pixels N ⟨1, 32, 32⟩ (fun _ _ _ _ => 0) x ∧
      M.forward (litPreprocess .normal x) = .ok y ∧ y.shape = [N] ∧
      makeConvpc (mnistConv "mnist-32" 10) defaultConvpc A lg = makeConvpc (mnistConv "mnist-32" 1) defaultConvpc A lg := by
  have hs : getDataShape (mnistConv "mnist-32" 10).dataset = .ok ⟨1, 32, 32⟩ := by
    have h : ¬ "synth".toList <:+: "mnist-32".toList := by decide
    show (if "synth".toList <:+: "mnist-32".toList then _ else _) = _
    rw [if_neg h]
    rfl
  obtain ⟨M, hM⟩ := default_builds (A := A) lg hs rfl
  have key := C95_loss_partial (mnistConv "mnist-32" 10) defaultConvpc A lg trivial M hM _ hs ⟨by decide, by norm_num, by norm_num, Or.inl rfl⟩
    N hN _ _ (black_pixels N ⟨1, 32, 32⟩) fun _ _ _ _ _ _ _ _ => trivial
  rw [if_pos ⟨⟨fun h => absurd h (by decide), fun _ => by decide⟩, by decide⟩] at key
  obtain ⟨y, v, hy, hys, -⟩ := key
  exact ⟨M, _, y, hM, black_pixels N ⟨1, 32, 32⟩, hy, hys, rfl⟩

/-- **C95** fails as stated for normal leaves: images are trained on in `[0, 1]`, and `generate_samples` divides by 255 all the same.
A circuit all of whose means are values of pixels, at most 1, generates images without any pixel brighter than 1/255. -/
theorem C95_not_normal (cfg : LitCfg) (cp : ConvConfig) (A : LeafArrays) (lg : Nat → List Nat → ℝ) (hd : cfg.dist = .normal)
    (hA : ∀ c f i r, A.p c f i r ≤ 1) (M : ConvModel) (h : makeConvpc cfg cp A lg = .ok M) (s : ImgShape)
    (hs : getDataShape cfg.dataset = .ok s) (hu : cp.Usual s) (hf : cp.SizeFits s) (N : Nat) (μ : Measure ℝ)
    (hμ : μ Set.univ = 1) :
    (convGenerate μ M s N false).E (fun t => if DarkImages (1 / 255) s N t then 1 else 0) = 1 := by
  have hl : cfg.leaf A = .normal A.p A.q := by unfold LitCfg.leaf; rw [hd]; rfl
  have hg : (cfg.leaf A).Good := by rw [hl]; trivial
  obtain ⟨hb, -⟩ := makeConvpc_spec h hs
  obtain ⟨-, -, -, -, hbl, -⟩ := buildConv_spec hb
  have hm : M.leaf.mode = A.p := by
    change (cfg.leaf A).build _ _ = _ at hbl
    rw [hl] at hbl
    obtain ⟨_, _, this⟩ := bind_ok hbl
    simp only [Res.pure_eq, Except.ok.injEq] at this
    rw [← this]
    rfl
  refine Full.prob (P := DarkImages (1 / 255) s N) ((generate_images hg h hs hu hf N hμ).mono fun t ⟨ht, ix, hp⟩ =>
    ⟨ht, fun n hn c hc i hi j hj => ?_⟩)
  have e := (hp n hn c hc i hi j hj).2
  rw [hm] at e
  exact ⟨_, by have := hA c (i * s.width + j) (ix n i j) 0; gcongr, e⟩

/-! ### Examples -/

/-- the hypotheses of the theorems hold for a data set that fits and for one that does not. -/
example (name : String) (hn : name = "mnist-32" ∨ name = "mnist") (lg : Nat → List Nat → ℝ) :
    ∃ (s : ImgShape) (M : ConvModel), getDataShape (mnistConv name 10).dataset = .ok s ∧
      makeConvpc (mnistConv name 10) defaultConvpc exArrays lg = .ok M ∧ ((mnistConv name 10).leaf exArrays).Good ∧
      defaultConvpc.Usual s ∧ defaultConvpc.channels.headD 0 ≠ 1 ∧ (defaultConvpc.SizeFits s ↔ name = "mnist-32") ∧
      Pixels 8 s (fun _ _ _ _ => 0) (full [8, s.channels, s.height, s.width] (.fin 0)) := by
  have hs : ∃ s, getDataShape (mnistConv name 10).dataset = .ok s := by
    rcases hn with rfl | rfl
    · have h : ¬ "synth".toList <:+: "mnist-32".toList := by decide
      exact ⟨⟨1, 32, 32⟩, by show (if "synth".toList <:+: "mnist-32".toList then _ else _) = _; rw [if_neg h]; rfl⟩
    · exact ⟨_, exLit_shape .normal 8⟩
  obtain ⟨s, hs⟩ := hs
  obtain ⟨M, hM⟩ := default_builds (A := exArrays) lg hs rfl
  obtain ⟨p1, p2, -⟩ := shape_pos hs
  refine ⟨s, M, hs, hM, trivial, ⟨by decide, p1, p2, Or.inl rfl⟩, by decide, ?_, black_pixels 8 s⟩
  have hf : defaultConvpc.SizeFits s ↔ name ∈ multiplesOf16 := by
    refine Iff.trans ?_ (sides_16 hs)
    exact ⟨fun H => H.2 rfl, fun H => ⟨fun h => absurd h (by decide), fun _ => H⟩⟩
  rw [hf]
  rcases hn with rfl | rfl <;> decide

/-- the hypotheses of `C95_generate` and `C95_generated_partial` hold for binomial leaves of eight bits. -/
example (lg : Nat → List Nat → ℝ) : ∃ (cfg : LitCfg) (s : ImgShape) (M : ConvModel), cfg.dist = .binomial ∧
    getDataShape cfg.dataset = .ok s ∧ makeConvpc cfg defaultConvpc exArrays lg = .ok M ∧ (cfg.leaf exArrays).Good ∧
    defaultConvpc.Usual s ∧ defaultConvpc.channels.headD 0 ≠ 1 ∧ defaultConvpc.SizeFits s := by
  have hs : getDataShape "mnist-32" = .ok ⟨1, 32, 32⟩ := by
    have h : ¬ "synth".toList <:+: "mnist-32".toList := by decide
    show (if "synth".toList <:+: "mnist-32".toList then _ else _) = _
    rw [if_neg h]
    rfl
  have hb : ∃ M, makeConvpc { exLit .binomial 8 with dataset := "mnist-32" } defaultConvpc exArrays lg = .ok M := by
    unfold makeConvpc
    rw [hs, Res.ok_bind]
    refine buildConv_ok (by decide) (by norm_num) ⟨by decide, by norm_num, by norm_num, Or.inl rfl⟩ (fun h => absurd h (by decide))
      (Or.inr rfl) ?_
    unfold LitCfg.leaf
    simp [exLit, getDistribution, LeafSpec.build]
    exact ⟨_, (checkInt_iff _ 1 one_ne_zero _ _).2 ⟨by norm_num, rfl⟩⟩
  obtain ⟨M, hM⟩ := hb
  exact ⟨_, _, M, rfl, hs, hM, trivial, ⟨by decide, by norm_num, by norm_num, Or.inl rfl⟩, by decide,
    fun h => absurd h (by decide), fun _ => by decide⟩

/-- means as in `C95_not_normal`; the other hypotheses are those of the first example. -/
example (c f i r : Nat) : exArrays.p c f i r ≤ 1 := by
  show (1 : ℝ) / (i + 1) ≤ 1
  rw [div_le_one (by positivity)]
  have : (0 : ℝ) ≤ i := Nat.cast_nonneg i
  linarith

end Props
end Einet
