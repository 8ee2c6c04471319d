import Verif.Reconstruct
import Verif.DataFacts
import Verif.PropsEvidenceRank
import Verif.PropsMpe
import Verif.PropsLit

/-!
# C74: reconstructions of main.py
-/

open Classical MeasureTheory
open scoped ENNReal
noncomputable section
namespace Einet
namespace Props
open Tensor Einet

/-! ### Specification -/

/-- complete test images of the shape `s`, every pixel in the support of the leaves. -/
def TestImages (leaf : LeafSpec) (s : ImgShape) (N : Nat) (x : Tensor Fl) : Prop :=
  x.shape = [N, s.channels, s.height, s.width] ∧
    EveryPixel N s fun n c i j => ∃ v : ℝ, x.get [n, c, i, j] = .fin v ∧ leaf.InSupport v

/-- the model fits to images of the shape `s`. -/
def ForImages (M : Model) (s : ImgShape) : Prop := M.num_channels = s.channels ∧ M.num_features = s.height * s.width

/-- number of rows of pixels to be reconstructed: half of the width, rounded. -/
def upperRows (s : ImgShape) : Nat := (pyRound ((s.width : ℚ) / 2)).toNat

/-- a pixel as it is displayed. -/
def shown (gauss : Bool) (n_bins : Nat) (v : ℝ) : ℝ := if gauss then v else v / n_bins

/-- the known pixels of image `n`: the lower part; NaN in the upper part. -/
def lowerPart (s : ImgShape) (x : Tensor Fl) (n : Nat) : Data := fun c f =>
  if f / s.width < upperRows s then .nan else x.get [n, c, f / s.width, f % s.width]

/-- `r` are images of the shape `s` with the lower part of the images `x`; the upper part is complete. -/
def KeepsLower (s : ImgShape) (gauss : Bool) (n_bins N : Nat) (x r : Tensor Fl) : Prop :=
  r.shape = [N, s.channels, s.height, s.width] ∧ EveryPixel N s fun n c i j =>
    (upperRows s ≤ i → ∀ v : ℝ, x.get [n, c, i, j] = .fin v → r.get [n, c, i, j] = .fin (shown gauss n_bins v)) ∧
    ∃ v : ℝ, r.get [n, c, i, j] = .fin v

/-! ### Lemmas -/

theorem upperRows_pos {s : ImgShape} (h : 2 ≤ s.width) : 0 < upperRows s := by
  unfold upperRows
  have h1 := pyRound_near ((s.width : ℚ) / 2)
  rw [abs_le] at h1
  have : (2 : ℚ) ≤ s.width := by exact_mod_cast h
  have h2 : (0 : ℚ) < pyRound ((s.width : ℚ) / 2) := by linarith [h1.1]
  have h3 : 0 < pyRound ((s.width : ℚ) / 2) := by exact_mod_cast h2
  omega

/-- an even width: exactly half of it. -/
theorem upperRows_even {s : ImgShape} {k : Nat} (h : s.width = 2 * k) : upperRows s = k := by
  unfold upperRows
  have : ((s.width : ℚ) / 2) = ((k : ℤ) : ℚ) := by rw [h]; push_cast; ring
  rw [this, pyRound_int]
  simp

theorem mem_scopes {s : ImgShape} {z : Int} : z ∈ reconstructionScopes s ↔ ∃ c, c < s.channels ∧ ∃ i, i < min (upperRows s) s.height ∧
    ∃ j, j < s.width ∧ z = (((c * s.height + i) * s.width + j : Nat) : Int) := by
  unfold reconstructionScopes upperRows
  simp only [List.mem_flatMap, List.mem_map, List.mem_range]
  constructor
  · rintro ⟨c, hc, i, hi, j, hj, rfl⟩; exact ⟨c, hc, i, hi, j, hj, rfl⟩
  · rintro ⟨c, hc, i, hi, j, hj, rfl⟩; exact ⟨c, hc, i, hi, j, hj, rfl⟩

theorem div_of_pixel {i j W : Nat} (hj : j < W) : (i * W + j) / W = i ∧ (i * W + j) % W = j :=
  ⟨by rw [Nat.mul_comm, Nat.mul_add_div (by omega), Nat.div_eq_of_lt hj, Nat.add_zero],
    by rw [Nat.mul_comm, Nat.mul_add_mod, Nat.mod_eq_of_lt hj]⟩

/-- grey images: the listed features are the pixels of the upper rows. -/
theorem listed_grey {s : ImgShape} (h1 : s.channels = 1) {f : Nat} (hf : f < s.height * s.width) :
    Listed (s.height * s.width) ⟨true, reconstructionScopes s⟩ f ↔ f / s.width < upperRows s := by
  have hW : 0 < s.width := Nat.pos_of_mul_pos_left (by omega : 0 < s.height * s.width)
  have hfH : f / s.width < s.height := (Nat.div_lt_iff_lt_mul hW).2 hf
  constructor
  · rintro ⟨z, hz, hz'⟩
    obtain ⟨c, hc, i, hi, j, hj, rfl⟩ := mem_scopes.1 hz
    obtain rfl : c = 0 := by omega
    rw [Nat.zero_mul, Nat.zero_add] at hz'
    have : i * s.width + j = f := by
      rcases hz' with e | e
      · exact_mod_cast e
      · have : (0 : ℤ) ≤ ((i * s.width + j : ℕ) : ℤ) := Int.natCast_nonneg _
        push_cast at this e hf
        have hf' : (f : ℤ) < s.height * s.width := by exact_mod_cast hf
        omega
    rw [← this, (div_of_pixel hj).1]
    omega
  · intro h
    refine ⟨(f : ℤ), mem_scopes.2 ⟨0, by omega, f / s.width, by omega, f % s.width, Nat.mod_lt _ hW, ?_⟩, Or.inl rfl⟩
    rw [Nat.zero_mul, Nat.zero_add, Nat.div_add_mod']

theorem usable_grey {s : ImgShape} (h1 : s.channels = 1) (hW : 2 ≤ s.width) (hH : 0 < s.height) :
    Usable (s.height * s.width) ⟨true, reconstructionScopes s⟩ := by
  constructor
  · intro z hz
    obtain ⟨c, hc, i, hi, j, hj, rfl⟩ := mem_scopes.1 hz
    obtain rfl : c = 0 := by omega
    have : (0 * s.height + i) * s.width + j < s.height * s.width := by
      rw [Nat.zero_mul, Nat.zero_add]
      have : i < s.height := by omega
      nlinarith
    constructor
    · have : (0 : ℤ) ≤ (((0 * s.height + i) * s.width + j : ℕ) : ℤ) := Int.natCast_nonneg _
      omega
    · exact_mod_cast this
  · intro _ he
    have hp := upperRows_pos hW
    have : (((0 * s.height + 0) * s.width + 0 : Nat) : Int) ∈ reconstructionScopes s :=
      mem_scopes.2 ⟨0, by omega, 0, by omega, 0, by omega, rfl⟩
    simp only at he
    rw [he] at this
    simp at this

/-- the test images as evidence. -/
theorem testImages_evidence {leaf : LeafSpec} {s : ImgShape} {N : Nat} {x : Tensor Fl} (hx : TestImages leaf s N x) {M : Model}
    (hM : ForImages M s) (h1 : s.channels = 1) (hW : 2 ≤ s.width) (hH : 0 < s.height) :
    Evidence M leaf N (some ⟨true, reconstructionScopes s⟩)
      ⟨[N, M.num_channels, M.num_features], fun i => x.get [at' 0 i, at' 1 i, at' 2 i / s.width, at' 2 i % s.width]⟩ := by
  have hpix : ∀ n, n < N → ∀ c, c < M.num_channels → ∀ f, f < M.num_features →
      ∃ v : ℝ, x.get [n, c, f / s.width, f % s.width] = .fin v ∧ leaf.InSupport v := fun n hn c hc f hf =>
    hx.2 n hn c (by rw [← hM.1]; exact hc) _ ((Nat.div_lt_iff_lt_mul (by omega)).2 (by rw [← hM.2]; exact hf)) _ (Nat.mod_lt _ (by omega))
  refine ⟨⟨rfl, fun n hn c hc f hf => Or.inr (hpix n hn c hc f hf)⟩, ?_, fun n hn c hc f hf e => ?_⟩
  · rintro l ⟨⟩
    rw [hM.2]
    exact usable_grey h1 hW hH
  · obtain ⟨v, hv, -⟩ := hpix n hn c hc f hf
    change x.get [n, c, f / s.width, f % s.width] = .nan at e
    rw [hv] at e
    cases e

theorem reconstructionImages_spec {s : ImgShape} {gauss : Bool} {n_bins N : Nat} (hs : 0 < s.channels * s.height * s.width) {t : Tensor Fl}
    (ht : t.shape = [N, s.channels, s.height, s.width]) :
    ∃ r, reconstructionImages s gauss n_bins t = .ok r ∧ r.shape = [N, s.channels, s.height, s.width] ∧
      EveryPixel N s fun n c i j => r.get [n, c, i, j] = if gauss then t.get [n, c, i, j] else t.get [n, c, i, j] / .fin n_bins := by
  unfold reconstructionImages
  have key : ∀ u : Tensor Fl, u.shape = [N, s.channels, s.height, s.width] →
      ∃ r, (do
        require .shape (s.channels * s.height * s.width ≠ 0)
        u.view [u.numel / (s.channels * s.height * s.width), s.channels, s.height, s.width] : Res (Tensor Fl)) = .ok r ∧
        r.shape = [N, s.channels, s.height, s.width] ∧ EveryPixel N s fun n c i j => r.get [n, c, i, j] = u.get [n, c, i, j] := by
    intro u hu
    have hn : u.numel = N * (s.channels * s.height * s.width) := by
      simp only [numel, hu, numelS]; ring
    rw [require_true _ (by omega), Res.ok_bind, hn, Nat.mul_div_cancel _ hs]
    obtain ⟨r, hr, hi⟩ := view_is (t := u) (s' := [N, s.channels, s.height, s.width]) (Is.intro hu fun _ _ => rfl) rfl
    refine ⟨r, hr, hi.1, fun n hn c hc i hi' j hj => ?_⟩
    have hb : InB [N, s.channels, s.height, s.width] [n, c, i, j] := ⟨hn, hc, hi', hj, trivial⟩
    show r.get _ = u.get _
    rw [hi.get hb, unflat_flat hb]
  cases gauss
  · obtain ⟨r, h1, h2, h3⟩ := key (t.map (· / .fin n_bins)) ht
    exact ⟨r, h1, h2, h3⟩
  · obtain ⟨r, h1, h2, h3⟩ := key t ht
    exact ⟨r, h1, h2, h3⟩

theorem shown_fl (gauss : Bool) {n_bins : Nat} (hn : 0 < n_bins) (v : ℝ) :
    (if gauss then Fl.fin v else Fl.fin v / .fin n_bins) = .fin (shown gauss n_bins v) := by
  unfold shown
  cases gauss
  · simp only [Bool.false_eq_true, if_false]
    exact Fl.fin_div _ (by exact_mod_cast hn.ne')
  · rfl

/-! ### Theorems -/

section
variable (c : Config) (P : Params) (hP : P.Random) (hg : P.leaf.Good) (hs : P.leaf.CanSample) (M : Model) (h : build c P = .ok M)
  (s : ImgShape) (hM : ForImages M s) (h1 : s.channels = 1) (hW : 2 ≤ s.width) (N : Nat) (hN : 0 < N) (x : Tensor Fl)
  (hx : TestImages P.leaf s N x) (gauss : Bool) (n_bins : Nat) (hn : 0 < n_bins)
include hP hg hs h hM h1 hW hN hx hn

theorem reconstructions_keep (a : SampleArgs) (hev : a.evidence = some x) (hms : a.marginalized_scopes = some ⟨true, reconstructionScopes s⟩)
    (hns : a.num_samples = none) (hci : a.class_index = none) (hT : a.temperature_sums ≠ 0) :
    ((M.sample a).bind fun t => Rand.lift (reconstructionImages s gauss n_bins t)).All (KeepsLower s gauss n_bins N x) := by
  have hF : 0 < M.num_features := by
    rw [(build_WF hP h).1.features]
    have := (assertValid_iff c).1 (build_valid h)
    omega
  have hHW : 0 < s.height * s.width := hM.2 ▸ hF
  have hH : 0 < s.height := Nat.pos_of_mul_pos_right hHW
  have hk := C15_rank4 c P hP hg hs M h N s.height s.width hN hM.2.symm x
    ⟨[N, M.num_channels, M.num_features], fun i => x.get [at' 0 i, at' 1 i, at' 2 i / s.width, at' 2 i % s.width]⟩
    (by rw [hx.1, hM.1]) (fun n hn c hc i hi j hj => ?_) a
    (by rw [hms]; exact testImages_evidence hx hM h1 hW hH) hev hns hci hT
  · refine hk.bind fun t ⟨ht, hv⟩ => ?_
    rw [hM.1] at ht
    obtain ⟨r, hr, hrs, hrv⟩ := reconstructionImages_spec (gauss := gauss) (n_bins := n_bins) (by rw [h1, Nat.one_mul]; exact hHW) ht
    refine Rand.All.lift ⟨r, hr, hrs, fun n hn' c hc i hi j hj => ?_⟩
    have hlt : i * s.width + j < s.height * s.width := by nlinarith
    have hhole : Hole M.num_features a.marginalized_scopes
        ⟨[N, M.num_channels, M.num_features], fun i => x.get [at' 0 i, at' 1 i, at' 2 i / s.width, at' 2 i % s.width]⟩ n c
        (i * s.width + j) ↔ i < upperRows s := by
      rw [hms, hM.2]
      show Listed _ _ _ ↔ _
      rw [listed_grey h1 hlt, (div_of_pixel hj).1]
    have := hv n hn' c (hM.1 ▸ hc) i hi j hj
    show (_ → ∀ v : ℝ, _ → r.get _ = _) ∧ ∃ v : ℝ, r.get _ = _
    rw [hrv n hn' c hc i hi j hj]
    by_cases hu : i < upperRows s
    · rw [if_pos (hhole.2 hu)] at this
      obtain ⟨v, e⟩ := this
      rw [e, shown_fl gauss hn]
      exact ⟨fun hle => absurd hu (by omega), _, rfl⟩
    · rw [if_neg fun hh => hu (hhole.1 hh)] at this
      obtain ⟨v, e, -⟩ := hx.2 n hn' c hc i hi j hj
      rw [this, e, shown_fl gauss hn]
      exact ⟨fun _ w hw => by rw [Fl.fin_injective hw], _, rfl⟩
  · show x.get [n, c, (i * s.width + j) / s.width, (i * s.width + j) % s.width] = _
    rw [(div_of_pixel hj).1, (div_of_pixel hj).2]

/-- **C74**, grey images: in every reconstruction the lower part of each image is the one of the test image, and the upper part is
filled in. -/
theorem C74_keep (T : ℝ) (mpe_at_leaves : Bool) :
    (reconstructions M s gauss n_bins x T mpe_at_leaves).All (KeepsLower s gauss n_bins N x) :=
  reconstructions_keep c P hP hg hs M h s hM h1 hW N hN x hx gauss n_bins hn _ rfl rfl rfl rfl one_ne_zero

/-- **C74**, grey images, most likely explanation. -/
theorem C74_keep_mpe : (reconstructionsMpe M s gauss n_bins x).All (KeepsLower s gauss n_bins N x) :=
  reconstructions_keep c P hP hg hs M h s hM h1 hW N hN x hx gauss n_bins hn _ rfl rfl rfl rfl one_ne_zero

/-- **C74**, grey images, most likely explanation: the result involves no random number; the upper part of each image contains the modes
of the leaf components chosen greedily by weight times density of the lower part of the same image (C20). -/
theorem C74_mpe : ∃ (G H : Nat → Nat → Nat) (r : Tensor Fl), ForwardIn M P.leaf M.numOut G ∧ SampledIn M M.numOut H ∧
    (∀ r, r < M.num_repetitions → ∀ f, f < M.num_features → G r f < M.numOut ∧ H r f < M.numOut) ∧
    reconstructionsMpe M s gauss n_bins x = .pure r ∧ KeepsLower s gauss n_bins N x r ∧
    ∀ n, n < N → ∃ k rep idx, M.GreedyChoice { evidence := some x } n (regionVal M G (lowerPart s x n)) k rep idx ∧
      (∀ o, o < M.numOut → idx o < M.num_leaves) ∧
      ∀ c, c < s.channels → ∀ i, i < min (upperRows s) s.height → ∀ j, j < s.width → r.get [n, c, i, j] =
        .fin (shown gauss n_bins (M.leaf.base.mode c (i * s.width + j) (idx (H rep (i * s.width + j))) rep)) := by
  have hF : 0 < M.num_features := by
    rw [(build_WF hP h).1.features]
    have := (assertValid_iff c).1 (build_valid h)
    omega
  have hC : 0 < M.num_channels := by rw [hM.1]; omega
  have hHW : 0 < s.height * s.width := hM.2 ▸ hF
  have hH : 0 < s.height := Nat.pos_of_mul_pos_right hHW
  have heq : ∀ n, n < N → ∀ c, c < M.num_channels → ∀ i, i < s.height → ∀ j, j < s.width →
      (⟨[N, M.num_channels, M.num_features], fun i => x.get [at' 0 i, at' 1 i, at' 2 i / s.width, at' 2 i % s.width]⟩ : Tensor Fl).get
        [n, c, i * s.width + j] = x.get [n, c, i, j] := by
    intro n hn c hc i hi j hj
    show x.get [n, c, (i * s.width + j) / s.width, (i * s.width + j) % s.width] = _
    rw [(div_of_pixel hj).1, (div_of_pixel hj).2]
  have hev := testImages_evidence hx hM h1 hW hH
  have hsh := shaped4 (M := M) hN hC hM.2.symm (by rw [hx.1, hM.1]) heq
  obtain ⟨z, hz, hsim⟩ := hsh.sim { is_mpe := true, marginalized_scopes := some ⟨true, reconstructionScopes s⟩ }
  obtain ⟨G, H, t, g1, g2, g3, g4, g5, g6⟩ := C20_mpe_partial c P hP hg hs M h N hN z _ (evidence_congr hev hz)
  have hk := reconstructions_keep c P hP hg hs M h s hM h1 hW N hN x hx gauss n_bins hn
    { evidence := some x, is_mpe := true, marginalized_scopes := some ⟨true, reconstructionScopes s⟩ } rfl rfl rfl rfl one_ne_zero
  have hall : (M.sample { evidence := some z, is_mpe := true, marginalized_scopes := some ⟨true, reconstructionScopes s⟩ }).All
      fun u => u = t := by
    have : M.sample { evidence := some z, is_mpe := true, marginalized_scopes := some ⟨true, reconstructionScopes s⟩ } = .pure t := g4
    rw [this]
    rfl
  obtain ⟨q, hq, t', rfl, hq1, hq2⟩ := (M.sample_det
    (a := { evidence := some x, is_mpe := true, marginalized_scopes := some ⟨true, reconstructionScopes s⟩ }) rfl).pure (hsim.all hall)
  have hqs : q.shape = [N, s.channels, s.height, s.width] := by rw [hq1, hx.1]
  obtain ⟨r, hr, hrs, hrv⟩ := reconstructionImages_spec (gauss := gauss) (n_bins := n_bins) (by rw [h1, Nat.one_mul]; exact hHW) hqs
  have hrec : reconstructionsMpe M s gauss n_bins x = .pure r := by
    unfold reconstructionsMpe Model.mpe
    rw [hq]
    show Rand.lift _ = _
    rw [hr]
    rfl
  have hkr : KeepsLower s gauss n_bins N x r := by
    have : (reconstructionsMpe M s gauss n_bins x).All (KeepsLower s gauss n_bins N x) := hk
    rw [hrec] at this
    exact this
  refine ⟨G, H, r, g1, g2, g3, hrec, hkr, fun n hn' => ?_⟩
  obtain ⟨k, rep, idx, gc, gi, gv⟩ := g6 n hn'
  have hval : regionVal M G (known M.num_features (some ⟨true, reconstructionScopes s⟩) z n) = regionVal M G (lowerPart s x n) := by
    funext o i r
    unfold regionVal
    refine Finset.prod_congr rfl fun f hf => ?_
    congr 1
    refine Finset.prod_congr rfl fun d hd => ?_
    have hf := Finset.mem_range.1 hf
    have hd := Finset.mem_range.1 hd
    congr 1
    unfold known lowerPart
    rw [hz.get hn' hd hf]
    exact if_congr (by rw [hM.2] at hf ⊢; exact listed_grey h1 hf) rfl rfl
  rw [hval] at gc
  refine ⟨k, rep, idx, ⟨gc.cls, gc.rep, gc.path⟩, gi, fun d hd i hi j hj => ?_⟩
  have hi' : i < s.height := by omega
  have hlt : i * s.width + j < s.height * s.width := by nlinarith
  have hlt' : i * s.width + j < M.num_features := by rw [hM.2]; exact hlt
  have hd' : d < M.num_channels := by rw [hM.1]; exact hd
  have h5 := gv d hd' _ hlt'
  rw [if_pos (by rw [hM.2]; exact (listed_grey h1 hlt).2 (by rw [(div_of_pixel hj).1]; omega)), hq2 n hn' d hd' _ hlt',
    (div_of_pixel hj).1, (div_of_pixel hj).2] at h5
  rw [hrv n hn' d hd i hi' j hj, h5, shown_fl gauss hn]

/-- **C74** (part), grey images: the law of the displayed images is the conditional law of the model given the lower part, for each
image independently.  Missing: other temperatures of the leaves, and the structures excluded in C14; their law is in `C74_exact_law`. -/
theorem C74_law_partial (hmir : MirrorCfg c) (hK : M.num_classes = 1)
    (φ : (Fin N → Fin M.num_channels → Fin M.num_features → ℝ) → ℝ≥0∞) (hφ : Measurable φ) :
    (reconstructions M s gauss n_bins x 1 false).E (fun r => φ fun n c f => (r.get [n, c, f / s.width, f % s.width]).val) =
      ∫⁻ ω, φ (fun n c f => shown gauss n_bins (ω n c f)) ∂Measure.pi fun n : Fin N => rowLawGiven M P.leaf.ref 0 (lowerPart s x n) := by
  have hF : 0 < M.num_features := by
    rw [(build_WF hP h).1.features]
    have := (assertValid_iff c).1 (build_valid h)
    omega
  have hHW : 0 < s.height * s.width := hM.2 ▸ hF
  have hH : 0 < s.height := Nat.pos_of_mul_pos_right hHW
  have heq : ∀ n, n < N → ∀ c, c < M.num_channels → ∀ i, i < s.height → ∀ j, j < s.width →
      (⟨[N, M.num_channels, M.num_features], fun i => x.get [at' 0 i, at' 1 i, at' 2 i / s.width, at' 2 i % s.width]⟩ : Tensor Fl).get
        [n, c, i * s.width + j] = x.get [n, c, i, j] := by
    intro n hn c hc i hi j hj
    show x.get [n, c, (i * s.width + j) / s.width, (i * s.width + j) % s.width] = _
    rw [(div_of_pixel hj).1, (div_of_pixel hj).2]
  have hev := testImages_evidence hx hM h1 hW hH
  have hxs : x.shape = [N, M.num_channels, s.height, s.width] := by rw [hx.1, hM.1]
  have hmeas : Measurable fun ω : Fin N → Fin M.num_channels → Fin M.num_features → ℝ => fun n c f => shown gauss n_bins (ω n c f) := by
    refine measurable_pi_lambda _ fun n => measurable_pi_lambda _ fun c => measurable_pi_lambda _ fun f => ?_
    unfold shown
    cases gauss
    · simp only [Bool.false_eq_true, if_false]
      fun_prop
    · simp only [if_true]
      fun_prop
  have hl := C14_rank4_partial c P hP hg hs M h hmir hK N s.height s.width hN hM.2.symm x _ hxs heq _ hev _ (hφ.comp hmeas)
  have hk := C15_rank4 c P hP hg hs M h N s.height s.width hN hM.2.symm x _ hxs heq
    { evidence := some x, marginalized_scopes := some ⟨true, reconstructionScopes s⟩ } hev rfl rfl rfl one_ne_zero
  unfold reconstructions
  rw [Rand.E_bind]
  refine (Rand.E_congr hk fun t ⟨ht, hv⟩ => ?_).trans (hl.trans ?_)
  · rw [hM.1] at ht
    obtain ⟨r, hr, hrs, hrv⟩ := reconstructionImages_spec (gauss := gauss) (n_bins := n_bins) (by rw [h1, Nat.one_mul]; exact hHW) ht
    rw [hr]
    show φ _ = φ _
    congr 1
    funext n c f
    have hf : (f : Nat) < s.height * s.width := lt_of_lt_of_eq f.2 hM.2
    have hi : f / s.width < s.height := (Nat.div_lt_iff_lt_mul (by omega)).2 hf
    have hj : f % s.width < s.width := Nat.mod_lt _ (by omega)
    have hc : (c : Nat) < s.channels := hM.1 ▸ c.2
    rw [hrv n n.2 c hc _ hi _ hj]
    have hfin : ∃ v : ℝ, t.get [n, c, f / s.width, f % s.width] = .fin v := by
      have := hv n n.2 c c.2 _ hi _ hj
      split_ifs at this
      · exact this
      · rw [this]
        obtain ⟨v, e, -⟩ := hx.2 n n.2 c hc _ hi _ hj
        exact ⟨v, e⟩
    obtain ⟨v, e⟩ := hfin
    simp only [e]
    rw [shown_fl gauss hn]
    rfl
  · congr 2
    funext n
    obtain ⟨-, hw, hp, _⟩ := build_WF hP h
    have hkn : known M.num_features (some ⟨true, reconstructionScopes s⟩)
        ⟨[N, M.num_channels, M.num_features], fun i => x.get [at' 0 i, at' 1 i, at' 2 i / s.width, at' 2 i % s.width]⟩ n = fun c f =>
        if Listed M.num_features ⟨true, reconstructionScopes s⟩ f then .nan else x.get [n, c, f / s.width, f % s.width] := rfl
    have hcg : ∀ c, c < M.num_channels → ∀ f, f < M.num_features →
        known M.num_features (some ⟨true, reconstructionScopes s⟩)
          ⟨[N, M.num_channels, M.num_features], fun i => x.get [at' 0 i, at' 1 i, at' 2 i / s.width, at' 2 i % s.width]⟩ n c f =
        lowerPart s x n c f := by
      intro c hc f hf
      rw [hkn]
      unfold lowerPart
      exact if_congr (by rw [hM.2] at hf ⊢; exact listed_grey h1 hf) rfl rfl
    have hobs := known_observed hP h hev n.2
    rw [← rowLawGiven_eq hP h, ← rowLawGiven_eq hP h]
    refine condLaw_congr hw (hp hg) hobs ?_ hcg (by omega)
    intro c hc f hf
    rw [← hcg c (by rwa [← hw.front.channels]) f (by rwa [← hw.front.features])]
    exact hobs c hc f hf

end

/-- **C74**, failure: with several channels the positions of the second channel exceed the number of features, and with a width of 1
(tables) the list of positions is empty; both reconstructions raise an `IndexError`. -/
theorem C74_fail (c : Config) (P : Params) (hP : P.Random) (hg : P.leaf.Good) (M : Model) (h : build c P = .ok M) (s : ImgShape)
    (hM : ForImages M s) (hbad : 2 ≤ s.channels ∨ s.width ≤ 1) (N : Nat) (hN : 0 < N) (x : Tensor Fl) (hx : TestImages P.leaf s N x)
    (gauss : Bool) (n_bins : Nat) (T : ℝ) (mpe_at_leaves : Bool) :
    reconstructions M s gauss n_bins x T mpe_at_leaves = Rand.fail .index ∧ reconstructionsMpe M s gauss n_bins x = Rand.fail .index := by
  obtain ⟨hz, hw, hp, _⟩ := build_WF hP h
  have hv := (assertValid_iff c).1 (build_valid h)
  have hF : 0 < M.num_features := by rw [hz.features]; omega
  have hC : 0 < M.num_channels := by rw [hz.channels]; omega
  have hHW : 0 < s.height * s.width := hM.2 ▸ hF
  have hH : 0 < s.height := Nat.pos_of_mul_pos_right hHW
  have hW : 0 < s.width := Nat.pos_of_mul_pos_left hHW
  have hres : Scopes.resolveOpt M.num_features (some ⟨true, reconstructionScopes s⟩) = .error .index := by
    unfold Scopes.resolveOpt
    simp only [Scopes.resolve]
    by_cases h1 : s.width ≤ 1
    · have : reconstructionScopes s = [] := by
        unfold reconstructionScopes
        have : s.width = 1 := by omega
        have : (pyRound ((s.width : ℚ) / 2)).toNat = 0 := by rw [this]; norm_num [pyRound]
        rw [this]
        simp
      rw [require_false _ (by simp [this])]
      rfl
    · have hp := upperRows_pos (s := s) (by omega)
      rw [require_true _ (by
        rintro ⟨-, e⟩
        have : (((0 * s.height + 0) * s.width + 0 : Nat) : Int) ∈ reconstructionScopes s :=
          mem_scopes.2 ⟨0, by omega, 0, by omega, 0, by omega, rfl⟩
        rw [e] at this
        simp at this), Res.ok_bind, require_false _ (by
        intro e
        have := (e (((1 * s.height + 0) * s.width + 0 : Nat) : Int) (mem_scopes.2 ⟨1, by omega, 0, by omega, 0, by omega, rfl⟩)).2
        rw [hM.2] at this
        simp at this)]
      rfl
  have hxs : x.shape = [N, M.num_channels, s.height, s.width] := by rw [hx.1, hM.1]
  have hprep := prepInput_rank4 (M := M) hxs hN hC
  rw [if_pos (by rw [hM.2])] at hprep
  obtain ⟨z, hz', hi⟩ := hprep
  have hval : ∀ n, n < N → M.leaf.base.Valid fun c d =>
      x.get (unflat [N, M.num_channels, s.height, s.width] (flat [N, M.num_channels, M.num_features] [n, c, d])) := by
    intro n hn
    refine BaseLeaf.Observed.valid (hp hg).valid_zero ((build_observed hP h).2 fun c hc f hf => Or.inr ?_)
    rw [hM.2] at hf ⊢
    have hi : f / s.width < s.height := (Nat.div_lt_iff_lt_mul hW).2 hf
    have hj := Nat.mod_lt f hW
    have hb : InB [N, M.num_channels, s.height, s.width] [n, c, f / s.width, f % s.width] := ⟨hn, hc, hi, hj, trivial⟩
    have : flat [N, M.num_channels, s.height * s.width] [n, c, f] =
        flat [N, M.num_channels, s.height, s.width] [n, c, f / s.width, f % s.width] := by
      simp only [flat, numelS, Nat.mul_one, Nat.add_zero]
      rw [Nat.div_add_mod' f s.width]
    rw [this, unflat_flat hb]
    exact hx.2 n hn c (hM.1 ▸ hc) _ hi _ hj
  have hfc := Model.forward_cases hw hz' hi (some ⟨true, reconstructionScopes s⟩)
  rw [if_pos hval, hres] at hfc
  have hrun : M.run x (some ⟨true, reconstructionScopes s⟩) = .error .index := by
    have hfc : (M.run x (some ⟨true, reconstructionScopes s⟩)).map Prod.fst = .error .index := hfc
    cases hr : M.run x (some ⟨true, reconstructionScopes s⟩) with
    | ok y => rw [hr] at hfc; cases hfc
    | error e => rw [hr] at hfc; cases hfc; rfl
  have hsam : ∀ a : SampleArgs, a.evidence = some x → a.marginalized_scopes = some ⟨true, reconstructionScopes s⟩ →
      a.num_samples = none → a.class_index = none → M.sample a = Rand.fail .index := by
    intro a h1 h2 h3 h4
    unfold Model.sample
    have hc : a.check M = .ok () := by
      unfold SampleArgs.check
      rw [h1, h3, h4]
      simp [require]
    have he : M.evidenceCaches a = .error .index := by
      unfold Model.evidenceCaches
      rw [h1, h2]
      simp only [hrun]
      rfl
    rw [hc, he]
    rfl
  unfold reconstructions reconstructionsMpe Model.mpe
  rw [hsam _ rfl rfl rfl rfl, hsam _ rfl rfl rfl rfl]
  exact ⟨rfl, rfl⟩

/-- four images of 3 x 2 pixels: the first row of each image is reconstructed. -/
example : ∃ M, build exImageOne (exParams exLeaf) = .ok M ∧ MirrorCfg exImageOne ∧ M.num_classes = 1 ∧ ForImages M ⟨1, 3, 2⟩ ∧
    upperRows ⟨1, 3, 2⟩ = 1 ∧ ∃ x, TestImages (exParams exLeaf).leaf ⟨1, 3, 2⟩ 4 x ∧ x.get [2, 0, 1, 1] = .fin 17 := by
  obtain ⟨M, h, h1, h2, h3⟩ := exImageOne_builds
  refine ⟨M, h, Or.inr (Or.inl ⟨by norm_num [exImageOne, exImage, exConfig], by show (2 : ℤ) ^ 2 < 6; norm_num⟩), h3, ⟨h1, h2⟩,
    upperRows_even rfl, ⟨[4, 1, 3, 2], fun i => .fin (at' 0 i * 7 + at' 2 i * 2 + at' 3 i : ℕ)⟩, ⟨rfl, fun n _ c _ i _ j _ => ?_⟩, ?_⟩
  · exact ⟨_, rfl, by simp [exParams, exLeaf, LeafSpec.InSupport]⟩
  · norm_num [at']

/-- the same network for a table of 6 columns. -/
example : ∃ M, build exImageOne (exParams exLeaf) = .ok M ∧ ForImages M ⟨1, 6, 1⟩ ∧
    ∃ x, TestImages (exParams exLeaf).leaf ⟨1, 6, 1⟩ 4 x := by
  obtain ⟨M, h, h1, h2, h3⟩ := exImageOne_builds
  exact ⟨M, h, ⟨h1, h2⟩, ⟨[4, 1, 6, 1], fun i => .fin (at' 2 i : ℕ)⟩, rfl, fun n _ c _ i _ j _ =>
    ⟨_, rfl, by simp [exParams, exLeaf, LeafSpec.InSupport]⟩⟩

end Props
end Einet
end
