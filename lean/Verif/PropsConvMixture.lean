import Verif.ConvMixture
import Verif.PropsConvLit
import Verif.PropsAcceptMix

/-!
# C96: mixtures of convolutional circuits
-/

open Classical MeasureTheory
open scoped ENNReal
noncomputable section
namespace Einet
open Tensor

/-! ### Specification -/

namespace Props

/-- a mixture of convolutional circuits after `Mixture(...)` and `initialize`. -/
structure IsConvMixture (c : ConvConfig) (d : ImgShape) (P : Nat → ConvParams) (X : ConvMixture) : Prop where
  good : ∀ k, (P k).leaf.Good
  built : ∃ n, ConvMixture.buildModels c d P n = .ok (X.models, X.num_features)
  centroids : X.centroids.length = X.models.length
  columns : ∀ l ∈ X.centroids, l.length = d.channels * (d.height * d.width)
  nearest : ∀ l cs, cs ≠ [] → X.nearest l cs < cs.length

/-- the columns of the flattened images on which they are compared with the centroids. -/
def keptPixels (d : ImgShape) : Option Scopes → List Nat
  | none => List.range (d.channels * (d.height * d.width))
  | some s => (List.range (d.channels * (d.height * d.width))).filter fun j => (j : ℤ) ∉ s.idx

/-- entry `j` of the flattened image `i`. -/
def flatPixel (d : ImgShape) (x : Tensor Fl) (i j : Nat) : Fl :=
  x.get [i, j / (d.height * d.width), j % (d.height * d.width) / d.width, j % (d.height * d.width) % d.width]

/-- the component that the clustering selects for image `i`. -/
def convCluster (X : ConvMixture) (d : ImgShape) (ms : Option Scopes) (x : Tensor Fl) (i : Nat) : Nat :=
  X.nearest ((keptPixels d ms).map (flatPixel d x i)) (X.centroids.map fun l => (keptPixels d ms).map fun j => l.getD j .nan)

/-- `x[i:i+1]`. -/
def oneImg (d : ImgShape) (x : Tensor Fl) (i : Nat) : Tensor Fl :=
  ⟨[1, d.channels, d.height, d.width], fun j => x.get (i :: j.tail)⟩

/-- the number of images that `sample` should return without evidence. -/
def ConvCount (n_components : Nat) (a : MixArgs) (n : Nat) : Prop :=
  (a.is_mpe = true ∧ n = 1) ∨
  (a.is_mpe = false ∧ ∃ m, a.num_samples_per_cluster = some m ∧ n = m * n_components) ∨
  (a.is_mpe = false ∧ a.num_samples_per_cluster = none ∧ n = a.num_samples.getD 1)

/-! ### Lemmas -/

variable {c : ConvConfig} {d : ImgShape} {P : Nat → ConvParams} {X : ConvMixture}

theorem IsConvMixture.parts (h : IsConvMixture c d P X) : 0 < X.models.length ∧
    X.num_features = d.width * d.height * d.channels ∧ ∀ k M, X.models[k]? = some M → buildConv c d (P k) = .ok M := by
  obtain ⟨n, hn⟩ := h.built
  unfold ConvMixture.buildModels at hn
  obtain ⟨h1, h2⟩ := (checkInt_iff n 1 one_ne_zero _ _).1 hn
  obtain ⟨l, h3, h4⟩ := bind_ok h2
  simp only [Res.pure_eq, Except.ok.injEq, Prod.mk.injEq] at h4
  obtain ⟨rfl, e⟩ := h4
  obtain ⟨h5, h6⟩ := mapM_getElem? h3
  exact ⟨by rw [h5]; omega, e.symm, h6⟩

theorem IsConvMixture.cluster_lt (h : IsConvMixture c d P X) (ms : Option Scopes) (x : Tensor Fl) (i : Nat) :
    ∃ M, X.models[convCluster X d ms x i]? = some M := by
  have hp := h.parts.1
  have hc := h.centroids
  have h2 := h.nearest ((keptPixels d ms).map (flatPixel d x i))
    (X.centroids.map fun l => (keptPixels d ms).map fun j => l.getD j .nan) (fun e => by
      have := congrArg List.length e
      rw [List.length_map, hc] at this
      simp at this
      rw [this] at hp
      simp at hp)
  rw [List.length_map, hc] at h2
  exact ⟨_, List.getElem?_eq_getElem h2⟩

theorem flatRow_img {N : Nat} {x : Tensor Fl} (hx : x.shape = [N, d.channels, d.height, d.width]) (n : Nat) :
    flatRow x n = (List.range (d.channels * (d.height * d.width))).map (flatPixel d x n) := by
  unfold flatRow
  have hnum : numelS x.shape.tail = d.channels * (d.height * d.width) := by simp [hx, numelS]
  rw [hnum]
  refine List.map_congr_left fun j hj => ?_
  have hj : j < d.channels * (d.height * d.width) := by simpa using hj
  have hF : 0 < d.height * d.width := Nat.pos_of_ne_zero fun e => by rw [e, Nat.mul_zero] at hj; omega
  have hW : 0 < d.width := Nat.pos_of_mul_pos_left hF
  have h1 : j / (d.height * d.width) < d.channels := Nat.div_lt_of_lt_mul (by rwa [mul_comm])
  have h2 : j % (d.height * d.width) / d.width < d.height :=
    Nat.div_lt_of_lt_mul (by rw [Nat.mul_comm d.width]; exact Nat.mod_lt _ hF)
  have e : unflat [d.channels, d.height, d.width] j =
      [j / (d.height * d.width), j % (d.height * d.width) / d.width, j % (d.height * d.width) % d.width] := by
    refine unflat_eq ⟨h1, h2, Nat.mod_lt _ hW, trivial⟩ ?_
    simp only [flat, numelS, mul_one, add_zero]
    rw [Nat.div_add_mod', Nat.div_add_mod']
  rw [hx]
  show x.get (n :: unflat [d.channels, d.height, d.width] j) = _
  rw [e]
  rfl

/-- `_predict_cluster` computes `convCluster` for each image. -/
theorem IsConvMixture.predict (h : IsConvMixture c d P X) {N : Nat} (hN : 0 < N) {x : Tensor Fl}
    (hx : x.shape = [N, d.channels, d.height, d.width]) (ms : Option Scopes) :
    X.clusters.predictCluster x ms = .ok ((List.range N).map (convCluster X d ms x)) := by
  have hsz : x.size 0 = N := by simp [size, hx, at']
  have hnum : numelS x.shape.tail = d.channels * (d.height * d.width) := by simp [hx, numelS]
  unfold Mixture.predictCluster
  rw [require_true _ (by rw [hsz]; simp [rank, hx, hN]), Res.ok_bind]
  cases ms with
  | none =>
    dsimp only
    rw [require_true _ (by rw [hnum]; exact h.columns), hsz]
    refine congrArg Except.ok (List.map_congr_left fun n _ => ?_)
    rw [flatRow_img hx]
    unfold convCluster keptPixels
    dsimp only
    show X.nearest _ X.centroids = _
    congr 1
    conv_lhs => rw [← List.map_id X.centroids]
    refine List.map_congr_left fun l hl => ?_
    have := h.columns l hl
    exact List.ext_getElem (by simp [this]) fun j h1 h2 => by simpa using (by simp [show j < l.length from h1])
  | some s =>
    have hk : X.clusters.keepIdx s = keptPixels d (some s) := by
      unfold Mixture.keepIdx keptPixels
      show (List.range X.num_features).filter _ = _
      rw [h.parts.2.1, show d.width * d.height * d.channels = d.channels * (d.height * d.width) by ring]
    have hlt : ∀ i ∈ keptPixels d (some s), i < d.channels * (d.height * d.width) := fun i hi => by
      unfold keptPixels at hi
      simpa using List.mem_of_mem_filter hi
    dsimp only
    rw [require_true _ (by
      rw [hk, hnum]
      intro i hi
      have := hlt i hi
      refine ⟨this, fun l hl => ?_⟩
      rw [h.columns l hl]
      exact this), hsz]
    refine congrArg Except.ok (List.map_congr_left fun n _ => ?_)
    rw [flatRow_img hx, hk]
    unfold convCluster pickCols
    show X.nearest _ _ = _
    congr 1
    refine List.map_congr_left fun j hj => ?_
    simp [List.getD, hlt j hj]

theorem group_stack_img {x : Tensor Fl} {N C H W : Nat} (hx : x.shape = [N, C, H, W]) {is : List Nat} (h0 : is ≠ []) :
    ∃ u, stack (is.map x.row) = .ok u ∧ u.shape = [is.length, C, H, W] ∧
      ∀ j, j < is.length → ∀ i, u.get (j :: i) = x.get (is.getD j 0 :: i) := by
  obtain ⟨u, hu, h1, h2⟩ := stack_ok (l := is.map x.row) (s := [C, H, W]) (by simpa using h0) (by
    intro t ht
    obtain ⟨i, -, rfl⟩ := List.mem_map.1 ht
    simp [row, hx])
  rw [List.length_map] at h1
  refine ⟨u, hu, h1, fun j hj i => ?_⟩
  have hr : u.rows[j]? = (is.map x.row)[j]? := by rw [h2]
  have hl : j < u.rows.length := by rw [h2, List.length_map]; exact hj
  rw [List.getElem?_eq_getElem hl, rows_getElem, List.getElem?_map, List.getElem?_eq_getElem hj] at hr
  have := Option.some.inj hr
  have := congrArg (fun t : Tensor Fl => t.get i) this
  simpa [row, hj] using this

/-- **C96**: `Mixture.forward` of images: for every non-empty batch there is one value per image, and the value of image `i` is the
log-likelihood by the circuit that the clustering selects for image `i`, called with this image alone, whatever the order of the
images.  The scopes only have an influence on the clustering.  Missing: circuits whose `channels[0]` is 1
(`C96_not_single_channel`). -/
theorem C96_forward_partial (c : ConvConfig) (d : ImgShape) (P : Nat → ConvParams) (X : ConvMixture) (hX : IsConvMixture c d P X)
    (hu : c.Usual d) (hf : c.SizeFits d) (h2 : c.channels.headD 0 ≠ 1) (N : Nat) (hN : 0 < N) (x : Tensor Fl)
    (hx : ∀ k, ImgBatch (P k).leaf N d.channels d.height d.width x) (ms : Option Scopes) :
    ∃ y, X.forward x ms = .ok y ∧ y.shape = [N] ∧ ∀ i, i < N → ∃ M z, X.models[convCluster X d ms x i]? = some M ∧
      M.forward (oneImg d x i) = .ok z ∧ y.get [i] = z.get [0] := by
  have hks := hX.predict hN (hx 0).1 ms
  set ks := (List.range N).map (convCluster X d ms x) with hksd
  have hl : ks.length = N := by simp [hksd]
  have hk : ∀ i, i < N → ks.getD i 0 = convCluster X d ms x i := fun i hi => by simp [hksd, hi]
  have hmod : ∀ k M, X.models[k]? = some M → ∀ (m : Nat) (u : Tensor Fl), ImgBatch (P k).leaf m d.channels d.height d.width u →
      ∃ y, M.forward u = .ok y ∧ y.shape = [m] ∧ ∀ n, n < m → y.get [n] = M.outRow fun c y z => u.get [n, c, y, z] :=
    fun k M hM m u hu' => by
      have hb := hX.parts.2.2 k M hM
      obtain ⟨-, -, -, -, -, -, e1, e2, e3⟩ := buildConv_spec hb
      exact conv_forward hu hf h2 (hX.good k) hb (by rw [e1, e2, e3]; exact hu')
  let T : Nat → Tensor Fl → Prop := fun i t => ∃ M, X.models[ks.getD i 0]? = some M ∧
    t.get [] = M.outRow fun c y z => x.get [i, c, y, z]
  have hgroup : ∀ g ∈ separate ks, Res.Sat (X.forwardGroup x g) fun p =>
      p.map Prod.fst = g.2 ∧ ∀ b ∈ p, b.2.shape = [] ∧ T b.1 b.2 := by
    intro g hg
    obtain ⟨h0, hj⟩ := separate_all ks g hg
    obtain ⟨u, hu1, hu2, hu3⟩ := group_stack_img (hx 0).1 h0
    have key : ∀ j, j < g.2.length → g.2.getD j 0 < N ∧ ks.getD (g.2.getD j 0) 0 = g.1 := fun j h => by
      have := hj g.2[j] (List.getElem_mem h)
      rw [show g.2.getD j 0 = g.2[j] by simp [h]]
      exact ⟨by omega, this.2⟩
    have hpos : 0 < g.2.length := List.length_pos_iff.2 h0
    obtain ⟨M, hM⟩ := hX.cluster_lt ms x (g.2.getD 0 0)
    rw [← hk _ (key 0 hpos).1, (key 0 hpos).2] at hM
    obtain ⟨y, hy, hy1, hy2⟩ := hmod g.1 M hM g.2.length u ⟨hu2, fun n hn c hc i hi j hj => by
      rw [hu3 n hn]
      exact (hx g.1).2 _ (key n hn).1 c hc i hi j hj⟩
    refine ⟨g.2.zip y.rows, ?_, zip_rows hy1 fun j hj => ⟨M, by rw [(key j hj).2, hM], ?_⟩⟩
    · unfold ConvMixture.forwardGroup ConvMixture.model
      rw [hu1, Res.ok_bind, hM, Res.ok_bind, hy, Res.ok_bind]
      rfl
    · have := hy2 j hj
      simp only [hu3 j hj] at this
      exact this
  obtain ⟨ps, hps, hQ⟩ := Res.Sat.mapM hgroup
  obtain ⟨q1, q2⟩ := forall2_flat (ix := Prod.snd) (T := fun b => b.2.shape = [] ∧ T b.1 b.2) hQ
    (fun _ _ h => h.1) (fun _ _ h => h.2)
  obtain ⟨y, hy, hs, hT⟩ := Mixture.restore_ok (l := ps.flatten) (N := N) (s := []) (T := T) hN
    (by rw [q1, ← hl]; exact separate_flat ks) (fun p hp => (q2 p hp).1) (fun p hp => (q2 p hp).2)
  refine ⟨y, ?_, hs, fun i hi => ?_⟩
  · unfold ConvMixture.forward
    rw [hks, Res.ok_bind, hps, Res.ok_bind, hy]
  · obtain ⟨M, hM, e⟩ := hT i hi
    rw [hk i hi] at hM
    obtain ⟨z, hz, -, hz2⟩ := hmod _ M hM 1 (oneImg d x i) ⟨rfl, fun n hn => by
      obtain rfl : n = 0 := by omega
      exact (hx _).2 i hi⟩
    exact ⟨M, z, hM, hz, e.trans (hz2 0 one_pos).symm⟩

/-- the whole call raises if the call of the component raises for the images of some cluster. -/
theorem forward_raises {x : Tensor Fl} {ms : Option Scopes}
    (h : ∀ g l ks, X.clusters.predictCluster x ms = .ok ks → separate ks = g :: l → ∃ e, X.forwardGroup x g = .error e) :
    ∃ e, X.forward x ms = .error e := by
  unfold ConvMixture.forward
  cases hk : X.clusters.predictCluster x ms with
  | error e => exact ⟨e, rfl⟩
  | ok ks =>
    rw [Res.ok_bind]
    cases hsep : separate ks with
    | nil =>
      refine ⟨.value, ?_⟩
      show Mixture.restore [] = _
      unfold Mixture.restore
      rw [require_false _ (by simp)]
      rfl
    | cons g l =>
      obtain ⟨e, he⟩ := h g l ks hk hsep
      refine ⟨e, ?_⟩
      rw [List.mapM_cons, he]
      rfl

/-- **C96** fails for circuits whose `channels[0]` is 1: every call of `Mixture.forward` raises, whatever the images. -/
theorem C96_not_single_channel (c : ConvConfig) (d : ImgShape) (P : Nat → ConvParams) (X : ConvMixture) (hX : IsConvMixture c d P X)
    (h1 : c.channels.headD 0 = 1) (x : Tensor Fl) (ms : Option Scopes) : ∃ e, X.forward x ms = .error e := by
  refine forward_raises fun g l ks _ _ => ?_
  unfold ConvMixture.forwardGroup
  cases hs : stack (g.2.map x.row) with
  | error e => exact ⟨e, rfl⟩
  | ok u =>
    rw [Res.ok_bind]
    unfold ConvMixture.model
    cases hM : X.models[g.1]? with
    | none => exact ⟨_, rfl⟩
    | some M =>
      obtain ⟨e, he⟩ := C40_refuted_single_channel c d (P g.1) h1 M (hX.parts.2.2 _ _ hM) u
      exact ⟨e, by rw [Res.ok_bind, he]; rfl⟩

/-- **C96** for sizes that do not fit the circuits: every call of `Mixture.forward` with valid images raises. -/
theorem C96_not_fits (c : ConvConfig) (d : ImgShape) (P : Nat → ConvParams) (X : ConvMixture) (hX : IsConvMixture c d P X)
    (hu : c.Usual d) (hf : ¬ c.SizeFits d) (N : Nat) (hN : 0 < N) (x : Tensor Fl)
    (hx : ∀ k, ImgBatch (P k).leaf N d.channels d.height d.width x) (ms : Option Scopes) : ∃ e, X.forward x ms = .error e := by
  by_cases h2 : c.channels.headD 0 = 1
  · exact C96_not_single_channel c d P X hX h2 x ms
  refine forward_raises fun g l ks hk hsep => ?_
  rw [hX.predict hN (hx 0).1 ms] at hk
  cases hk
  obtain ⟨h0, hj⟩ := separate_all _ g (hsep ▸ List.mem_cons_self)
  obtain ⟨u, hu1, hu2, hu3⟩ := group_stack_img (hx 0).1 h0
  unfold ConvMixture.forwardGroup ConvMixture.model
  rw [hu1, Res.ok_bind]
  cases hM : X.models[g.1]? with
  | none => exact ⟨_, rfl⟩
  | some M =>
    have hb := hX.parts.2.2 _ _ hM
    obtain ⟨-, -, -, -, -, -, e1, e2, e3⟩ := buildConv_spec hb
    have hB : ImgBatch (P g.1).leaf g.2.length M.num_channels M.height M.width u := by
      rw [e1, e2, e3]
      refine ⟨hu2, fun n hn c hc i hi j hj' => ?_⟩
      rw [hu3 n hn]
      refine (hx g.1).2 _ ?_ c hc i hi j hj'
      have := hj g.2[n] (List.getElem_mem hn)
      rw [show g.2.getD n 0 = g.2[n] by simp [hn]]
      simpa using this.1
    have hF := (not_congr (C40_fits_partial c d (P g.1) hu h2 (hX.good g.1) M hb _ _ hB)).2 hf
    rw [Res.ok_bind]
    cases hy : M.forward u with
    | ok y => exact absurd ⟨y, hy⟩ hF
    | error e => exact ⟨e, rfl⟩

/-- **C96**, sampling without evidence: with probability one, the requested number of images of the shape of the data with finite
entries is returned: for `num_samples`, `num_samples_per_cluster`, and one image for `is_mpe`. -/
theorem C96_sample (c : ConvConfig) (d : ImgShape) (P : Nat → ConvParams) (X : ConvMixture) (hX : IsConvMixture c d P X)
    (hu : c.Usual d) (hf : c.SizeFits d) (hs : ∀ k, (P k).leaf.CanSample) (w : List ℝ) (hw : X.mixture_weights = w.map Fl.fin)
    (hw0 : ∀ r ∈ w, 0 ≤ r) (hw1 : 0 < w.sum) (hwl : w.length ≤ X.models.length) (a : MixArgs) (he : a.evidence = none)
    (hone : a.num_samples = none ∨ a.num_samples_per_cluster = none) (n : Nat) (hn : 0 < n) (hc : ConvCount X.models.length a n)
    (hT : a.temperature_sums ≠ 0) (hL : 0 < a.temperature_leaves) (μ : Measure ℝ) (hμ : μ Set.univ = 1) :
    (X.sample μ a).E (fun t => if t.shape = [n, d.channels, d.height, d.width] ∧
      ∀ i, InB t.shape i → ∃ v : ℝ, t.get i = .fin v then 1 else 0) = 1 := by
  have hdraw : Full (fun ks => ks.length = n ∧ ∀ k ∈ ks, k < X.models.length) (X.drawClusters a) := by
    obtain ⟨M, -, -⟩ := wMix_exists 1 one_pos []
    have hl : (List.replicate X.models.length (M 0)).length = X.models.length := List.length_replicate
    have := drawClusters_full (X := ⟨List.replicate X.models.length (M 0), X.num_features, X.mixture_weights, X.centroids,
      X.nearest⟩) (w := w) ⟨hw, hw0, hw1, by rw [hl]; exact hwl⟩ (a := a) he (n := n) (by
        rcases hc with h | ⟨h1, m, h2, h3⟩ | h
        · exact .inl h
        · exact .inr (.inl ⟨h1, m, h2, by rw [hl]; exact h3⟩)
        · exact .inr (.inr h))
    simp only [hl] at this
    convert this using 1
    unfold ConvMixture.drawClusters Mixture.drawClusters ConvMixture.count Mixture.count
    simp only [hl]
    rfl
  have hfull : Full (fun t : Tensor Fl => t.shape = [n, d.channels, d.height, d.width] ∧
      ∀ i, InB t.shape i → ∃ v : ℝ, t.get i = .fin v) (X.sample μ a) := by
    unfold ConvMixture.sample
    rw [require_true _ (by rcases hone with h | h <;> simp [h]), Rand.lift_ok]
    refine Full.bind (Full.pure (P := fun _ => True) trivial) fun _ _ => Full.bind hdraw fun ks ⟨k1, k2⟩ => ?_
    rw [he]
    dsimp only
    have h0 : ks ≠ [] := by rintro rfl; simp at k1; omega
    let T : Tensor Fl → Prop := fun t => ∀ i, InB [d.channels, d.height, d.width] i → ∃ v : ℝ, t.get i = .fin v
    have hall := Full.forEach (Q := fun (g : Nat × List Nat) (t : Tensor Fl) =>
        t.shape = g.2.length :: [d.channels, d.height, d.width] ∧ ∀ j, j < g.2.length → T (t.row j))
      (f := fun g => (Rand.lift (X.model g.1)).bind fun M => M.sample μ (ConvMixture.freeArgs a g.2.length)) (D := separate ks) (by
        intro g hg
        have hk := k2 g.1 ((separate_key _).1 (List.mem_map.2 ⟨g, hg, rfl⟩))
        have hM := List.getElem?_eq_getElem hk
        have hb := hX.parts.2.2 _ _ hM
        obtain ⟨-, -, -, -, -, -, e1, e2, e3⟩ := buildConv_spec hb
        have hm : X.model g.1 = .ok X.models[g.1] := by unfold ConvMixture.model; rw [hM]
        show Full _ ((Rand.lift (X.model g.1)).bind fun M => M.sample μ (ConvMixture.freeArgs a g.2.length))
        rw [hm, Rand.lift_ok]
        refine Full.bind (Full.pure (P := fun M => M = X.models[g.1]) rfl) fun M hM' => ?_
        subst hM'
        refine (ConvModel.draw_full hμ (buildConv_WF hu hf hb) (conv_samp (hX.good _) (hs _) hb) (N := g.2.length)
          (a := ConvMixture.freeArgs a g.2.length) hT hL).mono fun t ⟨S, ht⟩ => ?_
        rw [e1, e2, e3] at ht
        exact ⟨ht.1, fun j hj i hi => ⟨_, Is.get ht (i := j :: i) ⟨hj, hi⟩⟩⟩)
    unfold ConvMixture.sampleFree
    refine Full.bind hall fun parts hp => Full.lift ?_
    obtain ⟨y, hy, h1, h2, h3⟩ := arrange_ok h0 (hp.imp fun _ _ h => h.1)
    refine ⟨y, hy, by rw [h1, k1], fun i hi => ?_⟩
    have hmem : ∀ t ∈ parts.flatMap rows, T t := by
      intro t ht
      obtain ⟨u, hu, ht⟩ := List.mem_flatMap.1 ht
      obtain ⟨n, hn, rfl⟩ := List.getElem_of_mem hu
      obtain ⟨hlen, hget⟩ := List.forall₂_iff_get.1 hp
      obtain ⟨q1, q2⟩ := hget n (hlen ▸ hn) hn
      simp only [List.get_eq_getElem] at q1 q2
      unfold rows at ht
      obtain ⟨j, hj, rfl⟩ := List.mem_map.1 ht
      refine q2 j ?_
      rw [List.mem_range] at hj
      rwa [Tensor.size, q1] at hj
    rw [h1] at hi
    match i, hi with
    | j :: i, ⟨hj, hi⟩ =>
      have hr : j < y.rows.length := by rw [h3, List.length_map, sortPerm_length]; exact hj
      have hmem' : y.row j ∈ parts.flatMap rows := by
        rw [← rows_getElem hr]
        have hj' : j < (sortPerm ks).length := by rw [sortPerm_length]; exact hj
        have : y.rows[j] = (parts.flatMap rows).getD (sortPerm ks)[j] ⟨[], fun _ => .nan⟩ := by simp [h3]
        rw [this]
        have hlt : (sortPerm ks)[j] < (parts.flatMap rows).length := by rw [h2]; exact sortPerm_lt (List.getElem_mem hj')
        rw [show (parts.flatMap rows).getD (sortPerm ks)[j] ⟨[], fun _ => .nan⟩ = (parts.flatMap rows)[(sortPerm ks)[j]] by
          rw [List.getD_eq_getElem?_getD, List.getElem?_eq_getElem hlt]; rfl]
        exact List.getElem_mem _
      exact hmem _ hmem' i hi
  refine le_antisymm ((hfull 1 _).2 fun t _ => ?_) ((hfull 1 _).1 fun t ht => ?_)
  · split_ifs <;> simp
  · rw [if_pos ht]

/-- **C96**, `is_mpe` without evidence: the call is deterministic, and returns the most probable image of one circuit, a circuit with
the largest weight, whatever the number of samples: for every pixel the modes of one component of the leaves of this circuit. -/
theorem C96_mpe (c : ConvConfig) (d : ImgShape) (P : Nat → ConvParams) (X : ConvMixture) (hX : IsConvMixture c d P X)
    (hu : c.Usual d) (hf : c.SizeFits d) (hs : ∀ k, (P k).leaf.CanSample) (w : List ℝ) (hw : X.mixture_weights = w.map Fl.fin)
    (hw0 : w ≠ []) (hwl : w.length ≤ X.models.length) (a : MixArgs) (he : a.evidence = none) (hm : a.is_mpe = true)
    (hone : a.num_samples = none ∨ a.num_samples_per_cluster = none) (hT : a.temperature_sums ≠ 0) (μ : Measure ℝ) :
    ∃ k M y s, k < w.length ∧ (∀ j, j < w.length → w.getD j 0 ≤ w.getD k 0) ∧ X.models[k]? = some M ∧
      M.sample μ { num_samples := some 1, is_mpe := true, mpe_at_leaves := a.mpe_at_leaves,
                   temperature_leaves := a.temperature_leaves, temperature_sums := a.temperature_sums } = .pure s ∧
      X.sample μ a = .pure y ∧ y.shape = [1, d.channels, d.height, d.width] ∧ s.shape = y.shape ∧
      ∃ ix : Nat → Nat → Nat, (∀ i, i < d.height → ∀ j, j < d.width → ix i j < c.channels.headD 0) ∧
        ∀ b, b < d.channels → ∀ i, i < d.height → ∀ j, j < d.width →
          y.get [0, b, i, j] = s.get [0, b, i, j] ∧ y.get [0, b, i, j] = .fin (M.leaf.mode b (i * d.width + j) (ix i j) 0) := by
  have hl : X.mixture_weights.length = w.length := by rw [hw, List.length_map]
  have hne : X.mixture_weights ≠ [] := by rw [hw]; simpa using hw0
  set k := Fl.argmaxN X.mixture_weights.length fun k => X.mixture_weights.getD k .nan with hk
  have hkw : k < X.mixture_weights.length := Fl.argmaxN_lt (List.length_pos_iff.2 hne) _
  have hM := List.getElem?_eq_getElem (show k < X.models.length by omega)
  have hb := hX.parts.2.2 _ _ hM
  obtain ⟨ix, hix, hq⟩ := C40_mpe c d (P k) hu hf (hX.good k) (hs k) _ hb a.temperature_sums hT
  obtain ⟨s, h4, h5, h6⟩ := hq 1 (ConvMixture.freeArgs a 1) μ rfl rfl hm rfl
  have hsep : separate [k] = [(k, [0])] := rfl
  obtain ⟨y, hy, h1, -, h3⟩ := arrange_ok (ks := [k]) (by simp) (s := [d.channels, d.height, d.width]) (parts := [s])
    (by rw [hsep]; exact .cons h5 .nil)
  have hsam : X.sample μ a = .pure y := by
    unfold ConvMixture.sample ConvMixture.drawClusters
    rw [require_true _ (by rcases hone with h | h <;> simp [h]), Rand.lift_ok, Rand.pure_bind, if_pos hm, require_true _ hne,
      Rand.lift_ok, Rand.pure_bind, Rand.pure_bind, he]
    show X.sampleFree μ a [k] = _
    unfold ConvMixture.sampleFree
    have hfe : (Rand.forEach (separate [k]) fun g => (Rand.lift (X.model g.1)).bind fun M =>
        M.sample μ (ConvMixture.freeArgs a g.2.length)) = .pure [s] := by
      rw [hsep]
      show ((Rand.lift (X.model k)).bind fun M => M.sample μ (ConvMixture.freeArgs a 1)).bind _ = _
      have hmod : X.model k = .ok X.models[k] := by unfold ConvMixture.model; rw [hM]
      rw [hmod, Rand.lift_ok, Rand.pure_bind, h4]
      rfl
    rw [hfe, Rand.pure_bind, hy]
    rfl
  have hrow : ∀ i, y.get (0 :: i) = s.get (0 :: i) := by
    have hp : sortPerm [k] = [0] := by simp [sortPerm]
    have hr : s.rows = [s.row 0] := by simp [Tensor.rows, Tensor.size, h5, at']
    have hr' : y.rows = [y.row 0] := by simp [Tensor.rows, Tensor.size, h1, at']
    rw [hp, hr'] at h3
    simp only [List.flatMap_cons, List.flatMap_nil, hr, List.append_nil, List.map_cons, List.map_nil] at h3
    have h6 : y.row 0 = s.row 0 := by simpa using h3
    exact fun i => congrArg (fun t : Tensor Fl => t.get i) h6
  refine ⟨k, _, y, s, by omega, fun j hj => ?_, hM, ?_, hsam, h1, h5.trans h1.symm, ix, hix, fun b hb i hi j hj =>
    ⟨hrow _, (hrow _).trans (h6 0 one_pos b hb i hi j hj)⟩⟩
  · refine Fl.argmaxN_max (n := X.mixture_weights.length) (f := fun k => X.mixture_weights.getD k .nan)
      (g := fun k => w.getD k 0) (fun i hi => ?_) j (by omega)
    rw [hw] at hi ⊢
    simp at hi
    simp [hi]
  · have : ConvMixture.freeArgs a 1 = { num_samples := some 1, is_mpe := true, mpe_at_leaves := a.mpe_at_leaves,
                                        temperature_leaves := a.temperature_leaves, temperature_sums := a.temperature_sums } := by
      unfold ConvMixture.freeArgs
      rw [hm]
    rw [← this]
    exact h4

/-- **C96** fails with evidence: every conditional sample and every most probable explanation of a mixture of convolutional circuits
raises, whatever the mixture, the evidence and the other arguments. -/
theorem C96_not_evidence (X : ConvMixture) (a : MixArgs) (e : Tensor Fl) (he : a.evidence = some e) (μ : Measure ℝ)
    (g : Tensor Fl → ℝ≥0∞) : (X.sample μ a).E g = 0 := by
  have hmul : ∀ {α β : Type} (r : Rand α) (f : α → Rand β) (h : β → ℝ≥0∞), (∀ b, (f b).E h = 0) → (r.bind f).E h = 0 := by
    intro α β r f h hf
    rw [Rand.E_bind]
    simp only [hf]
    exact Rand.E_zero r
  have hev : (X.sampleEvidence μ a e).E g = 0 := by
    unfold ConvMixture.sampleEvidence
    refine hmul _ _ _ fun ks => ?_
    cases separate ks with
    | nil =>
      have : Mixture.restore [] = .error .value := by unfold Mixture.restore; rw [require_false _ (by simp)]; rfl
      rw [Rand.E_bind]
      show (Rand.lift (Mixture.restore [])).E g = 0
      rw [this]
      rfl
    | cons q l =>
      rw [Rand.E_bind]
      show (Rand.bind _ _).E _ = 0
      rw [Rand.E_bind]
      refine hmul _ _ _ fun u => hmul _ _ _ fun M => ?_
      rfl
  unfold ConvMixture.sample
  refine hmul _ _ _ fun _ => hmul _ _ _ fun ks => ?_
  rw [he]
  exact hev

/-! ### Examples -/

/-- the clustering of the examples: the brightness of the first pixel decides. -/
def exNearImg (l : List Fl) (cs : List (List Fl)) : Nat := if 1 < cs.length ∧ l.head? = some (.fin 1) then 1 else 0

/-- a mixture of three circuits with different parameters, for images of 8 × 24 pixels, with weights of which one is zero. -/
example (s o : String) (hs : s = "bottom-up" ∨ s = "top-down") (ho : o = "sum-prod" ∨ o = "prod-sum") :
    ∃ (P : Nat → ConvParams) (X : ConvMixture), IsConvMixture (exConv s o) ⟨3, 8, 24⟩ P X ∧ X.models.length = 3 ∧
      (exConv s o).Usual ⟨3, 8, 24⟩ ∧ (exConv s o).SizeFits ⟨3, 8, 24⟩ ∧ (exConv s o).channels.headD 0 ≠ 1 ∧
      (∀ k, (P k).leaf.CanSample) ∧ X.mixture_weights = [1 / 4, 0, 3 / 4].map Fl.fin ∧
      (∀ k, ImgBatch (P k).leaf 5 3 8 24 (full [5, 3, 8, 24] (.fin 1))) ∧
      ConvCount X.models.length { num_samples_per_cluster := some 2 } 6 := by
  have hu : (exConv s o).Usual ⟨3, 8, 24⟩ := ⟨by simp [exConv], by norm_num, by norm_num, ho⟩
  have hf : (exConv s o).SizeFits ⟨3, 8, 24⟩ := ⟨fun _ => by norm_num [exConv], fun _ => by norm_num [exConv]⟩
  let P : Nat → ConvParams := fun k => exConvParams (.normal (fun _ _ i _ => i + k) (fun _ _ _ _ => 0))
  have hb : ∀ k, ∃ M, buildConv (exConv s o) ⟨3, 8, 24⟩ (P k) = .ok M := fun k =>
    buildConv_ok (P := P k) (by simp [exConv]) (by norm_num) hu (fun _ => hf) hs (by simp [P, exConvParams, LeafSpec.build, exConv])
  choose M hM using hb
  refine ⟨P, ⟨[M 0, M 1, M 2], 576, [1 / 4, 0, 3 / 4].map Fl.fin, List.replicate 3 (List.replicate 576 (.fin 0)), exNearImg⟩,
    ⟨fun _ => trivial, ⟨3, ?_⟩, rfl, ?_, ?_⟩, rfl, hu, hf, by simp [exConv], fun _ => trivial, rfl, ?_, .inr (.inl ⟨rfl, 2, rfl, rfl⟩)⟩
  · refine (checkInt_iff 3 1 one_ne_zero _ _).2 ⟨by norm_num, ?_⟩
    have e : (List.range (3 : Int).toNat).mapM (fun k => buildConv (exConv s o) ⟨3, 8, 24⟩ (P k)) = .ok [M 0, M 1, M 2] := by
      show [0, 1, 2].mapM _ = _
      simp [hM]
    rw [e]
    rfl
  · intro l hl
    rw [List.eq_of_mem_replicate hl]
    exact List.length_replicate
  · intro l cs hcs
    have := List.length_pos_iff.2 hcs
    show exNearImg l cs < _
    unfold exNearImg
    split_ifs with h
    · exact h.1
    · exact this
  · exact fun k => ⟨rfl, fun _ _ _ _ _ _ _ _ => Or.inr ⟨1, rfl, trivial⟩⟩

/-- mixtures of two circuits whose `channels[0]` is 1, and mixtures of two circuits that do not fit images of 5 × 7 pixels. -/
example (K : Nat) (hK : K = 1 ∨ K = 4) : ∃ (P : Nat → ConvParams) (X : ConvMixture),
    IsConvMixture { exConv "top-down" "sum-prod" with channels := [K, 2] } ⟨1, 5, 7⟩ P X ∧
      ({ exConv "top-down" "sum-prod" with channels := [K, 2] } : ConvConfig).Usual ⟨1, 5, 7⟩ ∧
      ¬ ({ exConv "top-down" "sum-prod" with channels := [K, 2] } : ConvConfig).SizeFits ⟨1, 5, 7⟩ ∧
      (∀ k, ImgBatch (P k).leaf 5 1 5 7 (full [5, 1, 5, 7] (.fin 1))) := by
  have hu : ({ exConv "top-down" "sum-prod" with channels := [K, 2] } : ConvConfig).Usual ⟨1, 5, 7⟩ :=
    ⟨by rcases hK with rfl | rfl <;> simp, by norm_num, by norm_num, Or.inl rfl⟩
  let P : Nat → ConvParams := fun k => exConvParams (.normal (fun _ _ i _ => i + k) (fun _ _ _ _ => 0))
  have hb : ∀ k, ∃ M, buildConv { exConv "top-down" "sum-prod" with channels := [K, 2] } ⟨1, 5, 7⟩ (P k) = .ok M := fun k =>
    buildConv_ok (P := P k) (by simp) (by norm_num) hu
      (fun h => absurd (show "top-down" = "bottom-up" from h) (by decide)) (Or.inr rfl) (by simp [P, exConvParams, LeafSpec.build])
  choose M hM using hb
  refine ⟨P, ⟨[M 0, M 1], 35, [1 / 4, 3 / 4].map Fl.fin, List.replicate 2 (List.replicate 35 (.fin 0)), exNearImg⟩,
    ⟨fun _ => trivial, ⟨2, ?_⟩, rfl, ?_, ?_⟩, hu, fun h => ?_, ?_⟩
  · refine (checkInt_iff 2 1 one_ne_zero _ _).2 ⟨by norm_num, ?_⟩
    have e : (List.range (2 : Int).toNat).mapM (fun k => buildConv { exConv "top-down" "sum-prod" with channels := [K, 2] }
        ⟨1, 5, 7⟩ (P k)) = .ok [M 0, M 1] := by
      show [0, 1].mapM _ = _
      simp [hM]
    rw [e]
    rfl
  · intro l hl
    rw [List.eq_of_mem_replicate hl]
    exact List.length_replicate
  · intro l cs hcs
    have := List.length_pos_iff.2 hcs
    show exNearImg l cs < _
    unfold exNearImg
    split_ifs with h
    · exact h.1
    · exact this
  · have := (h.2 rfl).1
    revert this
    simp
  · exact fun k => ⟨rfl, fun _ _ _ _ _ _ _ _ => Or.inr ⟨1, rfl, trivial⟩⟩

end Props
end Einet
