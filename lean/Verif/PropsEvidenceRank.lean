import Verif.EvidenceRank

/-!
# C14 and C15 for evidence of rank 2 and 4

The shape of the evidence matters only for the shape of the result.
-/

open Classical MeasureTheory
open scoped ENNReal
noncomputable section
namespace Einet
namespace Props
open Tensor Einet

/-! ### Lemmas -/

theorem evidence_congr {M : Model} {s : LeafSpec} {N : Nat} {ms : Option Scopes} {x z : Tensor Fl} (hx : Evidence M s N ms x)
    (hz : z.Is3 N M.num_channels M.num_features fun n c f => x.get [n, c, f]) : Evidence M s N ms z := by
  have e : ∀ n, n < N → ∀ c, c < M.num_channels → ∀ f, f < M.num_features → z.get [n, c, f] = x.get [n, c, f] :=
    fun n hn c hc f hf => hz.get hn hc hf
  refine ⟨⟨hz.1, fun n hn c hc f hf => ?_⟩, hx.usable, fun n hn c hc f hf h => ?_⟩
  · have := hx.batch.2 n hn c hc f hf
    simpa only [e n hn c hc f hf] using this
  · rw [e n hn c hc f hf] at h
    have := hx.nan n hn c hc f hf h
    unfold Hole at this ⊢
    cases ms with
    | none => dsimp only at this ⊢; rw [e n hn c hc f hf]; exact this
    | some l => exact this

theorem hole_congr {F N C : Nat} {ms : Option Scopes} {x z : Tensor Fl} (hz : z.Is3 N C F fun n c f => x.get [n, c, f])
    {n c f : Nat} (hn : n < N) (hc : c < C) (hf : f < F) : Hole F ms z n c f ↔ Hole F ms x n c f := by
  unfold Hole
  cases ms with
  | none => dsimp only; rw [hz.get hn hc hf]
  | some l => exact Iff.rfl

/-- the same values as `x'`, in the shape of the evidence `x`; `pos n c f` is the position in `x` of an entry of `x'`. -/
structure Shaped (M : Model) (N : Nat) (x' x : Tensor Fl) (pos : Nat → Nat → Nat → List Nat) : Prop where
  size : x.size 0 = N
  numel : numelS x.shape = numelS [N, M.num_channels, M.num_features]
  prep : ∃ z, M.prepInput x = .ok z ∧ z.Is3 N M.num_channels M.num_features fun n c f => x'.get [n, c, f]
  index : ∀ n, n < N → ∀ c, c < M.num_channels → ∀ f, f < M.num_features →
    unflat x.shape (flat [N, M.num_channels, M.num_features] [n, c, f]) = pos n c f
  same : ∀ n, n < N → ∀ c, c < M.num_channels → ∀ f, f < M.num_features → x'.get [n, c, f] = x.get (pos n c f)

theorem Shaped.sim {M : Model} {N : Nat} {x' x : Tensor Fl} {pos : Nat → Nat → Nat → List Nat} (h : Shaped M N x' x pos)
    (a : SampleArgs) : ∃ z, z.Is3 N M.num_channels M.num_features (fun n c f => x'.get [n, c, f]) ∧
    Rand.Sim (fun t s => s.shape = x.shape ∧ ∀ n, n < N → ∀ c, c < M.num_channels → ∀ f, f < M.num_features →
        t.get [n, c, f] = s.get (pos n c f))
      (M.sample { a with evidence := some z }) (M.sample { a with evidence := some x }) := by
  obtain ⟨z, hz, hi⟩ := h.prep
  refine ⟨z, hi, ?_⟩
  have hres : Reshaped z x := by
    refine ⟨by rw [h.numel, hi.1], fun j hj => ?_⟩
    rw [hi.1] at hj ⊢
    match j, hj with
    | [n, c, f], hj =>
      have h0 := InB_at (d := 0) hj (by simp)
      have h1 := InB_at (d := 1) hj (by simp)
      have h2 := InB_at (d := 2) hj (by simp)
      simp only [at'] at h0 h1 h2
      rw [h.index n h0 c h1 f h2, ← h.same n h0 c h1 f h2]
      exact hi.get h0 h1 h2
  have hzz : M.prepInput z = .ok z := by
    have := prepInput_rank3 (M := M) (x := z) hi.1
    rw [if_pos ⟨rfl, rfl⟩] at this
    exact this.1
  refine (Model.sample_reshaped hres (by rw [h.size]; simp [Tensor.size, hi.1, at']) hz hzz a).mono fun t s ⟨h1, h2, h3⟩ => ?_
  refine ⟨h2, fun n hn c hc f hf => ?_⟩
  have := h3.2 [n, c, f] (by rw [h1, hi.1]; exact ⟨hn, hc, hf, by simp⟩)
  rw [this, h1, hi.1, h2, h.index n hn c hc f hf]

theorem shaped2 {M : Model} {N : Nat} {x' x : Tensor Fl} (hC : M.num_channels = 1) (hx : x.shape = [N, M.num_features])
    (heq : ∀ n, n < N → ∀ f, f < M.num_features → x'.get [n, 0, f] = x.get [n, f]) :
    Shaped M N x' x fun n _ f => [n, f] := by
  have hp := prepInput_rank2 (M := M) hx
  rw [if_pos ⟨hC.symm, rfl⟩] at hp
  obtain ⟨z, hz, hi⟩ := hp
  refine ⟨by simp [Tensor.size, hx, at'], by rw [hx, hC]; simp [numelS], ⟨z, hz, ?_⟩, fun n hn c hc f hf => ?_,
    fun n hn c hc f hf => ?_⟩
  · refine Is.congr hi ((AllIdx_iff _ _).2 fun j hj => ?_)
    match j, hj with
    | [n, c, f], hj =>
      have h0 := InB_at (d := 0) hj (by simp)
      have h1 := InB_at (d := 1) hj (by simp)
      have h2 := InB_at (d := 2) hj (by simp)
      simp only [at'] at h0 h1 h2 ⊢
      obtain rfl : c = 0 := by omega
      exact (heq n h0 f h2).symm
  · obtain rfl : c = 0 := by omega
    rw [hx, hC]
    have : flat [N, 1, M.num_features] [n, 0, f] = flat [N, M.num_features] [n, f] := by simp [flat, numelS]
    rw [this]
    exact unflat_flat ⟨hn, hf, by simp⟩
  · obtain rfl : c = 0 := by omega
    exact heq n hn f hf

theorem shaped4 {M : Model} {N H W : Nat} {x' x : Tensor Fl} (hN : 0 < N) (hC : 0 < M.num_channels)
    (hHW : H * W = M.num_features) (hx : x.shape = [N, M.num_channels, H, W])
    (heq : ∀ n, n < N → ∀ c, c < M.num_channels → ∀ i, i < H → ∀ j, j < W → x'.get [n, c, i * W + j] = x.get [n, c, i, j]) :
    Shaped M N x' x fun n c f => [n, c, f / W, f % W] := by
  have hp := prepInput_rank4 (M := M) hx hN hC
  rw [if_pos (by rw [hHW])] at hp
  obtain ⟨z, hz, hi⟩ := hp
  have hW : ∀ f, f < M.num_features → 0 < W ∧ f / W < H ∧ f % W < W := by
    intro f hf
    have hW : 0 < W := by
      rcases Nat.eq_zero_or_pos W with rfl | h
      · omega
      · exact h
    exact ⟨hW, Nat.div_lt_of_lt_mul (by rw [Nat.mul_comm, hHW]; exact hf), Nat.mod_lt _ hW⟩
  have hpos : ∀ n, n < N → ∀ c, c < M.num_channels → ∀ f, f < M.num_features →
      unflat [N, M.num_channels, H, W] (flat [N, M.num_channels, M.num_features] [n, c, f]) = [n, c, f / W, f % W] := by
    intro n hn c hc f hf
    obtain ⟨h1, h2, h3⟩ := hW f hf
    have e : flat [N, M.num_channels, M.num_features] [n, c, f] = flat [N, M.num_channels, H, W] [n, c, f / W, f % W] := by
      simp only [flat, numelS, ← hHW]
      have := Nat.div_add_mod' f W
      simp only [Nat.mul_one]
      omega
    rw [e]
    exact unflat_flat ⟨hn, hc, h2, h3, by simp⟩
  have hsame : ∀ n, n < N → ∀ c, c < M.num_channels → ∀ f, f < M.num_features →
      x'.get [n, c, f] = x.get [n, c, f / W, f % W] := by
    intro n hn c hc f hf
    obtain ⟨h1, h2, h3⟩ := hW f hf
    rw [← heq n hn c hc _ h2 _ h3, Nat.div_add_mod']
  refine ⟨by simp [Tensor.size, hx, at'], by rw [hx]; simp [numelS, hHW], ⟨z, hz, ?_⟩, fun n hn c hc f hf => ?_, hsame⟩
  · refine Is.congr hi ((AllIdx_iff _ _).2 fun j hj => ?_)
    match j, hj with
    | [n, c, f], hj =>
      have h0 := InB_at (d := 0) hj (by simp)
      have h1 := InB_at (d := 1) hj (by simp)
      have h2 := InB_at (d := 2) hj (by simp)
      simp only [at'] at h0 h1 h2 ⊢
      rw [hpos n h0 c h1 f h2, hsame n h0 c h1 f h2]
  · rw [hx]; exact hpos n hn c hc f hf

theorem kept_of_shaped {c : Config} {P : Params} (hP : P.Random) (hg : P.leaf.Good) (hs : P.leaf.CanSample)
    {M : Model} (h : build c P = .ok M) {N : Nat} (hN : 0 < N) {x' x : Tensor Fl} {pos : Nat → Nat → Nat → List Nat}
    (hsh : Shaped M N x' x pos) {a : SampleArgs} (hx : Evidence M P.leaf N a.marginalized_scopes x')
    (hev : a.evidence = some x) (hns : a.num_samples = none) (hci : a.class_index = none) (hT : a.temperature_sums ≠ 0) :
    (M.sample a).All fun s => s.shape = x.shape ∧
      ∀ n, n < N → ∀ c, c < M.num_channels → ∀ f, f < M.num_features →
        if Hole M.num_features a.marginalized_scopes x' n c f then ∃ v : ℝ, s.get (pos n c f) = .fin v
        else s.get (pos n c f) = x.get (pos n c f) := by
  obtain ⟨z, hz, hsim⟩ := hsh.sim a
  have hk := C15_evidence_kept c P hP hg hs M h N hN z { a with evidence := some z } (evidence_congr hx hz) rfl hns hci hT
  have ha : ({ a with evidence := some x } : SampleArgs) = a := by cases a; simp_all
  rw [ha] at hsim
  refine (hsim.all hk).mono fun s ⟨t, ⟨_, h2⟩, h3, h4⟩ => ⟨h3, fun n hn c hc f hf => ?_⟩
  have := h2 n hn c hc f hf
  rw [h4 n hn c hc f hf] at this
  by_cases hh : Hole M.num_features a.marginalized_scopes x' n c f
  · rw [if_pos hh]
    rwa [if_pos ((hole_congr hz hn hc hf).2 hh)] at this
  · rw [if_neg hh]
    rw [if_neg fun e => hh ((hole_congr hz hn hc hf).1 e)] at this
    rw [this, hz.get hn hc hf, hsh.same n hn c hc f hf]

theorem law_of_shaped {c : Config} {P : Params} (hP : P.Random) (hg : P.leaf.Good) (hs : P.leaf.CanSample)
    {M : Model} (h : build c P = .ok M) (hmir : MirrorCfg c) (hK : M.num_classes = 1) {N : Nat} (hN : 0 < N)
    {ms : Option Scopes} {x' x : Tensor Fl} {pos : Nat → Nat → Nat → List Nat} (hsh : Shaped M N x' x pos)
    (hx : Evidence M P.leaf N ms x')
    {φ : (Fin N → Fin M.num_channels → Fin M.num_features → ℝ) → ℝ≥0∞} (hφ : Measurable φ) :
    (M.sample { evidence := some x, marginalized_scopes := ms }).E (fun s => φ fun n c f => (s.get (pos n c f)).val) =
      ∫⁻ ω, φ ω ∂Measure.pi fun n : Fin N => rowLawGiven M P.leaf.ref 0 (known M.num_features ms x' n) := by
  obtain ⟨z, hz, hsim⟩ := hsh.sim { evidence := some x, marginalized_scopes := ms }
  have hl := C14_conditional_law_partial c P hP hg hs M h hmir hK N hN ms z (evidence_congr hx hz) φ hφ
  refine ((hsim.E (φ := fun s => φ fun n c f => (s.get [n, c, f]).val) fun t s ⟨_, h2⟩ => ?_).symm.trans hl).trans ?_
  · congr 1
    funext n c f
    rw [h2 n n.2 c c.2 f f.2]
  · obtain ⟨-, hw, hp, _⟩ := build_WF hP h
    congr 2
    funext n
    rw [← rowLawGiven_eq hP h, ← rowLawGiven_eq hP h]
    refine condLaw_congr hw (hp hg) (known_observed hP h (evidence_congr hx hz) n.2) (known_observed hP h hx n.2)
      (fun c hc f hf => ?_) (by omega)
    unfold known
    rw [hz.get n.2 hc hf]
    exact if_congr (hole_congr hz n.2 hc hf) rfl rfl

/-! ### C15 -/

/-- **C15**, evidence `[N, D]` of a model with one channel: the result has the shape `[N, D]`, every hole is filled, every other
entry is the one of the evidence.  `x'` is the evidence as `[N, 1, D]`. -/
theorem C15_rank2 (c : Config) (P : Params) (hP : P.Random) (hg : P.leaf.Good) (hs : P.leaf.CanSample)
    (M : Model) (h : build c P = .ok M) (hC : M.num_channels = 1) (N : Nat) (hN : 0 < N) (x x' : Tensor Fl)
    (hxs : x.shape = [N, M.num_features])
    (heq : ∀ n, n < N → ∀ f, f < M.num_features → x'.get [n, 0, f] = x.get [n, f]) (a : SampleArgs)
    (hx : Evidence M P.leaf N a.marginalized_scopes x') (hev : a.evidence = some x) (hns : a.num_samples = none)
    (hci : a.class_index = none) (hT : a.temperature_sums ≠ 0) :
    (M.sample a).All fun s => s.shape = [N, M.num_features] ∧ ∀ n, n < N → ∀ f, f < M.num_features →
      if Hole M.num_features a.marginalized_scopes x' n 0 f then ∃ v : ℝ, s.get [n, f] = .fin v
      else s.get [n, f] = x.get [n, f] := by
  refine (kept_of_shaped hP hg hs h hN (shaped2 hC hxs heq) hx hev hns hci hT).mono fun s ⟨h1, h2⟩ => ?_
  exact ⟨by rw [h1, hxs], fun n hn f hf => h2 n hn 0 (by omega) f hf⟩

/-- **C15**, images `[N, C, H, W]` as evidence. -/
theorem C15_rank4 (c : Config) (P : Params) (hP : P.Random) (hg : P.leaf.Good) (hs : P.leaf.CanSample)
    (M : Model) (h : build c P = .ok M) (N H W : Nat) (hN : 0 < N) (hHW : H * W = M.num_features) (x x' : Tensor Fl)
    (hxs : x.shape = [N, M.num_channels, H, W])
    (heq : ∀ n, n < N → ∀ c, c < M.num_channels → ∀ i, i < H → ∀ j, j < W → x'.get [n, c, i * W + j] = x.get [n, c, i, j])
    (a : SampleArgs) (hx : Evidence M P.leaf N a.marginalized_scopes x') (hev : a.evidence = some x)
    (hns : a.num_samples = none) (hci : a.class_index = none) (hT : a.temperature_sums ≠ 0) :
    (M.sample a).All fun s => s.shape = [N, M.num_channels, H, W] ∧
      ∀ n, n < N → ∀ c, c < M.num_channels → ∀ i, i < H → ∀ j, j < W →
        if Hole M.num_features a.marginalized_scopes x' n c (i * W + j) then ∃ v : ℝ, s.get [n, c, i, j] = .fin v
        else s.get [n, c, i, j] = x.get [n, c, i, j] := by
  have hC : 0 < M.num_channels := by
    rw [(build_WF hP h).1.channels]
    have := (assertValid_iff c).1 (build_valid h)
    omega
  refine (kept_of_shaped hP hg hs h hN (shaped4 hN hC hHW hxs heq) hx hev hns hci hT).mono fun s ⟨h1, h2⟩ => ?_
  refine ⟨by rw [h1, hxs], fun n hn c hc i hi j hj => ?_⟩
  have hlt : i * W + j < M.num_features := by rw [← hHW]; nlinarith
  have := h2 n hn c hc _ hlt
  rwa [show (i * W + j) / W = i by rw [Nat.mul_comm, Nat.mul_add_div (by omega), Nat.div_eq_of_lt hj, Nat.add_zero],
    show (i * W + j) % W = j by rw [Nat.mul_comm, Nat.mul_add_mod, Nat.mod_eq_of_lt hj]] at this

/-! ### C14 -/

/-- **C14** (part), evidence `[N, D]`: the law of the result is the one for `[N, 1, D]`. -/
theorem C14_rank2_partial (c : Config) (P : Params) (hP : P.Random) (hg : P.leaf.Good) (hs : P.leaf.CanSample)
    (M : Model) (h : build c P = .ok M) (hmir : MirrorCfg c) (hK : M.num_classes = 1) (hC : M.num_channels = 1) (N : Nat)
    (hN : 0 < N) (x x' : Tensor Fl) (hxs : x.shape = [N, M.num_features])
    (heq : ∀ n, n < N → ∀ f, f < M.num_features → x'.get [n, 0, f] = x.get [n, f]) (ms : Option Scopes)
    (hx : Evidence M P.leaf N ms x')
    (φ : (Fin N → Fin M.num_channels → Fin M.num_features → ℝ) → ℝ≥0∞) (hφ : Measurable φ) :
    (M.sample { evidence := some x, marginalized_scopes := ms }).E (fun s => φ fun n _ f => (s.get [n, f]).val) =
      ∫⁻ ω, φ ω ∂Measure.pi fun n : Fin N => rowLawGiven M P.leaf.ref 0 (known M.num_features ms x' n) :=
  law_of_shaped hP hg hs h hmir hK hN (shaped2 hC hxs heq) hx hφ

/-- **C14** (part), images `[N, C, H, W]` as evidence: the law of the result is the one for the flattened images. -/
theorem C14_rank4_partial (c : Config) (P : Params) (hP : P.Random) (hg : P.leaf.Good) (hs : P.leaf.CanSample)
    (M : Model) (h : build c P = .ok M) (hmir : MirrorCfg c) (hK : M.num_classes = 1) (N H W : Nat) (hN : 0 < N)
    (hHW : H * W = M.num_features) (x x' : Tensor Fl) (hxs : x.shape = [N, M.num_channels, H, W])
    (heq : ∀ n, n < N → ∀ c, c < M.num_channels → ∀ i, i < H → ∀ j, j < W → x'.get [n, c, i * W + j] = x.get [n, c, i, j])
    (ms : Option Scopes) (hx : Evidence M P.leaf N ms x')
    (φ : (Fin N → Fin M.num_channels → Fin M.num_features → ℝ) → ℝ≥0∞) (hφ : Measurable φ) :
    (M.sample { evidence := some x, marginalized_scopes := ms }).E
        (fun s => φ fun n c f => (s.get [n, c, f / W, f % W]).val) =
      ∫⁻ ω, φ ω ∂Measure.pi fun n : Fin N => rowLawGiven M P.leaf.ref 0 (known M.num_features ms x' n) := by
  have hC : 0 < M.num_channels := by
    rw [(build_WF hP h).1.channels]
    have := (assertValid_iff c).1 (build_valid h)
    omega
  exact law_of_shaped hP hg hs h hmir hK hN (shaped4 hN hC hHW hxs heq) hx hφ

/-- `exImage` with one class: 2 x 3 images with one channel. -/
def exImageOne : Config := { exImage with num_classes := 1 }

theorem exImageOne_builds : ∃ M, build exImageOne (exParams exLeaf) = .ok M ∧ M.num_channels = 1 ∧ M.num_features = 6 ∧
    M.num_classes = 1 := by
  have : ∃ M, build exImageOne (exParams exLeaf) = .ok M := by
    obtain ⟨M, h⟩ := exImage_builds
    obtain ⟨hv, ⟨B, hB⟩, h2, h3, h4⟩ := build_iff.1 ⟨M, h⟩
    obtain ⟨h1, h2', h3', h4', h5, h6, h7, h8, h9, h10, h11, h12, h13⟩ := (assertValid_iff _).1 hv
    exact build_iff.2 ⟨(assertValid_iff _).2 ⟨h1, h2', by norm_num [exImageOne], h4', h5, h6, h7, h8, h9, h10, h11, h12, h13⟩,
      ⟨B, hB⟩, h2, h3, h4⟩
  obtain ⟨M, h⟩ := this
  have hz := (build_WF (exParams_random _) h).1
  exact ⟨M, h, by rw [hz.channels]; rfl, by rw [hz.features]; rfl, by rw [hz.classes]; rfl⟩

/-- four images, the second pixel of every image is missing; the same values in the shapes `[4, 1, 6]`, `[4, 6]` and
`[4, 1, 2, 3]`. -/
example : ∃ M, build exImageOne (exParams exLeaf) = .ok M ∧ MirrorCfg exImageOne ∧ M.num_classes = 1 ∧ M.num_channels = 1 ∧
    2 * 3 = M.num_features ∧ ∃ x3 x2 x4 : Tensor Fl, Evidence M (exParams exLeaf).leaf 4 none x3 ∧
    x2.shape = [4, M.num_features] ∧ x4.shape = [4, M.num_channels, 2, 3] ∧
    (∀ n, n < 4 → ∀ f, f < M.num_features → x3.get [n, 0, f] = x2.get [n, f]) ∧
    (∀ n, n < 4 → ∀ c, c < M.num_channels → ∀ i, i < 2 → ∀ j, j < 3 → x3.get [n, c, i * 3 + j] = x4.get [n, c, i, j]) ∧
    Hole M.num_features none x3 2 0 1 ∧ ¬ Hole M.num_features none x3 2 0 4 := by
  obtain ⟨M, h, h1, h2, h3⟩ := exImageOne_builds
  refine ⟨M, h, Or.inr (Or.inl ⟨by norm_num [exImageOne, exImage, exConfig], by show (2 : ℤ) ^ 2 < 6; norm_num⟩), h3, h1, by omega,
    ⟨[4, 1, 6], fun i => if at' 2 i = 1 then .nan else .fin (at' 0 i * 7 + at' 2 i : ℕ)⟩,
    ⟨[4, 6], fun i => if at' 1 i = 1 then .nan else .fin (at' 0 i * 7 + at' 1 i : ℕ)⟩,
    ⟨[4, 1, 2, 3], fun i => if at' 2 i * 3 + at' 3 i = 1 then .nan else .fin (at' 0 i * 7 + (at' 2 i * 3 + at' 3 i) : ℕ)⟩,
    ⟨⟨by rw [h1, h2], fun n _ c _ f _ => ?_⟩, by simp, fun n _ c _ f _ e => e⟩, by rw [h2], by rw [h1], fun n _ f _ => rfl,
    fun n _ c _ i _ j _ => rfl, by simp [Hole, at'], by simp [Hole, at']⟩
  by_cases e : f = 1
  · left; simp [at', e]
  · right; exact ⟨_, if_neg (by simpa [at'] using e), by simp [exParams, exLeaf, LeafSpec.InSupport]⟩

end Props
end Einet
