import Verif.ConvLaw
import Verif.Density

/-!
# Convolutional circuits from end to end
-/

open Classical MeasureTheory
open scoped ENNReal
noncomputable section
namespace Einet
open Tensor

theorem permute_is {α : Type} {t : Tensor α} {s : List Nat} {g : List Nat → α} {p : List Nat} (h : t.Is s g)
    (hp : p.Perm (List.range s.length))
    (hi : ∀ i, InB (p.map fun d => at' d s) i → InB s ((List.range s.length).map fun d => at' (p.idxOf d) i)) :
    Res.Sat (t.permute p) fun t' => t'.Is (p.map fun d => at' d s)
      fun i => g ((List.range s.length).map fun d => at' (p.idxOf d) i) := by
  have hr : t.rank = s.length := by rw [rank, h.1]
  refine Res.Sat.require (by rw [hr]; exact hp) (Res.Sat.pure (Is.intro (by simp only [size, h.1]) fun i hj => ?_))
  dsimp only
  rw [hr]
  exact h.get (hi i hj)

theorem squeeze_ne {α : Type} {t : Tensor α} {s : List Nat} {g : List Nat → α} {d : Nat} (h : t.Is s g) (hd : d < s.length)
    (h1 : at' d s ≠ 1) : Res.Sat (t.squeeze d) fun t' => t'.Is s g := by
  refine Res.Sat.require (by rw [rank, h.1]; exact hd) (Res.Sat.pure ?_)
  rw [if_neg (by rw [size, h.1]; exact h1)]
  exact h

/-- an image as a row of features. -/
def flatImg (W : Nat) (X : Img Fl) : Data := fun c f => X c (f / W) (f % W)

theorem flatImg_at {W c y x : Nat} (X : Img Fl) (hx : x < W) : flatImg W X c (y * W + x) = X c y x := by
  unfold flatImg
  rw [block_div hx, Nat.mul_comm, Nat.mul_add_mod, Nat.mod_eq_of_lt hx]

namespace ConvModel

/-- the steps of the model. -/
def atoms (M : ConvModel) : List ConvAtom := M.layers.flatMap ConvLayer.atoms

/-- sizes of the leaves. -/
structure Front (M : ConvModel) : Prop where
  channels : M.leaf.num_channels = M.num_channels
  features : M.leaf.num_features = M.height * M.width
  reps : M.leaf.num_repetitions = 1
  hpos : 0 < M.height
  wpos : 0 < M.width

/-- sizes of the parts fit. -/
structure WF (M : ConvModel) : Prop extends M.Front where
  known : ∀ l ∈ M.layers, l.Known
  chain : AChain M.atoms M.leaf.num_leaves M.height M.width 1 1 1

/-- the leaf values of one image. -/
def leafImg (M : ConvModel) (X : Img Fl) : Img Fl := fun i y x => M.leaf.leafSum none (flatImg M.width X) (y * M.width + x) i 0

/-- the result for one image. -/
def outRow (M : ConvModel) (X : Img Fl) : Fl := rowAtoms M.atoms (M.leafImg X) 0 0 0

theorem forwardLeaf_is {M : ConvModel} (h : M.Front) (h2 : M.leaf.num_leaves ≠ 1) {x : Tensor Fl} {N : Nat} {X : Nat → Img Fl}
    (hx : x.Is4 N M.num_channels M.height M.width X) (hv : ∀ n, n < N → M.leaf.Valid (flatImg M.width (X n))) :
    Res.Sat (M.forwardLeaf x) fun y => y.Is4 N M.leaf.num_leaves M.height M.width fun n => M.leafImg (X n) := by
  unfold forwardLeaf
  refine Res.Sat.require (by rw [rank, hx.1]; simp) ?_
  have e0 : x.size 0 = N := by rw [size, hx.1]; rfl
  rw [e0]
  refine (view_is (s' := [N, M.num_channels, M.height * M.width]) hx (by simp only [numelS]; ring)).bind fun u hu => ?_
  have hu' : u.Is3 N M.leaf.num_channels M.leaf.num_features fun n => flatImg M.width (X n) := by
    rw [h.channels, h.features]
    refine Is.is3 hu ?_
    intro n hn c hc f hf
    have e : unflat [N, M.num_channels, M.height, M.width] (flat [N, M.num_channels, M.height * M.width] [n, c, f]) =
        [n, c, f / M.width, f % M.width] := by
      refine unflat_eq ⟨hn, hc, Nat.div_lt_of_lt_mul (by rwa [mul_comm]), Nat.mod_lt _ h.wpos, trivial⟩ ?_
      have := Nat.div_add_mod f M.width
      simp only [flat, numelS, mul_one]
      nlinarith
    rw [e]
    rfl
  refine (M.leaf.forward_is hu' hv (ms := none) (sc := none) rfl).bind fun v hv => ?_
  have e1 : v.size 0 = N := by rw [size, hv.1]; rfl
  rw [e1]
  refine (view_is (s' := [N, M.num_channels, M.height, M.width, M.leaf.num_leaves]) hv
    (by simp only [numelS, h.channels, h.features, h.reps]; ring)).bind fun v' hv' => ?_
  refine (sum_is hv' (by simp)).bind fun w hw => ?_
  have hw' : w.Is4 N M.height M.width M.leaf.num_leaves fun n y x i => M.leafImg (X n) i y x := by
    refine Is.is4 hw ?_
    intro n hn y hy x hx i hi
    simp only [at', insAt, leafImg, BaseLeaf.leafSum]
    rw [h.channels]
    refine Fl.sumN_congr fun c hc => ?_
    have e : unflat [N, M.num_channels, M.leaf.num_features, M.leaf.num_leaves, M.leaf.num_repetitions]
        (flat [N, M.num_channels, M.height, M.width, M.leaf.num_leaves] [n, c, y, x, i]) = [n, c, y * M.width + x, i, 0] := by
      rw [h.features, h.reps]
      refine unflat_eq ⟨hn, hc, block_lt hy hx, hi, one_pos, trivial⟩ ?_
      simp only [flat, numelS]
      ring
    rw [e]
    rfl
  have hr : w.rank = 4 := by rw [rank, hw'.1]; rfl
  rw [hr]
  refine (squeeze_ne hw' (by simp) (by simpa [at'] using h2)).bind fun w hw => ?_
  refine (permute_is hw (show [0, 3, 1, 2].Perm (List.range 4) by decide) ?_).mono fun y hy => ?_
  · intro i hi
    match i, hi with
    | [n, i, y, x], hi => exact ⟨hi.1, hi.2.2.1, hi.2.2.2.1, hi.2.1, trivial⟩
  · refine Is.is4 hy ?_
    intro n hn i hi y hy x hx
    rfl

theorem forward_is {M : ConvModel} (h : M.WF) (h2 : M.leaf.num_leaves ≠ 1) {x : Tensor Fl} {N : Nat} {X : Nat → Img Fl}
    (hx : x.Is4 N M.num_channels M.height M.width X) (hv : ∀ n, n < N → M.leaf.Valid (flatImg M.width (X n))) :
    Res.Sat (M.forward x) fun y => y.Is [N] fun i => M.outRow (X (at' 0 i)) := by
  obtain ⟨y, hy, hy'⟩ := forwardLeaf_is h.toFront h2 hx hv
  unfold forward forwardAll
  rw [hy]
  dsimp only
  rw [forwardConv_atoms h.known]
  refine (forwardAtoms_is h.chain hy').bind fun z hz => ?_
  have e0 : z.size 0 = N := by rw [size, hz.1]; rfl
  rw [e0]
  refine (view_is (s' := [N]) hz (by simp [numelS])).mono fun u hu => ?_
  refine hu.congr ((AllIdx_iff _ _).2 fun i hi => ?_)
  match i, hi with
  | [n], hi =>
    have e : unflat [N, 1, 1, 1] (flat [N] [n]) = [n, 0, 0, 0] := by
      refine unflat_eq ⟨hi.1, one_pos, one_pos, one_pos, trivial⟩ ?_
      simp [flat, numelS]
    rw [e]
    rfl

/-- the leaf values as probabilities. -/
def leafP (M : ConvModel) (X : Img Fl) : Img ℝ≥0∞ := fun i y x =>
  ∏ c ∈ Finset.range M.num_channels, toP (M.leaf.entry none (X c y x) c (y * M.width + x) i 0)

/-- every entry is missing or in the support of the leaf. -/
def ObservedImg (M : ConvModel) (X : Img Fl) : Prop :=
  ∀ c, c < M.num_channels → ∀ y, y < M.height → ∀ x, x < M.width → X c y x = .nan ∨
    ∃ r, X c y x = .fin r ∧ M.leaf.valid (y * M.width + x) (.fin r)

theorem ObservedImg.flat {M : ConvModel} (h : M.Front) {X : Img Fl} (hX : M.ObservedImg X) :
    M.leaf.Observed (flatImg M.width X) := by
  intro c hc f hf
  rw [h.channels] at hc
  rw [h.features] at hf
  have := hX c hc _ (Nat.div_lt_of_lt_mul (by rwa [mul_comm])) _ (Nat.mod_lt f h.wpos)
  rwa [Nat.div_add_mod' f M.width] at this

theorem outRow_den {M : ConvModel} (h : M.WF) (hp : M.leaf.Proper) {X : Img Fl} (hX : M.ObservedImg X) :
    (M.outRow X).IsFin ∧ toP (M.outRow X) = denAtoms 1 M.atoms (M.leafP X) 0 0 0 := by
  have hC := h.channels; have hF := h.features; have hR := h.reps
  have hent : ∀ i, i < M.leaf.num_leaves → ∀ y, y < M.height → ∀ x, x < M.width → ∀ c, c < M.num_channels →
      (M.leaf.entry none (X c y x) c (y * M.width + x) i 0).IsFin := by
    intro i hi y hy x hx c hc
    have := (Model.entry_none hp (c := c) (f := y * M.width + x) (i := i) (r := 0) (by omega)
      (by rw [hF]; exact block_lt hy hx) hi (by omega) (hX.flat h.toFront)).1
    rwa [flatImg_at X hx] at this
  have hleaf : ∀ i, i < M.leaf.num_leaves → ∀ y, y < M.height → ∀ x, x < M.width →
      (M.leafImg X i y x).IsFin ∧ toP (M.leafImg X i y x) = M.leafP X i y x := by
    intro i hi y hy x hx
    unfold leafImg leafP BaseLeaf.leafSum
    rw [hC]
    simp only [flatImg_at X hx]
    exact toP_sumN_fin fun c hc => hent i hi y hy x hx c hc
  obtain ⟨h1, h2⟩ := rowAtoms_den h.chain (e := M.leafImg X) (fun i hi y hy x hx => (hleaf i hi y hy x hx).1)
    one_pos one_pos one_pos
  refine ⟨h1, h2.trans ?_⟩
  exact denAtoms_congr h.chain (fun i hi y hy x hx => (hleaf i hi y hy x hx).2) one_pos one_pos one_pos

end ConvModel

/-- a complete image. -/
abbrev ImgPt (C H W : Nat) := Fin C → Fin H → Fin W → ℝ

/-- the entries of a complete image. -/
def ImgPt.data {C H W : Nat} (ω : ImgPt C H W) : Img Fl := fun c y x =>
  if h : c < C ∧ y < H ∧ x < W then .fin (ω ⟨c, h.1⟩ ⟨y, h.2.1⟩ ⟨x, h.2.2⟩) else .nan

theorem ImgPt.data_eq {C H W c y x : Nat} (ω : ImgPt C H W) (hc : c < C) (hy : y < H) (hx : x < W) :
    ω.data c y x = .fin (ω ⟨c, hc⟩ ⟨y, hy⟩ ⟨x, hx⟩) := by
  unfold ImgPt.data
  rw [dif_pos ⟨hc, hy, hx⟩]

/-- the completions of an image: `ref` of the flattened position for missing entries, the observed value otherwise. -/
def missingImg (C H W : Nat) (ref : Nat → Measure ℝ) (X : Img Fl) : Measure (ImgPt C H W) :=
  Measure.pi fun c => Measure.pi fun y : Fin H => Measure.pi fun x : Fin W =>
    if X c y x = .nan then ref (y * W + x) else Measure.dirac (X c y x).val

namespace ConvModel

/-- leaf probabilities of a complete image, a measurable function. -/
def ptP (M : ConvModel) (ω : ImgPt M.num_channels M.height M.width) : Img ℝ≥0∞ := fun i y x =>
  ∏ c ∈ Finset.range M.num_channels, if hh : c < M.num_channels ∧ y < M.height ∧ x < M.width then
    toP (M.leaf.logProb c (y * M.width + x) i 0 (.fin (ω ⟨c, hh.1⟩ ⟨y, hh.2.1⟩ ⟨x, hh.2.2⟩))) else 1

theorem ptP_measurable {M : ConvModel} (hp : M.leaf.Proper) (i y x : Nat) : Measurable fun ω => M.ptP ω i y x := by
  refine Finset.measurable_fun_prod _ fun c _ => ?_
  split_ifs with hh
  · exact (hp.measurable c _ i 0).comp ((measurable_pi_apply _).comp ((measurable_pi_apply _).comp (measurable_pi_apply _)))
  · exact measurable_const

theorem observed_data {M : ConvModel} {ω : ImgPt M.num_channels M.height M.width}
    (hω : ∀ c (y : Fin M.height) (x : Fin M.width), M.leaf.valid (y * M.width + x) (.fin (ω c y x))) :
    M.ObservedImg ω.data := fun _ hc _ hy _ hx => Or.inr ⟨_, ω.data_eq hc hy hx, hω ⟨_, hc⟩ ⟨_, hy⟩ ⟨_, hx⟩⟩

theorem leafP_data {M : ConvModel} (h : M.WF) (hp : M.leaf.Proper) {ω : ImgPt M.num_channels M.height M.width}
    (hω : ∀ c (y : Fin M.height) (x : Fin M.width), M.leaf.valid (y * M.width + x) (.fin (ω c y x)))
    {i y x : Nat} (hi : i < M.leaf.num_leaves) (hy : y < M.height)
    (hx : x < M.width) : M.leafP ω.data i y x = M.ptP ω i y x := by
  refine Finset.prod_congr rfl fun c hc => ?_
  simp only [Finset.mem_range] at hc
  have := (Model.entry_none hp (c := c) (f := y * M.width + x) (i := i) (r := 0) (by rw [h.channels]; exact hc)
    (by rw [h.features]; exact block_lt hy hx) hi (by rw [h.reps]; exact one_pos) ((observed_data hω).flat h.toFront)).2
  rw [flatImg_at _ hx] at this
  rw [this, ω.data_eq hc hy hx, if_neg (by simp), lintegral_dirac' _ (hp.measurable _ _ _ _), dif_pos ⟨hc, hy, hx⟩]
  rfl

theorem missingImg_valid {M : ConvModel} (hp : M.leaf.Proper) {X : Img Fl} (hX : M.ObservedImg X) :
    ∀ᵐ ω ∂(missingImg M.num_channels M.height M.width M.leaf.ref X), ∀ c (y : Fin M.height) (x : Fin M.width),
      M.leaf.valid (y * M.width + x) (.fin (ω c y x)) := by
  have := hp.sigmaFinite
  have hsf : ∀ c y x, SigmaFinite (if X c y x = .nan then M.leaf.ref (y * M.width + x) else Measure.dirac (X c y x).val) := by
    intro c y x; split_ifs <;> infer_instance
  unfold missingImg
  rw [ae_all_iff]; intro c
  rw [ae_all_iff]; intro y
  rw [ae_all_iff]; intro x
  have hcf : ∀ᵐ v ∂(if X c y x = .nan then M.leaf.ref (y * M.width + x) else Measure.dirac (X c y x).val),
      M.leaf.valid (y * M.width + x) (.fin v) := by
    rcases hX c c.2 y y.2 x x.2 with e | ⟨v, e, hv⟩
    · rw [if_pos e]; exact hp.ae_valid _
    · rw [e, if_neg (by simp), ae_dirac_eq]
      exact hv
  have h1 := (Measure.tendsto_eval_ae_ae (μ := fun x : Fin M.width =>
    if X c y x = .nan then M.leaf.ref (y * M.width + x) else Measure.dirac (X c y x).val) (i := x)).eventually hcf
  have h2 := (Measure.tendsto_eval_ae_ae (μ := fun y : Fin M.height => Measure.pi fun x : Fin M.width =>
    if X c y x = .nan then M.leaf.ref (y * M.width + x) else Measure.dirac (X c y x).val) (i := y)).eventually h1
  exact (Measure.tendsto_eval_ae_ae (μ := fun c : Fin M.num_channels => Measure.pi fun y : Fin M.height =>
    Measure.pi fun x : Fin M.width => if X c y x = .nan then M.leaf.ref (y * M.width + x) else Measure.dirac (X c y x).val)
    (i := c)).eventually h2

/-- integrals of products over the pixels. -/
theorem lintegral_img {C H W : Nat} {ν : Nat → Nat → Nat → Measure ℝ} (hν : ∀ c y x, SigmaFinite (ν c y x))
    {f : Nat → Nat → Nat → ℝ → ℝ≥0∞} (hf : ∀ c y x, Measurable (f c y x)) :
    ∫⁻ ω : ImgPt C H W, ∏ c : Fin C, ∏ y : Fin H, ∏ x : Fin W, f c y x (ω c y x)
      ∂(Measure.pi fun c : Fin C => Measure.pi fun y : Fin H => Measure.pi fun x : Fin W => ν c y x) =
      ∏ c : Fin C, ∏ y : Fin H, ∏ x : Fin W, ∫⁻ v, f c y x v ∂(ν c y x) := by
  have m1 : ∀ c y, Measurable fun v : Fin W → ℝ => ∏ x : Fin W, f c y x (v x) := fun c y =>
    Finset.measurable_fun_prod _ fun x _ => (hf c y x).comp (measurable_pi_apply _)
  have m2 : ∀ c, Measurable fun v : Fin H → Fin W → ℝ => ∏ y : Fin H, ∏ x : Fin W, f c y x (v y x) := fun c =>
    Finset.measurable_fun_prod _ fun y _ => (m1 c y).comp (measurable_pi_apply _)
  refine (lintegral_pi_prod (E := Fin H → Fin W → ℝ) (f := fun (c : Fin C) v => ∏ y : Fin H, ∏ x : Fin W, f c y x (v y x))
    fun c => m2 c).trans ?_
  refine Finset.prod_congr rfl fun c _ => ?_
  refine (lintegral_pi_prod (E := Fin W → ℝ) (f := fun (y : Fin H) v => ∏ x : Fin W, f c y x (v x)) fun y => m1 c y).trans ?_
  refine Finset.prod_congr rfl fun y _ => ?_
  exact lintegral_pi_prod (f := fun (x : Fin W) v => f c y x v) fun x => hf c y x

theorem prod_img (C H W : Nat) (f : Nat → Nat → Nat → ℝ≥0∞) :
    ∏ y ∈ Finset.range H, ∏ x ∈ Finset.range W, ∏ c ∈ Finset.range C, f c y x =
      ∏ c : Fin C, ∏ y : Fin H, ∏ x : Fin W, f c y x := by
  have e : ∀ y, ∏ x ∈ Finset.range W, ∏ c ∈ Finset.range C, f c y x = ∏ c ∈ Finset.range C, ∏ x ∈ Finset.range W, f c y x :=
    fun y => Finset.prod_comm
  simp only [e]
  rw [Finset.prod_comm, Finset.prod_range]
  refine Finset.prod_congr rfl fun c _ => ?_
  rw [Finset.prod_range]
  exact Finset.prod_congr rfl fun y _ => Finset.prod_range _

/-- weighted integrals: `∫ ∏ h · exp(forward)` over the completions of an image. -/
theorem lintegral_splits {M : ConvModel} (hp : M.leaf.Proper) {ν : Nat → Nat → Nat → Measure ℝ}
    (hν : ∀ c y x, SigmaFinite (ν c y x)) {h : Nat → Nat → Nat → ℝ → ℝ≥0∞} (hh : ∀ c y x, Measurable (h c y x)) :
    Splits (Measure.pi fun c : Fin M.num_channels => Measure.pi fun y : Fin M.height => Measure.pi fun x : Fin M.width => ν c y x)
      M.leaf.num_leaves M.height M.width
      (fun ω i y x => ∏ c ∈ Finset.range M.num_channels, if hh : c < M.num_channels ∧ y < M.height ∧ x < M.width then
        h c y x (ω ⟨c, hh.1⟩ ⟨y, hh.2.1⟩ ⟨x, hh.2.2⟩) *
        toP (M.leaf.logProb c (y * M.width + x) i 0 (.fin (ω ⟨c, hh.1⟩ ⟨y, hh.2.1⟩ ⟨x, hh.2.2⟩))) else 1)
      fun i y x => ∏ c ∈ Finset.range M.num_channels,
        ∫⁻ v, h c y x v * toP (M.leaf.logProb c (y * M.width + x) i 0 (.fin v)) ∂(ν c y x) := by
  intro s hs
  have e : ∀ ω : ImgPt M.num_channels M.height M.width, (∏ y ∈ Finset.range M.height, ∏ x ∈ Finset.range M.width,
      ∏ c ∈ Finset.range M.num_channels, if hh : c < M.num_channels ∧ y < M.height ∧ x < M.width then
        h c y x (ω ⟨c, hh.1⟩ ⟨y, hh.2.1⟩ ⟨x, hh.2.2⟩) *
        toP (M.leaf.logProb c (y * M.width + x) (s y x) 0 (.fin (ω ⟨c, hh.1⟩ ⟨y, hh.2.1⟩ ⟨x, hh.2.2⟩))) else 1) =
      ∏ c : Fin M.num_channels, ∏ y : Fin M.height, ∏ x : Fin M.width,
        h c y x (ω c y x) * toP (M.leaf.logProb c (y * M.width + x) (s y x) 0 (.fin (ω c y x))) := by
    intro ω
    rw [prod_img M.num_channels M.height M.width fun c y x => if hh : c < M.num_channels ∧ y < M.height ∧ x < M.width then
        h c y x (ω ⟨c, hh.1⟩ ⟨y, hh.2.1⟩ ⟨x, hh.2.2⟩) *
        toP (M.leaf.logProb c (y * M.width + x) (s y x) 0 (.fin (ω ⟨c, hh.1⟩ ⟨y, hh.2.1⟩ ⟨x, hh.2.2⟩))) else 1]
    refine Finset.prod_congr rfl fun c _ => Finset.prod_congr rfl fun y _ => Finset.prod_congr rfl fun x _ => ?_
    rw [dif_pos ⟨c.2, y.2, x.2⟩]
  simp only [e]
  rw [lintegral_img (f := fun c y x v => h c y x v * toP (M.leaf.logProb c (y * M.width + x) (s y x) 0 (.fin v))) hν
    fun c y x => (hh c y x).mul (hp.measurable _ _ _ _)]
  rw [prod_img M.num_channels M.height M.width fun c y x =>
    ∫⁻ v, h c y x v * toP (M.leaf.logProb c (y * M.width + x) (s y x) 0 (.fin v)) ∂(ν c y x)]

/-- the density is the integral of the density over the completions. -/
theorem outRow_missing {M : ConvModel} (h : M.WF) (hp : M.leaf.Proper) {X : Img Fl} (hX : M.ObservedImg X) :
    toP (M.outRow X) =
      ∫⁻ ω, toP (M.outRow ω.data) ∂(missingImg M.num_channels M.height M.width M.leaf.ref X) := by
  have := hp.sigmaFinite
  have hsf : ∀ c y x, SigmaFinite (if X c y x = .nan then M.leaf.ref (y * M.width + x) else Measure.dirac (X c y x).val) := by
    intro c y x; split_ifs <;> infer_instance
  have e2 : ∀ᵐ ω ∂(missingImg M.num_channels M.height M.width M.leaf.ref X),
      toP (M.outRow ω.data) = denAtoms 1 M.atoms (M.ptP ω) 0 0 0 := by
    filter_upwards [missingImg_valid hp hX] with ω hω
    rw [(outRow_den h hp (observed_data hω)).2]
    exact denAtoms_congr h.chain (fun i hi y hy x hx => leafP_data h hp hω hi hy hx) one_pos one_pos one_pos
  rw [lintegral_congr_ae e2, (outRow_den h hp hX).2]
  have hs := lintegral_splits (M := M) hp hsf (h := fun _ _ _ _ => 1) fun _ _ _ => measurable_const
  simp only [one_mul] at hs
  have := denAtoms_lintegral h.chain 1 (fun c y x => ptP_measurable hp c y x) hs
  unfold missingImg
  refine Eq.trans ?_ this.symm
  refine denAtoms_congr h.chain (fun i hi y hy x hx => ?_) one_pos one_pos one_pos
  refine Finset.prod_congr rfl fun c hc => ?_
  simp only [Finset.mem_range] at hc
  have := (Model.entry_none hp (c := c) (f := y * M.width + x) (i := i) (r := 0) (by rw [h.channels]; exact hc)
    (by rw [h.features]; exact block_lt hy hx) hi (by rw [h.reps]; exact one_pos) (hX.flat h.toFront)).2
  rwa [flatImg_at _ hx] at this

/-- normalisation. -/
theorem outRow_total {M : ConvModel} (h : M.WF) (hp : M.leaf.Proper) :
    ∫⁻ ω : ImgPt M.num_channels M.height M.width, toP (M.outRow ω.data)
      ∂(Measure.pi fun _ => Measure.pi fun y : Fin M.height => Measure.pi fun x : Fin M.width =>
        M.leaf.ref (y * M.width + x)) = 1 := by
  have hX : M.ObservedImg fun _ _ _ => .nan := fun _ _ _ _ _ _ => Or.inl rfl
  have e : (missingImg M.num_channels M.height M.width M.leaf.ref fun _ _ _ => .nan) =
      Measure.pi fun _ => Measure.pi fun y : Fin M.height => Measure.pi fun x : Fin M.width =>
        M.leaf.ref (y * M.width + x) := by
    unfold missingImg
    simp
  rw [← e, ← outRow_missing h hp hX, (outRow_den h hp hX).2]
  refine denAtoms_one h.chain (fun i hi y hy x hx => ?_) one_pos one_pos one_pos
  refine Finset.prod_eq_one fun c _ => ?_
  simp [BaseLeaf.entry, Fl.isnan]

end ConvModel
end Einet
