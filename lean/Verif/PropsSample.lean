import Verif.LawExt
import Verif.PropsDensity
import Verif.PropsLayers

/-!
# Properties of sampling: C13, C14, C15, C16, C17, C24

All statements are about a model obtained from the constructor (`build c P = .ok M`) for any configuration, any finite
parameters and any outcome of the random choices made during construction.  `(M.sample a).E f` is the expectation of `f`
of the result of the call `sample(**a)`, a raised exception counting as 0; `(M.sample a).All Q` says that every random
outcome returns a result satisfying `Q`.
-/

open Classical MeasureTheory
open scoped ENNReal
noncomputable section
namespace Einet

/-! ### Lemmas -/

theorem build_classRoot {c : Config} {P : Params} {M : Model} (h : build c P = .ok M) :
    M.classRoot = mkSumL 1 c.num_classes.toNat 1 1 SumLayer.weightShape P.classLogits := by
  have key : ∀ p, buildRoots c P = .ok p →
      p.2 = mkSumL 1 c.num_classes.toNat 1 1 SumLayer.weightShape P.classLogits := by
    intro p hp
    unfold buildRoots at hp
    dsimp only at hp
    split_ifs at hp <;>
    · obtain ⟨_, _, hp⟩ := bind_ok hp
      obtain ⟨_, _, hp⟩ := bind_ok hp
      simp only [Res.pure_eq, Except.ok.injEq] at hp
      rw [← hp]
  unfold build at h
  obtain ⟨_, _, h⟩ := bind_ok h
  split_ifs at h
  · unfold buildTopDown at h
    obtain ⟨_, _, h⟩ := bind_ok h
    obtain ⟨_, _, h⟩ := bind_ok h
    obtain ⟨p, hp, h⟩ := bind_ok h
    simp only [Res.pure_eq, Except.ok.injEq] at h
    rw [← h]
    exact key p hp
  · unfold buildBottomUp at h
    obtain ⟨_, _, h⟩ := bind_ok h
    obtain ⟨_, _, h⟩ := bind_ok h
    obtain ⟨p, hp, h⟩ := bind_ok h
    simp only [Res.pure_eq, Except.ok.injEq] at h
    rw [← h]
    exact key p hp

namespace Props
open Tensor Einet

/-! ### Specification -/

/-- the law of a row with the density `p(x | y = k) = exp(model(x)[0, k])`, with respect to `ref` in every entry. -/
def rowLaw (M : Model) (ref : Measure ℝ) (k : Nat) : Measure (Fin M.num_channels → Fin M.num_features → ℝ) :=
  (Measure.pi fun _ => Measure.pi fun _ => ref).withDensity fun ω => M.density none k (Pt.data ω)

/-- the conditional law of a row given the entries of `X` that are not NaN: the missing entries have the density
`p(x | y = k) / p(observed | y = k) = exp(model(x)[0, k]) / exp(model(X)[0, k])`, the observed ones are fixed. -/
def rowLawGiven (M : Model) (ref : Measure ℝ) (k : Nat) (X : Data) :
    Measure (Fin M.num_channels → Fin M.num_features → ℝ) :=
  (M.density none k X)⁻¹ • (Measure.pi fun c : Fin M.num_channels => Measure.pi fun f : Fin M.num_features =>
    if X c f = .nan then ref else Measure.dirac (X c f).val).withDensity fun ω => M.density none k (Pt.data ω)

/-- an entry to be filled in: a NaN entry, or with `marginalized_scopes` an entry of a listed feature. -/
def Hole (F : Nat) (ms : Option Scopes) (x : Tensor Fl) (n c f : Nat) : Prop :=
  match ms with
  | none => x.get [n, c, f] = .nan
  | some s => Listed F s f

/-- row `n` of the evidence, NaN in the entries to be filled in. -/
def known (F : Nat) (ms : Option Scopes) (x : Tensor Fl) (n : Nat) : Data :=
  fun c f => if Hole F ms x n c f then .nan else x.get [n, c, f]

/-- evidence as an argument of `sample`/`mpe`: data in the support, `marginalized_scopes` usable as an index, no NaN
outside of them. -/
structure Evidence (M : Model) (s : LeafSpec) (N : Nat) (ms : Option Scopes) (x : Tensor Fl) : Prop where
  batch : Batch s N M.num_channels M.num_features x
  usable : ∀ l, ms = some l → Usable M.num_features l
  nan : ∀ n, n < N → ∀ c, c < M.num_channels → ∀ f, f < M.num_features → x.get [n, c, f] = .nan →
    Hole M.num_features ms x n c f

/-- a `class_index` argument that makes sense for the number of rows `N` to be drawn. -/
def ClassArg (M : Model) (N : Nat) : Option ClassIndex → Prop
  | none => True
  | some (.int k) => 1 < M.num_classes ∧ k < M.num_classes
  | some (.list l) => 1 < M.num_classes ∧ l.length = N ∧ ∀ k ∈ l, k < M.num_classes

/-- softmax of the logits of the class sampling root. -/
def classWeight (P : Params) (K k : Nat) : ℝ :=
  Real.exp (P.classLogits [0, k, 0, 0]) / ∑ j ∈ Finset.range K, Real.exp (P.classLogits [0, j, 0, 0])

/-! ### From the specification to the lemmas -/

theorem ClassArg.ok {M : Model} {N : Nat} {ci : Option ClassIndex} (h : ClassArg M N ci) : M.ClassOK N ci := by
  cases ci with
  | none => trivial
  | some ci =>
    cases ci with
    | int k => exact h
    | list l =>
      refine ⟨h.1, h.2.1, fun n hn => h.2.2 _ ?_⟩
      rw [getD_of_lt (by have := h.2.1; omega)]
      exact List.getElem_mem _

theorem rowLaw_eq {c : Config} {P : Params} (hP : P.Random) (hg : P.leaf.Good) {M : Model} (h : build c P = .ok M)
    {k : Nat} (hk : k < M.num_classes) : M.condLaw k (fun _ _ => .nan) = rowLaw M P.leaf.ref k := by
  obtain ⟨-, hw, hp, _⟩ := build_WF hP h
  have hmeas : (missing M.num_channels M.num_features M.leaf.base.ref fun _ _ => .nan) =
      Measure.pi fun _ : Fin M.num_channels => Measure.pi fun _ : Fin M.num_features => P.leaf.ref := by
    unfold missing; simp [LeafSpec.ref_eq (build_leaf hP h)]
  have h1 : M.density none k (fun _ _ => .nan) = 1 := by
    rw [Model.density_missing hw (hp hg) (Model.observed_nan _) hk, hmeas]
    exact C01_density_integral c P hP hg M h k hk
  unfold Model.condLaw rowLaw
  rw [h1, hmeas, inv_one, one_smul]

theorem rowLawGiven_eq {c : Config} {P : Params} (hP : P.Random) {M : Model} (h : build c P = .ok M)
    (k : Nat) (X : Data) : M.condLaw k X = rowLawGiven M P.leaf.ref k X := by
  unfold Model.condLaw rowLawGiven missing
  rw [LeafSpec.ref_eq (build_leaf hP h)]

theorem Evidence.scopes {M : Model} {s : LeafSpec} {N : Nat} {ms : Option Scopes} {x : Tensor Fl}
    (h : Evidence M s N ms x) : ∃ sc, Scopes.resolveOpt M.num_features ms = .ok sc ∧
      ∀ n c f, f < M.num_features → (holeAt sc (fun c f => x.get [n, c, f]) c f ↔ Hole M.num_features ms x n c f) := by
  cases ms with
  | none => exact ⟨none, rfl, fun n c f _ => Iff.rfl⟩
  | some s =>
    obtain ⟨l, hl, hm⟩ := usable_resolve (h.usable s rfl)
    exact ⟨some l, hl, fun n c f hf => hm f hf⟩

theorem Evidence.ok {c : Config} {P : Params} (hP : P.Random) {M : Model} (h : build c P = .ok M) {N : Nat}
    {ms : Option Scopes} {x : Tensor Fl} (hx : Evidence M P.leaf N ms x) {sc : Option (List Nat)}
    (hsc : ∀ n c f, f < M.num_features →
      (holeAt sc (fun c f => x.get [n, c, f]) c f ↔ Hole M.num_features ms x n c f)) :
    ∀ n, n < N → EvidenceOK M.leaf.base sc fun c f => x.get [n, c, f] := by
  intro n hn
  have hf := (build_WF hP h).2.1.front
  refine ⟨(build_observed hP h).2 (hx.batch.2 n hn), fun c hc f hf' e => ?_⟩
  rw [hf.channels] at hc
  rw [hf.features] at hf'
  exact (hsc n c f hf').2 (hx.nan n hn c hc f hf' e)

theorem condLaw_congr {M : Model} {g : Nat → Nat → Nat} (h : M.WF g) (hp : M.leaf.base.Proper) {X Y : Data}
    (hX : M.leaf.base.Observed X) (hY : M.leaf.base.Observed Y)
    (e : ∀ c, c < M.num_channels → ∀ f, f < M.num_features → X c f = Y c f) {k : Nat} (hk : k < M.num_classes) :
    M.condLaw k X = M.condLaw k Y := by
  have h1 : M.density none k X = M.density none k Y := by
    rw [Model.density_eq h hp hX (ms := none) rfl hk, Model.density_eq h hp hY (ms := none) rfl hk]
    rw [Model.outRow_congr h (fun c hc f hf i hi r hr => by rw [e c hc f hf]) hk]
  have h2 : missing M.num_channels M.num_features M.leaf.base.ref X =
      missing M.num_channels M.num_features M.leaf.base.ref Y := by
    unfold missing
    congr 1
    funext c
    congr 1
    funext f
    rw [e c c.2 f f.2]
  unfold Model.condLaw
  rw [h1, h2]

theorem known_observed {c : Config} {P : Params} (hP : P.Random) {M : Model} (h : build c P = .ok M) {N : Nat}
    {ms : Option Scopes} {x : Tensor Fl} (hx : Evidence M P.leaf N ms x) {n : Nat} (hn : n < N) :
    M.leaf.base.Observed (known M.num_features ms x n) := by
  rw [build_observed hP h]
  intro c hc f hf
  unfold known
  split_ifs with hh
  · exact Or.inl rfl
  · exact hx.batch.2 n hn c hc f hf

/-! ### Concrete models meeting the hypotheses -/

theorem exLeaf_good (P : Params) (h : P.leaf = exLeaf) : P.leaf.Good ∧ P.leaf.CanSample := by
  rw [h]; simp [exLeaf, LeafSpec.Good, LeafSpec.CanSample]

/-- `exConfig` with one class. -/
def exOne (l s : String) : Config := { exConfig l s with num_classes := 1 }

theorem exOne_builds {l s : String} (h : (l = "linsum" ∨ l = "linsum2" ∨ l = "einsum") ∧ s = "top-down" ∨
    l = "linsum" ∧ s = "bottom-up") : ∃ M, build (exOne l s) (exParams exLeaf) = .ok M ∧
      M.num_channels = 2 ∧ M.num_features = 5 ∧ M.num_classes = 1 := by
  obtain ⟨h1, h2, h3, h4, h5, h6, h7, h8, h9, h10, h11, h12, h13⟩ := (assertValid_iff _).1 (exConfig_valid h)
  have hv : (exOne l s).assertValid = .ok () :=
    (assertValid_iff _).2 ⟨h1, h2, by norm_num [exOne], h4, h5, h6, h7, h8, h9, h10, h11, h12, h13⟩
  obtain ⟨M, hM⟩ := (build_iff (c := exOne l s) (P := exParams exLeaf)).2
    ⟨hv, ⟨normalLeaf _ _ _, by simp [exParams, exLeaf, exOne, exConfig, LeafSpec.build]; rfl⟩, by norm_num [exOne, exConfig],
      fun _ => by norm_num [exOne, exConfig], fun _ => ⟨1 / 4, rfl, by norm_num, by norm_num⟩⟩
  have hz := (build_WF (exParams_random _) hM).1
  exact ⟨M, hM, by rw [hz.channels]; rfl, by rw [hz.features]; rfl, by rw [hz.classes]; rfl⟩

/-- all configurations of the examples are covered by the laws below. -/
theorem exMirror (l s : String) : MirrorCfg (exConfig l s) ∧ MirrorCfg (exOne l s) :=
  ⟨Or.inr (Or.inl ⟨by norm_num [exConfig], by show (2 : ℤ) ^ 2 < 5; norm_num⟩),
    Or.inr (Or.inl ⟨by norm_num [exOne, exConfig], by show (2 : ℤ) ^ 2 < 5; norm_num⟩)⟩

theorem exEvidence {M : Model} (h1 : M.num_channels = 2) (h2 : M.num_features = 5) :
    Evidence M (exParams exLeaf).leaf 3 none exBatch :=
  ⟨by rw [h1, h2]; exact exBatch_batch, by simp, fun n _ c _ f _ e => e⟩

/-- evidence without NaN, features 1 and 4 to be replaced. -/
theorem exEvidenceScopes {M : Model} (h1 : M.num_channels = 2) (h2 : M.num_features = 5) :
    Evidence M (exParams exLeaf).leaf 7 (some ⟨true, [1, -1]⟩) ⟨[7, 2, 5], fun i => .fin i.sum⟩ := by
  refine ⟨?_, ?_, fun n _ c _ f _ e => by cases e⟩
  · rw [h1, h2]; exact ⟨rfl, fun n _ c _ f _ => Or.inr ⟨_, rfl, trivial⟩⟩
  · rintro l ⟨⟩
    rw [h2]
    exact ⟨by simp, by simp⟩

/-! ### C24 -/

/-- **C24** (part), without evidence: every random outcome returns a tensor of shape `[N, num_channels, num_features]` with
finite entries; no outcome raises.  Valid for every valid `class_index`, for sampling and MPE.  Missing: `Bernoulli` leaves
and `N = 0` (both raise, `C24_refuted_bernoulli`). -/
theorem C24_sample_total_partial (c : Config) (P : Params) (hP : P.Random) (hg : P.leaf.Good) (hs : P.leaf.CanSample)
    (M : Model) (h : build c P = .ok M) (a : SampleArgs) (hev : a.evidence = none) (hN : 0 < a.count)
    (hT : a.temperature_sums ≠ 0) (hc : ClassArg M a.count a.class_index) :
    (M.sample a).All fun s => s.shape = [a.count, c.num_channels.toNat, c.num_features.toNat] ∧
      ∀ n, n < a.count → ∀ ch, ch < c.num_channels.toNat → ∀ f, f < c.num_features.toNat →
        ∃ v : ℝ, s.get [n, ch, f] = .fin v := by
  have hz := (build_WF hP h).1
  have := Model.sample_All (build_samplable hP hg hs h) hev hN hT hc.ok
  rwa [hz.channels, hz.features] at this

/-- a model with three classes, four rows of the classes 2, 0, 0, 1, by sampling or MPE. -/
example (b : Bool) : ∃ M, build (exConfig "einsum" "top-down") (exParams exLeaf) = .ok M ∧
    ClassArg M 4 (some (.list [2, 0, 0, 1])) ∧
    (⟨some 4, some (.list [2, 0, 0, 1]), none, b, false, 1, 1 / 2, none⟩ : SampleArgs).count = 4 := by
  obtain ⟨M, h⟩ := exConfig_normal (l := "einsum") (s := "top-down") (Or.inl ⟨Or.inr (Or.inr rfl), rfl⟩)
  obtain ⟨e1, e2, e3⟩ := exSizes h
  exact ⟨M, h, ⟨by omega, rfl, by rw [e3]; simp⟩, rfl⟩

/-- **C15** and **C24** (part), with evidence: every random outcome returns a tensor of the shape of the evidence in which
every hole contains a number and every other entry is the one of the evidence.  Valid for sampling and MPE, for all
temperatures. -/
theorem C15_evidence_kept (c : Config) (P : Params) (hP : P.Random) (hg : P.leaf.Good) (hs : P.leaf.CanSample)
    (M : Model) (h : build c P = .ok M) (N : Nat) (hN : 0 < N) (x : Tensor Fl) (a : SampleArgs)
    (hx : Evidence M P.leaf N a.marginalized_scopes x) (hev : a.evidence = some x) (hns : a.num_samples = none)
    (hci : a.class_index = none) (hT : a.temperature_sums ≠ 0) :
    (M.sample a).All fun s => s.shape = x.shape ∧
      ∀ n, n < N → ∀ c, c < M.num_channels → ∀ f, f < M.num_features →
        if Hole M.num_features a.marginalized_scopes x n c f then ∃ v : ℝ, s.get [n, c, f] = .fin v
        else s.get [n, c, f] = x.get [n, c, f] := by
  obtain ⟨sc, hsc, hh⟩ := hx.scopes
  have hcount : a.count = N := by unfold SampleArgs.count; rw [hev]; simp [Tensor.size, hx.batch.1, at']
  have hp := (build_WF hP h).2.2.1 hg
  have := Model.sample_evidence_All (build_samplable hP hg hs h) hp (a := a) hev (by omega)
    (by rw [hcount]; exact hx.batch.is3) hns hci hT hsc (by rw [hcount]; exact hx.ok hP h hh)
  refine this.mono fun s ⟨v, hv⟩ => ⟨?_, fun n hn c hc f hf => ?_⟩
  · rw [hv.1, hx.batch.1, hcount]
  · rw [hv.get (by omega) hc hf]
    simp only [hh n c f hf]
    split_ifs
    · exact ⟨_, rfl⟩
    · rfl

/-- NaN holes (one row complete, one partly observed, one empty), or features 1 and 4 of complete rows. -/
example : ∃ M, build (exConfig "linsum" "bottom-up") (exParams exLeaf) = .ok M ∧
    Evidence M (exParams exLeaf).leaf 3 none exBatch ∧ Hole 5 none exBatch 1 0 3 ∧ ¬ Hole 5 none exBatch 1 0 2 ∧
    Evidence M (exParams exLeaf).leaf 7 (some ⟨true, [1, -1]⟩) ⟨[7, 2, 5], fun i => .fin i.sum⟩ ∧
    Hole 5 (some ⟨true, [1, -1]⟩) ⟨[7, 2, 5], fun i => .fin i.sum⟩ 0 0 4 := by
  obtain ⟨M, h⟩ := exConfig_normal (l := "linsum") (s := "bottom-up") (Or.inr ⟨rfl, rfl⟩)
  obtain ⟨e1, e2, e3⟩ := exSizes h
  exact ⟨M, h, exEvidence e1 e2, by simp [Hole, exBatch, at'], by simp [Hole, exBatch, at'], exEvidenceScopes e1 e2,
    ⟨-1, by simp, by simp⟩⟩

/-! ### C13, C14 -/

/-- **C13** (part): the rows returned by `sample(num_samples=N)` are independent draws from the density `exp(model(x))`: the
expectation of every measurable function of the result is the integral against the `N`-fold product of this law.
Missing: configurations outside `MirrorCfg`, for which the claim is false (`C13_refuted`). -/
theorem C13_sample_law_partial (c : Config) (P : Params) (hP : P.Random) (hg : P.leaf.Good) (hs : P.leaf.CanSample)
    (M : Model) (h : build c P = .ok M) (hmir : MirrorCfg c) (hK : M.num_classes = 1) (N : Nat) (hN : 0 < N)
    (φ : (Fin N → Fin M.num_channels → Fin M.num_features → ℝ) → ℝ≥0∞) (hφ : Measurable φ) :
    (M.sample { num_samples := some N }).E (fun s => φ fun n c f => (s.get [n, c, f]).val) =
      ∫⁻ ω, φ ω ∂Measure.pi fun _ : Fin N => rowLaw M P.leaf.ref 0 := by
  have := Model.sample_measure (build_samplable hP hg hs h) ((build_WF hP h).2.2.1 hg) (build_mirrored hP h hmir)
    (a := { num_samples := some N }) rfl hN rfl rfl rfl rfl (by trivial) hφ
  refine this.trans ?_
  congr 2
  funext n
  unfold Model.mixLaw Model.classW
  rw [hK]
  simp only [lt_irrefl, if_false, Finset.range_one, Finset.sum_singleton, if_true, one_smul]
  exact rowLaw_eq hP hg h (by omega)

/-- a model with one class meeting the hypotheses. -/
example : ∃ M, build (exOne "einsum" "top-down") (exParams exLeaf) = .ok M ∧ MirrorCfg (exOne "einsum" "top-down") ∧
    M.num_classes = 1 ∧ (exParams exLeaf).leaf.Good ∧ (exParams exLeaf).leaf.CanSample := by
  obtain ⟨M, h, _, _, e⟩ := exOne_builds (l := "einsum") (s := "top-down") (Or.inl ⟨Or.inr (Or.inr rfl), rfl⟩)
  exact ⟨M, h, (exMirror _ _).2, e, exLeaf_good _ rfl⟩

/-- **C14** (part): given evidence, the rows are independent, row `n` following the conditional law of the missing entries
given the observed entries of row `n`.  Missing: configurations outside `MirrorCfg` (see `C13_refuted`). -/
theorem C14_conditional_law_partial (c : Config) (P : Params) (hP : P.Random) (hg : P.leaf.Good) (hs : P.leaf.CanSample)
    (M : Model) (h : build c P = .ok M) (hmir : MirrorCfg c) (hK : M.num_classes = 1) (N : Nat) (hN : 0 < N)
    (ms : Option Scopes) (x : Tensor Fl) (hx : Evidence M P.leaf N ms x)
    (φ : (Fin N → Fin M.num_channels → Fin M.num_features → ℝ) → ℝ≥0∞) (hφ : Measurable φ) :
    (M.sample { evidence := some x, marginalized_scopes := ms }).E (fun s => φ fun n c f => (s.get [n, c, f]).val) =
      ∫⁻ ω, φ ω ∂Measure.pi fun n : Fin N => rowLawGiven M P.leaf.ref 0 (known M.num_features ms x n) := by
  obtain ⟨sc, hsc, hh⟩ := hx.scopes
  obtain rfl : (⟨none, none, some x, false, false, 1, 1, ms⟩ : SampleArgs).count = N := by
    simp [SampleArgs.count, Tensor.size, hx.batch.1, at']
  obtain ⟨-, hw, hp, _⟩ := build_WF hP h
  have := Model.sample_evidence_measure (build_samplable hP hg hs h) (hp hg) (build_mirrored hP h hmir)
    (a := ⟨none, none, some x, false, false, 1, 1, ms⟩) rfl hN hx.batch.is3 rfl rfl rfl rfl rfl rfl hsc
    (hx.ok hP h hh) hφ
  refine this.trans ?_
  congr 2
  funext n
  unfold Model.mixLaw Model.classW
  rw [hK]
  simp only [lt_irrefl, if_false, Finset.range_one, Finset.sum_singleton, if_true, one_smul]
  rw [← rowLawGiven_eq hP h]
  refine condLaw_congr hw (hp hg) (hx.ok hP h hh n n.2).masked (known_observed hP h hx n.2) (fun c hc f hf => ?_) (by omega)
  unfold masked known
  simp only [hh n c f hf]

/-- evidence with one complete, one partly observed and one empty row. -/
example : ∃ M, build (exOne "linsum2" "top-down") (exParams exLeaf) = .ok M ∧ M.num_classes = 1 ∧
    Evidence M (exParams exLeaf).leaf 3 none exBatch ∧
    Evidence M (exParams exLeaf).leaf 7 (some ⟨true, [1, -1]⟩) ⟨[7, 2, 5], fun i => .fin i.sum⟩ := by
  obtain ⟨M, h, e1, e2, e⟩ := exOne_builds (l := "linsum2") (s := "top-down") (Or.inl ⟨Or.inr (Or.inl rfl), rfl⟩)
  exact ⟨M, h, e, exEvidence e1 e2, exEvidenceScopes e1 e2⟩

/-- the two laws are probability laws, and the second one is the first one when nothing is observed. -/
theorem C13_rowLaw_prob (c : Config) (P : Params) (hP : P.Random) (hg : P.leaf.Good) (M : Model) (h : build c P = .ok M)
    (k : Nat) (hk : k < M.num_classes) :
    IsProbabilityMeasure (rowLaw M P.leaf.ref k) ∧ rowLawGiven M P.leaf.ref k (fun _ _ => .nan) = rowLaw M P.leaf.ref k ∧
    ∀ X, P.leaf.Data M.num_channels M.num_features X → IsProbabilityMeasure (rowLawGiven M P.leaf.ref k X) := by
  obtain ⟨-, hw, hp, _⟩ := build_WF hP h
  refine ⟨?_, ?_, fun X hX => ?_⟩
  · rw [← rowLaw_eq hP hg h hk]; exact Model.condLaw_prob hw (hp hg) (Model.observed_nan _) hk
  · rw [← rowLaw_eq hP hg h hk, rowLawGiven_eq hP h]
  · rw [← rowLawGiven_eq hP h]; exact Model.condLaw_prob hw (hp hg) ((build_observed hP h).2 hX) hk

/-! ### C16, C17 -/

/-- **C16** (part), integer: `sample(num_samples=N, class_index=k)` returns `N` independent rows from `p(x | y = k)`. -/
theorem C16_class_int_partial (c : Config) (P : Params) (hP : P.Random) (hg : P.leaf.Good) (hs : P.leaf.CanSample)
    (M : Model) (h : build c P = .ok M) (hmir : MirrorCfg c) (k : Nat) (hK : 1 < M.num_classes) (hk : k < M.num_classes)
    (N : Nat) (hN : 0 < N) (φ : (Fin N → Fin M.num_channels → Fin M.num_features → ℝ) → ℝ≥0∞) (hφ : Measurable φ) :
    (M.sample { num_samples := some N, class_index := some (.int k) }).E
        (fun s => φ fun n c f => (s.get [n, c, f]).val) =
      ∫⁻ ω, φ ω ∂Measure.pi fun _ : Fin N => rowLaw M P.leaf.ref k := by
  have := Model.sample_measure (build_samplable hP hg hs h) ((build_WF hP h).2.2.1 hg) (build_mirrored hP h hmir)
    (a := { num_samples := some N, class_index := some (.int k) }) rfl hN rfl rfl rfl rfl ⟨hK, hk⟩ hφ
  refine this.trans ?_
  congr 2
  funext n
  unfold Model.mixLaw Model.classW
  simp only [hK, if_true, ite_smul, one_smul, zero_smul]
  rw [Finset.sum_ite_eq' (Finset.range M.num_classes) k, if_pos (Finset.mem_range.2 hk)]
  exact rowLaw_eq hP hg h hk

/-- **C16** (part), list: `sample(num_samples=k, class_index=[c_1..c_k])` returns `k` independent rows, the `i`-th from
`p(x | y = c_i)`.  Missing: the call without `num_samples`, which raises (`C16_list_refuted`). -/
theorem C16_class_list_partial (c : Config) (P : Params) (hP : P.Random) (hg : P.leaf.Good) (hs : P.leaf.CanSample)
    (M : Model) (h : build c P = .ok M) (hmir : MirrorCfg c) (hK : 1 < M.num_classes) (l : List Nat) (hl : l ≠ [])
    (hlt : ∀ k ∈ l, k < M.num_classes)
    (φ : (Fin l.length → Fin M.num_channels → Fin M.num_features → ℝ) → ℝ≥0∞) (hφ : Measurable φ) :
    (M.sample { num_samples := some l.length, class_index := some (.list l) }).E
        (fun s => φ fun n c f => (s.get [n, c, f]).val) =
      ∫⁻ ω, φ ω ∂Measure.pi fun n : Fin l.length => rowLaw M P.leaf.ref l[n] := by
  have hca : ClassArg M l.length (some (.list l)) := ⟨hK, rfl, hlt⟩
  have := Model.sample_measure (build_samplable hP hg hs h) ((build_WF hP h).2.2.1 hg) (build_mirrored hP h hmir)
    (a := { num_samples := some l.length, class_index := some (.list l) }) rfl (List.length_pos_of_ne_nil hl)
    rfl rfl rfl rfl hca.ok hφ
  refine this.trans ?_
  congr 2
  funext n
  have hk : l.getD n 0 < M.num_classes := hca.ok.2.2 n n.2
  unfold Model.mixLaw Model.classW
  simp only [hK, if_true, ite_smul, one_smul, zero_smul]
  rw [Finset.sum_ite_eq' (Finset.range M.num_classes) (l.getD n 0), if_pos (Finset.mem_range.2 hk),
    rowLaw_eq hP hg h hk, getD_of_lt (show n < l.length from n.2)]
  rfl

/-- three classes; class 2, or the list 2, 0, 0, 1. -/
example : ∃ M, build (exConfig "linsum" "bottom-up") (exParams exLeaf) = .ok M ∧ MirrorCfg (exConfig "linsum" "bottom-up") ∧
    1 < M.num_classes ∧ 2 < M.num_classes ∧ ∀ k ∈ [2, 0, 0, 1], k < M.num_classes := by
  obtain ⟨M, h⟩ := exConfig_normal (l := "linsum") (s := "bottom-up") (Or.inr ⟨rfl, rfl⟩)
  obtain ⟨e1, e2, e3⟩ := exSizes h
  exact ⟨M, h, (exMirror _ _).1, by omega, by omega, by rw [e3]; simp⟩

theorem classW_eq {c : Config} {P : Params} (hP : P.Random) {M : Model} (h : build c P = .ok M) (hK : 1 < M.num_classes)
    (n : Nat) {k : Nat} (hk : k < M.num_classes) :
    M.classW 1 none n k = ENNReal.ofReal (classWeight P M.num_classes k) := by
  have hz := (build_WF hP h).1.classes
  unfold Model.classW
  rw [if_pos hK]
  dsimp only
  rw [build_classRoot h, ← hz]
  have e : (mkSumL 1 M.num_classes 1 1 SumLayer.weightShape P.classLogits).lw 1 0 k 0 0 =
      .fin (Real.log (sw M.num_classes (fun k => P.classLogits [0, k, 0, 0]) 1 k)) :=
    logSoftmax_sw (f := fun k => .fin (P.classLogits [0, k, 0, 0])) one_ne_zero (fun k _ => Fl.isFin_fin _) hk
  rw [e, toP_fin, Real.exp_log (sw_pos _ _ _ _)]
  unfold sw classWeight Fl.rlsm
  simp only [div_one]
  rw [Real.exp_sub, Real.exp_log (Finset.sum_pos (fun _ _ => Real.exp_pos _) ⟨0, by simp; omega⟩)]

/-- **C17** (part): without `class_index` the rows are independent draws from the mixture of the class laws; the weights are
the softmax of the logits of the class sampling root.  Missing: the weights are uniform only if these logits are all equal
(`C17_refuted_uniform`). -/
theorem C17_class_mixture_partial (c : Config) (P : Params) (hP : P.Random) (hg : P.leaf.Good) (hs : P.leaf.CanSample)
    (M : Model) (h : build c P = .ok M) (hmir : MirrorCfg c) (hK : 1 < M.num_classes)
    (N : Nat) (hN : 0 < N) (φ : (Fin N → Fin M.num_channels → Fin M.num_features → ℝ) → ℝ≥0∞) (hφ : Measurable φ) :
    (M.sample { num_samples := some N }).E (fun s => φ fun n c f => (s.get [n, c, f]).val) =
      ∫⁻ ω, φ ω ∂Measure.pi fun _ : Fin N => ∑ k ∈ Finset.range M.num_classes,
        ENNReal.ofReal (classWeight P M.num_classes k) • rowLaw M P.leaf.ref k := by
  have := Model.sample_measure (build_samplable hP hg hs h) ((build_WF hP h).2.2.1 hg) (build_mirrored hP h hmir)
    (a := { num_samples := some N }) rfl hN rfl rfl rfl rfl trivial hφ
  refine this.trans ?_
  congr 2
  funext n
  unfold Model.mixLaw
  refine Finset.sum_congr rfl fun k hk => ?_
  rw [classW_eq hP h hK n (by simpa using hk), rowLaw_eq hP hg h (by simpa using hk)]

/-- **C17** (part): if all logits of the class sampling root are equal, the class is uniform. -/
theorem C17_uniform_partial (c : Config) (P : Params) (hP : P.Random) (hg : P.leaf.Good) (hs : P.leaf.CanSample)
    (M : Model) (h : build c P = .ok M) (hmir : MirrorCfg c) (hK : 1 < M.num_classes) (v : ℝ)
    (hcl : ∀ k, k < M.num_classes → P.classLogits [0, k, 0, 0] = v)
    (N : Nat) (hN : 0 < N) (φ : (Fin N → Fin M.num_channels → Fin M.num_features → ℝ) → ℝ≥0∞) (hφ : Measurable φ) :
    (M.sample { num_samples := some N }).E (fun s => φ fun n c f => (s.get [n, c, f]).val) =
      ∫⁻ ω, φ ω ∂Measure.pi fun _ : Fin N => (M.num_classes : ℝ≥0∞)⁻¹ • ∑ k ∈ Finset.range M.num_classes,
        rowLaw M P.leaf.ref k := by
  rw [C17_class_mixture_partial c P hP hg hs M h hmir hK N hN φ hφ]
  congr 2
  funext n
  rw [Finset.smul_sum]
  refine Finset.sum_congr rfl fun k hk => ?_
  congr 1
  unfold classWeight
  rw [hcl k (by simpa using hk), Finset.sum_congr rfl fun j hj => by rw [hcl j (by simpa using hj)]]
  rw [Finset.sum_const, Finset.card_range, nsmul_eq_mul]
  have h0 : (0 : ℝ) < M.num_classes := by exact_mod_cast (by omega : 0 < M.num_classes)
  have : Real.exp v / (M.num_classes * Real.exp v) = (M.num_classes : ℝ)⁻¹ := by
    have := (Real.exp_pos v).ne'
    field_simp
  rw [this, ENNReal.ofReal_inv_of_pos h0, ENNReal.ofReal_natCast]

/-- **C14**, **C17** (part) with evidence and several classes: independent rows; the class is drawn with the weights of the
class sampling root and the missing entries of row `n` from the conditional law of this class.  Missing: the class weights
do not depend on the evidence, so this is not the class posterior (`C17_refuted_posterior`). -/
theorem C17_class_evidence_partial (c : Config) (P : Params) (hP : P.Random) (hg : P.leaf.Good) (hs : P.leaf.CanSample)
    (M : Model) (h : build c P = .ok M) (hmir : MirrorCfg c) (hK : 1 < M.num_classes) (N : Nat) (hN : 0 < N)
    (ms : Option Scopes) (x : Tensor Fl) (hx : Evidence M P.leaf N ms x)
    (φ : (Fin N → Fin M.num_channels → Fin M.num_features → ℝ) → ℝ≥0∞) (hφ : Measurable φ) :
    (M.sample { evidence := some x, marginalized_scopes := ms }).E (fun s => φ fun n c f => (s.get [n, c, f]).val) =
      ∫⁻ ω, φ ω ∂Measure.pi fun n : Fin N => ∑ k ∈ Finset.range M.num_classes,
        ENNReal.ofReal (classWeight P M.num_classes k) •
          rowLawGiven M P.leaf.ref k (known M.num_features ms x n) := by
  obtain ⟨sc, hsc, hh⟩ := hx.scopes
  obtain rfl : (⟨none, none, some x, false, false, 1, 1, ms⟩ : SampleArgs).count = N := by
    simp [SampleArgs.count, Tensor.size, hx.batch.1, at']
  obtain ⟨-, hw, hp, _⟩ := build_WF hP h
  have := Model.sample_evidence_measure (build_samplable hP hg hs h) (hp hg) (build_mirrored hP h hmir)
    (a := ⟨none, none, some x, false, false, 1, 1, ms⟩) rfl hN hx.batch.is3 rfl rfl rfl rfl rfl rfl hsc
    (hx.ok hP h hh) hφ
  refine this.trans ?_
  congr 2
  funext n
  unfold Model.mixLaw
  refine Finset.sum_congr rfl fun k hk => ?_
  have hk' : k < M.num_classes := by simpa using hk
  rw [classW_eq hP h hK n hk', ← rowLawGiven_eq hP h]
  congr 1
  refine condLaw_congr hw (hp hg) (hx.ok hP h hh n n.2).masked (known_observed hP h hx n.2) (fun c hc f hf => ?_) hk'
  unfold masked known
  simp only [hh n c f hf]

/-- three classes with evidence; the parameters `exParams` with equal class logits meet the extra hypothesis of
`C17_uniform_partial`. -/
example : (∃ M, build (exConfig "einsum" "top-down") (exParams exLeaf) = .ok M ∧ 1 < M.num_classes ∧
      MirrorCfg (exConfig "einsum" "top-down") ∧ Evidence M (exParams exLeaf).leaf 3 none exBatch) ∧
    ∃ M, build (exConfig "einsum" "top-down") { exParams exLeaf with classLogits := fun _ => 4 } = .ok M := by
  have hl : (("einsum" = "linsum" ∨ "einsum" = "linsum2" ∨ "einsum" = "einsum") ∧ "top-down" = "top-down") ∨
    "einsum" = "linsum" ∧ "top-down" = "bottom-up" := Or.inl ⟨Or.inr (Or.inr rfl), rfl⟩
  refine ⟨?_, ?_⟩
  · obtain ⟨M, h⟩ := exConfig_normal hl
    obtain ⟨e1, e2, e3⟩ := exSizes h
    exact ⟨M, h, by omega, (exMirror _ _).1, exEvidence e1 e2⟩
  · obtain ⟨M, h⟩ := exConfig_normal hl
    exact build_iff.2 ((build_iff (P := exParams exLeaf)).1 ⟨M, h⟩)

end Props
end Einet
