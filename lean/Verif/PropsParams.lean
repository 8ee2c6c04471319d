import Verif.ParamsFacts
import Verif.PropsSample
import Verif.Modes
import Verif.PropsMulti
import Verif.PropsRegions

/-!
# C38: parameters returned by `sample(return_leaf_params=True)`
-/

open Classical
noncomputable section
namespace Einet
open Tensor MeasureTheory ProbabilityTheory
open scoped ENNReal

namespace Props

/-! ### Specification: the distribution described by a vector of parameters -/

/-- law of a leaf with the parameters `p` at temperature `T`: mean and log-variance (`Normal`), mean and standard deviation
(`RatNormal`), logit (`Binomial`), logits (`Categorical`). -/
def lawOf (s : LeafSpec) (T : ℝ) (p : Nat → ℝ) : Measure ℝ :=
  match s with
  | .normal _ _ => gaussianReal (p 0) (Real.exp (p 1) * T).toNNReal
  | .ratNormal _ _ _ _ _ _ => gaussianReal (p 0) (p 1 ^ 2 * T).toNNReal
  | .binomial n _ => ∑ k ∈ Finset.range (n.toNat + 1),
      ENNReal.ofReal ((n.toNat.choose k : ℝ) * (1 / (1 + Real.exp (-p 0))) ^ k * (1 - 1 / (1 + Real.exp (-p 0))) ^ (n.toNat - k)) •
        Measure.dirac (k : ℝ)
  | .bernoulli _ => 0
  | .categorical K _ => ∑ k ∈ Finset.range K.toNat,
      ENNReal.ofReal (Real.exp (p k / T) / ∑ j ∈ Finset.range K.toNat, Real.exp (p j / T)) • Measure.dirac (k : ℝ)

/-- most probable value of a leaf with the parameters `p`, as chosen by the library. -/
def modeOf (s : LeafSpec) (p : Nat → ℝ) : ℝ :=
  match s with
  | .normal _ _ => p 0
  | .ratNormal _ _ _ _ _ _ => p 0
  | .binomial n _ => (⌊(1 / (1 + Real.exp (-p 0))) * (n.toNat + 1)⌋₊ : ℕ)
  | .bernoulli _ => 0
  | .categorical K _ => (argmaxR p K.toNat : ℕ)

/-- leaves whose parameters can be asked for: not `Bernoulli`, and not `RatNormal` with a fixed standard deviation. -/
def ReportsParams : LeafSpec → Prop
  | .bernoulli _ => False
  | .ratNormal lo hi _ _ _ _ => lo < hi
  | _ => True

/-- number of parameters. -/
def numParams : LeafSpec → Nat
  | .normal _ _ => 2
  | .ratNormal _ _ _ _ _ _ => 2
  | .binomial _ _ => 1
  | .bernoulli _ => 0
  | .categorical K _ => K.toNat

/-- the parameters reported for an entry. -/
def reported (p : Tensor Fl) (n c f : Nat) : Nat → ℝ := fun q => (p.get [n, c, f, q]).val

/-- probability that a leaf with the parameters `p` gives a value in `A`. -/
def hits (s : LeafSpec) (mode : Bool) (T : ℝ) (p : Nat → ℝ) (A : Set ℝ) : ℝ≥0∞ :=
  if mode then if modeOf s p ∈ A then 1 else 0 else lawOf s T p A

/-- arguments with which `sample` can be called. -/
structure Request (M : Model) (s : LeafSpec) (a : SampleArgs) : Prop where
  count : 0 < a.count
  sums : a.temperature_sums ≠ 0
  leaves : 0 < a.temperature_leaves
  cls : ClassArg M a.count a.class_index
  evidence : ∀ x, a.evidence = some x → a.num_samples = none ∧ a.class_index = none ∧
    Evidence M s a.count a.marginalized_scopes x

/-- the entries that are drawn: all of them, or the holes of the evidence. -/
def Drawn (M : Model) (a : SampleArgs) (n c f : Nat) : Prop :=
  match a.evidence with
  | none => True
  | some x => Hole M.num_features a.marginalized_scopes x n c f

/-! ### Lemmas -/

theorem argmaxR_congr {f g : Nat → ℝ} {n : Nat} (h : ∀ i, i < n → ∀ j, j < n → (f i < f j ↔ g i < g j)) : argmaxR f n = argmaxR g n := by
  induction n with
  | zero => rfl
  | succ n ih =>
    unfold argmaxR
    rw [ih fun i hi j hj => h i (by omega) j (by omega)]
    by_cases h0 : n = 0
    · rw [if_pos h0, if_pos h0]
    · rw [if_neg h0, if_neg h0]
      have := h (argmaxR g n) (by have := (argmaxR_max g (n := n) (by omega)).1; omega) n (by omega)
      by_cases h1 : f (argmaxR g n) < f n
      · rw [if_pos h1, if_pos (this.1 h1)]
      · rw [if_neg h1, if_neg fun h2 => h1 (this.2 h2)]

theorem hits_congr {s : LeafSpec} {b : Bool} {T : ℝ} {p q : Nat → ℝ} {A : Set ℝ} (h : ∀ k, k < numParams s → p k = q k) :
    hits s b T p A = hits s b T q A := by
  have key : modeOf s p = modeOf s q ∧ lawOf s T p = lawOf s T q := by
    cases s with
    | normal _ _ => unfold modeOf lawOf; rw [h 0 (by simp [numParams]), h 1 (by simp [numParams])]; exact ⟨rfl, rfl⟩
    | ratNormal _ _ _ _ _ _ => unfold modeOf lawOf; rw [h 0 (by simp [numParams]), h 1 (by simp [numParams])]; exact ⟨rfl, rfl⟩
    | binomial _ _ => unfold modeOf lawOf; rw [h 0 (by simp [numParams])]; exact ⟨rfl, rfl⟩
    | bernoulli _ => exact ⟨rfl, rfl⟩
    | categorical K l =>
      have h' : ∀ k, k < K.toNat → p k = q k := h
      have e1 : argmaxR p K.toNat = argmaxR q K.toNat := argmaxR_congr fun i hi j hj => by rw [h' i hi, h' j hj]
      have e2 : ∑ j ∈ Finset.range K.toNat, Real.exp (p j / T) = ∑ j ∈ Finset.range K.toNat, Real.exp (q j / T) :=
        Finset.sum_congr rfl fun j hj => by rw [h' j (Finset.mem_range.1 hj)]
      unfold modeOf lawOf
      dsimp only
      rw [e1, e2]
      exact ⟨rfl, Finset.sum_congr rfl fun j hj => by rw [h' j (Finset.mem_range.1 hj)]⟩
  unfold hits
  rw [key.1, key.2]

theorem softmaxR_temper {K : Nat} {l : Nat → ℝ} {T : ℝ} {k : Nat} (hk : k < K) :
    softmaxR K (fun k => Real.log (softmaxR K l k) / T) k = softmaxR K (fun k => l k / T) k := by
  set S := ∑ j ∈ Finset.range K, Real.exp (l j) with hS
  have hpos : 0 < S := Finset.sum_pos (fun _ _ => Real.exp_pos _) ⟨k, Finset.mem_range.2 hk⟩
  have e : ∀ j, Real.exp (Real.log (softmaxR K l j) / T) = Real.exp (l j / T) * Real.exp (-(Real.log S / T)) := by
    intro j
    unfold softmaxR
    rw [← hS, Real.log_div (Real.exp_ne_zero _) hpos.ne', Real.log_exp, ← Real.exp_add]
    congr 1
    ring
  rw [softmaxR]
  simp only [e]
  rw [← Finset.sum_mul, mul_div_mul_right _ _ (Real.exp_ne_zero _)]
  rfl

theorem stackPar_zero (d : LeafDims) (a b : Par) (n c f i r : Nat) : (stackPar d a b).get [n, c, f, i, r, 0] = .fin (a c f i r) := by
  simp [stackPar, at']

theorem stackPar_one (d : LeafDims) (a b : Par) (n c f i r : Nat) : (stackPar d a b).get [n, c, f, i, r, 1] = .fin (b c f i r) := by
  simp [stackPar, at']

theorem getParams_spec {s : LeafSpec} {card : Option ℤ} {d : LeafDims} {B : BaseLeaf} (h : s.build card d = .ok B) (hp : ReportsParams s) :
    ∃ t : Tensor Fl, s.getParams d = .ok t ∧
      t.shape = [1, d.num_channels, d.num_features, d.num_leaves, d.num_repetitions, numParams s] ∧
      (∀ T, 0 < T → ∀ c f i r, B.law T c f i r = lawOf s T fun q => (t.get [0, c, f, i, r, q]).val) ∧
      ∀ c f i r, B.mode c f i r = modeOf s fun q => (t.get [0, c, f, i, r, q]).val := by
  unfold LeafSpec.build at h
  obtain ⟨_, hc, h⟩ := bind_ok h
  cases s with
  | normal means logvar =>
    simp only [Res.pure_eq, Except.ok.injEq] at h
    subst h
    refine ⟨_, rfl, rfl, fun T hT c f i r => ?_, fun c f i r => ?_⟩
    · unfold lawOf
      simp only [stackPar_zero, stackPar_one, Fl.val_fin]
      simp only [normalLeaf, gaussLeaf]
      congr 2
      rw [mul_pow, Real.sq_sqrt hT.le, ← Real.exp_nat_mul]
      congr 2
      push_cast
      ring
    · unfold modeOf
      simp only [stackPar_zero, Fl.val_fin]
      rfl
  | bernoulli probs => exact hp.elim
  | ratNormal lo hi mlo mhi means stds =>
    obtain ⟨_, h1, h⟩ := bind_ok h
    obtain ⟨_, h2, h⟩ := bind_ok h
    obtain ⟨_, h3, h⟩ := bind_ok h
    obtain ⟨_, h4, h⟩ := bind_ok h
    obtain ⟨_, h5, h⟩ := bind_ok h
    rw [require_ok_iff] at h5
    simp only [Res.pure_eq, Except.ok.injEq] at h
    subst h
    unfold LeafSpec.getParams
    dsimp only
    rw [require_true _ h5, Res.ok_bind, require_true _ (show lo < hi from hp), Res.ok_bind]
    refine ⟨_, rfl, rfl, fun T hT c f i r => ?_, fun c f i r => ?_⟩
    · unfold lawOf
      simp only [stackPar_zero, stackPar_one, Fl.val_fin]
      rw [show ∀ x : ℝ, x ^ 2 * T = (x * √T) ^ 2 from fun x => by rw [mul_pow, Real.sq_sqrt hT.le]]
      rfl
    · unfold modeOf
      simp only [stackPar_zero, Fl.val_fin]
      rfl
  | binomial n logits =>
    obtain ⟨_, h1, h⟩ := bind_ok h
    simp only [Res.pure_eq, Except.ok.injEq] at h
    subst h
    refine ⟨_, rfl, rfl, fun T hT c f i r => ?_, fun c f i r => ?_⟩
    · simp only [binomialLeaf, binomialMass, massLeaf, lawOf, at', Fl.val]
      refine Finset.sum_congr rfl fun k _ => ?_
      simp only [binomialPmf, Real.sigmoid, one_div]
    · simp only [binomialLeaf, binomialMass, massLeaf, modeOf, at', Fl.val, Real.sigmoid, one_div]
  | categorical K logits =>
    obtain ⟨_, h1, h⟩ := bind_ok h
    simp only [Res.pure_eq, Except.ok.injEq] at h
    subst h
    refine ⟨_, rfl, rfl, fun T hT c f i r => ?_, fun c f i r => ?_⟩
    · simp only [categoricalLeaf, massLeaf, lawOf, at', Fl.val]
      refine Finset.sum_congr rfl fun k hk => ?_
      rw [softmaxR_temper (by simpa using hk)]
      rfl
    · simp only [categoricalLeaf, massLeaf, modeOf, at', Fl.val]
      rw [argmaxR_congr fun k hk j hj => ?_]
      unfold softmaxR
      have hpos : 0 < ∑ j ∈ Finset.range K.toNat, Real.exp (logits c f i r j) :=
        Finset.sum_pos (fun _ _ => Real.exp_pos _) ⟨k, Finset.mem_range.2 hk⟩
      rw [div_lt_div_iff_of_pos_right hpos, Real.exp_lt_exp]

/-- a factorized leaf reports the parameters of the selected components. -/
theorem leaf_params_is {M : Model} {g : Nat → Nat → Nat} (h : M.FrontWF g) (hnd : ∀ B, M.leaf ≠ .direct B) {s : LeafSpec}
    {t : Tensor Fl} {P : Nat} (ht : s.getParams M.leaf.base.dims = .ok t)
    (hsh : t.shape = [1, M.num_channels, M.num_features, M.num_leaves, M.num_repetitions, P])
    {ctx : Ctx} {N : Nat} (hN : 0 < N) {idx : Nat → Nat → Nat} {rr : Nat → Nat}
    (hc : CtxOK ctx N M.numOut M.num_leaves M.num_repetitions idx rr) :
    ∃ c u, M.unpermute ctx = .ok c ∧ M.leaf.sampleParams s c = .ok u ∧ u.Is4 N M.num_channels M.num_features P
      fun n c f p => t.get [0, c, f, idx n (M.grpS g (rr n) f), rr n, p] := by
  have hF := h.features; have hC := h.channels; have hI := h.leaves; have hR := h.reps
  have hnp : M.permutation = none := h.noperm hnd
  have hun : M.unpermute ctx = .ok ctx := by unfold Model.unpermute; rw [hnp]
  have hlt : ∀ n, n < N → ∀ f, f < M.num_features → idx n (M.grpS g (rr n) f) < M.num_leaves := fun n hn f hf =>
    hc.io_lt n hn _ (h.grpS_lt (hc.ir_lt n hn) hf)
  cases hL : M.leaf with
  | direct B => exact absurd hL (hnd B)
  | factorized L =>
    simp only [hL, Leaf.base] at hF hC hI hR ht
    have hO : M.numOut = L.num_features_out := by unfold Model.numOut; rw [hL]
    have hgs : ∀ r f, M.grpS g r f = g r f := by intro r f; unfold Model.grpS; rw [hL]
    rw [hO, ← hI, ← hR] at hc
    rw [← hF, ← hC, ← hI, ← hR] at hsh
    obtain ⟨u, hu, hu'⟩ := FactLeaf.indexParams_is (h.fact L hL) hN hc (Is.refl t hsh)
    refine ⟨ctx, u, hun, ?_, ?_⟩
    · unfold Leaf.sampleParams
      dsimp only
      rw [ht, Res.ok_bind, hu]
    · rw [← hF, ← hC]
      simp only [hgs]
      exact hu'
  | simple L =>
    simp only [hL, Leaf.base] at hF hC hI hR ht
    have hO : M.numOut = L.num_features_out := by unfold Model.numOut; rw [hL]
    have hgs : ∀ r f, M.grpS g r f = L.inverse_permutation.getD f 0 % L.num_features_out := by
      intro r f; unfold Model.grpS; rw [hL]
    simp only [hgs] at hlt ⊢
    rw [hO, ← hI, ← hR] at hc
    rw [← hF, ← hC, ← hI, ← hR] at hsh
    rw [← hF, ← hI] at hlt
    obtain ⟨u, hu, hu'⟩ := FactSimple.indexParams_is (h.simple L hL) hc (Is.refl t hsh) hlt
    refine ⟨ctx, u, hun, ?_, ?_⟩
    · unfold Leaf.sampleParams
      dsimp only
      rw [ht, Res.ok_bind, hu]
    · rw [← hF, ← hC]
      exact hu'

theorem build_topDown_leaf {c : Config} {P : Params} {M : Model} (h : build c P = .ok M) (ht : c.structure' = "top-down") :
    (∀ B, M.leaf ≠ .direct B) := by
  have hv := build_valid h
  unfold build at h
  rw [hv] at h
  simp only [Res.ok_bind] at h
  rw [if_pos ht] at h
  unfold buildTopDown at h
  obtain ⟨lo, _, h⟩ := bind_ok h
  obtain ⟨B, _, h⟩ := bind_ok h
  obtain ⟨mr, _, h⟩ := bind_ok h
  simp only [Res.pure_eq, Except.ok.injEq] at h
  subst h
  intro B'
  show buildInput P B _ ≠ _
  unfold buildInput
  split_ifs <;> simp

theorem sampleParams_eq (M : Model) (s : LeafSpec) (a : SampleArgs) {cs : Caches} (h1 : a.check M = .ok ())
    (h2 : M.evidenceCaches a = .ok cs) :
    M.sampleParams s a = (M.corePath a cs).bind fun ctx => (Rand.lift (M.unpermute ctx)).bind fun ctx =>
      Rand.lift (M.leaf.sampleParams s ctx) := by
  unfold Model.sampleParams
  rw [h1, h2]
  simp only [Rand.lift_ok, Rand.pure_bind, Model.samplePath_eq, Rand.bind_assoc]

/-- what a request leaves in the caches. -/
theorem Request.caches {c : Config} {P : Params} (hP : P.Random) (hg : P.leaf.Good) {M : Model} (h : build c P = .ok M) {a : SampleArgs}
    (ha : Request M P.leaf a) : a.check M = .ok () ∧ ∃ cond cs e, M.evidenceCaches a = .ok cs ∧ M.EvM cond a.count cs e ∧
      M.FinRows a.count e := by
  obtain ⟨-, hw, hp, -⟩ := build_WF hP h
  refine ⟨Model.check_ok ha.cls.ok fun he => ?_, ?_⟩
  · obtain ⟨x, hx⟩ := Option.isSome_iff_exists.1 he
    exact ⟨(ha.evidence x hx).2.1, (ha.evidence x hx).1⟩
  · cases hev : a.evidence with
    | none => exact ⟨false, _, _, by unfold Model.evidenceCaches; rw [hev], Model.evM_none M a.count, Model.finZero M _⟩
    | some x =>
      obtain ⟨_, _, hx⟩ := ha.evidence x hev
      obtain ⟨sc, hsc, hh⟩ := hx.scopes
      obtain ⟨cs, hcs, hevm, hfin⟩ := Model.evidence_caches hw (hp hg) hev hx.batch.is3 hsc (hx.ok hP h hh)
      exact ⟨true, cs, _, hcs, hevm, hfin⟩

theorem finish_drawn {M : Model} {s : LeafSpec} {a : SampleArgs} (ha : Request M s a) {t : Tensor ℝ} {S : Nat → Nat → Nat → ℝ}
    (ht : t.Is3 a.count M.num_channels M.num_features S) :
    Res.Sat (Model.finish a t) fun u => ∀ n, n < a.count → ∀ c, c < M.num_channels → ∀ f, f < M.num_features → Drawn M a n c f →
      u.get [n, c, f] = .fin (S n c f) := by
  unfold Model.finish Drawn
  cases hev : a.evidence with
  | none =>
    refine Res.Sat.ok fun n hn c hc f hf _ => ?_
    show Fl.fin (t.get [n, c, f]) = _
    rw [ht.get hn hc hf]
  | some x =>
    obtain ⟨_, _, hx⟩ := ha.evidence x hev
    obtain ⟨sc, hsc, hh⟩ := hx.scopes
    refine (Model.fill_is hx.batch.is3 ht hsc).mono fun u hu n hn c hc f hf hd => ?_
    rw [hu.get hn hc hf, if_pos ((hh n c f hf).2 hd)]

/-- **C38** (part): parameters returned for the top-down structure.  The parameters have the shape
`[rows, channels, features, parameters]`, and drawing every entry from the leaf distribution with the reported parameters (or
taking its mode) gives the entries that `sample` draws: for all sets of values, the probabilities are the same.  Missing: the
bottom-up structure, see `C38_refuted`; differentiable mode. -/
theorem C38_params_partial (c : Config) (P : Params) (hP : P.Random) (hg : P.leaf.Good) (hs : P.leaf.CanSample)
    (hpar : ReportsParams P.leaf) (M : Model) (h : build c P = .ok M) (ht : c.structure' = "top-down") (a : SampleArgs)
    (ha : Request M P.leaf a) (A : Nat → Nat → Nat → Set ℝ) (hA : ∀ n c f, MeasurableSet (A n c f)) :
    ((M.sampleParams P.leaf a).All fun p => p.shape = [a.count, M.num_channels, M.num_features, numParams P.leaf]) ∧
    (M.sampleParams P.leaf a).E (fun p => ∏ n ∈ Finset.range a.count, ∏ f ∈ Finset.range M.num_features,
        ∏ ch ∈ Finset.range M.num_channels, if Drawn M a n ch f then
          hits P.leaf (a.is_mpe || a.mpe_at_leaves) a.temperature_leaves (reported p n ch f) (A n ch f) else 1) =
      (M.sample a).E fun x => if ∀ n, n < a.count → ∀ ch, ch < M.num_channels → ∀ f, f < M.num_features → Drawn M a n ch f →
        ∃ v ∈ A n ch f, x.get [n, ch, f] = .fin v then 1 else 0 := by
  obtain ⟨hck, cond, cs, e, hcs, hev, hfin⟩ := ha.caches hP hg h
  have hS := build_samplable hP hg hs h
  have hw := hS.wf
  have hfr := hw.front
  have hnd := build_topDown_leaf h ht
  have hB := build_leaf hP h
  obtain ⟨t, ht1, ht2, hlaw, hmode⟩ := getParams_spec hB hpar
  obtain ⟨-, ⟨d1, d2, d3, d4⟩, -, -⟩ := LeafSpec.build_spec hB
  have hdims : M.leaf.base.dims = c.leafDims := by
    unfold BaseLeaf.dims
    rw [d1, d2, d3, d4]
  rw [← d1, ← d2, ← d3, ← d4, hfr.features, hfr.channels, hfr.leaves, hfr.reps] at ht2
  rw [← hdims] at ht1
  have hall := Model.corePath_All hw ha.count ha.sums ha.cls.ok hev hfin
  rw [sampleParams_eq M P.leaf a hck hcs, Model.sample_eq M a hck hcs, Model.sampleValues_eq]
  refine ⟨hall.bind fun ctx ⟨idx, rr, hctx, _⟩ => ?_, ?_⟩
  · obtain ⟨c', u, h1, h2, h3⟩ := leaf_params_is hfr hnd ht1 ht2 ha.count hctx
    rw [h1, Rand.lift_ok, Rand.pure_bind, h2, Rand.lift_ok]
    exact h3.1
  · rw [Rand.bind_assoc, Rand.E_bind, Rand.E_bind]
    refine Rand.E_congr hall fun ctx ⟨idx, rr, hctx, hce⟩ => ?_
    obtain ⟨c', u, h1, h2, h3⟩ := leaf_params_is hfr hnd ht1 ht2 ha.count hctx
    obtain ⟨res, h4, h5⟩ := Model.leaf_sample_eq hfr hS.features_pos hS.samp.samplable ha.count hctx
    rw [h4, h1, Rand.lift_ok, Rand.pure_bind, h2, Rand.lift_ok, Rand.E_pure, Rand.bind_assoc, Rand.E_bind]
    set K : Nat → Nat → Nat := fun n f => idx n (M.grpS (buildGroups c P) (rr n) f) with hK
    have hKlt : ∀ n, n < a.count → ∀ f, f < M.num_features → K n f < M.num_leaves := fun n hn f hf =>
      hctx.io_lt n hn _ (hfr.grpS_lt (hctx.ir_lt n hn) hf)
    have hTl : ctx.temperature_leaves = a.temperature_leaves := by rw [hce]; rfl
    have hmd : (ctx.is_mpe || ctx.mpe_at_leaves) = (a.is_mpe || a.mpe_at_leaves) := by rw [hce]; rfl
    set φ : Nat → Nat → Nat → ℝ → ℝ≥0∞ := fun n ch f v => if Drawn M a n ch f then if v ∈ A n ch f then 1 else 0 else 1 with hφ
    have hφm : ∀ n ch f, Measurable (φ n ch f) := by
      intro n ch f
      rw [hφ]
      dsimp only
      split_ifs
      · exact Measurable.ite (hA n ch f) measurable_const measurable_const
      · exact measurable_const
    have e1 : ∀ v, ((Rand.lift (res v)).bind fun s => Rand.lift (Model.finish a s)).E (fun x =>
        if ∀ n, n < a.count → ∀ ch, ch < M.num_channels → ∀ f, f < M.num_features → Drawn M a n ch f →
          ∃ v ∈ A n ch f, x.get [n, ch, f] = .fin v then (1 : ℝ≥0∞) else 0) =
        prod3 a.count M.leaf.base.num_channels M.leaf.base.num_features fun n ch f => φ n ch f (v [n, ch, f, K n f, rr n]) := by
      intro v
      obtain ⟨y, hy, hy'⟩ := h5 v
      obtain ⟨z, hz, hz'⟩ := finish_drawn ha hy'
      rw [hy, Rand.lift_ok, Rand.pure_bind, hz, Rand.lift_ok, Rand.E_pure, hfr.channels, hfr.features]
      have hpi := prod3_ind (N := a.count) (C := M.num_channels) (F := M.num_features) (fun n ch f => Drawn M a n ch f →
          ∃ v ∈ A n ch f, z.get [n, ch, f] = .fin v)
      refine Eq.trans (by split_ifs <;> rfl) (hpi.trans ?_)
      refine prod3_congr fun n hn ch hch f hf => ?_
      rw [hφ]
      dsimp only
      by_cases hd : Drawn M a n ch f
      · rw [if_pos hd, hz' n hn ch hch f hf hd]
        have : (Drawn M a n ch f → ∃ w ∈ A n ch f, Fl.fin (v [n, ch, f, idx n (M.grpS (buildGroups c P) (rr n) f), rr n]) = .fin w) ↔
            v [n, ch, f, K n f, rr n] ∈ A n ch f := by
          constructor
          · intro hh
            obtain ⟨w, hw, e⟩ := hh hd
            rw [Fl.fin_injective e]; exact hw
          · intro hh _
            exact ⟨_, hh, rfl⟩
        simp only [this]
      · rw [if_neg hd, if_pos fun hh => absurd hh hd]
    simp only [e1]
    rw [M.leaf.base.draws_E hctx.ns (by rw [hTl]; exact hS.samp.prob _ ha.leaves) (K := K) (rr := rr)
      (fun n hn f hf => by rw [hfr.leaves]; exact hKlt n hn f (by rw [← hfr.features]; exact hf))
      (fun n hn => by rw [hfr.reps]; exact hctx.ir_lt n hn) hφm, hmd, hTl, hfr.channels, hfr.features]
    refine prod3_congr (h := fun n ch f => if Drawn M a n ch f then
          hits P.leaf (a.is_mpe || a.mpe_at_leaves) a.temperature_leaves (reported u n ch f) (A n ch f) else 1) fun n hn ch hch f hf => ?_
    have hrep : ∀ q, q < numParams P.leaf → reported u n ch f q = (t.get [0, ch, f, K n f, rr n, q]).val := by
      intro q hq
      unfold reported
      rw [h3.get hn hch hf hq]
    rw [hits_congr hrep, hφ]
    unfold BaseLeaf.compE hits
    by_cases hd : Drawn M a n ch f
    · simp only [if_pos hd]
      split_ifs with hb hb2 hb3 hb3
      · rfl
      · exact absurd (by rw [hmode]; exact hb2) hb3
      · exact absurd (by rw [← hmode]; exact hb3) hb2
      · rfl
      · rw [← hlaw _ ha.leaves]
        exact (lintegral_indicator_one (hA n ch f)).symm
    · simp only [if_neg hd]
      split_ifs
      · rfl
      · have := hS.samp.prob _ ha.leaves ch f (K n f) (rr n)
        rw [lintegral_one]
        exact this.measure_univ.symm

/-- a top-down model with three classes: three rows without evidence, and three rows of evidence with holes. -/
example : ∃ M, build (exConfig "einsum" "top-down") (exParams exLeaf) = .ok M ∧ (exParams exLeaf).leaf.CanSample ∧
    ReportsParams (exParams exLeaf).leaf ∧ Request M (exParams exLeaf).leaf { num_samples := some 3 } ∧
    Request M (exParams exLeaf).leaf { evidence := some exBatch } ∧ Drawn M { evidence := some exBatch } 1 0 3 ∧
    ¬ Drawn M { evidence := some exBatch } 0 0 3 := by
  obtain ⟨M, h⟩ := exConfig_normal (l := "einsum") (s := "top-down") (Or.inl ⟨Or.inr (Or.inr rfl), rfl⟩)
  obtain ⟨e1, e2, e3⟩ := exSizes h
  refine ⟨M, h, trivial, trivial, ⟨by simp [SampleArgs.count], by simp, by simp, trivial, nofun⟩,
    ⟨by simp [SampleArgs.count, exBatch, Tensor.size, at'], by simp, by simp, trivial, fun x hx => ?_⟩, ?_, ?_⟩
  · obtain rfl : exBatch = x := by simpa using hx
    exact ⟨rfl, rfl, exEvidence e1 e2⟩
  · simp [Drawn, Hole, exBatch, at']
  · simp [Drawn, Hole, exBatch, at']

theorem All.raises_bind {α β : Type} {x : Rand α} {P : α → Prop} (h : x.All P) {g : α → Rand β} (hg : ∀ a, P a → (g a).Raises) :
    (x.bind g).Raises := by
  induction x with
  | pure a => exact hg a h
  | fail e => exact h.elim
  | draw K w k ih => exact fun j hj hw => ih j (h.2 j hj hw)
  | leaf μ k ih => exact fun v => ih v (h v)

/-- **C38** is false for the bottom-up structure: asking for the parameters of two or more rows always raises. -/
theorem C38_refuted (c : Config) (P : Params) (hP : P.Random) (hg : P.leaf.Good) (M : Model) (h : build c P = .ok M)
    (hb : c.structure' = "bottom-up") (a : SampleArgs) (ha : Request M P.leaf a) (h2 : 2 ≤ a.count) :
    (M.sampleParams P.leaf a).Raises := by
  obtain ⟨hck, cond, cs, e, hcs, hev, hfin⟩ := ha.caches hP hg h
  obtain ⟨-, hw, -, -⟩ := build_WF hP h
  obtain ⟨⟨B, hL⟩, -⟩ := build_bottomUp hP h hb
  rw [sampleParams_eq M P.leaf a hck hcs]
  refine All.raises_bind (Model.corePath_All hw ha.count ha.sums ha.cls.ok hev hfin) fun ctx ⟨idx, rr, hctx, _⟩ => ?_
  obtain ⟨c', h1, h2'⟩ := Model.unpermute_is hw.front hL hctx
  rw [h1, Rand.lift_ok, Rand.pure_bind]
  refine Rand.Raises.lift fun u hu => ?_
  rw [hL] at hu
  unfold Leaf.sampleParams at hu
  obtain ⟨t, ht, hu⟩ := bind_ok hu
  have hsh : ∃ P', t.shape = [1, B.num_channels, B.num_features, B.num_leaves, B.num_repetitions, P'] := by
    cases hs : P.leaf with
    | normal m l =>
      rw [hs] at ht
      simp only [LeafSpec.distParams, Except.ok.injEq] at ht
      exact ⟨2, by rw [← ht]; rfl⟩
    | ratNormal lo hi mlo mhi m l =>
      rw [hs] at ht
      unfold LeafSpec.distParams at ht
      obtain ⟨_, _, ht⟩ := bind_ok ht
      obtain ⟨_, _, ht⟩ := bind_ok ht
      simp only [Res.pure_eq, Except.ok.injEq] at ht
      exact ⟨2, by rw [← ht]; rfl⟩
    | binomial n l => rw [hs] at ht; cases ht
    | bernoulli n => rw [hs] at ht; cases ht
    | categorical n l => rw [hs] at ht; cases ht
  obtain ⟨P', hsh⟩ := hsh
  rw [BaseLeaf.indexParams_raise (by omega) h2' hsh] at hu
  cases hu

/-- **C38** is false for the bottom-up structure: for one row of a `Normal` leaf a single number per entry is returned, the
mean, and no log-variance. -/
theorem C38_refuted_one (c : Config) (P : Params) (hP : P.Random) (M : Model) (h : build c P = .ok M)
    (hb : c.structure' = "bottom-up") (means logvar : Par) (hn : P.leaf = .normal means logvar) (a : SampleArgs)
    (ha : Request M P.leaf a) (h1 : a.count = 1) :
    (M.sampleParams P.leaf a).All fun p => p.shape = [1, M.num_channels, M.num_features, 1] ∧
      ∀ ch, ch < M.num_channels → ∀ f, f < M.num_features → ∃ i r, i < M.num_leaves ∧ r < M.num_repetitions ∧
        p.get [0, ch, f, 0] = .fin (means ch f i r) := by
  have hg : P.leaf.Good := by rw [hn]; trivial
  obtain ⟨hck, cond, cs, e, hcs, hev, hfin⟩ := ha.caches hP hg h
  obtain ⟨hz, hw, -, -⟩ := build_WF hP h
  have hfr := hw.front
  obtain ⟨⟨B, hL⟩, -⟩ := build_bottomUp hP h hb
  have hF := hfr.features; have hC := hfr.channels; have hI := hfr.leaves; have hR := hfr.reps
  simp only [hL, Leaf.base] at hF hC hI hR
  have hF0 : 0 < B.num_features := by
    have := (build_samplable hP hg (by rw [hn]; trivial) h).features_pos
    omega
  rw [sampleParams_eq M P.leaf a hck hcs]
  refine (Model.corePath_All hw ha.count ha.sums ha.cls.ok hev hfin).bind fun ctx ⟨idx, rr, hctx, _⟩ => ?_
  obtain ⟨c', h1', h2'⟩ := Model.unpermute_is hfr hL hctx
  rw [h1', Rand.lift_ok, Rand.pure_bind]
  rw [h1] at h2'
  refine Rand.All.lift ?_
  rw [hL, hn]
  unfold Leaf.sampleParams
  dsimp only
  unfold LeafSpec.distParams
  dsimp only
  rw [Res.ok_bind]
  refine (BaseLeaf.indexParams_one hF0 h2' (t := ⟨[1, B.num_channels, B.num_features, B.num_leaves, B.num_repetitions, 2], _⟩)
    (by norm_num) (Is.refl _ rfl)).mono fun u hu => ?_
  refine ⟨by rw [hu.1, hC, hF], fun ch hch f hf => ⟨idx 0 (M.permInvAt (rr 0) f), rr 0, ?_, ?_, ?_⟩⟩
  · rw [← hI]; exact h2'.io_lt 0 (by omega) f (by omega)
  · rw [← hR]; exact h2'.ir_lt 0 (by omega)
  · rw [hu.get (by omega) (by omega) (by omega) (by omega)]
    simp only [at']
    exact if_pos trivial

/-- bottom-up models meeting the hypotheses of the last two theorems. -/
example : ∃ M, build (exConfig "linsum" "bottom-up") (exParams exLeaf) = .ok M ∧
    (∃ m l, (exParams exLeaf).leaf = .normal m l) ∧
    Request M (exParams exLeaf).leaf { num_samples := some 3 } ∧ Request M (exParams exLeaf).leaf { num_samples := some 1 } := by
  obtain ⟨M, h⟩ := exConfig_normal (l := "linsum") (s := "bottom-up") (Or.inr ⟨rfl, rfl⟩)
  exact ⟨M, h, ⟨_, _, rfl⟩, ⟨by simp [SampleArgs.count], by simp, by simp, trivial, nofun⟩,
    ⟨by simp [SampleArgs.count], by simp, by simp, trivial, nofun⟩⟩

end Props
end Einet
