import Verif.PropsTrainLoop
import Verif.PropsSample
import Verif.CondBuild

/-!
# C90: the class frequencies of samples are not learned

The statements use the training run of C89 and the law of `sample` without `class_index` of C17.
-/

open Classical MeasureTheory
open scoped ENNReal
noncomputable section
namespace Einet
open Tensor

namespace Props

/-! ### Specification -/

/-- the loss of a batch as function of the parameters. -/
def lossAt (a : MainArgs) (d : Draws) (v : Values) (data : Tensor Fl) (target : Tensor ℤ) : Res Fl := do
  let (M, _) ← mainModel a d v
  trainLoss M a.classification data target

/-- the raw weights of the class sampling root are left alone by steps whose loss does not depend on them, as by all optimisers that
use gradients only (without weight decay). -/
def UsesGradients {σ : Type} (a : MainArgs) (d : Draws) (O : Optim σ) : Prop :=
  ∀ s l data target, (∀ w, lossAt a d { O.values s with classLogits := w } data target = lossAt a d (O.values s) data target) →
    (O.values (O.step s l data target)).classLogits = (O.values s).classLogits

/-- probability of class `k` for raw weights `w` of `K` classes. -/
def classFreq (w : List Nat → ℝ) (K k : Nat) : ℝ := Real.exp (w [0, k, 0, 0]) / ∑ j ∈ Finset.range K, Real.exp (w [0, j, 0, 0])

/-! ### Lemmas -/

theorem topDownLayers_class (c : Config) (P : Params) (w : List Nat → ℝ) (n : Nat) :
    topDownLayers c { P with classLogits := w } n = topDownLayers c P n := by
  induction n with
  | zero => rfl
  | succ n ih => unfold topDownLayers; rw [ih]

theorem bottomUpLayers_class (c : Config) (P : Params) (w : List Nat → ℝ) (n : Nat) :
    bottomUpLayers c { P with classLogits := w } n = bottomUpLayers c P n := by
  induction n with
  | zero => rfl
  | succ n ih => unfold bottomUpLayers; rw [ih]

theorem buildRoots_class {c : Config} {P : Params} {m k : SumL} (h : buildRoots c P = .ok (m, k)) (w : List Nat → ℝ) :
    ∃ k', buildRoots c { P with classLogits := w } = .ok (m, k') := by
  unfold buildRoots at h ⊢
  dsimp only at h ⊢
  split_ifs at h ⊢ <;>
  · obtain ⟨_, h1, h⟩ := bind_ok h
    obtain ⟨_, h2, h⟩ := bind_ok h
    rw [h1, Res.ok_bind, h2, Res.ok_bind]
    simp only [Res.pure_eq, Except.ok.injEq, Prod.mk.injEq] at h ⊢
    exact ⟨_, h.1, rfl⟩

theorem build_class {c : Config} {P : Params} {M : Model} (h : build c P = .ok M) (w : List Nat → ℝ) :
    ∃ k, build c { P with classLogits := w } = .ok { M with classRoot := k } := by
  unfold build at h ⊢
  obtain ⟨_, h0, h⟩ := bind_ok h
  rw [h0, Res.ok_bind]
  split_ifs at h ⊢ with h1 h2
  · unfold buildTopDown at h ⊢
    obtain ⟨⟨ls, O⟩, h3, h⟩ := bind_ok h
    obtain ⟨B, h4, h⟩ := bind_ok h
    obtain ⟨⟨m, k⟩, h5, h⟩ := bind_ok h
    obtain ⟨k', h6⟩ := buildRoots_class h5 w
    rw [show topDownStructure c { P with classLogits := w } = topDownStructure c P by unfold topDownStructure; rw [topDownLayers_class],
      h3, Res.ok_bind]
    dsimp only at h ⊢
    rw [h4, Res.ok_bind, h6, Res.ok_bind]
    simp only [Res.pure_eq, Except.ok.injEq] at h ⊢
    exact ⟨k', by rw [← h]; rfl⟩
  · unfold buildBottomUp at h ⊢
    obtain ⟨ls, h3, h⟩ := bind_ok h
    obtain ⟨B, h4, h⟩ := bind_ok h
    dsimp only at h
    obtain ⟨⟨m, k⟩, h5, h⟩ := bind_ok h
    obtain ⟨k', h6⟩ := buildRoots_class h5 w
    rw [show bottomUpStructure c { P with classLogits := w } = bottomUpStructure c P by unfold bottomUpStructure; rw [bottomUpLayers_class],
      h3, Res.ok_bind]
    dsimp only at h ⊢
    rw [h4, Res.ok_bind, h6, Res.ok_bind]
    simp only [Res.pure_eq, Except.ok.injEq] at h ⊢
    exact ⟨k', by rw [← h]⟩

theorem mainModel_class {a : MainArgs} {d : Draws} {v : Values} {M : Model} {gauss : Bool} (h : mainModel a d v = .ok (M, gauss))
    (w : List Nat → ℝ) : ∃ k, mainModel a d { v with classLogits := w } = .ok ({ M with classRoot := k }, gauss) := by
  obtain ⟨leaf, s, h1, h2, h3, h4, h5⟩ := mainModel_parts h
  obtain ⟨k, hk⟩ := build_class h3 w
  exact ⟨k, by rw [h5]; exact mainModel_of (M := { M with classRoot := k }) h1 h2 hk h4⟩

theorem lossAt_class (a : MainArgs) (d : Draws) {v : Values} {M : Model} {gauss : Bool} (h : mainModel a d v = .ok (M, gauss))
    (w : List Nat → ℝ) (data : Tensor Fl) (target : Tensor ℤ) :
    lossAt a d { v with classLogits := w } data target = lossAt a d v data target := by
  obtain ⟨k, hk⟩ := mainModel_class h w
  unfold lossAt
  rw [hk, h]
  rfl

/-! ### The theorems -/

/-- **C90**: neither log-likelihoods nor posteriors nor any of the losses depend on the raw weights of the class sampling root, so
their gradients are zero. -/
theorem C90_outputs (c : Config) (P : Params) (M : Model) (h : build c P = .ok M) (w : List Nat → ℝ) :
    ∃ M', build c { P with classLogits := w } = .ok M' ∧ (∀ x ms, M'.forward x ms = M.forward x ms) ∧
      (∀ x, M'.posterior x = M.posterior x) ∧ (∀ cls x t, trainLoss M' cls x t = trainLoss M cls x t) ∧
      (∀ x r, negativeLogLikelihood M' x r = negativeLogLikelihood M x r) ∧
      ∀ x t, crossEntropyAndAccuracy M' x t = crossEntropyAndAccuracy M x t := by
  obtain ⟨k, hk⟩ := build_class h w
  exact ⟨_, hk, fun _ _ => rfl, fun _ => rfl, fun _ _ _ => rfl, fun _ _ => rfl, fun _ _ => rfl⟩

/-- **C90**: training keeps them, whatever the data. -/
theorem C90_steps {σ : Type} (a : MainArgs) (d : Draws) (O : Optim σ) (hO : UsesGradients a d O) (s s' : σ) (bs : List LoaderBatch)
    (ls : List (ℝ × Option ℝ)) (h : Steps a d O s bs s' ls) : (O.values s').classLogits = (O.values s).classLogits := by
  induction h with
  | nil => rfl
  | @cons s s' b bs ls M gauss r h1 h2 _ ih => rw [ih]; exact hO _ _ _ _ fun w => lossAt_class a d h1 w _ _

/-- **C90**, false of the code: after a training run of main.py for classification, on any data, samples without a class follow the
mixture of the trained classes with the weights that the initialisation has given them. -/
theorem C90_refuted_law (a : MainArgs) (hg : GoodArgs a) (d : Draws) (hd : Draws.Ok d) {σ : Type} (O : Optim σ)
    (hO : UsesGradients a d O) (s : σ) (M : Model) (gauss : Bool) (h : mainModel a d (O.values s) = .ok (M, gauss))
    (hcls : a.classification = true) (hk : a.log_interval ≠ 0) (batches : Nat → List LoaderBatch)
    (hb : ∀ e, ∀ b ∈ batches e, GoodBatch a M.num_channels M.num_features b) (sh : ImgShape) (hsh : getDataShape a.dataset = .ok sh)
    (hmir : MirrorCfg (mainConfig a sh)) :
    ∃ s' out M' leaf, mainTrain a d O batches s = .ok (s', out) ∧ mainModel a d (O.values s') = .ok (M', gauss) ∧
      mainLeaf a (O.values s').arrays = .ok leaf ∧
      ∀ N, 0 < N → ∀ φ : (Fin N → Fin M'.num_channels → Fin M'.num_features → ℝ) → ℝ≥0∞, Measurable φ →
        (M'.sample { num_samples := some N }).E (fun t => φ fun n c f => (t.get [n, c, f]).val) =
          ∫⁻ ω, φ ω ∂Measure.pi fun _ : Fin N => ∑ k ∈ Finset.range 10,
            ENNReal.ofReal (classFreq (O.values s).classLogits 10 k) • rowLaw M' leaf.ref k := by
  obtain ⟨s', ls, lines, e, S⟩ := C89_run_partial a hg d hd _ M gauss h hk O batches hb s
  obtain ⟨M', h', hC, hF⟩ := mainModel_values hd h (O.values s')
  obtain ⟨leaf, s2, h1, h2, h3, h4, h5⟩ := mainModel_parts h'
  obtain rfl : s2 = sh := by rw [hsh] at h2; exact (Except.ok.inj h2).symm
  refine ⟨s', _, M', leaf, e, h', h1, fun N hN φ hφ => ?_⟩
  have hP := params_random hd (O.values s') leaf
  have hz := (build_WF hP h3).1
  have hK : M'.num_classes = 10 := by rw [hz.classes]; simp [mainConfig, hcls]
  have hs : leaf.CanSample := by
    unfold mainLeaf at h1
    split_ifs at h1 <;> cases h1 <;> trivial
  have := C17_class_mixture_partial _ _ hP (mainLeaf_good hg h1) hs M' h3 hmir (by omega) N hN φ hφ
  rw [this, hK]
  have hw := C90_steps a d O hO s s' _ ls S
  congr 2
  funext _
  refine Finset.sum_congr rfl fun k _ => ?_
  rw [show classWeight ((O.values s').params d leaf) 10 k = classFreq (O.values s).classLogits 10 k by
    rw [← hw]; rfl]
  rfl

/-- an optimiser that counts its steps and moves the mixing weights of the repetitions. -/
def mixOptim (v : Values) : Optim ℕ := ⟨fun s => { v with mixLogits := fun i => v.mixLogits i + s * at' 1 i }, fun s _ _ _ => s + 1⟩

/-- **C90**, false of the code, a concrete run: all images of all epochs belong to class 3, but a tenth of the samples of the trained
model comes from each of the ten classes. -/
theorem C90_refuted : ∃ (a : MainArgs) (d : Draws) (O : Optim ℕ) (batches : Nat → List LoaderBatch),
    UsesGradients a d O ∧ a.classification = true ∧ 0 < a.epochs ∧
    (∀ e, batches e ≠ [] ∧ ∀ b ∈ batches e, ∀ n, b.target.get [n] = 3) ∧
    ∃ s' out M' gauss leaf, mainTrain a d O batches 0 = .ok (s', out) ∧ mainModel a d (O.values s') = .ok (M', gauss) ∧
      mainLeaf a (O.values s').arrays = .ok leaf ∧
      ∀ N, 0 < N → ∀ φ : (Fin N → Fin M'.num_channels → Fin M'.num_features → ℝ) → ℝ≥0∞, Measurable φ →
        (M'.sample { num_samples := some N }).E (fun t => φ fun n c f => (t.get [n, c, f]).val) =
          ∫⁻ ω, φ ω ∂Measure.pi fun _ : Fin N => ∑ k ∈ Finset.range 10, ENNReal.ofReal (1 / 10) • rowLaw M' leaf.ref k := by
  let v : Values := ⟨⟨fun _ _ _ _ => 0, fun _ _ _ _ => 0, fun _ _ _ _ _ => 0⟩, fun _ _ => 0, fun _ => 0, fun _ => 0, fun _ => 0⟩
  obtain ⟨M, g, h⟩ := loopArgs_model ((mixOptim v).values 0) true 100
  have hO : UsesGradients (loopArgs "binomial" "top-down" true 100) loopDraws (mixOptim v) := fun _ _ _ _ _ => rfl
  refine ⟨loopArgs "binomial" "top-down" true 100, loopDraws, mixOptim v, fun _ => [loopBatch, loopBatch], hO, rfl, by simp [loopArgs],
    fun e => ⟨by simp, fun b hb n => ?_⟩, ?_⟩
  · obtain rfl : b = loopBatch := by simpa using hb
    rfl
  obtain ⟨s', out, M', leaf, h1, h2, h3, h4⟩ := C90_refuted_law _ (loopArgs_good true 100) loopDraws loopDraws_ok (mixOptim v) hO 0 M g h rfl
    (by simp [loopArgs]) (fun _ => [loopBatch, loopBatch])
    (fun _ b hb => by obtain rfl : b = loopBatch := by simpa using hb
                      exact loopBatch_good h) ⟨1, 8, 8⟩ loopArgs_shape
    (Or.inr (Or.inl ⟨by simp [mainConfig, loopArgs], by simp [mainConfig, loopArgs, ImgShape.num_pixels]⟩))
  refine ⟨s', out, M', g, leaf, h1, h2, h3, fun N hN φ hφ => ?_⟩
  rw [h4 N hN φ hφ]
  have e : ∀ k, classFreq ((mixOptim v).values 0).classLogits 10 k = 1 / 10 := fun k => by
    simp [classFreq, mixOptim, v]
  simp only [e]

end Props
end Einet
