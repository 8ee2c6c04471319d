import Verif.TrainLoop
import Verif.PropsQuantise
import Verif.PropsProper
import Verif.PropsEvaluate

/-!
# C89: a training run of main.py makes one step per batch, with finite losses
-/

open Classical MeasureTheory
open scoped ENNReal
noncomputable section
namespace Einet.Props
open Tensor Einet

/-! ### Specification -/

/-- arguments for which the leaves are probability distributions: up to 8 bits, a range of positive standard deviations. -/
structure GoodArgs (a : MainArgs) : Prop where
  bits : 1 ≤ a.n_bits ∧ a.n_bits ≤ 8
  sigma : a.dist = "normal_rat" → 0 ≤ a.min_sigma ∧ 0 < a.max_sigma

/-- a nonempty batch of images with pixels in `[0, 1]` and, for classification, labels of the ten classes. -/
structure GoodBatch (a : MainArgs) (C F : Nat) (b : LoaderBatch) : Prop where
  shape : ∃ N, 0 < N ∧ b.image.shape = [N, C, F] ∧
    (a.classification = true → b.target.shape = [N] ∧ ∀ n, n < N → 0 ≤ b.target.get [n] ∧ b.target.get [n] < 10)
  unit : UnitImage b.image
  noise : ∀ i, 0 ≤ b.noise i ∧ b.noise i < 1

/-- mean negative log-likelihood of the rows, of their class in a classification run. -/
def meanNll (M : Model) (cls : Bool) (x : Tensor Fl) (t : Tensor ℤ) : ℝ :=
  -(∑ n ∈ Finset.range (x.size 0), Real.log (if cls then classProb M (t.get [n]).toNat (rowAt x n) else rowProb M (rowAt x n))) / x.size 0

/-- percentage of rows whose label is the most likely class. -/
def hitRate (M : Model) (cls : Bool) (x : Tensor Fl) (t : Tensor ℤ) : Option ℝ :=
  if cls then some (100 * ((List.range (x.size 0)).countP fun n => decide (Hit M (rowAt x n, t.get [n])) : ℕ) / x.size 0) else none

/-- one step of the optimiser per batch, in the given order: each with the loss of the model whose parameters are those before
the step, on the preprocessed batch.  The last argument lists losses and percentages of hits. -/
inductive Steps {σ : Type} (a : MainArgs) (d : Draws) (O : Optim σ) : σ → List LoaderBatch → σ → List (ℝ × Option ℝ) → Prop
  | nil (s : σ) : Steps a d O s [] s []
  | cons {s s' : σ} {b : LoaderBatch} {bs : List LoaderBatch} {ls : List (ℝ × Option ℝ)} {M : Model} {gauss : Bool}
      {r : Tensor Fl ⊕ Tensor ℤ} :
      mainModel a d (O.values s) = .ok (M, gauss) → preprocess b.noise b.image a.n_bits (2 ^ a.n_bits) true gauss = .ok r →
      Steps a d O (O.step s (.fin (meanNll M a.classification (asFloats r) b.target)) (asFloats r) b.target) bs s' ls →
      Steps a d O s (b :: bs) s'
        ((meanNll M a.classification (asFloats r) b.target, hitRate M a.classification (asFloats r) b.target) :: ls)

/-- the percentages of the batches with numbers divisible by the interval, the numbers beginning with `i`. -/
def logLines (k : ℤ) (i : Nat) (ls : List (ℝ × Option ℝ)) : List (Option Fl) :=
  ((ls.zipIdx i).filter fun p => decide ((p.2 : ℤ) % k = 0)).map fun p => p.1.2.map Fl.fin

/-- the batches of an epoch used for training: the first one in a dry run, the first three in debug mode, all otherwise. -/
def usedBatches (a : MainArgs) (bs : List LoaderBatch) : List LoaderBatch :=
  if a.dry_run then bs.take 1 else if a.debug then bs.take 3 else bs

/-- the random choices are rearrangements. -/
def Draws.Ok (d : Draws) : Prop := (∀ l, (d.shuffle l).Perm l) ∧ ∀ r n, (d.randperm r n).Perm (List.range n)

/-! ### Lemmas -/

section
variable {a : MainArgs} {d : Draws} {σ : Type} {O : Optim σ} {v : Values} {M : Model} {gauss : Bool}

theorem params_random (hd : Draws.Ok d) (v : Values) (l : LeafSpec) : (v.params d l).Random := ⟨hd.1, hd.2⟩

/-- the parts of a constructed model. -/
theorem mainModel_parts (h : mainModel a d v = .ok (M, gauss)) : ∃ leaf s, mainLeaf a v.arrays = .ok leaf ∧
    getDataShape a.dataset = .ok s ∧ build (mainConfig a s) (v.params d leaf) = .ok M ∧ (∀ B, M.leaf ≠ .direct B) ∧
    gauss = decide (a.dist = "normal" ∨ a.dist = "normal_rat") := by
  unfold mainModel at h
  obtain ⟨s, h2, h⟩ := bind_ok h
  obtain ⟨leaf, h1, h⟩ := bind_ok h
  obtain ⟨M', h3, h⟩ := bind_ok h
  refine ⟨leaf, s, h1, h2, ?_⟩
  cases hl : M'.leaf with
  | direct B => rw [hl] at h; exact absurd h (by simp)
  | factorized L =>
    rw [hl] at h
    obtain ⟨e1, e2⟩ := Prod.mk.inj (Except.ok.inj h)
    subst e1
    exact ⟨h3, fun B => by rw [hl]; simp, e2.symm⟩
  | simple L =>
    rw [hl] at h
    obtain ⟨e1, e2⟩ := Prod.mk.inj (Except.ok.inj h)
    subst e1
    exact ⟨h3, fun B => by rw [hl]; simp, e2.symm⟩

theorem mainModel_of {leaf : LeafSpec} {s : ImgShape} (h1 : mainLeaf a v.arrays = .ok leaf) (h2 : getDataShape a.dataset = .ok s)
    (h3 : build (mainConfig a s) (v.params d leaf) = .ok M) (h4 : ∀ B, M.leaf ≠ .direct B) :
    mainModel a d v = .ok (M, decide (a.dist = "normal" ∨ a.dist = "normal_rat")) := by
  unfold mainModel
  rw [h2, Res.ok_bind, h1, Res.ok_bind, h3, Res.ok_bind]
  cases hl : M.leaf with
  | direct B => exact absurd hl (h4 B)
  | factorized L => rfl
  | simple L => rfl

theorem leaf_direct_iff {c : Config} {P : Params} (hP : P.Random) (h : build c P = .ok M) :
    (∃ B, M.leaf = .direct B) ↔ c.structure' = "bottom-up" := by
  have hv := build_valid h
  unfold build at h
  rw [hv] at h
  simp only [Res.ok_bind] at h
  split_ifs at h with h1 h2
  · obtain ⟨_, hs, hw, B, hB, e⟩ := buildTopDown_spec hP hv h
    rw [e, h1]
    refine iff_of_false ?_ (by decide)
    rintro ⟨B', e'⟩
    unfold buildInput at e'
    split_ifs at e'
  · obtain ⟨_, hs, hw, B, hB, e⟩ := buildBottomUp_spec hP hv h2 h (buildGroups c P)
    exact iff_of_true ⟨B, e⟩ h2

/-- the values of the parameters do not decide whether the model can be built. -/
theorem mainModel_values (hd : Draws.Ok d) (h : mainModel a d v = .ok (M, gauss)) (v' : Values) :
    ∃ M', mainModel a d v' = .ok (M', gauss) ∧ M'.num_channels = M.num_channels ∧ M'.num_features = M.num_features := by
  obtain ⟨leaf, s, h1, h2, h3, h4, h5⟩ := mainModel_parts h
  obtain ⟨leaf', h1', hb⟩ : ∃ leaf', mainLeaf a v'.arrays = .ok leaf' ∧ ∀ c dm, (∃ B, leaf.build c dm = .ok B) → ∃ B, leaf'.build c dm = .ok B := by
    unfold mainLeaf at h1 ⊢
    split_ifs at h1 ⊢ <;> cases h1 <;> refine ⟨_, rfl, fun c dm => ?_⟩ <;> rintro ⟨B, hB⟩ <;>
      obtain ⟨_, e, h⟩ := bind_ok hB
    · unfold LeafSpec.build
      rw [e, Res.ok_bind]
      obtain ⟨_, e', h⟩ := bind_ok h
      dsimp only
      rw [e']
      exact ⟨_, rfl⟩
    · unfold LeafSpec.build
      rw [e, Res.ok_bind]
      exact ⟨_, rfl⟩
    · unfold LeafSpec.build
      rw [e, Res.ok_bind]
      dsimp only at h ⊢
      obtain ⟨_, e1, h⟩ := bind_ok h
      obtain ⟨_, e2, h⟩ := bind_ok h
      obtain ⟨_, e3, h⟩ := bind_ok h
      obtain ⟨_, e4, h⟩ := bind_ok h
      obtain ⟨_, e5, h⟩ := bind_ok h
      rw [e1, Res.ok_bind, e2, Res.ok_bind, e3, Res.ok_bind, e4, Res.ok_bind, e5]
      exact ⟨_, rfl⟩
    · unfold LeafSpec.build
      rw [e, Res.ok_bind]
      obtain ⟨_, e', h⟩ := bind_ok h
      dsimp only
      rw [e']
      exact ⟨_, rfl⟩
  obtain ⟨M', hM'⟩ : ∃ M', build (mainConfig a s) (v'.params d leaf') = .ok M' := by
    have := build_iff.1 ⟨M, h3⟩
    exact build_iff.2 ⟨this.1, hb _ _ this.2.1, this.2.2⟩
  have hz := (build_WF (params_random hd v leaf) h3).1
  have hz' := (build_WF (params_random hd v' leaf') hM').1
  refine ⟨M', ?_, by rw [hz.channels, hz'.channels], by rw [hz.features, hz'.features]⟩
  rw [h5]
  refine mainModel_of h1' h2 hM' fun B hB => ?_
  obtain ⟨B', hB'⟩ := (leaf_direct_iff (params_random hd v leaf) h3).2 ((leaf_direct_iff (params_random hd v' leaf') hM').1 ⟨B, hB⟩)
  exact h4 B' hB'

theorem mainLeaf_good {leaf : LeafSpec} {A : LeafArrays} (hg : GoodArgs a) (h : mainLeaf a A = .ok leaf) : leaf.Good := by
  unfold mainLeaf at h
  split_ifs at h with h1 h2 h3 h4 <;> cases h
  · trivial
  · trivial
  · exact hg.sigma h3
  · show (1 : ℤ) ≤ 2 ^ a.n_bits
    exact one_le_pow₀ (by norm_num)

/-- preprocessing yields data of the leaf class. -/
theorem prepared {leaf : LeafSpec} {A : LeafArrays} (hg : GoodArgs a) (hl : mainLeaf a A = .ok leaf)
    (h5 : gauss = decide (a.dist = "normal" ∨ a.dist = "normal_rat")) {b : LoaderBatch} {N C F : Nat} (hs : b.image.shape = [N, C, F])
    (hu : UnitImage b.image) (hn : ∀ i, 0 ≤ b.noise i ∧ b.noise i < 1) :
    ∃ r, preprocess b.noise b.image a.n_bits (2 ^ a.n_bits) true gauss = .ok r ∧ Batch leaf N C F (asFloats r) := by
  obtain ⟨hb1, hb8⟩ := hg.bits
  obtain ⟨z, hz⟩ := (C35_accepts b.image a.n_bits).2 hu
  have hp : ∃ r, preprocess b.noise b.image a.n_bits (2 ^ a.n_bits) true gauss = .ok r := by
    unfold preprocess
    rw [hz, Res.ok_bind]
    cases gauss
    · exact ⟨_, rfl⟩
    · exact ⟨_, rfl⟩
  obtain ⟨r, hr⟩ := hp
  refine ⟨r, hr, ?_⟩
  cases gauss with
  | true =>
    obtain ⟨y, z, e, -, hys, hy⟩ := C43_preprocess hn hb1 hb8 true hr
    subst e
    refine ⟨by show y.shape = _; rw [hys, hs], fun n hn' c hc f hf => Or.inr ?_⟩
    obtain ⟨w, -, e, -⟩ := hy [n, c, f] (by rw [hys, hs]; simp [InB]; omega)
    refine ⟨w, e, ?_⟩
    have h5 := of_decide_eq_true h5.symm
    unfold mainLeaf at hl
    rcases h5 with h5 | h5 <;> rw [h5] at hl <;> simp at hl <;> subst hl <;> trivial
  | false =>
    obtain ⟨y, e, hys, hy⟩ := C35_preprocess b.noise hb1 hb8 _ true hr
    subst e
    refine ⟨by show y.shape = _; rw [hys, hs], fun n hn' c hc f hf => Or.inr ?_⟩
    obtain ⟨h0, h1⟩ := hy [n, c, f] (by rw [hys, hs]; simp [InB]; omega)
    refine ⟨(y.get [n, c, f] : ℝ), rfl, ?_⟩
    have h5 := of_decide_eq_false h5.symm
    push Not at h5
    unfold mainLeaf at hl
    split_ifs at hl with e1 e2 e3 e4
    · cases hl
      exact ⟨(y.get [n, c, f]).toNat, by rw [Int.toNat_of_nonneg h0]; exact h1, by
        exact_mod_cast (Int.toNat_of_nonneg h0).symm⟩
    · exact absurd e2 h5.1
    · exact absurd e3 h5.2
    · cases hl
      exact ⟨(y.get [n, c, f]).toNat, by rw [Int.toNat_of_nonneg h0]; linarith, by
        exact_mod_cast (Int.toNat_of_nonneg h0).symm⟩

theorem step_ok (hd : Draws.Ok d) (hg : GoodArgs a) {s : σ} (h : mainModel a d (O.values s) = .ok (M, gauss)) {b : LoaderBatch}
    (hb : GoodBatch a M.num_channels M.num_features b) : ∃ r outputs n,
    preprocess b.noise b.image a.n_bits (2 ^ a.n_bits) true gauss = .ok r ∧
    trainStep a d O s b = .ok (O.step s (.fin (meanNll M a.classification (asFloats r) b.target)) (asFloats r) b.target,
      .fin (meanNll M a.classification (asFloats r) b.target), outputs, n) ∧
    trainLog a b.target outputs n = .ok ((hitRate M a.classification (asFloats r) b.target).map Fl.fin) := by
  obtain ⟨leaf, sh, h1, h2, h3, -, h5⟩ := mainModel_parts h
  have hP := params_random hd (O.values s) leaf
  have hG : ((O.values s).params d leaf).leaf.Good := mainLeaf_good hg h1
  obtain ⟨N, hN, hs, ht⟩ := hb.shape
  obtain ⟨r, hr, hB⟩ := prepared hg h1 h5 hs hb.unit hb.noise
  have hB : Batch ((O.values s).params d leaf).leaf N M.num_channels M.num_features (asFloats r) := hB
  have hsz : (asFloats r).size 0 = N := by simp [size, hB.1, at']
  obtain ⟨y, hy, hys, hv⟩ := train_forward hP hG h3 hB
  have hK : M.num_classes = if a.classification then 10 else 1 := by
    rw [(build_WF hP h3).1.classes]
    unfold mainConfig
    dsimp only
    split_ifs <;> rfl
  have hloss : trainLoss M a.classification (asFloats r) b.target = .ok (.fin (meanNll M a.classification (asFloats r) b.target)) := by
    unfold meanNll
    rw [hsz]
    cases hc : a.classification with
    | false =>
      simp only [Bool.false_eq_true, if_false]
      exact C58_train _ _ hP hG M h3 N hN _ hB _
    | true =>
      rw [hc, if_pos rfl] at hK
      obtain ⟨ht1, ht2⟩ := ht hc
      rw [C59_train_partial _ _ hP hG M h3 (by omega) N hN _ hB _ ht1 (fun n hn => by rw [hK]; exact ht2 n hn)]
      simp only [if_true]
      have e : ∀ n ∈ Finset.range N, Real.log (bayes M (b.target.get [n]).toNat (rowAt (asFloats r) n)) =
          Real.log (classProb M (b.target.get [n]).toNat (rowAt (asFloats r) n)) -
            Real.log (∑ j ∈ Finset.range M.num_classes, classProb M j (rowAt (asFloats r) n)) := by
        intro n hn
        have hn := Finset.mem_range.1 hn
        have := ht2 n hn
        exact Real.log_div (gb_pos hP hG h3 (hB.2 n hn) (by omega)).1.ne' (gb_row_pos hP hG h3 (hB.2 n hn)).1.ne'
      rw [Finset.sum_congr rfl e, Finset.sum_sub_distrib]
      congr 2
      ring
  refine ⟨r, y, N, hr, ?_, ?_⟩
  · unfold trainStep
    rw [h, Res.ok_bind]
    dsimp only
    rw [hr, Res.ok_bind, hy, Res.ok_bind, hloss, hsz]
    rfl
  · unfold trainLog hitRate
    cases hc : a.classification with
    | false => rfl
    | true =>
      obtain ⟨ht1, ht2⟩ := ht hc
      obtain ⟨q, hq, hqs, hqv⟩ := argmax_spec (train_classes hP h3) hys fun n hn k hk => (hv n hn k hk).2
      have hbest : ∀ n, n < N → ∀ k, q.get [n] = k ↔ Best M (rowAt (asFloats r) n) k := by
        intro n hn k
        rw [hqv n hn k]
        unfold Best
        refine and_congr_right fun hk => forall₂_congr fun j hj => ?_
        rw [Real.log_le_log_iff (hv n hn j hj).1 (hv n hn k hk).1, Real.log_lt_log_iff (hv n hn j hj).1 (hv n hn k hk).1]
      simp only [if_true]
      rw [hq, Res.ok_bind, require_true _ (by rw [ht1, hqs]), Res.ok_bind, require_true _ hN, Res.ok_bind,
        correct_spec hqs (fun n k => Best M (rowAt (asFloats r) n) k) hbest, hsz]
      rfl

theorem logLines_pos {k : ℤ} {i : Nat} (h : (i : ℤ) % k = 0) (p : ℝ × Option ℝ) (ls : List (ℝ × Option ℝ)) :
    logLines k i (p :: ls) = p.2.map Fl.fin :: logLines k (i + 1) ls := by
  unfold logLines
  rw [List.zipIdx_cons, List.filter_cons_of_pos (by simpa using h)]
  rfl

theorem logLines_neg {k : ℤ} {i : Nat} (h : ¬ (i : ℤ) % k = 0) (p : ℝ × Option ℝ) (ls : List (ℝ × Option ℝ)) :
    logLines k i (p :: ls) = logLines k (i + 1) ls := by
  unfold logLines
  rw [List.zipIdx_cons, List.filter_cons_of_neg (by simpa using h)]

theorem trainFrom_ok (hd : Draws.Ok d) (hg : GoodArgs a) (hk : a.log_interval ≠ 0) {C F : Nat} (bs : List LoaderBatch)
    (hb : ∀ b ∈ bs, GoodBatch a C F b)
    (hM : ∀ v, ∃ M gauss, mainModel a d v = .ok (M, gauss) ∧ M.num_channels = C ∧ M.num_features = F) (i : Nat) (s : σ) :
    ∃ s' ls, trainFrom a d O i s bs = .ok (s', ls.map fun p => .fin p.1, logLines a.log_interval i ls) ∧
      (a.dry_run = false → Steps a d O s (if a.debug then bs.take (3 - i) else bs) s' ls) ∧
      (a.dry_run = true → i = 0 → Steps a d O s (bs.take 1) s' ls) := by
  induction bs generalizing i s with
  | nil =>
    refine ⟨s, [], rfl, fun _ => ?_, fun _ _ => .nil s⟩
    simp only [List.take_nil, ite_self]
    exact .nil s
  | cons b bs ih =>
    unfold trainFrom
    by_cases h1 : a.debug = true ∧ 2 < i
    · rw [if_pos h1]
      refine ⟨s, [], rfl, fun _ => ?_, fun _ h0 => by omega⟩
      rw [if_pos h1.1, show 3 - i = 0 by omega]
      exact .nil s
    · rw [if_neg h1]
      obtain ⟨M, gauss, hm, hC, hF⟩ := hM (O.values s)
      obtain ⟨r, y, n, hr, hst, hlog⟩ := step_ok hd hg hm (b := b) (by rw [hC, hF]; exact hb b (by simp))
      rw [hst, Res.ok_bind]
      dsimp only
      rw [require_true _ hk, Res.ok_bind]
      have hdeb : ∀ s' ls, Steps a d O (O.step s (.fin (meanNll M a.classification (asFloats r) b.target)) (asFloats r) b.target)
          (if a.debug then bs.take (3 - (i + 1)) else bs) s' ls →
          Steps a d O s (if a.debug then (b :: bs).take (3 - i) else b :: bs) s'
            ((meanNll M a.classification (asFloats r) b.target, hitRate M a.classification (asFloats r) b.target) :: ls) := by
        intro s' ls hS
        cases hdb : a.debug with
        | false => rw [hdb] at hS; exact .cons hm hr hS
        | true =>
          rw [hdb] at hS
          have : 3 - i = (3 - (i + 1)) + 1 := by
            have : ¬ 2 < i := fun h => h1 ⟨hdb, h⟩
            omega
          simp only [if_true] at hS ⊢
          rw [this, List.take_succ_cons]
          exact .cons hm hr hS
      obtain ⟨s', ls, e, hS, -⟩ := ih (fun b' hb' => hb b' (by simp [hb'])) (i + 1)
        (O.step s (.fin (meanNll M a.classification (asFloats r) b.target)) (asFloats r) b.target)
      by_cases h2 : (i : ℤ) % a.log_interval = 0
      · rw [if_pos h2, hlog, Res.ok_bind]
        cases hdr : a.dry_run with
        | true =>
          refine ⟨O.step s (.fin (meanNll M a.classification (asFloats r) b.target)) (asFloats r) b.target, [(meanNll M a.classification (asFloats r) b.target, hitRate M a.classification (asFloats r) b.target)], ?_,
            fun h => by simp at h, fun _ _ => ?_⟩
          · rw [logLines_pos h2]; rfl
          · exact .cons hm hr (.nil _)
        | false =>
          simp only [Bool.false_eq_true, if_false]
          rw [e, Res.ok_bind]
          refine ⟨s', _, ?_, fun _ => hdeb s' ls (hS hdr), fun h => by simp at h⟩
          rw [logLines_pos h2]; rfl
      · rw [if_neg h2, e, Res.ok_bind]
        refine ⟨s', _, ?_, fun h => hdeb s' ls (hS h), fun _ h0 => ?_⟩
        · rw [logLines_neg h2]; rfl
        · subst h0
          simp at h2

theorem Steps.append {s s' s'' : σ} {xs ys : List LoaderBatch} {l l' : List (ℝ × Option ℝ)} (h : Steps a d O s xs s' l)
    (h' : Steps a d O s' ys s'' l') : Steps a d O s (xs ++ ys) s'' (l ++ l') := by
  induction h with
  | nil => exact h'
  | cons h1 h2 _ ih => exact .cons h1 h2 (ih h')

theorem mainModel_all (hd : Draws.Ok d) (h : mainModel a d v = .ok (M, gauss)) (v' : Values) :
    ∃ M' g', mainModel a d v' = .ok (M', g') ∧ M'.num_channels = M.num_channels ∧ M'.num_features = M.num_features := by
  obtain ⟨M', h1, h2⟩ := mainModel_values hd h v'
  exact ⟨M', gauss, h1, h2⟩

end

/-- sizes of the model of main.py. -/
theorem mainModel_sizes {a : MainArgs} {d : Draws} {v : Values} {M : Model} {gauss : Bool} (hd : Draws.Ok d)
    (h : mainModel a d v = .ok (M, gauss)) : ∃ s, getDataShape a.dataset = .ok s ∧ M.num_channels = s.channels ∧
      M.num_features = s.width * s.height := by
  obtain ⟨leaf, s, h1, h2, h3, -⟩ := mainModel_parts h
  have hz := (build_WF (params_random hd v leaf) h3).1
  exact ⟨s, h2, by rw [hz.channels]; simp [mainConfig], by rw [hz.features]; simp only [mainConfig, ImgShape.num_pixels, Int.toNat_natCast]⟩

/-! ### The theorems -/

/-- **C89**, construction: the arguments for which main.py gets to its training loop. -/
theorem C89_model (a : MainArgs) (d : Draws) (hd : Draws.Ok d) (v : Values)
    (hdist : a.dist = "binomial" ∨ a.dist = "normal" ∨ a.dist = "categorical" ∨
      a.dist = "normal_rat" ∧ 0 < a.min_sigma ∧ a.min_sigma < a.max_sigma) :
    (∃ M gauss, mainModel a d v = .ok (M, gauss)) ↔
      a.structure' = "top-down" ∧ 1 ≤ a.S ∧ 1 ≤ a.I ∧ 1 ≤ a.R ∧ 0 ≤ a.D ∧ a.layer ∈ ["linsum", "linsum2", "einsum"] ∧
      (a.dist = "binomial" → 1 ≤ a.n_bits) ∧
      ∃ s, getDataShape a.dataset = .ok s ∧ 2 ≤ s.width * s.height ∧ 1 ≤ s.channels ∧ 2 ^ a.D.toNat ≤ s.width * s.height := by
  have hleaf : ∃ leaf, mainLeaf a v.arrays = .ok leaf ∧ ∀ dm, (∃ B, leaf.build none dm = .ok B) ↔ (a.dist = "binomial" → 1 ≤ a.n_bits) := by
    unfold mainLeaf
    rcases hdist with h | h | h | ⟨h, hlo, hhi⟩ <;> simp only [h, if_true, reduceIte, String.reduceEq]
    · refine ⟨_, rfl, fun dm => ?_⟩
      have e : (1 : ℤ) ≤ 2 ^ a.n_bits - 1 ↔ 1 ≤ a.n_bits := by
        constructor
        · intro h
          by_contra h0
          have : a.n_bits = 0 := by omega
          rw [this] at h
          norm_num at h
        · intro h
          have : (2 : ℤ) ^ 1 ≤ 2 ^ a.n_bits := pow_le_pow_right₀ (by norm_num) h
          omega
      simp only [LeafSpec.build, require_true, Res.ok_bind, forall_const]
      rw [← e]
      constructor
      · rintro ⟨B, hB⟩
        exact ((checkInt_iff _ 1 one_ne_zero _ _).1 hB).1
      · exact fun h => ⟨_, (checkInt_iff _ 1 one_ne_zero _ _).2 ⟨h, rfl⟩⟩
    · refine ⟨_, rfl, fun dm => iff_of_true ?_ (by simp)⟩
      simp only [LeafSpec.build, require_true, Res.ok_bind]
      exact ⟨_, rfl⟩
    · refine ⟨_, rfl, fun dm => iff_of_true ?_ (by simp)⟩
      simp only [LeafSpec.build, require_true, Res.ok_bind]
      rw [require_true _ (show (0 : ℤ) ≤ 2 ^ a.n_bits by positivity)]
      exact ⟨_, rfl⟩
    · refine ⟨_, rfl, fun dm => iff_of_true ?_ (by simp)⟩
      obtain ⟨B, hB, -⟩ := C39_named a.n_bits hlo hhi v.arrays.p v.arrays.q v.arrays.logits dm
      exact ⟨B, hB⟩
  have hpow : ∀ (s : ImgShape) (D : ℤ), 0 ≤ D →
      ((2 : ℚ) ^ D ≤ (Int.fdiv ((s.width * s.height : ℕ) : ℤ) 1 : ℤ) ↔ 2 ^ D.toNat ≤ s.width * s.height) := by
    intro s D hD
    obtain ⟨d, rfl⟩ := Int.eq_ofNat_of_zero_le hD
    rw [Int.fdiv_one]
    simp only [Int.toNat_natCast, zpow_natCast, Int.cast_natCast]
    exact_mod_cast Iff.rfl
  obtain ⟨leaf, hl, hlb⟩ := hleaf
  constructor
  · rintro ⟨M, gauss, h⟩
    obtain ⟨leaf', s, h1, h2, h3, h4, -⟩ := mainModel_parts h
    have e : leaf' = leaf := by rw [hl] at h1; exact (Except.ok.inj h1).symm
    subst e
    obtain ⟨b1, b2, b3, -, -⟩ := build_iff.1 ⟨M, h3⟩
    obtain ⟨v1, v2, v3, v4, v5, v6, v7, v8, v9, v10, v11, v12, v13⟩ := (assertValid_iff _).1 b1
    have hst : a.structure' = "top-down" := by
      have hn : a.structure' ≠ "bottom-up" := fun hb => by
        obtain ⟨B, hB⟩ := (leaf_direct_iff (params_random hd v leaf') h3).2 hb
        exact h4 B hB
      have : a.structure' ∈ ["top-down", "bottom-up"] := v10
      simpa [hn] using this
    refine ⟨hst, v4, v6, v5, b3, v9, (hlb _).1 b2, s, h2, ?_, ?_, ?_⟩
    · have : (2 : ℤ) ≤ (s.num_pixels : ℤ) := v1
      exact_mod_cast this
    · have : (1 : ℤ) ≤ (s.channels : ℤ) := v2
      exact_mod_cast this
    · exact (hpow s _ b3).1 v13
  · rintro ⟨h1, h2, h3, h4, h5, h6, h7, s, h8, h9, h10, h11⟩
    have hb : ∃ M, build (mainConfig a s) (v.params d leaf) = .ok M := by
      refine build_iff.2 ⟨(assertValid_iff _).2 ⟨?_, ?_, ?_, h2, h4, h3, ?_, rfl, h6, ?_, ?_, ?_, ?_⟩, (hlb _).2 h7, h5, ?_, fun _ => dropOK_zero⟩
      · show (2 : ℤ) ≤ (s.num_pixels : ℤ)
        exact_mod_cast h9
      · show (1 : ℤ) ≤ (s.channels : ℤ)
        exact_mod_cast h10
      · unfold mainConfig; dsimp only; split_ifs <;> norm_num
      · intro q hq
        cases hq
        show Fl.lt (.fin 0) (.fin 1)
        simp [Fl.lt]
      · show a.structure' ∈ _
        simp [h1]
      · intro e
        rw [show (mainConfig a s).structure' = a.structure' from rfl, h1] at e
        simp at e
      · show (1 : ℤ) ≠ 0
        norm_num
      · exact (hpow s _ h5).2 h11
      · intro e
        rw [show (mainConfig a s).structure' = a.structure' from rfl, h1] at e
        simp at e
    obtain ⟨M, hM⟩ := hb
    refine ⟨M, _, mainModel_of hl h8 hM fun B hB => ?_⟩
    have := (leaf_direct_iff (params_random hd v leaf) hM).1 ⟨B, hB⟩
    rw [show (mainConfig a s).structure' = a.structure' from rfl, h1] at this
    simp at this

/-- **C89**, one epoch: one step per batch used, the losses are the finite mean negative log-likelihoods, the log lines those of
every `log_interval`-th batch. -/
theorem C89_epoch_partial (a : MainArgs) (hg : GoodArgs a) (d : Draws) (hd : Draws.Ok d) (v : Values) (M : Model) (gauss : Bool)
    (h : mainModel a d v = .ok (M, gauss)) (hk : a.log_interval ≠ 0) {σ : Type} (O : Optim σ) (bs : List LoaderBatch)
    (hb : ∀ b ∈ bs, GoodBatch a M.num_channels M.num_features b) (s : σ) :
    ∃ s' ls, trainFrom a d O 0 s bs = .ok (s', ls.map fun p => .fin p.1, logLines a.log_interval 0 ls) ∧
      Steps a d O s (usedBatches a bs) s' ls := by
  obtain ⟨s', ls, e, h1, h2⟩ := trainFrom_ok (O := O) hd hg hk bs hb (mainModel_all hd h) 0 s
  refine ⟨s', ls, e, ?_⟩
  unfold usedBatches
  cases hdr : a.dry_run with
  | true => exact h2 hdr rfl
  | false => exact h1 hdr

/-- **C89**, the whole run: the steps of all epochs one after the other. -/
theorem C89_run_partial (a : MainArgs) (hg : GoodArgs a) (d : Draws) (hd : Draws.Ok d) (v : Values) (M : Model) (gauss : Bool)
    (h : mainModel a d v = .ok (M, gauss)) (hk : a.log_interval ≠ 0) {σ : Type} (O : Optim σ) (batches : Nat → List LoaderBatch)
    (hb : ∀ e, ∀ b ∈ batches e, GoodBatch a M.num_channels M.num_features b) (s : σ) :
    ∃ s' ls lines, mainTrain a d O batches s = .ok (s', ls.map fun p => .fin p.1, lines) ∧
      Steps a d O s ((List.range a.epochs.toNat).flatMap fun e => usedBatches a (batches (e + 1))) s' ls := by
  have key : ∀ k e (s : σ), ∃ s' ls lines, epochsFrom a d O batches k e s = .ok (s', ls.map fun p => .fin p.1, lines) ∧
      Steps a d O s ((List.range k).flatMap fun j => usedBatches a (batches (j + e))) s' ls := by
    intro k
    induction k with
    | zero => exact fun e s => ⟨s, [], [], rfl, .nil s⟩
    | succ k ih =>
      intro e s
      obtain ⟨s1, l1, h1, S1⟩ := C89_epoch_partial a hg d hd v M gauss h hk O (batches e) (hb e) s
      obtain ⟨s2, l2, m2, h2, S2⟩ := ih (e + 1) s1
      refine ⟨s2, l1 ++ l2, logLines a.log_interval 0 l1 ++ m2, ?_, ?_⟩
      · unfold epochsFrom
        rw [h1, Res.ok_bind]
        dsimp only
        rw [h2, Res.ok_bind, List.map_append]
        rfl
      · rw [List.range_succ_eq_map, List.flatMap_cons, List.flatMap_map]
        simp only [Nat.zero_add]
        refine S1.append ?_
        convert S2 using 3 with j
        congr 2
        omega
  exact key a.epochs.toNat 1 s

/-- **C89**, false for `--structure bottom-up`: the script stops before training, although the model can be built. -/
theorem C89_refuted_bottom_up (a : MainArgs) (d : Draws) (hd : Draws.Ok d) (v : Values) (hs : a.structure' = "bottom-up") (leaf : LeafSpec)
    (s : ImgShape) (M : Model) (hl : mainLeaf a v.arrays = .ok leaf) (hsh : getDataShape a.dataset = .ok s)
    (h : build (mainConfig a s) (v.params d leaf) = .ok M) : mainModel a d v = .error .attribute := by
  obtain ⟨B, hB⟩ := (leaf_direct_iff (params_random hd v leaf) h).2 hs
  unfold mainModel
  rw [hsh, Res.ok_bind, hl, Res.ok_bind, h, Res.ok_bind, hB]

/-- **C89**, false for `--dist multivariate_normal`, one of the choices of the command line: no leaf class is assigned. -/
theorem C89_refuted_mvn (a : MainArgs) (d : Draws) (v : Values) (h : a.dist = "multivariate_normal")
    (s : ImgShape) (hs : getDataShape a.dataset = .ok s) : mainModel a d v = .error .unboundLocal := by
  unfold mainModel mainLeaf
  rw [hs, Res.ok_bind]
  simp [h]

/-- **C89**, false for `--log-interval 0`: the run stops with an error after the first step. -/
theorem C89_refuted_interval (a : MainArgs) (hg : GoodArgs a) (d : Draws) (hd : Draws.Ok d) (v : Values) (M : Model) (gauss : Bool)
    (h : mainModel a d v = .ok (M, gauss)) (hk : a.log_interval = 0) (he : 1 ≤ a.epochs) {σ : Type} (O : Optim σ)
    (batches : Nat → List LoaderBatch) (b : LoaderBatch) (bs : List LoaderBatch) (h1 : batches 1 = b :: bs)
    (hb : GoodBatch a M.num_channels M.num_features b) (s : σ) : mainTrain a d O batches s = .error .zeroDivision := by
  obtain ⟨M', g', hm, hC, hF⟩ := mainModel_all hd h (O.values s)
  obtain ⟨r, y, n, -, hst, -⟩ := step_ok hd hg hm (b := b) (by rw [hC, hF]; exact hb)
  unfold mainTrain
  obtain ⟨k, hk'⟩ : ∃ k, a.epochs.toNat = k + 1 := ⟨a.epochs.toNat - 1, by omega⟩
  rw [hk']
  unfold epochsFrom
  rw [h1]
  unfold trainFrom
  rw [if_neg (by omega), hst, Res.ok_bind]
  dsimp only
  rw [require_false _ (by simp [hk])]
  rfl

/-! ### A case that meets the hypotheses -/

/-- `main.py --dataset digits -D 2 -S 3 -I 4 -R 2 --epochs 2` with a classification head or without. -/
def loopArgs (dist st : String) (cls : Bool) (k : ℤ) : MainArgs where
  dataset := "digits"
  dist := dist
  n_bits := 4
  min_sigma := 1 / 10
  max_sigma := 1
  D := 2
  S := 3
  I := 4
  R := 2
  layer := "linsum"
  structure' := st
  classification := cls
  epochs := 2
  log_interval := k
  debug := false
  dry_run := false

def loopDraws : Draws := ⟨id, fun _ n => List.range n⟩

theorem loopDraws_ok : Draws.Ok loopDraws := ⟨fun l => List.Perm.refl l, fun _ _ => List.Perm.refl _⟩

/-- an optimiser that counts its steps and adds the count to the mixing weights of the classes. -/
def loopOptim (v : Values) : Optim ℕ := ⟨fun s => { v with classLogits := fun i => v.classLogits i + s }, fun s _ _ _ => s + 1⟩

/-- two black images of class 3. -/
def loopBatch : LoaderBatch := ⟨⟨[2, 1, 64], fun _ => .fin 0⟩, ⟨[2], fun _ => 3⟩, fun _ => 1 / 2⟩

theorem loopArgs_shape : getDataShape "digits" = .ok ⟨1, 8, 8⟩ := by
  simp (decide := true) only [getDataShape, if_false]
  rfl

theorem loopArgs_model (v : Values) (cls : Bool) (k : ℤ) : ∃ M gauss, mainModel (loopArgs "binomial" "top-down" cls k) loopDraws v = .ok (M, gauss) := by
  refine (C89_model _ _ loopDraws_ok v (Or.inl rfl)).2 ⟨rfl, ?_, ?_, ?_, ?_, ?_, fun _ => ?_, ⟨1, 8, 8⟩, loopArgs_shape, ?_, ?_, ?_⟩ <;>
    simp (decide := true) [loopArgs]

theorem loopBatch_good {v : Values} {cls : Bool} {k : ℤ} {M : Model} {g : Bool}
    (h : mainModel (loopArgs "binomial" "top-down" cls k) loopDraws v = .ok (M, g)) :
    GoodBatch (loopArgs "binomial" "top-down" cls k) M.num_channels M.num_features loopBatch := by
  obtain ⟨sh, e, hC, hF⟩ := mainModel_sizes loopDraws_ok h
  have e' : sh = ⟨1, 8, 8⟩ := by
    have e2 := loopArgs_shape
    rw [show (loopArgs "binomial" "top-down" cls k).dataset = "digits" from rfl, e2] at e
    exact (Except.ok.inj e).symm
  rw [hC, hF, e']
  exact ⟨⟨2, by norm_num, rfl, fun _ => ⟨rfl, fun _ _ => by norm_num [loopBatch]⟩⟩, fun i _ => ⟨0, rfl, le_refl _, zero_le_one⟩,
    fun i => by norm_num [loopBatch]⟩

theorem loopArgs_good (cls : Bool) (k : ℤ) : GoodArgs (loopArgs "binomial" "top-down" cls k) := ⟨by simp [loopArgs], by simp [loopArgs]⟩

example (v : Values) (cls : Bool) : ∃ s' ls lines,
    mainTrain (loopArgs "binomial" "top-down" cls 100) loopDraws (loopOptim v) (fun _ => [loopBatch, loopBatch]) 0 =
      .ok (s', ls.map fun p => .fin p.1, lines) ∧
    Steps (loopArgs "binomial" "top-down" cls 100) loopDraws (loopOptim v) 0 [loopBatch, loopBatch, loopBatch, loopBatch] s' ls := by
  obtain ⟨M, g, h⟩ := loopArgs_model v cls 100
  refine C89_run_partial _ (loopArgs_good cls 100) _ loopDraws_ok v M g h (by simp [loopArgs]) (loopOptim v) (fun _ => [loopBatch, loopBatch]) ?_ 0
  intro _ b hb
  obtain rfl : b = loopBatch := by simpa using hb
  exact loopBatch_good h

end Einet.Props
