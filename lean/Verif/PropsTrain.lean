import Verif.TrainFacts
import Verif.PropsForward
import Verif.PropsSampleNeg
import Mathlib.Analysis.SpecialFunctions.Log.Base

/-!
# C58-C61: losses, evaluation, bits per dimension
-/

open Classical MeasureTheory
open scoped ENNReal
noncomputable section
namespace Einet.Props
open Tensor Einet

/-! ### Specification -/

/-- row `n` of a batch. -/
def rowAt (x : Tensor Fl) (n : Nat) : Data := fun c f => x.get [n, c, f]

/-- `p(X | class k)`: the number whose logarithm the model returns for the row `X`. -/
def classProb (M : Model) (k : Nat) (X : Data) : ℝ := (M.density none k X).toReal

/-- `p(X)` if all classes are equally likely. -/
def rowProb (M : Model) (X : Data) : ℝ := (∑ k ∈ Finset.range M.num_classes, classProb M k X) / M.num_classes

/-- `p(class k | X)` if all classes are equally likely. -/
def bayes (M : Model) (k : Nat) (X : Data) : ℝ := classProb M k X / ∑ j ∈ Finset.range M.num_classes, classProb M j X

/-- class `k` has the largest likelihood; the first one in case of ties. -/
def Best (M : Model) (X : Data) (k : Nat) : Prop :=
  k < M.num_classes ∧ ∀ j, j < M.num_classes → classProb M j X ≤ classProb M k X ∧ (j < k → classProb M j X < classProb M k X)

/-- the label of an example is the most likely class. -/
def Hit (M : Model) (e : Data × ℤ) : Prop := ∃ k : Nat, Best M e.1 k ∧ e.2 = k

/-- the examples, row and label, that a loader yields. -/
def examples (batches : List (Tensor Fl × Tensor ℤ)) : List (Data × ℤ) :=
  batches.flatMap fun b => (List.range (b.1.size 0)).map fun n => (rowAt b.1 n, b.2.get [n])

/-- a batch with labels as input of the model. -/
def Labelled (leaf : LeafSpec) (M : Model) (b : Tensor Fl × Tensor ℤ) : Prop :=
  ∃ N, Batch leaf N M.num_channels M.num_features b.1 ∧ b.2.shape = [N]

/-! ### Lemmas -/

section
variable {c : Config} {P : Params} {M : Model} {N : Nat} {x : Tensor Fl}

theorem train_forward (hP : P.Random) (hg : P.leaf.Good) (h : build c P = .ok M)
    (hx : Batch P.leaf N M.num_channels M.num_features x) :
    ∃ y, M.forward x = .ok y ∧ y.shape = [N, M.num_classes] ∧ ∀ n, n < N → ∀ k, k < M.num_classes →
      0 < classProb M k (rowAt x n) ∧ y.get [n, k] = .fin (Real.log (classProb M k (rowAt x n))) := by
  obtain ⟨y, hy, hs, hv⟩ := build_log hP hg h hx
  exact ⟨y, hy, hs, fun n hn k hk => ⟨(hv n hn k hk).1, (hv n hn k hk).2.2⟩⟩

theorem sum_map_range (f : Nat → ℝ) (N : Nat) : ((List.range N).map f).sum = ∑ n ∈ Finset.range N, f n := by
  induction N with
  | zero => rfl
  | succ N ih => rw [List.range_succ, List.map_append, List.sum_append, ih, Finset.sum_range_succ]; simp

theorem train_classes (hP : P.Random) (h : build c P = .ok M) : 0 < M.num_classes := (build_WF hP h).2.1.classes_pos

theorem logLikelihoods_spec {y : Tensor Fl} {K : Nat} (hK : 0 < K) (hs : y.shape = [N, K]) {p : Nat → Nat → ℝ}
    (hp : ∀ n, n < N → ∀ k, k < K → 0 < p n k ∧ y.get [n, k] = .fin (Real.log (p n k))) :
    ∃ l, logLikelihoods y = .ok l ∧ l.numel = N ∧
      l.sumAll = .fin (∑ n ∈ Finset.range N, Real.log ((∑ k ∈ Finset.range K, p n k) / K)) ∧
      ∀ n, n < N → l.get (if K = 1 then [n, 0] else [n]) = .fin (Real.log ((∑ k ∈ Finset.range K, p n k) / K)) := by
  have hK0 : (0 : ℝ) < K := by exact_mod_cast hK
  have hr : y.rank = 2 := by simp [rank, hs]
  have hsz : y.size 1 = K := by simp [size, hs, at']
  unfold logLikelihoods
  rw [require_true _ (by omega), Res.ok_bind, hr]
  dsimp only
  rw [hsz]
  by_cases h1 : K = 1
  · subst h1
    rw [if_pos rfl]
    have hv : ∀ n, n < N → y.get [n, 0] = .fin (Real.log ((∑ k ∈ Finset.range 1, p n k) / (1 : ℕ))) := by
      intro n hn
      rw [(hp n hn 0 hK).2]; simp
    refine ⟨y, rfl, by simp [numel, hs, numelS], ?_, fun n hn => by rw [if_pos rfl]; exact hv n hn⟩
    rw [sumAll_two hs (v := fun n _ => Real.log ((∑ k ∈ Finset.range 1, p n k) / (1 : ℕ)))
      (fun n hn k hk => by obtain rfl : k = 0 := by omega
                           exact hv n hn)]
    simp
  · rw [if_neg h1]
    have hi : (y.map fun v => v - .fin (Real.log K)).Is [N, K] fun i => y.get i - .fin (Real.log K) :=
      Is.intro hs fun _ _ => rfl
    obtain ⟨l, hl, hl1⟩ := logsumexp_is hi (d := 1) (by simp)
    have hv : ∀ n, n < N → l.get [n] = .fin (Real.log ((∑ k ∈ Finset.range K, p n k) / K)) := by
      intro n hn
      rw [hl1.get (by simpa [delAt, InB] using hn)]
      have : ∀ k, k < K → y.get [n, k] - Fl.fin (Real.log K) = .fin (Real.log (p n k / K)) := by
        intro k hk
        obtain ⟨h1, h2⟩ := hp n hn k hk
        rw [h2, Real.log_div h1.ne' hK0.ne']
        rfl
      have e := Fl.lse_eq_fin hK this
      simp only [insAt, at'] at e ⊢
      rw [e]
      congr 2
      rw [Finset.sum_div]
      refine Finset.sum_congr rfl fun k hk => ?_
      rw [Real.exp_log (div_pos (hp n hn k (Finset.mem_range.1 hk)).1 hK0)]
    have hls : l.shape = [N] := hl1.1
    refine ⟨l, hl, by simp [numel, hls, numelS], sumAll_one hls hv, fun n hn => by rw [if_neg h1]; exact hv n hn⟩

theorem argmax_spec {y : Tensor Fl} {K : Nat} (hK : 0 < K) (hs : y.shape = [N, K]) {p : Nat → Nat → ℝ}
    (hp : ∀ n, n < N → ∀ k, k < K → y.get [n, k] = .fin (p n k)) :
    ∃ a, y.argmax 1 = .ok a ∧ a.shape = [N] ∧ ∀ n, n < N → ∀ k, a.get [n] = k ↔
      k < K ∧ ∀ j, j < K → p n j ≤ p n k ∧ (j < k → p n j < p n k) := by
  have hi : y.Is [N, K] y.get := Is.intro hs fun _ _ => rfl
  obtain ⟨a, ha, ha1⟩ := argmax_is hi (d := 1) (by simp) (by simpa [at'] using hK)
  refine ⟨a, ha, ha1.1, fun n hn k => ?_⟩
  rw [ha1.get (by simpa [delAt, InB] using hn)]
  exact Fl.argmaxN_eq_iff hK (fun k hk => hp n hn k hk) k

theorem correct_spec {a : Tensor Nat} {t : Tensor ℤ} (hs : a.shape = [N]) (Q : Nat → Nat → Prop)
    (h : ∀ n, n < N → ∀ k, a.get [n] = k ↔ Q n k) :
    correct t a = (List.range N).countP fun n => decide (∃ k : Nat, Q n k ∧ t.get [n] = k) := by
  unfold correct
  rw [show a.size 0 = N by simp [size, hs, at']]
  refine List.countP_congr fun n hn => ?_
  have hn := List.mem_range.1 hn
  simp only [decide_eq_true_eq]
  constructor
  · intro e; exact ⟨_, (h n hn _).1 rfl, e⟩
  · rintro ⟨k, hk, e⟩; rw [e, (h n hn k).2 hk]

end


/-- the rows that are points of the sample space: almost all are in the support. -/
theorem train_point {c : Config} {P : Params} {M : Model} (hP : P.Random) (hg : P.leaf.Good) (h : build c P = .ok M) :
    ∀ᵐ ω : Fin M.num_channels → Fin M.num_features → ℝ ∂(Measure.pi fun _ => Measure.pi fun _ => P.leaf.ref),
      Batch P.leaf 1 M.num_channels M.num_features (rowTensor M.num_channels M.num_features (Pt.data ω)) := by
  obtain ⟨-, hw, hp, _⟩ := build_WF hP h
  have := Model.ae_observed hw.front (hp hg) (Model.observed_nan _)
  unfold missing at this
  simp only [if_true] at this
  rw [LeafSpec.ref_eq (build_leaf hP h)] at this
  filter_upwards [this] with ω hω
  exact ⟨rfl, fun n _ => (build_observed hP h).1 hω⟩

/-! ### C58 -/

/-- **C58**, density: `p(X)` is a probability density. -/
theorem C58_integral (c : Config) (P : Params) (hP : P.Random) (hg : P.leaf.Good) (M : Model) (h : build c P = .ok M) :
    ∫⁻ ω : Fin M.num_channels → Fin M.num_features → ℝ, ENNReal.ofReal (rowProb M (Pt.data ω))
      ∂(Measure.pi fun _ => Measure.pi fun _ => P.leaf.ref) = 1 := by
  have hK := train_classes hP h
  have e : ∀ᵐ ω : Fin M.num_channels → Fin M.num_features → ℝ ∂(Measure.pi fun _ => Measure.pi fun _ => P.leaf.ref),
      ENNReal.ofReal (rowProb M (Pt.data ω)) =
        (M.num_classes : ℝ≥0∞)⁻¹ * ∑ k ∈ Finset.range M.num_classes, M.density none k (Pt.data ω) := by
    filter_upwards [train_point hP hg h] with ω hω
    obtain ⟨y, -, -, hv⟩ := build_log hP hg h hω
    unfold rowProb classProb
    rw [div_eq_inv_mul, ENNReal.ofReal_mul (by positivity), ENNReal.ofReal_inv_of_pos (by exact_mod_cast hK),
      ENNReal.ofReal_natCast, ENNReal.ofReal_sum_of_nonneg fun _ _ => ENNReal.toReal_nonneg]
    congr 1
    refine Finset.sum_congr rfl fun k hk => ENNReal.ofReal_toReal ?_
    exact (hv 0 (by omega) k (Finset.mem_range.1 hk)).2.1
  obtain ⟨-, hw, hp, _⟩ := build_WF hP h
  have hm : ∀ k ∈ Finset.range M.num_classes, AEMeasurable (fun ω : Fin M.num_channels → Fin M.num_features → ℝ =>
      M.density none k (Pt.data ω)) (Measure.pi fun _ => Measure.pi fun _ => P.leaf.ref) := by
    intro k hk
    have := Model.density_aemeasurable hw (hp hg) (Model.observed_nan _) (Finset.mem_range.1 hk)
    unfold missing at this
    simp only [if_true] at this
    rwa [LeafSpec.ref_eq (build_leaf hP h)] at this
  rw [lintegral_congr_ae e, lintegral_const_mul' _ _ (by simp; omega), lintegral_finsetSum' _ hm,
    Finset.sum_congr rfl fun k hk => C01_density_integral c P hP hg M h k (Finset.mem_range.1 hk)]
  simp only [Finset.sum_const, Finset.card_range, nsmul_eq_mul, mul_one]
  exact ENNReal.inv_mul_cancel (by simp; omega) (by simp)

/-- **C58**, values: the function `log_likelihoods` applied to the outputs of the model returns `log p(X)` for every row. -/
theorem C58_values (c : Config) (P : Params) (hP : P.Random) (hg : P.leaf.Good) (M : Model) (h : build c P = .ok M) (N : Nat)
    (x : Tensor Fl) (hx : Batch P.leaf N M.num_channels M.num_features x) :
    ∃ y l, M.forward x = .ok y ∧ logLikelihoods y = .ok l ∧ l.numel = N ∧
      ∀ n, n < N → l.get (if M.num_classes = 1 then [n, 0] else [n]) = .fin (Real.log (rowProb M (rowAt x n))) := by
  obtain ⟨y, hy, hs, hv⟩ := train_forward hP hg h hx
  obtain ⟨l, h1, h2, -, h3⟩ := logLikelihoods_spec (train_classes hP h) hs (p := fun n k => classProb M k (rowAt x n)) hv
  exact ⟨y, l, hy, h1, h2, h3⟩

/-- **C58**, values for given classes: `log_likelihoods(outputs, targets)` returns the class-conditional log-likelihoods. -/
theorem C58_targets (c : Config) (P : Params) (hP : P.Random) (hg : P.leaf.Good) (M : Model) (h : build c P = .ok M) (N : Nat)
    (x : Tensor Fl) (hx : Batch P.leaf N M.num_channels M.num_features x) (t : Tensor Nat) (ht : t.shape = [N])
    (hk : ∀ n, n < N → t.get [n] < M.num_classes) :
    ∃ y l, M.forward x = .ok y ∧ logLikelihoods y (some t) = .ok l ∧ l.shape = [N, 1] ∧
      ∀ n, n < N → l.get [n, 0] = .fin (Real.log (classProb M (t.get [n]) (rowAt x n))) := by
  obtain ⟨y, hy, hs, hv⟩ := train_forward hP hg h hx
  have hr : y.rank = 2 := by simp [rank, hs]
  have hi : y.Is [N, M.num_classes] y.get := Is.intro hs fun _ _ => rfl
  have hti : t.Is [N] t.get := Is.intro ht fun _ _ => rfl
  have : Res.Sat (logLikelihoods y (some t)) fun l => l.Is [N, 1] fun i => y.get [at' 0 i, t.get [at' 0 i]] := by
    unfold logLikelihoods
    refine Res.Sat.require (by omega) ?_
    dsimp only
    rw [show t.rank = 1 by simp [rank, ht], hr]
    refine (unsqueeze_is hti (by simp)).bind fun u hu => ?_
    refine (gather_is hi hu (by simp) (by simp [leExcept, insAt]) ?_).mono fun l hl => ?_
    · intro n hn j hj
      exact hk n hn
    · refine Is.intro hl.1 fun i hi => ?_
      rw [hl.get hi]
      match i, hi with
      | [n, j], _ => rfl
  obtain ⟨l, hl, h1⟩ := this
  refine ⟨y, l, hy, hl, h1.1, fun n hn => ?_⟩
  rw [h1.get (by simp [InB, hn])]
  exact (hv n hn _ (hk n hn)).2

/-- the loop of `test`. -/
theorem evalStep_fold {c : Config} {P : Params} {M : Model} (hP : P.Random) (hg : P.leaf.Good) (h : build c P = .ok M)
    (cls : Bool) (bs : List (Tensor Fl × Tensor ℤ)) (hb : ∀ b ∈ bs, Labelled P.leaf M b ∧ b.1.size 0 ≠ 1) (s : EvalState) (v : ℝ)
    (hs : s.test_loss = .fin v) :
    ∃ s', bs.foldlM (evalStep M cls) s = .ok s' ∧
      s'.test_loss = .fin (v - ((examples bs).map fun e => Real.log (rowProb M e.1)).sum) ∧
      (cls = true → s'.total = s.total + (examples bs).length ∧
        s'.correct = s.correct + (examples bs).countP fun e => decide (Hit M e)) := by
  induction bs generalizing s v with
  | nil => exact ⟨s, rfl, by simp [examples, hs], fun _ => by simp [examples]⟩
  | cons b bs ih =>
    obtain ⟨⟨N, hx, ht⟩, h1⟩ := hb b (by simp)
    have hN : b.1.size 0 = N := by simp [size, hx.1, at']
    obtain ⟨y, hy, hys, hv⟩ := train_forward hP hg h hx
    obtain ⟨l, hl, hln, hsum, -⟩ := logLikelihoods_spec (train_classes hP h) hys (p := fun n k => classProb M k (rowAt b.1 n)) hv
    obtain ⟨a, ha, has, hav⟩ := argmax_spec (train_classes hP h) hys fun n hn k hk => (hv n hn k hk).2
    have hbest : ∀ n, n < N → ∀ k, a.get [n] = k ↔ Best M (rowAt b.1 n) k := by
      intro n hn k
      rw [hav n hn k]
      unfold Best
      refine and_congr_right fun hk => forall₂_congr fun j hj => ?_
      rw [Real.log_le_log_iff (hv n hn j hj).1 (hv n hn k hk).1, Real.log_lt_log_iff (hv n hn j hj).1 (hv n hn k hk).1]
    have hex : examples (b :: bs) = ((List.range N).map fun n => (rowAt b.1 n, b.2.get [n])) ++ examples bs := by
      simp [examples, hN]
    have hstep : ∃ s1, evalStep M cls s b = .ok s1 ∧
        s1.test_loss = .fin (v - ∑ n ∈ Finset.range N, Real.log (rowProb M (rowAt b.1 n))) ∧
        (cls = true → s1.total = s.total + N ∧ s1.correct = s.correct +
          (List.range N).countP fun n => decide (∃ k : Nat, Best M (rowAt b.1 n) k ∧ b.2.get [n] = k)) := by
      unfold evalStep
      rw [hy, Res.ok_bind, hl, Res.ok_bind]
      dsimp only
      unfold appendList
      rw [require_true _ (by omega), Res.ok_bind, Res.pure_eq, Res.ok_bind]
      have e : s.test_loss + Fl.fin (-1) * l.sumAll =
          .fin (v - ∑ n ∈ Finset.range N, Real.log (rowProb M (rowAt b.1 n))) := by
        rw [hs, hsum]
        show Fl.fin (v + -1 * _) = _
        congr 1
        unfold rowProb
        ring
      cases cls with
      | false => exact ⟨_, rfl, e, by simp⟩
      | true =>
        simp only [if_true]
        rw [ha, Res.ok_bind, require_true _ (by rw [ht, has]), Res.ok_bind]
        refine ⟨_, rfl, e, fun _ => ⟨?_, ?_⟩⟩
        · simp [size, ht, at']
        · simp only
          rw [correct_spec has (fun n k => Best M (rowAt b.1 n) k) hbest]
    obtain ⟨s1, hs1, hl1, hc1⟩ := hstep
    obtain ⟨s', hs', hl', hc'⟩ := ih (fun b' hb' => hb b' (by simp [hb'])) s1 _ hl1
    refine ⟨s', by rw [List.foldlM_cons, hs1]; exact hs', ?_, fun hcls => ?_⟩
    · rw [hl', hex, List.map_append, List.sum_append, List.map_map]
      congr 1
      have : (List.map ((fun e : Data × ℤ => Real.log (rowProb M e.1)) ∘ fun n => (rowAt b.1 n, b.2.get [n])) (List.range N)).sum =
          ∑ n ∈ Finset.range N, Real.log (rowProb M (rowAt b.1 n)) := by
        exact sum_map_range _ N
      rw [this]
      ring
    · obtain ⟨t1, t2⟩ := hc1 hcls
      obtain ⟨t3, t4⟩ := hc' hcls
      rw [hex, List.length_append, List.length_map, List.length_range, List.countP_append, List.countP_map, t3, t1, t4, t2]
      exact ⟨by omega, by rw [Nat.add_assoc]; rfl⟩

/-- **C58** (part), average: `test` reports the average of `-log p(X)` over the examples, and the percentage of examples whose
label is the most likely class, no matter how the loader splits them into batches.  Missing: batches with a single row
(`C58_refuted_single`). -/
theorem C58_average_partial (c : Config) (P : Params) (hP : P.Random) (hg : P.leaf.Good) (M : Model) (h : build c P = .ok M)
    (cls : Bool) (batches : List (Tensor Fl × Tensor ℤ)) (hb : ∀ b ∈ batches, Labelled P.leaf M b ∧ b.1.size 0 ≠ 1)
    (hne : examples batches ≠ []) :
    evaluate M cls batches (examples batches).length =
      .ok (.fin (-((examples batches).map fun e => Real.log (rowProb M e.1)).sum / (examples batches).length),
        if cls then some (.fin (100 * ((examples batches).countP fun e => decide (Hit M e)) /
          (examples batches).length)) else none) := by
  obtain ⟨s, hs, hl, hc⟩ := evalStep_fold hP hg h cls batches hb {} 0 rfl
  have hlen : (examples batches).length ≠ 0 := by simpa using hne
  unfold evaluate
  rw [hs, Res.ok_bind]
  have h1 : ¬(cls = true ∧ s.total = 0) := by
    rintro ⟨hcls, h0⟩
    have := (hc hcls).1
    simp at this; omega
  rw [require_true _ h1, Res.ok_bind]
  dsimp only
  rw [require_true _ (by tauto), Res.ok_bind, hl]
  have e : Fl.fin (0 - ((examples batches).map fun e => Real.log (rowProb M e.1)).sum) / Fl.fin (examples batches).length =
      .fin (-((examples batches).map fun e => Real.log (rowProb M e.1)).sum / (examples batches).length) := by
    rw [Fl.fin_div _ (by exact_mod_cast hlen), zero_sub]
  rw [e]
  cases cls with
  | false => rfl
  | true =>
    obtain ⟨h2, h3⟩ := hc rfl
    simp only [if_true, h2, h3, Nat.zero_add]
    rfl

/-- **C58**, training: the loss of main.py without classification is the average of `-log p(X)` over the batch. -/
theorem C58_train (c : Config) (P : Params) (hP : P.Random) (hg : P.leaf.Good) (M : Model) (h : build c P = .ok M)
    (N : Nat) (hN : 0 < N) (x : Tensor Fl) (hx : Batch P.leaf N M.num_channels M.num_features x) (t : Tensor ℤ) :
    trainLoss M false x t = .ok (.fin (-(∑ n ∈ Finset.range N, Real.log (rowProb M (rowAt x n))) / N)) := by
  obtain ⟨y, hy, hs, hv⟩ := train_forward hP hg h hx
  obtain ⟨l, h1, h2, h3, -⟩ := logLikelihoods_spec (train_classes hP h) hs (p := fun n k => classProb M k (rowAt x n)) hv
  unfold trainLoss
  rw [hy, Res.ok_bind]
  simp only [Bool.false_eq_true, if_false]
  rw [h1, Res.ok_bind]
  unfold meanAll
  rw [h2, h3, Fl.fin_div _ (by exact_mod_cast hN.ne')]
  show Except.ok (Fl.fin _) = _
  unfold rowProb
  congr 2
  ring

/-- **C58** (part), the order of the examples and the batch size do not matter. -/
theorem C58_split_partial (c : Config) (P : Params) (hP : P.Random) (hg : P.leaf.Good) (M : Model) (h : build c P = .ok M)
    (cls : Bool) (b1 b2 : List (Tensor Fl × Tensor ℤ)) (h1 : ∀ b ∈ b1, Labelled P.leaf M b ∧ b.1.size 0 ≠ 1)
    (h2 : ∀ b ∈ b2, Labelled P.leaf M b ∧ b.1.size 0 ≠ 1) (hne : examples b1 ≠ []) (hp : (examples b1).Perm (examples b2)) :
    evaluate M cls b1 (examples b1).length = evaluate M cls b2 (examples b1).length := by
  rw [C58_average_partial c P hP hg M h cls b1 h1 hne, hp.length_eq,
    C58_average_partial c P hP hg M h cls b2 h2 (fun e => hne (by rw [e] at hp; exact hp.eq_nil)),
    (hp.map fun e => Real.log (rowProb M e.1)).sum_eq, hp.countP_eq]

/-- **C58**, refuted: if one of the batches has exactly one row, as the last batch of a loader may, `test` raises. -/
theorem C58_refuted_single (c : Config) (P : Params) (hP : P.Random) (hg : P.leaf.Good) (M : Model) (h : build c P = .ok M)
    (cls : Bool) (bs : List (Tensor Fl × Tensor ℤ)) (hb : ∀ b ∈ bs, Labelled P.leaf M b ∧ b.1.size 0 ≠ 1)
    (b : Tensor Fl × Tensor ℤ) (h1 : Labelled P.leaf M b) (h1' : b.1.size 0 = 1) (rest : List (Tensor Fl × Tensor ℤ)) (len : Nat) :
    evaluate M cls (bs ++ b :: rest) len = .error .type := by
  obtain ⟨s, hs, -, -⟩ := evalStep_fold hP hg h cls bs hb {} 0 rfl
  obtain ⟨N, hx, ht⟩ := h1
  have hN : b.1.size 0 = N := by simp [size, hx.1, at']
  obtain ⟨y, hy, hys, hv⟩ := train_forward hP hg h hx
  obtain ⟨l, hl, hln, -, -⟩ := logLikelihoods_spec (train_classes hP h) hys (p := fun n k => classProb M k (rowAt b.1 n)) hv
  have e : evalStep M cls s b = .error .type := by
    unfold evalStep
    rw [hy, Res.ok_bind, hl, Res.ok_bind]
    dsimp only
    unfold appendList
    rw [require_false _ (by omega)]
    rfl
  unfold evaluate
  rw [List.foldlM_append, hs, Res.ok_bind, List.foldlM_cons, e]
  rfl

/-- two loaders of the same three examples: in one batch, and in two batches one of which has a single row; the labels are
classes. -/
example : ∃ M, build (exConfig "linsum" "bottom-up") (exParams exLeaf) = .ok M ∧ ∃ b b1 b2 : Tensor Fl × Tensor ℤ,
    Labelled (exParams exLeaf).leaf M b ∧ b.1.size 0 ≠ 1 ∧ Labelled (exParams exLeaf).leaf M b1 ∧ b1.1.size 0 ≠ 1 ∧
    Labelled (exParams exLeaf).leaf M b2 ∧ b2.1.size 0 = 1 ∧ examples [b] = examples [b1, b2] ∧ examples [b] ≠ [] ∧
    (∀ n, n < 3 → 0 ≤ b.2.get [n] ∧ b.2.get [n] < M.num_classes) := by
  obtain ⟨M, h⟩ := exConfig_normal (l := "linsum") (s := "bottom-up") (Or.inr ⟨rfl, rfl⟩)
  obtain ⟨e1, e2, e3⟩ := exSizes h
  refine ⟨M, h, (exBatch, ⟨[3], fun i => (at' 0 i : ℤ)⟩),
    (⟨[2, 2, 5], exBatch.get⟩, ⟨[2], fun i => (at' 0 i : ℤ)⟩),
    (⟨[1, 2, 5], fun i => exBatch.get [2, at' 1 i, at' 2 i]⟩, ⟨[1], fun _ => 2⟩), ⟨3, ?_, rfl⟩, ?_, ⟨2, ?_, rfl⟩, ?_, ⟨1, ?_, rfl⟩,
    rfl, rfl, ?_, fun n hn => ⟨?_, ?_⟩⟩
  · rw [e1, e2]; exact exBatch_batch
  · simp [size, exBatch, at']
  · rw [e1, e2]; exact ⟨rfl, fun n hn => exBatch_batch.2 n (by omega)⟩
  · simp [size, at']
  · rw [e1, e2]; exact ⟨rfl, fun n _ => exBatch_batch.2 2 (by omega)⟩
  · simp [examples, exBatch, size, at']
  · exact Int.natCast_nonneg _
  · rw [e3]; show ((n : ℕ) : ℤ) < _; exact_mod_cast hn

/-! ### C59 -/

theorem nllLoss_spec {y : Tensor Fl} {t : Tensor ℤ} {N K : Nat} (hN : 0 < N) (hs : y.shape = [N, K]) (ht : t.shape = [N])
    (hl : ∀ n, n < N → 0 ≤ t.get [n] ∧ t.get [n] < K) {q : Nat → Nat → ℝ}
    (hq : ∀ n, n < N → ∀ k, k < K → y.get [n, k] = .fin (q n k)) :
    nllLoss y t = .ok (.fin (-(∑ n ∈ Finset.range N, q n (t.get [n]).toNat) / N)) := by
  have h0 : y.size 0 = N := by simp [size, hs, at']
  have h1 : y.size 1 = K := by simp [size, hs, at']
  have hne : ∀ n, n < N → t.get [n] ≠ -100 := fun n hn => by have := (hl n hn).1; omega
  unfold nllLoss
  rw [require_true _ ⟨by simp [rank, hs], by rw [ht, h0]⟩, Res.ok_bind]
  dsimp only
  rw [h0, h1, require_true _ (fun n hn => Or.inr (hl n hn)), Res.ok_bind, Res.pure_eq]
  have e1 : (List.range N).countP (fun n => decide (t.get [n] ≠ -100)) = N := by
    rw [List.countP_eq_length.2 fun n hn => by simpa using hne n (List.mem_range.1 hn), List.length_range]
  have e2 : (Fl.sumN N fun n => if t.get [n] ≠ -100 then y.get [n, (t.get [n]).toNat] else .fin 0) =
      .fin (∑ n ∈ Finset.range N, q n (t.get [n]).toNat) := by
    refine Fl.sumN_eq_fin fun n hn => ?_
    rw [if_pos (hne n hn)]
    exact hq n hn _ (by have := hl n hn; omega)
  rw [e1, e2]
  show Except.ok (Fl.fin (-_) / Fl.fin N) = _
  rw [Fl.fin_div _ (by exact_mod_cast hN.ne')]

theorem train_posterior {c : Config} {P : Params} {M : Model} {N : Nat} {x : Tensor Fl} (hP : P.Random) (hg : P.leaf.Good)
    (h : build c P = .ok M) (hK : 2 ≤ M.num_classes) (hx : Batch P.leaf N M.num_channels M.num_features x) :
    ∃ p, M.posterior x = .ok p ∧ p.shape = [N, M.num_classes] ∧ ∀ n, n < N → ∀ k, k < M.num_classes →
      p.get [n, k] = .fin (Real.log (bayes M k (rowAt x n))) := by
  obtain ⟨y, hy, -, hv⟩ := train_forward hP hg h hx
  obtain ⟨y', p, v, q, hy', hp, hps, hq⟩ := C08_model c P hP hg M h hK N x hx
  rw [hy] at hy'
  cases hy'
  refine ⟨p, hp, hps, fun n hn k hk => ?_⟩
  have hvv : ∀ j, j < M.num_classes → Real.exp (v n j) = classProb M j (rowAt x n) := by
    intro j hj
    have h1 := ((hq n hn).1 j hj).1
    rw [(hv n hn j hj).2] at h1
    rw [← Fl.fin.inj h1, Real.exp_log (hv n hn j hj).1]
  obtain ⟨-, h2, h3⟩ := (hq n hn).1 k hk
  rw [h2, ← Real.log_exp (q n k), h3, hvv k hk, Finset.sum_congr rfl fun j hj => hvv j (Finset.mem_range.1 hj)]
  rfl

theorem train_sum_pos {c : Config} {P : Params} {M : Model} {N : Nat} {x : Tensor Fl} (hP : P.Random) (hg : P.leaf.Good)
    (h : build c P = .ok M) (hx : Batch P.leaf N M.num_channels M.num_features x) {n : Nat} (hn : n < N) :
    0 < ∑ j ∈ Finset.range M.num_classes, classProb M j (rowAt x n) := by
  obtain ⟨y, -, -, hv⟩ := train_forward hP hg h hx
  exact Finset.sum_pos (fun j hj => (hv n hn j (Finset.mem_range.1 hj)).1) ⟨0, Finset.mem_range.2 (train_classes hP h)⟩

/-- **C59**, models_pl.py: the loss of the discriminative model is the average of `-log p(label | row)`, which is not negative,
and the accuracy is the fraction of rows whose label is the most likely class. -/
theorem C59_loss (c : Config) (P : Params) (hP : P.Random) (hg : P.leaf.Good) (M : Model) (h : build c P = .ok M)
    (hK : 2 ≤ M.num_classes) (N : Nat) (hN : 0 < N) (x : Tensor Fl) (hx : Batch P.leaf N M.num_channels M.num_features x)
    (t : Tensor ℤ) (ht : t.shape = [N]) (hl : ∀ n, n < N → 0 ≤ t.get [n] ∧ t.get [n] < M.num_classes) :
    crossEntropyAndAccuracy M x t =
      .ok (.fin (-(∑ n ∈ Finset.range N, Real.log (bayes M (t.get [n]).toNat (rowAt x n))) / N),
        .fin ((((List.range N).countP fun n => decide (Hit M (rowAt x n, t.get [n])) : ℕ) : ℝ) / N)) ∧
    0 ≤ -(∑ n ∈ Finset.range N, Real.log (bayes M (t.get [n]).toNat (rowAt x n))) / N := by
  obtain ⟨p, hp, hps, hq⟩ := train_posterior hP hg h hK hx
  obtain ⟨y, hy, -, hv⟩ := train_forward hP hg h hx
  have hN0 : (N : ℝ) ≠ 0 := by exact_mod_cast hN.ne'
  obtain ⟨a, ha, has, hav⟩ := argmax_spec (by omega) hps hq
  have hpos : ∀ n, n < N → ∀ j, j < M.num_classes → 0 < bayes M j (rowAt x n) := fun n hn j hj =>
    div_pos (hv n hn j hj).1 (train_sum_pos hP hg h hx hn)
  have hbest : ∀ n, n < N → ∀ k, a.get [n] = k ↔ Best M (rowAt x n) k := by
    intro n hn k
    rw [hav n hn k]
    unfold Best
    refine and_congr_right fun hk => forall₂_congr fun j hj => ?_
    rw [Real.log_le_log_iff (hpos n hn j hj) (hpos n hn k hk), Real.log_lt_log_iff (hpos n hn j hj) (hpos n hn k hk)]
    unfold bayes
    rw [div_le_div_iff_of_pos_right (train_sum_pos hP hg h hx hn), div_lt_div_iff_of_pos_right (train_sum_pos hP hg h hx hn)]
  refine ⟨?_, div_nonneg (neg_nonneg.2 (Finset.sum_nonpos fun n hn => ?_)) (Nat.cast_nonneg N)⟩
  · unfold crossEntropyAndAccuracy
    rw [hp, Res.ok_bind, nllLoss_spec hN hps ht hl hq, Res.ok_bind, ha, Res.ok_bind,
      correct_spec has (fun n k => Best M (rowAt x n) k) hbest, show p.size 0 = N by simp [size, hps, at'], Fl.fin_div _ hN0]
    rfl
  · have hn := Finset.mem_range.1 hn
    have hk : (t.get [n]).toNat < M.num_classes := by have := hl n hn; omega
    refine Real.log_nonpos (hpos n hn _ hk).le ?_
    unfold bayes
    rw [div_le_one (train_sum_pos hP hg h hx hn)]
    exact Finset.single_le_sum (f := fun j => classProb M j (rowAt x n))
      (fun j hj => (hv n hn j (Finset.mem_range.1 hj)).1.le) (Finset.mem_range.2 hk)

/-- **C59**, models_pl.py: labels that are no classes (and not the marker -100 of torch) are rejected. -/
theorem C59_rejects (c : Config) (P : Params) (hP : P.Random) (hg : P.leaf.Good) (M : Model) (h : build c P = .ok M)
    (hK : 2 ≤ M.num_classes) (N : Nat) (x : Tensor Fl) (hx : Batch P.leaf N M.num_channels M.num_features x)
    (t : Tensor ℤ) (ht : t.shape = [N]) (n : Nat) (hn : n < N) (h1 : t.get [n] ≠ -100)
    (h2 : t.get [n] < 0 ∨ M.num_classes ≤ t.get [n]) : crossEntropyAndAccuracy M x t = .error .index := by
  obtain ⟨p, hp, hps, -⟩ := train_posterior hP hg h hK hx
  have h0 : p.size 0 = N := by simp [size, hps, at']
  have h3 : p.size 1 = M.num_classes := by simp [size, hps, at']
  unfold crossEntropyAndAccuracy nllLoss
  rw [hp, Res.ok_bind, require_true _ ⟨by simp [rank, hps], by rw [ht, h0]⟩, Res.ok_bind]
  dsimp only
  rw [h0, h3, require_false _ (fun hall => ?_)]
  · rfl
  · rcases hall n hn with e | ⟨e1, e2⟩
    · exact h1 e
    · omega

/-- **C59** (part), main.py: the loss used for classification is the loss of the class-conditional likelihoods: it is smaller than
the one of the posterior by the average of `log` of the sum of all likelihoods.  Missing: that it is the loss of the posterior
(`C59_refuted_train`). -/
theorem C59_train_partial (c : Config) (P : Params) (hP : P.Random) (hg : P.leaf.Good) (M : Model) (h : build c P = .ok M)
    (hK : 2 ≤ M.num_classes) (N : Nat) (hN : 0 < N) (x : Tensor Fl) (hx : Batch P.leaf N M.num_channels M.num_features x)
    (t : Tensor ℤ) (ht : t.shape = [N]) (hl : ∀ n, n < N → 0 ≤ t.get [n] ∧ t.get [n] < M.num_classes) :
    trainLoss M true x t =
      .ok (.fin (-(∑ n ∈ Finset.range N, Real.log (bayes M (t.get [n]).toNat (rowAt x n))) / N -
        (∑ n ∈ Finset.range N, Real.log (∑ j ∈ Finset.range M.num_classes, classProb M j (rowAt x n))) / N)) := by
  obtain ⟨p, hp, hps, hq⟩ := train_posterior hP hg h hK hx
  obtain ⟨y, hy, hys, hv⟩ := train_forward hP hg h hx
  unfold trainLoss
  rw [hy, Res.ok_bind]
  simp only [if_true]
  rw [hp, Res.ok_bind, nllLoss_spec hN hys ht hl fun n hn k hk => (hv n hn k hk).2]
  congr 2
  rw [← sub_div, ← neg_add', ← Finset.sum_add_distrib]
  congr 2
  refine Finset.sum_congr rfl fun n hn => ?_
  have hn := Finset.mem_range.1 hn
  have hk : (t.get [n]).toNat < M.num_classes := by have := hl n hn; omega
  unfold bayes
  rw [Real.log_div (hv n hn _ hk).1.ne' (train_sum_pos hP hg h hx hn).ne', sub_add_cancel]

/-- **C59**, refuted for main.py: every classifier with continuous leaves has a row for which the loss of main.py differs from
the one of the posterior, whatever the label. -/
theorem C59_refuted_train (c : Config) (P : Params) (hP : P.Random) (hg : P.leaf.Good) (M : Model) (h : build c P = .ok M)
    (hK : 2 ≤ M.num_classes) (hr : P.leaf.ref = volume) :
    ∃ x : Tensor Fl, Batch P.leaf 1 M.num_channels M.num_features x ∧ ∀ k : Nat, k < M.num_classes → ∀ v : Fl × Fl,
      crossEntropyAndAccuracy M x (full [1] (k : ℤ)) = .ok v → trainLoss M true x (full [1] (k : ℤ)) ≠ .ok v.1 := by
  by_contra hcon
  push Not at hcon
  have key : ∀ᵐ ω : Fin M.num_channels → Fin M.num_features → ℝ ∂(Measure.pi fun _ => Measure.pi fun _ => P.leaf.ref),
      ENNReal.ofReal (rowProb M (Pt.data ω)) = (M.num_classes : ℝ≥0∞)⁻¹ := by
    filter_upwards [train_point hP hg h] with ω hω
    obtain ⟨k, hk, v, hv, hv'⟩ := hcon _ hω
    have hl : ∀ n, n < 1 → 0 ≤ (full [1] (k : ℤ)).get [n] ∧ (full [1] (k : ℤ)).get [n] < M.num_classes :=
      fun n _ => ⟨Int.natCast_nonneg k, by show (k : ℤ) < _; exact_mod_cast hk⟩
    rw [(C59_loss c P hP hg M h hK 1 one_pos _ hω _ rfl hl).1] at hv
    rw [C59_train_partial c P hP hg M h hK 1 one_pos _ hω _ rfl hl, ← Except.ok.inj hv] at hv'
    have e := Fl.fin.inj (Except.ok.inj hv')
    simp only [Finset.range_one, Finset.sum_singleton, Nat.cast_one, div_one, sub_eq_self] at e
    have hpos := train_sum_pos hP hg h hω (n := 0) one_pos
    have e' : ∑ j ∈ Finset.range M.num_classes, classProb M j (Pt.data ω) = 1 := by
      exact (Real.exp_log hpos).symm.trans ((congrArg Real.exp e).trans Real.exp_zero)
    unfold rowProb
    rw [e', one_div, ENNReal.ofReal_inv_of_pos (by exact_mod_cast (by omega : 0 < M.num_classes)), ENNReal.ofReal_natCast]
  have hi := C58_integral c P hP hg M h
  obtain ⟨hz, -⟩ := build_WF hP h
  obtain ⟨v1, v2, -⟩ := (assertValid_iff c).1 (build_valid h)
  have hC : M.num_channels ≠ 0 := by rw [hz.channels]; omega
  have hF : M.num_features ≠ 0 := by rw [hz.features]; omega
  rw [lintegral_congr_ae key, lintegral_const, hr, Measure.pi_univ] at hi
  simp only [Measure.pi_univ, Real.volume_univ, Finset.prod_const, Finset.card_univ, Fintype.card_fin] at hi
  rw [ENNReal.top_pow hF, ENNReal.top_pow hC, ENNReal.mul_top (by simp)] at hi
  exact ENNReal.top_ne_one hi

/-- a classifier with continuous leaves, a batch with labels, and one whose last label is no class. -/
example : ∃ M, build (exConfig "einsum" "top-down") (exParams exLeaf) = .ok M ∧ 2 ≤ M.num_classes ∧
    (exParams exLeaf).leaf.ref = volume ∧ ∃ t t' : Tensor ℤ, t.shape = [3] ∧ t'.shape = [3] ∧
    Batch (exParams exLeaf).leaf 3 M.num_channels M.num_features exBatch ∧
    (∀ n, n < 3 → 0 ≤ t.get [n] ∧ t.get [n] < M.num_classes) ∧ t'.get [2] ≠ -100 ∧ M.num_classes ≤ t'.get [2] := by
  obtain ⟨M, h⟩ := exConfig_normal (l := "einsum") (s := "top-down") (Or.inl ⟨Or.inr (Or.inr rfl), rfl⟩)
  obtain ⟨e1, e2, e3⟩ := exSizes h
  refine ⟨M, h, by omega, rfl, ⟨[3], fun i => (at' 0 i : ℤ)⟩, ⟨[3], fun i => (at' 0 i + 1 : ℤ)⟩, rfl, rfl,
    by rw [e1, e2]; exact exBatch_batch, fun n hn => ⟨Int.natCast_nonneg _, ?_⟩, by decide, by rw [e3]; decide⟩
  rw [e3]; show ((n : ℕ) : ℤ) < _; exact_mod_cast hn

/-! ### C60 -/

/-- the loss of the generative model with any number of classes. -/
theorem negativeLogLikelihood_mean {c : Config} {P : Params} {M : Model} (hP : P.Random) (hg : P.leaf.Good) (h : build c P = .ok M)
    {N : Nat} (hN : 0 < N) {x : Tensor Fl} (hx : Batch P.leaf N M.num_channels M.num_features x) :
    negativeLogLikelihood M x = .ok (.fin (-(∑ n ∈ Finset.range N, (∑ k ∈ Finset.range M.num_classes,
      Real.log (classProb M k (rowAt x n))) / M.num_classes) / N)) := by
  obtain ⟨y, hy, hys, hv⟩ := train_forward hP hg h hx
  have hK := train_classes hP h
  have hK0 : (M.num_classes : ℝ) ≠ 0 := by exact_mod_cast hK.ne'
  have hN0 : (N : ℝ) ≠ 0 := by exact_mod_cast hN.ne'
  unfold negativeLogLikelihood
  rw [hy, Res.ok_bind]
  simp only [if_true]
  have e : (y.map (Fl.fin (-1) * ·)).sumAll =
      .fin (∑ n ∈ Finset.range N, ∑ k ∈ Finset.range M.num_classes, -1 * Real.log (classProb M k (rowAt x n))) := by
    refine sumAll_two (t := y.map (Fl.fin (-1) * ·)) (v := fun n k => -1 * Real.log (classProb M k (rowAt x n))) hys
      fun n hn k hk => ?_
    show Fl.fin (-1) * y.get [n, k] = _
    rw [(hv n hn k hk).2]
    rfl
  unfold meanAll
  rw [e, show (y.map (Fl.fin (-1) * ·)).numel = N * M.num_classes by simp [numel, Tensor.map, hys, numelS],
    Fl.fin_div _ (by push_cast; exact mul_ne_zero hN0 hK0)]
  show Except.ok (Fl.fin _) = _
  congr 2
  simp only [← Finset.mul_sum, ← Finset.sum_div]
  push_cast
  field_simp

/-- **C60**, one class: the loss of the generative model is the average of `-log p(X)`. -/
theorem C60_single (c : Config) (P : Params) (hP : P.Random) (hg : P.leaf.Good) (M : Model) (h : build c P = .ok M)
    (hK : M.num_classes = 1) (N : Nat) (hN : 0 < N) (x : Tensor Fl) (hx : Batch P.leaf N M.num_channels M.num_features x) :
    negativeLogLikelihood M x = .ok (.fin (-(∑ n ∈ Finset.range N, Real.log (rowProb M (rowAt x n))) / N)) := by
  rw [negativeLogLikelihood_mean hP hg h hN hx]
  unfold rowProb
  simp [hK]

theorem log_mean {K : Nat} (hK : 0 < K) {p : Nat → ℝ} (hp : ∀ k, k < K → 0 < p k) :
    (∑ k ∈ Finset.range K, Real.log (p k)) / K ≤ Real.log ((∑ k ∈ Finset.range K, p k) / K) ∧
    ((∃ j k, j < K ∧ k < K ∧ p j ≠ p k) →
      (∑ k ∈ Finset.range K, Real.log (p k)) / K < Real.log ((∑ k ∈ Finset.range K, p k) / K)) := by
  have hK0 : (0 : ℝ) < K := by exact_mod_cast hK
  have hw : ∑ _k ∈ Finset.range K, (1 / K : ℝ) = 1 := by simp [hK0.ne']
  have e1 : (∑ k ∈ Finset.range K, Real.log (p k)) / K = ∑ k ∈ Finset.range K, (1 / K : ℝ) • Real.log (p k) := by
    simp only [smul_eq_mul, ← Finset.mul_sum]; ring
  have e2 : (∑ k ∈ Finset.range K, p k) / K = ∑ k ∈ Finset.range K, (1 / K : ℝ) • p k := by
    simp only [smul_eq_mul, ← Finset.mul_sum]; ring
  rw [e1, e2]
  refine ⟨strictConcaveOn_log_Ioi.concaveOn.le_map_sum (fun _ _ => by positivity) hw
    fun k hk => hp k (Finset.mem_range.1 hk), ?_⟩
  rintro ⟨j, k, hj, hk, hne⟩
  exact strictConcaveOn_log_Ioi.lt_map_sum (fun _ _ => by positivity) hw (fun k hk => hp k (Finset.mem_range.1 hk))
    ⟨j, Finset.mem_range.2 hj, k, Finset.mem_range.2 hk, hne⟩

/-- **C60** (part), any number of classes: the loss is finite and an upper bound of the average of `-log p(X)`.  Missing: that it is
this average (`C60_refuted_classes`). -/
theorem C60_bound_partial (c : Config) (P : Params) (hP : P.Random) (hg : P.leaf.Good) (M : Model) (h : build c P = .ok M)
    (N : Nat) (hN : 0 < N) (x : Tensor Fl) (hx : Batch P.leaf N M.num_channels M.num_features x) :
    ∃ v, negativeLogLikelihood M x = .ok (.fin v) ∧ -(∑ n ∈ Finset.range N, Real.log (rowProb M (rowAt x n))) / N ≤ v := by
  refine ⟨_, negativeLogLikelihood_mean hP hg h hN hx, div_le_div_of_nonneg_right (neg_le_neg (Finset.sum_le_sum fun n hn => ?_))
    (Nat.cast_nonneg N)⟩
  obtain ⟨y, -, -, hv⟩ := train_forward hP hg h hx
  exact (log_mean (train_classes hP h) fun k hk => (hv n (Finset.mem_range.1 hn) k hk).1).1

/-- **C60**, refuted for several classes: as soon as two classes assign different likelihoods to a row, the loss is larger than the
average of `-log p(X)`. -/
theorem C60_refuted_classes (c : Config) (P : Params) (hP : P.Random) (hg : P.leaf.Good) (M : Model) (h : build c P = .ok M)
    (N : Nat) (x : Tensor Fl) (hx : Batch P.leaf N M.num_channels M.num_features x) (n j k : Nat) (hn : n < N)
    (hj : j < M.num_classes) (hk : k < M.num_classes) (hne : classProb M j (rowAt x n) ≠ classProb M k (rowAt x n)) :
    ∃ v, negativeLogLikelihood M x = .ok (.fin v) ∧ -(∑ n ∈ Finset.range N, Real.log (rowProb M (rowAt x n))) / N < v := by
  obtain ⟨y, -, -, hv⟩ := train_forward hP hg h hx
  refine ⟨_, negativeLogLikelihood_mean hP hg h (by omega) hx,
    div_lt_div_of_pos_right (neg_lt_neg (Finset.sum_lt_sum (fun n hn => ?_) ⟨n, Finset.mem_range.2 hn, ?_⟩))
      (by exact_mod_cast (by omega : 0 < N))⟩
  · exact (log_mean (train_classes hP h) fun k hk => (hv n (Finset.mem_range.1 hn) k hk).1).1
  · exact (log_mean (train_classes hP h) fun k hk => (hv n hn k hk).1).2 ⟨j, k, hj, hk, hne⟩

/-- **C60**, a concrete model with two classes: they assign 5/12 and 7/18 to the row, so the loss is larger. -/
theorem C60_refuted_example : ∃ (c : Config) (P : Params) (M : Model) (x : Tensor Fl), P.Random ∧ P.leaf.Good ∧
    build c P = .ok M ∧ Batch P.leaf 1 M.num_channels M.num_features x ∧
    classProb M 0 (rowAt x 0) = 5 / 12 ∧ classProb M 1 (rowAt x 0) = 7 / 18 ∧
    ∃ v, negativeLogLikelihood M x = .ok (.fin v) ∧ -(∑ n ∈ Finset.range 1, Real.log (rowProb M (rowAt x n))) / (1 : ℕ) < v := by
  obtain ⟨M, h⟩ := wit_exists (F := 2) (K := 2) (d := 0) (by norm_num) (by norm_num) (by norm_num) (by norm_num)
    w2 (fun _ => 0)
  have hx : Batch (wParams w2 fun _ => 0).leaf 1 M.num_channels M.num_features ⟨[1, 1, 2], fun i => evRow (at' 1 i) (at' 2 i)⟩ := by
    rw [h.channels, h.features]
    exact ⟨rfl, fun n _ => evRow_data⟩
  have h0 : classProb M 0 evRow = 5 / 12 := by
    unfold classProb
    rw [w2_density h (by omega), if_pos rfl, ENNReal.toReal_ofReal (by norm_num)]
  have h1 : classProb M 1 evRow = 7 / 18 := by
    unfold classProb
    rw [w2_density h (by omega), if_neg (by omega), ENNReal.toReal_ofReal (by norm_num)]
  refine ⟨_, _, M, _, wParams_random _ _, wLeaf_good.1, h.build, hx, h0, h1, ?_⟩
  refine C60_refuted_classes _ _ (wParams_random _ _) wLeaf_good.1 M h.build 1 _ hx 0 0 1 (by omega) (by rw [h.classes]; omega)
    (by rw [h.classes]; omega) ?_
  exact ne_of_eq_of_ne h0 (ne_of_ne_of_eq (by norm_num) h1.symm)

/-- **C60**: other names of a reduction are rejected, and `sum` adds up. -/
theorem C60_reduction (c : Config) (P : Params) (hP : P.Random) (hg : P.leaf.Good) (M : Model) (h : build c P = .ok M)
    (N : Nat) (x : Tensor Fl) (hx : Batch P.leaf N M.num_channels M.num_features x) :
    (∀ r, r ≠ "mean" → r ≠ "sum" → negativeLogLikelihood M x r = .error .value) ∧
    (M.num_classes = 1 →
      negativeLogLikelihood M x "sum" = .ok (.fin (-∑ n ∈ Finset.range N, Real.log (rowProb M (rowAt x n))))) := by
  obtain ⟨y, hy, hys, hv⟩ := train_forward hP hg h hx
  refine ⟨fun r h1 h2 => ?_, fun hK => ?_⟩
  · unfold negativeLogLikelihood
    rw [hy, Res.ok_bind]
    simp only [h1, h2, if_false]
  · unfold negativeLogLikelihood
    rw [hy, Res.ok_bind]
    have e : (y.map (Fl.fin (-1) * ·)).sumAll =
        .fin (∑ n ∈ Finset.range N, ∑ k ∈ Finset.range M.num_classes, -1 * Real.log (classProb M k (rowAt x n))) := by
      refine sumAll_two (t := y.map (Fl.fin (-1) * ·)) (v := fun n k => -1 * Real.log (classProb M k (rowAt x n))) hys
        fun n hn k hk => ?_
      show Fl.fin (-1) * y.get [n, k] = _
      rw [(hv n hn k hk).2]
      rfl
    rw [if_neg (by decide), if_pos rfl, e]
    unfold rowProb
    simp [hK]

/-- an image model with continuous leaves and one class. -/
def exGrey : Config := { exImage with num_classes := 1 }

theorem exGrey_builds : ∃ M, build exGrey (exParams exLeaf) = .ok M ∧ M.num_classes = 1 ∧ M.num_channels = 1 ∧ M.num_features = 6 := by
  have h : ∃ M, build exGrey (exParams exLeaf) = .ok M := by
    refine build_iff.2 ⟨(assertValid_iff _).2 ⟨by norm_num [exGrey, exImage, exConfig], by norm_num [exGrey, exImage, exConfig],
      by norm_num [exGrey, exImage, exConfig], by norm_num [exGrey, exImage, exConfig], by norm_num [exGrey, exImage, exConfig],
      by norm_num [exGrey, exImage, exConfig], ?_, rfl, by simp [exGrey, exImage, exConfig], by simp [exGrey, exImage, exConfig],
      by simp [exGrey, exImage, exConfig], by norm_num [exGrey, exImage, exConfig],
      by norm_num [exGrey, exImage, exConfig, Int.fdiv_one]⟩,
      ⟨normalLeaf _ _ _, by simp [exParams, exLeaf, LeafSpec.build, exGrey, exImage, exConfig]; rfl⟩,
      by norm_num [exGrey, exImage, exConfig], fun _ => by norm_num [exGrey, exImage, exConfig],
      fun _ => ⟨1 / 4, rfl, by norm_num, by norm_num⟩⟩
    rintro q ⟨⟩
    norm_num [Fl.lt]
  obtain ⟨M, h⟩ := h
  have hs := (build_WF (exParams_random _) h).1
  exact ⟨M, h, by rw [hs.classes]; rfl, by rw [hs.channels]; rfl, by rw [hs.features]; rfl⟩

/-- a batch for a model with one class. -/
example : ∃ M, build exGrey (exParams exLeaf) = .ok M ∧ M.num_classes = 1 ∧
    Batch (exParams exLeaf).leaf 3 M.num_channels M.num_features ⟨[3, 1, 6], fun i => .fin i.sum⟩ := by
  obtain ⟨M, h, h1, h2, h3⟩ := exGrey_builds
  refine ⟨M, h, h1, by rw [h2, h3], fun n _ c _ f _ => Or.inr ⟨_, rfl, by simp [exParams, exLeaf, LeafSpec.InSupport]⟩⟩

/-! ### C61 -/

/-- `p` of the pixel values: the density of `z = n_bins * (x + 1/2)` if `x` has the density of the model. -/
def pixelDensity (M : Model) (B : Nat) (z : Fin M.num_channels → Fin M.num_features → ℝ) : ℝ≥0∞ :=
  M.density none 0 (Pt.data fun c f => z c f / B - 1 / 2) / (B : ℝ≥0∞) ^ (M.num_channels * M.num_features)

theorem calcBpd_spec {y : Tensor Fl} {N : Nat} (hN : 0 < N) (hs : y.shape = [N, 1]) {v : Nat → ℝ}
    (hv : ∀ n, n < N → y.get [n, 0] = .fin (v n)) (C H W : Nat) (hD : C * H * W ≠ 0) (g : Bool) (B : Nat) :
    calcBpd y (C, H, W) g B =
      .fin ((∑ n ∈ Finset.range N, (-v n / Real.log 2 / (C * H * W : ℕ) + Real.log B / Real.log 2)) / N) := by
  have hN0 : (N : ℝ) ≠ 0 := by exact_mod_cast hN.ne'
  have hD0 : ((C * H * W : ℕ) : ℝ) ≠ 0 := by exact_mod_cast hD
  have h2 : Real.log 2 ≠ 0 := (Real.log_pos (by norm_num)).ne'
  have key : ((y.map fun v => v - Fl.fin (Real.log B * (C * H * W : ℕ))).map
      fun v => -v / Fl.fin (Real.log 2 * (C * H * W : ℕ))).meanAll =
      .fin ((∑ n ∈ Finset.range N, (-v n / Real.log 2 / (C * H * W : ℕ) + Real.log B / Real.log 2)) / N) := by
    unfold meanAll
    rw [sumAll_two (t := (y.map fun v => v - Fl.fin (Real.log B * (C * H * W : ℕ))).map
      fun v => -v / Fl.fin (Real.log 2 * (C * H * W : ℕ))) (N := N) (K := 1) hs (v := fun n _ => -v n / Real.log 2 / (C * H * W : ℕ) + Real.log B / Real.log 2)]
    · rw [show Tensor.numel _ = N by simp [numel, Tensor.map, hs, numelS], Fl.fin_div _ hN0]
      simp
    · intro n hn k hk
      obtain rfl : k = 0 := by omega
      show -(y.get [n, 0] - Fl.fin (Real.log B * (C * H * W : ℕ))) / Fl.fin (Real.log 2 * (C * H * W : ℕ)) = _
      rw [hv n hn]
      show Fl.fin (-(v n + -(Real.log B * (C * H * W : ℕ)))) / _ = _
      rw [Fl.fin_div _ (mul_ne_zero h2 hD0)]
      congr 1
      field_simp
      ring
  unfold calcBpd
  cases g <;> exact key

/-- the change of variables from pixel values to inputs of the model. -/
theorem pixel_qmp {C F B : Nat} (hB : 0 < B) :
    Measure.QuasiMeasurePreserving (fun (z : Fin C → Fin F → ℝ) c f => z c f / (B : ℝ) - 1 / 2) volume volume := by
  have hB0 : (B : ℝ)⁻¹ ≠ 0 := inv_ne_zero (by exact_mod_cast hB.ne')
  have h1 : Measure.QuasiMeasurePreserving (fun z : Fin C → Fin F → ℝ => (B : ℝ)⁻¹ • z) volume volume :=
    ⟨measurable_const_smul _, by
      rw [show (fun z : Fin C → Fin F → ℝ => (B : ℝ)⁻¹ • z) = ((B : ℝ)⁻¹ • ·) from rfl, Measure.map_addHaar_smul _ hB0]
      exact Measure.smul_absolutelyContinuous⟩
  have h2 := (measurePreserving_sub_right (volume : Measure (Fin C → Fin F → ℝ)) fun _ _ => 1 / 2).quasiMeasurePreserving
  refine cast (congrArg (fun T => Measure.QuasiMeasurePreserving T volume volume) ?_) (h2.comp h1)
  funext z c f
  simp [div_eq_inv_mul]

/-- the density of the pixel values is measurable and positive almost everywhere. -/
theorem pixel_ae {c : Config} {P : Params} {M : Model} (hP : P.Random) (hg : P.leaf.Good) (h : build c P = .ok M)
    (hr : P.leaf.ref = volume) {B : Nat} (hB : 0 < B) :
    AEMeasurable (pixelDensity M B) volume ∧
    ∀ᵐ z ∂(volume : Measure (Fin M.num_channels → Fin M.num_features → ℝ)), pixelDensity M B z ≠ 0 := by
  obtain ⟨-, hw, hp, _⟩ := build_WF hP h
  constructor
  · have := Model.density_aemeasurable hw (hp hg) (Model.observed_nan _) (train_classes hP h)
    unfold missing at this
    simp only [if_true] at this
    rw [LeafSpec.ref_eq (build_leaf hP h), hr] at this
    exact (AEMeasurable.comp_quasiMeasurePreserving (g := fun ω : Fin M.num_channels → Fin M.num_features → ℝ =>
      M.density none 0 (Pt.data ω)) this (pixel_qmp hB)).div_const _
  · have := train_point hP hg h
    rw [hr] at this
    filter_upwards [(pixel_qmp hB).ae this] with z hz
    obtain ⟨y, -, -, hv⟩ := build_log hP hg h hz
    have h0 : 0 < (M.density none 0 (Pt.data fun c f => z c f / (B : ℝ) - 1 / 2)).toReal := (hv 0 one_pos 0 (train_classes hP h)).1
    exact ENNReal.div_ne_zero.2 ⟨fun e => by rw [e] at h0; simp at h0, by simp⟩

/-- **C61**, density of the pixel values: it integrates to one. -/
theorem C61_density (c : Config) (P : Params) (hP : P.Random) (hg : P.leaf.Good) (M : Model) (h : build c P = .ok M)
    (hr : P.leaf.ref = volume) (B : Nat) (hB : 0 < B) :
    ∫⁻ z : Fin M.num_channels → Fin M.num_features → ℝ, pixelDensity M B z = 1 := by
  have hi := C01_density_integral c P hP hg M h 0 (train_classes hP h)
  rw [hr] at hi
  set g : (Fin M.num_channels → Fin M.num_features → ℝ) → ℝ≥0∞ := fun ω => M.density none 0 (Pt.data ω) with hgdef
  have hi' : ∫⁻ ω, g ω = 1 := hi
  have hB0 : (B : ℝ) ≠ 0 := by exact_mod_cast hB.ne'
  have hB1 : (B : ℝ)⁻¹ ≠ 0 := inv_ne_zero hB0
  have e : ∀ z, pixelDensity M B z =
      ((B : ℝ≥0∞) ^ (M.num_channels * M.num_features))⁻¹ * (fun w => g (w - fun _ _ => 1 / 2)) ((B : ℝ)⁻¹ • z) := by
    intro z
    unfold pixelDensity
    rw [ENNReal.div_eq_inv_mul]
    have : (fun c f => z c f / (B : ℝ) - 1 / 2) = (B : ℝ)⁻¹ • z - fun _ _ => 1 / 2 := by
      funext c f
      simp [div_eq_inv_mul]
    rw [this]
  simp only [e]
  rw [lintegral_const_mul' _ _ (by simp; omega)]
  have e2 := lintegral_map_equiv (μ := (volume : Measure (Fin M.num_channels → Fin M.num_features → ℝ)))
    (fun w => g (w - fun _ _ => 1 / 2)) (MeasurableEquiv.smul₀ (B : ℝ)⁻¹ hB1)
  have e3 : Measure.map (MeasurableEquiv.smul₀ (B : ℝ)⁻¹ hB1) (volume : Measure (Fin M.num_channels → Fin M.num_features → ℝ)) = _ :=
    Measure.map_addHaar_smul _ hB1
  rw [e3, lintegral_smul_measure, lintegral_sub_right_eq_self, hi'] at e2
  refine (congrArg _ e2.symm).trans ?_
  have hd : Module.finrank ℝ (Fin M.num_channels → Fin M.num_features → ℝ) = M.num_channels * M.num_features := by
    rw [Module.finrank_pi_fintype]; simp
  rw [hd, Units.val_mk0, inv_pow, inv_inv, abs_of_nonneg (by positivity), ENNReal.ofReal_pow (by positivity), ENNReal.ofReal_natCast, smul_eq_mul,
    mul_one]
  exact ENNReal.inv_mul_cancel (by simp; omega) (by simp)

/-- the pixel values of a bin: `b <= z < b + 1` for every pixel. -/
def Bin {C F : Nat} (b : Fin C → Fin F → ℤ) : Set (Fin C → Fin F → ℝ) :=
  Set.univ.pi fun c => Set.univ.pi fun f => Set.Ico (b c f : ℝ) (b c f + 1)

/-- the probability of a quantised image: the integral of the density of the pixel values over its bin. -/
def binProb (M : Model) (B : Nat) (b : Fin M.num_channels → Fin M.num_features → ℤ) : ℝ≥0∞ :=
  ∫⁻ z in Bin b, pixelDensity M B z

theorem Bin.mem {C F : Nat} {b : Fin C → Fin F → ℤ} {z : Fin C → Fin F → ℝ} : z ∈ Bin b ↔ ∀ c f, ⌊z c f⌋ = b c f := by
  simp [Bin, Set.mem_pi, Int.floor_eq_iff]

theorem Bin.measurable {C F : Nat} (b : Fin C → Fin F → ℤ) : MeasurableSet (Bin b) :=
  MeasurableSet.univ_pi fun _ => MeasurableSet.univ_pi fun _ => measurableSet_Ico

/-- **C61**, the probabilities of the quantised images add up to one. -/
theorem C61_bins (c : Config) (P : Params) (hP : P.Random) (hg : P.leaf.Good) (M : Model) (h : build c P = .ok M)
    (hr : P.leaf.ref = volume) (B : Nat) (hB : 0 < B) : ∑' b, binProb M B b = 1 := by
  rw [← C61_density c P hP hg M h hr B hB]
  unfold binProb
  rw [← lintegral_iUnion (fun b => Bin.measurable b)]
  · rw [show (⋃ b, Bin b) = (Set.univ : Set (Fin M.num_channels → Fin M.num_features → ℝ)) from ?_, Measure.restrict_univ]
    exact Set.eq_univ_of_forall fun z => Set.mem_iUnion.2 ⟨fun c f => ⌊z c f⌋, Bin.mem.2 fun _ _ => rfl⟩
  · intro b b' hne
    refine Set.disjoint_left.2 fun z hz hz' => hne ?_
    funext c f
    exact (Bin.mem.1 hz c f).symm.trans (Bin.mem.1 hz' c f)

theorem Bin.volume {C F : Nat} (b : Fin C → Fin F → ℤ) : (volume : Measure (Fin C → Fin F → ℝ)) (Bin b) = 1 := by
  unfold Bin
  rw [volume_pi_pi]
  refine Finset.prod_eq_one fun c _ => ?_
  rw [volume_pi_pi]
  exact Finset.prod_eq_one fun f _ => by simp

/-- **C61**, the bound: with uniform dequantisation noise the probability that the density at the noisy pixels exceeds the
probability of the quantised image by `t` bits or more is at most `2^(-t)`. -/
theorem C61_noise (c : Config) (P : Params) (hP : P.Random) (hg : P.leaf.Good) (M : Model) (h : build c P = .ok M)
    (hr : P.leaf.ref = volume) (B : Nat) (hB : 0 < B) (b : Fin M.num_channels → Fin M.num_features → ℤ) (t : Nat) :
    0 < binProb M B b ∧
    (volume.restrict (Bin b)) {z | 2 ^ t * binProb M B b ≤ pixelDensity M B z} ≤ (2 ^ t)⁻¹ ∧
    IsProbabilityMeasure ((volume : Measure (Fin M.num_channels → Fin M.num_features → ℝ)).restrict (Bin b)) := by
  obtain ⟨hm, hpos⟩ := pixel_ae hP hg h hr hB
  have hpr : IsProbabilityMeasure ((volume : Measure (Fin M.num_channels → Fin M.num_features → ℝ)).restrict (Bin b)) :=
    ⟨by rw [Measure.restrict_apply_univ, Bin.volume]⟩
  have h0 : binProb M B b ≠ 0 := by
    intro e
    have := (lintegral_eq_zero_iff' hm.restrict).1 e
    have hf : ∀ᵐ z ∂((volume : Measure (Fin M.num_channels → Fin M.num_features → ℝ)).restrict (Bin b)), False := by
      filter_upwards [this, ae_restrict_of_ae hpos] with z h1 h2 using h2 h1
    have := (ae_iff.1 hf)
    simp at this
  have hle : binProb M B b ≤ 1 := by
    rw [← C61_density c P hP hg M h hr B hB]
    exact setLIntegral_le_lintegral _ _
  have ht : binProb M B b ≠ ⊤ := ne_top_of_le_ne_top ENNReal.one_ne_top hle
  refine ⟨pos_iff_ne_zero.2 h0, ?_, hpr⟩
  have key := meas_ge_le_lintegral_div hm.restrict (ε := 2 ^ t * binProb M B b) (mul_ne_zero (by simp) h0)
    (ENNReal.mul_ne_top (by simp) ht) (μ := volume.restrict (Bin b))
  refine key.trans (le_of_eq ?_)
  show binProb M B b / _ = _
  rw [ENNReal.div_eq_inv_mul, ENNReal.mul_inv (by simp) (by simp), mul_assoc, ENNReal.inv_mul_cancel h0 ht, mul_one]

theorem density_rows {c : Config} {P : Params} {M : Model} (hP : P.Random) (hg : P.leaf.Good) (h : build c P = .ok M) {X Y : Data}
    (hX : P.leaf.Data M.num_channels M.num_features X) (e : ∀ c, c < M.num_channels → ∀ f, f < M.num_features → X c f = Y c f)
    {k : Nat} (hk : k < M.num_classes) : M.density none k X = M.density none k Y := by
  obtain ⟨-, hw, hp, _⟩ := build_WF hP h
  have hY : P.leaf.Data M.num_channels M.num_features Y := fun c hc f hf => e c hc f hf ▸ hX c hc f hf
  rw [Model.density_eq hw (hp hg) ((build_observed hP h).2 hX) (ms := none) (sc := none) rfl hk,
    Model.density_eq hw (hp hg) ((build_observed hP h).2 hY) (ms := none) (sc := none) rfl hk,
    Model.outRow_congr hw (fun c hc f hf i hi r hr => by rw [e c hc f hf]) hk]

/-- **C61** (part), continuous leaves and one class: the result of `calc_bpd` for images with pixel values `z`, given to the model
as `z / n_bins - 1/2`, is the average over the images of `-log2` of the density of the pixel values, per dimension.  Missing:
discrete leaves (`C61_refuted_discrete`). -/
theorem C61_value_partial (c : Config) (P : Params) (hP : P.Random) (hg : P.leaf.Good) (M : Model) (h : build c P = .ok M)
    (hK : M.num_classes = 1) (H W : Nat) (hHW : H * W = M.num_features) (B : Nat) (hB : 0 < B)
    (N : Nat) (hN : 0 < N) (x : Tensor Fl) (hx : Batch P.leaf N M.num_channels M.num_features x)
    (z : Nat → Fin M.num_channels → Fin M.num_features → ℝ)
    (hz : ∀ n, n < N → ∀ c f, x.get [n, c.val, f.val] = .fin (z n c f / B - 1 / 2)) :
    ∃ y, M.forward x = .ok y ∧ calcBpd y (M.num_channels, H, W) true B =
      .fin ((∑ n ∈ Finset.range N, -Real.logb 2 (pixelDensity M B (z n)).toReal / (M.num_channels * M.num_features : ℕ)) / N) := by
  obtain ⟨y, hy, hys, hv⟩ := train_forward hP hg h hx
  rw [hK] at hys
  obtain ⟨hzz, -⟩ := build_WF hP h
  obtain ⟨v1, v2, -⟩ := (assertValid_iff c).1 (build_valid h)
  have hC : M.num_channels ≠ 0 := by rw [hzz.channels]; omega
  have hF : M.num_features ≠ 0 := by rw [hzz.features]; omega
  have hD : M.num_channels * H * W ≠ 0 := by rw [mul_assoc, hHW]; exact mul_ne_zero hC hF
  refine ⟨y, hy, ?_⟩
  rw [calcBpd_spec hN hys (fun n hn => (hv n hn 0 (by omega)).2) _ H W hD true B]
  congr 2
  refine Finset.sum_congr rfl fun n hn => ?_
  have hn' := Finset.mem_range.1 hn
  have hB0 : (B : ℝ) ≠ 0 := by exact_mod_cast hB.ne'
  have e : (pixelDensity M B (z n)).toReal = classProb M 0 (rowAt x n) / (B : ℝ) ^ (M.num_channels * M.num_features) := by
    unfold pixelDensity classProb
    rw [ENNReal.toReal_div, density_rows hP hg h (X := rowAt x n) (hx.2 n hn') (Y := Pt.data fun c f => z n c f / B - 1 / 2)
      (fun c hc f hf => (hz n hn' ⟨c, hc⟩ ⟨f, hf⟩).trans (Pt.data_eq (fun c f => z n c f / B - 1 / 2) hc hf).symm)
      (by omega : 0 < M.num_classes)]
    simp
  have h2 : Real.log 2 ≠ 0 := (Real.log_pos (by norm_num)).ne'
  have hD' : ((M.num_channels * M.num_features : ℕ) : ℝ) ≠ 0 := by exact_mod_cast mul_ne_zero hC hF
  rw [e, Real.logb, Real.log_div (hv n hn' 0 (by omega)).1.ne' (pow_ne_zero _ hB0), Real.log_pow, mul_assoc M.num_channels, hHW]
  field_simp
  ring

/-- **C61**, refuted for discrete leaves: with `n_bins` of at least two the result is larger than the average number of bits per
dimension, `-log2 p(X) / D`, by `log2 n_bins`. -/
theorem C61_refuted_discrete (c : Config) (P : Params) (hP : P.Random) (hg : P.leaf.Good) (M : Model) (h : build c P = .ok M)
    (hK : M.num_classes = 1) (H W : Nat) (hHW : H * W = M.num_features) (B : Nat) (hB : 2 ≤ B)
    (N : Nat) (hN : 0 < N) (x : Tensor Fl) (hx : Batch P.leaf N M.num_channels M.num_features x) :
    ∃ y v, M.forward x = .ok y ∧ calcBpd y (M.num_channels, H, W) false B = .fin v ∧
      v = (∑ n ∈ Finset.range N, -Real.logb 2 (rowProb M (rowAt x n)) / (M.num_channels * M.num_features : ℕ)) / N + Real.logb 2 B ∧
      (∑ n ∈ Finset.range N, -Real.logb 2 (rowProb M (rowAt x n)) / (M.num_channels * M.num_features : ℕ)) / N + 1 ≤ v := by
  obtain ⟨y, hy, hys, hv⟩ := train_forward hP hg h hx
  rw [hK] at hys
  obtain ⟨hzz, -⟩ := build_WF hP h
  obtain ⟨v1, v2, -⟩ := (assertValid_iff c).1 (build_valid h)
  have hC : M.num_channels ≠ 0 := by rw [hzz.channels]; omega
  have hF : M.num_features ≠ 0 := by rw [hzz.features]; omega
  have hD : M.num_channels * H * W ≠ 0 := by rw [mul_assoc, hHW]; exact mul_ne_zero hC hF
  have hN0 : (N : ℝ) ≠ 0 := by exact_mod_cast hN.ne'
  have e : (∑ n ∈ Finset.range N, (-Real.log (classProb M 0 (rowAt x n)) / Real.log 2 / (M.num_channels * H * W : ℕ) +
      Real.log B / Real.log 2)) / N =
      (∑ n ∈ Finset.range N, -Real.logb 2 (rowProb M (rowAt x n)) / (M.num_channels * M.num_features : ℕ)) / N + Real.logb 2 B := by
    rw [Finset.sum_add_distrib, add_div, mul_assoc M.num_channels, hHW]
    congr 1
    · congr 1
      refine Finset.sum_congr rfl fun n _ => ?_
      simp only [rowProb, hK, Finset.range_one, Finset.sum_singleton, Nat.cast_one, div_one, Real.logb, neg_div]
    · simp [Real.logb, hN0]
  refine ⟨y, _, hy, calcBpd_spec hN hys (fun n hn => (hv n hn 0 (by omega)).2) _ H W hD false B, e, ?_⟩
  rw [e]
  refine add_le_add_right ?_ _
  rw [Real.le_logb_iff_rpow_le (by norm_num) (by exact_mod_cast (by omega : 0 < B))]
  simpa using hB

/-- images of 2x3 pixels with values in four bins, given to a model with continuous leaves and one class. -/
example : ∃ M, build exGrey (exParams exLeaf) = .ok M ∧ M.num_classes = 1 ∧ (exParams exLeaf).leaf.ref = volume ∧
    2 * 3 = M.num_features ∧ ∃ (x : Tensor Fl) (z : Nat → Fin M.num_channels → Fin M.num_features → ℝ),
    Batch (exParams exLeaf).leaf 3 M.num_channels M.num_features x ∧
    (∀ n, n < 3 → ∀ c f, x.get [n, c.val, f.val] = .fin (z n c f / (4 : ℕ) - 1 / 2)) ∧
    (∀ n c f, 0 ≤ z n c f ∧ z n c f < 4) := by
  obtain ⟨M, h, h1, h2, h3⟩ := exGrey_builds
  refine ⟨M, h, h1, rfl, by omega, ⟨[3, 1, 6], fun i => .fin (((at' 2 i % 4 : ℕ) + 1 / 3 : ℝ) / (4 : ℕ) - 1 / 2)⟩,
    fun n c f => (f.val % 4 : ℕ) + 1 / 3, ⟨by rw [h2, h3], fun n _ c _ f _ => Or.inr ⟨_, rfl, by simp [exParams, exLeaf, LeafSpec.InSupport]⟩⟩,
    fun n _ c f => rfl, fun n c f => ⟨by positivity, ?_⟩⟩
  have : ((f.val % 4 : ℕ) : ℝ) ≤ 3 := by exact_mod_cast Nat.lt_succ_iff.1 (Nat.mod_lt _ (by norm_num))
  linarith

end Einet.Props
