import Verif.Evaluate
import Verif.PropsLit
import Verif.PropsData

/-!
# C73: the values reported by the evaluation of main_pl.py
-/

open Classical
noncomputable section
namespace Einet
namespace Props
open Tensor Einet

/-! ### Specification -/

/-- the row of the model for an example: the pixels of its image, channel by channel, after preprocessing. -/
def exampleRow (d : DistName) (s : ImgShape) (e : Example) : Data := fun c f => .fin (scaled d (e.1.getD (c * (s.height * s.width) + f) 0))

/-- an example with an image of the right size whose preprocessed pixels are in the support of the leaves. -/
def ExampleFits (leaf : LeafSpec) (d : DistName) (s : ImgShape) (e : Example) : Prop :=
  e.1.length = s.channels * (s.height * s.width) ∧ ∀ v ∈ e.1, leaf.InSupport (scaled d v)

/-- the average over the examples of a data set. -/
def averageOf (g : Example → ℝ) (l : List Example) : ℝ := (l.map g).sum / l.length

/-- the generative score of an example: average over the classes of `-log p(x | class)`; `-log p(x)` for a single class. -/
def exampleNll (M : Model) (d : DistName) (s : ImgShape) (e : Example) : ℝ :=
  -((∑ k ∈ Finset.range M.num_classes, Real.log (classProb M k (exampleRow d s e))) / M.num_classes)

/-- one if the most likely class is the label of the example. -/
def exampleHit (M : Model) (d : DistName) (s : ImgShape) (e : Example) : ℝ := if Hit M (exampleRow d s e, e.2) then 1 else 0

/-- what should be reported: the average over each part that is not empty, under its own name. -/
def Report (kind : String) (g : Example → ℝ) (p : Parts) : List (String × Fl) :=
  ([("train", p.train), ("val", p.val), ("test", p.test)].filter fun q => decide (q.2 ≠ [])).map fun q =>
    ("Test/" ++ q.1 ++ "_" ++ kind, .fin (averageOf g q.2))

/-! ### Lemmas -/

theorem evalSum_getD (g : Example → ℝ) (b : List Example) :
    ∑ n ∈ Finset.range b.length, g (b.getD n ([], 0)) = (b.map g).sum := by
  rw [← sum_map_range]
  congr 1
  apply List.ext_getElem
  · simp
  · intro i h1 h2
    simp at h1
    simp [h1]

theorem averageOf_perm {g : Example → ℝ} {l l' : List Example} (h : l.Perm l') : averageOf g l = averageOf g l' := by
  unfold averageOf
  rw [(h.map g).sum_eq, h.length_eq]

/-- `lightning` averages over the examples. -/
theorem logged_average {step : List Example → Res Fl} {g : Example → ℝ} {Bs : List (List Example)}
    (h : ∀ B ∈ Bs, B ≠ [] ∧ step B = .ok (.fin (averageOf g B))) :
    logged step Bs = .ok (if Bs = [] then none else some (.fin (averageOf g Bs.flatten))) := by
  have key : ∀ (Bs : List (List Example)) (v : ℝ) (n : Nat), (∀ B ∈ Bs, B ≠ [] ∧ step B = .ok (.fin (averageOf g B))) →
      Bs.foldlM (fun (acc : Fl × Nat) b => do
        let v ← step b
        return (acc.1 + v * Fl.fin b.length, acc.2 + b.length)) ((.fin v, n) : Fl × Nat) =
        .ok (.fin (v + (Bs.flatten.map g).sum), n + Bs.flatten.length) := by
    intro Bs
    induction Bs with
    | nil => intro v n _; simp
    | cons B Bs ih =>
      intro v n h
      obtain ⟨hB, hs⟩ := h B (by simp)
      have hl : (B.length : ℝ) ≠ 0 := by
        have := List.length_pos_iff.2 hB
        exact_mod_cast this.ne'
      rw [List.foldlM_cons, hs, Res.ok_bind, Res.pure_eq, Res.ok_bind]
      have e : Fl.fin v + Fl.fin (averageOf g B) * Fl.fin (B.length : ℝ) = .fin (v + (B.map g).sum) := by
        show Fl.fin (v + averageOf g B * B.length) = _
        rw [averageOf, div_mul_cancel₀ _ hl]
      dsimp only
      rw [e, ih _ _ fun C hC => h C (List.mem_cons_of_mem _ hC)]
      simp [add_assoc]
  unfold logged
  rw [key Bs 0 0 h, Res.ok_bind]
  by_cases hn : Bs = []
  · simp [hn]
  · have hl : (Bs.flatten.length : ℝ) ≠ 0 := by
      obtain ⟨B, hB⟩ := List.exists_mem_of_ne_nil _ hn
      obtain ⟨e, he⟩ := List.exists_mem_of_ne_nil _ (h B hB).1
      have : 0 < Bs.flatten.length := List.length_pos_of_mem (List.mem_flatten.2 ⟨B, hB, he⟩)
      exact_mod_cast this.ne'
    simp only [hn, if_false, Res.pure_eq, zero_add]
    rw [Fl.fin_div _ hl]
    rfl

/-- a batch whose evaluation fails stops the evaluation. -/
theorem logged_error {step : List Example → Res Fl} {Bs : List (List Example)} {e : Err}
    (h : ∀ B ∈ Bs, (∃ v, step B = .ok v) ∨ step B = .error e) (hB : ∃ B ∈ Bs, step B = .error e) : logged step Bs = .error e := by
  have key : ∀ (Bs : List (List Example)) (a : Fl × Nat), (∀ B ∈ Bs, (∃ v, step B = .ok v) ∨ step B = .error e) →
      (∃ B ∈ Bs, step B = .error e) → Bs.foldlM (fun (acc : Fl × Nat) b => do
        let v ← step b
        return (acc.1 + v * Fl.fin b.length, acc.2 + b.length)) a = .error e := by
    intro Bs
    induction Bs with
    | nil => rintro a - ⟨B, hB, -⟩; simp at hB
    | cons C Bs ih =>
      intro a h hB
      rw [List.foldlM_cons]
      rcases h C (by simp) with ⟨v, hv⟩ | hv
      · rw [hv, Res.ok_bind, Res.pure_eq, Res.ok_bind]
        refine ih _ (fun D hD => h D (List.mem_cons_of_mem _ hD)) ?_
        obtain ⟨D, hD, he⟩ := hB
        rcases List.mem_cons.1 hD with rfl | hD
        · rw [hv] at he; cases he
        · exact ⟨D, hD, he⟩
      · rw [hv]; rfl
  unfold logged
  rw [key Bs _ h hB]
  rfl

section
variable {c : Config} {P : Params} {M : Model}

/-- the output of the model for a batch of images. -/
theorem forward_collate (hP : P.Random) (h : build c P = .ok M) {s : ImgShape}
    (hs : M.num_channels = s.channels ∧ M.num_features = s.height * s.width) {d : DistName} {b : List Example} (hb : b ≠ [])
    (hf : ∀ e ∈ b, ExampleFits P.leaf d s e) :
    ∃ x', Batch P.leaf b.length M.num_channels M.num_features x' ∧
      SameResult (M.forward (litPreprocess d (collate s b).1)) (M.forward x') ∧
      ∀ n, rowAt x' n = exampleRow d s (b.getD n ([], 0)) := by
  obtain ⟨e1, e2⟩ := hs
  have hN : 0 < b.length := List.length_pos_iff.2 hb
  have hmem : ∀ n, n < b.length → b.getD n ([], 0) ∈ b := fun n hn => by
    rw [List.getD_eq_getElem _ _ hn]; exact List.getElem_mem hn
  refine ⟨⟨[b.length, M.num_channels, s.height * s.width], fun i => exampleRow d s (b.getD (at' 0 i) ([], 0)) (at' 1 i) (at' 2 i)⟩,
    ⟨by rw [e2], fun n hn c hc f hf' => Or.inr ⟨_, rfl, ?_⟩⟩, ?_, fun n => rfl⟩
  · obtain ⟨h1, h2⟩ := hf _ (hmem n hn)
    refine h2 _ ?_
    have hlt : c * (s.height * s.width) + f < (b.getD n ([], 0)).1.length := by
      rw [h1, ← e1]
      rw [e2] at hf'
      calc c * (s.height * s.width) + f < c * (s.height * s.width) + s.height * s.width := by omega
        _ = (c + 1) * (s.height * s.width) := by ring
        _ ≤ M.num_channels * (s.height * s.width) := Nat.mul_le_mul_right _ hc
    have := List.getElem_mem hlt
    rw [← List.getD_eq_getElem _ 0 hlt] at this
    exact this
  · refine C07_rank4 c P hP M h b.length s.height s.width hN _ _ ?_ rfl e2.symm (fun n hn c hc i hi j hj => ?_) none
    · rw [litPreprocess_shape, e1]; rfl
    · rw [litPreprocess_get (v := (b.getD n ([], 0)).1.getD (c * (s.height * s.width) + (i * s.width + j)) 0) rfl]
      rfl

/-- the loss and the accuracy, for any batch with known class-conditional likelihoods of its rows. -/
theorem ce_of_forward (hK : 2 ≤ M.num_classes) {N : Nat} (hN : 0 < N) {x y : Tensor Fl} (hy : M.forward x = .ok y)
    (hys : y.shape = [N, M.num_classes]) {X : Nat → Data}
    (hv : ∀ n, n < N → ∀ k, k < M.num_classes →
      0 < classProb M k (X n) ∧ y.get [n, k] = .fin (Real.log (classProb M k (X n))))
    {t : Tensor ℤ} (ht : t.shape = [N]) (hl : ∀ n, n < N → 0 ≤ t.get [n] ∧ t.get [n] < M.num_classes) :
    crossEntropyAndAccuracy M x t =
      .ok (.fin (-(∑ n ∈ Finset.range N, Real.log (bayes M (t.get [n]).toNat (X n))) / N),
        .fin ((((List.range N).countP fun n => decide (Hit M (X n, t.get [n])) : ℕ) : ℝ) / N)) := by
  have hN0 : (N : ℝ) ≠ 0 := by exact_mod_cast hN.ne'
  have hsum : ∀ n, n < N → 0 < ∑ j ∈ Finset.range M.num_classes, classProb M j (X n) := fun n hn =>
    Finset.sum_pos (fun j hj => (hv n hn j (Finset.mem_range.1 hj)).1) ⟨0, Finset.mem_range.2 (by omega)⟩
  obtain ⟨p, q, hp, hps, hq⟩ := C08_posterior N M.num_classes hK y hys _ fun n hn k hk => (hv n hn k hk).2
  have hq' : ∀ n, n < N → ∀ k, k < M.num_classes → p.get [n, k] = .fin (Real.log (bayes M k (X n))) := by
    intro n hn k hk
    obtain ⟨h2, h3⟩ := (hq n hn).1 k hk
    have hK0 : (0 : ℝ) < M.num_classes := by exact_mod_cast (by omega : 0 < M.num_classes)
    rw [h2, ← Real.log_exp (q n k), h3, ← Finset.mul_sum, mul_div_mul_left _ _ (by positivity), Real.exp_log (hv n hn k hk).1,
      Finset.sum_congr rfl fun j hj => Real.exp_log (hv n hn j (Finset.mem_range.1 hj)).1]
    rfl
  have hpost : M.posterior x = .ok p := by
    unfold Model.posterior
    rw [require_true _ (by omega), Res.ok_bind, hy, Res.ok_bind, hp]
  obtain ⟨a, ha, has, hav⟩ := argmax_spec (by omega) hps hq'
  have hpos : ∀ n, n < N → ∀ j, j < M.num_classes → 0 < bayes M j (X n) := fun n hn j hj =>
    div_pos (hv n hn j hj).1 (hsum n hn)
  have hbest : ∀ n, n < N → ∀ k, a.get [n] = k ↔ Best M (X n) k := by
    intro n hn k
    rw [hav n hn k]
    unfold Best
    refine and_congr_right fun hk => forall₂_congr fun j hj => ?_
    rw [Real.log_le_log_iff (hpos n hn j hj) (hpos n hn k hk), Real.log_lt_log_iff (hpos n hn j hj) (hpos n hn k hk)]
    unfold bayes
    rw [div_le_div_iff_of_pos_right (hsum n hn), div_lt_div_iff_of_pos_right (hsum n hn)]
  unfold crossEntropyAndAccuracy
  rw [hpost, Res.ok_bind, nllLoss_spec hN hps ht hl hq', Res.ok_bind, ha, Res.ok_bind,
    correct_spec has (fun n k => Best M (X n) k) hbest, show p.size 0 = N by simp [size, hps, at'], Fl.fin_div _ hN0]
  rfl

theorem testStep_nll (hP : P.Random) (hg : P.leaf.Good) (h : build c P = .ok M) {s : ImgShape}
    (hs : M.num_channels = s.channels ∧ M.num_features = s.height * s.width) {d : DistName} {b : List Example} (hb : b ≠ [])
    (hf : ∀ e ∈ b, ExampleFits P.leaf d s e) :
    testStep M d s false b = .ok (.fin (averageOf (exampleNll M d s) b)) := by
  obtain ⟨x', hx, hsame, hrow⟩ := forward_collate hP h hs hb hf
  unfold testStep
  simp only [Bool.false_eq_true, if_false]
  rw [nll_congr hsame, negativeLogLikelihood_mean hP hg h (List.length_pos_iff.2 hb) hx]
  simp only [hrow]
  congr 3
  rw [← evalSum_getD, ← Finset.sum_neg_distrib]
  rfl

theorem testStep_accuracy (hP : P.Random) (hg : P.leaf.Good) (h : build c P = .ok M) (hK : 2 ≤ M.num_classes) {s : ImgShape}
    (hs : M.num_channels = s.channels ∧ M.num_features = s.height * s.width) {d : DistName} {b : List Example} (hb : b ≠ [])
    (hf : ∀ e ∈ b, ExampleFits P.leaf d s e ∧ 0 ≤ e.2 ∧ e.2 < M.num_classes) :
    testStep M d s true b = .ok (.fin (averageOf (exampleHit M d s) b)) := by
  obtain ⟨x', hx, hsame, hrow⟩ := forward_collate hP h hs hb fun e he => (hf e he).1
  obtain ⟨y', hy', hys', hv'⟩ := train_forward hP hg h hx
  have hmem : ∀ n, n < b.length → b.getD n ([], 0) ∈ b := fun n hn => by
    rw [List.getD_eq_getElem _ _ hn]; exact List.getElem_mem hn
  cases hy : M.forward (litPreprocess d (collate s b).1) with
  | error e => rw [hy, hy'] at hsame; exact hsame.elim
  | ok y =>
    rw [hy, hy'] at hsame
    obtain ⟨h1, h2⟩ := hsame
    have hv : ∀ n, n < b.length → ∀ k, k < M.num_classes → 0 < classProb M k (exampleRow d s (b.getD n ([], 0))) ∧
        y.get [n, k] = .fin (Real.log (classProb M k (exampleRow d s (b.getD n ([], 0))))) := by
      intro n hn k hk
      have := hv' n hn k hk
      rw [hrow] at this
      rw [(AllIdx_iff _ _).1 h2 [n, k] (by rw [h1, hys']; simp [InB, hn, hk])]
      exact this
    unfold testStep
    simp only [if_true]
    rw [ce_of_forward hK (List.length_pos_iff.2 hb) hy (h1.trans hys') hv (t := (collate s b).2) rfl
      fun n hn => (hf _ (hmem n hn)).2, Res.ok_bind, Res.pure_eq]
    show Except.ok (Fl.fin (_ / _)) = _
    unfold averageOf
    rw [← evalSum_getD]
    unfold exampleHit
    rw [Finset.sum_ite, Finset.sum_const_zero, add_zero, Finset.sum_const, nsmul_eq_mul, mul_one]
    congr 4
    rw [List.countP_eq_length_filter, ← List.toFinset_card_of_nodup ((List.nodup_range).filter _)]
    congr 1
    ext n
    simp [collate, at']

/-- an image of the right size with a pixel outside of the support. -/
theorem testStep_error (hP : P.Random) (hg : P.leaf.Good) (h : build c P = .ok M) {s : ImgShape}
    (hs : M.num_channels = s.channels ∧ M.num_features = s.height * s.width) {d : DistName} {b : List Example}
    (hlen : ∀ e ∈ b, e.1.length = s.channels * (s.height * s.width)) (hf : ∃ e ∈ b, ¬ ExampleFits P.leaf d s e) :
    testStep M d s false b = .error .value := by
  obtain ⟨e, he, hbad⟩ := hf
  have hb : b ≠ [] := List.ne_nil_of_mem he
  unfold testStep
  simp only [Bool.false_eq_true, if_false]
  refine (nll_images hP hg h hs (List.length_pos_iff.2 hb) (litPreprocess_shape _ _)
    (v := fun n c i j => scaled d ((b.getD n ([], 0)).1.getD (c * (s.height * s.width) + (i * s.width + j)) 0))
    fun n hn c hc i hi j hj => litPreprocess_get rfl).2 fun hall => hbad ⟨hlen e he, fun v hv => ?_⟩
  obtain ⟨n, hn, rfl⟩ := List.getElem_of_mem he
  obtain ⟨k, hk, rfl⟩ := List.getElem_of_mem hv
  have hk' := hk
  rw [hlen _ he] at hk'
  have hF : 0 < s.height * s.width := Nat.pos_of_ne_zero fun e0 => by rw [e0] at hk'; simp at hk'
  have hW : 0 < s.width := Nat.pos_of_mul_pos_left hF
  have := hall n hn (k / (s.height * s.width)) ((Nat.div_lt_iff_lt_mul hF).2 hk') (k % (s.height * s.width) / s.width)
    ((Nat.div_lt_iff_lt_mul hW).2 (Nat.mod_lt _ hF)) (k % (s.height * s.width) % s.width) (Nat.mod_lt _ hW)
  dsimp only at this
  rw [Nat.div_add_mod', Nat.div_add_mod', List.getD_eq_getElem _ _ hn, List.getD_eq_getElem _ _ hk] at this
  exact this

end

theorem batches_nil {α : Type} {b : Nat} {Bs : List (List α)} {l : List α} (h : Batches b Bs l) : Bs = [] ↔ l = [] := by
  obtain ⟨e1, -, e3⟩ := h
  rw [← e1]
  refine ⟨fun h => by rw [h]; rfl, fun h => ?_⟩
  by_contra hne
  obtain ⟨B, hB⟩ := List.exists_mem_of_ne_nil _ hne
  have := (e3 B hB).1
  rw [List.flatten_eq_nil_iff] at h
  rw [h B hB] at this
  simp at this

/-- a pass over the three loaders. -/
theorem trainerTest_report {G : PermGen} {M : Model} {d : DistName} {s : ImgShape} {cls : Bool} {L1 L2 L3 : Loader Example}
    {drawn : Nat → Int} {p : Parts} {b : Nat} {g : Example → ℝ} {Q : Example → Prop}
    (hstep : ∀ B : List Example, B ≠ [] → (∀ e ∈ B, Q e) → testStep M d s cls B = .ok (.fin (averageOf g B)))
    (h1 : ∃ order : List Example, order.Perm p.train ∧ Batches b (L1.epoch G (drawn 0)) order)
    (h2 : Batches b (L2.epoch G (drawn 1)) p.val) (h3 : Batches b (L3.epoch G (drawn 2)) p.test)
    (hQ : ∀ e ∈ p.train ++ p.val ++ p.test, Q e) :
    trainerTest G M d s cls [L1, L2, L3] drawn = .ok (Report (if cls then "accuracy" else "nll") g p) := by
  have key : ∀ (Bs : List (List Example)) (l : List Example) (n : String) (k : Nat), setName k = .ok n →
      Batches b Bs l → (∀ e ∈ l, Q e) → testLoader M d s cls k Bs =
        .ok (if l = [] then none else some ("Test/" ++ n ++ (if cls then "_accuracy" else "_nll"), .fin (averageOf g l))) := by
    intro Bs l n k hn hB hl
    have hnil := batches_nil hB
    obtain ⟨e1, -, e3⟩ := hB
    unfold testLoader
    rw [logged_average (g := g) fun B hB => ?_, e1]
    · simp only [hnil, Res.ok_bind]
      by_cases hl0 : l = []
      · simp [hl0]
      · simp [hl0, hn]
    · have hne : B ≠ [] := List.length_pos_iff.1 (e3 B hB).1
      refine ⟨hne, ?_⟩
      rw [hstep B hne fun e he => hl e (e1 ▸ List.mem_flatten.2 ⟨B, hB, he⟩), hn]
      rfl
  obtain ⟨order, hperm, h1⟩ := h1
  have k1 := key _ _ "train" 0 rfl h1 fun e he => hQ e (by simp [hperm.mem_iff.1 he])
  have k2 := key _ _ "val" 1 rfl h2 fun e he => hQ e (by simp [he])
  have k3 := key _ _ "test" 2 rfl h3 fun e he => hQ e (by simp [he])
  have hon : order = [] ↔ p.train = [] := ⟨fun h => by rw [h] at hperm; exact hperm.symm.eq_nil, fun h => by rw [h] at hperm; exact hperm.eq_nil⟩
  simp only [hon, averageOf_perm hperm] at k1
  unfold trainerTest
  simp only [List.length_cons, List.length_nil, List.range_succ, List.range_zero, List.nil_append, List.cons_append, List.mapM_cons,
    List.mapM_nil, List.getElem?_cons_zero, List.getElem?_cons_succ]
  rw [k1, k2, k3]
  simp only [Res.ok_bind]
  by_cases c1 : p.train = [] <;> by_cases c2 : p.val = [] <;> by_cases c3 : p.test = [] <;>
    cases cls <;> simp [c1, c2, c3, Report]

/-! ### Theorems -/

theorem evalScript_report {S : Sources} {cfg : LitCfg} {M : Model} {cls : Bool} {b : Int} {seed : Option Int} {st st' : S.σ}
    {drawn : Nat → Int} {p : Parts} {s : ImgShape} {g : Example → ℝ} {Q : Example → Prop} (hs : getDataShape cfg.dataset = .ok s)
    (hp : getDatasets S cfg.dataset (decide (cfg.dist = .normal ∨ cfg.dist = .normalRat)) st = .ok (p, st')) (hb : 0 < b)
    (ht : p.train ≠ [])
    (hstep : ∀ B : List Example, B ≠ [] → (∀ e ∈ B, Q e) → testStep M cfg.dist s cls B = .ok (.fin (averageOf g B)))
    (hQ : ∀ e ∈ p.train ++ p.val ++ p.test, Q e) :
    evalScript S cfg M cls b seed st drawn = .ok (Report (if cls then "accuracy" else "nll") g p) := by
  obtain ⟨L1, h1⟩ := (C71_fail b p.train false true seed).2 ⟨hb, fun e => absurd e ht⟩
  obtain ⟨L2, h2⟩ := (C71_fail b p.val false false seed).2 ⟨hb, fun _ => ⟨rfl, rfl⟩⟩
  obtain ⟨L3, h3⟩ := (C71_fail b p.test false false seed).2 ⟨hb, fun _ => ⟨rfl, rfl⟩⟩
  have hL : buildDataloader S cfg.dataset b false (decide (cfg.dist = .normal ∨ cfg.dist = .normalRat)) seed st =
      .ok ((L1, L2, L3), st') := by
    unfold buildDataloader
    rw [hp, Res.ok_bind]
    dsimp only
    rw [h1, Res.ok_bind, h2, Res.ok_bind, h3, Res.ok_bind]
    rfl
  unfold evalScript
  dsimp only
  rw [hL, Res.ok_bind]
  dsimp only
  rw [hs, Res.ok_bind]
  exact trainerTest_report hstep (C71_train S.torch h1 _).1 (C71_eval S.torch h2 _).1 (C71_eval S.torch h3 _).1 hQ

/-- **C73**, generative models: the evaluation reports, for each of the three parts that is not empty, the average over its examples of
the negative log-likelihood.  Batch size, seed and the order of the pass have no influence. -/
theorem C73_nll (cfg : LitCfg) (A : LeafArrays) (P : Params) (hP : P.Random) (hg : (cfg.leaf A).Good) (M : Model)
    (h : makeEinet cfg A P = .ok M) (s : ImgShape) (hs : getDataShape cfg.dataset = .ok s) (S : Sources) (st st' : S.σ) (p : Parts)
    (hp : getDatasets S cfg.dataset (decide (cfg.dist = .normal ∨ cfg.dist = .normalRat)) st = .ok (p, st')) (ht : p.train ≠ [])
    (hf : ∀ e ∈ p.train ++ p.val ++ p.test, ExampleFits (cfg.leaf A) cfg.dist s e) (b : Int) (hb : 0 < b) (seed : Option Int)
    (drawn : Nat → Int) : evalScript S cfg M false b seed st drawn = .ok (Report "nll" (exampleNll M cfg.dist s) p) := by
  obtain ⟨hM, hP', e⟩ := makeEinet_spec hP h hs
  exact evalScript_report hs hp hb ht (fun B hB hQ => testStep_nll hP' hg hM e hB hQ) hf

/-- **C73**, classifiers: the evaluation reports, for each of the three parts that is not empty, the fraction of its examples whose
label is the most likely class. -/
theorem C73_accuracy (cfg : LitCfg) (A : LeafArrays) (P : Params) (hP : P.Random) (hg : (cfg.leaf A).Good) (M : Model)
    (h : makeEinet cfg A P = .ok M) (hK : 2 ≤ M.num_classes) (s : ImgShape) (hs : getDataShape cfg.dataset = .ok s) (S : Sources)
    (st st' : S.σ) (p : Parts)
    (hp : getDatasets S cfg.dataset (decide (cfg.dist = .normal ∨ cfg.dist = .normalRat)) st = .ok (p, st')) (ht : p.train ≠ [])
    (hf : ∀ e ∈ p.train ++ p.val ++ p.test, ExampleFits (cfg.leaf A) cfg.dist s e ∧ 0 ≤ e.2 ∧ e.2 < M.num_classes) (b : Int)
    (hb : 0 < b) (seed : Option Int) (drawn : Nat → Int) :
    evalScript S cfg M true b seed st drawn = .ok (Report "accuracy" (exampleHit M cfg.dist s) p) := by
  obtain ⟨hM, hP', e⟩ := makeEinet_spec hP h hs
  exact evalScript_report hs hp hb ht (fun B hB hQ => testStep_accuracy hP' hg hM hK e hB hQ) hf

/-- **C73**, range: a reported accuracy is between zero and one, and it is one exactly if every example of the part is classified
correctly. -/
theorem C73_accuracy_range (M : Model) (d : DistName) (s : ImgShape) (l : List Example) (hl : l ≠ []) :
    0 ≤ averageOf (exampleHit M d s) l ∧ averageOf (exampleHit M d s) l ≤ 1 ∧
      (averageOf (exampleHit M d s) l = 1 ↔ ∀ e ∈ l, Hit M (exampleRow d s e, e.2)) := by
  have key : ∀ l : List Example, 0 ≤ (l.map (exampleHit M d s)).sum ∧ (l.map (exampleHit M d s)).sum ≤ l.length ∧
      ((l.map (exampleHit M d s)).sum = l.length ↔ ∀ e ∈ l, Hit M (exampleRow d s e, e.2)) := by
    intro l
    induction l with
    | nil => simp
    | cons a l ih =>
      obtain ⟨i1, i2, i3⟩ := ih
      simp only [List.map_cons, List.sum_cons, List.length_cons, Nat.cast_succ, List.forall_mem_cons, ← i3]
      unfold exampleHit at i1 i2 ⊢
      split_ifs with ha
      · refine ⟨by linarith, by linarith, ⟨fun e => ⟨ha, by linarith⟩, fun e => by linarith [e.2]⟩⟩
      · refine ⟨by linarith, by linarith, ⟨fun e => by linarith, fun e => absurd e.1 ha⟩⟩
  have h0 : (0 : ℝ) < l.length := by exact_mod_cast List.length_pos_iff.2 hl
  obtain ⟨k1, k2, k3⟩ := key l
  unfold averageOf
  exact ⟨div_nonneg k1 h0.le, (div_le_one h0).2 k2, by rw [div_eq_one_iff_eq h0.ne', k3]⟩

/-- **C73**, failure: a pixel outside of the support in any example of any part stops the evaluation with a `ValueError`. -/
theorem C73_fail (cfg : LitCfg) (A : LeafArrays) (P : Params) (hP : P.Random) (hg : (cfg.leaf A).Good) (M : Model)
    (h : makeEinet cfg A P = .ok M) (s : ImgShape) (hs : getDataShape cfg.dataset = .ok s) (S : Sources) (st st' : S.σ) (p : Parts)
    (hp : getDatasets S cfg.dataset (decide (cfg.dist = .normal ∨ cfg.dist = .normalRat)) st = .ok (p, st')) (ht : p.train ≠ [])
    (hlen : ∀ e ∈ p.train ++ p.val ++ p.test, e.1.length = s.channels * (s.height * s.width))
    (hf : ∃ e ∈ p.train ++ p.val ++ p.test, ¬ ExampleFits (cfg.leaf A) cfg.dist s e) (b : Int) (hb : 0 < b) (seed : Option Int)
    (drawn : Nat → Int) : evalScript S cfg M false b seed st drawn = .error .value := by
  obtain ⟨hM, hP', e⟩ := makeEinet_spec hP h hs
  obtain ⟨L1, h1⟩ := (C71_fail b p.train false true seed).2 ⟨hb, fun e => absurd e ht⟩
  obtain ⟨L2, h2⟩ := (C71_fail b p.val false false seed).2 ⟨hb, fun _ => ⟨rfl, rfl⟩⟩
  obtain ⟨L3, h3⟩ := (C71_fail b p.test false false seed).2 ⟨hb, fun _ => ⟨rfl, rfl⟩⟩
  have hL : buildDataloader S cfg.dataset b false (decide (cfg.dist = .normal ∨ cfg.dist = .normalRat)) seed st =
      .ok ((L1, L2, L3), st') := by
    unfold buildDataloader
    rw [hp, Res.ok_bind]
    dsimp only
    rw [h1, Res.ok_bind, h2, Res.ok_bind, h3, Res.ok_bind]
    rfl
  have key : ∀ (Bs : List (List Example)) (l : List Example) (n : String) (k : Nat), setName k = .ok n →
      Batches b.toNat Bs l → (∀ e ∈ l, e.1.length = s.channels * (s.height * s.width)) →
      ((∃ v, testLoader M cfg.dist s false k Bs = .ok v) ∧ (∀ e ∈ l, ExampleFits (cfg.leaf A) cfg.dist s e)) ∨
        testLoader M cfg.dist s false k Bs = .error .value := by
    intro Bs l n k hn hB hl
    have hnil := batches_nil hB
    obtain ⟨e1, -, e3⟩ := hB
    have hok : ∀ B ∈ Bs, (∀ x ∈ B, ExampleFits (cfg.leaf A) cfg.dist s x) → (do
        let v ← testStep M cfg.dist s false B
        let _ ← setName k
        return v : Res Fl) = .ok (.fin (averageOf (exampleNll M cfg.dist s) B)) := by
      intro B hB hfit
      rw [testStep_nll hP' hg hM e (List.length_pos_iff.1 (e3 B hB).1) hfit, hn]
      rfl
    have herr : ∀ B ∈ Bs, (∃ x ∈ B, ¬ ExampleFits (cfg.leaf A) cfg.dist s x) → (do
        let v ← testStep M cfg.dist s false B
        let _ ← setName k
        return v : Res Fl) = .error .value := by
      intro B hB hbad
      rw [testStep_error hP' hg hM e (fun x hx => hl x (e1 ▸ List.mem_flatten.2 ⟨B, hB, hx⟩)) hbad]
      rfl
    unfold testLoader
    by_cases hc : ∃ x ∈ l, ¬ ExampleFits (cfg.leaf A) cfg.dist s x
    · right
      obtain ⟨x, hx, hbad⟩ := hc
      rw [← e1] at hx
      obtain ⟨B, hB, hx⟩ := List.mem_flatten.1 hx
      rw [logged_error (e := .value) (fun C hC => ?_) ⟨B, hB, herr B hB ⟨x, hx, hbad⟩⟩]
      · rfl
      · by_cases hbC : ∃ x ∈ C, ¬ ExampleFits (cfg.leaf A) cfg.dist s x
        · exact Or.inr (herr C hC hbC)
        · push Not at hbC
          exact Or.inl ⟨_, hok C hC hbC⟩
    · push Not at hc
      refine Or.inl ⟨?_, hc⟩
      rw [logged_average (g := exampleNll M cfg.dist s) fun B hB => ⟨List.length_pos_iff.1 (e3 B hB).1,
        hok B hB fun x hx => hc x (e1 ▸ List.mem_flatten.2 ⟨B, hB, hx⟩)⟩, Res.ok_bind]
      by_cases hb0 : Bs = []
      · rw [if_pos hb0]; exact ⟨none, rfl⟩
      · rw [if_neg hb0]; exact ⟨_, by rw [hn]; rfl⟩
  obtain ⟨order, hperm, g1⟩ := (C71_train S.torch h1 (drawn 0)).1
  have a1 := key _ _ "train" 0 rfl g1 fun e he => hlen e (by simp [hperm.mem_iff.1 he])
  have a2 := key _ _ "val" 1 rfl (C71_eval S.torch h2 (drawn 1)).1 fun e he => hlen e (by simp [he])
  have a3 := key _ _ "test" 2 rfl (C71_eval S.torch h3 (drawn 2)).1 fun e he => hlen e (by simp [he])
  unfold evalScript
  dsimp only
  rw [hL, Res.ok_bind]
  dsimp only
  rw [hs, Res.ok_bind]
  unfold trainerTest
  simp only [List.length_cons, List.length_nil, List.range_succ, List.range_zero, List.nil_append, List.cons_append, List.mapM_cons,
    List.mapM_nil, List.getElem?_cons_zero, List.getElem?_cons_succ]
  rcases a1 with ⟨⟨v1, r1⟩, f1⟩ | r1
  · rw [r1, Res.ok_bind]
    rcases a2 with ⟨⟨v2, r2⟩, f2⟩ | r2
    · rw [r2, Res.ok_bind]
      rcases a3 with ⟨-, f3⟩ | r3
      · obtain ⟨x, hx, hbad⟩ := hf
        refine absurd ?_ hbad
        rcases List.mem_append.1 hx with hx | hx
        · rcases List.mem_append.1 hx with hx | hx
          · exact f1 x (hperm.mem_iff.2 hx)
          · exact f2 x hx
        · exact f3 x hx
      · rw [r3]; rfl
    · rw [r2]; rfl
  · rw [r1]; rfl

/-! ### instances -/

/-- the table `nltcs` of zeros and ones with two classes. -/
def exTable (d : DistName) (n : Nat) : LitCfg := { exLit d n with dataset := "nltcs", num_classes := 2 }

theorem exTable_data (d : DistName) (n : Nat) (nz : Bool) : getDataShape (exTable d n).dataset = .ok ⟨1, 16, 1⟩ ∧
    getDatasets (exSources 1 1 0) (exTable d n).dataset nz (0 : Nat) = .ok (⟨[(List.replicate 16 1, 0)], [(List.replicate 16 1, 0)],
      [(List.replicate 16 1, 0)]⟩, (0 : Nat)) := by
  have e : (exTable d n).dataset = "nltcs" := rfl
  rw [e]
  refine ⟨by unfold getDataShape; rw [if_neg (by decide)]; rfl, ?_⟩
  exact C70_debd (k := 16) (by simp [debdShapes]) (exSources 1 1 0) nz _ (by intro part _ r hr; simp [exSources] at hr; simp [hr])

theorem exTable_builds (d : DistName) (n : Nat) (hn : 1 ≤ n) : (∃ M, makeEinet (exTable d n) exArrays (exParams exLeaf) = .ok M ∧
    M.num_classes = 2) ∧ ((exTable d n).leaf exArrays).Good := by
  have h := C67_builds (exTable d n) exArrays (exParams exLeaf) (exParams_random _) 0 ⟨le_refl _, by norm_num⟩ rfl
    (fun _ => ⟨by norm_num [exTable, exLit], by norm_num [exTable, exLit]⟩)
  obtain ⟨M, hM⟩ := h.1.2 ⟨⟨1, 16, 1⟩, (exTable_data d n true).1, by norm_num, by norm_num, by norm_num [exTable], by norm_num [exTable, exLit],
    by norm_num [exTable, exLit], by norm_num [exTable, exLit], by norm_num [exTable, exLit], by simp [exTable, exLit],
    by simp [exTable, exLit], by simp [exTable, exLit], by simp [exTable, exLit], fun _ => hn⟩
  obtain ⟨s, -, -, -, hK, -⟩ := h.2 M hM
  exact ⟨⟨M, hM, by simp [exTable] at hK; omega⟩, (exLit_builds d n hn).2⟩

/-- a model for a table with binomial leaves of eight bits: the entry one becomes the value 255. -/
example (seed : Option Int) (drawn : Nat → Int) : ∃ M, 2 ≤ M.num_classes ∧
    evalScript (exSources 1 1 0) (exTable .binomial 8) M false 64 seed (0 : Nat) drawn =
      .ok (Report "nll" (exampleNll M .binomial ⟨1, 16, 1⟩) ⟨[(List.replicate 16 1, 0)], [(List.replicate 16 1, 0)],
        [(List.replicate 16 1, 0)]⟩) ∧
    evalScript (exSources 1 1 0) (exTable .binomial 8) M true 64 seed (0 : Nat) drawn =
      .ok (Report "accuracy" (exampleHit M .binomial ⟨1, 16, 1⟩) ⟨[(List.replicate 16 1, 0)], [(List.replicate 16 1, 0)],
        [(List.replicate 16 1, 0)]⟩) := by
  obtain ⟨⟨M, hM, hK⟩, hg⟩ := exTable_builds .binomial 8 (by norm_num)
  have hfit : ExampleFits ((exTable .binomial 8).leaf exArrays) .binomial ⟨1, 16, 1⟩ (List.replicate 16 1, 0) := by
    refine ⟨by simp, fun v hv => ?_⟩
    rw [(List.mem_replicate.1 hv).2]
    exact ⟨255, by norm_num [exTable, exLit], by norm_num [scaled]⟩
  refine ⟨M, hK.ge, ?_, ?_⟩
  · exact C73_nll _ exArrays _ (exParams_random _) hg M hM _ (exTable_data .binomial 8 true).1 (exSources 1 1 0) _ _ _
      (exTable_data .binomial 8 _).2 (by simp) (by intro e he; simp at he; rw [he]; exact hfit) 64 (by norm_num) seed drawn
  · exact C73_accuracy _ exArrays _ (exParams_random _) hg M hM hK.ge _ (exTable_data .binomial 8 true).1 (exSources 1 1 0) _ _ _
      (exTable_data .binomial 8 _).2 (by simp) (by intro e he; simp at he; rw [he]; exact ⟨hfit, by norm_num, by rw [hK]; norm_num⟩)
      64 (by norm_num) seed drawn

/-- the same table with binomial leaves of seven bits. -/
example (seed : Option Int) (drawn : Nat → Int) : ∃ M,
    evalScript (exSources 1 1 0) (exTable .binomial 7) M false 64 seed (0 : Nat) drawn = .error .value := by
  obtain ⟨⟨M, hM, hK⟩, hg⟩ := exTable_builds .binomial 7 (by norm_num)
  refine ⟨M, C73_fail _ exArrays _ (exParams_random _) hg M hM _ (exTable_data .binomial 7 true).1 (exSources 1 1 0) _ _ _
      (exTable_data .binomial 7 _).2 (by simp) (by intro e he; simp at he; rw [he]; simp) ⟨(List.replicate 16 1, 0), by simp, fun hf => ?_⟩
      64 (by norm_num) seed drawn⟩
  obtain ⟨m, hm, e⟩ := hf.2 1 (by simp)
  have : (m : ℝ) = 255 := by simp [exTable, exLit, scaled] at e; exact e.symm
  have h2 : m = 255 := by exact_mod_cast this
  subst h2
  norm_num [exTable, exLit] at hm

end Props
end Einet
end
