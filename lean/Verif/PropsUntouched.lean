import Verif.CondBuild
import Verif.PropsTrain
import Verif.PropsMax

/-!
# C92: parameters of missing entries have no influence on log-likelihoods and losses
-/

open Classical MeasureTheory
open scoped ENNReal
noncomputable section
namespace Einet.Props
open Tensor Einet

/-! ### Specification -/

/-- parameter tensors that agree in all components and repetitions at the given channels and features. -/
def ParAt (A : Nat → Nat → Prop) (p q : Par) : Prop := ∀ c f, A c f → ∀ i r, q c f i r = p c f i r

/-- leaves of the same class with the same keyword arguments whose parameters agree at the given channels and features; the other
parameters are arbitrary. -/
inductive SameAt (A : Nat → Nat → Prop) : LeafSpec → LeafSpec → Prop
  | normal {a b a' b' : Par} : ParAt A a a' → ParAt A b b' → SameAt A (.normal a b) (.normal a' b')
  | ratNormal (lo hi : ℝ) (mlo mhi : Option ℝ) {a b a' b' : Par} : ParAt A a a' → ParAt A b b' →
      SameAt A (.ratNormal lo hi mlo mhi a b) (.ratNormal lo hi mlo mhi a' b')
  | binomial (n : ℤ) {a a' : Par} : ParAt A a a' → SameAt A (.binomial n a) (.binomial n a')
  | bernoulli {a a' : Par} : ParAt A a a' → SameAt A (.bernoulli a) (.bernoulli a')
  | categorical (n : ℤ) {a a' : Nat → Nat → Nat → Nat → Nat → ℝ} : (∀ c f, A c f → ∀ i r k, a' c f i r k = a c f i r k) →
      SameAt A (.categorical n a) (.categorical n a')

/-- channel `c` of feature `f` is known in row `n`. -/
def Known (x : Tensor Fl) (n c f : Nat) : Prop := x.get [n, c, f] ≠ .nan

/-! ### Lemmas -/

theorem SameAt.mono {A A' : Nat → Nat → Prop} {s s' : LeafSpec} (h : SameAt A s s') (hA : ∀ c f, A' c f → A c f) :
    SameAt A' s s' := by
  cases h with
  | normal h1 h2 => exact .normal (fun c f a => h1 c f (hA c f a)) fun c f a => h2 c f (hA c f a)
  | ratNormal lo hi mlo mhi h1 h2 => exact .ratNormal lo hi mlo mhi (fun c f a => h1 c f (hA c f a)) fun c f a => h2 c f (hA c f a)
  | binomial n h1 => exact .binomial n fun c f a => h1 c f (hA c f a)
  | bernoulli h1 => exact .bernoulli fun c f a => h1 c f (hA c f a)
  | categorical n h1 => exact .categorical n fun c f a => h1 c f (hA c f a)

theorem SameAt.good {A : Nat → Nat → Prop} {s s' : LeafSpec} (h : SameAt A s s') (hg : s.Good) : s'.Good := by
  cases h <;> exact hg

theorem SameAt.data {A : Nat → Nat → Prop} {s s' : LeafSpec} (h : SameAt A s s') {C F : Nat} {X : Data} (hX : s.Data C F X) :
    s'.Data C F X := by
  cases h <;> exact hX

theorem SameAt.batch {A : Nat → Nat → Prop} {s s' : LeafSpec} (h : SameAt A s s') {N C F : Nat} {x : Tensor Fl}
    (hx : Batch s N C F x) : Batch s' N C F x := ⟨hx.1, fun n hn => h.data (hx.2 n hn)⟩

theorem SameAt.build {A : Nat → Nat → Prop} {s s' : LeafSpec} (h : SameAt A s s') {card : Option ℤ} {d : LeafDims} {B : BaseLeaf}
    (hB : s.build card d = .ok B) : ∃ B', s'.build card d = .ok B' ∧ B'.SameDims B ∧
      ∀ c f, A c f → ∀ i r x, B'.logProb c f i r x = B.logProb c f i r x := by
  unfold LeafSpec.build at hB ⊢
  cases h with
  | @normal a b a' b' h1 h2 =>
    obtain ⟨_, h0, hB⟩ := bind_ok hB
    cases hB
    refine ⟨normalLeaf d a' b', by rw [h0]; rfl, ⟨rfl, rfl, rfl, rfl⟩, fun c f hA i r x => ?_⟩
    simp only [normalLeaf, gaussLeaf, h1 c f hA, h2 c f hA]
  | @ratNormal lo hi mlo mhi a b a' b' h1 h2 =>
    obtain ⟨_, h0, hB⟩ := bind_ok hB
    dsimp only at hB
    obtain ⟨_, e1, hB⟩ := bind_ok hB
    obtain ⟨_, e2, hB⟩ := bind_ok hB
    obtain ⟨_, e3, hB⟩ := bind_ok hB
    obtain ⟨_, e4, hB⟩ := bind_ok hB
    obtain ⟨_, e5, hB⟩ := bind_ok hB
    have hB' := (Except.ok.inj hB).symm
    clear hB
    subst hB'
    refine ⟨gaussLeaf d
        (fun c f i r => (match ratProject lo hi mlo mhi (a' c f i r) (b' c f i r) with | .ok p => p | .error _ => ((0, 1) : ℝ × ℝ)).1)
        (fun c f i r => (match ratProject lo hi mlo mhi (a' c f i r) (b' c f i r) with | .ok p => p | .error _ => ((0, 1) : ℝ × ℝ)).2),
      ?_, ?_, fun c f hA i r x => ?_⟩
    · rw [h0]
      dsimp only [Res.ok_bind]
      rw [e1, Res.ok_bind, e2, Res.ok_bind, e3, Res.ok_bind, e4, Res.ok_bind, e5, Res.ok_bind]
      rfl
    · unfold gaussLeaf; exact ⟨rfl, rfl, rfl, rfl⟩
    · unfold gaussLeaf
      dsimp only
      rw [h1 c f hA, h2 c f hA]
      cases ratProject lo hi mlo mhi (a c f i r) (b c f i r) <;> rfl
  | @binomial n a a' h1 =>
    obtain ⟨_, h0, hB⟩ := bind_ok hB
    dsimp only at hB
    obtain ⟨_, e1, hB⟩ := bind_ok hB
    cases hB
    refine ⟨binomialLeaf d n.toNat a', by rw [h0]; dsimp only [Res.ok_bind]; rw [e1]; rfl, ⟨rfl, rfl, rfl, rfl⟩, fun c f hA i r x => ?_⟩
    simp only [binomialLeaf, binomialMass, massLeaf, h1 c f hA]
  | @bernoulli a a' h1 =>
    obtain ⟨_, h0, hB⟩ := bind_ok hB
    cases hB
    refine ⟨bernoulliLeaf d a', by rw [h0]; rfl, ⟨rfl, rfl, rfl, rfl⟩, fun c f hA i r x => ?_⟩
    simp only [bernoulliLeaf, massLeaf, h1 c f hA]
  | @categorical n l l' h1 =>
    obtain ⟨_, h0, hB⟩ := bind_ok hB
    dsimp only at hB
    obtain ⟨_, e1, hB⟩ := bind_ok hB
    cases hB
    refine ⟨categoricalLeaf d n.toNat l', by rw [h0]; dsimp only [Res.ok_bind]; rw [e1]; rfl, ⟨rfl, rfl, rfl, rfl⟩, fun c f hA i r x => ?_⟩
    have : l' c f i r = l c f i r := funext fun k => h1 c f hA i r k
    simp only [categoricalLeaf, massLeaf, this]

theorem withBase_grpF (M : Model) {B : BaseLeaf} (hd : B.SameDims M.leaf.base) (g : Nat → Nat → Nat) :
    (M.withBase B).grpF g = M.grpF g := by
  obtain ⟨d1, -, -, -⟩ := hd
  obtain ⟨_, _, _, _, _, leaf, _, _, _, _⟩ := M
  funext r f
  cases leaf with
  | direct B' => rfl
  | factorized L =>
    show (if B.num_features = L.num_features_out then f else g r f) = if L.base.num_features = L.num_features_out then f else g r f
    rw [show B.num_features = L.base.num_features from d1]
  | simple L =>
    show L.inverse_permutation.getD f 0 / _ = L.inverse_permutation.getD f 0 / _
    unfold FactSimple.cardinality
    rw [show B.num_features = L.base.num_features from d1]

/-- the model with other parameters at unknown entries. -/
theorem other_model {A : Nat → Nat → Prop} {c : Config} {P : Params} (hP : P.Random) (hg : P.leaf.Good) {M : Model}
    (h : build c P = .ok M) {s : LeafSpec} (hs : SameAt A P.leaf s) :
    ∃ M', build c { P with leaf := s } = .ok M' ∧ M'.num_classes = M.num_classes ∧ M'.num_channels = M.num_channels ∧
      M'.num_features = M.num_features ∧
      ∀ X, P.leaf.Data M.num_channels M.num_features X → (∀ c f, X c f ≠ .nan → A c f) → ∀ k, k < M.num_classes →
        classProb M' k X = classProb M k X := by
  obtain ⟨B', hB', hd, hl⟩ := hs.build (build_leaf hP h)
  have hb := build_otherLeaf h (build_leaf hP h) hB' hd
  have hP' : Params.Random { P with leaf := s } := ⟨hP.1, hP.2⟩
  refine ⟨_, hb, rfl, rfl, rfl, fun X hX hA k hk => ?_⟩
  obtain ⟨-, hw, hp, -⟩ := build_WF hP h
  obtain ⟨-, -, hp', -⟩ := build_WF hP' hb
  unfold classProb
  rw [density_val hw (hp hg) ((build_observed hP h).2 hX) hk,
    density_val (Model.withBase_WF hd hw) (hp' (hs.good hg)) ((build_observed hP' hb).2 (hs.data hX)) (k := k) hk,
    withBase_grpF M hd]
  have : regionVal (M.withBase B') (M.grpF (buildGroups c P)) X = regionVal M (M.grpF (buildGroups c P)) X := by
    funext o i r
    unfold regionVal
    refine Finset.prod_congr rfl fun f _ => ?_
    congr 1
    refine Finset.prod_congr rfl fun ch _ => ?_
    unfold cell
    by_cases e : X ch f = .nan
    · simp only [e, if_true]
    · simp only [e, if_false]
      rw [Model.withBase_base, hl ch f (hA ch f e)]
  rw [this]
  rfl

/-! ### Theorems -/

/-- **C92**: the log-likelihoods of a row do not depend on the leaf parameters of its missing entries: if the parameters are changed
only at channels and features that are missing in the row, the model can still be built and returns the same numbers. -/
theorem C92_forward (c : Config) (P : Params) (hP : P.Random) (hg : P.leaf.Good) (M : Model) (h : build c P = .ok M) (N : Nat)
    (x : Tensor Fl) (hx : Batch P.leaf N M.num_channels M.num_features x) (n : Nat) (hn : n < N) (s : LeafSpec)
    (hs : SameAt (Known x n) P.leaf s) :
    ∃ M' y y', build c { P with leaf := s } = .ok M' ∧ M.forward x = .ok y ∧ M'.forward x = .ok y' ∧ y'.shape = y.shape ∧
      ∀ k, k < M.num_classes → (∃ a : ℝ, y.get [n, k] = .fin a) ∧ y'.get [n, k] = y.get [n, k] := by
  obtain ⟨M', h', eK, eC, eF, he⟩ := other_model hP hg h hs
  obtain ⟨y, h1, h2, h3⟩ := train_forward hP hg h hx
  obtain ⟨y', g1, g2, g3⟩ := train_forward (P := { P with leaf := s }) ⟨hP.1, hP.2⟩ (hs.good hg) h' (N := N) (x := x)
    (by rw [eC, eF]; exact hs.batch hx)
  refine ⟨M', y, y', h', h1, g1, by rw [h2, g2, eK], fun k hk => ⟨⟨_, (h3 n hn k hk).2⟩, ?_⟩⟩
  rw [(h3 n hn k hk).2, (g3 n hn k (by rw [eK]; exact hk)).2, he (rowAt x n) (hx.2 n hn) (fun _ _ e => e) k hk]

/-- **C92**, training: the loss of a batch does not depend on the leaf parameters of channels and features that are missing in all
rows of the batch, so its derivative by such a parameter is 0. -/
theorem C92_loss (c : Config) (P : Params) (hP : P.Random) (hg : P.leaf.Good) (M : Model) (h : build c P = .ok M) (N : Nat)
    (hN : 0 < N) (x : Tensor Fl) (hx : Batch P.leaf N M.num_channels M.num_features x) (cls : Bool) (t : Tensor ℤ)
    (hc : cls = true → 2 ≤ M.num_classes ∧ t.shape = [N] ∧ ∀ n, n < N → 0 ≤ t.get [n] ∧ t.get [n] < M.num_classes) :
    ∃ l : ℝ, trainLoss M cls x t = .ok (.fin l) ∧
      (∀ s, SameAt (fun c f => ∃ n, n < N ∧ Known x n c f) P.leaf s →
        ∃ M', build c { P with leaf := s } = .ok M' ∧ trainLoss M' cls x t = .ok (.fin l)) ∧
      ∀ (s : ℝ → LeafSpec) (ll : ℝ → ℝ), (∀ e, SameAt (fun c f => ∃ n, n < N ∧ Known x n c f) P.leaf (s e)) →
        (∀ e M', build c { P with leaf := s e } = .ok M' → trainLoss M' cls x t = .ok (.fin (ll e))) →
        ∀ e, HasDerivAt ll 0 e := by
  have key : ∃ l : ℝ, trainLoss M cls x t = .ok (.fin l) ∧
      ∀ s, SameAt (fun c f => ∃ n, n < N ∧ Known x n c f) P.leaf s →
        ∃ M', build c { P with leaf := s } = .ok M' ∧ trainLoss M' cls x t = .ok (.fin l) := by
    cases cls with
    | false =>
      refine ⟨_, C58_train c P hP hg M h N hN x hx t, fun s hs => ?_⟩
      obtain ⟨M', h', eK, eC, eF, he⟩ := other_model hP hg h hs
      refine ⟨M', h', ?_⟩
      rw [C58_train c { P with leaf := s } ⟨hP.1, hP.2⟩ (hs.good hg) M' h' N hN x (by rw [eC, eF]; exact hs.batch hx) t]
      congr 4
      refine Finset.sum_congr rfl fun n hn => ?_
      have hn' := Finset.mem_range.1 hn
      unfold rowProb
      rw [eK]
      congr 2
      refine Finset.sum_congr rfl fun k hk => he _ (hx.2 n hn') (fun _ _ e => ⟨n, hn', e⟩) k (Finset.mem_range.1 hk)
    | true =>
      obtain ⟨hK, ht, hl⟩ := hc rfl
      refine ⟨_, C59_train_partial c P hP hg M h hK N hN x hx t ht hl, fun s hs => ?_⟩
      obtain ⟨M', h', eK, eC, eF, he⟩ := other_model hP hg h hs
      have he' : ∀ n, n < N → ∀ k, k < M.num_classes → classProb M' k (rowAt x n) = classProb M k (rowAt x n) :=
        fun n hn => he _ (hx.2 n hn) fun _ _ e => ⟨n, hn, e⟩
      have hsum : ∀ n, n < N → ∑ j ∈ Finset.range M'.num_classes, classProb M' j (rowAt x n) =
          ∑ j ∈ Finset.range M.num_classes, classProb M j (rowAt x n) := by
        intro n hn
        rw [eK]
        exact Finset.sum_congr rfl fun k hk => he' n hn k (Finset.mem_range.1 hk)
      refine ⟨M', h', ?_⟩
      rw [C59_train_partial c { P with leaf := s } ⟨hP.1, hP.2⟩ (hs.good hg) M' h' (by rw [eK]; exact hK) N hN x
        (by rw [eC, eF]; exact hs.batch hx) t ht (by rw [eK]; exact hl)]
      congr 3
      · congr 2
        refine Finset.sum_congr rfl fun n hn => ?_
        have hn' := Finset.mem_range.1 hn
        unfold bayes
        rw [hsum n hn', he' n hn' _ (by have := hl n hn'; omega)]
      · congr 1
        exact Finset.sum_congr rfl fun n hn => by rw [hsum n (Finset.mem_range.1 hn)]
  obtain ⟨l, h1, h2⟩ := key
  refine ⟨l, h1, h2, fun s ll hs hll e => ?_⟩
  have : ll = fun _ => l := by
    funext e
    obtain ⟨M', h3, h4⟩ := h2 (s e) (hs e)
    have := (hll e M' h3).symm.trans h4
    simpa using this
  rw [this]
  exact hasDerivAt_const e l

/-- feature 3 is missing in all rows, its means are changed. -/
example : ∃ (M : Model) (x : Tensor Fl) (s : LeafSpec), build (exConfig "einsum" "top-down") (exParams exLeaf) = .ok M ∧
    (exParams exLeaf).Random ∧ (exParams exLeaf).leaf.Good ∧ M.num_classes = 3 ∧
    Batch (exParams exLeaf).leaf 2 M.num_channels M.num_features x ∧
    SameAt (fun c f => ∃ n, n < 2 ∧ Known x n c f) (exParams exLeaf).leaf s ∧ s ≠ (exParams exLeaf).leaf ∧ Known x 0 1 2 := by
  obtain ⟨M, h⟩ := exConfig_normal (l := "einsum") (s := "top-down") (Or.inl ⟨Or.inr (Or.inr rfl), rfl⟩)
  obtain ⟨hs, -⟩ := build_WF (exParams_random _) h
  have hC : M.num_channels = 2 := hs.channels
  have hF : M.num_features = 5 := hs.features
  refine ⟨M, ⟨[2, 2, 5], fun i => if i.getD 2 0 = 3 then .nan else .fin i.sum⟩,
    .normal (fun c f i r => if f = 3 then 7 else c + 2 * f + 3 * i + 5 * r) (fun _ _ i r => i - r), h, exParams_random _, trivial,
    hs.classes, ?_, ?_, ?_, ?_⟩
  · rw [hC, hF]
    refine ⟨rfl, fun n _ c _ f _ => ?_⟩
    dsimp only
    split_ifs
    · exact Or.inl rfl
    · exact Or.inr ⟨_, rfl, trivial⟩
  · refine .normal (fun c f hA i r => ?_) fun _ _ _ _ _ => rfl
    obtain ⟨n, -, hk⟩ := hA
    have : f ≠ 3 := fun e => hk (by simp [e])
    simp only [this, if_false]
  · intro e
    have := congrFun (congrFun (congrFun (congrFun (LeafSpec.normal.inj e).1 0) 3) 0) 0
    norm_num at this
  · simp [Known]

end Einet.Props
