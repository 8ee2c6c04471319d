import Verif.PropsSmooth
import Verif.PropsMixture
import Verif.PropsConvSmooth
import Verif.PropsConvMixture

/-!
# C98: log-likelihoods of mixtures are smooth functions of the parameters of the components, and of rows that keep their cluster
-/

open Classical MeasureTheory
open scoped ENNReal
noncomputable section
namespace Einet
open Tensor
namespace Props

variable {E : Type} [NormedAddCommGroup E] [NormedSpace ℝ E] {m : WithTop ℕ∞}

/-- **C98**: the log-likelihoods of a mixture of Einets are finite and depend smoothly on the parameters of all components and on the
data, as long as no row changes its cluster. -/
theorem C98_forward (c : Config) (P : E → Nat → Params) (X : E → Mixture) (hX : ∀ e, IsMixture c (P e) (X e))
    (hs : ∀ j, SmoothParams m fun e => P e j) (hl : ∀ j, LeafFam m fun e => (P e j).leaf) (N : Nat) (hN : 0 < N)
    (x : E → Tensor Fl) (hx : ∀ j, SmData m (fun e => (P e j).leaf) x)
    (hb : ∀ e j, Batch (P e j).leaf N c.num_channels.toNat c.num_features.toNat (x e)) (κ : Nat → Nat)
    (hκ : ∀ e i, i < N → clusterOf (X e) c.num_channels.toNat c.num_features.toNat none (x e) i = κ i) :
    ∃ v : E → Nat → Nat → ℝ, (∀ n, n < N → ∀ k, k < c.num_classes.toNat → ContDiff ℝ m fun e => v e n k) ∧
      ∀ e, ∃ y, (X e).forward (x e) = .ok y ∧ y.shape = [N, c.num_classes.toNat] ∧
        ∀ n, n < N → ∀ k, k < c.num_classes.toNat → y.get [n, k] = .fin (v e n k) := by
  have h28 := fun e => C28_forward c (P e) (X e) (hX e) N hN (x e) (hb e)
  choose y hy hys hrow using h28
  have key : ∀ n, ∃ v : E → Nat → ℝ, n < N → ∀ k, k < c.num_classes.toNat → ContDiff ℝ m (fun e => v e k) ∧
      ∀ e, (y e).get [n, k] = .fin (v e k) := by
    intro n
    by_cases hn : n < N
    · choose M z hM hz hval using fun e => hrow e n hn
      have hb' : ∀ e, build c (P e (κ n)) = .ok (M e) := fun e => by
        have := hM e
        rw [hκ e n hn] at this
        exact (hX e).model this
      obtain ⟨v, hv, hv'⟩ := C88_forward c (fun e => P e (κ n)) (fun e => (hX e).random _) (fun e => (hX e).good _) (hs _) (hl _) M hb' 1
        (fun e => oneRow c.num_channels.toNat c.num_features.toNat (x e) n) (fun i => hx (κ n) (n :: i.tail)) (fun e => by
          obtain ⟨e1, e2, -⟩ := (hX e).sizes (hM e)
          rw [e1, e2]
          refine ⟨rfl, fun j hj => ?_⟩
          obtain rfl : j = 0 := by omega
          exact (hb e (κ n)).2 n hn)
      refine ⟨fun e k => v e 0 k, fun _ k hk => ⟨hv 0 one_pos k hk, fun e => ?_⟩⟩
      obtain ⟨z', hz', -, hz2⟩ := hv' e
      rw [hz e] at hz'
      cases hz'
      rw [hval e k hk, hz2 0 one_pos k hk]
    · exact ⟨0, fun h => absurd h hn⟩
  choose v hv using key
  exact ⟨fun e n k => v n e k, fun n hn k hk => (hv n hn k hk).1, fun e => ⟨y e, hy e, hys e, fun n hn k hk => (hv n hn k hk).2 e⟩⟩

/-- **C98**, fixed data: if only the parameters of the components change, and not the centroids, then the log-likelihoods of all rows are
smooth functions. -/
theorem C98_parameters (c : Config) (P : E → Nat → Params) (X : E → Mixture) (hX : ∀ e, IsMixture c (P e) (X e))
    (hc : ∀ e, (X e).centroids = (X 0).centroids ∧ (X e).nearest = (X 0).nearest)
    (hs : ∀ j, SmoothParams m fun e => P e j) (hl : ∀ j, LeafFam m fun e => (P e j).leaf) (N : Nat) (hN : 0 < N) (x : Tensor Fl)
    (hb : ∀ e j, Batch (P e j).leaf N c.num_channels.toNat c.num_features.toNat x) :
    ∃ v : E → Nat → Nat → ℝ, (∀ n, n < N → ∀ k, k < c.num_classes.toNat → ContDiff ℝ m fun e => v e n k) ∧
      ∀ e, ∃ y, (X e).forward x = .ok y ∧ y.shape = [N, c.num_classes.toNat] ∧
        ∀ n, n < N → ∀ k, k < c.num_classes.toNat → y.get [n, k] = .fin (v e n k) :=
  C98_forward c P X hX hs hl N hN (fun _ => x) (fun _ i => Or.inl ⟨_, fun _ => rfl⟩) hb
    (fun i => clusterOf (X 0) c.num_channels.toNat c.num_features.toNat none x i) fun e i _ => by
      unfold clusterOf
      rw [(hc e).1, (hc e).2]

/-- **C98**, mixtures of convolutional circuits that accept the images. -/
theorem C98_conv (c : ConvConfig) (d : ImgShape) (P : E → Nat → ConvParams) (X : E → ConvMixture)
    (hX : ∀ e, IsConvMixture c d (P e) (X e)) (hu : c.Usual d) (hf : c.SizeFits d) (h2 : c.channels.headD 0 ≠ 1)
    (hs : ∀ j i, SmW m fun e => (P e j).logits i) (hl : ∀ j, LeafFam m fun e => (P e j).leaf) (N : Nat) (hN : 0 < N)
    (x : E → Tensor Fl) (hx : ∀ j, SmData m (fun e => (P e j).leaf) x)
    (hb : ∀ e j, ImgBatch (P e j).leaf N d.channels d.height d.width (x e)) (κ : Nat → Nat)
    (hκ : ∀ e i, i < N → convCluster (X e) d none (x e) i = κ i) :
    ∃ v : E → Nat → ℝ, (∀ n, n < N → ContDiff ℝ m fun e => v e n) ∧
      ∀ e, ∃ y, (X e).forward (x e) = .ok y ∧ y.shape = [N] ∧ ∀ n, n < N → y.get [n] = .fin (v e n) := by
  have h96 := fun e => C96_forward_partial c d (P e) (X e) (hX e) hu hf h2 N hN (x e) (hb e) none
  choose y hy hys hrow using h96
  have key : ∀ n, ∃ v : E → ℝ, n < N → ContDiff ℝ m v ∧ ∀ e, (y e).get [n] = .fin (v e) := by
    intro n
    by_cases hn : n < N
    · choose M z hM hz hval using fun e => hrow e n hn
      have hb' : ∀ e, buildConv c d (P e (κ n)) = .ok (M e) := fun e => by
        have := hM e
        rw [hκ e n hn] at this
        exact (hX e).parts.2.2 _ _ this
      obtain ⟨v, hv, hv'⟩ := C97_forward c d (fun e => P e (κ n)) hu (fun e => (hX e).good _) (hs _) (hl _) M hb' 1
        (fun e => oneImg d (x e) n) (fun i => hx (κ n) (n :: i.tail)) (fun e => ⟨rfl, fun j hj => by
          obtain rfl : j = 0 := by omega
          exact (hb e (κ n)).2 n hn⟩) 0 ⟨_, hz 0⟩
      refine ⟨fun e => v e 0, fun _ => ⟨hv 0 one_pos, fun e => ?_⟩⟩
      obtain ⟨z', hz', -, hz2⟩ := hv' e
      rw [hz e] at hz'
      cases hz'
      rw [hval e, hz2 0 one_pos]
    · exact ⟨0, fun h => absurd h hn⟩
  choose v hv using key
  exact ⟨fun e n => v n e, fun n hn => (hv n hn).1, fun e => ⟨y e, hy e, hys e, fun n hn => (hv n hn).2 e⟩⟩

/-! ### Examples -/

/-- the hypotheses of `C98_parameters` are met by three different components whose parameters all change, with two rows sent to
different components. -/
example : ∃ (P : ℝ → Nat → Params) (X : ℝ → Mixture), (∀ e, IsMixture (exConfig "einsum" "top-down") (P e) (X e)) ∧
    (∀ e, (X e).centroids = (X 0).centroids ∧ (X e).nearest = (X 0).nearest) ∧ (∀ j, SmoothParams ⊤ fun e => P e j) ∧
    (∀ j, LeafFam ⊤ fun e => (P e j).leaf) ∧
    (∀ e j, Batch (P e j).leaf 3 (exConfig "einsum" "top-down").num_channels.toNat
      (exConfig "einsum" "top-down").num_features.toNat exBatch) ∧
    (∀ e, clusterOf (X e) 2 5 none exBatch 0 = 2 ∧ clusterOf (X e) 2 5 none exBatch 1 = 0) ∧
    (P 0 0).logits 1 [0, 1] ≠ (P 1 0).logits 1 [0, 1] ∧ (P 1 0).logits 1 [0, 1] ≠ (P 1 1).logits 1 [0, 1] := by
  let P : ℝ → Nat → Params := fun e k => { exParams (.normal (fun c f _ _ => e + c + f) fun _ _ i _ => e * i) with
    logits := fun i j => e * (i + j.sum + k), rootLogits := fun j => e * j.sum, mixLogits := fun j => e * j.sum }
  have hP : ∀ e k, (P e k).Random := fun e k => ⟨fun l => List.reverse_perm l, fun _ _ => List.reverse_perm _⟩
  have hB : ∀ e k, ∃ M, build (exConfig "einsum" "top-down") (P e k) = .ok M := by
    intro e k
    obtain ⟨M, hM⟩ := exConfig_builds (l := "einsum") (s := "top-down") (leaf := (P e k).leaf)
      (Or.inl ⟨Or.inr (Or.inr rfl), rfl⟩) ⟨normalLeaf _ _ _, by simp [P, LeafSpec.build]; rfl⟩
    exact build_iff.2 ((build_iff (P := exParams (P e k).leaf)).1 ⟨M, hM⟩)
  choose M hM using hB
  have hid : ContDiff ℝ ⊤ fun e : ℝ => e := contDiff_id
  refine ⟨P, fun e => ⟨(List.range 3).map (M e), _, [], List.replicate 3 (List.replicate 10 (.fin 1)), exNear⟩,
    fun e => isMixture_of (n := 3) (by norm_num) (fun k _ => hM e k) (hP e) (fun _ => trivial) [] (by simp) (by simp [exConfig]) exNear_lt,
    fun e => ⟨rfl, rfl⟩, fun k => ⟨fun _ _ => rfl, fun _ _ => rfl, fun i j => hid.mul contDiff_const, fun j => hid.mul contDiff_const,
    fun j => hid.mul contDiff_const⟩, fun k => .normal (fun c f i r => (hid.add contDiff_const).add contDiff_const)
    (fun c f i r => hid.mul contDiff_const), fun e k => ⟨rfl, fun n hn c hc f hf => ?_⟩, fun e => ⟨?_, ?_⟩, ?_, ?_⟩
  · rcases exBatch_batch.2 n hn c hc f hf with h | ⟨v, h, -⟩
    · exact Or.inl h
    · exact Or.inr ⟨v, h, trivial⟩
  · simp [clusterOf, exNear, keptCols, exBatch, at', List.range_succ]
  · simp [clusterOf, exNear, keptCols, exBatch, at', List.range_succ]
  · simp [P]
    norm_num
  · simp [P]

/-- the hypotheses of `C98_conv` are met, with changing parameters of two components. -/
example (s o : String) (hs : s = "bottom-up" ∨ s = "top-down") (ho : o = "sum-prod" ∨ o = "prod-sum") :
    ∃ (P : ℝ → Nat → ConvParams) (X : ℝ → ConvMixture) (κ : Nat → Nat), (∀ e, IsConvMixture (exConv s o) ⟨3, 8, 24⟩ (P e) (X e)) ∧
      (exConv s o).Usual ⟨3, 8, 24⟩ ∧ (exConv s o).SizeFits ⟨3, 8, 24⟩ ∧ (exConv s o).channels.headD 0 ≠ 1 ∧
      (∀ j i, SmW ⊤ fun e => (P e j).logits i) ∧ (∀ j, LeafFam ⊤ fun e => (P e j).leaf) ∧
      (∀ j, SmData ⊤ (fun e => (P e j).leaf) fun _ => full [5, 3, 8, 24] (.fin 1)) ∧
      (∀ e j, ImgBatch (P e j).leaf 5 3 8 24 (full [5, 3, 8, 24] (.fin 1))) ∧
      ∀ e i, i < 5 → convCluster (X e) ⟨3, 8, 24⟩ none (full [5, 3, 8, 24] (.fin 1)) i = κ i := by
  have hu : (exConv s o).Usual ⟨3, 8, 24⟩ := ⟨by simp [exConv], by norm_num, by norm_num, ho⟩
  have hf : (exConv s o).SizeFits ⟨3, 8, 24⟩ := ⟨fun _ => by norm_num [exConv], fun _ => by norm_num [exConv]⟩
  let P : ℝ → Nat → ConvParams := fun e k => ⟨.normal (fun _ _ i _ => e * i) (fun _ _ i _ => e + i), fun i l => e * (i + l.sum + k)⟩
  have hb : ∀ e k, ∃ M, buildConv (exConv s o) ⟨3, 8, 24⟩ (P e k) = .ok M := fun e k =>
    buildConv_ok (P := P e k) (by simp [exConv]) (by norm_num) hu (fun _ => hf) hs (by simp [P, LeafSpec.build, exConv])
  choose M hM using hb
  let X : ℝ → ConvMixture := fun e =>
    ⟨[M e 0, M e 1], 576, [1 / 4, 3 / 4].map Fl.fin, List.replicate 2 (List.replicate 576 (.fin 0)), exNearImg⟩
  refine ⟨P, X, fun i => convCluster (X 0) ⟨3, 8, 24⟩ none (full [5, 3, 8, 24] (.fin 1)) i,
    fun e => ⟨fun _ => trivial, ⟨2, ?_⟩, rfl, ?_, ?_⟩, hu, hf, by simp [exConv], fun j i l => contDiff_id.mul contDiff_const,
    fun j => .normal (fun _ _ _ _ => contDiff_id.mul contDiff_const) (fun _ _ _ _ => contDiff_id.add contDiff_const),
    fun j i => Or.inl ⟨_, fun _ => rfl⟩, ?_, fun e i _ => rfl⟩
  · refine (checkInt_iff 2 1 one_ne_zero _ _).2 ⟨by norm_num, ?_⟩
    have e : (List.range (2 : Int).toNat).mapM (fun k => buildConv (exConv s o) ⟨3, 8, 24⟩ (P e k)) = .ok [M e 0, M e 1] := by
      show [0, 1].mapM _ = _
      simp [hM]
    rw [e]
    rfl
  · intro l hl
    rw [List.eq_of_mem_replicate hl]
    exact List.length_replicate
  · intro l cs hcs
    have := List.length_pos_iff.2 hcs
    show exNearImg l cs < _
    unfold exNearImg
    split_ifs with h
    · exact h.1
    · exact this
  · exact fun e k => ⟨rfl, fun _ _ _ _ _ _ _ _ => Or.inr ⟨1, rfl, trivial⟩⟩

end Props
end Einet
