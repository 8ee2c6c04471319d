import Verif.Shift
import Verif.PropsDensity
import Verif.PropsMpe
import Verif.Gen
import Verif.StateDictBuild
import Verif.CondBuild

/-!
# Only the differences of raw weights matter: C85
-/

open Classical MeasureTheory
open scoped ENNReal
noncomputable section
namespace Einet
namespace Props
open Tensor Einet

/-- **C85**, `forward`: adding a number to the raw weights of every sum node (a number for each node, the same for all its
children) does not change the results of the forward pass nor its exceptions; all inputs, valid or not, all scopes. -/
theorem C85_forward (c : Config) (P : Params) (hP : P.Random) (M : Model) (h : build c P = .ok M) (s : Shifts) (x : Tensor Fl)
    (ms : Option Scopes) : (M.shift s).forward x ms = M.forward x ms := by
  unfold Model.forward
  rw [Model.run_shift (build_WF hP h).2.1.chain s]

/-- **C85**, `sample`: all arguments, with or without evidence: the same random choices are made with the same weights. -/
theorem C85_sample (c : Config) (P : Params) (hP : P.Random) (M : Model) (h : build c P = .ok M) (s : Shifts) (a : SampleArgs)
    (hT : a.temperature_sums ≠ 0) : Rand.Alike (M.sample a) ((M.shift s).sample a) :=
  Model.sample_alike (build_WF hP h).2.1.chain s a hT

/-- **C85**, `sample`: the law of the results is the same. -/
theorem C85_law (c : Config) (P : Params) (hP : P.Random) (M : Model) (h : build c P = .ok M) (s : Shifts) (a : SampleArgs)
    (hT : a.temperature_sums ≠ 0) (f : Tensor Fl → ℝ≥0∞) : ((M.shift s).sample a).E f = (M.sample a).E f :=
  ((C85_sample c P hP M h s a hT).E f).symm

/-- a generator whose choice depends on the weights of the categories only, and is one of them if there are any. -/
def Gen.Local (G : Gen) : Prop :=
  ∀ s K w w', (∀ j, j < K → w j = w' j) → G.cat s K w = G.cat s K w' ∧ (0 < K → (G.cat s K w).1 < K)

theorem alike_run {α : Type} {x y : Rand α} (h : Rand.Alike x y) {G : Gen} (hG : Gen.Local G) (s : G.σ) : x.run G s = y.run G s := by
  induction h generalizing s with
  | pure a => rfl
  | fail e => rfl
  | @draw K w w' k k' hw _ ih =>
    obtain ⟨h1, h2⟩ := hG s K w w' hw
    show (k (G.cat s K w).1).run G (G.cat s K w).2 = (k' (G.cat s K w').1).run G (G.cat s K w').2
    rw [← h1]
    exact ih _ h2 _
  | @leaf μ k k' _ ih => exact ih _ _

/-- **C85**, `sample` after the same seed: the very same result (or exception), and the generator is left in the same state. -/
theorem C85_seed (c : Config) (P : Params) (hP : P.Random) (M : Model) (h : build c P = .ok M) (s : Shifts) (a : SampleArgs)
    (hT : a.temperature_sums ≠ 0) (G : Gen) (hG : Gen.Local G) (seed : Int) :
    ((M.shift s).sample a).run G (G.seed seed) = (M.sample a).run G (G.seed seed) :=
  (alike_run (C85_sample c P hP M h s a hT) hG _).symm

/-- there are such generators. -/
example : ∃ G : Gen, Gen.Local G ∧ ∃ s K w w', (G.cat s K w).1 ≠ (G.cat s K w').1 := by
  refine
  ⟨⟨Nat, fun s K w => ((if 0 < K ∧ w 0 = .ninf then 1 % K else s % K), s + 1), fun s _ => (0, s), Int.toNat⟩, fun s K w w' h => ⟨?_, ?_⟩,
      (0 : Nat), 2, fun _ => .ninf, fun _ => .fin 0, ?_⟩
  · rcases Nat.eq_zero_or_pos K with rfl | hK
    · simp
    · simp only [h 0 hK]
  · intro hK
    dsimp only
    split_ifs
    · exact Nat.mod_lt _ hK
    · exact Nat.mod_lt _ hK
  · simp

/-- **C85**, `mpe`: the same result. -/
theorem C85_mpe (c : Config) (P : Params) (hP : P.Random) (M : Model) (h : build c P = .ok M) (s : Shifts) (e : Option (Tensor Fl))
    (ms : Option Scopes) : (M.shift s).mpe e ms = M.mpe e ms :=
  ((C85_sample c P hP M h s { evidence := e, is_mpe := true, marginalized_scopes := ms } one_ne_zero).eq_of_det (M.sample_det rfl)).symm

theorem softmaxR_shift (K : Nat) (l : Nat → ℝ) (c : ℝ) : softmaxR K (fun k => l k + c) = softmaxR K l := by
  funext k
  unfold softmaxR
  simp only [Real.exp_add]
  rw [← Finset.sum_mul, mul_div_mul_right _ _ (Real.exp_pos c).ne']

/-- **C85** for categorical leaves: adding a number to the logits of all categories of a leaf component gives the same model. -/
theorem C85_categorical (c : Config) (P : Params) (n : ℤ) (l : Nat → Nat → Nat → Nat → Nat → ℝ) (s : Nat → Nat → Nat → Nat → ℝ) :
    build c { P with leaf := .categorical n fun d f i r k => l d f i r k + s d f i r } = build c { P with leaf := .categorical n l } := by
  have e : ∀ d : LeafDims, categoricalLeaf d n.toNat (fun d f i r k => l d f i r k + s d f i r) = categoricalLeaf d n.toNat l := by
    intro d
    unfold categoricalLeaf
    simp only [softmaxR_shift]
  have e2 : ∀ k (d : LeafDims), (LeafSpec.categorical n fun d f i r k => l d f i r k + s d f i r).build k d = (LeafSpec.categorical n l).build k d := by
    intro k d
    unfold LeafSpec.build
    simp only [e]
  unfold build buildTopDown buildBottomUp
  simp only [e2, show ∀ l, topDownStructure c { P with leaf := l } = topDownStructure c P from fun _ => by
      unfold topDownStructure; rw [topDownLayers_leaf],
    show ∀ l, bottomUpStructure c { P with leaf := l } = bottomUpStructure c P from fun _ => by
      unfold bottomUpStructure; rw [bottomUpLayers_leaf],
    show ∀ l, buildRoots c { P with leaf := l } = buildRoots c P from fun _ => rfl]
  rfl

/-- the shifted model is another model: its parameters differ. -/
example : ∃ (M : Model) (s : Shifts), build (exConfig "einsum" "top-down") (exParams exLeaf) = .ok M ∧
    (M.shift s).classRoot.logits.get [0, 1, 0, 0] ≠ M.classRoot.logits.get [0, 1, 0, 0] ∧
    (M.shift s).mixing.logits.get [0, 1, 1] ≠ M.mixing.logits.get [0, 1, 1] ∧
    ∀ x ms, (M.shift s).forward x ms = M.forward x ms := by
  obtain ⟨M, h⟩ := exConfig_normal (l := "einsum") (s := "top-down") (Or.inl ⟨Or.inr (Or.inr rfl), rfl⟩)
  refine ⟨M, ⟨fun a b c d => a + 2 * b + 3 * c + d, fun a b => a + b, 7⟩, h, ?_, ?_, fun x ms =>
    C85_forward _ _ (exParams_random _) M h _ x ms⟩
  · have e : M.classRoot.logits.get [0, 1, 0, 0] = .fin 3 := by
      rw [build_classRoot h]; simp [mkSumL, exParams]
    show M.classRoot.logits.get [0, 1, 0, 0] + Fl.fin 7 ≠ _
    rw [e]
    show Fl.fin (3 + 7) ≠ _
    norm_num
  · have e : M.mixing.logits.get [0, 1, 1] = .fin 4 := by
      rw [(build_plain h).1]; simp [plainModel, mkSumL, exParams]; norm_num
    show M.mixing.logits.get [0, 1, 1] + Fl.fin (((0 : Nat) : ℝ) + ((1 : Nat) : ℝ)) ≠ _
    rw [e]
    show Fl.fin (4 + _) ≠ _
    norm_num

end Props
end Einet
