import Verif.PropsMvn
import Verif.PropsSample

/-!
# C54: sampling from einets with multivariate normal leaves
-/

open Classical MeasureTheory ProbabilityTheory Matrix
open scoped ENNReal
noncomputable section
namespace Einet
open Tensor

/-! ### Lemmas -/

theorem All_drawVec (μ : Measure ℝ) (n : Nat) : (drawVec μ n).All fun _ => True := by
  induction n with
  | zero => exact trivial
  | succ n ih => exact ih.bind fun _ _ _ => trivial

/-- outcomes of `sample` without evidence. -/
theorem MvnEinet.sample_All {E : MvnEinet} {g : Nat → Nat → Nat} (h : E.WF g) (hp : E.leaf.pad_value = 0)
    (hnd : ∀ B, E.net.leaf ≠ .direct B) (hF0 : 0 < E.leaf.num_features) {a : SampleArgs} (hev : a.evidence = none)
    (hN : 0 < a.count) (hm : a.is_mpe = false) (hml : a.mpe_at_leaves = false) (hT : a.temperature_sums ≠ 0)
    (hc : E.net.ClassOK a.count a.class_index) :
    (E.sample a).All fun s => s.shape = [a.count, E.leaf.num_channels, E.width] := by
  rw [sample_eq E (Model.check_ok hc (by simp [hev])) hev h hnd, Rand.bind_assoc]
  refine Rand.All.bind (Model.corePath_All h.net hN hT hc (Model.evM_none E.net a.count) (Model.finZero E.net _))
    fun ctx ⟨idx, rr, hctx, hce⟩ => ?_
  have hcm : ctx.is_mpe = false := by rw [hce]; exact hm
  have hcml : ctx.mpe_at_leaves = false := by rw [hce]; exact hml
  obtain ⟨res, h1, h2⟩ := sampleLeaf_eq h hp hnd hF0 hN hctx hcm hcml
  rw [h1, Rand.bind_assoc]
  refine Rand.All.bind (P := fun _ => True) ?_ fun eps _ => ?_
  · refine (Rand.All_drawAll (P := fun _ _ => True) fun i _ => ?_).mono fun _ _ => trivial
    exact All_drawVec _ _
  · refine Rand.All.bind (Rand.All.lift (h2 eps)) fun s hs => ?_
    exact hs.1

theorem Rand.Disc.E_add {α : Type} {x : Rand α} (h : x.Disc) (f g : α → ℝ≥0∞) : x.E (fun a => f a + g a) = x.E f + x.E g := by
  induction x with
  | pure a => rfl
  | fail e => simp [Rand.E]
  | draw K w k ih =>
    simp only [Rand.E, fun j => ih j (h j), mul_add, Finset.sum_add_distrib]
  | leaf _ _ => exact absurd h id

theorem buildMvn_samplable {c : Config} {P : Params} {θ : MvnParams} (hP : P.Random) {E : MvnEinet}
    (h : buildMvn c P θ = .ok E) (htd : c.structure' = "top-down") {K : ℤ} (hK : c.cardinality = some K)
    (hdiv : K ∣ c.num_features) (hR : 1 < c.num_repetitions) :
    E.Samplable (buildGroups (c.blocks K) { P with leaf := .normal (fun _ _ _ _ => 0) (fun _ _ _ _ => 0) }) ∧
    E.net.numOut = 2 ^ c.depth.toNat ∧
    ((2 : ℤ) ^ c.depth.toNat * K < c.num_features →
      E.net.Mirrored (buildGroups (c.blocks K) { P with leaf := .normal (fun _ _ _ _ => 0) (fun _ _ _ _ => 0) })) := by
  obtain ⟨hw, hp⟩ := buildMvn_ok hP h htd hK hdiv
  obtain ⟨K', hK', h1, hl, _, _, B, hB⟩ := buildMvn_spec hP h htd
  rw [hK] at hK'
  cases hK'
  obtain ⟨_, _, _, h2, _⟩ := buildMvn_leaf h
  have hbase : E.net.leaf.base = B := by
    rw [hB]; unfold buildInput; split_ifs <;> rfl
  have hBr : B.num_repetitions ≠ 1 := by
    have := hw.net.front.reps
    rw [hbase, hw.reps, hl] at this
    have h3 : B.num_repetitions = c.num_repetitions.toNat := this
    omega
  have hBf : B.num_features = E.leaf.out_features := by
    rw [← hw.features, ← hw.net.front.features, hbase]
  have hleaf : E.net.leaf = .factorized (FactLeaf.build { P with leaf := .normal (fun _ _ _ _ => 0) (fun _ _ _ _ => 0) } B
      (2 ^ c.depth.toNat)) := by
    rw [hB]; unfold buildInput; rw [if_neg hBr]
  have hF : E.leaf.num_features = c.num_features.toNat := by rw [hl]
  refine ⟨⟨hw, hp, ⟨_, hleaf⟩, by omega⟩, ?_, fun hlt => ?_⟩
  · unfold Model.numOut
    rw [hleaf]
    rfl
  · intro r hr f hf
    unfold Model.grpS Model.grpF
    rw [hleaf]
    dsimp only
    rw [if_neg]
    show ¬ B.num_features = 2 ^ c.depth.toNat
    rw [hBf]
    intro e
    have hm := MvnLeaf.out_mul hw.card hp
    rw [e, hF, show E.leaf.cardinality = K.toNat by rw [hl]] at hm
    have : ((2 ^ c.depth.toNat * K.toNat : ℕ) : ℤ) = c.num_features := by rw [hm]; omega
    push_cast at this
    rw [Int.toNat_of_nonneg (by omega)] at this
    omega

namespace Props

/-! ### C54 -/

/-- **C54 is false** of models with one repetition and cardinality 2 or more: `sample` always returns one value per block and
channel instead of one per feature. -/
theorem C54_refuted_one_repetition (c : Config) (P : Params) (hP : P.Random) (θ : MvnParams) (E : MvnEinet)
    (h : buildMvn c P θ = .ok E) (htd : c.structure' = "top-down") (K : ℤ) (hK : c.cardinality = some K) (hK2 : 2 ≤ K)
    (hdiv : K ∣ c.num_features) (hR : c.num_repetitions = 1) (a : SampleArgs) (hev : a.evidence = none)
    (hN : 0 < a.count) (hm : a.is_mpe = false) (hml : a.mpe_at_leaves = false) (hT : a.temperature_sums ≠ 0)
    (hc : ClassArg E.net a.count a.class_index) :
    (E.sample a).All fun s => s.shape = [a.count, E.leaf.num_channels, E.leaf.num_features / K.toNat] ∧
      s.shape ≠ [a.count, E.leaf.num_channels, E.leaf.num_features] := by
  obtain ⟨hw, hp⟩ := buildMvn_ok hP h htd hK hdiv
  obtain ⟨K', hK', h1, hl, _, _, B, hB⟩ := buildMvn_spec hP h htd
  rw [hK] at hK'
  cases hK'
  obtain ⟨_, _, _, h2, _⟩ := buildMvn_leaf h
  have hbase : E.net.leaf.base = B := by
    rw [hB]; unfold buildInput; split_ifs <;> rfl
  have hBr : B.num_repetitions = 1 := by
    have := hw.net.front.reps
    rw [hbase, hw.reps, hl] at this
    have h3 : B.num_repetitions = c.num_repetitions.toNat := this
    omega
  have hleaf : E.net.leaf = .simple (FactSimple.build { P with leaf := .normal (fun _ _ _ _ => 0) (fun _ _ _ _ => 0) } B
      (2 ^ c.depth.toNat)) := by
    rw [hB]; unfold buildInput; rw [if_pos hBr]
  have hF : E.leaf.num_features = c.num_features.toNat := by rw [hl]
  have hcard : E.leaf.cardinality = K.toNat := by rw [hl]
  have hm' := MvnLeaf.out_mul hw.card hp
  have hwd : E.width = E.leaf.num_features / K.toNat := by
    unfold MvnEinet.width
    rw [hleaf]
    dsimp only
    rw [← hm', hcard, Nat.mul_div_cancel _ (by omega)]
  refine (MvnEinet.sample_All hw hp (by rw [hleaf]; simp) (by omega) hev hN hm hml hT hc.ok).mono fun s hs => ?_
  rw [hwd] at hs
  refine ⟨hs, ?_⟩
  rw [hs]
  intro e
  have e2 : E.leaf.num_features / K.toNat = E.leaf.num_features := by simpa using e
  have := Nat.div_lt_self (n := E.leaf.num_features) (k := K.toNat) (by omega) (by omega)
  omega

/-- two blocks of two features, one repetition, ten samples of class 2. -/
example : ∃ E, buildMvn (mvnConfig 4 2 1 3 1 "einsum" "top-down") (exParams exLeaf) mvnParams = .ok E ∧ (2 : ℤ) ∣ 4 ∧
    ClassArg E.net 10 (some (.int 2)) := by
  obtain ⟨E, h⟩ := mvnConfig_topDown (F := 4) (C := 2) (R := 1) (k := 3) (d := 1) (by norm_num) (by norm_num) (by norm_num)
    (by norm_num) (by norm_num) (layer := "einsum") (by simp) (by norm_num [Int.fdiv]) (exParams exLeaf) mvnParams
  obtain ⟨_, _, _, _, h2, _⟩ := buildMvn_spec (exParams_random _) h rfl
  have h2' : E.net.num_classes = 3 := h2
  exact ⟨E, h, by norm_num, by omega, by omega⟩

/-- the class of row `n` asked for. -/
def rowClass : Option ClassIndex → Nat → Nat
  | none, _ => 0
  | some (.int k), _ => k
  | some (.list l), n => l.getD n 0

/-- **C54** (part): the rows returned by `sample` are independent and each has the density of the forward pass of its class,
for all measurable statistics of the whole batch.  Valid with more than one repetition and more blocks than leaf groups, if
there is one component per leaf, or the blocks are single features, or all blocks are in one group.  Missing for the full
property: one repetition (`C54_refuted_one_repetition`) and several components with several groups of blocks
(`C54_refuted_repeat`). -/
theorem C54_law_partial (c : Config) (P : Params) (hP : P.Random) (θ : MvnParams) (E : MvnEinet)
    (h : buildMvn c P θ = .ok E) (htd : c.structure' = "top-down") (K : ℤ) (hK : c.cardinality = some K)
    (hdiv : K ∣ c.num_features) (hR : 1 < c.num_repetitions) (hlt : (2 : ℤ) ^ c.depth.toNat * K < c.num_features)
    (hal : c.num_leaves = 1 ∨ K = 1 ∨ c.depth = 0) (a : SampleArgs) (hev : a.evidence = none)
    (hN : 0 < a.count) (hm : a.is_mpe = false) (hml : a.mpe_at_leaves = false) (hT : a.temperature_sums = 1)
    (hc : ClassArg E.net a.count a.class_index) (hone : a.class_index = none → E.net.num_classes = 1)
    (φ : (Fin a.count → Fin E.leaf.num_channels → Fin E.leaf.num_features → ℝ) → ℝ≥0∞) (hφ : Measurable φ) :
    (E.sample a).E (fun s => φ fun n c f => (s.get [n, c, f]).val) =
      ∫⁻ ω, φ ω ∂Measure.pi fun n : Fin a.count => (volume : Measure (Fin E.leaf.num_channels → Fin E.leaf.num_features → ℝ)).withDensity
        fun ω => E.density none (rowClass a.class_index n) (Pt.data ω) := by
  obtain ⟨hs, ho, hmir⟩ := buildMvn_samplable hP h htd hK hdiv hR
  have hal' : E.Aligned := by
    obtain ⟨K', hK', h1, hl, _⟩ := buildMvn_spec hP h htd
    rw [hK] at hK'
    cases hK'
    rcases hal with h | h | h
    · left
      rw [hl, h]; rfl
    · right; right; left
      rw [hl, h]; rfl
    · right; right; right
      rw [ho, h]; rfl
  refine (MvnEinet.sample_measure hs hal' (hmir hlt) hev hN hm hml hT hc.ok hφ).trans ?_
  congr 2
  funext n
  have hkc : rowClass a.class_index n < E.net.num_classes ∧ ∀ k, k < E.net.num_classes →
      E.net.classW 1 a.class_index n k = if k = rowClass a.class_index n then 1 else 0 := by
    cases hci : a.class_index with
    | none =>
      have := hone hci
      refine ⟨by rw [this]; exact one_pos, fun k hk => ?_⟩
      unfold Model.classW
      rw [if_neg (by omega)]
      rfl
    | some ci =>
      rw [hci] at hc
      cases ci with
      | int k =>
        refine ⟨hc.2, fun j hj => ?_⟩
        unfold Model.classW
        rw [if_pos hc.1]
        rfl
      | list l =>
        refine ⟨hc.ok.2.2 n n.2, fun j hj => ?_⟩
        unfold Model.classW
        rw [if_pos hc.1]
        rfl
  unfold MvnEinet.mixLaw
  rw [Finset.sum_congr rfl fun k hk => by rw [hkc.2 k (by simpa using hk)]]
  simp only [ite_smul, one_smul, zero_smul]
  rw [Finset.sum_ite_eq' (Finset.range E.net.num_classes), if_pos (Finset.mem_range.2 hkc.1)]
  rfl

/-- three blocks of two features in one group, two repetitions, two rows of the classes 2 and 0. -/
example : ∃ E, buildMvn (mvnConfig 6 2 2 3 0 "einsum" "top-down") (exParams exLeaf) mvnParams = .ok E ∧ (2 : ℤ) ∣ 6 ∧
    (2 : ℤ) ^ (mvnConfig 6 2 2 3 0 "einsum" "top-down").depth.toNat * 2 < 6 ∧
    ClassArg E.net 2 (some (.list [2, 0])) := by
  obtain ⟨E, h⟩ := mvnConfig_topDown (F := 6) (C := 2) (R := 2) (k := 3) (d := 0) (by norm_num) (by norm_num) (by norm_num)
    (by norm_num) (by norm_num) (layer := "einsum") (by simp) (by norm_num [Int.fdiv]) (exParams exLeaf) mvnParams
  obtain ⟨_, _, _, _, h2, _⟩ := buildMvn_spec (exParams_random _) h rfl
  have h2' : E.net.num_classes = 3 := h2
  exact ⟨E, h, by norm_num, by norm_num [mvnConfig], by omega, rfl, by rw [h2']; simp⟩

end Props
end Einet
