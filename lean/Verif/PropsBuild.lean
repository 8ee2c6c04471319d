import Verif.BuildSpec

/-!
# Properties of construction: C06, C12, C33
-/

open Classical
noncomputable section
namespace Einet.Props
open Tensor Einet

/-! ### A concrete model, used to show that the hypotheses of the theorems can be met -/

/-- random choices and parameters: permutations that reverse, group sizes shuffled by reversal, all logits different. -/
def exParams (leaf : LeafSpec) : Params where
  leaf := leaf
  logits i j := i + j.sum
  rootLogits j := j.sum
  mixLogits j := 2 * j.sum
  classLogits j := 3 * j.sum
  shuffle := List.reverse
  randperm _ n := (List.range n).reverse

theorem exParams_random (leaf : LeafSpec) : (exParams leaf).Random :=
  ⟨fun l => List.reverse_perm l, fun _ _ => List.reverse_perm _⟩

/-- a leaf with means and variances that depend on all indices. -/
def exLeaf : LeafSpec := .normal (fun c f i r => c + 2 * f + 3 * i + 5 * r) (fun _ _ i r => i - r)

/-- a configuration with 5 features in 2 channels, 3 classes, 2 repetitions, depth 2. -/
def exConfig (layer structure' : String) : Config where
  num_features := 5
  num_channels := 2
  num_sums := 3
  num_leaves := 4
  num_repetitions := 2
  num_classes := 3
  depth := 2
  dropout := some (.fin (1 / 4))
  layer_type := layer
  structure' := structure'

theorem exConfig_valid {l s : String} (h : (l = "linsum" ∨ l = "linsum2" ∨ l = "einsum") ∧ s = "top-down" ∨
    l = "linsum" ∧ s = "bottom-up") : (exConfig l s).assertValid = .ok () := by
  rw [assertValid_iff]
  refine ⟨by norm_num [exConfig], by norm_num [exConfig], by norm_num [exConfig], by norm_num [exConfig],
    by norm_num [exConfig], by norm_num [exConfig], ?_, rfl, ?_, ?_, ?_, by norm_num [exConfig], ?_⟩
  · rintro q ⟨⟩
    norm_num [Fl.lt]
  · show l ∈ _
    rcases h with ⟨rfl | rfl | rfl, _⟩ | ⟨rfl, _⟩ <;> simp
  · show s ∈ _
    rcases h with ⟨_, rfl⟩ | ⟨_, rfl⟩ <;> simp
  · show s = _ → l = _
    rcases h with ⟨_, rfl⟩ | ⟨rfl, _⟩ <;> simp
  · norm_num [exConfig, Int.fdiv_one]

theorem exConfig_builds {l s : String} (h : (l = "linsum" ∨ l = "linsum2" ∨ l = "einsum") ∧ s = "top-down" ∨
    l = "linsum" ∧ s = "bottom-up") {leaf : LeafSpec} (hl : ∃ B, leaf.build none (exConfig l s).leafDims = .ok B) :
    ∃ M, build (exConfig l s) (exParams leaf) = .ok M :=
  build_iff.2 ⟨exConfig_valid h, hl, by norm_num [exConfig], fun _ => by norm_num [exConfig],
    fun _ => ⟨1 / 4, rfl, by norm_num, by norm_num⟩⟩

theorem exConfig_normal {l s : String} (h : (l = "linsum" ∨ l = "linsum2" ∨ l = "einsum") ∧ s = "top-down" ∨
    l = "linsum" ∧ s = "bottom-up") : ∃ M, build (exConfig l s) (exParams exLeaf) = .ok M :=
  exConfig_builds h ⟨normalLeaf _ _ _, by simp [exLeaf, LeafSpec.build]; rfl⟩

/-! ### C06 -/

/-- **C06** (part): an accepted configuration can be constructed exactly if the leaf class accepts its arguments, the
depth is not negative, the bottom-up structure has positive depth, and, wherever a layer reads it, dropout is a number
in [0, 1).  Missing for the full property: none of these extra conditions is checked by `assert_valid`
(`C06_refuted`). -/
theorem C06_builds_partial (c : Config) (P : Params) (hv : c.assertValid = .ok ()) :
    (∃ M, build c P = .ok M) ↔ (∃ B, P.leaf.build c.cardinality c.leafDims = .ok B) ∧
      0 ≤ c.depth ∧ (c.structure' = "bottom-up" → 0 < c.depth) ∧
      (c.layer_type ≠ "einsum" ∨ c.depth = 0 ∨ 1 < c.num_repetitions →
        ∃ p : ℝ, c.dropout = some (.fin p) ∧ 0 ≤ p ∧ p < 1) := by
  rw [build_iff]
  exact and_iff_right hv

example : ∃ c P, c.assertValid = .ok () ∧ ∃ M, build c P = .ok M :=
  ⟨_, _, exConfig_valid (Or.inr ⟨rfl, rfl⟩), exConfig_normal (Or.inr ⟨rfl, rfl⟩)⟩

/-- **C06** (part): a constructed model answers every batch of data, of any size and with any pattern of missing entries,
with a tensor of shape `[N, num_classes]` of finite numbers. -/
theorem C06_forward_partial (c : Config) (P : Params) (hP : P.Random) (hg : P.leaf.Good) (M : Model)
    (h : build c P = .ok M) (N : Nat) (x : Tensor Fl)
    (hx : Batch P.leaf N c.num_channels.toNat c.num_features.toNat x) :
    ∃ y, M.forward x = .ok y ∧ y.shape = [N, c.num_classes.toNat] ∧
      ∀ n, n < N → ∀ k, k < c.num_classes.toNat → ∃ v : ℝ, y.get [n, k] = .fin v := by
  obtain ⟨hs, hw, hp, _⟩ := build_WF hP h
  have hp := hp hg
  have hx3 : x.Is3 N M.num_channels M.num_features fun n c f => x.get [n, c, f] := by
    rw [hs.channels, hs.features]; exact hx.is3
  have hobs : ∀ n, n < N → M.leaf.base.Observed fun c f => x.get [n, c, f] := fun n hn => by
    rw [build_observed hP h, hs.channels, hs.features]
    exact hx.2 n hn
  obtain ⟨y, hy, h1⟩ := Model.forward_is hw hx3 (fun n hn => (hobs n hn).valid hp.valid_zero) (ms := none) rfl
  rw [hs.classes] at h1
  refine ⟨y, hy, h1.1, fun n hn k hk => ?_⟩
  rw [h1.get hn hk]
  have hfin := (Model.outRow_den hw (b := true) (fun _ => rfl) (sc := none) (X := fun c f => x.get [n, c, f])
    (fun c hc f hf i hi r hr => by
      have hfr := hw.front
      exact (Model.entry_none hp (by rw [hfr.channels]; exact hc) (by rw [hfr.features]; exact hf)
        (by rw [hfr.leaves]; exact hi) (by rw [hfr.reps]; exact hr) (hobs n hn)).1)
    (by rw [hs.classes]; exact hk)).1
  exact hfin

/-- a batch of two rows with a missing entry. -/
example : ∃ c P M x, P.Random ∧ P.leaf.Good ∧ build c P = .ok M ∧
    Batch P.leaf 2 c.num_channels.toNat c.num_features.toNat x ∧ x.get [1, 0, 2] = .nan := by
  obtain ⟨M, h⟩ := exConfig_normal (Or.inl ⟨Or.inr (Or.inr rfl), rfl⟩)
  refine ⟨_, _, M, ⟨[2, 2, 5], fun i => if i = [1, 0, 2] then .nan else .fin i.sum⟩, exParams_random _, by simp [exParams, exLeaf, LeafSpec.Good], h,
    ⟨rfl, fun n _ c _ f _ => ?_⟩, by simp⟩
  by_cases e : [n, c, f] = [1, 0, 2]
  · left; simp [e]
  · right; exact ⟨_, if_neg e, by simp [exParams, exLeaf, LeafSpec.InSupport]⟩

/-- **C06 is false in general**: configurations accepted by `assert_valid` that no choice of parameters can construct:
the bottom-up structure with depth 0, a negative depth, and dropout `None`. -/
theorem C06_refuted :
    (∃ c : Config, c.assertValid = .ok () ∧ c.structure' = "bottom-up" ∧ c.depth = 0 ∧ ∀ P M, build c P ≠ .ok M) ∧
    (∃ c : Config, c.assertValid = .ok () ∧ c.depth = -1 ∧ ∀ P M, build c P ≠ .ok M) ∧
    (∃ c : Config, c.assertValid = .ok () ∧ c.dropout = none ∧ ∀ P M, build c P ≠ .ok M) := by
  refine ⟨⟨{ exConfig "linsum" "bottom-up" with depth := 0 }, ?_, rfl, rfl, fun P M h => ?_⟩,
    ⟨{ exConfig "linsum" "top-down" with depth := -1 }, ?_, rfl, fun P M h => ?_⟩,
    ⟨{ exConfig "linsum" "top-down" with dropout := none }, ?_, rfl, fun P M h => ?_⟩⟩
  · obtain ⟨h1, h2, h3, h4, h5, h6, h7, h8, h9, h10, h11, h12, _⟩ :=
      (assertValid_iff _).1 (exConfig_valid (l := "linsum") (s := "bottom-up") (Or.inr ⟨rfl, rfl⟩))
    refine (assertValid_iff _).2 ⟨h1, h2, h3, h4, h5, h6, h7, h8, h9, h10, h11, h12, ?_⟩
    norm_num [exConfig, Int.fdiv_one]
  · have := (build_iff.1 ⟨M, h⟩).2.2.2.1 rfl
    exact lt_irrefl _ this
  · obtain ⟨h1, h2, h3, h4, h5, h6, h7, h8, h9, h10, h11, h12, _⟩ :=
      (assertValid_iff _).1 (exConfig_valid (l := "linsum") (s := "top-down") (Or.inl ⟨Or.inl rfl, rfl⟩))
    refine (assertValid_iff _).2 ⟨h1, h2, h3, h4, h5, h6, h7, h8, h9, h10, h11, h12, ?_⟩
    norm_num [exConfig, Int.fdiv_one]
  · have := (build_iff.1 ⟨M, h⟩).2.2.1
    norm_num at this
  · obtain ⟨h1, h2, h3, h4, h5, h6, h7, h8, h9, h10, h11, h12, h13⟩ :=
      (assertValid_iff _).1 (exConfig_valid (l := "linsum") (s := "top-down") (Or.inl ⟨Or.inl rfl, rfl⟩))
    exact (assertValid_iff _).2 ⟨h1, h2, h3, h4, h5, h6, by simp, h8, h9, h10, h11, h12, h13⟩
  · obtain ⟨p, hp, _⟩ := (build_iff.1 ⟨M, h⟩).2.2.2.2 (Or.inl (by simp [exConfig]))
    simp at hp

/-! ### C12 -/

/-- **C12** for `FactorizedLeaf`: in each repetition every feature belongs to exactly one group, and every group has
`F / O` or `F / O + 1` members (so none is empty and the sizes differ by at most one).  The tensor `scopes` has entry 1
for membership and 0 otherwise. -/
theorem C12_groups (P : Params) (hP : P.Random) (B : BaseLeaf) (O : Nat) (hO : 1 ≤ O) (hOF : O ≤ B.num_features)
    (r : Nat) (hr : r < B.num_repetitions) :
    let s := (FactLeaf.build P B O).scopes
    s.shape = [B.num_features, O, B.num_repetitions] ∧
    (∀ f, f < B.num_features → ∀ o, o < O → s.get [f, o, r] = .fin 0 ∨ s.get [f, o, r] = .fin 1) ∧
    (∀ f, f < B.num_features → ∃! o, o < O ∧ s.get [f, o, r] = .fin 1) ∧
    (∀ o, o < O → let size := ((Finset.range B.num_features).filter fun f => s.get [f, o, r] = .fin 1).card
      1 ≤ size ∧ (size = B.num_features / O ∨ size = B.num_features / O + 1)) := by
  intro s
  have hw := factLeaf_WF hP B (O := O) (by omega)
  have hent : ∀ f, f < B.num_features → ∀ o, o < O →
      s.get [f, o, r] = if featureGroup P B.num_features O r f = o then .fin 1 else .fin 0 :=
    fun f hf o ho => hw.entry f hf o ho r hr
  have h10 : (Fl.fin 1) ≠ .fin 0 := by simp
  have hiff : ∀ f, f < B.num_features → ∀ o, o < O →
      (s.get [f, o, r] = .fin 1 ↔ featureGroup P B.num_features O r f = o) := by
    intro f hf o ho
    rw [hent f hf o ho]
    by_cases h : featureGroup P B.num_features O r f = o <;> simp [h]
  refine ⟨hw.shape, fun f hf o ho => ?_, fun f hf => ?_, fun o ho => ?_⟩
  · rw [hent f hf o ho]
    split_ifs <;> simp
  · refine ⟨featureGroup P B.num_features O r f, ⟨hw.lt r hr f hf, (hiff f hf _ (hw.lt r hr f hf)).2 rfl⟩, ?_⟩
    rintro o ⟨ho, h⟩
    exact ((hiff f hf o ho).1 h).symm
  · intro size
    obtain ⟨hs, hl⟩ := shuffled_sum hP (F := B.num_features) (O := O) (by omega)
    have hp := argsort_isPerm (hP.randperm r B.num_features)
    have hcard : size = (P.shuffle (groupSizes B.num_features O)).getD o 0 := by
      have hle := groupLow_le hs hl ho
      have h1 : (Finset.Ico (groupLow (P.shuffle (groupSizes B.num_features O)) o)
          (groupLow (P.shuffle (groupSizes B.num_features O)) o + (P.shuffle (groupSizes B.num_features O)).getD o 0)).card =
          (P.shuffle (groupSizes B.num_features O)).getD o 0 := by simp
      rw [← h1]
      refine Finset.card_nbij' (fun f => (argsort (P.randperm r B.num_features)).getD f 0)
        (fun j => (P.randperm r B.num_features).getD j 0) ?_ ?_ ?_ ?_
      · intro f hf
        simp only [Finset.coe_filter, Finset.mem_range, Set.mem_ofPred_eq] at hf
        have h2 := (hiff f hf.1 o ho).1 hf.2
        have h3 := ((findGroup_spec _ _ (by rw [hs]; exact hp.q_lt f hf.1)).2 o (by rw [hl]; exact ho)).1 h2
        simpa using h3
      · intro j hj
        simp only [Finset.coe_Ico, Set.mem_Ico] at hj
        have hj' : j < B.num_features := by omega
        simp only [Finset.coe_filter, Finset.mem_range, Set.mem_ofPred_eq]
        refine ⟨hp.p_lt j hj', (hiff _ (hp.p_lt j hj') o ho).2 ?_⟩
        refine ((findGroup_spec _ _ (by rw [hs]; exact hp.q_lt _ (hp.p_lt j hj'))).2 o (by rw [hl]; exact ho)).2 ?_
        rw [hp.qp j hj']
        exact hj
      · intro f hf
        simp only [Finset.coe_filter, Finset.mem_range, Set.mem_ofPred_eq] at hf
        exact hp.pq f hf.1
      · intro j hj
        simp only [Finset.coe_Ico, Set.mem_Ico] at hj
        exact hp.qp j (by omega)
    have hmem : size ∈ groupSizes B.num_features O := by
      rw [hcard, getD_of_lt (by omega), ← (hP.shuffle _).mem_iff]
      exact List.getElem_mem _
    have h2 := groupSizes_mem hmem
    have h3 : 1 ≤ B.num_features / O := (Nat.one_le_div_iff (by omega)).2 hOF
    exact ⟨by omega, h2⟩

example : ∃ (P : Params) (B : BaseLeaf) (O r : Nat), P.Random ∧ 1 ≤ O ∧ O ≤ B.num_features ∧ B.num_features = 7 ∧ O = 3 ∧
    r < B.num_repetitions :=
  ⟨exParams exLeaf, normalLeaf ⟨7, 1, 2, 4⟩ (fun _ _ _ _ => 0) (fun _ _ _ _ => 0), 3, 2, exParams_random _, by norm_num,
    by norm_num [normalLeaf, gaussLeaf], rfl, rfl, by norm_num [normalLeaf, gaussLeaf]⟩

/-- **C12** for `FactorizedLeafSimple` (used when there is one repetition), part: every feature appears at exactly one
position of exactly one group.  Missing: groups may be empty (`C12_simple_refuted`). -/
theorem C12_simple_partial (P : Params) (hP : P.Random) (B : BaseLeaf) (O : Nat) (hO : 1 ≤ O) (f : Nat)
    (hf : f < B.num_features) :
    let L := FactSimple.build P B O
    ∃! p : Nat × Nat, p.1 < O ∧ p.2 < L.cardinality ∧ L.permutation.getD (p.1 * L.cardinality + p.2) 0 = f := by
  intro L
  have hp : IsPerm L.permutation L.inverse_permutation (B.num_features + L.numDummy) := argsort_isPerm (hP.randperm 0 _)
  have hsz : B.num_features + L.numDummy = O * L.cardinality := FactSimple.size_eq L hO
  have hf' : f < B.num_features + L.numDummy := by omega
  have hq := hp.q_lt f hf'
  have hcpos : 0 < L.cardinality := by
    rcases Nat.eq_zero_or_pos L.cardinality with h | h
    · rw [h] at hsz; omega
    · exact h
  refine ⟨(L.inverse_permutation.getD f 0 / L.cardinality, L.inverse_permutation.getD f 0 % L.cardinality), ?_, ?_⟩
  · refine ⟨Nat.div_lt_of_lt_mul (by rw [hsz] at hq; rwa [Nat.mul_comm]), Nat.mod_lt _ hcpos, ?_⟩
    dsimp only
    rw [Nat.mul_comm, Nat.div_add_mod]
    exact hp.pq f hf'
  · rintro ⟨o, j⟩ ⟨h1, h2, h3⟩
    dsimp only at h1 h2 h3
    have hlt : o * L.cardinality + j < B.num_features + L.numDummy := by
      rw [hsz]
      calc o * L.cardinality + j < o * L.cardinality + L.cardinality := by omega
        _ = (o + 1) * L.cardinality := by ring
        _ ≤ O * L.cardinality := Nat.mul_le_mul_right _ h1
    have h4 := hp.qp _ hlt
    rw [h3] at h4
    have hd : (o * L.cardinality + j) / L.cardinality = o := by
      rw [Nat.mul_comm, Nat.mul_add_div hcpos, Nat.div_eq_of_lt h2, Nat.add_zero]
    have hm : (o * L.cardinality + j) % L.cardinality = j := by
      rw [Nat.mul_comm, Nat.mul_add_mod, Nat.mod_eq_of_lt h2]
    rw [h4]
    exact Prod.ext hd.symm hm.symm

/-- **C12 is false for `FactorizedLeafSimple`**: with 5 features in 4 groups there is a permutation for which one group
contains no feature at all. -/
theorem C12_simple_refuted : ∃ (P : Params) (B : BaseLeaf), P.Random ∧ B.num_features = 5 ∧
    let L := FactSimple.build P B 4
    L.cardinality = 2 ∧ ∀ j, j < L.cardinality → ¬ L.permutation.getD (3 * L.cardinality + j) 0 < B.num_features := by
  refine ⟨{ exParams exLeaf with randperm := fun _ n => List.range n },
    normalLeaf ⟨5, 1, 2, 1⟩ (fun _ _ _ _ => 0) (fun _ _ _ _ => 0), ⟨fun l => List.reverse_perm l, fun _ _ => List.Perm.refl _⟩,
    rfl, ?_⟩
  intro L
  have hc : L.cardinality = 2 := by simp [L, FactSimple.cardinality, FactSimple.build, normalLeaf, gaussLeaf]
  refine ⟨hc, fun j hj => ?_⟩
  rw [hc] at hj ⊢
  have hperm : L.permutation = List.range 8 := by simp [L, FactSimple.build, normalLeaf, gaussLeaf]
  rw [hperm]
  show ¬ _ < 5
  interval_cases j <;> decide

/-! ### C33 -/

/-- **C33** (first half): `invert_permutation` inverts every permutation, from both sides. -/
theorem C33_invert_permutation (n : Nat) (p : List Nat) (hp : p.Perm (List.range n)) :
    (argsort p).length = n ∧ (∀ i, i < n → (argsort p).getD (p.getD i 0) 0 = i) ∧
    (∀ i, i < n → p.getD ((argsort p).getD i 0) 0 = i) := by
  have h := argsort_isPerm hp
  exact ⟨h.lq, h.qp, h.pq⟩

example : ([2, 0, 3, 1] : List Nat).Perm (List.range 4) := by decide

end Einet.Props
