import Verif.PropsRegions

/-!
# C34: for which configurations the leaf layer groups features in the same way in both directions
-/

open Classical MeasureTheory
open scoped ENNReal
noncomputable section
namespace Einet
namespace Props
open Tensor Einet

/-! ### Lemmas -/

/-- the leaf of the witnesses, any sizes. -/
def gBase (d : LeafDims) : BaseLeaf := categoricalLeaf d 2 fun _ _ i _ k => if i = 1 ∧ k = 1 then Real.log 2 else 0

theorem gLeaf_build (d : LeafDims) : wLeaf.build none d = .ok (gBase d) := by
  unfold wLeaf LeafSpec.build
  rw [require_true _ rfl]
  simp only [Res.ok_bind]
  rw [require_true _ (by norm_num)]
  rfl

theorem gProb_eq (d : LeafDims) (c f i r : Nat) : toP ((gBase d).logProb c f i r (.fin 0)) = ENNReal.ofReal (wProb i) := by
  have := massLeaf_toP (d := d) (K := 2)
    (pmf := fun c f i r => softmaxR 2 ((fun _ _ i _ k => if i = 1 ∧ k = 1 then Real.log 2 else 0 : Nat → Nat → Nat → Nat → Nat → ℝ) c f i r))
    (tempered := fun T c f i r => softmaxR 2 fun k => Real.log (softmaxR 2 (fun k => if i = 1 ∧ k = 1 then Real.log 2 else 0) k) / T)
    (mode := fun c f i r => argmaxR (softmaxR 2 (fun k => if i = 1 ∧ k = 1 then Real.log 2 else 0)) 2) (b := true)
    (fun c f i r k _ => by unfold softmaxR; positivity) c f i r (k := 0) (by norm_num)
  rw [Nat.cast_zero] at this
  refine this.trans ?_
  congr 1
  unfold softmaxR wProb
  rw [Finset.sum_range_succ, Finset.sum_range_one]
  by_cases hi : i = 1
  · simp [hi, Real.exp_log]; norm_num
  · simp [hi]; norm_num

theorem gMode (d : LeafDims) (c f i r : Nat) : (gBase d).mode c f i r = if i = 1 then 1 else 0 := by
  show ((argmaxR (softmaxR 2 (fun k => if i = 1 ∧ k = 1 then Real.log 2 else 0)) 2 : ℕ) : ℝ) = _
  unfold argmaxR argmaxR
  unfold softmaxR
  rw [Finset.sum_range_succ, Finset.sum_range_one]
  by_cases hi : i = 1
  · simp [hi, Real.exp_log]; norm_num
  · simp [hi]

/-- where the two groupings differ, no assignment describes both. -/
theorem no_common {c : Config} {P : Params} (hP : P.Random) (hl : P.leaf = wLeaf) {M : Model} (h : build c P = .ok M)
    (hS : 2 ≤ M.num_leaves) {r f : Nat} (hr : r < M.num_repetitions) (hf : f < M.num_features)
    (hne : M.grpF (buildGroups c P) r f ≠ M.grpS (buildGroups c P) r f) {O : Nat} {G : Nat → Nat → Nat}
    (h1 : ForwardIn M P.leaf O G) (h2 : SampledIn M O G) : False := by
  obtain ⟨hz, hw, -, -⟩ := build_WF hP h
  have hfr := hw.front
  have hgood : P.leaf.Good ∧ P.leaf.CanSample := by rw [hl]; exact wLeaf_good
  have f1 := forwardIn hP hgood.1 h
  have f2 := sampledIn hP hgood.1 hgood.2 h
  have hbase : M.leaf.base = gBase c.leafDims := by
    have := build_leaf hP h
    rw [hl] at this
    have hcard : c.cardinality = none := by
      unfold LeafSpec.build at this
      obtain ⟨_, e, _⟩ := bind_ok this
      exact (require_ok_iff _ _).1 e
    rw [hcard, gLeaf_build] at this
    exact (Except.ok.inj this).symm
  have hC : 0 < M.num_channels := by
    obtain ⟨v1, v2, _⟩ := (assertValid_iff c).1 (build_valid h)
    rw [hz.channels]; omega
  have hgF := hfr.grpF_lt hr hf
  have hgS := hfr.grpS_lt hr hf
  let x : Tensor Fl := ⟨[1, M.num_channels, M.num_features], fun i => if at' 1 i = 0 ∧ at' 2 i = f then .fin 0 else .nan⟩
  have hx : Batch P.leaf 1 M.num_channels M.num_features x := by
    rw [hl]
    refine ⟨rfl, fun n _ c _ f' _ => ?_⟩
    by_cases hf' : c = 0 ∧ f' = f
    · exact Or.inr ⟨0, by simp [x, at', hf'], 0, by norm_num, by norm_num⟩
    · exact Or.inl (by simp [x, at', hf'])
  have cells : ∀ i, cell M (x.get [0, 0, f]) 0 f i r = ENNReal.ofReal (wProb i) := by
    intro i
    unfold cell
    simp only [x, at']
    simp only [and_self, if_true, reduceCtorEq, if_false, hbase, gProb_eq]
  have prods : ∀ (H : Nat → Nat) (o i : Nat), (∏ f' ∈ Finset.range M.num_features,
      if H f' = o then ∏ c ∈ Finset.range M.num_channels, cell M (x.get [0, c, f']) c f' i r else 1) =
        if H f = o then ENNReal.ofReal (wProb i) else 1 := by
    intro H o i
    rw [Finset.prod_eq_single_of_mem f (Finset.mem_range.2 hf)]
    · congr 1
      rw [Finset.prod_eq_single_of_mem 0 (Finset.mem_range.2 hC), cells]
      intro c _ hc
      unfold cell
      simp [x, at', hc]
    · intro f' _ hf'
      split_ifs
      · refine Finset.prod_eq_one fun c _ => ?_
        unfold cell
        simp [x, at', hf']
      · rfl
  obtain ⟨y, z, w, a1, a2, a3, a4, a5⟩ := h1 1 x hx
  obtain ⟨y', z', w', b1, b2, b3, b4, b5⟩ := f1 1 x hx
  cases a1.symm.trans b1
  cases a2.symm.trans b2
  cases a3.symm.trans b3
  obtain rfl : O = M.numOut := by
    rw [a4] at b4
    simpa using b4
  have hG : G r f = M.grpF (buildGroups c P) r f := by
    have e := (a5 0 one_pos _ hgF 1 (by omega) r hr).symm.trans (b5 0 one_pos _ hgF 1 (by omega) r hr)
    rw [prods, prods, if_pos rfl] at e
    by_contra hG
    rw [if_neg hG, ← ENNReal.ofReal_one, ENNReal.ofReal_eq_ofReal_iff (by norm_num) (wProb_pos 1)] at e
    norm_num [wProb] at e
  let ctx : Ctx := ⟨1, ⟨[1, M.numOut], fun i => if at' 1 i = M.grpF (buildGroups c P) r f then 0 else 1⟩, ⟨[1], fun _ => r⟩,
    true, false, 1, 1, 1, false⟩
  have hc : Choices M M.numOut 1 ctx := by
    refine ⟨rfl, rfl, fun n _ o ho => ?_, rfl, fun n _ => hr⟩
    show (if _ then 0 else 1) < _
    split_ifs <;> omega
  obtain ⟨res, a1, a2⟩ := h2 1 ctx one_pos hc
  obtain ⟨res', b1, b2⟩ := f2 1 ctx one_pos hc
  have e := a1.symm.trans b1
  have hd : M.leaf.base.draws ctx = .pure fun j => M.leaf.base.mode (at' 1 j) (at' 2 j) (at' 3 j) (at' 4 j) := by
    unfold BaseLeaf.draws; rw [if_pos (Or.inl rfl)]
  rw [hd] at e
  obtain ⟨t, t1, -, t3⟩ := a2 fun j => M.leaf.base.mode (at' 1 j) (at' 2 j) (at' 3 j) (at' 4 j)
  obtain ⟨t', t1', -, t3'⟩ := b2 fun j => M.leaf.base.mode (at' 1 j) (at' 2 j) (at' 3 j) (at' 4 j)
  have e' : (Rand.pure t : Rand (Tensor ℝ)) = .pure t' := by
    have : Rand.lift (res fun j => M.leaf.base.mode (at' 1 j) (at' 2 j) (at' 3 j) (at' 4 j)) =
      Rand.lift (res' fun j => M.leaf.base.mode (at' 1 j) (at' 2 j) (at' 3 j) (at' 4 j)) := e
    rw [t1, t1'] at this
    exact this
  cases e'
  have e2 := (t3 0 one_pos 0 hC f hf).symm.trans (t3' 0 one_pos 0 hC f hf)
  have e3 : M.leaf.base.mode 0 f (if G r f = M.grpF (buildGroups c P) r f then 0 else 1) r =
    M.leaf.base.mode 0 f (if M.grpS (buildGroups c P) r f = M.grpF (buildGroups c P) r f then 0 else 1) r := e2
  rw [if_pos hG, if_neg hne.symm, hbase, gMode, gMode] at e3
  norm_num at e3

/-- parameters with uniform weights and given permutations. -/
def gParams (p : Nat → List Nat) : Params := { wParams (fun _ _ => 0) (fun _ => 0) with randperm := fun _ n => p n }

theorem gParams_random {p : Nat → List Nat} (h : ∀ n, (p n).Perm (List.range n)) : (gParams p).Random :=
  ⟨fun _ => List.Perm.refl _, fun _ n => h n⟩

theorem findGroup_ones (n j : Nat) (hj : j < n) : findGroup ((List.range n).map fun _ => 1) j = j := by
  rw [List.map_const']
  rw [List.length_range]
  induction n generalizing j with
  | zero => omega
  | succ n ih =>
    rw [List.replicate_succ]
    unfold findGroup
    by_cases h0 : j < 1
    · rw [if_pos h0]; omega
    · rw [if_neg h0, ih (j - 1) (by omega)]; omega

theorem reverse_argsort {n : Nat} (hn : 0 < n) : (argsort (List.range n).reverse).getD 0 0 = n - 1 := by
  have h := argsort_isPerm (List.reverse_perm (List.range n))
  have := h.qp (n - 1) (by omega)
  rwa [show (List.range n).reverse.getD (n - 1) 0 = 0 by
    rw [getD_of_lt (by simp; omega), List.getElem_reverse, List.getElem_range]; simp] at this

/-- outside `MirrorCfg` the groupings differ for some permutations. -/
theorem groups_differ {c : Config} (hc : c.assertValid = .ok ()) (hcard : c.cardinality = none) (hd : 0 ≤ c.depth)
    (ht : c.structure' = "top-down") (hm : ¬ MirrorCfg c) : ∃ p : Nat → List Nat,
    (∀ n, (p n).Perm (List.range n)) ∧ ∀ M, build c (gParams p) = .ok M → ∃ r f, r < M.num_repetitions ∧ f < M.num_features ∧
      M.grpF (buildGroups c (gParams p)) r f ≠ M.grpS (buildGroups c (gParams p)) r f := by
  obtain ⟨v1, v2, v3, v4, v5, v6, v7, v8, v9, v10, v11, v12, v13⟩ := (assertValid_iff c).1 hc
  have hpow : ((2 ^ c.depth.toNat : ℕ) : ℤ) ≤ c.num_features := by
    rw [hcard] at v13
    simp only [Option.getD_none, Int.fdiv_one] at v13
    obtain ⟨n, hn⟩ := Int.eq_ofNat_of_zero_le hd
    rw [hn] at v13 ⊢
    simp only [zpow_natCast, Int.toNat_natCast] at v13 ⊢
    exact_mod_cast v13
  have hpow' : ((2 ^ c.depth.toNat : ℕ) : ℤ) = (2 : ℤ) ^ c.depth.toNat := by push_cast; rfl
  have hm1 : ¬ (1 < c.num_repetitions ∧ (2 : ℤ) ^ c.depth.toNat < c.num_features) := fun h => hm (Or.inr (Or.inl h))
  have hm2 : ¬ (c.num_repetitions = 1 ∧ (c.depth = 0 ∨ (2 : ℤ) ^ c.depth.toNat = c.num_features)) := fun h => hm (Or.inr (Or.inr h))
  have hspec : ∀ p : Nat → List Nat, (∀ n, (p n).Perm (List.range n)) → ∀ M, build c (gParams p) = .ok M →
      M.num_repetitions = c.num_repetitions.toNat ∧ M.num_features = c.num_features.toNat ∧
      ∃ B : BaseLeaf, B.num_features = c.num_features.toNat ∧ B.num_repetitions = c.num_repetitions.toNat ∧
        M.leaf = buildInput (gParams p) B (2 ^ c.depth.toNat) := by
    intro p hp M h
    unfold build at h
    rw [hc] at h
    simp only [Res.ok_bind] at h
    rw [if_pos ht] at h
    obtain ⟨_, hz, _, B, hB, e⟩ := buildTopDown_spec (gParams_random hp) hc h
    obtain ⟨_, ⟨d1, d2, d3, d4⟩, _, _⟩ := LeafSpec.build_spec hB
    exact ⟨hz.reps, hz.features, B, d1, d4, e⟩
  by_cases hR : c.num_repetitions = 1
  · have hO : 2 ≤ 2 ^ c.depth.toNat := by
      obtain ⟨k, hk⟩ : ∃ k, c.depth.toNat = k + 1 := ⟨c.depth.toNat - 1, by omega⟩
      rw [hk, pow_succ]
      have := Nat.pow_pos (n := k) (show 0 < 2 by norm_num)
      omega
    refine ⟨List.range, fun n => List.Perm.refl _, fun M h => ?_⟩
    obtain ⟨hr, hf, B, d1, d4, e⟩ := hspec _ (fun n => List.Perm.refl _) M h
    refine ⟨0, 1, by omega, by omega, ?_⟩
    unfold Model.grpS Model.grpF
    rw [e]
    unfold buildInput
    rw [if_pos (by omega)]
    dsimp only
    generalize 2 ^ c.depth.toNat = O at *
    have hlt : O < B.num_features := by omega
    have h1 : (FactSimple.build (gParams List.range) B O).inverse_permutation.getD 1 0 = 1 :=
      argsort_range _ 1 (by omega)
    have h2 : 2 ≤ (FactSimple.build (gParams List.range) B O).cardinality := by
      show 2 ≤ (B.num_features + O - 1) / O
      rw [Nat.le_div_iff_mul_le (by omega)]
      omega
    rw [h1, Nat.div_eq_of_lt (by omega)]
    show 0 ≠ 1 % O
    rw [Nat.mod_eq_of_lt (by omega)]
    norm_num
  · have hF : c.num_features = ((2 ^ c.depth.toNat : ℕ) : ℤ) := by omega
    refine ⟨fun n => (List.range n).reverse, fun n => List.reverse_perm _, fun M h => ?_⟩
    obtain ⟨hr, hf, B, d1, d4, e⟩ := hspec _ (fun n => List.reverse_perm _) M h
    refine ⟨0, 0, by omega, by omega, ?_⟩
    unfold Model.grpS Model.grpF
    rw [e]
    unfold buildInput
    rw [if_neg (by omega)]
    dsimp only
    rw [if_pos (by show B.num_features = 2 ^ c.depth.toNat; omega)]
    unfold buildGroups featureGroup
    show 0 ≠ findGroup (groupSizes c.num_features.toNat (2 ^ c.depth.toNat))
      ((argsort (List.range c.num_features.toNat).reverse).getD 0 0)
    rw [show 2 ^ c.depth.toNat = c.num_features.toNat by omega, reverse_argsort (by omega)]
    have : groupSizes c.num_features.toNat c.num_features.toNat = (List.range c.num_features.toNat).map fun _ => 1 := by
      unfold groupSizes
      rw [Nat.mod_self, Nat.div_self (by omega)]
      simp
    rw [this, findGroup_ones _ _ (by omega)]
    omega

/-! ### C34 -/

/-- **C34**: for configurations with at least two leaves per feature that can be built, `MirrorCfg` is exactly the condition
under which the forward pass and the leaf sampler group the features in the same way for all parameters and all random
choices of the constructor. -/
theorem C34_exact (c : Config) (hc : c.assertValid = .ok ()) (hcard : c.cardinality = none) (hd : 0 ≤ c.depth)
    (hb : c.structure' = "bottom-up" → 0 < c.depth)
    (hdrop : c.layer_type ≠ "einsum" ∨ c.depth = 0 ∨ 1 < c.num_repetitions → DropOK c.dropout) (hS : 2 ≤ c.num_leaves) :
    (∀ P M, P.Random → P.leaf.Good → P.leaf.CanSample → build c P = .ok M → ∃ O G, ForwardIn M P.leaf O G ∧ SampledIn M O G) ↔
      MirrorCfg c := by
  constructor
  · intro h
    by_contra hm
    obtain ⟨v1, v2, v3, v4, v5, v6, v7, v8, v9, v10, v11, v12, v13⟩ := (assertValid_iff c).1 hc
    have ht : c.structure' = "top-down" := by
      simp only [List.mem_cons, List.not_mem_nil, or_false] at v10
      exact v10.resolve_right fun e => hm (Or.inl e)
    obtain ⟨p, hp, hdiff⟩ := groups_differ hc hcard hd ht hm
    have hP := gParams_random hp
    obtain ⟨M, hM⟩ := (build_iff (c := c) (P := gParams p)).2 ⟨hc, ⟨_, by rw [hcard]; exact gLeaf_build _⟩, hd, hb, hdrop⟩
    obtain ⟨r, f, hr, hf, hne⟩ := hdiff M hM
    obtain ⟨O, G, h1, h2⟩ := h _ M hP wLeaf_good.1 wLeaf_good.2 hM
    have hz := (build_WF hP hM).1
    exact no_common hP rfl hM (by rw [hz.leaves]; omega) hr hf hne h1 h2
  · intro hm P M hP hg hs h
    obtain ⟨O, G, -, h1, h2⟩ := C34_mirrored_partial c P hP hg hs M h hm
    exact ⟨O, G, h1, h2⟩

example : (wConfig 4 1 1).assertValid = .ok () ∧ (wConfig 4 1 1).cardinality = none ∧ DropOK (wConfig 4 1 1).dropout ∧
    2 ≤ (wConfig 4 1 1).num_leaves ∧ ¬ MirrorCfg (wConfig 4 1 1) ∧ MirrorCfg (wConfig 4 1 2) ∧
    (wConfig 4 1 2).assertValid = .ok () := by
  refine ⟨wConfig_valid (by norm_num) (by norm_num) (by norm_num), rfl, wDrop, by norm_num [wConfig], ?_,
    Or.inr (Or.inr ⟨rfl, Or.inr (show (2 : ℤ) ^ 2 = 4 by norm_num)⟩), wConfig_valid (by norm_num) (by norm_num) (by norm_num)⟩
  rintro (h | ⟨h, -⟩ | ⟨-, h | h⟩)
  · simp [wConfig] at h
  · simp [wConfig] at h
  · simp [wConfig] at h
  · norm_num [wConfig] at h

end Props
end Einet
