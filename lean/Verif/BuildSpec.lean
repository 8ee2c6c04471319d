import Verif.BuildWF

/-!
# Specification of data and the configurations that build
-/

open Classical
noncomputable section
namespace Einet
open Tensor

/-! ### Specification -/

/-- values for which a leaf of the given class has positive probability (density), written down from the
documentation of the distributions. -/
def LeafSpec.InSupport : LeafSpec → ℝ → Prop
  | .normal _ _, _ => True
  | .ratNormal _ _ _ _ _ _, _ => True
  | .binomial n _, x => ∃ k : ℕ, (k : ℤ) ≤ n ∧ x = k
  | .bernoulli _, x => x = 0 ∨ x = 1
  | .categorical n _, x => ∃ k : ℕ, (k : ℤ) < n ∧ x = k

/-- data for a leaf class: every entry is missing (NaN) or a number in the support. -/
def LeafSpec.Data (s : LeafSpec) (C F : Nat) (X : Einet.Data) : Prop :=
  ∀ c, c < C → ∀ f, f < F → X c f = .nan ∨ ∃ x : ℝ, X c f = .fin x ∧ s.InSupport x

/-- `x` is a batch of `N` rows of data. -/
def Batch (s : LeafSpec) (N C F : Nat) (x : Tensor Fl) : Prop :=
  x.shape = [N, C, F] ∧ ∀ n, n < N → s.Data C F fun c f => x.get [n, c, f]

/-! ### Lemmas -/

theorem LeafSpec.valid_iff {s : LeafSpec} {card : Option ℤ} {d : LeafDims} {B : BaseLeaf} (h : s.build card d = .ok B)
    {f : Nat} (x : ℝ) : B.valid f (.fin x) ↔ s.InSupport x := by
  unfold build at h
  obtain ⟨_, hc, h⟩ := bind_ok h
  cases s with
  | normal means logvar =>
    simp only [Res.pure_eq, Except.ok.injEq] at h
    subst h
    exact ⟨fun _ => trivial, fun _ => by simp [normalLeaf, gaussLeaf]⟩
  | bernoulli probs =>
    simp only [Res.pure_eq, Except.ok.injEq] at h
    subst h
    show (∃ k : ℕ, k < 2 ∧ Fl.fin x = .fin (k : ℝ)) ↔ x = 0 ∨ x = 1
    constructor
    · rintro ⟨k, hk, e⟩
      have := Fl.fin_injective e
      interval_cases k
      · left; simpa using this
      · right; simpa using this
    · rintro (rfl | rfl)
      · exact ⟨0, by norm_num, by simp⟩
      · exact ⟨1, by norm_num, by simp⟩
  | binomial n logits =>
    obtain ⟨_, h1, h⟩ := bind_ok h
    simp only [Res.pure_eq, Except.ok.injEq] at h
    subst h
    have hn : 1 ≤ n := by
      have := (Props.checkInt_iff n 1 (by norm_num) (Except.ok ()) ()).1 (by rw [h1]; rfl)
      exact this.1
    show (∃ k : ℕ, k < n.toNat + 1 ∧ Fl.fin x = .fin (k : ℝ)) ↔ ∃ k : ℕ, (k : ℤ) ≤ n ∧ x = k
    refine exists_congr fun k => ?_
    rw [Fl.fin.injEq]
    refine and_congr_left fun _ => ?_
    omega
  | categorical n logits =>
    obtain ⟨_, h1, h⟩ := bind_ok h
    simp only [Res.pure_eq, Except.ok.injEq] at h
    subst h
    show (∃ k : ℕ, k < n.toNat ∧ Fl.fin x = .fin (k : ℝ)) ↔ ∃ k : ℕ, (k : ℤ) < n ∧ x = k
    refine exists_congr fun k => ?_
    rw [Fl.fin.injEq]
    refine and_congr_left fun _ => ?_
    omega
  | ratNormal lo hi a b means stds =>
    obtain ⟨_, h1, h⟩ := bind_ok h
    obtain ⟨_, _, h⟩ := bind_ok h
    obtain ⟨_, _, h⟩ := bind_ok h
    obtain ⟨_, _, h⟩ := bind_ok h
    obtain ⟨_, hm, h⟩ := bind_ok h
    simp only [Res.pure_eq, Except.ok.injEq] at h
    subst h
    exact ⟨fun _ => trivial, fun _ => by simp [gaussLeaf]⟩

theorem build_leaf {c : Config} {P : Params} (hP : P.Random) {M : Model} (h : build c P = .ok M) :
    P.leaf.build c.cardinality c.leafDims = .ok M.leaf.base := by
  have hv := build_valid h
  unfold build at h
  rw [hv] at h
  simp only [Res.ok_bind] at h
  split_ifs at h with h1 h2
  · obtain ⟨_, hs, hw, B, hB, e⟩ := buildTopDown_spec hP hv h
    rw [e, buildInput_base]
    exact hB
  · obtain ⟨_, hs, hw, B, hB, e⟩ := buildBottomUp_spec hP hv h2 h (buildGroups c P)
    rw [e]
    exact hB

theorem build_observed {c : Config} {P : Params} (hP : P.Random) {M : Model} (h : build c P = .ok M) {X : Data} :
    M.leaf.base.Observed X ↔ P.leaf.Data M.num_channels M.num_features X := by
  have hw := (build_WF hP h).2.1.front
  unfold BaseLeaf.Observed LeafSpec.Data
  rw [hw.channels, hw.features]
  refine forall_congr' fun c => imp_congr_right fun _ => forall_congr' fun f => imp_congr_right fun _ => ?_
  refine or_congr_right (exists_congr fun x => and_congr_right fun _ => ?_)
  exact LeafSpec.valid_iff (build_leaf hP h) x

theorem Batch.is3 {s : LeafSpec} {N C F : Nat} {x : Tensor Fl} (h : Batch s N C F x) :
    x.Is3 N C F fun n c f => x.get [n, c, f] := by
  refine Is.intro h.1 fun j hj => ?_
  match j, hj with
  | [a, b, c], _ => rfl

/-- the configurations for which all constructors succeed. -/
theorem build_iff {c : Config} {P : Params} :
    (∃ M, build c P = .ok M) ↔ c.assertValid = .ok () ∧ (∃ B, P.leaf.build c.cardinality c.leafDims = .ok B) ∧
      0 ≤ c.depth ∧ (c.structure' = "bottom-up" → 0 < c.depth) ∧
      (c.layer_type ≠ "einsum" ∨ c.depth = 0 ∨ 1 < c.num_repetitions → DropOK c.dropout) := by
  constructor
  · rintro ⟨M, h⟩
    have hv := build_valid h
    refine ⟨hv, ?_⟩
    obtain ⟨v1, v2, v3, v4, v5, v6, v7, v8, v9, v10, v11, v12, v13⟩ := (assertValid_iff c).1 hv
    have mkDrop : ∀ {F S O : Nat} {w : List Nat → ℝ} {l : Layer}, mkLayer c F S O w = .ok l → LayerDrop c := by
      intro F S O w l h hne
      unfold mkLayer at h
      dsimp only at h
      rw [if_neg hne] at h
      split_ifs at h with h1 h2
      · obtain ⟨_, e, _⟩ := bind_ok h
        exact ((checkSumLayer_iff _ _ _ _ _).1 e).2.2.2.2
      · obtain ⟨_, e, _⟩ := bind_ok h
        exact ((checkSumLayer_iff _ _ _ _ _).1 e).2.2.2.2
    unfold build at h
    rw [hv] at h
    simp only [Res.ok_bind] at h
    split_ifs at h with h1 h2
    · unfold buildTopDown at h
      obtain ⟨⟨layers, O⟩, hls, h⟩ := bind_ok h
      obtain ⟨B, hB, h⟩ := bind_ok h
      obtain ⟨⟨mix, root⟩, hr, h⟩ := bind_ok h
      refine ⟨⟨B, hB⟩, ?_⟩
      have hmd := (buildRoots_spec hr).1
      unfold topDownStructure at hls
      split_ifs at hls with h0 hneg
      · obtain ⟨L, hL, _⟩ := bind_ok hls
        exact ⟨by omega, by rw [h1]; intro h; exact absurd h (by decide), fun _ => (mkSum_WF hL).2⟩
      · obtain ⟨ls, hL, _⟩ := bind_ok hls
        refine ⟨by omega, by rw [h1]; intro h; exact absurd h (by decide), ?_⟩
        rintro (h3 | h3 | h3)
        · obtain ⟨n, hn⟩ : ∃ n, c.depth.toNat = n + 1 := ⟨c.depth.toNat - 1, by omega⟩
          rw [hn] at hL
          unfold topDownLayers at hL
          obtain ⟨_, _, hL⟩ := bind_ok hL
          obtain ⟨_, e, _⟩ := bind_ok hL
          exact mkDrop e h3
        · exact absurd h3 h0
        · exact hmd h3
    · unfold buildBottomUp at h
      obtain ⟨layers, hls, h⟩ := bind_ok h
      obtain ⟨B, hB, h⟩ := bind_ok h
      refine ⟨⟨B, hB⟩, ?_⟩
      unfold bottomUpStructure at hls
      split_ifs at hls with h0
      obtain ⟨⟨ls, f⟩, hL, _⟩ := bind_ok hls
      refine ⟨by omega, fun _ => by omega, fun _ => ?_⟩
      obtain ⟨n, hn⟩ : ∃ n, c.depth.toNat = n + 1 := ⟨c.depth.toNat - 1, by omega⟩
      rw [hn] at hL
      unfold bottomUpLayers at hL
      obtain ⟨_, _, hL⟩ := bind_ok hL
      obtain ⟨_, e, _⟩ := bind_ok hL
      exact mkDrop e (by rw [v11 h2]; decide)
  · rintro ⟨hv, ⟨B, hB⟩, hd, hb, hdrop⟩
    obtain ⟨v1, v2, v3, v4, v5, v6, v7, v8, v9, v10, v11, v12, v13⟩ := (assertValid_iff c).1 hv
    have hLD : LayerDrop c := fun h => hdrop (Or.inl h)
    obtain ⟨m, r, hr⟩ := buildRoots_ok P v3 fun h => hdrop (Or.inr (Or.inr h))
    unfold build
    rw [hv]
    simp only [Res.ok_bind]
    simp only [List.mem_cons, List.not_mem_nil, or_false] at v10
    split_ifs with h1 h2
    · unfold buildTopDown topDownStructure
      by_cases h0 : c.depth = 0
      · obtain ⟨L, hL⟩ := mkSum_ok (F := 1) (S := c.num_leaves) (O := c.num_classes) (R := c.num_repetitions) (P.logits 0)
          (le_refl _) v6 v3 v5 (hdrop (Or.inr (Or.inl h0)))
        rw [if_pos h0, hL, hB, hr]
        exact ⟨_, rfl⟩
      · obtain ⟨ls, hL⟩ := topDownLayers_ok P v9 v4 v6 v3 v5 hLD c.depth.toNat
        rw [if_neg h0, if_neg (by omega), hL, hB, hr]
        exact ⟨_, rfl⟩
    · have h0 := hb h2
      unfold buildBottomUp bottomUpStructure
      obtain ⟨ls, f, hL, hf⟩ := bottomUpLayers_ok P (v11 h2) v4 v6 v5 (by omega) hLD c.depth.toNat
      obtain ⟨L, hL2⟩ := mkSum_ok (F := f) (S := c.num_sums) (O := c.num_classes) (R := c.num_repetitions) P.rootLogits
        (by omega) v4 v3 v5 dropOK_zero
      rw [if_neg (by omega), hL]
      simp only [Res.ok_bind]
      rw [hL2, hB, hr]
      exact ⟨_, rfl⟩
    · exact absurd v10 (by simp [h1, h2])

end Einet
