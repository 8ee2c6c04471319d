import Verif.CondEnd
import Verif.MvnFwd
import Verif.PropsDensity

/-!
# Construction of einets with `ConditionalBinomial` leaves
-/

open Classical MeasureTheory
open scoped ENNReal
noncomputable section
namespace Einet
open Tensor

theorem topDownLayers_leaf (c : Config) (P : Params) (s : LeafSpec) (n : Nat) :
    topDownLayers c { P with leaf := s } n = topDownLayers c P n := by
  induction n with
  | zero => rfl
  | succ n ih => unfold topDownLayers; rw [ih]

theorem bottomUpLayers_leaf (c : Config) (P : Params) (s : LeafSpec) (n : Nat) :
    bottomUpLayers c { P with leaf := s } n = bottomUpLayers c P n := by
  induction n with
  | zero => rfl
  | succ n ih => unfold bottomUpLayers; rw [ih]

/-- the constructor with two leaves of the same sizes. -/
theorem build_otherLeaf {c : Config} {P : Params} {s : LeafSpec} {M : Model} (h : build c P = .ok M) {B B' : BaseLeaf}
    (hB : P.leaf.build c.cardinality c.leafDims = .ok B) (hB' : s.build c.cardinality c.leafDims = .ok B')
    (hd : B'.SameDims B) : build c { P with leaf := s } = .ok (M.withBase B') := by
  obtain ⟨d1, d2, d3, d4⟩ := hd
  have hin : ∀ O, buildInput { P with leaf := s } B' O = (buildInput P B O).withBase B' := by
    intro O
    unfold buildInput
    rw [d4]
    split_ifs
    · unfold FactSimple.build; rw [d1]; rfl
    · unfold FactLeaf.build; rw [d1, d4]; rfl
  unfold build at h ⊢
  obtain ⟨_, hv, h⟩ := bind_ok h
  rw [hv, Res.ok_bind]
  split_ifs at h ⊢ with h1 h2
  · unfold buildTopDown at h ⊢
    obtain ⟨⟨ls, O⟩, hl, h⟩ := bind_ok h
    have hl' : topDownStructure c { P with leaf := s } = .ok (ls, O) := by
      unfold topDownStructure at hl ⊢
      rw [topDownLayers_leaf]
      exact hl
    dsimp only at h
    rw [hB, Res.ok_bind] at h
    obtain ⟨⟨mix, root⟩, hr, h⟩ := bind_ok h
    rw [hl', Res.ok_bind]
    dsimp only
    rw [hB', Res.ok_bind, show buildRoots c { P with leaf := s } = .ok (mix, root) from hr, Res.ok_bind]
    simp only [Res.pure_eq, Except.ok.injEq] at h ⊢
    subst h
    rw [hin]
    rfl
  · unfold buildBottomUp at h ⊢
    obtain ⟨ls, hl, h⟩ := bind_ok h
    have hl' : bottomUpStructure c { P with leaf := s } = .ok ls := by
      unfold bottomUpStructure at hl ⊢
      rw [bottomUpLayers_leaf]
      exact hl
    dsimp only at h
    rw [hB, Res.ok_bind] at h
    obtain ⟨⟨mix, root⟩, hr, h⟩ := bind_ok h
    rw [hl', Res.ok_bind, hB', Res.ok_bind, show buildRoots c { P with leaf := s } = .ok (mix, root) from hr, Res.ok_bind]
    simp only [Res.pure_eq, Except.ok.injEq] at h ⊢
    subst h
    rfl

/-- binomial leaves with other logits. -/
theorem build_binomial {c : Config} {n : ℤ} {θ : Par} {B : BaseLeaf} (h : (LeafSpec.binomial n θ).build c.cardinality c.leafDims = .ok B)
    (θ' : Par) : B = binomialLeaf c.leafDims n.toNat θ ∧
      (LeafSpec.binomial n θ').build c.cardinality c.leafDims = .ok (binomialLeaf c.leafDims n.toNat θ') := by
  unfold LeafSpec.build at h ⊢
  obtain ⟨_, h1, h⟩ := bind_ok h
  rw [h1, Res.ok_bind]
  obtain ⟨_, h2, h⟩ := bind_ok h
  dsimp only at h2 h ⊢
  rw [h2, Res.ok_bind]
  simp only [Res.pure_eq, Except.ok.injEq] at h ⊢
  exact ⟨h.symm, trivial⟩

theorem binomialAt_random {P : Params} (h : P.Random) (n : ℤ) (θ : Par) : (P.binomialAt n θ).Random := ⟨h.1, h.2⟩

section
variable {c : Config} {P : Params} {n : ℤ} {fn : Tensor Fl → Res (Tensor Fl)} {idxs : Scopes} {base unc : Par} {E : CondEinet}

theorem buildCond_net (h : buildCond c P n fn idxs base unc = .ok E) :
    build c (P.binomialAt n fun _ _ _ _ => 0) = .ok E.net ∧
      E.leaf = ⟨E.net.num_features, E.net.num_channels, E.net.num_leaves, E.net.num_repetitions, n.toNat, fn, idxs, base, unc⟩ := by
  unfold buildCond at h
  obtain ⟨M, hM, h⟩ := bind_ok h
  simp only [Res.pure_eq, Except.ok.injEq] at h
  subst h
  exact ⟨hM, rfl⟩

/-- the einet with binomial leaves with the logits of a row can be built. -/
theorem buildCond_row (hP : P.Random) (h : buildCond c P n fn idxs base unc = .ok E) (g : (Nat → Nat → Nat → Fl) → Nat → ℝ)
    (l : List Nat) (Y : Data) : build c (P.binomialAt n (E.leaf.theta g l Y)) = .ok (E.atRow g l Y) := by
  obtain ⟨hM, hL⟩ := buildCond_net h
  obtain ⟨B, hB⟩ := (build_iff.1 ⟨_, hM⟩).2.1
  obtain ⟨rfl, hB'⟩ := build_binomial hB (E.leaf.theta g l Y)
  obtain ⟨hz, -⟩ := build_WF (binomialAt_random hP _ _) hM
  have := build_otherLeaf hM hB hB' ⟨rfl, rfl, rfl, rfl⟩
  have e : E.leaf.leafAt g l Y = binomialLeaf c.leafDims n.toNat (E.leaf.theta g l Y) := by
    unfold CondLeaf.leafAt
    have : (⟨E.leaf.num_features, E.leaf.num_channels, E.leaf.num_leaves, E.leaf.num_repetitions⟩ : LeafDims) = c.leafDims := by
      rw [hL]
      unfold Config.leafDims
      rw [hz.features, hz.channels, hz.leaves, hz.reps]
    rw [this, hL]
  unfold CondEinet.atRow
  rw [e]
  exact this

end

/-- densities that depend neither on the component nor on the repetition: the network is the product. -/
theorem Model.outP_const {M : Model} {g : Nat → Nat → Nat} (h : M.WF g) (w : Nat → Nat → ℝ≥0∞) {k : Nat} (hk : k < M.num_classes) :
    M.outP g 1 (fun c f _ _ => w c f) k = ∏ f ∈ Finset.range M.num_features, ∏ c ∈ Finset.range M.num_channels, w c f := by
  have := outP_mul h one_ne_zero w (fun _ _ _ _ => 1) hk
  simpa [outP_one h hk] using this

theorem toP_fin_inj {x y : Fl} (hx : x.IsFin) (hy : y.IsFin) (h : toP x = toP y) : x = y := by
  obtain ⟨v, rfl⟩ := hx
  obtain ⟨w, rfl⟩ := hy
  have := (ENNReal.ofReal_eq_ofReal_iff (Real.exp_pos v).le (Real.exp_pos w).le).1 h
  rw [Real.exp_injective this]

namespace CondEinet
variable {E : CondEinet} {grp : Nat → Nat → Nat} {g : (Nat → Nat → Nat → Fl) → Nat → ℝ} {l : List Nat}

theorem entry_isFin (h : E.WF grp g l) {X Y : Data} (hX : E.leaf.Counts X) (sc : Option (List Nat)) {c f i r : Nat}
    (hc : c < E.net.num_channels) (hf : f < E.net.num_features) (hi : i < E.net.num_leaves) (hr : r < E.net.num_repetitions) :
    ((E.leaf.leafAt g l Y).entry sc (X c f) c f i r).IsFin := by
  have h0 := entry_fin h (hX.observed (g := g) (l := l) Y) hc hf hi hr
  obtain ⟨k, hk', ek⟩ := hX c (by rw [h.channels]; exact hc) f (by rw [h.features]; exact hf)
  obtain ⟨v, hv⟩ := (binomialLeaf_proper ⟨E.leaf.num_features, E.leaf.num_channels, E.leaf.num_leaves,
    E.leaf.num_repetitions⟩ E.leaf.total_count (E.leaf.theta g l Y)).isFin c (by rw [← h.channels] at hc; exact hc) f
    (by rw [← h.features] at hf; exact hf) i (by rw [← h.leaves] at hi; exact hi) r (by rw [← h.reps] at hr; exact hr)
    (k : ℝ) ⟨k, hk', rfl⟩
  have hv' : (E.leaf.leafAt g l Y).logProb c f i r (.fin k) = .fin v := hv
  cases sc with
  | none => exact h0
  | some s =>
    rw [ek]
    unfold BaseLeaf.entry
    simp only [Fl.isnan, hv']
    split_ifs
    · exact Fl.isFin_fin _
    · simp at *
    · exact Fl.isFin_fin _

/-- **Batches**: every row has its own logits. -/
theorem forward_rows (h : E.WF grp g l) {x : Tensor Fl} {N : Nat} (hN : 0 < N) {X : Nat → Data}
    (hx : x.Is3 N E.net.num_channels E.net.num_features X) (hX : ∀ n, n < N → E.leaf.Counts (X n))
    {ms : Option Scopes} {sc : Option (List Nat)} (hsc : Scopes.resolveOpt E.net.num_features ms = .ok sc) :
    Res.Sat (E.forward x ms) fun y => y.Is2 N E.net.num_classes fun n => (E.atRow g l (X n)).outRow sc (X n) := by
  have hx' : x.Is3 N E.leaf.num_channels E.leaf.num_features X := by rw [h.channels, h.features]; exact hx
  obtain ⟨y, hy, hyl⟩ := CondLeaf.forward_is h.ok hN hx' hX (ms := ms) (sc := sc) (by rw [h.features]; exact hsc)
  rw [h.channels, h.features, h.leaves, h.reps] at hyl
  obtain ⟨V, hV, z, hz, hz2⟩ := Model.merge_upper_is h.net hyl fun n hn c hc f hf i hi r hr => entry_isFin h (hX n hn) sc hc hf hi hr
  refine ⟨z.1, ?_, hz2.congr ((AllIdx_iff _ _).2 fun j hj => ?_)⟩
  · unfold forward run
    rw [Model.prepInput_is hx]
    simp only [Res.ok_bind]
    rw [hy]
    simp only [Res.ok_bind]
    rw [hz]
    rfl
  · match j, hj with
    | [n, k], ⟨hn, hk, _⟩ =>
      have h1 := Model.outRow_den (h.row (X n)) (b := true) (fun _ => rfl) (sc := sc) (X := X n)
        (fun c hc f hf i hi r hr => by rw [atRow_base]; exact entry_isFin h (hX n hn) sc hc hf hi hr) (s := k) hk
      refine toP_fin_inj (hV n hn k hk).1 h1.1 ((hV n hn k hk).2.trans ?_)
      refine Eq.trans ?_ h1.2.symm
      rw [atRow, Model.withBase_outP (h.same _), Model.withBase_base]

end CondEinet
end Einet
