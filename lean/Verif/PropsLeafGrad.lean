import Verif.PropsUntouched
import Verif.PropsExactLaw
import Verif.PropsSmooth
import Verif.PropsMixGrad
import Mathlib.Analysis.SpecialFunctions.Sigmoid

/-!
# C93: gradients of leaf parameters are responsibilities times the gradients of the leaf log-densities
-/

open Classical MeasureTheory
open scoped ENNReal
noncomputable section
namespace Einet.Props
open Tensor Einet

/-! ### Specification -/

/-- log-density of a normal distribution. -/
def gaussLog (mu sd x : ℝ) : ℝ := -((x - mu) ^ 2) / (2 * sd ^ 2) - Real.log sd - Real.log √(2 * Real.pi)

/-- mean of a component of `RatNormal`: between the bounds if they are given (an upper bound 0 counts as none). -/
def ratMean (lo hi : Option ℝ) (a : ℝ) : ℝ :=
  match lo, hi with
  | some l, some h => if h = 0 then a else l + (h - l) * Real.sigmoid a
  | _, _ => a

/-- standard deviation of a component of `RatNormal`. -/
def ratSd (lo hi b : ℝ) : ℝ := if lo < hi then lo + (hi - lo) * Real.sigmoid b else 1

/-- log-density of the value `x` under component `i` of repetition `r` for channel `c` of feature `f`, from the documentation of the
distributions. -/
def leafLog : LeafSpec → Nat → Nat → Nat → Nat → ℝ → ℝ
  | .normal m lv, c, f, i, r, x => gaussLog (m c f i r) (Real.exp (1 / 2 * lv c f i r)) x
  | .ratNormal lo hi mlo mhi a b, c, f, i, r, x => gaussLog (ratMean mlo mhi (a c f i r)) (ratSd lo hi (b c f i r)) x
  | .binomial n l, c, f, i, r, x => Real.log (n.toNat.choose ⌊x⌋₊) + x * l c f i r - n * Real.log (1 + Real.exp (l c f i r))
  | .bernoulli l, c, f, i, r, x => x * l c f i r - Real.log (1 + Real.exp (l c f i r))
  | .categorical n l, c, f, i, r, x => l c f i r ⌊x⌋₊ - Real.log (∑ j ∈ Finset.range n.toNat, Real.exp (l c f i r j))

/-- the same leaf class with the same keyword arguments, arbitrary parameters. -/
def SameKind (s s' : LeafSpec) : Prop := SameAt (fun _ _ => False) s s'

/-- posterior probabilities of the components of every feature: not negative, and of sum one over components and repetitions. -/
structure Posterior (M : Model) (rho : Nat → Nat → Nat → ℝ) : Prop where
  nonneg : ∀ f i r, 0 ≤ rho f i r
  total : ∀ f, f < M.num_features → ∑ r ∈ Finset.range M.num_repetitions, ∑ i ∈ Finset.range M.num_leaves, rho f i r = 1

/-! ### Lemmas -/

theorem logSumExp_deriv {ι : Type} (S : Finset ι) (W : ι → ℝ) (E : ι → ℝ → ℝ) (D : ι → ℝ)
    (hE : ∀ s ∈ S, HasDerivAt (E s) (D s) 0) (hpos : 0 < ∑ s ∈ S, W s * Real.exp (E s 0)) :
    HasDerivAt (fun t => Real.log (∑ s ∈ S, W s * Real.exp (E s t)))
      (∑ s ∈ S, W s * Real.exp (E s 0) / (∑ s ∈ S, W s * Real.exp (E s 0)) * D s) 0 := by
  have h1 : HasDerivAt (fun t => ∑ s ∈ S, W s * Real.exp (E s t)) (∑ s ∈ S, W s * (Real.exp (E s 0) * D s)) 0 :=
    HasDerivAt.fun_sum fun s hs => ((hE s hs).exp).const_mul (W s)
  refine (h1.log hpos.ne').congr_deriv ?_
  rw [Finset.sum_div]
  exact Finset.sum_congr rfl fun s _ => by ring

section
variable {c : Config} {P : Params} {M : Model}

/-- weight of repetition `r` and components `κ`. -/
def jointW (M : Model) (k : Nat) (s : Nat × Choice M) : ℝ := (repShare M 1 k s.1 * choiceShare M 1 k s.1 s.2).toReal

/-- all pairs of a repetition and components. -/
def allPairs (M : Model) : Finset (Nat × Choice M) := Finset.range M.num_repetitions ×ˢ Finset.univ

theorem density_joint (hP : P.Random) (h : build c P = .ok M) {B : BaseLeaf} {s : LeafSpec}
    (hB : s.build c.cardinality c.leafDims = .ok B) (hd : B.SameDims M.leaf.base) (hg : s.Good) {X : Data}
    (hX : s.Data M.num_channels M.num_features X) {k : Nat} (hk : k < M.num_classes) {L : Nat → Nat → Nat → Nat → ℝ}
    (hL : ∀ ch, ch < M.num_channels → ∀ f, f < M.num_features → ∀ i r,
      (if X ch f = .nan then 1 else toP (B.logProb ch f i r (X ch f))) = ENNReal.ofReal (Real.exp (L ch f i r))) :
    classProb (M.withBase B) k X = ∑ s ∈ allPairs M, jointW M k s *
      Real.exp (∑ f ∈ Finset.range M.num_features, ∑ ch ∈ Finset.range M.num_channels,
        L ch f (s.2.of (M.grpF (buildGroups c P) s.1 f)) s.1) := by
  have hb := build_otherLeaf h (build_leaf hP h) hB hd
  have hP' : Params.Random { P with leaf := s } := ⟨hP.1, hP.2⟩
  obtain ⟨-, hw, -, -⟩ := build_WF hP h
  obtain ⟨-, -, hp', -⟩ := build_WF hP' hb
  have hfin : ∀ r, r < M.num_repetitions → ∀ κ : Choice M, repShare M 1 k r * choiceShare M 1 k r κ ≠ ⊤ := by
    intro r hr κ
    refine ne_top_of_le_ne_top ENNReal.one_ne_top ?_
    rw [← shares_sum hw one_ne_zero hk]
    refine le_trans ?_ (Finset.single_le_sum (f := fun r => ∑ κ : Choice M, repShare M 1 k r * choiceShare M 1 k r κ)
      (fun _ _ => bot_le) (Finset.mem_range.2 hr))
    exact Finset.single_le_sum (f := fun κ : Choice M => repShare M 1 k r * choiceShare M 1 k r κ) (fun _ _ => bot_le) (Finset.mem_univ κ)
  unfold classProb
  rw [density_val (Model.withBase_WF hd hw) (hp' hg) ((build_observed hP' hb).2 hX) (k := k) hk, withBase_grpF M hd]
  have e1 : (M.withBase B).topP 1 (regionVal (M.withBase B) (M.grpF (buildGroups c P)) X) k =
      M.topP 1 (M.regionP (buildGroups c P) fun ch f i r => cell (M.withBase B) (X ch f) ch f i r) k := rfl
  rw [e1, topP_expand hw one_ne_zero _ hk]
  unfold allPairs
  rw [Finset.sum_product' (s := Finset.range M.num_repetitions) (t := (Finset.univ : Finset (Choice M))) (f := fun r κ => jointW M k (r, κ) *
      Real.exp (∑ f ∈ Finset.range M.num_features, ∑ ch ∈ Finset.range M.num_channels,
        L ch f (Choice.of κ (M.grpF (buildGroups c P) r f)) r))]
  have e2 : ∀ r, r < M.num_repetitions → ∀ κ : Choice M, ∏ o ∈ Finset.range M.numOut,
      M.regionP (buildGroups c P) (fun ch f i r => cell (M.withBase B) (X ch f) ch f i r) o (κ.of o) r =
      ENNReal.ofReal (Real.exp (∑ f ∈ Finset.range M.num_features, ∑ ch ∈ Finset.range M.num_channels,
        L ch f (κ.of (M.grpF (buildGroups c P) r f)) r)) := by
    intro r hr κ
    rw [Model.prod_regionP hw.front hr, Real.exp_sum, ENNReal.ofReal_prod_of_nonneg fun _ _ => (Real.exp_pos _).le]
    refine Finset.prod_congr rfl fun f hf => ?_
    rw [Real.exp_sum, ENNReal.ofReal_prod_of_nonneg fun _ _ => (Real.exp_pos _).le]
    refine Finset.prod_congr rfl fun ch hc => ?_
    unfold cell
    rw [Model.withBase_base]
    exact hL ch (Finset.mem_range.1 hc) f (Finset.mem_range.1 hf) _ _
  have hne : ∀ r ∈ Finset.range M.num_repetitions, ∀ κ ∈ (Finset.univ : Finset (Choice M)), repShare M 1 k r * choiceShare M 1 k r κ *
      ∏ o ∈ Finset.range M.numOut, M.regionP (buildGroups c P) (fun ch f i r => cell (M.withBase B) (X ch f) ch f i r) o (κ.of o) r ≠ ⊤ := by
    intro r hr κ _
    rw [e2 r (Finset.mem_range.1 hr) κ]
    exact ENNReal.mul_ne_top (hfin r (Finset.mem_range.1 hr) κ) ENNReal.ofReal_ne_top
  rw [ENNReal.toReal_sum fun r hr => ENNReal.sum_ne_top.2 (hne r hr)]
  refine Finset.sum_congr rfl fun r hr => ?_
  rw [ENNReal.toReal_sum (hne r hr)]
  refine Finset.sum_congr rfl fun κ _ => ?_
  rw [e2 r (Finset.mem_range.1 hr) κ, ENNReal.toReal_mul, ENNReal.toReal_ofReal (Real.exp_pos _).le]
  rfl

theorem sigmoid_eq (l : ℝ) : Real.sigmoid l = Real.exp l / (1 + Real.exp l) ∧ 1 - Real.sigmoid l = 1 / (1 + Real.exp l) := by
  have h : Real.sigmoid l = Real.exp l / (1 + Real.exp l) := by
    rw [Real.sigmoid_def, Real.exp_neg]
    have := Real.exp_pos l
    field_simp
    ring
  refine ⟨h, ?_⟩
  rw [h]
  have := Real.exp_pos l
  field_simp
  ring

theorem leafLog_spec {s : LeafSpec} {card : Option ℤ} {d : LeafDims} {B : BaseLeaf} (hB : s.build card d = .ok B) (hg : s.Good)
    (ch f i r : Nat) {v : ℝ} (hv : s.InSupport v) :
    toP (B.logProb ch f i r (.fin v)) = ENNReal.ofReal (Real.exp (leafLog s ch f i r v)) := by
  unfold LeafSpec.build at hB
  cases s with
  | normal m lv =>
    obtain ⟨_, h0, hB⟩ := bind_ok hB
    cases hB
    rfl
  | ratNormal lo hi mlo mhi a b =>
    obtain ⟨_, h0, hB⟩ := bind_ok hB
    dsimp only at hB
    obtain ⟨_, e1, hB⟩ := bind_ok hB
    obtain ⟨_, e2, hB⟩ := bind_ok hB
    obtain ⟨_, e3, hB⟩ := bind_ok hB
    obtain ⟨_, e4, hB⟩ := bind_ok hB
    obtain ⟨_, e5, hB⟩ := bind_ok hB
    have e5 := (require_ok_iff _ _).1 e5
    have hB' := (Except.ok.inj hB).symm
    clear hB
    subst hB'
    have hpr : ratProject lo hi mlo mhi (a ch f i r) (b ch f i r) = .ok (ratMean mlo mhi (a ch f i r), ratSd lo hi (b ch f i r)) := by
      unfold ratProject ratMean ratSd
      rcases mhi with _ | u
      · rcases mlo with _ | l <;> rfl
      · rcases mlo with _ | l
        · by_cases hu : u = 0
          · simp only [hu, if_true]; rfl
          · exact absurd rfl (e5 u rfl hu)
        · by_cases hu : u = 0
          · simp only [hu, if_true]; rfl
          · simp only [hu, if_false]
            rw [show Real.sigmoid (a ch f i r) * (u - l) + l = l + (u - l) * Real.sigmoid (a ch f i r) by ring]
            rfl
    unfold gaussLeaf
    dsimp only
    rw [hpr]
    rfl
  | binomial n l =>
    obtain ⟨_, h0, hB⟩ := bind_ok hB
    dsimp only at hB
    obtain ⟨_, e1, hB⟩ := bind_ok hB
    cases hB
    obtain ⟨k, hk, rfl⟩ := hv
    show toP (Fl.log (.fin (binomialPmf n.toNat (Real.sigmoid (l ch f i r)) ⌊(k : ℝ)⌋₊))) = _
    have hk' : k ≤ n.toNat := by omega
    have hn : (n : ℝ) = n.toNat := by
      have : (n.toNat : ℤ) = n := Int.toNat_of_nonneg (by omega)
      exact_mod_cast this.symm
    rw [Nat.floor_natCast, toP_log (binomialPmf_pos (sigmoid_pos' _).1 (sigmoid_pos' _).2 (by omega))]
    congr 1
    unfold leafLog binomialPmf
    dsimp only
    have hc : (0 : ℝ) < n.toNat.choose k := by exact_mod_cast Nat.choose_pos hk'
    have he := Real.exp_pos (l ch f i r)
    rw [(sigmoid_eq _).2, (sigmoid_eq _).1, Nat.floor_natCast, hn, Real.exp_sub, Real.exp_add, Real.exp_log hc,
      Real.exp_nat_mul, Real.exp_nat_mul, Real.exp_log (by positivity),
      div_pow, div_pow, one_pow, mul_assoc, div_mul_div_comm, mul_one, ← pow_add, Nat.add_sub_cancel' hk', mul_div_assoc]
  | bernoulli l =>
    obtain ⟨_, h0, hB⟩ := bind_ok hB
    cases hB
    have he := Real.exp_pos (l ch f i r)
    rcases hv with rfl | rfl
    · show toP (Fl.log (.fin (if ⌊(0 : ℝ)⌋₊ = 1 then _ else _))) = _
      rw [Nat.floor_zero, if_neg zero_ne_one, toP_log (sigmoid_pos' _).2, (sigmoid_eq _).2]
      congr 1
      unfold leafLog
      dsimp only
      rw [zero_mul, zero_sub, Real.exp_neg, Real.exp_log (by positivity), one_div]
    · show toP (Fl.log (.fin (if ⌊(1 : ℝ)⌋₊ = 1 then _ else _))) = _
      rw [Nat.floor_one, if_pos rfl, toP_log (sigmoid_pos' _).1, (sigmoid_eq _).1]
      congr 1
      unfold leafLog
      dsimp only
      rw [one_mul, Real.exp_sub, Real.exp_log (by positivity)]
  | categorical n l =>
    obtain ⟨_, h0, hB⟩ := bind_ok hB
    dsimp only at hB
    obtain ⟨_, e1, hB⟩ := bind_ok hB
    cases hB
    obtain ⟨k, hk, rfl⟩ := hv
    show toP (Fl.log (.fin (softmaxR n.toNat (l ch f i r) ⌊(k : ℝ)⌋₊))) = _
    have hs : 0 < ∑ j ∈ Finset.range n.toNat, Real.exp (l ch f i r j) :=
      Finset.sum_pos (fun _ _ => Real.exp_pos _) ⟨k, by rw [Finset.mem_range]; omega⟩
    rw [Nat.floor_natCast, toP_log (by unfold softmaxR; exact div_pos (Real.exp_pos _) hs)]
    congr 1
    unfold leafLog softmaxR
    dsimp only
    rw [Nat.floor_natCast, Real.exp_sub, Real.exp_log hs]

/-- posterior weight of a repetition and components, for log-densities `L`. -/
def jointPost (M : Model) (G : Nat → Nat → Nat) (k : Nat) (L : Nat → Nat → Nat → Nat → ℝ) (s : Nat × Choice M) : ℝ :=
  jointW M k s * Real.exp (∑ f ∈ Finset.range M.num_features, ∑ ch ∈ Finset.range M.num_channels, L ch f (s.2.of (G s.1 f)) s.1) /
    ∑ s ∈ allPairs M, jointW M k s *
      Real.exp (∑ f ∈ Finset.range M.num_features, ∑ ch ∈ Finset.range M.num_channels, L ch f (s.2.of (G s.1 f)) s.1)

/-- posterior probability of component `i` of repetition `r` for feature `f`. -/
def compPost (M : Model) (G : Nat → Nat → Nat) (k : Nat) (L : Nat → Nat → Nat → Nat → ℝ) (f i r : Nat) : ℝ :=
  ∑ s ∈ allPairs M, if r = s.1 ∧ i = s.2.of (G s.1 f) then jointPost M G k L s else 0

theorem compPost_pick (M : Model) {G : Nat → Nat → Nat} (k : Nat) (L : Nat → Nat → Nat → Nat → ℝ) {f : Nat}
    (hG : ∀ r, r < M.num_repetitions → G r f < M.numOut) (D : Nat → Nat → ℝ) :
    ∑ r ∈ Finset.range M.num_repetitions, ∑ i ∈ Finset.range M.num_leaves, compPost M G k L f i r * D i r =
      ∑ s ∈ allPairs M, jointPost M G k L s * D (s.2.of (G s.1 f)) s.1 := by
  unfold compPost
  simp only [Finset.sum_mul]
  have : ∀ r ∈ Finset.range M.num_repetitions, ∑ i ∈ Finset.range M.num_leaves, ∑ s ∈ allPairs M,
      (if r = s.1 ∧ i = s.2.of (G s.1 f) then jointPost M G k L s else 0) * D i r =
      ∑ s ∈ allPairs M, ∑ i ∈ Finset.range M.num_leaves,
        (if r = s.1 ∧ i = s.2.of (G s.1 f) then jointPost M G k L s else 0) * D i r := fun r _ => Finset.sum_comm
  rw [Finset.sum_congr rfl this, Finset.sum_comm]
  refine Finset.sum_congr rfl fun s hs => ?_
  have h1 : s.1 < M.num_repetitions := Finset.mem_range.1 (Finset.mem_product.1 hs).1
  rw [Finset.sum_eq_single s.1, Finset.sum_eq_single (s.2.of (G s.1 f))]
  · rw [if_pos ⟨rfl, rfl⟩]
  · intro i _ hi
    rw [if_neg fun e => hi e.2, zero_mul]
  · intro hn
    exact absurd (Finset.mem_range.2 (s.2.of_lt (hG _ h1))) hn
  · intro r _ hr
    exact Finset.sum_eq_zero fun i _ => by rw [if_neg fun e => hr e.1, zero_mul]
  · intro hn
    exact absurd (Finset.mem_range.2 h1) hn

/-- log-density of an entry, 0 if it is missing. -/
def entryLog (s : LeafSpec) (X : Data) (ch f i r : Nat) : ℝ := if X ch f = .nan then 0 else leafLog s ch f i r (X ch f).val

theorem entryLog_spec {s : LeafSpec} {card : Option ℤ} {d : LeafDims} {B : BaseLeaf} (hB : s.build card d = .ok B) (hg : s.Good)
    {X : Data} {C F : Nat} (hX : s.Data C F X) {ch f : Nat} (hc : ch < C) (hf : f < F) (i r : Nat) :
    (if X ch f = .nan then 1 else toP (B.logProb ch f i r (X ch f))) = ENNReal.ofReal (Real.exp (entryLog s X ch f i r)) := by
  unfold entryLog
  rcases hX ch hc f hf with e | ⟨v, e, hv⟩
  · simp [e]
  · rw [e, if_neg (by simp), if_neg (by simp)]
    exact leafLog_spec hB hg ch f i r hv

end

/-! ### Theorems -/

/-- **C93**: for every row and class there are posterior probabilities of the components of the features, such that for every change of
the leaf parameters (of all of them, with parameter `t`) the derivative of the log-likelihood is the sum over the known entries and all
components of the posterior probability times the derivative of the log-density of the component. -/
theorem C93_gradient (c : Config) (P : Params) (hP : P.Random) (hg : P.leaf.Good) (M : Model) (h : build c P = .ok M) (N : Nat)
    (x : Tensor Fl) (hx : Batch P.leaf N M.num_channels M.num_features x) (n : Nat) (hn : n < N) (k : Nat) (hk : k < M.num_classes) :
    ∃ rho, Posterior M rho ∧ ∀ (s : ℝ → LeafSpec) (D : Nat → Nat → Nat → Nat → ℝ), s 0 = P.leaf → (∀ t, SameKind P.leaf (s t)) →
      (∀ ch f i r v, x.get [n, ch, f] = .fin v → HasDerivAt (fun t => leafLog (s t) ch f i r v) (D ch f i r) 0) →
      ∃ ll : ℝ → ℝ, (∀ t, ∃ M' y, build c { P with leaf := s t } = .ok M' ∧ M'.forward x = .ok y ∧ y.get [n, k] = .fin (ll t)) ∧
        HasDerivAt ll (∑ f ∈ Finset.range M.num_features, ∑ ch ∈ Finset.range M.num_channels,
          if Known x n ch f then ∑ r ∈ Finset.range M.num_repetitions, ∑ i ∈ Finset.range M.num_leaves, rho f i r * D ch f i r
          else 0) 0 := by
  have hX := hx.2 n hn
  have hfr := (build_WF hP h).2.1.front
  have hG : ∀ f, f < M.num_features → ∀ r, r < M.num_repetitions → M.grpF (buildGroups c P) r f < M.numOut :=
    fun f hf r hr => hfr.grpF_lt hr hf
  have hmain : ∀ s, SameKind P.leaf s → ∃ M', build c { P with leaf := s } = .ok M' ∧ M'.num_classes = M.num_classes ∧
      M'.num_channels = M.num_channels ∧ M'.num_features = M.num_features ∧
      classProb M' k (rowAt x n) = ∑ p ∈ allPairs M, jointW M k p *
      Real.exp (∑ f ∈ Finset.range M.num_features, ∑ ch ∈ Finset.range M.num_channels,
        entryLog s (rowAt x n) ch f (p.2.of (M.grpF (buildGroups c P) p.1 f)) p.1) := by
    intro s hs
    obtain ⟨B', hB', hd, -⟩ := hs.build (build_leaf hP h)
    refine ⟨_, build_otherLeaf h (build_leaf hP h) hB' hd, rfl, rfl, rfl, ?_⟩
    exact density_joint hP h hB' hd (hs.good hg) (hs.data hX) hk fun ch hc f hf i r => entryLog_spec hB' (hs.good hg) (hs.data hX) hc hf i r
  have hself : SameKind P.leaf P.leaf := by
    cases P.leaf with
    | normal a b => exact .normal (fun _ _ e => e.elim) fun _ _ e => e.elim
    | ratNormal lo hi mlo mhi a b => exact .ratNormal lo hi mlo mhi (fun _ _ e => e.elim) fun _ _ e => e.elim
    | binomial m a => exact .binomial m fun _ _ e => e.elim
    | bernoulli a => exact .bernoulli fun _ _ e => e.elim
    | categorical m a => exact .categorical m fun _ _ e => e.elim
  have hpos : 0 < ∑ p ∈ allPairs M, jointW M k p *
      Real.exp (∑ f ∈ Finset.range M.num_features, ∑ ch ∈ Finset.range M.num_channels,
        entryLog P.leaf (rowAt x n) ch f (p.2.of (M.grpF (buildGroups c P) p.1 f)) p.1) := by
    obtain ⟨M', h1, hK, hC, hF, e⟩ := hmain P.leaf hself
    rw [← e]
    exact (gb_pos (P := { P with leaf := P.leaf }) ⟨hP.1, hP.2⟩ hg h1 (X := rowAt x n) (by rw [hC, hF]; exact hX) (by rw [hK]; exact hk)).1
  refine ⟨compPost M (M.grpF (buildGroups c P)) k (entryLog P.leaf (rowAt x n)), ⟨fun f i r => ?_, fun f hf => ?_⟩,
    fun s D hs0 hs hD => ?_⟩
  · unfold compPost
    refine Finset.sum_nonneg fun p _ => ?_
    split_ifs
    · exact div_nonneg (mul_nonneg ENNReal.toReal_nonneg (Real.exp_pos _).le) hpos.le
    · exact le_rfl
  · have := compPost_pick M k (entryLog P.leaf (rowAt x n)) (hG f hf) fun _ _ => 1
    simp only [mul_one] at this
    rw [this]
    unfold jointPost
    rw [← Finset.sum_div, div_self hpos.ne']
  · refine ⟨fun t => Real.log (∑ p ∈ allPairs M, jointW M k p *
      Real.exp (∑ f ∈ Finset.range M.num_features, ∑ ch ∈ Finset.range M.num_channels,
        entryLog (s t) (rowAt x n) ch f (p.2.of (M.grpF (buildGroups c P) p.1 f)) p.1)), fun t => ?_, ?_⟩
    · obtain ⟨M', h1, hK, hC, hF, e⟩ := hmain (s t) (hs t)
      obtain ⟨y, h2, -, h3⟩ := train_forward (P := { P with leaf := s t }) ⟨hP.1, hP.2⟩ ((hs t).good hg) h1 (N := N) (x := x)
        (by rw [hC, hF]; exact (hs t).batch hx)
      exact ⟨M', y, h1, h2, by rw [(h3 n hn k (by rw [hK]; exact hk)).2, e]⟩
    · have hE : ∀ p ∈ allPairs M, HasDerivAt (fun t => ∑ f ∈ Finset.range M.num_features, ∑ ch ∈ Finset.range M.num_channels,
          entryLog (s t) (rowAt x n) ch f (p.2.of (M.grpF (buildGroups c P) p.1 f)) p.1)
          (∑ f ∈ Finset.range M.num_features, ∑ ch ∈ Finset.range M.num_channels,
            if Known x n ch f then D ch f (p.2.of (M.grpF (buildGroups c P) p.1 f)) p.1 else 0) 0 := by
        intro p _
        refine HasDerivAt.fun_sum fun f hf => HasDerivAt.fun_sum fun ch hc => ?_
        unfold entryLog Known
        rcases hX ch (Finset.mem_range.1 hc) f (Finset.mem_range.1 hf) with e | ⟨v, e, -⟩
        · have e' : rowAt x n ch f = .nan := e
          simp only [e', e, ne_eq, not_true_eq_false, if_true, if_false]
          exact hasDerivAt_const _ _
        · have e' : rowAt x n ch f = .fin v := e
          simp only [e', e, ne_eq, reduceCtorEq, not_false_eq_true, if_true, if_false]
          exact hD ch f _ _ v e
      have hpos' := hpos
      rw [← hs0] at hpos'
      refine (logSumExp_deriv (allPairs M) (jointW M k) _ _ hE hpos').congr_deriv ?_
      rw [hs0]
      have e1 : ∀ f ∈ Finset.range M.num_features, ∀ ch ∈ Finset.range M.num_channels,
          (if Known x n ch f then ∑ r ∈ Finset.range M.num_repetitions, ∑ i ∈ Finset.range M.num_leaves,
            compPost M (M.grpF (buildGroups c P)) k (entryLog P.leaf (rowAt x n)) f i r * D ch f i r else 0) =
          ∑ p ∈ allPairs M, jointPost M (M.grpF (buildGroups c P)) k (entryLog P.leaf (rowAt x n)) p *
            if Known x n ch f then D ch f (p.2.of (M.grpF (buildGroups c P) p.1 f)) p.1 else 0 := by
        intro f hf ch _
        split_ifs
        · exact compPost_pick M k _ (hG f (Finset.mem_range.1 hf)) fun i r => D ch f i r
        · simp
      rw [Finset.sum_congr rfl fun f hf => Finset.sum_congr rfl (e1 f hf)]
      simp only [Finset.mul_sum]
      rw [Finset.sum_comm]
      refine Finset.sum_congr rfl fun f _ => ?_
      rw [Finset.sum_comm]
      rfl

/-- a parameter tensor with `t` added at one entry. -/
def bumpPar (p : Par) (c f i r : Nat) (t : ℝ) : Par := fun c' f' i' r' => if (c', f', i', r') = (c, f, i, r) then p c' f' i' r' + t else p c' f' i' r'

theorem bumpPar_zero (p : Par) (c f i r : Nat) : bumpPar p c f i r 0 = p := by
  funext c' f' i' r'
  unfold bumpPar
  split_ifs <;> simp

/-- only one entry and component contributes. -/
theorem sum_single4 {F C R I : Nat} {f₀ c₀ i₀ r₀ : Nat} (hf : f₀ < F) (hc : c₀ < C) (hi : i₀ < I) (hr : r₀ < R) (K : Nat → Nat → Prop)
    (hK : K c₀ f₀) (rho : Nat → Nat → Nat → ℝ) (a : ℝ) :
    (∑ f ∈ Finset.range F, ∑ ch ∈ Finset.range C, if K ch f then ∑ r ∈ Finset.range R, ∑ i ∈ Finset.range I,
      rho f i r * (if (ch, f, i, r) = (c₀, f₀, i₀, r₀) then a else 0) else 0) = rho f₀ i₀ r₀ * a := by
  rw [Finset.sum_eq_single f₀, Finset.sum_eq_single c₀, if_pos hK, Finset.sum_eq_single r₀, Finset.sum_eq_single i₀, if_pos rfl]
  · intro i _ h; rw [if_neg (by simp [h]), mul_zero]
  · intro h; exact absurd (Finset.mem_range.2 hi) h
  · intro r _ h; exact Finset.sum_eq_zero fun i _ => by rw [if_neg (by simp [h]), mul_zero]
  · intro h; exact absurd (Finset.mem_range.2 hr) h
  · intro ch _ h
    split_ifs
    · exact Finset.sum_eq_zero fun r _ => Finset.sum_eq_zero fun i _ => by rw [if_neg (by simp [h]), mul_zero]
    · rfl
  · intro h; exact absurd (Finset.mem_range.2 hc) h
  · intro f _ h
    refine Finset.sum_eq_zero fun ch _ => ?_
    split_ifs
    · exact Finset.sum_eq_zero fun r _ => Finset.sum_eq_zero fun i _ => by rw [if_neg (by simp [h]), mul_zero]
    · rfl
  · intro h; exact absurd (Finset.mem_range.2 hf) h

theorem gaussLog_mean (mu sd x : ℝ) (hs : sd ≠ 0) : HasDerivAt (fun t => gaussLog (mu + t) sd x) ((x - mu) / sd ^ 2) 0 := by
  have h1 : HasDerivAt (fun t : ℝ => x - (mu + t)) (-1) 0 := by simpa using ((hasDerivAt_id (0 : ℝ)).const_add mu).const_sub x
  have h2 := ((((h1.pow 2).neg).div_const (2 * sd ^ 2)).sub_const (Real.log sd)).sub_const (Real.log √(2 * Real.pi))
  refine h2.congr_deriv ?_
  field_simp
  simp

theorem gaussLog_logvar (mu lv x : ℝ) :
    HasDerivAt (fun t => gaussLog mu (Real.exp (1 / 2 * (lv + t))) x) (1 / 2 * ((x - mu) ^ 2 / Real.exp (1 / 2 * lv) ^ 2 - 1)) 0 := by
  have e : (fun t => gaussLog mu (Real.exp (1 / 2 * (lv + t))) x) =
      fun t => -((x - mu) ^ 2) / 2 * Real.exp (-(lv + t)) - 1 / 2 * (lv + t) - Real.log √(2 * Real.pi) := by
    funext t
    unfold gaussLog
    rw [Real.log_exp, ← Real.exp_nat_mul, Real.exp_neg]
    rw [show ((2 : ℕ) : ℝ) * (1 / 2 * (lv + t)) = lv + t by push_cast; ring]
    have := Real.exp_pos (lv + t)
    field_simp
  have h0 : HasDerivAt (fun t : ℝ => lv + t) 1 0 := by simpa using (hasDerivAt_id (0 : ℝ)).const_add lv
  rw [e]
  refine ((((h0.neg).exp.const_mul _).sub (h0.const_mul (1 / 2))).sub_const _).congr_deriv ?_
  rw [← Real.exp_nat_mul, show ((2 : ℕ) : ℝ) * (1 / 2 * lv) = lv by push_cast; ring]
  simp only [add_zero, Real.exp_neg, Pi.neg_apply]
  have := Real.exp_pos lv
  field_simp

/-- **C93** for `Normal` leaves: one set of posterior probabilities gives the derivatives by all means and all log-variances.  As they
lie between 0 and 1, a gradient step moves a mean towards the value, and not more than the distance over the variance. -/
theorem C93_normal (c : Config) (P : Params) (hP : P.Random) (m lv : Par) (hl : P.leaf = .normal m lv) (M : Model)
    (h : build c P = .ok M) (N : Nat) (x : Tensor Fl) (hx : Batch P.leaf N M.num_channels M.num_features x) (n : Nat) (hn : n < N)
    (k : Nat) (hk : k < M.num_classes) :
    ∃ rho, Posterior M rho ∧ ∀ ch, ch < M.num_channels → ∀ f, f < M.num_features → ∀ i, i < M.num_leaves → ∀ r, r < M.num_repetitions →
      ∀ v, x.get [n, ch, f] = .fin v →
      ∃ ll ll' : ℝ → ℝ,
        (∀ t, ∃ M' y, build c { P with leaf := .normal (bumpPar m ch f i r t) lv } = .ok M' ∧ M'.forward x = .ok y ∧
          y.get [n, k] = .fin (ll t)) ∧
        (∀ t, ∃ M' y, build c { P with leaf := .normal m (bumpPar lv ch f i r t) } = .ok M' ∧ M'.forward x = .ok y ∧
          y.get [n, k] = .fin (ll' t)) ∧
        HasDerivAt ll (rho f i r * ((v - m ch f i r) / Real.exp (lv ch f i r))) 0 ∧
        HasDerivAt ll' (rho f i r * (1 / 2 * ((v - m ch f i r) ^ 2 / Real.exp (lv ch f i r) - 1))) 0 := by
  obtain ⟨rho, h1, h2⟩ := C93_gradient c P hP (by rw [hl]; trivial) M h N x hx n hn k hk
  refine ⟨rho, h1, fun ch hc f hf i hi r hr v hv => ?_⟩
  have hK : Known x n ch f := by unfold Known; rw [hv]; simp
  have hvar : Real.exp (1 / 2 * lv ch f i r) ^ 2 = Real.exp (lv ch f i r) := by
    rw [← Real.exp_nat_mul]; congr 1; push_cast; ring
  obtain ⟨ll, a1, a2⟩ := h2 (fun t => .normal (bumpPar m ch f i r t) lv)
    (fun ch' f' i' r' => if (ch', f', i', r') = (ch, f, i, r) then (v - m ch f i r) / Real.exp (1 / 2 * lv ch f i r) ^ 2 else 0)
    (by rw [bumpPar_zero, hl]) (fun t => by rw [hl]; exact .normal (fun _ _ e => e.elim) fun _ _ e => e.elim)
    (fun ch' f' i' r' v' hv' => by
      show HasDerivAt (fun t => gaussLog (bumpPar m ch f i r t ch' f' i' r') (Real.exp (1 / 2 * lv ch' f' i' r')) v') _ 0
      unfold bumpPar
      by_cases e : (ch', f', i', r') = (ch, f, i, r)
      · obtain ⟨rfl, rfl, rfl, rfl⟩ : ch' = ch ∧ f' = f ∧ i' = i ∧ r' = r := by simpa using e
        have : v' = v := by rw [hv] at hv'; simpa using hv'.symm
        subst this
        simp only [if_true]
        exact gaussLog_mean _ _ _ (Real.exp_pos _).ne'
      · simp only [e, if_false]
        exact hasDerivAt_const _ _)
  obtain ⟨ll', b1, b2⟩ := h2 (fun t => .normal m (bumpPar lv ch f i r t))
    (fun ch' f' i' r' => if (ch', f', i', r') = (ch, f, i, r) then
      1 / 2 * ((v - m ch f i r) ^ 2 / Real.exp (1 / 2 * lv ch f i r) ^ 2 - 1) else 0)
    (by rw [bumpPar_zero, hl]) (fun t => by rw [hl]; exact .normal (fun _ _ e => e.elim) fun _ _ e => e.elim)
    (fun ch' f' i' r' v' hv' => by
      show HasDerivAt (fun t => gaussLog (m ch' f' i' r') (Real.exp (1 / 2 * bumpPar lv ch f i r t ch' f' i' r')) v') _ 0
      unfold bumpPar
      by_cases e : (ch', f', i', r') = (ch, f, i, r)
      · obtain ⟨rfl, rfl, rfl, rfl⟩ : ch' = ch ∧ f' = f ∧ i' = i ∧ r' = r := by simpa using e
        have : v' = v := by rw [hv] at hv'; simpa using hv'.symm
        subst this
        simp only [if_true]
        exact gaussLog_logvar _ _ _
      · simp only [e, if_false]
        exact hasDerivAt_const _ _)
  rw [sum_single4 hf hc hi hr _ hK, hvar] at a2 b2
  exact ⟨ll, ll', a1, b1, a2, b2⟩

theorem softplus_deriv (l : ℝ) : HasDerivAt (fun t => Real.log (1 + Real.exp (l + t))) (Real.sigmoid l) 0 := by
  have h0 : HasDerivAt (fun t : ℝ => l + t) 1 0 := by simpa using (hasDerivAt_id (0 : ℝ)).const_add l
  have h1 : HasDerivAt (fun t : ℝ => 1 + Real.exp (l + t)) (Real.exp (l + 0) * 1) 0 := h0.exp.const_add 1
  refine (h1.log (by positivity)).congr_deriv ?_
  rw [(sigmoid_eq l).1]
  simp

/-- **C93** for `Binomial` leaves: the derivative by a logit is the posterior probability of the component times the value minus its mean. -/
theorem C93_binomial (c : Config) (P : Params) (hP : P.Random) (tot : ℤ) (l : Par) (hl : P.leaf = .binomial tot l) (M : Model)
    (h : build c P = .ok M) (N : Nat) (x : Tensor Fl) (hx : Batch P.leaf N M.num_channels M.num_features x) (n : Nat) (hn : n < N)
    (k : Nat) (hk : k < M.num_classes) :
    ∃ rho, Posterior M rho ∧ ∀ ch, ch < M.num_channels → ∀ f, f < M.num_features → ∀ i, i < M.num_leaves → ∀ r, r < M.num_repetitions →
      ∀ v, x.get [n, ch, f] = .fin v →
      ∃ ll : ℝ → ℝ,
        (∀ t, ∃ M' y, build c { P with leaf := .binomial tot (bumpPar l ch f i r t) } = .ok M' ∧ M'.forward x = .ok y ∧
          y.get [n, k] = .fin (ll t)) ∧
        HasDerivAt ll (rho f i r * (v - tot * Real.sigmoid (l ch f i r))) 0 := by
  obtain ⟨rho, h1, h2⟩ := C93_gradient c P hP (by rw [hl]; trivial) M h N x hx n hn k hk
  refine ⟨rho, h1, fun ch hc f hf i hi r hr v hv => ?_⟩
  have hK : Known x n ch f := by unfold Known; rw [hv]; simp
  obtain ⟨ll, a1, a2⟩ := h2 (fun t => .binomial tot (bumpPar l ch f i r t))
    (fun ch' f' i' r' => if (ch', f', i', r') = (ch, f, i, r) then v - tot * Real.sigmoid (l ch f i r) else 0)
    (by rw [bumpPar_zero, hl]) (fun t => by rw [hl]; exact .binomial tot fun _ _ e => e.elim)
    (fun ch' f' i' r' v' hv' => by
      show HasDerivAt (fun t => Real.log (tot.toNat.choose ⌊v'⌋₊) + v' * bumpPar l ch f i r t ch' f' i' r' -
        tot * Real.log (1 + Real.exp (bumpPar l ch f i r t ch' f' i' r'))) _ 0
      unfold bumpPar
      by_cases e : (ch', f', i', r') = (ch, f, i, r)
      · obtain ⟨rfl, rfl, rfl, rfl⟩ : ch' = ch ∧ f' = f ∧ i' = i ∧ r' = r := by simpa using e
        have : v' = v := by rw [hv] at hv'; simpa using hv'.symm
        subst this
        simp only [if_true]
        have h0 : HasDerivAt (fun t : ℝ => l ch' f' i' r' + t) 1 0 := by simpa using (hasDerivAt_id (0 : ℝ)).const_add (l ch' f' i' r')
        refine (((h0.const_mul v').const_add _).sub ((softplus_deriv (l ch' f' i' r')).const_mul (tot : ℝ))).congr_deriv ?_
        ring
      · simp only [e, if_false]
        exact hasDerivAt_const _ _)
  rw [sum_single4 hf hc hi hr _ hK] at a2
  exact ⟨ll, a1, a2⟩

/-- **C93** for `Bernoulli` leaves: the derivative by a raw probability is the posterior probability of the component times the value
minus its probability. -/
theorem C93_bernoulli (c : Config) (P : Params) (hP : P.Random) (l : Par) (hl : P.leaf = .bernoulli l) (M : Model)
    (h : build c P = .ok M) (N : Nat) (x : Tensor Fl) (hx : Batch P.leaf N M.num_channels M.num_features x) (n : Nat) (hn : n < N)
    (k : Nat) (hk : k < M.num_classes) :
    ∃ rho, Posterior M rho ∧ ∀ ch, ch < M.num_channels → ∀ f, f < M.num_features → ∀ i, i < M.num_leaves → ∀ r, r < M.num_repetitions →
      ∀ v, x.get [n, ch, f] = .fin v →
      ∃ ll : ℝ → ℝ,
        (∀ t, ∃ M' y, build c { P with leaf := .bernoulli (bumpPar l ch f i r t) } = .ok M' ∧ M'.forward x = .ok y ∧
          y.get [n, k] = .fin (ll t)) ∧
        HasDerivAt ll (rho f i r * (v - Real.sigmoid (l ch f i r))) 0 := by
  obtain ⟨rho, h1, h2⟩ := C93_gradient c P hP (by rw [hl]; trivial) M h N x hx n hn k hk
  refine ⟨rho, h1, fun ch hc f hf i hi r hr v hv => ?_⟩
  have hK : Known x n ch f := by unfold Known; rw [hv]; simp
  obtain ⟨ll, a1, a2⟩ := h2 (fun t => .bernoulli (bumpPar l ch f i r t))
    (fun ch' f' i' r' => if (ch', f', i', r') = (ch, f, i, r) then v - Real.sigmoid (l ch f i r) else 0)
    (by rw [bumpPar_zero, hl]) (fun t => by rw [hl]; exact .bernoulli fun _ _ e => e.elim)
    (fun ch' f' i' r' v' hv' => by
      show HasDerivAt (fun t => v' * bumpPar l ch f i r t ch' f' i' r' - Real.log (1 + Real.exp (bumpPar l ch f i r t ch' f' i' r'))) _ 0
      unfold bumpPar
      by_cases e : (ch', f', i', r') = (ch, f, i, r)
      · obtain ⟨rfl, rfl, rfl, rfl⟩ : ch' = ch ∧ f' = f ∧ i' = i ∧ r' = r := by simpa using e
        have : v' = v := by rw [hv] at hv'; simpa using hv'.symm
        subst this
        simp only [if_true]
        have h0 : HasDerivAt (fun t : ℝ => l ch' f' i' r' + t) 1 0 := by simpa using (hasDerivAt_id (0 : ℝ)).const_add (l ch' f' i' r')
        refine ((h0.const_mul v').sub (softplus_deriv (l ch' f' i' r'))).congr_deriv ?_
        ring
      · simp only [e, if_false]
        exact hasDerivAt_const _ _)
  rw [sum_single4 hf hc hi hr _ hK] at a2
  exact ⟨ll, a1, a2⟩

/-- logits of categories with `t` added at one entry and category. -/
def bumpCat (l : Nat → Nat → Nat → Nat → Nat → ℝ) (c f i r j : Nat) (t : ℝ) : Nat → Nat → Nat → Nat → Nat → ℝ :=
  fun c' f' i' r' j' => if (c', f', i', r') = (c, f, i, r) ∧ j' = j then l c' f' i' r' j' + t else l c' f' i' r' j'

theorem cat_deriv (n : Nat) (l : Nat → ℝ) {j : Nat} (hj : j < n) (v : Nat) :
    HasDerivAt (fun t => (if v = j then l v + t else l v) - Real.log (∑ a ∈ Finset.range n, Real.exp (if a = j then l a + t else l a)))
      ((if v = j then 1 else 0) - Real.exp (l j) / ∑ a ∈ Finset.range n, Real.exp (l a)) 0 := by
  have h0 : ∀ a, HasDerivAt (fun t : ℝ => if a = j then l a + t else l a) (if a = j then 1 else 0) 0 := by
    intro a
    split_ifs
    · simpa using (hasDerivAt_id (0 : ℝ)).const_add (l a)
    · exact hasDerivAt_const _ _
  have hz : ∀ a, (if a = j then l a + (0 : ℝ) else l a) = l a := fun a => by split_ifs <;> simp
  have hp : 0 < ∑ a ∈ Finset.range n, Real.exp (l a) := Finset.sum_pos (fun _ _ => Real.exp_pos _) ⟨j, Finset.mem_range.2 hj⟩
  have h1 : HasDerivAt (fun t : ℝ => ∑ a ∈ Finset.range n, Real.exp (if a = j then l a + t else l a))
      (∑ a ∈ Finset.range n, Real.exp (if a = j then l a + (0 : ℝ) else l a) * (if a = j then 1 else 0)) 0 :=
    HasDerivAt.fun_sum fun a _ => (h0 a).exp
  refine ((h0 v).sub (h1.log (by simp only [hz]; exact hp.ne'))).congr_deriv ?_
  simp only [hz]
  congr 2
  rw [Finset.sum_eq_single j]
  · simp
  · intro a _ ha; simp [ha]
  · intro hn; exact absurd (Finset.mem_range.2 hj) hn

/-- **C93** for `Categorical` leaves: the derivative by the logit of a category is the posterior probability of the component times the
indicator of the category minus its probability. -/
theorem C93_categorical (c : Config) (P : Params) (hP : P.Random) (hg : P.leaf.Good) (bins : ℤ) (l : Nat → Nat → Nat → Nat → Nat → ℝ)
    (hl : P.leaf = .categorical bins l) (M : Model)
    (h : build c P = .ok M) (N : Nat) (x : Tensor Fl) (hx : Batch P.leaf N M.num_channels M.num_features x) (n : Nat) (hn : n < N)
    (k : Nat) (hk : k < M.num_classes) :
    ∃ rho, Posterior M rho ∧ ∀ ch, ch < M.num_channels → ∀ f, f < M.num_features → ∀ i, i < M.num_leaves → ∀ r, r < M.num_repetitions →
      ∀ v : Nat, x.get [n, ch, f] = .fin v → ∀ j : Nat, (j : ℤ) < bins →
      ∃ ll : ℝ → ℝ,
        (∀ t, ∃ M' y, build c { P with leaf := .categorical bins (bumpCat l ch f i r j t) } = .ok M' ∧ M'.forward x = .ok y ∧
          y.get [n, k] = .fin (ll t)) ∧
        HasDerivAt ll (rho f i r * ((if v = j then 1 else 0) -
          Real.exp (l ch f i r j) / ∑ a ∈ Finset.range bins.toNat, Real.exp (l ch f i r a))) 0 := by
  obtain ⟨rho, h1, h2⟩ := C93_gradient c P hP hg M h N x hx n hn k hk
  refine ⟨rho, h1, fun ch hc f hf i hi r hr v hv j hj => ?_⟩
  have hK : Known x n ch f := by unfold Known; rw [hv]; simp
  have hb0 : bumpCat l ch f i r j 0 = l := by
    funext c' f' i' r' j'
    unfold bumpCat
    split_ifs <;> simp
  obtain ⟨ll, a1, a2⟩ := h2 (fun t => .categorical bins (bumpCat l ch f i r j t))
    (fun ch' f' i' r' => if (ch', f', i', r') = (ch, f, i, r) then (if v = j then 1 else 0) -
      Real.exp (l ch f i r j) / ∑ a ∈ Finset.range bins.toNat, Real.exp (l ch f i r a) else 0)
    (by rw [hb0, hl]) (fun t => by rw [hl]; exact .categorical bins fun _ _ e => e.elim)
    (fun ch' f' i' r' v' hv' => by
      show HasDerivAt (fun t => bumpCat l ch f i r j t ch' f' i' r' ⌊v'⌋₊ -
        Real.log (∑ a ∈ Finset.range bins.toNat, Real.exp (bumpCat l ch f i r j t ch' f' i' r' a))) _ 0
      unfold bumpCat
      by_cases e : (ch', f', i', r') = (ch, f, i, r)
      · obtain ⟨rfl, rfl, rfl, rfl⟩ : ch' = ch ∧ f' = f ∧ i' = i ∧ r' = r := by simpa using e
        have : v' = v := by rw [hv] at hv'; simpa using hv'.symm
        subst this
        simp only [if_true, true_and, Nat.floor_natCast]
        exact cat_deriv bins.toNat (l ch' f' i' r') (by omega) v
      · simp only [e, if_false, false_and]
        exact hasDerivAt_const _ _)
  rw [sum_single4 hf hc hi hr _ hK] at a2
  exact ⟨ll, a1, a2⟩

/-- **C93**, training with one class and `Normal` leaves: the derivative of the loss by a mean vanishes exactly if the mean is the average
of the known values of its feature, weighted with the posterior probabilities of the component. -/
theorem C93_stationary (c : Config) (P : Params) (hP : P.Random) (m lv : Par) (hl : P.leaf = .normal m lv) (M : Model)
    (h : build c P = .ok M) (hK : M.num_classes = 1) (N : Nat) (hN : 0 < N) (x : Tensor Fl)
    (hx : Batch P.leaf N M.num_channels M.num_features x) :
    ∃ rho : Nat → Nat → Nat → Nat → ℝ, (∀ n, n < N → Posterior M (rho n)) ∧
      ∀ ch, ch < M.num_channels → ∀ f, f < M.num_features → ∀ i, i < M.num_leaves → ∀ r, r < M.num_repetitions →
      ∃ loss : ℝ → ℝ,
        (∀ t, ∃ M', build c { P with leaf := .normal (bumpPar m ch f i r t) lv } = .ok M' ∧ ∀ tgt, trainLoss M' false x tgt = .ok (.fin (loss t))) ∧
        (HasDerivAt loss 0 0 ↔
          (∑ n ∈ Finset.range N, if Known x n ch f then rho n f i r * (x.get [n, ch, f]).val else 0) =
            m ch f i r * ∑ n ∈ Finset.range N, if Known x n ch f then rho n f i r else 0) := by
  have hg : P.leaf.Good := by rw [hl]; trivial
  have h0 : 0 < M.num_classes := by omega
  have key := fun (n : Nat) (hn : n < N) => C93_gradient c P hP hg M h N x hx n hn 0 h0
  choose! rho hrho hder using key
  refine ⟨rho, hrho, fun ch hc f hf i hi r hr => ?_⟩
  have hk : ∀ n, n < N → ∃ ll : ℝ → ℝ,
      (∀ t, ∃ M' y, build c { P with leaf := .normal (bumpPar m ch f i r t) lv } = .ok M' ∧ M'.forward x = .ok y ∧ y.get [n, 0] = .fin (ll t)) ∧
      HasDerivAt ll (if Known x n ch f then rho n f i r * (((x.get [n, ch, f]).val - m ch f i r) / Real.exp (1 / 2 * lv ch f i r) ^ 2) else 0) 0 := by
    intro n hn
    obtain ⟨ll, a1, a2⟩ := hder n hn (fun t => .normal (bumpPar m ch f i r t) lv)
      (fun ch' f' i' r' => if (ch', f', i', r') = (ch, f, i, r) then
        ((x.get [n, ch, f]).val - m ch f i r) / Real.exp (1 / 2 * lv ch f i r) ^ 2 else 0)
      (by rw [bumpPar_zero, hl]) (fun t => by rw [hl]; exact .normal (fun _ _ e => e.elim) fun _ _ e => e.elim)
      (fun ch' f' i' r' v' hv' => by
        show HasDerivAt (fun t => gaussLog (bumpPar m ch f i r t ch' f' i' r') (Real.exp (1 / 2 * lv ch' f' i' r')) v') _ 0
        unfold bumpPar
        by_cases e : (ch', f', i', r') = (ch, f, i, r)
        · obtain ⟨rfl, rfl, rfl, rfl⟩ : ch' = ch ∧ f' = f ∧ i' = i ∧ r' = r := by simpa using e
          simp only [if_true, hv']
          exact gaussLog_mean _ _ _ (Real.exp_pos _).ne'
        · simp only [e, if_false]
          exact hasDerivAt_const _ _)
    refine ⟨ll, a1, ?_⟩
    by_cases hKn : Known x n ch f
    · rw [sum_single4 hf hc hi hr _ hKn] at a2
      rw [if_pos hKn]
      exact a2
    · rw [if_neg hKn]
      refine a2.congr_deriv (Finset.sum_eq_zero fun f' _ => Finset.sum_eq_zero fun ch' _ => ?_)
      split_ifs with hK'
      · refine Finset.sum_eq_zero fun r' _ => Finset.sum_eq_zero fun i' _ => ?_
        rw [if_neg, mul_zero]
        intro e
        obtain ⟨rfl, rfl, rfl, rfl⟩ : ch' = ch ∧ f' = f ∧ i' = i ∧ r' = r := by simpa using e
        exact hKn hK'
      · rfl
  choose! ll hll hd using hk
  refine ⟨fun t => -(∑ n ∈ Finset.range N, ll n t) / N, fun t => ?_, ?_⟩
  · have hs : SameKind P.leaf (.normal (bumpPar m ch f i r t) lv) := by rw [hl]; exact .normal (fun _ _ e => e.elim) fun _ _ e => e.elim
    obtain ⟨M', h1, hK', hC', hF', -⟩ := other_model hP hg h hs
    have hx' : Batch (LeafSpec.normal (bumpPar m ch f i r t) lv) N M'.num_channels M'.num_features x := by rw [hC', hF']; exact hs.batch hx
    have hP' : Params.Random { P with leaf := .normal (bumpPar m ch f i r t) lv } := ⟨hP.1, hP.2⟩
    refine ⟨M', h1, fun tgt => ?_⟩
    obtain ⟨y, h2, -, h3⟩ := train_forward hP' (hs.good hg) h1 hx'
    rw [C58_train c _ hP' (hs.good hg) M' h1 N hN x hx' tgt]
    congr 4
    refine Finset.sum_congr rfl fun n hn => ?_
    have hn' := Finset.mem_range.1 hn
    obtain ⟨M'', y', e1, e2, e3⟩ := hll n hn' t
    cases e1.symm.trans h1
    cases e2.symm.trans h2
    rw [(h3 n hn' 0 (by omega)).2] at e3
    rw [rowProb_one (by rw [hK', hK])]
    simpa using e3
  · have hN0 : (N : ℝ) ≠ 0 := by exact_mod_cast hN.ne'
    have hD : HasDerivAt (fun t => -(∑ n ∈ Finset.range N, ll n t) / N) (-(∑ n ∈ Finset.range N, if Known x n ch f then
        rho n f i r * (((x.get [n, ch, f]).val - m ch f i r) / Real.exp (1 / 2 * lv ch f i r) ^ 2) else 0) / N) 0 :=
      ((HasDerivAt.fun_sum fun n hn => hd n (Finset.mem_range.1 hn)).neg).div_const _
    have hv : Real.exp (1 / 2 * lv ch f i r) ^ 2 ≠ 0 := pow_ne_zero _ (Real.exp_pos _).ne'
    have hS : (∑ n ∈ Finset.range N, if Known x n ch f then
        rho n f i r * (((x.get [n, ch, f]).val - m ch f i r) / Real.exp (1 / 2 * lv ch f i r) ^ 2) else 0) =
        ((∑ n ∈ Finset.range N, if Known x n ch f then rho n f i r * (x.get [n, ch, f]).val else 0) -
            m ch f i r * ∑ n ∈ Finset.range N, if Known x n ch f then rho n f i r else 0) / Real.exp (1 / 2 * lv ch f i r) ^ 2 := by
      rw [Finset.mul_sum, ← Finset.sum_sub_distrib, Finset.sum_div]
      refine Finset.sum_congr rfl fun n _ => ?_
      split_ifs
      · ring
      · simp
    rw [hS] at hD
    constructor
    · intro h0
      have := hD.unique h0
      rw [div_eq_zero_iff, neg_eq_zero, div_eq_zero_iff] at this
      rcases this with (e | e) | e
      · linarith
      · exact absurd e hv
      · exact absurd e hN0
    · intro e
      refine hD.congr_deriv ?_
      rw [e, sub_self, zero_div, neg_zero, zero_div]

/-- a case that meets the hypotheses: three classes, two repetitions, a missing value. -/
example : ∃ (M : Model) (x : Tensor Fl), build (exConfig "einsum" "top-down") (exParams exLeaf) = .ok M ∧ (exParams exLeaf).Random ∧
    (exParams exLeaf).leaf.Good ∧ (∃ m lv, (exParams exLeaf).leaf = .normal m lv) ∧ 1 < M.num_classes ∧ 1 < M.num_leaves ∧
    Batch (exParams exLeaf).leaf 2 M.num_channels M.num_features x ∧ x.get [1, 0, 2] = .nan ∧ x.get [0, 1, 3] = .fin 4 := by
  obtain ⟨M, h⟩ := exConfig_normal (l := "einsum") (s := "top-down") (Or.inl ⟨Or.inr (Or.inr rfl), rfl⟩)
  obtain ⟨hs, -⟩ := build_WF (exParams_random _) h
  have hC : M.num_channels = 2 := hs.channels
  have hF : M.num_features = 5 := hs.features
  have hK : M.num_classes = 3 := hs.classes
  have hI : M.num_leaves = 4 := hs.leaves
  refine ⟨M, ⟨[2, 2, 5], fun i => if i = [1, 0, 2] then .nan else .fin i.sum⟩, h, exParams_random _, trivial, ⟨_, _, rfl⟩, by omega,
    by omega, ?_, by simp, by norm_num⟩
  rw [hC, hF]
  refine ⟨rfl, fun n _ c _ f _ => ?_⟩
  dsimp only
  split_ifs
  · exact Or.inl rfl
  · exact Or.inr ⟨_, rfl, trivial⟩

/-- the other leaf classes, with one known and one missing value. -/
example : ∀ leaf ∈ [LeafSpec.binomial 7 fun _ _ i _ => i, .bernoulli fun _ _ i _ => i, .categorical 4 fun _ _ i _ j => i * j],
    ∃ M x, build (exConfig "linsum" "top-down") (exParams leaf) = .ok M ∧ (exParams leaf).Random ∧ (exParams leaf).leaf.Good ∧
      Batch (exParams leaf).leaf 2 M.num_channels M.num_features x ∧ x.get [1, 0, 2] = .nan ∧ x.get [0, 1, 3] = .fin (1 : Nat) := by
  have key : ∀ leaf : LeafSpec, leaf.Good → leaf.InSupport (1 : Nat) → (∃ B, leaf.build none (exConfig "linsum" "top-down").leafDims = .ok B) →
      ∃ M x, build (exConfig "linsum" "top-down") (exParams leaf) = .ok M ∧ (exParams leaf).Random ∧ (exParams leaf).leaf.Good ∧
        Batch (exParams leaf).leaf 2 M.num_channels M.num_features x ∧ x.get [1, 0, 2] = .nan ∧ x.get [0, 1, 3] = .fin (1 : Nat) := by
    intro leaf hg hv hB
    obtain ⟨M, h⟩ := exConfig_builds (l := "linsum") (s := "top-down") (Or.inl ⟨Or.inl rfl, rfl⟩) hB
    obtain ⟨hs, -⟩ := build_WF (exParams_random _) h
    have hC : M.num_channels = 2 := hs.channels
    have hF : M.num_features = 5 := hs.features
    refine ⟨M, ⟨[2, 2, 5], fun i => if i = [1, 0, 2] then .nan else .fin (1 : Nat)⟩, h, exParams_random _, hg, ?_, by simp, by simp⟩
    rw [hC, hF]
    refine ⟨rfl, fun n _ c _ f _ => ?_⟩
    dsimp only
    split_ifs
    · exact Or.inl rfl
    · exact Or.inr ⟨_, rfl, hv⟩
  intro leaf hl
  simp only [List.mem_cons, List.not_mem_nil, or_false] at hl
  rcases hl with rfl | rfl | rfl
  · exact key _ trivial ⟨1, by norm_num, rfl⟩ (by
      unfold LeafSpec.build
      simp
      exact ⟨_, (checkInt_iff 7 1 one_ne_zero _ _).2 ⟨by norm_num, rfl⟩⟩)
  · exact key _ trivial (Or.inr (by norm_num)) ⟨_, by simp [LeafSpec.build]; rfl⟩
  · exact key _ (by simp [LeafSpec.Good]) ⟨1, by norm_num, rfl⟩ ⟨_, by simp [LeafSpec.build, require]; rfl⟩

end Einet.Props
