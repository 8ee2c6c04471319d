import Verif.PropsTrain
import Mathlib.Analysis.SpecialFunctions.Log.Deriv
import Mathlib.Analysis.SpecialFunctions.ExpDeriv
import Mathlib.Analysis.Calculus.ContDiff.Basic
import Mathlib.Analysis.Calculus.ContDiff.Operations

/-!
# Smoothness of the forward pass in the parameters

The parameters depend on a point of a normed space; the structure of the model does not.
-/

open Classical MeasureTheory
open scoped ENNReal
noncomputable section
namespace Einet
open Tensor Props

variable {E : Type} [NormedAddCommGroup E] [NormedSpace ℝ E] {m : WithTop ℕ∞}

/-! ### Smooth families of nonnegative numbers -/

/-- a nonnegative number that depends smoothly on the point. -/
def PSm (m : WithTop ℕ∞) (p : E → ℝ≥0∞) : Prop := ∃ g : E → ℝ, ContDiff ℝ m g ∧ ∀ e, 0 ≤ g e ∧ p e = ENNReal.ofReal (g e)

theorem PSm.one : PSm m fun _ : E => (1 : ℝ≥0∞) := ⟨fun _ => 1, contDiff_const, fun _ => ⟨zero_le_one, by simp⟩⟩

theorem PSm.mul {p q : E → ℝ≥0∞} (hp : PSm m p) (hq : PSm m q) : PSm m fun e => p e * q e := by
  obtain ⟨g, hg, h1⟩ := hp
  obtain ⟨g', hg', h2⟩ := hq
  exact ⟨fun e => g e * g' e, hg.mul hg', fun e => ⟨mul_nonneg (h1 e).1 (h2 e).1, by
    dsimp only
    rw [(h1 e).2, (h2 e).2, ENNReal.ofReal_mul (h1 e).1]⟩⟩

theorem PSm.add {p q : E → ℝ≥0∞} (hp : PSm m p) (hq : PSm m q) : PSm m fun e => p e + q e := by
  obtain ⟨g, hg, h1⟩ := hp
  obtain ⟨g', hg', h2⟩ := hq
  exact ⟨fun e => g e + g' e, hg.add hg', fun e => ⟨add_nonneg (h1 e).1 (h2 e).1, by
    dsimp only
    rw [(h1 e).2, (h2 e).2, ENNReal.ofReal_add (h1 e).1 (h2 e).1]⟩⟩

theorem PSm.sum {n : Nat} {p : Nat → E → ℝ≥0∞} (hp : ∀ i, i < n → PSm m (p i)) : PSm m fun e => ∑ i ∈ Finset.range n, p i e := by
  induction n with
  | zero => exact ⟨fun _ => 0, contDiff_const, fun _ => ⟨le_rfl, by simp⟩⟩
  | succ n ih =>
    simp only [Finset.sum_range_succ]
    exact (ih fun i hi => hp i (by omega)).add (hp n (by omega))

theorem PSm.prod {n : Nat} {p : Nat → E → ℝ≥0∞} (hp : ∀ i, i < n → PSm m (p i)) : PSm m fun e => ∏ i ∈ Finset.range n, p i e := by
  induction n with
  | zero => simpa using PSm.one
  | succ n ih =>
    simp only [Finset.prod_range_succ]
    exact (ih fun i hi => hp i (by omega)).mul (hp n (by omega))

/-- the exponential of a smooth number. -/
theorem PSm.exp {v : E → ℝ} (hv : ContDiff ℝ m v) : PSm m fun e => toP (.fin (v e)) :=
  ⟨fun e => Real.exp (v e), hv.exp, fun _ => ⟨(Real.exp_pos _).le, rfl⟩⟩

theorem contDiff_rlsm {n : Nat} {w : E → Nat → ℝ} (hw : ∀ k, k < n → ContDiff ℝ m fun e => w e k) {k : Nat} (hk : k < n) :
    ContDiff ℝ m fun e => Fl.rlsm n (w e) k := by
  unfold Fl.rlsm
  refine (hw k hk).sub (ContDiff.log (ContDiff.sum fun i hi => (hw i (by simpa using hi)).exp) fun e => ?_)
  exact (Finset.sum_pos (fun _ _ => Real.exp_pos _) ⟨k, by simpa using hk⟩).ne'

theorem PSm.weight {n : Nat} {w : E → Nat → ℝ} (hw : ∀ k, k < n → ContDiff ℝ m fun e => w e k) {k : Nat} (hk : k < n) :
    PSm m fun e => toP (Fl.logSoftmax n (fun k => Fl.fin (w e k) / Fl.fin 1) k) := by
  have h : ∀ e, Fl.logSoftmax n (fun k => Fl.fin (w e k) / Fl.fin 1) k = .fin (Fl.rlsm n (fun k => w e k / 1) k) :=
    fun e => Fl.logSoftmax_eq_fin (fun i _ => Fl.fin_div _ one_ne_zero) hk
  simp only [h]
  exact PSm.exp (contDiff_rlsm (fun k hk => by simpa using hw k hk) hk)

/-! ### Layers -/

/-- logits that depend smoothly on the point. -/
def SmW (m : WithTop ℕ∞) (w : E → List Nat → ℝ) : Prop := ∀ i, ContDiff ℝ m fun e => w e i

inductive LayerFam (m : WithTop ℕ∞) : (E → Layer) → Prop
  | sum (F S O R : Nat) {w : E → List Nat → ℝ} : SmW m w → LayerFam m fun e => .sum (mkSumL F S O R SumLayer.weightShape (w e))
  | linsum (F S O R : Nat) {w : E → List Nat → ℝ} : SmW m w → LayerFam m fun e => .linsum (mkSumL F S O R LinsumLayer.weightShape (w e))
  | linsum2 (F S O R : Nat) {w : E → List Nat → ℝ} : SmW m w → LayerFam m fun e => .linsum2 (mkSumL F S O R LinsumLayer2.weightShape (w e))
  | einsum (F S O R : Nat) {w : E → List Nat → ℝ} : SmW m w → LayerFam m fun e => .einsum (mkSumL F S O R EinsumLayer.weightShape (w e))
  | root (F R : Nat) : LayerFam m fun _ => .rootProduct F R

inductive LayersFam (m : WithTop ℕ∞) : (E → List Layer) → Prop
  | nil : LayersFam m fun _ => []
  | cons {l : E → Layer} {ls : E → List Layer} : LayerFam m l → LayersFam m ls → LayersFam m fun e => l e :: ls e

theorem LayersFam.append {a b : E → List Layer} (ha : LayersFam m a) (hb : LayersFam m b) : LayersFam m fun e => a e ++ b e := by
  induction ha with
  | nil => exact hb
  | cons h _ ih => exact .cons h ih

theorem LayerFam.out_const {l : E → Layer} (h : LayerFam m l) (e e' : E) : (l e).numFeaturesOut = (l e').numFeaturesOut := by
  cases h <;> rfl

theorem PSm.right {F : Nat} {x : E → PRow} (hx : ∀ d k r, PSm m fun e => x e d k r) (d k r : Nat) :
    PSm m fun e => rightP F (x e) d k r := by
  unfold rightP
  split_ifs
  · exact hx _ _ _
  · exact PSm.one

theorem LayerFam.den {l : E → Layer} (h : LayerFam m l) {x : E → PRow} (hx : ∀ d k r, PSm m fun e => x e d k r) (d s r : Nat) :
    PSm m fun e => (l e).den 1 (x e) d s r := by
  cases h with
  | sum F S O R hw =>
    exact PSm.sum fun k hk => (PSm.weight (fun k _ => hw _) hk).mul (hx _ _ _)
  | linsum F S O R hw =>
    exact PSm.sum fun k hk => (PSm.weight (fun k _ => hw _) hk).mul ((hx _ _ _).mul (PSm.right hx _ _ _))
  | @linsum2 F S O R w hw =>
    have hy : ∀ d s r, PSm m fun e => ∑ k ∈ Finset.range S, toP ((mkSumL F S O R LinsumLayer2.weightShape (w e)).lw 1 d k s r) * x e d k r :=
      fun d s r => PSm.sum fun k hk => (PSm.weight (fun k _ => hw _) hk).mul (hx _ _ _)
    exact (hy _ _ _).mul (PSm.right (x := fun e d s r => ∑ k ∈ Finset.range S,
      toP ((mkSumL F S O R LinsumLayer2.weightShape (w e)).lw 1 d k s r) * x e d k r) hy _ _ _)
  | @einsum F S O R w hw =>
    exact PSm.sum (n := S ^ 2) fun k hk => (PSm.weight (n := S ^ 2) (w := fun e k => w e [d, s, r, k / S, k % S])
      (fun k _ => hw _) hk).mul ((hx (2 * d) (k / S) r).mul (hx (2 * d + 1) (k % S) r))
  | root F R => exact PSm.prod fun j _ => hx _ _ _

theorem LayersFam.den {ls : E → List Layer} (h : LayersFam m ls) {x : E → PRow} (hx : ∀ d k r, PSm m fun e => x e d k r) (d s r : Nat) :
    PSm m fun e => denL 1 (ls e) (x e) d s r := by
  induction h generalizing x with
  | nil => exact hx d s r
  | cons hl _ ih => exact ih (x := fun e => _) (hl.den hx)

/-! ### Construction -/

/-- the parameters depend smoothly on the point, the random choices of the constructor do not depend on it. -/
structure SmoothParams (m : WithTop ℕ∞) (P : E → Params) : Prop where
  shuffle : ∀ e e', (P e).shuffle = (P e').shuffle
  randperm : ∀ e e', (P e).randperm = (P e').randperm
  logits : ∀ i, SmW m fun e => (P e).logits i
  rootLogits : SmW m fun e => (P e).rootLogits
  mixLogits : SmW m fun e => (P e).mixLogits

theorem mkLayer_fam {c : Config} {F S O : Nat} {w : E → List Nat → ℝ} (hw : SmW m w) {l : E → Layer}
    (h : ∀ e, mkLayer c F S O (w e) = .ok (l e)) : LayerFam m l := by
  unfold mkLayer at h
  by_cases h1 : c.layer_type = "einsum"
  · simp only [if_pos h1] at h
    have : l = fun e => .einsum (mkSumL F S O c.num_repetitions.toNat EinsumLayer.weightShape (w e)) := by
      funext e
      obtain ⟨_, _, h2⟩ := bind_ok (h e)
      exact (Except.ok.inj h2).symm
    rw [this]
    exact .einsum _ _ _ _ hw
  · simp only [if_neg h1] at h
    by_cases h2 : c.layer_type = "linsum"
    · simp only [if_pos h2] at h
      have : l = fun e => .linsum (mkSumL F S O c.num_repetitions.toNat LinsumLayer.weightShape (w e)) := by
        funext e
        obtain ⟨_, _, h2⟩ := bind_ok (h e)
        exact (Except.ok.inj h2).symm
      rw [this]
      exact .linsum _ _ _ _ hw
    · simp only [if_neg h2] at h
      by_cases h3 : c.layer_type = "linsum2"
      · simp only [if_pos h3] at h
        have : l = fun e => .linsum2 (mkSumL F S O c.num_repetitions.toNat LinsumLayer2.weightShape (w e)) := by
          funext e
          obtain ⟨_, _, h2⟩ := bind_ok (h e)
          exact (Except.ok.inj h2).symm
        rw [this]
        exact .linsum2 _ _ _ _ hw
      · simp only [if_neg h3] at h
        exact absurd (h 0) (by simp)

theorem mkSum_fam {F S O R : ℤ} {d : Option Fl} {w : E → List Nat → ℝ} (hw : SmW m w) {L : E → SumL}
    (h : ∀ e, mkSum F S O R d (w e) = .ok (L e)) : LayerFam m fun e => .sum (L e) := by
  have : L = fun e => mkSumL F.toNat S.toNat O.toNat R.toNat SumLayer.weightShape (w e) := by
    funext e
    have := h e
    unfold mkSum at this
    obtain ⟨_, _, h2⟩ := bind_ok this
    exact (Except.ok.inj h2).symm
  rw [this]
  exact .sum _ _ _ _ hw

theorem topDownLayers_fam {c : Config} {P : E → Params} (hs : SmoothParams m P) {n : Nat} {ls : E → List Layer}
    (h : ∀ e, topDownLayers c (P e) n = .ok (ls e)) : LayersFam m ls := by
  induction n generalizing ls with
  | zero =>
    have : ls = fun _ => [] := by
      funext e
      exact (Except.ok.inj (h e)).symm
    rw [this]; exact .nil
  | succ n ih =>
    unfold topDownLayers at h
    have h' : ∀ e, ∃ above l, topDownLayers c (P e) n = .ok above ∧
        mkLayer c (2 ^ (n + 1)) (if ((n + 1 : ℕ) : ℤ) < c.depth then c.num_sums else c.num_leaves).toNat
          (if n + 1 = 1 then c.num_classes else c.num_sums).toNat ((P e).logits (n + 1)) = .ok l ∧ l :: above = ls e := by
      intro e
      obtain ⟨above, ha, h2⟩ := bind_ok (h e)
      obtain ⟨l, hl, h3⟩ := bind_ok h2
      exact ⟨above, l, ha, hl, Except.ok.inj h3⟩
    choose above l ha hl he using h'
    have : ls = fun e => l e :: above e := by funext e; exact (he e).symm
    rw [this]
    exact .cons (mkLayer_fam (hs.logits _) hl) (ih ha)

theorem bottomUpLayers_fam {c : Config} {P : E → Params} (hs : SmoothParams m P) {n : Nat} {ls : E → List Layer} {f : E → Nat}
    (h : ∀ e, bottomUpLayers c (P e) n = .ok (ls e, f e)) : LayersFam m ls ∧ ∀ e e', f e = f e' := by
  induction n generalizing ls f with
  | zero =>
    have h1 : ls = fun _ => [] := by
      funext e
      exact (Prod.mk.inj (Except.ok.inj (h e))).1.symm
    have h2 : ∀ e, f e = c.num_features.toNat := fun e => (Prod.mk.inj (Except.ok.inj (h e))).2.symm
    rw [h1]; exact ⟨.nil, fun e e' => by rw [h2, h2]⟩
  | succ n ih =>
    unfold bottomUpLayers at h
    have h' : ∀ e, ∃ below g l, bottomUpLayers c (P e) n = .ok (below, g) ∧
        mkLayer c g (if n = 0 then c.num_leaves else c.num_sums).toNat c.num_sums.toNat ((P e).logits n) = .ok l ∧
        below ++ [l] = ls e ∧ l.numFeaturesOut = f e := by
      intro e
      obtain ⟨⟨below, g⟩, ha, h2⟩ := bind_ok (h e)
      obtain ⟨l, hl, h3⟩ := bind_ok h2
      exact ⟨below, g, l, ha, hl, (Prod.mk.inj (Except.ok.inj h3)).1, (Prod.mk.inj (Except.ok.inj h3)).2⟩
    choose below g l ha hl he hf using h'
    obtain ⟨i1, i2⟩ := ih ha
    have hl' : ∀ e, mkLayer c (g 0) (if n = 0 then c.num_leaves else c.num_sums).toNat c.num_sums.toNat ((P e).logits n) = .ok (l e) := by
      intro e; rw [i2 0 e]; exact hl e
    have hl := mkLayer_fam (hs.logits _) hl'
    have : ls = fun e => below e ++ [l e] := by funext e; exact (he e).symm
    rw [this]
    exact ⟨i1.append (.cons hl .nil), fun e e' => by rw [← hf, ← hf, hl.out_const e e']⟩

/-- what of the constructed models depends on the point. -/
theorem build_fam {c : Config} {P : E → Params} (hP : ∀ e, (P e).Random) (hs : SmoothParams m P) {M : E → Model}
    (h : ∀ e, build c (P e) = .ok (M e)) :
    LayersFam m (fun e => (M e).layers) ∧
    (∀ e, (M e).mixing = mkSumL 1 c.num_repetitions.toNat c.num_classes.toNat 1 MixingLayer.weightShape (P e).mixLogits) ∧
    ∀ e e', (M e).grpF (buildGroups c (P e)) = (M e').grpF (buildGroups c (P e')) := by
  have hroot : ∀ e p, buildRoots c (P e) = .ok p →
      p.1 = mkSumL 1 c.num_repetitions.toNat c.num_classes.toNat 1 MixingLayer.weightShape (P e).mixLogits := by
    intro e p hp
    unfold buildRoots at hp
    dsimp only at hp
    split_ifs at hp <;>
    · obtain ⟨_, _, hp⟩ := bind_ok hp
      obtain ⟨_, _, hp⟩ := bind_ok hp
      simp only [Res.pure_eq, Except.ok.injEq] at hp
      rw [← hp]
  have hbg : ∀ e e', buildGroups c (P e) = buildGroups c (P e') := by
    intro e e'
    unfold buildGroups featureGroup
    rw [hs.shuffle e e', hs.randperm e e']
  have hd : ∀ e, (M e).leaf.base.num_features = c.num_features.toNat ∧ (M e).leaf.base.num_repetitions = c.num_repetitions.toNat := by
    intro e
    obtain ⟨hz, hw, _⟩ := build_WF (hP e) (h e)
    exact ⟨by rw [hw.front.features, hz.features], by rw [hw.front.reps, hz.reps]⟩
  by_cases h1 : c.structure' = "top-down"
  · have h' : ∀ e, ∃ layers O B mix cr, topDownStructure c (P e) = .ok (layers, O) ∧ (P e).leaf.build c.cardinality c.leafDims = .ok B ∧
        buildRoots c (P e) = .ok (mix, cr) ∧ (M e).layers = layers ∧ (M e).mixing = mix ∧ (M e).leaf = buildInput (P e) B O := by
      intro e
      have h2 := h e
      unfold build at h2
      obtain ⟨_, _, h2⟩ := bind_ok h2
      rw [if_pos h1] at h2
      unfold buildTopDown at h2
      obtain ⟨⟨layers, O⟩, e1, h2⟩ := bind_ok h2
      obtain ⟨B, e2, h2⟩ := bind_ok h2
      obtain ⟨⟨mix, cr⟩, e3, h2⟩ := bind_ok h2
      have h2 := Except.ok.inj h2
      exact ⟨layers, O, B, mix, cr, e1, e2, e3, by rw [← h2], by rw [← h2], by rw [← h2]⟩
    choose layers O B mix cr e1 e2 e3 e4 e5 e6 using h'
    have hB : ∀ e, (B e).num_features = c.num_features.toNat ∧ (B e).num_repetitions = c.num_repetitions.toNat := by
      intro e
      have := hd e
      rwa [e6, buildInput_base] at this
    refine ⟨?_, fun e => by rw [e5]; exact hroot e _ (e3 e), ?_⟩
    · have : (fun e => (M e).layers) = layers := by funext e; exact e4 e
      rw [this]
      unfold topDownStructure at e1
      by_cases h0 : c.depth = 0
      · simp only [if_pos h0] at e1
        have h' : ∀ e, ∃ L, mkSum 1 c.num_leaves c.num_classes c.num_repetitions c.dropout ((P e).logits 0) = .ok L ∧ [.sum L] = layers e := by
          intro e
          obtain ⟨L, hL, h3⟩ := bind_ok (e1 e)
          exact ⟨L, hL, (Prod.mk.inj (Except.ok.inj h3)).1⟩
        choose L hL hl using h'
        have : layers = fun e => [.sum (L e)] := by funext e; exact (hl e).symm
        rw [this]
        exact .cons (mkSum_fam (hs.logits 0) hL) .nil
      · simp only [if_neg h0] at e1
        by_cases hn : c.depth < 0
        · simp only [if_pos hn] at e1
          exact absurd (e1 0) (by simp)
        · simp only [if_neg hn] at e1
          refine topDownLayers_fam (c := c) hs (n := c.depth.toNat) fun e => ?_
          obtain ⟨ls, hl, h3⟩ := bind_ok (e1 e)
          rw [hl, (Prod.mk.inj (Except.ok.inj h3)).1]
    · have hO : ∀ e, O e = O 0 := by
        intro e
        have a := e1 e
        have b := e1 0
        unfold topDownStructure at a b
        split_ifs at a b
        · obtain ⟨_, _, h3⟩ := bind_ok a
          obtain ⟨_, _, h4⟩ := bind_ok b
          rw [← (Prod.mk.inj (Except.ok.inj h3)).2, ← (Prod.mk.inj (Except.ok.inj h4)).2]
        · obtain ⟨_, _, h3⟩ := bind_ok a
          obtain ⟨_, _, h4⟩ := bind_ok b
          rw [← (Prod.mk.inj (Except.ok.inj h3)).2, ← (Prod.mk.inj (Except.ok.inj h4)).2]
      intro e e'
      funext r f
      unfold Model.grpF
      rw [e6, e6, hbg e e', hO e, hO e']
      unfold buildInput
      rw [(hB e).2, (hB e').2]
      split_ifs
      · simp only [FactSimple.build, FactSimple.cardinality, (hB e).1, (hB e').1, hs.randperm e e']
      · simp only [FactLeaf.build, (hB e).1, (hB e').1]
  · have h' : ∀ e, ∃ layers B mix cr, bottomUpStructure c (P e) = .ok layers ∧ buildRoots c (P e) = .ok (mix, cr) ∧
        (M e).layers = layers ∧ (M e).mixing = mix ∧ (M e).leaf = .direct B ∧
        (M e).permutation = some ((List.range c.num_repetitions.toNat).map fun r => (P e).randperm r c.num_features.toNat,
          ((List.range c.num_repetitions.toNat).map fun r => (P e).randperm r c.num_features.toNat).map argsort) := by
      intro e
      have h2 := h e
      unfold build at h2
      obtain ⟨_, _, h2⟩ := bind_ok h2
      rw [if_neg h1] at h2
      split_ifs at h2
      unfold buildBottomUp at h2
      obtain ⟨layers, e1, h2⟩ := bind_ok h2
      obtain ⟨B, e2, h2⟩ := bind_ok h2
      obtain ⟨⟨mix, cr⟩, e3, h2⟩ := bind_ok h2
      have h2 := Except.ok.inj h2
      exact ⟨layers, B, mix, cr, e1, e3, by rw [← h2], by rw [← h2], by rw [← h2], by rw [← h2]⟩
    choose layers B mix cr e1 e3 e4 e5 e6 e7 using h'
    refine ⟨?_, fun e => by rw [e5]; exact hroot e _ (e3 e), ?_⟩
    · have : (fun e => (M e).layers) = layers := by funext e; exact e4 e
      rw [this]
      unfold bottomUpStructure at e1
      by_cases h0 : c.depth ≤ 0
      · simp only [if_pos h0] at e1
        exact absurd (e1 0) (by simp)
      · simp only [if_neg h0] at e1
        have h' : ∀ e, ∃ ls f root, bottomUpLayers c (P e) c.depth.toNat = .ok (ls, f) ∧
            mkSum f c.num_sums c.num_classes c.num_repetitions (some (.fin 0)) (P e).rootLogits = .ok root ∧
            ls ++ [.sum root, .rootProduct f c.num_repetitions.toNat] = layers e := by
          intro e
          obtain ⟨⟨ls, f⟩, hl, h3⟩ := bind_ok (e1 e)
          obtain ⟨root, hr, h4⟩ := bind_ok h3
          exact ⟨ls, f, root, hl, hr, Except.ok.inj h4⟩
        choose ls f root b1 b2 b3 using h'
        obtain ⟨i1, i2⟩ := bottomUpLayers_fam hs b1
        have b2' : ∀ e, mkSum (f 0) c.num_sums c.num_classes c.num_repetitions (some (.fin 0)) (P e).rootLogits = .ok (root e) := by
          intro e; rw [i2 0 e]; exact b2 e
        have : layers = fun e => ls e ++ [.sum (root e), .rootProduct (f 0) c.num_repetitions.toNat] := by
          funext e; rw [← b3 e, i2 0 e]
        rw [this]
        exact i1.append (.cons (mkSum_fam hs.rootLogits b2') (.cons (.root _ _) .nil))
    · intro e e'
      funext r f
      unfold Model.grpF Model.permInvAt
      rw [e6, e6, e7, e7, hs.randperm e e']

end Einet
