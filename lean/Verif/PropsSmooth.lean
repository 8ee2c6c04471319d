import Verif.Smooth
import Verif.PropsProper
import Verif.PropsMax
import Mathlib.Analysis.SpecialFunctions.Sigmoid

/-!
# C88: log-likelihoods and training losses are smooth functions of parameters and inputs
-/

open Classical MeasureTheory
open scoped ENNReal
noncomputable section
namespace Einet.Props
open Tensor Einet

variable {E : Type} [NormedAddCommGroup E] [NormedSpace ℝ E] {m : WithTop ℕ∞}

/-! ### Specification -/

/-- a parameter tensor that depends smoothly on the point. -/
def SmPar (m : WithTop ℕ∞) (p : E → Par) : Prop := ∀ c f i r, ContDiff ℝ m fun e => p e c f i r

/-- one leaf class with fixed keyword arguments, all its parameters depend smoothly on the point. -/
inductive LeafFam (m : WithTop ℕ∞) : (E → LeafSpec) → Prop
  | normal {a b : E → Par} : SmPar m a → SmPar m b → LeafFam m fun e => .normal (a e) (b e)
  | ratNormal (lo hi : ℝ) (mlo mhi : Option ℝ) {a b : E → Par} : SmPar m a → SmPar m b →
      LeafFam m fun e => .ratNormal lo hi mlo mhi (a e) (b e)
  | binomial (n : ℤ) {a : E → Par} : SmPar m a → LeafFam m fun e => .binomial n (a e)
  | bernoulli {a : E → Par} : SmPar m a → LeafFam m fun e => .bernoulli (a e)
  | categorical (n : ℤ) {a : E → Nat → Nat → Nat → Nat → Nat → ℝ} : (∀ c f i r k, ContDiff ℝ m fun e => a e c f i r k) →
      LeafFam m fun e => .categorical n (a e)

/-- leaves with a density on the real line. -/
def Continuous' : LeafSpec → Prop
  | .normal _ _ => True
  | .ratNormal _ _ _ _ _ _ => True
  | _ => False

/-- an entry of the data: fixed (an observation or NaN), or, for leaves with a density on the real line, a number that
depends smoothly on the point. -/
def SmEntry (m : WithTop ℕ∞) (s : E → LeafSpec) (x : E → Fl) : Prop :=
  (∃ a, ∀ e, x e = a) ∨ (∀ e, Continuous' (s e)) ∧ ∃ v : E → ℝ, ContDiff ℝ m v ∧ ∀ e, x e = .fin (v e)

/-- data, entry by entry. -/
def SmData (m : WithTop ℕ∞) (s : E → LeafSpec) (x : E → Tensor Fl) : Prop := ∀ i, SmEntry m s fun e => (x e).get i

/-! ### Lemmas -/

theorem toP_log {p : ℝ} (hp : 0 < p) : toP (Fl.log (.fin p)) = ENNReal.ofReal p := by
  rw [Fl.log_fin hp, toP_fin, Real.exp_log hp]

theorem contDiff_sigmoid' {v : E → ℝ} (hv : ContDiff ℝ m v) : ContDiff ℝ m fun e => Real.sigmoid (v e) :=
  (contDiff_sigmoid.of_le le_top).comp hv

theorem gauss_sm {mu sigma v : E → ℝ} (h1 : ContDiff ℝ m mu) (h2 : ContDiff ℝ m sigma) (h3 : ContDiff ℝ m v) (hs : ∀ e, 0 < sigma e) :
    PSm m fun e => toP (normalLogProb (mu e) (sigma e) (.fin (v e))) := by
  refine PSm.exp (v := fun e => -((v e - mu e) ^ 2) / (2 * sigma e ^ 2) - Real.log (sigma e) - Real.log √(2 * Real.pi)) ?_
  refine ((ContDiff.div (((h3.sub h1).pow 2).neg) (contDiff_const.mul (h2.pow 2)) fun e => ?_).sub
    (h2.log fun e => (hs e).ne')).sub contDiff_const
  have := hs e
  positivity

theorem gaussLeaf_sm {d : LeafDims} {mu sigma : E → Par} (h1 : SmPar m mu) (h2 : SmPar m sigma) (hs : ∀ e c f i r, 0 < sigma e c f i r)
    {s : E → LeafSpec} {x : E → Fl} (hx : SmEntry m s x) (hv : ∀ e, x e = .nan ∨ ∃ v : ℝ, x e = .fin v) (c f i r : Nat) :
    PSm m fun e => if x e = .nan then 1 else toP ((gaussLeaf d (mu e) (sigma e)).logProb c f i r (x e)) := by
  rcases hx with ⟨a, ha⟩ | ⟨-, v, hv', ha⟩
  · simp only [ha] at hv ⊢
    rcases hv 0 with e | ⟨w, e⟩
    · simp only [e, if_true]; exact PSm.one
    · simp only [e, reduceCtorEq, if_false]
      exact gauss_sm (h1 c f i r) (h2 c f i r) contDiff_const fun e => hs e c f i r
  · simp only [ha, reduceCtorEq, if_false]
    exact gauss_sm (h1 c f i r) (h2 c f i r) hv' fun e => hs e c f i r

theorem massLeaf_sm {d : LeafDims} {K : Nat} {pmf : E → Nat → Nat → Nat → Nat → Nat → ℝ}
    {x : Fl} (hx : x = .nan ∨ ∃ v : ℝ, x = .fin v ∧ ∃ k : Nat, k < K ∧ v = k) (c f i r : Nat)
    (h1 : ∀ k, k < K → ContDiff ℝ m fun e => pmf e c f i r k) (h2 : ∀ e k, k < K → 0 < pmf e c f i r k)
    (t : E → ℝ → Nat → Nat → Nat → Nat → Nat → ℝ) (mo : E → Nat → Nat → Nat → Nat → Nat) (b : Bool) :
    PSm m fun e => if x = .nan then 1 else toP ((massLeaf d K (pmf e) (t e) (mo e) b).logProb c f i r x) := by
  rcases hx with e | ⟨v, e, k, hk, rfl⟩
  · simp only [e, if_true]; exact PSm.one
  · subst e
    simp only [reduceCtorEq, if_false]
    have : ∀ e, toP ((massLeaf d K (pmf e) (t e) (mo e) b).logProb c f i r (.fin k)) = ENNReal.ofReal (pmf e c f i r k) := by
      intro e
      show toP (Fl.log (.fin (pmf e c f i r ⌊(Fl.fin (k : ℝ)).val⌋₊))) = _
      have : ⌊(Fl.fin (k : ℝ)).val⌋₊ = k := Nat.floor_natCast k
      rw [this, toP_log (h2 e k hk)]
    simp only [this]
    exact ⟨_, h1 k hk, fun e => ⟨(h2 e k hk).le, rfl⟩⟩

theorem rat_sm {lo hi : ℝ} {mlo mhi : Option ℝ} {a b : E → ℝ} (ha : ContDiff ℝ m a) (hb : ContDiff ℝ m b) (h0 : 0 ≤ lo) :
    (ContDiff ℝ m fun e => (match ratProject lo hi mlo mhi (a e) (b e) with | .ok p => p | .error _ => ((0, 1) : ℝ × ℝ)).1) ∧
    (ContDiff ℝ m fun e => (match ratProject lo hi mlo mhi (a e) (b e) with | .ok p => p | .error _ => ((0, 1) : ℝ × ℝ)).2) ∧
    ∀ e, 0 < (match ratProject lo hi mlo mhi (a e) (b e) with | .ok p => p | .error _ => ((0, 1) : ℝ × ℝ)).2 := by
  have hs : ContDiff ℝ m fun e => if lo < hi then lo + (hi - lo) * Real.sigmoid (b e) else 1 := by
    split_ifs
    · exact contDiff_const.add (contDiff_const.mul (contDiff_sigmoid' hb))
    · exact contDiff_const
  have hp : ∀ e, 0 < if lo < hi then lo + (hi - lo) * Real.sigmoid (b e) else 1 := by
    intro e
    split_ifs with h
    · have := mul_pos (sub_pos.2 h) (Real.sigmoid_pos (b e))
      linarith
    · exact one_pos
  unfold ratProject
  rcases mhi with _ | u
  · exact ⟨ha, hs, hp⟩
  · by_cases hu : u = 0
    · simp only [if_pos hu]
      exact ⟨ha, hs, hp⟩
    · simp only [if_neg hu]
      rcases mlo with _ | l
      · exact ⟨contDiff_const, contDiff_const, fun _ => one_pos⟩
      · exact ⟨((contDiff_sigmoid' ha).mul contDiff_const).add contDiff_const, hs, hp⟩

theorem leaf_sm {s : E → LeafSpec} (hs : LeafFam m s) (hg : ∀ e, (s e).Good) {card : Option ℤ} {d : LeafDims} {B : E → BaseLeaf}
    (h : ∀ e, (s e).build card d = .ok (B e)) {x : E → Fl} (hx : SmEntry m s x)
    (hv : ∀ e, x e = .nan ∨ ∃ v : ℝ, x e = .fin v ∧ (s e).InSupport v) (c f i r : Nat) :
    PSm m fun e => if x e = .nan then 1 else toP ((B e).logProb c f i r (x e)) := by
  have hv' : ∀ e, x e = .nan ∨ ∃ v : ℝ, x e = .fin v := fun e => (hv e).imp_right fun ⟨v, h, _⟩ => ⟨v, h⟩
  unfold LeafSpec.build at h
  cases hs with
  | @normal a b ha hb =>
    have : B = fun e => normalLeaf d (a e) (b e) := by
      funext e
      obtain ⟨_, _, h⟩ := bind_ok (h e)
      exact (Except.ok.inj h).symm
    subst this
    exact gaussLeaf_sm (sigma := fun e c f i r => Real.exp (1 / 2 * b e c f i r)) ha
      (fun c f i r => (contDiff_const.mul (hb c f i r)).exp) (fun _ _ _ _ _ => Real.exp_pos _) hx hv' c f i r
  | @ratNormal lo hi mlo mhi a b ha hb =>
    have hr : ∀ c f i r, _ := fun c f i r => rat_sm (mlo := mlo) (mhi := mhi) (hi := hi) (ha c f i r) (hb c f i r) (hg 0).1
    have : B = fun e => gaussLeaf d
        (fun c f i r => (match ratProject lo hi mlo mhi (a e c f i r) (b e c f i r) with | .ok p => p | .error _ => ((0, 1) : ℝ × ℝ)).1)
        (fun c f i r => (match ratProject lo hi mlo mhi (a e c f i r) (b e c f i r) with | .ok p => p | .error _ => ((0, 1) : ℝ × ℝ)).2) := by
      funext e
      obtain ⟨_, _, h⟩ := bind_ok (h e)
      dsimp only at h
      obtain ⟨_, _, h⟩ := bind_ok h
      obtain ⟨_, _, h⟩ := bind_ok h
      obtain ⟨_, _, h⟩ := bind_ok h
      obtain ⟨_, _, h⟩ := bind_ok h
      obtain ⟨_, _, h⟩ := bind_ok h
      exact (Except.ok.inj h).symm
    subst this
    exact gaussLeaf_sm (fun c f i r => (hr c f i r).1) (fun c f i r => (hr c f i r).2.1) (fun e c f i r => (hr c f i r).2.2 e) hx hv' c f i r
  | @binomial n a ha =>
    have : B = fun e => binomialLeaf d n.toNat (a e) := by
      funext e
      obtain ⟨_, _, h⟩ := bind_ok (h e)
      dsimp only at h
      obtain ⟨_, _, h⟩ := bind_ok h
      exact (Except.ok.inj h).symm
    subst this
    rcases hx with ⟨y, hy⟩ | ⟨hc, -⟩
    · simp only [hy] at hv ⊢
      refine massLeaf_sm (E := E) (d := d) (K := n.toNat + 1) (pmf := fun e c f i r => binomialPmf n.toNat (Real.sigmoid (a e c f i r)))
        ?_ c f i r (fun k hk => ?_) (fun e k hk => ?_) (fun _ _ _ _ _ _ _ => 0) (fun _ _ _ _ _ => 0) true
      · refine (hv 0).imp_right fun ⟨v, h1, h2⟩ => ⟨v, h1, ?_⟩
        obtain ⟨k, hk, rfl⟩ := h2
        exact ⟨k, by omega, rfl⟩
      · exact (contDiff_const.mul ((contDiff_sigmoid' (ha c f i r)).pow _)).mul (((contDiff_const (c := (1 : ℝ))).sub (contDiff_sigmoid' (ha c f i r))).pow _)
      · exact binomialPmf_pos (sigmoid_pos' _).1 (sigmoid_pos' _).2 hk
    · exact (hc 0).elim
  | @bernoulli a ha =>
    have : B = fun e => bernoulliLeaf d (a e) := by
      funext e
      obtain ⟨_, _, h⟩ := bind_ok (h e)
      exact (Except.ok.inj h).symm
    subst this
    rcases hx with ⟨y, hy⟩ | ⟨hc, -⟩
    · simp only [hy] at hv ⊢
      refine massLeaf_sm (K := 2) ?_ c f i r (fun k hk => ?_) (fun e k hk => ?_) _ _ _
      · refine (hv 0).imp_right fun ⟨v, h1, h2⟩ => ⟨v, h1, ?_⟩
        rcases h2 with rfl | rfl
        · exact ⟨0, by omega, by simp⟩
        · exact ⟨1, by omega, by simp⟩
      · split_ifs
        · exact contDiff_sigmoid' (ha c f i r)
        · exact contDiff_const.sub (contDiff_sigmoid' (ha c f i r))
      · split_ifs
        · exact (sigmoid_pos' _).1
        · exact (sigmoid_pos' _).2
    · exact (hc 0).elim
  | @categorical n a ha =>
    have : B = fun e => categoricalLeaf d n.toNat (a e) := by
      funext e
      obtain ⟨_, _, h⟩ := bind_ok (h e)
      dsimp only at h
      obtain ⟨_, _, h⟩ := bind_ok h
      exact (Except.ok.inj h).symm
    subst this
    rcases hx with ⟨y, hy⟩ | ⟨hc, -⟩
    · simp only [hy] at hv ⊢
      refine massLeaf_sm (K := n.toNat) ?_ c f i r (fun k hk => ?_) (fun e k hk => softmaxR_pos _ hk) _ _ _
      · refine (hv 0).imp_right fun ⟨v, h1, h2⟩ => ⟨v, h1, ?_⟩
        obtain ⟨k, hk, rfl⟩ := h2
        exact ⟨k, by omega, rfl⟩
      · refine (ha c f i r k).exp.div (ContDiff.sum fun j _ => (ha c f i r j).exp) fun e => ?_
        exact (Finset.sum_pos (fun _ _ => Real.exp_pos _) ⟨k, by simpa using hk⟩).ne'
    · exact (hc 0).elim

/-- the probability of a row given a class. -/
theorem classProb_sm {c : Config} {P : E → Params} (hP : ∀ e, (P e).Random) (hg : ∀ e, (P e).leaf.Good) (hs : SmoothParams m P)
    (hl : LeafFam m fun e => (P e).leaf) {M : E → Model} (h : ∀ e, build c (P e) = .ok (M e)) {X : E → Data}
    (hX : ∀ c f, SmEntry m (fun e => (P e).leaf) fun e => X e c f)
    (hd : ∀ e, (P e).leaf.Data (M e).num_channels (M e).num_features (X e)) {k : Nat} (hk : k < c.num_classes.toNat) :
    ContDiff ℝ m fun e => classProb (M e) k (X e) := by
  have hz : ∀ e, _ := fun e => (build_WF (hP e) (h e)).1
  obtain ⟨hL, hm, hG⟩ := build_fam hP hs h
  have hkM : ∀ e, k < (M e).num_classes := fun e => by rw [(hz e).classes]; exact hk
  suffices hh : PSm m fun e => (M e).density none k (X e) by
    obtain ⟨g, hg', h1⟩ := hh
    have : (fun e => classProb (M e) k (X e)) = g := by
      funext e
      have := (h1 e).2
      dsimp only at this
      unfold classProb
      rw [this, ENNReal.toReal_ofReal (h1 e).1]
    rw [this]; exact hg'
  have e1 : ∀ e, (M e).density none k (X e) = (M e).topP 1 (regionVal (M e) ((M 0).grpF (buildGroups c (P 0))) (X e)) k := by
    intro e
    obtain ⟨-, hw, hp, _⟩ := build_WF (hP e) (h e)
    rw [density_val hw (hp (hg e)) ((build_observed (hP e) (h e)).2 (hd e)) (hkM e), hG e 0]
  simp only [e1]
  have hreg : ∀ o i r, PSm m fun e => regionVal (M e) ((M 0).grpF (buildGroups c (P 0))) (X e) o i r := by
    intro o i r
    unfold regionVal
    simp only [(hz _).features, (hz _).channels]
    refine PSm.prod fun f hf => ?_
    split_ifs
    · refine PSm.prod fun ch hc => ?_
      unfold cell
      refine leaf_sm hl hg (fun e => build_leaf (hP e) (h e)) (hX ch f) (fun e => ?_) ch f i r
      exact hd e ch (by rw [(hz e).channels]; exact hc) f (by rw [(hz e).features]; exact hf)
    · exact PSm.one
  unfold Model.topP
  simp only [(hz _).reps]
  split_ifs
  · refine PSm.sum fun r hr => ?_
    refine PSm.mul ?_ (hL.den hreg _ _ _)
    simp only [hm]
    exact PSm.weight (n := c.num_repetitions.toNat) (fun k _ => hs.mixLogits _) hr
  · exact hL.den hreg _ _ _

/-! ### The theorems -/

/-- **C88**, forward pass: every entry of the result is a finite number that depends smoothly on the parameters and, for
leaves with a density on the real line, on the data. -/
theorem C88_forward (c : Config) (P : E → Params) (hP : ∀ e, (P e).Random) (hg : ∀ e, (P e).leaf.Good) (hs : SmoothParams m P)
    (hl : LeafFam m fun e => (P e).leaf) (M : E → Model) (h : ∀ e, build c (P e) = .ok (M e)) (N : Nat) (x : E → Tensor Fl)
    (hx : SmData m (fun e => (P e).leaf) x) (hb : ∀ e, Batch (P e).leaf N (M e).num_channels (M e).num_features (x e)) :
    ∃ v : E → Nat → Nat → ℝ, (∀ n, n < N → ∀ k, k < c.num_classes.toNat → ContDiff ℝ m fun e => v e n k) ∧
      ∀ e, ∃ y, (M e).forward (x e) = .ok y ∧ y.shape = [N, c.num_classes.toNat] ∧
        ∀ n, n < N → ∀ k, k < c.num_classes.toNat → y.get [n, k] = .fin (v e n k) := by
  have hz : ∀ e, (M e).num_classes = c.num_classes.toNat := fun e => (build_WF (hP e) (h e)).1.classes
  refine ⟨fun e n k => Real.log (classProb (M e) k (rowAt (x e) n)), fun n hn k hk => ?_, fun e => ?_⟩
  · refine (classProb_sm hP hg hs hl h (fun ch f => hx [n, ch, f]) (fun e => (hb e).2 n hn) hk).log fun e => ?_
    exact (gb_pos (hP e) (hg e) (h e) ((hb e).2 n hn) (by rw [hz e]; exact hk)).1.ne'
  · obtain ⟨y, h1, h2, h3⟩ := train_forward (hP e) (hg e) (h e) (hb e)
    rw [hz e] at h2 h3
    exact ⟨y, h1, h2, fun n hn k hk => (h3 n hn k hk).2⟩

/-- **C88**, training loss of main.py without classification. -/
theorem C88_loss (c : Config) (P : E → Params) (hP : ∀ e, (P e).Random) (hg : ∀ e, (P e).leaf.Good) (hs : SmoothParams m P)
    (hl : LeafFam m fun e => (P e).leaf) (M : E → Model) (h : ∀ e, build c (P e) = .ok (M e)) (N : Nat) (hN : 0 < N) (x : E → Tensor Fl)
    (hx : SmData m (fun e => (P e).leaf) x) (hb : ∀ e, Batch (P e).leaf N (M e).num_channels (M e).num_features (x e)) (t : Tensor ℤ) :
    ∃ v : E → ℝ, ContDiff ℝ m v ∧ ∀ e, trainLoss (M e) false (x e) t = .ok (.fin (v e)) := by
  have hz : ∀ e, (M e).num_classes = c.num_classes.toNat := fun e => (build_WF (hP e) (h e)).1.classes
  refine ⟨_, ?_, fun e => C58_train c (P e) (hP e) (hg e) (M e) (h e) N hN (x e) (hb e) t⟩
  refine ContDiff.div_const (ContDiff.neg (ContDiff.sum fun n hn => ?_)) _
  have hn : n < N := by simpa using hn
  refine ContDiff.log ?_ fun e => (gb_row_pos (hP e) (hg e) (h e) ((hb e).2 n hn)).2.ne'
  unfold rowProb
  simp only [hz]
  refine ContDiff.div_const (ContDiff.sum fun k hk => ?_) _
  exact classProb_sm hP hg hs hl h (fun ch f => hx [n, ch, f]) (fun e => (hb e).2 n hn) (by simpa using hk)

/-- **C88**, losses with classification: the cross entropy of models_pl.py and the loss of main.py. -/
theorem C88_classification (c : Config) (P : E → Params) (hP : ∀ e, (P e).Random) (hg : ∀ e, (P e).leaf.Good) (hs : SmoothParams m P)
    (hl : LeafFam m fun e => (P e).leaf) (M : E → Model) (h : ∀ e, build c (P e) = .ok (M e)) (hK : 2 ≤ c.num_classes) (N : Nat)
    (hN : 0 < N) (x : E → Tensor Fl) (hx : SmData m (fun e => (P e).leaf) x)
    (hb : ∀ e, Batch (P e).leaf N (M e).num_channels (M e).num_features (x e)) (t : Tensor ℤ) (ht : t.shape = [N])
    (hk : ∀ n, n < N → 0 ≤ t.get [n] ∧ t.get [n] < c.num_classes) :
    (∃ v : E → ℝ, ContDiff ℝ m v ∧ ∀ e, (crossEntropyAndAccuracy (M e) (x e) t).map Prod.fst = .ok (.fin (v e))) ∧
    ∃ v : E → ℝ, ContDiff ℝ m v ∧ ∀ e, trainLoss (M e) true (x e) t = .ok (.fin (v e)) := by
  have hz : ∀ e, (M e).num_classes = c.num_classes.toNat := fun e => (build_WF (hP e) (h e)).1.classes
  have hp : ∀ n, n < N → ∀ k, k < c.num_classes.toNat → ContDiff ℝ m fun e => classProb (M e) k (rowAt (x e) n) := fun n hn k hk =>
    classProb_sm hP hg hs hl h (fun ch f => hx [n, ch, f]) (fun e => (hb e).2 n hn) hk
  have hsum : ∀ n, n < N → ContDiff ℝ m fun e => ∑ j ∈ Finset.range (M e).num_classes, classProb (M e) j (rowAt (x e) n) := by
    intro n hn
    simp only [hz]
    exact ContDiff.sum fun k hk => hp n hn k (by simpa using hk)
  have hpos : ∀ n, n < N → ∀ e, 0 < ∑ j ∈ Finset.range (M e).num_classes, classProb (M e) j (rowAt (x e) n) := fun n hn e =>
    (gb_row_pos (hP e) (hg e) (h e) ((hb e).2 n hn)).1
  have hbay : ContDiff ℝ m fun e => -(∑ n ∈ Finset.range N, Real.log (bayes (M e) (t.get [n]).toNat (rowAt (x e) n))) / N := by
    refine ContDiff.div_const (ContDiff.neg (ContDiff.sum fun n hn => ?_)) _
    have hn : n < N := by simpa using hn
    have ht := hk n hn
    have hk' : (t.get [n]).toNat < c.num_classes.toNat := by omega
    refine ContDiff.log ((hp n hn _ hk').div (hsum n hn) fun e => (hpos n hn e).ne') fun e => ?_
    exact (div_pos (gb_pos (hP e) (hg e) (h e) ((hb e).2 n hn) (by rw [hz e]; exact hk')).1 (hpos n hn e)).ne'
  have hK' : ∀ e, 2 ≤ (M e).num_classes := fun e => by rw [hz e]; omega
  have hk' : ∀ e n, n < N → 0 ≤ t.get [n] ∧ t.get [n] < (M e).num_classes := fun e n hn => by
    have := hk n hn
    rw [hz e]; omega
  refine ⟨⟨_, hbay, fun e => ?_⟩, _, hbay.sub (ContDiff.div_const (ContDiff.sum fun n hn => ?_) (N : ℝ)), fun e =>
    C59_train_partial c (P e) (hP e) (hg e) (M e) (h e) (hK' e) N hN (x e) (hb e) t ht (hk' e)⟩
  · rw [(C59_loss c (P e) (hP e) (hg e) (M e) (h e) (hK' e) N hN (x e) (hb e) t ht (hk' e)).1]
    rfl
  · have hn : n < N := by simpa using hn
    exact (hsum n hn).log fun e => (hpos n hn e).ne'

/-- parameters that all move with a real number, and data of which one entry moves, one is missing. -/
example : ∃ (P : ℝ → Params) (M : ℝ → Model) (x : ℝ → Tensor Fl), (∀ e, (P e).Random) ∧ (∀ e, (P e).leaf.Good) ∧ SmoothParams ⊤ P ∧
    LeafFam ⊤ (fun e => (P e).leaf) ∧ (∀ e, build (exConfig "einsum" "top-down") (P e) = .ok (M e)) ∧
    SmData ⊤ (fun e => (P e).leaf) x ∧ (∀ e, Batch (P e).leaf 2 (M e).num_channels (M e).num_features (x e)) ∧
    (x 0).get [0, 0, 0] ≠ (x 1).get [0, 0, 0] ∧ (x 0).get [1, 0, 0] = .nan ∧ (P 0).logits 1 [0, 1] ≠ (P 1).logits 1 [0, 1] := by
  let P : ℝ → Params := fun e => { exParams (.normal (fun c f _ _ => e + c + f) fun _ _ i _ => e * i) with
    logits := fun i j => e * (i + j.sum), rootLogits := fun j => e * j.sum, mixLogits := fun j => e * j.sum }
  have hP : ∀ e, (P e).Random := fun e => ⟨fun l => List.reverse_perm l, fun _ _ => List.reverse_perm _⟩
  have hB : ∀ e, ∃ M, build (exConfig "einsum" "top-down") (P e) = .ok M := by
    intro e
    obtain ⟨M, hM⟩ := exConfig_builds (l := "einsum") (s := "top-down") (leaf := (P e).leaf)
      (Or.inl ⟨Or.inr (Or.inr rfl), rfl⟩) ⟨normalLeaf _ _ _, by simp [P, LeafSpec.build]; rfl⟩
    exact build_iff.2 ((build_iff (P := exParams (P e).leaf)).1 ⟨M, hM⟩)
  choose M hM using hB
  have hid : ContDiff ℝ ⊤ fun e : ℝ => e := contDiff_id
  refine ⟨P, M, fun e => ⟨[2, 2, 5], fun i => if i = [1, 0, 0] then .nan else if i = [0, 0, 0] then .fin e else .fin 1⟩, hP,
    fun _ => trivial, ⟨fun _ _ => rfl, fun _ _ => rfl, fun i j => hid.mul contDiff_const, fun j => hid.mul contDiff_const,
    fun j => hid.mul contDiff_const⟩, .normal (fun c f i r => (hid.add contDiff_const).add contDiff_const)
    (fun c f i r => hid.mul contDiff_const), hM, fun i => ?_, fun e => ?_, by simp, by simp, ?_⟩
  · dsimp only
    split_ifs
    · exact Or.inl ⟨_, fun _ => rfl⟩
    · exact Or.inr ⟨fun _ => trivial, _, hid, fun _ => rfl⟩
    · exact Or.inl ⟨_, fun _ => rfl⟩
  · have hz := (build_WF (hP e) (hM e)).1
    refine ⟨by rw [hz.channels, hz.features]; rfl, fun n hn c hc f hf => ?_⟩
    dsimp only
    split_ifs
    · exact Or.inl rfl
    · exact Or.inr ⟨_, rfl, trivial⟩
    · exact Or.inr ⟨_, rfl, trivial⟩
  · norm_num [P]

end Einet.Props
