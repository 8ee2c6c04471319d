import Verif.Einet

/-!
# Forward pass of the leaf layers, entry by entry

Lemmas: the value of every entry of the leaf output as a function of the batch row, and the probability it stands for.
-/

open Classical
open scoped ENNReal
noncomputable section
namespace Einet
open Tensor

/-- tensor of rank 5 given by a function of five coordinates. -/
def Tensor.Is5 {α : Type} (t : Tensor α) (a b c d e : Nat) (f : Nat → Nat → Nat → Nat → Nat → α) : Prop :=
  t.Is [a, b, c, d, e] fun i => f (at' 0 i) (at' 1 i) (at' 2 i) (at' 3 i) (at' 4 i)

/-- a batch row of data: channel, feature. -/
abbrev Data := Nat → Nat → Fl

/-- `p` and `q` list a permutation of `0 .. n-1` and its inverse. -/
structure IsPerm (p q : List Nat) (n : Nat) : Prop where
  lp : p.length = n
  lq : q.length = n
  p_lt : ∀ i, i < n → p.getD i 0 < n
  q_lt : ∀ i, i < n → q.getD i 0 < n
  qp : ∀ i, i < n → q.getD (p.getD i 0) 0 = i
  pq : ∀ i, i < n → p.getD (q.getD i 0) 0 = i

theorem IsPerm.mem_lt {p q : List Nat} {n : Nat} (h : IsPerm p q n) : ∀ k ∈ p, k < n := by
  intro k hk
  obtain ⟨i, hi, rfl⟩ := List.getElem_of_mem hk
  have := h.p_lt i (by rw [← h.lp]; exact hi)
  simpa [List.getD_eq_getElem?_getD, hi] using this

theorem IsPerm.symm {p q : List Nat} {n : Nat} (h : IsPerm p q n) : IsPerm q p n :=
  ⟨h.lq, h.lp, h.q_lt, h.p_lt, h.pq, h.qp⟩

/-- reindexing a product by a permutation. -/
theorem IsPerm.prod_comp {p q : List Nat} {n : Nat} (h : IsPerm p q n) (g : Nat → ℝ≥0∞) :
    ∏ i ∈ Finset.range n, g (p.getD i 0) = ∏ i ∈ Finset.range n, g i := by
  refine Finset.prod_nbij' (fun i => p.getD i 0) (fun i => q.getD i 0) ?_ ?_ ?_ ?_ ?_
  · intro i hi; simp only [Finset.mem_range] at hi ⊢; exact h.p_lt i hi
  · intro i hi; simp only [Finset.mem_range] at hi ⊢; exact h.q_lt i hi
  · intro i hi; exact h.qp i (by simpa using hi)
  · intro i hi; exact h.pq i (by simpa using hi)
  · intro i hi; rfl

namespace BaseLeaf

/-- all entries pass the argument check of the distribution (NaN counts as the placeholder 0). -/
def Valid (B : BaseLeaf) (X : Data) : Prop :=
  ∀ c, c < B.num_channels → ∀ f, f < B.num_features → B.valid f (if (X c f).isnan then .fin 0 else X c f)

theorem forward_is (B : BaseLeaf) {x : Tensor Fl} {N : Nat} {X : Nat → Data}
    (hx : x.Is3 N B.num_channels B.num_features X) (hv : ∀ n, n < N → B.Valid (X n)) {ms : Option Scopes}
    {sc : Option (List Nat)} (hs : Scopes.resolveOpt B.num_features ms = .ok sc) :
    Res.Sat (B.forward x ms) fun y => y.Is5 N B.num_channels B.num_features B.num_leaves B.num_repetitions
      fun n c f i r => B.entry sc (X n c f) c f i r := by
  unfold forward
  refine Res.Sat.require (by simp [rank, size, hx.1, at']) (Res.Sat.require ?_ ?_)
  · rw [AllIdx_iff]
    intro i hi
    rw [hx.1] at hi
    rw [Is.get hx hi]
    have h1 := InB_at (d := 0) hi (by simp)
    have h2 := InB_at (d := 1) hi (by simp)
    have h3 := InB_at (d := 2) hi (by simp)
    exact hv _ h1 _ h2 _ h3
  · rw [hs]
    refine Res.Sat.pure (Is.intro (by simp [hx.1]) fun j hj => ?_)
    have h1 := InB_at (d := 0) hj (by simp)
    have h2 := InB_at (d := 1) hj (by simp)
    have h3 := InB_at (d := 2) hj (by simp)
    dsimp only
    rw [hx.get h1 h2 h3]

/-- sum over the input channels. -/
def leafSum (B : BaseLeaf) (sc : Option (List Nat)) (X : Data) : Row := fun f i r =>
  Fl.sumN B.num_channels fun c => B.entry sc (X c f) c f i r

theorem forward_sum_is (B : BaseLeaf) {x : Tensor Fl} {N : Nat} {X : Nat → Data}
    (hx : x.Is3 N B.num_channels B.num_features X) (hv : ∀ n, n < N → B.Valid (X n)) {ms : Option Scopes}
    {sc : Option (List Nat)} (hs : Scopes.resolveOpt B.num_features ms = .ok sc) :
    Res.Sat (B.forward x ms) fun y => Res.Sat (y.sum 1) fun z =>
      z.Is4 N B.num_features B.num_leaves B.num_repetitions fun n => B.leafSum sc (X n) := by
  refine (B.forward_is hx hv hs).mono fun y hy => (sum_is hy (by simp)).mono fun z hz => ?_
  exact Is.is4 hz (by intro n hn f hf i hi r hr; simp [insAt, at', leafSum])

end BaseLeaf

/-- the 0/1 tensor of a `FactorizedLeaf` describes the assignment `g` of features to groups. -/
structure FactLeaf.WF (L : FactLeaf) (g : Nat → Nat → Nat) : Prop where
  shape : L.scopes.shape = [L.base.num_features, L.num_features_out, L.base.num_repetitions]
  entry : ∀ f, f < L.base.num_features → ∀ o, o < L.num_features_out → ∀ r, r < L.base.num_repetitions →
    L.scopes.get [f, o, r] = if g r f = o then .fin 1 else .fin 0
  lt : ∀ r, r < L.base.num_repetitions → ∀ f, f < L.base.num_features → g r f < L.num_features_out

/-- sizes of a `FactorizedLeafSimple`. -/
structure FactSimple.WF (L : FactSimple) : Prop where
  reps : L.base.num_repetitions = 1
  out_pos : 0 < L.num_features_out
  perm : IsPerm L.permutation L.inverse_permutation (L.base.num_features + L.numDummy)

theorem FactSimple.size_eq (L : FactSimple) (h : 0 < L.num_features_out) :
    L.base.num_features + L.numDummy = L.num_features_out * L.cardinality := by
  unfold numDummy
  have : L.base.num_features ≤ L.cardinality * L.num_features_out := by
    unfold cardinality
    have := Nat.div_add_mod (L.base.num_features + L.num_features_out - 1) L.num_features_out
    have h2 := Nat.mod_lt (L.base.num_features + L.num_features_out - 1) h
    rw [Nat.mul_comm]
    omega
  rw [Nat.mul_comm L.num_features_out]
  omega

/-- a feature or a dummy node with log-probability 0 (factorized_leaf.py:273-277). -/
def padRow (F : Nat) (y : Row) : Row := fun p i r => if p < F then y p i r else .fin 0

namespace Model

/-- position read by feature `o` of repetition `r` after the permutation. -/
def permAt (M : Model) (r o : Nat) : Nat :=
  match M.permutation with
  | none => o
  | some (p, _) => (p.getD r []).getD o 0

/-- where feature `f` ends up after the permutation. -/
def permInvAt (M : Model) (r f : Nat) : Nat :=
  match M.permutation with
  | none => f
  | some (_, q) => (q.getD r []).getD f 0

/-- input of the first layer for a batch row. -/
def frontRow (M : Model) (sc : Option (List Nat)) (X : Data) : Row :=
  match M.leaf with
  | .direct B => fun o i r => B.leafSum sc X (M.permAt r o) i r
  | .factorized L =>
    if L.base.num_features = L.num_features_out then L.base.leafSum sc X
    else fun o i r => Fl.sumN L.base.num_features fun f => L.base.leafSum sc X f i r * L.scopes.get [f, o, r]
  | .simple L => fun o i r => Fl.sumN L.cardinality fun j =>
      padRow L.base.num_features (L.base.leafSum sc X) (L.permutation.getD (o * L.cardinality + j) 0) i r

/-- group of feature `f` in the forward pass. -/
def grpF (M : Model) (g : Nat → Nat → Nat) (r f : Nat) : Nat :=
  match M.leaf with
  | .direct _ => M.permInvAt r f
  | .factorized L => if L.base.num_features = L.num_features_out then f else g r f
  | .simple L => L.inverse_permutation.getD f 0 / L.cardinality

/-- number of regions of the leaf layer. -/
def numOut (M : Model) : Nat :=
  match M.leaf with
  | .direct B => B.num_features
  | .factorized L => L.num_features_out
  | .simple L => L.num_features_out

/-- the leaf layer is well formed; `g` is the assignment of features to groups of a `FactorizedLeaf`. -/
structure FrontWF (M : Model) (g : Nat → Nat → Nat) : Prop where
  features : M.leaf.base.num_features = M.num_features
  channels : M.leaf.base.num_channels = M.num_channels
  leaves : M.leaf.base.num_leaves = M.num_leaves
  reps : M.leaf.base.num_repetitions = M.num_repetitions
  fact : ∀ L, M.leaf = .factorized L → L.WF g
  simple : ∀ L, M.leaf = .simple L → L.WF
  noperm : (∀ B, M.leaf ≠ .direct B) → M.permutation = none
  perm : ∀ p q, M.permutation = some (p, q) →
    ∀ r, r < M.num_repetitions → IsPerm (p.getD r []) (q.getD r []) M.num_features

theorem FrontWF.permAt_inv {M : Model} {g : Nat → Nat → Nat} (h : M.FrontWF g) {r : Nat} (hr : r < M.num_repetitions)
    {f : Nat} (hf : f < M.num_features) :
    M.permAt r f < M.num_features ∧ M.permInvAt r f < M.num_features ∧ M.permInvAt r (M.permAt r f) = f ∧
      M.permAt r (M.permInvAt r f) = f := by
  unfold permAt permInvAt
  cases hp : M.permutation with
  | none => exact ⟨hf, hf, rfl, rfl⟩
  | some pq =>
    obtain ⟨p, q⟩ := pq
    have := h.perm p q hp r hr
    exact ⟨this.p_lt f hf, this.q_lt f hf, this.qp f hf, this.pq f hf⟩

theorem permute_is {M : Model} {g : Nat → Nat → Nat} (h : M.FrontWF g) {x : Tensor Fl} {N : Nat} {y : Nat → Row}
    (hx : x.Is4 N M.numOut M.num_leaves M.num_repetitions y) :
    Res.Sat (M.permute x) fun z => z.Is4 N M.numOut M.num_leaves M.num_repetitions
      fun n o i r => y n (M.permAt r o) i r := by
  unfold permute permAt
  cases hp : M.permutation with
  | none => exact Res.Sat.ok hx
  | some pq =>
    obtain ⟨p, q⟩ := pq
    have hN : M.numOut = M.num_features := by
      unfold numOut
      have := h.features
      cases hl : M.leaf with
      | direct B => simpa [hl, Leaf.base] using this
      | factorized L => exact absurd (h.noperm (by simp [hl])) (by simp [hp])
      | simple L => exact absurd (h.noperm (by simp [hl])) (by simp [hp])
    have hs1 : x.size 1 = M.num_features := by simp [size, hx.1, at', hN]
    refine Res.Sat.require (fun r hr k hk => by rw [hs1]; exact (h.perm p q hp r hr).mem_lt k hk)
      (Res.Sat.require (fun r hr => by rw [hs1]; exact (h.perm p q hp r hr).lp) (Res.Sat.pure ?_))
    refine Is.is4 (g := fun j => y (at' 0 j) ((p.getD (at' 3 j) []).getD (at' 1 j) 0) (at' 2 j) (at' 3 j))
      (Is.intro hx.1 fun j hj => ?_) (by intro n hn o ho i hi r hr; rfl)
    have h1 := InB_at (d := 1) hj (by simp)
    have h3 := InB_at (d := 3) hj (by simp)
    have hlt : (p.getD (at' 3 j) []).getD (at' 1 j) 0 < M.numOut := by
      rw [hN]; exact (h.perm p q hp _ h3).p_lt _ (by rw [← hN]; exact h1)
    dsimp only
    rw [Is.get hx (InB_setAt' hj hlt)]
    match j, hj with
    | [a, b, c, d], _ => rfl

theorem merge_is {M : Model} {g : Nat → Nat → Nat} (h : M.FrontWF g) {y : Tensor Fl} {N : Nat} {X : Nat → Data}
    {sc : Option (List Nat)}
    (hy : Res.Sat (y.sum 1) fun z => z.Is4 N M.leaf.base.num_features M.leaf.base.num_leaves M.leaf.base.num_repetitions
      fun n => M.leaf.base.leafSum sc (X n)) :
    Res.Sat (M.leaf.merge y) fun y => Res.Sat (M.factorize y) fun z => Res.Sat (M.permute z) fun w =>
      w.Is4 N M.numOut M.num_leaves M.num_repetitions fun n => M.frontRow sc (X n) := by
  have hl := h.leaves; have hr := h.reps; have hf := h.features
  cases hL : M.leaf with
  | direct B =>
    simp only [hL, Leaf.base] at hy hl hr hf
    refine Res.Sat.ok ?_
    unfold factorize
    rw [hL]
    refine hy.bind fun z hz => ?_
    rw [hl, hr, hf] at hz
    refine Res.Sat.require (by simp [size, hz.1, at']) (Res.Sat.pure ?_)
    have hN : M.numOut = M.num_features := by unfold numOut; rw [hL]; exact hf
    refine (permute_is h (y := fun n => B.leafSum sc (X n)) (by rw [hN]; exact hz)).mono fun w hw => ?_
    unfold frontRow
    rw [hL]
    exact hw
  | factorized L =>
    simp only [hL, Leaf.base] at hy hl hr hf
    have hnp : M.permutation = none := h.noperm (by simp [hL])
    have hN : M.numOut = L.num_features_out := by unfold numOut; rw [hL]
    have hW := h.fact L hL
    have tail : ∀ (y : Tensor Fl), y.Is4 N M.numOut M.num_leaves M.num_repetitions (fun n => M.frontRow sc (X n)) →
        Res.Sat (M.factorize y) fun z => Res.Sat (M.permute z) fun w =>
          w.Is4 N M.numOut M.num_leaves M.num_repetitions fun n => M.frontRow sc (X n) := by
      intro y hy
      unfold factorize
      rw [hL]
      refine Res.Sat.require (by simp [size, hy.1, at', hN]) (Res.Sat.pure ?_)
      unfold permute
      rw [hnp]
      exact Res.Sat.ok hy
    show Res.Sat (FactLeaf.merge L y) _
    unfold FactLeaf.merge
    refine hy.bind fun z hz => ?_
    split_ifs with hFO
    · refine Res.Sat.pure (tail z ?_)
      unfold frontRow
      rw [hL]
      simp only [if_pos hFO]
      rw [hN, ← hFO, ← hl, ← hr]
      exact hz
    · have hm : Res.Sat (FactLeaf.mergeScopes z L.scopes) fun w =>
          w.Is4 N M.numOut M.num_leaves M.num_repetitions fun n => M.frontRow sc (X n) := by
        unfold FactLeaf.mergeScopes
        refine Res.Sat.require (by simp [rank, hz.1, hW.shape]) (Res.Sat.require (by simp [size, hz.1, hW.shape, at'])
          (Res.Sat.pure (Is.intro (by simp [size, hz.1, hW.shape, at', hN, hl, hr]) fun j hj => ?_)))
        have h0 := InB_at (d := 0) hj (by simp)
        have h2 := InB_at (d := 2) hj (by simp)
        have h3 := InB_at (d := 3) hj (by simp)
        unfold frontRow
        rw [hL]
        simp only [if_neg hFO, size, hz.1, at']
        refine Fl.sumN_congr fun f hf' => ?_
        rw [hz.get h0 hf' (by rw [hl]; exact h2) (by rw [hr]; exact h3)]
      refine hm.bind fun w hw => ?_
      exact Res.Sat.require (by simp [size, hw.1, at', hN, hl, hr]) (Res.Sat.pure (tail w hw))
  | simple L =>
    simp only [hL, Leaf.base] at hy hl hr hf
    have hnp : M.permutation = none := h.noperm (by simp [hL])
    have hN : M.numOut = L.num_features_out := by unfold numOut; rw [hL]
    have hW := h.simple L hL
    have hsz := L.size_eq hW.out_pos
    show Res.Sat (FactSimple.merge L y) _
    unfold FactSimple.merge
    refine hy.bind fun z hz => ?_
    have hpad : Res.Sat (L.padDummy z) fun w => w.Is4 N (L.base.num_features + L.numDummy) L.base.num_leaves
        L.base.num_repetitions fun n => padRow L.base.num_features (L.base.leafSum sc (X n)) := by
      unfold FactSimple.padDummy
      split_ifs with hd
      · refine (cat_is hz (full_is _ _) (by simp) (by simp [setAt, size, hz.1, at'])).mono fun w hw => ?_
        simp only [setAt, at'] at hw
        refine Is.is4 hw ?_
        intro n hn p hp i hi r hr
        by_cases hp2 : p < L.base.num_features <;> simp [at', padRow, hp2]
      · have : L.numDummy = 0 := by omega
        rw [this]
        refine Res.Sat.ok (Is.is4 hz ?_)
        intro n hn p hp i hi r hr
        have hp' : p < L.base.num_features := by omega
        simp [at', padRow, hp']
    refine hpad.bind fun w hw => ?_
    have hidx : Res.Sat (w.indexDim1 L.permutation) fun v => v.Is [N, L.num_features_out * L.cardinality, L.base.num_leaves,
        L.base.num_repetitions] fun j => padRow L.base.num_features (L.base.leafSum sc (X (at' 0 j)))
          (L.permutation.getD (at' 1 j) 0) (at' 2 j) (at' 3 j) := by
      unfold Tensor.indexDim1
      refine Res.Sat.require (by simp [rank, hw.1]) (Res.Sat.require (fun k hk => by
        simp only [size, hw.1, at']; exact hW.perm.mem_lt k hk) (Res.Sat.pure (Is.intro ?_ fun j hj => ?_)))
      · simp [hw.1, setAt, hW.perm.lp, hsz]
      · have h1 := InB_at (d := 1) hj (by simp)
        have hj' : InB [N, L.base.num_features + L.numDummy, L.base.num_leaves, L.base.num_repetitions] j := by
          rw [hsz]; exact hj
        dsimp only
        rw [Is.get hw (InB_setAt' hj' (hW.perm.p_lt _ (by rw [hsz]; exact h1)))]
        match j, hj with
        | [a, b, c, d], _ => rfl
    refine hidx.bind fun v hv => ?_
    have hvs : [v.size 0, L.num_features_out, L.cardinality, v.size 2, v.size 3] =
        [N, L.num_features_out, L.cardinality, L.base.num_leaves, L.base.num_repetitions] := by
      simp [size, hv.1, at']
    rw [hvs]
    refine (view_is hv (by simp only [numelS]; ring)).bind fun u hu => ?_
    refine (sum_is hu (by simp)).bind fun t ht => ?_
    have ht4 : t.Is4 N M.numOut M.num_leaves M.num_repetitions fun n => M.frontRow sc (X n) := by
      rw [hN, ← hl, ← hr]
      refine Is.is4 ht ?_
      intro n hn o ho i hi r hr
      unfold frontRow
      rw [hL]
      simp only [at']
      refine Fl.sumN_congr fun j hj => ?_
      have e : unflat [N, L.num_features_out * L.cardinality, L.base.num_leaves, L.base.num_repetitions]
          (flat [N, L.num_features_out, L.cardinality, L.base.num_leaves, L.base.num_repetitions] [n, o, j, i, r]) =
          [n, o * L.cardinality + j, i, r] := by
        refine unflat_eq ?_ ?_
        · refine ⟨hn, ?_, hi, hr, by simp⟩
          calc o * L.cardinality + j < o * L.cardinality + L.cardinality := by omega
            _ = (o + 1) * L.cardinality := by ring
            _ ≤ _ := Nat.mul_le_mul_right _ ho
        · simp only [flat, numelS]; ring
      simp only [insAt]
      rw [e]
      rfl
    refine Res.Sat.require (by simp [size, ht4.1, at', hN, hl, hr]) (Res.Sat.pure ?_)
    unfold factorize
    rw [hL]
    refine Res.Sat.require (by simp [size, ht4.1, at', hN]) (Res.Sat.pure ?_)
    unfold permute
    rw [hnp]
    exact Res.Sat.ok ht4

theorem forward_merge (L : Leaf) (x : Tensor Fl) (ms : Option Scopes) : L.forward x ms = L.base.forward x ms >>= L.merge := by
  cases L with
  | direct B =>
    show B.forward x ms = B.forward x ms >>= fun y => Except.ok y
    cases B.forward x ms <;> rfl
  | factorized L => rfl
  | simple L => rfl

theorem front_is {M : Model} {g : Nat → Nat → Nat} (h : M.FrontWF g) {x : Tensor Fl} {N : Nat} {X : Nat → Data}
    (hx : x.Is3 N M.num_channels M.num_features X) (hv : ∀ n, n < N → M.leaf.base.Valid (X n)) {ms : Option Scopes}
    {sc : Option (List Nat)} (hs : Scopes.resolveOpt M.num_features ms = .ok sc) :
    Res.Sat (M.leaf.forward x ms) fun y => Res.Sat (M.factorize y) fun z => Res.Sat (M.permute z) fun w =>
      w.Is4 N M.numOut M.num_leaves M.num_repetitions fun n => M.frontRow sc (X n) := by
  have hx' : x.Is3 N M.leaf.base.num_channels M.leaf.base.num_features X := by
    rw [h.channels, h.features]; exact hx
  have hs' : Scopes.resolveOpt M.leaf.base.num_features ms = .ok sc := by rw [h.features]; exact hs
  rw [forward_merge]
  exact (M.leaf.base.forward_sum_is hx' hv hs').bind fun y hy => merge_is h hy

/-- the merging einsum of a `FactorizedLeaf` multiplies by zero, which needs finite inputs. -/
def leafNeedsFin (M : Model) : Bool :=
  match M.leaf with
  | .factorized L => decide (L.base.num_features ≠ L.num_features_out)
  | _ => false

theorem okay_sumN {b : Bool} {n : Nat} {f : Nat → Fl} (h : ∀ i, i < n → Okay b (f i)) :
    Okay b (Fl.sumN n f) ∧ toP (Fl.sumN n f) = ∏ i ∈ Finset.range n, toP (f i) := by
  have := toP_sumN fun i hi => (h i hi).nn
  refine ⟨okay_of this.2 fun hb => ?_, this.1⟩
  rw [this.1]
  exact Finset.prod_ne_zero_iff.2 fun i hi => (h i (by simpa using hi)).ne_zero hb

/-- density of region `o` with component `i` in repetition `r`: the product over the features of the group. -/
def regionP (M : Model) (g : Nat → Nat → Nat) (p : Nat → Nat → Nat → Nat → ℝ≥0∞) : PRow := fun o i r =>
  ∏ f ∈ Finset.range M.num_features, if M.grpF g r f = o then ∏ c ∈ Finset.range M.num_channels, p c f i r else 1

theorem frontRow_den {M : Model} {g : Nat → Nat → Nat} (h : M.FrontWF g) {b : Bool}
    (hb : M.leafNeedsFin = true → b = true) {sc : Option (List Nat)} {X : Data} {r : Nat} (hr : r < M.num_repetitions)
    {i : Nat} (hX : ∀ c, c < M.num_channels → ∀ f, f < M.num_features →
      Okay b (M.leaf.base.entry sc (X c f) c f i r)) {o : Nat} (ho : o < M.numOut) :
    Okay b (M.frontRow sc X o i r) ∧ toP (M.frontRow sc X o i r) =
      M.regionP g (fun c f i r => toP (M.leaf.base.entry sc (X c f) c f i r)) o i r := by
  have hS : ∀ f, f < M.num_features → Okay b (M.leaf.base.leafSum sc X f i r) ∧
      toP (M.leaf.base.leafSum sc X f i r) =
        ∏ c ∈ Finset.range M.num_channels, toP (M.leaf.base.entry sc (X c f) c f i r) := by
    intro f hf
    unfold BaseLeaf.leafSum
    rw [h.channels]
    exact okay_sumN fun c hc => hX c hc f hf
  have hl := h.leaves; have hr' := h.reps; have hf := h.features
  unfold regionP
  cases hL : M.leaf with
  | direct B =>
    have hO : o < M.num_features := by
      unfold numOut at ho
      rw [hL] at ho
      rw [hL] at hf
      exact hf ▸ ho
    obtain ⟨p1, p2, p3, p4⟩ := h.permAt_inv hr hO
    simp only [hL, Leaf.base] at hS
    have e : M.frontRow sc X o i r = B.leafSum sc X (M.permAt r o) i r := by unfold frontRow; rw [hL]
    rw [e]
    refine ⟨(hS _ p1).1, ?_⟩
    rw [(hS _ p1).2]
    have hg : ∀ f, M.grpF g r f = M.permInvAt r f := by intro f; unfold grpF; rw [hL]
    symm
    rw [Finset.prod_eq_single (s := Finset.range M.num_features) (M.permAt r o)]
    · rw [hg, if_pos p3]; rfl
    · intro f hf hne
      rw [hg, if_neg]
      intro he
      apply hne
      rw [← he, (h.permAt_inv hr (by simpa using hf)).2.2.2]
    · intro hn; exact absurd (Finset.mem_range.2 p1) hn
  | factorized L =>
    simp only [hL, Leaf.base] at hS hf hr' hl
    by_cases hFO : L.base.num_features = L.num_features_out
    · have hO : o < M.num_features := by
        unfold numOut at ho
        rw [hL] at ho
        rw [← hf, hFO]; exact ho
      have e : M.frontRow sc X o i r = L.base.leafSum sc X o i r := by
        unfold frontRow; rw [hL]; simp only [if_pos hFO]
      have hg : ∀ f, M.grpF g r f = f := by intro f; unfold grpF; rw [hL]; simp only [if_pos hFO]
      rw [e]
      refine ⟨(hS _ hO).1, ?_⟩
      rw [(hS _ hO).2]
      simp only [hg]
      rw [Finset.prod_ite_eq' (Finset.range M.num_features) o]
      rw [if_pos (Finset.mem_range.2 hO)]
      rfl
    · have hbt : b = true := hb (by unfold leafNeedsFin; rw [hL]; simpa using hFO)
      have hW := h.fact L hL
      have ho' : o < L.num_features_out := by unfold numOut at ho; rw [hL] at ho; exact ho
      have e : M.frontRow sc X o i r = Fl.sumN M.num_features fun f =>
          if g r f = o then L.base.leafSum sc X f i r else .fin 0 := by
        unfold frontRow
        rw [hL]
        simp only [if_neg hFO]
        rw [hf]
        refine Fl.sumN_congr fun f hf' => ?_
        rw [hW.entry f (by rw [hf]; exact hf') o ho' r (by rw [hr']; exact hr)]
        have := (hS f hf').1
        rw [hbt] at this
        obtain ⟨v, hv⟩ := this
        rw [hv]
        split_ifs <;> simp
      have hg : ∀ f, M.grpF g r f = g r f := by intro f; unfold grpF; rw [hL]; simp only [if_neg hFO]
      rw [e]
      have hk : ∀ f, f < M.num_features → Okay b (if g r f = o then L.base.leafSum sc X f i r else .fin 0) := by
        intro f hf'
        split_ifs
        · exact (hS f hf').1
        · rw [hbt]; exact Fl.isFin_fin _
      refine ⟨(okay_sumN hk).1, (okay_sumN hk).2.trans (Finset.prod_congr rfl fun f hf' => ?_)⟩
      rw [hg]
      split_ifs
      · exact (hS f (by simpa using hf')).2
      · simp
  | simple L =>
    simp only [hL, Leaf.base] at hS hf hr' hl
    have hW := h.simple L hL
    have hsz := L.size_eq hW.out_pos
    have ho' : o < L.num_features_out := by unfold numOut at ho; rw [hL] at ho; exact ho
    have hg : ∀ f, M.grpF g r f = L.inverse_permutation.getD f 0 / L.cardinality := by
      intro f; unfold grpF; rw [hL]
    have e : M.frontRow sc X o i r = Fl.sumN L.cardinality fun j =>
        padRow L.base.num_features (L.base.leafSum sc X) (L.permutation.getD (o * L.cardinality + j) 0) i r := by
      unfold frontRow; rw [hL]
    have hk : ∀ p, Okay b (padRow L.base.num_features (L.base.leafSum sc X) p i r) := by
      intro p
      unfold padRow
      split_ifs with hp
      · exact (hS p (by rw [← hf]; exact hp)).1
      · cases b
        · trivial
        · exact Fl.isFin_fin _
    rw [e]
    refine ⟨(okay_sumN fun j _ => hk _).1, (okay_sumN fun j _ => hk _).2.trans ?_⟩
    simp only [hg]
    -- the positions of group `o`, as a product over all positions
    set P : Nat → ℝ≥0∞ := fun p => toP (padRow L.base.num_features (L.base.leafSum sc X) p i r) with hP
    have hPf : ∀ f, f < M.num_features → P f =
        ∏ c ∈ Finset.range M.num_channels, toP (L.base.entry sc (X c f) c f i r) := by
      intro f hf'
      rw [hP]
      simp only [padRow]
      rw [if_pos (by rw [hf]; exact hf')]
      exact (hS f hf').2
    have hPd : ∀ p, ¬ p < M.num_features → P p = 1 := by
      intro p hp
      rw [hP]
      simp only [padRow]
      rw [if_neg (by rw [hf]; exact hp)]
      simp
    have e1 : (∏ f ∈ Finset.range M.num_features, if L.inverse_permutation.getD f 0 / L.cardinality = o then
          ∏ c ∈ Finset.range M.num_channels, toP (L.base.entry sc (X c f) c f i r) else 1) =
        ∏ f ∈ Finset.range (L.base.num_features + L.numDummy),
          if L.inverse_permutation.getD f 0 / L.cardinality = o then P f else 1 := by
      rw [← hf] at hPf hPd ⊢
      rw [Finset.prod_range_add, Finset.prod_congr rfl fun f hf' => by rw [← hPf f (by simpa using hf')]]
      rw [Finset.prod_eq_one (s := Finset.range L.numDummy), mul_one]
      intro p _
      rw [hPd _ (by omega)]
      split_ifs <;> rfl
    refine Eq.trans ?_ e1.symm
    have e2 : (∏ f ∈ Finset.range (L.base.num_features + L.numDummy),
          if L.inverse_permutation.getD f 0 / L.cardinality = o then P f else 1) =
        ∏ p ∈ Finset.range (L.num_features_out * L.cardinality),
          if p / L.cardinality = o then P (L.permutation.getD p 0) else 1 := by
      rw [← hW.perm.prod_comp fun f => if L.inverse_permutation.getD f 0 / L.cardinality = o then P f else 1, hsz]
      refine Finset.prod_congr rfl fun p hp => ?_
      rw [hW.perm.qp p (by rw [hsz]; simpa using hp)]
    rw [e2]
    -- product over positions `p` with `p / card = o`
    have hcard : 0 < L.cardinality ∨ L.cardinality = 0 := by omega
    rcases hcard with hc | hc
    · have key : ∀ (n : Nat) (G : Nat → ℝ≥0∞), o < n →
          (∏ p ∈ Finset.range (n * L.cardinality), if p / L.cardinality = o then G p else 1) =
            ∏ j ∈ Finset.range L.cardinality, G (o * L.cardinality + j) := by
        intro n G hn
        induction n with
        | zero => omega
        | succ n ih =>
          rw [Nat.succ_mul, Finset.prod_range_add]
          by_cases hon : o = n
          · subst hon
            rw [Finset.prod_eq_one (s := Finset.range (o * L.cardinality)), one_mul]
            · refine Finset.prod_congr rfl fun j hj => if_pos ?_
              rw [Nat.mul_comm, Nat.mul_add_div hc, Nat.div_eq_of_lt (by simpa using hj), Nat.add_zero]
            · intro p hp
              refine if_neg ?_
              have := Nat.div_lt_of_lt_mul (n := L.cardinality) (k := o) (m := p)
                (by rw [Nat.mul_comm]; simpa using hp)
              omega
          · rw [ih (by omega)]
            rw [Finset.prod_eq_one (s := Finset.range L.cardinality) (f := fun x =>
              if (n * L.cardinality + x) / L.cardinality = o then G (n * L.cardinality + x) else 1), mul_one]
            intro j hj
            refine if_neg ?_
            rw [Nat.mul_comm, Nat.mul_add_div hc, Nat.div_eq_of_lt (by simpa using hj), Nat.add_zero]
            exact fun h => hon h.symm
      exact (key L.num_features_out (fun p => P (L.permutation.getD p 0)) ho').symm
    · rw [hc]; simp

end Model
end Einet
