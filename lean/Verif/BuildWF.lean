import Verif.Build
import Verif.EinetFwd
import Verif.PropsConfig

/-!
# Constructed models are well formed

Lemmas: the permutations and their inverses, the feature groups, the chain of layers, and finally `build_WF`.
-/

open Classical
noncomputable section
namespace Einet
open Tensor

/-! ### Permutations -/

theorem getD_of_lt {l : List Nat} {i : Nat} (h : i < l.length) : l.getD i 0 = l[i] := by
  simp [List.getD_eq_getElem?_getD, h]

/-- inverting a permutation with `argsort`. -/
theorem argsort_isPerm {p : List Nat} {n : Nat} (h : p.Perm (List.range n)) : IsPerm p (argsort p) n := by
  have hlen : p.length = n := by simpa using h.length_eq
  have hq : (argsort p).Perm (List.range n) := by
    unfold argsort
    rw [hlen]
    exact List.mergeSort_perm _ _
  have hlq : (argsort p).length = n := by simpa using hq.length_eq
  have hmp : ∀ k, k ∈ p ↔ k < n := fun k => by rw [h.mem_iff, List.mem_range]
  have hmq : ∀ k, k ∈ argsort p ↔ k < n := fun k => by rw [hq.mem_iff, List.mem_range]
  have hsorted : ((argsort p).map fun i => p.getD i 0) = List.range n := by
    have h1 : ((argsort p).map fun i => p.getD i 0).Perm (List.range n) := by
      refine (hq.map _).trans ?_
      have : ((List.range n).map fun i => p.getD i 0) = p := by
        refine List.ext_getElem (by simp [hlen]) fun i h1 h2 => ?_
        simp [List.getD_eq_getElem?_getD, h2]
      rw [this]
      exact h
    refine List.Perm.eq_of_pairwise (le := (· ≤ ·)) (fun a b _ _ h1 h2 => le_antisymm h1 h2) ?_ ?_ h1
    · rw [List.pairwise_map]
      have := List.pairwise_mergeSort (le := fun a b => decide (p.getD a 0 ≤ p.getD b 0))
        (by intro a b c; simpa using le_trans) (by intro a b; simpa using le_total _ _) (List.range p.length)
      exact this.imp fun h => by simpa using h
    · exact List.pairwise_le_range
  have hpq : ∀ i, i < n → p.getD ((argsort p).getD i 0) 0 = i := by
    intro i hi
    have h1 := congrArg (fun l => l.getD i 0) hsorted
    have h2 : i < (argsort p).length := by omega
    simpa [List.getD_eq_getElem?_getD, h2, hi] using h1
  have hplt : ∀ i, i < n → p.getD i 0 < n := by
    intro i hi
    rw [getD_of_lt (by omega)]
    exact (hmp _).1 (List.getElem_mem _)
  have hqlt : ∀ i, i < n → (argsort p).getD i 0 < n := by
    intro i hi
    rw [getD_of_lt (by omega)]
    exact (hmq _).1 (List.getElem_mem _)
  have hnd : p.Nodup := h.nodup_iff.2 List.nodup_range
  refine ⟨hlen, hlq, hplt, hqlt, fun i hi => ?_, hpq⟩
  have h1 := hpq _ (hplt i hi)
  have h2 := hqlt _ (hplt i hi)
  rw [getD_of_lt (by omega : i < p.length), getD_of_lt (l := p) (by
    rw [getD_of_lt (by omega : i < p.length)] at h2; omega)] at h1
  have := (List.Nodup.getElem_inj_iff hnd).1 h1
  rw [getD_of_lt (by omega : i < p.length)]
  exact this

/-! ### Feature groups -/

/-- the group whose range of positions contains `j`. -/
def findGroup : List Nat → Nat → Nat
  | [], _ => 0
  | s :: ss, j => if j < s then 0 else findGroup ss (j - s) + 1

theorem findGroup_spec (sizes : List Nat) (j : Nat) (hj : j < sizes.sum) :
    findGroup sizes j < sizes.length ∧
    ∀ o, o < sizes.length → (findGroup sizes j = o ↔ groupLow sizes o ≤ j ∧ j < groupLow sizes o + sizes.getD o 0) := by
  induction sizes generalizing j with
  | nil => simp at hj
  | cons s ss ih =>
    simp only [List.sum_cons] at hj
    unfold findGroup
    by_cases h : j < s
    · simp only [h, if_true]
      refine ⟨by simp, fun o ho => ?_⟩
      cases o with
      | zero => simp [groupLow, h]
      | succ o =>
        simp only [groupLow, List.take_succ_cons, List.sum_cons]
        omega
    · simp only [h, if_false]
      obtain ⟨h1, h2⟩ := ih (j - s) (by omega)
      refine ⟨by simpa using h1, fun o ho => ?_⟩
      cases o with
      | zero => simp [groupLow, h]
      | succ o =>
        have := h2 o (by simpa using ho)
        simp only [groupLow, List.take_succ_cons, List.sum_cons, List.getD_cons_succ] at this ⊢
        omega

theorem groupSizes_sum (F O : Nat) (hO : 0 < O) : (groupSizes F O).sum = F := by
  unfold groupSizes
  have h1 : ∀ n r q, r ≤ n → ((List.range n).map fun i => if i < r then q + 1 else q).sum = q * n + r := by
    intro n r q
    induction n generalizing r with
    | zero => intro h; simp; omega
    | succ n ih =>
      intro h
      rw [List.range_succ, List.map_append, List.sum_append]
      simp only [List.map_cons, List.map_nil, List.sum_cons, List.sum_nil]
      by_cases hr : r = n + 1
      · subst hr
        rw [if_pos (by omega)]
        have e : ((List.range n).map fun i => if i < n + 1 then q + 1 else q) =
            (List.range n).map fun i => if i < n then q + 1 else q := by
          refine List.map_congr_left fun i hi => ?_
          rw [List.mem_range] at hi
          rw [if_pos (by omega), if_pos hi]
        rw [e, ih n (le_refl _)]
        ring
      · rw [if_neg (by omega), ih r (by omega)]
        ring
  rw [h1 _ _ _ (Nat.mod_lt _ hO).le, Nat.mul_comm]
  exact Nat.div_add_mod F O

theorem groupSizes_mem {F O s : Nat} (h : s ∈ groupSizes F O) : s = F / O ∨ s = F / O + 1 := by
  unfold groupSizes at h
  simp only [List.mem_map, List.mem_range] at h
  obtain ⟨i, hi, rfl⟩ := h
  split_ifs <;> simp

theorem groupLow_last {sizes : List Nat} {F O : Nat} (hs : sizes.sum = F) (hl : sizes.length = O) {o : Nat} (ho : o + 1 = O) :
    groupLow sizes o + sizes.getD o 0 = F := by
  unfold groupLow
  rw [← hs]
  conv_rhs => rw [← List.take_append_drop o sizes]
  rw [List.sum_append]
  congr 1
  have h1 : o < sizes.length := by omega
  rw [List.drop_eq_getElem_cons h1, List.drop_eq_nil_of_le (by omega)]
  simp [h1]

theorem groupHigh_eq {sizes : List Nat} {F O : Nat} (hs : sizes.sum = F) (hl : sizes.length = O) (o : Nat) :
    groupHigh F O sizes o = groupLow sizes o + sizes.getD o 0 := by
  unfold groupHigh
  split_ifs with h
  · rw [groupLow_last hs hl h]
  · rfl

/-- membership in a slice of a permutation, by position. -/
theorem mem_slice {p q : List Nat} {n : Nat} (h : IsPerm p q n) {f : Nat} (hf : f < n) {a b : Nat} (hb : b ≤ n) :
    f ∈ (p.take b).drop a ↔ a ≤ q.getD f 0 ∧ q.getD f 0 < b := by
  rw [List.mem_iff_getElem]
  constructor
  · rintro ⟨i, hi, e⟩
    simp only [List.length_drop, List.length_take, h.lp] at hi
    simp only [List.getElem_drop, List.getElem_take] at e
    have h1 := h.qp (a + i) (by omega)
    rw [getD_of_lt (l := p) (by rw [h.lp]; omega), e] at h1
    omega
  · rintro ⟨h1, h2⟩
    refine ⟨q.getD f 0 - a, by simp only [List.length_drop, List.length_take, h.lp]; omega, ?_⟩
    have h3 := h.pq f hf
    rw [getD_of_lt (by rw [h.lp]; omega)] at h3
    simp only [List.getElem_drop, List.getElem_take]
    refine Eq.trans ?_ h3
    congr 1
    omega

/-- group of feature `f` in repetition `r`. -/
def featureGroup (P : Params) (F O : Nat) (r f : Nat) : Nat :=
  findGroup (P.shuffle (groupSizes F O)) ((argsort (P.randperm r F)).getD f 0)

theorem shuffled_sum {P : Params} (hP : P.Random) {F O : Nat} (hO : 0 < O) :
    (P.shuffle (groupSizes F O)).sum = F ∧ (P.shuffle (groupSizes F O)).length = O := by
  have h := hP.shuffle (groupSizes F O)
  refine ⟨by rw [h.sum_eq, groupSizes_sum F O hO], ?_⟩
  rw [h.length_eq]
  simp [groupSizes]

theorem groupLow_le {sizes : List Nat} {F O : Nat} (hs : sizes.sum = F) (hl : sizes.length = O) {o : Nat} (ho : o < O) :
    groupLow sizes o + sizes.getD o 0 ≤ F := by
  rw [← hs]
  unfold groupLow
  have h1 : o < sizes.length := by omega
  conv_rhs => rw [← List.take_append_drop o sizes]
  rw [List.sum_append, List.drop_eq_getElem_cons h1, List.sum_cons, getD_of_lt h1]
  omega

theorem factLeaf_WF {P : Params} (hP : P.Random) (B : BaseLeaf) {O : Nat} (hO : 0 < O) :
    (FactLeaf.build P B O).WF (featureGroup P B.num_features O) := by
  obtain ⟨hs, hl⟩ := shuffled_sum hP (F := B.num_features) hO
  refine ⟨rfl, fun f hf o ho r hr => ?_, fun r hr f hf => ?_⟩
  · have hp := argsort_isPerm (hP.randperm r B.num_features)
    have h1 := (findGroup_spec _ _ (by rw [hs]; exact hp.q_lt f hf)).2 o (by rw [hl]; exact ho)
    have h2 := groupLow_le hs hl ho
    have h3 := mem_slice hp hf (a := groupLow (P.shuffle (groupSizes B.num_features O)) o) h2
    have h4 : (f ∈ ((P.randperm r B.num_features).take (groupHigh B.num_features O (P.shuffle (groupSizes B.num_features O)) o)).drop
        (groupLow (P.shuffle (groupSizes B.num_features O)) o)) ↔ featureGroup P B.num_features O r f = o := by
      rw [groupHigh_eq hs hl, h3]
      exact h1.symm
    refine Eq.trans (show _ = if f ∈ ((P.randperm r B.num_features).take
      (groupHigh B.num_features O (P.shuffle (groupSizes B.num_features O)) o)).drop
        (groupLow (P.shuffle (groupSizes B.num_features O)) o) then Fl.fin 1 else Fl.fin 0 from rfl) ?_
    by_cases hc : featureGroup P B.num_features O r f = o
    · rw [if_pos hc, if_pos (h4.2 hc)]
    · rw [if_neg hc, if_neg fun hg => hc (h4.1 hg)]
  · have hp := argsort_isPerm (hP.randperm r B.num_features)
    have h1 := (findGroup_spec _ _ (by rw [hs]; exact hp.q_lt f hf)).1
    rw [hl] at h1
    exact h1

theorem factSimple_WF {P : Params} (hP : P.Random) (B : BaseLeaf) {O : Nat} (hO : 0 < O) (hR : B.num_repetitions = 1) :
    (FactSimple.build P B O).WF :=
  ⟨hR, hO, argsort_isPerm (hP.randperm 0 _)⟩

/-! ### Checks -/

open Props (checkInt_iff require_bind_iff checkDropout_iff C26_zero_bound_refuted) in
/-- `assert_valid` spelled out. -/
theorem assertValid_iff (c : Config) : c.assertValid = .ok () ↔
    2 ≤ c.num_features ∧ 1 ≤ c.num_channels ∧ 1 ≤ c.num_classes ∧ 1 ≤ c.num_sums ∧ 1 ≤ c.num_repetitions ∧
    1 ≤ c.num_leaves ∧ (∀ q, c.dropout = some q → Fl.lt q (.fin 1)) ∧ c.leaf_type = .leaf ∧
    c.layer_type ∈ ["linsum", "linsum2", "einsum"] ∧ c.structure' ∈ ["top-down", "bottom-up"] ∧
    (c.structure' = "bottom-up" → c.layer_type = "linsum") ∧ c.cardinality.getD 1 ≠ 0 ∧
    (2 : ℚ) ^ c.depth ≤ (Int.fdiv c.num_features (c.cardinality.getD 1) : ℤ) := by
  unfold Config.assertValid
  rw [C26_zero_bound_refuted]
  simp only [Res.ok_bind]
  rw [checkInt_iff _ _ (by norm_num), checkInt_iff _ _ (by norm_num), checkInt_iff _ _ (by norm_num),
    checkInt_iff _ _ (by norm_num), checkInt_iff _ _ (by norm_num), checkInt_iff _ _ (by norm_num),
    checkDropout_iff, require_bind_iff, require_bind_iff, require_bind_iff, require_bind_iff]
  have key : ∀ k : Res Unit, ((if c.structure' = "bottom-up" then (do
      require .assertion (c.layer_type = "linsum")
      k) else k) = .ok ()) ↔ ((c.structure' = "bottom-up" → c.layer_type = "linsum") ∧ k = .ok ()) := by
    intro k
    by_cases hb : c.structure' = "bottom-up"
    · simp only [hb, if_true, true_imp_iff]
      rw [require_bind_iff]
    · simp [hb]
  have key2 := key (do
    require .zeroDivision (c.cardinality.getD 1 ≠ 0)
    require .assertion ((2 : ℚ) ^ c.depth ≤ (Int.fdiv c.num_features (c.cardinality.getD 1) : ℤ)))
  rw [require_bind_iff, require_ok_iff] at key2
  refine Iff.trans (and_congr_right fun _ => and_congr_right fun _ => and_congr_right fun _ => and_congr_right fun _ =>
    and_congr_right fun _ => and_congr_right fun _ => and_congr_right fun _ => and_congr_right fun _ =>
    and_congr_right fun _ => and_congr_right fun _ => and_congr_right fun _ => key2) ?_
  constructor
  · rintro ⟨h1, h2, h3, h4, h5, h6, h7, h8, h9, h10, h11, h12⟩
    exact ⟨h1, h2, h3, h4, h5, h6, h7, h11, h9, h10, h12⟩
  · rintro ⟨h1, h2, h3, h4, h5, h6, h7, h11, h9, h10, h12⟩
    exact ⟨h1, h2, h3, h4, h5, h6, h7, by rw [h11]; simp, h9, h10, h11, h12⟩

/-- the dropout probabilities accepted by sum layers. -/
def DropOK (d : Option Fl) : Prop := ∃ p : ℝ, d = some (.fin p) ∧ 0 ≤ p ∧ p < 1

open Props (checkInt_iff require_bind_iff checkDropout_iff) in
theorem checkSumLayer_iff (F S O R : ℤ) (d : Option Fl) :
    checkSumLayer F S O R d = .ok () ↔ 1 ≤ F ∧ 1 ≤ R ∧ 1 ≤ S ∧ 1 ≤ O ∧ DropOK d := by
  unfold checkSumLayer
  rw [checkInt_iff _ _ (by norm_num), checkInt_iff _ _ (by norm_num), checkInt_iff _ _ (by norm_num),
    checkInt_iff _ _ (by norm_num)]
  refine and_congr_right fun _ => and_congr_right fun _ => and_congr_right fun _ => and_congr_right fun _ => ?_
  cases d with
  | none => simp [optFloat, checkValid, DropOK]
  | some q =>
    have e : checkValid (optFloat (some q)) .float (some (.float (.fin 0))) (some (.float (.fin 1))) =
        (do require .value (Fl.lt q (.fin 1)); return some (.float q)) := by
      simp [optFloat, checkValid, checkType, checkBounds, checkBound, truthy, Num.val, PyVal.scalar, Num.cast]
    rw [e]
    by_cases h : Fl.lt q (.fin 1)
    · simp only [require_true _ h, Res.ok_bind, Res.pure_eq, require_ok_iff]
      cases q <;> simp_all [DropOK, flGe, Fl.lt]
      rename_i r
      constructor
      · intro h1; rcases h1 with h1 | h1
        · exact h1.le
        · exact h1.ge
      · intro h1; exact (lt_or_eq_of_le h1).imp id (·.symm)
    · simp only [require_false _ h, Res.error_bind]
      refine ⟨fun h => by simp at h, ?_⟩
      rintro ⟨p, hp, _, h2⟩
      cases hp
      exact absurd (by simpa [Fl.lt] using h2) h

theorem dropOK_zero : DropOK (some (.fin 0)) := ⟨0, rfl, le_refl _, one_pos⟩

/-! ### Layers -/

/-- dropout is fine for the layers of this type. -/
def LayerDrop (c : Config) : Prop := c.layer_type ≠ "einsum" → DropOK c.dropout

theorem mkLayer_WF {c : Config} {F S O : Nat} {w : List Nat → ℝ} {l : Layer} (h : mkLayer c F S O w = .ok l)
    (hF : 2 ≤ F) (hE : c.layer_type ≠ "linsum" → F % 2 = 0) :
    l.WF F S ((F + F % 2) / 2) O c.num_repetitions.toNat ∧ l.numFeaturesOut = (F + F % 2) / 2 := by
  have hpos : ∀ {F S O R : ℤ} {d : Option Fl} {l' : Layer}, (do checkSumLayer F S O R d; return l' : Res Layer) = .ok l →
      l' = l ∧ 1 ≤ R ∧ 1 ≤ S ∧ 1 ≤ O := by
    intro F S O R d l' h
    cases e : checkSumLayer F S O R d with
    | error e' => rw [e] at h; simp at h
    | ok u =>
      rw [e] at h
      obtain ⟨_, h2, h3, h4, _⟩ := (checkSumLayer_iff F S O R d).1 e
      simp only [Res.ok_bind, Res.pure_eq, Except.ok.injEq] at h
      exact ⟨h, h2, h3, h4⟩
  unfold mkLayer at h
  dsimp only at h
  split_ifs at h with h1 h2 h3
  · obtain ⟨rfl, hR, hS, hO⟩ := hpos h
    have e := hE (by rw [h1]; decide)
    have hh : (F + F % 2) / 2 = F / 2 := by omega
    rw [hh]
    refine ⟨Layer.WF.einsum _ rfl (fun i _ => ⟨_, rfl⟩) (by show 0 < S; omega) (by show 0 < O; omega)
      (by show 0 < c.num_repetitions.toNat; omega) hF e, rfl⟩
  · obtain ⟨rfl, hR, hS, hO⟩ := hpos h
    exact ⟨Layer.WF.linsum _ rfl (fun i _ => ⟨_, rfl⟩) (by show 0 < S; omega) hF, rfl⟩
  · obtain ⟨rfl, hR, hS, hO⟩ := hpos h
    have e := hE (by rw [h3]; decide)
    exact ⟨Layer.WF.linsum2 _ rfl (fun i _ => ⟨_, rfl⟩) (by show 0 < S; omega) hF e, rfl⟩

theorem mkLayer_ok {c : Config} {F S O : Nat} (w : List Nat → ℝ) (hl : c.layer_type ∈ ["linsum", "linsum2", "einsum"])
    (hF : 1 ≤ F) (hS : 1 ≤ S) (hO : 1 ≤ O) (hR : 1 ≤ c.num_repetitions) (hd : LayerDrop c) :
    ∃ l, mkLayer c F S O w = .ok l := by
  unfold mkLayer
  dsimp only
  have hd1 := (checkSumLayer_iff F S O c.num_repetitions (some (.fin 0))).2
    ⟨by omega, hR, by omega, by omega, dropOK_zero⟩
  have hd2 : c.layer_type ≠ "einsum" → checkSumLayer F S O c.num_repetitions c.dropout = .ok () := fun hne =>
    (checkSumLayer_iff F S O c.num_repetitions c.dropout).2 ⟨by omega, hR, by omega, by omega, hd hne⟩
  simp only [List.mem_cons, List.not_mem_nil, or_false] at hl
  rcases hl with hl | hl | hl
  · rw [if_neg (by rw [hl]; decide), if_pos hl, hd2 (by rw [hl]; decide)]
    exact ⟨_, rfl⟩
  · rw [if_neg (by rw [hl]; decide), if_neg (by rw [hl]; decide), if_pos hl, hd2 (by rw [hl]; decide)]
    exact ⟨_, rfl⟩
  · rw [if_pos hl, hd1]
    exact ⟨_, rfl⟩

theorem mkSum_WF {F S O R : ℤ} {d : Option Fl} {w : List Nat → ℝ} {L : SumL} (h : mkSum F S O R d w = .ok L) :
    (Layer.sum L).WF F.toNat S.toNat F.toNat O.toNat R.toNat ∧ DropOK d := by
  unfold mkSum at h
  cases e : checkSumLayer F S O R d with
  | error e' => rw [e] at h; simp at h
  | ok u =>
    rw [e] at h
    obtain ⟨_, h2, h3, h4, h5⟩ := (checkSumLayer_iff F S O R d).1 e
    simp only [Res.ok_bind, Res.pure_eq, Except.ok.injEq] at h
    subst h
    exact ⟨Layer.WF.sum (mkSumL F.toNat S.toNat O.toNat R.toNat SumLayer.weightShape w) rfl (fun i _ => ⟨_, rfl⟩)
      (by show 0 < S.toNat; omega), h5⟩

theorem mkSum_ok {F S O R : ℤ} {d : Option Fl} (w : List Nat → ℝ) (hF : 1 ≤ F) (hS : 1 ≤ S) (hO : 1 ≤ O) (hR : 1 ≤ R)
    (hd : DropOK d) : ∃ L, mkSum F S O R d w = .ok L := by
  unfold mkSum
  rw [(checkSumLayer_iff F S O R d).2 ⟨hF, hR, hS, hO, hd⟩]
  exact ⟨_, rfl⟩

/-- number of sums entering layer `n` of the top-down structure. -/
def topIn (c : Config) (n : Nat) : Nat :=
  if n = 0 then c.num_classes.toNat else if (n : ℤ) < c.depth then c.num_sums.toNat else c.num_leaves.toNat

theorem topDownLayers_chain {c : Config} {P : Params} {n : Nat} (hn : (n : ℤ) ≤ c.depth) {ls : List Layer}
    (h : topDownLayers c P n = .ok ls) :
    Chain ls (2 ^ n) (topIn c n) 1 c.num_classes.toNat c.num_repetitions.toNat := by
  induction n generalizing ls with
  | zero =>
    simp only [topDownLayers, Except.ok.injEq] at h
    subst h
    simp only [topIn, if_true, pow_zero]
    exact Chain.nil _ _ _
  | succ n ih =>
    unfold topDownLayers at h
    cases e : topDownLayers c P n with
    | error e' => rw [e] at h; simp at h
    | ok above =>
      rw [e] at h
      have ih := ih (by omega) e
      simp only [Res.ok_bind] at h
      cases e2 : mkLayer c (2 ^ (n + 1)) (if ((n + 1 : Nat) : ℤ) < c.depth then c.num_sums else c.num_leaves).toNat
          (if n + 1 = 1 then c.num_classes else c.num_sums).toNat (P.logits (n + 1)) with
      | error e' => rw [e2] at h; simp at h
      | ok l =>
        rw [e2] at h
        simp only [Res.ok_bind, Res.pure_eq, Except.ok.injEq] at h
        subst h
        have hp : 2 ^ (n + 1) = 2 * 2 ^ n := by ring
        have h1 : 1 ≤ 2 ^ n := Nat.one_le_two_pow
        have hw := (mkLayer_WF e2 (by omega) (fun _ => by omega)).1
        have hhalf : (2 ^ (n + 1) + 2 ^ (n + 1) % 2) / 2 = 2 ^ n := by omega
        rw [hhalf] at hw
        have hS : (if ((n + 1 : Nat) : ℤ) < c.depth then c.num_sums else c.num_leaves).toNat = topIn c (n + 1) := by
          unfold topIn
          rw [if_neg (show ¬ n + 1 = 0 by omega)]
          split_ifs <;> rfl
        have hO : (if n + 1 = 1 then c.num_classes else c.num_sums).toNat = topIn c n := by
          unfold topIn
          by_cases h0 : n = 0
          · subst h0; simp
          · rw [if_neg (by omega), if_neg h0, if_pos (by omega)]
        rw [hS, hO] at hw
        exact Chain.cons hw ih

theorem topDownLayers_ok {c : Config} (P : Params) (hl : c.layer_type ∈ ["linsum", "linsum2", "einsum"])
    (hs : 1 ≤ c.num_sums) (hv : 1 ≤ c.num_leaves) (hc : 1 ≤ c.num_classes) (hR : 1 ≤ c.num_repetitions)
    (hd : LayerDrop c) (n : Nat) : ∃ ls, topDownLayers c P n = .ok ls := by
  induction n with
  | zero => exact ⟨_, rfl⟩
  | succ n ih =>
    obtain ⟨above, e⟩ := ih
    unfold topDownLayers
    rw [e]
    obtain ⟨l, e2⟩ := mkLayer_ok (F := 2 ^ (n + 1))
      (S := (if ((n + 1 : Nat) : ℤ) < c.depth then c.num_sums else c.num_leaves).toNat)
      (O := (if n + 1 = 1 then c.num_classes else c.num_sums).toNat) (P.logits (n + 1)) hl Nat.one_le_two_pow
      (by split_ifs <;> omega) (by split_ifs <;> omega) hR hd
    simp only [Res.ok_bind]
    rw [e2]
    exact ⟨_, rfl⟩

theorem Chain.snoc {ls : List Layer} {Di Si Dm Sm R : Nat} (h : Chain ls Di Si Dm Sm R) {l : Layer} {Do So : Nat}
    (hl : l.WF Dm Sm Do So R) : Chain (ls ++ [l]) Di Si Do So R := by
  induction h with
  | nil D S R => exact Chain.cons hl (Chain.nil _ _ _)
  | cons h hs ih => exact Chain.cons h (ih hl)

/-- number of sums leaving the first `n` layers of the bottom-up structure. -/
def botOut (c : Config) (n : Nat) : Nat := if n = 0 then c.num_leaves.toNat else c.num_sums.toNat

theorem bottomUpLayers_chain {c : Config} {P : Params} {n m : Nat} (hl : c.layer_type = "linsum")
    (hF : 2 ^ (n + m) ≤ c.num_features.toNat) {ls : List Layer} {f : Nat}
    (h : bottomUpLayers c P n = .ok (ls, f)) :
    Chain ls c.num_features.toNat c.num_leaves.toNat f (botOut c n) c.num_repetitions.toNat ∧ 2 ^ m ≤ f := by
  induction n generalizing ls f m with
  | zero =>
    simp only [bottomUpLayers, Except.ok.injEq, Prod.mk.injEq] at h
    obtain ⟨rfl, rfl⟩ := h
    exact ⟨Chain.nil _ _ _, by simpa using hF⟩
  | succ n ih =>
    unfold bottomUpLayers at h
    cases e : bottomUpLayers c P n with
    | error e' => rw [e] at h; simp at h
    | ok p =>
      obtain ⟨below, f'⟩ := p
      rw [e] at h
      obtain ⟨hc, hf⟩ := ih (m := m + 1) (by rw [show n + (m + 1) = n + 1 + m by omega]; exact hF) e
      simp only [Res.ok_bind] at h
      cases e2 : mkLayer c f' (if n = 0 then c.num_leaves else c.num_sums).toNat c.num_sums.toNat (P.logits n) with
      | error e' => rw [e2] at h; simp at h
      | ok l =>
        rw [e2] at h
        simp only [Res.ok_bind, Res.pure_eq, Except.ok.injEq, Prod.mk.injEq] at h
        obtain ⟨rfl, rfl⟩ := h
        have hp : 2 ^ (m + 1) = 2 * 2 ^ m := by ring
        have h1 : 1 ≤ 2 ^ m := Nat.one_le_two_pow
        obtain ⟨hw, ho⟩ := mkLayer_WF e2 (by omega) (fun h => absurd hl h)
        have hS : (if n = 0 then c.num_leaves else c.num_sums).toNat = botOut c n := by
          unfold botOut
          split_ifs <;> rfl
        rw [hS] at hw
        rw [ho]
        exact ⟨hc.snoc (by simpa [botOut] using hw), by omega⟩

theorem bottomUpLayers_ok {c : Config} (P : Params) (hl : c.layer_type = "linsum")
    (hs : 1 ≤ c.num_sums) (hv : 1 ≤ c.num_leaves) (hR : 1 ≤ c.num_repetitions) (hF : 1 ≤ c.num_features)
    (hd : LayerDrop c) (n : Nat) : ∃ ls f, bottomUpLayers c P n = .ok (ls, f) ∧ 1 ≤ f := by
  induction n with
  | zero => exact ⟨_, _, rfl, by omega⟩
  | succ n ih =>
    obtain ⟨below, f, e, hf⟩ := ih
    unfold bottomUpLayers
    rw [e]
    obtain ⟨l, e2⟩ := mkLayer_ok (F := f)
      (S := (if n = 0 then c.num_leaves else c.num_sums).toNat) (O := c.num_sums.toNat) (P.logits n)
      (by rw [hl]; simp) hf (by split_ifs <;> omega) (by omega) hR hd
    simp only [Res.ok_bind]
    rw [e2]
    refine ⟨_, _, rfl, ?_⟩
    unfold mkLayer at e2
    dsimp only at e2
    rw [if_neg (by rw [hl]; decide), if_pos hl] at e2
    cases e3 : checkSumLayer f (if n = 0 then c.num_leaves else c.num_sums).toNat c.num_sums.toNat c.num_repetitions
        c.dropout with
    | error e' => rw [e3] at e2; simp at e2
    | ok u =>
      rw [e3] at e2
      simp only [Res.ok_bind, Res.pure_eq, Except.ok.injEq] at e2
      subst e2
      show 1 ≤ (f + f % 2) / 2
      omega

/-! ### Leaves -/

/-- the leaf has the requested sizes. -/
def BaseLeaf.Dims (B : BaseLeaf) (d : LeafDims) : Prop :=
  B.num_features = d.num_features ∧ B.num_channels = d.num_channels ∧ B.num_leaves = d.num_leaves ∧
    B.num_repetitions = d.num_repetitions

theorem bind_ok {α β : Type} {x : Res α} {f : α → Res β} {b : β} (h : (x >>= f) = .ok b) : ∃ a, x = .ok a ∧ f a = .ok b := by
  cases x with
  | error e => simp at h
  | ok a => exact ⟨a, rfl, h⟩

theorem ratProject_sigma {lo hi : ℝ} {a b : Option ℝ} {m s : ℝ} {p : ℝ × ℝ} (h : ratProject lo hi a b m s = .ok p) (h0 : 0 ≤ lo)
    (h1 : lo < hi) : 0 < p.2 := by
  have hs : 0 < lo + (hi - lo) * Real.sigmoid s := by
    have := mul_pos (sub_pos.2 h1) (Real.sigmoid_pos s)
    linarith
  unfold ratProject at h
  simp only [h1, if_true] at h
  cases b with
  | none => simp only [Res.pure_eq, Except.ok.injEq] at h; subst h; exact hs
  | some b =>
    dsimp only at h
    split_ifs at h with hb
    · simp only [Res.pure_eq, Except.ok.injEq] at h; subst h; exact hs
    · cases a with
      | none => simp at h
      | some a => simp only [Res.pure_eq, Except.ok.injEq] at h; subst h; exact hs

theorem checkSigma {lo hi : ℝ} {w : Option Num} (hhi : hi ≠ 0)
    (h : checkValid (optReal (some lo)) .float (some (.float (.fin 0))) (optBound (some hi)) = .ok w) : lo < hi := by
  simp [optReal, optBound, checkValid, checkType, checkBounds, checkBound, truthy, Num.val, PyVal.scalar, Num.cast, hhi] at h
  by_cases hl : Fl.lt (.fin lo) (.fin hi)
  · simpa [Fl.lt] using hl
  · have hl' : ¬ lo < hi := by simpa [Fl.lt] using hl
    simp [hl'] at h

namespace LeafSpec

theorem build_spec {s : LeafSpec} {card : Option ℤ} {d : LeafDims} {B : BaseLeaf} (h : s.build card d = .ok B) :
    card = none ∧ B.Dims d ∧ (s.Good → B.Proper) ∧ (s.Good → s.CanSample → B.Samp) := by
  unfold build at h
  obtain ⟨_, hc, h⟩ := bind_ok h
  rw [require_ok_iff] at hc
  refine ⟨hc, ?_⟩
  cases s with
  | normal means logvar =>
    simp only [Res.pure_eq, Except.ok.injEq] at h
    subst h
    exact ⟨⟨rfl, rfl, rfl, rfl⟩, fun _ => normalLeaf_proper _ _ _, fun _ _ => normalLeaf_samp _ _ _⟩
  | bernoulli probs =>
    simp only [Res.pure_eq, Except.ok.injEq] at h
    subst h
    exact ⟨⟨rfl, rfl, rfl, rfl⟩, fun _ => bernoulliLeaf_proper _ _, fun _ h => h.elim⟩
  | binomial n logits =>
    obtain ⟨_, _, h⟩ := bind_ok h
    simp only [Res.pure_eq, Except.ok.injEq] at h
    subst h
    exact ⟨⟨rfl, rfl, rfl, rfl⟩, fun _ => binomialLeaf_proper _ _ _, fun _ _ => binomialLeaf_samp _ _ _⟩
  | categorical n logits =>
    obtain ⟨_, _, h⟩ := bind_ok h
    simp only [Res.pure_eq, Except.ok.injEq] at h
    subst h
    exact ⟨⟨rfl, rfl, rfl, rfl⟩, fun h => categoricalLeaf_proper _ (by change 1 ≤ n at h; omega) _,
      fun h _ => categoricalLeaf_samp _ (by change 1 ≤ n at h; omega) _⟩
  | ratNormal lo hi a b means stds =>
    obtain ⟨_, h1, h⟩ := bind_ok h
    obtain ⟨_, _, h⟩ := bind_ok h
    obtain ⟨_, _, h⟩ := bind_ok h
    obtain ⟨_, _, h⟩ := bind_ok h
    obtain ⟨_, hm, h⟩ := bind_ok h
    simp only [Res.pure_eq, Except.ok.injEq] at h
    subst h
    have hs : Good (.ratNormal lo hi a b means stds) → ∀ c f i r, 0 < (match ratProject lo hi a b (means c f i r)
        (stds c f i r) with
        | .ok p => p
        | .error _ => ((0 : ℝ), (1 : ℝ))).2 := by
      rintro ⟨g1, g2⟩ c f i r
      cases e : ratProject lo hi a b (means c f i r) (stds c f i r) with
      | error e' => exact one_pos
      | ok p => exact ratProject_sigma e g1 (checkSigma g2.ne' h1)
    exact ⟨⟨rfl, rfl, rfl, rfl⟩, fun hg => gaussLeaf_proper _ _ (hs hg), fun hg _ => gaussLeaf_samp _ _ (hs hg)⟩

end LeafSpec

/-! ### The constructed model -/

theorem buildRoots_spec {c : Config} {P : Params} {mix root : SumL} (h : buildRoots c P = .ok (mix, root)) :
    (1 < c.num_repetitions → DropOK c.dropout) ∧
    (mix.num_features = 1 ∧ mix.num_sums_in = c.num_repetitions.toNat ∧ mix.num_sums_out = c.num_classes.toNat ∧
      mix.logits.shape = MixingLayer.weightShape mix ∧ mix.FinLogits) ∧
    (root.num_features = 1 ∧ root.num_sums_in = c.num_classes.toNat ∧ root.num_sums_out = 1 ∧ root.num_repetitions = 1 ∧
      root.logits.shape = SumLayer.weightShape root ∧ root.FinLogits) := by
  unfold buildRoots at h
  have h' : (1 < c.num_repetitions → DropOK c.dropout) ∧
      (mkSumL 1 c.num_repetitions.toNat c.num_classes.toNat 1 MixingLayer.weightShape P.mixLogits,
        mkSumL 1 c.num_classes.toNat 1 1 SumLayer.weightShape P.classLogits) = (mix, root) := by
    dsimp only at h
    split_ifs at h with h1 h2 h2
    · obtain ⟨_, e1, h⟩ := bind_ok h
      obtain ⟨_, e2, h⟩ := bind_ok h
      exact ⟨fun _ => ((checkSumLayer_iff _ _ _ _ _).1 e1).2.2.2.2, by simpa using h⟩
    · obtain ⟨_, e1, h⟩ := bind_ok h
      exact ⟨fun _ => ((checkSumLayer_iff _ _ _ _ _).1 e1).2.2.2.2, by simpa using h⟩
    · obtain ⟨_, e1, h⟩ := bind_ok h
      obtain ⟨_, e2, h⟩ := bind_ok h
      exact ⟨fun h => absurd h h1, by simpa using h⟩
    · obtain ⟨_, e1, h⟩ := bind_ok h
      exact ⟨fun h => absurd h h1, by simpa using h⟩
  obtain ⟨hd, h'⟩ := h'
  simp only [Prod.mk.injEq] at h'
  obtain ⟨rfl, rfl⟩ := h'
  exact ⟨hd, ⟨rfl, rfl, rfl, rfl, fun i _ => ⟨_, rfl⟩⟩, rfl, rfl, rfl, rfl, rfl, fun i _ => ⟨_, rfl⟩⟩

theorem buildRoots_ok {c : Config} (P : Params) (hc : 1 ≤ c.num_classes) (hd : 1 < c.num_repetitions → DropOK c.dropout) :
    ∃ m r, buildRoots c P = .ok (m, r) := by
  unfold buildRoots
  have h2 : 1 < c.num_classes → checkSumLayer 1 c.num_classes 1 1 (some (.fin 0)) = .ok () := fun h =>
    (checkSumLayer_iff _ _ _ _ _).2 ⟨le_refl _, le_refl _, by omega, le_refl _, dropOK_zero⟩
  have h1 : 1 < c.num_repetitions → checkSumLayer 1 c.num_repetitions c.num_classes 1 c.dropout = .ok () := fun h =>
    (checkSumLayer_iff _ _ _ _ _).2 ⟨le_refl _, le_refl _, by omega, hc, hd h⟩
  dsimp only
  split_ifs with a b b
  · rw [h1 a, h2 b]; exact ⟨_, _, rfl⟩
  · rw [h1 a]; exact ⟨_, _, rfl⟩
  · rw [h2 b]; exact ⟨_, _, rfl⟩
  · exact ⟨_, _, rfl⟩

theorem buildInput_base (P : Params) (B : BaseLeaf) (O : Nat) : (buildInput P B O).base = B := by
  unfold buildInput
  split_ifs <;> rfl

/-- sizes of a constructed model. -/
structure Model.Sizes (M : Model) (c : Config) : Prop where
  features : M.num_features = c.num_features.toNat
  channels : M.num_channels = c.num_channels.toNat
  classes : M.num_classes = c.num_classes.toNat
  leaves : M.num_leaves = c.num_leaves.toNat
  reps : M.num_repetitions = c.num_repetitions.toNat

/-- assignment of features to groups of a constructed model (top-down structure). -/
def buildGroups (c : Config) (P : Params) : Nat → Nat → Nat :=
  featureGroup P c.num_features.toNat (2 ^ c.depth.toNat)

theorem buildTopDown_spec' {c : Config} {P : Params} (hP : P.Random) (v3 : 1 ≤ c.num_classes)
    (v5 : 1 ≤ c.num_repetitions) (v6 : 1 ≤ c.num_leaves) {M : Model} (h : buildTopDown c P = .ok M) :
    0 ≤ c.depth ∧ M.Sizes c ∧ M.WF (buildGroups c P) ∧
    ∃ B, P.leaf.build c.cardinality c.leafDims = .ok B ∧ M.leaf = buildInput P B (2 ^ c.depth.toNat) := by
  unfold buildTopDown at h
  obtain ⟨⟨layers, O⟩, hls, h⟩ := bind_ok h
  obtain ⟨B, hB, h⟩ := bind_ok h
  obtain ⟨⟨mix, root⟩, hr, h⟩ := bind_ok h
  simp only [Res.pure_eq, Except.ok.injEq] at h
  obtain ⟨_, ⟨d1, d2, d3, d4⟩, _, _⟩ := LeafSpec.build_spec hB
  obtain ⟨_, hmix, hroot⟩ := buildRoots_spec hr
  have hchain : 0 ≤ c.depth ∧ O = 2 ^ c.depth.toNat ∧
      Chain layers O c.num_leaves.toNat 1 c.num_classes.toNat c.num_repetitions.toNat := by
    unfold topDownStructure at hls
    split_ifs at hls with h0 h1
    · obtain ⟨L, hL, hls⟩ := bind_ok hls
      simp only [Res.pure_eq, Except.ok.injEq, Prod.mk.injEq] at hls
      obtain ⟨rfl, rfl⟩ := hls
      have := (mkSum_WF hL).1
      exact ⟨by omega, by simp [h0], Chain.cons this (Chain.nil _ _ _)⟩
    · obtain ⟨ls, hL, hls⟩ := bind_ok hls
      simp only [Res.pure_eq, Except.ok.injEq, Prod.mk.injEq] at hls
      obtain ⟨rfl, rfl⟩ := hls
      have hn : ((c.depth.toNat : Nat) : ℤ) = c.depth := Int.toNat_of_nonneg (by omega)
      have := topDownLayers_chain (by omega) hL
      rw [show topIn c c.depth.toNat = c.num_leaves.toNat by
        unfold topIn; rw [if_neg (by omega), if_neg (by omega)]] at this
      exact ⟨by omega, rfl, this⟩
  obtain ⟨hdep, rfl, hchain⟩ := hchain
  have hO : 0 < 2 ^ c.depth.toNat := by positivity
  refine ⟨hdep, by subst h; exact ⟨rfl, rfl, rfl, rfl, rfl⟩, ?_, B, hB, by subst h; rfl⟩
  have hout : M.numOut = 2 ^ c.depth.toNat := by
    subst h
    unfold Model.numOut buildInput
    split_ifs <;> rfl
  subst h
  refine ⟨⟨?_, ?_, ?_, ?_, ?_, ?_, fun _ => rfl, fun p q h => by simp at h⟩, by rw [hout]; exact hchain, ?_, ?_, ?_,
    fun _ => hmix, fun _ => hroot⟩
  · rw [buildInput_base]; exact d1
  · rw [buildInput_base]; exact d2
  · rw [buildInput_base]; exact d3
  · rw [buildInput_base]; exact d4
  · intro L hL
    dsimp only [buildInput] at hL
    split_ifs at hL with h1
    cases hL
    have := factLeaf_WF hP B hO
    rw [d1] at this
    exact this
  · intro L hL
    dsimp only [buildInput] at hL
    split_ifs at hL with h1
    cases hL
    exact factSimple_WF hP B hO h1
  · show 0 < c.num_classes.toNat; omega
  · show 0 < c.num_leaves.toNat; omega
  · show 0 < c.num_repetitions.toNat; omega

theorem buildTopDown_spec {c : Config} {P : Params} (hP : P.Random) (hv : c.assertValid = .ok ()) {M : Model}
    (h : buildTopDown c P = .ok M) :
    0 ≤ c.depth ∧ M.Sizes c ∧ M.WF (buildGroups c P) ∧
    ∃ B, P.leaf.build c.cardinality c.leafDims = .ok B ∧ M.leaf = buildInput P B (2 ^ c.depth.toNat) := by
  obtain ⟨v1, v2, v3, v4, v5, v6, v7, v8, v9, v10, v11, v12, v13⟩ := (assertValid_iff c).1 hv
  exact buildTopDown_spec' hP (by omega) (by omega) (by omega) h

theorem getD_map_range {α : Type} (f : Nat → α) {n r : Nat} (hr : r < n) (a : α) : ((List.range n).map f).getD r a = f r := by
  simp [List.getD_eq_getElem?_getD, hr]

theorem buildBottomUp_spec {c : Config} {P : Params} (hP : P.Random) (hv : c.assertValid = .ok ())
    (hb : c.structure' = "bottom-up") {M : Model} (h : buildBottomUp c P = .ok M) (g : Nat → Nat → Nat) :
    0 < c.depth ∧ M.Sizes c ∧ M.WF g ∧
    ∃ B, P.leaf.build c.cardinality c.leafDims = .ok B ∧ M.leaf = .direct B := by
  obtain ⟨v1, v2, v3, v4, v5, v6, v7, v8, v9, v10, v11, v12, v13⟩ := (assertValid_iff c).1 hv
  unfold buildBottomUp at h
  obtain ⟨layers, hls, h⟩ := bind_ok h
  obtain ⟨B, hB, h⟩ := bind_ok h
  obtain ⟨⟨mix, root⟩, hr, h⟩ := bind_ok h
  simp only [Res.pure_eq, Except.ok.injEq] at h
  obtain ⟨hcard, ⟨d1, d2, d3, d4⟩, _, _⟩ := LeafSpec.build_spec hB
  obtain ⟨_, hmix, hroot⟩ := buildRoots_spec hr
  have hchain : 0 < c.depth ∧
      Chain layers c.num_features.toNat c.num_leaves.toNat 1 c.num_classes.toNat c.num_repetitions.toNat := by
    unfold bottomUpStructure at hls
    split_ifs at hls with h0
    obtain ⟨⟨ls, f⟩, hL, hls⟩ := bind_ok hls
    obtain ⟨L, hL2, hls⟩ := bind_ok hls
    simp only [Res.pure_eq, Except.ok.injEq] at hls
    subst hls
    refine ⟨by omega, ?_⟩
    have hn : ((c.depth.toNat : Nat) : ℤ) = c.depth := Int.toNat_of_nonneg (by omega)
    have hpow : 2 ^ (c.depth.toNat + 0) ≤ c.num_features.toNat := by
      rw [hcard] at v13
      simp only [Option.getD_none, Int.fdiv_one] at v13
      rw [← hn, zpow_natCast] at v13
      have h3 : ((2 : ℤ) ^ c.depth.toNat) ≤ c.num_features := by exact_mod_cast v13
      zify
      rw [Int.toNat_of_nonneg (by omega : 0 ≤ c.num_features)]
      simpa using h3
    obtain ⟨h1, h2⟩ := bottomUpLayers_chain (v11 hb) hpow hL
    have h3 := (mkSum_WF hL2).1
    rw [show (f : ℤ).toNat = f from rfl] at h3
    rw [show botOut c c.depth.toNat = c.num_sums.toNat by unfold botOut; rw [if_neg (by omega)]] at h1
    have := (h1.snoc h3).snoc (Layer.WF.rootProduct f c.num_classes.toNat c.num_repetitions.toNat)
    rw [List.append_assoc] at this
    exact this
  obtain ⟨hdep, hchain⟩ := hchain
  refine ⟨hdep, by subst h; exact ⟨rfl, rfl, rfl, rfl, rfl⟩, ?_, B, hB, by subst h; rfl⟩
  have hout : M.numOut = c.num_features.toNat := by subst h; exact d1
  subst h
  refine ⟨⟨d1, d2, d3, d4, fun L hL => by simp at hL, fun L hL => by simp at hL, fun h => absurd rfl (h B),
    fun p q h r hr => ?_⟩, by rw [hout]; exact hchain, ?_, ?_, ?_, fun _ => hmix, fun _ => hroot⟩
  · simp only [Option.some.injEq, Prod.mk.injEq] at h
    obtain ⟨rfl, rfl⟩ := h
    rw [List.map_map, getD_map_range _ hr, getD_map_range _ hr]
    exact argsort_isPerm (hP.randperm r _)
  · show 0 < c.num_classes.toNat; omega
  · show 0 < c.num_leaves.toNat; omega
  · show 0 < c.num_repetitions.toNat; omega

theorem build_valid {c : Config} {P : Params} {M : Model} (h : build c P = .ok M) : c.assertValid = .ok () := by
  unfold build at h
  obtain ⟨_, hv, _⟩ := bind_ok h
  exact hv

/-- every constructed model is well formed. -/
theorem build_WF {c : Config} {P : Params} (hP : P.Random) {M : Model} (h : build c P = .ok M) :
    M.Sizes c ∧ M.WF (buildGroups c P) ∧ (P.leaf.Good → M.leaf.base.Proper) ∧
      (P.leaf.Good → P.leaf.CanSample → M.leaf.base.Samp) := by
  have hv := build_valid h
  unfold build at h
  rw [hv] at h
  simp only [Res.ok_bind] at h
  split_ifs at h with h1 h2
  · obtain ⟨_, hs, hw, B, hB, e⟩ := buildTopDown_spec hP hv h
    obtain ⟨_, _, a, b⟩ := LeafSpec.build_spec hB
    rw [e, buildInput_base]
    exact ⟨hs, hw, a, b⟩
  · obtain ⟨_, hs, hw, B, hB, e⟩ := buildBottomUp_spec hP hv h2 h (buildGroups c P)
    obtain ⟨_, _, a, b⟩ := LeafSpec.build_spec hB
    rw [e]
    exact ⟨hs, hw, a, b⟩

end Einet
