import Verif.DataFacts
import Verif.PropsLoader

/-!
# C70: training, validation and test data
-/

open Classical
noncomputable section
namespace Einet

/-- a tactic for the branch that `get_datasets` takes for a name. -/
macro "dataset_branch" : tactic => `(tactic| (
  simp (decide := true) only [getDatasets, getDataShape, if_true, if_false, debdShapes, imageShapes, List.lookup, Option.isSome, Res.ok_bind,
    String.reduceBEq, or_true, true_or, or_false, false_or, or_self, bind_assoc, Res.pure_eq]
  try rfl))

namespace Props

/-- the data sets with a fixed test part whose training part is divided by the code. -/
def splitNames : List String := ["mnist", "mnist-32", "mnist-16", "fmnist", "fmnist-32", "cifar", "lfw"]

theorem getDatasets_split {name : String} (h : name ∈ splitNames) (S : Sources) (nz : Bool) (s : S.σ) :
    getDatasets S name nz s = splitRest S.torch (S.torch.seed 1) ((S.images name "train").map (normalizeEx nz)) >>= fun r =>
      .ok (⟨r.1, r.2, (S.images name "test").map (normalizeEx nz)⟩, s) := by
  simp only [splitNames, List.mem_cons, List.not_mem_nil, or_false] at h
  rcases h with rfl | rfl | rfl | rfl | rfl | rfl | rfl <;> dataset_branch

/-- Specification: the images as the model gets them: entries in `[0, 1]`, or in `[-1, 1]` if normalised. -/
def asImage (nz : Bool) (e : Example) : Example := (e.1.map fun x => if nz then 2 * x - 1 else x, e.2)

theorem normalizeEx_eq (nz : Bool) : normalizeEx nz = asImage nz := by
  funext e
  cases nz
  · simp [normalizeEx, asImage]
  · simp only [normalizeEx, asImage, if_true]
    congr 1
    refine List.map_congr_left fun x _ => ?_
    ring

/-- **C70**, images: for every number of training images and every permutation drawn, the call succeeds, the training part and the
validation part together are the training images, each image once, a tenth of them is for validation up to rounding, and the test images
are those of the library.  The split does not depend on random state. -/
theorem C70_images {name : String} (h : name ∈ splitNames) (S : Sources) (nz : Bool) (s : S.σ) :
    ∃ p, getDatasets S name nz s = .ok (p, s) ∧ (p.train ++ p.val).Perm ((S.images name "train").map (asImage nz)) ∧
      p.test = (S.images name "test").map (asImage nz) ∧
      |(p.train.length : ℝ) - 9 / 10 * (S.images name "train").length| ≤ 1 / 2 := by
  obtain ⟨r, h1, h2, h3, h4⟩ := splitRest_ok S.torch (S.torch.seed 1) ((S.images name "train").map (normalizeEx nz))
  rw [List.length_map] at h3 h4
  refine ⟨⟨r.1, r.2, (S.images name "test").map (normalizeEx nz)⟩, by rw [getDatasets_split h, h1, Res.ok_bind], ?_, ?_, ?_⟩
  · rw [← normalizeEx_eq]; exact h2
  · rw [← normalizeEx_eq]
  · have h3' : (9 * (S.images name "train").length : ℝ) ≤ 10 * r.1.length + 5 := by exact_mod_cast h3
    have h4' : (10 * r.1.length : ℝ) ≤ 9 * (S.images name "train").length + 5 := by exact_mod_cast h4
    rw [abs_le]
    constructor <;> simp only <;> linarith

/-- the binarised images. -/
theorem getDatasets_bin (S : Sources) (nz : Bool) (s : S.σ) :
    getDatasets S "mnist-bin" nz s = splitRest S.torch (S.torch.seed 1) (S.mnistBin.take 50000) >>= fun r =>
      .ok (⟨r.1, r.2, (S.mnistBin.take 60000).drop 50000⟩, s) := by
  dataset_branch

/-- **C70**, binarised images: the three parts are disjoint and make up the first 60000 images; whatever follows is not used. -/
theorem C70_bin (S : Sources) (nz : Bool) (s : S.σ) :
    ∃ p, getDatasets S "mnist-bin" nz s = .ok (p, s) ∧ (p.train ++ p.val ++ p.test).Perm (S.mnistBin.take 60000) ∧
      p.test.length ≤ 10000 := by
  obtain ⟨r, h1, h2, -⟩ := splitRest_ok S.torch (S.torch.seed 1) (S.mnistBin.take 50000)
  refine ⟨⟨r.1, r.2, (S.mnistBin.take 60000).drop 50000⟩, by rw [getDatasets_bin, h1, Res.ok_bind], ?_, ?_⟩
  · have e : S.mnistBin.take 60000 = S.mnistBin.take 50000 ++ (S.mnistBin.take 60000).drop 50000 := by
      conv_lhs => rw [← List.take_append_drop 50000 (S.mnistBin.take 60000)]
      rw [List.take_take]; rfl
    refine (h2.append_right ((S.mnistBin.take 60000).drop 50000)).trans (.of_eq e.symm)
  · simp only [List.length_drop, List.length_take]; omega

/-- the data sets whose three parts come from the library, with the name of the validation part. -/
def givenNames : List (String × String) :=
  [("celeba", "valid"), ("celeba-small", "valid"), ("celeba-tiny", "valid"), ("flowers", "val"), ("tiny-imagenet", "val")]

/-- **C70**, data sets that come in three parts: every part is used for its purpose. -/
theorem C70_given {name val : String} (h : (name, val) ∈ givenNames) (S : Sources) (nz : Bool) (s : S.σ) :
    getDatasets S name nz s = .ok (⟨(S.images name "train").map (asImage nz), (S.images name val).map (asImage nz),
      (S.images name "test").map (asImage nz)⟩, s) := by
  rw [← normalizeEx_eq]
  simp only [givenNames, List.mem_cons, List.not_mem_nil, or_false, Prod.mk.injEq] at h
  rcases h with ⟨rfl, rfl⟩ | ⟨rfl, rfl⟩ | ⟨rfl, rfl⟩ | ⟨rfl, rfl⟩ | ⟨rfl, rfl⟩ <;> dataset_branch

/-- the data sets where both sizes are rounded: name, training part, test part. -/
def bothNames : List (String × String × String) :=
  [("svhn", "train", "test"), ("svhn-extra", "train", "test"), ("lsun", "church_outdoor_train", "church_outdoor_val")]

theorem getDatasets_both {name tr te : String} (h : (name, tr, te) ∈ bothNames) (S : Sources) (nz : Bool) (s : S.σ) :
    getDatasets S name nz s = splitBoth S.torch (S.torch.seed 1) ((S.images name tr).map (normalizeEx nz)) >>= fun r =>
      .ok (⟨r.1 ++ (if name = "svhn-extra" then (S.images name "extra").map (normalizeEx nz) else []), r.2,
        (S.images name te).map (normalizeEx nz)⟩, s) := by
  simp only [bothNames, List.mem_cons, List.not_mem_nil, or_false, Prod.mk.injEq] at h
  rcases h with ⟨rfl, rfl, rfl⟩ | ⟨rfl, rfl, rfl⟩ | ⟨rfl, rfl, rfl⟩
  all_goals
    dataset_branch
    try simp only [List.append_nil]

/-- **C70**, the other images: as above when the number of training images does not end in 5; the additional images of `svhn-extra` are
only used for training. -/
theorem C70_both_partial {name tr te : String} (h : (name, tr, te) ∈ bothNames) (S : Sources) (nz : Bool) (s : S.σ)
    (hN : (S.images name tr).length % 10 ≠ 5) : ∃ p tr', getDatasets S name nz s = .ok (p, s) ∧
      p.train = tr' ++ (if name = "svhn-extra" then (S.images name "extra").map (asImage nz) else []) ∧
      (tr' ++ p.val).Perm ((S.images name tr).map (asImage nz)) ∧ p.test = (S.images name te).map (asImage nz) ∧
      |(tr'.length : ℝ) - 9 / 10 * (S.images name tr).length| ≤ 1 / 2 := by
  obtain ⟨r, h1, h2, h3, h4⟩ := splitBoth_ok S.torch (S.torch.seed 1) (ds := (S.images name tr).map (normalizeEx nz))
    (by rw [List.length_map]; exact hN)
  rw [List.length_map] at h3 h4
  rw [getDatasets_both h, h1, Res.ok_bind, normalizeEx_eq]
  refine ⟨_, r.1, rfl, rfl, by rw [← normalizeEx_eq]; exact h2, rfl, ?_⟩
  have h3' : (9 * (S.images name tr).length : ℝ) ≤ 10 * r.1.length + 5 := by exact_mod_cast h3
  have h4' : (10 * r.1.length : ℝ) ≤ 9 * (S.images name tr).length + 5 := by exact_mod_cast h4
  rw [abs_le]
  constructor <;> linarith

/-- **C70 is false for `svhn` and `lsun`**: both sizes are rounded to the even neighbour, so with a number of training images that ends
in 5 they do not add up, and the call raises. -/
theorem C70_refuted_both {name tr te : String} (h : (name, tr, te) ∈ bothNames) (S : Sources) (nz : Bool) (s : S.σ)
    (hN : (S.images name tr).length % 10 = 5) : getDatasets S name nz s = .error .value := by
  rw [getDatasets_both h, splitBoth_error _ _ (by rw [List.length_map]; exact hN)]
  rfl

/-- **C70**, the binary data sets: the three files are the three parts. -/
theorem C70_debd {name : String} {k : Nat} (h : (name, k) ∈ debdShapes) (S : Sources) (nz : Bool) (s : S.σ)
    (hk : ∀ part ∈ ["train", "valid", "test"], Rect k (S.debd name part)) :
    getDatasets S name nz s = .ok (⟨(S.debd name "train").map (·, 0), (S.debd name "valid").map (·, 0),
      (S.debd name "test").map (·, 0)⟩, s) := by
  have hd : ∀ part ∈ ["train", "valid", "test"], 0 < k → debdPart k (S.debd name part) = .ok ((S.debd name part).map (·, 0)) := by
    intro part hp h0
    unfold debdPart
    rw [reshapeRows_rect h0 (hk part hp), Res.ok_bind, tensorDataset, require_true _ (by simp), Res.ok_bind]
    refine congrArg Except.ok ?_
    generalize S.debd name part = l
    induction l with
    | nil => rfl
    | cons a l ih => simpa [List.replicate_succ] using ih
  have h1 := hd "train" (by simp)
  have h2 := hd "valid" (by simp)
  have h3 := hd "test" (by simp)
  simp only [debdShapes, List.mem_cons, List.not_mem_nil, or_false, Prod.mk.injEq] at h
  rcases h with ⟨rfl, rfl⟩ | ⟨rfl, rfl⟩ | ⟨rfl, rfl⟩ | ⟨rfl, rfl⟩ | ⟨rfl, rfl⟩ | ⟨rfl, rfl⟩ | ⟨rfl, rfl⟩ | ⟨rfl, rfl⟩ | ⟨rfl, rfl⟩ |
    ⟨rfl, rfl⟩ | ⟨rfl, rfl⟩ | ⟨rfl, rfl⟩ | ⟨rfl, rfl⟩ | ⟨rfl, rfl⟩ | ⟨rfl, rfl⟩ | ⟨rfl, rfl⟩ | ⟨rfl, rfl⟩ | ⟨rfl, rfl⟩ | ⟨rfl, rfl⟩ |
    ⟨rfl, rfl⟩ | ⟨rfl, rfl⟩ | ⟨rfl, rfl⟩
  all_goals
    dataset_branch
    simp only [one_mul, mul_one]
    rw [h1 (by norm_num), h2 (by norm_num), h3 (by norm_num)]
    rfl

/-! ### tables -/

/-- the tables that are split twice and scaled. -/
def scaledNames : List (String × Nat) := [("covtype", 54), ("breast_cancer", 30), ("wine", 13), ("kddcup99", 118)]

/-- Specification: the features of a row of a table; for `kddcup99` the categorical columns are encoded, with the categories found in
the whole table. -/
def features (name : String) (T : List RawRow) (r : RawRow) : List ℝ :=
  if name = "kddcup99" then r.num ++ oneHotRow (T.map (·.cat)) r.cat else r.num

theorem getDatasets_scaled {name : String} {k : Nat} (h : (name, k) ∈ scaledNames) (S : Sources) (nz : Bool) (s : S.σ) :
    getDatasets S name nz s = scaledParts S k ((S.table name).map (features name (S.table name)))
      (labelEncode ((S.table name).map (·.label))) >>= fun p => .ok (p, s) := by
  simp only [scaledNames, List.mem_cons, List.not_mem_nil, or_false, Prod.mk.injEq] at h
  rcases h with ⟨rfl, rfl⟩ | ⟨rfl, rfl⟩ | ⟨rfl, rfl⟩ | ⟨rfl, rfl⟩ <;> dataset_branch

theorem scaledNames_pos {name : String} {k : Nat} (h : (name, k) ∈ scaledNames) : 0 < k := by
  simp only [scaledNames, List.mem_cons, List.not_mem_nil, or_false, Prod.mk.injEq] at h
  omega

/-- Specification: every column has mean zero, and variance one unless it is constant. -/
def Standardised (F : Nat) (D : List Example) : Prop :=
  ∀ j < F, (D.map fun e => e.1.getD j 0).sum = 0 ∧
    ((D.map fun e => (e.1.getD j 0) ^ 2).sum = (D.length : ℝ) ∨ ∀ e ∈ D, e.1.getD j 0 = 0)

theorem sum_div (l : List ℝ) (b : ℝ) : (l.map (· / b)).sum = l.sum / b := by
  induction l with
  | nil => simp
  | cons x l ih => rw [List.map_cons, List.sum_cons, ih, List.sum_cons, add_div]

theorem sum_sub (l : List ℝ) (a : ℝ) : (l.map (· - a)).sum = l.sum - l.length * a := by
  induction l with
  | nil => simp
  | cons x l ih => rw [List.map_cons, List.sum_cons, ih, List.sum_cons, List.length_cons]; push_cast; ring

theorem standardScaler_get {F : Nat} (X : List (List ℝ)) {r : List ℝ} (hr : r.length = F) {j : Nat} (hj : j < F) :
    (standardScaler X r).getD j 0 = (r.getD j 0 - colMean X j) / (if colVar X j = 0 then 1 else √(colVar X j)) := by
  have h1 : j < r.length := by omega
  simp [standardScaler, List.getD_eq_getElem?_getD, List.getElem?_mapIdx, List.getElem?_eq_getElem h1]

theorem colVar_nonneg (X : List (List ℝ)) (j : Nat) : 0 ≤ colVar X j :=
  div_nonneg (List.sum_nonneg fun x hx => by obtain ⟨r, -, rfl⟩ := List.mem_map.1 hx; positivity) (by positivity)

theorem standardised_scaler {F : Nat} {X : List (List ℝ)} (hX : Rect F X) (hne : X ≠ []) {y : List ℤ} (hl : X.length = y.length) :
    Standardised F ((X.map (standardScaler X)).zip y) := by
  intro j hj
  have hn : (X.length : ℝ) ≠ 0 := by
    have := List.length_pos_iff.2 hne
    positivity
  have hz : ∀ g : List ℝ → ℝ, (((X.map (standardScaler X)).zip y).map fun e => g e.1) = X.map fun r => g (standardScaler X r) := by
    intro g
    have : (((X.map (standardScaler X)).zip y).map fun e => g e.1) = (((X.map (standardScaler X)).zip y).map Prod.fst).map g := by
      rw [List.map_map]; rfl
    rw [this, List.map_fst_zip (by simp [hl]), List.map_map]; rfl
  set m := colMean X j with hm
  set b := if colVar X j = 0 then 1 else √(colVar X j) with hb
  have hcol : (X.map fun r => (standardScaler X r).getD j 0) = (X.map fun r => (r.getD j 0 - m) / b) :=
    List.map_congr_left fun r hr => standardScaler_get X (hX r hr) hj
  have hsum : (X.map fun r => r.getD j 0).sum = X.length * m := by
    rw [hm, colMean]; field_simp
  refine ⟨?_, ?_⟩
  · rw [hz fun r => r.getD j 0, hcol]
    have e : (X.map fun r => (r.getD j 0 - m) / b) = (((X.map fun r => r.getD j 0).map (· - m)).map (· / b)) := by
      rw [List.map_map, List.map_map]; rfl
    rw [e, sum_div, sum_sub, hsum, List.length_map, sub_self, zero_div]
  · by_cases hv : colVar X j = 0
    · right
      have hs : (X.map fun r => (r.getD j 0 - m) ^ 2).sum = 0 := by
        have := hv
        rw [colVar, ← hm, div_eq_zero_iff] at this
        exact this.resolve_right hn
      have hz0 : ∀ r ∈ X, (r.getD j 0 - m) ^ 2 = 0 := by
        intro r hr
        exact List.all_zero_of_le_zero_le_of_sum_eq_zero
          (fun x hx => by obtain ⟨q, -, rfl⟩ := List.mem_map.1 hx; positivity) hs (List.mem_map.2 ⟨r, hr, rfl⟩)
      intro e he
      obtain ⟨r, hr, hre⟩ := List.mem_map.1 (List.of_mem_zip he).1
      rw [← hre, standardScaler_get X (hX r hr) hj, ← hm, pow_eq_zero_iff two_ne_zero |>.1 (hz0 r hr), zero_div]
    · left
      have hb2 : b ^ 2 = colVar X j := by rw [hb, if_neg hv, Real.sq_sqrt (colVar_nonneg X j)]
      rw [hz fun r => r.getD j 0 ^ 2]
      have e : (X.map fun r => (standardScaler X r).getD j 0 ^ 2) = ((X.map fun r => (r.getD j 0 - m) ^ 2).map (· / b ^ 2)) := by
        rw [List.map_map]
        refine List.map_congr_left fun r hr => ?_
        rw [standardScaler_get X (hX r hr) hj, Function.comp_apply, div_pow]
      rw [e, sum_div, hb2, List.length_zip, List.length_map, hl, min_self, ← hl]
      have : (X.map fun r => (r.getD j 0 - m) ^ 2).sum = X.length * colVar X j := by rw [colVar, ← hm]; field_simp
      rw [this, mul_div_assoc, div_self hv, mul_one]

/-- **C70**, tables: the three parts are disjoint and make up the table, features and labels of a row stay together, all parts are
transformed by the same increasing affine map per column, and the training part is standardised. -/
theorem C70_tables {name : String} {k : Nat} (h : (name, k) ∈ scaledNames) {S : Sources} {nz : Bool} {s s' : S.σ} {p : Parts} {F : Nat}
    (hF : Rect F ((S.table name).map (features name (S.table name)))) (hp : getDatasets S name nz s = .ok (p, s')) :
    s' = s ∧ Standardised F p.train ∧ p.train ≠ [] ∧ ∃ a b : Nat → ℝ, (∀ j, 0 < b j) ∧
      (p.train ++ p.val ++ p.test).Perm
        ((((S.table name).map (features name (S.table name))).zip (labelEncode ((S.table name).map (·.label)))).map fun e =>
          (e.1.mapIdx fun j x => (x - a j) / b j, e.2)) := by
  rw [getDatasets_scaled h] at hp
  obtain ⟨p', hq, e⟩ := bind_ok hp
  cases e
  obtain ⟨hl, c, hne, rfl⟩ := scaledParts_spec (scaledNames_pos h) hF hq
  have hl2 := subset_length_eq (subset_length_eq hl c.rest) c.train
  refine ⟨rfl, standardised_scaler ((hF.subset _).subset _) hne hl2, ?_, _, _, fun j => ?_, c.perm hl _⟩
  · intro h0
    have := congrArg List.length h0
    simp only [Chosen.parts, List.length_zip, List.length_map, hl2, min_self, List.length_nil] at this
    rw [← hl2] at this
    exact hne (List.eq_nil_of_length_eq_zero this)
  · split_ifs with hv
    · exact one_pos
    · exact Real.sqrt_pos.2 (lt_of_le_of_ne (colVar_nonneg _ _) (Ne.symm hv))

/-- **C70**, tables: the call succeeds if the rows have as many features as the table of shapes says and the labels can be stratified
twice. -/
theorem C70_tables_ok {name : String} {k : Nat} (h : (name, k) ∈ scaledNames) (S : Sources) (nz : Bool) (s : S.σ)
    (hF : Rect k ((S.table name).map (features name (S.table name)))) {i j : List Nat × List Nat}
    (hi : S.split (labelEncode ((S.table name).map (·.label))) = .ok i)
    (hj : S.split (i.1.filterMap ((labelEncode ((S.table name).map (·.label)))[·]?)) = .ok j) (hne : j.1 ≠ []) :
    ∃ p, getDatasets S name nz s = .ok (p, s) := by
  rw [getDatasets_scaled h, scaledParts_ok (scaledNames_pos h) hF (by simp [labelEncode]) ⟨i.1, i.2, j.1, j.2, hi, hj⟩ hne]
  exact ⟨_, rfl⟩

/-- **C70**, encoded labels: they are numbered from zero in the order of the labels of the table. -/
theorem C70_labels (y : List ℤ) : ∃ f : ℤ → ℤ, labelEncode y = y.map f ∧ (∀ u ∈ y, ∀ v ∈ y, u < v ↔ f u < f v) ∧
    ∀ u ∈ y, 0 ≤ f u ∧ f u < (y.toFinset.card : ℤ) := by
  have key : ∀ u ∈ y, ∀ v, u < v → (y.toFinset.filter (· < u)).card < (y.toFinset.filter (· < v)).card := by
    intro u hu v huv
    apply Finset.card_lt_card
    rw [Finset.ssubset_iff_of_subset]
    · exact ⟨u, by simp [hu, huv], by simp⟩
    · intro w hw
      rw [Finset.mem_filter] at hw ⊢
      exact ⟨hw.1, hw.2.trans huv⟩
  refine ⟨_, rfl, fun u hu v hv => ⟨fun huv => by exact_mod_cast key u hu v huv, fun huv => ?_⟩, fun u hu => ⟨by positivity, ?_⟩⟩
  · by_contra hn
    rcases eq_or_lt_of_le (not_lt.1 hn) with rfl | hlt
    · exact lt_irrefl _ huv
    · have := key v hv u hlt
      have huv' : (y.toFinset.filter (· < u)).card < (y.toFinset.filter (· < v)).card := by exact_mod_cast huv
      omega
  · have : (y.toFinset.filter (· < u)).card < y.toFinset.card := by
      apply Finset.card_lt_card
      rw [Finset.ssubset_iff_of_subset (Finset.filter_subset _ _)]
      exact ⟨u, by simp [hu], by simp⟩
    exact_mod_cast this

theorem _root_.Einet.Chosen.unique {S : Sources} {y : List ℤ} (c d : Chosen S y) : c = d := by
  obtain ⟨r, t, tr, v, h1, h2⟩ := c
  obtain ⟨r', t', tr', v', h1', h2'⟩ := d
  have e := h1.symm.trans h1'
  cases e
  have e := h2.symm.trans h2'
  cases e
  rfl

theorem oneHotRow_congr {A B : List (List String)} (h : ∀ j, (A.map (·.getD j "")).toFinset = (B.map (·.getD j "")).toFinset) :
    oneHotRow A = oneHotRow B := by
  funext r
  simp only [oneHotRow, h]

/-- **C70**, no leak: if two tables have the same labels, and for `kddcup99` the same categories in every column, and agree in the rows
chosen for training, then the training data are equal, whatever the other rows contain.  If they also agree in the rows for validation,
so are the validation data. -/
theorem C70_noleak {name : String} {k : Nat} (h : (name, k) ∈ scaledNames) {S : Sources} {t : String → List RawRow} {nz : Bool}
    {s r s' r' : S.σ} {p p' : Parts} {F F' : Nat} (hF : Rect F ((S.table name).map (features name (S.table name))))
    (hF' : Rect F' ((t name).map (features name (t name)))) (hp : getDatasets S name nz s = .ok (p, r))
    (hp' : getDatasets { S with table := t } name nz s' = .ok (p', r'))
    (hlab : (t name).map (·.label) = (S.table name).map (·.label))
    (hcat : name = "kddcup99" → ∀ j, ((t name).map (·.cat.getD j "")).toFinset = ((S.table name).map (·.cat.getD j "")).toFinset)
    {i j : List Nat × List Nat} (hi : S.split (labelEncode ((S.table name).map (·.label))) = .ok i)
    (hj : S.split (i.1.filterMap ((labelEncode ((S.table name).map (·.label)))[·]?)) = .ok j)
    (htrain : ∀ q ∈ j.1.filterMap (i.1[·]?), (t name)[q]? = (S.table name)[q]?) :
    p'.train = p.train ∧ ((∀ q ∈ j.2.filterMap (i.1[·]?), (t name)[q]? = (S.table name)[q]?) → p'.val = p.val) := by
  rw [getDatasets_scaled h] at hp hp'
  obtain ⟨_, hq, e⟩ := bind_ok hp
  cases e
  obtain ⟨_, hq', e⟩ := bind_ok hp'
  cases e
  obtain ⟨hl, c, hne, rfl⟩ := scaledParts_spec (scaledNames_pos h) hF hq
  obtain ⟨hl', c', hne', rfl⟩ := scaledParts_spec (scaledNames_pos h) hF' hq'
  have hcc : c = ⟨i.1, i.2, j.1, j.2, hi, hj⟩ := c.unique _
  obtain ⟨c1, c2, c3⟩ : c.rest = i.1 ∧ c.train = j.1 ∧ c.val = j.2 := by rw [hcc]; exact ⟨rfl, rfl, rfl⟩
  have hyy : labelEncode ((t name).map (·.label)) = labelEncode ((S.table name).map (·.label)) := by rw [hlab]
  have hlen : (t name).length = (S.table name).length := by simpa using congrArg List.length hlab
  have hcc' : c' = ⟨i.1, i.2, j.1, j.2, by rw [hyy]; exact hi, by rw [hyy]; exact hj⟩ := c'.unique _
  subst hcc'
  have hfeat : features name (t name) = features name (S.table name) := by
    funext r
    unfold features
    split_ifs with hk
    · rw [oneHotRow_congr fun j => ?_]
      have := hcat hk j
      simpa [List.map_map, Function.comp_def] using this
    · rfl
  have hrange : ∀ q ∈ i.1, q < (S.table name).length := fun q hq => by
    have := List.mem_range.1 ((S.split_perm _ _ hi).mem_iff.1 (List.mem_append_left _ hq))
    simpa [labelEncode] using this
  have key : ∀ b : List Nat, (∀ q ∈ b.filterMap (i.1[·]?), (t name)[q]? = (S.table name)[q]?) →
      subset (subset ((t name).map (features name (t name))) i.1) b =
        subset (subset ((S.table name).map (features name (S.table name))) i.1) b := by
    intro b hb
    rw [hfeat, subset_map, subset_map, subset_map, subset_map, subset_subset hrange, subset_subset (hlen ▸ hrange)]
    exact congrArg _ (subset_agree hb)
  have e1 := key j.1 htrain
  refine ⟨?_, fun hval => ?_⟩
  · simp only [Chosen.parts]
    rw [e1, hyy, c1, c2]
  · simp only [Chosen.parts]
    rw [e1, key j.2 hval, hyy, c1, c2, c3]

theorem getDatasets_digits (S : Sources) (nz : Bool) (s : S.σ) : getDatasets S "digits" nz s =
    digitsParts S 64 ((S.table "digits").map (·.num)) ((S.table "digits").map (·.label)) >>= fun p => .ok (p, s) := by
  dataset_branch

/-- **C70**, `digits`: the three parts are disjoint and make up the table, all entries divided by the largest entry of the table. -/
theorem C70_digits {S : Sources} {nz : Bool} {s s' : S.σ} {p : Parts} {F : Nat} (hF : Rect F ((S.table "digits").map (·.num)))
    (hp : getDatasets S "digits" nz s = .ok (p, s')) : s' = s ∧ ∃ m, (∃ r ∈ S.table "digits", m ∈ r.num) ∧
      (∀ r ∈ S.table "digits", ∀ x ∈ r.num, x ≤ m) ∧
      (p.train ++ p.val ++ p.test).Perm ((S.table "digits").map fun r => (r.num.map (· / m), r.label)) := by
  rw [getDatasets_digits] at hp
  obtain ⟨_, hq, e⟩ := bind_ok hp
  cases e
  obtain ⟨hl, m, hm, c, rfl⟩ := digitsParts_spec (by norm_num) hF hq
  rw [List.max?_eq_some_iff] at hm
  simp only [List.mem_flatten, List.mem_map] at hm
  obtain ⟨⟨_, ⟨r, hr, rfl⟩, hmr⟩, hm2⟩ := hm
  refine ⟨rfl, m, ⟨r, hr, hmr⟩, fun r hr x hx => hm2 _ ⟨r.num, ⟨r, hr, rfl⟩, hx⟩, (c.perm hl _).trans (.of_eq ?_)⟩
  rw [List.zip_map', List.map_map]
  rfl

theorem getDatasets_news (S : Sources) (nz : Bool) (s : S.σ) : getDatasets S "20newsgroup" nz s =
    newsParts S 50 (S.table "20newsgroup train") (S.table "20newsgroup test") s := by
  dataset_branch

/-- **C70**, `20newsgroup`: the training rows are divided into training and validation, the test rows are those of the library; one map
is applied to all parts, and the training part is standardised.  The map is the projection fitted to the training part followed by
increasing affine maps per column. -/
theorem C70_news {S : Sources} {nz : Bool} {s s' : S.σ} {p : Parts} {F : Nat} (hF : ∀ X s r, ((S.pca X s).1 r).length = F)
    (hp : getDatasets S "20newsgroup" nz s = .ok (p, s')) : Standardised F p.train ∧ p.train ≠ [] ∧
      ∃ (rows : List (List ℝ)) (a b : Nat → ℝ), (∀ j, 0 < b j) ∧ rows.length = p.train.length ∧
        (p.train ++ p.val).Perm ((S.table "20newsgroup train").map fun r =>
          (((S.pca rows s).1 r.num).mapIdx fun j x => (x - a j) / b j, r.label)) ∧
        p.test = (S.table "20newsgroup test").map fun r => (((S.pca rows s).1 r.num).mapIdx fun j x => (x - a j) / b j, r.label) := by
  rw [getDatasets_news] at hp
  obtain ⟨i, hi, X, f, hX, hne, hf, rfl⟩ := newsParts_spec (by norm_num) hF hp
  have hl : ((S.table "20newsgroup train").map (·.num)).length = ((S.table "20newsgroup train").map (·.label)).length := by simp
  have hl1 := subset_length_eq hl i.1
  have hmf : (subset ((S.table "20newsgroup train").map (·.num)) i.1).map f = X.map (standardScaler X) := by
    subst hf hX
    rw [List.map_map]; rfl
  have hRX : Rect F X := by
    rw [hX]
    intro r hr
    obtain ⟨q, -, rfl⟩ := List.mem_map.1 hr
    exact hF _ _ _
  have hXl : X.length = (subset ((S.table "20newsgroup train").map (·.label)) i.1).length := by rw [hX, List.length_map, hl1]
  have z : ∀ (A : List (List ℝ)) (b : List ℤ), (A.map f).zip b = (A.zip b).map fun e => (f e.1, e.2) := fun A b => by
    rw [List.zip_map_left]; rfl
  refine ⟨?_, ?_, subset ((S.table "20newsgroup train").map (·.num)) i.1, colMean X,
    fun j => if colVar X j = 0 then 1 else √(colVar X j), fun j => ?_, ?_, ?_, ?_⟩
  · simp only [hmf]
    exact standardised_scaler hRX hne hXl
  · intro h0
    have := congrArg List.length h0
    simp only [hmf, List.length_zip, List.length_map, ← hXl, min_self, List.length_nil] at this
    exact hne (List.eq_nil_of_length_eq_zero this)
  · dsimp only
    split_ifs with hv
    · exact one_pos
    · exact Real.sqrt_pos.2 (lt_of_le_of_ne (colVar_nonneg _ _) (Ne.symm hv))
  · simp only [List.length_zip, List.length_map, ← hl1, min_self]
  · simp only [z]
    rw [← List.map_append, ← subset_zip hl, ← subset_zip hl, ← subset_append]
    have q : (subset (((S.table "20newsgroup train").map (·.num)).zip ((S.table "20newsgroup train").map (·.label))) (i.1 ++ i.2)).Perm
        (((S.table "20newsgroup train").map (·.num)).zip ((S.table "20newsgroup train").map (·.label))) := by
      apply subset_perm
      have := S.split_perm _ _ hi
      simpa using this
    refine (q.map _).trans (.of_eq ?_)
    rw [List.zip_map', List.map_map, hf]
    rfl
  · simp only [z]
    rw [List.zip_map', List.map_map, hf]
    rfl

/-! ### data made by the code -/

/-- names of synthetic data sets with their tags, without the circles. -/
def synthNames : List (String × String) := [("synth-2-clusters", "2-clusters"), ("synth-3-clusters", "3-clusters"),
  ("synth-9-clusters", "9-clusters"), ("synth-2-moons", "2-moons"), ("synth-aniso", "aniso"), ("synth-varied", "varied")]

/-- **C70 is false for synthetic data**: all parts are generated from the same seed, so the validation part is the test part. -/
theorem C70_refuted_synth {name tag : String} (h : (name, tag) ∈ synthNames) (S : Sources) (nz : Bool) (s : S.σ) :
    ∃ p, getDatasets S name nz s = .ok (p, s) ∧ p.val = p.test ∧ p.test = S.synth tag 1000 ∧ p.train = S.synth tag 3000 := by
  have ht : String.ofList (removeAll "synth-".toList 0 name.toList) = tag := by
    simp only [synthNames, List.mem_cons, List.not_mem_nil, or_false, Prod.mk.injEq] at h
    rcases h with ⟨rfl, rfl⟩ | ⟨rfl, rfl⟩ | ⟨rfl, rfl⟩ | ⟨rfl, rfl⟩ | ⟨rfl, rfl⟩ | ⟨rfl, rfl⟩ <;> decide
  have hc : tag ≠ "circles" ∧ tag ∈ ["2-clusters", "3-clusters", "9-clusters", "2-moons", "aniso", "varied"] := by
    simp only [synthNames, List.mem_cons, List.not_mem_nil, or_false, Prod.mk.injEq] at h
    rcases h with ⟨-, rfl⟩ | ⟨-, rfl⟩ | ⟨-, rfl⟩ | ⟨-, rfl⟩ | ⟨-, rfl⟩ | ⟨-, rfl⟩ <;> decide
  have key : ∀ n, generateData S name n s = .ok (S.synth tag n, s) := by
    intro n
    simp only [generateData, ht, if_neg hc.1, if_pos hc.2]
  have hi : "synth".toList <:+: name.toList := by
    simp only [synthNames, List.mem_cons, List.not_mem_nil, or_false, Prod.mk.injEq] at h
    rcases h with ⟨rfl, -⟩ | ⟨rfl, -⟩ | ⟨rfl, -⟩ | ⟨rfl, -⟩ | ⟨rfl, -⟩ | ⟨rfl, -⟩ <;> decide
  refine ⟨⟨S.synth tag 3000, S.synth tag 1000, S.synth tag 1000⟩, ?_, rfl, rfl, rfl⟩
  simp only [getDatasets, getDataShape, if_pos hi, Res.ok_bind, key]
  rfl

/-- **C70 is false for `fake`**: the three parts are the same examples. -/
theorem C70_refuted_fake (S : Sources) (nz : Bool) (s : S.σ) :
    ∃ p, getDatasets S "fake" nz s = .ok (p, s) ∧ p.train = p.val ∧ p.val = p.test ∧ p.train.length = 3000 := by
  refine ⟨⟨(List.range 3000).map S.fake, (List.range 3000).map S.fake, (List.range 3000).map S.fake⟩, ?_, rfl, rfl, by simp⟩
  dataset_branch

/-! ### names -/

theorem lookup_isSome {β : Type} (l : List (String × β)) (a : String) : (l.lookup a).isSome ↔ a ∈ l.map Prod.fst := by
  induction l with
  | nil => simp
  | cons x l ih =>
    obtain ⟨k, v⟩ := x
    rw [List.lookup_cons]
    by_cases hk : a = k
    · simp [hk]
    · simp only [beq_eq_false_iff_ne.2 hk, List.map_cons, List.mem_cons, hk, false_or]
      exact ih

/-- **C70**, names: a name has a number of classes exactly if it has a shape, with one exception. -/
theorem C70_classes (name : String) : (∃ k, getDataNumClasses name = .ok k) ↔ (∃ d, getDataShape name = .ok d) ∧ name ≠ "digits" := by
  unfold getDataNumClasses getDataShape
  by_cases hs : "synth".toList <:+: name.toList
  · rw [if_pos hs, if_pos hs]
    refine ⟨fun _ => ⟨⟨_, rfl⟩, ?_⟩, fun _ => ⟨_, rfl⟩⟩
    rintro rfl
    exact absurd hs (by decide)
  · rw [if_neg hs, if_neg hs]
    have hc := lookup_isSome imageClasses name
    have hi := lookup_isSome imageShapes name
    have hk : imageShapes.map Prod.fst = imageClasses.map Prod.fst ++ ["digits"] := rfl
    have hd : name = "digits" → name ∉ imageClasses.map Prod.fst := by rintro rfl; decide
    have hd' : name = "digits" → name ∉ debdShapes.map Prod.fst := by rintro rfl; decide
    have hD := lookup_isSome debdShapes name
    rw [hk, List.mem_append, List.mem_singleton] at hi
    cases h1 : debdShapes.lookup name with
    | some n =>
      rw [h1] at hD
      simp only [Option.isSome_some, if_true]
      exact ⟨fun _ => ⟨⟨_, rfl⟩, fun he => hd' he (hD.1 rfl)⟩, fun _ => ⟨_, rfl⟩⟩
    | none =>
      simp only [Option.isSome_none, Bool.false_eq_true, if_false]
      cases h2 : imageClasses.lookup name with
      | some k =>
        rw [h2] at hc
        have hm := hc.1 rfl
        cases h3 : imageShapes.lookup name with
        | some d => exact ⟨fun _ => ⟨⟨d, rfl⟩, fun he => hd he hm⟩, fun _ => ⟨k, rfl⟩⟩
        | none => rw [h3] at hi; exact absurd (hi.2 (Or.inl hm)) (by simp)
      | none =>
        rw [h2] at hc
        refine ⟨fun ⟨k, h⟩ => (by cases h), fun ⟨⟨d, h⟩, hne⟩ => ?_⟩
        cases h3 : imageShapes.lookup name with
        | none => rw [h3] at h; cases h
        | some d =>
          rw [h3] at hi
          rcases hi.1 rfl with h4 | h4
          · exact absurd (hc.2 h4) (by simp)
          · exact absurd h4 hne

/-- **C70 is false for `fmnist-16` and `digits`**: the first has a shape and a number of classes but no data, the second a shape and data
but no number of classes. -/
theorem C70_refuted_names (S : Sources) (nz : Bool) (s : S.σ) :
    ((∃ d, getDataShape "fmnist-16" = .ok d) ∧ (∃ k, getDataNumClasses "fmnist-16" = .ok k) ∧
      getDatasets S "fmnist-16" nz s = .error .notImplemented) ∧
    (∃ d, getDataShape "digits" = .ok d) ∧ getDataNumClasses "digits" = .error .other := by
  have h1 : getDataShape "fmnist-16" = .ok ⟨1, 16, 16⟩ := by
    simp (decide := true) only [getDataShape, if_false]
    rfl
  have h2 : getDataShape "digits" = .ok ⟨1, 8, 8⟩ := by
    simp (decide := true) only [getDataShape, if_false]
    rfl
  refine ⟨⟨⟨_, h1⟩, ((C70_classes _).2 ⟨⟨_, h1⟩, by decide⟩), ?_⟩, ⟨_, h2⟩, ?_⟩
  · dataset_branch
  · decide

/-- an unknown name raises a `KeyError` before any data are loaded. -/
theorem C70_unknown {name : String} (h : ∀ d, getDataShape name ≠ .ok d) (S : Sources) (nz : Bool) (s : S.σ) :
    getDatasets S name nz s = .error .other := by
  have hs : getDataShape name = .error .other := by
    unfold getDataShape at h ⊢
    split_ifs with hs
    · rw [if_pos hs] at h; exact absurd rfl (h _)
    · rw [if_neg hs] at h
      cases h1 : debdShapes.lookup name with
      | some n => rw [h1] at h; exact absurd rfl (h _)
      | none =>
        rw [h1] at h
        cases h2 : imageShapes.lookup name with
        | some d => rw [h2] at h; exact absurd rfl (h _)
        | none => rfl
  unfold getDatasets
  rw [hs]
  rfl

/-! ### reproducibility -/

/-- **C70**, reproducible: but for the circles and `20newsgroup`, the data sets do not depend on the state of the global generator and
leave it alone, so two runs train, validate and test on the same examples. -/
theorem C70_reproducible (S : Sources) (name : String) (nz : Bool)
    (hc : ¬ ("synth".toList <:+: name.toList ∧ String.ofList (removeAll "synth-".toList 0 name.toList) = "circles"))
    (hn : name ≠ "20newsgroup") : ∃ r : Res Parts, ∀ s, getDatasets S name nz s = r.map (·, s) := by
  unfold getDatasets
  cases hs : getDataShape name with
  | error e => exact ⟨.error e, fun _ => rfl⟩
  | ok d =>
  simp only [Res.ok_bind]
  by_cases h0 : "synth".toList <:+: name.toList
  · simp only [if_pos h0]
    have hc' : ¬ String.ofList (removeAll "synth-".toList 0 name.toList) = "circles" := fun h => hc ⟨h0, h⟩
    simp only [generateData, if_neg hc']
    split_ifs
    · exact ⟨.ok ⟨_, _, _⟩, fun _ => rfl⟩
    · exact ⟨.error _, fun _ => rfl⟩
  simp only [if_neg h0]
  have hsplit : ∀ (x : Res (List Example × List Example)) (f : List Example × List Example → Parts), ∃ r : Res Parts, ∀ s : S.σ,
      (x >>= fun y => .ok (f y, s)) = r.map (·, s) := by
    intro x f
    cases x with
    | error e => exact ⟨.error e, fun _ => rfl⟩
    | ok y => exact ⟨.ok (f y), fun _ => rfl⟩
  have hparts : ∀ x : Res Parts, ∃ r : Res Parts, ∀ s : S.σ, (x >>= fun y => (.ok (y, s) : Res (Parts × S.σ))) = r.map (·, s) := by
    intro x
    cases x with
    | error e => exact ⟨.error e, fun _ => rfl⟩
    | ok y => exact ⟨.ok y, fun _ => rfl⟩
  have hok : ∀ p : Parts, ∃ r : Res Parts, ∀ s : S.σ, (.ok (p, s) : Res (Parts × S.σ)) = r.map (·, s) := fun p => ⟨.ok p, fun _ => rfl⟩
  have hite : ∀ (P : Prop) [Decidable P] (f g : S.σ → Res (Parts × S.σ)), (P → ∃ r : Res Parts, ∀ s, f s = r.map (·, s)) →
      (∃ r : Res Parts, ∀ s, g s = r.map (·, s)) → ∃ r : Res Parts, ∀ s, (if P then f s else g s) = r.map (·, s) := by
    intro P _ f g hf hg
    by_cases hP : P
    · simpa only [if_pos hP] using hf hP
    · simpa only [if_neg hP] using hg
  repeat' refine hite _ _ _ (fun hP => ?_) ?_
  all_goals first
    | exact hsplit _ fun y => ⟨y.1, y.2, _⟩
    | exact hparts _
    | exact hok _
    | exact absurd hP hn
    | exact ⟨.error _, fun _ => rfl⟩
    | skip
  · generalize splitBoth S.torch _ _ = x
    cases x with
    | error e => exact ⟨.error e, fun _ => rfl⟩
    | ok y => exact hite _ _ _ (fun _ => hok _) (hok _)
  · generalize debdPart (d.channels * d.height * d.width) (S.debd name "train") = x
    generalize debdPart (d.channels * d.height * d.width) (S.debd name "valid") = y
    generalize debdPart (d.channels * d.height * d.width) (S.debd name "test") = z
    cases x <;> cases y <;> cases z <;> first | exact hok _ | exact ⟨.error _, fun _ => rfl⟩

/-- **C71**, loaders of the scripts: a pass over the three loaders visits each example of the three data sets once, and the passes for
validation and test keep the order. -/
theorem C71_build {S : Sources} {name : String} {b : Int} {nz : Bool} {seed : Option Int} {s s' : S.σ}
    {L : Loader Example × Loader Example × Loader Example} (h : buildDataloader S name b false nz seed s = .ok (L, s')) :
    ∃ p, getDatasets S name nz s = .ok (p, s') ∧ ∀ (G : PermGen) (drawn drawn' drawn'' : Int),
      (∃ order : List Example, order.Perm p.train ∧ Batches b.toNat (L.1.epoch G drawn) order) ∧
      Batches b.toNat (L.2.1.epoch G drawn') p.val ∧ Batches b.toNat (L.2.2.epoch G drawn'') p.test := by
  unfold buildDataloader at h
  obtain ⟨⟨p, s1⟩, h1, h⟩ := bind_ok h
  obtain ⟨L1, h2, h⟩ := bind_ok h
  obtain ⟨L2, h3, h⟩ := bind_ok h
  obtain ⟨L3, h4, h⟩ := bind_ok h
  cases h
  exact ⟨p, h1, fun G d d' d'' => ⟨(C71_train G h2 d).1, (C71_eval G h3 d').1, (C71_eval G h4 d'').1⟩⟩

/-- **C70**, encoded categories: every column of the categories becomes a block of zeros with a single one. -/
theorem C70_onehot {rows : List (List String)} {r : List String} (hr : r ∈ rows) :
    (∀ x ∈ oneHotRow rows r, x = 0 ∨ x = 1) ∧ (oneHotRow rows r).sum = r.length := by
  have hblock : ∀ (l : List String), l.Nodup → ∀ v ∈ l, (l.map fun u => if u = v then (1 : ℝ) else 0).sum = 1 := by
    intro l hl v hv
    induction l with
    | nil => simp at hv
    | cons u l ih =>
      rw [List.nodup_cons] at hl
      rw [List.map_cons, List.sum_cons]
      by_cases huv : u = v
      · subst huv
        have : (l.map fun w => if w = u then (1 : ℝ) else 0) = l.map fun _ => 0 :=
          List.map_congr_left fun w hw => if_neg (by rintro rfl; exact hl.1 hw)
        simp [this]
      · rw [if_neg huv, zero_add]
        exact ih hl.2 ((List.mem_cons.1 hv).resolve_left (Ne.symm huv))
  refine ⟨fun x hx => ?_, ?_⟩
  · obtain ⟨B, hB, hx⟩ := List.mem_flatten.1 hx
    obtain ⟨j, hj, rfl⟩ := List.mem_mapIdx.1 hB
    obtain ⟨u, -, rfl⟩ := List.mem_map.1 hx
    split_ifs
    · exact Or.inr rfl
    · exact Or.inl rfl
  · have : ∀ (q : List String) (o : Nat), (∀ j (hj : j < q.length), ∃ s ∈ rows, s.getD (o + j) "" = q[j]) →
        ((q.mapIdx fun j v => ((rows.map (·.getD (o + j) "")).toFinset.sort (· ≤ ·)).map fun u =>
          if u = v then (1 : ℝ) else 0).flatten).sum = q.length := by
      intro q
      induction q with
      | nil => intro o _; simp
      | cons v q ih =>
        intro o h
        rw [List.mapIdx_cons, List.flatten_cons, List.sum_append, List.length_cons]
        have h0 := h 0 (by simp)
        obtain ⟨s, hs, hsv⟩ := h0
        rw [hblock _ (Finset.sort_nodup _ _) v ((Finset.mem_sort _).2 (List.mem_toFinset.2 (List.mem_map.2 ⟨s, hs, hsv⟩)))]
        have := ih (o + 1) fun j hj => by
          obtain ⟨s, hs, hsv⟩ := h (j + 1) (by simpa using hj)
          exact ⟨s, hs, by rw [show o + 1 + j = o + (j + 1) by omega, hsv]; rfl⟩
        simp only [show ∀ i, o + 1 + i = o + (i + 1) from fun i => by omega] at this
        rw [this]
        push_cast; ring
    have h := this r 0 fun j hj => ⟨r, hr, by simp [hj]⟩
    simp only [zero_add] at h
    exact h

/-! ### instances -/

/-- a split for the instances: the last row is for testing. -/
def exSplit (y : List ℤ) : Res (List Nat × List Nat) :=
  if y = [] then .error .value else .ok (List.range (y.length - 1), [y.length - 1])

/-- points for the instances. -/
def exCircles (n s : Nat) : List Example := (List.range n).map fun i : Nat => ([(s : ℝ), (i : ℝ)], 0)

theorem exCircles_inj {n a b : Nat} (hn : 0 < n) (h : exCircles n a = exCircles n b) : a = b := by
  have h3 := List.map_inj_left.1 h 0 (List.mem_range.2 (by omega))
  have h4 : (a : ℝ) = b := (List.cons.inj (Prod.mk.inj h3).1).1
  exact_mod_cast h4

attribute [irreducible] exCircles

/-- libraries with small tables: three rows of `k` equal entries; the last one has another value. -/
def exSources (k : Nat) (v : ℝ) (n : Nat) : Sources where
  torch := exPermGen
  σ := Nat
  images _ _ := List.replicate n ([1 / 2], 0)
  fake i := ([i], 0)
  synth _ n := (List.range n).map fun i : Nat => ([(i : ℝ)], 0)
  circles n s := (exCircles n s, s + 1)
  mnistBin := []
  debd _ _ := [List.replicate 16 1]
  table _ := [⟨List.replicate k 1, [], 5⟩, ⟨List.replicate k 1, [], 5⟩, ⟨List.replicate k v, [], 5⟩]
  pca _ s := (fun _ => List.replicate 50 0, s)
  split := exSplit
  split_perm := by
    intro y r h
    unfold exSplit at h
    split_ifs at h with hy
    cases h
    have hn : y.length - 1 + 1 = y.length := by
      have := List.length_pos_iff.2 hy
      omega
    rw [← List.range_succ]
    exact .of_eq (congrArg List.range hn)

/-- the rows chosen in the instances. -/
def exChosen (k : Nat) (v : ℝ) (n : Nat) (a b c : ℤ) : Chosen (exSources k v n) [a, b, c] :=
  ⟨[0, 1], [2], [0], [1], by simp [exSources, exSplit, List.range_succ], by simp [exSources, exSplit, subset, List.range_succ]⟩

theorem exMax {k : Nat} (hk : 0 < k) {v : ℝ} (hv : 1 ≤ v) :
    (((exSources k v 0).table "digits").map (·.num)).flatten.max? = some v := by
  rw [List.max?_eq_some_iff]
  refine ⟨?_, fun b hb => ?_⟩
  · simp [exSources]; omega
  · simp [exSources] at hb
    rcases hb with ⟨-, rfl⟩ | ⟨-, rfl⟩
    · exact hv
    · exact le_rfl

theorem exDigits {v : ℝ} (hv : 1 ≤ v) (nz : Bool) (s : (exSources 64 v 0).σ) :
    ∃ p, getDatasets (exSources 64 v 0) "digits" nz s = .ok (p, s) ∧ p.train = [(List.replicate 64 (1 / v), 5)] := by
  have hX : Rect 64 (((exSources 64 v 0).table "digits").map (·.num)) := by
    intro r hr
    simp [exSources] at hr
    rcases hr with rfl | rfl <;> simp
  rw [getDatasets_digits, show ((exSources 64 v 0).table "digits").map (·.label) = [5, 5, 5] from rfl, digitsParts_ok (by norm_num) hX rfl (exChosen 64 v 0 5 5 5) (exMax (by norm_num) hv)]
  exact ⟨_, rfl, by simp [Chosen.parts, exChosen, subset, exSources]⟩

/-- **C70 is false for `digits`** as far as leaks go: the training data depend on a row of the test part, because the entries are divided
by the largest entry of the whole table. -/
theorem C70_refuted_leak : ∃ (S : Sources) (t : String → List RawRow) (s : S.σ) (p p' : Parts),
    getDatasets S "digits" false s = .ok (p, s) ∧ getDatasets { S with table := t } "digits" false s = .ok (p', s) ∧
    (t "digits").map (·.label) = (S.table "digits").map (·.label) ∧
    S.split ((S.table "digits").map (·.label)) = .ok ([0, 1], [2]) ∧ (∀ q < 2, (t "digits")[q]? = (S.table "digits")[q]?) ∧
    p.train ≠ p'.train := by
  obtain ⟨p, hp, e⟩ := exDigits (v := 2) (by norm_num) false (0 : Nat)
  obtain ⟨p', hp', e'⟩ := exDigits (v := 4) (by norm_num) false (0 : Nat)
  refine ⟨exSources 64 2 0, (exSources 64 4 0).table, (0 : Nat), p, p', hp, hp', rfl, by simp [exSources, exSplit, List.range_succ], ?_, ?_⟩
  · intro q hq
    rcases (by omega : q = 0 ∨ q = 1) with rfl | rfl <;> rfl
  · rw [e, e']
    intro h
    have := congrArg (fun D : List Example => (D.headD ([], 0)).1.getD 0 0) h
    norm_num [List.replicate_succ] at this

/-- **C70 is not reproducible for the circles**: they are drawn from the global generator, so the test data of two calls differ. -/
theorem C70_refuted_circles : ∃ (S : Sources) (s s' r r' : S.σ) (p p' : Parts), getDatasets S "synth-circles" false s = .ok (p, r) ∧
    getDatasets S "synth-circles" false s' = .ok (p', r') ∧ p.test ≠ p'.test := by
  have hi : "synth".toList <:+: "synth-circles".toList := by decide
  have ht : String.ofList (removeAll "synth-".toList 0 "synth-circles".toList) = "circles" := by decide
  have hg : ∀ (n : Nat) (s : (exSources 1 1 0).σ), generateData (exSources 1 1 0) "synth-circles" n s =
      .ok ((exSources 1 1 0).circles n s) := by
    intro n s
    simp only [generateData, ht, if_true]
  have key : ∀ s : (exSources 1 1 0).σ, ∃ (r : (exSources 1 1 0).σ) (p : Parts),
      getDatasets (exSources 1 1 0) "synth-circles" false s = .ok (p, r) ∧ p.test = ((exSources 1 1 0).circles 1000
        ((exSources 1 1 0).circles 1000 ((exSources 1 1 0).circles 3000 s).2).2).1 := by
    intro s
    simp only [getDatasets, getDataShape, if_pos hi, Res.ok_bind, hg, Res.pure_eq]
    generalize (exSources 1 1 0).circles = c
    exact ⟨_, _, rfl, rfl⟩
  obtain ⟨r, p, h1, e1⟩ := key (0 : Nat)
  obtain ⟨r', p', h2, e2⟩ := key (1 : Nat)
  refine ⟨exSources 1 1 0, (0 : Nat), (1 : Nat), r, r', p, p', h1, h2, fun h => ?_⟩
  rw [e1, e2] at h
  have h3 : exCircles 1000 (0 + 1 + 1) = exCircles 1000 (1 + 1 + 1) := h
  exact absurd (exCircles_inj (by norm_num) h3) (by decide)

/-- seven images are divided into six and one; five images of `svhn` are refused. -/
example (nz : Bool) : ∃ p, getDatasets (exSources 1 1 7) "mnist" nz (0 : Nat) = .ok (p, (0 : Nat)) ∧ p.train.length = 6 := by
  obtain ⟨p, hp, -, -, hl⟩ := C70_images (name := "mnist") (by simp [splitNames]) (exSources 1 1 7) nz (0 : Nat)
  refine ⟨p, hp, ?_⟩
  simp only [exSources, List.length_replicate, abs_le] at hl
  have h1 : (5 : ℝ) < p.train.length := by push_cast at hl; linarith [hl.1]
  have h2 : (p.train.length : ℝ) < 7 := by push_cast at hl; linarith [hl.2]
  have h1' : 5 < p.train.length := by exact_mod_cast h1
  have h2' : p.train.length < 7 := by exact_mod_cast h2
  omega

example (nz : Bool) : getDatasets (exSources 1 1 5) "svhn" nz (0 : Nat) = .error .value :=
  C70_refuted_both (te := "test") (tr := "train") (by simp [bothNames]) _ _ _ (by simp [exSources])

example (nz : Bool) : ∃ p, getDatasets (exSources 1 1 7) "svhn" nz (0 : Nat) = .ok (p, (0 : Nat)) := by
  obtain ⟨p, -, hp, -⟩ := C70_both_partial (te := "test") (tr := "train") (name := "svhn") (by simp [bothNames]) (exSources 1 1 7) nz
    (0 : Nat) (by simp [exSources])
  exact ⟨p, hp⟩

theorem exWine_y (v : ℝ) : labelEncode (((exSources 13 v 0).table "wine").map (·.label)) = [0, 0, 0] := by
  simp [labelEncode, exSources]

theorem exWine_rect (v : ℝ) : Rect 13 (((exSources 13 v 0).table "wine").map (features "wine" ((exSources 13 v 0).table "wine"))) := by
  intro r hr
  simp [exSources, features] at hr
  rcases hr with rfl | rfl <;> simp

/-- the table of wines with three rows. -/
theorem exWine (v : ℝ) : ∃ p, getDatasets (exSources 13 v 0) "wine" false (0 : Nat) = .ok (p, (0 : Nat)) :=
  C70_tables_ok (k := 13) (by simp [scaledNames]) _ _ _ (exWine_rect v) (i := ([0, 1], [2])) (j := ([0], [1]))
    (by rw [exWine_y]; exact (exChosen 13 v 0 0 0 0).first) (by rw [exWine_y]; exact (exChosen 13 v 0 0 0 0).second) (by simp)

/-- the two tables of wines that differ in the row for testing meet the hypotheses of `C70_noleak`. -/
example (v w : ℝ) : ∃ p p', getDatasets (exSources 13 v 0) "wine" false (0 : Nat) = .ok (p, (0 : Nat)) ∧
    getDatasets { exSources 13 v 0 with table := (exSources 13 w 0).table } "wine" false (0 : Nat) = .ok (p', (0 : Nat)) ∧
    p'.train = p.train ∧ p'.val = p.val := by
  obtain ⟨p, hp⟩ := exWine v
  obtain ⟨p', hp'⟩ := exWine w
  have := C70_noleak (name := "wine") (k := 13) (by simp [scaledNames]) (t := (exSources 13 w 0).table) (exWine_rect v) (exWine_rect w)
    hp hp' rfl (fun h => absurd h (by decide)) (i := ([0, 1], [2])) (j := ([0], [1]))
    (by rw [exWine_y]; exact (exChosen 13 v 0 0 0 0).first) (by rw [exWine_y]; exact (exChosen 13 v 0 0 0 0).second)
    (by intro q hq; simp at hq; subst hq; rfl)
  exact ⟨p, p', hp, hp', this.1, this.2 (by intro q hq; simp at hq; subst hq; rfl)⟩

example (nz : Bool) : getDatasets (exSources 1 1 0) "nltcs" nz (0 : Nat) = .ok (⟨[(List.replicate 16 1, 0)], [(List.replicate 16 1, 0)],
    [(List.replicate 16 1, 0)]⟩, (0 : Nat)) :=
  C70_debd (k := 16) (by simp [debdShapes]) (exSources 1 1 0) nz _ (by intro part _ r hr; simp [exSources] at hr; simp [hr])

example (s : (exSources 2 3 0).σ) : ∃ p, getDatasets (exSources 2 3 0) "20newsgroup" false s = .ok (p, s) := by
  have hR : ∀ X Y : List (List ℝ), Rect 50 ((X.map fun _ => List.replicate 50 (0 : ℝ)).map (standardScaler Y)) := by
    intro X Y r hr
    obtain ⟨q, hq, rfl⟩ := List.mem_map.1 hr
    obtain ⟨_, _, rfl⟩ := List.mem_map.1 hq
    rw [standardScaler_length, List.length_replicate]
  rw [getDatasets_news]
  unfold newsParts
  have ht : ∀ X : List (List ℝ), X.length = 3 → trainTestSplit (exSources 2 3 0) X [5, 5, 5] =
      .ok (subset X [0, 1], subset X [2], [5, 5], [5]) := by
    intro X hX
    simp [trainTestSplit, require, hX, exSources, exSplit, subset, List.range_succ]
  rw [show ((exSources 2 3 0).table "20newsgroup train").map (·.label) = [5, 5, 5] from rfl, ht _ rfl, Res.ok_bind]
  simp only [show ∀ X s, (exSources 2 3 0).pca X s = (fun _ => List.replicate 50 0, s) from fun _ _ => rfl]
  rw [require_true _ (by simp [subset, exSources]), Res.ok_bind, reshapeRows_rect (by norm_num) (hR _ _), Res.ok_bind,
    reshapeRows_rect (by norm_num) (hR _ _), Res.ok_bind, reshapeRows_rect (by norm_num) (hR _ _), Res.ok_bind,
    tensorDataset_eq (by simp [subset, exSources]), Res.ok_bind, tensorDataset_eq (by simp [subset, exSources]), Res.ok_bind,
    tensorDataset_eq (by simp [exSources]), Res.ok_bind]
  exact ⟨_, rfl⟩

end Props
end Einet
end
