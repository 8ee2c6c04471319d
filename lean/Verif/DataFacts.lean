import Verif.Data
import Mathlib.Algebra.Order.Floor.Ring
import Mathlib.Algebra.Order.Round
import Mathlib.Tactic.Linarith
import Mathlib.Tactic.FieldSimp
import Mathlib.Algebra.Order.BigOperators.Group.List

/-!
# Facts about data sets and loaders
-/

open Classical
noncomputable section
namespace Einet

/-! ### rounding -/

theorem pyRound_near (q : ℚ) : |(pyRound q : ℚ) - q| ≤ 1 / 2 := by
  have h1 := Int.floor_le q
  have h2 := Int.lt_floor_add_one q
  unfold pyRound
  split_ifs <;> push_cast <;> rw [abs_le] <;> constructor <;> linarith

theorem pyRound_unique {q : ℚ} {z : ℤ} (h : |(z : ℚ) - q| < 1 / 2) : pyRound q = z := by
  have h1 := pyRound_near q
  rw [abs_le] at h1
  rw [abs_lt] at h
  have a : ((pyRound q - z : ℤ) : ℚ) < 1 := by push_cast; linarith [h1.2, h.1]
  have b : (-1 : ℚ) < ((pyRound q - z : ℤ) : ℚ) := by push_cast; linarith [h1.1, h.2]
  have a' : pyRound q - z < 1 := by exact_mod_cast a
  have b' : -1 < pyRound q - z := by exact_mod_cast b
  omega

theorem pyRound_int (z : ℤ) : pyRound z = z := pyRound_unique (by simp)

theorem tenth_split (m : Nat) : (m : ℚ) / 10 = ((m / 10 : Nat) : ℚ) + ((m % 10 : Nat) : ℚ) / 10 := by
  have h : (m : ℚ) = ((10 * (m / 10) + m % 10 : Nat) : ℚ) := by rw [Nat.div_add_mod]
  rw [Nat.cast_add, Nat.cast_mul] at h
  generalize ((m / 10 : Nat) : ℚ) = u at *
  generalize ((m % 10 : Nat) : ℚ) = v at *
  rw [h]; push_cast; ring

theorem floor_tenth (m : Nat) : ⌊(m : ℚ) / 10⌋ = ((m / 10 : Nat) : ℤ) := by
  have h := Nat.mod_lt m (show 0 < 10 by norm_num)
  have h' : ((m % 10 : Nat) : ℚ) < (10 : Nat) := by exact_mod_cast h
  have h0 : (0 : ℚ) ≤ ((m % 10 : Nat) : ℚ) := by positivity
  rw [Int.floor_eq_iff, tenth_split, Int.cast_natCast]
  generalize ((m / 10 : Nat) : ℚ) = u at *
  generalize ((m % 10 : Nat) : ℚ) = v at *
  push_cast at h'
  constructor <;> linarith

theorem pyRound_tenth (m : Nat) : (pyRound ((m : ℚ) / 10)).toNat =
    if m % 10 < 5 then m / 10 else if 5 < m % 10 then m / 10 + 1 else if m / 10 % 2 = 0 then m / 10 else m / 10 + 1 := by
  have e : (m : ℚ) / 10 - ((m / 10 : Nat) : ℤ) = ((m % 10 : Nat) : ℚ) / 10 := by
    rw [tenth_split, Int.cast_natCast]; ring
  have c1 : ((m % 10 : Nat) : ℚ) / 10 < 1 / 2 ↔ m % 10 < 5 := by
    rw [div_lt_div_iff₀ (by norm_num) (by norm_num)]
    constructor <;> intro h
    · have : ((m % 10 : Nat) : ℚ) < (5 : Nat) := by push_cast at h ⊢; linarith
      exact_mod_cast this
    · have : ((m % 10 : Nat) : ℚ) < (5 : Nat) := by exact_mod_cast h
      push_cast at this ⊢; linarith
  have c2 : 1 / 2 < ((m % 10 : Nat) : ℚ) / 10 ↔ 5 < m % 10 := by
    rw [div_lt_div_iff₀ (by norm_num) (by norm_num)]
    constructor <;> intro h
    · have : ((5 : Nat) : ℚ) < ((m % 10 : Nat) : ℚ) := by push_cast at h ⊢; linarith
      exact_mod_cast this
    · have : ((5 : Nat) : ℚ) < ((m % 10 : Nat) : ℚ) := by exact_mod_cast h
      push_cast at this ⊢; linarith
  unfold pyRound
  rw [floor_tenth, e]
  simp only [c1, c2]
  have c3 : (((m / 10 : Nat) : ℤ) % 2 = 0) ↔ m / 10 % 2 = 0 := by omega
  simp only [c3]
  split_ifs <;> omega

/-! ### parts of a list -/

theorem subset_range {α : Type} (l : List α) : subset l (List.range l.length) = l := by
  apply List.ext_getElem?
  intro i
  unfold subset
  induction l using List.reverseRecOn with
  | nil => simp
  | append_singleton l a ih =>
    rw [List.length_append, List.length_singleton, List.range_succ, List.filterMap_append]
    have e : (List.range l.length).filterMap ((l ++ [a])[·]?) = (List.range l.length).filterMap (l[·]?) := by
      apply List.filterMap_congr
      intro j hj
      rw [List.getElem?_append_left (List.mem_range.1 hj)]
    have e' : (List.range l.length).filterMap (l[·]?) = l := List.ext_getElem? (by
      intro j
      clear ih e
      rw [show (List.range l.length).filterMap (l[·]?) = l from ?_]
      clear j
      induction l with
      | nil => rfl
      | cons b l ih => simpa [List.range_succ_eq_map, List.filterMap_map, Function.comp_def] using ih)
    rw [e, e']
    simp

theorem subset_perm {α : Type} {l : List α} {idx : List Nat} (h : idx.Perm (List.range l.length)) : (subset l idx).Perm l := by
  have := h.filterMap (l[·]?)
  rwa [show (List.range l.length).filterMap (l[·]?) = l from subset_range l] at this

theorem subset_append {α : Type} (l : List α) (a b : List Nat) : subset l (a ++ b) = subset l a ++ subset l b := by
  simp [subset]

theorem subset_map {α β : Type} (f : α → β) (l : List α) (a : List Nat) : subset (l.map f) a = (subset l a).map f := by
  simp [subset, List.map_filterMap]

theorem subset_length {α : Type} {l : List α} {idx : List Nat} (h : ∀ i ∈ idx, i < l.length) : (subset l idx).length = idx.length := by
  induction idx with
  | nil => rfl
  | cons i idx ih =>
    have hi := h i (by simp)
    simp only [subset, List.filterMap_cons, List.getElem?_eq_getElem hi, List.length_cons]
    rw [← ih fun j hj => h j (by simp [hj])]
    rfl

theorem subset_zip {α β : Type} {l : List α} {m : List β} (hlm : l.length = m.length) (idx : List Nat) :
    subset (l.zip m) idx = (subset l idx).zip (subset m idx) := by
  induction idx with
  | nil => rfl
  | cons i idx ih =>
    by_cases hi : i < l.length
    · have hi' : i < m.length := hlm ▸ hi
      have hz : i < (l.zip m).length := by simp [hi, hi']
      have ih' : List.filterMap ((l.zip m)[·]?) idx = (List.filterMap (l[·]?) idx).zip (List.filterMap (m[·]?) idx) := ih
      simp only [subset, List.filterMap_cons, List.getElem?_eq_getElem hi, List.getElem?_eq_getElem hi',
        List.getElem?_eq_getElem hz, List.zip_cons_cons, List.getElem_zip, ih']
    · have hi' : ¬ i < m.length := hlm ▸ hi
      have hz : ¬ i < (l.zip m).length := by simp [hi]
      have ih' : List.filterMap ((l.zip m)[·]?) idx = (List.filterMap (l[·]?) idx).zip (List.filterMap (m[·]?) idx) := ih
      simp only [subset, List.filterMap_cons, List.getElem?_eq_none (not_lt.1 hi), List.getElem?_eq_none (not_lt.1 hi'),
        List.getElem?_eq_none (not_lt.1 hz), ih']

theorem mem_subset {α : Type} {l : List α} {idx : List Nat} {x : α} (h : x ∈ subset l idx) : x ∈ l := by
  obtain ⟨i, -, h⟩ := List.mem_filterMap.1 h
  exact List.mem_of_getElem? h

/-! ### `random_split` -/

theorem randomSplit_ok (G : PermGen) (g : G.σ) {ds : List Example} {a b : Nat} (h : a + b = ds.length) :
    ∃ r, randomSplit G g ds a b = .ok r ∧ (r.1 ++ r.2).Perm ds ∧ r.1.length = a ∧ r.2.length = b := by
  have hab : (if a + b = 1 then (ds.length * a, ds.length * b) else (a, b)) = (a, b) := by
    split_ifs with h1
    · rw [← h, h1, one_mul, one_mul]
    · rfl
  have hp := G.perm (a + b) g
  have hlen := hp.length_eq
  rw [List.length_range] at hlen
  have hmem : ∀ i ∈ (G.randperm (a + b) g).1, i < ds.length := fun i hi => by
    rw [← h]; exact List.mem_range.1 (hp.mem_iff.1 hi)
  have hdrop : ((G.randperm (a + b) g).1.drop a).take b = (G.randperm (a + b) g).1.drop a :=
    List.take_of_length_le (by rw [List.length_drop]; omega)
  refine ⟨(subset ds ((G.randperm (a + b) g).1.take a), subset ds (((G.randperm (a + b) g).1.drop a).take b)), ?_, ?_, ?_, ?_⟩
  · unfold randomSplit
    rw [hab]
    simp [require, h]
  · rw [hdrop, ← subset_append, List.take_append_drop]
    apply subset_perm
    rw [← h]; exact hp
  · rw [subset_length fun i hi => hmem i (List.mem_of_mem_take hi), List.length_take]; omega
  · rw [hdrop, subset_length fun i hi => hmem i (List.mem_of_mem_drop hi), List.length_drop]; omega

theorem randomSplit_error (G : PermGen) (g : G.σ) {ds : List Example} {a b : Nat} (h : a + b ≠ ds.length) (h1 : a + b ≠ 1) :
    randomSplit G g ds a b = .error .value := by
  unfold randomSplit
  rw [if_neg h1]
  simp [require, h]

theorem splitRest_ok (G : PermGen) (g : G.σ) (ds : List Example) :
    ∃ r, splitRest G g ds = .ok r ∧ (r.1 ++ r.2).Perm ds ∧ 9 * ds.length ≤ 10 * r.1.length + 5 ∧ 10 * r.1.length ≤ 9 * ds.length + 5 := by
  have e : ((ds.length : ℚ) * (9 / 10)) = ((9 * ds.length : Nat) : ℚ) / 10 := by push_cast; ring
  have hr := pyRound_tenth (9 * ds.length)
  unfold splitRest
  rw [e]
  generalize (pyRound (((9 * ds.length : Nat) : ℚ) / 10)).toNat = n at *
  have hle : n ≤ ds.length ∧ 9 * ds.length ≤ 10 * n + 5 ∧ 10 * n ≤ 9 * ds.length + 5 := by
    split_ifs at hr <;> omega
  obtain ⟨r, h1, h2, h3, h4⟩ := randomSplit_ok G g (ds := ds) (a := n) (b := ds.length - n) (by omega)
  exact ⟨r, h1, h2, by omega, by omega⟩

theorem splitBoth_ok (G : PermGen) (g : G.σ) {ds : List Example} (h : ds.length % 10 ≠ 5) :
    ∃ r, splitBoth G g ds = .ok r ∧ (r.1 ++ r.2).Perm ds ∧ 9 * ds.length ≤ 10 * r.1.length + 5 ∧ 10 * r.1.length ≤ 9 * ds.length + 5 := by
  have e : ((ds.length : ℚ) * (9 / 10)) = ((9 * ds.length : Nat) : ℚ) / 10 := by push_cast; ring
  have e' : ((ds.length : ℚ) * (1 / 10)) = (ds.length : ℚ) / 10 := by ring
  have hr := pyRound_tenth (9 * ds.length)
  have hr' := pyRound_tenth ds.length
  unfold splitBoth
  rw [e, e']
  generalize (pyRound (((9 * ds.length : Nat) : ℚ) / 10)).toNat = a at *
  generalize (pyRound ((ds.length : ℚ) / 10)).toNat = b at *
  have hab : a + b = ds.length ∧ 9 * ds.length ≤ 10 * a + 5 ∧ 10 * a ≤ 9 * ds.length + 5 := by
    split_ifs at hr hr' <;> omega
  obtain ⟨r, h1, h2, h3, h4⟩ := randomSplit_ok G g hab.1
  exact ⟨r, h1, h2, by omega, by omega⟩

theorem splitBoth_error (G : PermGen) (g : G.σ) {ds : List Example} (h : ds.length % 10 = 5) :
    splitBoth G g ds = .error .value := by
  have e : ((ds.length : ℚ) * (9 / 10)) = ((9 * ds.length : Nat) : ℚ) / 10 := by push_cast; ring
  have e' : ((ds.length : ℚ) * (1 / 10)) = (ds.length : ℚ) / 10 := by ring
  have hr := pyRound_tenth (9 * ds.length)
  have hr' := pyRound_tenth ds.length
  unfold splitBoth
  rw [e, e']
  generalize (pyRound (((9 * ds.length : Nat) : ℚ) / 10)).toNat = a at *
  generalize (pyRound ((ds.length : ℚ) / 10)).toNat = b at *
  refine randomSplit_error G g ?_ ?_ <;> split_ifs at hr hr' <;> omega

/-! ### reshape -/

/-- all rows have `F` columns. -/
def Rect (F : Nat) (X : List (List ℝ)) : Prop := ∀ r ∈ X, r.length = F

theorem Rect.flatten {F : Nat} {X : List (List ℝ)} (h : Rect F X) : X.flatten.length = X.length * F := by
  induction X with
  | nil => simp
  | cons r X ih =>
    rw [List.flatten_cons, List.length_append, ih fun r hr => h r (by simp [hr]), h r (by simp), List.length_cons, Nat.succ_mul]
    omega

theorem Rect.subset {F : Nat} {X : List (List ℝ)} (h : Rect F X) (idx : List Nat) : Rect F (subset X idx) :=
  fun r hr => h r (mem_subset hr)

theorem chunks_flatten {k : Nat} {X : List (List ℝ)} (h : Rect k X) :
    ((List.range X.length).map fun i => (X.flatten.drop (i * k)).take k) = X := by
  induction X with
  | nil => rfl
  | cons r X ih =>
    have hr := h r (by simp)
    rw [List.length_cons, List.range_succ_eq_map, List.map_cons, List.map_map, List.flatten_cons]
    congr 1
    · rw [zero_mul, List.drop_zero, List.take_append_of_le_length hr.ge, ← hr, List.take_length]
    · refine Eq.trans (List.map_congr_left fun i _ => ?_) (ih fun r hr => h r (by simp [hr]))
      simp only [Function.comp_apply, Nat.succ_mul]
      rw [List.drop_append, List.drop_of_length_le (by omega), List.nil_append, hr, Nat.add_sub_cancel]

theorem reshapeRows_rect {k : Nat} (hk : 0 < k) {X : List (List ℝ)} (h : Rect k X) : reshapeRows k X = .ok X := by
  unfold reshapeRows
  rw [h.flatten, Nat.mul_mod_left, Nat.mul_div_cancel _ hk]
  simp only [require, if_true]
  exact congrArg Except.ok (chunks_flatten h)

theorem reshapeRows_same {k F : Nat} (hk : 0 < k) {X Y : List (List ℝ)} (h : Rect F X) (hY : reshapeRows k X = .ok Y)
    (hl : Y.length = X.length) : Y = X := by
  rcases X.eq_nil_or_concat with rfl | hX
  · simpa using hl
  · have hX : 0 < X.length := by obtain ⟨_, _, rfl⟩ := hX; simp
    have hY' := hY
    unfold reshapeRows at hY
    obtain ⟨_, h1, h2⟩ := bind_ok hY
    rw [require_ok_iff, h.flatten] at h1
    cases h2
    rw [List.length_map, List.length_range, h.flatten] at hl
    have : X.length * F = X.length * k := by
      have := Nat.div_add_mod (X.length * F) k
      rw [hl, h1] at this
      rw [← this]; ring
    have hF : F = k := Nat.eq_of_mul_eq_mul_left hX this
    subst hF
    rw [reshapeRows_rect hk h] at hY'
    exact (Except.ok.inj hY').symm

theorem subset_length_eq {α β : Type} {l : List α} {m : List β} (hlm : l.length = m.length) (idx : List Nat) :
    (subset l idx).length = (subset m idx).length := by
  induction idx with
  | nil => rfl
  | cons i idx ih =>
    have ih' : (List.filterMap (l[·]?) idx).length = (List.filterMap (m[·]?) idx).length := ih
    by_cases hi : i < l.length
    · have hi' : i < m.length := hlm ▸ hi
      simp only [subset, List.filterMap_cons, List.getElem?_eq_getElem hi, List.getElem?_eq_getElem hi', List.length_cons, ih']
    · have hi' : ¬ i < m.length := hlm ▸ hi
      simp only [subset, List.filterMap_cons, List.getElem?_eq_none (not_lt.1 hi), List.getElem?_eq_none (not_lt.1 hi'), ih']

/-! ### tables -/

/-- the rows chosen by the two calls of `train_test_split`. -/
structure Chosen (S : Sources) (y : List ℤ) where
  rest : List Nat
  test : List Nat
  train : List Nat
  val : List Nat
  first : S.split y = .ok (rest, test)
  second : S.split (subset y rest) = .ok (train, val)

/-- the parts of a table that these rows give. -/
def Chosen.parts {S : Sources} {y : List ℤ} (c : Chosen S y) (X : List (List ℝ)) (f : List ℝ → List ℝ) : Parts :=
  ⟨((subset (subset X c.rest) c.train).map f).zip (subset (subset y c.rest) c.train),
    ((subset (subset X c.rest) c.val).map f).zip (subset (subset y c.rest) c.val), ((subset X c.test).map f).zip (subset y c.test)⟩

theorem Rect.map {F F' : Nat} {X : List (List ℝ)} (h : Rect F X) {f : List ℝ → List ℝ} (hf : ∀ r, r.length = F → (f r).length = F') :
    Rect F' (X.map f) := fun r hr => by
  obtain ⟨q, hq, rfl⟩ := List.mem_map.1 hr
  exact hf q (h q hq)

theorem trainTestSplit_ok {S : Sources} {X : List (List ℝ)} {y : List ℤ} {r : List (List ℝ) × List (List ℝ) × List ℤ × List ℤ}
    (h : trainTestSplit S X y = .ok r) : X.length = y.length ∧ ∃ i, S.split y = .ok i ∧
      r = (subset X i.1, subset X i.2, subset y i.1, subset y i.2) := by
  unfold trainTestSplit at h
  obtain ⟨_, h1, h2⟩ := bind_ok h
  obtain ⟨i, h3, h4⟩ := bind_ok h2
  cases h4
  exact ⟨(require_ok_iff _ _).1 h1, i, h3, rfl⟩

theorem tensorDataset_ok {X : List (List ℝ)} {y : List ℤ} {r : List Example} (h : tensorDataset X y = .ok r) :
    X.length = y.length ∧ r = X.zip y := by
  unfold tensorDataset at h
  obtain ⟨_, h1, h2⟩ := bind_ok h
  cases h2
  exact ⟨(require_ok_iff _ _).1 h1, rfl⟩

/-- reshape followed by the construction of a data set keeps the rows. -/
theorem reshape_dataset {k F : Nat} (hk : 0 < k) {X Y : List (List ℝ)} {y : List ℤ} {D : List Example} (hX : Rect F X)
    (hXy : X.length = y.length) (h : reshapeRows k X = .ok Y) (h' : tensorDataset Y y = .ok D) : D = X.zip y := by
  obtain ⟨h1, rfl⟩ := tensorDataset_ok h'
  rw [reshapeRows_same hk hX h (h1.trans hXy.symm)]

theorem standardScaler_length (X : List (List ℝ)) (r : List ℝ) : (standardScaler X r).length = r.length := by
  simp [standardScaler]

theorem scaledParts_spec {S : Sources} {k F : Nat} (hk : 0 < k) {X : List (List ℝ)} {y : List ℤ} (hX : Rect F X) {p : Parts}
    (h : scaledParts S k X y = .ok p) : X.length = y.length ∧ ∃ c : Chosen S y, subset (subset X c.rest) c.train ≠ [] ∧
      p = c.parts X (standardScaler (subset (subset X c.rest) c.train)) := by
  unfold scaledParts at h
  obtain ⟨r1, h1, h⟩ := bind_ok h
  obtain ⟨hl, i, hi, rfl⟩ := trainTestSplit_ok h1
  simp only at h
  obtain ⟨r2, h2, h⟩ := bind_ok h
  obtain ⟨hl2, j, hj, rfl⟩ := trainTestSplit_ok h2
  simp only at h
  obtain ⟨_, h3, h⟩ := bind_ok h
  rw [require_ok_iff] at h3
  obtain ⟨A, hA, h⟩ := bind_ok h
  obtain ⟨B, hB, h⟩ := bind_ok h
  obtain ⟨C, hC, h⟩ := bind_ok h
  obtain ⟨a, ha, h⟩ := bind_ok h
  obtain ⟨b, hb, h⟩ := bind_ok h
  obtain ⟨d, hd, h⟩ := bind_ok h
  cases h
  refine ⟨hl, ⟨i.1, i.2, j.1, j.2, hi, hj⟩, h3, ?_⟩
  have hsc : ∀ r : List ℝ, r.length = F → (standardScaler (subset (subset X i.1) j.1) r).length = F := fun r hr => by
    rw [standardScaler_length, hr]
  have e1 := reshape_dataset hk (((hX.subset _).subset _).map hsc) (by rw [List.length_map, subset_length_eq hl2]) hA ha
  have e2 := reshape_dataset hk (((hX.subset _).subset _).map hsc) (by rw [List.length_map, subset_length_eq hl2]) hB hb
  have e3 := reshape_dataset hk ((hX.subset _).map hsc) (by rw [List.length_map, subset_length_eq hl]) hC hd
  rw [e1, e2, e3]
  rfl

theorem scaledParts_ok {S : Sources} {k : Nat} (hk : 0 < k) {X : List (List ℝ)} {y : List ℤ} (hX : Rect k X)
    (hl : X.length = y.length) (c : Chosen S y) (hne : c.train ≠ []) :
    scaledParts S k X y = .ok (c.parts X (standardScaler (subset (subset X c.rest) c.train))) := by
  have hl2 : (subset X c.rest).length = (subset y c.rest).length := subset_length_eq hl _
  have p2 := S.split_perm _ _ c.second
  have hne' : subset (subset X c.rest) c.train ≠ [] := by
    intro h0
    have := subset_length (l := subset X c.rest) (idx := c.train) fun i hi => by
      rw [hl2]
      exact List.mem_range.1 (p2.mem_iff.1 (List.mem_append_left _ hi))
    rw [h0] at this
    exact hne (List.eq_nil_of_length_eq_zero this.symm)
  have hsc : ∀ r : List ℝ, r.length = k → (standardScaler (subset (subset X c.rest) c.train) r).length = k := fun r hr => by
    rw [standardScaler_length, hr]
  have t1 : trainTestSplit S X y = .ok (subset X c.rest, subset X c.test, subset y c.rest, subset y c.test) := by
    simp [trainTestSplit, require, hl, c.first]
  have t2 : trainTestSplit S (subset X c.rest) (subset y c.rest) = .ok (subset (subset X c.rest) c.train,
      subset (subset X c.rest) c.val, subset (subset y c.rest) c.train, subset (subset y c.rest) c.val) := by
    simp [trainTestSplit, require, hl2, c.second]
  have td : ∀ (A : List (List ℝ)) (b : List ℤ), A.length = b.length → tensorDataset A b = .ok (A.zip b) := fun A b h => by
    simp [tensorDataset, require, h]
  unfold scaledParts
  rw [t1, Res.ok_bind]
  simp only
  rw [t2, Res.ok_bind]
  simp only
  rw [require_true _ hne', Res.ok_bind, reshapeRows_rect hk (((hX.subset _).subset _).map hsc), Res.ok_bind,
    reshapeRows_rect hk (((hX.subset _).subset _).map hsc), Res.ok_bind, reshapeRows_rect hk ((hX.subset _).map hsc), Res.ok_bind,
    td _ _ (by rw [List.length_map, subset_length_eq hl2]), Res.ok_bind, td _ _ (by rw [List.length_map, subset_length_eq hl2]),
    Res.ok_bind, td _ _ (by rw [List.length_map, subset_length_eq hl]), Res.ok_bind]
  rfl

/-- the three parts together are the table. -/
theorem Chosen.perm {S : Sources} {y : List ℤ} (c : Chosen S y) {X : List (List ℝ)} (hl : X.length = y.length)
    (f : List ℝ → List ℝ) :
    ((c.parts X f).train ++ (c.parts X f).val ++ (c.parts X f).test).Perm ((X.zip y).map fun e => (f e.1, e.2)) := by
  have p1 := S.split_perm _ _ c.first
  have p2 := S.split_perm _ _ c.second
  have hl2 : (subset X c.rest).length = (subset y c.rest).length := subset_length_eq hl _
  have z : ∀ (A : List (List ℝ)) (b : List ℤ), (A.map f).zip b = (A.zip b).map fun e => (f e.1, e.2) := fun A b => by
    rw [List.zip_map_left]; rfl
  unfold Chosen.parts
  simp only [z]
  rw [← List.map_append, ← List.map_append]
  apply List.Perm.map
  rw [← subset_zip hl2, ← subset_zip hl2, ← subset_append, ← subset_zip hl c.test]
  have q2 : (subset ((subset X c.rest).zip (subset y c.rest)) (c.train ++ c.val)).Perm ((subset X c.rest).zip (subset y c.rest)) := by
    apply subset_perm
    rw [List.length_zip, hl2, min_self]; exact p2
  have q1 : (subset (X.zip y) (c.rest ++ c.test)).Perm (X.zip y) := by
    apply subset_perm
    rw [List.length_zip, hl, min_self]; exact p1
  rw [subset_append, subset_zip hl c.rest] at q1
  exact (q2.append_right _).trans q1

theorem digitsParts_spec {S : Sources} {k F : Nat} (hk : 0 < k) {X : List (List ℝ)} {y : List ℤ} (hX : Rect F X) {p : Parts}
    (h : digitsParts S k X y = .ok p) : X.length = y.length ∧ ∃ m, X.flatten.max? = some m ∧ ∃ c : Chosen S y,
      p = c.parts X fun r => r.map (· / m) := by
  unfold digitsParts at h
  cases hm : X.flatten.max? with
  | none => rw [hm] at h; cases h
  | some m =>
  rw [hm] at h
  simp only at h
  obtain ⟨r1, h1, h⟩ := bind_ok h
  obtain ⟨hl, i, hi, rfl⟩ := trainTestSplit_ok h1
  simp only at h
  obtain ⟨r2, h2, h⟩ := bind_ok h
  obtain ⟨hl2, j, hj, rfl⟩ := trainTestSplit_ok h2
  simp only at h
  obtain ⟨A, hA, h⟩ := bind_ok h
  obtain ⟨B, hB, h⟩ := bind_ok h
  obtain ⟨C, hC, h⟩ := bind_ok h
  obtain ⟨a, ha, h⟩ := bind_ok h
  obtain ⟨b, hb, h⟩ := bind_ok h
  obtain ⟨d, hd, h⟩ := bind_ok h
  cases h
  have hX' : Rect F (X.map (·.map (· / m))) := hX.map fun r hr => by rw [List.length_map, hr]
  have e1 := reshape_dataset hk ((hX'.subset _).subset _) (by rw [subset_length_eq hl2]) hA ha
  have e2 := reshape_dataset hk ((hX'.subset _).subset _) (by rw [subset_length_eq hl2]) hB hb
  have e3 := reshape_dataset hk (hX'.subset _) (by rw [subset_length_eq hl]) hC hd
  refine ⟨by simpa using hl, m, rfl, ⟨i.1, i.2, j.1, j.2, hi, hj⟩, ?_⟩
  rw [e1, e2, e3]
  simp only [Chosen.parts, subset_map]

/-- the rows for training do not depend on the other rows. -/
theorem subset_agree {α : Type} {l m : List α} {idx : List Nat} (h : ∀ i ∈ idx, l[i]? = m[i]?) : subset l idx = subset m idx :=
  List.filterMap_congr h

theorem subset_subset {α : Type} {l : List α} {a b : List Nat} (ha : ∀ i ∈ a, i < l.length) :
    subset (subset l a) b = subset l (subset a b) := by
  have key : ∀ j : Nat, (subset l a)[j]? = a[j]?.bind fun i => l[i]? := by
    induction a with
    | nil => intro j; simp [subset]
    | cons i a ih =>
      have hi := ha i (by simp)
      have ih := ih fun i hi => ha i (by simp [hi])
      intro j
      have e : subset l (i :: a) = l[i] :: subset l a := by
        simp only [subset, List.filterMap_cons, List.getElem?_eq_getElem hi]
      rw [e]
      cases j with
      | zero => simp
      | succ j => simpa using ih j
  unfold subset at key ⊢
  rw [List.filterMap_filterMap]
  exact List.filterMap_congr fun j _ => key j

theorem tensorDataset_eq {A : List (List ℝ)} {b : List ℤ} (h : A.length = b.length) : tensorDataset A b = .ok (A.zip b) := by
  simp [tensorDataset, require, h]

theorem digitsParts_ok {S : Sources} {k : Nat} (hk : 0 < k) {X : List (List ℝ)} {y : List ℤ} (hX : Rect k X)
    (hl : X.length = y.length) (c : Chosen S y) {m : ℝ} (hm : X.flatten.max? = some m) :
    digitsParts S k X y = .ok (c.parts X fun r => r.map (· / m)) := by
  have hX' : Rect k (X.map (·.map (· / m))) := hX.map fun r hr => by rw [List.length_map, hr]
  have hl1 : (X.map (·.map (· / m))).length = y.length := by rw [List.length_map, hl]
  have hl2 : (subset (X.map (·.map (· / m))) c.rest).length = (subset y c.rest).length := subset_length_eq hl1 _
  have t1 : trainTestSplit S (X.map (·.map (· / m))) y =
      .ok (subset (X.map (·.map (· / m))) c.rest, subset (X.map (·.map (· / m))) c.test, subset y c.rest, subset y c.test) := by
    simp [trainTestSplit, require, hl, c.first]
  have t2 : trainTestSplit S (subset (X.map (·.map (· / m))) c.rest) (subset y c.rest) =
      .ok (subset (subset (X.map (·.map (· / m))) c.rest) c.train, subset (subset (X.map (·.map (· / m))) c.rest) c.val,
        subset (subset y c.rest) c.train, subset (subset y c.rest) c.val) := by
    simp [trainTestSplit, require, hl2, c.second]
  unfold digitsParts
  rw [hm]
  simp only
  rw [t1, Res.ok_bind]
  simp only
  rw [t2, Res.ok_bind]
  simp only
  rw [reshapeRows_rect hk ((hX'.subset _).subset _), Res.ok_bind,
    reshapeRows_rect hk ((hX'.subset _).subset _), Res.ok_bind, reshapeRows_rect hk (hX'.subset _), Res.ok_bind,
    tensorDataset_eq (subset_length_eq hl2 _), Res.ok_bind, tensorDataset_eq (subset_length_eq hl2 _),
    Res.ok_bind, tensorDataset_eq (subset_length_eq hl1 _), Res.ok_bind]
  simp only [Chosen.parts, subset_map]
  rfl

theorem newsParts_spec {S : Sources} {k F : Nat} (hk : 0 < k) {A B : List RawRow} {s s' : S.σ} {p : Parts}
    (hF : ∀ X s r, ((S.pca X s).1 r).length = F) (h : newsParts S k A B s = .ok (p, s')) :
    ∃ i, S.split (A.map (·.label)) = .ok i ∧ ∃ X f, X = (subset (A.map (·.num)) i.1).map (S.pca (subset (A.map (·.num)) i.1) s).1 ∧
      X ≠ [] ∧ f = (fun r => standardScaler X ((S.pca (subset (A.map (·.num)) i.1) s).1 r)) ∧
      p = ⟨((subset (A.map (·.num)) i.1).map f).zip (subset (A.map (·.label)) i.1),
        ((subset (A.map (·.num)) i.2).map f).zip (subset (A.map (·.label)) i.2), ((B.map (·.num)).map f).zip (B.map (·.label))⟩ := by
  unfold newsParts at h
  obtain ⟨r1, h1, h⟩ := bind_ok h
  obtain ⟨hl, i, hi, rfl⟩ := trainTestSplit_ok h1
  simp only at h
  obtain ⟨_, h3, h⟩ := bind_ok h
  rw [require_ok_iff] at h3
  obtain ⟨Y, hA, h⟩ := bind_ok h
  obtain ⟨Y', hB, h⟩ := bind_ok h
  obtain ⟨Y'', hC, h⟩ := bind_ok h
  obtain ⟨a, ha, h⟩ := bind_ok h
  obtain ⟨b, hb, h⟩ := bind_ok h
  obtain ⟨d, hd, h⟩ := bind_ok h
  cases h
  refine ⟨i, hi, _, _, rfl, h3, rfl, ?_⟩
  have hP : ∀ X : List (List ℝ), Rect F (X.map (S.pca (subset (A.map (·.num)) i.1) s).1) := fun X r hr => by
    obtain ⟨q, -, rfl⟩ := List.mem_map.1 hr
    exact hF _ _ _
  have hsc : ∀ X : List (List ℝ), ∀ r : List ℝ, r.length = F → (standardScaler X r).length = F := fun X r hr => by
    rw [standardScaler_length, hr]
  have e1 := reshape_dataset hk ((hP _).map (hsc _)) (by simp only [List.length_map]; exact subset_length_eq hl _) hA ha
  have e2 := reshape_dataset hk ((hP _).map (hsc _)) (by simp only [List.length_map]; exact subset_length_eq hl _) hB hb
  have e3 := reshape_dataset hk ((hP _).map (hsc _)) (by simp only [List.length_map]) hC hd
  rw [e1, e2, e3]
  simp only [List.map_map, Function.comp_def]

end Einet
end
