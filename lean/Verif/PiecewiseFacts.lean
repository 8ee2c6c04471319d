import Verif.Piecewise
import Mathlib.MeasureTheory.Integral.IntervalIntegral.Basic
import Mathlib.Analysis.SpecialFunctions.Integrals.Basic
import Mathlib.Topology.Order.Lattice
import Mathlib.Data.List.GetD

/-!
# Facts about piecewise linear interpolation
-/

open Classical MeasureTheory
noncomputable section
namespace Einet

theorem diffs_length (l : List ℝ) : (diffs l).length = l.length - 1 := by
  induction l with
  | nil => rfl
  | cons a l ih =>
    cases l with
    | nil => rfl
    | cons b l => simp only [diffs, List.length_cons] at ih ⊢; omega

theorem diffs_getD (l : List ℝ) (i : ℕ) (h : i + 1 < l.length) :
    (diffs l).getD i 0 = l.getD (i + 1) 0 - l.getD i 0 := by
  induction l generalizing i with
  | nil => simp at h
  | cons a l ih =>
    cases l with
    | nil => simp at h
    | cons b l =>
      cases i with
      | zero => simp [diffs]
      | succ i =>
        simp only [diffs, List.getD_cons_succ]
        exact ih i (by simpa using h)

theorem getD_zipWith {α β γ : Type} (f : α → β → γ) (a : List α) (b : List β) (da : α) (db : β) (dc : γ) (i : ℕ)
    (ha : i < a.length) (hb : i < b.length) :
    (List.zipWith f a b).getD i dc = f (a.getD i da) (b.getD i db) := by
  simp [ha, hb]

theorem slopes_length {xs ys : List ℝ} (h : ys.length = xs.length) : (slopes xs ys).length = xs.length - 1 := by
  simp [slopes, diffs_length, h]

theorem slopes_getD {xs ys : List ℝ} (h : ys.length = xs.length) (i : ℕ) (hi : i + 1 < xs.length) :
    (slopes xs ys).getD i 0 = (ys.getD (i + 1) 0 - ys.getD i 0) / (xs.getD (i + 1) 0 - xs.getD i 0) := by
  unfold slopes
  rw [getD_zipWith _ _ _ 0 0 _ _ (by rw [diffs_length]; omega) (by rw [diffs_length]; omega), diffs_getD _ _ (by omega),
    diffs_getD _ _ hi]

theorem dropLast_getD (l : List ℝ) (i : ℕ) (h : i + 1 < l.length) : l.dropLast.getD i 0 = l.getD i 0 := by
  have h1 : i < l.dropLast.length := by rw [List.length_dropLast]; omega
  have h2 : i < l.length := by omega
  rw [List.getD_eq_getElem _ _ h1, List.getD_eq_getElem _ _ h2, List.getElem_dropLast]

theorem offsets_length {xs ys : List ℝ} (h : ys.length = xs.length) : (offsets xs ys).length = xs.length - 1 := by
  simp [offsets, slopes_length h, h]

theorem offsets_getD {xs ys : List ℝ} (h : ys.length = xs.length) (i : ℕ) (hi : i + 1 < xs.length) :
    (offsets xs ys).getD i 0 = ys.getD i 0 - (slopes xs ys).getD i 0 * xs.getD i 0 := by
  unfold offsets
  rw [getD_zipWith _ _ _ 0 ((0 : ℝ), (0 : ℝ)) _ _ (by rw [List.length_dropLast]; omega)
    (by rw [List.length_zip, slopes_length h, List.length_dropLast]; omega), dropLast_getD _ _ (by omega)]
  have e : (List.zip (slopes xs ys) xs.dropLast).getD i (0, 0) = ((slopes xs ys).getD i 0, xs.dropLast.getD i 0) := by
    have := getD_zipWith Prod.mk (slopes xs ys) xs.dropLast 0 0 ((0 : ℝ), (0 : ℝ)) i (by rw [slopes_length h]; omega)
      (by rw [List.length_dropLast]; omega)
    simpa [List.zip] using this
  rw [e, dropLast_getD _ _ hi]

/-- position of `x` among increasing knots. -/
theorem searchsorted_spec {xs : List ℝ} (hs : xs.Pairwise (· < ·)) (x : ℝ) :
    searchsorted xs x ≤ xs.length ∧ (∀ i, i < searchsorted xs x → xs.getD i 0 < x) ∧
      ∀ i, searchsorted xs x ≤ i → i < xs.length → x ≤ xs.getD i 0 := by
  induction xs with
  | nil => simp [searchsorted]
  | cons a l ih =>
    rw [List.pairwise_cons] at hs
    obtain ⟨h1, h2, h3⟩ := ih hs.2
    by_cases ha : a < x
    · have e : searchsorted (a :: l) x = searchsorted l x + 1 := by simp [searchsorted, ha]
      rw [e]
      refine ⟨by simpa using h1, fun i hi => ?_, fun i hi hl => ?_⟩
      · cases i with
        | zero => simpa using ha
        | succ i => simpa using h2 i (by omega)
      · cases i with
        | zero => omega
        | succ i => simpa using h3 i (by omega) (by simpa using hl)
    · have e : searchsorted (a :: l) x = 0 := by
        simp only [searchsorted, List.countP_eq_zero, List.mem_cons, decide_eq_true_eq]
        rintro k (rfl | hk)
        · exact ha
        · have := hs.1 k hk
          linarith
      rw [e]
      refine ⟨Nat.zero_le _, fun i hi => by omega, fun i _ hl => ?_⟩
      cases i with
      | zero => simpa using not_lt.1 ha
      | succ i =>
        have hl' : i < l.length := by simpa using hl
        have := hs.1 _ (List.getElem_mem hl')
        rw [List.getD_cons_succ, List.getD_eq_getElem _ _ hl']
        linarith

theorem increasing_getD {xs : List ℝ} (hs : xs.Pairwise (· < ·)) {i j : ℕ} (hij : i < j) (hj : j < xs.length) :
    xs.getD i 0 < xs.getD j 0 := by
  have hi : i < xs.length := by omega
  have := List.pairwise_iff_getElem.1 hs i j hi hj hij
  simpa [hi, hj] using this

/-! ### The value in each region -/

/-- the interpolated value before clamping at zero. -/
def plRaw (xs ys : List ℝ) (x : ℝ) : ℝ :=
  ((0 : ℝ) :: slopes xs ys ++ [0]).getD (searchsorted xs x) 0 * x +
    (ys.headD 0 :: offsets xs ys ++ [ys.getLastD 0]).getD (searchsorted xs x) 0

theorem interp_eq (xs ys : List ℝ) (x : ℝ) : interp x xs ys = max (plRaw xs ys x) 0 := rfl

theorem pad_getD (a c : ℝ) (l : List ℝ) (i : ℕ) :
    (a :: l ++ [c]).getD i 0 = if i = 0 then a else if i - 1 < l.length then l.getD (i - 1) 0 else if i - 1 = l.length then c else 0 := by
  cases i with
  | zero => simp
  | succ i =>
    simp only [Nat.add_sub_cancel, Nat.succ_ne_zero, if_false, List.cons_append, List.getD_cons_succ]
    split_ifs with h1 h2
    · rw [List.getD_append _ _ _ _ h1]
    · rw [h2, List.getD_append_right _ _ _ _ le_rfl]; simp
    · simp [List.getElem?_eq_none (show (l ++ [c]).length ≤ i by simp; omega)]

variable {xs ys : List ℝ}

theorem headD_getD (l : List ℝ) : l.headD 0 = l.getD 0 0 := by cases l <;> rfl

theorem getLastD_getD (l : List ℝ) : l.getLastD 0 = l.getD (l.length - 1) 0 := by
  rw [List.getLastD_eq_getLast?, List.getLast?_eq_getElem?, List.getD_eq_getElem?_getD]

theorem plRaw_below (h : searchsorted xs x = 0) : plRaw xs ys x = ys.getD 0 0 := by
  unfold plRaw
  rw [h, headD_getD]
  simp

theorem plRaw_between (hl : ys.length = xs.length) {x : ℝ} {i : ℕ} (h : searchsorted xs x = i + 1) (hi : i + 1 < xs.length) :
    plRaw xs ys x = ys.getD i 0 + (ys.getD (i + 1) 0 - ys.getD i 0) / (xs.getD (i + 1) 0 - xs.getD i 0) * (x - xs.getD i 0) := by
  unfold plRaw
  rw [h, pad_getD, pad_getD]
  simp only [Nat.succ_ne_zero, if_false, Nat.add_sub_cancel]
  rw [if_pos (by rw [slopes_length hl]; omega), if_pos (by rw [offsets_length hl]; omega), offsets_getD hl _ hi,
    slopes_getD hl _ hi]
  ring

theorem plRaw_above (hl : ys.length = xs.length) {x : ℝ} (h : searchsorted xs x = xs.length) (h0 : 0 < xs.length) :
    plRaw xs ys x = ys.getD (xs.length - 1) 0 := by
  unfold plRaw
  rw [h, pad_getD, pad_getD, slopes_length hl, offsets_length hl]
  simp only [if_neg (show ¬ xs.length = 0 by omega), lt_irrefl, if_false, if_true]
  rw [getLastD_getD, hl]
  ring

/-- the interpolation as a sum of ramps. -/
def ramps (xs ys : List ℝ) (x : ℝ) : ℝ :=
  ys.getD 0 0 + ∑ i ∈ Finset.range (xs.length - 1),
    (ys.getD (i + 1) 0 - ys.getD i 0) / (xs.getD (i + 1) 0 - xs.getD i 0) *
      (max (xs.getD i 0) (min x (xs.getD (i + 1) 0)) - xs.getD i 0)

theorem ramp_sum (hs : xs.Pairwise (· < ·)) {x : ℝ} {j : ℕ} (hj : j < xs.length) (h : ∀ i, i ≤ j → xs.getD i 0 ≤ x) :
    ∑ i ∈ Finset.range j, (ys.getD (i + 1) 0 - ys.getD i 0) / (xs.getD (i + 1) 0 - xs.getD i 0) *
      (max (xs.getD i 0) (min x (xs.getD (i + 1) 0)) - xs.getD i 0) = ys.getD j 0 - ys.getD 0 0 := by
  induction j with
  | zero => simp
  | succ j ih =>
    rw [Finset.sum_range_succ, ih (by omega) fun i hi => h i (by omega)]
    have hlt := increasing_getD hs (Nat.lt_succ_self j) hj
    have hx := h (j + 1) le_rfl
    rw [min_eq_right hx, max_eq_right hlt.le, div_mul_cancel₀ _ (by linarith)]
    ring

theorem plRaw_eq_ramps (hs : xs.Pairwise (· < ·)) (hl : ys.length = xs.length) (h0 : 0 < xs.length) (x : ℝ) :
    plRaw xs ys x = ramps xs ys x := by
  obtain ⟨h1, h2, h3⟩ := searchsorted_spec hs x
  unfold ramps
  rcases hc : searchsorted xs x with _ | j
  · rw [plRaw_below hc, Finset.sum_eq_zero, add_zero]
    intro i hi
    rw [Finset.mem_range] at hi
    have ha := h3 i (by omega) (by omega)
    have := increasing_getD hs (Nat.lt_succ_self i) (show i + 1 < xs.length by omega)
    rw [min_eq_left (by linarith), max_eq_left ha, sub_self, mul_zero]
  · have hle : ∀ i, i ≤ j → xs.getD i 0 ≤ x := fun i hi => (h2 i (by omega)).le
    by_cases hj : j + 1 < xs.length
    · rw [plRaw_between hl hc hj]
      have hx := h3 (j + 1) (by omega) hj
      have : xs.length - 1 = (j + 1) + (xs.length - 1 - (j + 1)) := by omega
      rw [this, Finset.sum_range_add, Finset.sum_range_succ, ramp_sum hs (by omega) hle,
        min_eq_left hx, max_eq_right (hle j le_rfl), Finset.sum_eq_zero]
      · ring
      · intro i hi
        rw [Finset.mem_range] at hi
        have ha := h3 (j + 1 + i) (by omega) (by omega)
        have := increasing_getD hs (Nat.lt_succ_self (j + 1 + i)) (show j + 1 + i + 1 < xs.length by omega)
        rw [min_eq_left (by linarith), max_eq_left ha, sub_self, mul_zero]
    · have hj' : j + 1 = xs.length := by omega
      rw [plRaw_above hl (by omega) h0, show xs.length - 1 = j by omega, ramp_sum hs (by omega) hle]
      ring

theorem continuous_ramps : Continuous (ramps xs ys) := by
  unfold ramps
  refine continuous_const.add (continuous_finsetSum _ fun i _ => ?_)
  exact continuous_const.mul ((continuous_const.max (continuous_id.min continuous_const)).sub continuous_const)

theorem plRaw_nonneg (hs : xs.Pairwise (· < ·)) (hl : ys.length = xs.length) (h0 : 0 < xs.length) (hy : ∀ y ∈ ys, 0 ≤ y)
    (x : ℝ) : 0 ≤ plRaw xs ys x := by
  have hyi : ∀ i, 0 ≤ ys.getD i 0 := by
    intro i
    by_cases hi : i < ys.length
    · have := hy _ (List.getElem_mem hi)
      simpa [hi] using this
    · simp [List.getElem?_eq_none (not_lt.1 hi)]
  obtain ⟨h1, h2, h3⟩ := searchsorted_spec hs x
  rcases hc : searchsorted xs x with _ | j
  · rw [plRaw_below hc]; exact hyi 0
  · by_cases hj : j + 1 < xs.length
    · rw [plRaw_between hl hc hj]
      have ha := h2 j (by omega)
      have hb := h3 (j + 1) (by omega) hj
      have hlt := increasing_getD hs (Nat.lt_succ_self j) hj
      generalize xs.getD j 0 = a at *
      generalize xs.getD (j + 1) 0 = b at *
      have y0 := hyi j
      have y1 := hyi (j + 1)
      generalize ys.getD j 0 = u at *
      generalize ys.getD (j + 1) 0 = w at *
      have hba : 0 < b - a := by linarith
      have e : u + (w - u) / (b - a) * (x - a) = (u * (b - x) + w * (x - a)) / (b - a) := by
        field_simp
        ring
      rw [e]
      exact div_nonneg (add_nonneg (mul_nonneg y0 (by linarith)) (mul_nonneg y1 (by linarith))) hba.le
    · rw [plRaw_above hl (by omega) h0]; exact hyi _

theorem interp_eq_ramps (hs : xs.Pairwise (· < ·)) (hl : ys.length = xs.length) (h0 : 0 < xs.length) (hy : ∀ y ∈ ys, 0 ≤ y)
    (x : ℝ) : interp x xs ys = ramps xs ys x := by
  rw [interp_eq, max_eq_left (plRaw_nonneg hs hl h0 hy x), plRaw_eq_ramps hs hl h0]

/-! ### Area -/

theorem trapezoid_eq (xs ys : List ℝ) (hl : ys.length = xs.length) :
    trapezoid xs ys = ∑ i ∈ Finset.range (xs.length - 1),
      (xs.getD (i + 1) 0 - xs.getD i 0) * (ys.getD i 0 + ys.getD (i + 1) 0) / 2 := by
  induction xs generalizing ys with
  | nil => simp [trapezoid]
  | cons a xs ih =>
    cases xs with
    | nil =>
      cases ys with
      | nil => simp [trapezoid]
      | cons y ys => cases ys <;> simp [trapezoid]
    | cons b xs =>
      cases ys with
      | nil => simp at hl
      | cons y ys =>
        cases ys with
        | nil => simp at hl
        | cons z ys =>
          simp only [trapezoid]
          rw [ih (z :: ys) (by simpa using hl)]
          simp only [List.length_cons, Nat.add_sub_cancel]
          rw [Finset.sum_range_succ' _ xs.length]
          simp only [List.getD_cons_succ, List.getD_cons_zero]
          ring

theorem integral_piece (hs : xs.Pairwise (· < ·)) (hl : ys.length = xs.length) {i : ℕ} (hi : i + 1 < xs.length) :
    ∫ x in xs.getD i 0..xs.getD (i + 1) 0, ramps xs ys x =
      (xs.getD (i + 1) 0 - xs.getD i 0) * (ys.getD i 0 + ys.getD (i + 1) 0) / 2 := by
  have hlt := increasing_getD hs (Nat.lt_succ_self i) hi
  have e : ∀ x ∈ Set.uIcc (xs.getD i 0) (xs.getD (i + 1) 0), ramps xs ys x =
      (ys.getD (i + 1) 0 - ys.getD i 0) / (xs.getD (i + 1) 0 - xs.getD i 0) * x +
        (ys.getD i 0 - (ys.getD (i + 1) 0 - ys.getD i 0) / (xs.getD (i + 1) 0 - xs.getD i 0) * xs.getD i 0) := by
    intro x hx
    rw [Set.uIcc_of_le hlt.le, Set.mem_Icc] at hx
    unfold ramps
    have : xs.length - 1 = (i + 1) + (xs.length - 1 - (i + 1)) := by omega
    have hle : ∀ k, k ≤ i → xs.getD k 0 ≤ x := by
      intro k hk
      rcases hk.lt_or_eq with h | h
      · exact (increasing_getD hs h (by omega)).le.trans hx.1
      · rw [h]; exact hx.1
    rw [this, Finset.sum_range_add, Finset.sum_range_succ, ramp_sum hs (by omega) hle,
      min_eq_left hx.2, max_eq_right hx.1, Finset.sum_eq_zero]
    · ring
    · intro k hk
      rw [Finset.mem_range] at hk
      have ha : x ≤ xs.getD (i + 1 + k) 0 := by
        rcases Nat.eq_zero_or_pos k with h | h
        · rw [h]; exact hx.2
        · exact hx.2.trans (increasing_getD hs (show i + 1 < i + 1 + k by omega) (by omega)).le
      have := increasing_getD hs (Nat.lt_succ_self (i + 1 + k)) (show i + 1 + k + 1 < xs.length by omega)
      rw [min_eq_left (by linarith), max_eq_left ha, sub_self, mul_zero]
  rw [intervalIntegral.integral_congr e]
  generalize xs.getD i 0 = a at *
  generalize xs.getD (i + 1) 0 = b at *
  generalize ys.getD i 0 = u at *
  generalize ys.getD (i + 1) 0 = w at *
  rw [intervalIntegral.integral_add (f := fun x => (w - u) / (b - a) * x)
    ((continuous_const.mul continuous_id).intervalIntegrable _ _) (continuous_const.intervalIntegrable _ _)]
  have e2 : ∫ x in a..b, (w - u) / (b - a) * x = (w - u) / (b - a) * ((b ^ 2 - a ^ 2) / 2) := by
    rw [← integral_id]
    exact intervalIntegral.integral_const_mul _ _
  rw [e2, intervalIntegral.integral_const, smul_eq_mul]
  have hba : b - a ≠ 0 := by linarith
  field_simp
  ring

theorem integral_ramps (hs : xs.Pairwise (· < ·)) (hl : ys.length = xs.length) :
    ∫ x in xs.getD 0 0..xs.getD (xs.length - 1) 0, ramps xs ys x = trapezoid xs ys := by
  rw [trapezoid_eq xs ys hl, ← intervalIntegral.sum_integral_adjacent_intervals (a := fun i => xs.getD i 0)
    (fun i _ => continuous_ramps.intervalIntegrable _ _)]
  refine Finset.sum_congr rfl fun i hi => ?_
  rw [Finset.mem_range] at hi
  exact integral_piece hs hl (by omega)

end Einet
