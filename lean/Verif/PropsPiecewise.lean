import Verif.PiecewiseFacts
import Verif.PropsHistogram
import Verif.Modes

/-!
# C36, C44, C45: piecewise linear leaves
-/

open Classical MeasureTheory
noncomputable section
namespace Einet

namespace Props

/-- `f` is the continuous density that is linear between the knots `xs`, where it has the values `ys`, and zero elsewhere. -/
structure IsPLDensity (xs ys : List ℝ) (f : ℝ → ℝ) : Prop where
  continuous : Continuous f
  nonneg : ∀ x, 0 ≤ f x
  knots : ∀ i, i < xs.length → f (xs.getD i 0) = ys.getD i 0
  linear : ∀ i, i + 1 < xs.length → ∀ s, 0 ≤ s → s ≤ 1 →
    f ((1 - s) * xs.getD i 0 + s * xs.getD (i + 1) 0) = (1 - s) * ys.getD i 0 + s * ys.getD (i + 1) 0
  outside : ∀ x, (∀ k ∈ xs, x ≤ k) ∨ (∀ k ∈ xs, k ≤ x) → f x = 0
  mass : ∫⁻ x, ENNReal.ofReal (f x) = 1

end Props

theorem ramps_at {xs ys : List ℝ} (hs : xs.Pairwise (· < ·)) {i : ℕ} (hi : i + 1 < xs.length) {x : ℝ}
    (h0 : xs.getD i 0 ≤ x) (h1 : x ≤ xs.getD (i + 1) 0) :
    ramps xs ys x = ys.getD i 0 +
      (ys.getD (i + 1) 0 - ys.getD i 0) / (xs.getD (i + 1) 0 - xs.getD i 0) * (x - xs.getD i 0) := by
  unfold ramps
  have : xs.length - 1 = (i + 1) + (xs.length - 1 - (i + 1)) := by omega
  have hle : ∀ k, k ≤ i → xs.getD k 0 ≤ x := by
    intro k hk
    rcases hk.lt_or_eq with h | h
    · exact (increasing_getD hs h (by omega)).le.trans h0
    · rw [h]; exact h0
  rw [this, Finset.sum_range_add, Finset.sum_range_succ, ramp_sum hs (by omega) hle,
    min_eq_left h1, max_eq_right h0, Finset.sum_eq_zero]
  · ring
  · intro k hk
    rw [Finset.mem_range] at hk
    have ha : x ≤ xs.getD (i + 1 + k) 0 := by
      rcases Nat.eq_zero_or_pos k with h | h
      · rw [h]; exact h1
      · exact h1.trans (increasing_getD hs (show i + 1 < i + 1 + k by omega) (by omega)).le
    have := increasing_getD hs (Nat.lt_succ_self (i + 1 + k)) (show i + 1 + k + 1 < xs.length by omega)
    rw [min_eq_left (by linarith), max_eq_left ha, sub_self, mul_zero]

theorem ramps_below {xs ys : List ℝ} (hs : xs.Pairwise (· < ·)) {x : ℝ} (h : x ≤ xs.getD 0 0) :
    ramps xs ys x = ys.getD 0 0 := by
  unfold ramps
  rw [Finset.sum_eq_zero, add_zero]
  intro i hi
  rw [Finset.mem_range] at hi
  have ha : x ≤ xs.getD i 0 := by
    rcases Nat.eq_zero_or_pos i with h' | h'
    · rw [h']; exact h
    · exact h.trans (increasing_getD hs h' (by omega)).le
  have := increasing_getD hs (Nat.lt_succ_self i) (show i + 1 < xs.length by omega)
  rw [min_eq_left (by linarith), max_eq_left ha, sub_self, mul_zero]

theorem ramps_above {xs ys : List ℝ} (hs : xs.Pairwise (· < ·)) (h0 : 0 < xs.length) {x : ℝ}
    (h : xs.getD (xs.length - 1) 0 ≤ x) : ramps xs ys x = ys.getD (xs.length - 1) 0 := by
  unfold ramps
  rw [ramp_sum hs (by omega)]
  · ring
  · intro i hi
    rcases hi.lt_or_eq with h' | h'
    · exact (increasing_getD hs h' (by omega)).le.trans h
    · rw [h']; exact h

theorem getD_mem {l : List ℝ} {i : ℕ} (h : i < l.length) : l.getD i 0 ∈ l := by
  rw [List.getD_eq_getElem _ _ h]; exact List.getElem_mem h

theorem getD_div (l : List ℝ) (c : ℝ) (i : ℕ) : (l.map (· / c)).getD i 0 = l.getD i 0 / c := by
  have := List.getD_map (f := fun x : ℝ => x / c) (l := l) (d := 0) (n := i)
  simpa using this

theorem trapezoid_div (xs ys : List ℝ) (hl : ys.length = xs.length) (c : ℝ) :
    trapezoid xs (ys.map (· / c)) = trapezoid xs ys / c := by
  rw [trapezoid_eq _ _ (by simpa using hl), trapezoid_eq _ _ hl, Finset.sum_div]
  refine Finset.sum_congr rfl fun i hi => ?_
  rw [Finset.mem_range] at hi
  rw [getD_div, getD_div]
  ring

namespace Props

variable {xs ys : List ℝ}

/-- C36 for values that are already normalised. -/
theorem plDensity_of_area (hs : xs.Pairwise (· < ·)) (hl : ys.length = xs.length) (h2 : 2 ≤ xs.length)
    (hy : ∀ y ∈ ys, 0 ≤ y) (hz0 : ys.getD 0 0 = 0) (hz1 : ys.getD (ys.length - 1) 0 = 0) (ha : trapezoid xs ys = 1) :
    IsPLDensity xs ys (fun x => interp x xs ys) := by
  have hp : 0 < xs.length := by omega
  have e : (fun x => interp x xs ys) = ramps xs ys := funext fun x => interp_eq_ramps hs hl hp hy x
  have hnn : ∀ x, 0 ≤ ramps xs ys x := fun x => by
    rw [← interp_eq_ramps hs hl hp hy x, interp_eq]; exact le_max_right _ _
  have hout : ∀ x, x ≤ xs.getD 0 0 ∨ xs.getD (xs.length - 1) 0 ≤ x → ramps xs ys x = 0 := by
    rintro x (h | h)
    · rw [ramps_below hs h, hz0]
    · rw [ramps_above hs hp h, ← hl, hz1]
  rw [e]
  have hlin : ∀ i, i + 1 < xs.length → ∀ s, 0 ≤ s → s ≤ 1 →
      ramps xs ys ((1 - s) * xs.getD i 0 + s * xs.getD (i + 1) 0) = (1 - s) * ys.getD i 0 + s * ys.getD (i + 1) 0 := by
    intro i hi s hs0 hs1
    have hlt := increasing_getD hs (Nat.lt_succ_self i) hi
    rw [ramps_at hs hi (by nlinarith) (by nlinarith)]
    have : xs.getD (i + 1) 0 - xs.getD i 0 ≠ 0 := by linarith
    field_simp
    ring
  refine ⟨continuous_ramps, hnn, fun i hi => ?_, hlin, fun x hx => ?_, ?_⟩
  · by_cases h : i + 1 < xs.length
    · have := hlin i h 0 le_rfl zero_le_one
      simpa using this
    · have h' : i = (i - 1) + 1 := by omega
      have := hlin (i - 1) (by omega) 1 zero_le_one le_rfl
      rw [← h'] at this
      simpa using this
  · refine hout x (hx.imp (fun h => h _ (getD_mem hp)) fun h => h _ (getD_mem (by omega)))
  · have hsupp : Function.support (ramps xs ys) ⊆ Set.Ioc (xs.getD 0 0) (xs.getD (xs.length - 1) 0) := by
      intro x hx
      rw [Function.mem_support] at hx
      refine ⟨?_, ?_⟩
      · by_contra h; exact hx (hout x (.inl (not_lt.1 h)))
      · by_contra h; exact hx (hout x (.inr (not_le.1 h).le))
    have hint : Integrable (ramps xs ys) := by
      refine continuous_ramps.integrable_of_hasCompactSupport ?_
      exact HasCompactSupport.intro (K := Set.Icc (xs.getD 0 0) (xs.getD (xs.length - 1) 0)) isCompact_Icc fun x hx => by
        by_contra h
        exact hx (Set.Ioc_subset_Icc_self (hsupp h))
    rw [← ofReal_integral_eq_lintegral_ofReal hint (Filter.Eventually.of_forall hnn),
      ← intervalIntegral.integral_eq_integral_of_support_subset hsupp, integral_ramps hs hl, ha, ENNReal.ofReal_one]

/-- **C36.** For strictly increasing knots and nonnegative values, zero at both ends and of positive area, the interpolation of the
values divided by their area is a continuous density with these values at the knots, linear in between and zero outside. -/
theorem C36_interp (hs : xs.Pairwise (· < ·)) (hl : ys.length = xs.length) (h2 : 2 ≤ xs.length)
    (hy : ∀ y ∈ ys, 0 ≤ y) (hz0 : ys.getD 0 0 = 0) (hz1 : ys.getD (ys.length - 1) 0 = 0) (ha : 0 < trapezoid xs ys) :
    IsPLDensity xs (ys.map (· / trapezoid xs ys)) (fun x => interp x xs (ys.map (· / trapezoid xs ys))) := by
  refine plDensity_of_area hs (by simpa using hl) h2 ?_ ?_ ?_ ?_
  · intro y hy'
    obtain ⟨z, hz, rfl⟩ := List.mem_map.1 hy'
    exact div_nonneg (hy z hz) ha.le
  · rw [getD_div, hz0, zero_div]
  · rw [getD_div, List.length_map, hz1, zero_div]
  · rw [trapezoid_div _ _ hl, div_self ha.ne']

end Props

/-! ### Initialisation -/

theorem midpoints_length (l : List ℝ) : (midpoints l).length = l.length - 1 := by
  induction l with
  | nil => rfl
  | cons a l ih =>
    cases l with
    | nil => rfl
    | cons b l => simp only [midpoints, List.length_cons] at ih ⊢; omega

theorem midpoints_lower {l : List ℝ} (hs : l.Pairwise (· < ·)) : ∀ m ∈ midpoints l, l.headD 0 < m := by
  induction l with
  | nil => simp [midpoints]
  | cons a l ih =>
    cases l with
    | nil => simp [midpoints]
    | cons b l =>
      rw [List.pairwise_cons] at hs
      have hab := hs.1 b (by simp)
      intro m hm
      simp only [midpoints, List.mem_cons] at hm
      simp only [List.headD_cons]
      rcases hm with rfl | hm
      · linarith
      · have := ih hs.2 m hm
        simp only [List.headD_cons] at this
        linarith

theorem head_le_last {b : ℝ} {l : List ℝ} (hs : (b :: l).Pairwise (· < ·)) : b ≤ (b :: l).getLastD 0 := by
  rw [getLastD_getD]
  rcases Nat.eq_zero_or_pos l.length with h | h
  · simp [h]
  · have := increasing_getD hs (i := 0) (j := (b :: l).length - 1) (by simpa using h) (by simp)
    rw [List.getD_cons_zero] at this
    exact this.le

theorem midpoints_upper {l : List ℝ} (hs : l.Pairwise (· < ·)) : ∀ m ∈ midpoints l, m < l.getLastD 0 := by
  induction l with
  | nil => simp [midpoints]
  | cons a l ih =>
    cases l with
    | nil => simp [midpoints]
    | cons b l =>
      rw [List.pairwise_cons] at hs
      have hab := hs.1 b (by simp)
      have hbl : b ≤ (b :: l).getLastD 0 := head_le_last hs.2
      intro m hm
      simp only [midpoints, List.mem_cons] at hm
      have e : (a :: b :: l).getLastD 0 = (b :: l).getLastD 0 := by simp
      rw [e]
      rcases hm with rfl | hm
      · linarith
      · exact ih hs.2 m hm

theorem midpoints_increasing {l : List ℝ} (hs : l.Pairwise (· < ·)) : (midpoints l).Pairwise (· < ·) := by
  induction l with
  | nil => simp [midpoints]
  | cons a l ih =>
    cases l with
    | nil => simp [midpoints]
    | cons b l =>
      rw [List.pairwise_cons] at hs
      have hab := hs.1 b (by simp)
      simp only [midpoints]
      rw [List.pairwise_cons]
      refine ⟨fun m hm => ?_, ih hs.2⟩
      have := midpoints_lower hs.2 m hm
      simp only [List.headD_cons] at this
      linarith

theorem pad_increasing {l : List ℝ} {a c : ℝ} (hs : l.Pairwise (· < ·)) (ha : ∀ m ∈ l, a < m) (hc : ∀ m ∈ l, m < c)
    (hac : a < c) : (a :: l ++ [c]).Pairwise (· < ·) := by
  rw [List.cons_append, List.pairwise_cons]
  refine ⟨fun m hm => ?_, List.pairwise_append.2 ⟨hs, by simp, fun m hm c' hc' => ?_⟩⟩
  · rcases List.mem_append.1 hm with h | h
    · exact ha m h
    · rw [List.mem_singleton] at h; rw [h]; exact hac
  · rw [List.mem_singleton] at hc'; rw [hc']; exact hc m hm

theorem mem_le_last {l : List ℝ} (hs : l.Pairwise (· < ·)) : ∀ m ∈ l, l.headD 0 ≤ m ∧ m ≤ l.getLastD 0 := by
  intro m hm
  obtain ⟨i, hi, rfl⟩ := List.mem_iff_getElem.1 hm
  rw [headD_getD, getLastD_getD, ← List.getD_eq_getElem _ 0 hi]
  constructor
  · rcases Nat.eq_zero_or_pos i with h | h
    · rw [h]
    · exact (increasing_getD hs h hi).le
  · rcases (show i ≤ l.length - 1 by omega).lt_or_eq with h | h
    · exact (increasing_getD hs h (by omega)).le
    · rw [← h]

theorem knots_length (t : DataType) (breaks : List ℝ) (h : 2 ≤ breaks.length) :
    (knots t breaks).length = breaks.length + 1 := by
  cases t <;> simp [knots, midpoints_length] <;> omega

theorem knots_increasing (t : DataType) {breaks : List ℝ} (h : 2 ≤ breaks.length) (hs : breaks.Pairwise (· < ·)) :
    (knots t breaks).Pairwise (· < ·) := by
  cases t with
  | continuous =>
    have hlt : breaks.headD 0 < breaks.getLastD 0 := by
      rw [headD_getD, getLastD_getD]; exact increasing_getD hs (by omega) (by omega)
    have he : (0 : ℝ) < 1e-8 := by norm_num
    refine pad_increasing (midpoints_increasing hs) (fun m hm => ?_) (fun m hm => ?_) (by linarith)
    · have := midpoints_lower hs m hm; linarith
    · have := midpoints_upper hs m hm; linarith
  | discrete =>
    have hd : breaks.dropLast.Pairwise (· < ·) := hs.sublist (List.dropLast_sublist _)
    have hm := mem_le_last hd
    have hlen : 0 < breaks.dropLast.length := by rw [List.length_dropLast]; omega
    refine pad_increasing hd (fun m h => by linarith [(hm m h).1]) (fun m h => by linarith [(hm m h).2]) ?_
    have := hm _ (getD_mem hlen)
    linarith

/-- zero padded nonnegative values, one of them positive, enclose a positive area. -/
theorem trapezoid_pos {xs ds : List ℝ} (hs : xs.Pairwise (· < ·)) (hl : ds.length + 2 = xs.length)
    (hd : ∀ d ∈ ds, 0 ≤ d) (hp : ∃ d ∈ ds, 0 < d) : 0 < trapezoid xs ((0 : ℝ) :: ds ++ [0]) := by
  have hy : ∀ y ∈ (0 : ℝ) :: ds ++ [0], 0 ≤ y := by
    intro y hy
    simp only [List.cons_append, List.mem_cons, List.mem_append, List.not_mem_nil, or_false] at hy
    rcases hy with rfl | h | rfl
    · exact le_rfl
    · exact hd y h
    · exact le_rfl
  have hlen : ((0 : ℝ) :: ds ++ [0]).length = xs.length := by simp; omega
  have hyi : ∀ i, 0 ≤ ((0 : ℝ) :: ds ++ [0]).getD i 0 := by
    intro i
    by_cases hi : i < ((0 : ℝ) :: ds ++ [0]).length
    · exact hy _ (getD_mem hi)
    · rw [List.getD_eq_default _ _ (not_lt.1 hi)]
  rw [trapezoid_eq _ _ hlen]
  obtain ⟨d, hdm, hpos⟩ := hp
  obtain ⟨i, hi, rfl⟩ := List.mem_iff_getElem.1 hdm
  refine Finset.sum_pos' (fun j hj => ?_) ⟨i, Finset.mem_range.2 (by omega), ?_⟩
  · rw [Finset.mem_range] at hj
    have := increasing_getD hs (Nat.lt_succ_self j) (show j + 1 < xs.length by omega)
    have h1 := hyi j
    have h2 := hyi (j + 1)
    have : 0 ≤ xs.getD (j + 1) 0 - xs.getD j 0 := by linarith
    positivity
  · have := increasing_getD hs (Nat.lt_succ_self i) (show i + 1 < xs.length by omega)
    have h1 := hyi i
    have h2 : 0 < ((0 : ℝ) :: ds ++ [0]).getD (i + 1) 0 := by
      rw [List.cons_append, List.getD_cons_succ, List.getD_append _ _ _ _ hi, List.getD_eq_getElem _ _ hi]
      exact hpos
    have : 0 < xs.getD (i + 1) 0 - xs.getD i 0 := by linarith
    positivity

theorem smooth_length (alpha : ℝ) (n : ℕ) (b d : List ℝ) : (smooth alpha n b d).length = d.length := by
  unfold smooth
  split_ifs <;> simp

theorem smooth_good {alpha : ℝ} {n : ℕ} {b d : List ℝ} (hb : 2 ≤ b.length) (hlen : d.length + 1 = b.length)
    (hd : ∀ x ∈ d, 0 ≤ x) (hp : 0 < alpha ∨ ∃ x ∈ d, 0 < x) :
    (∀ x ∈ smooth alpha n b d, 0 ≤ x) ∧ ∃ x ∈ smooth alpha n b d, 0 < x := by
  have hb' : (1 : ℝ) ≤ (b.length : ℝ) - 1 := by
    have : (2 : ℝ) ≤ b.length := by exact_mod_cast hb
    linarith
  unfold smooth
  split_ifs with ha
  · have hden : 0 < (n : ℝ) + ((b.length : ℝ) - 1) * alpha := by positivity
    refine ⟨fun x hx => ?_, ?_⟩
    · obtain ⟨y, hy, rfl⟩ := List.mem_map.1 hx
      have := hd y hy
      positivity
    · have h0 : 0 < d.length := by omega
      refine ⟨_, List.mem_map.2 ⟨d.getD 0 0, getD_mem h0, rfl⟩, ?_⟩
      have := hd _ (getD_mem h0)
      positivity
  · exact ⟨hd, hp.resolve_left ha⟩

namespace Props

/-- **C36, initialisation.** For increasing breaks and one nonnegative density per bin, not all zero (or with smoothing),
`initialize` succeeds for both data types and the stored function is a proper density; outside the histogram's range, enlarged by
the tails, it is zero. -/
theorem C36_initialize (t : DataType) {alpha : ℝ} {n : ℕ} {breaks ds : List ℝ} (hs : breaks.Pairwise (· < ·))
    (h2 : 2 ≤ breaks.length) (hlen : ds.length + 1 = breaks.length) (hd : ∀ d ∈ ds, 0 ≤ d)
    (hp : 0 < alpha ∨ ∃ d ∈ ds, 0 < d) :
    ∃ xs ys, plInit t alpha n breaks ds = .ok (xs, ys) ∧ xs.length = breaks.length + 1 ∧ ys.length = xs.length ∧
      xs.Pairwise (· < ·) ∧ IsPLDensity xs ys (fun x => interp x xs ys) ∧
      ∃ c, 0 < c ∧ ∀ i, i < ds.length → ys.getD (i + 1) 0 = c * (smooth alpha n breaks ds).getD i 0 := by
  obtain ⟨hd', hp'⟩ := smooth_good (n := n) h2 hlen hd hp
  have hls := smooth_length alpha n breaks ds
  have hinit : plInit t alpha n breaks ds = .ok (knots t breaks, ((0 : ℝ) :: smooth alpha n breaks ds ++ [0]).map
      (· / trapezoid (knots t breaks) ((0 : ℝ) :: smooth alpha n breaks ds ++ [0]))) := by
    unfold plInit
    dsimp only
    rw [require_true _ (by omega), Res.ok_bind, require_true _ (by rw [knots_length t breaks h2]; simp; omega), Res.ok_bind]
    rfl
  have hk := knots_increasing t h2 hs
  have hkl := knots_length t breaks h2
  have hpos := trapezoid_pos hk (by omega) hd' hp'
  generalize smooth alpha n breaks ds = sd at *
  have hl : ((0 : ℝ) :: sd ++ [0]).length = (knots t breaks).length := by simp; omega
  have h := C36_interp hk hl (by omega) ?_ ?_ ?_ hpos
  · refine ⟨_, _, hinit, hkl, by simpa using hl, hk, h, 1 / trapezoid (knots t breaks) ((0 : ℝ) :: sd ++ [0]), by positivity,
      fun i hi => ?_⟩
    rw [getD_div]
    rw [List.cons_append, List.getD_cons_succ, List.getD_append _ _ _ _ (by omega)]
    ring
  · intro y hy
    simp only [List.cons_append, List.mem_cons, List.mem_append, List.not_mem_nil, or_false] at hy
    rcases hy with rfl | h | rfl
    · exact le_rfl
    · exact hd' y h
    · exact le_rfl
  · simp
  · rw [← getLastD_getD, List.cons_append, List.getLastD_cons]
    simp

end Props

/-! ### Data -/

theorem binCount_pos {data breaks : List ℝ} {x : ℝ} (hx : x ∈ data) (hs : breaks.Pairwise (· < ·)) (h2 : 2 ≤ breaks.length)
    (h0 : breaks.getD 0 0 ≤ x) (h1 : x ≤ breaks.getD (breaks.length - 1) 0) : 0 < binTotal data breaks := by
  obtain ⟨hc, ha, hb⟩ := searchsorted_spec hs x
  obtain ⟨i, hi, hp⟩ : ∃ i, i < breaks.length - 1 ∧ (breaks.getD i 0 ≤ x ∧
      (x < breaks.getD (i + 1) 0 ∨ (i + 2 = breaks.length ∧ x ≤ breaks.getD (i + 1) 0))) := by
    rcases hj : searchsorted breaks x with _ | j
    · have := hb 0 (by omega) (by omega)
      exact ⟨0, by omega, h0, .inl (lt_of_le_of_lt this (increasing_getD hs (by omega) (by omega)))⟩
    · have hj1 : j + 1 < breaks.length := by
        by_contra h
        have := ha (breaks.length - 1) (by omega)
        linarith
      have hle := hb (j + 1) (by omega) hj1
      by_cases hj2 : j + 2 = breaks.length
      · exact ⟨j, by omega, (ha j (by omega)).le, .inr ⟨hj2, hle⟩⟩
      · rcases hle.lt_or_eq with h | h
        · exact ⟨j, by omega, (ha j (by omega)).le, .inl h⟩
        · exact ⟨j + 1, by omega, h.ge, .inl (h ▸ increasing_getD hs (by omega) (by omega))⟩
  have : 0 < binCount data breaks i := by
    unfold binCount
    exact List.countP_pos_iff.2 ⟨x, hx, by simpa using hp⟩
  exact lt_of_lt_of_le this (Finset.single_le_sum (fun _ _ => Nat.zero_le _) (Finset.mem_range.2 hi))

theorem histDensity_good {data breaks ds : List ℝ} (hs : breaks.Pairwise (· < ·)) (h : histDensity data breaks = some ds) :
    ds.length = breaks.length - 1 ∧ (∀ d ∈ ds, 0 ≤ d) ∧ ∃ d ∈ ds, 0 < d := by
  unfold histDensity at h
  split_ifs at h with ht
  injection h with h
  subst h
  have hw : ∀ i, i < breaks.length - 1 → 0 < breaks.getD (i + 1) 0 - breaks.getD i 0 := fun i hi => by
    have := increasing_getD hs (Nat.lt_succ_self i) (show i + 1 < breaks.length by omega)
    linarith
  refine ⟨by simp, fun d hd => ?_, ?_⟩
  · obtain ⟨i, hi, rfl⟩ := List.mem_map.1 hd
    have := hw i (by simpa using hi)
    positivity
  · have : ∃ i ∈ Finset.range (breaks.length - 1), binCount data breaks i ≠ 0 := by
      by_contra hne
      push Not at hne
      exact ht (Finset.sum_eq_zero hne)
    obtain ⟨i, hi, hc⟩ := this
    have hi' := Finset.mem_range.1 hi
    refine ⟨_, List.mem_map.2 ⟨i, List.mem_range.2 hi', rfl⟩, ?_⟩
    have h1 := hw i hi'
    have h2 : (0 : ℝ) < binCount data breaks i := by exact_mod_cast Nat.pos_of_ne_zero hc
    have h3 : (0 : ℝ) < binTotal data breaks := by exact_mod_cast Nat.pos_of_ne_zero ht
    positivity

namespace Props

/-- the breaks `initialize` uses for a discrete domain. -/
theorem discrete_breaks {values : List ℝ} (hv : values ≠ []) (hs : values.Pairwise (· < ·)) :
    (values ++ [values.getLastD 0 + 1]).Pairwise (· < ·) ∧ 2 ≤ (values ++ [values.getLastD 0 + 1]).length := by
  have hl : 0 < values.length := List.length_pos_iff.2 hv
  refine ⟨List.pairwise_append.2 ⟨hs, by simp, fun m hm c hc => ?_⟩, by simp; omega⟩
  rw [List.mem_singleton] at hc
  rw [hc]
  linarith [(mem_le_last hs m hm).2]

/-- **C36, continuous domains.** Fitting any non-empty list of finite numbers stores a proper density. -/
theorem C36_continuous {alpha : ℝ} {data : List ℝ} (hd : data ≠ []) :
    ∃ xs ys, plFit .continuous alpha data = .ok (some (xs, ys)) ∧ xs.Pairwise (· < ·) ∧ ys.length = xs.length ∧
      IsPLDensity xs ys (fun x => interp x xs ys) := by
  obtain ⟨⟨edges, f, l, n⟩, he⟩ := (C37_defined (data.map Fl.fin) none false).2 ⟨rfl, by simp⟩
  obtain ⟨hg, hc⟩ := C37_covers he
  have h2 : 2 ≤ edges.length := by have := hg.length; have := hg.bins; omega
  obtain ⟨x, hx⟩ := List.exists_mem_of_ne_nil _ hd
  obtain ⟨r, hr, i, hi, hb0, hb1⟩ := hc (.fin x) (List.mem_map_of_mem hx)
  injection hr with hr
  subst hr
  have hlen := hg.length
  have hpos : 0 < binTotal data edges := by
    refine binCount_pos hx hg.increasing h2 ?_ ?_
    · rcases Nat.eq_zero_or_pos i with h | h
      · rw [← h]; exact hb0
      · exact (increasing_getD hg.increasing h (by omega)).le.trans hb0
    · rcases (show i + 1 ≤ edges.length - 1 by omega).lt_or_eq with h | h
      · exact hb1.trans (increasing_getD hg.increasing h (by omega)).le
      · rw [← h]; exact hb1
  obtain ⟨ds, hds⟩ : ∃ ds, histDensity data edges = some ds := by
    unfold histDensity; rw [if_neg hpos.ne']; exact ⟨_, rfl⟩
  obtain ⟨hl, hnn, hp⟩ := histDensity_good hg.increasing hds
  obtain ⟨xs, ys, hi, -, hl, hinc, hpl, -⟩ := C36_initialize .continuous (alpha := alpha) (n := data.length) hg.increasing h2
    (by omega) hnn (.inr hp)
  refine ⟨xs, ys, ?_, hinc, hl, hpl⟩
  unfold plFit
  dsimp only
  rw [he, Res.ok_bind]
  simp only [hds, Option.elim, hi]
  rfl

/-- **C36, discrete domains.** With increasing values, and data of which at least one lies in the range (or no data at all), fitting
stores a proper density. -/
theorem C36_discrete {alpha : ℝ} {values data : List ℝ} (hv : values ≠ []) (hs : values.Pairwise (· < ·))
    (hd : data = [] ∨ ∃ x ∈ data, values.headD 0 ≤ x ∧ x ≤ values.getLastD 0 + 1) :
    ∃ xs ys, plFit (.discrete values) alpha data = .ok (some (xs, ys)) ∧ xs.Pairwise (· < ·) ∧ ys.length = xs.length ∧
      IsPLDensity xs ys (fun x => interp x xs ys) := by
  obtain ⟨hb, h2⟩ := discrete_breaks hv hs
  have hl : 0 < values.length := List.length_pos_iff.2 hv
  obtain ⟨ds, hds, hl', hnn, hp⟩ : ∃ ds, (if data = [] then some (List.replicate values.length (1 / (values.length : ℝ)))
      else histDensity data (values ++ [values.getLastD 0 + 1])) = some ds ∧ ds.length = values.length ∧ (∀ d ∈ ds, 0 ≤ d) ∧
      ∃ d ∈ ds, 0 < d := by
    have hlr : (0 : ℝ) < values.length := by exact_mod_cast hl
    split_ifs with h0
    · refine ⟨_, rfl, by simp, fun d h => ?_, 1 / (values.length : ℝ), ?_, by positivity⟩
      · rw [List.eq_of_mem_replicate h]; positivity
      · exact List.mem_replicate.2 ⟨by omega, rfl⟩
    · obtain ⟨x, hx, hx0, hx1⟩ := hd.resolve_left h0
      have hpos : 0 < binTotal data (values ++ [values.getLastD 0 + 1]) := by
        refine binCount_pos hx hb h2 ?_ ?_
        · rw [List.getD_append _ _ _ _ hl, ← headD_getD]; exact hx0
        · rw [← getLastD_getD]; simpa using hx1
      refine ⟨_, by unfold histDensity; rw [if_neg hpos.ne'], ?_⟩
      have := histDensity_good (data := data) hb (by unfold histDensity; rw [if_neg hpos.ne'])
      simpa using this
  obtain ⟨xs, ys, hi, -, hl, hinc, hpl, -⟩ := C36_initialize .discrete (alpha := alpha) (n := data.length) hb h2
    (by simp; omega) hnn (.inr hp)
  refine ⟨xs, ys, ?_, hinc, hl, hpl⟩
  unfold plFit
  dsimp only
  rw [require_true _ hv, Res.ok_bind]
  simp only [hds, Option.elim, hi]
  rfl

/-- A component of a continuous feature whose cluster received no data stores NaN values. -/
theorem C36_refuted_empty (alpha : ℝ) : plFit .continuous alpha [] = .ok none := by
  obtain ⟨⟨edges, f, l, n⟩, he⟩ := (C37_defined ([] : List Fl) none false).2 ⟨rfl, by simp⟩
  unfold plFit
  dsimp only
  rw [List.map_nil, he, Res.ok_bind]
  simp [histDensity, binTotal, binCount]

/-- **C36, reported values.** Where the density is positive `log_prob` is its logarithm. -/
theorem C36_logProb_partial {xs ys : List ℝ} {x : ℝ} (h : 0 < interp x xs ys) :
    plLogProb xs ys x = .fin (Real.log (interp x xs ys)) := by
  unfold plLogProb
  simp [Fl.log, h]

/-- Where the density is zero `log_prob` returns −300 instead of minus infinity; the exponential of what it returns therefore has
infinite mass, for every stored function. -/
theorem C36_refuted_floor {xs ys : List ℝ} (h : IsPLDensity xs ys (fun x => interp x xs ys)) :
    ∫⁻ x, toP (plLogProb xs ys x) = ⊤ := by
  have hz : ∀ x, interp x xs ys = 0 → plLogProb xs ys x = .fin (-300) := fun x hx => by
    unfold plLogProb
    rw [hx]
    simp [Fl.log]
  obtain ⟨b, hb⟩ : ∃ b, ∀ k ∈ xs, b ≤ k := by
    clear h hz
    induction xs with
    | nil => exact ⟨0, by simp⟩
    | cons a l ih =>
      obtain ⟨b, hb⟩ := ih
      refine ⟨min a b, fun k hk => ?_⟩
      rcases List.mem_cons.1 hk with rfl | hk
      · exact min_le_left _ _
      · exact (min_le_right _ _).trans (hb k hk)
  rw [eq_top_iff]
  calc (⊤ : ENNReal) = ∫⁻ _ in Set.Iic b, ENNReal.ofReal (Real.exp (-300)) := by
        rw [lintegral_const, Measure.restrict_apply MeasurableSet.univ, Set.univ_inter, Real.volume_Iic,
          ENNReal.mul_top (by simp [Real.exp_pos])]
    _ = ∫⁻ x in Set.Iic b, toP (plLogProb xs ys x) := by
        refine setLIntegral_congr_fun measurableSet_Iic fun x hx => ?_
        show _ = toP (plLogProb xs ys x)
        rw [hz x (h.outside x (.inl fun k hk => (Set.mem_Iic.1 hx).trans (hb k hk))), toP_fin]
    _ ≤ _ := setLIntegral_le_lintegral _ _

/-- the mode of a piecewise linear leaf maximises the interpolated density. -/
theorem C36_mode {xs ys : List ℝ} (hs : xs.Pairwise (· < ·)) (hl : ys.length = xs.length) (h0 : 0 < xs.length)
    (h : IsPLDensity xs ys (fun x => interp x xs ys)) (x : ℝ) : interp x xs ys ≤ interp (plMode xs ys) xs ys := by
  obtain ⟨hk, hmax⟩ := argmaxR_max (fun i => ys.getD i 0) (n := ys.length) (by omega)
  have e : interp (plMode xs ys) xs ys = ys.getD (argmaxR (fun i => ys.getD i 0) ys.length) 0 := h.knots _ (by omega)
  rw [e]
  have hmax' : ∀ k, k < xs.length → ys.getD k 0 ≤ ys.getD (argmaxR (fun i => ys.getD i 0) ys.length) 0 :=
    fun k hk => hmax k (by omega)
  generalize ys.getD (argmaxR (fun i => ys.getD i 0) ys.length) 0 = m at *
  have hm : 0 ≤ m := by
    have h1 := hmax' 0 h0
    have h2 := h.nonneg (xs.getD 0 0)
    have h3 := h.knots 0 h0
    linarith
  obtain ⟨hc, ha, hb⟩ := searchsorted_spec hs x
  rcases hj : searchsorted xs x with _ | j
  · refine le_trans (le_of_eq ?_) hm
    refine h.outside x (.inl fun k hk => ?_)
    obtain ⟨i, hi, rfl⟩ := List.mem_iff_getElem.1 hk
    rw [← List.getD_eq_getElem _ 0 hi]
    exact hb i (by omega) hi
  · by_cases hj1 : j + 1 < xs.length
    · have hx0 := ha j (by omega)
      have hx1 := hb (j + 1) (by omega) hj1
      have hlt := increasing_getD hs (Nat.lt_succ_self j) hj1
      have hd : 0 < xs.getD (j + 1) 0 - xs.getD j 0 := by linarith
      set t := (x - xs.getD j 0) / (xs.getD (j + 1) 0 - xs.getD j 0) with ht
      have ht0 : 0 ≤ t := div_nonneg (by linarith) hd.le
      have ht1 : t ≤ 1 := (div_le_one hd).2 (by linarith)
      have hx : x = (1 - t) * xs.getD j 0 + t * xs.getD (j + 1) 0 := by
        have : t * (xs.getD (j + 1) 0 - xs.getD j 0) = x - xs.getD j 0 := div_mul_cancel₀ _ hd.ne'
        linarith
      have := h.linear j hj1 t ht0 ht1
      rw [← hx] at this
      rw [this]
      nlinarith [hmax' j (by omega), hmax' (j + 1) hj1]
    · refine le_trans (le_of_eq ?_) hm
      refine h.outside x (.inr fun k hk => ?_)
      obtain ⟨i, hi, rfl⟩ := List.mem_iff_getElem.1 hk
      rw [← List.getD_eq_getElem _ 0 hi]
      exact (ha i (by omega)).le

end Props

/-! ### C44: total mass of a discrete domain -/

theorem sum_getD (ds : List ℝ) : ds.sum = ∑ i ∈ Finset.range ds.length, ds.getD i 0 := by
  induction ds with
  | nil => simp
  | cons a l ih => rw [List.length_cons, Finset.sum_range_succ', List.sum_cons, ih]; simp [add_comm]

/-- between knots at distance one the area is the sum of the inner values. -/
theorem trapezoid_unit {xs ds : List ℝ} (hl : ds.length + 2 = xs.length)
    (hu : ∀ i, i + 1 < xs.length → xs.getD (i + 1) 0 - xs.getD i 0 = 1) : trapezoid xs ((0 : ℝ) :: ds ++ [0]) = ds.sum := by
  have hlen : ((0 : ℝ) :: ds ++ [0]).length = xs.length := by simp; omega
  rw [trapezoid_eq _ _ hlen, show xs.length - 1 = ds.length + 1 by omega]
  have e1 : ∑ i ∈ Finset.range (ds.length + 1), (xs.getD (i + 1) 0 - xs.getD i 0) *
      (((0 : ℝ) :: ds ++ [0]).getD i 0 + ((0 : ℝ) :: ds ++ [0]).getD (i + 1) 0) / 2 =
      ∑ i ∈ Finset.range (ds.length + 1), (((0 : ℝ) :: ds ++ [0]).getD i 0 / 2 + ((0 : ℝ) :: ds ++ [0]).getD (i + 1) 0 / 2) := by
    refine Finset.sum_congr rfl fun i hi => ?_
    rw [Finset.mem_range] at hi
    rw [hu i (by omega)]
    ring
  have e2 : ∀ i ∈ Finset.range ds.length, ((0 : ℝ) :: ds ++ [0]).getD (i + 1) 0 / 2 = ds.getD i 0 / 2 := fun i hi => by
    rw [Finset.mem_range] at hi
    rw [List.cons_append, List.getD_cons_succ, List.getD_append _ _ _ _ hi]
  have e3 : ((0 : ℝ) :: ds ++ [0]).getD (ds.length + 1) 0 = 0 := by
    rw [List.cons_append, List.getD_cons_succ, List.getD_append_right _ _ _ _ le_rfl]
    simp
  rw [e1, Finset.sum_add_distrib, Finset.sum_range_succ', Finset.sum_range_succ, Finset.sum_congr rfl e2, e3, sum_getD]
  have e5 : ((0 : ℝ) :: ds ++ [0]).getD 0 0 = 0 := by simp
  rw [e5, ← Finset.sum_div]
  ring

namespace Props

/-- the values of a discrete domain without gaps. -/
def Consecutive (values : List ℝ) : Prop :=
  values ≠ [] ∧ ∀ i, i + 1 < values.length → values.getD (i + 1) 0 = values.getD i 0 + 1

theorem consecutive_increasing {values : List ℝ} (h : Consecutive values) : values.Pairwise (· < ·) := by
  have hk : ∀ k i, i + k < values.length → values.getD (i + k) 0 = values.getD i 0 + k := by
    intro k
    induction k with
    | zero => intro i _; simp
    | succ k ih =>
      intro i hi
      rw [← Nat.add_assoc, h.2 (i + k) (by omega), ih i (by omega)]
      push_cast
      ring
  rw [List.pairwise_iff_getElem]
  intro i j hi hj hij
  have := hk (j - i) i (by omega)
  rw [Nat.add_sub_cancel' hij.le] at this
  rw [← List.getD_eq_getElem _ 0 hi, ← List.getD_eq_getElem _ 0 hj, this]
  have : (0 : ℝ) < ((j - i : ℕ) : ℝ) := by exact_mod_cast Nat.sub_pos_of_lt hij
  linarith

theorem knots_discrete (values : List ℝ) :
    knots .discrete (values ++ [values.getLastD 0 + 1]) = (values.getD 0 0 - 1) :: values ++ [values.getD (values.length - 1) 0 + 1] := by
  simp only [knots, List.dropLast_concat]
  rw [headD_getD, getLastD_getD]

/-- smoothed densities are positive. -/
theorem smooth_pos {alpha : ℝ} {n : ℕ} {b d : List ℝ} (ha : 0 < alpha) (hb : 2 ≤ b.length) (hd : ∀ x ∈ d, 0 ≤ x) :
    ∀ x ∈ smooth alpha n b d, 0 < x := by
  have hb' : (1 : ℝ) ≤ (b.length : ℝ) - 1 := by
    have : (2 : ℝ) ≤ b.length := by exact_mod_cast hb
    linarith
  unfold smooth
  rw [if_pos ha]
  have hden : 0 < (n : ℝ) + ((b.length : ℝ) - 1) * alpha := by positivity
  intro x hx
  obtain ⟨y, hy, rfl⟩ := List.mem_map.1 hx
  have := hd y hy
  positivity

theorem plFit_discrete_smooth {values : List ℝ} {alpha : ℝ} {data : List ℝ} {xs ys : List ℝ} (hs : values.Pairwise (· < ·))
    (h : plFit (.discrete values) alpha data = .ok (some (xs, ys))) :
    values ≠ [] ∧ xs = (values.getD 0 0 - 1) :: values ++ [values.getD (values.length - 1) 0 + 1] ∧
      ∃ ds : List ℝ, ds.length = values.length ∧ (∀ d ∈ ds, 0 ≤ d) ∧ (∃ d ∈ ds, 0 < d) ∧
        ys = ((0 : ℝ) :: ds ++ [0]).map (· / trapezoid xs ((0 : ℝ) :: ds ++ [0])) ∧ (0 < alpha → ∀ d ∈ ds, 0 < d) := by
  by_cases hv : values = []
  · unfold plFit at h
    dsimp only at h
    rw [require_false _ (by simpa using hv)] at h
    cases h
  refine ⟨hv, ?_⟩
  obtain ⟨hb, h2⟩ := discrete_breaks hv hs
  have hl : 0 < values.length := List.length_pos_iff.2 hv
  have hlr : (0 : ℝ) < values.length := by exact_mod_cast hl
  unfold plFit at h
  dsimp only at h
  rw [require_true _ hv, Res.ok_bind] at h
  obtain ⟨ds, hds⟩ : ∃ ds, (if data = [] then some (List.replicate values.length (1 / (values.length : ℝ)))
      else histDensity data (values ++ [values.getLastD 0 + 1])) = some ds := by
    cases hd : (if data = [] then some (List.replicate values.length (1 / (values.length : ℝ)))
      else histDensity data (values ++ [values.getLastD 0 + 1])) with
    | none => rw [hd] at h; cases h
    | some ds => exact ⟨ds, rfl⟩
  have hgood : ds.length = values.length ∧ (∀ d ∈ ds, 0 ≤ d) ∧ ∃ d ∈ ds, 0 < d := by
    split_ifs at hds with h0
    · injection hds with hds
      subst hds
      refine ⟨by simp, fun d h => ?_, 1 / (values.length : ℝ), List.mem_replicate.2 ⟨by omega, rfl⟩, by positivity⟩
      rw [List.eq_of_mem_replicate h]; positivity
    · have := histDensity_good hb hds
      simpa using this
  rw [hds] at h
  simp only [Option.elim] at h
  have hsm := smooth_good (alpha := alpha) (n := data.length) h2 (by simp [hgood.1]) hgood.2.1 (.inr hgood.2.2)
  have hsl := smooth_length alpha data.length (values ++ [values.getLastD 0 + 1]) ds
  unfold plInit at h
  dsimp only at h
  rw [require_true _ (by rw [hsl]; simp [hgood.1]), Res.ok_bind,
    require_true _ (by rw [knots_length _ _ h2, List.length_append (bs := [(0 : ℝ)]), List.length_cons (a := (0 : ℝ)), hsl]; simp [hgood.1]), Res.ok_bind] at h
  simp only [Res.pure_eq, Except.map, Functor.map, Except.ok.injEq, Option.some.injEq, Prod.mk.injEq] at h
  obtain ⟨hx, hy⟩ := h
  rw [knots_discrete values] at hx hy
  subst hx
  exact ⟨rfl, _, hsl.trans hgood.1, hsm.1, hsm.2, hy.symm, fun ha => smooth_pos ha h2 hgood.2.1⟩

theorem plFit_discrete_ok {values : List ℝ} {alpha : ℝ} {data : List ℝ} {xs ys : List ℝ} (hs : values.Pairwise (· < ·))
    (h : plFit (.discrete values) alpha data = .ok (some (xs, ys))) :
    values ≠ [] ∧ xs = (values.getD 0 0 - 1) :: values ++ [values.getD (values.length - 1) 0 + 1] ∧
      ∃ ds : List ℝ, ds.length = values.length ∧ (∀ d ∈ ds, 0 ≤ d) ∧ (∃ d ∈ ds, 0 < d) ∧
        ys = ((0 : ℝ) :: ds ++ [0]).map (· / trapezoid xs ((0 : ℝ) :: ds ++ [0])) := by
  obtain ⟨h1, h2, ds, h3, h4, h5, h6, -⟩ := plFit_discrete_smooth hs h
  exact ⟨h1, h2, ds, h3, h4, h5, h6⟩

theorem discrete_unit {values : List ℝ} (h : Consecutive values) (i : ℕ)
    (hi : i + 1 < ((values.getD 0 0 - 1) :: values ++ [values.getD (values.length - 1) 0 + 1]).length) :
    ((values.getD 0 0 - 1) :: values ++ [values.getD (values.length - 1) 0 + 1]).getD (i + 1) 0 -
      ((values.getD 0 0 - 1) :: values ++ [values.getD (values.length - 1) 0 + 1]).getD i 0 = 1 := by
  have hl : 0 < values.length := List.length_pos_iff.2 h.1
  have hi' : i < values.length + 1 := by simpa using hi
  rw [pad_getD, pad_getD]
  rcases Nat.eq_zero_or_pos i with h0 | h0
  · subst h0
    simp only [Nat.zero_add, Nat.sub_self, hl, if_true, one_ne_zero, if_false]
    ring
  · simp only [Nat.add_sub_cancel, Nat.succ_ne_zero, if_false, if_neg (show ¬ i = 0 by omega)]
    rcases (show i ≤ values.length by omega).lt_or_eq with hlt | he
    · rw [if_pos hlt, if_pos (by omega)]
      have := h.2 (i - 1) (by omega)
      rw [Nat.sub_add_cancel h0] at this
      rw [this]; ring
    · rw [if_neg (by omega), if_pos he, if_pos (by omega), he]; ring

/-- **C44, values without gaps.** The stored density, evaluated at the values of the domain, sums to one. -/
theorem C44_partial {values : List ℝ} {alpha : ℝ} {data : List ℝ} {xs ys : List ℝ} (hc : Consecutive values)
    (h : plFit (.discrete values) alpha data = .ok (some (xs, ys))) :
    (values.map fun v => interp v xs ys).sum = 1 := by
  have hs := consecutive_increasing hc
  obtain ⟨hv, hx, ds, hl, hnn, hp, hy⟩ := plFit_discrete_ok hs h
  have hxs : xs.Pairwise (· < ·) := by rw [hx, ← knots_discrete values]; exact knots_increasing _ (discrete_breaks hv hs).2 (discrete_breaks hv hs).1
  have hxl : ds.length + 2 = xs.length := by rw [hx]; simp; omega
  have hpos := trapezoid_pos hxs hxl hnn hp
  have htr : trapezoid xs ((0 : ℝ) :: ds ++ [0]) = ds.sum := trapezoid_unit hxl (by rw [hx]; exact discrete_unit hc)
  have hd := C36_interp (xs := xs) (ys := (0 : ℝ) :: ds ++ [0]) hxs (by simp; omega) (by omega) ?_ (by simp) ?_ hpos
  · rw [← hy] at hd
    rw [sum_getD, List.length_map]
    have e : ∀ i ∈ Finset.range values.length, (values.map fun v => interp v xs ys).getD i 0 = ds.getD i 0 / ds.sum := by
      intro i hi
      rw [Finset.mem_range] at hi
      rw [List.getD_eq_getElem _ _ (by simpa using hi), List.getElem_map]
      have hk := hd.knots (i + 1) (by omega)
      have e1 : xs.getD (i + 1) 0 = values[i] := by
        rw [hx, List.cons_append, List.getD_cons_succ, List.getD_append _ _ _ _ hi, List.getD_eq_getElem _ _ hi]
      rw [e1] at hk
      rw [hk, hy, getD_div, htr, List.cons_append, List.getD_cons_succ, List.getD_append _ _ _ _ (by omega)]
    rw [Finset.sum_congr rfl e, ← Finset.sum_div, ← hl, ← sum_getD, div_self]
    rw [← htr]; exact hpos.ne'
  · intro y hy
    simp only [List.cons_append, List.mem_cons, List.mem_append, List.not_mem_nil, or_false] at hy
    rcases hy with rfl | h | rfl
    · exact le_rfl
    · exact hnn y h
    · exact le_rfl
  · rw [← getLastD_getD, List.cons_append, List.getLastD_cons]
    simp

/-- With the domain `{0, 2}` and no data the stored density sums to two thirds over the domain. -/
theorem C44_refuted_gaps : ∃ xs ys, plFit (.discrete [0, 2]) 0 [] = .ok (some (xs, ys)) ∧
    ([0, 2].map fun v => interp v xs ys).sum = 2 / 3 := by
  obtain ⟨xs, ys, h, hxs, hyl, hd⟩ := C36_discrete (alpha := 0) (values := [0, 2]) (data := []) (by simp) (by simp) (.inl rfl)
  refine ⟨xs, ys, h, ?_⟩
  have e : plFit (.discrete [0, 2]) 0 [] = .ok (some ([-1, 0, 2, 3], [0, 1/3, 1/3, 0])) := by
    unfold plFit plInit
    simp [knots, smooth, trapezoid]
    norm_num
  rw [e] at h
  injection h with h
  injection h with h
  injection h with hx hy
  subst hx hy
  have h1 := hd.knots 1 (by simp)
  have h2 := hd.knots 2 (by simp)
  simp at h1 h2
  simp [h1, h2]
  norm_num

end Props

/-! ### C45: draws -/

theorem countP_spec {p : ℝ → Bool} {l : List ℝ} (h : l.Pairwise fun a b => p b = true → p a = true) :
    ∀ i, i < l.length → (p (l.getD i 0) = true ↔ i < l.countP p) := by
  induction l with
  | nil => simp
  | cons a l ih =>
    rw [List.pairwise_cons] at h
    intro i hi
    by_cases ha : p a = true
    · rw [List.countP_cons_of_pos ha]
      cases i with
      | zero => simpa using ha
      | succ i => rw [List.getD_cons_succ, ih h.2 i (by simpa using hi)]; omega
    · have hz : l.countP p = 0 := List.countP_eq_zero.2 fun b hb hpb => ha (h.1 b hb hpb)
      rw [List.countP_cons_of_neg ha, hz]
      simp only [not_lt_zero, iff_false]
      cases i with
      | zero => simpa using ha
      | succ i =>
        rw [List.getD_cons_succ]
        intro hp
        exact ha (h.1 _ (getD_mem (by simpa using hi)) hp)

/-- area of piece `i`. -/
def pieceArea (xs ys : List ℝ) (i : ℕ) : ℝ := (xs.getD (i + 1) 0 - xs.getD i 0) * (ys.getD i 0 + ys.getD (i + 1) 0) / 2

theorem tail_getD (l : List ℝ) (i : ℕ) : l.tail.getD i 0 = l.getD (i + 1) 0 := by cases l <;> simp

theorem plCdf_spec {xs ys : List ℝ} (hl : ys.length = xs.length) (h2 : 2 ≤ xs.length) (ha : trapezoid xs ys = 1) :
    (plCdf xs ys).length = xs.length ∧
      ∀ i, i < xs.length → (plCdf xs ys).getD i 0 = ∑ j ∈ Finset.range i, pieceArea xs ys j := by
  set areas := List.zipWith (fun (d : ℝ) (p : ℝ × ℝ) => 1 / 2 * d * (p.1 + p.2)) (diffs xs) (List.zip ys.dropLast ys.tail) with har
  have hlen : areas.length = xs.length - 1 := by simp [har, diffs_length, hl]
  have hget : ∀ i, i < xs.length - 1 → areas.getD i 0 = pieceArea xs ys i := by
    intro i hi
    rw [har, getD_zipWith _ _ _ 0 ((0 : ℝ), (0 : ℝ)) _ _ (by rw [diffs_length]; omega) (by simp; omega), diffs_getD _ _ (by omega)]
    have e : (List.zip ys.dropLast ys.tail).getD i (0, 0) = (ys.dropLast.getD i 0, ys.tail.getD i 0) := by
      have := getD_zipWith Prod.mk ys.dropLast ys.tail 0 0 ((0 : ℝ), (0 : ℝ)) i (by simp; omega) (by simp; omega)
      simpa [List.zip] using this
    rw [e, dropLast_getD _ _ (by omega), tail_getD]
    unfold pieceArea
    ring
  have htake : ∀ i, i ≤ xs.length - 1 → (areas.take i).sum = ∑ j ∈ Finset.range i, pieceArea xs ys j := by
    intro i hi
    rw [sum_getD, List.length_take, min_eq_left (by omega)]
    refine Finset.sum_congr rfl fun j hj => ?_
    rw [Finset.mem_range] at hj
    rw [← hget j (by omega), List.getD_eq_getElem _ _ (by simp; omega), List.getD_eq_getElem _ _ (by omega), List.getElem_take]
  have hraw : ∀ i, i < xs.length → ((List.range (areas.length + 1)).map fun i => (areas.take i).sum).getD i 0 =
      ∑ j ∈ Finset.range i, pieceArea xs ys j := by
    intro i hi
    rw [List.getD_eq_getElem _ _ (by simp; omega), List.getElem_map, List.getElem_range, htake i (by omega)]
  have hlast : ((List.range (areas.length + 1)).map fun i => (areas.take i).sum).getLastD 0 = 1 := by
    rw [getLastD_getD, hraw _ (by simp; omega), ← ha, trapezoid_eq _ _ hl]
    simp only [List.length_map, List.length_range, Nat.add_sub_cancel, hlen]
    rfl
  have e : plCdf xs ys = ((List.range (areas.length + 1)).map fun i => (areas.take i).sum).map (· / 1) := by
    rw [← hlast]; rfl
  rw [e]
  refine ⟨by simp; omega, fun i hi => ?_⟩
  rw [getD_div, hraw i hi, div_one]

/-- a uniform number falls into the piece whose share of the cumulated areas contains it. -/
theorem plDraw_piece {xs ys : List ℝ} (hs : xs.Pairwise (· < ·)) (hl : ys.length = xs.length) (h2 : 2 ≤ xs.length)
    (hy : ∀ y ∈ ys, 0 ≤ y) (ha : trapezoid xs ys = 1) {u : ℝ} (hu0 : 0 ≤ u) (hu1 : u < 1) :
    ∃ i, i + 1 < xs.length ∧ ∑ j ∈ Finset.range i, pieceArea xs ys j ≤ u ∧
      u < ∑ j ∈ Finset.range (i + 1), pieceArea xs ys j ∧
      plDraw xs ys u = xs.getD i 0 + (xs.getD (i + 1) 0 - xs.getD i 0) / (pieceArea xs ys i + 1e-8) *
        (u - ∑ j ∈ Finset.range i, pieceArea xs ys j) := by
  obtain ⟨hcl, hc⟩ := plCdf_spec hl h2 ha
  have hyi : ∀ i, 0 ≤ ys.getD i 0 := fun i => by
    by_cases hi : i < ys.length
    · exact hy _ (getD_mem hi)
    · rw [List.getD_eq_default _ _ (not_lt.1 hi)]
  have hpa : ∀ i, i + 1 < xs.length → 0 ≤ pieceArea xs ys i := fun i hi => by
    have := increasing_getD hs (Nat.lt_succ_self i) hi
    have h1 := hyi i
    have h2 := hyi (i + 1)
    unfold pieceArea
    have : 0 ≤ xs.getD (i + 1) 0 - xs.getD i 0 := by linarith
    positivity
  have hmono : (plCdf xs ys).Pairwise (· ≤ ·) := by
    rw [List.pairwise_iff_getElem]
    intro i j hi hj hij
    rw [← List.getD_eq_getElem _ 0 hi, ← List.getD_eq_getElem _ 0 hj, hc i (by omega), hc j (by omega)]
    refine Finset.sum_le_sum_of_subset_of_nonneg (Finset.range_mono hij.le) fun k hk _ => hpa k ?_
    rw [Finset.mem_range] at hk
    omega
  have hcount := countP_spec (p := fun c => decide (c ≤ u)) (l := plCdf xs ys)
    (hmono.imp fun {a b} hab hb => by simp only [decide_eq_true_eq] at hb ⊢; linarith)
  simp only [decide_eq_true_eq] at hcount
  set m := (plCdf xs ys).countP fun c => decide (c ≤ u) with hm
  have hm0 : 0 < m := (hcount 0 (by omega)).1 (by rw [hc 0 (by omega)]; simpa using hu0)
  have hm1 : m ≤ xs.length - 1 := by
    by_contra h
    have := (hcount (xs.length - 1) (by omega)).2 (by omega)
    rw [hc _ (by omega)] at this
    have e : ∑ j ∈ Finset.range (xs.length - 1), pieceArea xs ys j = 1 := by rw [← ha, trapezoid_eq _ _ hl]; rfl
    linarith
  refine ⟨m - 1, by omega, ?_, ?_, ?_⟩
  · rw [← hc _ (by omega)]; exact (hcount _ (by omega)).2 (by omega)
  · rw [Nat.sub_add_cancel hm0, ← hc _ (by omega)]
    by_contra h
    have := (hcount m (by omega)).1 (not_lt.1 h)
    omega
  · have e : plDraw xs ys u = xs.getD (max 1 (min m (xs.length - 1)) - 1) 0 +
        (xs.getD (max 1 (min m (xs.length - 1))) 0 - xs.getD (max 1 (min m (xs.length - 1)) - 1) 0) /
          ((plCdf xs ys).getD (max 1 (min m (xs.length - 1))) 0 - (plCdf xs ys).getD (max 1 (min m (xs.length - 1)) - 1) 0 + 1e-8) *
          (u - (plCdf xs ys).getD (max 1 (min m (xs.length - 1)) - 1) 0) := rfl
    rw [e, show max 1 (min m (xs.length - 1)) = (m - 1) + 1 by omega, Nat.add_sub_cancel, hc _ (by omega), hc _ (by omega),
      Finset.sum_range_succ]
    congr 3
    ring

namespace Props

/-- the law of a draw: `torch.rand` is uniform on `[0, 1)`. -/
def drawLaw (xs ys : List ℝ) (A : Set ℝ) : ENNReal := volume (Set.Ico (0 : ℝ) 1 ∩ plDraw xs ys ⁻¹' A)

/-- **C45, continuous domains.** A draw lies in each piece with the probability the density gives to the piece. -/
theorem C45_pieces_partial {xs ys : List ℝ} (hs : xs.Pairwise (· < ·)) (hl : ys.length = xs.length) (h2 : 2 ≤ xs.length)
    (hy : ∀ y ∈ ys, 0 ≤ y) (ha : trapezoid xs ys = 1) {i : ℕ} (hi : i + 1 < xs.length) :
    drawLaw xs ys (Set.Ico (xs.getD i 0) (xs.getD (i + 1) 0)) =
      ∫⁻ x in Set.Ico (xs.getD i 0) (xs.getD (i + 1) 0), ENNReal.ofReal (interp x xs ys) := by
  have hyi : ∀ i, 0 ≤ ys.getD i 0 := fun i => by
    by_cases hi : i < ys.length
    · exact hy _ (getD_mem hi)
    · rw [List.getD_eq_default _ _ (not_lt.1 hi)]
  have hpa : ∀ i, i + 1 < xs.length → 0 ≤ pieceArea xs ys i := fun i hi => by
    have := increasing_getD hs (Nat.lt_succ_self i) hi
    have h1 := hyi i
    have h2 := hyi (i + 1)
    unfold pieceArea
    have : 0 ≤ xs.getD (i + 1) 0 - xs.getD i 0 := by linarith
    positivity
  have hmono : ∀ {a b}, a ≤ b → b < xs.length → ∑ j ∈ Finset.range a, pieceArea xs ys j ≤ ∑ j ∈ Finset.range b, pieceArea xs ys j :=
    fun {a b} hab hb => Finset.sum_le_sum_of_subset_of_nonneg (Finset.range_mono hab) fun k hk _ => hpa k (by
      rw [Finset.mem_range] at hk; omega)
  have hone : ∑ j ∈ Finset.range (xs.length - 1), pieceArea xs ys j = 1 := by rw [← ha, trapezoid_eq _ _ hl]; rfl
  have hset : Set.Ico (0 : ℝ) 1 ∩ plDraw xs ys ⁻¹' Set.Ico (xs.getD i 0) (xs.getD (i + 1) 0) =
      Set.Ico (∑ j ∈ Finset.range i, pieceArea xs ys j) (∑ j ∈ Finset.range (i + 1), pieceArea xs ys j) := by
    have key : ∀ u, 0 ≤ u → u < 1 → ∃ k, k + 1 < xs.length ∧ ∑ j ∈ Finset.range k, pieceArea xs ys j ≤ u ∧
        u < ∑ j ∈ Finset.range (k + 1), pieceArea xs ys j ∧ xs.getD k 0 ≤ plDraw xs ys u ∧ plDraw xs ys u < xs.getD (k + 1) 0 := by
      intro u hu0 hu1
      obtain ⟨k, hk, h0, h1, he⟩ := plDraw_piece hs hl h2 hy ha hu0 hu1
      refine ⟨k, hk, h0, h1, ?_⟩
      rw [Finset.sum_range_succ] at h1
      have hlt := increasing_getD hs (Nat.lt_succ_self k) hk
      have hp := hpa k hk
      have heps : (0 : ℝ) < 1e-8 := by norm_num
      have hden : 0 < pieceArea xs ys k + 1e-8 := by linarith
      rw [he]
      generalize ∑ j ∈ Finset.range k, pieceArea xs ys j = c at *
      constructor
      · have : 0 ≤ (xs.getD (k + 1) 0 - xs.getD k 0) / (pieceArea xs ys k + 1e-8) * (u - c) :=
          mul_nonneg (div_nonneg (by linarith) hden.le) (by linarith)
        linarith
      · have : (xs.getD (k + 1) 0 - xs.getD k 0) / (pieceArea xs ys k + 1e-8) * (u - c) < xs.getD (k + 1) 0 - xs.getD k 0 := by
          rw [div_mul_eq_mul_div, div_lt_iff₀ hden]
          exact mul_lt_mul_of_pos_left (by linarith) (by linarith)
        linarith
    ext u
    simp only [Set.mem_inter_iff, Set.mem_Ico, Set.mem_preimage]
    constructor
    · rintro ⟨⟨hu0, hu1⟩, hd0, hd1⟩
      obtain ⟨k, hk, h0, h1, hx0, hx1⟩ := key u hu0 hu1
      have : k = i := by
        rcases lt_trichotomy k i with h | h | h
        · have : xs.getD (k + 1) 0 ≤ xs.getD i 0 := by
            rcases (show k + 1 ≤ i by omega).lt_or_eq with h' | h'
            · exact (increasing_getD hs h' (by omega)).le
            · rw [h']
          linarith
        · exact h
        · have : xs.getD (i + 1) 0 ≤ xs.getD k 0 := by
            rcases (show i + 1 ≤ k by omega).lt_or_eq with h' | h'
            · exact (increasing_getD hs h' (by omega)).le
            · rw [h']
          linarith
      subst this
      exact ⟨h0, h1⟩
    · rintro ⟨h0, h1⟩
      have hu0 : 0 ≤ u := le_trans (Finset.sum_nonneg fun k hk => hpa k (by rw [Finset.mem_range] at hk; omega)) h0
      have hu1 : u < 1 := lt_of_lt_of_le h1 (by rw [← hone]; exact hmono (by omega) (by omega))
      refine ⟨⟨hu0, hu1⟩, ?_⟩
      obtain ⟨k, hk, h0', h1', hx0, hx1⟩ := key u hu0 hu1
      have : k = i := by
        rcases lt_trichotomy k i with h | h | h
        · have := hmono (show k + 1 ≤ i by omega) (by omega); linarith
        · exact h
        · have := hmono (show i + 1 ≤ k by omega) (by omega); linarith
      subst this
      exact ⟨hx0, hx1⟩
  unfold drawLaw
  rw [hset, Real.volume_Ico, Finset.sum_range_succ, add_sub_cancel_left]
  have hlt := increasing_getD hs (Nat.lt_succ_self i) hi
  have e : ∀ x, interp x xs ys = ramps xs ys x := fun x => interp_eq_ramps hs hl (by omega) hy x
  simp only [e]
  have hnn : ∀ x, 0 ≤ ramps xs ys x := fun x => by rw [← e x, interp_eq]; exact le_max_right _ _
  rw [← ofReal_integral_eq_lintegral_ofReal ?_ (Filter.Eventually.of_forall hnn), integral_Ico_eq_integral_Ioc,
    ← intervalIntegral.integral_of_le hlt.le, integral_piece hs hl hi]
  · rfl
  · exact (continuous_ramps.integrableOn_Icc).mono_set Set.Ico_subset_Icc_self

/-- Inside a piece draws are uniform, not linear: for the triangle on `[0, 2]` a draw is at most `1/2` with probability at least
`1/4`, although the density gives `1/8`. -/
theorem C45_refuted_continuous : IsPLDensity [0, 1, 2] [0, 1, 0] (fun x => interp x [0, 1, 2] [0, 1, 0]) ∧
    ENNReal.ofReal (1 / 4) ≤ drawLaw [0, 1, 2] [0, 1, 0] (Set.Iic (1 / 2)) ∧
    ∫⁻ x in Set.Iic (1 / 2), ENNReal.ofReal (interp x [0, 1, 2] [0, 1, 0]) = ENNReal.ofReal (1 / 8) := by
  have hs : ([0, 1, 2] : List ℝ).Pairwise (· < ·) := by simp
  have hy : ∀ y ∈ ([0, 1, 0] : List ℝ), 0 ≤ y := by simp
  have ha : trapezoid [0, 1, 2] [0, 1, 0] = 1 := by simp [trapezoid]; norm_num
  have hd := plDensity_of_area (ys := [0, 1, 0]) hs (by simp) (by simp) hy (by simp) (by simp) ha
  refine ⟨hd, ?_, ?_⟩
  · have : Set.Icc (0 : ℝ) (1 / 4) ⊆ Set.Ico (0 : ℝ) 1 ∩ plDraw [0, 1, 2] [0, 1, 0] ⁻¹' Set.Iic (1 / 2) := by
      rintro u ⟨hu0, hu1⟩
      refine ⟨⟨hu0, by linarith⟩, ?_⟩
      obtain ⟨k, hk, h0, h1, he⟩ := plDraw_piece (ys := [0, 1, 0]) hs (by simp) (by simp) hy ha hu0 (by linarith)
      rw [Set.mem_preimage, Set.mem_Iic, he]
      have hk' : k < 2 := by simp at hk; omega
      interval_cases k
      · simp [pieceArea]
        rw [inv_mul_le_iff₀ (by norm_num)]
        norm_num
        linarith
      · simp [pieceArea] at h0
        linarith
    refine le_trans (le_of_eq ?_) (measure_mono this)
    rw [Real.volume_Icc, sub_zero]
  · have e : ∀ x, interp x [0, 1, 2] [0, 1, 0] = ramps [0, 1, 2] [0, 1, 0] x :=
      fun x => interp_eq_ramps hs (by simp) (by simp) hy x
    have hz : ∀ x, x ≤ 0 → ramps [0, 1, 2] [0, 1, 0] x = 0 := fun x hx => by
      rw [ramps_below hs (by simpa using hx)]; simp
    have hx : ∀ x, 0 ≤ x → x ≤ 1 → ramps [0, 1, 2] [0, 1, 0] x = x := fun x h0 h1 => by
      rw [ramps_at hs (i := 0) (by simp) (by simpa using h0) (by simpa using h1)]; simp
    simp only [e]
    rw [show Set.Iic (1 / 2 : ℝ) = Set.Iic 0 ∪ Set.Ioc 0 (1 / 2) from (Set.Iic_union_Ioc_eq_Iic (by norm_num)).symm,
      lintegral_union measurableSet_Ioc (by
        rw [Set.disjoint_left]; intro x h1 h2; exact absurd h2.1 (not_lt.2 h1))]
    have h1 : ∫⁻ x in Set.Iic (0 : ℝ), ENNReal.ofReal (ramps [0, 1, 2] [0, 1, 0] x) = 0 := by
      rw [setLIntegral_congr_fun (g := fun _ => 0) measurableSet_Iic fun x hx' => by
        show ENNReal.ofReal _ = 0
        rw [hz x hx', ENNReal.ofReal_zero]]
      simp
    have h2 : ∫⁻ x in Set.Ioc (0 : ℝ) (1 / 2), ENNReal.ofReal (ramps [0, 1, 2] [0, 1, 0] x) =
        ∫⁻ x in Set.Ioc (0 : ℝ) (1 / 2), ENNReal.ofReal x :=
      setLIntegral_congr_fun measurableSet_Ioc fun x hx' => by
        show ENNReal.ofReal _ = _
        rw [hx x hx'.1.le (by linarith [hx'.2])]
    rw [h1, h2, zero_add, ← ofReal_integral_eq_lintegral_ofReal, ← intervalIntegral.integral_of_le (by norm_num), integral_id]
    · norm_num
    · exact (continuous_id.integrableOn_Icc).mono_set Set.Ioc_subset_Icc_self
    · exact (ae_restrict_iff' measurableSet_Ioc).2 (Filter.Eventually.of_forall fun x hx' => hx'.1.le)

/-- **C45, discrete domains.** For the domain `0, 1, …, m` a draw is `k` with the probability the density gives to `k`. -/
theorem C45_discrete_partial {values : List ℝ} {alpha : ℝ} {data : List ℝ} {xs ys : List ℝ} (hc : Consecutive values)
    (h0 : values.getD 0 0 = 0) (h : plFit (.discrete values) alpha data = .ok (some (xs, ys))) (k : ℕ) (hk : k < values.length) :
    values.getD k 0 = k ∧ plDiscreteMass ys k = interp k xs ys := by
  have hval : values.getD k 0 = k := by
    clear h
    induction k with
    | zero => simpa using h0
    | succ k ih => rw [hc.2 k hk, ih (by omega)]; push_cast; rfl
  refine ⟨hval, ?_⟩
  have hsum := C44_partial hc h
  have hs := consecutive_increasing hc
  obtain ⟨hv, hx, ds, hl, hnn, hp, hy⟩ := plFit_discrete_ok hs h
  have hxs : xs.Pairwise (· < ·) := by
    rw [hx, ← knots_discrete values]; exact knots_increasing _ (discrete_breaks hv hs).2 (discrete_breaks hv hs).1
  have hxl : ds.length + 2 = xs.length := by rw [hx]; simp; omega
  have hpos := trapezoid_pos hxs hxl hnn hp
  have hd := C36_interp (xs := xs) (ys := (0 : ℝ) :: ds ++ [0]) hxs (by simp; omega) (by omega) ?_ (by simp) ?_ hpos
  · rw [← hy] at hd
    have hin : ∀ j, j < values.length → interp (values.getD j 0) xs ys = ys.tail.dropLast.getD j 0 := by
      intro j hj
      have hk' := hd.knots (j + 1) (by omega)
      have e1 : xs.getD (j + 1) 0 = values.getD j 0 := by
        rw [hx, List.cons_append, List.getD_cons_succ, List.getD_append _ _ _ _ hj]
      rw [e1] at hk'
      have hyl : ys.length = xs.length := by rw [hy]; simp; omega
      rw [hk', dropLast_getD _ _ (by simp; omega), tail_getD]
    have hsum' : ys.tail.dropLast.sum = 1 := by
      have hyl : ys.length = xs.length := by rw [hy]; simp; omega
      rw [← hsum, sum_getD, sum_getD, List.length_map, List.length_dropLast, List.length_tail,
        show ys.length - 1 - 1 = values.length by omega]
      refine Finset.sum_congr rfl fun j hj => ?_
      rw [Finset.mem_range] at hj
      rw [← hin j hj, List.getD_eq_getElem (values.map _) _ (by simpa using hj), List.getElem_map,
        List.getD_eq_getElem _ _ hj]
    unfold plDiscreteMass
    rw [hsum', div_one, ← hin k hk, hval]
  · intro y hy
    simp only [List.cons_append, List.mem_cons, List.mem_append, List.not_mem_nil, or_false] at hy
    rcases hy with rfl | h | rfl
    · exact le_rfl
    · exact hnn y h
    · exact le_rfl
  · rw [← getLastD_getD, List.cons_append, List.getLastD_cons]
    simp

/-- A draw is the position of a value, not the value: for the domain `{1, 2}` without data half of the draws are `0`, where the
density is zero. -/
theorem C45_refuted_discrete : ∃ xs ys, plFit (.discrete [1, 2]) 0 [] = .ok (some (xs, ys)) ∧
    plDiscreteMass ys 0 = 1 / 2 ∧ interp 0 xs ys = 0 := by
  obtain ⟨xs, ys, h, hxs, hyl, hd⟩ := C36_discrete (alpha := 0) (values := [1, 2]) (data := []) (by simp) (by simp) (.inl rfl)
  refine ⟨xs, ys, h, ?_⟩
  have e : plFit (.discrete [1, 2]) 0 [] = .ok (some ([0, 1, 2, 3], [0, 1/2, 1/2, 0])) := by
    unfold plFit plInit
    simp [knots, smooth, trapezoid]
    norm_num
  rw [e] at h
  injection h with h
  injection h with h
  injection h with hx hy
  subst hx hy
  have h1 := hd.knots 0 (by simp)
  simp at h1
  refine ⟨?_, by simpa using h1⟩
  simp [plDiscreteMass]
  norm_num

/-! Cases meeting the hypotheses. -/

example : ∃ xs ys, plFit .continuous 0 [1, 2, 5] = .ok (some (xs, ys)) ∧ IsPLDensity xs ys (fun x => interp x xs ys) := by
  obtain ⟨xs, ys, h, -, -, hd⟩ := C36_continuous (alpha := 0) (data := [1, 2, 5]) (by simp)
  exact ⟨xs, ys, h, hd⟩

example : ∃ xs ys, plFit (.discrete [0, 1, 2]) 1 [0, 2, 2] = .ok (some (xs, ys)) ∧ Consecutive [0, 1, 2] ∧
    (([0, 1, 2] : List ℝ).map fun v => interp v xs ys).sum = 1 ∧ plDiscreteMass ys 2 = interp (2 : ℕ) xs ys := by
  obtain ⟨xs, ys, h, -, -, hd⟩ := C36_discrete (alpha := 1) (values := [0, 1, 2]) (data := [0, 2, 2]) (by simp) (by simp)
    (.inr ⟨2, by simp, by simp, by simp⟩)
  have hc : Consecutive [0, 1, 2] := by
    refine ⟨by simp, fun i hi => ?_⟩
    have : i < 2 := by simp at hi; omega
    interval_cases i <;> norm_num
  exact ⟨xs, ys, h, hc, C44_partial hc h, (C45_discrete_partial hc (by simp) h 2 (by simp)).2⟩

example : IsPLDensity [0, 1, 2] (([0, 3, 0] : List ℝ).map (· / trapezoid [0, 1, 2] [0, 3, 0]))
    (fun x => interp x [0, 1, 2] (([0, 3, 0] : List ℝ).map (· / trapezoid [0, 1, 2] [0, 3, 0]))) :=
  C36_interp (by simp) (by simp) (by simp) (by simp) (by simp) (by simp) (by simp [trapezoid]; norm_num)

end Props

end Einet
