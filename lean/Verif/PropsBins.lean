import Verif.PropsHistogram
import Mathlib.Data.List.Sort

/-!
# The number of automatic histogram bins (C48)
-/

open Classical
noncomputable section
namespace Einet
namespace Props

/-- the entries that count: all real ones, or those between the outer edges if a range was given. -/
def counted (range : Option (Fl × Fl)) (f l : ℝ) (a : List Fl) : List ℝ :=
  a.filterMap fun v => match v with
    | .fin r => if range = none ∨ f ≤ r ∧ r ≤ l then some r else none
    | _ => none

/-- `v` is the `q`-quantile of `x`: between two neighbours of the ordered list, in proportion. -/
def IsQuantile (x : List ℝ) (q v : ℝ) : Prop :=
  ∃ (s : List ℝ) (j : ℕ) (t : ℝ), s.Perm x ∧ s.Pairwise (· ≤ ·) ∧ j < s.length ∧ 0 ≤ t ∧ t < 1 ∧
    (j : ℝ) + t = q * (x.length - 1) ∧ (t = 0 → v = s.getD j 0) ∧
    (0 < t → j + 1 < s.length ∧ v = (1 - t) * s.getD j 0 + t * s.getD (j + 1) 0)

/-- `w` is the bin width of numpy's rule `auto`: the smaller of the width of Freedman and Diaconis and the width of Sturges,
the latter alone if the former is zero. -/
def AutoWidth (x : List ℝ) (w : ℝ) : Prop :=
  ∃ q₁ q₃ lo hi fd st : ℝ, IsQuantile x (1/4) q₁ ∧ IsQuantile x (3/4) q₃ ∧ IsLeast {r | r ∈ x} lo ∧ IsGreatest {r | r ∈ x} hi ∧
    fd * (x.length : ℝ) ^ (1/3 : ℝ) = 2 * (q₃ - q₁) ∧ st * (Real.logb 2 x.length + 1) = hi - lo ∧
    (fd ≤ 0 → w = st) ∧ (0 < fd → (w = fd ∨ w = st) ∧ w ≤ fd ∧ w ≤ st)

theorem inRange_eq {a : List Fl} {range : Option (Fl × Fl)} {f l : ℝ} (h : range = none → ∀ x ∈ a, ∃ r, x = .fin r) :
    inRange range f l a = (counted range f l a).map .fin := by
  induction a with
  | nil => cases range <;> rfl
  | cons v a ih =>
    have ih := ih fun e x hx => h e x (List.mem_cons_of_mem _ hx)
    cases range with
    | none =>
      obtain ⟨r, rfl⟩ := h rfl v List.mem_cons_self
      simp only [inRange, counted] at ih ⊢
      rw [List.filterMap_cons]
      simp only [true_or, if_true, List.map_cons] at ih ⊢
      rw [← ih]
    | some p =>
      simp only [inRange, counted] at ih ⊢
      rw [List.filter_cons, List.filterMap_cons, ih]
      cases v with
      | fin r =>
        by_cases hr : f ≤ r ∧ r ≤ l
        · simp [Fl.lt, hr.1, hr.2]
        · rw [if_neg (by simpa [Fl.lt] using hr)]
          simp [hr]
      | _ => simp [Fl.lt]

theorem quantile_is {x : List ℝ} (hx : x ≠ []) {q : ℝ} (h0 : 0 ≤ q) (h1 : q ≤ 1) : IsQuantile x q (quantile x q) := by
  have hn : 0 < x.length := List.length_pos_iff.2 hx
  have hn1 : (1 : ℝ) ≤ x.length := by exact_mod_cast hn
  set h := q * ((x.length : ℝ) - 1) with hh
  have hpos : 0 ≤ h := mul_nonneg h0 (by linarith)
  have hle : h ≤ x.length - 1 := by nlinarith
  have hfl := Nat.floor_le hpos
  have hlt := Nat.lt_floor_add_one h
  have hp := List.mergeSort_perm x fun a b => decide (a ≤ b)
  have hl : ⌊h⌋₊ < x.length := by
    have : (⌊h⌋₊ : ℝ) < x.length := by linarith
    exact_mod_cast this
  refine ⟨x.mergeSort fun a b => decide (a ≤ b), ⌊h⌋₊, h - ⌊h⌋₊, hp, ?_, by rw [hp.length_eq]; exact hl, by linarith, by linarith,
    by ring, fun ht => ?_, fun ht => ?_⟩
  · have := List.pairwise_mergeSort (le := fun a b : ℝ => decide (a ≤ b)) (by intro a b c; simpa using le_trans)
      (by intro a b; simpa using le_total a b) x
    simpa using this
  · unfold quantile
    dsimp only
    rw [← hh, ht]
    ring
  · have hc : ⌈h⌉₊ = ⌊h⌋₊ + 1 := by
      refine le_antisymm (Nat.ceil_le_floor_add_one _) ?_
      rw [Nat.succ_le_iff, Nat.lt_ceil]
      linarith
    refine ⟨?_, ?_⟩
    · rw [hp.length_eq]
      have : (⌊h⌋₊ : ℝ) < (x.length - 1 : ℕ) := by
        rw [Nat.cast_sub hn]
        push_cast
        linarith
      have : ⌊h⌋₊ < x.length - 1 := by exact_mod_cast this
      omega
    · unfold quantile
      dsimp only
      rw [← hh, hc]
      ring

theorem ptp_is {x : List ℝ} (hx : x ≠ []) : ∃ lo hi, IsLeast {r | r ∈ x} lo ∧ IsGreatest {r | r ∈ x} hi ∧ ptp x = hi - lo := by
  have key : ∀ x : List ℝ, x ≠ [] → ∃ lo hi, IsLeast {r | r ∈ x} lo ∧ IsGreatest {r | r ∈ x} hi ∧
      minOf (x.map .fin) = .fin lo ∧ maxOf (x.map .fin) = .fin hi := by
    intro x
    induction x with
    | nil => intro h; exact absurd rfl h
    | cons a x ih =>
      intro _
      cases x with
      | nil => exact ⟨a, a, ⟨by simp, by intro b; simp +contextual⟩, ⟨by simp, by intro b; simp +contextual⟩, rfl, rfl⟩
      | cons b x =>
        obtain ⟨lo, hi, h1, h2, h3, h4⟩ := ih (by simp)
        refine ⟨if lo < a then lo else a, if a < hi then hi else a, ⟨?_, ?_⟩, ⟨?_, ?_⟩, ?_, ?_⟩
        · split_ifs
          · exact List.mem_cons_of_mem _ h1.1
          · exact List.mem_cons_self
        · intro r hr
          rcases List.mem_cons.1 hr with rfl | hr
          · split_ifs <;> linarith
          · have := h1.2 hr
            split_ifs <;> linarith
        · split_ifs
          · exact List.mem_cons_of_mem _ h2.1
          · exact List.mem_cons_self
        · intro r hr
          rcases List.mem_cons.1 hr with rfl | hr
          · split_ifs <;> linarith
          · have := h2.2 hr
            split_ifs <;> linarith
        · show Fl.min2 (.fin a) (minOf ((b :: x).map .fin)) = _
          rw [h3]
          by_cases hlt : lo < a <;> simp [Fl.min2, Fl.lt, hlt]
        · show Fl.max2' (.fin a) (maxOf ((b :: x).map .fin)) = _
          rw [h4]
          by_cases hlt : a < hi <;> simp [Fl.max2', Fl.lt, hlt]
  obtain ⟨lo, hi, h1, h2, h3, h4⟩ := key x hx
  exact ⟨lo, hi, h1, h2, by unfold ptp; rw [h3, h4]; rfl⟩

theorem binAuto_is {x : List ℝ} (hx : x ≠ []) : AutoWidth x (binAuto x) := by
  have hn : 0 < x.length := List.length_pos_iff.2 hx
  have hn1 : (1 : ℝ) ≤ x.length := by exact_mod_cast hn
  obtain ⟨lo, hi, h1, h2, h3⟩ := ptp_is hx
  refine ⟨_, _, lo, hi, binFd x, binSturges x, quantile_is hx (by norm_num) (by norm_num),
    quantile_is hx (by norm_num) (by norm_num), h1, h2, ?_, ?_, ?_, ?_⟩
  · unfold binFd
    rw [mul_assoc, ← Real.rpow_add (by linarith)]
    norm_num
  · unfold binSturges
    rw [h3]
    have : 0 ≤ Real.logb 2 x.length := Real.logb_nonneg (by norm_num) hn1
    field_simp
  · intro h
    unfold binAuto
    rw [if_neg (not_lt.2 h)]
  · intro h
    unfold binAuto
    rw [if_pos h]
    exact ⟨min_choice _ _, min_le_left _ _, min_le_right _ _⟩

/-- **C48.** The number of bins is the smallest one for which the bins are at most as wide as numpy's rule `auto` prescribes
for the entries that count; it is one if there are none or they are all equal. -/
theorem C48_bins {a : List Fl} {range : Option (Fl × Fl)} {wt : Bool} {edges : List ℝ} {f l : ℝ} {n : ℕ}
    (h : binEdges a range wt = .ok (edges, f, l, n)) :
    (counted range f l a = [] → n = 1) ∧
    (counted range f l a ≠ [] → ∃ w, AutoWidth (counted range f l a) w ∧ 0 ≤ w ∧ (w = 0 → n = 1) ∧
      (0 < w → l - f ≤ n * w ∧ ∀ m : ℕ, l - f ≤ m * w → n ≤ m)) := by
  obtain ⟨ho, hn, rfl⟩ := binEdges_ok h
  obtain ⟨hlt, hx, -⟩ := outerEdges_ok ho
  rw [inRange_eq fun e x hxa => by obtain ⟨r, e, -⟩ := hx e x hxa; exact ⟨r, e⟩] at hn
  set x := counted range f l a
  have hval : (x.map Fl.fin).map Fl.val = x := by
    rw [List.map_map]; exact List.map_id'' (fun _ => rfl) x
  unfold numBins at hn
  dsimp only at hn
  rw [hval] at hn
  constructor
  · intro e
    rw [if_pos (by simp [e])] at hn
    exact hn
  · intro e
    rw [if_neg (by simpa using e)] at hn
    refine ⟨_, binAuto_is e, ?_, fun h0 => ?_, fun h0 => ?_⟩
    · obtain ⟨lo, hi, g1, g2, g3⟩ := ptp_is e
      have hst : 0 ≤ binSturges x := by
        unfold binSturges
        rw [g3]
        have hn1 : (1 : ℝ) ≤ x.length := by exact_mod_cast List.length_pos_iff.2 e
        have := Real.logb_nonneg (b := 2) (by norm_num) hn1
        exact div_nonneg (by have := g1.2 g2.1; linarith) (by linarith)
      unfold binAuto
      split_ifs with hf
      · exact le_min hf.le hst
      · exact hst
    · rw [if_neg (by simp [h0])] at hn; exact hn
    · rw [if_pos h0] at hn
      have hpos : 0 < (l - f) / binAuto x := div_pos (by linarith) h0
      have hc := Int.ceil_pos.2 hpos
      have hz : ((n : ℕ) : ℤ) = ⌈(l - f) / binAuto x⌉ := by rw [hn]; exact Int.toNat_of_nonneg hc.le
      have hzr : (n : ℝ) = (⌈(l - f) / binAuto x⌉ : ℝ) := by rw [← hz]; simp
      refine ⟨?_, fun m hm => ?_⟩
      · rw [hzr, ← div_le_iff₀ h0]
        exact Int.le_ceil _
      · have : ⌈(l - f) / binAuto x⌉ ≤ (m : ℤ) := by
          rw [Int.ceil_le, div_le_iff₀ h0]
          exact_mod_cast hm
        omega

/-- **C48**: entries outside the range, NaN and infinities do not influence the result. -/
theorem C48_outside (a b : List Fl) (lo hi : Fl) (wt : Bool)
    (h : a.filter (fun v => ¬ Fl.lt v lo ∧ ¬ Fl.lt hi v ∧ v ≠ .nan) = b.filter fun v => ¬ Fl.lt v lo ∧ ¬ Fl.lt hi v ∧ v ≠ .nan)
    (hlt : Fl.lt lo hi) : binEdges a (some (lo, hi)) wt = binEdges b (some (lo, hi)) wt := by
  have ho : outerEdges a (some (lo, hi)) = outerEdges b (some (lo, hi)) := rfl
  unfold binEdges
  rw [← ho]
  cases hr : rawEdges a (some (lo, hi)) with
  | error e => simp only [outerEdges, hr]; rfl
  | ok p =>
    obtain ⟨u, v, rfl, huv, -, h2⟩ := rawEdges_ok hr
    obtain ⟨rfl, rfl⟩ := h2 _ _ rfl
    have huv : u < v := by simpa [Fl.lt] using hlt
    have e : outerEdges a (some (.fin u, .fin v)) = .ok (u, v) := by
      unfold outerEdges
      rw [hr]
      show Except.ok (expandEdges (.fin u, .fin v)) = _
      unfold expandEdges
      rw [if_neg (show ¬ (Fl.fin u).val = (Fl.fin v).val from huv.ne)]
      rfl
    rw [e]
    have : inRange (some (.fin u, .fin v)) u v a = inRange (some (.fin u, .fin v)) u v b := h
    simp only [Res.ok_bind, this]

/-- the hypotheses are met: nine entries, two of them outside the range and one NaN. -/
example : ∃ r, binEdges [.fin 1, .fin 3, .nan, .fin 7, .fin (-4), .fin 5, .fin 2, .fin 100, .fin 1] (some (.fin 0, .fin 10)) =
    .ok r ∧ counted (some (.fin 0, .fin 10)) 0 10 [.fin 1, .fin 3, .nan, .fin 7, .fin (-4), .fin 5, .fin 2, .fin 100, .fin 1] =
      [1, 3, 7, 5, 2, 1] := by
  obtain ⟨r, hr⟩ := (C37_defined [.fin 1, .fin 3, .nan, .fin 7, .fin (-4), .fin 5, .fin 2, .fin 100, .fin 1]
    (some (.fin 0, .fin 10)) false).2 ⟨rfl, 0, 10, rfl, rfl, by norm_num⟩
  exact ⟨r, hr, by norm_num [counted, List.filterMap_cons, show ¬ (some (Fl.fin 0, Fl.fin 10) = none) from nofun]⟩

end Props
end Einet
