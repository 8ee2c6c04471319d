import Verif.Histogram
import Mathlib.Tactic.FieldSimp
import Mathlib.Tactic.Linarith
import Mathlib.Tactic.NormNum

/-!
# C37: histogram edges cover the data with at least one bin
-/

open Classical
noncomputable section
namespace Einet

theorem minOf_le (a : List Fl) (h : minOf a ≠ .nan) : ∀ z ∈ a, z ≠ .nan ∧ ¬ Fl.lt z (minOf a) := by
  induction a with
  | nil => simp
  | cons x xs ih =>
    cases xs with
    | nil =>
      intro y hy
      rw [List.mem_singleton] at hy
      subst hy
      refine ⟨h, ?_⟩
      cases y <;> simp [minOf, Fl.lt]
    | cons y ys =>
      simp only [minOf] at h ih ⊢
      generalize minOf (y :: ys) = m at *
      unfold Fl.min2 at h ⊢
      have h1 : x ≠ .nan := fun e => h (if_pos e)
      have h2 : m ≠ .nan := fun e => h (by rw [if_neg h1, if_pos e])
      rw [if_neg h1, if_neg h2]
      split_ifs with h3
      all_goals
        intro z hz
        rcases List.mem_cons.1 hz with rfl | hz
        · cases z <;> cases m <;> simp_all [Fl.lt] <;> linarith
        · have := ih h2 z hz
          cases x <;> cases z <;> cases m <;> simp_all [Fl.lt] <;> linarith

theorem maxOf_ge (a : List Fl) (h : maxOf a ≠ .nan) : ∀ z ∈ a, z ≠ .nan ∧ ¬ Fl.lt (maxOf a) z := by
  induction a with
  | nil => simp
  | cons x xs ih =>
    cases xs with
    | nil =>
      intro y hy
      rw [List.mem_singleton] at hy
      subst hy
      refine ⟨h, ?_⟩
      cases y <;> simp [maxOf, Fl.lt]
    | cons y ys =>
      simp only [maxOf] at h ih ⊢
      generalize maxOf (y :: ys) = m at *
      unfold Fl.max2' at h ⊢
      have h1 : x ≠ .nan := fun e => h (if_pos e)
      have h2 : m ≠ .nan := fun e => h (by rw [if_neg h1, if_pos e])
      rw [if_neg h1, if_neg h2]
      split_ifs with h3
      all_goals
        intro z hz
        rcases List.mem_cons.1 hz with rfl | hz
        · cases z <;> cases m <;> simp_all [Fl.lt] <;> linarith
        · have := ih h2 z hz
          cases x <;> cases z <;> cases m <;> simp_all [Fl.lt] <;> linarith

theorem minOf_fin (a : List Fl) (h : (minOf a).IsFin) (hM : (maxOf a).IsFin) :
    ∀ x ∈ a, ∃ r, x = .fin r ∧ (minOf a).val ≤ r ∧ r ≤ (maxOf a).val := by
  intro x hx
  obtain ⟨r, hr⟩ := h
  obtain ⟨R, hR⟩ := hM
  have h1 := minOf_le a (by simp [hr]) x hx
  have h2 := maxOf_ge a (by simp [hR]) x hx
  rw [hr] at h1 ⊢
  rw [hR] at h2 ⊢
  cases x <;> simp_all [Fl.lt, Fl.val]

theorem minOf_of_fin (a : List Fl) (h0 : a ≠ []) (h : ∀ x ∈ a, ∃ r, x = .fin r) :
    (minOf a).IsFin ∧ (maxOf a).IsFin := by
  induction a with
  | nil => simp at h0
  | cons x xs ih =>
    obtain ⟨r, hr⟩ := h x List.mem_cons_self
    subst hr
    cases xs with
    | nil => exact ⟨⟨r, rfl⟩, ⟨r, rfl⟩⟩
    | cons y ys =>
      obtain ⟨⟨m, hm⟩, ⟨M, hM⟩⟩ := ih (by simp) fun z hz => h z (List.mem_cons_of_mem _ hz)
      simp only [minOf, maxOf, hm, hM, Fl.min2, Fl.max2', Fl.lt]
      constructor <;> (simp; split_ifs <;> exact ⟨_, rfl⟩)

theorem expand_spec {u v : ℝ} (h : u ≤ v) {f l : ℝ} (e : expandEdges (.fin u, .fin v) = (f, l)) :
    f < l ∧ f ≤ u ∧ v ≤ l ∧ (u < v → f = u ∧ l = v) := by
  unfold expandEdges at e
  split_ifs at e with he <;> simp only [Fl.val] at e he
  · cases e
    exact ⟨by linarith, by linarith, by linarith, fun hlt => by linarith⟩
  · cases e
    exact ⟨lt_of_le_of_ne h he, le_refl _, le_refl _, fun _ => ⟨rfl, rfl⟩⟩

/-- what the edges are before the expansion. -/
theorem rawEdges_ok {a : List Fl} {range : Option (Fl × Fl)} {p : Fl × Fl} (h : rawEdges a range = .ok p) :
    ∃ u v, p = (.fin u, .fin v) ∧ u ≤ v ∧ (range = none → ∀ x ∈ a, ∃ r, x = .fin r ∧ u ≤ r ∧ r ≤ v) ∧
    (∀ lo hi, range = some (lo, hi) → lo = .fin u ∧ hi = .fin v) := by
  rcases range with _ | ⟨lo, hi⟩
  · by_cases ha : a = []
    · subst ha
      simp only [rawEdges, if_true] at h
      cases h
      exact ⟨0, 1, rfl, zero_le_one, by simp, by simp⟩
    · simp only [rawEdges, if_neg ha] at h
      by_cases hf : finite (minOf a) ∧ finite (maxOf a)
      · rw [require_true _ hf] at h
        cases h
        have hx := minOf_fin a hf.1 hf.2
        obtain ⟨⟨u, hu⟩, ⟨v, hv⟩⟩ := hf
        rw [hu, hv] at hx ⊢
        refine ⟨u, v, rfl, ?_, fun _ => hx, by simp⟩
        obtain ⟨x, hxa⟩ := List.exists_mem_of_ne_nil a ha
        obtain ⟨r, -, h1, h2⟩ := hx x hxa
        exact h1.trans h2
      · rw [require_false _ hf] at h
        cases h
  · simp only [rawEdges] at h
    by_cases h1 : ¬ Fl.lt hi lo
    · rw [require_true _ h1, Res.ok_bind] at h
      by_cases h2 : finite lo ∧ finite hi
      · rw [require_true _ h2] at h
        cases h
        obtain ⟨⟨u, rfl⟩, ⟨v, rfl⟩⟩ := h2
        refine ⟨u, v, rfl, by simpa [Fl.lt] using h1, by simp, fun lo' hi' e => ?_⟩
        cases e
        exact ⟨rfl, rfl⟩
      · rw [require_false _ h2] at h
        cases h
    · rw [require_false _ h1] at h
      cases h

/-- what the outer edges are. -/
theorem outerEdges_ok {a : List Fl} {range : Option (Fl × Fl)} {f l : ℝ} (h : outerEdges a range = .ok (f, l)) :
    f < l ∧ (range = none → ∀ x ∈ a, ∃ r, x = .fin r ∧ f ≤ r ∧ r ≤ l) ∧
    (∀ lo hi, range = some (.fin lo, .fin hi) → f ≤ lo ∧ hi ≤ l ∧ (lo < hi → f = lo ∧ l = hi)) := by
  unfold outerEdges at h
  cases hr : rawEdges a range with
  | error e => rw [hr] at h; cases h
  | ok p =>
    rw [hr] at h
    obtain ⟨u, v, rfl, huv, hx, hlohi⟩ := rawEdges_ok hr
    obtain ⟨h1, h2, h3, h4⟩ := expand_spec huv (Except.ok.inj h)
    refine ⟨h1, fun e x hxa => ?_, fun lo hi e => ?_⟩
    · obtain ⟨r, e, h5, h6⟩ := hx e x hxa
      exact ⟨r, e, by linarith, by linarith⟩
    · obtain ⟨e1, e2⟩ := hlohi _ _ e
      cases e1
      cases e2
      exact ⟨h2, h3, h4⟩

theorem numBins_pos {f l : ℝ} (h : f < l) (a : List Fl) : 1 ≤ numBins f l a := by
  unfold numBins
  dsimp only
  split_ifs with h1 h2
  · exact le_refl _
  · have : 0 < (l - f) / binAuto (a.map Fl.val) := div_pos (by linarith) h2
    have := Int.ceil_pos.2 this
    omega
  · exact le_refl _

namespace Props

/-- What a user expects of histogram edges: `n` bins, equally wide, in increasing order. -/
structure GoodEdges (edges : List ℝ) (n : ℕ) : Prop where
  bins : 1 ≤ n
  length : edges.length = n + 1
  increasing : edges.Pairwise (· < ·)
  spacing : ∃ w, 0 < w ∧ ∀ i, i < n → edges.getD (i + 1) 0 - edges.getD i 0 = w

/-- a point lies in one of the bins. -/
def InBin (edges : List ℝ) (n : ℕ) (x : ℝ) : Prop := ∃ i, i < n ∧ edges.getD i 0 ≤ x ∧ x ≤ edges.getD (i + 1) 0

theorem linspace_getD (f l : ℝ) (n : ℕ) {i : ℕ} (h : i ≤ n) :
    (linspace f l n).getD i 0 = f + i * ((l - f) / n) := by
  have : i < n + 1 := by omega
  simp [linspace, this]

theorem linspace_good {f l : ℝ} (h : f < l) {n : ℕ} (hn : 1 ≤ n) : GoodEdges (linspace f l n) n := by
  have hn' : (0 : ℝ) < n := by exact_mod_cast hn
  have hw : 0 < (l - f) / n := div_pos (by linarith) hn'
  refine ⟨hn, by simp [linspace], ?_, (l - f) / n, hw, fun i hi => ?_⟩
  · unfold linspace
    rw [List.pairwise_map]
    refine (List.pairwise_lt_range (n := n + 1)).imp fun {a b} hab => ?_
    have : (a : ℝ) < b := by exact_mod_cast hab
    have := mul_lt_mul_of_pos_right this hw
    linarith
  · rw [linspace_getD _ _ _ (by omega), linspace_getD _ _ _ (by omega)]
    push_cast
    ring

theorem linspace_covers {f l : ℝ} (h : f < l) {n : ℕ} (hn : 1 ≤ n) {x : ℝ} (h1 : f ≤ x) (h2 : x ≤ l) :
    InBin (linspace f l n) n x := by
  have hn' : (0 : ℝ) < n := by exact_mod_cast hn
  have hw : 0 < (l - f) / n := div_pos (by linarith) hn'
  set w := (l - f) / n with hwd
  have hnw : n * w = l - f := by rw [hwd]; field_simp
  by_cases hx : x = l
  · refine ⟨n - 1, by omega, ?_, ?_⟩
    · rw [linspace_getD _ _ _ (by omega)]
      have : ((n - 1 : ℕ) : ℝ) ≤ n := by exact_mod_cast Nat.sub_le n 1
      have := mul_le_mul_of_nonneg_right this hw.le
      rw [← hwd]; linarith
    · rw [show n - 1 + 1 = n by omega, linspace_getD _ _ _ le_rfl, ← hwd]
      linarith
  · have hxl : x < l := lt_of_le_of_ne h2 hx
    have hq : 0 ≤ (x - f) / w := div_nonneg (by linarith) hw.le
    have e1 : (⌊(x - f) / w⌋₊ : ℝ) * w ≤ x - f := (le_div_iff₀ hw).1 (Nat.floor_le hq)
    have e2 : x - f < (⌊(x - f) / w⌋₊ + 1 : ℝ) * w := (div_lt_iff₀ hw).1 (Nat.lt_floor_add_one _)
    have hlt : ⌊(x - f) / w⌋₊ < n := by
      by_contra hc
      have : (n : ℝ) ≤ ⌊(x - f) / w⌋₊ := by exact_mod_cast (not_lt.1 hc)
      have := mul_le_mul_of_nonneg_right this hw.le
      linarith
    refine ⟨_, hlt, ?_, ?_⟩
    · rw [linspace_getD _ _ _ (by omega), ← hwd]; linarith
    · rw [linspace_getD _ _ _ (by omega), ← hwd]; push_cast; linarith

theorem binEdges_ok {a : List Fl} {range : Option (Fl × Fl)} {wt : Bool} {edges : List ℝ} {f l : ℝ} {n : ℕ}
    (h : binEdges a range wt = .ok (edges, f, l, n)) :
    outerEdges a range = .ok (f, l) ∧ n = numBins f l (inRange range f l a) ∧ edges = linspace f l n := by
  unfold binEdges at h
  by_cases hw : wt = false
  · rw [require_true _ hw, Res.ok_bind] at h
    cases ho : outerEdges a range with
    | error e => rw [ho] at h; cases h
    | ok p =>
      obtain ⟨f', l'⟩ := p
      rw [ho] at h
      cases h
      exact ⟨rfl, rfl, rfl⟩
  · rw [require_false _ hw] at h
    cases h

/-- **C37.** Whatever the data, the edges returned without a range are well formed and every data point lies in a bin. -/
theorem C37_covers {a : List Fl} {wt : Bool} {edges : List ℝ} {f l : ℝ} {n : ℕ}
    (h : binEdges a none wt = .ok (edges, f, l, n)) :
    GoodEdges edges n ∧ ∀ x ∈ a, ∃ r, x = .fin r ∧ InBin edges n r := by
  obtain ⟨ho, hn, rfl⟩ := binEdges_ok h
  obtain ⟨hlt, hx, -⟩ := outerEdges_ok ho
  have hn1 : 1 ≤ n := hn ▸ numBins_pos hlt _
  refine ⟨linspace_good hlt hn1, fun x hxa => ?_⟩
  obtain ⟨r, e, h1, h2⟩ := hx rfl x hxa
  exact ⟨r, e, linspace_covers hlt hn1 h1 h2⟩

/-- **C37.** With a range the edges are well formed and cover the whole range; the outermost edges are its ends, unless it is a
single point. -/
theorem C37_range {a : List Fl} {lo hi : ℝ} {wt : Bool} {edges : List ℝ} {f l : ℝ} {n : ℕ}
    (h : binEdges a (some (.fin lo, .fin hi)) wt = .ok (edges, f, l, n)) :
    GoodEdges edges n ∧ (∀ x, lo ≤ x → x ≤ hi → InBin edges n x) ∧
    (lo < hi → edges.getD 0 0 = lo ∧ edges.getD n 0 = hi) := by
  obtain ⟨ho, hn, rfl⟩ := binEdges_ok h
  obtain ⟨hlt, -, hr⟩ := outerEdges_ok ho
  obtain ⟨h1, h2, h3⟩ := hr lo hi rfl
  have hn1 : 1 ≤ n := hn ▸ numBins_pos hlt _
  refine ⟨linspace_good hlt hn1, fun x hx1 hx2 => linspace_covers hlt hn1 (by linarith) (by linarith), fun hh => ?_⟩
  obtain ⟨rfl, rfl⟩ := h3 hh
  have hn' : (n : ℝ) ≠ 0 := by exact_mod_cast (show n ≠ 0 by omega)
  rw [linspace_getD _ _ _ (Nat.zero_le _), linspace_getD _ _ _ le_rfl]
  constructor
  · simp
  · field_simp
    ring

/-- **C37.** Edges are returned exactly when the data are finite (without a range) or the range is finite and ordered, and no
weights are given; otherwise an error is raised. -/
theorem C37_defined (a : List Fl) (range : Option (Fl × Fl)) (wt : Bool) :
    (∃ r, binEdges a range wt = .ok r) ↔
      wt = false ∧ match range with
        | none => ∀ x ∈ a, ∃ r, x = .fin r
        | some (lo, hi) => ∃ u v, lo = .fin u ∧ hi = .fin v ∧ u ≤ v := by
  constructor
  · rintro ⟨⟨edges, f, l, n⟩, h⟩
    have hw : wt = false := by
      by_contra hc
      unfold binEdges at h
      rw [require_false _ hc] at h
      cases h
    refine ⟨hw, ?_⟩
    cases range with
    | none => exact fun x hx => ((C37_covers h).2 x hx).imp fun r hr => hr.1
    | some p =>
      obtain ⟨lo, hi⟩ := p
      have ho := (binEdges_ok h).1
      unfold outerEdges at ho
      cases hr : rawEdges a (some (lo, hi)) with
      | error e => rw [hr] at ho; cases ho
      | ok p =>
        obtain ⟨u, v, rfl, huv, -, he⟩ := rawEdges_ok hr
        obtain ⟨rfl, rfl⟩ := he _ _ rfl
        exact ⟨u, v, rfl, rfl, huv⟩
  · rintro ⟨rfl, h⟩
    have ho : ∃ p, outerEdges a range = .ok p := by
      have hr : ∃ p, rawEdges a range = .ok p := by
        unfold rawEdges
        cases range with
        | none =>
          dsimp only at h ⊢
          by_cases ha : a = []
          · rw [if_pos ha]; exact ⟨_, rfl⟩
          · rw [if_neg ha, require_true _ (show finite _ ∧ finite _ from minOf_of_fin a ha h)]; exact ⟨_, rfl⟩
        | some p =>
          obtain ⟨lo, hi⟩ := p
          obtain ⟨u, v, rfl, rfl, huv⟩ := h
          dsimp only
          rw [require_true _ (by simpa [Fl.lt] using huv), Res.ok_bind, require_true _ ⟨⟨u, rfl⟩, ⟨v, rfl⟩⟩]
          exact ⟨_, rfl⟩
      obtain ⟨p, hr⟩ := hr
      exact ⟨_, by unfold outerEdges; rw [hr]; rfl⟩
    obtain ⟨⟨f, l⟩, ho⟩ := ho
    unfold binEdges
    rw [require_true _ rfl, Res.ok_bind, ho]
    exact ⟨_, rfl⟩

/-- the hypothesis of `C37_covers` is met by ordinary data. -/
example : ∃ r, binEdges [.fin 3, .fin (-1), .fin 2.5, .fin 7] = .ok r :=
  (C37_defined _ _ _).2 ⟨rfl, by simp⟩

/-- data without spread get one bin of width one around them. -/
example : binEdges [.fin 3, .fin 3] = .ok ([5/2, 7/2], 5/2, 7/2, 1) := by
  have e : outerEdges [.fin 3, .fin 3] none = .ok (5/2, 7/2) := by
    unfold outerEdges rawEdges
    dsimp only
    rw [if_neg (by simp), require_true _ (show finite _ ∧ finite _ from
      minOf_of_fin [.fin 3, .fin 3] (by simp) (by simp))]
    show Except.ok (expandEdges _) = _
    simp [expandEdges, minOf, maxOf, Fl.min2, Fl.max2', Fl.lt, Fl.val]
    norm_num
  have hp : ptp ([Fl.fin 3, Fl.fin 3].map Fl.val) = 0 := by
    simp [ptp, minOf, maxOf, Fl.min2, Fl.max2', Fl.lt, Fl.val]
  have hq : binFd ([Fl.fin 3, Fl.fin 3].map Fl.val) = 0 := by
    have hs : ([(3 : ℝ), 3].mergeSort fun a b => decide (a ≤ b)) = [3, 3] := by
      rw [List.mergeSort_of_pairwise (by simp)]
    have h1 : quantile [(3 : ℝ), 3] (3/4) = 3 := by
      unfold quantile
      rw [hs]
      have e1 : ⌊(3/4 : ℝ)⌋₊ = 0 := Nat.floor_eq_zero.2 (by norm_num)
      have e2 : ⌈(3/4 : ℝ)⌉₊ = 1 := (Nat.ceil_eq_iff (by norm_num)).2 (by norm_num)
      have e3 : (3/4 : ℝ) * (([3, 3] : List ℝ).length - 1) = 3/4 := by norm_num
      simp only [e3, e1, e2]
      norm_num
    have h2 : quantile [(3 : ℝ), 3] (1/4) = 3 := by
      unfold quantile
      rw [hs]
      have e1 : ⌊(1/4 : ℝ)⌋₊ = 0 := Nat.floor_eq_zero.2 (by norm_num)
      have e2 : ⌈(1/4 : ℝ)⌉₊ = 1 := (Nat.ceil_eq_iff (by norm_num)).2 (by norm_num)
      have e3 : (1/4 : ℝ) * (([3, 3] : List ℝ).length - 1) = 1/4 := by norm_num
      simp only [e3, e1, e2]
      norm_num
    simp only [binFd, List.map_cons, List.map_nil, Fl.val, h1, h2]
    simp
  unfold binEdges
  rw [require_true _ rfl, Res.ok_bind, e]
  have hn : numBins (5/2) (7/2) (inRange none (5/2) (7/2) [.fin 3, .fin 3]) = 1 := by
    unfold numBins inRange binAuto binSturges
    rw [hp, hq]
    simp
  show Except.ok _ = _
  rw [hn]
  simp [linspace, List.range_succ]

end Props
end Einet
