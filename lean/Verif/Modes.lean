import Verif.PropsDensity

/-!
# Modes of the leaf distributions: C31
-/

open Classical MeasureTheory
noncomputable section
namespace Einet

/-! ### Lemmas -/

theorem argmaxR_max (f : Nat → ℝ) {n : Nat} (hn : 0 < n) : argmaxR f n < n ∧ ∀ k, k < n → f k ≤ f (argmaxR f n) := by
  induction n with
  | zero => omega
  | succ n ih =>
    unfold argmaxR
    split_ifs with h0 hlt
    · subst h0
      exact ⟨by omega, fun k hk => by rw [show k = 0 by omega]⟩
    · obtain ⟨h1, h2⟩ := ih (by omega)
      refine ⟨by omega, fun k hk => ?_⟩
      by_cases hkn : k = n
      · rw [hkn]
      · exact (h2 k (by omega)).trans hlt.le
    · obtain ⟨h1, h2⟩ := ih (by omega)
      refine ⟨by omega, fun k hk => ?_⟩
      by_cases hkn : k = n
      · rw [hkn]; exact not_lt.1 hlt
      · exact h2 k (by omega)

/-- ratio of consecutive binomial masses. -/
theorem binomialPmf_succ (n : Nat) {p : ℝ} (k : Nat) (hk : k < n) :
    binomialPmf n p (k + 1) * ((k + 1) * (1 - p)) = binomialPmf n p k * ((n - k) * p) := by
  unfold binomialPmf
  have h1 : ((n.choose (k + 1) : ℕ) : ℝ) * (k + 1) = (n.choose k : ℕ) * (n - k) := by
    have := Nat.choose_succ_right_eq n k
    have h2 : ((n - k : ℕ) : ℝ) = n - k := by rw [Nat.cast_sub hk.le]
    rw [← h2]
    exact_mod_cast this
  have h3 : (1 - p) ^ (n - k) = (1 - p) ^ (n - (k + 1)) * (1 - p) := by
    rw [← pow_succ]; congr 1; omega
  rw [h3, pow_succ]
  linear_combination (p ^ k * p * (1 - p) ^ (n - (k + 1)) * (1 - p)) * h1

theorem binomialPmf_mode (n : Nat) {p : ℝ} (h0 : 0 < p) (h1 : p < 1) :
    ⌊p * (n + 1)⌋₊ ≤ n ∧ ∀ k, k ≤ n → binomialPmf n p k ≤ binomialPmf n p ⌊p * (n + 1)⌋₊ := by
  have hq : 0 < 1 - p := by linarith
  have hpos : 0 ≤ p * ((n : ℝ) + 1) := by positivity
  have hm : ⌊p * ((n : ℝ) + 1)⌋₊ ≤ n := by
    have : ⌊p * ((n : ℝ) + 1)⌋₊ < n + 1 := by
      rw [Nat.floor_lt hpos]
      push_cast
      nlinarith
    omega
  set m := ⌊p * ((n : ℝ) + 1)⌋₊ with hmdef
  have up : ∀ k, k < m → binomialPmf n p k ≤ binomialPmf n p (k + 1) := by
    intro k hk
    have hkn : k < n := by omega
    have h2 : ((k + 1 : ℕ) : ℝ) ≤ p * (n + 1) := (Nat.le_floor_iff hpos).1 (by omega)
    push_cast at h2
    have h3 := binomialPmf_succ n (p := p) k hkn
    have h4 := binomialPmf_pos h0 hq (show k < n + 1 by omega)
    have h5 : ((k : ℝ) + 1) * (1 - p) ≤ (n - k) * p := by nlinarith
    have h6 : 0 < ((k : ℝ) + 1) * (1 - p) := by positivity
    have h7 : binomialPmf n p k * (((k : ℝ) + 1) * (1 - p)) ≤ binomialPmf n p (k + 1) * (((k : ℝ) + 1) * (1 - p)) := by
      rw [h3]; exact mul_le_mul_of_nonneg_left h5 h4.le
    exact le_of_mul_le_mul_right h7 h6
  have down : ∀ k, m ≤ k → k < n → binomialPmf n p (k + 1) ≤ binomialPmf n p k := by
    intro k hk hkn
    have h2 : p * (n + 1) < ((k + 1 : ℕ) : ℝ) := (Nat.floor_lt hpos).1 (by omega)
    push_cast at h2
    have h3 := binomialPmf_succ n (p := p) k hkn
    have h4 := binomialPmf_pos h0 hq (show k < n + 1 by omega)
    have h5 : ((n : ℝ) - k) * p ≤ (k + 1) * (1 - p) := by nlinarith
    have h6 : 0 < ((k : ℝ) + 1) * (1 - p) := by positivity
    have h7 : binomialPmf n p (k + 1) * (((k : ℝ) + 1) * (1 - p)) ≤ binomialPmf n p k * (((k : ℝ) + 1) * (1 - p)) := by
      rw [h3]; exact mul_le_mul_of_nonneg_left h5 h4.le
    exact le_of_mul_le_mul_right h7 h6
  refine ⟨hm, fun k hk => ?_⟩
  rcases le_total k m with hkm | hkm
  · exact (Nat.le_induction (P := fun i _ => i ≤ m → binomialPmf n p k ≤ binomialPmf n p i) (fun _ => le_rfl)
      (fun i hi ihi hlt => (ihi (by omega)).trans (up i (by omega))) m hkm) le_rfl
  · exact (Nat.le_induction (fun _ => le_rfl) (fun i hi ihi hlt => (down i hi (by omega)).trans (ihi (by omega))) k hkm :
      k ≤ n → binomialPmf n p k ≤ binomialPmf n p m) hk

/-- the mode of the leaf is in the support and maximises the density. -/
def BaseLeaf.ModeOK (B : BaseLeaf) : Prop := ∀ c f i r, B.valid f (.fin (B.mode c f i r)) ∧
  ∀ x, B.valid f (.fin x) → ∃ a b : ℝ, B.logProb c f i r (.fin x) = .fin a ∧
    B.logProb c f i r (.fin (B.mode c f i r)) = .fin b ∧ a ≤ b

theorem gaussLeaf_mode (d : LeafDims) (mu : Par) {sigma : Par} (hs : ∀ c f i r, 0 < sigma c f i r) :
    (gaussLeaf d mu sigma).ModeOK := by
  intro c f i r
  refine ⟨by simp [gaussLeaf], fun x _ => ⟨_, _, rfl, rfl, ?_⟩⟩
  have h := hs c f i r
  have : 0 ≤ (x - mu c f i r) ^ 2 / (2 * sigma c f i r ^ 2) := by positivity
  simp only [gaussLeaf, sub_self, neg_div]
  simp
  exact this

theorem massLeaf_mode {d : LeafDims} {K : Nat} {pmf : Nat → Nat → Nat → Nat → Nat → ℝ}
    {tempered : ℝ → Nat → Nat → Nat → Nat → Nat → ℝ} {mode : Nat → Nat → Nat → Nat → Nat} {b : Bool}
    (hp : ∀ c f i r k, k < K → 0 < pmf c f i r k)
    (hm : ∀ c f i r, mode c f i r < K ∧ ∀ k, k < K → pmf c f i r k ≤ pmf c f i r (mode c f i r)) :
    (massLeaf d K pmf tempered mode b).ModeOK := by
  have hl : ∀ c f i r k, k < K → (massLeaf d K pmf tempered mode b).logProb c f i r (.fin (k : ℝ)) =
      .fin (Real.log (pmf c f i r k)) := by
    intro c f i r k hk
    show Fl.log (.fin (pmf c f i r ⌊(k : ℝ)⌋₊)) = _
    rw [Nat.floor_natCast, Fl.log_fin (hp c f i r k hk)]
  intro c f i r
  obtain ⟨h1, h2⟩ := hm c f i r
  refine ⟨⟨_, h1, rfl⟩, ?_⟩
  rintro x ⟨k, hk, e⟩
  obtain rfl : x = (k : ℝ) := by simpa using e
  exact ⟨_, _, hl c f i r k hk, hl c f i r _ h1, Real.log_le_log (hp _ _ _ _ _ hk) (h2 k hk)⟩

theorem LeafSpec.mode_ok {s : LeafSpec} (hg : s.Good) {card : Option ℤ} {d : LeafDims} {B : BaseLeaf}
    (h : s.build card d = .ok B) : B.ModeOK := by
  unfold LeafSpec.build at h
  obtain ⟨_, _, h⟩ := bind_ok h
  cases s with
  | normal means logvar =>
    simp only [Res.pure_eq, Except.ok.injEq] at h
    subst h
    exact gaussLeaf_mode _ _ fun _ _ _ _ => Real.exp_pos _
  | ratNormal lo hi mlo mhi means stds =>
    obtain ⟨_, h1, h⟩ := bind_ok h
    obtain ⟨_, _, h⟩ := bind_ok h
    obtain ⟨_, _, h⟩ := bind_ok h
    obtain ⟨_, _, h⟩ := bind_ok h
    obtain ⟨_, _, h⟩ := bind_ok h
    simp only [Res.pure_eq, Except.ok.injEq] at h
    subst h
    refine gaussLeaf_mode _ _ fun c f i r => ?_
    obtain ⟨g1, g2⟩ := hg
    cases e : ratProject lo hi mlo mhi (means c f i r) (stds c f i r) with
    | error e' => exact one_pos
    | ok p => exact ratProject_sigma e g1 (checkSigma g2.ne' h1)
  | binomial n l =>
    obtain ⟨_, _, h⟩ := bind_ok h
    simp only [Res.pure_eq, Except.ok.injEq] at h
    subst h
    show (binomialMass d n.toNat l).ModeOK
    refine massLeaf_mode (fun c f i r k hk => binomialPmf_pos (Real.sigmoid_pos _) (sub_pos.2 (Real.sigmoid_lt_one _)) hk)
      fun c f i r => ?_
    obtain ⟨h1, h2⟩ := binomialPmf_mode n.toNat (p := Real.sigmoid (l c f i r)) (Real.sigmoid_pos _) (Real.sigmoid_lt_one _)
    exact ⟨by omega, fun k hk => h2 k (by omega)⟩
  | bernoulli p =>
    simp only [Res.pure_eq, Except.ok.injEq] at h
    subst h
    have h0 := fun c f i r => Real.sigmoid_pos (p c f i r)
    have h1 := fun c f i r => Real.sigmoid_lt_one (p c f i r)
    refine massLeaf_mode (fun c f i r k hk => ?_) fun c f i r => ⟨by split_ifs <;> omega, fun k hk => ?_⟩
    · have := h0 c f i r; have := h1 c f i r
      split_ifs <;> linarith
    · have h2 : k = 0 ∨ k = 1 := by omega
      rcases h2 with rfl | rfl <;> split_ifs <;> first | linarith | simp_all
  | categorical n l =>
    obtain ⟨_, _, h⟩ := bind_ok h
    simp only [Res.pure_eq, Except.ok.injEq] at h
    subst h
    have hn : 0 < n.toNat := by have : 1 ≤ n := hg; omega
    exact massLeaf_mode (fun c f i r k hk => softmaxR_pos _ hk) fun c f i r => argmaxR_max _ hn

end Einet
