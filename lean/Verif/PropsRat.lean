import Verif.BuildWF
import Verif.Quantise

/-!
# C39: projected `RatNormal` parameters respect their bounds

`LeafSpec.build` of a `ratNormal` models the constructor, `ratProject` the parameters that `get_params` reports and that the
base distribution receives; `IsNormal` ties them to the density of the component.
-/

open Classical
noncomputable section
namespace Einet

/-- `check_valid(x, float, lower, upper)` for a float and optional float bounds: a bound that is zero is not looked at. -/
theorem checkFloat_iff (x : ℝ) (lo hi : Option ℝ) (allow : Bool) :
    (∃ w, checkValid (.float (.fin x)) .float (optBound lo) (optBound hi) allow = .ok w) ↔
      (∀ l, lo = some l → l ≠ 0 → l ≤ x) ∧ (∀ h, hi = some h → h ≠ 0 → x < h) := by
  have hge : ∀ l : ℝ, flGe (.fin x) (.fin l) ↔ l ≤ x := fun l => by
    simp only [flGe, Fl.lt, Fl.fin.injEq]
    constructor
    · rintro (h | ⟨h, -⟩) <;> linarith
    · intro h
      rcases h.lt_or_eq with h | h
      · exact Or.inl h
      · exact Or.inr ⟨h.symm, by simp⟩
  have hb : ∀ (cmp : Fl → Fl → Prop) (b : Option ℝ), checkBound cmp (.float (.fin x)) .float (optBound b) =
      require .value (∀ l, b = some l → l ≠ 0 → cmp (.fin x) (.fin l)) := by
    intro cmp b
    cases b with
    | none => rw [require_true _ (by simp)]; rfl
    | some l =>
      by_cases h0 : l = 0
      · subst h0
        rw [require_true _ (by simp)]
        simp [optBound, checkBound, truthy, Num.val]
      · simp [optBound, checkBound, truthy, Num.val, h0, Num.cast, PyVal.scalar]
  have hb1 := hb flGe lo
  have hb2 := hb Fl.lt hi
  simp only [hge] at hb1
  have e : checkValid (.float (.fin x)) .float (optBound lo) (optBound hi) allow = (do
      require .value (∀ l, lo = some l → l ≠ 0 → l ≤ x)
      require .value (∀ l, hi = some l → l ≠ 0 → x < l)
      return some (.float (.fin x))) := by
    simp only [checkValid, checkType, checkBounds, hb1, hb2, PyVal.scalar, Num.cast, Num.val, Res.ok_bind]
    by_cases h1 : ∀ l, lo = some l → l ≠ 0 → l ≤ x
    · rw [require_true _ h1]
      simp only [Res.ok_bind]
      rfl
    · rw [require_false _ h1]
      rfl
  rw [e]
  by_cases h1 : ∀ l, lo = some l → l ≠ 0 → l ≤ x
  · rw [require_true _ h1, Res.ok_bind]
    by_cases h2 : ∀ l, hi = some l → l ≠ 0 → x < l
    · rw [require_true _ h2]
      exact ⟨fun _ => ⟨h1, h2⟩, fun _ => ⟨_, rfl⟩⟩
    · rw [require_false _ h2]
      exact ⟨fun ⟨_, h⟩ => (nomatch h), fun h => absurd h.2 h2⟩
  · rw [require_false _ h1]
    exact ⟨fun ⟨_, h⟩ => (nomatch h), fun h => absurd h.1 h1⟩

namespace Props

/-- the component of channel `c`, feature `f`, leaf `i` and repetition `r` is a normal density with this mean and standard
deviation, and the mean is its mode. -/
def IsNormal (B : BaseLeaf) (c f i r : Nat) (mean std : ℝ) : Prop :=
  B.mode c f i r = mean ∧ ∀ x : ℝ, B.logProb c f i r (.fin x) =
    .fin (-((x - mean) ^ 2) / (2 * std ^ 2) - Real.log std - Real.log √(2 * Real.pi))

/-- `get_params` reports mean `m` and standard deviation `s` for the component, and its density is the normal density with these
(normal.py:93-114). -/
def HasParams (lo hi : ℝ) (mlo mhi : Option ℝ) (means stds : Par) (B : BaseLeaf) (c f i r : Nat) (m s : ℝ) : Prop :=
  ratProject lo hi mlo mhi (means c f i r) (stds c f i r) = .ok (m, s) ∧ IsNormal B c f i r m s

/-- what the constructor accepts: bounds that are zero are not compared. -/
def RatAccepted (lo hi : ℝ) (mlo mhi : Option ℝ) : Prop :=
  (hi ≠ 0 → lo < hi) ∧ (lo ≠ 0 → lo ≤ hi) ∧
  (∀ a b, mlo = some a → mhi = some b → b ≠ 0 → a < b) ∧ (∀ a b, mlo = some a → mhi = some b → a ≠ 0 → a ≤ b) ∧
  (∀ b, mhi = some b → b ≠ 0 → mlo ≠ none)

theorem rat_build {lo hi : ℝ} {mlo mhi : Option ℝ} {means stds : Par} {card : Option ℤ} {d : LeafDims} {B : BaseLeaf}
    (h : (LeafSpec.ratNormal lo hi mlo mhi means stds).build card d = .ok B) :
    RatAccepted lo hi mlo mhi ∧ ∀ c f i r, ∃ m s, HasParams lo hi mlo mhi means stds B c f i r m s := by
  unfold LeafSpec.build at h
  obtain ⟨_, _, h⟩ := bind_ok h
  dsimp only at h
  obtain ⟨_, h1, h⟩ := bind_ok h
  obtain ⟨_, h2, h⟩ := bind_ok h
  obtain ⟨_, h3, h⟩ := bind_ok h
  obtain ⟨_, h4, h⟩ := bind_ok h
  obtain ⟨_, h5, h⟩ := bind_ok h
  have h5 : ∀ hi, mhi = some hi → hi ≠ 0 → mlo ≠ none := by
    by_contra hc
    rw [require_false _ hc] at h5
    cases h5
  have a1 := (checkFloat_iff lo (some 0) (some hi) false).1 ⟨_, h1⟩
  have a2 := (checkFloat_iff hi (some lo) none false).1 ⟨_, h2⟩
  refine ⟨⟨fun h => a1.2 hi rfl h, fun h => a2.1 lo rfl h, fun a b ea eb hb => ?_, fun a b ea eb ha => ?_, h5⟩,
    fun c f i r => ?_⟩
  · subst ea; subst eb
    exact ((checkFloat_iff a none (some b) true).1 ⟨_, h3⟩).2 b rfl hb
  · subst ea; subst eb
    exact ((checkFloat_iff b (some a) none true).1 ⟨_, h4⟩).1 a rfl ha
  · simp only [Res.pure_eq, Except.ok.injEq] at h
    have hp : ∃ p, ratProject lo hi mlo mhi (means c f i r) (stds c f i r) = .ok p := by
      unfold ratProject
      cases mhi with
      | none => exact ⟨_, rfl⟩
      | some b =>
        by_cases hb : b = 0
        · simp only [if_pos hb]; exact ⟨_, rfl⟩
        · cases mlo with
          | none => exact absurd rfl (h5 b rfl hb)
          | some a => simp only [if_neg hb]; exact ⟨_, rfl⟩
    obtain ⟨⟨m, s⟩, hp⟩ := hp
    refine ⟨m, s, hp, ?_, fun x => ?_⟩
    · rw [← h]; simp [gaussLeaf, hp]
    · rw [← h]; simp [gaussLeaf, hp, normalLogProb]

/-- the constructor accepts a bound pair iff `RatAccepted`. -/
theorem rat_accepts {lo hi : ℝ} {mlo mhi : Option ℝ} (means stds : Par) (d : LeafDims) (h : RatAccepted lo hi mlo mhi) :
    ∃ B, (LeafSpec.ratNormal lo hi mlo mhi means stds).build none d = .ok B := by
  obtain ⟨h1, h2, h3, h4, h5⟩ := h
  obtain ⟨w1, e1⟩ := (checkFloat_iff lo (some 0) (some hi) false).2
    ⟨fun l e hl => by cases e; exact absurd rfl hl, fun b e hb => by cases e; exact h1 hb⟩
  obtain ⟨w2, e2⟩ := (checkFloat_iff hi (some lo) none false).2
    ⟨fun l e hl => by cases e; exact h2 hl, fun b e _ => (nomatch e)⟩
  have e3 : ∃ w, checkValid (optReal mlo) .float none (optBound mhi) true = .ok w := by
    cases mlo with
    | none => exact ⟨_, rfl⟩
    | some a =>
      exact (checkFloat_iff a none mhi true).2 ⟨fun l e _ => (nomatch e), fun b e hb => h3 a b rfl e hb⟩
  have e4 : ∃ w, checkValid (optReal mhi) .float (optBound mlo) none true = .ok w := by
    cases mhi with
    | none => exact ⟨_, rfl⟩
    | some b => exact (checkFloat_iff b mlo none true).2 ⟨fun a e ha => h4 a b e rfl ha, fun b e _ => (nomatch e)⟩
  obtain ⟨w3, e3⟩ := e3
  obtain ⟨w4, e4⟩ := e4
  unfold LeafSpec.build
  rw [require_true _ rfl, Res.ok_bind]
  dsimp only
  have e1' : checkValid (optReal (some lo)) .float (some (.float (.fin 0))) (optBound (some hi)) = .ok w1 := e1
  have e2' : checkValid (optReal (some hi)) .float (optBound (some lo)) = .ok w2 := e2
  rw [e1', Res.ok_bind, e2', Res.ok_bind, e3, Res.ok_bind, e4, Res.ok_bind, require_true _ h5, Res.ok_bind]
  exact ⟨_, rfl⟩

/-- **C39**, standard deviation: for every raw parameter and all accepted bounds that are not both zero, it lies strictly
between them. -/
theorem C39_std_partial {lo hi : ℝ} {mlo mhi : Option ℝ} {means stds : Par} {card : Option ℤ} {d : LeafDims} {B : BaseLeaf}
    (h : (LeafSpec.ratNormal lo hi mlo mhi means stds).build card d = .ok B) (hz : lo ≠ 0 ∨ hi ≠ 0) (c f i r : Nat) :
    ∃ m s, HasParams lo hi mlo mhi means stds B c f i r m s ∧ lo < s ∧ s < hi := by
  obtain ⟨⟨h1, h2, -⟩, hB⟩ := rat_build h
  obtain ⟨m, s, hp, hN⟩ := hB c f i r
  refine ⟨m, s, ⟨hp, hN⟩, ?_⟩
  have hlt : lo < hi := by
    by_cases h0 : hi = 0
    · have hl : lo ≠ 0 := by simpa [h0] using hz
      exact lt_of_le_of_ne (h2 hl) (by rw [h0]; exact hl)
    · exact h1 h0
  have hs : s = lo + (hi - lo) * Real.sigmoid (stds c f i r) := by
    unfold ratProject at hp
    simp only [if_pos hlt] at hp
    split at hp
    · cases hp; rfl
    · split_ifs at hp
      · cases hp; rfl
      · split at hp
        · cases hp
        · cases hp; rfl
  have p1 := Real.sigmoid_pos (stds c f i r)
  have p2 := Real.sigmoid_lt_one (stds c f i r)
  rw [hs]
  constructor
  · have := mul_pos (sub_pos.2 hlt) p1
    linarith
  · have := mul_lt_mul_of_pos_left p2 (sub_pos.2 hlt)
    linarith

/-- **C39**, positivity: with a lower bound that is not negative and a positive upper bound the standard deviation is positive. -/
theorem C39_positive_partial {lo hi : ℝ} {mlo mhi : Option ℝ} {means stds : Par} {card : Option ℤ} {d : LeafDims}
    {B : BaseLeaf} (h : (LeafSpec.ratNormal lo hi mlo mhi means stds).build card d = .ok B) (h0 : 0 ≤ lo) (h1 : 0 < hi)
    (c f i r : Nat) : ∃ m s, HasParams lo hi mlo mhi means stds B c f i r m s ∧ 0 < s ∧ lo < s ∧ s < hi := by
  obtain ⟨m, s, hN, h2, h3⟩ := C39_std_partial h (Or.inr h1.ne') c f i r
  exact ⟨m, s, hN, lt_of_le_of_lt h0 h2, h2, h3⟩

/-- **C39**, mean: with both bounds given and an upper bound that is not zero, the mean lies strictly between them. -/
theorem C39_mean_partial {lo hi a b : ℝ} {means stds : Par} {card : Option ℤ} {d : LeafDims} {B : BaseLeaf}
    (h : (LeafSpec.ratNormal lo hi (some a) (some b) means stds).build card d = .ok B) (hb : b ≠ 0) (c f i r : Nat) :
    ∃ m s, HasParams lo hi (some a) (some b) means stds B c f i r m s ∧ a < m ∧ m < b := by
  obtain ⟨⟨-, -, h3, -⟩, hB⟩ := rat_build h
  obtain ⟨m, s, hp, hN⟩ := hB c f i r
  refine ⟨m, s, ⟨hp, hN⟩, ?_⟩
  have hlt := h3 a b rfl rfl hb
  unfold ratProject at hp
  simp only [if_neg hb] at hp
  cases hp
  have p1 := Real.sigmoid_pos (means c f i r)
  have p2 := Real.sigmoid_lt_one (means c f i r)
  have := mul_pos p1 (sub_pos.2 hlt)
  have := mul_lt_mul_of_pos_right p2 (sub_pos.2 hlt)
  constructor <;> linarith

/-- **C39**: an upper bound for the mean without a lower bound is refused. -/
theorem C39_upper_alone {lo hi b : ℝ} (means stds : Par) (card : Option ℤ) (d : LeafDims) (hb : b ≠ 0) (B : BaseLeaf) :
    (LeafSpec.ratNormal lo hi none (some b) means stds).build card d ≠ .ok B := fun h =>
  (rat_build h).1.2.2.2.2 b rfl hb rfl

/-- **C39** for the leaves that `get_distribution` selects under the name `normal_rat`: positive bounds in increasing order are
accepted, and the standard deviation lies between them. -/
theorem C39_named (n : ℕ) {lo hi : ℝ} (h0 : 0 < lo) (h1 : lo < hi) (p q : Par) (lg : Nat → Nat → Nat → Nat → Nat → ℝ)
    (d : LeafDims) : ∃ B, (getDistribution n lo hi p q lg .normalRat).build none d = .ok B ∧
      ∀ c f i r, ∃ m s, HasParams lo hi none none p q B c f i r m s ∧ lo < s ∧ s < hi := by
  obtain ⟨B, hB⟩ := rat_accepts (lo := lo) (hi := hi) (mlo := none) (mhi := none) p q d
    ⟨fun _ => h1, fun _ => h1.le, fun a b ea => (nomatch ea), fun a b ea => (nomatch ea), fun b e => (nomatch e)⟩
  exact ⟨B, hB, fun c f i r => C39_std_partial hB (Or.inl h0.ne') c f i r⟩

/-- **C39** is false of the code for an upper bound 0 of the mean: it is not applied, the mean is the raw parameter. -/
theorem C39_refuted_mean_zero (means stds : Par) (d : LeafDims) :
    ∃ B, (LeafSpec.ratNormal (1/10) 1 (some (-1)) (some 0) means stds).build none d = .ok B ∧
      ∀ c f i r, B.mode c f i r = means c f i r := by
  obtain ⟨B, hB⟩ := rat_accepts (lo := 1/10) (hi := 1) (mlo := some (-1)) (mhi := some 0) means stds d
    ⟨fun _ => by norm_num, fun _ => by norm_num, fun a b ea eb hb => by cases eb; exact absurd rfl hb,
      fun a b ea eb _ => by cases ea; cases eb; norm_num, fun b e hb => by cases e; exact absurd rfl hb⟩
  refine ⟨B, hB, fun c f i r => ?_⟩
  obtain ⟨m, s, hp, hN, -⟩ := (rat_build hB).2 c f i r
  rw [hN]
  simp [ratProject] at hp
  exact hp.1.symm

/-- **C39** is false of the code for a lower bound of the mean alone: it is accepted and not applied. -/
theorem C39_refuted_lower_alone (means stds : Par) (d : LeafDims) (a : ℝ) :
    ∃ B, (LeafSpec.ratNormal (1/10) 1 (some a) none means stds).build none d = .ok B ∧
      ∀ c f i r, B.mode c f i r = means c f i r := by
  obtain ⟨B, hB⟩ := rat_accepts (lo := 1/10) (hi := 1) (mlo := some a) (mhi := none) means stds d
    ⟨fun _ => by norm_num, fun _ => by norm_num, fun a b ea eb => (nomatch eb),
      fun a b ea eb => (nomatch eb), fun b e => (nomatch e)⟩
  refine ⟨B, hB, fun c f i r => ?_⟩
  obtain ⟨m, s, hp, hN, -⟩ := (rat_build hB).2 c f i r
  rw [hN]
  simp [ratProject] at hp
  exact hp.1.symm

/-- **C39** is false of the code for negative bounds: they are accepted (the lower bound 0 passed to `check_valid` counts as
absent), and every standard deviation is negative. -/
theorem C39_refuted_negative (means stds : Par) (d : LeafDims) :
    ∃ B, (LeafSpec.ratNormal (-1) (-1/2) none none means stds).build none d = .ok B ∧
      ∀ c f i r, ∃ m s, HasParams (-1) (-1/2) none none means stds B c f i r m s ∧ s < 0 := by
  obtain ⟨B, hB⟩ := rat_accepts (lo := -1) (hi := -1/2) (mlo := none) (mhi := none) means stds d
    ⟨fun _ => by norm_num, fun _ => by norm_num, fun a b ea => (nomatch ea), fun a b ea => (nomatch ea), fun b e => (nomatch e)⟩
  refine ⟨B, hB, fun c f i r => ?_⟩
  obtain ⟨m, s, hN, h1, h2⟩ := C39_std_partial hB (Or.inl (by norm_num)) c f i r
  exact ⟨m, s, hN, by linarith⟩

/-- **C39** is false of the code for the bounds (0, 0): they are accepted, and the standard deviation is 1. -/
theorem C39_refuted_zero (means stds : Par) (d : LeafDims) :
    ∃ B, (LeafSpec.ratNormal 0 0 none none means stds).build none d = .ok B ∧
      ∀ c f i r, ∃ m, HasParams 0 0 none none means stds B c f i r m 1 := by
  obtain ⟨B, hB⟩ := rat_accepts (lo := 0) (hi := 0) (mlo := none) (mhi := none) means stds d
    ⟨fun h => absurd rfl h, fun h => absurd rfl h, fun a b ea => (nomatch ea), fun a b ea => (nomatch ea), fun b e => (nomatch e)⟩
  refine ⟨B, hB, fun c f i r => ?_⟩
  obtain ⟨m, s, hp, hN⟩ := (rat_build hB).2 c f i r
  have hs : s = 1 := by
    simp [ratProject] at hp
    exact hp.2.symm
  subst hs
  exact ⟨m, hp, hN⟩

/-- the hypotheses of the bounds theorems are met, with all four bounds given. -/
example : ∃ B, (LeafSpec.ratNormal (1/10) 1 (some (-2)) (some 3) (fun _ _ _ _ => 40) (fun _ _ _ _ => -7)).build none
    ⟨5, 2, 3, 4⟩ = .ok B :=
  rat_accepts _ _ _ ⟨fun _ => by norm_num, fun _ => by norm_num, fun a b ea eb _ => by cases ea; cases eb; norm_num,
    fun a b ea eb _ => by cases ea; cases eb; norm_num, fun b e _ => by simp⟩

end Props
end Einet
