import Verif.TypeChecks

/-!
# Properties C26 and C27: validation of values and configurations
-/

open Classical
noncomputable section
namespace Einet.Props

/-- Specification: `v` is a scalar of the requested type (a Python, numpy or one-element torch number) with value `x`. -/
inductive IsScalar : PyVal → PyType → Num → Prop
  | int (z : ℤ) : IsScalar (.int z) .int (.int z)
  | npInt (z : ℤ) : IsScalar (.npInt z) .int (.int z)
  | tensorInt (z : ℤ) : IsScalar (.tensor false [.int z]) .int (.int z)
  | float (f : Fl) : IsScalar (.float f) .float (.float f)
  | npFloat (f : Fl) : IsScalar (.npFloat f) .float (.float f)
  | tensorFloat (f : Fl) : IsScalar (.tensor true [.float f]) .float (.float f)

/-- Specification: `lo <= x`, with IEEE comparison (NaN is not comparable). -/
def LeF : Fl → Fl → Prop
  | .fin a, .fin b => a ≤ b
  | .ninf, .fin _ => True
  | .fin _, .pinf => True
  | .ninf, .pinf => True
  | .ninf, .ninf => True
  | .pinf, .pinf => True
  | _, _ => False

/-- Specification: `x < hi`. -/
def LtF : Fl → Fl → Prop
  | .fin a, .fin b => a < b
  | .ninf, .fin _ => True
  | .fin _, .pinf => True
  | .ninf, .pinf => True
  | _, _ => False

/-- bounds of the type of the value that are not zero: the ones the code really checks. -/
def GoodBound : PyType → Option Num → Prop
  | _, none => True
  | .int, some (.int z) => z ≠ 0
  | .float, some x => x.val ≠ .fin 0
  | .int, some (.float _) => False

/-- a tensor of integer (boolean) dtype holds integers, a tensor of floating dtype floats. -/
def WellTyped : PyVal → Prop
  | .tensor fl vals => ∀ x ∈ vals, if fl then (∃ f, x = Num.float f) else ∃ z, x = Num.int z
  | _ => True

theorem leF_iff (a b : Fl) : LeF a b ↔ flGe b a := by
  cases a <;> cases b <;> simp [LeF, flGe, Fl.lt, le_iff_lt_or_eq, eq_comm]

theorem ltF_iff (a b : Fl) : LtF a b ↔ Fl.lt a b := by
  cases a <;> cases b <;> simp [LtF, Fl.lt]

theorem bounds_ok {v : PyVal} {t : PyType} {x : Num} (hx : v.scalar = .ok x) {lo hi : Option Num}
    (hlo : GoodBound t lo) (hhi : GoodBound t hi) :
    checkBounds v t lo hi = .ok () ↔
      (∀ l, lo = some l → LeF l.val x.val) ∧ (∀ h, hi = some h → LtF x.val h.val) := by
  have cast : ∀ b, GoodBound t (some b) → truthy (some b) ∧ ∃ b', b.cast t = .ok b' ∧ b'.val = b.val := by
    intro b hb
    cases t <;> cases b
    · exact ⟨by simpa [truthy, Num.val] using (show _ ≠ (0 : ℤ) from hb), _, rfl, rfl⟩
    · exact hb.elim
    · exact ⟨hb, _, rfl, rfl⟩
    · exact ⟨hb, _, rfl, rfl⟩
  have one : ∀ (cmp : Fl → Fl → Prop) b, GoodBound t b →
      (checkBound cmp v t b = .ok () ↔ ∀ l, b = some l → cmp x.val l.val) := by
    intro cmp b hb
    cases b with
    | none => simp [checkBound]
    | some l =>
      obtain ⟨h1, b', h2, h3⟩ := cast l hb
      simp [checkBound, h1, h2, hx, h3, require_ok_iff]
  have l := one flGe lo hlo
  have h := one Fl.lt hi hhi
  simp only [leF_iff, ltF_iff, ← l, ← h, checkBounds]
  cases checkBound flGe v t lo <;> simp

theorem isScalar_scalar {v : PyVal} {t : PyType} {x : Num} (h : IsScalar v t x) :
    v.scalar = .ok x ∧ checkType v t = .ok () ∧ x.cast t = .ok x ∧ v ≠ .none := by
  cases h <;> refine ⟨rfl, ?_, rfl, by simp⟩ <;> simp [checkType]

theorem scalar_of_ok {v : PyVal} {t : PyType} {x : Num} (hw : WellTyped v) (h1 : checkType v t = .ok ())
    (h2 : v.scalar = .ok x) : IsScalar v t x := by
  cases v <;> cases t <;> simp [checkType, PyVal.scalar] at h1 h2 <;> try subst h2
  all_goals try exact (by constructor)
  · rename_i fl vals
    rw [require_ok_iff] at h1
    subst h1
    cases vals with
    | nil => simp at h2
    | cons a l => cases l with
      | nil =>
        obtain ⟨z, rfl⟩ := hw a (by simp)
        simp at h2
        subst h2; constructor
      | cons b l => simp at h2
  · rename_i fl vals
    rw [require_ok_iff] at h1
    subst h1
    cases vals with
    | nil => simp at h2
    | cons a l => cases l with
      | nil =>
        obtain ⟨z, rfl⟩ := hw a (by simp)
        simp at h2
        subst h2; constructor
      | cons b l => simp at h2

/-- **C26** (for bounds of the value's type other than 0): `check_valid` returns the value exactly when it is a number
of the requested type within `[lo, hi)` (or an allowed `None`), and raises otherwise.
Missing for the full property: a bound equal to 0 is not checked at all (`C26_zero_bound_refuted`). -/
theorem C26_check_valid_partial (v : PyVal) (t : PyType) (lo hi : Option Num) (allow : Bool) (hw : WellTyped v)
    (hlo : GoodBound t lo) (hhi : GoodBound t hi) (w : Option Num) :
    checkValid v t lo hi allow = .ok w ↔
      (v = .none ∧ allow = true ∧ w = none) ∨
      (∃ x, w = some x ∧ IsScalar v t x ∧ (∀ l, lo = some l → LeF l.val x.val) ∧
        (∀ h, hi = some h → LtF x.val h.val)) := by
  by_cases hv : v = .none
  · subst hv
    have : ∀ x, ¬ IsScalar .none t x := fun x h => by cases h
    cases allow <;> simp [checkValid, this, eq_comm]
  · have e : checkValid v t lo hi allow = (do
        checkType v t
        checkBounds v t lo hi
        let x ← v.scalar
        return some (← x.cast t)) := by
      cases v <;> cases allow <;> first | rfl | exact absurd rfl hv
    rw [e]
    constructor
    · intro h
      right
      cases h1 : checkType v t with
      | error e => rw [h1] at h; simp at h
      | ok _ =>
        rw [h1] at h
        cases h3 : v.scalar with
        | error e =>
          rw [h3] at h
          cases h2 : checkBounds v t lo hi <;> rw [h2] at h <;> simp at h
        | ok x =>
          have hs := scalar_of_ok hw h1 h3
          cases h2 : checkBounds v t lo hi with
          | error e => rw [h2] at h; simp at h
          | ok _ =>
            rw [h2, h3] at h
            simp only [Res.ok_bind, (isScalar_scalar hs).2.2.1, Res.pure_eq, Except.ok.injEq] at h
            have := (bounds_ok h3 hlo hhi).1 h2
            exact ⟨x, h.symm, hs, this.1, this.2⟩
    · rintro (⟨h, _⟩ | ⟨x, rfl, hs, hl, hh⟩)
      · exact absurd h hv
      · obtain ⟨h1, h2, h3, _⟩ := isScalar_scalar hs
        have := (bounds_ok h1 hlo hhi).2 ⟨hl, hh⟩
        rw [h2, this, h1]
        simp [h3]

/-- the hypotheses of `C26_check_valid_partial` are met by `check_valid(5, int, 1, 10)`, which is accepted, -/
example : checkValid (.int 5) .int (some (.int 1)) (some (.int 10)) = .ok (some (.int 5)) :=
  (C26_check_valid_partial (.int 5) .int (some (.int 1)) (some (.int 10)) false trivial (by simp [GoodBound])
    (by simp [GoodBound]) _).2 (Or.inr ⟨_, rfl, .int 5, by simp [LeF, Num.val], by norm_num [LtF, Num.val]⟩)

/-- ... and by `check_valid(10, int, 1, 10)`, which is rejected. -/
example : ∀ w, checkValid (.int 10) .int (some (.int 1)) (some (.int 10)) ≠ .ok w := by
  intro w h
  rcases (C26_check_valid_partial (.int 10) .int (some (.int 1)) (some (.int 10)) false trivial (by simp [GoodBound])
    (by simp [GoodBound]) _).1 h with ⟨h, _⟩ | ⟨x, _, hs, _, h2⟩
  · simp at h
  · cases hs
    simpa [LtF, Num.val] using h2 _ rfl

/-- Specification: `t` is `r` rounded towards zero. -/
def IsTrunc (r : ℝ) (t : ℤ) : Prop := (0 ≤ r → (t : ℝ) ≤ r ∧ r < t + 1) ∧ (r < 0 → r ≤ t ∧ (t : ℝ) - 1 < r)

/-- **C26**, bounds of another type: a float bound for an integer is rounded towards zero before it is compared. -/
theorem C26_float_bound (z : ℤ) (r : ℝ) (hr : r ≠ 0) :
    ∃ t, IsTrunc r t ∧
      (checkValid (.int z) .int (some (.float (.fin r))) = if t ≤ z then .ok (some (.int z)) else .error .value) ∧
      (checkValid (.int z) .int none (some (.float (.fin r))) = if z < t then .ok (some (.int z)) else .error .value) := by
  refine ⟨if 0 ≤ r then ⌊r⌋ else ⌈r⌉, ?_, ?_, ?_⟩
  · constructor
    · intro h
      rw [if_pos h]
      exact ⟨Int.floor_le r, Int.lt_floor_add_one r⟩
    · intro h
      rw [if_neg (by linarith)]
      exact ⟨Int.le_ceil r, by linarith [Int.ceil_lt_add_one r]⟩
  all_goals
    generalize ht : (if 0 ≤ r then ⌊r⌋ else ⌈r⌉) = t
    have h1 : truthy (some (.float (.fin r))) := by simpa [truthy, Num.val] using hr
    have h2 : (Num.float (.fin r)).cast .int = .ok (.int t) := by
      simp only [Num.cast, Num.toInt, ht]
      rfl
    have h3 : (Num.int z).cast .int = .ok (.int z) := rfl
  · by_cases h : t ≤ z
    · rw [if_pos h]
      have hc : flGe (.fin z) (.fin t) := (leF_iff _ _).1 (by simpa [LeF] using h)
      simp [checkValid, checkType, checkBounds, checkBound, h1, h2, PyVal.scalar, Num.val, require_true _ hc, h3]
    · rw [if_neg h]
      have hc : ¬ flGe (.fin z) (.fin t) := fun hc => h (by simpa [LeF] using (leF_iff _ _).2 hc)
      simp [checkValid, checkType, checkBounds, checkBound, h1, h2, PyVal.scalar, Num.val, require_false _ hc]
  · by_cases h : z < t
    · rw [if_pos h]
      simp [checkValid, checkType, checkBounds, checkBound, h1, h2, PyVal.scalar, Num.val, require_true _ h, h3]
    · rw [if_neg h]
      simp [checkValid, checkType, checkBounds, checkBound, h1, h2, PyVal.scalar, Num.val, require_false _ h]

/-- **C26 is false for bounds of another type**: `check_valid(1, int, 1.5)` returns 1, `check_valid(-1, int, -0.5)` raises only
because the bound became 0. -/
theorem C26_float_bound_refuted :
    checkValid (.int 1) .int (some (.float (.fin 1.5))) = .ok (some (.int 1)) ∧
    checkValid (.int (-1)) .int (some (.float (.fin (-0.5)))) = .error .value := by
  obtain ⟨t, h1, h2, -⟩ := C26_float_bound 1 1.5 (by norm_num)
  obtain ⟨u, k1, k2, -⟩ := C26_float_bound (-1) (-0.5) (by norm_num)
  have e1 : (t : ℝ) ≤ 1.5 := (h1.1 (by norm_num)).1
  have e2 : (-0.5 : ℝ) ≤ u := (k1.2 (by norm_num)).1
  have e1' : (t : ℝ) < (2 : ℤ) := by push_cast; linarith [show (1.5 : ℝ) < 2 by norm_num]
  have e2' : ((-1 : ℤ) : ℝ) < u := by push_cast; linarith [show (-1 : ℝ) < -0.5 by norm_num]
  rw [Int.cast_lt] at e1' e2'
  rw [if_pos (by omega)] at h2
  rw [if_neg (by omega)] at k2
  exact ⟨h2, k2⟩

/-- **C26 is false for a bound of 0**: every negative integer passes `check_valid(v, int, 0)`, the call that guards
`depth` (einet.py:46). -/
theorem C26_zero_bound_refuted (z : ℤ) :
    checkValid (.int z) .int (some (.int 0)) = .ok (some (.int z)) := by
  simp [checkValid, checkType, checkBounds, checkBound, truthy, Num.val, PyVal.scalar, Num.cast, Num.toInt]

/-- Specification of the configurations documented as valid. -/
def Meaningful (c : Config) : Prop :=
  0 ≤ c.depth ∧ 2 ≤ c.num_features ∧ 1 ≤ c.num_channels ∧ 1 ≤ c.num_classes ∧ 1 ≤ c.num_sums ∧
  1 ≤ c.num_repetitions ∧ 1 ≤ c.num_leaves ∧
  (∀ p, c.dropout = some p → ∃ x : ℝ, p = .fin x ∧ 0 ≤ x ∧ x < 1) ∧
  c.leaf_type = .leaf ∧
  (c.layer_type = "linsum" ∨ c.layer_type = "linsum2" ∨ c.layer_type = "einsum") ∧
  (c.structure' = "top-down" ∨ c.structure' = "bottom-up") ∧
  (c.structure' = "bottom-up" → c.layer_type = "linsum") ∧
  (2 : ℤ) ^ c.depth.toNat ≤ c.num_features / c.cardinality.getD 1

theorem checkInt_iff (z b : ℤ) (hb : b ≠ 0) {β : Type} (k : Res β) (w : β) :
    ((do let _ ← checkValid (.int z) .int (some (.int b)); k) = .ok w) ↔ (b ≤ z ∧ k = .ok w) := by
  have h := C26_check_valid_partial (.int z) .int (some (.int b)) none false trivial hb trivial
  by_cases hz : b ≤ z
  · have : checkValid (.int z) .int (some (.int b)) = .ok (some (.int z)) :=
      (h _).2 (Or.inr ⟨_, rfl, .int z, by simpa [LeF, Num.val] using hz, by simp⟩)
    simp [this, hz]
  · cases e : checkValid (.int z) .int (some (.int b)) with
    | error e => simp [hz]
    | ok x =>
      exfalso
      rcases (h _).1 e with ⟨h, _⟩ | ⟨x, _, hs, h2, _⟩
      · simp at h
      · cases hs
        exact hz (by simpa [LeF, Num.val] using h2 _ rfl)

theorem require_bind_iff {e : Err} {c : Prop} {β : Type} (k : Res β) (w : β) :
    ((do require e c; k) = .ok w) ↔ (c ∧ k = .ok w) := by
  by_cases h : c <;> simp [h]

/-- the check of `dropout`: `None` or below 1; the lower bound 0.0 is ignored. -/
theorem checkDropout_iff (p : Option Fl) {β : Type} (k : Res β) (w : β) :
    ((do let _ ← checkValid (optFloat p) .float (some (.float (.fin 0))) (some (.float (.fin 1))) true; k) = .ok w) ↔
      ((∀ q, p = some q → Fl.lt q (.fin 1)) ∧ k = .ok w) := by
  cases p with
  | none => simp [optFloat, checkValid]
  | some q =>
    simp [optFloat, checkValid, checkType, checkBounds, checkBound, truthy, Num.val, PyVal.scalar, Num.cast]
    by_cases h : Fl.lt q (.fin 1) <;> simp [h]

/-- **C27** (for `depth >= 0`, `dropout` not negative and a positive cardinality): `assert_valid` succeeds exactly on
the meaningful configurations.  Missing for the full property: negative depth and negative dropout are accepted
(`C27_negative_refuted`). -/
theorem C27_assert_valid_partial (c : Config) (hd : 0 ≤ c.depth)
    (hp : ∀ p, c.dropout = some p → LeF (.fin 0) p ∨ p = .nan) (hk : ∀ k, c.cardinality = some k → 0 < k) :
    c.assertValid = .ok () ↔ Meaningful c := by
  have hdrop : (∀ q, c.dropout = some q → Fl.lt q (.fin 1)) ↔
      (∀ p, c.dropout = some p → ∃ x : ℝ, p = .fin x ∧ 0 ≤ x ∧ x < 1) := by
    refine forall_congr' fun p => imp_congr_right fun h => ?_
    have := hp p h
    cases p <;> simp_all [LeF, Fl.lt]
  have hpos : 0 < c.cardinality.getD 1 := by
    cases h : c.cardinality with
    | none => simp
    | some k => simpa using hk k h
  have hpow : ((2 : ℚ) ^ c.depth ≤ (Int.fdiv c.num_features (c.cardinality.getD 1) : ℤ)) ↔
      (2 : ℤ) ^ c.depth.toNat ≤ c.num_features / c.cardinality.getD 1 := by
    rw [Int.fdiv_eq_ediv_of_nonneg _ hpos.le]
    have : (2 : ℚ) ^ c.depth = (2 : ℚ) ^ c.depth.toNat := by
      rw [← zpow_natCast, Int.toNat_of_nonneg hd]
    rw [this]
    exact_mod_cast Iff.rfl
  unfold Config.assertValid Meaningful
  rw [C26_zero_bound_refuted]
  simp only [Res.ok_bind]
  rw [checkInt_iff _ _ (by norm_num), checkInt_iff _ _ (by norm_num), checkInt_iff _ _ (by norm_num),
    checkInt_iff _ _ (by norm_num), checkInt_iff _ _ (by norm_num), checkInt_iff _ _ (by norm_num),
    checkDropout_iff, require_bind_iff, require_bind_iff, require_bind_iff, require_bind_iff, hdrop]
  simp only [List.mem_cons, List.not_mem_nil, or_false]
  constructor
  · rintro ⟨h1, h2, h3, h4, h5, h6, h7, h8, h9, h10, h11, h12⟩
    have h13 : (c.structure' = "bottom-up" → c.layer_type = "linsum") ∧
        (require Err.assertion ((2 : ℚ) ^ c.depth ≤ (Int.fdiv c.num_features (c.cardinality.getD 1) : ℤ))) =
          .ok () := by
      split_ifs at h12 with hb
      · rw [require_bind_iff, require_bind_iff] at h12
        exact ⟨fun _ => h12.1, h12.2.2⟩
      · simp only [require_bind_iff] at h12
        exact ⟨fun h => absurd h hb, h12.2⟩
    rw [require_ok_iff, hpow] at h13
    exact ⟨hd, h1, h2, h3, h4, h5, h6, h7, h11, h9, h10, h13.1, h13.2⟩
  · rintro ⟨_, h1, h2, h3, h4, h5, h6, h7, h11, h9, h10, h12, h13⟩
    refine ⟨h1, h2, h3, h4, h5, h6, h7, by rw [h11]; simp, h9, h10, h11, ?_⟩
    have h14 : require Err.assertion ((2 : ℚ) ^ c.depth ≤ (Int.fdiv c.num_features (c.cardinality.getD 1) : ℤ)) =
        .ok () := by rw [require_ok_iff, hpow]; exact h13
    split_ifs with hb
    · rw [require_bind_iff, require_bind_iff]
      exact ⟨h12 hb, hpos.ne', h14⟩
    · simp only [require_bind_iff]
      exact ⟨hpos.ne', h14⟩

/-- a meaningful configuration that is accepted: 8 features, depth 3, dropout 0.5. -/
example : (⟨8, 1, 3, 4, 2, 5, 3, some (.fin (1 / 2)), .leaf, none, "einsum", "top-down"⟩ : Config).assertValid = .ok () :=
  (C27_assert_valid_partial _ (by norm_num) (by rintro p ⟨⟩; left; simp [LeF]) (by simp)).2
    ⟨by norm_num, by norm_num, by norm_num, by norm_num, by norm_num, by norm_num, by norm_num,
      by rintro p ⟨⟩; exact ⟨_, rfl, by norm_num, by norm_num⟩, rfl, by decide, by decide, by decide, by decide⟩

/-- **C27 is false in general**: `assert_valid` accepts depth -1 and dropout -1. -/
theorem C27_negative_refuted :
    (∃ c : Config, c.assertValid = .ok () ∧ c.depth = -1 ∧ ¬ Meaningful c) ∧
    (∃ c : Config, c.assertValid = .ok () ∧ c.dropout = some (.fin (-1)) ∧ ¬ Meaningful c) := by
  constructor
  · refine ⟨⟨8, 1, 3, 4, 2, 5, -1, some (.fin 0), .leaf, none, "linsum", "top-down"⟩, ?_, rfl, ?_⟩
    · unfold Config.assertValid
      rw [C26_zero_bound_refuted]
      simp only [Res.ok_bind]
      rw [checkInt_iff _ _ (by norm_num), checkInt_iff _ _ (by norm_num), checkInt_iff _ _ (by norm_num),
        checkInt_iff _ _ (by norm_num), checkInt_iff _ _ (by norm_num), checkInt_iff _ _ (by norm_num),
        checkDropout_iff]
      refine ⟨by norm_num, by norm_num, by norm_num, by norm_num, by norm_num, by norm_num, by simp, ?_⟩
      simp only [require_bind_iff, require_ok_iff, String.reduceEq, if_false]
      refine ⟨by simp, by simp, by simp, trivial, by norm_num, ?_⟩
      norm_num [Int.fdiv]
    · rintro ⟨h, _⟩
      norm_num at h
  · refine ⟨⟨8, 1, 3, 4, 2, 5, 3, some (.fin (-1)), .leaf, none, "linsum", "top-down"⟩, ?_, rfl, ?_⟩
    · unfold Config.assertValid
      rw [C26_zero_bound_refuted]
      simp only [Res.ok_bind]
      rw [checkInt_iff _ _ (by norm_num), checkInt_iff _ _ (by norm_num), checkInt_iff _ _ (by norm_num),
        checkInt_iff _ _ (by norm_num), checkInt_iff _ _ (by norm_num), checkInt_iff _ _ (by norm_num),
        checkDropout_iff]
      refine ⟨by norm_num, by norm_num, by norm_num, by norm_num, by norm_num, by norm_num, by norm_num, ?_⟩
      simp only [require_bind_iff, require_ok_iff, String.reduceEq, if_false]
      refine ⟨by simp, by simp, by simp, trivial, by norm_num, ?_⟩
      norm_num [Int.fdiv]
    · rintro ⟨_, _, _, _, _, _, _, h, _⟩
      obtain ⟨x, hx, h0, _⟩ := h _ rfl
      have := Fl.fin_injective hx
      linarith

end Einet.Props
