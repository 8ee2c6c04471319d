import Verif.Tensor
import Mathlib.Data.ENNReal.Inv
import Mathlib.Data.ENNReal.BigOperators
import Mathlib.MeasureTheory.Integral.Lebesgue.Add
import Mathlib.MeasureTheory.Integral.Lebesgue.Map

/-!
# Log-probabilities and randomised computations

`toP` maps a log-probability (a float) to the probability it stands for.  `Rand` is the type of programs that draw
categorical indices and leaf values; it is a syntax tree, so the same program can be given its probability law (`E`),
its set of possible outcomes (`All`) or its behaviour on a concrete random stream.
-/

open Classical MeasureTheory
open scoped ENNReal
noncomputable section
namespace Einet

/-- the probability (density) a log-probability stands for. -/
def toP : Fl → ℝ≥0∞
  | .nan => 0
  | .ninf => 0
  | .pinf => ⊤
  | .fin r => ENNReal.ofReal (Real.exp r)

/-- a log-probability in the proper range: neither NaN nor `+inf`. -/
def NN : Fl → Prop
  | .nan => False
  | .pinf => False
  | _ => True

@[simp] theorem toP_fin (r : ℝ) : toP (.fin r) = ENNReal.ofReal (Real.exp r) := rfl
@[simp] theorem toP_ninf : toP .ninf = 0 := rfl
@[simp] theorem NN_fin (r : ℝ) : NN (.fin r) := trivial
@[simp] theorem NN_ninf : NN .ninf := trivial
@[simp] theorem not_NN_nan : ¬ NN .nan := fun h => h
@[simp] theorem toP_zero : toP (.fin 0) = 1 := by simp
theorem NN.ne_nan {a : Fl} (h : NN a) : a ≠ .nan := by rintro rfl; exact h
theorem NN.ne_top {a : Fl} (h : NN a) : toP a ≠ ⊤ := by cases a <;> simp_all [NN, toP]
theorem NN_of_isFin {a : Fl} (h : a.IsFin) : NN a := by obtain ⟨r, rfl⟩ := h; trivial

theorem NN.add {a b : Fl} (ha : NN a) (hb : NN b) : NN (a + b) := by
  cases a <;> cases b <;> first | exact trivial | exact absurd ha id | exact absurd hb id

theorem toP_add {a b : Fl} (ha : NN a) (hb : NN b) : toP (a + b) = toP a * toP b := by
  cases a <;> cases b <;> simp_all [NN]
  · rfl
  · rfl
  · rfl
  · rw [Real.exp_add, ENNReal.ofReal_mul (Real.exp_pos _).le]

theorem exp_toP {a : Fl} (h : NN a) : Fl.exp a = .fin (toP a).toReal := by
  cases a <;> simp_all [NN, Fl.exp, (Real.exp_pos _).le]

theorem toP_log {x : ℝ} (h : 0 ≤ x) : toP (Fl.log (.fin x)) = ENNReal.ofReal x ∧ NN (Fl.log (.fin x)) := by
  simp only [Fl.log]
  split_ifs with h1 h2
  · simp [Real.exp_log h1]
  · simp [h2]
  · exact absurd (lt_of_le_of_ne h (Ne.symm h2)) h1

theorem toP_injective {a b : Fl} (ha : NN a) (hb : NN b) (h : toP a = toP b) : a = b := by
  cases a <;> cases b <;> simp_all [NN, toP]
  · rename_i r; exact absurd h (not_le.2 (Real.exp_pos r))
  · rename_i r; exact absurd h (not_le.2 (Real.exp_pos r))
  · rename_i r s
    rw [ENNReal.ofReal_eq_ofReal_iff (Real.exp_pos _).le (Real.exp_pos _).le] at h
    exact Real.exp_injective h

theorem toP_lse_aux {n : Nat} {f : Nat → Fl} (h : ∀ i, i < n → NN (f i)) :
    toP (Fl.lse n f) = ∑ i ∈ Finset.range n, toP (f i) ∧ NN (Fl.lse n f) := by
  have e : Fl.sumN n (fun i => Fl.exp (f i)) = .fin (∑ i ∈ Finset.range n, (toP (f i)).toReal) :=
    Fl.sumN_eq_fin fun i hi => exp_toP (h i hi)
  unfold Fl.lse
  rw [e]
  have h0 : 0 ≤ ∑ i ∈ Finset.range n, (toP (f i)).toReal := Finset.sum_nonneg fun _ _ => ENNReal.toReal_nonneg
  refine ⟨?_, (toP_log h0).2⟩
  rw [(toP_log h0).1, ENNReal.ofReal_sum_of_nonneg fun _ _ => ENNReal.toReal_nonneg]
  exact Finset.sum_congr rfl fun i hi => ENNReal.ofReal_toReal (h i (by simpa using hi)).ne_top

theorem toP_lse {n : Nat} {f : Nat → Fl} (h : ∀ i, i < n → NN (f i)) :
    toP (Fl.lse n f) = ∑ i ∈ Finset.range n, toP (f i) := (toP_lse_aux h).1

theorem NN_lse {n : Nat} {f : Nat → Fl} (h : ∀ i, i < n → NN (f i)) : NN (Fl.lse n f) := (toP_lse_aux h).2

/-- a proper non-zero log-probability is a finite float. -/
theorem NN.isFin {a : Fl} (h : NN a) (h0 : toP a ≠ 0) : a.IsFin := by
  cases a <;> simp_all [NN, toP]

theorem toP_ne_zero {a : Fl} (h : a.IsFin) : toP a ≠ 0 := by
  obtain ⟨r, rfl⟩ := h; simp [Real.exp_pos]

theorem toP_ne_top {a : Fl} (h : a.IsFin) : toP a ≠ ⊤ := (NN_of_isFin h).ne_top

theorem isFin_iff {a : Fl} : a.IsFin ↔ NN a ∧ toP a ≠ 0 :=
  ⟨fun h => ⟨NN_of_isFin h, toP_ne_zero h⟩, fun h => h.1.isFin h.2⟩

theorem toP_sub {a b : Fl} (ha : NN a) (hb : b.IsFin) : toP (a - b) = toP a / toP b ∧ NN (a - b) := by
  obtain ⟨r, rfl⟩ := hb
  cases a
  · exact absurd ha (by simp)
  · refine ⟨?_, trivial⟩
    show toP .ninf = _
    simp
  · exact absurd ha (by simp [NN])
  · rename_i s
    simp only [Fl.fin_sub, toP_fin, NN_fin, and_true]
    rw [Real.exp_sub, ENNReal.ofReal_div_of_pos (Real.exp_pos _)]

/-- log-softmax in the probability domain. -/
theorem toP_logSoftmax {n : Nat} {f : Nat → Fl} (h : ∀ i, i < n → NN (f i))
    (h0 : ∑ i ∈ Finset.range n, toP (f i) ≠ 0) {k : Nat} (hk : k < n) :
    toP (Fl.logSoftmax n f k) = toP (f k) / ∑ i ∈ Finset.range n, toP (f i) ∧ NN (Fl.logSoftmax n f k) := by
  have hl : (Fl.lse n f).IsFin := (NN_lse h).isFin (by rwa [toP_lse h])
  have := toP_sub (h k hk) hl
  rw [toP_lse h] at this
  exact this

theorem sum_toP_ne_top {n : Nat} {f : Nat → Fl} (h : ∀ i, i < n → NN (f i)) :
    ∑ i ∈ Finset.range n, toP (f i) ≠ ⊤ := by
  rw [← toP_lse h]; exact (NN_lse h).ne_top

theorem sum_toP_logSoftmax {n : Nat} {f : Nat → Fl} (h : ∀ i, i < n → NN (f i))
    (h0 : ∑ i ∈ Finset.range n, toP (f i) ≠ 0) :
    ∑ k ∈ Finset.range n, toP (Fl.logSoftmax n f k) = 1 := by
  rw [Finset.sum_congr rfl fun k hk => (toP_logSoftmax h h0 (by simpa using hk)).1]
  simp only [div_eq_mul_inv]
  rw [← Finset.sum_mul]
  exact ENNReal.mul_inv_cancel h0 (sum_toP_ne_top h)

/-- Randomised computations. -/
inductive Rand (α : Type) : Type 1 where
  | pure (a : α)
  | fail (e : Err)
  /-- draw `k < K` with probabilities `softmax(w)` -/
  | draw (K : Nat) (w : Nat → Fl) (k : Nat → Rand α)
  /-- draw a real number from a leaf distribution -/
  | leaf (μ : Measure ℝ) (k : ℝ → Rand α)

namespace Rand
variable {α β : Type}

/-- sequencing. -/
def bind : Rand α → (α → Rand β) → Rand β
  | pure a, f => f a
  | fail e, _ => fail e
  | draw K w k, f => draw K w fun j => bind (k j) f
  | leaf μ k, f => leaf μ fun x => bind (k x) f

instance : Monad Rand where
  pure := Rand.pure
  bind := Rand.bind

/-- a computation without randomness. -/
def lift : Res α → Rand α
  | .ok a => pure a
  | .error e => fail e

/-- Probability law: the expectation of `f` (a raised exception contributes 0). -/
def E : Rand α → (α → ℝ≥0∞) → ℝ≥0∞
  | pure a, f => f a
  | fail _, _ => 0
  | draw K w k, f => ∑ j ∈ Finset.range K, toP (Fl.logSoftmax K w j) * E (k j) f
  | leaf μ k, f => ∫⁻ x, E (k x) f ∂μ

/-- Every outcome satisfies `P`; in particular no draw sequence raises.  Categories of probability 0 are never drawn, and every
draw has a category of positive probability. -/
def All : Rand α → (α → Prop) → Prop
  | pure a, P => P a
  | fail _, _ => False
  | draw K w k, P => (∃ j, j < K ∧ toP (Fl.logSoftmax K w j) ≠ 0) ∧
      ∀ j, j < K → toP (Fl.logSoftmax K w j) ≠ 0 → All (k j) P
  | leaf _ k, P => ∀ x, All (k x) P

/-- No random number is requested. -/
def Det : Rand α → Prop
  | pure _ => True
  | fail _ => True
  | _ => False

theorem bind_eq (x : Rand α) (f : α → Rand β) : (x >>= f) = Rand.bind x f := rfl
theorem pure_eq (a : α) : (Pure.pure a : Rand α) = Rand.pure a := rfl
@[simp] theorem pure_bind (a : α) (f : α → Rand β) : bind (pure a) f = f a := rfl
@[simp] theorem fail_bind (e : Err) (f : α → Rand β) : bind (fail e) f = fail e := rfl
@[simp] theorem lift_ok (a : α) : lift (.ok a) = pure a := rfl
@[simp] theorem E_pure (a : α) (f : α → ℝ≥0∞) : E (pure a) f = f a := rfl

theorem E_bind (x : Rand α) (g : α → Rand β) (f : β → ℝ≥0∞) : E (bind x g) f = E x fun a => E (g a) f := by
  induction x with
  | pure a => rfl
  | fail e => rfl
  | draw K w k ih => simp only [bind, E, ih]
  | leaf μ k ih => simp only [bind, E, ih]

theorem All.bind {x : Rand α} {g : α → Rand β} {P : α → Prop} {Q : β → Prop} (h : All x P)
    (hg : ∀ a, P a → All (g a) Q) : All (bind x g) Q := by
  induction x with
  | pure a => exact hg a h
  | fail e => exact h
  | draw K w k ih => exact ⟨h.1, fun j hj h0 => ih j (h.2 j hj h0)⟩
  | leaf μ k ih => exact fun r => ih r (h r)

theorem All.mono {x : Rand α} {P Q : α → Prop} (h : All x P) (hpq : ∀ a, P a → Q a) : All x Q := by
  induction x with
  | pure a => exact hpq a h
  | fail e => exact h
  | draw K w k ih => exact ⟨h.1, fun j hj h0 => ih j (h.2 j hj h0)⟩
  | leaf μ k ih => exact fun r => ih r (h r)

theorem All.lift {x : Res α} {P : α → Prop} (h : Res.Sat x P) : All (Rand.lift x) P := by
  obtain ⟨a, rfl, ha⟩ := h; exact ha

theorem E_congr {x : Rand α} {f g : α → ℝ≥0∞} {P : α → Prop} (h : All x P) (hfg : ∀ a, P a → f a = g a) :
    E x f = E x g := by
  induction x with
  | pure a => exact hfg a h
  | fail e => rfl
  | draw K w k ih =>
    simp only [E]
    refine Finset.sum_congr rfl fun j hj => ?_
    by_cases h0 : toP (Fl.logSoftmax K w j) = 0
    · rw [h0, zero_mul, zero_mul]
    · rw [ih j (h.2 j (by simpa using hj) h0)]
  | leaf μ k ih =>
    simp only [E]
    exact lintegral_congr fun x => ih x (h x)

theorem bind_assoc {γ : Type} (x : Rand α) (f : α → Rand β) (g : β → Rand γ) :
    bind (bind x f) g = bind x fun a => bind (f a) g := by
  induction x with
  | pure a => rfl
  | fail e => rfl
  | draw K w k ih => simp only [bind, ih]
  | leaf μ k ih => simp only [bind, ih]

/-- `torch.distributions.Categorical(logits=w).sample()` for one distribution over `K` categories: raises for
an empty or NaN distribution. -/
def categorical (K : Nat) (w : Nat → Fl) : Rand Nat :=
  if 0 < K ∧ ∀ k, k < K → (Fl.logSoftmax K w k).isnan = false then draw K w pure else fail .value

/-- independent draws, one for every index in the list. -/
def drawAll : List (List Nat) → (List Nat → Rand α) → (List Nat → α) → Rand (List Nat → α)
  | [], _, dflt => pure dflt
  | i :: is, p, dflt => bind (p i) fun v => bind (drawAll is p dflt) fun f => pure fun j => if j = i then v else f j

end Rand

/-- all in-range indices of a shape, in row-major order. -/
def box : List Nat → List (List Nat)
  | [] => [[]]
  | n :: s => (List.range n).flatMap fun i => (box s).map (i :: ·)

/-- `torch.distributions.Categorical(logits=t).sample()` for a tensor whose last dimension (number `d`) enumerates the
categories: one independent draw per remaining index. -/
def Tensor.categorical (t : Tensor Fl) (d : Nat) : Rand (Tensor Nat) :=
  (Rand.drawAll (box (delAt d t.shape))
    (fun i => Rand.categorical (t.size d) fun k => t.get (insAt d k i)) fun _ => 0).bind fun f =>
  .pure ⟨delAt d t.shape, f⟩

theorem mem_box {s i : List Nat} : i ∈ box s ↔ InB s i := by
  induction s generalizing i with
  | nil => simp [box]
  | cons n s ih =>
    simp only [box, List.mem_flatMap, List.mem_range, List.mem_map]
    constructor
    · rintro ⟨a, ha, l, hl, rfl⟩
      exact ⟨ha, ih.1 hl⟩
    · intro h
      cases i with
      | nil => simp at h
      | cons a l => exact ⟨a, h.1, l, ih.2 h.2, rfl⟩

theorem box_nodup (s : List Nat) : (box s).Nodup := by
  induction s with
  | nil => simp [box]
  | cons n s ih =>
    simp only [box]
    rw [List.nodup_flatMap]
    refine ⟨fun i _ => ih.map (fun a b h => by simpa using h), ?_⟩
    refine List.Pairwise.imp ?_ List.nodup_range
    intro a b hab
    simp only [Function.onFun, List.disjoint_left, List.mem_map]
    rintro _ ⟨l, _, rfl⟩ ⟨m, _, h⟩
    simp at h
    exact hab h.1.symm

/-- product over all indices of a shape. -/
def prodBox (s : List Nat) (h : List Nat → ℝ≥0∞) : ℝ≥0∞ := ((box s).map h).prod

theorem prodBox_nil (h : List Nat → ℝ≥0∞) : prodBox [] h = h [] := by simp [prodBox, box]

theorem prodBox_cons (n : Nat) (s : List Nat) (h : List Nat → ℝ≥0∞) :
    prodBox (n :: s) h = ∏ i ∈ Finset.range n, prodBox s fun l => h (i :: l) := by
  simp only [prodBox, box]
  induction n with
  | zero => simp
  | succ n ih =>
    rw [List.range_succ, List.flatMap_append, List.map_append, List.prod_append, ih, Finset.prod_range_succ]
    simp [Function.comp_def]

theorem prodBox_congr {s : List Nat} {f g : List Nat → ℝ≥0∞} (h : ∀ i, InB s i → f i = g i) :
    prodBox s f = prodBox s g := by
  unfold prodBox
  rw [List.map_congr_left fun i hi => h i (mem_box.1 hi)]

namespace Rand
variable {α : Type}

theorem All_drawAll {is : List (List Nat)} {p : List Nat → Rand α} {d : List Nat → α} {P : List Nat → α → Prop}
    (h : ∀ i ∈ is, All (p i) (P i)) : All (drawAll is p d) fun f => ∀ i ∈ is, P i (f i) := by
  induction is with
  | nil => intro i hi; simp at hi
  | cons a l ih =>
    refine (h a (by simp)).bind fun v hv => ?_
    refine (ih fun i hi => h i (by simp [hi])).bind fun f hf => ?_
    intro i hi
    show P i (if i = a then v else f i)
    split_ifs with e
    · subst e; exact hv
    · exact hf i (by simpa [e] using hi)

/-- independence: the expectation of a product over distinct indices is the product of the expectations. -/
theorem E_drawAll_mul {is : List (List Nat)} {p : List Nat → Rand α} {d : List Nat → α} {h : List Nat → α → ℝ≥0∞}
    (hn : is.Nodup) (hc : ∀ i ∈ is, ∀ c : ℝ≥0∞, E (p i) (fun a => h i a * c) = E (p i) (h i) * c) (c : ℝ≥0∞) :
    E (drawAll is p d) (fun f => (is.map fun i => h i (f i)).prod * c) = (is.map fun i => E (p i) (h i)).prod * c := by
  induction is generalizing c with
  | nil => simp [drawAll]
  | cons a l ih =>
    simp only [drawAll, E_bind, E_pure, List.map_cons, List.prod_cons, if_true]
    rw [List.nodup_cons] at hn
    have ih' := ih hn.2 fun i hi => hc i (by simp [hi])
    have e2 : ∀ v (f : List Nat → α), (l.map fun i => h i (if i = a then v else f i)) = l.map fun i => h i (f i) := by
      intro v f
      refine List.map_congr_left fun i hi => ?_
      rw [if_neg]
      rintro rfl
      exact hn.1 hi
    have key : ∀ v, E (drawAll l p d) (fun f => h a v * (l.map fun i => h i (if i = a then v else f i)).prod * c)
        = h a v * ((l.map fun i => E (p i) (h i)).prod * c) := by
      intro v
      simp only [e2]
      rw [mul_left_comm, ← ih']
      congr 1
      funext f
      rw [mul_comm (h a v), mul_assoc]
    simp only [key]
    rw [hc a (by simp), mul_assoc]

theorem E_drawAll {is : List (List Nat)} {p : List Nat → Rand α} {d : List Nat → α} {h : List Nat → α → ℝ≥0∞}
    (hn : is.Nodup) (hc : ∀ i ∈ is, ∀ c : ℝ≥0∞, E (p i) (fun a => h i a * c) = E (p i) (h i) * c) :
    E (drawAll is p d) (fun f => (is.map fun i => h i (f i)).prod) = (is.map fun i => E (p i) (h i)).prod := by
  have := E_drawAll_mul (d := d) hn hc 1
  simpa using this

/-- No leaf values are drawn. -/
def Disc : Rand α → Prop
  | pure _ => True
  | fail _ => True
  | draw _ _ k => ∀ j, Disc (k j)
  | leaf _ _ => False

theorem Disc.bind {β : Type} {x : Rand α} {g : α → Rand β} (h : Disc x) (hg : ∀ a, Disc (g a)) : Disc (bind x g) := by
  induction x with
  | pure a => exact hg a
  | fail e => trivial
  | draw K w k ih => exact fun j => ih j (h j)
  | leaf μ k ih => exact h.elim

theorem Disc.lift {x : Res α} : Disc (Rand.lift x) := by cases x <;> trivial

theorem Disc.mul_const {x : Rand α} (h : Disc x) (f : α → ℝ≥0∞) (c : ℝ≥0∞) :
    E x (fun a => f a * c) = E x f * c := by
  induction x with
  | pure a => rfl
  | fail e => simp [E]
  | draw K w k ih =>
    simp only [E]
    rw [Finset.sum_mul]
    exact Finset.sum_congr rfl fun j _ => by rw [ih j (h j), mul_assoc]
  | leaf μ k ih => exact h.elim

theorem disc_categorical (K : Nat) (w : Nat → Fl) : Disc (categorical K w) := by
  unfold categorical; split_ifs
  · exact fun _ => trivial
  · trivial

theorem disc_drawAll {is : List (List Nat)} {p : List Nat → Rand α} {d : List Nat → α} (h : ∀ i, Disc (p i)) :
    Disc (drawAll is p d) := by
  induction is with
  | nil => trivial
  | cons a l ih => exact (h a).bind fun v => ih.bind fun f => trivial

theorem Disc.measurable {Ω : Type} [MeasurableSpace Ω] {x : Rand α} (h : Disc x)
    {f : Ω → α → ℝ≥0∞} (hf : ∀ a, Measurable fun ω => f ω a) : Measurable fun ω => E x (f ω) := by
  induction x with
  | pure a => exact hf a
  | fail e => exact measurable_const
  | draw K w k ih =>
    simp only [E]
    exact Finset.measurable_fun_sum _ fun j _ => (ih j (h j)).const_mul _
  | leaf μ k ih => exact h.elim

/-- a discrete program commutes with integration. -/
theorem Disc.lintegral_comm {Ω : Type} [MeasurableSpace Ω] {ν : Measure Ω} {x : Rand α} (h : Disc x)
    {f : Ω → α → ℝ≥0∞} (hf : ∀ a, Measurable fun ω => f ω a) :
    ∫⁻ ω, E x (f ω) ∂ν = E x fun a => ∫⁻ ω, f ω a ∂ν := by
  induction x with
  | pure a => rfl
  | fail e => simp [E]
  | draw K w k ih =>
    simp only [E]
    rw [lintegral_finsetSum _ fun j _ => ((h j).measurable hf).const_mul _]
    exact Finset.sum_congr rfl fun j _ => by rw [lintegral_const_mul _ ((h j).measurable hf), ih j (h j)]
  | leaf μ k ih => exact h.elim

theorem categorical_ok {K : Nat} {w : Nat → Fl} (hK : 0 < K) (hw : ∀ k, k < K → Fl.logSoftmax K w k ≠ .nan) :
    categorical K w = draw K w pure := by
  unfold categorical
  refine if_pos ⟨hK, fun k hk => ?_⟩
  rw [Bool.eq_false_iff, Ne, Fl.isnan_iff]
  exact hw k hk

theorem E_categorical {K : Nat} {w : Nat → Fl} (hK : 0 < K) (hw : ∀ k, k < K → Fl.logSoftmax K w k ≠ .nan)
    (f : Nat → ℝ≥0∞) :
    E (categorical K w) f = ∑ k ∈ Finset.range K, toP (Fl.logSoftmax K w k) * f k := by
  rw [categorical_ok hK hw]; rfl

/-- weights that pass the validation of `Categorical` give some category a positive probability. -/
theorem exists_pos {K : Nat} {w : Nat → Fl} (hK : 0 < K) (hw : ∀ k, k < K → Fl.logSoftmax K w k ≠ .nan) :
    ∃ j, j < K ∧ toP (Fl.logSoftmax K w j) ≠ 0 := by
  by_cases hp : ∃ i, i < K ∧ w i = .pinf
  · obtain ⟨i, hi, e⟩ := hp
    refine ⟨i, hi, ?_⟩
    have := hw i hi
    unfold Fl.logSoftmax at this ⊢
    rw [e] at this ⊢
    cases hl : Fl.lse K w with
    | nan => rw [hl] at this; exact absurd rfl this
    | pinf => rw [hl] at this; exact absurd rfl this
    | ninf => show toP .pinf ≠ 0; simp [toP]
    | fin r => show toP .pinf ≠ 0; simp [toP]
  · have hn : ∀ i, i < K → NN (w i) := by
      intro i hi
      cases e : w i with
      | nan => exact absurd (by unfold Fl.logSoftmax; rw [e]; exact Fl.nan_sub _) (hw i hi)
      | pinf => exact absurd ⟨i, hi, e⟩ hp
      | ninf => trivial
      | fin r => trivial
    by_cases h0 : ∑ i ∈ Finset.range K, toP (w i) = 0
    · exfalso
      have hz : ∀ i, i < K → w i = .ninf := fun i hi => by
        have := (Finset.sum_eq_zero_iff.1 h0) i (by simpa using hi)
        exact toP_injective (hn i hi) trivial (by rw [this]; rfl)
      have hl : Fl.lse K w = .ninf := toP_injective (NN_lse hn) trivial (by rw [toP_lse hn, h0]; rfl)
      refine hw 0 hK ?_
      unfold Fl.logSoftmax
      rw [hl, hz 0 hK]
      rfl
    · by_contra hc
      push Not at hc
      have := sum_toP_logSoftmax hn h0
      rw [Finset.sum_eq_zero fun j hj => hc j (by simpa using hj)] at this
      exact zero_ne_one this

theorem All_categorical {K : Nat} {w : Nat → Fl} (hK : 0 < K) (hw : ∀ k, k < K → Fl.logSoftmax K w k ≠ .nan) :
    All (categorical K w) fun k => k < K ∧ toP (Fl.logSoftmax K w k) ≠ 0 := by
  rw [categorical_ok hK hw]; exact ⟨exists_pos hK hw, fun j hj h0 => ⟨hj, h0⟩⟩

theorem categorical_congr {K : Nat} {w w' : Nat → Fl} (h : ∀ k, k < K → w k = w' k) (f : Nat → ℝ≥0∞) :
    E (categorical K w) f = E (categorical K w') f := by
  have e : ∀ k, k < K → Fl.logSoftmax K w k = Fl.logSoftmax K w' k := fun k hk => Fl.logSoftmax_congr h hk
  unfold categorical
  by_cases hc : 0 < K ∧ ∀ k, k < K → (Fl.logSoftmax K w k).isnan = false
  · have hc' : 0 < K ∧ ∀ k, k < K → (Fl.logSoftmax K w' k).isnan = false :=
      ⟨hc.1, fun k hk => by rw [← e k hk]; exact hc.2 k hk⟩
    rw [if_pos hc, if_pos hc']
    simp only [E]
    exact Finset.sum_congr rfl fun j hj => by rw [e j (by simpa using hj)]
  · have hc' : ¬ (0 < K ∧ ∀ k, k < K → (Fl.logSoftmax K w' k).isnan = false) :=
      fun h' => hc ⟨h'.1, fun k hk => by rw [e k hk]; exact h'.2 k hk⟩
    rw [if_neg hc, if_neg hc']

end Rand

namespace Tensor

theorem disc_categorical (t : Tensor Fl) (d : Nat) : (t.categorical d).Disc :=
  (Rand.disc_drawAll fun _ => Rand.disc_categorical _ _).bind fun _ => trivial

/-- outcomes of `Categorical(logits=t).sample()`. -/
theorem All_categorical {t : Tensor Fl} {s : List Nat} {g : List Nat → Fl} {d : Nat} (h : t.Is s g)
    (hd : d < s.length) (hK : 0 < at' d s)
    (hw : AllIdx (delAt d s) fun i => ∀ k, k < at' d s → Fl.logSoftmax (at' d s) (fun k => g (insAt d k i)) k ≠ .nan) :
    (t.categorical d).All fun ix => ix.shape = delAt d s ∧ AllIdx (delAt d s) fun i => ix.get i < at' d s ∧
      toP (Fl.logSoftmax (at' d s) (fun k => g (insAt d k i)) (ix.get i)) ≠ 0 := by
  rw [AllIdx_iff] at hw
  unfold Tensor.categorical
  refine (Rand.All_drawAll (P := fun i k => k < at' d s ∧
    toP (Fl.logSoftmax (at' d s) (fun k => g (insAt d k i)) k) ≠ 0) fun i hi => ?_).bind fun f hf => ?_
  · rw [h.1] at hi
    have hi' := mem_box.1 hi
    rw [Tensor.size, h.1]
    have e : ∀ k, k < at' d s → _ := fun k hk =>
      Fl.logSoftmax_congr (fun k hk => h.get (InB_insAt hd hi' hk)) hk
    refine (Rand.All_categorical hK fun k hk => ?_).mono fun k hk => ⟨hk.1, ?_⟩
    · rw [e k hk]
      exact hw i hi' k hk
    · rw [← e k hk.1]; exact hk.2
  · refine ⟨by simp [h.1], ?_⟩
    rw [AllIdx_iff]
    intro i hi
    exact hf i (by rw [h.1]; exact mem_box.2 hi)

/-- law of `Categorical(logits=t).sample()`: independent categorical entries. -/
theorem E_categorical {t : Tensor Fl} {s : List Nat} {g : List Nat → Fl} {d : Nat} (h : t.Is s g)
    (hd : d < s.length) (hK : 0 < at' d s)
    (hw : AllIdx (delAt d s) fun i => ∀ k, k < at' d s → Fl.logSoftmax (at' d s) (fun k => g (insAt d k i)) k ≠ .nan)
    (f : List Nat → Nat → ℝ≥0∞) :
    (t.categorical d).E (fun ix => prodBox (delAt d s) fun i => f i (ix.get i)) =
      prodBox (delAt d s) fun i => ∑ k ∈ Finset.range (at' d s),
        toP (Fl.logSoftmax (at' d s) (fun k => g (insAt d k i)) k) * f i k := by
  rw [AllIdx_iff] at hw
  unfold Tensor.categorical
  rw [Rand.E_bind]
  simp only [Rand.E_pure, prodBox, h.1]
  rw [Rand.E_drawAll (box_nodup _) fun i _ c => (Rand.disc_categorical _ _).mul_const _ c]
  refine congrArg List.prod (List.map_congr_left fun i hi => ?_)
  have hi' := mem_box.1 hi
  rw [Tensor.size, h.1, Rand.categorical_congr (fun k hk => h.get (InB_insAt hd hi' hk)),
    Rand.E_categorical hK (hw i hi')]

end Tensor
end Einet
