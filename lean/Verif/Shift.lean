import Verif.Temper
import Verif.PropsBuild

/-!
# Adding a constant to the raw weights of a sum node: C85
-/

open Classical MeasureTheory
open scoped ENNReal
noncomputable section
namespace Einet
open Tensor

/-! ### Specification -/

/-- the sum layer whose logits are increased by `c`. -/
def SumL.plus (c : List Nat → ℝ) (L : SumL) : SumL :=
  { L with logits := ⟨L.logits.shape, fun i => L.logits.get i + .fin (c i)⟩ }

/-- the layer with a number added to the logits of every node: `s` is a function of the feature, the output channel and the
repetition of the node, so that all children of a node get the same number. -/
def Layer.shift (s : Nat → Nat → Nat → ℝ) : Layer → Layer
  | .sum L => .sum (L.plus fun i => s (at' 0 i) (at' 2 i) (at' 3 i))
  | .linsum L => .linsum (L.plus fun i => s (at' 0 i) (at' 2 i) (at' 3 i))
  | .linsum2 L => .linsum2 (L.plus fun i => s (at' 0 i) (at' 2 i) (at' 3 i))
  | .einsum L => .einsum (L.plus fun i => s (at' 0 i) (at' 1 i) (at' 2 i))
  | .rootProduct F R => .rootProduct F R

/-- every layer with its own numbers. -/
def shiftLayers : (Nat → Nat → Nat → Nat → ℝ) → List Layer → List Layer
  | _, [] => []
  | s, l :: ls => l.shift (s 0) :: shiftLayers (fun n => s (n + 1)) ls

/-- the numbers to add: for the nodes of the layers, for the nodes that mix the repetitions, for the node that mixes the classes. -/
structure Shifts where
  layers : Nat → Nat → Nat → Nat → ℝ
  mixing : Nat → Nat → ℝ
  classRoot : ℝ

/-- the model after a number has been added to the raw weights of every sum node. -/
def Model.shift (s : Shifts) (M : Model) : Model :=
  { M with
    layers := shiftLayers s.layers M.layers
    mixing := M.mixing.plus fun i => s.mixing (at' 0 i) (at' 1 i)
    classRoot := M.classRoot.plus fun _ => s.classRoot }

/-- two random programs that make the same draws with the same weights and then continue alike: same outcomes, same exceptions. -/
inductive Rand.Alike {α : Type} : Rand α → Rand α → Prop
  | pure (a : α) : Alike (.pure a) (.pure a)
  | fail (e : Err) : Alike (.fail e) (.fail e)
  | draw {K : Nat} {w w' : Nat → Fl} {k k' : Nat → Rand α} (hw : ∀ j, j < K → w j = w' j) (hk : ∀ j, (0 < K → j < K) → Alike (k j) (k' j)) :
      Alike (.draw K w k) (.draw K w' k')
  | leaf {μ : Measure ℝ} {k k' : ℝ → Rand α} (hk : ∀ x, Alike (k x) (k' x)) : Alike (.leaf μ k) (.leaf μ k')

/-! ### Random programs -/

namespace Rand
variable {α β : Type}

theorem Alike.refl (x : Rand α) : Alike x x := by
  induction x with
  | pure a => exact .pure a
  | fail e => exact .fail e
  | draw K w k ih => exact .draw (fun _ _ => rfl) fun j _ => ih j
  | leaf μ k ih => exact .leaf ih

theorem Alike.of_eq {x y : Rand α} (h : x = y) : Alike x y := h ▸ .refl x

theorem Alike.bind {x y : Rand α} (h : Alike x y) {f g : α → Rand β} (hf : ∀ a, Alike (f a) (g a)) : Alike (x.bind f) (y.bind g) := by
  induction h with
  | pure a => exact hf a
  | fail e => exact .fail e
  | draw hw _ ih => exact .draw hw ih
  | leaf _ ih => exact .leaf ih

theorem Alike.E {x y : Rand α} (h : Alike x y) (f : α → ℝ≥0∞) : x.E f = y.E f := by
  induction h with
  | pure a => rfl
  | fail e => rfl
  | draw hw _ ih =>
    show ∑ j ∈ Finset.range _, _ = ∑ j ∈ Finset.range _, _
    refine Finset.sum_congr rfl fun j hj => ?_
    have hj := Finset.mem_range.1 hj
    rw [ih j fun _ => hj, Fl.logSoftmax_congr hw hj]
  | leaf _ ih => exact lintegral_congr fun x => ih x

theorem Alike.all {x y : Rand α} (h : Alike x y) (P : α → Prop) : x.All P ↔ y.All P := by
  induction h with
  | pure a => exact Iff.rfl
  | fail e => exact Iff.rfl
  | @draw K w w' k k' hw _ ih =>
    have e : ∀ j, j < K → Fl.logSoftmax K w j = Fl.logSoftmax K w' j := fun j hj => Fl.logSoftmax_congr hw hj
    refine and_congr (exists_congr fun j => and_congr_right fun hj => by rw [e j hj]) ?_
    exact forall_congr' fun j => forall_congr' fun hj => by rw [e j hj, ih j fun _ => hj]
  | leaf _ ih => exact forall_congr' ih

theorem Alike.eq_of_det {x y : Rand α} (h : Alike x y) (hd : x.Det) : x = y := by
  cases h with
  | pure a => rfl
  | fail e => rfl
  | draw _ _ => exact hd.elim
  | leaf _ => exact hd.elim

theorem Alike.categorical {K : Nat} {w w' : Nat → Fl} (h : ∀ j, j < K → w j = w' j) : Alike (categorical K w) (categorical K w') := by
  unfold Rand.categorical
  have e : (0 < K ∧ ∀ k, k < K → (Fl.logSoftmax K w k).isnan = false) ↔ (0 < K ∧ ∀ k, k < K → (Fl.logSoftmax K w' k).isnan = false) :=
    and_congr_right fun _ => forall_congr' fun j => forall_congr' fun hj => by rw [Fl.logSoftmax_congr h hj]
  by_cases hc : 0 < K ∧ ∀ k, k < K → (Fl.logSoftmax K w k).isnan = false
  · rw [if_pos hc, if_pos (e.1 hc)]; exact .draw h fun _ _ => .refl _
  · rw [if_neg hc, if_neg fun h => hc (e.2 h)]; exact .fail _

theorem Alike.drawAll {is : List (List Nat)} {p q : List Nat → Rand α} (h : ∀ i ∈ is, Alike (p i) (q i)) (d : List Nat → α) :
    Alike (drawAll is p d) (drawAll is q d) := by
  induction is with
  | nil => exact .refl _
  | cons i is ih =>
    exact (h i (List.mem_cons_self ..)).bind fun v => (ih fun j hj => h j (List.mem_cons_of_mem _ hj)).bind fun f => .refl _

end Rand

/-! ### Floats -/

theorem Fl.exp_add_fin (x : Fl) (c : ℝ) : Fl.exp (x + .fin c) = Fl.exp x * .fin (Real.exp c) := by
  cases x with
  | nan => rfl
  | pinf => show Fl.pinf = Fl.infMul (Real.exp c); simp [Fl.infMul, Real.exp_pos, Real.exp_ne_zero]
  | ninf => show Fl.fin 0 = Fl.fin (0 * Real.exp c); rw [zero_mul]
  | fin a => show Fl.fin _ = Fl.fin _; rw [Real.exp_add]

theorem Fl.add_mul_fin (x y : Fl) {c : ℝ} (hc : 0 < c) : (x + y) * .fin c = x * .fin c + y * .fin c := by
  have hp : (Fl.pinf * Fl.fin c) = Fl.pinf := by show Fl.infMul c = _; simp [Fl.infMul, hc, hc.ne']
  have hn : (Fl.ninf * Fl.fin c) = Fl.ninf := by show Fl.infMul (-c) = _; simp [Fl.infMul, hc.le, hc.ne', not_lt]
  have hf : ∀ a, (Fl.fin a * Fl.fin c) = Fl.fin (a * c) := fun _ => rfl
  have hnan : (Fl.nan * Fl.fin c) = Fl.nan := rfl
  cases x <;> cases y <;> simp only [hp, hn, hf, hnan]
  all_goals first
    | rfl
    | exact hp
    | exact hn
    | (show Fl.fin _ = Fl.fin _; rw [add_mul])

theorem Fl.sumN_mul_fin (n : Nat) (f : Nat → Fl) {c : ℝ} (hc : 0 < c) : Fl.sumN n (fun i => f i * .fin c) = Fl.sumN n f * .fin c := by
  induction n with
  | zero => show Fl.fin 0 = Fl.fin (0 * c); rw [zero_mul]
  | succ n ih => show Fl.sumN n _ + _ = (Fl.sumN n f + f n) * _; rw [ih, Fl.add_mul_fin _ _ hc]

theorem Fl.log_mul_exp (x : Fl) (c : ℝ) : Fl.log (x * .fin (Real.exp c)) = Fl.log x + .fin c := by
  have h0 := Real.exp_pos c
  cases x with
  | nan => rfl
  | pinf => show Fl.log (Fl.infMul (Real.exp c)) = Fl.pinf; simp [Fl.infMul, h0, h0.ne', Fl.log]
  | ninf => show Fl.log (Fl.infMul (-Real.exp c)) = Fl.nan; simp [Fl.infMul, h0.ne', not_lt.2 h0.le, Fl.log]
  | fin a =>
    show Fl.log (Fl.fin (a * Real.exp c)) = Fl.log (Fl.fin a) + _
    unfold Fl.log
    dsimp only
    by_cases ha : 0 < a
    · rw [if_pos (mul_pos ha h0), if_pos ha, Real.log_mul ha.ne' h0.ne', Real.log_exp]; rfl
    · rw [if_neg (fun h => ha (pos_of_mul_pos_left h h0.le)), if_neg ha]
      by_cases h1 : a = 0
      · rw [if_pos (by rw [h1, zero_mul]), if_pos h1]; rfl
      · rw [if_neg (mul_ne_zero h1 h0.ne'), if_neg h1]; rfl

theorem Fl.lse_add (n : Nat) (f : Nat → Fl) (c : ℝ) : Fl.lse n (fun k => f k + .fin c) = Fl.lse n f + .fin c := by
  unfold Fl.lse
  simp only [Fl.exp_add_fin]
  rw [Fl.sumN_mul_fin _ _ (Real.exp_pos c), Fl.log_mul_exp]

theorem Fl.add_sub_add (x y : Fl) (c : ℝ) : (x + .fin c) - (y + .fin c) = x - y := by
  cases x <;> cases y <;> first
    | rfl
    | (show Fl.fin _ = Fl.fin _; congr 1; ring)

theorem Fl.logSoftmax_add (n : Nat) (f : Nat → Fl) (c : ℝ) (k : Nat) :
    (f k + .fin c) - Fl.lse n (fun k => f k + .fin c) = Fl.logSoftmax n f k := by
  rw [Fl.lse_add, Fl.add_sub_add]; rfl

theorem Fl.add_div_fin (x : Fl) (c : ℝ) {T : ℝ} (hT : T ≠ 0) : (x + .fin c) / .fin T = x / .fin T + .fin (c / T) := by
  cases x with
  | nan => rfl
  | pinf => show (if 0 ≤ T then Fl.pinf else Fl.ninf) = (if 0 ≤ T then Fl.pinf else Fl.ninf) + _; split_ifs <;> rfl
  | ninf => show (if 0 ≤ T then Fl.ninf else Fl.pinf) = (if 0 ≤ T then Fl.ninf else Fl.pinf) + _; split_ifs <;> rfl
  | fin a =>
    show (if T = 0 then _ else Fl.fin ((a + c) / T)) = (if T = 0 then _ else Fl.fin (a / T)) + _
    rw [if_neg hT, if_neg hT]
    show Fl.fin _ = Fl.fin _
    rw [add_div]

/-! ### Positions of an index -/

/-- `f` does not depend on coordinate `d`. -/
def Free {α : Type} (d : Nat) (f : List Nat → α) : Prop := ∀ i k, f (setAt d k i) = f i

theorem setAt_short {α : Type} {l : List α} {d : Nat} (k : α) (h : l.length ≤ d) : setAt d k l = l := by
  induction l generalizing d with
  | nil => cases d <;> rfl
  | cons a l ih =>
    cases d with
    | zero => simp at h
    | succ d => show a :: setAt d k l = _; rw [ih (by simpa using h)]

theorem at_setAt_ne {d e : Nat} (h : d ≠ e) (k : Nat) (i : List Nat) : at' e (setAt d k i) = at' e i := by
  induction i generalizing d e with
  | nil => cases d <;> rfl
  | cons a l ih =>
    cases d <;> cases e
    · exact absurd rfl h
    · rfl
    · rfl
    · exact ih (fun h' => h (by omega))

theorem setAt_comm {α : Type} {d e : Nat} (h : d ≠ e) (x y : α) (i : List α) : setAt d x (setAt e y i) = setAt e y (setAt d x i) := by
  induction i generalizing d e with
  | nil => cases d <;> cases e <;> rfl
  | cons a l ih =>
    cases d <;> cases e
    · exact absurd rfl h
    · rfl
    · rfl
    · show _ :: _ = _ :: _
      rw [ih (fun h' => h (by omega))]

theorem clipAll_setAt (s : List Nat) (d k : Nat) (i : List Nat) : ∃ k', clipAll s (setAt d k i) = setAt d k' (clipAll s i) := by
  induction s generalizing d i with
  | nil => exact ⟨0, by cases d <;> cases i <;> rfl⟩
  | cons o s ih =>
    cases i with
    | nil => exact ⟨0, by cases d <;> rfl⟩
    | cons a i =>
      cases d with
      | zero => exact ⟨_, rfl⟩
      | succ d =>
        obtain ⟨k', h⟩ := ih d i
        exact ⟨k', by show _ :: _ = _ :: _; rw [h]⟩

theorem take_setAt {α : Type} {r d : Nat} (h : r ≤ d) (k : α) (i : List α) : (setAt d k i).take r = i.take r := by
  induction i generalizing r d with
  | nil => cases d <;> rfl
  | cons a l ih =>
    cases r with
    | zero => rfl
    | succ r =>
      cases d with
      | zero => omega
      | succ d => show _ :: _ = _ :: _; rw [ih (by omega)]

theorem insAt_setAt_gt {α : Type} {d e : Nat} (h : d < e) (x k : α) {i : List α} (hi : d < i.length) :
    insAt e x (setAt d k i) = setAt d k (insAt e x i) := by
  induction i generalizing d e with
  | nil => simp at hi
  | cons a l ih =>
    cases e with
    | zero => omega
    | succ e =>
      cases d with
      | zero => rfl
      | succ d => show _ :: _ = _ :: _; rw [ih (by omega) (by simpa using hi)]

theorem insAt_setAt_le {α : Type} {d e : Nat} (h : e ≤ d) (x k : α) {i : List α} (hi : d < i.length) :
    insAt e x (setAt d k i) = setAt (d + 1) k (insAt e x i) := by
  induction i generalizing d e with
  | nil => simp at hi
  | cons a l ih =>
    cases e with
    | zero => rfl
    | succ e =>
      cases d with
      | zero => omega
      | succ d => show _ :: _ = _ :: _; rw [ih (by omega) (by simpa using hi)]

theorem Free.at {d e : Nat} (h : d ≠ e) : Free d fun i => at' e i := fun i k => at_setAt_ne h k i

theorem Free.tail {α : Type} {d : Nat} {f : List Nat → α} (h : Free d f) : Free (d + 1) fun i => f (delAt 0 i) := by
  intro i k
  cases i with
  | nil => rfl
  | cons a i => exact h i k

theorem Free.clip {α : Type} {d : Nat} {f : List Nat → α} (h : Free d f) (s : List Nat) : Free d fun i => f (clipAll s i) := by
  intro i k
  obtain ⟨k', e⟩ := clipAll_setAt s d k i
  show f _ = f _
  rw [e, h]

theorem Free.gather {α : Type} {d e : Nat} {f : List Nat → α} (h : Free d f) (hde : d ≠ e) {p : List Nat → Nat} (hp : Free d p) :
    Free d fun i => f (setAt e (p i) i) := by
  intro i k
  show f (setAt e (p (setAt d k i)) (setAt d k i)) = f _
  rw [hp, setAt_comm hde.symm, h]

theorem Free.ins_gt {α : Type} {d e : Nat} {f : List Nat → α} (h : Free d f) (hde : d < e) (x : Nat) : Free d fun i => f (insAt e x i) := by
  intro i k
  show f _ = f _
  by_cases hi : d < i.length
  · rw [insAt_setAt_gt hde x k hi, h]
  · rw [setAt_short k (by omega)]

theorem Free.ins_le {α : Type} {d e : Nat} {f : List Nat → α} (h : Free (d + 1) f) (hde : e ≤ d) (x : Nat) : Free d fun i => f (insAt e x i) := by
  intro i k
  show f _ = f _
  by_cases hi : d < i.length
  · rw [insAt_setAt_le hde x k hi, h]
  · rw [setAt_short k (by omega)]

theorem Free.take {α : Type} {d r : Nat} (h : r ≤ d) (f : List Nat → α) : Free d fun i => f (i.take r) := by
  intro i k
  show f _ = f _
  rw [take_setAt h]

/-! ### Tensors -/

/-- `t'` is `t` plus numbers that do not depend on the coordinates in `D`. -/
def Plus (D : Nat → Prop) (t t' : Tensor Fl) : Prop :=
  t'.shape = t.shape ∧ ∃ c : List Nat → ℝ, (∀ i, t'.get i = t.get i + .fin (c i)) ∧ ∀ d, D d → Free d c

/-- equal where coordinate `d` is in range. -/
def Close (d : Nat) (t t' : Tensor Fl) : Prop :=
  t'.shape = t.shape ∧ ∀ i, (d < i.length → at' d i < t.size d) → t'.get i = t.get i

theorem Res.Rel.bind' {α β γ δ : Type} {R : α → β → Prop} {S : γ → δ → Prop} {x : Res α} {y : Res β} {f : α → Res γ} {g : β → Res δ}
    (h : Res.Rel R x y) (hf : ∀ a b, R a b → Res.Rel S (f a) (g b)) : Res.Rel S (x >>= f) (y >>= g) := by
  cases x <;> cases y
  · exact h
  · exact h.elim
  · exact h.elim
  · exact hf _ _ h

theorem Res.Rel.same {α γ δ : Type} {S : γ → δ → Prop} {x : Res α} {f : α → Res γ} {g : α → Res δ}
    (hf : ∀ a, x = .ok a → Res.Rel S (f a) (g a)) : Res.Rel S (x >>= f) (x >>= g) := by
  cases x
  · rfl
  · exact hf _ rfl

theorem Plus.unsqueeze {D : Nat → Prop} {t t' : Tensor Fl} (h : Plus D t t') :
    Res.Rel (Plus fun d => 0 < d ∧ D (d - 1)) (t.unsqueeze 0) (t'.unsqueeze 0) := by
  obtain ⟨h1, c, h2, h3⟩ := h
  unfold Tensor.unsqueeze
  rw [require_true _ (Nat.zero_le _), require_true _ (Nat.zero_le _)]
  refine ⟨by show insAt 0 1 t'.shape = insAt 0 1 t.shape; rw [h1], fun i => c (delAt 0 i), fun i => h2 _, fun d hd => ?_⟩
  obtain ⟨d, rfl⟩ : ∃ e, d = e + 1 := ⟨d - 1, by omega⟩
  exact (h3 d hd.2).tail

theorem Plus.expand {D : Nat → Prop} {t t' : Tensor Fl} (h : Plus D t t') (z : List (Option Nat)) :
    Res.Rel (Plus D) (t.expand z) (t'.expand z) := by
  obtain ⟨h1, c, h2, h3⟩ := h
  unfold Tensor.expand
  rw [h1]
  cases expandShape t.shape z with
  | none => rfl
  | some q => exact ⟨rfl, fun i => c (clipAll t.shape i), fun i => h2 _, fun d hd => (h3 d hd).clip _⟩

theorem Plus.gather {D : Nat → Prop} {t t' : Tensor Fl} (h : Plus D t t') {e : Nat} (he : ¬ D e) {p : Tensor Nat}
    (hp : ∀ d, D d → Free d p.get) : Res.Rel (Plus D) (t.gather e p) (t'.gather e p) := by
  obtain ⟨h1, c, h2, h3⟩ := h
  unfold Tensor.gather
  rw [show t'.rank = t.rank by unfold Tensor.rank; rw [h1], h1, show t'.size e = t.size e by unfold Tensor.size; rw [h1]]
  exact Res.Rel.same fun _ _ => Res.Rel.same fun _ _ => Res.Rel.same fun _ _ =>
    ⟨rfl, fun i => c (setAt e (p.get i) i), fun i => h2 _, fun d hd => (h3 d hd).gather (by rintro rfl; exact he hd) (hp d hd)⟩

theorem Plus.gather' {D : Nat → Prop} {t t' : Tensor Fl} (h : Plus D t t') {e : Nat} (he : ¬ D e) {p : Tensor Nat}
    (hp : ∀ d, D d → Free d p.get) : Res.Rel (fun u u' => Plus D u u' ∧ u.shape = p.shape) (t.gather e p) (t'.gather e p) := by
  have h1 := h.gather he hp
  have h2 : ∀ u, t.gather e p = .ok u → u.shape = p.shape := by
    intro u hu
    unfold Tensor.gather at hu
    obtain ⟨_, _, hu⟩ := bind_ok hu
    obtain ⟨_, _, hu⟩ := bind_ok hu
    obtain ⟨_, _, hu⟩ := bind_ok hu
    simp only [Res.pure_eq, Except.ok.injEq] at hu
    subst hu
    rfl
  revert h1 h2
  cases t.gather e p <;> cases t'.gather e p <;> intro h1 h2
  · exact h1
  · exact h1.elim
  · exact h1.elim
  · exact ⟨h1, h2 _ rfl⟩

theorem expand_shape {α : Type} {t p : Tensor α} {z : List (Option Nat)} (h : t.expand z = .ok p) : expandShape t.shape z = some p.shape := by
  unfold Tensor.expand at h
  cases he : expandShape t.shape z with
  | none => rw [he] at h; exact absurd h (by simp)
  | some q =>
    rw [he] at h
    simp only [Except.ok.injEq] at h
    subst h
    rfl

theorem Plus.squeeze_gt {D : Nat → Prop} {t t' : Tensor Fl} (h : Plus D t t') {e : Nat} (he : ∀ d, D d → d < e) :
    Res.Rel (Plus D) (t.squeeze e) (t'.squeeze e) := by
  have h' := h
  obtain ⟨h1, c, h2, h3⟩ := h
  unfold Tensor.squeeze
  rw [show t'.rank = t.rank by unfold Tensor.rank; rw [h1], show t'.size e = t.size e by unfold Tensor.size; rw [h1], h1]
  refine Res.Rel.same fun _ _ => ?_
  by_cases hs : t.size e = 1
  · simp only [if_pos hs]
    exact ⟨rfl, fun i => c (insAt e 0 i), fun i => h2 _, fun d hd => (h3 d hd).ins_gt (he d hd) 0⟩
  · simp only [if_neg hs]
    exact h'

theorem Plus.squeeze_le {D : Nat → Prop} {t t' : Tensor Fl} (h : Plus D t t') {e : Nat} (hs : t.size e = 1) :
    Res.Rel (Plus fun d => e ≤ d ∧ D (d + 1)) (t.squeeze e) (t'.squeeze e) := by
  obtain ⟨h1, c, h2, h3⟩ := h
  unfold Tensor.squeeze
  rw [show t'.rank = t.rank by unfold Tensor.rank; rw [h1], show t'.size e = t.size e by unfold Tensor.size; rw [h1], h1]
  refine Res.Rel.same fun _ _ => ?_
  simp only [if_pos hs]
  exact ⟨rfl, fun i => c (insAt e 0 i), fun i => h2 _, fun d hd => (h3 _ hd.2).ins_le hd.1 0⟩

/-- like `Plus` for one coordinate, as far as it is in range. -/
def Plus1 (d : Nat) (t t' : Tensor Fl) : Prop :=
  t'.shape = t.shape ∧ ∃ c : List Nat → ℝ, (∀ i, t'.get i = t.get i + .fin (c i)) ∧
    ∀ i, (d < i.length → at' d i < t.size d) → ∀ k, k < t.size d → c (setAt d k i) = c i

theorem Plus.one {D : Nat → Prop} {t t' : Tensor Fl} (h : Plus D t t') {d : Nat} (hd : D d) : Plus1 d t t' := by
  obtain ⟨h1, c, h2, h3⟩ := h
  exact ⟨h1, c, h2, fun i _ k _ => h3 d hd i k⟩

theorem Plus1.logSoftmax {d : Nat} {t t' : Tensor Fl} (h : Plus1 d t t') {f : Fl → Fl} {g : ℝ → ℝ}
    (hf : ∀ x c, f (x + .fin c) = f x + .fin (g c)) :
    Res.Rel (Close d) ((t.map f).logSoftmax d) ((t'.map f).logSoftmax d) := by
  obtain ⟨h1, c, h2, h3⟩ := h
  unfold Tensor.logSoftmax
  rw [show (t'.map f).rank = (t.map f).rank from congrArg List.length h1]
  refine Res.Rel.same fun _ _ => ⟨h1, fun i hi => ?_⟩
  by_cases hl : d < i.length
  · have hi' : at' d i < t.size d := hi hl
    show Fl.logSoftmax (at' d t'.shape) (fun k => f (t'.get (setAt d k i))) (at' d i) =
      Fl.logSoftmax (at' d t.shape) (fun k => f (t.get (setAt d k i))) (at' d i)
    rw [h1, ← Fl.logSoftmax_add _ (fun k => f (t.get (setAt d k i))) (g (c i))]
    refine Fl.logSoftmax_congr (g := fun k => f (t.get (setAt d k i)) + .fin (g (c i))) (fun k hk => ?_) hi'
    rw [h2, h3 i (fun _ => hi') k hk, hf]
  · have e : ∀ k, setAt d k i = i := fun k => setAt_short k (by omega)
    show Fl.logSoftmax (at' d t'.shape) (fun k => f (t'.get (setAt d k i))) (at' d i) =
      Fl.logSoftmax (at' d t.shape) (fun k => f (t.get (setAt d k i))) (at' d i)
    rw [h1]
    simp only [e, h2, hf]
    exact Fl.logSoftmax_add _ (fun _ => f (t.get i)) _ 0

theorem Plus1.weights {d : Nat} {t t' : Tensor Fl} (h : Plus1 d t t') {T : ℝ} (hT : T ≠ 0) :
    Res.Rel (Close d) (logitsToLogWeights t d T) (logitsToLogWeights t' d T) :=
  h.logSoftmax (f := (· / Fl.fin T)) (g := (· / T)) fun x c => Fl.add_div_fin x c hT

/-- with a number that does not depend on `d` anywhere, the normalised weights are the same tensor. -/
theorem Plus.weights_eq {D : Nat → Prop} {t t' : Tensor Fl} (h : Plus D t t') {d : Nat} (hd : D d) {T : ℝ} (hT : T ≠ 0) :
    logitsToLogWeights t d T = logitsToLogWeights t' d T := by
  obtain ⟨h1, c, h2, h3⟩ := h
  unfold logitsToLogWeights Tensor.logSoftmax
  rw [show (t'.map (· / Fl.fin T)).rank = (t.map (· / Fl.fin T)).rank from congrArg List.length h1]
  refine bind_same fun _ => congrArg _ ?_
  show (⟨t.shape, _⟩ : Tensor Fl) = ⟨t'.shape, _⟩
  rw [h1]
  congr 1
  funext i
  show Fl.logSoftmax (at' d t.shape) (fun k => t.get (setAt d k i) / .fin T) (at' d i) =
    Fl.logSoftmax (at' d t'.shape) (fun k => t'.get (setAt d k i) / .fin T) (at' d i)
  rw [h1]
  simp only [h2, h3 d hd i, Fl.add_div_fin _ _ hT]
  exact (Fl.logSoftmax_add _ (fun k => t.get (setAt d k i) / .fin T) _ _).symm

/-! ### Draws -/

theorem at_insAt_same {d k : Nat} {i : List Nat} (h : d < (insAt d k i).length) : at' d (insAt d k i) = k := by
  induction i generalizing d with
  | nil => cases d with
    | zero => rfl
    | succ d => simp [insAt] at h
  | cons a i ih => cases d with
    | zero => rfl
    | succ d => exact ih (by simpa [insAt] using h)

theorem Close.draw {t t' : Tensor Fl} (h : Close 2 t t') (ctx : Ctx) : Rand.Alike (drawIndices ctx t) (drawIndices ctx t') := by
  obtain ⟨h1, h2⟩ := h
  have key : ∀ i k, k < t.size 2 → t.get (insAt 2 k i) = t'.get (insAt 2 k i) := fun i k hk =>
    (h2 _ fun hl => by rw [at_insAt_same hl]; exact hk).symm
  unfold drawIndices
  split_ifs
  · refine Rand.Alike.of_eq (congrArg _ ?_)
    unfold Tensor.argmax Tensor.reduce
    rw [show t'.rank = t.rank by unfold Tensor.rank; rw [h1], h1, show t'.size 2 = t.size 2 by unfold Tensor.size; rw [h1]]
    refine bind_same fun _ => bind_same fun _ => congrArg _ ?_
    show (⟨_, _⟩ : Tensor Nat) = ⟨_, _⟩
    congr 1
    funext i
    exact Fl.argmaxN_congr fun k hk => key i k hk
  · unfold Tensor.categorical
    rw [h1, show t'.size 2 = t.size 2 by unfold Tensor.size; rw [h1]]
    exact (Rand.Alike.drawAll (fun i _ => Rand.Alike.categorical fun k hk => key i k hk) _).bind fun _ => .refl _

theorem clipAll_close {s t r i : List Nat} {d : Nat} (h : bshape s t = some r) (hi : d < i.length → at' d i < at' d r) :
    d < (clipAll s i).length → at' d (clipAll s i) < at' d s := by
  induction s generalizing t r i d with
  | nil => intro hl; simp [clipAll] at hl
  | cons a s ih =>
    cases t with
    | nil => simp [bshape] at h
    | cons b t =>
      cases i with
      | nil => intro hl; simp [clipAll] at hl
      | cons x i =>
        unfold bshape at h
        cases hb : bdim a b with
        | none => rw [hb] at h; simp at h
        | some z =>
          cases hr : bshape s t with
          | none => rw [hb, hr] at h; simp at h
          | some q =>
            rw [hb, hr] at h
            simp at h
            subst h
            cases d with
            | zero =>
              intro _
              have hx : x < z := hi (by simp)
              show clip a x < a
              unfold bdim at hb
              unfold clip
              split_ifs at hb ⊢ <;> simp at hb <;> omega
            | succ d =>
              intro hl
              exact ih hr (fun h' => hi (by simpa using h')) (by simpa [clipAll] using hl)

theorem bshape_length {a b c : List Nat} (h : bshape a b = some c) : c.length = a.length := by
  induction a generalizing b c with
  | nil => cases b <;> simp [bshape] at h; subst h; rfl
  | cons x a ih =>
    cases b with
    | nil => simp [bshape] at h
    | cons y b =>
      unfold bshape at h
      cases hb : bdim x y with
      | none => rw [hb] at h; simp at h
      | some z =>
        cases hr : bshape a b with
        | none => rw [hb, hr] at h; simp at h
        | some q =>
          rw [hb, hr] at h
          simp at h
          subst h
          simp [ih hr]

theorem padRank_self {α : Type} {k : Nat} (t : Tensor α) (h : t.rank = k) : padRank k t = t := by
  subst h
  unfold padRank
  rw [Nat.sub_self]
  rfl

theorem Close.zip {d : Nat} {s s' t : Tensor Fl} (h : Close d s s') (hr : s.rank = t.rank) (f : Fl → Fl → Fl) :
    Res.Rel (fun u u' => Close d u u' ∧ u.rank = t.rank) (zipWith f s t) (zipWith f s' t) := by
  obtain ⟨h1, h2⟩ := h
  have hr' : s'.rank = t.rank := by unfold Tensor.rank at *; rw [h1]; exact hr
  unfold zipWith
  rw [padRank_self s hr, padRank_self s' hr']
  dsimp only
  rw [padRank_self t hr.symm, padRank_self t hr'.symm, h1]
  cases hb : bshape s.shape t.shape with
  | none => rfl
  | some r =>
    refine ⟨⟨rfl, fun i hi => ?_⟩, (bshape_length hb).trans hr⟩
    show f _ _ = f _ _
    rw [h2 _ (clipAll_close hb hi)]

theorem Close.posterior {w w' lls : Tensor Fl} (h : Close 2 w w') (hr : w.rank = lls.rank) :
    Res.Rel (Close 2) (posteriorWeights w lls) (posteriorWeights w' lls) := by
  unfold posteriorWeights
  refine (h.zip hr (· + ·)).bind' fun u u' hu => ?_
  obtain ⟨⟨h1, h2⟩, hu⟩ := hu
  have e : u'.logsumexpKeep 2 = u.logsumexpKeep 2 := by
    unfold logsumexpKeep reduceKeep
    rw [show u'.rank = u.rank by unfold Tensor.rank; rw [h1], h1, show u'.size 2 = u.size 2 by unfold Tensor.size; rw [h1]]
    by_cases hl : 2 < u.rank
    · refine bind_same fun _ => congrArg _ ?_
      show (⟨_, _⟩ : Tensor Fl) = ⟨_, _⟩
      congr 1
      funext i
      refine Fl.lse_congr fun k hk => h2 _ fun hl => ?_
      rw [at_setAt (by rwa [length_setAt] at hl)]; exact hk
    · rw [require_false _ hl]; rfl
  rw [e]
  refine Res.Rel.same fun v hv => ?_
  have hv' : u.rank = v.rank := by
    unfold logsumexpKeep reduceKeep at hv
    obtain ⟨_, _, hv⟩ := bind_ok hv
    simp only [Res.pure_eq, Except.ok.injEq] at hv
    subst hv
    exact length_setAt.symm
  have := Close.zip ⟨h1, h2⟩ hv' (· - ·)
  unfold Tensor.sub
  revert this
  cases zipWith (· - ·) u v <;> cases zipWith (· - ·) u' v <;> intro this
  · exact this
  · exact this.elim
  · exact this.elim
  · exact this.1

/-! ### Layers -/

theorem free_index {t p : Tensor Nat} {k d : Nat} {z : List (Option Nat)} (hr : t.rank ≤ d)
    (h : (t.unsqueezeEnd k).expand z = .ok p) : Free d p.get := by
  unfold Tensor.expand at h
  cases he : expandShape (t.unsqueezeEnd k).shape z with
  | none => rw [he] at h; exact absurd h (by simp)
  | some q =>
    rw [he] at h
    simp only [Except.ok.injEq] at h
    subst h
    exact (Free.take hr t.get).clip _

/-- what is known about the context once the checks have passed. -/
theorem checkContext_ranks {D : Nat} {ctx : Ctx} (h : checkContext D ctx = .ok ()) : ctx.indices_out.rank = 2 ∧ ctx.indices_repetition.rank = 1 := by
  unfold checkContext at h
  obtain ⟨_, _, h⟩ := bind_ok h
  obtain ⟨_, _, h⟩ := bind_ok h
  obtain ⟨_, _, h⟩ := bind_ok h
  obtain ⟨_, _, h⟩ := bind_ok h
  obtain ⟨_, h1, h⟩ := bind_ok h
  obtain ⟨_, h2, h⟩ := bind_ok h
  exact ⟨(require_ok_iff _ _).1 h1, (require_ok_iff _ _).1 h2⟩

/-- weights with three dimensions that agree in range. -/
def Close3 (w w' : Tensor Fl) : Prop := Close 2 w w' ∧ w.rank = 3

theorem Plus1.close3 {t t' : Tensor Fl} (h : Plus1 2 t t') (hr : t.rank = 3) {T : ℝ} (hT : T ≠ 0) :
    Res.Rel Close3 (logitsToLogWeights t 2 T) (logitsToLogWeights t' 2 T) := by
  have h1 := h.weights hT
  have h2 : ∀ w, logitsToLogWeights t 2 T = .ok w → w.rank = 3 := by
    intro w hw
    unfold logitsToLogWeights Tensor.logSoftmax at hw
    obtain ⟨_, _, hw⟩ := bind_ok hw
    simp only [Res.pure_eq, Except.ok.injEq] at hw
    subst hw
    exact hr
  revert h1 h2
  cases logitsToLogWeights t 2 T <;> cases logitsToLogWeights t' 2 T <;> intro h1 h2
  · exact h1
  · exact h1.elim
  · exact h1.elim
  · exact ⟨h1, h2 _ rfl⟩

theorem SumLayer.select_shift (L : SumL) {c : List Nat → ℝ} (hc : Free 1 c) {ctx : Ctx} (hT : ctx.temperature_sums ≠ 0)
    (h1 : ctx.indices_out.rank = 2) (h2 : ctx.indices_repetition.rank = 1) :
    Res.Rel Close3 (selectWeights L ctx) (selectWeights (L.plus c) ctx) := by
  have h : Plus (fun d => d = 1) L.logits (L.plus c).logits := ⟨rfl, c, fun _ => rfl, by rintro d rfl; exact hc⟩
  unfold selectWeights
  refine h.unsqueeze.bind' fun _ _ h => (h.expand _).bind' fun _ _ h => Res.Rel.same fun p hp => (h.gather (by omega)
    fun d hd => free_index (by omega) hp).bind' fun _ _ h => (h.squeeze_gt fun d hd => by omega).bind' fun _ _ h =>
      Res.Rel.same fun r hr => (h.gather (by omega) fun d hd => free_index (by omega) hr).bind' fun _ _ h =>
        (h.squeeze_gt fun d hd => by omega).bind' fun a b h => ?_
  rw [show b.shape = a.shape from h.1]
  refine Res.Rel.same fun _ ha => (h.one (d := 2) (by omega)).close3 ?_ hT
  unfold Tensor.rank
  rw [(require_ok_iff _ _).1 ha]
  rfl

theorem MixingLayer.select_shift (L : SumL) {c : List Nat → ℝ} (hc : Free 2 c) {ctx : Ctx} (hT : ctx.temperature_sums ≠ 0)
    (h1 : ctx.indices_out.rank = 2) : Res.Rel Close3 (selectWeights L ctx) (selectWeights (L.plus c) ctx) := by
  have h : Plus (fun d => d = 2) L.logits (L.plus c).logits := ⟨rfl, c, fun _ => rfl, by rintro d rfl; exact hc⟩
  unfold selectWeights
  refine h.unsqueeze.bind' fun _ _ h => (h.expand _).bind' fun _ b h => Res.Rel.same fun p hp => (h.gather' (by omega)
    fun d hd => free_index (by omega) hp).bind' fun a b h => ?_
  obtain ⟨h, hs⟩ := h
  obtain ⟨x, y, hxy⟩ := List.length_eq_two.1 h1
  have hs : a.size 2 = 1 := by
    have hp := expand_shape hp
    rw [← hs, show (ctx.indices_out.unsqueezeEnd 2).shape = [x, y] ++ [1, 1] by unfold unsqueezeEnd; rw [hxy]; rfl] at hp
    simp [expandShape] at hp
    simp [Tensor.size, ← hp, at']
  refine (h.squeeze_le hs).bind' fun a b h => ?_
  rw [show b.shape = a.shape from h.1]
  refine Res.Rel.same fun _ ha => (h.one (d := 2) (by omega)).close3 ?_ hT
  unfold Tensor.rank
  rw [(require_ok_iff _ _).1 ha]
  rfl

theorem LinsumLayer.select_shift (L : SumL) {c : List Nat → ℝ} (hc : Free 1 c) {ctx : Ctx} (hT : ctx.temperature_sums ≠ 0)
    (h1 : ctx.indices_out.rank = 2) (h2 : ctx.indices_repetition.rank = 1) :
    Res.Rel Close3 (selectWeights L ctx) (selectWeights (L.plus c) ctx) := by
  have h : Plus (fun d => d = 1) L.logits (L.plus c).logits := ⟨rfl, c, fun _ => rfl, by rintro d rfl; exact hc⟩
  unfold selectWeights
  refine h.unsqueeze.bind' fun _ _ h => (h.expand _).bind' fun _ _ h => Res.Rel.same fun p hp => (h.gather (by omega)
    fun d hd => free_index (by omega) hp).bind' fun _ _ h => (h.squeeze_gt fun d hd => by omega).bind' fun _ _ h =>
      Res.Rel.same fun r hr => (h.gather (by omega) fun d hd => free_index (by omega) hr).bind' fun _ _ h =>
        (h.squeeze_gt fun d hd => by omega).bind' fun a b h => ?_
  rw [show b.shape = a.shape from h.1]
  refine Res.Rel.same fun _ ha => (h.one (d := 2) (by omega)).close3 ?_ hT
  unfold Tensor.rank
  rw [(require_ok_iff _ _).1 ha]
  rfl

theorem rank_repeatInterleave {t u : Tensor Nat} {k d : Nat} (h : t.repeatInterleave k d = .ok u) : u.rank = t.rank := by
  unfold repeatInterleave at h
  obtain ⟨_, _, h⟩ := bind_ok h
  simp only [Res.pure_eq, Except.ok.injEq] at h
  subst h
  exact length_setAt

theorem rank_take {t u : Tensor Nat} {d k : Nat} (h : t.take d k = .ok u) : u.rank = t.rank := by
  unfold Tensor.take at h
  obtain ⟨_, _, h⟩ := bind_ok h
  simp only [Res.pure_eq, Except.ok.injEq] at h
  subst h
  exact length_setAt

theorem LinsumLayer2.select_shift (L : SumL) {c : List Nat → ℝ} (hc : Free 1 c) {ctx : Ctx} (hT : ctx.temperature_sums ≠ 0)
    (h1 : ctx.indices_out.rank = 2) (h2 : ctx.indices_repetition.rank = 1) :
    Res.Rel Close3 (selectWeights L ctx) (selectWeights (L.plus c) ctx) := by
  have h : Plus (fun d => d = 1) L.logits (L.plus c).logits := ⟨rfl, c, fun _ => rfl, by rintro d rfl; exact hc⟩
  unfold selectWeights
  refine h.unsqueeze.bind' fun _ _ h => (h.expand _).bind' fun _ _ h => Res.Rel.same fun p hp => ?_
  have r0 := rank_repeatInterleave hp
  have key : ∀ {q x x'}, q.rank = 2 → Plus (fun d => 0 < d ∧ d - 1 = 1) x x' → Res.Rel Close3 (do
      let p_idxs ← (unsqueezeEnd 3 q).expand [none, none, some L.num_sums_in, none, some L.num_repetitions]
      let logits ← x.gather 3 p_idxs
      let logits ← logits.squeeze 3
      let r_idxs := ctx.indices_repetition.unsqueezeEnd 3
      let r_idxs ← r_idxs.expand [none, some L.num_features, some L.num_sums_in, none]
      let logits ← logits.gather 3 r_idxs
      let logits ← logits.squeeze 3
      require .assertion (logits.shape = [ctx.num_samples, L.num_features, L.num_sums_in])
      logitsToLogWeights logits 2 ctx.temperature_sums) (do
      let p_idxs ← (unsqueezeEnd 3 q).expand [none, none, some L.num_sums_in, none, some L.num_repetitions]
      let logits ← x'.gather 3 p_idxs
      let logits ← logits.squeeze 3
      let r_idxs := ctx.indices_repetition.unsqueezeEnd 3
      let r_idxs ← r_idxs.expand [none, some L.num_features, some L.num_sums_in, none]
      let logits ← logits.gather 3 r_idxs
      let logits ← logits.squeeze 3
      require .assertion (logits.shape = [ctx.num_samples, L.num_features, L.num_sums_in])
      logitsToLogWeights logits 2 ctx.temperature_sums) := by
    intro q x x' r1 h
    refine Res.Rel.same fun p hp => (h.gather (by omega) fun d hd => free_index (by omega) hp).bind' fun _ _ h =>
      (h.squeeze_gt fun d hd => by omega).bind' fun _ _ h =>
        Res.Rel.same fun r hr => (h.gather (by omega) fun d hd => free_index (by omega) hr).bind' fun _ _ h =>
          (h.squeeze_gt fun d hd => by omega).bind' fun a b h => ?_
    rw [show b.shape = a.shape from h.1]
    refine Res.Rel.same fun _ ha => (h.one (d := 2) (by omega)).close3 ?_ hT
    unfold Tensor.rank
    rw [(require_ok_iff _ _).1 ha]
    rfl
  rw [show pad (L.plus c) = pad L from rfl]
  dsimp only
  split_ifs
  · exact Res.Rel.same fun q hq => key (by rw [rank_take hq, r0, h1]) h
  · exact key (q := p) (by rw [r0, h1]) h

theorem unflat_pair {N D S n d k : Nat} (hk : k < S ^ 2) : ∃ a b, unflat [N, D, S, S] (flat [N, D, S ^ 2] [n, d, k]) =
    [(n * D + d) / D % N, (n * D + d) % D % D, a, b] := by
  have e : flat [N, D, S ^ 2] [n, d, k] = (n * D + d) * (S * S) + k := by simp [flat, numelS]; ring
  have hS : 0 < S * S := by rw [pow_two] at hk; omega
  have hk' : k < S * S := by rwa [pow_two] at hk
  have h1 : ((n * D + d) * (S * S) + k) / (S * S) = n * D + d := by
    rw [Nat.add_comm, Nat.add_mul_div_right _ _ hS, Nat.div_eq_of_lt hk', Nat.zero_add]
  rw [e]
  simp only [unflat, numelS, Nat.mul_one]
  rw [show ((n * D + d) * (S * S) + k) / (D * (S * S)) = (n * D + d) / D by rw [Nat.mul_comm D, ← Nat.div_div_eq_div_mul, h1],
    show ((n * D + d) * (S * S) + k) % (D * (S * S)) / (S * S) = (n * D + d) % D by
      rw [Nat.mul_comm D, Nat.mod_mul_right_div_self, h1]]
  exact ⟨_, _, rfl⟩

theorem Plus.view {t t' : Tensor Fl} (h : Plus (fun d => d = 2 ∨ d = 3) t t') {N D S : Nat} (hs : t.shape = [N, D, S, S]) :
    Res.Rel (fun u u' => Plus1 2 u u' ∧ u.rank = 3) (t.view [N, D, S ^ 2]) (t'.view [N, D, S ^ 2]) := by
  obtain ⟨h1, c, h2, h3⟩ := h
  unfold Tensor.view
  rw [show t'.numel = t.numel by unfold Tensor.numel; rw [h1], h1]
  refine Res.Rel.same fun _ _ => ⟨⟨rfl, fun i => c (unflat t.shape (flat [N, D, S ^ 2] i)), fun i => h2 _, fun i hi k hk => ?_⟩, rfl⟩
  match i with
  | [] => rfl
  | [_] => rfl
  | [_, _] => rfl
  | n :: d :: k' :: rest =>
    have hk' : k' < S ^ 2 := hi (by simp)
    have hk : k < S ^ 2 := hk
    obtain ⟨a, b, e1⟩ := unflat_pair (N := N) (D := D) (n := n) (d := d) hk
    obtain ⟨a', b', e2⟩ := unflat_pair (N := N) (D := D) (n := n) (d := d) hk'
    have f1 : ∀ k, flat [N, D, S ^ 2] (n :: d :: k :: rest) = flat [N, D, S ^ 2] [n, d, k] := fun k => by
      cases rest <;> simp [flat]
    show c (unflat t.shape (flat [N, D, S ^ 2] (n :: d :: k :: rest))) = c (unflat t.shape (flat [N, D, S ^ 2] (n :: d :: k' :: rest)))
    rw [hs, f1, f1, e1, e2]
    have g1 := h3 2 (Or.inl rfl) [(n * D + d) / D % N, (n * D + d) % D % D, a', b'] a
    have g2 := h3 3 (Or.inr rfl) [(n * D + d) / D % N, (n * D + d) % D % D, a, b'] b
    exact g2.trans g1

theorem EinsumLayer.select_shift (L : SumL) {c : List Nat → ℝ} (hc : Free 3 c) (hc' : Free 4 c) {ctx : Ctx} (hT : ctx.temperature_sums ≠ 0)
    (h1 : ctx.indices_out.rank = 2) (h2 : ctx.indices_repetition.rank = 1) :
    Res.Rel Close3 (selectWeights L ctx) (selectWeights (L.plus c) ctx) := by
  have h : Plus (fun d => d = 3 ∨ d = 4) L.logits (L.plus c).logits :=
    ⟨rfl, c, fun _ => rfl, by rintro d (rfl | rfl); exacts [hc, hc']⟩
  unfold selectWeights
  refine h.unsqueeze.bind' fun _ _ h => (h.expand _).bind' fun _ _ h => Res.Rel.same fun p hp => (h.gather' (by omega)
    fun d hd => free_index (by omega) hp).bind' fun a b h => ?_
  obtain ⟨h, hs⟩ := h
  obtain ⟨x, y, hxy⟩ := List.length_eq_two.1 h1
  have hs : a.size 2 = 1 := by
    have hp := expand_shape hp
    rw [← hs, show (ctx.indices_out.unsqueezeEnd 4).shape = [x, y] ++ [1, 1, 1, 1] by unfold unsqueezeEnd; rw [hxy]; rfl] at hp
    simp [expandShape] at hp
    simp [Tensor.size, ← hp, at']
  refine (h.squeeze_le hs).bind' fun _ _ h => Res.Rel.same fun p hp => (h.gather' (by omega)
    fun d hd => free_index (by omega) hp).bind' fun a b h => ?_
  obtain ⟨h, hs⟩ := h
  obtain ⟨x, hxy⟩ := List.length_eq_one_iff.1 h2
  have hs : a.size 2 = 1 := by
    have hp := expand_shape hp
    rw [← hs, show (ctx.indices_repetition.unsqueezeEnd 4).shape = [x] ++ [1, 1, 1, 1] by unfold unsqueezeEnd; rw [hxy]; rfl] at hp
    simp [expandShape] at hp
    simp [Tensor.size, ← hp, at']
  refine (h.squeeze_le hs).bind' fun a b h => ?_
  rw [show b.size = a.size by unfold Tensor.size; rw [h.1], show b.shape = a.shape from h.1]
  refine Res.Rel.same fun _ ha => ?_
  have ha := (require_ok_iff _ _).1 ha
  have h : Plus (fun d => d = 2 ∨ d = 3) a b := by
    obtain ⟨g1, c, g2, g3⟩ := h
    exact ⟨g1, c, g2, fun d hd => g3 d (by omega)⟩
  refine (h.view (N := a.size 0) (D := a.size 1) (S := L.num_sums_in) ?_).bind' fun u v h => h.1.close3 h.2 hT
  rw [ha]
  simp [Tensor.size, ha, at']

/-! ### Sampling -/

/-- every outcome satisfies `P`; exceptions are not excluded. -/
def Rand.Outs {α : Type} : Rand α → (α → Prop) → Prop
  | .pure a, P => P a
  | .fail _, _ => True
  | .draw K _ k, P => ∀ j, (0 < K → j < K) → (k j).Outs P
  | .leaf _ k, P => ∀ x, (k x).Outs P

theorem Rand.Outs.bind {α β : Type} {x : Rand α} {f : α → Rand β} {P : α → Prop} {Q : β → Prop} (h : x.Outs P)
    (hf : ∀ a, P a → (f a).Outs Q) : (x.bind f).Outs Q := by
  induction x with
  | pure a => exact hf a h
  | fail e => exact trivial
  | draw K w k ih => exact fun j hj => ih j (h j hj)
  | leaf μ k ih => exact fun x => ih x (h x)

theorem Rand.Outs.trivial {α : Type} (x : Rand α) : x.Outs fun _ => True := by
  induction x with
  | pure a => exact True.intro
  | fail e => exact True.intro
  | draw K w k ih => exact fun j _ => ih j
  | leaf μ k ih => exact ih

theorem Rand.Outs.lift {α : Type} {x : Res α} {P : α → Prop} (h : ∀ a, x = .ok a → P a) : (Rand.lift x).Outs P := by
  cases x with
  | error e => exact True.intro
  | ok a => exact h a rfl

theorem Rand.Alike.bindP {α β : Type} {x y : Rand α} (h : Alike x y) {P : α → Prop} (hx : x.Outs P) {f g : α → Rand β}
    (hf : ∀ a, P a → Alike (f a) (g a)) : Alike (x.bind f) (y.bind g) := by
  induction h with
  | pure a => exact hf a hx
  | fail e => exact .fail e
  | draw hw _ ih => exact .draw hw fun j hj => ih j hj (hx j hj)
  | leaf _ ih => exact .leaf fun x => ih x (hx x)

theorem Rand.Alike.lift_rel {α β : Type} {R : α → α → Prop} {x y : Res α} (h : Res.Rel R x y) {f g : α → Rand β}
    (hf : ∀ a b, R a b → Alike (f a) (g b)) : Alike ((Rand.lift x).bind f) ((Rand.lift y).bind g) := by
  cases x <;> cases y
  · rw [show _ = _ from h]; exact .fail _
  · exact h.elim
  · exact h.elim
  · exact hf _ _ h

theorem alike_absSample {D : Nat} {sel sel' : Ctx → Res (Tensor Fl)} {cond cond' : Cache → Ctx → Tensor Fl → Res (Tensor Fl)}
    {post : Ctx → Tensor Nat → Res (Tensor Nat)} (cache : Option Cache) (ctx : Ctx)
    (hsel : ctx.indices_out.rank = 2 → ctx.indices_repetition.rank = 1 → Res.Rel Close3 (sel ctx) (sel' ctx))
    (hcond : ∀ k w w', ctx.indices_out.rank = 2 → ctx.indices_repetition.rank = 1 → Close3 w w' →
      Res.Rel (Close 2) (cond k ctx w) (cond' k ctx w')) :
    Rand.Alike (absSample D sel cond post cache ctx) (absSample D sel' cond' post cache ctx) := by
  unfold absSample
  cases hc : checkContext D ctx with
  | error e => exact .fail e
  | ok _ =>
    obtain ⟨h1, h2⟩ := checkContext_ranks hc
    refine Rand.Alike.lift_rel (hsel h1 h2) fun w w' hw => ?_
    have key : ∀ w w', Close 2 w w' → Rand.Alike ((drawIndices ctx w).bind fun i => (Rand.lift (post ctx i)).bind fun i =>
        Rand.pure { ctx with indices_out := i }) ((drawIndices ctx w').bind fun i => (Rand.lift (post ctx i)).bind fun i =>
        Rand.pure { ctx with indices_out := i }) := fun w w' h => (h.draw ctx).bind fun i => .refl _
    cases cache with
    | none => exact key w w' hw.1
    | some k => exact Rand.Alike.lift_rel (hcond k w w' h1 h2 hw) key

theorem outs_absSample {D : Nat} {sel : Ctx → Res (Tensor Fl)} {cond : Cache → Ctx → Tensor Fl → Res (Tensor Fl)}
    {post : Ctx → Tensor Nat → Res (Tensor Nat)} (cache : Option Cache) (ctx : Ctx) :
    (absSample D sel cond post cache ctx).Outs fun c => c.temperature_sums = ctx.temperature_sums := by
  unfold absSample
  refine (Rand.Outs.trivial _).bind fun _ _ => (Rand.Outs.trivial _).bind fun w _ => ?_
  have key : ∀ w, ((drawIndices ctx w).bind fun i => (Rand.lift (post ctx i)).bind fun i =>
      Rand.pure { ctx with indices_out := i }).Outs fun c => c.temperature_sums = ctx.temperature_sums := fun w =>
    (Rand.Outs.trivial _).bind fun i _ => (Rand.Outs.trivial _).bind fun i _ => rfl
  cases cache with
  | none => exact key w
  | some k => exact (Rand.Outs.trivial _).bind fun w _ => key w

theorem rank_reps {α : Type} {t u v : Tensor α} {r p : Tensor Nat} {a b : Nat} {x : Option Nat} (hx : x = none ∨ x = some 1) (hr : r.rank = 1)
    (hp : (r.unsqueezeEnd 3).expand [none, some a, some b, x] = .ok p) (hg : t.gather 3 p = .ok u) (hs : u.squeeze 3 = .ok v) : v.rank = 3 := by
  obtain ⟨n, hn⟩ := List.length_eq_one_iff.1 hr
  have e : p.shape = [n, a, b, 1] := by
    have hp := expand_shape hp
    rw [show (r.unsqueezeEnd 3).shape = [n] ++ [1, 1, 1] by unfold unsqueezeEnd; rw [hn]; rfl] at hp
    rcases hx with rfl | rfl <;> simp [expandShape] at hp <;> exact hp.symm
  unfold Tensor.gather at hg
  obtain ⟨_, _, hg⟩ := bind_ok hg
  obtain ⟨_, _, hg⟩ := bind_ok hg
  obtain ⟨_, _, hg⟩ := bind_ok hg
  simp only [Res.pure_eq, Except.ok.injEq] at hg
  subst hg
  unfold Tensor.squeeze at hs
  obtain ⟨_, _, hs⟩ := bind_ok hs
  simp only [Res.pure_eq, Except.ok.injEq] at hs
  subst hs
  simp [Tensor.size, e, at', Tensor.rank, delAt]

theorem rank_view {α : Type} {t u : Tensor α} {s : List Nat} (h : t.view s = .ok u) : u.rank = s.length := by
  unfold Tensor.view at h
  obtain ⟨_, _, h⟩ := bind_ok h
  simp only [Res.pure_eq, Except.ok.injEq] at h
  subst h
  rfl

theorem SumLayer.alike (L : SumL) {c : List Nat → ℝ} (hc : Free 1 c) (cache : Option Cache) (ctx : Ctx) (hT : ctx.temperature_sums ≠ 0) :
    Rand.Alike (sample L cache ctx) (sample (L.plus c) cache ctx) := by
  unfold sample
  refine alike_absSample cache ctx (fun h1 h2 => select_shift L hc hT h1 h2) fun k w w' h1 h2 hw => ?_
  unfold condition
  cases k with
  | two a b => rfl
  | one lls =>
    exact Res.Rel.same fun p hp => Res.Rel.same fun u hu => Res.Rel.same fun v hv =>
      hw.1.posterior (hw.2.trans (rank_reps (Or.inr rfl) h2 hp hu hv).symm)

theorem LinsumLayer.alike (L : SumL) {c : List Nat → ℝ} (hc : Free 1 c) (cache : Option Cache) (ctx : Ctx) (hT : ctx.temperature_sums ≠ 0) :
    Rand.Alike (sample L cache ctx) (sample (L.plus c) cache ctx) := by
  unfold sample
  refine alike_absSample (post := post L) cache ctx (fun h1 h2 => select_shift L hc hT h1 h2) fun k w w' h1 h2 hw => ?_
  unfold condition
  cases k with
  | one a => rfl
  | two a b =>
    exact Res.Rel.same fun p hp => Res.Rel.same fun u hu => Res.Rel.same fun v hv => Res.Rel.same fun u hu => Res.Rel.same fun v hv =>
      Res.Rel.same fun y hy => Res.Rel.same fun z hz => hw.1.posterior (hw.2.trans (rank_view hz).symm)

theorem LinsumLayer2.alike (L : SumL) {c : List Nat → ℝ} (hc : Free 1 c) (cache : Option Cache) (ctx : Ctx) (hT : ctx.temperature_sums ≠ 0) :
    Rand.Alike (sample L cache ctx) (sample (L.plus c) cache ctx) := by
  unfold sample
  refine alike_absSample (post := post L) cache ctx (fun h1 h2 => select_shift L hc hT h1 h2) fun k w w' h1 h2 hw => ?_
  unfold condition
  cases k with
  | two a b => rfl
  | one lls =>
    exact Res.Rel.same fun p hp => Res.Rel.same fun u hu => Res.Rel.same fun v hv =>
      hw.1.posterior (hw.2.trans (rank_reps (Or.inl rfl) h2 hp hu hv).symm)

theorem EinsumLayer.alike (L : SumL) {c : List Nat → ℝ} (hc : Free 3 c) (hc' : Free 4 c) (cache : Option Cache) (ctx : Ctx)
    (hT : ctx.temperature_sums ≠ 0) : Rand.Alike (sample L cache ctx) (sample (L.plus c) cache ctx) := by
  unfold sample
  refine alike_absSample (post := post L) cache ctx (fun h1 h2 => select_shift L hc hc' hT h1 h2) fun k w w' h1 h2 hw => ?_
  unfold condition
  cases k with
  | one a => rfl
  | two a b =>
    exact Res.Rel.same fun p hp => Res.Rel.same fun _ _ => Res.Rel.same fun _ _ => Res.Rel.same fun _ _ => Res.Rel.same fun _ _ =>
      Res.Rel.same fun _ _ => Res.Rel.same fun _ _ => Res.Rel.same fun _ _ => Res.Rel.same fun z hz =>
        hw.1.posterior (hw.2.trans (rank_view hz).symm)

theorem MixingLayer.alike (L : SumL) {c : List Nat → ℝ} (hc : Free 2 c) (cache : Option Cache) (ctx : Ctx) (hT : ctx.temperature_sums ≠ 0) :
    Rand.Alike (sample L cache ctx) (sample (L.plus c) cache ctx) := by
  unfold sample
  refine alike_absSample cache ctx (fun h1 _ => select_shift L hc hT h1) fun k w w' h1 h2 hw => ?_
  unfold condition
  cases k with
  | two a b => rfl
  | one lls =>
    refine Res.Rel.same fun p hp => Res.Rel.same fun u hu => Res.Rel.same fun v hv => hw.1.posterior (hw.2.trans ?_)
    obtain ⟨x, y, hxy⟩ := List.length_eq_two.1 h1
    have e : p.shape = [x, 1, 1, L.num_sums_in] := by
      have hp := expand_shape hp
      rw [show (ctx.indices_out.unsqueezeEnd 2).shape = [x, y] ++ [1, 1] by unfold unsqueezeEnd; rw [hxy]; rfl] at hp
      simp [expandShape] at hp
      exact hp.2.symm
    unfold Tensor.gather at hu
    obtain ⟨_, _, hu⟩ := bind_ok hu
    obtain ⟨_, _, hu⟩ := bind_ok hu
    obtain ⟨_, _, hu⟩ := bind_ok hu
    simp only [Res.pure_eq, Except.ok.injEq] at hu
    subst hu
    unfold Tensor.squeeze at hv
    obtain ⟨_, _, hv⟩ := bind_ok hv
    simp only [Res.pure_eq, Except.ok.injEq] at hv
    subst hv
    simp [Tensor.size, e, at', Tensor.rank, delAt]

theorem free3 (s : Nat → Nat → Nat → ℝ) {d a b e : Nat} (h1 : d ≠ a) (h2 : d ≠ b) (h3 : d ≠ e) :
    Free d fun i => s (at' a i) (at' b i) (at' e i) := by
  intro i k
  simp only [at_setAt_ne h1, at_setAt_ne h2, at_setAt_ne h3]

theorem Layer.alike (l : Layer) (s : Nat → Nat → Nat → ℝ) (cache : Option Cache) (ctx : Ctx) (hT : ctx.temperature_sums ≠ 0) :
    Rand.Alike (l.sample cache ctx) ((l.shift s).sample cache ctx) := by
  cases l with
  | sum L => exact SumLayer.alike L (free3 s (by decide) (by decide) (by decide)) cache ctx hT
  | linsum L => exact LinsumLayer.alike L (free3 s (by decide) (by decide) (by decide)) cache ctx hT
  | linsum2 L => exact LinsumLayer2.alike L (free3 s (by decide) (by decide) (by decide)) cache ctx hT
  | einsum L => exact EinsumLayer.alike L (free3 s (by decide) (by decide) (by decide)) (free3 s (by decide) (by decide) (by decide)) cache ctx hT
  | rootProduct F R => exact .refl _

theorem Layer.outs (l : Layer) (cache : Option Cache) (ctx : Ctx) :
    (l.sample cache ctx).Outs fun c => c.temperature_sums = ctx.temperature_sums := by
  cases l with
  | sum L => unfold Layer.sample SumLayer.sample; exact outs_absSample cache ctx
  | linsum L => unfold Layer.sample LinsumLayer.sample; exact outs_absSample cache ctx
  | linsum2 L => unfold Layer.sample LinsumLayer2.sample; exact outs_absSample cache ctx
  | einsum L => unfold Layer.sample EinsumLayer.sample; exact outs_absSample cache ctx
  | rootProduct F R =>
    refine Rand.Outs.lift fun c hc => ?_
    unfold RootProductLayer.sample at hc
    obtain ⟨_, _, hc⟩ := bind_ok hc
    simp only [Res.pure_eq, Except.ok.injEq] at hc
    subst hc
    rfl

theorem sampleLayers_outs (ls : List Layer) (cs : List (Option Cache)) (ctx : Ctx) :
    (sampleLayers ls cs ctx).Outs fun c => c.temperature_sums = ctx.temperature_sums := by
  induction ls generalizing cs with
  | nil => exact rfl
  | cons l ls ih =>
    refine (ih cs.tail).bind fun c hc => ?_
    rw [← hc]
    exact l.outs _ c

theorem sampleLayers_alike (s : Nat → Nat → Nat → Nat → ℝ) (ls : List Layer) (cs : List (Option Cache)) (ctx : Ctx)
    (hT : ctx.temperature_sums ≠ 0) : Rand.Alike (sampleLayers ls cs ctx) (sampleLayers (shiftLayers s ls) cs ctx) := by
  induction ls generalizing s cs with
  | nil => exact .refl _
  | cons l ls ih =>
    exact (ih (fun n => s (n + 1)) cs.tail).bindP (sampleLayers_outs ls cs.tail ctx) fun c hc => l.alike (s 0) _ c (hc ▸ hT)

/-! ### Forward pass -/

theorem SumLayer.forward_shift (L : SumL) {c : List Nat → ℝ} (hc : Free 1 c) (m : Option (Tensor Fl)) (x : Tensor Fl) :
    forward (L.plus c) m x = forward L m x := by
  have h : Plus (fun d => d = 1) L.logits (L.plus c).logits := ⟨rfl, c, fun _ => rfl, by rintro d rfl; exact hc⟩
  unfold forward
  rw [← h.weights_eq rfl one_ne_zero]
  rfl

theorem LinsumLayer.forward_shift (L : SumL) {c : List Nat → ℝ} (hc : Free 1 c) (m : Option (Tensor Fl)) (x : Tensor Fl) :
    forward (L.plus c) m x = forward L m x := by
  have h : Plus (fun d => d = 1) L.logits (L.plus c).logits := ⟨rfl, c, fun _ => rfl, by rintro d rfl; exact hc⟩
  unfold forward
  rw [← h.weights_eq rfl one_ne_zero]
  rfl

theorem LinsumLayer2.forward_shift (L : SumL) {c : List Nat → ℝ} (hc : Free 1 c) (m : Option (Tensor Fl)) (x : Tensor Fl) :
    forward (L.plus c) m x = forward L m x := by
  have h : Plus (fun d => d = 1) L.logits (L.plus c).logits := ⟨rfl, c, fun _ => rfl, by rintro d rfl; exact hc⟩
  unfold forward
  rw [← h.weights_eq rfl one_ne_zero]
  rfl

theorem MixingLayer.forward_shift (L : SumL) {c : List Nat → ℝ} (hc : Free 2 c) (m : Option (Tensor Fl)) (x : Tensor Fl) :
    forward (L.plus c) m x = forward L m x := by
  have h : Plus (fun d => d = 2) L.logits (L.plus c).logits := ⟨rfl, c, fun _ => rfl, by rintro d rfl; exact hc⟩
  unfold forward
  rw [← h.weights_eq rfl one_ne_zero]

theorem numelS_append (s t : List Nat) : numelS (s ++ t) = numelS s * numelS t := by
  induction s with
  | nil => simp [numelS]
  | cons n s ih => simp [numelS, ih, Nat.mul_assoc]

theorem unflat_append (s t : List Nat) {Y k : Nat} (hk : k < numelS t) :
    unflat (s ++ t) (Y * numelS t + k) = unflat s Y ++ unflat t k := by
  have hm : 0 < numelS t := by omega
  have h1 : (Y * numelS t + k) / numelS t = Y := by
    rw [Nat.add_comm, Nat.add_mul_div_right _ _ hm, Nat.div_eq_of_lt hk, Nat.zero_add]
  have h2 : (Y * numelS t + k) % numelS t = k := by
    rw [Nat.add_comm, Nat.add_mul_mod_self_right, Nat.mod_eq_of_lt hk]
  induction s generalizing Y with
  | nil =>
    have : ∀ (t : List Nat) (k Y : Nat), k < numelS t → unflat t (Y * numelS t + k) = unflat t k := by
      intro t
      cases t with
      | nil => intros; rfl
      | cons n t =>
        intro k Y hk
        have hk : k < n * numelS t := hk
        have hm : 0 < numelS t := Nat.pos_of_ne_zero fun h => by simp [h] at hk
        show (Y * (n * numelS t) + k) / numelS t % n :: unflat t ((Y * (n * numelS t) + k) % numelS t) = k / numelS t % n :: unflat t (k % numelS t)
        rw [show Y * (n * numelS t) + k = k + (Y * n) * numelS t by ring, Nat.add_mul_div_right _ _ hm, Nat.add_mul_mod_self_right,
          Nat.add_mul_mod_self_right]
    exact this t k Y hk
  | cons n s ih =>
    show (Y * numelS t + k) / numelS (s ++ t) % n :: unflat (s ++ t) ((Y * numelS t + k) % numelS (s ++ t)) =
      Y / numelS s % n :: (unflat s (Y % numelS s) ++ unflat t k)
    have e1 : (Y * numelS t + k) / numelS (s ++ t) = Y / numelS s := by
      rw [numelS_append, Nat.mul_comm (numelS s), ← Nat.div_div_eq_div_mul, h1]
    have e2 : (Y * numelS t + k) % numelS (s ++ t) = (Y % numelS s) * numelS t + k := by
      rw [numelS_append, Nat.mul_comm (numelS s), Nat.mod_mul, h1, h2]
      ring
    rw [e1, e2, ih]
    · rw [Nat.add_comm, Nat.add_mul_div_right _ _ hm, Nat.div_eq_of_lt hk, Nat.zero_add]
    · rw [Nat.add_comm, Nat.add_mul_mod_self_right, Nat.mod_eq_of_lt hk]

theorem bind_congr_ok {α β : Type} {x : Res α} {f g : α → Res β} (h : ∀ a, x = .ok a → f a = g a) : (x >>= f) = (x >>= g) := by
  cases x with
  | error e => rfl
  | ok a => exact h a rfl

namespace EinsumLayer

/-- the weights of the forward pass, from the logits (einsum.py:137-139). -/
def softWeights (t : Tensor Fl) (pre shape : List Nat) : Res (Tensor Fl) := do
  let logits ← t.viewInfer pre
  let weights ← logits.softmax 3
  weights.view shape

theorem softWeights_shift {t t' : Tensor Fl} (h : Plus (fun d => d = 3 ∨ d = 4) t t') {D O R S : Nat} (hs : t.shape = [D, O, R, S, S])
    (E : Nat) : Res.Rel (fun w w' => w'.shape = w.shape ∧ w.shape = [D, O, R, S, S] ∧ (E = D → ∀ d o r a b, a < S → b < S →
      w.get [d, o, r, a, b] = w'.get [d, o, r, a, b])) (softWeights t [E, O, R] [D, O, R, S, S]) (softWeights t' [E, O, R] [D, O, R, S, S]) := by
  obtain ⟨h1, c, h2, h3⟩ := h
  have hn : t'.numel = t.numel := by unfold Tensor.numel; rw [h1]
  unfold softWeights Tensor.viewInfer Tensor.view Tensor.softmax
  rw [hn]
  by_cases hq : numelS [E, O, R] ≠ 0 ∧ t.numel % numelS [E, O, R] = 0
  swap
  · rw [require_false _ hq]; rfl
  rw [require_true _ hq]
  simp only [Res.ok_bind]
  by_cases hq2 : numelS ([E, O, R] ++ [t.numel / numelS [E, O, R]]) = t.numel
  swap
  · rw [require_false _ hq2]; rfl
  rw [require_true _ hq2]
  simp only [Res.ok_bind, Res.pure_eq]
  rw [require_true _ (by simp [Tensor.rank]), require_true _ (by simp [Tensor.rank])]
  simp only [Res.ok_bind]
  refine Res.Rel.same fun _ _ => ⟨rfl, rfl, ?_⟩
  rintro rfl d o r a b ha hb
  have hK : t.numel / numelS [E, O, R] = S * S := by
    have : t.numel = numelS [E, O, R] * (S * S) := by unfold Tensor.numel; rw [hs]; simp [numelS]; ring
    rw [this, Nat.mul_div_cancel_left _ (Nat.pos_of_ne_zero hq.1)]
  have hab : a * S + b < S * S := by nlinarith
  have e1 : flat [E, O, R, S, S] [d, o, r, a, b] = ((d * O + o) * R + r) * numelS [S * S] + (a * S + b) := by
    simp [flat, numelS]; ring
  have hm : ([E, O, R] ++ [t.numel / numelS [E, O, R]]) = [E, O, R] ++ [S * S] := by rw [hK]
  have hj : ∃ p q s k, unflat ([E, O, R] ++ [S * S]) (((d * O + o) * R + r) * numelS [S * S] + (a * S + b)) = [p, q, s, k] ∧ k < S * S := by
    rw [unflat_append _ _ (by simpa [numelS] using hab)]
    exact ⟨_, _, _, _, rfl, Nat.mod_lt _ (by omega)⟩
  obtain ⟨p, q, s, k, hj, hk⟩ := hj
  have key : ∀ k, k < S * S → ∃ a b, unflat t.shape (flat ([E, O, R] ++ [S * S]) [p, q, s, k]) =
      unflat [E, O, R] ((p * O + q) * R + s) ++ [a, b] := by
    intro k hk
    rw [hs, show flat ([E, O, R] ++ [S * S]) [p, q, s, k] = ((p * O + q) * R + s) * numelS [S, S] + k by simp [flat, numelS]; ring,
      show [E, O, R, S, S] = [E, O, R] ++ [S, S] from rfl, unflat_append _ _ (by simpa [numelS] using hk)]
    exact ⟨_, _, rfl⟩
  obtain ⟨u, v, w, hu⟩ : ∃ u v w, unflat [E, O, R] ((p * O + q) * R + s) = [u, v, w] := ⟨_, _, _, rfl⟩
  have hcc : ∀ k, k < S * S → c (unflat t.shape (flat ([E, O, R] ++ [S * S]) [p, q, s, k])) = c [u, v, w, 0, 0] := by
    intro k hk
    obtain ⟨a, b, e⟩ := key k hk
    rw [e, hu]
    have g1 := h3 3 (Or.inl rfl) [u, v, w, 0, 0] a
    have g2 := h3 4 (Or.inr rfl) [u, v, w, a, 0] b
    exact g2.trans g1
  dsimp only [Tensor.size]
  rw [e1, hm, hj, show at' 3 ([E, O, R] ++ [S * S]) = S * S from rfl, show at' 3 [p, q, s, k] = k from rfl]
  unfold Fl.softmax
  congr 1
  have hset : ∀ k', setAt 3 k' [p, q, s, k] = [p, q, s, k'] := fun _ => rfl
  simp only [hset, h1]
  rw [← Fl.logSoftmax_add _ _ (c [u, v, w, 0, 0])]
  refine Eq.trans ?_ (Fl.logSoftmax_congr (n := S * S) (f := fun k => t.get (unflat t.shape (flat ([E, O, R] ++ [S * S]) [p, q, s, k])) + .fin (c [u, v, w, 0, 0]))
    (g := fun k => t'.get (unflat t.shape (flat ([E, O, R] ++ [S * S]) [p, q, s, k]))) (fun k hk => ?_) hk)
  · rfl
  · rw [h2, hcc k hk]

theorem forward_eq (L : SumL) (x : Tensor Fl) : forward L x = (do
    require .value (x.rank = 4)
    let left ← x.slice 1 0 2
    let right ← x.slice 1 1 2
    let leftMax ← left.maxKeep 2
    let leftProb := (← left.sub leftMax).map Fl.exp
    let rightMax ← right.maxKeep 2
    let rightProb := (← right.sub rightMax).map Fl.exp
    let weights ← softWeights L.logits [x.size 1 / 2, L.num_sums_out, L.num_repetitions] (weightShape L)
    let prob ← einsum leftProb rightProb weights
    let prob ← (← (prob.map Fl.log).add leftMax).add rightMax
    return (prob, Cache.two left right)) := by
  unfold forward softWeights
  simp only [bind_assoc]

theorem sub_max_size {t m u : Tensor Fl} (hr : t.rank = 4) (hm : t.maxKeep 2 = .ok m) (hu : t.sub m = .ok u) : u.size 1 = t.size 1 := by
  obtain ⟨a, b, c, d, e⟩ : ∃ a b c d, t.shape = [a, b, c, d] := by
    have hr : t.shape.length = 4 := hr
    generalize t.shape = s at hr
    match s, hr with
    | [a, b, c, d], _ => exact ⟨a, b, c, d, rfl⟩
  unfold Tensor.maxKeep Tensor.reduceKeep at hm
  obtain ⟨_, _, hm⟩ := bind_ok hm
  obtain ⟨_, _, hm⟩ := bind_ok hm
  simp only [Res.pure_eq, Except.ok.injEq] at hm
  subst hm
  unfold Tensor.sub Tensor.zipWith at hu
  simp [padRank, Tensor.rank, e, setAt, bshape] at hu
  subst hu
  simp [Tensor.size, e, at']

theorem einsum_congr {l r w w' : Tensor Fl} (h1 : w'.shape = w.shape) (h2 : w.size 0 = l.size 1 → w.size 0 = r.size 1 → ∀ d o rr a b,
    a < w.size 3 → b < w.size 4 → w.get [d, o, rr, a, b] = w'.get [d, o, rr, a, b]) : einsum l r w = einsum l r w' := by
  unfold einsum
  rw [show w'.rank = w.rank by unfold Tensor.rank; rw [h1], show w'.size = w.size by unfold Tensor.size; rw [h1]]
  congr 1
  funext _
  by_cases hq : l.size 0 = r.size 0 ∧ l.size 1 = r.size 1 ∧ l.size 3 = r.size 3 ∧ w.size 0 = l.size 1 ∧ w.size 2 = l.size 3 ∧
      w.size 3 = l.size 2 ∧ w.size 4 = r.size 2
  · rw [require_true _ hq]
    simp only [Res.ok_bind, Res.pure_eq]
    congr 2
    funext i
    refine Fl.sumN_congr fun a ha => Fl.sumN_congr fun b hb => ?_
    rw [h2 hq.2.2.2.1 (hq.2.2.2.1.trans hq.2.1) _ _ _ a b (by omega) (by omega)]
  · rw [require_false _ hq]; rfl

theorem slice_size {t u : Tensor Fl} {a b : Nat} (h : t.slice 1 a b = .ok u) : u.rank = t.rank ∧ u.size 1 = (t.size 1 - a + (b - 1)) / b := by
  unfold Tensor.slice at h
  obtain ⟨_, hr, h⟩ := bind_ok h
  simp only [Res.pure_eq, Except.ok.injEq] at h
  subst h
  refine ⟨length_setAt, ?_⟩
  exact at_setAt ((require_ok_iff _ _).1 hr)

theorem forward_shift (L : SumL) (hL : L.logits.shape = weightShape L) {c : List Nat → ℝ} (hc : Free 3 c) (hc' : Free 4 c) (x : Tensor Fl) :
    forward (L.plus c) x = forward L x := by
  have h : Plus (fun d => d = 3 ∨ d = 4) L.logits (L.plus c).logits :=
    ⟨rfl, c, fun _ => rfl, by rintro d (rfl | rfl); exacts [hc, hc']⟩
  have hw := softWeights_shift h (D := numFeaturesOut L) (O := L.num_sums_out) (R := L.num_repetitions) (S := L.num_sums_in) hL (x.size 1 / 2)
  rw [forward_eq, forward_eq]
  refine bind_congr_ok fun _ h0 => bind_congr_ok fun l hl => bind_congr_ok fun r hr => bind_congr_ok fun lm hlm => bind_congr_ok fun lp hlp =>
    bind_congr_ok fun rm hrm => bind_congr_ok fun rp hrp => ?_
  have h4 := (require_ok_iff _ _).1 h0
  obtain ⟨l1, l2⟩ := slice_size hl
  obtain ⟨r1, r2⟩ := slice_size hr
  have l3 := sub_max_size (l1.trans h4) hlm hlp
  have r3 := sub_max_size (r1.trans h4) hrm hrp
  show (softWeights (L.plus c).logits [x.size 1 / 2, L.num_sums_out, L.num_repetitions] (weightShape L) >>= _) = _
  change Res.Rel _ (softWeights L.logits [x.size 1 / 2, L.num_sums_out, L.num_repetitions] (weightShape L))
    (softWeights (L.plus c).logits [x.size 1 / 2, L.num_sums_out, L.num_repetitions] (weightShape L)) at hw
  revert hw
  cases softWeights L.logits [x.size 1 / 2, L.num_sums_out, L.num_repetitions] (weightShape L) <;>
    cases softWeights (L.plus c).logits [x.size 1 / 2, L.num_sums_out, L.num_repetitions] (weightShape L) <;> intro hw
  · rw [show _ = _ from hw]
  · exact hw.elim
  · exact hw.elim
  · rename_i w w'
    obtain ⟨w1, w2, w3⟩ := hw
    simp only [Res.ok_bind]
    rw [← einsum_congr (w := w) (w' := w') w1]
    intro e1 e2 d o rr a b ha hb
    refine w3 ?_ d o rr a b ?_ ?_
    · have e0 : w.size 0 = numFeaturesOut L := by unfold Tensor.size; rw [w2]; rfl
      have e3 : (lp.map Fl.exp).size 1 = lp.size 1 := rfl
      have e4 : (rp.map Fl.exp).size 1 = rp.size 1 := rfl
      omega
    · rwa [show w.size 3 = L.num_sums_in by unfold Tensor.size; rw [w2]; rfl] at ha
    · rwa [show w.size 4 = L.num_sums_in by unfold Tensor.size; rw [w2]; rfl] at hb

end EinsumLayer

theorem Layer.forward_shift {l : Layer} {Di Si Do So R : Nat} (h : l.WF Di Si Do So R) (s : Nat → Nat → Nat → ℝ) (m : Option (Tensor Fl))
    (x : Tensor Fl) : (l.shift s).forward m x = l.forward m x := by
  cases h with
  | sum L =>
    unfold Layer.shift Layer.forward
    dsimp only
    rw [SumLayer.forward_shift L (free3 s (by decide) (by decide) (by decide))]
  | linsum L =>
    unfold Layer.shift Layer.forward
    dsimp only
    rw [LinsumLayer.forward_shift L (free3 s (by decide) (by decide) (by decide))]
  | linsum2 L =>
    unfold Layer.shift Layer.forward
    dsimp only
    rw [LinsumLayer2.forward_shift L (free3 s (by decide) (by decide) (by decide))]
  | einsum L hL =>
    unfold Layer.shift Layer.forward
    dsimp only
    rw [EinsumLayer.forward_shift L hL (free3 s (by decide) (by decide) (by decide)) (free3 s (by decide) (by decide) (by decide))]
  | rootProduct F => rfl

theorem forwardLayers_shift {ls : List Layer} {Di Si Do So R : Nat} (h : Chain ls Di Si Do So R) (s : Nat → Nat → Nat → Nat → ℝ)
    (x : Tensor Fl) : forwardLayers (shiftLayers s ls) x = forwardLayers ls x := by
  induction h generalizing s x with
  | nil => rfl
  | cons h hs ih =>
    unfold shiftLayers forwardLayers
    rw [Layer.forward_shift h]
    simp only [ih]

namespace Model

theorem run_shift {M : Model} {Di Si Do So R : Nat} (h : Chain M.layers Di Si Do So R) (s : Shifts) (x : Tensor Fl) (ms : Option Scopes) :
    (M.shift s).run x ms = M.run x ms := by
  have e : ∀ x, (M.shift s).mixReps x = M.mixReps x := by
    intro x
    unfold mixReps
    rw [show (M.shift s).mixing = M.mixing.plus fun i => s.mixing (at' 0 i) (at' 1 i) from rfl,
      MixingLayer.forward_shift M.mixing (fun i k => by rw [at_setAt_ne (by decide), at_setAt_ne (by decide)])]
    rfl
  have e2 : ∀ x, (M.shift s).root x = M.root x := by
    intro x
    unfold root
    rw [e]
    rfl
  unfold run upper
  rw [show (M.shift s).layers = shiftLayers s.layers M.layers from rfl]
  simp only [forwardLayers_shift h, e2]
  rfl

theorem samplePath_alike (M : Model) (s : Shifts) (a : SampleArgs) (hT : a.temperature_sums ≠ 0) (cs : Caches) :
    Rand.Alike (M.samplePath a cs) ((M.shift s).samplePath a cs) := by
  unfold samplePath
  have h1 : Rand.Alike (M.pickClass a (M.initCtx a)) ((M.shift s).pickClass a ((M.shift s).initCtx a)) ∧
      (M.pickClass a (M.initCtx a)).Outs fun p => p.1.temperature_sums = a.temperature_sums := by
    unfold pickClass
    rw [show (M.shift s).num_classes = M.num_classes from rfl]
    split_ifs
    · cases a.class_index with
      | none =>
        refine ⟨Rand.Alike.bind ?_ fun c => .refl _, Rand.Outs.bind (P := fun c => c.temperature_sums = a.temperature_sums) ?_ fun c hc => by exact hc⟩
        · exact SumLayer.alike M.classRoot (fun _ _ => rfl) none _ hT
        · exact Layer.outs (.sum M.classRoot) none (M.initCtx a)
      | some ci => cases ci <;> exact ⟨.refl _, rfl⟩
    · exact ⟨.refl _, rfl⟩
  refine h1.1.bindP h1.2 fun p hp => ?_
  obtain ⟨c, n⟩ := p
  have h2 : Rand.Alike (M.pickRep cs.mixing c n) ((M.shift s).pickRep cs.mixing c n) ∧
      (M.pickRep cs.mixing c n).Outs fun p => p.temperature_sums = a.temperature_sums := by
    unfold pickRep
    rw [show (M.shift s).num_repetitions = M.num_repetitions from rfl]
    split_ifs
    · refine ⟨Rand.Alike.bind ?_ fun c => .refl _, Rand.Outs.bind (P := fun c => c.temperature_sums = a.temperature_sums) ?_ fun c' hc =>
        (Rand.Outs.trivial _).bind fun _ _ => by exact hc⟩
      · exact MixingLayer.alike M.mixing (fun i k => by rw [at_setAt_ne (by decide), at_setAt_ne (by decide)]) _ _ (hp ▸ hT)
      · rw [← show c.temperature_sums = a.temperature_sums from hp]
        unfold MixingLayer.sample
        exact outs_absSample _ c
    · exact ⟨.refl _, hp⟩
  refine h2.1.bindP h2.2 fun c hc => ?_
  exact (sampleLayers_alike s.layers M.layers cs.layers c (hc ▸ hT)).bind fun c => .refl _

theorem sample_alike {M : Model} {Di Si Do So R : Nat} (h : Chain M.layers Di Si Do So R) (s : Shifts) (a : SampleArgs)
    (hT : a.temperature_sums ≠ 0) : Rand.Alike (M.sample a) ((M.shift s).sample a) := by
  unfold sample
  refine Rand.Alike.bind (.refl _) fun _ => ?_
  have e : (M.shift s).evidenceCaches a = M.evidenceCaches a := by
    unfold evidenceCaches
    cases a.evidence with
    | none => rfl
    | some x => simp only [run_shift h]
  rw [e]
  exact Rand.Alike.bind (.refl _) fun cs => (M.samplePath_alike s a hT cs).bind fun c => .refl _

end Model
end Einet
