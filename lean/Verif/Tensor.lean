import Verif.Fl

/-!
# Tensors

A torch tensor is a shape together with a function from index lists to entries.  Entries outside the shape are
irrelevant: every statement about a tensor quantifies over in-range indices only.  The operations mirror the torch
operations the code under study uses, including the checks that make torch raise.  Dimensions are written as
non-negative numbers (`dim=-1` of the code is written out).
-/

open Classical
noncomputable section
namespace Einet

/-- Exceptions raised by the code (assertion, wrong argument, shape mismatch inside torch, ...). -/
inductive Err where
  | assertion
  | value
  | type
  | index
  | shape
  | attribute
  | notImplemented
  | unboundLocal
  | zeroDivision
  | other
  deriving DecidableEq, Inhabited

/-- A computation that may raise. -/
abbrev Res (α : Type) := Except Err α

@[simp] theorem Res.ok_bind {α β : Type} (a : α) (f : α → Res β) : ((Except.ok a : Res α) >>= f) = f a := rfl
@[simp] theorem Res.error_bind {α β : Type} (e : Err) (f : α → Res β) : ((Except.error e : Res α) >>= f) = .error e := rfl
@[simp] theorem Res.pure_eq {α : Type} (a : α) : (pure a : Res α) = .ok a := rfl

/-- python `assert c`. -/
def require (e : Err) (c : Prop) : Res Unit := if c then .ok () else .error e

@[simp] theorem require_true (e : Err) {c : Prop} (h : c) : require e c = .ok () := by simp [require, h]
@[simp] theorem require_false (e : Err) {c : Prop} (h : ¬ c) : require e c = .error e := by simp [require, h]
theorem require_ok_iff (e : Err) (c : Prop) : require e c = .ok () ↔ c := by
  unfold require; split_ifs <;> simp_all

/-- insert `v` before position `d`. -/
def insAt {α : Type} : Nat → α → List α → List α
  | 0, v, l => v :: l
  | _ + 1, v, [] => [v]
  | d + 1, v, x :: l => x :: insAt d v l

/-- remove position `d`. -/
def delAt {α : Type} : Nat → List α → List α
  | _, [] => []
  | 0, _ :: l => l
  | d + 1, x :: l => x :: delAt d l

/-- overwrite position `d`. -/
def setAt {α : Type} : Nat → α → List α → List α
  | _, _, [] => []
  | 0, v, _ :: l => v :: l
  | d + 1, v, x :: l => x :: setAt d v l

/-- entry `d` of an index or shape (0 when absent; callers check the rank). -/
def at' : Nat → List Nat → Nat
  | _, [] => 0
  | 0, x :: _ => x
  | d + 1, _ :: l => at' d l

/-- `i` is an in-range index of the shape `s`. -/
def InB : List Nat → List Nat → Prop
  | [], [] => True
  | n :: s, i :: is => i < n ∧ InB s is
  | _, _ => False

@[simp] theorem InB_nil_iff (i : List Nat) : InB [] i ↔ i = [] := by cases i <;> simp [InB]
@[simp] theorem InB_cons_nil (n : Nat) (s : List Nat) : InB (n :: s) [] ↔ False := by simp [InB]
@[simp] theorem InB_cons_cons (n : Nat) (s : List Nat) (i : Nat) (is : List Nat) :
    InB (n :: s) (i :: is) ↔ i < n ∧ InB s is := Iff.rfl

/-- `P` holds at every in-range index. -/
def AllIdx : List Nat → (List Nat → Prop) → Prop
  | [], P => P []
  | n :: s, P => ∀ i, i < n → AllIdx s fun is => P (i :: is)

@[simp] theorem AllIdx_nil (P : List Nat → Prop) : AllIdx [] P ↔ P [] := Iff.rfl
@[simp] theorem AllIdx_cons (n : Nat) (s : List Nat) (P : List Nat → Prop) :
    AllIdx (n :: s) P ↔ ∀ i, i < n → AllIdx s fun is => P (i :: is) := Iff.rfl

theorem AllIdx_iff (s : List Nat) (P : List Nat → Prop) : AllIdx s P ↔ ∀ i, InB s i → P i := by
  induction s generalizing P with
  | nil => simp
  | cons n s ih =>
    simp only [AllIdx_cons, ih]
    constructor
    · intro h i hi
      cases i with
      | nil => simp at hi
      | cons i is => exact h i hi.1 is hi.2
    · intro h i hi is his
      exact h (i :: is) ⟨hi, his⟩

/-- A torch tensor. -/
structure Tensor (α : Type) where
  shape : List Nat
  get : List Nat → α

namespace Tensor
variable {α β γ : Type}

/-- `t.dim()`. -/
def rank (t : Tensor α) : Nat := t.shape.length

/-- `t.shape[d]`. -/
def size (t : Tensor α) (d : Nat) : Nat := at' d t.shape

/-- Equality of tensors as torch sees it: same shape and same in-range entries. -/
def Same (s t : Tensor α) : Prop := s.shape = t.shape ∧ AllIdx s.shape fun i => s.get i = t.get i

/-- elementwise map. -/
def map (f : α → β) (t : Tensor α) : Tensor β := ⟨t.shape, fun i => f (t.get i)⟩

/-- `torch.full(shape, v)`. -/
def full (shape : List Nat) (v : α) : Tensor α := ⟨shape, fun _ => v⟩

/-- `t.unsqueeze(d)` (also `t[..., None]`). -/
def unsqueeze (d : Nat) (t : Tensor α) : Res (Tensor α) := do
  require .index (d ≤ t.rank)
  return ⟨insAt d 1 t.shape, fun i => t.get (delAt d i)⟩

/-- `t[..., None, ..., None]`: `k` new dimensions of size one at the end. -/
def unsqueezeEnd (k : Nat) (t : Tensor α) : Tensor α :=
  ⟨t.shape ++ List.replicate k 1, fun i => t.get (i.take t.rank)⟩

/-- `t.squeeze(d)`: a no-op unless dimension `d` has size one. -/
def squeeze (d : Nat) (t : Tensor α) : Res (Tensor α) := do
  require .index (d < t.rank)
  return if t.size d = 1 then ⟨delAt d t.shape, fun i => t.get (insAt d 0 i)⟩ else t

/-- coordinate of the source when a dimension of size `old` is broadcast. -/
def clip (old k : Nat) : Nat := if old = 1 then 0 else k

@[simp] theorem clip_one (k : Nat) : clip 1 k = 0 := rfl
theorem clip_of_lt {old k : Nat} (h : k < old) : clip old k = k := by
  unfold clip; split_ifs <;> omega

/-- clip every coordinate. -/
def clipAll : List Nat → List Nat → List Nat
  | o :: os, i :: is => clip o i :: clipAll os is
  | _, _ => []

/-- sizes of `t.expand(sizes)` where `none` is `-1`; `none` result: torch raises. -/
def expandShape : List Nat → List (Option Nat) → Option (List Nat)
  | [], [] => some []
  | o :: os, none :: ns => (expandShape os ns).map (o :: ·)
  | o :: os, some n :: ns => if o = 1 ∨ o = n then (expandShape os ns).map (n :: ·) else none
  | _, _ => none

/-- `t.expand(sizes)` for as many sizes as dimensions. -/
def expand (sizes : List (Option Nat)) (t : Tensor α) : Res (Tensor α) :=
  match expandShape t.shape sizes with
  | some s => .ok ⟨s, fun i => t.get (clipAll t.shape i)⟩
  | none => .error .shape

/-- all sizes of `a` except in dimension `d` are at most those of `b`. -/
def leExcept : Nat → List Nat → List Nat → Prop
  | _, [], [] => True
  | 0, _ :: as, _ :: bs => List.Forall₂ (· ≤ ·) as bs
  | d + 1, a :: as, b :: bs => a ≤ b ∧ leExcept d as bs
  | _, _, _ => False

/-- `t.gather(dim=d, index=ix)`. -/
def gather (t : Tensor α) (d : Nat) (ix : Tensor Nat) : Res (Tensor α) := do
  require .index (d < t.rank)
  require .shape (leExcept d ix.shape t.shape)
  require .index (AllIdx ix.shape fun i => ix.get i < t.size d)
  return ⟨ix.shape, fun i => t.get (setAt d (ix.get i) i)⟩

/-- broadcast of two dimension sizes. -/
def bdim (a b : Nat) : Option Nat := if a = b then some a else if a = 1 then some b else if b = 1 then some a else none

@[simp] theorem bdim_self (a : Nat) : bdim a a = some a := by simp [bdim]
@[simp] theorem bdim_one_left (a : Nat) : bdim 1 a = some a := by unfold bdim; split_ifs <;> simp_all
@[simp] theorem bdim_one_right (a : Nat) : bdim a 1 = some a := by unfold bdim; split_ifs <;> simp_all

/-- broadcast of two shapes of equal rank. -/
def bshape : List Nat → List Nat → Option (List Nat)
  | [], [] => some []
  | a :: as, b :: bs => do let c ← bdim a b; let cs ← bshape as bs; return c :: cs
  | _, _ => none

/-- prepend dimensions of size one so that the rank becomes `k`. -/
def padRank (k : Nat) (t : Tensor α) : Tensor α :=
  ⟨List.replicate (k - t.rank) 1 ++ t.shape, fun i => t.get (i.drop (k - t.rank))⟩

/-- elementwise binary operation with torch broadcasting. -/
def zipWith (f : α → β → γ) (s : Tensor α) (t : Tensor β) : Res (Tensor γ) :=
  let s := padRank t.rank s
  let t := padRank s.rank t
  match bshape s.shape t.shape with
  | some r => .ok ⟨r, fun i => f (s.get (clipAll s.shape i)) (t.get (clipAll t.shape i))⟩
  | none => .error .shape

/-- `s + t` with broadcasting. -/
def add (s t : Tensor Fl) : Res (Tensor Fl) := zipWith (· + ·) s t
/-- `s - t` with broadcasting. -/
def sub (s t : Tensor Fl) : Res (Tensor Fl) := zipWith (· - ·) s t
/-- `s * t` with broadcasting. -/
def mul (s t : Tensor Fl) : Res (Tensor Fl) := zipWith (· * ·) s t

/-- reduction of dimension `d` with `f n` applied to the `n` entries. -/
def reduce (f : Nat → (Nat → α) → β) (d : Nat) (t : Tensor α) : Res (Tensor β) := do
  require .index (d < t.rank)
  return ⟨delAt d t.shape, fun i => f (t.size d) fun k => t.get (insAt d k i)⟩

/-- reduction of dimension `d` with `keepdim=True`. -/
def reduceKeep (f : Nat → (Nat → α) → β) (d : Nat) (t : Tensor α) : Res (Tensor β) := do
  require .index (d < t.rank)
  return ⟨setAt d 1 t.shape, fun i => f (t.size d) fun k => t.get (setAt d k i)⟩

/-- `torch.sum(t, dim=d)`. -/
def sum (d : Nat) (t : Tensor Fl) : Res (Tensor Fl) := reduce Fl.sumN d t
/-- `torch.logsumexp(t, dim=d)`. -/
def logsumexp (d : Nat) (t : Tensor Fl) : Res (Tensor Fl) := reduce Fl.lse d t
/-- `torch.logsumexp(t, dim=d, keepdim=True)`. -/
def logsumexpKeep (d : Nat) (t : Tensor Fl) : Res (Tensor Fl) := reduceKeep Fl.lse d t
/-- `torch.max(t, dim=d, keepdim=True)[0]`. -/
def maxKeep (d : Nat) (t : Tensor Fl) : Res (Tensor Fl) := do
  require .index (0 < t.size d)
  reduceKeep Fl.maxN d t
/-- `t.argmax(dim=d)` (torch raises when the dimension is empty). -/
def argmax (d : Nat) (t : Tensor Fl) : Res (Tensor Nat) := do
  require .index (0 < t.size d)
  reduce Fl.argmaxN d t

/-- `F.log_softmax(t, dim=d)`. -/
def logSoftmax (d : Nat) (t : Tensor Fl) : Res (Tensor Fl) := do
  require .index (d < t.rank)
  return ⟨t.shape, fun i => Fl.logSoftmax (t.size d) (fun k => t.get (setAt d k i)) (at' d i)⟩

/-- `F.softmax(t, dim=d)`. -/
def softmax (d : Nat) (t : Tensor Fl) : Res (Tensor Fl) := do
  require .index (d < t.rank)
  return ⟨t.shape, fun i => Fl.softmax (t.size d) (fun k => t.get (setAt d k i)) (at' d i)⟩

/-- number of entries of a shape. -/
def numelS : List Nat → Nat
  | [] => 1
  | n :: s => n * numelS s

/-- `t.numel()`. -/
def numel (t : Tensor α) : Nat := numelS t.shape

/-- row-major position of an index. -/
def flat : List Nat → List Nat → Nat
  | _ :: s, i :: is => i * numelS s + flat s is
  | _, _ => 0

/-- index at a row-major position. -/
def unflat : List Nat → Nat → List Nat
  | [], _ => []
  | n :: s, p => (p / numelS s) % n :: unflat s (p % numelS s)

/-- `t.view(shape)` with all sizes given. -/
def view (s : List Nat) (t : Tensor α) : Res (Tensor α) := do
  require .shape (numelS s = t.numel)
  return ⟨s, fun i => t.get (unflat t.shape (flat s i))⟩

/-- `t.view(*pre, -1)`: the last size is inferred; torch raises when it is ambiguous or does not divide. -/
def viewInfer (pre : List Nat) (t : Tensor α) : Res (Tensor α) := do
  require .shape (numelS pre ≠ 0 ∧ t.numel % numelS pre = 0)
  t.view (pre ++ [t.numel / numelS pre])

/-- `t[ix]` for a tensor of positions in the first dimension. -/
def indexRows (t : Tensor α) (ix : Tensor Nat) : Res (Tensor α) := do
  require .index (0 < t.rank ∧ AllIdx ix.shape fun i => ix.get i < t.size 0)
  return ⟨ix.shape ++ t.shape.tail, fun i => t.get (ix.get (i.take ix.rank) :: i.drop ix.rank)⟩

/-- `t.repeat_interleave(k, dim=d)`. -/
def repeatInterleave (k d : Nat) (t : Tensor α) : Res (Tensor α) := do
  require .index (d < t.rank)
  return ⟨setAt d (t.size d * k) t.shape, fun i => t.get (setAt d (at' d i / k) i)⟩

/-- `t[:, ..., start::step, ...]` in dimension `d`. -/
def slice (d start step : Nat) (t : Tensor α) : Res (Tensor α) := do
  require .index (d < t.rank)
  return ⟨setAt d ((t.size d - start + (step - 1)) / step) t.shape,
    fun i => t.get (setAt d (start + step * at' d i) i)⟩

/-- `t[:, ..., :stop, ...]` in dimension `d` (a stop beyond the end is cut off). -/
def take (d stop : Nat) (t : Tensor α) : Res (Tensor α) := do
  require .index (d < t.rank)
  return ⟨setAt d (min stop (t.size d)) t.shape, t.get⟩

/-- `torch.cat([s, t], dim=d)`. -/
def cat (s t : Tensor α) (d : Nat) : Res (Tensor α) := do
  require .index (d < s.rank)
  require .shape (setAt d 0 s.shape = setAt d 0 t.shape)
  return ⟨setAt d (s.size d + t.size d) s.shape,
    fun i => if at' d i < s.size d then s.get i else t.get (setAt d (at' d i - s.size d) i)⟩

end Tensor
/-! ### Proof interface: `Res.Sat` and `Tensor.Is`

`x.Sat P` says that a computation returns normally with a value satisfying `P`; `t.Is s g` says that `t` has shape `s`
and entry `g i` at every in-range index `i`. -/

/-- the computation returns a value satisfying `P`. -/
def Res.Sat {α : Type} (x : Res α) (P : α → Prop) : Prop := ∃ a, x = .ok a ∧ P a

theorem Res.Sat.bind {α β : Type} {x : Res α} {f : α → Res β} {P : α → Prop} {Q : β → Prop}
    (h : Res.Sat x P) (hf : ∀ a, P a → Res.Sat (f a) Q) : Res.Sat (x >>= f) Q := by
  obtain ⟨a, rfl, ha⟩ := h
  exact hf a ha

theorem Res.Sat.ok {α : Type} {a : α} {P : α → Prop} (h : P a) : Res.Sat (.ok a) P := ⟨a, rfl, h⟩
theorem Res.Sat.pure {α : Type} {a : α} {P : α → Prop} (h : P a) : Res.Sat (Pure.pure a : Res α) P := ⟨a, rfl, h⟩

theorem Res.Sat.mono {α : Type} {x : Res α} {P Q : α → Prop} (h : Res.Sat x P) (hpq : ∀ a, P a → Q a) : Res.Sat x Q := by
  obtain ⟨a, e, ha⟩ := h
  exact ⟨a, e, hpq a ha⟩

theorem Res.Sat.require {β : Type} {e : Err} {c : Prop} {f : Unit → Res β} {Q : β → Prop}
    (h : c) (hf : Res.Sat (f ()) Q) : Res.Sat (require e c >>= f) Q := by
  rw [require_true e h]; exact hf

namespace Tensor
variable {α β γ : Type}

/-- shape and entries of a tensor. -/
def Is (t : Tensor α) (s : List Nat) (g : List Nat → α) : Prop :=
  t.shape = s ∧ AllIdx s fun i => t.get i = g i

theorem Is.refl (t : Tensor α) {s : List Nat} (h : t.shape = s) : t.Is s t.get :=
  ⟨h, (AllIdx_iff _ _).2 fun _ _ => rfl⟩

theorem Is.get {t : Tensor α} {s : List Nat} {g : List Nat → α} (h : t.Is s g) {i : List Nat} (hi : InB s i) :
    t.get i = g i := (AllIdx_iff _ _).1 h.2 i hi

theorem Is.shape {t : Tensor α} {s : List Nat} {g : List Nat → α} (h : t.Is s g) : t.shape = s := h.1

theorem Is.intro {t : Tensor α} {s : List Nat} {g : List Nat → α} (h : t.shape = s)
    (h' : ∀ i, InB s i → t.get i = g i) : t.Is s g := ⟨h, (AllIdx_iff _ _).2 h'⟩

theorem Is.congr {t : Tensor α} {s : List Nat} {g g' : List Nat → α} (h : t.Is s g)
    (h' : AllIdx s fun i => g i = g' i) : t.Is s g' :=
  Is.intro h.1 fun i hi => (h.get hi).trans ((AllIdx_iff _ _).1 h' i hi)

theorem InB.length {s i : List Nat} (h : InB s i) : i.length = s.length := by
  induction s generalizing i with
  | nil => simp_all
  | cons n s ih => cases i with
    | nil => simp at h
    | cons a l => simp [ih h.2]

theorem InB_delAt {s i : List Nat} {d : Nat} (hd : d ≤ s.length) (h : InB (insAt d 1 s) i) : InB s (delAt d i) := by
  induction d generalizing s i with
  | zero => cases i with
    | nil => simp [insAt] at h
    | cons a l => exact h.2
  | succ d ih => cases s with
    | nil => simp at hd
    | cons n s => cases i with
      | nil => simp [insAt] at h
      | cons a l => exact ⟨h.1, ih (by simpa using hd) h.2⟩

theorem InB_insAt {s i : List Nat} {d k : Nat} (hd : d < s.length) (h : InB (delAt d s) i) (hk : k < at' d s) :
    InB s (insAt d k i) := by
  induction d generalizing s i with
  | zero => cases s with
    | nil => simp at hd
    | cons n s => exact ⟨hk, h⟩
  | succ d ih => cases s with
    | nil => simp at hd
    | cons n s => cases i with
      | nil => simp [delAt] at h
      | cons a l => exact ⟨h.1, ih (by simpa using hd) h.2 hk⟩

theorem InB_setAt {s i : List Nat} {d k m : Nat} (h : InB (setAt d m s) i) (hk : k < at' d s) :
    InB s (setAt d k i) := by
  induction d generalizing s i with
  | zero => cases s with
    | nil => simp [at'] at hk
    | cons n s => cases i with
      | nil => simp [setAt] at h
      | cons a l => exact ⟨hk, h.2⟩
  | succ d ih => cases s with
    | nil => simp [at'] at hk
    | cons n s => cases i with
      | nil => simp [setAt] at h
      | cons a l => exact ⟨h.1, ih h.2 hk⟩

theorem setAt_self {s : List Nat} (d : Nat) : setAt d (at' d s) s = s := by
  induction d generalizing s with
  | zero => cases s <;> rfl
  | succ d ih => cases s <;> simp [setAt, at', ih]

theorem setAt_setAt {s : List α} (d : Nat) (u v : α) : setAt d u (setAt d v s) = setAt d u s := by
  induction d generalizing s with
  | zero => cases s <;> rfl
  | succ d ih => cases s <;> simp [setAt, ih]

theorem InB_setAt' {s i : List Nat} {d k : Nat} (h : InB s i) (hk : k < at' d s) : InB s (setAt d k i) := by
  rw [← setAt_self (s := s) d] at h
  exact InB_setAt h hk

theorem InB_at {s i : List Nat} {d : Nat} (h : InB s i) (hd : d < s.length) : at' d i < at' d s := by
  induction d generalizing s i with
  | zero => cases s with
    | nil => simp at hd
    | cons n s => cases i with
      | nil => simp at h
      | cons a l => exact h.1
  | succ d ih => cases s with
    | nil => simp at hd
    | cons n s => cases i with
      | nil => simp at h
      | cons a l => exact ih h.2 (by simpa using hd)

theorem at_setAt {s : List Nat} {d m : Nat} (hd : d < s.length) : at' d (setAt d m s) = m := by
  induction d generalizing s with
  | zero => cases s with
    | nil => simp at hd
    | cons n s => rfl
  | succ d ih => cases s with
    | nil => simp at hd
    | cons n s => exact ih (by simpa using hd)

theorem length_setAt {s : List α} {d : Nat} {m : α} : (setAt d m s).length = s.length := by
  induction d generalizing s with
  | zero => cases s <;> rfl
  | succ d ih => cases s <;> simp [setAt, ih]

theorem map_is {t : Tensor α} {s : List Nat} {g : List Nat → α} (f : α → β) (h : t.Is s g) :
    (t.map f).Is s fun i => f (g i) :=
  Is.intro h.1 fun i hi => by simp only [map]; rw [h.get hi]

theorem full_is (s : List Nat) (v : α) : (full s v).Is s fun _ => v := Is.intro rfl fun _ _ => rfl

theorem unsqueeze_is {t : Tensor α} {s : List Nat} {g : List Nat → α} {d : Nat} (h : t.Is s g) (hd : d ≤ s.length) :
    Res.Sat (t.unsqueeze d) fun t' => t'.Is (insAt d 1 s) fun i => g (delAt d i) := by
  refine Res.Sat.require (by rw [rank, h.1]; exact hd) (Res.Sat.pure (Is.intro (by simp [h.1]) fun i hi => ?_))
  exact h.get (InB_delAt hd hi)

theorem InB_take {s u i : List Nat} (h : InB (s ++ u) i) : InB s (i.take s.length) := by
  induction s generalizing i with
  | nil => simp
  | cons n s ih => cases i with
    | nil => simp at h
    | cons a l => exact ⟨h.1, ih h.2⟩

theorem unsqueezeEnd_is {t : Tensor α} {s : List Nat} {g : List Nat → α} (k : Nat) (h : t.Is s g) :
    (t.unsqueezeEnd k).Is (s ++ List.replicate k 1) fun i => g (i.take s.length) := by
  refine Is.intro (by simp [unsqueezeEnd, h.1]) fun i hi => ?_
  simp only [unsqueezeEnd, rank, h.1]
  exact h.get (InB_take hi)

theorem squeeze_is {t : Tensor α} {s : List Nat} {g : List Nat → α} {d : Nat} (h : t.Is s g) (hd : d < s.length)
    (h1 : at' d s = 1) :
    Res.Sat (t.squeeze d) fun t' => t'.Is (delAt d s) fun i => g (insAt d 0 i) := by
  refine Res.Sat.require (by rw [rank, h.1]; exact hd) (Res.Sat.pure ?_)
  rw [if_pos (by rw [size, h.1, h1])]
  refine Is.intro (by simp [h.1]) fun i hi => ?_
  exact h.get (InB_insAt hd hi (by omega))

theorem clipAll_inB {s i : List Nat} {sizes : List (Option Nat)} {s' : List Nat}
    (he : expandShape s sizes = some s') (hi : InB s' i) : InB s (clipAll s i) := by
  induction s generalizing sizes s' i with
  | nil => cases sizes with
    | nil => simp [clipAll]
    | cons a l => simp [expandShape] at he
  | cons o os ih => cases sizes with
    | nil => simp [expandShape] at he
    | cons a l =>
      cases a with
      | none =>
        simp only [expandShape, Option.map_eq_some_iff] at he
        obtain ⟨r, hr, rfl⟩ := he
        cases i with
        | nil => simp at hi
        | cons b m => exact ⟨by rw [clip_of_lt hi.1]; exact hi.1, ih hr hi.2⟩
      | some n =>
        simp only [expandShape] at he
        split_ifs at he with hc
        simp only [Option.map_eq_some_iff] at he
        obtain ⟨r, hr, rfl⟩ := he
        cases i with
        | nil => simp at hi
        | cons b m =>
          refine ⟨?_, ih hr hi.2⟩
          rcases hc with rfl | rfl
          · simp
          · rw [clip_of_lt hi.1]; exact hi.1

theorem expand_is {t : Tensor α} {s s' : List Nat} {g : List Nat → α} {sizes : List (Option Nat)} (h : t.Is s g)
    (he : expandShape s sizes = some s') :
    Res.Sat (t.expand sizes) fun t' => t'.Is s' fun i => g (clipAll s i) := by
  unfold expand
  rw [h.1, he]
  refine Res.Sat.ok (Is.intro rfl fun i hi => ?_)
  exact h.get (clipAll_inB he hi)

theorem leExcept_inB {d : Nat} {a b i : List Nat} {k : Nat} (h : leExcept d a b) (hi : InB a i) (hk : k < at' d b) :
    InB b (setAt d k i) := by
  induction d generalizing a b i with
  | zero =>
    cases b with
    | nil => simp [at'] at hk
    | cons m bs => cases a with
      | nil => simp [leExcept] at h
      | cons n as =>
        cases i with
        | nil => simp at hi
        | cons x xs =>
          refine ⟨hk, ?_⟩
          have h2 := hi.2
          clear hi hk
          simp only [leExcept] at h
          induction h generalizing xs with
          | nil => exact h2
          | cons hab _ ih => cases xs with
            | nil => simp at h2
            | cons y ys => exact ⟨lt_of_lt_of_le h2.1 hab, ih ys h2.2⟩
  | succ d ih =>
    cases b with
    | nil => simp [at'] at hk
    | cons m bs => cases a with
      | nil => simp [leExcept] at h
      | cons n as =>
        cases i with
        | nil => simp at hi
        | cons x xs => exact ⟨lt_of_lt_of_le hi.1 h.1, ih h.2 hi.2 hk⟩

theorem gather_is {t : Tensor α} {s : List Nat} {g : List Nat → α} {d : Nat} {ix : Tensor Nat} {sx : List Nat}
    {gx : List Nat → Nat} (h : t.Is s g) (hx : ix.Is sx gx) (hd : d < s.length) (hle : leExcept d sx s)
    (hlt : AllIdx sx fun i => gx i < at' d s) :
    Res.Sat (t.gather d ix) fun t' => t'.Is sx fun i => g (setAt d (gx i) i) := by
  rw [AllIdx_iff] at hlt
  refine Res.Sat.require (by rw [rank, h.1]; exact hd) ?_
  refine Res.Sat.require (by rw [h.1, hx.1]; exact hle) ?_
  refine Res.Sat.require ?_ (Res.Sat.pure (Is.intro hx.1 fun i hi => ?_))
  · rw [hx.1, AllIdx_iff]
    intro i hi
    rw [hx.get hi, size, h.1]
    exact hlt i hi
  · show t.get _ = _
    rw [hx.get hi]
    exact h.get (leExcept_inB hle hi (hlt i hi))

theorem bdim_clip {a b c i : Nat} (h : bdim a b = some c) (hi : i < c) : clip a i < a ∧ clip b i < b := by
  unfold bdim at h
  split_ifs at h with h1 h2 h3 <;> simp only [Option.some.injEq] at h <;> subst h
  · subst h1; rw [clip_of_lt hi]; exact ⟨hi, hi⟩
  · subst h2; rw [clip_of_lt hi]; exact ⟨by simp, hi⟩
  · subst h3; rw [clip_of_lt hi]; exact ⟨hi, by simp⟩

theorem bshape_inB {a b c i : List Nat} (h : bshape a b = some c) (hi : InB c i) :
    InB a (clipAll a i) ∧ InB b (clipAll b i) := by
  induction a generalizing b c i with
  | nil => cases b with
    | nil => simp [clipAll]
    | cons x l => simp [bshape] at h
  | cons x l ih => cases b with
    | nil => simp [bshape] at h
    | cons y m =>
      simp only [bshape, Option.bind_eq_bind, Option.bind_eq_some_iff, Option.pure_def, Option.some.injEq] at h
      obtain ⟨u, hu, v, hv, rfl⟩ := h
      cases i with
      | nil => simp at hi
      | cons z n =>
        have := bdim_clip hu hi.1
        have := ih hv hi.2
        simp_all [clipAll]

theorem InB_drop {k : Nat} {s i : List Nat} (h : InB (List.replicate k 1 ++ s) i) : InB s (i.drop k) := by
  induction k generalizing i with
  | zero => simpa using h
  | succ k ih => cases i with
    | nil => simp [List.replicate_succ] at h
    | cons a l => simp only [List.replicate_succ, List.cons_append, InB_cons_cons] at h; exact ih h.2

theorem padRank_is {t : Tensor α} {s : List Nat} {g : List Nat → α} (k : Nat) (h : t.Is s g) :
    (padRank k t).Is (List.replicate (k - s.length) 1 ++ s) fun i => g (i.drop (k - s.length)) := by
  refine Is.intro (by simp [padRank, rank, h.1]) fun i hi => ?_
  simp only [padRank, rank, h.1]
  exact h.get (InB_drop hi)

theorem zipWith_is {s : Tensor α} {t : Tensor β} {a b c : List Nat} {ga : List Nat → α} {gb : List Nat → β}
    (f : α → β → γ) (hs : s.Is a ga) (ht : t.Is b gb) (hr : a.length = b.length) (hb : bshape a b = some c) :
    Res.Sat (zipWith f s t) fun t' => t'.Is c fun i => f (ga (clipAll a i)) (gb (clipAll b i)) := by
  have ps := padRank_is t.rank hs
  have pt := padRank_is (padRank t.rank s).rank ht
  have e1 : (padRank t.rank s).rank = b.length := by
    simp [padRank, rank, hs.1, ht.1, hr]
  rw [e1] at pt
  rw [rank, ht.1, hr] at ps
  simp only [Nat.sub_self, List.replicate_zero, List.nil_append, List.drop_zero] at ps pt
  unfold zipWith
  simp only [rank, ht.1]
  rw [ps.1, hr, pt.1, hb]
  refine Res.Sat.ok (Is.intro rfl fun i hi => ?_)
  have := bshape_inB hb hi
  simp only
  rw [ps.get this.1, pt.get this.2]

theorem reduce_is {t : Tensor α} {s : List Nat} {g : List Nat → α} {f : Nat → (Nat → α) → β} {d : Nat}
    (hf : ∀ n u v, (∀ k, k < n → u k = v k) → f n u = f n v) (h : t.Is s g) (hd : d < s.length) :
    Res.Sat (reduce f d t) fun t' => t'.Is (delAt d s) fun i => f (at' d s) fun k => g (insAt d k i) := by
  refine Res.Sat.require (by rw [rank, h.1]; exact hd) (Res.Sat.pure (Is.intro (by simp [h.1]) fun i hi => ?_))
  simp only [size, h.1]
  exact hf _ _ _ fun k hk => h.get (InB_insAt hd hi hk)

theorem reduceKeep_is {t : Tensor α} {s : List Nat} {g : List Nat → α} {f : Nat → (Nat → α) → β} {d : Nat}
    (hf : ∀ n u v, (∀ k, k < n → u k = v k) → f n u = f n v) (h : t.Is s g) (hd : d < s.length) :
    Res.Sat (reduceKeep f d t) fun t' => t'.Is (setAt d 1 s) fun i => f (at' d s) fun k => g (setAt d k i) := by
  refine Res.Sat.require (by rw [rank, h.1]; exact hd) (Res.Sat.pure (Is.intro (by simp [h.1]) fun i hi => ?_))
  simp only [size, h.1]
  exact hf _ _ _ fun k hk => h.get (InB_setAt hi hk)

theorem sum_is {t : Tensor Fl} {s : List Nat} {g : List Nat → Fl} {d : Nat} (h : t.Is s g) (hd : d < s.length) :
    Res.Sat (t.sum d) fun t' => t'.Is (delAt d s) fun i => Fl.sumN (at' d s) fun k => g (insAt d k i) :=
  reduce_is (fun _ _ _ => Fl.sumN_congr) h hd

theorem logsumexp_is {t : Tensor Fl} {s : List Nat} {g : List Nat → Fl} {d : Nat} (h : t.Is s g) (hd : d < s.length) :
    Res.Sat (t.logsumexp d) fun t' => t'.Is (delAt d s) fun i => Fl.lse (at' d s) fun k => g (insAt d k i) :=
  reduce_is (fun _ _ _ => Fl.lse_congr) h hd

theorem logsumexpKeep_is {t : Tensor Fl} {s : List Nat} {g : List Nat → Fl} {d : Nat} (h : t.Is s g)
    (hd : d < s.length) :
    Res.Sat (t.logsumexpKeep d) fun t' => t'.Is (setAt d 1 s) fun i => Fl.lse (at' d s) fun k => g (setAt d k i) :=
  reduceKeep_is (fun _ _ _ => Fl.lse_congr) h hd

theorem maxKeep_is {t : Tensor Fl} {s : List Nat} {g : List Nat → Fl} {d : Nat} (h : t.Is s g)
    (hd : d < s.length) (hp : 0 < at' d s) :
    Res.Sat (t.maxKeep d) fun t' => t'.Is (setAt d 1 s) fun i => Fl.maxN (at' d s) fun k => g (setAt d k i) :=
  Res.Sat.require (by rw [size, h.1]; exact hp) (reduceKeep_is (fun _ _ _ => Fl.maxN_congr) h hd)

theorem argmax_is {t : Tensor Fl} {s : List Nat} {g : List Nat → Fl} {d : Nat} (h : t.Is s g)
    (hd : d < s.length) (hp : 0 < at' d s) :
    Res.Sat (t.argmax d) fun t' => t'.Is (delAt d s) fun i => Fl.argmaxN (at' d s) fun k => g (insAt d k i) :=
  Res.Sat.require (by rw [size, h.1]; exact hp) (reduce_is (fun _ _ _ => Fl.argmaxN_congr) h hd)

theorem logSoftmax_is {t : Tensor Fl} {s : List Nat} {g : List Nat → Fl} {d : Nat} (h : t.Is s g) (hd : d < s.length) :
    Res.Sat (t.logSoftmax d) fun t' =>
      t'.Is s fun i => Fl.logSoftmax (at' d s) (fun k => g (setAt d k i)) (at' d i) := by
  refine Res.Sat.require (by rw [rank, h.1]; exact hd) (Res.Sat.pure (Is.intro (by simp [h.1]) fun i hi => ?_))
  simp only [size, h.1]
  exact Fl.logSoftmax_congr (fun k hk => h.get (InB_setAt' hi hk)) (InB_at hi hd)

theorem softmax_is {t : Tensor Fl} {s : List Nat} {g : List Nat → Fl} {d : Nat} (h : t.Is s g) (hd : d < s.length) :
    Res.Sat (t.softmax d) fun t' =>
      t'.Is s fun i => Fl.softmax (at' d s) (fun k => g (setAt d k i)) (at' d i) := by
  refine Res.Sat.require (by rw [rank, h.1]; exact hd) (Res.Sat.pure (Is.intro (by simp [h.1]) fun i hi => ?_))
  simp only [size, h.1, Fl.softmax]
  rw [Fl.logSoftmax_congr (fun k hk => h.get (InB_setAt' hi hk)) (InB_at hi hd)]

theorem numelS_pos_of_inB {s i : List Nat} (h : InB s i) : 0 < numelS s := by
  induction s generalizing i with
  | nil => simp [numelS]
  | cons n s ih => cases i with
    | nil => simp at h
    | cons a l => simp only [numelS]; exact Nat.mul_pos (by have := h.1; omega) (ih h.2)

theorem flat_lt {s i : List Nat} (h : InB s i) : flat s i < numelS s := by
  induction s generalizing i with
  | nil => simp [flat, numelS]
  | cons n s ih => cases i with
    | nil => simp at h
    | cons a l =>
      simp only [flat, numelS]
      have h1 := ih h.2
      have h2 : a + 1 ≤ n := h.1
      calc a * numelS s + flat s l < a * numelS s + numelS s := by omega
        _ = (a + 1) * numelS s := by ring
        _ ≤ n * numelS s := Nat.mul_le_mul_right _ h2

theorem unflat_inB {s : List Nat} {p : Nat} (h : p < numelS s) : InB s (unflat s p) := by
  induction s generalizing p with
  | nil => simp [unflat]
  | cons n s ih =>
    simp only [numelS] at h
    have hn : 0 < n := by
      rcases Nat.eq_zero_or_pos n with rfl | h'
      · simp at h
      · exact h'
    have hs : 0 < numelS s := by
      rcases Nat.eq_zero_or_pos (numelS s) with h' | h'
      · simp [h'] at h
      · exact h'
    exact ⟨Nat.mod_lt _ hn, ih (Nat.mod_lt _ hs)⟩

theorem unflat_flat {s i : List Nat} (h : InB s i) : unflat s (flat s i) = i := by
  induction s generalizing i with
  | nil => simp_all [unflat]
  | cons n s ih => cases i with
    | nil => simp at h
    | cons a l =>
      have hl := flat_lt h.2
      have hp := numelS_pos_of_inB h.2
      simp only [unflat, flat]
      rw [Nat.mul_comm, Nat.mul_add_div hp, Nat.div_eq_of_lt hl, Nat.mul_add_mod, Nat.mod_eq_of_lt hl, ih h.2,
        Nat.add_zero, Nat.mod_eq_of_lt h.1]

theorem unflat_eq {s i : List Nat} {p : Nat} (hi : InB s i) (h : flat s i = p) : unflat s p = i := by
  rw [← h, unflat_flat hi]

theorem view_is {t : Tensor α} {s s' : List Nat} {g : List Nat → α} (h : t.Is s g) (hn : numelS s' = numelS s) :
    Res.Sat (t.view s') fun t' => t'.Is s' fun i => g (unflat s (flat s' i)) := by
  refine Res.Sat.require (by rw [numel, h.1]; exact hn) (Res.Sat.pure (Is.intro rfl fun i hi => ?_))
  simp only [h.1]
  exact h.get (unflat_inB (by rw [← hn]; exact flat_lt hi))

theorem viewInfer_is {t : Tensor α} {s pre : List Nat} {g : List Nat → α} {m : Nat} (h : t.Is s g)
    (hp : numelS pre ≠ 0) (hn : numelS s = numelS pre * m) :
    Res.Sat (t.viewInfer pre) fun t' => t'.Is (pre ++ [m]) fun i => g (unflat s (flat (pre ++ [m]) i)) := by
  have e : t.numel = numelS pre * m := by rw [numel, h.1, hn]
  have e2 : numelS (pre ++ [m]) = numelS pre * m := by
    clear hp hn e
    induction pre with
    | nil => simp [numelS]
    | cons a l ih => simp only [List.cons_append, numelS, ih, Nat.mul_assoc]
  refine Res.Sat.require ⟨hp, by rw [e, Nat.mul_mod_right]⟩ ?_
  rw [e, Nat.mul_div_cancel_left _ (Nat.pos_of_ne_zero hp)]
  exact view_is h (by rw [e2, hn])

theorem InB_append {s u i : List Nat} (h : InB (s ++ u) i) : InB u (i.drop s.length) := by
  induction s generalizing i with
  | nil => simpa using h
  | cons n s ih => cases i with
    | nil => simp at h
    | cons a l => exact ih h.2

theorem indexRows_is {t : Tensor α} {n : Nat} {s : List Nat} {g : List Nat → α} {ix : Tensor Nat} {sx : List Nat}
    {gx : List Nat → Nat} (h : t.Is (n :: s) g) (hx : ix.Is sx gx) (hlt : AllIdx sx fun i => gx i < n) :
    Res.Sat (t.indexRows ix) fun t' =>
      t'.Is (sx ++ s) fun i => g (gx (i.take sx.length) :: i.drop sx.length) := by
  rw [AllIdx_iff] at hlt
  refine Res.Sat.require ⟨by simp [rank, h.1], ?_⟩ (Res.Sat.pure (Is.intro (by simp [h.1, hx.1]) fun i hi => ?_))
  · rw [hx.1, AllIdx_iff]
    intro i hi
    rw [hx.get hi, size, h.1]
    exact hlt i hi
  · simp only [rank, hx.1]
    rw [hx.get (InB_take hi)]
    exact h.get ⟨hlt _ (InB_take hi), InB_append hi⟩

theorem repeatInterleave_is {t : Tensor α} {s : List Nat} {g : List Nat → α} {k d : Nat} (h : t.Is s g)
    (hd : d < s.length) :
    Res.Sat (t.repeatInterleave k d) fun t' =>
      t'.Is (setAt d (at' d s * k) s) fun i => g (setAt d (at' d i / k) i) := by
  refine Res.Sat.require (by rw [rank, h.1]; exact hd)
    (Res.Sat.pure (Is.intro (by simp [h.1, size]) fun i hi => ?_))
  refine h.get (InB_setAt hi (Nat.div_lt_of_lt_mul ?_))
  have := InB_at hi (by rwa [length_setAt])
  rw [at_setAt hd] at this
  rwa [Nat.mul_comm]

theorem slice_is {t : Tensor α} {s : List Nat} {g : List Nat → α} {d start step : Nat} (h : t.Is s g)
    (hd : d < s.length) (hstep : 0 < step) :
    Res.Sat (t.slice d start step) fun t' =>
      t'.Is (setAt d ((at' d s - start + (step - 1)) / step) s) fun i => g (setAt d (start + step * at' d i) i) := by
  refine Res.Sat.require (by rw [rank, h.1]; exact hd)
    (Res.Sat.pure (Is.intro (by simp [h.1, size]) fun i hi => ?_))
  refine h.get (InB_setAt hi ?_)
  have := InB_at hi (by rwa [length_setAt])
  rw [at_setAt hd, Nat.lt_div_iff_mul_lt hstep] at this
  have h2 := Nat.mul_comm step (at' d i)
  omega

theorem take_is {t : Tensor α} {s : List Nat} {g : List Nat → α} {d stop : Nat} (h : t.Is s g)
    (hd : d < s.length) :
    Res.Sat (t.take d stop) fun t' => t'.Is (setAt d (min stop (at' d s)) s) g := by
  refine Res.Sat.require (by rw [rank, h.1]; exact hd)
    (Res.Sat.pure (Is.intro (by simp [h.1, size]) fun i hi => ?_))
  have := InB_at hi (by rwa [length_setAt])
  rw [at_setAt hd] at this
  have h3 := InB_setAt hi (k := at' d i) (by omega)
  rw [setAt_self] at h3
  exact h.get h3

theorem cat_is {s t : Tensor α} {a b : List Nat} {ga gb : List Nat → α} {d : Nat} (hs : s.Is a ga) (ht : t.Is b gb)
    (hd : d < a.length) (hab : setAt d 0 a = setAt d 0 b) :
    Res.Sat (s.cat t d) fun t' => t'.Is (setAt d (at' d a + at' d b) a) fun i =>
      if at' d i < at' d a then ga i else gb (setAt d (at' d i - at' d a) i) := by
  refine Res.Sat.require (by rw [rank, hs.1]; exact hd) ?_
  refine Res.Sat.require (by rw [hs.1, ht.1]; exact hab)
    (Res.Sat.pure (Is.intro (by simp [hs.1, ht.1, size]) fun i hi => ?_))
  simp only [size, hs.1]
  have h1 := InB_at hi (by rwa [length_setAt])
  rw [at_setAt hd] at h1
  split_ifs with hc
  · have h3 := InB_setAt hi (k := at' d i) hc
    rw [setAt_self] at h3
    exact hs.get h3
  · have e : setAt d (at' d a + at' d b) a = setAt d (at' d a + at' d b) b := by
      have := congrArg (setAt d (at' d a + at' d b)) hab
      rwa [setAt_setAt, setAt_setAt] at this
    rw [e] at hi
    exact ht.get (InB_setAt hi (by omega))

end Tensor

end Einet
