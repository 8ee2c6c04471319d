import Verif.Diff
import Verif.BuildWF
import Verif.LayerDraw

/-!
# Facts about one-hot sampling: it follows the indices of ordinary sampling
-/

open Classical
open scoped ENNReal
noncomputable section
namespace Einet
open Tensor

/-- one-hot encoding of `k`. -/
def oh (k i : Nat) : Fl := if i = k then .fin 1 else .fin 0

@[simp] theorem oh_self (k : Nat) : oh k k = .fin 1 := by simp [oh]
theorem oh_ne {k i : Nat} (h : i ≠ k) : oh k i = .fin 0 := by simp [oh, h]
@[simp] theorem oh_fin (k i : Nat) : (oh k i).IsFin := by unfold oh; split_ifs <;> exact ⟨_, rfl⟩
theorem oh_zero_one : oh 0 0 = .fin 1 := by simp

theorem Fl.sumN_zero {n : Nat} {f : Nat → Fl} (h : ∀ j, j < n → f j = .fin 0) : Fl.sumN n f = .fin 0 := by
  induction n with
  | zero => rfl
  | succ n ih => simp only [Fl.sumN]; rw [ih fun j hj => h j (by omega), h n (by omega)]; simp

theorem Fl.mul_oh {x : Fl} (hx : x.IsFin) (k j : Nat) : x * oh k j = if j = k then x else .fin 0 := by
  obtain ⟨r, rfl⟩ := hx
  unfold oh; split_ifs <;> simp

theorem Fl.oh_mul {x : Fl} (hx : x.IsFin) (k j : Nat) : oh k j * x = if j = k then x else .fin 0 := by
  obtain ⟨r, rfl⟩ := hx
  unfold oh; split_ifs <;> simp

theorem Fl.sumN_ite {n k : Nat} (hk : k < n) {x : Fl} (hx : x.IsFin) :
    Fl.sumN n (fun j => if j = k then x else .fin 0) = x := by
  obtain ⟨r, rfl⟩ := hx
  induction n with
  | zero => omega
  | succ n ih =>
    simp only [Fl.sumN]
    by_cases h : n = k
    · subst h
      rw [Fl.sumN_zero fun j hj => by rw [if_neg (by omega)]]
      simp
    · rw [ih (by omega), if_neg h]; simp

/-- a sum over finite values masked by a one-hot vector. -/
theorem Fl.sumN_oh {n k : Nat} (hk : k < n) {f : Nat → Fl} (hf : ∀ j, j < n → (f j).IsFin) :
    Fl.sumN n (fun j => f j * oh k j) = f k := by
  rw [Fl.sumN_congr (g := fun j => if j = k then f k else .fin 0), Fl.sumN_ite hk (hf k hk)]
  intro j hj
  rw [Fl.mul_oh (hf j hj)]
  split_ifs with h
  · rw [h]
  · rfl

theorem Fl.sumN_oh' {n k : Nat} (hk : k < n) {f : Nat → Fl} (hf : ∀ j, j < n → (f j).IsFin) :
    Fl.sumN n (fun j => oh k j * f j) = f k := by
  rw [Fl.sumN_congr (g := fun j => if j = k then f k else .fin 0), Fl.sumN_ite hk (hf k hk)]
  intro j hj
  rw [Fl.oh_mul (hf j hj)]
  split_ifs with h
  · rw [h]
  · rfl

theorem at_bshape {a b c : List Nat} (h : bshape a b = some c) {d : Nat} (e : at' d a = at' d b) : at' d c = at' d a := by
  induction a generalizing b c d with
  | nil =>
    cases b with
    | nil => simp only [bshape, Option.some.injEq] at h; subst h; rfl
    | cons => simp [bshape] at h
  | cons x a ih =>
    cases b with
    | nil => simp [bshape] at h
    | cons y b =>
      simp only [bshape] at h
      cases h1 : bdim x y with
      | none => simp [h1] at h
      | some z =>
        cases h2 : bshape a b with
        | none => simp [h1, h2] at h
        | some w =>
          simp [h1, h2] at h
          subst h
          cases d with
          | zero =>
            simp only [at'] at e ⊢
            subst e
            simp [bdim] at h1
            exact h1.symm
          | succ d => exact ih h2 e

theorem indexOneHot_is {t ix : Tensor Fl} {s sx c : List Nat} {g h : List Nat → Fl} {d : Nat} (ht : t.Is s g)
    (hi : ix.Is sx h) (hr : s.length = sx.length) (hd : d < s.length) (he : at' d s = at' d sx)
    (hb : bshape s sx = some c) :
    Res.Sat (indexOneHot t ix d) fun u => u.Is (delAt d c) fun i =>
      Fl.sumN (at' d s) fun k => g (clipAll s (insAt d k i)) * h (clipAll sx (insAt d k i)) := by
  unfold indexOneHot
  refine Res.Sat.require (by rw [rank, rank, ht.1, hi.1]; omega) ?_
  refine Res.Sat.require (by rw [size, size, ht.1, hi.1]; exact he) ?_
  refine Res.Sat.require (by rw [rank, rank, ht.1, hi.1]; exact hr) ?_
  refine (zipWith_is _ ht hi hr hb).bind fun m hm => ?_
  have hl : c.length = s.length := by
    have : ∀ (a b c : List Nat), bshape a b = some c → c.length = a.length := by
      intro a
      induction a with
      | nil => intro b c h; cases b <;> simp_all [bshape]
      | cons x a ih =>
        intro b c h
        cases b with
        | nil => simp [bshape] at h
        | cons y b =>
          simp only [bshape] at h
          cases h1 : bdim x y <;> cases h2 : bshape a b <;> simp [h1, h2] at h
          subst h; simp [ih _ _ h2]
    exact this _ _ _ hb
  have := sum_is hm (by omega : d < c.length)
  rwa [at_bshape hb he] at this

/-! ### `SIMPLE` -/

theorem Fl.softmax_fin {n : Nat} {f : Nat → Fl} {g : Nat → ℝ} (h : ∀ i, i < n → f i = .fin (g i)) {k : Nat} (hk : k < n) :
    Fl.softmax n f k = .fin (Real.exp (Fl.rlsm n g k)) := by
  unfold Fl.softmax; rw [Fl.logSoftmax_eq_fin h hk]; rfl

/-- strictly increasing functions keep the position of the maximum. -/
theorem Fl.argmaxN_mono {n : Nat} {f f' : Nat → Fl} {g g' : Nat → ℝ} (h : ∀ i, i < n → f i = .fin (g i))
    (h' : ∀ i, i < n → f' i = .fin (g' i)) (hm : ∀ i, i < n → ∀ j, j < n → (g i < g j ↔ g' i < g' j)) :
    Fl.argmaxN n f = Fl.argmaxN n f' := by
  induction n with
  | zero => rfl
  | succ n ih =>
    have e := ih (fun i hi => h i (by omega)) (fun i hi => h' i (by omega))
      (fun i hi j hj => hm i (by omega) j (by omega))
    have hlt : Fl.argmaxN n f' < n + 1 := by
      by_cases h0 : n = 0
      · subst h0; simp [Fl.argmaxN]
      · have := Fl.argmaxN_lt (n := n) (by omega) f'; omega
    simp only [Fl.argmaxN]
    rw [e, h _ hlt, h n (by omega), h' _ hlt, h' n (by omega)]
    simp only [Fl.better_fin, hm _ hlt _ (by omega : n < n + 1)]

theorem Fl.argmaxN_softmax {n : Nat} {f : Nat → Fl} (h : ∀ i, i < n → (f i).IsFin) :
    Fl.argmaxN n (fun k => Fl.softmax n f k) = Fl.argmaxN n f := by
  have h1 : ∀ i, i < n → f i = .fin ((f i).val) := fun i hi => (h i hi).eq
  refine Fl.argmaxN_mono (g := fun k => Real.exp (Fl.rlsm n (fun i => (f i).val) k)) (g' := fun k => (f k).val)
    (fun i hi => Fl.softmax_fin h1 hi) h1 fun i hi j hj => ?_
  rw [Real.exp_lt_exp]
  unfold Fl.rlsm
  exact sub_lt_sub_iff_right _

theorem bshape_self (s : List Nat) : bshape s s = some s := by
  induction s with
  | nil => rfl
  | cons a s ih => simp [bshape, bdim, ih]

theorem clipAll_self {s i : List Nat} (h : InB s i) : clipAll s i = i := by
  induction s generalizing i with
  | nil => cases i <;> simp_all [InB, clipAll]
  | cons a s ih =>
    cases i with
    | nil => simp [InB] at h
    | cons b i => simp [clipAll, clip_of_lt h.1, ih h.2]

theorem InB_delAt' {s i : List Nat} (d : Nat) (h : InB s i) : InB (delAt d s) (delAt d i) := by
  induction s generalizing i d with
  | nil => cases i <;> simp_all [InB, delAt]
  | cons a s ih =>
    cases i with
    | nil => simp [InB] at h
    | cons b i =>
      cases d with
      | zero => exact h.2
      | succ d => exact ⟨h.1, ih d h.2⟩

theorem insAt_delAt {l : List Nat} {d : Nat} (k : Nat) (h : d < l.length) : insAt d k (delAt d l) = setAt d k l := by
  induction l generalizing d with
  | nil => simp at h
  | cons a l ih =>
    cases d with
    | zero => cases l <;> rfl
    | succ d => simp [delAt, insAt, setAt, ih (by simpa using h)]

/-- value of the straight-through estimator: one-hot minus `y` plus `y`. -/
theorem straightThrough_gen {y p : Tensor Fl} {s : List Nat} {gy gp : List Nat → Fl} {d : Nat} (hy : y.Is s gy)
    (hp : p.Is s gp) (hd : d < s.length) (hK : 0 < at' d s) :
    Res.Sat (straightThrough y p d) fun t => t.Is s fun i =>
      oh (Fl.argmaxN (at' d s) fun k => gp (setAt d k i)) (at' d i) - gy i + gy i := by
  unfold straightThrough
  refine (argmax_is hp hd hK).bind fun ix hix => ?_
  dsimp only
  have h0 : (⟨p.shape, fun i => if at' d i = ix.get (delAt d i) then .fin 1 else .fin 0⟩ : Tensor Fl).Is s
      fun i => oh (Fl.argmaxN (at' d s) fun k => gp (insAt d k (delAt d i))) (at' d i) := by
    refine Is.intro hp.1 fun i hi => ?_
    simp only [oh]
    rw [hix.get (InB_delAt' d hi)]
  rw [hy.1]
  refine (view_is h0 rfl).bind fun v hv => ?_
  refine (zipWith_is _ hv hy rfl (bshape_self s)).bind fun m hm => ?_
  refine (zipWith_is _ hm hy rfl (bshape_self s)).mono fun z hz => ?_
  refine hz.congr ((AllIdx_iff _ _).2 fun i hi => ?_)
  have hl := Tensor.InB.length hi
  simp only [clipAll_self hi, unflat_flat hi, insAt_delAt _ (show d < i.length by omega)]

theorem straightThrough_is {y p : Tensor Fl} {s : List Nat} {gy gp : List Nat → Fl} {d : Nat} (hy : y.Is s gy)
    (hp : p.Is s gp) (hd : d < s.length) (hK : 0 < at' d s) (hf : ∀ i, InB s i → (gy i).IsFin) :
    Res.Sat (straightThrough y p d) fun t => t.Is s fun i =>
      oh (Fl.argmaxN (at' d s) fun k => gp (setAt d k i)) (at' d i) := by
  refine (straightThrough_gen hy hp hd hK).mono fun z hz => ?_
  refine hz.congr ((AllIdx_iff _ _).2 fun i hi => ?_)
  obtain ⟨r, hr⟩ := hf i hi
  obtain ⟨q, hq⟩ := oh_fin (Fl.argmaxN (at' d s) fun k => gp (setAt d k i)) (at' d i)
  rw [hr, hq]
  simp

theorem delAt_insAt {α : Type} {d : Nat} {l : List α} (x : α) (h : d ≤ l.length) : delAt d (insAt d x l) = l := by
  induction d generalizing l with
  | zero => cases l <;> rfl
  | succ d ih =>
    cases l with
    | nil => simp at h
    | cons a l => simp [insAt, delAt, ih (by simpa using h)]

theorem setAt_insAt {d : Nat} {l : List Nat} (x y : Nat) (h : d ≤ l.length) : setAt d y (insAt d x l) = insAt d y l := by
  induction d generalizing l with
  | zero => cases l <;> rfl
  | succ d ih =>
    cases l with
    | nil => simp at h
    | cons a l => simp [insAt, setAt, ih (by simpa using h)]

theorem at_insAt {d : Nat} {l : List Nat} (x : Nat) (h : d ≤ l.length) : at' d (insAt d x l) = x := by
  induction d generalizing l with
  | zero => cases l <;> rfl
  | succ d ih =>
    cases l with
    | nil => simp at h
    | cons a l => simp [insAt, at', ih (by simpa using h)]

theorem perturb_is {w : Tensor Fl} {s : List Nat} {g : List Nat → Fl} (noise : Option (List Nat → Fl)) (hw : w.Is s g) :
    (⟨w.shape, perturb noise w.get⟩ : Tensor Fl).Is s (perturb noise g) := by
  refine Is.intro hw.1 fun i hi => ?_
  cases noise <;> simp [perturb, hw.get hi]

/-- value of `SIMPLE` for any log weights. -/
theorem simple_gen {w : Tensor Fl} {s : List Nat} {g : List Nat → Fl} {d : Nat} {noise : Option (List Nat → Fl)}
    (hw : w.Is s g) (hd : d < s.length) (hK : 0 < at' d s) :
    Res.Sat (simple none (some w) d noise) fun t => t.Is s fun i =>
      oh (Fl.argmaxN (at' d s) fun k => Fl.softmax (at' d s) (fun j => perturb noise g (setAt d j i)) k) (at' d i) -
        (g i).exp + (g i).exp := by
  unfold simple
  refine Res.Sat.require (by simp) ?_
  refine (Res.Sat.ok (P := fun p => p = (w.map Fl.exp, w)) rfl).bind fun p hp => ?_
  subst hp
  dsimp only
  refine (softmax_is (perturb_is noise hw) hd).bind fun p hp => ?_
  refine (straightThrough_gen (map_is Fl.exp hw) hp hd hK).mono fun t ht => ?_
  refine ht.congr ((AllIdx_iff _ _).2 fun i hi => ?_)
  have hl := Tensor.InB.length hi
  simp only [setAt_setAt, at_setAt (show d < i.length by omega)]

/-- value of `SIMPLE` for any logits. -/
theorem simple_logits_gen {w : Tensor Fl} {s : List Nat} {g : List Nat → Fl} {d : Nat} {noise : Option (List Nat → Fl)}
    (hw : w.Is s g) (hd : d < s.length) (hK : 0 < at' d s) :
    Res.Sat (simple (some w) none d noise) fun t => t.Is s fun i =>
      oh (Fl.argmaxN (at' d s) fun k => Fl.softmax (at' d s) (fun j => perturb noise g (setAt d j i)) k) (at' d i) -
        Fl.softmax (at' d s) (fun j => g (setAt d j i)) (at' d i) +
        Fl.softmax (at' d s) (fun j => g (setAt d j i)) (at' d i) := by
  unfold simple
  refine Res.Sat.require (by simp) ?_
  obtain ⟨y, hy, hy'⟩ := softmax_is hw hd
  dsimp only
  rw [hy]
  show Res.Sat (Tensor.softmax d (⟨w.shape, perturb noise w.get⟩ : Tensor Fl) >>= fun p => straightThrough y p d) _
  refine (softmax_is (perturb_is noise hw) hd).bind fun p hp => ?_
  refine (straightThrough_gen hy' hp hd hK).mono fun t ht => ?_
  refine ht.congr ((AllIdx_iff _ _).2 fun i hi => ?_)
  have hl := Tensor.InB.length hi
  simp only [setAt_setAt, at_setAt (show d < i.length by omega)]

/-- `SIMPLE` on finite log weights and finite noise is the one-hot encoding of the largest perturbed entry. -/
theorem simple_is {w : Tensor Fl} {s : List Nat} {g : List Nat → Fl} {d : Nat} {noise : Option (List Nat → Fl)}
    (hw : w.Is s g) (hd : d < s.length) (hK : 0 < at' d s) (hf : ∀ i, InB s i → (g i).IsFin)
    (hn : ∀ i, InB s i → (perturb noise g i).IsFin) :
    Res.Sat (simple none (some w) d noise) fun t => t.Is s fun i =>
      oh (Fl.argmaxN (at' d s) fun k => perturb noise g (setAt d k i)) (at' d i) := by
  refine (simple_gen hw hd hK).mono fun t ht => ?_
  refine ht.congr ((AllIdx_iff _ _).2 fun i hi => ?_)
  rw [Fl.argmaxN_softmax fun k hk => hn _ (InB_setAt' hi hk)]
  obtain ⟨r, hr⟩ := hf i hi
  obtain ⟨q, hq⟩ := oh_fin (Fl.argmaxN (at' d s) fun k => perturb noise g (setAt d k i)) (at' d i)
  rw [hr, hq]
  simp

/-! ### Contexts -/

/-- context with one-hot indices: channel `idx n d < S` of every output feature and repetition `rr n < R`. -/
structure DCtxOK (ctx : DCtx) (N D S R : Nat) (idx : Nat → Nat → Nat) (rr : Nat → Nat) : Prop where
  ns : ctx.num_samples = N
  io : ctx.indices_out.Is3 N D S fun n d s => oh (idx n d) s
  io_lt : ∀ n, n < N → ∀ d, d < D → idx n d < S
  ir : ctx.indices_repetition.Is2 N R fun n r => oh (rr n) r
  ir_lt : ∀ n, n < N → rr n < R

theorem DCtxOK.check {ctx : DCtx} {N D S R : Nat} {idx : Nat → Nat → Nat} {rr : Nat → Nat}
    (h : DCtxOK ctx N D S R idx rr) : checkContextD D S R ctx = .ok () := by
  have h1 : ctx.indices_out.shape = [N, D, S] := h.io.1
  have h2 : ctx.indices_repetition.shape = [N, R] := h.ir.1
  simp [checkContextD, rank, size, h1, h2, at', h.ns]

/-- `indices_repetition.view(N, 1, 1, R)`. -/
theorem viewRep_is {t : Tensor Fl} {N R : Nat} {f : Nat → Nat → Fl} (h : t.Is2 N R f) :
    Res.Sat (t.view [N, 1, 1, R]) fun q => q.Is4 N 1 1 R fun n _ _ r => f n r := by
  refine (view_is h (by simp [numelS])).mono fun q hq => Is.is4 hq ?_
  intro n hn a ha b hb r hr
  have ea : a = 0 := by omega
  have eb : b = 0 := by omega
  subst ea eb
  have e : unflat [N, R] (flat [N, 1, 1, R] [n, 0, 0, r]) = [n, r] :=
    unflat_eq ⟨hn, hr, by simp⟩ (by simp [flat, numelS])
  rw [e]; rfl

/-- selecting the repetition of a tensor of shape `[N, D, S, R]`. -/
theorem indexRep_is {t q : Tensor Fl} {N D S R : Nat} {f : Nat → Row} {rr : Nat → Nat} (h : t.Is4 N D S R f)
    (hq : q.Is4 N 1 1 R fun n _ _ r => oh (rr n) r) (hr : ∀ n, n < N → rr n < R)
    (hf : ∀ n, n < N → ∀ d, d < D → ∀ k, k < S → ∀ r, r < R → (f n d k r).IsFin) :
    Res.Sat (indexOneHot t q 3) fun u => u.Is3 N D S fun n d k => f n d k (rr n) := by
  refine (indexOneHot_is (c := [N, D, S, R]) h hq (by simp) (by simp) (by simp [at']) (by simp [bshape])).mono fun u hu =>
    Is.is3 hu ?_
  intro n hn d hd k hk
  simp only [at']
  rw [← Fl.sumN_oh (f := fun r => f n d k r) (hr n hn) fun r hr => hf n hn d hd k hk r hr]
  refine Fl.sumN_congr fun r hr => ?_
  simp [insAt, clipAll, at', clip_of_lt, hn, hd, hk, hr]

/-! ### Selection of the weights -/

theorem selectOneHot_is {L : SumL} {D : Nat} (hL : L.logits.shape = [D, L.num_sums_in, L.num_sums_out, L.num_repetitions])
    (hf : L.FinLogits) {ctx : DCtx} {N : Nat} {rr : Nat → Nat} (hns : ctx.num_samples = N)
    (hir : ctx.indices_repetition.Is2 N L.num_repetitions fun n r => oh (rr n) r)
    (hr : ∀ n, n < N → rr n < L.num_repetitions) {p : Tensor Fl} {q : Nat → Nat → Nat}
    (hp : p.Is3 N D L.num_sums_out fun n d s => oh (q n d) s) (hq : ∀ n, n < N → ∀ d, d < D → q n d < L.num_sums_out) :
    Res.Sat (selectOneHot L D ctx p) fun u => u.Is3 N D L.num_sums_in fun n d k => L.logits.get [d, k, q n d, rr n] := by
  unfold selectOneHot
  refine (unsqueeze_is (Is.refl _ hL) (by simp)).bind fun l0 h0 => ?_
  refine (unsqueeze_is hp (by simp)).bind fun p0 hp0 => ?_
  refine (indexOneHot_is h0 (unsqueezeEnd_is 1 hp0) (by simp [insAt]) (by simp [insAt]) (by simp [insAt, at'])
    (by simp [insAt, bshape]; rfl)).bind fun l1 h1 => ?_
  have hfin : ∀ d, d < D → ∀ k, k < L.num_sums_in → ∀ s, s < L.num_sums_out → ∀ r, r < L.num_repetitions →
      (L.logits.get [d, k, s, r]).IsFin := fun d hd k hk s hs r hr => hf _ (by rw [hL]; exact ⟨hd, hk, hs, hr, trivial⟩)
  have h1' : l1.Is4 N D L.num_sums_in L.num_repetitions fun n d k r => L.logits.get [d, k, q n d, r] := by
    refine Is.is4 h1 ?_
    intro n hn d hd k hk r hr
    simp only [at', insAt]
    rw [← Fl.sumN_oh (f := fun s => L.logits.get [d, k, s, r]) (hq n hn d hd) fun s hs => hfin d hd k hk s hs r hr]
    refine Fl.sumN_congr fun s hs => ?_
    simp [delAt, clipAll, at', clip_of_lt, hn, hd, hk, hr, hs]
  refine Res.Sat.require (by rw [h1'.1, hns]) ?_
  rw [hns]
  refine (viewRep_is hir).bind fun r0 hr0 => ?_
  exact indexRep_is h1' hr0 hr fun n hn d hd k hk r hr => hfin d hd k hk _ (hq n hn d hd) r hr

theorem SumLayer.selectWeightsD_is {L : SumL} (hL : L.logits.shape = SumLayer.weightShape L) (hf : L.FinLogits) {ctx : DCtx}
    {N : Nat} {idx : Nat → Nat → Nat} {rr : Nat → Nat}
    (h : DCtxOK ctx N L.num_features L.num_sums_out L.num_repetitions idx rr) :
    Res.Sat (SumLayer.selectWeightsD L ctx) fun lw => lw.Is3 N L.num_features L.num_sums_in
      fun n d k => L.lw ctx.temperature_sums d k (idx n d) (rr n) := by
  unfold SumLayer.selectWeightsD
  refine (selectOneHot_is hL hf h.ns h.ir h.ir_lt h.io h.io_lt).bind fun l hl => ?_
  refine Res.Sat.require (by rw [hl.1, h.ns]) ?_
  refine (logitsToLogWeights_is hl (by simp)).mono fun lw hlw => Is.is3 hlw ?_
  intro n hn d hd k hk
  simp only [SumL.lw, at', setAt]

theorem LinsumLayer.selectWeightsD_is {L : SumL} (hL : L.logits.shape = LinsumLayer.weightShape L) (hf : L.FinLogits)
    {ctx : DCtx} {N : Nat} {idx : Nat → Nat → Nat} {rr : Nat → Nat}
    (h : DCtxOK ctx N (numFeaturesOut L) L.num_sums_out L.num_repetitions idx rr) :
    Res.Sat (LinsumLayer.selectWeightsD L ctx) fun lw => lw.Is3 N (numFeaturesOut L) L.num_sums_in
      fun n d k => L.lw ctx.temperature_sums d k (idx n d) (rr n) := by
  unfold LinsumLayer.selectWeightsD
  refine (selectOneHot_is hL hf h.ns h.ir h.ir_lt h.io h.io_lt).bind fun l hl => ?_
  refine Res.Sat.require (by rw [hl.1, h.ns]) ?_
  refine (logitsToLogWeights_is hl (by simp)).mono fun lw hlw => Is.is3 hlw ?_
  intro n hn d hd k hk
  simp only [SumL.lw, at', setAt]

/-- `indices_out.repeat_interleave(2, dim=1)`, cut to an odd number of features. -/
theorem interleaveD_is {t : Tensor Fl} {N D Dout S : Nat} {f : Nat → Nat → Nat → Fl} (hD : Dout = (D + D % 2) / 2)
    (h : t.Is3 N Dout S f) {β : Type} {k : Tensor Fl → Res β} {Q : β → Prop}
    (hk : ∀ t' : Tensor Fl, t'.Is3 N D S (fun n d => f n (d / 2)) → Res.Sat (k t') Q) :
    Res.Sat (do
      let p ← t.repeatInterleave 2 1
      let p ← if 0 < D % 2 then p.take 1 (p.size 1 - D % 2) else .ok p
      k p) Q := by
  refine (repeatInterleave_is h (by simp)).bind fun p hp => ?_
  have hp' : p.Is3 N (Dout * 2) S (fun n d => f n (d / 2)) :=
    hp.is3 (by intro n hn d hd s hs; rfl)
  split_ifs with h1
  · have hs : p.size 1 = Dout * 2 := by rw [size, hp'.1]; rfl
    rw [hs]
    refine (take_is hp' (by simp)).bind fun q hq => hk q ?_
    have e : min (Dout * 2 - D % 2) (at' 1 [N, Dout * 2, S]) = D := by
      show min (Dout * 2 - D % 2) (Dout * 2) = D
      omega
    rw [e] at hq
    exact Is.is3 hq (by intro n hn d hd s hs; rfl)
  · have e : Dout * 2 = D := by omega
    rw [e] at hp'
    exact hk p hp'

theorem LinsumLayer2.selectWeightsD_is {L : SumL} (hL : L.logits.shape = LinsumLayer2.weightShape L) (hf : L.FinLogits)
    {ctx : DCtx} {N : Nat} {idx : Nat → Nat → Nat} {rr : Nat → Nat}
    (h : DCtxOK ctx N (numFeaturesOut L) L.num_sums_out L.num_repetitions idx rr) :
    Res.Sat (LinsumLayer2.selectWeightsD L ctx) fun lw => lw.Is3 N L.num_features L.num_sums_in
      fun n d k => L.lw ctx.temperature_sums d k (idx n (d / 2)) (rr n) := by
  have hO : numFeaturesOut L = (L.num_features + L.num_features % 2) / 2 := rfl
  unfold LinsumLayer2.selectWeightsD
  refine interleaveD_is hO h.io fun p hp => ?_
  refine (selectOneHot_is hL hf h.ns h.ir h.ir_lt (q := fun n d => idx n (d / 2)) hp
    fun n hn d hd => h.io_lt n hn _ (by omega)).bind fun l hl => ?_
  refine Res.Sat.require (by rw [hl.1, h.ns]) ?_
  refine (logitsToLogWeights_is hl (by simp)).mono fun lw hlw => Is.is3 hlw ?_
  intro n hn d hd k hk
  simp only [SumL.lw, at', setAt]

theorem MixingLayer.selectWeightsD_is {L : SumL} (hL : L.logits.shape = MixingLayer.weightShape L) (hf : L.FinLogits)
    {ctx : DCtx} {N R : Nat} {idx : Nat → Nat → Nat} {rr : Nat → Nat}
    (h : DCtxOK ctx N L.num_features L.num_sums_out R idx rr) :
    Res.Sat (MixingLayer.selectWeightsD L ctx) fun lw => lw.Is3 N L.num_features L.num_sums_in
      fun n d k => L.lwMix ctx.temperature_sums d (idx n d) k := by
  unfold MixingLayer.selectWeightsD
  refine (unsqueeze_is (Is.refl _ hL) (by simp)).bind fun l0 h0 => ?_
  refine (indexOneHot_is h0 (unsqueezeEnd_is 1 h.io) (by simp [insAt, MixingLayer.weightShape])
    (by simp [insAt, MixingLayer.weightShape]) (by simp [insAt, at', MixingLayer.weightShape])
    (by simp [insAt, bshape, MixingLayer.weightShape]; rfl)).bind fun l1 h1 => ?_
  have h1' : l1.Is3 N L.num_features L.num_sums_in fun n d k => L.logits.get [d, idx n d, k] := by
    refine Is.is3 h1 ?_
    intro n hn d hd k hk
    simp only [at', insAt, MixingLayer.weightShape]
    rw [← Fl.sumN_oh (f := fun s => L.logits.get [d, s, k]) (h.io_lt n hn d hd)
      fun s hs => hf _ (by rw [hL]; exact ⟨hd, hs, hk, trivial⟩)]
    refine Fl.sumN_congr fun s hs => ?_
    simp [delAt, clipAll, at', clip_of_lt, hn, hd, hk, hs]
  refine Res.Sat.require (by rw [h1'.1, h.ns]) ?_
  refine (logitsToLogWeights_is h1' (by simp)).mono fun lw hlw => Is.is3 hlw ?_
  intro n hn d hd k hk
  simp only [SumL.lwMix, at', setAt]

theorem EinsumLayer.selectWeightsD_is {L : SumL} (hL : L.logits.shape = EinsumLayer.weightShape L) (hf : L.FinLogits)
    {ctx : DCtx} {N : Nat} {idx : Nat → Nat → Nat} {rr : Nat → Nat}
    (h : DCtxOK ctx N (numFeaturesOut L) L.num_sums_out L.num_repetitions idx rr) :
    Res.Sat (EinsumLayer.selectWeightsD L ctx) fun lw => lw.Is3 N (numFeaturesOut L) (L.num_sums_in ^ 2)
      fun n d k => L.lwEin ctx.temperature_sums d (idx n d) (rr n) k := by
  unfold EinsumLayer.selectWeightsD
  have hL' : L.logits.shape = [numFeaturesOut L, L.num_sums_out, L.num_repetitions, L.num_sums_in, L.num_sums_in] := hL
  refine (unsqueeze_is (Is.refl _ hL') (by simp)).bind fun l0 h0 => ?_
  refine (indexOneHot_is h0 (unsqueezeEnd_is 3 h.io) (by simp [insAt]) (by simp [insAt]) (by simp [insAt, at'])
    (by simp [insAt, bshape]; rfl)).bind fun l1 h1 => ?_
  have hfin : ∀ d, d < numFeaturesOut L → ∀ s, s < L.num_sums_out → ∀ r, r < L.num_repetitions → ∀ i, i < L.num_sums_in →
      ∀ j, j < L.num_sums_in → (L.logits.get [d, s, r, i, j]).IsFin :=
    fun d hd s hs r hr i hi j hj => hf _ (by rw [hL']; exact ⟨hd, hs, hr, hi, hj, trivial⟩)
  have h1' : l1.Is [N, numFeaturesOut L, L.num_repetitions, L.num_sums_in, L.num_sums_in] fun i =>
      L.logits.get [at' 1 i, idx (at' 0 i) (at' 1 i), at' 2 i, at' 3 i, at' 4 i] := by
    refine h1.congr ?_
    simp only [AllIdx_cons, AllIdx_nil, delAt]
    intro n hn d hd r hr i hi j hj
    simp only [at', insAt]
    rw [← Fl.sumN_oh (f := fun s => L.logits.get [d, s, r, i, j]) (h.io_lt n hn d hd)
      fun s hs => hfin d hd s hs r hr i hi j hj]
    refine Fl.sumN_congr fun s hs => ?_
    simp [delAt, clipAll, at', clip_of_lt, hn, hd, hr, hi, hj, hs]
  refine Res.Sat.require (by rw [h1'.1, h.ns]) ?_
  rw [h.ns]
  refine (view_is (s' := [N, 1, L.num_repetitions, 1, 1]) h.ir (by simp [numelS])).bind fun r0 hr0 => ?_
  refine (indexOneHot_is h1' hr0 (by simp) (by simp) (by simp [at']) (by simp [bshape]; rfl)).bind fun l2 h2 => ?_
  have h2' : l2.Is4 N (numFeaturesOut L) L.num_sums_in L.num_sums_in
      fun n d i j => L.logits.get [d, idx n d, rr n, i, j] := by
    refine Is.is4 h2 ?_
    intro n hn d hd i hi j hj
    simp only [at', insAt]
    rw [← Fl.sumN_oh (f := fun r => L.logits.get [d, idx n d, r, i, j]) (h.ir_lt n hn)
      fun r hr => hfin d hd _ (h.io_lt n hn d hd) r hr i hi j hj]
    refine Fl.sumN_congr fun r hr => ?_
    have e : unflat [N, L.num_repetitions] (flat [N, 1, L.num_repetitions, 1, 1] [n, 0, r, 0, 0]) = [n, r] :=
      unflat_eq ⟨hn, hr, by simp⟩ (by simp [flat, numelS])
    simp [clipAll, at', clip_of_lt, hn, hd, hr, hi, hj, e]
  refine Res.Sat.require (by rw [h2'.1]) ?_
  have hs0 : l2.size 0 = N := by rw [size, h2'.1]; rfl
  have hs1 : l2.size 1 = numFeaturesOut L := by rw [size, h2'.1]; rfl
  rw [hs0, hs1]
  refine (view_is h2' (by simp [numelS, pow_two])).bind fun v hv => ?_
  refine (logitsToLogWeights_is hv (by simp)).mono fun lw hlw => Is.is3 hlw ?_
  intro n hn d hd k hk
  simp only [SumL.lwEin, at', setAt]
  refine Fl.logSoftmax_congr (fun j hj => ?_) hk
  rw [pow_two] at hj ⊢
  rw [unflat_merge hn hd hj]
  simp [at']

/-! ### Weights of a layer, index mode and one-hot mode -/

theorem posteriorWeights_exact {lp lls : Tensor Fl} {N D K : Nat} {w e : Nat → Nat → Nat → Fl}
    (hlp : lp.Is3 N D K w) (hlls : lls.Is3 N D K e) :
    Res.Sat (posteriorWeights lp lls) fun W => W.Is3 N D K fun n d => Fl.logSoftmax K fun k => w n d k + e n d k := by
  refine (zipWith_is _ hlp hlls (by simp) (by simp [bshape]; rfl)).bind fun p hp => ?_
  refine (logsumexpKeep_is hp (by simp)).bind fun l hl => ?_
  refine (zipWith_is _ hp hl (c := [N, D, K]) (by simp [setAt]) (by simp [setAt, bshape])).mono fun W hW => hW.is3 ?_
  intro n hn d hd k hk
  simp [clipAll, at', clip_of_lt, hn, hd, hk, setAt, Fl.logSoftmax]
  congr 1
  refine Fl.lse_congr fun j hj => ?_
  simp [clip_of_lt, hj]

namespace Layer

/-- log-likelihood below choice `k` of draw `d`. -/
def evF : Layer → Row → Row
  | sum _, x => x
  | linsum L, x => fun d k r => x (2 * d) k r + rightChild L.num_features x d k r
  | linsum2 _, x => x
  | einsum L, x => fun d k r => x (2 * d) (k / L.num_sums_in) r + x (2 * d + 1) (k % L.num_sums_in) r
  | rootProduct _ _, _ => fun _ _ _ => .fin 0

/-- log weight of choice `k` of draw `d`, conditioned on the cached values `e` if `c`. -/
def wt (l : Layer) (c : Bool) (T : ℝ) (e : Row) (idx : Nat → Nat) (r d : Nat) : Nat → Fl :=
  if c then Fl.logSoftmax l.choices fun k => l.lwt T d (idx (l.par d)) r k + l.evF e d k r
  else l.lwt T d (idx (l.par d)) r

/-- the evidence is absent, or the values cached by the forward pass. -/
def Ev (l : Layer) (N : Nat) (cache : Option Cache) (e : Nat → Row) : Prop := cache = none ∨ l.CacheIs N cache e

theorem weights_exact {l : Layer} {Di Si Do So R : Nat} (h : WF l Di Si Do So R) (hs : l.isSum = true) {ctx : Ctx} {N : Nat}
    {idx : Nat → Nat → Nat} {rr : Nat → Nat} (hctx : CtxOK ctx N Do So R idx rr) {cache : Option Cache} {e : Nat → Row}
    (hev : l.Ev N cache e) :
    Res.Sat (absWeights l.sel l.cnd cache ctx) fun W => W.Is3 N l.draws l.choices fun n d =>
      l.wt cache.isSome ctx.temperature_sums (e n) (idx n) (rr n) d := by
  unfold absWeights
  cases h with
  | sum L hL hf hS =>
    refine (SumLayer.selectWeights_is hL hctx).bind fun lw hlw => ?_
    rcases hev with rfl | ⟨x, rfl, hx⟩
    · exact Res.Sat.ok hlw
    · refine (repIdx_is hctx.ir L.num_features L.num_sums_in (some 1) (Or.inr rfl)).bind fun q ⟨gx, hq, hg⟩ => ?_
      exact gatherRep_is hx hq hg hctx.ir_lt fun t ht => posteriorWeights_exact hlw ht
  | linsum2 L hL hf hS hD hE =>
    refine (LinsumLayer2.selectWeights_is hL hctx).bind fun lw hlw => ?_
    rcases hev with rfl | ⟨x, rfl, hx⟩
    · exact Res.Sat.ok hlw
    · refine (repIdx_is hctx.ir L.num_features L.num_sums_in none (Or.inl rfl)).bind fun q ⟨gx, hq, hg⟩ => ?_
      exact gatherRep_is hx hq hg hctx.ir_lt fun t ht => posteriorWeights_exact hlw ht
  | linsum L hL hf hS hD =>
    refine (LinsumLayer.selectWeights_is hL hctx).bind fun lw hlw => ?_
    rcases hev with rfl | ⟨l', r', rfl, hl, hr⟩
    · exact Res.Sat.ok hlw
    · refine (repIdx_is hctx.ir (LinsumLayer.numFeaturesOut L) L.num_sums_in none (Or.inl rfl)).bind fun q ⟨gx, hq, hg⟩ => ?_
      refine gatherRep_is hl hq hg hctx.ir_lt fun tl htl => ?_
      refine gatherRep_is hr hq hg hctx.ir_lt fun tr htr => ?_
      refine (zipWith_is _ htl htr (by simp) (by simp [bshape]; rfl)).bind fun s hs => ?_
      rw [hctx.ns]
      refine (view_is hs rfl).bind fun v hv => ?_
      refine posteriorWeights_exact hlw
        (e := fun n d k => e n (2 * d) k (rr n) + rightChild L.num_features (e n) d k (rr n)) (Is.is3 hv ?_)
      intro n hn d hd k hk
      replace hd : d < LinsumLayer.numFeaturesOut L := hd
      replace hk : k < L.num_sums_in := hk
      rw [unflat_flat (show InB [N, LinsumLayer.numFeaturesOut L, L.num_sums_in] [n, d, k] from ⟨hn, hd, hk, by simp⟩)]
      simp [at', clipAll, clip_of_lt, hn, hd, hk]
  | einsum L hL hf hS hO hR hD hE =>
    refine (EinsumLayer.selectWeights_is hL hctx).bind fun lw hlw => ?_
    rcases hev with rfl | ⟨l', r', rfl, hl, hr⟩
    · exact Res.Sat.ok hlw
    · refine (repIdx_is hctx.ir (EinsumLayer.numFeaturesOut L) L.num_sums_in none (Or.inl rfl)).bind fun q ⟨gx, hq, hg⟩ => ?_
      refine gatherRep_is hl hq hg hctx.ir_lt fun tl htl => ?_
      refine (unsqueeze_is htl (by simp)).bind fun tl' htl' => ?_
      refine gatherRep_is hr hq hg hctx.ir_lt fun tr htr => ?_
      refine (unsqueeze_is htr (by simp)).bind fun tr' htr' => ?_
      refine (zipWith_is _ htl' htr' (by simp [insAt]) (by simp [insAt, bshape]; rfl)).bind fun s hs => ?_
      rw [hctx.ns]
      refine (view_is hs (by simp [numelS, pow_two])).bind fun v hv => ?_
      refine posteriorWeights_exact hlw
        (e := fun n d k => e n (2 * d) (k / L.num_sums_in) (rr n) + e n (2 * d + 1) (k % L.num_sums_in) (rr n))
        (Is.is3 hv ?_)
      intro n hn d hd k hk
      replace hd : d < EinsumLayer.numFeaturesOut L := hd
      have hk' : k < L.num_sums_in ^ 2 := hk
      rw [pow_two] at hk'
      rw [show [N, EinsumLayer.numFeaturesOut L, L.num_sums_in ^ 2] =
        [N, EinsumLayer.numFeaturesOut L, L.num_sums_in * L.num_sums_in] by rw [pow_two]]
      rw [unflat_merge hn hd hk']
      simp [at', clipAll, clip_of_lt, hn, hd, Nat.div_lt_of_lt_mul hk', Nat.mod_lt k hS, insAt, delAt]
  | rootProduct => simp [isSum] at hs

def selD : Layer → DCtx → Res (Tensor Fl)
  | sum L => SumLayer.selectWeightsD L
  | linsum L => LinsumLayer.selectWeightsD L
  | linsum2 L => LinsumLayer2.selectWeightsD L
  | einsum L => EinsumLayer.selectWeightsD L
  | rootProduct _ _ => fun _ => .error .other

def cndD : Layer → Cache → DCtx → Tensor Fl → Res (Tensor Fl)
  | sum L => SumLayer.conditionD L
  | linsum L => LinsumLayer.conditionD L
  | linsum2 L => LinsumLayer2.conditionD L
  | einsum L => EinsumLayer.conditionD L
  | rootProduct _ _ => fun _ _ _ => .error .other

def pstD : Layer → DCtx → Tensor Fl → Res (Tensor Fl)
  | sum _ => fun _ i => .ok i
  | linsum L => LinsumLayer.postD L
  | linsum2 L => LinsumLayer2.postD L
  | einsum L => EinsumLayer.postD L
  | rootProduct _ _ => fun _ _ => .error .other

theorem sampleD_eq {l : Layer} {Di Si Do So R : Nat} (h : WF l Di Si Do So R) (hs : l.isSum = true) (cache : Option Cache)
    (g : List Nat → Fl) (ctx : DCtx) :
    l.sampleD cache g ctx = absSampleD Do So R l.selD l.cndD l.pstD cache g ctx := by
  cases h <;> first | rfl | simp [isSum] at hs

end Layer

/-- the weights used by `absSampleD`. -/
def absWeightsD (select : DCtx → Res (Tensor Fl)) (condition : Cache → DCtx → Tensor Fl → Res (Tensor Fl))
    (cache : Option Cache) (ctx : DCtx) : Res (Tensor Fl) := do
  let lw ← select ctx
  match cache with
  | none => .ok lw
  | some c => condition c ctx lw

theorem absSampleD_eq {D S R : Nat} {select : DCtx → Res (Tensor Fl)}
    {condition : Cache → DCtx → Tensor Fl → Res (Tensor Fl)} {post : DCtx → Tensor Fl → Res (Tensor Fl)}
    {cache : Option Cache} {g : List Nat → Fl} {ctx : DCtx} (hc : checkContextD D S R ctx = .ok ()) {W : Tensor Fl}
    (hW : absWeightsD select condition cache ctx = .ok W) :
    absSampleD D S R select condition post cache g ctx =
      (do let ix ← drawOneHot ctx g W
          let o ← post ctx ix
          return { ctx with indices_out := o }) := by
  unfold absSampleD
  rw [hc]
  unfold absWeightsD at hW
  cases hs : select ctx with
  | error e => rw [hs] at hW; simp at hW
  | ok lw =>
    rw [hs] at hW
    cases cache with
    | none =>
      simp only [Res.ok_bind, Except.ok.injEq] at hW
      subst hW; rfl
    | some c =>
      simp only [Res.ok_bind] at hW ⊢
      rw [hW]; rfl

namespace Layer

theorem rightChild_fin {D d k r : Nat} {x : Row} (h : 2 * d + 1 < D → (x (2 * d + 1) k r).IsFin) :
    (rightChild D x d k r).IsFin := by
  unfold rightChild
  split_ifs with h1
  · exact h h1
  · exact Fl.isFin_fin _

theorem weightsD_exact {l : Layer} {Di Si Do So R : Nat} (h : WF l Di Si Do So R) (hs : l.isSum = true) {ctx : DCtx}
    {N : Nat} {idx : Nat → Nat → Nat} {rr : Nat → Nat} (hctx : DCtxOK ctx N Do So R idx rr) {cache : Option Cache}
    {e : Nat → Row} (hev : l.Ev N cache e)
    (he : ∀ n, n < N → ∀ d, d < Di → ∀ k, k < Si → ∀ r, r < R → (e n d k r).IsFin) :
    Res.Sat (absWeightsD l.selD l.cndD cache ctx) fun W => W.Is3 N l.draws l.choices fun n d =>
      l.wt cache.isSome ctx.temperature_sums (e n) (idx n) (rr n) d := by
  unfold absWeightsD
  cases h with
  | sum L hL hf hS =>
    refine (SumLayer.selectWeightsD_is hL hf hctx).bind fun lw hlw => ?_
    rcases hev with rfl | ⟨x, rfl, hx⟩
    · exact Res.Sat.ok hlw
    · show Res.Sat (SumLayer.conditionD L (.one x) ctx lw) _
      unfold SumLayer.conditionD
      rw [hctx.ns]
      refine (viewRep_is hctx.ir).bind fun q hq => ?_
      exact (indexRep_is hx hq hctx.ir_lt he).bind fun t ht => posteriorWeights_exact hlw ht
  | linsum2 L hL hf hS hD hE =>
    refine (LinsumLayer2.selectWeightsD_is hL hf hctx).bind fun lw hlw => ?_
    rcases hev with rfl | ⟨x, rfl, hx⟩
    · exact Res.Sat.ok hlw
    · show Res.Sat (LinsumLayer2.conditionD L (.one x) ctx lw) _
      unfold LinsumLayer2.conditionD
      rw [hctx.ns]
      refine (viewRep_is hctx.ir).bind fun q hq => ?_
      exact (indexRep_is hx hq hctx.ir_lt he).bind fun t ht => posteriorWeights_exact hlw ht
  | linsum L hL hf hS hD =>
    have hO : LinsumLayer.numFeaturesOut L = (L.num_features + L.num_features % 2) / 2 := rfl
    refine (LinsumLayer.selectWeightsD_is hL hf hctx).bind fun lw hlw => ?_
    rcases hev with rfl | ⟨l', r', rfl, hl, hr⟩
    · exact Res.Sat.ok hlw
    · show Res.Sat (LinsumLayer.conditionD L (.two l' r') ctx lw) _
      unfold LinsumLayer.conditionD
      rw [hctx.ns]
      refine (viewRep_is hctx.ir).bind fun q hq => ?_
      refine (indexRep_is hl hq hctx.ir_lt fun n hn d hd k hk r hr => he n hn _ (by omega) k hk r hr).bind fun tl htl => ?_
      refine (indexRep_is hr hq hctx.ir_lt fun n hn d hd k hk r hr =>
        rightChild_fin fun h1 => he n hn _ h1 k hk r hr).bind fun tr htr => ?_
      refine (zipWith_is _ htl htr (by simp) (by simp [bshape]; rfl)).bind fun s hs => ?_
      refine (view_is hs rfl).bind fun v hv => ?_
      refine posteriorWeights_exact hlw
        (e := fun n d k => e n (2 * d) k (rr n) + rightChild L.num_features (e n) d k (rr n)) (Is.is3 hv ?_)
      intro n hn d hd k hk
      replace hd : d < LinsumLayer.numFeaturesOut L := hd
      replace hk : k < L.num_sums_in := hk
      rw [unflat_flat (show InB [N, LinsumLayer.numFeaturesOut L, L.num_sums_in] [n, d, k] from ⟨hn, hd, hk, by simp⟩)]
      simp [at', clipAll, clip_of_lt, hn, hd, hk]
  | einsum L hL hf hS hO' hR hD hE =>
    have hO : EinsumLayer.numFeaturesOut L = L.num_features / 2 := rfl
    refine (EinsumLayer.selectWeightsD_is hL hf hctx).bind fun lw hlw => ?_
    rcases hev with rfl | ⟨l', r', rfl, hl, hr⟩
    · exact Res.Sat.ok hlw
    · show Res.Sat (EinsumLayer.conditionD L (.two l' r') ctx lw) _
      unfold EinsumLayer.conditionD
      rw [hctx.ns]
      refine (viewRep_is hctx.ir).bind fun q hq => ?_
      refine (indexRep_is hl hq hctx.ir_lt fun n hn d hd k hk r hr => he n hn _ (by omega) k hk r hr).bind fun tl htl => ?_
      refine (unsqueeze_is htl (by simp)).bind fun tl' htl' => ?_
      refine (indexRep_is hr hq hctx.ir_lt fun n hn d hd k hk r hr => he n hn _ (by omega) k hk r hr).bind fun tr htr => ?_
      refine (unsqueeze_is htr (by simp)).bind fun tr' htr' => ?_
      refine (zipWith_is _ htl' htr' (by simp [insAt]) (by simp [insAt, bshape]; rfl)).bind fun s hs => ?_
      refine (view_is hs (by simp [numelS, pow_two])).bind fun v hv => ?_
      refine posteriorWeights_exact hlw
        (e := fun n d k => e n (2 * d) (k / L.num_sums_in) (rr n) + e n (2 * d + 1) (k % L.num_sums_in) (rr n))
        (Is.is3 hv ?_)
      intro n hn d hd k hk
      replace hd : d < EinsumLayer.numFeaturesOut L := hd
      have hk' : k < L.num_sums_in ^ 2 := hk
      rw [pow_two] at hk'
      rw [show [N, EinsumLayer.numFeaturesOut L, L.num_sums_in ^ 2] =
        [N, EinsumLayer.numFeaturesOut L, L.num_sums_in * L.num_sums_in] by rw [pow_two]]
      rw [unflat_merge hn hd hk']
      simp [at', clipAll, clip_of_lt, hn, hd, Nat.div_lt_of_lt_mul hk', Nat.mod_lt k hS, insAt, delAt]
  | rootProduct => simp [isSum] at hs

end Layer

/-! ### Children of the drawn channels -/

theorem Fl.isFin_add {a b : Fl} (ha : a.IsFin) (hb : b.IsFin) : (a + b).IsFin := by
  obtain ⟨r, rfl⟩ := ha
  obtain ⟨q, rfl⟩ := hb
  exact ⟨r + q, rfl⟩

theorem viewMid_is {α : Type} {t : Tensor α} {s : List Nat} {g : List Nat → α} {N M S : Nat} (hN : 0 < N) (hS : 0 < S) (h : t.Is s g)
    (hs : numelS s = N * M * S) :
    Res.Sat (viewMid N S t) fun v => v.Is [N, M, S] fun i => g (unflat s (flat [N, M, S] i)) := by
  have hp : 0 < N * S := Nat.mul_pos hN hS
  have e : t.numel / (N * S) = M := by
    rw [numel, h.1, hs, show N * M * S = M * (N * S) by ring, Nat.mul_div_cancel _ hp]
  refine Res.Sat.require hp ?_
  rw [e]
  exact view_is h (by rw [hs]; simp [numelS]; ring)

theorem viewMid_is3 {α : Type} {t : Tensor α} {N M S : Nat} {f : Nat → Nat → Nat → α} (hN : 0 < N) (hS : 0 < S) (h : t.Is3 N M S f) :
    Res.Sat (viewMid N S t) fun v => v.Is3 N M S f := by
  refine (viewMid_is hN hS h (M := M) (by simp [numelS]; ring)).mono fun v hv => Is.is3 hv ?_
  intro n hn d hd s hs
  rw [unflat_flat (show InB [N, M, S] [n, d, s] from ⟨hn, hd, hs, by simp⟩)]
  rfl

theorem LinsumLayer.postD_is {L : SumL} {ctx : DCtx} {N : Nat} (hN : 0 < N) (hS : 0 < L.num_sums_in)
    (hns : ctx.num_samples = N) {ix : Tensor Fl} {f : Nat → Nat → Nat → Fl}
    (h : ix.Is3 N (numFeaturesOut L) L.num_sums_in f) :
    Res.Sat (LinsumLayer.postD L ctx ix) fun o => o.Is3 N L.num_features L.num_sums_in fun n d => f n (d / 2) := by
  have hO : numFeaturesOut L = (L.num_features + L.num_features % 2) / 2 := rfl
  refine (repeatInterleave_is h (by simp)).bind fun p hp => ?_
  have hp' : p.Is3 N (numFeaturesOut L * 2) L.num_sums_in fun n d => f n (d / 2) :=
    hp.is3 (by intro n hn d hd s hs; rfl)
  rw [hns]
  refine (viewMid_is3 hN hS hp').bind fun v hv => ?_
  split_ifs with h1
  · have hs : v.size 1 = numFeaturesOut L * 2 := by rw [size, hv.1]; rfl
    rw [hs]
    refine (take_is hv (by simp)).mono fun q hq => ?_
    have e : min (numFeaturesOut L * 2 - pad L) (at' 1 [N, numFeaturesOut L * 2, L.num_sums_in]) = L.num_features := by
      show min (numFeaturesOut L * 2 - L.num_features % 2) (numFeaturesOut L * 2) = L.num_features
      omega
    rw [e] at hq
    exact Is.is3 hq (by intro n hn d hd s hs; rfl)
  · have e : numFeaturesOut L * 2 = L.num_features := by unfold pad at h1; omega
    rw [e] at hv
    exact Res.Sat.ok hv

theorem LinsumLayer2.postD_is {L : SumL} (hD : L.num_features % 2 = 0) {ctx : DCtx} {N : Nat} (hN : 0 < N)
    (hS : 0 < L.num_sums_in) (hns : ctx.num_samples = N) {ix : Tensor Fl} {f : Nat → Nat → Nat → Fl}
    (h : ix.Is3 N L.num_features L.num_sums_in f) :
    Res.Sat (LinsumLayer2.postD L ctx ix) fun o => o.Is3 N L.num_features L.num_sums_in f := by
  unfold LinsumLayer2.postD
  rw [hns]
  refine (viewMid_is3 hN hS h).bind fun v hv => ?_
  rw [if_neg (by unfold pad; omega)]
  exact Res.Sat.ok hv

theorem EinsumLayer.unravel_is {L : SumL} {N D : Nat} {ix : Tensor Fl} {c : Nat → Nat → Nat}
    (h : ix.Is3 N D (L.num_sums_in ^ 2) fun n d => oh (c n d))
    (hc : ∀ n, n < N → ∀ d, d < D → c n d < L.num_sums_in ^ 2) (g : Nat → Nat) :
    Res.Sat (do (← (ix.unsqueezeEnd 1).mul (unraveledOH L.num_sums_in g)).sum 2) fun a =>
      a.Is3 N D L.num_sums_in fun n d => oh (g (c n d)) := by
  have hU : (unraveledOH L.num_sums_in g).Is [1, 1, L.num_sums_in ^ 2, L.num_sums_in]
      fun i => oh (g (at' 2 i)) (at' 3 i) := Is.intro (by simp [unraveledOH, pow_two]) fun i hi => rfl
  refine (zipWith_is (c := [N, D, L.num_sums_in ^ 2, L.num_sums_in]) _ (unsqueezeEnd_is 1 h) hU (by simp)
    (by simp [bshape])).bind fun m hm => ?_
  refine (sum_is hm (by simp)).mono fun a ha => Is.is3 ha ?_
  intro n hn d hd s hs
  simp only [at', insAt]
  rw [← Fl.sumN_oh' (f := fun k => oh (g k) s) (hc n hn d hd) fun k _ => oh_fin _ _]
  refine Fl.sumN_congr fun k hk => ?_
  simp [clipAll, at', clip_of_lt, hn, hd, hk, hs]

theorem EinsumLayer.postD_is {L : SumL} (hD : L.num_features % 2 = 0) {ctx : DCtx} {N : Nat} (hN : 0 < N)
    (hS : 0 < L.num_sums_in) (hns : ctx.num_samples = N) {ix : Tensor Fl} {c : Nat → Nat → Nat}
    (h : ix.Is3 N (numFeaturesOut L) (L.num_sums_in ^ 2) fun n d => oh (c n d))
    (hc : ∀ n, n < N → ∀ d, d < numFeaturesOut L → c n d < L.num_sums_in ^ 2) :
    Res.Sat (EinsumLayer.postD L ctx ix) fun o => o.Is3 N L.num_features L.num_sums_in fun n d =>
      oh (if d % 2 = 0 then c n (d / 2) / L.num_sums_in else c n (d / 2) % L.num_sums_in) := by
  have hO : numFeaturesOut L = L.num_features / 2 := rfl
  unfold EinsumLayer.postD
  obtain ⟨a, ha, ha'⟩ := EinsumLayer.unravel_is h hc fun k => k / L.num_sums_in
  obtain ⟨b, hb, hb'⟩ := EinsumLayer.unravel_is h hc fun k => k % L.num_sums_in
  obtain ⟨p, hp, hp'⟩ := bind_ok ha
  obtain ⟨q, hq, hq'⟩ := bind_ok hb
  dsimp only
  rw [hp, Res.ok_bind, hp', Res.ok_bind, hq, Res.ok_bind, hq', Res.ok_bind]
  unfold EinsumLayer.stack2
  refine Res.Sat.bind (P := fun t => t.Is [N, numFeaturesOut L, 2, L.num_sums_in] fun i =>
    if at' 2 i = 0 then oh (c (at' 0 i) (at' 1 i) / L.num_sums_in) (at' 3 i)
    else oh (c (at' 0 i) (at' 1 i) % L.num_sums_in) (at' 3 i)) ?_ fun t ht => ?_
  · refine Res.Sat.require (by simp [ha'.1, hb'.1, rank]) (Res.Sat.pure ⟨by simp [ha'.1, insAt], ?_⟩)
    simp only [AllIdx_cons, AllIdx_nil]
    intro n hn d hd j hj s hs
    by_cases h0 : at' 2 [n, d, j, s] = 0
    · rw [if_pos h0, if_pos h0]; exact ha'.get hn hd hs
    · rw [if_neg h0, if_neg h0]; exact hb'.get hn hd hs
  · rw [hns]
    refine (viewMid_is hN hS ht (M := L.num_features) ?_).mono fun o ho => Is.is3 ho ?_
    · simp only [numelS]
      have : numFeaturesOut L * 2 = L.num_features := by omega
      rw [show N * (numFeaturesOut L * (2 * (L.num_sums_in * 1))) = N * (numFeaturesOut L * 2) * L.num_sums_in by ring, this]
    · intro n hn d hd s hs
      have e : unflat [N, numFeaturesOut L, 2, L.num_sums_in] (flat [N, L.num_features, L.num_sums_in] [n, d, s])
          = [n, d / 2, d % 2, s] := by
        refine unflat_eq ⟨hn, by omega, Nat.mod_lt _ (by omega), hs, by simp⟩ ?_
        have e2 : L.num_features = numFeaturesOut L * 2 := by omega
        have e3 : d = 2 * (d / 2) + d % 2 := by omega
        rw [e2]
        conv_rhs => rw [e3]
        simp only [flat, numelS]
        ring
      rw [e]
      by_cases h0 : d % 2 = 0
      · rw [if_pos (show at' 2 [n, d / 2, d % 2, s] = 0 from h0), if_pos h0]; rfl
      · rw [if_neg (show ¬at' 2 [n, d / 2, d % 2, s] = 0 from h0), if_neg h0]; rfl

theorem RootProductLayer.sampleD_is {F R N S : Nat} {ctx : DCtx} {idx : Nat → Nat → Nat} {rr : Nat → Nat}
    (h : DCtxOK ctx N 1 S R idx rr) :
    Res.Sat (RootProductLayer.sampleD F ctx) fun c => c = { ctx with indices_out := c.indices_out } ∧
      c.indices_out.Is3 N F S fun n _ => oh (idx n 0) := by
  have h1 : ctx.indices_out.shape = [N, 1, S] := h.io.1
  refine Res.Sat.require (by simp [rank, h1]) (Res.Sat.pure ⟨rfl, ?_⟩)
  refine ⟨by simp [h1, size, at', setAt], ?_⟩
  simp only [AllIdx_cons, AllIdx_nil]
  intro n hn d hd s hs
  simp only [size, h1, at', setAt, Nat.mod_one]
  exact h.io.get hn (by omega) hs

namespace Layer

theorem postD_is {l : Layer} {Di Si Do So R : Nat} (h : WF l Di Si Do So R) (hs : l.isSum = true) {ctx : DCtx} {N : Nat}
    (hN : 0 < N) (hns : ctx.num_samples = N) {ix : Tensor Fl} {c : Nat → Nat → Nat}
    (hix : ix.Is3 N l.draws l.choices fun n d => oh (c n d))
    (hc : ∀ n, n < N → ∀ d, d < l.draws → c n d < l.choices) :
    Res.Sat (l.pstD ctx ix) fun o => o.Is3 N Di Si fun n d => oh (l.child (c n) d) := by
  cases h with
  | sum L hL hf hS => exact Res.Sat.ok hix
  | linsum2 L hL hf hS hD hE => exact LinsumLayer2.postD_is hE hN hS hns hix
  | linsum L hL hf hS hD => exact LinsumLayer.postD_is hN hS hns hix
  | einsum L hL hf hS hO hR hD hE => exact EinsumLayer.postD_is hE hN hS hns hix hc
  | rootProduct => simp [isSum] at hs

theorem child_congr {l : Layer} {Di Si Do So R : Nat} (h : WF l Di Si Do So R) (hs : l.isSum = true) {c c' : Nat → Nat}
    (hc : ∀ d, d < l.draws → c d = c' d) {d : Nat} (hd : d < Di) : l.child c d = l.child c' d := by
  cases h with
  | sum L hL hf hS => exact hc d hd
  | linsum2 L hL hf hS hD => exact hc d hd
  | linsum L hL hf hS hD =>
    have hO : LinsumLayer.numFeaturesOut L = (L.num_features + L.num_features % 2) / 2 := rfl
    exact hc (d / 2) (by simp only [draws]; omega)
  | einsum L hL hf hS hO hR hD hE =>
    have hO : EinsumLayer.numFeaturesOut L = L.num_features / 2 := rfl
    simp only [child]
    rw [hc (d / 2) (by simp only [draws]; omega)]
  | rootProduct => simp [isSum] at hs

/-- finite values give finite weights. -/
theorem wt_fin {l : Layer} {Di Si Do So R : Nat} (h : WF l Di Si Do So R) (hs : l.isSum = true) (c : Bool) {T : ℝ}
    (hT : T ≠ 0) {e : Row} {idx : Nat → Nat} {r : Nat} (hr : r < R) (hi : ∀ d, d < Do → idx d < So)
    (he : ∀ d, d < Di → ∀ k, k < Si → (e d k r).IsFin) {d k : Nat} (hd : d < l.draws) (hk : k < l.choices) :
    (l.wt c T e idx r d k).IsFin := by
  have hlw : ∀ k, k < l.choices → (l.lwt T d (idx (l.par d)) r k).IsFin := by
    cases h with
    | sum L hL hf hS => exact (L.lw_fin hL hf hS hT hd (hi d hd) hr).1
    | linsum L hL hf hS hD => exact (L.lw_fin hL hf hS hT hd (hi d hd) hr).1
    | linsum2 L hL hf hS hD hE =>
      have hO : LinsumLayer2.numFeaturesOut L = (L.num_features + L.num_features % 2) / 2 := rfl
      replace hd : d < L.num_features := hd
      exact (L.lw_fin hL hf hS hT hd (hi (d / 2) (by omega)) hr).1
    | einsum L hL hf hS hO hR hD hE => exact (L.lwEin_fin hL hf hS hT hd (hi d hd) hr).1
    | rootProduct => simp [isSum] at hs
  have hev : ∀ k, k < l.choices → (l.evF e d k r).IsFin := by
    intro k hk
    cases h with
    | sum L hL hf hS => exact he d hd k hk
    | linsum L hL hf hS hD =>
      have hO : LinsumLayer.numFeaturesOut L = (L.num_features + L.num_features % 2) / 2 := rfl
      replace hd : d < LinsumLayer.numFeaturesOut L := hd
      exact Fl.isFin_add (he _ (by omega) k hk) (rightChild_fin fun h1 => he _ h1 k hk)
    | linsum2 L hL hf hS hD hE => exact he d hd k hk
    | einsum L hL hf hS hO' hR hD hE =>
      have hO : EinsumLayer.numFeaturesOut L = L.num_features / 2 := rfl
      replace hd : d < EinsumLayer.numFeaturesOut L := hd
      replace hk : k < L.num_sums_in ^ 2 := hk
      exact Fl.isFin_add (he _ (by omega) _ (Nat.div_lt_of_lt_mul (by rwa [← pow_two]))) (he _ (by omega) _ (Nat.mod_lt _ hS))
    | rootProduct => simp [isSum] at hs
  unfold wt
  split_ifs
  · rw [Fl.logSoftmax_eq_fin (g := fun k => (l.lwt T d (idx (l.par d)) r k + l.evF e d k r).val) (fun k hk => ?_) hk]
    · exact Fl.isFin_fin _
    · obtain ⟨x, hx⟩ := Fl.isFin_add (hlw k hk) (hev k hk)
      rw [hx]; rfl
  · exact hlw k hk

/-- the choices of a layer on weights `w`, perturbed by the noise of draw `n`. -/
def pick (l : Layer) (noise : Option (List Nat → Fl)) (w : Nat → Nat → Fl) (n : Nat) : Nat → Nat :=
  l.child fun d => Fl.argmaxN l.choices fun k => perturb noise (fun i => w (at' 1 i) (at' 2 i)) [n, d, k]

theorem pick_none (l : Layer) (w : Nat → Nat → Fl) (n : Nat) :
    l.pick none w n = l.child fun d => Fl.argmaxN l.choices (w d) := rfl

/-- `layer.sample` with one-hot indices. -/
theorem sampleD_is {l : Layer} {Di Si Do So R : Nat} (h : WF l Di Si Do So R) {ctx : DCtx} {N : Nat} (hN : 0 < N)
    {idx : Nat → Nat → Nat} {rr : Nat → Nat} (hctx : DCtxOK ctx N Do So R idx rr) (hT : ctx.temperature_sums ≠ 0)
    {cache : Option Cache} {e : Nat → Row} (hev : l.Ev N cache e) {g : List Nat → Fl}
    (hg : ctx.is_mpe = false → ∀ i, (g i).IsFin)
    (he : ∀ n, n < N → ∀ d, d < Di → ∀ k, k < Si → ∀ r, r < R → (e n d k r).IsFin) :
    Res.Sat (l.sampleD cache g ctx) fun c => c = { ctx with indices_out := c.indices_out } ∧
      DCtxOK c N Di Si R (fun n => if l.isSum = true then
        l.pick (if ctx.is_mpe then none else some g) (l.wt cache.isSome ctx.temperature_sums (e n) (idx n) (rr n)) n
        else fun _ => idx n 0) rr := by
  by_cases hs : l.isSum = true
  · obtain ⟨W, hW, hW'⟩ := weightsD_exact h hs hctx hev he
    rw [sampleD_eq h hs, absSampleD_eq hctx.check hW]
    simp only [if_pos hs]
    have hfin : ∀ n, n < N → ∀ d, d < l.draws → ∀ k, k < l.choices → _ := fun n hn d hd k hk =>
      wt_fin h hs cache.isSome hT (hctx.ir_lt n hn) (fun d hd => hctx.io_lt n hn d hd)
        (fun d hd k hk => he n hn d hd k hk _ (hctx.ir_lt n hn)) hd hk
    refine Res.Sat.bind (simple_is (d := 2) hW' (by simp) (choices_pos h) ?_ ?_) fun ix hix => ?_
    · rw [← AllIdx_iff]
      simp only [AllIdx_cons, AllIdx_nil, at']
      exact hfin
    · rw [← AllIdx_iff]
      simp only [AllIdx_cons, AllIdx_nil]
      intro n hn d hd k hk
      cases hm : ctx.is_mpe
      · exact Fl.isFin_add (hfin n hn d hd k hk) (hg hm _)
      · exact hfin n hn d hd k hk
    · refine Res.Sat.bind (postD_is h hs hN hctx.ns (c := fun n d => Fl.argmaxN l.choices fun k =>
        perturb (if ctx.is_mpe then none else some g) (fun i => l.wt cache.isSome ctx.temperature_sums (e n) (idx n) (rr n)
          (at' 1 i) (at' 2 i)) [n, d, k]) (Is.is3 hix ?_) ?_) fun o ho => Res.Sat.pure ⟨rfl, hctx.ns, ho, ?_, hctx.ir, hctx.ir_lt⟩
      · intro n hn d hd k hk
        simp only [at', setAt]
        cases ctx.is_mpe <;> rfl
      · exact fun n hn d hd => Fl.argmaxN_lt (choices_pos h) _
      · exact fun n hn d hd => child_lt h hs (fun d hd => Fl.argmaxN_lt (choices_pos h) _) hd
  · simp only [if_neg hs]
    cases h with
    | rootProduct =>
      refine (RootProductLayer.sampleD_is (F := Di) hctx).mono fun c ⟨h1, h2⟩ => ⟨h1, ?_⟩
      refine ⟨by rw [h1]; exact hctx.ns, h2, fun n hn d hd => hctx.io_lt n hn 0 (by omega), by rw [h1]; exact hctx.ir, hctx.ir_lt⟩
    | _ => simp [isSum] at hs

/-- `layer.sample` with integer indices, most probable choices. -/
theorem sample_exact {l : Layer} {Di Si Do So R : Nat} (h : WF l Di Si Do So R) {ctx : Ctx} {N : Nat} (hN : 0 < N)
    (hm : ctx.is_mpe = true) {idx : Nat → Nat → Nat} {rr : Nat → Nat} (hctx : CtxOK ctx N Do So R idx rr)
    {cache : Option Cache} {e : Nat → Row} (hev : l.Ev N cache e) :
    ∃ c, l.sample cache ctx = .pure c ∧ c = { ctx with indices_out := c.indices_out } ∧
      CtxOK c N Di Si R (fun n => if l.isSum = true then
        l.pick none (l.wt cache.isSome ctx.temperature_sums (e n) (idx n) (rr n)) n else fun _ => idx n 0) rr := by
  by_cases hs : l.isSum = true
  · obtain ⟨W, hW, hW'⟩ := weights_exact h hs hctx hev
    rw [sample_eq h hs, absSample_eq hctx.check hW]
    simp only [if_pos hs, pick_none]
    obtain ⟨ix, hix, hix'⟩ := argmax_is (d := 2) hW' (by simp) (choices_pos h)
    have hget : ∀ n, n < N → ∀ d, d < l.draws → ix.get [n, d] =
        Fl.argmaxN l.choices (l.wt cache.isSome ctx.temperature_sums (e n) (idx n) (rr n) d) := fun n hn d hd =>
      hix'.get (i := [n, d]) ⟨hn, hd, trivial⟩
    obtain ⟨o, ho, ho'⟩ := post_is h hs hN hctx.ns (ix := ix) hix'.1
      (fun n hn d hd => by rw [hget n hn d hd]; exact Fl.argmaxN_lt (choices_pos h) _)
    unfold drawIndices
    rw [if_pos hm, hix]
    simp only [Rand.lift_ok, Rand.pure_bind, ho]
    refine ⟨_, rfl, rfl, hctx.ns, ?_, ?_, hctx.ir, hctx.ir_lt⟩
    · refine Is.is2 ho' ?_
      intro n hn d hd
      exact child_congr h hs (fun d hd => hget n hn d hd) hd
    · exact fun n hn d hd => child_lt h hs (fun d hd => Fl.argmaxN_lt (choices_pos h) _) hd
  · simp only [if_neg hs]
    cases h with
    | rootProduct =>
      obtain ⟨c, hc, h1, h2⟩ := rootProduct_sample (F := Di) hctx
      refine ⟨c, by simp only [sample, hc, Rand.lift_ok], h1, ?_⟩
      refine ⟨by rw [h1]; exact hctx.ns, h2, fun n hn d hd => hctx.io_lt n hn 0 (by omega), by rw [h1]; exact hctx.ir, hctx.ir_lt⟩
    | _ => simp [isSum] at hs

end Layer

end Einet
