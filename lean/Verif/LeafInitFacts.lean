import Verif.LeafInit
import Verif.SampleLaw
import Verif.Accept
import Verif.MvnSample

/-! Facts about `init_einet_stats`: the statistics of finite batches, their place in the leaf parameters, the law of the noise. -/

namespace Einet
open MeasureTheory ProbabilityTheory Tensor
open scoped ENNReal

/-- arithmetic mean. -/
noncomputable def average (l : List ℝ) : ℝ := l.sum / l.length

/-- sample variance with Bessel's correction. -/
noncomputable def sampleVariance (l : List ℝ) : ℝ := (l.map fun x => (x - average l) ^ 2).sum / ((l.length : ℝ) - 1)

theorem sum_getD_map (l : List ℝ) (g : ℝ → ℝ) : ∑ i ∈ Finset.range l.length, g (l.getD i 0) = (l.map g).sum := by
  induction l with
  | nil => simp
  | cons a l ih =>
    rw [List.length_cons, Finset.sum_range_succ', List.map_cons, List.sum_cons, ← ih, add_comm]
    rfl

namespace Fl

theorem div_fin {a b : ℝ} (h : b ≠ 0) : (fin a / fin b : Fl) = fin (a / b) := by
  show Fl.div _ _ = _
  simp [Fl.div, h]

theorem meanN_list {l : List ℝ} {f : Nat → Fl} (h0 : l ≠ []) (h : ∀ i, i < l.length → f i = fin (l.getD i 0)) :
    meanN l.length f = fin (average l) := by
  have : (l.length : ℝ) ≠ 0 := by simpa using h0
  rw [meanN, sumN_eq_fin h, div_fin this, average]
  have := sum_getD_map l id
  simp only [id, List.map_id] at this
  rw [this]

theorem varN_list {l : List ℝ} {f : Nat → Fl} (h2 : 2 ≤ l.length) (h : ∀ i, i < l.length → f i = fin (l.getD i 0)) :
    varN l.length f = fin (sampleVariance l) := by
  have h0 : l ≠ [] := by rintro rfl; simp at h2
  have e1 : ((l.length - 1 : Nat) : ℝ) = (l.length : ℝ) - 1 := by rw [Nat.cast_sub (by omega)]; simp
  have e2 : (l.length : ℝ) - 1 ≠ 0 := by
    have : (2 : ℝ) ≤ l.length := by exact_mod_cast h2
    linarith
  rw [varN, meanN_list h0 h, sumN_eq_fin (g := fun i => (l.getD i 0 - average l) ^ 2), e1, div_fin e2, sampleVariance,
    sum_getD_map l fun x => (x - average l) ^ 2]
  intro i hi
  rw [h i hi]
  show fin _ = _
  congr 1
  ring

/-- the variance of one row. -/
theorem varN_one (f : Nat → Fl) : varN 1 f = nan := by
  unfold varN
  simp only [sumN, meanN]
  cases h : f 0 with
  | fin a =>
    show Fl.div (Fl.add _ (Fl.mul _ _)) _ = _
    have : (fin 0 + fin a : Fl) / fin ((1 : ℕ) : ℝ) = fin a := by
      show Fl.div (Fl.add _ _) _ = _
      simp [Fl.div, Fl.add]
    rw [this]
    have e : (fin a - fin a : Fl) = fin 0 := by
      show Fl.add _ (Fl.neg _) = _
      simp [Fl.add, Fl.neg]
    rw [e]
    simp [Fl.div, Fl.add, Fl.mul, infMul]
  | nan => rfl
  | pinf =>
    have : (fin 0 + pinf : Fl) / fin ((1 : ℕ) : ℝ) = pinf := by
      show Fl.div (Fl.add _ _) _ = _
      simp [Fl.div, Fl.add]
    rw [this]
    rfl
  | ninf =>
    have : (fin 0 + ninf : Fl) / fin ((1 : ℕ) : ℝ) = ninf := by
      show Fl.div (Fl.add _ _) _ = _
      simp [Fl.div, Fl.add]
    rw [this]
    rfl

end Fl

/-- a tensor holds these rows: its entries, at their row-major position within the row. -/
def BatchIs (s : List Nat) (t : Tensor Fl) (rows : List (Nat → ℝ)) : Prop :=
  t.Is (rows.length :: s) fun ix => .fin ((rows.map (· (flat s ix.tail))).getD (at' 0 ix) 0)

/-- the values of a column. -/
def column (rows : List (Nat → ℝ)) (k : Nat) : List ℝ := rows.map (· k)

namespace Tensor

theorem add_same {t u : Tensor Fl} {s : List Nat} {g g' : List Nat → Fl} (ht : t.Is s g) (hu : u.Is s g') :
    Res.Sat (t.add u) fun w => w.Is s fun i => g i + g' i := by
  refine (zipWith_is _ ht hu rfl (bshape_self s)).mono fun w hw => ?_
  refine Is.intro hw.1 fun i hi => ?_
  rw [hw.get hi, clipAll_self hi]

theorem addInto_same {t u : Tensor Fl} {s : List Nat} {g g' : List Nat → Fl} (ht : t.Is s g) (hu : u.Is s g') :
    Res.Sat (t.addInto u) fun w => w.Is s fun i => g i + g' i :=
  (add_same ht hu).bind fun w hw => Res.Sat.require (by rw [hw.1, ht.1]) (Res.Sat.pure hw)

theorem Is.map {α β : Type} {t : Tensor α} {s : List Nat} {g : List Nat → α} (h : t.Is s g) (f : α → β) :
    (t.map f).Is s fun i => f (g i) := Is.intro h.1 fun _ hi => congrArg f (h.get hi)

end Tensor

theorem Fl.meanN_congr {n : Nat} {f g : Nat → Fl} (h : ∀ i, i < n → f i = g i) : Fl.meanN n f = Fl.meanN n g := by
  rw [Fl.meanN, Fl.meanN, Fl.sumN_congr h]

theorem Fl.varN_congr {n : Nat} {f g : Nat → Fl} (h : ∀ i, i < n → f i = g i) : Fl.varN n f = Fl.varN n g := by
  rw [Fl.varN, Fl.varN, Fl.meanN_congr h, Fl.sumN_congr fun i hi => by rw [h i hi]]

/-- averages of the statistics of the batches. -/
noncomputable def meanStat (rows : List (List (Nat → ℝ))) (k : Nat) : ℝ := average (rows.map fun b => average (column b k))
noncomputable def varStat (rows : List (List (Nat → ℝ))) (k : Nat) : ℝ := average (rows.map fun b => sampleVariance (column b k))

theorem column_length (b : List (Nat → ℝ)) (k : Nat) : (column b k).length = b.length := by simp [column]

/-- statistics of one batch. -/
theorem batch_mean {s : List Nat} {t : Tensor Fl} {b : List (Nat → ℝ)} (h : BatchIs s t b) (h2 : 2 ≤ b.length) :
    Res.Sat (t.reduce Fl.meanN 0) fun m => m.Is s fun i => .fin (average (column b (flat s i))) := by
  refine (reduce_is (fun _ _ _ => Fl.meanN_congr) h (by simp)).mono fun m hm => ?_
  refine Is.intro hm.1 fun i hi => ?_
  rw [hm.get hi]
  have hl := column_length b (flat s i)
  refine Eq.trans ?_ (Fl.meanN_list (l := column b (flat s i)) (by rintro e; rw [e] at hl; simp at hl; omega) fun _ _ => rfl)
  rw [hl]
  rfl

theorem batch_var {s : List Nat} {t : Tensor Fl} {b : List (Nat → ℝ)} (h : BatchIs s t b) (h2 : 2 ≤ b.length) :
    Res.Sat (t.reduce Fl.varN 0) fun m => m.Is s fun i => .fin (sampleVariance (column b (flat s i))) := by
  refine (reduce_is (fun _ _ _ => Fl.varN_congr) h (by simp)).mono fun m hm => ?_
  refine Is.intro hm.1 fun i hi => ?_
  rw [hm.get hi]
  have hl := column_length b (flat s i)
  refine Eq.trans ?_ (Fl.varN_list (l := column b (flat s i)) (by omega) fun _ _ => rfl)
  rw [hl]
  rfl

/-- the loop. -/
theorem loop_stats {s : List Nat} {ts : List (Tensor Fl)} {rows : List (List (Nat → ℝ))}
    (h : List.Forall₂ (BatchIs s) ts rows) (h2 : ∀ b ∈ rows, 2 ≤ b.length) {m v : Tensor Fl} {gm gv : Nat → ℝ}
    (hm : m.Is s fun i => .fin (gm (flat s i))) (hv : v.Is s fun i => .fin (gv (flat s i))) :
    Res.Sat (ts.foldlM statsStep (some (m, v))) fun st => ∃ m' v', st = some (m', v') ∧
      (m'.Is s fun i => .fin (gm (flat s i) + (rows.map fun b => average (column b (flat s i))).sum)) ∧
      (v'.Is s fun i => .fin (gv (flat s i) + (rows.map fun b => sampleVariance (column b (flat s i))).sum)) := by
  induction h generalizing m v gm gv with
  | nil => exact Res.Sat.pure ⟨m, v, rfl, by simpa using hm, by simpa using hv⟩
  | @cons t b ts rows ht _ ih =>
    rw [List.foldlM_cons]
    refine Res.Sat.bind (P := fun st => ∃ m' v', st = some (m', v') ∧
      (m'.Is s fun i => .fin (gm (flat s i) + average (column b (flat s i)))) ∧
      (v'.Is s fun i => .fin (gv (flat s i) + sampleVariance (column b (flat s i))))) ?_ ?_
    · refine (batch_mean ht (h2 b (by simp))).bind fun mb hmb => (batch_var ht (h2 b (by simp))).bind fun vb hvb => ?_
      refine (addInto_same hm hmb).bind fun m' hm' => (addInto_same hv hvb).bind fun v' hv' => ?_
      exact Res.Sat.pure ⟨m', v', rfl, hm', hv'⟩
    · rintro _ ⟨m', v', rfl, hm', hv'⟩
      refine (ih (fun b hb => h2 b (by simp [hb])) (gm := fun k => gm k + average (column b k))
        (gv := fun k => gv k + sampleVariance (column b k)) hm' hv').mono ?_
      rintro _ ⟨m2, v2, rfl, hm2, hv2⟩
      refine ⟨m2, v2, rfl, ?_, ?_⟩
      · simpa [add_assoc] using hm2
      · simpa [add_assoc] using hv2

theorem batchStats_is {s : List Nat} {ts : List (Tensor Fl)} {rows : List (List (Nat → ℝ))}
    (h : List.Forall₂ (BatchIs s) ts rows) (h0 : rows ≠ []) (h2 : ∀ b ∈ rows, 2 ≤ b.length) :
    Res.Sat (batchStats ts) fun st => (st.1.Is s fun i => .fin (meanStat rows (flat s i))) ∧
      st.2.Is s fun i => .fin (varStat rows (flat s i)) := by
  have hlen := h.length_eq
  have hne : (rows.length : ℝ) ≠ 0 := by simpa using h0
  cases h with
  | nil => simp at h0
  | @cons t b ts rows ht htl =>
    unfold batchStats
    refine Res.Sat.bind (P := fun st => ∃ m' v', st = some (m', v') ∧
      (m'.Is s fun i => .fin (((b :: rows).map fun b => average (column b (flat s i))).sum)) ∧
      (v'.Is s fun i => .fin (((b :: rows).map fun b => sampleVariance (column b (flat s i))).sum))) ?_ ?_
    · rw [List.foldlM_cons]
      refine Res.Sat.bind (P := fun st => ∃ m' v', st = some (m', v') ∧
        (m'.Is s fun i => .fin (average (column b (flat s i)))) ∧
        (v'.Is s fun i => .fin (sampleVariance (column b (flat s i))))) ?_ ?_
      · refine (batch_mean ht (h2 b (by simp))).bind fun mb hmb => (batch_var ht (h2 b (by simp))).bind fun vb hvb => ?_
        exact Res.Sat.pure ⟨mb, vb, rfl, hmb, hvb⟩
      · rintro _ ⟨m', v', rfl, hm', hv'⟩
        exact (loop_stats htl (fun b hb => h2 b (by simp [hb])) (gm := fun k => average (column b k))
          (gv := fun k => sampleVariance (column b k)) hm' hv').mono fun _ h => by simpa using h
    · rintro _ ⟨m', v', rfl, hm', hv'⟩
      refine Res.Sat.pure ⟨(hm'.map _).congr ((AllIdx_iff _ _).2 fun i _ => ?_),
        (hv'.map _).congr ((AllIdx_iff _ _).2 fun i _ => ?_)⟩
      · rw [hlen, Fl.div_fin hne, meanStat, average, List.length_map]
      · rw [hlen, Fl.div_fin hne, varStat, average, List.length_map]

/-! ### place in the parameters -/

/-- shape of the leaf parameters. -/
def LeafDims.shape (d : LeafDims) : List Nat := [1, d.num_channels, d.num_features, d.num_leaves, d.num_repetitions]

theorem tile_is {d : LeafDims} {s : List Nat} (hs : numelS s = d.num_channels * d.num_features) {t : Tensor Fl} {g : Nat → Fl}
    (h : t.Is s fun i => g (flat s i)) :
    Res.Sat (tileLeaf d t) fun u => u.Is d.shape fun ix => g (at' 1 ix * d.num_features + at' 2 ix) := by
  have hn : t.numel = d.num_channels * d.num_features := by rw [Tensor.numel, h.1, hs]
  refine Res.Sat.bind (P := fun u : Tensor Fl => u.Is [d.num_channels * d.num_features, 1, 1] fun ix => g (at' 0 ix)) ?_ ?_
  · refine Res.Sat.require (by simp [numelS]) (Res.Sat.pure (Is.intro (by rw [hn]) fun ix hi => ?_))
    obtain ⟨k, a, b, rfl⟩ : ∃ k a b, ix = [k, a, b] := by
      match ix, Tensor.InB.length hi with
      | [k, a, b], _ => exact ⟨k, a, b, rfl⟩
    obtain ⟨hk, ha, hb, -⟩ := hi
    have ha : a = 0 := by omega
    have hb : b = 0 := by omega
    subst ha hb
    have hk' : k < numelS s := by rw [hs]; exact hk
    show t.get (unflat t.shape (flat [t.numel, 1, 1] [k, 0, 0])) = g k
    have : flat [t.numel, 1, 1] [k, 0, 0] = k := by simp [flat, numelS]
    rw [this, h.1, h.get (unflat_inB hk'), flat_unflat hk']
  · intro u hu
    have hsh : (u.repeatT [1, d.num_leaves, d.num_repetitions]).shape =
        [d.num_channels * d.num_features, d.num_leaves, d.num_repetitions] := by
      simp [Tensor.repeatT, hu.1]
    refine Res.Sat.require (by rw [Tensor.numel, hsh]; simp [numelS]; ring) (Res.Sat.pure (Is.intro rfl fun ix hi => ?_))
    obtain ⟨z, c, f, i, r, rfl⟩ : ∃ z c f i r, ix = [z, c, f, i, r] := by
      match ix, Tensor.InB.length hi with
      | [z, c, f, i, r], _ => exact ⟨z, c, f, i, r, rfl⟩
    obtain ⟨hz, hc, hf, hi', hr, -⟩ := hi
    have hz : z = 0 := by omega
    subst hz
    have hk : c * d.num_features + f < d.num_channels * d.num_features := by
      calc c * d.num_features + f < c * d.num_features + d.num_features := by omega
        _ = (c + 1) * d.num_features := by ring
        _ ≤ _ := Nat.mul_le_mul_right _ hc
    show (u.repeatT [1, d.num_leaves, d.num_repetitions]).get (unflat _ _) = g (c * d.num_features + f)
    rw [hsh, unflat_eq (s := [d.num_channels * d.num_features, d.num_leaves, d.num_repetitions]) (i := [c * d.num_features + f, i, r]) ⟨hk, hi', hr, trivial⟩ (by simp [flat, numelS]; ring)]
    simp only [Tensor.repeatT, hu.1, List.zipWith]
    rw [hu.get (i := [(c * d.num_features + f) % (d.num_channels * d.num_features), i % 1, r % 1])
      ⟨Nat.mod_lt _ (by omega), Nat.mod_lt _ one_pos, Nat.mod_lt _ one_pos, trivial⟩]
    simp [at', Nat.mod_eq_of_lt hk]

/-! ### the noise -/

/-- the values of a statistic in the order of the leaf parameters. -/
def paramList (d : LeafDims) (g : Nat → ℝ) : List ℝ :=
  (List.range (d.num_channels * d.num_features * (d.num_leaves * d.num_repetitions))).map fun p =>
    g (p / (d.num_leaves * d.num_repetitions))

/-- standard deviation of these values. -/
noncomputable def spread (d : LeafDims) (g : Nat → ℝ) : ℝ := √(sampleVariance (paramList d g))

/-- a statistic in the shape of the leaf parameters. -/
def Tiled (d : LeafDims) (t : Tensor Fl) (g : Nat → Fl) : Prop :=
  t.Is d.shape fun ix => g (at' 1 ix * d.num_features + at' 2 ix)

theorem numel_shape (d : LeafDims) : numelS d.shape =
    d.num_channels * d.num_features * (d.num_leaves * d.num_repetitions) := by
  simp [LeafDims.shape, numelS]; ring

theorem Tiled.at {d : LeafDims} {t : Tensor Fl} {g : Nat → Fl} (h : Tiled d t g) {p : Nat}
    (hp : p < numelS d.shape) : t.get (unflat t.shape p) = g (p / (d.num_leaves * d.num_repetitions)) := by
  have hi := unflat_inB hp
  have e := flat_unflat hp
  rw [h.1, h.get hi]
  congr 1
  revert hi e
  generalize unflat d.shape p = ix
  intro hi e
  obtain ⟨z, c, f, i, r, rfl⟩ : ∃ z c f i r, ix = [z, c, f, i, r] := by
    match ix, Tensor.InB.length hi with
    | [z, c, f, i, r], _ => exact ⟨z, c, f, i, r, rfl⟩
  obtain ⟨hz, hc, hf, hi', hr, -⟩ := hi
  have hz : z = 0 := by omega
  subst hz
  have e' : p = (c * d.num_features + f) * (d.num_leaves * d.num_repetitions) + (i * d.num_repetitions + r) := by
    rw [← e]; simp [LeafDims.shape, flat, numelS]; ring
  have hlt : i * d.num_repetitions + r < d.num_leaves * d.num_repetitions := by
    calc i * d.num_repetitions + r < i * d.num_repetitions + d.num_repetitions := by omega
      _ = (i + 1) * d.num_repetitions := by ring
      _ ≤ _ := Nat.mul_le_mul_right _ hi'
  rw [e', Nat.add_comm ((c * d.num_features + f) * _), Nat.add_mul_div_right _ _ (by omega), Nat.div_eq_of_lt hlt]
  simp [at']

theorem sampleVariance_nonneg {l : List ℝ} (h : 1 ≤ l.length) : 0 ≤ sampleVariance l := by
  refine div_nonneg (List.sum_nonneg ?_) ?_
  · intro x hx
    obtain ⟨y, -, rfl⟩ := List.mem_map.1 hx
    positivity
  · have : (1 : ℝ) ≤ l.length := by exact_mod_cast h
    linarith

theorem Tiled.std {d : LeafDims} (h2 : 2 ≤ d.num_channels * d.num_features * (d.num_leaves * d.num_repetitions)) {t : Tensor Fl}
    {g : Nat → ℝ} (h : Tiled d t fun k => .fin (g k)) : t.stdAll = .fin (spread d g) := by
  have hl : (paramList d g).length = t.numel := by rw [Tensor.numel, h.1, numel_shape]; simp [paramList]
  have hn : t.numel = numelS d.shape := by rw [Tensor.numel, h.1]
  unfold Tensor.stdAll
  rw [← hl, Fl.varN_list (l := paramList d g) (by rw [hl, hn, numel_shape]; exact h2)]
  · rw [Fl.sqrt, if_pos (sampleVariance_nonneg (by rw [hl, hn, numel_shape]; omega)), spread]
  · intro p hp
    rw [h.at (by rw [← hn, ← hl]; exact hp), List.getD_eq_getElem?_getD, List.getElem?_eq_getElem hp]
    simp [paramList]

theorem noise_E {t : Tensor Fl} {s : List Nat} (ht : t.shape = s) {σ : ℝ} (hσ : 0 ≤ σ) {h : List Nat → ℝ → ℝ≥0∞}
    (hm : ∀ i, Measurable (h i)) {φ : Tensor Fl → ℝ≥0∞} (c : ℝ≥0∞)
    (hφ : ∀ f : List Nat → ℝ, φ ⟨s, fun i => .fin (f i)⟩ = prodBox s (fun i => h i (f i)) * c) :
    (noiseLike t (.fin σ)).E φ = prodBox s (fun i => ∫⁻ z, h i z ∂gaussianReal 0 (σ ^ 2).toNNReal) * c := by
  subst ht
  unfold noiseLike
  simp only [if_pos hσ]
  rw [Rand.E_bind]
  simp only [Rand.E_pure, hφ]
  exact Rand.E_drawAll_mul (p := fun _ => Rand.leaf (gaussianReal 0 (σ ^ 2).toNNReal) Rand.pure) (h := h) (box_nodup _)
    (fun i _ c => lintegral_mul_const c (hm i)) c

theorem max2_fin (a b : ℝ) : Fl.max2 (.fin a) (.fin b) = .fin (max a b) := by
  show (if a < b then Fl.fin b else .fin a) = _
  by_cases h : a < b
  · rw [if_pos h, max_eq_right h.le]
  · rw [if_neg h, max_eq_left (not_lt.1 h)]

/-- law of the parameters of one Einet. -/
theorem setLeaf_E {d : LeafDims} (h2 : 2 ≤ d.num_channels * d.num_features * (d.num_leaves * d.num_repetitions))
    {m v : Tensor Fl} {gm gv : Nat → ℝ} (hm : Tiled d m fun k => .fin (gm k)) (hv : Tiled d v fun k => .fin (gv k))
    (h0 : ∀ k, 0 ≤ gv k) {h h' : List Nat → ℝ → ℝ≥0∞} (hh : ∀ i, Measurable (h i)) (hh' : ∀ i, Measurable (h' i)) (c : ℝ≥0∞)
    {φ : Stats → ℝ≥0∞} (hφ : ∀ (st : Stats) (fm fv : List Nat → ℝ), st.1.Is d.shape (fun i => .fin (fm i)) →
      st.2.Is d.shape (fun i => .fin (fv i)) →
      φ st = prodBox d.shape (fun i => h i (fm i)) * (prodBox d.shape (fun i => h' i (Real.exp (fv i))) * c)) :
    (setLeaf m v).E φ =
      prodBox d.shape (fun i => ∫⁻ z, h i (gm (at' 1 i * d.num_features + at' 2 i) + 1 / 10 * z)
        ∂gaussianReal 0 (spread d gm ^ 2).toNNReal) *
      (prodBox d.shape (fun i => ∫⁻ z, h' i (gv (at' 1 i * d.num_features + at' 2 i) + 1 / 1000 + max (1 / 10 * z) 0)
        ∂gaussianReal 0 (spread d gv ^ 2).toNNReal) * c) := by
  unfold setLeaf
  rw [Rand.E_bind, hm.std h2]
  refine noise_E hm.1 (Real.sqrt_nonneg _) (h := fun i z => h i (gm (at' 1 i * d.num_features + at' 2 i) + 1 / 10 * z))
    (fun i => (hh i).comp (by fun_prop)) _ fun f => ?_
  have hz : Tensor.Is (⟨d.shape, fun i => .fin (f i)⟩ : Tensor Fl) d.shape fun i => .fin (f i) := Is.intro rfl fun _ _ => rfl
  obtain ⟨u, hu, hui⟩ := add_same hm (hz.map (.fin (1 / 10) * ·))
  rw [hu]
  simp only [Rand.lift_ok, Rand.pure_bind]
  rw [Rand.E_bind, hv.std h2]
  rw [mul_comm (prodBox _ _) (_ * c), mul_assoc]
  refine noise_E hv.1 (Real.sqrt_nonneg _)
    (h := fun i z => h' i (gv (at' 1 i * d.num_features + at' 2 i) + 1 / 1000 + max (1 / 10 * z) 0))
    (fun i => (hh' i).comp (by fun_prop)) _ fun f' => ?_
  have hz' : Tensor.Is (⟨d.shape, fun i => .fin (f' i)⟩ : Tensor Fl) d.shape fun i => .fin (f' i) := Is.intro rfl fun _ _ => rfl
  obtain ⟨w, hw, hwi⟩ := add_same (hv.map (· + .fin (1 / 1000))) (hz'.map fun x => Fl.max2 (.fin (1 / 10) * x) (.fin 0))
  rw [hw]
  simp only [Rand.lift_ok, Rand.pure_bind, Rand.E_pure]
  have hpos : ∀ i, 0 < gv (at' 1 i * d.num_features + at' 2 i) + 1 / 1000 + max (1 / 10 * f' i) 0 := fun i => by
    have := h0 (at' 1 i * d.num_features + at' 2 i)
    have := le_max_right (1 / 10 * f' i) 0
    linarith
  rw [hφ (u, w.map Fl.log) (fun i => gm (at' 1 i * d.num_features + at' 2 i) + 1 / 10 * f i)
    (fun i => Real.log (gv (at' 1 i * d.num_features + at' 2 i) + 1 / 1000 + max (1 / 10 * f' i) 0)) hui ?_]
  · rw [prodBox_congr (f := fun i => h' i (Real.exp (Real.log _)))
      (g := fun i => h' i (gv (at' 1 i * d.num_features + at' 2 i) + 1 / 1000 + max (1 / 10 * f' i) 0))
      fun i _ => by rw [Real.exp_log (hpos i)], mul_left_comm, mul_comm c]
  · refine (hwi.map Fl.log).congr ((AllIdx_iff _ _).2 fun i _ => ?_)
    show Fl.log (.fin (gv _ + 1 / 1000) + Fl.max2 (.fin (1 / 10 * f' i)) (.fin 0)) = _
    rw [max2_fin]
    show Fl.log (.fin (gv _ + 1 / 1000 + max (1 / 10 * f' i) 0)) = _
    rw [Fl.log, if_pos (hpos i)]

/-- law of the parameters of `n` Einets. -/
theorem setLeaves_E {d : LeafDims} (h2 : 2 ≤ d.num_channels * d.num_features * (d.num_leaves * d.num_repetitions))
    {m v : Tensor Fl} {gm gv : Nat → ℝ} (hm : Tiled d m fun k => .fin (gm k)) (hv : Tiled d v fun k => .fin (gv k))
    (h0 : ∀ k, 0 ≤ gv k) (n : Nat) {h h' : Nat → List Nat → ℝ → ℝ≥0∞} (hh : ∀ e i, Measurable (h e i))
    (hh' : ∀ e i, Measurable (h' e i)) {φ : List Stats → ℝ≥0∞}
    (hφ : ∀ (st : List Stats) (fm fv : Nat → List Nat → ℝ), st.length = n →
      (∀ e, (he : e < st.length) → st[e].1.Is d.shape (fun i => .fin (fm e i)) ∧ st[e].2.Is d.shape (fun i => .fin (fv e i))) →
      φ st = ∏ e ∈ Finset.range n,
        (prodBox d.shape (fun i => h e i (fm e i)) * prodBox d.shape (fun i => h' e i (Real.exp (fv e i))))) :
    (setLeaves m v n).E φ = ∏ e ∈ Finset.range n,
      (prodBox d.shape (fun i => ∫⁻ z, h e i (gm (at' 1 i * d.num_features + at' 2 i) + 1 / 10 * z)
        ∂gaussianReal 0 (spread d gm ^ 2).toNNReal) *
      prodBox d.shape (fun i => ∫⁻ z, h' e i (gv (at' 1 i * d.num_features + at' 2 i) + 1 / 1000 + max (1 / 10 * z) 0)
        ∂gaussianReal 0 (spread d gv ^ 2).toNNReal)) := by
  suffices key : ∀ (n : Nat) (h h' : Nat → List Nat → ℝ → ℝ≥0∞) (_ : ∀ e i, Measurable (h e i)) (_ : ∀ e i, Measurable (h' e i))
      (c : ℝ≥0∞) (φ : List Stats → ℝ≥0∞), (∀ (st : List Stats) (fm fv : Nat → List Nat → ℝ), st.length = n →
      (∀ e, (he : e < st.length) → st[e].1.Is d.shape (fun i => .fin (fm e i)) ∧ st[e].2.Is d.shape (fun i => .fin (fv e i))) →
      φ st = (∏ e ∈ Finset.range n,
        (prodBox d.shape (fun i => h e i (fm e i)) * prodBox d.shape (fun i => h' e i (Real.exp (fv e i))))) * c) →
    (setLeaves m v n).E φ = (∏ e ∈ Finset.range n,
      (prodBox d.shape (fun i => ∫⁻ z, h e i (gm (at' 1 i * d.num_features + at' 2 i) + 1 / 10 * z)
        ∂gaussianReal 0 (spread d gm ^ 2).toNNReal) *
      prodBox d.shape (fun i => ∫⁻ z, h' e i (gv (at' 1 i * d.num_features + at' 2 i) + 1 / 1000 + max (1 / 10 * z) 0)
        ∂gaussianReal 0 (spread d gv ^ 2).toNNReal))) * c by
    have := key n h h' hh hh' 1 φ (by simpa using hφ)
    simpa using this
  clear hφ hh hh' h h' φ n
  intro n
  induction n with
  | zero =>
    intro h h' _ _ c φ hφ
    exact hφ [] (fun _ _ => 0) (fun _ _ => 0) rfl (by simp)
  | succ n ih =>
    intro h h' hh hh' c φ hφ
    rw [setLeaves, Rand.E_bind, Finset.prod_range_succ', mul_comm (∏ e ∈ Finset.range n, _), mul_assoc, mul_assoc]
    refine setLeaf_E h2 hm hv h0 (hh 0) (hh' 0) _ fun st fm fv h1 h1' => ?_
    rw [Rand.E_bind, ← mul_assoc, mul_comm _ (_ * c), mul_assoc]
    refine ih (fun e => h (e + 1)) (fun e => h' (e + 1)) (fun e => hh _) (fun e => hh' _) _ _ fun l fm' fv' hl hf => ?_
    rw [Rand.E_pure, hφ (st :: l) (fun e => match e with | 0 => fm | e + 1 => fm' e)
      (fun e => match e with | 0 => fv | e + 1 => fv' e) (by simp [hl]) ?_, Finset.prod_range_succ']
    · rw [mul_assoc, mul_comm c]
    · intro e he
      cases e with
      | zero => exact ⟨h1, h1'⟩
      | succ e => exact hf e (by simpa using he)

/-- number of Einets of a target. -/
def InitTarget.count : InitTarget → Nat
  | .einet => 1
  | .mixture n => n
  | .other => 0

/-! ### failure -/

theorem Rand.E_nought {α : Type} (x : Rand α) : x.E (fun _ => 0) = 0 := by
  induction x with
  | pure a => rfl
  | fail e => rfl
  | draw K w k ih => simp [Rand.E, ih]
  | leaf μ k ih => simp [Rand.E, ih]

theorem setLeaves_fail {m v : Tensor Fl} (hv : v.stdAll = .nan) {n : Nat} (hn : 0 < n) (φ : List Stats → ℝ≥0∞) :
    (setLeaves m v n).E φ = 0 := by
  obtain ⟨n, rfl⟩ : ∃ k, n = k + 1 := ⟨n - 1, by omega⟩
  rw [setLeaves, Rand.E_bind, setLeaf, Rand.E_bind]
  simp only [Rand.E_bind, hv, noiseLike, Rand.E]
  simp only [Rand.E_nought]


/-- a batch whose rows have shape `s`. -/
def HasRows (s : List Nat) (t : Tensor Fl) : Prop := ∃ n, t.shape = n :: s

theorem step_nan {s : List Nat} {t : Tensor Fl} (ht : HasRows s t) {acc : Option Stats}
    (ha : ∀ m v, acc = some (m, v) → m.shape = s ∧ v.shape = s) {st : Option Stats} (h : statsStep acc t = .ok st) :
    ∃ m v, st = some (m, v) ∧ m.shape = s ∧ v.shape = s ∧
      ((t.size 0 = 1 ∨ ∃ m' v', acc = some (m', v') ∧ v'.Is s fun _ => .nan) → v.Is s fun _ => .nan) := by
  obtain ⟨n, hn⟩ := ht
  obtain ⟨mb, hmb, hmi⟩ := reduce_is (f := Fl.meanN) (d := 0) (fun _ _ _ => Fl.meanN_congr) (Is.refl t hn) (by simp)
  obtain ⟨vb, hvb, hvi⟩ := reduce_is (f := Fl.varN) (d := 0) (fun _ _ _ => Fl.varN_congr) (Is.refl t hn) (by simp)
  have h1 : t.size 0 = 1 → vb.Is s fun _ => .nan := fun e => by
    refine Is.intro hvi.1 fun i hi => ?_
    rw [hvi.get hi]
    rw [Tensor.size, hn] at e
    rw [e, Fl.varN_one]
  rw [statsStep, hmb, hvb] at h
  simp only [Res.ok_bind] at h
  match acc, ha with
  | none, _ =>
    obtain rfl := Except.ok.inj h
    refine ⟨mb, vb, rfl, hmi.1, hvi.1, ?_⟩
    rintro (e | ⟨_, _, e, _⟩)
    · exact h1 e
    · cases e
  | some (m, v), ha =>
    obtain ⟨hm, hv⟩ := ha m v rfl
    obtain ⟨m', hm', hmi'⟩ := addInto_same (Is.refl m hm) hmi
    obtain ⟨v', hv', hvi'⟩ := addInto_same (Is.refl v hv) hvi
    simp only [hm', hv', Res.ok_bind] at h
    obtain rfl := Except.ok.inj h
    refine ⟨m', v', rfl, hmi'.1, hvi'.1, ?_⟩
    rintro (e | ⟨m2, v2, e, hnan⟩)
    · refine Is.intro hvi'.1 fun i hi => ?_
      rw [hvi'.get hi, ← hvi.get hi, (h1 e).get hi, Fl.add_nan]
    · cases e
      refine Is.intro hvi'.1 fun i hi => ?_
      rw [hvi'.get hi, hnan.get hi, Fl.nan_add]

theorem loop_nan {s : List Nat} {ts : List (Tensor Fl)} (ht : ∀ t ∈ ts, HasRows s t) {acc : Option Stats}
    (ha : ∀ m v, acc = some (m, v) → m.shape = s ∧ v.shape = s)
    (h1 : (∃ t ∈ ts, t.size 0 = 1) ∨ ∃ m' v', acc = some (m', v') ∧ v'.Is s fun _ => .nan) {st : Option Stats}
    (h : ts.foldlM statsStep acc = .ok st) : ∃ m v, st = some (m, v) ∧ m.shape = s ∧ v.Is s fun _ => .nan := by
  induction ts generalizing acc with
  | nil =>
    obtain rfl := Except.ok.inj h
    obtain ⟨t, ht, _⟩ | ⟨m, v, rfl, hv⟩ := h1
    · cases ht
    · exact ⟨m, v, rfl, (ha m v rfl).1, hv⟩
  | cons t ts ih =>
    rw [List.foldlM_cons] at h
    obtain ⟨st1, e1, h⟩ := bind_ok h
    obtain ⟨m, v, rfl, hm, hv, hn⟩ := step_nan (ht t (by simp)) ha e1
    refine ih (fun t h => ht t (by simp [h])) (by rintro _ _ e; cases e; exact ⟨hm, hv⟩) ?_ h
    rcases h1 with ⟨t', hmem, h1⟩ | h1
    · rcases List.mem_cons.1 hmem with rfl | hmem
      · exact .inr ⟨m, v, rfl, hn (.inl h1)⟩
      · exact .inl ⟨t', hmem, h1⟩
    · exact .inr ⟨m, v, rfl, hn (.inr h1)⟩

theorem stdAll_nan {t : Tensor Fl} {s : List Nat} (h : t.Is s fun _ => .nan) (hs : 0 < numelS s) : t.stdAll = .nan := by
  have hn : t.numel = numelS s := by rw [Tensor.numel, h.1]
  have h0 : t.get (unflat t.shape 0) = .nan := by rw [h.1, h.get (unflat_inB hs)]
  have e : Fl.varN t.numel (fun k => t.get (unflat t.shape k)) = .nan := by
    rw [Fl.varN, Fl.sumN_nan (i := 0) (by omega)]
    · rfl
    · simp only [h0]; rfl
  rw [Tensor.stdAll, e]
  rfl

theorem stdAll_one {t : Tensor Fl} (h : t.numel = 1) : t.stdAll = .nan := by
  rw [Tensor.stdAll, h, Fl.varN_one]
  rfl

theorem tile_shape {d : LeafDims} {t u : Tensor Fl} (h : tileLeaf d t = .ok u) : u.shape = d.shape := by
  obtain ⟨t1, _, h⟩ := bind_ok h
  obtain ⟨_, _, h⟩ := bind_ok h
  obtain rfl := Except.ok.inj h
  rfl

/-- the parts of a call that returns. -/
theorem init_E_zero {target : InitTarget} (hc : 0 < target.count) {d : LeafDims} {ts : List (Tensor Fl)}
    (h : ∀ st, batchStats ts = .ok st → ∀ v, tileLeaf d st.2 = .ok v → v.stdAll = .nan) (φ : List Stats → ℝ≥0∞) :
    (initEinetStats target true d ts).E φ = 0 := by
  unfold initEinetStats
  cases hb : batchStats ts with
  | error e => rfl
  | ok st =>
    simp only [Rand.lift_ok, Rand.pure_bind, if_true]
    have key : ∀ n, 0 < n → ((Rand.lift (tileLeaf d st.1)).bind fun m => (Rand.lift (tileLeaf d st.2)).bind fun v =>
        setLeaves m v n).E φ = 0 := by
      intro n hn
      cases hm : tileLeaf d st.1 with
      | error e => rfl
      | ok m =>
        cases hv : tileLeaf d st.2 with
        | error e => rfl
        | ok v => exact setLeaves_fail (h st hb v hv) hn φ
    match target, hc with
    | .einet, _ => exact key 1 one_pos
    | .mixture n, hn => exact key n hn

end Einet
