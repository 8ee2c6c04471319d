import Verif.LeafInitFacts

/-!
C68: initialising Gaussian leaves from the statistics of the data.

The specification talks about rows of numbers: `average` and `sampleVariance` of lists, `column` of a list of rows.
-/

namespace Einet.Props
open MeasureTheory ProbabilityTheory Tensor
open scoped ENNReal

/-- product over all parameters of a leaf. -/
noncomputable def prodParams (d : LeafDims) (h : Nat → Nat → Nat → Nat → ℝ≥0∞) : ℝ≥0∞ :=
  ∏ c ∈ Finset.range d.num_channels, ∏ f ∈ Finset.range d.num_features, ∏ i ∈ Finset.range d.num_leaves,
    ∏ r ∈ Finset.range d.num_repetitions, h c f i r

/-- parameters without entries. -/
def noStats : Stats := (⟨[0], fun _ => .nan⟩, ⟨[0], fun _ => .nan⟩)

/-- mean and variance of one component of the leaves of Einet `e`, as the leaf computes them from its parameters. -/
noncomputable def leafMean (out : List Stats) (e c f i r : Nat) : ℝ := ((out.getD e noStats).1.get [0, c, f, i, r]).val
noncomputable def leafVar (out : List Stats) (e c f i r : Nat) : ℝ := Real.exp ((out.getD e noStats).2.get [0, c, f, i, r]).val

theorem prodBox_shape (d : LeafDims) (h : List Nat → ℝ≥0∞) :
    prodBox d.shape h = prodParams d fun c f i r => h [0, c, f, i, r] := by
  simp only [LeafDims.shape, prodBox_cons, prodBox_nil, Finset.prod_range_one, prodParams]

theorem varStat_nonneg {rows : List (List (Nat → ℝ))} (h2 : ∀ b ∈ rows, 2 ≤ b.length) (k : Nat) : 0 ≤ varStat rows k := by
  refine div_nonneg (List.sum_nonneg ?_) (by positivity)
  intro x hx
  obtain ⟨b, hb, rfl⟩ := List.mem_map.1 hx
  exact sampleVariance_nonneg (by rw [column_length]; have := h2 b hb; omega)

/-- the stage of setting the parameters is reached, with the averages of the statistics of the batches. -/
theorem init_reaches {d : LeafDims} {s : List Nat} (hs : numelS s = d.num_channels * d.num_features) {ts : List (Tensor Fl)}
    {rows : List (List (Nat → ℝ))} (h : List.Forall₂ (BatchIs s) ts rows) (h0 : rows ≠ []) (h2 : ∀ b ∈ rows, 2 ≤ b.length)
    (target : InitTarget) (ht : 0 < target.count) :
    ∃ m v, Tiled d m (fun k => .fin (meanStat rows k)) ∧ Tiled d v (fun k => .fin (varStat rows k)) ∧
      initEinetStats target true d ts = setLeaves m v target.count := by
  obtain ⟨st, e, hm, hv⟩ := batchStats_is h h0 h2
  obtain ⟨m, em, hm⟩ := tile_is hs (g := fun k => .fin (meanStat rows k)) hm
  obtain ⟨v, ev, hv⟩ := tile_is hs (g := fun k => .fin (varStat rows k)) hv
  refine ⟨m, v, hm, hv, ?_⟩
  unfold initEinetStats
  rw [e]
  simp only [Rand.lift_ok, Rand.pure_bind, if_true, em, ev]
  match target, ht with
  | .einet, _ => rfl
  | .mixture n, _ => rfl

theorem gauss_shift {h : ℝ → ℝ≥0∞} (hh : Measurable h) (m : ℝ) (σ : ℝ) :
    ∫⁻ z, h (m + 1 / 10 * z) ∂gaussianReal 0 (σ ^ 2).toNNReal = ∫⁻ x, h x ∂gaussianReal m ((σ / 10) ^ 2).toNNReal := by
  have e : (gaussianReal 0 (σ ^ 2).toNNReal).map (fun z => m + 1 / 10 * z) = gaussianReal m ((σ / 10) ^ 2).toNNReal := by
    have h1 : (gaussianReal 0 (σ ^ 2).toNNReal).map (fun z : ℝ => 1 / 10 * z) = _ := gaussianReal_map_const_mul (1 / 10)
    have h2 : (fun z : ℝ => m + 1 / 10 * z) = (fun z => m + z) ∘ fun z => 1 / 10 * z := rfl
    rw [h2, ← Measure.map_map (by fun_prop) (by fun_prop), h1, gaussianReal_map_const_add]
    congr 1
    · ring
    · ext
      simp only [NNReal.coe_mul, NNReal.coe_mk, Real.coe_toNNReal _ (sq_nonneg _)]
      ring
  rw [← e, lintegral_map hh (by fun_prop)]

/-- **C68** (law of the parameters).  For finite batches of at least two rows each: the parameters are independent; a mean is Gaussian
around the average of the batch means, a variance is the average of the batch variances plus `0.001` plus the positive part of
Gaussian noise. -/
theorem C68_law {d : LeafDims} {s : List Nat} (hs : numelS s = d.num_channels * d.num_features)
    (hd : 2 ≤ d.num_channels * d.num_features * (d.num_leaves * d.num_repetitions)) {ts : List (Tensor Fl)}
    {rows : List (List (Nat → ℝ))} (hb : List.Forall₂ (BatchIs s) ts rows) (h0 : rows ≠ []) (h2 : ∀ b ∈ rows, 2 ≤ b.length)
    (target : InitTarget) (ht : 0 < target.count) (h h' : Nat → Nat → Nat → Nat → Nat → ℝ → ℝ≥0∞)
    (hh : ∀ e c f i r, Measurable (h e c f i r)) (hh' : ∀ e c f i r, Measurable (h' e c f i r)) :
    (initEinetStats target true d ts).E (fun out => ∏ e ∈ Finset.range target.count,
      (prodParams d (fun c f i r => h e c f i r (leafMean out e c f i r)) *
        prodParams d fun c f i r => h' e c f i r (leafVar out e c f i r))) =
    ∏ e ∈ Finset.range target.count,
      (prodParams d (fun c f i r => ∫⁻ x, h e c f i r x
          ∂gaussianReal (average (rows.map fun b => average (column b (c * d.num_features + f))))
            ((spread d (meanStat rows) / 10) ^ 2).toNNReal) *
        prodParams d fun c f i r => ∫⁻ z, h' e c f i r
          (average (rows.map fun b => sampleVariance (column b (c * d.num_features + f))) + 1 / 1000 + max (1 / 10 * z) 0)
            ∂gaussianReal 0 (spread d (varStat rows) ^ 2).toNNReal) := by
  obtain ⟨m, v, hm, hv, e⟩ := init_reaches hs hb h0 h2 target ht
  rw [e, setLeaves_E hd hm hv (varStat_nonneg h2) target.count
    (h := fun e i => h e (at' 1 i) (at' 2 i) (at' 3 i) (at' 4 i)) (h' := fun e i => h' e (at' 1 i) (at' 2 i) (at' 3 i) (at' 4 i))
    (fun e i => hh _ _ _ _ _) (fun e i => hh' _ _ _ _ _) ?_]
  · refine Finset.prod_congr rfl fun e _ => ?_
    rw [prodBox_shape, prodBox_shape]
    congr 1
    simp only [at']
    simp only [gauss_shift (hh _ _ _ _ _)]
    rfl
  · intro st fm fv hl hf
    refine Finset.prod_congr rfl fun e he => ?_
    have he : e < st.length := by rw [hl]; simpa using he
    obtain ⟨hm, hv⟩ := hf e he
    have eg : st.getD e noStats = st[e] := by simp [List.getD_eq_getElem?_getD, List.getElem?_eq_getElem he]
    rw [prodBox_shape, prodBox_shape]
    unfold prodParams leafMean leafVar
    rw [eg]
    congr 1
    · refine Finset.prod_congr rfl fun c hc => Finset.prod_congr rfl fun f hf => Finset.prod_congr rfl fun i hi =>
        Finset.prod_congr rfl fun r hr => ?_
      simp only [Finset.mem_range] at hc hf hi hr
      beta_reduce
      rw [hm.get (i := [0, c, f, i, r]) ⟨one_pos, hc, hf, hi, hr, trivial⟩]
      rfl
    · refine Finset.prod_congr rfl fun c hc => Finset.prod_congr rfl fun f hf => Finset.prod_congr rfl fun i hi =>
        Finset.prod_congr rfl fun r hr => ?_
      simp only [Finset.mem_range] at hc hf hi hr
      beta_reduce
      rw [hv.get (i := [0, c, f, i, r]) ⟨one_pos, hc, hf, hi, hr, trivial⟩]
      rfl

/-! ### batches of a data loader -/

theorem loader_count {N b : Nat} (hb : 0 < b) (h : b ∣ N) : (N + b - 1) / b = N / b := by
  obtain ⟨q, rfl⟩ := h
  rw [Nat.mul_div_cancel_left _ hb]
  refine Nat.div_eq_of_lt_le ?_ ?_
  · rw [mul_comm]; omega
  · rw [Nat.succ_mul, mul_comm q]; omega

theorem loader_length {α : Type} {b : Nat} (hb : 0 < b) {l : List α} (h : b ∣ l.length) :
    (loaderBatches b l).length = l.length / b := by
  rw [loaderBatches, List.length_map, List.length_range, loader_count hb h]

theorem loader_full {α : Type} {b : Nat} (hb : 0 < b) {l : List α} (h : b ∣ l.length) {B : List α} (hB : B ∈ loaderBatches b l) :
    B.length = b := by
  obtain ⟨j, hj, rfl⟩ := List.mem_map.1 hB
  rw [List.mem_range, loader_count hb h] at hj
  obtain ⟨q, hq⟩ := h
  rw [hq, Nat.mul_div_cancel_left _ hb] at hj
  have : (j + 1) * b ≤ q * b := Nat.mul_le_mul_right _ hj
  rw [List.length_take, List.length_drop, hq]
  have e : (j + 1) * b = j * b + b := by ring
  rw [mul_comm b q]
  omega

theorem loader_sum {α : Type} {b : Nat} (hb : 0 < b) {l : List α} (h : b ∣ l.length) (g : α → ℝ) :
    ((loaderBatches b l).map fun B => (B.map g).sum).sum = (l.map g).sum := by
  have key : ∀ q : Nat, ((List.range q).map fun j => (((l.drop (j * b)).take b).map g).sum).sum = ((l.take (q * b)).map g).sum := by
    intro q
    induction q with
    | zero => simp
    | succ q ih =>
      rw [List.range_succ, List.map_append, List.sum_append, ih, Nat.succ_mul, List.take_add, List.map_append, List.sum_append]
      simp
  rw [loaderBatches, List.map_map, loader_count hb h]
  refine (key _).trans ?_
  rw [Nat.div_mul_cancel h, List.take_length]

theorem sum_sq_shift (l : List ℝ) (a A : ℝ) : (l.map fun x => (x - A) ^ 2).sum =
    (l.map fun x => (x - a) ^ 2).sum + 2 * (a - A) * (l.sum - l.length * a) + l.length * (a - A) ^ 2 := by
  induction l with
  | nil => simp
  | cons x l ih => simp only [List.map_cons, List.sum_cons, ih, List.length_cons, Nat.cast_succ]; ring

theorem sum_sq_average {l : List ℝ} (h : l ≠ []) (A : ℝ) : (l.map fun x => (x - A) ^ 2).sum =
    (l.map fun x => (x - average l) ^ 2).sum + l.length * (average l - A) ^ 2 := by
  have : (l.length : ℝ) ≠ 0 := by simpa using h
  rw [sum_sq_shift l (average l) A]
  have e : l.sum - l.length * average l = 0 := by rw [average]; field_simp; ring
  rw [e]
  ring

theorem loader_mean {b : Nat} (hb : 0 < b) {rows : List (Nat → ℝ)} (h : b ∣ rows.length) (k : Nat) :
    meanStat (loaderBatches b rows) k = average (column rows k) := by
  have hb' : (b : ℝ) ≠ 0 := by exact_mod_cast hb.ne'
  have e : ((loaderBatches b rows).map fun B => average (column B k)) =
      (loaderBatches b rows).map fun B => (B.map (· k)).sum * (b : ℝ)⁻¹ :=
    List.map_congr_left fun B hB => by rw [average, column_length, loader_full hb h hB, column, div_eq_mul_inv]
  rw [meanStat, e, average, List.sum_map_mul_right, loader_sum hb h, List.length_map, loader_length hb h, average, column,
    List.length_map]
  rw [Nat.cast_div h hb']
  by_cases h0 : (rows.length : ℝ) = 0
  · simp [h0]
  · field_simp

theorem loader_var {b : Nat} (hb : 2 ≤ b) {rows : List (Nat → ℝ)} (h : b ∣ rows.length) (h0 : rows ≠ []) (k : Nat) :
    ((rows.length : ℝ) - 1) * sampleVariance (column rows k) =
      ((rows.length / b : Nat) : ℝ) * ((b : ℝ) - 1) * varStat (loaderBatches b rows) k +
        b * ((loaderBatches b rows).map fun B => (average (column B k) - average (column rows k)) ^ 2).sum := by
  have hN : 2 ≤ rows.length := by
    have := Nat.le_of_dvd (by rcases rows with _ | ⟨a, l⟩ <;> simp at h0 ⊢) h
    omega
  have hN' : (rows.length : ℝ) - 1 ≠ 0 := by
    have : (2 : ℝ) ≤ rows.length := by exact_mod_cast hN
    linarith
  have hb1 : (b : ℝ) - 1 ≠ 0 := by
    have : (2 : ℝ) ≤ b := by exact_mod_cast hb
    linarith
  have hq : ((rows.length / b : Nat) : ℝ) ≠ 0 := by
    have : 0 < rows.length / b := Nat.div_pos (Nat.le_of_dvd (by omega) h) (by omega)
    exact_mod_cast this.ne'
  set A := average (column rows k) with hA
  have e1 : ((rows.length : ℝ) - 1) * sampleVariance (column rows k) = (rows.map fun x => (x k - A) ^ 2).sum := by
    rw [sampleVariance, column_length, ← hA, mul_div_cancel₀ _ hN', column, List.map_map]
    rfl
  have e2 : ∀ B ∈ loaderBatches b rows, (B.map fun x => (x k - A) ^ 2).sum =
      ((b : ℝ) - 1) * sampleVariance (column B k) + b * (average (column B k) - A) ^ 2 := by
    intro B hB
    have hl := loader_full (by omega) h hB
    have hne : column B k ≠ [] := by
      intro e
      have := column_length B k
      rw [e, hl] at this
      simp at this
      omega
    have := sum_sq_average hne A
    rw [column_length, hl] at this
    rw [sampleVariance, column_length, hl, mul_div_cancel₀ _ hb1, ← this, column, List.map_map]
    rfl
  rw [e1, ← loader_sum (by omega) h, List.map_congr_left e2, List.sum_map_add, List.sum_map_mul_left, List.sum_map_mul_left]
  congr 1
  rw [varStat, average, List.length_map, loader_length (by omega) h]
  field_simp

theorem average_perm {l l' : List ℝ} (h : l.Perm l') : average l = average l' := by
  rw [average, average, h.sum_eq, h.length_eq]

theorem sampleVariance_perm {l l' : List ℝ} (h : l.Perm l') : sampleVariance l = sampleVariance l' := by
  rw [sampleVariance, sampleVariance, average_perm h, (h.map _).sum_eq, h.length_eq]

/-- **C68** (the means).  When the batch size divides the number of rows, a mean is Gaussian around the average of its column of the
data, whatever the order in which the loader visits the rows. -/
theorem C68_means_partial {d : LeafDims} {s : List Nat} (hs : numelS s = d.num_channels * d.num_features)
    (hd : 2 ≤ d.num_channels * d.num_features * (d.num_leaves * d.num_repetitions)) {data order : List (Nat → ℝ)}
    (hp : order.Perm data) (h0 : data ≠ []) {b : Nat} (hb : 2 ≤ b) (hN : b ∣ data.length) {ts : List (Tensor Fl)}
    (hts : List.Forall₂ (BatchIs s) ts (loaderBatches b order)) (target : InitTarget) (ht : 0 < target.count)
    (h : Nat → Nat → Nat → Nat → Nat → ℝ → ℝ≥0∞) (hh : ∀ e c f i r, Measurable (h e c f i r)) :
    (initEinetStats target true d ts).E (fun out => ∏ e ∈ Finset.range target.count,
      prodParams d fun c f i r => h e c f i r (leafMean out e c f i r)) =
    ∏ e ∈ Finset.range target.count, prodParams d fun c f i r => ∫⁻ x, h e c f i r x
      ∂gaussianReal (average (column data (c * d.num_features + f)))
        ((spread d (fun k => average (column data k)) / 10) ^ 2).toNNReal := by
  have hN' : b ∣ order.length := by rw [hp.length_eq]; exact hN
  have hne : order ≠ [] := by rintro rfl; exact h0 hp.nil_eq.symm
  have hlen : loaderBatches b order ≠ [] := by
    intro e
    have := loader_length (by omega) hN'
    rw [e] at this
    have h1 : 0 < order.length / b := Nat.div_pos (Nat.le_of_dvd (List.length_pos_iff.2 hne) hN') (by omega)
    simp at this
    omega
  have key := C68_law hs hd hts hlen (fun B hB => by rw [loader_full (by omega) hN' hB]; exact hb) target ht h
    (fun _ _ _ _ _ _ => 1) hh (fun _ _ _ _ _ => measurable_const)
  have e : ∀ k, average ((loaderBatches b order).map fun B => average (column B k)) = average (column data k) := fun k =>
    (loader_mean (by omega) hN' k).trans (average_perm (hp.map _))
  have e' : meanStat (loaderBatches b order) = fun k => average (column data k) := funext e
  simp only [e, e'] at key
  simpa [prodParams] using key

theorem noise_full (t : Tensor Fl) {σ : ℝ} (hσ : 0 ≤ σ) :
    Full (fun z : Tensor Fl => ∃ f : List Nat → ℝ, z.Is t.shape fun i => .fin (f i)) (noiseLike t (.fin σ)) := by
  unfold noiseLike
  simp only [if_pos hσ]
  exact (Full.drawAll fun i => Full.leaf measure_univ fun x => Full.pure trivial).bind fun f _ =>
    Full.pure ⟨f, Is.intro rfl fun _ _ => rfl⟩

/-- parameters of a leaf: shapes, finite entries, variance at least `w + 0.001`. -/
def GoodStats (d : LeafDims) (w : Nat → ℝ) (st : Stats) : Prop :=
  st.1.shape = d.shape ∧ st.2.shape = d.shape ∧ ∀ c, c < d.num_channels → ∀ f, f < d.num_features → ∀ i, i < d.num_leaves →
    ∀ r, r < d.num_repetitions → ∃ μ l : ℝ, st.1.get [0, c, f, i, r] = .fin μ ∧ st.2.get [0, c, f, i, r] = .fin l ∧
      w (c * d.num_features + f) + 1 / 1000 ≤ Real.exp l

theorem goodStats {d : LeafDims} {gm gv : Nat → ℝ} (h0 : ∀ k, 0 ≤ gv k) {f f' : List Nat → ℝ} {u w : Tensor Fl}
    (hu : u.Is d.shape fun i => .fin (gm (at' 1 i * d.num_features + at' 2 i)) + .fin (1 / 10) * .fin (f i))
    (hw : w.Is d.shape fun i => (.fin (gv (at' 1 i * d.num_features + at' 2 i)) + .fin (1 / 1000)) +
      Fl.max2 (.fin (1 / 10) * .fin (f' i)) (.fin 0)) : GoodStats d gv (u, w.map Fl.log) := by
  refine ⟨hu.1, hw.1, ?_⟩
  intro c hc f1 hf i hi r hr
  have hin : InB d.shape [0, c, f1, i, r] := ⟨one_pos, hc, hf, hi, hr, trivial⟩
  have hpos : 0 ≤ max (1 / 10 * f' [0, c, f1, i, r]) 0 := le_max_right _ _
  have h0' := h0 (c * d.num_features + f1)
  have e : w.get [0, c, f1, i, r] = .fin (gv (c * d.num_features + f1) + 1 / 1000 + max (1 / 10 * f' [0, c, f1, i, r]) 0) := by
    rw [hw.get hin]
    show Fl.fin (gv _ + 1 / 1000) + Fl.max2 (.fin (1 / 10 * f' _)) (.fin 0) = _
    rw [max2_fin]
    rfl
  have e' : u.get [0, c, f1, i, r] = .fin (gm (c * d.num_features + f1) + 1 / 10 * f [0, c, f1, i, r]) := by
    rw [hu.get hin]
    rfl
  refine ⟨_, Real.log (gv (c * d.num_features + f1) + 1 / 1000 + max (1 / 10 * f' [0, c, f1, i, r]) 0), e', ?_, ?_⟩
  · show Fl.log (w.get _) = _
    rw [e, Fl.log, if_pos (by linarith)]
  · rw [Real.exp_log (by linarith)]
    linarith

theorem setLeaf_full {d : LeafDims} (h2 : 2 ≤ d.num_channels * d.num_features * (d.num_leaves * d.num_repetitions))
    {m v : Tensor Fl} {gm gv : Nat → ℝ} (hm : Tiled d m fun k => .fin (gm k)) (hv : Tiled d v fun k => .fin (gv k))
    (h0 : ∀ k, 0 ≤ gv k) : Full (GoodStats d gv) (setLeaf m v) := by
  unfold setLeaf
  rw [hm.std h2, hv.std h2]
  refine (noise_full m (Real.sqrt_nonneg _)).bind ?_
  rintro z ⟨f, hz⟩
  rw [hm.1] at hz
  obtain ⟨u, eu, hu⟩ := add_same hm (hz.map (.fin (1 / 10) * ·))
  rw [eu]
  simp only [Rand.lift_ok, Rand.pure_bind]
  refine (noise_full v (Real.sqrt_nonneg _)).bind ?_
  rintro z' ⟨f', hz'⟩
  rw [hv.1] at hz'
  obtain ⟨w, ew, hw⟩ := add_same (hv.map (· + .fin (1 / 1000))) (hz'.map fun x => Fl.max2 (.fin (1 / 10) * x) (.fin 0))
  rw [ew]
  simp only [Rand.lift_ok, Rand.pure_bind]
  exact Full.pure (goodStats h0 hu hw)

theorem setLeaves_full {d : LeafDims} (h2 : 2 ≤ d.num_channels * d.num_features * (d.num_leaves * d.num_repetitions))
    {m v : Tensor Fl} {gm gv : Nat → ℝ} (hm : Tiled d m fun k => .fin (gm k)) (hv : Tiled d v fun k => .fin (gv k))
    (h0 : ∀ k, 0 ≤ gv k) (n : Nat) :
    Full (fun out : List Stats => out.length = n ∧ ∀ st ∈ out, GoodStats d gv st) (setLeaves m v n) := by
  induction n with
  | zero => exact Full.pure ⟨rfl, by simp⟩
  | succ n ih =>
    refine (setLeaf_full h2 hm hv h0).bind fun st hst => ih.bind fun l hl => Full.pure ⟨by simp [hl.1], ?_⟩
    intro st' hmem
    rcases List.mem_cons.1 hmem with rfl | hmem
    · exact hst
    · exact hl.2 _ hmem

/-- **C68** (the variances).  Under the same conditions the call succeeds with probability one, all parameters are finite, and every
variance exceeds by at least `0.001` a number `w`, which is the variance of the data without the variance between batches. -/
theorem C68_variances_partial {d : LeafDims} {s : List Nat} (hs : numelS s = d.num_channels * d.num_features)
    (hd : 2 ≤ d.num_channels * d.num_features * (d.num_leaves * d.num_repetitions)) {data order : List (Nat → ℝ)}
    (hp : order.Perm data) (h0 : data ≠ []) {b : Nat} (hb : 2 ≤ b) (hN : b ∣ data.length) {ts : List (Tensor Fl)}
    (hts : List.Forall₂ (BatchIs s) ts (loaderBatches b order)) (target : InitTarget) (ht : 0 < target.count) :
    ∃ w : Nat → ℝ, (∀ k, 0 ≤ w k ∧ ((data.length : ℝ) - 1) * sampleVariance (column data k) =
        ((data.length / b : Nat) : ℝ) * ((b : ℝ) - 1) * w k +
          b * ((loaderBatches b order).map fun B => (average (column B k) - average (column data k)) ^ 2).sum) ∧
      Full (fun out : List Stats => out.length = target.count ∧ ∀ st ∈ out, GoodStats d w st) (initEinetStats target true d ts) := by
  have hN' : b ∣ order.length := by rw [hp.length_eq]; exact hN
  have hne : order ≠ [] := by rintro rfl; exact h0 hp.nil_eq.symm
  have hlen : loaderBatches b order ≠ [] := by
    intro e
    have := loader_length (by omega) hN'
    rw [e] at this
    have h1 : 0 < order.length / b := Nat.div_pos (Nat.le_of_dvd (List.length_pos_iff.2 hne) hN') (by omega)
    simp at this
    omega
  have hl2 : ∀ B ∈ loaderBatches b order, 2 ≤ B.length := fun B hB => by rw [loader_full (by omega) hN' hB]; exact hb
  obtain ⟨m, v, hm, hv, e⟩ := init_reaches hs hts hlen hl2 target ht
  refine ⟨varStat (loaderBatches b order), fun k => ⟨varStat_nonneg hl2 k, ?_⟩, ?_⟩
  · have hc : (column order k).Perm (column data k) := hp.map _
    rw [← hp.length_eq, ← sampleVariance_perm hc, ← average_perm hc]
    exact loader_var hb hN' hne k
  · rw [e]
    exact setLeaves_full hd hm hv (varStat_nonneg hl2) _

/-- **C68** (a batch of one row).  Whatever the data: when one of the batches has a single row, the call raises. -/
theorem C68_single_row {d : LeafDims} {s : List Nat} (hs : numelS s = d.num_channels * d.num_features)
    (hd : 0 < d.num_channels * d.num_features * (d.num_leaves * d.num_repetitions)) {ts : List (Tensor Fl)}
    (hr : ∀ t ∈ ts, HasRows s t) (h1 : ∃ t ∈ ts, t.size 0 = 1) (target : InitTarget) (ht : 0 < target.count)
    (φ : List Stats → ℝ≥0∞) : (initEinetStats target true d ts).E φ = 0 := by
  refine init_E_zero ht (fun st hst v hv => ?_) φ
  obtain ⟨acc, ha, hst⟩ := bind_ok hst
  obtain ⟨m0, v0, rfl, -, hv0⟩ := loop_nan hr (by simp) (.inl h1) ha
  obtain rfl := Except.ok.inj hst
  have hn : (v0.map (· / .fin ts.length)).Is s fun _ => .nan := (hv0.map _).congr ((AllIdx_iff _ _).2 fun i _ => rfl)
  obtain ⟨v', hv', hi⟩ := tile_is hs (g := fun _ => .nan) hn
  obtain rfl := Except.ok.inj (hv.symm.trans hv')
  exact stdAll_nan hi (by rw [numel_shape]; exact hd)

/-- **C68** (a remainder of one).  In particular this happens whenever the number of rows is one more than a multiple of the batch
size. -/
theorem C68_remainder_one {d : LeafDims} {s : List Nat} (hs : numelS s = d.num_channels * d.num_features)
    (hd : 0 < d.num_channels * d.num_features * (d.num_leaves * d.num_repetitions)) {order : List (Nat → ℝ)} {b : Nat} (hb : 2 ≤ b)
    (hN : order.length % b = 1) {ts : List (Tensor Fl)} (hts : List.Forall₂ (BatchIs s) ts (loaderBatches b order))
    (target : InitTarget) (ht : 0 < target.count) (φ : List Stats → ℝ≥0∞) : (initEinetStats target true d ts).E φ = 0 := by
  have hdm := Nat.div_add_mod order.length b
  rw [hN] at hdm
  have hc : (order.length + b - 1) / b = order.length / b + 1 := by
    have : order.length + b - 1 = (order.length / b + 1) * b := by rw [Nat.succ_mul, mul_comm]; omega
    rw [this, Nat.mul_div_cancel _ (by omega)]
  have hmem : (order.drop (order.length / b * b)).take b ∈ loaderBatches b order :=
    List.mem_map.2 ⟨order.length / b, by rw [List.mem_range, hc]; omega, rfl⟩
  have hl : ((order.drop (order.length / b * b)).take b).length = 1 := by
    rw [List.length_take, List.length_drop, mul_comm]; omega
  refine C68_single_row hs hd (fun t htm => ?_) ?_ target ht φ
  · obtain ⟨i, hi, rfl⟩ := List.getElem_of_mem htm
    exact ⟨_, ((List.forall₂_iff_get.1 hts).2 i hi (by rw [← hts.length_eq]; exact hi)).1⟩
  · obtain ⟨i, hi, e⟩ := List.getElem_of_mem hmem
    have hi' : i < ts.length := by rw [hts.length_eq]; exact hi
    refine ⟨ts[i], List.getElem_mem _, ?_⟩
    have := ((List.forall₂_iff_get.1 hts).2 i hi' hi).1
    simp only [List.get_eq_getElem] at this
    rw [Tensor.size, this, e, hl]
    rfl

/-- **C68** (a single parameter).  With one channel, feature, leaf and repetition the call raises for all data. -/
theorem C68_one_parameter {d : LeafDims} (hd : d.num_channels * d.num_features * (d.num_leaves * d.num_repetitions) = 1)
    (ts : List (Tensor Fl)) (target : InitTarget) (ht : 0 < target.count) (φ : List Stats → ℝ≥0∞) :
    (initEinetStats target true d ts).E φ = 0 := by
  refine init_E_zero ht (fun st _ v hv => stdAll_one ?_) φ
  rw [Tensor.numel, tile_shape hv, numel_shape, hd]

/-! ### witnesses -/

/-- the tensor of a batch. -/
noncomputable def batchTensor (s : List Nat) (rows : List (Nat → ℝ)) : Tensor Fl :=
  ⟨rows.length :: s, fun ix => .fin ((rows.map (· (flat s ix.tail))).getD (at' 0 ix) 0)⟩

theorem batchTensor_is (s : List Nat) (rows : List (Nat → ℝ)) : BatchIs s (batchTensor s rows) rows := Is.refl _ rfl

theorem batchTensors_are (s : List Nat) (l : List (List (Nat → ℝ))) :
    List.Forall₂ (BatchIs s) (l.map (batchTensor s)) l := by
  rw [List.forall₂_map_left_iff]
  exact List.forall₂_same.2 fun B _ => batchTensor_is s B

/-- one feature, two leaves. -/
def twoLeaves : LeafDims := ⟨1, 1, 2, 1⟩

/-- rows with one entry. -/
def flatRows (l : List ℝ) : List (Nat → ℝ) := l.map fun x _ => x

theorem spread_twoLeaves (g : Nat → ℝ) : spread twoLeaves g = 0 := by
  have : paramList twoLeaves g = [g 0, g 0] := by simp [paramList, twoLeaves, List.range_succ]
  rw [spread, this, sampleVariance, average]
  norm_num

/-- **C68** refuted for a remainder: five numbers in batches of three.  The mean of every leaf is set to one half, while the average
of the data is two fifths. -/
theorem C68_refuted_mean :
    (initEinetStats .einet true twoLeaves ((loaderBatches 3 (flatRows [0, 0, 0, 1, 1])).map (batchTensor [1]))).E
      (fun out => if leafMean out 0 0 0 0 0 = 1 / 2 then 1 else 0) = 1 ∧
    average (column (flatRows [0, 0, 0, 1, 1]) 0) = 2 / 5 := by
  have hl : loaderBatches 3 (flatRows [0, 0, 0, 1, 1]) = [flatRows [0, 0, 0], flatRows [1, 1]] := rfl
  refine ⟨?_, by norm_num [average, column, flatRows]⟩
  rw [hl]
  have key := C68_law (d := twoLeaves) (s := [1]) rfl (by decide) (batchTensors_are [1] [flatRows [0, 0, 0], flatRows [1, 1]])
    (by simp) (by simp [flatRows]) .einet one_pos
    (fun _ _ _ i _ x => if i = 0 then (if x = 1 / 2 then 1 else 0) else 1) (fun _ _ _ _ _ _ => 1)
    (fun _ _ _ i _ => by
      by_cases hi : i = 0
      · simp only [hi, if_true]; exact Measurable.ite (measurableSet_singleton _) measurable_const measurable_const
      · simp only [hi, if_false]; exact measurable_const) (fun _ _ _ _ _ => measurable_const)
  rw [spread_twoLeaves, spread_twoLeaves] at key
  simpa [InitTarget.count, prodParams, twoLeaves, Finset.prod_range_succ, gaussianReal_zero_var, average, column, flatRows] using key

/-- **C68** refuted for the variance, with batches of equal size: four numbers in batches of two.  The variance of every leaf is set
to one thousandth, while the variance of the data is one third. -/
theorem C68_refuted_variance :
    (initEinetStats .einet true twoLeaves ((loaderBatches 2 (flatRows [0, 0, 1, 1])).map (batchTensor [1]))).E
      (fun out => if leafVar out 0 0 0 0 0 = 1 / 1000 then 1 else 0) = 1 ∧
    sampleVariance (column (flatRows [0, 0, 1, 1]) 0) = 1 / 3 := by
  have hl : loaderBatches 2 (flatRows [0, 0, 1, 1]) = [flatRows [0, 0], flatRows [1, 1]] := rfl
  refine ⟨?_, by norm_num [sampleVariance, average, column, flatRows]⟩
  rw [hl]
  have key := C68_law (d := twoLeaves) (s := [1]) rfl (by decide) (batchTensors_are [1] [flatRows [0, 0], flatRows [1, 1]])
    (by simp) (by simp [flatRows]) .einet one_pos (fun _ _ _ _ _ _ => 1)
    (fun _ _ _ i _ x => if i = 0 then (if x = 1 / 1000 then 1 else 0) else 1) (fun _ _ _ _ _ => measurable_const)
    (fun _ _ _ i _ => by
      by_cases hi : i = 0
      · simp only [hi, if_true]; exact Measurable.ite (measurableSet_singleton _) measurable_const measurable_const
      · simp only [hi, if_false]; exact measurable_const)
  rw [spread_twoLeaves, spread_twoLeaves] at key
  have e0 : sampleVariance [(0 : ℝ), 0] = 0 := by norm_num [sampleVariance, average]
  have e1 : sampleVariance [(1 : ℝ), 1] = 0 := by norm_num [sampleVariance, average]
  have e2 : average [(0 : ℝ), 0] = 0 := by norm_num [average]
  simpa [InitTarget.count, prodParams, twoLeaves, Finset.prod_range_succ, gaussianReal_zero_var, column, flatRows, e0, e1, e2]
    using key

/-- **C68** (other models).  Nothing is set for other leaf classes; a model that is neither an Einet nor a mixture is refused. -/
theorem C68_other {target : InitTarget} {d : LeafDims} {s : List Nat} {ts : List (Tensor Fl)} {rows : List (List (Nat → ℝ))}
    (h : List.Forall₂ (BatchIs s) ts rows) (h0 : rows ≠ []) (h2 : ∀ b ∈ rows, 2 ≤ b.length) :
    initEinetStats target false d ts = .pure [] ∧ initEinetStats .other true d ts = .fail .value ∧
      initEinetStats target true d [] = .fail .type := by
  obtain ⟨st, e, -⟩ := batchStats_is h h0 h2
  refine ⟨?_, ?_, rfl⟩
  · rw [initEinetStats, e]; rfl
  · rw [initEinetStats, e]; rfl

/-! ### the hypotheses can be met -/

/-- six images of one channel and two by two pixels in batches of three, for a mixture of two Einets. -/
example : ∃ data : List (Nat → ℝ), data ≠ [] ∧ 3 ∣ data.length ∧
    List.Forall₂ (BatchIs [1, 2, 2]) ((loaderBatches 3 data).map (batchTensor [1, 2, 2])) (loaderBatches 3 data) ∧
    numelS [1, 2, 2] = 1 * 4 ∧ 0 < (InitTarget.mixture 2).count :=
  ⟨(List.range 6).map fun n k => (n : ℝ) * k, by simp [List.range_succ], by simp, batchTensors_are _ _, rfl, two_pos⟩

/-- seven rows in batches of three. -/
example : ((List.range 7).map fun n (k : Nat) => (n : ℝ) * k).length % 3 = 1 := by simp

/-- a batch of one row. -/
example (t : Tensor Fl) (h : t.shape = [1, 1, 2, 2]) : HasRows [1, 2, 2] t ∧ t.size 0 = 1 := ⟨⟨1, h⟩, by simp [Tensor.size, h, at']⟩

/-- a single parameter. -/
example : (⟨1, 1, 1, 1⟩ : LeafDims).num_channels * 1 * (1 * 1) = 1 := rfl

end Einet.Props
