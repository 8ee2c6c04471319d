import Verif.PwlFacts
import Verif.PropsSample
import Verif.LitFacts

/-!
# Einets with piecewise linear leaves: initialisation, measurability, discrete domains
-/

open Classical MeasureTheory
open scoped ENNReal
noncomputable section
namespace Einet
open Tensor

/-! ### Measurability -/

theorem measurable_countP {p : ℝ → ℝ → Bool} (hp : ∀ k, MeasurableSet {x | p k x = true}) (l : List ℝ) :
    Measurable fun x => l.countP fun k => p k x := by
  induction l with
  | nil => simp
  | cons k l ih =>
    simp only [List.countP_cons]
    exact ih.add (Measurable.ite (hp k) measurable_const measurable_const)

theorem measurable_step {i : ℝ → ℕ} (hi : Measurable i) {F : ℕ → ℝ → ℝ} (hF : ∀ n, Measurable (F n)) :
    Measurable fun x => F (i x) x :=
  (measurable_from_prod_countable_right (f := fun p : ℕ × ℝ => F p.1 p.2) hF).comp (hi.prodMk measurable_id)

theorem measurable_interp (xs ys : List ℝ) : Measurable fun x => interp x xs ys := by
  have hs : Measurable (searchsorted xs) :=
    measurable_countP (p := fun k x => decide (k < x)) (fun k => by simp only [decide_eq_true_eq]; exact measurableSet_Ioi) xs
  refine measurable_step hs (F := fun i x => max (((0 : ℝ) :: slopes xs ys ++ [0]).getD i 0 * x +
    (ys.headD 0 :: offsets xs ys ++ [ys.getLastD 0]).getD i 0) 0) fun n => ?_
  exact ((measurable_id.const_mul _).add_const _).max measurable_const

theorem measurable_plDraw (xs ys : List ℝ) : Measurable (plDraw xs ys) := by
  have hs : Measurable fun u => (plCdf xs ys).countP fun c => decide (c ≤ u) :=
    measurable_countP (p := fun k x => decide (k ≤ x)) (fun k => by simp only [decide_eq_true_eq]; exact measurableSet_Ici) _
  unfold plDraw
  exact measurable_step hs (F := fun i u =>
    let i := max 1 (min i (xs.length - 1))
    xs.getD (i - 1) 0 + (xs.getD i 0 - xs.getD (i - 1) 0) / ((plCdf xs ys).getD i 0 - (plCdf xs ys).getD (i - 1) 0 + 1e-8) *
      (u - (plCdf xs ys).getD (i - 1) 0)) fun n => ((measurable_id.sub_const _).const_mul _).const_add _

theorem measurable_comp (T : PwlTable) (c f i r : Nat) : Measurable (PwlEinet.comp T c f i r) := by
  unfold PwlEinet.comp
  cases T.fn c f i r with
  | none => exact measurable_const
  | some p => exact (measurable_interp _ _).ennreal_ofReal

theorem measurable_rep (T : PwlTable) (c f i r : Nat) : Measurable (PwlEinet.rep T c f i r) := by
  unfold PwlEinet.rep
  cases T.fn c f i r with
  | none => exact measurable_const
  | some p =>
    exact Measurable.ite (measurableSet_lt measurable_const (measurable_interp _ _)) (measurable_interp _ _).ennreal_ofReal
      measurable_const

/-! ### Initialisation -/

namespace PwlEinet

/-- what a successful initialisation stores. -/
theorem init_spec {E E' : PwlEinet} {data : Tensor ℝ} {domains : List Domain} {assign : Nat → Nat → Nat}
    (h : E.init data domains assign = .ok E') : E'.net = E.net ∧ E'.alpha = E.alpha ∧ data.rank = 3 ∧
    data.size 1 = E.net.num_channels ∧ data.size 2 = E.net.num_features ∧ E.net.num_features ≤ domains.length ∧
    (∀ r, r < E.net.num_repetitions → binLength (data.size 0) (assign r) = E.net.num_leaves ∨ binLength (data.size 0) (assign r) = 1) ∧
    ∃ T, E'.state = some T ∧
      (∀ f, T.domain f = domains.getD (min f (E.net.num_features - 1)) .continuous) ∧
      (∀ r i, T.weights r i = clusterWeight (data.size 0) (assign r) i) ∧
      (∀ c f i r, T.fn c f i r = T.fn (min c (E.net.num_channels - 1)) (min f (E.net.num_features - 1)) (min i (E.net.num_leaves - 1))
        (min r (E.net.num_repetitions - 1))) ∧
      ∀ c, c < E.net.num_channels → ∀ f, f < E.net.num_features → ∀ i, i < E.net.num_leaves → ∀ r, r < E.net.num_repetitions →
        plFit (domains.getD f .continuous) E.alpha (clusterData data (assign r) i c f) = .ok (T.fn c f i r) := by
  unfold init at h
  obtain ⟨_, h1, h⟩ := bind_ok h
  obtain ⟨_, h2, h⟩ := bind_ok h
  obtain ⟨_, h3, h⟩ := bind_ok h
  obtain ⟨_, h4, h⟩ := bind_ok h
  obtain ⟨_, h5, h⟩ := bind_ok h
  rw [require_ok_iff] at h1 h2 h3 h4 h5
  simp only [Res.pure_eq, Except.ok.injEq] at h
  subst h
  refine ⟨rfl, rfl, h1.1, h1.2, h2, h4, h3, _, rfl, fun f => rfl, fun r i => rfl, fun c f i r => ?_, fun c hc f hf i hi r hr => ?_⟩
  · simp only [min_assoc, min_self]
  · obtain ⟨p, hp⟩ := h5 c hc f hf i hi r hr
    dsimp only at hp ⊢
    rw [min_eq_left (show c ≤ E.net.num_channels - 1 by omega), min_eq_left (show f ≤ E.net.num_features - 1 by omega),
      min_eq_left (show i ≤ E.net.num_leaves - 1 by omega), min_eq_left (show r ≤ E.net.num_repetitions - 1 by omega), hp]

theorem buildPwl_spec {c : Config} {P : Params} (hP : P.Random) {alpha : ℝ} {E : PwlEinet} (h : buildPwl c P alpha = .ok E) :
    E.alpha = alpha ∧ E.state = none ∧
      build c { P with leaf := .normal (fun _ _ _ _ => 0) fun _ _ _ _ => 0 } = .ok E.net ∧
      E.WF (buildGroups c { P with leaf := .normal (fun _ _ _ _ => 0) fun _ _ _ _ => 0 }) ∧
      0 < E.net.num_features ∧ 0 < E.net.num_channels ∧ E.net.Sizes c := by
  unfold buildPwl at h
  obtain ⟨M, hM, h⟩ := bind_ok h
  obtain ⟨_, _, h⟩ := bind_ok h
  simp only [Res.pure_eq, Except.ok.injEq] at h
  subst h
  obtain ⟨hz, hw, -, -⟩ := build_WF (P := { P with leaf := .normal (fun _ _ _ _ => 0) fun _ _ _ _ => 0 }) ⟨hP.1, hP.2⟩ hM
  obtain ⟨v1, v2, _⟩ := (assertValid_iff c).1 (build_valid hM)
  refine ⟨rfl, rfl, hM, hw, ?_, ?_, hz⟩
  · show 0 < M.num_features
    rw [hz.features]; omega
  · show 0 < M.num_channels
    rw [hz.channels]; omega

/-! ### Discrete domains -/

theorem ref_lintegral (vs : List ℝ) {h : ℝ → ℝ≥0∞} (hh : Measurable h) :
    ∫⁻ x, h x ∂pwlRef (.discrete vs) = (vs.map h).sum := by
  show ∫⁻ x, h x ∂(vs.map fun v => Measure.dirac v).sum = (vs.map h).sum
  induction vs with
  | nil => simp
  | cons v vs ih => rw [List.map_cons, List.sum_cons, lintegral_add_measure, lintegral_dirac' _ hh, ih, List.map_cons, List.sum_cons]

theorem ref_finite (vs : List ℝ) : IsFiniteMeasure (pwlRef (.discrete vs)) := by
  refine ⟨?_⟩
  rw [← lintegral_one, ref_lintegral vs measurable_const]
  simp

theorem sum_ofReal (l : List ℝ) (h : ∀ x ∈ l, 0 ≤ x) : (l.map ENNReal.ofReal).sum = ENNReal.ofReal l.sum := by
  induction l with
  | nil => simp
  | cons a l ih =>
    have hl : 0 ≤ l.sum := List.sum_nonneg fun x hx => h x (by simp [hx])
    rw [List.map_cons, List.sum_cons, List.sum_cons, ih fun x hx => h x (by simp [hx]), ENNReal.ofReal_add (h a (by simp)) hl]

theorem interp_sum (vs xs ys : List ℝ) : (vs.map fun v => ENNReal.ofReal (interp v xs ys)).sum =
    ENNReal.ofReal (vs.map fun v => interp v xs ys).sum := by
  rw [← sum_ofReal _ fun x hx => by
    obtain ⟨v, _, rfl⟩ := List.mem_map.1 hx
    exact interp_nonneg _ _ _, List.map_map]
  rfl

/-- with smoothing the stored function of a discrete domain is positive at the values. -/
theorem fit_pos {values : List ℝ} {alpha : ℝ} {data xs ys : List ℝ} (hs : values.Pairwise (· < ·)) (ha : 0 < alpha)
    (h : plFit (.discrete values) alpha data = .ok (some (xs, ys))) :
    ys.length = values.length + 2 ∧ ∀ v ∈ values, 0 < interp v xs ys := by
  obtain ⟨hv, hx, ds, hl, hnn, hp, hy, hpos⟩ := Props.plFit_discrete_smooth hs h
  have hxs : xs.Pairwise (· < ·) := by
    rw [hx, ← Props.knots_discrete values]; exact knots_increasing _ (Props.discrete_breaks hv hs).2 (Props.discrete_breaks hv hs).1
  have hxl : ds.length + 2 = xs.length := by rw [hx]; simp; omega
  have htp := trapezoid_pos hxs hxl hnn hp
  have hd := Props.C36_interp (xs := xs) (ys := (0 : ℝ) :: ds ++ [0]) hxs (by simp; omega) (by omega) ?_ (by simp) ?_ htp
  · rw [← hy] at hd
    refine ⟨by rw [hy]; simp; omega, fun v hv => ?_⟩
    obtain ⟨i, hi, rfl⟩ := List.mem_iff_getElem.1 hv
    have hk := hd.knots (i + 1) (by omega)
    have e1 : xs.getD (i + 1) 0 = values[i] := by
      rw [hx, List.cons_append, List.getD_cons_succ, List.getD_append _ _ _ _ hi, List.getD_eq_getElem _ _ hi]
    rw [e1] at hk
    rw [hk, hy, getD_div, List.cons_append, List.getD_cons_succ, List.getD_append _ _ _ _ (by omega)]
    exact div_pos (hpos ha _ (getD_mem (by omega))) htp
  · intro y hy
    simp only [List.cons_append, List.mem_cons, List.mem_append, List.not_mem_nil, or_false] at hy
    rcases hy with rfl | h | rfl
    · exact le_rfl
    · exact hnn y h
    · exact le_rfl
  · rw [← getLastD_getD, List.cons_append, List.getLastD_cons]
    simp

/-- the stored functions come from discrete domains without gaps, with smoothing. -/
def Smoothed (T : PwlTable) : Prop := ∀ c f i r, ∃ values data alpha xs ys, T.domain f = .discrete values ∧
  Props.Consecutive values ∧ 0 < alpha ∧ plFit (.discrete values) alpha data = .ok (some (xs, ys)) ∧ T.fn c f i r = some (xs, ys)

theorem toP_logProb {T : PwlTable} {d : LeafDims} {c f i r : Nat} {xs ys : List ℝ} (h : T.fn c f i r = some (xs, ys)) (x : ℝ) :
    ((pwlLeaf d T).logProb c f i r (.fin x)).IsFin ∧ toP ((pwlLeaf d T).logProb c f i r (.fin x)) = rep T c f i r x := by
  have e : (pwlLeaf d T).logProb c f i r (.fin x) = plLogProb xs ys x := by simp [pwlLeaf, h, pwlLogProb]
  rw [e]
  unfold rep
  rw [h]
  exact plLogProb_val xs ys x

theorem rep_sum {T : PwlTable} (hT : Smoothed T) (c f i r : Nat) {h : ℝ → ℝ≥0∞} (hh : Measurable h) :
    ∃ values data alpha xs ys, T.domain f = .discrete values ∧ Props.Consecutive values ∧
      plFit (.discrete values) alpha data = .ok (some (xs, ys)) ∧ T.fn c f i r = some (xs, ys) ∧ ys.length = values.length + 2 ∧
      ∫⁻ x, h x * rep T c f i r x ∂pwlRef (T.domain f) = (values.map fun v => h v * ENNReal.ofReal (interp v xs ys)).sum := by
  obtain ⟨values, data, alpha, xs, ys, h1, h2, h3, h4, h5⟩ := hT c f i r
  obtain ⟨hlen, hpos⟩ := fit_pos (Props.consecutive_increasing h2) h3 h4
  refine ⟨values, data, alpha, xs, ys, h1, h2, h4, h5, hlen, ?_⟩
  rw [h1, ref_lintegral values (h := fun x => h x * rep T c f i r x) (hh.mul (measurable_rep T c f i r))]
  congr 1
  refine List.map_congr_left fun v hv => ?_
  unfold rep
  rw [h5]
  simp only [Option.elim]
  rw [if_pos (hpos v hv)]

theorem pwlLeaf_proper {T : PwlTable} (hT : Smoothed T) (d : LeafDims) : (pwlLeaf d T).Proper where
  sigmaFinite f := by
    obtain ⟨values, data, alpha, xs, ys, h1, -⟩ := hT 0 f 0 0
    show SigmaFinite (pwlRef (T.domain f))
    rw [h1]
    have := ref_finite values
    infer_instance
  measurable c f i r := by
    obtain ⟨values, data, alpha, xs, ys, -, -, -, -, h5⟩ := hT c f i r
    simp only [(toP_logProb h5 _).2]
    exact measurable_rep T c f i r
  integral c hc f hf i hi r hr := by
    obtain ⟨values, data, alpha, xs, ys, h1, h2, h4, h5, -, h6⟩ := rep_sum hT c f i r (h := fun _ => 1) measurable_const
    simp only [(toP_logProb h5 _).2]
    show ∫⁻ x, rep T c f i r x ∂pwlRef (T.domain f) = 1
    simp only [one_mul] at h6
    rw [h6, interp_sum, Props.C44_partial h2 h4, ENNReal.ofReal_one]
  isFin c hc f hf i hi r hr x _ := by
    obtain ⟨values, data, alpha, xs, ys, -, -, -, -, h5⟩ := hT c f i r
    exact (toP_logProb h5 _).1
  ae_valid f := Filter.Eventually.of_forall fun _ => trivial
  valid_zero f := trivial

/-- the values of the domains start at zero. -/
def FromZero (T : PwlTable) : Prop := ∀ f values, T.domain f = .discrete values → values.getD 0 0 = 0

theorem law_eq {T : PwlTable} (hT : Smoothed T) (h0 : FromZero T) (c f i r : Nat) {h : ℝ → ℝ≥0∞} (hh : Measurable h) :
    ∫⁻ x, h x ∂pwlLaw (T.domain f) (T.fn c f i r) = ∫⁻ x, h x * rep T c f i r x ∂pwlRef (T.domain f) := by
  obtain ⟨values, data, alpha, xs, ys, h1, h2, h4, h5, hl, h6⟩ := rep_sum hT c f i r hh
  rw [h6, h1, h5]
  unfold pwlLaw
  rw [lintegral_finsetSum_measure, hl, Nat.add_sub_cancel]
  have hsum : ∀ (l : List ℝ) (q : ℝ → ℝ≥0∞), (l.map q).sum = ∑ k ∈ Finset.range l.length, q (l.getD k 0) := by
    intro l q
    induction l with
    | nil => simp
    | cons a l ih => rw [List.map_cons, List.sum_cons, List.length_cons, Finset.sum_range_succ', ih, add_comm]; simp
  rw [hsum]
  refine Finset.sum_congr rfl fun k hk => ?_
  obtain ⟨e1, e2⟩ := Props.C45_discrete_partial h2 (h0 f values h1) h4 k (by simpa using hk)
  rw [lintegral_smul_measure, lintegral_dirac' _ hh, e1, e2, smul_eq_mul, mul_comm]

theorem pwlLeaf_samp {T : PwlTable} (hT : Smoothed T) (h0 : FromZero T) (d : LeafDims) : (pwlLeaf d T).Samp := by
  have hone : ∀ c f i r, ∀ h : ℝ → ℝ≥0∞, Measurable h → ∫⁻ x, h x ∂pwlLaw (T.domain f) (T.fn c f i r) =
      ∫⁻ x, h x * toP ((pwlLeaf d T).logProb c f i r (.fin x)) ∂pwlRef (T.domain f) := by
    intro c f i r h hh
    obtain ⟨values, data, alpha, xs, ys, -, -, -, -, h5⟩ := hT c f i r
    simp only [(toP_logProb h5 _).2]
    exact law_eq hT h0 c f i r hh
  have hprob : ∀ c f i r, IsProbabilityMeasure (pwlLaw (T.domain f) (T.fn c f i r)) := by
    intro c f i r
    refine ⟨?_⟩
    obtain ⟨values, data, alpha, xs, ys, h1, h2, h4, h5, -, h6⟩ := rep_sum hT c f i r (h := fun _ => 1) measurable_const
    rw [← lintegral_one, law_eq hT h0 c f i r measurable_const, h6]
    simp only [one_mul]
    rw [interp_sum, Props.C44_partial h2 h4, ENNReal.ofReal_one]
  exact ⟨rfl, fun _ _ c f i r => hprob c f i r, hone, fun _ _ c f i r => hprob c f i r⟩

end PwlEinet
end Einet
