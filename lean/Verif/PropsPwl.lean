import Verif.PwlFacts2
import Verif.MvnFwd

/-!
# C69: einets with piecewise linear leaves
-/

open Classical MeasureTheory
open scoped ENNReal
noncomputable section
namespace Einet
open Tensor
namespace Props

/-! ### Specification -/

/-- the values of a cluster for a channel and a feature, as a set. -/
def ClusterValue (data : Tensor ℝ) (assign : Nat → Nat) (i c f : Nat) (v : ℝ) : Prop :=
  ∃ n, n < data.size 0 ∧ assign n = i ∧ data.get [n, c, f] = v

/-- The data determine a density for every component: clusters have rows; discrete domains list their values in increasing order and
contain, up to one after the last value, some entry of every cluster that has rows. -/
def Covers (E : PwlEinet) (data : Tensor ℝ) (domains : List Domain) (assign : Nat → Nat → Nat) : Prop :=
  ∀ f, f < E.net.num_features → ∀ r, r < E.net.num_repetitions → ∀ i, i < E.net.num_leaves →
    match domains.getD f .continuous with
    | .continuous => ∃ n, n < data.size 0 ∧ assign r n = i
    | .discrete values => values ≠ [] ∧ values.Pairwise (· < ·) ∧ ((∀ n, n < data.size 0 → assign r n ≠ i) ∨
        ∀ c, c < E.net.num_channels → ∃ v, ClusterValue data (assign r) i c f v ∧ values.headD 0 ≤ v ∧ v ≤ values.getLastD 0 + 1)

/-- the row with one entry replaced. -/
def replace (X : Data) (c f : Nat) (v : Fl) : Data := fun c' f' => if c' = c ∧ f' = f then v else X c' f'

/-- the densities of the components of an entry, by leaf and repetition: `d x` is the density of component `(i, r)` at `x`. -/
def ComponentAt (E : PwlEinet) (c f i r : Nat) (d : ℝ → ℝ) : Prop :=
  ∃ T xs ys, E.state = some T ∧ T.fn c f i r = some (xs, ys) ∧ IsPLDensity xs ys d

/-! ### Lemmas -/

theorem mem_clusterData {data : Tensor ℝ} {assign : Nat → Nat} {i c f : Nat} {v : ℝ} :
    v ∈ PwlEinet.clusterData data assign i c f ↔ ClusterValue data assign i c f v := by
  unfold PwlEinet.clusterData ClusterValue
  simp [and_assoc]

theorem clusterData_nil {data : Tensor ℝ} {assign : Nat → Nat} {i c f : Nat} (h : ∀ n, n < data.size 0 → assign n ≠ i) :
    PwlEinet.clusterData data assign i c f = [] := by
  rw [List.eq_nil_iff_forall_not_mem]
  intro v hv
  obtain ⟨n, h1, h2, _⟩ := mem_clusterData.1 hv
  exact h n h1 h2

theorem covers_fit {E : PwlEinet} {data : Tensor ℝ} {domains : List Domain} {assign : Nat → Nat → Nat}
    (h : Covers E data domains assign) {c f i r : Nat} (hc : c < E.net.num_channels) (hf : f < E.net.num_features)
    (hi : i < E.net.num_leaves) (hr : r < E.net.num_repetitions) :
    ∃ xs ys, plFit (domains.getD f .continuous) E.alpha (PwlEinet.clusterData data (assign r) i c f) = .ok (some (xs, ys)) ∧
      IsPLDensity xs ys (fun x => interp x xs ys) := by
  have := h f hf r hr i hi
  cases hd : domains.getD f .continuous with
  | continuous =>
    rw [hd] at this
    obtain ⟨n, h1, h2⟩ := this
    obtain ⟨xs, ys, a, -, -, b⟩ := C36_continuous (alpha := E.alpha) (data := PwlEinet.clusterData data (assign r) i c f)
      (List.ne_nil_of_mem (mem_clusterData.2 ⟨n, h1, h2, rfl⟩))
    exact ⟨xs, ys, a, b⟩
  | discrete values =>
    rw [hd] at this
    obtain ⟨h1, h2, h3⟩ := this
    obtain ⟨xs, ys, a, -, -, b⟩ := C36_discrete (alpha := E.alpha) (data := PwlEinet.clusterData data (assign r) i c f) h1 h2
      (h3.imp clusterData_nil fun h => by
        obtain ⟨v, hv, h4⟩ := h c hc
        exact ⟨v, mem_clusterData.2 hv, h4⟩)
    exact ⟨xs, ys, a, b⟩

theorem init_good {E E' : PwlEinet} {data : Tensor ℝ} {domains : List Domain} {assign : Nat → Nat → Nat}
    (h : E.init data domains assign = .ok E') (hcov : Covers E data domains assign) : ∃ T, E'.state = some T ∧ E'.Good T := by
  obtain ⟨e1, -, -, -, -, -, -, T, hT, -, -, -, hfit⟩ := PwlEinet.init_spec h
  refine ⟨T, hT, ?_⟩
  unfold PwlEinet.Good
  rw [e1]
  intro c hc f hf i hi r hr
  obtain ⟨xs, ys, h1, h2⟩ := covers_fit hcov hc hf hi hr
  have := (hfit c hc f hf i hi r hr).symm.trans h1
  simp only [Except.ok.injEq] at this
  exact ⟨xs, ys, this, h2⟩

theorem init_WF {E E' : PwlEinet} {data : Tensor ℝ} {domains : List Domain} {assign : Nat → Nat → Nat}
    (h : E.init data domains assign = .ok E') {g : Nat → Nat → Nat} (hw : E.WF g) : E'.WF g := by
  unfold PwlEinet.WF
  rw [(PwlEinet.init_spec h).1]
  exact hw

/-! ### Initialisation -/

/-- **C69, initialisation.** If the shape of the data fits, there is a domain per feature, the last cluster is used in every
repetition and the data cover the components, then `initialize` succeeds, and afterwards every component has the piecewise linear
density found for the values of its cluster. -/
theorem C69_initialize (E : PwlEinet) (data : Tensor ℝ) (domains : List Domain) (assign : Nat → Nat → Nat) (N : Nat)
    (hshape : data.shape = [N, E.net.num_channels, E.net.num_features]) (hdom : E.net.num_features ≤ domains.length)
    (hlt : ∀ r, r < E.net.num_repetitions → ∀ n, n < N → assign r n < E.net.num_leaves)
    (hlast : ∀ r, r < E.net.num_repetitions → ∃ n, n < N ∧ assign r n + 1 = E.net.num_leaves)
    (hcov : Covers E data domains assign) :
    ∃ E', E.init data domains assign = .ok E' ∧ E'.net = E.net ∧
      ∀ c, c < E.net.num_channels → ∀ f, f < E.net.num_features → ∀ i, i < E.net.num_leaves → ∀ r, r < E.net.num_repetitions →
        ∃ xs ys, plFit (domains.getD f .continuous) E.alpha
            (((List.range N).filter fun n => decide (assign r n = i)).map fun n => data.get [n, c, f]) = .ok (some (xs, ys)) ∧
          ComponentAt E' c f i r fun x => interp x xs ys := by
  have hN : data.size 0 = N := by simp [Tensor.size, hshape, at']
  have hbin : ∀ r, r < E.net.num_repetitions → PwlEinet.binLength N (assign r) = E.net.num_leaves := by
    intro r hr
    obtain ⟨n, hn, he⟩ := hlast r hr
    unfold PwlEinet.binLength
    have key : ∀ l : List Nat, (∀ m ∈ l, m ≤ E.net.num_leaves) → E.net.num_leaves ∈ l → l.foldr max 0 = E.net.num_leaves := by
      intro l h1 h2
      refine le_antisymm ?_ ?_
      · clear h2
        induction l with
        | nil => exact Nat.zero_le _
        | cons a l ih => exact max_le (h1 a (by simp)) (ih fun m hm => h1 m (by simp [hm]))
      · clear h1
        induction l with
        | nil => simp at h2
        | cons a l ih =>
          rcases List.mem_cons.1 h2 with h | h
          · rw [h]; exact le_max_left _ _
          · exact (ih h).trans (le_max_right _ _)
    refine key _ (fun m hm => ?_) (List.mem_map.2 ⟨n, List.mem_range.2 hn, he⟩)
    obtain ⟨n', h1, rfl⟩ := List.mem_map.1 hm
    exact hlt r hr n' (List.mem_range.1 h1)
  have hok : ∃ E', E.init data domains assign = .ok E' := by
    unfold PwlEinet.init
    rw [require_true _ ⟨by simp [Tensor.rank, hshape], by simp [Tensor.size, hshape, at']⟩, Res.ok_bind,
      require_true _ (by simp [Tensor.size, hshape, at']), Res.ok_bind,
      require_true _ (fun r hr => by rw [hN]; exact Or.inl (hbin r hr)), Res.ok_bind, require_true _ hdom, Res.ok_bind]
    dsimp only
    rw [require_true _ (fun c hc f hf i hi r hr => by
      obtain ⟨xs, ys, h, -⟩ := covers_fit hcov hc hf hi hr
      exact ⟨_, h⟩), Res.ok_bind]
    exact ⟨_, rfl⟩
  obtain ⟨E', hE⟩ := hok
  obtain ⟨e1, -, -, -, -, -, -, T, hT, -, -, -, hfit⟩ := PwlEinet.init_spec hE
  refine ⟨E', hE, e1, fun c hc f hf i hi r hr => ?_⟩
  obtain ⟨xs, ys, h1, h2⟩ := covers_fit hcov hc hf hi hr
  refine ⟨xs, ys, ?_, T, xs, ys, hT, ?_, h2⟩
  · rw [← hN]; exact h1
  · have := (hfit c hc f hf i hi r hr).symm.trans h1
    simpa only [Except.ok.injEq] using this

/-- The weights stored with the functions: the proportions of the rows in the clusters, and they sum to one. -/
theorem C69_weights (E E' : PwlEinet) (data : Tensor ℝ) (domains : List Domain) (assign : Nat → Nat → Nat)
    (h : E.init data domains assign = .ok E') (r : Nat) (hr : r < E.net.num_repetitions)
    (htwo : ∃ n, n < data.size 0 ∧ 0 < assign r n) :
    ∃ T, E'.state = some T ∧
      (∀ i, T.weights r i = ((Finset.range (data.size 0)).filter fun n => assign r n = i).card / data.size 0) ∧
      ∑ i ∈ Finset.range E.net.num_leaves, T.weights r i = 1 := by
  obtain ⟨-, -, -, -, -, -, hb, T, hT, -, hwt, -, -⟩ := PwlEinet.init_spec h
  have hle : ∀ n, n < data.size 0 → assign r n + 1 ≤ PwlEinet.binLength (data.size 0) (assign r) := by
    intro n hn
    unfold PwlEinet.binLength
    have : ∀ l : List Nat, ∀ m ∈ l, m ≤ l.foldr max 0 := by
      intro l
      induction l with
      | nil => simp
      | cons a l ih =>
        intro m hm
        rcases List.mem_cons.1 hm with h | h
        · rw [h]; exact le_max_left _ _
        · exact (ih m h).trans (le_max_right _ _)
    exact this _ _ (List.mem_map.2 ⟨n, List.mem_range.2 hn, rfl⟩)
  obtain ⟨n0, hn0, hp⟩ := htwo
  have hne : PwlEinet.binLength (data.size 0) (assign r) ≠ 1 := by have := hle n0 hn0; omega
  have hbl := (hb r hr).resolve_right hne
  have hw : ∀ i, T.weights r i = ((Finset.range (data.size 0)).filter fun n => assign r n = i).card / data.size 0 := by
    intro i
    rw [hwt]
    unfold PwlEinet.clusterWeight
    rw [if_neg hne, List.countP_eq_length_filter]
    congr 2
  refine ⟨T, hT, hw, ?_⟩
  simp only [hw]
  rw [← Finset.sum_div, ← Nat.cast_sum]
  have hm : Set.MapsTo (assign r) (Finset.range (data.size 0)) (Finset.range E.net.num_leaves) := by
    intro n hn
    have := hle n (by simpa using hn)
    simp only [Finset.coe_range, Set.mem_Iio]
    omega
  rw [← Finset.card_eq_sum_card_fiberwise hm, Finset.card_range]
  exact div_self (by have : 0 < data.size 0 := by omega
                     positivity)

/-- Before `initialize`, and after `reset`, the forward pass raises for every input, and sampling for all arguments. -/
theorem C69_uninitialized (c : Config) (P : Params) (alpha : ℝ) (E : PwlEinet) (h : buildPwl c P alpha = .ok E) (E' : PwlEinet)
    (he : E' = E ∨ ∃ F : PwlEinet, E' = F.reset) (x : Tensor Fl) (ms : Option Scopes) :
    (∀ t, E'.forward x ms ≠ .ok t) ∧ ∀ a, (E'.sample a).E (fun _ => 1) = 0 := by
  have hs : E'.state = none := by
    rcases he with rfl | ⟨F, rfl⟩
    · unfold buildPwl at h
      obtain ⟨M, hM, h⟩ := bind_ok h
      obtain ⟨_, _, h⟩ := bind_ok h
      simp only [Res.pure_eq, Except.ok.injEq] at h
      subst h
      rfl
    · rfl
  refine ⟨fun t ht => ?_, fun a => ?_⟩
  · unfold PwlEinet.forward PwlEinet.model at ht
    rw [hs] at ht
    obtain ⟨_, _, ht⟩ := bind_ok ht
    cases ht
  · unfold PwlEinet.sample PwlEinet.model
    rw [hs]
    simp [Rand.lift, Rand.E]

/-! ### The density -/

/-- every component is positive at every observed entry. -/
def Positive (E : PwlEinet) (X : Data) : Prop :=
  ∀ c, c < E.net.num_channels → ∀ f, f < E.net.num_features → ∀ x, X c f = .fin x → ∀ i, i < E.net.num_leaves →
    ∀ r, r < E.net.num_repetitions → ∀ d, ComponentAt E c f i r d → 0 < d x

/-- every component of the entry has density zero at `x`. -/
def Outside (E : PwlEinet) (c f : Nat) (x : ℝ) : Prop :=
  ∀ i, i < E.net.num_leaves → ∀ r, r < E.net.num_repetitions → ∀ d, ComponentAt E c f i r d → d x = 0

theorem good_component {E : PwlEinet} {T : PwlTable} (hT : E.state = some T) (hg : E.Good T) {c f i r : Nat}
    (hc : c < E.net.num_channels) (hf : f < E.net.num_features) (hi : i < E.net.num_leaves) (hr : r < E.net.num_repetitions) :
    ∃ xs ys, T.fn c f i r = some (xs, ys) ∧ IsPLDensity xs ys (fun x => interp x xs ys) ∧
      ComponentAt E c f i r fun x => interp x xs ys := by
  obtain ⟨xs, ys, h1, h2⟩ := hg c hc f hf i hi r hr
  exact ⟨xs, ys, h1, h2, T, xs, ys, hT, h1, h2⟩

theorem replace_known {M : Model} {X : Data} (hX : M.Known X) (c f : Nat) {v : Fl} (hv : v = .nan ∨ ∃ x : ℝ, v = .fin x) :
    M.Known (replace X c f v) := by
  intro c' hc' f' hf'
  unfold replace
  split_ifs
  · exact hv
  · exact hX c' hc' f' hf'

theorem density_outside {E : PwlEinet} {g : Nat → Nat → Nat} (hw : E.WF g) {T : PwlTable} (hT : E.state = some T) (hg : E.Good T)
    {X : Data} (hX : E.net.Known X) {c f : Nat} (hc : c < E.net.num_channels) (hf : f < E.net.num_features) {x : ℝ}
    (he : X c f = .fin x) (ho : Outside E c f x) {k : Nat} (hk : k < E.net.num_classes) :
    E.density k X = ENNReal.ofReal (Real.exp (-300)) * E.density k (replace X c f .nan) ∧
      E.net.outP g 1 (fun c f i r => Model.valueAt (PwlEinet.comp T c f i r) (X c f)) k = 0 := by
  have hprod : ∀ e : ℝ≥0∞, ∏ f' ∈ Finset.range E.net.num_features, ∏ c' ∈ Finset.range E.net.num_channels,
      (if c' = c ∧ f' = f then e else 1) = e := by
    intro e
    rw [Finset.prod_eq_single_of_mem f (by simpa using hf), Finset.prod_eq_single_of_mem c (by simpa using hc)]
    · simp
    · intro c' _ h; simp [h]
    · intro f' _ h
      exact Finset.prod_eq_one fun c' _ => by simp [h]
  have hmul : ∀ (e : ℝ≥0∞) (p : Nat → Nat → Nat → Nat → ℝ → ℝ≥0∞),
      (∀ i, i < E.net.num_leaves → ∀ r, r < E.net.num_repetitions → p c f i r x = e) →
      E.net.outP g 1 (fun c f i r => Model.valueAt (p c f i r) (X c f)) k =
        e * E.net.outP g 1 (fun c' f' i r => Model.valueAt (p c' f' i r) (replace X c f .nan c' f')) k := by
    intro e p hp
    have hm := Model.outP_mul hw one_ne_zero (fun c' f' => if c' = c ∧ f' = f then e else 1)
      (fun c' f' i r => Model.valueAt (p c' f' i r) (replace X c f .nan c' f')) hk
    rw [hprod] at hm
    rw [← hm]
    refine Model.outP_congr hw (fun c' _ f' _ i hi r hr => ?_) hk
    unfold replace
    by_cases h : c' = c ∧ f' = f
    · rw [if_pos h, if_pos h, h.1, h.2, he]
      simp [Model.valueAt, hp i hi r hr, Fl.val]
    · rw [if_neg h, if_neg h, one_mul]
  constructor
  · rw [(PwlEinet.density_eq hw hT hX hk).2, (PwlEinet.density_eq hw hT (replace_known hX c f (Or.inl rfl)) hk).2]
    refine hmul _ _ fun i hi r hr => ?_
    obtain ⟨xs, ys, h1, -, h3⟩ := good_component hT hg hc hf hi hr
    have h0 : interp x xs ys = 0 := ho i hi r hr _ h3
    simp [PwlEinet.rep, h1, h0]
  · rw [hmul 0, zero_mul]
    intro i hi r hr
    obtain ⟨xs, ys, h1, -, h3⟩ := good_component hT hg hc hf hi hr
    have h0 : interp x xs ys = 0 := ho i hi r hr _ h3
    simp [PwlEinet.comp, h1, h0]

/-- **C69, density** (part).  There is a probability density `q` with exact marginals (its value at a row with missing entries is
the integral over these) such that the forward pass succeeds with finite values on all rows, never reports less than `q`, reports
`q` where all components are positive, and `e^-300` times the value without the entry if the entry lies outside all components,
where `q` is zero.  Missing: the reported values are not a density themselves (`C69_refuted_mass`). -/
theorem C69_density_partial (c : Config) (P : Params) (hP : P.Random) (alpha : ℝ) (E0 E : PwlEinet) (h0 : buildPwl c P alpha = .ok E0)
    (data : Tensor ℝ) (domains : List Domain) (assign : Nat → Nat → Nat) (h : E0.init data domains assign = .ok E)
    (hcov : Covers E0 data domains assign) (k : Nat) (hk : k < E.net.num_classes) :
    ∃ q : Data → ℝ≥0∞, q (fun _ _ => .nan) = 1 ∧ ∀ X, E.net.Known X →
      q X = ∫⁻ ω, q (Pt.data ω) ∂missing E.net.num_channels E.net.num_features (fun _ => volume) X ∧
      (∃ v : ℝ, ∃ t, E.forward (rowTensor E.net.num_channels E.net.num_features X) = .ok t ∧ t.get [0, k] = .fin v) ∧
      q X ≤ E.density k X ∧ (Positive E X → E.density k X = q X) ∧
      ∀ c, c < E.net.num_channels → ∀ f, f < E.net.num_features → ∀ x, X c f = .fin x → Outside E c f x →
        q X = 0 ∧ E.density k X = ENNReal.ofReal (Real.exp (-300)) * E.density k (replace X c f .nan) := by
  obtain ⟨-, -, -, hw0, -⟩ := PwlEinet.buildPwl_spec hP h0
  obtain ⟨T, hT, hg⟩ := init_good h hcov
  obtain ⟨g, hw⟩ : ∃ g, E.WF g := ⟨_, init_WF h hw0⟩
  refine ⟨fun X => E.net.outP g 1 (fun c f i r => Model.valueAt (PwlEinet.comp T c f i r) (X c f)) k, ?_, fun X hX => ⟨?_, ?_, ?_, ?_, ?_⟩⟩
  · exact (Model.outP_congr hw (fun _ _ _ _ _ _ _ _ => by simp [Model.valueAt]) hk).trans (Model.outP_one hw hk)
  · refine Model.outP_missing hw (measurable_comp T) (fun c hc f hf i hi r hr => ?_) X hk
    obtain ⟨xs, ys, h1, h2⟩ := hg c hc f hf i hi r hr
    unfold PwlEinet.comp
    rw [h1]
    exact h2.mass
  · exact (PwlEinet.density_eq hw hT hX hk).1
  · rw [(PwlEinet.density_eq hw hT hX hk).2]
    refine Model.outP_mono _ _ (fun c f i r => ?_) k
    unfold Model.valueAt PwlEinet.comp PwlEinet.rep
    split_ifs
    · exact le_rfl
    · cases T.fn c f i r with
      | none => exact le_rfl
      | some p =>
        simp only [Option.elim]
        split_ifs with h
        · exact le_rfl
        · rw [ENNReal.ofReal_eq_zero.2 (not_lt.1 h)]; exact zero_le
  · intro hpos
    rw [(PwlEinet.density_eq hw hT hX hk).2]
    refine Model.outP_congr hw (fun c hc f hf i hi r hr => ?_) hk
    obtain ⟨xs, ys, h1, -, h3⟩ := good_component hT hg hc hf hi hr
    rcases hX c hc f hf with e | ⟨x, e⟩
    · simp [e, Model.valueAt]
    · have := hpos c hc f hf x e i hi r hr _ h3
      simp [e, Model.valueAt, PwlEinet.rep, PwlEinet.comp, h1, Fl.val, this]
  · intro c hc f hf x e ho
    obtain ⟨a, b⟩ := density_outside hw hT hg hX hc hf e ho hk
    exact ⟨b, a⟩

/-- **C69, `marginalized_scopes`**: for batches of any size, listing features is the same as setting them to NaN. -/
theorem C69_scopes (c : Config) (P : Params) (hP : P.Random) (alpha : ℝ) (E0 E : PwlEinet) (h0 : buildPwl c P alpha = .ok E0)
    (data : Tensor ℝ) (domains : List Domain) (assign : Nat → Nat → Nat) (h : E0.init data domains assign = .ok E)
    (hcov : Covers E0 data domains assign) (N : Nat) (x : Tensor Fl) (hx : x.shape = [N, E.net.num_channels, E.net.num_features])
    (hfin : ∀ n, n < N → ∀ c, c < E.net.num_channels → ∀ f, f < E.net.num_features → ∃ v : ℝ, x.get [n, c, f] = .fin v) (s : Scopes)
    (hs : Usable E.net.num_features s) :
    ∃ y y', E.forward x (some s) = .ok y ∧ E.forward (withNaN E.net.num_features s x) = .ok y' ∧
      y.shape = [N, E.net.num_classes] ∧ y'.shape = [N, E.net.num_classes] ∧
      ∀ n, n < N → ∀ k, k < E.net.num_classes → y.get [n, k] = y'.get [n, k] ∧
        toP (y.get [n, k]) = E.density k (fun c f => if Listed E.net.num_features s f then .nan else x.get [n, c, f]) := by
  obtain ⟨-, -, -, hw0, -⟩ := PwlEinet.buildPwl_spec hP h0
  obtain ⟨T, hT, hg⟩ := init_good h hcov
  obtain ⟨g, hw⟩ : ∃ g, E.WF g := ⟨_, init_WF h hw0⟩
  have hw' := PwlEinet.model_WF hw T
  obtain ⟨l, hl, hm⟩ := usable_resolve hs
  have hx3 : x.Is3 N E.net.num_channels E.net.num_features fun n c f => x.get [n, c, f] := ⟨hx, fun _ _ _ _ _ _ => rfl⟩
  have hy3 : (withNaN E.net.num_features s x).Is3 N E.net.num_channels E.net.num_features
      fun n c f => (withNaN E.net.num_features s x).get [n, c, f] := ⟨hx, fun _ _ _ _ _ _ => rfl⟩
  have hval : ∀ X : Data, (E.net.withBase (pwlLeaf E.dims T)).leaf.base.Valid X := fun X => by
    rw [Model.withBase_base]; exact fun _ _ _ _ => trivial
  obtain ⟨y, hy, h1⟩ := Model.forward_is hw' hx3 (fun _ _ => hval _) (ms := some s) hl
  obtain ⟨y', hy', h2⟩ := Model.forward_is hw' hy3 (fun _ _ => hval _) (ms := none) (sc := none) rfl
  refine ⟨y, y', by rw [PwlEinet.forward_eq hT hx3, hy], by rw [PwlEinet.forward_eq hT hy3, hy'], h1.1, h2.1, fun n hn k hk => ?_⟩
  have e : y.get [n, k] = y'.get [n, k] := by
    rw [h1.2 n hn k hk, h2.2 n hn k hk]
    refine Model.outRow_congr hw' (fun c hc f hf i hi r hr => ?_) hk
    rw [Model.withBase_base]
    obtain ⟨v, hv⟩ := hfin n hn c hc f hf
    obtain ⟨xs, ys, h3, -⟩ := good_component hT hg hc hf hi hr
    have hf' := (PwlEinet.toP_logProb (d := E.dims) h3 v).1
    obtain ⟨u, hu⟩ := hf'
    by_cases hli : Listed E.net.num_features s f
    · simp [BaseLeaf.entry, withNaN, at', hli, (hm f hf).2 hli, Fl.isnan]
    · have hnl : f ∉ l := fun e => hli ((hm f hf).1 e)
      simp [BaseLeaf.entry, withNaN, at', hli, hnl, hv, Fl.isnan, hu]
  refine ⟨e, ?_⟩
  rw [e, h2.2 n hn k hk]
  obtain ⟨z, hz, h3⟩ := Model.forward_is hw' (rowTensor_is E.net.num_channels E.net.num_features
    (fun c f => if Listed E.net.num_features s f then .nan else x.get [n, c, f])) (fun _ _ => hval _) (ms := none) (sc := none) rfl
  unfold PwlEinet.density
  rw [PwlEinet.forward_eq hT (rowTensor_is _ _ _), hz]
  show _ = toP (z.get [0, k])
  rw [h3.2 0 one_pos k hk]
  rfl

/-- **C69 is false of the code as stated for all rows**: the value reported outside the range of the data is not zero, and the
reported likelihood, integrated over any single entry, is infinite. -/
theorem C69_refuted_mass (c : Config) (P : Params) (hP : P.Random) (alpha : ℝ) (E0 E : PwlEinet) (h0 : buildPwl c P alpha = .ok E0)
    (data : Tensor ℝ) (domains : List Domain) (assign : Nat → Nat → Nat) (h : E0.init data domains assign = .ok E)
    (hcov : Covers E0 data domains assign) (k : Nat) (hk : k < E.net.num_classes) (X : Data) (hX : E.net.Known X) (ch f : Nat)
    (hc : ch < E.net.num_channels) (hf : f < E.net.num_features) :
    ∫⁻ x : ℝ, E.density k (replace X ch f (.fin x)) = ⊤ := by
  obtain ⟨-, -, -, hw0, -⟩ := PwlEinet.buildPwl_spec hP h0
  obtain ⟨T, hT, hg⟩ := init_good h hcov
  obtain ⟨g, hw⟩ : ∃ g, E.WF g := ⟨_, init_WF h hw0⟩
  obtain ⟨m, hm⟩ : ∃ m : ℝ, ∀ i, i < E.net.num_leaves → ∀ r, r < E.net.num_repetitions → ∀ xs ys, T.fn ch f i r = some (xs, ys) →
      ∀ z ∈ xs, m ≤ z := by
    obtain ⟨m, hm⟩ := ((Finset.range E.net.num_leaves ×ˢ Finset.range E.net.num_repetitions).biUnion fun p =>
      ((T.fn ch f p.1 p.2).elim [] Prod.fst).toFinset).bddBelow
    refine ⟨m, fun i hi r hr xs ys e z hz => hm ?_⟩
    simp only [Finset.coe_biUnion, Set.mem_iUnion]
    exact ⟨(i, r), by simp [hi, hr], by simp [e, hz]⟩
  have hle : ∀ x, x ≤ m → E.density k (replace X ch f (.fin x)) =
      ENNReal.ofReal (Real.exp (-300)) * E.density k (replace X ch f .nan) := by
    intro x hx
    have e : replace (replace X ch f (.fin x)) ch f .nan = replace X ch f .nan := by
      funext c' f'; unfold replace; split_ifs <;> rfl
    rw [← e]
    refine (density_outside hw hT hg (replace_known hX ch f (Or.inr ⟨x, rfl⟩)) hc hf (x := x) (by simp [replace]) ?_ hk).1
    rintro i hi r hr d ⟨T', xs, ys, h1, h2, h3⟩
    obtain rfl : T = T' := by rw [hT] at h1; exact Option.some.inj h1
    exact h3.outside x (Or.inl fun z hz => hx.trans (hm i hi r hr xs ys h2 z hz))
  have hpos : ENNReal.ofReal (Real.exp (-300)) * E.density k (replace X ch f .nan) ≠ 0 := by
    refine mul_ne_zero ?_ ?_
    · simpa using Real.exp_pos _
    · obtain ⟨v, t, h1, h2⟩ := (PwlEinet.density_eq hw hT (replace_known hX ch f (Or.inl rfl)) hk).1
      unfold PwlEinet.density
      rw [h1]
      simp only [h2, toP_fin]
      simpa using Real.exp_pos _
  refine eq_top_iff.2 (le_trans ?_ (setLIntegral_le_lintegral (Set.Iic m) _))
  rw [setLIntegral_congr_fun measurableSet_Iic (fun x hx => hle x hx), setLIntegral_const, Real.volume_Iic, ENNReal.mul_top hpos]

/-- A component of a continuous feature whose cluster has no rows reports likelihood one for every value. -/
theorem C69_refuted_empty (E0 E : PwlEinet) (data : Tensor ℝ) (domains : List Domain) (assign : Nat → Nat → Nat)
    (h : E0.init data domains assign = .ok E) (c f i r : Nat) (hc : c < E.net.num_channels) (hf : f < E.net.num_features)
    (hi : i < E.net.num_leaves) (hr : r < E.net.num_repetitions) (hd : domains.getD f .continuous = .continuous)
    (he : ∀ n, n < data.size 0 → assign r n ≠ i) :
    ∃ M, E.model = .ok M ∧ ∀ x : ℝ, M.leaf.base.entry none (.fin x) c f i r = .fin 0 := by
  obtain ⟨e1, -, -, -, -, -, -, T, hT, -, -, -, hfit⟩ := PwlEinet.init_spec h
  rw [e1] at hc hf hi hr
  have := hfit c hc f hf i hi r hr
  rw [hd, clusterData_nil he, C36_refuted_empty] at this
  have hn : T.fn c f i r = none := by simpa only [Except.ok.injEq, eq_comm] using this
  refine ⟨E.net.withBase (pwlLeaf E.dims T), by unfold PwlEinet.model; rw [hT], fun x => ?_⟩
  rw [Model.withBase_base]
  simp [BaseLeaf.entry, pwlLeaf, hn, pwlLogProb, Fl.isnan]

/-! ### Discrete features -/

/-- counting measure on a list of values. -/
def countOn (values : List ℝ) : Measure ℝ := (values.map fun v => Measure.dirac v).sum

theorem init_smoothed {E E' : PwlEinet} {data : Tensor ℝ} {domains : List Domain} {assign : Nat → Nat → Nat}
    (h : E.init data domains assign = .ok E') (hcov : Covers E data domains assign) {vals : Nat → List ℝ}
    (hd : ∀ f, f < E.net.num_features → domains.getD f .continuous = .discrete (vals f)) (hv : ∀ f, f < E.net.num_features → Consecutive (vals f))
    (ha : 0 < E.alpha) (hF : 0 < E.net.num_features) (hC : 0 < E.net.num_channels) (hI : 0 < E.net.num_leaves)
    (hR : 0 < E.net.num_repetitions) :
    ∃ T, E'.state = some T ∧ PwlEinet.Smoothed T ∧ ∀ f, T.domain f = .discrete (vals (min f (E.net.num_features - 1))) := by
  obtain ⟨e1, -, -, -, -, -, -, T, hT, hdom, -, hcl, hfit⟩ := PwlEinet.init_spec h
  have hdf : ∀ f, T.domain f = .discrete (vals (min f (E.net.num_features - 1))) := fun f => by
    rw [hdom f]; exact hd _ (by omega)
  refine ⟨T, hT, fun c f i r => ?_, hdf⟩
  obtain ⟨xs, ys, h1, -⟩ := covers_fit hcov (c := min c (E.net.num_channels - 1)) (f := min f (E.net.num_features - 1))
    (i := min i (E.net.num_leaves - 1)) (r := min r (E.net.num_repetitions - 1)) (by omega) (by omega) (by omega) (by omega)
  have h2 := (hfit (min c (E.net.num_channels - 1)) (by omega) (min f (E.net.num_features - 1)) (by omega)
    (min i (E.net.num_leaves - 1)) (by omega) (min r (E.net.num_repetitions - 1)) (by omega)).symm.trans h1
  simp only [Except.ok.injEq] at h2
  rw [hd _ (by omega)] at h1
  exact ⟨_, _, _, xs, ys, hdf f, hv _ (by omega), ha, h1, by rw [hcl]; exact h2⟩

/-- all features are discrete, with consecutive values. -/
structure Counts (E : PwlEinet) (domains : List Domain) (vals : Nat → List ℝ) : Prop where
  domain : ∀ f, f < E.net.num_features → domains.getD f .continuous = .discrete (vals f)
  consecutive : ∀ f, f < E.net.num_features → Consecutive (vals f)

theorem density_model {E : PwlEinet} {T : PwlTable} (hT : E.state = some T) (k : Nat) (X : Data) :
    E.density k X = (E.net.withBase (pwlLeaf E.dims T)).density none k X := by
  unfold PwlEinet.density Model.density
  rw [PwlEinet.forward_eq hT (rowTensor_is _ _ X)]
  rfl

/-- everything about an initialised einet with smoothed discrete features. -/
theorem discrete_setup {c : Config} {P : Params} (hP : P.Random) {alpha : ℝ} (ha : 0 < alpha) {E0 E : PwlEinet}
    (h0 : buildPwl c P alpha = .ok E0) {data : Tensor ℝ} {domains : List Domain} {assign : Nat → Nat → Nat}
    (h : E0.init data domains assign = .ok E) (hcov : Covers E0 data domains assign) {vals : Nat → List ℝ}
    (hd : Counts E0 domains vals) : ∃ T g, E.state = some T ∧ E.WF g ∧ PwlEinet.Smoothed T ∧ 0 < E.net.num_features ∧
      (∀ f, T.domain f = .discrete (vals (min f (E.net.num_features - 1)))) ∧ (MirrorCfg c → E.net.Mirrored g) := by
  obtain ⟨e1, -, hb, hw0, hF, hC, -⟩ := PwlEinet.buildPwl_spec hP h0
  obtain ⟨T, hT, hs, hdom⟩ := init_smoothed h hcov hd.domain hd.consecutive (e1 ▸ ha) hF hC hw0.leaves_pos hw0.reps_pos
  have en := (PwlEinet.init_spec h).1
  refine ⟨T, _, hT, init_WF h hw0, hs, by rw [en]; exact hF, by rw [en]; exact hdom, fun hm => ?_⟩
  rw [en]
  exact build_mirrored (P := { P with leaf := .normal (fun _ _ _ _ => 0) fun _ _ _ _ => 0 }) ⟨hP.1, hP.2⟩ hb hm

/-- **C69, discrete features.**  With smoothing and consecutive values the reported likelihoods of the rows over the domains sum to
one, and a missing entry stands for the sum over its values. -/
theorem C69_discrete (c : Config) (P : Params) (hP : P.Random) (alpha : ℝ) (ha : 0 < alpha) (E0 E : PwlEinet)
    (h0 : buildPwl c P alpha = .ok E0) (data : Tensor ℝ) (domains : List Domain) (assign : Nat → Nat → Nat)
    (h : E0.init data domains assign = .ok E) (hcov : Covers E0 data domains assign) (vals : Nat → List ℝ)
    (hd : Counts E0 domains vals) (k : Nat) (hk : k < E.net.num_classes) :
    ∫⁻ ω, E.density k (Pt.data ω) ∂(Measure.pi fun _ : Fin E.net.num_channels => Measure.pi fun f : Fin E.net.num_features =>
      countOn (vals f)) = 1 ∧
    ∀ X, E.net.Known X → E.density k X =
      ∫⁻ ω, E.density k (Pt.data ω) ∂missing E.net.num_channels E.net.num_features (fun f => countOn (vals f)) X := by
  obtain ⟨T, g, hT, hw, hs, hF, hdom, -⟩ := discrete_setup hP ha h0 h hcov hd
  have hw' := PwlEinet.model_WF hw T
  have hp : (E.net.withBase (pwlLeaf E.dims T)).leaf.base.Proper := by
    rw [Model.withBase_base]; exact PwlEinet.pwlLeaf_proper hs _
  have href : ∀ f : Fin E.net.num_features, (E.net.withBase (pwlLeaf E.dims T)).leaf.base.ref f = countOn (vals f) := by
    intro f
    rw [Model.withBase_base]
    show pwlRef (T.domain f) = _
    rw [hdom f, min_eq_left (by have := f.2; omega)]
    rfl
  simp only [density_model hT]
  constructor
  · have := Model.density_integral hw' hp (k := k) hk
    simp only [← href]
    exact this
  · intro X hX
    have := Model.density_missing hw' hp (X := X) (by
      rw [Model.withBase_base]
      intro c hc f hf
      exact (hX c hc f hf).imp id fun ⟨x, e⟩ => ⟨x, e, trivial⟩) (k := k) hk
    unfold missing at this ⊢
    simp only [← href]
    exact this

/-- the law of a row with the reported likelihoods. -/
def pwlRowLaw (E : PwlEinet) (vals : Nat → List ℝ) (k : Nat) : Measure (Fin E.net.num_channels → Fin E.net.num_features → ℝ) :=
  (Measure.pi fun _ => Measure.pi fun f : Fin E.net.num_features => countOn (vals f)).withDensity fun ω => E.density k (Pt.data ω)

/-- **C69, sampling** (part): with discrete features whose values are `0, 1, 2, ...` the rows returned by `sample` are independent
draws from the reported likelihoods.  Missing: configurations outside `MirrorCfg` (see `C13_refuted`), continuous features and
other values (see C36 and C37). -/
theorem C69_discrete_sample_partial (c : Config) (P : Params) (hP : P.Random) (alpha : ℝ) (ha : 0 < alpha) (E0 E : PwlEinet)
    (h0 : buildPwl c P alpha = .ok E0) (data : Tensor ℝ) (domains : List Domain) (assign : Nat → Nat → Nat)
    (h : E0.init data domains assign = .ok E) (hcov : Covers E0 data domains assign) (vals : Nat → List ℝ)
    (hd : Counts E0 domains vals) (hzero : ∀ f, f < E.net.num_features → (vals f).headD 0 = 0) (hmir : MirrorCfg c)
    (hK : E.net.num_classes = 1) (N : Nat) (hN : 0 < N)
    (φ : (Fin N → Fin E.net.num_channels → Fin E.net.num_features → ℝ) → ℝ≥0∞) (hφ : Measurable φ) :
    (E.sample { num_samples := some N }).E (fun s => φ fun n c f => (s.get [n, c, f]).val) =
      ∫⁻ ω, φ ω ∂Measure.pi fun _ : Fin N => pwlRowLaw E vals 0 := by
  obtain ⟨T, g, hT, hw, hs, hF, hdom, hm⟩ := discrete_setup hP ha h0 h hcov hd
  have hw' := PwlEinet.model_WF hw T
  have hz : PwlEinet.FromZero T := by
    intro f values e
    rw [hdom f] at e
    cases e
    have := hzero (min f (E.net.num_features - 1)) (by omega)
    cases hv : vals (min f (E.net.num_features - 1)) with
    | nil => rfl
    | cons a l => rw [hv] at this; simpa using this
  have hp : (E.net.withBase (pwlLeaf E.dims T)).leaf.base.Proper := by
    rw [Model.withBase_base]; exact PwlEinet.pwlLeaf_proper hs _
  have hsa : (E.net.withBase (pwlLeaf E.dims T)).Samplable g :=
    ⟨hw', by rw [Model.withBase_base]; exact PwlEinet.pwlLeaf_samp hs hz _, hF⟩
  have hmi : (E.net.withBase (pwlLeaf E.dims T)).Mirrored g := by
    unfold Model.Mirrored
    rw [Model.withBase_grpS (PwlEinet.same hw T), Model.withBase_grpF (PwlEinet.same hw T)]
    exact hm hmir
  have he : E.sample { num_samples := some N } = (E.net.withBase (pwlLeaf E.dims T)).sample { num_samples := some N } := by
    unfold PwlEinet.sample PwlEinet.model
    rw [hT]
    rfl
  rw [he]
  have := Model.sample_measure hsa hp hmi (a := { num_samples := some N }) rfl hN rfl rfl rfl rfl (by trivial) hφ
  refine this.trans ?_
  congr 2
  funext n
  have hK' : (E.net.withBase (pwlLeaf E.dims T)).num_classes = 1 := hK
  unfold Model.mixLaw Model.classW
  rw [hK']
  simp only [lt_irrefl, if_false, Finset.range_one, Finset.sum_singleton, if_true, one_smul]
  have hd1 := (C69_discrete c P hP alpha ha E0 E h0 data domains assign h hcov vals hd 0 (by omega))
  have href : ∀ f : Fin E.net.num_features, (E.net.withBase (pwlLeaf E.dims T)).leaf.base.ref f = countOn (vals f) := by
    intro f
    rw [Model.withBase_base]
    show pwlRef (T.domain f) = _
    rw [hdom f, min_eq_left (by have := f.2; omega)]
    rfl
  have hmeas : (missing (E.net.withBase (pwlLeaf E.dims T)).num_channels (E.net.withBase (pwlLeaf E.dims T)).num_features
      (E.net.withBase (pwlLeaf E.dims T)).leaf.base.ref fun _ _ => .nan) =
      Measure.pi fun _ : Fin E.net.num_channels => Measure.pi fun f : Fin E.net.num_features => countOn (vals f) := by
    unfold missing
    simp only [if_true]
    simp only [← href]
    rfl
  have h1 : (E.net.withBase (pwlLeaf E.dims T)).density none 0 (fun _ _ => .nan) = 1 := by
    rw [← density_model hT, hd1.2 _ fun _ _ _ _ => Or.inl rfl, ← hd1.1]
    unfold missing
    simp only [if_true]
  unfold Model.condLaw pwlRowLaw
  rw [h1, hmeas, inv_one, one_smul]
  simp only [density_model hT]
  rfl

/-! ### Concrete cases -/

/-- four rows; the entries are 0 or 1. -/
def exPwlData : Tensor ℝ := ⟨[4, 2, 5], fun j => ((j.getD 0 0 + j.getD 1 0) % 2 : ℕ)⟩

theorem exPwl (domains : List Domain) (hl : domains.length = 5) (hd : ∀ d ∈ domains, d = .continuous ∨ d = .discrete [0, 1]) :
    ∃ E0 E, buildPwl (exOne "einsum" "top-down") (exParams exLeaf) 1 = .ok E0 ∧
      E0.init exPwlData domains (fun _ n => n) = .ok E ∧ Covers E0 exPwlData domains (fun _ n => n) ∧
      E0.net.num_features = 5 ∧ E0.net.num_channels = 2 ∧ E0.net.num_leaves = 4 ∧ E0.net.num_repetitions = 2 ∧
      E0.net.num_classes = 1 ∧ E.net = E0.net := by
  obtain ⟨M, hM, -⟩ := exOne_builds (l := "einsum") (s := "top-down") (Or.inl ⟨Or.inr (Or.inr rfl), rfl⟩)
  obtain ⟨M', hM'⟩ := (build_iff (c := exOne "einsum" "top-down")
    (P := { exParams exLeaf with leaf := .normal (fun _ _ _ _ => 0) fun _ _ _ _ => 0 })).2 ⟨(build_iff.1 ⟨M, hM⟩).1, ⟨normalLeaf _ _ _, by simp [exOne, exConfig, LeafSpec.build]; rfl⟩,
      (build_iff.1 ⟨M, hM⟩).2.2⟩
  have hz := (build_WF (P := { exParams exLeaf with leaf := .normal (fun _ _ _ _ => 0) fun _ _ _ _ => 0 })
    ⟨(exParams_random exLeaf).1, (exParams_random exLeaf).2⟩ hM').1
  have hb : buildPwl (exOne "einsum" "top-down") (exParams exLeaf) 1 = .ok ⟨M', 1, none⟩ := by
    unfold buildPwl
    rw [hM', Res.ok_bind]
    simp [checkValid, checkType, checkBounds, checkBound, PyVal.scalar, Num.cast, truthy, Num.val]
  have s1 : M'.num_features = 5 := hz.features
  have s2 : M'.num_channels = 2 := hz.channels
  have s3 : M'.num_leaves = 4 := hz.leaves
  have s4 : M'.num_repetitions = 2 := hz.reps
  have s5 : M'.num_classes = 1 := hz.classes
  have hcov : Covers ⟨M', 1, none⟩ exPwlData domains (fun _ n => n) := by
    intro f hf r hr i hi
    have hf' : f < 5 := s1 ▸ hf
    have hi' : i < 4 := s3 ▸ hi
    have hm : domains.getD f .continuous ∈ domains := by
      rw [List.getD_eq_getElem _ _ (by omega)]; exact List.getElem_mem _
    rcases hd _ hm with e | e
    · rw [e]; exact ⟨i, hi', rfl⟩
    · rw [e]
      refine ⟨by simp, by simp, Or.inr fun c hc => ⟨_, ⟨i, hi', rfl, rfl⟩, ?_, ?_⟩⟩
      · simp [exPwlData]
      · simp only [exPwlData, List.getD_cons_zero, List.getD_cons_succ, List.getLastD]
        have : (((i + c) % 2 : ℕ) : ℝ) ≤ 1 := by exact_mod_cast Nat.lt_succ_iff.1 (Nat.mod_lt _ (by norm_num))
        norm_num at this ⊢
        linarith
  obtain ⟨E, hE, hn, -⟩ := C69_initialize ⟨M', 1, none⟩ exPwlData domains (fun _ n => n) 4 (by simp [exPwlData, s1, s2])
    (by simp [s1, hl]) (fun r hr n hn => by simp [s3, hn]) (fun r hr => ⟨3, by norm_num, by simp [s3]⟩) hcov
  exact ⟨_, E, hb, hE, hcov, s1, s2, s3, s4, s5, hn⟩

/-- continuous and discrete features: hypotheses of `C69_initialize`, `C69_density_partial`, `C69_refuted_mass`. -/
example : ∃ E0 E, buildPwl (exOne "einsum" "top-down") (exParams exLeaf) 1 = .ok E0 ∧ (exParams exLeaf).Random ∧
    E0.init exPwlData [.continuous, .discrete [0, 1], .continuous, .discrete [0, 1], .continuous] (fun _ n => n) = .ok E ∧
    Covers E0 exPwlData [.continuous, .discrete [0, 1], .continuous, .discrete [0, 1], .continuous] (fun _ n => n) ∧
    0 < E.net.num_classes ∧ E.net.Known (fun _ f => if f = 0 then .nan else .fin 3) := by
  obtain ⟨E0, E, h1, h2, h3, -, -, -, -, h4, h5⟩ :=
    exPwl [.continuous, .discrete [0, 1], .continuous, .discrete [0, 1], .continuous] rfl (by simp)
  refine ⟨E0, E, h1, exParams_random _, h2, h3, by rw [h5]; omega, fun c _ f _ => ?_⟩
  by_cases h : f = 0
  · exact Or.inl (if_pos h)
  · exact Or.inr ⟨3, if_neg h⟩

/-- rows with all entries positive exist, and values outside all components. -/
example : ∃ E0 E : PwlEinet, E0.init exPwlData (List.replicate 5 (.discrete [0, 1])) (fun _ n => n) = .ok E ∧
    0 < E.net.num_channels ∧ 0 < E.net.num_features ∧ 0 < E.net.num_leaves ∧ 0 < E.net.num_repetitions ∧
    Positive E (fun _ _ => .fin 1) ∧ Outside E 0 0 100 := by
  obtain ⟨E0, E, h1, h2, h3, s1, s2, s3, s4, -, h6⟩ := exPwl (List.replicate 5 (.discrete [0, 1])) rfl (by simp)
  obtain ⟨e1, e2, -, -, -, -, -, T, hT, -, -, -, hfit⟩ := PwlEinet.init_spec h2
  have ha : E0.alpha = 1 := (PwlEinet.buildPwl_spec (exParams_random _) h1).1
  have hinc : ([0, 1] : List ℝ).Pairwise (· < ·) := by simp
  have key : ∀ c, c < E.net.num_channels → ∀ f, f < E.net.num_features → ∀ i, i < E.net.num_leaves → ∀ r, r < E.net.num_repetitions →
      ∀ xs ys, T.fn c f i r = some (xs, ys) → xs = [-1, 0, 1, 2] ∧ 0 < interp 1 xs ys ∧ IsPLDensity xs ys (fun x => interp x xs ys) := by
    intro c hc f hf i hi r hr xs ys e
    rw [e1] at hc hf hi hr
    have h := hfit c hc f hf i hi r hr
    have hd : (List.replicate 5 (Domain.discrete [0, 1])).getD f .continuous = .discrete [0, 1] := by
      rw [List.getD_eq_getElem _ _ (by simp; omega), List.getElem_replicate]
    rw [hd, e, ha] at h
    obtain ⟨-, hx, -⟩ := plFit_discrete_smooth hinc h
    obtain ⟨xs', ys', g1, g2⟩ := covers_fit h3 hc hf hi hr
    rw [hd, ha, h] at g1
    simp only [Except.ok.injEq, Option.some.injEq, Prod.mk.injEq] at g1
    obtain ⟨rfl, rfl⟩ := g1
    exact ⟨by rw [hx]; norm_num, (PwlEinet.fit_pos hinc one_pos h).2 1 (by simp), g2⟩
  refine ⟨E0, E, h2, by rw [h6]; omega, by rw [h6]; omega, by rw [h6]; omega, by rw [h6]; omega, ?_, ?_⟩
  · rintro c hc f hf x e i hi r hr d ⟨T', xs, ys, h4, h5, h7⟩
    obtain rfl : x = 1 := by simpa using e.symm
    obtain rfl : T = T' := by rw [hT] at h4; exact Option.some.inj h4
    obtain ⟨rfl, k2, k3⟩ := key c hc f hf i hi r hr xs ys h5
    have a := h7.knots 2 (by simp)
    have b := k3.knots 2 (by simp)
    simp only [List.getD_cons_succ, List.getD_cons_zero] at a b
    rw [a, ← b]
    exact k2
  · rintro i hi r hr d ⟨T', xs, ys, h4, h5, h7⟩
    obtain rfl : T = T' := by rw [hT] at h4; exact Option.some.inj h4
    obtain ⟨rfl, -⟩ := key 0 (by rw [h6]; omega) 0 (by rw [h6]; omega) i hi r hr xs ys h5
    exact h7.outside _ (Or.inr (by norm_num))

/-- discrete features: hypotheses of `C69_discrete` and `C69_discrete_sample_partial`. -/
example : ∃ E0 E, buildPwl (exOne "einsum" "top-down") (exParams exLeaf) 1 = .ok E0 ∧ (exParams exLeaf).Random ∧
    E0.init exPwlData (List.replicate 5 (.discrete [0, 1])) (fun _ n => n) = .ok E ∧
    Covers E0 exPwlData (List.replicate 5 (.discrete [0, 1])) (fun _ n => n) ∧
    Counts E0 (List.replicate 5 (.discrete [0, 1])) (fun _ => [0, 1]) ∧ MirrorCfg (exOne "einsum" "top-down") ∧
    E.net.num_classes = 1 := by
  obtain ⟨E0, E, h1, h2, h3, h4, -, -, -, h5, h6⟩ := exPwl (List.replicate 5 (.discrete [0, 1])) rfl (by simp)
  refine ⟨E0, E, h1, exParams_random _, h2, h3, ⟨fun f hf => ?_, fun f _ => ⟨by simp, fun i hi => ?_⟩⟩, (exMirror _ _).2, by rw [h6]; exact h5⟩
  · rw [h4] at hf
    rw [List.getD_eq_getElem _ _ (by simpa using hf), List.getElem_replicate]
  · obtain rfl : i = 0 := by simp at hi; omega
    norm_num

/-- an empty cluster of a continuous feature: hypotheses of `C69_refuted_empty`. -/
example : ∃ E0 E : PwlEinet, E0.init exPwlData (List.replicate 5 .continuous) (fun _ _ => 3) = .ok E ∧ 1 < E.net.num_leaves ∧
    0 < E.net.num_repetitions ∧ 0 < E.net.num_channels ∧ 0 < E.net.num_features := by
  obtain ⟨E0, -, -, -, -, s1, s2, s3, s4, -, -⟩ := exPwl (List.replicate 5 .continuous) rfl (by simp)
  have hok : ∃ E, E0.init exPwlData (List.replicate 5 .continuous) (fun _ _ => 3) = .ok E := by
    unfold PwlEinet.init
    rw [require_true _ ⟨by simp [Tensor.rank, exPwlData], by simp [Tensor.size, exPwlData, at', s2]⟩, Res.ok_bind,
      require_true _ (by simp [Tensor.size, exPwlData, at', s1]), Res.ok_bind,
      require_true _ (fun r _ => Or.inl (by
        simp [Tensor.size, exPwlData, at', s3, PwlEinet.binLength, List.range_succ])), Res.ok_bind,
      require_true _ (by simp [s1]), Res.ok_bind]
    dsimp only
    rw [require_true _ (fun c hc f hf i hi r hr => ?_), Res.ok_bind]
    · exact ⟨_, rfl⟩
    · have hd : (List.replicate 5 Domain.continuous).getD f .continuous = .continuous := by
        rw [List.getD_eq_getElem _ _ (by simp; omega), List.getElem_replicate]
      rw [hd]
      by_cases h : PwlEinet.clusterData exPwlData (fun _ => 3) i c f = []
      · exact ⟨_, h ▸ C36_refuted_empty _⟩
      · obtain ⟨xs, ys, h, -⟩ := C36_continuous (alpha := E0.alpha) h
        exact ⟨_, h⟩
  obtain ⟨E, hE⟩ := hok
  have e := (PwlEinet.init_spec hE).1
  exact ⟨E0, E, hE, by rw [e]; omega, by rw [e]; omega, by rw [e]; omega, by rw [e]; omega⟩

end Props
end Einet
