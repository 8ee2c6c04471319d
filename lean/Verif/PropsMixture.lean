import Verif.MixtureLaw
import Verif.PropsConfig
import Verif.PropsMax

/-!
# Properties of mixtures: C28, C29, C30
-/

open Classical MeasureTheory
open scoped ENNReal
noncomputable section
namespace Einet
namespace Props
open Tensor Einet

/-! ### Specification -/

/-- a mixture after `Mixture(...)` and `initialize`: components built from one configuration, each with its own random
parameters; one centroid per component with one entry per channel and feature; the clustering answers with the number of one of
the centroids it was given. -/
structure IsMixture (c : Config) (P : Nat → Params) (X : Mixture) : Prop where
  random : ∀ k, (P k).Random
  good : ∀ k, (P k).leaf.Good
  built : ∃ n, Mixture.buildModels c P n = .ok X.models
  features : X.num_features = c.num_features.toNat
  centroids : X.centroids.length = X.models.length
  columns : ∀ l ∈ X.centroids, l.length = c.num_channels.toNat * c.num_features.toNat
  nearest : ∀ l cs, cs ≠ [] → X.nearest l cs < cs.length

/-- the columns on which rows are compared with the centroids: all without scopes, otherwise the numbers of the features that
do not occur in the list. -/
def keptCols (C F : Nat) : Option Scopes → List Nat
  | none => List.range (C * F)
  | some s => (List.range F).filter fun j => (j : ℤ) ∉ s.idx

/-- the component that the clustering selects for row `i`. -/
def clusterOf (X : Mixture) (C F : Nat) (ms : Option Scopes) (x : Tensor Fl) (i : Nat) : Nat :=
  X.nearest ((keptCols C F ms).map fun j => x.get [i, j / F, j % F])
    (X.centroids.map fun l => (keptCols C F ms).map fun j => l.getD j .nan)

/-- `x[i:i+1]`. -/
def oneRow (C F : Nat) (x : Tensor Fl) (i : Nat) : Tensor Fl := ⟨[1, C, F], fun j => x.get (i :: j.tail)⟩

/-! ### From the specification to the lemmas -/

theorem mapM_getElem? {α : Type} {f : Nat → Res α} {n : Nat} {l : List α} (h : (List.range n).mapM f = .ok l) :
    l.length = n ∧ ∀ k M, l[k]? = some M → f k = .ok M := by
  have : ∀ (is : List Nat) (l : List α), is.mapM f = .ok l → List.Forall₂ (fun i a => f i = .ok a) is l := by
    intro is
    induction is with
    | nil => rintro l ⟨⟩; exact .nil
    | cons i is ih =>
      intro l h
      rw [List.mapM_cons] at h
      obtain ⟨b, hb, h⟩ := bind_ok h
      obtain ⟨bs, hbs, h⟩ := bind_ok h
      simp only [Res.pure_eq, Except.ok.injEq] at h
      subst h
      exact .cons hb (ih _ hbs)
  have h2 := this _ _ h
  have hl : l.length = n := by rw [← h2.length_eq, List.length_range]
  refine ⟨hl, fun k M hM => ?_⟩
  obtain ⟨hk, e⟩ := List.getElem?_eq_some_iff.1 hM
  have := (List.forall₂_iff_get.1 h2).2 k (by rw [List.length_range]; omega) hk
  simp only [List.get_eq_getElem, List.getElem_range] at this
  rw [this, e]

theorem IsMixture.pos {c : Config} {P : Nat → Params} {X : Mixture} (h : IsMixture c P X) : 0 < X.models.length := by
  obtain ⟨n, hn⟩ := h.built
  unfold Mixture.buildModels at hn
  obtain ⟨h1, h2⟩ := (checkInt_iff n 1 one_ne_zero _ _).1 hn
  rw [(mapM_getElem? h2).1]
  omega

theorem IsMixture.model {c : Config} {P : Nat → Params} {X : Mixture} (h : IsMixture c P X) {k : Nat} {M : Model}
    (hM : X.models[k]? = some M) : build c (P k) = .ok M := by
  obtain ⟨n, hn⟩ := h.built
  unfold Mixture.buildModels at hn
  obtain ⟨h1, h2⟩ := (checkInt_iff n 1 one_ne_zero _ _).1 hn
  exact (mapM_getElem? h2).2 k M hM

theorem IsMixture.sizes {c : Config} {P : Nat → Params} {X : Mixture} (h : IsMixture c P X) {k : Nat} {M : Model}
    (hM : X.models[k]? = some M) : M.num_channels = c.num_channels.toNat ∧ M.num_features = c.num_features.toNat ∧
      M.num_classes = c.num_classes.toNat := by
  have := (build_WF (h.random k) (h.model hM)).1
  exact ⟨this.channels, this.features, this.classes⟩

theorem IsMixture.cluster_lt {c : Config} {P : Nat → Params} {X : Mixture} (h : IsMixture c P X) (C F : Nat)
    (ms : Option Scopes) (x : Tensor Fl) (i : Nat) : ∃ M, X.models[clusterOf X C F ms x i]? = some M := by
  have hp := h.pos
  have hc := h.centroids
  have : clusterOf X C F ms x i < X.models.length := by
    have h2 := h.nearest ((keptCols C F ms).map fun j => x.get [i, j / F, j % F])
      (X.centroids.map fun l => (keptCols C F ms).map fun j => l.getD j .nan) (fun e => by
        have := congrArg List.length e
        simp at this
        rw [this] at hc
        simp at hc
        omega)
    rw [List.length_map, hc] at h2
    exact h2
  exact ⟨_, List.getElem?_eq_getElem this⟩

/-- `_predict_cluster` computes `clusterOf` for each row. -/
theorem IsMixture.predict {c : Config} {P : Nat → Params} {X : Mixture} (h : IsMixture c P X) {N : Nat} (hN : 0 < N)
    {x : Tensor Fl} (hx : x.shape = [N, c.num_channels.toNat, c.num_features.toNat]) (hC : 0 < c.num_channels.toNat)
    (ms : Option Scopes) :
    X.predictCluster x ms = .ok ((List.range N).map (clusterOf X c.num_channels.toNat c.num_features.toNat ms x)) := by
  set C := c.num_channels.toNat with hCdef
  set F := c.num_features.toNat with hFdef
  have hsz : x.size 0 = N := by simp [size, hx, at']
  have hnum : numelS x.shape.tail = C * F := by simp [hx, numelS]
  have hrow : ∀ n, flatRow x n = (List.range (C * F)).map fun j => x.get [n, j / F, j % F] := by
    intro n
    unfold flatRow
    rw [hnum]
    refine List.map_congr_left fun j hj => ?_
    have hj : j < C * F := by simpa using hj
    have hF : 0 < F := by
      rcases Nat.eq_zero_or_pos F with e | e
      · rw [e] at hj; simp at hj
      · exact e
    have h1 : j / F < C := Nat.div_lt_of_lt_mul (by rwa [mul_comm])
    have e : unflat [C, F] j = [j / F, j % F] := by
      refine unflat_eq (by simp [h1, Nat.mod_lt _ hF]) ?_
      simp only [flat, numelS, mul_one, add_zero]
      exact Nat.div_add_mod' j F
    rw [hx]
    show x.get (n :: unflat [C, F] j) = _
    rw [e]
  unfold Mixture.predictCluster
  rw [require_true _ (by rw [hsz]; simp [rank, hx, hN]), Res.ok_bind]
  cases ms with
  | none =>
    dsimp only
    rw [require_true _ (by rw [hnum]; exact h.columns), hsz]
    refine congrArg Except.ok (List.map_congr_left fun n _ => ?_)
    rw [hrow]
    unfold clusterOf keptCols
    dsimp only
    congr 1
    conv_lhs => rw [← List.map_id X.centroids]
    refine List.map_congr_left fun l hl => ?_
    have := h.columns l hl
    exact List.ext_getElem (by simp [this, hCdef, hFdef]) fun j h1 h2 => by simpa using (by simp [show j < l.length from h1])
  | some s =>
    have hk : X.keepIdx s = keptCols C F (some s) := by
      unfold Mixture.keepIdx keptCols
      rw [h.features]
    have hlt : ∀ i ∈ keptCols C F (some s), i < F := fun i hi => by
      unfold keptCols at hi
      simpa using List.mem_of_mem_filter hi
    have hle : F ≤ C * F := Nat.le_mul_of_pos_left F hC
    dsimp only
    rw [require_true _ (by
      rw [hk, hnum]
      intro i hi
      have := hlt i hi
      refine ⟨by omega, fun l hl => ?_⟩
      rw [h.columns l hl]
      show i < C * F
      omega), hsz]
    refine congrArg Except.ok (List.map_congr_left fun n _ => ?_)
    rw [hrow, hk]
    unfold clusterOf pickCols
    congr 1
    refine List.map_congr_left fun j hj => ?_
    have hjl : j < C * F := lt_of_lt_of_le (hlt j hj) hle
    simp [List.getD, hjl]

theorem IsMixture.channels_pos {c : Config} {P : Nat → Params} {X : Mixture} (h : IsMixture c P X) :
    0 < c.num_channels.toNat := by
  have hv := build_valid (h.model (List.getElem?_eq_getElem h.pos))
  obtain ⟨_, v2, _⟩ := (assertValid_iff c).1 hv
  omega

theorem IsMixture.forward_rows {c : Config} {P : Nat → Params} {X : Mixture} (hX : IsMixture c P X) {N : Nat} (hN : 0 < N)
    {x : Tensor Fl} (hx : ∀ k, Batch (P k).leaf N c.num_channels.toNat c.num_features.toNat x) (ms : Option Scopes) :
    ∃ y, X.forward x ms = .ok y ∧ y.shape = [N, c.num_classes.toNat] ∧ ∀ i, i < N → ∃ M,
      X.models[clusterOf X c.num_channels.toNat c.num_features.toNat ms x i]? = some M ∧
      ∀ q, q < c.num_classes.toNat → y.get [i, q] = M.outRow none (fun c f => x.get [i, c, f]) q := by
  have hks := hX.predict hN (hx 0).1 hX.channels_pos ms
  have hk : ∀ i, i < N → ((List.range N).map (clusterOf X c.num_channels.toNat c.num_features.toNat ms x)).getD i 0 =
      clusterOf X c.num_channels.toNat c.num_features.toNat ms x i := fun i hi => by simp [hi]
  obtain ⟨y, hy, h1, h2⟩ := Mixture.forward_rows (R := fun M d q => M.outRow none d q)
    (V := fun k d => (P k).leaf.Data c.num_channels.toNat c.num_features.toNat d) (K := c.num_classes.toNat) hN (hx 0).1 hks
    (by simp) (fun i hi => hX.cluster_lt _ _ _ _ _ |>.elim fun M hM => ⟨M, by rw [hk i hi, hM]⟩)
    (fun i hi => (hx _).2 i hi) fun k M hM m d hd hV => by
      obtain ⟨e1, e2, e3⟩ := hX.sizes hM
      have := build_forward (hX.random k) (hX.good k) (hX.model hM) (N := m) (x := d) (ms := none) (sc := none)
        ⟨by rw [e1, e2]; exact hd, by rw [e1, e2]; exact hV⟩ rfl
      rwa [e3] at this
  refine ⟨y, hy, h1, fun i hi => ?_⟩
  obtain ⟨M, hM, h⟩ := h2 i hi
  rw [hk i hi] at hM
  exact ⟨M, hM, h⟩

theorem oneRow_batch {s : LeafSpec} {N C F : Nat} {x : Tensor Fl} (hx : Batch s N C F x) {i : Nat} (hi : i < N) :
    Batch s 1 C F (oneRow C F x i) := ⟨rfl, fun _ _ => hx.2 i hi⟩

/-! ### C28 -/

/-- **C28**: `Mixture.forward` returns for every non-empty batch, with one row of class values per row, and row `i` is the
result of the component that the clustering selects for row `i`, called with row `i` alone.  The number and order of the rows,
and their distribution over the components, are arbitrary. -/
theorem C28_forward (c : Config) (P : Nat → Params) (X : Mixture) (hX : IsMixture c P X) (N : Nat) (hN : 0 < N) (x : Tensor Fl)
    (hx : ∀ k, Batch (P k).leaf N c.num_channels.toNat c.num_features.toNat x) :
    ∃ y, X.forward x = .ok y ∧ y.shape = [N, c.num_classes.toNat] ∧ ∀ i, i < N → ∃ M z,
      X.models[clusterOf X c.num_channels.toNat c.num_features.toNat none x i]? = some M ∧
      M.forward (oneRow c.num_channels.toNat c.num_features.toNat x i) = .ok z ∧
      ∀ k, k < c.num_classes.toNat → y.get [i, k] = z.get [0, k] := by
  obtain ⟨y, hy, h1, h2⟩ := hX.forward_rows hN hx none
  refine ⟨y, hy, h1, fun i hi => ?_⟩
  obtain ⟨M, hM, h⟩ := h2 i hi
  obtain ⟨e1, e2, e3⟩ := hX.sizes hM
  obtain ⟨z, hz, _, hz2⟩ := build_forward (hX.random _) (hX.good _) (hX.model hM) (N := 1) (ms := none) (sc := none)
    (by rw [e1, e2]; exact oneRow_batch (hx _) hi) rfl
  refine ⟨M, z, hM, hz, fun k hk => ?_⟩
  rw [h k hk, hz2 0 one_pos k (by rw [e3]; exact hk)]
  rfl

/-! ### Examples -/

/-- a mixture given by a list of components. -/
theorem isMixture_of {c : Config} {P : Nat → Params} {n : Nat} (hn : 0 < n) {M : Nat → Model}
    (hb : ∀ k, k < n → build c (P k) = .ok (M k)) (hP : ∀ k, (P k).Random) (hg : ∀ k, (P k).leaf.Good) (w : List Fl)
    {cs : List (List Fl)} (hcs : cs.length = n) (hcol : ∀ l ∈ cs, l.length = c.num_channels.toNat * c.num_features.toNat)
    {near : List Fl → List (List Fl) → Nat} (hnear : ∀ l cs, cs ≠ [] → near l cs < cs.length) :
    IsMixture c P ⟨(List.range n).map M, c.num_features.toNat, w, cs, near⟩ := by
  refine ⟨hP, hg, ⟨n, ?_⟩, rfl, by simp [hcs], hcol, hnear⟩
  unfold Mixture.buildModels
  refine (checkInt_iff n 1 one_ne_zero _ _).2 ⟨by exact_mod_cast hn, ?_⟩
  rw [Int.toNat_natCast]
  have : ∀ is : List Nat, (∀ k ∈ is, k < n) → is.mapM (fun k => build c (P k)) = .ok (is.map M) := by
    intro is
    induction is with
    | nil => intro _; rfl
    | cons i is ih =>
      intro h
      rw [List.mapM_cons, hb i (h i (by simp)), ih fun k hk => h k (by simp [hk])]
      rfl
  exact this _ fun k hk => by simpa using hk

/-- a clustering: the last centroid for rows starting with a zero, otherwise the first one. -/
def exNear (l : List Fl) (cs : List (List Fl)) : Nat := if l.head? = some (.fin 0) then cs.length - 1 else 0

theorem exNear_lt (l : List Fl) (cs : List (List Fl)) (h : cs ≠ []) : exNear l cs < cs.length := by
  have : 0 < cs.length := List.length_pos_iff.2 h
  unfold exNear
  split_ifs <;> omega

/-- three components with two channels and five features. -/
theorem exMixture (l s : String) (hls : (l = "linsum" ∨ l = "linsum2" ∨ l = "einsum") ∧ s = "top-down" ∨
    l = "linsum" ∧ s = "bottom-up") : ∃ X, IsMixture (exConfig l s) (fun _ => exParams exLeaf) X ∧ X.models.length = 3 ∧
      X.nearest = exNear := by
  obtain ⟨M, h⟩ := exConfig_normal hls
  exact ⟨_, isMixture_of (n := 3) (by norm_num) (M := fun _ => M) (fun _ _ => h) (fun _ => exParams_random _)
    (fun _ => (exLeaf_good _ rfl).1) [] (cs := List.replicate 3 (List.replicate 10 (.fin 1))) (by simp)
    (by simp [exConfig]) exNear_lt, by simp, rfl⟩

/-- the hypotheses of `C28_forward` are met, with rows sent to different components. -/
example : ∃ X, IsMixture (exConfig "einsum" "top-down") (fun _ => exParams exLeaf) X ∧
    (∀ _ : Nat, Batch (exParams exLeaf).leaf 3 (exConfig "einsum" "top-down").num_channels.toNat
      (exConfig "einsum" "top-down").num_features.toNat exBatch) ∧
    clusterOf X 2 5 none exBatch 0 = 2 ∧ clusterOf X 2 5 none exBatch 1 = 0 := by
  obtain ⟨X, h, h3, e⟩ := exMixture "einsum" "top-down" (Or.inl ⟨Or.inr (Or.inr rfl), rfl⟩)
  have := h.centroids
  refine ⟨X, h, fun _ => exBatch_batch, ?_, ?_⟩
  · unfold clusterOf
    rw [e]
    simp [exNear, keptCols, exBatch, at', this, h3, List.range_succ]
  · unfold clusterOf
    rw [e]
    simp [exNear, keptCols, exBatch, at', List.range_succ]

/-- weights of the single sum layer of component `k` of the two-component witness: uniform, and (1/3, 2/3). -/
def wMixW (k : Nat) : Nat → List Nat → ℝ := fun _ i => if k = 1 ∧ i = [0, 1, 0, 0] then Real.log 2 else 0

/-- parameters of the components of the witness. -/
def wMixP (k : Nat) : Params := wParams (wMixW k) fun _ => 0

theorem wMix_exists (n : Nat) (hn : 0 < n) (w : List Fl) : ∃ M : Nat → Model, (∀ k, Wit 2 1 0 (wMixW k) (fun _ => 0) (M k)) ∧
    IsMixture (wConfig 2 1 0) wMixP ⟨(List.range n).map M, 2, w, List.replicate n [.fin 1, .fin 1], exNear⟩ := by
  have h : ∀ k, ∃ M, Wit 2 1 0 (wMixW k) (fun _ => 0) M := fun k =>
    wit_exists (F := 2) (K := 1) (d := 0) (by norm_num) (by norm_num) (by norm_num) (by norm_num) _ _
  choose M hM using h
  exact ⟨M, hM, isMixture_of (c := wConfig 2 1 0) (P := wMixP) hn (fun k _ => (hM k).build) (fun k => wParams_random _ _)
    (fun k => wLeaf_good.1) w (by simp) (by intro l hl; rw [List.eq_of_mem_replicate hl]; simp [wConfig]) exNear_lt⟩

/-! ### C29 -/

/-- **C29** (part): the component selected for a row does not depend on the entries of the features listed by number.
Missing: the component itself is evaluated on the row without the scopes (`C29_scopes_ignored`), so the result depends on
them (`C29_refuted`); a negative number does not exclude its feature from the clustering. -/
theorem C29_cluster_partial (X : Mixture) (C F : Nat) (s : Scopes) (x x' : Tensor Fl) (i : Nat)
    (h : ∀ f, f < F → (f : ℤ) ∉ s.idx → ∀ d, x.get [i, d, f] = x'.get [i, d, f]) :
    clusterOf X C F (some s) x i = clusterOf X C F (some s) x' i := by
  unfold clusterOf
  congr 1
  refine List.map_congr_left fun j hj => ?_
  have h1 : j ∈ List.range F := List.mem_of_mem_filter hj
  have h2 : (j : ℤ) ∉ s.idx := by simpa using List.of_mem_filter hj
  have h3 : j < F := by simpa using h1
  rw [Nat.mod_eq_of_lt h3]
  exact h j h3 h2 _

/-- what `Mixture.forward` with scopes returns: row `i` is the result of a component called **without** the scopes, the
component being the one selected for row `i` on the remaining features. -/
theorem C29_scopes_ignored (c : Config) (P : Nat → Params) (X : Mixture) (hX : IsMixture c P X) (N : Nat) (hN : 0 < N)
    (x : Tensor Fl) (hx : ∀ k, Batch (P k).leaf N c.num_channels.toNat c.num_features.toNat x) (ms : Option Scopes) :
    ∃ y, X.forward x ms = .ok y ∧ y.shape = [N, c.num_classes.toNat] ∧ ∀ i, i < N → ∃ M z,
      X.models[clusterOf X c.num_channels.toNat c.num_features.toNat ms x i]? = some M ∧
      M.forward (oneRow c.num_channels.toNat c.num_features.toNat x i) none = .ok z ∧
      ∀ k, k < c.num_classes.toNat → y.get [i, k] = z.get [0, k] := by
  obtain ⟨y, hy, h1, h2⟩ := hX.forward_rows hN hx ms
  refine ⟨y, hy, h1, fun i hi => ?_⟩
  obtain ⟨M, hM, h⟩ := h2 i hi
  obtain ⟨e1, e2, e3⟩ := hX.sizes hM
  obtain ⟨z, hz, _, hz2⟩ := build_forward (hX.random _) (hX.good _) (hX.model hM) (N := 1) (ms := none) (sc := none)
    (by rw [e1, e2]; exact oneRow_batch (hx _) hi) rfl
  refine ⟨M, z, hM, hz, fun k hk => ?_⟩
  rw [h k hk, hz2 0 one_pos k (by rw [e3]; exact hk)]
  rfl

/-- the two features of the witness as one row. -/
def wRow (a b : ℝ) : Tensor Fl := ⟨[1, 1, 2], fun i => if at' 2 i = 0 then .fin a else .fin b⟩

theorem wRow_batch {a b : ℝ} (ha : a = 0 ∨ a = 1) (hb : b = 0 ∨ b = 1) (k : Nat) :
    Batch (wMixP k).leaf 1 (wConfig 2 1 0).num_channels.toNat (wConfig 2 1 0).num_features.toNat (wRow a b) := by
  refine ⟨rfl, fun n _ d _ f _ => Or.inr ?_⟩
  by_cases hf : f = 0
  · refine ⟨a, by simp [wRow, at', hf], ?_⟩
    rcases ha with rfl | rfl
    · exact ⟨0, by norm_num, by simp⟩
    · exact ⟨1, by norm_num, by simp⟩
  · refine ⟨b, by simp [wRow, at', hf], ?_⟩
    rcases hb with rfl | rfl
    · exact ⟨0, by norm_num, by simp⟩
    · exact ⟨1, by norm_num, by simp⟩

/-- the value of a component of the witness on a row. -/
theorem wRow_out {k : Nat} {M : Model} (h : Wit 2 1 0 (wMixW k) (fun _ => 0) M) {a b : ℝ} (ha : a = 0 ∨ a = 1)
    (hb : b = 0 ∨ b = 1) : toP (M.outRow none (fun c f => (wRow a b).get [0, c, f]) 0) = ENNReal.ofReal
      ((Wit0.val (.fin a) 0 * Wit0.val (.fin b) 0 + (if k = 1 then 2 else 1) * (Wit0.val (.fin a) 1 * Wit0.val (.fin b) 1)) /
        (if k = 1 then 3 else 2)) := by
  have hobs := (wRow_batch ha hb k).2 0 one_pos
  obtain ⟨-, hw, hp, _⟩ := build_WF (wParams_random _ _) h.build
  rw [← Model.density_eq hw (hp wLeaf_good.1) ((build_observed (wParams_random _ _) h.build).2 (by
      rw [h.channels, h.features]; exact hobs)) (ms := none) rfl (by rw [h.classes]; exact one_pos),
    Wit0.density h (fun f hf => Or.inr (by
      interval_cases f
      · rcases ha with rfl | rfl <;> simp [wRow, at']
      · rcases hb with rfl | rfl <;> simp [wRow, at'])) one_pos]
  congr 1
  by_cases hk : k = 1
  · simp [hk, wMixW, wRow, at', Real.exp_log]
    norm_num
  · simp [hk, wMixW, wRow, at']
    norm_num

/-- **C29 is false**: for some mixture, two inputs that differ only in the marginalised feature give different results
(densities 13/72 and 17/72).  The scopes are used for the clustering but not passed to the components. -/
theorem C29_refuted : ∃ (c : Config) (P : Nat → Params) (X : Mixture) (x x' y y' : Tensor Fl), IsMixture c P X ∧
    (∀ k, Batch (P k).leaf 1 c.num_channels.toNat c.num_features.toNat x) ∧
    (∀ k, Batch (P k).leaf 1 c.num_channels.toNat c.num_features.toNat x') ∧
    c.num_channels = 1 ∧ c.num_features = 2 ∧ x.get [0, 0, 0] = x'.get [0, 0, 0] ∧
    X.forward x (some ⟨true, [1]⟩) = .ok y ∧ X.forward x' (some ⟨true, [1]⟩) = .ok y' ∧
    toP (y.get [0, 0]) = ENNReal.ofReal (13 / 72) ∧ toP (y'.get [0, 0]) = ENNReal.ofReal (17 / 72) := by
  obtain ⟨M, hM, hX⟩ := wMix_exists 1 one_pos []
  obtain ⟨y, hy, -, h1⟩ := hX.forward_rows one_pos (wRow_batch (a := 0) (b := 0) (Or.inl rfl) (Or.inl rfl)) (some ⟨true, [1]⟩)
  obtain ⟨y', hy', -, h1'⟩ := hX.forward_rows one_pos (wRow_batch (a := 0) (b := 1) (Or.inl rfl) (Or.inr rfl)) (some ⟨true, [1]⟩)
  refine ⟨_, _, _, _, _, y, y', hX, wRow_batch (a := 0) (b := 0) (Or.inl rfl) (Or.inl rfl),
    wRow_batch (a := 0) (b := 1) (Or.inl rfl) (Or.inr rfl), rfl, rfl, by simp [wRow, at'], hy, hy', ?_, ?_⟩
  · obtain ⟨M', hM', h2⟩ := h1 0 one_pos
    obtain ⟨hk, e⟩ := List.getElem?_eq_some_iff.1 hM'
    simp only [List.getElem_map, List.getElem_range] at e
    rw [h2 0 (by simp [wConfig]), ← e]
    simp only [List.length_map, List.length_range, Nat.lt_one_iff] at hk
    rw [wRow_out (hM _) (Or.inl rfl) (Or.inl rfl), hk]
    congr 1
    simp [Wit0.val, wProb]
    norm_num
  · obtain ⟨M', hM', h2⟩ := h1' 0 one_pos
    obtain ⟨hk, e⟩ := List.getElem?_eq_some_iff.1 hM'
    simp only [List.getElem_map, List.getElem_range] at e
    rw [h2 0 (by simp [wConfig]), ← e]
    simp only [List.length_map, List.length_range, Nat.lt_one_iff] at hk
    rw [wRow_out (hM _) (Or.inl rfl) (Or.inr rfl), hk]
    congr 1
    simp [Wit0.val, wProb]
    norm_num

/-! ### C30 -/

/-- the mixture weights are the real numbers `w`, none negative and not all zero, at most one per component. -/
structure Weights (X : Mixture) (w : List ℝ) : Prop where
  eq : X.mixture_weights = w.map Fl.fin
  nonneg : ∀ r ∈ w, 0 ≤ r
  pos : 0 < w.sum
  le : w.length ≤ X.models.length

/-- probability of component `k`. -/
def weight (w : List ℝ) (k : Nat) : ℝ≥0∞ := ENNReal.ofReal (w.getD k 0 / w.sum)

/-- the law of one row of component `k`: density `exp(model(x))`. -/
def compLaw (P : Nat → Params) (X : Mixture) (k : Nat) : Measure (Nat → Nat → ℝ) :=
  (X.models[k]?).elim 0 fun M => (rowLaw M (P k).leaf.ref 0).map (extRow M.num_channels M.num_features)

/-- the conditional law of a row under component `k` given the entries of `Y` that are not NaN. -/
def compLawGiven (P : Nat → Params) (X : Mixture) (k : Nat) (Y : Data) : Measure (Nat → Nat → ℝ) :=
  (X.models[k]?).elim 0 fun M => (rowLawGiven M (P k).leaf.ref 0 Y).map (extRow M.num_channels M.num_features)

/-- the probability that row `i` of the result lies in `A i` for all of its `n` rows, for a result of `C` channels and `F`
features. -/
def probRows (C F n : Nat) (x : Rand (Tensor Fl)) (A : Nat → Set (Nat → Nat → ℝ)) : ℝ≥0∞ :=
  x.E fun y => if ∀ i, i < n → (fun c f => if c < C ∧ f < F then (y.get [i, c, f]).val else 0) ∈ A i then 1 else 0

/-- all rows are present and they are independent, row `i` with law `ν i`. -/
structure IndepRows (C F n : Nat) (x : Rand (Tensor Fl)) (ν : Nat → Measure (Nat → Nat → ℝ)) : Prop where
  shape : x.All fun y => y.shape = [n, C, F]
  law : ∀ A : Nat → Set (Nat → Nat → ℝ), (∀ i, MeasurableSet (A i)) →
    probRows C F n x A = ∏ i ∈ Finset.range n, ν i (A i)

theorem probRows_eq (C F n : Nat) (x : Rand (Tensor Fl)) (A : Nat → Set (Nat → Nat → ℝ)) :
    x.E (fun t => ∏ i ∈ Finset.range n, rowIn C F (A i) (t.row i)) = probRows C F n x A := by
  unfold probRows
  congr 1
  funext t
  unfold rowIn
  by_cases h : ∀ i, i < n → (fun c f => if c < C ∧ f < F then (t.get [i, c, f]).val else 0) ∈ A i
  · rw [if_pos h]
    exact Finset.prod_eq_one fun i hi => if_pos (h i (by simpa using hi))
  · rw [if_neg h]
    push Not at h
    obtain ⟨i, hi, h⟩ := h
    exact Finset.prod_eq_zero (Finset.mem_range.2 hi) (if_neg h)

theorem rowLaw_iff {C F n : Nat} {x : Rand (Tensor Fl)} {ν : Nat → Measure (Nat → Nat → ℝ)} :
    Mixture.RowLaw C F x n ν ↔ IndepRows C F n x ν := by
  constructor
  · exact fun h => ⟨h.shape, fun A hA => by rw [← probRows_eq]; exact h.law A hA⟩
  · exact fun h => ⟨h.shape, fun A hA => by rw [probRows_eq]; exact h.law A hA⟩

theorem Weights.ok {X : Mixture} {w : List ℝ} (h : Weights X w) : X.weightsOK := by
  constructor
  · intro v hv
    rw [h.eq] at hv
    obtain ⟨r, hr, rfl⟩ := List.mem_map.1 hv
    exact ⟨r, rfl, h.nonneg r hr⟩
  · by_contra hc
    push Not at hc
    have : ∀ r ∈ w, r = 0 := fun r hr => by
      have := hc (.fin r) (by rw [h.eq]; exact List.mem_map.2 ⟨r, hr, rfl⟩)
      simpa using this
    have h0 : w.sum = 0 := by
      rw [List.eq_replicate_of_mem this]
      simp
    exact absurd h.pos (by rw [h0]; exact lt_irrefl _)

theorem sum_getD (w : List ℝ) : ∑ k ∈ Finset.range w.length, w.getD k 0 = w.sum := by
  induction w with
  | nil => simp
  | cons a w ih =>
    rw [List.length_cons, Finset.sum_range_succ', List.sum_cons, add_comm, ← ih]
    simp

theorem Weights.draw {X : Mixture} {w : List ℝ} (h : Weights X w) {k : Nat} (hk : k < w.length) :
    toP (Fl.logSoftmax X.mixture_weights.length X.logWeight k) = weight w k := by
  have hl : X.mixture_weights.length = w.length := by rw [h.eq, List.length_map]
  have hw : ∀ j, j < w.length → X.mixture_weights.getD j .nan = .fin (w.getD j 0) ∧ 0 ≤ w.getD j 0 := by
    intro j hj
    refine ⟨by simp [h.eq, List.getD, hj], ?_⟩
    have := h.nonneg w[j] (List.getElem_mem hj)
    simpa [List.getD, hj] using this
  have hlog : ∀ j, j < w.length → toP (X.logWeight j) = ENNReal.ofReal (w.getD j 0) ∧ NN (X.logWeight j) := by
    intro j hj
    unfold Mixture.logWeight
    rw [(hw j hj).1]
    exact toP_log (hw j hj).2
  have hs : ∑ j ∈ Finset.range w.length, toP (X.logWeight j) = ENNReal.ofReal w.sum := by
    rw [← sum_getD, ENNReal.ofReal_sum_of_nonneg fun j hj => (hw j (by simpa using hj)).2]
    exact Finset.sum_congr rfl fun j hj => (hlog j (by simpa using hj)).1
  rw [hl, (toP_logSoftmax (fun j hj => (hlog j hj).2) (by rw [hs]; simpa using h.pos) hk).1, hs, (hlog k hk).1]
  unfold weight
  rw [ENNReal.ofReal_div_of_pos h.pos]

theorem Weights.exists_pos {X : Mixture} {w : List ℝ} (h : Weights X w) :
    ∃ j, j < X.mixture_weights.length ∧ toP (Fl.logSoftmax X.mixture_weights.length X.logWeight j) ≠ 0 := by
  have hl : X.mixture_weights.length = w.length := by rw [h.eq, List.length_map]
  by_contra hc
  push Not at hc
  have : ∀ r ∈ w, r = 0 := by
    intro r hr
    obtain ⟨j, hj, rfl⟩ := List.getElem_of_mem hr
    have h1 := hc j (by omega)
    rw [h.draw hj] at h1
    unfold weight at h1
    rw [ENNReal.ofReal_eq_zero, show w.getD j 0 = w[j] by simp [hj]] at h1
    have h2 := h.nonneg _ (List.getElem_mem hj)
    by_contra hne
    have : 0 < w[j] / w.sum := div_pos (lt_of_le_of_ne h2 (Ne.symm hne)) h.pos
    linarith
  have h0 : w.sum = 0 := by rw [List.eq_replicate_of_mem this]; simp
  exact absurd h.pos (by rw [h0]; exact lt_irrefl _)

theorem IsMixture.compLaw_eq {c : Config} {P : Nat → Params} {X : Mixture} (hX : IsMixture c P X)
    (hs : ∀ k, (P k).leaf.CanSample) (hmir : MirrorCfg c) (hK : c.num_classes = 1) {k : Nat} {M : Model}
    (hM : X.models[k]? = some M) {m : Nat} (hm : 0 < m) :
    Mixture.RowLaw c.num_channels.toNat c.num_features.toNat (M.sample { num_samples := some m }) m fun _ => compLaw P X k := by
  obtain ⟨e1, e2, e3⟩ := hX.sizes hM
  have hK1 : M.num_classes = 1 := by rw [e3, hK]; rfl
  have hp := (C13_rowLaw_prob c (P k) (hX.random k) (hX.good k) M (hX.model hM) 0 (by omega)).1
  have hshape := C24_sample_total_partial c (P k) (hX.random k) (hX.good k) (hs k) M (hX.model hM)
    { num_samples := some m } rfl hm one_ne_zero trivial
  have := Mixture.RowLaw.of_pi (C := M.num_channels) (F := M.num_features) (m := m) (x := M.sample { num_samples := some m })
    (μ := fun _ => rowLaw M (P k).leaf.ref 0) (hshape.mono fun t ht => by rw [e1, e2]; exact ht.1)
    (fun φ hφ => C13_sample_law_partial c (P k) (hX.random k) (hX.good k) (hs k) M (hX.model hM) hmir hK1 m hm φ hφ)
    (ν := fun _ => compLaw P X k) (fun n => by unfold compLaw; rw [hM]; rfl)
  rwa [e1, e2] at this

theorem IsMixture.compLaw_finite {c : Config} {P : Nat → Params} {X : Mixture} (hX : IsMixture c P X)
    (hK : c.num_classes = 1) (k : Nat) : IsFiniteMeasure (compLaw P X k) := by
  unfold compLaw
  cases hM : X.models[k]? with
  | none => show IsFiniteMeasure 0; infer_instance
  | some M =>
    have e3 := (hX.sizes hM).2.2
    have hp := (C13_rowLaw_prob c (P k) (hX.random k) (hX.good k) M (hX.model hM) 0 (by rw [e3, hK]; norm_num)).1
    show IsFiniteMeasure (Measure.map _ _)
    infer_instance

/-- `sample` without evidence and without MPE: draw components, then sample them. -/
theorem sample_draws {X : Mixture} {a : MixArgs} {w : List ℝ} (hw : Weights X w) (hev : a.evidence = none)
    (hmpe : a.is_mpe = false) {n : Nat} (hn : a.num_samples = some n) (hpc : a.num_samples_per_cluster = none) :
    X.sample a = (Rand.drawList X.mixture_weights.length X.logWeight n).bind fun ks => X.sampleFree a ks := by
  unfold Mixture.sample Mixture.drawClusters
  rw [hpc, hmpe, hev]
  dsimp only
  rw [require_true _ (show a.num_samples.isNone = true ∨ (none : Option Nat).isNone = true from Or.inr rfl),
    require_true _ hw.ok, if_neg (by simp)]
  unfold Mixture.count
  rw [hev, hn]
  rfl

/-- **C30** (part), outcomes: `sample(num_samples=n)` returns `n` rows in every random outcome, for every configuration and all
temperatures. -/
theorem C30_number_partial (c : Config) (P : Nat → Params) (X : Mixture) (hX : IsMixture c P X)
    (hs : ∀ k, (P k).leaf.CanSample) (w : List ℝ) (hw : Weights X w) (a : MixArgs) (hev : a.evidence = none)
    (hmpe : a.is_mpe = false) (n : Nat) (hn : 0 < n) (hns : a.num_samples = some n) (hpc : a.num_samples_per_cluster = none)
    (hT : a.temperature_sums ≠ 0)
    (hc : ∀ l, a.class_index = some l → 1 < c.num_classes ∧ ∃ k, l = .int k ∧ k < c.num_classes.toNat) :
    (X.sample a).All fun y => y.shape = [n, c.num_channels.toNat, c.num_features.toNat] := by
  rw [sample_draws hw hev hmpe hns hpc]
  refine (Rand.All_drawList hw.exists_pos n).bind fun ks ⟨h1, h2⟩ => ?_
  have := Mixture.sampleFree_All (X := X) (a := a) (ks := ks) (C := c.num_channels.toNat) (F := c.num_features.toNat)
    (by rintro rfl; simp at h1; omega) fun k hk => by
      have hk' : k < X.models.length := by
        have := h2 k hk
        rw [hw.eq, List.length_map] at this
        exact lt_of_lt_of_le this hw.le
      refine ⟨_, List.getElem?_eq_getElem hk', fun m hm => ?_⟩
      have hM := List.getElem?_eq_getElem hk'
      have h3 := (hX.sizes hM).2.2
      refine (C24_sample_total_partial c (P k) (hX.random k) (hX.good k) (hs k) _ (hX.model hM) (Mixture.freeArgs a m) rfl hm hT
        ?_).mono fun t ht => ht.1
      show ClassArg _ m a.class_index
      cases hci : a.class_index with
      | none => trivial
      | some l =>
        obtain ⟨h4, k, rfl, h5⟩ := hc l hci
        exact ⟨by rw [h3]; omega, by rw [h3]; exact h5⟩
  rwa [h1] at this

theorem IsMixture.law_origin {c : Config} {P : Nat → Params} {X : Mixture} (hX : IsMixture c P X)
    (hs : ∀ k, (P k).leaf.CanSample) (hmir : MirrorCfg c) (hK : c.num_classes = 1) {w : List ℝ} (hw : Weights X w) {n : Nat}
    (hn : 0 < n) (A : Nat → Set (Nat → Nat → ℝ)) (hA : ∀ i, MeasurableSet (A i)) :
    probRows c.num_channels.toNat c.num_features.toNat n (X.sample { num_samples := some n }) A =
      ∑ k : Fin n → Fin w.length, (∏ i, weight w (k i)) *
        ∏ i ∈ Finset.range n, compLaw P X (origin (List.ofFn fun i => (k i : Nat)) i) (A i) := by
  have hl : X.mixture_weights.length = w.length := by rw [hw.eq, List.length_map]
  have := hX.compLaw_finite hK
  rw [sample_draws hw rfl rfl rfl rfl, ← probRows_eq, Rand.E_bind, Rand.E_drawList_sum, hl]
  refine Finset.sum_congr rfl fun k _ => ?_
  congr 1
  · refine Finset.prod_congr rfl fun i _ => ?_
    have := hw.draw (k i).2
    rwa [hl] at this
  · have hks : (List.ofFn fun i => (k i : Nat)) ≠ [] := by
      intro e
      have := congrArg List.length e
      simp at this
      omega
    have := (Mixture.sampleFree_law (X := X) (a := { num_samples := some n }) hks (C := c.num_channels.toNat)
      (F := c.num_features.toNat) (ν := compLaw P X) fun j hj => by
        obtain ⟨i, rfl⟩ := (List.mem_ofFn' _ _).1 hj
        have hk' : (k i : Nat) < X.models.length := lt_of_lt_of_le (k i).2 hw.le
        exact ⟨_, List.getElem?_eq_getElem hk', fun m hm =>
          hX.compLaw_eq hs hmir hK (List.getElem?_eq_getElem hk') hm⟩).law A hA
    rwa [List.length_ofFn] at this

/-- **C30** (part), law: for every list of drawn components there is an assignment `o` of rows to components in which each
component occurs as often as it was drawn, and given the draws the rows are independent, row `i` with the law of component
`o i`.  The draws themselves are independent with the mixture weights as probabilities.  Missing: the assignment is not the
list of draws itself (`C30_refuted_order`); configurations for which the samples of the components do not follow their density
(`C13_refuted`). -/
theorem C30_law_partial (c : Config) (P : Nat → Params) (X : Mixture) (hX : IsMixture c P X) (hs : ∀ k, (P k).leaf.CanSample)
    (hmir : MirrorCfg c) (hK : c.num_classes = 1) (w : List ℝ) (hw : Weights X w) (n : Nat) (hn : 0 < n) :
    ∃ o : (Fin n → Fin w.length) → Nat → Nat,
      (∀ k, ((List.range n).map (o k)).Perm (List.ofFn fun i => (k i : Nat))) ∧
      ∀ A : Nat → Set (Nat → Nat → ℝ), (∀ i, MeasurableSet (A i)) →
        probRows c.num_channels.toNat c.num_features.toNat n (X.sample { num_samples := some n }) A =
          ∑ k : Fin n → Fin w.length, (∏ i, weight w (k i)) * ∏ i ∈ Finset.range n, compLaw P X (o k i) (A i) := by
  refine ⟨fun k => origin (List.ofFn fun i => (k i : Nat)), fun k => ?_, fun A hA => hX.law_origin hs hmir hK hw hn A hA⟩
  have := origin_perm (List.ofFn fun i => (k i : Nat))
  rwa [List.length_ofFn] at this

/-- **C30** (part): the probability that all rows lie in `A` is the one for `n` independent rows of the mixture with the given
weights. -/
theorem C30_all_rows (c : Config) (P : Nat → Params) (X : Mixture) (hX : IsMixture c P X) (hs : ∀ k, (P k).leaf.CanSample)
    (hmir : MirrorCfg c) (hK : c.num_classes = 1) (w : List ℝ) (hw : Weights X w) (n : Nat) (hn : 0 < n)
    (A : Set (Nat → Nat → ℝ)) (hA : MeasurableSet A) :
    probRows c.num_channels.toNat c.num_features.toNat n (X.sample { num_samples := some n }) (fun _ => A) =
      (∑ k ∈ Finset.range w.length, weight w k * compLaw P X k A) ^ n := by
  obtain ⟨o, ho, h⟩ := C30_law_partial c P X hX hs hmir hK w hw n hn
  rw [h _ fun _ => hA]
  have e : ∀ k : Fin n → Fin w.length, ∏ i ∈ Finset.range n, compLaw P X (o k i) A = ∏ i, compLaw P X (k i) A := by
    intro k
    have := ((ho k).map fun j => compLaw P X j A).prod_eq
    rw [List.map_map, List.map_ofFn, List.prod_ofFn] at this
    refine Eq.trans ?_ this
    rw [← List.prod_toFinset _ List.nodup_range]
    refine Finset.prod_congr (by ext i; simp) fun _ _ => rfl
  simp only [e, ← Finset.prod_mul_distrib]
  rw [Finset.sum_range fun k => weight w k * compLaw P X k A, Fintype.sum_pow]

/-- **C30** for `sample(num_samples_per_cluster=m)`: `m` rows per component, in the order of the components; all rows are
independent, row `i` with the law of component `i / m`. -/
theorem C30_per_cluster (c : Config) (P : Nat → Params) (X : Mixture) (hX : IsMixture c P X) (hs : ∀ k, (P k).leaf.CanSample)
    (hmir : MirrorCfg c) (hK : c.num_classes = 1) (m : Nat) (hm : 0 < m) :
    IndepRows c.num_channels.toNat c.num_features.toNat (X.models.length * m) (X.sample { num_samples_per_cluster := some m })
      fun i => compLaw P X (i / m) := by
  have hfin := hX.compLaw_finite hK
  have hlen : ((List.range X.models.length).flatMap fun k => List.replicate m k).length = X.models.length * m := by
    simp [List.length_flatMap]
  have hpos : 0 < X.models.length * m := Nat.mul_pos hX.pos hm
  have e : X.sample { num_samples_per_cluster := some m } = X.sampleFree { num_samples_per_cluster := some m }
      ((List.range X.models.length).flatMap fun k => List.replicate m k) := by
    unfold Mixture.sample
    dsimp only
    rw [require_true _ (show (none : Option Nat).isNone = true ∨ (some m).isNone = true from Or.inl rfl)]
    rfl
  rw [← rowLaw_iff, e]
  have h := Mixture.sampleFree_law (X := X) (a := { num_samples_per_cluster := some m })
    (ks := (List.range X.models.length).flatMap fun k => List.replicate m k) (by
      intro e
      rw [e] at hlen
      simp only [List.length_nil] at hlen
      omega) (C := c.num_channels.toNat) (F := c.num_features.toNat) (ν := compLaw P X) fun k hk => by
        have hk' : k < X.models.length := by
          simp only [List.mem_flatMap, List.mem_range, List.mem_replicate] at hk
          obtain ⟨j, hj, _, rfl⟩ := hk
          exact hj
        exact ⟨_, List.getElem?_eq_getElem hk', fun m hm => hX.compLaw_eq hs hmir hK (List.getElem?_eq_getElem hk') hm⟩
  rw [hlen] at h
  refine ⟨h.shape, fun A hA => (h.law A hA).trans (Finset.prod_congr rfl fun j hj => ?_)⟩
  rw [origin_blocks hm _ _ (by simpa using hj)]

/-- **C30 is false** for MPE: whatever number of samples is requested, `sample(num_samples=n, is_mpe=True)` without evidence
returns one row, in every mixture. -/
theorem C30_refuted_mpe (c : Config) (P : Nat → Params) (X : Mixture) (hX : IsMixture c P X) (hs : ∀ k, (P k).leaf.CanSample)
    (w : List ℝ) (hw : Weights X w) (n : Nat) :
    (X.sample { num_samples := some n, is_mpe := true }).All fun y =>
      y.shape = [1, c.num_channels.toNat, c.num_features.toNat] := by
  have hl : X.mixture_weights.length = w.length := by rw [hw.eq, List.length_map]
  have hne : X.mixture_weights ≠ [] := by
    intro e
    have h0 : w = [] := by rw [e] at hl; exact List.length_eq_zero_iff.1 hl.symm
    have := hw.pos
    rw [h0] at this
    simp at this
  set k := Fl.argmaxN X.mixture_weights.length fun k => X.mixture_weights.getD k .nan with hk
  have hk' : k < X.models.length := by
    have : k < X.mixture_weights.length := Fl.argmaxN_lt (List.length_pos_iff.2 hne) _
    have := hw.le
    omega
  have e : X.sample { num_samples := some n, is_mpe := true } = X.sampleFree { num_samples := some n, is_mpe := true } [k] := by
    unfold Mixture.sample Mixture.drawClusters
    dsimp only
    rw [require_true _ (show (some n).isNone = true ∨ (none : Option Nat).isNone = true from Or.inr rfl), require_true _ hne]
    rfl
  rw [e]
  refine Mixture.sampleFree_All (by simp) fun j hj => ?_
  obtain rfl : j = k := by simpa using hj
  have hM := List.getElem?_eq_getElem hk'
  exact ⟨_, hM, fun m hm => (C24_sample_total_partial c (P _) (hX.random _) (hX.good _) (hs _) _ (hX.model hM)
    (Mixture.freeArgs { num_samples := some n, is_mpe := true } m) rfl hm one_ne_zero trivial).mono fun t ht => ht.1⟩

/-- evidence for a mixture: usable by every component. -/
def MixEvidence (P : Nat → Params) (X : Mixture) (N : Nat) (ms : Option Scopes) (e : Tensor Fl) : Prop :=
  ∀ k M, X.models[k]? = some M → Evidence M (P k).leaf N ms e

/-- the rows of a group of evidence rows are evidence. -/
theorem Evidence.group {M : Model} {s : LeafSpec} {N : Nat} {ms : Option Scopes} {e d : Tensor Fl} (h : Evidence M s N ms e)
    {is : List Nat} (hi : ∀ j, j < is.length → is.getD j 0 < N) (hd : d.shape = [is.length, M.num_channels, M.num_features])
    (hget : ∀ j, j < is.length → ∀ c f, d.get [j, c, f] = e.get [is.getD j 0, c, f]) :
    Evidence M s is.length ms d ∧ ∀ j, j < is.length →
      (∀ c f, Hole M.num_features ms d j c f ↔ Hole M.num_features ms e (is.getD j 0) c f) ∧
      known M.num_features ms d j = known M.num_features ms e (is.getD j 0) := by
  have hole : ∀ j, j < is.length → ∀ c f, Hole M.num_features ms d j c f ↔ Hole M.num_features ms e (is.getD j 0) c f := by
    intro j hj c f
    unfold Hole
    cases ms with
    | none => dsimp only; rw [hget j hj]
    | some l => rfl
  refine ⟨⟨⟨hd, fun j hj c hc f hf => ?_⟩, h.usable, fun j hj c hc f hf hn => ?_⟩, fun j hj => ⟨hole j hj, ?_⟩⟩
  · have := h.batch.2 _ (hi j hj) c hc f hf
    simpa only [hget j hj] using this
  · rw [hole j hj]
    exact h.nan _ (hi j hj) c hc f hf (by rw [← hget j hj]; exact hn)
  · funext c f
    unfold known
    rw [hget j hj]
    exact if_congr (hole j hj c f) rfl rfl

theorem getD_mem {is : List Nat} {j : Nat} (hj : j < is.length) : is.getD j 0 ∈ is := by
  rw [show is.getD j 0 = is[j] by simp [hj]]
  exact List.getElem_mem hj

/-- with evidence, `sample` draws components that are not used and completes the evidence. -/
theorem sample_evidence_All {X : Mixture} {a : MixArgs} {e : Tensor Fl} (hev : a.evidence = some e) {Q : Tensor Fl → Prop}
    {w : List ℝ} (hw : Weights X w) (hpc : a.num_samples_per_cluster = none) (h : (X.sampleEvidence a e).All Q) :
    (X.sample a).All Q := by
  have hl : X.mixture_weights.length = w.length := by rw [hw.eq, List.length_map]
  have hne : X.mixture_weights ≠ [] := by
    intro e
    have h0 : w = [] := by rw [e] at hl; exact List.length_eq_zero_iff.1 hl.symm
    have := hw.pos
    rw [h0] at this
    simp at this
  unfold Mixture.sample
  rw [hpc, require_true _ (show a.num_samples.isNone = true ∨ (none : Option Nat).isNone = true from Or.inr rfl), Rand.lift_ok,
    Rand.pure_bind]
  refine Rand.All.bind (P := fun _ => True) ?_ fun ks _ => by rw [hev]; exact h
  unfold Mixture.drawClusters
  split_ifs
  · rw [require_true _ hne]; trivial
  · rw [hpc]
    dsimp only
    rw [require_true _ hw.ok]
    exact (Rand.All_drawList hw.exists_pos _).mono fun _ _ => trivial

/-- **C30** with evidence: every outcome of `sample` has the shape of the evidence, and row `i` completes row `i` of the
evidence: entries to be filled in contain numbers and all others are those of the evidence, in the same place, whatever
components the rows are sent to.  Valid for sampling and MPE, for all temperatures. -/
theorem C30_evidence (c : Config) (P : Nat → Params) (X : Mixture) (hX : IsMixture c P X) (hs : ∀ k, (P k).leaf.CanSample)
    (w : List ℝ) (hw : Weights X w) (N : Nat) (hN : 0 < N) (e : Tensor Fl) (a : MixArgs)
    (he : MixEvidence P X N a.marginalized_scopes e) (hev : a.evidence = some e) (hpc : a.num_samples_per_cluster = none)
    (hT : a.temperature_sums ≠ 0) :
    (X.sample a).All fun y => y.shape = e.shape ∧
      ∀ i, i < N → ∀ d, d < c.num_channels.toNat → ∀ f, f < c.num_features.toNat →
        if Hole c.num_features.toNat a.marginalized_scopes e i d f then ∃ v : ℝ, y.get [i, d, f] = .fin v
        else y.get [i, d, f] = e.get [i, d, f] := by
  have h0 := List.getElem?_eq_getElem hX.pos
  obtain ⟨f1, f2, _⟩ := hX.sizes h0
  have hsh : e.shape = [N, c.num_channels.toNat, c.num_features.toNat] := by rw [(he 0 _ h0).batch.1, f1, f2]
  have hks := hX.predict hN hsh hX.channels_pos a.marginalized_scopes
  have hkk : ∀ i, i < N → ((List.range N).map (clusterOf X c.num_channels.toNat c.num_features.toNat
      a.marginalized_scopes e)).getD i 0 = clusterOf X c.num_channels.toNat c.num_features.toNat a.marginalized_scopes e i :=
    fun i hi => by simp [hi]
  refine sample_evidence_All hev hw hpc ?_
  rw [hsh]
  refine Mixture.sampleEvidence_All (T := fun i t => ∀ d, d < c.num_channels.toNat → ∀ f, f < c.num_features.toNat →
        if Hole c.num_features.toNat a.marginalized_scopes e i d f then ∃ v : ℝ, t.get [d, f] = .fin v
        else t.get [d, f] = e.get [i, d, f]) hN hsh hks (by simp) fun k is his hk => ?_
  have hp : 0 < is.length := List.length_pos_iff.2 his
  obtain ⟨M, hM⟩ : ∃ M, X.models[k]? = some M := by
    obtain ⟨h1, h2⟩ := hk _ (getD_mem hp)
    rw [← h2, hkk _ h1]
    exact hX.cluster_lt _ _ a.marginalized_scopes e _
  obtain ⟨e1, e2, _⟩ := hX.sizes hM
  refine ⟨M, hM, fun d hd hget => ?_⟩
  obtain ⟨hE, hh⟩ := (he k M hM).group (is := is) (fun j hj => (hk _ (getD_mem hj)).1) (by rw [e1, e2]; exact hd) hget
  refine (C15_evidence_kept c (P k) (hX.random k) (hX.good k) (hs k) M (hX.model hM) is.length hp d
    (Mixture.evidenceArgs a d) hE rfl rfl rfl hT).mono fun t ⟨ht1, ht2⟩ => ⟨by rw [ht1, hd], fun j hj c' hc f hf => ?_⟩
  have := ht2 j hj c' (by rw [e1]; exact hc) f (by rw [e2]; exact hf)
  have h3 := (hh j hj).1 c' f
  rw [e2] at h3 this
  rw [hget j hj] at this
  rw [show (t.row j).get [c', f] = t.get [j, c', f] from rfl]
  by_cases hhole : Hole c.num_features.toNat a.marginalized_scopes e (is.getD j 0) c' f
  · rw [if_pos hhole]
    rw [show (Mixture.evidenceArgs a d).marginalized_scopes = a.marginalized_scopes from rfl, if_pos (h3.2 hhole)] at this
    exact this
  · rw [if_neg hhole]
    rw [show (Mixture.evidenceArgs a d).marginalized_scopes = a.marginalized_scopes from rfl,
      if_neg fun h => hhole (h3.1 h)] at this
    exact this

theorem Weights.total {X : Mixture} {w : List ℝ} (h : Weights X w) (n : Nat) (v : ℝ≥0∞) :
    (Rand.drawList X.mixture_weights.length X.logWeight n).E (fun _ => v) = v := by
  have hl : X.mixture_weights.length = w.length := by rw [h.eq, List.length_map]
  have h1 : ∑ k ∈ Finset.range X.mixture_weights.length,
      toP (Fl.logSoftmax X.mixture_weights.length X.logWeight k) = 1 := by
    have : ∀ k ∈ Finset.range X.mixture_weights.length,
        toP (Fl.logSoftmax X.mixture_weights.length X.logWeight k) = weight w k := fun k hk =>
      h.draw (by rw [← hl]; simpa using hk)
    rw [Finset.sum_congr rfl this, hl]
    unfold weight
    rw [← ENNReal.ofReal_sum_of_nonneg, ← Finset.sum_div, sum_getD, div_self h.pos.ne', ENNReal.ofReal_one]
    intro k hk
    have hk' : k < w.length := by simpa using hk
    have := h.nonneg w[k] (List.getElem_mem hk')
    refine div_nonneg ?_ h.pos.le
    simpa [List.getD, hk'] using this
  have h2 : (Rand.drawList X.mixture_weights.length X.logWeight n).E (fun _ => 1) = 1 := by
    have := Rand.E_drawList X.mixture_weights.length X.logWeight n fun _ _ => 1
    simp only [mul_one, h1, Finset.prod_const_one] at this
    refine Eq.trans ?_ this
    congr 1
    funext ks
    rw [mapIdx_prod _ _ 0]
    simp
  have := (Rand.disc_drawList X.mixture_weights.length X.logWeight n).mul_const (fun _ => 1) v
  simpa [h2] using this

theorem Evidence.known_data {M : Model} {s : LeafSpec} {N : Nat} {ms : Option Scopes} {e : Tensor Fl}
    (h : Evidence M s N ms e) {i : Nat} (hi : i < N) : s.Data M.num_channels M.num_features (known M.num_features ms e i) := by
  intro d hd f hf
  unfold known
  split_ifs
  · exact Or.inl rfl
  · exact h.batch.2 i hi d hd f hf

/-- **C30** (part) with evidence, law: the completed rows are independent, row `i` following the conditional law of the
component selected for row `i` given the observed entries of row `i`.  Missing: configurations outside `MirrorCfg`. -/
theorem C30_evidence_law_partial (c : Config) (P : Nat → Params) (X : Mixture) (hX : IsMixture c P X)
    (hs : ∀ k, (P k).leaf.CanSample) (hmir : MirrorCfg c) (hK : c.num_classes = 1) (w : List ℝ) (hw : Weights X w) (N : Nat)
    (hN : 0 < N) (e : Tensor Fl) (ms : Option Scopes) (he : MixEvidence P X N ms e) :
    IndepRows c.num_channels.toNat c.num_features.toNat N (X.sample { evidence := some e, marginalized_scopes := ms })
      fun i => compLawGiven P X (clusterOf X c.num_channels.toNat c.num_features.toNat ms e i)
        (known c.num_features.toNat ms e i) := by
  set a : MixArgs := { evidence := some e, marginalized_scopes := ms } with ha
  set cl := clusterOf X c.num_channels.toNat c.num_features.toNat ms e with hcl
  have h0 := List.getElem?_eq_getElem hX.pos
  obtain ⟨f1, f2, _⟩ := hX.sizes h0
  have hsh : e.shape = [N, c.num_channels.toNat, c.num_features.toNat] := by rw [(he 0 _ h0).batch.1, f1, f2]
  have hks := hX.predict hN hsh hX.channels_pos ms
  have hkk : ∀ i, i < N → ((List.range N).map cl).getD i 0 = cl i := fun i hi => by simp [hi]
  have hprob : ∀ i, i < N → ∀ k M, X.models[k]? = some M →
      IsProbabilityMeasure (rowLawGiven M (P k).leaf.ref 0 (known c.num_features.toNat ms e i)) := by
    intro i hi k M hM
    obtain ⟨_, e2, e3⟩ := hX.sizes hM
    refine (C13_rowLaw_prob c (P k) (hX.random k) (hX.good k) M (hX.model hM) 0 (by rw [e3, hK]; norm_num)).2.2 _ ?_
    rw [← e2]
    exact (he k M hM).known_data hi
  let ν : Nat → Measure (Nat → Nat → ℝ) := fun i => if i < N then compLawGiven P X (cl i) (known c.num_features.toNat ms e i) else 0
  have hν : ∀ i, i < N → ν i = compLawGiven P X (cl i) (known c.num_features.toNat ms e i) := fun i hi => if_pos hi
  have hfin : ∀ i, IsFiniteMeasure (ν i) := by
    intro i
    by_cases hi : i < N
    · rw [hν i hi]
      unfold compLawGiven
      cases hM : X.models[cl i]? with
      | none => show IsFiniteMeasure 0; infer_instance
      | some M =>
        have := hprob i hi _ _ hM
        show IsFiniteMeasure (Measure.map _ _)
        infer_instance
    · show IsFiniteMeasure (if i < N then _ else _)
      rw [if_neg hi]
      infer_instance
  have hlaw : Mixture.RowLaw c.num_channels.toNat c.num_features.toNat (X.sampleEvidence a e) N ν := by
    refine Mixture.sampleEvidence_law hN hsh hks (by simp) fun k is his hk => ?_
    have hp : 0 < is.length := List.length_pos_iff.2 his
    have hi : ∀ j, j < is.length → is.getD j 0 < N ∧ cl (is.getD j 0) = k := fun j hj => by
      obtain ⟨h1, h2⟩ := hk _ (getD_mem hj)
      exact ⟨h1, by rw [← h2]; exact (hkk _ h1).symm⟩
    obtain ⟨M, hM⟩ : ∃ M, X.models[k]? = some M := by
      rw [← (hi 0 hp).2]
      exact hX.cluster_lt _ _ ms e _
    obtain ⟨e1, e2, e3⟩ := hX.sizes hM
    refine ⟨M, hM, fun d hd hget => ?_⟩
    obtain ⟨hE, hh⟩ := (he k M hM).group (is := is) (fun j hj => (hi j hj).1) (by rw [e1, e2]; exact hd) hget
    have hpr : ∀ j : Fin is.length, IsProbabilityMeasure (rowLawGiven M (P k).leaf.ref 0 (known M.num_features ms d j)) := by
      intro j
      rw [show known M.num_features ms d j = known c.num_features.toNat ms e (is.getD j 0) by rw [(hh j j.2).2, e2]]
      exact hprob _ (hi j j.2).1 k M hM
    have := Mixture.RowLaw.of_pi (C := M.num_channels) (F := M.num_features) (m := is.length)
      (x := M.sample { evidence := some d, marginalized_scopes := ms })
      (μ := fun j => rowLawGiven M (P k).leaf.ref 0 (known M.num_features ms d j))
      ((C15_evidence_kept c (P k) (hX.random k) (hX.good k) (hs k) M (hX.model hM) is.length hp d
        { evidence := some d, marginalized_scopes := ms } hE rfl rfl rfl one_ne_zero).mono fun t ht => by
          rw [ht.1, hd, e1, e2])
      (fun φ hφ => C14_conditional_law_partial c (P k) (hX.random k) (hX.good k) (hs k) M (hX.model hM) hmir
        (by rw [e3, hK]; rfl) is.length hp ms d hE φ hφ)
      (ν := fun j => ν (is.getD j 0)) (fun j => by
        rw [hν _ (hi j j.2).1, (hi j j.2).2]
        unfold compLawGiven
        rw [hM, show known M.num_features ms d j = known c.num_features.toNat ms e (is.getD j 0) by rw [(hh j j.2).2, e2]]
        rfl)
    rwa [e1, e2] at this
  refine ⟨sample_evidence_All rfl hw rfl hlaw.shape, fun A hA => ?_⟩
  have hdraw : X.sample a = (Rand.drawList X.mixture_weights.length X.logWeight N).bind fun _ => X.sampleEvidence a e := by
    have hcount : X.count a = N := by
      show e.size 0 = N
      simp [size, hsh, at']
    unfold Mixture.sample Mixture.drawClusters
    rw [hcount, require_true _ (show a.num_samples.isNone = true ∨ a.num_samples_per_cluster.isNone = true from Or.inl rfl),
      require_true _ hw.ok]
    rfl
  rw [← probRows_eq, hdraw, Rand.E_bind, hw.total, hlaw.law A hA]
  exact Finset.prod_congr rfl fun i hi => by rw [hν i (by simpa using hi)]

/-- the mixture witness with weights 1/2 and 1/2. -/
theorem wMix_weights {M : Nat → Model} : Weights ⟨(List.range 2).map M, 2, [.fin (1 / 2), .fin (1 / 2)],
    List.replicate 2 [.fin 1, .fin 1], exNear⟩ [1 / 2, 1 / 2] :=
  ⟨rfl, by simp, by norm_num, by simp⟩

/-- rows of two zeros. -/
def zeros : Set (Nat → Nat → ℝ) := {v | v 0 0 = 0 ∧ v 0 1 = 0}

theorem zeros_measurable : MeasurableSet zeros :=
  (measurableSet_eq_fun ((measurable_pi_apply 0).comp (measurable_pi_apply 0)) measurable_const).inter
    (measurableSet_eq_fun ((measurable_pi_apply 1).comp (measurable_pi_apply 0)) measurable_const)

theorem wMix_law {k n : Nat} (hk : k < n) {M : Nat → Model} (h : Wit 2 1 0 (wMixW k) (fun _ => 0) (M k)) (w : List Fl)
    (cs : List (List Fl)) : compLaw wMixP ⟨(List.range n).map M, 2, w, cs, exNear⟩ k zeros =
      ENNReal.ofReal (if k = 1 then 17 / 108 else 13 / 72) ∧
    compLaw wMixP ⟨(List.range n).map M, 2, w, cs, exNear⟩ k Set.univ = 1 := by
  have e : compLaw wMixP ⟨(List.range n).map M, 2, w, cs, exNear⟩ k =
      (rowLaw (M k) wLeaf.ref 0).map (extRow (M k).num_channels (M k).num_features) := by
    unfold compLaw
    rw [show ((List.range n).map M)[k]? = some (M k) by simp [hk]]
    rfl
  have hp := (C13_rowLaw_prob _ _ (wParams_random _ _) wLeaf_good.1 (M k) h.build 0 (by rw [h.classes]; exact one_pos)).1
  rw [e, Measure.map_apply (extRow_measurable _ _) zeros_measurable,
    Measure.map_apply (extRow_measurable _ _) MeasurableSet.univ]
  constructor
  · have h1 := h.rowLaw_eq (k := 0) one_pos fun _ => true
    have h2 : extRow (M k).num_channels (M k).num_features ⁻¹' zeros = {ω | ∀ c f, true = true → ω c f = 0} := by
      have hC := h.channels
      have hF := h.features
      ext ω
      simp only [Set.mem_preimage, zeros, Set.mem_ofPred_eq, extRow]
      constructor
      · rintro ⟨h1, h2⟩ c f -
        have hc : c.val = 0 := by have := c.2; omega
        have hf : f.val = 0 ∨ f.val = 1 := by have := f.2; omega
        rcases hf with hf | hf
        · rw [dif_pos ⟨by omega, by omega⟩] at h1
          rw [show c = ⟨0, by omega⟩ from Fin.ext hc, show f = ⟨0, by omega⟩ from Fin.ext hf]
          exact h1
        · rw [dif_pos ⟨by omega, by omega⟩] at h2
          rw [show c = ⟨0, by omega⟩ from Fin.ext hc, show f = ⟨1, by omega⟩ from Fin.ext hf]
          exact h2
      · intro h
        rw [dif_pos ⟨by omega, by omega⟩, dif_pos ⟨by omega, by omega⟩]
        exact ⟨h _ _ trivial, h _ _ trivial⟩
    rw [h2, h1, h.topP0 (fun _ i => wq (fun _ => true) 0 i * wq (fun _ => true) 1 i)
      (fun _ i => mul_nonneg (wq_nonneg _ _ _) (wq_nonneg _ _ _)) _ (fun i hi => by
        rw [h.regionP_eq (by norm_num)]
        simp [Wit.reg, Finset.prod_range_succ])]
    congr 1
    by_cases hk1 : k = 1
    · simp [hk1, wMixW, wq, wProb, Real.exp_log]; norm_num
    · simp [hk1, wMixW, wq, wProb]; norm_num
  · rw [Set.preimage_univ]; exact hp.measure_univ

theorem origin_two : origin [0, 0] 0 = 0 ∧ origin [0, 1] 0 = 0 ∧ origin [1, 0] 0 = 0 ∧ origin [1, 1] 0 = 1 := by
  refine ⟨?_, ?_, ?_, ?_⟩
  · have := origin_mem (ks := [0, 0]) (j := 0) (by simp); simpa using this
  · unfold origin
    rw [sortPerm_sorted (by simp)]
    rfl
  · unfold origin
    have h := sortPerm_inverse (ks := [1, 0]) (N := 2) (List.Perm.swap 0 1 []) (j := 0) (by norm_num)
    set i := (sortPerm [1, 0]).getD 0 0
    obtain ⟨h1, h2⟩ := List.getElem?_eq_some_iff.1 h
    have : i = 1 := by
      have : i < 2 := h1
      interval_cases i
      · simp at h2
      · rfl
    rw [this]
    rfl
  · have := origin_mem (ks := [1, 1]) (j := 0) (by simp); simpa using this

/-- **C30 is false** for the order of the rows: in some mixture of two components with weights 1/2, which generate the row
`0, 0` with probabilities 13/72 and 17/108, the first of two rows is `0, 0` with probability 151/864 instead of
1/2 · 13/72 + 1/2 · 17/108 = 146/864.  (Rows are permuted by the sorting permutation of the draws instead of its inverse: if
component 1 is drawn for row 0 and component 0 for row 1, then row 0 comes from component 0.) -/
theorem C30_refuted_order : ∃ (c : Config) (P : Nat → Params) (X : Mixture), IsMixture c P X ∧ (∀ k, (P k).leaf.CanSample) ∧
    X.models.length = 2 ∧ Weights X [1 / 2, 1 / 2] ∧
    compLaw P X 0 zeros = ENNReal.ofReal (13 / 72) ∧ compLaw P X 1 zeros = ENNReal.ofReal (17 / 108) ∧
    probRows c.num_channels.toNat c.num_features.toNat 2 (X.sample { num_samples := some 2 })
      (fun i => if i = 0 then zeros else Set.univ) = ENNReal.ofReal (151 / 864) := by
  obtain ⟨M, hM, hX⟩ := wMix_exists 2 (by norm_num) [.fin (1 / 2), .fin (1 / 2)]
  obtain ⟨a1, a2⟩ := wMix_law (n := 2) (by norm_num) (hM 0) [.fin (1 / 2), .fin (1 / 2)] (List.replicate 2 [.fin 1, .fin 1])
  obtain ⟨b1, b2⟩ := wMix_law (n := 2) (by norm_num) (hM 1) [.fin (1 / 2), .fin (1 / 2)] (List.replicate 2 [.fin 1, .fin 1])
  refine ⟨_, _, _, hX, fun k => wLeaf_good.2, by simp, wMix_weights, by simpa using a1, by simpa using b1, ?_⟩
  rw [hX.law_origin (fun k => wLeaf_good.2) (Or.inr (Or.inr ⟨rfl, Or.inl rfl⟩)) rfl wMix_weights (by norm_num) _ fun i => by
    split_ifs
    · exact zeros_measurable
    · exact MeasurableSet.univ]
  set X : Mixture := ⟨(List.range 2).map M, 2, [.fin (1 / 2), .fin (1 / 2)], List.replicate 2 [.fin 1, .fin 1], exNear⟩ with hXd
  have hu : ∀ k : Fin 2, compLaw wMixP X k Set.univ = 1 := by
    intro k
    fin_cases k
    · exact a2
    · exact b2
  have horg : ∀ k : Fin 2 → Fin 2, compLaw wMixP X (origin (List.ofFn fun i => (k i : Nat)) 1) Set.univ = 1 := by
    intro k
    have := origin_mem (ks := List.ofFn fun i => (k i : Nat)) (j := 1) (by simp)
    obtain ⟨i, hi⟩ := (List.mem_ofFn' _ _).1 this
    rw [← hi]
    exact hu (k i)
  have hsum : ∀ f : (Fin 2 → Fin 2) → ℝ≥0∞, ∑ k, f k = f ![0, 0] + f ![0, 1] + f ![1, 0] + f ![1, 1] := by
    intro f
    rw [← (finTwoArrowEquiv (Fin 2)).symm.sum_comp, Fintype.sum_prod_type]
    simp only [Fin.sum_univ_two, finTwoArrowEquiv_symm_apply]
    ring
  obtain ⟨o1, o2, o3, o4⟩ := origin_two
  have hw0 : ∀ i : Fin 2, weight [1 / 2, 1 / 2] i = ENNReal.ofReal (1 / 2) := by
    intro i
    fin_cases i <;> simp only [weight] <;> congr 1 <;> norm_num
  have a1' : compLaw wMixP X 0 zeros = ENNReal.ofReal (13 / 72) := by simpa using a1
  have b1' : compLaw wMixP X 1 zeros = ENNReal.ofReal (17 / 108) := by simpa using b1
  show ∑ k : Fin 2 → Fin 2, _ = _
  rw [hsum]
  simp only [Finset.prod_range_succ, Finset.prod_range_zero, one_mul, if_true, if_neg one_ne_zero, horg, mul_one,
    Fin.prod_univ_two, hw0]
  simp only [List.ofFn_succ, List.ofFn_zero, Matrix.cons_val_zero, Matrix.cons_val_one, Fin.val_zero, Fin.val_one, Fin.succ_zero_eq_one,
    o1, o2, o3, o4, a1', b1']
  rw [← ENNReal.ofReal_mul (by norm_num), ← ENNReal.ofReal_mul (by norm_num), ← ENNReal.ofReal_mul (by norm_num),
    ← ENNReal.ofReal_add (by norm_num) (by norm_num), ← ENNReal.ofReal_add (by norm_num) (by norm_num),
    ← ENNReal.ofReal_add (by norm_num) (by norm_num)]
  norm_num

/-- the hypotheses of the theorems above on sampling without evidence are met by a mixture of two different components. -/
example : ∃ X, IsMixture (wConfig 2 1 0) wMixP X ∧ (∀ k, (wMixP k).leaf.CanSample) ∧ MirrorCfg (wConfig 2 1 0) ∧
    (wConfig 2 1 0).num_classes = 1 ∧ X.models.length = 2 ∧ Weights X [1 / 2, 1 / 2] ∧ compLaw wMixP X 0 ≠ compLaw wMixP X 1 := by
  obtain ⟨M, hM, hX⟩ := wMix_exists 2 (by norm_num) [.fin (1 / 2), .fin (1 / 2)]
  obtain ⟨a1, -⟩ := wMix_law (n := 2) (by norm_num) (hM 0) [.fin (1 / 2), .fin (1 / 2)] (List.replicate 2 [.fin 1, .fin 1])
  obtain ⟨b1, -⟩ := wMix_law (n := 2) (by norm_num) (hM 1) [.fin (1 / 2), .fin (1 / 2)] (List.replicate 2 [.fin 1, .fin 1])
  refine ⟨_, hX, fun k => wLeaf_good.2, Or.inr (Or.inr ⟨rfl, Or.inl rfl⟩), rfl, by simp, wMix_weights, fun e => ?_⟩
  rw [e, b1, if_pos rfl, if_neg (by norm_num), ENNReal.ofReal_eq_ofReal_iff (by norm_num) (by norm_num)] at a1
  norm_num at a1

/-- the hypotheses of `C30_evidence` are met, with and without scopes. -/
example : ∃ X w, IsMixture (exConfig "einsum" "top-down") (fun _ => exParams exLeaf) X ∧ (exParams exLeaf).leaf.CanSample ∧
    X.models.length = 3 ∧ Weights X w ∧ MixEvidence (fun _ => exParams exLeaf) X 3 none exBatch ∧
    Hole 5 none exBatch 2 0 1 ∧ ¬ Hole 5 none exBatch 0 0 0 := by
  obtain ⟨M, h⟩ := exConfig_normal (l := "einsum") (s := "top-down") (Or.inl ⟨Or.inr (Or.inr rfl), rfl⟩)
  have hX := isMixture_of (n := 3) (by norm_num) (M := fun _ => M) (fun _ _ => h) (fun _ => exParams_random _)
    (fun _ => (exLeaf_good _ rfl).1) ([1 / 5, 0, 4 / 5].map .fin) (cs := List.replicate 3 (List.replicate 10 (.fin 1))) (by simp)
    (by simp [exConfig]) exNear_lt
  refine ⟨_, [1 / 5, 0, 4 / 5], hX, (exLeaf_good _ rfl).2, by simp, ⟨rfl, by simp; norm_num, by norm_num, by simp⟩, ?_,
    by simp [Hole, exBatch, at'], by simp [Hole, exBatch, at']⟩
  intro k M' hM'
  obtain ⟨e1, e2, _⟩ := hX.sizes hM'
  exact exEvidence (by rw [e1]; rfl) (by rw [e2]; rfl)

/-- the hypotheses of `C30_evidence_law_partial` are met: one entry observed, one missing. -/
example : ∃ X, IsMixture (wConfig 2 1 0) wMixP X ∧ MirrorCfg (wConfig 2 1 0) ∧ Weights X [1 / 2, 1 / 2] ∧
    MixEvidence wMixP X 1 none ⟨[1, 1, 2], fun i => if at' 2 i = 0 then .fin 1 else .nan⟩ := by
  obtain ⟨M, hM, hX⟩ := wMix_exists 2 (by norm_num) [.fin (1 / 2), .fin (1 / 2)]
  refine ⟨_, hX, Or.inr (Or.inr ⟨rfl, Or.inl rfl⟩), wMix_weights, ?_⟩
  intro k M' hM'
  obtain ⟨e1, e2, _⟩ := hX.sizes hM'
  refine ⟨⟨by rw [e1, e2]; rfl, fun n _ d _ f _ => ?_⟩, by simp, fun n _ c _ f _ e => e⟩
  by_cases hf : f = 0
  · exact Or.inr ⟨1, by simp [at', hf], 1, by norm_num, by simp⟩
  · exact Or.inl (by simp [at', hf])

end Props
end Einet
