import Verif.DiffModel
import Verif.PropsSampleNeg
import Verif.PropsMpe

/-!
# Properties of differentiable sampling: C22, C23 and the differentiable part of C15, C16, C24
-/

open Classical
open scoped ENNReal
noncomputable section
namespace Einet
namespace Props
open Tensor Einet

/-! ### Specification -/

/-- one-hot encoding of `k` (a function of the remaining coordinates) along dimension `d` of the shape `s`. -/
def OneHot (d : Nat) (s : List Nat) (k : List Nat → Nat) (t : Tensor Fl) : Prop :=
  t.shape = s ∧ ∀ i, InB s i → t.get i = if at' d i = k (delAt d i) then .fin 1 else .fin 0

/-- `v` is a largest entry: nothing is greater. -/
def Largest (K : Nat) (w : Nat → Fl) (k : Nat) : Prop := k < K ∧ ∀ j, j < K → ¬ Fl.lt (w k) (w j)

/-! ### C22 -/

/-- **C22** for `sample(is_mpe=True)` with evidence, at any temperature: the differentiable and the ordinary call both return,
with tensors of the shape of the evidence and the same entries. -/
theorem C22_sample (c : Config) (P : Params) (hP : P.Random) (hg : P.leaf.Good) (hs : P.leaf.CanSample)
    (M : Model) (h : build c P = .ok M) (N : Nat) (hN : 0 < N) (x : Tensor Fl) (a : SampleArgs) (ha : a.is_mpe = true)
    (hx : Evidence M P.leaf N a.marginalized_scopes x) (hev : a.evidence = some x) (hns : a.num_samples = none)
    (hci : a.class_index = none) (hT : a.temperature_sums ≠ 0) (noise : Nat → List Nat → Fl) :
    ∃ s1 s2, M.sample a = .pure s1 ∧ M.sampleD a noise = .pure s2 ∧ s1.shape = x.shape ∧
      s2.shape = x.shape ∧ ∀ n, n < N → ∀ c, c < M.num_channels → ∀ f, f < M.num_features →
        s1.get [n, c, f] = s2.get [n, c, f] := by
  have hsam := build_samplable hP hg hs h
  obtain ⟨sc, hsc, hh⟩ := hx.scopes
  have hcount : a.count = N := by unfold SampleArgs.count; rw [hev]; simp [Tensor.size, hx.batch.1, at']
  have hp := (build_WF hP h).2.2.1 hg
  have hx3 : x.Is3 a.count M.num_channels M.num_features fun n c f => x.get [n, c, f] := by
    rw [hcount]; exact hx.batch.is3
  have hX : ∀ n, n < a.count → EvidenceOK M.leaf.base sc fun c f => x.get [n, c, f] := by
    rw [hcount]; exact hx.ok hP h hh
  obtain ⟨cs, hcs, hevm, hfin⟩ := Model.evidence_caches hsam.wf hp hev hx3 hsc hX
  have hcok : M.ClassOK a.count a.class_index := by rw [hci]; trivial
  have hck := Model.check_ok (a := a) hcok fun _ => ⟨hci, hns⟩
  obtain ⟨S, v1, v2, k1, k2, i1, i2⟩ := Model.sampleValues_both hsam hci (by omega) ha hT noise hevm hfin
  obtain ⟨s1, f1, j1⟩ := Model.fill_is hx3 i1 hsc
  obtain ⟨s2, f2, j2⟩ := Model.fillD_is hx3 i2 hsc
  refine ⟨s1, s2, ?_, ?_, ?_, ?_, fun n hn c hc f hf => ?_⟩
  · rw [Model.sample_eq M a hck hcs, k1]
    show Rand.lift (Model.finish a v1) = _
    unfold Model.finish
    rw [hev]
    dsimp only
    rw [f1]
    rfl
  · rw [Model.sampleD_eq M a noise hck hcs, k2]
    show Rand.lift (Model.finishD a v2) = _
    unfold Model.finishD
    rw [hev]
    dsimp only
    rw [f2]
    rfl
  · rw [j1.1, hx.batch.1, hcount]
  · rw [j2.1, hx.batch.1, hcount]
  · rw [j1.get (by omega) hc hf, j2.get (by omega) hc hf]

/-- **C22** with evidence: `mpe(is_differentiable=True)` and `mpe` both return, in every configuration and with any number of
classes, and their results have the same entries. -/
theorem C22_mpe (c : Config) (P : Params) (hP : P.Random) (hg : P.leaf.Good) (hs : P.leaf.CanSample)
    (M : Model) (h : build c P = .ok M) (N : Nat) (hN : 0 < N) (x : Tensor Fl) (ms : Option Scopes)
    (hx : Evidence M P.leaf N ms x) (noise : Nat → List Nat → Fl) :
    ∃ s1 s2, M.mpe (some x) ms = .pure s1 ∧ M.mpeD (some x) ms noise = .pure s2 ∧ s1.shape = x.shape ∧
      s2.shape = x.shape ∧ ∀ n, n < N → ∀ c, c < M.num_channels → ∀ f, f < M.num_features →
        s1.get [n, c, f] = s2.get [n, c, f] :=
  C22_sample c P hP hg hs M h N hN x _ rfl hx rfl rfl rfl one_ne_zero noise

/-- **C22** without evidence. -/
theorem C22_mpe_free (c : Config) (P : Params) (hP : P.Random) (hg : P.leaf.Good) (hs : P.leaf.CanSample)
    (M : Model) (h : build c P = .ok M) (noise : Nat → List Nat → Fl) :
    ∃ s1 s2, M.mpe none = .pure s1 ∧ M.mpeD none none noise = .pure s2 ∧
      s1.shape = [1, M.num_channels, M.num_features] ∧ s2.shape = s1.shape ∧
      ∀ c, c < M.num_channels → ∀ f, f < M.num_features → s1.get [0, c, f] = s2.get [0, c, f] := by
  have hsam := build_samplable hP hg hs h
  set a : SampleArgs := { is_mpe := true } with ha
  have hcount : a.count = 1 := rfl
  have hck := Model.check_ok (M := M) (a := a) trivial (by simp [ha])
  have hcs : M.evidenceCaches a = .ok ⟨[], none⟩ := rfl
  obtain ⟨S, v1, v2, k1, k2, i1, i2⟩ := Model.sampleValues_both (a := a) hsam rfl (by omega) rfl one_ne_zero noise
    (Model.evM_none M _) (Model.finZero M _)
  refine ⟨v1.map .fin, v2, ?_, ?_, i1.1, i2.1.trans i1.1.symm, fun c hc f hf => ?_⟩
  · show M.sample a = _
    rw [Model.sample_eq M a hck hcs, k1]
    rfl
  · show M.sampleD a noise = _
    rw [Model.sampleD_eq M a noise hck hcs, k2]
    rfl
  · rw [i2.get (by omega) hc hf]
    show Fl.fin (v1.get [0, c, f]) = _
    rw [i1.get (by omega) hc hf]

/-- models and evidence to which the theorems apply, with three classes and with NaN holes or listed features. -/
example : ∃ M, build (exConfig "linsum" "bottom-up") (exParams exLeaf) = .ok M ∧
    Evidence M (exParams exLeaf).leaf 3 none exBatch ∧
    Evidence M (exParams exLeaf).leaf 7 (some ⟨true, [1, -1]⟩) ⟨[7, 2, 5], fun i => .fin i.sum⟩ := by
  obtain ⟨M, h⟩ := exConfig_normal (l := "linsum") (s := "bottom-up") (Or.inr ⟨rfl, rfl⟩)
  obtain ⟨e1, e2, e3⟩ := exSizes h
  exact ⟨M, h, exEvidence e1 e2, exEvidenceScopes e1 e2⟩

/-! ### C15 and C24 in differentiable mode -/

/-- **C15** and **C24** (part), differentiable, with evidence: for every finite noise and every leaf draw the result has the
shape of the evidence, holes contain numbers and all other entries are those of the evidence. -/
theorem C15_differentiable (c : Config) (P : Params) (hP : P.Random) (hg : P.leaf.Good) (hs : P.leaf.CanSample)
    (M : Model) (h : build c P = .ok M) (N : Nat) (hN : 0 < N) (x : Tensor Fl) (a : SampleArgs)
    (hx : Evidence M P.leaf N a.marginalized_scopes x) (hev : a.evidence = some x) (hns : a.num_samples = none)
    (hci : a.class_index = none) (hT : a.temperature_sums ≠ 0) (noise : Nat → List Nat → Fl)
    (hn : a.is_mpe = false → ∀ k i, (noise k i).IsFin) :
    (M.sampleD a noise).All fun s => s.shape = x.shape ∧
      ∀ n, n < N → ∀ c, c < M.num_channels → ∀ f, f < M.num_features →
        if Hole M.num_features a.marginalized_scopes x n c f then ∃ v : ℝ, s.get [n, c, f] = .fin v
        else s.get [n, c, f] = x.get [n, c, f] := by
  have hsam := build_samplable hP hg hs h
  obtain ⟨sc, hsc, hh⟩ := hx.scopes
  have hcount : a.count = N := by unfold SampleArgs.count; rw [hev]; simp [Tensor.size, hx.batch.1, at']
  have hp := (build_WF hP h).2.2.1 hg
  have hx3 : x.Is3 a.count M.num_channels M.num_features fun n c f => x.get [n, c, f] := by
    rw [hcount]; exact hx.batch.is3
  have hX : ∀ n, n < a.count → EvidenceOK M.leaf.base sc fun c f => x.get [n, c, f] := by
    rw [hcount]; exact hx.ok hP h hh
  obtain ⟨cs, hcs, hevm, hfin⟩ := Model.evidence_caches hsam.wf hp hev hx3 hsc hX
  have hcok : M.ClassOK a.count a.class_index := by rw [hci]; trivial
  obtain ⟨idx, rr, dc, res, -, -, h1, h2⟩ := Model.sampleValuesD_eq hsam hci (by omega) hT hn hevm hfin
  rw [Model.sampleD_eq M a noise (Model.check_ok hcok fun _ => ⟨hci, hns⟩) hcs, h1]
  refine Rand.All.bind (P := fun t => ∃ S : Nat → Nat → Nat → ℝ, t.Is3 a.count M.num_channels M.num_features
    fun n c f => .fin (S n c f)) ?_ fun t ⟨S, ht⟩ => ?_
  · refine Rand.All.bind (P := fun _ => True) ?_ fun v _ => Rand.All.lift ((h2 v).mono fun t ht => ⟨_, ht⟩)
    unfold BaseLeaf.draws
    split_ifs
    · trivial
    · refine (Rand.All_drawAll (P := fun _ _ => True) fun i _ => ?_).mono fun _ _ => trivial
      exact fun _ => trivial
  · obtain ⟨s, f1, j1⟩ := Model.fillD_is hx3 ht hsc
    unfold Model.finishD
    rw [hev]
    dsimp only
    rw [f1]
    refine ⟨by rw [j1.1, hx.batch.1, hcount], fun n hn c hc f hf => ?_⟩
    rw [j1.get (by omega) hc hf]
    simp only [hh n c f hf]
    split_ifs
    · exact ⟨_, rfl⟩
    · rfl

/-- **C24** (part), differentiable, without evidence: for every finite noise and every leaf draw the result has shape
`[N, num_channels, num_features]` and finite entries.  Missing: class indices, for which the call raises
(`C16_refuted_differentiable`), `Bernoulli` leaves and `N = 0`. -/
theorem C24_differentiable_partial (c : Config) (P : Params) (hP : P.Random) (hg : P.leaf.Good) (hs : P.leaf.CanSample)
    (M : Model) (h : build c P = .ok M) (a : SampleArgs) (hev : a.evidence = none) (hN : 0 < a.count)
    (hT : a.temperature_sums ≠ 0) (hci : a.class_index = none) (noise : Nat → List Nat → Fl)
    (hn : a.is_mpe = false → ∀ k i, (noise k i).IsFin) :
    (M.sampleD a noise).All fun s => s.shape = [a.count, M.num_channels, M.num_features] ∧
      ∀ n, n < a.count → ∀ ch, ch < M.num_channels → ∀ f, f < M.num_features → ∃ v : ℝ, s.get [n, ch, f] = .fin v := by
  have hsam := build_samplable hP hg hs h
  have hcs : M.evidenceCaches a = .ok ⟨[], none⟩ := by unfold Model.evidenceCaches; rw [hev]
  have hcok : M.ClassOK a.count a.class_index := by rw [hci]; trivial
  obtain ⟨idx, rr, dc, res, -, -, h1, h2⟩ := Model.sampleValuesD_eq hsam hci hN hT hn (Model.evM_none M _) (Model.finZero M _)
  rw [Model.sampleD_eq M a noise (Model.check_ok hcok (by simp [hev])) hcs, h1]
  refine Rand.All.bind (P := fun t => ∃ S : Nat → Nat → Nat → ℝ, t.Is3 a.count M.num_channels M.num_features
    fun n c f => .fin (S n c f)) ?_ fun t ⟨S, ht⟩ => ?_
  · refine Rand.All.bind (P := fun _ => True) ?_ fun v _ => Rand.All.lift ((h2 v).mono fun t ht => ⟨_, ht⟩)
    unfold BaseLeaf.draws
    split_ifs
    · trivial
    · refine (Rand.All_drawAll (P := fun _ _ => True) fun i _ => ?_).mono fun _ _ => trivial
      exact fun _ => trivial
  · unfold Model.finishD
    rw [hev]
    exact ⟨ht.1, fun n hn c hc f hf => ⟨_, ht.get hn hc hf⟩⟩

/-- arguments without evidence and with, for sampling and MPE. -/
example (b : Bool) : ∃ M, build (exConfig "linsum" "bottom-up") (exParams exLeaf) = .ok M ∧
    (⟨some 4, none, none, b, false, 1, 1 / 2, none⟩ : SampleArgs).count = 4 ∧
    Evidence M (exParams exLeaf).leaf 3 none exBatch ∧ Hole 5 none exBatch 1 0 3 ∧ ¬ Hole 5 none exBatch 1 0 2 := by
  obtain ⟨M, h⟩ := exConfig_normal (l := "linsum") (s := "bottom-up") (Or.inr ⟨rfl, rfl⟩)
  obtain ⟨e1, e2, e3⟩ := exSizes h
  exact ⟨M, h, rfl, exEvidence e1 e2, by simp [Hole, exBatch, at'], by simp [Hole, exBatch, at']⟩

/-! ### C16 in differentiable mode -/

/-- **C16 is false** in differentiable mode: with any class index, an integer or a list, `sample(is_differentiable=True)`
raises for every noise and every draw, in every model.  (Lists: `requireds_grad_` does not exist.  Integers: the one-hot
classes lie in the wrong dimension and fail the shape check.  One class: `class_index` is rejected.) -/
theorem C16_refuted_differentiable (c : Config) (P : Params) (hP : P.Random) (M : Model) (h : build c P = .ok M)
    (a : SampleArgs) (ci : ClassIndex) (hci : a.class_index = some ci) (noise : Nat → List Nat → Fl) :
    (M.sampleD a noise).Raises :=
  Model.sampleD_class_raises (build_WF hP h).2.1 (build_hasSum h) a ci hci noise

/-- with three classes and arguments the ordinary call accepts. -/
example : ∃ M, build (exConfig "einsum" "top-down") (exParams exLeaf) = .ok M ∧
    ClassArg M 4 (some (.list [2, 0, 0, 1])) ∧ ClassArg M 4 (some (.int 2)) := by
  obtain ⟨M, h⟩ := exConfig_normal (l := "einsum") (s := "top-down") (Or.inl ⟨Or.inr (Or.inr rfl), rfl⟩)
  obtain ⟨e1, e2, e3⟩ := exSizes h
  exact ⟨M, h, ⟨by omega, rfl, by rw [e3]; simp⟩, ⟨by omega, by omega⟩⟩

/-! ### C23 -/

theorem Fl.add_nan (x : Fl) : x + .nan = .nan := by cases x <;> rfl
theorem Fl.nan_add (x : Fl) : Fl.nan + x = .nan := by cases x <;> rfl

theorem Fl.sumN_nan {n j : Nat} {f : Nat → Fl} (hj : j < n) (h : f j = .nan) : Fl.sumN n f = .nan := by
  induction n with
  | zero => omega
  | succ n ih =>
    simp only [Fl.sumN]
    by_cases e : j = n
    · subst e; rw [h, Fl.add_nan]
    · rw [ih (by omega), Fl.nan_add]

theorem Fl.mul_oh_nan {x : Fl} (hx : ¬ x.IsFin) {k j : Nat} (h : j ≠ k) : x * oh k j = .nan := by
  rw [oh_ne h]
  cases x with
  | fin r => exact absurd ⟨r, rfl⟩ hx
  | nan => rfl
  | pinf => show Fl.infMul 0 = _; simp [Fl.infMul]
  | ninf => show Fl.infMul (-0) = _; simp [Fl.infMul]

theorem Fl.mul_one' (x : Fl) : x * .fin 1 = x := by
  cases x with
  | fin r => simp
  | nan => rfl
  | pinf => show Fl.infMul 1 = _; simp [Fl.infMul]
  | ninf => show Fl.infMul (-1) = _; simp [Fl.infMul]

theorem Fl.add_zero' (x : Fl) : x + .fin 0 = x := by
  cases x with
  | fin r => simp
  | _ => rfl

theorem Fl.zero_add' (x : Fl) : Fl.fin 0 + x = x := by
  cases x with
  | fin r => simp
  | _ => rfl

theorem Fl.sumN_ite' {n k : Nat} (hk : k < n) (x : Fl) : Fl.sumN n (fun j => if j = k then x else .fin 0) = x := by
  induction n with
  | zero => omega
  | succ n ih =>
    simp only [Fl.sumN]
    by_cases h : n = k
    · subst h
      rw [Fl.sumN_zero fun j hj => by rw [if_neg (by omega)], if_pos rfl, Fl.zero_add']
    · rw [ih (by omega), if_neg h, Fl.add_zero']

/-- the masked sum is the selected entry exactly if the others are finite or the selected one is NaN. -/
theorem Fl.sumN_oh_iff {n k : Nat} (hk : k < n) {f : Nat → Fl} :
    Fl.sumN n (fun j => f j * oh k j) = f k ↔ (∀ j, j < n → j ≠ k → (f j).IsFin) ∨ f k = .nan := by
  constructor
  · intro h
    by_contra hn
    push Not at hn
    obtain ⟨⟨j, hj, hjk, hf⟩, hn⟩ := hn
    rw [Fl.sumN_nan hj (Fl.mul_oh_nan hf hjk)] at h
    exact hn h.symm
  · rintro (h | h)
    · rw [Fl.sumN_congr (g := fun j => if j = k then f k else .fin 0), Fl.sumN_ite' hk]
      intro j hj
      by_cases e : j = k
      · subst e
        rw [if_pos rfl, oh_self, Fl.mul_one']
      · rw [Fl.mul_oh (h j hj e), if_neg e, if_neg e]
    · rw [h, Fl.sumN_nan hk]
      rw [h]
      rfl

theorem indexOneHot_run {t ix : Tensor Fl} {s : List Nat} {k : List Nat → Nat} {d : Nat} (ht : t.shape = s)
    (hi : OneHot d s k ix) (hd : d < s.length) :
    Res.Sat (indexOneHot t ix d) fun u => u.shape = delAt d s ∧ ∀ i, InB (delAt d s) i →
      u.get i = Fl.sumN (at' d s) fun j => t.get (insAt d j i) * oh (k i) j := by
  refine (indexOneHot_is (Is.refl t ht) (Is.refl ix hi.1) rfl hd rfl (bshape_self s)).mono fun u hu => ⟨hu.1, fun i hb => ?_⟩
  rw [hu.get hb]
  refine Fl.sumN_congr fun j hj => ?_
  have hin := InB_insAt hd hb hj
  have hl : d ≤ i.length := by
    have := Tensor.InB.length hb
    have h2 : ∀ (s : List Nat) (d : Nat), d < s.length → d ≤ (delAt d s).length := by
      intro s
      induction s with
      | nil => intro d h; simp at h
      | cons a s ih =>
        intro d h
        cases d with
        | zero => simp
        | succ d => simpa [delAt] using ih d (by simpa using h)
    have := h2 s d hd
    omega
  rw [clipAll_self hin, hi.2 _ hin, at_insAt j hl, delAt_insAt j hl]
  rfl

/-- **C23**, first half, exactly: `index_one_hot(t, onehot(k), dim)` returns a tensor of the right shape for every tensor, and
it equals ordinary indexing at a position if and only if all *other* entries along `dim` are finite there (or the selected one
is NaN itself). -/
theorem C23_index_iff (t ix : Tensor Fl) (s : List Nat) (d : Nat) (hd : d < s.length) (k : List Nat → Nat)
    (ht : t.shape = s) (hi : OneHot d s k ix) :
    ∃ u, indexOneHot t ix d = .ok u ∧ u.shape = delAt d s ∧ ∀ i, InB (delAt d s) i → k i < at' d s →
      (u.get i = t.get (insAt d (k i) i) ↔
        (∀ j, j < at' d s → j ≠ k i → (t.get (insAt d j i)).IsFin) ∨ t.get (insAt d (k i) i) = .nan) := by
  obtain ⟨u, h1, h2, h3⟩ := indexOneHot_run ht hi hd
  refine ⟨u, h1, h2, fun i hb hk => ?_⟩
  rw [h3 i hb]
  exact Fl.sumN_oh_iff hk (f := fun j => t.get (insAt d j i))

/-- **C23** (part), first half: for finite tensors `index_one_hot` is ordinary indexing.  Missing: tensors with infinite or NaN
entries at positions that are not selected, for which it is false (`C23_refuted_index`). -/
theorem C23_index_partial (t ix : Tensor Fl) (s : List Nat) (d : Nat) (hd : d < s.length) (k : List Nat → Nat)
    (ht : t.shape = s) (hi : OneHot d s k ix) (hk : ∀ i, InB (delAt d s) i → k i < at' d s)
    (hf : ∀ i, InB s i → (t.get i).IsFin) :
    ∃ u, indexOneHot t ix d = .ok u ∧ u.shape = delAt d s ∧
      ∀ i, InB (delAt d s) i → u.get i = t.get (insAt d (k i) i) := by
  obtain ⟨u, h1, h2, h3⟩ := C23_index_iff t ix s d hd k ht hi
  exact ⟨u, h1, h2, fun i hb => (h3 i hb (hk i hb)).2 (Or.inl fun j hj _ => hf _ (InB_insAt hd hb hj))⟩

/-- **C23 is false** for log-probabilities: whenever an entry that is not selected is `-inf` and the selected one is not NaN,
`index_one_hot` returns NaN instead of the selected entry. -/
theorem C23_refuted_index (t ix : Tensor Fl) (s : List Nat) (d : Nat) (hd : d < s.length) (k : List Nat → Nat)
    (ht : t.shape = s) (hi : OneHot d s k ix) (i : List Nat) (hb : InB (delAt d s) i) (j : Nat)
    (hj : j < at' d s) (hne : j ≠ k i) (hinf : t.get (insAt d j i) = .ninf) :
    ∃ u, indexOneHot t ix d = .ok u ∧ u.get i = .nan := by
  obtain ⟨u, h1, h2, h3⟩ := indexOneHot_run ht hi hd
  refine ⟨u, h1, ?_⟩
  rw [h3 i hb]
  exact Fl.sumN_nan hj (Fl.mul_oh_nan (by rw [hinf]; rintro ⟨r, hr⟩; cases hr) hne)

/-- a 2×3 tensor with rows `[0, 1, -inf]`, `[1, 2, 3]`, selecting entry 1 of both rows: finite at row 1, NaN at row 0. -/
example : ∃ t ix : Tensor Fl, t.shape = [2, 3] ∧ OneHot 1 [2, 3] (fun _ => 1) ix ∧ InB (delAt 1 [2, 3]) [0] ∧
    t.get (insAt 1 2 [0]) = .ninf ∧ t.get (insAt 1 1 [0]) = .fin 1 ∧ (∀ j, (t.get (insAt 1 j [1])).IsFin) :=
  ⟨⟨[2, 3], fun i => if i = [0, 2] then .ninf else .fin i.sum⟩, ⟨[2, 3], fun i => if at' 1 i = 1 then .fin 1 else .fin 0⟩,
    rfl, ⟨rfl, fun i _ => rfl⟩, by simp [InB, delAt], by simp [insAt], by simp [insAt], fun j => by simp [insAt]⟩

theorem largest_softmax {n : Nat} (hn : 0 < n) {f : Nat → Fl} (h : ∀ i, i < n → NN (f i)) :
    Largest n f (Fl.argmaxN n fun k => Fl.softmax n f k) := by
  refine ⟨Fl.argmaxN_lt hn _, fun j hj hlt => ?_⟩
  set k := Fl.argmaxN n fun k => Fl.softmax n f k with hk
  have hkn : k < n := Fl.argmaxN_lt hn _
  by_cases h0 : ∑ i ∈ Finset.range n, toP (f i) = 0
  · rw [Finset.sum_eq_zero_iff] at h0
    have e : ∀ i, i < n → f i = .ninf := fun i hi =>
      toP_injective (h i hi) trivial ((h0 i (by simpa using hi)).trans (by simp))
    rw [e j hj, e k hkn] at hlt
    exact hlt
  · obtain ⟨L, hL⟩ : (Fl.lse n f).IsFin := (NN_lse h).isFin (by rwa [toP_lse h])
    have hs : ∀ i, i < n → Fl.softmax n f i = .fin ((Fl.softmax n f i).val) := by
      intro i hi
      have := h i hi
      unfold Fl.softmax Fl.logSoftmax
      rw [hL]
      cases hfi : f i <;> simp_all [NN]; rfl
    have hmax := Fl.argmaxN_max hs j hj
    rw [← hk] at hmax
    unfold Fl.softmax Fl.logSoftmax at hmax
    rw [hL] at hmax
    have h1 := h j hj
    have h2 := h k hkn
    cases hfj : f j with
    | nan => rw [hfj] at h1; exact h1
    | pinf => rw [hfj] at h1; exact h1
    | ninf => rw [hfj] at hlt; cases hfk : f k <;> rw [hfk] at hlt <;> exact hlt
    | fin a =>
      rw [hfj] at hlt hmax
      cases hfk : f k with
      | nan => rw [hfk] at h2; exact h2
      | pinf => rw [hfk] at h2; exact h2
      | ninf =>
        rw [hfk] at hmax
        have : Real.exp (a - L) ≤ 0 := hmax
        exact absurd (Real.exp_pos (a - L)) (not_lt.2 this)
      | fin b =>
        rw [hfk] at hmax hlt
        have h3 : Real.exp (a - L) ≤ Real.exp (b - L) := hmax
        rw [Real.exp_le_exp] at h3
        have h4 : b < a := by simpa using hlt
        linarith

theorem NN_perturb {noise : Option (List Nat → Fl)} {g : List Nat → Fl} {i : List Nat} (h : NN (g i))
    (hn : ∀ f, noise = some f → (f i).IsFin) : NN (perturb noise g i) := by
  cases noise with
  | none => exact h
  | some f =>
    obtain ⟨r, hr⟩ := hn f rfl
    unfold perturb
    dsimp only
    rw [hr]
    cases hg : g i <;> simp_all [NN] <;> trivial

/-- **C23**, second half, exactly: for log-weights `w` of any shape and any finite noise (or none, in MPE mode), `SIMPLE` returns
a tensor of the same shape; it is a one-hot encoding of a largest perturbed weight **if and only if** no weight is NaN or
`+inf` (`-inf` is allowed, even everywhere). -/
theorem C23_simple_iff (w : Tensor Fl) (s : List Nat) (d : Nat) (hd : d < s.length) (hK : 0 < at' d s) (hw : w.shape = s)
    (noise : Option (List Nat → Fl)) (hn : ∀ f, noise = some f → ∀ i, InB s i → (f i).IsFin) :
    ∃ t, simple none (some w) d noise = .ok t ∧ t.shape = s ∧
      ((∃ k, OneHot d s k t ∧ ∀ i, InB (delAt d s) i →
          Largest (at' d s) (fun j => perturb noise w.get (insAt d j i)) (k i)) ↔
        ∀ i, InB s i → w.get i ≠ .nan ∧ w.get i ≠ .pinf) := by
  obtain ⟨t, h1, h2⟩ := simple_gen (noise := noise) (Is.refl w hw) hd hK
  refine ⟨t, h1, h2.1, ?_, ?_⟩
  · rintro ⟨k, ⟨_, h3⟩, _⟩ i hi
    have h4 := h3 i hi
    rw [h2.get hi] at h4
    have h5 : ∀ x : Fl, (w.get i).exp = x → x ≠ .nan ∧ x ≠ .pinf := by
      intro x hx
      rw [hx] at h4
      refine ⟨?_, ?_⟩ <;> rintro rfl
      · rw [Fl.add_nan] at h4
        split_ifs at h4
      · obtain ⟨q, hq⟩ := oh_fin (Fl.argmaxN (at' d s) fun k => Fl.softmax (at' d s)
          (fun j => perturb noise w.get (setAt d j i)) k) (at' d i)
        rw [hq] at h4
        have : (Fl.fin q - .pinf + .pinf : Fl) = .nan := rfl
        rw [this] at h4
        split_ifs at h4
    constructor
    · intro e; rw [e] at h5; exact (h5 _ rfl).1 rfl
    · intro e; rw [e] at h5; exact (h5 _ rfl).2 rfl
  · intro h
    have hnn : ∀ i, InB s i → NN (w.get i) := by
      intro i hi
      have := h i hi
      cases hx : w.get i <;> simp_all [NN]
    refine ⟨fun i => Fl.argmaxN (at' d s) fun k => Fl.softmax (at' d s) (fun j => perturb noise w.get (insAt d j i)) k,
      ⟨h2.1, fun i hi => ?_⟩, fun i hi => ?_⟩
    · have hl := Tensor.InB.length hi
      rw [h2.get hi]
      simp only [insAt_delAt _ (show d < i.length by omega)]
      have hfin : ((w.get i).exp).IsFin := by
        have := hnn i hi
        cases hx : w.get i <;> simp_all [NN] <;> exact ⟨_, rfl⟩
      obtain ⟨r, hr⟩ := hfin
      rw [hr]
      unfold oh
      split_ifs <;> simp
    · exact largest_softmax hK fun j hj => NN_perturb (hnn _ (InB_insAt hd hi hj)) fun f hf =>
        hn f hf _ (InB_insAt hd hi hj)

/-- **C23**, second half, for `logits`: if all logits are finite, `SIMPLE(logits=...)` returns a one-hot encoding of a largest
perturbed logit, for every finite noise.  Missing: infinite logits. -/
theorem C23_simple_logits_partial (w : Tensor Fl) (s : List Nat) (d : Nat) (hd : d < s.length) (hK : 0 < at' d s)
    (hw : w.shape = s) (hf : ∀ i, InB s i → (w.get i).IsFin)
    (noise : Option (List Nat → Fl)) (hn : ∀ f, noise = some f → ∀ i, InB s i → (f i).IsFin) :
    ∃ t k, simple (some w) none d noise = .ok t ∧ OneHot d s k t ∧ ∀ i, InB (delAt d s) i →
      Largest (at' d s) (fun j => perturb noise w.get (insAt d j i)) (k i) := by
  obtain ⟨t, h1, h2⟩ := simple_logits_gen (noise := noise) (Is.refl w hw) hd hK
  refine ⟨t, fun i => Fl.argmaxN (at' d s) fun k => Fl.softmax (at' d s) (fun j => perturb noise w.get (insAt d j i)) k, h1,
    ⟨h2.1, fun i hi => ?_⟩, fun i hi => ?_⟩
  · have hl := Tensor.InB.length hi
    rw [h2.get hi]
    simp only [insAt_delAt _ (show d < i.length by omega)]
    rw [Fl.softmax_fin (fun k hk => (hf _ (InB_setAt' hi hk)).eq) (InB_at hi hd)]
    unfold oh
    split_ifs <;> simp
  · exact largest_softmax hK fun j hj => NN_perturb (NN_of_isFin (hf _ (InB_insAt hd hi hj))) fun f hf =>
      hn f hf _ (InB_insAt hd hi hj)

/-- weights with an impossible child, noise of both signs. -/
example : (∀ i, InB [2, 3] i → (fun i : List Nat => if at' 1 i = 2 then Fl.ninf else .fin i.sum) i ≠ .nan ∧
      (fun i : List Nat => if at' 1 i = 2 then Fl.ninf else .fin i.sum) i ≠ .pinf) ∧
    ∀ f, some (fun i : List Nat => Fl.fin (1 - i.sum)) = some f → ∀ i, InB [2, 3] i → (f i).IsFin := by
  refine ⟨fun i _ => ?_, ?_⟩
  · dsimp only
    split_ifs <;> simp
  · rintro f ⟨⟩ i _
    exact ⟨_, rfl⟩

end Props
end Einet
