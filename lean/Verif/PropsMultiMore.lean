import Verif.PropsParams

/-!
# C32, continued: uniqueness of the owner, modes, parameters and coverage
-/

open Classical
noncomputable section
namespace Einet
open Tensor MeasureTheory
open scoped ENNReal

/-- `MultiDistributionLayer.get_params` (multidistribution.py:124-142) on the parameters of the distributions of the scopes. -/
def MultiLeaf.getParamsOf (scopes_to_dist : List (List Nat × LeafSpec)) (C I R : Nat) : Res (Tensor Fl) := do
  let params ← scopes_to_dist.mapM fun s => s.2.getParams ⟨s.1.length, C, I, R⟩
  MultiLeaf.getParams params

namespace Props

/-- **C32**, no feature has two owners. -/
theorem C32_owner_unique (sd : List (List Nat × LeafSpec)) (F C I R : Nat) (hp : Partition sd F) (f : Nat)
    (spec spec' : LeafSpec) (B B' : BaseLeaf) (j j' : Nat) (h : Owner sd C I R f spec B j) (h' : Owner sd C I R f spec' B' j') :
    spec = spec' ∧ B = B' ∧ j = j' := by
  obtain ⟨s, hs, hj, hB⟩ := h.ex
  obtain ⟨s', hs', hj', hB'⟩ := h'.ex
  have hn : ((sd.map Prod.fst).flatten).Nodup := hp.nodup_iff.2 List.nodup_range
  obtain ⟨hn1, hd⟩ := List.nodup_flatten.1 hn
  rw [List.pairwise_map] at hd
  have he : (s, spec) = (s', spec') := by
    by_contra hne
    have : Std.Symm fun a b : List Nat × LeafSpec => a.1.Disjoint b.1 := ⟨fun _ _ h => h.symm⟩
    exact (hd.forall hs hs' hne) (List.mem_of_getElem? hj) (List.mem_of_getElem? hj')
  obtain ⟨rfl, rfl⟩ := Prod.mk.inj he
  rw [hB] at hB'
  refine ⟨rfl, Except.ok.inj hB', ?_⟩
  obtain ⟨a1, a2⟩ := List.getElem?_eq_some_iff.1 hj
  obtain ⟨b1, b2⟩ := List.getElem?_eq_some_iff.1 hj'
  exact (hn1 s (List.mem_map.2 ⟨_, hs, rfl⟩)).getElem_inj_iff.1 (a2.trans b2.symm)

/-- **C32**, modes: with `is_mpe` or `mpe_at_leaves` position `f` is the mode of the distribution of feature `f`. -/
theorem C32_mode (sd : List (List Nat × LeafSpec)) (F C I R : Nat) (L : MultiLeaf) (h : MultiLeaf.init sd F C I R = .ok L)
    (hp : Partition sd F) (hg : ∀ s ∈ sd, s.2.Good ∧ s.2.CanSample) (ctx : Ctx) (N : Nat) (idx : Nat → Nat → Nat) (rr : Nat → Nat)
    (hc : CtxOK ctx N F I R idx rr) (hm : ctx.is_mpe = true ∨ ctx.mpe_at_leaves = true) :
    ∃ t, L.sample ctx = .pure t ∧ t.shape = [N, C, F] ∧ ∀ f spec B j, Owner sd C I R f spec B j →
      ∀ n, n < N → ∀ c, c < C → t.get [n, c, f] = B.mode c j (idx n f) (rr n) := by
  have hok := init_OK h hp
  obtain ⟨e1, e2, e3, e4, h0, hall, -⟩ := init_spec h
  have hc1 := hc
  rw [← e1, ← e3, ← e4] at hc1
  have hQr : ∀ p ∈ L.parts, ∃ t, ((Rand.lift (ctx.indices_out.indexDim1 p.1)).bind fun i =>
      p.2.sample { ctx with indices_out := i }) = .pure t ∧ t.Is (setAt 2 p.1.length [N, C, F])
        fun j => p.2.mode (at' 1 j) (at' 2 j) (idx (at' 0 j) (p.1.getD (at' 2 j) 0)) (rr (at' 0 j)) := by
    intro p hpm
    obtain ⟨s, hs, he, hpos, hB⟩ := forall2_left hall.flip hpm
    obtain ⟨res, hr, hr2⟩ := part_run hok hpm (by rw [he]; exact hpos)
      ((LeafSpec.build_spec hB).2.2.2 (hg s hs).1 (hg s hs).2).samplable hc1
    rw [hr]
    unfold BaseLeaf.draws
    rw [if_pos hm, Rand.pure_bind]
    have h3 := hr2 fun j => p.2.mode (at' 1 j) (at' 2 j) (at' 3 j) (at' 4 j)
    rw [e2] at h3
    exact ⟨_, rfl, h3⟩
  obtain ⟨ts, hts, hf2⟩ := forEach_pure hQr
  obtain ⟨y, hy, hy1, hy2⟩ := MultiLeaf.assemble hok (s := [N, C, F]) (by simp) hf2
  refine ⟨y, ?_, by rw [hy1, e1]; rfl, ?_⟩
  · unfold MultiLeaf.sample
    rw [hts, Rand.pure_bind, hy, Rand.lift_ok]
  · intro f spec B j ho n hn c hcc
    obtain ⟨s, hsB, hj, hsf⟩ := ho.part h
    have hv := hy2 (s, B) hsB j hj [n, c, 0] ⟨hn, hcc, by simp, trivial⟩
    simp only [setAt, at'] at hv
    rw [hsf] at hv
    rw [hv, List.getD_eq_getElem _ _ hj, hsf]

/-! ### Parameters -/

theorem padParams_is {t : Tensor Fl} {C F I R P m : Nat} {w : List Nat → Fl} (h : t.Is [1, C, F, I, R, P] w) (hP : P ≤ m) :
    Res.Sat (MultiLeaf.padParams m t) fun y => y.Is [1, C, F, I, R, m] fun i => if at' 5 i < P then w i else .fin 0 := by
  have e1 : t.rank = 6 := by simp [rank, h.1]
  have e2 : t.size 5 = P := by simp [size, h.1, at']
  unfold MultiLeaf.padParams
  rw [e1]
  rw [show 6 - 1 = 5 from rfl, e2]
  by_cases hlt : P < m
  · rw [if_pos hlt]
    refine (cat_is h (full_is _ _) (d := 5) (by simp) (by rw [h.1]; simp [setAt])).mono fun y hy => ?_
    rw [h.1] at hy
    simp only [setAt, at'] at hy
    rwa [show P + (m - P) = m by omega] at hy
  · rw [if_neg hlt]
    obtain rfl : P = m := by omega
    refine ⟨t, rfl, Is.congr h ((AllIdx_iff _ _).2 fun i hi => ?_)⟩
    rw [if_pos (show at' 5 i < P from InB_at (d := 5) hi (by simp))]

theorem getParams_shape {s : LeafSpec} {d : LeafDims} {t : Tensor Fl} (h : s.getParams d = .ok t) :
    ∃ P, t.shape = [1, d.num_channels, d.num_features, d.num_leaves, d.num_repetitions, P] := by
  cases s with
  | normal m l => obtain rfl := Except.ok.inj h; exact ⟨2, rfl⟩
  | ratNormal lo hi mlo mhi m l =>
    unfold LeafSpec.getParams at h
    obtain ⟨_, _, h⟩ := bind_ok h
    obtain ⟨_, _, h⟩ := bind_ok h
    simp only [Res.pure_eq, Except.ok.injEq] at h
    exact ⟨2, by rw [← h]; rfl⟩
  | binomial n l => obtain rfl := Except.ok.inj h; exact ⟨1, rfl⟩
  | bernoulli n => cases h
  | categorical n l => obtain rfl := Except.ok.inj h; exact ⟨_, rfl⟩

theorem build_normal (m l : Par) (d : LeafDims) : (LeafSpec.normal m l).build none d = .ok (normalLeaf d m l) := by
  unfold LeafSpec.build
  rw [require_true _ rfl, Res.ok_bind]
  rfl

theorem mapM_ok {α β : Type} {f : α → Res β} {g : α → β} {l : List α} (h : ∀ a ∈ l, f a = .ok (g a)) : l.mapM f = .ok (l.map g) := by
  induction l with
  | nil => rfl
  | cons a l ih =>
    rw [List.mapM_cons, h a (by simp), Res.ok_bind, ih fun a ha => h a (by simp [ha]), Res.ok_bind]
    rfl

theorem le_foldr_max {l : List Nat} {a : Nat} (h : a ∈ l) : a ≤ l.foldr max 0 := by
  induction l with
  | nil => cases h
  | cons b l ih =>
    rw [List.foldr_cons]
    rcases List.mem_cons.1 h with rfl | h
    · exact le_max_left _ _
    · exact (ih h).trans (le_max_right _ _)

/-- **C32**, parameters: position `pos` holds the parameters of the feature that stands at place `pos` of the concatenated
scopes, filled up with zeros. -/
theorem C32_params_order (sd : List (List Nat × LeafSpec)) (F C I R : Nat) (hF : 0 < F) (hp : Partition sd F)
    (hs : ∀ s ∈ sd, ∃ t, s.2.getParams ⟨s.1.length, C, I, R⟩ = .ok t) :
    ∃ y m, MultiLeaf.getParamsOf sd C I R = .ok y ∧ y.shape = [1, C, F, I, R, m] ∧
      ∀ pos f, ((sd.map Prod.fst).flatten)[pos]? = some f → ∀ spec B j, Owner sd C I R f spec B j →
        ∃ t, spec.getParams B.dims = .ok t ∧ t.size 5 ≤ m ∧ ∀ c, c < C → ∀ i, i < I → ∀ r, r < R → ∀ q, q < m →
          y.get [0, c, pos, i, r, q] = if q < t.size 5 then t.get [0, c, j, i, r, q] else .fin 0 := by
  have : Nonempty (Tensor Fl) := ⟨full [] (.fin 0)⟩
  choose! t ht using hs
  have hsum : (sd.map fun s => s.1.length).sum = F := by
    have := hp.length_eq
    rwa [List.length_range, List.length_flatten, List.map_map] at this
  have hne : sd ≠ [] := by rintro rfl; simp at hsum; omega
  set m := ((sd.map t).map fun p => p.size (p.rank - 1)).foldr max 0 with hm
  have hsh : ∀ s ∈ sd, (t s).Is [1, C, s.1.length, I, R, (t s).size 5] (t s).get ∧ (t s).size 5 ≤ m := by
    intro s hs
    obtain ⟨P, e⟩ := getParams_shape (ht s hs)
    have e5 : (t s).size 5 = P := by simp [size, e, at']
    refine ⟨Is.refl _ (by rw [e, e5]), le_foldr_max ?_⟩
    rw [List.map_map]
    exact List.mem_map.2 ⟨s, hs, by simp [rank, e]⟩
  obtain ⟨ps, hps, hf2⟩ := Res.Sat.mapM (l := sd) (f := fun s => MultiLeaf.padParams m (t s)) fun s hs => padParams_is (hsh s hs).1 (hsh s hs).2
  obtain ⟨y, hy, hy1, hy2⟩ := catAll_is (len := fun s : List Nat × LeafSpec => s.1.length) (d := 2) (s := [1, C, F, I, R, m])
    (g := fun s i => if at' 5 i < (t s).size 5 then (t s).get i else .fin 0) (by simp) hne hf2
  refine ⟨y, m, ?_, by rw [hy1, hsum]; rfl, ?_⟩
  · unfold MultiLeaf.getParamsOf
    rw [mapM_ok ht, Res.ok_bind]
    unfold MultiLeaf.getParams
    rw [require_true _ (by simpa using hne), Res.ok_bind, ← hm, List.mapM_map]
    exact (congrArg (· >>= fun params => catAll 2 params) hps).trans hy
  · intro pos f hpos spec B j ho
    obtain ⟨s, hs, hj, hB⟩ := ho.ex
    obtain ⟨hj1, hj2⟩ := List.getElem?_eq_some_iff.1 hj
    obtain ⟨D₁, D₂, e⟩ := List.append_of_mem hs
    have hpos' := MultiLeaf.allScopes_at e hj1
    have hn : ((sd.map Prod.fst).flatten).Nodup := hp.nodup_iff.2 List.nodup_range
    obtain ⟨a1, a2⟩ := List.getElem?_eq_some_iff.1 hpos
    obtain ⟨b1, b2⟩ := List.getElem?_eq_some_iff.1 hpos'
    have hpq : pos = (D₁.map fun p => p.1.length).sum + j := hn.getElem_inj_iff.1 (a2.trans (hj2.symm.trans b2.symm))
    obtain ⟨_, ⟨d1, d2, d3, d4⟩, _⟩ := LeafSpec.build_spec hB
    refine ⟨t (s, spec), ?_, (hsh _ hs).2, ?_⟩
    · rw [← ht _ hs]
      unfold BaseLeaf.dims
      rw [d1, d2, d3, d4]
    · intro c hc i hi r hr q hq
      have := hy2 D₁ (s, spec) D₂ e j hj1 [0, c, 0, i, r, q] ⟨by omega, hc, by simp, hi, hr, hq, trivial⟩
      simp only [setAt, at'] at this
      rw [hpq, this]

/-- **C32** (part), parameters: they are in the order of the features if the scopes are given in increasing order.  Missing: other
orders, see `C32_refuted_params`. -/
theorem C32_params_partial (sd : List (List Nat × LeafSpec)) (F C I R : Nat) (hF : 0 < F)
    (hp : (sd.map Prod.fst).flatten = List.range F) (hs : ∀ s ∈ sd, ∃ t, s.2.getParams ⟨s.1.length, C, I, R⟩ = .ok t) :
    ∃ y m, MultiLeaf.getParamsOf sd C I R = .ok y ∧ y.shape = [1, C, F, I, R, m] ∧
      ∀ f spec B j, Owner sd C I R f spec B j →
        ∃ t, spec.getParams B.dims = .ok t ∧ t.size 5 ≤ m ∧ ∀ c, c < C → ∀ i, i < I → ∀ r, r < R → ∀ q, q < m →
          y.get [0, c, f, i, r, q] = if q < t.size 5 then t.get [0, c, j, i, r, q] else .fin 0 := by
  obtain ⟨y, m, h1, h2, h3⟩ := C32_params_order sd F C I R hF (by unfold Partition; rw [hp]) hs
  refine ⟨y, m, h1, h2, fun f spec B j ho => h3 f f ?_ spec B j ho⟩
  obtain ⟨s, hs, hj, hB⟩ := ho.ex
  have : f ∈ (sd.map Prod.fst).flatten := List.mem_flatten.2 ⟨s, List.mem_map.2 ⟨_, hs, rfl⟩, List.mem_of_getElem? hj⟩
  rw [hp] at this ⊢
  rw [List.getElem?_range (List.mem_range.1 this)]

/-- **C32** is false for the parameters: whenever the scopes are a partition but not in increasing order, there are parameters
(`Normal` leaves) for which some feature's place holds the mean of another feature. -/
theorem C32_refuted_params (sc : List (List Nat)) (F C I R : Nat) (hF : 0 < F) (hC : 0 < C) (hI : 0 < I) (hR : 0 < R)
    (hp : sc.flatten.Perm (List.range F)) (hn : sc.flatten ≠ List.range F) (hpos : ∀ s ∈ sc, 0 < s.length) :
    ∃ sd L y, sd.map Prod.fst = sc ∧ MultiLeaf.init sd F C I R = .ok L ∧ MultiLeaf.getParamsOf sd C I R = .ok y ∧
      ∃ f, f < F ∧ ∀ spec B j, Owner sd C I R f spec B j → ∀ t, spec.getParams B.dims = .ok t →
        y.get [0, 0, f, 0, 0, 0] ≠ t.get [0, 0, j, 0, 0, 0] := by
  set sd : List (List Nat × LeafSpec) := sc.map fun s => (s, .normal (fun _ j _ _ => (s.getD j 0 : ℝ)) fun _ _ _ _ => 0) with hsd
  have e1 : sd.map Prod.fst = sc := by rw [hsd, List.map_map]; simp [Function.comp_def]
  have hp' : Partition sd F := by unfold Partition; rw [e1]; exact hp
  have hmem : ∀ s ∈ sd, 0 < s.1.length ∧ s.2 = .normal (fun _ j _ _ => (s.1.getD j 0 : ℝ)) fun _ _ _ _ => 0 := by
    intro s hs
    obtain ⟨a, ha, rfl⟩ := List.mem_map.1 hs
    exact ⟨hpos a ha, rfl⟩
  obtain ⟨parts, hparts⟩ : ∃ ps, sd.mapM (MultiLeaf.initPart C I R) = .ok ps :=
    ⟨_, mapM_ok (g := fun s => (s.1, normalLeaf ⟨s.1.length, C, I, R⟩ (fun _ j _ _ => (s.1.getD j 0 : ℝ)) (fun _ _ _ _ => 0))) (by
      intro s hs
      obtain ⟨h1, h2⟩ := hmem s hs
      unfold MultiLeaf.initPart
      rw [require_true _ (show 1 ≤ s.1.length from h1), Res.ok_bind, h2, build_normal]
      rfl)⟩
  have hlen : (MultiLeaf.allScopes sd).length = F := by
    have := hp'.length_eq
    rwa [List.length_range] at this
  obtain ⟨y, m, hy, hsh, hv⟩ := C32_params_order sd F C I R hF hp' fun s hs => ⟨_, by rw [(hmem s hs).2]; rfl⟩
  obtain ⟨f, hf, hne⟩ : ∃ f, f < F ∧ sc.flatten[f]? ≠ some f := by
    by_contra hall
    push Not at hall
    refine hn (List.ext_getElem? fun i => ?_)
    by_cases hi : i < F
    · rw [hall i hi, List.getElem?_range hi]
    · have := hp.length_eq
      rw [List.length_range] at this
      rw [List.getElem?_eq_none (by omega), List.getElem?_eq_none (by simp; omega)]
  obtain ⟨L, hL⟩ : ∃ L, MultiLeaf.init sd F C I R = .ok L := by
    unfold MultiLeaf.init
    rw [require_true _ (show 1 ≤ F ∧ 1 ≤ C ∧ 1 ≤ I ∧ 1 ≤ R from ⟨hF, hC, hI, hR⟩), Res.ok_bind, require_true _ hlen, Res.ok_bind,
      hparts, Res.ok_bind]
    exact ⟨_, rfl⟩
  refine ⟨sd, L, y, e1, hL, hy, f, hf, ?_⟩
  · intro spec B j ho t ht
    obtain ⟨g, hg⟩ : ∃ g, sc.flatten[f]? = some g := by
      refine ⟨_, List.getElem?_eq_getElem ?_⟩
      have := hp.length_eq
      rw [List.length_range] at this
      omega
    have hgF : g < F := List.mem_range.1 (hp.mem_iff.1 (List.mem_of_getElem? hg))
    have key : ∀ h spec B j, Owner sd C I R h spec B j → ∀ t, spec.getParams B.dims = .ok t → 2 = t.size 5 ∧
        t.get [0, 0, j, 0, 0, 0] = .fin (h : ℝ) := by
      intro h spec B j ho t ht
      obtain ⟨s, hs, hj, hB⟩ := ho.ex
      have e := (hmem _ hs).2
      dsimp only at e
      rw [e] at ht
      obtain rfl := Except.ok.inj ht
      refine ⟨rfl, ?_⟩
      obtain ⟨j1, j2⟩ := List.getElem?_eq_some_iff.1 hj
      rw [← j2, ← List.getD_eq_getElem s 0 j1]
      simp [stackPar, at']
    obtain ⟨spec', B', j', ho'⟩ := C32_owner sd F C I R L hL hp' g hgF
    obtain ⟨t', ht', hm, hval⟩ := hv f g (by rw [e1]; exact hg) spec' B' j' ho'
    obtain ⟨k1, k2⟩ := key g spec' B' j' ho' t' ht'
    rw [hval 0 hC 0 hI 0 hR 0 (by omega), if_pos (by omega), k2, (key f spec B j ho t ht).2]
    intro e
    have : (g : ℝ) = f := by simpa using e
    exact hne (by rw [hg, Nat.cast_inj.1 this])

example : ∃ sc : List (List Nat), sc.flatten.Perm (List.range 3) ∧ sc.flatten ≠ List.range 3 ∧ ∀ s ∈ sc, 0 < s.length :=
  ⟨[[2, 0], [1]], by decide, by decide, by decide⟩

/-- **C32**, the constructor accepts scopes that are no partition: here feature 1 has no influence, and position 1 shows feature
0. -/
theorem C32_refuted_coverage (m l : Par) : ∃ L B, MultiLeaf.init [([0], .normal m l), ([0], .normal m l)] 2 1 1 1 = .ok L ∧
    (LeafSpec.normal m l).build none ⟨1, 1, 1, 1⟩ = .ok B ∧
    ∀ (x : Tensor Fl) (a : ℝ) (b : Fl), x.shape = [1, 1, 2] → x.get [0, 0, 0] = .fin a → x.get [0, 0, 1] = b →
      ∃ y, L.forward x none = .ok y ∧ y.get [0, 0, 1, 0, 0] = B.logProb 0 0 0 0 (.fin a) := by
  obtain ⟨B, hB⟩ : ∃ B, (LeafSpec.normal m l).build none ⟨1, 1, 1, 1⟩ = .ok B := ⟨_, build_normal _ _ _⟩
  have hB' : (LeafSpec.normal m l).build none ⟨[0].length, 1, 1, 1⟩ = .ok B := hB
  obtain ⟨L, hL⟩ : ∃ L, MultiLeaf.init [([0], .normal m l), ([0], .normal m l)] 2 1 1 1 = .ok L := by
    unfold MultiLeaf.init
    rw [require_true _ (by decide), Res.ok_bind, require_true _ (by simp [MultiLeaf.allScopes]), Res.ok_bind,
      mapM_ok (f := MultiLeaf.initPart 1 1 1) (g := fun s => (s.1, B)) (by
        intro s hs
        have hs' : s = ([0], .normal m l) := by simpa using hs
        rw [hs']
        unfold MultiLeaf.initPart
        rw [require_true _ (by simp), Res.ok_bind, hB']
        rfl), Res.ok_bind]
    exact ⟨_, rfl⟩
  refine ⟨L, B, hL, hB, fun x a b hx ha hb => ?_⟩
  obtain ⟨e1, e2, e3, e4, h0, hall, -, hni, -⟩ := init_spec hL
  have hparts : L.parts = [([0], B), ([0], B)] := by
    generalize L.parts = ps at hall
    cases hall with
    | cons h1 h2 =>
      cases h2 with
      | cons h2 h3 =>
        cases h3
        obtain ⟨a1, -, a2⟩ := h1
        obtain ⟨b1, -, b2⟩ := h2
        dsimp only at a1 a2 b1 b2
        rw [hB'] at a2 b2
        have p1 := Prod.ext (y := ([0], B)) a1 (Except.ok.inj a2).symm
        have p2 := Prod.ext (y := ([0], B)) b1 (Except.ok.inj b2).symm
        rw [p1, p2]
  have hnf : L.needs_inversion = false := by
    rw [hni]
    simp only [ne_eq, decide_eq_false_iff_not, not_not]
    show [0, 0] = [0, 0].mergeSort _
    refine (List.mergeSort_of_pairwise ?_).symm
    decide
  obtain ⟨_, ⟨d1, d2, d3, d4⟩, hgood, _⟩ := LeafSpec.build_spec hB
  have hprop := hgood trivial
  dsimp only at d1 d2 d3 d4
  have hpart : Res.Sat (do let x_d ← x.indexDim2 [0]; B.forward x_d none) fun t => t.Is (setAt 2 1 [1, 1, 1, 1, 1])
      fun i => B.entry none (.fin a) (at' 1 i) (at' 2 i) (at' 3 i) (at' 4 i) := by
    refine (indexDim2_is (Is.refl x hx) (by simp) (p := [0]) (by simp [at'])).bind fun xd hxd => ?_
    have h3 : xd.Is3 1 B.num_channels B.num_features fun _ _ _ => .fin a := by
      rw [d1, d2]
      refine Is.is3 hxd ?_
      intro n hn c hc f hf
      obtain rfl : n = 0 := by omega
      obtain rfl : c = 0 := by omega
      obtain rfl : f = 0 := by omega
      simp [setAt, at', ha]
    refine (B.forward_is h3 (fun n _ c _ f _ => ?_) (ms := none) rfl).mono fun y hy => ?_
    · show B.valid f (if (Fl.fin a).isnan then .fin 0 else .fin a)
      rw [if_neg (by simp [Fl.isnan])]
      exact (LeafSpec.valid_iff hB a).2 trivial
    · rw [d1, d2, d3, d4] at hy
      exact hy
  obtain ⟨t, ht, htv⟩ := hpart
  obtain ⟨y, hy, hy1, hy2⟩ := catAll_is (len := fun _ : Unit => 1) (g := fun _ i => B.entry none (.fin a) (at' 1 i) (at' 2 i) (at' 3 i) (at' 4 i))
    (d := 2) (s := [1, 1, 1, 1, 1]) (by simp) (D := [(), ()]) (ts := [t, t]) (by simp) (.cons htv (.cons htv .nil))
  have hv := hy2 [()] () [] rfl 0 (by simp) [0, 0, 0, 0, 0] ⟨by simp, by simp, by simp, by simp, by simp, trivial⟩
  simp only [setAt, at', List.map_cons, List.map_nil, List.sum_cons, List.sum_nil] at hv
  have hfin : (B.logProb 0 0 0 0 (.fin a)).IsFin := hprop.isFin 0 (by omega) 0 (by omega) 0 (by omega) 0 (by omega) a
    ((LeafSpec.valid_iff hB a).2 trivial)
  have hent : B.entry none (.fin a) 0 0 0 0 = B.logProb 0 0 0 0 (.fin a) := by
    cases hl : B.logProb 0 0 0 0 (.fin a) <;> simp_all [BaseLeaf.entry, Fl.isnan, Fl.IsFin]
  refine ⟨_, by
    unfold MultiLeaf.forward
    rw [hparts]
    simp only [List.mapM_cons, List.mapM_nil]
    rw [ht]
    simp only [Res.ok_bind, Res.pure_eq]
    rw [hy, Res.ok_bind]
    unfold MultiLeaf.reorder MultiLeaf.marginalize
    rw [hnf, if_neg (by simp), Res.ok_bind]
    rfl, ?_⟩
  dsimp only
  rw [show y.get [0, 0, 1, 0, 0] = _ from hv, hent]
  obtain ⟨v, hv⟩ : ∃ v, B.logProb 0 0 0 0 (.fin a) = .fin v := by
    cases hl : B.logProb 0 0 0 0 (.fin a) <;> simp_all [Fl.IsFin]
  rw [hv]
  simp [Fl.isnan]

/-! ### A case meeting the hypotheses -/

/-- features 2 and 0 normal, feature 1 categorical. -/
def exScopes : List (List Nat × LeafSpec) :=
  [([2, 0], exLeaf), ([1], .categorical 3 fun c f i r k => c + f + i + r + 2 * k)]

theorem exScopes_init : ∃ L, MultiLeaf.init exScopes 3 2 4 2 = .ok L := by
  unfold MultiLeaf.init
  rw [require_true _ (by decide), Res.ok_bind, require_true _ (by simp [MultiLeaf.allScopes, exScopes]), Res.ok_bind]
  have hc : ∀ k : Nat → Nat → Nat → Nat → Nat → ℝ, ∃ B, (LeafSpec.categorical 3 k).build none ⟨1, 2, 4, 2⟩ = .ok B := by
    intro k
    unfold LeafSpec.build
    rw [require_true _ rfl, Res.ok_bind]
    dsimp only
    rw [require_true _ (by norm_num), Res.ok_bind]
    exact ⟨_, rfl⟩
  have h1 : ∃ p, MultiLeaf.initPart 2 4 2 ([2, 0], exLeaf) = .ok p := by
    unfold MultiLeaf.initPart
    rw [require_true _ (by simp), Res.ok_bind]
    unfold exLeaf
    rw [build_normal]
    exact ⟨_, rfl⟩
  have h2 : ∃ p, MultiLeaf.initPart 2 4 2 ([1], .categorical 3 fun c f i r k => c + f + i + r + 2 * k) = .ok p := by
    obtain ⟨B, hB⟩ := hc fun c f i r k => c + f + i + r + 2 * k
    unfold MultiLeaf.initPart
    rw [require_true _ (by simp), Res.ok_bind]
    dsimp only [List.length_cons, List.length_nil]
    rw [hB]
    exact ⟨_, rfl⟩
  obtain ⟨p, hp⟩ := h1
  obtain ⟨q, hq⟩ := h2
  unfold exScopes
  simp only [List.mapM_cons, List.mapM_nil]
  rw [hp, hq]
  exact ⟨_, rfl⟩

/-- the hypotheses of the theorems above: a partition not in increasing order, with two kinds of leaves, data with a missing
entry, and a path. -/
example : ∃ L, MultiLeaf.init exScopes 3 2 4 2 = .ok L ∧ Partition exScopes 3 ∧ (∀ s ∈ exScopes, s.2.Good ∧ s.2.CanSample) ∧
    MultiBatch exScopes 5 2 3 ⟨[5, 2, 3], fun i => if at' 0 i = 1 then .nan else .fin 1⟩ ∧
    (∀ s ∈ exScopes, ∃ t, s.2.getParams ⟨s.1.length, 2, 4, 2⟩ = .ok t) ∧
    CtxOK ⟨5, ⟨[5, 3], fun i => i.sum % 4⟩, ⟨[5], fun i => i.sum % 2⟩, false, false, 1, 1, 2, false⟩ 5 3 4 2
      (fun n f => (n + f) % 4) (fun n => n % 2) := by
  obtain ⟨L, h⟩ := exScopes_init
  refine ⟨L, h, ?_, ?_, ⟨rfl, ?_⟩, ?_, ⟨rfl, ?_, ?_, ?_, ?_⟩⟩
  · unfold Partition exScopes; decide
  · intro s hs
    simp only [exScopes, List.mem_cons, List.not_mem_nil, or_false] at hs
    rcases hs with rfl | rfl
    · exact ⟨trivial, trivial⟩
    · exact ⟨by simp [LeafSpec.Good], trivial⟩
  · intro n hn c hc s spec hs f hf
    by_cases e : n = 1
    · left; simp [at', e]
    · right
      refine ⟨1, by simp [at', e], ?_⟩
      simp only [exScopes, List.mem_cons, List.not_mem_nil, or_false, Prod.mk.injEq] at hs
      rcases hs with ⟨_, rfl⟩ | ⟨_, rfl⟩
      · trivial
      · exact ⟨1, by norm_num, by norm_num⟩
  · intro s hs
    simp only [exScopes, List.mem_cons, List.not_mem_nil, or_false] at hs
    rcases hs with rfl | rfl
    · exact ⟨_, rfl⟩
    · exact ⟨_, rfl⟩
  · refine Is.is2 (Is.refl _ rfl) ?_
    intro n hn f hf; simp
  · intro n _ f _; exact Nat.mod_lt _ (by norm_num)
  · refine Is.intro rfl fun i hi => ?_
    match i, hi with
    | [n], _ => simp [at']
  · intro n _; exact Nat.mod_lt _ (by norm_num)

end Props
end Einet
