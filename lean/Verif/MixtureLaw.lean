import Verif.MixtureFacts
import Verif.PropsSample
import Mathlib.Data.List.GetD

/-!
# Laws of the rows sampled by mixtures
-/

open Classical MeasureTheory
open scoped ENNReal
noncomputable section
namespace Einet
open Tensor

namespace Rand
variable {α β γ δ : Type}

theorem E_const_mul {x : Rand α} (f : α → ℝ≥0∞) {c : ℝ≥0∞} (hc : c ≠ ⊤) : E x (fun a => c * f a) = c * E x f := by
  induction x with
  | pure a => rfl
  | fail e => simp [E]
  | draw K w k ih =>
    simp only [E]
    rw [Finset.mul_sum]
    exact Finset.sum_congr rfl fun j _ => by rw [ih j]; ring
  | leaf μ k ih =>
    simp only [E]
    rw [← lintegral_const_mul' _ _ hc]
    exact lintegral_congr fun x => ih x

/-- independent parts: the expectation of a product over all positions is the product of the expectations. -/
theorem E_forEach_prod {D : List α} {f : α → Rand γ} {out : γ → List β} {lab : α → List δ} {h : Nat → β → ℝ≥0∞}
    {R : Nat → δ → ℝ≥0∞} (hh : ∀ p b, h p b ≠ ⊤) (hR : ∀ p d, R p d ≠ ⊤)
    (hl : ∀ a ∈ D, (f a).All fun t => (out t).length = (lab a).length)
    (hE : ∀ a ∈ D, ∀ off, (f a).E (fun t => ((out t).mapIdx fun p => h (off + p)).prod) =
      ((lab a).mapIdx fun p => R (off + p)).prod) (off : Nat) :
    (forEach D f).E (fun ps => ((ps.flatMap out).mapIdx fun p => h (off + p)).prod) =
      ((D.flatMap lab).mapIdx fun p => R (off + p)).prod := by
  have fin : ∀ {β : Type} (h : Nat → β → ℝ≥0∞) (_ : ∀ p b, h p b ≠ ⊤) (l : List β), (l.mapIdx h).prod ≠ ⊤ := by
    intro β h hh l
    induction l generalizing h with
    | nil => simp
    | cons b l ih =>
      rw [List.mapIdx_cons, List.prod_cons]
      exact ENNReal.mul_ne_top (hh 0 b) (ih _ fun p b => hh (p + 1) b)
  induction D generalizing off with
  | nil => simp [forEach]
  | cons a D ih =>
    unfold forEach
    rw [E_bind]
    simp only [E_bind, E_pure]
    have e := ih (fun a ha => hl a (by simp [ha])) (fun a ha => hE a (by simp [ha])) (off + (lab a).length)
    have : ∀ t, (out t).length = (lab a).length →
        (forEach D f).E (fun ps => (((t :: ps).flatMap out).mapIdx fun p => h (off + p)).prod) =
        ((D.flatMap lab).mapIdx fun p => R (off + (lab a).length + p)).prod * ((out t).mapIdx fun p => h (off + p)).prod := by
      intro t ht
      rw [← e, mul_comm, ← E_const_mul _ (fin _ (fun p b => hh _ _) _)]
      congr 1
      funext ps
      rw [List.flatMap_cons, List.mapIdx_append, List.prod_append, ht]
      congr 3
      funext p
      rw [show off + (p + (lab a).length) = off + (lab a).length + p by ring]
    rw [E_congr (hl a (by simp)) this, E_const_mul _ (fin _ (fun p b => hR _ _) _), hE a (by simp), mul_comm,
      List.flatMap_cons, List.mapIdx_append, List.prod_append]
    congr 3
    funext p
    rw [show off + (p + (lab a).length) = off + (lab a).length + p by ring]

end Rand

theorem mapIdx_prod {β : Type} (h : Nat → β → ℝ≥0∞) (l : List β) (d : β) :
    (l.mapIdx h).prod = ∏ j ∈ Finset.range l.length, h j (l.getD j d) := by
  induction l generalizing h with
  | nil => simp
  | cons b l ih =>
    rw [List.mapIdx_cons, List.prod_cons, ih, List.length_cons, Finset.prod_range_succ']
    rw [mul_comm]
    simp

/-- a product along a permutation of the positions. -/
theorem prod_perm {σ : List Nat} {N : Nat} (h : σ.Perm (List.range N)) (F : Nat → Nat → ℝ≥0∞) :
    ∏ j ∈ Finset.range N, F j (σ.getD j 0) = ∏ p ∈ Finset.range N, F (σ.idxOf p) p := by
  have hl : σ.length = N := by simpa using h.length_eq
  have hnd : σ.Nodup := h.nodup_iff.2 List.nodup_range
  refine Finset.prod_nbij' (fun j => σ.getD j 0) (fun p => σ.idxOf p) ?_ ?_ ?_ ?_ ?_
  · intro j hj
    have hj' : j < σ.length := by rw [hl]; simpa using hj
    have := h.mem_iff.1 (List.getElem_mem hj')
    simpa [hj'] using this
  · intro p hp
    have := h.mem_iff.2 (List.mem_range.2 (Finset.mem_range.1 hp))
    simpa [← hl] using List.idxOf_lt_length_of_mem this
  · intro j hj
    have hj' : j < σ.length := by rw [hl]; simpa using hj
    have e : σ.getD j 0 = σ[j] := by simp [hj']
    rw [e, hnd.idxOf_getElem]
  · intro p hp
    have := h.mem_iff.2 (List.mem_range.2 (Finset.mem_range.1 hp))
    have hl := List.idxOf_lt_length_of_mem this
    simp [hl]
  · intro j hj
    have hj' : j < σ.length := by rw [hl]; simpa using hj
    have e : σ.getD j 0 = σ[j] := by simp [hj']
    rw [e, hnd.idxOf_getElem]

/-- the values of one row (a tensor of shape `[C, F]`). -/
def rowVal (C F : Nat) (t : Tensor Fl) : Nat → Nat → ℝ := fun c f => if c < C ∧ f < F then (t.get [c, f]).val else 0

/-- 1 if the values of the row lie in `A`. -/
def rowIn (C F : Nat) (A : Set (Nat → Nat → ℝ)) (t : Tensor Fl) : ℝ≥0∞ := if rowVal C F t ∈ A then 1 else 0

theorem rowIn_ne_top (C F : Nat) (A : Set (Nat → Nat → ℝ)) (t : Tensor Fl) : rowIn C F A t ≠ ⊤ := by
  unfold rowIn
  split_ifs <;> simp

/-- the component that produced row `j` of the result of `sampleFree` for the draws `ks`. -/
def origin (ks : List Nat) (j : Nat) : Nat :=
  ((separate ks).flatMap fun g => List.replicate g.2.length g.1).getD ((sortPerm ks).getD j 0) 0

theorem labels_length (ks : List Nat) : ((separate ks).flatMap fun g => List.replicate g.2.length g.1).length = ks.length := by
  have e : ks.length = ((separate ks).map Prod.snd).flatten.length := by
    rw [(separate_flat ks).length_eq, List.length_range]
  rw [e]
  generalize separate ks = D
  induction D with
  | nil => rfl
  | cons a D ih => simp only [List.flatMap_cons, List.length_append, ih, List.length_replicate, List.map_cons, List.flatten_cons]

theorem labels_perm (ks : List Nat) : ((separate ks).flatMap fun g => List.replicate g.2.length g.1).Perm ks := by
  have h := (separate_flat ks).map fun j => ks.getD j 0
  have e : (List.range ks.length).map (fun j => ks.getD j 0) = ks :=
    List.ext_getElem (by simp) fun j h1 h2 => by simp [h2]
  rw [e] at h
  refine List.Perm.trans (List.Perm.of_eq ?_) h
  have hall := separate_all ks
  generalize separate ks = D at hall
  induction D with
  | nil => rfl
  | cons a D ih =>
    rw [List.flatMap_cons, List.map_cons, List.flatten_cons, List.map_append, ih fun g hg => hall g (by simp [hg])]
    congr 1
    refine (List.eq_replicate_iff.2 ⟨by simp, fun b hb => ?_⟩).symm
    obtain ⟨j, hj, rfl⟩ := List.mem_map.1 hb
    exact ((hall a (by simp)).2 j hj).2

/-- the components that produced the rows are those drawn, as often as they were drawn. -/
theorem origin_perm (ks : List Nat) : ((List.range ks.length).map (origin ks)).Perm ks := by
  refine List.Perm.trans ?_ (labels_perm ks)
  have h := perm_getD (l := (separate ks).flatMap fun g => List.replicate g.2.length g.1) (p := sortPerm ks)
    (by rw [labels_length]; exact sortPerm_perm ks) 0
  refine List.Perm.trans (List.Perm.of_eq ?_) h
  refine List.ext_getElem (by simp [sortPerm_length]) fun j h1 h2 => ?_
  have : j < (sortPerm ks).length := by simpa using h2
  simp [origin, this]

theorem origin_mem {ks : List Nat} {j : Nat} (hj : j < ks.length) : origin ks j ∈ ks :=
  (origin_perm ks).mem_iff.1 (List.mem_map.2 ⟨j, List.mem_range.2 hj, rfl⟩)

/-- draws in ascending blocks of equal length stay in place. -/
theorem origin_blocks {m : Nat} (hm : 0 < m) (n j : Nat) (hj : j < n * m) :
    origin ((List.range n).flatMap fun k => List.replicate m k) j = j / m := by
  have hlen : ∀ n, ((List.range n).flatMap fun k => List.replicate m k).length = n * m := by
    intro n
    simp [List.length_flatMap]
  have hsep : separate ((List.range n).flatMap fun k => List.replicate m k) =
      (List.range n).map fun j => (j, List.range' (j * m) m) := by
    unfold separate
    rw [List.range_eq_range', separateFrom_blocks hm n 0 0 (by simp)]
    simp [List.range_eq_range']
  unfold origin
  rw [hsep, List.flatMap_map, sortPerm_sorted (blocks_sorted m n), hlen,
    show (List.range (n * m)).getD j 0 = j by simp [List.getD, hj]]
  simp only [List.length_range']
  clear hsep
  induction n with
  | zero => simp at hj
  | succ n ih =>
    rw [List.range_succ, List.flatMap_append]
    by_cases h : j < n * m
    · rw [List.getD_append _ _ _ _ (by rw [hlen]; exact h)]
      exact ih h
    · rw [List.getD_append_right _ _ _ _ (by rw [hlen]; omega), hlen]
      have h1 : j - n * m < m := by rw [Nat.succ_mul] at hj; omega
      have h2 : j / m = n := Nat.div_eq_of_lt_le (by omega) hj
      rw [h2]
      simp [List.getD, h1]

namespace Mixture

/-- what is known about the samples of a component. -/
structure RowLaw (C F : Nat) (x : Rand (Tensor Fl)) (m : Nat) (ν : Nat → Measure (Nat → Nat → ℝ)) : Prop where
  shape : x.All fun t => t.shape = [m, C, F]
  law : ∀ A : Nat → Set (Nat → Nat → ℝ), (∀ n, MeasurableSet (A n)) →
    x.E (fun t => ∏ n ∈ Finset.range m, rowIn C F (A n) (t.row n)) = ∏ n ∈ Finset.range m, ν n (A n)

theorem rows_prod {C F m : Nat} {t : Tensor Fl} (ht : t.shape = [m, C, F]) (A : Nat → Set (Nat → Nat → ℝ)) :
    (t.rows.mapIdx fun p => rowIn C F (A p)).prod = ∏ n ∈ Finset.range m, rowIn C F (A n) (t.row n) := by
  have hl : t.rows.length = m := by rw [rows_length]; simp [size, ht, at']
  rw [mapIdx_prod _ _ ⟨[], fun _ => .nan⟩, hl]
  refine Finset.prod_congr rfl fun j hj => ?_
  have hj' : j < t.rows.length := by rw [hl]; simpa using hj
  rw [← rows_getElem hj']
  simp [List.getD, hj']

/-- **rows sampled without evidence are independent**, row `j` with the law of component `origin ks j`. -/
theorem sampleFree_law {X : Mixture} {a : MixArgs} {ks : List Nat} (h0 : ks ≠ []) {C F : Nat}
    {ν : Nat → Measure (Nat → Nat → ℝ)} [∀ k, IsFiniteMeasure (ν k)]
    (hc : ∀ k ∈ ks, ∃ M, X.models[k]? = some M ∧ ∀ m, 0 < m → RowLaw C F (M.sample (freeArgs a m)) m fun _ => ν k) :
    RowLaw C F (X.sampleFree a ks) ks.length fun j => ν (origin ks j) := by
  have hg : ∀ g ∈ separate ks, ∃ M, X.models[g.1]? = some M ∧ 0 < g.2.length ∧
      RowLaw C F (M.sample (freeArgs a g.2.length)) g.2.length fun _ => ν g.1 := by
    intro g hg
    have hp : 0 < g.2.length := List.length_pos_iff.2 (separate_all ks g hg).1
    obtain ⟨M, hM, h⟩ := hc g.1 ((separate_key _).1 (List.mem_map.2 ⟨g, hg, rfl⟩))
    exact ⟨M, hM, hp, h _ hp⟩
  have hpart : ∀ g ∈ separate ks, RowLaw C F ((Rand.lift (X.model g.1)).bind fun M => M.sample (freeArgs a g.2.length))
      g.2.length fun _ => ν g.1 := by
    intro g hgm
    obtain ⟨M, hM, _, h⟩ := hg g hgm
    rw [model_ok hM]
    exact h
  have hall := Rand.All.forEach (Q := fun (g : Nat × List Nat) (t : Tensor Fl) => t.shape = g.2.length :: [C, F]) fun g hgm => (hpart g hgm).shape
  constructor
  · refine hall.bind fun parts hp => .lift ?_
    obtain ⟨y, hy, h1, _⟩ := arrange_ok h0 hp
    exact ⟨y, hy, h1⟩
  · intro A hA
    unfold sampleFree
    rw [Rand.E_bind]
    have key : ∀ parts, List.Forall₂ (fun (g : Nat × List Nat) (t : Tensor Fl) => t.shape = g.2.length :: [C, F]) (separate ks) parts →
        (Rand.lift (do let all ← stack (parts.flatMap rows); all.takeRows (sortPerm ks))).E
          (fun t => ∏ n ∈ Finset.range ks.length, rowIn C F (A n) (t.row n)) =
        ((parts.flatMap rows).mapIdx fun p => rowIn C F (A ((sortPerm ks).idxOf (0 + p)))).prod := by
      intro parts hp
      obtain ⟨y, hy, h1, h2, h3⟩ := arrange_ok h0 hp
      rw [hy, Rand.lift_ok, Rand.E_pure, mapIdx_prod _ _ ⟨[], fun _ => .nan⟩, h2]
      simp only [zero_add]
      rw [← prod_perm (sortPerm_perm ks) fun j p => rowIn C F (A j) ((parts.flatMap rows).getD p ⟨[], fun _ => .nan⟩)]
      refine Finset.prod_congr rfl fun j hj => ?_
      have hj' : j < y.rows.length := by rw [rows_length]; simpa [size, h1, at'] using hj
      have hj2 : j < (sortPerm ks).length := by rw [sortPerm_length]; simpa using hj
      rw [← rows_getElem hj']
      congr 1
      simp only [h3, List.getElem_map]
      congr 1
      simp [hj2]
    rw [Rand.E_congr hall key, Rand.E_forEach_prod (out := rows) (lab := fun g => List.replicate g.2.length g.1)
      (h := fun p => rowIn C F (A ((sortPerm ks).idxOf p))) (R := fun p k => ν k (A ((sortPerm ks).idxOf p)))
      (fun p b => rowIn_ne_top _ _ _ _) (fun p k => measure_ne_top _ _)
      (fun g hgm => (hpart g hgm).shape.mono fun t ht => by rw [rows_length]; simp [size, ht, at'])
      (fun g hgm off => ?_) 0]
    · rw [mapIdx_prod _ _ 0, labels_length]
      simp only [zero_add]
      rw [← prod_perm (sortPerm_perm ks) fun j p =>
        ν (((separate ks).flatMap fun g => List.replicate g.2.length g.1).getD p 0) (A j)]
      rfl
    · rw [Rand.E_congr (hpart g hgm).shape fun t ht => rows_prod ht fun p => A ((sortPerm ks).idxOf (off + p)),
        (hpart g hgm).law _ fun n => hA _, mapIdx_prod _ _ 0, List.length_replicate]
      refine Finset.prod_congr rfl fun j hj => ?_
      have : j < g.2.length := by simpa using hj
      simp [List.getD, this]

theorem restore_prod {l : List (Nat × Tensor Fl)} {N C F : Nat} (hN : 0 < N) (hp : (l.map Prod.fst).Perm (List.range N))
    (hs : ∀ p ∈ l, p.2.shape = [C, F]) (h : Nat → Tensor Fl → ℝ≥0∞) :
    ∃ y, restore l = .ok y ∧ y.shape = [N, C, F] ∧
      ∏ n ∈ Finset.range N, h n (y.row n) = ((l.map Prod.snd).mapIdx fun p => h ((sortPerm (l.map Prod.fst)).idxOf p)).prod := by
  have hl : l.length = N := by simpa using hp.length_eq
  obtain ⟨y, hy, h1, h2⟩ := restore_ok (T := fun j t => (j, t) ∈ l) hN hp hs fun p hp => hp
  refine ⟨y, hy, h1, ?_⟩
  have hσ := sortPerm_perm (l.map Prod.fst)
  rw [List.length_map, hl] at hσ
  rw [mapIdx_prod _ _ ⟨[], fun _ => .nan⟩, List.length_map, hl, ← prod_perm hσ fun j p =>
    h j ((l.map Prod.snd).getD p ⟨[], fun _ => .nan⟩)]
  refine Finset.prod_congr rfl fun j hj => ?_
  have hj' : j < N := by simpa using hj
  congr 1
  have hi := sortPerm_inverse hp hj'
  set i := (sortPerm (l.map Prod.fst)).getD j 0
  obtain ⟨hil, hij⟩ := List.getElem?_eq_some_iff.1 hi
  have hil' : i < l.length := by simpa using hil
  have hm := h2 j hj'
  obtain ⟨i', hi', e⟩ := List.getElem_of_mem hm
  have hnd : (l.map Prod.fst).Nodup := hp.nodup_iff.2 List.nodup_range
  have : i' = i := by
    refine (hnd.getElem_inj_iff (hi := by simpa using hi') (hj := hil)).1 ?_
    rw [hij]
    simp [e]
  subst this
  simp [List.getD, hil', e]

/-- **rows completed from evidence are independent**, row `i` with law `ν i`, if this holds for each group of rows. -/
theorem sampleEvidence_law {X : Mixture} {a : MixArgs} {e : Tensor Fl} {ks : List Nat} {N C F : Nat} (hN : 0 < N)
    (he : e.shape = [N, C, F]) (hks : X.predictCluster e a.marginalized_scopes = .ok ks) (hl : ks.length = N)
    {ν : Nat → Measure (Nat → Nat → ℝ)} [∀ k, IsFiniteMeasure (ν k)]
    (hc : ∀ k is, is ≠ [] → (∀ i ∈ is, i < N ∧ ks.getD i 0 = k) → ∃ M, X.models[k]? = some M ∧
      ∀ d : Tensor Fl, d.shape = [is.length, C, F] → (∀ j, j < is.length → ∀ c f, d.get [j, c, f] = e.get [is.getD j 0, c, f]) →
        RowLaw C F (M.sample (evidenceArgs a d)) is.length fun j => ν (is.getD j 0)) :
    RowLaw C F (X.sampleEvidence a e) N ν := by
  have hpart : ∀ g ∈ separate ks, ∃ d M, stack (g.2.map e.row) = .ok d ∧ X.model g.1 = .ok M ∧
      RowLaw C F (M.sample (evidenceArgs a d)) g.2.length fun j => ν (g.2.getD j 0) := by
    intro g hg
    obtain ⟨h0, hj⟩ := separate_all ks g hg
    obtain ⟨M, hM, h⟩ := hc g.1 g.2 h0 fun i hi => by have := hj i hi; omega
    obtain ⟨d, hd, hd1, hd2⟩ := group_stack he h0
    exact ⟨d, M, hd, model_ok hM, h d hd1 hd2⟩
  let f : Nat × List Nat → Rand (List (Nat × Tensor Fl)) := fun g => (Rand.lift (stack (g.2.map e.row))).bind fun data =>
      (Rand.lift (X.model g.1)).bind fun M => (M.sample (evidenceArgs a data)).bind fun s => .pure (g.2.zip s.rows)
  have hshape : ∀ g ∈ separate ks, (f g).All fun p => p.map Prod.fst = g.2 ∧ ∀ b ∈ p, b.2.shape = [C, F] := by
    intro g hg
    obtain ⟨d, M, h1, h2, h3⟩ := hpart g hg
    show ((Rand.lift (stack (g.2.map e.row))).bind fun data =>
      (Rand.lift (X.model g.1)).bind fun M => (M.sample (evidenceArgs a data)).bind fun s => .pure (g.2.zip s.rows)).All _
    rw [h1, Rand.lift_ok, Rand.pure_bind, h2, Rand.lift_ok, Rand.pure_bind]
    refine h3.shape.bind fun t ht => ?_
    have := zip_rows (is := g.2) (y := t) (s := [C, F]) ht (T := fun _ _ => True) fun _ _ => trivial
    exact ⟨this.1, fun b hb => (this.2 b hb).1⟩
  have hall := Rand.All.forEach hshape
  have hflat : ∀ parts, List.Forall₂ (fun (g : Nat × List Nat) (p : List (Nat × Tensor Fl)) =>
      p.map Prod.fst = g.2 ∧ ∀ b ∈ p, b.2.shape = [C, F]) (separate ks) parts →
      parts.flatten.map Prod.fst = ((separate ks).map Prod.snd).flatten ∧ ∀ b ∈ parts.flatten, b.2.shape = [C, F] :=
    fun parts h => forall2_flat h (fun _ _ h => h.1) fun _ _ h => h.2
  have hperm : (((separate ks).map Prod.snd).flatten).Perm (List.range N) := by rw [← hl]; exact separate_flat ks
  have hunf : X.sampleEvidence a e = (Rand.forEach (separate ks) f).bind fun parts => Rand.lift (restore parts.flatten) := by
    unfold sampleEvidence
    rw [hks]
    rfl
  rw [hunf]
  constructor
  · refine hall.bind fun parts hp => .lift ?_
    obtain ⟨h1, h2⟩ := hflat parts hp
    obtain ⟨y, hy, hs, _⟩ := restore_ok (T := fun _ _ => True) hN (by rw [h1]; exact hperm) h2 fun _ _ => trivial
    exact ⟨y, hy, hs⟩
  · intro A hA
    rw [Rand.E_bind]
    set σ := sortPerm ((separate ks).map Prod.snd).flatten with hσ
    have hσp : σ.Perm (List.range N) := by
      have := sortPerm_perm ((separate ks).map Prod.snd).flatten
      rwa [hperm.length_eq, List.length_range] at this
    rw [Rand.E_congr hall (g := fun parts =>
      ((parts.flatMap fun p => p.map Prod.snd).mapIdx fun p => rowIn C F (A (σ.idxOf (0 + p)))).prod) fun parts hp => by
        obtain ⟨h1, h2⟩ := hflat parts hp
        obtain ⟨y, hy, hs, hpr⟩ := restore_prod hN (by rw [h1]; exact hperm) h2 fun n => rowIn C F (A n)
        rw [hy, Rand.lift_ok, Rand.E_pure, hpr, h1, List.map_flatten]
        simp only [zero_add, hσ, List.flatMap_def]]
    rw [Rand.E_forEach_prod (out := fun p => p.map Prod.snd) (lab := Prod.snd)
      (h := fun p => rowIn C F (A (σ.idxOf p))) (R := fun p i => ν i (A (σ.idxOf p)))
      (fun p b => rowIn_ne_top _ _ _ _) (fun p k => measure_ne_top _ _)
      (fun g hg => (hshape g hg).mono fun p hp => by rw [← hp.1]; simp) (fun g hg off => ?_) 0]
    · rw [List.flatMap_def, mapIdx_prod _ _ 0, hperm.length_eq, List.length_range]
      simp only [zero_add]
      rw [← prod_perm hσp fun j p => ν (((separate ks).map Prod.snd).flatten.getD p 0) (A j)]
      refine Finset.prod_congr rfl fun j hj => ?_
      have := sortPerm_inverse hperm (j := j) (by simpa using hj)
      rw [← hσ] at this
      rw [List.getD_eq_getElem?_getD (l := ((separate ks).map Prod.snd).flatten), this, Option.getD_some]
    · obtain ⟨d, M, h1, h2, h3⟩ := hpart g hg
      show ((Rand.lift (stack (g.2.map e.row))).bind fun data =>
        (Rand.lift (X.model g.1)).bind fun M => (M.sample (evidenceArgs a data)).bind fun s => .pure (g.2.zip s.rows)).E _ = _
      rw [h1, Rand.lift_ok, Rand.pure_bind, h2, Rand.lift_ok, Rand.pure_bind, Rand.E_bind]
      simp only [Rand.E_pure]
      rw [Rand.E_congr h3.shape (g := fun t => ∏ n ∈ Finset.range g.2.length, rowIn C F (A (σ.idxOf (off + n))) (t.row n))
        fun t ht => by
          rw [List.map_snd_zip (by rw [rows_length]; simp [size, ht, at']), rows_prod ht fun p => A (σ.idxOf (off + p))],
        h3.law _ fun n => hA _, mapIdx_prod _ _ 0]

/-! ### Outcomes -/

theorem sampleFree_All {X : Mixture} {a : MixArgs} {ks : List Nat} (h0 : ks ≠ []) {C F : Nat}
    (hc : ∀ k ∈ ks, ∃ M, X.models[k]? = some M ∧ ∀ m, 0 < m → (M.sample (freeArgs a m)).All fun t => t.shape = [m, C, F]) :
    (X.sampleFree a ks).All fun y => y.shape = [ks.length, C, F] := by
  have hall := Rand.All.forEach (Q := fun (g : Nat × List Nat) (t : Tensor Fl) => t.shape = g.2.length :: [C, F])
    (f := fun g => (Rand.lift (X.model g.1)).bind fun M => M.sample (freeArgs a g.2.length)) (l := separate ks) (by
      intro g hg
      have hp : 0 < g.2.length := List.length_pos_iff.2 (separate_all ks g hg).1
      obtain ⟨M, hM, h⟩ := hc g.1 ((separate_key _).1 (List.mem_map.2 ⟨g, hg, rfl⟩))
      rw [model_ok hM]
      exact h _ hp)
  refine hall.bind fun parts hp => .lift ?_
  obtain ⟨y, hy, h1, _⟩ := arrange_ok h0 hp
  exact ⟨y, hy, h1⟩

theorem sampleEvidence_All {X : Mixture} {a : MixArgs} {e : Tensor Fl} {ks : List Nat} {N C F : Nat} (hN : 0 < N)
    (he : e.shape = [N, C, F]) (hks : X.predictCluster e a.marginalized_scopes = .ok ks) (hl : ks.length = N)
    {T : Nat → Tensor Fl → Prop}
    (hc : ∀ k is, is ≠ [] → (∀ i ∈ is, i < N ∧ ks.getD i 0 = k) → ∃ M, X.models[k]? = some M ∧
      ∀ d : Tensor Fl, d.shape = [is.length, C, F] → (∀ j, j < is.length → ∀ c f, d.get [j, c, f] = e.get [is.getD j 0, c, f]) →
        (M.sample (evidenceArgs a d)).All fun t => t.shape = [is.length, C, F] ∧
          ∀ j, j < is.length → T (is.getD j 0) (t.row j)) :
    (X.sampleEvidence a e).All fun y => y.shape = [N, C, F] ∧ ∀ i, i < N → T i (y.row i) := by
  unfold sampleEvidence
  rw [hks, Rand.lift_ok, Rand.pure_bind]
  refine Rand.All.bind (P := fun parts => List.Forall₂ (fun (g : Nat × List Nat) (p : List (Nat × Tensor Fl)) =>
    p.map Prod.fst = g.2 ∧ ∀ b ∈ p, b.2.shape = [C, F] ∧ T b.1 b.2) (separate ks) parts) (.forEach fun g hg => ?_)
    fun parts hp => .lift ?_
  · obtain ⟨h0, hj⟩ := separate_all ks g hg
    obtain ⟨M, hM, h⟩ := hc g.1 g.2 h0 fun i hi => by have := hj i hi; omega
    obtain ⟨d, hd, hd1, hd2⟩ := group_stack he h0
    rw [hd, Rand.lift_ok, Rand.pure_bind, model_ok hM, Rand.lift_ok, Rand.pure_bind]
    exact (h d hd1 hd2).bind fun t ht => zip_rows ht.1 ht.2
  · obtain ⟨h1, h2⟩ := forall2_flat (ix := Prod.snd) (T := fun b => b.2.shape = [C, F] ∧ T b.1 b.2) hp
      (fun _ _ h => h.1) fun _ _ h => h.2
    exact restore_ok hN (by rw [h1, ← hl]; exact separate_flat ks) (fun p hp => (h2 p hp).1) fun p hp => (h2 p hp).2

end Mixture

/-! ### Laws of the components -/

/-- a row as a function on all pairs of numbers, 0 outside of the `C` channels and `F` features. -/
def extRow (C F : Nat) (ω : Fin C → Fin F → ℝ) : Nat → Nat → ℝ :=
  fun c f => if h : c < C ∧ f < F then ω ⟨c, h.1⟩ ⟨f, h.2⟩ else 0

theorem extRow_measurable (C F : Nat) : Measurable (extRow C F) := by
  refine measurable_pi_lambda _ fun c => measurable_pi_lambda _ fun f => ?_
  unfold extRow
  by_cases h : c < C ∧ f < F
  · simp only [h, and_self, dif_pos]
    exact (measurable_pi_apply _).comp (measurable_pi_apply _)
  · simp only [h, dif_neg, not_false_eq_true]
    exact measurable_const

theorem rowVal_row (C F : Nat) (t : Tensor Fl) (n : Nat) :
    rowVal C F (t.row n) = extRow C F fun c f => (t.get [n, c, f]).val := by
  funext c f
  unfold rowVal extRow
  by_cases h : c < C ∧ f < F
  · rw [if_pos h, dif_pos h]; rfl
  · rw [if_neg h, dif_neg h]

/-- from the law of all rows as a product measure to the probabilities of products of sets. -/
theorem Mixture.RowLaw.of_pi {C F m : Nat} {x : Rand (Tensor Fl)} {μ : Fin m → Measure (Fin C → Fin F → ℝ)}
    [∀ n, SigmaFinite (μ n)] (hs : x.All fun t => t.shape = [m, C, F])
    (h : ∀ φ : (Fin m → Fin C → Fin F → ℝ) → ℝ≥0∞, Measurable φ →
      x.E (fun t => φ fun n c f => (t.get [n, c, f]).val) = ∫⁻ ω, φ ω ∂Measure.pi μ)
    {ν : Nat → Measure (Nat → Nat → ℝ)} (hν : ∀ n : Fin m, ν n = (μ n).map (extRow C F)) :
    Mixture.RowLaw C F x m ν := by
  refine ⟨hs, fun A hA => ?_⟩
  have hB : ∀ n : Fin m, MeasurableSet (extRow C F ⁻¹' A n) := fun n => extRow_measurable C F (hA n)
  have hR : MeasurableSet (Set.univ.pi fun n : Fin m => extRow C F ⁻¹' A n) := MeasurableSet.univ_pi hB
  have := h (fun ω => (Set.univ.pi fun n : Fin m => extRow C F ⁻¹' A n).indicator 1 ω) (measurable_one.indicator hR)
  rw [lintegral_indicator_one hR, Measure.pi_pi] at this
  rw [Finset.prod_range fun n => ν n (A n)]
  refine Eq.trans ?_ (this.trans (Finset.prod_congr rfl fun n _ => ?_))
  · congr 1
    funext t
    rw [Finset.prod_range fun n => rowIn C F (A n) (t.row n)]
    unfold rowIn
    simp only [rowVal_row]
    by_cases hin : ∀ n : Fin m, extRow C F (fun c f => (t.get [n, c, f]).val) ∈ A n
    · rw [Set.indicator_of_mem (by simpa [Set.mem_pi] using hin)]
      exact Finset.prod_eq_one fun n _ => if_pos (hin n)
    · rw [Set.indicator_of_notMem (by simpa [Set.mem_pi] using hin)]
      push Not at hin
      obtain ⟨n, hn⟩ := hin
      exact Finset.prod_eq_zero (Finset.mem_univ n) (if_neg hn)
  · rw [hν, Measure.map_apply (extRow_measurable C F) (hA n)]

end Einet
