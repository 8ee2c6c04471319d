import Verif.Multi
import Verif.MixtureFacts
import Verif.LeafSample
import Mathlib.Data.List.GetD

/-!
# Facts about leaves with several distributions
-/

open Classical
noncomputable section
namespace Einet
open Tensor

namespace Tensor
variable {α : Type}

theorem indexDim2_is {t : Tensor α} {s : List Nat} {g : List Nat → α} {p : List Nat} (h : t.Is s g) (hs : 2 < s.length)
    (hp : ∀ k ∈ p, k < at' 2 s) :
    Res.Sat (t.indexDim2 p) fun y => y.Is (setAt 2 p.length s) fun i => g (setAt 2 (p.getD (at' 2 i) 0) i) := by
  unfold indexDim2
  refine Res.Sat.require (by rw [rank, h.1]; exact hs) (Res.Sat.require (by rw [size, h.1]; exact hp) (Res.Sat.pure
    (Is.intro (by rw [h.1]) fun i hi => ?_)))
  have h2 := InB_at (d := 2) hi (by rwa [length_setAt])
  rw [at_setAt (by exact hs)] at h2
  refine Is.get h ?_
  exact InB_setAt hi (by rw [List.getD_eq_getElem _ _ h2]; exact hp _ (List.getElem_mem _))

theorem indexDim1_is {t : Tensor α} {s : List Nat} {g : List Nat → α} {p : List Nat} (h : t.Is s g) (hs : 1 < s.length)
    (hp : ∀ k ∈ p, k < at' 1 s) :
    Res.Sat (t.indexDim1 p) fun y => y.Is (setAt 1 p.length s) fun i => g (setAt 1 (p.getD (at' 1 i) 0) i) := by
  unfold indexDim1
  refine Res.Sat.require (by rw [rank, h.1]; exact hs) (Res.Sat.require (by rw [size, h.1]; exact hp) (Res.Sat.pure
    (Is.intro (by rw [h.1]) fun i hi => ?_)))
  have h2 := InB_at (d := 1) hi (by rwa [length_setAt])
  rw [at_setAt (by exact hs)] at h2
  refine Is.get h ?_
  exact InB_setAt hi (by rw [List.getD_eq_getElem _ _ h2]; exact hp _ (List.getElem_mem _))

/-- the parts of a concatenation stand one after the other. -/
theorem catAll_is {β : Type} {len : β → Nat} {g : β → List Nat → α} {d : Nat} {s : List Nat} (hd : d < s.length) {D : List β}
    {ts : List (Tensor α)} (h0 : D ≠ []) (h : List.Forall₂ (fun a t => t.Is (setAt d (len a) s) (g a)) D ts) :
    Res.Sat (catAll d ts) fun y => y.shape = setAt d (D.map len).sum s ∧
      ∀ D₁ a D₂, D = D₁ ++ a :: D₂ → ∀ j, j < len a → ∀ i, InB (setAt d 1 s) (setAt d 0 i) →
        y.get (setAt d ((D₁.map len).sum + j) i) = g a (setAt d j i) := by
  have hin : ∀ {n j : Nat} {i : List Nat}, j < n → InB (setAt d 1 s) (setAt d 0 i) → InB (setAt d n s) (setAt d j i) := by
    intro n j i hj hi
    have := InB_setAt (s := setAt d n s) (d := d) (k := j) (m := 1) (i := setAt d 0 i) (by rwa [setAt_setAt]) (by rwa [at_setAt hd])
    rwa [setAt_setAt] at this
  induction h with
  | nil => exact absurd rfl h0
  | @cons a t D ts ht hts ih =>
    cases hts with
    | nil =>
      refine Res.Sat.ok ⟨by simpa using ht.1, ?_⟩
      intro D₁ a' D₂ e j hj i hi
      cases D₁ with
      | nil =>
        simp only [List.nil_append, List.cons.injEq] at e
        obtain ⟨rfl, -⟩ := e
        simp only [List.map_nil, List.sum_nil, Nat.zero_add]
        exact Is.get ht (hin hj hi)
      | cons b D₁ => simp at e
    | @cons b u D ts hu hts =>
      refine (ih (by simp)).bind fun r hr => ?_
      have hr' : r.Is (setAt d ((b :: D).map len).sum s) r.get := Is.refl r hr.1
      refine (cat_is ht hr' (by rwa [length_setAt]) (by rw [setAt_setAt, setAt_setAt])).mono fun y hy => ?_
      refine ⟨by rw [hy.1, setAt_setAt, at_setAt hd, at_setAt hd]; simp, ?_⟩
      have hy' := hy
      rw [setAt_setAt, at_setAt hd, at_setAt hd] at hy'
      intro D₁ a' D₂ e j hj i hi
      cases D₁ with
      | nil =>
        simp only [List.nil_append, List.cons.injEq] at e
        obtain ⟨rfl, -⟩ := e
        simp only [List.map_nil, List.sum_nil, Nat.zero_add]
        have hl := (Tensor.InB.length hi)
        rw [Is.get hy' (hin (by omega) hi), at_setAt (by simpa using (by rw [length_setAt, length_setAt] at hl; omega)), if_pos hj]
      | cons b' D₁ =>
        simp only [List.cons_append, List.cons.injEq] at e
        obtain ⟨rfl, e⟩ := e
        have hl := (Tensor.InB.length hi)
        rw [length_setAt, length_setAt] at hl
        have hlt : ((D₁.map len).sum + j) < ((b :: D).map len).sum := by
          rw [e]; simp only [List.map_append, List.sum_append, List.map_cons, List.sum_cons]; omega
        simp only [List.map_cons, List.sum_cons] at hlt ⊢
        rw [Is.get hy' (hin (by simp only [List.map_cons, List.sum_cons]; omega) hi), at_setAt (by omega), if_neg (by omega), setAt_setAt]
        rw [show len a + (D₁.map len).sum + j - len a = (D₁.map len).sum + j by omega]
        exact hr.2 D₁ a' D₂ e j hj i hi

end Tensor

/-- sampling a leaf layer for given parent indices: the draws, followed by a selection. -/
theorem BaseLeaf.sample_run (B : BaseLeaf) (hs : B.samplable = true) (hF0 : 0 < B.num_features) {ctx : Ctx} {N : Nat}
    {idx : Nat → Nat → Nat} {rr : Nat → Nat} (hc : CtxOK ctx N B.num_features B.num_leaves B.num_repetitions idx rr) :
    ∃ res : (List Nat → ℝ) → Res (Tensor ℝ), B.sample ctx = (B.draws ctx).bind (fun v => Rand.lift (res v)) ∧
      ∀ v, Res.Sat (res v) fun t => t.Is3 N B.num_channels B.num_features fun n c f => v [n, c, f, idx n f, rr n] := by
  refine ⟨fun v => do
    let samples ← B.selectRep ctx v
    let p_idxs ← ctx.indices_out.view [ctx.indices_out.numel / B.num_features, 1, B.num_features]
    let p_idxs ← (p_idxs.unsqueezeEnd 1).expand [none, some B.num_channels, none, none]
    (← samples.gather 3 p_idxs).squeeze 3, ?_, fun v => ?_⟩
  · unfold BaseLeaf.sample
    simp only [Rand.bind_eq]
    rw [B.sampleAll_eq hs, Rand.bind_assoc]
    congr 1
    funext v
    rw [Rand.lift_bind]
  · refine (BaseLeaf.selectRep_is hc v).bind fun t ht => ?_
    have hnum : ctx.indices_out.numel / B.num_features = N := by
      rw [numel, hc.io.1]
      simp only [numelS, mul_one]
      exact Nat.mul_div_cancel _ hF0
    rw [hnum]
    refine (view_is hc.io (s' := [N, 1, B.num_features]) (by simp [numelS])).bind fun p hp => ?_
    refine (expand_is (unsqueezeEnd_is 1 hp) (s' := [N, B.num_channels, B.num_features, 1])
      (by simp [expandShape])).bind fun p2 hp2 => ?_
    have hp3 : p2.Is [N, B.num_channels, B.num_features, 1] fun j => idx (at' 0 j) (at' 2 j) := by
      refine hp2.congr ((AllIdx_iff _ _).2 fun j hj => ?_)
      match j, hj with
      | [n, cc, f, z], hj =>
        have e : unflat [N, B.num_features] (flat [N, 1, B.num_features] [n, 0, f]) = [n, f] :=
          unflat_eq ⟨hj.1, hj.2.2.1, by simp⟩ (by simp only [flat, numelS]; ring)
        simp [clipAll, clip_of_lt hj.1, clip_of_lt hj.2.2.1, e, at']
    refine (gather_is ht hp3 (by simp) (by simp [leExcept]) ?_).bind fun u hu => ?_
    · rw [AllIdx_iff]
      intro j hj
      have := hc.io_lt _ (InB_at (d := 0) hj (by simp)) _ (InB_at (d := 2) hj (by simp))
      simp only [at'] at this ⊢
      exact this
    · refine (squeeze_is hu (by simp) (by simp [at'])).mono fun w hw => ?_
      refine Is.is3 hw ?_
      intro n hn cc hcc f hf
      simp [insAt, setAt, at']

namespace MultiLeaf

/-- what the constructor guarantees, for scopes that are a partition of the features. -/
structure OK (L : MultiLeaf) : Prop where
  perm : (allScopes L.parts).Perm (List.range L.num_features)
  inv : L.inverted_index = sortPerm (allScopes L.parts)
  needs : L.needs_inversion = decide (allScopes L.parts ≠ (allScopes L.parts).mergeSort)
  pos : 0 < L.num_features
  size : ∀ p ∈ L.parts, p.2.num_features = p.1.length ∧ p.2.num_channels = L.num_channels ∧ p.2.num_leaves = L.num_leaves ∧
    p.2.num_repetitions = L.num_repetitions

theorem OK.ne {L : MultiLeaf} (h : L.OK) : L.parts ≠ [] := by
  intro e
  have := h.perm.length_eq
  rw [e] at this
  have hp := h.pos
  simp [allScopes] at this
  omega

theorem OK.lt {L : MultiLeaf} (h : L.OK) {p : List Nat × BaseLeaf} (hp : p ∈ L.parts) {k : Nat} (hk : k ∈ p.1) : k < L.num_features := by
  have : k ∈ allScopes L.parts := List.mem_flatten.2 ⟨p.1, List.mem_map.2 ⟨p, hp, rfl⟩, hk⟩
  simpa using h.perm.mem_iff.1 this

theorem OK.sum {L : MultiLeaf} (h : L.OK) : (L.parts.map fun p => p.1.length).sum = L.num_features := by
  have := h.perm.length_eq
  rw [List.length_range] at this
  rw [← this, allScopes, List.length_flatten, List.map_map]
  rfl

/-- the position of a scope entry in the list of all scopes. -/
theorem allScopes_at {β : Type} {D D₁ D₂ : List (List Nat × β)} {a : List Nat × β} (e : D = D₁ ++ a :: D₂) {j : Nat}
    (hj : j < a.1.length) : (allScopes D)[(D₁.map fun p => p.1.length).sum + j]? = some a.1[j] := by
  subst e
  unfold allScopes
  rw [List.map_append, List.flatten_append, List.map_cons, List.flatten_cons]
  have hl : ((D₁.map Prod.fst).flatten).length = (D₁.map fun p => p.1.length).sum := by
    rw [List.length_flatten, List.map_map]; rfl
  rw [List.getElem?_append_right (by omega), hl, Nat.add_sub_cancel_left, List.getElem?_append_left hj, List.getElem?_eq_getElem hj]

/-- After reordering, the entry of scope position `pos` stands at the feature named there. -/
theorem reorder_is {α : Type} {L : MultiLeaf} (h : L.OK) {t : Tensor α} {s : List Nat} (hs : 2 < s.length)
    (ht : t.shape = setAt 2 L.num_features s) :
    Res.Sat (L.reorder t) fun y => y.shape = t.shape ∧ ∀ pos f, (allScopes L.parts)[pos]? = some f → ∀ i,
      InB (setAt 2 1 s) (setAt 2 0 i) → y.get (setAt 2 f i) = t.get (setAt 2 pos i) := by
  unfold reorder
  have hnd : (allScopes L.parts).Nodup := h.perm.nodup_iff.2 List.nodup_range
  split_ifs with hn
  · have hl : (sortPerm (allScopes L.parts)).length = L.num_features := by
      rw [sortPerm_length, h.perm.length_eq, List.length_range]
    refine (indexDim2_is (Is.refl t ht) (by rwa [length_setAt]) (p := L.inverted_index) (by
      intro k hk
      rw [h.inv] at hk
      rw [at_setAt hs, ← hl, sortPerm_length]
      exact sortPerm_lt hk)).mono fun y hy => ?_
    have hy1 := hy.1
    rw [h.inv, hl, setAt_setAt] at hy1
    refine ⟨by rw [hy1, ht], fun pos f hpf i hi => ?_⟩
    have hf : f < L.num_features := by
      have := List.mem_of_getElem? hpf
      simpa using h.perm.mem_iff.1 this
    have hinv := sortPerm_inverse h.perm hf
    have e : (sortPerm (allScopes L.parts)).getD f 0 = pos := by
      obtain ⟨h1, h1'⟩ := List.getElem?_eq_some_iff.1 hpf
      obtain ⟨h2, h2'⟩ := List.getElem?_eq_some_iff.1 hinv
      exact (hnd.getElem_inj_iff (hi := h2) (hj := h1)).1 (h2'.trans h1'.symm)
    have hlen := Tensor.InB.length hi
    rw [length_setAt, length_setAt] at hlen
    have hin : InB (setAt 2 L.num_features s) (setAt 2 f i) := by
      have := InB_setAt (s := setAt 2 L.num_features s) (d := 2) (k := f) (m := 1) (i := setAt 2 0 i) (by rwa [setAt_setAt])
        (by rwa [at_setAt hs])
      rwa [setAt_setAt] at this
    rw [Is.get hy (by rw [h.inv, hl, setAt_setAt]; exact hin), at_setAt (by omega), setAt_setAt, h.inv, e]
  · refine Res.Sat.ok ⟨rfl, fun pos f hpf i _ => ?_⟩
    rw [h.needs] at hn
    have hsort : allScopes L.parts = (allScopes L.parts).mergeSort := by simpa using hn
    have e : allScopes L.parts = List.range L.num_features := by
      refine h.perm.eq_of_pairwise' ?_ List.pairwise_le_range
      rw [hsort]
      exact List.pairwise_mergeSort' _ _
    rw [e] at hpf
    have := List.mem_of_getElem? hpf
    obtain ⟨h1, h2⟩ := List.getElem?_eq_some_iff.1 hpf
    simp only [List.getElem_range] at h2
    rw [h2]

/-- putting the results of the parts together: feature by feature. -/
theorem assemble {α : Type} {L : MultiLeaf} (h : L.OK) {s : List Nat} (hs : 2 < s.length)
    {g : List Nat × BaseLeaf → List Nat → α} {ts : List (Tensor α)}
    (ht : List.Forall₂ (fun p t => t.Is (setAt 2 p.1.length s) (g p)) L.parts ts) :
    Res.Sat (do let t ← catAll 2 ts; L.reorder t) fun y => y.shape = setAt 2 L.num_features s ∧
      ∀ p ∈ L.parts, ∀ j (hj : j < p.1.length), ∀ i, InB (setAt 2 1 s) (setAt 2 0 i) →
        y.get (setAt 2 p.1[j] i) = g p (setAt 2 j i) := by
  refine (catAll_is (len := fun p => p.1.length) hs h.ne ht).bind fun t htt => ?_
  refine (reorder_is h hs (t := t) (by rw [htt.1, h.sum])).mono fun y hy => ⟨by rw [hy.1, htt.1, h.sum], ?_⟩
  intro p hp j hj i hi
  obtain ⟨D₁, D₂, e⟩ := List.append_of_mem hp
  rw [hy.2 _ _ (allScopes_at e hj) i hi]
  exact htt.2 D₁ p D₂ e j hj i hi

end MultiLeaf
end Einet
