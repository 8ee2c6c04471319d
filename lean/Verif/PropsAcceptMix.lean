import Verif.PropsAccept
import Verif.PropsMixture

/-!
# C66 for mixtures: sampled rows are accepted by `forward`
-/

open Classical
noncomputable section
namespace Einet
open Tensor

namespace Mixture

theorem sampleFree_full {X : Mixture} {a : MixArgs} {ks : List Nat} (h0 : ks ≠ []) {C F : Nat} {T : Tensor Fl → Prop}
    (hc : ∀ k ∈ ks, ∃ M, X.models[k]? = some M ∧
      ∀ m, 0 < m → Full (fun t => t.shape = [m, C, F] ∧ ∀ j, j < m → T (t.row j)) (M.sample (freeArgs a m))) :
    Full (fun y => y.shape = [ks.length, C, F] ∧ ∀ i, i < ks.length → T (y.row i)) (X.sampleFree a ks) := by
  have hall := Full.forEach (Q := fun (g : Nat × List Nat) (t : Tensor Fl) =>
      t.shape = g.2.length :: [C, F] ∧ ∀ j, j < g.2.length → T (t.row j))
    (f := fun g => (Rand.lift (X.model g.1)).bind fun M => M.sample (freeArgs a g.2.length)) (D := separate ks) (by
      intro g hg
      have hp : 0 < g.2.length := List.length_pos_iff.2 (separate_all ks g hg).1
      obtain ⟨M, hM, h⟩ := hc g.1 ((separate_key _).1 (List.mem_map.2 ⟨g, hg, rfl⟩))
      rw [model_ok hM]
      exact h _ hp)
  refine Full.bind hall fun parts hp => Full.lift ?_
  obtain ⟨y, hy, h1, h2, h3⟩ := arrange_ok h0 (hp.imp fun _ _ h => h.1)
  refine ⟨y, hy, h1, fun i hi => ?_⟩
  have hmem : ∀ t ∈ parts.flatMap rows, T t := by
    intro t ht
    obtain ⟨u, hu, ht⟩ := List.mem_flatMap.1 ht
    obtain ⟨n, hn, rfl⟩ := List.getElem_of_mem hu
    obtain ⟨hlen, hget⟩ := List.forall₂_iff_get.1 hp
    obtain ⟨q1, q2⟩ := hget n (hlen ▸ hn) hn
    simp only [List.get_eq_getElem] at q1 q2
    unfold rows at ht
    obtain ⟨j, hj, rfl⟩ := List.mem_map.1 ht
    refine q2 j ?_
    rw [List.mem_range] at hj
    rwa [Tensor.size, q1] at hj
  have hr : y.rows.length = ks.length := by rw [rows_length]; simp [size, h1, at']
  have hi' : i < y.rows.length := by omega
  have e : y.rows[i] = y.row i := rows_getElem _
  rw [← e]
  have hps : i < (sortPerm ks).length := by rw [sortPerm_length]; exact hi
  have e2 : y.rows[i] = (parts.flatMap rows).getD ((sortPerm ks)[i]) ⟨[], fun _ => .nan⟩ := by
    simp only [h3, List.getElem_map]
  rw [e2]
  have hlt : (sortPerm ks)[i] < (parts.flatMap rows).length := by
    rw [h2]; exact sortPerm_lt (List.getElem_mem hps)
  rw [List.getD_eq_getElem?_getD, List.getElem?_eq_getElem hlt, Option.getD_some]
  exact hmem _ (List.getElem_mem hlt)

theorem sampleEvidence_full {X : Mixture} {a : MixArgs} {e : Tensor Fl} {ks : List Nat} {N C F : Nat} (hN : 0 < N)
    (he : e.shape = [N, C, F]) (hks : X.predictCluster e a.marginalized_scopes = .ok ks) (hl : ks.length = N)
    {T : Nat → Tensor Fl → Prop}
    (hc : ∀ k is, is ≠ [] → (∀ i ∈ is, i < N ∧ ks.getD i 0 = k) → ∃ M, X.models[k]? = some M ∧
      ∀ d : Tensor Fl, d.shape = [is.length, C, F] → (∀ j, j < is.length → ∀ c f, d.get [j, c, f] = e.get [is.getD j 0, c, f]) →
        Full (fun t => t.shape = [is.length, C, F] ∧ ∀ j, j < is.length → T (is.getD j 0) (t.row j)) (M.sample (evidenceArgs a d))) :
    Full (fun y => y.shape = [N, C, F] ∧ ∀ i, i < N → T i (y.row i)) (X.sampleEvidence a e) := by
  unfold sampleEvidence
  rw [hks, Rand.lift_ok, Rand.pure_bind]
  refine Full.bind (P := fun parts => List.Forall₂ (fun (g : Nat × List Nat) (p : List (Nat × Tensor Fl)) =>
    p.map Prod.fst = g.2 ∧ ∀ b ∈ p, b.2.shape = [C, F] ∧ T b.1 b.2) (separate ks) parts) (.forEach fun g hg => ?_)
    fun parts hp => .lift ?_
  · obtain ⟨h0, hj⟩ := separate_all ks g hg
    obtain ⟨M, hM, h⟩ := hc g.1 g.2 h0 fun i hi => by have := hj i hi; omega
    obtain ⟨d, hd, hd1, hd2⟩ := group_stack he h0
    rw [hd, Rand.lift_ok, Rand.pure_bind, model_ok hM, Rand.lift_ok, Rand.pure_bind]
    exact Full.bind (h d hd1 hd2) fun t ht => Full.pure (zip_rows ht.1 ht.2)
  · obtain ⟨h1, h2⟩ := forall2_flat (ix := Prod.snd) (T := fun b => b.2.shape = [C, F] ∧ T b.1 b.2) hp
      (fun _ _ h => h.1) fun _ _ h => h.2
    exact restore_ok hN (by rw [h1, ← hl]; exact separate_flat ks) (fun p hp => (h2 p hp).1) fun p hp => (h2 p hp).2

end Mixture

namespace Props

/-- complete rows in the support of the leaves to which the mixture gives finite log-likelihoods. -/
structure MixAccepted (X : Mixture) (s : LeafSpec) (c : Config) (N : Nat) (t : Tensor Fl) : Prop where
  complete : Complete s c N t
  scored : ∃ y, X.forward t = .ok y ∧ y.shape = [N, c.num_classes.toNat] ∧
    ∀ n, n < N → ∀ k, k < c.num_classes.toNat → ∃ v : ℝ, y.get [n, k] = .fin v

/-- the components have leaves of the same class and keyword arguments, as built by `Mixture.__init__` from one configuration. -/
def SameSupport (P : Nat → Params) : Prop := ∀ j k v, (P j).leaf.InSupport v → (P k).leaf.InSupport v

theorem mixAccepted {c : Config} {P : Nat → Params} {X : Mixture} (hX : IsMixture c P X) (hsup : SameSupport P) {N : Nat} (hN : 0 < N)
    {t : Tensor Fl} (h : Complete (P 0).leaf c N t) : MixAccepted X (P 0).leaf c N t := by
  have hb : ∀ k, Batch (P k).leaf N c.num_channels.toNat c.num_features.toNat t := fun k =>
    ⟨h.1, fun n hn ch hc f hf => by
      obtain ⟨x, hx, hi⟩ := h.2 n hn ch hc f hf
      exact Or.inr ⟨x, hx, hsup 0 k x hi⟩⟩
  obtain ⟨y, hy, h1, h2⟩ := C28_forward c P X hX N hN t hb
  refine ⟨h, y, hy, h1, fun n hn k hk => ?_⟩
  obtain ⟨M, z, hM, hz, hyz⟩ := h2 n hn
  obtain ⟨y', hy', -, g2⟩ := C06_forward_partial c (P _) (hX.random _) (hX.good _) M (hX.model hM) 1 _
    (⟨rfl, fun m hm ch hc f hf => (hb _).2 n hn ch hc f hf⟩ :
      Batch (P _).leaf 1 c.num_channels.toNat c.num_features.toNat (oneRow c.num_channels.toNat c.num_features.toNat t n))
  rw [hz, Except.ok.injEq] at hy'
  rw [hyz k hk, hy']
  exact g2 0 one_pos k hk

/-- number of rows returned by `sample` without evidence: one for MPE. -/
def MixCount (X : Mixture) (a : MixArgs) (n : Nat) : Prop :=
  (a.is_mpe = true ∧ n = 1) ∨
  (a.is_mpe = false ∧ ∃ m, a.num_samples_per_cluster = some m ∧ n = m * X.models.length) ∨
  (a.is_mpe = false ∧ a.num_samples_per_cluster = none ∧ n = a.num_samples.getD 1)

theorem drawClusters_full {X : Mixture} {w : List ℝ} (hw : Weights X w) {a : MixArgs} (hev : a.evidence = none) {n : Nat}
    (hn : MixCount X a n) : Full (fun ks => ks.length = n ∧ ∀ k ∈ ks, k < X.models.length) (X.drawClusters a) := by
  have hl : X.mixture_weights.length = w.length := by rw [hw.eq, List.length_map]
  have hwl : 0 < X.mixture_weights.length := by
    rw [hl]
    rcases w with _ | ⟨r, w⟩
    · have := hw.pos
      simp at this
    · simp
  have hle : X.mixture_weights.length ≤ X.models.length := by rw [hl]; exact hw.le
  unfold Mixture.drawClusters
  rcases hn with ⟨h1, rfl⟩ | ⟨h1, m, h2, rfl⟩ | ⟨h1, h2, rfl⟩
  · rw [if_pos h1, require_true _ (List.ne_nil_of_length_pos hwl)]
    refine Full.pure ⟨rfl, fun k hk => ?_⟩
    rw [List.mem_singleton] at hk
    rw [hk]
    exact lt_of_lt_of_le (Fl.argmaxN_lt hwl _) hle
  · rw [if_neg (by simp [h1]), h2]
    refine Full.pure ⟨?_, fun k hk => ?_⟩
    · simp [List.length_flatMap, Nat.mul_comm]
    · obtain ⟨j, hj, hk⟩ := List.mem_flatMap.1 hk
      rw [List.eq_of_mem_replicate hk]
      exact List.mem_range.1 hj
  · rw [if_neg (by simp [h1]), h2]
    dsimp only
    rw [require_true _ hw.ok]
    have hcount : X.count a = a.num_samples.getD 1 := by
      unfold Mixture.count
      rw [hev, h2]
      cases a.num_samples <;> rfl
    rw [hcount]
    exact (Full.of_all (Rand.disc_drawList _ _ _) (Rand.All_drawList hw.exists_pos _)).mono
      fun ks hk => ⟨hk.1, fun k h => lt_of_lt_of_le (hk.2 k h) hle⟩

/-- **C66** for mixtures without evidence: with probability one the returned rows are complete, lie in the support of the leaves, and
the mixture itself gives them finite log-likelihoods.  For sampling (in total or per component) and MPE, all temperatures. -/
theorem C66_mixture_samples_accepted (c : Config) (P : Nat → Params) (X : Mixture) (hX : IsMixture c P X) (hsup : SameSupport P)
    (hs : ∀ k, (P k).leaf.CanSample) (w : List ℝ) (hw : Weights X w) (a : MixArgs) (hev : a.evidence = none)
    (ha : a.num_samples = none ∨ a.num_samples_per_cluster = none) (n : Nat) (hn : 0 < n) (hc : MixCount X a n)
    (hT : a.temperature_sums ≠ 0) (hL : 0 < a.temperature_leaves)
    (hcl : ∀ l, a.class_index = some l → 1 < c.num_classes ∧ ∃ k, l = .int k ∧ k < c.num_classes.toNat) :
    (X.sample a).E (fun t => if MixAccepted X (P 0).leaf c n t then 1 else 0) = 1 := by
  refine Full.prob (P := MixAccepted X (P 0).leaf c n) ?_
  unfold Mixture.sample
  rw [require_true _ (show a.num_samples.isNone = true ∨ a.num_samples_per_cluster.isNone = true by
    rcases ha with h | h <;> simp [h]), Rand.lift_ok, Rand.pure_bind]
  refine Full.bind (drawClusters_full hw hev hc) fun ks ⟨h1, h2⟩ => ?_
  rw [hev]
  have hfull := Mixture.sampleFree_full (X := X) (a := a) (ks := ks) (C := c.num_channels.toNat) (F := c.num_features.toNat)
    (T := fun t => ∀ ch, ch < c.num_channels.toNat → ∀ f, f < c.num_features.toNat → ∃ x : ℝ, t.get [ch, f] = .fin x ∧ (P 0).leaf.InSupport x)
    (by rintro rfl; simp at h1; omega) fun k hk => by
      have hk' := h2 k hk
      have hM := List.getElem?_eq_getElem hk'
      refine ⟨_, hM, fun m hm => ?_⟩
      have h3 := (hX.sizes hM).2.2
      have hz := (build_WF (hX.random k) (hX.model hM)).1
      have hca : ClassArg (X.models[k]) m a.class_index := by
        cases hci : a.class_index with
        | none => trivial
        | some l =>
          obtain ⟨h4, k, rfl, h5⟩ := hcl l hci
          exact ⟨by rw [h3]; omega, by rw [h3]; exact h5⟩
      refine (Model.sample_full (build_samplable (hX.random k) (hX.good k) (hs k) (hX.model hM))
        (LeafSpec.drawsValid (hX.good k) (build_leaf (hX.random k) (hX.model hM))) (a := Mixture.freeArgs a m) rfl hm hT hL
        (ClassArg.ok hca)).mono fun t ⟨S, hs3, hS⟩ => ?_
      rw [hz.channels, hz.features] at hs3 hS
      exact ⟨hs3.1, fun j hj ch hch f hf => ⟨_, hs3.get hj hch hf,
        hsup k 0 _ ((LeafSpec.valid_iff (build_leaf (hX.random k) (hX.model hM)) _).1 (hS j hj ch hch f hf))⟩⟩
  refine hfull.mono fun t ⟨t1, t2⟩ => ?_
  rw [h1] at t1 t2
  exact mixAccepted hX hsup hn ⟨t1, fun j hj ch hch f hf => t2 j hj ch hch f hf⟩

/-- **C66** for mixtures with evidence: the completed rows are accepted, with probability one. -/
theorem C66_mixture_completions_accepted (c : Config) (P : Nat → Params) (X : Mixture) (hX : IsMixture c P X) (hsup : SameSupport P)
    (hs : ∀ k, (P k).leaf.CanSample) (w : List ℝ) (hw : Weights X w) (N : Nat) (hN : 0 < N) (e : Tensor Fl) (a : MixArgs)
    (he : MixEvidence P X N a.marginalized_scopes e) (hev : a.evidence = some e) (hpc : a.num_samples_per_cluster = none)
    (hT : a.temperature_sums ≠ 0) (hL : 0 < a.temperature_leaves) :
    (X.sample a).E (fun t => if MixAccepted X (P 0).leaf c N t then 1 else 0) = 1 := by
  have h0 := List.getElem?_eq_getElem hX.pos
  obtain ⟨f1, f2, _⟩ := hX.sizes h0
  have hsh : e.shape = [N, c.num_channels.toNat, c.num_features.toNat] := by rw [(he 0 _ h0).batch.1, f1, f2]
  have hks := hX.predict hN hsh hX.channels_pos a.marginalized_scopes
  have hkk : ∀ i, i < N → ((List.range N).map (clusterOf X c.num_channels.toNat c.num_features.toNat
      a.marginalized_scopes e)).getD i 0 = clusterOf X c.num_channels.toNat c.num_features.toNat a.marginalized_scopes e i :=
    fun i hi => by simp [hi]
  refine Full.prob (P := MixAccepted X (P 0).leaf c N) ?_
  have hne : X.mixture_weights ≠ [] := by
    intro e
    have h0 : w = [] := by have := congrArg List.length e; rw [hw.eq, List.length_map] at this; exact List.length_eq_zero_iff.1 this
    have := hw.pos
    rw [h0] at this
    simp at this
  unfold Mixture.sample
  rw [hpc, require_true _ (show a.num_samples.isNone = true ∨ (none : Option Nat).isNone = true from Or.inr rfl), Rand.lift_ok,
    Rand.pure_bind]
  refine Full.bind (P := fun _ => True) ?_ fun ks _ => ?_
  · unfold Mixture.drawClusters
    split_ifs
    · rw [require_true _ hne]; exact Full.pure trivial
    · rw [hpc]
      dsimp only
      rw [require_true _ hw.ok]
      exact (Full.of_all (Rand.disc_drawList _ _ _) (Rand.All_drawList hw.exists_pos _)).mono fun _ _ => trivial
  rw [hev]
  have hfull := Mixture.sampleEvidence_full (X := X) (a := a) (T := fun _ t => ∀ ch, ch < c.num_channels.toNat → ∀ f, f < c.num_features.toNat →
      ∃ x : ℝ, t.get [ch, f] = .fin x ∧ (P 0).leaf.InSupport x) hN hsh hks (by simp) fun k is his hk => by
    have hp : 0 < is.length := List.length_pos_iff.2 his
    obtain ⟨M, hM⟩ : ∃ M, X.models[k]? = some M := by
      obtain ⟨h1, h2⟩ := hk _ (getD_mem hp)
      rw [← h2, hkk _ h1]
      exact hX.cluster_lt _ _ a.marginalized_scopes e _
    obtain ⟨e1, e2, _⟩ := hX.sizes hM
    refine ⟨M, hM, fun d hd hget => ?_⟩
    obtain ⟨hE, hh⟩ := (he k M hM).group (is := is) (fun j hj => (hk _ (getD_mem hj)).1) (by rw [e1, e2]; exact hd) hget
    obtain ⟨sc, hsc, hh'⟩ := hE.scopes
    have hcount : (Mixture.evidenceArgs a d).count = is.length := by
      unfold SampleArgs.count; simp [Mixture.evidenceArgs, Tensor.size, hd, at']
    obtain ⟨hz, -, hpr, -⟩ := build_WF (hX.random k) (hX.model hM)
    refine (Model.sample_evidence_full (build_samplable (hX.random k) (hX.good k) (hs k) (hX.model hM))
      (LeafSpec.drawsValid (hX.good k) (build_leaf (hX.random k) (hX.model hM))) (hpr (hX.good k)) (a := Mixture.evidenceArgs a d) rfl
      (by rw [hcount]; exact hp) (by rw [hcount]; exact hE.batch.is3) rfl rfl hT hL hsc
      (by rw [hcount]; exact hE.ok (hX.random k) (hX.model hM) hh')).mono fun t ⟨S, hs3, hS⟩ => ?_
    rw [hz.channels, hz.features, hcount] at hs3 hS
    exact ⟨hs3.1, fun j hj ch hch f hf => ⟨_, hs3.get hj hch hf,
      hsup k 0 _ ((LeafSpec.valid_iff (build_leaf (hX.random k) (hX.model hM)) _).1 (hS j hj ch hch f hf))⟩⟩
  exact hfull.mono fun t ⟨t1, t2⟩ => mixAccepted hX hsup hN ⟨t1, fun j hj ch hch f hf => t2 j hj ch hch f hf⟩

/-- three components with `Binomial` leaves, drawn with different weights; four rows, two rows per component, and MPE. -/
example : ∃ X w, IsMixture (exConfig "linsum" "top-down") (fun _ => exParams (.binomial 7 fun _ _ i _ => i)) X ∧ Weights X w ∧
    SameSupport (fun _ => exParams (.binomial 7 fun _ _ i _ => i)) ∧ (exParams (.binomial 7 fun _ _ i _ => i)).leaf.CanSample ∧
    MixCount X { num_samples := some 4 } 4 ∧ MixCount X { num_samples_per_cluster := some 2 } 6 ∧ MixCount X { is_mpe := true } 1 := by
  obtain ⟨M, h⟩ := exBinomial_builds
  have hX := isMixture_of (n := 3) (by norm_num) (M := fun _ => M) (fun _ _ => h) (fun _ => exParams_random _)
    (fun _ => trivial) ([1 / 5, 0, 4 / 5].map .fin) (cs := List.replicate 3 (List.replicate 10 (.fin 1))) (by simp)
    (by simp [exConfig]) exNear_lt
  exact ⟨_, [1 / 5, 0, 4 / 5], hX, ⟨rfl, by simp; norm_num, by norm_num, by simp⟩, fun _ _ _ h => h, trivial,
    .inr (.inr ⟨rfl, rfl, rfl⟩), .inr (.inl ⟨rfl, 2, rfl, by simp⟩), .inl ⟨rfl, rfl⟩⟩

end Props
end Einet
