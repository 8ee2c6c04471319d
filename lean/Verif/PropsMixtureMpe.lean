import Verif.PropsMixtureInit

/-!
# C50: most probable explanations of mixtures
-/

open Classical MeasureTheory
open scoped ENNReal
noncomputable section
namespace Einet
namespace Props
open Tensor Einet

/-- a row `t` is a greedy completion of row `i` of the evidence in the component `M`: there are a class, a repetition and a path
with the largest posterior weights such that `t` has the modes of the chosen leaf components in the holes and the entries of
the evidence elsewhere.  `H` assigns the features to leaf components when sampling, `G` in the forward pass. -/
def GreedyRow (M : Model) (G H : Nat → Nat → Nat) (ms : Option Scopes) (e : Tensor Fl) (i : Nat) (t : Nat → Nat → Fl) : Prop :=
  ∃ k r idx, M.GreedyChoice {} 0 (regionVal M G (known M.num_features ms e i)) k r idx ∧
    (∀ o, o < M.numOut → idx o < M.num_leaves) ∧
    ∀ d, d < M.num_channels → ∀ f, f < M.num_features → t d f =
      if Hole M.num_features ms e i d f then .fin (M.leaf.base.mode d f (idx (H r f)) r) else e.get [i, d, f]

theorem mixture_mpe_det (X : Mixture) (e : Option (Tensor Fl)) (ms : Option Scopes) : (X.mpe e ms).Det := by
  have lift : ∀ {α : Type} (x : Res α), (Rand.lift x).Det := fun x => by cases x <;> trivial
  have bind : ∀ {α β : Type} {x : Rand α} {f : α → Rand β}, x.Det → (∀ a, (f a).Det) → (x.bind f).Det := by
    intro α β x f hx hf
    cases x with
    | pure a => exact hf a
    | fail e => trivial
    | draw K w k => exact absurd hx id
    | leaf μ k => exact absurd hx id
  have each : ∀ {α β : Type} (l : List α) (f : α → Rand β), (∀ a, (f a).Det) → (Rand.forEach l f).Det := by
    intro α β l f hf
    induction l with
    | nil => trivial
    | cons a l ih => exact bind (hf a) fun b => bind ih fun c => trivial
  unfold Mixture.mpe Mixture.sample
  refine bind (lift _) fun _ => bind ?_ fun ks => ?_
  · unfold Mixture.drawClusters
    rw [if_pos rfl]
    exact bind (lift _) fun _ => trivial
  · cases e with
    | none => exact bind (each _ _ fun g => bind (lift _) fun M => M.sample_det rfl) fun _ => lift _
    | some e =>
      exact bind (lift _) fun ks => bind (each _ _ fun g => bind (lift _) fun d => bind (lift _) fun M =>
        bind (M.sample_det rfl) fun s => trivial) fun _ => lift _

/-- **C50** with evidence: `Mixture.mpe` draws nothing and returns; row `i` of the result is a greedy completion of row `i` of the
evidence by the component of the cluster of that row, with the given scopes. -/
theorem C50_evidence (c : Config) (P : Nat → Params) (X : Mixture) (hX : IsMixture c P X) (hs : ∀ k, (P k).leaf.CanSample)
    (w : List ℝ) (hw : Weights X w) (N : Nat) (hN : 0 < N) (e : Tensor Fl) (ms : Option Scopes)
    (he : MixEvidence P X N ms e) :
    ∃ y, X.mpe (some e) ms = .pure y ∧ y.shape = e.shape ∧ ∀ i, i < N → ∃ M G H,
      X.models[clusterOf X c.num_channels.toNat c.num_features.toNat ms e i]? = some M ∧
      ForwardIn M (P (clusterOf X c.num_channels.toNat c.num_features.toNat ms e i)).leaf M.numOut G ∧
      SampledIn M M.numOut H ∧ GreedyRow M G H ms e i fun d f => y.get [i, d, f] := by
  refine (mixture_mpe_det X (some e) ms).pure ?_
  set cl := clusterOf X c.num_channels.toNat c.num_features.toNat ms e with hcl
  have h0 := List.getElem?_eq_getElem hX.pos
  obtain ⟨f1, f2, _⟩ := hX.sizes h0
  have hsh : e.shape = [N, c.num_channels.toNat, c.num_features.toNat] := by rw [(he 0 _ h0).batch.1, f1, f2]
  have hks := hX.predict hN hsh hX.channels_pos ms
  have hkk : ∀ i, i < N → ((List.range N).map cl).getD i 0 = cl i := fun i hi => by simp [hi]
  unfold Mixture.mpe
  refine sample_evidence_All rfl hw rfl ?_
  rw [hsh]
  refine Mixture.sampleEvidence_All (T := fun i t => ∃ M G H, X.models[cl i]? = some M ∧
    ForwardIn M (P (cl i)).leaf M.numOut G ∧ SampledIn M M.numOut H ∧
    GreedyRow M G H ms e i fun d f => t.get [d, f]) hN hsh hks (by simp) fun k is his hk => ?_
  have hp : 0 < is.length := List.length_pos_iff.2 his
  have hck : ∀ j, j < is.length → cl (is.getD j 0) = k := fun j hj => by
    obtain ⟨h1, h2⟩ := hk _ (getD_mem hj)
    rw [← h2, hkk _ h1]
  obtain ⟨M, hM⟩ : ∃ M, X.models[k]? = some M := by
    rw [← hck 0 hp]
    exact hX.cluster_lt _ _ ms e _
  obtain ⟨e1, e2, _⟩ := hX.sizes hM
  refine ⟨M, hM, fun d hd hget => ?_⟩
  obtain ⟨hE, hh⟩ := (he k M hM).group (is := is) (fun j hj => (hk _ (getD_mem hj)).1) (by rw [e1, e2]; exact hd) hget
  obtain ⟨G, H, s, k1, k2, k3, k4, k5, k6⟩ := C20_mpe_partial c (P k) (hX.random k) (hX.good k) (hs k) M (hX.model hM)
    is.length hp d ms hE
  rw [show M.sample (Mixture.evidenceArgs { evidence := some e, is_mpe := true, marginalized_scopes := ms } d) = .pure s from k4]
  refine ⟨by rw [k5, hd], fun j hj => ⟨M, G, H, by rw [hck j hj]; exact hM, by rw [hck j hj]; exact k1, k2, ?_⟩⟩
  obtain ⟨kk, r, idx, g, hi, hv⟩ := k6 j hj
  refine ⟨kk, r, idx, ?_, hi, fun c' hc f hf => ?_⟩
  · rw [← (hh j hj).2]
    exact ⟨g.cls, g.rep, g.path⟩
  · show s.get [j, c', f] = _
    rw [hv c' hc f hf, hget j hj]
    exact if_congr ((hh j hj).1 c' f) rfl rfl

/-- **C50** without evidence: the result is what the component with the largest weight returns for one row. -/
theorem C50_free (c : Config) (P : Nat → Params) (X : Mixture) (hX : IsMixture c P X) (hs : ∀ k, (P k).leaf.CanSample)
    (w : List ℝ) (hw : Weights X w) :
    ∃ k M s y, k < w.length ∧ (∀ j, j < w.length → weight w j ≤ weight w k) ∧ X.models[k]? = some M ∧
      M.mpe none = .pure s ∧ X.mpe = .pure y ∧ y.shape = [1, c.num_channels.toNat, c.num_features.toNat] ∧
      s.shape = y.shape ∧ ∀ d, d < c.num_channels.toNat → ∀ f, f < c.num_features.toNat → y.get [0, d, f] = s.get [0, d, f] := by
  have hl : X.mixture_weights.length = w.length := by rw [hw.eq, List.length_map]
  have hne : X.mixture_weights ≠ [] := by
    intro e
    have h0 : w = [] := by rw [e] at hl; exact List.length_eq_zero_iff.1 hl.symm
    have := hw.pos
    rw [h0] at this
    simp at this
  set k := Fl.argmaxN X.mixture_weights.length fun k => X.mixture_weights.getD k .nan with hk
  have hkl : k < X.mixture_weights.length := Fl.argmaxN_lt (List.length_pos_iff.2 hne) _
  have hk' : k < X.models.length := by
    have := hw.le
    omega
  have hM := List.getElem?_eq_getElem hk'
  generalize X.models[k] = M at hM
  obtain ⟨e1, e2, _⟩ := hX.sizes hM
  obtain ⟨H, s, -, -, h4, h5, -⟩ := C20_greedy c (P k) (hX.random k) (hX.good k) (hs k) M (hX.model hM)
    { is_mpe := true } rfl rfl (by simp [SampleArgs.count]) one_ne_zero trivial
  rw [e1, e2] at h5
  have h5' : s.shape = [1, c.num_channels.toNat, c.num_features.toNat] := h5
  have hfree : M.sample (Mixture.freeArgs { is_mpe := true } 1) = .pure s := by
    rw [← h4, Model.sample_eq M _ (Model.check_ok (a := { is_mpe := true }) trivial (by simp)) rfl,
      Model.sample_eq M _ (Model.check_ok (a := Mixture.freeArgs { is_mpe := true } 1) trivial (by simp [Mixture.freeArgs])) rfl]
    rfl
  have e : X.mpe = X.sampleFree { is_mpe := true } [k] := by
    unfold Mixture.mpe Mixture.sample Mixture.drawClusters
    dsimp only
    rw [require_true _ (show (none : Option Nat).isNone = true ∨ (none : Option Nat).isNone = true from Or.inr rfl),
      require_true _ hne]
    rfl
  have hsep : separate [k] = [(k, [0])] := rfl
  have hdet := mixture_mpe_det X none none
  have hall : (X.mpe none none).All fun y => y.shape = [1, c.num_channels.toNat, c.num_features.toNat] ∧
      ∀ d, d < c.num_channels.toNat → ∀ f, f < c.num_features.toNat → y.get [0, d, f] = s.get [0, d, f] := by
    rw [e]
    unfold Mixture.sampleFree
    have hmod : Mixture.model X k = .ok M := Mixture.model_ok hM
    have hfe : (Rand.forEach (separate [k]) fun g => (Rand.lift (X.model g.1)).bind fun M =>
        M.sample (Mixture.freeArgs { is_mpe := true } g.2.length)) = .pure [s] := by
      rw [hsep]
      show ((Rand.lift (X.model k)).bind fun M => M.sample (Mixture.freeArgs { is_mpe := true } 1)).bind _ = _
      rw [hmod, Rand.lift_ok, Rand.pure_bind, hfree]
      rfl
    rw [hfe, Rand.pure_bind]
    obtain ⟨y, hy, h1, -, h3⟩ := arrange_ok (ks := [k]) (by simp) (s := [c.num_channels.toNat, c.num_features.toNat]) (parts := [s])
      (by rw [hsep]; exact .cons h5' .nil)
    refine .lift ⟨y, hy, h1, fun d _ f _ => ?_⟩
    have hp : sortPerm [k] = [0] := by simp [sortPerm]
    have hr : s.rows = [s.row 0] := by simp [Tensor.rows, Tensor.size, h5', at']
    have hr' : y.rows = [y.row 0] := by simp [Tensor.rows, Tensor.size, h1, at']
    rw [hp, hr'] at h3
    simp only [List.flatMap_cons, List.flatMap_nil, hr, List.append_nil, List.map_cons, List.map_nil] at h3
    have h6 : y.row 0 = s.row 0 := by simpa using h3
    have h7 := congrArg (fun t : Tensor Fl => t.get [d, f]) h6
    exact h7
  obtain ⟨y, y1, y2, y3⟩ := hdet.pure hall
  refine ⟨k, M, s, y, by omega, fun j hj => ?_, hM, h4, y1, y2, by rw [h5', y2], y3⟩
  have hmax := Fl.argmaxN_max (n := X.mixture_weights.length) (f := fun k => X.mixture_weights.getD k .nan)
    (g := fun k => w.getD k 0) (fun i hi => by rw [hw.eq] at hi ⊢; simp at hi; simp [hi]) j (by omega)
  rw [← hk] at hmax
  exact ENNReal.ofReal_le_ofReal (div_le_div_of_nonneg_right hmax hw.pos.le)

/-- the two calls of C50 on the witness with two components of weight 1/2. -/
example : ∃ X : Mixture, IsMixture (wConfig 2 1 0) wMixP X ∧ (∀ k, (wMixP k).leaf.CanSample) ∧ Weights X [1 / 2, 1 / 2] := by
  obtain ⟨M, hM, hX⟩ := wMix_exists 2 (by norm_num) [.fin (1 / 2), .fin (1 / 2)]
  exact ⟨_, hX, fun k => wLeaf_good.2, wMix_weights⟩

end Props
end Einet
