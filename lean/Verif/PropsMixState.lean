import Verif.MixState
import Verif.PropsStateDict
import Verif.PropsMixtureInit

/-!
# C84: saving and restoring mixtures
-/

open Classical
noncomputable section
namespace Einet
open Tensor

namespace MixNet

theorem toVec_vec (l : List Fl) : toVec (vec l) = l := by
  refine List.ext_getElem (by simp [toVec, vec, Tensor.size, at']) fun i h1 h2 => ?_
  simp [toVec, vec, at', List.getD, h2]

theorem toMat_mat (d : Nat) (l : List (List Fl)) (h : ∀ r ∈ l, r.length = d) : toMat (mat d l) = l := by
  refine List.ext_getElem (by simp [toMat, mat, Tensor.size, at']) fun i h1 h2 => ?_
  simp only [toMat, mat, List.getElem_map, List.getElem_range]
  have hr := h l[i] (List.getElem_mem h2)
  refine List.ext_getElem (by simp [Tensor.size, at', hr]) fun j k1 k2 => ?_
  simp [at', List.getD, h2, k2]

/-- the object after `initialize` is the mixture after `initialize`. -/
theorem mixture_init (X : MixNet) (p : List Nat) (d : Nat) (cs : List (List Fl)) (t : Option ℝ) (h : ∀ r ∈ cs, r.length = d) :
    (X.init p d cs t).mixture = X.mixture.init p cs t := by
  unfold mixture init Mixture.init
  simp only [toVec_vec]
  cases t with
  | none => simp only [toMat_mat d cs h]
  | some t =>
    have h2 : ∀ r ∈ cs.map fun l => l.map fun v => v * Fl.fin t, r.length = d := by
      intro r hr
      obtain ⟨r', hr', rfl⟩ := List.mem_map.1 hr
      simpa using h r' hr'
    simp only [toMat_mat d _ h2]

end MixNet

namespace Mixture

/-- components that do the same. -/
structure Alike (X Y : Mixture) : Prop where
  num_features : X.num_features = Y.num_features
  weights : X.mixture_weights = Y.mixture_weights
  centroids : X.centroids = Y.centroids
  nearest : X.nearest = Y.nearest
  models : List.Forall₂ (fun M M' : Model => (∀ x s, M.forward x s = M'.forward x s) ∧ ∀ a, M.sample a = M'.sample a) X.models Y.models

variable {X Y : Mixture}

theorem Alike.model (h : X.Alike Y) (k : Nat) : (∃ M M', X.model k = .ok M ∧ Y.model k = .ok M' ∧ (∀ x s, M.forward x s = M'.forward x s) ∧
    ∀ a, M.sample a = M'.sample a) ∨ (∃ e, X.model k = .error e ∧ Y.model k = .error e) := by
  unfold Mixture.model
  have := h.models
  rcases hx : X.models[k]? with _ | M
  · have hk : Y.models[k]? = none := by
      rw [List.getElem?_eq_none_iff] at hx ⊢
      rw [← this.length_eq]; exact hx
    rw [hk]
    exact .inr ⟨_, rfl, rfl⟩
  · obtain ⟨hk, rfl⟩ := List.getElem?_eq_some_iff.1 hx
    have hk' : k < Y.models.length := this.length_eq ▸ hk
    rw [List.getElem?_eq_getElem hk']
    exact .inl ⟨_, _, rfl, rfl, (List.forall₂_iff_get.1 this).2 k hk hk'⟩

theorem Alike.predictCluster (h : X.Alike Y) (x : Tensor Fl) (ms : Option Scopes) : X.predictCluster x ms = Y.predictCluster x ms := by
  unfold Mixture.predictCluster Mixture.keepIdx
  rw [h.num_features, h.centroids, h.nearest]

theorem Alike.forward (h : X.Alike Y) (x : Tensor Fl) (ms : Option Scopes) : X.forward x ms = Y.forward x ms := by
  have hg : X.forwardGroup x = Y.forwardGroup x := by
    funext g
    unfold Mixture.forwardGroup
    rcases h.model g.1 with ⟨M, M', h1, h2, h3, -⟩ | ⟨e, h1, h2⟩
    · simp only [h1, h2, Res.ok_bind, h3]
    · simp only [h1, h2]
  unfold Mixture.forward
  rw [h.predictCluster, hg]

theorem Alike.sample (h : X.Alike Y) (a : MixArgs) : X.sample a = Y.sample a := by
  have hl : X.models.length = Y.models.length := h.models.length_eq
  have hc : X.drawClusters a = Y.drawClusters a := by
    unfold Mixture.drawClusters Mixture.weightsOK Mixture.count
    have : X.logWeight = Y.logWeight := by funext k; unfold Mixture.logWeight; rw [h.weights]
    rw [this, h.weights, hl]
  have hm : ∀ k (F : SampleArgs) , ((Rand.lift (X.model k)).bind fun M => M.sample F) = (Rand.lift (Y.model k)).bind fun M => M.sample F := by
    intro k F
    rcases h.model k with ⟨M, M', h1, h2, -, h3⟩ | ⟨e, h1, h2⟩
    · rw [h1, h2]; exact h3 F
    · rw [h1, h2]
  have hm' : ∀ k (F : SampleArgs) (G : Tensor Fl → Rand (List (Nat × Tensor Fl))),
      ((Rand.lift (X.model k)).bind fun M => (M.sample F).bind G) = (Rand.lift (Y.model k)).bind fun M => (M.sample F).bind G := by
    intro k F G
    rcases h.model k with ⟨M, M', h1, h2, -, h3⟩ | ⟨e, h1, h2⟩
    · rw [h1, h2]
      show (M.sample F).bind G = (M'.sample F).bind G
      rw [h3]
    · rw [h1, h2]
  unfold Mixture.sample
  rw [hc]
  congr 1
  funext _
  congr 1
  funext ks
  cases a.evidence with
  | none =>
    simp only [Mixture.sampleFree, hm]
  | some e =>
    simp only [Mixture.sampleEvidence, hm', h.predictCluster]

end Mixture

namespace MixNet

theorem create_ok {n : Int} {c : Config} {P : Nat → Params} {w m : List Nat → Fl} {near : List Fl → List (List Fl) → Nat} {X : MixNet}
    (h : create n c P w m near = .ok X) : 0 < n.toNat ∧ X.nets.length = n.toNat ∧ (∀ (i : Nat) N, X.nets[i]? = some N → Net.create c (P i) = .ok N) ∧
    X.num_features = c.num_features.toNat ∧ X.weights = ⟨[n.toNat], w⟩ ∧ X.centroids = ⟨[n.toNat, c.num_features.toNat], m⟩ ∧
    X.nearest = near := by
  unfold create at h
  obtain ⟨h0, h⟩ := (Props.checkInt_iff n 1 one_ne_zero _ _).1 h
  obtain ⟨nets, h1, h⟩ := bind_ok h
  simp only [Res.pure_eq, Except.ok.injEq] at h
  subst h
  obtain ⟨a1, a2⟩ := Props.mapM_getElem? h1
  refine ⟨?_, a1, a2, rfl, rfl, rfl, rfl⟩
  omega

end MixNet

namespace Props
open MixNet

theorem bincount_length (p : List Nat) (n : Nat) (hn : 0 < n) (hlt : ∀ k ∈ p, k < n) :
    (Mixture.bincount p).length = n ↔ n - 1 ∈ p := by
  obtain ⟨-, h2, h3⟩ := foldl_max_le p 0
  unfold Mixture.bincount
  rw [List.length_map, List.length_range]
  constructor
  · intro h
    by_contra hc
    have := h3 (n - 1) (Nat.zero_le _) fun k hk => by
      have := hlt k hk
      have : k ≠ n - 1 := fun e => hc (e ▸ hk)
      omega
    omega
  · intro h
    have a := h2 _ h
    have b := h3 n (Nat.zero_le _) hlt
    omega

/-- shapes of the buffers after `initialize`. -/
theorem init_shapes (X : MixNet) (p : List Nat) (d : Nat) (cs : List (List Fl)) (t : Option ℝ) :
    (X.init p d cs t).weights.shape = [(Mixture.bincount p).length] ∧ (X.init p d cs t).centroids.shape = [cs.length, d] := by
  refine ⟨by simp [MixNet.init, vec, Mixture.weightsOf], ?_⟩
  cases t <;> simp [MixNet.init, mat]

/-- **C84**: a mixture of the same configuration (up to dropout) and leaf class loads the file of an initialised mixture exactly if
both have the same number of components, some training row was assigned to the last cluster, and the training data had one channel
(their flattened rows have `num_features` entries); otherwise a `RuntimeError` is raised. -/
theorem C84_loads_iff (n n' : Int) (c c' : Config) (P P' : Nat → Params) (hP : ∀ i, (P i).Random) (hP' : ∀ i, (P' i).Random)
    (w w' m m' : List Nat → Fl) (near : List Fl → List (List Fl) → Nat) (X X' : MixNet)
    (h : MixNet.create n c P w m near = .ok X) (h' : MixNet.create n' c' P' w' m' near = .ok X')
    (hc : c' = { c with dropout := c'.dropout }) (hl : ∀ i j, (P i).leaf.Same (P' j).leaf)
    (p : List Nat) (hp : ∀ k ∈ p, k < n.toNat) (d : Nat) (cs : List (List Fl)) (hcs : cs.length = n.toNat) (t : Option ℝ) :
    ((X'.load (X.init p d cs t).stateDict).2 = .ok () ↔ n' = n ∧ n.toNat - 1 ∈ p ∧ d = c.num_features.toNat) ∧
    ((X'.load (X.init p d cs t).stateDict).2 ≠ .ok () → (X'.load (X.init p d cs t).stateDict).2 = .error .other) := by
  obtain ⟨a1, a2, a3, a4, a5, a6, a7⟩ := create_ok h
  obtain ⟨b1, b2, b3, b4, b5, b6, b7⟩ := create_ok h'
  obtain ⟨s1, s2⟩ := init_shapes X p d cs t
  have hF : c'.num_features = c.num_features := by rw [hc]
  have hfit : X'.Fits (X.init p d cs t).stateDict ↔ n' = n ∧ n.toNat - 1 ∈ p ∧ d = c.num_features.toNat := by
    rw [← bincount_length p n.toNat a1 hp]
    constructor
    · intro hf
      have f1 := hf .mixture_weights
      have f2 := hf .centroids
      simp only [MixNet.stateDict, Option.map_some, Entry.shape, b5, b6, s1, s2, Option.some.injEq, List.cons.injEq, and_true] at f1 f2
      rw [hF] at f2
      refine ⟨by omega, by omega, f2.2.symm⟩
    · rintro ⟨rfl, e2, rfl⟩ k
      cases k with
      | mixture_weights =>
        simp only [MixNet.stateDict, Option.map_some, Entry.shape, b5, s1, e2]
      | centroids =>
        simp only [MixNet.stateDict, Option.map_some, Entry.shape, b6, s2, hcs, hF]
      | models i k =>
        show ((X'.nets[i]?).bind fun N => N.stateDict k).map Entry.shape = ((X.nets[i]?).bind fun N => N.stateDict k).map Entry.shape
        by_cases hi : i < n'.toNat
        · have q1 := a3 i _ (List.getElem?_eq_getElem (a2 ▸ hi))
          have q2 := b3 i _ (List.getElem?_eq_getElem (b2 ▸ hi))
          rw [List.getElem?_eq_getElem (l := X'.nets) (b2 ▸ hi), List.getElem?_eq_getElem (l := X.nets) (a2 ▸ hi)]
          exact Net.load_ok.1 (C78_loads c c' (P i) (P' i) (hP i) (hP' i) _ _ q1 q2 hc (hl i i)) k
        · rw [List.getElem?_eq_none (by omega), List.getElem?_eq_none (by omega)]
  unfold MixNet.load
  simp only
  rw [← hfit]
  split_ifs with hq
  · exact ⟨by simp [hq], fun h => absurd rfl h⟩
  · exact ⟨by simp [hq], fun _ => rfl⟩

/-- **C84**, the round trip: if loading raises nothing, all methods do the same as those of the saved mixture. -/
theorem C84_round_trip (n n' : Int) (c c' : Config) (P P' : Nat → Params) (hP : ∀ i, (P i).Random) (hP' : ∀ i, (P' i).Random)
    (w w' m m' : List Nat → Fl) (near : List Fl → List (List Fl) → Nat) (X X' : MixNet)
    (h : MixNet.create n c P w m near = .ok X) (h' : MixNet.create n' c' P' w' m' near = .ok X')
    (hc : c' = { c with dropout := c'.dropout }) (hl : ∀ i j, (P i).leaf.Same (P' j).leaf)
    (p : List Nat) (hp : ∀ k ∈ p, k < n.toNat) (d : Nat) (cs : List (List Fl)) (hcs : cs.length = n.toNat) (t : Option ℝ)
    (hok : (X'.load (X.init p d cs t).stateDict).2 = .ok ()) :
    (∀ x s, (X'.load (X.init p d cs t).stateDict).1.mixture.forward x s = (X.init p d cs t).mixture.forward x s) ∧
    (∀ a, (X'.load (X.init p d cs t).stateDict).1.mixture.sample a = (X.init p d cs t).mixture.sample a) ∧
    (∀ e s, (X'.load (X.init p d cs t).stateDict).1.mixture.mpe e s = (X.init p d cs t).mixture.mpe e s) := by
  obtain ⟨rfl, e2, e3⟩ := (C84_loads_iff n n' c c' P P' hP hP' w w' m m' near X X' h h' hc hl p hp d cs hcs t).1.1 hok
  obtain ⟨a1, a2, a3, a4, a5, a6, a7⟩ := create_ok h
  obtain ⟨b1, b2, b3, b4, b5, b6, b7⟩ := create_ok h'
  obtain ⟨s1, s2⟩ := init_shapes X p d cs t
  have hF : c'.num_features = c.num_features := by rw [hc]
  have ha : Mixture.Alike (X'.load (X.init p d cs t).stateDict).1.mixture (X.init p d cs t).mixture := by
    refine ⟨?_, ?_, ?_, ?_, ?_⟩
    · show X'.num_features = X.num_features
      rw [b4, a4, hF]
    · show toVec (copy _ _ _) = toVec _
      congr 1
      refine if_pos ?_
      · show _ = X'.weights.shape
        show (X.init p d cs t).weights.shape = _
        rw [s1, b5, (bincount_length p n'.toNat a1 hp).2 e2]
    · show toMat (copy _ _ _) = toMat _
      congr 1
      refine if_pos ?_
      · show _ = X'.centroids.shape
        show (X.init p d cs t).centroids.shape = _
        rw [s2, b6, hcs, e3, hF]
    · show X'.nearest = X.nearest
      rw [b7, a7]
    · show List.Forall₂ _ ((X'.nets.mapIdx _).map Net.model) (X.nets.map Net.model)
      rw [List.forall₂_iff_get]
      refine ⟨by simp [a2, b2], fun i hi hi' => ?_⟩
      simp only [List.length_map, List.length_mapIdx] at hi hi'
      simp only [List.get_eq_getElem, List.getElem_map, List.getElem_mapIdx]
      have q1 := a3 i _ (List.getElem?_eq_getElem hi')
      have q2 := b3 i _ (List.getElem?_eq_getElem hi)
      have q3 : (fun k => (X.init p d cs t).stateDict (.models i k)) = (X.nets[i]).stateDict := by
        funext k
        show (X.nets[i]?).bind _ = _
        rw [List.getElem?_eq_getElem hi']
        rfl
      rw [q3]
      have := (C78_round_trip c c' (P i) (P' i) (hP i) (hP' i) _ _ q1 q2 (hl i i) hc).2
      exact ⟨this.forward, this.sample⟩
  exact ⟨ha.forward, ha.sample, fun _ _ => ha.sample _⟩

/-- **C84** is false for images with several channels: whatever the clustering found, no mixture can load the file. -/
theorem C84_refuted_channels (n : Int) (c : Config) (P P' : Nat → Params) (hP : ∀ i, (P i).Random) (hP' : ∀ i, (P' i).Random)
    (w w' m m' : List Nat → Fl) (near : List Fl → List (List Fl) → Nat) (X X' : MixNet)
    (h : MixNet.create n c P w m near = .ok X) (h' : MixNet.create n c P' w' m' near = .ok X')
    (hl : ∀ i j, (P i).leaf.Same (P' j).leaf) (hch : 2 ≤ c.num_channels)
    (p : List Nat) (hp : ∀ k ∈ p, k < n.toNat) (cs : List (List Fl)) (hcs : cs.length = n.toNat) (t : Option ℝ) :
    (X'.load (X.init p (c.num_channels.toNat * c.num_features.toNat) cs t).stateDict).2 = .error .other := by
  obtain ⟨k1, k2⟩ := C84_loads_iff n n c c P P' hP hP' w w' m m' near X X' h h' rfl hl p hp
    (c.num_channels.toNat * c.num_features.toNat) cs hcs t
  refine k2 fun hok => ?_
  obtain ⟨-, -, e⟩ := k1.1 hok
  obtain ⟨a1, a2, a3, -⟩ := create_ok h
  have q1 := a3 0 _ (List.getElem?_eq_getElem (a2 ▸ a1))
  obtain ⟨M, hM, -⟩ := Net.create_eq q1
  obtain ⟨v1, -⟩ := (assertValid_iff c).1 (build_valid hM)
  have f1 : 0 < c.num_features.toNat := by omega
  have f2 : 2 ≤ c.num_channels.toNat := by omega
  nlinarith

/-! ### The hypotheses are met -/

theorem mixNet_create {c : Config} {P : Nat → Params} {n : Nat} (hn : 0 < n) (hb : ∀ k, ∃ N, Net.create c (P k) = .ok N)
    (w m : List Nat → Fl) (near : List Fl → List (List Fl) → Nat) : ∃ X, MixNet.create n c P w m near = .ok X := by
  have : ∀ is : List Nat, ∃ l, is.mapM (fun k => Net.create c (P k)) = .ok l := by
    intro is
    induction is with
    | nil => exact ⟨[], rfl⟩
    | cons i is ih =>
      obtain ⟨l, hl⟩ := ih
      obtain ⟨N, hN⟩ := hb i
      exact ⟨N :: l, by rw [List.mapM_cons, hN, Res.ok_bind, hl]; rfl⟩
  obtain ⟨l, hl⟩ := this (List.range n)
  unfold MixNet.create
  refine ⟨⟨l, c.num_features.toNat, ⟨[n], w⟩, ⟨[n, c.num_features.toNat], m⟩, near⟩,
    (checkInt_iff n 1 one_ne_zero _ _).2 ⟨by exact_mod_cast hn, ?_⟩⟩
  rw [Int.toNat_natCast, hl]
  rfl

/-- two components, images with one channel, both clusters used: saved and loaded; the last cluster not used: refused. -/
example : ∃ X X', MixNet.create 2 { exConfig "linsum" "top-down" with num_channels := 1 } (fun _ => exParams exLeaf) (fun _ => .nan) (fun _ => .nan) (fun _ _ => 0) = .ok X ∧
    MixNet.create 2 { exConfig "linsum" "top-down" with num_channels := 1 } (fun _ => exParams (.normal (fun _ _ _ _ => 7) fun _ _ _ _ => 0)) (fun _ => .fin 3) (fun _ => .nan)
      (fun _ _ => 0) = .ok X' ∧
    (∀ x s, (X'.load (X.init [0, 1, 1] 5 [.replicate 5 (.fin 0), .replicate 5 (.fin 1)] none).stateDict).1.mixture.forward x s =
      (X.init [0, 1, 1] 5 [.replicate 5 (.fin 0), .replicate 5 (.fin 1)] none).mixture.forward x s) ∧
    (X'.load (X.init [0, 0, 0] 5 [.replicate 5 (.fin 0), .replicate 5 (.fin 1)] none).stateDict).2 = .error .other := by
  have hb : ∀ s : LeafSpec, (∃ a b, s = .normal a b) → ∃ N, Net.create { exConfig "linsum" "top-down" with num_channels := 1 } (exParams s) = .ok N := by
    rintro s ⟨a, b, rfl⟩
    refine create_of_build (build_iff.2 ⟨?_, ⟨normalLeaf _ _ _, by simp [exParams, LeafSpec.build, exConfig]; rfl⟩, by norm_num [exConfig], fun _ => by norm_num [exConfig],
      fun _ => ⟨1 / 4, rfl, by norm_num, by norm_num⟩⟩)
    have hv := (assertValid_iff _).1 (exConfig_valid (l := "linsum") (s := "top-down") (Or.inl ⟨Or.inl rfl, rfl⟩))
    rw [assertValid_iff]
    exact ⟨hv.1, by norm_num, hv.2.2⟩
  obtain ⟨X, hX⟩ := mixNet_create (P := fun _ => exParams exLeaf) two_pos (fun _ => hb _ ⟨_, _, rfl⟩) (fun _ => .nan) (fun _ => .nan) (fun _ _ => 0)
  obtain ⟨X', hX'⟩ := mixNet_create (P := fun _ => exParams (.normal (fun _ _ _ _ => 7) fun _ _ _ _ => 0)) two_pos (fun _ => hb _ ⟨_, _, rfl⟩)
    (fun _ => .fin 3) (fun _ => .nan) (fun _ _ => 0)
  have key := fun p hp => C84_loads_iff 2 2 _ _ _ _ (fun _ => exParams_random _) (fun _ => exParams_random _) _ _ _ _ _ X X' hX hX' rfl (fun _ _ => trivial)
    p hp 5 [.replicate 5 (.fin 0), .replicate 5 (.fin 1)] rfl none
  refine ⟨X, X', hX, hX', ?_, ?_⟩
  · have hp : ∀ k ∈ [0, 1, 1], k < (2 : ℤ).toNat := by decide
    exact (C84_round_trip 2 2 _ _ _ _ (fun _ => exParams_random _) (fun _ => exParams_random _) _ _ _ _ _ X X' hX hX' rfl (fun _ _ => trivial)
      [0, 1, 1] hp 5 [.replicate 5 (.fin 0), .replicate 5 (.fin 1)] rfl none ((key _ hp).1.2 ⟨rfl, by decide, rfl⟩)).1
  · refine (key [0, 0, 0] (by decide)).2 fun h => ?_
    exact absurd ((key [0, 0, 0] (by decide)).1.1 h).2.1 (by decide)

/-- two channels: refused. -/
example : ∃ X X', MixNet.create 2 (exConfig "linsum" "top-down") (fun _ => exParams exLeaf) (fun _ => .nan) (fun _ => .nan) (fun _ _ => 0) = .ok X ∧
    MixNet.create 2 (exConfig "linsum" "top-down") (fun _ => exParams exLeaf) (fun _ => .nan) (fun _ => .nan) (fun _ _ => 0) = .ok X' ∧
    (X'.load (X.init [0, 1, 1] 10 [.replicate 10 (.fin 0), .replicate 10 (.fin 1)] none).stateDict).2 = .error .other := by
  obtain ⟨X, hX⟩ := mixNet_create (P := fun _ => exParams exLeaf) two_pos
    (fun _ => create_of_build (exConfig_normal (l := "linsum") (s := "top-down") (Or.inl ⟨Or.inl rfl, rfl⟩))) (fun _ => .nan) (fun _ => .nan) (fun _ _ => 0)
  exact ⟨X, X, hX, hX, C84_refuted_channels 2 _ _ _ (fun _ => exParams_random _) (fun _ => exParams_random _) _ _ _ _ _ X X hX hX (fun _ _ => trivial)
    (by norm_num [exConfig]) [0, 1, 1] (by decide) [.replicate 10 (.fin 0), .replicate 10 (.fin 1)] rfl none⟩

end Props
end Einet
