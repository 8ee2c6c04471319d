import Verif.StateDictBuild
import Verif.PropsAccept

/-!
# C78: saving and restoring models

`torch.save(model.state_dict(), path)` and `model.load_state_dict(torch.load(path))` (main.py:228,234).
-/

open Classical
noncomputable section
namespace Einet
open Tensor

/-! ### Lemmas -/

namespace Model
variable {M M' : Model}

theorem Agree.sampleD (h : M.Agree M') (a : SampleArgs) (noise : Nat → List Nat → Fl) : M.sampleD a noise = M'.sampleD a noise := by
  have h1 : M.evidenceCaches a = M'.evidenceCaches a := by
    unfold evidenceCaches
    simp only [h.run]
  have h2 : ∀ n ctx, M.pickClassD a n ctx = M'.pickClassD a n ctx := by
    intro n ctx
    unfold pickClassD
    rw [h.eq]
    simp only
    split_ifs with hk
    · rw [h.classRoot hk]
    · rfl
  have h3 : ∀ c n ctx, M.pickRepD c n ctx = M'.pickRepD c n ctx := by
    intro c n ctx
    unfold pickRepD
    rw [h.eq]
    simp only
    split_ifs with hk
    · rw [h.mixing hk]
    · rfl
  have h4 : ∀ n c, M.samplePathD a n c = M'.samplePathD a n c := by
    intro n c
    unfold samplePathD
    simp only [h2, h3]
    rw [h.eq]
    rfl
  unfold Model.sampleD
  simp only [h1, h4]
  rw [h.eq]
  rfl

end Model

/-- same class and same values of the parameters; the keyword arguments that are not visible in the shapes may differ. -/
def LeafSpec.SameValues : LeafSpec → LeafSpec → Prop
  | normal m l, normal m' l' => m = m' ∧ l = l'
  | ratNormal _ _ _ _ m s, ratNormal _ _ _ _ m' s' => m = m' ∧ s = s'
  | binomial _ l, binomial _ l' => l = l'
  | bernoulli p, bernoulli p' => p = p'
  | categorical n l, categorical n' l' => n = n' ∧ l = l'
  | _, _ => False

theorem LeafSpec.SameValues.refl (s : LeafSpec) : s.SameValues s := by
  cases s <;> simp [SameValues]

theorem LeafSpec.SameValues.registered {s s' : LeafSpec} (h : s.SameValues s') (d : LeafDims) (x : String) :
    s.registered d x = s'.registered d x := by
  cases s <;> cases s' <;> simp only [SameValues] at h <;> (try obtain ⟨rfl, rfl⟩ := h) <;> rfl

theorem LeafSpec.Same.build_ok {s s' : LeafSpec} (h : s.Same s') {card : Option ℤ} {d d' : LeafDims} {B : BaseLeaf}
    (hB : s'.build card d' = .ok B) : ∃ B', s.build card d = .ok B' := by
  unfold LeafSpec.build at hB ⊢
  obtain ⟨u, h0, hB⟩ := bind_ok hB
  rw [h0, Res.ok_bind]
  cases s <;> cases s' <;> simp only [LeafSpec.Same] at h
  · exact ⟨_, rfl⟩
  · obtain ⟨rfl, rfl, rfl, rfl⟩ := h
    obtain ⟨_, h1, hB⟩ := bind_ok hB
    obtain ⟨_, h2, hB⟩ := bind_ok hB
    obtain ⟨_, h3, hB⟩ := bind_ok hB
    obtain ⟨_, h4, hB⟩ := bind_ok hB
    obtain ⟨_, h5, hB⟩ := bind_ok hB
    simp only [h1, h2, h3, h4, h5, Res.ok_bind, Res.pure_eq, Except.ok.injEq, exists_eq']
  · subst h
    obtain ⟨_, h1, hB⟩ := bind_ok hB
    simp only [h1, Res.ok_bind, Res.pure_eq, Except.ok.injEq, exists_eq']
  · exact ⟨_, rfl⟩
  · subst h
    obtain ⟨_, h1, hB⟩ := bind_ok hB
    simp only [h1, Res.ok_bind, Res.pure_eq, Except.ok.injEq, exists_eq']

namespace Net

/-- the object with other keyword arguments of the leaves. -/
theorem create_with {c c' : Config} {P P' : Params} {N N' : Net} {s : LeafSpec} (h : create c P = .ok N) (h' : create c' P' = .ok N')
    (hv : P.leaf.SameValues s) (hs : s.Same P'.leaf) :
    ∃ N₂, create c { P with leaf := s } = .ok N₂ ∧ N₂.stateDict = N.stateDict := by
  obtain ⟨M, hM, eM, eS, e⟩ := create_eq h
  obtain ⟨M', hM', -, -, -⟩ := create_eq h'
  obtain ⟨a1, ⟨B, hB⟩, a3, a4, a5⟩ := build_iff.1 ⟨M, hM⟩
  obtain ⟨-, ⟨B', hB'⟩, -⟩ := build_iff.1 ⟨M', hM'⟩
  have k1 := (LeafSpec.build_spec hB).1
  have k2 := (LeafSpec.build_spec hB').1
  have hB2 : ∃ B, ({ P with leaf := s } : Params).leaf.build c.cardinality c.leafDims = .ok B := by
    rw [k1, ← k2]
    exact hs.build_ok hB'
  obtain ⟨M₂, hM₂⟩ := build_iff.2 ⟨a1, hB2, a3, a4, a5⟩
  obtain ⟨N₂, hN₂⟩ : ∃ N₂, create c { P with leaf := s } = .ok N₂ := by
    unfold create
    rw [hM₂]
    exact ⟨_, rfl⟩
  refine ⟨N₂, hN₂, ?_⟩
  have hd := create_dims h
  have hd2 := create_dims hN₂
  obtain ⟨M₃, hM₃, eM₂, eS₂, e₂⟩ := create_eq hN₂
  have hlay : N₂.model.layers = N.model.layers := by rw [eM, eM₂, e, e₂]; rfl
  have hdrop : N₂.drop = N.drop ∧ N₂.mixDrop = N.mixDrop ∧ N₂.classDrop = N.classDrop := by
    unfold create at h hN₂
    rw [hM] at h
    rw [hM₃] at hN₂
    simp only [Res.ok_bind, Res.pure_eq, Except.ok.injEq] at h hN₂
    rw [← h, ← hN₂] at hlay ⊢
    exact ⟨by simp only at hlay ⊢; rw [hlay], rfl, rfl⟩
  have hreg : ∀ x, N₂.spec.registered N₂.dims x = N.spec.registered N.dims x := fun x => by
    rw [hd, hd2, eS, eS₂]; exact (hv.registered _ x).symm
  funext k
  cases k with
  | leaf x =>
    simp only [stateDict, hreg]
    rw [eM, eM₂, e, e₂]
    obtain ⟨b1, b2, b3, b4⟩ := LeafSpec.leafOf_dims P.leaf c.leafDims
    obtain ⟨d1, d2, d3, d4⟩ := LeafSpec.leafOf_dims s c.leafDims
    unfold plainModel buildInput
    simp only [b4, d4]
    by_cases q1 : c.structure' = "top-down"
    · simp only [if_pos q1]
      by_cases q2 : c.leafDims.num_repetitions = 1
      · simp only [if_pos q2, FactSimple.build, b1, d1]
      · simp only [if_neg q2, FactLeaf.build, b1, b4, d1, d4]
    · simp only [if_neg q1]
  | base x =>
    simp only [stateDict, hreg]
    rw [eM, eM₂, e, e₂]
    unfold plainModel buildInput
    obtain ⟨b1, b2, b3, b4⟩ := LeafSpec.leafOf_dims P.leaf c.leafDims
    obtain ⟨d1, d2, d3, d4⟩ := LeafSpec.leafOf_dims s c.leafDims
    simp only [b4, d4]
    split_ifs with q1 q2 <;> rfl
  | layer i x => simp only [stateDict, hlay, hdrop.1]
  | mixing x => simp only [stateDict, hdrop.2.1]; rw [eM, eM₂, e, e₂]; rfl
  | classRoot x => simp only [stateDict, hdrop.2.2]; rw [eM, eM₂, e, e₂]; rfl
  | top x => simp only [stateDict]; rw [eM, eM₂, e, e₂]; rfl

/-- saving after restoring gives the same file. -/
theorem Same.stateDict_eq {N N' : Net} (h : N.Same N') (hc : N.Consistent) : (N'.replace (putOf N.stateDict)).stateDict = N.stateDict := by
  have hlf := h.leaf_eq hc
  have hsp : (N'.replace (putOf N.stateDict)).spec = N.spec := h.spec_eq
  have hpm := h.perm_eq
  have hly := h.layers_eq
  have hag := h.agree hc
  have hdm : (N'.replace (putOf N.stateDict)).dims = N.dims := by unfold Net.dims; rw [hlf]
  have hf : (N'.replace (putOf N.stateDict)).model.num_features = N.model.num_features := h.features.symm
  have hr : (N'.replace (putOf N.stateDict)).model.num_repetitions = N.model.num_repetitions := h.reps.symm
  have hk : (N'.replace (putOf N.stateDict)).model.num_classes = N.model.num_classes := h.classes.symm
  have hdrop : ∀ (L : SumL) (d d' : Fl), d = d' → L.registered d = L.registered d' := fun _ _ _ e => by rw [e]
  funext k
  cases k with
  | leaf x => simp only [stateDict, hlf, hsp, hdm]
  | base x => simp only [stateDict, hlf, hsp, hdm]
  | layer i x =>
    simp only [stateDict, hly]
    cases hl : N.model.layers[i]? with
    | none => rfl
    | some l =>
      have key : (∃ f r, l = .rootProduct f r) ∨ (N'.replace (putOf N.stateDict)).drop i = N.drop i := by
        by_cases hp : ∃ f r, l = .rootProduct f r
        · exact Or.inl hp
        · right
          simp only [Net.replace]
          unfold dropReplace
          rw [show (fun x => putOf N.stateDict (.layer i x)) "dropout" (.float ⟨[], fun _ => N'.drop i⟩) = .float ⟨[], fun _ => N.drop i⟩ from
            putOf_some ?_ rfl]
          · rfl
          · simp only [stateDict, hl]
            cases l <;> simp [Layer.registered, SumL.registered] at hp ⊢
      rcases key with ⟨f, r, rfl⟩ | key
      · rfl
      · simp only [key]
  | mixing x =>
    simp only [stateDict, hr]
    split_ifs with h1
    · rw [hag.mixing h1]
      refine congrFun (hdrop _ _ _ ?_) x
      simp only [Net.replace]
      unfold dropReplace
      rw [show (fun x => putOf N.stateDict (.mixing x)) "dropout" (.float ⟨[], fun _ => N'.mixDrop⟩) = .float ⟨[], fun _ => N.mixDrop⟩ from
            putOf_some ?_ rfl]
      · rfl
      · simp [stateDict, h1, SumL.registered]
    · rfl
  | classRoot x =>
    simp only [stateDict, hk]
    split_ifs with h1 h2
    · rfl
    · rw [hag.classRoot h1]
      refine congrFun (hdrop _ _ _ ?_) x
      simp only [Net.replace]
      unfold dropReplace
      rw [show (fun x => putOf N.stateDict (.classRoot x)) "dropout" (.float ⟨[], fun _ => N'.classDrop⟩) = .float ⟨[], fun _ => N.classDrop⟩ from
            putOf_some ?_ rfl]
      · rfl
      · simp [stateDict, h1, SumL.registered]
    · rfl
  | top x => simp only [stateDict, hpm, hf]

theorem load_ok {N : Net} {sd : Saved} : (N.load sd).2 = .ok () ↔ N.Fits sd := by
  unfold load
  simp only
  split_ifs with h
  · simp [h]
  · simp [h]

/-- `N` does everything that `N'` does. -/
structure Behaves (N N' : Net) : Prop where
  forward : ∀ x s, N.model.forward x s = N'.model.forward x s
  posterior : ∀ x, N.model.posterior x = N'.model.posterior x
  sample : ∀ a, N.model.sample a = N'.model.sample a
  mpe : ∀ e s, N.model.mpe e s = N'.model.mpe e s
  sampleD : ∀ a noise, N.model.sampleD a noise = N'.model.sampleD a noise
  save : N.stateDict = N'.stateDict

theorem Same.behaves {N N' : Net} (h : N.Same N') (hc : N.Consistent) : (N'.load N.stateDict).1.Behaves N where
  forward := (h.agree hc).forward
  posterior := (h.agree hc).posterior
  sample := (h.agree hc).sample
  mpe _ _ := (h.agree hc).sample _
  sampleD := (h.agree hc).sampleD
  save := h.stateDict_eq hc

end Net

namespace Props
open Net

/-- **C78**, restoring succeeds: an object with the same configuration (up to the dropout) and leaves of the same class and keyword
arguments loads the file, whatever its own parameters and random choices. -/
theorem C78_loads (c c' : Config) (P P' : Params) (hP : P.Random) (hP' : P'.Random) (N N' : Net) (h : Net.create c P = .ok N)
    (h' : Net.create c' P' = .ok N') (hc : c' = { c with dropout := c'.dropout }) (hl : P.leaf.Same P'.leaf) :
    (N'.load N.stateDict).2 = .ok () := by
  refine load_ok.2 (create_same hP hP' h h' ?_ hl).fits
  rw [hc]
  exact ⟨rfl, rfl, rfl, rfl, rfl, rfl, rfl, fun _ => rfl, fun _ => rfl⟩

/-- **C78**: if loading a saved object raises nothing, the object behaves from then on as one with the saved parameters, random
choices and dropouts and its own keyword arguments of the leaves; its own configuration does not matter.  In particular it behaves as
the saved object if the keyword arguments are the same (`s = P.leaf`).  Missing: `depth = 0` on one side only (`C78_refuted_depth`). -/
theorem C78_restores_partial (c c' : Config) (P P' : Params) (hP : P.Random) (hP' : P'.Random) (N N' : Net)
    (h : Net.create c P = .ok N) (h' : Net.create c' P' = .ok N') (s : LeafSpec) (hv : P.leaf.SameValues s) (hs : s.Same P'.leaf)
    (h0 : c.depth = 0 ↔ c'.depth = 0) (hok : (N'.load N.stateDict).2 = .ok ()) :
    ∃ N₂, Net.create c { P with leaf := s } = .ok N₂ ∧ (N'.load N.stateDict).1.Behaves N₂ ∧
      (N'.load N.stateDict).1.stateDict = N.stateDict := by
  obtain ⟨N₂, h2, e⟩ := create_with h h' hv hs
  have hP2 : ({ P with leaf := s } : Params).Random := ⟨hP.shuffle, hP.randperm⟩
  rw [← e] at hok ⊢
  have hsame := create_same hP2 hP' h2 h' (fits_sizes h2 h' hs h0 (load_ok.1 hok)) hs
  have hb := hsame.behaves (create_consistent h2)
  exact ⟨N₂, h2, hb, hb.save⟩

/-- **C78**, the round trip: the object behaves as the saved one. -/
theorem C78_round_trip (c c' : Config) (P P' : Params) (hP : P.Random) (hP' : P'.Random) (N N' : Net)
    (h : Net.create c P = .ok N) (h' : Net.create c' P' = .ok N') (hl : P.leaf.Same P'.leaf)
    (hc : c' = { c with dropout := c'.dropout }) :
    (N'.load N.stateDict).2 = .ok () ∧ (N'.load N.stateDict).1.Behaves N := by
  have hok := C78_loads c c' P P' hP hP' N N' h h' hc hl
  obtain ⟨N₂, h2, hb, -⟩ := C78_restores_partial c c' P P' hP hP' N N' h h' P.leaf (.refl _) hl (by rw [hc]) hok
  have e : N₂ = N := Except.ok.inj (h2.symm.trans h)
  exact ⟨hok, e ▸ hb⟩

/-- **C78**, sizes: a file of a model of other sizes, other structure or another type of layers is refused with a `RuntimeError`. -/
theorem C78_refuses (c c' : Config) (P P' : Params) (N N' : Net) (h : Net.create c P = .ok N) (h' : Net.create c' P' = .ok N')
    (hl : P.leaf.Same P'.leaf) (h0 : c.depth = 0 ↔ c'.depth = 0)
    (hne : c.num_features ≠ c'.num_features ∨ c.num_channels ≠ c'.num_channels ∨ c.num_leaves ≠ c'.num_leaves ∨
      c.num_repetitions ≠ c'.num_repetitions ∨ c.num_classes ≠ c'.num_classes ∨ c.structure' ≠ c'.structure' ∨ c.depth ≠ c'.depth ∨
      0 < c.depth ∧ c.layer_type ≠ c'.layer_type ∨ 2 ≤ c.depth ∧ c.num_sums ≠ c'.num_sums) :
    (N'.load N.stateDict).2 = .error .other := by
  have hf : ¬ N'.Fits N.stateDict := by
    intro hf
    obtain ⟨a1, a2, a3, a4, a5, a6, a7, a8, a9⟩ := fits_sizes h h' hl h0 hf
    rcases hne with e | e | e | e | e | e | e | ⟨e1, e⟩ | ⟨e1, e⟩
    · exact e a1
    · exact e a2
    · exact e a3
    · exact e a4
    · exact e a5
    · exact e a6
    · exact e a7
    · exact e (a8 e1)
    · exact e (a9 (Or.inr e1))
  unfold Net.load
  simp only [if_neg hf]

/-- **C78**, refused files: the parameters of the leaves are replaced before the error is raised, if their shapes agree. -/
theorem C78_failed_load_overwrites (c c' : Config) (P P' : Params) (N N' : Net) (h : Net.create c P = .ok N)
    (h' : Net.create c' P' = .ok N') (hl : P.leaf.Same P'.leaf) (hs : c.structure' = c'.structure') (hd : c.leafDims = c'.leafDims) :
    (N'.load N.stateDict).1.spec = P.leaf := by
  have d1 := create_dims h
  have d2 := create_dims h'
  obtain ⟨M, hM, eM, eS, e⟩ := create_eq h
  obtain ⟨M', hM', eM', eS', e'⟩ := create_eq h'
  show N'.replaceSpec (putOf N.stateDict) = _
  unfold replaceSpec
  rw [eS', d2, ← hd]
  refine LeafSpec.replace_same hl fun x y y' hx hy => putOf_some ?_ hy
  have key : ∀ (c : Config) (P : Params), (∃ B, (plainModel c P).leaf = .direct B) ↔ ¬ c.structure' = "top-down" := by
    intro c P
    unfold plainModel buildInput
    simp only
    split_ifs with h1 h2 <;> simp [h1]
  have k1 := key c P
  have k2 := key c' P'
  rw [← e, ← eM] at k1
  rw [← e', ← eM', ← hs, ← k1] at k2
  cases h1 : N.model.leaf <;> cases h2 : N'.model.leaf <;> simp only [h1, h2, reduceCtorEq, exists_false, Leaf.direct.injEq, exists_eq', iff_true, iff_false, not_true_eq_false] at k2 ⊢ <;>
    simpa only [stateDict, h1, eS, d1] using hx

/-- **C78** is false for keyword arguments of the leaves: a model with `Binomial` leaves of fewer trials loads the file without an
error and then raises on data that the saved model accepts. -/
theorem C78_refuted_trials (c : Config) (P P' : Params) (hP : P.Random) (hP' : P'.Random) (N N' : Net) (n n' : ℤ) (p p' : Par)
    (hl : P.leaf = .binomial n p) (hl' : P'.leaf = .binomial n' p') (hn : n' < n) (h : Net.create c P = .ok N)
    (h' : Net.create c P' = .ok N') :
    (N'.load N.stateDict).2 = .ok () ∧
    ∃ x : Tensor Fl, Scored N.model c 1 x ∧ (N'.load N.stateDict).1.model.forward x = .error .value := by
  have hs : LeafSpec.Same (.binomial n' p) P'.leaf := by rw [hl']; rfl
  have hv : P.leaf.SameValues (.binomial n' p) := by rw [hl]; rfl
  have hP2 : ({ P with leaf := .binomial n' p } : Params).Random := ⟨hP.shuffle, hP.randperm⟩
  obtain ⟨N₂, h2, e⟩ := create_with h h' hv hs
  have hok : (N'.load N.stateDict).2 = .ok () := by
    rw [← e]
    exact C78_loads c c _ P' hP2 hP' N₂ N' h2 h' rfl hs
  obtain ⟨N₃, h3, hb, -⟩ := C78_restores_partial c c P P' hP hP' N N' h h' _ hv hs Iff.rfl hok
  refine ⟨hok, ⟨[1, c.num_channels.toNat, c.num_features.toNat], fun _ => .fin (n.toNat : ℕ)⟩, ?_⟩
  obtain ⟨M, hM, eM, -, -⟩ := create_eq h
  obtain ⟨M₃, hM₃, eM₃, -, -⟩ := create_eq h3
  obtain ⟨v1, v2, -⟩ := (assertValid_iff c).1 (build_valid hM)
  have hn0 : 0 ≤ n := by
    obtain ⟨M', hM', -, -, -⟩ := create_eq h'
    obtain ⟨-, ⟨B', hB'⟩, -⟩ := build_iff.1 ⟨M', hM'⟩
    rw [hl'] at hB'
    unfold LeafSpec.build at hB'
    obtain ⟨_, -, hB'⟩ := bind_ok hB'
    have := ((checkInt_iff n' 1 one_ne_zero _ _).1 hB').1
    omega
  constructor
  · rw [eM]
    refine (C66_accepts_iff c P hP (by rw [hl]; trivial) M hM 1 _ rfl fun i _ => Or.inr ⟨_, rfl⟩).1 ⟨rfl, fun _ _ _ _ _ _ => Or.inr ⟨_, rfl, ?_⟩⟩
    rw [hl]
    exact ⟨n.toNat, by omega, rfl⟩
  · rw [hb.forward, eM₃]
    refine (C66_accepts_iff c _ hP2 trivial M₃ hM₃ 1 _ rfl fun i _ => Or.inr ⟨_, rfl⟩).2 fun hbatch => ?_
    rcases hbatch.2 0 one_pos 0 (by omega) 0 (by omega) with e | ⟨x, e, k, hk, rfl⟩
    · cases e
    · have : (n.toNat : ℝ) = k := Fl.fin_injective e
      have : n.toNat = k := by exact_mod_cast this
      omega

/-- **C78** without the condition on `depth` is false: the file of a model with one repetition, an even number of features and
`depth = 0` is loaded without an error by a model with `depth = 1`; the one is a sum layer, the other a `LinsumLayer`. -/
theorem C78_refuted_depth (c : Config) (P P' : Params) (hP : P.Random) (hP' : P'.Random) (N N' : Net) (m : Nat)
    (hs : c.structure' = "top-down") (hd : c.depth = 0) (hR : c.num_repetitions = 1) (hF : c.num_features = 2 * (m : ℤ))
    (hl : P.leaf.Same P'.leaf) (h : Net.create c P = .ok N) (h' : Net.create { c with depth := 1, layer_type := "linsum" } P' = .ok N') :
    (N'.load N.stateDict).2 = .ok () ∧ (∃ L, N.model.layers = [.sum L]) ∧ ∃ L, (N'.load N.stateDict).1.model.layers = [.linsum L] := by
  have d1 := create_dims h
  have d2 := create_dims h'
  obtain ⟨M, hM, eM, eS, e⟩ := create_eq h
  obtain ⟨M', hM', eM', eS', e'⟩ := create_eq h'
  have hlay : N.model.layers = [.sum (mkSumL 1 c.num_leaves.toNat c.num_classes.toNat 1 SumLayer.weightShape (P.logits 0))] := by
    rw [eM, e]
    simp only [plainModel, if_pos hs, topLayers, if_pos hd, hR]
    rfl
  have hlay' : N'.model.layers = [.linsum (mkSumL 2 c.num_leaves.toNat c.num_classes.toNat 1 LinsumLayer.weightShape (P'.logits 1))] := by
    rw [eM', e']
    simp only [plainModel, if_pos hs, topLayers]
    simp [topLayer, plainLayer, hR]
  have hdd : ({ c with depth := 1, layer_type := "linsum" } : Config).leafDims = c.leafDims := rfl
  have b := LeafSpec.leafOf_dims P.leaf c.leafDims
  have b' := LeafSpec.leafOf_dims P'.leaf c.leafDims
  have hR' : c.leafDims.num_repetitions = 1 := by simp [Config.leafDims, hR]
  have hF' : c.leafDims.num_features = 2 * m := by simp only [Config.leafDims, hF]; omega
  have hleaf : N.model.leaf = .simple (FactSimple.build P (P.leaf.leafOf c.leafDims) 1) := by
    rw [eM, e]
    simp only [plainModel, if_pos hs, buildInput, hd, b.2.2.2, hR', if_true]
    rfl
  have hleaf' : N'.model.leaf = .simple (FactSimple.build P' (P'.leaf.leafOf c.leafDims) 2) := by
    rw [eM', e']
    simp only [plainModel, if_pos hs, buildInput, hdd, b'.2.2.2, hR', if_true]
    rfl
  have hr1 : N.model.num_repetitions = 1 ∧ N'.model.num_repetitions = 1 := by
    rw [eM, e, eM', e']
    simp [plainModel, hR]
  have hk : N'.model.num_classes = N.model.num_classes := by rw [eM, e, eM', e']; rfl
  have hcr : N.model.classRoot.Same N'.model.classRoot := by rw [eM, e, eM', e']; exact mkSumL_same _ _
  have hperm : N.model.permutation = none ∧ N'.model.permutation = none := by
    rw [eM, e, eM', e']
    simp [plainModel, hs]
  refine ⟨load_ok.2 fun k => ?_, ⟨_, hlay⟩, ?_⟩
  · cases k with
    | leaf x =>
      simp only [stateDict, hleaf, hleaf', FactSimple.build, b.1, b'.1, hF']
      split_ifs
      · simp only [Option.map_some, Entry.ofList, Entry.shape, hP.length, hP'.length]
        congr 2
        omega
      · simp only [Option.map_some, Entry.ofList, Entry.shape, hP.length_argsort, hP'.length_argsort]
        congr 2
        omega
      · rfl
    | base x =>
      simp only [stateDict, hleaf, hleaf', d1, d2, eS, eS', hdd]
      exact (LeafSpec.registered_shape hl x).symm
    | layer i x =>
      simp only [stateDict, hlay, hlay']
      cases i with
      | zero =>
        simp only [List.getElem?_cons_zero, Layer.registered, SumL.registered]
        split_ifs
        · simp [Entry.shape, mkSumL, LinsumLayer.weightShape, SumLayer.weightShape, LinsumLayer.numFeaturesOut, LinsumLayer.pad]
        · rfl
        · rfl
      | succ i => rfl
    | mixing x => simp [stateDict, hr1.1, hr1.2]
    | classRoot x =>
      simp only [stateDict, hk]
      split_ifs
      · rfl
      · exact (SumL.registered_shape hcr _ _ x).symm
      · rfl
    | top x => simp only [stateDict, hperm.1, hperm.2]
  · show ∃ L, (N'.model.layers.mapIdx _) = _
    rw [hlay']
    exact ⟨_, rfl⟩

/-! ### The hypotheses are met -/

theorem create_of_build {c : Config} {P : Params} (h : ∃ M, build c P = .ok M) : ∃ N, Net.create c P = .ok N := by
  obtain ⟨M, h⟩ := h
  unfold Net.create
  rw [h]
  exact ⟨_, rfl⟩

/-- models of all layer types and structures, saved with dropout 1/4 and loaded by an object with dropout 0 and other values. -/
example (l s : String) (h : (l = "linsum" ∨ l = "linsum2" ∨ l = "einsum") ∧ s = "top-down" ∨ l = "linsum" ∧ s = "bottom-up") :
    ∃ N N', Net.create (exConfig l s) (exParams exLeaf) = .ok N ∧
      Net.create { exConfig l s with dropout := some (.fin 0) } (exParams (.normal (fun _ _ _ _ => 7) fun _ _ _ _ => 0)) = .ok N' ∧
      (N'.load N.stateDict).2 = .ok () ∧ (N'.load N.stateDict).1.Behaves N := by
  obtain ⟨N, hN⟩ := create_of_build (exConfig_normal h)
  have hb : ∃ M, build { exConfig l s with dropout := some (.fin 0) } (exParams (.normal (fun _ _ _ _ => 7) fun _ _ _ _ => 0)) = .ok M := by
    refine build_iff.2 ⟨?_, ⟨normalLeaf _ _ _, by simp [exParams, LeafSpec.build, exConfig]; rfl⟩, by norm_num [exConfig], fun _ => by norm_num [exConfig],
      fun _ => ⟨0, rfl, le_refl _, one_pos⟩⟩
    have hv := (assertValid_iff _).1 (exConfig_valid h)
    rw [assertValid_iff]
    refine ⟨hv.1, hv.2.1, hv.2.2.1, hv.2.2.2.1, hv.2.2.2.2.1, hv.2.2.2.2.2.1, fun q hq => ?_, hv.2.2.2.2.2.2.2⟩
    simp only [Option.some.injEq] at hq
    rw [← hq]
    exact one_pos
  obtain ⟨N', hN'⟩ := create_of_build hb
  exact ⟨N, N', hN, hN', C78_round_trip _ _ _ _ (exParams_random _) (exParams_random _) N N' hN hN' trivial rfl⟩

/-- a model with three classes is refused by one with 5, whose leaves are overwritten. -/
example : ∃ N N', Net.create (exConfig "einsum" "top-down") (exParams exLeaf) = .ok N ∧
    Net.create { exConfig "einsum" "top-down" with num_classes := 5 } (exParams (.normal (fun _ _ _ _ => 7) fun _ _ _ _ => 0)) = .ok N' ∧
    (N'.load N.stateDict).2 = .error .other ∧ (N'.load N.stateDict).1.spec = exLeaf ∧ N'.spec ≠ exLeaf := by
  have h := exConfig_normal (l := "einsum") (s := "top-down") (Or.inl ⟨Or.inr (Or.inr rfl), rfl⟩)
  obtain ⟨N, hN⟩ := create_of_build h
  have hb : ∃ M, build { exConfig "einsum" "top-down" with num_classes := 5 } (exParams (.normal (fun _ _ _ _ => 7) fun _ _ _ _ => 0)) = .ok M := by
    refine build_iff.2 ⟨?_, ⟨normalLeaf _ _ _, by simp [exParams, LeafSpec.build, exConfig]; rfl⟩, by norm_num [exConfig], fun _ => by norm_num [exConfig],
      fun _ => ⟨1 / 4, rfl, by norm_num, by norm_num⟩⟩
    have hv := (assertValid_iff _).1 (exConfig_valid (l := "einsum") (s := "top-down") (Or.inl ⟨Or.inr (Or.inr rfl), rfl⟩))
    rw [assertValid_iff]
    exact ⟨hv.1, hv.2.1, by norm_num, hv.2.2.2⟩
  obtain ⟨N', hN'⟩ := create_of_build hb
  refine ⟨N, N', hN, hN', C78_refuses _ _ _ _ N N' hN hN' trivial Iff.rfl (by norm_num [exConfig]),
    C78_failed_load_overwrites _ _ _ _ N N' hN hN' trivial rfl rfl, ?_⟩
  obtain ⟨-, -, -, e, -⟩ := create_eq hN'
  rw [e]
  intro he
  simp only [exParams, exLeaf, LeafSpec.normal.injEq] at he
  have := congrFun (congrFun (congrFun (congrFun he.1 0) 0) 0) 0
  norm_num at this

/-- seven and three trials. -/
example : ∃ N N', Net.create (exConfig "linsum" "top-down") (exParams (.binomial 7 fun _ _ i _ => i)) = .ok N ∧
    Net.create (exConfig "linsum" "top-down") (exParams (.binomial 3 fun _ _ _ _ => 0)) = .ok N' ∧
    (N'.load N.stateDict).2 = .ok () ∧
    ∃ x : Tensor Fl, Scored N.model (exConfig "linsum" "top-down") 1 x ∧ (N'.load N.stateDict).1.model.forward x = .error .value := by
  obtain ⟨N, hN⟩ := create_of_build exBinomial_builds
  have hb : ∃ M, build (exConfig "linsum" "top-down") (exParams (.binomial 3 fun _ _ _ _ => 0)) = .ok M := by
    refine exConfig_builds (Or.inl ⟨Or.inl rfl, rfl⟩) ?_
    unfold LeafSpec.build
    simp
    exact ⟨_, (checkInt_iff 3 1 one_ne_zero _ _).2 ⟨by norm_num, rfl⟩⟩
  obtain ⟨N', hN'⟩ := create_of_build hb
  exact ⟨N, N', hN, hN', C78_refuted_trials _ _ _ (exParams_random _) (exParams_random _) N N' 7 3 _ _ rfl rfl (by norm_num) hN hN'⟩

/-- six features, depth 0 and 1. -/
example : ∃ N N', Net.create { exConfig "linsum" "top-down" with num_features := 6, num_repetitions := 1, depth := 0 } (exParams exLeaf) = .ok N ∧
    Net.create { exConfig "linsum" "top-down" with num_features := 6, num_repetitions := 1, depth := 1 } (exParams exLeaf) = .ok N' ∧
    (N'.load N.stateDict).2 = .ok () := by
  have hv := (assertValid_iff _).1 (exConfig_valid (l := "linsum") (s := "top-down") (Or.inl ⟨Or.inl rfl, rfl⟩))
  have hb : ∀ d : ℤ, d = 0 ∨ d = 1 → ∃ M, build { exConfig "linsum" "top-down" with num_features := 6, num_repetitions := 1, depth := d } (exParams exLeaf) = .ok M := by
    intro d hd
    refine build_iff.2 ⟨?_, ⟨normalLeaf _ _ _, by simp [exParams, exLeaf, LeafSpec.build, exConfig]; rfl⟩, by rcases hd with rfl | rfl <;> norm_num, ?_,
      fun _ => ⟨1 / 4, rfl, by norm_num, by norm_num⟩⟩
    · rw [assertValid_iff]
      refine ⟨by norm_num, hv.2.1, hv.2.2.1, hv.2.2.2.1, by norm_num, hv.2.2.2.2.2.1, hv.2.2.2.2.2.2.1, hv.2.2.2.2.2.2.2.1, hv.2.2.2.2.2.2.2.2.1,
        hv.2.2.2.2.2.2.2.2.2.1, hv.2.2.2.2.2.2.2.2.2.2.1, hv.2.2.2.2.2.2.2.2.2.2.2.1, ?_⟩
      have : Int.fdiv 6 1 = 6 := by decide
      rcases hd with rfl | rfl <;> norm_num [exConfig, this]
    · intro hs
      exact absurd hs (by show ¬ "top-down" = "bottom-up"; decide)
  obtain ⟨N, hN⟩ := create_of_build (hb 0 (Or.inl rfl))
  obtain ⟨N', hN'⟩ := create_of_build (hb 1 (Or.inr rfl))
  exact ⟨N, N', hN, hN', (C78_refuted_depth _ _ _ (exParams_random exLeaf) (exParams_random exLeaf) N N' 3 rfl rfl rfl rfl trivial hN hN').1⟩

end Props
end Einet
