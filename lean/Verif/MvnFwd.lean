import Verif.MvnFacts
import Verif.Density

/-!
# Density of an einet with multivariate normal leaves
-/

open Classical MeasureTheory ProbabilityTheory Matrix
open scoped ENNReal
noncomputable section
namespace Einet
open Tensor

/-- the sizes of the two parts of an einet with multivariate normal leaves agree. -/
structure MvnEinet.WF (E : MvnEinet) (g : Nat → Nat → Nat) : Prop where
  net : E.net.WF g
  features : E.net.num_features = E.leaf.out_features
  channels : E.net.num_channels = E.leaf.num_channels
  leaves : E.net.num_leaves = E.leaf.num_leaves
  reps : E.net.num_repetitions = E.leaf.num_repetitions
  card : 0 < E.leaf.cardinality

/-- a constructed einet. -/
theorem buildMvn_spec {c : Config} {P : Params} {θ : MvnParams} (hP : P.Random) {E : MvnEinet}
    (h : buildMvn c P θ = .ok E) (htd : c.structure' = "top-down") :
    ∃ K : ℤ, c.cardinality = some K ∧ 1 ≤ K ∧
      E.leaf = ⟨c.num_features.toNat, c.num_channels.toNat, c.num_leaves.toNat, c.num_repetitions.toNat, K.toNat, θ⟩ ∧
      E.net.num_classes = c.num_classes.toNat ∧
      E.WF (buildGroups (c.blocks K) { P with leaf := .normal (fun _ _ _ _ => 0) (fun _ _ _ _ => 0) }) ∧
      ∃ B : BaseLeaf, E.net.leaf = buildInput { P with leaf := .normal (fun _ _ _ _ => 0) (fun _ _ _ _ => 0) } B (2 ^ c.depth.toNat) := by
  unfold buildMvn at h
  obtain ⟨_, hv, h⟩ := bind_ok h
  obtain ⟨v1, v2, v3, v4, v5, v6, v7, v8, v9, v10, v11, v12, v13⟩ := (assertValid_iff c).1 hv
  cases hcard : c.cardinality with
  | none => rw [hcard] at h; cases h
  | some K =>
  rw [hcard] at h
  simp only [Res.ok_bind] at h
  obtain ⟨_, hc, h⟩ := bind_ok h
  have hK1 : 1 ≤ K := by
    have := (Props.checkInt_iff K 1 (by norm_num) (Except.ok ()) ()).1 (by rw [hc]; rfl)
    exact this.1
  rw [if_pos htd] at h
  obtain ⟨M, hM, h⟩ := bind_ok h
  simp only [Res.pure_eq, Except.ok.injEq] at h
  have hP' : Params.Random { P with leaf := .normal (fun _ _ _ _ => 0) (fun _ _ _ _ => 0) } := ⟨hP.1, hP.2⟩
  obtain ⟨_, hs, hw, B, hB, hl⟩ := buildTopDown_spec' hP' (c := c.blocks K) v3 v5 v6 hM
  subst h
  refine ⟨K, rfl, hK1, rfl, hs.classes, ⟨hw, hs.features, hs.channels, hs.leaves, hs.reps, ?_⟩, B, hl⟩
  show 0 < K.toNat
  omega

namespace Model

/-- the network on top of constant leaves. -/
theorem outP_one {M : Model} {g : Nat → Nat → Nat} (h : M.WF g) {k : Nat} (hk : k < M.num_classes) :
    M.outP g 1 (fun _ _ _ _ => 1) k = 1 := by
  have e := outRow_all_nan h hk (X := fun _ _ => .nan) fun _ _ _ _ => rfl
  have he : ∀ c f i r, M.leaf.base.entry none .nan c f i r = .fin 0 := by
    intro c f i r; simp [BaseLeaf.entry, Fl.isnan]
  have := outRow_den h (b := true) (fun _ => rfl) (sc := none) (X := fun _ _ => .nan) (fun c _ f _ i _ r _ => by
    rw [he]; exact Fl.isFin_fin _) hk
  rw [e] at this
  have h2 := this.2
  simp only [he, toP_zero] at h2
  exact h2.symm

end Model

namespace MvnEinet

/-- density of the normal distribution `(c, b, i, r)` at the entries of block `b`. -/
def blockP (E : MvnEinet) (X : Data) (c b i r : Nat) : ℝ≥0∞ :=
  ENNReal.ofReal (Real.exp (mvnLogProb (E.leaf.loc [c, b, i, r]) (E.leaf.scale_tril [c, b, i, r])
    fun k => (X c (b * E.leaf.cardinality + k)).val))

/-- complete, finite data. -/
def Complete (E : MvnEinet) (X : Data) : Prop :=
  ∀ c, c < E.leaf.num_channels → ∀ f, f < E.leaf.num_features → (X c f).IsFin

/-- the blocks of a `marginalized_scopes` argument. -/
def Marg (E : MvnEinet) (ms : Option Scopes) (l : List Nat) : Prop :=
  match ms with
  | none => l = []
  | some s => (E.leaf.adjust s >>= fun s => s.resolve E.leaf.out_features) = .ok l

theorem run_is {E : MvnEinet} {g : Nat → Nat → Nat} (h : E.WF g) (hp : E.leaf.pad_value = 0) {x : Tensor Fl} {N : Nat}
    {X : Nat → Data} (hx : x.Is3 N E.leaf.num_channels E.leaf.num_features X) (hX : ∀ n, n < N → E.Complete (X n))
    {ms : Option Scopes} {l : List Nat} (hs : E.Marg ms l) :
    ∃ V : Nat → Nat → Fl, (∀ n, n < N → ∀ s, s < E.net.num_classes →
        (V n s).IsFin ∧ toP (V n s) = E.net.outP g 1 (fun c b i r => if b ∈ l then 1 else E.blockP (X n) c b i r) s) ∧
      Res.Sat (E.run x ms) fun z => z.1.Is2 N E.net.num_classes V := by
  have hF := MvnLeaf.out_mul h.card hp
  have hlt : ∀ b, b < E.leaf.out_features → ∀ k, k < E.leaf.cardinality →
      b * E.leaf.cardinality + k < E.leaf.num_features := by
    intro b hb k hk
    rw [← hF]
    calc b * E.leaf.cardinality + k < b * E.leaf.cardinality + E.leaf.cardinality := by omega
      _ = (b + 1) * E.leaf.cardinality := by ring
      _ ≤ _ := Nat.mul_le_mul_right _ hb
  have hval : ∀ n, n < N → ∀ c, c < E.leaf.num_channels → ∀ b, b < E.leaf.out_features → ∀ i r,
      E.leaf.distLogProb [c, b, i, r] (fun k => X n c (b * E.leaf.cardinality + k)) =
      .fin (mvnLogProb (E.leaf.loc [c, b, i, r]) (E.leaf.scale_tril [c, b, i, r])
        fun k => (X n c (b * E.leaf.cardinality + k)).val) := fun n hn c hc b hb i r =>
    MvnLeaf.distLogProb_fin fun k hk => hX n hn c hc _ (hlt b hb k hk)
  obtain ⟨y, hy, hy5⟩ := MvnLeaf.forward_is h.card hp hx (fun n hn => hX n hn) (ms := ms) (l := l) hs
  have hy6 := hy5
  rw [← h.channels, ← h.features, ← h.leaves, ← h.reps] at hy6
  obtain ⟨V, hV, hsat⟩ := Model.merge_upper_is h.net hy6 (fun n hn c hc f hf i hi r hr => by
    by_cases hm : f ∈ l
    · exact ⟨0, if_pos hm⟩
    · exact ⟨_, (if_neg hm).trans (hval n hn c (h.channels ▸ hc) f (h.features ▸ hf) i r)⟩)
  refine ⟨V, fun n hn s hs' => ⟨(hV n hn s hs').1, (hV n hn s hs').2.trans ?_⟩, ?_⟩
  · refine Model.outP_congr h.net (fun c hc b hb i _ r _ => ?_) hs'
    by_cases hm : b ∈ l
    · rw [if_pos hm, if_pos hm, toP_zero]
    · rw [if_neg hm, if_neg hm, hval n hn c (h.channels ▸ hc) b (h.features ▸ hb) i r]
      rfl
  · unfold run
    have hx' : x.Is3 N ({ E.net with num_features := E.leaf.num_features } : Model).num_channels
        ({ E.net with num_features := E.leaf.num_features } : Model).num_features X := by
      show x.Is3 N E.net.num_channels E.leaf.num_features X
      rw [h.channels]; exact hx
    rw [Model.prepInput_is hx']
    simp only [Res.ok_bind]
    rw [hy]
    exact hsat

/-- `exp(model(x, marginalized_scopes)[0, k])` for a batch with one row; an exception counts as 0. -/
def density (E : MvnEinet) (ms : Option Scopes) (k : Nat) (X : Data) : ℝ≥0∞ :=
  match E.forward (rowTensor E.leaf.num_channels E.leaf.num_features X) ms with
  | .ok t => toP (t.get [0, k])
  | .error _ => 0

theorem density_eq {E : MvnEinet} {g : Nat → Nat → Nat} (h : E.WF g) (hp : E.leaf.pad_value = 0) {X : Data}
    (hX : E.Complete X) {ms : Option Scopes} {l : List Nat} (hs : E.Marg ms l) {k : Nat} (hk : k < E.net.num_classes) :
    E.density ms k X = E.net.outP g 1 (fun c b i r => if b ∈ l then 1 else E.blockP X c b i r) k := by
  obtain ⟨V, hV, z, hz, hz2⟩ := run_is h hp (rowTensor_is _ _ X) (fun _ _ => hX) hs
  unfold density forward
  rw [hz]
  show toP (z.1.get [0, k]) = _
  rw [hz2.get (by omega) hk]
  exact (hV 0 (by omega) k hk).2

theorem complete_data {E : MvnEinet} (ω : Pt E.leaf.num_channels E.leaf.num_features) : E.Complete ω.data := by
  intro c hc f hf
  rw [ω.data_eq hc hf]
  exact Fl.isFin_fin _

/-- measure that integrates out the entries of the blocks in `l`. -/
def blocksOut (E : MvnEinet) (l : List Nat) (X : Data) : Measure (Pt E.leaf.num_channels E.leaf.num_features) :=
  Measure.pi fun c : Fin E.leaf.num_channels => Measure.pi fun f : Fin E.leaf.num_features =>
    if (f : Nat) / E.leaf.cardinality ∈ l then volume else Measure.dirac (X c f).val

theorem measurable_entry (E : MvnEinet) (c f : Nat) :
    Measurable fun ω : Pt E.leaf.num_channels E.leaf.num_features => (ω.data c f).val := by
  by_cases hcf : c < E.leaf.num_channels ∧ f < E.leaf.num_features
  · have : (fun ω : Pt E.leaf.num_channels E.leaf.num_features => (ω.data c f).val) = fun ω => ω ⟨c, hcf.1⟩ ⟨f, hcf.2⟩ := by
      ext ω; rw [ω.data_eq hcf.1 hcf.2]; rfl
    rw [this]
    exact (measurable_pi_apply _).comp (measurable_pi_apply _)
  · have : (fun ω : Pt E.leaf.num_channels E.leaf.num_features => (ω.data c f).val) = fun ω => 0 := by
      ext ω
      simp [Pt.data, hcf, Fl.val]
    rw [this]
    exact measurable_const

theorem integral_blocks {E : MvnEinet} {g : Nat → Nat → Nat} (h : E.WF g) (hp : E.leaf.pad_value = 0) {X : Data}
    {l : List Nat} {k : Nat} (hk : k < E.net.num_classes) :
    ∫⁻ ω, E.density none k ω.data ∂(E.blocksOut l X) =
      E.net.outP g 1 (fun c b i r => if b ∈ l then 1 else E.blockP X c b i r) k := by
  have hF := MvnLeaf.out_mul h.card hp
  have e : ∀ ω : Pt E.leaf.num_channels E.leaf.num_features, E.density none k ω.data =
      E.net.outP g 1 (fun c b i r => E.blockP ω.data c b i r) k := by
    intro ω
    rw [density_eq h hp (complete_data ω) (ms := none) (l := []) rfl hk]
    simp
  simp only [e]
  have hmp : ∀ c b i r, Measurable fun v : Fin E.leaf.cardinality → ℝ =>
      ENNReal.ofReal (Real.exp (mvnLogProb (E.leaf.loc [c, b, i, r]) (E.leaf.scale_tril [c, b, i, r]) v)) := fun c b i r =>
    (Real.measurable_exp.comp (LowerPos.measurable_logProb _ _)).ennreal_ofReal
  have hmd := E.measurable_entry
  have hm : ∀ c b i r, Measurable fun ω : Pt E.leaf.num_channels E.leaf.num_features => E.blockP ω.data c b i r := by
    intro c b i r
    exact (hmp c b i r).comp (measurable_pi_lambda _ fun k => hmd _ _)
  refine Model.outP_lintegral h.net one_ne_zero hm (fun r hr idx hidx => ?_) hk
  rw [h.features, h.channels]
  have hsf : ∀ c f : Nat, SigmaFinite (if f / E.leaf.cardinality ∈ l then volume else Measure.dirac (X c f).val : Measure ℝ) := by
    intro c f; split_ifs <;> infer_instance
  refine (lintegral_block_data hF (fun c f => if f / E.leaf.cardinality ∈ l then volume else Measure.dirac (X c f).val)
    (h := fun c b v => ENNReal.ofReal (Real.exp (mvnLogProb (E.leaf.loc [c, b, idx b, r])
      (E.leaf.scale_tril [c, b, idx b, r]) v))) fun c b => hmp c b _ r).trans ?_
  refine Finset.prod_congr rfl fun b hb => Finset.prod_congr rfl fun c hc => ?_
  have hdiv : ∀ j : Fin E.leaf.cardinality, (b * E.leaf.cardinality + j) / E.leaf.cardinality = b := by
    intro j
    rw [Nat.mul_comm, Nat.mul_add_div h.card, Nat.div_eq_of_lt j.2, Nat.add_zero]
  simp only [hdiv]
  by_cases hbl : b ∈ l
  · simp only [if_pos hbl]
    exact (E.leaf.lowerPos [c, b, idx b, r]).integral_one _
  · simp only [if_neg hbl]
    exact lintegral_pi_dirac (fun j => (X c (b * E.leaf.cardinality + j)).val) (hmp c b _ r)

/-- **The density integrates to one.** -/
theorem integral_density {E : MvnEinet} {g : Nat → Nat → Nat} (h : E.WF g) (hp : E.leaf.pad_value = 0) {k : Nat}
    (hk : k < E.net.num_classes) :
    ∫⁻ ω : Pt E.leaf.num_channels E.leaf.num_features, E.density none k ω.data = 1 := by
  have hF := MvnLeaf.out_mul h.card hp
  have := integral_blocks h hp (X := fun _ _ => .nan) (l := List.range E.leaf.out_features) hk
  have e : E.blocksOut (List.range E.leaf.out_features) (fun _ _ => .nan) = volume := by
    unfold blocksOut
    refine congrArg Measure.pi (funext fun c => congrArg Measure.pi (funext fun f => if_pos ?_))
    rw [List.mem_range, Nat.div_lt_iff_lt_mul h.card, hF]
    exact f.2
  rw [e] at this
  rw [this]
  refine Eq.trans ?_ (Model.outP_one h.net hk)
  refine Model.outP_congr h.net (fun c hc b hb i _ r _ => if_pos ?_) hk
  rw [List.mem_range, ← h.features]
  exact hb

end MvnEinet
end Einet
