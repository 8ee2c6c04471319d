import Verif.MultiEinetEnd
import Verif.PropsMultiMore
import Verif.PropsSample

/-!
# C56, C57: einets whose features have different kinds of leaf distributions

`buildMulti c P sd = .ok E`: an einet with `leaf_type=MultiDistributionLayer` and the distribution `s.2` for the features `s.1`,
for every `s` in `sd`.
-/

open Classical MeasureTheory
open scoped ENNReal
noncomputable section
namespace Einet.Props
open Tensor Einet

/-! ### Specification -/

/-- reference measure of feature `f`: the one of the distribution that is listed for it (Lebesgue or counting measure). -/
def multiRef (sd : List (List Nat × LeafSpec)) (f : Nat) : Measure ℝ :=
  match sd.find? fun s => s.1.contains f with
  | some s => s.2.ref
  | none => volume

/-- an entry that is not observed: NaN, or of a feature listed in `marginalized_scopes`. -/
def Unknown (F : Nat) (ms : Option Scopes) (x : Tensor Fl) (n c f : Nat) : Prop :=
  x.get [n, c, f] = .nan ∨ ∃ s, ms = some s ∧ Listed F s f

/-- the law of a row with the density `exp(model(x)[0, k])` with respect to the reference measures of the features. -/
def multiRowLaw (E : MultiEinet) (sd : List (List Nat × LeafSpec)) (k : Nat) :
    Measure (Fin E.net.num_channels → Fin E.net.num_features → ℝ) :=
  (Measure.pi fun _ : Fin E.net.num_channels => Measure.pi fun f : Fin E.net.num_features => multiRef sd f).withDensity fun ω => E.density none k (Pt.data ω)

/-- the conditional law of a row given the entries of `X` that are not NaN. -/
def multiRowLawGiven (E : MultiEinet) (sd : List (List Nat × LeafSpec)) (k : Nat) (X : Data) :
    Measure (Fin E.net.num_channels → Fin E.net.num_features → ℝ) :=
  (E.density none k X)⁻¹ • (Measure.pi fun c : Fin E.net.num_channels => Measure.pi fun f : Fin E.net.num_features =>
    if X c f = .nan then multiRef sd f else Measure.dirac (X c f).val).withDensity fun ω => E.density none k (Pt.data ω)

/-- evidence as an argument of `sample`/`mpe`. -/
structure MultiEvidence (E : MultiEinet) (sd : List (List Nat × LeafSpec)) (N : Nat) (ms : Option Scopes) (x : Tensor Fl) : Prop where
  batch : MultiBatch sd N E.net.num_channels E.net.num_features x
  usable : ∀ l, ms = some l → Usable E.net.num_features l
  nan : ∀ n, n < N → ∀ c, c < E.net.num_channels → ∀ f, f < E.net.num_features → x.get [n, c, f] = .nan →
    Hole E.net.num_features ms x n c f

/-! ### From the specification to the lemmas -/

section
variable {E : MultiEinet} {sd : List (List Nat × LeafSpec)} {g : Nat → Nat → Nat}

theorem multiRef_eq (h : E.WF sd g) {f : Nat} (hf : f < E.net.num_features) : multiRef sd f = E.asModel.leaf.base.ref f := by
  obtain ⟨s, spec, hs, hfs⟩ := h.owner' hf
  unfold multiRef
  cases hfi : sd.find? fun s => s.1.contains f with
  | none =>
    rw [List.find?_eq_none] at hfi
    exact absurd (by simpa using hfs) (hfi _ hs)
  | some s' =>
    have h1 := List.mem_of_find?_eq_some hfi
    have h2 : f ∈ s'.1 := by simpa using List.find?_some hfi
    rw [MultiEinet.asModel_base]
    exact (h.ref_eq _ (s := s'.1) (spec := s'.2) h1 h2).symm

theorem multi_missing (h : E.WF sd g) (X : Data) :
    (Measure.pi fun c : Fin E.net.num_channels => Measure.pi fun f : Fin E.net.num_features =>
      if X c f = .nan then multiRef sd f else Measure.dirac (X c f).val) =
    missing E.net.num_channels E.net.num_features E.asModel.leaf.base.ref X := by
  unfold missing
  congr 1
  funext c
  congr 1
  funext f
  rw [multiRef_eq h f.2]

theorem multi_missing_nan (h : E.WF sd g) :
    (Measure.pi fun _ : Fin E.net.num_channels => Measure.pi fun f : Fin E.net.num_features => multiRef sd f) =
    missing E.net.num_channels E.net.num_features E.asModel.leaf.base.ref fun _ _ => .nan := by
  rw [← multi_missing h]
  simp

theorem multi_observed (h : E.WF sd g) {X : Data} (hX : ∀ c, c < E.net.num_channels → ∀ s spec, (s, spec) ∈ sd → ∀ f ∈ s,
    X c f = .nan ∨ ∃ v : ℝ, X c f = .fin v ∧ spec.InSupport v) : E.asModel.leaf.base.Observed X := by
  have hfr := (MultiEinet.asModel_WF h.net).front
  intro c hc f hf
  rw [hfr.channels] at hc
  rw [hfr.features] at hf
  obtain ⟨s, spec, hs, hfs⟩ := h.owner' hf
  rcases hX c hc s spec hs f hfs with e | ⟨v, e, hv⟩
  · exact Or.inl e
  · refine Or.inr ⟨v, e, ?_⟩
    rw [MultiEinet.asModel_base]
    exact (h.valid_iff _ hs hfs v).2 hv

theorem multi_scopes {F : Nat} {ms : Option Scopes} (hu : ∀ l, ms = some l → Usable F l) :
    ∃ sc, Scopes.resolveOpt F ms = .ok sc ∧ (∀ f, f < F → ((∃ l, sc = some l ∧ f ∈ l) ↔ ∃ s, ms = some s ∧ Listed F s f)) ∧
      ∀ (x : Tensor Fl) n c f, f < F → (holeAt sc (fun c f => x.get [n, c, f]) c f ↔ Hole F ms x n c f) := by
  cases ms with
  | none => exact ⟨none, rfl, by simp, fun x n c f _ => Iff.rfl⟩
  | some s =>
    obtain ⟨l, hl, hm⟩ := usable_resolve (hu s rfl)
    refine ⟨some l, hl, fun f hf => ?_, fun x n c f hf => hm f hf⟩
    rw [show (∃ l', some l = some l' ∧ f ∈ l') ↔ f ∈ l by simp, hm f hf]
    simp

theorem multi_rowLawGiven (h : E.WF sd g) (hg : ∀ s ∈ sd, s.2.Good) {X : Data} (hX : E.asModel.leaf.base.Observed X) {k : Nat}
    (hk : k < E.net.num_classes) : E.asModel.condLaw k X = multiRowLawGiven E sd k X := by
  unfold Model.condLaw multiRowLawGiven
  rw [multi_missing h, MultiEinet.density_eq h hg hX (ms := none) rfl hk, MultiEinet.hide_none]
  congr 1
  exact withDensity_congr_ae (MultiEinet.density_ae h hg hX hk)

theorem multi_density_nan (h : E.WF sd g) (hg : ∀ s ∈ sd, s.2.Good) {k : Nat} (hk : k < E.net.num_classes) :
    E.asModel.density none k (fun _ _ => .nan) = 1 := by
  have hw := MultiEinet.asModel_WF h.net
  rw [Model.density_missing hw (h.proper hg) (Model.observed_nan _) hk]
  have := Model.density_integral hw (h.proper hg) hk
  unfold missing
  simpa using this

theorem multi_rowLaw (h : E.WF sd g) (hg : ∀ s ∈ sd, s.2.Good) {k : Nat} (hk : k < E.net.num_classes) :
    E.asModel.condLaw k (fun _ _ => .nan) = multiRowLaw E sd k := by
  unfold Model.condLaw multiRowLaw
  rw [multi_density_nan h hg hk, inv_one, one_smul, multi_missing_nan h]
  exact withDensity_congr_ae (MultiEinet.density_ae h hg (Model.observed_nan _) hk)

theorem multi_evidence (h : E.WF sd g) {N : Nat} {ms : Option Scopes} {x : Tensor Fl} (hx : MultiEvidence E sd N ms x)
    {sc : Option (List Nat)} (hsc : ∀ n c f, f < E.net.num_features →
      (holeAt sc (fun c f => x.get [n, c, f]) c f ↔ Hole E.net.num_features ms x n c f)) :
    ∀ n, n < N → EvidenceOK E.asModel.leaf.base sc fun c f => x.get [n, c, f] := by
  have hfr := (MultiEinet.asModel_WF h.net).front
  intro n hn
  refine ⟨multi_observed h fun c hc s spec hs f hf => hx.batch.data n hn c hc s spec hs f hf, fun c hc f hf e => ?_⟩
  rw [hfr.channels] at hc
  rw [hfr.features] at hf
  exact (hsc n c f hf).2 (hx.nan n hn c hc f hf e)

theorem multi_known (h : E.WF sd g) {N : Nat} {ms : Option Scopes} {x : Tensor Fl} (hx : MultiEvidence E sd N ms x) {n : Nat}
    (hn : n < N) : E.asModel.leaf.base.Observed (known E.net.num_features ms x n) := by
  refine multi_observed h fun c hc s spec hs f hf => ?_
  unfold known
  split_ifs
  · exact Or.inl rfl
  · exact hx.batch.data n hn c hc s spec hs f hf

theorem MultiBatch.is3 {N C F : Nat} {x : Tensor Fl} (h : MultiBatch sd N C F x) :
    x.Is3 N C F fun n c f => x.get [n, c, f] := Is.is3 (Is.refl x h.shape) fun _ _ _ _ _ _ => rfl

end

/-! ### C56 -/

/-- **C56**, normalisation: the density integrates to one with respect to Lebesgue measure in the continuous and counting measure
in the discrete features. -/
theorem C56_integral (c : Config) (P : Params) (hP : P.Random) (sd : List (List Nat × LeafSpec)) (E : MultiEinet)
    (h : buildMulti c P sd = .ok E) (hp : Partition sd E.net.num_features) (hg : ∀ s ∈ sd, s.2.Good) (k : Nat)
    (hk : k < E.net.num_classes) :
    ∫⁻ ω : Fin E.net.num_channels → Fin E.net.num_features → ℝ, E.density none k (Pt.data ω)
      ∂(Measure.pi fun _ : Fin E.net.num_channels => Measure.pi fun f : Fin E.net.num_features => multiRef sd f) = 1 := by
  have hW := buildMulti_WF hP h hp
  rw [multi_missing_nan hW, ← lintegral_congr_ae (MultiEinet.density_ae hW hg (Model.observed_nan _) hk),
    ← multi_density_nan hW hg hk]
  exact (Model.density_missing (MultiEinet.asModel_WF hW.net) (hW.proper hg) (Model.observed_nan _) hk).symm

/-- **C56**, marginals: for a batch with any pattern of NaN entries and any `marginalized_scopes`, the result for row `n` is the
logarithm of the integral of the density over the entries that are NaN or listed. -/
theorem C56_marginal (c : Config) (P : Params) (hP : P.Random) (sd : List (List Nat × LeafSpec)) (E : MultiEinet)
    (h : buildMulti c P sd = .ok E) (hp : Partition sd E.net.num_features) (hg : ∀ s ∈ sd, s.2.Good) (N : Nat) (x : Tensor Fl)
    (hx : MultiBatch sd N E.net.num_channels E.net.num_features x) (ms : Option Scopes)
    (hu : ∀ l, ms = some l → Usable E.net.num_features l) :
    ∃ y, E.forward x ms = .ok y ∧ y.shape = [N, E.net.num_classes] ∧ ∀ n, n < N → ∀ k, k < E.net.num_classes →
      ∃ v, y.get [n, k] = .fin v ∧ ENNReal.ofReal (Real.exp v) =
        ∫⁻ ω : Fin E.net.num_channels → Fin E.net.num_features → ℝ, E.density none k (Pt.data ω)
          ∂(Measure.pi fun c : Fin E.net.num_channels => Measure.pi fun f : Fin E.net.num_features =>
            if Unknown E.net.num_features ms x n c f then multiRef sd f else Measure.dirac (x.get [n, c, f]).val) := by
  have hW := buildMulti_WF hP h hp
  have hA := MultiEinet.asModel_WF hW.net
  have hfr := hA.front
  have hpr := hW.proper hg
  obtain ⟨sc, hsc, hl, -⟩ := multi_scopes hu
  have hobs : ∀ n, n < N → E.asModel.leaf.base.Observed fun c f => x.get [n, c, f] := fun n hn =>
    multi_observed hW fun c hc s spec hs f hf => hx.data n hn c hc s spec hs f hf
  obtain ⟨y, hy, h1, -⟩ := MultiEinet.run_is hW hg hx.is3 hobs hsc
  refine ⟨y.1, by unfold MultiEinet.forward; rw [hy]; rfl, h1.1, fun n hn k hk => ?_⟩
  have ho := MultiEinet.hide_observed (hobs n hn) sc
  have hd := Model.density_eq hA hpr ho (ms := none) rfl hk
  obtain ⟨v, hv⟩ := (Model.outRow_den hA (sc := none) (X := MultiEinet.hide sc fun c f => x.get [n, c, f]) (b := true)
    (fun _ => rfl) (fun c hc f hf i hi r hr => (Model.entry_none hpr (by rw [hfr.channels]; exact hc)
      (by rw [hfr.features]; exact hf) (by rw [hfr.leaves]; exact hi) (by rw [hfr.reps]; exact hr) ho).1) hk).1
  refine ⟨v, by rw [h1.get hn hk, hv], ?_⟩
  rw [hv] at hd
  refine hd.symm.trans ((Model.density_missing hA hpr ho hk).trans ?_)
  refine (lintegral_congr_ae (MultiEinet.density_ae hW hg ho hk)).trans ?_
  congr 1
  unfold missing
  congr 1
  funext c
  congr 1
  funext f
  have hlf : ((∃ l, sc = some l ∧ f.1 ∈ l) ∨ x.get [n, c, f] = .nan) ↔ Unknown E.net.num_features ms x n c f :=
    (or_congr_left (hl f f.2)).trans Or.comm
  by_cases hh : Unknown E.net.num_features ms x n c f
  · have e : MultiEinet.hide sc (fun c f => x.get [n, c, f]) c f = .nan := if_pos (hlf.2 hh)
    rw [if_pos hh, if_pos e, multiRef_eq hW f.2]
  · have e : MultiEinet.hide sc (fun c f => x.get [n, c, f]) c f = x.get [n, c, f] := if_neg fun e => hh (hlf.1 e)
    rw [if_neg hh, e, if_neg fun e' => hh (Or.inl e')]

/-! ### C57 -/

/-- **C57** (part), outcomes without evidence: sampling and MPE return a tensor of finite numbers for every random outcome.
Missing: as in C24. -/
theorem C57_total_partial (c : Config) (P : Params) (hP : P.Random) (sd : List (List Nat × LeafSpec)) (E : MultiEinet)
    (h : buildMulti c P sd = .ok E) (hp : Partition sd E.net.num_features) (hg : ∀ s ∈ sd, s.2.Good ∧ s.2.CanSample)
    (a : SampleArgs) (hev : a.evidence = none) (hN : 0 < a.count) (hT : a.temperature_sums ≠ 0)
    (hc : ClassArg E.net a.count a.class_index) :
    (E.sample a).All fun s => s.shape = [a.count, c.num_channels.toNat, c.num_features.toNat] ∧ ∀ i, ∃ v : ℝ, s.get i = .fin v := by
  have hz := (buildMulti_spec hP h).2.1
  have := MultiEinet.sample_All (buildMulti_WF hP h hp) hg hev hN hT (ClassArg.ok (M := E.asModel) hc)
  rwa [hz.channels, hz.features] at this

/-- **C57** (part), outcomes with evidence: every hole contains a number, every other entry is the one of the evidence. -/
theorem C57_evidence_partial (c : Config) (P : Params) (hP : P.Random) (sd : List (List Nat × LeafSpec)) (E : MultiEinet)
    (h : buildMulti c P sd = .ok E) (hp : Partition sd E.net.num_features) (hg : ∀ s ∈ sd, s.2.Good ∧ s.2.CanSample)
    (N : Nat) (hN : 0 < N) (x : Tensor Fl) (a : SampleArgs) (hx : MultiEvidence E sd N a.marginalized_scopes x)
    (hev : a.evidence = some x) (hns : a.num_samples = none) (hci : a.class_index = none) (hT : a.temperature_sums ≠ 0) :
    (E.sample a).All fun s => s.shape = x.shape ∧
      ∀ n, n < N → ∀ c, c < E.net.num_channels → ∀ f, f < E.net.num_features →
        if Hole E.net.num_features a.marginalized_scopes x n c f then ∃ v : ℝ, s.get [n, c, f] = .fin v
        else s.get [n, c, f] = x.get [n, c, f] := by
  have hW := buildMulti_WF hP h hp
  obtain ⟨sc, hsc, -, hh⟩ := multi_scopes hx.usable
  have hcount : a.count = N := by unfold SampleArgs.count; rw [hev]; simp [Tensor.size, hx.batch.shape, at']
  have := MultiEinet.sample_evidence_All hW hg (a := a) hev (by omega) (by rw [hcount]; exact hx.batch.is3) hns hci hT hsc
    (by rw [hcount]; exact multi_evidence hW hx (hh x))
  refine this.mono fun s ⟨v, hv⟩ => ⟨?_, fun n hn c hc f hf => ?_⟩
  · rw [hv.1, hx.batch.shape, hcount]
  · rw [hv.get (by omega) hc hf]
    simp only [hh x n c f hf]
    split_ifs
    · exact ⟨_, rfl⟩
    · rfl

/-- **C57** (part), `mpe`: with evidence, every hole contains a number, every other entry is the one of the evidence. -/
theorem C57_mpe_partial (c : Config) (P : Params) (hP : P.Random) (sd : List (List Nat × LeafSpec)) (E : MultiEinet)
    (h : buildMulti c P sd = .ok E) (hp : Partition sd E.net.num_features) (hg : ∀ s ∈ sd, s.2.Good ∧ s.2.CanSample)
    (N : Nat) (hN : 0 < N) (x : Tensor Fl) (ms : Option Scopes) (hx : MultiEvidence E sd N ms x) :
    (E.mpe (some x) ms).All fun s => s.shape = x.shape ∧
      ∀ n, n < N → ∀ c, c < E.net.num_channels → ∀ f, f < E.net.num_features →
        if Hole E.net.num_features ms x n c f then ∃ v : ℝ, s.get [n, c, f] = .fin v
        else s.get [n, c, f] = x.get [n, c, f] :=
  C57_evidence_partial c P hP sd E h hp hg N hN x { evidence := some x, is_mpe := true, marginalized_scopes := ms } hx rfl rfl rfl
    one_ne_zero

/-- **C57** (part), law: the rows returned by `sample(num_samples=N)` are independent draws from the density `exp(model(x))`.
Missing: configurations outside `MirrorCfg`, as in C13; their law is in `C57_exact_law`. -/
theorem C57_law_partial (c : Config) (P : Params) (hP : P.Random) (sd : List (List Nat × LeafSpec)) (E : MultiEinet)
    (h : buildMulti c P sd = .ok E) (hp : Partition sd E.net.num_features) (hg : ∀ s ∈ sd, s.2.Good ∧ s.2.CanSample)
    (hmir : MirrorCfg c) (hK : E.net.num_classes = 1) (N : Nat) (hN : 0 < N)
    (φ : (Fin N → Fin E.net.num_channels → Fin E.net.num_features → ℝ) → ℝ≥0∞) (hφ : Measurable φ) :
    (E.sample { num_samples := some N }).E (fun s => φ fun n c f => (s.get [n, c, f]).val) =
      ∫⁻ ω, φ ω ∂Measure.pi fun _ : Fin N => multiRowLaw E sd 0 := by
  have hW := buildMulti_WF hP h hp
  have := MultiEinet.sample_measure hW hg (buildMulti_mirrored hP h hmir) (a := { num_samples := some N }) rfl hN rfl rfl rfl rfl
    (by trivial) hφ
  refine this.trans ?_
  congr 2
  funext n
  have hK' : E.asModel.num_classes = 1 := hK
  unfold Model.mixLaw Model.classW
  rw [hK']
  simp only [lt_irrefl, if_false, Finset.range_one, Finset.sum_singleton, if_true, one_smul]
  exact multi_rowLaw hW (fun s hs => (hg s hs).1) (by omega)

/-- **C57** (part), law for a given class: `sample(num_samples=N, class_index=k)` returns independent draws from
`p(x | y = k)`. -/
theorem C57_class_partial (c : Config) (P : Params) (hP : P.Random) (sd : List (List Nat × LeafSpec)) (E : MultiEinet)
    (h : buildMulti c P sd = .ok E) (hp : Partition sd E.net.num_features) (hg : ∀ s ∈ sd, s.2.Good ∧ s.2.CanSample)
    (hmir : MirrorCfg c) (k : Nat) (hK : 1 < E.net.num_classes) (hk : k < E.net.num_classes) (N : Nat) (hN : 0 < N)
    (φ : (Fin N → Fin E.net.num_channels → Fin E.net.num_features → ℝ) → ℝ≥0∞) (hφ : Measurable φ) :
    (E.sample { num_samples := some N, class_index := some (.int k) }).E (fun s => φ fun n c f => (s.get [n, c, f]).val) =
      ∫⁻ ω, φ ω ∂Measure.pi fun _ : Fin N => multiRowLaw E sd k := by
  have hW := buildMulti_WF hP h hp
  have := MultiEinet.sample_measure hW hg (buildMulti_mirrored hP h hmir)
    (a := { num_samples := some N, class_index := some (.int k) }) rfl hN rfl rfl rfl rfl (ClassArg.ok (M := E.asModel) ⟨hK, hk⟩) hφ
  refine this.trans ?_
  congr 2
  funext n
  have hK' : 1 < E.asModel.num_classes := hK
  unfold Model.mixLaw Model.classW
  refine (Finset.sum_eq_single_of_mem k (Finset.mem_range.2 hk) ?_).trans ?_
  swap
  · simp only [hK', if_true, one_smul]
    exact multi_rowLaw hW (fun s hs => (hg s hs).1) hk
  · intro j _ hj
    simp [hK', hj]

/-- **C57** (part), conditional law: given evidence, row `n` follows the conditional law of the missing entries given the
observed entries of row `n`. -/
theorem C57_conditional_partial (c : Config) (P : Params) (hP : P.Random) (sd : List (List Nat × LeafSpec)) (E : MultiEinet)
    (h : buildMulti c P sd = .ok E) (hp : Partition sd E.net.num_features) (hg : ∀ s ∈ sd, s.2.Good ∧ s.2.CanSample)
    (hmir : MirrorCfg c) (hK : E.net.num_classes = 1) (N : Nat) (hN : 0 < N) (ms : Option Scopes) (x : Tensor Fl)
    (hx : MultiEvidence E sd N ms x)
    (φ : (Fin N → Fin E.net.num_channels → Fin E.net.num_features → ℝ) → ℝ≥0∞) (hφ : Measurable φ) :
    (E.sample { evidence := some x, marginalized_scopes := ms }).E (fun s => φ fun n c f => (s.get [n, c, f]).val) =
      ∫⁻ ω, φ ω ∂Measure.pi fun n : Fin N => multiRowLawGiven E sd 0 (known E.net.num_features ms x n) := by
  have hW := buildMulti_WF hP h hp
  have hg' : ∀ s ∈ sd, s.2.Good := fun s hs => (hg s hs).1
  obtain ⟨sc, hsc, -, hh⟩ := multi_scopes hx.usable
  obtain rfl : (⟨none, none, some x, false, false, 1, 1, ms⟩ : SampleArgs).count = N := by
    simp [SampleArgs.count, Tensor.size, hx.batch.shape, at']
  have hev := multi_evidence hW hx (hh x)
  have := MultiEinet.sample_evidence_measure hW hg (buildMulti_mirrored hP h hmir)
    (a := ⟨none, none, some x, false, false, 1, 1, ms⟩) rfl hN hx.batch.is3 rfl rfl rfl rfl rfl rfl hsc hev hφ
  refine this.trans ?_
  congr 2
  funext n
  have hK' : E.asModel.num_classes = 1 := hK
  unfold Model.mixLaw Model.classW
  rw [hK']
  simp only [lt_irrefl, if_false, Finset.range_one, Finset.sum_singleton, if_true, one_smul]
  rw [← multi_rowLawGiven hW hg' (multi_known hW hx n.2) (by omega)]
  refine condLaw_congr (MultiEinet.asModel_WF hW.net) (hW.proper hg') (hev n n.2).masked (multi_known hW hx n.2)
    (fun c hc f hf => ?_) (by omega)
  unfold masked known
  simp only [hh x n c f hf]

/-- the laws are probability laws, and the second one is the first one when nothing is observed. -/
theorem C57_rowLaw_prob (c : Config) (P : Params) (hP : P.Random) (sd : List (List Nat × LeafSpec)) (E : MultiEinet)
    (h : buildMulti c P sd = .ok E) (hp : Partition sd E.net.num_features) (hg : ∀ s ∈ sd, s.2.Good) (k : Nat)
    (hk : k < E.net.num_classes) :
    IsProbabilityMeasure (multiRowLaw E sd k) ∧ multiRowLawGiven E sd k (fun _ _ => .nan) = multiRowLaw E sd k ∧
    ∀ X : Data, (∀ c, c < E.net.num_channels → ∀ s spec, (s, spec) ∈ sd → ∀ f ∈ s,
      X c f = .nan ∨ ∃ v : ℝ, X c f = .fin v ∧ spec.InSupport v) → IsProbabilityMeasure (multiRowLawGiven E sd k X) := by
  have hW := buildMulti_WF hP h hp
  have hA := MultiEinet.asModel_WF hW.net
  refine ⟨?_, ?_, fun X hX => ?_⟩
  · rw [← multi_rowLaw hW hg hk]; exact Model.condLaw_prob hA (hW.proper hg) (Model.observed_nan _) hk
  · rw [← multi_rowLaw hW hg hk, multi_rowLawGiven hW hg (Model.observed_nan _) hk]
  · rw [← multi_rowLawGiven hW hg (multi_observed hW hX) hk]
    exact Model.condLaw_prob hA (hW.proper hg) (multi_observed hW hX) hk

/-! ### A case meeting the hypotheses -/

/-- features 4, 0 and 2 normal, features 1 and 3 categorical. -/
def exMulti : List (List Nat × LeafSpec) :=
  [([4, 0, 2], exLeaf), ([1, 3], .categorical 3 fun c f i r k => c + f + i + r + 2 * k)]

theorem exMulti_init {R : Nat} (hR : 1 ≤ R) : ∃ L, MultiLeaf.init exMulti 5 2 4 R = .ok L := by
  unfold MultiLeaf.init
  rw [require_true _ ⟨by decide, by decide, by decide, hR⟩, Res.ok_bind, require_true _ (by simp [MultiLeaf.allScopes, exMulti]), Res.ok_bind]
  have h1 : ∃ p, MultiLeaf.initPart 2 4 R ([4, 0, 2], exLeaf) = .ok p := by
    unfold MultiLeaf.initPart
    rw [require_true _ (by simp), Res.ok_bind]
    unfold exLeaf
    rw [build_normal]
    exact ⟨_, rfl⟩
  have h2 : ∃ p, MultiLeaf.initPart 2 4 R ([1, 3], .categorical 3 fun c f i r k => c + f + i + r + 2 * k) = .ok p := by
    obtain ⟨B, hB⟩ : ∃ B, (LeafSpec.categorical 3 fun c f i r k => c + f + i + r + 2 * k).build none ⟨2, 2, 4, R⟩ = .ok B := by
      unfold LeafSpec.build
      rw [require_true _ rfl, Res.ok_bind]
      dsimp only
      rw [require_true _ (by norm_num), Res.ok_bind]
      exact ⟨_, rfl⟩
    unfold MultiLeaf.initPart
    rw [require_true _ (by simp), Res.ok_bind]
    dsimp only [List.length_cons, List.length_nil]
    rw [hB]
    exact ⟨_, rfl⟩
  obtain ⟨p, hp⟩ := h1
  obtain ⟨q, hq⟩ := h2
  unfold exMulti
  simp only [List.mapM_cons, List.mapM_nil]
  rw [hp, hq]
  exact ⟨_, rfl⟩

theorem exMulti_builds {c : Config} {M : Model} (h : build c (exParams exLeaf) = .ok M)
    (hc : c.num_features = 5 ∧ c.num_channels = 2 ∧ c.num_leaves = 4 ∧ 1 ≤ c.num_repetitions) (hcard : c.cardinality = none) :
    ∃ E, buildMulti c (exParams exLeaf) exMulti = .ok E := by
  obtain ⟨hv, -, h2, h3, h4⟩ := build_iff.1 ⟨M, h⟩
  obtain ⟨M', hM'⟩ := (build_iff (c := c) (P := (exParams exLeaf).standIn)).2
    ⟨hv, ⟨normalLeaf _ _ _, by rw [hcard]; exact build_normal _ _ _⟩, h2, h3, h4⟩
  obtain ⟨L, hL⟩ := exMulti_init (R := c.num_repetitions.toNat) (by have := hc.2.2.2; omega)
  unfold buildMulti
  rw [hv, Res.ok_bind, hc.1, hc.2.1, hc.2.2.1]
  rw [show (5 : ℤ).toNat = 5 from rfl, show (2 : ℤ).toNat = 2 from rfl, show (4 : ℤ).toNat = 4 from rfl, hL, Res.ok_bind, hM']
  exact ⟨_, rfl⟩

/-- a batch with missing entries in the second row. -/
def exMultiBatch : Tensor Fl := ⟨[3, 2, 5], fun i => if at' 0 i = 1 ∧ at' 2 i < 2 then .nan else .fin 1⟩

theorem exMultiBatch_ok : MultiBatch exMulti 3 2 5 exMultiBatch := by
  refine ⟨rfl, fun n hn c hc s spec hs f hf => ?_⟩
  by_cases e : n = 1 ∧ f < 2
  · left; exact if_pos e
  · right
    refine ⟨1, if_neg e, ?_⟩
    simp only [exMulti, List.mem_cons, List.not_mem_nil, or_false, Prod.mk.injEq] at hs
    rcases hs with ⟨_, rfl⟩ | ⟨_, rfl⟩
    · trivial
    · exact ⟨1, by norm_num, by norm_num⟩

theorem exMulti_good : ∀ s ∈ exMulti, s.2.Good ∧ s.2.CanSample := by
  intro s hs
  simp only [exMulti, List.mem_cons, List.not_mem_nil, or_false] at hs
  rcases hs with rfl | rfl
  · exact ⟨trivial, trivial⟩
  · exact ⟨by simp [LeafSpec.Good], trivial⟩

theorem exMulti_partition : Partition exMulti 5 := by unfold Partition exMulti; decide

/-- an einet with normal and categorical features in mixed order, three classes and any layer type: a batch with NaN together
with marginalised features, and two different reference measures. -/
example (l s : String) (hls : (l = "linsum" ∨ l = "linsum2" ∨ l = "einsum") ∧ s = "top-down" ∨ l = "linsum" ∧ s = "bottom-up") :
    ∃ E, buildMulti (exConfig l s) (exParams exLeaf) exMulti = .ok E ∧ Partition exMulti E.net.num_features ∧
      (∀ s ∈ exMulti, s.2.Good ∧ s.2.CanSample) ∧ E.net.num_classes = 3 ∧ MirrorCfg (exConfig l s) ∧
      MultiBatch exMulti 3 E.net.num_channels E.net.num_features exMultiBatch ∧ Usable E.net.num_features ⟨true, [3, -1]⟩ ∧
      multiRef exMulti 4 = volume ∧ multiRef exMulti 3 = (LeafSpec.categorical 3 fun c f i r k => c + f + i + r + 2 * k).ref := by
  obtain ⟨M, h⟩ := exConfig_normal hls
  obtain ⟨E, hE⟩ := exMulti_builds h ⟨rfl, rfl, rfl, by norm_num [exConfig, exOne]⟩ rfl
  have hz := (buildMulti_spec (exParams_random _) hE).2.1
  have e1 : E.net.num_features = 5 := hz.features
  have e2 : E.net.num_channels = 2 := hz.channels
  exact ⟨E, hE, by rw [e1]; exact exMulti_partition, exMulti_good, hz.classes, (exMirror _ _).1, by rw [e1, e2]; exact exMultiBatch_ok,
    by rw [e1]; exact ⟨by simp, by simp⟩, rfl, rfl⟩

/-- the same with one class; evidence with holes given as NaN, and as marginalised features of a complete batch. -/
example : ∃ E, buildMulti (exOne "einsum" "top-down") (exParams exLeaf) exMulti = .ok E ∧ E.net.num_classes = 1 ∧
    MirrorCfg (exOne "einsum" "top-down") ∧ MultiEvidence E exMulti 3 none exMultiBatch ∧
    MultiEvidence E exMulti 7 (some ⟨true, [1, -1]⟩) ⟨[7, 2, 5], fun _ => .fin 1⟩ := by
  obtain ⟨M, h, -, -, -⟩ := exOne_builds (l := "einsum") (s := "top-down") (Or.inl ⟨Or.inr (Or.inr rfl), rfl⟩)
  obtain ⟨E, hE⟩ := exMulti_builds h ⟨rfl, rfl, rfl, by norm_num [exConfig, exOne]⟩ rfl
  have hz := (buildMulti_spec (exParams_random _) hE).2.1
  have e1 : E.net.num_features = 5 := hz.features
  have e2 : E.net.num_channels = 2 := hz.channels
  refine ⟨E, hE, hz.classes, (exMirror _ _).2, ⟨by rw [e1, e2]; exact exMultiBatch_ok, by simp, fun n _ c _ f _ e => e⟩, ⟨?_, ?_, ?_⟩⟩
  · rw [e1, e2]
    refine ⟨rfl, fun n hn c hc s spec hs f hf => Or.inr ⟨1, rfl, ?_⟩⟩
    simp only [exMulti, List.mem_cons, List.not_mem_nil, or_false, Prod.mk.injEq] at hs
    rcases hs with ⟨_, rfl⟩ | ⟨_, rfl⟩
    · trivial
    · exact ⟨1, by norm_num, by norm_num⟩
  · rintro l ⟨⟩
    rw [e1]
    exact ⟨by simp, by simp⟩
  · intro n _ c _ f _ e
    cases e

end Einet.Props
