import Verif.CondSample
import Verif.PropsCond
import Verif.PropsParams
import Verif.Modes

/-!
# C63: sampling einets with `ConditionalBinomial` leaves

`E.sample a` draws the features listed in `marginalized_scopes` given the other entries of the evidence.
-/

open Classical MeasureTheory
open scoped ENNReal
noncomputable section
namespace Einet.Props
open Tensor Einet

/-! ### Specification -/

/-- law of the listed features given the other entries of the row `X`, by the density of the model. -/
def condRowLaw (E : CondEinet) (n : ℤ) (s : Scopes) (k : Nat) (X : Data) :
    Measure (Fin E.net.num_channels → Fin E.net.num_features → ℝ) :=
  (E.density (some s) k X)⁻¹ • (Measure.pi (fun c : Fin E.net.num_channels => Measure.pi fun f : Fin E.net.num_features =>
    if Listed E.net.num_features s f then counting n else Measure.dirac (X c f).val)).withDensity
    fun ω => E.density none k (Pt.data ω)

/-- probability of `k` for a binomial distribution with `n` trials and the given logit. -/
def binomialProb (n : Nat) (logit : ℝ) (k : Nat) : ℝ :=
  n.choose k * (1 + Real.exp (-logit))⁻¹ ^ k * (1 - (1 + Real.exp (-logit))⁻¹) ^ (n - k)

/-! ### From the specification to the lemmas -/

section
variable {c : Config} {P : Params} {n : ℤ} {fn : Tensor Fl → Res (Tensor Fl)} {idxs : Scopes} {base unc : Par} {E : CondEinet}
  {w : Nat} {g : (Nat → Nat → Nat → Fl) → Nat → ℝ}

/-- the entries of a batch, zero outside. -/
def entries (N C F : Nat) (x : Tensor Fl) : Nat → Data := fun i c f =>
  if i < N ∧ c < C ∧ f < F then x.get [i, c, f] else .fin 0

theorem entries_of {N C F : Nat} {x : Tensor Fl} {i c f : Nat} (hi : i < N) (hc : c < C) (hf : f < F) :
    entries N C F x i c f = x.get [i, c, f] := if_pos ⟨hi, hc, hf⟩

theorem entries_is {N C F : Nat} {x : Tensor Fl} (hx : x.shape = [N, C, F]) : x.Is3 N C F (entries N C F x) :=
  Is.is3 (Is.refl x hx) fun _ hi _ hc _ hf => (entries_of hi hc hf).symm

theorem entries_row {N : Nat} {x : Tensor Fl} (hx : CountBatch n N E.net.num_channels E.net.num_features x) {i : Nat} (hi : i < N) :
    ∀ c, c < E.net.num_channels → ∀ f, f < E.net.num_features → ∃ m : Nat, (m : ℤ) ≤ n ∧
      entries N E.net.num_channels E.net.num_features x i c f = .fin (m : ℝ) := fun c hc f hf => by
  obtain ⟨m, hm, e⟩ := hx.2 i hi c hc f hf
  exact ⟨m, hm, by rw [entries_of hi hc hf, e]⟩

theorem entries_nan {N C F : Nat} {x : Tensor Fl} (hx : CountBatch n N C F x) (i c f : Nat) :
    (entries N C F x i c f).isnan = false := by
  unfold entries
  split_ifs with h
  · obtain ⟨m, hm, e⟩ := hx.2 i h.1 c h.2.1 f h.2.2
    rw [e]; rfl
  · rfl

theorem cond_merged (h : buildCond c P n fn idxs base unc = .ok E) (ht : c.structure' = "top-down") : E.Merged :=
  build_topDown_leaf (buildCond_net h).1 ht

theorem condRowLaw_eq (hP : P.Random) (h : buildCond c P n fn idxs base unc = .ok E)
    (ha : CondArgs E.net.num_features E.net.num_channels E.net.num_leaves E.net.num_repetitions fn idxs w g) {s : Scopes}
    (hdisj : ∀ f, f < E.net.num_features → Listed E.net.num_features s f → ¬ Listed E.net.num_features idxs f)
    {l : List Nat} (hl : Scopes.resolveOpt E.net.num_features (some s) = .ok (some l))
    (hm : ∀ f, f < E.net.num_features → (f ∈ l ↔ Listed E.net.num_features s f)) {X : Data}
    (hX : ∀ c, c < E.net.num_channels → ∀ f, f < E.net.num_features → ∃ m : Nat, (m : ℤ) ≤ n ∧ X c f = .fin (m : ℝ))
    {k : Nat} (hk : k < E.net.num_classes) :
    E.rowLaw g (condList E.net.num_features idxs) X k (masked (some l) X) = condRowLaw E n s k X := by
  have hw := cond_WF hP h ha
  have hc := cond_counts_row h hX
  have hae := CondEinet.density_hide_ae hw hc (H := {f | f ∈ l})
    (fun f hf hf' => cond_disjoint hP h ha hdisj f hf ((hm f (cond_lt hP h ha f hf)).1 hf')) hk
  have e0 : masked (some l) X = CondEinet.hideSet {f | f ∈ l} X := rfl
  unfold condRowLaw CondEinet.rowLaw Model.condLaw
  rw [e0, ← CondEinet.density_scopes hw hc hl hk, ← cond_hidden h hX hm]
  rw [show (E.atRow g (condList E.net.num_features idxs) X).leaf.base.ref = countRef E.leaf.total_count from
    CondEinet.atRow_ref X]
  exact congrArg _ (withDensity_congr_ae hae).symm

/-- the density depends on the entries of the row only. -/
theorem cond_density_congr (hP : P.Random) (h : buildCond c P n fn idxs base unc = .ok E)
    (ha : CondArgs E.net.num_features E.net.num_channels E.net.num_leaves E.net.num_repetitions fn idxs w g) {ms : Option Scopes}
    (hms : ∀ s, ms = some s → Usable E.net.num_features s) {X Y : Data}
    (hX : ∀ c, c < E.net.num_channels → ∀ f, f < E.net.num_features → ∃ m : Nat, (m : ℤ) ≤ n ∧ X c f = .fin (m : ℝ))
    (hXY : ∀ c, c < E.net.num_channels → ∀ f, f < E.net.num_features → X c f = Y c f) {k : Nat} (hk : k < E.net.num_classes) :
    E.density ms k X = E.density ms k Y := by
  have hw := cond_WF hP h ha
  have hc := cond_counts_row h hX
  obtain ⟨sc, hsc⟩ := cond_resolve hms
  have hY : (rowTensor E.net.num_channels E.net.num_features Y).Is3 1 E.net.num_channels E.net.num_features fun _ => X :=
    (rowTensor_is _ _ Y).congr ((AllIdx_iff _ _).2 fun j hj => match j, hj with
      | [a, b, d], ⟨_, hb, hd, _⟩ => (hXY b hb d hd).symm)
  obtain ⟨y, hy, hy2⟩ := CondEinet.forward_rows hw one_pos (rowTensor_is _ _ X) (fun _ _ => hc) hsc
  obtain ⟨z, hz, hz2⟩ := CondEinet.forward_rows hw one_pos hY (fun _ _ => hc) hsc
  unfold CondEinet.density
  rw [hy, hz]
  dsimp only
  rw [hy2.get one_pos hk, hz2.get one_pos hk]

theorem condRowLaw_congr (hP : P.Random) (h : buildCond c P n fn idxs base unc = .ok E)
    (ha : CondArgs E.net.num_features E.net.num_channels E.net.num_leaves E.net.num_repetitions fn idxs w g) {s : Scopes}
    (hs : Usable E.net.num_features s) {X Y : Data}
    (hX : ∀ c, c < E.net.num_channels → ∀ f, f < E.net.num_features → ∃ m : Nat, (m : ℤ) ≤ n ∧ X c f = .fin (m : ℝ))
    (hXY : ∀ c, c < E.net.num_channels → ∀ f, f < E.net.num_features → X c f = Y c f) {k : Nat} (hk : k < E.net.num_classes) :
    condRowLaw E n s k X = condRowLaw E n s k Y := by
  unfold condRowLaw
  rw [cond_density_congr hP h ha (fun _ e => by cases e; exact hs) hX hXY hk]
  congr 3
  funext c
  congr 1
  funext f
  rw [hXY c c.2 f f.2]

theorem cond_mode (hP : P.Random) (h : buildCond c P n fn idxs base unc = .ok E)
    (ha : CondArgs E.net.num_features E.net.num_channels E.net.num_leaves E.net.num_repetitions fn idxs w g) (X : Data) (ch f i r : Nat) :
    ∃ m : Nat, (m : ℤ) ≤ n ∧ (E.leaf.leafAt g (condList E.net.num_features idxs) X).mode ch f i r = (m : ℝ) ∧
      m = ⌊(1 + Real.exp (-condLogits E.net.num_features E.net.num_leaves E.net.num_repetitions w idxs base unc g X ch f i r))⁻¹ *
        (n.toNat + 1)⌋₊ ∧
      ∀ k ≤ n.toNat, binomialProb n.toNat (condLogits E.net.num_features E.net.num_leaves E.net.num_repetitions w idxs base unc g X ch f i r) k
        ≤ binomialProb n.toNat (condLogits E.net.num_features E.net.num_leaves E.net.num_repetitions w idxs base unc g X ch f i r) m := by
  obtain ⟨hn, ht⟩ := cond_total h
  have hm : (E.leaf.leafAt g (condList E.net.num_features idxs) X).mode ch f i r =
      (⌊Real.sigmoid (E.leaf.theta g (condList E.net.num_features idxs) X ch f i r) * (E.leaf.total_count + 1)⌋₊ : ℝ) := rfl
  rw [cond_theta hP h ha, ht] at hm
  generalize condLogits E.net.num_features E.net.num_leaves E.net.num_repetitions w idxs base unc g X ch f i r = θ at *
  obtain ⟨h1, h2⟩ := binomialPmf_mode n.toNat (Real.sigmoid_pos θ) (Real.sigmoid_lt_one θ)
  exact ⟨_, by omega, hm, rfl, h2⟩

end

/-! ### C63 -/

/-- **C63** (part: one class, groups of features chosen like `MirrorCfg`, no conditioning feature listed): rows of `sample`
are independent and row `i` follows the law of the listed features given the other entries of row `i` of the evidence.
`mpe_at_leaves` and `temperature_leaves` are ignored. -/
theorem C63_law_partial (c : Config) (P : Params) (hP : P.Random) (n : ℤ) (fn : Tensor Fl → Res (Tensor Fl)) (idxs : Scopes)
    (base unc : Par) (E : CondEinet) (h : buildCond c P n fn idxs base unc = .ok E) (w : Nat)
    (g : (Nat → Nat → Nat → Fl) → Nat → ℝ)
    (ha : CondArgs E.net.num_features E.net.num_channels E.net.num_leaves E.net.num_repetitions fn idxs w g)
    (ht : c.structure' = "top-down") (hmir : MirrorCfg c) (hK : E.net.num_classes = 1) (s : Scopes) (hs : Usable E.net.num_features s)
    (hdisj : ∀ f, f < E.net.num_features → Listed E.net.num_features s f → ¬ Listed E.net.num_features idxs f) (N : Nat)
    (hN : 0 < N) (x : Tensor Fl) (hx : CountBatch n N E.net.num_channels E.net.num_features x) (leaves : Bool) (T : ℝ)
    (φ : (Fin N → Fin E.net.num_channels → Fin E.net.num_features → ℝ) → ℝ≥0∞) (hφ : Measurable φ) :
    (E.sample { evidence := some x, marginalized_scopes := some s, mpe_at_leaves := leaves, temperature_leaves := T }).E
        (fun t => φ fun i c f => (t.get [i, c, f]).val) =
      ∫⁻ ω, φ ω ∂Measure.pi fun i : Fin N => condRowLaw E n s 0 fun c f => x.get [i, c, f] := by
  have hw := cond_WF hP h ha
  obtain ⟨l, hl, hm⟩ := usable_resolve hs
  obtain rfl : (⟨none, none, some x, false, leaves, T, 1, some s⟩ : SampleArgs).count = N := by
    simp [SampleArgs.count, Tensor.size, hx.1, at']
  have := CondEinet.sample_evidence_measure hw (cond_merged h ht)
    (build_mirrored (binomialAt_random hP _ _) (buildCond_net h).1 hmir) (a := ⟨none, none, some x, false, leaves, T, 1, some s⟩)
    (sc := some l) ⟨rfl, hN, entries_is hx.1, fun i hi => cond_counts_row h (entries_row hx hi), rfl, one_ne_zero, trivial⟩
    (entries_nan hx) rfl rfl rfl hl hφ
  refine this.trans ?_
  congr 2
  funext i
  unfold Model.classW
  rw [hK]
  simp only [lt_irrefl, if_false, Finset.range_one, Finset.sum_singleton, if_true, one_smul]
  rw [condRowLaw_eq hP h ha hdisj hl hm (entries_row hx i.2) (by omega)]
  exact condRowLaw_congr hP h ha hs (entries_row hx i.2) (fun c hc f hf => entries_of i.2 hc hf) (by omega)

/-- **C63**: the law of a row is a probability law. -/
theorem C63_law_prob (c : Config) (P : Params) (hP : P.Random) (n : ℤ) (fn : Tensor Fl → Res (Tensor Fl)) (idxs : Scopes)
    (base unc : Par) (E : CondEinet) (h : buildCond c P n fn idxs base unc = .ok E) (w : Nat)
    (g : (Nat → Nat → Nat → Fl) → Nat → ℝ)
    (ha : CondArgs E.net.num_features E.net.num_channels E.net.num_leaves E.net.num_repetitions fn idxs w g) (s : Scopes)
    (hs : Usable E.net.num_features s)
    (hdisj : ∀ f, f < E.net.num_features → Listed E.net.num_features s f → ¬ Listed E.net.num_features idxs f) (X : Data)
    (hX : ∀ c, c < E.net.num_channels → ∀ f, f < E.net.num_features → ∃ m : Nat, (m : ℤ) ≤ n ∧ X c f = .fin (m : ℝ))
    (k : Nat) (hk : k < E.net.num_classes) : IsProbabilityMeasure (condRowLaw E n s k X) := by
  have hw := cond_WF hP h ha
  obtain ⟨l, hl, hm⟩ := usable_resolve hs
  rw [← condRowLaw_eq hP h ha hdisj hl hm hX hk]
  refine Model.condLaw_prob (hw.row X) (CondEinet.atRow_proper X) ?_ hk
  have := (CondEinet.evidenceOK (g := g) (l := condList E.net.num_features idxs) (Y := X) (cond_counts_row h hX) (some l)).masked
  rwa [CondEinet.atRow_base]

/-- **C63**: whatever is drawn, and for every number of classes, with and without `is_mpe`: the result has the shape of the
evidence, the entries of features that are not listed are those of the evidence, the other ones are finite. -/
theorem C63_kept (c : Config) (P : Params) (hP : P.Random) (n : ℤ) (fn : Tensor Fl → Res (Tensor Fl)) (idxs : Scopes)
    (base unc : Par) (E : CondEinet) (h : buildCond c P n fn idxs base unc = .ok E) (w : Nat)
    (g : (Nat → Nat → Nat → Fl) → Nat → ℝ)
    (ha : CondArgs E.net.num_features E.net.num_channels E.net.num_leaves E.net.num_repetitions fn idxs w g)
    (ht : c.structure' = "top-down") (s : Scopes) (hs : Usable E.net.num_features s) (N : Nat)
    (hN : 0 < N) (x : Tensor Fl) (hx : CountBatch n N E.net.num_channels E.net.num_features x) (mpe leaves : Bool) (T Ts : ℝ)
    (hTs : Ts ≠ 0) :
    (E.sample
      { evidence := some x, marginalized_scopes := some s, is_mpe := mpe, mpe_at_leaves := leaves, temperature_leaves := T, temperature_sums := Ts }).All fun t => t.shape = [N, E.net.num_channels, E.net.num_features] ∧
      ∀ i, i < N → ∀ ch, ch < E.net.num_channels → ∀ f, f < E.net.num_features →
        if Listed E.net.num_features s f then ∃ v : ℝ, t.get [i, ch, f] = .fin v else t.get [i, ch, f] = x.get [i, ch, f] := by
  have hw := cond_WF hP h ha
  obtain ⟨l, hl, hm⟩ := usable_resolve hs
  obtain rfl : (⟨none, none, some x, mpe, leaves, T, Ts, some s⟩ : SampleArgs).count = N := by
    simp [SampleArgs.count, Tensor.size, hx.1, at']
  refine (CondEinet.sample_All hw (cond_merged h ht) (a := ⟨none, none, some x, mpe, leaves, T, Ts, some s⟩) rfl hN (entries_is hx.1)
    (fun i hi => cond_counts_row h (entries_row hx hi)) (entries_nan hx) rfl rfl hTs hl).mono fun t ⟨v, hv, _⟩ => ?_
  refine ⟨hv.1, fun i hi ch hc f hf => ?_⟩
  have := hv.get hi hc hf
  split_ifs with hf'
  · exact ⟨_, this.trans (if_pos ((hm f hf).2 hf'))⟩
  · exact this.trans ((if_neg fun e => hf' ((hm f hf).1 e)).trans (entries_of hi hc hf))

/-- **C63**: with `is_mpe` every listed entry is a most likely value of the binomial distribution of some leaf, with the logits
computed from the conditioning features of its row. -/
theorem C63_mpe (c : Config) (P : Params) (hP : P.Random) (n : ℤ) (fn : Tensor Fl → Res (Tensor Fl)) (idxs : Scopes)
    (base unc : Par) (E : CondEinet) (h : buildCond c P n fn idxs base unc = .ok E) (w : Nat)
    (g : (Nat → Nat → Nat → Fl) → Nat → ℝ)
    (ha : CondArgs E.net.num_features E.net.num_channels E.net.num_leaves E.net.num_repetitions fn idxs w g)
    (ht : c.structure' = "top-down") (s : Scopes) (hs : Usable E.net.num_features s) (N : Nat)
    (hN : 0 < N) (x : Tensor Fl) (hx : CountBatch n N E.net.num_channels E.net.num_features x) (leaves : Bool) (T Ts : ℝ)
    (hTs : Ts ≠ 0) :
    (E.sample
      { evidence := some x, marginalized_scopes := some s, is_mpe := true, mpe_at_leaves := leaves, temperature_leaves := T, temperature_sums := Ts }).All fun t =>
      ∀ i, i < N → ∀ ch, ch < E.net.num_channels → ∀ f, f < E.net.num_features → Listed E.net.num_features s f →
        ∃ (j r m : Nat), j < E.net.num_leaves ∧ r < E.net.num_repetitions ∧ (m : ℤ) ≤ n ∧ t.get [i, ch, f] = .fin (m : ℝ) ∧
          ∀ θ, θ = condLogits E.net.num_features E.net.num_leaves E.net.num_repetitions w idxs base unc g
            (fun c f => x.get [i, c, f]) ch f j r → m = ⌊(1 + Real.exp (-θ))⁻¹ * (n.toNat + 1)⌋₊ ∧
            ∀ k ≤ n.toNat, binomialProb n.toNat θ k ≤ binomialProb n.toNat θ m := by
  have hw := cond_WF hP h ha
  obtain ⟨l, hl, hm⟩ := usable_resolve hs
  obtain rfl : (⟨none, none, some x, true, leaves, T, Ts, some s⟩ : SampleArgs).count = N := by
    simp [SampleArgs.count, Tensor.size, hx.1, at']
  refine (CondEinet.sample_All hw (cond_merged h ht) (a := ⟨none, none, some x, true, leaves, T, Ts, some s⟩) rfl hN (entries_is hx.1)
    (fun i hi => cond_counts_row h (entries_row hx hi)) (entries_nan hx) rfl rfl hTs hl).mono fun t ⟨v, hv, hv2⟩ => ?_
  intro i hi ch hc f hf hf'
  obtain ⟨j, r, hj, hr, e⟩ := hv2 rfl i hi ch hc f hf
  obtain ⟨m, h1, h2, h3, h4⟩ := cond_mode hP h ha (entries _ E.net.num_channels E.net.num_features x i) ch f j r
  refine ⟨j, r, m, hj, hr, h1, ?_, ?_⟩
  · rw [hv.get hi hc hf, ← h2, ← e]
    exact if_pos ((hm f hf).2 hf')
  · have e := CondEinet.theta_congr hw (CondEinet.counts_fin hw (cond_counts_row h (entries_row hx hi)))
      (fun c hc f hf => entries_of hi hc (cond_lt hP h ha f hf)) (f := f) hc hj hr
    rw [cond_theta hP h ha, cond_theta hP h ha] at e
    rintro θ rfl
    rw [← e]
    exact ⟨h3, h4⟩

/-- **C63** (exceptions): without evidence `sample` always raises. -/
theorem C63_no_evidence (c : Config) (P : Params) (n : ℤ) (fn : Tensor Fl → Res (Tensor Fl)) (idxs : Scopes)
    (base unc : Par) (E : CondEinet) (_ : buildCond c P n fn idxs base unc = .ok E) (a : SampleArgs) (ha : a.evidence = none)
    (φ : Tensor Fl → ℝ≥0∞) : (E.sample a).E φ = 0 := CondEinet.sample_none E ha φ

/-- **C63** (exceptions): with the bottom-up structure `sample` raises for all counts as evidence. -/
theorem C63_bottom_up (c : Config) (P : Params) (hP : P.Random) (n : ℤ) (fn : Tensor Fl → Res (Tensor Fl)) (idxs : Scopes)
    (base unc : Par) (E : CondEinet) (h : buildCond c P n fn idxs base unc = .ok E) (w : Nat)
    (g : (Nat → Nat → Nat → Fl) → Nat → ℝ)
    (ha : CondArgs E.net.num_features E.net.num_channels E.net.num_leaves E.net.num_repetitions fn idxs w g)
    (ht : c.structure' = "bottom-up") (ms : Option Scopes) (hms : ∀ s, ms = some s → Usable E.net.num_features s) (N : Nat)
    (hN : 0 < N) (x : Tensor Fl) (hx : CountBatch n N E.net.num_channels E.net.num_features x) (mpe leaves : Bool) (T Ts : ℝ)
    (hTs : Ts ≠ 0) (φ : Tensor Fl → ℝ≥0∞) :
    (E.sample
      { evidence := some x, marginalized_scopes := ms, is_mpe := mpe, mpe_at_leaves := leaves, temperature_leaves := T, temperature_sums := Ts }).E φ = 0 := by
  have hw := cond_WF hP h ha
  obtain ⟨sc, hsc⟩ := cond_resolve hms
  obtain rfl : (⟨none, none, some x, mpe, leaves, T, Ts, ms⟩ : SampleArgs).count = N := by
    simp [SampleArgs.count, Tensor.size, hx.1, at']
  have hL : ∃ B, E.net.leaf = .direct B := by
    have hM := (buildCond_net h).1
    unfold build at hM
    rw [build_valid (buildCond_net h).1, Res.ok_bind, if_neg (by rw [ht]; decide), if_pos ht] at hM
    obtain ⟨_, _, _, B, _, hB⟩ := buildBottomUp_spec (binomialAt_random hP _ _) (build_valid (buildCond_net h).1) ht hM (fun _ _ => 0)
    exact ⟨B, hB⟩
  obtain ⟨B, hB⟩ := hL
  exact CondEinet.sample_direct hw hB (a := ⟨none, none, some x, mpe, leaves, T, Ts, ms⟩) rfl hN (entries_is hx.1)
    (fun i hi => cond_counts_row h (entries_row hx hi)) (entries_nan hx) rfl rfl hTs hsc φ

/-- **C63 is false as stated**: the entries of listed conditioning features still count.  The two rows have no entry that is not
listed, but with `is_mpe` feature 0 of the result is always 0 for one and always 1 for the other. -/
theorem C63_scopes_refuted : ∃ (c : Config) (P : Params) (n : ℤ) (fn : Tensor Fl → Res (Tensor Fl)) (idxs : Scopes) (base unc : Par)
    (E : CondEinet) (w : Nat) (g : (Nat → Nat → Nat → Fl) → Nat → ℝ) (s : Scopes) (x x' : Tensor Fl), P.Random ∧
    buildCond c P n fn idxs base unc = .ok E ∧
    CondArgs E.net.num_features E.net.num_channels E.net.num_leaves E.net.num_repetitions fn idxs w g ∧
    (∀ i ∈ idxs.idx, E.net.num_features / 2 ≤ pyIndex E.net.num_features i) ∧ Usable E.net.num_features s ∧
    CountBatch n 1 E.net.num_channels E.net.num_features x ∧ CountBatch n 1 E.net.num_channels E.net.num_features x' ∧
    (∀ f, f < E.net.num_features → Listed E.net.num_features s f) ∧
    (E.sample { evidence := some x, marginalized_scopes := some s, is_mpe := true }).All (fun t => t.get [0, 0, 0] = .fin 0) ∧
    (E.sample { evidence := some x', marginalized_scopes := some s, is_mpe := true }).All (fun t => t.get [0, 0, 0] = .fin 1) := by
  obtain ⟨E, h, h1, h2, h3, h4, h5⟩ := exCond_exists (F := 2) (d := 0) (n := 1) (by norm_num) (by norm_num) (by norm_num)
    (by norm_num) (exCond 2) ⟨true, [((1 : Nat) : ℤ)]⟩ (fun _ _ _ _ => 0) (fun _ _ _ _ => 0)
  have ha : CondArgs E.net.num_features E.net.num_channels E.net.num_leaves E.net.num_repetitions (exCond 2) ⟨true, [((1 : Nat) : ℤ)]⟩
      1 exCondG := by
    rw [h1, h2, h3, h4]
    exact exCond_args (F := 2) (w := 1) (idxs := ⟨true, [((1 : Nat) : ℤ)]⟩) rfl ⟨by simp, by simp⟩ one_pos rfl (Or.inr rfl)
  have hb : ∀ b : Nat, b ≤ 1 → CountBatch 1 1 E.net.num_channels E.net.num_features ⟨[1, 1, 2], fun j => .fin (b * at' 2 j : Nat)⟩ := by
    intro b hb
    rw [h1, h2]
    refine ⟨rfl, fun i _ c _ f hf => ⟨b * f, ?_, by simp [at']⟩⟩
    have : b * f ≤ 1 * 1 := Nat.mul_le_mul hb (by omega)
    omega
  have hs : Usable E.net.num_features ⟨true, [0, 1]⟩ := by rw [h1]; exact ⟨by simp, by simp⟩
  have hl : ∀ f, f < E.net.num_features → Listed E.net.num_features ⟨true, [0, 1]⟩ f := by
    rw [h1]
    intro f hf
    simp only [Listed, List.mem_cons, List.not_mem_nil, or_false, exists_eq_or_imp, exists_eq_left]
    omega
  have key : ∀ b : Nat, b ≤ 1 → (E.sample ⟨none, none, some ⟨[1, 1, 2], fun j => .fin (b * at' 2 j : Nat)⟩, true, false, 1, 1,
      some ⟨true, [0, 1]⟩⟩).All
        fun t => t.get [0, 0, 0] = .fin (⌊Real.sigmoid (2 * b - 1) * 2⌋₊ : ℝ) := by
    intro b hb'
    refine (C63_mpe _ _ (wParams_random _ _) 1 _ _ _ _ E h 1 exCondG ha rfl _ hs 1 one_pos _ (hb b hb') false 1 1 one_ne_zero).mono
      fun t ht => ?_
    obtain ⟨j, r, m, hj, hr, hm, e, hθ⟩ := ht 0 one_pos 0 (by omega) 0 (by omega) (hl 0 (by omega))
    rw [e, (hθ _ rfl).1, h1]
    unfold condLogits exCondG
    have : pyIndex 2 1 = 1 := by unfold pyIndex; omega
    simp [this, at', Fl.val, Real.sigmoid]
    norm_num
  refine ⟨_, _, 1, _, _, _, _, E, 1, exCondG, _, ⟨[1, 1, 2], fun j => .fin (0 * at' 2 j : Nat)⟩, ⟨[1, 1, 2], fun j => .fin (1 * at' 2 j : Nat)⟩,
    wParams_random _ _, h, ha, ?_, hs, hb 0 (by omega), hb 1 le_rfl, hl, (key 0 (by omega)).mono fun t ht => ?_,
    (key 1 le_rfl).mono fun t ht => ?_⟩
  · rw [h1]
    simp [pyIndex]
  · have h6 : Real.sigmoid (2 * ((0 : Nat) : ℝ) - 1) * 2 < 1 := by
      have := Real.sigmoid_lt (show 2 * ((0 : Nat) : ℝ) - 1 < 0 by norm_num)
      rw [Real.sigmoid_zero] at this
      generalize Real.sigmoid (2 * ((0 : Nat) : ℝ) - 1) = p at *
      norm_num at this
      linarith
    rw [ht, Nat.floor_eq_zero.2 h6, Nat.cast_zero]
  · have h6 : ⌊Real.sigmoid (2 * ((1 : Nat) : ℝ) - 1) * 2⌋₊ = 1 := by
      have := Real.sigmoid_lt (show 0 < 2 * ((1 : Nat) : ℝ) - 1 by norm_num)
      have h7 := Real.sigmoid_lt_one (2 * ((1 : Nat) : ℝ) - 1)
      rw [Real.sigmoid_zero] at this
      generalize Real.sigmoid (2 * ((1 : Nat) : ℝ) - 1) = p at *
      norm_num at this
      rw [Nat.floor_eq_iff (by linarith)]
      constructor
      · push_cast; linarith
      · push_cast; linarith
    rw [ht, h6, Nat.cast_one]

/-! ### Non-vacuity -/

/-- six features in two channels, two repetitions, depth 2. -/
def exSix (l s : String) : Config := { exConfig l s with num_features := 6, num_classes := 1 }

theorem exSix_exists {l s : String} (h : (l = "linsum" ∨ l = "linsum2" ∨ l = "einsum") ∧ s = "top-down" ∨
    l = "linsum" ∧ s = "bottom-up") (fn : Tensor Fl → Res (Tensor Fl)) (idxs : Scopes) (base unc : Par) :
    ∃ E, buildCond (exSix l s) (exParams exLeaf) 10 fn idxs base unc = .ok E ∧ E.net.num_features = 6 ∧ E.net.num_channels = 2 ∧
      E.net.num_leaves = 4 ∧ E.net.num_repetitions = 2 ∧ E.net.num_classes = 1 := by
  have hP := binomialAt_random (exParams_random exLeaf) 10 fun _ _ _ _ => 0
  have hv : (exSix l s).assertValid = .ok () := by
    obtain ⟨v1, v2, v3, v4, v5, v6, v7, v8, v9, v10, v11, v12, v13⟩ := (assertValid_iff _).1 (exConfig_valid h)
    rw [assertValid_iff]
    exact ⟨by norm_num [exSix], v2, by norm_num [exSix], v4, v5, v6, v7, v8, v9, v10, v11, v12,
      by norm_num [exSix, exConfig, Int.fdiv_one]⟩
  obtain ⟨M, hM⟩ := (build_iff (c := exSix l s) (P := (exParams exLeaf).binomialAt 10 fun _ _ _ _ => 0)).2
    ⟨hv, ⟨_, by
      show (LeafSpec.binomial 10 _).build none _ = _
      unfold LeafSpec.build
      rw [require_true _ rfl]
      simp only [Res.ok_bind]
      exact (checkInt_iff 10 1 one_ne_zero _ _).2 ⟨by norm_num, rfl⟩⟩, by norm_num [exSix, exConfig],
      fun _ => by norm_num [exSix, exConfig], fun _ => ⟨1 / 4, rfl, by norm_num, by norm_num⟩⟩
  have hz := (build_WF hP hM).1
  unfold buildCond
  rw [hM]
  exact ⟨_, rfl, by rw [hz.features]; rfl, by rw [hz.channels]; rfl, by rw [hz.leaves]; rfl, by rw [hz.reps]; rfl,
    by rw [hz.classes]; rfl⟩

/-- the hypotheses of the theorems above hold for both structures: conditioned on feature 4, features 0 and 5 listed. -/
example {l s : String} (h : (l = "linsum" ∨ l = "linsum2" ∨ l = "einsum") ∧ s = "top-down" ∨ l = "linsum" ∧ s = "bottom-up") :
    ∃ E, buildCond (exSix l s) (exParams exLeaf) 10 (exCond 16) ⟨true, [4]⟩ (fun c f i r => c + f - i * r)
      (fun c f i r => c - f + i + r) = .ok E ∧ (exSix l s).structure' = s ∧ (exParams exLeaf).Random ∧
    CondArgs E.net.num_features E.net.num_channels E.net.num_leaves E.net.num_repetitions (exCond 16) ⟨true, [4]⟩ 1 exCondG ∧
    MirrorCfg (exSix l s) ∧ E.net.num_classes = 1 ∧ Usable E.net.num_features ⟨true, [0, -1]⟩ ∧
    (∀ f, f < E.net.num_features → Listed E.net.num_features ⟨true, [0, -1]⟩ f → ¬ Listed E.net.num_features ⟨true, [4]⟩ f) ∧
    CountBatch 10 3 E.net.num_channels E.net.num_features ⟨[3, 2, 6], fun j => .fin (at' 0 j + at' 1 j + at' 2 j : Nat)⟩ := by
  obtain ⟨E, hE, h1, h2, h3, h4, h5⟩ := exSix_exists h (exCond 16) ⟨true, [4]⟩ (fun c f i r => c + f - i * r)
    (fun c f i r => c - f + i + r)
  refine ⟨E, hE, rfl, exParams_random _, ?_, Or.inr (Or.inl ⟨by norm_num [exSix, exConfig],
    show (2 : ℤ) ^ 2 < 6 by norm_num⟩), h5, ?_, ?_, ?_⟩
  · rw [h1, h2, h3, h4]
    exact ⟨rfl, ⟨by simp, by simp⟩, rfl, Or.inr rfl, exCond_rowWise (by norm_num) one_pos 16⟩
  · rw [h1]; exact ⟨by simp, by simp⟩
  · rw [h1]
    intro f hf
    simp only [Listed, List.mem_cons, List.not_mem_nil, or_false, exists_eq_or_imp, exists_eq_left]
    omega
  · rw [h1, h2]
    refine ⟨rfl, fun i hi c hc f hf => ⟨i + c + f, by omega, by simp [at']⟩⟩

end Einet.Props
