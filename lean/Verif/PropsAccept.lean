import Verif.Accept
import Verif.AcceptMulti
import Verif.PropsDiffBinomial

/-!
# C66: what the model samples it also accepts
-/

open Classical MeasureTheory
open scoped ENNReal
noncomputable section
namespace Einet
namespace Props
open Tensor Einet

/-! ### Specification -/

/-- the model gives every row of `s` a finite log-likelihood for every class. -/
def Scored (M : Model) (c : Config) (N : Nat) (s : Tensor Fl) : Prop :=
  ∃ y, M.forward s = .ok y ∧ y.shape = [N, c.num_classes.toNat] ∧
    ∀ n, n < N → ∀ k, k < c.num_classes.toNat → ∃ v : ℝ, y.get [n, k] = .fin v

/-- a tensor of `N` complete rows of data. -/
def Complete (s : LeafSpec) (c : Config) (N : Nat) (t : Tensor Fl) : Prop :=
  t.shape = [N, c.num_channels.toNat, c.num_features.toNat] ∧
    ∀ n, n < N → ∀ ch, ch < c.num_channels.toNat → ∀ f, f < c.num_features.toNat →
      ∃ x : ℝ, t.get [n, ch, f] = .fin x ∧ s.InSupport x

theorem Complete.batch {s : LeafSpec} {c : Config} {N : Nat} {t : Tensor Fl} (h : Complete s c N t) :
    Batch s N c.num_channels.toNat c.num_features.toNat t :=
  ⟨h.1, fun n hn ch hc f hf => Or.inr (h.2 n hn ch hc f hf)⟩

/-- complete rows that the model scores. -/
def Accepted (M : Model) (s : LeafSpec) (c : Config) (N : Nat) (t : Tensor Fl) : Prop := Complete s c N t ∧ Scored M c N t

/-! ### Theorems -/

theorem forward_rejects {M : Model} {g : Nat → Nat → Nat} (h : M.FrontWF g) {x : Tensor Fl} {N : Nat}
    (hx : x.shape = [N, M.num_channels, M.num_features]) {n c f : Nat} (hn : n < N) (hc : c < M.num_channels)
    (hf : f < M.num_features) (hnan : x.get [n, c, f] ≠ .nan) (hi : ¬ M.leaf.base.valid f (x.get [n, c, f]))
    (ms : Option Scopes) : M.forward x ms = .error .value := by
  have hF := h.features; have hC := h.channels
  have hprep : M.prepInput x = .ok x :=
    Model.prepInput_is (Is.is3 (Is.refl x hx) fun _ _ _ _ _ _ => rfl)
  have hb : M.leaf.base.forward x ms = .error .value := by
    unfold BaseLeaf.forward
    rw [require_true _ ⟨by simp [rank, hx], by simp [size, hx, at', hC], by simp [size, hx, at', hF]⟩, Res.ok_bind,
      require_false _ fun hall => ?_]
    · rfl
    · have := (AllIdx_iff _ _).1 hall [n, c, f] (by rw [hx]; exact ⟨hn, hc, hf, trivial⟩)
      rw [if_neg (by rwa [Fl.isnan_iff])] at this
      exact hi this
  have hl : M.leaf.forward x ms = .error .value := by
    cases e : M.leaf with
    | direct B => rw [e] at hb; exact hb
    | factorized L => rw [e] at hb; show FactLeaf.forward L x ms = _; unfold FactLeaf.forward; erw [hb]; rfl
    | simple L => rw [e] at hb; show FactSimple.forward L x ms = _; unfold FactSimple.forward; erw [hb]; rfl
  unfold Model.forward Model.run
  rw [hprep, Res.ok_bind, hl]
  rfl

/-- **C66**, the data a model accepts: a tensor of the right shape is given finite log-likelihoods if every entry is
missing or in the support of the leaf class, and is refused with a `ValueError` otherwise. -/
theorem C66_accepts_iff (c : Config) (P : Params) (hP : P.Random) (hg : P.leaf.Good) (M : Model)
    (h : build c P = .ok M) (N : Nat) (x : Tensor Fl) (hx : x.shape = [N, c.num_channels.toNat, c.num_features.toNat])
    (hinf : ∀ i, InB x.shape i → x.get i = .nan ∨ ∃ v : ℝ, x.get i = .fin v) :
    (Batch P.leaf N c.num_channels.toNat c.num_features.toNat x → Scored M c N x) ∧
    (¬ Batch P.leaf N c.num_channels.toNat c.num_features.toNat x → M.forward x = .error .value) := by
  refine ⟨fun hb => C06_forward_partial c P hP hg M h N x hb, fun hb => ?_⟩
  obtain ⟨hz, hw, -, -⟩ := build_WF hP h
  have : ∃ n, n < N ∧ ∃ ch, ch < c.num_channels.toNat ∧ ∃ f, f < c.num_features.toNat ∧
      ¬ (x.get [n, ch, f] = .nan ∨ ∃ v : ℝ, x.get [n, ch, f] = .fin v ∧ P.leaf.InSupport v) := by
    by_contra hc
    push Not at hc
    refine hb ⟨hx, fun n hn ch hch f hf => ?_⟩
    by_contra hne
    push Not at hne
    rcases hc n hn ch hch f hf with h1 | ⟨v, h1, h2⟩
    · exact hne.1 h1
    · exact hne.2 v h1 h2
  obtain ⟨n, hn, ch, hch, f, hf, hne⟩ := this
  push Not at hne
  refine forward_rejects hw.front (by rw [hz.channels, hz.features]; exact hx) hn (by rw [hz.channels]; exact hch)
    (by rw [hz.features]; exact hf) hne.1 (fun hv => ?_) none
  rcases hinf [n, ch, f] (by rw [hx]; exact ⟨hn, hch, hf, trivial⟩) with e | ⟨v, e⟩
  · exact hne.1 e
  · rw [e] at hv
    exact hne.2 v e ((LeafSpec.valid_iff (build_leaf hP h) v).1 hv)

theorem exBinomial_builds : ∃ M, build (exConfig "linsum" "top-down") (exParams (.binomial 7 fun _ _ i _ => i)) = .ok M := by
  refine exConfig_builds (Or.inl ⟨Or.inl rfl, rfl⟩) ?_
  unfold LeafSpec.build
  simp
  exact ⟨_, (checkInt_iff 7 1 one_ne_zero _ _).2 ⟨by norm_num, rfl⟩⟩

/-- a model with `Binomial` leaves of seven trials; a batch it accepts and one it refuses. -/
example : ∃ M, build (exConfig "linsum" "top-down") (exParams (.binomial 7 fun _ _ i _ => i)) = .ok M ∧
    Batch (exParams (.binomial 7 fun _ _ i _ => i)).leaf 3 2 5 ⟨[3, 2, 5], fun j => .fin (at' 2 j : ℕ)⟩ ∧
    ¬ Batch (exParams (.binomial 7 fun _ _ i _ => i)).leaf 3 2 5 ⟨[3, 2, 5], fun j => .fin ((at' 2 j : ℕ) * 2)⟩ := by
  obtain ⟨M, h⟩ := exBinomial_builds
  refine ⟨M, h, ⟨rfl, fun n _ c _ f hf => Or.inr ⟨(f : ℕ), rfl, f, by show (f : ℤ) ≤ 7; omega, rfl⟩⟩, fun hb => ?_⟩
  rcases hb.2 0 (by omega) 0 (by omega) 4 (by omega) with e | ⟨x, e, k, hk, rfl⟩
  · cases e
  · have := Fl.fin_injective e
    have hk' : ((4 : ℕ) : ℝ) * 2 = k := this
    have : (4 * 2 : ℕ) = k := by exact_mod_cast hk'
    change (k : ℤ) ≤ 7 at hk
    omega

/-- **C66** without evidence: with probability one the sampled tensor consists of complete rows in the support of the leaf
class, and the model gives them finite log-likelihoods for all classes.  For sampling and MPE, any `class_index` and any
temperatures; in particular nothing is raised. -/
theorem C66_samples_accepted (c : Config) (P : Params) (hP : P.Random) (hg : P.leaf.Good) (hs : P.leaf.CanSample)
    (M : Model) (h : build c P = .ok M) (a : SampleArgs) (hev : a.evidence = none) (hN : 0 < a.count)
    (hT : a.temperature_sums ≠ 0) (hL : 0 < a.temperature_leaves) (hc : ClassArg M a.count a.class_index) :
    (M.sample a).E (fun s => if Accepted M P.leaf c a.count s then 1 else 0) = 1 := by
  have hz := (build_WF hP h).1
  refine Full.prob (P := Accepted M P.leaf c a.count)
    ((Model.sample_full (build_samplable hP hg hs h) (LeafSpec.drawsValid hg (build_leaf hP h)) hev hN hT hL hc.ok).mono
      fun s ⟨S, hs3, hS⟩ => ?_)
  rw [hz.channels, hz.features] at hs3 hS
  have hcomp : Complete P.leaf c a.count s := ⟨hs3.1, fun n hn ch hch f hf =>
    ⟨_, hs3.get hn hch hf, (LeafSpec.valid_iff (build_leaf hP h) _).1 (hS n hn ch hch f hf)⟩⟩
  exact ⟨hcomp, C06_forward_partial c P hP hg M h _ s hcomp.batch⟩

/-- four rows of the classes 2, 0, 0, 1 from a model with `Binomial` leaves, by sampling or MPE. -/
example (b : Bool) : ∃ M, build (exConfig "linsum" "top-down") (exParams (.binomial 7 fun _ _ i _ => i)) = .ok M ∧
    ClassArg M 4 (some (.list [2, 0, 0, 1])) ∧
    (⟨some 4, some (.list [2, 0, 0, 1]), none, b, false, 1, 1 / 2, none⟩ : SampleArgs).count = 4 := by
  obtain ⟨M, h⟩ := exBinomial_builds
  have e3 : M.num_classes = 3 := by rw [(build_WF (exParams_random _) h).1.classes]; rfl
  exact ⟨M, h, ⟨by omega, rfl, by rw [e3]; simp⟩, rfl⟩

/-- **C66** with evidence: the completed rows are accepted, with probability one. -/
theorem C66_completions_accepted (c : Config) (P : Params) (hP : P.Random) (hg : P.leaf.Good) (hs : P.leaf.CanSample)
    (M : Model) (h : build c P = .ok M) (N : Nat) (hN : 0 < N) (x : Tensor Fl) (a : SampleArgs)
    (hx : Evidence M P.leaf N a.marginalized_scopes x) (hev : a.evidence = some x) (hns : a.num_samples = none)
    (hci : a.class_index = none) (hT : a.temperature_sums ≠ 0) (hL : 0 < a.temperature_leaves) :
    (M.sample a).E (fun s => if Accepted M P.leaf c N s then 1 else 0) = 1 := by
  obtain ⟨sc, hsc, hh⟩ := hx.scopes
  have hcount : a.count = N := by unfold SampleArgs.count; rw [hev]; simp [Tensor.size, hx.batch.1, at']
  obtain ⟨hz, -, hp, -⟩ := build_WF hP h
  have hx3 : x.Is3 a.count M.num_channels M.num_features fun n c f => x.get [n, c, f] := by
    rw [hcount]; exact hx.batch.is3
  have hX : ∀ n, n < a.count → EvidenceOK M.leaf.base sc fun c f => x.get [n, c, f] := by
    rw [hcount]; exact hx.ok hP h hh
  refine Full.prob (P := Accepted M P.leaf c N)
    ((Model.sample_evidence_full (build_samplable hP hg hs h) (LeafSpec.drawsValid hg (build_leaf hP h)) (hp hg) hev
      (by omega) hx3 hns hci hT hL hsc hX).mono fun s ⟨S, hs3, hS⟩ => ?_)
  rw [hz.channels, hz.features, hcount] at hs3 hS
  have hcomp : Complete P.leaf c N s := ⟨hs3.1, fun n hn ch hch f hf =>
    ⟨_, hs3.get hn hch hf, (LeafSpec.valid_iff (build_leaf hP h) _).1 (hS n hn ch hch f hf)⟩⟩
  exact ⟨hcomp, C06_forward_partial c P hP hg M h _ s hcomp.batch⟩

/-- evidence for a model with `Binomial` leaves: two rows, the second with two missing entries. -/
example : ∃ M, build (exConfig "linsum" "top-down") (exParams (.binomial 7 fun _ _ i _ => i)) = .ok M ∧
    Evidence M (exParams (.binomial 7 fun _ _ i _ => i)).leaf 2 none
      ⟨[2, 2, 5], fun j => if j = [1, 0, 2] ∨ j = [1, 1, 4] then .nan else .fin (at' 2 j : ℕ)⟩ := by
  obtain ⟨M, h⟩ := exBinomial_builds
  have hz := (build_WF (exParams_random _) h).1
  have e1 : M.num_channels = 2 := by rw [hz.channels]; rfl
  have e2 : M.num_features = 5 := by rw [hz.features]; rfl
  refine ⟨M, h, ⟨by rw [e1, e2], fun n _ c _ f hf => ?_⟩, by simp, fun n _ c _ f _ e => e⟩
  by_cases e : [n, c, f] = [1, 0, 2] ∨ [n, c, f] = [1, 1, 4]
  · exact Or.inl (if_pos e)
  · exact Or.inr ⟨(f : ℕ), if_neg e, f, by show (f : ℤ) ≤ 7; omega, rfl⟩

/-- complete rows for leaves of several classes. -/
structure MultiAccepted (E : MultiEinet) (sd : List (List Nat × LeafSpec)) (c : Config) (N : Nat) (t : Tensor Fl) : Prop where
  shape : t.shape = [N, c.num_channels.toNat, c.num_features.toNat]
  data : ∀ n, n < N → ∀ ch, ch < c.num_channels.toNat → ∀ s spec, (s, spec) ∈ sd → ∀ f ∈ s,
    ∃ v : ℝ, t.get [n, ch, f] = .fin v ∧ spec.InSupport v
  scored : ∃ y, E.forward t = .ok y ∧ y.shape = [N, c.num_classes.toNat] ∧
    ∀ n, n < N → ∀ k, k < c.num_classes.toNat → ∃ v : ℝ, y.get [n, k] = .fin v

theorem multiAccepted (c : Config) (P : Params) (hP : P.Random) (sd : List (List Nat × LeafSpec)) (E : MultiEinet)
    (h : buildMulti c P sd = .ok E) (hp : Partition sd E.net.num_features) (hg : ∀ s ∈ sd, s.2.Good ∧ s.2.CanSample) (N : Nat)
    {s : Tensor Fl} {S : Nat → Nat → Nat → ℝ}
    (hs3 : s.Is3 N E.net.num_channels E.net.num_features (fun n c f => .fin (S n c f)))
    (hS : ∀ n, n < N → ∀ c, c < E.net.num_channels → ∀ f, f < E.net.num_features →
      E.asModel.leaf.base.valid f (.fin (S n c f))) : MultiAccepted E sd c N s := by
  have hW := buildMulti_WF hP h hp
  have hz := (buildMulti_spec hP h).2.1
  have hd : ∀ n, n < N → ∀ ch, ch < E.net.num_channels → ∀ sc spec, (sc, spec) ∈ sd → ∀ f ∈ sc,
      ∃ v : ℝ, s.get [n, ch, f] = .fin v ∧ spec.InSupport v := by
    intro n hn ch hch sc spec hsd f hf
    have hlt : f < E.net.num_features := by
      obtain ⟨hm, e1, -, -⟩ := hW.owner hsd hf
      have := hW.ok.lt hm (by rw [e1]; exact hf)
      rw [hW.sizes.1] at this
      exact this
    refine ⟨_, hs3.get hn hch hlt, (hW.valid_iff E.net.leaf.base hsd hf _).1 ?_⟩
    have := hS n hn ch hch f hlt
    rwa [MultiEinet.asModel_base] at this
  obtain ⟨y, hy, h1, h2⟩ := C56_marginal c P hP sd E h hp (fun s hs => (hg s hs).1) N s
    ⟨hs3.1, fun n hn ch hch sc spec hsd f hf => Or.inr (hd n hn ch hch sc spec hsd f hf)⟩ none (by simp)
  rw [hz.channels] at hd
  rw [hz.classes] at h1 h2
  refine ⟨by rw [← hz.channels, ← hz.features]; exact hs3.1, hd, y, hy, h1, fun n hn k hk => ?_⟩
  obtain ⟨v, hv, -⟩ := h2 n hn k hk
  exact ⟨v, hv⟩

/-- **C66** for an Einet with a `MultiDistributionLayer`, without evidence. -/
theorem C66_multi_samples_accepted (c : Config) (P : Params) (hP : P.Random) (sd : List (List Nat × LeafSpec)) (E : MultiEinet)
    (h : buildMulti c P sd = .ok E) (hp : Partition sd E.net.num_features) (hg : ∀ s ∈ sd, s.2.Good ∧ s.2.CanSample)
    (a : SampleArgs) (hev : a.evidence = none) (hN : 0 < a.count) (hT : a.temperature_sums ≠ 0)
    (hL : 0 < a.temperature_leaves) (hc : ClassArg E.net a.count a.class_index) :
    (E.sample a).E (fun s => if MultiAccepted E sd c a.count s then 1 else 0) = 1 :=
  Full.prob (P := MultiAccepted E sd c a.count) ((MultiEinet.sample_full (buildMulti_WF hP h hp) hg hev hN hT hL
    (ClassArg.ok (M := E.asModel) hc)).mono fun _ ⟨_, hs3, hS⟩ => multiAccepted c P hP sd E h hp hg _ hs3 hS)

/-- **C66** for an Einet with a `MultiDistributionLayer`, with evidence. -/
theorem C66_multi_completions_accepted (c : Config) (P : Params) (hP : P.Random) (sd : List (List Nat × LeafSpec))
    (E : MultiEinet) (h : buildMulti c P sd = .ok E) (hp : Partition sd E.net.num_features)
    (hg : ∀ s ∈ sd, s.2.Good ∧ s.2.CanSample) (N : Nat) (hN : 0 < N) (x : Tensor Fl) (a : SampleArgs)
    (hx : MultiEvidence E sd N a.marginalized_scopes x) (hev : a.evidence = some x) (hns : a.num_samples = none)
    (hci : a.class_index = none) (hT : a.temperature_sums ≠ 0) (hL : 0 < a.temperature_leaves) :
    (E.sample a).E (fun s => if MultiAccepted E sd c N s then 1 else 0) = 1 := by
  have hW := buildMulti_WF hP h hp
  obtain ⟨sc, hsc, -, hh⟩ := multi_scopes hx.usable
  have hcount : a.count = N := by unfold SampleArgs.count; rw [hev]; simp [Tensor.size, hx.batch.shape, at']
  have := MultiEinet.sample_evidence_full hW hg (a := a) hev (by omega) (by rw [hcount]; exact hx.batch.is3) hns hci hT hL hsc
    (by rw [hcount]; exact multi_evidence hW hx (hh x))
  rw [hcount] at this
  exact Full.prob (P := MultiAccepted E sd c N) (this.mono fun _ ⟨_, hs3, hS⟩ => multiAccepted c P hP sd E h hp hg _ hs3 hS)

/-- an einet with normal and categorical features in mixed order: six rows of class 1, or three rows with missing entries. -/
example : (∃ E, buildMulti (exConfig "linsum" "bottom-up") (exParams exLeaf) exMulti = .ok E ∧
      Partition exMulti E.net.num_features ∧ (∀ s ∈ exMulti, s.2.Good ∧ s.2.CanSample) ∧
      ClassArg E.net 6 (some (.int 1))) ∧
    ∃ E, buildMulti (exOne "einsum" "top-down") (exParams exLeaf) exMulti = .ok E ∧
      Partition exMulti E.net.num_features ∧ MultiEvidence E exMulti 3 none exMultiBatch := by
  constructor
  · obtain ⟨M, h⟩ := exConfig_normal (l := "linsum") (s := "bottom-up") (Or.inr ⟨rfl, rfl⟩)
    obtain ⟨E, hE⟩ := exMulti_builds h ⟨rfl, rfl, rfl, by norm_num [exConfig, exOne]⟩ rfl
    have hz := (buildMulti_spec (exParams_random _) hE).2.1
    have e1 : E.net.num_features = 5 := hz.features
    have e3 : E.net.num_classes = 3 := hz.classes
    exact ⟨E, hE, by rw [e1]; exact exMulti_partition, exMulti_good, by unfold ClassArg; rw [e3]; simp⟩
  · obtain ⟨M, h, -, -, -⟩ := exOne_builds (l := "einsum") (s := "top-down") (Or.inl ⟨Or.inr (Or.inr rfl), rfl⟩)
    obtain ⟨E, hE⟩ := exMulti_builds h ⟨rfl, rfl, rfl, by norm_num [exConfig, exOne]⟩ rfl
    have hz := (buildMulti_spec (exParams_random _) hE).2.1
    have e1 : E.net.num_features = 5 := hz.features
    have e2 : E.net.num_channels = 2 := hz.channels
    exact ⟨E, hE, by rw [e1]; exact exMulti_partition, by rw [e1, e2]; exact exMultiBatch_ok, by simp, fun n _ c _ f _ e => e⟩

/-- differentiable sampling with `Binomial` leaves: with positive probability the model refuses its own sample (with a
`ValueError`), for every model with such leaves and every law of the noise. -/
theorem C66_refuted_differentiable (c : Config) (P : Params) (hP : P.Random) (n : ℤ) (p : Par) (hl : P.leaf = .binomial n p)
    (M : Model) (h : build c P = .ok M) (a : SampleArgs) (hev : a.evidence = none) (hN : 0 < a.count)
    (hm : a.is_mpe = false) (hm' : a.mpe_at_leaves = false) (hci : a.class_index = none) (hT : a.temperature_sums ≠ 0)
    (hL : 0 < a.temperature_leaves) (μ : Measure ℝ) (hμ : μ Set.univ = 1) :
    0 < (M.sampleR μ a).E (fun s => if M.forward s = .error .value then 1 else 0) := by
  obtain ⟨hz, hw, -, -⟩ := build_WF hP h
  refine binomial_diff_pos c P hP n p hl M h a hev hN hm hm' hci hT hL μ hμ _ fun t S ht => ?_
  unfold fractional
  split_ifs with h1 h2 h2
  · exact le_rfl
  · exfalso
    obtain ⟨hb, hint⟩ := h1
    rw [ht.1] at hb
    refine h2 (forward_rejects hw.front ht.1 hb.1 hb.2.1 hb.2.2.1 ?_ ?_ none)
    · rw [ht.get hb.1 hb.2.1 hb.2.2.1]; exact Fl.noConfusion
    · rw [ht.get hb.1 hb.2.1 hb.2.2.1] at hint ⊢
      rw [LeafSpec.valid_iff (build_leaf hP h), hl]
      rintro ⟨k, -, e⟩
      exact hint ⟨k, by rw [e]; simp⟩
  · exact zero_le
  · exact le_rfl

end Props
end Einet
