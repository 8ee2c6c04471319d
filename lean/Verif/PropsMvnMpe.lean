import Verif.MvnEvidence

/-!
# C75: most probable explanations of einets with multivariate normal leaves
-/

open Classical MeasureTheory ProbabilityTheory Matrix
open scoped ENNReal
noncomputable section
namespace Einet
namespace Props
open Tensor Einet

/-! ### Specification -/

/-- density of the blocks of features in region `o` under component `i` of repetition `r`, where `G r b` is the region of
block `b`; blocks with `T b` count 1. -/
def blockVal (E : MvnEinet) (G : Nat → Nat → Nat) (T : Nat → Prop) (X : Data) : PRow := fun o i r =>
  ∏ b ∈ Finset.range (E.leaf.num_features / E.leaf.cardinality), if G r b = o then
    ∏ c ∈ Finset.range E.leaf.num_channels, if T b then 1 else E.blockP X c b i r else 1

/-- `G` are the regions of the blocks in the forward pass. -/
def BlockForward (E : MvnEinet) (G : Nat → Nat → Nat) : Prop :=
  (∀ r, r < E.net.num_repetitions → ∀ b, b < E.leaf.num_features / E.leaf.cardinality → G r b < E.net.numOut) ∧
  ∀ X, E.Complete X → ∀ k, k < E.net.num_classes → E.density none k X = E.net.topP 1 (blockVal E G (fun _ => False) X) k

/-! ### Lemmas -/

theorem out_div {E : MvnEinet} (hK : 0 < E.leaf.cardinality) (hp : E.leaf.pad_value = 0) :
    E.leaf.out_features = E.leaf.num_features / E.leaf.cardinality := by
  rw [← MvnLeaf.out_mul hK hp, Nat.mul_div_cancel _ hK]

theorem regionP_block {E : MvnEinet} {g : Nat → Nat → Nat} (h : E.WF g) (hp : E.leaf.pad_value = 0) (T : Nat → Prop) {l : List Nat}
    (hl : ∀ b, b < E.leaf.out_features → (b ∈ l ↔ T b)) (X : Data) (o i r : Nat) :
    E.net.regionP g (fun c b i r => if b ∈ l then 1 else E.blockP X c b i r) o i r = blockVal E (E.net.grpF g) T X o i r := by
  unfold Model.regionP blockVal
  rw [h.features, h.channels, out_div h.card hp]
  refine Finset.prod_congr rfl fun b hb => ?_
  congr 1
  refine Finset.prod_congr rfl fun c _ => ?_
  exact if_congr (hl b (by rw [out_div h.card hp]; simpa using hb)) rfl rfl

theorem blockForward {E : MvnEinet} {g : Nat → Nat → Nat} (h : E.WF g) (hp : E.leaf.pad_value = 0) :
    BlockForward E (E.net.grpF g) := by
  refine ⟨fun r hr b hb => h.net.front.grpF_lt hr (by rw [h.features, out_div h.card hp]; exact hb), fun X hX k hk => ?_⟩
  rw [MvnEinet.density_eq h hp hX (ms := none) (l := []) rfl hk, Model.outP_eq]
  exact Model.topP_congr h.net hk fun o _ i _ r _ => regionP_block h hp _ (by simp) X o i r

theorem width_one {c : Config} {P : Params} (hP : P.Random) {θ : MvnParams} {E : MvnEinet}
    (h : buildMvn c P θ = .ok E) (htd : c.structure' = "top-down") {K : ℤ} (hK : c.cardinality = some K)
    (hdiv : K ∣ c.num_features) (hR : c.num_repetitions = 1) :
    (∀ B, E.net.leaf ≠ .direct B) ∧ E.width = E.leaf.num_features / K.toNat := by
  obtain ⟨hw, hp⟩ := buildMvn_ok hP h htd hK hdiv
  obtain ⟨K', hK', h1, hl, _, _, B, hB⟩ := buildMvn_spec hP h htd
  rw [hK] at hK'
  cases hK'
  have hbase : E.net.leaf.base = B := by
    rw [hB]; unfold buildInput; split_ifs <;> rfl
  have hBr : B.num_repetitions = 1 := by
    have := hw.net.front.reps
    rw [hbase, hw.reps, hl] at this
    have h3 : B.num_repetitions = c.num_repetitions.toNat := this
    omega
  have hleaf : E.net.leaf = .simple (FactSimple.build { P with leaf := .normal (fun _ _ _ _ => 0) (fun _ _ _ _ => 0) } B
      (2 ^ c.depth.toNat)) := by
    rw [hB]; unfold buildInput; rw [if_pos hBr]
  refine ⟨by rw [hleaf]; simp, ?_⟩
  have hcard : E.leaf.cardinality = K.toNat := by rw [hl]
  unfold MvnEinet.width
  rw [hleaf]
  dsimp only
  rw [← MvnLeaf.out_mul hw.card hp, hcard, Nat.mul_div_cancel _ (by omega)]

theorem values_det {E : MvnEinet} {g : Nat → Nat → Nat} (h : E.WF g) (hnd : ∀ B, E.net.leaf ≠ .direct B) {a : SampleArgs}
    (ha : a.is_mpe = true) (cs : Caches) : ((E.net.corePath a cs).bind fun ctx => E.sampleLeaf ctx).Det := by
  have hnp : E.net.permutation = none := h.net.front.noperm hnd
  have hun : ∀ ctx, E.net.unpermute ctx = .ok ctx := by intro ctx; unfold Model.unpermute; rw [hnp]
  have e : E.net.samplePath a cs = E.net.corePath a cs := by
    rw [Model.samplePath_eq]
    simp only [hun, Rand.lift_ok]
    exact Rand.bind_pure _
  rw [← e]
  have : ((E.net.samplePath a cs).bind fun ctx => E.sampleLeaf ctx).DetP fun _ => True := by
    refine (Model.detP_samplePath E.net cs ha).bind fun c hc => ?_
    unfold MvnEinet.sampleLeaf
    rw [MvnLeaf.sampleAll_eq]
    unfold MvnLeaf.raw
    rw [if_pos (Or.inl hc), Rand.pure_bind]
    exact Rand.DetP.lift.bind fun _ _ => Rand.DetP.lift
  exact this.det

theorem mpe_values {c : Config} {P : Params} (hP : P.Random) {θ : MvnParams} {E : MvnEinet}
    (h : buildMvn c P θ = .ok E) (htd : c.structure' = "top-down") {K : ℤ} (hK : c.cardinality = some K)
    (hdiv : K ∣ c.num_features) (hR : 1 < c.num_repetitions) {a : SampleArgs} (ha : a.is_mpe = true)
    (hev : a.evidence = none) (hN : 0 < a.count) (hT : a.temperature_sums ≠ 0) (hc : ClassArg E.net a.count a.class_index) :
    ∃ s : Tensor Fl, E.sample a = .pure s ∧ s.shape = [a.count, E.leaf.num_channels, E.leaf.num_features] ∧
      ∀ n, n < a.count → ∃ k r idx, E.net.GreedyChoice a n (fun _ _ _ => 1) k r idx ∧
        (∀ o, o < E.net.numOut → idx o < E.leaf.num_leaves) ∧
        ∀ d, d < E.leaf.num_channels → ∀ f, f < E.leaf.num_features → s.get [n, d, f] =
          .fin (θ.means d (f / K.toNat) (idx (E.net.grpS (buildGroups (c.blocks K)
            { P with leaf := .normal (fun _ _ _ _ => 0) (fun _ _ _ _ => 0) }) r (f % (E.leaf.num_features / K.toNat))))
            r (f % K.toNat)) := by
  obtain ⟨⟨hw, hp, ⟨L, hL⟩, hF0⟩, ho, hmir⟩ := buildMvn_samplable hP h htd hK hdiv hR
  obtain ⟨K', hK', h1, hl, _⟩ := buildMvn_spec hP h htd
  rw [hK] at hK'
  cases hK'
  have hcard : E.leaf.cardinality = K.toNat := by rw [hl]
  have hθ : E.leaf.params = θ := by rw [hl]
  have hnd : ∀ B, E.net.leaf ≠ .direct B := by intro B; rw [hL]; simp
  have hwd : E.width = E.leaf.num_features := by unfold MvnEinet.width; rw [hL]
  have hdet := E.sample_det ha
  have h2 : E.evidenceCaches a = .ok ⟨[], none⟩ := by unfold MvnEinet.evidenceCaches; rw [hev]
  rw [MvnEinet.sample_eq' E (Model.check_ok hc.ok (by simp [hev])) h2 hw hnd] at hdet ⊢
  set g := buildGroups (c.blocks K) { P with leaf := .normal (fun _ _ _ _ => 0) (fun _ _ _ _ => 0) }
  have hall := (MvnEinet.values_greedy hw hp hnd hF0 ha hN hT hc.ok (Model.evM_none E.net a.count) (Model.finZero E.net _)).bind
    (g := fun s => Rand.lift (Model.finish a s)) (Q := fun s =>
      s.shape = [a.count, E.leaf.num_channels, E.leaf.num_features] ∧
      ∀ n, n < a.count → ∃ k r idx, E.net.GreedyChoice a n (fun _ _ _ => 1) k r idx ∧
        (∀ o, o < E.net.numOut → idx o < E.leaf.num_leaves) ∧
        ∀ d, d < E.leaf.num_channels → ∀ f, f < E.leaf.num_features → s.get [n, d, f] =
          .fin (θ.means d (f / K.toNat) (idx (E.net.grpS g r (f % (E.leaf.num_features / K.toNat)))) r (f % K.toNat)))
    (fun t ⟨cls, idx, rr, ht, hn⟩ => by
      unfold Model.finish
      rw [hev]
      rw [hwd] at ht
      refine ⟨ht.1, fun n hn' => ⟨cls n, rr n, idx n, ?_, ?_, fun d hd f hf => ?_⟩⟩
      · have := (hn n hn').2
        refine GreedyChoice.congr hw.net (classChoice_lt hc.ok hn' this.cls) (fun _ _ _ _ _ _ => ?_) this
        simp [pRow]
      · rw [← hw.leaves]; exact (hn n hn').1
      · show Fl.fin (t.get [n, d, f]) = _
        rw [ht.get hn' hd hf, ← hcard, ← out_div hw.card hp, ← hθ]
        rfl)
  exact hdet.pure hall

/-! ### C75 -/

/-- **C75**, first half: `sample(is_mpe=True, ...)` of an einet with multivariate normal leaves has one result, a tensor or an
exception, whatever generator is used and whatever its state; and it leaves the generator state as it is.  For every model
and all arguments. -/
theorem C75_deterministic (E : MvnEinet) (a : SampleArgs) (ha : a.is_mpe = true) :
    ∃ r : Res (Tensor Fl), ∀ (G : Gen) (s : G.σ), (E.sample a).run G s = (r, s) :=
  (E.sample_det ha).run

/-- **C75** (part), without evidence: the class, the repetition and every channel on the path has the largest weight.
Feature `f` of the result is an entry of the mean of its own block `f / K`, but of the component chosen for block `f % (F / K)`.
Missing: the component should be that of block `f / K` (`C75_refuted_repeat`); one repetition (`C75_refuted_one_repetition`). -/
theorem C75_greedy_partial (c : Config) (P : Params) (hP : P.Random) (θ : MvnParams) (E : MvnEinet)
    (h : buildMvn c P θ = .ok E) (htd : c.structure' = "top-down") (K : ℤ) (hK : c.cardinality = some K)
    (hdiv : K ∣ c.num_features) (hR : 1 < c.num_repetitions) (a : SampleArgs) (ha : a.is_mpe = true)
    (hev : a.evidence = none) (hN : 0 < a.count) (hT : a.temperature_sums ≠ 0) (hc : ClassArg E.net a.count a.class_index) :
    ∃ (G H : Nat → Nat → Nat) (s : Tensor Fl), BlockForward E G ∧
      (∀ r, r < E.net.num_repetitions → ∀ b, b < E.leaf.num_features / K.toNat → H r b < E.net.numOut ∧
        ((2 : ℤ) ^ c.depth.toNat * K < c.num_features → H r b = G r b)) ∧
      E.sample a = .pure s ∧ s.shape = [a.count, E.leaf.num_channels, E.leaf.num_features] ∧
      ∀ n, n < a.count → ∃ k r idx, E.net.GreedyChoice a n (fun _ _ _ => 1) k r idx ∧
        (∀ o, o < E.net.numOut → idx o < E.leaf.num_leaves) ∧
        ∀ d, d < E.leaf.num_channels → ∀ f, f < E.leaf.num_features → s.get [n, d, f] =
          .fin (θ.means d (f / K.toNat) (idx (H r (f % (E.leaf.num_features / K.toNat)))) r (f % K.toNat)) := by
  obtain ⟨⟨hw, hp, _, _⟩, ho, hmir⟩ := buildMvn_samplable hP h htd hK hdiv hR
  obtain ⟨K', hK', h1, hl, _⟩ := buildMvn_spec hP h htd
  rw [hK] at hK'
  cases hK'
  have hcard : E.leaf.cardinality = K.toNat := by rw [hl]
  obtain ⟨s, e1, e2, e3⟩ := mpe_values hP h htd hK hdiv hR ha hev hN hT hc
  refine ⟨_, _, s, blockForward hw hp, fun r hr b hb => ?_, e1, e2, e3⟩
  have hb' : b < E.net.num_features := by rw [hw.features, out_div hw.card hp, hcard]; exact hb
  exact ⟨hw.net.front.grpS_lt hr hb', fun hlt => hmir hlt r hr b hb'⟩

/-- **C75** (part), with evidence and `marginalized_scopes` given as a tensor of indices: the repetition and every channel on
the path maximise weight times density of the blocks without a listed feature; entries not listed are kept, and a listed
feature becomes an entry of the mean of its own block, of the component chosen for block `f % (F / K)`.  Missing: the known
features of a block with a listed feature play no role (`C75_refuted_correlation`); otherwise as in `C75_greedy_partial`. -/
theorem C75_evidence_partial (c : Config) (P : Params) (hP : P.Random) (θ : MvnParams) (E : MvnEinet)
    (h : buildMvn c P θ = .ok E) (htd : c.structure' = "top-down") (K : ℤ) (hK : c.cardinality = some K)
    (hdiv : K ∣ c.num_features) (hR : 1 < c.num_repetitions) (a : SampleArgs) (ha : a.is_mpe = true)
    (N : Nat) (hN : 0 < N) (x : Tensor Fl) (hx : FiniteBatch N E.leaf.num_channels E.leaf.num_features x)
    (hev : a.evidence = some x) (hns : a.num_samples = none) (hci : a.class_index = none) (hT : a.temperature_sums ≠ 0)
    (s : Scopes) (hms : a.marginalized_scopes = some s) (hs : s.isList = false) (hu : Usable E.leaf.num_features s) :
    ∃ (G H : Nat → Nat → Nat) (t : Tensor Fl), BlockForward E G ∧
      (∀ r, r < E.net.num_repetitions → ∀ b, b < E.leaf.num_features / K.toNat → H r b < E.net.numOut ∧
        ((2 : ℤ) ^ c.depth.toNat * K < c.num_features → H r b = G r b)) ∧
      E.sample a = .pure t ∧ t.shape = x.shape ∧
      ∀ n, n < N → ∃ k r idx,
        E.net.GreedyChoice a n (blockVal E G (fun b => ∃ f, f < E.leaf.num_features ∧ Listed E.leaf.num_features s f ∧ f / K.toNat = b)
          fun d f => x.get [n, d, f]) k r idx ∧
        (∀ o, o < E.net.numOut → idx o < E.leaf.num_leaves) ∧
        ∀ d, d < E.leaf.num_channels → ∀ f, f < E.leaf.num_features → t.get [n, d, f] =
          if Listed E.leaf.num_features s f then
            .fin (θ.means d (f / K.toNat) (idx (H r (f % (E.leaf.num_features / K.toNat)))) r (f % K.toNat))
          else x.get [n, d, f] := by
  obtain ⟨⟨hw, hp, ⟨L, hL⟩, hF0⟩, ho, hmir⟩ := buildMvn_samplable hP h htd hK hdiv hR
  obtain ⟨K', hK', h1, hl, _⟩ := buildMvn_spec hP h htd
  rw [hK] at hK'
  cases hK'
  have hcard : E.leaf.cardinality = K.toNat := by rw [hl]
  have hθ : E.leaf.params = θ := by rw [hl]
  have hnd : ∀ B, E.net.leaf ≠ .direct B := by intro B; rw [hL]; simp
  have hwd : E.width = E.leaf.num_features := by unfold MvnEinet.width; rw [hL]
  have hcount : a.count = N := by unfold SampleArgs.count; rw [hev]; simp [Tensor.size, hx.1, at']
  subst hcount
  have hcok : E.net.ClassOK a.count a.class_index := by rw [hci]; trivial
  obtain ⟨l, hl1, hl2⟩ := MvnEinet.marg_tensor hw.card hp hs hu
  obtain ⟨lf, hf1, hf2⟩ := usable_resolve hu
  obtain ⟨cs, e, hcs, hevm, hfin, hrow⟩ := MvnEinet.evidence_caches hw hp hev hx.is3 (fun n hn => hx.2 n hn)
    (by rw [hms]; exact hl1)
  have hdet := E.sample_det ha
  rw [MvnEinet.sample_eq' E (Model.check_ok hcok fun _ => ⟨hci, hns⟩) hcs hw hnd] at hdet ⊢
  set g := buildGroups (c.blocks K) { P with leaf := .normal (fun _ _ _ _ => 0) (fun _ _ _ _ => 0) }
  have hall := (MvnEinet.values_greedy hw hp hnd hF0 ha hN hT hcok hevm hfin).bind
    (g := fun s => Rand.lift (Model.finish a s)) (Q := fun t => t.shape = x.shape ∧
      ∀ n, n < a.count → ∃ k r idx,
        E.net.GreedyChoice a n (blockVal E (E.net.grpF g) (fun b => ∃ f, f < E.leaf.num_features ∧
          Listed E.leaf.num_features s f ∧ f / K.toNat = b) fun d f => x.get [n, d, f]) k r idx ∧
        (∀ o, o < E.net.numOut → idx o < E.leaf.num_leaves) ∧
        ∀ d, d < E.leaf.num_channels → ∀ f, f < E.leaf.num_features → t.get [n, d, f] =
          if Listed E.leaf.num_features s f then
            .fin (θ.means d (f / K.toNat) (idx (E.net.grpS g r (f % (E.leaf.num_features / K.toNat)))) r (f % K.toNat))
          else x.get [n, d, f])
    (fun t ⟨cls, idx, rr, ht, hn⟩ => by
      rw [hwd] at ht
      obtain ⟨t', ht', ht3⟩ := Model.fill_is hx.is3 ht hf1
      unfold Model.finish
      rw [hev]
      dsimp only
      rw [hms, ht']
      refine ⟨by rw [ht3.1, hx.1], fun n hn' => ⟨cls n, rr n, idx n, ?_, ?_, fun d hd f hf => ?_⟩⟩
      · have := (hn n hn').2
        refine GreedyChoice.congr hw.net (classChoice_lt hcok hn' this.cls) (fun o ho i hi r hr => ?_) this
        rw [hrow n hn' o ho i hi r hr]
        exact regionP_block hw hp _ (fun b hb => by rw [hl2 b hb, hcard]) _ o i r
      · rw [← hw.leaves]; exact (hn n hn').1
      · rw [ht3.get hn' hd hf, ← hcard, ← out_div hw.card hp, ← hθ]
        exact if_congr (hf2 f hf) rfl rfl)
  obtain ⟨t, e1, e2, e3⟩ := hdet.pure hall
  refine ⟨_, _, t, blockForward hw hp, fun r hr b hb => ?_, e1, e2, e3⟩
  have hb' : b < E.net.num_features := by rw [hw.features, out_div hw.card hp, hcard]; exact hb
  exact ⟨hw.net.front.grpS_lt hr hb', fun hlt => hmir hlt r hr b hb'⟩

/-- **C75** (part): with one component per leaf, or blocks of single features, or all blocks in one region, the result consists
of the means of the chosen components.  Missing: the other configurations (`C75_refuted_repeat`,
`C75_refuted_one_repetition`). -/
theorem C75_means_partial (c : Config) (P : Params) (hP : P.Random) (θ : MvnParams) (E : MvnEinet)
    (h : buildMvn c P θ = .ok E) (htd : c.structure' = "top-down") (K : ℤ) (hK : c.cardinality = some K)
    (hdiv : K ∣ c.num_features) (hR : 1 < c.num_repetitions) (hal : c.num_leaves = 1 ∨ K = 1 ∨ c.depth = 0)
    (a : SampleArgs) (ha : a.is_mpe = true)
    (hev : a.evidence = none) (hN : 0 < a.count) (hT : a.temperature_sums ≠ 0) (hc : ClassArg E.net a.count a.class_index) :
    ∃ (G H : Nat → Nat → Nat) (s : Tensor Fl), BlockForward E G ∧
      (∀ r, r < E.net.num_repetitions → ∀ b, b < E.leaf.num_features / K.toNat → H r b < E.net.numOut ∧
        ((2 : ℤ) ^ c.depth.toNat * K < c.num_features → H r b = G r b)) ∧
      E.sample a = .pure s ∧ s.shape = [a.count, E.leaf.num_channels, E.leaf.num_features] ∧
      ∀ n, n < a.count → ∃ k r idx, E.net.GreedyChoice a n (fun _ _ _ => 1) k r idx ∧
        (∀ o, o < E.net.numOut → idx o < E.leaf.num_leaves) ∧
        ∀ d, d < E.leaf.num_channels → ∀ f, f < E.leaf.num_features → s.get [n, d, f] =
          .fin (θ.means d (f / K.toNat) (idx (H r (f / K.toNat))) r (f % K.toNat)) := by
  obtain ⟨G, H, s, h1, h2, h3, h4, h5⟩ := C75_greedy_partial c P hP θ E h htd K hK hdiv hR a ha hev hN hT hc
  obtain ⟨hs, ho, _⟩ := buildMvn_samplable hP h htd hK hdiv hR
  obtain ⟨K', hK', h1', hl, _⟩ := buildMvn_spec hP h htd
  rw [hK] at hK'
  cases hK'
  have hcard : E.leaf.cardinality = K.toNat := by rw [hl]
  have hm := MvnLeaf.out_mul hs.wf.card hs.pad
  have hod := out_div hs.wf.card hs.pad
  rw [hcard] at hm hod
  refine ⟨G, H, s, h1, h2, h3, h4, fun n hn => ?_⟩
  obtain ⟨k, r, idx, hg, hi, hv⟩ := h5 n hn
  refine ⟨k, r, idx, hg, hi, fun d hd f hf => ?_⟩
  rw [hv d hd f hf]
  have hr := hg.rep.1
  have hb0 : 0 < E.leaf.num_features / K.toNat := by
    rw [← hod]
    rcases Nat.eq_zero_or_pos E.leaf.out_features with e | e
    · rw [e] at hm; omega
    · exact e
  have hb : f / K.toNat < E.leaf.num_features / K.toNat := by
    rw [← hod, Nat.div_lt_iff_lt_mul (by omega), hm]; exact hf
  have a1 := (h2 r hr _ (Nat.mod_lt f hb0)).1
  have a2 := (h2 r hr _ hb).1
  have i1 := hi _ a1
  have i2 := hi _ a2
  have : idx (H r (f % (E.leaf.num_features / K.toNat))) = idx (H r (f / K.toNat)) := by
    rcases hal with e | e | e
    · have : E.leaf.num_leaves = 1 := by rw [hl, e]; rfl
      omega
    · have : K.toNat = 1 := by omega
      rw [this, Nat.div_one, Nat.div_one, Nat.mod_eq_of_lt hf]
    · rw [e] at ho
      have : E.net.numOut = 1 := ho
      congr 1
      omega
  rw [this]

/-- three blocks of two features in two regions, two repetitions, evidence of three rows, scopes `[0, -1]`. -/
example : ∃ E, buildMvn (mvnConfig 6 2 2 3 1 "einsum" "top-down") (exParams exLeaf) mvnParams = .ok E ∧ (2 : ℤ) ∣ 6 ∧
    (2 : ℤ) ^ (mvnConfig 6 2 2 3 1 "einsum" "top-down").depth.toNat * 2 < 6 ∧ ClassArg E.net 2 (some (.list [2, 0])) ∧
    FiniteBatch 3 E.leaf.num_channels E.leaf.num_features ⟨[3, 2, 6], fun j => .fin j.sum⟩ ∧
    Usable E.leaf.num_features ⟨false, [0, -1]⟩ := by
  obtain ⟨E, h⟩ := mvnConfig_topDown (F := 6) (C := 2) (R := 2) (k := 3) (d := 1) (by norm_num) (by norm_num) (by norm_num)
    (by norm_num) (by norm_num) (layer := "einsum") (by simp) (by norm_num [Int.fdiv]) (exParams exLeaf) mvnParams
  obtain ⟨_, _, _, hl, h2, _⟩ := buildMvn_spec (exParams_random _) h rfl
  have h2' : E.net.num_classes = 3 := h2
  have hC : E.leaf.num_channels = 2 := by rw [hl]; rfl
  have hF : E.leaf.num_features = 6 := by rw [hl]; rfl
  refine ⟨E, h, by norm_num, by norm_num [mvnConfig], ⟨by omega, rfl, by rw [h2']; simp⟩, ?_, ?_⟩
  · rw [hC, hF]; exact ⟨rfl, fun _ _ _ _ _ _ => Fl.isFin_fin _⟩
  · rw [hF]; exact ⟨by simp, by simp⟩

/-- **C75 is false** of models with one repetition and cardinality 2 or more: without evidence the result has one value per
block and channel instead of one per feature, and with evidence the call raises. -/
theorem C75_refuted_one_repetition (c : Config) (P : Params) (hP : P.Random) (θ : MvnParams) (E : MvnEinet)
    (h : buildMvn c P θ = .ok E) (htd : c.structure' = "top-down") (K : ℤ) (hK : c.cardinality = some K) (hK2 : 2 ≤ K)
    (hdiv : K ∣ c.num_features) (hR : c.num_repetitions = 1) (a : SampleArgs) (ha : a.is_mpe = true)
    (hT : a.temperature_sums ≠ 0) :
    (a.evidence = none → 0 < a.count → ClassArg E.net a.count a.class_index → ∃ s, E.sample a = .pure s ∧
      s.shape = [a.count, E.leaf.num_channels, E.leaf.num_features / K.toNat] ∧
      s.shape ≠ [a.count, E.leaf.num_channels, E.leaf.num_features]) ∧
    (∀ N x s, 0 < N → FiniteBatch N E.leaf.num_channels E.leaf.num_features x → a.evidence = some x → a.num_samples = none →
      a.class_index = none → a.marginalized_scopes = some s → s.isList = false → Usable E.leaf.num_features s →
      ∃ e, E.sample a = .fail e) := by
  obtain ⟨hw, hp⟩ := buildMvn_ok hP h htd hK hdiv
  obtain ⟨hnd, hwd⟩ := width_one hP h htd hK hdiv hR
  obtain ⟨_, hK', h1, h2, hl, _⟩ := buildMvn_leaf h
  rw [hK] at hK'
  cases hK'
  have hF : E.leaf.num_features = c.num_features.toNat := by rw [hl]
  have hC : E.leaf.num_channels = c.num_channels.toNat := by rw [hl]
  have hC0 : 0 < E.leaf.num_channels := by
    unfold buildMvn at h
    obtain ⟨_, hv, h⟩ := bind_ok h
    have := ((assertValid_iff c).1 hv).2.1
    omega
  have hlt : E.leaf.num_features / K.toNat < E.leaf.num_features := Nat.div_lt_self (by omega) (by omega)
  have hF0 : 0 < E.leaf.num_features := by omega
  refine ⟨fun hev hN hc => ?_, fun N x s hN hx hev hns hci hms hs hu => ?_⟩
  · have h2 : E.evidenceCaches a = .ok ⟨[], none⟩ := by unfold MvnEinet.evidenceCaches; rw [hev]
    have hall := MvnEinet.values_greedy hw hp hnd hF0 ha hN hT hc.ok (Model.evM_none E.net a.count) (Model.finZero E.net _)
    obtain ⟨t, e1, cls, idx, rr, e2, _⟩ := (values_det hw hnd ha _).pure hall
    rw [MvnEinet.sample_eq' E (Model.check_ok hc.ok (by simp [hev])) h2 hw hnd, e1, Rand.pure_bind]
    unfold Model.finish
    rw [hev]
    have hsh : (t.map Fl.fin).shape = [a.count, E.leaf.num_channels, E.leaf.num_features / K.toNat] := by
      rw [← hwd]; exact e2.1
    refine ⟨_, rfl, hsh, ?_⟩
    rw [hsh]
    intro e
    have : E.leaf.num_features / K.toNat = E.leaf.num_features := by simpa using e
    omega
  · have hcount : a.count = N := by unfold SampleArgs.count; rw [hev]; simp [Tensor.size, hx.1, at']
    subst hcount
    have hcok : E.net.ClassOK a.count a.class_index := by rw [hci]; trivial
    obtain ⟨l, hl1, _⟩ := MvnEinet.marg_tensor hw.card hp hs hu
    obtain ⟨cs, e, hcs, hevm, hfin, _⟩ := MvnEinet.evidence_caches hw hp hev hx.is3 (fun n hn => hx.2 n hn)
      (by rw [hms]; exact hl1)
    obtain ⟨t, e1, cls, idx, rr, e2, _⟩ := (values_det hw hnd ha _).pure (MvnEinet.values_greedy hw hp hnd hF0 ha hN hT hcok hevm hfin)
    rw [MvnEinet.sample_eq' E (Model.check_ok hcok fun _ => ⟨hci, hns⟩) hcs hw hnd, e1, Rand.pure_bind]
    unfold Model.finish
    rw [hev]
    dsimp only
    unfold Model.fill
    have hv : ∃ err, x.view t.shape = .error err := by
      unfold Tensor.view
      rw [require_false _]
      · exact ⟨_, rfl⟩
      unfold Tensor.numel
      rw [hx.1, e2.1, hwd]
      simp only [numelS, mul_one]
      intro e
      have e' : (E.leaf.num_features / K.toNat = E.leaf.num_features ∨ E.leaf.num_channels = 0) ∨ a.count = 0 := by
        simpa using e
      omega
    obtain ⟨err, hv⟩ := hv
    rw [hv]
    exact ⟨err, rfl⟩

/-- two blocks of two features, one repetition. -/
example : ∃ E, buildMvn (mvnConfig 4 2 1 3 1 "einsum" "top-down") (exParams exLeaf) mvnParams = .ok E ∧ (2 : ℤ) ∣ 4 ∧
    ClassArg E.net 10 (some (.int 2)) ∧ Usable E.leaf.num_features ⟨false, [0, -1]⟩ ∧
    FiniteBatch 3 E.leaf.num_channels E.leaf.num_features ⟨[3, 2, 4], fun j => .fin j.sum⟩ := by
  obtain ⟨E, h⟩ := mvnConfig_topDown (F := 4) (C := 2) (R := 1) (k := 3) (d := 1) (by norm_num) (by norm_num) (by norm_num)
    (by norm_num) (by norm_num) (layer := "einsum") (by simp) (by norm_num [Int.fdiv]) (exParams exLeaf) mvnParams
  obtain ⟨_, _, _, hl, h2, _⟩ := buildMvn_spec (exParams_random _) h rfl
  have h2' : E.net.num_classes = 3 := h2
  have hC : E.leaf.num_channels = 2 := by rw [hl]; rfl
  have hF : E.leaf.num_features = 4 := by rw [hl]; rfl
  refine ⟨E, h, by norm_num, ⟨by omega, by omega⟩, ?_, ?_⟩
  · rw [hF]; exact ⟨by simp, by simp⟩
  · rw [hC, hF]; exact ⟨rfl, fun _ _ _ _ _ _ => Fl.isFin_fin _⟩

/-- density of a block with Cholesky factor `[[1, 0], [1, 1]]`. -/
theorem corr_blockP {E : MvnEinet} (hK : E.leaf.cardinality = 2) (hθ : E.leaf.params = corrParams) (X : Data) (c b i r : Nat) :
    E.blockP X c b i r = ENNReal.ofReal (Real.exp (-Real.log (2 * Real.pi) - ((X c (b * 2)).val ^ 2 +
      ((X c (b * 2 + 1)).val - (X c (b * 2)).val) ^ 2) / 2)) := by
  obtain ⟨⟨F, C, L, R, K, θ⟩, net⟩ := E
  dsimp only at hK hθ
  subst hK hθ
  have hA : MvnLeaf.scale_tril ⟨F, C, L, R, 2, corrParams⟩ [c, b, i, r] = !![1, 0; 1, 1] := by
    ext a b
    fin_cases a <;> fin_cases b <;> simp [MvnLeaf.scale_tril, corrParams]
  have hm : MvnLeaf.loc ⟨F, C, L, R, 2, corrParams⟩ [c, b, i, r] = 0 := rfl
  have hI : (!![1, 0; 1, 1] : Matrix (Fin 2) (Fin 2) ℝ)⁻¹ = !![1, 0; -1, 1] := by
    refine Matrix.inv_eq_right_inv ?_
    ext a b
    fin_cases a <;> fin_cases b <;> simp
  unfold MvnEinet.blockP
  dsimp only
  rw [hA, hm]
  unfold mvnLogProb
  rw [hI]
  congr 2
  simp only [Fin.sum_univ_two, sub_zero]
  simp [vecHead, vecTail]
  ring

/-- **C75 is false** of holes in a block that is known in part: for some model with one class and one channel, four features in
two blocks, the most probable explanation of `(·, 2, 0, 0)` fills in 0, although filling in 1 gives a larger density. -/
theorem C75_refuted_correlation : ∃ (c : Config) (P : Params) (θ : MvnParams) (E : MvnEinet), P.Random ∧
    buildMvn c P θ = .ok E ∧ c.structure' = "top-down" ∧ c.cardinality = some 2 ∧ c.num_repetitions = 2 ∧
    E.leaf.num_features = 4 ∧ E.leaf.num_channels = 1 ∧ E.net.num_classes = 1 ∧
    ∃ t, E.sample { evidence := some ⟨[1, 1, 4], fun j => .fin (if at' 2 j = 1 then 2 else 0)⟩, is_mpe := true,
                    marginalized_scopes := some ⟨false, [0]⟩ } = .pure t ∧
      (∀ f, f < 4 → t.get [0, 0, f] = .fin (if f = 1 then 2 else 0)) ∧
      E.density none 0 (fun _ f => t.get [0, 0, f]) <
        E.density none 0 (fun _ f => if f = 0 then .fin 1 else t.get [0, 0, f]) := by
  obtain ⟨E, h⟩ := mvnConfig_topDown (F := 4) (C := 1) (R := 2) (k := 1) (d := 0) (by norm_num) (by norm_num) (by norm_num)
    (by norm_num) (by norm_num) (layer := "einsum") (by simp) (by norm_num [Int.fdiv]) (exParams exLeaf) corrParams
  obtain ⟨K, hK, _, hl, hcl, _⟩ := buildMvn_spec (exParams_random _) h rfl
  cases hK
  obtain ⟨hw, hp⟩ := buildMvn_ok (exParams_random _) h rfl rfl (by norm_num [mvnConfig])
  have hF : E.leaf.num_features = 4 := by rw [hl]; rfl
  have hC : E.leaf.num_channels = 1 := by rw [hl]; rfl
  have hcard : E.leaf.cardinality = 2 := by rw [hl]; rfl
  have hθ : E.leaf.params = corrParams := by rw [hl]
  have hout : E.leaf.out_features = 2 := by unfold MvnLeaf.out_features; rw [hF, hcard]
  have hcl1 : E.net.num_classes = 1 := hcl
  have hk : 0 < E.net.num_classes := by rw [hcl1]; exact one_pos
  set w : (Nat → Fl) → Nat → ℝ≥0∞ := fun x b => ENNReal.ofReal (Real.exp (-Real.log (2 * Real.pi) - ((x (b * 2)).val ^ 2 +
      ((x (b * 2 + 1)).val - (x (b * 2)).val) ^ 2) / 2))
  have hden : ∀ x : Nat → Fl, (∀ f, f < 4 → (x f).IsFin) → E.density none 0 (fun _ => x) = w x 0 * w x 1 := by
    intro x hx
    rw [MvnEinet.density_eq hw hp (fun c hc f hf => hx f (by omega)) (ms := none) (l := []) rfl hk]
    have e := Model.outP_mul hw.net (one_ne_zero (α := ℝ)) (fun _ b => w x b) (fun _ _ _ _ => 1) hk
    simp only [mul_one] at e
    rw [Model.outP_one hw.net hk, mul_one] at e
    refine Eq.trans ?_ (e.trans ?_)
    · congr 1
      funext c b i r
      rw [if_neg (by simp), corr_blockP hcard hθ]
    · rw [hw.features, hw.channels, hout, hC, Finset.prod_range_succ, Finset.prod_range_one, Finset.prod_range_one,
        Finset.prod_range_one]
  obtain ⟨G, H, t, _, _, h1, _, h2⟩ := C75_evidence_partial _ _ (exParams_random _) _ E h rfl 2 rfl (by norm_num [mvnConfig])
    (by norm_num [mvnConfig])
    { evidence := some ⟨[1, 1, 4], fun j => .fin (if at' 2 j = 1 then 2 else 0)⟩, is_mpe := true,
      marginalized_scopes := some ⟨false, [0]⟩ } rfl 1 one_pos
    ⟨[1, 1, 4], fun j => .fin (if at' 2 j = 1 then 2 else 0)⟩ (by rw [hC, hF]; exact ⟨rfl, fun _ _ _ _ _ _ => Fl.isFin_fin _⟩)
    rfl rfl rfl one_ne_zero ⟨false, [0]⟩ rfl rfl (by rw [hF]; exact ⟨by simp, by simp⟩)
  obtain ⟨k, r, idx, _, _, hv⟩ := h2 0 one_pos
  have hval : ∀ f, f < 4 → t.get [0, 0, f] = .fin (if f = 1 then 2 else 0) := by
    intro f hf
    rw [hv 0 (by omega) f (by omega)]
    split_ifs with h3 h4 h4
    · obtain ⟨i, hi, h3⟩ := h3
      simp at hi
      rw [hF] at h3
      omega
    · rfl
    · simp [at', h4]
    · simp [at', h4]
  refine ⟨_, _, _, E, exParams_random _, h, rfl, rfl, rfl, hF, hC, hcl1, t, h1, hval, ?_⟩
  rw [hden _ (fun f hf => by rw [hval f hf]; exact Fl.isFin_fin _), hden _ (fun f hf => by
    split_ifs
    · exact Fl.isFin_fin _
    · rw [hval f hf]; exact Fl.isFin_fin _)]
  have e0 := hval 0 (by norm_num)
  have e1 := hval 1 (by norm_num)
  have e2 := hval 2 (by norm_num)
  have e3 := hval 3 (by norm_num)
  simp only [w]
  norm_num [e0, e1, e2, e3, Fl.val]
  rw [← ENNReal.ofReal_mul (Real.exp_pos _).le, ← ENNReal.ofReal_mul (Real.exp_pos _).le, ← Real.exp_add, ← Real.exp_add,
    ENNReal.ofReal_lt_ofReal_iff (Real.exp_pos _), Real.exp_lt_exp]
  norm_num

/-- weights that prefer component 0 in the first and component 1 in the second region. -/
def diagParams : Params := wParams (fun _ j => if at' 0 j = at' 1 j then 1 else 0) fun _ => 0

/-- all entries of the mean of component `i` are `i`. -/
def stepParams : MvnParams where
  means _ _ i _ _ := i
  L_diag_log _ _ _ _ _ := 0
  L_offdiag _ _ _ _ _ _ := 0

theorem diag_layers {E : MvnEinet} (h : buildMvn repConfig diagParams stepParams = .ok E) :
    E.net.layers = [.linsum2 (mkSumL 2 2 1 2 LinsumLayer2.weightShape fun j => if at' 0 j = at' 1 j then 1 else 0)] := by
  obtain ⟨O, e⟩ := buildMvn_layers h rfl (K := 2) rfl
  unfold topDownStructure at e
  rw [if_neg (by norm_num [Props.mvnConfig, Config.blocks]), if_neg (by norm_num [Props.mvnConfig, Config.blocks])] at e
  obtain ⟨L, hL, e⟩ := bind_ok e
  simp only [Res.pure_eq, Except.ok.injEq, Prod.mk.injEq] at e
  rw [← e.1]
  rw [show (repConfig.blocks 2).depth.toNat = 0 + 1 from rfl] at hL
  simp only [topDownLayers, Res.ok_bind] at hL
  obtain ⟨l, hl, hL⟩ := bind_ok hL
  simp only [Res.pure_eq, Except.ok.injEq] at hL
  rw [← hL]
  unfold mkLayer at hl
  rw [if_neg (by simp [Props.mvnConfig, Config.blocks]), if_neg (by simp [Props.mvnConfig, Config.blocks]),
    if_pos (by simp [Props.mvnConfig, Config.blocks])] at hl
  obtain ⟨_, _, hl⟩ := bind_ok hl
  simp only [Res.pure_eq, Except.ok.injEq] at hl
  rw [← hl]
  simp [Props.mvnConfig, Config.blocks, diagParams, wParams]

/-- **C75 is false** of models with several components and several regions (more than one repetition): for some model with one
class, one channel and six features in three blocks, features 2 and 3 of the result are 1 and 0.  They form the second block,
whose mean is `(i, i)` in every component `i`. -/
theorem C75_refuted_repeat : ∃ (c : Config) (P : Params) (θ : MvnParams) (E : MvnEinet), P.Random ∧
    buildMvn c P θ = .ok E ∧ c.structure' = "top-down" ∧ c.cardinality = some 2 ∧ c.num_repetitions = 2 ∧
    E.leaf.num_features = 6 ∧ E.leaf.num_channels = 1 ∧ E.net.num_classes = 1 ∧
    (∀ d b i r k, θ.means d b i r k = i) ∧
    ∃ s, E.sample { num_samples := some 1, is_mpe := true } = .pure s ∧
      s.get [0, 0, 2] = .fin 1 ∧ s.get [0, 0, 3] = .fin 0 := by
  have hP : diagParams.Random := wParams_random _ _
  obtain ⟨E, h⟩ := mvnConfig_topDown (F := 6) (C := 1) (R := 2) (k := 1) (d := 1) (by norm_num) (by norm_num) (by norm_num)
    (by norm_num) (by norm_num) (layer := "linsum2") (by simp) (by norm_num [Int.fdiv]) diagParams stepParams
  obtain ⟨K, hK, _, hl, hcl, _⟩ := buildMvn_spec hP h rfl
  cases hK
  have hF : E.leaf.num_features = 6 := by rw [hl]; rfl
  have hC : E.leaf.num_channels = 1 := by rw [hl]; rfl
  have hcl1 : E.net.num_classes = 1 := hcl
  obtain ⟨hs, _, _⟩ := buildMvn_samplable hP h rfl (K := 2) rfl (by norm_num [mvnConfig]) (by norm_num [mvnConfig])
  obtain ⟨L, hL⟩ := hs.fact
  obtain ⟨s, h1, _, h2⟩ := mpe_values hP h rfl (K := 2) rfl (by norm_num [mvnConfig]) (by norm_num [mvnConfig])
    (a := { num_samples := some 1, is_mpe := true }) rfl rfl one_pos one_ne_zero trivial
  obtain ⟨k, r, idx, hg, _, hv⟩ := h2 0 one_pos
  have hidx : ∀ d, d < 2 → idx d = d := by
    have := hg.path
    rw [diag_layers h] at this
    obtain ⟨mid, _, hd⟩ := this
    intro d hd2
    obtain ⟨h3, h4⟩ := hd d hd2
    have h5 := h4 d hd2
    by_contra hne
    have e1 : ∀ i, ((mkSumL 2 2 1 2 LinsumLayer2.weightShape fun j => if at' 0 j = at' 1 j then 1 else 0).logits.get
        [d, i, mid (d / 2), r]).val = if d = i then 1 else 0 := fun i => rfl
    simp only [mul_one, expw, e1, div_one] at h5
    rw [if_pos trivial, if_neg (fun e : d = idx d => hne e.symm), ENNReal.ofReal_le_ofReal_iff (Real.exp_pos _).le,
      Real.exp_le_exp] at h5
    norm_num at h5
  have hgr : ∀ f, E.net.grpS (buildGroups (repConfig.blocks 2)
      { diagParams with leaf := .normal (fun _ _ _ _ => 0) (fun _ _ _ _ => 0) }) r f = buildGroups (repConfig.blocks 2)
      { repParams with leaf := .normal (fun _ _ _ _ => 0) (fun _ _ _ _ => 0) } r f := by
    intro f
    unfold Model.grpS
    rw [hL]
    rfl
  refine ⟨_, _, _, E, hP, h, rfl, rfl, rfl, hF, hC, hcl1, fun _ _ _ _ _ => rfl, s, h1, ?_, ?_⟩
  · rw [hv 0 (by omega) 2 (by omega), hgr, hF]
    rw [show 2 % (6 / (2 : ℤ).toNat) = 2 from rfl, (rep_groups r).1, hidx 1 (by norm_num)]
    simp [stepParams]
  · rw [hv 0 (by omega) 3 (by omega), hgr, hF]
    rw [show 3 % (6 / (2 : ℤ).toNat) = 0 from rfl, (rep_groups r).2, hidx 0 (by norm_num)]
    simp [stepParams]

end Props
end Einet
