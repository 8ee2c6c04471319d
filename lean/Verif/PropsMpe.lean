import Verif.Mpe
import Verif.Gen
import Verif.PropsRegions

/-!
# Properties of the most probable explanation: C20
-/

open Classical MeasureTheory
open scoped ENNReal
noncomputable section
namespace Einet
namespace Props
open Tensor Einet

/-! ### Specification -/

/-- density of the features of region `o` under component `i` of repetition `r`, where `G r f` is the region of feature `f`;
missing entries count 1. -/
def regionVal (M : Model) (G : Nat → Nat → Nat) (X : Data) : PRow := fun o i r =>
  ∏ f ∈ Finset.range M.num_features, if G r f = o then ∏ c ∈ Finset.range M.num_channels, cell M (X c f) c f i r else 1

/-! ### Lemmas -/

theorem regionVal_nan (M : Model) (G : Nat → Nat → Nat) (o i r : Nat) : regionVal M G (fun _ _ => .nan) o i r = 1 := by
  unfold regionVal cell
  simp

theorem GreedyChoice.congr {M : Model} {g : Nat → Nat → Nat} (h : M.WF g) {a : SampleArgs} {n : Nat} {v v' : PRow} {k r : Nat}
    {idx : Nat → Nat} (hk : k < M.num_classes)
    (hv : ∀ d, d < M.numOut → ∀ k, k < M.num_leaves → ∀ r, r < M.num_repetitions → v d k r = v' d k r)
    (hc : M.GreedyChoice a n v k r idx) : M.GreedyChoice a n v' k r idx := by
  refine ⟨hc.cls, hc.rep.congr fun r hr => ?_, hc.path.congr h.chain fun d hd k hk => hv d hd k hk r hc.rep.1⟩
  rw [denL_congr h.chain (fun d hd k hk => hv d hd k hk r hr) (by omega) hk]

theorem classChoice_lt {M : Model} {a : SampleArgs} {n k : Nat} (hc : M.ClassOK a.count a.class_index) (hn : n < a.count)
    (h : M.ClassChoice a n k) : k < M.num_classes := by
  unfold Model.ClassChoice at h
  cases hci : a.class_index with
  | none => rw [hci] at h; exact h.1
  | some ci =>
    rw [hci] at h hc
    cases ci with
    | int c => rw [show k = c from h]; exact hc.2
    | list l => rw [show k = l.getD n 0 from h]; exact hc.2.2 n hn

theorem frontRow_val {M : Model} {g : Nat → Nat → Nat} (h : M.WF g) (hp : M.leaf.base.Proper) {sc : Option (List Nat)}
    {X : Data} (hX : EvidenceOK M.leaf.base sc X) {o i r : Nat} (ho : o < M.numOut) (hi : i < M.num_leaves)
    (hr : r < M.num_repetitions) :
    pRow (M.frontRow sc X) o i r = regionVal M (M.grpF g) (masked sc X) o i r := by
  have hf := h.front
  have e : ∀ c, c < M.num_channels → ∀ f, f < M.num_features → ∀ i, i < M.num_leaves → ∀ r, r < M.num_repetitions →
      (M.leaf.base.entry sc (X c f) c f i r).IsFin ∧
      toP (M.leaf.base.entry sc (X c f) c f i r) = cell M (masked sc X c f) c f i r := by
    intro c hc f hf' i hi r hr
    have hc' : c < M.leaf.base.num_channels := by rw [hf.channels]; exact hc
    have hf'' : f < M.leaf.base.num_features := by rw [hf.features]; exact hf'
    have hi' : i < M.leaf.base.num_leaves := by rw [hf.leaves]; exact hi
    have hr' : r < M.leaf.base.num_repetitions := by rw [hf.reps]; exact hr
    rw [hX.entry hp hc' hf'' hi' hr']
    have e := Model.entry_none hp hc' hf'' hi' hr' hX.masked
    refine ⟨e.1, e.2.trans ?_⟩
    unfold cell
    rcases hX.masked c hc' f hf'' with e0 | ⟨v, e0, hv⟩
    · simp only [e0, if_true]
      exact hp.integral c hc' f hf'' i hi' r hr'
    · simp only [e0, reduceCtorEq, if_false]
      exact lintegral_dirac' _ (hp.measurable c f i r)
  unfold pRow
  rw [(Model.frontRow_den hf (b := true) (fun _ => rfl) hr (i := i) (fun c hc f hf' => (e c hc f hf' i hi r hr).1) ho).2]
  unfold Model.regionP regionVal
  refine Finset.prod_congr rfl fun f hf' => ?_
  congr 1
  exact Finset.prod_congr rfl fun c hc => (e c (by simpa using hc) f (by simpa using hf') i hi r hr).2

/-! ### C20 -/

/-- **C20**, first half: `sample(is_mpe=True, ...)`, in particular `mpe(...)`, has one result, a tensor or an exception,
whatever generator is used and whatever its state; and it leaves the generator state as it is. For every model and all
arguments. -/
theorem C20_deterministic (M : Model) (a : SampleArgs) (ha : a.is_mpe = true) :
    ∃ r : Res (Tensor Fl), ∀ (G : Gen) (s : G.σ), (M.sample a).run G s = (r, s) :=
  (M.sample_det ha).run

/-- **C20**, second half, without evidence: the class, the repetition and every channel on the path has the largest weight,
and the result consists of the modes of the chosen leaf components.  `H` is the grouping of the leaf sampler (C34). -/
theorem C20_greedy (c : Config) (P : Params) (hP : P.Random) (hg : P.leaf.Good) (hs : P.leaf.CanSample) (M : Model)
    (h : build c P = .ok M) (a : SampleArgs) (ha : a.is_mpe = true) (hev : a.evidence = none) (hN : 0 < a.count)
    (hT : a.temperature_sums ≠ 0) (hc : ClassArg M a.count a.class_index) :
    ∃ (H : Nat → Nat → Nat) (s : Tensor Fl), SampledIn M M.numOut H ∧
      (∀ r, r < M.num_repetitions → ∀ f, f < M.num_features → H r f < M.numOut) ∧ M.sample a = .pure s ∧
      s.shape = [a.count, M.num_channels, M.num_features] ∧
      ∀ n, n < a.count → ∃ k r idx, M.GreedyChoice a n (fun _ _ _ => 1) k r idx ∧ (∀ o, o < M.numOut → idx o < M.num_leaves) ∧
        ∀ c, c < M.num_channels → ∀ f, f < M.num_features →
          s.get [n, c, f] = .fin (M.leaf.base.mode c f (idx (H r f)) r) := by
  have hsam := build_samplable hP hg hs h
  have h2 : M.evidenceCaches a = .ok ⟨[], none⟩ := by unfold Model.evidenceCaches; rw [hev]
  have hdet := M.sample_det ha
  rw [Model.sample_eq M a (Model.check_ok hc.ok (by simp [hev])) h2] at hdet ⊢
  have hall := (Model.sampleValues_greedy hsam ha hN hT hc.ok (Model.evM_none M a.count) (Model.finZero M _)).bind
    (g := fun s => Rand.lift (Model.finish a s)) (Q := fun s => s.shape = [a.count, M.num_channels, M.num_features] ∧
      ∀ n, n < a.count → ∃ k r idx, M.GreedyChoice a n (fun _ _ _ => 1) k r idx ∧ (∀ o, o < M.numOut → idx o < M.num_leaves) ∧
        ∀ d, d < M.num_channels → ∀ f, f < M.num_features →
          s.get [n, d, f] = .fin (M.leaf.base.mode d f (idx (M.grpS (buildGroups c P) r f)) r))
    (fun t ⟨cls, idx, rr, ht, hn⟩ => by
      unfold Model.finish
      rw [hev]
      refine ⟨ht.1, fun n hn' => ⟨cls n, rr n, idx n, ?_, (hn n hn').1, fun c hc' f hf => ?_⟩⟩
      · have := (hn n hn').2
        refine GreedyChoice.congr hsam.wf (classChoice_lt hc.ok hn' this.cls) (fun _ _ _ _ _ _ => ?_) this
        simp [pRow]
      · show Fl.fin (t.get [n, c, f]) = _
        rw [ht.get hn' hc' hf])
  obtain ⟨s, h1, h2, h3⟩ := hdet.pure hall
  exact ⟨_, s, sampledIn hP hg hs h, fun r hr f hf => hsam.wf.front.grpS_lt hr hf, h1, h2, h3⟩

example (b : Bool) : ∃ M, build (exConfig "einsum" "top-down") (exParams exLeaf) = .ok M ∧
    (exParams exLeaf).leaf.Good ∧ (exParams exLeaf).leaf.CanSample ∧
    ClassArg M 4 (some (.list [2, 0, 0, 1])) ∧
    (⟨some 4, some (.list [2, 0, 0, 1]), none, true, b, 1, 1 / 2, none⟩ : SampleArgs).count = 4 := by
  obtain ⟨M, h⟩ := exConfig_normal (l := "einsum") (s := "top-down") (Or.inl ⟨Or.inr (Or.inr rfl), rfl⟩)
  obtain ⟨e1, e2, e3⟩ := exSizes h
  have := exLeaf_good (exParams exLeaf) rfl
  exact ⟨M, h, this.1, this.2, ⟨by omega, rfl, by rw [e3]; simp⟩, rfl⟩

/-- **C20**, second half, with evidence: the repetition and every channel on the path maximise weight times density of the
evidence below; observed entries are kept and the holes contain the modes of the chosen leaf components.  `G` and `H` are the
groupings of the forward pass and of the leaf sampler (C34).  Missing: for more than one class, the class is chosen by its
weight alone, not by its posterior weight (`C20_refuted_class`). -/
theorem C20_greedy_evidence_partial (c : Config) (P : Params) (hP : P.Random) (hg : P.leaf.Good) (hs : P.leaf.CanSample)
    (M : Model) (h : build c P = .ok M) (N : Nat) (hN : 0 < N) (x : Tensor Fl) (a : SampleArgs) (ha : a.is_mpe = true)
    (hx : Evidence M P.leaf N a.marginalized_scopes x) (hev : a.evidence = some x) (hns : a.num_samples = none)
    (hci : a.class_index = none) (hT : a.temperature_sums ≠ 0) :
    ∃ (G H : Nat → Nat → Nat) (s : Tensor Fl), ForwardIn M P.leaf M.numOut G ∧ SampledIn M M.numOut H ∧
      (∀ r, r < M.num_repetitions → ∀ f, f < M.num_features → G r f < M.numOut ∧ H r f < M.numOut) ∧
      M.sample a = .pure s ∧ s.shape = x.shape ∧
      ∀ n, n < N → ∃ k r idx,
        M.GreedyChoice a n (regionVal M G (known M.num_features a.marginalized_scopes x n)) k r idx ∧
        (∀ o, o < M.numOut → idx o < M.num_leaves) ∧
        ∀ c, c < M.num_channels → ∀ f, f < M.num_features → s.get [n, c, f] =
          if Hole M.num_features a.marginalized_scopes x n c f then .fin (M.leaf.base.mode c f (idx (H r f)) r)
          else x.get [n, c, f] := by
  have hsam := build_samplable hP hg hs h
  obtain ⟨sc, hsc, hh⟩ := hx.scopes
  have hcount : a.count = N := by unfold SampleArgs.count; rw [hev]; simp [Tensor.size, hx.batch.1, at']
  have hp := (build_WF hP h).2.2.1 hg
  have hx3 : x.Is3 a.count M.num_channels M.num_features fun n c f => x.get [n, c, f] := by
    rw [hcount]; exact hx.batch.is3
  have hX : ∀ n, n < a.count → EvidenceOK M.leaf.base sc fun c f => x.get [n, c, f] := by
    rw [hcount]; exact hx.ok hP h hh
  obtain ⟨cs, hcs, hevm, hfin⟩ := Model.evidence_caches hsam.wf hp hev hx3 hsc hX
  have hcok : M.ClassOK a.count a.class_index := by rw [hci]; trivial
  have hdet := M.sample_det ha
  rw [Model.sample_eq M a (Model.check_ok hcok fun _ => ⟨hci, hns⟩) hcs] at hdet ⊢
  have hall := (Model.sampleValues_greedy hsam ha (by omega) hT hcok hevm hfin).bind
    (g := fun s => Rand.lift (Model.finish a s)) (Q := fun s => s.shape = x.shape ∧
      ∀ n, n < N → ∃ k r idx,
        M.GreedyChoice a n (regionVal M (M.grpF (buildGroups c P)) (known M.num_features a.marginalized_scopes x n)) k r idx ∧
        (∀ o, o < M.numOut → idx o < M.num_leaves) ∧
        ∀ d, d < M.num_channels → ∀ f, f < M.num_features → s.get [n, d, f] =
          if Hole M.num_features a.marginalized_scopes x n d f then
            .fin (M.leaf.base.mode d f (idx (M.grpS (buildGroups c P) r f)) r)
          else x.get [n, d, f])
    (fun t ⟨cls, idx, rr, ht, hn⟩ => by
      obtain ⟨s, hs', hs3⟩ := Model.fill_is hx3 ht hsc
      unfold Model.finish
      rw [hev]
      dsimp only
      rw [hs']
      refine ⟨by rw [hs3.1, hx.batch.1, hcount], fun n hn' => ?_⟩
      rw [← hcount] at hn'
      refine ⟨cls n, rr n, idx n, ?_, (hn n hn').1, fun d hd f hf => ?_⟩
      · have := (hn n hn').2
        refine GreedyChoice.congr hsam.wf (classChoice_lt hcok hn' this.cls) (fun o ho i hi r hr => ?_) this
        rw [frontRow_val hsam.wf hp (hX n hn') ho hi hr]
        unfold regionVal
        refine Finset.prod_congr rfl fun f hf => ?_
        congr 1
        refine Finset.prod_congr rfl fun d hd => ?_
        unfold masked known
        simp only [hh n d f (by simpa using hf)]
      · rw [hs3.get hn' hd hf]
        simp only [hh n d f hf])
  obtain ⟨s, h1, h2, h3⟩ := hdet.pure hall
  exact ⟨_, _, s, forwardIn hP hg h, sampledIn hP hg hs h,
    fun r hr f hf => ⟨hsam.wf.front.grpF_lt hr hf, hsam.wf.front.grpS_lt hr hf⟩, h1, h2, h3⟩

/-- **C20** for `mpe` itself: no argument makes the result depend on random numbers. -/
theorem C20_mpe_deterministic (M : Model) (e : Option (Tensor Fl)) (ms : Option Scopes) :
    ∃ r : Res (Tensor Fl), ∀ (G : Gen) (s : G.σ), (M.mpe e ms).run G s = (r, s) :=
  C20_deterministic M _ rfl

/-- **C20** for `mpe` itself, with evidence: observed entries are kept, holes contain the modes of the greedily chosen leaf
components.  Missing: the choice of the class, as in `C20_greedy_evidence_partial`. -/
theorem C20_mpe_partial (c : Config) (P : Params) (hP : P.Random) (hg : P.leaf.Good) (hs : P.leaf.CanSample)
    (M : Model) (h : build c P = .ok M) (N : Nat) (hN : 0 < N) (x : Tensor Fl) (ms : Option Scopes)
    (hx : Evidence M P.leaf N ms x) :
    ∃ (G H : Nat → Nat → Nat) (s : Tensor Fl), ForwardIn M P.leaf M.numOut G ∧ SampledIn M M.numOut H ∧
      (∀ r, r < M.num_repetitions → ∀ f, f < M.num_features → G r f < M.numOut ∧ H r f < M.numOut) ∧
      M.mpe (some x) ms = .pure s ∧ s.shape = x.shape ∧
      ∀ n, n < N → ∃ k r idx,
        M.GreedyChoice { evidence := some x } n (regionVal M G (known M.num_features ms x n)) k r idx ∧
        (∀ o, o < M.numOut → idx o < M.num_leaves) ∧
        ∀ c, c < M.num_channels → ∀ f, f < M.num_features → s.get [n, c, f] =
          if Hole M.num_features ms x n c f then .fin (M.leaf.base.mode c f (idx (H r f)) r) else x.get [n, c, f] := by
  obtain ⟨G, H, s, h1, h2, h3, h4, h5, h6⟩ := C20_greedy_evidence_partial c P hP hg hs M h N hN x
    { evidence := some x, is_mpe := true, marginalized_scopes := ms } rfl hx rfl rfl rfl one_ne_zero
  refine ⟨G, H, s, h1, h2, h3, h4, h5, fun n hn => ?_⟩
  obtain ⟨k, r, idx, g, hi, hv⟩ := h6 n hn
  exact ⟨k, r, idx, ⟨g.cls, g.rep, g.path⟩, hi, hv⟩

example : ∃ M, build (exConfig "linsum" "bottom-up") (exParams exLeaf) = .ok M ∧
    Evidence M (exParams exLeaf).leaf 3 none exBatch ∧
    Evidence M (exParams exLeaf).leaf 7 (some ⟨true, [1, -1]⟩) ⟨[7, 2, 5], fun i => .fin i.sum⟩ := by
  obtain ⟨M, h⟩ := exConfig_normal (l := "linsum") (s := "bottom-up") (Or.inr ⟨rfl, rfl⟩)
  obtain ⟨e1, e2, e3⟩ := exSizes h
  exact ⟨M, h, exEvidence e1 e2, exEvidenceScopes e1 e2⟩

end Props
end Einet
