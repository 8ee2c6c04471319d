import Verif.MvnWitness
import Verif.PropsMpe

/-!
# Einets with multivariate normal leaves: evidence and most probable explanations
-/

open Classical MeasureTheory ProbabilityTheory Matrix
open scoped ENNReal
noncomputable section
namespace Einet
open Tensor

namespace Model

/-- the caches filled above given leaf values. -/
theorem merge_upper_caches {M : Model} {g : Nat → Nat → Nat} (h : M.WF g) {y : Tensor Fl} {N : Nat}
    {Y : Nat → Nat → Nat → Nat → Nat → Fl} (hy : y.Is5 N M.num_channels M.num_features M.num_leaves M.num_repetitions Y)
    (hfin : ∀ n, n < N → ∀ c, c < M.num_channels → ∀ f, f < M.num_features → ∀ i, i < M.num_leaves →
      ∀ r, r < M.num_repetitions → (Y n c f i r).IsFin) :
    ∃ e : Nat → Row, M.FinRows N e ∧ (∀ n, n < N → ∀ o, o < M.numOut → ∀ i, i < M.num_leaves → ∀ r, r < M.num_repetitions →
        toP (e n o i r) = M.regionP g (fun c f i r => toP (Y n c f i r)) o i r) ∧
      Res.Sat (M.leaf.merge y >>= M.upper) fun z => M.CachesOK N z.2 e := by
  have hW := ghost_WF h Y
  have hentry : ∀ n, n < N → ∀ c, c < M.num_channels → ∀ f, f < M.num_features → ∀ i, i < M.num_leaves →
      ∀ r, r < M.num_repetitions → (M.ghost Y).leaf.base.entry none (.fin n) c f i r = Y n c f i r := by
    intro n hn c hc f hf i hi r hr
    rw [ghost_base]
    have e : (M.leaf.base.ghost Y).logProb c f i r (.fin n) = Y n c f i r := by
      show Y ⌊(n : ℝ)⌋₊ c f i r = _
      rw [Nat.floor_natCast]
    obtain ⟨a, ha⟩ := hfin n hn c hc f hf i hi r hr
    rw [ha] at e
    show (if ((M.leaf.base.ghost Y).logProb c f i r (.fin n)).isnan = true then Fl.fin 0
      else (M.leaf.base.ghost Y).logProb c f i r (.fin n)) = _
    rw [e, ha]
    rfl
  have key : ∀ n, n < N → ∀ o, o < M.numOut → ∀ i, i < M.num_leaves → ∀ r, r < M.num_repetitions →
      ((M.ghost Y).frontRow none (fun _ _ => .fin n) o i r).IsFin ∧
      toP ((M.ghost Y).frontRow none (fun _ _ => .fin n) o i r) = M.regionP g (fun c f i r => toP (Y n c f i r)) o i r := by
    intro n hn o ho i hi r hr
    have := frontRow_den hW.front (b := true) (fun _ => rfl) (sc := none) (X := fun _ _ => .fin n) hr (i := i)
      (fun c hc f hf => by
        rw [hentry n hn c hc f hf i hi r hr]
        exact hfin n hn c hc f hf i hi r hr) (o := o) (by rw [ghost_numOut]; exact ho)
    refine ⟨this.1, this.2.trans ?_⟩
    have e : (M.ghost Y).grpF g = M.grpF g := by
      unfold ghost grpF
      cases M.leaf <;> rfl
    unfold regionP
    rw [e]
    refine Finset.prod_congr rfl fun f hf => ?_
    congr 1
    exact Finset.prod_congr rfl fun c hc => congrArg toP (hentry n hn c (by simpa using hc) f (by simpa using hf) i hi r hr)
  refine ⟨fun n => (M.ghost Y).frontRow none fun _ _ => .fin n, fun n hn o ho i hi r hr => (key n hn o ho i hi r hr).1,
    fun n hn o ho i hi r hr => (key n hn o ho i hi r hr).2, ?_⟩
  rw [← ghost_merge M Y, ← ghost_upper M Y]
  have hsum : Res.Sat (y.sum 1) fun z => z.Is4 N (M.ghost Y).leaf.base.num_features (M.ghost Y).leaf.base.num_leaves
      (M.ghost Y).leaf.base.num_repetitions fun n => (M.ghost Y).leaf.base.leafSum none fun _ _ => .fin n := by
    rw [hW.front.features, hW.front.leaves, hW.front.reps]
    refine (sum_is hy (by simp)).mono fun z hz => Is.is4 hz ?_
    intro n hn f hf i hi r hr
    simp only [insAt, at', BaseLeaf.leafSum]
    rw [hW.front.channels]
    exact Fl.sumN_congr fun c hc => (hentry n hn c hc f hf i hi r hr).symm
  refine (merge_is hW.front hsum).bind fun z hz => ?_
  exact (upper_is hW hz).mono fun w hw => hw.2

end Model

namespace MvnEinet

/-- a run on a batch, for the caches. -/
theorem run_caches {E : MvnEinet} {g : Nat → Nat → Nat} (h : E.WF g) (hp : E.leaf.pad_value = 0) {x : Tensor Fl} {N : Nat}
    {X : Nat → Data} (hx : x.Is3 N E.leaf.num_channels E.leaf.num_features X) (hX : ∀ n, n < N → E.Complete (X n))
    {ms : Option Scopes} {l : List Nat} (hs : E.Marg ms l) :
    ∃ e : Nat → Row, E.net.FinRows N e ∧ (∀ n, n < N → ∀ o, o < E.net.numOut → ∀ i, i < E.net.num_leaves →
        ∀ r, r < E.net.num_repetitions → toP (e n o i r) =
          E.net.regionP g (fun c b i r => if b ∈ l then 1 else E.blockP (X n) c b i r) o i r) ∧
      Res.Sat (E.run x ms) fun z => E.net.CachesOK N z.2 e := by
  have hF := MvnLeaf.out_mul h.card hp
  have hlt : ∀ b, b < E.leaf.out_features → ∀ k, k < E.leaf.cardinality →
      b * E.leaf.cardinality + k < E.leaf.num_features := by
    intro b hb k hk
    rw [← hF]
    calc b * E.leaf.cardinality + k < b * E.leaf.cardinality + E.leaf.cardinality := by omega
      _ = (b + 1) * E.leaf.cardinality := by ring
      _ ≤ _ := Nat.mul_le_mul_right _ hb
  have hval : ∀ n, n < N → ∀ c, c < E.leaf.num_channels → ∀ b, b < E.leaf.out_features → ∀ i r,
      E.leaf.distLogProb [c, b, i, r] (fun k => X n c (b * E.leaf.cardinality + k)) =
      .fin (mvnLogProb (E.leaf.loc [c, b, i, r]) (E.leaf.scale_tril [c, b, i, r])
        fun k => (X n c (b * E.leaf.cardinality + k)).val) := fun n hn c hc b hb i r =>
    MvnLeaf.distLogProb_fin fun k hk => hX n hn c hc _ (hlt b hb k hk)
  obtain ⟨y, hy, hy5⟩ := MvnLeaf.forward_is h.card hp hx (fun n hn => hX n hn) (ms := ms) (l := l) hs
  have hy6 := hy5
  rw [← h.channels, ← h.features, ← h.leaves, ← h.reps] at hy6
  obtain ⟨e, he, he2, hsat⟩ := Model.merge_upper_caches h.net hy6 (fun n hn c hc f hf i hi r hr => by
    by_cases hm : f ∈ l
    · exact ⟨0, if_pos hm⟩
    · exact ⟨_, (if_neg hm).trans (hval n hn c (h.channels ▸ hc) f (h.features ▸ hf) i r)⟩)
  refine ⟨e, he, fun n hn o ho i hi r hr => (he2 n hn o ho i hi r hr).trans ?_, ?_⟩
  · unfold Model.regionP
    refine Finset.prod_congr rfl fun b hb => ?_
    congr 1
    refine Finset.prod_congr rfl fun c hc => ?_
    dsimp only
    by_cases hm : b ∈ l
    · rw [if_pos hm, if_pos hm, toP_zero]
    · rw [if_neg hm, if_neg hm, hval n hn c (by simpa [h.channels] using hc) b (by simpa [h.features] using hb) i r]
      rfl
  · unfold run
    have hx' : x.Is3 N ({ E.net with num_features := E.leaf.num_features } : Model).num_channels
        ({ E.net with num_features := E.leaf.num_features } : Model).num_features X := by
      show x.Is3 N E.net.num_channels E.leaf.num_features X
      rw [h.channels]; exact hx
    rw [Model.prepInput_is hx']
    simp only [Res.ok_bind]
    rw [hy]
    exact hsat

/-- the caches after the forward pass on the evidence. -/
theorem evidence_caches {E : MvnEinet} {g : Nat → Nat → Nat} (h : E.WF g) (hp : E.leaf.pad_value = 0) {a : SampleArgs}
    {x : Tensor Fl} {X : Nat → Data} (hev : a.evidence = some x)
    (hx : x.Is3 a.count E.leaf.num_channels E.leaf.num_features X) (hX : ∀ n, n < a.count → E.Complete (X n))
    {l : List Nat} (hs : E.Marg a.marginalized_scopes l) :
    ∃ cs e, E.evidenceCaches a = .ok cs ∧ E.net.EvM true a.count cs e ∧ E.net.FinRows a.count e ∧
      ∀ n, n < a.count → ∀ o, o < E.net.numOut → ∀ i, i < E.net.num_leaves → ∀ r, r < E.net.num_repetitions →
        pRow (e n) o i r = E.net.regionP g (fun c b i r => if b ∈ l then 1 else E.blockP (X n) c b i r) o i r := by
  obtain ⟨e, he, he2, z, hz, hz2⟩ := run_caches h hp hx hX hs
  refine ⟨z.2, e, ?_, Model.CachesOK.evM hz2, he, he2⟩
  unfold evidenceCaches
  rw [hev]
  dsimp only
  rw [hz]
  rfl

/-- `sample` after the checks and the forward pass on the evidence. -/
theorem sample_eq' (E : MvnEinet) {a : SampleArgs} (h1 : a.check E.net = .ok ()) {cs : Caches}
    (h2 : E.evidenceCaches a = .ok cs) {g : Nat → Nat → Nat} (h : E.WF g) (hnd : ∀ B, E.net.leaf ≠ .direct B) :
    E.sample a = ((E.net.corePath a cs).bind fun ctx => E.sampleLeaf ctx).bind fun s => Rand.lift (Model.finish a s) := by
  have hnp : E.net.permutation = none := h.net.front.noperm hnd
  have hun : ∀ ctx, E.net.unpermute ctx = .ok ctx := by intro ctx; unfold Model.unpermute; rw [hnp]
  unfold sample
  rw [h1, h2]
  simp only [Rand.lift_ok, Rand.pure_bind]
  rw [Model.samplePath_eq]
  simp only [hun, Rand.lift_ok, Rand.bind_assoc, Rand.pure_bind]

/-- `self.leaf.sample(ctx)` in MPE mode: the means of the chosen components. -/
theorem sampleLeaf_mode {E : MvnEinet} {g : Nat → Nat → Nat} (h : E.WF g) (hp : E.leaf.pad_value = 0)
    (hnd : ∀ B, E.net.leaf ≠ .direct B) (hF0 : 0 < E.leaf.num_features) {ctx : Ctx} {N : Nat} (hN : 0 < N)
    {idx : Nat → Nat → Nat} {rr : Nat → Nat}
    (hc : CtxOK ctx N E.net.numOut E.net.num_leaves E.net.num_repetitions idx rr)
    (hm : ctx.is_mpe = true ∨ ctx.mpe_at_leaves = true) :
    ∃ s, E.sampleLeaf ctx = Rand.pure s ∧ s.Is3 N E.leaf.num_channels E.width fun n c f =>
        E.leaf.loc [c, f / E.leaf.cardinality, idx n (E.net.grpS g (rr n) (f % E.leaf.out_features)), rr n]
          ⟨f % E.leaf.cardinality, Nat.mod_lt _ h.card⟩ := by
  have hF := MvnLeaf.out_mul h.card hp
  have hB0 : 0 < E.leaf.out_features := by
    rcases Nat.eq_zero_or_pos E.leaf.out_features with e | e
    · rw [e] at hF; omega
    · exact e
  have hwl : E.width ≤ E.leaf.num_features := by
    have hle : E.leaf.out_features ≤ E.leaf.num_features := by
      rw [← hF]; exact Nat.le_mul_of_pos_right _ h.card
    unfold width
    split <;> omega
  have hres : Res.Sat (E.leaf.pick ctx (E.leaf.rawMode N) >>= E.select ctx) fun s =>
      s.Is3 N E.leaf.num_channels E.width fun n c f =>
        E.leaf.loc [c, f / E.leaf.cardinality, idx n (E.net.grpS g (rr n) (f % E.leaf.out_features)), rr n]
          ⟨f % E.leaf.cardinality, Nat.mod_lt _ h.card⟩ := by
    have hraw : (E.leaf.rawMode N).Is3 N E.leaf.num_dists E.leaf.cardinality
        fun _ d k => if hk : k < E.leaf.cardinality then E.leaf.loc (unflat E.leaf.paramShape d) ⟨k, hk⟩ else 0 :=
      Is.intro rfl fun _ _ => rfl
    have hc' : CtxOK ctx N E.net.numOut E.net.num_leaves E.leaf.num_repetitions idx rr := by rw [← h.reps]; exact hc
    refine (MvnLeaf.pick_is h.card hp hraw hc').bind fun t ht => ?_
    refine (select_is h hp hnd hF0 hN hc ht).mono fun s hs => Is.is3 hs ?_
    intro n hn c hcc f hf
    simp only [at']
    have hf' : f < E.leaf.num_features := by omega
    have hb : f / E.leaf.cardinality < E.leaf.out_features := by
      rw [Nat.div_lt_iff_lt_mul h.card, hF]; exact hf'
    have hi : idx n (E.net.grpS g (rr n) (f % E.leaf.out_features)) < E.leaf.num_leaves := by
      rw [← h.leaves]
      refine hc.io_lt n hn _ (h.net.front.grpS_lt (hc.ir_lt n hn) ?_)
      rw [h.features]
      exact Nat.mod_lt _ hB0
    have hr : rr n < E.leaf.num_repetitions := hc'.ir_lt n hn
    refine (dif_pos (Nat.mod_lt _ h.card)).trans ?_
    rw [unflat_flat (show InB E.leaf.paramShape [c, f / E.leaf.cardinality,
      idx n (E.net.grpS g (rr n) (f % E.leaf.out_features)), rr n] from ⟨hcc, hb, hi, hr, trivial⟩)]
  obtain ⟨s, hs, hs2⟩ := hres
  refine ⟨s, ?_, hs2⟩
  unfold sampleLeaf
  rw [MvnLeaf.sampleAll_eq, Rand.bind_assoc]
  unfold MvnLeaf.raw
  rw [if_pos hm, hc.ns, Rand.pure_bind]
  have e := Rand.lift_bind (E.leaf.pick ctx (E.leaf.rawMode N)) (E.select ctx)
  rw [← e, hs]
  rfl

/-- `sample` with `is_mpe` requests no random number, whatever the arguments. -/
theorem sample_det (E : MvnEinet) {a : SampleArgs} (h : a.is_mpe = true) : (E.sample a).Det := by
  have : (E.sample a).DetP fun _ => True := by
    unfold sample
    refine Rand.DetP.lift.bind fun _ _ => Rand.DetP.lift.bind fun cs _ => (Model.detP_samplePath E.net cs h).bind fun c hc =>
      Rand.DetP.bind (P := fun _ => True) ?_ fun _ _ => Rand.DetP.lift
    unfold sampleLeaf
    rw [MvnLeaf.sampleAll_eq]
    unfold MvnLeaf.raw
    rw [if_pos (Or.inl hc), Rand.pure_bind]
    exact Rand.DetP.lift.bind fun _ _ => Rand.DetP.lift
  exact this.det

/-- outcomes of the values in MPE mode. -/
theorem values_greedy {E : MvnEinet} {g : Nat → Nat → Nat} (h : E.WF g) (hp : E.leaf.pad_value = 0)
    (hnd : ∀ B, E.net.leaf ≠ .direct B) (hF0 : 0 < E.leaf.num_features) {a : SampleArgs} (hm : a.is_mpe = true)
    (hN : 0 < a.count) (hT : a.temperature_sums ≠ 0) (hc : E.net.ClassOK a.count a.class_index) {cond : Bool} {cs : Caches}
    {e : Nat → Row} (hev : E.net.EvM cond a.count cs e) (he : E.net.FinRows a.count e) :
    ((E.net.corePath a cs).bind fun ctx => E.sampleLeaf ctx).All fun t =>
      ∃ (cls : Nat → Nat) (idx : Nat → Nat → Nat) (rr : Nat → Nat), t.Is3 a.count E.leaf.num_channels E.width
        (fun n c f => E.leaf.loc [c, f / E.leaf.cardinality, idx n (E.net.grpS g (rr n) (f % E.leaf.out_features)), rr n]
          ⟨f % E.leaf.cardinality, Nat.mod_lt _ h.card⟩) ∧
      ∀ n, n < a.count → (∀ d, d < E.net.numOut → idx n d < E.net.num_leaves) ∧
        E.net.GreedyChoice a n (pRow (e n)) (cls n) (rr n) (idx n) := by
  refine (Model.corePath_greedy h.net hm hN hT hc hev he).bind fun ctx ⟨cls, idx, rr, hctx, hce, hall⟩ => ?_
  obtain ⟨s, h1, h2⟩ := sampleLeaf_mode h hp hnd hF0 hN hctx (Or.inl (by rw [hce]; exact hm))
  rw [h1]
  exact ⟨cls, idx, rr, h2, fun n hn => ⟨fun d hd => hctx.io_lt n hn d hd, hall n hn⟩⟩

end MvnEinet
end Einet
