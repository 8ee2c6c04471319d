import Verif.Mvn
import Verif.BuildWF

/-!
# Facts about einets with multivariate normal leaves
-/

open Classical MeasureTheory ProbabilityTheory Matrix
open scoped ENNReal
noncomputable section
namespace Einet
open Tensor

namespace MvnLeaf

theorem out_mul {L : MvnLeaf} (hK : 0 < L.cardinality) (hp : L.pad_value = 0) :
    L.out_features * L.cardinality = L.num_features := by
  unfold out_features
  unfold pad_value at hp
  obtain ⟨m, hm⟩ := Nat.dvd_of_mod_eq_zero hp
  rw [hm]
  have : (L.cardinality * m + L.cardinality - 1) / L.cardinality = m := by
    have h1 : L.cardinality * m + L.cardinality - 1 = (L.cardinality - 1) + L.cardinality * m := by omega
    rw [h1, Nat.add_mul_div_left _ _ hK, Nat.div_eq_of_lt (by omega), zero_add]
  rw [this, Nat.mul_comm]

theorem lowerPos (L : MvnLeaf) (j : List Nat) : LowerPos (L.scale_tril j) where
  pos i := by simp [scale_tril, Real.exp_pos]
  zero i k h := by simp [scale_tril, h.ne, not_lt.2 h.le]

theorem distLogProb_congr {L : MvnLeaf} {j : List Nat} {v w : Nat → Fl} (h : ∀ k, k < L.cardinality → v k = w k) :
    L.distLogProb j v = L.distLogProb j w := by
  unfold distLogProb
  have h1 : (∀ k, k < L.cardinality → (v k).IsFin) ↔ ∀ k, k < L.cardinality → (w k).IsFin :=
    forall_congr' fun k => imp_congr_right fun hk => by rw [h k hk]
  have h2 : (fun k : Fin L.cardinality => (v k).val) = fun k : Fin L.cardinality => (w k).val := by ext k; rw [h k k.2]
  rw [h2]
  by_cases hv : ∀ k, k < L.cardinality → (v k).IsFin
  · rw [if_pos hv, if_pos (h1.1 hv)]
  · rw [if_neg hv, if_neg (fun e => hv (h1.2 e))]

theorem distLogProb_fin {L : MvnLeaf} {j : List Nat} {v : Nat → Fl} (h : ∀ k, k < L.cardinality → (v k).IsFin) :
    L.distLogProb j v = .fin (mvnLogProb (L.loc j) (L.scale_tril j) fun k => (v k).val) := if_pos h

theorem logProb_is {L : MvnLeaf} (hK : 0 < L.cardinality) (hp : L.pad_value = 0) {x : Tensor Fl} {N : Nat}
    {X : Nat → Data} (hx : x.Is3 N L.num_channels L.num_features X) :
    Res.Sat (L.logProb (x.unsqueezeEnd 2)) fun y =>
      y.Is5 N L.num_channels L.out_features L.num_leaves L.num_repetitions fun n c b i r =>
        L.distLogProb [c, b, i, r] fun k => X n c (b * L.cardinality + k) := by
  have hF := out_mul hK hp
  have hx' := unsqueezeEnd_is 2 hx
  unfold logProb
  refine Res.Sat.require hp ?_
  have s0 : (x.unsqueezeEnd 2).size 0 = N := by simp [size, hx'.1, at']
  rw [s0]
  refine (view_is hx' (s' := [N, L.num_channels, L.out_features, 1, 1, L.cardinality])
    (by simp only [numelS, List.replicate, List.cons_append, List.nil_append]; rw [← hF]; ring)).bind fun y hy => ?_
  refine (expand_is (s' := [N, L.num_channels, L.out_features, L.num_leaves, L.num_repetitions, L.cardinality]) hy
    (by simp [expandShape])).bind fun z hz => ?_
  have s1 : z.size 0 = N := by simp [size, hz.1, at']
  rw [s1]
  refine (view_is hz (s' := [N, L.num_dists, L.cardinality])
    (by simp only [numelS, num_dists, paramShape]; ring)).bind fun w hw => ?_
  have s2 : w.size 0 = N := by simp [size, hw.1, at']
  rw [s2]
  have hv : (⟨[N, L.num_dists], fun j => L.distLogProb (unflat L.paramShape (at' 1 j)) fun k => w.get [at' 0 j, at' 1 j, k]⟩ :
      Tensor Fl).Is [N, L.num_dists] _ := Is.intro rfl fun _ _ => rfl
  refine (view_is hv (s' := [N, L.num_channels, L.out_features, L.num_leaves, L.num_repetitions])
    (by simp only [numelS, num_dists, paramShape]; ring)).mono fun u hu => ?_
  refine Is.congr hu ((AllIdx_iff _ _).2 fun j hj => ?_)
  match j, hj with
  | [n, c, b, i, r], ⟨hn, hc, hb, hi, hr, _⟩ =>
    have hj' : InB L.paramShape [c, b, i, r] := ⟨hc, hb, hi, hr, trivial⟩
    have e : unflat [N, L.num_dists] (flat [N, L.num_channels, L.out_features, L.num_leaves, L.num_repetitions] [n, c, b, i, r]) =
        [n, flat L.paramShape [c, b, i, r]] := by
      refine unflat_eq ⟨hn, flat_lt hj', trivial⟩ ?_
      simp only [flat, numelS, num_dists, paramShape]; ring
    rw [e]
    simp only [at']
    rw [unflat_flat hj']
    refine distLogProb_congr fun k hk => ?_
    rw [hw.get (i := [n, flat L.paramShape [c, b, i, r], k]) ⟨hn, flat_lt hj', hk, trivial⟩]
    have e1 : unflat [N, L.num_channels, L.out_features, L.num_leaves, L.num_repetitions, L.cardinality]
        (flat [N, L.num_dists, L.cardinality] [n, flat L.paramShape [c, b, i, r], k]) = [n, c, b, i, r, k] := by
      refine unflat_eq ⟨hn, hc, hb, hi, hr, hk, trivial⟩ ?_
      simp only [flat, numelS, num_dists, paramShape]; ring
    have hf : b * L.cardinality + k < L.num_features := by
      rw [← hF]
      calc b * L.cardinality + k < b * L.cardinality + L.cardinality := by omega
        _ = (b + 1) * L.cardinality := by ring
        _ ≤ _ := Nat.mul_le_mul_right _ hb
    have e2 : unflat ([N, L.num_channels, L.num_features] ++ List.replicate 2 1)
        (flat [N, L.num_channels, L.out_features, 1, 1, L.cardinality] [n, c, b, 0, 0, k]) =
        [n, c, b * L.cardinality + k, 0, 0] := by
      refine unflat_eq ⟨hn, hc, hf, by simp [InB]⟩ ?_
      simp only [flat, numelS, List.replicate, List.cons_append, List.nil_append]
      rw [← hF]
      ring
    rw [e1]
    simp only [clipAll, clip_of_lt, hn, hc, hb, hk]
    rw [show clip 1 i = 0 by simp [clip], show clip 1 r = 0 by simp [clip], e2]
    rfl

/-- `AbstractLeaf.forward` on finite data without marginalization. -/
theorem forward_is {L : MvnLeaf} (hK : 0 < L.cardinality) (hp : L.pad_value = 0) {x : Tensor Fl} {N : Nat}
    {X : Nat → Data} (hx : x.Is3 N L.num_channels L.num_features X)
    (hfin : ∀ n, n < N → ∀ c, c < L.num_channels → ∀ f, f < L.num_features → (X n c f).IsFin)
    {ms : Option Scopes} {l : List Nat}
    (hs : match ms with | none => l = [] | some s => (L.adjust s >>= fun s => s.resolve L.out_features) = .ok l) :
    Res.Sat (L.forward x ms) fun y =>
      y.Is5 N L.num_channels L.out_features L.num_leaves L.num_repetitions fun n c b i r =>
        if b ∈ l then .fin 0 else
        L.distLogProb [c, b, i, r] fun k => X n c (b * L.cardinality + k) := by
  have hnn : ∀ n, n < N → ∀ c, c < L.num_channels → ∀ f, f < L.num_features → (X n c f).isnan = false := by
    intro n hn c hc f hf
    obtain ⟨a, ha⟩ := hfin n hn c hc f hf
    rw [ha]; rfl
  have h0 : (x.map fun v => if v.isnan then Fl.fin 0 else v).Is3 N L.num_channels L.num_features X := by
    refine Is.is3 (map_is _ hx) ?_
    intro n hn c hc f hf
    simp only [at', hnn n hn c hc f hf]
    rfl
  unfold forward
  refine (logProb_is hK hp h0).bind fun y hy => ?_
  have hput : L.putNan x y = .ok y := by
    unfold putNan
    rw [if_pos]
    rw [hx.1, AllIdx_iff]
    intro j hj
    match j, hj with
    | [n, c, f], ⟨hn, hc, hf, _⟩ =>
      rw [hx.get hn hc hf]
      exact hnn n hn c hc f hf
  rw [hput]
  simp only [Res.ok_bind]
  have hF := out_mul hK hp
  have hlt : ∀ b, b < L.out_features → ∀ k, k < L.cardinality → b * L.cardinality + k < L.num_features := by
    intro b hb k hk
    rw [← hF]
    calc b * L.cardinality + k < b * L.cardinality + L.cardinality := by omega
      _ = (b + 1) * L.cardinality := by ring
      _ ≤ _ := Nat.mul_le_mul_right _ hb
  cases ms with
  | none =>
    subst hs
    refine Res.Sat.pure ?_
    refine Is.congr (map_is _ hy) ((AllIdx_iff _ _).2 fun j hj => ?_)
    match j, hj with
    | [n, c, b, i, r], ⟨hn, hc, hb, hi, hr, _⟩ =>
      have e := distLogProb_fin (j := [c, b, i, r]) (v := fun k => X n c (b * L.cardinality + k))
        fun k hk => hfin n hn c hc _ (hlt b hb k hk)
      have hnil : b ∉ ([] : List Nat) := List.not_mem_nil
      refine Eq.trans (b := L.distLogProb [c, b, i, r] fun k => X n c (b * L.cardinality + k)) ?_ (if_neg hnil).symm
      show (if (L.distLogProb [c, b, i, r] fun k => X n c (b * L.cardinality + k)).isnan = true then Fl.fin 0
        else L.distLogProb [c, b, i, r] fun k => X n c (b * L.cardinality + k)) = _
      rw [e]
      rfl
  | some s =>
    obtain ⟨s', h1, h2⟩ := bind_ok hs
    show Res.Sat (L.adjust s >>= fun s => s.resolve L.out_features >>= fun l => _) _
    rw [h1]
    simp only [Res.ok_bind]
    rw [h2]
    refine Res.Sat.pure (Is.intro hy.1 fun j hj => ?_)
    match j, hj with
    | [n, c, b, i, r], ⟨hn, hc, hb, hi, hr, _⟩ =>
      by_cases hm : b ∈ l
      · exact (if_pos hm).trans (if_pos hm).symm
      · exact (if_neg hm).trans ((hy.get (i := [n, c, b, i, r]) ⟨hn, hc, hb, hi, hr, trivial⟩).trans (if_neg hm).symm)

end MvnLeaf

/-! ### Layers above an arbitrary leaf layer

The results about `Model` are for leaves of single features.  For given values `Y` of the leaf layer on a batch, a fictitious
leaf with those values on fictitious data carries them over. -/

/-- a leaf with the values `Y n` on the datum `n`. -/
def BaseLeaf.ghost (B : BaseLeaf) (Y : Nat → Nat → Nat → Nat → Nat → Fl) : BaseLeaf :=
  { B with logProb := fun c f i r x => Y ⌊x.val⌋₊ c f i r, valid := fun _ _ => True }

/-- replacing the base leaf. -/
def Leaf.withBase (G : BaseLeaf) : Leaf → Leaf
  | .direct _ => .direct G
  | .factorized L => .factorized { L with base := G }
  | .simple L => .simple { L with base := G }

/-- the model with the fictitious leaf. -/
def Model.ghost (M : Model) (Y : Nat → Nat → Nat → Nat → Nat → Fl) : Model :=
  { M with leaf := M.leaf.withBase (M.leaf.base.ghost Y) }

namespace Model

theorem ghost_base (M : Model) (Y : Nat → Nat → Nat → Nat → Nat → Fl) : (M.ghost Y).leaf.base = M.leaf.base.ghost Y := by
  unfold ghost
  cases M.leaf <;> rfl

theorem ghost_merge (M : Model) (Y : Nat → Nat → Nat → Nat → Nat → Fl) : (M.ghost Y).leaf.merge = M.leaf.merge := by
  unfold ghost
  cases M.leaf <;> rfl

theorem ghost_upper (M : Model) (Y : Nat → Nat → Nat → Nat → Nat → Fl) : (M.ghost Y).upper = M.upper := by
  obtain ⟨_, _, _, _, _, leaf, _, _, _, _⟩ := M
  cases leaf <;> rfl

theorem ghost_numOut (M : Model) (Y : Nat → Nat → Nat → Nat → Nat → Fl) : (M.ghost Y).numOut = M.numOut := by
  obtain ⟨_, _, _, _, _, leaf, _, _, _, _⟩ := M
  cases leaf <;> rfl

theorem ghost_outP (M : Model) (Y : Nat → Nat → Nat → Nat → Nat → Fl) : (M.ghost Y).outP = M.outP := by
  obtain ⟨_, _, _, _, _, leaf, _, _, _, _⟩ := M
  cases leaf <;> rfl

theorem ghost_WF {M : Model} {g : Nat → Nat → Nat} (h : M.WF g) (Y : Nat → Nat → Nat → Nat → Nat → Fl) : (M.ghost Y).WF g := by
  have hf := h.front
  refine ⟨⟨?_, ?_, ?_, ?_, ?_, ?_, ?_, hf.perm⟩, ?_, h.classes_pos, h.leaves_pos, h.reps_pos, h.mix, h.root⟩
  · rw [ghost_base]; exact hf.features
  · rw [ghost_base]; exact hf.channels
  · rw [ghost_base]; exact hf.leaves
  · rw [ghost_base]; exact hf.reps
  · intro L hL
    cases hl : M.leaf with
    | direct B => simp [ghost, hl, Leaf.withBase] at hL
    | simple B => simp [ghost, hl, Leaf.withBase] at hL
    | factorized L' =>
      simp only [ghost, hl, Leaf.withBase, Leaf.factorized.injEq] at hL
      subst hL
      have := hf.fact L' hl
      exact ⟨this.shape, this.entry, this.lt⟩
  · intro L hL
    cases hl : M.leaf with
    | direct B => simp [ghost, hl, Leaf.withBase] at hL
    | factorized B => simp [ghost, hl, Leaf.withBase] at hL
    | simple L' =>
      simp only [ghost, hl, Leaf.withBase, Leaf.simple.injEq] at hL
      subst hL
      have := hf.simple L' hl
      exact ⟨this.reps, this.out_pos, this.perm⟩
  · intro hB
    refine hf.noperm fun B hl => ?_
    exact hB (B.ghost Y) (by simp [ghost, hl, Leaf.withBase, Leaf.base])
  · rw [ghost_numOut]; exact h.chain

theorem outP_congr {M : Model} {g : Nat → Nat → Nat} (h : M.WF g) {T : ℝ} {p q : Nat → Nat → Nat → Nat → ℝ≥0∞}
    (hpq : ∀ c, c < M.num_channels → ∀ f, f < M.num_features → ∀ i, i < M.num_leaves → ∀ r, r < M.num_repetitions →
      p c f i r = q c f i r) {s : Nat} (hs : s < M.num_classes) : M.outP g T p s = M.outP g T q s := by
  have hreg : ∀ o i, i < M.num_leaves → ∀ r, r < M.num_repetitions → M.regionP g p o i r = M.regionP g q o i r := by
    intro o i hi r hr
    unfold regionP
    refine Finset.prod_congr rfl fun f hf => ?_
    split_ifs
    · exact Finset.prod_congr rfl fun c hc => hpq c (by simpa using hc) f (by simpa using hf) i hi r hr
    · rfl
  unfold outP
  split_ifs
  · refine Finset.sum_congr rfl fun r hr => ?_
    rw [denL_congr h.chain (fun d hd i hi => hreg d i hi r (by simpa using hr)) (by omega) hs]
  · exact denL_congr h.chain (fun d hd i hi => hreg d i hi 0 h.reps_pos) (by omega) hs

/-- The layers above a leaf layer with finite values `Y`. -/
theorem merge_upper_is {M : Model} {g : Nat → Nat → Nat} (h : M.WF g) {y : Tensor Fl} {N : Nat}
    {Y : Nat → Nat → Nat → Nat → Nat → Fl} (hy : y.Is5 N M.num_channels M.num_features M.num_leaves M.num_repetitions Y)
    (hfin : ∀ n, n < N → ∀ c, c < M.num_channels → ∀ f, f < M.num_features → ∀ i, i < M.num_leaves →
      ∀ r, r < M.num_repetitions → (Y n c f i r).IsFin) :
    ∃ V : Nat → Nat → Fl, (∀ n, n < N → ∀ s, s < M.num_classes →
        (V n s).IsFin ∧ toP (V n s) = M.outP g 1 (fun c f i r => toP (Y n c f i r)) s) ∧
      Res.Sat (M.leaf.merge y >>= M.upper) fun z => z.1.Is2 N M.num_classes V := by
  have hW := ghost_WF h Y
  have hentry : ∀ n, n < N → ∀ c, c < M.num_channels → ∀ f, f < M.num_features → ∀ i, i < M.num_leaves →
      ∀ r, r < M.num_repetitions → (M.ghost Y).leaf.base.entry none (.fin n) c f i r = Y n c f i r := by
    intro n hn c hc f hf i hi r hr
    rw [ghost_base]
    have e : (M.leaf.base.ghost Y).logProb c f i r (.fin n) = Y n c f i r := by
      show Y ⌊(n : ℝ)⌋₊ c f i r = _
      rw [Nat.floor_natCast]
    obtain ⟨a, ha⟩ := hfin n hn c hc f hf i hi r hr
    rw [ha] at e
    show (if ((M.leaf.base.ghost Y).logProb c f i r (.fin n)).isnan = true then Fl.fin 0
      else (M.leaf.base.ghost Y).logProb c f i r (.fin n)) = _
    rw [e, ha]
    rfl
  refine ⟨fun n s => (M.ghost Y).outRow none (fun _ _ => .fin n) s, fun n hn s hs => ?_, ?_⟩
  · have := outRow_den hW (b := true) (fun _ => rfl) (sc := none) (X := fun _ _ => .fin n)
      (fun c hc f hf i hi r hr => by
        rw [hentry n hn c hc f hf i hi r hr]
        exact hfin n hn c hc f hf i hi r hr) hs
    refine ⟨this.1, this.2.trans ?_⟩
    rw [ghost_outP]
    exact outP_congr h (fun c hc f hf i hi r hr => congrArg toP (hentry n hn c hc f hf i hi r hr)) hs
  · rw [← ghost_merge M Y, ← ghost_upper M Y]
    have hsum : Res.Sat (y.sum 1) fun z => z.Is4 N (M.ghost Y).leaf.base.num_features (M.ghost Y).leaf.base.num_leaves
        (M.ghost Y).leaf.base.num_repetitions fun n => (M.ghost Y).leaf.base.leafSum none fun _ _ => .fin n := by
      rw [hW.front.features, hW.front.leaves, hW.front.reps]
      refine (sum_is hy (by simp)).mono fun z hz => Is.is4 hz ?_
      intro n hn f hf i hi r hr
      simp only [insAt, at', BaseLeaf.leafSum]
      rw [hW.front.channels]
      exact Fl.sumN_congr fun c hc => (hentry n hn c hc f hf i hi r hr).symm
    refine (merge_is hW.front hsum).bind fun z hz => ?_
    exact (upper_is hW hz).mono fun w hw => hw.1

end Model
end Einet
