import Verif.CondFacts

/-!
# `ConditionalBinomial`: the forward pass
-/

open Classical MeasureTheory
open scoped ENNReal
noncomputable section
namespace Einet
open Tensor

theorem bcast_inB {a b r i : List Nat} (h : bcastShape a b = some r) (hi : InB r i) : InB a (clipAll a i) ∧ InB b (clipAll b i) := by
  induction a generalizing b r i with
  | nil =>
    cases b with
    | nil => simp [clipAll]
    | cons _ _ => simp [bcastShape] at h
  | cons m a ih =>
    cases b with
    | nil => simp [bcastShape] at h
    | cons n b =>
      simp only [bcastShape, Option.bind_eq_bind, Option.bind_eq_some_iff] at h
      obtain ⟨r', hr', h⟩ := h
      have key : ∃ k, r = k :: r' ∧ (∀ j, j < k → clip m j < m ∧ clip n j < n) := by
        split_ifs at h with h1 h2 h3
        · cases h
          subst h1
          exact ⟨m, rfl, fun j hj => ⟨by rw [clip_of_lt hj]; exact hj, by rw [clip_of_lt hj]; exact hj⟩⟩
        · cases h
          subst h2
          exact ⟨n, rfl, fun j hj => ⟨by simp [clip], by rw [clip_of_lt hj]; exact hj⟩⟩
        · cases h
          subst h3
          exact ⟨m, rfl, fun j hj => ⟨by rw [clip_of_lt hj]; exact hj, by simp [clip]⟩⟩
      obtain ⟨k, rfl, hk⟩ := key
      cases i with
      | nil => simp [InB] at hi
      | cons j i =>
        obtain ⟨hj, hi⟩ := hi
        exact ⟨⟨(hk j hj).1, (ih hr' hi).1⟩, ⟨(hk j hj).2, (ih hr' hi).2⟩⟩

theorem bcast_is {α β γ : Type} {f : α → β → γ} {s : Tensor α} {t : Tensor β} {a b r : List Nat} {ga : List Nat → α}
    {gb : List Nat → β} (hs : s.Is a ga) (ht : t.Is b gb) (h : bcastShape a b = some r) :
    Res.Sat (bcast f s t) fun u => u.Is r fun i => f (ga (clipAll a i)) (gb (clipAll b i)) := by
  unfold bcast
  rw [hs.1, ht.1, h]
  refine Res.Sat.ok (Is.intro rfl fun i hi => ?_)
  obtain ⟨h1, h2⟩ := bcast_inB h hi
  show f _ _ = _
  rw [hs.get h1, ht.get h2]

theorem resolve_lt {F : Nat} {s : Scopes} {l : List Nat} (h : s.resolve F = .ok l) : ∀ k ∈ l, k < F := by
  unfold Scopes.resolve at h
  obtain ⟨_, -, h⟩ := bind_ok h
  obtain ⟨_, h2, h⟩ := bind_ok h
  rw [require_ok_iff] at h2
  simp only [Res.pure_eq, Except.ok.injEq] at h
  subst h
  intro k hk
  obtain ⟨i, hi, rfl⟩ := List.mem_map.1 hk
  have := h2 i hi
  unfold wrapIdx
  split_ifs <;> omega

/-- `fn` maps a batch of finite images `[N, C, H, H]` to `N * K` finite numbers, `K` for each image and depending on that
image alone: `g img j` is the `j`-th one. -/
def RowWise (fn : Tensor Fl → Res (Tensor Fl)) (C H K : Nat) (g : (Nat → Nat → Nat → Fl) → Nat → ℝ) : Prop :=
  ∀ (N : Nat) (x : Tensor Fl) (X : Nat → Nat → Nat → Nat → Fl), 0 < N → x.Is4 N C H H X →
    (∀ n, n < N → ∀ c, c < C → ∀ a, a < H → ∀ b, b < H → (X n c a b).IsFin) →
    Res.Sat (fn x) fun y => y.numel = N * K ∧ ∀ n, n < N → ∀ j, j < K → y.get (unflat y.shape (n * K + j)) = .fin (g (X n) j)

/-- the values depend on the entries of the image only. -/
theorem RowWise.congr {fn : Tensor Fl → Res (Tensor Fl)} {C H K : Nat} {g : (Nat → Nat → Nat → Fl) → Nat → ℝ}
    (h : RowWise fn C H K g) {X Y : Nat → Nat → Nat → Fl}
    (hX : ∀ c, c < C → ∀ a, a < H → ∀ b, b < H → (X c a b).IsFin)
    (hXY : ∀ c, c < C → ∀ a, a < H → ∀ b, b < H → X c a b = Y c a b) {j : Nat} (hj : j < K) : g X j = g Y j := by
  let x : Tensor Fl := ⟨[1, C, H, H], fun i => X (at' 1 i) (at' 2 i) (at' 3 i)⟩
  have hx : x.Is4 1 C H H fun _ => X := Is.is4 (Is.refl x rfl) fun _ _ _ _ _ _ _ _ => rfl
  have hy : x.Is4 1 C H H fun _ => Y := Is.is4 (Is.refl x rfl) fun _ _ c hc a ha b hb => hXY c hc a ha b hb
  obtain ⟨y, e, -, h1⟩ := h 1 x _ one_pos hx fun _ _ => hX
  obtain ⟨y', e', -, h2⟩ := h 1 x _ one_pos hy fun _ _ c hc a ha b hb => by rw [← hXY c hc a ha b hb]; exact hX c hc a ha b hb
  rw [e] at e'
  cases e'
  have := (h1 0 (by omega) j hj).symm.trans (h2 0 (by omega) j hj)
  exact Fl.fin.inj this

namespace CondLeaf
variable (L : CondLeaf)

/-- side of the conditioning image. -/
def side (l : List Nat) : Nat := Nat.sqrt l.length

/-- number of outputs of `cond_fn` per row. -/
def outs (l : List Nat) : Nat := L.num_channels * L.num_leaves * L.num_repetitions * l.length

/-- the conditioning image of a row. -/
def img (l : List Nat) (X : Data) : Nat → Nat → Nat → Fl := fun c a b => X c (l.getD (a * side l + b) 0)

/-- the logits of a row. -/
def theta (g : (Nat → Nat → Nat → Fl) → Nat → ℝ) (l : List Nat) (X : Data) : Par := fun c f i r =>
  if f < L.num_features / 2 then L.probs_conditioned_base c f i r +
    g (img l X) (((c * L.num_leaves + i) * L.num_repetitions + r) * l.length + clip l.length f)
  else L.probs_unconditioned c (f - L.num_features / 2) i r

/-- the leaf can be used: a square number of conditioning features, as many as there are conditioned features or one. -/
structure OK (g : (Nat → Nat → Nat → Fl) → Nat → ℝ) (l : List Nat) : Prop where
  even : L.num_features / 2 + L.num_features / 2 = L.num_features
  pos : 0 < L.num_features / 2
  channels : 0 < L.num_channels
  leaves : 0 < L.num_leaves
  reps : 0 < L.num_repetitions
  resolve : L.cond_idxs.resolve L.num_features = .ok l
  square : side l * side l = l.length
  len : l.length = L.num_features / 2 ∨ l.length = 1
  fn : RowWise L.cond_fn L.num_channels (side l) (L.outs l) g

variable {L : CondLeaf} {g : (Nat → Nat → Nat → Fl) → Nat → ℝ} {l : List Nat}

theorem theta_lt {X : Data} {c f i r : Nat} (hf : f < L.num_features / 2) : L.theta g l X c f i r =
    L.probs_conditioned_base c f i r +
      g (img l X) (((c * L.num_leaves + i) * L.num_repetitions + r) * l.length + clip l.length f) := if_pos hf

theorem theta_ge {X : Data} {c f i r : Nat} (hf : ¬ f < L.num_features / 2) : L.theta g l X c f i r =
    L.probs_unconditioned c (f - L.num_features / 2) i r := if_neg hf

/-- **The logits.** -/
theorem logits_is (h : L.OK g l) {x : Tensor Fl} {N : Nat} (hN : 0 < N) {X : Nat → Data}
    (hx : x.Is3 N L.num_channels L.num_features X)
    (hX : ∀ n, n < N → ∀ c, c < L.num_channels → ∀ f ∈ l, (X n c f).IsFin) :
    Res.Sat (L.logits x) fun t => t.Is5 N L.num_channels L.num_features L.num_leaves L.num_repetitions
      fun n c f i r => .fin (L.theta g l (X n) c f i r) := by
  have hlt := resolve_lt h.resolve
  have hlp : 0 < l.length := by have := h.pos; rcases h.len with e | e <;> omega
  have hmem : ∀ k, k < l.length → l.getD k 0 ∈ l := fun k hk => by
    rw [List.getD_eq_getElem _ _ hk]; exact List.getElem_mem hk
  have hcond : Res.Sat (L.condInput x) fun t => t.Is [N, L.num_channels, l.length, 1, 1]
      fun j => X (at' 0 j) (at' 1 j) (l.getD (at' 2 j) 0) := by
    unfold condInput
    refine Res.Sat.require (by simp [rank, hx.1]) ?_
    rw [show x.size 2 = L.num_features by simp [size, hx.1, at'], h.resolve]
    refine (indexDim2_is hx (by simp) (p := l) (by simpa [at'] using hlt)).bind fun y hy => Res.Sat.pure ?_
    refine (unsqueezeEnd_is 2 hy).congr ((AllIdx_iff _ _).2 fun j hj => ?_)
    match j, hj with
    | [n, c, k, a, b], _ => rfl
  unfold logits
  refine hcond.bind fun xc hxc => ?_
  have e0 : xc.size 0 = N := by simp [size, hxc.1, at']
  have e1 : xc.size 1 = L.num_channels := by simp [size, hxc.1, at']
  have e2 : xc.size 2 = l.length := by simp [size, hxc.1, at']
  rw [e0, e1, e2]
  have hs : Nat.sqrt l.length * Nat.sqrt l.length = l.length := h.square
  refine Res.Sat.require hs (Res.Sat.require ?_ ?_)
  · rw [numel, hxc.1]
    have := h.channels
    simp only [numelS]
    positivity
  refine (view_is hxc (s' := [N, L.num_channels, Nat.sqrt l.length, Nat.sqrt l.length]) (by simp [numelS, hs])).bind
    fun xi hxi => ?_
  have himg : xi.Is4 N L.num_channels (side l) (side l) fun n => img l (X n) := by
    refine Is.is4 hxi fun n hn c hc a ha b hb => ?_
    have hab : a * side l + b < l.length := by
      have : a * side l + b < side l * side l := by
        calc a * side l + b < a * side l + side l := by omega
          _ = (a + 1) * side l := by ring
          _ ≤ side l * side l := Nat.mul_le_mul_right _ ha
      rwa [h.square] at this
    have e : unflat [N, L.num_channels, l.length, 1, 1] (flat [N, L.num_channels, Nat.sqrt l.length, Nat.sqrt l.length] [n, c, a, b]) =
        [n, c, a * side l + b, 0, 0] := by
      refine unflat_eq ⟨hn, hc, hab, by simp, by simp, trivial⟩ ?_
      simp only [flat, numelS, mul_one, side]
      rw [hs]; ring
    rw [e]
    rfl
  have hfinI : ∀ n, n < N → ∀ c, c < L.num_channels → ∀ a, a < side l → ∀ b, b < side l → (img l (X n) c a b).IsFin := by
    intro n hn c hc a ha b hb
    refine hX n hn c hc _ (hmem _ ?_)
    have : a * side l + b < side l * side l := by
      calc a * side l + b < a * side l + side l := by omega
        _ = (a + 1) * side l := by ring
        _ ≤ side l * side l := Nat.mul_le_mul_right _ ha
    rwa [h.square] at this
  refine (h.fn N xi _ hN himg hfinI).bind fun y ⟨hy1, hy2⟩ => ?_
  rw [hs]
  have hview : Res.Sat (y.view [N, L.num_channels, L.num_leaves, L.num_repetitions, l.length]) fun t =>
      t.Is [N, L.num_channels, L.num_leaves, L.num_repetitions, l.length] fun j =>
        .fin (g (img l (X (at' 0 j))) (((at' 1 j * L.num_leaves + at' 2 j) * L.num_repetitions + at' 3 j) * l.length + at' 4 j)) := by
    unfold view
    refine Res.Sat.require (by rw [hy1]; simp only [numelS, outs, mul_one]; ring) (Res.Sat.pure (Is.intro rfl fun j hj => ?_))
    match j, hj with
    | [n, c, i, r, k], ⟨hn, hc, hi, hr, hk, _⟩ =>
      have hb : ((c * L.num_leaves + i) * L.num_repetitions + r) * l.length + k < L.outs l := by
        have := flat_lt (s := [L.num_channels, L.num_leaves, L.num_repetitions, l.length]) (i := [c, i, r, k]) ⟨hc, hi, hr, hk, trivial⟩
        simp only [flat, numelS, mul_one] at this
        unfold outs
        calc _ = c * (L.num_leaves * (L.num_repetitions * l.length)) + (i * (L.num_repetitions * l.length) + (r * l.length + (k + 0))) := by ring
          _ < _ := this
          _ = _ := by ring
      have := hy2 n hn _ hb
      refine Eq.trans ?_ this
      show y.get _ = y.get _
      congr 2
      simp only [flat, numelS, mul_one, outs]
      ring
  refine hview.bind fun v hv => ?_
  refine (permute_is hv (p := [0, 1, 4, 2, 3]) (by simp; decide) ?_).bind fun p hp => ?_
  · intro j hj
    match j, hj with
    | [n, c, k, i, r], ⟨hn, hc, hk, hi, hr, _⟩ => exact ⟨hn, hc, hi, hr, hk, trivial⟩
  have hp' : p.Is [N, L.num_channels, l.length, L.num_leaves, L.num_repetitions] fun j =>
      .fin (g (img l (X (at' 0 j))) (((at' 1 j * L.num_leaves + at' 3 j) * L.num_repetitions + at' 4 j) * l.length + at' 2 j)) := by
    refine hp.congr ((AllIdx_iff _ _).2 fun j hj => ?_)
    match j, hj with
    | [n, c, k, i, r], _ => rfl
  have hbase : ∀ q : Par, (L.par q).Is [1, L.num_channels, L.num_features / 2, L.num_leaves, L.num_repetitions] fun j =>
      .fin (q (at' 1 j) (at' 2 j) (at' 3 j) (at' 4 j)) := fun q => Is.intro rfl fun _ _ => rfl
  have hsh : bcastShape [1, L.num_channels, L.num_features / 2, L.num_leaves, L.num_repetitions]
      [N, L.num_channels, l.length, L.num_leaves, L.num_repetitions] =
      some [N, L.num_channels, L.num_features / 2, L.num_leaves, L.num_repetitions] := by
    simp only [bcastShape, if_true, Option.pure_def, Option.bind_eq_bind, Option.bind_some]
    rcases h.len with e | e
    · rw [e]
      by_cases hN1 : N = 1
      · simp [hN1]
      · simp [Ne.symm hN1]
    · rw [e]
      by_cases hf : L.num_features / 2 = 1 <;> by_cases hN1 : N = 1
      · simp [hf, hN1]
      · simp [hf, Ne.symm hN1]
      · simp [hf, hN1]
      · simp [hf, Ne.symm hN1]
  refine (bcast_is (hbase _) hp' hsh).bind fun q hq => ?_
  refine (expand_is (hbase L.probs_unconditioned) (s' := [N, L.num_channels, L.num_features / 2, L.num_leaves, L.num_repetitions])
    (by simp [expandShape])).bind fun u hu => ?_
  refine (cat_is hq hu (by simp) (by simp [setAt])).bind fun t ht => ?_
  have ht5 : t.Is5 N L.num_channels L.num_features L.num_leaves L.num_repetitions
      fun n c f i r => .fin (L.theta g l (X n) c f i r) := by
    simp only [setAt, at', h.even] at ht
    refine ht.congr ((AllIdx_iff _ _).2 fun j hj => ?_)
    match j, hj with
    | [n, c, f, i, r], ⟨hn, hc, hf, hi, hr, _⟩ =>
      have hcl : ∀ m, m < L.num_features / 2 → clip (L.num_features / 2) m = m := fun m hm => clip_of_lt hm
      show _ = Fl.fin (L.theta g l (X n) c f i r)
      by_cases hf2 : f < L.num_features / 2
      · rw [theta_lt hf2]
        refine (if_pos hf2).trans ?_
        simp only [at', clipAll, clip_of_lt hn, clip_of_lt hc, clip_of_lt hi, clip_of_lt hr, hcl f hf2]
        rfl
      · rw [theta_ge hf2]
        refine (if_neg hf2).trans ?_
        have hev := h.even
        have hf' : f < L.num_features := hf
        have := hcl (f - L.num_features / 2) (by omega)
        simp only [at', clipAll, setAt, clip_of_lt hc, clip_of_lt hi, clip_of_lt hr, this]
  refine Res.Sat.require ?_ (Res.Sat.pure ht5)
  rw [AllIdx_iff]
  intro j hj
  rw [ht5.1] at hj
  rw [Is.get ht5 hj]
  rfl

/-- the binomial leaf with the logits of a row. -/
def leafAt (L : CondLeaf) (g : (Nat → Nat → Nat → Fl) → Nat → ℝ) (l : List Nat) (X : Data) : BaseLeaf :=
  binomialLeaf ⟨L.num_features, L.num_channels, L.num_leaves, L.num_repetitions⟩ L.total_count (L.theta g l X)

/-- admissible rows: counts, no missing value. -/
def Counts (L : CondLeaf) (X : Data) : Prop :=
  ∀ c, c < L.num_channels → ∀ f, f < L.num_features → ∃ k, k < L.total_count + 1 ∧ X c f = .fin (k : ℝ)

theorem Counts.observed {X : Data} (h : L.Counts X) (Y : Data) : (L.leafAt g l Y).Observed X := fun c hc f hf => by
  obtain ⟨k, hk, e⟩ := h c hc f hf
  exact Or.inr ⟨k, e, k, hk, rfl⟩

/-- **The leaf layer.** -/
theorem forward_is (h : L.OK g l) {x : Tensor Fl} {N : Nat} (hN : 0 < N) {X : Nat → Data}
    (hx : x.Is3 N L.num_channels L.num_features X) (hX : ∀ n, n < N → L.Counts (X n))
    {ms : Option Scopes} {sc : Option (List Nat)} (hsc : Scopes.resolveOpt L.num_features ms = .ok sc) :
    Res.Sat (L.forward x ms) fun y =>
      y.Is5 N L.num_channels L.num_features L.num_leaves L.num_repetitions fun n c f i r =>
        (L.leafAt g l (X n)).entry sc (X n c f) c f i r := by
  have hlt := resolve_lt h.resolve
  unfold forward
  refine (logits_is h hN hx fun n hn c hc f hf => ?_).bind fun t ht => ?_
  · obtain ⟨k, -, e⟩ := hX n hn c hc f (hlt f hf)
    exact ⟨_, e⟩
  refine Res.Sat.require ?_ ?_
  · rw [AllIdx_iff]
    intro j hj
    rw [hx.1] at hj
    match j, hj with
    | [n, c, f], ⟨hn, hc, hf, _⟩ =>
      rw [hx.get hn hc hf]
      exact hX n hn c hc f hf
  refine (bcast_is (unsqueezeEnd_is 2 hx) ht (r := [N, L.num_channels, L.num_features, L.num_leaves, L.num_repetitions]) ?_).bind
    fun y hy => ?_
  · show bcastShape [N, L.num_channels, L.num_features, 1, 1] _ = _
    simp only [bcastShape, if_true, Option.pure_def, Option.bind_eq_bind, Option.bind_some]
    by_cases h1 : L.num_leaves = 1 <;> by_cases h2 : L.num_repetitions = 1
    · simp [h1, h2]
    · simp [h1, Ne.symm h2]
    · simp [h2, Ne.symm h1]
    · simp [Ne.symm h1, Ne.symm h2]
  have hlog : ∀ n, n < N → ∀ c, c < L.num_channels → ∀ f, f < L.num_features → ∀ i, i < L.num_leaves → ∀ r, r < L.num_repetitions →
      y.get [n, c, f, i, r] = (L.leafAt g l (X n)).logProb c f i r (X n c f) := by
    intro n hn c hc f hf i hi r hr
    rw [hy.get (i := [n, c, f, i, r]) ⟨hn, hc, hf, hi, hr, trivial⟩]
    show binomialLogProb _ (X _ _ _) (Fl.fin (L.theta g l _ _ _ _ _)) = _
    simp only [List.replicate, List.cons_append, List.nil_append, clipAll, List.take, List.length, at', clip_of_lt hn, clip_of_lt hc,
      clip_of_lt hf, clip_of_lt hi, clip_of_lt hr]
    rfl
  have hfin : ∀ n, n < N → ∀ c, c < L.num_channels → ∀ f, f < L.num_features → ∀ i, i < L.num_leaves → ∀ r, r < L.num_repetitions →
      (X n c f).isnan = false ∧ ((L.leafAt g l (X n)).logProb c f i r (X n c f)).isnan = false := by
    intro n hn c hc f hf i hi r hr
    obtain ⟨k, hk, e⟩ := hX n hn c hc f hf
    obtain ⟨w, hw⟩ := (binomialLeaf_proper ⟨L.num_features, L.num_channels, L.num_leaves, L.num_repetitions⟩ L.total_count
      (L.theta g l (X n))).isFin c hc f hf i hi r hr (k : ℝ) ⟨k, hk, rfl⟩
    refine ⟨by rw [e]; rfl, ?_⟩
    rw [e]
    show ((binomialLeaf _ _ _).logProb c f i r _).isnan = false
    rw [hw]
    rfl
  cases ms with
  | none =>
    obtain rfl : sc = none := by cases hsc; rfl
    refine Res.Sat.pure (Is.intro hy.1 fun j hj => ?_)
    match j, hj with
    | [n, c, f, i, r], ⟨hn, hc, hf, hi, hr, _⟩ =>
      show (if (y.get [n, c, f, i, r]).isnan = true then Fl.fin 0 else y.get [n, c, f, i, r]) = BaseLeaf.entry _ _ _ _ _ _ _
      rw [hlog n hn c hc f hf i hi r hr]
      simp [BaseLeaf.entry, at', (hfin n hn c hc f hf i hi r hr).1, (hfin n hn c hc f hf i hi r hr).2]
  | some s =>
    obtain ⟨lm, rfl, hlm⟩ := Model.resolveOpt_some hsc
    unfold marginalize
    dsimp only
    rw [show y.size 2 = L.num_features by simp [size, hy.1, at'], hlm]
    refine Res.Sat.pure (Is.intro hy.1 fun j hj => ?_)
    match j, hj with
    | [n, c, f, i, r], ⟨hn, hc, hf, hi, hr, _⟩ =>
      show (if f ∈ lm then Fl.fin 0 else y.get [n, c, f, i, r]) = BaseLeaf.entry _ _ _ _ _ _ _
      rw [hlog n hn c hc f hf i hi r hr]
      simp only [BaseLeaf.entry, at', (hfin n hn c hc f hf i hi r hr).1]
      rfl

end CondLeaf
end Einet
