import Verif.CondBuild
import Verif.Witness

/-!
# C62: einets with `ConditionalBinomial` leaves

`buildCond c P total_count cond_fn cond_idxs base unc = .ok E`: an einet with `leaf_type=ConditionalBinomial` and parameters
`base` and `unc` of its leaves.  The logits of the first half of the features are `base` plus the output of `cond_fn` on the
features `cond_idxs` of the same row; those of the other half are `unc`.
-/

open Classical MeasureTheory
open scoped ENNReal
noncomputable section
namespace Einet.Props
open Tensor Einet

/-! ### Specification -/

/-- the feature meant by a Python index. -/
def pyIndex (F : Nat) (i : ℤ) : Nat := ((i + F) % F).toNat

/-- arguments that fit: an even number of features, indices in range that form a `w × w` image, as many as there are
conditioned features or a single one, and a module that computes `g` on every image of a batch. -/
structure CondArgs (F C S R : Nat) (fn : Tensor Fl → Res (Tensor Fl)) (idxs : Scopes) (w : Nat)
    (g : (Nat → Nat → Nat → Fl) → Nat → ℝ) : Prop where
  even : F % 2 = 0
  usable : Usable F idxs
  square : idxs.idx.length = w * w
  len : w * w = F / 2 ∨ w = 1
  fn : RowWise fn C w (C * S * R * (w * w)) g

/-- the logits that a row gets: of channel `c`, feature `f`, leaf `i`, repetition `r`. -/
def condLogits (F S R w : Nat) (idxs : Scopes) (base unc : Par) (g : (Nat → Nat → Nat → Fl) → Nat → ℝ) (X : Data) : Par :=
  fun c f i r =>
    if f < F / 2 then base c f i r + g (fun c a b => X c (pyIndex F (idxs.idx.getD (a * w + b) 0)))
      (((c * S + i) * R + r) * (w * w) + if w = 1 then 0 else f)
    else unc c (f - F / 2) i r

/-- a batch of counts up to `n`, nothing missing. -/
def CountBatch (n : ℤ) (N C F : Nat) (x : Tensor Fl) : Prop :=
  x.shape = [N, C, F] ∧ ∀ i, i < N → ∀ c, c < C → ∀ f, f < F → ∃ k : Nat, (k : ℤ) ≤ n ∧ x.get [i, c, f] = .fin (k : ℝ)

/-- counting measure on `0, …, n`. -/
def counting (n : ℤ) : Measure ℝ := ∑ k ∈ Finset.range (n.toNat + 1), Measure.dirac (k : ℝ)

/-! ### From the specification to the lemmas -/

section
variable {c : Config} {P : Params} {n : ℤ} {fn : Tensor Fl → Res (Tensor Fl)} {idxs : Scopes} {base unc : Par} {E : CondEinet}
  {w : Nat} {g : (Nat → Nat → Nat → Fl) → Nat → ℝ}

theorem wrapIdx_py {F : Nat} {i : ℤ} (h : -(F : ℤ) ≤ i ∧ i < F) : wrapIdx F i = pyIndex F i := by
  unfold wrapIdx pyIndex
  by_cases hi : i < 0
  · rw [if_pos hi, Int.emod_eq_of_lt (by omega) (by omega)]
  · rw [if_neg hi, show i + (F : ℤ) = i + (F : ℤ) * 1 by ring, Int.add_mul_emod_self_left, Int.emod_eq_of_lt (by omega) h.2]

theorem cond_total (h : buildCond c P n fn idxs base unc = .ok E) : 0 < n ∧ E.leaf.total_count = n.toNat := by
  obtain ⟨hM, hL⟩ := buildCond_net h
  obtain ⟨B, hB⟩ := (build_iff.1 ⟨_, hM⟩).2.1
  refine ⟨?_, by rw [hL]⟩
  change (LeafSpec.binomial n _).build _ _ = _ at hB
  unfold LeafSpec.build at hB
  obtain ⟨_, h1, hB⟩ := bind_ok hB
  have := ((checkInt_iff n 1 one_ne_zero _ _).1 hB).1
  omega

/-- the resolved conditioning features. -/
abbrev condList (F : Nat) (idxs : Scopes) : List Nat := idxs.idx.map (wrapIdx F)

theorem cond_sizes (hP : P.Random) (h : buildCond c P n fn idxs base unc = .ok E) :
    1 < E.net.num_features ∧ 0 < E.net.num_channels ∧ 0 < E.net.num_leaves ∧ 0 < E.net.num_repetitions := by
  obtain ⟨hM, hL⟩ := buildCond_net h
  obtain ⟨hz, -⟩ := build_WF (binomialAt_random hP _ _) hM
  obtain ⟨v1, v2, v3, v4, v5, v6, v7, v8, v9, v10, v11, v12, v13⟩ := (assertValid_iff c).1 (build_valid hM)
  rw [hz.features, hz.channels, hz.leaves, hz.reps]
  omega

theorem cond_side (hw : idxs.idx.length = w * w) (F : Nat) : CondLeaf.side (condList F idxs) = w := by
  unfold CondLeaf.side condList
  rw [List.length_map, hw, Nat.sqrt_eq]

/-- a built einet satisfies the invariant. -/
theorem cond_WF (hP : P.Random) (h : buildCond c P n fn idxs base unc = .ok E)
    (ha : CondArgs E.net.num_features E.net.num_channels E.net.num_leaves E.net.num_repetitions fn idxs w g) :
    E.WF (buildGroups c (P.binomialAt n fun _ _ _ _ => 0)) g (condList E.net.num_features idxs) := by
  obtain ⟨hM, hL⟩ := buildCond_net h
  obtain ⟨p1, p2, p3, p4⟩ := cond_sizes hP h
  have hF : E.leaf.num_features = E.net.num_features := by rw [hL]
  have hC : E.leaf.num_channels = E.net.num_channels := by rw [hL]
  have hS : E.leaf.num_leaves = E.net.num_leaves := by rw [hL]
  have hR : E.leaf.num_repetitions = E.net.num_repetitions := by rw [hL]
  have hlen : (condList E.net.num_features idxs).length = w * w := by rw [List.length_map, ha.square]
  refine ⟨(build_WF (binomialAt_random hP _ _) hM).2.1, hF, hC, hS, hR, ?_⟩
  have hev := ha.even
  refine ⟨by rw [hF]; omega, by rw [hF]; omega, by rw [hC]; exact p2, by rw [hS]; exact p3, by rw [hR]; exact p4, ?_, ?_, ?_, ?_⟩
  · rw [hF, show E.leaf.cond_idxs = idxs by rw [hL]]
    obtain ⟨h1, h2⟩ := ha.usable
    unfold Scopes.resolve
    rw [require_true _ (fun e => h2 e.1 e.2)]
    simp only [Res.ok_bind]
    rw [require_true _ h1]
    rfl
  · rw [cond_side ha.square, hlen]
  · rw [hlen, hF]
    rcases ha.len with e | e
    · exact Or.inl e
    · right; simp [e]
  · rw [cond_side ha.square]
    unfold CondLeaf.outs
    rw [hlen, hC, hS, hR, show E.leaf.cond_fn = fn by rw [hL]]
    exact ha.fn

theorem cond_theta (hP : P.Random) (h : buildCond c P n fn idxs base unc = .ok E)
    (ha : CondArgs E.net.num_features E.net.num_channels E.net.num_leaves E.net.num_repetitions fn idxs w g) (X : Data) :
    E.leaf.theta g (condList E.net.num_features idxs) X =
      condLogits E.net.num_features E.net.num_leaves E.net.num_repetitions w idxs base unc g X := by
  obtain ⟨hM, hL⟩ := buildCond_net h
  obtain ⟨p1, -⟩ := cond_sizes hP h
  have hlen : (condList E.net.num_features idxs).length = w * w := by rw [List.length_map, ha.square]
  have himg : CondLeaf.img (condList E.net.num_features idxs) X =
      fun c a b => X c (pyIndex E.net.num_features (idxs.idx.getD (a * w + b) 0)) := by
    funext c a b
    unfold CondLeaf.img
    rw [cond_side ha.square]
    congr 1
    have e0 : wrapIdx E.net.num_features 0 = 0 := by simp [wrapIdx]
    have : ∀ k, (condList E.net.num_features idxs).getD k 0 = wrapIdx E.net.num_features (idxs.idx.getD k 0) := by
      intro k
      have := List.getD_map (l := idxs.idx) (n := k) (d := 0) (f := wrapIdx E.net.num_features)
      rwa [e0] at this
    rw [this, wrapIdx_py]
    by_cases hk : a * w + b < idxs.idx.length
    · rw [List.getD_eq_getElem _ _ hk]
      exact ha.usable.1 _ (List.getElem_mem hk)
    · rw [List.getD_eq_default _ _ (by omega)]
      omega
  funext c f i r
  unfold CondLeaf.theta condLogits
  rw [himg, hlen, hL]
  have e1 : clip (w * w) f = if w = 1 then 0 else f := by
    unfold clip
    by_cases hw : w = 1
    · simp [hw]
    · rw [if_neg hw, if_neg (by simpa using hw)]
  rw [e1]

theorem cond_counts (h : buildCond c P n fn idxs base unc = .ok E) {N : Nat} {x : Tensor Fl}
    (hx : CountBatch n N E.net.num_channels E.net.num_features x) : x.Is3 N E.net.num_channels E.net.num_features (fun i c f => x.get [i, c, f]) ∧
    ∀ i, i < N → E.leaf.Counts fun c f => x.get [i, c, f] := by
  obtain ⟨hM, hL⟩ := buildCond_net h
  obtain ⟨hn, ht⟩ := cond_total h
  refine ⟨Is.is3 (Is.refl x hx.1) fun _ _ _ _ _ _ => rfl, fun i hi c hc f hf => ?_⟩
  rw [hL] at hc hf
  obtain ⟨k, hk, e⟩ := hx.2 i hi c hc f hf
  exact ⟨k, by omega, e⟩

theorem cond_resolve {F : Nat} {ms : Option Scopes} (hu : ∀ s, ms = some s → Usable F s) : ∃ sc, Scopes.resolveOpt F ms = .ok sc := by
  cases ms with
  | none => exact ⟨none, rfl⟩
  | some s => exact ⟨_, (usable_resolve (hu s rfl)).choose_spec.1⟩

theorem cond_ref (h : buildCond c P n fn idxs base unc = .ok E) (f : Nat) : countRef E.leaf.total_count f = counting n := by
  rw [(cond_total h).2]
  rfl

theorem cond_counts_row (h : buildCond c P n fn idxs base unc = .ok E) {X : Data}
    (hX : ∀ c, c < E.net.num_channels → ∀ f, f < E.net.num_features → ∃ m : Nat, (m : ℤ) ≤ n ∧ X c f = .fin (m : ℝ)) :
    E.leaf.Counts X := by
  obtain ⟨hM, hL⟩ := buildCond_net h
  intro c hc f hf
  rw [hL] at hc hf
  obtain ⟨m, hm, e⟩ := hX c hc f hf
  have := (cond_total h)
  exact ⟨m, by omega, e⟩

theorem cond_lt (hP : P.Random) (h : buildCond c P n fn idxs base unc = .ok E)
    (ha : CondArgs E.net.num_features E.net.num_channels E.net.num_leaves E.net.num_repetitions fn idxs w g) :
    ∀ f ∈ condList E.net.num_features idxs, f < E.net.num_features := by
  have hw := cond_WF hP h ha
  have hlt := resolve_lt hw.ok.resolve
  rwa [hw.features] at hlt

theorem cond_disjoint (hP : P.Random) (h : buildCond c P n fn idxs base unc = .ok E)
    (ha : CondArgs E.net.num_features E.net.num_channels E.net.num_leaves E.net.num_repetitions fn idxs w g) {s : Scopes}
    (hdisj : ∀ f, f < E.net.num_features → Listed E.net.num_features s f → ¬ Listed E.net.num_features idxs f) :
    ∀ f ∈ condList E.net.num_features idxs, ¬ Listed E.net.num_features s f := by
  have hw := cond_WF hP h ha
  obtain ⟨hM, hL⟩ := buildCond_net h
  obtain ⟨l', hl', hm'⟩ := usable_resolve ha.usable
  have hl'' : l' = condList E.net.num_features idxs := by
    have := hw.ok.resolve
    rw [hL] at this
    unfold Scopes.resolveOpt at hl'
    change (idxs.resolve E.net.num_features).map some = _ at hl'
    rw [show idxs.resolve E.net.num_features = _ from this] at hl'
    simpa [Except.map] using hl'.symm
  intro f hf hf'
  have h2 := cond_lt hP h ha f hf
  rw [← hl''] at hf
  exact hdisj f h2 hf' ((hm' f h2).1 hf)

theorem cond_hidden (h : buildCond c P n fn idxs base unc = .ok E) {X : Data}
    (hX : ∀ c, c < E.net.num_channels → ∀ f, f < E.net.num_features → ∃ m : Nat, (m : ℤ) ≤ n ∧ X c f = .fin (m : ℝ))
    {s : Scopes} {l : List Nat} (hm : ∀ f, f < E.net.num_features → (f ∈ l ↔ Listed E.net.num_features s f)) :
    missing E.net.num_channels E.net.num_features (countRef E.leaf.total_count) (CondEinet.hideSet {f | f ∈ l} X) =
      Measure.pi (fun c : Fin E.net.num_channels => Measure.pi fun f : Fin E.net.num_features =>
        if Listed E.net.num_features s f then counting n else Measure.dirac (X c f).val) := by
  unfold missing
  congr 1
  funext c'
  congr 1
  funext f
  rw [cond_ref h]
  have e := hm f f.2
  obtain ⟨m, -, em⟩ := hX c' c'.2 f f.2
  by_cases hf : Listed E.net.num_features s f
  · rw [if_pos hf]
    have : CondEinet.hideSet {f | f ∈ l} X c' f = .nan := if_pos (e.2 hf)
    rw [if_pos this]
  · rw [if_neg hf]
    have : CondEinet.hideSet {f | f ∈ l} X c' f = X c' f := if_neg fun hh => hf (e.1 hh)
    rw [this, if_neg (by rw [em]; simp)]

end

/-- the shape of the logits. -/
theorem logits_shape {L : CondLeaf} {x t : Tensor Fl} {N C : Nat}
    (hx : x.shape = [N, C, L.num_features]) (h : L.logits x = .ok t) : ∃ l w s, L.cond_idxs.resolve L.num_features = .ok l ∧
      l.length = w * w ∧ 0 < w ∧ t.shape = [N, L.num_channels, s + L.num_features / 2, L.num_leaves, L.num_repetitions] ∧
      (s = L.num_features / 2 ∧ (w * w = L.num_features / 2 ∨ w = 1) ∨ L.num_features / 2 = 1 ∧ s = w * w) := by
  unfold CondLeaf.logits at h
  obtain ⟨xc, hxc, h⟩ := bind_ok h
  unfold CondLeaf.condInput at hxc
  obtain ⟨_, -, hxc⟩ := bind_ok hxc
  obtain ⟨l, hl, hxc⟩ := bind_ok hxc
  obtain ⟨xi, hxi, hxc⟩ := bind_ok hxc
  have hsz : x.size 2 = L.num_features := by simp [Tensor.size, hx, at']
  rw [hsz] at hl
  unfold Tensor.indexDim2 at hxi
  obtain ⟨_, -, hxi⟩ := bind_ok hxi
  obtain ⟨_, -, hxi⟩ := bind_ok hxi
  simp only [Res.pure_eq, Except.ok.injEq] at hxi hxc
  have hs : xc.shape = [N, C, l.length, 1, 1] := by
    rw [← hxc, ← hxi]
    simp [unsqueezeEnd, hx, setAt]
  have e0 : xc.size 0 = N := by simp [Tensor.size, hs, at']
  have e1 : xc.size 1 = C := by simp [Tensor.size, hs, at']
  have e2 : xc.size 2 = l.length := by simp [Tensor.size, hs, at']
  rw [e0, e1, e2] at h
  obtain ⟨_, hsq, h⟩ := bind_ok h
  rw [require_ok_iff] at hsq
  obtain ⟨_, hne, h⟩ := bind_ok h
  rw [require_ok_iff] at hne
  have hpos : 0 < l.length := by
    by_contra h0
    exact hne (by simp [Tensor.numel, hs, numelS, show l.length = 0 by omega])
  obtain ⟨v1, -, h⟩ := bind_ok h
  obtain ⟨v2, -, h⟩ := bind_ok h
  obtain ⟨v3, hv3, h⟩ := bind_ok h
  unfold Tensor.view at hv3
  obtain ⟨_, -, hv3⟩ := bind_ok hv3
  simp only [Res.pure_eq, Except.ok.injEq] at hv3
  obtain ⟨v4, hv4, h⟩ := bind_ok h
  unfold Tensor.permute at hv4
  obtain ⟨_, -, hv4⟩ := bind_ok hv4
  simp only [Res.pure_eq, Except.ok.injEq] at hv4
  have h4 : v4.shape = [N, C, l.length, L.num_leaves, L.num_repetitions] := by
    rw [← hv4, ← hv3]
    simp [Tensor.size, at', hsq]
  obtain ⟨v5, hv5, h⟩ := bind_ok h
  obtain ⟨v6, hv6, h⟩ := bind_ok h
  obtain ⟨v7, hv7, h⟩ := bind_ok h
  obtain ⟨_, -, h⟩ := bind_ok h
  simp only [Res.pure_eq, Except.ok.injEq] at h
  subst h
  have h6 : v6.shape = [N, L.num_channels, L.num_features / 2, L.num_leaves, L.num_repetitions] := by
    unfold Tensor.expand CondLeaf.par at hv6
    simp only [expandShape, true_or, if_true, Option.map_some, Except.ok.injEq] at hv6
    rw [← hv6]
  have h5 : ∃ a b s d e, v5.shape = [a, b, s, d, e] ∧
      (s = L.num_features / 2 ∧ (l.length = L.num_features / 2 ∨ l.length = 1) ∨ L.num_features / 2 = 1 ∧ s = l.length) := by
    unfold bcast at hv5
    rw [h4] at hv5
    unfold CondLeaf.par at hv5
    cases hb : bcastShape [1, L.num_channels, L.num_features / 2, L.num_leaves, L.num_repetitions]
        [N, C, l.length, L.num_leaves, L.num_repetitions] with
    | none => simp only [hb] at hv5; cases hv5
    | some r =>
      simp only [hb, Except.ok.injEq] at hv5
      rw [← hv5]
      simp only [bcastShape, Option.bind_eq_bind, Option.bind_eq_some_iff, Option.pure_def, if_true, Option.bind_some] at hb
      obtain ⟨r4, ⟨r3, hr3, hr4⟩, hr⟩ := hb
      have key : ∃ s, r3 = [s, L.num_leaves, L.num_repetitions] ∧ (s = L.num_features / 2 ∧ (l.length = L.num_features / 2 ∨ l.length = 1) ∨ L.num_features / 2 = 1 ∧ s = l.length) := by
        split_ifs at hr3 with c1 c2 c3 <;> cases hr3
        · exact ⟨_, rfl, Or.inl ⟨rfl, Or.inl c1.symm⟩⟩
        · exact ⟨_, rfl, Or.inr ⟨c2, rfl⟩⟩
        · exact ⟨_, rfl, Or.inl ⟨rfl, Or.inr c3⟩⟩
      obtain ⟨s, rfl, hs⟩ := key
      have key2 : ∃ b, r4 = [b, s, L.num_leaves, L.num_repetitions] := by
        split_ifs at hr4 <;> cases hr4 <;> exact ⟨_, rfl⟩
      obtain ⟨b, rfl⟩ := key2
      have key3 : ∃ a, r = [a, b, s, L.num_leaves, L.num_repetitions] := by
        split_ifs at hr <;> cases hr <;> exact ⟨_, rfl⟩
      obtain ⟨a, rfl⟩ := key3
      exact ⟨_, _, _, _, _, rfl, hs⟩
  obtain ⟨a, b, s, d, e, h5, hc⟩ := h5
  unfold Tensor.cat at hv7
  obtain ⟨_, -, hv7⟩ := bind_ok hv7
  obtain ⟨_, h7, hv7⟩ := bind_ok hv7
  rw [require_ok_iff, h5, h6] at h7
  simp only [Res.pure_eq, Except.ok.injEq] at hv7
  simp only [setAt, List.cons.injEq, and_true, true_and] at h7
  obtain ⟨rfl, rfl, rfl, rfl⟩ := h7
  refine ⟨l, Nat.sqrt l.length, s, hl, hsq.symm, Nat.sqrt_pos.2 hpos, ?_, ?_⟩
  · rw [← hv7]
    simp [Tensor.size, h5, h6, setAt, at']
  · rw [hsq]
    rcases hc with ⟨h1, h2 | h2⟩ | h1
    · exact Or.inl ⟨h1, Or.inl h2⟩
    · exact Or.inl ⟨h1, Or.inr (by rw [h2]; rfl)⟩
    · exact Or.inr h1

theorem cond_odd {L : CondLeaf} {x t : Tensor Fl} {N C : Nat} {ms : Option Scopes} (hF : 1 < L.num_features)
    (hx : x.shape = [N, C, L.num_features]) (h : L.forward x ms = .ok t) : L.num_features % 2 = 0 ∧ ∃ l w,
      L.cond_idxs.resolve L.num_features = .ok l ∧ l.length = w * w ∧ (w * w = L.num_features / 2 ∨ w = 1) := by
  unfold CondLeaf.forward at h
  obtain ⟨p, hp, h⟩ := bind_ok h
  obtain ⟨_, -, h⟩ := bind_ok h
  obtain ⟨y, hy, h⟩ := bind_ok h
  obtain ⟨l, w, s, hl, hw, hw0, hs, hc⟩ := logits_shape hx hp
  have hsum : s + L.num_features / 2 = L.num_features ∨ s + L.num_features / 2 = 1 := by
    unfold bcast at hy
    rw [hs, show (x.unsqueezeEnd 2).shape = [N, C, L.num_features, 1, 1] by simp [unsqueezeEnd, hx]] at hy
    cases hb : bcastShape [N, C, L.num_features, 1, 1]
        [N, L.num_channels, s + L.num_features / 2, L.num_leaves, L.num_repetitions] with
    | none => simp only [hb] at hy; cases hy
    | some r =>
      by_contra hne
      push Not at hne
      simp only [bcastShape, Option.bind_eq_bind, Option.bind_eq_some_iff, Option.pure_def] at hb
      obtain ⟨_, ⟨_, ⟨_, _, hb⟩, _⟩, _⟩ := hb
      rw [if_neg (fun e => hne.1 e.symm), if_neg (by omega), if_neg hne.2] at hb
      cases hb
  have hp1 : L.num_features / 2 = 1 → L.num_features = 2 ∨ L.num_features = 3 := by omega
  have hww : w * w ≠ 2 := by
    intro e
    have : w < 2 := by by_contra h; nlinarith
    interval_cases w
    all_goals omega
  rcases hc with ⟨h1, h2⟩ | ⟨h1, h2⟩
  · exact ⟨by omega, l, w, hl, hw, h2⟩
  · rcases hp1 h1 with e | e
    · have : w * w = 1 := by have := Nat.mul_pos hw0 hw0; omega
      exact ⟨by omega, l, w, hl, hw, Or.inl (by omega)⟩
    · have := Nat.mul_pos hw0 hw0
      omega

/-! ### C62 -/

/-- **C62**: every row of the result is the result of the einet with ordinary binomial leaves whose logits are computed from
the conditioning features of that row. -/
theorem C62_forward (c : Config) (P : Params) (hP : P.Random) (n : ℤ) (fn : Tensor Fl → Res (Tensor Fl)) (idxs : Scopes)
    (base unc : Par) (E : CondEinet) (h : buildCond c P n fn idxs base unc = .ok E) (w : Nat)
    (g : (Nat → Nat → Nat → Fl) → Nat → ℝ)
    (ha : CondArgs E.net.num_features E.net.num_channels E.net.num_leaves E.net.num_repetitions fn idxs w g) (N : Nat)
    (hN : 0 < N) (x : Tensor Fl) (hx : CountBatch n N E.net.num_channels E.net.num_features x) (ms : Option Scopes)
    (hms : ∀ s, ms = some s → Usable E.net.num_features s) :
    ∃ y, E.forward x ms = .ok y ∧ y.shape = [N, E.net.num_classes] ∧ ∀ i, i < N → ∃ M z,
      build c (P.binomialAt n (condLogits E.net.num_features E.net.num_leaves E.net.num_repetitions w idxs base unc g
        fun c f => x.get [i, c, f])) = .ok M ∧
      M.forward (rowTensor E.net.num_channels E.net.num_features fun c f => x.get [i, c, f]) ms = .ok z ∧
      ∀ k, k < E.net.num_classes → (∃ v : ℝ, y.get [i, k] = .fin v) ∧ y.get [i, k] = z.get [0, k] := by
  have hw := cond_WF hP h ha
  obtain ⟨h1, h2⟩ := cond_counts h hx
  obtain ⟨sc, hsc⟩ := cond_resolve hms
  obtain ⟨y, hy, hy2⟩ := CondEinet.forward_rows hw hN h1 h2 hsc
  refine ⟨y, hy, hy2.1, fun i hi => ?_⟩
  have hb := buildCond_row hP h g (condList E.net.num_features idxs) fun c f => x.get [i, c, f]
  rw [cond_theta hP h ha] at hb
  obtain ⟨z, hz, hz2⟩ := Model.forward_is (hw.row _) (rowTensor_is _ _ fun c f => x.get [i, c, f])
    (fun _ _ => BaseLeaf.Observed.valid (CondEinet.atRow_proper fun c f => x.get [i, c, f]).valid_zero
      (by rw [CondEinet.atRow_base]; exact (h2 i hi).observed _)) hsc
  refine ⟨_, z, hb, hz, fun k hk => ?_⟩
  rw [hy2.get hi hk, hz2.get (by omega) hk]
  refine ⟨?_, rfl⟩
  exact (Model.outRow_den (hw.row _) (b := true) (fun _ => rfl) (sc := sc)
    (fun c hc f hf i' hi' r hr => by rw [CondEinet.atRow_base]; exact CondEinet.entry_isFin hw (h2 i hi) sc hc hf hi' hr) hk).1

/-- **C62**: when the conditioning features are among the second half, the result is the logarithm of a probability mass
function: it adds up to one over all rows of counts. -/
theorem C62_total_partial (c : Config) (P : Params) (hP : P.Random) (n : ℤ) (fn : Tensor Fl → Res (Tensor Fl)) (idxs : Scopes)
    (base unc : Par) (E : CondEinet) (h : buildCond c P n fn idxs base unc = .ok E) (w : Nat)
    (g : (Nat → Nat → Nat → Fl) → Nat → ℝ)
    (ha : CondArgs E.net.num_features E.net.num_channels E.net.num_leaves E.net.num_repetitions fn idxs w g)
    (hsecond : ∀ i ∈ idxs.idx, E.net.num_features / 2 ≤ pyIndex E.net.num_features i) (k : Nat) (hk : k < E.net.num_classes) :
    ∫⁻ ω : Fin E.net.num_channels → Fin E.net.num_features → ℝ, E.density none k (Pt.data ω)
      ∂Measure.pi (fun _ => Measure.pi fun _ => counting n) = 1 := by
  have := CondEinet.integral_eq_one (cond_WF hP h ha) (fun f hf => ?_) hk
  · unfold onAll at this
    simp only [cond_ref h] at this
    exact this
  · obtain ⟨i, hi, rfl⟩ := List.mem_map.1 hf
    rw [wrapIdx_py (ha.usable.1 i hi)]
    exact hsecond i hi

/-- **C62**: `marginalized_scopes` without conditioning features sums the listed features out of the density. -/
theorem C62_marginal_partial (c : Config) (P : Params) (hP : P.Random) (n : ℤ) (fn : Tensor Fl → Res (Tensor Fl)) (idxs : Scopes)
    (base unc : Par) (E : CondEinet) (h : buildCond c P n fn idxs base unc = .ok E) (w : Nat)
    (g : (Nat → Nat → Nat → Fl) → Nat → ℝ)
    (ha : CondArgs E.net.num_features E.net.num_channels E.net.num_leaves E.net.num_repetitions fn idxs w g) (s : Scopes)
    (hs : Usable E.net.num_features s)
    (hdisj : ∀ f, f < E.net.num_features → Listed E.net.num_features s f → ¬ Listed E.net.num_features idxs f) (X : Data)
    (hX : ∀ c, c < E.net.num_channels → ∀ f, f < E.net.num_features → ∃ m : Nat, (m : ℤ) ≤ n ∧ X c f = .fin (m : ℝ))
    (k : Nat) (hk : k < E.net.num_classes) :
    E.density (some s) k X = ∫⁻ ω : Fin E.net.num_channels → Fin E.net.num_features → ℝ, E.density none k (Pt.data ω)
      ∂Measure.pi (fun c : Fin E.net.num_channels => Measure.pi fun f : Fin E.net.num_features =>
        if Listed E.net.num_features s f then counting n else Measure.dirac (X c f).val) := by
  have hw := cond_WF hP h ha
  obtain ⟨l, hl, hm⟩ := usable_resolve hs
  have hc := cond_counts_row h hX
  rw [CondEinet.density_scopes hw hc hl hk, ← CondEinet.integral_hide hw hc (H := {f | f ∈ l})
    (fun f hf hf' => cond_disjoint hP h ha hdisj f hf ((hm f (cond_lt hP h ha f hf)).1 hf')) hk, cond_hidden h hX hm]

/-- **C62** (exceptions): `forward` raises when some entry is not a count up to `total_count`, for example NaN, even if its
feature is marginalised; when the number of features is odd; and when the number of conditioning features is not a square
number that is one or half the number of features. -/
theorem C62_rejects (c : Config) (P : Params) (hP : P.Random) (n : ℤ) (fn : Tensor Fl → Res (Tensor Fl)) (idxs : Scopes)
    (base unc : Par) (E : CondEinet) (h : buildCond c P n fn idxs base unc = .ok E) (N : Nat) (x : Tensor Fl)
    (hx : x.shape = [N, E.net.num_channels, E.net.num_features]) (ms : Option Scopes) (y : Tensor Fl)
    (hy : E.forward x ms = .ok y) :
    CountBatch n N E.net.num_channels E.net.num_features x ∧ E.net.num_features % 2 = 0 ∧
      ∃ w, idxs.idx.length = w * w ∧ (w * w = E.net.num_features / 2 ∨ w = 1) := by
  obtain ⟨hM, hL⟩ := buildCond_net h
  obtain ⟨p1, -⟩ := cond_sizes hP h
  unfold CondEinet.forward CondEinet.run at hy
  rw [Model.prepInput_is (Is.is3 (Is.refl x hx) fun _ _ _ _ _ _ => rfl)] at hy
  simp only [Res.ok_bind] at hy
  have hf : ∃ t, E.leaf.forward x ms = .ok t := by
    cases ht : E.leaf.forward x ms with
    | ok t => exact ⟨t, rfl⟩
    | error e => rw [ht] at hy; cases hy
  obtain ⟨t, ht⟩ := hf
  have hF : E.leaf.num_features = E.net.num_features := by rw [hL]
  refine ⟨⟨hx, ?_⟩, ?_⟩
  · unfold CondLeaf.forward at ht
    obtain ⟨p, hp, ht⟩ := bind_ok ht
    obtain ⟨_, h1, ht⟩ := bind_ok ht
    rw [require_ok_iff, hx] at h1
    intro i hi ch hch f hf
    obtain ⟨k, hk, e⟩ := (AllIdx_iff _ _).1 h1 [i, ch, f] ⟨hi, hch, hf, trivial⟩
    have := cond_total h
    exact ⟨k, by omega, e⟩
  · obtain ⟨h1, l, w, hl, h2, h3⟩ := cond_odd (L := E.leaf) (by rw [hF]; exact p1) (by rw [hF]; exact hx) ht
    rw [hF] at h1 hl h3
    refine ⟨h1, w, ?_, h3⟩
    rw [← h2]
    rw [show E.leaf.cond_idxs = idxs by rw [hL]] at hl
    unfold Scopes.resolve at hl
    obtain ⟨_, -, hl⟩ := bind_ok hl
    obtain ⟨_, -, hl⟩ := bind_ok hl
    simp only [Res.pure_eq, Except.ok.injEq] at hl
    rw [← hl, List.length_map]

/-! ### A concrete family -/

/-- a module that returns `K` times `2 x - 1` for `x` the upper left pixel of the first channel. -/
def exCond (K : Nat) (x : Tensor Fl) : Res (Tensor Fl) :=
  .ok ⟨[x.size 0, K], fun i => .fin (2 * (x.get [at' 0 i, 0, 0, 0]).val - 1)⟩

/-- what it computes on an image. -/
def exCondG (img : Nat → Nat → Nat → Fl) (_ : Nat) : ℝ := 2 * (img 0 0 0).val - 1

theorem exCond_rowWise {C w : Nat} (hC : 0 < C) (hw : 0 < w) (K : Nat) : RowWise (exCond K) C w K exCondG := by
  intro N x X hN hx _
  have h0 : x.size 0 = N := by simp [Tensor.size, hx.1, at']
  refine Res.Sat.ok ⟨by simp [Tensor.numel, numelS, h0], fun n hn j hj => ?_⟩
  have hu : unflat [x.size 0, K] (n * K + j) = [n, j] := by
    have := unflat_flat (s := [x.size 0, K]) (i := [n, j]) ⟨by omega, hj, trivial⟩
    simpa [flat, numelS] using this
  show Fl.fin (2 * (x.get [at' 0 (unflat [x.size 0, K] (n * K + j)), 0, 0, 0]).val - 1) = _
  rw [hu]
  show Fl.fin (2 * (x.get [n, 0, 0, 0]).val - 1) = _
  rw [hx.get hn hC hw hw]
  rfl

/-- einets with one channel, two leaves per feature and one repetition. -/
theorem exCond_exists {F : Nat} {d n : ℤ} (hF : 2 ≤ F) (hd0 : 0 ≤ d) (hd : (2 : ℚ) ^ d ≤ F) (hn : 1 ≤ n)
    (fn : Tensor Fl → Res (Tensor Fl)) (idxs : Scopes) (base unc : Par) :
    ∃ E, buildCond (wConfig F (1 : Nat) d) (wParams (fun _ i => i.sum) fun _ => 0) n fn idxs base unc = .ok E ∧
      E.net.num_features = F ∧ E.net.num_channels = 1 ∧ E.net.num_leaves = 2 ∧ E.net.num_repetitions = 1 ∧
      E.net.num_classes = 1 := by
  have hv := wConfig_valid (F := F) (K := (1 : Nat)) (d := d) (by exact_mod_cast hF) (by norm_num) (by exact_mod_cast hd)
  have hP := binomialAt_random (wParams_random (fun _ i => i.sum) fun _ => 0) n fun _ _ _ _ => 0
  obtain ⟨M, h⟩ := (build_iff (c := wConfig F (1 : Nat) d)
    (P := (wParams (fun _ i => i.sum) fun _ => 0).binomialAt n fun _ _ _ _ => 0)).2
    ⟨hv, ⟨_, by
      show (LeafSpec.binomial n _).build none _ = _
      unfold LeafSpec.build
      rw [require_true _ rfl]
      simp only [Res.ok_bind]
      exact (checkInt_iff n 1 one_ne_zero _ _).2 ⟨hn, rfl⟩⟩, hd0, by simp [wConfig], fun _ => wDrop⟩
  have hz := (build_WF hP h).1
  unfold buildCond
  rw [h]
  exact ⟨_, rfl, by rw [hz.features]; simp [wConfig], by rw [hz.channels]; simp [wConfig],
    by rw [hz.leaves]; simp [wConfig], by rw [hz.reps]; simp [wConfig], by rw [hz.classes]; simp [wConfig]⟩

theorem exCond_args {F : Nat} {w : Nat} {idxs : Scopes} (hF : F % 2 = 0) (hu : Usable F idxs) (hw : 0 < w)
    (hl : idxs.idx.length = w * w) (hlen : w * w = F / 2 ∨ w = 1) :
    CondArgs F 1 2 1 (exCond (1 * 2 * 1 * (w * w))) idxs w exCondG :=
  ⟨hF, hu, hl, hlen, exCond_rowWise one_pos hw _⟩

/-- eight features in four groups; the logits of the features 0 to 3 depend on the features 4, 5, 6, 7, given by the numbers
4, 5, -2, 7. -/
example : ∃ E, buildCond (wConfig (8 : Nat) (1 : Nat) 2) (wParams (fun _ i => i.sum) fun _ => 0) 255 (exCond 8) ⟨true, [4, 5, -2, 7]⟩
      (fun _ f i _ => f + i) (fun _ f i _ => f - i) = .ok E ∧
    CondArgs E.net.num_features E.net.num_channels E.net.num_leaves E.net.num_repetitions (exCond 8) ⟨true, [4, 5, -2, 7]⟩ 2 exCondG ∧
    (∀ i ∈ [4, 5, -2, 7], E.net.num_features / 2 ≤ pyIndex E.net.num_features i) ∧
    CountBatch 255 3 E.net.num_channels E.net.num_features ⟨[3, 1, 8], fun j => .fin (10 * at' 0 j + at' 2 j : Nat)⟩ ∧
    (Usable E.net.num_features ⟨true, [0, -6]⟩ ∧ ∀ f, f < E.net.num_features → Listed E.net.num_features ⟨true, [0, -6]⟩ f →
      ¬ Listed E.net.num_features ⟨true, [4, 5, -2, 7]⟩ f) := by
  obtain ⟨E, h, h1, h2, h3, h4, -⟩ := exCond_exists (F := 8) (d := 2) (n := 255) (by norm_num) (by norm_num) (by norm_num)
    (by norm_num) (exCond 8) ⟨true, [4, 5, -2, 7]⟩ (fun _ f i _ => f + i) (fun _ f i _ => f - i)
  refine ⟨E, h, ?_, ?_, ?_, ?_, ?_⟩
  · rw [h1, h2, h3, h4]
    exact exCond_args (F := 8) (w := 2) (idxs := ⟨true, [4, 5, -2, 7]⟩) rfl ⟨by simp, by simp⟩ (by norm_num) rfl (Or.inl rfl)
  · rw [h1]
    simp [pyIndex]
  · rw [h1, h2]
    refine ⟨rfl, fun i hi c hc f hf => ⟨10 * i + f, by omega, by simp [at']⟩⟩
  · rw [h1]
    exact ⟨by simp, by simp⟩
  · rw [h1]
    intro f hf
    simp only [Listed, List.mem_cons, List.not_mem_nil, or_false, exists_eq_or_imp, exists_eq_left]
    omega

/-- the density of the einets with two features, `total_count` 1, conditioned on feature `j`. -/
theorem exCond_density {E : CondEinet} {j : Nat} (hj : j < 2)
    (h : buildCond (wConfig (2 : Nat) (1 : Nat) 0) (wParams (fun _ i => i.sum) fun _ => 0) 1 (exCond 2) ⟨true, [(j : ℤ)]⟩
      (fun _ _ _ _ => 0) (fun _ _ _ _ => 0) = .ok E) (h1 : E.net.num_features = 2) (h2 : E.net.num_channels = 1)
    (h3 : E.net.num_leaves = 2) (h4 : E.net.num_repetitions = 1) (h5 : E.net.num_classes = 1) {x : Nat → Nat → Nat}
    (hx : ∀ c f, x c f ≤ 1) {ms : Option Scopes} {sc : Option (List Nat)} (hs : Scopes.resolveOpt 2 ms = .ok sc) :
    E.density ms 0 (fun c f => .fin (x c f : ℝ)) = ∏ f ∈ Finset.range 2, if (∃ l, sc = some l ∧ f ∈ l) then 1 else
      ENNReal.ofReal (binomialPmf 1 (Real.sigmoid (if f = 0 then 2 * (x 0 j : ℝ) - 1 else 0)) (x 0 f)) := by
  have ha : CondArgs E.net.num_features E.net.num_channels E.net.num_leaves E.net.num_repetitions (exCond 2) ⟨true, [(j : ℤ)]⟩ 1
      exCondG := by
    rw [h1, h2, h3, h4]
    exact exCond_args rfl ⟨by simp; omega, by simp⟩ one_pos rfl (Or.inr rfl)
  have hP : (wParams (fun _ i => (i.sum : ℝ)) fun _ => 0).Random := wParams_random _ _
  have hw := cond_WF hP h ha
  have ht := (cond_total h).2
  have hc : E.leaf.Counts fun c f => .fin (x c f : ℝ) := fun c _ f _ => ⟨x c f, by rw [ht]; have := hx c f; simp; omega, rfl⟩
  rw [← h1] at hs
  have ho : (E.atRow exCondG (condList E.net.num_features ⟨true, [(j : ℤ)]⟩) fun c f => .fin (x c f : ℝ)).leaf.base.Observed
      fun c f => .fin (x c f : ℝ) := by rw [CondEinet.atRow_base]; exact hc.observed _
  rw [CondEinet.density_eq hw hc hs (by omega), Model.density_eq (hw.row _) (CondEinet.atRow_proper _) ho hs (by
    show 0 < E.net.num_classes; omega)]
  rw [(Model.outRow_den (hw.row _) (b := true) (fun _ => rfl) (sc := sc) (fun c hc' f hf i hi r hr => by
    rw [CondEinet.atRow_base]; exact CondEinet.entry_isFin hw hc sc hc' hf hi hr) (by show 0 < E.net.num_classes; omega)).2]
  have hent : ∀ c f i r, f < 2 → toP ((E.leaf.leafAt exCondG (condList E.net.num_features ⟨true, [(j : ℤ)]⟩)
      fun c f => .fin (x c f : ℝ)).entry sc (.fin (x c f : ℝ)) c f i r) = if (∃ l, sc = some l ∧ f ∈ l) then 1 else
        ENNReal.ofReal (binomialPmf 1 (Real.sigmoid (if f = 0 then 2 * (x 0 j : ℝ) - 1 else 0)) (x c f)) := by
    intro c f i r hf
    have hθ : E.leaf.theta exCondG (condList E.net.num_features ⟨true, [(j : ℤ)]⟩) (fun c f => .fin (x c f : ℝ)) c f i r =
        if f = 0 then 2 * (x 0 j : ℝ) - 1 else 0 := by
      rw [cond_theta hP h ha, h1]
      unfold condLogits exCondG
      have : pyIndex 2 (j : ℤ) = j := by unfold pyIndex; omega
      simp only [show f < 2 / 2 ↔ f = 0 by omega]
      split_ifs <;> simp [this, Fl.val]
    have hσ : ∀ v : ℝ, 0 < Real.sigmoid v ∧ Real.sigmoid v < 1 := fun v => ⟨Real.sigmoid_pos v, Real.sigmoid_lt_one v⟩
    have hlp : (E.leaf.leafAt exCondG (condList E.net.num_features ⟨true, [(j : ℤ)]⟩) fun c f => .fin (x c f : ℝ)).logProb c f i r
        (.fin (x c f : ℝ)) = Fl.log (.fin (binomialPmf 1 (Real.sigmoid (if f = 0 then 2 * (x 0 j : ℝ) - 1 else 0)) (x c f))) := by
      show Fl.log (.fin (binomialPmf E.leaf.total_count (Real.sigmoid (E.leaf.theta _ _ _ c f i r)) ⌊(x c f : ℝ)⌋₊)) = _
      rw [ht, hθ, Nat.floor_natCast]
      rfl
    have hpos : 0 ≤ binomialPmf 1 (Real.sigmoid (if f = 0 then 2 * (x 0 j : ℝ) - 1 else 0)) (x c f) := by
      unfold binomialPmf
      have := hσ (if f = 0 then 2 * (x 0 j : ℝ) - 1 else 0)
      have h' : 0 ≤ 1 - Real.sigmoid (if f = 0 then 2 * (x 0 j : ℝ) - 1 else 0) := by linarith
      have := this.1.le
      positivity
    obtain ⟨e1, e2⟩ := toP_log hpos
    unfold BaseLeaf.entry
    simp only [Fl.isnan, hlp]
    generalize Fl.log (.fin (binomialPmf 1 (Real.sigmoid (if f = 0 then 2 * (x 0 j : ℝ) - 1 else 0)) (x c f))) = y at e1 e2
    cases sc with
    | none =>
      cases y with
      | nan => exact absurd e2 (by simp [NN])
      | fin v => simpa using e1
      | ninf => simpa using e1
      | pinf => simpa using e1
    | some l =>
      by_cases hfl : f ∈ l
      · simp [hfl]
      · simp [hfl, e1]
  refine (Model.outP_congr (hw.row _) (q := fun c f _ _ => if (∃ l, sc = some l ∧ f ∈ l) then 1 else
    ENNReal.ofReal (binomialPmf 1 (Real.sigmoid (if f = 0 then 2 * (x 0 j : ℝ) - 1 else 0)) (x c f))) (fun c hc f hf i hi r hr => ?_)
    (by show 0 < E.net.num_classes; omega)).trans ?_
  · rw [CondEinet.atRow_base]
    exact hent c f i r (by rw [← h1]; exact hf)
  · rw [Model.outP_const (hw.row _) _ (by show 0 < E.net.num_classes; omega)]
    show ∏ f ∈ Finset.range E.net.num_features, ∏ _c ∈ Finset.range E.net.num_channels, _ = _
    rw [h1, h2]
    simp

/-- **C62 is false as stated**: a feature of the first half may be listed in `cond_idxs`.  With two features, `total_count` 1
and the first feature conditioned on itself, the values of the density add up to `2 * sigmoid 1 > 1`. -/
theorem C62_total_refuted : ∃ (c : Config) (P : Params) (n : ℤ) (fn : Tensor Fl → Res (Tensor Fl)) (idxs : Scopes) (base unc : Par)
    (E : CondEinet) (w : Nat) (g : (Nat → Nat → Nat → Fl) → Nat → ℝ), P.Random ∧ buildCond c P n fn idxs base unc = .ok E ∧
    CondArgs E.net.num_features E.net.num_channels E.net.num_leaves E.net.num_repetitions fn idxs w g ∧ 0 < E.net.num_classes ∧
    1 < ∫⁻ ω : Fin E.net.num_channels → Fin E.net.num_features → ℝ, E.density none 0 (Pt.data ω)
      ∂Measure.pi (fun _ => Measure.pi fun _ => counting n) := by
  obtain ⟨E, h, h1, h2, h3, h4, h5⟩ := exCond_exists (F := 2) (d := 0) (n := 1) (by norm_num) (by norm_num) (by norm_num)
    (by norm_num) (exCond 2) ⟨true, [((0 : Nat) : ℤ)]⟩ (fun _ _ _ _ => 0) (fun _ _ _ _ => 0)
  have ha : CondArgs E.net.num_features E.net.num_channels E.net.num_leaves E.net.num_repetitions (exCond 2) ⟨true, [((0 : Nat) : ℤ)]⟩
      1 exCondG := by
    rw [h1, h2, h3, h4]
    exact exCond_args (F := 2) (w := 1) (idxs := ⟨true, [((0 : Nat) : ℤ)]⟩) rfl ⟨by simp, by simp⟩ one_pos rfl (Or.inr rfl)
  refine ⟨_, _, 1, _, _, _, _, E, 1, exCondG, wParams_random _ _, h, ha, by omega, ?_⟩
  have hval : ∀ x : Nat → Nat → Nat, (∀ c f, x c f ≤ 1) → E.density none 0 (fun c f => .fin (x c f : ℝ)) = ENNReal.ofReal (Real.sigmoid 1 / 2) := by
    intro x hx
    rw [exCond_density (by norm_num) h h1 h2 h3 h4 h5 hx (ms := none) rfl]
    have h0 : x 0 0 = 0 ∨ x 0 0 = 1 := by have := hx 0 0; omega
    have h1' : x 0 1 = 0 ∨ x 0 1 = 1 := by have := hx 0 1; omega
    have hσ := Real.sigmoid_neg 1
    have hp := Real.sigmoid_nonneg 1
    have e1 : binomialPmf 1 (Real.sigmoid (2 * (x 0 0 : ℝ) - 1)) (x 0 0) = Real.sigmoid 1 := by
      rcases h0 with e | e
      · simp [binomialPmf, e, hσ]
      · rw [e]; norm_num [binomialPmf]
    have e2 : binomialPmf 1 (Real.sigmoid 0) (x 0 1) = 1 / 2 := by
      rcases h1' with e | e <;> norm_num [binomialPmf, e, Real.sigmoid_zero]
    rw [Finset.prod_range_succ, Finset.prod_range_one]
    simp only [reduceCtorEq, false_and, exists_false, if_false, if_true, one_ne_zero]
    rw [e1, e2, ← ENNReal.ofReal_mul hp]
    congr 1
    ring
  have hae : ∀ᵐ ω ∂(Measure.pi fun _ => Measure.pi fun _ => counting 1 :
      Measure (Fin E.net.num_channels → Fin E.net.num_features → ℝ)), E.density none 0 (Pt.data ω) =
        ENNReal.ofReal (Real.sigmoid 1 / 2) := by
    have := missing_ae E.net.num_channels E.net.num_features 1 (fun _ _ => .nan) fun _ _ _ _ => Or.inl rfl
    unfold missing at this
    simp only [if_true] at this
    filter_upwards [this] with ω hω
    choose x hx using fun c f => (hω c f).1
    refine Eq.trans ?_ (hval (fun c f => if h : c < E.net.num_channels ∧ f < E.net.num_features then x ⟨c, h.1⟩ ⟨f, h.2⟩ else 0) ?_)
    · congr 1
      funext c f
      unfold Pt.data
      split_ifs
      · rw [(hx _ _).2]
      · simp
    · intro c f
      split_ifs with hcf
      · have := (hx ⟨c, hcf.1⟩ ⟨f, hcf.2⟩).1
        omega
      · omega
  rw [lintegral_congr_ae hae, lintegral_const]
  have hm : (Measure.pi fun _ => Measure.pi fun _ => counting 1 :
      Measure (Fin E.net.num_channels → Fin E.net.num_features → ℝ)) Set.univ = 4 := by
    have hc : counting 1 Set.univ = 2 := by
      simp only [counting, Int.toNat_one, Measure.coe_finsetSum, Finset.sum_apply, measure_univ, Finset.sum_const,
        Finset.card_range, nsmul_eq_mul, mul_one]
      norm_num
    have : SigmaFinite (counting 1) := by unfold counting; infer_instance
    rw [← Set.pi_univ, Measure.pi_pi]
    have h' : ∀ _ : Fin E.net.num_channels, (Measure.pi fun _ : Fin E.net.num_features => counting 1) Set.univ = 4 := by
      intro _
      rw [← Set.pi_univ, Measure.pi_pi]
      simp only [hc, Finset.prod_const, Finset.card_univ, Fintype.card_fin, h1]
      norm_num
    rw [Finset.prod_congr rfl fun i _ => h' i]
    simp [h2]
  rw [hm]
  have hσ : (1 : ℝ) / 2 < Real.sigmoid 1 := by
    have := Real.sigmoid_lt (show (0 : ℝ) < 1 by norm_num)
    rw [Real.sigmoid_zero] at this
    linarith
  have : (4 : ℝ≥0∞) = ENNReal.ofReal 4 := by norm_num
  rw [this, ← ENNReal.ofReal_mul (by linarith), ← ENNReal.ofReal_one, ENNReal.ofReal_lt_ofReal_iff (by linarith)]
  linarith

/-- **C62 is false as stated**: marginalising a conditioning feature does not remove it.  The two rows differ only in feature
1, which is marginalised, and get different densities. -/
theorem C62_scopes_refuted : ∃ (c : Config) (P : Params) (n : ℤ) (fn : Tensor Fl → Res (Tensor Fl)) (idxs : Scopes) (base unc : Par)
    (E : CondEinet) (w : Nat) (g : (Nat → Nat → Nat → Fl) → Nat → ℝ) (s : Scopes) (X X' : Data), P.Random ∧
    buildCond c P n fn idxs base unc = .ok E ∧
    CondArgs E.net.num_features E.net.num_channels E.net.num_leaves E.net.num_repetitions fn idxs w g ∧ 0 < E.net.num_classes ∧
    (∀ i ∈ idxs.idx, E.net.num_features / 2 ≤ pyIndex E.net.num_features i) ∧ Usable E.net.num_features s ∧
    (∀ Y ∈ [X, X'], ∀ c f, Y c f = .fin 0 ∨ Y c f = .fin 1) ∧
    (∀ c f, ¬ Listed E.net.num_features s f → X c f = X' c f) ∧ E.density (some s) 0 X ≠ E.density (some s) 0 X' := by
  obtain ⟨E, h, h1, h2, h3, h4, h5⟩ := exCond_exists (F := 2) (d := 0) (n := 1) (by norm_num) (by norm_num) (by norm_num)
    (by norm_num) (exCond 2) ⟨true, [((1 : Nat) : ℤ)]⟩ (fun _ _ _ _ => 0) (fun _ _ _ _ => 0)
  have ha : CondArgs E.net.num_features E.net.num_channels E.net.num_leaves E.net.num_repetitions (exCond 2) ⟨true, [((1 : Nat) : ℤ)]⟩
      1 exCondG := by
    rw [h1, h2, h3, h4]
    exact exCond_args (F := 2) (w := 1) (idxs := ⟨true, [((1 : Nat) : ℤ)]⟩) rfl ⟨by simp, by simp⟩ one_pos rfl (Or.inr rfl)
  let x : Nat → Nat := fun f => if f = 1 then 0 else 1
  let x' : Nat → Nat := fun _ => 1
  refine ⟨_, _, 1, _, _, _, _, E, 1, exCondG, ⟨true, [1]⟩, fun _ f => .fin (x f : ℝ), fun _ f => .fin (x' f : ℝ), wParams_random _ _, h,
    ha, by omega, ?_, ?_, ?_, ?_, ?_⟩
  · rw [h1]; simp [pyIndex]
  · rw [h1]; exact ⟨by simp, by simp⟩
  · intro Y hY c f
    simp only [List.mem_cons, List.not_mem_nil, or_false] at hY
    rcases hY with rfl | rfl
    · by_cases hf : f = 1 <;> simp [x, hf]
    · simp [x']
  · intro c f hf
    rw [h1] at hf
    have : f ≠ 1 := fun e => hf ⟨1, by simp, by simp [e]⟩
    simp [x, x', this]
  · have hr : Scopes.resolveOpt 2 (some ⟨true, [1]⟩) = .ok (some [1]) := by
      have h0 : (⟨true, [1]⟩ : Scopes).resolve 2 = .ok [1] := by
        unfold Scopes.resolve
        rw [require_true _ (by simp)]
        simp only [Res.ok_bind]
        rw [require_true _ (by simp)]
        simp [wrapIdx]
      show ((⟨true, [1]⟩ : Scopes).resolve 2).map some = _
      rw [h0]
      rfl
    rw [exCond_density (by norm_num) h h1 h2 h3 h4 h5 (x := fun _ => x) (fun _ f => by dsimp only [x]; split_ifs <;> omega) hr,
      exCond_density (by norm_num) h h1 h2 h3 h4 h5 (x := fun _ => x') (fun _ f => le_rfl) hr]
    rw [Finset.prod_range_succ, Finset.prod_range_one, Finset.prod_range_succ, Finset.prod_range_one]
    simp [x, x', binomialPmf]
    rw [ENNReal.ofReal_eq_ofReal_iff (Real.sigmoid_nonneg _) (Real.sigmoid_nonneg _), Real.sigmoid_inj]
    norm_num

end Einet.Props
