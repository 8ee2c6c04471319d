import Verif.BuildFwd
import Verif.PropsBuild

/-!
# Properties of the density: C01, C02, C03, C04, C05

All statements are about a model obtained from the constructor (`build c P = .ok M`) for any configuration, any finite
parameters and any outcome of the random choices made during construction.
-/

open Classical MeasureTheory
open scoped ENNReal
noncomputable section
namespace Einet.Props
open Tensor Einet

/-! ### C01 -/

/-- **C01**: the density `exp(model(x)[0, k])` integrates to one over the data space `ℝ^(C × F)`, with respect to Lebesgue
measure (continuous leaves) or counting measure (discrete leaves) in every entry. -/
theorem C01_density_integral (c : Config) (P : Params) (hP : P.Random) (hg : P.leaf.Good) (M : Model)
    (h : build c P = .ok M) (k : Nat) (hk : k < M.num_classes) :
    ∫⁻ ω : Fin M.num_channels → Fin M.num_features → ℝ, M.density none k (Pt.data ω)
      ∂(Measure.pi fun _ => Measure.pi fun _ => P.leaf.ref) = 1 := by
  obtain ⟨-, hw, hp, _⟩ := build_WF hP h
  have := Model.density_integral hw (hp hg) hk
  rwa [LeafSpec.ref_eq (build_leaf hP h)] at this

/-- the hypotheses are met by models of all four layer types and structures, with Lebesgue measure. -/
example (l s : String) (hls : (l = "linsum" ∨ l = "linsum2" ∨ l = "einsum") ∧ s = "top-down" ∨
    l = "linsum" ∧ s = "bottom-up") : ∃ M, build (exConfig l s) (exParams exLeaf) = .ok M ∧ 2 < M.num_classes ∧
    (exParams exLeaf).leaf.Good ∧ (exParams exLeaf).leaf.ref = volume := by
  obtain ⟨M, h⟩ := exConfig_normal hls
  refine ⟨M, h, ?_, by simp [exParams, exLeaf, LeafSpec.Good], rfl⟩
  rw [(build_WF (exParams_random _) h).1.classes]
  norm_num [exConfig]

/-! ### C02 -/

/-- **C02**: for a batch of any size with any pattern of NaN entries, the result for row `n` is the logarithm of the
integral of the density over the missing entries of this row, the others being fixed. -/
theorem C02_marginal (c : Config) (P : Params) (hP : P.Random) (hg : P.leaf.Good) (M : Model) (h : build c P = .ok M)
    (N : Nat) (x : Tensor Fl) (hx : Batch P.leaf N M.num_channels M.num_features x) (n : Nat) (hn : n < N) (k : Nat)
    (hk : k < M.num_classes) :
    ∃ y v, M.forward x = .ok y ∧ y.get [n, k] = .fin v ∧ ENNReal.ofReal (Real.exp v) =
      ∫⁻ ω : Fin M.num_channels → Fin M.num_features → ℝ, M.density none k (Pt.data ω)
        ∂(Measure.pi fun c : Fin M.num_channels => Measure.pi fun f : Fin M.num_features =>
          if x.get [n, c, f] = .nan then P.leaf.ref else Measure.dirac (x.get [n, c, f]).val) := by
  obtain ⟨-, hw, hp, _⟩ := build_WF hP h
  obtain ⟨y, hy, _, hv⟩ := build_forward hP hg h hx (ms := none) rfl
  obtain ⟨⟨v, hfin⟩, -⟩ := build_outRow hP hg h (hx.2 n hn) (sc := none) (fun _ _ _ _ e => e) hk
  have hobs := (build_observed hP h).2 (hx.2 n hn)
  have hd := Model.density_eq hw (hp hg) hobs (ms := none) rfl hk
  have hm := Model.density_missing hw (hp hg) hobs hk
  rw [LeafSpec.ref_eq (build_leaf hP h)] at hm
  refine ⟨y, v, hy, by rw [hv n hn k hk, hfin], ?_⟩
  rw [hfin] at hd
  exact hd.symm.trans hm

/-- **C02**, last clause: if all entries of a row are missing the result is exactly 0. -/
theorem C02_all_missing (c : Config) (P : Params) (hP : P.Random) (hg : P.leaf.Good) (M : Model) (h : build c P = .ok M)
    (N : Nat) (x : Tensor Fl) (hx : Batch P.leaf N M.num_channels M.num_features x) (n : Nat) (hn : n < N)
    (hall : ∀ c, c < M.num_channels → ∀ f, f < M.num_features → x.get [n, c, f] = .nan) (k : Nat)
    (hk : k < M.num_classes) : ∃ y, M.forward x = .ok y ∧ y.get [n, k] = .fin 0 := by
  obtain ⟨-, hw, hp, _⟩ := build_WF hP h
  obtain ⟨y, hy, _, hv⟩ := build_forward hP hg h hx (ms := none) rfl
  exact ⟨y, hy, by rw [hv n hn k hk]; exact Model.outRow_all_nan hw hk hall⟩

/-- a batch with a fully observed, a partly observed and an unobserved row. -/
def exBatch : Tensor Fl :=
  ⟨[3, 2, 5], fun i => if at' 0 i = 2 ∨ (at' 0 i = 1 ∧ at' 2 i = 3) then .nan else .fin i.sum⟩

theorem exBatch_batch : Batch (exParams exLeaf).leaf 3 2 5 exBatch := by
  refine ⟨rfl, fun n _ c _ f _ => ?_⟩
  by_cases e : n = 2 ∨ n = 1 ∧ f = 3
  · left; simp [exBatch, at', e]
  · right; exact ⟨_, if_neg (by simpa [at'] using e), by simp [exParams, exLeaf, LeafSpec.InSupport]⟩

theorem exSizes {l s : String} {M : Model} (h : build (exConfig l s) (exParams exLeaf) = .ok M) :
    M.num_channels = 2 ∧ M.num_features = 5 ∧ M.num_classes = 3 := by
  have := (build_WF (exParams_random _) h).1
  exact ⟨by rw [this.channels]; rfl, by rw [this.features]; rfl, by rw [this.classes]; rfl⟩

example : ∃ M, build (exConfig "einsum" "top-down") (exParams exLeaf) = .ok M ∧
    Batch (exParams exLeaf).leaf 3 M.num_channels M.num_features exBatch ∧ exBatch.get [1, 0, 3] = .nan ∧
    exBatch.get [1, 0, 2] ≠ .nan ∧
    (∀ c, c < M.num_channels → ∀ f, f < M.num_features → exBatch.get [2, c, f] = .nan) := by
  obtain ⟨M, h⟩ := exConfig_normal (l := "einsum") (s := "top-down") (Or.inl ⟨Or.inr (Or.inr rfl), rfl⟩)
  obtain ⟨e1, e2, e3⟩ := exSizes h
  refine ⟨M, h, by rw [e1, e2]; exact exBatch_batch, ?_, ?_, fun c _ f _ => ?_⟩ <;> simp [exBatch, at']

/-! ### C03 -/

/-- feature `f` is listed in `marginalized_scopes`; negative numbers count from the end. -/
def Listed (F : Nat) (s : Scopes) (f : Nat) : Prop := ∃ i ∈ s.idx, i = (f : ℤ) ∨ i = (f : ℤ) - F

/-- a scope argument that can be used as an index: all numbers are in range, and a Python list is not empty. -/
def Usable (F : Nat) (s : Scopes) : Prop :=
  (∀ i ∈ s.idx, -(F : ℤ) ≤ i ∧ i < F) ∧ (s.isList = true → s.idx ≠ [])

theorem usable_resolve {F : Nat} {s : Scopes} (h : Usable F s) :
    ∃ l, Scopes.resolveOpt F (some s) = .ok (some l) ∧ ∀ f, f < F → (f ∈ l ↔ Listed F s f) := by
  refine ⟨s.idx.map (wrapIdx F), ?_, fun f hf => ?_⟩
  · have h1 : ¬ (s.isList = true ∧ s.idx = []) := fun e => h.2 e.1 e.2
    have hr : s.resolve F = .ok (s.idx.map (wrapIdx F)) := by
      unfold Scopes.resolve
      rw [require_true _ h1]
      simp only [Res.ok_bind]
      rw [require_true _ h.1]
      rfl
    unfold Scopes.resolveOpt
    simp only [hr]
    rfl
  · rw [List.mem_map]
    refine exists_congr fun i => and_congr_right fun hi => ?_
    have := h.1 i hi
    unfold wrapIdx
    split_ifs <;> omega

theorem not_usable_resolve {F : Nat} {s : Scopes} (h : ¬ Usable F s) : ∃ e, Scopes.resolveOpt F (some s) = .error e := by
  simp only [Scopes.resolveOpt, Scopes.resolve]
  by_cases h1 : s.isList = true ∧ s.idx = []
  · rw [require_false _ (by simpa using h1)]
    exact ⟨_, rfl⟩
  · rw [require_true _ h1]
    simp only [Res.ok_bind]
    rw [require_false _ (fun e => h ⟨e, fun a b => h1 ⟨a, b⟩⟩)]
    exact ⟨_, rfl⟩

/-- `x` with every channel of the listed features set to NaN. -/
def withNaN (F : Nat) (s : Scopes) (x : Tensor Fl) : Tensor Fl :=
  ⟨x.shape, fun i => if Listed F s (at' 2 i) then .nan else x.get i⟩

/-- **C03**: `model(x, marginalized_scopes)` is `model(x')` where `x'` is `x` with NaN in the listed features. -/
theorem C03_scopes_eq_nan (c : Config) (P : Params) (hP : P.Random) (hg : P.leaf.Good) (M : Model) (h : build c P = .ok M)
    (N : Nat) (x : Tensor Fl) (hx : Batch P.leaf N M.num_channels M.num_features x)
    (hnan : ∀ n, n < N → ∀ c, c < M.num_channels → ∀ f, f < M.num_features → x.get [n, c, f] ≠ .nan) (s : Scopes)
    (hs : Usable M.num_features s) :
    ∃ y y', M.forward x (some s) = .ok y ∧ M.forward (withNaN M.num_features s x) = .ok y' ∧
      y.shape = [N, M.num_classes] ∧ y'.shape = [N, M.num_classes] ∧
      ∀ n, n < N → ∀ k, k < M.num_classes → (∃ v : ℝ, y.get [n, k] = .fin v) ∧ y.get [n, k] = y'.get [n, k] := by
  obtain ⟨l, hl, hm⟩ := usable_resolve hs
  have hx' : Batch P.leaf N M.num_channels M.num_features (withNaN M.num_features s x) := by
    refine ⟨hx.1, fun n hn c hc f hf => ?_⟩
    by_cases e : Listed M.num_features s f
    · left; simp [withNaN, at', e]
    · rcases hx.2 n hn c hc f hf with h1 | h1
      · exact absurd h1 (hnan n hn c hc f hf)
      · right; simpa [withNaN, at', e] using h1
  obtain ⟨y, hy, hys, hv⟩ := build_forward hP hg h hx hl
  obtain ⟨y', hy', hys', hv'⟩ := build_forward hP hg h hx' (ms := none) rfl
  refine ⟨y, y', hy, hy', hys, hys', fun n hn k hk => ?_⟩
  obtain ⟨⟨v, hfin⟩, he⟩ := build_outRow hP hg h (hx.2 n hn) (sc := some l)
    (fun c hc f hf e => absurd e (hnan n hn c hc f hf)) hk
  rw [hv n hn k hk, hv' n hn k hk]
  refine ⟨⟨v, hfin⟩, he.trans (Model.outRow_congr (build_WF hP h).2.1 (fun c hc f hf i hi r hr => ?_) hk)⟩
  have : masked (some l) (fun c f => x.get [n, c, f]) c f = (withNaN M.num_features s x).get [n, c, f] := by
    simp only [masked, holeAt, withNaN, at', hm f hf]
    rfl
  rw [this]

/-- **C03**, last clause: values at the listed features do not matter. -/
theorem C03_values_irrelevant (c : Config) (P : Params) (hP : P.Random) (hg : P.leaf.Good) (M : Model)
    (h : build c P = .ok M) (N : Nat) (x x' : Tensor Fl) (hx : Batch P.leaf N M.num_channels M.num_features x)
    (hx' : Batch P.leaf N M.num_channels M.num_features x') (s : Scopes) (hs : Usable M.num_features s)
    (heq : ∀ n, n < N → ∀ c, c < M.num_channels → ∀ f, f < M.num_features → ¬ Listed M.num_features s f →
      x.get [n, c, f] = x'.get [n, c, f]) :
    ∃ y y', M.forward x (some s) = .ok y ∧ M.forward x' (some s) = .ok y' ∧
      ∀ n, n < N → ∀ k, k < M.num_classes → y.get [n, k] = y'.get [n, k] := by
  obtain ⟨l, hl, hm⟩ := usable_resolve hs
  obtain ⟨y, hy, hys, hv⟩ := build_forward hP hg h hx hl
  obtain ⟨y', hy', hys', hv'⟩ := build_forward hP hg h hx' hl
  refine ⟨y, y', hy, hy', fun n hn k hk => ?_⟩
  rw [hv n hn k hk, hv' n hn k hk]
  refine Model.outRow_congr (build_WF hP h).2.1 (fun c hc f hf i hi r hr => ?_) hk
  by_cases e : f ∈ l
  · simp [BaseLeaf.entry, e]
  · rw [heq n hn c hc f hf (fun e' => e ((hm f hf).2 e'))]

/-- scopes given as Python list `[1, -1]`, and a batch without NaN. -/
example : ∃ M, build (exConfig "linsum" "bottom-up") (exParams exLeaf) = .ok M ∧
    Batch (exParams exLeaf).leaf 7 M.num_channels M.num_features ⟨[7, 2, 5], fun i => .fin i.sum⟩ ∧
    Usable M.num_features ⟨true, [1, -1]⟩ ∧ Listed M.num_features ⟨true, [1, -1]⟩ 4 ∧
    ¬ Listed M.num_features ⟨true, [1, -1]⟩ 0 := by
  obtain ⟨M, h⟩ := exConfig_normal (l := "linsum") (s := "bottom-up") (Or.inr ⟨rfl, rfl⟩)
  obtain ⟨e1, e2, e3⟩ := exSizes h
  refine ⟨M, h, ?_⟩
  rw [e1, e2]
  exact ⟨⟨rfl, fun n _ c _ f _ => Or.inr ⟨_, rfl, trivial⟩⟩, ⟨by simp, by simp⟩, ⟨-1, by simp, by simp⟩, by simp [Listed]⟩

/-! ### C04 -/

/-- **C04**: with `marginalized_scopes` given, a row with a NaN outside the listed features has result NaN for every
class, and every other row has a finite result. -/
theorem C04_nan_outside_scopes (c : Config) (P : Params) (hP : P.Random) (hg : P.leaf.Good) (M : Model)
    (h : build c P = .ok M) (N : Nat) (x : Tensor Fl) (hx : Batch P.leaf N M.num_channels M.num_features x) (s : Scopes)
    (hs : Usable M.num_features s) :
    ∃ y, M.forward x (some s) = .ok y ∧ ∀ n, n < N → ∀ k, k < M.num_classes →
      if ∃ c f, c < M.num_channels ∧ f < M.num_features ∧ x.get [n, c, f] = .nan ∧ ¬ Listed M.num_features s f
      then y.get [n, k] = .nan else ∃ v : ℝ, y.get [n, k] = .fin v := by
  obtain ⟨l, hl, hm⟩ := usable_resolve hs
  obtain ⟨y, hy, hys, hv⟩ := build_forward hP hg h hx hl
  refine ⟨y, hy, fun n hn k hk => ?_⟩
  rw [hv n hn k hk]
  split_ifs with e
  · obtain ⟨c, f, hc, hf, hnan, hnot⟩ := e
    exact Model.outRow_nan (build_WF hP h).2.1 hc hf hnan (fun e => hnot ((hm f hf).1 e)) hk
  · exact (build_outRow hP hg h (hx.2 n hn) (sc := some l) (fun c hc f hf hnan => by
      by_contra hne
      exact e ⟨c, f, hc, hf, hnan, fun e' => hne ((hm f hf).2 e')⟩) hk).1

/-- scope arguments that cannot be used as an index raise. -/
theorem C04_bad_scopes (c : Config) (P : Params) (hP : P.Random) (M : Model) (h : build c P = .ok M) (x : Tensor Fl)
    (s : Scopes) (hs : ¬ Usable M.num_features s) : ∃ e, M.forward x (some s) = .error e := by
  obtain ⟨e, he⟩ := not_usable_resolve hs
  by_contra hne
  rw [not_exists] at hne
  cases hf : M.forward x (some s) with
  | error e => exact hne e hf
  | ok y =>
    have hF := (build_WF hP h).2.1.front.features
    unfold Model.forward at hf
    cases hr : M.run x (some s) with
    | error e => rw [hr] at hf; exact absurd hf (by simp [Except.map])
    | ok p =>
      unfold Model.run at hr
      obtain ⟨x1, _, hr⟩ := bind_ok hr
      obtain ⟨y1, hl, _⟩ := bind_ok hr
      have hbase : ∀ B : BaseLeaf, B.num_features = M.num_features → ∀ z, B.forward x1 (some s) ≠ .ok z := by
        intro B hB z hz
        unfold BaseLeaf.forward at hz
        obtain ⟨_, _, hz⟩ := bind_ok hz
        obtain ⟨_, _, hz⟩ := bind_ok hz
        rw [hB, he] at hz
        exact absurd hz (by simp [Res.error_bind])
      cases hL : M.leaf with
      | direct B =>
        rw [hL] at hl hF
        exact hbase B hF _ hl
      | factorized L =>
        rw [hL] at hl hF
        obtain ⟨z, hz, _⟩ := bind_ok hl
        exact hbase _ hF _ hz
      | simple L =>
        rw [hL] at hl hF
        obtain ⟨z, hz, _⟩ := bind_ok hl
        exact hbase _ hF _ hz

/-- in `exBatch` with scopes `[3]`, rows 0 and 1 have no NaN outside the scopes, row 2 has. -/
example : ∃ M, build (exConfig "linsum2" "top-down") (exParams exLeaf) = .ok M ∧
    Batch (exParams exLeaf).leaf 3 M.num_channels M.num_features exBatch ∧ Usable M.num_features ⟨true, [3]⟩ ∧
    exBatch.get [2, 0, 0] = .nan ∧ ¬ Listed M.num_features ⟨true, [3]⟩ 0 ∧ ¬ Usable M.num_features ⟨true, [5]⟩ := by
  obtain ⟨M, h⟩ := exConfig_normal (l := "linsum2") (s := "top-down") (Or.inl ⟨Or.inr (Or.inl rfl), rfl⟩)
  obtain ⟨e1, e2, e3⟩ := exSizes h
  refine ⟨M, h, ?_⟩
  rw [e1, e2]
  exact ⟨exBatch_batch, ⟨by simp, by simp⟩, by simp [exBatch, at'], by simp [Listed], by simp [Usable]⟩

/-! ### C05 -/

/-- **C05**: if row `n` of one batch equals row `n'` of another, the results of the two rows are equal, whatever the batch
sizes and the other rows are; in particular a row gives the same result as when it is evaluated alone. -/
theorem C05_rows_independent (c : Config) (P : Params) (hP : P.Random) (hg : P.leaf.Good) (M : Model)
    (h : build c P = .ok M) (N N' : Nat) (x x' : Tensor Fl) (hx : Batch P.leaf N M.num_channels M.num_features x)
    (hx' : Batch P.leaf N' M.num_channels M.num_features x') (ms : Option Scopes)
    (hs : ∀ s, ms = some s → Usable M.num_features s) (n n' : Nat) (hn : n < N) (hn' : n' < N')
    (heq : ∀ c, c < M.num_channels → ∀ f, f < M.num_features → x.get [n, c, f] = x'.get [n', c, f]) :
    ∃ y y', M.forward x ms = .ok y ∧ M.forward x' ms = .ok y' ∧
      ∀ k, k < M.num_classes → y.get [n, k] = y'.get [n', k] := by
  obtain ⟨sc, hsc⟩ : ∃ sc, Scopes.resolveOpt M.num_features ms = .ok sc := by
    cases ms with
    | none => exact ⟨_, rfl⟩
    | some s =>
      obtain ⟨l, hl, _⟩ := usable_resolve (hs s rfl)
      exact ⟨_, hl⟩
  obtain ⟨y, hy, -, hv⟩ := build_forward hP hg h hx hsc
  obtain ⟨y', hy', -, hv'⟩ := build_forward hP hg h hx' hsc
  refine ⟨y, y', hy, hy', fun k hk => ?_⟩
  rw [hv n hn k hk, hv' n' hn' k hk]
  exact Model.outRow_congr (build_WF hP h).2.1 (fun c hc f hf i hi r hr => by rw [heq c hc f hf]) hk

/-- row 1 of `exBatch`, alone. -/
example : ∃ M, build (exConfig "linsum" "top-down") (exParams exLeaf) = .ok M ∧
    Batch (exParams exLeaf).leaf 3 M.num_channels M.num_features exBatch ∧
    Batch (exParams exLeaf).leaf 1 M.num_channels M.num_features ⟨[1, 2, 5], fun i => exBatch.get (1 :: i.tail)⟩ ∧
    ∀ c f, exBatch.get [1, c, f] = (⟨[1, 2, 5], fun i => exBatch.get (1 :: i.tail)⟩ : Tensor Fl).get [0, c, f] := by
  obtain ⟨M, h⟩ := exConfig_normal (l := "linsum") (s := "top-down") (Or.inl ⟨Or.inl rfl, rfl⟩)
  obtain ⟨e1, e2, e3⟩ := exSizes h
  refine ⟨M, h, ?_⟩
  rw [e1, e2]
  exact ⟨exBatch_batch, ⟨rfl, fun n _ => exBatch_batch.2 1 (by norm_num)⟩, fun _ _ => rfl⟩

end Einet.Props
