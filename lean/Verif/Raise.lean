import Verif.BuildWF
import Verif.LeafSample

/-!
# Calls that always raise

`x.Raises`: every random outcome of `x` ends in an exception.
-/

open Classical
noncomputable section
namespace Einet
open Tensor

namespace Rand
variable {α β : Type}

/-- every outcome of positive probability raises an exception. -/
def Raises : Rand α → Prop
  | pure _ => False
  | fail _ => True
  | draw K w k => ∀ j, j < K → toP (Fl.logSoftmax K w j) ≠ 0 → Raises (k j)
  | leaf _ k => ∀ x, Raises (k x)

theorem Raises.bind_left {x : Rand α} (h : x.Raises) (g : α → Rand β) : (x.bind g).Raises := by
  induction x with
  | pure a => exact absurd h id
  | fail e => trivial
  | draw K w k ih => exact fun j hj hw => ih j (h j hj hw)
  | leaf μ k ih => exact fun v => ih v (h v)

theorem Raises.bind_right {x : Rand α} {g : α → Rand β} (h : ∀ a, (g a).Raises) : (x.bind g).Raises := by
  induction x with
  | pure a => exact h a
  | fail e => trivial
  | draw K w k ih => exact fun j _ _ => ih j
  | leaf μ k ih => exact fun v => ih v

theorem Raises.lift {e : Res α} (h : ∀ a, e ≠ .ok a) : (Rand.lift e).Raises := by
  cases e with
  | ok a => exact absurd rfl (h a)
  | error e => trivial

/-- a program that raises returns no result: the expectation of every test function is 0. -/
theorem Raises.E {x : Rand α} (h : x.Raises) (f : α → ENNReal) : x.E f = 0 := by
  induction x with
  | pure a => exact absurd h id
  | fail e => rfl
  | draw K w k ih =>
    show ∑ j ∈ Finset.range K, _ * (k j).E f = 0
    refine Finset.sum_eq_zero fun j hj => ?_
    by_cases hw : toP (Fl.logSoftmax K w j) = 0
    · rw [hw, zero_mul]
    · rw [ih j (h j (by simpa using hj) hw), mul_zero]
  | leaf μ k ih =>
    show MeasureTheory.lintegral μ (fun x => (k x).E f) = 0
    simp only [fun x => ih x (h x), MeasureTheory.lintegral_zero]

end Rand

/-! ### Leaves without `_get_base_distribution(ctx)` -/

theorem BaseLeaf.sampleAll_raises {B : BaseLeaf} (h : B.samplable = false) (ctx : Ctx) : (B.sampleAll ctx).Raises := by
  refine Rand.Raises.bind_left (Rand.Raises.lift fun a e => ?_) _
  rw [require_false _ (by simp [h])] at e
  cases e

theorem Leaf.sample_raises {L : Leaf} (h : L.base.samplable = false) (ctx : Ctx) : (L.sample ctx).Raises := by
  cases L with
  | direct B => exact Rand.Raises.bind_left (BaseLeaf.sampleAll_raises h ctx) _
  | factorized L => exact Rand.Raises.bind_left (BaseLeaf.sampleAll_raises h ctx) _
  | simple L => exact Rand.Raises.bind_left (BaseLeaf.sampleAll_raises h ctx) _

theorem Model.sample_raises {M : Model} (h : M.leaf.base.samplable = false) (a : SampleArgs) : (M.sample a).Raises :=
  Rand.Raises.bind_right fun _ => Rand.Raises.bind_right fun _ => Rand.Raises.bind_right fun ctx =>
    Rand.Raises.bind_left (Leaf.sample_raises h ctx) _

/-! ### Contexts with the wrong number of rows -/

/-- the number of rows of the indices is not `num_samples`. -/
def Ctx.Mis (ctx : Ctx) : Prop := ctx.indices_out.size 0 ≠ ctx.num_samples

theorem Ctx.Mis.check {ctx : Ctx} (h : ctx.Mis) (D : Nat) (u : Unit) : checkContext D ctx ≠ .ok u := by
  intro e
  unfold checkContext at e
  obtain ⟨_, _, e⟩ := bind_ok e
  obtain ⟨_, h1, _⟩ := bind_ok e
  rw [require_false _ h] at h1
  cases h1

theorem absSample_raises {ctx : Ctx} (h : ctx.Mis) (D : Nat) (s : Ctx → Res (Tensor Fl))
    (c : Cache → Ctx → Tensor Fl → Res (Tensor Fl)) (p : Ctx → Tensor Nat → Res (Tensor Nat)) (cache : Option Cache) :
    (absSample D s c p cache ctx).Raises :=
  Rand.Raises.bind_left (Rand.Raises.lift (h.check D)) _

theorem Layer.sample_raises {l : Layer} (hl : l.isSum = true) {ctx : Ctx} (h : ctx.Mis) (cache : Option Cache) :
    (l.sample cache ctx).Raises := by
  cases l with
  | sum L =>
    show (SumLayer.sample L cache ctx).Raises
    exact absSample_raises h _ _ _ _ _
  | linsum L =>
    show (LinsumLayer.sample L cache ctx).Raises
    exact absSample_raises h _ _ _ _ _
  | linsum2 L =>
    show (LinsumLayer2.sample L cache ctx).Raises
    exact absSample_raises h _ _ _ _ _
  | einsum L =>
    show (EinsumLayer.sample L cache ctx).Raises
    exact absSample_raises h _ _ _ _ _
  | rootProduct F R => cases hl

theorem sampleLayers_raises {ls : List Layer} {ctx : Ctx} (h : ctx.Mis) (cs : List (Option Cache)) :
    (sampleLayers ls cs ctx).Raises ∨
      ((∀ l ∈ ls, l.isSum = false) ∧ ∃ ctx', sampleLayers ls cs ctx = .pure ctx' ∧ ctx'.Mis) := by
  induction ls generalizing cs with
  | nil => exact Or.inr ⟨by simp, ctx, rfl, h⟩
  | cons l ls ih =>
    rcases ih cs.tail with h1 | ⟨h1, ctx', h2, h3⟩
    · exact Or.inl (h1.bind_left _)
    · unfold sampleLayers
      rw [h2]
      by_cases hl : l.isSum = true
      · exact Or.inl (Layer.sample_raises hl h3 _)
      · cases l with
        | rootProduct F R =>
          by_cases hr : 1 < ctx'.indices_out.rank
          · refine Or.inr ⟨?_, ?_⟩
            · intro l' hl'
              rcases List.mem_cons.1 hl' with rfl | hl'
              · rfl
              · exact h1 l' hl'
            · refine ⟨{ ctx' with indices_out := ⟨setAt 1 (ctx'.indices_out.size 1 * F) ctx'.indices_out.shape,
                fun i => ctx'.indices_out.get (setAt 1 (at' 1 i % ctx'.indices_out.size 1) i)⟩ }, ?_, ?_⟩
              · show Rand.lift (RootProductLayer.sample F ctx') = _
                unfold RootProductLayer.sample
                rw [require_true _ hr]
                rfl
              · unfold Ctx.Mis at h3 ⊢
                have : ∀ (s : List Nat) m, at' 0 (setAt 1 m s) = at' 0 s := fun s m => by
                  match s with
                  | [] => rfl
                  | [a] => rfl
                  | a :: b :: s => rfl
                simpa [Tensor.size, this] using h3
          · refine Or.inl (Rand.Raises.lift fun a e => ?_)
            unfold RootProductLayer.sample at e
            rw [require_false _ hr] at e
            cases e
        | _ => exact absurd rfl hl

theorem mkLayer_isSum {c : Config} {F S O : Nat} {w : List Nat → ℝ} {l : Layer} (h : mkLayer c F S O w = .ok l) :
    l.isSum = true := by
  unfold mkLayer at h
  split_ifs at h
  all_goals
    obtain ⟨_, _, h⟩ := bind_ok h
    simp only [Res.pure_eq, Except.ok.injEq] at h
    rw [← h]
    rfl

theorem build_hasSum {c : Config} {P : Params} {M : Model} (h : build c P = .ok M) : ∃ l ∈ M.layers, l.isSum = true := by
  unfold build at h
  obtain ⟨_, _, h⟩ := bind_ok h
  split_ifs at h
  · unfold buildTopDown at h
    obtain ⟨⟨l, O⟩, hl, h⟩ := bind_ok h
    obtain ⟨_, _, h⟩ := bind_ok h
    obtain ⟨_, _, h⟩ := bind_ok h
    simp only [Res.pure_eq, Except.ok.injEq] at h
    rw [← h]
    unfold topDownStructure at hl
    split_ifs at hl with h1 h2
    · obtain ⟨L, _, hl⟩ := bind_ok hl
      simp only [Res.pure_eq, Except.ok.injEq, Prod.mk.injEq] at hl
      rw [← hl.1]
      exact ⟨_, List.mem_singleton.2 rfl, rfl⟩
    · obtain ⟨L, hL, hl⟩ := bind_ok hl
      simp only [Res.pure_eq, Except.ok.injEq, Prod.mk.injEq] at hl
      rw [← hl.1]
      obtain ⟨n, hn⟩ : ∃ n, c.depth.toNat = n + 1 := ⟨c.depth.toNat - 1, by omega⟩
      rw [hn] at hL
      simp only [topDownLayers] at hL
      obtain ⟨_, _, hL⟩ := bind_ok hL
      obtain ⟨l', hl', hL⟩ := bind_ok hL
      simp only [Res.pure_eq, Except.ok.injEq] at hL
      rw [← hL]
      exact ⟨l', List.mem_cons_self, mkLayer_isSum hl'⟩
  · unfold buildBottomUp at h
    obtain ⟨l, hl, h⟩ := bind_ok h
    obtain ⟨_, _, h⟩ := bind_ok h
    obtain ⟨_, _, h⟩ := bind_ok h
    simp only [Res.pure_eq, Except.ok.injEq] at h
    rw [← h]
    unfold bottomUpStructure at hl
    split_ifs at hl
    obtain ⟨_, _, hl⟩ := bind_ok hl
    obtain ⟨L, _, hl⟩ := bind_ok hl
    simp only [Res.pure_eq, Except.ok.injEq] at hl
    rw [← hl]
    exact ⟨.sum L, by simp, rfl⟩

/-- a class list whose length is not `num_samples` raises. -/
theorem Model.sample_list_raises {M : Model} (hs : ∃ l ∈ M.layers, l.isSum = true) (a : SampleArgs) (l : List Nat)
    (hc : a.class_index = some (.list l)) (hK : 1 < M.num_classes) (hl : l.length ≠ a.count) : (M.sample a).Raises := by
  refine Rand.Raises.bind_right fun _ => Rand.Raises.bind_right fun cs => Rand.Raises.bind_left ?_ _
  unfold samplePath pickClass
  rw [if_pos hK, hc]
  have hm : Ctx.Mis { M.initCtx a with indices_out := ⟨[l.length, 1], fun i => l.getD (at' 0 i) 0⟩ } := hl
  unfold pickRep
  split_ifs
  · exact ((absSample_raises hm _ _ _ _ _).bind_left _).bind_left _
  · rcases sampleLayers_raises hm cs.layers with h | ⟨h, _⟩
    · exact h.bind_left _
    · obtain ⟨l', h1, h2⟩ := hs
      rw [h l' h1] at h2
      cases h2

end Einet
