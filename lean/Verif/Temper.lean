import Verif.PropsMax

/-!
# Temperatures: C41
-/

open Classical MeasureTheory
open scoped ENNReal
noncomputable section
namespace Einet
open Tensor

/-! ### Specification -/

/-- the sum layer with all logits multiplied by `s`. -/
def SumL.scale (s : ℝ) (L : SumL) : SumL := { L with logits := L.logits.map fun x => .fin s * x }

/-- the layer with all logits multiplied by `s`. -/
def Layer.scale (s : ℝ) : Layer → Layer
  | .sum L => .sum (L.scale s)
  | .linsum L => .linsum (L.scale s)
  | .linsum2 L => .linsum2 (L.scale s)
  | .einsum L => .einsum (L.scale s)
  | .rootProduct F R => .rootProduct F R

/-- the model with the logits of all sum layers multiplied by `s`. -/
def Model.scale (s : ℝ) (M : Model) : Model :=
  { M with layers := M.layers.map (Layer.scale s), mixing := M.mixing.scale s, classRoot := M.classRoot.scale s }

/-! ### Logits -/

/-- all entries of `t'` are `s` times those of `t`. -/
def Scaled (s : ℝ) (t t' : Tensor Fl) : Prop := t' = t.map fun x => .fin s * x

/-- both fail with the same exception or both succeed with related values. -/
def Res.Rel {α β : Type} (R : α → β → Prop) : Res α → Res β → Prop
  | .ok a, .ok b => R a b
  | .error e, .error e' => e = e'
  | _, _ => False

theorem Res.Rel.bind {α β γ : Type} {R : α → β → Prop} {x : Res α} {y : Res β} {f : α → Res γ} {g : β → Res γ}
    (h : Res.Rel R x y) (hf : ∀ a b, R a b → f a = g b) : (x >>= f) = (y >>= g) := by
  cases x <;> cases y
  · rw [show _ = _ from h]; rfl
  · exact h.elim
  · exact h.elim
  · exact hf _ _ h

theorem Scaled.unsqueeze {s : ℝ} {t t' : Tensor Fl} (h : Scaled s t t') (d : Nat) :
    Res.Rel (Scaled s) (t.unsqueeze d) (t'.unsqueeze d) := by
  subst h
  unfold Tensor.unsqueeze
  by_cases hd : d ≤ t.rank
  · rw [require_true _ hd, require_true _ (show d ≤ (t.map _).rank from hd)]; rfl
  · rw [require_false _ hd, require_false _ (show ¬ d ≤ (t.map _).rank from hd)]; rfl

theorem Scaled.expand {s : ℝ} {t t' : Tensor Fl} (h : Scaled s t t') (z : List (Option Nat)) :
    Res.Rel (Scaled s) (t.expand z) (t'.expand z) := by
  subst h
  unfold Tensor.expand
  rw [show (t.map _).shape = t.shape from rfl]
  cases expandShape t.shape z with
  | none => rfl
  | some q => rfl

theorem Scaled.gather {s : ℝ} {t t' : Tensor Fl} (h : Scaled s t t') (d : Nat) (ix : Tensor Nat) :
    Res.Rel (Scaled s) (t.gather d ix) (t'.gather d ix) := by
  subst h
  unfold Tensor.gather
  by_cases h1 : d < t.rank
  · rw [require_true _ h1, require_true _ (show d < (t.map _).rank from h1)]
    simp only [Res.ok_bind]
    by_cases h2 : leExcept d ix.shape t.shape
    · rw [require_true _ h2, require_true _ (show leExcept d ix.shape (t.map _).shape from h2)]
      simp only [Res.ok_bind]
      by_cases h3 : AllIdx ix.shape fun i => ix.get i < t.size d
      · rw [require_true _ h3, require_true _ (show AllIdx ix.shape fun i => ix.get i < (t.map _).size d from h3)]; rfl
      · rw [require_false _ h3, require_false _ (show ¬ AllIdx ix.shape fun i => ix.get i < (t.map _).size d from h3)]; rfl
    · rw [require_false _ h2, require_false _ (show ¬ leExcept d ix.shape (t.map _).shape from h2)]; rfl
  · rw [require_false _ h1, require_false _ (show ¬ d < (t.map _).rank from h1)]; rfl

theorem Scaled.squeeze {s : ℝ} {t t' : Tensor Fl} (h : Scaled s t t') (d : Nat) :
    Res.Rel (Scaled s) (t.squeeze d) (t'.squeeze d) := by
  subst h
  unfold Tensor.squeeze
  by_cases h1 : d < t.rank
  · rw [require_true _ h1, require_true _ (show d < (t.map _).rank from h1)]
    simp only [Res.ok_bind]
    by_cases h2 : t.size d = 1
    · rw [if_pos h2, if_pos (show (t.map _).size d = 1 from h2)]; rfl
    · rw [if_neg h2, if_neg (show ¬ (t.map _).size d = 1 from h2)]; rfl
  · rw [require_false _ h1, require_false _ (show ¬ d < (t.map _).rank from h1)]; rfl

theorem Scaled.view {s : ℝ} {t t' : Tensor Fl} (h : Scaled s t t') (z : List Nat) :
    Res.Rel (Scaled s) (t.view z) (t'.view z) := by
  subst h
  unfold Tensor.view
  by_cases h1 : numelS z = t.numel
  · rw [require_true _ h1, require_true _ (show numelS z = (t.map _).numel from h1)]; rfl
  · rw [require_false _ h1, require_false _ (show ¬ numelS z = (t.map _).numel from h1)]; rfl

theorem Fl.scale_div {s T : ℝ} (hs : 0 < s) (x : Fl) : (Fl.fin s * x) / Fl.fin (s * T) = x / Fl.fin T := by
  have h2 : 0 ≤ s * T ↔ 0 ≤ T := ⟨fun h => nonneg_of_mul_nonneg_right h hs, fun h => mul_nonneg hs.le h⟩
  have hp : (Fl.fin s * Fl.pinf) = Fl.pinf := by show Fl.infMul s = _; simp [Fl.infMul, hs, hs.ne']
  have hn : (Fl.fin s * Fl.ninf) = Fl.ninf := by show Fl.infMul (-s) = _; simp [Fl.infMul, hs.le, hs.ne', not_lt]
  cases x with
  | nan => rfl
  | pinf => rw [hp]; show (if 0 ≤ s * T then Fl.pinf else Fl.ninf) = if 0 ≤ T then Fl.pinf else Fl.ninf; simp only [h2]
  | ninf => rw [hn]; show (if 0 ≤ s * T then Fl.ninf else Fl.pinf) = if 0 ≤ T then Fl.ninf else Fl.pinf; simp only [h2]
  | fin a =>
    show (if s * T = 0 then Fl.infMul (s * a) else Fl.fin (s * a / (s * T))) = if T = 0 then Fl.infMul a else Fl.fin (a / T)
    by_cases hT : T = 0
    · rw [if_pos hT, if_pos (by rw [hT, mul_zero])]
      unfold Fl.infMul
      simp [hs, hs.ne']
    · rw [if_neg hT, if_neg (mul_ne_zero hs.ne' hT), mul_div_mul_left _ _ hs.ne']

theorem Scaled.weights {s T : ℝ} (hs : 0 < s) {t t' : Tensor Fl} (h : Scaled s t t') (d : Nat) :
    logitsToLogWeights t d T = logitsToLogWeights t' d (s * T) := by
  subst h
  unfold logitsToLogWeights
  congr 1
  show (⟨_, _⟩ : Tensor Fl) = ⟨_, _⟩
  congr 1
  funext i
  exact (Fl.scale_div hs _).symm

theorem bind_same {α β : Type} {x : Res α} {f g : α → Res β} (h : ∀ a, f a = g a) : (x >>= f) = (x >>= g) := by
  cases x
  · rfl
  · exact h _

/-- the context with another temperature of the sums. -/
def Ctx.at (T : ℝ) (c : Ctx) : Ctx := { c with temperature_sums := T }

variable {s : ℝ}

theorem SumLayer.select_scale (hs : 0 < s) (L : SumL) (T : ℝ) (ctx : Ctx) :
    selectWeights L (ctx.at T) = selectWeights (L.scale s) (ctx.at (s * T)) := by
  have h : Scaled s L.logits (L.scale s).logits := rfl
  unfold selectWeights
  refine (h.unsqueeze 0).bind fun _ _ h => (h.expand _).bind fun _ _ h => bind_same fun p => (h.gather _ p).bind fun _ _ h =>
    (h.squeeze _).bind fun _ _ h => bind_same fun r => (h.gather _ r).bind fun _ _ h => (h.squeeze _).bind fun a b h => ?_
  rw [show b.shape = a.shape by rw [h]; rfl]
  exact bind_same fun _ => h.weights hs _

theorem MixingLayer.select_scale (hs : 0 < s) (L : SumL) (T : ℝ) (ctx : Ctx) :
    selectWeights L (ctx.at T) = selectWeights (L.scale s) (ctx.at (s * T)) := by
  have h : Scaled s L.logits (L.scale s).logits := rfl
  unfold selectWeights
  refine (h.unsqueeze 0).bind fun _ _ h => (h.expand _).bind fun _ _ h => bind_same fun p => (h.gather _ p).bind fun _ _ h =>
    (h.squeeze _).bind fun a b h => ?_
  rw [show b.shape = a.shape by rw [h]; rfl]
  exact bind_same fun _ => h.weights hs _

theorem LinsumLayer.select_scale (hs : 0 < s) (L : SumL) (T : ℝ) (ctx : Ctx) :
    selectWeights L (ctx.at T) = selectWeights (L.scale s) (ctx.at (s * T)) := by
  have h : Scaled s L.logits (L.scale s).logits := rfl
  unfold selectWeights
  refine (h.unsqueeze 0).bind fun _ _ h => (h.expand _).bind fun _ _ h => bind_same fun p => (h.gather _ p).bind fun _ _ h =>
    (h.squeeze _).bind fun _ _ h => bind_same fun r => (h.gather _ r).bind fun _ _ h => (h.squeeze _).bind fun a b h => ?_
  rw [show b.shape = a.shape by rw [h]; rfl]
  exact bind_same fun _ => h.weights hs _

theorem LinsumLayer2.select_scale (hs : 0 < s) (L : SumL) (T : ℝ) (ctx : Ctx) :
    selectWeights L (ctx.at T) = selectWeights (L.scale s) (ctx.at (s * T)) := by
  have h : Scaled s L.logits (L.scale s).logits := rfl
  unfold selectWeights
  refine (h.unsqueeze 0).bind fun _ _ h => (h.expand _).bind fun _ _ h => bind_same fun p => ?_
  dsimp only
  rw [show pad (L.scale s) = pad L from rfl]
  split_ifs
  all_goals
    refine bind_same fun p => bind_same fun p => (h.gather _ p).bind fun _ _ h =>
      (h.squeeze _).bind fun _ _ h => bind_same fun r => (h.gather _ r).bind fun _ _ h => (h.squeeze _).bind fun a b h => ?_
    rw [show b.shape = a.shape by rw [h]; rfl]
    exact bind_same fun _ => h.weights hs _

theorem EinsumLayer.select_scale (hs : 0 < s) (L : SumL) (T : ℝ) (ctx : Ctx) :
    selectWeights L (ctx.at T) = selectWeights (L.scale s) (ctx.at (s * T)) := by
  have h : Scaled s L.logits (L.scale s).logits := rfl
  unfold selectWeights
  refine (h.unsqueeze 0).bind fun _ _ h => (h.expand _).bind fun _ _ h => bind_same fun p => (h.gather _ p).bind fun _ _ h =>
    (h.squeeze _).bind fun _ _ h => bind_same fun r => (h.gather _ r).bind fun _ _ h => (h.squeeze _).bind fun a b h => ?_
  rw [show b.size = a.size by rw [h]; rfl, show b.shape = a.shape by rw [h]; rfl]
  exact bind_same fun _ => (h.view _).bind fun _ _ h => h.weights hs _

/-! ### Sampling -/

/-- two computations that draw the same indices and differ only in the temperature of the resulting context. -/
def Twin (T T' : ℝ) (x y : Rand Ctx) : Prop :=
  ∃ Q : Rand Ctx, x = Q.bind (fun c => .pure (c.at T)) ∧ y = Q.bind fun c => .pure (c.at T')

theorem Twin.bind {T T' : ℝ} {x y : Rand Ctx} (h : Twin T T' x y) {f g : Ctx → Rand Ctx}
    (hf : ∀ c : Ctx, Twin T T' (f (c.at T)) (g (c.at T'))) : Twin T T' (x.bind f) (y.bind g) := by
  obtain ⟨Q, rfl, rfl⟩ := h
  choose K h1 h2 using hf
  refine ⟨Q.bind K, ?_, ?_⟩
  · rw [Rand.bind_assoc, Rand.bind_assoc]; congr 1; funext c; exact h1 c
  · rw [Rand.bind_assoc, Rand.bind_assoc]; congr 1; funext c; exact h2 c

theorem Twin.bind_eq {α : Type} {T T' : ℝ} {x y : Rand Ctx} (h : Twin T T' x y) {f g : Ctx → Rand α}
    (hf : ∀ c : Ctx, f (c.at T) = g (c.at T')) : x.bind f = y.bind g := by
  obtain ⟨Q, rfl, rfl⟩ := h
  rw [Rand.bind_assoc, Rand.bind_assoc]; congr 1; funext c; exact hf c

theorem Twin.pure {T T' : ℝ} (c : Ctx) : Twin T T' (.pure (c.at T)) (.pure (c.at T')) := ⟨.pure c, rfl, rfl⟩

theorem Twin.same {α : Type} {T T' : ℝ} {x : Rand α} {f g : α → Rand Ctx} (h : ∀ a, Twin T T' (f a) (g a)) :
    Twin T T' (x.bind f) (x.bind g) := by
  choose K h1 h2 using h
  refine ⟨x.bind K, ?_, ?_⟩
  · rw [Rand.bind_assoc]; congr 1; funext a; exact h1 a
  · rw [Rand.bind_assoc]; congr 1; funext a; exact h2 a

theorem Twin.lift {T T' : ℝ} {f : Ctx → Res Ctx} (hf : ∀ c U, f (Ctx.at U c) = (f c).map (Ctx.at U)) (c : Ctx) :
    Twin T T' (Rand.lift (f (c.at T))) (Rand.lift (f (c.at T'))) := by
  refine ⟨Rand.lift (f c), ?_, ?_⟩
  · rw [hf]; cases f c <;> rfl
  · rw [hf]; cases f c <;> rfl

theorem twin_absSample {T T' : ℝ} {D : Nat} {sel sel' : Ctx → Res (Tensor Fl)} {cond cond' : Cache → Ctx → Tensor Fl → Res (Tensor Fl)}
    {post post' : Ctx → Tensor Nat → Res (Tensor Nat)} (hsel : ∀ c, sel (Ctx.at T c) = sel' (Ctx.at T' c))
    (hcond : ∀ k c w, cond k (Ctx.at T c) w = cond' k (Ctx.at T' c) w) (hpost : ∀ c i, post (Ctx.at T c) i = post' (Ctx.at T' c) i)
    (cache : Option Cache) (c : Ctx) : Twin T T' (absSample D sel cond post cache (c.at T)) (absSample D sel' cond' post' cache (c.at T')) := by
  unfold absSample
  rw [show checkContext D (c.at T) = checkContext D c from rfl, show checkContext D (c.at T') = checkContext D c from rfl, hsel]
  refine Twin.same fun _ => Twin.same fun w => ?_
  have key : ∀ w, Twin T T' ((drawIndices (c.at T) w).bind fun i => (Rand.lift (post (c.at T) i)).bind fun i =>
      Rand.pure { (c.at T) with indices_out := i }) ((drawIndices (c.at T') w).bind fun i => (Rand.lift (post' (c.at T') i)).bind
      fun i => Rand.pure { (c.at T') with indices_out := i }) := by
    intro w
    rw [show drawIndices (c.at T) w = drawIndices c w from rfl, show drawIndices (c.at T') w = drawIndices c w from rfl]
    refine Twin.same fun i => ?_
    rw [hpost]
    refine Twin.same fun i => ?_
    exact Twin.pure { c with indices_out := i }
  cases cache with
  | none => exact key w
  | some k =>
    show Twin T T' ((Rand.lift (cond k (c.at T) w)).bind _) ((Rand.lift (cond' k (c.at T') w)).bind _)
    rw [hcond]
    exact Twin.same fun w => key w

theorem twin_layer (hs : 0 < s) (T : ℝ) (l : Layer) (cache : Option Cache) (c : Ctx) :
    Twin T (s * T) (l.sample cache (c.at T)) ((l.scale s).sample cache (c.at (s * T))) := by
  cases l with
  | sum L =>
    show Twin T (s * T) (SumLayer.sample L cache (c.at T)) (SumLayer.sample (L.scale s) cache (c.at (s * T)))
    unfold SumLayer.sample
    exact twin_absSample (fun c => SumLayer.select_scale hs L T c) (fun _ _ _ => rfl) (fun _ _ => rfl) cache c
  | linsum L =>
    show Twin T (s * T) (LinsumLayer.sample L cache (c.at T)) (LinsumLayer.sample (L.scale s) cache (c.at (s * T)))
    unfold LinsumLayer.sample
    exact twin_absSample (fun c => LinsumLayer.select_scale hs L T c) (fun _ _ _ => rfl) (fun _ _ => rfl) cache c
  | linsum2 L =>
    show Twin T (s * T) (LinsumLayer2.sample L cache (c.at T)) (LinsumLayer2.sample (L.scale s) cache (c.at (s * T)))
    unfold LinsumLayer2.sample
    exact twin_absSample (fun c => LinsumLayer2.select_scale hs L T c) (fun _ _ _ => rfl) (fun _ _ => rfl) cache c
  | einsum L =>
    show Twin T (s * T) (EinsumLayer.sample L cache (c.at T)) (EinsumLayer.sample (L.scale s) cache (c.at (s * T)))
    unfold EinsumLayer.sample
    exact twin_absSample (fun c => EinsumLayer.select_scale hs L T c) (fun _ _ _ => rfl) (fun _ _ => rfl) cache c
  | rootProduct F R =>
    refine Twin.lift (f := RootProductLayer.sample F) (fun c U => ?_) c
    unfold RootProductLayer.sample
    by_cases h : 1 < c.indices_out.rank
    · rw [require_true _ h, require_true _ (show 1 < (c.at U).indices_out.rank from h)]; rfl
    · rw [require_false _ h, require_false _ (show ¬ 1 < (c.at U).indices_out.rank from h)]; rfl

theorem twin_layers (hs : 0 < s) (T : ℝ) (ls : List Layer) (cs : List (Option Cache)) (c : Ctx) :
    Twin T (s * T) (sampleLayers ls cs (c.at T)) (sampleLayers (ls.map (Layer.scale s)) cs (c.at (s * T))) := by
  induction ls generalizing cs with
  | nil => exact Twin.pure c
  | cons l ls ih => exact (ih cs.tail).bind fun c => twin_layer hs T l _ c

/-- without evidence, sampling at temperature `T` is sampling from the scaled model at the scaled temperature. -/
theorem Model.sample_scale (hs : 0 < s) (M : Model) (a : SampleArgs) (ha : a.evidence = none) :
    M.sample a = (M.scale s).sample { a with temperature_sums := s * a.temperature_sums } := by
  set T := a.temperature_sums with hT
  set a' : SampleArgs := { a with temperature_sums := s * T }
  unfold sample
  rw [show a'.check (M.scale s) = a.check M from rfl]
  congr 1
  funext _
  have e1 : M.evidenceCaches a = .ok ⟨[], none⟩ := by unfold evidenceCaches; rw [ha]
  have e2 : (M.scale s).evidenceCaches a' = .ok ⟨[], none⟩ := by unfold evidenceCaches; rw [show a'.evidence = none from ha]
  rw [e1, e2]
  simp only [Rand.lift_ok, Rand.pure_bind]
  have hleaf : ∀ c, M.leaf.sample (Ctx.at T c) = (M.scale s).leaf.sample (Ctx.at (s * T) c) := by
    intro c
    rw [show (M.scale s).leaf = M.leaf from rfl]
    cases M.leaf <;> rfl
  refine Twin.bind_eq (T := T) (T' := s * T) ?_ fun c => by rw [hleaf]; rfl
  unfold samplePath
  have hctx : M.initCtx a = (M.initCtx a).at T := rfl
  have hctx' : (M.scale s).initCtx a' = (M.initCtx a).at (s * T) := rfl
  rw [hctx, hctx']
  have step : ∀ n c, Twin T (s * T) ((M.pickRep none (Ctx.at T c) n).bind fun ctx => (sampleLayers M.layers [] ctx).bind fun ctx =>
      Rand.lift (M.unpermute ctx)) (((M.scale s).pickRep none (Ctx.at (s * T) c) n).bind fun ctx =>
        (sampleLayers (M.scale s).layers [] ctx).bind fun ctx => Rand.lift ((M.scale s).unpermute ctx)) := by
    intro n c
    refine Twin.bind ?_ fun c => (twin_layers hs T M.layers [] c).bind fun c => ?_
    · unfold pickRep
      rw [show (M.scale s).num_repetitions = M.num_repetitions from rfl]
      split_ifs
      · refine Twin.bind ?_ fun c' => ?_
        · show Twin T (s * T) (MixingLayer.sample M.mixing none (c.at T)) (MixingLayer.sample (M.mixing.scale s) none (c.at (s * T)))
          unfold MixingLayer.sample
          exact twin_absSample (fun c => MixingLayer.select_scale hs _ T c) (fun _ _ _ => rfl) (fun _ _ => rfl) none c
        · refine Twin.same fun r => ?_
          exact Twin.pure { c' with indices_repetition := r, indices_out := c.indices_out }
      · exact Twin.pure c
    · refine Twin.lift (f := M.unpermute) (fun c U => ?_) c
      unfold unpermute
      cases M.permutation with
      | none => rfl
      | some p =>
        obtain ⟨p, q⟩ := p
        dsimp only
        by_cases h : AllIdx c.indices_repetition.shape fun i => c.indices_repetition.get i < M.num_repetitions
        · rw [require_true _ h, require_true _ (show AllIdx (c.at U).indices_repetition.shape fun i =>
            (c.at U).indices_repetition.get i < M.num_repetitions from h)]
          simp only [Res.ok_bind]
          rw [show (c.at U).indices_out = c.indices_out from rfl, show (c.at U).indices_repetition = c.indices_repetition from rfl]
          cases Tensor.gather c.indices_out 1 _ <;> rfl
        · rw [require_false _ h, require_false _ (show ¬ AllIdx (c.at U).indices_repetition.shape fun i =>
            (c.at U).indices_repetition.get i < M.num_repetitions from h)]
          rfl
  unfold pickClass
  rw [show (M.scale s).num_classes = M.num_classes from rfl, show a'.class_index = a.class_index from rfl,
    show a'.count = a.count from rfl]
  split_ifs
  · cases a.class_index with
    | none =>
      dsimp only
      rw [Rand.bind_assoc, Rand.bind_assoc]
      refine Twin.bind ?_ fun c => step _ c
      show Twin T (s * T) (SumLayer.sample M.classRoot none _) (SumLayer.sample (M.classRoot.scale s) none _)
      unfold SumLayer.sample
      exact twin_absSample (fun c => SumLayer.select_scale hs _ T c) (fun _ _ _ => rfl) (fun _ _ => rfl) none _
    | some ci =>
      cases ci with
      | int c => exact step _ { M.initCtx a with indices_out := full [a.count, 1] c }
      | list l => exact step _ { M.initCtx a with indices_out := ⟨[l.length, 1], fun i => l.getD (at' 0 i) 0⟩ }
  · exact step _ _

end Einet
