import Verif.PropsSample
import Verif.PropsForward
import Verif.MvnSample

/-!
# Evidence of rank 2 and 4

Lemmas: `sample` with evidence `[N, D]` or `[N, C, H, W]` asks for the same draws as with the same values in the shape
`[N, C, D]`, and its results are the reshaped ones.
-/

open Classical MeasureTheory
open scoped ENNReal
noncomputable section
namespace Einet
open Tensor

namespace Rand
variable {α β γ : Type}

/-- two programs that ask for the same draws and return related values. -/
inductive Sim (R : α → β → Prop) : Rand α → Rand β → Prop
  | pure {a : α} {b : β} (h : R a b) : Sim R (.pure a) (.pure b)
  | fail (e : Err) : Sim R (.fail e) (.fail e)
  | draw {K : Nat} {w : Nat → Fl} {k : Nat → Rand α} {l : Nat → Rand β} (h : ∀ j, Sim R (k j) (l j)) :
      Sim R (.draw K w k) (.draw K w l)
  | leaf {μ : Measure ℝ} {k : ℝ → Rand α} {l : ℝ → Rand β} (h : ∀ x, Sim R (k x) (l x)) : Sim R (.leaf μ k) (.leaf μ l)

theorem Sim.bind {R : α → β → Prop} (x : Rand γ) {f : γ → Rand α} {g : γ → Rand β} (h : ∀ c, Sim R (f c) (g c)) :
    Sim R (x.bind f) (x.bind g) := by
  induction x with
  | pure a => exact h a
  | fail e => exact .fail e
  | draw K w k ih => exact .draw ih
  | leaf μ k ih => exact .leaf ih

theorem Sim.mono {R R' : α → β → Prop} {x : Rand α} {y : Rand β} (h : Sim R x y) (hr : ∀ a b, R a b → R' a b) : Sim R' x y := by
  induction h with
  | pure h => exact .pure (hr _ _ h)
  | fail e => exact .fail e
  | draw h ih => exact .draw ih
  | leaf h ih => exact .leaf ih

theorem Sim.all {R : α → β → Prop} {x : Rand α} {y : Rand β} (h : Sim R x y) {P : α → Prop} (hx : x.All P) :
    y.All fun b => ∃ a, P a ∧ R a b := by
  induction h with
  | pure h => exact ⟨_, hx, h⟩
  | fail e => exact hx
  | draw h ih => exact ⟨hx.1, fun j hj h0 => ih j (hx.2 j hj h0)⟩
  | leaf h ih => exact fun r => ih r (hx r)

theorem Sim.E {R : α → β → Prop} {x : Rand α} {y : Rand β} (h : Sim R x y) {φ : α → ℝ≥0∞} {ψ : β → ℝ≥0∞}
    (hR : ∀ a b, R a b → φ a = ψ b) : x.E φ = y.E ψ := by
  induction h with
  | pure h => exact hR _ _ h
  | fail e => rfl
  | draw h ih => simp only [Rand.E, ih]
  | leaf h ih => simp only [Rand.E, ih]

end Rand

/-- `s` contains the entries of `t` in row-major order. -/
def Reshaped (t s : Tensor Fl) : Prop :=
  numelS s.shape = numelS t.shape ∧ ∀ j, InB t.shape j → t.get j = s.get (unflat s.shape (flat t.shape j))

theorem Reshaped.view {z e : Tensor Fl} (h : Reshaped z e) {s : List Nat} {t : Tensor Fl} (ht : z.view s = .ok t) :
    ∃ u, e.view s = .ok u ∧ t.shape = s ∧ u.shape = s ∧ ∀ j, InB s j → t.get j = u.get j := by
  unfold Tensor.view at ht ⊢
  obtain ⟨_, hn, ht⟩ := bind_ok ht
  rw [require_ok_iff] at hn
  simp only [Res.pure_eq, Except.ok.injEq] at ht
  have hn' : numelS s = e.numel := by rw [hn, numel, numel, h.1]
  rw [require_true _ hn']
  refine ⟨_, rfl, by rw [← ht], rfl, fun j hj => ?_⟩
  rw [← ht]
  have hlt : flat s j < numelS z.shape := by
    have := flat_lt hj
    rwa [hn] at this
  show z.get _ = e.get _
  rw [h.2 _ (unflat_inB hlt), flat_unflat hlt]

theorem Reshaped.view_error {z e : Tensor Fl} (h : Reshaped z e) {s : List Nat} {x : Err} (ht : z.view s = .error x) :
    e.view s = .error x := by
  unfold Tensor.view at ht ⊢
  by_cases hn : numelS s = z.numel
  · rw [require_true _ hn] at ht
    exact absurd ht (by simp [Res.pure_eq])
  · rw [require_false _ hn] at ht
    rw [require_false _ (by rw [show e.numel = z.numel by rw [numel, numel, h.1]]; exact hn)]
    exact ht

/-- viewing equal tensors in two shapes of the same size. -/
theorem reshaped_views {t u : Tensor Fl} {s a b : List Nat} (ht : t.shape = s) (hu : u.shape = s)
    (heq : ∀ j, InB s j → t.get j = u.get j) (ha : numelS a = numelS s) (hb : numelS b = numelS s) :
    ∃ t' u', t.view a = .ok t' ∧ u.view b = .ok u' ∧ t'.shape = a ∧ u'.shape = b ∧ Reshaped t' u' := by
  unfold Tensor.view
  rw [require_true _ (by rw [numel, ht, ha]), require_true _ (by rw [numel, hu, hb])]
  refine ⟨_, _, rfl, rfl, rfl, rfl, by show numelS b = numelS a; omega, fun j hj => ?_⟩
  have hj' : InB a j := hj
  have hlt : flat a j < numelS b := by have := flat_lt hj'; omega
  show t.get (unflat t.shape (flat a j)) = u.get (unflat u.shape (flat b (unflat b (flat a j))))
  rw [flat_unflat hlt, ht, hu]
  exact heq _ (unflat_inB (by omega))

namespace Model

/-- filling the holes commutes with reshaping the evidence. -/
theorem fill_reshaped {z e : Tensor Fl} (h : Reshaped z e) (samples : Tensor ℝ) (ms : Option Scopes) :
    (∃ t s, fill z samples ms = .ok t ∧ fill e samples ms = .ok s ∧ t.shape = z.shape ∧ s.shape = e.shape ∧ Reshaped t s) ∨
      ∃ x, fill z samples ms = .error x ∧ fill e samples ms = .error x := by
  unfold fill
  cases hv : z.view samples.shape with
  | error x => rw [h.view_error hv]; exact Or.inr ⟨x, rfl, rfl⟩
  | ok v =>
    obtain ⟨u, hu, h1, h2, h3⟩ := h.view hv
    rw [hu]
    simp only [Res.ok_bind]
    have hn : numelS samples.shape = numelS z.shape := by
      unfold Tensor.view at hv
      obtain ⟨_, hn, _⟩ := bind_ok hv
      rwa [require_ok_iff] at hn
    cases ms with
    | none =>
      dsimp only
      refine Or.inl ?_
      obtain ⟨t', u', a1, a2, a3, a4, a5⟩ := reshaped_views (a := z.shape) (b := e.shape)
        (t := ⟨v.shape, fun j => if (v.get j).isnan then .fin (samples.get j) else v.get j⟩)
        (u := ⟨u.shape, fun j => if (u.get j).isnan then .fin (samples.get j) else u.get j⟩) h1 h2
        (fun j hj => by simp only [h3 j hj]) hn.symm (by rw [h.1, hn])
      exact ⟨t', u', a1, a2, a3, a4, a5⟩
    | some s =>
      dsimp only
      cases hl : indexList (samples.size 2) s with
      | error x => exact Or.inr ⟨x, rfl, rfl⟩
      | ok l =>
        refine Or.inl ?_
        simp only [Res.ok_bind]
        obtain ⟨t', u', a1, a2, a3, a4, a5⟩ := reshaped_views (a := z.shape) (b := e.shape)
          (t := ⟨v.shape, fun j => if at' 2 j ∈ l then .fin (samples.get j) else v.get j⟩)
          (u := ⟨u.shape, fun j => if at' 2 j ∈ l then .fin (samples.get j) else u.get j⟩) h1 h2
          (fun j hj => by simp only [h3 j hj]) hn.symm (by rw [h.1, hn])
        exact ⟨t', u', a1, a2, a3, a4, a5⟩

/-- `sample` with evidence `e` and with `z`, to which `forward` reshapes `e`. -/
theorem sample_reshaped {M : Model} {z e : Tensor Fl} (h : Reshaped z e) (hsize : e.size 0 = z.size 0)
    (he : M.prepInput e = .ok z) (hz : M.prepInput z = .ok z) (a : SampleArgs) :
    Rand.Sim (fun t s => t.shape = z.shape ∧ s.shape = e.shape ∧ Reshaped t s)
      (M.sample { a with evidence := some z }) (M.sample { a with evidence := some e }) := by
  unfold Model.sample
  have hchk : ∀ w : Tensor Fl, ({ a with evidence := some w } : SampleArgs).check M =
      ({ a with evidence := some z } : SampleArgs).check M := fun _ => rfl
  have hcache : M.evidenceCaches { a with evidence := some e } = M.evidenceCaches { a with evidence := some z } := by
    unfold evidenceCaches Model.run
    dsimp only
    rw [he, hz]
  have hcount : ({ a with evidence := some e } : SampleArgs).count = ({ a with evidence := some z } : SampleArgs).count := hsize
  have hpath : ∀ c, M.samplePath { a with evidence := some e } c = M.samplePath { a with evidence := some z } c := by
    intro c
    unfold samplePath pickClass initCtx
    rw [hcount]
  rw [hchk e, hcache]
  refine Rand.Sim.bind _ fun _ => Rand.Sim.bind _ fun c => ?_
  rw [hpath c]
  refine Rand.Sim.bind _ fun ctx => Rand.Sim.bind _ fun samples => ?_
  unfold finish
  dsimp only
  rcases fill_reshaped h samples a.marginalized_scopes with ⟨t, s, h1, h2, h3, h4, h5⟩ | ⟨x, h1, h2⟩
  · rw [h1, h2]
    exact .pure ⟨h3, h4, h5⟩
  · rw [h1, h2]
    exact .fail x

end Model
end Einet
