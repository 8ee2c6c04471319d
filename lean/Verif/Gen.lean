import Verif.Prob

/-!
# Random number generators

`Rand` programs run on a concrete generator: a state, a way to draw a category, a way to draw a real number, and seeding.
Torch's global generator is an instance; nothing is assumed about the numbers it produces.
-/

open Classical MeasureTheory
noncomputable section
namespace Einet

/-- a pseudo random number generator as seen by the code: `torch.distributions` draws, `torch.manual_seed`. -/
structure Gen where
  σ : Type
  cat : σ → Nat → (Nat → Fl) → Nat × σ
  real : σ → Measure ℝ → ℝ × σ
  seed : Int → σ

namespace Rand
variable {α β : Type}

/-- execution from a generator state: result or exception, and the generator state afterwards. -/
def run (G : Gen) : Rand α → G.σ → Res α × G.σ
  | pure a, s => (.ok a, s)
  | fail e, s => (.error e, s)
  | draw K w k, s => run G (k (G.cat s K w).1) (G.cat s K w).2
  | leaf μ k, s => run G (k (G.real s μ).1) (G.real s μ).2

theorem run_bind (G : Gen) (x : Rand α) (f : α → Rand β) (s : G.σ) :
    (x.bind f).run G s = match x.run G s with
      | (.ok a, s') => (f a).run G s'
      | (.error e, s') => (.error e, s') := by
  induction x generalizing s with
  | pure a => rfl
  | fail e => rfl
  | draw K w k ih => exact ih _ _
  | leaf μ k ih => exact ih _ _

theorem run_lift (G : Gen) (x : Res α) (s : G.σ) : (lift x).run G s = (x, s) := by cases x <;> rfl

/-- a generator that never draws a category of probability zero (or outside the range). -/
def _root_.Einet.Gen.Sound (G : Gen) : Prop :=
  ∀ s K w, (∃ j, j < K ∧ toP (Fl.logSoftmax K w j) ≠ 0) →
    (G.cat s K w).1 < K ∧ toP (Fl.logSoftmax K w (G.cat s K w).1) ≠ 0

/-- a program all of whose outcomes satisfy `Q` does not raise on a sound generator, and its result satisfies `Q`. -/
theorem All.run {x : Rand α} {Q : α → Prop} (h : x.All Q) {G : Gen} (hG : G.Sound) (s : G.σ) :
    ∃ a s', x.run G s = (.ok a, s') ∧ Q a := by
  induction x generalizing s with
  | pure a => exact ⟨a, s, rfl, h⟩
  | fail e => exact h.elim
  | draw K w k ih =>
    have := hG s K w h.1
    exact ih _ (h.2 _ this.1 this.2) _
  | leaf μ k ih => exact ih _ (h _) _

/-- a program that requests no random number has one result and leaves the generator alone. -/
theorem Det.run {x : Rand α} (h : x.Det) : ∃ r : Res α, ∀ (G : Gen) (s : G.σ), x.run G s = (r, s) := by
  cases x with
  | pure a => exact ⟨.ok a, fun _ _ => rfl⟩
  | fail e => exact ⟨.error e, fun _ _ => rfl⟩
  | draw => exact h.elim
  | leaf => exact h.elim

end Rand
end Einet
