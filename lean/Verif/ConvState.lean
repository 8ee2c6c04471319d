import Verif.PropsConv

/-!
# State of a convolutional circuit between calls
-/

open Classical MeasureTheory
open scoped ENNReal
noncomputable section
namespace Einet
open Tensor

/-- a `ConvPc` object between two calls: its parameters and the attributes `_is_input_cache_enabled`, `_input_cache` of its
`SumLayer`s (conv_pc.py:309-311).  The flag is set and reset for all layers together (conv_pc.py:120-124, 131-135). -/
structure ConvObj where
  model : ConvModel
  enabled : Bool := false
  caches : List (Option (Tensor Fl)) := []

/-- what the caches hold after a forward pass has stored `new` (conv_pc.py:315-316): a layer that was not reached keeps its
entry. -/
def overlay : List (Option (Tensor Fl)) → List (Option (Tensor Fl)) → List (Option (Tensor Fl))
  | [], old => old
  | n :: new, old => (n <|> old.head?.getD none) :: overlay new old.tail

namespace ConvObj

/-- `ConvPc.__init__` leaves empty caches that are switched off (conv_pc.py:309-311). -/
def fresh (M : ConvModel) : ConvObj := { model := M }

/-- `ConvPc.forward` (conv_pc.py:649-656). -/
def forward (o : ConvObj) (x : Tensor Fl) : Res (Tensor Fl) × ConvObj :=
  ((o.model.forwardAll x).2, if o.enabled then { o with caches := overlay (o.model.forwardAll x).1 o.caches } else o)

/-- `ConvPc.sample` (conv_pc.py:658-735) with `sampling_context` (conv_pc.py:85-140).  With evidence the caches are switched on and
emptied (conv_pc.py:330-332), then `model.log_likelihood` (conv_pc.py:126) raises `AttributeError`: there is no such method, and no
`try/finally` that would switch the caches off again. -/
def sample (μ : Measure ℝ) (o : ConvObj) (a : ConvArgs) : Rand (Tensor Fl) × ConvObj :=
  match a.evidence, a.num_samples with
  | none, none => (.fail .value, o)
  | some _, _ => (.fail .attribute, { o with enabled := true, caches := [] })
  | none, some N => (o.model.draw μ (if o.enabled then o.caches else []) N a, o)

end ConvObj

/-- calls of a user. -/
inductive ConvCall where
  | forward (x : Tensor Fl)
  | sample (a : ConvArgs)
  /-- the parameters are changed (optimiser step, `load_state_dict`) -/
  | update (M : ConvModel)

/-- the result of a call: `forward` is deterministic. -/
def ConvCall.result (μ : Measure ℝ) (o : ConvObj) : ConvCall → Rand (Tensor Fl)
  | forward x => Rand.lift (o.forward x).1
  | sample a => (o.sample μ a).1
  | update _ => .pure ⟨[], fun _ => .fin 0⟩

/-- the object after a call; it does not depend on the random numbers. -/
def ConvCall.next (μ : Measure ℝ) (o : ConvObj) : ConvCall → ConvObj
  | forward x => (o.forward x).2
  | sample a => (o.sample μ a).2
  | update M => { o with model := M }

/-- the object after a sequence of calls. -/
def ConvObj.run (μ : Measure ℝ) (o : ConvObj) (cs : List ConvCall) : ConvObj := cs.foldl (ConvCall.next μ) o

end Einet
