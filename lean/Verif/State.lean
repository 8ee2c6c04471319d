import Verif.Einet
import Verif.Gen

/-!
# State that survives between calls

An `Einet` object with its leaf cache, the input caches of its layers and the global random generator; calls change them.
`Model.forward` and `Model.sample` (Verif/Einet.lean) are the same calls seen from a fresh object.
-/

open Classical
noncomputable section
namespace Einet
open Tensor

/-- An `Einet` object between two calls: parameters and the attributes `_leaf_cache` (einet.py:113-115),
`_is_input_cache_enabled` and `_input_cache` (abstract_layers.py:140-142).  The flag is set and reset for all layers together
(sampling_utils.py:50-52, 62-64), so there is one. -/
structure Obj where
  model : Model
  leafCache : Int → Option (Tensor Fl) := fun _ => none
  enabled : Bool := false
  layers : List (Option Cache) := []
  mixing : Option Cache := none

/-- `Einet.__init__` ends with empty caches (einet.py:113-115, abstract_layers.py:140-142). -/
def Obj.fresh (M : Model) : Obj := { model := M }

/-- `_forward_layers` (einet.py:206-219) on an object: a layer stores its input if its cache is enabled. `cs` are the caches
before.  Simplification: a layer that raises leaves its own cache as it was. -/
def forwardLayersSt (en : Bool) : List Layer → List (Option Cache) → Tensor Fl → Res (Tensor Fl) × List (Option Cache)
  | [], cs, x => (.ok x, if en then [] else cs)
  | l :: ls, cs, x =>
    match l.forward none x with
    | .error e => (.error e, cs)
    | .ok (y, c) =>
      let p := forwardLayersSt en ls cs.tail y
      (p.1, if en then c :: p.2 else cs)

namespace Obj

/-- `Einet.reset_cache` (einet.py:117-119). -/
def resetCache (o : Obj) : Obj := { o with leafCache := fun _ => none }

/-- the caches as the sampling pass sees them (abstract_layers.py:199). -/
def caches (o : Obj) : Caches := if o.enabled then ⟨o.layers, o.mixing⟩ else ⟨[], none⟩

/-- `self._leaf_cache[cache_index] = x` if an index was given (einet.py:156-157). -/
def store (o : Obj) (key : Option Int) (y : Tensor Fl) : Obj :=
  match key with
  | none => o
  | some k => { o with leafCache := Function.update o.leafCache k (some y) }

/-- the assignments `x[:, :, :, i] = ...` (einet.py:177-180) write into the tensor that the leaf cache holds, unless the sum
over the channels (einet.py:162) has made a new one. -/
def permuted (o : Obj) (key : Option Int) (x : Tensor Fl) : Obj :=
  match o.model.leaf, o.model.permutation with
  | .direct _, _ => o
  | _, none => o
  | _, some _ => o.store key x

/-- `Einet.forward` from the sum over channels on (einet.py:161-204). -/
def upper (o : Obj) (key : Option Int) (y : Tensor Fl) : Res (Tensor Fl) × Obj :=
  match o.model.factorize y with
  | .error e => (.error e, o)
  | .ok x =>
    match o.model.permute x with
    | .error e => (.error e, o)
    | .ok x =>
      let o := o.permuted key x
      let p := forwardLayersSt o.enabled o.model.layers o.layers x
      let o := { o with layers := p.2 }
      match p.1 with
      | .error e => (.error e, o)
      | .ok x =>
        match o.model.root x with
        | .error e => (.error e, o)
        | .ok (z, c) => (.ok z, { o with mixing := if o.enabled then c else o.mixing })

/-- `Einet.forward(x, marginalized_scopes, cache_index)` (einet.py:121-204). -/
def forward (o : Obj) (x : Tensor Fl) (marginalized_scopes : Option Scopes := none) (cache_index : Option Int := none) :
    Res (Tensor Fl) × Obj :=
  match o.model.prepInput x with
  | .error e => (.error e, o)
  | .ok x =>
    match cache_index.bind o.leafCache with
    | some y => o.upper cache_index y
    | none =>
      match o.model.leaf.forward x marginalized_scopes with
      | .error e => (.error e, o)
      | .ok y => (o.store cache_index y).upper cache_index y

/-- entering `sampling_context` with evidence: enable the caches and run the model (sampling_utils.py:48-56). -/
def enter (o : Obj) (a : SampleArgs) : Res Unit × Obj :=
  match a.evidence with
  | none => (.ok (), o)
  | some e =>
    let p := ({ o with enabled := true } : Obj).forward e a.marginalized_scopes
    (p.1.map fun _ => (), p.2)

/-- leaving `sampling_context` normally: disable and clear (sampling_utils.py:61-64). -/
def exit (o : Obj) (a : SampleArgs) : Obj :=
  if a.evidence.isSome then { o with enabled := false, layers := [], mixing := none } else o

/-- the block under `with sampling_context` (einet.py:614-697), conditioned on whatever the input caches hold. -/
def body (o : Obj) (a : SampleArgs) : Rand (Tensor Fl) :=
  (o.model.samplePath a o.caches).bind fun ctx =>
    (o.model.leaf.sample ctx).bind fun samples => Rand.lift (Model.finish a samples)

/-- `Einet.sample(..., seed=seed)` (einet.py:533-697) with `sampling_context` (sampling_utils.py:14-70) on the global
generator `G` in state `g`.  There is no `try/finally` around the `yield`: an exception skips the clean-up and the restoring of
the generator. -/
def sample (G : Gen) (o : Obj) (g : G.σ) (a : SampleArgs) (seed : Option Int := none) : Res (Tensor Fl) × Obj × G.σ :=
  match a.check o.model with
  | .error e => (.error e, o, g)
  | .ok _ =>
    let g1 := (seed.map G.seed).getD g
    match o.enter a with
    | (.error e, o1) => (.error e, o1, g1)
    | (.ok _, o1) =>
      match (o1.body a).run G g1 with
      | (.error e, g2) => (.error e, o1, g2)
      | (.ok s, g2) => (.ok s, o1.exit a, if seed.isSome then g else g2)

end Obj

/-- calls of a user. -/
inductive Call where
  | forward (x : Tensor Fl) (marginalized_scopes : Option Scopes) (cache_index : Option Int)
  | resetCache
  | sample (a : SampleArgs) (seed : Option Int)
  /-- the parameters are changed (optimiser step, `load_state_dict`); caches are untouched -/
  | update (M : Model)

/-- one call: its result (`reset_cache` and updates return nothing), the object and the generator afterwards. -/
def Call.exec (G : Gen) : Call → Obj × G.σ → Option (Res (Tensor Fl)) × Obj × G.σ
  | forward x s k, (o, g) => (some (o.forward x s k).1, (o.forward x s k).2, g)
  | resetCache, (o, g) => (none, o.resetCache, g)
  | sample a seed, (o, g) => (some (o.sample G g a seed).1, (o.sample G g a seed).2)
  | update M, (o, g) => (none, { o with model := M }, g)

/-- the state after a history of calls. -/
def after (G : Gen) (h : List Call) (s : Obj × G.σ) : Obj × G.σ := h.foldl (fun s c => (c.exec G s).2) s

end Einet
