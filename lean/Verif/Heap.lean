import Verif.State

/-!
# Tensors as objects: storages, views and in-place assignments

In Verif/Einet.lean and Verif/State.lean tensors are values.  Here they are references to storages, several of which may share
one storage (views), and an indexed assignment changes the storage.  `Einet.forward`, `Einet.sample` and
`LitModel.preprocess` are transcribed with every aliasing step and every in-place assignment of the code.
-/

open Classical
noncomputable section
namespace Einet
open Tensor

/-- storages: `store a` are the cells of the storage `a`, named by the indices of the tensor it was made for; storages from
`next` on do not exist yet. -/
structure Heap where
  next : Nat
  store : Nat → List Nat → Fl

/-- a tensor object: a storage, a shape, and the cell of every entry (PyTorch: offset and strides). -/
structure Ref where
  addr : Nat
  shape : List Nat
  idx : List Nat → List Nat

namespace Heap

/-- the entries of a tensor object now. -/
def val (h : Heap) (r : Ref) : Tensor Fl := ⟨r.shape, fun i => h.store r.addr (r.idx i)⟩

/-- a new tensor, as every out-of-place operation returns one. -/
def new (h : Heap) (t : Tensor Fl) : Ref × Heap :=
  (⟨h.next, t.shape, id⟩, ⟨h.next + 1, Function.update h.store h.next t.get⟩)

/-- the entry of `r` that lives in cell `p`.  (Cells outside the shape have no meaning; an object that owns its storage has
the entry `p` in every cell `p`.) -/
def _root_.Einet.Ref.entryAt (r : Ref) (p : List Nat) : Option (List Nat) :=
  if h : ∃ j, InB r.shape j ∧ r.idx j = p then some (Classical.choose h) else if r.idx p = p then some p else none

/-- in-place assignment `r[...] = ...`: entry `j` becomes `v j`, visible through every object with the same storage. -/
def write (h : Heap) (r : Ref) (v : List Nat → Fl) : Heap :=
  { h with store := Function.update h.store r.addr fun p => match r.entryAt p with
    | some j => v j
    | none => h.store r.addr p }

end Heap

namespace Ref

/-- `r.view(s)`: the same storage. -/
def view (s : List Nat) (r : Ref) : Res Ref := do
  require .shape (numelS s = numelS r.shape)
  return ⟨r.addr, s, fun i => r.idx (unflat r.shape (flat s i))⟩

/-- `r.view(*pre, -1)`: the same storage. -/
def viewInfer (pre : List Nat) (r : Ref) : Res Ref := do
  require .shape (numelS pre ≠ 0 ∧ numelS r.shape % numelS pre = 0)
  r.view (pre ++ [numelS r.shape / numelS pre])

/-- `r.unsqueeze(d)`: the same storage. -/
def unsqueeze (d : Nat) (r : Ref) : Res Ref := do
  require .index (d ≤ r.shape.length)
  return ⟨r.addr, insAt d 1 r.shape, fun i => r.idx (delAt d i)⟩

/-- `r.squeeze(d)`: the same storage. -/
def squeeze (d : Nat) (r : Ref) : Res Ref := do
  require .index (d < r.shape.length)
  return if at' d r.shape = 1 then ⟨r.addr, delAt d r.shape, fun i => r.idx (insAt d 0 i)⟩ else r

end Ref

/-- a program step on storages: result or exception, and the storages afterwards (also after an exception). -/
abbrev Mem (α : Type) := Heap → Res α × Heap

namespace Mem
variable {α β : Type}

def ret (a : α) : Mem α := fun h => (.ok a, h)

def lift (x : Res α) : Mem α := fun h => (x, h)

/-- sequencing; an exception ends the program and keeps what was written before. -/
def bind (x : Mem α) (f : α → Mem β) : Mem β := fun h =>
  match x h with
  | (.ok a, h) => f a h
  | (.error e, h) => (.error e, h)

/-- read the entries. -/
def get (r : Ref) : Mem (Tensor Fl) := fun h => (.ok (h.val r), h)

/-- a new tensor with the result of an out-of-place operation. -/
def new (t : Tensor Fl) : Mem Ref := fun h => (.ok (h.new t).1, (h.new t).2)

/-- in-place assignment. -/
def write (r : Ref) (v : List Nat → Fl) : Mem Unit := fun h => (.ok (), h.write r v)

end Mem

namespace Model

/-- `Einet.forward`, bringing the input to rank 3 (einet.py:134-147): `unsqueeze` and `view` share the storage of the
caller's tensor. -/
def prepRef (M : Model) (x : Ref) : Res Ref := do
  let x ← if x.shape.length = 2 then x.unsqueeze 1 else .ok x
  let x ← if x.shape.length = 4 then x.viewInfer [at' 0 x.shape, M.num_channels] else .ok x
  require .assertion (x.shape.length = 3)
  require .assertion (at' 1 x.shape = M.num_channels)
  require .assertion (at' 2 x.shape = M.num_features)
  return x

end Model

namespace BaseLeaf

/-- `x = torch.where(torch.isnan(x), self.nan_placeholder, x)` if there is a NaN (abstract_leaf.py:278-281): only then `x` is a
new tensor.  `nan_mask.any()` also looks at positions outside of the tensor, which only matters for whether a copy is made. -/
def replaceNan (x : Ref) : Mem Ref :=
  Mem.bind (Mem.get x) fun t =>
    if ∃ i, (t.get i).isnan then Mem.new ⟨t.shape, fun i => if (t.get i).isnan then .fin 0 else t.get i⟩ else Mem.ret x

/-- `_marginalize_input` (abstract_leaf.py:236-264): assigns into its argument and returns it. -/
def marginalizeRef (B : BaseLeaf) (y : Ref) (marginalized_scopes : Option Scopes) : Mem Ref :=
  Mem.bind (Mem.lift (Scopes.resolveOpt B.num_features marginalized_scopes)) fun sc =>
    Mem.bind (Mem.get y) fun t =>
      match sc with
      | some s => Mem.bind (Mem.write y fun j => if at' 2 j ∈ s then .fin 0 else t.get j) fun _ => Mem.ret y
      | none => if ∃ j, (t.get j).isnan
        then Mem.bind (Mem.write y fun j => if (t.get j).isnan then .fin 0 else t.get j) fun _ => Mem.ret y
        else Mem.ret y

/-- `AbstractLeaf.forward` (abstract_leaf.py:266-293) with `dist_forward` (17-42): the unsqueezed `x` is only read by
`log_prob`, which returns a new tensor; the assignments go into that one. -/
def forwardRef (B : BaseLeaf) (x : Ref) (marginalized_scopes : Option Scopes) : Mem Ref :=
  Mem.bind (Mem.lift (require .shape
      (x.shape.length = 3 ∧ at' 1 x.shape = B.num_channels ∧ at' 2 x.shape = B.num_features))) fun _ =>
    Mem.bind (Mem.get x) fun t =>
      Mem.bind (replaceNan x) fun x' =>
        Mem.bind (Mem.get x') fun t' =>
          Mem.bind (Mem.lift (require .value (AllIdx t'.shape fun i => B.valid (at' 2 i) (t'.get i)))) fun _ =>
            Mem.bind (Mem.new ⟨t'.shape ++ [B.num_leaves, B.num_repetitions], fun j =>
                B.logProb (at' 1 j) (at' 2 j) (at' 3 j) (at' 4 j) (t'.get [at' 0 j, at' 1 j, at' 2 j])⟩) fun y =>
              Mem.bind (Mem.get y) fun u =>
                Mem.bind (if ∃ i, (t.get i).isnan
                    then Mem.write y fun j => if (t.get [at' 0 j, at' 1 j, at' 2 j]).isnan then .nan else u.get j
                    else Mem.ret ()) fun _ =>
                  B.marginalizeRef y marginalized_scopes

end BaseLeaf

/-- `self.leaf(x, marginalized_scopes)`: the factorized leaves continue with out-of-place operations
(factorized_leaf.py:83-98, 270-294), the last of which returns a new tensor. -/
def Leaf.forwardRef (L : Leaf) (x : Ref) (marginalized_scopes : Option Scopes) : Mem Ref :=
  Mem.bind (L.base.forwardRef x marginalized_scopes) fun y =>
    match L with
    | .direct _ => Mem.ret y
    | L => Mem.bind (Mem.get y) fun t => Mem.bind (Mem.lift (L.merge t)) Mem.new

namespace Model

/-- factorising the input channels (einet.py:161-175): the sum over the channels is a new tensor; a factorized leaf's output
stays the object it is. -/
def factorizeRef (M : Model) (y : Ref) : Mem Ref :=
  Mem.bind (Mem.get y) fun t =>
    Mem.bind (Mem.lift (M.factorize t)) fun u =>
      match M.leaf with
      | .direct _ => Mem.new u
      | _ => Mem.ret y

/-- `x[:, :, :, i] = x[:, self.permutation[i], :, i]` (einet.py:177-180): in place. -/
def permuteRef (M : Model) (x : Ref) : Mem Ref :=
  match M.permutation with
  | none => Mem.ret x
  | some _ =>
    Mem.bind (Mem.get x) fun t =>
      Mem.bind (Mem.lift (M.permute t)) fun u =>
        Mem.bind (Mem.write x u.get) fun _ => Mem.ret x

/-- mixing, which returns a new tensor, or `squeeze`, which does not (einet.py:185-204). -/
def rootRef (M : Model) (x : Ref) : Mem (Ref × Option Cache) :=
  Mem.bind (Mem.get x) fun t =>
    Mem.bind (Mem.lift (M.root t)) fun p =>
      if 1 < M.num_repetitions then Mem.bind (Mem.new p.1) fun z => Mem.ret (z, p.2)
      else Mem.bind (Mem.lift ((x.squeeze 3).bind (Ref.squeeze 1))) fun z => Mem.ret (z, p.2)

end Model

/-- an `Einet` object whose leaf cache holds tensor objects.  Simplification: the input caches of the layers are values; in
evaluation mode nothing is assigned to the tensors they hold. -/
structure RObj where
  model : Model
  leafCache : Int → Option Ref := fun _ => none
  enabled : Bool := false
  layers : List (Option Cache) := []
  mixing : Option Cache := none

namespace RObj

/-- the object with its cache read as values. -/
def abs (o : RObj) (h : Heap) : Obj := ⟨o.model, fun k => (o.leafCache k).map h.val, o.enabled, o.layers, o.mixing⟩

/-- `self._leaf_cache[cache_index] = x` (einet.py:156-157): the object itself is stored, not a copy. -/
def store (o : RObj) (key : Option Int) (y : Ref) : RObj :=
  match key with
  | none => o
  | some k => { o with leafCache := Function.update o.leafCache k (some y) }

/-- `Einet.reset_cache` (einet.py:117-119). -/
def resetCache (o : RObj) : RObj := { o with leafCache := fun _ => none }

/-- `_forward_layers` (einet.py:206-219): every layer returns a new tensor; without layers it is the object given. -/
def layersRef (o : RObj) (x : Ref) : Mem Ref := fun h =>
  match (forwardLayersSt o.enabled o.model.layers o.layers (h.val x)).1 with
  | .error e => (.error e, h)
  | .ok t => if o.model.layers = [] then (.ok x, h) else Mem.new t h

/-- `Einet.forward` from the sum over channels on (einet.py:161-204). -/
def upper (o : RObj) (y : Ref) (h : Heap) : Res Ref × RObj × Heap :=
  match Mem.bind (o.model.factorizeRef y) o.model.permuteRef h with
  | (.error e, h) => (.error e, o, h)
  | (.ok x, h) =>
    let o' := { o with layers := (forwardLayersSt o.enabled o.model.layers o.layers (h.val x)).2 }
    match o.layersRef x h with
    | (.error e, h) => (.error e, o', h)
    | (.ok x, h) =>
      match o.model.rootRef x h with
      | (.error e, h) => (.error e, o', h)
      | (.ok (z, c), h) => (.ok z, { o' with mixing := if o.enabled then c else o.mixing }, h)

/-- `Einet.forward(x, marginalized_scopes, cache_index)` (einet.py:121-204). -/
def forward (o : RObj) (x : Ref) (marginalized_scopes : Option Scopes) (cache_index : Option Int) (h : Heap) :
    Res Ref × RObj × Heap :=
  match o.model.prepRef x with
  | .error e => (.error e, o, h)
  | .ok x =>
    match cache_index.bind o.leafCache with
    | some y => o.upper y h
    | none =>
      match o.model.leaf.forwardRef x marginalized_scopes h with
      | (.error e, h) => (.error e, o, h)
      | (.ok y, h) => (o.store cache_index y).upper y h

/-- the mask of the entries to replace (einet.py:688-692). -/
def holes (samples : Tensor ℝ) (marginalized_scopes : Option Scopes) (e : Tensor Fl) : Res (List Nat → Prop) :=
  match marginalized_scopes with
  | none => .ok fun j => (e.get j).isnan
  | some s => (Model.indexList (samples.size 2) s).map fun l j => at' 2 j ∈ l

/-- the result of `Einet.sample` (einet.py:683-697): `evidence.clone()` is a new tensor, `view_as` and `view` share its
storage, the assignment goes into it. -/
def finishRef (evidence : Option Ref) (samples : Tensor ℝ) (marginalized_scopes : Option Scopes) : Mem Ref :=
  match evidence with
  | none => Mem.new (samples.map .fin)
  | some e =>
    Mem.bind (Mem.get e) fun t =>
      Mem.bind (Mem.new t) fun c =>
        Mem.bind (Mem.lift (c.view samples.shape)) fun v =>
          Mem.bind (Mem.get v) fun u =>
            Mem.bind (Mem.lift (holes samples marginalized_scopes u)) fun m =>
              Mem.bind (Mem.write v fun j => if m j then .fin (samples.get j) else u.get j) fun _ =>
                Mem.lift (v.view c.shape)

/-- entering `sampling_context` with evidence (sampling_utils.py:48-56): the caller's tensor goes through the model. -/
def enter (o : RObj) (evidence : Option Ref) (marginalized_scopes : Option Scopes) (h : Heap) : Res Unit × RObj × Heap :=
  match evidence with
  | none => (.ok (), o, h)
  | some e =>
    let p := ({ o with enabled := true } : RObj).forward e marginalized_scopes none h
    (p.1.map fun _ => (), p.2)

/-- leaving `sampling_context` normally (sampling_utils.py:61-64). -/
def exit (o : RObj) (evidence : Option Ref) : RObj :=
  if evidence.isSome then { o with enabled := false, layers := [], mixing := none } else o

/-- `Einet.sample(..., seed=seed)` (einet.py:533-697) on the generator `G` in state `g`; `a.evidence` is not used, the
evidence is the tensor object. -/
def sample (G : Gen) (o : RObj) (g : G.σ) (a : SampleArgs) (evidence : Option Ref) (seed : Option Int) (h : Heap) :
    Res Ref × RObj × G.σ × Heap :=
  let a : SampleArgs := { a with evidence := evidence.map h.val }
  match a.check o.model with
  | .error e => (.error e, o, g, h)
  | .ok _ =>
    let g1 := (seed.map G.seed).getD g
    match o.enter evidence a.marginalized_scopes h with
    | (.error e, o1, h) => (.error e, o1, g1, h)
    | (.ok _, o1, h) =>
      match ((o1.model.samplePath a (o1.abs h).caches).bind o1.model.leaf.sample).run G g1 with
      | (.error e, g2) => (.error e, o1, g2, h)
      | (.ok s, g2) =>
        match finishRef evidence s a.marginalized_scopes h with
        | (.error e, h) => (.error e, o1, g2, h)
        | (.ok r, h) => (.ok r, o1.exit evidence, if seed.isSome then g else g2, h)

end RObj

/-- `LitModel.preprocess` (models_pl.py:120-125): `data *= 255.0` assigns into the caller's batch. -/
def preprocessRef (binomial : Bool) (data : Ref) : Mem Ref :=
  if binomial = true
  then Mem.bind (Mem.get data) fun t => Mem.bind (Mem.write data fun j => t.get j * .fin 255) fun _ => Mem.ret data
  else Mem.ret data

end Einet
