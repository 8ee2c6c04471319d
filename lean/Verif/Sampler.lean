import Verif.Tensor
import Mathlib.Data.List.Perm.Basic

/-!
# The training sampler

Model of `TrainingSampler` (simple_einet/data.py:878-920): an infinite stream of dataset indices.
-/

namespace Einet

/-- `torch.Generator` as far as `torch.randperm(n, generator=g)` uses it: a state that each call advances; the result is
a rearrangement of `0 .. n-1`. -/
structure PermGen where
  σ : Type
  /-- `g.manual_seed(seed)` on a new generator -/
  seed : Int → σ
  randperm : Nat → σ → List Nat × σ
  perm : ∀ n s, (randperm n s).1.Perm (List.range n)

/-- A `TrainingSampler` object (data.py:890-907). -/
structure TrainingSampler where
  size : Nat
  shuffle : Bool
  seed : Int
  rank : Nat
  worldSize : Nat

namespace TrainingSampler

/-- `TrainingSampler.__init__` (data.py:890-907). -/
def init (size : Int) (shuffle : Bool := true) (seed : Option Int := none) : Res TrainingSampler :=
  if 0 < size then .ok ⟨size.toNat, shuffle, seed.getD 0, 0, 1⟩ else .error .assertion

/-- one turn of the `while` loop of `_infinite_indices` (data.py:913-920): the list it yields from. -/
def block (G : PermGen) (T : TrainingSampler) (g : G.σ) : List Nat × G.σ :=
  if T.shuffle then G.randperm T.size g else (List.range T.size, g)

/-- `next` of the Python generator `_infinite_indices` (data.py:914-920), suspended with the rest of the list of the
current `yield from`.  An empty block would make the loop spin forever; `size > 0` excludes it, and the model returns 0. -/
def next (G : PermGen) (T : TrainingSampler) : G.σ × List Nat → Nat × (G.σ × List Nat)
  | (g, a :: l) => (a, (g, l))
  | (g, []) =>
    match T.block G g with
    | (a :: l, g) => (a, (g, l))
    | ([], g) => (0, (g, []))

/-- the suspended generator after `n` items. -/
def after (G : PermGen) (T : TrainingSampler) : Nat → G.σ × List Nat
  | 0 => (G.seed T.seed, [])
  | n + 1 => (T.next G (T.after G n)).2

/-- item `k` of `__iter__`: `itertools.islice(self._infinite_indices(), self._rank, None, self._world_size)`
(data.py:910-912). -/
def item (G : PermGen) (T : TrainingSampler) (k : Nat) : Nat := (T.next G (T.after G (T.rank + k * T.worldSize))).1

end TrainingSampler
end Einet
