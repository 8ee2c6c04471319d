import Verif.DiffLaw
import Verif.Build

/-!
# Convolutional circuits (simple_einet/conv_pc.py)

Function by function model of `SumLayer`, `ProdConv`, `SumProdLayer` and `ConvPc`.  `ConvPc.sample` always uses one-hot indices;
the Gumbel noise is drawn where the code draws it, with law `μ` (see `Verif.DiffLaw`).

Simplifications: `channels`, `kernel_size` and the sizes of an image are natural numbers; the layer parameters are finite
(`torch.log(torch.rand(...))` is `-inf` if the generator returns 0); `seed` and `return_leaf_params` are not modelled; tensors are
always contiguous.
-/

open Classical MeasureTheory
open scoped ENNReal
noncomputable section
namespace Einet
open Tensor

/-- `t.permute(p)`. -/
def Tensor.permute {α : Type} (p : List Nat) (t : Tensor α) : Res (Tensor α) := do
  require .shape (p.Perm (List.range t.rank))
  return ⟨p.map fun d => t.size d, fun i => t.get ((List.range t.rank).map fun d => at' (p.idxOf d) i)⟩

/-- `SumLayer` (conv_pc.py:300-311): `logits` is a parameter of shape `[out_channels, in_channels, height, width]`. -/
structure ConvSum where
  in_channels : Nat
  out_channels : Nat
  height : Nat
  width : Nat
  logits : List Nat → ℝ

namespace ConvSum

/-- `self.logits` as a tensor. -/
def param (L : ConvSum) : Tensor Fl := ⟨[L.out_channels, L.in_channels, L.height, L.width], fun i => .fin (L.logits i)⟩

/-- `SumLayer.forward` (conv_pc.py:313-328); what it stores in the cache is in `ConvLayer.forward`. -/
def forward (L : ConvSum) (x : Tensor Fl) : Res (Tensor Fl) := do
  let log_weights ← L.param.logSoftmax 1
  let log_weights ← log_weights.unsqueeze 0
  let x ← x.unsqueeze 1
  (← x.add log_weights).logsumexp 2

/-- `SumLayer._select_weights` (conv_pc.py:352-363). -/
def selectWeights (L : ConvSum) (ctx : DCtx) : Res (Tensor Fl) := do
  let logits ← L.param.unsqueeze 0
  let p_idxs ← ctx.indices_out.unsqueeze 2
  let logits ← indexOneHot logits p_idxs 1
  logitsToLogWeights logits 1 ctx.temperature_sums

/-- `SumLayer._condition_weights_on_evidence` (conv_pc.py:371-378). -/
def condition (x log_weights : Tensor Fl) : Res (Tensor Fl) := do
  let log_posterior ← log_weights.add x
  log_posterior.sub (← log_posterior.logsumexpKeep 1)

/-- the weights used by `SumLayer.sample` (conv_pc.py:338-344): `cache` is the stored input, `none` if the cache is switched off
or empty. -/
def logWeights (L : ConvSum) (cache : Option (Tensor Fl)) (ctx : DCtx) : Res (Tensor Fl) := do
  let w ← L.selectWeights ctx
  match cache with
  | none => .ok w
  | some x => condition x w

/-- `SumLayer.sample` (conv_pc.py:338-350, 365-369). -/
def sample (μ : Measure ℝ) (L : ConvSum) (cache : Option (Tensor Fl)) (ctx : DCtx) : Rand DCtx :=
  (Rand.lift (L.logWeights cache ctx)).bind fun w =>
    (drawNoise μ ctx.is_mpe w 1).bind fun noise => Rand.lift do
      let indices ← simple none (some w) 1 (if ctx.is_mpe then none else some noise)
      return { ctx with indices_out := indices }

end ConvSum

namespace ProdConv

/-- `ProdConv.forward` (conv_pc.py:394-410).  `F.conv2d` with a kernel of ones, one group per channel and the stride equal to the
kernel size adds up the entries of every patch. -/
def forward (kh kw : Nat) (x : Tensor Fl) : Res (Tensor Fl) := do
  require .value (x.rank = 4)
  require .zeroDivision (kh ≠ 0)
  require .assertion (x.size 2 % kh = 0)
  require .zeroDivision (kw ≠ 0)
  require .assertion (x.size 3 % kw = 0)
  require .shape (0 < x.size 2 ∧ 0 < x.size 3)
  return ⟨[x.size 0, x.size 1, x.size 2 / kh, x.size 3 / kw], fun i =>
    Fl.sumN kh fun a => Fl.sumN kw fun b => x.get [at' 0 i, at' 1 i, at' 2 i * kh + a, at' 3 i * kw + b]⟩

/-- `ProdConv.sample` (conv_pc.py:420-431). -/
def sample (kh kw : Nat) (ctx : DCtx) : Res DCtx := do
  require .index (2 ≤ ctx.indices_out.rank)
  let idxs ← ctx.indices_out.repeatInterleave kh (ctx.indices_out.rank - 2)
  let idxs ← idxs.repeatInterleave kw (idxs.rank - 1)
  return { ctx with indices_out := idxs }

end ProdConv

/-- an entry of `ConvPc.layers`: a `SumLayer`, a `ProdConv` or a `SumProdLayer` (conv_pc.py:437-464).  A `SumProdLayer` with an
unknown `order` has neither part. -/
inductive ConvLayer where
  | sum (L : ConvSum)
  | prod (kh kw : Nat)
  | sumProd (order : String) (L : ConvSum) (kh kw : Nat)

namespace ConvLayer

/-- the constructor of `SumProdLayer` (conv_pc.py:440-464). -/
def mkSumProd (in_channels out_channels height width kh kw : Nat) (order : String) (logits : List Nat → ℝ) : Res ConvLayer := do
  require .zeroDivision (kh ≠ 0 ∧ kw ≠ 0)
  if order = "prod-sum" then
    return .sumProd order ⟨in_channels, out_channels, height / kh, width / kw, logits⟩ kh kw
  else
    return .sumProd order ⟨in_channels, out_channels, height, width, logits⟩ kh kw

/-- `layer(x)`: the input stored by the `SumLayer` if its cache is switched on (conv_pc.py:315-316), and the result
(conv_pc.py:313-328, 394-410, 466-475). -/
def forward : ConvLayer → Tensor Fl → Option (Tensor Fl) × Res (Tensor Fl)
  | sum L, x => (some x, L.forward x)
  | prod kh kw, x => (none, ProdConv.forward kh kw x)
  | sumProd order L kh kw, x =>
    if order = "sum-prod" then (some x, L.forward x >>= ProdConv.forward kh kw)
    else if order = "prod-sum" then
      match ProdConv.forward kh kw x with
      | .ok y => (some y, L.forward y)
      | .error e => (none, .error e)
    else (none, .error .value)

/-- `layer.sample(ctx)` (conv_pc.py:338-350, 420-431, 477-484). -/
def sample (μ : Measure ℝ) : ConvLayer → Option (Tensor Fl) → DCtx → Rand DCtx
  | sum L, c, ctx => L.sample μ c ctx
  | prod kh kw, _, ctx => Rand.lift (ProdConv.sample kh kw ctx)
  | sumProd order L kh kw, c, ctx =>
    if order = "sum-prod" then (Rand.lift (ProdConv.sample kh kw ctx)).bind fun ctx => L.sample μ c ctx
    else if order = "prod-sum" then (L.sample μ c ctx).bind fun ctx => Rand.lift (ProdConv.sample kh kw ctx)
    else .pure ctx

end ConvLayer

/-- the loop over the layers (conv_pc.py:653-654), with what the caches receive. -/
def forwardConv : List ConvLayer → Tensor Fl → List (Option (Tensor Fl)) × Res (Tensor Fl)
  | [], x => ([], .ok x)
  | l :: ls, x =>
    match (l.forward x).2 with
    | .ok y => ((l.forward x).1 :: (forwardConv ls y).1, (forwardConv ls y).2)
    | .error e => ((l.forward x).1 :: ls.map fun _ => none, .error e)

/-- the loop over the layers from the top (conv_pc.py:705-708). -/
def sampleConv (μ : Measure ℝ) : List ConvLayer → List (Option (Tensor Fl)) → DCtx → Rand DCtx
  | [], _, ctx => .pure ctx
  | l :: ls, cs, ctx => (sampleConv μ ls cs.tail ctx).bind fun ctx => l.sample μ (cs.head?.getD none) ctx

/-- the fields of `ConvPcConfig` that are used (conv_pc.py:501-512); `leaf_type` and `leaf_kwargs` are in `ConvParams`. -/
structure ConvConfig where
  channels : List Nat
  kernel_size : Nat
  structure' : String
  order : String

/-- `Shape` (data.py:45-68). -/
structure ImgShape where
  channels : Nat
  height : Nat
  width : Nat

/-- the leaf class with its parameters and the logits of the layers, numbered from the bottom. -/
structure ConvParams where
  leaf : LeafSpec
  logits : Nat → List Nat → ℝ

/-- a `ConvPc` object without its caches. -/
structure ConvModel where
  num_channels : Nat
  height : Nat
  width : Nat
  leaf : BaseLeaf
  layers : List ConvLayer

/-- the loop for `structure="bottom-up"` and the layer on top of it (conv_pc.py:558-587); `i` numbers the layers. -/
def convBottomUp (P : ConvParams) (order : String) (k : Nat) : List Nat → Nat → Nat → Nat → Res (List ConvLayer)
  | [], _, _, _ => .error .index
  | [c], i, h, w => do
    let l ← ConvLayer.mkSumProd c 1 h w h w "prod-sum" (P.logits i)
    return [l]
  | c :: c' :: cs, i, h, w => do
    let l ← ConvLayer.mkSumProd c c' h w k k order (P.logits i)
    return l :: (← convBottomUp P order k (c' :: cs) (i + 1) (h / k) (w / k))

/-- the layers for `structure="top-down"` above the lowest `ProdConv` (conv_pc.py:590-611), listed from the bottom: the size of the
layer doubles with every layer from the top. -/
def convTopDown (P : ConvParams) (order : String) : Nat → List Nat → Nat → Res (List ConvLayer)
  | p, [], i => return [.sum ⟨p, 1, 1, 1, P.logits i⟩]
  | p, c :: cs, i => do
    let l ← ConvLayer.mkSumProd p c (2 ^ (cs.length + 1)) (2 ^ (cs.length + 1)) 2 2 order (P.logits i)
    return l :: (← convTopDown P order c cs (i + 1))

/-- construction of the layers (conv_pc.py:553-624). -/
def convLayers (c : ConvConfig) (d : ImgShape) (P : ConvParams) : Res (List ConvLayer) :=
  if c.structure' = "bottom-up" then convBottomUp P c.order c.kernel_size c.channels 0 d.height d.width
  else if c.structure' = "top-down" then do
    let ls ← convTopDown P c.order (c.channels.headD 0) c.channels 0
    return .prod (d.height / 2 ^ c.channels.length) (d.width / 2 ^ c.channels.length) :: ls
  else .error .value

/-- `ConvPc.__init__` (conv_pc.py:536-624).  The checks of `AbstractLeaf.__init__` (abstract_leaf.py:201-204,
abstract_layers.py:30-33) come first. -/
def buildConv (c : ConvConfig) (d : ImgShape) (P : ConvParams) : Res ConvModel := do
  require .index (c.channels ≠ [])
  let _ ← checkValid (.int (d.height * d.width : ℕ)) .int (some (.int 1))
  let _ ← checkValid (.int (d.channels : ℕ)) .int (some (.int 1))
  let _ ← checkValid (.int (c.channels.headD 0 : ℕ)) .int (some (.int 1))
  let leaf ← P.leaf.build none ⟨d.height * d.width, d.channels, c.channels.headD 0, 1⟩
  let layers ← convLayers c d P
  return ⟨d.channels, d.height, d.width, leaf, layers⟩

/-- the arguments of `ConvPc.sample` that are used (conv_pc.py:658-670). -/
structure ConvArgs where
  num_samples : Option Nat := none
  evidence : Option (Tensor Fl) := none
  is_mpe : Bool := false
  mpe_at_leaves : Bool := false
  temperature_leaves : ℝ := 1
  temperature_sums : ℝ := 1

namespace ConvModel

/-- `ConvPc._forward_leaf_data` (conv_pc.py:631-647). -/
def forwardLeaf (M : ConvModel) (x : Tensor Fl) : Res (Tensor Fl) := do
  require .index (0 < x.rank)
  let x ← x.view [x.size 0, M.num_channels, M.height * M.width]
  let x ← M.leaf.forward x none
  let x ← x.view [x.size 0, M.num_channels, M.height, M.width, M.leaf.num_leaves]
  let x ← x.sum 1
  let x ← x.squeeze (x.rank - 1)
  x.permute [0, 3, 1, 2]

/-- `ConvPc.forward` (conv_pc.py:649-656), with what the caches receive. -/
def forwardAll (M : ConvModel) (x : Tensor Fl) : List (Option (Tensor Fl)) × Res (Tensor Fl) :=
  match M.forwardLeaf x with
  | .error e => (M.layers.map fun _ => none, .error e)
  | .ok y => ((forwardConv M.layers y).1, do
    let y ← (forwardConv M.layers y).2
    y.view [y.size 0])

/-- `ConvPc.forward` (conv_pc.py:649-656). -/
def forward (M : ConvModel) (x : Tensor Fl) : Res (Tensor Fl) := (M.forwardAll x).2

/-- the initial context (conv_pc.py:677-695). -/
def initCtx (N : Nat) (a : ConvArgs) : DCtx where
  num_samples := N
  indices_out := full [N, 1, 1, 1] (.fin 1)
  indices_repetition := full [N, 1] (.fin 1)
  is_mpe := a.is_mpe
  mpe_at_leaves := a.mpe_at_leaves
  temperature_leaves := a.temperature_leaves
  temperature_sums := a.temperature_sums

/-- selection of the components (conv_pc.py:714-722). -/
def select (M : ConvModel) (ctx : DCtx) (samples : Tensor Fl) : Res (Tensor Fl) := do
  require .value (samples.rank = 4)
  let samples ← samples.view [samples.size 0, M.num_channels, M.height, M.width, samples.size 3]
  let samples ← samples.permute [0, 4, 1, 2, 3]
  let indices_out ← ctx.indices_out.unsqueeze 2
  indexOneHot samples indices_out 1

/-- the body of `ConvPc.sample` for `N` samples (conv_pc.py:705-722), given the contents of the caches. -/
def draw (μ : Measure ℝ) (M : ConvModel) (caches : List (Option (Tensor Fl))) (N : Nat) (a : ConvArgs) : Rand (Tensor Fl) :=
  (sampleConv μ M.layers caches (initCtx N a)).bind fun ctx =>
    (M.leaf.sampleAllD ctx).bind fun samples => Rand.lift (M.select ctx samples)

/-- `ConvPc.sample` (conv_pc.py:658-735) of an object whose caches are switched off.  With evidence, `sampling_context` calls
`model.log_likelihood` (conv_pc.py:126), which does not exist. -/
def sample (μ : Measure ℝ) (M : ConvModel) (a : ConvArgs) : Rand (Tensor Fl) :=
  match a.evidence, a.num_samples with
  | none, none => .fail .value
  | some _, _ => .fail .attribute
  | none, some N => M.draw μ [] N a

end ConvModel
end Einet
