import Verif.Lit
import Verif.Data

/-!
# Evaluation in main_pl.py

`trainer.test` (main_pl.py:170) with the methods `test_step` of models_pl.py:233-240 and 274-277 and the loaders of
`build_dataloader`.  Simplifications: the loop and the loggers of `lightning` are reduced to what decides the reported values, mixed
precision and devices are left out, and the batches are those of data sets of images or of tables reshaped to images (data.py:487-489,
610-612, 648-650, 685-687, 733-735, 766-768), which is every data set for which `make_einet` can build a model.
-/

open Classical
noncomputable section
namespace Einet
open Tensor

/-- `default_collate` of torch for examples with an image of the given shape, called by the loader for every batch (data.py:866-875): the
stacked images and the labels.  Images of another size would raise, here missing pixels are zero; the theorems ask for the size. -/
def collate (s : ImgShape) (b : List Example) : Tensor Fl × Tensor ℤ :=
  (⟨[b.length, s.channels, s.height, s.width], fun i =>
      .fin ((b.getD (at' 0 i) ([], 0)).1.getD (at' 1 i * (s.height * s.width) + (at' 2 i * s.width + at' 3 i)) 0)⟩,
    ⟨[b.length], fun i => (b.getD (at' 0 i) ([], 0)).2⟩)

/-- the value logged by `SpnGenerative.test_step` (models_pl.py:233-240) and by `SpnDiscriminative.test_step` (models_pl.py:274-277)
for a batch. -/
def testStep (M : Model) (dist : DistName) (s : ImgShape) (classification : Bool) (b : List Example) : Res Fl := do
  let (data, labels) := collate s b
  let data := litPreprocess dist data
  if classification then
    return (← crossEntropyAndAccuracy M data labels).2
  else negativeLogLikelihood M data

/-- the value reported for `self.log(name, value)` in `test_step` (models_pl.py:240, 277): `lightning` adds up value times batch size and
divides by the number of examples at the end.  Nothing is reported without a batch. -/
def logged (step : List Example → Res Fl) (batches : List (List Example)) : Res (Option Fl) := do
  let (value, weight) ← batches.foldlM (fun (acc : Fl × Nat) b => do
    let v ← step b
    return (acc.1 + v * .fin b.length, acc.2 + b.length)) (.fin 0, 0)
  return if batches = [] then none else some (value / .fin weight)

/-- `DATALOADER_ID_TO_SET_NAME` (models_pl.py:20). -/
def setName : Nat → Res String
  | 0 => .ok "train"
  | 1 => .ok "val"
  | 2 => .ok "test"
  | _ => .error .other

/-- the pass of `trainer.test` over the batches of loader `i` (main_pl.py:170): name and value reported.  The name is looked up in every
step (models_pl.py:239, 276). -/
def testLoader (M : Model) (dist : DistName) (s : ImgShape) (classification : Bool) (i : Nat) (batches : List (List Example)) :
    Res (Option (String × Fl)) := do
  let v ← logged (fun b => do
    let v ← testStep M dist s classification b
    let _ ← setName i
    return v) batches
  match v with
  | none => return none
  | some v => return some ("Test/" ++ (← setName i) ++ (if classification then "_accuracy" else "_nll"), v)

/-- `trainer.test(model, dataloaders)` (main_pl.py:170): the names and values reported, loader by loader.  `drawn i` is the number that
a shuffling loader draws from the global generator at the begin of its pass. -/
def trainerTest (G : PermGen) (M : Model) (dist : DistName) (s : ImgShape) (classification : Bool) (loaders : List (Loader Example))
    (drawn : Nat → Int) : Res (List (String × Fl)) := do
  let values ← (List.range loaders.length).mapM fun i => match loaders[i]? with
    | some L => testLoader M dist s classification i (L.epoch G (drawn i))
    | none => pure none
  return values.filterMap id

/-- the evaluation of main_pl.py from the data to the reported values (main_pl.py:77-86, 170): the loaders are made without `loop`, the
data are normalised for normal leaves. -/
def evalScript (S : Sources) (cfg : LitCfg) (M : Model) (classification : Bool) (batch_size : Int) (seed : Option Int) (st : S.σ)
    (drawn : Nat → Int) : Res (List (String × Fl)) := do
  let normalize := cfg.dist = .normal ∨ cfg.dist = .normalRat
  let ((train, val, test), _) ← buildDataloader S cfg.dataset batch_size false (decide normalize) seed st
  let s ← getDataShape cfg.dataset
  trainerTest S.torch M cfg.dist s classification [train, val, test] drawn

end Einet
end
