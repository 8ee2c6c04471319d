import Verif.Tensor
import Mathlib.Data.List.Infix

/-!
# Files and seeds of the experiments

The functions of `exp_utils.py` that create the directory of an experiment, load a checkpoint and seed the generators, and the
files written by `main_pl.py`.

Simplifications: a path is the list of its components (no component contains `/`, no links, no permissions); a file is its content;
the generators are given by the value of their seed.
-/

namespace Einet

/-- An entry of the file system. -/
inductive Node where
  | dir
  | file (content : String)
  deriving DecidableEq

abbrev Path := List String

/-- File system: what exists at a path. -/
abbrev Fs := Path → Option Node

/-- A file system of the operating system: the root is a directory and everything lies in a directory. -/
def Fs.WF (s : Fs) : Prop := s [] = some .dir ∧ ∀ p x, (s (p ++ [x])).isSome → s p = some .dir

open Classical in
/-- `os.makedirs(p, exist_ok=True)`: all missing directories on the way are created; raises (FileExistsError,
NotADirectoryError) if one of them is a file. -/
noncomputable def makedirs (p : Path) (s : Fs) : Res Fs :=
  if ∃ q c, q <+: p ∧ s q = some (.file c) then .error .other
  else .ok fun q => if q <+: p then some .dir else s q

open Classical in
/-- `with open(p, "w") as f: f.write(c)`: raises if `p` is a directory or does not lie in one. -/
noncomputable def writeFile (p : Path) (c : String) (s : Fs) : Res Fs :=
  if s p.dropLast = some .dir ∧ s p ≠ some .dir then .ok fun q => if q = p then some (.file c) else s q
  else .error .other

/-- Arguments of `make_results_dir` (exp_utils.py:52-59). -/
structure RunArgs where
  results_dir : Path
  experiment_name : String
  tag : Option String
  dataset_name : String
  debug : Bool

/-- name of the directory (exp_utils.py:73-79). -/
def RunArgs.dirname (a : RunArgs) : String :=
  let n := match a.tag with
    | none => "unnamed"
    | some t => t
  if a.debug then n ++ "_debug" else n

/-- all but the last component of `experiment_dir` (exp_utils.py:82-87). -/
def RunArgs.parent (a : RunArgs) : Path := a.results_dir ++ ["simple-einet", a.experiment_name, a.dataset_name]

/-- `make_results_dir` (exp_utils.py:52-96): returns the path (without the final `/`). -/
noncomputable def makeResultsDir (a : RunArgs) (remove_if_exists : Bool) (s : Fs) : Res (Path × Fs) := do
  let experiment_dir := a.parent ++ [a.dirname]
  let experiment_dir :=
    if remove_if_exists ∧ (s experiment_dir).isSome then a.parent ++ [a.dirname ++ "_2"] else experiment_dir
  let s ← makedirs experiment_dir s
  return (experiment_dir, s)

/-- A run that creates its directory and writes a file into it, as `save_args` does (exp_utils.py:41-49). -/
noncomputable def resultsRun (a : RunArgs) (name content : String) (s : Fs) : Res (Path × Fs) := do
  let (p, s) ← makeResultsDir a true s
  let s ← writeFile (p ++ [name]) content s
  return (p, s)

/-! ### Checkpoints -/

/-- `load_from_checkpoint` (exp_utils.py:446-459): `order` is the unspecified order of `os.listdir`, which contains the names in
the directory; returns the content of the last file, to be passed to `load_fn`. -/
def loadFromCheckpoint (results_dir : Path) (order : List String) (s : Fs) : Res String := do
  let ckpt_dir := results_dir ++ ["tb", "version_0", "checkpoints"]
  if s ckpt_dir ≠ some .dir then .error .other
  else match order.getLast? with
    | none => .error .assertion
    | some f => match s (ckpt_dir ++ [f]) with
      | some (.file c) => return c
      | _ => .error .other

/-- A computation that changes files and may raise; the changes made before an exception stay. -/
abbrev FsM (α : Type) := Fs → Fs × Res α

/-- sequential composition: nothing is executed after an exception. -/
def FsM.bind {α β : Type} (m : FsM α) (f : α → FsM β) : FsM β := fun s =>
  match m s with
  | (t, .ok a) => f a t
  | (t, .error e) => (t, .error e)

/-- An operation on files that changes nothing when it raises. -/
def FsM.op (f : Fs → Res Fs) : FsM Unit := fun s =>
  match f s with
  | .ok t => (t, .ok ())
  | .error e => (s, .error e)

/-- An operation that does not change files. -/
def FsM.read {α : Type} (f : Fs → Res α) : FsM α := fun s => (s, f s)

/-- the files written by the logger in the directory `wandb` of the run (main_pl.py:90-99: `save_dir=run_dir`). -/
noncomputable def writeLogs (run_dir : Path) : List (Path × String) → FsM Unit
  | [] => .read fun _ => .ok ()
  | (p, c) :: l =>
    (FsM.op (makedirs (run_dir ++ "wandb" :: p))).bind fun _ =>
    (FsM.op (writeFile (run_dir ++ "wandb" :: p ++ ["log"]) c)).bind fun _ =>
    writeLogs run_dir l

/-- The parts of a run of `main` that are not about files: `train` stands for the constructor and the training and gives the
checkpoint, `eval` for the test, `logs` for what the logger writes, `order` for the order of `os.listdir`. -/
structure PlRun where
  load_and_eval : Bool
  run_dir : Path
  config : String
  logs : List (Path × String)
  order : List String
  train : Res String
  eval : String → Res Unit

/-- What a run of `main` (main_pl.py:33-176) does to the files: hydra creates `run_dir`, `config.yaml` is written (line 48), the
logger writes, then the model is loaded (lines 102-107) or trained, and at the end saved as `model.pt` (lines 174-176).
`enable_checkpointing=False` (line 156), so training writes no further files. -/
noncomputable def mainFiles (r : PlRun) : FsM String :=
  (FsM.op (makedirs r.run_dir)).bind fun _ =>
  (FsM.op (writeFile (r.run_dir ++ ["config.yaml"]) r.config)).bind fun _ =>
  (writeLogs r.run_dir r.logs).bind fun _ =>
  (if r.load_and_eval then FsM.read (loadFromCheckpoint r.run_dir r.order) else FsM.read fun _ => r.train).bind fun model =>
  (FsM.read fun _ => r.eval model).bind fun _ =>
  (FsM.op (writeFile (r.run_dir ++ ["model.pt"]) model)).bind fun _ =>
  FsM.read fun _ => .ok model

/-- A sequence of runs; `main_hydra` catches every exception (main_pl.py:217-225). -/
noncomputable def runsFiles : List PlRun → Fs → Fs
  | [], s => s
  | r :: l, s => runsFiles l (mainFiles r s).1

/-! ### Seeds -/

/-- The generators of a process: the seeds of numpy, torch and python, and the environment variable PYTHONHASHSEED. -/
structure Rngs where
  numpy : Int
  torch : Int
  python : Int
  hashSeed : Option String

/-- `np.random.seed(seed)`: a ValueError unless `0 ≤ seed < 2^32`. -/
def npSeed (seed : Int) (g : Rngs) : Res Rngs :=
  if 0 ≤ seed ∧ seed < 2 ^ 32 then .ok { g with numpy := seed } else .error .value

/-- `torch.manual_seed(seed)`: a RuntimeError outside of `[-2^63, 2^64)`. -/
def torchSeed (seed : Int) (g : Rngs) : Res Rngs :=
  if -2 ^ 63 ≤ seed ∧ seed < 2 ^ 64 then .ok { g with torch := seed } else .error .other

/-- `seed_all_rng` (exp_utils.py:224-237).  Without a seed `datetime.now` raises: `datetime` is the module (line 20). -/
def seedAll (seed : Option Int) (g : Rngs) : Res Rngs :=
  match seed with
  | none => .error .attribute
  | some seed => do
    let g ← npSeed seed g
    let g ← torchSeed seed g
    let g := { g with python := seed }
    return { g with hashSeed := some (toString seed) }

/-- `worker_init_reset_seed` (exp_utils.py:240-247): `torch.initial_seed()` is the seed of torch in the process. -/
def workerInit (worker_id : Nat) (g : Rngs) : Res Rngs := do
  let initial_seed := g.torch % 2 ^ 31
  seedAll (some (initial_seed + worker_id)) g

/-- Worker `worker_id` of a `DataLoader` with `worker_init_fn=worker_init_reset_seed` (data.py:866-875): torch seeds the generators
of torch and python with `base_seed + worker_id` and then calls the function. -/
def startWorker (base_seed : Int) (worker_id : Nat) (g : Rngs) : Res Rngs :=
  workerInit worker_id { g with torch := base_seed + worker_id, python := base_seed + worker_id }

end Einet
