import Verif.Lit
import Verif.Sampler
import Verif.LeafInit
import Mathlib.Data.Finset.Sort
import Mathlib.Data.String.Basic

/-!
# Data sets and loaders of the training scripts

`get_data_num_classes`, `generate_data`, `get_datasets`, `build_dataloader` and `_make_loader` (simple_einet/data.py:117-237, 352-875).
An example is the list of its features in row-major order with its label.  What the libraries deliver (downloads, files, generated
points, permutations) is given by `Sources`; arithmetic is exact, and so is the product with `0.9` and `0.1` in the sizes of the parts
(rounding of doubles does not change the results below `2 ^ 50` examples).  Loading of single images, workers and pinned memory are not
modelled.
-/

open Classical
noncomputable section
namespace Einet

/-- an element of a data set: features and label. -/
abbrev Example := List ℝ × ℤ

/-- the three data sets returned by `get_datasets`. -/
structure Parts where
  train : List Example
  val : List Example
  test : List Example

/-- a row of a table before preprocessing: numerical and categorical columns and the label (labels are compared only, so integers stand
for all of them). -/
structure RawRow where
  num : List ℝ
  cat : List String
  label : ℤ

/-- what the libraries deliver. -/
structure Sources where
  /-- `torch.Generator` and `torch.randperm` -/
  torch : PermGen
  /-- state of the global generator of numpy -/
  σ : Type
  /-- the classes of torchvision: data set and part to its images after `Resize` and `ToTensor` with their labels -/
  images : String → String → List Example
  /-- element of `FakeData`: it seeds the generator with its index -/
  fake : Nat → Example
  /-- `make_blobs` and `make_moons` with the arguments for a tag and `random_state=0` -/
  synth : String → Nat → List Example
  /-- `make_circles` without `random_state` -/
  circles : Nat → σ → List Example × σ
  /-- the binarised images with their labels -/
  mnistBin : List Example
  /-- the files of a DEBD data set: name and part to its rows -/
  debd : String → String → List (List ℝ)
  /-- the tables of sklearn -/
  table : String → List RawRow
  /-- `PCA(n_components=50)` fitted to rows; the randomised solver draws from the global generator.  (`fit_transform` is identified with
  `fit` and `transform`.) -/
  pca : List (List ℝ) → σ → (List ℝ → List ℝ) × σ
  /-- rows chosen by `train_test_split(…, test_size=0.1, random_state=42, stratify=y)` for the two parts, in order; raises if the
  labels cannot be stratified -/
  split : List ℤ → Res (List Nat × List Nat)
  split_perm : ∀ y r, split y = .ok r → (r.1 ++ r.2).Perm (List.range y.length)

/-- python's `round` of a number without a second argument: to the nearest integer, ties to the even one. -/
def pyRound (q : ℚ) : ℤ :=
  if q - ⌊q⌋ < 1 / 2 then ⌊q⌋ else if 1 / 2 < q - ⌊q⌋ then ⌊q⌋ + 1 else if ⌊q⌋ % 2 = 0 then ⌊q⌋ else ⌊q⌋ + 1

/-- `Shape.downscale` (data.py:58-60). -/
def ImgShape.downscale (s : ImgShape) (scale : ℚ) : ImgShape :=
  ⟨s.channels, (pyRound (s.height / scale)).toNat, (pyRound (s.width / scale)).toNat⟩

/-- `Shape.upscale` (data.py:62-64). -/
def ImgShape.upscale (s : ImgShape) (scale : ℚ) : ImgShape :=
  ⟨s.channels, (pyRound (s.height * scale)).toNat, (pyRound (s.width * scale)).toNat⟩

/-- the table of `get_data_num_classes` (data.py:132-156). -/
def imageClasses : List (String × Nat) := [
  ("mnist-16", 10), ("mnist-32", 10), ("mnist-bin", 10), ("mnist", 10), ("fmnist", 10), ("fmnist-16", 10), ("fmnist-32", 10),
  ("cifar", 10), ("svhn", 10), ("svhn-extra", 10), ("celeba", 0), ("celeba-small", 0), ("celeba-tiny", 0), ("lsun", 0), ("fake", 10),
  ("flowers", 102), ("tiny-imagenet", 200), ("lfw", 0), ("20newsgroup", 20), ("kddcup99", 23), ("covtype", 7), ("breast_cancer", 2),
  ("wine", 3)]

/-- `get_data_num_classes` (data.py:117-156). -/
def getDataNumClasses (dataset_name : String) : Res Nat :=
  if "synth".toList <:+: dataset_name.toList then .ok 2
  else if (debdShapes.lookup dataset_name).isSome then .ok 0
  else match imageClasses.lookup dataset_name with
    | some k => .ok k
    | none => .error .other

/-- `s.replace(p, "")` on lists of characters: `skip` characters belong to an occurrence that has been found. -/
def removeAll (p : List Char) : Nat → List Char → List Char
  | _, [] => []
  | skip + 1, _ :: l => removeAll p skip l
  | 0, c :: l => if p <+: c :: l then removeAll p (p.length - 1) l else c :: removeAll p 0 l

/-- `generate_data` (data.py:159-234). -/
def generateData (S : Sources) (dataset_name : String) (n : Nat) (s : S.σ) : Res (List Example × S.σ) :=
  let tag := String.ofList (removeAll "synth-".toList 0 dataset_name.toList)
  if tag = "circles" then .ok (S.circles n s)
  else if tag ∈ ["2-clusters", "3-clusters", "9-clusters", "2-moons", "aniso", "varied"] then .ok (S.synth tag n, s)
  else .error .value

/-- `Subset(dataset, indices)` and indexing of an array with a list of rows. -/
def subset {α : Type} (l : List α) (idx : List Nat) : List α := idx.filterMap (l[·]?)

/-- `torch.utils.data.random_split` with two lengths.  Lengths of sum one are taken as fractions. -/
def randomSplit (G : PermGen) (g : G.σ) (ds : List Example) (a b : Nat) : Res (List Example × List Example) := do
  let ab := if a + b = 1 then (ds.length * a, ds.length * b) else (a, b)
  require .value (ab.1 + ab.2 = ds.length)
  let idx := (G.randperm (ab.1 + ab.2) g).1
  return (subset ds (idx.take ab.1), subset ds ((idx.drop ab.1).take ab.2))

/-- split of the training images where the second length is the rest (data.py:416-421, 465-470, 501-506, 522-527, 593-598). -/
def splitRest (G : PermGen) (g : G.σ) (ds : List Example) : Res (List Example × List Example) :=
  let n := (pyRound (ds.length * (9 / 10))).toNat
  randomSplit G g ds n (ds.length - n)

/-- split of the training images where both lengths are rounded (data.py:537-540, 559-561). -/
def splitBoth (G : PermGen) (g : G.σ) (ds : List Example) : Res (List Example × List Example) :=
  randomSplit G g ds (pyRound (ds.length * (9 / 10))).toNat (pyRound (ds.length * (1 / 10))).toNat

/-- `transforms.Normalize` with mean and standard deviation `0.5` in every channel, if asked for. -/
def normalizeEx (normalize : Bool) (e : Example) : Example :=
  if normalize then (e.1.map fun x => (x - 1 / 2) / (1 / 2), e.2) else e

/-- `train_test_split(X, y, test_size=0.1, random_state=42, stratify=y)`: `X_train, X_test, y_train, y_test`. -/
def trainTestSplit (S : Sources) (X : List (List ℝ)) (y : List ℤ) : Res (List (List ℝ) × List (List ℝ) × List ℤ × List ℤ) := do
  require .value (X.length = y.length)
  let r ← S.split y
  return (subset X r.1, subset X r.2, subset y r.1, subset y r.2)

/-- mean of a column. -/
def colMean (X : List (List ℝ)) (j : Nat) : ℝ := (X.map fun r => r.getD j 0).sum / X.length

/-- variance of a column, divided by the number of rows. -/
def colVar (X : List (List ℝ)) (j : Nat) : ℝ := (X.map fun r => (r.getD j 0 - colMean X j) ^ 2).sum / X.length

/-- `transform` of a `StandardScaler` fitted to `X`; columns without variance are only centred. -/
def standardScaler (X : List (List ℝ)) (r : List ℝ) : List ℝ :=
  r.mapIdx fun j x => (x - colMean X j) / (if colVar X j = 0 then 1 else √(colVar X j))

/-- `X.reshape(-1, *shape)`: the rows of the result, flattened. -/
def reshapeRows (k : Nat) (X : List (List ℝ)) : Res (List (List ℝ)) := do
  require .shape (X.flatten.length % k = 0)
  return (List.range (X.flatten.length / k)).map fun i => (X.flatten.drop (i * k)).take k

/-- `TensorDataset(torch.tensor(X), torch.tensor(y))`. -/
def tensorDataset (X : List (List ℝ)) (y : List ℤ) : Res (List Example) := do
  require .assertion (X.length = y.length)
  return X.zip y

/-- `LabelEncoder().fit_transform(y)`: the rank of a label among the different labels. -/
def labelEncode (y : List ℤ) : List ℤ := y.map fun v => ((y.toFinset.filter (· < v)).card : ℤ)

/-- `OneHotEncoder(sparse=False)` fitted to the rows: per column the indicator of every value of the column, values in order. -/
def oneHotRow (rows : List (List String)) (r : List String) : List ℝ :=
  (r.mapIdx fun j v => ((rows.map (·.getD j "")).toFinset.sort (· ≤ ·)).map fun u => if u = v then (1 : ℝ) else 0).flatten

/-- two splits, scaling by the statistics of the training rows, reshape and data sets (data.py:676-697, 724-746, 762-784, 796-817). -/
def scaledParts (S : Sources) (k : Nat) (X : List (List ℝ)) (y : List ℤ) : Res Parts := do
  let (X_train, X_test, y_train, y_test) ← trainTestSplit S X y
  let (X_train, X_val, y_train, y_val) ← trainTestSplit S X_train y_train
  require .value (X_train ≠ [])
  let sc := standardScaler X_train
  let X_train ← reshapeRows k (X_train.map sc)
  let X_val ← reshapeRows k (X_val.map sc)
  let X_test ← reshapeRows k (X_test.map sc)
  return ⟨← tensorDataset X_train y_train, ← tensorDataset X_val y_val, ← tensorDataset X_test y_test⟩

/-- the data set `digits` (data.py:471-492): all entries divided by the largest one. -/
def digitsParts (S : Sources) (k : Nat) (X : List (List ℝ)) (y : List ℤ) : Res Parts := do
  let some m := X.flatten.max? | .error .value
  let X := X.map (·.map (· / m))
  let (X_train, X_test, y_train, y_test) ← trainTestSplit S X y
  let (X_train, X_val, y_train, y_val) ← trainTestSplit S X_train y_train
  let X_train ← reshapeRows k X_train
  let X_val ← reshapeRows k X_val
  let X_test ← reshapeRows k X_test
  return ⟨← tensorDataset X_train y_train, ← tensorDataset X_val y_val, ← tensorDataset X_test y_test⟩

/-- the data set `20newsgroup` (data.py:614-657): one split, projection and scaling fitted to the training rows. -/
def newsParts (S : Sources) (k : Nat) (train test : List RawRow) (s : S.σ) : Res (Parts × S.σ) := do
  let (X_train, X_val, y_train, y_val) ← trainTestSplit S (train.map (·.num)) (train.map (·.label))
  let (pca, s) := S.pca X_train s
  let X_train := X_train.map pca
  require .value (X_train ≠ [])
  let sc := standardScaler X_train
  let X_train ← reshapeRows k (X_train.map sc)
  let X_val ← reshapeRows k ((X_val.map pca).map sc)
  let X_test ← reshapeRows k (((test.map (·.num)).map pca).map sc)
  return (⟨← tensorDataset X_train y_train, ← tensorDataset X_val y_val, ← tensorDataset X_test (test.map (·.label))⟩, s)

/-- a file of a DEBD data set as a data set (data.py:600-612); all labels are zero. -/
def debdPart (k : Nat) (X : List (List ℝ)) : Res (List Example) := do
  let X ← reshapeRows k X
  tensorDataset X (List.replicate X.length 0)

/-- `get_datasets` (data.py:352-820); `s` is the state of the global generator of numpy. -/
def getDatasets (S : Sources) (dataset_name : String) (normalize : Bool) (s : S.σ) : Res (Parts × S.σ) := do
  let shape ← getDataShape dataset_name
  let k := shape.channels * shape.height * shape.width
  let img := fun split => (S.images dataset_name split).map (normalizeEx normalize)
  let g := S.torch.seed 1
  if "synth".toList <:+: dataset_name.toList then do
    let (train, s) ← generateData S dataset_name 3000 s
    let (val, s) ← generateData S dataset_name 1000 s
    let (test, s) ← generateData S dataset_name 1000 s
    return (⟨train, val, test⟩, s)
  else if dataset_name = "mnist" ∨ dataset_name = "mnist-32" ∨ dataset_name = "mnist-16" then do
    let (train, val) ← splitRest S.torch g (img "train")
    return (⟨train, val, img "test"⟩, s)
  else if dataset_name = "mnist-bin" then do
    let (train, val) ← splitRest S.torch g (S.mnistBin.take 50000)
    return (⟨train, val, (S.mnistBin.take 60000).drop 50000⟩, s)
  else if dataset_name = "digits" then do
    let p ← digitsParts S k ((S.table "digits").map (·.num)) ((S.table "digits").map (·.label))
    return (p, s)
  else if dataset_name = "fmnist" ∨ dataset_name = "fmnist-32" then do
    let (train, val) ← splitRest S.torch g (img "train")
    return (⟨train, val, img "test"⟩, s)
  else if "celeba".toList <:+: dataset_name.toList then
    return (⟨img "train", img "valid", img "test"⟩, s)
  else if dataset_name = "cifar" then do
    let (train, val) ← splitRest S.torch g (img "train")
    return (⟨train, val, img "test"⟩, s)
  else if "svhn".toList <:+: dataset_name.toList then do
    let (train, val) ← splitBoth S.torch g (img "train")
    if dataset_name = "svhn-extra" then return (⟨train ++ img "extra", val, img "test"⟩, s)
    else return (⟨train, val, img "test"⟩, s)
  else if dataset_name = "lsun" then do
    let (train, val) ← splitBoth S.torch g (img "church_outdoor_train")
    return (⟨train, val, img "church_outdoor_val"⟩, s)
  else if dataset_name = "fake" then
    return (⟨(List.range 3000).map S.fake, (List.range 3000).map S.fake, (List.range 3000).map S.fake⟩, s)
  else if dataset_name = "flowers" then
    return (⟨img "train", img "val", img "test"⟩, s)
  else if dataset_name = "tiny-imagenet" then
    return (⟨img "train", img "val", img "test"⟩, s)
  else if dataset_name = "lfw" then do
    let (train, val) ← splitRest S.torch g (img "train")
    return (⟨train, val, img "test"⟩, s)
  else if (debdShapes.lookup dataset_name).isSome then
    return (⟨← debdPart k (S.debd dataset_name "train"), ← debdPart k (S.debd dataset_name "valid"),
      ← debdPart k (S.debd dataset_name "test")⟩, s)
  else if dataset_name = "20newsgroup" then
    newsParts S k (S.table "20newsgroup train") (S.table "20newsgroup test") s
  else if dataset_name = "covtype" ∨ dataset_name = "breast_cancer" ∨ dataset_name = "wine" then do
    let T := S.table dataset_name
    let p ← scaledParts S k (T.map (·.num)) (labelEncode (T.map (·.label)))
    return (p, s)
  else if dataset_name = "kddcup99" then do
    let T := S.table dataset_name
    let p ← scaledParts S k (T.map fun r => r.num ++ oneHotRow (T.map (·.cat)) r.cat) (labelEncode (T.map (·.label)))
    return (p, s)
  else .error .notImplemented

/-- a `DataLoader` made by `_make_loader` (data.py:866-875), as far as it decides which examples come in which batch. -/
structure Loader (α : Type) where
  dataset : List α
  batch_size : Nat
  /-- `sampler=` of the caller; `none` for the default sampler -/
  sampler : Option TrainingSampler
  shuffle : Bool

/-- `_make_loader` (data.py:858-875).  `RandomSampler` rejects an empty data set, `BatchSampler` a batch size below one. -/
def makeLoader {α : Type} (batch_size : Int) (dataset : List α) (loop shuffle : Bool) (seed : Option Int) : Res (Loader α) := do
  let sampler ← if loop then some <$> TrainingSampler.init dataset.length (seed := seed) else pure none
  let sh := sampler.isNone && shuffle
  require .value (sh = true → dataset ≠ [])
  require .value (0 < batch_size)
  return ⟨dataset, batch_size.toNat, sampler, sh⟩

namespace Loader
variable {α : Type}

/-- `len(loader)`: a `TrainingSampler` has no length. -/
def len (L : Loader α) : Res Nat :=
  match L.sampler with
  | some _ => .error .type
  | none => .ok ((L.dataset.length + L.batch_size - 1) / L.batch_size)

/-- the batches of one pass over a loader with the default sampler.  `drawn` is the seed that `RandomSampler` takes from the global
generator of torch at the begin of the pass. -/
def epoch (G : PermGen) (L : Loader α) (drawn : Int) : List (List α) :=
  loaderBatches L.batch_size
    (subset L.dataset (if L.shuffle then (G.randperm L.dataset.length (G.seed drawn)).1 else List.range L.dataset.length))

/-- batch `k` of a pass over a loader with a `TrainingSampler`; the pass has no end. -/
def loopBatch (G : PermGen) (L : Loader α) (T : TrainingSampler) (k : Nat) : List α :=
  subset L.dataset ((List.range L.batch_size).map fun i => T.item G (k * L.batch_size + i))

end Loader

/-- `build_dataloader` (data.py:845-855): loaders for training, validation and test. -/
def buildDataloader (S : Sources) (dataset_name : String) (batch_size : Int) (loop normalize : Bool) (seed : Option Int) (s : S.σ) :
    Res ((Loader Example × Loader Example × Loader Example) × S.σ) := do
  let (p, s) ← getDatasets S dataset_name normalize s
  let train ← makeLoader batch_size p.train loop true seed
  let val ← makeLoader batch_size p.val false false seed
  let test ← makeLoader batch_size p.test false false seed
  return ((train, val, test), s)

end Einet
end
