import Verif.StateDict
import Verif.BuildWF
import Verif.Diff

/-!
# Lemmas about saving and restoring
-/

open Classical
noncomputable section
namespace Einet
open Tensor

namespace Entry

@[simp] theorem toPar_ofPar (d : LeafDims) (p : Par) : (ofPar d p).toPar = p := rfl

@[simp] theorem shape_ofPar (d : LeafDims) (p : Par) :
    (ofPar d p).shape = [1, d.num_channels, d.num_features, d.num_leaves, d.num_repetitions] := rfl

@[simp] theorem toList_ofList (l : List Nat) : (ofList l).toList = l := by
  unfold toList ofList
  refine List.ext_getElem (by simp [shape, at']) fun i h1 h2 => ?_
  simp [toLong, at', h2]

theorem toRows_ofRows {n : Nat} {l : List (List Nat)} (h : ∀ r ∈ l, r.length = n) : (ofRows n l).toRows = l := by
  unfold toRows ofRows
  refine List.ext_getElem (by simp [shape, at']) fun i h1 h2 => ?_
  have h3 := h _ (List.getElem_mem h2)
  refine List.ext_getElem (by simp [shape, at', h3]) fun j h4 h5 => ?_
  simp [toLong, at', h2, h5]

end Entry

/-! ### Modules that differ in their registered values only -/

/-- same class and keyword arguments. -/
def LeafSpec.Same : LeafSpec → LeafSpec → Prop
  | normal _ _, normal _ _ => True
  | ratNormal a b lo hi _ _, ratNormal a' b' lo' hi' _ _ => a = a' ∧ b = b' ∧ lo = lo' ∧ hi = hi'
  | binomial n _, binomial n' _ => n = n'
  | bernoulli _, bernoulli _ => True
  | categorical n _, categorical n' _ => n = n'
  | _, _ => False

structure SumL.Same (L L' : SumL) : Prop where
  features : L.num_features = L'.num_features
  sumsIn : L.num_sums_in = L'.num_sums_in
  sumsOut : L.num_sums_out = L'.num_sums_out
  reps : L.num_repetitions = L'.num_repetitions
  shape : L.logits.shape = L'.logits.shape

def Layer.Same : Layer → Layer → Prop
  | .sum L, .sum L' => L.Same L'
  | .linsum L, .linsum L' => L.Same L'
  | .linsum2 L, .linsum2 L' => L.Same L'
  | .einsum L, .einsum L' => L.Same L'
  | .rootProduct f r, .rootProduct f' r' => f = f' ∧ r = r'
  | _, _ => False

def Leaf.Same : Leaf → Leaf → Prop
  | .direct _, .direct _ => True
  | .factorized L, .factorized L' => L.num_features_out = L'.num_features_out ∧ L.scopes.shape = L'.scopes.shape
  | .simple L, .simple L' => L.num_features_out = L'.num_features_out ∧ L.permutation.length = L'.permutation.length ∧
      L.inverse_permutation.length = L'.inverse_permutation.length
  | _, _ => False

def SamePerms (F : Nat) : Option (List (List Nat) × List (List Nat)) → Option (List (List Nat) × List (List Nat)) → Prop
  | none, none => True
  | some (p, q), some (p', q') => p.length = p'.length ∧ q.length = q'.length ∧ (∀ r ∈ p, r.length = F) ∧ ∀ r ∈ q, r.length = F
  | _, _ => False

/-- the distribution of the leaf is the one of the specification. -/
def Net.Consistent (N : Net) : Prop := N.model.leaf.base = N.spec.leafOf N.dims

/-- `N` and `N'` differ in registered values only. -/
structure Net.Same (N N' : Net) : Prop where
  features : N.model.num_features = N'.model.num_features
  channels : N.model.num_channels = N'.model.num_channels
  classes : N.model.num_classes = N'.model.num_classes
  leaves : N.model.num_leaves = N'.model.num_leaves
  reps : N.model.num_repetitions = N'.model.num_repetitions
  dims : N.dims = N'.dims
  spec : N.spec.Same N'.spec
  leaf : N.model.leaf.Same N'.model.leaf
  perms : SamePerms N.model.num_features N.model.permutation N'.model.permutation
  layers : List.Forall₂ Layer.Same N.model.layers N'.model.layers
  mixing : 1 < N.model.num_repetitions → N.model.mixing.Same N'.model.mixing
  classRoot : 1 < N.model.num_classes → N.model.classRoot.Same N'.model.classRoot

/-! ### Restoring -/

/-- what `load` puts in the place of an entry. -/
def putOf (sd : Saved) : Put := fun k e => match sd k with
    | some e' => if e'.shape = e.shape then e' else e
    | none => e

theorem putOf_some {sd : Saved} {k : Key} {e e' : Entry} (h : sd k = some e') (hs : e'.shape = e.shape) : putOf sd k e = e' := by
  unfold putOf
  simp only [h]
  exact if_pos hs

theorem putOf_none {sd : Saved} {k : Key} {e : Entry} (h : sd k = none) : putOf sd k e = e := by
  unfold putOf
  simp only [h]

theorem LeafSpec.replace_same {d : LeafDims} {s s' : LeafSpec} (h : s.Same s') {put : String → Entry → Entry}
    (hp : ∀ x e e', s.registered d x = some e' → e'.shape = e.shape → put x e = e') : s'.replace d put = s := by
  cases s <;> cases s' <;> simp only [LeafSpec.Same] at h
  case normal m l m' l' =>
    simp only [replace]
    rw [hp "means" (.ofPar d m') (.ofPar d m) (by simp [registered]) rfl, hp "logvar" (.ofPar d l') (.ofPar d l) (by simp [registered]) rfl]
    rfl
  case ratNormal m s _ _ _ _ m' s' =>
    obtain ⟨rfl, rfl, rfl, rfl⟩ := h
    simp only [replace]
    rw [hp "means" (.ofPar d m') (.ofPar d m) (by simp [registered]) rfl, hp "stds" (.ofPar d s') (.ofPar d s) (by simp [registered]) rfl]
    rfl
  case binomial n l n' l' =>
    subst h
    simp only [replace]
    rw [hp "logits" (.ofPar d l') (.ofPar d l) (by simp [registered]) rfl]
    rfl
  case bernoulli p p' =>
    simp only [replace]
    rw [hp "probs" (.ofPar d p') (.ofPar d p) (by simp [registered]) rfl]
    rfl
  case categorical n l n' l' =>
    subst h
    simp only [replace]
    rw [hp "logits" (.float ⟨[1, d.num_channels, d.num_features, d.num_leaves, d.num_repetitions, n.toNat], fun j =>
        .fin (l' (at' 1 j) (at' 2 j) (at' 3 j) (at' 4 j) (at' 5 j))⟩) (.float ⟨[1, d.num_channels, d.num_features, d.num_leaves, d.num_repetitions, n.toNat], fun j =>
        .fin (l (at' 1 j) (at' 2 j) (at' 3 j) (at' 4 j) (at' 5 j))⟩) (by simp [registered]) rfl]
    rfl

theorem LeafSpec.registered_shape {d : LeafDims} {s s' : LeafSpec} (h : s.Same s') (x : String) :
    (s.registered d x).map Entry.shape = (s'.registered d x).map Entry.shape := by
  unfold registered
  by_cases h0 : x = "marginalization_constant"
  · simp only [h0, if_true]
  simp only [h0, if_false]
  cases s <;> cases s' <;> simp only [LeafSpec.Same] at h <;> try subst h
  all_goals split_ifs <;> rfl

theorem SumL.replace_same {L L' : SumL} (h : L.Same L') {put : String → Entry → Entry} {e : Entry} (he : e = .float L.logits)
    (hp : put "logits" (.float L'.logits) = e) : L'.replace put = L := by
  unfold replace
  rw [hp, he]
  cases L; cases L'
  obtain ⟨h1, h2, h3, h4, -⟩ := h
  simp only at h1 h2 h3 h4
  subst h1 h2 h3 h4
  rfl

theorem SumL.put_logits {L L' : SumL} (h : L.Same L') {put : String → Entry → Entry} {d : Fl}
    (hp : ∀ x e e', L.registered d x = some e' → e'.shape = e.shape → put x e = e') : L'.replace put = L :=
  SumL.replace_same h rfl (hp "logits" _ _ (by simp [registered]) h.shape)

theorem Layer.replace_same {l l' : Layer} (h : l.Same l') {put : String → Entry → Entry} {d : Fl}
    (hp : ∀ x e e', l.registered d x = some e' → e'.shape = e.shape → put x e = e') : l'.replace put = l := by
  cases l <;> cases l' <;> simp only [Layer.Same] at h
  case einsum L L' =>
    exact congrArg _ (SumL.put_logits h (d := d) fun x e e' hx hs => hp x e e' (by simp [Layer.registered, hx]) hs)
  case rootProduct => obtain ⟨rfl, rfl⟩ := h; rfl
  all_goals exact congrArg _ (SumL.put_logits h (d := d) hp)

theorem SumL.registered_shape {L L' : SumL} (h : L.Same L') (d d' : Fl) (x : String) :
    (L.registered d x).map Entry.shape = (L'.registered d' x).map Entry.shape := by
  unfold registered
  split_ifs
  · exact congrArg some h.shape
  · rfl
  · rfl

theorem Layer.registered_shape {l l' : Layer} (h : l.Same l') (d d' : Fl) (x : String) :
    (l.registered d x).map Entry.shape = (l'.registered d' x).map Entry.shape := by
  cases l <;> cases l' <;> simp only [Layer.Same] at h
  case einsum L L' =>
    have := SumL.registered_shape h d d' x
    unfold Layer.registered
    simp only
    rw [h.sumsIn]
    cases h1 : L.registered d x <;> cases h2 : L'.registered d' x <;> simp_all
  case rootProduct => rfl
  all_goals exact SumL.registered_shape h d d' x

/-- two models that differ in modules that are not used only. -/
structure Model.Agree (M M' : Model) : Prop where
  eq : M = { M' with mixing := M.mixing, classRoot := M.classRoot }
  mixing : 1 < M'.num_repetitions → M.mixing = M'.mixing
  classRoot : 1 < M'.num_classes → M.classRoot = M'.classRoot

theorem Model.eq_of_fields {M M' : Model} (h1 : M.num_features = M'.num_features) (h2 : M.num_channels = M'.num_channels)
    (h3 : M.num_classes = M'.num_classes) (h4 : M.num_leaves = M'.num_leaves) (h5 : M.num_repetitions = M'.num_repetitions)
    (h6 : M.leaf = M'.leaf) (h7 : M.permutation = M'.permutation) (h8 : M.layers = M'.layers) :
    M = { M' with mixing := M.mixing, classRoot := M.classRoot } := by
  cases M; cases M'
  simp only at h1 h2 h3 h4 h5 h6 h7 h8
  subst h1 h2 h3 h4 h5 h6 h7 h8
  rfl

theorem forall₂_getElem? {α : Type} {r : α → α → Prop} {l l' : List α} (h : List.Forall₂ r l l') (i : Nat) :
    (l[i]? = none ∧ l'[i]? = none) ∨ ∃ a b, l[i]? = some a ∧ l'[i]? = some b ∧ r a b := by
  induction h generalizing i with
  | nil => left; simp
  | cons h _ ih =>
    cases i with
    | zero => right; exact ⟨_, _, rfl, rfl, h⟩
    | succ i => simpa using ih i

namespace Net
variable {N N' : Net}

theorem Same.fits (h : N.Same N') : N'.Fits N.stateDict := by
  intro k
  have hd := h.dims
  cases k with
  | leaf x =>
    have hl := h.leaf
    unfold stateDict
    cases h1 : N.model.leaf <;> cases h2 : N'.model.leaf <;> simp only [h1, h2, Leaf.Same] at hl ⊢
    · rw [← hd]; exact (LeafSpec.registered_shape h.spec x).symm
    · split_ifs
      · exact congrArg some hl.2.symm
      · rfl
    · split_ifs
      · exact congrArg some (by simp only [Entry.ofList, Entry.shape, hl.2.1])
      · exact congrArg some (by simp only [Entry.ofList, Entry.shape, hl.2.2])
      · rfl
  | base x =>
    have hl := h.leaf
    unfold stateDict
    cases h1 : N.model.leaf <;> cases h2 : N'.model.leaf <;> simp only [h1, h2, Leaf.Same] at hl ⊢
    all_goals rw [← hd]; exact (LeafSpec.registered_shape h.spec x).symm
  | layer i x =>
    unfold stateDict
    rcases forall₂_getElem? h.layers i with ⟨h1, h2⟩ | ⟨a, b, h1, h2, h3⟩
    · simp only [h1, h2]
    · simp only [h1, h2]
      exact (Layer.registered_shape h3 _ _ x).symm
  | mixing x =>
    simp only [stateDict]
    rw [← h.reps]
    split_ifs with h1
    · exact (SumL.registered_shape (h.mixing h1) _ _ x).symm
    · rfl
  | classRoot x =>
    simp only [stateDict]
    rw [← h.classes]
    split_ifs with h1
    · rfl
    · exact (SumL.registered_shape (h.classRoot h1) _ _ x).symm
    · rfl
  | top x =>
    have hp := h.perms
    simp only [stateDict]
    rw [← h.features]
    rcases h1 : N.model.permutation with _ | ⟨p, q⟩ <;> rcases h2 : N'.model.permutation with _ | ⟨p', q'⟩ <;>
      simp only [h1, h2, SamePerms] at hp ⊢
    split_ifs
    · exact congrArg some (by simp only [Entry.ofRows, Entry.shape, hp.1])
    · exact congrArg some (by simp only [Entry.ofRows, Entry.shape, hp.2.1])
    · rfl

theorem Same.put (sd : Saved) {k : Key} {e e' : Entry} (h : sd k = some e') (hs : e'.shape = e.shape) : putOf sd k e = e' :=
  putOf_some h hs

theorem Same.spec_eq (h : N.Same N') :
    N'.replaceSpec (putOf N.stateDict) = N.spec := by
  unfold replaceSpec
  refine LeafSpec.replace_same h.spec fun x e e' hx hs => putOf_some ?_ hs
  rw [← h.dims] at hx
  have hl := h.leaf
  cases h1 : N.model.leaf <;> cases h2 : N'.model.leaf <;> simp only [h1, h2, Leaf.Same] at hl ⊢ <;> simpa only [stateDict, h1] using hx

theorem Same.leaf_eq (h : N.Same N') (hc : N.Consistent) : (N'.replace (putOf N.stateDict)).model.leaf = N.model.leaf := by
  have hl := h.leaf
  have hb : N.spec.leafOf N'.dims = N.model.leaf.base := by rw [← h.dims]; exact hc.symm
  have hs := h.spec_eq
  unfold replace
  simp only [hs, hb]
  cases h1 : N.model.leaf <;> cases h2 : N'.model.leaf <;> simp only [h1, h2, Leaf.Same] at hl ⊢
  · rfl
  · rename_i L L'
    rw [putOf_some (sd := N.stateDict) (e' := .float L.scopes) (by simp only [stateDict, h1, if_true])
      (e := .float L'.scopes) hl.2]
    obtain ⟨_, _, _⟩ := L
    obtain ⟨_, _, _⟩ := L'
    obtain rfl := hl.1
    rfl
  · rename_i L L'
    rw [putOf_some (sd := N.stateDict) (e' := .ofList L.permutation) (by simp only [stateDict, h1, if_true])
        (by simp only [Entry.ofList, Entry.shape, hl.2.1]),
      putOf_some (sd := N.stateDict) (e' := .ofList L.inverse_permutation) (by simp [stateDict, h1])
        (by simp only [Entry.ofList, Entry.shape, hl.2.2])]
    obtain ⟨_, _, _, _⟩ := L
    obtain ⟨_, _, _, _⟩ := L'
    obtain rfl := hl.1
    simp [Leaf.base]

theorem Same.perm_eq (h : N.Same N') : (N'.replace (putOf N.stateDict)).model.permutation = N.model.permutation := by
  have hp := h.perms
  unfold replace
  simp only
  rcases h1 : N.model.permutation with _ | ⟨p, q⟩ <;> rcases h2 : N'.model.permutation with _ | ⟨p', q'⟩ <;>
    simp only [h1, h2, SamePerms] at hp ⊢
  · rfl
  · simp only [Option.map_some]
    rw [putOf_some (sd := N.stateDict) (e' := .ofRows N.model.num_features p) (by simp only [stateDict, h1, if_true])
        (by simp only [Entry.ofRows, Entry.shape, hp.1, h.features]),
      putOf_some (sd := N.stateDict) (e' := .ofRows N.model.num_features q) (by simp [stateDict, h1])
        (by simp only [Entry.ofRows, Entry.shape, hp.2.1, h.features]),
      Entry.toRows_ofRows hp.2.2.1, Entry.toRows_ofRows hp.2.2.2]

theorem Same.layers_eq (h : N.Same N') : (N'.replace (putOf N.stateDict)).model.layers = N.model.layers := by
  unfold replace
  simp only
  refine List.ext_getElem? fun i => ?_
  rw [List.getElem?_mapIdx]
  rcases forall₂_getElem? h.layers i with ⟨h1, h2⟩ | ⟨a, b, h1, h2, h3⟩
  · rw [h1, h2]; rfl
  · rw [h1, h2, Option.map_some]
    refine congrArg some (Layer.replace_same h3 (d := N.drop i) fun x e e' hx hs => putOf_some ?_ hs)
    simp only [stateDict, h1, hx]

/-- after loading the state of `N` the model is the one of `N`. -/
theorem Same.agree (h : N.Same N') (hc : N.Consistent) : (N'.replace (putOf N.stateDict)).model.Agree N.model where
  eq := by
    have h1 := h.leaf_eq hc
    have h2 := h.perm_eq
    have h3 := h.layers_eq
    exact Model.eq_of_fields h.features.symm h.channels.symm h.classes.symm h.leaves.symm h.reps.symm h1 h2 h3
  mixing hr := by
    show (if _ then _ else _) = _
    rw [← h.reps, if_pos hr]
    refine SumL.put_logits (h.mixing hr) (d := N.mixDrop) fun x e e' hx hs => putOf_some ?_ hs
    simp only [stateDict, if_pos hr, hx]
  classRoot hr := by
    show (if _ then _ else _) = _
    rw [← h.classes, if_pos hr]
    refine SumL.replace_same (h.classRoot hr) rfl (putOf_some (sd := N.stateDict) ?_ (h.classRoot hr).shape)
    simp [stateDict, if_pos hr, SumL.registered]

end Net

/-! ### Models that agree -/

namespace Model
variable {M M' : Model}

theorem Agree.run (h : M.Agree M') (x : Tensor Fl) (s : Option Scopes) : M.run x s = M'.run x s := by
  have hr : ∀ y, M.mixReps y = M'.mixReps y := by
    intro y
    unfold mixReps
    rw [h.eq]
    simp only
    split_ifs with h1
    · rw [h.mixing h1]
    · rfl
  have hroot : ∀ y, M.root y = M'.root y := by
    intro y
    unfold root
    rw [hr, h.eq]
  have hu : ∀ y, M.upper y = M'.upper y := by
    intro y
    unfold upper
    simp only [hroot]
    rw [h.eq]
    rfl
  unfold Model.run
  simp only [hu]
  rw [h.eq]
  rfl

theorem Agree.forward (h : M.Agree M') (x : Tensor Fl) (s : Option Scopes) : M.forward x s = M'.forward x s := by
  unfold Model.forward
  rw [h.run]

theorem Agree.posterior (h : M.Agree M') (x : Tensor Fl) : M.posterior x = M'.posterior x := by
  unfold Model.posterior
  rw [h.forward, h.eq]

theorem Agree.sample (h : M.Agree M') (a : SampleArgs) : M.sample a = M'.sample a := by
  have h1 : M.evidenceCaches a = M'.evidenceCaches a := by
    unfold evidenceCaches
    simp only [h.run]
  have h2 : ∀ ctx, M.pickClass a ctx = M'.pickClass a ctx := by
    intro ctx
    unfold pickClass
    rw [h.eq]
    simp only
    split_ifs with hk
    · rw [h.classRoot hk]
    · rfl
  have h3 : ∀ c ctx n, M.pickRep c ctx n = M'.pickRep c ctx n := by
    intro c ctx n
    unfold pickRep
    rw [h.eq]
    simp only
    split_ifs with hk
    · rw [h.mixing hk]
    · rfl
  have h4 : ∀ c, M.samplePath a c = M'.samplePath a c := by
    intro c
    unfold samplePath
    simp only [h2, h3]
    rw [h.eq]
    rfl
  unfold Model.sample
  simp only [h1, h4]
  rw [h.eq]
  rfl

end Model

end Einet
