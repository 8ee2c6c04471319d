import Verif.DataFacts
import Verif.PropsSampler

/-!
# C71: data loaders; C72: scaling of shapes
-/

open Classical
noncomputable section
namespace Einet

theorem ceil_bounds {n b : Nat} (hb : 0 < b) : n ≤ (n + b - 1) / b * b ∧ (n + b - 1) / b * b < n + b := by
  have h1 := Nat.div_add_mod (n + b - 1) b
  have h2 := Nat.mod_lt (n + b - 1) hb
  rw [mul_comm] at h1
  omega

theorem loaderBatches_flatten {α : Type} {b : Nat} (hb : 0 < b) (l : List α) : (loaderBatches b l).flatten = l := by
  have key : ∀ q : Nat, ((List.range q).map fun j => (l.drop (j * b)).take b).flatten = l.take (q * b) := by
    intro q
    induction q with
    | zero => simp
    | succ q ih => rw [List.range_succ, List.map_append, List.flatten_append, ih, Nat.succ_mul, List.take_add]; simp
  rw [loaderBatches, key, List.take_of_length_le (ceil_bounds hb).1]

namespace Props

/-- Specification: `Bs` are the examples `l` in this order in batches of `b` examples; only the last batch may be smaller, and none is
empty. -/
def Batches {α : Type} (b : Nat) (Bs : List (List α)) (l : List α) : Prop :=
  Bs.flatten = l ∧ (∀ j, j + 1 < Bs.length → ∃ B, Bs[j]? = some B ∧ B.length = b) ∧ ∀ B ∈ Bs, 0 < B.length ∧ B.length ≤ b

theorem batches_loader {α : Type} {b : Nat} (hb : 0 < b) (l : List α) : Batches b (loaderBatches b l) l := by
  obtain ⟨h1, h2⟩ := ceil_bounds (n := l.length) hb
  refine ⟨loaderBatches_flatten hb l, fun j hj => ?_, fun B hB => ?_⟩
  · rw [loaderBatches, List.length_map, List.length_range] at hj
    refine ⟨(l.drop (j * b)).take b, ?_, ?_⟩
    · rw [loaderBatches, List.getElem?_map, List.getElem?_range (by omega)]; rfl
    · have h3 : (j + 1 + 1) * b ≤ (l.length + b - 1) / b * b := Nat.mul_le_mul_right _ hj
      have e : (j + 1 + 1) * b = j * b + b + b := by ring
      rw [List.length_take, List.length_drop]
      omega
  · obtain ⟨j, hj, rfl⟩ := List.mem_map.1 hB
    have h3 : (j + 1) * b ≤ (l.length + b - 1) / b * b := Nat.mul_le_mul_right _ (List.mem_range.1 hj)
    have e : (j + 1) * b = j * b + b := by ring
    rw [List.length_take, List.length_drop]
    omega

/-- **C71**, validation and test: every pass over a loader without shuffling yields the data set in its order, whole, in batches of the
given size. -/
theorem C71_eval (G : PermGen) {α : Type} {b : Int} {ds : List α} {seed : Option Int} {L : Loader α}
    (h : makeLoader b ds false false seed = .ok L) (drawn : Int) :
    Batches b.toNat (L.epoch G drawn) ds ∧ L.len = .ok (L.epoch G drawn).length := by
  unfold makeLoader at h
  obtain ⟨_, h0, h⟩ := bind_ok h
  cases h0
  obtain ⟨_, -, h⟩ := bind_ok h
  obtain ⟨_, h2, h⟩ := bind_ok h
  rw [require_ok_iff] at h2
  cases h
  have hb : 0 < b.toNat := by omega
  have e : (subset ds (List.range ds.length)) = ds := subset_range ds
  simp only [Loader.epoch, Loader.len, Option.isNone_none, Bool.and_false, Bool.false_eq_true, if_false, e]
  exact ⟨batches_loader hb ds, by rw [loaderBatches, List.length_map, List.length_range]⟩

/-- **C71**, training: every pass over a shuffling loader yields every example exactly once, in batches of the given size, and
`len(loader)` is their number. -/
theorem C71_train (G : PermGen) {α : Type} {b : Int} {ds : List α} {seed : Option Int} {L : Loader α}
    (h : makeLoader b ds false true seed = .ok L) (drawn : Int) :
    (∃ order : List α, order.Perm ds ∧ Batches b.toNat (L.epoch G drawn) order) ∧ L.len = .ok (L.epoch G drawn).length := by
  unfold makeLoader at h
  obtain ⟨_, h0, h⟩ := bind_ok h
  cases h0
  obtain ⟨_, -, h⟩ := bind_ok h
  obtain ⟨_, h2, h⟩ := bind_ok h
  rw [require_ok_iff] at h2
  cases h
  have hb : 0 < b.toNat := by omega
  have hp : (subset ds (G.randperm ds.length (G.seed drawn)).1).Perm ds := subset_perm (G.perm _ _)
  simp only [Loader.epoch, Loader.len, Option.isNone_none, Bool.and_true, if_true]
  refine ⟨⟨_, hp, batches_loader hb _⟩, ?_⟩
  rw [loaderBatches, List.length_map, List.length_range, hp.length_eq]

/-- **C71**, endless training: with `loop` every batch is full, and at every moment the examples have been used equally often up to one:
the positions of the examples in the first `m` batches contain each position `m * b / n` times or once more.  The loader has no
length. -/
theorem C71_loop (G : PermGen) {α : Type} {b : Int} {ds : List α} {shuffle : Bool} {seed : Option Int} {L : Loader α}
    (h : makeLoader b ds true shuffle seed = .ok L) : ∃ T, L.sampler = some T ∧ L.len = .error .type ∧
      (∀ k, (L.loopBatch G T k).length = b.toNat) ∧
      ∀ m, ∃ pos : List Nat, ((List.range m).map (L.loopBatch G T)).flatten = pos.filterMap (ds[·]?) ∧ pos.length = m * b.toNat ∧
        ∀ j < ds.length, m * b.toNat / ds.length ≤ pos.count j ∧ pos.count j ≤ m * b.toNat / ds.length + 1 := by
  unfold makeLoader at h
  obtain ⟨o, h0, h⟩ := bind_ok h
  obtain ⟨_, -, h⟩ := bind_ok h
  obtain ⟨_, h2, h⟩ := bind_ok h
  cases hT : TrainingSampler.init ds.length true seed with
  | error e => rw [hT] at h0; cases h0
  | ok T =>
  rw [hT] at h0
  cases h0
  cases h
  have hitem : ∀ i, T.item G i < ds.length := by
    intro i
    have hn : 0 < ds.length := by
      have := (TrainingSampler.init_ok hT).1
      have := (TrainingSampler.init_ok hT).2.1
      omega
    have hb := C42_block G hT (i / ds.length)
    rw [Int.toNat_natCast] at hb
    have hm : T.item G (i / ds.length * ds.length + i % ds.length) ∈
        (List.range ds.length).map fun j => T.item G (i / ds.length * ds.length + j) :=
      List.mem_map.2 ⟨i % ds.length, List.mem_range.2 (Nat.mod_lt _ hn), rfl⟩
    rw [Nat.div_add_mod'] at hm
    exact List.mem_range.1 (hb.mem_iff.1 hm)
  refine ⟨T, rfl, rfl, fun k => ?_, fun m => ⟨(List.range (m * b.toNat)).map (T.item G), ?_, by simp, fun j hj => ?_⟩⟩
  · unfold Loader.loopBatch
    rw [subset_length fun i hi => ?_, List.length_map, List.length_range]
    obtain ⟨j, -, rfl⟩ := List.mem_map.1 hi
    exact hitem _
  · induction m with
    | zero => simp
    | succ m ih =>
      rw [List.range_succ, List.map_append, List.flatten_append, ih, Nat.succ_mul, List.range_add, List.map_append,
        List.filterMap_append, List.map_map]
      simp [Loader.loopBatch, subset, Function.comp_def]
  · have := C42_counts G hT (m * b.toNat) j (by exact_mod_cast hj)
    rwa [Int.toNat_natCast] at this

/-- **C71**, failures: a loader is refused exactly for a batch size below one, and for an empty data set that is to be shuffled or
looped over. -/
theorem C71_fail {α : Type} (b : Int) (ds : List α) (loop shuffle : Bool) (seed : Option Int) :
    (∃ L, makeLoader b ds loop shuffle seed = .ok L) ↔ 0 < b ∧ (ds = [] → loop = false ∧ shuffle = false) := by
  unfold makeLoader
  rcases ds with - | ⟨a, ds⟩
  · cases loop <;> cases shuffle <;> simp [TrainingSampler.init, require] <;> (try split_ifs) <;> simp_all
  · have hT : TrainingSampler.init ((a :: ds).length : Int) true seed = .ok ⟨(a :: ds).length, true, seed.getD 0, 0, 1⟩ := by
      rw [TrainingSampler.init, if_pos (by simp)]; simp
    cases loop
    · cases shuffle <;> by_cases hb : 0 < b <;> simp [require, hb]
    · simp only [if_true, hT]
      by_cases hb : 0 < b <;> simp [require, hb]

/-- **C71**, the seed: the order of an endless loader is a function of the data set, the batch size and the seed. -/
theorem C71_seed {α : Type} {b : Int} {ds : List α} {sh sh' : Bool} {seed : Option Int} {L L' : Loader α}
    (h : makeLoader b ds true sh seed = .ok L) (h' : makeLoader b ds true sh' seed = .ok L') : L = L' := by
  unfold makeLoader at h h'
  obtain ⟨o, h0, h⟩ := bind_ok h
  obtain ⟨_, -, h⟩ := bind_ok h
  obtain ⟨_, -, h⟩ := bind_ok h
  obtain ⟨o', h0', h'⟩ := bind_ok h'
  obtain ⟨_, -, h'⟩ := bind_ok h'
  obtain ⟨_, -, h'⟩ := bind_ok h'
  rw [h0] at h0'
  cases h0'
  cases hT : TrainingSampler.init ds.length true seed with
  | error e => rw [hT] at h0; cases h0
  | ok T =>
    rw [hT] at h0
    cases h0
    cases h
    cases h'
    rfl

/-- a generator whose permutations depend on the seed: an even seed keeps the order, an odd one reverses it. -/
def exPermGen : PermGen where
  σ := Int
  seed := id
  randperm n g := (if g % 2 = 0 then List.range n else (List.range n).reverse, g)
  perm n g := by
    dsimp only
    split_ifs
    · exact .rfl
    · exact List.reverse_perm _

/-- **C71 is false for the seed without `loop`**, as in both scripts: the loader is the same for all seeds, and its order follows the
global generator. -/
theorem C71_refuted_seed : (∀ (α : Type) (b : Int) (ds : List α) (sh : Bool) (seed seed' : Option Int),
      makeLoader b ds false sh seed = makeLoader b ds false sh seed') ∧
    ∃ (G : PermGen) (L : Loader Nat) (drawn drawn' : Int), makeLoader 2 [5, 6, 7] false true (some 1) = .ok L ∧
      L.epoch G drawn ≠ L.epoch G drawn' :=
  ⟨fun _ _ _ _ _ _ => rfl, exPermGen, ⟨[5, 6, 7], 2, none, true⟩, 0, 1, by simp [makeLoader, require], by
    simp [Loader.epoch, exPermGen, subset, loaderBatches, List.range_succ]⟩

/-- **C72.** Scaling a shape up by a factor of at least one and down by the same factor gives the shape back; channels are kept. -/
theorem C72 (s : ImgShape) {q : ℚ} (hq : 1 ≤ q) : (s.upscale q).downscale q = s ∧ (s.upscale q).channels = s.channels := by
  have key : ∀ n : Nat, (pyRound ((((pyRound (n * q)).toNat : Nat) : ℚ) / q)).toNat = n := by
    intro n
    have h1 := pyRound_near ((n : ℚ) * q)
    have h0 : (0 : ℤ) ≤ pyRound (n * q) := by
      rcases Nat.eq_zero_or_pos n with rfl | hn
      · rw [Nat.cast_zero, zero_mul]; exact (pyRound_int 0).ge.trans' (by simp)
      · have : (1 : ℚ) ≤ n := by exact_mod_cast hn
        have h2 : (1 : ℚ) ≤ n * q := by nlinarith
        rw [abs_le] at h1
        have : (0 : ℚ) < pyRound (n * q) := by linarith [h1.1]
        exact_mod_cast this.le
    have hc : (((pyRound (n * q)).toNat : Nat) : ℚ) = (pyRound (n * q) : ℚ) := by
      have : (((pyRound (n * q)).toNat : Nat) : ℤ) = pyRound (n * q) := Int.toNat_of_nonneg h0
      exact_mod_cast this
    rw [hc]
    have hz : pyRound ((pyRound (n * q) : ℚ) / q) = n := by
      rcases eq_or_lt_of_le hq with rfl | hq1
      · rw [mul_one, div_one, pyRound_int]
        exact_mod_cast pyRound_int n
      · apply pyRound_unique
        have hq0 : 0 < q := by linarith
        have e : ((n : ℤ) : ℚ) - (pyRound (n * q) : ℚ) / q = -(((pyRound (n * q) : ℚ) - n * q) / q) := by
          field_simp; push_cast; ring
        rw [e, abs_neg, abs_div, abs_of_pos hq0, div_lt_iff₀ hq0]
        linarith
    rw [hz]; simp
  refine ⟨?_, rfl⟩
  cases s
  simp only [ImgShape.upscale, ImgShape.downscale, key]

/-- the order matters: scaling down first loses the remainder. -/
theorem C72_refuted_down : ((ImgShape.mk 1 3 3).downscale 2).upscale 2 ≠ ⟨1, 3, 3⟩ := by
  have h : pyRound (3 / 2) = 2 := by
    have hf : ⌊(3 / 2 : ℚ)⌋ = 1 := by norm_num
    simp [pyRound, hf]; norm_num
  have h' : pyRound (2 * 2) = 4 := by exact_mod_cast pyRound_int 4
  simp [ImgShape.downscale, ImgShape.upscale, h, h']

/-! ### instances -/

example : ∃ L, makeLoader 2 [5, 6, 7] false false none = .ok L ∧ L.epoch exPermGen 0 = [[5, 6], [7]] :=
  ⟨⟨[5, 6, 7], 2, none, false⟩, by simp [makeLoader, require], by simp [Loader.epoch, subset, loaderBatches, List.range_succ]⟩

example : ∃ L, makeLoader 2 [5, 6, 7] false true none = .ok L ∧ L.epoch exPermGen 1 = [[7, 6], [5]] :=
  ⟨⟨[5, 6, 7], 2, none, true⟩, by simp [makeLoader, require], by simp [Loader.epoch, exPermGen, subset, loaderBatches, List.range_succ]⟩

example : ∃ L, makeLoader 2 [5, 6, 7] true true (some 3) = .ok L := (C71_fail 2 [5, 6, 7] true true (some 3)).2 ⟨by norm_num, by simp⟩

example : (ImgShape.mk 3 32 32).upscale 2 = ⟨3, 64, 64⟩ := by
  have h : pyRound (32 * 2) = 64 := by exact_mod_cast pyRound_int 64
  simp [ImgShape.upscale, h]

end Props
end Einet
end
