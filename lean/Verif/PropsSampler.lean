import Verif.Sampler
import Mathlib.Data.List.Range
import Mathlib.Tactic.Ring

/-!
# C42: the training sampler visits every index equally often
-/

namespace Einet
namespace TrainingSampler

variable {G : PermGen} {T : TrainingSampler}

theorem block_perm (g : G.σ) : (T.block G g).1.Perm (List.range T.size) := by
  unfold block
  split
  · exact G.perm _ _
  · exact .refl _

/-- items yielded one after another from a suspended generator. -/
def run (G : PermGen) (T : TrainingSampler) : Nat → G.σ × List Nat → List Nat
  | 0, _ => []
  | n + 1, s => (T.next G s).1 :: run G T n (T.next G s).2

/-- the suspended generator after that. -/
def endOf (G : PermGen) (T : TrainingSampler) : Nat → G.σ × List Nat → G.σ × List Nat
  | 0, s => s
  | n + 1, s => endOf G T n (T.next G s).2

theorem run_pending (g : G.σ) (l : List Nat) : run G T l.length (g, l) = l ∧ endOf G T l.length (g, l) = (g, []) := by
  induction l with
  | nil => exact ⟨rfl, rfl⟩
  | cons a l ih => exact ⟨by simpa [run, next] using ih.1, by simpa [endOf, next] using ih.2⟩

theorem next_empty (hs : 0 < T.size) (g : G.σ) :
    T.next G (g, []) = T.next G ((T.block G g).2, (T.block G g).1) := by
  have hp := (block_perm (T := T) g).length_eq
  rw [List.length_range] at hp
  rcases hb : T.block G g with ⟨l, g'⟩
  rw [hb] at hp
  cases l with
  | nil => simp only [List.length_nil] at hp; omega
  | cons a l => simp [next, hb]

theorem run_block (hs : 0 < T.size) (g : G.σ) :
    run G T T.size (g, []) = (T.block G g).1 ∧ endOf G T T.size (g, []) = ((T.block G g).2, []) := by
  have hp := (block_perm (T := T) g).length_eq
  rw [List.length_range] at hp
  have key : ∀ n, 0 < n → run G T n (g, []) = run G T n ((T.block G g).2, (T.block G g).1) ∧
      endOf G T n (g, []) = endOf G T n ((T.block G g).2, (T.block G g).1) := by
    intro n hn
    cases n with
    | zero => omega
    | succ n => exact ⟨by simp only [run, next_empty hs], by simp only [endOf, next_empty hs]⟩
  obtain ⟨h1, h2⟩ := key _ hs
  rw [h1, h2, ← hp]
  exact run_pending _ _

theorem after_add (n m : Nat) : T.after G (n + m) = endOf G T m (T.after G n) := by
  induction m generalizing n with
  | zero => rfl
  | succ m ih => rw [show n + (m + 1) = (n + 1) + m by omega, ih]; rfl

theorem run_eq (n m : Nat) :
    run G T m (T.after G n) = (List.range m).map fun i => (T.next G (T.after G (n + i))).1 := by
  induction m generalizing n with
  | zero => rfl
  | succ m ih =>
    rw [List.range_succ_eq_map, List.map_cons, List.map_map]
    show _ :: run G T m (T.after G (n + 1)) = _
    rw [ih]
    congr 1
    refine List.map_congr_left fun i _ => ?_
    simp only [Function.comp_apply]
    congr 3
    omega

/-- between two blocks nothing is pending. -/
theorem after_block (hs : 0 < T.size) (b : Nat) : (T.after G (b * T.size)).2 = [] := by
  induction b with
  | zero => simp [after]
  | succ b ih =>
    have e : T.after G (b * T.size) = ((T.after G (b * T.size)).1, []) := by rw [← ih]
    rw [Nat.succ_mul, after_add, e, (run_block hs _).2]

theorem block_items (hs : 0 < T.size) (hr : T.rank = 0) (hw : T.worldSize = 1) (b : Nat) :
    (List.range T.size).map (fun i => T.item G (b * T.size + i)) = (T.block G (T.after G (b * T.size)).1).1 := by
  have e : T.after G (b * T.size) = ((T.after G (b * T.size)).1, []) := by rw [← after_block hs b]
  rw [← (run_block hs _).1, ← e, run_eq]
  refine List.map_congr_left fun i _ => ?_
  simp [item, hr, hw]

theorem init_ok {size : Int} {sh : Bool} {seed : Option Int} (h : init size sh seed = .ok T) :
    0 < T.size ∧ (T.size : Int) = size ∧ T.rank = 0 ∧ T.worldSize = 1 ∧ T.shuffle = sh := by
  unfold init at h
  split_ifs at h with hp
  cases h
  exact ⟨by simp; omega, by simp; omega, rfl, rfl, rfl⟩

end TrainingSampler

namespace Props
open TrainingSampler

/-- **C42.** Every consecutive block of dataset length is a rearrangement of all indices: whatever the generator, the
seed and the dataset length. -/
theorem C42_block (G : PermGen) {size : Int} {sh : Bool} {seed : Option Int} {T : TrainingSampler}
    (h : init size sh seed = .ok T) (b : Nat) :
    ((List.range size.toNat).map fun i => T.item G (b * size.toNat + i)).Perm (List.range size.toNat) := by
  obtain ⟨hs, hz, hr, hw, -⟩ := init_ok h
  have e : size.toNat = T.size := by omega
  rw [e, block_items hs hr hw]
  exact block_perm _

/-- number of times index `j` is among the first `m` items. -/
def visits (G : PermGen) (T : TrainingSampler) (m j : Nat) : Nat := ((List.range m).map (T.item G)).count j

/-- items from position `n` on, `m` of them, together with those before. -/
theorem visits_add (G : PermGen) (T : TrainingSampler) (n m j : Nat) :
    visits G T (n + m) j = visits G T n j + ((List.range m).map fun i => T.item G (n + i)).count j := by
  unfold visits
  rw [List.range_add, List.map_append, List.count_append, List.map_map]
  rfl

/-- **C42.** At every moment two indices have been visited equally often, up to one visit: after `m` items each index of the
dataset was seen `m / size` or `m / size + 1` times. -/
theorem C42_counts (G : PermGen) {size : Int} {sh : Bool} {seed : Option Int} {T : TrainingSampler}
    (h : init size sh seed = .ok T) (m j : Nat) (hj : (j : Int) < size) :
    m / size.toNat ≤ visits G T m j ∧ visits G T m j ≤ m / size.toNat + 1 := by
  obtain ⟨hs, hz, hr, hw, -⟩ := init_ok h
  have e : size.toNat = T.size := by omega
  have one : (List.range T.size).count j = 1 :=
    List.count_eq_one_of_mem List.nodup_range (List.mem_range.2 (by omega))
  have full : ∀ b, visits G T (b * T.size) j = b := by
    intro b
    induction b with
    | zero => simp [visits]
    | succ b ih =>
      have := (C42_block G h b).count_eq j
      rw [e] at this
      rw [Nat.succ_mul, visits_add, ih, this, one]
  rw [e]
  have hm : m = m / T.size * T.size + m % T.size := (Nat.div_add_mod' m T.size).symm
  have hlt := Nat.mod_lt m hs
  generalize m / T.size = b at *
  generalize m % T.size = r at *
  subst hm
  rw [visits_add, full]
  refine ⟨by omega, ?_⟩
  have hb := (C42_block G h b).count_eq j
  have hsplit : List.range T.size = List.range r ++ (List.range (T.size - r)).map (r + ·) := by
    rw [← List.range_add]; congr 1; omega
  rw [e, one, hsplit, List.map_append, List.count_append] at hb
  omega

/-- **C42.** Without shuffling the indices come in order, over and over. -/
theorem C42_order (G : PermGen) {size : Int} {seed : Option Int} {T : TrainingSampler}
    (h : init size false seed = .ok T) (k : Nat) : T.item G k = k % size.toNat := by
  obtain ⟨hs, hz, hr, hw, hsh⟩ := init_ok h
  have e : size.toNat = T.size := by omega
  have hb := block_items (G := G) hs hr hw (k / T.size)
  have hk := Nat.mod_lt k hs
  simp only [block, hsh] at hb
  have := congrArg (fun l : List Nat => l[k % T.size]?) hb
  simp [hk, Nat.div_add_mod'] at this
  rw [e, this]

/-- the results of successive calls of `torch.randperm(n)` from a given state of the generator. -/
def calls (G : PermGen) (n : Nat) : Nat → G.σ → List Nat
  | 0, g => (G.randperm n g).1
  | b + 1, g => calls G n b (G.randperm n g).2

/-- **C42.** With shuffling, block `b` is the result of call `b` of `torch.randperm` on a generator that was seeded with the
given seed (0 if none): the stream is reproducible, and a new order is drawn for each block. -/
theorem C42_seed (G : PermGen) {size : Int} {seed : Option Int} {T : TrainingSampler}
    (h : init size true seed = .ok T) (b : Nat) :
    ((List.range size.toNat).map fun i => T.item G (b * size.toNat + i)) = calls G size.toNat b (G.seed (seed.getD 0)) := by
  obtain ⟨hs, hz, hr, hw, hsh⟩ := init_ok h
  have e : size.toNat = T.size := by omega
  have hseed : T.seed = seed.getD 0 := by
    unfold init at h
    split_ifs at h
    cases h
    rfl
  rw [e, block_items hs hr hw, ← hseed]
  have key : ∀ b, T.block G (T.after G (b * T.size)).1 = G.randperm T.size (T.after G (b * T.size)).1 := fun b => by
    simp [block, hsh]
  rw [key]
  have step : ∀ b, (T.after G ((b + 1) * T.size)).1 = (G.randperm T.size (T.after G (b * T.size)).1).2 := by
    intro b
    have e : T.after G (b * T.size) = ((T.after G (b * T.size)).1, []) := by rw [← after_block hs b]
    rw [Nat.succ_mul, after_add]
    conv_lhs => rw [e]
    rw [(run_block hs _).2, key]
  have gen : ∀ b k, calls G T.size b (T.after G (k * T.size)).1 = (G.randperm T.size (T.after G ((k + b) * T.size)).1).1 := by
    intro b
    induction b with
    | zero => intro k; rfl
    | succ b ih =>
      intro k
      show calls G T.size b (G.randperm T.size (T.after G (k * T.size)).1).2 = _
      rw [← step, ih]
      rw [show k + 1 + b = k + (b + 1) by omega]
  have := gen b 0
  rw [Nat.zero_add] at this
  rw [← this, Nat.zero_mul]
  rfl

/-- **C42**, error branch: an empty dataset is refused, and only an empty one. -/
theorem C42_refused (size : Int) (sh : Bool) (seed : Option Int) :
    (∃ T, init size sh seed = .ok T) ↔ 0 < size := by
  unfold init
  split_ifs with h <;> simp [h]

/-- a generator that alternates between two orders. -/
def altGen : PermGen where
  σ := Bool
  seed := fun z => decide (0 ≤ z)
  randperm := fun n s => (if s then (List.range n).reverse else List.range n, !s)
  perm := fun n s => by
    cases s
    · exact .refl _
    · exact List.reverse_perm _

/-- the hypotheses are met, with a stream that really is shuffled. -/
example : ∃ T, init 3 true (some 7) = .ok T ∧ (List.range 7).map (T.item altGen) = [2, 1, 0, 0, 1, 2, 2] := by
  refine ⟨⟨3, true, 7, 0, 1⟩, rfl, ?_⟩
  rfl

example : visits altGen ⟨3, true, 7, 0, 1⟩ 7 2 = 3 ∧ visits altGen ⟨3, true, 7, 0, 1⟩ 7 1 = 2 := ⟨rfl, rfl⟩

end Props
end Einet
