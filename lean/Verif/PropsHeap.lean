import Verif.HeapFacts
import Verif.Raise
import Verif.PropsState

/-!
# Tensors as objects: what calls do to the memory of the caller (C15, C64, C65)
-/

open Classical
noncomputable section
namespace Einet
namespace Props
open Tensor Einet

/-! ### Specification: a caller with tensor objects -/

/-- what a caller does.  Tensors are named by their position in the list of tensors the caller holds. -/
inductive Action where
  /-- make a new tensor -/
  | create (t : Tensor Fl)
  /-- make a view of tensor `i` (any `view`, slice, `unsqueeze`, ...) -/
  | share (i : Nat) (shape : List Nat) (f : List Nat → List Nat)
  /-- assign into tensor `i` in place -/
  | write (i : Nat) (v : List Nat → Fl)
  /-- `model(x, marginalized_scopes, cache_index)` with `x` = tensor `i` -/
  | forward (i : Nat) (marginalized_scopes : Option Scopes) (cache_index : Option Int)
  /-- `model.sample(..., evidence=e, seed=seed)`, `model.mpe(...)` with `e` = tensor `i` or none -/
  | sample (a : SampleArgs) (evidence : Option Nat) (seed : Option Int)
  /-- `model.reset_cache()` -/
  | resetCache
  /-- the parameters are changed -/
  | update (M : Model)

/-- the calls of the model among the actions. -/
def Action.isCall : Action → Prop
  | forward _ _ _ => True
  | sample _ _ _ => True
  | resetCache => True
  | update _ => True
  | _ => False

/-- memory, model, generator, the tensors the caller holds, and a log of the calls: with the values that the arguments had when
the call was made and the value that the result had when it was returned. -/
structure World (G : Gen) where
  heap : Heap
  obj : RObj
  gen : G.σ
  env : List Ref
  log : List (Call × Option (Res (Tensor Fl)))

/-- the tensor that a successful call hands to the caller. -/
def returned : Res Ref → List Ref
  | .ok r => [r]
  | .error _ => []

namespace World
variable {G : Gen}

/-- a model just built, a caller without tensors. -/
def start (M : Model) (g : G.σ) (h : Heap) : World G := ⟨h, ⟨M, fun _ => none, false, [], none⟩, g, [], []⟩

/-- the effect of an action; nothing happens if the caller names a tensor that they do not have. -/
def step (w : World G) : Action → World G
  | .create t => { w with heap := (w.heap.new t).2, env := w.env ++ [(w.heap.new t).1] }
  | .share i s f => match w.env[i]? with
    | none => w
    | some r => { w with env := w.env ++ [⟨r.addr, s, fun j => r.idx (f j)⟩] }
  | .write i v => match w.env[i]? with
    | none => w
    | some r => { w with heap := w.heap.write r v }
  | .forward i s k => match w.env[i]? with
    | none => w
    | some x =>
      let p := w.obj.forward x s k w.heap
      ⟨p.2.2, p.2.1, w.gen, w.env ++ returned p.1, w.log ++ [(.forward (w.heap.val x) s k, some (p.1.map p.2.2.val))]⟩
  | .sample a e seed =>
      let e := e.bind fun i => w.env[i]?
      let p := w.obj.sample G w.gen a e seed w.heap
      ⟨p.2.2.2, p.2.1, p.2.2.1, w.env ++ returned p.1,
        w.log ++ [(.sample { a with evidence := e.map w.heap.val } seed, some (p.1.map p.2.2.2.val))]⟩
  | .resetCache => { w with obj := w.obj.resetCache, log := w.log ++ [(.resetCache, none)] }
  | .update M => { w with obj := { w.obj with model := M }, log := w.log ++ [(.update M, none)] }

/-- the effect of a history. -/
def run (w : World G) (acts : List Action) : World G := acts.foldl step w

end World

/-- parameter changes lead to models of valid configurations. -/
def Builds (acts : List Action) : Prop := ∀ M', Action.update M' ∈ acts → ∃ c P, build c P = .ok M'

/-- the same exception, or tensors with the same shape and entries; `reset_cache` and parameter changes return nothing. -/
def SameReturn : Option (Res (Tensor Fl)) → Option (Res (Tensor Fl)) → Prop
  | none, none => True
  | some (.ok t), some (.ok u) => t.shape = u.shape ∧ ∀ i, InB t.shape i → t.get i = u.get i
  | some (.error e), some (.error e') => e = e'
  | _, _ => False

/-! ### Lemmas -/

theorem build_layers {c : Config} {P : Params} {M : Model} (h : build c P = .ok M) : M.layers ≠ [] := by
  obtain ⟨l, hl, _⟩ := build_hasSum h
  exact List.ne_nil_of_mem hl

namespace World
variable {G : Gen}

/-- the tensors of the caller and the cached ones lie in the memory and do not share storage. -/
structure Inv (w : World G) : Prop where
  cacheIn : w.obj.CacheIn w.heap
  envIn : ∀ r ∈ w.env, r.addr < w.heap.next
  apart : ∀ k y, w.obj.leafCache k = some y → ∀ r ∈ w.env, y.addr ≠ r.addr
  noAlias : w.obj.model.NoAlias
  layers : w.obj.model.layers ≠ []

theorem mem_returned {p : Res Ref} {r : Ref} (h : r ∈ returned p) : p = .ok r := by
  cases p with
  | error e => cases h
  | ok r' => rw [List.mem_singleton.1 h]

theorem Inv.of_keeps {w : World G} (hw : w.Inv) {p : Res Ref × RObj × Heap} (hk : RObj.Keeps w.obj w.heap p) (g : G.σ)
    (l : List (Call × Option (Res (Tensor Fl)))) : (⟨p.2.2, p.2.1, g, w.env ++ returned p.1, l⟩ : World G).Inv := by
  have hret : ∀ r ∈ returned p.1, p.1 = .ok r := fun r hr => mem_returned hr
  refine ⟨hk.cacheIn, fun r hr => ?_, fun k y hy r hr => ?_, ?_, ?_⟩
  · rcases List.mem_append.1 hr with h | h
    · exact lt_of_lt_of_le (hw.envIn r h) hk.frame.le
    · exact (hk.fresh r (hret r h)).2.1
  · rcases List.mem_append.1 hr with h | h
    · rcases hk.cache k y hy with h1 | h1
      · exact hw.apart k y h1 r h
      · have := hw.envIn r h
        omega
    · exact (hk.fresh r (hret r h)).2.2 k y hy
  · show p.2.1.model.NoAlias; rw [hk.model]; exact hw.noAlias
  · show p.2.1.model.layers ≠ []; rw [hk.model]; exact hw.layers

theorem Inv.step {w : World G} (hw : w.Inv) {act : Action} (hu : ∀ M', act = .update M' → ∃ c P, build c P = .ok M') :
    (w.step act).Inv := by
  cases act with
  | create t =>
    refine ⟨fun k y hy => lt_of_lt_of_le (hw.cacheIn k y hy) (Nat.le_succ _), fun r hr => ?_, fun k y hy r hr => ?_, hw.noAlias,
      hw.layers⟩
    · rcases List.mem_append.1 hr with h | h
      · exact lt_of_lt_of_le (hw.envIn r h) (Nat.le_succ _)
      · rw [List.mem_singleton.1 h]; exact Nat.lt_succ_self _
    · rcases List.mem_append.1 hr with h | h
      · exact hw.apart k y hy r h
      · rw [List.mem_singleton.1 h]
        exact (hw.cacheIn k y hy).ne
  | share i s f =>
    unfold World.step
    dsimp only
    cases hi : w.env[i]? with
    | none => exact hw
    | some x =>
      have hx := List.mem_of_getElem? hi
      refine ⟨hw.cacheIn, fun r hr => ?_, fun k y hy r hr => ?_, hw.noAlias, hw.layers⟩
      · rcases List.mem_append.1 hr with h | h
        · exact hw.envIn r h
        · rw [List.mem_singleton.1 h]; exact hw.envIn x hx
      · rcases List.mem_append.1 hr with h | h
        · exact hw.apart k y hy r h
        · rw [List.mem_singleton.1 h]; exact hw.apart k y hy x hx
  | write i v =>
    unfold World.step
    dsimp only
    cases hi : w.env[i]? with
    | none => exact hw
    | some x => exact ⟨hw.cacheIn, hw.envIn, hw.apart, hw.noAlias, hw.layers⟩
  | forward i s k =>
    unfold World.step
    dsimp only
    cases hi : w.env[i]? with
    | none => exact hw
    | some x => exact hw.of_keeps (RObj.forward_agrees hw.noAlias hw.layers hw.cacheIn s k).keeps _ _
  | sample a e seed =>
    exact hw.of_keeps (RObj.sample_keeps G hw.noAlias hw.layers hw.cacheIn w.gen a _ seed) _ _
  | resetCache => exact ⟨fun k y hy => (by cases hy), hw.envIn, fun k y hy => (by cases hy), hw.noAlias, hw.layers⟩
  | update M =>
    obtain ⟨c, P, hb⟩ := hu M rfl
    exact ⟨hw.cacheIn, hw.envIn, hw.apart, build_noAlias hb, build_layers hb⟩

theorem run_snoc (w : World G) (l : List Action) (a : Action) : w.run (l ++ [a]) = (w.run l).step a := by
  unfold run
  rw [List.foldl_append]
  rfl

theorem run_append (w : World G) (l l' : List Action) : w.run (l ++ l') = (w.run l).run l' := by
  unfold run
  rw [List.foldl_append]

theorem Inv.run {w : World G} (hw : w.Inv) {acts : List Action} (hu : Builds acts) : (w.run acts).Inv := by
  induction acts using List.reverseRecOn with
  | nil => exact hw
  | append_singleton l a ih =>
    rw [run_snoc]
    exact (ih fun M' h => hu M' (by simp [h])).step fun M' h => hu M' (by simp [h])

theorem start_inv {c : Config} {P : Params} {M : Model} (hb : build c P = .ok M) (g : G.σ) (h : Heap) :
    (start M g h : World G).Inv :=
  ⟨fun k y hy => (by cases hy), fun r hr => (by cases hr), fun k y hy => (by cases hy), build_noAlias hb, build_layers hb⟩

/-- the storage of every tensor of the caller is as before after an action that does not write into it. -/
theorem Inv.store {w : World G} (hw : w.Inv) (act : Action) {r : Ref} (hr : r.addr < w.heap.next)
    (hn : ∀ i v y, act = .write i v → w.env[i]? = some y → y.addr ≠ r.addr) : (w.step act).heap.val r = w.heap.val r := by
  cases act with
  | create t => exact (Heap.new_frame w.heap t).val hr
  | share i s f => unfold World.step; dsimp only; cases hi : w.env[i]? <;> rfl
  | write i v =>
    unfold World.step
    dsimp only
    cases hi : w.env[i]? with
    | none => rfl
    | some x =>
      have := hn i v x rfl hi
      show Heap.val (w.heap.write x v) r = _
      unfold Heap.val Heap.write
      simp only [Function.update_of_ne (Ne.symm this)]
  | forward i s k =>
    unfold World.step
    dsimp only
    cases hi : w.env[i]? with
    | none => rfl
    | some x => exact (RObj.forward_agrees hw.noAlias hw.layers hw.cacheIn s k).frame.val hr
  | sample a e seed => exact (RObj.sample_keeps G hw.noAlias hw.layers hw.cacheIn w.gen a _ seed).frame.val hr
  | resetCache => rfl
  | update M => rfl

theorem next_le {w : World G} (hw : w.Inv) (act : Action) : w.heap.next ≤ (w.step act).heap.next := by
  cases act with
  | create t => exact Nat.le_succ _
  | share i s f => unfold World.step; dsimp only; cases hi : w.env[i]? <;> exact le_rfl
  | write i v => unfold World.step; dsimp only; cases hi : w.env[i]? <;> exact le_rfl
  | forward i s k =>
    unfold World.step
    dsimp only
    cases hi : w.env[i]? with
    | none => exact le_rfl
    | some x => exact (RObj.forward_agrees hw.noAlias hw.layers hw.cacheIn s k).frame.le
  | sample a e seed => exact (RObj.sample_keeps G hw.noAlias hw.layers hw.cacheIn w.gen a _ seed).frame.le
  | resetCache => exact le_rfl
  | update M => exact le_rfl

theorem sameReturn_some {x y : Res (Tensor Fl)} (h : SameRes x y) : SameReturn (some x) (some y) := by
  cases x with
  | error e => cases y with
    | error e' => exact h
    | ok u => exact h
  | ok t => cases y with
    | error e' => exact h
    | ok u => exact ⟨h.1, (AllIdx_iff _ _).1 h.2⟩

theorem Inv.logged {w : World G} (hw : w.Inv) (act : Action) :
    ((w.step act).log = w.log ∧ (w.step act).obj.abs (w.step act).heap = w.obj.abs w.heap ∧ (w.step act).gen = w.gen) ∨
    ∃ c r, (w.step act).log = w.log ++ [(c, r)] ∧ SameReturn r (c.exec G (w.obj.abs w.heap, w.gen)).1 ∧
      (c.exec G (w.obj.abs w.heap, w.gen)).2 = ((w.step act).obj.abs (w.step act).heap, (w.step act).gen) := by
  cases act with
  | create t => exact Or.inl ⟨rfl, RObj.abs_frame hw.cacheIn (Heap.new_frame w.heap t), rfl⟩
  | share i s f => unfold World.step; dsimp only; cases hi : w.env[i]? <;> exact Or.inl ⟨rfl, rfl, rfl⟩
  | write i v =>
    unfold World.step
    dsimp only
    cases hi : w.env[i]? with
    | none => exact Or.inl ⟨rfl, rfl, rfl⟩
    | some x =>
      refine Or.inl ⟨rfl, ?_, rfl⟩
      show w.obj.abs (w.heap.write x v) = w.obj.abs w.heap
      unfold RObj.abs
      congr 1
      funext k
      cases hk : w.obj.leafCache k with
      | none => rfl
      | some y =>
        have := hw.apart k y hk x (List.mem_of_getElem? hi)
        refine congrArg some ?_
        unfold Heap.val Heap.write
        simp only [Function.update_of_ne this]
  | forward i s k =>
    unfold World.step
    dsimp only
    cases hi : w.env[i]? with
    | none => exact Or.inl ⟨rfl, rfl, rfl⟩
    | some x =>
      have ha := RObj.forward_agrees hw.noAlias hw.layers hw.cacheIn (x := x) s k
      refine Or.inr ⟨_, _, rfl, ?_, ?_⟩
      · unfold Call.exec
        dsimp only
        rw [← ha.val]
        exact sameReturn_some (SameRes.refl _)
      · unfold Call.exec
        dsimp only
        rw [← ha.obj]
  | sample a e seed =>
    have he : ∀ x, (e.bind fun i => w.env[i]?) = some x → x.addr < w.heap.next := by
      intro x hx
      cases e with
      | none => cases hx
      | some i => exact hw.envIn x (List.mem_of_getElem? hx)
    obtain ⟨h1, h2, h3⟩ := RObj.sample_agrees G hw.noAlias hw.layers hw.cacheIn w.gen a he seed
    refine Or.inr ⟨_, _, rfl, sameReturn_some h1, ?_⟩
    unfold Call.exec World.step
    dsimp only
    rw [h2, h3]
  | resetCache => exact Or.inr ⟨_, _, rfl, trivial, rfl⟩
  | update M => exact Or.inr ⟨_, _, rfl, trivial, rfl⟩

theorem env_step (w : World G) (act : Action) : ∃ l, (w.step act).env = w.env ++ l := by
  cases act with
  | create t => exact ⟨_, rfl⟩
  | share i s f =>
    unfold World.step
    dsimp only
    cases hi : w.env[i]? with
    | none => exact ⟨[], (List.append_nil _).symm⟩
    | some x => exact ⟨_, rfl⟩
  | write i v => unfold World.step; dsimp only; cases hi : w.env[i]? <;> exact ⟨[], (List.append_nil _).symm⟩
  | forward i s k =>
    unfold World.step
    dsimp only
    cases hi : w.env[i]? with
    | none => exact ⟨[], (List.append_nil _).symm⟩
    | some x => exact ⟨_, rfl⟩
  | sample a e seed => exact ⟨_, rfl⟩
  | resetCache => exact ⟨[], (List.append_nil _).symm⟩
  | update M => exact ⟨[], (List.append_nil _).symm⟩

theorem mem_run (w : World G) (acts : List Action) {r : Ref} (hr : r ∈ w.env) : r ∈ (w.run acts).env := by
  induction acts using List.reverseRecOn with
  | nil => exact hr
  | append_singleton l a ih =>
    rw [run_snoc]
    obtain ⟨x, hx⟩ := env_step (w.run l) a
    rw [hx]
    exact List.mem_append_left _ ih

/-- the by-value account of a log. -/
structure Account (M : Model) (g : G.σ) (w : World G) : Prop where
  state : (w.obj.abs w.heap, w.gen) = after G (w.log.map Prod.fst) (Obj.fresh M, g)
  results : ∀ pre c r post, w.log = pre ++ (c, r) :: post →
    SameReturn r (c.exec G (after G (pre.map Prod.fst) (Obj.fresh M, g))).1

theorem Account.step {M : Model} {g : G.σ} {w : World G} (h : w.Account M g) (hw : w.Inv) (act : Action) :
    (w.step act).Account M g := by
  rcases hw.logged act with ⟨h1, h2, h3⟩ | ⟨c, r, h1, hs, h2⟩
  · exact ⟨by rw [h1, h2, h3]; exact h.state, by rw [h1]; exact h.results⟩
  · refine ⟨?_, fun pre c' r' post hp => ?_⟩
    · rw [h1, List.map_append, List.map_cons, List.map_nil, after_snoc, ← h.state, h2]
    · rw [h1] at hp
      rcases List.eq_nil_or_concat post with rfl | ⟨post', q, rfl⟩
      · obtain ⟨e1, e2⟩ := List.append_inj' hp rfl
        obtain ⟨rfl, rfl⟩ := Prod.mk.inj (List.cons.inj e2).1
        rw [← e1, ← h.state]
        exact hs
      · have hp' : w.log ++ [(c, r)] = (pre ++ (c', r') :: post') ++ [q] := by
          rw [hp]; simp
        exact h.results pre c' r' post' (List.append_inj' hp' rfl).1

end World

/-! ### Theorems -/

/-- C64.  Whatever a caller does, with their own tensors (views and in-place assignments included, also into the tensors that
the model has returned) and with the model: every call returned what the same calls return if tensors are values, given the
entries its argument had at that time; and the model is left in the same state.  In particular later assignments of the caller,
to an argument or to a result, have no effect on the model. -/
theorem C64_value_semantics {G : Gen} {c : Config} {P : Params} {M : Model} (hb : build c P = .ok M) (g : G.σ) (h0 : Heap)
    {acts : List Action} (hu : Builds acts) {w : World G} (hw : w = (World.start M g h0).run acts) :
    (∀ pre call r post, w.log = pre ++ (call, r) :: post →
      SameReturn r (call.exec G (after G (pre.map Prod.fst) (Obj.fresh M, g))).1) ∧
    (w.obj.abs w.heap, w.gen) = after G (w.log.map Prod.fst) (Obj.fresh M, g) := by
  have main : ∀ l, Builds l → ((World.start M g h0).run l).Account M g := by
    intro l
    induction l using List.reverseRecOn with
    | nil => exact fun _ => ⟨rfl, fun pre c r post hp => by cases pre <;> cases hp⟩
    | append_singleton l a ih =>
      intro hu
      rw [World.run_snoc]
      have hu' : Builds l := fun M' h => hu M' (by simp [h])
      exact (ih hu').step ((World.start_inv hb g h0).run hu') a
  subst hw
  exact ⟨(main acts hu).results, (main acts hu).state⟩

/-- a caller who assigns into the input after a cached call, into a result, and goes on with both. -/
def exActs (M : Model) : List Action :=
  [.create exBatch, .share 0 [30] (fun i => unflat [3, 2, 5] (flat [30] i)), .sample {} (some 0) (some 5), .forward 0 none (some 3),
    .write 0 (fun _ => .nan), .forward 0 none (some 3), .write 2 (fun _ => .fin 7), .update M, .forward 2 (some ⟨true, [1]⟩) none,
    .resetCache]

example : ∃ (c : Config) (P : Params) (M : Model), build c P = .ok M ∧ Builds (exActs M) ∧
    ((World.start (G := exGen) M (0 : Int) ⟨0, fun _ _ => .nan⟩).run (exActs M)).env[0]? = some ⟨0, [3, 2, 5], id⟩ := by
  obtain ⟨M, h⟩ := exConfig_normal (l := "einsum") (s := "top-down") (Or.inl ⟨Or.inr (Or.inr rfl), rfl⟩)
  refine ⟨_, _, M, h, fun M' hM' => ?_, ?_⟩
  · simp [exActs] at hM'
    exact hM' ▸ ⟨_, _, h⟩
  · have grow : ∀ (l : List Action) (w : World exGen) (r : Ref), w.env[0]? = some r → (w.run l).env[0]? = some r := by
      intro l w r hr
      induction l using List.reverseRecOn with
      | nil => exact hr
      | append_singleton l b ih =>
        rw [World.run_snoc]
        obtain ⟨x, hx⟩ := World.env_step (w.run l) b
        rw [hx]
        exact List.getElem?_append_left (List.getElem?_eq_some_iff.1 ih).1 |>.trans ih
    have : exActs M = [.create exBatch] ++ (exActs M).tail := rfl
    rw [this, World.run_append]
    exact grow _ _ _ rfl

/-- C64.  A tensor that the caller holds keeps its entries through every history, calls that raise included, in which they do
not themselves assign into a tensor with the same storage. -/
theorem C64_kept {G : Gen} {c : Config} {P : Params} {M : Model} (hb : build c P = .ok M) (g : G.σ) (h0 : Heap)
    {before acts : List Action} (hu : Builds (before ++ acts)) {w : World G} (hw : w = (World.start M g h0).run before)
    {r : Ref} (hr : r ∈ w.env)
    (hn : ∀ pre i v post y, acts = pre ++ .write i v :: post → (w.run pre).env[i]? = some y → y.addr ≠ r.addr) :
    (w.run acts).heap.val r = w.heap.val r := by
  have hinv : w.Inv := by rw [hw]; exact (World.start_inv hb g h0).run fun M' h => hu M' (List.mem_append_left _ h)
  have main : ∀ l, Builds l → (∀ pre i v post y, l = pre ++ .write i v :: post → (w.run pre).env[i]? = some y → y.addr ≠ r.addr) →
      (w.run l).heap.val r = w.heap.val r ∧ r.addr < (w.run l).heap.next := by
    intro l
    induction l using List.reverseRecOn with
    | nil => exact fun _ _ => ⟨rfl, hinv.envIn r hr⟩
    | append_singleton l a ih =>
      intro hu hn
      rw [World.run_snoc]
      have hu' : Builds l := fun M' h => hu M' (by simp [h])
      have hi := hinv.run hu'
      obtain ⟨h1, h2⟩ := ih hu' fun pre i v post y hl => hn pre i v (post ++ [a]) y (by rw [hl]; simp)
      refine ⟨(hi.store a h2 fun i v y ha hy => ?_).trans h1, lt_of_lt_of_le h2 (World.next_le hi a)⟩
      exact hn l i v [] y (by rw [ha]) hy
  exact (main acts (fun M' h => hu M' (List.mem_append_right _ h)) hn).1

example : ∃ (c : Config) (P : Params) (M : Model), build c P = .ok M ∧ ∃ r,
    r ∈ ((World.start (G := exGen) M (0 : Int) ⟨0, fun _ _ => .nan⟩).run [.create exBatch, .create exBatch]).env ∧
    ∀ pre i v post y, [Action.forward 0 none (some 3), .write 0 (fun _ => .nan), .sample {} (some 1) none] = pre ++ .write i v :: post →
      ((((World.start (G := exGen) M (0 : Int) ⟨0, fun _ _ => .nan⟩).run [.create exBatch, .create exBatch]).run pre).env[i]?) = some y →
      y.addr ≠ r.addr := by
  obtain ⟨M, h⟩ := exConfig_normal (l := "einsum") (s := "top-down") (Or.inl ⟨Or.inr (Or.inr rfl), rfl⟩)
  refine ⟨_, _, M, h, ⟨1, [3, 2, 5], id⟩, by exact List.mem_of_getElem? (i := 1) rfl, fun pre i v post y he hy => ?_⟩
  rcases pre with _ | ⟨a, _ | ⟨b, _ | ⟨d, pre⟩⟩⟩ <;> simp at he
  obtain ⟨rfl, ⟨rfl, _⟩, _⟩ := he
  have h0 : some (⟨0, [3, 2, 5], id⟩ : Ref) = some y := hy
  rw [← Option.some.inj h0]
  decide

/-- C64.  The tensor that a call returns has a storage of its own: none of the tensors that the caller held shares it, and
none of those that the model keeps. -/
theorem C64_own_storage {G : Gen} {c : Config} {P : Params} {M : Model} (hb : build c P = .ok M) (g : G.σ) (h0 : Heap)
    {before : List Action} (hu : Builds before) {w : World G} (hw : w = (World.start M g h0).run before)
    {act : Action} (ha : act.isCall) (hu' : ∀ M', act = .update M' → ∃ c P, build c P = .ok M') :
    ∃ new, (w.step act).env = w.env ++ new ∧ ∀ r ∈ new, (∀ x ∈ w.env, x.addr ≠ r.addr) ∧
      ∀ acts, Builds acts → ∀ k y, ((w.step act).run acts).obj.leafCache k = some y → y.addr ≠ r.addr := by
  have hinv : w.Inv := by rw [hw]; exact (World.start_inv hb g h0).run hu
  obtain ⟨new, hnew⟩ := World.env_step w act
  refine ⟨new, hnew, fun r hr => ⟨?_, fun acts hacts k y hy => ?_⟩⟩
  · have key : ∀ p : Res Ref × RObj × Heap, RObj.Keeps w.obj w.heap p → (w.step act).env = w.env ++ returned p.1 →
        ∀ x ∈ w.env, x.addr ≠ r.addr := by
      intro p hk he x hx
      rw [hnew] at he
      rw [List.append_cancel_left he] at hr
      have h1 := (hk.fresh r (World.mem_returned hr)).1
      have h2 := hinv.envIn x hx
      omega
    have none : (w.step act).env = w.env → ∀ x ∈ w.env, x.addr ≠ r.addr := by
      intro he
      rw [hnew] at he
      rw [List.append_right_eq_self.1 he] at hr
      cases hr
    cases act with
    | forward i s k =>
      cases hi : w.env[i]? with
      | none => exact none (by unfold World.step; dsimp only; rw [hi])
      | some x =>
        exact key _ (RObj.forward_agrees hinv.noAlias hinv.layers hinv.cacheIn (x := x) s k).keeps
          (by unfold World.step; dsimp only; rw [hi])
    | sample a e seed => exact key _ (RObj.sample_keeps G hinv.noAlias hinv.layers hinv.cacheIn w.gen a _ seed) rfl
    | resetCache => exact none rfl
    | update M => exact none rfl
    | create t => exact ha.elim
    | share i s f => exact ha.elim
    | write i v => exact ha.elim
  · have hmem : r ∈ (w.step act).env := by rw [hnew]; exact List.mem_append_right _ hr
    exact ((hinv.step hu').run hacts).apart k y hy r (World.mem_run _ acts hmem)

example : ∃ (c : Config) (P : Params) (M : Model), build c P = .ok M ∧ Builds [.create exBatch, .forward 0 none (some 1)] ∧
    Action.isCall (.forward 0 none (some 2)) := by
  obtain ⟨M, h⟩ := exConfig_normal (l := "einsum") (s := "top-down") (Or.inl ⟨Or.inr (Or.inr rfl), rfl⟩)
  exact ⟨_, _, M, h, fun M' hM' => by simp at hM', trivial⟩

/-- C15, the last sentence: `sample` and `mpe` leave every tensor of the caller as it was, the evidence in particular, whether
they return or raise, and what they return shares no storage with any of them. -/
theorem C15_callers_tensor {G : Gen} {c : Config} {P : Params} {M : Model} (hb : build c P = .ok M) (g : G.σ) (h0 : Heap)
    {before : List Action} (hu : Builds before) {w : World G} (hw : w = (World.start M g h0).run before)
    (a : SampleArgs) (evidence : Option Nat) (seed : Option Int) :
    (∀ x ∈ w.env, (w.step (.sample a evidence seed)).heap.val x = w.heap.val x) ∧
    ∃ new, (w.step (.sample a evidence seed)).env = w.env ++ new ∧ ∀ r ∈ new, ∀ x ∈ w.env, x.addr ≠ r.addr := by
  refine ⟨fun x hx => ?_, ?_⟩
  · refine C64_kept hb g h0 (before := before) (acts := [.sample a evidence seed]) ?_ hw hx ?_
    · intro M' hM'
      rcases List.mem_append.1 hM' with h | h
      · exact hu M' h
      · cases List.mem_singleton.1 h
    · intro pre i v post y he
      rcases pre with _ | ⟨b, pre⟩ <;> simp at he
  · obtain ⟨new, h1, h2⟩ := C64_own_storage hb g h0 hu hw (act := .sample a evidence seed) trivial fun M' h => by cases h
    exact ⟨new, h1, fun r hr => (h2 r hr).1⟩

example : ∃ (c : Config) (P : Params) (M : Model), build c P = .ok M ∧ Builds [.create exBatch] ∧
    ∃ x, x ∈ ((World.start (G := exGen) M (0 : Int) ⟨0, fun _ _ => .nan⟩).run [.create exBatch]).env := by
  obtain ⟨M, h⟩ := exConfig_normal (l := "einsum") (s := "top-down") (Or.inl ⟨Or.inr (Or.inr rfl), rfl⟩)
  refine ⟨_, _, M, h, fun M' hM' => ?_, ⟨0, [3, 2, 5], id⟩, ?_⟩
  · cases List.mem_singleton.1 hM'
  · exact List.mem_of_getElem? (i := 0) rfl

/-- **C65 is false**: `LitModel.preprocess` with binomial leaves multiplies the caller's batch itself by
255, and again on every further call; the tensor it returns is the caller's. -/
theorem C65_refuted (h : Heap) {data : Ref} (hd : data.idx = id) :
    (preprocessRef true data h).1 = .ok data ∧
    (preprocessRef true data h).2.val data = ⟨data.shape, fun j => (h.val data).get j * .fin 255⟩ ∧
    (preprocessRef true data (preprocessRef true data h).2).2.val data =
      ⟨data.shape, fun j => (h.val data).get j * .fin 255 * .fin 255⟩ := by
  have one : ∀ h : Heap, preprocessRef true data h = (.ok data, h.write data fun j => (h.val data).get j * .fin 255) := by
    intro h
    unfold preprocessRef
    rw [if_pos rfl]
    rfl
  have two : ∀ h : Heap, (preprocessRef true data h).2.val data = ⟨data.shape, fun j => (h.val data).get j * .fin 255⟩ := by
    intro h
    rw [one]
    exact Heap.write_val hd _
  refine ⟨by rw [one], two h, ?_⟩
  rw [two, two]

example : ∃ (h : Heap) (data : Ref), data.idx = id ∧ data.addr < h.next ∧
    (preprocessRef true data h).2.val data ≠ h.val data := by
  refine ⟨⟨1, fun _ _ => .fin 1⟩, ⟨0, [2, 3], id⟩, rfl, by decide, ?_⟩
  rw [(C65_refuted _ rfl).2.1]
  intro h
  have := congrFun (congrArg Tensor.get h) [0, 0]
  simp [Heap.val] at this

/-- **C65** (part): without binomial leaves the batch, and every other tensor, is not touched. -/
theorem C65_partial (h : Heap) (data r : Ref) :
    preprocessRef false data h = (.ok data, h) ∧ (preprocessRef false data h).2.val r = h.val r := by
  have : preprocessRef false data h = (.ok data, h) := by
    unfold preprocessRef
    rw [if_neg Bool.false_ne_true]
    rfl
  exact ⟨this, by rw [this]⟩

end Props
end Einet
