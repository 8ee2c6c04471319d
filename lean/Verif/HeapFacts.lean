import Verif.Heap
import Verif.StateFacts
import Verif.BuildWF
import Verif.MvnSample

/-!
# Lemmas about tensor objects

Every transcribed call returns what the corresponding call on values returns, changes no storage that existed before, and
returns a tensor with a storage of its own.
-/

open Classical
noncomputable section
namespace Einet
open Tensor

namespace Heap

/-- nothing that existed in `h` is different in `h'`. -/
structure Frame (h h' : Heap) : Prop where
  le : h.next ≤ h'.next
  same : ∀ a, a < h.next → h'.store a = h.store a

theorem Frame.refl (h : Heap) : Frame h h := ⟨le_rfl, fun _ _ => rfl⟩

theorem Frame.trans {h h' h'' : Heap} (a : Frame h h') (b : Frame h' h'') : Frame h h'' :=
  ⟨a.le.trans b.le, fun k hk => (b.same k (lt_of_lt_of_le hk a.le)).trans (a.same k hk)⟩

theorem Frame.val {h h' : Heap} (a : Frame h h') {r : Ref} (hr : r.addr < h.next) : h'.val r = h.val r := by
  unfold Heap.val; rw [a.same _ hr]

theorem new_val (h : Heap) (t : Tensor Fl) : (h.new t).2.val (h.new t).1 = t := by
  cases t; simp [Heap.new, Heap.val]

theorem new_frame (h : Heap) (t : Tensor Fl) : Frame h (h.new t).2 :=
  ⟨Nat.le_succ _, fun a ha => Function.update_of_ne (by omega) _ _⟩

theorem write_frame {h h' : Heap} (a : Frame h h') {r : Ref} (hr : h.next ≤ r.addr) (v : List Nat → Fl) :
    Frame h (h'.write r v) :=
  ⟨a.le, fun k hk => (Function.update_of_ne (by omega) _ _).trans (a.same k hk)⟩

theorem entryAt_id {r : Ref} (hr : r.idx = id) (p : List Nat) : r.entryAt p = some p := by
  unfold Ref.entryAt
  split_ifs with h1 h2
  · have := (Classical.choose_spec h1).2
    have h2 : r.idx (Classical.choose h1) = Classical.choose h1 := congrFun hr _
    exact congrArg some (h2.symm.trans this)
  · rfl
  · exact absurd (by rw [hr]; rfl) h2

/-- assignment into an object that owns its storage. -/
theorem write_val {h : Heap} {r : Ref} (hr : r.idx = id) (v : List Nat → Fl) : (h.write r v).val r = ⟨r.shape, v⟩ := by
  unfold Heap.val Heap.write
  simp only [Function.update_self, entryAt_id hr, hr, id]

/-- assignment through a view: an entry that has a cell of its own. -/
theorem write_get {h : Heap} {r : Ref} (hinj : ∀ i j, InB r.shape i → InB r.shape j → r.idx i = r.idx j → i = j)
    (v : List Nat → Fl) {j : List Nat} (hj : InB r.shape j) : (h.write r v).store r.addr (r.idx j) = v j := by
  unfold Heap.write
  simp only [Function.update_self]
  have h1 : ∃ i, InB r.shape i ∧ r.idx i = r.idx j := ⟨j, hj, rfl⟩
  have h2 : r.entryAt (r.idx j) = some j := by
    unfold Ref.entryAt
    rw [dif_pos h1]
    have := Classical.choose_spec h1
    rw [hinj _ _ this.1 hj this.2]
  rw [h2]

end Heap

open Heap

theorem unflat_in {s : List Nat} (h : numelS s ≠ 0) (p : Nat) : InB s (unflat s p) := by
  induction s generalizing p with
  | nil => trivial
  | cons n s ih =>
    have hn : n ≠ 0 := fun e => h (by simp [numelS, e])
    have hs : numelS s ≠ 0 := fun e => h (by simp [numelS, e])
    exact ⟨Nat.mod_lt _ (Nat.pos_of_ne_zero hn), ih hs _⟩

/-! ### Views -/

theorem Ref.view_val (h : Heap) (s : List Nat) (r : Ref) : (r.view s).map h.val = (h.val r).view s := by
  unfold Ref.view Tensor.view Tensor.numel
  by_cases e : numelS s = numelS r.shape
  · rw [require_true _ e, require_true _ (show numelS s = numelS (h.val r).shape from e)]; rfl
  · rw [require_false _ e, require_false _ (show ¬ numelS s = numelS (h.val r).shape from e)]; rfl

theorem Ref.view_ok {s : List Nat} {r r' : Ref} (h : r.view s = .ok r') :
    numelS s = numelS r.shape ∧ r' = ⟨r.addr, s, fun i => r.idx (unflat r.shape (flat s i))⟩ := by
  unfold Ref.view at h
  by_cases e : numelS s = numelS r.shape
  · rw [require_true _ e] at h
    exact ⟨e, (Except.ok.inj h).symm⟩
  · rw [require_false _ e] at h
    cases h

theorem Ref.viewInfer_val (h : Heap) (s : List Nat) (r : Ref) : (r.viewInfer s).map h.val = (h.val r).viewInfer s := by
  unfold Ref.viewInfer Tensor.viewInfer Tensor.numel
  by_cases e : numelS s ≠ 0 ∧ numelS r.shape % numelS s = 0
  · rw [require_true _ e, require_true _ (show numelS s ≠ 0 ∧ numelS (h.val r).shape % numelS s = 0 from e)]
    exact Ref.view_val h _ r
  · rw [require_false _ e, require_false _ (show ¬ (numelS s ≠ 0 ∧ numelS (h.val r).shape % numelS s = 0) from e)]; rfl

theorem Ref.viewInfer_addr {s : List Nat} {r r' : Ref} (h : r.viewInfer s = .ok r') : r'.addr = r.addr := by
  unfold Ref.viewInfer at h
  by_cases e : numelS s ≠ 0 ∧ numelS r.shape % numelS s = 0
  · rw [require_true _ e] at h
    rw [(Ref.view_ok h).2]
  · rw [require_false _ e] at h
    cases h

theorem Ref.unsqueeze_val (h : Heap) (d : Nat) (r : Ref) : (r.unsqueeze d).map h.val = (h.val r).unsqueeze d := by
  unfold Ref.unsqueeze Tensor.unsqueeze Tensor.rank
  by_cases e : d ≤ r.shape.length
  · rw [require_true _ e, require_true _ (show d ≤ (h.val r).shape.length from e)]; rfl
  · rw [require_false _ e, require_false _ (show ¬ d ≤ (h.val r).shape.length from e)]; rfl

theorem Ref.unsqueeze_addr {d : Nat} {r r' : Ref} (h : r.unsqueeze d = .ok r') : r'.addr = r.addr := by
  unfold Ref.unsqueeze at h
  by_cases e : d ≤ r.shape.length
  · rw [require_true _ e] at h
    rw [← Except.ok.inj h]
  · rw [require_false _ e] at h
    cases h

theorem Ref.squeeze_val (h : Heap) (d : Nat) (r : Ref) : (r.squeeze d).map h.val = (h.val r).squeeze d := by
  unfold Ref.squeeze Tensor.squeeze Tensor.rank Tensor.size
  by_cases e : d < r.shape.length
  · rw [require_true _ e, require_true _ (show d < (h.val r).shape.length from e)]
    by_cases e1 : at' d r.shape = 1
    · rw [if_pos e1, if_pos (show at' d (h.val r).shape = 1 from e1)]; rfl
    · rw [if_neg e1, if_neg (show ¬ at' d (h.val r).shape = 1 from e1)]; rfl
  · rw [require_false _ e, require_false _ (show ¬ d < (h.val r).shape.length from e)]; rfl

theorem Ref.squeeze_addr {d : Nat} {r r' : Ref} (h : r.squeeze d = .ok r') : r'.addr = r.addr := by
  unfold Ref.squeeze at h
  by_cases e : d < r.shape.length
  · rw [require_true _ e] at h
    rw [← Except.ok.inj h]
    split_ifs <;> rfl
  · rw [require_false _ e] at h
    cases h

theorem Model.prepRef_val (M : Model) (h : Heap) (x : Ref) : (M.prepRef x).map h.val = M.prepInput (h.val x) ∧
    ∀ z, M.prepRef x = .ok z → z.addr = x.addr := by
  have tail : ∀ y : Ref, (do
        let x ← if y.shape.length = 4 then y.viewInfer [at' 0 y.shape, M.num_channels] else .ok y
        require .assertion (x.shape.length = 3)
        require .assertion (at' 1 x.shape = M.num_channels)
        require .assertion (at' 2 x.shape = M.num_features)
        return x : Res Ref).map h.val = (do
        let x ← if (h.val y).rank = 4 then (h.val y).viewInfer [(h.val y).size 0, M.num_channels] else .ok (h.val y)
        require .assertion (x.rank = 3)
        require .assertion (x.size 1 = M.num_channels)
        require .assertion (x.size 2 = M.num_features)
        return x) ∧ ∀ z, (do
        let x ← if y.shape.length = 4 then y.viewInfer [at' 0 y.shape, M.num_channels] else .ok y
        require .assertion (x.shape.length = 3)
        require .assertion (at' 1 x.shape = M.num_channels)
        require .assertion (at' 2 x.shape = M.num_features)
        return x : Res Ref) = .ok z → z.addr = y.addr := by
    intro y
    have last : ∀ w : Ref, (do
        require .assertion (w.shape.length = 3)
        require .assertion (at' 1 w.shape = M.num_channels)
        require .assertion (at' 2 w.shape = M.num_features)
        return w : Res Ref).map h.val = (do
        require .assertion ((h.val w).rank = 3)
        require .assertion ((h.val w).size 1 = M.num_channels)
        require .assertion ((h.val w).size 2 = M.num_features)
        return (h.val w)) ∧ ∀ z, (do
        require .assertion (w.shape.length = 3)
        require .assertion (at' 1 w.shape = M.num_channels)
        require .assertion (at' 2 w.shape = M.num_features)
        return w : Res Ref) = .ok z → z = w := by
      intro w
      change _ = (do
        require .assertion (w.shape.length = 3)
        require .assertion (at' 1 w.shape = M.num_channels)
        require .assertion (at' 2 w.shape = M.num_features)
        return (h.val w) : Res (Tensor Fl)) ∧ _
      by_cases e1 : w.shape.length = 3
      · rw [require_true _ e1]
        by_cases e2 : at' 1 w.shape = M.num_channels
        · rw [require_true _ e2]
          by_cases e3 : at' 2 w.shape = M.num_features
          · rw [require_true _ e3]; exact ⟨rfl, fun z hz => (Except.ok.inj hz).symm⟩
          · rw [require_false _ e3]; exact ⟨rfl, fun z hz => by cases hz⟩
        · rw [require_false _ e2]; exact ⟨rfl, fun z hz => by cases hz⟩
      · rw [require_false _ e1]; exact ⟨rfl, fun z hz => by cases hz⟩
    by_cases e : y.shape.length = 4
    · rw [if_pos e, if_pos (show (h.val y).rank = 4 from e)]
      have hv := Ref.viewInfer_val h [at' 0 y.shape, M.num_channels] y
      cases hr : y.viewInfer [at' 0 y.shape, M.num_channels] with
      | error er =>
        rw [hr] at hv
        rw [show (h.val y).viewInfer [(h.val y).size 0, M.num_channels] = .error er from hv.symm]
        exact ⟨rfl, fun z hz => by cases hz⟩
      | ok w =>
        rw [hr] at hv
        rw [show (h.val y).viewInfer [(h.val y).size 0, M.num_channels] = .ok (h.val w) from hv.symm]
        exact ⟨(last w).1, fun z hz => by rw [(last w).2 z hz]; exact Ref.viewInfer_addr hr⟩
    · rw [if_neg e, if_neg (show ¬ (h.val y).rank = 4 from e)]
      exact ⟨(last y).1, fun z hz => by rw [(last y).2 z hz]⟩
  unfold Model.prepRef Model.prepInput
  by_cases e : x.shape.length = 2
  · rw [if_pos e, if_pos (show (h.val x).rank = 2 from e)]
    have hv := Ref.unsqueeze_val h 1 x
    cases hr : x.unsqueeze 1 with
    | error er =>
      rw [hr] at hv
      rw [show (h.val x).unsqueeze 1 = .error er from hv.symm]
      exact ⟨rfl, fun z hz => by cases hz⟩
    | ok w =>
      rw [hr] at hv
      rw [show (h.val x).unsqueeze 1 = .ok (h.val w) from hv.symm]
      exact ⟨(tail w).1, fun z hz => by rw [(tail w).2 z hz]; exact Ref.unsqueeze_addr hr⟩
  · rw [if_neg e, if_neg (show ¬ (h.val x).rank = 2 from e)]
    exact tail x

/-! ### Programs -/

/-- started in `h`, the program behaves like `f` on values, keeps what existed in `h0` and returns an object with a storage
that did not exist in `h0`, and which it owns if `own`. -/
structure Mem.Does (x : Mem Ref) (h0 h : Heap) (f : Res (Tensor Fl)) (own : Prop) : Prop where
  val : (x h).1.map (x h).2.val = f
  frame : Frame h0 (x h).2
  fresh : ∀ r, (x h).1 = .ok r → h0.next ≤ r.addr ∧ r.addr < (x h).2.next ∧ (own → r.idx = id)

theorem Mem.does_new {h0 h : Heap} (hf : Frame h0 h) (t : Tensor Fl) : Mem.Does (Mem.new t) h0 h (.ok t) True :=
  ⟨congrArg Except.ok (new_val h t), hf.trans (new_frame h t), fun r hr => by
    obtain rfl : (h.new t).1 = r := Except.ok.inj hr
    exact ⟨hf.le, Nat.lt_succ_self _, fun _ => rfl⟩⟩

theorem Mem.does_error {x : Mem Ref} {h0 h h' : Heap} {e : Err} {own : Prop} (hx : x h = (.error e, h')) (hf : Frame h0 h') :
    Mem.Does x h0 h (.error e) own :=
  ⟨by rw [hx]; rfl, by rw [hx]; exact hf, fun r hr => by rw [hx] at hr; cases hr⟩


/-- continue with a program that starts where the first one ended. -/
theorem Mem.bind_ok {α β : Type} {x : Mem α} {f : α → Mem β} {h h' : Heap} {a : α} (hx : x h = (.ok a, h')) :
    Mem.bind x f h = f a h' := by unfold Mem.bind; rw [hx]

theorem Mem.bind_error {α β : Type} {x : Mem α} {f : α → Mem β} {h h' : Heap} {e : Err} (hx : x h = (.error e, h')) :
    Mem.bind x f h = (.error e, h') := by unfold Mem.bind; rw [hx]

theorem Mem.does_of_eq {x y : Mem Ref} {h0 h h' : Heap} {f : Res (Tensor Fl)} {own : Prop} (e : x h = y h')
    (hy : Mem.Does y h0 h' f own) : Mem.Does x h0 h f own :=
  ⟨by rw [e]; exact hy.val, by rw [e]; exact hy.frame, fun r hr => by rw [e] at hr ⊢; exact hy.fresh r hr⟩

theorem Mem.does_ret {h0 h : Heap} (hf : Frame h0 h) {r : Ref} (h1 : h0.next ≤ r.addr) (h2 : r.addr < h.next) {own : Prop}
    (h3 : own → r.idx = id) : Mem.Does (Mem.ret r) h0 h (.ok (h.val r)) own :=
  ⟨rfl, hf, fun r' hr => by obtain rfl : r = r' := Except.ok.inj hr; exact ⟨h1, h2, h3⟩⟩

/-- sequencing. -/
theorem Mem.Does.bind {x : Mem Ref} {h0 h : Heap} {f : Res (Tensor Fl)} {own own' : Prop} (hx : Mem.Does x h0 h f own)
    {k : Ref → Mem Ref} {g : Tensor Fl → Res (Tensor Fl)}
    (hk : ∀ r h', Frame h0 h' → h0.next ≤ r.addr → r.addr < h'.next → (own → r.idx = id) → f = .ok (h'.val r) →
      Mem.Does (k r) h0 h' (g (h'.val r)) own') : Mem.Does (Mem.bind x k) h0 h (f.bind g) own' := by
  cases hr : x h with
  | mk res h' =>
    have h1 := hx.val
    have h2 := hx.frame
    have h3 := hx.fresh
    rw [hr] at h1 h2 h3
    cases res with
    | error e =>
      obtain rfl : Except.error e = f := h1
      exact Mem.does_error (Mem.bind_error hr) h2
    | ok r =>
      obtain ⟨a, b, c⟩ := h3 r rfl
      obtain rfl : Except.ok (h'.val r) = f := h1
      exact Mem.does_of_eq (Mem.bind_ok hr) (hk r h' h2 a b c rfl)

/-! ### The leaf -/

theorem BaseLeaf.marginalizeRef_does (B : BaseLeaf) {h0 h : Heap} (hf : Frame h0 h) {y : Ref} (h1 : h0.next ≤ y.addr)
    (h2 : y.addr < h.next) (h3 : y.idx = id) (ms : Option Scopes) :
    Mem.Does (B.marginalizeRef y ms) h0 h ((Scopes.resolveOpt B.num_features ms).map fun sc =>
      ⟨y.shape, fun j => match sc with
        | some s => if at' 2 j ∈ s then .fin 0 else (h.val y).get j
        | none => if ((h.val y).get j).isnan then .fin 0 else (h.val y).get j⟩) True := by
  cases hs : Scopes.resolveOpt B.num_features ms with
  | error e =>
    refine Mem.does_error (h' := h) ?_ hf
    unfold BaseLeaf.marginalizeRef
    exact Mem.bind_error (by unfold Mem.lift; rw [hs])
  | ok sc =>
    have hb : B.marginalizeRef y ms h = Mem.bind (Mem.get y) (fun t =>
      match sc with
      | some s => Mem.bind (Mem.write y fun j => if at' 2 j ∈ s then .fin 0 else t.get j) fun _ => Mem.ret y
      | none => if ∃ j, (t.get j).isnan
        then Mem.bind (Mem.write y fun j => if (t.get j).isnan then .fin 0 else t.get j) fun _ => Mem.ret y
        else Mem.ret y) h := by
      unfold BaseLeaf.marginalizeRef
      exact Mem.bind_ok (by unfold Mem.lift; rw [hs])
    have wr : ∀ v : List Nat → Fl, Mem.Does (Mem.bind (Mem.write y v) fun _ => Mem.ret y) h0 h (.ok ⟨y.shape, v⟩) True := by
      intro v
      rw [← write_val h3 (h := h) v]
      exact Mem.does_of_eq (h' := h.write y v) (y := Mem.ret y) rfl (Mem.does_ret (write_frame hf h1 v) h1 h2 fun _ => h3)
    refine Mem.does_of_eq hb ?_
    cases sc with
    | some s => exact Mem.does_of_eq (h' := h) (y := Mem.bind (Mem.write y _) fun _ => Mem.ret y) rfl (wr _)
    | none =>
      by_cases e : ∃ j, ((h.val y).get j).isnan
      · refine Mem.does_of_eq (h' := h) (y := Mem.bind (Mem.write y _) fun _ => Mem.ret y) ?_ (wr _)
        exact (Mem.bind_ok (x := Mem.get y) rfl).trans (by rw [if_pos e])
      · have : (⟨y.shape, fun j => if ((h.val y).get j).isnan then .fin 0 else (h.val y).get j⟩ : Tensor Fl) = h.val y := by
          have hg : ∀ j, ¬ ((h.val y).get j).isnan := fun j hj => e ⟨j, hj⟩
          simp only [if_neg (hg _)]
          rfl
        have h4 := Mem.does_ret hf h1 h2 (own := True) fun _ => h3
        rw [← this] at h4
        exact Mem.does_of_eq ((Mem.bind_ok (x := Mem.get y) rfl).trans (by rw [if_neg e])) h4

theorem BaseLeaf.replaceNan_run (h : Heap) (x : Ref) : ∃ x' h1, replaceNan x h = (.ok x', h1) ∧
    Frame h h1 ∧ h1.val x' = ⟨x.shape, fun i => if ((h.val x).get i).isnan then .fin 0 else (h.val x).get i⟩ := by
  unfold replaceNan
  rw [Mem.bind_ok (x := Mem.get x) (a := h.val x) (h' := h) rfl]
  by_cases e : ∃ i, ((h.val x).get i).isnan
  · rw [if_pos e]
    exact ⟨_, _, rfl, new_frame h _, new_val h _⟩
  · rw [if_neg e]
    refine ⟨x, h, rfl, Frame.refl h, ?_⟩
    have hg : ∀ j, ¬ ((h.val x).get j).isnan := fun j hj => e ⟨j, hj⟩
    simp only [if_neg (hg _)]
    rfl

theorem BaseLeaf.forwardRef_does (B : BaseLeaf) (h : Heap) (x : Ref) (ms : Option Scopes) :
    Mem.Does (B.forwardRef x ms) h h (B.forward (h.val x) ms) True := by
  unfold BaseLeaf.forwardRef BaseLeaf.forward
  by_cases e1 : x.shape.length = 3 ∧ at' 1 x.shape = B.num_channels ∧ at' 2 x.shape = B.num_features
  swap
  · rw [require_false _ (show ¬ ((h.val x).rank = 3 ∧ (h.val x).size 1 = B.num_channels ∧ (h.val x).size 2 = B.num_features) from e1)]
    exact Mem.does_error (h' := h) (Mem.bind_error (by unfold Mem.lift; rw [require_false _ e1])) (Frame.refl h)
  rw [require_true _ (show (h.val x).rank = 3 ∧ (h.val x).size 1 = B.num_channels ∧ (h.val x).size 2 = B.num_features from e1)]
  refine Mem.does_of_eq (Mem.bind_ok (a := ()) (h' := h) (by unfold Mem.lift; rw [require_true _ e1])) ?_
  refine Mem.does_of_eq (Mem.bind_ok (x := Mem.get x) (a := h.val x) (h' := h) rfl) ?_
  obtain ⟨x', h1, hr, hf1, hv⟩ := replaceNan_run h x
  refine Mem.does_of_eq (Mem.bind_ok hr) ?_
  refine Mem.does_of_eq (Mem.bind_ok (x := Mem.get x') (h' := h1) (by unfold Mem.get; rw [hv])) ?_
  by_cases e2 : AllIdx x.shape fun i => B.valid (at' 2 i) (if ((h.val x).get i).isnan then .fin 0 else (h.val x).get i)
  swap
  · have : (require .value (AllIdx (h.val x).shape fun i =>
        B.valid (at' 2 i) (if ((h.val x).get i).isnan then .fin 0 else (h.val x).get i))) = .error .value := require_false _ e2
    rw [Res.ok_bind, this]
    exact Mem.does_error (h' := h1) (Mem.bind_error (by unfold Mem.lift; rw [require_false _ e2])) hf1
  have : (require .value (AllIdx (h.val x).shape fun i =>
      B.valid (at' 2 i) (if ((h.val x).get i).isnan then .fin 0 else (h.val x).get i))) = .ok () := require_true _ e2
  rw [Res.ok_bind, this, Res.ok_bind]
  refine Mem.does_of_eq (Mem.bind_ok (a := ()) (h' := h1) (by unfold Mem.lift; rw [require_true _ e2])) ?_
  set Y : Tensor Fl := ⟨x.shape ++ [B.num_leaves, B.num_repetitions], fun j =>
    B.logProb (at' 1 j) (at' 2 j) (at' 3 j) (at' 4 j) (if ((h.val x).get [at' 0 j, at' 1 j, at' 2 j]).isnan then .fin 0
      else (h.val x).get [at' 0 j, at' 1 j, at' 2 j])⟩ with hY
  refine Mem.does_of_eq (Mem.bind_ok (x := Mem.new Y) (a := (h1.new Y).1) (h' := (h1.new Y).2) rfl) ?_
  refine Mem.does_of_eq (Mem.bind_ok (a := Y) (h' := (h1.new Y).2) (by unfold Mem.get; rw [new_val])) ?_
  have hf2 : Frame h (h1.new Y).2 := hf1.trans (new_frame h1 Y)
  obtain ⟨h3, hr3, hf3, hn3, hv3⟩ : ∃ h3, (if ∃ i, ((h.val x).get i).isnan
      then Mem.write (h1.new Y).1 fun j => if ((h.val x).get [at' 0 j, at' 1 j, at' 2 j]).isnan then .nan else Y.get j
      else Mem.ret ()) (h1.new Y).2 = (.ok (), h3) ∧ Frame h h3 ∧ h3.next = h1.next + 1 ∧ h3.val (h1.new Y).1 =
        ⟨Y.shape, fun j => if ((h.val x).get [at' 0 j, at' 1 j, at' 2 j]).isnan then .nan else Y.get j⟩ := by
    by_cases e : ∃ i, ((h.val x).get i).isnan
    · rw [if_pos e]
      exact ⟨_, rfl, write_frame hf2 hf1.le _, rfl, write_val rfl _⟩
    · rw [if_neg e]
      refine ⟨_, rfl, hf2, rfl, (new_val h1 Y).trans ?_⟩
      have hg : ∀ j, ¬ ((h.val x).get j).isnan := fun j hj => e ⟨j, hj⟩
      simp only [if_neg (hg _)]
  refine Mem.does_of_eq (Mem.bind_ok hr3) ?_
  have hm := B.marginalizeRef_does hf3 (y := (h1.new Y).1) hf1.le (by rw [hn3]; exact Nat.lt_succ_self _) rfl ms
  rw [hv3] at hm
  convert hm using 1
  cases Scopes.resolveOpt B.num_features ms with
  | error e => rfl
  | ok sc =>
    refine congrArg Except.ok ?_
    refine congrArg (Tensor.mk _) (funext fun j => ?_)
    unfold BaseLeaf.entry
    rw [hY]
    by_cases e : ((h.val x).get [at' 0 j, at' 1 j, at' 2 j]).isnan
    · cases sc <;> simp only [e, if_true]
    · cases sc <;> simp only [e, Bool.false_eq_true, if_false]

theorem Leaf.forwardRef_does (L : Leaf) (h : Heap) (x : Ref) (ms : Option Scopes) :
    Mem.Does (L.forwardRef x ms) h h (L.forward (h.val x) ms) True := by
  have hb := L.base.forwardRef_does h x ms
  have step : ∀ m : Tensor Fl → Res (Tensor Fl), Mem.Does (Mem.bind (L.base.forwardRef x ms) fun y =>
      Mem.bind (Mem.get y) fun t => Mem.bind (Mem.lift (m t)) Mem.new) h h ((L.base.forward (h.val x) ms).bind m) True := by
    intro m
    refine hb.bind fun r h' hf a b c _ => ?_
    refine Mem.does_of_eq (Mem.bind_ok (x := Mem.get r) (a := h'.val r) (h' := h') rfl) ?_
    cases hm : m (h'.val r) with
    | error e => exact Mem.does_error (h' := h') (Mem.bind_error (by unfold Mem.lift; rfl)) hf
    | ok t => exact Mem.does_of_eq (Mem.bind_ok (a := t) (h' := h') rfl) (Mem.does_new hf t)
  cases L with
  | direct B =>
    have := hb.bind (k := Mem.ret) (g := .ok) (own' := True) fun r h' hf a b c _ => Mem.does_ret hf a b c
    have e : (B.forward (h.val x) ms).bind .ok = B.forward (h.val x) ms := by cases B.forward (h.val x) ms <;> rfl
    change Mem.Does _ h h (B.forward (h.val x) ms) True
    rw [← e]
    exact this
  | factorized L => exact step L.merge
  | simple L => exact step L.merge


/-! ### `Einet.forward` -/

theorem Model.pre_run {M : Model} (hM : M.NoAlias) {h : Heap} {y : Ref} (hy : y.addr < h.next) : ∃ res h',
    Mem.bind (M.factorizeRef y) M.permuteRef h = (res, h') ∧ res.map h'.val = (M.factorize (h.val y)).bind M.permute ∧
    Frame h h' ∧ ∀ r, res = .ok r → r.addr < h'.next := by
  have hfac : M.factorizeRef y h = Mem.bind (Mem.lift (M.factorize (h.val y))) (fun u =>
      match M.leaf with
      | .direct _ => Mem.new u
      | _ => Mem.ret y) h := Mem.bind_ok (x := Mem.get y) rfl
  cases hu : M.factorize (h.val y) with
  | error e =>
    refine ⟨.error e, h, Mem.bind_error ?_, rfl, Frame.refl h, fun r hr => by cases hr⟩
    rw [hfac]
    exact Mem.bind_error (by unfold Mem.lift; rw [hu])
  | ok u =>
    have hfac' : M.factorizeRef y h = (match M.leaf with
      | .direct _ => Mem.new u
      | _ => Mem.ret y) h := hfac.trans (Mem.bind_ok (by unfold Mem.lift; rw [hu]))
    by_cases hd : ∃ b, M.leaf = .direct b
    · obtain ⟨b, hb⟩ := hd
      have e0 : M.factorizeRef y h = (.ok (h.new u).1, (h.new u).2) := by rw [hfac', hb]; rfl
      rw [Mem.bind_ok e0]
      unfold Model.permuteRef
      cases hp : M.permutation with
      | none =>
        refine ⟨_, _, rfl, ?_, new_frame h u, fun r hr => ?_⟩
        · have : M.permute u = .ok u := by unfold Model.permute; rw [hp]
          change Except.ok _ = M.permute u
          rw [this, new_val]
        · obtain rfl : (h.new u).1 = r := Except.ok.inj hr
          exact Nat.lt_succ_self _
      | some pq =>
        dsimp only
        rw [Mem.bind_ok (x := Mem.get (h.new u).1) (a := u) (h' := (h.new u).2) (by unfold Mem.get; rw [new_val])]
        cases hpu : M.permute u with
        | error e =>
          exact ⟨.error e, _, Mem.bind_error (by unfold Mem.lift; rfl), by change _ = M.permute u; rw [hpu]; rfl, new_frame h u,
            fun r hr => by cases hr⟩
        | ok v =>
          refine ⟨.ok (h.new u).1, (h.new u).2.write (h.new u).1 v.get, (Mem.bind_ok (a := v) (h' := (h.new u).2) rfl).trans rfl, ?_,
            write_frame (new_frame h u) (le_refl h.next) _, fun r hr => ?_⟩
          · change Except.ok _ = M.permute u
            rw [hpu, write_val (show (h.new u).1.idx = id from rfl)]
            have hs : v.shape = u.shape := by
              unfold Model.permute at hpu
              rw [hp] at hpu
              obtain ⟨p, q⟩ := pq
              dsimp only at hpu
              obtain ⟨_, _, h3⟩ := Einet.bind_ok hpu
              obtain ⟨_, _, h4⟩ := Einet.bind_ok h3
              rw [← Except.ok.inj h4]
            refine congrArg Except.ok ?_
            cases v
            exact congrArg (fun s => Tensor.mk s _) hs.symm
          · obtain rfl : (h.new u).1 = r := Except.ok.inj hr
            exact Nat.lt_succ_self _
    · have hn : M.permutation = none := by
        cases hp : M.permutation with
        | none => rfl
        | some pq => exact absurd (hM (by rw [hp]; rfl)) hd
      have e0 : M.factorizeRef y h = (.ok y, h) := by
        rw [hfac']
        cases hl : M.leaf with
        | direct b => exact absurd ⟨b, hl⟩ hd
        | factorized L => rfl
        | simple L => rfl
      have e1 : u = h.val y := by
        unfold Model.factorize at hu
        cases hl : M.leaf with
        | direct b => exact absurd ⟨b, hl⟩ hd
        | factorized L =>
          rw [hl] at hu
          obtain ⟨_, _, h3⟩ := Einet.bind_ok hu
          exact (Except.ok.inj h3).symm
        | simple L =>
          rw [hl] at hu
          obtain ⟨_, _, h3⟩ := Einet.bind_ok hu
          exact (Except.ok.inj h3).symm
      rw [Mem.bind_ok e0]
      refine ⟨.ok y, h, by unfold Model.permuteRef; rw [hn]; rfl, ?_, Frame.refl h, fun r hr => ?_⟩
      · have : M.permute u = .ok u := by unfold Model.permute; rw [hn]
        change _ = M.permute u
        rw [this, e1]; rfl
      · obtain rfl : y = r := Except.ok.inj hr
        exact hy


theorem Model.rootRef_run {M : Model} {h0 h : Heap} {x : Ref} (hf : Frame h0 h) (h1 : h0.next ≤ x.addr) (h2 : x.addr < h.next) :
    ∃ res h', M.rootRef x h = (res, h') ∧ res.map (fun p => (h'.val p.1, p.2)) = M.root (h.val x) ∧ Frame h0 h' ∧ Frame h h' ∧
      ∀ p, res = .ok p → h0.next ≤ p.1.addr ∧ p.1.addr < h'.next := by
  unfold Model.rootRef
  rw [Mem.bind_ok (x := Mem.get x) (a := h.val x) (h' := h) rfl]
  cases hr : M.root (h.val x) with
  | error e => exact ⟨.error e, h, Mem.bind_error (by unfold Mem.lift; rfl), rfl, hf, Frame.refl h, fun p hp => by cases hp⟩
  | ok p =>
    rw [Mem.bind_ok (a := p) (h' := h) (by unfold Mem.lift; rfl)]
    by_cases e : 1 < M.num_repetitions
    · rw [if_pos e]
      refine ⟨.ok ((h.new p.1).1, p.2), (h.new p.1).2, rfl, ?_, hf.trans (new_frame h _), new_frame h _, fun q hq => ?_⟩
      · exact congrArg (fun t => Except.ok (t, p.2)) (new_val h p.1)
      · obtain rfl := Except.ok.inj hq
        exact ⟨hf.le, Nat.lt_succ_self _⟩
    · rw [if_neg e]
      -- the value is that of two views
      unfold Model.root Model.mixReps at hr
      obtain ⟨_, _, hr⟩ := Einet.bind_ok hr
      obtain ⟨_, _, hr⟩ := Einet.bind_ok hr
      obtain ⟨_, _, hr⟩ := Einet.bind_ok hr
      rw [if_neg e] at hr
      obtain ⟨⟨y, c⟩, hy, hr⟩ := Einet.bind_ok hr
      obtain ⟨z, hz, hr⟩ := Einet.bind_ok hr
      obtain ⟨_, _, hr⟩ := Einet.bind_ok hr
      obtain rfl := Except.ok.inj hr
      have v1 := Ref.squeeze_val h 3 x
      cases s1 : x.squeeze 3 with
      | error er => rw [s1] at v1; rw [← v1] at hy; cases hy
      | ok x1 =>
        rw [s1] at v1
        rw [← v1] at hy
        obtain ⟨rfl, rfl⟩ := Prod.mk.inj (Except.ok.inj hy)
        have v2 := Ref.squeeze_val h 1 x1
        cases s2 : x1.squeeze 1 with
        | error er => rw [s2] at v2; rw [← v2] at hz; cases hz
        | ok x2 =>
          rw [s2] at v2
          rw [← v2] at hz
          obtain rfl := Except.ok.inj hz
          have ha : x2.addr = x.addr := (Ref.squeeze_addr s2).trans (Ref.squeeze_addr s1)
          have hs : (Except.bind (Except.ok x1 : Res Ref) (Ref.squeeze 1)) = .ok x2 := s2
          refine ⟨.ok (x2, none), h, ?_, rfl, hf, Frame.refl h, fun q hq => ?_⟩
          · exact (Mem.bind_ok (a := x2) (h' := h) (by unfold Mem.lift; rw [hs])).trans rfl
          · obtain rfl := Except.ok.inj hq
            exact ⟨by rw [ha]; exact h1, by rw [ha]; exact h2⟩

/-- the same exception or equal tensors. -/
def SameRes : Res (Tensor Fl) → Res (Tensor Fl) → Prop
  | .ok t, .ok u => t.Same u
  | .error e, .error e' => e = e'
  | _, _ => False

theorem SameRes.refl (x : Res (Tensor Fl)) : SameRes x x := by
  cases x with
  | error e => exact rfl
  | ok t => exact ⟨rfl, (AllIdx_iff _ _).2 fun _ _ => rfl⟩

namespace RObj

/-- the tensors of the leaf cache exist. -/
def CacheIn (o : RObj) (h : Heap) : Prop := ∀ k y, o.leafCache k = some y → y.addr < h.next

theorem abs_frame {o : RObj} {h h' : Heap} (hc : o.CacheIn h) (hf : Frame h h') : o.abs h' = o.abs h := by
  unfold abs
  congr 1
  funext k
  cases hk : o.leafCache k with
  | none => rfl
  | some y => exact congrArg some (hf.val (hc k y hk))

/-- a call on tensor objects agrees with the call on values. -/
structure Agrees (o : RObj) (h : Heap) (p : Res Ref × RObj × Heap) (q : Res (Tensor Fl) × Obj) : Prop where
  val : p.1.map p.2.2.val = q.1
  obj : p.2.1.abs p.2.2 = q.2
  frame : Frame h p.2.2
  fresh : ∀ r, p.1 = .ok r → h.next ≤ r.addr ∧ r.addr < p.2.2.next ∧ ∀ k y, p.2.1.leafCache k = some y → y.addr ≠ r.addr
  cache : ∀ k y, p.2.1.leafCache k = some y → o.leafCache k = some y ∨ h.next ≤ y.addr
  cacheIn : p.2.1.CacheIn p.2.2
  model : p.2.1.model = o.model

theorem upper_error {o : Obj} {key : Option Int} {y : Tensor Fl} {e : Err}
    (h : (o.model.factorize y).bind o.model.permute = .error e) : o.upper key y = (.error e, o) := by
  unfold Obj.upper
  cases hx : o.model.factorize y with
  | error e' => rw [hx] at h; rw [Except.error.inj h]
  | ok x =>
    rw [hx] at h
    dsimp only
    rw [show o.model.permute x = .error e from h]

theorem upper_ok {o : Obj} (ho : o.model.NoAlias) {key : Option Int} {y x : Tensor Fl}
    (h : (o.model.factorize y).bind o.model.permute = .ok x) : o.upper key y =
      match (forwardLayersSt o.enabled o.model.layers o.layers x).1 with
      | .error e => (.error e, { o with layers := (forwardLayersSt o.enabled o.model.layers o.layers x).2 })
      | .ok t => match o.model.root t with
        | .error e => (.error e, { o with layers := (forwardLayersSt o.enabled o.model.layers o.layers x).2 })
        | .ok (z, c) => (.ok z, ⟨o.model, o.leafCache, o.enabled,
            (forwardLayersSt o.enabled o.model.layers o.layers x).2, if o.enabled then c else o.mixing⟩) := by
  unfold Obj.upper
  cases hx : o.model.factorize y with
  | error e' => rw [hx] at h; cases h
  | ok x' =>
    rw [hx] at h
    dsimp only
    rw [show o.model.permute x' = .ok x from h]
    dsimp only
    rw [Obj.permuted_eq ho]
    cases (forwardLayersSt o.enabled o.model.layers o.layers x).1 with
    | error e => rfl
    | ok t => cases o.model.root t <;> rfl

theorem upper_agrees {o : RObj} (hM : o.model.NoAlias) (hl : o.model.layers ≠ []) {h : Heap} (hc : o.CacheIn h) {y : Ref}
    (hy : y.addr < h.next) (key : Option Int) : Agrees o h (o.upper y h) ((o.abs h).upper key (h.val y)) := by
  obtain ⟨res, h1, e1, v1, f1, a1⟩ := Model.pre_run hM hy
  have herr : ∀ (e : Err) (h' : Heap) (ls : List (Option Cache)), Frame h h' →
      Agrees o h (.error e, { o with layers := ls }, h') (.error e, { o.abs h with layers := ls }) := by
    intro e h' ls hf
    refine ⟨rfl, ?_, hf, fun r hr => (by cases hr), fun k z hz => Or.inl hz, fun k z hz => lt_of_lt_of_le (hc k z hz) hf.le, rfl⟩
    exact congrArg (fun a : Obj => { a with layers := ls }) (abs_frame hc hf)
  unfold upper
  rw [e1]
  cases res with
  | error e =>
    rw [upper_error (o := o.abs h) (key := key) (e := e) v1.symm]
    exact herr e h1 o.layers f1
  | ok x =>
    rw [upper_ok (o := o.abs h) hM (key := key) (x := h1.val x) v1.symm]
    dsimp only
    unfold layersRef
    change Agrees o h _ (match (forwardLayersSt o.enabled o.model.layers o.layers (h1.val x)).1 with
      | .error e => (.error e, { o.abs h with layers := (forwardLayersSt o.enabled o.model.layers o.layers (h1.val x)).2 })
      | .ok t => match o.model.root t with
        | .error e => (.error e, { o.abs h with layers := (forwardLayersSt o.enabled o.model.layers o.layers (h1.val x)).2 })
        | .ok (z, c) => (.ok z, ⟨o.model, (o.abs h).leafCache, o.enabled,
            (forwardLayersSt o.enabled o.model.layers o.layers (h1.val x)).2, if o.enabled then c else o.mixing⟩))
    cases hr : (forwardLayersSt o.enabled o.model.layers o.layers (h1.val x)).1 with
    | error e => exact herr e h1 _ f1
    | ok t =>
      dsimp only
      rw [if_neg hl]
      unfold Mem.new
      dsimp only
      obtain ⟨res, h2, e2, v2, f2, f2', a2⟩ := Model.rootRef_run (M := o.model) (h0 := h) (x := (h1.new t).1)
        (f1.trans (new_frame h1 t)) f1.le (Nat.lt_succ_self _)
      rw [new_val] at v2
      rw [e2, ← v2]
      cases res with
      | error e => exact herr e h2 _ f2
      | ok p =>
        obtain ⟨z, c⟩ := p
        dsimp only [Except.map]
        refine ⟨rfl, ?_, f2, fun r hr => ?_, fun k w hw => Or.inl hw, fun k w hw => lt_of_lt_of_le (hc k w hw) f2.le, rfl⟩
        · exact congrArg (fun a : Obj => (⟨a.model, a.leafCache, a.enabled,
            (forwardLayersSt o.enabled o.model.layers o.layers (h1.val x)).2, if o.enabled then c else o.mixing⟩ : Obj)) (abs_frame hc f2)
        · obtain rfl := Except.ok.inj hr
          obtain ⟨b1, b2⟩ := a2 _ rfl
          refine ⟨b1, b2, fun k w hw => ?_⟩
          have := hc k w hw
          dsimp only at b1
          intro e
          rw [e] at this
          omega

theorem forward_agrees {o : RObj} (hM : o.model.NoAlias) (hl : o.model.layers ≠ []) {h : Heap} (hc : o.CacheIn h) {x : Ref}
    (ms : Option Scopes) (key : Option Int) : Agrees o h (o.forward x ms key h) ((o.abs h).forward (h.val x) ms key) := by
  obtain ⟨hp, ha⟩ := o.model.prepRef_val h x
  unfold forward Obj.forward
  cases hz : o.model.prepRef x with
  | error e =>
    rw [hz] at hp
    rw [show (o.abs h).model.prepInput (h.val x) = .error e from hp.symm]
    exact ⟨rfl, rfl, Frame.refl h, fun r hr => (by cases hr), fun k y hy => Or.inl hy, hc, rfl⟩
  | ok z =>
    rw [hz] at hp
    rw [show (o.abs h).model.prepInput (h.val x) = .ok (h.val z) from hp.symm]
    dsimp only
    cases hk : key.bind o.leafCache with
    | some y =>
      have hy : y.addr < h.next := by
        cases key with
        | none => cases hk
        | some k => exact hc k y hk
      rw [show key.bind (o.abs h).leafCache = some (h.val y) by
        cases key with
        | none => cases hk
        | some k => exact congrArg (Option.map h.val) hk]
      exact upper_agrees hM hl hc hy key
    | none =>
      rw [show key.bind (o.abs h).leafCache = none by
        cases key with
        | none => rfl
        | some k => exact congrArg (Option.map h.val) hk]
      have hd := o.model.leaf.forwardRef_does h z ms
      cases hr : o.model.leaf.forwardRef z ms h with
      | mk res h1 =>
        have v := hd.val
        have f := hd.frame
        have fr := hd.fresh
        rw [hr] at v f fr
        dsimp only
        rw [show (o.abs h).model.leaf.forward (h.val z) ms = res.map h1.val from v.symm]
        have hcf : o.CacheIn h1 := fun k w hw => lt_of_lt_of_le (hc k w hw) f.le
        cases res with
        | error e => exact ⟨rfl, abs_frame hc f, f, fun r hr => (by cases hr), fun k y hy => Or.inl hy, hcf, rfl⟩
        | ok y =>
          obtain ⟨b1, b2, _⟩ := fr y rfl
          dsimp only [Except.map]
          have hc' : (o.store key y).CacheIn h1 := by
            intro k w hw
            cases key with
            | none => exact hcf k w hw
            | some k' =>
              by_cases e : k = k'
              · subst e
                obtain rfl : y = w := by simpa [store] using hw
                exact b2
              · exact hcf k w (by simpa [store, Function.update_of_ne e] using hw)
          have habs : (o.store key y).abs h1 = (o.abs h).store key (h1.val y) := by
            cases key with
            | none => exact abs_frame hc f
            | some k' =>
              unfold store Obj.store
              have h0 := abs_frame hc f
              have h1' : (o.abs h1).leafCache = (o.abs h).leafCache := by rw [h0]
              dsimp only
              rw [← h0]
              unfold abs
              dsimp only
              congr 1
              funext k
              by_cases e : k = k'
              · subst e; simp
              · simp [Function.update_of_ne e]
          have hmod : (o.store key y).model = o.model := by cases key <;> rfl
          have hu := upper_agrees (o := o.store key y) (by rw [hmod]; exact hM) (by rw [hmod]; exact hl) hc' b2 key
          rw [habs] at hu
          refine ⟨hu.val, hu.obj, f.trans hu.frame, fun r hr => ?_, fun k w hw => ?_, hu.cacheIn, hu.model.trans hmod⟩
          · obtain ⟨c1, c2, c3⟩ := hu.fresh r hr
            exact ⟨f.le.trans c1, c2, c3⟩
          · rcases hu.cache k w hw with h0 | h0
            · cases key with
              | none => exact Or.inl h0
              | some k' =>
                by_cases e : k = k'
                · subst e
                  obtain rfl : y = w := by simpa [store] using h0
                  exact Or.inr b1
                · exact Or.inl (by simpa [store, Function.update_of_ne e] using h0)
            · exact Or.inr (f.le.trans h0)

/-! ### `Einet.sample` -/

theorem finishRef_does {h : Heap} {evidence : Option Ref} (samples : Tensor ℝ) {a : SampleArgs}
    (ha : a.evidence = evidence.map h.val) (hn : ∀ e, evidence = some e → numelS e.shape ≠ 0) :
    Mem.Does (finishRef evidence samples a.marginalized_scopes) h h (Model.finish a samples) False := by
  unfold finishRef Model.finish
  cases evidence with
  | none =>
    rw [ha]
    have := Mem.does_new (Frame.refl h) (samples.map .fin)
    exact ⟨this.val, this.frame, fun r hr => ⟨(this.fresh r hr).1, (this.fresh r hr).2.1, fun f => f.elim⟩⟩
  | some e =>
    rw [ha]
    dsimp only [Option.map]
    refine Mem.does_of_eq (Mem.bind_ok (x := Mem.get e) (a := h.val e) (h' := h) rfl) ?_
    refine Mem.does_of_eq (Mem.bind_ok (x := Mem.new (h.val e)) (a := (h.new (h.val e)).1) (h' := (h.new (h.val e)).2) rfl) ?_
    set t := h.val e with ht
    have hf1 : Frame h (h.new t).2 := new_frame h t
    have hvv := Ref.view_val (h.new t).2 samples.shape (h.new t).1
    rw [new_val] at hvv
    unfold Model.fill
    rw [← hvv]
    cases hv : (h.new t).1.view samples.shape with
    | error er => exact Mem.does_error (h' := (h.new t).2) (Mem.bind_error (by unfold Mem.lift; rfl)) hf1
    | ok v =>
      refine Mem.does_of_eq (Mem.bind_ok (a := v) (h' := (h.new t).2) (by unfold Mem.lift; rfl)) ?_
      refine Mem.does_of_eq (Mem.bind_ok (x := Mem.get v) (a := (h.new t).2.val v) (h' := (h.new t).2) rfl) ?_
      obtain ⟨hnum, hvr⟩ := Ref.view_ok hv
      have hshape : v.shape = samples.shape := by rw [hvr]
      have haddr : v.addr = h.next := by rw [hvr]; rfl
      have hcs : (h.new t).1.shape = e.shape := rfl
      have hpos : numelS samples.shape ≠ 0 := by rw [hnum]; exact hn e rfl
      have hinj : ∀ i j, InB v.shape i → InB v.shape j → v.idx i = v.idx j → i = j := by
        intro i j hi hj hij
        rw [hshape] at hi hj
        have h1 : unflat e.shape (flat samples.shape i) = unflat e.shape (flat samples.shape j) := by
          rw [hvr] at hij; exact hij
        have li : flat samples.shape i < numelS e.shape := by rw [← hcs, ← hnum]; exact flat_lt hi
        have lj : flat samples.shape j < numelS e.shape := by rw [← hcs, ← hnum]; exact flat_lt hj
        have h2 : flat samples.shape i = flat samples.shape j := by
          rw [← flat_unflat li, h1, flat_unflat lj]
        rw [← unflat_flat hi, h2, unflat_flat hj]
      have wr : ∀ w : List Nat → Fl, Mem.Does (Mem.bind (Mem.write v w) fun _ => Mem.lift (v.view (h.new t).1.shape)) h (h.new t).2
          ((⟨samples.shape, w⟩ : Tensor Fl).view t.shape) False := by
        intro w
        have hvw : v.view (h.new t).1.shape = .ok ⟨v.addr, e.shape, fun i => v.idx (unflat v.shape (flat e.shape i))⟩ := by
          unfold Ref.view
          rw [require_true _ (by rw [hshape]; exact hnum.symm)]
          rfl
        have hfw : (⟨samples.shape, w⟩ : Tensor Fl).view t.shape =
            .ok ⟨e.shape, fun i => w (unflat samples.shape (flat e.shape i))⟩ := by
          unfold Tensor.view Tensor.numel
          rw [require_true _ (show numelS t.shape = numelS samples.shape from hnum.symm)]
          rfl
        have hrun : Mem.bind (Mem.write v w) (fun _ => Mem.lift (v.view (h.new t).1.shape)) (h.new t).2 =
            (.ok ⟨v.addr, e.shape, fun i => v.idx (unflat v.shape (flat e.shape i))⟩, (h.new t).2.write v w) := by
          refine (Mem.bind_ok (x := Mem.write v w) (a := ()) (h' := (h.new t).2.write v w) rfl).trans ?_
          unfold Mem.lift
          rw [hvw]
        rw [hfw]
        refine ⟨?_, ?_, fun r hr => ?_⟩
        · rw [hrun]
          refine congrArg Except.ok ?_
          unfold Heap.val
          refine congrArg (Tensor.mk _) (funext fun i => ?_)
          have hin : InB v.shape (unflat v.shape (flat e.shape i)) := unflat_in (by rw [hshape]; exact hpos) _
          exact (write_get hinj w hin).trans (by rw [hshape])
        · rw [hrun]
          exact write_frame hf1 (by rw [haddr]) w
        · rw [hrun] at hr ⊢
          obtain rfl := Except.ok.inj hr
          refine ⟨by dsimp only; rw [haddr], ?_, fun f => f.elim⟩
          dsimp only
          rw [haddr]
          exact Nat.lt_succ_self _
      unfold holes
      cases a.marginalized_scopes with
      | none =>
        refine Mem.does_of_eq (Mem.bind_ok (a := fun j => (((h.new t).2.val v).get j).isnan) (h' := (h.new t).2) (x := Mem.lift (.ok fun j => (((h.new t).2.val v).get j).isnan = true)) rfl) ?_
        have := wr fun j => if (((h.new t).2.val v).get j).isnan then .fin (samples.get j) else ((h.new t).2.val v).get j
        rw [← hshape] at this
        convert this
        rfl
      | some s =>
        dsimp only
        change Mem.Does _ _ _ ((Model.indexList (samples.size 2) s).bind _) _
        cases hi : Model.indexList (samples.size 2) s with
        | error er => exact Mem.does_error (h' := (h.new t).2) (Mem.bind_error (by unfold Mem.lift; rfl)) hf1
        | ok l =>
          refine Mem.does_of_eq (Mem.bind_ok (a := fun j => at' 2 j ∈ l) (h' := (h.new t).2) (by unfold Mem.lift; rfl)) ?_
          have := wr fun j => if at' 2 j ∈ l then .fin (samples.get j) else ((h.new t).2.val v).get j
          rw [← hshape] at this
          convert this using 2
          · congr 1
            funext j
            by_cases hm : at' 2 j ∈ l
            · rw [if_pos hm]; exact (if_pos hm).symm
            · rw [if_neg hm]; exact (if_neg hm).symm
          · rfl

theorem enter_agrees {o : RObj} (hM : o.model.NoAlias) (hl : o.model.layers ≠ []) {h : Heap} (hc : o.CacheIn h)
    (evidence : Option Ref) {a : SampleArgs} (ha : a.evidence = evidence.map h.val) :
    (o.enter evidence a.marginalized_scopes h).1 = ((o.abs h).enter a).1 ∧
    (o.enter evidence a.marginalized_scopes h).2.1.abs (o.enter evidence a.marginalized_scopes h).2.2 = ((o.abs h).enter a).2 ∧
    Frame h (o.enter evidence a.marginalized_scopes h).2.2 ∧
    (∀ k y, (o.enter evidence a.marginalized_scopes h).2.1.leafCache k = some y → o.leafCache k = some y ∨ h.next ≤ y.addr) ∧
    (o.enter evidence a.marginalized_scopes h).2.1.CacheIn (o.enter evidence a.marginalized_scopes h).2.2 ∧
    (o.enter evidence a.marginalized_scopes h).2.1.model = o.model := by
  unfold enter Obj.enter
  rw [ha]
  cases evidence with
  | none => exact ⟨rfl, rfl, Frame.refl h, fun k y hy => Or.inl hy, hc, rfl⟩
  | some e =>
    have hf := forward_agrees (o := { o with enabled := true }) hM hl hc (x := e) a.marginalized_scopes none
    refine ⟨?_, hf.obj, hf.frame, hf.cache, hf.cacheIn, hf.model⟩
    have hv : _ = (({ o.abs h with enabled := true } : Obj).forward (h.val e) a.marginalized_scopes none).1 := hf.val
    dsimp only [Option.map]
    rw [← hv]
    cases (({ o with enabled := true } : RObj).forward e a.marginalized_scopes none h).1 <;> rfl

/-! ### What a call keeps, whatever the evidence -/

/-- the part of `Agrees` that does not speak about entries. -/
structure Keeps (o : RObj) (h : Heap) (p : Res Ref × RObj × Heap) : Prop where
  frame : Frame h p.2.2
  fresh : ∀ r, p.1 = .ok r → h.next ≤ r.addr ∧ r.addr < p.2.2.next ∧ ∀ k y, p.2.1.leafCache k = some y → y.addr ≠ r.addr
  cache : ∀ k y, p.2.1.leafCache k = some y → o.leafCache k = some y ∨ h.next ≤ y.addr
  cacheIn : p.2.1.CacheIn p.2.2
  model : p.2.1.model = o.model

theorem Agrees.keeps {o : RObj} {h : Heap} {p : Res Ref × RObj × Heap} {q : Res (Tensor Fl) × Obj} (a : Agrees o h p q) :
    Keeps o h p := ⟨a.frame, a.fresh, a.cache, a.cacheIn, a.model⟩

theorem finishRef_keeps {h : Heap} (evidence : Option Ref) (samples : Tensor ℝ) (s : Option Scopes) :
    Frame h (finishRef evidence samples s h).2 ∧ ∀ r, (finishRef evidence samples s h).1 = .ok r →
      h.next ≤ r.addr ∧ r.addr < (finishRef evidence samples s h).2.next := by
  unfold finishRef
  cases evidence with
  | none =>
    refine ⟨new_frame h _, fun r hr => ?_⟩
    obtain rfl := Except.ok.inj hr
    exact ⟨le_rfl, Nat.lt_succ_self _⟩
  | some e =>
    dsimp only
    rw [Mem.bind_ok (x := Mem.get e) (a := h.val e) (h' := h) rfl,
      Mem.bind_ok (x := Mem.new (h.val e)) (a := (h.new (h.val e)).1) (h' := (h.new (h.val e)).2) rfl]
    have hf1 : Frame h (h.new (h.val e)).2 := new_frame h _
    cases hv : (h.new (h.val e)).1.view samples.shape with
    | error er => exact ⟨hf1, fun r hr => by cases hr⟩
    | ok v =>
      rw [Mem.bind_ok (x := Mem.lift (.ok v)) (a := v) (h' := (h.new (h.val e)).2) rfl,
        Mem.bind_ok (x := Mem.get v) (a := (h.new (h.val e)).2.val v) (h' := (h.new (h.val e)).2) rfl]
      have hva : v.addr = h.next := by rw [(Ref.view_ok hv).2]; rfl
      cases hh : holes samples s ((h.new (h.val e)).2.val v) with
      | error er => exact ⟨hf1, fun r hr => by cases hr⟩
      | ok m =>
        rw [Mem.bind_ok (x := Mem.lift (.ok m)) (a := m) (h' := (h.new (h.val e)).2) rfl]
        refine ⟨write_frame hf1 hva.ge _, fun r hr => ?_⟩
        have hr' : v.view (h.new (h.val e)).1.shape = .ok r := hr
        have hra : r.addr = h.next := by rw [(Ref.view_ok hr').2]; exact hva
        rw [hra]
        exact ⟨le_rfl, Nat.lt_succ_self _⟩

theorem sample_keeps (G : Gen) {o : RObj} (hM : o.model.NoAlias) (hl : o.model.layers ≠ []) {h : Heap} (hc : o.CacheIn h)
    (g : G.σ) (a : SampleArgs) (evidence : Option Ref) (seed : Option Int) :
    Keeps o h ((o.sample G g a evidence seed h).1, (o.sample G g a evidence seed h).2.1, (o.sample G g a evidence seed h).2.2.2) := by
  have refl : ∀ e, Keeps o h (.error e, o, h) := fun e =>
    ⟨Frame.refl h, fun r hr => (by cases hr), fun k y hy => Or.inl hy, hc, rfl⟩
  obtain ⟨a', ha'⟩ : ∃ a' : SampleArgs, a' = { a with evidence := evidence.map h.val } := ⟨_, rfl⟩
  have hp0 : o.sample G g a evidence seed h = match a'.check o.model with
      | .error e => (.error e, o, g, h)
      | .ok _ => match o.enter evidence a'.marginalized_scopes h with
        | (.error e, o1, h) => (.error e, o1, (seed.map G.seed).getD g, h)
        | (.ok _, o1, h) => match ((o1.model.samplePath a' (o1.abs h).caches).bind o1.model.leaf.sample).run G ((seed.map G.seed).getD g) with
          | (.error e, g2) => (.error e, o1, g2, h)
          | (.ok s, g2) => match finishRef evidence s a'.marginalized_scopes h with
            | (.error e, h) => (.error e, o1, g2, h)
            | (.ok r, h) => (.ok r, o1.exit evidence, if seed.isSome then g else g2, h) := by
    rw [ha']; rfl
  rw [hp0]
  cases a'.check o.model with
  | error e => exact refl e
  | ok u =>
    obtain ⟨_, _, e3, e4, e5, e6⟩ := enter_agrees hM hl hc evidence (a := a') (by rw [ha'])
    dsimp only
    rcases hen : o.enter evidence a'.marginalized_scopes h with ⟨r1, o1, h1⟩
    rw [hen] at e3 e4 e5 e6
    dsimp only at e3 e4 e5 e6
    have herr : ∀ e, Keeps o h (.error e, o1, h1) := fun e => ⟨e3, fun r hr => (by cases hr), e4, e5, e6⟩
    cases r1 with
    | error e => exact herr e
    | ok u =>
      dsimp only
      rcases ((o1.model.samplePath a' (o1.abs h1).caches).bind o1.model.leaf.sample).run G ((seed.map G.seed).getD g) with ⟨r2, g2⟩
      cases r2 with
      | error e => exact herr e
      | ok smp =>
        dsimp only
        obtain ⟨f, fr⟩ := finishRef_keeps (h := h1) evidence smp a'.marginalized_scopes
        rcases hfr : finishRef evidence smp a'.marginalized_scopes h1 with ⟨r3, h2⟩
        rw [hfr] at f fr
        dsimp only at f fr ⊢
        have hc2 : o1.CacheIn h2 := fun k y hy => lt_of_lt_of_le (e5 k y hy) f.le
        cases r3 with
        | error e => exact ⟨e3.trans f, fun r hr => (by cases hr), e4, hc2, e6⟩
        | ok r =>
          obtain ⟨b1, b2⟩ := fr r rfl
          have hx : ((o1.exit evidence).leafCache = o1.leafCache) ∧ (o1.exit evidence).model = o1.model := by
            unfold exit; split_ifs <;> exact ⟨rfl, rfl⟩
          refine ⟨e3.trans f, fun r' hr => ?_, ?_, ?_, hx.2.trans e6⟩
          · obtain rfl := Except.ok.inj hr
            refine ⟨e3.le.trans b1, b2, fun k y hy => ?_⟩
            rw [show (o1.exit evidence).leafCache = o1.leafCache from hx.1] at hy
            have := e5 k y hy
            omega
          · intro k y hy
            rw [show (o1.exit evidence).leafCache = o1.leafCache from hx.1] at hy
            exact e4 k y hy
          · intro k y hy
            rw [show (o1.exit evidence).leafCache = o1.leafCache from hx.1] at hy
            exact hc2 k y hy

/-! ### `Einet.sample`, evidence without entries included -/

theorem finishRef_same {h : Heap} {evidence : Option Ref} (samples : Tensor ℝ) {a : SampleArgs}
    (ha : a.evidence = evidence.map h.val) :
    SameRes ((finishRef evidence samples a.marginalized_scopes h).1.map (finishRef evidence samples a.marginalized_scopes h).2.val)
      (Model.finish a samples) := by
  by_cases hn : ∀ e, evidence = some e → numelS e.shape ≠ 0
  · rw [(finishRef_does samples ha hn).val]
    exact SameRes.refl _
  push Not at hn
  obtain ⟨e, rfl, h0⟩ := hn
  have empty : ∀ t u : Tensor Fl, t.shape = e.shape → u.shape = e.shape → SameRes (.ok t) (.ok u) := fun t u ht hu =>
    ⟨ht.trans hu.symm, (AllIdx_iff _ _).2 fun i hi => absurd (numelS_pos_of_inB hi) (by rw [ht, h0]; exact lt_irrefl _)⟩
  unfold finishRef Model.finish
  rw [ha]
  dsimp only [Option.map]
  rw [Mem.bind_ok (x := Mem.get e) (a := h.val e) (h' := h) rfl,
    Mem.bind_ok (x := Mem.new (h.val e)) (a := (h.new (h.val e)).1) (h' := (h.new (h.val e)).2) rfl]
  set t := h.val e with ht
  have hvv := Ref.view_val (h.new t).2 samples.shape (h.new t).1
  rw [new_val] at hvv
  unfold Model.fill
  rw [← hvv]
  cases hv : (h.new t).1.view samples.shape with
  | error er => exact rfl
  | ok v =>
    rw [Mem.bind_ok (x := Mem.lift (.ok v)) (a := v) (h' := (h.new t).2) rfl,
      Mem.bind_ok (x := Mem.get v) (a := (h.new t).2.val v) (h' := (h.new t).2) rfl]
    obtain ⟨hnum, hvr⟩ := Ref.view_ok hv
    have hshape : v.shape = samples.shape := by rw [hvr]
    have hvw : v.view (h.new t).1.shape = .ok ⟨v.addr, e.shape, fun i => v.idx (unflat v.shape (flat e.shape i))⟩ := by
      unfold Ref.view
      rw [require_true _ (by rw [hshape]; exact hnum.symm)]
      rfl
    have hfw : ∀ w, (⟨v.shape, w⟩ : Tensor Fl).view t.shape = .ok ⟨e.shape, fun i => w (unflat v.shape (flat e.shape i))⟩ := by
      intro w
      unfold Tensor.view Tensor.numel
      rw [require_true _ (show numelS t.shape = numelS v.shape by rw [hshape]; exact hnum.symm)]
      rfl
    unfold holes
    cases a.marginalized_scopes with
    | none =>
      dsimp only
      rw [Mem.bind_ok (x := Mem.lift (.ok _)) (h' := (h.new t).2) rfl]
      unfold Mem.bind Mem.write Mem.lift
      dsimp only
      rw [hvw]
      change SameRes _ ((⟨v.shape, _⟩ : Tensor Fl).view t.shape)
      rw [hfw]
      exact empty _ _ rfl rfl
    | some s =>
      dsimp only
      cases hi : Model.indexList (samples.size 2) s with
      | error er => exact rfl
      | ok l =>
        dsimp only [Except.map]
        rw [Mem.bind_ok (x := Mem.lift (.ok _)) (h' := (h.new t).2) rfl]
        unfold Mem.bind Mem.write Mem.lift
        dsimp only
        rw [hvw]
        change SameRes _ ((⟨v.shape, _⟩ : Tensor Fl).view t.shape)
        rw [hfw]
        exact empty _ _ rfl rfl

theorem sample_agrees (G : Gen) {o : RObj} (hM : o.model.NoAlias) (hl : o.model.layers ≠ []) {h : Heap} (hc : o.CacheIn h)
    (g : G.σ) (a : SampleArgs) {evidence : Option Ref} (he : ∀ e, evidence = some e → e.addr < h.next) (seed : Option Int) :
    SameRes ((o.sample G g a evidence seed h).1.map (o.sample G g a evidence seed h).2.2.2.val)
      ((o.abs h).sample G g { a with evidence := evidence.map h.val } seed).1 ∧
    (o.sample G g a evidence seed h).2.1.abs (o.sample G g a evidence seed h).2.2.2 =
      ((o.abs h).sample G g { a with evidence := evidence.map h.val } seed).2.1 ∧
    (o.sample G g a evidence seed h).2.2.1 = ((o.abs h).sample G g { a with evidence := evidence.map h.val } seed).2.2 := by
  obtain ⟨a', ha'⟩ : ∃ a' : SampleArgs, a' = { a with evidence := evidence.map h.val } := ⟨_, rfl⟩
  have hp0 : o.sample G g a evidence seed h = match a'.check o.model with
      | .error e => (.error e, o, g, h)
      | .ok _ => match o.enter evidence a'.marginalized_scopes h with
        | (.error e, o1, h) => (.error e, o1, (seed.map G.seed).getD g, h)
        | (.ok _, o1, h) => match ((o1.model.samplePath a' (o1.abs h).caches).bind o1.model.leaf.sample).run G ((seed.map G.seed).getD g) with
          | (.error e, g2) => (.error e, o1, g2, h)
          | (.ok s, g2) => match finishRef evidence s a'.marginalized_scopes h with
            | (.error e, h) => (.error e, o1, g2, h)
            | (.ok r, h) => (.ok r, o1.exit evidence, if seed.isSome then g else g2, h) := by
    rw [ha']; rfl
  have hq0 : (o.abs h).sample G g a' seed = match a'.check o.model with
      | .error e => (.error e, o.abs h, g)
      | .ok _ => match (o.abs h).enter a' with
        | (.error e, o1) => (.error e, o1, (seed.map G.seed).getD g)
        | (.ok _, o1) => match (o1.body a').run G ((seed.map G.seed).getD g) with
          | (.error e, g2) => (.error e, o1, g2)
          | (.ok s, g2) => (.ok s, o1.exit a', if seed.isSome then g else g2) := rfl
  rw [← ha', hp0, hq0]
  clear hp0 hq0
  cases hch : a'.check o.model with
  | error e => exact ⟨rfl, rfl, rfl⟩
  | ok u =>
    dsimp only
    obtain ⟨e1, e2, e3, e4, e5, e6⟩ := enter_agrees hM hl hc evidence (a := a') (by rw [ha'])
    rcases hen : o.enter evidence a'.marginalized_scopes h with ⟨r1, o1, h1⟩
    rcases hob : (o.abs h).enter a' with ⟨r1', o1'⟩
    rw [hen, hob] at e1
    rw [hen, hob] at e2
    rw [hen] at e3 e4 e5 e6
    dsimp only at e1 e2 e3 e4 e5 e6
    subst e1 e2
    cases r1 with
    | error e => exact ⟨rfl, rfl, rfl⟩
    | ok u =>
      dsimp only
      have hbody : (o1.abs h1).body a' =
          ((o1.model.samplePath a' (o1.abs h1).caches).bind o1.model.leaf.sample).bind fun s => Rand.lift (Model.finish a' s) := by
        unfold Obj.body
        exact (Rand.bind_assoc _ _ _).symm
      obtain ⟨x, hx⟩ : ∃ x, x = (o1.model.samplePath a' (o1.abs h1).caches).bind o1.model.leaf.sample := ⟨_, rfl⟩
      rw [hbody, ← hx, Rand.run_bind]
      rcases hrun : x.run G ((seed.map G.seed).getD g) with ⟨r2, g2⟩
      cases r2 with
      | error e => exact ⟨rfl, rfl, rfl⟩
      | ok smp =>
        dsimp only
        rw [Rand.run_lift]
        have hval : a'.evidence = evidence.map h1.val := by
          rw [ha']
          cases evidence with
          | none => rfl
          | some e => exact congrArg some (e3.val (he e rfl)).symm
        have v := finishRef_same (h := h1) smp hval
        obtain ⟨f, _⟩ := finishRef_keeps (h := h1) evidence smp a'.marginalized_scopes
        rcases hfr : finishRef evidence smp a'.marginalized_scopes h1 with ⟨r3, h2⟩
        rw [hfr] at v f
        dsimp only at v f ⊢
        cases r3 with
        | error e =>
          cases hq : Model.finish a' smp with
          | ok t => rw [hq] at v; exact v.elim
          | error e' =>
            rw [hq] at v
            exact ⟨v, abs_frame e5 f, rfl⟩
        | ok r =>
          cases hq : Model.finish a' smp with
          | error e' => rw [hq] at v; exact v.elim
          | ok t =>
            rw [hq] at v
            refine ⟨v, ?_, rfl⟩
            have h0 := abs_frame e5 f
            dsimp only
            unfold exit Obj.exit
            rw [ha']
            cases evidence with
            | none => exact h0
            | some e =>
              exact congrArg (fun a : Obj => { a with enabled := false, layers := [], mixing := none }) h0

end RObj

end Einet
