import Verif.State
import Verif.BuildWF

/-!
# Facts about calls on an object
-/

open Classical
noncomputable section
namespace Einet
open Tensor

theorem forwardLayersSt_fst (en : Bool) (ls : List Layer) (cs : List (Option Cache)) (x : Tensor Fl) :
    (forwardLayersSt en ls cs x).1 = (forwardLayers ls x).map Prod.fst := by
  induction ls generalizing cs x with
  | nil => rfl
  | cons l ls ih =>
    unfold forwardLayersSt forwardLayers
    cases h : l.forward none x with
    | error e => rfl
    | ok p =>
      obtain ⟨y, c⟩ := p
      simp only [ih, Res.ok_bind]
      cases forwardLayers ls y <;> rfl

theorem forwardLayersSt_off (ls : List Layer) (cs : List (Option Cache)) (x : Tensor Fl) :
    (forwardLayersSt false ls cs x).2 = cs := by
  cases ls with
  | nil => rfl
  | cons l ls =>
    unfold forwardLayersSt
    cases h : l.forward none x with
    | error e => rfl
    | ok p => rfl

theorem forwardLayersSt_on {ls : List Layer} {cs : List (Option Cache)} {x : Tensor Fl} {z : Tensor Fl}
    {c : List (Option Cache)} (h : forwardLayers ls x = .ok (z, c)) : (forwardLayersSt true ls cs x).2 = c := by
  induction ls generalizing cs x z c with
  | nil =>
    unfold forwardLayers at h
    cases h
    rfl
  | cons l ls ih =>
    unfold forwardLayers at h
    obtain ⟨⟨y, c0⟩, h0, h⟩ := bind_ok h
    obtain ⟨⟨z', c1⟩, h1, h⟩ := bind_ok h
    simp only [Res.pure_eq, Except.ok.injEq, Prod.mk.injEq] at h
    unfold forwardLayersSt
    rw [h0]
    simp only [ih h1, if_true]
    exact h.2

/-- the in-place permutation cannot reach the leaf cache. -/
def Model.NoAlias (M : Model) : Prop := M.permutation.isSome = true → ∃ b, M.leaf = .direct b

/-- input caches disabled and empty. -/
def Obj.Clean (o : Obj) : Prop := o.enabled = false ∧ o.layers = [] ∧ o.mixing = none

namespace Obj

theorem permuted_eq {o : Obj} (h : o.model.NoAlias) (key : Option Int) (x : Tensor Fl) : o.permuted key x = o := by
  unfold permuted
  cases hp : o.model.permutation with
  | none => cases o.model.leaf <;> rfl
  | some p =>
    obtain ⟨b, hb⟩ := h (by rw [hp]; rfl)
    rw [hb]

theorem permuted_none (o : Obj) (x : Tensor Fl) : o.permuted none x = o := by
  unfold permuted store
  cases o.model.leaf <;> cases o.model.permutation <;> rfl

theorem permuted_frame (o : Obj) (key : Option Int) (x : Tensor Fl) : (o.permuted key x).model = o.model ∧
    (o.permuted key x).enabled = o.enabled ∧ (o.permuted key x).layers = o.layers ∧ (o.permuted key x).mixing = o.mixing := by
  unfold permuted store
  cases o.model.leaf <;> cases o.model.permutation <;> cases key <;> simp

/-- what `upper` does to the object. -/
theorem upper_spec (o : Obj) (key : Option Int) (y : Tensor Fl) :
    (o.upper key y).1 = (o.model.upper y).map Prod.fst ∧ (o.upper key y).2.model = o.model ∧
    (o.upper key y).2.enabled = o.enabled ∧
    (o.enabled = false → (o.upper key y).2.layers = o.layers ∧ (o.upper key y).2.mixing = o.mixing) ∧
    (∀ z cs, o.enabled = true → o.model.upper y = .ok (z, cs) →
      (o.upper key y).2.layers = cs.layers ∧ (o.upper key y).2.mixing = cs.mixing) ∧
    (key = none ∨ o.model.NoAlias → (o.upper key y).2.leafCache = o.leafCache) := by
  have hz : ∀ (r : Res (Tensor Fl)) (q : Res (Tensor Fl × Caches)) (o' : Obj), o.upper key y = (r, o') → o.model.upper y = q →
      r = q.map Prod.fst → o'.model = o.model → o'.enabled = o.enabled →
      (o.enabled = false → o'.layers = o.layers ∧ o'.mixing = o.mixing) →
      (∀ z cs, o.enabled = true → q = .ok (z, cs) → o'.layers = cs.layers ∧ o'.mixing = cs.mixing) →
      (key = none ∨ o.model.NoAlias → o'.leafCache = o.leafCache) →
    (o.upper key y).1 = (o.model.upper y).map Prod.fst ∧ (o.upper key y).2.model = o.model ∧
    (o.upper key y).2.enabled = o.enabled ∧
    (o.enabled = false → (o.upper key y).2.layers = o.layers ∧ (o.upper key y).2.mixing = o.mixing) ∧
    (∀ z cs, o.enabled = true → o.model.upper y = .ok (z, cs) →
      (o.upper key y).2.layers = cs.layers ∧ (o.upper key y).2.mixing = cs.mixing) ∧
    (key = none ∨ o.model.NoAlias → (o.upper key y).2.leafCache = o.leafCache) := by
    intro r q o' h1 h2 h3 h4 h5 h6 h7 h8
    rw [h1, h2]
    exact ⟨h3, h4, h5, h6, h7, h8⟩
  cases hf : o.model.factorize y with
  | error e =>
    refine hz (.error e) (.error e) o ?_ ?_ rfl rfl rfl (fun _ => ⟨rfl, rfl⟩) (fun _ _ _ h => nomatch h) fun _ => rfl
    · unfold upper; rw [hf]
    · unfold Model.upper; rw [hf]; rfl
  | ok x =>
    cases hp : o.model.permute x with
    | error e =>
      refine hz (.error e) (.error e) o ?_ ?_ rfl rfl rfl (fun _ => ⟨rfl, rfl⟩) (fun _ _ _ h => nomatch h) fun _ => rfl
      · unfold upper; rw [hf]; dsimp only; rw [hp]
      · unfold Model.upper; rw [hf, Res.ok_bind, hp]; rfl
    | ok x' =>
      obtain ⟨e1, e2, e3, e4⟩ := o.permuted_frame key x'
      have e5 : key = none ∨ o.model.NoAlias → (o.permuted key x').leafCache = o.leafCache := by
        rintro (rfl | h)
        · rw [permuted_none]
        · rw [permuted_eq h]
      have hfst := forwardLayersSt_fst o.enabled o.model.layers o.layers x'
      have hoff : o.enabled = false → (forwardLayersSt o.enabled o.model.layers o.layers x').2 = o.layers := fun h => by
        rw [h]; exact forwardLayersSt_off _ _ _
      cases hl : forwardLayers o.model.layers x' with
      | error e =>
        rw [hl] at hfst
        refine hz (.error e) (.error e) { o.permuted key x' with layers := (forwardLayersSt o.enabled o.model.layers o.layers x').2 }
          ?_ ?_ rfl e1 e2 (fun h => ⟨hoff h, e4⟩) (fun _ _ _ h => nomatch h) e5
        · unfold upper; rw [hf]; dsimp only; rw [hp]; dsimp only; rw [e1, e2, e3, hfst]; rfl
        · unfold Model.upper; rw [hf, Res.ok_bind, hp, Res.ok_bind, hl]; rfl
      | ok p =>
        obtain ⟨u, cl⟩ := p
        have hon : o.enabled = true → (forwardLayersSt o.enabled o.model.layers o.layers x').2 = cl := fun h => by
          rw [h]; exact forwardLayersSt_on hl
        rw [hl] at hfst
        replace hfst : _ = Except.ok u := hfst
        cases hr : o.model.root u with
        | error e =>
          refine hz (.error e) (.error e) { o.permuted key x' with layers := (forwardLayersSt o.enabled o.model.layers o.layers x').2 }
            ?_ ?_ rfl e1 e2 (fun h => ⟨hoff h, e4⟩) (fun _ _ _ h => nomatch h) e5
          · unfold upper; rw [hf]; dsimp only; rw [hp]; dsimp only; rw [e1, e2, e3, hfst]; dsimp only; rw [hr, ← e1, ← e2]
          · unfold Model.upper; rw [hf, Res.ok_bind, hp, Res.ok_bind, hl, Res.ok_bind]; dsimp only; rw [hr]; rfl
        | ok q =>
          obtain ⟨z, c⟩ := q
          refine hz (.ok z) (.ok (z, ⟨cl, c⟩)) { o.permuted key x' with
              layers := (forwardLayersSt o.enabled o.model.layers o.layers x').2,
              mixing := if o.enabled then c else o.mixing }
            ?_ ?_ rfl e1 e2 (fun h => ⟨hoff h, by simp [h]⟩) (fun z' cs hen h => ?_) e5
          · unfold upper; rw [hf]; dsimp only; rw [hp]; dsimp only; rw [e1, e2, e3, e4, hfst]; dsimp only
            rw [hr, ← e1, ← e2]
          · unfold Model.upper; rw [hf, Res.ok_bind, hp, Res.ok_bind, hl, Res.ok_bind]; dsimp only; rw [hr]; rfl
          · cases h
            exact ⟨hon hen, by simp [hen]⟩

theorem store_frame (o : Obj) (key : Option Int) (y : Tensor Fl) : (o.store key y).model = o.model ∧
    (o.store key y).enabled = o.enabled ∧ (o.store key y).layers = o.layers ∧ (o.store key y).mixing = o.mixing := by
  unfold store
  cases key <;> simp

/-- the leaf output of an uncached call. -/
def _root_.Einet.Model.leafOut (M : Model) (x : Tensor Fl) (s : Option Scopes) : Res (Tensor Fl) :=
  M.prepInput x >>= fun x => M.leaf.forward x s

theorem _root_.Einet.Model.run_eq (M : Model) (x : Tensor Fl) (s : Option Scopes) :
    M.run x s = M.leafOut x s >>= M.upper := by
  unfold Model.run Model.leafOut
  cases M.prepInput x with
  | error e => rfl
  | ok x => rfl

/-- what a forward call does to the object, apart from the leaf cache. -/
theorem forward_frame (o : Obj) (x : Tensor Fl) (s : Option Scopes) (key : Option Int) :
    (o.forward x s key).2.model = o.model ∧ (o.forward x s key).2.enabled = o.enabled ∧
    (o.enabled = false → (o.forward x s key).2.layers = o.layers ∧ (o.forward x s key).2.mixing = o.mixing) := by
  unfold forward
  cases hp : o.model.prepInput x with
  | error e => exact ⟨rfl, rfl, fun _ => ⟨rfl, rfl⟩⟩
  | ok x' =>
    dsimp only
    cases hk : key.bind o.leafCache with
    | some y =>
      obtain ⟨_, h1, h2, h3, _⟩ := o.upper_spec key y
      exact ⟨h1, h2, h3⟩
    | none =>
      dsimp only
      cases hl : o.model.leaf.forward x' s with
      | error e => exact ⟨rfl, rfl, fun _ => ⟨rfl, rfl⟩⟩
      | ok y =>
        obtain ⟨_, h1, h2, h3, _⟩ := (o.store key y).upper_spec key y
        obtain ⟨e1, e2, e3, e4⟩ := o.store_frame key y
        refine ⟨h1.trans e1, h2.trans e2, fun h => ?_⟩
        have := h3 (e2.trans h)
        exact ⟨this.1.trans e3, this.2.trans e4⟩

/-- a forward call whose key is absent, or maps to the right value, returns the uncached value. -/
theorem forward_fst (o : Obj) (x : Tensor Fl) (s : Option Scopes) (key : Option Int)
    (h : ∀ y, key.bind o.leafCache = some y → o.model.leafOut x s = .ok y) :
    (o.forward x s key).1 = o.model.forward x s := by
  unfold Model.forward
  rw [Model.run_eq]
  unfold forward
  cases hp : o.model.prepInput x with
  | error e =>
    unfold Model.leafOut
    rw [hp]
    rfl
  | ok x' =>
    dsimp only
    cases hk : key.bind o.leafCache with
    | some y =>
      rw [h y hk]
      exact (o.upper_spec key y).1
    | none =>
      unfold Model.leafOut
      rw [hp]
      simp only [Res.ok_bind]
      cases hl : o.model.leaf.forward x' s with
      | error e => rfl
      | ok y =>
        dsimp only
        rw [((o.store key y).upper_spec key y).1, (o.store_frame key y).1]
        rfl

/-- the leaf cache after a forward call. -/
theorem forward_leafCache (o : Obj) (hn : o.model.NoAlias) (x : Tensor Fl) (s : Option Scopes) (key : Option Int) (k : Int)
    (y : Tensor Fl) (h : (o.forward x s key).2.leafCache k = some y) :
    o.leafCache k = some y ∨ (key = some k ∧ o.model.leafOut x s = .ok y) := by
  unfold forward at h
  cases hp : o.model.prepInput x with
  | error e => rw [hp] at h; exact Or.inl h
  | ok x' =>
    rw [hp] at h
    dsimp only at h
    cases hk : key.bind o.leafCache with
    | some z =>
      rw [hk] at h
      dsimp only at h
      rw [(o.upper_spec key z).2.2.2.2.2 (Or.inr hn)] at h
      exact Or.inl h
    | none =>
      rw [hk] at h
      dsimp only at h
      cases hl : o.model.leaf.forward x' s with
      | error e => rw [hl] at h; exact Or.inl h
      | ok z =>
        rw [hl] at h
        dsimp only at h
        rw [((o.store key z).upper_spec key z).2.2.2.2.2 (Or.inr (by rw [(o.store_frame key z).1]; exact hn))] at h
        cases key with
        | none => exact Or.inl h
        | some k' =>
          unfold store at h
          dsimp only at h
          by_cases e : k = k'
          · subst e
            rw [Function.update_self] at h
            refine Or.inr ⟨rfl, ?_⟩
            unfold Model.leafOut
            rw [hp]
            cases h
            exact hl
          · rw [Function.update_of_ne e] at h
            exact Or.inl h

/-- without a key the leaf cache is not touched. -/
theorem forward_nokey (o : Obj) (x : Tensor Fl) (s : Option Scopes) : (o.forward x s none).2.leafCache = o.leafCache := by
  unfold forward
  cases hp : o.model.prepInput x with
  | error e => rfl
  | ok x' =>
    dsimp only [Option.bind_none]
    cases hl : o.model.leaf.forward x' s with
    | error e => rfl
    | ok z => exact ((o.store none z).upper_spec none z).2.2.2.2.2 (Or.inl rfl)

/-- a successful call without a key and with enabled caches fills them with its own inputs. -/
theorem forward_fill (o : Obj) (he : o.enabled = true) (x : Tensor Fl) (s : Option Scopes) {z : Tensor Fl} {cs : Caches}
    (h : o.model.run x s = .ok (z, cs)) :
    (o.forward x s none).2.layers = cs.layers ∧ (o.forward x s none).2.mixing = cs.mixing := by
  unfold Model.run at h
  obtain ⟨x', hp, h⟩ := bind_ok h
  obtain ⟨y, hl, h⟩ := bind_ok h
  unfold forward
  rw [hp]
  dsimp only [Option.bind_none]
  rw [hl]
  exact ((o.store none y).upper_spec none y).2.2.2.2.1 z cs he h

/-! ### Sampling -/

theorem Clean.caches {o : Obj} (h : o.Clean) : o.caches = ⟨[], none⟩ := by
  unfold Obj.caches
  rw [h.1]
  rfl

/-- the object after the entry of the context. -/
theorem enter_spec (o : Obj) (a : SampleArgs) : (o.enter a).2.model = o.model ∧ (o.enter a).2.leafCache = o.leafCache ∧
    (a.evidence = none → o.enter a = (.ok (), o)) ∧
    (∀ e, a.evidence = some e → (o.enter a).1 = (o.model.run e a.marginalized_scopes).map (fun _ => ()) ∧
      (o.enter a).2.enabled = true) := by
  unfold enter
  cases he : a.evidence with
  | none => exact ⟨rfl, rfl, fun _ => rfl, fun e h => (nomatch h)⟩
  | some e =>
    dsimp only
    obtain ⟨h1, h2, _⟩ := ({ o with enabled := true } : Obj).forward_frame e a.marginalized_scopes none
    refine ⟨h1, ({ o with enabled := true } : Obj).forward_nokey e _, fun h => (nomatch h), fun e' h' => ?_⟩
    obtain rfl : e = e' := Option.some.inj h'
    refine ⟨?_, h2⟩
    rw [({ o with enabled := true } : Obj).forward_fst e a.marginalized_scopes none (fun y h => by simp at h)]
    unfold Model.forward
    cases o.model.run e a.marginalized_scopes <;> rfl

/-- on an object with clean caches, a `sample` call runs the program `Model.sample`. -/
theorem sample_clean (G : Gen) {o : Obj} (h : o.Clean) (g : G.σ) (a : SampleArgs) (seed : Option Int) :
    (o.sample G g a seed).1 = ((o.model.sample a).run G ((seed.map G.seed).getD g)).1 := by
  unfold sample Model.sample
  rw [Rand.run_bind, Rand.run_lift]
  cases hc : a.check o.model with
  | error e => rfl
  | ok u =>
    dsimp only
    rw [Rand.run_bind, Rand.run_lift]
    obtain ⟨h1, h2, h3, h4⟩ := o.enter_spec a
    have hbody : ∀ cs, o.model.evidenceCaches a = .ok cs → ((o.enter a).2.body a) =
        ((o.model.samplePath a cs).bind fun ctx =>
        (o.model.leaf.sample ctx).bind fun samples => Rand.lift (Model.finish a samples)) := by
      intro cs hcs
      unfold body
      rw [h1]
      suffices (o.enter a).2.caches = cs by rw [this]
      unfold Model.evidenceCaches at hcs
      cases he : a.evidence with
      | none =>
        rw [he] at hcs
        rw [h3 he]
        rw [h.caches]
        exact Except.ok.inj hcs
      | some e =>
        rw [he] at hcs
        dsimp only at hcs
        unfold Obj.caches
        rw [(h4 e he).2, if_pos rfl]
        cases hr : o.model.run e a.marginalized_scopes with
        | error e' => rw [hr] at hcs; cases hcs
        | ok p =>
          obtain ⟨z, cs'⟩ := p
          rw [hr] at hcs
          obtain rfl : cs' = cs := Except.ok.inj hcs
          have := ({ o with enabled := true } : Obj).forward_fill rfl e a.marginalized_scopes hr
          unfold enter
          rw [he]
          dsimp only
          rw [this.1, this.2]
    have hres : (o.enter a).1 = (o.model.evidenceCaches a).map fun _ => () := by
      unfold Model.evidenceCaches
      cases he : a.evidence with
      | none => rw [h3 he]; rfl
      | some e =>
        rw [(h4 e he).1]
        dsimp only
        cases o.model.run e a.marginalized_scopes <;> rfl
    cases hcs : o.model.evidenceCaches a with
    | error e =>
      rw [hcs] at hres
      have : o.enter a = (.error e, (o.enter a).2) := Prod.ext hres rfl
      rw [this]
    | ok cs =>
      rw [hcs] at hres
      have : o.enter a = (.ok (), (o.enter a).2) := Prod.ext hres rfl
      rw [this]
      dsimp only
      rw [hbody cs hcs]
      rcases (((o.model.samplePath a cs).bind fun ctx =>
        (o.model.leaf.sample ctx).bind fun samples => Rand.lift (Model.finish a samples)).run G
          ((seed.map G.seed).getD g)) with ⟨r, s'⟩
      cases r <;> rfl

/-- what a `sample` call does to the object and the generator. -/
theorem sample_frame (G : Gen) (o : Obj) (g : G.σ) (a : SampleArgs) (seed : Option Int) :
    (o.sample G g a seed).2.1.model = o.model ∧ (o.sample G g a seed).2.1.leafCache = o.leafCache ∧
    (a.evidence = none → (o.sample G g a seed).2.1 = o) ∧
    (∀ t, (o.sample G g a seed).1 = .ok t → (a.evidence.isSome = true → (o.sample G g a seed).2.1.Clean) ∧
      (seed.isSome = true → (o.sample G g a seed).2.2 = g)) ∧
    (∀ e, a.check o.model = .error e → (o.sample G g a seed) = (.error e, o, g)) := by
  unfold sample
  cases hc : a.check o.model with
  | error e => exact ⟨rfl, rfl, fun _ => rfl, fun t h => (nomatch h), fun e' h => (by cases h; rfl)⟩
  | ok u =>
    dsimp only
    obtain ⟨h1, h2, h3, h4⟩ := o.enter_spec a
    rcases hq : o.enter a with ⟨r, o1⟩
    rw [hq] at h1 h2 h3 h4
    cases r with
    | error e => exact ⟨h1, h2, fun he => (nomatch h3 he), fun t h => (nomatch h), fun e' h => (nomatch h)⟩
    | ok u =>
      dsimp only
      have h5 : a.evidence = none → o1 = o := fun he => congrArg Prod.snd (h3 he)
      rcases hr : (o1.body a).run G ((seed.map G.seed).getD g) with ⟨r, g2⟩
      cases r with
      | error e => exact ⟨h1, h2, fun he => h5 he, fun t h => (nomatch h), fun e' h => (nomatch h)⟩
      | ok s =>
        refine ⟨?_, ?_, fun he => ?_, fun t h => ⟨fun he => ?_, fun hs => by dsimp only; rw [if_pos hs]⟩, fun e' h => (nomatch h)⟩
        all_goals dsimp only; unfold exit
        · split_ifs <;> exact h1
        · split_ifs <;> exact h2
        · rw [he]; exact h5 he
        · rw [if_pos he]
          exact ⟨rfl, rfl, rfl⟩

end Obj
end Einet
