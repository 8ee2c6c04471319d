import Verif.StateFacts
import Verif.PropsMax

/-!
# Properties of calls in sequence: C09, C18, C19
-/

open Classical MeasureTheory
open scoped ENNReal
noncomputable section
namespace Einet
namespace Props
open Tensor Einet

/-! ### Specification -/

/-- the parameters in force after a history: the last ones set. -/
def current (M : Model) (h : List Call) : Model :=
  h.foldl (fun M c => match c with | .update M' => M' | _ => M) M

/-- parameter changes lead to models of valid configurations. -/
def Updates (h : List Call) : Prop := ∀ M', Call.update M' ∈ h → ∃ c P, build c P = .ok M'

/-- key `k` has been used with input `x`, `s` only, and for the present parameters only, since the last reset. -/
def UsedFor (h : List Call) (k : Int) (x : Tensor Fl) (s : Option Scopes) : Prop :=
  ∀ pre x' s' mid, h = pre ++ .forward x' s' (some k) :: mid → Call.resetCache ∉ mid →
    x' = x ∧ s' = s ∧ ∀ M', Call.update M' ∉ mid

/-- no call with evidence was aborted by an exception after its argument checks. -/
def NoAbort (G : Gen) (M : Model) (g : G.σ) (h : List Call) : Prop :=
  ∀ pre a seed mid, h = pre ++ .sample a seed :: mid → a.evidence.isSome = true →
    a.check (current M pre) = .ok () →
    ∃ t, (Call.exec G (.sample a seed) (after G pre (Obj.fresh M, g))).1 = some (.ok t)

/-- a call of `sample` or `mpe` with evidence that meets the requirements of C15. -/
def ValidEvidence (M : Model) (a : SampleArgs) (x : Tensor Fl) : Prop :=
  ∃ (c : Config) (P : Params) (N : Nat), P.Random ∧ P.leaf.Good ∧ P.leaf.CanSample ∧ build c P = .ok M ∧ 0 < N ∧
    Evidence M P.leaf N a.marginalized_scopes x ∧ a.num_samples = none ∧ a.class_index = none ∧ a.temperature_sums ≠ 0

/-! ### Lemmas -/

theorem build_noAlias {c : Config} {P : Params} {M : Model} (h : build c P = .ok M) : M.NoAlias := by
  unfold build at h
  obtain ⟨_, _, h⟩ := bind_ok h
  split_ifs at h
  · unfold buildTopDown at h
    obtain ⟨⟨l, O⟩, _, h⟩ := bind_ok h
    obtain ⟨_, _, h⟩ := bind_ok h
    obtain ⟨_, _, h⟩ := bind_ok h
    simp only [Res.pure_eq, Except.ok.injEq] at h
    rw [← h]
    intro hp
    simp at hp
  · unfold buildBottomUp at h
    obtain ⟨_, _, h⟩ := bind_ok h
    obtain ⟨B, _, h⟩ := bind_ok h
    obtain ⟨_, _, h⟩ := bind_ok h
    simp only [Res.pure_eq, Except.ok.injEq] at h
    rw [← h]
    exact fun _ => ⟨B, rfl⟩

theorem after_snoc (G : Gen) (h : List Call) (c : Call) (s : Obj × G.σ) :
    after G (h ++ [c]) s = (c.exec G (after G h s)).2 := by
  unfold after
  rw [List.foldl_append]
  rfl

theorem current_snoc (M : Model) (h : List Call) (c : Call) :
    current M (h ++ [c]) = (match c with | .update M' => M' | _ => current M h) := by
  unfold current
  rw [List.foldl_append]
  rfl

theorem after_model (G : Gen) (M : Model) (g : G.σ) (h : List Call) :
    (after G h (Obj.fresh M, g)).1.model = current M h := by
  induction h using List.reverseRecOn with
  | nil => rfl
  | append_singleton h c ih =>
    rw [after_snoc, current_snoc]
    rcases hs : after G h (Obj.fresh M, g) with ⟨o, g'⟩
    rw [hs] at ih
    cases c with
    | forward x s k => exact (o.forward_frame x s k).1.trans ih
    | resetCache => exact ih
    | sample a seed => exact (o.sample_frame G g' a seed).1.trans ih
    | update M' => rfl

theorem current_noAlias {M : Model} (hM : M.NoAlias) {h : List Call} (hu : Updates h) : (current M h).NoAlias := by
  induction h using List.reverseRecOn with
  | nil => exact hM
  | append_singleton h c ih =>
    rw [current_snoc]
    have := ih fun M' hM' => hu M' (by simp [hM'])
    cases c with
    | update M' =>
      obtain ⟨c, P, hb⟩ := hu M' (by simp)
      exact build_noAlias hb
    | forward _ _ _ => exact this
    | resetCache => exact this
    | sample _ _ => exact this

/-- every entry of the leaf cache comes from a call since the last reset, and is its leaf output if the parameters have not
changed since. -/
theorem leafCache_inv (G : Gen) {M : Model} (hM : M.NoAlias) (g : G.σ) {h : List Call} (hu : Updates h) (k : Int) (y : Tensor Fl)
    (hy : (after G h (Obj.fresh M, g)).1.leafCache k = some y) :
    ∃ pre x s mid, h = pre ++ .forward x s (some k) :: mid ∧ Call.resetCache ∉ mid ∧
      ((∀ M', Call.update M' ∉ mid) → (current M h).leafOut x s = .ok y) := by
  induction h using List.reverseRecOn generalizing y with
  | nil => cases hy
  | append_singleton h c ih =>
    have hu' : Updates h := fun M' hM' => hu M' (by simp [hM'])
    have ih := ih hu'
    have hmod := after_model G M g h
    rw [after_snoc] at hy
    rw [current_snoc]
    rcases hs : after G h (Obj.fresh M, g) with ⟨o, g'⟩
    rw [hs] at ih hy hmod
    -- an entry that was there before
    have old : ∀ y, o.leafCache k = some y → c ≠ .resetCache → ∃ pre x s mid, h ++ [c] = pre ++ .forward x s (some k) :: mid ∧
        Call.resetCache ∉ mid ∧ ((∀ M', Call.update M' ∉ mid) →
          (match c with | .update M' => M' | _ => current M h).leafOut x s = .ok y) := by
      intro y hy hc
      obtain ⟨pre, x, s, mid, h1, h2, h3⟩ := ih y hy
      refine ⟨pre, x, s, mid ++ [c], by rw [h1]; simp, by simp [h2, Ne.symm hc], fun hup => ?_⟩
      have := h3 fun M' hm => hup M' (by simp [hm])
      cases c with
      | update M' => exact absurd (by simp) (hup M')
      | forward _ _ _ => exact this
      | resetCache => exact this
      | sample _ _ => exact this
    cases c with
    | resetCache => cases hy
    | update M' => exact old y hy (by simp)
    | sample a seed =>
      refine old y ?_ (by simp)
      rw [← (o.sample_frame G g' a seed).2.1]
      exact hy
    | forward x s key =>
      rcases o.forward_leafCache (by rw [hmod]; exact current_noAlias hM hu') x s key k y hy with h0 | ⟨rfl, h0⟩
      · exact old y h0 (by simp)
      · exact ⟨h, x, s, [], rfl, by simp, fun _ => by rw [← hmod]; exact h0⟩

/-- histories without aborted calls leave the input caches disabled and empty. -/
theorem clean_inv (G : Gen) (M : Model) (g : G.σ) {h : List Call} (hn : NoAbort G M g h) :
    (after G h (Obj.fresh M, g)).1.Clean := by
  induction h using List.reverseRecOn with
  | nil => exact ⟨rfl, rfl, rfl⟩
  | append_singleton h c ih =>
    have ih := ih fun pre a seed mid e => hn pre a seed (mid ++ [c]) (by rw [e]; simp)
    have hmod := after_model G M g h
    have hc := hn h
    rw [after_snoc]
    rcases hs : after G h (Obj.fresh M, g) with ⟨o, g'⟩
    rw [hs] at ih hmod hc
    cases c with
    | resetCache => exact ih
    | update M' => exact ih
    | forward x s key =>
      obtain ⟨_, h2, h3⟩ := o.forward_frame x s key
      exact ⟨h2.trans ih.1, (h3 ih.1).1.trans ih.2.1, (h3 ih.1).2.trans ih.2.2⟩
    | sample a seed =>
      obtain ⟨_, _, h3, h4, h5⟩ := o.sample_frame G g' a seed
      show (o.sample G g' a seed).2.1.Clean
      by_cases he : a.evidence.isSome = true
      · cases hch : a.check o.model with
        | error e => rw [h5 e hch]; exact ih
        | ok u =>
          obtain ⟨t, ht⟩ := hc a seed [] rfl he (by rw [← hmod]; exact hch)
          exact (h4 t (Option.some.inj ht)).1 he
      · rw [h3 (by simpa using he)]
        exact ih

theorem noAbort_valid {G : Gen} (hG : G.Sound) {M : Model} {g : G.σ} {h : List Call}
    (hv : ∀ pre a seed mid x, h = pre ++ .sample a seed :: mid → a.evidence = some x → ValidEvidence (current M pre) a x) :
    NoAbort G M g h := by
  induction h using List.reverseRecOn with
  | nil => intro pre a seed mid e; simp at e
  | append_singleton h c ih =>
    have ih := ih fun pre a seed mid x e => hv pre a seed (mid ++ [c]) x (by rw [e]; simp)
    intro pre a seed mid e he hch
    rcases List.eq_nil_or_concat mid with rfl | ⟨mid', c', rfl⟩
    · obtain ⟨e1, e2⟩ := List.append_inj' e rfl
      obtain rfl : c = .sample a seed := by simpa using e2
      subst e1
      obtain ⟨x, hx⟩ := Option.isSome_iff_exists.1 he
      obtain ⟨cf, P, N, hP, hg, hs, hb, hN, hE, hns, hci, hT⟩ := hv h a seed [] x rfl hx
      have hcl := clean_inv G M g ih
      have hmod := after_model G M g h
      rcases hs' : after G h (Obj.fresh M, g) with ⟨o, g'⟩
      rw [hs'] at hcl hmod
      have hall := C15_evidence_kept cf P hP hg hs _ hb N hN x a hE hx hns hci hT
      obtain ⟨t, s', hr, _⟩ := hall.run hG ((seed.map G.seed).getD g')
      refine ⟨t, ?_⟩
      show some (o.sample G g' a seed).1 = _
      rw [o.sample_clean G hcl, show o.model = _ from hmod, hr]
    · have e' : h ++ [c] = (pre ++ .sample a seed :: mid') ++ [c'] := by rw [e]; simp
      obtain ⟨e1, _⟩ := List.append_inj' e' rfl
      exact ih pre a seed mid' e1 he hch

/-! ### C09 -/

/-- **C09**: after every history of calls (forward with and without key, resets, sampling, also calls that raise, and changes of
the parameters), a forward call with key `k` returns what the model without a cache returns, a tensor or an exception, provided
`k` was used since the last reset only with this input (and only since the last change of parameters). -/
theorem C09_transparent (c : Config) (P : Params) (M : Model) (hb : build c P = .ok M) (G : Gen) (g : G.σ) (h : List Call)
    (hu : Updates h) (x : Tensor Fl) (s : Option Scopes) (k : Int) (hk : UsedFor h k x s) :
    ((after G h (Obj.fresh M, g)).1.forward x s (some k)).1 = (current M h).forward x s := by
  rw [← after_model G M g h]
  refine Obj.forward_fst _ x s (some k) fun y hy => ?_
  obtain ⟨pre, x', s', mid, h1, h2, h3⟩ := leafCache_inv G (build_noAlias hb) g hu k y hy
  obtain ⟨rfl, rfl, hm⟩ := hk pre x' s' mid h1 h2
  rw [after_model]
  exact h3 hm

/-- **C09**: calls without a key never see the cache. -/
theorem C09_no_key (M : Model) (G : Gen) (g : G.σ) (h : List Call) (x : Tensor Fl) (s : Option Scopes) :
    ((after G h (Obj.fresh M, g)).1.forward x s none).1 = (current M h).forward x s := by
  rw [← after_model G M g h]
  exact Obj.forward_fst _ x s none fun y hy => by simp at hy

/-- **C09**: after `reset_cache` the first use of a key returns what the model without a cache returns, whatever was stored. -/
theorem C09_reset (c : Config) (P : Params) (M : Model) (hb : build c P = .ok M) (G : Gen) (g : G.σ) (pre mid : List Call)
    (hu : Updates (pre ++ .resetCache :: mid)) (x : Tensor Fl) (s : Option Scopes) (k : Int)
    (hk : ∀ x' s', Call.forward x' s' (some k) ∉ mid) :
    ((after G (pre ++ .resetCache :: mid) (Obj.fresh M, g)).1.forward x s (some k)).1 =
      (current M (pre ++ .resetCache :: mid)).forward x s := by
  refine C09_transparent c P M hb G g _ hu x s k fun p x' s' m e hr => ?_
  exfalso
  -- the use lies before or after the reset
  rcases List.append_eq_append_iff.1 e with ⟨l, h1, h2⟩ | ⟨l, h1, h2⟩
  · cases l with
    | nil => simp at h2
    | cons a l =>
      simp only [List.cons_append, List.cons.injEq] at h2
      exact hk x' s' (by rw [h2.2]; simp)
  · cases l with
    | nil => simp at h2
    | cons a l =>
      simp only [List.cons_append, List.cons.injEq] at h2
      exact hr (by rw [h2.2]; simp)

/-- a history with hits, misses, an aborted call, a parameter change and a reset in which key 7 is used consistently. -/
example : ∃ (c : Config) (P : Params) (M M' : Model), build c P = .ok M ∧ build c P = .ok M' ∧
    Updates [.forward exBatch none (some 7), .update M', .resetCache, .forward exBatch none (some 3),
      .forward (full [3, 2, 5] (.fin 1)) none (some 7), .sample { evidence := some (full [9] .nan) } (some 1)] ∧
    UsedFor [.forward exBatch none (some 7), .update M', .resetCache, .forward exBatch none (some 3),
      .forward (full [3, 2, 5] (.fin 1)) none (some 7), .sample { evidence := some (full [9] .nan) } (some 1)] 7
        (full [3, 2, 5] (.fin 1)) none := by
  obtain ⟨M, h⟩ := exConfig_normal (l := "linsum") (s := "bottom-up") (Or.inr ⟨rfl, rfl⟩)
  refine ⟨_, _, M, M, h, h, fun M' hM' => ?_, fun pre x' s' mid e hr => ?_⟩
  · simp at hM'
    exact hM' ▸ ⟨_, _, h⟩
  · rcases pre with _ | ⟨a, _ | ⟨b, _ | ⟨c, _ | ⟨d, _ | ⟨e', _ | ⟨f, pre⟩⟩⟩⟩⟩⟩ <;> simp at e
    · exact absurd (by rw [← e.2]; simp) hr
    · obtain ⟨_, _, _, _, ⟨rfl, rfl⟩, rfl⟩ := e
      simp

/-! ### C18 -/

/-- **C18**, one call: whatever the state of the object and the generator, a call of `sample` or `mpe` with evidence that ends
normally leaves all input caches disabled and empty; a call without evidence never changes them; neither touches the parameters
or the leaf cache, also when it raises. -/
theorem C18_call (G : Gen) (o : Obj) (g : G.σ) (a : SampleArgs) (seed : Option Int) :
    (o.sample G g a seed).2.1.model = o.model ∧ (o.sample G g a seed).2.1.leafCache = o.leafCache ∧
    (a.evidence = none → (o.sample G g a seed).2.1 = o) ∧
    ((∃ t, (o.sample G g a seed).1 = .ok t) → a.evidence.isSome = true → (o.sample G g a seed).2.1.Clean) := by
  obtain ⟨h1, h2, h3, h4, _⟩ := o.sample_frame G g a seed
  exact ⟨h1, h2, h3, fun ⟨t, ht⟩ he => (h4 t ht).1 he⟩

/-- **C18** (part): after every history in which no call with evidence was aborted by an exception, the input caches are
disabled and empty; a forward call returns the value of the model, and a sampling call runs the program `Model.sample` of
C13-C17 (unconditional if there is no evidence).
Missing: histories with aborted calls, for which it is false (`C18_refuted`). -/
theorem C18_history_partial (M : Model) (G : Gen) (g : G.σ) (h : List Call) (hn : NoAbort G M g h) :
    (after G h (Obj.fresh M, g)).1.Clean ∧
    (∀ x s, ((after G h (Obj.fresh M, g)).1.forward x s none).1 = (current M h).forward x s) ∧
    ∀ a seed, ((after G h (Obj.fresh M, g)).1.sample G (after G h (Obj.fresh M, g)).2 a seed).1 =
      (((current M h).sample a).run G ((seed.map G.seed).getD (after G h (Obj.fresh M, g)).2)).1 := by
  refine ⟨clean_inv G M g hn, fun x s => C09_no_key M G g h x s, fun a seed => ?_⟩
  rw [Obj.sample_clean G (clean_inv G M g hn), after_model]

/-- **C18** (part): no call is aborted, and hence `C18_history_partial` applies, if every call with evidence meets the
requirements of C15 (other calls are free to raise) and the generator does not draw impossible categories. -/
theorem C18_valid_history (M : Model) (G : Gen) (hG : G.Sound) (g : G.σ) (h : List Call)
    (hv : ∀ pre a seed mid x, h = pre ++ .sample a seed :: mid → a.evidence = some x → ValidEvidence (current M pre) a x) :
    NoAbort G M g h := noAbort_valid hG hv

/-- a sound generator. -/
def exGen : Gen where
  σ := Int
  cat s K w := (if h : ∃ j, j < K ∧ toP (Fl.logSoftmax K w j) ≠ 0 then h.choose else 0, s + 1)
  real s _ := (s, s + 1)
  seed k := k

theorem exGen_sound : exGen.Sound := by
  intro s K w h
  show (if h : _ then _ else _) < K ∧ toP (Fl.logSoftmax K w (if h : _ then _ else _)) ≠ 0
  rw [dif_pos h]
  exact h.choose_spec

/-- a history with conditional and unconditional calls, some of which raise (two kinds of arguments that exclude each other). -/
example : ∃ M, build (exConfig "einsum" "top-down") (exParams exLeaf) = .ok M ∧
    NoAbort exGen M (0 : Int) [.sample { evidence := some exBatch } (some 5), .forward exBatch none (some 1),
      .sample { num_samples := some 2, class_index := some (.list [0, 1, 2]) } none,
      .sample { evidence := some exBatch, is_mpe := true } none] := by
  obtain ⟨M, h⟩ := exConfig_normal (l := "einsum") (s := "top-down") (Or.inl ⟨Or.inr (Or.inr rfl), rfl⟩)
  obtain ⟨e1, e2, e3⟩ := exSizes h
  obtain ⟨hg, hs⟩ := exLeaf_good (exParams exLeaf) rfl
  refine ⟨M, h, C18_valid_history M exGen exGen_sound (0 : Int) _ fun pre a seed mid x e hx => ?_⟩
  rcases pre with _ | ⟨a, _ | ⟨b, _ | ⟨c, _ | ⟨d, pre⟩⟩⟩⟩ <;> simp at e
  · obtain ⟨⟨rfl, _⟩, _⟩ := e
    obtain rfl : exBatch = x := Option.some.inj hx
    exact ⟨_, _, 3, exParams_random _, hg, hs, h, by omega, exEvidence e1 e2, rfl, rfl, one_ne_zero⟩
  · obtain ⟨_, _, ⟨rfl, _⟩, _⟩ := e
    cases hx
  · obtain ⟨rfl, rfl, rfl, ⟨rfl, _⟩, _⟩ := e
    obtain rfl : exBatch = x := Option.some.inj hx
    exact ⟨_, _, 3, exParams_random _, hg, hs, h, by omega, exEvidence e1 e2, rfl, rfl, one_ne_zero⟩

/-- evidence with the wrong number of features. -/
def badEvidence : Tensor Fl := full [1, 1, 5] .nan

/-- the row `1, 1`. -/
def onesRow : Tensor Fl := full [1, 1, 2] (.fin 1)

/-- a call that is aborted: the model has two features. -/
theorem aborted {M : Model} {K : Nat} {w : Nat → List Nat → ℝ} {cl : List Nat → ℝ} (h : Wit 2 K 0 w cl M) (G : Gen) (g : G.σ)
    (seed : Option Int) : (Obj.fresh M).sample G g { evidence := some badEvidence } seed =
      (.error .assertion, { Obj.fresh M with enabled := true }, (seed.map G.seed).getD g) := by
  have hc : SampleArgs.check { evidence := some badEvidence } M = .ok () := by simp [SampleArgs.check, require_true]
  have hp : M.prepInput badEvidence = .error .assertion := by
    unfold Model.prepInput badEvidence
    rw [if_neg (by simp [rank, full]), Res.ok_bind]
    dsimp only
    rw [if_neg (by simp [rank, full]), Res.ok_bind]
    rw [require_true _ (by simp [rank, full]), Res.ok_bind, require_true _ (by simp [size, full, at', h.channels]), Res.ok_bind,
      require_false _ (by simp [size, full, at', h.features])]
    rfl
  unfold Obj.sample
  rw [show (Obj.fresh M).model = M from rfl, hc]
  dsimp only
  unfold Obj.enter Obj.forward
  dsimp only
  rw [show (Obj.fresh M).model = M from rfl, hp]
  rfl

/-- **C18 is false** for aborted calls: for some valid configuration, a call with evidence of the wrong size raises; after it
and an ordinary forward call on the row `1, 1`, the unconditional `sample(1, is_mpe=True)` returns `1, 1`, while the same call on
a fresh object returns `0, 0`.  For every generator and every state of it. -/
theorem C18_refuted : ∃ (c : Config) (P : Params) (M : Model) (s t : Tensor Fl), P.Random ∧ P.leaf.Good ∧ P.leaf.CanSample ∧
    build c P = .ok M ∧ s.get [0, 0, 0] = .fin 0 ∧ t.get [0, 0, 0] = .fin 1 ∧ ∀ (G : Gen) (g : G.σ) (seed : Option Int),
      ((Obj.fresh M).sample G g { num_samples := some 1, is_mpe := true } seed).1 = .ok s ∧
      ((Obj.fresh M).sample G g { evidence := some badEvidence }).1 = .error .assertion ∧
      (((after G [.sample { evidence := some badEvidence } none, .forward onesRow none none] (Obj.fresh M, g)).1).sample G g
        { num_samples := some 1, is_mpe := true } seed).1 = .ok t := by
  obtain ⟨M, h⟩ := wit_exists (F := 2) (K := 1) (d := 0) (by norm_num) (by norm_num) (by norm_num) (by norm_num)
    (fun _ i => if i = [0, 0, 0, 0] then Real.log (3 / 2) else 0) (fun _ => 0)
  have hsam := h.samplable
  -- the fresh object
  obtain ⟨H, s, _, hH, h1, _, h2⟩ := C20_greedy _ _ (wParams_random _ _) wLeaf_good.1 wLeaf_good.2 M h.build
    { num_samples := some 1, is_mpe := true } rfl rfl one_pos one_ne_zero trivial
  have hs : s.get [0, 0, 0] = .fin 0 := by
    obtain ⟨k, r, idx, hg, hi, h3⟩ := h2 0 one_pos
    have hr : r = 0 := by have := hg.rep.1; rw [h.reps] at this; omega
    have hk : k = 0 := by have : k < M.num_classes := hg.cls.1; rw [h.classes] at this; omega
    subst hr hk
    have hd := Wit0.decision h hg.path
    have h0 : idx 0 = 0 := by
      by_contra hne
      have h1 : idx 0 = 1 := by have := hd.1; omega
      have := hd.2 0 (by omega)
      rw [h1] at this
      simp [Real.exp_log] at this
      norm_num at this
    rw [h3 0 (by rw [h.channels]; omega) 0 (by rw [h.features]; omega)]
    have : H 0 0 = 0 := by
      have := hH 0 (by rw [h.reps]; omega) 0 (by rw [h.features]; omega)
      rw [Wit0.numOut h] at this
      omega
    rw [this, h0, h.base, wMode]
    simp
  -- the caches after the forward call
  have hx3 : onesRow.Is3 1 M.num_channels M.num_features fun _ _ _ => .fin 1 := by
    rw [h.channels, h.features]
    exact Is.is3 (full_is _ _) fun _ _ _ _ _ _ => rfl
  have hobs : M.leaf.base.Observed fun _ _ => .fin 1 := by
    rw [build_observed (wParams_random _ _) h.build, h.channels, h.features]
    exact fun c _ f _ => Or.inr ⟨1, rfl, 1, by norm_num, by norm_num⟩
  have hok : EvidenceOK M.leaf.base none fun _ _ => .fin 1 := ⟨hobs, fun c _ f _ e => by cases e⟩
  obtain ⟨cs, hcs, hevm, hfin⟩ := Model.evidence_caches hsam.wf h.proper (a := { evidence := some onesRow }) rfl hx3
    (sc := none) rfl (fun _ _ => hok)
  have hrun : ∃ z, M.run onesRow none = .ok (z, cs) := by
    unfold Model.evidenceCaches at hcs
    dsimp only at hcs
    cases hr : M.run onesRow none with
    | error e => rw [hr] at hcs; cases hcs
    | ok p =>
      rw [hr] at hcs
      obtain rfl : p.2 = cs := Except.ok.inj hcs
      exact ⟨p.1, rfl⟩
  obtain ⟨z, hrun⟩ := hrun
  -- the call after them
  have hdet : ((M.sampleValues { num_samples := some 1, is_mpe := true } cs).bind fun s =>
      Rand.lift (Model.finish { num_samples := some 1, is_mpe := true } s)).All fun t => t.get [0, 0, 0] = .fin 1 := by
    refine (Model.sampleValues_greedy hsam (a := { num_samples := some 1, is_mpe := true }) rfl one_pos one_ne_zero trivial
      hevm hfin).bind fun t ⟨cls, idx, rr, ht, hn⟩ => ?_
    obtain ⟨hi, hg⟩ := hn 0 one_pos
    have hr : rr 0 = 0 := by have := hg.rep.1; rw [h.reps] at this; omega
    have hk : cls 0 = 0 := by have : cls 0 < M.num_classes := hg.cls.1; rw [h.classes] at this; omega
    rw [hr, hk] at hg
    have hd := Wit0.decision h hg.path
    have hv : ∀ i, i < 2 → pRow (M.frontRow none fun _ _ => .fin 1) 0 i 0 =
        ENNReal.ofReal ((1 - wProb i) * (1 - wProb i)) := by
      intro i hi
      rw [frontRow_val hsam.wf h.proper hok (by rw [Wit0.numOut h]; omega) (by rw [h.leaves]; exact hi) (by rw [h.reps]; omega),
        Wit0.region_eq h (fun f _ => Or.inr (Or.inr (by simp [masked, holeAt]))) fun f hf => ?_]
      · simp [Wit0.val, masked, holeAt]
      · rw [h.grpF (by norm_num) _ hf]
        simp
        omega
    have h1 : idx 0 0 = 1 := by
      by_contra hne
      have h0 : idx 0 0 = 0 := by have := hd.1; omega
      have := hd.2 1 (by omega)
      rw [h0] at this
      dsimp only at this
      rw [hv 0 (by omega), hv 1 (by omega), ← ENNReal.ofReal_mul (Real.exp_pos _).le, ← ENNReal.ofReal_mul (Real.exp_pos _).le,
        ENNReal.ofReal_le_ofReal_iff (by simp [wProb, Real.exp_log]; norm_num)] at this
      simp [wProb, Real.exp_log] at this
      norm_num at this
    show (t.map Fl.fin).get [0, 0, 0] = .fin 1
    show Fl.fin (t.get [0, 0, 0]) = .fin 1
    rw [ht.get one_pos (by rw [h.channels]; omega) (by rw [h.features]; omega), hr]
    have hS : M.grpS (buildGroups (wConfig (2 : ℕ) (1 : ℕ) 0) (wParams (fun _ i => if i = [0, 0, 0, 0] then Real.log (3 / 2) else 0) fun _ => 0)) 0 0 = 0 := by
      have := hsam.wf.front.grpS_lt (r := 0) (f := 0) (by rw [h.reps]; omega) (by rw [h.features]; omega)
      rw [Wit0.numOut h] at this
      omega
    rw [hS, h1, h.base, wMode]
    simp
  have hd2 : ((M.sampleValues { num_samples := some 1, is_mpe := true } cs).bind fun s =>
      Rand.lift (Model.finish { num_samples := some 1, is_mpe := true } s)).Det := by
    have : ((M.sampleValues { num_samples := some 1, is_mpe := true } cs).bind fun s =>
      Rand.lift (Model.finish { num_samples := some 1, is_mpe := true } s)).DetP fun _ => True :=
      Rand.DetP.bind ((Model.detP_samplePath M cs rfl).bind fun c hc => detP_leaf _ hc) fun _ _ => Rand.DetP.lift
    exact this.det
  obtain ⟨t, ht1, ht2⟩ := hd2.pure hdet
  refine ⟨_, _, M, s, t, wParams_random _ _, wLeaf_good.1, wLeaf_good.2, h.build, hs, ht2, fun G g seed => ⟨?_, ?_, ?_⟩⟩
  · rw [Obj.sample_clean G ⟨rfl, rfl, rfl⟩, show (Obj.fresh M).model = M from rfl, h1]
    rfl
  · rw [aborted h]
  · have e : (after G [.sample { evidence := some badEvidence } none, .forward onesRow none none] (Obj.fresh M, g)).1 =
        (({ Obj.fresh M with enabled := true } : Obj).forward onesRow none none).2 := by
      unfold after
      simp only [List.foldl_cons, List.foldl_nil, Call.exec]
      rw [aborted h]
    rw [e]
    obtain ⟨f1, f2, _⟩ := ({ Obj.fresh M with enabled := true } : Obj).forward_frame onesRow none none
    obtain ⟨f3, f4⟩ := ({ Obj.fresh M with enabled := true } : Obj).forward_fill rfl onesRow none hrun
    generalize (({ Obj.fresh M with enabled := true } : Obj).forward onesRow none none).2 = o at *
    have hb : o.body { num_samples := some 1, is_mpe := true } = .pure t := by
      rw [← ht1]
      unfold Obj.body Model.sampleValues Obj.caches
      rw [f2, f1, f3, f4, Rand.bind_assoc]
      rfl
    have hc : SampleArgs.check { num_samples := some 1, is_mpe := true } o.model = .ok () := by
      simp [SampleArgs.check, require_true]
    unfold Obj.sample
    rw [hc]
    dsimp only [Obj.enter]
    rw [hb]
    rfl

/-! ### C19 -/

/-- **C19**, reproducibility (part): the result of a call with a seed, a tensor or an exception, is a function of the parameters,
the arguments and the seed: it is the same after two arbitrary histories without aborted calls that lead to the same parameters,
from arbitrary states of the generator.  Missing: aborted calls before it (`C19_refuted_history`). -/
theorem C19_reproducible_partial (M M' : Model) (G : Gen) (g g' : G.σ) (h h' : List Call) (hn : NoAbort G M g h)
    (hn' : NoAbort G M' g' h') (hM : current M h = current M' h') (a : SampleArgs) (k : Int) (b b' : G.σ) :
    ((after G h (Obj.fresh M, g)).1.sample G b a (some k)).1 =
      ((after G h' (Obj.fresh M', g')).1.sample G b' a (some k)).1 := by
  rw [Obj.sample_clean G (clean_inv G M g hn), Obj.sample_clean G (clean_inv G M' g' hn'), after_model, after_model, hM]
  rfl

/-- the second history contains sampling without a seed, a call that raises and a change of the parameters and back. -/
example : ∃ M M', build (exConfig "einsum" "top-down") (exParams exLeaf) = .ok M ∧
    NoAbort exGen M (0 : Int) [] ∧
    NoAbort exGen M (3 : Int) [.sample { num_samples := some 4 } none, .update M', .sample { num_samples := some 1 } (some 4),
      .sample { num_samples := some 2, class_index := some (.list [0, 1, 2]) } none, .update M] ∧
    current M [] = current M [.sample { num_samples := some 4 } none, .update M', .sample { num_samples := some 1 } (some 4),
      .sample { num_samples := some 2, class_index := some (.list [0, 1, 2]) } none, .update M] := by
  obtain ⟨M, h⟩ := exConfig_normal (l := "einsum") (s := "top-down") (Or.inl ⟨Or.inr (Or.inr rfl), rfl⟩)
  refine ⟨M, M, h, fun pre a seed mid e => by simp at e, fun pre a seed mid e he => ?_, rfl⟩
  rcases pre with _ | ⟨a, _ | ⟨b, _ | ⟨c, _ | ⟨d, _ | ⟨f, pre⟩⟩⟩⟩⟩ <;> simp at e
  · obtain ⟨⟨rfl, _⟩, _⟩ := e; simp at he
  · obtain ⟨_, _, ⟨rfl, _⟩, _⟩ := e; simp at he
  · obtain ⟨_, _, _, ⟨rfl, _⟩, _⟩ := e; simp at he

/-- **C19**, the generator (part): a call with a seed that ends normally leaves the state of the global generator as it was, for
every object, every generator and all arguments.  Missing: calls that raise (`C19_refuted`). -/
theorem C19_restored_partial (G : Gen) (o : Obj) (g : G.σ) (a : SampleArgs) (k : Int) (t : Tensor Fl)
    (h : (o.sample G g a (some k)).1 = .ok t) : (o.sample G g a (some k)).2.2 = g :=
  ((o.sample_frame G g a (some k)).2.2.2.1 t h).2 rfl

/-- a call that ends normally. -/
example (g : exGen.σ) : ∃ M t, build (exConfig "einsum" "top-down") (exParams exLeaf) = .ok M ∧
    ((Obj.fresh M).sample exGen g { evidence := some exBatch } (some 8)).1 = .ok t := by
  obtain ⟨M, h⟩ := exConfig_normal (l := "einsum") (s := "top-down") (Or.inl ⟨Or.inr (Or.inr rfl), rfl⟩)
  obtain ⟨e1, e2, e3⟩ := exSizes h
  obtain ⟨hg, hs⟩ := exLeaf_good (exParams exLeaf) rfl
  obtain ⟨t, s', hr, _⟩ := (C15_evidence_kept _ _ (exParams_random _) hg hs M h 3 (by omega) exBatch
    { evidence := some exBatch } (exEvidence e1 e2) rfl rfl rfl one_ne_zero).run exGen_sound ((some (8 : Int)).map exGen.seed |>.getD g)
  refine ⟨M, t, h, ?_⟩
  rw [Obj.sample_clean exGen ⟨rfl, rfl, rfl⟩]
  exact congrArg Prod.fst hr

/-- **C19 is false** for calls that raise: for some valid configuration, every generator and every state `g` of it, the call
`sample(evidence=..., seed=k)` with evidence of the wrong size raises and leaves the generator in the state `manual_seed(k)`; for
some generators this is never the state before the call. -/
theorem C19_refuted : ∃ (c : Config) (P : Params) (M : Model), P.Random ∧ P.leaf.Good ∧ P.leaf.CanSample ∧
    build c P = .ok M ∧ (∀ (G : Gen) (g : G.σ) (k : Int),
      ((Obj.fresh M).sample G g { evidence := some badEvidence } (some k)).1 = .error .assertion ∧
      ((Obj.fresh M).sample G g { evidence := some badEvidence } (some k)).2.2 = G.seed k) ∧
    ∃ (G : Gen) (g : G.σ), ∀ k : Int, 0 ≤ k → G.seed k ≠ g := by
  obtain ⟨M, h⟩ := wit_exists (F := 2) (K := 1) (d := 0) (by norm_num) (by norm_num) (by norm_num) (by norm_num)
    (fun _ _ => 0) (fun _ => 0)
  refine ⟨_, _, M, wParams_random _ _, wLeaf_good.1, wLeaf_good.2, h.build, fun G g k => ?_, exGen, (-1 : Int), fun k hk => ?_⟩
  · rw [aborted h]
    exact ⟨rfl, rfl⟩
  · show k ≠ -1
    omega

/-- **C19 is false** after an aborted call: the same call with the same seed on the same parameters returns two different
tensors.  For every generator and every state of it. -/
theorem C19_refuted_history : ∃ (c : Config) (P : Params) (M : Model) (s t : Tensor Fl), P.Random ∧ P.leaf.Good ∧
    P.leaf.CanSample ∧ build c P = .ok M ∧ s ≠ t ∧ ∀ (G : Gen) (g : G.σ) (k : Int),
      ((after G [] (Obj.fresh M, g)).1.sample G g { num_samples := some 1, is_mpe := true } (some k)).1 = .ok s ∧
      ((after G [.sample { evidence := some badEvidence } none, .forward onesRow none none] (Obj.fresh M, g)).1.sample G g
        { num_samples := some 1, is_mpe := true } (some k)).1 = .ok t := by
  obtain ⟨c, P, M, s, t, h1, h2, h3, h4, h5, h6, h7⟩ := C18_refuted
  refine ⟨c, P, M, s, t, h1, h2, h3, h4, fun e => ?_, fun G g k => ⟨(h7 G g (some k)).1, (h7 G g (some k)).2.2⟩⟩
  rw [e, h6] at h5
  simp at h5

end Props
end Einet
