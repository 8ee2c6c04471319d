import Verif.Results
import Verif.BuildWF

/-!
# C81-C83: directories of experiments, seeds, loading for evaluation
-/

namespace Einet
open Res

/-! ## C81 -/

/-- Nothing that existed has changed. -/
def Fs.Grows (s t : Fs) : Prop := ∀ q n, s q = some n → t q = some n

/-- No component on the way to `p` is a file. -/
def Fs.Free (s : Fs) (p : Path) : Prop := ∀ q c, q <+: p → s q ≠ some (.file c)

theorem makedirs_ok {p : Path} {s s' : Fs} (h : makedirs p s = .ok s') :
    s.Free p ∧ s' = fun q => open Classical in if q <+: p then some .dir else s q := by
  unfold makedirs at h
  split_ifs at h with hc
  refine ⟨fun q c hq hf => hc ⟨q, c, hq, hf⟩, ?_⟩
  injection h with h
  exact h.symm

theorem makedirs_free {p : Path} {s : Fs} (h : s.Free p) :
    makedirs p s = .ok fun q => open Classical in if q <+: p then some .dir else s q := by
  unfold makedirs
  rw [if_neg]
  rintro ⟨q, c, hq, hf⟩
  exact h q c hq hf

theorem makedirs_grows {p : Path} {s s' : Fs} (h : makedirs p s = .ok s') : s.Grows s' := by
  obtain ⟨hf, rfl⟩ := makedirs_ok h
  intro q n hn
  dsimp only
  split_ifs with hq
  · cases n with
    | dir => rfl
    | file c => exact absurd hn (hf q c hq)
  · exact hn

theorem makedirs_at {p : Path} {s s' : Fs} (h : makedirs p s = .ok s') : s' p = some .dir := by
  obtain ⟨hf, rfl⟩ := makedirs_ok h
  dsimp only
  rw [if_pos (List.prefix_refl p)]

theorem makedirs_idem {p : Path} {s s' : Fs} (hs : s.WF) (h : makedirs p s = .ok s') (hp : s p = some .dir) : s' = s := by
  obtain ⟨hf, rfl⟩ := makedirs_ok h
  have key : ∀ (r q : Path), s (q ++ r) = some .dir → s q = some .dir := by
    intro r
    induction r with
    | nil => intro q h; simpa using h
    | cons x r ih =>
      intro q h
      have := ih (q ++ [x]) (by simpa using h)
      exact hs.2 q x (by rw [this]; rfl)
  funext q
  split_ifs with hq
  · obtain ⟨r, rfl⟩ := hq
    exact (key r q hp).symm
  · rfl

/-- In a file system nothing lies below a path that does not exist. -/
theorem Fs.WF.below {s : Fs} (hs : s.WF) : ∀ (r q : Path), s q = none → s (q ++ r) = none := by
  intro r
  induction r with
  | nil => intro q h; simpa using h
  | cons x r ih =>
    intro q h
    have hx : s (q ++ [x]) = none := by
      cases hv : s (q ++ [x]) with
      | none => rfl
      | some n =>
        have := hs.2 q x (by rw [hv]; rfl)
        rw [h] at this
        cases this
    simpa using ih (q ++ [x]) hx

theorem makeResultsDir_ok {a : RunArgs} {rm : Bool} {s s' : Fs} {p : Path} (h : makeResultsDir a rm s = .ok (p, s')) :
    p = (if rm = true ∧ (s (a.parent ++ [a.dirname])).isSome then a.parent ++ [a.dirname ++ "_2"] else a.parent ++ [a.dirname])
    ∧ makedirs p s = .ok s' := by
  unfold makeResultsDir at h
  obtain ⟨t, ht, h⟩ := bind_ok h
  simp only [Res.pure_eq] at h
  injection h with h
  injection h with h1 h2
  subst h2
  rw [← h1]
  exact ⟨rfl, ht⟩

/-- the files after a run in `p`. -/
noncomputable def runFs (p : Path) (name c : String) (s : Fs) : Fs := open Classical in
  fun q => if q = p ++ [name] then some (.file c) else if q <+: p then some .dir else s q

theorem resultsRun_eq {a : RunArgs} {name c : String} {s : Fs} {p : Path}
    (hp : p = if (s (a.parent ++ [a.dirname])).isSome then a.parent ++ [a.dirname ++ "_2"] else a.parent ++ [a.dirname])
    (hf : s.Free p) (hn : s (p ++ [name]) ≠ some .dir) :
    resultsRun a name c s = .ok (p, runFs p name c s) := by
  have h1 : makeResultsDir a true s = .ok (p, fun q => open Classical in if q <+: p then some .dir else s q) := by
    unfold makeResultsDir
    simp only [true_and]
    rw [← hp, makedirs_free hf]
    rfl
  have h2 : ¬ (p ++ [name]) <+: p := fun h => by have := h.length_le; simp at this
  unfold resultsRun
  rw [h1, Res.ok_bind]
  simp only
  unfold writeFile
  rw [if_pos]
  · rfl
  · rw [List.dropLast_concat]
    dsimp only
    rw [if_pos (List.prefix_refl p), if_neg h2]
    exact ⟨rfl, hn⟩

theorem two_ne (x : String) : x ≠ x ++ "_2" := by
  intro h
  have := congrArg String.length h
  rw [String.length_append] at this
  have h2 : ("_2" : String).length = 2 := rfl
  omega

namespace Props

/-- C81 (true part): if the directory of the experiment or the one with `_2` does not exist yet and no file is in the way, then
`make_results_dir` returns a directory that did not exist, that is empty afterwards, and everything that existed is unchanged. -/
theorem C81_fresh_partial (a : RunArgs) (s : Fs) (hs : s.WF) (hfree : s.Free a.parent)
    (h : s (a.parent ++ [a.dirname]) = none ∨ s (a.parent ++ [a.dirname ++ "_2"]) = none) :
    ∃ p s', makeResultsDir a true s = .ok (p, s') ∧ s p = none ∧ s' p = some .dir ∧
      (∀ x r, s' (p ++ x :: r) = none) ∧ s.Grows s' := by
  have key : ∀ x, s (a.parent ++ [x]) = none → ∃ s', makedirs (a.parent ++ [x]) s = .ok s' ∧
      s (a.parent ++ [x]) = none ∧ s' (a.parent ++ [x]) = some .dir ∧
      (∀ y r, s' ((a.parent ++ [x]) ++ y :: r) = none) ∧ s.Grows s' := by
    intro x hx
    have hf : s.Free (a.parent ++ [x]) := by
      intro q c hq
      rcases List.prefix_concat_iff.1 hq with h1 | h1
      · rw [h1, hx]; exact fun h => by cases h
      · exact hfree q c h1
    refine ⟨_, makedirs_free hf, hx, makedirs_at (makedirs_free hf), ?_, makedirs_grows (makedirs_free hf)⟩
    intro y r
    rw [if_neg, hs.below _ _ hx]
    intro hp
    have := hp.length_le
    simp at this
  unfold makeResultsDir
  by_cases h0 : s (a.parent ++ [a.dirname]) = none
  · obtain ⟨s', h1, h2⟩ := key _ h0
    refine ⟨_, s', ?_, h2⟩
    simp only [h0, Option.isSome_none, Bool.false_eq_true, and_false, if_false, h1, Res.ok_bind, Res.pure_eq]
  · obtain ⟨s', h1, h2⟩ := key _ (h.resolve_left h0)
    refine ⟨_, s', ?_, h2⟩
    have : (s (a.parent ++ [a.dirname])).isSome := Option.isSome_iff_ne_none.2 h0
    simp only [this, and_self, if_true, h1, Res.ok_bind, Res.pure_eq]

/-- C81: whatever the arguments, `make_results_dir` removes and overwrites nothing, although the documentation of
`remove_if_exists` says that an existing directory is removed. -/
theorem C81_keeps (a : RunArgs) (rm : Bool) (s s' : Fs) (p : Path) (h : makeResultsDir a rm s = .ok (p, s')) :
    s.Grows s' ∧ s' p = some .dir := by
  obtain ⟨_, h2⟩ := makeResultsDir_ok h
  exact ⟨makedirs_grows h2, makedirs_at h2⟩

/-- C81 is false for the third run: of three calls with the same arguments, with anything created in between, the third one returns
the directory of the second one. -/
theorem C81_refuted_third (a : RunArgs) (s₀ s₁ t₁ s₂ t₂ s₃ : Fs) (p₁ p₂ p₃ : Path)
    (h₁ : makeResultsDir a true s₀ = .ok (p₁, s₁)) (g₁ : s₁.Grows t₁)
    (h₂ : makeResultsDir a true t₁ = .ok (p₂, s₂)) (g₂ : s₂.Grows t₂)
    (h₃ : makeResultsDir a true t₂ = .ok (p₃, s₃)) : p₃ = p₂ := by
  obtain ⟨e₁, d₁⟩ := makeResultsDir_ok h₁
  obtain ⟨e₂, d₂⟩ := makeResultsDir_ok h₂
  obtain ⟨e₃, d₃⟩ := makeResultsDir_ok h₃
  have hb : s₁ (a.parent ++ [a.dirname]) = some .dir ∨ (s₀ (a.parent ++ [a.dirname])).isSome := by
    by_cases hc : (s₀ (a.parent ++ [a.dirname])).isSome
    · exact .inr hc
    · rw [if_neg (fun h => hc h.2)] at e₁
      rw [e₁] at d₁
      exact .inl (makedirs_at d₁)
  have hb1 : (t₁ (a.parent ++ [a.dirname])).isSome := by
    rcases hb with h | h
    · rw [g₁ _ _ h]; rfl
    · obtain ⟨n, hn⟩ := Option.isSome_iff_exists.1 h
      rw [g₁ _ _ (makedirs_grows d₁ _ _ hn)]; rfl
  have hb2 : (t₂ (a.parent ++ [a.dirname])).isSome := by
    obtain ⟨n, hn⟩ := Option.isSome_iff_exists.1 hb1
    rw [g₂ _ _ (makedirs_grows d₂ _ _ hn)]; rfl
  rw [if_pos ⟨rfl, hb1⟩] at e₂
  rw [if_pos ⟨rfl, hb2⟩] at e₃
  rw [e₃, e₂]

/-- C81, consequence: three runs with the same arguments that write a file of the same name all succeed, and the file of the second
run is lost. -/
theorem C81_refuted_lost (a : RunArgs) (s : Fs) (hs : s.WF) (hfree : s.Free a.parent) (name c₁ c₂ c₃ : String)
    (h0 : s (a.parent ++ [a.dirname]) = none) (h2 : s (a.parent ++ [a.dirname ++ "_2"]) = none) :
    ∃ s₁ s₂ s₃ p₁ p₂, resultsRun a name c₁ s = .ok (p₁, s₁) ∧ resultsRun a name c₂ s₁ = .ok (p₂, s₂) ∧
      resultsRun a name c₃ s₂ = .ok (p₂, s₃) ∧ p₁ ≠ p₂ ∧
      s₃ (p₁ ++ [name]) = some (.file c₁) ∧ s₂ (p₂ ++ [name]) = some (.file c₂) ∧ s₃ (p₂ ++ [name]) = some (.file c₃) := by
  set b := a.parent ++ [a.dirname] with hb
  set b2 := a.parent ++ [a.dirname ++ "_2"] with hb2
  have hne : b ≠ b2 := by
    intro h
    rw [hb, hb2, List.append_cancel_left_eq] at h
    injection h with h
    exact two_ne _ h
  have hlen : b2.length = b.length := by simp [hb, hb2]
  have n1 : ¬ b2 <+: b := fun h => hne (h.eq_of_length hlen).symm
  have n2 : ¬ b <+: b2 := fun h => hne (h.eq_of_length hlen.symm)
  have free : ∀ (t : Fs) (x : String), t.Free a.parent → (∀ c, t (a.parent ++ [x]) ≠ some (.file c)) →
      t.Free (a.parent ++ [x]) := by
    intro t x h1 hx q c hq
    rcases List.prefix_concat_iff.1 hq with h | h
    · rw [h]; exact hx c
    · exact h1 q c h
  have keep : ∀ (t : Fs) (x : String) (c : String), (runFs (a.parent ++ [x]) name c t).Free a.parent := by
    intro t x c q d hq
    have h1 : q <+: a.parent ++ [x] := hq.trans (List.prefix_append _ _)
    have h3 : q ≠ (a.parent ++ [x]) ++ [name] := by
      intro h
      have := hq.length_le
      rw [h] at this
      simp at this
    simp only [runFs]
    rw [if_neg h3, if_pos h1]
    exact fun h => by cases h
  have below : ∀ (t : Fs) (x : String), t.WF → t (a.parent ++ [x]) = none → t ((a.parent ++ [x]) ++ [name]) ≠ some .dir := by
    intro t x ht hx
    rw [ht.below _ _ hx]
    exact fun h => by cases h
  have len1 : ∀ (u v : Path), u.length = v.length → u ≠ v ++ [name] := by
    intro u v h e
    rw [e] at h
    simp at h
  -- first run
  have r1 : resultsRun a name c₁ s = .ok (b, runFs b name c₁ s) :=
    resultsRun_eq (by rw [← hb, h0]; rfl) (free s _ hfree (by rw [← hb, h0]; exact fun c h => by cases h)) (below s _ hs h0)
  set s₁ := runFs b name c₁ s with hs1
  have e1 : s₁ b = some .dir := by
    simp only [hs1, runFs]
    rw [if_neg (len1 b b rfl), if_pos (List.prefix_refl b)]
  have e2 : s₁ b2 = none := by
    simp only [hs1, runFs]
    rw [if_neg (len1 b2 b hlen), if_neg n1, h2]
  have e3 : s₁ (b2 ++ [name]) = none := by
    simp only [hs1, runFs]
    rw [if_neg, if_neg, hs.below _ _ h2]
    · intro h; have := h.length_le; simp [hlen] at this
    · intro h; exact hne (List.append_cancel_right h).symm
  -- second run
  have r2 : resultsRun a name c₂ s₁ = .ok (b2, runFs b2 name c₂ s₁) :=
    resultsRun_eq (by rw [← hb, e1]; rfl) (free s₁ _ (keep s _ _) (by rw [← hb2, e2]; exact fun c h => by cases h))
      (by rw [e3]; exact fun h => by cases h)
  set s₂ := runFs b2 name c₂ s₁ with hs2
  have f1 : s₂ b = some .dir := by
    simp only [hs2, runFs]
    rw [if_neg (len1 b b2 hlen.symm), if_neg n2, e1]
  have f2 : s₂ b2 = some .dir := by
    simp only [hs2, runFs]
    rw [if_neg (len1 b2 b2 rfl), if_pos (List.prefix_refl b2)]
  have f3 : s₂ (b2 ++ [name]) = some (.file c₂) := by
    simp only [hs2, runFs]
    rw [if_pos trivial]
  -- third run
  have r3 : resultsRun a name c₃ s₂ = .ok (b2, runFs b2 name c₃ s₂) :=
    resultsRun_eq (by rw [← hb, f1]; rfl) (free s₂ _ (keep s₁ _ _) (by rw [← hb2, f2]; exact fun c h => by cases h))
      (by rw [f3]; exact fun h => by cases h)
  refine ⟨s₁, s₂, _, b, b2, r1, r2, r3, hne, ?_, f3, ?_⟩
  · have g1 : (b ++ [name]) ≠ b2 ++ [name] := fun h => hne (List.append_cancel_right h)
    have g2 : ¬ (b ++ [name]) <+: b2 := fun h => by have := h.length_le; simp [hlen] at this
    simp only [runFs, hs2, hs1]
    rw [if_neg g1, if_neg g2, if_neg g1, if_neg g2, if_pos trivial]
  · simp only [runFs]
    rw [if_pos trivial]

/-- C81, names: runs of different experiments or data sets in the same place never share a directory, nor lies one in the other. -/
theorem C81_separate (a b : RunArgs) (rm rm' : Bool) (s s' t t' : Fs) (p q : Path)
    (ha : makeResultsDir a rm s = .ok (p, s')) (hb : makeResultsDir b rm' t = .ok (q, t'))
    (hr : a.results_dir = b.results_dir)
    (hne : a.experiment_name ≠ b.experiment_name ∨ a.dataset_name ≠ b.dataset_name) : ¬ p <+: q := by
  obtain ⟨e₁, -⟩ := makeResultsDir_ok ha
  obtain ⟨e₂, -⟩ := makeResultsDir_ok hb
  have key : ∀ x y, ¬ (a.parent ++ [x]) <+: (b.parent ++ [y]) := by
    intro x y h
    have := h.eq_of_length (by simp [RunArgs.parent, hr])
    simp only [RunArgs.parent, hr, List.append_assoc, List.cons_append, List.nil_append, List.append_cancel_left_eq,
      List.cons.injEq, true_and, and_true] at this
    rcases hne with h1 | h1
    · exact h1 this.1
    · exact h1 this.2.1
  rw [e₁, e₂]
  split_ifs <;> exact key _ _

/-- C81, names: different tags do share a directory: `debug` with tag `t` and no `debug` with tag `t_debug`, and no tag and the tag
`unnamed`. -/
theorem C81_refuted_names (a : RunArgs) (t : String) (rm : Bool) (s : Fs) :
    makeResultsDir { a with tag := some t, debug := true } rm s =
      makeResultsDir { a with tag := some (t ++ "_debug"), debug := false } rm s ∧
    makeResultsDir { a with tag := none } rm s = makeResultsDir { a with tag := some "unnamed" } rm s :=
  ⟨rfl, rfl⟩

/-- A file system with the root only. -/
def emptyFs : Fs := fun q => if q = [] then some .dir else none

theorem emptyFs_wf : emptyFs.WF := by
  refine ⟨rfl, fun p x h => ?_⟩
  simp [emptyFs] at h

/-- the hypotheses of C81 hold on an empty disk. -/
example : emptyFs.WF ∧ emptyFs.Free (RunArgs.parent ⟨["results"], "train", some "a", "mnist", false⟩) ∧
    emptyFs (RunArgs.parent ⟨["results"], "train", some "a", "mnist", false⟩ ++ ["a"]) = none ∧
    emptyFs (RunArgs.parent ⟨["results"], "train", some "a", "mnist", false⟩ ++ ["a_2"]) = none := by
  refine ⟨emptyFs_wf, fun q c _ h => ?_, rfl, rfl⟩
  simp only [emptyFs] at h
  split_ifs at h
  cases h

/-! ## C82 -/

/-- C82: `seed_all_rng(seed)` succeeds exactly for the seeds numpy accepts, and then every generator has this seed whatever happened
before; otherwise it raises a ValueError. -/
theorem C82_seeded (seed : Int) (g : Rngs) :
    ((0 ≤ seed ∧ seed < 2 ^ 32) → seedAll (some seed) g = .ok ⟨seed, seed, seed, some (toString seed)⟩) ∧
    (¬ (0 ≤ seed ∧ seed < 2 ^ 32) → seedAll (some seed) g = .error .value) := by
  constructor
  · intro h
    simp only [seedAll, npSeed, if_pos h, Res.ok_bind, torchSeed]
    rw [if_pos ⟨by omega, by omega⟩]
    rfl
  · intro h
    simp only [seedAll, npSeed, if_neg h]
    rfl

/-- C82: without a seed it always raises, although the documentation promises a random one. -/
theorem C82_refuted_none (g : Rngs) : seedAll none g = .error .attribute := rfl

/-- C82: every worker of a loader starts (for up to `2^31` workers), with the same seed in all its generators, and the seeds of
different workers differ for every seed of the loader exactly if there are at most `2^30` of them. -/
theorem C82_workers (n : Nat) (hn : n ≤ 2 ^ 31) :
    ∃ seed : Int → Nat → Int,
      (∀ base g w, w < n → startWorker base w g = .ok ⟨seed base w, seed base w, seed base w, some (toString (seed base w))⟩) ∧
      ((∀ base v w, v < n → w < n → v ≠ w → seed base v ≠ seed base w) ↔ n ≤ 2 ^ 30) := by
  refine ⟨fun base w => (base + w) % 2 ^ 31 + w, ?_, ?_, ?_⟩
  · intro base g w hw
    unfold startWorker workerInit
    refine (C82_seeded _ _).1 ⟨?_, ?_⟩
    · have := Int.emod_nonneg (base + w) (show (2 ^ 31 : Int) ≠ 0 by norm_num)
      dsimp only; omega
    · dsimp only
      have := Int.emod_lt_of_pos (base + w) (show (0 : Int) < 2 ^ 31 by norm_num)
      omega
  · intro h
    by_contra hc
    refine h (2 ^ 30) 0 (2 ^ 30) (by omega) (by omega) (by norm_num) ?_
    norm_num
  · intro hn base v w hv hw hvw h
    dsimp only at h
    omega

/-- a base seed and two workers. -/
example : startWorker 5 1 ⟨0, 0, 0, none⟩ = .ok ⟨7, 7, 7, some (toString (7 : Int))⟩ := by
  have := (C82_seeded 7 ⟨0, 6, 6, none⟩).1 ⟨by norm_num, by norm_num⟩
  exact this

end Props

/-! ## C83 -/

/-- `m` never creates something at `p`. -/
def FsM.Avoids {α : Type} (p : Path) (m : FsM α) : Prop := ∀ s, s p = none → (m s).1 p = none

theorem FsM.Avoids.bind {α β : Type} {p : Path} {m : FsM α} {f : α → FsM β} (hm : m.Avoids p)
    (hf : ∀ a, (f a).Avoids p) : (m.bind f).Avoids p := by
  intro s hs
  have := hm s hs
  unfold FsM.bind
  rcases h : m s with ⟨t, (e | a)⟩
  · simpa [h] using this
  · rw [h] at this
    exact hf a t this

theorem FsM.avoids_read {α : Type} (p : Path) (f : Fs → Res α) : (FsM.read f).Avoids p := fun _ h => h

theorem FsM.avoids_makedirs {p q : Path} (h : ¬ p <+: q) : (FsM.op (makedirs q)).Avoids p := by
  intro s hs
  unfold FsM.op
  rcases hm : makedirs q s with e | t
  · exact hs
  · obtain ⟨-, rfl⟩ := makedirs_ok hm
    dsimp only
    rw [if_neg h, hs]

theorem FsM.avoids_writeFile {p q : Path} {c : String} (h : p ≠ q) : (FsM.op (writeFile q c)).Avoids p := by
  intro s hs
  unfold FsM.op
  rcases hm : writeFile q c s with e | t
  · exact hs
  · unfold writeFile at hm
    split_ifs at hm
    injection hm with hm
    subst hm
    dsimp only
    rw [if_neg h, hs]

/-- The run writes in a directory that has nothing to do with `d`, or in `d` itself. -/
def PlRun.Apart (d : Path) (r : PlRun) : Prop := r.run_dir = d ∨ (¬ r.run_dir <+: d ∧ ¬ d <+: r.run_dir)

/-- directory of the checkpoints. -/
def ckpt (d : Path) : Path := d ++ ["tb", "version_0", "checkpoints"]

/-- the paths written by a run -/
theorem PlRun.Apart.off {d : Path} {r : PlRun} (h : r.Apart d) : (¬ ckpt d <+: r.run_dir) ∧
    ∀ (x : String) (l : Path), x ≠ "tb" → ¬ ckpt d <+: r.run_dir ++ x :: l := by
  rcases h with h | ⟨h1, h2⟩
  · constructor
    · intro hp
      have := hp.length_le
      simp [ckpt, h] at this
    · intro x l hx hp
      rw [h, ckpt, List.prefix_append_right_inj] at hp
      rw [List.cons_prefix_cons] at hp
      exact hx hp.1.symm
  · have hd : d <+: ckpt d := List.prefix_append _ _
    refine ⟨fun hp => h2 (hd.trans hp), fun x l _ hp => ?_⟩
    rcases List.prefix_or_prefix_of_prefix (hd.trans hp) (List.prefix_append r.run_dir (x :: l)) with h | h
    · exact h2 h
    · exact h1 h

theorem writeLogs_avoids {d : Path} {r : PlRun} (h : r.Apart d) (l : List (Path × String)) :
    (writeLogs r.run_dir l).Avoids (ckpt d) := by
  induction l with
  | nil => exact FsM.avoids_read _ _
  | cons x l ih =>
    obtain ⟨p, c⟩ := x
    refine (FsM.avoids_makedirs (h.off.2 _ _ (by decide))).bind fun _ => FsM.Avoids.bind (FsM.avoids_writeFile ?_) fun _ => ih
    intro e
    apply h.off.2 "wandb" (p ++ ["log"]) (by decide)
    rw [e]
    simp

theorem mainFiles_avoids {d : Path} {r : PlRun} (h : r.Apart d) : (mainFiles r).Avoids (ckpt d) := by
  unfold mainFiles
  refine (FsM.avoids_makedirs h.off.1).bind fun _ => FsM.Avoids.bind (FsM.avoids_writeFile ?_) fun _ =>
    (writeLogs_avoids h _).bind fun _ => FsM.Avoids.bind ?_ fun _ => (FsM.avoids_read _ _).bind fun _ =>
    FsM.Avoids.bind (FsM.avoids_writeFile ?_) fun _ => FsM.avoids_read _ _
  · exact fun e => h.off.2 "config.yaml" [] (by decide) (e ▸ List.prefix_refl _)
  · split_ifs <;> exact FsM.avoids_read _ _
  · exact fun e => h.off.2 "model.pt" [] (by decide) (e ▸ List.prefix_refl _)

theorem FsM.bind_ok' {α β : Type} {m : FsM α} {f : α → FsM β} {s t : Fs} {b : β} (h : m.bind f s = (t, .ok b)) :
    ∃ a u, m s = (u, .ok a) ∧ f a u = (t, .ok b) := by
  unfold FsM.bind at h
  rcases hm : m s with ⟨u, (e | a)⟩
  · rw [hm] at h
    injection h with _ h
    cases h
  · rw [hm] at h
    exact ⟨a, u, rfl, h⟩

theorem runsFiles_avoids {d : Path} (l : List PlRun) (hl : ∀ r ∈ l, r.Apart d) (s : Fs) (hs : s (ckpt d) = none) :
    runsFiles l s (ckpt d) = none := by
  induction l generalizing s with
  | nil => exact hs
  | cons r l ih =>
    exact ih (fun r' h => hl r' (List.mem_cons_of_mem _ h)) _ (mainFiles_avoids (hl r List.mem_cons_self) s hs)

namespace Props

/-- C83 is false: `load_and_eval` looks for a checkpoint in `tb/version_0/checkpoints`, where no run ever writes one.  After every
sequence of runs, also of successful training runs in the same directory, a run with `load_and_eval` raises. -/
theorem C83_refuted_load (d : Path) (l : List PlRun) (hl : ∀ r ∈ l, r.Apart d) (s : Fs) (hs : s (ckpt d) = none)
    (r : PlRun) (hr : r.run_dir = d) (hload : r.load_and_eval = true) :
    ∃ e, (mainFiles r (runsFiles l s)).2 = .error e := by
  have h0 := runsFiles_avoids l hl s hs
  rcases hm : mainFiles r (runsFiles l s) with ⟨t, (e | m)⟩
  · exact ⟨e, rfl⟩
  exfalso
  have ha : r.Apart d := .inl hr
  unfold mainFiles at hm
  obtain ⟨_, u₁, h1, hm⟩ := FsM.bind_ok' hm
  obtain ⟨_, u₂, h2, hm⟩ := FsM.bind_ok' hm
  obtain ⟨_, u₃, h3, hm⟩ := FsM.bind_ok' hm
  obtain ⟨c, u₄, h4, hm⟩ := FsM.bind_ok' hm
  have k1 : u₁ (ckpt d) = none := by
    have := FsM.avoids_makedirs ha.off.1 _ h0
    rwa [h1] at this
  have k2 : u₂ (ckpt d) = none := by
    have := FsM.avoids_writeFile (c := r.config) (p := ckpt d) (q := r.run_dir ++ ["config.yaml"])
      (fun e => ha.off.2 "config.yaml" [] (by decide) (e ▸ List.prefix_refl _)) _ k1
    rwa [h2] at this
  have k3 : u₃ (ckpt d) = none := by
    have := writeLogs_avoids ha r.logs _ k2
    rwa [h3] at this
  rw [if_pos hload] at h4
  simp only [FsM.read, loadFromCheckpoint, hr, Prod.mk.injEq] at h4
  have : u₃ (d ++ ["tb", "version_0", "checkpoints"]) = none := k3
  rw [this] at h4
  simp at h4

/-- C83 (true part): a training run that ends without an exception leaves the checkpoint of the trained model in `model.pt`. -/
theorem C83_saved_partial (r : PlRun) (s t : Fs) (m : String) (hload : r.load_and_eval = false)
    (h : mainFiles r s = (t, .ok m)) : r.train = .ok m ∧ t (r.run_dir ++ ["model.pt"]) = some (.file m) := by
  unfold mainFiles at h
  obtain ⟨_, u₁, h1, h⟩ := FsM.bind_ok' h
  obtain ⟨_, u₂, h2, h⟩ := FsM.bind_ok' h
  obtain ⟨_, u₃, h3, h⟩ := FsM.bind_ok' h
  obtain ⟨c, u₄, h4, h⟩ := FsM.bind_ok' h
  obtain ⟨_, u₅, h5, h⟩ := FsM.bind_ok' h
  obtain ⟨_, u₆, h6, h⟩ := FsM.bind_ok' h
  simp only [FsM.read, Prod.mk.injEq, Except.ok.injEq] at h
  obtain ⟨rfl, rfl⟩ := h
  rw [hload] at h4
  simp only [FsM.read, Prod.mk.injEq, Bool.false_eq_true, if_false] at h4
  refine ⟨h4.2, ?_⟩
  unfold FsM.op writeFile at h6
  split_ifs at h6 with hc
  · simp only [Prod.mk.injEq] at h6
    rw [← h6.1]
    simp
  · simp at h6

/-- C83 (true part): checkpoints put into `tb/version_0/checkpoints` by hand are loaded; of several files, the last one in the order
of `os.listdir`, which is unspecified. -/
theorem C83_load_partial (d : Path) (l : List String) (f c : String) (s : Fs) (hd : s (ckpt d) = some .dir)
    (hf : s (ckpt d ++ [f]) = some (.file c)) : loadFromCheckpoint d (l ++ [f]) s = .ok c := by
  have hd' : s (d ++ ["tb", "version_0", "checkpoints"]) = some .dir := hd
  have hf' : s (d ++ ["tb", "version_0", "checkpoints"] ++ [f]) = some (.file c) := hf
  unfold loadFromCheckpoint
  simp only [hd', ne_eq, not_true_eq_false, if_false, List.getLast?_append, List.getLast?_singleton, Option.some_or, hf']
  rfl

/-- A directory with two checkpoints. -/
example : ∃ s : Fs, s (ckpt ["run"]) = some .dir ∧ s (ckpt ["run"] ++ ["a"]) = some (.file "x") ∧
    s (ckpt ["run"] ++ ["b"]) = some (.file "y") :=
  ⟨fun p => if p = ckpt ["run"] then some .dir else if p = ckpt ["run"] ++ ["a"] then some (.file "x") else some (.file "y"),
    by simp, by simp, by simp⟩

/-- A training run. -/
def exRun (load : Bool) : PlRun := ⟨load, ["run"], "cfg", [], [], .ok "weights", fun _ => .ok ()⟩

/-- The training run on an empty disk succeeds, and its directory meets the hypotheses of `C83_refuted_load`. -/
example : (mainFiles (exRun false) emptyFs).2 = .ok "weights" ∧ (∀ r ∈ [exRun false], r.Apart ["run"]) ∧
    emptyFs (ckpt ["run"]) = none ∧ (exRun true).run_dir = ["run"] ∧ (exRun true).load_and_eval = true := by
  refine ⟨?_, ?_, by simp [emptyFs, ckpt], rfl, rfl⟩
  · have hm : makedirs ["run"] emptyFs = .ok _ := makedirs_free (by
      intro q c _ h
      simp only [emptyFs] at h
      split_ifs at h
      cases h)
    simp [mainFiles, FsM.bind, FsM.op, FsM.read, exRun, hm, writeFile, writeLogs, emptyFs]
  · intro r hr
    rw [List.mem_singleton] at hr
    subst hr
    exact .inl rfl

end Props
end Einet
