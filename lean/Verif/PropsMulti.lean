import Verif.MultiFacts
import Verif.SampleLaw
import Verif.MixtureLaw
import Verif.BuildSpec

/-!
# C32: leaves with several distributions keep the features in order

`scopes_to_dist` is the constructor argument: scopes with leaf classes and their parameters.  The scopes form a partition when
their concatenation is a rearrangement of `0, ..., F - 1`.
-/

open Classical
noncomputable section
namespace Einet
open Tensor MeasureTheory
open scoped ENNReal

namespace Props

/-! ### Specification -/

/-- the scopes are a partition of the features. -/
def Partition (sd : List (List Nat × LeafSpec)) (F : Nat) : Prop := ((sd.map Prod.fst).flatten).Perm (List.range F)

/-- `B` is the distribution constructed for the `k`-th scope and `f` is its `j`-th feature. -/
structure Owner (sd : List (List Nat × LeafSpec)) (C I R : Nat) (f : Nat) (spec : LeafSpec) (B : BaseLeaf) (j : Nat) : Prop where
  ex : ∃ s, (s, spec) ∈ sd ∧ s[j]? = some f ∧ spec.build none ⟨s.length, C, I, R⟩ = .ok B

/-- data for a layer with several distributions: every entry is missing or in the support of the distribution of its feature. -/
structure MultiBatch (sd : List (List Nat × LeafSpec)) (N C F : Nat) (x : Tensor Fl) : Prop where
  shape : x.shape = [N, C, F]
  data : ∀ n, n < N → ∀ c, c < C → ∀ s spec, (s, spec) ∈ sd → ∀ f ∈ s,
    x.get [n, c, f] = .nan ∨ ∃ v : ℝ, x.get [n, c, f] = .fin v ∧ spec.InSupport v

/-! ### Lemmas -/

theorem mapM_forall2 {α β : Type} {f : α → Res β} {l : List α} {m : List β} (h : l.mapM f = .ok m) :
    List.Forall₂ (fun a b => f a = .ok b) l m := by
  induction l generalizing m with
  | nil =>
    simp only [List.mapM_nil, Res.pure_eq, Except.ok.injEq] at h
    subst h
    exact .nil
  | cons a l ih =>
    rw [List.mapM_cons] at h
    obtain ⟨b, hb, h⟩ := bind_ok h
    obtain ⟨bs, hbs, h⟩ := bind_ok h
    simp only [Res.pure_eq, Except.ok.injEq] at h
    subst h
    exact .cons hb (ih hbs)

theorem init_spec {sd : List (List Nat × LeafSpec)} {F C I R : Nat} {L : MultiLeaf} (h : MultiLeaf.init sd F C I R = .ok L) :
    L.num_features = F ∧ L.num_channels = C ∧ L.num_leaves = I ∧ L.num_repetitions = R ∧ 0 < F ∧
      List.Forall₂ (fun (s : List Nat × LeafSpec) (p : List Nat × BaseLeaf) => p.1 = s.1 ∧ 0 < s.1.length ∧
        s.2.build none ⟨s.1.length, C, I, R⟩ = .ok p.2) sd L.parts ∧
      L.inverted_index = sortPerm (MultiLeaf.allScopes sd) ∧
      L.needs_inversion = decide (MultiLeaf.allScopes sd ≠ (MultiLeaf.allScopes sd).mergeSort) ∧
      (MultiLeaf.allScopes sd).length = F := by
  unfold MultiLeaf.init at h
  obtain ⟨_, h1, h⟩ := bind_ok h
  obtain ⟨_, h2, h⟩ := bind_ok h
  obtain ⟨parts, h3, h⟩ := bind_ok h
  rw [require_ok_iff] at h1 h2
  simp only [Res.pure_eq, Except.ok.injEq] at h
  subst h
  refine ⟨rfl, rfl, rfl, rfl, h1.1, ?_, rfl, rfl, h2⟩
  refine (mapM_forall2 h3).imp fun s p hp => ?_
  unfold MultiLeaf.initPart at hp
  obtain ⟨_, hp1, hp⟩ := bind_ok hp
  obtain ⟨B, hB, hp⟩ := bind_ok hp
  rw [require_ok_iff] at hp1
  simp only [Res.pure_eq, Except.ok.injEq] at hp
  subst hp
  exact ⟨rfl, hp1, hB⟩

theorem scopes_eq {sd : List (List Nat × LeafSpec)} {ps : List (List Nat × BaseLeaf)} {C I R : Nat}
    (h : List.Forall₂ (fun (s : List Nat × LeafSpec) (p : List Nat × BaseLeaf) => p.1 = s.1 ∧ 0 < s.1.length ∧
        s.2.build none ⟨s.1.length, C, I, R⟩ = .ok p.2) sd ps) : MultiLeaf.allScopes ps = MultiLeaf.allScopes sd := by
  unfold MultiLeaf.allScopes
  congr 1
  induction h with
  | nil => rfl
  | cons hp _ ih => rw [List.map_cons, List.map_cons, ih, hp.1]

theorem forall2_left {α β : Type} {Q : α → β → Prop} {l : List α} {m : List β} (h : List.Forall₂ Q l m) {a : α} (ha : a ∈ l) :
    ∃ b ∈ m, Q a b := by
  induction h with
  | nil => cases ha
  | cons hq _ ih =>
    rcases List.mem_cons.1 ha with rfl | ha
    · exact ⟨_, by simp, hq⟩
    · obtain ⟨b, hb, hQ⟩ := ih ha
      exact ⟨b, by simp [hb], hQ⟩

theorem init_OK {sd : List (List Nat × LeafSpec)} {F C I R : Nat} {L : MultiLeaf} (h : MultiLeaf.init sd F C I R = .ok L)
    (hp : Partition sd F) : L.OK := by
  obtain ⟨e1, e2, e3, e4, h0, hall, hi, hn, -⟩ := init_spec h
  have es := scopes_eq hall
  refine ⟨by rw [es, e1]; exact hp, by rw [es]; exact hi, by rw [es]; exact hn, by omega, fun p hpm => ?_⟩
  obtain ⟨s, hs, he, -, hB⟩ := forall2_left hall.flip hpm
  obtain ⟨_, ⟨d1, d2, d3, d4⟩, _⟩ := LeafSpec.build_spec hB
  exact ⟨by rw [d1, he], by rw [d2, e2], by rw [d3, e3], by rw [d4, e4]⟩

/-- an owner is a part. -/
theorem Owner.part {sd : List (List Nat × LeafSpec)} {F C I R : Nat} {L : MultiLeaf} (h : MultiLeaf.init sd F C I R = .ok L)
    {f : Nat} {spec : LeafSpec} {B : BaseLeaf} {j : Nat} (ho : Owner sd C I R f spec B j) :
    ∃ s, (s, B) ∈ L.parts ∧ ∃ hj : j < s.length, s[j] = f := by
  obtain ⟨s, hs, hj, hB⟩ := ho.ex
  obtain ⟨-, -, -, -, -, hall, -⟩ := init_spec h
  obtain ⟨p, hp, h1, -, h2⟩ := forall2_left hall hs
  rw [hB] at h2
  obtain ⟨hj1, hj2⟩ := List.getElem?_eq_some_iff.1 hj
  refine ⟨s, ?_, hj1, hj2⟩
  have : p = (s, B) := by
    obtain ⟨a, b⟩ := p
    simp only [Except.ok.injEq] at h1 h2
    rw [h1, ← h2]
  rwa [this] at hp

/-! ### C32 -/

/-- **C32**, every feature has exactly one owner. -/
theorem C32_owner (sd : List (List Nat × LeafSpec)) (F C I R : Nat) (L : MultiLeaf) (h : MultiLeaf.init sd F C I R = .ok L)
    (hp : Partition sd F) (f : Nat) (hf : f < F) : ∃ spec B j, Owner sd C I R f spec B j := by
  obtain ⟨-, -, -, -, -, hall, -⟩ := init_spec h
  have := hp.mem_iff.2 (List.mem_range.2 hf)
  obtain ⟨s', hs', hfs⟩ := List.mem_flatten.1 this
  obtain ⟨⟨s, spec⟩, hs, rfl⟩ := List.mem_map.1 hs'
  obtain ⟨p, -, -, -, hB⟩ := forall2_left hall hs
  obtain ⟨j, hj⟩ := List.getElem?_of_mem hfs
  exact ⟨spec, p.2, j, ⟨s, hs, hj, hB⟩⟩

/-- **C32**, forward: position `f` of the result holds the log-likelihoods of feature `f` under the distribution of its scope;
zero if the feature is marginalised or the value missing. -/
theorem C32_forward (sd : List (List Nat × LeafSpec)) (F C I R : Nat) (L : MultiLeaf) (h : MultiLeaf.init sd F C I R = .ok L)
    (hp : Partition sd F) (hg : ∀ s ∈ sd, s.2.Good) (N : Nat) (x : Tensor Fl) (hx : MultiBatch sd N C F x) (ms : Option Scopes)
    (sc : Option (List Nat)) (hsc : Scopes.resolveOpt F ms = .ok sc) :
    ∃ y, L.forward x ms = .ok y ∧ y.shape = [N, C, F, I, R] ∧ ∀ f spec B j, Owner sd C I R f spec B j →
      ∀ n, n < N → ∀ c, c < C → ∀ i, i < I → ∀ r, r < R → y.get [n, c, f, i, r] =
        if (∃ l, sc = some l ∧ f ∈ l) ∨ x.get [n, c, f] = .nan then .fin 0 else B.logProb c j i r (x.get [n, c, f]) := by
  have hok := init_OK h hp
  obtain ⟨e1, e2, e3, e4, h0, hall, -⟩ := init_spec h
  have hx3 : x.Is [N, C, F] x.get := Is.refl x hx.shape
  have hparts : ∀ p ∈ L.parts, Res.Sat (do let x_d ← x.indexDim2 p.1; p.2.forward x_d none) fun t =>
      t.Is (setAt 2 p.1.length [N, C, F, I, R]) fun i =>
        p.2.entry none (x.get [at' 0 i, at' 1 i, p.1.getD (at' 2 i) 0]) (at' 1 i) (at' 2 i) (at' 3 i) (at' 4 i) := by
    intro p hpm
    obtain ⟨s1, s2, s3, s4⟩ := hok.size p hpm
    obtain ⟨s, hs, he, -, hB⟩ := forall2_left hall.flip hpm
    refine (indexDim2_is hx3 (by simp) (p := p.1) (by
      intro k hk; have := hok.lt hpm hk; simp only [at']; omega)).bind fun xd hxd => ?_
    have hxd3 : xd.Is3 N p.2.num_channels p.2.num_features fun n c f => x.get [n, c, p.1.getD f 0] := by
      rw [s1, s2, e2]
      exact Is.is3 hxd (by intro n hn c hc f hf; simp [setAt, at'])
    refine (p.2.forward_is hxd3 ?_ (ms := none) rfl).mono fun y hy => ?_
    · intro n hn c hc f hf
      rw [s1] at hf
      have hmem : p.1.getD f 0 ∈ p.1 := by rw [List.getD_eq_getElem _ _ hf]; exact List.getElem_mem _
      have hprop := (LeafSpec.build_spec hB).2.2.1 (hg s hs)
      show p.2.valid f (if (x.get [n, c, p.1.getD f 0]).isnan then .fin 0 else x.get [n, c, p.1.getD f 0])
      rcases hx.data n hn c (by omega) s.1 s.2 hs _ (by rw [← he]; exact hmem) with e | ⟨v, e, hv⟩
      · rw [e]; exact hprop.valid_zero f
      · rw [e, if_neg (by simp [Fl.isnan])]; exact (LeafSpec.valid_iff hB v).2 hv
    · rw [s1, s2, s3, s4, e2, e3, e4] at hy
      refine (Is.congr hy ((AllIdx_iff _ _).2 fun i hi => ?_))
      match i, hi with
      | [n, c, f, i, r], hi => rfl
  obtain ⟨ts, hts, hf2⟩ := Res.Sat.mapM hparts
  obtain ⟨y, hy, hy1, hy2⟩ := MultiLeaf.assemble hok (s := [N, C, F, I, R]) (by simp) hf2
  have hyf : L.forward x ms = L.marginalize y ms := by
    unfold MultiLeaf.forward
    rw [hts, Res.ok_bind]
    obtain ⟨t, ht, hr⟩ := bind_ok hy
    rw [ht, Res.ok_bind, hr, Res.ok_bind]
  rw [hyf]
  unfold MultiLeaf.marginalize
  rw [e1, hsc, Res.ok_bind]
  refine ⟨_, rfl, by rw [← e1]; exact hy1, ?_⟩
  intro f spec B j ho n hn c hc i hi r hr
  obtain ⟨s, hsB, hj, hsf⟩ := ho.part h
  obtain ⟨s1, s2, s3, s4⟩ := hok.size _ hsB
  dsimp only at s1 s2 s3 s4
  obtain ⟨ss, hs, he, -, hB⟩ := forall2_left hall.flip hsB
  have hprop := (LeafSpec.build_spec hB).2.2.1 (hg ss hs)
  have hv := hy2 (s, B) hsB j hj [n, c, 0, i, r] ⟨hn, hc, by simp [setAt], hi, hr, trivial⟩
  simp only [setAt, at'] at hv
  rw [hsf] at hv
  have hgd : s.getD j 0 = f := by rw [List.getD_eq_getElem _ _ hj, hsf]
  rw [hgd] at hv
  have hdata := hx.data n hn c hc ss.1 ss.2 hs f (by rw [← he, ← hsf]; exact List.getElem_mem _)
  have hent : B.entry none (x.get [n, c, f]) c j i r =
      if x.get [n, c, f] = .nan then .fin 0 else B.logProb c j i r (x.get [n, c, f]) := by
    rcases hdata with e | ⟨v, e, hvs⟩
    · rw [e]; simp [BaseLeaf.entry, Fl.isnan]
    · rw [e, if_neg (by simp)]
      have hfin : (B.logProb c j i r (.fin v)).IsFin := hprop.isFin c (by show c < B.num_channels; omega) j
        (by show j < B.num_features; omega) i (by show i < B.num_leaves; omega) r (by show r < B.num_repetitions; omega) v ((LeafSpec.valid_iff hB v).2 hvs)
      cases hl : B.logProb c j i r (.fin v) <;> simp_all [BaseLeaf.entry, Fl.isnan, Fl.IsFin]
  have hnn : (B.entry none (x.get [n, c, f]) c j i r).isnan = false := by
    unfold BaseLeaf.entry
    dsimp only
    split_ifs with hq <;> simp_all [Fl.isnan]
  cases sc with
  | none =>
    dsimp only
    rw [hv, hnn, hent]
    simp
  | some l =>
    dsimp only
    by_cases hl : f ∈ l
    · rw [if_pos (show at' 2 [n, c, f, i, r] ∈ l from hl), if_pos (Or.inl ⟨l, rfl, hl⟩)]
    · rw [if_neg (show ¬ at' 2 [n, c, f, i, r] ∈ l from hl), hv, hent]
      simp [hl]

/-! ### Sampling -/

theorem E_forEach_zip {α β : Type} {D : List α} {f : α → Rand β} {h : α → β → ℝ≥0∞} {R : α → ℝ≥0∞} (hh : ∀ a b, h a b ≠ ⊤)
    (hE : ∀ a ∈ D, (f a).E (h a) = R a) (hR : ∀ a ∈ D, R a ≠ ⊤) :
    (Rand.forEach D f).E (fun bs => (List.zipWith h D bs).prod) = (D.map R).prod := by
  induction D with
  | nil => simp [Rand.forEach]
  | cons a D ih =>
    unfold Rand.forEach
    rw [Rand.E_bind]
    simp only [Rand.E_bind, Rand.E_pure, List.zipWith_cons_cons, List.prod_cons]
    have : ∀ b, (Rand.forEach D f).E (fun bs => h a b * (List.zipWith h D bs).prod) = (D.map R).prod * h a b := by
      intro b
      rw [Rand.E_const_mul _ (hh a b), ih (fun a ha => hE a (by simp [ha])) (fun a ha => hR a (by simp [ha])), mul_comm]
    simp only [this]
    rw [Rand.E_const_mul, hE a (by simp), List.map_cons, List.prod_cons, mul_comm]
    have : ∀ l : List α, (∀ a ∈ l, R a ≠ ⊤) → (l.map R).prod ≠ ⊤ := by
      intro l hl
      induction l with
      | nil => simp
      | cons a l ih => rw [List.map_cons, List.prod_cons]; exact ENNReal.mul_ne_top (hl a (by simp)) (ih fun a ha => hl a (by simp [ha]))
    exact this D fun a ha => hR a (by simp [ha])

theorem forEach_pure {α β : Type} {D : List α} {f : α → Rand β} {Q : α → β → Prop} (h : ∀ a ∈ D, ∃ b, f a = .pure b ∧ Q a b) :
    ∃ bs, Rand.forEach D f = .pure bs ∧ List.Forall₂ Q D bs := by
  induction D with
  | nil => exact ⟨[], rfl, .nil⟩
  | cons a D ih =>
    obtain ⟨b, hb, hq⟩ := h a (by simp)
    obtain ⟨bs, hbs, hqs⟩ := ih fun a ha => h a (by simp [ha])
    refine ⟨b :: bs, ?_, .cons hq hqs⟩
    unfold Rand.forEach
    rw [hb, Rand.pure_bind, hbs]
    rfl

/-- a product over the features, part by part. -/
theorem prod_parts {L : MultiLeaf} (h : L.OK) (φ : Nat → ℝ≥0∞) :
    ∏ f ∈ Finset.range L.num_features, φ f = (L.parts.map fun p => ∏ j ∈ Finset.range p.1.length, φ (p.1.getD j 0)).prod := by
  have e1 : ∏ f ∈ Finset.range L.num_features, φ f = ((List.range L.num_features).map φ).prod := rfl
  have e2 : ∀ l : List Nat, ∏ j ∈ Finset.range l.length, φ (l.getD j 0) = (l.map φ).prod := by
    intro l
    induction l with
    | nil => simp
    | cons a l ih => rw [List.length_cons, Finset.prod_range_succ', List.map_cons, List.prod_cons, mul_comm, ← ih]; simp
  rw [e1, ← (h.perm.map φ).prod_eq]
  unfold MultiLeaf.allScopes
  rw [List.map_flatten, List.prod_flatten, List.map_map, List.map_map]
  congr 1
  refine List.map_congr_left fun p _ => ?_
  rw [e2]
  rfl

theorem parts_nodup {L : MultiLeaf} (h : L.OK) (h0 : ∀ p ∈ L.parts, 0 < p.1.length) : L.parts.Nodup := by
  have hn : (MultiLeaf.allScopes L.parts).Nodup := h.perm.nodup_iff.2 List.nodup_range
  unfold MultiLeaf.allScopes at hn
  have hd := (List.nodup_flatten.1 hn).2
  rw [List.pairwise_map] at hd
  refine hd.imp_of_mem fun {a b} ha _ hab e => ?_
  subst e
  obtain ⟨x, hx⟩ := List.exists_mem_of_length_pos (h0 a ha)
  exact hab hx hx

theorem forall2_fun {α β : Type} (d : β) {D : List α} {ts : List β} {P : α → β → Prop} (hD : D.Nodup) (h : List.Forall₂ P D ts) :
    ∃ g : α → β, ts = D.map g ∧ ∀ a ∈ D, P a (g a) := by
  induction h with
  | nil => exact ⟨fun _ => d, rfl, fun _ h => nomatch h⟩
  | @cons a b D ts hab _ ih =>
    obtain ⟨g, hg, hp⟩ := ih (List.nodup_cons.1 hD).2
    have hne : ∀ x ∈ D, x ≠ a := fun x hx e => (List.nodup_cons.1 hD).1 (e ▸ hx)
    refine ⟨fun x => if x = a then b else g x, ?_, ?_⟩
    · rw [List.map_cons, if_pos rfl, hg]
      congr 1
      exact List.map_congr_left fun x hx => by rw [if_neg (hne x hx)]
    · intro x hx
      rcases List.mem_cons.1 hx with rfl | hx
      · dsimp only; rwa [if_pos rfl]
      · dsimp only; rw [if_neg (hne x hx)]; exact hp x hx

/-- a product over rows, features and channels, part by part. -/
theorem prod3_parts {L : MultiLeaf} (h : L.OK) (N C : Nat) (φ : Nat → Nat → Nat → ℝ≥0∞) :
    prod3 N C L.num_features φ = (L.parts.map fun p => prod3 N C p.1.length fun n c j => φ n c (p.1.getD j 0)).prod := by
  unfold prod3
  rw [Finset.prod_comm, prod_parts h]
  congr 1
  exact List.map_congr_left fun p _ => Finset.prod_comm

theorem prod3_ind {N C F : Nat} (P : Nat → Nat → Nat → Prop) :
    (if ∀ n, n < N → ∀ c, c < C → ∀ f, f < F → P n c f then (1 : ℝ≥0∞) else 0) = prod3 N C F fun n c f => if P n c f then 1 else 0 := by
  unfold prod3
  split_ifs with h
  · refine (Finset.prod_eq_one fun n hn => Finset.prod_eq_one fun f hf => Finset.prod_eq_one fun c hc => ?_).symm
    dsimp only
    rw [if_pos (h n (by simpa using hn) c (by simpa using hc) f (by simpa using hf))]
  · push Not at h
    obtain ⟨n, hn, c, hc, f, hf, hP⟩ := h
    refine (Finset.prod_eq_zero (Finset.mem_range.2 hn) (Finset.prod_eq_zero (Finset.mem_range.2 hf)
      (Finset.prod_eq_zero (Finset.mem_range.2 hc) ?_))).symm
    dsimp only
    rw [if_neg hP]

/-- the program of one part. -/
theorem part_run {L : MultiLeaf} (h : L.OK) {p : List Nat × BaseLeaf} (hp : p ∈ L.parts) (hl : 0 < p.1.length)
    (hs : p.2.samplable = true) {ctx : Ctx}
    {N : Nat} {idx : Nat → Nat → Nat} {rr : Nat → Nat} (hc : CtxOK ctx N L.num_features L.num_leaves L.num_repetitions idx rr) :
    ∃ res : (List Nat → ℝ) → Tensor ℝ, ((Rand.lift (ctx.indices_out.indexDim1 p.1)).bind fun i =>
        p.2.sample { ctx with indices_out := i }) = (p.2.draws ctx).bind (fun v => .pure (res v)) ∧
      ∀ v, (res v).Is3 N L.num_channels p.1.length fun n c j => v [n, c, j, idx n (p.1.getD j 0), rr n] := by
  obtain ⟨s1, s2, s3, s4⟩ := h.size p hp
  obtain ⟨i, hi, hi2⟩ := indexDim1_is hc.io (by simp) (p := p.1) (by intro k hk; have := h.lt hp hk; simpa [at'] using this)
  have hc' : CtxOK { ctx with indices_out := i } N p.2.num_features p.2.num_leaves p.2.num_repetitions
      (fun n j => idx n (p.1.getD j 0)) rr := by
    rw [s1, s3, s4]
    refine ⟨hc.ns, Is.is2 hi2 (by intro n hn j hj; simp [setAt, at']), fun n hn j hj => ?_, hc.ir, hc.ir_lt⟩
    refine hc.io_lt n hn _ (h.lt hp ?_)
    rw [List.getD_eq_getElem _ _ hj]; exact List.getElem_mem _
  obtain ⟨res, hres, hsat⟩ := p.2.sample_run hs (by omega) hc'
  choose r hr1 hr2 using hsat
  rw [s1, s2] at hr2
  refine ⟨r, ?_, hr2⟩
  rw [hi, Rand.lift_ok, Rand.pure_bind, hres]
  have : p.2.draws { ctx with indices_out := i } = p.2.draws ctx := rfl
  rw [this]
  congr 1
  funext v
  rw [hr1, Rand.lift_ok]

/-- **C32**, sampling: position `f` of the result is drawn from the distribution of feature `f`, independently of the other
positions. -/
theorem C32_sample (sd : List (List Nat × LeafSpec)) (F C I R : Nat) (L : MultiLeaf) (h : MultiLeaf.init sd F C I R = .ok L)
    (hp : Partition sd F) (hg : ∀ s ∈ sd, s.2.Good ∧ s.2.CanSample) (ctx : Ctx) (N : Nat) (idx : Nat → Nat → Nat) (rr : Nat → Nat)
    (hc : CtxOK ctx N F I R idx rr) (hm : ctx.is_mpe = false) (hm' : ctx.mpe_at_leaves = false) (hT : 0 < ctx.temperature_leaves)
    (ν : Nat → Nat → Nat → Measure ℝ) (hν : ∀ f spec B j, Owner sd C I R f spec B j → ∀ n c,
      ν n c f = B.law ctx.temperature_leaves c j (idx n f) (rr n))
    (A : Nat → Nat → Nat → Set ℝ) (hA : ∀ n c f, MeasurableSet (A n c f)) :
    ((L.sample ctx).All fun t => t.shape = [N, C, F]) ∧
    (L.sample ctx).E (fun t => if ∀ n, n < N → ∀ c, c < C → ∀ f, f < F → t.get [n, c, f] ∈ A n c f then 1 else 0) =
      ∏ n ∈ Finset.range N, ∏ f ∈ Finset.range F, ∏ c ∈ Finset.range C, ν n c f (A n c f) := by
  have hok := init_OK h hp
  obtain ⟨e1, e2, e3, e4, h0, hall, -⟩ := init_spec h
  have hc1 := hc
  rw [← e1, ← e3, ← e4] at hc1
  set Q : List Nat × BaseLeaf → Rand (Tensor ℝ) := fun p => (Rand.lift (ctx.indices_out.indexDim1 p.1)).bind fun i =>
    p.2.sample { ctx with indices_out := i } with hQ
  set ind : Nat → Nat → Nat → ℝ → ℝ≥0∞ := fun n c f v => if v ∈ A n c f then 1 else 0 with hind
  have hin1 : ∀ n c f v, ind n c f v ≠ ⊤ := by intro n c f v; rw [hind]; dsimp only; split_ifs <;> simp
  have hindm : ∀ n c f, Measurable (ind n c f) := fun n c f => Measurable.ite (hA n c f) measurable_const measurable_const
  have hQr : ∀ p ∈ L.parts, ∃ res : (List Nat → ℝ) → Tensor ℝ, Q p = (p.2.draws ctx).bind (fun v => .pure (res v)) ∧
      ∀ v, (res v).Is3 N C p.1.length fun n c j => v [n, c, j, idx n (p.1.getD j 0), rr n] := by
    intro p hpm
    obtain ⟨s, hs, he, hpos, hB⟩ := forall2_left hall.flip hpm
    rw [← e2]
    exact part_run hok hpm (by rw [he]; exact hpos) ((LeafSpec.build_spec hB).2.2.2 (hg s hs).1 (hg s hs).2).samplable hc1
  have hdraws : ∀ p ∈ L.parts, p.2.draws ctx = Rand.drawAll (box [ctx.num_samples, p.2.num_channels, p.2.num_features,
      p.2.num_leaves, p.2.num_repetitions]) (fun j => Rand.leaf (p.2.law ctx.temperature_leaves (at' 1 j) (at' 2 j) (at' 3 j)
        (at' 4 j)) Rand.pure) (fun _ => 0) := by
    intro p _
    unfold BaseLeaf.draws
    rw [if_neg (by simp [hm, hm'])]
  have hshape : ∀ p ∈ L.parts, (Q p).All fun t => t.Is (setAt 2 p.1.length [N, C, F]) t.get := by
    intro p hpm
    obtain ⟨res, hr, hr2⟩ := hQr p hpm
    rw [hr]
    have hany : (p.2.draws ctx).All fun _ => True := by
      rw [hdraws p hpm]
      exact (Rand.All_drawAll (P := fun _ _ => True) (fun i _ => by intro r; exact trivial)).mono fun _ _ => trivial
    exact hany.bind fun v _ => Is.refl _ (hr2 v).1
  have hfe := Rand.All.forEach (Q := fun (p : List Nat × BaseLeaf) (t : Tensor ℝ) => t.Is (setAt 2 p.1.length [N, C, F]) t.get) hshape
  have hlaw : ∀ p ∈ L.parts, (Q p).E (fun t => ∏ n ∈ Finset.range N, ∏ j ∈ Finset.range p.1.length, ∏ c ∈ Finset.range C,
      ind n c (p.1.getD j 0) (t.get [n, c, j])) = ∏ n ∈ Finset.range N, ∏ j ∈ Finset.range p.1.length, ∏ c ∈ Finset.range C,
        ν n c (p.1.getD j 0) (A n c (p.1.getD j 0)) := by
    intro p hpm
    obtain ⟨s1, s2, s3, s4⟩ := hok.size p hpm
    obtain ⟨s, hs, he, hpos, hB⟩ := forall2_left hall.flip hpm
    obtain ⟨res, hr, hr2⟩ := hQr p hpm
    have hprob := ((LeafSpec.build_spec hB).2.2.2 (hg s hs).1 (hg s hs).2).prob _ hT
    have hmem : ∀ j, j < p.1.length → p.1.getD j 0 < L.num_features := by
      intro j hj
      refine hok.lt hpm ?_
      rw [List.getD_eq_getElem _ _ hj]; exact List.getElem_mem _
    rw [hr, Rand.E_bind]
    have key := p.2.draws_E (ctx := ctx) hc.ns hprob (K := fun n j => idx n (p.1.getD j 0)) (rr := rr)
      (fun n hn j hj => by rw [s3]; exact hc1.io_lt n hn _ (hmem j (by omega)))
      (fun n hn => by rw [s4]; exact hc1.ir_lt n hn) (h := fun n c j => ind n c (p.1.getD j 0)) (fun n c j => hindm _ _ _)
    rw [s1, s2, e2] at key
    simp only [hm, hm', Bool.or_self] at key
    refine Eq.trans ?_ (key.trans ?_)
    · congr 1
      funext v
      rw [Rand.E_pure]
      unfold prod3
      refine Finset.prod_congr rfl fun n hn => Finset.prod_congr rfl fun j hj => Finset.prod_congr rfl fun c hcc => ?_
      rw [(hr2 v).get (by simpa using hn) (by simpa using hcc) (by simpa using hj)]
    · unfold prod3
      refine Finset.prod_congr rfl fun n hn => Finset.prod_congr rfl fun j hj => Finset.prod_congr rfl fun c hcc => ?_
      have hj' : j < p.1.length := by simpa using hj
      rw [hν (p.1.getD j 0) s.2 p.2 j ⟨s.1, hs, by rw [← he, List.getD_eq_getElem _ _ hj']; exact List.getElem?_eq_getElem hj', hB⟩]
      unfold BaseLeaf.compE
      dsimp only
      rw [if_neg (by simp), hind]
      dsimp only
      exact lintegral_indicator_one (hA n c _)
  have hrun : L.sample ctx = (Rand.forEach L.parts Q).bind fun ts => Rand.lift (do let t ← catAll 2 ts; L.reorder t) := rfl
  set Z : List Nat × BaseLeaf → Tensor ℝ → ℝ≥0∞ := fun p t => prod3 N C p.1.length fun n c j =>
    ind n c (p.1.getD j 0) (t.get [n, c, j]) with hZ
  have hposp : ∀ p ∈ L.parts, 0 < p.1.length := by
    intro p hpm
    obtain ⟨s, hs, he, hpos, hB⟩ := forall2_left hall.flip hpm
    rw [he]; exact hpos
  have hasm : ∀ ts, List.Forall₂ (fun (p : List Nat × BaseLeaf) (t : Tensor ℝ) => t.Is (setAt 2 p.1.length [N, C, F]) t.get) L.parts ts →
      ∃ y, (do let t ← catAll 2 ts; L.reorder t) = .ok y ∧ y.shape = [N, C, F] ∧
        (if ∀ n, n < N → ∀ c, c < C → ∀ f, f < F → y.get [n, c, f] ∈ A n c f then (1 : ℝ≥0∞) else 0) =
          (List.zipWith Z L.parts ts).prod := by
    intro ts hts
    obtain ⟨g, rfl, hg'⟩ := forall2_fun (Tensor.full [] 0) (parts_nodup hok hposp) hts
    obtain ⟨y, hy, hy1, hy2⟩ := MultiLeaf.assemble hok (s := [N, C, F]) (by simp) (g := fun p => (g p).get)
      (ts := L.parts.map g) (by rw [List.forall₂_map_right_iff]; exact List.forall₂_same.2 hg')
    refine ⟨y, hy, by rw [hy1, e1]; rfl, ?_⟩
    rw [prod3_ind fun n c f => y.get [n, c, f] ∈ A n c f]
    rw [← e1, prod3_parts hok, List.zipWith_map_right, List.zipWith_self]
    congr 1
    refine List.map_congr_left fun p hpm => ?_
    rw [hZ]
    refine prod3_congr fun n hn c hc j hj => ?_
    have := hy2 p hpm j hj [n, c, 0] ⟨hn, hc, by simp, trivial⟩
    simp only [setAt] at this
    rw [List.getD_eq_getElem _ _ hj, this]
  have hfin : ∀ p ∈ L.parts, prod3 N C p.1.length (fun n c j => ν n c (p.1.getD j 0) (A n c (p.1.getD j 0))) ≠ ⊤ := by
    intro p hpm
    obtain ⟨s, hs, he, hpos, hB⟩ := forall2_left hall.flip hpm
    have hprob := ((LeafSpec.build_spec hB).2.2.2 (hg s hs).1 (hg s hs).2).prob _ hT
    refine ENNReal.prod_ne_top fun n _ => ENNReal.prod_ne_top fun j hj => ENNReal.prod_ne_top fun c _ => ?_
    have hj' : j < p.1.length := by simpa using hj
    dsimp only
    rw [hν (p.1.getD j 0) s.2 p.2 j ⟨s.1, hs, by rw [← he, List.getD_eq_getElem _ _ hj']; exact List.getElem?_eq_getElem hj', hB⟩]
    exact measure_ne_top _ _
  constructor
  · rw [hrun]
    refine hfe.bind fun ts hts => .lift ?_
    obtain ⟨y, hy, h1, -⟩ := hasm ts hts
    exact ⟨y, hy, h1⟩
  · rw [hrun, Rand.E_bind]
    have h1 := Rand.E_congr hfe (f := fun ts => (Rand.lift (do let t ← catAll 2 ts; L.reorder t)).E fun t =>
      if ∀ n, n < N → ∀ c, c < C → ∀ f, f < F → t.get [n, c, f] ∈ A n c f then (1 : ℝ≥0∞) else 0)
      (g := fun ts => (List.zipWith Z L.parts ts).prod)
      (fun ts hts => by obtain ⟨y, hy, -, h2⟩ := hasm ts hts; rw [hy, Rand.lift_ok, Rand.E_pure, h2])
    rw [h1]
    have h2 := E_forEach_zip (D := L.parts) (f := Q) (h := Z)
      (R := fun p => prod3 N C p.1.length fun n c j => ν n c (p.1.getD j 0) (A n c (p.1.getD j 0)))
      (fun p t => ENNReal.prod_ne_top fun n _ => ENNReal.prod_ne_top fun j _ => ENNReal.prod_ne_top fun c _ => hin1 _ _ _ _)
      hlaw hfin
    rw [h2]
    exact (e1 ▸ prod3_parts hok N C fun n c f => ν n c f (A n c f)).symm

end Props
end Einet
