import Verif.ConvState

/-!
# C51: calls of a convolutional circuit influence later calls
-/

open Classical MeasureTheory
open scoped ENNReal
noncomputable section
namespace Einet
open Tensor

/-! ### Lemmas -/

theorem AChain.split {as bs : List ConvAtom} {C H W C'' H'' W'' : Nat} (h : AChain (as ++ bs) C H W C'' H'' W'') :
    ∃ C' H' W', AChain as C H W C' H' W' ∧ AChain bs C' H' W' C'' H'' W'' := by
  induction as generalizing C H W with
  | nil => exact ⟨_, _, _, .nil _ _ _, h⟩
  | cons a as ih =>
    cases h with
    | cons h hs =>
      obtain ⟨_, _, _, h1, h2⟩ := ih hs
      exact ⟨_, _, _, .cons h h1, h2⟩

/-- a layer whose sum comes last in the forward pass and has one output. -/
def ConvLayer.TopSum (l : ConvLayer) (L : ConvSum) : Prop :=
  (l = .sum L ∨ ∃ kh kw, l = .sumProd "prod-sum" L kh kw) ∧ L.out_channels = 1 ∧ L.height = 1 ∧ L.width = 1

theorem convBottomUp_top {P : ConvParams} {order : String} {k : Nat} {c : Nat} {cs : List Nat}
    {i h w : Nat} {ls : List ConvLayer} (h0 : 0 < h) (w0 : 0 < w) (h1 : k ^ cs.length ∣ h)
    (w1 : k ^ cs.length ∣ w) (hl : convBottomUp P order k (c :: cs) i h w = .ok ls) :
    ∃ ls' l L, ls = ls' ++ [l] ∧ l.TopSum L := by
  induction cs generalizing c i h w ls with
  | nil =>
    simp only [convBottomUp] at hl
    obtain ⟨l, h2, h3⟩ := bind_ok hl
    cases h3
    unfold ConvLayer.mkSumProd at h2
    obtain ⟨_, -, h2⟩ := bind_ok h2
    simp only [Res.pure_eq] at h2
    rw [if_pos trivial] at h2
    cases h2
    exact ⟨[], _, _, rfl, Or.inr ⟨_, _, rfl⟩, rfl, Nat.div_self h0, Nat.div_self w0⟩
  | cons c' cs ih =>
    simp only [convBottomUp] at hl
    obtain ⟨l, h2, h3⟩ := bind_ok hl
    obtain ⟨ls', h4, h5⟩ := bind_ok h3
    cases h5
    rw [List.length_cons, pow_succ] at h1 w1
    have hkh : k ∣ h := (Dvd.intro_left _ rfl).trans h1
    have hkw : k ∣ w := (Dvd.intro_left _ rfl).trans w1
    have hk : 0 < k := Nat.pos_of_dvd_of_pos hkh h0
    obtain ⟨ls2, l2, L, e, ht⟩ := ih (Nat.div_pos (Nat.le_of_dvd h0 hkh) hk)
      (Nat.div_pos (Nat.le_of_dvd w0 hkw) hk) (Nat.dvd_div_of_mul_dvd (by rwa [mul_comm]))
      (Nat.dvd_div_of_mul_dvd (by rwa [mul_comm])) h4
    exact ⟨l :: ls2, l2, L, by rw [e]; rfl, ht⟩

theorem convTopDown_top {P : ConvParams} {order : String} {p : Nat} {cs : List Nat} {i : Nat} {ls : List ConvLayer}
    (hl : convTopDown P order p cs i = .ok ls) : ∃ ls' l L, ls = ls' ++ [l] ∧ l.TopSum L := by
  induction cs generalizing p i ls with
  | nil =>
    simp only [convTopDown, Res.pure_eq, Except.ok.injEq] at hl
    cases hl
    exact ⟨[], _, _, rfl, Or.inl rfl, rfl, rfl, rfl⟩
  | cons c cs ih =>
    simp only [convTopDown] at hl
    obtain ⟨l, h2, h3⟩ := bind_ok hl
    obtain ⟨ls', h4, h5⟩ := bind_ok h3
    cases h5
    obtain ⟨ls2, l2, L, e, ht⟩ := ih h4
    exact ⟨l :: ls2, l2, L, by rw [e]; rfl, ht⟩

theorem buildConv_top {c : ConvConfig} {d : ImgShape} {P : ConvParams} {M : ConvModel} (hu : c.Usual d) (hf : c.SizeFits d)
    (h : buildConv c d P = .ok M) : ∃ ls l L, M.layers = ls ++ [l] ∧ l.TopSum L := by
  obtain ⟨h1, -, -, -, -, h6, -⟩ := buildConv_spec h
  obtain ⟨k, ks, hk⟩ := List.exists_cons_of_ne_nil h1
  unfold convLayers at h6
  split_ifs at h6 with s1 s2
  · have := hf.1 s1
    rw [hk] at this h6
    exact convBottomUp_top hu.2.1 hu.2.2.1 this.1 this.2 h6
  · obtain ⟨ls, h10, h11⟩ := bind_ok h6
    simp only [Res.pure_eq, Except.ok.injEq] at h11
    obtain ⟨ls2, l2, L, e, ht⟩ := convTopDown_top h10
    exact ⟨_ :: ls2, l2, L, by rw [← h11, e]; rfl, ht⟩

theorem ConvLayer.forward_eq {l : ConvLayer} (h : l.Known) (x : Tensor Fl) : (l.forward x).2 = forwardAtoms l.atoms x :=
  ConvLayer.forward_atoms h x

/-- after a forward pass the cache of the topmost sum holds a tensor with one entry per image. -/
theorem forwardConv_top {ls : List ConvLayer} {l : ConvLayer} {L : ConvSum} (ht : l.TopSum L) (hk : ∀ l' ∈ ls, l'.Known)
    {C H W C' H' W' : Nat} (hc : AChain ((ls ++ [l]).flatMap ConvLayer.atoms) C H W C' H' W') {x : Tensor Fl} {N : Nat}
    {e : Nat → Img Fl} (hx : x.Is4 N C H W e) :
    ∃ cs z Z, (forwardConv (ls ++ [l]) x).1 = cs ++ [some z] ∧ cs.length = ls.length ∧
      z.Is4 N L.in_channels L.height L.width Z := by
  induction ls generalizing C H W x e with
  | nil =>
    rcases ht.1 with rfl | ⟨kh, kw, rfl⟩
    · refine ⟨[], x, e, ?_, rfl, ?_⟩
      · simp only [List.nil_append, forwardConv]
        cases h : ((ConvLayer.sum L).forward x).2 <;> rfl
      · simp only [List.nil_append, List.flatMap_cons, List.flatMap_nil, List.append_nil, ConvLayer.atoms] at hc
        cases hc with
        | cons h _ =>
          cases h
          exact hx
    · simp only [List.nil_append, List.flatMap_cons, List.flatMap_nil, List.append_nil, ConvLayer.atoms] at hc
      rw [if_neg (by decide)] at hc
      cases hc with
      | cons h hs =>
        cases hs with
        | cons h2 _ =>
          obtain ⟨z, hz, hz'⟩ := forwardAtoms_is (.cons h (.nil _ _ _)) hx
          have hz2 : ProdConv.forward kh kw x = .ok z := by
            simp only [forwardAtoms] at hz
            obtain ⟨_, q1, q2⟩ := bind_ok hz
            cases q2
            exact q1
          cases h2
          refine ⟨[], z, _, ?_, rfl, hz'⟩
          simp only [List.nil_append, forwardConv]
          have e1 : ((ConvLayer.sumProd "prod-sum" L kh kw).forward x).1 = some z := by
            simp only [ConvLayer.forward]
            rw [if_neg (by decide), if_pos trivial, hz2]
          cases h : ((ConvLayer.sumProd "prod-sum" L kh kw).forward x).2 <;> simp [e1]
  | cons l' ls ih =>
    rw [List.cons_append, List.flatMap_cons] at hc
    obtain ⟨_, _, _, h1, h2⟩ := hc.split
    obtain ⟨y, hy, hy'⟩ := forwardAtoms_is h1 hx
    rw [← ConvLayer.forward_atoms (hk l' (by simp))] at hy
    obtain ⟨cs, z, Z, h3, h4, h5⟩ := ih (fun a ha => hk a (by simp [ha])) h2 hy'
    refine ⟨(l'.forward x).1 :: cs, z, Z, ?_, by simp [h4], h5⟩
    rw [List.cons_append]
    unfold forwardConv
    rw [hy]
    simp only [h3, List.cons_append]

theorem sampleConv_top {μ : Measure ℝ} {ls : List ConvLayer} {l : ConvLayer} {cs : List (Option (Tensor Fl))}
    {c : Option (Tensor Fl)} (hlen : cs.length = ls.length) {ctx : DCtx} {e : Err} (h : l.sample μ c ctx = .fail e) :
    sampleConv μ (ls ++ [l]) (cs ++ [c]) ctx = .fail e := by
  induction ls generalizing cs with
  | nil =>
    have : cs = [] := by simpa using hlen
    subst this
    simp only [List.nil_append, sampleConv, Rand.pure_bind, List.head?_cons, Option.getD_some, h]
  | cons l' ls ih =>
    match cs, hlen with
    | c' :: cs, hlen =>
      simp only [List.cons_append, sampleConv, List.tail_cons]
      rw [ih (by simpa using hlen), Rand.fail_bind]

theorem overlay_nil (new : List (Option (Tensor Fl))) : overlay new [] = new := by
  induction new with
  | nil => rfl
  | cons n new ih =>
    unfold overlay
    rw [List.tail_nil, ih]
    cases n <;> rfl

/-- broadcasting fails. -/
theorem ConvSum.sample_clash {μ : Measure ℝ} (L : ConvSum) {ctx : DCtx} {N N' : Nat} {idx : Nat → Nat → Nat → Nat}
    (hT : ctx.temperature_sums ≠ 0) (h : CCtx ctx N' L.out_channels L.height L.width idx) {z : Tensor Fl} {Z : Nat → Img Fl}
    (hz : z.Is4 N L.in_channels L.height L.width Z) (h1 : N ≠ 1) (h2 : N' ≠ 1) (h3 : N' ≠ N) :
    L.sample μ (some z) ctx = .fail .shape := by
  obtain ⟨w, hw, hw'⟩ := L.selectWeights_is hT h
  have : L.logWeights (some z) ctx = .error .shape := by
    unfold ConvSum.logWeights
    rw [hw]
    show ConvSum.condition z w = _
    unfold ConvSum.condition Tensor.add Tensor.zipWith
    have e : Tensor.bshape (Tensor.padRank z.rank w).shape (Tensor.padRank (Tensor.padRank z.rank w).rank z).shape = none := by
      simp [Tensor.padRank, Tensor.rank, hw'.1, hz.1, Tensor.bshape, Tensor.bdim, h1, h2, h3]
    simp only [e]
    rfl
  unfold ConvSum.sample
  rw [this]
  rfl

/-- the most probable choice of a sum, given what its cache holds. -/
theorem ConvSum.sample_cached {μ : Measure ℝ} (L : ConvSum) (hI : 0 < L.in_channels) {ctx : DCtx} {N : Nat}
    {idx : Nat → Nat → Nat → Nat} (hm : ctx.is_mpe = true) (hT : ctx.temperature_sums ≠ 0)
    (h : CCtx ctx N L.out_channels L.height L.width idx) {z : Tensor Fl} {Z : Nat → Img ℝ}
    (hz : z.Is4 N L.in_channels L.height L.width fun n i y x => .fin (Z n i y x)) :
    ∃ d, L.sample μ (some z) ctx = .pure d ∧ d = { ctx with indices_out := d.indices_out } ∧
      CCtx d N L.in_channels L.height L.width fun n y x =>
        Fl.argmaxN L.in_channels fun i => .fin (L.logits [idx n y x, i, y, x] / ctx.temperature_sums + Z n i y x) := by
  obtain ⟨w, hw, hw'⟩ := L.selectWeights_is hT h
  let W : Nat → Nat → Nat → Nat → ℝ := fun n i y x =>
    Fl.rlsm L.in_channels (fun i => L.logits [idx n y x, i, y, x] / ctx.temperature_sums) i + Z n i y x
  have hc : Res.Sat (ConvSum.condition z w) fun v => v.Is4 N L.in_channels L.height L.width fun n i y x =>
      .fin (Fl.rlsm L.in_channels (fun i => W n i y x) i) := by
    unfold ConvSum.condition
    refine (Tensor.zipWith_is (c := [N, L.in_channels, L.height, L.width]) (· + ·) hw' hz rfl (by simp [Tensor.bshape])).bind
      fun v hv => ?_
    have hv' : v.Is4 N L.in_channels L.height L.width fun n i y x => .fin (W n i y x) := by
      refine Tensor.Is.is4 hv ?_
      intro n hn i hi y hy x hx
      simp only [Tensor.clipAll, at', clip_of_lt, hn, hi, hy, hx]
      rw [Fl.logSoftmax_eq_fin (fun _ _ => rfl) hi]
      rfl
    refine (Tensor.logsumexpKeep_is (d := 1) hv' (by simp)).bind fun u hu => ?_
    refine (Tensor.zipWith_is (c := [N, L.in_channels, L.height, L.width]) (· - ·) hv' hu (by simp [setAt])
      (by simp [setAt, Tensor.bshape])).mono fun r hr => Tensor.Is.is4 hr ?_
    intro n hn i hi y hy x hx
    simp only [setAt, Tensor.clipAll, at', clip_of_lt, hn, hi, hy, hx]
    rw [Fl.lse_eq_fin (g := fun i => W n i y x) hI fun _ _ => rfl]
    rfl
  obtain ⟨v, hv, hv'⟩ := hc
  have hlw : L.logWeights (some z) ctx = .ok v := by
    unfold ConvSum.logWeights
    rw [hw]
    exact hv
  obtain ⟨t, ht, ht'⟩ := simple_is (d := 1) (noise := none) hv' (by simp) (by simpa [at'] using hI)
    (fun i _ => ⟨_, rfl⟩) (fun i _ => ⟨_, rfl⟩)
  refine ⟨{ ctx with indices_out := t }, ?_, rfl, h.ns, ?_, ?_, h.ir⟩
  · unfold ConvSum.sample drawNoise
    rw [hlw, Rand.lift_ok, Rand.pure_bind, if_pos hm, Rand.pure_bind, if_pos hm, ht]
    rfl
  · refine Is.is4 ht' ?_
    intro n hn k hk y hy x hx
    refine congrArg (fun j => oh j k) (Fl.argmaxN_mono (g := fun i => Fl.rlsm L.in_channels (fun i => W n i y x) i)
      (fun _ _ => rfl) (fun _ _ => rfl) fun i hi j hj => ?_)
    simp only [Fl.rlsm, W]
    constructor <;> intro hh <;> linarith
  · intro n hn y hy x hx
    exact Fl.argmaxN_lt hI _

namespace Props
open Tensor

/-! ### C51 -/

/-- calls that do not pass evidence to `sample`. -/
def Unconditional : ConvCall → Prop
  | .sample a => a.evidence = none
  | _ => True

/-- the parameters after a sequence of calls: the last update. -/
def lastModel (M : ConvModel) : List ConvCall → ConvModel
  | [] => M
  | .update M' :: cs => lastModel M' cs
  | _ :: cs => lastModel M cs

/-- **C51**, the provable part: as long as no call of `sample` has been given evidence, every call has the result that it has on a
new object with the current parameters, whatever calls came before.  Missing: histories with a conditional sample, for which it
is false. -/
theorem C51_isolated_partial (μ : Measure ℝ) (M : ConvModel) (cs : List ConvCall) (h : ∀ k ∈ cs, Unconditional k)
    (k : ConvCall) : k.result μ ((ConvObj.fresh M).run μ cs) = k.result μ (ConvObj.fresh (lastModel M cs)) := by
  have key : ∀ (cs : List ConvCall) (M : ConvModel), (∀ k ∈ cs, Unconditional k) →
      (ConvObj.fresh M).run μ cs = ConvObj.fresh (lastModel M cs) := by
    intro cs
    induction cs with
    | nil => intro M _; rfl
    | cons q cs ih =>
      intro M h
      have ht : ∀ k ∈ cs, Unconditional k := fun k hk => h k (by simp [hk])
      show ConvObj.run μ (q.next μ (ConvObj.fresh M)) cs = _
      cases q with
      | forward x => exact ih M ht
      | sample a =>
        have he : a.evidence = none := h (.sample a) (by simp)
        have : (ConvCall.sample a).next μ (ConvObj.fresh M) = ConvObj.fresh M := by
          simp only [ConvCall.next, ConvObj.sample, he]
          cases a.num_samples <;> rfl
        rw [this]
        exact ih M ht
      | update M' => exact ih M' ht
  rw [key cs M h]

/-- the same calls on a new object are the functions of `Verif.Conv`. -/
theorem C51_fresh (μ : Measure ℝ) (M : ConvModel) (x : Tensor Fl) (a : ConvArgs) :
    (ConvObj.fresh M).forward x = (M.forward x, ConvObj.fresh M) ∧ ((ConvObj.fresh M).sample μ a).1 = M.sample μ a := by
  refine ⟨rfl, ?_⟩
  unfold ConvObj.sample ConvModel.sample
  cases a.evidence <;> cases a.num_samples <;> rfl

/-- **C51** is false after a conditional sample: `sample(evidence=e)` raises, and from then on `forward(x)` changes what `sample`
does.  After `forward` of `N` images, `sample(num_samples=N')` raises for every other number of samples, while it returned with
probability one before. -/
theorem C51_refuted_raises (c : ConvConfig) (d : ImgShape) (P : ConvParams) (hu : c.Usual d) (hf : c.SizeFits d)
    (h2 : c.channels.headD 0 ≠ 1) (hg : P.leaf.Good) (hs : P.leaf.CanSample) (M : ConvModel) (h : buildConv c d P = .ok M)
    (μ : Measure ℝ) (hμ : μ Set.univ = 1) (a₀ : ConvArgs) (e : Tensor Fl) (he : a₀.evidence = some e) (N N' : Nat)
    (h1 : N ≠ 1) (h1' : N' ≠ 1) (hne : N' ≠ N) (x : Tensor Fl) (hx : ImgBatch P.leaf N d.channels d.height d.width x) :
    let call := ConvCall.sample { num_samples := some N' }
    let o := (ConvObj.fresh M).run μ [.sample a₀, .forward x]
    (∃ r, (ConvCall.sample a₀).result μ (ConvObj.fresh M) = .fail r) ∧ (∃ r, call.result μ o = .fail r) ∧
      (call.result μ (ConvObj.fresh M)).E (fun _ => 1) = 1 := by
  intro call o
  have hw := buildConv_WF hu hf h
  obtain ⟨-, -, -, -, -, -, e1, e2, e3⟩ := buildConv_spec h
  rw [← e1, ← e2, ← e3] at hx
  refine ⟨⟨.attribute, by simp [ConvCall.result, ConvObj.sample, he]⟩, ⟨.shape, ?_⟩, ?_⟩
  · obtain ⟨ls, l, L, el, ht⟩ := buildConv_top hu hf h
    have hk := hw.known
    have hc := hw.chain
    obtain ⟨y, hy, hy'⟩ := ConvModel.forwardLeaf_is hw.toFront (by rwa [conv_leaves h]) hx.is4 fun n hn =>
      ((hx.observed h hn).flat hw.toFront).valid (conv_proper hg h).valid_zero
    unfold ConvModel.atoms at hc
    rw [el] at hk hc
    obtain ⟨cs, z, Z, h3, h4, h5⟩ := forwardConv_top ht (fun a ha => hk a (by simp [ha])) hc hy'
    have ho : o = { model := M, enabled := true, caches := cs ++ [some z] } := by
      show ConvCall.next μ ((ConvObj.fresh M).sample μ a₀).2 (.forward x) = _
      simp only [ConvObj.sample, he, ConvObj.fresh, ConvCall.next, ConvObj.forward, if_true, overlay_nil]
      unfold ConvModel.forwardAll
      rw [hy]
      simp only [el, h3]
    rw [ho]
    show M.draw μ (cs ++ [some z]) N' _ = _
    unfold ConvModel.draw
    rw [el, sampleConv_top h4 (e := .shape) ?_]
    · rfl
    · have hL := L.sample_clash (μ := μ) (ctx := ConvModel.initCtx N' { num_samples := some N' }) one_ne_zero
        (by rw [ht.2.1, ht.2.2.1, ht.2.2.2]; exact ConvModel.initCtx_ok N' _) h5 h1 h1' hne
      rcases ht.1 with rfl | ⟨kh, kw, rfl⟩
      · exact hL
      · simp only [ConvLayer.sample]
        rw [if_neg (by decide), if_pos trivial, hL]
        rfl
  · show (((ConvObj.fresh M).sample μ _).1).E _ = 1
    rw [(C51_fresh μ M x _).2]
    exact (ConvModel.draw_full hμ hw (conv_samp hg hs h) (N := N') (a := { num_samples := some N' }) one_ne_zero one_pos).mass

/-- a circuit for images of one pixel with two components. -/
def exPixel : ConvConfig := ⟨[2], 1, "bottom-up", "sum-prod"⟩

/-- components with modes 0 and 1; the first is slightly more probable. -/
def exPixelParams : ConvParams := ⟨.normal (fun _ _ i _ => i) (fun _ _ _ _ => 0), fun _ i => -(at' 1 i / 10 : ℝ)⟩

/-- an image of one pixel with value `v`. -/
def pixel (v : ℝ) : Tensor Fl := ⟨[1, 1, 1, 1], fun _ => .fin v⟩

theorem argmax_two (f : Nat → ℝ) : Fl.argmaxN 2 (fun i => .fin (f i)) = if f 0 < f 1 then 1 else 0 := by
  simp only [Fl.argmaxN, Fl.better, Fl.lt]
  split_ifs <;> simp_all

/-- **C51**: after a conditional sample has raised, the images returned by `sample(num_samples=1)` depend on the argument of an
earlier `forward`: a most probable image has value 0 on a new object, and value 1 after `forward` of an image with value 1. -/
theorem C51_refuted_mpe (M : ConvModel) (h : buildConv exPixel ⟨1, 1, 1⟩ exPixelParams = .ok M) (μ : Measure ℝ) (a₀ : ConvArgs)
    (e : Tensor Fl) (he : a₀.evidence = some e) :
    let call := ConvCall.sample { num_samples := some 1, is_mpe := true }
    (∃ t, call.result μ (ConvObj.fresh M) = .pure t ∧ t.get [0, 0, 0, 0] = .fin 0) ∧
      ∃ t, call.result μ ((ConvObj.fresh M).run μ [.sample a₀, .forward (pixel 1)]) = .pure t ∧ t.get [0, 0, 0, 0] = .fin 1 := by
  intro call
  have hu : exPixel.Usual ⟨1, 1, 1⟩ := ⟨by simp [exPixel], by norm_num, by norm_num, Or.inl rfl⟩
  have hf : exPixel.SizeFits ⟨1, 1, 1⟩ := ⟨fun _ => by norm_num [exPixel], fun h => absurd h (by decide)⟩
  have hg : exPixelParams.leaf.Good := trivial
  have hs : exPixelParams.leaf.CanSample := trivial
  have hw := buildConv_WF hu hf h
  have hsam := (conv_samp hg hs h).samplable
  obtain ⟨-, -, -, -, e0, el, e1, e2, e3⟩ := buildConv_spec h
  dsimp only at e1 e2 e3
  have hleaf : M.leaf = normalLeaf ⟨1, 1, 2, 1⟩ (fun _ _ i _ => i) (fun _ _ _ _ => 0) := by
    simp only [exPixelParams, LeafSpec.build, exPixel] at e0
    obtain ⟨_, -, e0⟩ := bind_ok e0
    simp only [Res.pure_eq, Except.ok.injEq] at e0
    exact e0.symm
  obtain ⟨L, hL⟩ : ∃ L : ConvSum, L = ⟨2, 1, 1, 1, fun i => -(at' 1 i / 10 : ℝ)⟩ := ⟨_, rfl⟩
  have hlay : M.layers = [.sumProd "prod-sum" L 1 1] := by
    rw [hL]
    simp [convLayers, exPixel, convBottomUp, ConvLayer.mkSumProd, require_true, exPixelParams] at el
    exact el.symm
  have hn : M.leaf.num_leaves = 2 := by rw [hleaf]; rfl
  constructor
  · obtain ⟨q, h1, h2, h3⟩ := conv_mpe hw 1 { num_samples := some 1, is_mpe := true } μ rfl one_ne_zero
    obtain ⟨t, h4, h5, h6⟩ := conv_pick hw hsam rfl h1 h2 h3
    refine ⟨t, h4, ?_⟩
    rw [h6 0 one_pos 0 (by omega) 0 (by omega) 0 (by omega), hleaf]
    show Fl.fin ((bestAtoms _ M.atoms _ 0 0 : ℕ) : ℝ) = _
    have ha : M.atoms = [.prod 1 1, .sum L] := by
      unfold ConvModel.atoms
      rw [hlay]
      simp [ConvLayer.atoms]
    rw [ha]
    simp only [bestAtoms, ConvAtom.best]
    rw [hL, argmax_two]
    simp [at']
  · have hx : (pixel 1).Is4 1 M.num_channels M.height M.width fun _ _ _ _ => .fin 1 := by
      rw [e1, e2, e3]
      exact Is.intro rfl fun _ _ => rfl
    obtain ⟨y, hy, hy'⟩ := ConvModel.forwardLeaf_is hw.toFront (by omega) hx fun n hn => by
      rw [hleaf]
      intro c hc f hf
      simp [flatImg, normalLeaf, gaussLeaf]
    obtain ⟨K, hK⟩ : ∃ K : ℝ, ∀ i, M.leafImg (fun _ _ _ => .fin 1) i 0 0 = .fin (-((1 - i) ^ 2) / 2 + K) := by
      refine ⟨- Real.log √(2 * Real.pi), fun i => ?_⟩
      unfold ConvModel.leafImg BaseLeaf.leafSum
      rw [hleaf]
      simp [normalLeaf, gaussLeaf, Fl.sumN, BaseLeaf.entry, flatImg, normalLogProb, Fl.isnan]
      ring
    rw [hn, e2, e3] at hy'
    obtain ⟨z, hz, hz'⟩ := forwardAtoms_is (.cons (.prod 1 1 2 1 1 one_pos one_pos one_pos one_pos) (.nil _ _ _)) hy'
    have hz2 : ProdConv.forward 1 1 y = .ok z := by
      simp only [forwardAtoms] at hz
      obtain ⟨_, q1, q2⟩ := bind_ok hz
      cases q2
      exact q1
    have hz3 : z.Is4 1 L.in_channels L.height L.width fun _ i _ _ => .fin (-((1 - i) ^ 2) / 2 + K) := by
      rw [hL]
      refine Is.is4 hz' ?_
      intro n hn i hi y hy x hx
      simp only [rowAtoms, ConvAtom.row, at', Fl.sumN]
      have : y = 0 := Nat.lt_one_iff.1 hy
      subst this
      have : x = 0 := Nat.lt_one_iff.1 hx
      subst this
      simp [hK]
    have ho : (ConvObj.fresh M).run μ [.sample a₀, .forward (pixel 1)] = { model := M, enabled := true, caches := [some z] } := by
      show ConvCall.next μ ((ConvObj.fresh M).sample μ a₀).2 (.forward (pixel 1)) = _
      simp only [ConvObj.sample, he, ConvObj.fresh, ConvCall.next, ConvObj.forward, if_true, overlay_nil]
      unfold ConvModel.forwardAll
      rw [hy, hlay]
      simp only [forwardConv, ConvLayer.forward]
      simp only [hz2]
      cases L.forward z <;> simp
    rw [ho]
    obtain ⟨d, d1, d2, d3⟩ := L.sample_cached (μ := μ) (by rw [hL]; norm_num) (ctx := ConvModel.initCtx 1
      { num_samples := some 1, is_mpe := true }) (N := 1) (idx := fun _ _ _ => 0) rfl one_ne_zero
      (by rw [hL]; exact ConvModel.initCtx_ok 1 _) hz3
    obtain ⟨q, q1, q2, q3⟩ := ProdConv.sample_is (kh := 1) (kw := 1) d3
    have hsc : sampleConv μ M.layers [some z] (ConvModel.initCtx 1 { num_samples := some 1, is_mpe := true }) = .pure q := by
      rw [hlay]
      simp only [sampleConv, Rand.pure_bind, List.head?_cons, Option.getD_some, ConvLayer.sample]
      rw [if_neg (by decide), if_pos trivial, d1, Rand.pure_bind, q1]
      rfl
    have q3' := q3
    rw [hL] at q3'
    obtain ⟨t, h4, h5, h6⟩ := conv_pick hw hsam rfl hsc (by rw [q2, d2]) (by rw [hn, e2, e3]; exact q3')
    refine ⟨t, h4, ?_⟩
    rw [h6 0 one_pos 0 (by omega) 0 (by omega) 0 (by omega), hleaf]
    show Fl.fin ((Fl.argmaxN 2 _ : ℕ) : ℝ) = _
    rw [argmax_two]
    simp [at', ConvModel.initCtx]
    norm_num
    linarith

example : ∃ M, buildConv exPixel ⟨1, 1, 1⟩ exPixelParams = .ok M :=
  buildConv_ok (by simp [exPixel]) (by norm_num) ⟨by simp [exPixel], by norm_num, by norm_num, Or.inl rfl⟩
    (fun _ => ⟨fun _ => by norm_num [exPixel], fun h => absurd h (by decide)⟩) (Or.inl rfl)
    (by simp [exPixelParams, LeafSpec.build])

end Props

end Einet
