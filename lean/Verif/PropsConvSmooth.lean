import Verif.PropsSmooth
import Verif.PropsConvLit

/-!
# C97: log-likelihoods and losses of convolutional circuits are smooth functions of the parameters and of the inputs
-/

open Classical MeasureTheory
open scoped ENNReal
noncomputable section
namespace Einet
open Tensor
namespace Props

variable {E : Type} [NormedAddCommGroup E] [NormedSpace ℝ E] {m : WithTop ℕ∞}

/-! ### Steps of a circuit -/

/-- sequences of steps of constant sizes with logits that depend smoothly on the point. -/
inductive AtomsFam (m : WithTop ℕ∞) : (E → List ConvAtom) → Prop
  | nil : AtomsFam m fun _ => []
  | sum (C O H W : Nat) {w : E → List Nat → ℝ} {as : E → List ConvAtom} : SmW m w → AtomsFam m as →
      AtomsFam m fun e => .sum ⟨C, O, H, W, w e⟩ :: as e
  | prod (kh kw : Nat) {as : E → List ConvAtom} : AtomsFam m as → AtomsFam m fun e => .prod kh kw :: as e

theorem AtomsFam.append {a b : E → List ConvAtom} (ha : AtomsFam m a) (hb : AtomsFam m b) : AtomsFam m fun e => a e ++ b e := by
  induction ha with
  | nil => exact hb
  | sum C O H W hw _ ih => exact .sum C O H W hw ih
  | prod kh kw _ ih => exact .prod kh kw ih

theorem AtomsFam.den {as : E → List ConvAtom} (h : AtomsFam m as) {p : E → Img ℝ≥0∞} (hp : ∀ c y x, PSm m fun e => p e c y x)
    (c y x : Nat) : PSm m fun e => denAtoms 1 (as e) (p e) c y x := by
  induction h generalizing p with
  | nil => exact hp c y x
  | sum C O H W hw _ ih =>
    refine ih (p := fun e => ConvAtom.den 1 (.sum ⟨C, O, H, W, _⟩) (p e)) fun o y x => ?_
    refine PSm.sum fun i hi => PSm.mul ?_ (hp i y x)
    unfold ConvSum.weight
    simp only [fun v : ℝ => (Fl.fin_div v one_ne_zero).symm]
    exact PSm.weight (fun k _ => hw _) hi
  | prod kh kw _ ih =>
    refine ih (p := fun e => ConvAtom.den 1 (.prod kh kw) (p e)) fun o y x => ?_
    exact PSm.prod fun a _ => PSm.prod fun b _ => hp _ _ _

theorem mkSumProd_fam {i o h w kh kw : Nat} {order : String} (ho : KnownOrder order) {lg : E → List Nat → ℝ} (hw : SmW m lg)
    {l : E → ConvLayer} (hl : ∀ e, ConvLayer.mkSumProd i o h w kh kw order (lg e) = .ok (l e)) : AtomsFam m fun e => (l e).atoms := by
  have : (fun e => (l e).atoms) = fun e => if order = "sum-prod" then [.sum ⟨i, o, h, w, lg e⟩, .prod kh kw]
      else [.prod kh kw, .sum ⟨i, o, h / kh, w / kw, lg e⟩] := by
    funext e
    exact (mkSumProd_atoms ho (hl e)).2.2.2
  rw [this]
  split_ifs
  · exact .sum _ _ _ _ hw (.prod _ _ .nil)
  · exact .prod _ _ (.sum _ _ _ _ hw .nil)

theorem convTopDown_fam {P : E → ConvParams} (hs : ∀ i, SmW m fun e => (P e).logits i) {order : String} (ho : KnownOrder order)
    {p : Nat} {cs : List Nat} {i : Nat} {ls : E → List ConvLayer} (h : ∀ e, convTopDown (P e) order p cs i = .ok (ls e)) :
    AtomsFam m fun e => (ls e).flatMap ConvLayer.atoms := by
  induction cs generalizing p i ls with
  | nil =>
    have : ls = fun e => [.sum ⟨p, 1, 1, 1, (P e).logits i⟩] := by
      funext e
      exact (Except.ok.inj (h e)).symm
    rw [this]
    exact .sum _ _ _ _ (hs i) .nil
  | cons c cs ih =>
    have h' : ∀ e, ∃ l above, ConvLayer.mkSumProd p c (2 ^ (cs.length + 1)) (2 ^ (cs.length + 1)) 2 2 order ((P e).logits i) = .ok l ∧
        convTopDown (P e) order c cs (i + 1) = .ok above ∧ l :: above = ls e := by
      intro e
      obtain ⟨l, hl, h2⟩ := bind_ok (h e)
      obtain ⟨above, ha, h3⟩ := bind_ok h2
      exact ⟨l, above, hl, ha, Except.ok.inj h3⟩
    choose l above hl ha he using h'
    have : ls = fun e => l e :: above e := by funext e; exact (he e).symm
    rw [this]
    exact (mkSumProd_fam ho (hs i) hl).append (ih ha)

theorem convBottomUp_fam {P : E → ConvParams} (hs : ∀ i, SmW m fun e => (P e).logits i) {order : String} (ho : KnownOrder order)
    {k : Nat} {cs : List Nat} {i H W : Nat} {ls : E → List ConvLayer} (h : ∀ e, convBottomUp (P e) order k cs i H W = .ok (ls e)) :
    AtomsFam m fun e => (ls e).flatMap ConvLayer.atoms := by
  induction cs generalizing i H W ls with
  | nil => cases h 0
  | cons c cs ih =>
    cases cs with
    | nil =>
      have h' : ∀ e, ∃ l, ConvLayer.mkSumProd c 1 H W H W "prod-sum" ((P e).logits i) = .ok l ∧ [l] = ls e := by
        intro e
        obtain ⟨l, hl, h2⟩ := bind_ok (h e)
        exact ⟨l, hl, Except.ok.inj h2⟩
      choose l hl he using h'
      have : ls = fun e => [l e] := by funext e; exact (he e).symm
      rw [this]
      exact (mkSumProd_fam (Or.inr rfl) (hs i) hl).append .nil
    | cons c' cs =>
      have h' : ∀ e, ∃ l above, ConvLayer.mkSumProd c c' H W k k order ((P e).logits i) = .ok l ∧
          convBottomUp (P e) order k (c' :: cs) (i + 1) (H / k) (W / k) = .ok above ∧ l :: above = ls e := by
        intro e
        obtain ⟨l, hl, h2⟩ := bind_ok (h e)
        obtain ⟨above, ha, h3⟩ := bind_ok h2
        exact ⟨l, above, hl, ha, Except.ok.inj h3⟩
      choose l above hl ha he using h'
      have : ls = fun e => l e :: above e := by funext e; exact (he e).symm
      rw [this]
      exact (mkSumProd_fam ho (hs i) hl).append (ih ha)

theorem buildConv_fam {c : ConvConfig} {d : ImgShape} {P : E → ConvParams} (ho : KnownOrder c.order)
    (hs : ∀ i, SmW m fun e => (P e).logits i) {M : E → ConvModel} (h : ∀ e, buildConv c d (P e) = .ok (M e)) :
    AtomsFam m fun e => (M e).atoms := by
  have h' : ∀ e, convLayers c d (P e) = .ok (M e).layers := fun e => (buildConv_spec (h e)).2.2.2.2.2.1
  unfold ConvModel.atoms
  unfold convLayers at h'
  split_ifs at h'
  · exact convBottomUp_fam hs ho h'
  · have h2 : ∀ e, ∃ ls, convTopDown (P e) c.order (c.channels.headD 0) c.channels 0 = .ok ls ∧
        .prod (d.height / 2 ^ c.channels.length) (d.width / 2 ^ c.channels.length) :: ls = (M e).layers := by
      intro e
      obtain ⟨ls, hl, h3⟩ := bind_ok (h' e)
      exact ⟨ls, hl, Except.ok.inj h3⟩
    choose ls hl he using h2
    simp only [← he]
    exact .prod _ _ (convTopDown_fam hs ho hl)
  · exact (h' 0).elim

/-! ### Circuits -/

/-- the result for one image. -/
theorem outRow_sm {c : ConvConfig} {d : ImgShape} {P : E → ConvParams} (hu : c.Usual d) (hf : c.SizeFits d)
    (hg : ∀ e, (P e).leaf.Good) (hs : ∀ i, SmW m fun e => (P e).logits i) (hl : LeafFam m fun e => (P e).leaf) {M : E → ConvModel}
    (h : ∀ e, buildConv c d (P e) = .ok (M e)) {N : Nat} {x : E → Tensor Fl} (hx : SmData m (fun e => (P e).leaf) x)
    (hb : ∀ e, ImgBatch (P e).leaf N d.channels d.height d.width (x e)) {n : Nat} (hn : n < N) :
    ∃ v : E → ℝ, ContDiff ℝ m v ∧ ∀ e, (M e).outRow (fun c y z => (x e).get [n, c, y, z]) = .fin (v e) := by
  have hz : ∀ e, (M e).num_channels = d.channels ∧ (M e).height = d.height ∧ (M e).width = d.width := fun e =>
    (buildConv_spec (h e)).2.2.2.2.2.2
  have hB : ∀ e, ImgBatch (P e).leaf N (M e).num_channels (M e).height (M e).width (x e) := fun e => by
    rw [(hz e).1, (hz e).2.1, (hz e).2.2]; exact hb e
  let p : E → Img ℝ≥0∞ := fun e i y z => ∏ ch ∈ Finset.range d.channels, if y < d.height ∧ z < d.width then
    (if (x e).get [n, ch, y, z] = .nan then 1 else toP ((M e).leaf.logProb ch (y * d.width + z) i 0 ((x e).get [n, ch, y, z]))) else 1
  have hp : ∀ i y z, PSm m fun e => p e i y z := fun i y z => by
    refine PSm.prod fun ch hc => ?_
    by_cases hyz : y < d.height ∧ z < d.width
    · simp only [if_pos hyz]
      exact leaf_sm hl hg (fun e => (buildConv_spec (h e)).2.2.2.2.1) (hx [n, ch, y, z])
        (fun e => (hb e).2 n hn ch hc y hyz.1 z hyz.2) ch (y * d.width + z) i 0
    · simp only [if_neg hyz]
      exact PSm.one
  have key : ∀ e, ∃ r : ℝ, (M e).outRow (fun c y z => (x e).get [n, c, y, z]) = .fin r ∧
      ENNReal.ofReal (Real.exp r) = denAtoms 1 (M e).atoms (p e) 0 0 0 := by
    intro e
    have hw := buildConv_WF hu hf (h e)
    have hpr := conv_proper (hg e) (h e)
    have ho := (hB e).observed (h e) hn
    obtain ⟨⟨r, hr⟩, hden⟩ := ConvModel.outRow_den hw hpr ho
    refine ⟨r, hr, ?_⟩
    rw [hr] at hden
    refine (show _ = toP (.fin r) from rfl).trans (hden.trans (denAtoms_congr hw.chain (fun i hi y hy z hz' => ?_) one_pos one_pos one_pos))
    unfold ConvModel.leafP
    rw [(hz e).1]
    refine Finset.prod_congr rfl fun ch hc => ?_
    have hc : ch < d.channels := by simpa using hc
    rw [if_pos ⟨by rwa [← (hz e).2.1], by rwa [← (hz e).2.2]⟩, (hz e).2.2]
    have hcM : ch < (M e).num_channels := by rw [(hz e).1]; exact hc
    rcases ho ch hcM y hy z hz' with e0 | ⟨v, e0, hv⟩
    · dsimp only at e0 ⊢
      rw [e0, if_pos rfl]
      simp [BaseLeaf.entry, Fl.isnan]
    · have hfin := hpr.isFin ch (by rw [hw.channels]; exact hcM) (y * (M e).width + z) (by rw [hw.features]; exact block_lt hy hz') i hi
        0 (by rw [hw.reps]; exact one_pos) v hv
      rw [(hz e).2.2] at hfin
      obtain ⟨u, hu'⟩ := hfin
      dsimp only at e0 ⊢
      rw [e0, if_neg (by simp)]
      simp [BaseLeaf.entry, Fl.isnan, hu']
  obtain ⟨g, hg', hge⟩ := (buildConv_fam hu.2.2.2 hs h).den hp 0 0 0
  choose r hr hr' using key
  have hgr : ∀ e, g e = Real.exp (r e) := fun e => by
    have := (hr' e).trans (hge e).2
    exact ((ENNReal.ofReal_eq_ofReal_iff (Real.exp_pos _).le (hge e).1).1 this).symm
  refine ⟨fun e => Real.log (g e), hg'.log fun e => ?_, fun e => ?_⟩
  · rw [hgr]; exact (Real.exp_pos _).ne'
  · dsimp only
    rw [hr e, hgr, Real.log_exp]

/-- if `forward` accepts one batch, then the sizes fit. -/
theorem accepts_fits {c : ConvConfig} {d : ImgShape} {P : ConvParams} (hu : c.Usual d) (hg : P.leaf.Good) {M : ConvModel}
    (h : buildConv c d P = .ok M) {N : Nat} {x : Tensor Fl} (hb : ImgBatch P.leaf N d.channels d.height d.width x)
    (hy : ∃ y, M.forward x = .ok y) : c.SizeFits d ∧ c.channels.headD 0 ≠ 1 := by
  have h2 : c.channels.headD 0 ≠ 1 := fun h1 => by
    obtain ⟨e, he⟩ := C40_refuted_single_channel c d P h1 M h x
    obtain ⟨y, hy⟩ := hy
    rw [he] at hy
    cases hy
  obtain ⟨-, -, -, -, -, -, e1, e2, e3⟩ := buildConv_spec h
  exact ⟨(C40_fits_partial c d P hu h2 hg M h N x (by rw [e1, e2, e3]; exact hb)).1 hy, h2⟩

/-- **C97**, forward pass: if a circuit accepts a batch of images at one point, then it does so at every point, and every entry of the
result depends smoothly on the parameters and, for leaves with a density on the real line, on the images. -/
theorem C97_forward (c : ConvConfig) (d : ImgShape) (P : E → ConvParams) (hu : c.Usual d) (hg : ∀ e, (P e).leaf.Good)
    (hs : ∀ i, SmW m fun e => (P e).logits i) (hl : LeafFam m fun e => (P e).leaf) (M : E → ConvModel)
    (h : ∀ e, buildConv c d (P e) = .ok (M e)) (N : Nat) (x : E → Tensor Fl) (hx : SmData m (fun e => (P e).leaf) x)
    (hb : ∀ e, ImgBatch (P e).leaf N d.channels d.height d.width (x e)) (e₀ : E) (hy : ∃ y, (M e₀).forward (x e₀) = .ok y) :
    ∃ v : E → Nat → ℝ, (∀ n, n < N → ContDiff ℝ m fun e => v e n) ∧
      ∀ e, ∃ y, (M e).forward (x e) = .ok y ∧ y.shape = [N] ∧ ∀ n, n < N → y.get [n] = .fin (v e n) := by
  obtain ⟨hf, h2⟩ := accepts_fits hu (hg e₀) (h e₀) (hb e₀) hy
  have key : ∀ n, ∃ v : E → ℝ, n < N → ContDiff ℝ m v ∧ ∀ e, (M e).outRow (fun c y z => (x e).get [n, c, y, z]) = .fin (v e) := by
    intro n
    by_cases hn : n < N
    · obtain ⟨v, hv⟩ := outRow_sm hu hf hg hs hl h hx hb hn
      exact ⟨v, fun _ => hv⟩
    · exact ⟨0, fun h => absurd h hn⟩
  choose v hv using key
  refine ⟨fun e n => v n e, fun n hn => (hv n hn).1, fun e => ?_⟩
  obtain ⟨-, -, -, -, -, -, e1, e2, e3⟩ := buildConv_spec (h e)
  obtain ⟨y, hy, hy1, hy2⟩ := conv_forward hu hf h2 (hg e) (h e) (N := N) (x := x e) (by rw [e1, e2, e3]; exact hb e)
  exact ⟨y, hy, hy1, fun n hn => (hy2 n hn).trans ((hv n hn).2 e)⟩

/-- **C97**, training loss of models_pl.py: a smooth function of the parameters and of the images. -/
theorem C97_loss (c : ConvConfig) (d : ImgShape) (P : E → ConvParams) (hu : c.Usual d) (hg : ∀ e, (P e).leaf.Good)
    (hs : ∀ i, SmW m fun e => (P e).logits i) (hl : LeafFam m fun e => (P e).leaf) (M : E → ConvModel)
    (h : ∀ e, buildConv c d (P e) = .ok (M e)) (N : Nat) (hN : 0 < N) (x : E → Tensor Fl) (hx : SmData m (fun e => (P e).leaf) x)
    (hb : ∀ e, ImgBatch (P e).leaf N d.channels d.height d.width (x e)) (e₀ : E) (hy : ∃ y, (M e₀).forward (x e₀) = .ok y) :
    ∃ v : E → ℝ, ContDiff ℝ m v ∧ ∀ e, convNll (M e) (x e) = .ok (.fin (v e)) := by
  obtain ⟨v, hv, hv'⟩ := C97_forward c d P hu hg hs hl M h N x hx hb e₀ hy
  refine ⟨fun e => -(∑ n ∈ Finset.range N, v e n) / N,
    ContDiff.div_const (ContDiff.neg (ContDiff.sum fun n hn => hv n (by simpa using hn))) _, fun e => ?_⟩
  obtain ⟨y, hy, hys, hy'⟩ := hv' e
  exact convNll_eq hN hy hys hy'

/-! ### Example -/

/-- circuits for images of 8 × 24 pixels; means, scales, logits and one of the pixels depend on the point. -/
example (s o : String) (hs : s = "bottom-up" ∨ s = "top-down") (ho : o = "sum-prod" ∨ o = "prod-sum") :
    ∃ (P : ℝ → ConvParams) (M : ℝ → ConvModel) (x : ℝ → Tensor Fl), (exConv s o).Usual ⟨3, 8, 24⟩ ∧ (∀ e, (P e).leaf.Good) ∧
      (∀ i, SmW ⊤ fun e => (P e).logits i) ∧ LeafFam ⊤ (fun e => (P e).leaf) ∧ (∀ e, buildConv (exConv s o) ⟨3, 8, 24⟩ (P e) = .ok (M e)) ∧
      SmData ⊤ (fun e => (P e).leaf) x ∧ (∀ e, ImgBatch (P e).leaf 5 3 8 24 (x e)) ∧ ∃ y, (M 0).forward (x 0) = .ok y := by
  have hu : (exConv s o).Usual ⟨3, 8, 24⟩ := ⟨by simp [exConv], by norm_num, by norm_num, ho⟩
  have hf : (exConv s o).SizeFits ⟨3, 8, 24⟩ := ⟨fun _ => by norm_num [exConv], fun _ => by norm_num [exConv]⟩
  let P : ℝ → ConvParams := fun e => ⟨.normal (fun _ _ i _ => e * i) (fun _ _ i _ => e + i), fun i l => e * (i + l.sum)⟩
  have hb : ∀ e, ∃ M, buildConv (exConv s o) ⟨3, 8, 24⟩ (P e) = .ok M := fun e =>
    buildConv_ok (P := P e) (by simp [exConv]) (by norm_num) hu (fun _ => hf) hs (by simp [P, LeafSpec.build, exConv])
  choose M hM using hb
  let x : ℝ → Tensor Fl := fun e => ⟨[5, 3, 8, 24], fun i => if i = [0, 0, 0, 0] then .fin e else .fin 1⟩
  have hB : ∀ e, ImgBatch (P e).leaf 5 3 8 24 (x e) := fun e => ⟨rfl, fun n _ c _ y _ z _ => Or.inr (by
    show ∃ v : ℝ, (if [n, c, y, z] = [0, 0, 0, 0] then Fl.fin e else .fin 1) = .fin v ∧ _
    split_ifs
    · exact ⟨e, rfl, trivial⟩
    · exact ⟨1, rfl, trivial⟩)⟩
  refine ⟨P, M, x, hu, fun _ => trivial, fun i l => contDiff_id.mul contDiff_const,
    .normal (fun _ _ _ _ => contDiff_id.mul contDiff_const) (fun _ _ _ _ => contDiff_id.add contDiff_const), hM, fun i => ?_, hB, ?_⟩
  · by_cases h : i = [0, 0, 0, 0]
    · exact Or.inr ⟨fun _ => trivial, fun e => e, contDiff_id, fun e => if_pos h⟩
    · exact Or.inl ⟨.fin 1, fun e => if_neg h⟩
  · obtain ⟨-, -, -, -, -, -, e1, e2, e3⟩ := buildConv_spec (hM 0)
    obtain ⟨y, hy, -⟩ := conv_forward hu hf (by simp [exConv]) (show (P 0).leaf.Good from trivial) (hM 0) (N := 5) (x := x 0)
      (by rw [e1, e2, e3]; exact hB 0)
    exact ⟨y, hy⟩

end Props
end Einet
