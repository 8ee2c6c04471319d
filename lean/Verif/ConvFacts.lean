import Verif.Conv
import Verif.SampleLaw

/-!
# Facts about convolutional circuits

The layers are split into sum and product steps; every step has a meaning on rows (`row`), as a probability (`den`) and as a
random choice (`choice`).
-/

open Classical MeasureTheory
open scoped ENNReal
noncomputable section
namespace Einet
open Tensor

/-- an image: channel, row, column. -/
abbrev Img (α : Type) := Nat → Nat → Nat → α

/-- a sum or a product step. -/
inductive ConvAtom where
  | sum (L : ConvSum)
  | prod (kh kw : Nat)

namespace ConvAtom

/-- forward pass of a step. -/
def forward : ConvAtom → Tensor Fl → Res (Tensor Fl)
  | sum L => L.forward
  | prod kh kw => ProdConv.forward kh kw

/-- sampling without cache. -/
def sample (μ : Measure ℝ) : ConvAtom → DCtx → Rand DCtx
  | sum L, ctx => L.sample μ none ctx
  | prod kh kw, ctx => Rand.lift (ProdConv.sample kh kw ctx)

/-- sizes before and after a step. -/
inductive WF : ConvAtom → Nat → Nat → Nat → Nat → Nat → Nat → Prop
  | sum (L : ConvSum) (h : 0 < L.in_channels) :
    WF (.sum L) L.in_channels L.height L.width L.out_channels L.height L.width
  | prod (kh kw C H W : Nat) (hkh : 0 < kh) (hkw : 0 < kw) (hH : 0 < H) (hW : 0 < W) :
    WF (.prod kh kw) C (H * kh) (W * kw) C H W

/-- forward pass on one image. -/
def row : ConvAtom → Img Fl → Img Fl
  | sum L, e => fun o y x => Fl.lse L.in_channels fun i =>
      e i y x + Fl.logSoftmax L.in_channels (fun i => .fin (L.logits [o, i, y, x])) i
  | prod kh kw, e => fun c y x => Fl.sumN kh fun a => Fl.sumN kw fun b => e c (y * kh + a) (x * kw + b)

/-- weight of input channel `i` for output channel `o`. -/
def _root_.Einet.ConvSum.weight (L : ConvSum) (T : ℝ) (o i y x : Nat) : ℝ≥0∞ :=
  toP (Fl.logSoftmax L.in_channels (fun i => .fin (L.logits [o, i, y, x] / T)) i)

/-- meaning as a probability. -/
def den (T : ℝ) : ConvAtom → Img ℝ≥0∞ → Img ℝ≥0∞
  | sum L, p => fun o y x => ∑ i ∈ Finset.range L.in_channels, L.weight T o i y x * p i y x
  | prod kh kw, p => fun c y x => ∏ a ∈ Finset.range kh, ∏ b ∈ Finset.range kw, p c (y * kh + a) (x * kw + b)

end ConvAtom

/-- a sequence of steps, from the bottom. -/
def forwardAtoms : List ConvAtom → Tensor Fl → Res (Tensor Fl)
  | [], x => .ok x
  | a :: as, x => a.forward x >>= forwardAtoms as

/-- sampling, from the top. -/
def sampleAtoms (μ : Measure ℝ) : List ConvAtom → DCtx → Rand DCtx
  | [], ctx => .pure ctx
  | a :: as, ctx => (sampleAtoms μ as ctx).bind fun ctx => a.sample μ ctx

/-- sizes fit. -/
inductive AChain : List ConvAtom → Nat → Nat → Nat → Nat → Nat → Nat → Prop
  | nil (C H W : Nat) : AChain [] C H W C H W
  | cons {a : ConvAtom} {as : List ConvAtom} {C H W C' H' W' C'' H'' W'' : Nat} (h : a.WF C H W C' H' W')
    (hs : AChain as C' H' W' C'' H'' W'') : AChain (a :: as) C H W C'' H'' W''

/-- rows of a sequence. -/
def rowAtoms : List ConvAtom → Img Fl → Img Fl
  | [], e => e
  | a :: as, e => rowAtoms as (a.row e)

/-- probabilities of a sequence. -/
def denAtoms (T : ℝ) : List ConvAtom → Img ℝ≥0∞ → Img ℝ≥0∞
  | [], p => p
  | a :: as, p => denAtoms T as (a.den T p)

theorem sampleAtoms_append (μ : Measure ℝ) (as bs : List ConvAtom) (ctx : DCtx) :
    sampleAtoms μ (as ++ bs) ctx = (sampleAtoms μ bs ctx).bind fun c => sampleAtoms μ as c := by
  induction as with
  | nil => exact (Rand.bind_pure _).symm
  | cons a as ih =>
    show (sampleAtoms μ (as ++ bs) ctx).bind _ = _
    rw [ih, Rand.bind_assoc]
    rfl

theorem forwardAtoms_append (as bs : List ConvAtom) (x : Tensor Fl) :
    forwardAtoms (as ++ bs) x = forwardAtoms as x >>= forwardAtoms bs := by
  induction as generalizing x with
  | nil => rfl
  | cons a as ih =>
    show (a.forward x >>= forwardAtoms (as ++ bs)) = (a.forward x >>= forwardAtoms as) >>= forwardAtoms bs
    cases a.forward x with
    | error e => rfl
    | ok y => exact ih y

theorem AChain.append {as bs : List ConvAtom} {C H W C' H' W' C'' H'' W'' : Nat} (h : AChain as C H W C' H' W')
    (hs : AChain bs C' H' W' C'' H'' W'') : AChain (as ++ bs) C H W C'' H'' W'' := by
  induction h with
  | nil => exact hs
  | cons h _ ih => exact .cons h (ih hs)

namespace ConvLayer

/-- the steps of a layer. -/
def atoms : ConvLayer → List ConvAtom
  | sum L => [.sum L]
  | prod kh kw => [.prod kh kw]
  | sumProd order L kh kw => if order = "sum-prod" then [.sum L, .prod kh kw] else [.prod kh kw, .sum L]

/-- the order is one of the documented ones. -/
def Known : ConvLayer → Prop
  | sumProd order _ _ _ => order = "sum-prod" ∨ order = "prod-sum"
  | _ => True

theorem forward_atoms {l : ConvLayer} (h : l.Known) (x : Tensor Fl) : (l.forward x).2 = forwardAtoms l.atoms x := by
  have e : ∀ y : Res (Tensor Fl), (y >>= fun z => (Except.ok z : Res (Tensor Fl))) = y := fun y => by cases y <;> rfl
  cases l with
  | sum L => exact (e _).symm
  | prod kh kw => exact (e _).symm
  | sumProd o L kh kw =>
    simp only [forward, atoms]
    by_cases ho : o = "sum-prod"
    · rw [if_pos ho, if_pos ho]
      show (L.forward x >>= ProdConv.forward kh kw) = L.forward x >>= fun y => (ProdConv.forward kh kw y >>= fun z => .ok z)
      simp only [e]
    · rw [if_neg ho, if_neg ho, if_pos (h.resolve_left ho)]
      show _ = ProdConv.forward kh kw x >>= fun y => (L.forward y >>= fun z => .ok z)
      simp only [e]
      cases ProdConv.forward kh kw x <;> rfl

theorem sample_atoms {l : ConvLayer} (h : l.Known) (μ : Measure ℝ) (ctx : DCtx) :
    l.sample μ none ctx = sampleAtoms μ l.atoms ctx := by
  cases l with
  | sum L => rfl
  | prod kh kw => rfl
  | sumProd o L kh kw =>
    simp only [sample, atoms]
    by_cases ho : o = "sum-prod"
    · rw [if_pos ho, if_pos ho]; rfl
    · rw [if_neg ho, if_neg ho, if_pos (h.resolve_left ho)]; rfl

end ConvLayer

theorem forwardConv_atoms {ls : List ConvLayer} (h : ∀ l ∈ ls, l.Known) (x : Tensor Fl) :
    (forwardConv ls x).2 = forwardAtoms (ls.flatMap ConvLayer.atoms) x := by
  induction ls generalizing x with
  | nil => rfl
  | cons l ls ih =>
    rw [List.flatMap_cons, forwardAtoms_append, ← ConvLayer.forward_atoms (h l (by simp))]
    unfold forwardConv
    cases hl : (l.forward x).2 with
    | error e => rfl
    | ok y => exact ih (fun l hl => h l (by simp [hl])) y

theorem sampleConv_atoms {ls : List ConvLayer} (h : ∀ l ∈ ls, l.Known) (μ : Measure ℝ) (ctx : DCtx) :
    sampleConv μ ls [] ctx = sampleAtoms μ (ls.flatMap ConvLayer.atoms) ctx := by
  induction ls with
  | nil => rfl
  | cons l ls ih =>
    rw [List.flatMap_cons, sampleAtoms_append, ← ih fun l hl => h l (by simp [hl])]
    show (sampleConv μ ls [] ctx).bind _ = _
    congr 1
    funext c
    exact ConvLayer.sample_atoms (h l (by simp)) μ c

/-! ### Forward pass -/

theorem ConvSum.forward_is (L : ConvSum) {x : Tensor Fl} {N : Nat} {e : Nat → Img Fl}
    (hx : x.Is4 N L.in_channels L.height L.width e) :
    Res.Sat (L.forward x) fun y => y.Is4 N L.out_channels L.height L.width fun n => (ConvAtom.sum L).row (e n) := by
  unfold ConvSum.forward
  have hp : L.param.Is [L.out_channels, L.in_channels, L.height, L.width] fun i => .fin (L.logits i) :=
    Is.intro rfl fun _ _ => rfl
  refine (logSoftmax_is hp (by simp)).bind fun w hw => ?_
  refine (unsqueeze_is hw (by simp)).bind fun w hw => ?_
  refine (unsqueeze_is hx (by simp)).bind fun x hx => ?_
  refine (zipWith_is (c := [N, L.out_channels, L.in_channels, L.height, L.width]) _ hx hw (by simp [insAt])
    (by simp [insAt, bshape])).bind fun s hs => ?_
  refine (logsumexp_is hs (by simp)).mono fun z hz => Is.is4 hz ?_
  intro n hn o ho y hy x hx
  simp only [at', ConvAtom.row]
  refine Fl.lse_congr fun i hi => ?_
  simp [insAt, delAt, clipAll, at', setAt, clip_of_lt, hn, ho, hy, hx, hi]

theorem ProdConv.forward_is {kh kw C H W N : Nat} (hkh : 0 < kh) (hkw : 0 < kw) (hH : 0 < H) (hW : 0 < W) {x : Tensor Fl}
    {e : Nat → Img Fl} (hx : x.Is4 N C (H * kh) (W * kw) e) :
    Res.Sat (ProdConv.forward kh kw x) fun y => y.Is4 N C H W fun n => (ConvAtom.prod kh kw).row (e n) := by
  unfold ProdConv.forward
  refine Res.Sat.require (by rw [rank, hx.1]; rfl) (Res.Sat.require (by omega) ?_)
  refine Res.Sat.require (by simp [size, hx.1, at']) (Res.Sat.require (by omega) ?_)
  refine Res.Sat.require (by simp [size, hx.1, at']) (Res.Sat.require ?_ (Res.Sat.pure (Is.intro ?_ ?_)))
  · simp only [size, hx.1, at']
    exact ⟨Nat.mul_pos hH hkh, Nat.mul_pos hW hkw⟩
  · simp [size, hx.1, at', Nat.mul_div_cancel _ hkh, Nat.mul_div_cancel _ hkw]
  · intro j hj
    match j, hj with
    | [n, c, y, x'], hj =>
      simp only [at', ConvAtom.row]
      refine Fl.sumN_congr fun a ha => Fl.sumN_congr fun b hb => ?_
      refine hx.get hj.1 hj.2.1 ?_ ?_
      · have := hj.2.2.1
        calc y * kh + a < y * kh + kh := by omega
          _ = (y + 1) * kh := by ring
          _ ≤ H * kh := Nat.mul_le_mul_right _ this
      · have := hj.2.2.2.1
        calc x' * kw + b < x' * kw + kw := by omega
          _ = (x' + 1) * kw := by ring
          _ ≤ W * kw := Nat.mul_le_mul_right _ this

theorem forwardAtoms_is {as : List ConvAtom} {C H W C' H' W' : Nat} (h : AChain as C H W C' H' W') {x : Tensor Fl} {N : Nat}
    {e : Nat → Img Fl} (hx : x.Is4 N C H W e) :
    Res.Sat (forwardAtoms as x) fun y => y.Is4 N C' H' W' fun n => rowAtoms as (e n) := by
  induction h generalizing x e with
  | nil => exact Res.Sat.ok hx
  | cons h _ ih =>
    cases h with
    | sum L _ => exact (L.forward_is hx).bind fun y hy => ih hy
    | prod kh kw C H W h1 h2 h3 h4 => exact (ProdConv.forward_is h1 h2 h3 h4 hx).bind fun y hy => ih hy

/-! ### Probabilities -/

theorem toP_sumN_fin {n : Nat} {f : Nat → Fl} (h : ∀ i, i < n → (f i).IsFin) :
    (Fl.sumN n f).IsFin ∧ toP (Fl.sumN n f) = ∏ i ∈ Finset.range n, toP (f i) := by
  induction n with
  | zero => exact ⟨⟨0, rfl⟩, by simp [Fl.sumN, toP]⟩
  | succ n ih =>
    obtain ⟨h1, h2⟩ := ih fun i hi => h i (by omega)
    have hn := h n (by omega)
    refine ⟨Fl.isFin_add h1 hn, ?_⟩
    rw [Finset.prod_range_succ, ← h2]
    exact toP_add (NN_of_isFin h1) (NN_of_isFin hn)

theorem ConvSum.weight_fin (L : ConvSum) (T : ℝ) {o i y x : Nat} (hi : i < L.in_channels) :
    (Fl.logSoftmax L.in_channels (fun i => .fin (L.logits [o, i, y, x] / T)) i).IsFin :=
  ⟨_, Fl.logSoftmax_eq_fin (fun _ _ => rfl) hi⟩

theorem ConvSum.weight_sum (L : ConvSum) (h : 0 < L.in_channels) (T : ℝ) (o y x : Nat) :
    ∑ i ∈ Finset.range L.in_channels, L.weight T o i y x = 1 := by
  refine sum_toP_logSoftmax (fun i _ => NN_of_isFin ⟨_, rfl⟩) ?_
  intro e
  have := (Finset.sum_eq_zero_iff.1 e) 0 (by simpa using h)
  exact toP_ne_zero ⟨_, rfl⟩ this

theorem ConvAtom.WF.row_den {a : ConvAtom} {C H W C' H' W' : Nat} (h : a.WF C H W C' H' W') {e : Img Fl}
    (he : ∀ c, c < C → ∀ y, y < H → ∀ x, x < W → (e c y x).IsFin) {c y x : Nat} (hc : c < C') (hy : y < H') (hx : x < W') :
    (a.row e c y x).IsFin ∧ toP (a.row e c y x) = a.den 1 (fun c y x => toP (e c y x)) c y x := by
  cases h with
  | sum L h =>
    have hw : ∀ i, i < L.in_channels → (Fl.logSoftmax L.in_channels (fun i => .fin (L.logits [c, i, y, x])) i).IsFin :=
      fun i hi => ⟨_, Fl.logSoftmax_eq_fin (fun _ _ => rfl) hi⟩
    have hs : ∀ i, i < L.in_channels → _ := fun i hi => Fl.isFin_add (he i hi y hy x hx) (hw i hi)
    have e1 : toP ((ConvAtom.sum L).row e c y x) =
        (ConvAtom.sum L).den 1 (fun c y x => toP (e c y x)) c y x := by
      simp only [row, den]
      rw [toP_lse fun i hi => NN_of_isFin (hs i hi)]
      refine Finset.sum_congr rfl fun i hi => ?_
      have hi' : i < L.in_channels := by simpa using hi
      rw [toP_add (NN_of_isFin (he i hi' y hy x hx)) (NN_of_isFin (hw i hi')), mul_comm]
      simp [ConvSum.weight]
    refine ⟨?_, e1⟩
    refine ⟨_, Fl.lse_eq_fin h (g := fun i => (e i y x + Fl.logSoftmax L.in_channels
      (fun i => .fin (L.logits [c, i, y, x])) i).val) fun i hi => (hs i hi).eq⟩
  | prod kh kw C H W h1 h2 h3 h4 =>
    have hin : ∀ a, a < kh → ∀ b, b < kw → (e c (y * kh + a) (x * kw + b)).IsFin := by
      intro a ha b hb
      refine he c hc _ ?_ _ ?_
      · calc y * kh + a < y * kh + kh := by omega
          _ = (y + 1) * kh := by ring
          _ ≤ _ := Nat.mul_le_mul_right _ hy
      · calc x * kw + b < x * kw + kw := by omega
          _ = (x + 1) * kw := by ring
          _ ≤ _ := Nat.mul_le_mul_right _ hx
    simp only [row, den]
    have h5 := toP_sumN_fin (n := kh) (f := fun a => Fl.sumN kw fun b => e c (y * kh + a) (x * kw + b))
      fun a ha => (toP_sumN_fin fun b hb => hin a ha b hb).1
    refine ⟨h5.1, h5.2.trans ?_⟩
    refine Finset.prod_congr rfl fun a ha => ?_
    exact (toP_sumN_fin fun b hb => hin a (by simpa using ha) b hb).2

theorem ConvAtom.WF.den_congr {a : ConvAtom} {C H W C' H' W' : Nat} (h : a.WF C H W C' H' W') {T : ℝ} {p q : Img ℝ≥0∞}
    (hpq : ∀ c, c < C → ∀ y, y < H → ∀ x, x < W → p c y x = q c y x) {c y x : Nat} (hc : c < C') (hy : y < H') (hx : x < W') :
    a.den T p c y x = a.den T q c y x := by
  cases h with
  | sum L h =>
    exact Finset.sum_congr rfl fun i hi => by rw [hpq i (by simpa using hi) y hy x hx]
  | prod kh kw C H W h1 h2 h3 h4 =>
    refine Finset.prod_congr rfl fun a ha => Finset.prod_congr rfl fun b hb => hpq c hc _ ?_ _ ?_
    · have : a < kh := by simpa using ha
      calc y * kh + a < y * kh + kh := by omega
        _ = (y + 1) * kh := by ring
        _ ≤ _ := Nat.mul_le_mul_right _ hy
    · have : b < kw := by simpa using hb
      calc x * kw + b < x * kw + kw := by omega
        _ = (x + 1) * kw := by ring
        _ ≤ _ := Nat.mul_le_mul_right _ hx

theorem denAtoms_congr {as : List ConvAtom} {C H W C' H' W' : Nat} (h : AChain as C H W C' H' W') {T : ℝ} {p q : Img ℝ≥0∞}
    (hpq : ∀ c, c < C → ∀ y, y < H → ∀ x, x < W → p c y x = q c y x) {c y x : Nat} (hc : c < C') (hy : y < H') (hx : x < W') :
    denAtoms T as p c y x = denAtoms T as q c y x := by
  induction h generalizing p q with
  | nil => exact hpq c hc y hy x hx
  | cons h _ ih => exact ih (fun c hc y hy x hx => h.den_congr hpq hc hy hx) hc hy hx

theorem rowAtoms_den {as : List ConvAtom} {C H W C' H' W' : Nat} (h : AChain as C H W C' H' W') {e : Img Fl}
    (he : ∀ c, c < C → ∀ y, y < H → ∀ x, x < W → (e c y x).IsFin) {c y x : Nat} (hc : c < C') (hy : y < H') (hx : x < W') :
    (rowAtoms as e c y x).IsFin ∧ toP (rowAtoms as e c y x) = denAtoms 1 as (fun c y x => toP (e c y x)) c y x := by
  induction h generalizing e with
  | nil => exact ⟨he c hc y hy x hx, rfl⟩
  | cons h hs ih =>
    obtain ⟨h1, h2⟩ := ih (e := ConvAtom.row _ e) (fun c hc y hy x hx => (h.row_den he hc hy hx).1) hc hy hx
    exact ⟨h1, h2.trans (denAtoms_congr hs (fun c hc y hy x hx => (h.row_den he hc hy hx).2) hc hy hx)⟩

/-- an image of ones. -/
theorem denAtoms_one {as : List ConvAtom} {C H W C' H' W' : Nat} (h : AChain as C H W C' H' W') {T : ℝ} {p : Img ℝ≥0∞}
    (hp : ∀ c, c < C → ∀ y, y < H → ∀ x, x < W → p c y x = 1) {c y x : Nat} (hc : c < C') (hy : y < H') (hx : x < W') :
    denAtoms T as p c y x = 1 := by
  induction h generalizing p with
  | nil => exact hp c hc y hy x hx
  | cons h _ ih =>
    refine ih (fun c hc y hy x hx => ?_) hc hy hx
    rw [h.den_congr (q := fun _ _ _ => 1) hp hc hy hx]
    cases h with
    | sum L h => simpa [ConvAtom.den] using L.weight_sum h T c y x
    | prod kh kw C H W h1 h2 h3 h4 => simp [ConvAtom.den]
end Einet
