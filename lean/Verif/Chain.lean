import Verif.LayerDraw

/-!
# Chains of layers

`Einet._forward_layers` (einet.py:206-219) and the loop over `reversed(self.layers)` in `Einet.sample`
(einet.py:659-660), with their laws by induction over the list of layers.
-/

open Classical MeasureTheory
open scoped ENNReal
noncomputable section
namespace Einet
open Tensor

/-- `Einet._forward_layers` (einet.py:206-219); also returns what each layer caches. Layers are listed bottom to top. -/
def forwardLayers : List Layer → Tensor Fl → Res (Tensor Fl × List (Option Cache))
  | [], x => .ok (x, [])
  | l :: ls, x => do
    let (y, c) ← l.forward none x
    let (z, cs) ← forwardLayers ls y
    return (z, c :: cs)

/-- `for layer in reversed(self.layers): ctx = layer.sample(ctx=ctx)` (einet.py:659-660). -/
def sampleLayers : List Layer → List (Option Cache) → Ctx → Rand Ctx
  | [], _, ctx => .pure ctx
  | l :: ls, cs, ctx => (sampleLayers ls cs.tail ctx).bind fun ctx' => l.sample (cs.head?.getD none) ctx'

/-- the sizes fit: a chain of layers from `Di × Si` inputs to `Do × So` outputs. -/
inductive Chain : List Layer → Nat → Nat → Nat → Nat → Nat → Prop
  | nil (D S R : Nat) : Chain [] D S D S R
  | cons {l : Layer} {ls : List Layer} {Di Si Dm Sm Do So R : Nat} (h : l.WF Di Si Dm Sm R)
      (hs : Chain ls Dm Sm Do So R) : Chain (l :: ls) Di Si Do So R

/-- log-probabilities through the chain. -/
def rowL : List Layer → Row → Row
  | [], x => x
  | l :: ls, x => rowL ls (l.row x)

/-- probabilities through the chain. -/
def denL (T : ℝ) : List Layer → PRow → PRow
  | [], x => x
  | l :: ls, x => denL T ls (l.den T x)

/-- caches left by a forward pass over the chain. -/
def CachesIs : List Layer → Nat → List (Option Cache) → (Nat → Row) → Prop
  | [], _, cs, _ => cs = []
  | l :: ls, N, cs, f => ∃ c cs', cs = c :: cs' ∧ l.CacheIs N c f ∧ CachesIs ls N cs' fun n => l.row (f n)

theorem forwardLayers_is {ls : List Layer} {Di Si Do So R : Nat} (h : Chain ls Di Si Do So R) {x : Tensor Fl} {N : Nat}
    {f : Nat → Row} (hx : x.Is4 N Di Si R f) :
    Res.Sat (forwardLayers ls x) fun y => y.1.Is4 N Do So R (fun n => rowL ls (f n)) ∧ CachesIs ls N y.2 f := by
  induction h generalizing x f with
  | nil D S R => exact Res.Sat.ok ⟨hx, rfl⟩
  | cons h hs ih =>
    refine (Layer.forward_is h hx).bind fun y ⟨hy, hc⟩ => ?_
    refine (ih hy).bind fun z ⟨hz, hcs⟩ => Res.Sat.pure ⟨hz, y.2, z.2, rfl, hc, hcs⟩

/-- some layer needs finite inputs. -/
def needsFin (ls : List Layer) : Bool := ls.any Layer.isEinsum

theorem rowL_den {ls : List Layer} {Di Si Do So R : Nat} (h : Chain ls Di Si Do So R) {b : Bool}
    (hb : needsFin ls = true → b = true) {x : Row} {r : Nat} (hr : r < R)
    (hx : ∀ d, d < Di → ∀ k, k < Si → Okay b (x d k r)) {d s : Nat} (hd : d < Do) (hs : s < So) :
    Okay b (rowL ls x d s r) ∧ toP (rowL ls x d s r) = denL 1 ls (pRow x) d s r := by
  have gen : ∀ (ls : List Layer) (Di Si Do So R : Nat), Chain ls Di Si Do So R → (needsFin ls = true → b = true) →
      ∀ (x : Row) (y : PRow), r < R → (∀ d, d < Di → ∀ k, k < Si → Okay b (x d k r)) →
      (∀ d, d < Di → ∀ k, k < Si → y d k r = toP (x d k r)) → ∀ d s, d < Do → s < So →
      Okay b (rowL ls x d s r) ∧ toP (rowL ls x d s r) = denL 1 ls y d s r := by
    intro ls Di Si Do So R h
    induction h with
    | nil D S R => intro _ x y _ hx hy d s hd hs; exact ⟨hx d hd s hs, (hy d hd s hs).symm⟩
    | @cons l ls Di Si Dm Sm Do So R h hs ih =>
      intro hb x y hr hx hy d s hd hs'
      have hb1 : l.isEinsum = true → b = true := fun hl => hb (by simp [needsFin, hl])
      have hb2 : needsFin ls = true → b = true := fun hl => hb (by
        simp only [needsFin, List.any_cons] at hl ⊢; simp [hl])
      refine ih hb2 (l.row x) (l.den 1 y) hr
        (fun d hd k hk => (Layer.row_den h hb1 hr hx hd hk).1) (fun d hd k hk => ?_) d s hd hs'
      rw [(Layer.row_den h hb1 hr hx hd hk).2]
      exact Layer.den_congr h hy hd hk
  exact gen ls Di Si Do So R h hb x (pRow x) hr hx (fun d hd k hk => rfl) d s hd hs

theorem denL_congr {ls : List Layer} {Di Si Do So R : Nat} (h : Chain ls Di Si Do So R) {T : ℝ} {x y : PRow} {r : Nat}
    (hxy : ∀ d, d < Di → ∀ k, k < Si → x d k r = y d k r) {d s : Nat} (hd : d < Do) (hs : s < So) :
    denL T ls x d s r = denL T ls y d s r := by
  induction h generalizing x y with
  | nil D S R => exact hxy d hd s hs
  | cons h hs' ih => exact ih (fun d hd k hk => Layer.den_congr h hxy hd hk) hd hs

theorem denL_one {ls : List Layer} {Di Si Do So R : Nat} (h : Chain ls Di Si Do So R) {T : ℝ} (hT : T ≠ 0) {x : PRow}
    {r : Nat} (hr : r < R) (hx : ∀ d, d < Di → ∀ k, k < Si → x d k r = 1) {d s : Nat} (hd : d < Do) (hs : s < So) :
    denL T ls x d s r = 1 := by
  induction h generalizing x with
  | nil D S R => exact hx d hd s hs
  | cons h hs' ih => exact ih hr (fun d hd k hk => Layer.den_one h hT hr hx hd hk) hd hs

theorem denL_ne_top {ls : List Layer} {Di Si Do So R : Nat} (h : Chain ls Di Si Do So R) {T : ℝ} (hT : T ≠ 0) {x : PRow}
    {r : Nat} (hr : r < R) (hx : ∀ d, d < Di → ∀ k, k < Si → x d k r ≠ ⊤) {d s : Nat} (hd : d < Do) (hs : s < So) :
    denL T ls x d s r ≠ ⊤ := by
  induction h generalizing x with
  | nil D S R => exact hx d hd s hs
  | cons h hs' ih => exact ih hr (fun d hd k hk => Layer.den_ne_top h hT hr hx hd hk) hd hs

/-- whether a node has probability zero does not depend on the temperature. -/
theorem Layer.den_eq_zero_iff {l : Layer} {Di Si Do So R : Nat} (h : l.WF Di Si Do So R) {T T' : ℝ} (hT : T ≠ 0)
    {x : PRow} {r : Nat} (hr : r < R) {d s : Nat} (hd : d < Do) (hs : s < So)
    (h0 : l.den T' x d s r = 0) (hT' : T' ≠ 0) : l.den T x d s r = 0 := by
  have key : ∀ (n : Nat) (w w' : Nat → Fl) (z : Nat → ℝ≥0∞), (∀ k, k < n → (w k).IsFin) → (∀ k, k < n → (w' k).IsFin) →
      ∑ k ∈ Finset.range n, toP (w' k) * z k = 0 → ∑ k ∈ Finset.range n, toP (w k) * z k = 0 := by
    intro n w w' z hw hw' h0
    refine Finset.sum_eq_zero fun k hk => ?_
    have := Finset.sum_eq_zero_iff.1 h0 k hk
    rcases mul_eq_zero.1 this with h | h
    · exact absurd h (toP_ne_zero (hw' k (by simpa using hk)))
    · rw [h, mul_zero]
  cases h with
  | sum L hL hf hS =>
    exact key _ _ _ _ (L.lw_fin hL hf hS hT hd hs hr).1 (L.lw_fin hL hf hS hT' hd hs hr).1 h0
  | linsum L hL hf hS hD =>
    exact key _ _ _ _ (L.lw_fin hL hf hS hT hd hs hr).1 (L.lw_fin hL hf hS hT' hd hs hr).1 h0
  | linsum2 L hL hf hS hD hE =>
    have hO : LinsumLayer2.numFeaturesOut L = (L.num_features + L.num_features % 2) / 2 := rfl
    simp only [den] at h0 ⊢
    have h1 : 2 * d < L.num_features := by omega
    rcases mul_eq_zero.1 h0 with h | h
    · rw [key _ _ _ _ (L.lw_fin hL hf hS hT h1 hs hr).1 (L.lw_fin hL hf hS hT' h1 hs hr).1 h, zero_mul]
    · have h2 : 2 * d + 1 < L.num_features := by omega
      unfold rightP at h ⊢
      rw [if_pos h2] at h ⊢
      dsimp only at h ⊢
      rw [key _ _ _ _ (L.lw_fin hL hf hS hT h2 hs hr).1 (L.lw_fin hL hf hS hT' h2 hs hr).1 h, mul_zero]
  | einsum L hL hf hS hO hR hD hE =>
    exact key _ _ _ _ (L.lwEin_fin hL hf hS hT hd hs hr).1 (L.lwEin_fin hL hf hS hT' hd hs hr).1 h0
  | rootProduct => exact h0

/-- evidence seen by the layer above: the cached values, or nothing. -/
def evUp (cond : Bool) (l : Layer) (e : Row) : Row := if cond then l.row e else fun _ _ _ => .fin 0

/-- evidence at the top of the chain. -/
def evTop (cond : Bool) : List Layer → Row → Row
  | [], e => e
  | l :: ls, e => evTop cond ls (evUp cond l e)

/-- The evidence available to the sampling pass: nothing (`cond = false`), or the caches of a forward pass on `e`. -/
def EvL (cond : Bool) (ls : List Layer) (N : Nat) (cs : List (Option Cache)) (e : Nat → Row) : Prop :=
  if cond then CachesIs ls N cs e else (∀ c ∈ cs, c = none) ∧ ∀ n d k r, e n d k r = .fin 0

/-- expectation of a product of test functions `u` on the chosen input channels, per output. -/
def valL (cond : Bool) (T : ℝ) : List Layer → Row → PRow → PRow
  | [], _, u => u
  | l :: ls, e, u => valL cond T ls (evUp cond l e) fun d s r =>
      l.den T (fun d k r => u d k r * pRow e d k r) d s r / l.den T (pRow e) d s r

theorem EvL.head {cond : Bool} {l : Layer} {ls : List Layer} {N : Nat} {cs : List (Option Cache)} {e : Nat → Row}
    (h : EvL cond (l :: ls) N cs e) :
    l.EvOK N (cs.head?.getD none) e ∧ EvL cond ls N cs.tail fun n => evUp cond l (e n) := by
  unfold EvL at h ⊢
  cases cond
  · simp only [Bool.false_eq_true, if_false] at h ⊢
    refine ⟨Or.inl ⟨?_, h.2⟩, fun c hc => h.1 c (List.mem_of_mem_tail hc), fun n d k r => rfl⟩
    cases cs with
    | nil => rfl
    | cons c cs => exact h.1 c (by simp)
  · simp only [if_true] at h ⊢
    obtain ⟨c, cs', rfl, h1, h2⟩ := h
    exact ⟨Or.inr h1, h2⟩

theorem sampleLayers_All {ls : List Layer} {Di Si Do So R : Nat} (h : Chain ls Di Si Do So R) {b : Bool}
    (hb : needsFin ls = true → b = true) {ctx : Ctx} {N : Nat} (hN : 0 < N)
    {idx : Nat → Nat → Nat} {rr : Nat → Nat} (hctx : CtxOK ctx N Do So R idx rr) (hT : ctx.temperature_sums ≠ 0)
    {cond : Bool} {cs : List (Option Cache)} {e : Nat → Row} (hev : EvL cond ls N cs e)
    (he : ∀ n, n < N → ∀ d, d < Di → ∀ k, k < Si → Okay b (e n d k (rr n)))
    (h0 : ∀ n, n < N → ∀ d, d < Do → toP (evTop cond ls (e n) d (idx n d) (rr n)) ≠ 0) :
    (sampleLayers ls cs ctx).All fun c => c = { ctx with indices_out := c.indices_out } ∧
      ∃ idx' : Nat → Nat → Nat, CtxOK c N Di Si R idx' rr ∧
        (∀ n, n < N → ∀ d, d < Di → toP (e n d (idx' n d) (rr n)) ≠ 0) := by
  induction h generalizing cs e with
  | nil D S R => exact ⟨rfl, idx, hctx, h0⟩
  | @cons l ls Di Si Dm Sm Do So R h hs ih =>
    have hb1 : l.isEinsum = true → b = true := fun hl => hb (by simp [needsFin, hl])
    have hb2 : needsFin ls = true → b = true := fun hl => hb (by
      simp only [needsFin, List.any_cons] at hl ⊢; simp [hl])
    have he' : ∀ n, n < N → ∀ d, d < Dm → ∀ k, k < Sm → Okay b (evUp cond l (e n) d k (rr n)) := by
      intro n hn d hd k hk
      unfold evUp
      split_ifs
      · exact (Layer.row_den h hb1 (hctx.ir_lt n hn) (he n hn) hd hk).1
      · cases b
        · trivial
        · exact Fl.isFin_fin _
    refine (ih hb2 hctx hev.head.2 he' h0).bind fun c ⟨hc, idx', hctx', h0'⟩ => ?_
    have hTc : c.temperature_sums = ctx.temperature_sums := by rw [hc]
    refine (Layer.sample_All h hN hctx' (by rw [hTc]; exact hT) hev.head.1 (fun n hn d hd k hk => (he n hn d hd k hk).nn)
      ?_).mono fun c' ⟨hc', idx'', ch, hctx'', h0'', _⟩ => ⟨by rw [hc', hc], idx'', hctx'', h0''⟩
    intro n hn d hd hz
    rw [hTc] at hz
    have := h0' n hn d hd
    unfold evUp at this
    split_ifs at this with hcond
    · rw [(Layer.row_den h hb1 (hctx.ir_lt n hn) (he n hn) hd (hctx'.io_lt n hn d hd)).2] at this
      exact this (Layer.den_eq_zero_iff h one_ne_zero (hctx.ir_lt n hn) hd (hctx'.io_lt n hn d hd) hz hT)
    · have hz2 : ∀ n d k r, e n d k r = .fin 0 := by
        unfold EvL at hev; rw [if_neg hcond] at hev; exact hev.2
      rw [Layer.den_one h hT (hctx.ir_lt n hn) (fun d _ k _ => by simp [pRow, hz2]) hd (hctx'.io_lt n hn d hd)] at hz
      exact one_ne_zero hz

/-- Law of the sampling pass over all layers, for a product of test functions of the chosen channels. -/
theorem sampleLayers_E {ls : List Layer} {Di Si Do So R : Nat} (h : Chain ls Di Si Do So R) {b : Bool}
    (hb : needsFin ls = true → b = true) {ctx : Ctx} (hm : ctx.is_mpe = false) {N : Nat} (hN : 0 < N)
    {idx : Nat → Nat → Nat} {rr : Nat → Nat} (hctx : CtxOK ctx N Do So R idx rr) (hT : ctx.temperature_sums ≠ 0)
    {cond : Bool} {cs : List (Option Cache)} {e : Nat → Row} (hev : EvL cond ls N cs e)
    (he : ∀ n, n < N → ∀ d, d < Di → ∀ k, k < Si → Okay b (e n d k (rr n)))
    (h0 : ∀ n, n < N → ∀ d, d < Do → toP (evTop cond ls (e n) d (idx n d) (rr n)) ≠ 0) (u : Nat → PRow) :
    (sampleLayers ls cs ctx).E (fun c => prod2 N Di fun n d => u n d (c.indices_out.get [n, d]) (rr n)) =
      prod2 N Do fun n d => valL cond ctx.temperature_sums ls (e n) (u n) d (idx n d) (rr n) := by
  induction h generalizing cs e u with
  | nil D S R => exact prod2_congr fun n hn d hd => by rw [hctx.io.get hn hd]; rfl
  | @cons l ls Di Si Dm Sm Do So R h hs ih =>
    have hb1 : l.isEinsum = true → b = true := fun hl => hb (by simp [needsFin, hl])
    have hb2 : needsFin ls = true → b = true := fun hl => hb (by
      simp only [needsFin, List.any_cons] at hl ⊢; simp [hl])
    have he' : ∀ n, n < N → ∀ d, d < Dm → ∀ k, k < Sm → Okay b (evUp cond l (e n) d k (rr n)) := by
      intro n hn d hd k hk
      unfold evUp
      split_ifs
      · exact (Layer.row_den h hb1 (hctx.ir_lt n hn) (he n hn) hd hk).1
      · cases b
        · trivial
        · exact Fl.isFin_fin _
    simp only [sampleLayers, Rand.E_bind, valL]
    rw [← ih hb2 hctx hev.head.2 he' h0]
    refine Rand.E_congr (sampleLayers_All hs hb2 hN hctx hT hev.head.2 he' h0) fun c ⟨hc, idx', hctx', h0'⟩ => ?_
    have hTc : c.temperature_sums = ctx.temperature_sums := by rw [hc]
    have h0'' : ∀ n, n < N → ∀ d, d < Dm → l.den c.temperature_sums (pRow (e n)) d (idx' n d) (rr n) ≠ 0 := by
      intro n hn d hd hz
      rw [hTc] at hz
      have := h0' n hn d hd
      unfold evUp at this
      split_ifs at this with hcond
      · rw [(Layer.row_den h hb1 (hctx.ir_lt n hn) (he n hn) hd (hctx'.io_lt n hn d hd)).2] at this
        exact this (Layer.den_eq_zero_iff h one_ne_zero (hctx.ir_lt n hn) hd (hctx'.io_lt n hn d hd) hz hT)
      · have hz2 : ∀ n d k r, e n d k r = .fin 0 := by
          unfold EvL at hev; rw [if_neg hcond] at hev; exact hev.2
        rw [Layer.den_one h hT (hctx.ir_lt n hn) (fun d _ k _ => by simp [pRow, hz2]) hd (hctx'.io_lt n hn d hd)] at hz
        exact one_ne_zero hz
    rw [Layer.sample_E h hN (by rw [hc]; exact hm) hctx' (by rw [hTc]; exact hT) hev.head.1
      (fun n hn d hd k hk => (he n hn d hd k hk).nn) h0'' fun n d k => u n d k (rr n)]
    refine prod2_congr fun n hn d hd => ?_
    rw [hctx'.io.get hn hd, hTc]
    congr 1
    refine Layer.den_congr h ?_ hd (hctx'.io_lt n hn d hd)
    intro d _ k _; rfl

/-- without evidence the expectation is the polynomial itself. -/
theorem valL_uncond {ls : List Layer} {Di Si Do So R : Nat} (h : Chain ls Di Si Do So R) {T : ℝ} (hT : T ≠ 0) {e : Row}
    (he : ∀ d k r, e d k r = .fin 0) {u : PRow} {r : Nat} (hr : r < R) {d s : Nat} (hd : d < Do) (hs : s < So) :
    valL false T ls e u d s r = denL T ls u d s r := by
  induction h generalizing e u with
  | nil D S R => rfl
  | @cons l ls Di Si Dm Sm Do So R h hs' ih =>
    simp only [valL, denL]
    rw [ih (e := evUp false l e) (fun d k r => rfl) hr hd hs]
    refine denL_congr hs' (fun d hd k hk => ?_) hd hs
    rw [Layer.den_one (x := pRow e) h hT hr (fun d _ k _ => by simp [pRow, he]) hd hk, div_one]
    exact Layer.den_congr h (fun d _ k _ => by simp [pRow, he]) hd hk

/-- with evidence the expectation is a quotient of polynomials. -/
theorem valL_cond {ls : List Layer} {Di Si Do So R : Nat} (h : Chain ls Di Si Do So R) {b : Bool}
    (hb : needsFin ls = true → b = true) {e : Row} {r : Nat} (hr : r < R)
    (he : ∀ d, d < Di → ∀ k, k < Si → Okay b (e d k r)) {u : PRow} {d s : Nat} (hd : d < Do) (hs : s < So) :
    valL true 1 ls e u d s r * denL 1 ls (pRow e) d s r = denL 1 ls (fun d k r => u d k r * pRow e d k r) d s r := by
  induction h generalizing e u with
  | nil D S R => rfl
  | @cons l ls Di Si Dm Sm Do So R h hs' ih =>
    have hb1 : l.isEinsum = true → b = true := fun hl => hb (by simp [needsFin, hl])
    have hb2 : needsFin ls = true → b = true := fun hl => hb (by
      simp only [needsFin, List.any_cons] at hl ⊢; simp [hl])
    have hup : evUp true l e = l.row e := rfl
    simp only [valL, denL, hup]
    have e1 : denL 1 ls (l.den 1 (pRow e)) d s r = denL 1 ls (pRow (l.row e)) d s r :=
      denL_congr hs' (fun d hd k hk => ((Layer.row_den h hb1 hr he hd hk).2).symm) hd hs
    rw [e1, ih hb2 hr (fun d hd k hk => (Layer.row_den h hb1 hr he hd hk).1) hd hs]
    refine denL_congr hs' (fun d hd k hk => ?_) hd hs
    have e2 : pRow (l.row e) d k r = l.den 1 (pRow e) d k r := (Layer.row_den h hb1 hr he hd hk).2
    rw [e2]
    by_cases hz : l.den 1 (pRow e) d k r = 0
    · rw [hz, mul_zero, Layer.den_zero l hz]
    · refine ENNReal.div_mul_cancel hz ?_
      rw [← e2]
      exact ((Layer.row_den h hb1 hr he hd hk).1).nn.ne_top

theorem disc_sampleLayers (ls : List Layer) (cs : List (Option Cache)) (ctx : Ctx) : (sampleLayers ls cs ctx).Disc := by
  induction ls generalizing cs with
  | nil => trivial
  | cons l ls ih => exact (ih _).bind fun _ => Layer.disc_sample _ _ _

end Einet
