import Verif.ConvDraw
import Verif.BuildSpec

/-!
# Construction of convolutional circuits
-/

open Classical MeasureTheory
open scoped ENNReal
noncomputable section
namespace Einet
open Tensor

/-- documented values of `order`. -/
def KnownOrder (s : String) : Prop := s = "sum-prod" ∨ s = "prod-sum"

/-- the size of the image fits the kernels (no reference to the layers): it can be divided by the kernel size once per layer for
`bottom-up` and by two once per entry of `channels` for `top-down`. -/
def ConvConfig.SizeFits (c : ConvConfig) (d : ImgShape) : Prop :=
  (c.structure' = "bottom-up" → c.kernel_size ^ (c.channels.length - 1) ∣ d.height ∧
    c.kernel_size ^ (c.channels.length - 1) ∣ d.width) ∧
  (c.structure' = "top-down" → 2 ^ c.channels.length ∣ d.height ∧ 2 ^ c.channels.length ∣ d.width)

/-- positive numbers of channels, a known order of sums and products. -/
def ConvConfig.Usual (c : ConvConfig) (d : ImgShape) : Prop :=
  (∀ k ∈ c.channels, 0 < k) ∧ 0 < d.height ∧ 0 < d.width ∧ KnownOrder c.order

theorem mkSumProd_atoms {i o h w kh kw : Nat} {order : String} {lg : List Nat → ℝ} {l : ConvLayer} (ho : KnownOrder order)
    (hl : ConvLayer.mkSumProd i o h w kh kw order lg = .ok l) : l.Known ∧ 0 < kh ∧ 0 < kw ∧
      l.atoms = if order = "sum-prod" then [.sum ⟨i, o, h, w, lg⟩, .prod kh kw]
        else [.prod kh kw, .sum ⟨i, o, h / kh, w / kw, lg⟩] := by
  unfold ConvLayer.mkSumProd at hl
  obtain ⟨_, h1, h2⟩ := bind_ok hl
  rw [require_ok_iff] at h1
  have h3 : 0 < kh := Nat.pos_of_ne_zero h1.1
  have h4 : 0 < kw := Nat.pos_of_ne_zero h1.2
  rcases ho with rfl | rfl
  · simp only [Res.pure_eq] at h2
    rw [if_neg (by decide)] at h2
    cases h2
    exact ⟨Or.inl rfl, h3, h4, rfl⟩
  · simp only [Res.pure_eq] at h2
    rw [if_pos trivial] at h2
    cases h2
    exact ⟨Or.inr rfl, h3, h4, rfl⟩

theorem mkSumProd_ok (i o h w : Nat) {kh kw : Nat} (order : String) (lg : List Nat → ℝ) (h1 : 0 < kh) (h2 : 0 < kw) :
    ∃ l, ConvLayer.mkSumProd i o h w kh kw order lg = .ok l := by
  unfold ConvLayer.mkSumProd
  rw [require_true _ (by omega)]
  simp only [Res.ok_bind, Res.pure_eq]
  split_ifs <;> exact ⟨_, rfl⟩

theorem mkSumProd_chain {i o h w k k' : Nat} {order : String} {lg : List Nat → ℝ} {l : ConvLayer} (ho : KnownOrder order)
    (hi : 0 < i) (h0 : 0 < h) (w0 : 0 < w) (h1 : k ∣ h) (h2 : k' ∣ w)
    (hl : ConvLayer.mkSumProd i o h w k k' order lg = .ok l) : l.Known ∧ AChain l.atoms i h w o (h / k) (w / k') := by
  obtain ⟨h3, hk, hk', h4⟩ := mkSumProd_atoms ho hl
  refine ⟨h3, ?_⟩
  obtain ⟨a, rfl⟩ := h1
  obtain ⟨b, rfl⟩ := h2
  have ha : 0 < a := Nat.pos_of_mul_pos_left h0
  have hb : 0 < b := Nat.pos_of_mul_pos_left w0
  rw [h4, Nat.mul_div_cancel_left _ hk, Nat.mul_div_cancel_left _ hk']
  split_ifs
  · refine .cons (.sum ⟨i, o, k * a, k' * b, lg⟩ hi) ?_
    show AChain _ o (k * a) (k' * b) o a b
    rw [mul_comm k a, mul_comm k' b]
    exact .cons (.prod k k' o a b hk hk' ha hb) (.nil _ _ _)
  · rw [mul_comm k a, mul_comm k' b]
    exact .cons (.prod k k' i a b hk hk' ha hb) (.cons (.sum ⟨i, o, a, b, lg⟩ hi) (.nil _ _ _))

theorem convBottomUp_chain {P : ConvParams} {order : String} (ho : KnownOrder order) {k : Nat} {c : Nat} {cs : List Nat}
    {i h w : Nat} {ls : List ConvLayer} (hc : ∀ n ∈ c :: cs, 0 < n) (h0 : 0 < h) (w0 : 0 < w) (h1 : k ^ cs.length ∣ h)
    (w1 : k ^ cs.length ∣ w) (hl : convBottomUp P order k (c :: cs) i h w = .ok ls) :
    (∀ l ∈ ls, l.Known) ∧ AChain (ls.flatMap ConvLayer.atoms) c h w 1 1 1 := by
  induction cs generalizing c i h w ls with
  | nil =>
    simp only [convBottomUp] at hl
    obtain ⟨l, h2, h3⟩ := bind_ok hl
    cases h3
    obtain ⟨h4, h5⟩ := mkSumProd_chain (Or.inr rfl) (hc c (by simp)) h0 w0 dvd_rfl dvd_rfl h2
    rw [Nat.div_self h0, Nat.div_self w0] at h5
    exact ⟨by simpa using h4, by simpa using h5⟩
  | cons c' cs ih =>
    simp only [convBottomUp] at hl
    obtain ⟨l, h2, h3⟩ := bind_ok hl
    obtain ⟨ls', h4, h5⟩ := bind_ok h3
    cases h5
    rw [List.length_cons, pow_succ] at h1 w1
    have hkh : k ∣ h := (Dvd.intro_left _ rfl).trans h1
    have hkw : k ∣ w := (Dvd.intro_left _ rfl).trans w1
    have hk : 0 < k := Nat.pos_of_dvd_of_pos hkh h0
    obtain ⟨h6, h7⟩ := mkSumProd_chain ho (hc c (by simp)) h0 w0 hkh hkw h2
    obtain ⟨h8, h9⟩ := ih (fun n hn => hc n (by simp at hn ⊢; tauto)) (Nat.div_pos (Nat.le_of_dvd h0 hkh) hk)
      (Nat.div_pos (Nat.le_of_dvd w0 hkw) hk) (Nat.dvd_div_of_mul_dvd (by rwa [mul_comm]))
      (Nat.dvd_div_of_mul_dvd (by rwa [mul_comm])) h4
    refine ⟨fun l' hl' => ?_, ?_⟩
    · rcases List.mem_cons.1 hl' with rfl | hl'
      · exact h6
      · exact h8 l' hl'
    · rw [List.flatMap_cons]
      exact h7.append h9

theorem convBottomUp_ok (P : ConvParams) (order : String) {k : Nat} (c : Nat) (cs : List Nat) (i : Nat) {h w : Nat}
    (h0 : 0 < h) (w0 : 0 < w) (h1 : k ^ cs.length ∣ h) (w1 : k ^ cs.length ∣ w) :
    ∃ ls, convBottomUp P order k (c :: cs) i h w = .ok ls := by
  induction cs generalizing c i h w with
  | nil =>
    obtain ⟨l, hl⟩ := mkSumProd_ok c 1 h w "prod-sum" (P.logits i) h0 w0
    simp only [convBottomUp, hl, Res.ok_bind]
    exact ⟨_, rfl⟩
  | cons c' cs ih =>
    rw [List.length_cons, pow_succ] at h1 w1
    have hkh : k ∣ h := (Dvd.intro_left _ rfl).trans h1
    have hkw : k ∣ w := (Dvd.intro_left _ rfl).trans w1
    have hk : 0 < k := Nat.pos_of_dvd_of_pos hkh h0
    obtain ⟨l, hl⟩ := mkSumProd_ok c c' h w order (P.logits i) hk hk
    obtain ⟨ls, hls⟩ := ih c' (i + 1) (Nat.div_pos (Nat.le_of_dvd h0 hkh) hk)
      (Nat.div_pos (Nat.le_of_dvd w0 hkw) hk) (Nat.dvd_div_of_mul_dvd (by rwa [mul_comm]))
      (Nat.dvd_div_of_mul_dvd (by rwa [mul_comm]))
    simp only [convBottomUp, hl, Res.ok_bind, hls]
    exact ⟨_, rfl⟩

theorem convTopDown_chain {P : ConvParams} {order : String} (ho : KnownOrder order) {p : Nat} {cs : List Nat} {i : Nat}
    {ls : List ConvLayer} (hp : 0 < p) (hc : ∀ n ∈ cs, 0 < n) (hl : convTopDown P order p cs i = .ok ls) :
    (∀ l ∈ ls, l.Known) ∧ AChain (ls.flatMap ConvLayer.atoms) p (2 ^ cs.length) (2 ^ cs.length) 1 1 1 := by
  induction cs generalizing p i ls with
  | nil =>
    simp only [convTopDown, Res.pure_eq, Except.ok.injEq] at hl
    cases hl
    exact ⟨by simp [ConvLayer.Known], .cons (.sum ⟨p, 1, 1, 1, _⟩ hp) (.nil _ _ _)⟩
  | cons c cs ih =>
    simp only [convTopDown] at hl
    obtain ⟨l, h2, h3⟩ := bind_ok hl
    obtain ⟨ls', h4, h5⟩ := bind_ok h3
    cases h5
    have hd : 2 ∣ 2 ^ (cs.length + 1) := ⟨2 ^ cs.length, by ring⟩
    have hpos : 0 < 2 ^ (cs.length + 1) := by positivity
    obtain ⟨h6, h7⟩ := mkSumProd_chain ho hp hpos hpos hd hd h2
    have e : 2 ^ (cs.length + 1) / 2 = 2 ^ cs.length := by rw [pow_succ]; exact Nat.mul_div_cancel _ two_pos
    rw [e] at h7
    obtain ⟨h8, h9⟩ := ih (hc c (by simp)) (fun n hn => hc n (by simp [hn])) h4
    refine ⟨fun l' hl' => ?_, ?_⟩
    · rcases List.mem_cons.1 hl' with rfl | hl'
      · exact h6
      · exact h8 l' hl'
    · rw [List.flatMap_cons]
      exact h7.append h9

theorem convTopDown_ok (P : ConvParams) (order : String) (p : Nat) (cs : List Nat) (i : Nat) :
    ∃ ls, convTopDown P order p cs i = .ok ls := by
  induction cs generalizing p i with
  | nil => exact ⟨_, rfl⟩
  | cons c cs ih =>
    obtain ⟨l, hl⟩ := mkSumProd_ok p c (2 ^ (cs.length + 1)) (2 ^ (cs.length + 1)) (kh := 2) (kw := 2) order (P.logits i)
      two_pos two_pos
    obtain ⟨ls, hls⟩ := ih c (i + 1)
    simp only [convTopDown, hl, Res.ok_bind, hls]
    exact ⟨_, rfl⟩

/-- what the constructor did. -/
theorem buildConv_spec {c : ConvConfig} {d : ImgShape} {P : ConvParams} {M : ConvModel} (h : buildConv c d P = .ok M) :
    c.channels ≠ [] ∧ 0 < d.height * d.width ∧ 0 < d.channels ∧ 0 < c.channels.headD 0 ∧
    P.leaf.build none ⟨d.height * d.width, d.channels, c.channels.headD 0, 1⟩ = .ok M.leaf ∧
    convLayers c d P = .ok M.layers ∧ M.num_channels = d.channels ∧ M.height = d.height ∧ M.width = d.width := by
  unfold buildConv at h
  obtain ⟨_, h1, h⟩ := bind_ok h
  rw [require_ok_iff] at h1
  obtain ⟨_, h2, h⟩ := bind_ok h
  obtain ⟨_, h3, h⟩ := bind_ok h
  obtain ⟨_, h4, h⟩ := bind_ok h
  obtain ⟨B, h5, h⟩ := bind_ok h
  obtain ⟨ls, h6, h⟩ := bind_ok h
  cases h
  have pos : ∀ n : Nat, ∀ {x}, checkValid (.int (n : ℕ)) .int (some (.int 1)) = .ok x → 0 < n := by
    intro n x hx
    have := (Props.checkInt_iff n 1 one_ne_zero (Except.ok ()) ()).1 (by rw [hx]; rfl)
    have := this.1
    omega
  exact ⟨h1, pos _ h2, pos _ h3, pos _ h4, h5, h6, rfl, rfl, rfl⟩

theorem buildConv_front {c : ConvConfig} {d : ImgShape} {P : ConvParams} {M : ConvModel} (u2 : 0 < d.height) (u3 : 0 < d.width)
    (h : buildConv c d P = .ok M) : M.Front := by
  obtain ⟨h1, h2, h3, h4, h5, h6, h7, h8, h9⟩ := buildConv_spec h
  have hd := (LeafSpec.build_spec h5).2.1
  refine ⟨?_, ?_, hd.2.2.2, by rw [h8]; exact u2, by rw [h9]; exact u3⟩
  · rw [hd.2.1, h7]
  · rw [hd.1, h8, h9]

theorem buildConv_WF {c : ConvConfig} {d : ImgShape} {P : ConvParams} {M : ConvModel} (hu : c.Usual d) (hf : c.SizeFits d)
    (h : buildConv c d P = .ok M) : M.WF := by
  obtain ⟨h1, h2, h3, h4, h5, h6, h7, h8, h9⟩ := buildConv_spec h
  obtain ⟨u1, u2, u3, u4⟩ := hu
  have hd := (LeafSpec.build_spec h5).2.1
  obtain ⟨k, ks, hk⟩ := List.exists_cons_of_ne_nil h1
  have hlen : M.leaf.num_leaves = k := by rw [hd.2.2.1, hk]; rfl
  have key : (∀ l ∈ M.layers, l.Known) ∧ AChain (M.layers.flatMap ConvLayer.atoms) M.leaf.num_leaves M.height M.width 1 1 1 := by
    rw [hlen, h8, h9]
    unfold convLayers at h6
    split_ifs at h6 with s1 s2
    · rw [hk] at h6
      have := hf.1 s1
      rw [hk] at this
      exact convBottomUp_chain u4 (by rw [← hk]; exact u1) u2 u3 this.1 this.2 h6
    · obtain ⟨ls, h10, h11⟩ := bind_ok h6
      have := hf.2 s2
      obtain ⟨⟨a, ha⟩, ⟨b, hb⟩⟩ := this
      have hp2 : 0 < 2 ^ c.channels.length := by positivity
      have ha0 : 0 < a := Nat.pos_of_mul_pos_left (by rw [← ha]; exact u2)
      have hb0 : 0 < b := Nat.pos_of_mul_pos_left (by rw [← hb]; exact u3)
      rw [ha, hb, Nat.mul_div_cancel_left _ hp2, Nat.mul_div_cancel_left _ hp2] at h11
      simp only [Res.pure_eq, Except.ok.injEq] at h11
      rw [← h11]
      have hk' : c.channels.headD 0 = k := by rw [hk]; rfl
      rw [hk'] at h10
      obtain ⟨k1, k2⟩ := convTopDown_chain u4 (u1 k (by rw [hk]; simp)) u1 h10
      refine ⟨fun l hl => ?_, ?_⟩
      · rcases List.mem_cons.1 hl with rfl | hl
        · trivial
        · exact k1 l hl
      · rw [List.flatMap_cons, ha, hb]
        exact AChain.append (.cons (.prod a b k _ _ ha0 hb0 hp2 hp2) (.nil _ _ _)) k2
  exact ⟨buildConv_front u2 u3 h, key.1, key.2⟩

/-- the constructor succeeds for fitting sizes. -/
theorem buildConv_ok {c : ConvConfig} {d : ImgShape} {P : ConvParams} (hc : c.channels ≠ []) (hd : 0 < d.channels)
    (hu : c.Usual d) (hf : c.structure' = "bottom-up" → c.SizeFits d) (hs : c.structure' = "bottom-up" ∨ c.structure' = "top-down")
    (hl : ∃ B, P.leaf.build none ⟨d.height * d.width, d.channels, c.channels.headD 0, 1⟩ = .ok B) :
    ∃ M, buildConv c d P = .ok M := by
  obtain ⟨B, hB⟩ := hl
  obtain ⟨u1, u2, u3, u4⟩ := hu
  obtain ⟨k, ks, hk⟩ := List.exists_cons_of_ne_nil hc
  have pos : ∀ n : Nat, 0 < n → ∃ x, checkValid (.int (n : ℕ)) .int (some (.int 1)) = .ok x := by
    intro n hn
    have := (Props.checkInt_iff n 1 one_ne_zero (Except.ok ()) ()).2 ⟨by omega, rfl⟩
    obtain ⟨x, hx, _⟩ := bind_ok this
    exact ⟨x, hx⟩
  obtain ⟨x1, e1⟩ := pos _ (Nat.mul_pos u2 u3)
  obtain ⟨x2, e2⟩ := pos _ hd
  obtain ⟨x3, e3⟩ := pos (c.channels.headD 0) (by rw [hk]; exact u1 k (by rw [hk]; simp))
  have hlay : ∃ ls, convLayers c d P = .ok ls := by
    unfold convLayers
    rcases hs with s | s
    · rw [if_pos s, hk]
      have := (hf s).1 s
      rw [hk] at this
      exact convBottomUp_ok P _ k ks 0 u2 u3 this.1 this.2
    · rw [if_neg (by rw [s]; decide), if_pos s]
      obtain ⟨ls, hls⟩ := convTopDown_ok P c.order (c.channels.headD 0) c.channels 0
      rw [hls]
      exact ⟨_, rfl⟩
  obtain ⟨ls, hls⟩ := hlay
  unfold buildConv
  rw [require_true _ hc, e1, e2, e3, hB, hls]
  exact ⟨_, rfl⟩

/-! ### Sizes that do not fit -/

/-- an error, whatever it is. -/
def Fails {α : Type} (x : Res α) : Prop := ∃ e, x = .error e

theorem Fails.bind {α β : Type} {x : Res α} (h : Fails x) (f : α → Res β) : Fails (x >>= f) := by
  obtain ⟨e, rfl⟩ := h
  exact ⟨e, rfl⟩

theorem Fails.of_sat {α β : Type} {x : Res α} {P : α → Prop} (h : Res.Sat x P) {f : α → Res β} (hf : ∀ a, P a → Fails (f a)) :
    Fails (x >>= f) := by
  obtain ⟨a, rfl, ha⟩ := h
  exact hf a ha

theorem Fails.require {α : Type} {e : Err} {p : Prop} [Decidable p] {f : Unit → Res α} (h : p → Fails (f ())) :
    Fails (Einet.require e p >>= f) := by
  by_cases hp : p
  · rw [require_true _ hp]; exact h hp
  · rw [require_false _ hp]; exact ⟨_, rfl⟩

theorem ProdConv.forward_fails {kh kw N C H W : Nat} {x : Tensor Fl} {e : Nat → Img Fl} (hx : x.Is4 N C H W e)
    (h : ¬(0 < kh ∧ 0 < kw ∧ kh ∣ H ∧ kw ∣ W)) : Fails (ProdConv.forward kh kw x) := by
  unfold ProdConv.forward
  refine Fails.require fun _ => Fails.require fun h1 => Fails.require fun h2 => Fails.require fun h3 => Fails.require fun h4 => ?_
  simp only [size, hx.1, at'] at h2 h4
  exact absurd ⟨by omega, by omega, Nat.dvd_of_mod_eq_zero h2, Nat.dvd_of_mod_eq_zero h4⟩ h

theorem ConvSum.forward_fails (L : ConvSum) {N h w : Nat} {x : Tensor Fl} {e : Nat → Img Fl}
    (hx : x.Is4 N L.in_channels h w e) (hh : (h ≠ L.height ∧ h ≠ 1 ∧ L.height ≠ 1) ∨ (w ≠ L.width ∧ w ≠ 1 ∧ L.width ≠ 1)) :
    Fails (L.forward x) := by
  unfold ConvSum.forward
  have hp : L.param.Is [L.out_channels, L.in_channels, L.height, L.width] fun i => .fin (L.logits i) :=
    Is.intro rfl fun _ _ => rfl
  refine Fails.of_sat (logSoftmax_is hp (by simp)) fun w' hw => ?_
  refine Fails.of_sat (unsqueeze_is hw (by simp)) fun w' hw => ?_
  refine Fails.of_sat (unsqueeze_is hx (by simp)) fun x hx => ?_
  refine Fails.bind ?_ _
  have h1 : x.shape = [N, 1, L.in_channels, h, w] := hx.1
  have h2 : w'.shape = [1, L.out_channels, L.in_channels, L.height, L.width] := hw.1
  refine ⟨.shape, ?_⟩
  have hb : bshape [N, 1, L.in_channels, h, w] [1, L.out_channels, L.in_channels, L.height, L.width] = none := by
    rcases hh with ⟨a, b, c⟩ | ⟨a, b, c⟩
    · have : bdim h L.height = none := by simp [bdim, a, b, c]
      simp [bshape, this]
    · have : bdim w L.width = none := by simp [bdim, a, b, c]
      simp [bshape, this]
  unfold Tensor.add Tensor.zipWith padRank
  simp only [rank, h1, h2, List.length_cons, List.length_nil, Nat.sub_self, List.replicate_zero, List.nil_append, hb]

theorem convBottomUp_fails {P : ConvParams} {order : String} (ho : KnownOrder order) {k : Nat} {c : Nat} {cs : List Nat}
    {i h w : Nat} {ls : List ConvLayer} (hc : ∀ n ∈ c :: cs, 0 < n) (h0 : 0 < h) (w0 : 0 < w)
    (hn : ¬(k ^ cs.length ∣ h ∧ k ^ cs.length ∣ w)) (hl : convBottomUp P order k (c :: cs) i h w = .ok ls) {N : Nat}
    {x : Tensor Fl} {e : Nat → Img Fl} (hx : x.Is4 N c h w e) : Fails (forwardAtoms (ls.flatMap ConvLayer.atoms) x) := by
  induction cs generalizing c i h w ls x e with
  | nil => simp at hn
  | cons c' cs ih =>
    simp only [convBottomUp] at hl
    obtain ⟨l, h2, h3⟩ := bind_ok hl
    obtain ⟨ls', h4, h5⟩ := bind_ok h3
    cases h5
    rw [List.flatMap_cons, forwardAtoms_append]
    obtain ⟨_, hk, _, h6⟩ := mkSumProd_atoms ho h2
    by_cases hd : k ∣ h ∧ k ∣ w
    · obtain ⟨_, h7⟩ := mkSumProd_chain ho (hc c (by simp)) h0 w0 hd.1 hd.2 h2
      refine Fails.of_sat (forwardAtoms_is h7 hx) fun y hy => ?_
      refine ih (fun n hn => hc n (by simp at hn ⊢; tauto)) (Nat.div_pos (Nat.le_of_dvd h0 hd.1) hk)
        (Nat.div_pos (Nat.le_of_dvd w0 hd.2) hk) (fun hh => hn ⟨?_, ?_⟩) h4 hy
      · rw [List.length_cons, pow_succ]
        exact Nat.mul_dvd_of_dvd_div hd.1 (by simpa using hh.1) |> fun q => by rwa [mul_comm] at q
      · rw [List.length_cons, pow_succ]
        exact Nat.mul_dvd_of_dvd_div hd.2 (by simpa using hh.2) |> fun q => by rwa [mul_comm] at q
    · refine Fails.bind ?_ _
      rw [h6]
      split_ifs
      · refine Fails.of_sat (ConvSum.forward_is ⟨c, c', h, w, P.logits i⟩ hx) fun y hy => Fails.bind ?_ _
        exact ProdConv.forward_fails hy fun q => hd q.2.2
      · exact Fails.bind (ProdConv.forward_fails hx fun q => hd q.2.2) _

/-- the number of patches is at least `m`, and larger unless `m` divides the size. -/
theorem patches_ge {H m : Nat} (hq : 0 < H / m) : m ≤ H / (H / m) :=
  (Nat.le_div_iff_mul_le hq).2 (Nat.mul_div_le H m)

theorem dvd_of_patches {H m : Nat} (hd : H / m ∣ H) (he : H / (H / m) = m) : m ∣ H :=
  ⟨H / m, by conv_lhs => rw [← Nat.div_mul_cancel hd, he]⟩

theorem patches_two {H : Nat} (hd : H / 2 ∣ H) (h2 : 2 ∣ H / (H / 2)) : 2 ∣ H := by
  by_cases h0 : H / 2 = 0
  · rw [h0] at hd
    have : H = 0 := by simpa using hd
    simp [this]
  · have e := Nat.div_mul_cancel hd
    exact e ▸ h2.mul_right _

theorem convTopDown_fails {P : ConvParams} {order : String} (ho : KnownOrder order) {p : Nat} {cs : List Nat} {i : Nat}
    {ls : List ConvLayer} (hcs : cs ≠ []) (hl : convTopDown P order p cs i = .ok ls) {N h w : Nat}
    (h0 : 0 < h) (w0 : 0 < w)
    (hn : (h ≠ 2 ^ cs.length ∧ h ≠ 1 ∧ (cs.length = 1 → ¬2 ∣ h)) ∨ (w ≠ 2 ^ cs.length ∧ w ≠ 1 ∧ (cs.length = 1 → ¬2 ∣ w)))
    {x : Tensor Fl} {e : Nat → Img Fl} (hx : x.Is4 N p h w e)
    (hg : 2 ^ cs.length ≤ h ∧ 2 ^ cs.length ≤ w) :
    Fails (forwardAtoms (ls.flatMap ConvLayer.atoms) x) := by
  obtain ⟨c, cs, rfl⟩ := List.exists_cons_of_ne_nil hcs
  simp only [convTopDown] at hl
  obtain ⟨l, h2, h3⟩ := bind_ok hl
  obtain ⟨ls', h4, h5⟩ := bind_ok h3
  cases h5
  rw [List.flatMap_cons, forwardAtoms_append]
  refine Fails.bind ?_ _
  obtain ⟨_, _, _, h6⟩ := mkSumProd_atoms ho h2
  rw [h6]
  have e2 : 2 ^ (cs.length + 1) / 2 = 2 ^ cs.length := by rw [pow_succ]; exact Nat.mul_div_cancel _ two_pos
  have hpw : 2 ^ (cs.length + 1) = 2 * 2 ^ cs.length := by ring
  have hp1 : 1 ≤ 2 ^ cs.length := Nat.one_le_two_pow
  simp only [List.length_cons] at hn hg ⊢
  split_ifs
  · refine Fails.bind (ConvSum.forward_fails ⟨p, c, 2 ^ (cs.length + 1), 2 ^ (cs.length + 1), P.logits i⟩ hx ?_) _
    rcases hn with ⟨a, b, _⟩ | ⟨a, b, _⟩
    · exact Or.inl ⟨a, b, by show 2 ^ (cs.length + 1) ≠ 1; omega⟩
    · exact Or.inr ⟨a, b, by show 2 ^ (cs.length + 1) ≠ 1; omega⟩
  · by_cases hd : 2 ∣ h ∧ 2 ∣ w
    · obtain ⟨⟨a, rfl⟩, ⟨b, rfl⟩⟩ := hd
      have hx' := hx
      rw [mul_comm 2 a, mul_comm 2 b] at hx'
      refine Fails.of_sat (ProdConv.forward_is two_pos two_pos (by omega) (by omega) hx') fun y hy => Fails.bind ?_ _
      refine ConvSum.forward_fails ⟨p, c, 2 ^ (cs.length + 1) / 2, 2 ^ (cs.length + 1) / 2, P.logits i⟩ hy ?_
      have hone : cs.length ≠ 0 → 2 ^ cs.length ≠ 1 := fun hc => by
        have := Nat.one_lt_two_pow hc; omega
      rcases hn with ⟨q1, q2, q3⟩ | ⟨q1, q2, q3⟩
      · refine Or.inl ⟨?_, ?_, ?_⟩
        · show a ≠ 2 ^ (cs.length + 1) / 2; omega
        · have := hone fun hc => q3 (by omega) ⟨a, rfl⟩; omega
        · show 2 ^ (cs.length + 1) / 2 ≠ 1
          have := hone fun hc => q3 (by omega) ⟨a, rfl⟩; omega
      · refine Or.inr ⟨?_, ?_, ?_⟩
        · show b ≠ 2 ^ (cs.length + 1) / 2; omega
        · have := hone fun hc => q3 (by omega) ⟨b, rfl⟩; omega
        · show 2 ^ (cs.length + 1) / 2 ≠ 1
          have := hone fun hc => q3 (by omega) ⟨b, rfl⟩; omega
    · exact Fails.bind (ProdConv.forward_fails hx fun q => hd q.2.2) _

theorem convTopDown_known {P : ConvParams} {order : String} (ho : KnownOrder order) {p : Nat} {cs : List Nat} {i : Nat}
    {ls : List ConvLayer} (hl : convTopDown P order p cs i = .ok ls) : ∀ l ∈ ls, l.Known := by
  induction cs generalizing p i ls with
  | nil =>
    simp only [convTopDown, Res.pure_eq, Except.ok.injEq] at hl
    cases hl
    simp [ConvLayer.Known]
  | cons c cs ih =>
    simp only [convTopDown] at hl
    obtain ⟨l, h2, h3⟩ := bind_ok hl
    obtain ⟨ls', h4, h5⟩ := bind_ok h3
    cases h5
    intro l' hl'
    rcases List.mem_cons.1 hl' with rfl | hl'
    · exact (mkSumProd_atoms ho h2).1
    · exact ih h4 l' hl'

theorem convBottomUp_known {P : ConvParams} {order : String} (ho : KnownOrder order) {k : Nat} {cs : List Nat} {i h w : Nat}
    {ls : List ConvLayer} (hl : convBottomUp P order k cs i h w = .ok ls) : ∀ l ∈ ls, l.Known := by
  induction cs generalizing i h w ls with
  | nil => cases hl
  | cons c cs ih =>
    cases cs with
    | nil =>
      simp only [convBottomUp] at hl
      obtain ⟨l, h2, h3⟩ := bind_ok hl
      cases h3
      simpa using (mkSumProd_atoms (Or.inr rfl) h2).1
    | cons c' cs =>
      simp only [convBottomUp] at hl
      obtain ⟨l, h2, h3⟩ := bind_ok hl
      obtain ⟨ls', h4, h5⟩ := bind_ok h3
      cases h5
      intro l' hl'
      rcases List.mem_cons.1 hl' with rfl | hl'
      · exact (mkSumProd_atoms ho h2).1
      · exact ih h4 l' hl'

theorem buildConv_known {c : ConvConfig} {d : ImgShape} {P : ConvParams} {M : ConvModel} (ho : KnownOrder c.order)
    (h : buildConv c d P = .ok M) : ∀ l ∈ M.layers, l.Known := by
  obtain ⟨h1, h2, h3, h4, h5, h6, h7, h8, h9⟩ := buildConv_spec h
  unfold convLayers at h6
  split_ifs at h6 with s1 s2
  · exact convBottomUp_known ho h6
  · obtain ⟨ls, h10, h11⟩ := bind_ok h6
    simp only [Res.pure_eq, Except.ok.injEq] at h11
    rw [← h11]
    intro l hl
    rcases List.mem_cons.1 hl with rfl | hl
    · trivial
    · exact convTopDown_known ho h10 l hl

/-- the lowest product of `top-down` and the layer above it, for a size that is not a multiple of `2 ^ n`. -/
theorem topDown_size {H n : Nat} (hn : n ≠ 0) (hq : 0 < H / 2 ^ n) (hd : H / 2 ^ n ∣ H) (hnd : ¬2 ^ n ∣ H) :
    H / (H / 2 ^ n) ≠ 2 ^ n ∧ H / (H / 2 ^ n) ≠ 1 ∧ (n = 1 → ¬2 ∣ H / (H / 2 ^ n)) := by
  have h1 : 1 < 2 ^ n := Nat.one_lt_two_pow hn
  have h2 := patches_ge hq
  refine ⟨fun e => hnd (dvd_of_patches hd e), by omega, ?_⟩
  rintro rfl h3
  rw [pow_one] at *
  exact hnd (patches_two hd h3)

theorem convLayers_fails {c : ConvConfig} {d : ImgShape} {P : ConvParams} {ls : List ConvLayer} (hc : c.channels ≠ [])
    (hu : c.Usual d) (hf : ¬c.SizeFits d) (hl : convLayers c d P = .ok ls) {N : Nat} {x : Tensor Fl} {e : Nat → Img Fl}
    (hx : x.Is4 N (c.channels.headD 0) d.height d.width e) : Fails (forwardAtoms (ls.flatMap ConvLayer.atoms) x) := by
  obtain ⟨u1, u2, u3, u4⟩ := hu
  obtain ⟨k, ks, hk⟩ := List.exists_cons_of_ne_nil hc
  unfold convLayers at hl
  split_ifs at hl with s1 s2
  · have hn : ¬(c.kernel_size ^ (c.channels.length - 1) ∣ d.height ∧ c.kernel_size ^ (c.channels.length - 1) ∣ d.width) :=
      fun q => hf ⟨fun _ => q, fun q' => absurd (s1.symm.trans q') (by decide)⟩
    rw [hk] at hl hn hx
    exact convBottomUp_fails u4 (by rw [← hk]; exact u1) u2 u3 hn hl hx
  · have hn : ¬(2 ^ c.channels.length ∣ d.height ∧ 2 ^ c.channels.length ∣ d.width) :=
      fun q => hf ⟨fun q' => absurd q' s1, fun _ => q⟩
    have hlen : c.channels.length ≠ 0 := by rw [hk]; simp
    obtain ⟨ls', h10, h11⟩ := bind_ok hl
    simp only [Res.pure_eq, Except.ok.injEq] at h11
    rw [← h11, List.flatMap_cons, forwardAtoms_append]
    by_cases hq : 0 < d.height / 2 ^ c.channels.length ∧ 0 < d.width / 2 ^ c.channels.length ∧
        d.height / 2 ^ c.channels.length ∣ d.height ∧ d.width / 2 ^ c.channels.length ∣ d.width
    · obtain ⟨q1, q2, q3, q4⟩ := hq
      have p1 : 0 < d.height / (d.height / 2 ^ c.channels.length) := Nat.div_pos (Nat.div_le_self _ _) q1
      have p2 : 0 < d.width / (d.width / 2 ^ c.channels.length) := Nat.div_pos (Nat.div_le_self _ _) q2
      have hx' : x.Is4 N (c.channels.headD 0) (d.height / (d.height / 2 ^ c.channels.length) * (d.height / 2 ^ c.channels.length))
          (d.width / (d.width / 2 ^ c.channels.length) * (d.width / 2 ^ c.channels.length)) e := by
        rw [Nat.div_mul_cancel q3, Nat.div_mul_cancel q4]
        exact hx
      refine Fails.of_sat (forwardAtoms_is (as := [.prod _ _]) (.cons (.prod _ _ _ _ _ q1 q2 p1 p2) (.nil _ _ _)) hx')
        fun y hy => ?_
      refine convTopDown_fails u4 hc h10 p1 p2 ?_ hy ⟨patches_ge q1, patches_ge q2⟩
      rw [not_and_or] at hn
      exact hn.imp (topDown_size hlen q1 q3) (topDown_size hlen q2 q4)
    · refine Fails.bind (Fails.bind (ProdConv.forward_fails hx fun q => hq ⟨q.1, q.2.1, q.2.2.1, q.2.2.2⟩) _) _

/-- sizes that do not fit raise. -/
theorem buildConv_fails {c : ConvConfig} {d : ImgShape} {P : ConvParams} {M : ConvModel} (hu : c.Usual d) (hf : ¬c.SizeFits d)
    (h : buildConv c d P = .ok M) (h2 : M.leaf.num_leaves ≠ 1) {x : Tensor Fl} {N : Nat} {X : Nat → Img Fl}
    (hx : x.Is4 N M.num_channels M.height M.width X) (hv : ∀ n, n < N → M.leaf.Valid (flatImg M.width (X n))) :
    Fails (M.forward x) := by
  have hfr := buildConv_front hu.2.1 hu.2.2.1 h
  obtain ⟨y, hy, hy'⟩ := ConvModel.forwardLeaf_is hfr h2 hx hv
  obtain ⟨h1, _, _, _, h5, h6, _, h8, h9⟩ := buildConv_spec h
  unfold ConvModel.forward ConvModel.forwardAll
  rw [hy]
  dsimp only
  rw [forwardConv_atoms (buildConv_known hu.2.2.2 h)]
  have := (LeafSpec.build_spec h5).2.1.2.2.1
  rw [this, h8, h9] at hy'
  exact Fails.bind (convLayers_fails h1 hu hf h6 hy') _

end Einet
