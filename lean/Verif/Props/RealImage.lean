import Verif.Props.Pixel
import Verif.Props.Synth

/-! # Real images: the `reality` flag from the pixels alone -/

namespace S2wav
open Classical Sphere

variable {jm : JMax} {c : Cfg} {J : ℤ} {b : Backend} {f s : Px} {w : List Px} {psi : Arr3 ℂ} {phi : Arr1 ℝ}

/-- an image whose pixels are real -/
def RealPx (p : Px) : Prop := ∀ i, List.Forall₂ (fun k n => 0 ≤ k ∧ k < n) i p.shape → (p.v i).im = 0

theorem RealPx.two {p : Px} (h : RealPx p) {n k t x : ℤ} (hs : p.shape = [n, k]) (ht : t ∈ Finset.Ico 0 n) (hx : x ∈ Finset.Ico 0 k) :
    (p.v [t, x]).im = 0 := by
  refine h _ ?_
  rw [hs]
  exact .cons (Finset.mem_Ico.1 ht) (.cons (Finset.mem_Ico.1 hx) .nil)

theorem RealPx.three {p : Px} (h : RealPx p) {o n k y t x : ℤ} (hs : p.shape = [o, n, k]) (hy : y ∈ Finset.Ico 0 o) (ht : t ∈ Finset.Ico 0 n)
    (hx : x ∈ Finset.Ico 0 k) : (p.v [y, t, x]).im = 0 := by
  refine h _ ?_
  rw [hs]
  exact .cons (Finset.mem_Ico.1 hy) (.cons (Finset.mem_Ico.1 ht) (.cons (Finset.mem_Ico.1 hx) .nil))

theorem realPx_two {p : Px} {n k : ℤ} (hs : p.shape = [n, k]) (h : ∀ t ∈ Finset.Ico 0 n, ∀ x ∈ Finset.Ico 0 k, (p.v [t, x]).im = 0) : RealPx p := by
  intro i hi
  rw [hs] at hi
  cases hi with | cons a hi => cases hi with | cons b hi => cases hi with | nil => exact h _ (Finset.mem_Ico.2 a) _ (Finset.mem_Ico.2 b)

theorem realPx_three {p : Px} {o n k : ℤ} (hs : p.shape = [o, n, k])
    (h : ∀ y ∈ Finset.Ico 0 o, ∀ t ∈ Finset.Ico 0 n, ∀ x ∈ Finset.Ico 0 k, (p.v [y, t, x]).im = 0) : RealPx p := by
  intro i hi
  rw [hs] at hi
  cases hi with | cons a hi => cases hi with | cons b hi => cases hi with | cons d hi => cases hi with
    | nil => exact h _ (Finset.mem_Ico.2 a) _ (Finset.mem_Ico.2 b) _ (Finset.mem_Ico.2 d)

/-- the coefficients a signal of band-limit `L` depends on -/
noncomputable def cut (L : ℤ) (a : ℤ → ℤ → ℂ) (l m : ℤ) : ℂ := if |m| ≤ l ∧ l < L then a l m else 0

/-- the coefficients a function on the rotation group depends on -/
noncomputable def cut3 (L N : ℤ) (W : ℤ → ℤ → ℤ → ℂ) (n l m : ℤ) : ℂ := if |n| < N ∧ l < L ∧ max |m| |n| ≤ l then W n l m else 0

theorem series_cut (s L : ℤ) (a : ℤ → ℤ → ℂ) : series s L (cut L a) = series s L a := by
  ext θ φ
  exact series_eq (fun l m h1 h2 => if_pos ⟨(le_max_left _ _).trans h2, h1⟩) _ _

theorem directional_cut (L : ℤ) (a psi : ℤ → ℤ → ℂ) : directional L (cut L a) psi = directional L a psi := by
  ext α β γ
  unfold directional
  refine Finset.sum_congr rfl fun l hl => Finset.sum_congr rfl fun m hm => ?_
  rw [cut, if_pos ⟨abs_le.2 (Finset.mem_Icc.1 hm), (Finset.mem_Ico.1 hl).2⟩]

theorem wseries_cut (L N : ℤ) (W : ℤ → ℤ → ℤ → ℂ) : wseries L N (cut3 L N W) = wseries L N W := by
  ext α β γ
  unfold wseries
  refine Finset.sum_congr rfl fun n hn => Finset.sum_congr rfl fun l hl => Finset.sum_congr rfl fun m hm => ?_
  rw [Finset.mem_Ico] at hl
  rw [cut3, if_pos ⟨abs_lt.2 (Finset.mem_Ioo.1 hn), hl.2, max_le (abs_le.2 (Finset.mem_Icc.1 hm)) hl.1⟩]

/-- pixels that are real come from symmetric coefficients -/
theorem cut_herm {L : ℤ} {g : Grid} (hE : g.Enough L) {a : ℤ → ℤ → ℂ} (hf : Samples g (series 0 L a) f) (hp : RealPx f) :
    HermF (cut L a) := by
  intro l m
  unfold cut
  rw [abs_neg]
  split_ifs with hl
  · have h0 : max |(-m)| |(0 : ℤ)| ≤ l := by rw [abs_neg, abs_zero]; exact max_le hl.1 ((abs_nonneg m).trans hl.1)
    have e1 := scoef_eq (f := fun t x => f.v [t, x]) hE h0 hl.2 hf.2
    have e2 := scoef_eq (f := fun t x => f.v [t, x]) (a := fun l m => (-1) ^ m * (starRingEnd ℂ) (a l (-m))) hE h0 hl.2 fun t ht x hx => by
      rw [← conj_series, ← hf.2 t ht x hx]
      exact (Complex.conj_eq_iff_im.2 (hp.two hf.1 ht hx)).symm
    rw [← e1, e2, neg_neg, Toy.neg_one_zpow_neg]
  · simp

theorem conj_wD (l m n : ℤ) (α β γ : ℝ) : (starRingEnd ℂ) (wD l m n α β γ) = (-1) ^ (n + m) * wD l (-m) (-n) α β γ := by
  unfold wD
  rw [wignerd_neg, map_mul, map_mul, conj_cis, conj_cis, Complex.conj_ofReal]
  push_cast
  rw [neg_neg, neg_neg, show -(-(m : ℝ) * α) = m * α by ring, show -(-(n : ℝ) * γ) = n * γ by ring]
  have h1 : ((-1 : ℂ)) ^ (n + m) * (-1) ^ (m - n) = 1 := by rw [← zpow_add₀ (by norm_num)]; exact Even.neg_one_zpow ⟨m, by ring⟩
  linear_combination (-(cis (m * α) * (wignerd l m n β : ℂ) * cis (n * γ))) * h1

theorem conj_wseries (L N : ℤ) (W : ℤ → ℤ → ℤ → ℂ) (α β γ : ℝ) : (starRingEnd ℂ) (wseries L N W α β γ) =
    wseries L N (fun n l m => (-1) ^ (n + m) * (starRingEnd ℂ) (W (-n) l (-m))) α β γ := by
  unfold wseries
  rw [map_sum]
  refine Finset.sum_nbij' (fun n => -n) (fun n => -n) ?_ ?_ ?_ ?_ ?_
  · intro n hn; rw [Finset.mem_Ioo] at hn ⊢; omega
  · intro n hn; rw [Finset.mem_Ioo] at hn ⊢; omega
  · intro n _; ring
  · intro n _; ring
  intro n _
  rw [map_sum, abs_neg]
  refine Finset.sum_congr rfl fun l _ => ?_
  rw [map_sum]
  refine Finset.sum_nbij' (fun m => -m) (fun m => -m) ?_ ?_ ?_ ?_ ?_
  · intro m hm; rw [Finset.mem_Icc] at hm ⊢; omega
  · intro m hm; rw [Finset.mem_Icc] at hm ⊢; omega
  · intro m _; ring
  · intro m _; ring
  · intro m _
    beta_reduce
    rw [map_mul, map_mul, Complex.conj_conj, Complex.conj_ofReal, neg_neg, neg_neg, conj_wD l (-m) (-n), neg_neg, neg_neg]
    have h1 : ((-1 : ℂ)) ^ (-n + -m) * (-1) ^ (-n + -m) = 1 := by rw [← zpow_add₀ (by norm_num)]; exact Even.neg_one_zpow ⟨_, rfl⟩
    linear_combination (-((((2 * l + 1) / (8 * Real.pi ^ 2) : ℝ) : ℂ) * (starRingEnd ℂ) (W n l m) * wD l m n α β γ)) * h1

theorem cut3_herm {L N : ℤ} {g : Grid} (hE : g.Enough L) {W : ℤ → ℤ → ℤ → ℂ} {p : Px} (hf : Samples3 g N (wseries L N W) p) (hp : RealPx p) :
    HermF3 (cut3 L N W) := by
  intro n l m
  unfold cut3
  rw [abs_neg, abs_neg]
  split_ifs with hl
  · have h0 : max |(-m)| |(-n)| ≤ l := by rw [abs_neg, abs_neg]; exact hl.2.2
    have hn : |(-n)| < N := by rw [abs_neg]; exact hl.1
    have e1 := wcoef_eq (f := fun y t x => p.v [y, t, x]) hE hn h0 hl.2.1 hf.2
    have e2 := wcoef_eq (f := fun y t x => p.v [y, t, x]) (a := fun n l m => (-1) ^ (n + m) * (starRingEnd ℂ) (W (-n) l (-m))) hE hn h0 hl.2.1
      fun y hy t ht x hx => by
        rw [← conj_wseries, ← hf.2 y hy t ht x hx]
        exact (Complex.conj_eq_iff_im.2 (hp.three hf.1 hy ht hx)).symm
    rw [← e1, e2, neg_neg, neg_neg, ← neg_add, Toy.neg_one_zpow_neg]
  · simp

theorem synF_herm {L J_min J : ℤ} {psi : ℤ → ℤ → ℤ → ℂ} {phi : ℤ → ℝ} {W : ℤ → ℤ → ℤ → ℤ → ℂ} {S : ℤ → ℤ → ℂ} (hp : ∀ j, HermF (psi j))
    (hS : HermF S) (hW : ∀ j, HermF3 (W j)) : HermF (synF L J_min J psi phi W S) := by
  intro l m
  unfold synF
  rw [map_add, map_sum, map_mul, Complex.conj_ofReal, hS, mul_add, Finset.mul_sum]
  refine congrArg₂ (· + ·) (Finset.sum_congr rfl fun j _ => ?_) (by ring)
  rw [map_sum, Finset.mul_sum]
  refine Finset.sum_nbij' (fun n => -n) (fun n => -n) ?_ ?_ ?_ ?_ ?_
  · intro n hn; rw [Finset.mem_Icc] at hn ⊢; omega
  · intro n hn; rw [Finset.mem_Icc] at hn ⊢; omega
  · intro n _; ring
  · intro n _; ring
  · intro n _
    have e1 := hp j l (-n)
    have e2 := hW j (-n) l m
    rw [neg_neg] at e1 e2
    rw [e1, e2, map_mul]
    have h1 : ((-1 : ℂ)) ^ (-n) * (-1) ^ (-n + m) = (-1) ^ m := by
      rw [← zpow_add₀ (by norm_num), show -n + (-n + m) = 2 * (-n) + m by ring, zpow_add₀ (by norm_num), Even.neg_one_zpow ⟨-n, by ring⟩, one_mul]
    linear_combination ((starRingEnd ℂ) (psi j l (-n)) * (starRingEnd ℂ) (W j (-n) l m)) * h1

theorem listGet_mem {β : Type} {l : List β} {i : ℤ} {x : β} (h : listGet l i = .ok x) : x ∈ l := by
  unfold listGet at h
  split_ifs at h with h1 h2
  all_goals
    split at h
    · next y hy => cases h; exact List.mem_of_getElem? hy
    · cases h

theorem enough_of (hs : SamplingOk b c) {L : ℤ} (hL : 1 ≤ L) {g : Grid} (hg : gridOf c.sampling L = .ok g) : g.Enough L := by
  obtain ⟨g', hg', hE⟩ := hs.sampled L hL
  rw [hg] at hg'; cases hg'; exact hE

/-- **C89** analysis of any real image of band-limit `L`, with `reality=True` or without: the maps of C82 -/
theorem C89_maps (hb : IsSphere b) (hv : c.Valid jm J) (hs : SamplingOk b c) (hflt : b.filters jm c = .ok (psi, phi)) {a : ℤ → ℤ → ℂ}
    (hr : c.reality = true → c.spin = 0 ∧ RealPx f) {g : Grid} (hg : gridOf c.sampling c.L = .ok g)
    (hf : Samples g (series (spinOf b c) c.L a) f) :
    ∃ w s, b.analysis jm c f = .ok (w, s) ∧ (w.length : ℤ) = J + 1 - c.J_min ∧
      (∀ j, c.J_min ≤ j → j ≤ J → ∃ p gj, listGet w (j - c.J_min) = .ok p ∧ gridOf c.sampling (c.Lj b.mr j) = .ok gj ∧
        Samples3 gj (c.Nj b.mr j) (directional c.L a fun l n => psi.v j l (c.L - 1 + n)) p ∧ (c.reality = true → RealPx p)) ∧
      ∃ gs, gridOf c.sampling (c.Ls b.mr) = .ok gs ∧ Samples gs (smoothed (spinOf b c) c.L phi.v a) s ∧ (c.reality = true → RealPx s) := by
  have hc : c.reality = true → HermF (cut c.L a) := fun h => cut_herm (enough_of hs hv.top.hL hg) (by
    rw [← spinOf_zero (b := b) (hr h).1]; exact hf) (hr h).2
  obtain ⟨w, s, h1, h2, h3, gs, h4, h5⟩ := C82_maps (a := cut c.L a) hb hv hs hflt (fun h => ⟨(hr h).1, hc h⟩) hg (by rw [series_cut]; exact hf)
  refine ⟨w, s, h1, h2, fun j hj hJ => ?_, gs, h4, ?_, fun h => ?_⟩
  · obtain ⟨p, gj, a1, a2, a3⟩ := h3 j hj hJ
    refine ⟨p, gj, a1, a2, by rw [← directional_cut]; exact a3, fun h => realPx_three a3.1 fun y hy t ht x hx => ?_⟩
    rw [a3.2 y hy t ht x hx]
    exact directional_im (hc h) (psi_herm hv hflt j) _ _ _
  · refine ⟨h5.1, fun t ht x hx => (h5.2 t ht x hx).trans (series_eq (fun l m hl hm => ?_) _ _)⟩
    rw [cut, if_pos ⟨(le_max_left _ _).trans hm, hl⟩]
  · refine realPx_two h5.1 fun t ht x hx => ?_
    rw [h5.2 t ht x hx, spinOf_zero (hr h).1]
    refine series_im (fun l m => ?_) _ _
    rw [hc h, map_mul, Complex.conj_ofReal]; ring

/-- **C89** and synthesis returns the image -/
theorem C89_reconstruction (hb : IsSphere b) (hv : c.Valid jm J) (hs : SamplingOk b c) {k : Arr2 ℝ}
    (hk : k_lam jm c.L c.lam 300 = .ok k) (hno : NoOvershoot k) {a : ℤ → ℤ → ℂ} (hspin : ∀ l m, l < |c.spin| → a l m = 0)
    (hr : c.reality = true → c.spin = 0 ∧ RealPx f) {g : Grid} (hg : gridOf c.sampling c.L = .ok g)
    (hf : Samples g (series (spinOf b c) c.L a) f) :
    ∃ w s r, b.analysis jm c f = .ok (w, s) ∧ b.synthesis jm c w s = .ok r ∧ (r.shape = f.shape) ∧
      (∀ t ∈ Finset.Ico 0 g.nθ, ∀ x ∈ Finset.Ico 0 g.nφ, r.v [t, x] = f.v [t, x]) ∧ (c.reality = true → RealPx r) := by
  obtain ⟨w, s, r, h1, h2, h3, h4⟩ := C81_reconstruction (a := cut c.L a) hb hv hs hk hno (fun l m h => by
      unfold cut; split_ifs
      · exact hspin l m h
      · rfl) (fun h => ⟨(hr h).1, cut_herm (enough_of hs hv.top.hL hg) (by
    rw [← spinOf_zero (b := b) (hr h).1]; exact hf) (hr h).2⟩) hg (by rw [series_cut]; exact hf)
  refine ⟨w, s, r, h1, h2, h3.1.trans hf.1.symm, h4, fun h => realPx_two h3.1 fun t ht x hx => ?_⟩
  rw [h4 t ht x hx]
  exact (hr h).2.two hf.1 ht hx

theorem synF_cut {L J_min J Ls : ℤ} {Lj Nj : ℤ → ℤ} {psi : ℤ → ℤ → ℤ → ℂ} {phi : ℤ → ℝ} (W : ℤ → ℤ → ℤ → ℤ → ℂ) (S : ℤ → ℤ → ℂ)
    (hpsi : ∀ j l n, psi j l n ≠ 0 → l < Lj j ∧ |n| < Nj j ∧ |n| ≤ l) (hphi : ∀ l, phi l ≠ 0 → l < Ls) {l m : ℤ} (hm : |m| ≤ l) :
    synF L J_min J psi phi (fun j => if J_min ≤ j ∧ j ≤ J then cut3 (Lj j) (Nj j) (W j) else 0) (cut Ls S) l m = synF L J_min J psi phi W S l m := by
  unfold synF
  refine congrArg₂ (· + ·) (Finset.sum_congr rfl fun j hj => Finset.sum_congr rfl fun n _ => ?_) ?_
  · by_cases hp : psi j l n = 0
    · rw [hp, zero_mul, zero_mul]
    · have h := hpsi j l n hp
      beta_reduce
      rw [if_pos (Finset.mem_Icc.1 hj), cut3, if_pos ⟨h.2.1, h.1, max_le hm h.2.2⟩]
  · by_cases hp : phi l = 0
    · simp [hp]
    · rw [cut, if_pos ⟨hm, hphi l hp⟩]

/-- coefficients of real maps -/
theorem real_maps (hv : c.Valid jm J) (hs : SamplingOk b c) {W : ℤ → ℤ → ℤ → ℤ → ℂ} {S : ℤ → ℤ → ℂ} (h0 : c.spin = 0) (hr : RealPx s)
    (hr' : ∀ p ∈ w, RealPx p) (hm : Maps b c J w s W S) : HermF (cut (c.Ls b.mr) S) ∧
    ∀ j, HermF3 (if c.J_min ≤ j ∧ j ≤ J then cut3 (c.Lj b.mr j) (c.Nj b.mr j) (W j) else 0) := by
  constructor
  · obtain ⟨gs, h1, h2⟩ := hm.scal
    rw [spinOf_zero h0] at h2
    exact cut_herm (enough_of hs (hv.Ls_pos b.mr).1 h1) h2 hr
  · intro j
    split_ifs with hj
    · obtain ⟨p, gj, a1, a2, a3⟩ := hm.wav j hj.1 hj.2
      exact cut3_herm (enough_of hs (hv.Lj_pos b.mr j).1 a2) a3 (hr' p (listGet_mem a1))
    · intro n l m; simp

theorem Maps.cut {W : ℤ → ℤ → ℤ → ℤ → ℂ} {S : ℤ → ℤ → ℂ} (hm : Maps b c J w s W S) :
    Maps b c J w s (fun j => if c.J_min ≤ j ∧ j ≤ J then cut3 (c.Lj b.mr j) (c.Nj b.mr j) (W j) else 0) (cut (c.Ls b.mr) S) := by
  refine ⟨hm.len, fun j h0 h1 => ?_, ?_⟩
  · rw [if_pos ⟨h0, h1⟩, wseries_cut]; exact hm.wav j h0 h1
  · rw [series_cut]; exact hm.scal

/-- **C89** synthesis of real maps: the coefficients of C88, and a real image -/
theorem C89_coefficients (hb : IsSphere b) (hv : c.Valid jm J) (hs : SamplingOk b c) (hflt : b.filters jm c = .ok (psi, phi))
    {W : ℤ → ℤ → ℤ → ℤ → ℂ} {S : ℤ → ℤ → ℂ} (hr : c.reality = true → c.spin = 0 ∧ RealPx s ∧ ∀ p ∈ w, RealPx p)
    (hm : Maps b c J w s W S) {g : Grid} (hg : gridOf c.sampling c.L = .ok g) :
    ∃ r, b.synthesis jm c w s = .ok r ∧
      Samples g (series (spinOf b c) c.L (synF c.L c.J_min J (fun j l n => psi.v j l (c.L - 1 + n)) phi.v W S)) r ∧
      (c.reality = true → RealPx r) := by
  have hFl := filters_ok hv hflt b.mr
  have hH := fun h => real_maps hv hs (hr h).1 (hr h).2.1 (hr h).2.2 hm
  obtain ⟨r, h1, h2⟩ := C88_coefficients hb hv hs hflt (fun h => ⟨(hr h).1, (hH h).1, (hH h).2⟩) hm.cut hg
  refine ⟨r, h1, ⟨h2.1, fun t ht x hx => (h2.2 t ht x hx).trans (series_eq (fun l m _ hl => ?_) _ _)⟩,
    fun h => realPx_two h2.1 fun t ht x hx => ?_⟩
  · refine synF_cut (Lj := c.Lj b.mr) (Nj := c.Nj b.mr) W S (fun j l n hne => ?_) (fun l hne => (hFl.scal l hne).1) ((le_max_left _ _).trans hl)
    have h := hFl.wav j l n hne
    exact ⟨h.2.1, h.2.2.1, h.2.2.2.2.1⟩
  · rw [h2.2 t ht x hx, spinOf_zero (hr h).1]
    exact series_im (synF_herm (fun j => psi_herm hv hflt j) (hH h).1 (hH h).2) _ _

/-- **C89** that is, the integrals of C88 -/
theorem C89_synthesis (hb : IsSphere b) (hv : c.Valid jm J) (hs : SamplingOk b c) (hflt : b.filters jm c = .ok (psi, phi))
    {W : ℤ → ℤ → ℤ → ℤ → ℂ} {S : ℤ → ℤ → ℂ} (hr : c.reality = true → c.spin = 0 ∧ RealPx s ∧ ∀ p ∈ w, RealPx p)
    (hm : Maps b c J w s W S) {g : Grid} (hg : gridOf c.sampling c.L = .ok g) {P : ℤ → ℝ → ℝ → ℝ → ℝ → ℝ → ℂ} {Q : ℝ → ℝ → ℝ → ℝ → ℂ}
    (hP : ∀ j α β γ, Rotated (spinOf b c) (euler α β γ) (series (spinOf b c) c.L fun l m => psi.v j l (c.L - 1 + m)) (P j α β γ))
    (hQ : ∀ θ' φ', Rotated (spinOf b c) (euler φ' θ' 0) (series (spinOf b c) c.L (scalF (spinOf b c) phi.v)) (Q θ' φ')) :
    ∃ r, b.synthesis jm c w s = .ok r ∧ Samples g (fun θ φ =>
      (∑ j ∈ Finset.Icc c.J_min J, rotInt fun α β γ => wseries (c.Lj b.mr j) (c.Nj b.mr j) (W j) α β γ * P j α β γ θ φ) +
      sphInt fun θ' φ' => series (spinOf b c) (c.Ls b.mr) S θ' φ' * Q θ' φ' θ φ) r := by
  have hH := fun h => real_maps hv hs (hr h).1 (hr h).2.1 (hr h).2.2 hm
  obtain ⟨r, h1, h2⟩ := C88_synthesis hb hv hs hflt (fun h => ⟨(hr h).1, (hH h).1, (hH h).2⟩) hm.cut hg hP hQ
  refine ⟨r, h1, ?_⟩
  rw [series_cut] at h2
  refine ⟨h2.1, fun t ht x hx => (h2.2 t ht x hx).trans ?_⟩
  beta_reduce
  refine congrArg (· + _) (Finset.sum_congr rfl fun j hj => ?_)
  rw [if_pos (Finset.mem_Icc.1 hj), wseries_cut]

/-! ## Real images -/

theorem exImg_real : RealPx exImg := by
  refine realPx_two (n := 3) (k := 5) rfl fun t _ x _ => ?_
  show (((Real.sqrt (3 / (4 * Real.pi)) * Real.cos ((2 * t + 1) * Real.pi / 5) : ℝ) : ℂ)).im = 0
  exact Complex.ofReal_im _

/-- with `reality=True`, all six pairs of routines -/
example (hb : IsSphere b) : ∃ w s r, b.analysis j_max (exCfg true 0) exImg = .ok (w, s) ∧
    b.synthesis j_max (exCfg true 0) w s = .ok r ∧ r.shape = exImg.shape ∧ RealPx r := by
  obtain ⟨g, hg, hf⟩ := exGrid
  have e : spinOf b (exCfg true 0) = 0 := spinOf_zero rfl
  have hv := exCfg_valid true 0
  have hk := k_lam_ok hv.top (show (3 : ℤ) ≤ 300 by norm_num)
  obtain ⟨w, s, r, h1, h2, h3, -, h4⟩ := C89_reconstruction (a := exSig) (f := exImg) hb hv (exSphere_ok b true) hk
    (noOvershoot_int (p := 2) le_rfl (by norm_num) (by have := hv.top; rwa [show (exCfg true 0).lam = ((2 : ℕ) : ℝ) by norm_num [exCfg]] at this)
      (show (3 : ℤ) ≤ maxL 2 by decide) (by rw [← show (exCfg true 0).lam = ((2 : ℕ) : ℝ) by norm_num [exCfg]]; exact hk))
    (fun l m h => if_neg (by rw [show (exCfg true 0).spin = 0 from rfl, abs_zero] at h; omega))
    (fun _ => ⟨rfl, exImg_real⟩) hg (by rw [e]; exact hf)
  exact ⟨w, s, r, h1, h2, h3, h4 rfl⟩

/-- synthesis of the maps of `exImg` -/
example (hb : IsSphere b) (hflt : b.filters j_max (exCfg true 0) = .ok (psi, phi)) : ∃ w s W S, b.analysis j_max (exCfg true 0) exImg = .ok (w, s) ∧
    Maps b (exCfg true 0) 2 w s W S ∧ RealPx s ∧ ∀ j, 0 ≤ j → j ≤ 2 → ∃ p, listGet w j = .ok p ∧ RealPx p := by
  obtain ⟨g, hg, hf⟩ := exGrid
  have e : spinOf b (exCfg true 0) = 0 := spinOf_zero rfl
  obtain ⟨w, s, h1, h2, h3, gs, h4, h5, h6⟩ := C89_maps (a := exSig) hb (exCfg_valid true 0) (exSphere_ok b true) hflt
    (fun _ => ⟨rfl, exImg_real⟩) hg (by rw [e]; exact hf)
  refine ⟨w, s, fun j n l m => ((8 * Real.pi ^ 2 / (2 * l + 1) : ℝ) : ℂ) * (exSig l m * (starRingEnd ℂ) (psi.v j l ((exCfg true 0).L - 1 + n))),
    fun l m => ((Real.sqrt (4 * Real.pi / (2 * l + 1)) * phi.v l : ℝ) : ℂ) * exSig l m, h1, ⟨h2, fun j hj hJ => ?_, gs, h4, ?_⟩, h6 rfl, fun j h0 hJ => ?_⟩
  · obtain ⟨p, gj, a1, a2, a3, -⟩ := h3 j hj hJ
    exact ⟨p, gj, a1, a2, by rw [wseries_map (exCfg_valid true 0) hflt]; exact a3⟩
  · have hcut := smoothed_cut (exCfg_valid true 0) hflt exSig
    rw [hcut] at h5
    exact h5
  · obtain ⟨p, gj, a1, a2, -, a3⟩ := h3 j h0 hJ
    rw [show j - (exCfg true 0).J_min = j by simp [exCfg]] at a1
    exact ⟨p, a1, a3 rfl⟩

end S2wav
