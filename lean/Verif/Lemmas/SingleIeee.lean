import Verif.Lemmas.SingleEntry

/-! # Plain single precision arithmetic is accurate in the sense of `Ops.Good` -/

namespace S2wav.Single
open Classical

/-- unit of rounding -/
noncomputable def vv : ℝ := (2 : ℝ) ^ (-24 : ℤ)
/-- least error of rounding -/
noncomputable def dd : ℝ := (2 : ℝ) ^ (-150 : ℤ)

theorem vv_eq : vv = 1 / 2 ^ 24 := by
  unfold vv
  rw [show (-24 : ℤ) = -((24 : ℕ) : ℤ) by norm_num, zpow_neg, zpow_natCast, one_div]

theorem uu_vv : uu = 8 * vv := by rw [uu_eq, vv_eq]; norm_num

theorem dd_pos : 0 < dd := by unfold dd; positivity

theorem dd_le : 16 * dd ≤ eta := by
  unfold dd eta
  have e : (16 : ℝ) = 2 ^ (4 : ℤ) := by norm_num
  rw [e, ← zpow_add₀ (by norm_num)]
  exact p2_mono (by norm_num)

theorem rnd_vv (x : ℝ) : |rnd x - x| ≤ vv * |x| + dd := rnd_acc x

/-- a rounded sum of two rounded numbers -/
theorem rnd_two {p q p' q' : ℝ} (h1 : |p' - p| ≤ vv * |p| + dd) (h2 : |q' - q| ≤ vv * |q| + dd) :
    |rnd (p' + q') - (p + q)| ≤ 3 * vv * (|p| + |q|) + 4 * dd ∧ |p' + q'| ≤ 2 * (|p| + |q|) + 1 := by
  have h3 := rnd_vv (p' + q')
  have hv : 0 < vv ∧ vv ≤ 1 / 4 := by rw [vv_eq]; norm_num
  have hd := dd_pos
  have hd1 : dd ≤ 1 / 16 := by
    have := dd_le
    have := eta_le
    norm_num at this
    linarith
  have a1 : |p' + q' - (p + q)| ≤ vv * (|p| + |q|) + 2 * dd := by
    have := abs_add_le (p' - p) (q' - q)
    rw [show p' - p + (q' - q) = p' + q' - (p + q) by ring] at this
    linarith
  have a2 : |p' + q'| ≤ (1 + vv) * (|p| + |q|) + 2 * dd := by
    have := abs_add_le (p' + q' - (p + q)) (p + q)
    rw [sub_add_cancel] at this
    have := abs_add_le p q
    linarith
  have hs : 0 ≤ |p| + |q| := by positivity
  refine ⟨?_, by nlinarith⟩
  have := abs_add_le (rnd (p' + q') - (p' + q')) (p' + q' - (p + q))
  rw [sub_add_sub_cancel] at this
  have m := mul_le_mul_of_nonneg_left a2 hv.1.le
  nlinarith [mul_nonneg hv.1.le hs]

theorem sub_fin (x y : ℝ) : sub (.fin x) (.fin y) = of (x - y) := by
  rw [sub_eq_add_neg]; rfl
theorem add_fin (x y : ℝ) : add (.fin x) (.fin y) = of (x + y) := rfl
theorem mul_fin (x y : ℝ) : mul (.fin x) (.fin y) = of (x * y) := rfl

theorem ieee_mul (x y : ℂ) (hx : ‖x‖ ≤ (2 : ℝ) ^ (45 : ℤ)) (hy : ‖y‖ ≤ (2 : ℝ) ^ (45 : ℤ)) :
    ∃ z, cmul (.ofC x) (.ofC y) = .ofC z ∧ ‖z - x * y‖ ≤ uu * (‖x‖ * ‖y‖) + eta := by
  have hM : ‖x‖ * ‖y‖ ≤ 2 ^ (90 : ℤ) := p2_mul _ hx hy (norm_nonneg _) (by norm_num)
  have c1 := cross_le x.re x.im y.re y.im
  have c2 := cross_le x.re x.im y.im y.re
  rw [← norm_sqrt, ← norm_sqrt] at c1
  rw [add_comm (y.im * y.im), ← norm_sqrt, ← norm_sqrt] at c2
  have hd := dd_pos
  have hde := dd_le
  have hv : 0 < vv := by rw [vv_eq]; norm_num
  set M := ‖x‖ * ‖y‖ with hMd
  have hM0 : 0 ≤ M := by positivity
  have b8 : M ≤ 2 ^ (120 : ℤ) := hM.trans (p2_mono (by norm_num))
  have f1 : |x.re * y.re| ≤ 2 ^ (120 : ℤ) := le_trans (by linarith [abs_nonneg (x.im * y.im)]) b8
  have f2 : |x.im * y.im| ≤ 2 ^ (120 : ℤ) := le_trans (by linarith [abs_nonneg (x.re * y.re)]) b8
  have f3 : |x.re * y.im| ≤ 2 ^ (120 : ℤ) := le_trans (by linarith [abs_nonneg (x.im * y.re)]) b8
  have f4 : |x.im * y.re| ≤ 2 ^ (120 : ℤ) := le_trans (by linarith [abs_nonneg (x.re * y.im)]) b8
  obtain ⟨r1, r2⟩ := rnd_two (rnd_vv (x.re * y.re)) (show |-rnd (x.im * y.im) - -(x.im * y.im)| ≤ vv * |-(x.im * y.im)| + dd by
    rw [abs_neg, neg_sub_neg, abs_sub_comm]; exact rnd_vv _)
  obtain ⟨i1, i2⟩ := rnd_two (rnd_vv (x.re * y.im)) (rnd_vv (x.im * y.re))
  rw [abs_neg] at r1 r2
  have big : ∀ s : ℝ, s ≤ 2 * M + 1 → s ≤ 2 ^ (120 : ℤ) := fun s hs => hs.trans
    (p2_add (a := 91) (b := 0) _ (p2_mul (a := 1) (b := 90) _ (by norm_num) hM hM0 (by norm_num)) (by norm_num) (by norm_num) (by norm_num))
  have f5 : |rnd (x.re * y.re) - rnd (x.im * y.im)| ≤ 2 ^ (120 : ℤ) := by
    rw [← sub_eq_add_neg] at r2
    exact big _ (by linarith)
  have f6 : |rnd (x.re * y.im) + rnd (x.im * y.re)| ≤ 2 ^ (120 : ℤ) := big _ (by linarith)
  refine ⟨⟨rnd (rnd (x.re * y.re) - rnd (x.im * y.im)), rnd (rnd (x.re * y.im) + rnd (x.im * y.re))⟩, ?_, ?_⟩
  · unfold cmul C64.ofC
    simp only [mul_fin]
    rw [of_fin f1, of_fin f2, of_fin f3, of_fin f4, sub_fin, add_fin, of_fin f5, of_fin f6]
  · refine (Complex.norm_le_abs_re_add_abs_im _).trans ?_
    rw [Complex.sub_re, Complex.sub_im, Complex.mul_re, Complex.mul_im]
    rw [← sub_eq_add_neg, ← sub_eq_add_neg] at r1
    have hv2 := mul_nonneg hv.le hM0
    have m1 := mul_le_mul_of_nonneg_left c1 hv.le
    have m2 := mul_le_mul_of_nonneg_left c2 hv.le
    rw [uu_vv]
    nlinarith

theorem ieee_add (x y : ℂ) (hx : ‖x‖ ≤ (2 : ℝ) ^ (110 : ℤ)) (hy : ‖y‖ ≤ (2 : ℝ) ^ (110 : ℤ)) :
    ∃ z, cadd (.ofC x) (.ofC y) = .ofC z ∧ ‖z - (x + y)‖ ≤ uu * ‖x + y‖ + eta := by
  have hn : ‖x + y‖ ≤ 2 ^ (120 : ℤ) := (norm_add_le x y).trans (p2_add _ hx hy (by norm_num) (by norm_num))
  have h1 := Complex.abs_re_le_norm (x + y)
  have h2 := Complex.abs_im_le_norm (x + y)
  have hd := dd_pos
  have hde := dd_le
  have hv : 0 < vv := by rw [vv_eq]; norm_num
  refine ⟨⟨rnd (x.re + y.re), rnd (x.im + y.im)⟩, ?_, ?_⟩
  · unfold cadd C64.ofC
    simp only [add_fin]
    rw [← Complex.add_re, ← Complex.add_im, of_fin (h1.trans hn), of_fin (h2.trans hn)]
  · refine (Complex.norm_le_abs_re_add_abs_im _).trans ?_
    have r1 := rnd_vv (x + y).re
    have r2 := rnd_vv (x + y).im
    rw [Complex.sub_re, Complex.sub_im]
    show |rnd (x + y).re - (x + y).re| + |rnd (x + y).im - (x + y).im| ≤ _
    have m1 := mul_le_mul_of_nonneg_left h1 hv.le
    have m2 := mul_le_mul_of_nonneg_left h2 hv.le
    rw [uu_vv]
    nlinarith [mul_nonneg hv.le (norm_nonneg (x + y))]

theorem ieee_dot (ps : List (ℂ × ℂ)) : ∀ (k : ℕ) (A T : ℝ) (y x : ℂ), k + ps.length ≤ 2 ^ 16 → Nr (k + 1) A T y x → T ≤ k * 2 ^ (91 : ℤ) →
    (∀ p ∈ ps, ‖p.1‖ ≤ (2 : ℝ) ^ (45 : ℤ) ∧ ‖p.2‖ ≤ (2 : ℝ) ^ (45 : ℤ)) →
    ∃ z, (ps.map fun p => (C64.ofC p.1, C64.ofC p.2)).foldl (fun (s : C64) (p : C64 × C64) => cadd s (cmul p.1 p.2)) (C64.ofC y) = .ofC z ∧
      Nr (k + ps.length + 1) (A + (ps.map fun p => ‖p.1‖ * ‖p.2‖).sum) (T + (ps.map fun p => ‖p.1‖ * ‖p.2‖).sum + 2 * ps.length * eta) z
        (x + (ps.map fun p => p.1 * p.2).sum) := by
  induction ps with
  | nil => intro k A T y x _ h _ _; exact ⟨y, rfl, by simpa using h⟩
  | cons p ps ih =>
    intro k A T y x hk h hT hp
    rw [List.length_cons] at hk
    obtain ⟨p1, p2⟩ := hp p (by simp)
    obtain ⟨w, hw, hwe⟩ := ieee_mul p.1 p.2 p1 p2
    have hM : ‖p.1‖ * ‖p.2‖ ≤ 2 ^ (90 : ℤ) := p2_mul _ p1 p2 (norm_nonneg _) (by norm_num)
    have n1 := (Nr.refl (le_refl ‖p.1‖)).mul (Nr.refl (le_refl ‖p.2‖)) hwe
    have he := eta_pos
    have he1 := eta_le
    have hkR : (k : ℝ) ≤ 2 ^ (16 : ℤ) := by
      have : (k : ℝ) ≤ ((2 ^ 16 : ℕ) : ℝ) := by exact_mod_cast (by omega : k ≤ 2 ^ 16)
      refine this.trans (le_of_eq ?_); norm_num
    obtain ⟨v, hv, hve⟩ := ieee_add y w
      (h.norm_le.trans (p2_up _ (by omega) (hT.trans (p2_mul 107 hkR le_rfl (by positivity) (by norm_num))) h.nonneg.2 (by norm_num)))
      (n1.norm_le.trans (p2_up _ (by norm_num) (p2_add (a := 90) (b := 0) 92 hM eta_le (by norm_num) (by norm_num)) n1.nonneg.2 (by norm_num)))
    have n2 := h.add (n1.mono (show 0 + 0 + 1 ≤ k + 1 by omega) le_rfl) hve
    have hT' : T + (‖p.1‖ * ‖p.2‖ + eta) + eta ≤ ((k + 1 : ℕ) : ℝ) * 2 ^ (91 : ℤ) := by
      have a : ‖p.1‖ * ‖p.2‖ + (eta + eta) ≤ 2 ^ (91 : ℤ) :=
        p2_add (a := 90) (b := 1) _ hM (p2_add (a := 0) (b := 0) _ he1 he1 (by norm_num) (by norm_num)) (by norm_num) (by norm_num)
      push_cast
      rw [add_mul, one_mul]
      generalize (2 : ℝ) ^ (91 : ℤ) = P at *
      linarith
    obtain ⟨z, hz, n3⟩ := ih (k + 1) _ _ v _ (by omega) n2 hT' fun q hq => hp q (by simp [hq])
    refine ⟨z, ?_, ?_⟩
    · rw [List.map_cons, List.foldl_cons, hw, hv, hz]
    · simp only [List.map_cons, List.sum_cons, List.length_cons]
      rw [show k + (ps.length + 1) + 1 = k + 1 + ps.length + 1 by ring, ← add_assoc A, ← add_assoc x]
      refine n3.mono le_rfl (le_of_eq ?_)
      push_cast
      ring

/-! ### the constants -/

/-- rounding to single precision of a number that does not underflow -/
theorem rnd_normal {x : ℝ} (h : (2 : ℝ) ^ (-120 : ℤ) ≤ x) : |rnd x - x| ≤ 2 * vv * x := by
  have hx : 0 < x := lt_of_lt_of_le (by positivity) h
  have hd : dd ≤ vv * x := by
    have : dd ≤ vv * 2 ^ (-120 : ℤ) := by
      unfold dd vv
      rw [← zpow_add₀ (by norm_num)]
      exact p2_mono (by norm_num)
    exact this.trans (mul_le_mul_of_nonneg_left h (by rw [vv_eq]; norm_num))
  have := rnd_vv x
  rw [abs_of_pos hx] at this
  linarith

theorem small_le {x : ℝ} (h : 1 / 2 ^ 60 ≤ x) : (2 : ℝ) ^ (-120 : ℤ) ≤ x := by
  refine le_trans (p2_mono (show (-120 : ℤ) ≤ -60 by norm_num)) (le_trans (le_of_eq ?_) h)
  rw [show (-60 : ℤ) = -((60 : ℕ) : ℤ) by norm_num, zpow_neg, zpow_natCast, one_div]

/-- the quotient of a constant computed in double precision and an odd number, in single precision -/
theorem quot {c c' t : ℝ} (hc : 1 ≤ c) (hc' : c ≤ 100) (h : |c' - c| ≤ 1 / 2 ^ 40 * c) (ht : 1 ≤ t) (ht' : t ≤ 2 ^ 24) :
    div (cast (.fin c')) (.fin t) = .fin (rnd (rnd c' / t)) ∧ |rnd (rnd c' / t) - c / t| ≤ 5 * vv * (c / t) := by
  obtain ⟨a1, a2⟩ := abs_le.1 h
  have b1 : |c'| ≤ 4 * 2 ^ 24 := by rw [abs_le]; norm_num at *; constructor <;> linarith
  have r1 := rnd_normal (x := c') (small_le (by norm_num at *; linarith))
  have hv := vv_eq
  obtain ⟨d1, d2⟩ := abs_le.1 r1
  have e1 : |rnd c' - c| ≤ (2 * vv + 1 / 2 ^ 39) * c := by
    rw [hv] at *
    rw [abs_le]
    norm_num at *
    constructor <;> nlinarith
  have e2 : |rnd c' / t - c / t| ≤ (2 * vv + 1 / 2 ^ 39) * (c / t) := by
    rw [← sub_div, abs_div, abs_of_pos (by linarith : 0 < t), ← mul_div_assoc]
    exact div_le_div_of_nonneg_right e1 (by linarith)
  have q0 : 1 / 2 ^ 24 ≤ c / t := by rw [div_le_div_iff₀ (by norm_num) (by linarith)]; linarith
  have q1 : c / t ≤ 100 := by rw [div_le_iff₀ (by linarith)]; nlinarith
  have hdiv : div (.fin (rnd c')) (.fin t) = of (rnd c' / t) := by
    show (if t = 0 then _ else _) = _
    rw [if_neg (by linarith)]
  generalize c / t = q at *
  obtain ⟨g1, g2⟩ := abs_le.1 e2
  rw [hv] at *
  have r2 := rnd_normal (x := rnd c' / t) (small_le (by norm_num at *; linarith))
  rw [vv_eq] at r2
  obtain ⟨k1, k2⟩ := abs_le.1 r2
  refine ⟨?_, ?_⟩
  · show div (of c') _ = _
    rw [of_fin' b1, hdiv, of_fin' (by rw [abs_le]; norm_num at *; constructor <;> linarith)]
  · generalize rnd (rnd c' / t) = w at *
    generalize rnd c' / t = y at *
    rw [abs_le]
    norm_num at *
    constructor <;> linarith

theorem odd_of {l : ℤ} (hl0 : 0 ≤ l) (hl1 : l < 2 ^ 23) : of ((2 * l + 1 : ℤ) : ℝ) = .fin ((2 * l + 1 : ℤ) : ℝ) ∧ (1 : ℝ) ≤ ((2 * l + 1 : ℤ) : ℝ) ∧
    ((2 * l + 1 : ℤ) : ℝ) ≤ 2 ^ 24 := by
  refine ⟨ofInt_eq (by rw [abs_of_nonneg (by omega)]; omega), ?_, ?_⟩
  · exact_mod_cast (by omega : 1 ≤ 2 * l + 1)
  · exact_mod_cast (by omega : 2 * l + 1 ≤ 2 ^ 24)

theorem ieee_c8 {l : ℤ} (hl0 : 0 ≤ l) (hl1 : l < 2 ^ 23) :
    ∃ c, ieee.c8 l = .fin c ∧ |c - 8 * Real.pi ^ 2 / (2 * l + 1)| ≤ 2 * uu * (8 * Real.pi ^ 2 / (2 * l + 1)) := by
  have h3 := Real.pi_gt_three
  have h4 := Real.pi_lt_d2
  have bp := piR_rl.bounds (by norm_num)
  have b2 : 1 ≤ piR ^ 2 ∧ piR ^ 2 ≤ 100 := ⟨by nlinarith, by nlinarith⟩
  have r2 : Rl 3 (S2wav.rnd (piR ^ 2)) (Real.pi ^ 2) := (Rl.rnd ((by norm_num : (1 : ℝ) / 2 ^ 40 ≤ 1).trans b2.1)).trans piR_rl.sq
  have b3 := r2.bounds (by norm_num)
  have hp2 : 9 ≤ Real.pi ^ 2 ∧ Real.pi ^ 2 ≤ 10 := ⟨by nlinarith, by nlinarith⟩
  have r3 : Rl 4 (S2wav.rnd (8 * S2wav.rnd (piR ^ 2))) (8 * Real.pi ^ 2) := by
    have a := (Rl.refl (x := 8) (by norm_num)).mul r2
    exact ((Rl.rnd (x := 8 * S2wav.rnd (piR ^ 2)) (by norm_num at *; linarith)).trans a).mono (by norm_num)
  have b4 := r3.bounds (by norm_num)
  have ho : ((2 * l + 1 : ℤ) : ℝ) = 2 * l + 1 := by push_cast; ring
  obtain ⟨hi, t0, t1⟩ := odd_of hl0 hl1
  have hcon : (F64.fin 8).mul (pi64.mul pi64) = .fin (S2wav.rnd (8 * S2wav.rnd (piR ^ 2))) := by
    rw [pi64_eq, F64.mul_fin, ← sq, F64.of_fin' (by rw [abs_of_nonneg (by linarith)]; norm_num at *; linarith), F64.mul_fin,
      F64.of_fin' (by rw [abs_of_nonneg (by linarith)]; norm_num at *; linarith)]
  have herr : |S2wav.rnd (8 * S2wav.rnd (piR ^ 2)) - 8 * Real.pi ^ 2| ≤ 1 / 2 ^ 40 * (8 * Real.pi ^ 2) := by
    have u := r3.2.2
    have d := r3.2.1
    have e1 : (1 + 1 / 2 ^ 52 : ℝ) ^ 4 ≤ 1 + 1 / 2 ^ 40 := by norm_num
    have e2 : (1 - 1 / 2 ^ 40 : ℝ) ≤ (1 - 1 / 2 ^ 52) ^ 4 := by norm_num
    generalize 8 * Real.pi ^ 2 = c at *
    have hc := r3.1
    have m1 := mul_le_mul_of_nonneg_left e1 hc.le
    have m2 := mul_le_mul_of_nonneg_left e2 hc.le
    rw [abs_le]
    constructor <;> linarith
  obtain ⟨q1, q2⟩ := quot (by linarith) (by linarith) herr t0 t1
  refine ⟨_, by show div (cast _) (of _) = _; rw [hi, hcon]; exact q1, ?_⟩
  rw [← ho]
  refine q2.trans ?_
  have : 0 < 8 * Real.pi ^ 2 / ((2 * l + 1 : ℤ) : ℝ) := by positivity
  rw [uu_vv, vv_eq]
  exact mul_le_mul_of_nonneg_right (by norm_num) this.le

theorem ieee_c4 {l : ℤ} (hl0 : 0 ≤ l) (hl1 : l < 2 ^ 23) :
    ∃ c, ieee.c4 l = .fin c ∧ |c - Real.sqrt (4 * Real.pi / (2 * l + 1))| ≤ uu * Real.sqrt (4 * Real.pi / (2 * l + 1)) := by
  have h3 := Real.pi_gt_three
  have h4 := Real.pi_lt_d2
  have bp := piR_rl.bounds (by norm_num)
  have r3 : Rl 2 (S2wav.rnd (4 * piR)) (4 * Real.pi) := by
    have a := (Rl.refl (x := 4) (by norm_num)).mul piR_rl
    exact ((Rl.rnd (x := 4 * piR) (by norm_num at *; linarith)).trans a).mono (by norm_num)
  have ho : ((2 * l + 1 : ℤ) : ℝ) = 2 * l + 1 := by push_cast; ring
  obtain ⟨hi, t0, t1⟩ := odd_of hl0 hl1
  have hcon : (F64.fin 4).mul pi64 = .fin (S2wav.rnd (4 * piR)) := by
    rw [pi64_eq, F64.mul_fin, F64.of_fin' (by rw [abs_of_nonneg (by linarith)]; norm_num at *; linarith)]
  have herr : |S2wav.rnd (4 * piR) - 4 * Real.pi| ≤ 1 / 2 ^ 40 * (4 * Real.pi) := by
    have u := r3.2.2
    have d := r3.2.1
    have e1 : (1 + 1 / 2 ^ 52 : ℝ) ^ 2 ≤ 1 + 1 / 2 ^ 40 := by norm_num
    have e2 : (1 - 1 / 2 ^ 40 : ℝ) ≤ (1 - 1 / 2 ^ 52) ^ 2 := by norm_num
    generalize 4 * Real.pi = c at *
    have hc := r3.1
    have m1 := mul_le_mul_of_nonneg_left e1 hc.le
    have m2 := mul_le_mul_of_nonneg_left e2 hc.le
    rw [abs_le]
    constructor <;> linarith
  obtain ⟨q1, q2⟩ := quot (by linarith) (by linarith) herr t0 t1
  have hval : ieee.c4 l = sqrt (.fin (rnd (rnd (S2wav.rnd (4 * piR)) / ((2 * l + 1 : ℤ) : ℝ)))) := by
    show sqrt (div (cast _) (of _)) = _
    rw [hi, hcon, q1]
  rw [hval, ← ho]
  have lo : 1 / 2 ^ 22 ≤ 4 * Real.pi / ((2 * l + 1 : ℤ) : ℝ) := by
    rw [div_le_div_iff₀ (by norm_num) (by linarith)]; norm_num at *; linarith
  have hi8 : 4 * Real.pi / ((2 * l + 1 : ℤ) : ℝ) ≤ 40 := by rw [div_le_iff₀ (by linarith)]; nlinarith
  generalize rnd (rnd (S2wav.rnd (4 * piR)) / ((2 * l + 1 : ℤ) : ℝ)) = w at *
  generalize 4 * Real.pi / ((2 * l + 1 : ℤ) : ℝ) = c at *
  have hv := vv_eq
  obtain ⟨g1, g2⟩ := abs_le.1 q2
  rw [hv] at g1 g2
  have hw0 : 1 / 2 ^ 23 ≤ w := by norm_num at *; linarith
  have hw1 : w ≤ 100 := by norm_num at *; linarith
  have hc0 : 0 < c := lt_of_lt_of_le (by norm_num) lo
  have s0 : 0 < Real.sqrt c := Real.sqrt_pos.2 hc0
  -- square root of the rounded quotient
  have s1 : |Real.sqrt w - Real.sqrt c| ≤ 5 / 2 ^ 24 * Real.sqrt c := by
    have e : (Real.sqrt w - Real.sqrt c) * (Real.sqrt w + Real.sqrt c) = w - c := by
      have a := Real.mul_self_sqrt (show 0 ≤ w by linarith [show (0 : ℝ) < 1 / 2 ^ 23 by norm_num])
      have b := Real.mul_self_sqrt hc0.le
      ring_nf
      rw [← sq] at a b
      linarith
    have p : 0 < Real.sqrt w + Real.sqrt c := by have := Real.sqrt_nonneg w; linarith
    have e' : |Real.sqrt w - Real.sqrt c| * (Real.sqrt w + Real.sqrt c) = |w - c| := by
      rw [← e, abs_mul, abs_of_pos p]
    have : |Real.sqrt w - Real.sqrt c| * Real.sqrt c ≤ 5 / 2 ^ 24 * Real.sqrt c * Real.sqrt c := by
      have a : |Real.sqrt w - Real.sqrt c| * Real.sqrt c ≤ |w - c| := by
        rw [← e']; exact mul_le_mul_of_nonneg_left (by linarith [Real.sqrt_nonneg w]) (abs_nonneg _)
      have b : |w - c| ≤ 5 / 2 ^ 24 * c := by rw [hv] at q2; refine q2.trans (le_of_eq ?_); ring
      rw [mul_assoc, Real.mul_self_sqrt hc0.le]
      linarith
    exact le_of_mul_le_mul_right this s0
  have hs0 : 1 / 2 ^ 23 ≤ Real.sqrt w := by
    refine Real.le_sqrt_of_sq_le ?_
    norm_num at *; linarith
  have hs1 : Real.sqrt w ≤ 100 := by
    rw [Real.sqrt_le_left (by norm_num)]; norm_num; linarith
  have r2 := rnd_normal (x := Real.sqrt w) (small_le (by norm_num at *; linarith))
  refine ⟨rnd (Real.sqrt w), ?_, ?_⟩
  · show (if w < 0 then F64.nan else of (Real.sqrt w)) = _
    rw [if_neg (by norm_num at *; linarith), of_fin' (by rw [abs_of_nonneg (Real.sqrt_nonneg _)]; norm_num at *; linarith)]
  · generalize rnd (Real.sqrt w) = y at *
    generalize Real.sqrt w = v at *
    generalize Real.sqrt c = b at *
    rw [hv] at r2
    obtain ⟨k1, k2⟩ := abs_le.1 r2
    obtain ⟨k3, k4⟩ := abs_le.1 s1
    rw [uu_vv, hv, abs_le]
    norm_num at *
    constructor <;> linarith

/-- single precision without reordering is accurate -/
theorem ieee_good : Good ieee where
  conj _ := rfl
  ofReal _ := rfl
  mul := ieee_mul
  add := ieee_add
  dot ps hl hp := by
    obtain ⟨z, hz, n⟩ := ieee_dot ps 0 0 0 0 0 (by omega) ((Nr.refl (x := 0) (A := 0) (by simp)).mono (Nat.zero_le _) le_rfl) (by simp) hp
    refine ⟨z, hz, ?_⟩
    have := n.2.2
    simp only [zero_add] at this
    exact this
  rmul x y hx hy := by
    have hd := dd_pos
    have hde := dd_le
    have hv : 0 < vv := by rw [vv_eq]; norm_num
    have h := rnd_vv (x * y)
    refine ⟨rnd (x * y), of_fin ?_, ?_⟩
    · rw [abs_mul]; exact p2_mul _ hx hy (abs_nonneg _) (by norm_num)
    · rw [uu_vv, ← abs_mul]
      nlinarith [mul_nonneg hv.le (abs_nonneg (x * y))]
  c8 _ h0 h1 := ieee_c8 h0 h1
  c4 _ h0 h1 := ieee_c4 h0 h1

end S2wav.Single
