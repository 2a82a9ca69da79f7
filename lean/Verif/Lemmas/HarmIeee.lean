import Verif.Lemmas.HarmDouble
import Verif.Lemmas.FloatDirectional

/-! # Plain double precision arithmetic is accurate in the sense of `Ops.Good` -/

namespace S2wav
open Classical

/-- unit of rounding -/
noncomputable def vv : ℝ := (2 : ℝ) ^ (-53 : ℤ)
/-- least error of rounding -/
noncomputable def dd : ℝ := (2 : ℝ) ^ (-1075 : ℤ)

theorem vv_eq : vv = 1 / 2 ^ 53 := by
  unfold vv
  rw [show (-53 : ℤ) = -((53 : ℕ) : ℤ) by norm_num, zpow_neg, zpow_natCast, one_div]

theorem uu_vv : uu = 8 * vv := by rw [uu_eq, vv_eq]; norm_num

theorem dd_pos : 0 < dd := by unfold dd; positivity

theorem dd_le : 16 * dd ≤ eta := by
  unfold dd eta
  have e : (16 : ℝ) = 2 ^ (4 : ℤ) := by norm_num
  rw [e, ← zpow_add₀ (by norm_num)]
  exact p2_mono (by norm_num)

theorem rnd_vv (x : ℝ) : |rnd x - x| ≤ vv * |x| + dd := rnd_acc x

/-- a rounded sum of two rounded numbers -/
theorem rnd_two {p q p' q' : ℝ} (h1 : |p' - p| ≤ vv * |p| + dd) (h2 : |q' - q| ≤ vv * |q| + dd) :
    |rnd (p' + q') - (p + q)| ≤ 3 * vv * (|p| + |q|) + 4 * dd ∧ |p' + q'| ≤ 2 * (|p| + |q|) + 1 := by
  have h3 := rnd_vv (p' + q')
  have hv : 0 < vv ∧ vv ≤ 1 / 4 := by rw [vv_eq]; norm_num
  have hd := dd_pos
  have hd1 : dd ≤ 1 / 16 := by
    have := dd_le
    have := eta_le
    norm_num at this
    linarith
  have a1 : |p' + q' - (p + q)| ≤ vv * (|p| + |q|) + 2 * dd := by
    have := abs_add_le (p' - p) (q' - q)
    rw [show p' - p + (q' - q) = p' + q' - (p + q) by ring] at this
    linarith
  have a2 : |p' + q'| ≤ (1 + vv) * (|p| + |q|) + 2 * dd := by
    have := abs_add_le (p' + q' - (p + q)) (p + q)
    rw [sub_add_cancel] at this
    have := abs_add_le p q
    linarith
  have hs : 0 ≤ |p| + |q| := by positivity
  refine ⟨?_, by nlinarith⟩
  have := abs_add_le (rnd (p' + q') - (p' + q')) (p' + q' - (p + q))
  rw [sub_add_sub_cancel] at this
  have m := mul_le_mul_of_nonneg_left a2 hv.1.le
  nlinarith [mul_nonneg hv.1.le hs]

theorem cross_le (a b c d : ℝ) : |a * c| + |b * d| ≤ Real.sqrt (a * a + b * b) * Real.sqrt (c * c + d * d) := by
  rw [← Real.sqrt_mul (by nlinarith [sq_nonneg a, sq_nonneg b])]
  refine Real.le_sqrt_of_sq_le ?_
  rw [abs_mul, abs_mul]
  nlinarith [sq_nonneg (|a| * |d| - |b| * |c|), sq_abs a, sq_abs b, sq_abs c, sq_abs d]

theorem norm_sqrt (z : ℂ) : ‖z‖ = Real.sqrt (z.re * z.re + z.im * z.im) := by
  rw [Complex.norm_def, Complex.normSq_apply]

theorem F64.sub_fin' (x y : ℝ) : (F64.fin x).sub (.fin y) = .of (x - y) := by
  rw [sub_eq_add_neg]; rfl

theorem ieee_mul (x y : ℂ) (hx : ‖x‖ ≤ (2 : ℝ) ^ (400 : ℤ)) (hy : ‖y‖ ≤ (2 : ℝ) ^ (400 : ℤ)) :
    ∃ z, C64.mul (.ofC x) (.ofC y) = .ofC z ∧ ‖z - x * y‖ ≤ uu * (‖x‖ * ‖y‖) + eta := by
  have hM : ‖x‖ * ‖y‖ ≤ 2 ^ (800 : ℤ) := p2_mul _ hx hy (norm_nonneg _) (by norm_num)
  have c1 := cross_le x.re x.im y.re y.im
  have c2 := cross_le x.re x.im y.im y.re
  rw [← norm_sqrt, ← norm_sqrt] at c1
  rw [add_comm (y.im * y.im), ← norm_sqrt, ← norm_sqrt] at c2
  have hd := dd_pos
  have hde := dd_le
  have hv : 0 < vv := by rw [vv_eq]; norm_num
  set M := ‖x‖ * ‖y‖ with hMd
  have hM0 : 0 ≤ M := by positivity
  have b8 : M ≤ 2 ^ (1000 : ℤ) := hM.trans (p2_mono (by norm_num))
  have f1 : |x.re * y.re| ≤ 2 ^ (1000 : ℤ) := le_trans (by linarith [abs_nonneg (x.im * y.im)]) b8
  have f2 : |x.im * y.im| ≤ 2 ^ (1000 : ℤ) := le_trans (by linarith [abs_nonneg (x.re * y.re)]) b8
  have f3 : |x.re * y.im| ≤ 2 ^ (1000 : ℤ) := le_trans (by linarith [abs_nonneg (x.im * y.re)]) b8
  have f4 : |x.im * y.re| ≤ 2 ^ (1000 : ℤ) := le_trans (by linarith [abs_nonneg (x.re * y.im)]) b8
  obtain ⟨r1, r2⟩ := rnd_two (rnd_vv (x.re * y.re)) (show |-rnd (x.im * y.im) - -(x.im * y.im)| ≤ vv * |-(x.im * y.im)| + dd by
    rw [abs_neg, neg_sub_neg, abs_sub_comm]; exact rnd_vv _)
  obtain ⟨i1, i2⟩ := rnd_two (rnd_vv (x.re * y.im)) (rnd_vv (x.im * y.re))
  rw [abs_neg] at r1 r2
  have big : ∀ s : ℝ, s ≤ 2 * M + 1 → s ≤ 2 ^ (1000 : ℤ) := fun s hs => hs.trans
    (p2_add (a := 801) (b := 0) _ (p2_mul (a := 1) (b := 800) _ (by norm_num) hM hM0 (by norm_num)) (by norm_num) (by norm_num) (by norm_num))
  have f5 : |rnd (x.re * y.re) - rnd (x.im * y.im)| ≤ 2 ^ (1000 : ℤ) := by
    rw [← sub_eq_add_neg] at r2
    exact big _ (by linarith)
  have f6 : |rnd (x.re * y.im) + rnd (x.im * y.re)| ≤ 2 ^ (1000 : ℤ) := big _ (by linarith)
  refine ⟨⟨rnd (rnd (x.re * y.re) - rnd (x.im * y.im)), rnd (rnd (x.re * y.im) + rnd (x.im * y.re))⟩, ?_, ?_⟩
  · unfold C64.mul C64.ofC
    simp only [F64.mul_fin]
    rw [F64.of_fin f1, F64.of_fin f2, F64.of_fin f3, F64.of_fin f4, F64.sub_fin', F64.add_fin, F64.of_fin f5, F64.of_fin f6]
  · refine (Complex.norm_le_abs_re_add_abs_im _).trans ?_
    rw [Complex.sub_re, Complex.sub_im, Complex.mul_re, Complex.mul_im]
    rw [← sub_eq_add_neg, ← sub_eq_add_neg] at r1
    have hv2 := mul_nonneg hv.le hM0
    have m1 := mul_le_mul_of_nonneg_left c1 hv.le
    have m2 := mul_le_mul_of_nonneg_left c2 hv.le
    rw [uu_vv]
    nlinarith

theorem ieee_add (x y : ℂ) (hx : ‖x‖ ≤ (2 : ℝ) ^ (900 : ℤ)) (hy : ‖y‖ ≤ (2 : ℝ) ^ (900 : ℤ)) :
    ∃ z, C64.add (.ofC x) (.ofC y) = .ofC z ∧ ‖z - (x + y)‖ ≤ uu * ‖x + y‖ + eta := by
  have hn : ‖x + y‖ ≤ 2 ^ (1000 : ℤ) := (norm_add_le x y).trans (p2_add _ hx hy (by norm_num) (by norm_num))
  have h1 := Complex.abs_re_le_norm (x + y)
  have h2 := Complex.abs_im_le_norm (x + y)
  have hd := dd_pos
  have hde := dd_le
  have hv : 0 < vv := by rw [vv_eq]; norm_num
  refine ⟨⟨rnd (x.re + y.re), rnd (x.im + y.im)⟩, ?_, ?_⟩
  · unfold C64.add C64.ofC
    simp only [F64.add_fin]
    rw [← Complex.add_re, ← Complex.add_im, F64.of_fin (h1.trans hn), F64.of_fin (h2.trans hn)]
  · refine (Complex.norm_le_abs_re_add_abs_im _).trans ?_
    have r1 := rnd_vv (x + y).re
    have r2 := rnd_vv (x + y).im
    rw [Complex.sub_re, Complex.sub_im]
    show |rnd (x + y).re - (x + y).re| + |rnd (x + y).im - (x + y).im| ≤ _
    have m1 := mul_le_mul_of_nonneg_left h1 hv.le
    have m2 := mul_le_mul_of_nonneg_left h2 hv.le
    rw [uu_vv]
    nlinarith [mul_nonneg hv.le (norm_nonneg (x + y))]

theorem ieee_dot (ps : List (ℂ × ℂ)) : ∀ (k : ℕ) (A T : ℝ) (y x : ℂ), k + ps.length ≤ 2 ^ 20 → Nr (k + 1) A T y x → T ≤ k * 2 ^ (801 : ℤ) →
    (∀ p ∈ ps, ‖p.1‖ ≤ (2 : ℝ) ^ (400 : ℤ) ∧ ‖p.2‖ ≤ (2 : ℝ) ^ (400 : ℤ)) →
    ∃ z, (ps.map fun p => (C64.ofC p.1, C64.ofC p.2)).foldl (fun (s : C64) (p : C64 × C64) => s.add (p.1.mul p.2)) (C64.ofC y) = .ofC z ∧
      Nr (k + ps.length + 1) (A + (ps.map fun p => ‖p.1‖ * ‖p.2‖).sum) (T + (ps.map fun p => ‖p.1‖ * ‖p.2‖).sum + 2 * ps.length * eta) z
        (x + (ps.map fun p => p.1 * p.2).sum) := by
  induction ps with
  | nil => intro k A T y x _ h _ _; exact ⟨y, rfl, by simpa using h⟩
  | cons p ps ih =>
    intro k A T y x hk h hT hp
    rw [List.length_cons] at hk
    obtain ⟨p1, p2⟩ := hp p (by simp)
    obtain ⟨w, hw, hwe⟩ := ieee_mul p.1 p.2 p1 p2
    have hM : ‖p.1‖ * ‖p.2‖ ≤ 2 ^ (800 : ℤ) := p2_mul _ p1 p2 (norm_nonneg _) (by norm_num)
    have n1 := (Nr.refl (le_refl ‖p.1‖)).mul (Nr.refl (le_refl ‖p.2‖)) hwe
    have he := eta_pos
    have he1 := eta_le
    have hkR : (k : ℝ) ≤ 2 ^ (20 : ℤ) := by
      have : (k : ℝ) ≤ ((2 ^ 20 : ℕ) : ℝ) := by exact_mod_cast (by omega : k ≤ 2 ^ 20)
      refine this.trans (le_of_eq ?_); norm_num
    obtain ⟨v, hv, hve⟩ := ieee_add y w
      (h.norm_le.trans (p2_up _ (by omega) (hT.trans (p2_mul 821 hkR le_rfl (by positivity) (by norm_num))) h.nonneg.2 (by norm_num)))
      (n1.norm_le.trans (p2_up _ (by norm_num) (p2_add (a := 800) (b := 0) 802 hM eta_le (by norm_num) (by norm_num)) n1.nonneg.2 (by norm_num)))
    have n2 := h.add (n1.mono (show 0 + 0 + 1 ≤ k + 1 by omega) le_rfl) hve
    have hT' : T + (‖p.1‖ * ‖p.2‖ + eta) + eta ≤ ((k + 1 : ℕ) : ℝ) * 2 ^ (801 : ℤ) := by
      have a : ‖p.1‖ * ‖p.2‖ + (eta + eta) ≤ 2 ^ (801 : ℤ) :=
        p2_add (a := 800) (b := 1) _ hM (p2_add (a := 0) (b := 0) _ he1 he1 (by norm_num) (by norm_num)) (by norm_num) (by norm_num)
      push_cast
      rw [add_mul, one_mul]
      generalize (2 : ℝ) ^ (801 : ℤ) = P at *
      linarith
    obtain ⟨z, hz, n3⟩ := ih (k + 1) _ _ v _ (by omega) n2 hT' fun q hq => hp q (by simp [hq])
    refine ⟨z, ?_, ?_⟩
    · rw [List.map_cons, List.foldl_cons, hw, hv, hz]
    · simp only [List.map_cons, List.sum_cons, List.length_cons]
      rw [show k + (ps.length + 1) + 1 = k + 1 + ps.length + 1 by ring, ← add_assoc A, ← add_assoc x]
      refine n3.mono le_rfl (le_of_eq ?_)
      push_cast
      ring

/-! ### the constants -/

theorem Rl.rnd' {x : ℝ} (h : (2 : ℝ) ^ (-1000 : ℤ) ≤ x) : Rl 1 (S2wav.rnd x) x := by
  have hx : 0 < x := lt_of_lt_of_le (by positivity) h
  have hd : dd ≤ vv * x := by
    have : dd ≤ vv * 2 ^ (-1000 : ℤ) := by
      unfold dd vv
      rw [← zpow_add₀ (by norm_num)]
      exact p2_mono (by norm_num)
    exact this.trans (mul_le_mul_of_nonneg_left h (by rw [vv_eq]; norm_num))
  have := abs_le.1 (rnd_vv x)
  rw [abs_of_pos hx] at this
  rw [vv_eq] at *
  refine ⟨hx, ?_, ?_⟩ <;> rw [pow_one] <;> norm_num at * <;> linarith

theorem Rl.sqrt' {k : ℕ} {x y : ℝ} (h : Rl (2 * k) x y) : Rl k (Real.sqrt x) (Real.sqrt y) := by
  have hy := h.1
  refine ⟨Real.sqrt_pos.2 hy, ?_, ?_⟩
  · refine Real.le_sqrt_of_sq_le ?_
    rw [mul_pow, Real.sq_sqrt hy.le, ← pow_mul, mul_comm k]
    exact h.2.1
  · refine Real.sqrt_le_iff.2 ⟨mul_nonneg (Real.sqrt_nonneg _) (Rl.hi_pos k).le, ?_⟩
    rw [mul_pow, Real.sq_sqrt hy.le, ← pow_mul, mul_comm k]
    exact h.2.2

theorem small_le {x : ℝ} (h : 1 / 2 ^ 60 ≤ x) : (2 : ℝ) ^ (-1000 : ℤ) ≤ x := by
  refine le_trans (p2_mono (show (-1000 : ℤ) ≤ -60 by norm_num)) (le_trans (le_of_eq ?_) h)
  rw [show (-60 : ℤ) = -((60 : ℕ) : ℤ) by norm_num, zpow_neg, zpow_natCast, one_div]

theorem ieee_c8 {l : ℤ} (hl0 : 0 ≤ l) (hl1 : l < 2 ^ 52) :
    ∃ c, ((F64.fin 8).mul (pi64.mul pi64)).div (.ofInt (2 * l + 1)) = .fin c ∧
      |c - 8 * Real.pi ^ 2 / (2 * l + 1)| ≤ 2 * uu * (8 * Real.pi ^ 2 / (2 * l + 1)) := by
  have h3 := Real.pi_gt_three
  have h4 := Real.pi_lt_d2
  have bp := piR_rl.bounds (by norm_num)
  have b2 : 1 ≤ piR ^ 2 ∧ piR ^ 2 ≤ 100 := ⟨by nlinarith, by nlinarith⟩
  have r2 : Rl 3 (rnd (piR ^ 2)) (Real.pi ^ 2) := (Rl.rnd ((by norm_num : (1 : ℝ) / 2 ^ 40 ≤ 1).trans b2.1)).trans piR_rl.sq
  have b3 := r2.bounds (by norm_num)
  have hp2 : 9 ≤ Real.pi ^ 2 ∧ Real.pi ^ 2 ≤ 10 := ⟨by nlinarith, by nlinarith⟩
  have r3 : Rl 4 (rnd (8 * rnd (piR ^ 2))) (8 * Real.pi ^ 2) := by
    have a := (Rl.refl (x := 8) (by norm_num)).mul r2
    exact ((Rl.rnd (x := 8 * rnd (piR ^ 2)) (by norm_num at *; linarith)).trans a).mono (by norm_num)
  have b4 := r3.bounds (by norm_num)
  have ho : ((2 * l + 1 : ℤ) : ℝ) = 2 * l + 1 := by push_cast; ring
  obtain ⟨t0, t1⟩ := odd_bounds (l := l) hl0 (by omega)
  have hi : F64.ofInt (2 * l + 1) = .fin ((2 * l + 1 : ℤ) : ℝ) := F64.ofInt_eq (by rw [abs_of_nonneg (by omega)]; omega)
  rw [← ho]
  generalize ((2 * l + 1 : ℤ) : ℝ) = t at *
  have r4 : Rl 4 (rnd (8 * rnd (piR ^ 2)) / t) (8 * Real.pi ^ 2 / t) := (r3.div (Rl.refl (x := t) (by linarith))).mono (by norm_num)
  have b5 := r4.bounds (by norm_num)
  have lo : 1 / 2 ^ 54 ≤ 8 * Real.pi ^ 2 / t := by
    rw [div_le_div_iff₀ (by norm_num) (by linarith)]; nlinarith
  have hi8 : 8 * Real.pi ^ 2 / t ≤ 80 := by rw [div_le_iff₀ (by linarith)]; nlinarith
  have r5 : Rl 5 (rnd (rnd (8 * rnd (piR ^ 2)) / t)) (8 * Real.pi ^ 2 / t) :=
    ((Rl.rnd' (small_le (by norm_num at *; linarith))).trans r4).mono (by norm_num)
  refine ⟨rnd (rnd (8 * rnd (piR ^ 2)) / t), ?_, ?_⟩
  · rw [hi, pi64_eq, F64.mul_fin, ← sq, F64.of_fin' (by rw [abs_of_nonneg (by linarith)]; norm_num at *; linarith), F64.mul_fin,
      F64.of_fin' (by rw [abs_of_nonneg (by linarith)]; norm_num at *; linarith), F64.div_fin (by linarith),
      F64.of_fin' (by rw [abs_of_nonneg (by linarith)]; norm_num at *; linarith)]
  · have u := r5.2.2
    have d := r5.2.1
    generalize 8 * Real.pi ^ 2 / t = c at *
    have hc := r5.1
    have e1 : (1 + 1 / 2 ^ 52 : ℝ) ^ 5 ≤ 1 + 1 / 2 ^ 49 := by norm_num
    have e2 : (1 - 1 / 2 ^ 49 : ℝ) ≤ (1 - 1 / 2 ^ 52) ^ 5 := by norm_num
    have m1 := mul_le_mul_of_nonneg_left e1 hc.le
    have m2 := mul_le_mul_of_nonneg_left e2 hc.le
    rw [uu_eq, abs_le]
    constructor <;> linarith

theorem ieee_c4 {l : ℤ} (hl0 : 0 ≤ l) (hl1 : l < 2 ^ 52) :
    ∃ c, (((F64.fin 4).mul pi64).div (.ofInt (2 * l + 1))).sqrt = .fin c ∧
      |c - Real.sqrt (4 * Real.pi / (2 * l + 1))| ≤ uu * Real.sqrt (4 * Real.pi / (2 * l + 1)) := by
  have h3 := Real.pi_gt_three
  have h4 := Real.pi_lt_d2
  have bp := piR_rl.bounds (by norm_num)
  have r3 : Rl 2 (rnd (4 * piR)) (4 * Real.pi) := by
    have a := (Rl.refl (x := 4) (by norm_num)).mul piR_rl
    exact ((Rl.rnd (x := 4 * piR) (by norm_num at *; linarith)).trans a).mono (by norm_num)
  have b4 := r3.bounds (by norm_num)
  have ho : ((2 * l + 1 : ℤ) : ℝ) = 2 * l + 1 := by push_cast; ring
  obtain ⟨t0, t1⟩ := odd_bounds (l := l) hl0 (by omega)
  have hi : F64.ofInt (2 * l + 1) = .fin ((2 * l + 1 : ℤ) : ℝ) := F64.ofInt_eq (by rw [abs_of_nonneg (by omega)]; omega)
  rw [← ho]
  generalize ((2 * l + 1 : ℤ) : ℝ) = t at *
  have r4 : Rl 2 (rnd (4 * piR) / t) (4 * Real.pi / t) := (r3.div (Rl.refl (x := t) (by linarith))).mono (by norm_num)
  have b5 := r4.bounds (by norm_num)
  have lo : 1 / 2 ^ 54 ≤ 4 * Real.pi / t := by
    rw [div_le_div_iff₀ (by norm_num) (by linarith)]; nlinarith
  have hi8 : 4 * Real.pi / t ≤ 40 := by rw [div_le_iff₀ (by linarith)]; nlinarith
  have r5 : Rl 3 (rnd (rnd (4 * piR) / t)) (4 * Real.pi / t) :=
    ((Rl.rnd' (small_le (by norm_num at *; linarith))).trans r4).mono (by norm_num)
  have b6 := r5.bounds (by norm_num)
  have r6 := Rl.sqrt' (k := 2) (r5.mono (by norm_num))
  have r7 : Rl 3 (rnd (Real.sqrt (rnd (rnd (4 * piR) / t)))) (Real.sqrt (4 * Real.pi / t)) := by
    refine ((Rl.rnd' (small_le ?_)).trans r6).mono (by norm_num)
    refine Real.le_sqrt_of_sq_le ?_
    norm_num at *; linarith
  refine ⟨rnd (Real.sqrt (rnd (rnd (4 * piR) / t))), ?_, ?_⟩
  · rw [hi, pi64_eq, F64.mul_fin,
      F64.of_fin' (by rw [abs_of_nonneg (by linarith)]; norm_num at *; linarith), F64.div_fin (by linarith),
      F64.of_fin' (by rw [abs_of_nonneg (by linarith)]; norm_num at *; linarith),
      sqrt64' (by linarith) (by norm_num at *; linarith)]
  · have u := r7.2.2
    have d := r7.2.1
    generalize Real.sqrt (4 * Real.pi / t) = c at *
    have hc := r7.1
    have e1 : (1 + 1 / 2 ^ 52 : ℝ) ^ 3 ≤ 1 + 1 / 2 ^ 50 := by norm_num
    have e2 : (1 - 1 / 2 ^ 50 : ℝ) ≤ (1 - 1 / 2 ^ 52) ^ 3 := by norm_num
    have m1 := mul_le_mul_of_nonneg_left e1 hc.le
    have m2 := mul_le_mul_of_nonneg_left e2 hc.le
    rw [uu_eq, abs_le]
    constructor <;> linarith

/-- double precision without reordering is accurate -/
theorem ieee_good : Ops.ieee.Good where
  conj _ := rfl
  ofReal _ := rfl
  mul := ieee_mul
  add := ieee_add
  dot ps hl hp := by
    obtain ⟨z, hz, n⟩ := ieee_dot ps 0 0 0 0 0 (by omega) ((Nr.refl (x := 0) (A := 0) (by simp)).mono (Nat.zero_le _) le_rfl) (by simp) hp
    refine ⟨z, hz, ?_⟩
    have := n.2.2
    simp only [zero_add] at this
    exact this
  rmul x y hx hy := by
    have hd := dd_pos
    have hde := dd_le
    have hv : 0 < vv := by rw [vv_eq]; norm_num
    have h := rnd_vv (x * y)
    refine ⟨rnd (x * y), F64.of_fin ?_, ?_⟩
    · rw [abs_mul]; exact p2_mul _ hx hy (abs_nonneg _) (by norm_num)
    · rw [uu_vv, ← abs_mul]
      nlinarith [mul_nonneg hv.le (abs_nonneg (x * y))]
  c8 _ h0 h1 := ieee_c8 h0 h1
  c4 _ h0 h1 := ieee_c4 h0 h1

end S2wav
