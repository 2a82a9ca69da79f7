import Verif.Props.RoundedSpinOverflow
import Verif.Props.RoundedOtherLoopedBase
import Verif.Props.Ieee754

/-! # C136: the looped transforms of base.py in double precision with a negative `spin0`

`analysis_looped` and `synthesis_looped` (`s2wav/transforms/base.py`) pass their option `spin0` to `filters_directional`, which multiplies the
filters by a normalisation depending on the degree. Both directions of the transform use the same filters, so a round trip multiplies the
coefficients of degree `l` by the square of that normalisation, `(l - |spin0|)! / (l + |spin0|)!`, instead of giving them back. -/

namespace S2wav
open Classical

/-- for a negative spin the computed normalisation is at most 1 -/
theorem spin_normalization64_le_one {l s : ℤ} (h : |s| ≤ l) (hl : l + |s| ≤ 2 ^ 53) (hs : |s| ≤ 2 ^ 48) (h0 : s < 0) :
    ∃ z, spin_normalization64 l s = .ok (.fin z) ∧ Rep z ∧ 0 ≤ z ∧ z ≤ 1 := by
  have key : ∀ q : ℝ, 0 ≤ q → q ≤ 1 → ∃ z, (F64.fin q).sqrt = .fin z ∧ Rep z ∧ 0 ≤ z ∧ z ≤ 1 := fun q q0 q2 => by
    refine ⟨rnd (Real.sqrt q), sqrt64 q0 (by linarith), rep_rnd _, rnd_nonneg (Real.sqrt_nonneg _), rnd_le rep_one ?_⟩
    rw [Real.sqrt_le_left (by norm_num)]; linarith
  unfold spin_normalization64
  obtain ⟨x, hx, hP⟩ := spin_loop64_any (abs_nonneg s) h hl hs
  rw [hx, Py.bind_ok, if_neg (not_lt.2 h0.le)]
  rcases hP with rfl | ⟨y, rfl, -, hP⟩
  · rw [F64.pdiv, if_neg (by simp), Py.bind_ok, show (F64.fin 1).div .inf = .fin 0 from rfl]
    obtain ⟨z, e, r⟩ := key 0 le_rfl (by norm_num)
    exact ⟨z, by rw [e], r⟩
  · have hs0 : 0 < |s| := abs_pos.2 h0.ne
    have b := (hP.half (by
      have : (2 * |s|).toNat ≤ 2 ^ 50 := by omega
      exact_mod_cast this)).1
    have h1 : (2 : ℝ) ≤ ratioN l |s| := by
      refine le_trans ?_ (ratioN_ge hs0.le h)
      have : (2 : ℝ) ^ 1 ≤ 2 ^ |s|.toNat := pow_le_pow_right₀ (by norm_num) (by omega)
      linarith
    have hy0 := hP.pos
    have hi2 : 1 / y ≤ 1 := by rw [div_le_iff₀ hy0]; linarith
    have hi0 : 0 < 1 / y := by positivity
    have hof : F64.of (1 / y) = .fin (rnd (1 / y)) := F64.of_fin' (by rw [abs_of_pos hi0]; linarith)
    rw [F64.pdiv, if_neg (by simp only [F64.fin.injEq]; exact hy0.ne'), F64.div_fin hy0.ne', hof, Py.bind_ok]
    obtain ⟨z, e, r⟩ := key (rnd (1 / y)) (rnd_nonneg hi0.le) (rnd_le rep_one hi2)
    exact ⟨z, by rw [e], r⟩

/-! ### frame sum of scaled filters -/

theorem sq_scaled {u v ε η : ℝ} (hv : 0 ≤ v) (hu : 0 ≤ u) (he0 : 0 ≤ ε) (he1 : ε ≤ 1 / 4) (h0 : 0 ≤ η) (h1 : 2 * η ≤ ε) (h : |u - v| ≤ ε * v + η) :
    |u ^ 2 - v ^ 2| ≤ 4 * ε * v ^ 2 + 3 * η := by
  have e : u ^ 2 - v ^ 2 = (u - v) * (u + v) := by ring
  have h2 : |u + v| ≤ 2 * v + (ε * v + η) := by
    rw [abs_of_nonneg (by linarith)]
    have := (abs_le.1 h).2
    linarith
  rw [e, abs_mul]
  have h3 := mul_le_mul h h2 (abs_nonneg _) (by positivity)
  refine h3.trans ?_
  have v2 := sq_nonneg v
  have a1 : 2 * v ≤ v ^ 2 + 1 := by nlinarith [sq_nonneg (v - 1)]
  have a2 : ε * ε ≤ ε * (1 / 4) := mul_le_mul_of_nonneg_left he1 he0
  have a3 : η ≤ 1 := by linarith
  have a4 : η * η ≤ η * (1 / 8) := mul_le_mul_of_nonneg_left (by linarith) h0
  have a5 : ε * ε * v ^ 2 ≤ ε * (1 / 4) * v ^ 2 := mul_le_mul_of_nonneg_right a2 v2
  have a6 : η * (2 * v) ≤ η * (v ^ 2 + 1) := mul_le_mul_of_nonneg_left a1 h0
  have a7 : ε * η * v ≤ 1 / 4 * (η * v) := by
    have := mul_le_mul_of_nonneg_right he1 (mul_nonneg h0 hv); linarith
  have a8 : η * v ^ 2 ≤ ε / 2 * v ^ 2 := mul_le_mul_of_nonneg_right (by linarith) v2
  nlinarith

theorem frame_scale {J_min J L l : ℤ} {psi psi0 : Arr3 ℂ} {phi phi0 : Arr1 ℝ} {x ε : ℝ} (hx : 0 ≤ x) (he0 : (2 : ℝ) ^ (-100 : ℤ) ≤ ε) (he1 : ε ≤ 1 / 4)
    (h0 : 0 ≤ J_min) (h1 : J_min ≤ J) (hJ : J ≤ 1000) (hL : 1 ≤ L) (hL' : L ≤ 2 ^ 53) (hl : 0 ≤ l)
    (hp : ∀ j k, |‖psi.v j l k‖ - x * ‖psi0.v j l k‖| ≤ ε * (x * ‖psi0.v j l k‖) + 2 ^ (-1073 : ℤ))
    (hq : |abs (phi.v l) - x * abs (phi0.v l)| ≤ ε * (x * abs (phi0.v l)) + 2 ^ (-1073 : ℤ)) :
    |frameSum J_min J L psi phi l - x ^ 2 * frameSum J_min J L psi0 phi0 l| ≤
      4 * ε * (x ^ 2 * frameSum J_min J L psi0 phi0 l) + 2 ^ (-990 : ℤ) := by
  have hη0 : (0 : ℝ) < 2 ^ (-1073 : ℤ) := by positivity
  have hη1 : 2 * (2 : ℝ) ^ (-1073 : ℤ) ≤ ε := by
    refine le_trans ?_ he0
    have : 2 * (2 : ℝ) ^ (-1073 : ℤ) = 2 ^ (-1072 : ℤ) := by
      rw [show (-1072 : ℤ) = -1073 + 1 by norm_num, zpow_add₀ (by norm_num)]; ring
    rw [this]
    exact zpow_le_zpow_right₀ (by norm_num) (by norm_num)
  have hη2 : (2 : ℝ) ^ (-1073 : ℤ) * 2 ^ 83 = 2 ^ (-990 : ℤ) := by
    rw [← zpow_natCast, ← zpow_add₀ (by norm_num)]; norm_num
  have hε : 0 ≤ ε := le_trans (by positivity) he0
  have s1 : ∀ j k, |‖psi.v j l k‖ ^ 2 - x ^ 2 * ‖psi0.v j l k‖ ^ 2| ≤ 4 * ε * (x ^ 2 * ‖psi0.v j l k‖ ^ 2) + 3 * 2 ^ (-1073 : ℤ) := fun j k => by
    have := sq_scaled (mul_nonneg hx (norm_nonneg _)) (norm_nonneg _) hε he1 hη0.le hη1 (hp j k)
    rwa [mul_pow] at this
  have s2 : |phi.v l ^ 2 - x ^ 2 * phi0.v l ^ 2| ≤ 4 * ε * (x ^ 2 * phi0.v l ^ 2) + 3 * 2 ^ (-1073 : ℤ) := by
    have := sq_scaled (mul_nonneg hx (abs_nonneg _)) (abs_nonneg _) hε he1 hη0.le hη1 hq
    rwa [mul_pow, sq_abs, sq_abs] at this
  generalize (2 : ℝ) ^ (-1073 : ℤ) = η at *
  have hc : (0 : ℝ) < 2 * l + 1 := by have : (0 : ℝ) ≤ l := by exact_mod_cast hl
                                      linarith
  have hc1 : (1 : ℝ) ≤ 2 * l + 1 := by have : (0 : ℝ) ≤ l := by exact_mod_cast hl
                                       linarith
  have pi0 := Real.pi_pos
  have pi4 := Real.pi_lt_d2
  have A0 : 0 ≤ 4 * Real.pi / (2 * l + 1) := by positivity
  have B0 : 0 ≤ 8 * Real.pi ^ 2 / (2 * l + 1) := by positivity
  have A1 : 4 * Real.pi / (2 * l + 1) ≤ 13 := by rw [div_le_iff₀ hc]; nlinarith
  have B1 : 8 * Real.pi ^ 2 / (2 * l + 1) ≤ 80 := by
    rw [div_le_iff₀ hc]
    have : Real.pi ^ 2 ≤ 3.15 ^ 2 := pow_le_pow_left₀ pi0.le pi4.le 2
    nlinarith
  -- the double sum
  have s3 : |∑ j ∈ Finset.Icc J_min J, ∑ k ∈ Finset.Ico 0 (2 * L - 1), ‖psi.v j l k‖ ^ 2 -
      x ^ 2 * ∑ j ∈ Finset.Icc J_min J, ∑ k ∈ Finset.Ico 0 (2 * L - 1), ‖psi0.v j l k‖ ^ 2| ≤
      4 * ε * (x ^ 2 * ∑ j ∈ Finset.Icc J_min J, ∑ k ∈ Finset.Ico 0 (2 * L - 1), ‖psi0.v j l k‖ ^ 2) + 1001 * (2 ^ 54 * (3 * η)) := by
    simp only [Finset.mul_sum]
    rw [← Finset.sum_sub_distrib]
    simp only [← Finset.sum_sub_distrib]
    refine (Finset.abs_sum_le_sum_abs _ _).trans ?_
    have cardJ : ((Finset.Icc J_min J).card : ℝ) ≤ 1001 := by
      rw [Int.card_Icc]
      exact_mod_cast (by omega : (J + 1 - J_min).toNat ≤ 1001)
    have cardL : ((Finset.Ico 0 (2 * L - 1)).card : ℝ) ≤ 2 ^ 54 := by
      rw [Int.card_Ico]
      exact_mod_cast (by omega : (2 * L - 1 - 0).toNat ≤ 2 ^ 54)
    have step : ∀ j ∈ Finset.Icc J_min J, |∑ k ∈ Finset.Ico 0 (2 * L - 1), (‖psi.v j l k‖ ^ 2 - x ^ 2 * ‖psi0.v j l k‖ ^ 2)| ≤
        ∑ k ∈ Finset.Ico 0 (2 * L - 1), 4 * ε * (x ^ 2 * ‖psi0.v j l k‖ ^ 2) + 2 ^ 54 * (3 * η) := by
      intro j _
      refine (Finset.abs_sum_le_sum_abs _ _).trans ((Finset.sum_le_sum fun k _ => s1 j k).trans ?_)
      rw [Finset.sum_add_distrib, Finset.sum_const, nsmul_eq_mul]
      exact add_le_add le_rfl (mul_le_mul_of_nonneg_right cardL (by positivity))
    refine (Finset.sum_le_sum step).trans ?_
    rw [Finset.sum_add_distrib, Finset.sum_const, nsmul_eq_mul]
    exact add_le_add le_rfl (mul_le_mul_of_nonneg_right cardJ (by positivity))
  unfold frameSum
  generalize ∑ j ∈ Finset.Icc J_min J, ∑ k ∈ Finset.Ico 0 (2 * L - 1), ‖psi.v j l k‖ ^ 2 = S at *
  generalize ∑ j ∈ Finset.Icc J_min J, ∑ k ∈ Finset.Ico 0 (2 * L - 1), ‖psi0.v j l k‖ ^ 2 = S0 at *
  generalize 4 * Real.pi / (2 * (l : ℝ) + 1) = a at *
  generalize 8 * Real.pi ^ 2 / (2 * (l : ℝ) + 1) = b at *
  have e : a * phi.v l ^ 2 + b * S - x ^ 2 * (a * phi0.v l ^ 2 + b * S0) =
      a * (phi.v l ^ 2 - x ^ 2 * phi0.v l ^ 2) + b * (S - x ^ 2 * S0) := by ring
  rw [e]
  refine (abs_add_le _ _).trans ?_
  rw [abs_mul, abs_mul, abs_of_nonneg A0, abs_of_nonneg B0]
  have t1 := mul_le_mul_of_nonneg_left s2 A0
  have t2 := mul_le_mul_of_nonneg_left s3 B0
  have t3 : a * (3 * η) ≤ 13 * (3 * η) := mul_le_mul_of_nonneg_right A1 (by positivity)
  have t4 : b * (1001 * (2 ^ 54 * (3 * η))) ≤ 80 * (1001 * (2 ^ 54 * (3 * η))) := mul_le_mul_of_nonneg_right B1 (by positivity)
  have t5 : 13 * (3 * η) + 80 * (1001 * (2 ^ 54 * (3 * η))) ≤ η * 2 ^ 83 := by
    have : 13 * (3 * η) + 80 * (1001 * (2 ^ 54 * (3 * η))) = η * (13 * 3 + 80 * 1001 * 2 ^ 54 * 3) := by ring
    rw [this]
    exact mul_le_mul_of_nonneg_left (by norm_num) hη0.le
  rw [← hη2]
  linarith

/-- rounding a scaled complex number -/
theorem rnd_scaled (a : ℂ) (y : ℝ) :
    |‖(⟨rnd (a.re * y), rnd (a.im * y)⟩ : ℂ)‖ - |y| * ‖a‖| ≤ 2 ^ (-50 : ℤ) * (|y| * ‖a‖) + 2 ^ (-1073 : ℤ) := by
  have h1 := rnd_acc (a.re * y)
  have h2 := rnd_acc (a.im * y)
  rw [abs_mul] at h1 h2
  have r1 := mul_le_mul_of_nonneg_right (Complex.abs_re_le_norm a) (abs_nonneg y)
  have r2 := mul_le_mul_of_nonneg_right (Complex.abs_im_le_norm a) (abs_nonneg y)
  have e1 : |y| * ‖a‖ = ‖(y : ℂ) * a‖ := by rw [norm_mul, Complex.norm_real, Real.norm_eq_abs]
  have h3 : |‖(⟨rnd (a.re * y), rnd (a.im * y)⟩ : ℂ)‖ - |y| * ‖a‖| ≤ ‖(⟨rnd (a.re * y), rnd (a.im * y)⟩ : ℂ) - (y : ℂ) * a‖ := by
    rw [e1]; exact abs_norm_sub_norm_le _ _
  refine h3.trans ((Complex.norm_le_abs_re_add_abs_im _).trans ?_)
  have e2 : ((⟨rnd (a.re * y), rnd (a.im * y)⟩ : ℂ) - (y : ℂ) * a).re = rnd (a.re * y) - a.re * y := by
    simp [Complex.sub_re, Complex.mul_re]; ring
  have e3 : ((⟨rnd (a.re * y), rnd (a.im * y)⟩ : ℂ) - (y : ℂ) * a).im = rnd (a.im * y) - a.im * y := by
    simp [Complex.sub_im, Complex.mul_im]; ring
  rw [e2, e3]
  have p1 : (2 : ℝ) ^ (-50 : ℤ) = 8 * 2 ^ (-53 : ℤ) := by
    rw [show (-50 : ℤ) = 3 + -53 by norm_num, zpow_add₀ (by norm_num)]; norm_num
  have p2 : (2 : ℝ) ^ (-1073 : ℤ) = 4 * 2 ^ (-1075 : ℤ) := by
    rw [show (-1073 : ℤ) = 2 + -1075 by norm_num, zpow_add₀ (by norm_num)]; norm_num
  rw [p1, p2]
  have q1 : (0 : ℝ) < 2 ^ (-53 : ℤ) := by positivity
  have q2 : (0 : ℝ) < 2 ^ (-1075 : ℤ) := by positivity
  generalize (2 : ℝ) ^ (-53 : ℤ) = u at *
  generalize (2 : ℝ) ^ (-1075 : ℤ) = t at *
  have t1 := mul_le_mul_of_nonneg_left r1 q1.le
  have t2 := mul_le_mul_of_nonneg_left r2 q1.le
  have t3 : 0 ≤ u * (‖a‖ * |y|) := by positivity
  rw [mul_comm |y| ‖a‖]
  linarith

theorem rnd_scaled_real (a y : ℝ) : |abs (rnd (a * y)) - |y| * abs a| ≤ 2 ^ (-50 : ℤ) * (|y| * abs a) + 2 ^ (-1073 : ℤ) := by
  have h1 := rnd_acc (a * y)
  have e1 : |y| * |a| = |a * y| := by rw [abs_mul, mul_comm]
  rw [e1]
  refine (abs_abs_sub_abs_le _ _).trans (h1.trans ?_)
  have p1 : (2 : ℝ) ^ (-53 : ℤ) ≤ 2 ^ (-50 : ℤ) := zpow_le_zpow_right₀ (by norm_num) (by norm_num)
  have p2 : (2 : ℝ) ^ (-1075 : ℤ) ≤ 2 ^ (-1073 : ℤ) := zpow_le_zpow_right₀ (by norm_num) (by norm_num)
  exact add_le_add (mul_le_mul_of_nonneg_right p1 (abs_nonneg _)) p2

section
variable {O : Ops C64 F64} {sg : ℤ → C64 → C64} {jm : JMax} {c : Cfg} {J : ℤ} {mr : Bool} {flm : Arr2 ℂ} {P : Type} {E : BaseFFTO C64 P} {δ κ τ : ℝ} {f : P}

/-- filters scaled degree by degree and rounded are again filters of the configuration -/
theorem scaled_filters {e : ℤ} {psi psi0 : Arr3 ℂ} {phi phi0 : Arr1 ℝ} (hG : Cfg.Filters { c with spin := e } J mr psi0 phi0) (he : |c.spin| ≤ e)
    (d1 : J < psi.d) (d2 : psi.r = c.L) (d3 : psi.c = 2 * c.L - 1) (d4 : phi.n = c.L)
    (g1 : ∀ j l k, psi.v j l k ≠ 0 → e ≤ l ∧ l < c.L ∧ psi0.v j l k ≠ 0) (g2 : ∀ l, phi.v l ≠ 0 → e ≤ l ∧ l < c.L ∧ phi0.v l ≠ 0)
    (g3 : ∀ l, e ≤ l → l < c.L → ∃ y : ℝ, ∀ j k, psi.v j l k = ⟨rnd ((psi0.v j l k).re * y), rnd ((psi0.v j l k).im * y)⟩) :
    c.Filters J mr psi phi where
  d := d1
  r := d2
  cols := d3
  n := d4
  wav := fun j l n h => by
    obtain ⟨a, -, b⟩ := g1 j l _ h
    obtain ⟨h1, h2, h3, h4, h5, -⟩ := hG.wav j l n b
    exact ⟨h1, h2, h3, h4, h5, he.trans a⟩
  scal := fun l h => by
    obtain ⟨a, -, b⟩ := g2 l h
    exact ⟨(hG.scal l b).1, he.trans a⟩
  sym := fun hre j l n => by
    by_cases hl : e ≤ l ∧ l < c.L
    · obtain ⟨y, hy⟩ := g3 l hl.1 hl.2
      have hs : psi0.v j l (c.L - 1 - n) = (-1 : ℂ) ^ n * (starRingEnd ℂ) (psi0.v j l (c.L - 1 + n)) := hG.sym hre j l n
      rw [hy, hy, hs]
      rcases Int.even_or_odd n with h | h <;> rw [h.neg_one_zpow]
      · apply Complex.ext <;> simp [rnd_neg]
      · apply Complex.ext <;> simp [rnd_neg]
    · have z : ∀ k, psi.v j l k = 0 := fun k => by
        by_contra h
        obtain ⟨a, b, -⟩ := g1 j l k h
        exact hl ⟨a, b⟩
      rw [z, z]; simp

theorem frameSum_zero {J_min L l : ℤ} {psi : Arr3 ℂ} {phi : Arr1 ℝ} (h1 : ∀ j k, psi.v j l k = 0) (h2 : phi.v l = 0) :
    frameSum J_min J L psi phi l = 0 := by
  unfold frameSum
  simp [h1, h2]

theorem spin_looped_core {m : Libm} {lg : F64 → F64} {spin0 : ℤ} {psi psi0 : Arr3 ℂ} {phi phi0 : Arr1 ℝ}
    (hO : O.Good) (hsg : ∀ k z, sg k (.ofC z) = .ofC ((-1 : ℂ) ^ k * z)) (hn : E.Near c J mr δ κ τ) (hsh : E.LoopedShaped jm c J mr)
    (hδ : 0 ≤ δ) (hδ1 : δ ≤ 1) (hκ : 0 ≤ κ) (hκ1 : κ ≤ 2 ^ 20) (hτ : 0 ≤ τ) (hτ1 : τ ≤ 1)
    (hv : c.Valid jm J) (hL' : c.L ≤ 2 ^ 52) (hN' : c.N ≤ 990) (hJ : J ≤ 1000) (hs0 : spin0 < 0) (hs1 : |spin0| ≤ 2 ^ 48)
    (hfl : filters_directional_spin64 m lg jm c.L c.N c.J_min c.lam c.spin spin0 = .ok (psi.map C64.ofC, phi.map F64.fin))
    (d1 : psi.d = J + 1) (d2 : psi.r = c.L) (d3 : psi.c = 2 * c.L - 1) (d4 : phi.n = c.L)
    (g1 : ∀ j l k, psi.v j l k ≠ 0 → max |c.spin| |spin0| ≤ l ∧ l < c.L ∧ psi0.v j l k ≠ 0)
    (g2 : ∀ l, phi.v l ≠ 0 → max |c.spin| |spin0| ≤ l ∧ l < c.L ∧ phi0.v l ≠ 0)
    (g3 : ∀ l, max |c.spin| |spin0| ≤ l → l < c.L → ∀ z, spin_normalization64 l spin0 = .ok (.fin z) →
        (∀ j k, psi.v j l k = ⟨rnd ((psi0.v j l k).re * (z * (-1 : ℝ) ^ spin0)), rnd ((psi0.v j l k).im * (z * (-1 : ℝ) ^ spin0))⟩) ∧
        phi.v l = rnd (phi0.v l * (z * (-1 : ℝ) ^ spin0)))
    (hG : Cfg.Filters { c with spin := max |c.spin| |spin0| } J mr psi0 phi0)
    (hF : ∀ l, max |c.spin| |spin0| ≤ l → l < c.L → 1 - 1 / 2 ^ 32 ≤ frameSum c.J_min J c.L psi0 phi0 l ∧ frameSum c.J_min J c.L psi0 phi0 l ≤ 1.002 + 1 / 2 ^ 27)
    (hf : E.sphForward f c.L c.spin c.sampling c.nside c.reality = .ok (flm.map C64.ofC)) (hbl : BL2 c.L 0 flm) (hherm : c.reality = true → Herm2 flm)
    (hfb : ∀ l m, ‖co2 flm l m‖ ≤ 2 ^ (300 : ℤ)) :
    ∃ w s g, ∃ F : ℤ → ℝ, Base.analysis_loopedO O sg E jm (filters_directional_spin64 m lg jm c.L c.N c.J_min c.lam c.spin spin0) f
        c.L c.N c.J_min c.lam c.spin c.sampling c.nside c.reality mr = .ok (w, s) ∧
      Base.synthesis_loopedO O sg E jm (filters_directional_spin64 m lg jm c.L c.N c.J_min c.lam c.spin spin0) w s
        c.L c.N c.J_min c.lam c.spin c.sampling c.nside c.reality mr = E.sphInverse (g.map C64.ofC) c.L c.spin c.sampling c.nside c.reality 0 ∧
      g.r = c.L ∧ g.c = 2 * c.L - 1 ∧
      norm2 c.L (fun l m => if c.reality = true ∧ m < 0 then 0 else co2 g l m - (F l : ℂ) * co2 flm l m) ≤
        1.01 * ((1 + (c.N * (J + 1) + 4) / 2 ^ 49) * (δ + κ * 2 ^ (-47 : ℤ)) + (c.N * (J + 1) + 4) / 2 ^ 49) * norm2 c.L (co2 flm) +
          (2 * (J + 2) * τ + 2 ^ (-550 : ℤ)) ∧
      (∀ l, l < max |c.spin| |spin0| → F l = 0) ∧
      (∀ l, 2 ^ (1025 : ℤ) * ((l - |spin0|).toNat.factorial : ℝ) ≤ ((l + |spin0|).toNat.factorial : ℝ) → F l = 0) ∧
      ∀ l, max |c.spin| |spin0| ≤ l → l < c.L → ((l + |spin0|).toNat.factorial : ℝ) ≤ 2 ^ (999 : ℤ) * ((l - |spin0|).toNat.factorial : ℝ) →
        |F l - ((l - |spin0|).toNat.factorial : ℝ) / ((l + |spin0|).toNat.factorial : ℝ)| ≤
          0.0022 * (((l - |spin0|).toNat.factorial : ℝ) / ((l + |spin0|).toNat.factorial : ℝ)) + 2 ^ (-990 : ℤ) := by
  have hmz : ∀ l, max |c.spin| |spin0| ≤ l → |spin0| ≤ l := fun l a => (le_max_right _ _).trans a
  have hz := fun l (a : max |c.spin| |spin0| ≤ l) (b : l < c.L) => spin_normalization64_le_one (hmz l a) (by omega) hs1 hs0
  have hG' : c.Filters J mr psi phi := scaled_filters hG (le_max_left _ _) (by omega) d2 d3 d4 g1 g2 fun l a b => by
    obtain ⟨z, ez, -⟩ := hz l a b
    exact ⟨_, (g3 l a b z ez).1⟩
  have hzero : ∀ l, ¬ (max |c.spin| |spin0| ≤ l ∧ l < c.L) → frameSum c.J_min J c.L psi phi l = 0 := fun l h =>
    frameSum_zero (fun j k => by by_contra h'; obtain ⟨a, b, -⟩ := g1 j l k h'; exact h ⟨a, b⟩)
      (by by_contra h'; obtain ⟨a, b, -⟩ := g2 l h'; exact h ⟨a, b⟩)
  have hay : ∀ z : ℝ, 0 ≤ z → |z * (-1 : ℝ) ^ spin0| = z := fun z h => by
    rcases neg_one_zpow_cases spin0 with e | e <;> rw [e] <;> simp [abs_of_nonneg h]
  have hsc : ∀ l, max |c.spin| |spin0| ≤ l → l < c.L → ∀ z, spin_normalization64 l spin0 = .ok (.fin z) → 0 ≤ z →
      |frameSum c.J_min J c.L psi phi l - z ^ 2 * frameSum c.J_min J c.L psi0 phi0 l| ≤
        4 * 2 ^ (-50 : ℤ) * (z ^ 2 * frameSum c.J_min J c.L psi0 phi0 l) + 2 ^ (-990 : ℤ) := fun l a b z ez z0 => by
    obtain ⟨p1, p2⟩ := g3 l a b z ez
    have hl0 : 0 ≤ l := (abs_nonneg _).trans (hmz l a)
    have := hv.h1
    refine frame_scale z0 (zpow_le_zpow_right₀ (by norm_num) (by norm_num)) (by norm_num) hv.h0 (by omega) hJ hv.top.hL (by omega) hl0 (fun j k => ?_) ?_
    · have := rnd_scaled (psi0.v j l k) (z * (-1 : ℝ) ^ spin0)
      rwa [hay z z0, ← p1] at this
    · have := rnd_scaled_real (phi0.v l) (z * (-1 : ℝ) ^ spin0)
      rwa [hay z z0, ← p2] at this
  have tiny : (2 : ℝ) ^ (-990 : ℤ) ≤ 1 / 1000 := by
    have : (2 : ℝ) ^ (-990 : ℤ) ≤ 2 ^ (-10 : ℤ) := zpow_le_zpow_right₀ (by norm_num) (by norm_num)
    refine this.trans ?_
    norm_num
  have e50 : (2 : ℝ) ^ (-50 : ℤ) = 1 / 2 ^ 50 := by rw [zpow_neg]; norm_num
  have hB : ∀ l, 0 ≤ l → l < c.L → frameSum c.J_min J c.L psi phi l ≤ 1.01 := fun l a b => by
    by_cases hl : max |c.spin| |spin0| ≤ l
    · obtain ⟨z, ez, -, z0, z1⟩ := hz l hl b
      have h := (abs_le.1 (hsc l hl b z ez z0)).2
      obtain ⟨f1, f2⟩ := hF l hl b
      generalize frameSum c.J_min J c.L psi phi l = A at *
      generalize frameSum c.J_min J c.L psi0 phi0 l = A0 at *
      have z2 : z ^ 2 ≤ 1 := pow_le_one₀ z0 z1
      have f0 : 0 ≤ A0 := by norm_num at f1; linarith
      have q := mul_le_mul_of_nonneg_right z2 f0
      rw [e50] at h
      generalize (2 : ℝ) ^ (-990 : ℤ) = t at *
      clear * - h q f2 tiny
      norm_num at f2 h ⊢
      linarith
    · rw [hzero l fun h => hl h.1]; norm_num
  rw [hfl]
  obtain ⟨w, s, g, r1, r2, r3, r4, r5⟩ := C112_round_trip (filters := .ok (psi.map C64.ofC, phi.map F64.fin)) rfl hO hsg hn hsh hδ hδ1 hκ hκ1 hτ hτ1 hv hL'
    (by omega) (by omega) hG' hB (by norm_num) hf hbl hherm hfb
  refine ⟨w, s, g, frameSum c.J_min J c.L psi phi, r1, r2, r3, r4, r5, fun l hl => hzero l fun h => by omega, fun l hl => ?_, fun l a b hr => ?_⟩
  · by_cases hlr : max |c.spin| |spin0| ≤ l ∧ l < c.L
    · obtain ⟨a, b⟩ := hlr
      have ez := (C114_overflow (l := l) (s := spin0) (hmz l a) (by omega) hs1 hl).2 hs0
      obtain ⟨p1, p2⟩ := g3 l a b 0 ez
      refine frameSum_zero (fun j k => ?_) ?_
      · rw [p1]; simp only [zero_mul, mul_zero, rnd_zero]; rfl
      · rw [p2, zero_mul, mul_zero, rnd_zero]
    · exact hzero l hlr
  · obtain ⟨x, z, ex, ez, x0, z0, hxz⟩ := C114_norm (l := l) (s := spin0) (hmz l a) (by omega) hr
    rw [spin_normalization_ok (hmz l a)] at ex
    have hxx : x = spinN l spin0 := (Except.ok.inj ex).symm
    have hx2 : ((l - |spin0|).toNat.factorial : ℝ) / ((l + |spin0|).toNat.factorial : ℝ) = x ^ 2 := by
      rw [hxx, spinN_sq, show spin0 = -|spin0| by rw [abs_of_neg hs0]; ring, ratioN_neg, abs_neg, abs_abs]
      unfold ratioN
      rw [inv_div]
    rw [hx2]
    have hs9 : |spin0| ≤ 999 := spin_small (abs_nonneg _) (hmz l a) (ratioN_le_iff.2 hr)
    have hs9' : (((|spin0| : ℤ)) : ℝ) ≤ 999 := by exact_mod_cast hs9
    have hd : |z - x| ≤ x * (1 / 2 ^ 38) := by
      refine hxz.trans (mul_le_mul_of_nonneg_left ?_ x0.le)
      rw [div_le_div_iff₀ (by positivity) (by positivity)]
      norm_num
      push_cast at hs9'
      linarith
    have h := hsc l a b z ez z0.le
    obtain ⟨f1, f2⟩ := hF l a b
    rw [e50] at h
    have tp : (0 : ℝ) < 2 ^ (-990 : ℤ) := by positivity
    generalize frameSum c.J_min J c.L psi phi l = A at *
    generalize frameSum c.J_min J c.L psi0 phi0 l = A0 at *
    generalize (2 : ℝ) ^ (-990 : ℤ) = t at *
    clear * - h f1 f2 hd x0 z0 tp
    have hzx : |z ^ 2 - x ^ 2| ≤ x ^ 2 * (1 / 2 ^ 36) := by
      rw [show z ^ 2 - x ^ 2 = (z - x) * (z + x) by ring, abs_mul, abs_of_pos (by linarith : 0 < z + x)]
      have hz3 : z + x ≤ 3 * x := by have := (abs_le.1 hd).2; norm_num at this; linarith
      refine (mul_le_mul hd hz3 (by linarith) (by positivity)).trans ?_
      have : 0 ≤ x ^ 2 := sq_nonneg x
      norm_num
      nlinarith
    have q0 : 0 < x ^ 2 := by positivity
    generalize x ^ 2 = q at *
    generalize hy : z ^ 2 = y at *
    have y0 : 0 ≤ y := by rw [← hy]; positivity
    have a0 : 0 < A0 := by norm_num at f1; linarith
    have a1 : A0 ≤ 1.1 := by norm_num at f2 ⊢; linarith
    obtain ⟨u1, u2⟩ := abs_le.1 hzx
    obtain ⟨v1, v2⟩ := abs_le.1 h
    have w1 : y * A0 ≤ q * (1 + 1 / 2 ^ 36) * A0 := mul_le_mul_of_nonneg_right (by linarith) a0.le
    have w2 : q * (1 - 1 / 2 ^ 36) * A0 ≤ y * A0 := mul_le_mul_of_nonneg_right (by linarith) a0.le
    have w3 : q * A0 ≤ q * (1.002 + 1 / 2 ^ 27) := mul_le_mul_of_nonneg_left f2 q0.le
    have w4 : q * (1 - 1 / 2 ^ 32) ≤ q * A0 := mul_le_mul_of_nonneg_left f1 q0.le
    rw [abs_le]
    norm_num at *
    constructor <;> nlinarith

/-- **C136** `analysis_looped` and then `synthesis_looped` in double precision with a negative `spin0` (`lam = 2`), with or without multiresolution:
nothing is raised, and the coefficients handed to the final inverse transform are those of the input times a factor `F l` depending on the degree only
(relative error of norm and absolute error for underflow as in C112). The factor is not 1: it is `(l - |spin0|)! / (l + |spin0|)!` within 0.22 percent;
it is 0 below `max |spin| |spin0|`, and wherever the product of doubles overflows. -/
theorem C136_damped {m : Libm} {lg : F64 → F64} {spin0 : ℤ} (hm : m.Ok) (hsp : Libm.Special m lg)
    (hO : O.Good) (hsg : ∀ k z, sg k (.ofC z) = .ofC ((-1 : ℂ) ^ k * z)) (hn : E.Near c J mr δ κ τ) (hsh : E.LoopedShaped jm c J mr)
    (hδ : 0 ≤ δ) (hδ1 : δ ≤ 1) (hκ : 0 ≤ κ) (hκ1 : κ ≤ 2 ^ 20) (hτ : 0 ≤ τ) (hτ1 : τ ≤ 1)
    (hv : c.Valid jm J) (hlam : c.lam = 2) (hL' : c.L ≤ 2 ^ 52) (hN' : c.N ≤ 990) (hJ : J ≤ 1000) (hre : c.reality = true → c.N ≤ 41)
    (hs0 : spin0 < 0) (hs1 : |spin0| ≤ 2 ^ 48)
    (hf : E.sphForward f c.L c.spin c.sampling c.nside c.reality = .ok (flm.map C64.ofC)) (hbl : BL2 c.L 0 flm) (hherm : c.reality = true → Herm2 flm)
    (hfb : ∀ l m, ‖co2 flm l m‖ ≤ 2 ^ (300 : ℤ)) :
    ∃ w s g, ∃ F : ℤ → ℝ, Base.analysis_loopedO O sg E jm (filters_directional_spin64 m lg jm c.L c.N c.J_min c.lam c.spin spin0) f
        c.L c.N c.J_min c.lam c.spin c.sampling c.nside c.reality mr = .ok (w, s) ∧
      Base.synthesis_loopedO O sg E jm (filters_directional_spin64 m lg jm c.L c.N c.J_min c.lam c.spin spin0) w s
        c.L c.N c.J_min c.lam c.spin c.sampling c.nside c.reality mr = E.sphInverse (g.map C64.ofC) c.L c.spin c.sampling c.nside c.reality 0 ∧
      g.r = c.L ∧ g.c = 2 * c.L - 1 ∧
      norm2 c.L (fun l m => if c.reality = true ∧ m < 0 then 0 else co2 g l m - (F l : ℂ) * co2 flm l m) ≤
        1.01 * ((1 + (c.N * (J + 1) + 4) / 2 ^ 49) * (δ + κ * 2 ^ (-47 : ℤ)) + (c.N * (J + 1) + 4) / 2 ^ 49) * norm2 c.L (co2 flm) +
          (2 * (J + 2) * τ + 2 ^ (-550 : ℤ)) ∧
      (∀ l, l < max |c.spin| |spin0| → F l = 0) ∧
      (∀ l, 2 ^ (1025 : ℤ) * ((l - |spin0|).toNat.factorial : ℝ) ≤ ((l + |spin0|).toNat.factorial : ℝ) → F l = 0) ∧
      ∀ l, max |c.spin| |spin0| ≤ l → l < c.L → ((l + |spin0|).toNat.factorial : ℝ) ≤ 2 ^ (999 : ℤ) * ((l - |spin0|).toNat.factorial : ℝ) →
        |F l - ((l - |spin0|).toNat.factorial : ℝ) / ((l + |spin0|).toNat.factorial : ℝ)| ≤
          0.0022 * (((l - |spin0|).toNat.factorial : ℝ) / ((l + |spin0|).toNat.factorial : ℝ)) + 2 ^ (-990 : ℤ) := by
  have hT := hv.top
  rw [hlam] at hT
  obtain ⟨psi, psi0, phi, phi0, f0, f1, e1, e2, e3, e4, g1, g2, g3⟩ := spin_filters (m := m) (lg := lg) (N := c.N) (J_min := c.J_min) hm hsp hT (by omega) hJ
    hv.hN hN' hv.h0 hv.h1 c.spin hs0.ne
    fun l a b => by
      have hal : |spin0| ≤ l := (le_max_right _ _).trans a
      obtain ⟨z, e, zr, z0, z2⟩ := spin_normalization64_le_one (l := l) (s := spin0) hal (by omega) hs1 hs0
      refine ⟨z, e, zr, ?_⟩
      rw [abs_of_nonneg z0]
      exact z2.trans (one_le_zpow₀ (by norm_num) (by norm_num))
  have hG : Cfg.Filters { c with spin := max |c.spin| |spin0| } J mr psi0 phi0 :=
    C106_filters (c := { c with spin := max |c.spin| |spin0| }) hm hsp ⟨hv.top, hv.hN, hv.h0, hv.h1⟩ hlam (by show c.L ≤ _; omega) hJ hN' hre
      (by show filters_directional64 m lg jm c.L c.N c.J_min c.lam (max |c.spin| |spin0|) = _; rw [hlam]; exact f0) mr
  rw [← hlam] at f1
  refine spin_looped_core hO hsg hn hsh hδ hδ1 hκ hκ1 hτ hτ1 hv hL' hN' hJ hs0 hs1 f1 e1 e2 e3 e4 g1 g2 g3 hG (fun l a b => ?_) hf hbl hherm hfb
  have he0 : 0 ≤ max |c.spin| |spin0| := le_max_of_le_left (abs_nonneg c.spin)
  obtain ⟨b1, b2, -⟩ := C106_admissible hm hsp hT (by omega) hJ hv.hN hN' hv.h0 hv.h1 f0 (he0.trans a) b (by rwa [abs_of_nonneg he0])
  refine ⟨b1, b2.trans ?_⟩
  norm_num

/-- **C136** the same for `lam = 3`, `4` and `8` -/
theorem C136_damped_other {m : Libm} {lg : F64 → F64} {spin0 : ℤ} (hm : m.Ok) (hr : OtherRange m c.lam c.L J) (hsp : Libm.Special m lg)
    (hO : O.Good) (hsg : ∀ k z, sg k (.ofC z) = .ofC ((-1 : ℂ) ^ k * z)) (hn : E.Near c J mr δ κ τ) (hsh : E.LoopedShaped jm c J mr)
    (hδ : 0 ≤ δ) (hδ1 : δ ≤ 1) (hκ : 0 ≤ κ) (hκ1 : κ ≤ 2 ^ 20) (hτ : 0 ≤ τ) (hτ1 : τ ≤ 1)
    (hv : c.Valid jm J) (hN' : c.N ≤ 990) (hre : c.reality = true → c.N ≤ 41)
    (hs0 : spin0 < 0) (hs1 : |spin0| ≤ 2 ^ 48)
    (hf : E.sphForward f c.L c.spin c.sampling c.nside c.reality = .ok (flm.map C64.ofC)) (hbl : BL2 c.L 0 flm) (hherm : c.reality = true → Herm2 flm)
    (hfb : ∀ l m, ‖co2 flm l m‖ ≤ 2 ^ (300 : ℤ)) :
    ∃ w s g, ∃ F : ℤ → ℝ, Base.analysis_loopedO O sg E jm (filters_directional_spin64 m lg jm c.L c.N c.J_min c.lam c.spin spin0) f
        c.L c.N c.J_min c.lam c.spin c.sampling c.nside c.reality mr = .ok (w, s) ∧
      Base.synthesis_loopedO O sg E jm (filters_directional_spin64 m lg jm c.L c.N c.J_min c.lam c.spin spin0) w s
        c.L c.N c.J_min c.lam c.spin c.sampling c.nside c.reality mr = E.sphInverse (g.map C64.ofC) c.L c.spin c.sampling c.nside c.reality 0 ∧
      g.r = c.L ∧ g.c = 2 * c.L - 1 ∧
      norm2 c.L (fun l m => if c.reality = true ∧ m < 0 then 0 else co2 g l m - (F l : ℂ) * co2 flm l m) ≤
        1.01 * ((1 + (c.N * (J + 1) + 4) / 2 ^ 49) * (δ + κ * 2 ^ (-47 : ℤ)) + (c.N * (J + 1) + 4) / 2 ^ 49) * norm2 c.L (co2 flm) +
          (2 * (J + 2) * τ + 2 ^ (-550 : ℤ)) ∧
      (∀ l, l < max |c.spin| |spin0| → F l = 0) ∧
      (∀ l, 2 ^ (1025 : ℤ) * ((l - |spin0|).toNat.factorial : ℝ) ≤ ((l + |spin0|).toNat.factorial : ℝ) → F l = 0) ∧
      ∀ l, max |c.spin| |spin0| ≤ l → l < c.L → ((l + |spin0|).toNat.factorial : ℝ) ≤ 2 ^ (999 : ℤ) * ((l - |spin0|).toNat.factorial : ℝ) →
        |F l - ((l - |spin0|).toNat.factorial : ℝ) / ((l + |spin0|).toNat.factorial : ℝ)| ≤
          0.0022 * (((l - |spin0|).toNat.factorial : ℝ) / ((l + |spin0|).toNat.factorial : ℝ)) + 2 ^ (-990 : ℤ) := by
  have hT := hv.top
  obtain ⟨hK, hL, hJ, hlam, -⟩ := other_kOk hm hr hT
  haveI : Fact (1 < c.lam) := ⟨hlam⟩
  obtain ⟨psi, psi0, phi, phi0, f0, f1, e1, e2, e3, e4, g1, g2, g3⟩ := Gen.spin_filters (m := m) (lg := lg) (N := c.N) (J_min := c.J_min) hK hsp hT (by omega)
    (by omega) hv.hN hN' hv.h0 hv.h1 c.spin hs0.ne
    fun l a b => by
      have hal : |spin0| ≤ l := (le_max_right _ _).trans a
      obtain ⟨z, e, zr, z0, z2⟩ := spin_normalization64_le_one (l := l) (s := spin0) hal (by omega) hs1 hs0
      refine ⟨z, e, zr, ?_⟩
      rw [abs_of_nonneg z0]
      exact z2.trans (one_le_zpow₀ (by norm_num) (by norm_num))
  obtain ⟨X, p, hd⟩ := Gen.loopDir64_elim hK hsp hT (by omega) (by omega) hv.hN hN' hv.h0 hv.h1 f0
  have hG : Cfg.Filters { c with spin := max |c.spin| |spin0| } J mr psi0 phi0 :=
    Gen.loopDir64_filters (c := { c with spin := max |c.spin| |spin0| }) hsp hT.hL rfl hv.hN hv.h0 hv.h1 hre hd mr
  refine spin_looped_core hO hsg hn hsh hδ hδ1 hκ hκ1 hτ hτ1 hv (by omega) hN' (by omega) hs0 hs1 f1 e1 e2 e3 e4 g1 g2 g3 hG (fun l a b => ?_) hf hbl hherm hfb
  have he0 : 0 ≤ max |c.spin| |spin0| := le_max_of_le_left (abs_nonneg c.spin)
  obtain ⟨b1, b2, -⟩ := C130_admissible hm hr hsp hT hv.hN hN' hv.h0 hv.h1 f0 (he0.trans a) b (by rwa [abs_of_nonneg he0])
  exact ⟨b1, b2⟩

end

/-! ### The hypotheses are met -/

/-- `Y_{5,2}` with `spin0 = -2`, `L = 16`, `N = 3`, `J_min = 1`: what comes back is `Y_{5,2}` times less than 0.0012 (`3! / 7! = 1 / 840`) -/
example (mr : Bool) : ∃ w s g, ∃ F : ℝ, Base.analysis_loopedO Ops.ieee C64.sign toyB j_max (filters_directional_spin64 Libm.exact lgExact j_max 16 3 1 2 0 (-2))
      (.inl (toyFlm.map C64.ofC)) 16 3 1 2 0 "mw" none false mr = .ok (w, s) ∧
    Base.synthesis_loopedO Ops.ieee C64.sign toyB j_max (filters_directional_spin64 Libm.exact lgExact j_max 16 3 1 2 0 (-2)) w s 16 3 1 2 0 "mw" none false mr =
      .ok (.inl (g.map C64.ofC)) ∧
    F ≤ 0.0012 ∧ norm2 16 (fun l m => co2 g l m - (F : ℂ) * if l = 5 ∧ m = 2 then 1 else 0) ≤ 1 / 2 ^ 41 := by
  obtain ⟨w, s, g, F, h1, h2, h3, h4, h5, -, -, h6⟩ := C136_damped (E := toyB) (f := (.inl (toyFlm.map C64.ofC) : Arr2 C64 ⊕ Arr3 C64)) (flm := toyFlm) (spin0 := -2)
    Libm.exact_ok lgExact_special C105_ieee C112_signs (toyB_near toyCfg 4 mr) (toyB_loopedShaped mr)
    le_rfl zero_le_one zero_le_one (by norm_num) le_rfl zero_le_one toyCfg_valid rfl (by norm_num [toyCfg]) (by norm_num [toyCfg]) (by norm_num) (by simp [toyCfg])
    (by norm_num) (by norm_num) toyFlm_forward toyFlm_bl.zero_spin (by simp [toyCfg]) toyFlm_le
  refine ⟨w, s, g, F 5, h1, h2.trans (if_pos ⟨h3, h4⟩), ?_, ?_⟩
  · have k1 : (5 - |(-2 : ℤ)|).toNat = 3 := by decide
    have k2 : (5 + |(-2 : ℤ)|).toNat = 7 := by decide
    have h := h6 5 (by norm_num [toyCfg]) (by norm_num [toyCfg]) (by
      rw [k1, k2]
      have : (2 : ℝ) ^ (10 : ℤ) ≤ 2 ^ (999 : ℤ) := zpow_le_zpow_right₀ (by norm_num) (by norm_num)
      refine le_trans ?_ (mul_le_mul_of_nonneg_right this (Nat.cast_nonneg _))
      norm_num [Nat.factorial])
    rw [k1, k2] at h
    have t : (2 : ℝ) ^ (-990 : ℤ) ≤ 2 ^ (-30 : ℤ) := zpow_le_zpow_right₀ (by norm_num) (by norm_num)
    have h := (abs_le.1 h).2
    clear h5 h6
    generalize (2 : ℝ) ^ (-990 : ℤ) = P at *
    norm_num [Nat.factorial] at h t ⊢
    linarith
  · have e1 : norm2 toyCfg.L (co2 toyFlm) = 1 := toyFlm_norm
    have e2 : ∀ l m, (if toyCfg.reality = true ∧ m < 0 then 0 else co2 g l m - (F l : ℂ) * co2 toyFlm l m) =
        co2 g l m - (F 5 : ℂ) * if l = 5 ∧ m = 2 then 1 else 0 := fun l m => by
      rw [if_neg (by simp [toyCfg]), toyFlm_co]
      by_cases h : l = 5 ∧ m = 2
      · rw [h.1]
      · rw [if_neg h, mul_zero, mul_zero]
    rw [e1] at h5
    simp only [e2] at h5
    have h5 : norm2 16 (fun l m => co2 g l m - (F 5 : ℂ) * if l = 5 ∧ m = 2 then 1 else 0) ≤
      1.01 * ((1 + (((3 : ℤ) : ℝ) * (((4 : ℤ) : ℝ) + 1) + 4) / 2 ^ 49) * (0 + 1 * 2 ^ (-47 : ℤ)) + (((3 : ℤ) : ℝ) * (((4 : ℤ) : ℝ) + 1) + 4) / 2 ^ 49) * 1 +
        (2 * (((4 : ℤ) : ℝ) + 2) * 0 + 2 ^ (-550 : ℤ)) := h5
    refine h5.trans ?_
    have h6 := p2_mono (show (-550 : ℤ) ≤ -60 by norm_num)
    clear h5
    generalize (2 : ℝ) ^ (-550 : ℤ) = P at *
    norm_num at h6 ⊢
    linarith

end S2wav
