import Verif.Lemmas.SingleTrip
import Verif.Lemmas.SingleIeee
import Verif.Props.Ieee754Single
import Verif.Props.RoundedDirectional

/-! # Filters rounded to single precision -/

namespace S2wav.Single
open Classical

variable {L N J J_min : ℤ} {psi : Arr3 ℂ} {phi : Arr1 ℝ}

/-- rounding of a complex number, the exponent range being unbounded above -/
noncomputable def rndC (z : ℂ) : ℂ := ⟨rnd z.re, rnd z.im⟩

theorem rndC_zero : rndC 0 = 0 := by unfold rndC; simp [rnd_zero]; rfl

theorem castC_ofC {z : ℂ} (h : ‖z‖ ≤ 2 ^ (120 : ℤ)) : castC (.ofC z) = .ofC (rndC z) := by
  unfold castC C64.ofC rndC cast
  simp only
  rw [of_fin ((Complex.abs_re_le_norm z).trans h), of_fin ((Complex.abs_im_le_norm z).trans h)]

theorem map_rndC (a : Arr3 ℂ) (k i j : ℤ) : (a.map rndC).v k i j = rndC (a.v k i j) := by
  by_cases h : 0 ≤ k ∧ k < a.d ∧ 0 ≤ i ∧ i < a.r ∧ 0 ≤ j ∧ j < a.c
  · exact Arr3.of_v _ _ _ _ _ _ _ h
  · rw [a.junk _ _ _ h, rndC_zero]; exact Arr3.of_out _ _ _ _ _ _ _ h

theorem map_rnd (a : Arr1 ℝ) (i : ℤ) : (a.map rnd).v i = rnd (a.v i) := by
  by_cases h : 0 ≤ i ∧ i < a.n
  · exact Arr1.of_v _ _ _ h
  · rw [a.junk _ h, rnd_zero]; exact Arr1.of_out _ _ _ h

/-- filters that are not huge are converted entry by entry -/
theorem cast_psi (h : ∀ j l k, ‖psi.v j l k‖ ≤ 2 ^ (120 : ℤ)) : (psi.map C64.ofC).map castC = (psi.map rndC).map C64.ofC := by
  have e : (psi.map rndC).map C64.ofC = Arr3.of psi.d psi.r psi.c fun j l k => C64.ofC (rndC (psi.v j l k)) := by
    show (Arr3.of _ _ _ _).map C64.ofC = _
    rw [map_ofC_of3]
  rw [e]
  exact Arr3.of_congr fun j l k _ _ _ _ _ _ => by rw [map_ofC3, castC_ofC (h j l k)]

theorem cast_phi (h : ∀ l, |phi.v l| ≤ 2 ^ (120 : ℤ)) : (phi.map F64.fin).map cast = (phi.map rnd).map F64.fin := by
  have e : (phi.map rnd).map F64.fin = Arr1.of phi.n fun l => F64.fin (rnd (phi.v l)) := by
    refine Arr1.of_congr fun l _ _ => ?_
    rw [map_rnd]
  rw [e]
  exact Arr1.of_congr fun l _ _ => by rw [map_fin1]; exact of_fin (h l)

/-! ### the squares -/

theorem sq_rnd (x : ℝ) : |rnd x ^ 2 - x ^ 2| ≤ 3 * vv * x ^ 2 + 4 * dd := by
  have h := rnd_vv x
  have hd := dd_pos
  have hv : 0 < vv ∧ vv ≤ 1 / 2 ^ 24 := by rw [vv_eq]; norm_num
  have hd1 : dd ≤ vv / 2 ^ 10 := by
    have : dd * 2 ^ (10 : ℤ) ≤ vv := by
      unfold dd vv
      rw [← zpow_add₀ (by norm_num)]
      exact p2_mono (by norm_num)
    norm_num at this ⊢
    linarith
  have hv0 := hv.1
  have hx := abs_nonneg x
  have e : rnd x ^ 2 - x ^ 2 = (rnd x - x) * (rnd x - x + 2 * x) := by ring
  have a : |rnd x - x + 2 * x| ≤ (vv * |x| + dd) + 2 * |x| := by
    refine (abs_add_le _ _).trans ?_
    rw [abs_mul, abs_two]; linarith
  rw [e, abs_mul]
  refine (mul_le_mul h a (abs_nonneg _) (by have := mul_nonneg hv.1.le hx; linarith)).trans ?_
  rw [← sq_abs x]
  generalize |x| = y at *
  have hy2 : 2 * y ≤ y ^ 2 + 1 := by nlinarith [sq_nonneg (y - 1)]
  have t1 : vv * y ^ 2 * vv ≤ vv * y ^ 2 * (1 / 2 ^ 24) := mul_le_mul_of_nonneg_left hv.2 (by positivity)
  have t2 : dd * (2 * y) ≤ dd * (y ^ 2 + 1) := mul_le_mul_of_nonneg_left hy2 hd.le
  have t3 : dd * y ^ 2 ≤ vv / 2 ^ 10 * y ^ 2 := mul_le_mul_of_nonneg_right hd1 (by positivity)
  have t4 : dd * (2 * y) * vv ≤ dd * (y ^ 2 + 1) * (1 / 2 ^ 24) := mul_le_mul t2 hv.2 hv.1.le (mul_nonneg hd.le (by positivity))
  have t5 : dd * dd ≤ dd * 1 := mul_le_mul_of_nonneg_left (by norm_num at *; linarith) hd.le
  have ex : (vv * y + dd) * (vv * y + dd + 2 * y) = vv * y ^ 2 * vv + 2 * (vv * y ^ 2) + dd * (2 * y) * vv + dd * dd + dd * (2 * y) := by ring
  rw [ex]
  have p1 : 0 ≤ vv * y ^ 2 := by have := hv.1; positivity
  have p2 : 0 ≤ dd * y ^ 2 := by positivity
  norm_num at *
  nlinarith

theorem norm_sq_rndC (z : ℂ) : |‖rndC z‖ ^ 2 - ‖z‖ ^ 2| ≤ 3 * vv * ‖z‖ ^ 2 + 8 * dd := by
  have h1 := abs_le.1 (sq_rnd z.re)
  have h2 := abs_le.1 (sq_rnd z.im)
  rw [← Complex.normSq_eq_norm_sq, ← Complex.normSq_eq_norm_sq, Complex.normSq_apply, Complex.normSq_apply, abs_le]
  show -_ ≤ rnd z.re * rnd z.re + rnd z.im * rnd z.im - _ ∧ rnd z.re * rnd z.re + rnd z.im * rnd z.im - _ ≤ _
  constructor <;> nlinarith

/-- rounding the filters hardly changes the frame sum -/
theorem frame_rnd {l : ℤ} (hl0 : 0 ≤ l) (hL1 : 1 ≤ L) (hL : L ≤ 2 ^ 23) (h0 : 0 ≤ J_min) (hJ : J < 2 ^ 10) :
    |frameSum J_min J L (psi.map rndC) (phi.map rnd) l - frameSum J_min J L psi phi l| ≤ 3 * vv * frameSum J_min J L psi phi l + 1 / 2 ^ 60 := by
  obtain ⟨kp, kb⟩ := k8_bounds hl0
  obtain ⟨kp4, kb4⟩ := k4_bounds hl0
  have hd := dd_pos
  rw [frameSum_k l hl0, frameSum_k l hl0]
  have a : |k4 l ^ 2 * (phi.map rnd).v l ^ 2 - k4 l ^ 2 * phi.v l ^ 2| ≤ k4 l ^ 2 * (3 * vv * phi.v l ^ 2 + 4 * dd) := by
    rw [← mul_sub, abs_mul, abs_of_nonneg (by positivity), map_rnd]
    exact mul_le_mul_of_nonneg_left (sq_rnd _) (by positivity)
  have b : |(∑ j ∈ Finset.Ico J_min (J + 1), ∑ k ∈ Finset.Ico 0 (2 * L - 1), ‖(psi.map rndC).v j l k‖ ^ 2) -
      ∑ j ∈ Finset.Ico J_min (J + 1), ∑ k ∈ Finset.Ico 0 (2 * L - 1), ‖psi.v j l k‖ ^ 2| ≤
      3 * vv * (∑ j ∈ Finset.Ico J_min (J + 1), ∑ k ∈ Finset.Ico 0 (2 * L - 1), ‖psi.v j l k‖ ^ 2) + 2 ^ 10 * (2 ^ 24 * (8 * dd)) := by
    rw [← Finset.sum_sub_distrib]
    refine (Finset.abs_sum_le_sum_abs _ _).trans ?_
    have s1 : ∀ j ∈ Finset.Ico J_min (J + 1), |∑ k ∈ Finset.Ico 0 (2 * L - 1), ‖(psi.map rndC).v j l k‖ ^ 2 - ∑ k ∈ Finset.Ico 0 (2 * L - 1), ‖psi.v j l k‖ ^ 2| ≤
        3 * vv * ∑ k ∈ Finset.Ico 0 (2 * L - 1), ‖psi.v j l k‖ ^ 2 + 2 ^ 24 * (8 * dd) := by
      intro j _
      rw [← Finset.sum_sub_distrib]
      refine (Finset.abs_sum_le_sum_abs _ _).trans ?_
      have s2 : ∀ k ∈ Finset.Ico 0 (2 * L - 1), |‖(psi.map rndC).v j l k‖ ^ 2 - ‖psi.v j l k‖ ^ 2| ≤ 3 * vv * ‖psi.v j l k‖ ^ 2 + 8 * dd := fun k _ => by
        rw [map_rndC]; exact norm_sq_rndC _
      refine (Finset.sum_le_sum s2).trans ?_
      rw [Finset.sum_add_distrib, ← Finset.mul_sum, Finset.sum_const, Int.card_Ico, nsmul_eq_mul]
      have : (((2 * L - 1 - 0).toNat : ℕ) : ℝ) ≤ 2 ^ 24 := by exact_mod_cast (by omega : (2 * L - 1 - 0).toNat ≤ 2 ^ 24)
      exact add_le_add le_rfl (mul_le_mul_of_nonneg_right this (by positivity))
    refine (Finset.sum_le_sum s1).trans ?_
    rw [Finset.sum_add_distrib, ← Finset.mul_sum, Finset.sum_const, Int.card_Ico, nsmul_eq_mul]
    have : (((J + 1 - J_min).toNat : ℕ) : ℝ) ≤ 2 ^ 10 := by exact_mod_cast (by omega : (J + 1 - J_min).toNat ≤ 2 ^ 10)
    exact add_le_add le_rfl (mul_le_mul_of_nonneg_right this (by positivity))
  generalize (∑ j ∈ Finset.Ico J_min (J + 1), ∑ k ∈ Finset.Ico 0 (2 * L - 1), ‖(psi.map rndC).v j l k‖ ^ 2) = S' at *
  generalize (∑ j ∈ Finset.Ico J_min (J + 1), ∑ k ∈ Finset.Ico 0 (2 * L - 1), ‖psi.v j l k‖ ^ 2) = S at *
  have c : |k8 l * S' - k8 l * S| ≤ k8 l * (3 * vv * S + 2 ^ 10 * (2 ^ 24 * (8 * dd))) := by
    rw [← mul_sub, abs_mul, abs_of_pos kp]
    exact mul_le_mul_of_nonneg_left b kp.le
  have tot : |k4 l ^ 2 * (phi.map rnd).v l ^ 2 + k8 l * S' - (k4 l ^ 2 * phi.v l ^ 2 + k8 l * S)| ≤
      k4 l ^ 2 * (3 * vv * phi.v l ^ 2 + 4 * dd) + k8 l * (3 * vv * S + 2 ^ 10 * (2 ^ 24 * (8 * dd))) := by
    have := abs_add_le (k4 l ^ 2 * (phi.map rnd).v l ^ 2 - k4 l ^ 2 * phi.v l ^ 2) (k8 l * S' - k8 l * S)
    rw [sub_add_sub_comm] at this
    exact this.trans (add_le_add a c)
  refine tot.trans ?_
  have k4b : k4 l ^ 2 ≤ 16 := by norm_num at kb4; nlinarith
  have k8b : k8 l ≤ 128 := by norm_num at kb; linarith
  have hd1 : dd ≤ 1 / 2 ^ 120 := by
    unfold dd
    refine (p2_mono (show (-150 : ℤ) ≤ -120 by norm_num)).trans (le_of_eq ?_)
    rw [show (-120 : ℤ) = -((120 : ℕ) : ℤ) by norm_num, zpow_neg, zpow_natCast, one_div]
  have u1 : k4 l ^ 2 * (4 * dd) ≤ 16 * (4 * dd) := mul_le_mul_of_nonneg_right k4b (by positivity)
  have u2 : k8 l * (2 ^ 10 * (2 ^ 24 * (8 * dd))) ≤ 128 * (2 ^ 10 * (2 ^ 24 * (8 * dd))) := mul_le_mul_of_nonneg_right k8b (by positivity)
  generalize k4 l ^ 2 = q4 at *
  norm_num at *
  nlinarith

/-! ### support and symmetry -/

theorem rndC_neg (z : ℂ) : rndC (-z) = -rndC z := by
  unfold rndC
  apply Complex.ext <;> simp [rnd_neg]

theorem rndC_conj (z : ℂ) : rndC ((starRingEnd ℂ) z) = (starRingEnd ℂ) (rndC z) := by
  unfold rndC
  apply Complex.ext <;> simp [rnd_neg]

/-- rounded filters are filters -/
theorem filters_rnd {c : Cfg} {mr : Bool} (h : c.Filters J mr psi phi) : c.Filters J mr (psi.map rndC) (phi.map rnd) where
  d := h.d
  r := h.r
  cols := h.cols
  n := h.n
  wav j l n hne := h.wav j l n fun h0 => hne (by rw [map_rndC, h0, rndC_zero])
  scal l hne := h.scal l fun h0 => hne (by rw [map_rnd, h0, rnd_zero])
  sym hr j l n := by
    rw [map_rndC, map_rndC, h.sym hr j l n]
    rcases Int.even_or_odd n with he | ho
    · rw [he.neg_one_zpow, one_mul, one_mul, rndC_conj]
    · rw [ho.neg_one_zpow, neg_one_mul, neg_one_mul, rndC_neg, rndC_conj]

/-! ### size of the double precision filters, at all scales -/

theorem sdir_le {N el m : ℤ} (hN : 1 ≤ N) : ‖sdir N el m‖ ^ 2 ≤ 1 := by
  by_cases h : 1 ≤ el ∧ |m| ≤ gam N el ∧ (N + m) % 2 ≠ 0
  · rw [← sdir_energy hN h.1 le_rfl]
    exact Finset.single_le_sum (f := fun m => ‖sdir N el m‖ ^ 2) (fun _ _ => by positivity) (Finset.mem_Icc.2 (abs_le.1 h.2.1))
  · rw [sdir_eq_zero h]; norm_num

theorem dir64_psi_le {m : Libm} {lg : F64 → F64} {jm : JMax} {X : ℤ → ℤ → ℝ} {spin : ℤ} (hs : Libm.Special m lg) (hL : L ≤ 2 ^ 23) (hN : 1 ≤ N) (hN' : N ≤ 990)
    (hd : Dir64 m lg jm L N J J_min spin psi phi X) (j l k : ℤ) : ‖psi.v j l k‖ ≤ 2 ^ (12 : ℤ) := by
  rw [hd.wav]
  by_cases hr : 0 ≤ j ∧ j < J + 1 ∧ 0 ≤ l ∧ l < L ∧ 0 ≤ k ∧ k < 2 * L - 1
  · rw [Arr3.of_v _ _ _ _ _ _ _ hr]
    by_cases hel : |spin| ≤ l
    · have h := psiD64_sq hd.k (by omega) hs hN hN' (n := k - (L - 1)) hr.1 (by omega : j ≤ J) hr.2.2.1 hr.2.2.2.1 hel
      have h2 := hd.k.psi_le hr.1 hr.2.1 hr.2.2.1 hr.2.2.2.1
      have h3 := psi64_nonneg (X (j + 1) l) (X j l)
      have h4 := sdir_le (N := N) (el := l) (m := k - (L - 1)) hN
      have h5 := k8_lo hr.2.2.1 (by omega : l < 2 ^ 23)
      have h6 := (binE_bounds N).1
      have h7 := (binE_bounds N).2.1
      unfold k8 at h5
      generalize psi64 (X (j + 1) l) (X j l) = p at *
      have hs0 : 0 ≤ ‖sdir N l (k - (L - 1))‖ ^ 2 := by positivity
      generalize ‖sdir N l (k - (L - 1))‖ ^ 2 = s at *
      generalize binE N = b at *
      generalize 8 * Real.pi ^ 2 / (2 * (l : ℝ) + 1) = w at *
      have e1 : p ^ 2 * s ≤ 4 := by nlinarith [mul_le_mul_of_nonneg_left h4 (sq_nonneg p)]
      have e0 : 0 ≤ p ^ 2 * s := by positivity
      generalize p ^ 2 * s = q at *
      have e2 := (abs_le.1 h).2
      refine abs_le_of_sq_le_sq' ?_ (by positivity) |>.2
      have hn := sq_nonneg ‖psiD64 m lg X N |spin| j l (k - (L - 1))‖
      generalize ‖psiD64 m lg X N |spin| j l (k - (L - 1))‖ ^ 2 = y at *
      have e3 := mul_le_mul_of_nonneg_right h5 hn
      have e4 : q * (b + 1 / 2 ^ 45) ≤ 4 * (1 / 2 ^ 33 + 1 / 2 ^ 45) := mul_le_mul e1 (by linarith) (by positivity) (by norm_num)
      clear * - e3 e4 e1 e2
      norm_num at *
      linarith
    · unfold psiD64
      rw [if_pos (by omega), norm_zero]; positivity
  · rw [Arr3.of_out _ _ _ _ _ _ _ hr, norm_zero]; positivity

end S2wav.Single
