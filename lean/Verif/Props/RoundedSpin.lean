import Verif.Props.RoundedLooped
import Verif.Lemmas.FloatSpinLoop

/-! # C114: spin-lowered filters (`spin0`) in double precision

`_spin_normalization` and `filters_directional(..., spin0)` (`Model/IeeeSpin.lean`), executed in IEEE double precision. -/

namespace S2wav
open Classical

variable {m : Libm} {lg : F64 → F64} {jm : JMax} {L N J J_min : ℤ}

/-! ### Helpers -/

theorem neg_one_zpow_cases (n : ℤ) : (-1 : ℝ) ^ n = 1 ∨ (-1 : ℝ) ^ n = -1 := by
  rcases Int.even_or_odd n with h | h
  · left; exact h.neg_one_zpow
  · right; exact h.neg_one_zpow

theorem mul_sign {z : ℝ} (hr : Rep z) (h : |z| ≤ (2 : ℝ) ^ (1000 : ℤ)) (n : ℤ) :
    (F64.fin z).mul (.fin ((-1 : ℝ) ^ n)) = .fin (z * (-1 : ℝ) ^ n) := by
  rw [F64.mul_fin]
  rcases neg_one_zpow_cases n with e | e <;> rw [e]
  · rw [mul_one, F64.of_fin h, rnd_id hr]
  · rw [mul_neg_one, F64.of_fin (by rwa [abs_neg]), rnd_id hr.neg]

/-- product of a complex number by a float -/
theorem C64.mul_fin {z : ℂ} {y : ℝ} (h : ‖z‖ * |y| ≤ (2 : ℝ) ^ (1000 : ℤ)) :
    (C64.ofC z).mul (C64.ofReal (.fin y)) = C64.ofC ⟨rnd (z.re * y), rnd (z.im * y)⟩ := by
  have b1 : |z.re * y| ≤ (2 : ℝ) ^ (1000 : ℤ) := by
    rw [abs_mul]; exact (mul_le_mul_of_nonneg_right (Complex.abs_re_le_norm z) (abs_nonneg y)).trans h
  have b2 : |z.im * y| ≤ (2 : ℝ) ^ (1000 : ℤ) := by
    rw [abs_mul]; exact (mul_le_mul_of_nonneg_right (Complex.abs_im_le_norm z) (abs_nonneg y)).trans h
  have hp : Rep ((2 : ℝ) ^ (1000 : ℤ)) := rep_pow (by norm_num)
  have c1 := abs_rnd_le hp b1
  have c2 := abs_rnd_le hp b2
  have z0 : (0 : F64) = .fin 0 := rfl
  simp only [C64.mul, C64.ofReal, C64.ofC, z0, F64.mul_fin, mul_zero, of_zero, F64.of_fin b1, F64.of_fin b2,
    F64.sub_fin, F64.add_fin, sub_zero, zero_add]
  rw [F64.of_fin c1, F64.of_fin c2, rnd_id (rep_rnd _), rnd_id (rep_rnd _)]

/-- error of one scaled number: `n` stands for the factor `S` -/
theorem scaled_err {a n S e : ℝ} (hn : |n - S| ≤ |S| * e) (he0 : 0 ≤ e) (he1 : e ≤ 1) :
    |rnd (a * n) - a * S| ≤ |a| * |S| * (e + 1 / 2 ^ 52) + (2 : ℝ) ^ (-1075 : ℤ) := by
  have h1 := rnd_acc (a * n)
  have e3 : (2 : ℝ) ^ (-53 : ℤ) = 1 / 2 ^ 53 := by rw [zpow_neg]; norm_num
  rw [e3, abs_mul] at h1
  have h2 : |a * n - a * S| ≤ |a| * (|S| * e) := by
    rw [← mul_sub, abs_mul]; exact mul_le_mul_of_nonneg_left hn (abs_nonneg a)
  have h3 : |n| ≤ 2 * |S| := by
    have : |n| ≤ |n - S| + |S| := by
      calc |n| = |(n - S) + S| := by ring_nf
        _ ≤ _ := abs_add_le _ _
    have : |S| * e ≤ |S| * 1 := mul_le_mul_of_nonneg_left he1 (abs_nonneg S)
    linarith
  have h4 : |a| * |n| ≤ |a| * (2 * |S|) := mul_le_mul_of_nonneg_left h3 (abs_nonneg a)
  have h5 : |rnd (a * n) - a * S| ≤ |rnd (a * n) - a * n| + |a * n - a * S| := by
    calc _ = |(rnd (a * n) - a * n) + (a * n - a * S)| := by ring_nf
      _ ≤ _ := abs_add_le _ _
  have e1 : |a| * |S| * (e + 1 / 2 ^ 52) = |a| * (|S| * e) + 1 / 2 ^ 53 * (|a| * (2 * |S|)) := by ring
  rw [e1]
  have h6 : 1 / 2 ^ 53 * (|a| * |n|) ≤ 1 / 2 ^ 53 * (|a| * (2 * |S|)) := mul_le_mul_of_nonneg_left h4 (by positivity)
  linarith

/-- bounds on the entries of the looped filters -/
theorem LoopDir64.bound {spin : ℤ} {psi : Arr3 ℂ} {phi : Arr1 ℝ} {X p : ℤ → ℤ → ℝ} (h : LoopDir64 m lg L N J J_min spin psi phi X p)
    (hs : Libm.Special m lg) (hL : L ≤ 2 ^ 53) (hN : 1 ≤ N) (hN' : N ≤ 990) (h0 : 0 ≤ J_min) (h1 : J_min < J) :
    (∀ j l k, ‖psi.v j l k‖ ≤ 2 ^ 53) ∧ ∀ l, |phi.v l| ≤ 2 ^ 53 := by
  have hp : Rep ((2 : ℝ) ^ (53 : ℤ)) := rep_pow (by norm_num)
  have e53 : (2 : ℝ) ^ (53 : ℤ) = 2 ^ 53 := by norm_num
  constructor
  · intro j l k
    rw [h.wav]
    by_cases hr : 0 ≤ j ∧ j < J + 1 ∧ 0 ≤ l ∧ l < L ∧ 0 ≤ k ∧ k < 2 * L - 1
    swap
    · rw [(Arr3.of (J + 1) L (2 * L - 1) _).junk j l k hr, norm_zero]; positivity
    rw [Arr3.of_v _ _ _ _ _ _ _ hr]
    unfold psiG
    split_ifs
    · rw [norm_zero]; positivity
    rw [norm_mul, nuC_norm, one_mul, Complex.norm_real, Real.norm_eq_abs, ← e53]
    refine abs_rnd_le hp ?_
    obtain ⟨q0, q1⟩ := h.lp.range' h.k h0 (show j ≤ J by omega) hr.2.2.1 hr.2.2.2.1
    have := (prod_near q0 q1 (ufac_rl hr.2.2.1 (by omega)).2.le (ufac_le hr.2.2.1 (by omega))
      (sig64_nonneg (m := m) (lg := lg) N l (k - (L - 1))) (sig64_sq hs hN hN').2).2.1
    rw [e53]; exact this
  · intro l
    rw [h.scal]
    by_cases hr : 0 ≤ l ∧ l < L
    swap
    · rw [(Arr1.of L _).junk l hr, abs_zero]; positivity
    rw [Arr1.of_v _ _ _ hr]
    unfold phiD64
    split_ifs
    · rw [abs_zero]; positivity
    rw [← e53]
    refine abs_rnd_le hp ?_
    have a0 := rnd_nonneg (Real.sqrt_nonneg (X J_min l))
    have v0 := (vfac_rl hr.1 (show l < 2 ^ 53 by omega)).2.le
    rw [abs_of_nonneg (mul_nonneg a0 v0), e53]
    calc _ ≤ (2 : ℝ) * 2 ^ 27 := mul_le_mul (h.k.phi_le h0 (by omega) hr.1 hr.2) (vfac_le hr.1 (by omega)) v0 (by norm_num)
      _ ≤ _ := by norm_num

theorem ratioN_le_iff {l s : ℤ} {b : ℝ} : ratioN l s ≤ b ↔ ((l + s).toNat.factorial : ℝ) ≤ b * ((l - s).toNat.factorial : ℝ) := by
  unfold ratioN; rw [div_le_iff₀ (fact_pos' _)]

theorem le_ratioN_iff {l s : ℤ} {b : ℝ} : b ≤ ratioN l s ↔ b * ((l - s).toNat.factorial : ℝ) ≤ ((l + s).toNat.factorial : ℝ) := by
  unfold ratioN; rw [le_div_iff₀ (fact_pos' _)]

/-- the scaled filters, given finite factors of moderate size -/
theorem spin_filters (hm : m.Ok) (hs : Libm.Special m lg) (hT : TopScale jm L 2 J) (hL : L ≤ 2 ^ 53) (hJ : J ≤ 1000)
    (hN : 1 ≤ N) (hN' : N ≤ 990) (h0 : 0 ≤ J_min) (h1 : J_min < J) (spin : ℤ) {spin0 : ℤ} (hs0 : spin0 ≠ 0)
    (hn : ∀ l, max |spin| |spin0| ≤ l → l < L → ∃ z, spin_normalization64 l spin0 = .ok (.fin z) ∧ Rep z ∧ |z| ≤ (2 : ℝ) ^ (900 : ℤ)) :
    ∃ (psi psi0 : Arr3 ℂ) (phi phi0 : Arr1 ℝ),
      filters_directional64 m lg jm L N J_min 2 (max |spin| |spin0|) = .ok (psi0.map C64.ofC, phi0.map F64.fin) ∧
      filters_directional_spin64 m lg jm L N J_min 2 spin spin0 = .ok (psi.map C64.ofC, phi.map F64.fin) ∧
      psi.d = J + 1 ∧ psi.r = L ∧ psi.c = 2 * L - 1 ∧ phi.n = L ∧
      (∀ j l k, psi.v j l k ≠ 0 → max |spin| |spin0| ≤ l ∧ l < L ∧ psi0.v j l k ≠ 0) ∧
      (∀ l, phi.v l ≠ 0 → max |spin| |spin0| ≤ l ∧ l < L ∧ phi0.v l ≠ 0) ∧
      ∀ l, max |spin| |spin0| ≤ l → l < L → ∀ z, spin_normalization64 l spin0 = .ok (.fin z) →
        (∀ j k, psi.v j l k = ⟨rnd ((psi0.v j l k).re * (z * (-1 : ℝ) ^ spin0)), rnd ((psi0.v j l k).im * (z * (-1 : ℝ) ^ spin0))⟩) ∧
        phi.v l = rnd (phi0.v l * (z * (-1 : ℝ) ^ spin0)) := by
  obtain ⟨psi0, phi0, X, p, hf, hd⟩ := loopDir64_exists hm hs hT hL hJ hN hN' h0 h1 (max |spin| |spin0|)
  obtain ⟨b1, b2⟩ := hd.bound hs hL hN hN' h0 h1
  have he0 : 0 ≤ max |spin| |spin0| := le_max_of_le_left (abs_nonneg spin)
  have hd1 : psi0.d = J + 1 := by rw [hd.wav]; rfl
  have hd2 : psi0.r = L := by rw [hd.wav]; rfl
  have hd3 : psi0.c = 2 * L - 1 := by rw [hd.wav]; rfl
  have hd4 : phi0.n = L := by rw [hd.scal]; rfl
  choose! zf hz using hn
  have h900 : (2 : ℝ) ^ (900 : ℤ) ≤ 2 ^ (1000 : ℤ) := zpow_le_zpow_right₀ (by norm_num) (by norm_num)
  have heq := filters_directional_spin64_eq m lg jm L N J_min 2 spin hs0 (nm := fun l => zf l * (-1 : ℝ) ^ spin0) (sn := fun l => .fin (zf l))
    fun l a b => ⟨(hz l a b).1, mul_sign (hz l a b).2.1 ((hz l a b).2.2.trans h900) spin0⟩
  rw [hf, Py.bind_ok] at heq
  generalize max |spin| |spin0| = e at *
  have hsize : ∀ (t z : ℝ), t ≤ 2 ^ 53 → 0 ≤ t → |z| ≤ (2 : ℝ) ^ (900 : ℤ) → t * |z * (-1 : ℝ) ^ spin0| ≤ (2 : ℝ) ^ (1000 : ℤ) := by
    intro t z h1 h2 h3
    have h4 : |z * (-1 : ℝ) ^ spin0| = |z| := by
      rcases neg_one_zpow_cases spin0 with e | e <;> rw [e] <;> simp
    rw [h4]
    calc t * |z| ≤ 2 ^ 53 * (2 : ℝ) ^ (900 : ℤ) := mul_le_mul h1 h3 (abs_nonneg _) (by positivity)
      _ = (2 : ℝ) ^ (953 : ℤ) := by
        rw [show (2 : ℝ) ^ 53 = 2 ^ (53 : ℤ) by norm_num, ← zpow_add₀ (by norm_num)]; norm_num
      _ ≤ _ := zpow_le_zpow_right₀ (by norm_num) (by norm_num)
  have z0 : (0 : ℂ) = ⟨0, 0⟩ := rfl
  refine ⟨Arr3.of (J + 1) L (2 * L - 1) fun j l k => if e ≤ l then
      ⟨rnd ((psi0.v j l k).re * (zf l * (-1 : ℝ) ^ spin0)), rnd ((psi0.v j l k).im * (zf l * (-1 : ℝ) ^ spin0))⟩ else 0, psi0,
    Arr1.of L fun l => if e ≤ l then rnd (phi0.v l * (zf l * (-1 : ℝ) ^ spin0)) else 0, phi0, hf, ?_, rfl, rfl, rfl, rfl, ?_, ?_, ?_⟩
  · rw [heq]
    congr 2
    · unfold scale3 Arr3.map
      simp only [Arr3.of_d, Arr3.of_r, Arr3.of_c, hd1, hd2, hd3]
      refine Arr3.of_congr fun j l k a0 a1 c0 c1 d0 d1 => ?_
      have hr : 0 ≤ j ∧ j < J + 1 ∧ 0 ≤ l ∧ l < L ∧ 0 ≤ k ∧ k < 2 * L - 1 := ⟨a0, a1, c0, c1, d0, d1⟩
      rw [Arr3.of_v _ _ _ _ _ _ _ hr, Arr3.of_v _ _ _ _ _ _ _ hr]
      split_ifs with hel
      · exact C64.mul_fin (hsize _ _ (b1 j l k) (norm_nonneg _) (hz l hel c1).2.2)
      · rfl
    · unfold scale1 Arr1.map
      simp only [Arr1.of_n, hd4]
      refine Arr1.of_congr fun l a0 a1 => ?_
      rw [Arr1.of_v _ _ _ ⟨a0, a1⟩, Arr1.of_v _ _ _ ⟨a0, a1⟩]
      split_ifs with hel
      · rw [F64.mul_fin]
        exact F64.of_fin (by rw [abs_mul]; exact hsize _ _ (b2 l) (abs_nonneg _) (hz l hel a1).2.2)
      · rfl
  · intro j l k hne
    by_cases hr : 0 ≤ j ∧ j < J + 1 ∧ 0 ≤ l ∧ l < L ∧ 0 ≤ k ∧ k < 2 * L - 1
    swap
    · exact absurd (Arr3.junk _ j l k hr) hne
    rw [Arr3.of_v _ _ _ _ _ _ _ hr] at hne
    by_cases hel : e ≤ l
    swap
    · rw [if_neg hel] at hne; exact absurd rfl hne
    refine ⟨hel, hr.2.2.2.1, fun h => hne ?_⟩
    rw [if_pos hel, h]
    simp only [Complex.zero_re, Complex.zero_im, zero_mul, rnd_zero]
    rfl
  · intro l hne
    by_cases hr : 0 ≤ l ∧ l < L
    swap
    · exact absurd (Arr1.junk _ l hr) hne
    rw [Arr1.of_v _ _ _ hr] at hne
    by_cases hel : e ≤ l
    swap
    · rw [if_neg hel] at hne; exact absurd rfl hne
    refine ⟨hel, hr.2, fun h => hne ?_⟩
    rw [if_pos hel, h, zero_mul, rnd_zero]
  · intro l hel hl z hzl
    have ez : zf l = z := by
      have := (hz l hel hl).1
      rw [hzl] at this
      injection this with this
      injection this with this
      exact this.symm
    constructor
    · intro j k
      by_cases hr : 0 ≤ j ∧ j < J + 1 ∧ 0 ≤ l ∧ l < L ∧ 0 ≤ k ∧ k < 2 * L - 1
      · rw [Arr3.of_v _ _ _ _ _ _ _ hr, if_pos hel, ez]
      · rw [Arr3.junk _ j l k hr, psi0.junk j l k (by rw [hd1, hd2, hd3]; exact hr)]
        simp only [Complex.zero_re, Complex.zero_im, zero_mul, rnd_zero]
        rfl
    · have hr : 0 ≤ l ∧ l < L := ⟨by omega, hl⟩
      rw [Arr1.of_v _ _ _ hr, if_pos hel, ez]

/-! ### C114 -/

/-- **C114** `_spin_normalization` in double precision: as long as `(l + |s|)! / (l - |s|)!` stays below `2^999`, the result is
that of exact arithmetic up to a relative error of `(4 |s| + 3) / 2^51`. -/
theorem C114_norm {l s : ℤ} (h : |s| ≤ l) (hl : l + |s| ≤ 2 ^ 53)
    (hr : ((l + |s|).toNat.factorial : ℝ) ≤ 2 ^ (999 : ℤ) * ((l - |s|).toNat.factorial : ℝ)) :
    ∃ x z, spin_normalization l s = .ok x ∧ spin_normalization64 l s = .ok (.fin z) ∧ 0 < x ∧ 0 < z ∧
      |z - x| ≤ x * ((4 * |s| + 3) / 2 ^ 51) := by
  have hr' := ratioN_le_iff.2 hr
  obtain ⟨z, e, -, z0, r⟩ := spin_normalization64_ok h hl hr'
  have hs := spin_small (abs_nonneg s) h hr'
  have hs0 := abs_nonneg s
  rw [← spinN_sq] at r
  have := Rl.of_sq z0 (spinN_pos l s) r (by
    have : (4 * |s| + 3).toNat ≤ 10000 := by omega
    have : (((4 * |s| + 3).toNat : ℕ) : ℝ) ≤ 10000 := by exact_mod_cast this
    linarith)
  refine ⟨_, z, spin_normalization_ok h, e, spinN_pos l s, z0, ?_⟩
  have e1 : (((4 * |s| + 3).toNat : ℕ) : ℝ) = 4 * |(s : ℝ)| + 3 := by
    have : (((4 * |s| + 3).toNat : ℕ) : ℤ) = 4 * |s| + 3 := Int.toNat_of_nonneg (by omega)
    exact_mod_cast this
  rw [e1] at this
  push_cast
  exact this

/-- **C114** where that ratio exceeds `2^1025` the product overflows: the result is infinite for a positive spin and zero for a
negative one, with no exception. -/
theorem C114_overflow {l s : ℤ} (h : |s| ≤ l) (hl : l + |s| ≤ 2 ^ 53) (hs : |s| ≤ 2 ^ 48)
    (hr : 2 ^ (1025 : ℤ) * ((l - |s|).toNat.factorial : ℝ) ≤ ((l + |s|).toNat.factorial : ℝ)) :
    (0 < s → spin_normalization64 l s = .ok .inf) ∧ (s < 0 → spin_normalization64 l s = .ok (.fin 0)) := by
  have := spin_normalization64_inf h hl hs (le_ratioN_iff.2 hr)
  exact ⟨fun h0 => by rw [this, if_pos h0], fun h0 => by rw [this, if_neg (not_lt.2 h0.le)]⟩

/-- **C114** without `spin0` the routine is the one of C106, bit for bit. -/
theorem C114_zero (m : Libm) (lg : F64 → F64) (jm : JMax) (L N J_min : ℤ) (lam : ℝ) (spin : ℤ) :
    filters_directional_spin64 m lg jm L N J_min lam spin 0 = filters_directional64 m lg jm L N J_min lam spin :=
  filters_directional_spin64_zero m lg jm L N J_min lam spin

/-- **C114** the spin-lowered filters for `lam = 2`, as long as the normalisation does not leave the range of doubles at the top
degree: no exception, no infinity, no NaN; they vanish wherever the filters without `spin0` (from the same degree on) do; from that degree
on each entry is the entry without `spin0` times `(-1)^spin0` times the exact normalisation, up to a relative error of
`(|spin0| + 1) / 2^48`. -/
theorem C114_filters (hm : m.Ok) (hs : Libm.Special m lg) (hT : TopScale jm L 2 J) (hJ : J ≤ 1000)
    (hN : 1 ≤ N) (hN' : N ≤ 990) (h0 : 0 ≤ J_min) (h1 : J_min < J) (spin : ℤ) {spin0 : ℤ} (hs0 : spin0 ≠ 0) (hL : L + |spin0| ≤ 2 ^ 53)
    (hr : ((L - 1 + |spin0|).toNat.factorial : ℝ) ≤ 2 ^ (999 : ℤ) * ((L - 1 - |spin0|).toNat.factorial : ℝ)) :
    ∃ (psi psi0 : Arr3 ℂ) (phi phi0 : Arr1 ℝ),
      filters_directional64 m lg jm L N J_min 2 (max |spin| |spin0|) = .ok (psi0.map C64.ofC, phi0.map F64.fin) ∧
      filters_directional_spin64 m lg jm L N J_min 2 spin spin0 = .ok (psi.map C64.ofC, phi.map F64.fin) ∧
      psi.d = J + 1 ∧ psi.r = L ∧ psi.c = 2 * L - 1 ∧ phi.n = L ∧
      (∀ j l k, psi.v j l k ≠ 0 → max |spin| |spin0| ≤ l ∧ l < L ∧ psi0.v j l k ≠ 0) ∧
      (∀ l, phi.v l ≠ 0 → max |spin| |spin0| ≤ l ∧ l < L ∧ phi0.v l ≠ 0) ∧
      ∀ l, max |spin| |spin0| ≤ l → l < L → ∃ x, spin_normalization l spin0 = .ok x ∧ 0 < x ∧
        (∀ j k, ‖psi.v j l k - (((-1 : ℝ) ^ spin0 * x : ℝ) : ℂ) * psi0.v j l k‖ ≤
          (|spin0| + 1) / 2 ^ 48 * (x * ‖psi0.v j l k‖) + 2 ^ (-1074 : ℤ)) ∧
        |phi.v l - (-1 : ℝ) ^ spin0 * x * phi0.v l| ≤ (|spin0| + 1) / 2 ^ 48 * (x * |phi0.v l|) + 2 ^ (-1074 : ℤ) := by
  have ha0 := abs_nonneg spin0
  have hrl : ∀ l, max |spin| |spin0| ≤ l → l < L → ratioN l |spin0| ≤ (2 : ℝ) ^ (999 : ℤ) := fun l a b =>
    (ratioN_mono ha0 ((le_max_right _ _).trans a) (show l ≤ L - 1 by omega)).trans (ratioN_le_iff.2 hr)
  obtain ⟨psi, psi0, phi, phi0, f0, f1, e1, e2, e3, e4, g1, g2, g3⟩ := spin_filters (m := m) (lg := lg) (N := N) (J_min := J_min) hm hs hT (by omega) hJ hN hN' h0 h1 spin hs0
    fun l a b => by
      have hal : |spin0| ≤ l := (le_max_right _ _).trans a
      obtain ⟨z, e, zr, z0, r⟩ := spin_normalization64_ok (l := l) (s := spin0) hal (by omega) (hrl l a b)
      refine ⟨z, e, zr, ?_⟩
      rw [abs_of_pos z0]
      have hb := (r.half (by
        have := spin_small ha0 hal (hrl l a b)
        have : (4 * |spin0| + 3).toNat ≤ 10000 := by omega
        have : (((4 * |spin0| + 3).toNat : ℕ) : ℝ) ≤ 10000 := by exact_mod_cast this
        linarith)).2
      have hu : ratioN l spin0 ≤ (2 : ℝ) ^ (999 : ℤ) := by
        rcases abs_choice spin0 with h | h
        · rw [← h]; exact hrl l a b
        · have h' : spin0 = -|spin0| := by omega
          rw [h', ratioN_neg]
          have q : 1 ≤ ratioN l |spin0| := by rw [← partN_end]; exact partN_ge (by omega)
          exact (inv_le_one_of_one_le₀ q).trans (one_le_zpow₀ (by norm_num) (by norm_num))
      have hz2 : z ^ 2 ≤ ((2 : ℝ) ^ (900 : ℤ)) ^ 2 := by
        refine (hb.trans (mul_le_mul_of_nonneg_left hu (by norm_num))).trans ?_
        refine (le_pow_1000 le_rfl).trans ?_
        rw [← zpow_natCast, ← zpow_mul]
        exact zpow_le_zpow_right₀ (by norm_num) (by norm_num)
      exact (abs_le_of_sq_le_sq' hz2 (by positivity)).2
  refine ⟨psi, psi0, phi, phi0, f0, f1, e1, e2, e3, e4, g1, g2, fun l a b => ?_⟩
  have hal : |spin0| ≤ l := (le_max_right _ _).trans a
  obtain ⟨x, z, hx, hz, x0, z0, hxz⟩ := C114_norm (l := l) (s := spin0) hal (by omega) (ratioN_le_iff.1 (hrl l a b))
  obtain ⟨w1, w2⟩ := g3 l a b z hz
  have hsm := spin_small ha0 hal (hrl l a b)
  have hsm' : |(spin0 : ℝ)| ≤ 999 := by exact_mod_cast hsm
  have hS : |(-1 : ℝ) ^ spin0 * x| = x := by
    rcases neg_one_zpow_cases spin0 with e | e <;> rw [e] <;> simp [abs_of_pos x0]
  have hn : |z * (-1 : ℝ) ^ spin0 - (-1 : ℝ) ^ spin0 * x| ≤ |(-1 : ℝ) ^ spin0 * x| * ((4 * |(spin0 : ℝ)| + 3) / 2 ^ 51) := by
    rw [hS]
    push_cast at hxz
    have : |z * (-1 : ℝ) ^ spin0 - (-1 : ℝ) ^ spin0 * x| = |z - x| := by
      rcases neg_one_zpow_cases spin0 with e | e <;> rw [e]
      · simp
      · rw [← abs_neg]; congr 1; ring
    rw [this]; exact hxz
  have q0 : (0 : ℝ) ≤ |(spin0 : ℝ)| := abs_nonneg _
  have hE : ∀ y : ℝ, |rnd (y * (z * (-1 : ℝ) ^ spin0)) - y * ((-1 : ℝ) ^ spin0 * x)| ≤
      |y| * x * ((|(spin0 : ℝ)| + 1) / 2 ^ 49) + (2 : ℝ) ^ (-1075 : ℤ) := fun y => by
    have := scaled_err (a := y) hn (by positivity) (by
      rw [div_le_one (by positivity)]
      norm_num; linarith)
    rw [hS] at this
    refine this.trans (add_le_add_left (mul_le_mul_of_nonneg_left ?_ (mul_nonneg (abs_nonneg y) x0.le)) _)
    norm_num; linarith
  have e75 : (2 : ℝ) ^ (-1074 : ℤ) = 2 ^ (-1075 : ℤ) + 2 ^ (-1075 : ℤ) := by
    rw [show (-1074 : ℤ) = -1075 + 1 by norm_num, zpow_add₀ (by norm_num), zpow_one]; ring
  have p75 : (0 : ℝ) < (2 : ℝ) ^ (-1075 : ℤ) := by positivity
  refine ⟨x, hx, x0, fun j k => ?_, ?_⟩
  · rw [w1]
    have t := Complex.norm_le_abs_re_add_abs_im (⟨rnd ((psi0.v j l k).re * (z * (-1 : ℝ) ^ spin0)), rnd ((psi0.v j l k).im * (z * (-1 : ℝ) ^ spin0))⟩ -
      (((-1 : ℝ) ^ spin0 * x : ℝ) : ℂ) * psi0.v j l k)
    refine t.trans ?_
    rw [Complex.sub_re, Complex.sub_im, Complex.re_ofReal_mul, Complex.im_ofReal_mul]
    simp only
    have a1 := hE (psi0.v j l k).re
    have a2 := hE (psi0.v j l k).im
    rw [mul_comm _ ((-1 : ℝ) ^ spin0 * x)] at a1 a2
    have n1 := Complex.abs_re_le_norm (psi0.v j l k)
    have n2 := Complex.abs_im_le_norm (psi0.v j l k)
    have q1 : (0 : ℝ) ≤ x * ((|(spin0 : ℝ)| + 1) / 2 ^ 49) := by positivity
    have m1 := mul_le_mul_of_nonneg_right n1 q1
    have m2 := mul_le_mul_of_nonneg_right n2 q1
    rw [e75]
    push_cast
    have e5 : (|(spin0 : ℝ)| + 1) / 2 ^ 48 * (x * ‖psi0.v j l k‖) = ‖psi0.v j l k‖ * (x * ((|(spin0 : ℝ)| + 1) / 2 ^ 49)) + ‖psi0.v j l k‖ * (x * ((|(spin0 : ℝ)| + 1) / 2 ^ 49)) := by ring
    rw [e5]
    rw [mul_assoc |_| x] at a1 a2
    linarith
  · rw [w2]
    have a1 := hE (phi0.v l)
    rw [mul_comm (phi0.v l) ((-1 : ℝ) ^ spin0 * x)] at a1
    rw [e75]
    push_cast
    have q1 : (0 : ℝ) ≤ |phi0.v l| * x * ((|(spin0 : ℝ)| + 1) / 2 ^ 49) := by positivity
    have e5 : (|(spin0 : ℝ)| + 1) / 2 ^ 48 * (x * |phi0.v l|) = |phi0.v l| * x * ((|(spin0 : ℝ)| + 1) / 2 ^ 49) + |phi0.v l| * x * ((|(spin0 : ℝ)| + 1) / 2 ^ 49) := by ring
    rw [e5]
    linarith

/-- **C114** for a negative `spin0` of any size the routine returns finite filters without an exception, but at every degree where the
product overflows they are exactly zero, although the normalisation of exact arithmetic is positive there. -/
theorem C114_lost (hm : m.Ok) (hs : Libm.Special m lg) (hT : TopScale jm L 2 J) (hJ : J ≤ 1000)
    (hN : 1 ≤ N) (hN' : N ≤ 990) (h0 : 0 ≤ J_min) (h1 : J_min < J) (spin : ℤ) {spin0 : ℤ} (hs0 : spin0 < 0) (hs1 : |spin0| ≤ 2 ^ 48)
    (hL : L + |spin0| ≤ 2 ^ 53) :
    ∃ (psi : Arr3 ℂ) (phi : Arr1 ℝ),
      filters_directional_spin64 m lg jm L N J_min 2 spin spin0 = .ok (psi.map C64.ofC, phi.map F64.fin) ∧
      ∀ l, 2 ^ (1025 : ℤ) * ((l - |spin0|).toNat.factorial : ℝ) ≤ ((l + |spin0|).toNat.factorial : ℝ) →
        (∀ j k, psi.v j l k = 0) ∧ phi.v l = 0 ∧ (|spin0| ≤ l → ∃ x, spin_normalization l spin0 = .ok x ∧ 0 < x) := by
  obtain ⟨psi, psi0, phi, phi0, f0, f1, e1, e2, e3, e4, g1, g2, g3⟩ := spin_filters (m := m) (lg := lg) (N := N) (J_min := J_min) hm hs hT (by have := abs_nonneg spin0; omega) hJ hN hN' h0 h1 spin hs0.ne
    fun l a b => by
      have hal : |spin0| ≤ l := (le_max_right _ _).trans a
      obtain ⟨z, e, zr, z0, z2⟩ := spin_normalization64_neg (l := l) (s := spin0) hal (by omega) hs1 hs0
      refine ⟨z, e, zr, ?_⟩
      rw [abs_of_nonneg z0]
      refine z2.trans ?_
      have : (2 : ℝ) ^ (1 : ℤ) ≤ 2 ^ (900 : ℤ) := zpow_le_zpow_right₀ (by norm_num) (by norm_num)
      simpa using this
  refine ⟨psi, phi, f1, fun l hl => ?_⟩
  rw [← and_assoc]
  refine ⟨?_, fun h => ⟨_, spin_normalization_ok h, spinN_pos l spin0⟩⟩
  by_cases hlr : max |spin| |spin0| ≤ l ∧ l < L
  · obtain ⟨a, b⟩ := hlr
    have hal : |spin0| ≤ l := (le_max_right _ _).trans a
    have hz := (C114_overflow (l := l) (s := spin0) hal (by omega) hs1 hl).2 hs0
    obtain ⟨w1, w2⟩ := g3 l a b 0 hz
    refine ⟨fun j k => ?_, ?_⟩
    · rw [w1]; simp only [zero_mul, mul_zero, rnd_zero]; rfl
    · rw [w2, zero_mul, mul_zero, rnd_zero]
  · refine ⟨fun j k => ?_, ?_⟩
    · by_contra h; exact hlr ⟨(g1 j l k h).1, (g1 j l k h).2.1⟩
    · by_contra h; exact hlr ⟨(g2 l h).1, (g2 l h).2.1⟩

/-- a normalisation within range: `sqrt(5! / 1!)` at degree 3, spin 2 -/
example : ∃ z, spin_normalization64 3 2 = .ok (.fin z) ∧ |z - Real.sqrt 120| ≤ Real.sqrt 120 * (11 / 2 ^ 51) := by
  have hr : (((3 + |2| : ℤ)).toNat.factorial : ℝ) ≤ 2 ^ (999 : ℤ) * (((3 - |2| : ℤ)).toNat.factorial : ℝ) := by
    have e1 : ((3 + |2| : ℤ)).toNat.factorial = 120 := by decide
    have e2 : ((3 - |2| : ℤ)).toNat.factorial = 1 := by decide
    rw [e1, e2]
    have : (2 : ℝ) ^ (7 : ℤ) ≤ 2 ^ (999 : ℤ) := zpow_le_zpow_right₀ (by norm_num) (by norm_num)
    push_cast
    rw [mul_one]
    exact le_trans (by norm_num) this
  obtain ⟨x, z, hx, hz, x0, z0, h⟩ := C114_norm (l := 3) (s := 2) (by decide) (by decide) hr
  rw [spin_normalization_ok (by decide)] at hx
  injection hx with hx
  have e : spinN 3 2 = Real.sqrt 120 := by
    unfold spinN
    have e1 : ((3 + 2 : ℤ)).toNat.factorial = 120 := by decide
    have e2 : ((3 - 2 : ℤ)).toNat.factorial = 1 := by decide
    rw [e1, e2]; norm_num
  rw [e] at hx
  refine ⟨z, hz, ?_⟩
  rw [hx]
  norm_num at h ⊢
  exact h

theorem fact_pow (a n : ℕ) : (((a + 1) ^ n : ℕ) : ℝ) * (a.factorial : ℝ) ≤ ((a + n).factorial : ℝ) := by
  rw [mul_comm, ← Nat.cast_mul]; exact Nat.cast_le.2 Nat.factorial_mul_pow_le_factorial

/-- an overflow: degree 1000, spin 60 -/
theorem overflow_1000 : 2 ^ (1025 : ℤ) * ((1000 - |60| : ℤ).toNat.factorial : ℝ) ≤ ((1000 + |60| : ℤ).toNat.factorial : ℝ) := by
  have e1 : (1000 - |60| : ℤ).toNat = 940 := by decide
  have e2 : (1000 + |60| : ℤ).toNat = 940 + 120 := by decide
  rw [e1, e2]
  have b : (2 : ℝ) ^ (1025 : ℤ) ≤ (((940 + 1) ^ 120 : ℕ) : ℝ) := by
    have h1 : (2 : ℝ) ^ (1025 : ℤ) = 2 ^ 1025 := zpow_natCast (2 : ℝ) 1025
    have h2 : ((2 ^ 9 : ℕ) : ℝ) ^ 120 ≤ ((940 + 1 : ℕ) : ℝ) ^ 120 := pow_le_pow_left₀ (by positivity) (by norm_num) 120
    have h3 : (2 : ℝ) ^ 1025 ≤ ((2 ^ 9 : ℕ) : ℝ) ^ 120 := by
      rw [Nat.cast_pow, ← pow_mul]; exact pow_le_pow_right₀ (by norm_num) (by norm_num)
    rw [h1, Nat.cast_pow]
    exact h3.trans h2
  exact (mul_le_mul_of_nonneg_right b (fact_pos' _).le).trans (fact_pow 940 120)

example : spin_normalization64 1000 60 = .ok .inf ∧ spin_normalization64 1000 (-60) = .ok (.fin 0) :=
  ⟨(C114_overflow (by decide) (by decide) (by decide) overflow_1000).1 (by norm_num),
    (C114_overflow (l := 1000) (s := -60) (by decide) (by decide) (by decide) (by rw [abs_neg]; exact overflow_1000)).2 (by norm_num)⟩

/-- spin-lowered filters at `L = 16` with `spin0 = 2` -/
example : ∃ (psi psi0 : Arr3 ℂ) (phi phi0 : Arr1 ℝ),
    filters_directional64 Libm.exact lgExact j_max 16 3 0 2 2 = .ok (psi0.map C64.ofC, phi0.map F64.fin) ∧
    filters_directional_spin64 Libm.exact lgExact j_max 16 3 0 2 0 2 = .ok (psi.map C64.ofC, phi.map F64.fin) ∧
    ∀ j k, ‖psi.v j 3 k - (Real.sqrt 120 : ℂ) * psi0.v j 3 k‖ ≤ 3 / 2 ^ 48 * (Real.sqrt 120 * ‖psi0.v j 3 k‖) + 2 ^ (-1074 : ℤ) := by
  have hJ : j_max 16 2 = .ok 4 := by
    have h := j_max_eq (L := 16) (lam := 2) (by norm_num) (by norm_num)
    rw [h]
    have : Real.log ((16 : ℤ) : ℝ) / Real.log 2 = 4 := by
      rw [div_eq_iff (Real.log_pos (by norm_num)).ne']
      have : ((16 : ℤ) : ℝ) = 2 ^ 4 := by norm_num
      rw [this, Real.log_pow]; norm_num
    rw [this]; norm_num
  have hT := TopScale.of_j_max (L := 16) (lam := 2) (by norm_num) (by norm_num) hJ
  have e2 : |(2 : ℤ)| = 2 := by decide
  have em : max |(0 : ℤ)| |(2 : ℤ)| = 2 := by decide
  have hr : ((16 - 1 + |2| : ℤ).toNat.factorial : ℝ) ≤ 2 ^ (999 : ℤ) * ((16 - 1 - |2| : ℤ).toNat.factorial : ℝ) := by
    have a1 : (16 - 1 + |2| : ℤ).toNat = 17 := by decide
    have a2 : (16 - 1 - |2| : ℤ).toNat = 13 := by decide
    rw [a1, a2]
    have : (2 : ℝ) ^ (60 : ℤ) ≤ 2 ^ (999 : ℤ) := zpow_le_zpow_right₀ (by norm_num) (by norm_num)
    refine le_trans ?_ (mul_le_mul_of_nonneg_right this (fact_pos' _).le)
    norm_num [Nat.factorial]
  obtain ⟨psi, psi0, phi, phi0, f0, f1, -, -, -, -, -, -, g⟩ := C114_filters (N := 3) Libm.exact_ok lgExact_special hT (by norm_num) (by norm_num) (by norm_num) le_rfl
    (by norm_num : (0 : ℤ) < 4) 0 (spin0 := 2) (by norm_num) (by decide) hr
  rw [em] at f0 g
  refine ⟨psi, psi0, phi, phi0, f0, f1, fun j k => ?_⟩
  obtain ⟨x, hx, -, h, -⟩ := g 3 (by norm_num) (by norm_num)
  rw [spin_normalization_ok (by decide)] at hx
  injection hx with hx
  have e : spinN 3 2 = Real.sqrt 120 := by
    unfold spinN
    have e1 : ((3 + 2 : ℤ)).toNat.factorial = 120 := by decide
    have e2 : ((3 - 2 : ℤ)).toNat.factorial = 1 := by decide
    rw [e1, e2]; norm_num
  rw [← hx, e] at h
  have := h j k
  rw [show (-1 : ℝ) ^ (2 : ℤ) = 1 by norm_num, one_mul, e2] at this
  refine this.trans (le_of_eq ?_)
  norm_num

/-- at `L = 1024` with `spin0 = -60` the degree 1000 is lost -/
example : ∃ (psi : Arr3 ℂ) (phi : Arr1 ℝ),
    filters_directional_spin64 Libm.exact lgExact j_max 1024 3 0 2 0 (-60) = .ok (psi.map C64.ofC, phi.map F64.fin) ∧
    ∀ j k, psi.v j 1000 k = 0 := by
  have hJ : j_max 1024 2 = .ok 10 := by
    have h := j_max_eq (L := 1024) (lam := 2) (by norm_num) (by norm_num)
    rw [h]
    have : Real.log ((1024 : ℤ) : ℝ) / Real.log 2 = 10 := by
      rw [div_eq_iff (Real.log_pos (by norm_num)).ne']
      have : ((1024 : ℤ) : ℝ) = 2 ^ 10 := by norm_num
      rw [this, Real.log_pow]; norm_num
    rw [this]; norm_num
  have hT := TopScale.of_j_max (L := 1024) (lam := 2) (by norm_num) (by norm_num) hJ
  obtain ⟨psi, phi, f, g⟩ := C114_lost (N := 3) Libm.exact_ok lgExact_special hT (by norm_num) (by norm_num) (by norm_num) le_rfl
    (by norm_num : (0 : ℤ) < 10) 0 (spin0 := -60) (by norm_num) (by decide) (by decide)
  exact ⟨psi, phi, f, (g 1000 (by rw [abs_neg]; exact overflow_1000)).1⟩

end S2wav
