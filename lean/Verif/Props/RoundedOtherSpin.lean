import Verif.Props.RoundedSpin
import Verif.Props.RoundedOtherLooped

/-! # C134: spin-lowered filters (`spin0`) in double precision with `lam = 3`, `4` and `8`

`filters_directional(..., spin0)` (`Model/IeeeSpin.lean`) in IEEE double precision, with the dilation parameters other than 2 whose generating
function stays finite and accurate: the counterpart of C114. -/

namespace S2wav
open Classical

namespace Gen

variable {m : Libm} {lg : F64 → F64} {jm : JMax} {L N J J_min : ℤ} {lam : ℝ}

/-- bounds on the entries of the looped filters -/
theorem LoopDir64.bound [hlf : Fact (1 < lam)] {spin : ℤ} {psi : Arr3 ℂ} {phi : Arr1 ℝ} {X p : ℤ → ℤ → ℝ} (h : LoopDir64 lam m lg L N J J_min spin psi phi X p)
    (hs : Libm.Special m lg) (hL : L ≤ 2 ^ 53) (hN : 1 ≤ N) (hN' : N ≤ 990) (h0 : 0 ≤ J_min) (h1 : J_min < J) :
    (∀ j l k, ‖psi.v j l k‖ ≤ 2 ^ 53) ∧ ∀ l, |phi.v l| ≤ 2 ^ 53 := by
  have hp : Rep ((2 : ℝ) ^ (53 : ℤ)) := rep_pow (by norm_num)
  have e53 : (2 : ℝ) ^ (53 : ℤ) = 2 ^ 53 := by norm_num
  constructor
  · intro j l k
    rw [h.wav]
    by_cases hr : 0 ≤ j ∧ j < J + 1 ∧ 0 ≤ l ∧ l < L ∧ 0 ≤ k ∧ k < 2 * L - 1
    swap
    · rw [(Arr3.of (J + 1) L (2 * L - 1) _).junk j l k hr, norm_zero]; positivity
    rw [Arr3.of_v _ _ _ _ _ _ _ hr]
    unfold psiG
    split_ifs
    · rw [norm_zero]; positivity
    rw [norm_mul, nuC_norm, one_mul, Complex.norm_real, Real.norm_eq_abs, ← e53]
    refine abs_rnd_le hp ?_
    obtain ⟨q0, q1⟩ := h.lp.range' h.k h0 (show j ≤ J by omega) hr.2.2.1 hr.2.2.2.1
    have := (prod_near q0 q1 (ufac_rl hr.2.2.1 (by omega)).2.le (ufac_le hr.2.2.1 (by omega))
      (sig64_nonneg (m := m) (lg := lg) N l (k - (L - 1))) (sig64_sq hs hN hN').2).2.1
    rw [e53]; exact this
  · intro l
    rw [h.scal]
    by_cases hr : 0 ≤ l ∧ l < L
    swap
    · rw [(Arr1.of L _).junk l hr, abs_zero]; positivity
    rw [Arr1.of_v _ _ _ hr]
    unfold phiD64
    split_ifs
    · rw [abs_zero]; positivity
    rw [← e53]
    refine abs_rnd_le hp ?_
    have a0 := rnd_nonneg (Real.sqrt_nonneg (X J_min l))
    have v0 := (vfac_rl hr.1 (show l < 2 ^ 53 by omega)).2.le
    rw [abs_of_nonneg (mul_nonneg a0 v0), e53]
    calc _ ≤ (2 : ℝ) * 2 ^ 27 := mul_le_mul (h.k.phi_le h0 (by omega) hr.1 hr.2) (vfac_le hr.1 (by omega)) v0 (by norm_num)
      _ ≤ _ := by norm_num

/-- the scaled filters, given finite factors of moderate size -/
theorem spin_filters [hlf : Fact (1 < lam)] (hK : KOk m jm lam L J) (hs : Libm.Special m lg) (hT : TopScale jm L lam J) (hL : L ≤ 2 ^ 53) (hJ : J ≤ 1000)
    (hN : 1 ≤ N) (hN' : N ≤ 990) (h0 : 0 ≤ J_min) (h1 : J_min < J) (spin : ℤ) {spin0 : ℤ} (hs0 : spin0 ≠ 0)
    (hn : ∀ l, max |spin| |spin0| ≤ l → l < L → ∃ z, spin_normalization64 l spin0 = .ok (.fin z) ∧ Rep z ∧ |z| ≤ (2 : ℝ) ^ (900 : ℤ)) :
    ∃ (psi psi0 : Arr3 ℂ) (phi phi0 : Arr1 ℝ),
      filters_directional64 m lg jm L N J_min lam (max |spin| |spin0|) = .ok (psi0.map C64.ofC, phi0.map F64.fin) ∧
      filters_directional_spin64 m lg jm L N J_min lam spin spin0 = .ok (psi.map C64.ofC, phi.map F64.fin) ∧
      psi.d = J + 1 ∧ psi.r = L ∧ psi.c = 2 * L - 1 ∧ phi.n = L ∧
      (∀ j l k, psi.v j l k ≠ 0 → max |spin| |spin0| ≤ l ∧ l < L ∧ psi0.v j l k ≠ 0) ∧
      (∀ l, phi.v l ≠ 0 → max |spin| |spin0| ≤ l ∧ l < L ∧ phi0.v l ≠ 0) ∧
      ∀ l, max |spin| |spin0| ≤ l → l < L → ∀ z, spin_normalization64 l spin0 = .ok (.fin z) →
        (∀ j k, psi.v j l k = ⟨rnd ((psi0.v j l k).re * (z * (-1 : ℝ) ^ spin0)), rnd ((psi0.v j l k).im * (z * (-1 : ℝ) ^ spin0))⟩) ∧
        phi.v l = rnd (phi0.v l * (z * (-1 : ℝ) ^ spin0)) := by
  obtain ⟨psi0, -, phi0, X, p, hf, -, hd⟩ := loopDir64_exists hK hs hT hL hJ hN hN' h0 h1 (max |spin| |spin0|)
  obtain ⟨b1, b2⟩ := hd.bound hs hL hN hN' h0 h1
  have he0 : 0 ≤ max |spin| |spin0| := le_max_of_le_left (abs_nonneg spin)
  have hd1 : psi0.d = J + 1 := by rw [hd.wav]; rfl
  have hd2 : psi0.r = L := by rw [hd.wav]; rfl
  have hd3 : psi0.c = 2 * L - 1 := by rw [hd.wav]; rfl
  have hd4 : phi0.n = L := by rw [hd.scal]; rfl
  choose! zf hz using hn
  have h900 : (2 : ℝ) ^ (900 : ℤ) ≤ 2 ^ (1000 : ℤ) := zpow_le_zpow_right₀ (by norm_num) (by norm_num)
  have heq := filters_directional_spin64_eq m lg jm L N J_min lam spin hs0 (nm := fun l => zf l * (-1 : ℝ) ^ spin0) (sn := fun l => .fin (zf l))
    fun l a b => ⟨(hz l a b).1, mul_sign (hz l a b).2.1 ((hz l a b).2.2.trans h900) spin0⟩
  rw [hf, Py.bind_ok] at heq
  generalize max |spin| |spin0| = e at *
  have hsize : ∀ (t z : ℝ), t ≤ 2 ^ 53 → 0 ≤ t → |z| ≤ (2 : ℝ) ^ (900 : ℤ) → t * |z * (-1 : ℝ) ^ spin0| ≤ (2 : ℝ) ^ (1000 : ℤ) := by
    intro t z h1 h2 h3
    have h4 : |z * (-1 : ℝ) ^ spin0| = |z| := by
      rcases neg_one_zpow_cases spin0 with e | e <;> rw [e] <;> simp
    rw [h4]
    calc t * |z| ≤ 2 ^ 53 * (2 : ℝ) ^ (900 : ℤ) := mul_le_mul h1 h3 (abs_nonneg _) (by positivity)
      _ = (2 : ℝ) ^ (953 : ℤ) := by
        rw [show (2 : ℝ) ^ 53 = 2 ^ (53 : ℤ) by norm_num, ← zpow_add₀ (by norm_num)]; norm_num
      _ ≤ _ := zpow_le_zpow_right₀ (by norm_num) (by norm_num)
  have z0 : (0 : ℂ) = ⟨0, 0⟩ := rfl
  refine ⟨Arr3.of (J + 1) L (2 * L - 1) fun j l k => if e ≤ l then
      ⟨rnd ((psi0.v j l k).re * (zf l * (-1 : ℝ) ^ spin0)), rnd ((psi0.v j l k).im * (zf l * (-1 : ℝ) ^ spin0))⟩ else 0, psi0,
    Arr1.of L fun l => if e ≤ l then rnd (phi0.v l * (zf l * (-1 : ℝ) ^ spin0)) else 0, phi0, hf, ?_, rfl, rfl, rfl, rfl, ?_, ?_, ?_⟩
  · rw [heq]
    congr 2
    · unfold scale3 Arr3.map
      simp only [Arr3.of_d, Arr3.of_r, Arr3.of_c, hd1, hd2, hd3]
      refine Arr3.of_congr fun j l k a0 a1 c0 c1 d0 d1 => ?_
      have hr : 0 ≤ j ∧ j < J + 1 ∧ 0 ≤ l ∧ l < L ∧ 0 ≤ k ∧ k < 2 * L - 1 := ⟨a0, a1, c0, c1, d0, d1⟩
      rw [Arr3.of_v _ _ _ _ _ _ _ hr, Arr3.of_v _ _ _ _ _ _ _ hr]
      split_ifs with hel
      · exact C64.mul_fin (hsize _ _ (b1 j l k) (norm_nonneg _) (hz l hel c1).2.2)
      · rfl
    · unfold scale1 Arr1.map
      simp only [Arr1.of_n, hd4]
      refine Arr1.of_congr fun l a0 a1 => ?_
      rw [Arr1.of_v _ _ _ ⟨a0, a1⟩, Arr1.of_v _ _ _ ⟨a0, a1⟩]
      split_ifs with hel
      · rw [F64.mul_fin]
        exact F64.of_fin (by rw [abs_mul]; exact hsize _ _ (b2 l) (abs_nonneg _) (hz l hel a1).2.2)
      · rfl
  · intro j l k hne
    by_cases hr : 0 ≤ j ∧ j < J + 1 ∧ 0 ≤ l ∧ l < L ∧ 0 ≤ k ∧ k < 2 * L - 1
    swap
    · exact absurd (Arr3.junk _ j l k hr) hne
    rw [Arr3.of_v _ _ _ _ _ _ _ hr] at hne
    by_cases hel : e ≤ l
    swap
    · rw [if_neg hel] at hne; exact absurd rfl hne
    refine ⟨hel, hr.2.2.2.1, fun h => hne ?_⟩
    rw [if_pos hel, h]
    simp only [Complex.zero_re, Complex.zero_im, zero_mul, rnd_zero]
    rfl
  · intro l hne
    by_cases hr : 0 ≤ l ∧ l < L
    swap
    · exact absurd (Arr1.junk _ l hr) hne
    rw [Arr1.of_v _ _ _ hr] at hne
    by_cases hel : e ≤ l
    swap
    · rw [if_neg hel] at hne; exact absurd rfl hne
    refine ⟨hel, hr.2, fun h => hne ?_⟩
    rw [if_pos hel, h, zero_mul, rnd_zero]
  · intro l hel hl z hzl
    have ez : zf l = z := by
      have := (hz l hel hl).1
      rw [hzl] at this
      injection this with this
      injection this with this
      exact this.symm
    constructor
    · intro j k
      by_cases hr : 0 ≤ j ∧ j < J + 1 ∧ 0 ≤ l ∧ l < L ∧ 0 ≤ k ∧ k < 2 * L - 1
      · rw [Arr3.of_v _ _ _ _ _ _ _ hr, if_pos hel, ez]
      · rw [Arr3.junk _ j l k hr, psi0.junk j l k (by rw [hd1, hd2, hd3]; exact hr)]
        simp only [Complex.zero_re, Complex.zero_im, zero_mul, rnd_zero]
        rfl
    · have hr : 0 ≤ l ∧ l < L := ⟨by omega, hl⟩
      rw [Arr1.of_v _ _ _ hr, if_pos hel, ez]

end Gen

/-! ### The properties -/

variable {m : Libm} {lg : F64 → F64} {jm : JMax} {L N J J_min : ℤ} {lam : ℝ}

/-- **C134** the spin-lowered filters for `lam = 3`, `4` and `8`, as long as the normalisation does not leave the range of doubles at the top
degree: no exception, no infinity, no NaN; they vanish wherever the filters without `spin0` (from the same degree on) do; from that degree
on each entry is the entry without `spin0` times `(-1)^spin0` times the exact normalisation, up to a relative error of
`(|spin0| + 1) / 2^48`. -/
theorem C134_filters (hm : m.Ok) (hor : OtherRange m lam L J) (hs : Libm.Special m lg) (hT : TopScale jm L lam J)
    (hN : 1 ≤ N) (hN' : N ≤ 990) (h0 : 0 ≤ J_min) (h1 : J_min < J) (spin : ℤ) {spin0 : ℤ} (hs0 : spin0 ≠ 0) (hL : L + |spin0| ≤ 2 ^ 53)
    (hr : ((L - 1 + |spin0|).toNat.factorial : ℝ) ≤ 2 ^ (999 : ℤ) * ((L - 1 - |spin0|).toNat.factorial : ℝ)) :
    ∃ (psi psi0 : Arr3 ℂ) (phi phi0 : Arr1 ℝ),
      filters_directional64 m lg jm L N J_min lam (max |spin| |spin0|) = .ok (psi0.map C64.ofC, phi0.map F64.fin) ∧
      filters_directional_spin64 m lg jm L N J_min lam spin spin0 = .ok (psi.map C64.ofC, phi.map F64.fin) ∧
      psi.d = J + 1 ∧ psi.r = L ∧ psi.c = 2 * L - 1 ∧ phi.n = L ∧
      (∀ j l k, psi.v j l k ≠ 0 → max |spin| |spin0| ≤ l ∧ l < L ∧ psi0.v j l k ≠ 0) ∧
      (∀ l, phi.v l ≠ 0 → max |spin| |spin0| ≤ l ∧ l < L ∧ phi0.v l ≠ 0) ∧
      ∀ l, max |spin| |spin0| ≤ l → l < L → ∃ x, spin_normalization l spin0 = .ok x ∧ 0 < x ∧
        (∀ j k, ‖psi.v j l k - (((-1 : ℝ) ^ spin0 * x : ℝ) : ℂ) * psi0.v j l k‖ ≤
          (|spin0| + 1) / 2 ^ 48 * (x * ‖psi0.v j l k‖) + 2 ^ (-1074 : ℤ)) ∧
        |phi.v l - (-1 : ℝ) ^ spin0 * x * phi0.v l| ≤ (|spin0| + 1) / 2 ^ 48 * (x * |phi0.v l|) + 2 ^ (-1074 : ℤ) := by
  obtain ⟨hK, -, hJ, hl, -⟩ := other_kOk hm hor hT
  haveI : Fact (1 < lam) := ⟨hl⟩
  have ha0 := abs_nonneg spin0
  have hrl : ∀ l, max |spin| |spin0| ≤ l → l < L → ratioN l |spin0| ≤ (2 : ℝ) ^ (999 : ℤ) := fun l a b =>
    (ratioN_mono ha0 ((le_max_right _ _).trans a) (show l ≤ L - 1 by omega)).trans (ratioN_le_iff.2 hr)
  obtain ⟨psi, psi0, phi, phi0, f0, f1, e1, e2, e3, e4, g1, g2, g3⟩ := Gen.spin_filters (m := m) (lg := lg) (N := N) (J_min := J_min) hK hs hT (by omega) (by omega) hN hN' h0 h1 spin hs0
    fun l a b => by
      have hal : |spin0| ≤ l := (le_max_right _ _).trans a
      obtain ⟨z, e, zr, z0, r⟩ := spin_normalization64_ok (l := l) (s := spin0) hal (by omega) (hrl l a b)
      refine ⟨z, e, zr, ?_⟩
      rw [abs_of_pos z0]
      have hb := (r.half (by
        have := spin_small ha0 hal (hrl l a b)
        have : (4 * |spin0| + 3).toNat ≤ 10000 := by omega
        have : (((4 * |spin0| + 3).toNat : ℕ) : ℝ) ≤ 10000 := by exact_mod_cast this
        linarith)).2
      have hu : ratioN l spin0 ≤ (2 : ℝ) ^ (999 : ℤ) := by
        rcases abs_choice spin0 with h | h
        · rw [← h]; exact hrl l a b
        · have h' : spin0 = -|spin0| := by omega
          rw [h', ratioN_neg]
          have q : 1 ≤ ratioN l |spin0| := by rw [← partN_end]; exact partN_ge (by omega)
          exact (inv_le_one_of_one_le₀ q).trans (one_le_zpow₀ (by norm_num) (by norm_num))
      have hz2 : z ^ 2 ≤ ((2 : ℝ) ^ (900 : ℤ)) ^ 2 := by
        refine (hb.trans (mul_le_mul_of_nonneg_left hu (by norm_num))).trans ?_
        refine (le_pow_1000 le_rfl).trans ?_
        rw [← zpow_natCast, ← zpow_mul]
        exact zpow_le_zpow_right₀ (by norm_num) (by norm_num)
      exact (abs_le_of_sq_le_sq' hz2 (by positivity)).2
  refine ⟨psi, psi0, phi, phi0, f0, f1, e1, e2, e3, e4, g1, g2, fun l a b => ?_⟩
  have hal : |spin0| ≤ l := (le_max_right _ _).trans a
  obtain ⟨x, z, hx, hz, x0, z0, hxz⟩ := C114_norm (l := l) (s := spin0) hal (by omega) (ratioN_le_iff.1 (hrl l a b))
  obtain ⟨w1, w2⟩ := g3 l a b z hz
  have hsm := spin_small ha0 hal (hrl l a b)
  have hsm' : |(spin0 : ℝ)| ≤ 999 := by exact_mod_cast hsm
  have hS : |(-1 : ℝ) ^ spin0 * x| = x := by
    rcases neg_one_zpow_cases spin0 with e | e <;> rw [e] <;> simp [abs_of_pos x0]
  have hn : |z * (-1 : ℝ) ^ spin0 - (-1 : ℝ) ^ spin0 * x| ≤ |(-1 : ℝ) ^ spin0 * x| * ((4 * |(spin0 : ℝ)| + 3) / 2 ^ 51) := by
    rw [hS]
    push_cast at hxz
    have : |z * (-1 : ℝ) ^ spin0 - (-1 : ℝ) ^ spin0 * x| = |z - x| := by
      rcases neg_one_zpow_cases spin0 with e | e <;> rw [e]
      · simp
      · rw [← abs_neg]; congr 1; ring
    rw [this]; exact hxz
  have q0 : (0 : ℝ) ≤ |(spin0 : ℝ)| := abs_nonneg _
  have hE : ∀ y : ℝ, |rnd (y * (z * (-1 : ℝ) ^ spin0)) - y * ((-1 : ℝ) ^ spin0 * x)| ≤
      |y| * x * ((|(spin0 : ℝ)| + 1) / 2 ^ 49) + (2 : ℝ) ^ (-1075 : ℤ) := fun y => by
    have := scaled_err (a := y) hn (by positivity) (by
      rw [div_le_one (by positivity)]
      norm_num; linarith)
    rw [hS] at this
    refine this.trans (add_le_add_left (mul_le_mul_of_nonneg_left ?_ (mul_nonneg (abs_nonneg y) x0.le)) _)
    norm_num; linarith
  have e75 : (2 : ℝ) ^ (-1074 : ℤ) = 2 ^ (-1075 : ℤ) + 2 ^ (-1075 : ℤ) := by
    rw [show (-1074 : ℤ) = -1075 + 1 by norm_num, zpow_add₀ (by norm_num), zpow_one]; ring
  have p75 : (0 : ℝ) < (2 : ℝ) ^ (-1075 : ℤ) := by positivity
  refine ⟨x, hx, x0, fun j k => ?_, ?_⟩
  · rw [w1]
    have t := Complex.norm_le_abs_re_add_abs_im (⟨rnd ((psi0.v j l k).re * (z * (-1 : ℝ) ^ spin0)), rnd ((psi0.v j l k).im * (z * (-1 : ℝ) ^ spin0))⟩ -
      (((-1 : ℝ) ^ spin0 * x : ℝ) : ℂ) * psi0.v j l k)
    refine t.trans ?_
    rw [Complex.sub_re, Complex.sub_im, Complex.re_ofReal_mul, Complex.im_ofReal_mul]
    simp only
    have a1 := hE (psi0.v j l k).re
    have a2 := hE (psi0.v j l k).im
    rw [mul_comm _ ((-1 : ℝ) ^ spin0 * x)] at a1 a2
    have n1 := Complex.abs_re_le_norm (psi0.v j l k)
    have n2 := Complex.abs_im_le_norm (psi0.v j l k)
    have q1 : (0 : ℝ) ≤ x * ((|(spin0 : ℝ)| + 1) / 2 ^ 49) := by positivity
    have m1 := mul_le_mul_of_nonneg_right n1 q1
    have m2 := mul_le_mul_of_nonneg_right n2 q1
    rw [e75]
    push_cast
    have e5 : (|(spin0 : ℝ)| + 1) / 2 ^ 48 * (x * ‖psi0.v j l k‖) = ‖psi0.v j l k‖ * (x * ((|(spin0 : ℝ)| + 1) / 2 ^ 49)) + ‖psi0.v j l k‖ * (x * ((|(spin0 : ℝ)| + 1) / 2 ^ 49)) := by ring
    rw [e5]
    rw [mul_assoc |_| x] at a1 a2
    linarith
  · rw [w2]
    have a1 := hE (phi0.v l)
    rw [mul_comm (phi0.v l) ((-1 : ℝ) ^ spin0 * x)] at a1
    rw [e75]
    push_cast
    have q1 : (0 : ℝ) ≤ |phi0.v l| * x * ((|(spin0 : ℝ)| + 1) / 2 ^ 49) := by positivity
    have e5 : (|(spin0 : ℝ)| + 1) / 2 ^ 48 * (x * |phi0.v l|) = |phi0.v l| * x * ((|(spin0 : ℝ)| + 1) / 2 ^ 49) + |phi0.v l| * x * ((|(spin0 : ℝ)| + 1) / 2 ^ 49) := by ring
    rw [e5]
    linarith

/-- **C134** for a negative `spin0` of any size the routine returns finite filters without an exception, but at every degree where the
product overflows they are exactly zero, although the normalisation of exact arithmetic is positive there. -/
theorem C134_lost (hm : m.Ok) (hor : OtherRange m lam L J) (hs : Libm.Special m lg) (hT : TopScale jm L lam J)
    (hN : 1 ≤ N) (hN' : N ≤ 990) (h0 : 0 ≤ J_min) (h1 : J_min < J) (spin : ℤ) {spin0 : ℤ} (hs0 : spin0 < 0) (hs1 : |spin0| ≤ 2 ^ 48)
    (hL : L + |spin0| ≤ 2 ^ 53) :
    ∃ (psi : Arr3 ℂ) (phi : Arr1 ℝ),
      filters_directional_spin64 m lg jm L N J_min lam spin spin0 = .ok (psi.map C64.ofC, phi.map F64.fin) ∧
      ∀ l, 2 ^ (1025 : ℤ) * ((l - |spin0|).toNat.factorial : ℝ) ≤ ((l + |spin0|).toNat.factorial : ℝ) →
        (∀ j k, psi.v j l k = 0) ∧ phi.v l = 0 ∧ (|spin0| ≤ l → ∃ x, spin_normalization l spin0 = .ok x ∧ 0 < x) := by
  obtain ⟨hK, -, hJ, hl, -⟩ := other_kOk hm hor hT
  haveI : Fact (1 < lam) := ⟨hl⟩
  obtain ⟨psi, psi0, phi, phi0, f0, f1, e1, e2, e3, e4, g1, g2, g3⟩ := Gen.spin_filters (m := m) (lg := lg) (N := N) (J_min := J_min) hK hs hT (by have := abs_nonneg spin0; omega) (by omega) hN hN' h0 h1 spin hs0.ne
    fun l a b => by
      have hal : |spin0| ≤ l := (le_max_right _ _).trans a
      obtain ⟨z, e, zr, z0, z2⟩ := spin_normalization64_neg (l := l) (s := spin0) hal (by omega) hs1 hs0
      refine ⟨z, e, zr, ?_⟩
      rw [abs_of_nonneg z0]
      refine z2.trans ?_
      have : (2 : ℝ) ^ (1 : ℤ) ≤ 2 ^ (900 : ℤ) := zpow_le_zpow_right₀ (by norm_num) (by norm_num)
      simpa using this
  refine ⟨psi, phi, f1, fun l hl => ?_⟩
  rw [← and_assoc]
  refine ⟨?_, fun h => ⟨_, spin_normalization_ok h, spinN_pos l spin0⟩⟩
  by_cases hlr : max |spin| |spin0| ≤ l ∧ l < L
  · obtain ⟨a, b⟩ := hlr
    have hal : |spin0| ≤ l := (le_max_right _ _).trans a
    have hz := (C114_overflow (l := l) (s := spin0) hal (by omega) hs1 hl).2 hs0
    obtain ⟨w1, w2⟩ := g3 l a b 0 hz
    refine ⟨fun j k => ?_, ?_⟩
    · rw [w1]; simp only [zero_mul, mul_zero, rnd_zero]; rfl
    · rw [w2, zero_mul, mul_zero, rnd_zero]
  · refine ⟨fun j k => ?_, ?_⟩
    · by_contra h; exact hlr ⟨(g1 j l k h).1, (g1 j l k h).2.1⟩
    · by_contra h; exact hlr ⟨(g2 l h).1, (g2 l h).2.1⟩

/-! ### The hypotheses are met -/

/-- `L = 4096`, `lam = 8`, `spin0 = 2` -/
example : ∃ (psi psi0 : Arr3 ℂ) (phi phi0 : Arr1 ℝ),
    filters_directional64 Libm.exact lgExact j_max 4096 3 0 8 2 = .ok (psi0.map C64.ofC, phi0.map F64.fin) ∧
    filters_directional_spin64 Libm.exact lgExact j_max 4096 3 0 8 0 2 = .ok (psi.map C64.ofC, phi.map F64.fin) ∧
    ∃ x, spin_normalization 3 2 = .ok x ∧ 0 < x ∧
      ∀ j k, ‖psi.v j 3 k - (((-1 : ℝ) ^ (2 : ℤ) * x : ℝ) : ℂ) * psi0.v j 3 k‖ ≤ (|(2 : ℤ)| + 1) / 2 ^ 48 * (x * ‖psi0.v j 3 k‖) + 2 ^ (-1074 : ℤ) := by
  have hT := TopScale.of_j_max (L := 4096) (lam := 8) (by norm_num) (by norm_num) j_max_eight
  have hor : OtherRange Libm.exact 8 4096 4 := Or.inr (Or.inr ⟨rfl, by norm_num, by norm_num⟩)
  have em : max |(0 : ℤ)| |(2 : ℤ)| = 2 := by decide
  have hr : ((4096 - 1 + |2| : ℤ).toNat.factorial : ℝ) ≤ 2 ^ (999 : ℤ) * ((4096 - 1 - |2| : ℤ).toNat.factorial : ℝ) := by
    have a1 : (4096 - 1 + |2| : ℤ).toNat = 4093 + 1 + 1 + 1 + 1 := by decide
    have a2 : (4096 - 1 - |2| : ℤ).toNat = 4093 := by decide
    have : (2 : ℝ) ^ (60 : ℤ) ≤ 2 ^ (999 : ℤ) := zpow_le_zpow_right₀ (by norm_num) (by norm_num)
    refine le_trans ?_ (mul_le_mul_of_nonneg_right this (fact_pos' _).le)
    rw [a1, a2, Nat.factorial_succ, Nat.factorial_succ, Nat.factorial_succ, Nat.factorial_succ]
    have h0 := fact_pos' 4093
    generalize Nat.factorial 4093 = F at *
    push_cast
    have : (0 : ℝ) ≤ F := h0.le
    norm_num
    nlinarith
  obtain ⟨psi, psi0, phi, phi0, f0, f1, -, -, -, -, -, -, g⟩ := C134_filters (N := 3) Libm.exact_ok hor lgExact_special hT (by norm_num) (by norm_num) le_rfl
    (by norm_num : (0 : ℤ) < 4) 0 (spin0 := 2) (by norm_num) (by decide) hr
  rw [em] at f0 g
  obtain ⟨x, hx, x0, h, -⟩ := g 3 (by norm_num) (by norm_num)
  exact ⟨psi, psi0, phi, phi0, f0, f1, x, hx, x0, h⟩

/-- and with `spin0 = -60` the degree 1000 is lost -/
example : ∃ (psi : Arr3 ℂ) (phi : Arr1 ℝ),
    filters_directional_spin64 Libm.exact lgExact j_max 4096 3 0 8 0 (-60) = .ok (psi.map C64.ofC, phi.map F64.fin) ∧
    ∀ j k, psi.v j 1000 k = 0 := by
  have hT := TopScale.of_j_max (L := 4096) (lam := 8) (by norm_num) (by norm_num) j_max_eight
  have hor : OtherRange Libm.exact 8 4096 4 := Or.inr (Or.inr ⟨rfl, by norm_num, by norm_num⟩)
  obtain ⟨psi, phi, f, g⟩ := C134_lost (N := 3) Libm.exact_ok hor lgExact_special hT (by norm_num) (by norm_num) le_rfl
    (by norm_num : (0 : ℤ) < 4) 0 (spin0 := -60) (by norm_num) (by decide) (by decide)
  exact ⟨psi, phi, f, (g 1000 (by rw [abs_neg]; exact overflow_1000)).1⟩

end S2wav
