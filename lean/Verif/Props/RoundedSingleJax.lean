import Verif.Lemmas.SingleDirectional
import Verif.Props.RoundedSingle
import Verif.Props.RoundedJax

/-! # C116: the JAX filters in single precision, and the round trip with them

`binomial_coefficient_jax`, `tiling_direction_jax`, `filters_axisym_jax` and `filters_directional_jax` executed in IEEE single precision
(`Model/Ieee32Filters.lean`), as JAX does unless told otherwise, with the default `lam = 2`. -/

namespace S2wav.Single
open Classical

variable {m mx : Libm} {lg : F64 → F64} {jm : JMax} {L N J J_min : ℤ} {X : ℤ → ℤ → ℝ}

/-! ### Helpers -/

/-- everything known of the result -/
structure Dir32 (mx : Libm) (lg : F64 → F64) (L N J J_min spin : ℤ) (psi : Arr3 ℂ) (phi : Arr1 ℝ) (X : ℤ → ℤ → ℝ) : Prop where
  k : SingleK J L X
  wav : psi = Arr3.of (J + 1) L (2 * L - 1) fun j l k => psiD32 mx lg X N |spin| j l (k - (L - 1))
  scal : phi = Arr1.of L fun l => phiD32 X J_min |spin| l

theorem dir32_exists (hm : m.Ok) (hs : Special mx lg) (hT : TopScale jm L 2 J) (hL : L ≤ 2 ^ 23) (hJ : J ≤ 1000)
    (hN : 1 ≤ N) (hN' : N ≤ 31) (h0 : 0 ≤ J_min) (h1 : J_min < J) (spin : ℤ) :
    ∃ (psi : Arr3 ℂ) (phi : Arr1 ℝ) (X : ℤ → ℤ → ℝ), filters_directional_jax32 m mx lg jm L N J_min 2 spin = .ok (psi.map C64.ofC, phi.map F64.fin) ∧
      Dir32 mx lg L N J J_min spin psi phi X := by
  obtain ⟨X, hX, -, hf⟩ := filters_directional_jax32_ok hm hs hT.hJ hT.hL hL hJ hN hN' h0 h1 spin
  refine ⟨_, _, X, ?_, ⟨hX, rfl, rfl⟩⟩
  rw [hf, map_of3, map_of1]

theorem dir32_elim (hm : m.Ok) (hs : Special mx lg) (hT : TopScale jm L 2 J) (hL : L ≤ 2 ^ 23) (hJ : J ≤ 1000)
    (hN : 1 ≤ N) (hN' : N ≤ 31) (h0 : 0 ≤ J_min) (h1 : J_min < J) {spin : ℤ} {psi : Arr3 ℂ} {phi : Arr1 ℝ}
    (h : filters_directional_jax32 m mx lg jm L N J_min 2 spin = .ok (psi.map C64.ofC, phi.map F64.fin)) :
    ∃ X, Dir32 mx lg L N J J_min spin psi phi X := by
  obtain ⟨psi', phi', X, h', hd⟩ := dir32_exists hm hs hT hL hJ hN hN' h0 h1 spin
  rw [h] at h'
  simp only [Except.ok.injEq, Prod.mk.injEq] at h'
  rw [← map_ofC_inj h'.1, ← map_fin_inj h'.2] at hd
  exact ⟨X, hd⟩

theorem psi32_close (hX : SingleK J L X) {j l : ℤ} (a : 0 ≤ j) (b : j < J + 1) (c : 0 ≤ l) (d : l < L) :
    |psi32 (X (j + 1) l) (X j l) ^ 2 - psiAx 2 j l ^ 2| ≤ 1 / 2 ^ 18 := by
  rw [psiAx_sq]
  obtain ⟨x0, x1, -⟩ := hX (j + 1) l (by omega) (by omega) c d
  obtain ⟨y0, y1, -⟩ := hX j l (by omega) (by omega) c d
  have := psi32_near x0 y0 (hX.le_two (by omega) (by omega) c d)
  have h2 : |max 0 (X (j + 1) l - X j l) - max 0 (kv 2 (j + 1) l - kv 2 j l)| ≤ 1 / 2 ^ 21 := by
    rw [max_comm 0, max_comm 0]
    refine (abs_max_sub_max_le_abs _ _ 0).trans ?_
    have e : X (j + 1) l - X j l - (kv 2 (j + 1) l - kv 2 j l) = (X (j + 1) l - kval 2 300 (j + 1) l) - (X j l - kval 2 300 j l) := by
      unfold kv; ring
    rw [e]
    refine (abs_sub _ _).trans ?_
    norm_num at x1 y1 ⊢; linarith
  have h3 : (1 : ℝ) / 2 ^ 19 + 1 / 2 ^ 21 ≤ 1 / 2 ^ 18 := by norm_num
  exact (abs_sub_le _ _ _).trans ((add_le_add this h2).trans h3)

theorem phi32_close (hX : SingleK J L X) {l : ℤ} (h0 : 0 ≤ J_min) (h1 : J_min < J + 2) (c : 0 ≤ l) (d : l < L) :
    |rnd (Real.sqrt (X J_min l)) ^ 2 - phiAx 2 J_min l ^ 2| ≤ 1 / 2 ^ 18 := by
  rw [phiAx_sq (by norm_num)]
  obtain ⟨x0, x1, -⟩ := hX J_min l h0 (by omega) c d
  have h2 := hX.le_two h0 (by omega) c d
  have h3 := sq_rnd_sqrt x0 (by linarith)
  change |_ - kval 2 300 J_min l| ≤ _
  rw [abs_le] at *
  norm_num at *
  constructor <;> linarith

theorem psiD32_support (hX : SingleK J L X) (hN : 1 ≤ N) {elmin j l n : ℤ} (hj0 : 0 ≤ j) (hj1 : j ≤ J) (hl0 : 0 ≤ l) (hl1 : l < L)
    (h : psiD32 m lg X N elmin j l n ≠ 0) :
    elmin ≤ l ∧ (2 : ℝ) ^ (j - 1) < l ∧ (l : ℝ) < 2 ^ (j + 1) ∧ 1 ≤ l ∧ |n| ≤ l ∧ |n| < N ∧ (N + n) % 2 ≠ 0 := by
  unfold psiD32 at h
  by_cases hl : l < elmin
  · rw [if_pos hl] at h; exact absurd rfl h
  rw [if_neg hl] at h
  have hp : psi32 (X (j + 1) l) (X j l) ≠ 0 := by rintro h0; apply h; rw [h0, zero_mul, rnd_zero, zero_mul, rnd_zero]; simp
  have hs : sig32 m lg N l n ≠ 0 := by rintro h0; apply h; rw [h0, mul_zero, rnd_zero]; simp
  have hc : 1 ≤ l ∧ |n| ≤ gam N l ∧ (N + n) % 2 ≠ 0 := by
    by_contra hc; exact hs (sig32_eq_zero hc)
  have hg := gam_facts hN hc.1
  refine ⟨by omega, ?_, ?_, hc.1, hc.2.1.trans hg.2.2.2.1, by omega, hc.2.2⟩
  · by_contra hk
    have hk := not_lt.1 hk
    apply hp
    rw [(hX j l (by omega) (by omega) hl0 hl1).2.2.1 hk, (hX (j + 1) l (by omega) (by omega) hl0 hl1).2.2.1 (by
      rw [add_sub_cancel_right]; exact hk.trans (zpow_le_zpow_right₀ (by norm_num) (by omega))), psi32_self]
  · by_contra hk
    have hk := not_lt.1 hk
    apply hp
    rw [(hX (j + 1) l (by omega) (by omega) hl0 hl1).2.2.2 hk, (hX j l (by omega) (by omega) hl0 hl1).2.2.2 (by
      exact le_trans (zpow_le_zpow_right₀ (by norm_num) (by omega)) hk), psi32_self]

theorem phiD32_support (hX : SingleK J L X) {elmin l : ℤ} (hj0 : 0 ≤ J_min) (hj1 : J_min ≤ J) (hl0 : 0 ≤ l) (hl1 : l < L)
    (h : phiD32 X J_min elmin l ≠ 0) : elmin ≤ l ∧ (l : ℝ) < 2 ^ J_min := by
  unfold phiD32 at h
  by_cases hl : l < elmin
  · rw [if_pos hl] at h; exact absurd rfl h
  rw [if_neg hl] at h
  refine ⟨by omega, ?_⟩
  by_contra hk
  apply h
  rw [(hX J_min l hj0 (by omega) hl0 hl1).2.2.2 (not_lt.1 hk), Real.sqrt_zero, rnd_zero, zero_mul, rnd_zero]

theorem psiG_conj {a : ℤ → ℤ → ℝ} {w : ℤ → ℝ} (hs : Special m lg) (hN : 1 ≤ N) (hN' : N ≤ 15) {elmin j l n : ℤ} :
    psiG m lg a w N elmin j l (-n) = (-1 : ℂ) ^ n * (starRingEnd ℂ) (psiG m lg a w N elmin j l n) := by
  unfold psiG
  split_ifs with hl
  · simp
  rw [sig32_neg hs hN hN']
  by_cases h : 1 ≤ l ∧ |n| ≤ gam N l ∧ (N + n) % 2 ≠ 0
  · rw [map_mul, Complex.conj_ofReal, ← mul_assoc]
    congr 1
    unfold nuC
    split_ifs with hp
    · have : Even n := by rw [Int.even_iff]; omega
      rw [this.neg_one_zpow]; simp
    · have : Odd n := by rw [Int.odd_iff]; omega
      rw [this.neg_one_zpow]; simp
  · rw [sig32_eq_zero h, mul_zero, rnd_zero]; simp

theorem psiD32_conj (hs : Special m lg) (hN : 1 ≤ N) (hN' : N ≤ 15) {elmin j l n : ℤ} :
    psiD32 m lg X N elmin j l (-n) = (-1 : ℂ) ^ n * (starRingEnd ℂ) (psiD32 m lg X N elmin j l n) := by
  rw [psiD32_eq]; exact psiG_conj hs hN hN'

theorem Dir32.support {spin : ℤ} {psi : Arr3 ℂ} {phi : Arr1 ℝ} (hd : Dir32 m lg L N J J_min spin psi phi X) (hN : 1 ≤ N) (h0 : 0 ≤ J_min) (h1 : J_min < J) :
    psi.d = J + 1 ∧ psi.r = L ∧ psi.c = 2 * L - 1 ∧ phi.n = L ∧
      (∀ j l n, psi.v j l (L - 1 + n) ≠ 0 →
        |spin| ≤ l ∧ (2 : ℝ) ^ (j - 1) < l ∧ (l : ℝ) < 2 ^ (j + 1) ∧ |n| ≤ l ∧ |n| < N ∧ (N + n) % 2 ≠ 0) ∧
      (∀ l, phi.v l ≠ 0 → |spin| ≤ l ∧ (l : ℝ) < 2 ^ J_min) := by
  rw [hd.wav, hd.scal]
  refine ⟨rfl, rfl, rfl, rfl, fun j l n hne => ?_, fun l hne => ?_⟩
  · by_cases hr : 0 ≤ j ∧ j < J + 1 ∧ 0 ≤ l ∧ l < L ∧ 0 ≤ L - 1 + n ∧ L - 1 + n < 2 * L - 1
    · rw [Arr3.of_v _ _ _ _ _ _ _ hr, add_sub_cancel_left] at hne
      obtain ⟨a, b, c, -, d, e, f⟩ := psiD32_support hd.k hN hr.1 (by omega) hr.2.2.1 hr.2.2.2.1 hne
      exact ⟨a, b, c, d, e, f⟩
    · exact absurd (Arr3.junk _ j l _ hr) hne
  · by_cases hr : 0 ≤ l ∧ l < L
    · rw [Arr1.of_v _ _ _ hr] at hne
      exact phiD32_support hd.k h0 h1.le hr.1 hr.2 hne
    · exact absurd (Arr1.junk _ l hr) hne

theorem Dir32.close {spin : ℤ} {psi psi' : Arr3 ℂ} {phi phi' : Arr1 ℝ} (hd : Dir32 m lg L N J J_min spin psi phi X) (hs : Special m lg)
    (hT : TopScale jm L 2 J) (hL : L ≤ 2 ^ 23) (hJ : J ≤ 1000) (hN : 1 ≤ N) (hN' : N ≤ 31) (h0 : 0 ≤ J_min) (h1 : J_min < J)
    (h' : filters_directional_jax jm L N J_min 2 spin 0 = .ok (psi', phi')) :
    (∃ ν : ℂ, ‖ν‖ = 1 ∧ ∀ j l k, psi.v j l k = ν * ‖psi.v j l k‖ ∧ psi'.v j l k = ν * ‖psi'.v j l k‖) ∧
    (∀ j l k, 0 ≤ l → 8 * Real.pi ^ 2 / (2 * l + 1) * |‖psi.v j l k‖ ^ 2 - ‖psi'.v j l k‖ ^ 2| ≤ if N ≤ 15 then 1 / 2 ^ 15 else 0.0011) ∧
    (∀ l, 0 ≤ phi.v l ∧ 0 ≤ phi'.v l) ∧
    (∀ l, 0 ≤ l → 4 * Real.pi / (2 * l + 1) * |phi.v l ^ 2 - phi'.v l ^ 2| ≤ 1 / 2 ^ 15) := by
  rw [filters_directional_jax_ok hT hN h0 h1] at h'
  simp only [Except.ok.injEq, Prod.mk.injEq] at h'
  rw [← h'.1, ← h'.2, hd.wav, hd.scal]
  have hX := hd.k
  refine ⟨⟨nuC N, nuC_norm N, fun j l k => ?_⟩, fun j l k hl0 => ?_, fun l => ?_, fun l hl0 => ?_⟩
  · by_cases hr : 0 ≤ j ∧ j < J + 1 ∧ 0 ≤ l ∧ l < L ∧ 0 ≤ k ∧ k < 2 * L - 1
    · rw [Arr3.of_v _ _ _ _ _ _ _ hr, Arr3.of_v _ _ _ _ _ _ _ hr]
      constructor
      · unfold psiD32
        split_ifs
        · simp
        · rw [norm_mul, nuC_norm, one_mul, Complex.norm_real, Real.norm_of_nonneg]
          exact rnd_nonneg (mul_nonneg (rnd_nonneg (mul_nonneg (psi32_nonneg _ _) (wfac_rl hr.2.2.1 (by omega)).2.le)) (sig32_nonneg _ _ _))
      · unfold psiDir psiDirOf
        split_ifs
        · simp
        · rw [sfac_zero, Complex.ofReal_one, mul_one]
          unfold sdir
          split_ifs
          · have e : (cpsi l : ℂ) * (psiAx 2 j l : ℂ) * (nuC N * ((Real.sqrt (((gam N l).toNat.choose ((gam N l - (k - (L - 1))) / 2).toNat : ℝ) / 2 ^ (gam N l).toNat) : ℝ) : ℂ)) =
                nuC N * ((cpsi l * psiAx 2 j l * Real.sqrt (((gam N l).toNat.choose ((gam N l - (k - (L - 1))) / 2).toNat : ℝ) / 2 ^ (gam N l).toNat) : ℝ) : ℂ) := by
              push_cast; ring
            rw [e, norm_mul, nuC_norm, one_mul, Complex.norm_real, Real.norm_of_nonneg]
            refine mul_nonneg (mul_nonneg ?_ ?_) (Real.sqrt_nonneg _)
            · unfold cpsi; have := Real.pi_pos; positivity
            · exact Real.sqrt_nonneg _
          · simp
    · rw [(Arr3.of (J + 1) L (2 * L - 1) _).junk j l k hr, (Arr3.of (J + 1) L (2 * L - 1) _).junk j l k hr]; simp
  · by_cases hr : 0 ≤ j ∧ j < J + 1 ∧ 0 ≤ l ∧ l < L ∧ 0 ≤ k ∧ k < 2 * L - 1
    · rw [Arr3.of_v _ _ _ _ _ _ _ hr, Arr3.of_v _ _ _ _ _ _ _ hr]
      by_cases hl : l < |spin|
      · unfold psiD32 psiDir psiDirOf
        rw [if_pos hl, if_pos hl]; split_ifs <;> norm_num
      have hl' : (0 : ℝ) ≤ l := by exact_mod_cast hl0
      have hpi := Real.pi_pos
      have n1 := psiD32_sq (n := k - (L - 1)) (elmin := |spin|) hX hL hs hN hN' hr.1 (by omega) hl0 hr.2.2.2.1 (by omega)
      have ex : 8 * Real.pi ^ 2 / (2 * l + 1) * ‖psiDir N 2 |spin| j l (k - (L - 1))‖ ^ 2 = psiAx 2 j l ^ 2 * ‖sdir N l (k - (L - 1))‖ ^ 2 := by
        unfold psiDir psiDirOf
        rw [if_neg hl, sfac_zero, norm_mul, norm_mul, norm_mul, Complex.norm_real, Complex.norm_real, mul_pow, mul_pow, mul_pow, Real.norm_eq_abs,
          Real.norm_eq_abs, sq_abs, sq_abs, cpsi_sq hl0]
        simp
        field_simp
      have hg : 0 ≤ 8 * Real.pi ^ 2 / (2 * l + 1) := by positivity
      rw [← abs_of_nonneg hg, ← abs_mul, mul_sub, ex]
      have hcl := psi32_close hX hr.1 hr.2.1 hr.2.2.1 hr.2.2.2.1
      have hc1 : ‖sdir N l (k - (L - 1))‖ ^ 2 ≤ 1 := by
        by_cases h : 1 ≤ l ∧ |k - (L - 1)| ≤ gam N l ∧ (N + (k - (L - 1))) % 2 ≠ 0
        · exact (sig32_step hs hN hN' h).choose_spec.2.2.2.1
        · rw [sdir_eq_zero h, norm_zero]; norm_num
      have ha1 := hX.psi_le hr.1 (by omega) hl0 hr.2.2.2.1
      have ha0 := psi32_nonneg (X (j + 1) l) (X j l)
      have hA : psi32 (X (j + 1) l) (X j l) ^ 2 ≤ 1.01 := by
        have y0 := (hX j l hr.1 (by omega) hl0 hr.2.2.2.1).1
        have x2 := hX.le_two (j := j + 1) (by omega) (by omega) hl0 hr.2.2.2.1
        have x3 := (hX.le_table (j := j + 1) (by omega) (by omega) hl0 hr.2.2.2.1).1
        have d := (abs_le.1 (psi32_near (hX (j + 1) l (by omega) (by omega) hl0 hr.2.2.2.1).1 y0 x2)).2
        have e : max 0 (X (j + 1) l - X j l) ≤ 1.001 + 1 / 2 ^ 22 := max_le (by norm_num) (by linarith)
        linarith [show (1.001 : ℝ) + 1 / 2 ^ 22 + 1 / 2 ^ 19 ≤ 1.01 by norm_num]
      have hm := near_mul hcl (sq_nonneg ‖sdir N l (k - (L - 1))‖)
      obtain ⟨hE0, hE1, hE2⟩ := binS_bounds N
      set A := psi32 (X (j + 1) l) (X j l) ^ 2
      set c := ‖sdir N l (k - (L - 1))‖ ^ 2
      have hA0 : 0 ≤ A := sq_nonneg _
      have hc0 : 0 ≤ c := sq_nonneg _
      have hAc : A * c ≤ 1.01 := by nlinarith
      have hAc0 : 0 ≤ A * c := mul_nonneg hA0 hc0
      have n2 : A * c * (binS N + 1 / 2 ^ 16) ≤ 1.01 * (binS N + 1 / 2 ^ 16) :=
        mul_le_mul_of_nonneg_right hAc (by positivity)
      have n3 : 1 / 2 ^ 18 * c ≤ 1 / 2 ^ 18 := by linarith
      refine (abs_sub_le _ (A * c) _).trans ((add_le_add n1 hm).trans ?_)
      generalize A * c * (binS N + 1 / 2 ^ 16) = q at *
      refine (add_le_add (add_le_add n2 le_rfl) n3).trans ?_
      split_ifs with h15
      · rw [hE2 h15]; norm_num
      · norm_num at *; linarith
    · rw [(Arr3.of (J + 1) L (2 * L - 1) _).junk j l k hr, (Arr3.of (J + 1) L (2 * L - 1) _).junk j l k hr]; split_ifs <;> norm_num
  · constructor
    · by_cases hr : 0 ≤ l ∧ l < L
      · rw [Arr1.of_v _ _ _ hr]
        unfold phiD32
        split_ifs
        · exact le_rfl
        · exact rnd_nonneg (mul_nonneg (rnd_nonneg (Real.sqrt_nonneg _)) (vfac_rl hr.1 (by omega)).2.le)
      · rw [(Arr1.of L _).junk l hr]
    · by_cases hr : 0 ≤ l ∧ l < L
      · rw [Arr1.of_v _ _ _ hr]
        unfold phiDir
        split_ifs
        · exact le_rfl
        · rw [sfac_zero, mul_one]
          exact mul_nonneg (Real.sqrt_nonneg _) (Real.sqrt_nonneg _)
      · rw [(Arr1.of L _).junk l hr]
  · by_cases hr : 0 ≤ l ∧ l < L
    · rw [Arr1.of_v _ _ _ hr, Arr1.of_v _ _ _ hr]
      by_cases hl : l < |spin|
      · unfold phiD32 phiDir
        rw [if_pos hl, if_pos hl]; norm_num
      have hl' : (0 : ℝ) ≤ l := by exact_mod_cast hl0
      have hpi := Real.pi_pos
      have n1 := phiD32_sq (elmin := |spin|) hX hL h0 h1.le hl0 hr.2 (by omega)
      have ex : 4 * Real.pi / (2 * l + 1) * phiDir 2 J_min |spin| 0 l ^ 2 = phiAx 2 J_min l ^ 2 := by
        unfold phiDir
        rw [if_neg hl, sfac_zero, mul_one, mul_pow, cphi_sq hl0]
        field_simp
      have hg : 0 ≤ 4 * Real.pi / (2 * l + 1) := by positivity
      rw [← abs_of_nonneg hg, ← abs_mul, mul_sub, ex]
      have hcl := phi32_close hX h0 (by omega) hr.1 hr.2
      have hA : rnd (Real.sqrt (X J_min l)) ^ 2 ≤ 1.01 := by
        have x0 := (hX J_min l h0 (by omega) hr.1 hr.2).1
        have x3 := (hX.le_table h0 (by omega) hl0 hr.2).1
        have d := (abs_le.1 (sq_rnd_sqrt x0 (by norm_num at x3 ⊢; linarith))).2
        norm_num at *; linarith
      refine (abs_sub_le _ _ _).trans ((add_le_add n1 hcl).trans ?_)
      norm_num; linarith
    · rw [(Arr1.of L _).junk l hr, (Arr1.of L _).junk l hr]; norm_num

theorem Dir32.admissible {spin : ℤ} {psi : Arr3 ℂ} {phi : Arr1 ℝ} (hd : Dir32 m lg L N J J_min spin psi phi X) (hs : Special m lg)
    (hT : TopScale jm L 2 J) (hL : L ≤ 2 ^ 23) (hJ : J ≤ 1000) (hN : 1 ≤ N) (hN' : N ≤ 31) (h0 : 0 ≤ J_min) (h1 : J_min < J)
    {l : ℤ} (hl0 : 0 ≤ l) (hl1 : l < L) (hl : |spin| ≤ l) :
    0.9989 ≤ frameSum J_min J L psi phi l ∧ frameSum J_min J L psi phi l ≤ 1.0021 ∧
    (L ≤ 2049 → frameSum J_min J L psi phi l ≤ 1.0011) ∧
    (N ≤ 15 → 1 - 1 / 2 ^ 15 ≤ frameSum J_min J L psi phi l ∧ frameSum J_min J L psi phi l ≤ 1.001 + 1 / 2 ^ 15) ∧
    (N ≤ 15 → L ≤ 2049 → frameSum J_min J L psi phi l ≤ 1 + 1 / 2 ^ 15) := by
  obtain ⟨s1, s2, s3⟩ := energy32_bounds hd.k hT.hLJ h0 h1 hl0 hl1 rfl
  have hF := frameSum32 (m := m) (lg := lg) (elmin := |spin|) hd.k hL hJ hs hN hN' h0 h1 hl0 hl1 hl rfl
  rw [← hd.wav, ← hd.scal] at hF
  obtain ⟨hE0, hE1, hE2⟩ := binS_bounds N
  set S := rnd (Real.sqrt (X J_min l)) ^ 2 + ∑ j ∈ Finset.Icc J_min J, psi32 (X (j + 1) l) (X j l) ^ 2
  set F := frameSum J_min J L psi phi l
  have hS0 : 0 ≤ S := le_trans (by norm_num) s1
  have k1 : S * (binS N + 1 / 2 ^ 16) ≤ 1.01 * (binS N + 1 / 2 ^ 16) :=
    mul_le_mul_of_nonneg_right (s2.trans (by norm_num)) (by positivity)
  have hF' := abs_le.1 hF
  generalize S * (binS N + 1 / 2 ^ 16) = q at *
  refine ⟨?_, ?_, fun hL => ?_, fun hN => ?_, fun hN hL => ?_⟩
  · norm_num at *; linarith
  · norm_num at *; linarith
  · have := s3 hL
    norm_num at *; linarith
  · rw [hE2 hN] at k1
    norm_num at *; constructor <;> linarith
  · have := s3 hL
    rw [hE2 hN] at k1
    norm_num at *; linarith

theorem filters32_aux {c : Cfg} {q : ℤ → ℤ → ℤ → ℂ} (hL : 1 ≤ c.L) (hlam : c.lam = 2) (hN : 1 ≤ c.N)
    (h0 : 0 ≤ c.J_min) (h1 : c.J_min < J) (hX : SingleK J c.L X)
    (hsup : ∀ j l n : ℤ, 0 ≤ j → j ≤ J → 0 ≤ l → l < c.L → q j l n ≠ 0 →
      ((2 : ℝ) ^ (j - 1) < l ∧ (l : ℝ) < 2 ^ (j + 1)) ∧ |c.spin| ≤ l ∧ 1 ≤ l ∧ |n| ≤ l ∧ |n| < c.N ∧ (c.N + n) % 2 ≠ 0)
    (hconj : c.reality = true → ∀ j l n, q j l (-n) = (-1 : ℂ) ^ n * (starRingEnd ℂ) (q j l n)) (mr : Bool) :
    c.Filters J mr (Arr3.of (J + 1) c.L (2 * c.L - 1) fun j l k => q j l (k - (c.L - 1))) (Arr1.of c.L fun l => phiD32 X c.J_min |c.spin| l) := by
  have hl1 : (1 : ℝ) < c.lam := by rw [hlam]; norm_num
  refine ⟨by rw [Arr3.of_d]; omega, rfl, rfl, rfl, fun j l n hne => ?_, fun l hne => ?_, fun hr j l n => ?_⟩
  · by_cases hr : 0 ≤ j ∧ j < J + 1 ∧ 0 ≤ l ∧ l < c.L ∧ 0 ≤ c.L - 1 + n ∧ c.L - 1 + n < 2 * c.L - 1
    · rw [Arr3.of_v _ _ _ _ _ _ _ hr, add_sub_cancel_left] at hne
      obtain ⟨⟨s1, s2⟩, a, hl1', d, e, f⟩ := hsup j l n hr.1 (by omega) hr.2.2.1 hr.2.2.2.1 hne
      rw [← hlam] at s1 s2
      have hb := LN_j_Nj_bounds hL hl1 hN j mr
      have hLj : l < (LN_j c.L j c.N c.lam mr).1 := by
        rw [LN_j_Lj]
        unfold wav_j_bandlimit
        cases mr
        · simpa using hr.2.2.2.1
        · simp only [if_true, lt_min_iff, Int.lt_ceil]
          refine ⟨s2.trans_le (zpow_mono' hl1 (by split_ifs <;> omega)), hr.2.2.2.1⟩
      have hL0 : (LN_j c.L j c.N c.lam mr).2.2 ≤ l := by
        simp only [LN_j, L0_j]
        cases mr
        · simpa using hr.2.2.1
        · simp only [if_true]
          by_cases hj : j = 0
          · subst hj; simp; exact hl1'
          · simp only [if_neg hj, if_pos (show j ≠ 0 from hj), Int.ceil_le]
            exact s1.le
      have b1 := hb.2.2.1
      have b2 := hb.2.2.2.2
      unfold Cfg.L0 Cfg.Lj Cfg.Nj
      exact ⟨hL0, hLj, by omega, by omega, d, a⟩
    · exact absurd (Arr3.junk _ j l _ hr) hne
  · by_cases hr : 0 ≤ l ∧ l < c.L
    · rw [Arr1.of_v _ _ _ hr] at hne
      obtain ⟨a, b⟩ := phiD32_support hX h0 h1.le hr.1 hr.2 hne
      refine ⟨?_, a⟩
      rw [← hlam] at b
      unfold Cfg.Ls scal_bandlimit
      cases mr
      · simpa using hr.2
      · simp only [if_true, lt_min_iff, Int.lt_ceil]
        exact ⟨b, hr.2⟩
    · exact absurd (Arr1.junk _ l hr) hne
  · by_cases hq : 0 ≤ j ∧ j < J + 1 ∧ 0 ≤ l ∧ l < c.L ∧ 0 ≤ c.L - 1 + n ∧ c.L - 1 + n < 2 * c.L - 1
    · have e1 : c.L - 1 - n - (c.L - 1) = -n := by ring
      rw [Arr3.of_v _ _ _ _ _ _ _ ⟨hq.1, hq.2.1, hq.2.2.1, hq.2.2.2.1, by omega, by omega⟩,
        Arr3.of_v _ _ _ _ _ _ _ hq, e1, add_sub_cancel_left]
      exact hconj hr j l n
    · rw [Arr3.junk _ j l (c.L - 1 + n) hq, Arr3.junk _ j l (c.L - 1 - n) (by rw [Arr3.of_d, Arr3.of_r, Arr3.of_c]; omega)]
      simp

theorem dir32_filters {c : Cfg} {psi : Arr3 ℂ} {phi : Arr1 ℝ} (hs : Special m lg) (hL : 1 ≤ c.L) (hlam : c.lam = 2) (hN : 1 ≤ c.N)
    (h0 : 0 ≤ c.J_min) (h1 : c.J_min < J) (hre : c.reality = true → c.N ≤ 15)
    (hd : Dir32 m lg c.L c.N J c.J_min c.spin psi phi X) (mr : Bool) : c.Filters J mr psi phi := by
  have hX := hd.k
  rw [hd.wav, hd.scal]
  refine filters32_aux hL hlam hN h0 h1 hX (fun j l n a1 a2 a3 a4 hne => ?_) (fun hr j l n => psiD32_conj hs hN (hre hr)) mr
  obtain ⟨a, s1, s2, hl1', d, e, f⟩ := psiD32_support hX hN a1 a2 a3 a4 hne
  exact ⟨⟨s1, s2⟩, a, hl1', d, e, f⟩

theorem sgl_rnd {x : ℝ} (h : |x| ≤ 4 * 2 ^ 24) : Sgl (rnd x) := ((C115_rounding _ _).2 (of_fin' h)).2.1

theorem sgl_zero : Sgl 0 := by
  have := sgl_rnd (x := 0) (by norm_num)
  rwa [rnd_zero] at this

theorem psiD32_sgl (hs : Special m lg) (hX : SingleK J L X) (hL : L ≤ 2 ^ 23) (hN : 1 ≤ N) (hN' : N ≤ 31) {elmin j l n : ℤ} (hj0 : 0 ≤ j) (hj1 : j < J + 1)
    (hl0 : 0 ≤ l) (hl1 : l < L) : Sgl (psiD32 m lg X N elmin j l n).re ∧ Sgl (psiD32 m lg X N elmin j l n).im := by
  unfold psiD32
  split_ifs
  · exact ⟨sgl_zero, sgl_zero⟩
  obtain ⟨-, p2, -⟩ := prod_near (psi32_nonneg (X (j + 1) l) (X j l)) (hX.psi_le hj0 hj1 hl0 hl1) (wfac_rl hl0 (by omega)).2.le (wfac_le hl0 (by omega))
    (sig32_nonneg (m := m) (lg := lg) N l n) (sig32_sq hs hN hN').2
  have h := sgl_rnd (p2.trans (by norm_num))
  unfold nuC
  split_ifs
  · rw [one_mul]; exact ⟨h, sgl_zero⟩
  · rw [Complex.re_mul_ofReal, Complex.im_mul_ofReal, Complex.I_re, Complex.I_im, zero_mul, one_mul]; exact ⟨sgl_zero, h⟩

theorem phiD32_sgl (hX : SingleK J L X) (hL : L ≤ 2 ^ 23) {elmin l : ℤ} (hj0 : 0 ≤ J_min) (hj1 : J_min < J + 1) (hl0 : 0 ≤ l) (hl1 : l < L) :
    Sgl (phiD32 X J_min elmin l) := by
  unfold phiD32
  split_ifs
  · exact sgl_zero
  refine sgl_rnd ?_
  have a0 := rnd_nonneg (Real.sqrt_nonneg (X J_min l))
  have v0 := (vfac_rl hl0 (show l < 2 ^ 23 by omega)).2.le
  rw [abs_of_nonneg (mul_nonneg a0 v0)]
  calc _ ≤ (2 : ℝ) * 2 ^ 12 := mul_le_mul (hX.phi_le hj0 hj1 hl0 hl1) (vfac_le hl0 (by omega)) v0 (by norm_num)
    _ ≤ _ := by norm_num

/-! ### C116 -/

/-- **C116** the binomial coefficients computed through `exp` and `gammaln` in single precision: exact up to `n = 14`, within a relative
`2^-10` up to `n = 30`. -/
theorem C116_binomial (hs : Special mx lg) {n k : ℕ} (hk : k ≤ n) (hn : n ≤ 30) :
    ∃ b : ℝ, binomial_coefficient_jax32 mx lg n (.fin k) = .fin b ∧ |b - n.choose k| ≤ n.choose k / 2 ^ 10 ∧ (n ≤ 14 → b = n.choose k) := by
  obtain ⟨b, h1, -, h2, h3⟩ := binomial_coefficient_jax32_ok hs hk hn
  exact ⟨b, h1, h2, h3⟩

theorem gam_small32 (hN : ¬ (32 ≤ N ∧ (33 ≤ L ∨ (L = 32 ∧ N % 2 = 0)))) {el : ℤ} (_h0 : 1 ≤ el) (h1 : el < L) : gam N el < 31 := by
  rw [← gam_jax]; omega

/-- **C116** the directional coefficients raise `OverflowError` exactly when a denominator `2**gamma` does not fit into an `int32`: with 32
directions or more and a band-limit above 32 (or 32, for an even number of directions). Otherwise there is a table of the right shape, whatever
`exp` and `gammaln` return. -/
theorem C116_tiling (mx : Libm) (lg : F64 → F64) (hL : 1 ≤ L) (N : ℤ) :
    (tiling_direction_jax32 mx lg L N = .error .overflow ↔ 32 ≤ N ∧ (33 ≤ L ∨ (L = 32 ∧ N % 2 = 0))) ∧
    (¬ (32 ≤ N ∧ (33 ≤ L ∨ (L = 32 ∧ N % 2 = 0))) → ∃ s, tiling_direction_jax32 mx lg L N = .ok s ∧ s.r = L ∧ s.c = 2 * L - 1) := by
  have hno : ¬ (32 ≤ N ∧ (33 ≤ L ∨ (L = 32 ∧ N % 2 = 0))) → ∃ s, tiling_direction_jax32 mx lg L N = .ok s ∧ s.r = L ∧ s.c = 2 * L - 1 :=
    fun h => ⟨_, tiling_direction_jax32_gen hL fun el a b => gam_small32 h a b, rfl, rfl⟩
  refine ⟨⟨fun h => ?_, fun h => ?_⟩, hno⟩
  · by_contra hc
    obtain ⟨s, e, -⟩ := hno hc
    rw [e] at h
    exact absurd h (by simp)
  · refine tiling_direction_jax32_overflow hL (el := min (L - 1) 32) (by omega) (by omega) ?_
    rw [← gam_jax]; omega

/-- **C116** with 32 directions or more, at band-limits above 32, `filters_directional_jax` raises `OverflowError` in JAX's default 32-bit mode,
although in double precision it returns filters (up to 63 directions, C108). -/
theorem C116_overflow (hm : m.Ok) (hT : TopScale jm L 2 J) (hL : L ≤ 2 ^ 53) (hJ : J ≤ 1000) (h0 : 0 ≤ J_min) (h1 : J_min < J) (hN : 32 ≤ N)
    (h : 33 ≤ L ∨ (L = 32 ∧ N % 2 = 0)) (spin : ℤ) : filters_directional_jax32 m mx lg jm L N J_min 2 spin = .error .overflow := by
  obtain ⟨X, -, ha⟩ := filters_axisym_jax32_ok hm hT.hJ hT.hL hL hJ h0 h1
  unfold filters_directional_jax32
  rw [ha, ((C116_tiling mx lg hT.hL N).1).2 ⟨hN, h⟩]
  rfl

/-- **C116** for `lam = 2`, any band-limit up to 2^23, up to 31 directions and any spin: no exception, no infinity, no NaN; all entries are
single precision numbers; the shapes are right; a wavelet entry is exactly zero outside the two bands of its scale, below the spin, for orders
above the degree or not below `N`, and for orders of the wrong parity; the scaling function is exactly zero below the spin and from `2^J_min` on. -/
theorem C116_directional (hm : m.Ok) (hs : Special mx lg) (hT : TopScale jm L 2 J) (hL : L ≤ 2 ^ 23) (hJ : J ≤ 1000)
    (hN : 1 ≤ N) (hN' : N ≤ 31) (h0 : 0 ≤ J_min) (h1 : J_min < J) (spin : ℤ) :
    ∃ (psi : Arr3 ℂ) (phi : Arr1 ℝ), filters_directional_jax32 m mx lg jm L N J_min 2 spin = .ok (psi.map C64.ofC, phi.map F64.fin) ∧
      (∀ j l k, Sgl (psi.v j l k).re ∧ Sgl (psi.v j l k).im) ∧ (∀ l, Sgl (phi.v l)) ∧
      psi.d = J + 1 ∧ psi.r = L ∧ psi.c = 2 * L - 1 ∧ phi.n = L ∧
      (∀ j l n, psi.v j l (L - 1 + n) ≠ 0 →
        |spin| ≤ l ∧ (2 : ℝ) ^ (j - 1) < l ∧ (l : ℝ) < 2 ^ (j + 1) ∧ |n| ≤ l ∧ |n| < N ∧ (N + n) % 2 ≠ 0) ∧
      (∀ l, phi.v l ≠ 0 → |spin| ≤ l ∧ (l : ℝ) < 2 ^ J_min) := by
  obtain ⟨psi, phi, X, hf, hd⟩ := dir32_exists hm hs hT hL hJ hN hN' h0 h1 spin
  refine ⟨psi, phi, hf, fun j l k => ?_, fun l => ?_, hd.support hN h0 h1⟩
  · rw [hd.wav]
    by_cases hr : 0 ≤ j ∧ j < J + 1 ∧ 0 ≤ l ∧ l < L ∧ 0 ≤ k ∧ k < 2 * L - 1
    · rw [Arr3.of_v _ _ _ _ _ _ _ hr]
      exact psiD32_sgl hs hd.k hL hN hN' hr.1 hr.2.1 hr.2.2.1 hr.2.2.2.1
    · rw [Arr3.junk _ j l k hr]; exact ⟨sgl_zero, sgl_zero⟩
  · rw [hd.scal]
    by_cases hr : 0 ≤ l ∧ l < L
    · rw [Arr1.of_v _ _ _ hr]
      exact phiD32_sgl hd.k hL h0 (by omega) hr.1 hr.2
    · rw [Arr1.junk _ l hr]; exact sgl_zero

/-- **C116** they are close to those the JAX routine returns in exact arithmetic: same phase, and squared moduli within `2^-15` (`0.0011`
for more than 15 directions) of each other when normalised as in the frame sum. -/
theorem C116_close (hm : m.Ok) (hs : Special mx lg) (hT : TopScale jm L 2 J) (hL : L ≤ 2 ^ 23) (hJ : J ≤ 1000)
    (hN : 1 ≤ N) (hN' : N ≤ 31) (h0 : 0 ≤ J_min) (h1 : J_min < J) {spin : ℤ} {psi psi' : Arr3 ℂ} {phi phi' : Arr1 ℝ}
    (h : filters_directional_jax32 m mx lg jm L N J_min 2 spin = .ok (psi.map C64.ofC, phi.map F64.fin))
    (h' : filters_directional_jax jm L N J_min 2 spin 0 = .ok (psi', phi')) :
    (∃ ν : ℂ, ‖ν‖ = 1 ∧ ∀ j l k, psi.v j l k = ν * ‖psi.v j l k‖ ∧ psi'.v j l k = ν * ‖psi'.v j l k‖) ∧
    (∀ j l k, 0 ≤ l → 8 * Real.pi ^ 2 / (2 * l + 1) * |‖psi.v j l k‖ ^ 2 - ‖psi'.v j l k‖ ^ 2| ≤ if N ≤ 15 then 1 / 2 ^ 15 else 0.0011) ∧
    (∀ l, 0 ≤ phi.v l ∧ 0 ≤ phi'.v l) ∧
    (∀ l, 0 ≤ l → 4 * Real.pi / (2 * l + 1) * |phi.v l ^ 2 - phi'.v l ^ 2| ≤ 1 / 2 ^ 15) := by
  obtain ⟨X, hd⟩ := dir32_elim hm hs hT hL hJ hN hN' h0 h1 h
  exact hd.close hs hT hL hJ hN hN' h0 h1 h'

/-- **C116** they are admissible up to rounding, at every degree from the spin on: within `2^-15` for up to 15 directions and band-limits up to
2049, within `0.0011` for up to 31 directions; beyond that band-limit up to `0.001` is added by the quadrature of the tiling functions. -/
theorem C116_admissible (hm : m.Ok) (hs : Special mx lg) (hT : TopScale jm L 2 J) (hL : L ≤ 2 ^ 23) (hJ : J ≤ 1000)
    (hN : 1 ≤ N) (hN' : N ≤ 31) (h0 : 0 ≤ J_min) (h1 : J_min < J) {spin : ℤ} {psi : Arr3 ℂ} {phi : Arr1 ℝ}
    (h : filters_directional_jax32 m mx lg jm L N J_min 2 spin = .ok (psi.map C64.ofC, phi.map F64.fin)) {l : ℤ} (hl0 : 0 ≤ l) (hl1 : l < L)
    (hl : |spin| ≤ l) :
    0.9989 ≤ frameSum J_min J L psi phi l ∧ frameSum J_min J L psi phi l ≤ 1.0021 ∧
    (L ≤ 2049 → frameSum J_min J L psi phi l ≤ 1.0011) ∧
    (N ≤ 15 → 1 - 1 / 2 ^ 15 ≤ frameSum J_min J L psi phi l ∧ frameSum J_min J L psi phi l ≤ 1.001 + 1 / 2 ^ 15) ∧
    (N ≤ 15 → L ≤ 2049 → frameSum J_min J L psi phi l ≤ 1 + 1 / 2 ^ 15) := by
  obtain ⟨X, hd⟩ := dir32_elim hm hs hT hL hJ hN hN' h0 h1 h
  exact hd.admissible hs hT hL hJ hN hN' h0 h1 hl0 hl1 hl

section
variable {O : Ops C64 F64} {c : Cfg} {psi : Arr3 ℂ} {phi : Arr1 ℝ} {flm : Arr2 ℂ}

/-- **C116** in the transforms they qualify as filters: zero wherever the transforms do not look, and symmetric for real signals
when there are at most 15 directions. -/
theorem C116_filters (hm : m.Ok) (hs : Special mx lg) (hv : c.Core jm J) (hlam : c.lam = 2) (hL : c.L ≤ 2 ^ 23)
    (hJ : J ≤ 1000) (hN : c.N ≤ 31) (hre : c.reality = true → c.N ≤ 15)
    (h : filters_directional_jax32 m mx lg jm c.L c.N c.J_min c.lam c.spin = .ok (psi.map C64.ofC, phi.map F64.fin)) (mr : Bool) :
    c.Filters J mr psi phi := by
  have hT := hv.top
  rw [hlam] at h hT
  obtain ⟨X, hd⟩ := dir32_elim hm hs hT hL hJ hv.hN hN hv.h0 hv.h1 h
  exact dir32_filters hs hT.hL hlam hv.hN hv.h0 hv.h1 hre hd mr

/-- **C116** everything the JAX transforms do in harmonic space in 32-bit mode with the filters of `filters_directional_jax`, itself in 32-bit
mode: no exception, no infinity, no NaN, and the coefficients of a band-limited signal come back within a relative error of
`(N + J + 26) 2^-19` for up to 15 directions and `L ≤ 2049`, and within `0.0021` more than `(N + J + 10) 2^-19` for up to 31 directions and any
band-limit up to `2^23` (up to underflow). -/
theorem C116_round_trip (hO : Good O) (hm : m.Ok) (hsp : Special mx lg) (hv : c.Core jm J) (hlam : c.lam = 2) (hL : c.L ≤ 2 ^ 23) (hJ : J ≤ 1000)
    (hN : c.N ≤ 31) (hNL : c.N ≤ c.L) (hre : c.reality = true → c.N ≤ 15)
    (h : filters_directional_jax32 m mx lg jm c.L c.N c.J_min c.lam c.spin = .ok (psi.map C64.ofC, phi.map F64.fin))
    (hbl : BL2 c.L c.spin flm) (hf : ∀ l m, ‖co2 flm l m‖ ≤ 2 ^ (20 : ℤ)) :
    ∃ (w : List (Arr3 C64)) (s : Arr2 C64) (g : Arr2 ℂ),
      generate_and_apply_waveletsO O (flm.map C64.ofC) c.L c.N c.J_min J c.lam (some (psi.map C64.ofC)) = .ok w ∧
      generate_and_apply_scalingO O (flm.map C64.ofC) c.L c.J_min c.lam (some (phi.map F64.fin)) = .ok s ∧
      sum_over_wavelet_and_scalingO O w s c.L c.N c.J_min J c.lam (some (psi.map C64.ofC, phi.map F64.fin)) = .ok (g.map C64.ofC) ∧
      g.r = c.L ∧ g.c = 2 * c.L - 1 ∧
      (∀ l m, ‖co2 g l m - co2 flm l m‖ ≤ (0.0021 + (c.N + J + 10) / 2 ^ 19) * ‖co2 flm l m‖ + 2 ^ (-75 : ℤ)) ∧
      (c.L ≤ 2049 → c.N ≤ 15 → ∀ l m, ‖co2 g l m - co2 flm l m‖ ≤ (c.N + J + 26) / 2 ^ 19 * ‖co2 flm l m‖ + 2 ^ (-75 : ℤ)) := by
  have hG := C116_filters hm hsp hv hlam hL hJ hN hre h true
  have hT := hv.top
  have h' := h
  rw [hlam] at h' hT
  have hadm := fun {l : ℤ} => C116_admissible (l := l) hm hsp hT hL hJ hv.hN hN hv.h0 hv.h1 h'
  have hF : ∀ l, 0 ≤ l → l < c.L → frameSum c.J_min J c.L psi phi l ≤ 2 := by
    intro l a b
    by_cases hl : |c.spin| ≤ l
    · exact (hadm a b hl).2.1.trans (by norm_num)
    · have z1 : phi.v l = 0 := by
        by_contra hne
        exact hl (hG.scal l hne).2
      have z2 : ∀ j k, psi.v j l k = 0 := fun j k => by
        by_contra hne
        have := hG.wav j l (k - (c.L - 1)) (by rw [add_sub_cancel]; exact hne)
        exact hl this.2.2.2.2.2
      unfold frameSum
      simp [z1, z2]
  have hL1 := hv.top.hL
  have hlam1 : 1 < c.lam := by rw [hlam]; norm_num
  have hN1 := hv.hN
  have h0 := hv.h0
  have h1 := hv.h1
  have hvv : ∀ l i, flm.v l i = co2 flm l (i - (c.L - 1)) := fun l i => by rw [co2, hbl.r, add_sub_cancel]
  have htri : Tri2 c.L flm := ⟨hbl.r, hbl.c, fun l m hlm => by
    have := hbl.zero l m (Or.inl hlm)
    rw [co2, hbl.r] at this
    exact this⟩
  obtain ⟨t, s, g, A1, A2, A3, A4, A5, A6, A7, A8, A9⟩ := trip_entry (psi := psi) (phi := phi) hO hL1 hL hlam1 hN1 hNL (by omega) h0 (by omega : c.J_min ≤ J + 1) (by omega)
    hG.cols hG.trunc htri (fun l i => by rw [hvv]; exact hf _ _) hF
  refine ⟨(pyRange c.J_min (J + 1)).map fun j => (t j).map C64.ofC, s.map C64.ofC, g, ?_, ?_, ?_, A7, A8, ?_⟩
  · rw [waveletsO_eq O hL1 hlam1 hN1 hNL h0 (by omega) (flm.map C64.ofC) (psi := psi.map C64.ofC) hG.d hG.r hG.cols hbl.r hbl.c]
    congr 1
    exact List.map_congr_left fun j hj => by rw [mem_pyRange] at hj; exact A1 j hj.1 hj.2
  · rw [← harmS_true, harmS_eq O hL1 hlam1 (flm.map C64.ofC) (phi := phi.map F64.fin) hG.n hbl.r hbl.c, A3]
  · rw [← harmSum_true, harmSum_eq O hL1 hlam1 hN1 hNL h0 (by omega) (psi := psi.map C64.ofC) (phi := phi.map F64.fin) hG.d hG.r hG.cols hG.n (s := s.map C64.ofC) A4 A5
      (t := fun j => (t j).map C64.ofC) A2, A6]
  have key : ∀ e : ℝ, 0 ≤ e → (∀ l, 0 ≤ l → l < c.L → |c.spin| ≤ l → |frameSum c.J_min J c.L psi phi l - 1| ≤ e) →
      ∀ l m, ‖co2 g l m - co2 flm l m‖ ≤ (e + (c.N + J + 10) / 2 ^ 19) * ‖co2 flm l m‖ + 2 ^ (-75 : ℤ) := by
    intro e hepos hFe l m
    have a9 := A9 l (c.L - 1 + m)
    rw [hvv, add_sub_cancel_left] at a9
    have hg : g.v l (c.L - 1 + m) = co2 g l m := by rw [co2, A7]
    rw [hg] at a9
    by_cases hz : co2 flm l m = 0
    · rw [hz] at a9 ⊢
      simpa using a9
    · have hr : 0 ≤ l ∧ l < c.L ∧ |c.spin| ≤ l := by
        refine ⟨?_, ?_, ?_⟩ <;> by_contra hc
        · exact hz (hbl.zero l m (Or.inl (by have := abs_nonneg m; omega)))
        · exact hz (flm.junk _ _ (by have := hbl.r; omega))
        · exact hz (hbl.zero l m (Or.inr (by omega)))
      have e1 : co2 g l m - co2 flm l m = (co2 g l m - (frameSum c.J_min J c.L psi phi l : ℂ) * co2 flm l m) +
          ((frameSum c.J_min J c.L psi phi l - 1 : ℝ) : ℂ) * co2 flm l m := by
        push_cast; ring
      rw [e1]
      refine (norm_add_le _ _).trans ?_
      rw [norm_mul, Complex.norm_real, Real.norm_eq_abs]
      have := mul_le_mul_of_nonneg_right (hFe l hr.1 hr.2.1 hr.2.2) (norm_nonneg (co2 flm l m))
      rw [add_mul]
      generalize (2 : ℝ) ^ (-75 : ℤ) = q at *
      linarith
  refine ⟨key 0.0021 (by norm_num) fun l a1 a2 a3 => ?_, fun b1 b2 => ?_⟩
  · obtain ⟨b1, b2, -⟩ := hadm a1 a2 a3
    rw [abs_le]; norm_num at *; constructor <;> linarith
  · have h26 : ((c.N + J + 26) / 2 ^ 19 : ℝ) = 1 / 2 ^ 15 + (c.N + J + 10) / 2 ^ 19 := by norm_num; ring
    rw [h26]
    refine key (1 / 2 ^ 15) (by norm_num) fun l a1 a2 a3 => ?_
    obtain ⟨-, -, -, b3, b4⟩ := hadm a1 a2 a3
    have b3 := (b3 b2).1
    have b4 := b4 b2 b1
    rw [abs_le]; norm_num at *; constructor <;> linarith

end

/-! ### Non-vacuity -/

/-- `exp` correctly rounded to single precision -/
noncomputable def exact32 : Libm where
  exp x := of (Real.exp x)
  pow x n := of (x ^ n)

/-- `gammaln`, correctly rounded to single precision -/
noncomputable def lgExact32 : F64 → F64
  | .fin x => of (Real.log (Real.Gamma x))
  | x => x

theorem exp_22 : Real.exp 22 ≤ 2 ^ 40 := by
  have h1 : Real.exp (40 * Real.log 2) = 2 ^ 40 := by
    rw [← Real.rpow_natCast, Real.rpow_def_of_pos (by norm_num)]
    congr 1; push_cast; ring
  rw [← h1, Real.exp_le_exp]
  have := Real.log_two_gt_d9
  norm_num at this ⊢; linarith

theorem exact32_special : Special exact32 lgExact32 where
  exp_acc x hx := by
    rw [abs_le] at hx
    have h0 := Real.exp_pos x
    have h1 : Real.exp x ≤ 2 ^ 40 := (Real.exp_le_exp.2 hx.2).trans exp_22
    have h2 : (1 : ℝ) / 2 ^ 40 ≤ Real.exp x := by
      have : Real.exp (-22) ≤ Real.exp x := Real.exp_le_exp.2 hx.1
      refine le_trans ?_ this
      rw [Real.exp_neg, one_div]
      exact inv_anti₀ (Real.exp_pos _) exp_22
    refine ⟨rnd (Real.exp x), of_fin (by rw [abs_of_pos h0]; exact h1.trans (by norm_num)), ?_⟩
    have h3 := rnd_acc' (Real.exp x)
    rw [abs_of_pos h0] at h3
    refine h3.trans ?_
    norm_num at *; linarith
  lg_acc n hn := by
    have e : Real.Gamma ((n + 1 : ℕ) : ℝ) = n.factorial := by push_cast; exact Real.Gamma_nat_eq_factorial n
    have h0 := log_fact_nonneg n
    have h1 : Real.log (n.factorial : ℝ) ≤ 7000 := by
      have hnR : (n : ℝ) ≤ 30 := by exact_mod_cast hn
      have := log_fact_le (n := n) (a := 7) (b := 1000) (by linarith) (by norm_num) (by norm_num) exp_seven
      linarith
    refine ⟨rnd (Real.log n.factorial), ?_, ?_⟩
    · change of _ = _
      rw [e]
      refine of_fin' ?_
      rw [abs_of_nonneg h0]; norm_num; linarith
    · have := rnd_acc' (Real.log n.factorial)
      rw [abs_of_nonneg h0] at this
      refine this.trans ?_
      norm_num; linarith

/-- a C library, an `exp` and a `gammaln` with all that is assumed: `L = 128`, `N = 5`, and the frame sum at degree 100; with 32 directions
instead there is an exception, and none in double precision -/
example : ∃ J, j_max 128 2 = .ok J ∧ ∃ (psi : Arr3 ℂ) (phi : Arr1 ℝ),
    filters_directional_jax32 Libm.exact exact32 lgExact32 j_max 128 5 2 2 0 = .ok (psi.map C64.ofC, phi.map F64.fin) ∧
      |frameSum 2 J 128 psi phi 100 - 1| ≤ 1 / 2 ^ 15 ∧
    filters_directional_jax32 Libm.exact exact32 lgExact32 j_max 128 32 2 2 0 = .error .overflow ∧
    ∃ r, filters_directional_jax64 Libm.exact Libm.exact lgExact j_max 128 32 2 2 0 = .ok r := by
  have hJ : j_max 128 2 = .ok 7 := by
    have h := j_max_eq (L := 128) (lam := 2) (by norm_num) (by norm_num)
    rw [h]
    have : Real.log ((128 : ℤ) : ℝ) / Real.log 2 = 7 := by
      rw [div_eq_iff (Real.log_pos (by norm_num)).ne']
      have : ((128 : ℤ) : ℝ) = 2 ^ 7 := by norm_num
      rw [this, Real.log_pow]; norm_num
    rw [this]; norm_num
  have hT := TopScale.of_j_max (L := 128) (lam := 2) (by norm_num) (by norm_num) hJ
  obtain ⟨psi, phi, h, -⟩ := C116_directional (N := 5) (J_min := 2) Libm.exact_ok exact32_special hT (by norm_num) (by norm_num) (by norm_num) (by norm_num)
    (by norm_num) (by norm_num) 0
  obtain ⟨-, -, -, a, b⟩ := C116_admissible (N := 5) Libm.exact_ok exact32_special hT (by norm_num) (by norm_num) (by norm_num) (by norm_num)
    (by norm_num) (by norm_num) h (l := 100) (by norm_num) (by norm_num) (by norm_num)
  have a := (a (by norm_num)).1
  have b := b (by norm_num) (by norm_num)
  obtain ⟨psi', phi', h', -⟩ := C108_directional (N := 32) (J_min := 2) Libm.exact_ok lgExact_special hT (by norm_num) (by norm_num) (by norm_num) (by norm_num)
    (by norm_num) (by norm_num) 0
  refine ⟨7, hJ, psi, phi, h, ?_, C116_overflow Libm.exact_ok hT (by norm_num) (by norm_num) (by norm_num) (by norm_num) le_rfl (by norm_num) 0, _, h'⟩
  rw [abs_le]
  norm_num at *
  constructor <;> linarith

/-- and the round trip of a signal with a single coefficient -/
example : ∃ (psi : Arr3 ℂ) (phi : Arr1 ℝ) (w : List (Arr3 C64)) (s : Arr2 C64) (g : Arr2 ℂ),
    filters_directional_jax32 Libm.exact exact32 lgExact32 j_max 16 3 0 2 0 = .ok (psi.map C64.ofC, phi.map F64.fin) ∧
    generate_and_apply_waveletsO ieee ((Arr2.of 16 31 fun l i => if l = 5 ∧ i = 17 then (1 : ℂ) else 0).map C64.ofC) 16 3 0 4 2 (some (psi.map C64.ofC)) = .ok w ∧
    generate_and_apply_scalingO ieee ((Arr2.of 16 31 fun l i => if l = 5 ∧ i = 17 then (1 : ℂ) else 0).map C64.ofC) 16 0 2 (some (phi.map F64.fin)) = .ok s ∧
    sum_over_wavelet_and_scalingO ieee w s 16 3 0 4 2 (some (psi.map C64.ofC, phi.map F64.fin)) = .ok (g.map C64.ofC) ∧
    ‖co2 g 5 2 - 1‖ ≤ 1 / 2 ^ 13 := by
  have hJ : j_max 16 2 = .ok 4 := by
    have h := j_max_eq (L := 16) (lam := 2) (by norm_num) (by norm_num)
    rw [h]
    have : Real.log ((16 : ℤ) : ℝ) / Real.log 2 = 4 := by
      rw [div_eq_iff (Real.log_pos (by norm_num)).ne']
      have : ((16 : ℤ) : ℝ) = 2 ^ 4 := by norm_num
      rw [this, Real.log_pow]; norm_num
    rw [this]; norm_num
  have hT := TopScale.of_j_max (L := 16) (lam := 2) (by norm_num) (by norm_num) hJ
  obtain ⟨psi, phi, h, -⟩ := C116_directional (N := 3) (J_min := 0) Libm.exact_ok exact32_special hT (by norm_num) (by norm_num) (by norm_num) (by norm_num) le_rfl
    (by norm_num) 0
  set flm : Arr2 ℂ := Arr2.of 16 31 fun l i => if l = 5 ∧ i = 17 then (1 : ℂ) else 0 with hfl
  have hco : ∀ l m, co2 flm l m = if l = 5 ∧ m = 2 then 1 else 0 := by
    intro l m
    have hr : flm.r = 16 := rfl
    rw [co2, hr, hfl]
    by_cases hb : 0 ≤ l ∧ l < 16 ∧ 0 ≤ 16 - 1 + m ∧ 16 - 1 + m < 31
    · rw [Arr2.of_v _ _ _ _ _ hb]
      exact if_congr (by omega) rfl rfl
    · rw [Arr2.of_out _ _ _ _ _ hb, if_neg (by omega)]
  have hbl : BL2 16 0 flm := ⟨rfl, rfl, fun l m hlm => by
    rw [hco, if_neg]
    rintro ⟨rfl, rfl⟩
    norm_num at hlm⟩
  obtain ⟨w, s, g, h2, h3, h4, -, -, -, h5⟩ := C116_round_trip (c := ⟨16, 3, 0, 2, 0, "mw", none, false⟩) C115_ieee Libm.exact_ok exact32_special
    ⟨hT, by norm_num, le_rfl, by norm_num⟩ rfl (by norm_num) (by norm_num) (by norm_num) (by norm_num) (by simp) h hbl (fun l m => by
      rw [hco]
      have : (1 : ℝ) ≤ 2 ^ (20 : ℤ) := one_le_zpow₀ (by norm_num) (by norm_num)
      split_ifs
      · rw [norm_one]; exact this
      · rw [norm_zero]; exact zero_le_one.trans this)
  refine ⟨psi, phi, w, s, g, h, h2, h3, h4, ?_⟩
  have := h5 (by norm_num) (by norm_num) 5 2
  rw [hco, if_pos ⟨rfl, rfl⟩, norm_one] at this
  have hq : (2 : ℝ) ^ (-75 : ℤ) ≤ 1 / 2 ^ 44 := by
    refine (p2_mono (show (-75 : ℤ) ≤ -44 by norm_num)).trans (le_of_eq ?_)
    rw [show (-44 : ℤ) = -((44 : ℕ) : ℤ) by norm_num, zpow_neg, zpow_natCast, one_div]
  generalize (2 : ℝ) ^ (-75 : ℤ) = q at *
  norm_num at *
  linarith

end S2wav.Single
