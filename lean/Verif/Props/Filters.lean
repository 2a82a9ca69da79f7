import Verif.Lemmas.Built
import Verif.Lemmas.Overshoot
import Verif.Props.Samples

/-! # Properties of `filters.py` (C06 - C20, C39) -/

namespace S2wav
open Classical

theorem j_max_3_2 : j_max 3 2 = .ok 2 := by
  rw [C01_j_max (by norm_num) (by norm_num)]
  refine ⟨by norm_num, by norm_num, fun J' h0 h => ?_⟩
  by_contra hc
  have : (2 : ℝ) ^ J' ≤ 2 ^ (1 : ℤ) := zpow_mono' (by norm_num) (by omega)
  norm_num at this h
  linarith

theorem j_max_8_2 : j_max 8 2 = .ok 3 := by
  rw [C01_j_max (by norm_num) (by norm_num)]
  refine ⟨by norm_num, by norm_num, fun J' h0 h => ?_⟩
  by_contra hc
  have : (2 : ℝ) ^ J' ≤ 2 ^ (2 : ℤ) := zpow_mono' (by norm_num) (by omega)
  norm_num at this h
  linarith

section
variable {L N J J_min : ℤ} {lam : ℝ}

/-- **C06** `k_lam` never fails and has the documented plateau, support and sign; `k_lam_jax` returns the same array. -/
theorem C06_k_lam (hL : 1 ≤ L) (hlam : 1 < lam) (hJ : j_max L lam = .ok J) {q : ℤ} (hq : 3 ≤ q) :
    ∃ k, k_lam j_max L lam q = .ok k ∧ k_lam_jax j_max L lam q = .ok k ∧ k.r = J + 2 ∧ k.c = L ∧
      (∀ j l, 0 ≤ k.v j l) ∧
      ∀ j l, 0 ≤ j → j < J + 2 → 0 ≤ l → l < L →
        ((l : ℝ) ≤ lam ^ (j - 1) → k.v j l = 1) ∧
        (lam ^ (j - 1) ≤ (l : ℝ) → (l : ℝ) < lam ^ j → 0 < k.v j l) ∧
        (lam ^ j ≤ (l : ℝ) → k.v j l = 0) := by
  have hT := TopScale.of_j_max hL hlam hJ
  refine ⟨_, k_lam_ok hT hq, by rw [k_lam_jax_eq, k_lam_ok hT hq], rfl, rfl,
    Arr2.of_v_nonneg (kval_nonneg hlam hq), fun j l h0 h1 h2 h3 => ?_⟩
  rw [Arr2.of_v _ _ _ _ _ ⟨h0, h1, h2, h3⟩]
  exact ⟨kval_le_edge hlam hq, fun _ => kval_pos hlam hq, kval_above hlam⟩

example : ∃ k, k_lam j_max 8 2 300 = .ok k ∧ k.v 2 2 = 1 ∧ 0 < k.v 2 3 ∧ k.v 2 4 = 0 := by
  obtain ⟨k, h1, _, _, _, _, h⟩ := C06_k_lam (L := 8) (lam := 2) (by norm_num) (by norm_num) j_max_8_2 (q := 300)
    (by norm_num)
  refine ⟨k, h1, (h 2 2 (by norm_num) (by norm_num) (by norm_num) (by norm_num)).1 (by norm_num),
    (h 2 3 (by norm_num) (by norm_num) (by norm_num) (by norm_num)).2.1 (by norm_num) (by norm_num),
    (h 2 4 (by norm_num) (by norm_num) (by norm_num) (by norm_num)).2.2 (by norm_num)⟩

/-- `k_lam` without overshoot exists: an instance of the hypothesis used below. -/
theorem noOvershoot_3_2 : ∃ k, k_lam j_max 3 2 300 = .ok k ∧ NoOvershoot k := by
  have hT := TopScale.of_j_max (L := 3) (lam := 2) (by norm_num) (by norm_num) j_max_3_2
  refine ⟨_, k_lam_ok hT (by norm_num), fun j l => ?_⟩
  by_cases h : 0 ≤ j ∧ j < 2 + 2 ∧ 0 ≤ l ∧ l < 3
  · rw [Arr2.of_v _ _ _ _ _ h]
    have h2 : (1 : ℝ) < 2 := by norm_num
    have : (l : ℝ) ≤ 2 ^ (j - 1) ∨ (2 : ℝ) ^ j ≤ l := by
      obtain ⟨h0, h1, h3, h4⟩ := h
      interval_cases l
      · left; exact le_trans (by norm_num) (zpow_pos' h2 (j - 1)).le
      · rcases le_or_gt 1 j with hj | hj
        · left
          have := zpow_mono' h2 (show 0 ≤ j - 1 by omega)
          simpa using this
        · right
          have := zpow_mono' h2 (show j ≤ 0 by omega)
          simpa using this
      · rcases le_or_gt 2 j with hj | hj
        · left
          have := zpow_mono' h2 (show 1 ≤ j - 1 by omega)
          simpa using this
        · right
          have := zpow_mono' h2 (show j ≤ 1 by omega)
          simpa using this
    rcases this with h5 | h5
    · rw [kval_le_edge h2 (by norm_num) h5]
    · rw [kval_above h2 h5]; exact zero_le_one
  · rw [(Arr2.of (2 + 2) 3 (kval 2 300)).junk j l h]; exact zero_le_one

/-- and with entries inside the transition bands -/
theorem noOvershoot_8_2 : ∃ k, k_lam j_max 8 2 300 = .ok k ∧ NoOvershoot k := by
  have hT := TopScale.of_j_max (L := 8) (lam := 2) (by norm_num) (by norm_num) j_max_8_2
  refine ⟨_, k_lam_ok hT (by norm_num), fun j l => ?_⟩
  by_cases h : 0 ≤ j ∧ j < 3 + 2 ∧ 0 ≤ l ∧ l < 8
  · rw [Arr2.of_v _ _ _ _ _ h]
    have h2 : (1 : ℝ) < 2 := by norm_num
    obtain ⟨h0, h1, h3, h4⟩ := h
    by_contra hc
    push Not at hc
    have hp := kval_place h2 (by norm_num) hc.le
    have hlow : (2 : ℝ) ^ (j - 1) < l := by
      by_contra hle
      rw [kval_le_edge h2 (by norm_num) (not_lt.1 hle)] at hc
      exact lt_irrefl _ hc
    clear hc
    interval_cases j <;> interval_cases l <;> revert hp hlow <;> norm_num
  · rw [(Arr2.of (3 + 2) 8 (kval 2 300)).junk j l h]; exact zero_le_one

/-- **C07** compact support of the axisymmetric filters, for all three builders. -/
theorem C07_support (hL : 1 ≤ L) (hlam : 1 < lam) {psi : Arr2 ℝ} {phi : Arr1 ℝ}
    (h : AxBuilt j_max L J_min lam psi phi) :
    (∀ j l, psi.v j l ≠ 0 → lam ^ (j - 1) < (l : ℝ) ∧ (l : ℝ) < lam ^ (j + 1)) ∧
    (∀ l : ℤ, lam ^ J_min ≤ (l : ℝ) → phi.v l = 0) ∧
    (∀ l : ℤ, 0 ≤ l → l < L → (l : ℝ) ≤ lam ^ (J_min - 1) → phi.v l = 1) ∧
    phi.v 0 = 1 ∧
    (∀ j j' l, psi.v j l ≠ 0 → psi.v j' l ≠ 0 → |j - j'| ≤ 1) := by
  have hT := TopScale.of_j_max hL hlam (j_max_eq hL hlam)
  obtain ⟨h0, h1, rfl, p, rfl, hp⟩ := axBuilt_elim hT h
  have hs : ∀ j l, (Arr2.of (⌈Real.log L / Real.log lam⌉ + 1) L p).v j l ≠ 0 →
      lam ^ (j - 1) < (l : ℝ) ∧ (l : ℝ) < lam ^ (j + 1) := by
    intro j l hne
    by_cases hr : 0 ≤ j ∧ j < ⌈Real.log L / Real.log lam⌉ + 1 ∧ 0 ≤ l ∧ l < L
    · rw [Arr2.of_v _ _ _ _ _ hr] at hne
      exact hp.support hlam (by omega) hr.2.2.1 hr.2.2.2 hne
    · exact absurd (Arr2.junk _ j l hr) hne
  refine ⟨hs, fun l hl => ?_, fun l hl0 hl1 hl => ?_, ?_, fun j j' l h1 h2 => ?_⟩
  · by_cases hr : 0 ≤ l ∧ l < L
    · rw [Arr1.of_v _ _ _ hr]; exact phiAx_eq_zero hlam hl
    · exact Arr1.junk _ l hr
  · rw [Arr1.of_v _ _ _ ⟨hl0, hl1⟩]; exact phiAx_eq_one hlam hl
  · rw [Arr1.of_v _ _ _ ⟨le_rfl, by omega⟩]
    exact phiAx_eq_one hlam (by simpa using (zpow_pos' hlam (J_min - 1)).le)
  · obtain ⟨a, b⟩ := hs _ _ h1
    obtain ⟨a', b'⟩ := hs _ _ h2
    have e1 := (zpow_lt_zpow_iff_right₀ hlam).1 (a.trans b')
    have e2 := (zpow_lt_zpow_iff_right₀ hlam).1 (a'.trans b)
    rw [abs_le]; omega

theorem axBuilt_8_2 : ∃ psi phi, AxBuilt j_max 8 1 2 psi phi := by
  have hT := TopScale.of_j_max (L := 8) (lam := 2) (by norm_num) (by norm_num) j_max_8_2
  exact ⟨_, _, Or.inr (Or.inl (filters_axisym_vectorised_ok hT (J_min := 1) (by norm_num) (by norm_num)))⟩

example : ∃ psi phi, AxBuilt j_max 8 1 2 psi phi ∧ psi.v 1 4 = 0 ∧ phi.v 2 = 0 := by
  obtain ⟨psi, phi, h⟩ := axBuilt_8_2
  have hc := C07_support (by norm_num) (by norm_num) h
  refine ⟨psi, phi, h, ?_, hc.2.1 2 (by norm_num)⟩
  by_contra hne
  have := (hc.1 1 4 hne).2
  norm_num at this

/-- **C08** the multiresolution transforms never drop a non-zero filter coefficient. -/
theorem C08_truncation (hL : 1 ≤ L) (hN : 1 ≤ N) (hlam : 1 < lam) {spin spin0 : ℤ} {psi : Arr3 ℂ} {phi : Arr1 ℝ}
    (h : DirBuilt j_max L N J_min lam spin spin0 psi phi) (mr : Bool) :
    (∀ j l n, psi.v j l (L - 1 + n) ≠ 0 →
      (LN_j L j N lam mr).2.2 ≤ l ∧ l < (LN_j L j N lam mr).1 ∧ |n| < (LN_j L j N lam mr).2.1 ∧
        ((LN_j L j N lam mr).2.1 - 1 - n) % 2 = 0) ∧
    (∀ l, phi.v l ≠ 0 → l < scal_bandlimit L J_min lam mr) :=
  dir_truncation (TopScale.of_j_max hL hlam (j_max_eq hL hlam)) hN h mr

theorem dirBuilt_8_2 (spin : ℤ) : ∃ psi phi, DirBuilt j_max 8 3 1 2 spin 0 psi phi := by
  have hT := TopScale.of_j_max (L := 8) (lam := 2) (by norm_num) (by norm_num) j_max_8_2
  exact ⟨_, _, Or.inr (Or.inl (filters_directional_vectorised_ok hT (N := 3) (J_min := 1) (by norm_num) (by norm_num)
    (by norm_num) spin))⟩

/-- a coefficient that is kept, and one that is dropped (band-limit 4 at scale 1) -/
example : ∃ psi phi, DirBuilt j_max 8 3 1 2 0 0 psi phi ∧ psi.v 1 2 (8 - 1 + 0) ≠ 0 ∧ psi.v 1 5 (8 - 1 + 0) = 0 := by
  have hT := TopScale.of_j_max (L := 8) (lam := 2) (by norm_num) (by norm_num) j_max_8_2
  have hb := filters_directional_vectorised_ok hT (N := 3) (J_min := 1) (by norm_num) (by norm_num) (by norm_num) 0
  refine ⟨_, _, Or.inr (Or.inl hb), ?_, ?_⟩
  · rw [Arr3.of_v _ _ _ _ _ _ _ (by norm_num)]
    have e : (8 - 1 + 0 - (8 - 1) : ℤ) = 0 := by norm_num
    have h1 : psiAx 2 1 2 = 1 := by
      rw [psiAx, kv, kv, kval_le_edge (by norm_num) (by norm_num) (by norm_num), kval_above (by norm_num) (by norm_num)]
      simp
    have h2 : ‖sdir 3 2 0‖ ^ 2 = 1 / 2 := by
      have hg : gam 3 2 = 2 := by decide
      rw [sdir_normSq ⟨by norm_num, by rw [hg]; norm_num, by norm_num⟩, hg]
      have : ((2 - 0 : ℤ) / 2).toNat = 1 := by decide
      have e2 : (2 : ℤ).toNat = 2 := rfl
      rw [this, e2]
      norm_num [Nat.choose]
    have h3 : sdir 3 2 0 ≠ 0 := by rintro h; rw [h] at h2; norm_num at h2
    have h4 : cpsi 2 ≠ 0 := by
      have := cpsi_sq (l := 2) (by norm_num)
      intro h
      rw [h] at this
      have hp := Real.pi_pos
      have : (0 : ℝ) < (2 * (2 : ℤ) + 1) / (8 * Real.pi ^ 2) := by positivity
      linarith
    simp only [e, psiDir, psiDirOf, h1, sfac_zero, abs_zero]
    rw [if_neg (by norm_num)]
    simp [h3, h4]
  · by_contra hne
    have := ((C08_truncation (by norm_num) (by norm_num) (by norm_num) (Or.inr (Or.inl hb)) true).1 1 5 0 hne).2.1
    rw [LN_j_Lj] at this
    have h4 := ((C03_bandlimit (L := 8) (lam := 2) (by norm_num) (by norm_num)).1 1 le_rfl).2.2 5
    have := (h4.1 this).2
    norm_num at this

/-- axisymmetric admissibility for any top scale: exactly the column maximum of `k_lam` for the vectorised and JAX filters (so at
least 1), and exactly 1 for all three builders when `k_lam` does not overshoot. -/
theorem ax_admissible {jm : JMax} (hT : TopScale jm L lam J) {k : Arr2 ℝ}
    (hk : k_lam jm L lam 300 = .ok k) {psi : Arr2 ℝ} {phi : Arr1 ℝ} :
    ((filters_axisym_vectorised jm L J_min lam = .ok (psi, phi) ∨
        filters_axisym_jax jm L J_min lam = .ok (psi, phi)) → ∀ l, 0 ≤ l → l < L →
      IsColMax k J_min (J + 1) l (phi.v l ^ 2 + ∑ j ∈ Finset.Icc J_min J, psi.v j l ^ 2) ∧
      1 ≤ phi.v l ^ 2 + ∑ j ∈ Finset.Icc J_min J, psi.v j l ^ 2) ∧
    (AxBuilt jm L J_min lam psi phi → NoOvershoot k → ∀ l, 0 ≤ l → l < L →
      phi.v l ^ 2 + ∑ j ∈ Finset.Icc J_min J, psi.v j l ^ 2 = 1) := by
  have hlam := hT.hlam
  have hJ := hT.hJ
  rw [k_lam_ok hT (by norm_num)] at hk
  cases hk
  have hI : Finset.Icc J_min J = Finset.Ico J_min (J + 1) := by
    ext x; simp only [Finset.mem_Icc, Finset.mem_Ico]; omega
  rw [hI]
  constructor
  · intro h l hl0 hl1
    rw [filters_axisym_jax_eq hT, or_self] at h
    by_cases hv : J_min < 0 ∨ J ≤ J_min
    · rw [filters_axisym_vectorised_err hJ hv] at h; cases h
    have h0 : 0 ≤ J_min := by omega
    have h1 : J_min < J := by omega
    rw [filters_axisym_vectorised_ok hT h0 h1] at h; cases h
    have hg : (Arr1.of L (phiAx lam J_min)).v l ^ 2 + ∑ j ∈ Finset.Ico J_min (J + 1),
        (Arr2.of (J + 1) L (psiAx lam)).v j l ^ 2 = gain lam J_min J l := by
      rw [gain, Arr1.of_v _ _ _ ⟨hl0, hl1⟩]
      congr 1
      refine Finset.sum_congr rfl fun j hj => ?_
      rw [Finset.mem_Ico] at hj
      rw [Arr2.of_v _ _ _ _ _ ⟨by omega, hj.2, hl0, hl1⟩]
    rw [hg]
    have hG := gain_isGreatest hlam h1.le hl0
    have hkv : ∀ j, J_min ≤ j → j ≤ J + 1 → (Arr2.of (J + 2) L (kval lam 300)).v j l = kv lam j l :=
      fun j a b => Arr2.of_v _ _ _ _ _ ⟨by omega, by omega, hl0, hl1⟩
    refine ⟨⟨?_, fun j a b => ?_⟩, one_le_gain hT h1.le hl0 hl1⟩
    · obtain ⟨j, a, b, c⟩ := hG.1
      exact ⟨j, a, b, (hkv j a b).trans c⟩
    · rw [hkv j a b]
      exact hG.2 ⟨j, a, b, rfl⟩
  · intro h hno l hl0 hl1
    obtain ⟨h0, h1, rfl, p, rfl, hp⟩ := axBuilt_elim hT h
    have hkv : ∀ j, J_min ≤ j → j ≤ J + 1 → kv lam j l ≤ 1 := fun j a b => by
      have := hno j l
      rwa [Arr2.of_v _ _ _ _ _ ⟨by omega, by omega, hl0, hl1⟩] at this
    rw [← gain_eq_one hT h1.le hl0 hl1 hkv, gain, Arr1.of_v _ _ _ ⟨hl0, hl1⟩]
    congr 1
    refine Finset.sum_congr rfl fun j hj => ?_
    rw [Finset.mem_Ico] at hj
    rw [Arr2.of_v _ _ _ _ _ ⟨by omega, hj.2, hl0, hl1⟩,
      hp.eq j l hj.1 (by omega) hl0 hl1 (kv_mono_of_le_one hlam hl0 (hkv j hj.1 (by omega)))]

/-- **C09** axisymmetric admissibility: exactly the column maximum of `k_lam` for the vectorised and JAX filters (so at
least 1), and exactly 1 for all three builders when `k_lam` does not overshoot. -/
theorem C09_admissible (hL : 1 ≤ L) (hlam : 1 < lam) (hJ : j_max L lam = .ok J) {k : Arr2 ℝ}
    (hk : k_lam j_max L lam 300 = .ok k) {psi : Arr2 ℝ} {phi : Arr1 ℝ} :
    ((filters_axisym_vectorised j_max L J_min lam = .ok (psi, phi) ∨
        filters_axisym_jax j_max L J_min lam = .ok (psi, phi)) → ∀ l, 0 ≤ l → l < L →
      IsColMax k J_min (J + 1) l (phi.v l ^ 2 + ∑ j ∈ Finset.Icc J_min J, psi.v j l ^ 2) ∧
      1 ≤ phi.v l ^ 2 + ∑ j ∈ Finset.Icc J_min J, psi.v j l ^ 2) ∧
    (AxBuilt j_max L J_min lam psi phi → NoOvershoot k → ∀ l, 0 ≤ l → l < L →
      phi.v l ^ 2 + ∑ j ∈ Finset.Icc J_min J, psi.v j l ^ 2 = 1) :=
  ax_admissible (TopScale.of_j_max hL hlam hJ) hk

example : ∃ psi phi, AxBuilt j_max 8 1 2 psi phi ∧ phi.v 5 ^ 2 + ∑ j ∈ Finset.Icc 1 3, psi.v j 5 ^ 2 = 1 := by
  obtain ⟨k, hk, hno⟩ := noOvershoot_8_2
  have hT := TopScale.of_j_max (L := 8) (lam := 2) (by norm_num) (by norm_num) j_max_8_2
  have hb := filters_axisym_vectorised_ok hT (J_min := 1) (by norm_num) (by norm_num)
  exact ⟨_, _, Or.inr (Or.inl hb), (C09_admissible (by norm_num) (by norm_num) j_max_8_2 hk).2 (Or.inr (Or.inl hb)) hno
    5 (by norm_num) (by norm_num)⟩

/-- **C10** the directional component has unit energy at every degree `≥ 1` and vanishes at degree 0. -/
theorem C10_tiling_energy (hL : 1 ≤ L) (hN : 1 ≤ N) :
    ∃ s, tiling_direction L N = .ok s ∧ tiling_direction_jax L N = .ok s ∧ s.r = L ∧ s.c = 2 * L - 1 ∧
      (∀ l, 1 ≤ l → l < L → ∑ k ∈ Finset.Ico 0 (2 * L - 1), ‖s.v l k‖ ^ 2 = 1) ∧ (∀ k, s.v 0 k = 0) := by
  refine ⟨_, tiling_direction_ok hL hN, tiling_direction_jax_ok hL hN, rfl, rfl, fun l hl0 hl1 => ?_, fun k => ?_⟩
  · rw [sum_cols]
    have := (gam_facts hN hl0).2.2.2.1
    rw [← sdir_energy hN hl0 (M := L - 1) (by omega)]
    refine Finset.sum_congr rfl fun n hn => ?_
    rw [Finset.mem_Icc] at hn
    rw [Arr2.of_v _ _ _ _ _ ⟨by omega, hl1, by omega, by omega⟩]
    congr 3; ring
  · by_cases hr : 0 ≤ (0 : ℤ) ∧ (0 : ℤ) < L ∧ 0 ≤ k ∧ k < 2 * L - 1
    · rw [Arr2.of_v _ _ _ _ _ hr]
      exact sdir_eq_zero (by omega)
    · exact Arr2.junk _ _ _ hr

example : ∃ s, tiling_direction 8 3 = .ok s ∧ ∑ k ∈ Finset.Ico (0 : ℤ) (2 * 8 - 1), ‖s.v 5 k‖ ^ 2 = 1 := by
  obtain ⟨s, h, _, _, _, h5, _⟩ := C10_tiling_energy (L := 8) (N := 3) (by norm_num) (by norm_num)
  exact ⟨s, h, h5 5 (by norm_num) (by norm_num)⟩

/-- the directional frame sum at degree `l` -/
noncomputable def frameSum (J_min J L : ℤ) (psi : Arr3 ℂ) (phi : Arr1 ℝ) (l : ℤ) : ℝ :=
  4 * Real.pi / (2 * l + 1) * phi.v l ^ 2 +
    8 * Real.pi ^ 2 / (2 * l + 1) * ∑ j ∈ Finset.Icc J_min J, ∑ k ∈ Finset.Ico 0 (2 * L - 1), ‖psi.v j l k‖ ^ 2

theorem frameSum_closed {J_min J L N : ℤ} {lam : ℝ} (hN : 1 ≤ N) (h0 : 0 ≤ J_min) {p : ℤ → ℤ → ℝ} {elmin spin0 l : ℤ}
    (hl0 : 0 ≤ l) (hl1 : l < L) (hel : elmin ≤ l) (hp0 : ∀ j, J_min ≤ j → j ≤ J → p j 0 = 0) :
    frameSum J_min J L (Arr3.of (J + 1) L (2 * L - 1) fun j l k => psiDirOf N p elmin spin0 j l (k - (L - 1)))
      (Arr1.of L (phiDir lam J_min elmin spin0)) l =
    (phiAx lam J_min l ^ 2 + ∑ j ∈ Finset.Icc J_min J, p j l ^ 2) * sfac spin0 l ^ 2 := by
  have hl' : (0 : ℝ) ≤ l := by exact_mod_cast hl0
  have hpi := Real.pi_pos
  have hin : ∀ j ∈ Finset.Icc J_min J, ∑ k ∈ Finset.Ico 0 (2 * L - 1),
      ‖(Arr3.of (J + 1) L (2 * L - 1) fun j l k => psiDirOf N p elmin spin0 j l (k - (L - 1))).v j l k‖ ^ 2 =
      cpsi l ^ 2 * p j l ^ 2 * sfac spin0 l ^ 2 := by
    intro j hj
    rw [Finset.mem_Icc] at hj
    have e : ∑ k ∈ Finset.Ico 0 (2 * L - 1),
        ‖(Arr3.of (J + 1) L (2 * L - 1) fun j l k => psiDirOf N p elmin spin0 j l (k - (L - 1))).v j l k‖ ^ 2 =
        ∑ n ∈ Finset.Icc (-(L - 1)) (L - 1), ‖psiDirOf N p elmin spin0 j l n‖ ^ 2 := by
      rw [sum_cols]
      refine Finset.sum_congr rfl fun n hn => ?_
      rw [Finset.mem_Icc] at hn
      rw [Arr3.of_v _ _ _ _ _ _ _ ⟨by omega, by omega, hl0, hl1, by omega, by omega⟩]
      congr 3; ring
    rw [e]
    rcases hl0.lt_or_eq with h | h
    · exact psiDirOf_energy hN hel h (by have := (gam_facts hN (show 1 ≤ l by omega)).2.2.2.1; omega)
    · subst h
      rw [hp0 j hj.1 hj.2]
      simp only [ne_eq, OfNat.ofNat_ne_zero, not_false_eq_true, zero_pow, mul_zero, zero_mul]
      refine Finset.sum_eq_zero fun n _ => ?_
      rw [psiDirOf]
      split_ifs <;> simp [hp0 j hj.1 hj.2]
  unfold frameSum
  rw [Finset.sum_congr rfl hin, Arr1.of_v _ _ _ ⟨hl0, hl1⟩, phiDir, if_neg (by omega), mul_pow, mul_pow, cphi_sq hl0]
  simp only [mul_assoc]
  rw [← Finset.mul_sum, ← Finset.sum_mul, cpsi_sq hl0]
  field_simp

/-- directional admissibility for any top scale. Exactly the column maximum of `k_lam` for vectorised and JAX filters; 1 for
`spin0 = 0` and the squared spin normalisation `(l+s)!/(l-s)!` for `spin0 = s` when `k_lam` does not overshoot;
zero below `max(|spin|,|spin0|)`. -/
theorem dir_admissible {jm : JMax} (hT : TopScale jm L lam J) (hN : 1 ≤ N) {k : Arr2 ℝ}
    (hk : k_lam jm L lam 300 = .ok k) {spin spin0 : ℤ} {psi : Arr3 ℂ} {phi : Arr1 ℝ} :
    ((filters_directional_vectorised jm L N J_min lam spin spin0 = .ok (psi, phi) ∨
        filters_directional_jax jm L N J_min lam spin spin0 = .ok (psi, phi)) → ∀ l, 0 ≤ l → l < L → |spin| ≤ l →
      IsColMax k J_min (J + 1) l (frameSum J_min J L psi phi l) ∧ 1 ≤ frameSum J_min J L psi phi l) ∧
    (DirBuilt jm L N J_min lam spin spin0 psi phi → NoOvershoot k → ∀ l, 0 ≤ l → l < L → |spin| ≤ l → |spin0| ≤ l →
      frameSum J_min J L psi phi l =
        if spin0 = 0 then 1 else ((l + spin0).toNat.factorial : ℝ) / ((l - spin0).toNat.factorial : ℝ)) ∧
    (DirBuilt jm L N J_min lam spin spin0 psi phi → ∀ l, l < max |spin| |spin0| →
      frameSum J_min J L psi phi l = 0) := by
  have hlam := hT.hlam
  have hJ := hT.hJ
  rw [k_lam_ok hT (by norm_num)] at hk
  cases hk
  have hI : Finset.Icc J_min J = Finset.Ico J_min (J + 1) := by
    ext x; simp only [Finset.mem_Icc, Finset.mem_Ico]; omega
  refine ⟨fun h l hl0 hl1 hs => ?_, fun h hno l hl0 hl1 hs hs0 => ?_, fun h l hl => ?_⟩
  · have hspin : spin0 = 0 := by
      by_contra hne
      obtain ⟨e1, e2⟩ := filters_directional_spin0_err jm L N J_min lam spin hne
      rw [e1, e2] at h
      rcases h with h | h <;> cases h
    subst hspin
    have hv : ¬ (J_min < 0 ∨ J ≤ J_min) := by
      intro hv
      rw [filters_directional_vectorised_err hJ N hv, filters_directional_jax_err hJ N hv] at h
      rcases h with h | h <;> cases h
    have h0 : 0 ≤ J_min := by omega
    have h1 : J_min < J := by omega
    rw [filters_directional_vectorised_ok hT hN h0 h1, filters_directional_jax_ok hT hN h0 h1, or_self] at h
    cases h
    have hfs : frameSum J_min J L (Arr3.of (J + 1) L (2 * L - 1) fun j l k => psiDir N lam |spin| j l (k - (L - 1)))
        (Arr1.of L (phiDir lam J_min |spin| 0)) l = gain lam J_min J l := by
      refine (frameSum_closed hN h0 (p := psiAx lam) hl0 hl1 hs (fun j _ _ => ?_)).trans ?_
      · exact (psiAx_eq_zero hlam (Or.inl (by simpa using (zpow_pos' hlam (j - 1)).le))).2
      · rw [sfac_zero, gain, hI]; ring
    rw [hfs]
    have hG := gain_isGreatest hlam h1.le hl0
    have hkv : ∀ j, J_min ≤ j → j ≤ J + 1 → (Arr2.of (J + 2) L (kval lam 300)).v j l = kv lam j l :=
      fun j a b => Arr2.of_v _ _ _ _ _ ⟨by omega, by omega, hl0, hl1⟩
    refine ⟨⟨?_, fun j a b => ?_⟩, one_le_gain hT h1.le hl0 hl1⟩
    · obtain ⟨j, a, b, c⟩ := hG.1
      exact ⟨j, a, b, (hkv j a b).trans c⟩
    · rw [hkv j a b]
      exact hG.2 ⟨j, a, b, rfl⟩
  · obtain ⟨h0, h1, rfl, p, rfl, hp⟩ := dirBuilt_elim hT hN h
    have hkv : ∀ j l, J_min ≤ j → j ≤ J + 1 → 0 ≤ l → l < L → kv lam j l ≤ 1 := fun j l a b c d => by
      have := hno j l
      rwa [Arr2.of_v _ _ _ _ _ ⟨by omega, by omega, c, d⟩] at this
    have hpe : ∀ j l, J_min ≤ j → j ≤ J → 0 ≤ l → l < L → p j l = psiAx lam j l := fun j l a b c d =>
      hp.eq j l a b c d (kv_mono_of_le_one hlam c (hkv j l a (by omega) c d))
    rw [frameSum_closed hN h0 hl0 hl1 (max_le hs hs0) (fun j a b => by
      rw [hpe j 0 a b le_rfl (by omega)]
      exact (psiAx_eq_zero hlam (Or.inl (by simpa using (zpow_pos' hlam (j - 1)).le))).2)]
    have hg : phiAx lam J_min l ^ 2 + ∑ j ∈ Finset.Icc J_min J, p j l ^ 2 = 1 := by
      rw [← gain_eq_one hT h1.le hl0 hl1 (fun j a b => hkv j l a b hl0 hl1), gain, hI]
      congr 1
      refine Finset.sum_congr rfl fun j hj => ?_
      rw [Finset.mem_Ico] at hj
      rw [hpe j l hj.1 (by omega) hl0 hl1]
    rw [hg, one_mul, sfac]
    split_ifs
    · norm_num
    · rw [mul_pow, ← zpow_natCast, ← zpow_natCast, ← zpow_mul, mul_comm spin0, zpow_mul]
      norm_num
      rw [spinN, Real.sq_sqrt (by positivity)]
  · obtain ⟨h0, h1, rfl, p, rfl, hp⟩ := dirBuilt_elim hT hN h
    unfold frameSum
    have z1 : (Arr1.of L (phiDir lam J_min (max |spin| |spin0|) spin0)).v l = 0 := by
      by_cases hr : 0 ≤ l ∧ l < L
      · rw [Arr1.of_v _ _ _ hr, phiDir, if_pos hl]
      · exact Arr1.junk _ _ hr
    have z2 : ∀ j k, (Arr3.of (J + 1) L (2 * L - 1)
        fun j l k => psiDirOf N p (max |spin| |spin0|) spin0 j l (k - (L - 1))).v j l k = 0 := fun j k => by
      by_cases hr : 0 ≤ j ∧ j < J + 1 ∧ 0 ≤ l ∧ l < L ∧ 0 ≤ k ∧ k < 2 * L - 1
      · rw [Arr3.of_v _ _ _ _ _ _ _ hr, psiDirOf, if_pos hl]
      · exact Arr3.junk _ _ _ _ hr
    rw [z1]
    simp [z2]

/-- **C11** directional admissibility. Exactly the column maximum of `k_lam` for vectorised and JAX filters; 1 for
`spin0 = 0` and the squared spin normalisation `(l+s)!/(l-s)!` for `spin0 = s` when `k_lam` does not overshoot;
zero below `max(|spin|,|spin0|)`. -/
theorem C11_admissible (hL : 1 ≤ L) (hN : 1 ≤ N) (hlam : 1 < lam) (hJ : j_max L lam = .ok J) {k : Arr2 ℝ}
    (hk : k_lam j_max L lam 300 = .ok k) {spin spin0 : ℤ} {psi : Arr3 ℂ} {phi : Arr1 ℝ} :
    ((filters_directional_vectorised j_max L N J_min lam spin spin0 = .ok (psi, phi) ∨
        filters_directional_jax j_max L N J_min lam spin spin0 = .ok (psi, phi)) → ∀ l, 0 ≤ l → l < L → |spin| ≤ l →
      IsColMax k J_min (J + 1) l (frameSum J_min J L psi phi l) ∧ 1 ≤ frameSum J_min J L psi phi l) ∧
    (DirBuilt j_max L N J_min lam spin spin0 psi phi → NoOvershoot k → ∀ l, 0 ≤ l → l < L → |spin| ≤ l → |spin0| ≤ l →
      frameSum J_min J L psi phi l =
        if spin0 = 0 then 1 else ((l + spin0).toNat.factorial : ℝ) / ((l - spin0).toNat.factorial : ℝ)) ∧
    (DirBuilt j_max L N J_min lam spin spin0 psi phi → ∀ l, l < max |spin| |spin0| →
      frameSum J_min J L psi phi l = 0) :=
  dir_admissible (TopScale.of_j_max hL hlam hJ) hN hk

/-- a looped filter bank with a spin-lowered normalisation meets the hypotheses of `C11_admissible` -/
example : ∃ psi phi, DirBuilt j_max 3 2 0 2 2 1 psi phi ∧ frameSum 0 2 3 psi phi 2 = 6 := by
  obtain ⟨k, hk, hno⟩ := noOvershoot_3_2
  have hT := TopScale.of_j_max (L := 3) (lam := 2) (by norm_num) (by norm_num) j_max_3_2
  obtain ⟨p, _, hb, _⟩ := filters_directional_ok hT (N := 2) (J_min := 0) (by norm_num) (by norm_num) (by norm_num) 2 1
  refine ⟨_, _, Or.inl hb, ?_⟩
  rw [(C11_admissible (by norm_num) (by norm_num) (by norm_num) j_max_3_2 hk).2.1 (Or.inl hb) hno 2 (by norm_num)
    (by norm_num) (by norm_num) (by norm_num), if_neg (by norm_num)]
  have a : (2 + 1 : ℤ).toNat = 3 := by decide
  have b : (2 - 1 : ℤ).toNat = 1 := by decide
  rw [a, b]
  norm_num [Nat.factorial]

/-- **C12** the scale check is exact and it is the only thing that can go wrong. -/
theorem C12_validation (hL : 1 ≤ L) (hN : 1 ≤ N) (hlam : 1 < lam) (hJ : j_max L lam = .ok J) (J_min spin spin0 : ℤ) :
    ((J_min < 0 ∨ J ≤ J_min) →
      filters_axisym j_max L J_min lam = .error .valueError ∧
      filters_axisym_vectorised j_max L J_min lam = .error .valueError ∧
      filters_axisym_jax j_max L J_min lam = .error .valueError ∧
      filters_directional j_max L N J_min lam spin spin0 = .error .valueError ∧
      filters_directional_vectorised j_max L N J_min lam spin spin0 = .error .valueError ∧
      filters_directional_jax j_max L N J_min lam spin spin0 = .error .valueError) ∧
    (¬ (J_min < 0 ∨ J ≤ J_min) →
      (∃ psi phi, filters_axisym j_max L J_min lam = .ok (psi, phi) ∧ psi.r = J + 1 ∧ psi.c = L ∧ phi.n = L) ∧
      (∃ psi phi, filters_axisym_vectorised j_max L J_min lam = .ok (psi, phi) ∧
        psi.r = J + 1 ∧ psi.c = L ∧ phi.n = L) ∧
      (∃ psi phi, filters_axisym_jax j_max L J_min lam = .ok (psi, phi) ∧ psi.r = J + 1 ∧ psi.c = L ∧ phi.n = L) ∧
      (∃ psi phi, filters_directional j_max L N J_min lam spin spin0 = .ok (psi, phi) ∧
        psi.d = J + 1 ∧ psi.r = L ∧ psi.c = 2 * L - 1 ∧ phi.n = L) ∧
      (∃ psi phi, filters_directional_vectorised j_max L N J_min lam spin 0 = .ok (psi, phi) ∧
        psi.d = J + 1 ∧ psi.r = L ∧ psi.c = 2 * L - 1 ∧ phi.n = L) ∧
      (∃ psi phi, filters_directional_jax j_max L N J_min lam spin 0 = .ok (psi, phi) ∧
        psi.d = J + 1 ∧ psi.r = L ∧ psi.c = 2 * L - 1 ∧ phi.n = L)) := by
  have hT := TopScale.of_j_max hL hlam hJ
  constructor
  · intro h
    refine ⟨filters_axisym_err hJ h, filters_axisym_vectorised_err hJ h, filters_axisym_jax_err hJ h,
      filters_directional_err hT N h spin spin0, ?_, ?_⟩
    · by_cases hs : spin0 = 0
      · subst hs; exact filters_directional_vectorised_err hJ N h spin
      · exact (filters_directional_spin0_err j_max L N J_min lam spin hs).1
    · by_cases hs : spin0 = 0
      · subst hs; exact filters_directional_jax_err hJ N h spin
      · exact (filters_directional_spin0_err j_max L N J_min lam spin hs).2
  · intro h
    have h0 : 0 ≤ J_min := by omega
    have h1 : J_min < J := by omega
    obtain ⟨p, hp, _⟩ := filters_axisym_ok hT h0 h1
    obtain ⟨p', _, hp', _⟩ := filters_directional_ok hT hN h0 h1 spin spin0
    exact ⟨⟨_, _, hp, rfl, rfl, rfl⟩, ⟨_, _, filters_axisym_vectorised_ok hT h0 h1, rfl, rfl, rfl⟩,
      ⟨_, _, (filters_axisym_jax_eq hT J_min).trans (filters_axisym_vectorised_ok hT h0 h1), rfl, rfl, rfl⟩,
      ⟨_, _, hp', rfl, rfl, rfl, rfl⟩,
      ⟨_, _, filters_directional_vectorised_ok hT hN h0 h1 spin, rfl, rfl, rfl, rfl⟩,
      ⟨_, _, filters_directional_jax_ok hT hN h0 h1 spin, rfl, rfl, rfl, rfl⟩⟩

example : filters_axisym j_max 8 3 2 = .error .valueError ∧ ∃ r, filters_axisym j_max 8 2 2 = .ok r := by
  have hc := fun j => C12_validation (L := 8) (N := 1) (lam := 2) (by norm_num) (by norm_num) (by norm_num) j_max_8_2 j 0 0
  refine ⟨((hc 3).1 (by norm_num)).1, ?_⟩
  obtain ⟨psi, phi, h, _⟩ := ((hc 2).2 (by norm_num)).1
  exact ⟨_, h⟩

/-- **C13** looped and vectorised axisymmetric filters agree on all used scales (no overshoot); rows below `J_min` are
zero in the looped version. -/
theorem C13_looped_eq_vectorised (hL : 1 ≤ L) (hlam : 1 < lam) {k : Arr2 ℝ} (hk : k_lam j_max L lam 300 = .ok k)
    (hno : NoOvershoot k) {psi psi' : Arr2 ℝ} {phi phi' : Arr1 ℝ}
    (h : filters_axisym j_max L J_min lam = .ok (psi, phi))
    (h' : filters_axisym_vectorised j_max L J_min lam = .ok (psi', phi')) :
    phi = phi' ∧ (∀ j l, J_min ≤ j → psi.v j l = psi'.v j l) ∧ (∀ j l, j < J_min → psi.v j l = 0) := by
  have hT := TopScale.of_j_max hL hlam (j_max_eq hL hlam)
  obtain ⟨h0, h1, -⟩ := axBuilt_elim hT (Or.inl h)
  rw [k_lam_ok hT (by norm_num)] at hk
  cases hk
  obtain ⟨p, hp, hp1, hp2, -⟩ := filters_axisym_ok hT h0 h1
  rw [hp] at h; cases h
  rw [filters_axisym_vectorised_ok hT h0 h1] at h'; cases h'
  refine ⟨rfl, fun j l hj => ?_, fun j l hj => ?_⟩
  · by_cases hr : 0 ≤ j ∧ j < ⌈Real.log L / Real.log lam⌉ + 1 ∧ 0 ≤ l ∧ l < L
    · rw [Arr2.of_v _ _ _ _ _ hr, Arr2.of_v _ _ _ _ _ hr]
      refine hp1 j l hj (by omega) hr.2.2.1 hr.2.2.2 (kv_mono_of_le_one hlam hr.2.2.1 ?_)
      have := hno j l
      rwa [Arr2.of_v _ _ _ _ _ ⟨hr.1, by omega, hr.2.2⟩] at this
    · rw [Arr2.junk _ _ _ hr, Arr2.junk _ _ _ hr]
  · by_cases hr : 0 ≤ j ∧ j < ⌈Real.log L / Real.log lam⌉ + 1 ∧ 0 ≤ l ∧ l < L
    · rw [Arr2.of_v _ _ _ _ _ hr]; exact hp2 j l hj
    · exact Arr2.junk _ _ _ hr

/-- **C13**, the difference: for every `J_min ≥ 1` row 0 of the vectorised filters is not zero, the looped one is. -/
theorem C13_rows_below_differ (hL : 2 ≤ L) (hlam : 1 < lam) (hJm : 1 ≤ J_min) {psi psi' : Arr2 ℝ} {phi phi' : Arr1 ℝ}
    (h : filters_axisym j_max L J_min lam = .ok (psi, phi))
    (h' : filters_axisym_vectorised j_max L J_min lam = .ok (psi', phi')) :
    psi.v 0 1 = 0 ∧ psi'.v 0 1 = 1 := by
  have hT := TopScale.of_j_max (L := L) (by omega) hlam (j_max_eq (by omega) hlam)
  obtain ⟨h0, h1, -⟩ := axBuilt_elim hT (Or.inl h)
  obtain ⟨p, hp, hp1, hp2, -⟩ := filters_axisym_ok hT h0 h1
  rw [hp] at h; cases h
  rw [filters_axisym_vectorised_ok hT h0 h1] at h'; cases h'
  rw [Arr2.of_v _ _ _ _ _ ⟨le_rfl, by omega, by norm_num, by omega⟩,
    Arr2.of_v _ _ _ _ _ ⟨le_rfl, by omega, by norm_num, by omega⟩]
  refine ⟨hp2 0 1 (by omega), ?_⟩
  rw [psiAx, kv, kv, kval_le_edge hlam (by norm_num) (by norm_num), kval_above hlam (by norm_num)]
  simp

example : ∃ r r', filters_axisym j_max 8 1 2 = .ok r ∧ filters_axisym_vectorised j_max 8 1 2 = .ok r' ∧
    r.1.v 0 1 = 0 ∧ r'.1.v 0 1 = 1 := by
  have hc := (C12_validation (L := 8) (N := 1) (lam := 2) (by norm_num) (by norm_num) (by norm_num) j_max_8_2 1 0 0).2
    (by norm_num)
  obtain ⟨⟨psi, phi, h, _⟩, ⟨psi', phi', h', _⟩, _⟩ := hc
  exact ⟨_, _, h, h', C13_rows_below_differ (by norm_num) (by norm_num) (by norm_num) h h'⟩

/-- **C14** the JAX builders equal the vectorised ones, including which calls raise. -/
theorem C14_jax_eq_vectorised (hL : 1 ≤ L) (hN : 1 ≤ N) (hlam : 1 < lam) (J_min spin spin0 : ℤ) :
    filters_axisym_jax j_max L J_min lam = filters_axisym_vectorised j_max L J_min lam ∧
    filters_directional_jax j_max L N J_min lam spin spin0 =
      filters_directional_vectorised j_max L N J_min lam spin spin0 := by
  have hT := TopScale.of_j_max hL hlam (j_max_eq hL hlam)
  refine ⟨filters_axisym_jax_eq hT J_min, ?_⟩
  by_cases hs : spin0 = 0
  · subst hs
    by_cases hv : J_min < 0 ∨ ⌈Real.log L / Real.log lam⌉ ≤ J_min
    · rw [filters_directional_jax_err hT.hJ N hv, filters_directional_vectorised_err hT.hJ N hv]
    · rw [filters_directional_jax_ok hT hN (by omega) (by omega),
        filters_directional_vectorised_ok hT hN (by omega) (by omega)]
  · obtain ⟨e1, e2⟩ := filters_directional_spin0_err j_max L N J_min lam spin hs
    rw [e1, e2]

/-- `C15_looped_eq_vectorised` for any top scale -/
theorem dir_looped_eq_vectorised {jm : JMax} (hT : TopScale jm L lam J) (hN : 1 ≤ N) {k : Arr2 ℝ}
    (hk : k_lam jm L lam 300 = .ok k) (hno : NoOvershoot k) {spin : ℤ} {psi psi' : Arr3 ℂ} {phi phi' : Arr1 ℝ}
    (h : filters_directional jm L N J_min lam spin 0 = .ok (psi, phi))
    (h' : filters_directional_vectorised jm L N J_min lam spin 0 = .ok (psi', phi')) :
    phi = phi' ∧ (∀ j l n, J_min ≤ j → psi.v j l n = psi'.v j l n) ∧ (∀ j l n, j < J_min → psi.v j l n = 0) := by
  have hlam := hT.hlam
  obtain ⟨h0, h1, -⟩ := dirBuilt_elim hT hN (Or.inl h)
  have hmax : max |spin| |0| = |spin| := by simp
  rw [k_lam_ok hT (by norm_num)] at hk
  cases hk
  obtain ⟨p, _, hp, hp1, hp2, -⟩ := filters_directional_ok hT hN h0 h1 spin 0
  rw [hp, hmax] at h; cases h
  rw [filters_directional_vectorised_ok hT hN h0 h1] at h'; cases h'
  refine ⟨rfl, fun j l n hj => ?_, fun j l n hj => ?_⟩
  · by_cases hr : 0 ≤ j ∧ j < J + 1 ∧ 0 ≤ l ∧ l < L ∧ 0 ≤ n ∧ n < 2 * L - 1
    · rw [Arr3.of_v _ _ _ _ _ _ _ hr, Arr3.of_v _ _ _ _ _ _ _ hr]
      have : p j l = psiAx lam j l := by
        refine hp1 j l hj (by omega) hr.2.2.1 hr.2.2.2.1 (kv_mono_of_le_one hlam hr.2.2.1 ?_)
        have := hno j l
        rwa [Arr2.of_v _ _ _ _ _ ⟨hr.1, by omega, hr.2.2.1, hr.2.2.2.1⟩] at this
      simp only [psiDir, psiDirOf, this]
    · rw [Arr3.junk _ _ _ _ hr, Arr3.junk _ _ _ _ hr]
  · by_cases hr : 0 ≤ j ∧ j < J + 1 ∧ 0 ≤ l ∧ l < L ∧ 0 ≤ n ∧ n < 2 * L - 1
    · rw [Arr3.of_v _ _ _ _ _ _ _ hr]
      simp only [psiDirOf, hp2 j l hj]; split_ifs <;> simp
    · exact Arr3.junk _ _ _ _ hr

/-- **C15** looped and vectorised directional filters agree on used scales (`spin0 = 0`, no overshoot). -/
theorem C15_looped_eq_vectorised (hL : 1 ≤ L) (hN : 1 ≤ N) (hlam : 1 < lam) {k : Arr2 ℝ}
    (hk : k_lam j_max L lam 300 = .ok k) (hno : NoOvershoot k) {spin : ℤ} {psi psi' : Arr3 ℂ} {phi phi' : Arr1 ℝ}
    (h : filters_directional j_max L N J_min lam spin 0 = .ok (psi, phi))
    (h' : filters_directional_vectorised j_max L N J_min lam spin 0 = .ok (psi', phi')) :
    phi = phi' ∧ (∀ j l n, J_min ≤ j → psi.v j l n = psi'.v j l n) ∧ (∀ j l n, j < J_min → psi.v j l n = 0) :=
  dir_looped_eq_vectorised (TopScale.of_j_max hL hlam (j_max_eq hL hlam)) hN hk hno h h'

example : ∃ r r', filters_directional j_max 3 2 1 2 0 0 = .ok r ∧ filters_directional_vectorised j_max 3 2 1 2 0 0 = .ok r' ∧
    r.1.v 2 2 3 = r'.1.v 2 2 3 ∧ r.1.v 0 1 1 = 0 := by
  obtain ⟨k, hk, hno⟩ := noOvershoot_3_2
  have hc := (C12_validation (L := 3) (N := 2) (lam := 2) (by norm_num) (by norm_num) (by norm_num) j_max_3_2 1 0 0).2
    (by norm_num)
  obtain ⟨_, _, _, ⟨psi, phi, h, _⟩, ⟨psi', phi', h', _⟩, _⟩ := hc
  have := C15_looped_eq_vectorised (by norm_num) (by norm_num) (by norm_num) hk hno h h'
  exact ⟨_, _, h, h', this.2.1 2 2 3 (by norm_num), this.2.2 0 1 1 (by norm_num)⟩

/-- **C16** (filters part) the vectorised builders cannot be used with `spin0 ≠ 0`, the looped builder can. -/
theorem C16_spin0_unusable (hL : 1 ≤ L) (hN : 1 ≤ N) (hlam : 1 < lam) (hJ : j_max L lam = .ok J) (h0 : 0 ≤ J_min)
    (h1 : J_min < J) (spin : ℤ) {spin0 : ℤ} (hs : spin0 ≠ 0) :
    filters_directional_vectorised j_max L N J_min lam spin spin0 = .error .valueError ∧
    filters_directional_jax j_max L N J_min lam spin spin0 = .error .valueError ∧
    ∃ r, filters_directional j_max L N J_min lam spin spin0 = .ok r := by
  obtain ⟨e1, e2⟩ := filters_directional_spin0_err j_max L N J_min lam spin hs
  obtain ⟨p, _, hp, _⟩ := filters_directional_ok (TopScale.of_j_max hL hlam hJ) hN h0 h1 spin spin0
  exact ⟨e1, e2, _, hp⟩

example : filters_directional_jax j_max 8 2 0 2 0 1 = .error .valueError :=
  (C16_spin0_unusable (by norm_num) (by norm_num) (by norm_num) j_max_8_2 (by norm_num) (by norm_num) 0 (by norm_num)).2.1

/-- **C17** the spin normalisation is the square root of a factorial ratio, and inverts under `s ↦ -s`. -/
theorem C17_spin_normalization {l s : ℤ} (h : |s| ≤ l) :
    ∃ x y, spin_normalization l s = .ok x ∧ spin_normalization l (-s) = .ok y ∧ 0 < x ∧ x * y = 1 ∧
      x ^ 2 * ((l - s).toNat.factorial : ℝ) = ((l + s).toNat.factorial : ℝ) := by
  have a : (0 : ℝ) < ((l + s).toNat.factorial : ℝ) := by exact_mod_cast Nat.factorial_pos _
  have b : (0 : ℝ) < ((l - s).toNat.factorial : ℝ) := by exact_mod_cast Nat.factorial_pos _
  refine ⟨_, _, spin_normalization_ok h, spin_normalization_ok (by rwa [abs_neg]), spinN_pos _ _, ?_, ?_⟩
  · rw [spinN, spinN, ← Real.sqrt_mul (by positivity), sub_neg_eq_add, ← sub_eq_add_neg]
    rw [div_mul_div_comm, mul_comm, div_self (by positivity), Real.sqrt_one]
  · rw [spinN, Real.sq_sqrt (by positivity), div_mul_cancel₀ _ b.ne']

/-- **C17** below the spin the function is unusable: it returns 0 for a positive spin and divides by zero for a negative one.
The filters are zero there and never call it. -/
theorem C17_out_of_range {l s : ℤ} (h0 : 0 ≤ l) (h : l < |s|) :
    (0 < s → spin_normalization l s = .ok 0) ∧ (s < 0 → spin_normalization l s = .error .zeroDivision) := by
  have key : (pyRange (-|s| + 1) (|s| + 1)).foldlM (init := (1 : ℝ)) (fun (factor : ℝ) (s : ℤ) =>
      (.ok (factor * ((l + s : ℤ) : ℝ)) : Py ℝ)) = .ok 0 := by
    obtain ⟨x, hx, hP⟩ := range_loop (a := -|s| + 1) (b := |s| + 1) (s := (1 : ℝ))
      (body := fun (factor : ℝ) (s : ℤ) => (.ok (factor * ((l + s : ℤ) : ℝ)) : Py ℝ))
      (fun i (x : ℝ) => -l < i → x = 0) (by omega) (fun h => absurd h (by omega))
      (fun i x h1 h2 hP => by
        refine ⟨_, rfl, fun hi => ?_⟩
        rcases eq_or_lt_of_le (show -l ≤ i by omega) with e | e
        · subst e; simp
        · rw [hP e, zero_mul])
    rw [hx, hP (by omega)]
  unfold spin_normalization
  rw [key]
  refine ⟨fun hs => ?_, fun hs => ?_⟩
  · rw [Py.bind_ok, if_pos hs, npSqrt, if_neg (lt_irrefl _), Real.sqrt_zero]
  · rw [Py.bind_ok, if_neg (not_lt.2 hs.le), pyDiv, if_pos rfl]; rfl

example : spin_normalization 1 2 = .ok 0 := (C17_out_of_range (by norm_num) (by norm_num)).1 (by norm_num)

example : ∃ x, spin_normalization 2 2 = .ok x ∧ x ^ 2 = 24 := by
  obtain ⟨x, _, hx, _, _, _, h⟩ := C17_spin_normalization (l := 2) (s := 2) (by norm_num)
  refine ⟨x, hx, ?_⟩
  have a : (2 + 2 : ℤ).toNat = 4 := by decide
  rw [a] at h
  norm_num [Nat.factorial] at h
  exact h

/-- **C18** `binomial_coefficient` is the integer binomial coefficient. -/
theorem C18_binomial {n k : ℕ} (h : k ≤ n) :
    binomial_coefficient (n : ℝ) (k : ℝ) = .ok (n.choose k : ℝ) ∧
    binomial_coefficient_jax (n : ℝ) (k : ℝ) = (n.choose k : ℝ) :=
  ⟨binomial_coefficient_nat h, binomial_coefficient_jax_nat h⟩

/-- **C18**, the call site: `tiling_direction` only calls it with `gamma` and `(gamma - m)/2` integral and in range
(`gamma` spelled out as in the source), and never raises. -/
theorem C18_call_site (hL : 1 ≤ L) (hN : 1 ≤ N) :
    (∀ el m gamma : ℤ, 1 ≤ el → -el ≤ m → m ≤ el → |m| < N → (N + m) % 2 ≠ 0 →
      gamma = (if (N + el) % 2 ≠ 0 then min (N - 1) el else min (N - 1) (el - 1)) →
      ∃ n k : ℕ, k ≤ n ∧ (gamma : ℝ) = n ∧ ((gamma : ℝ) - m) / 2 = k) ∧
    ∃ s, tiling_direction L N = .ok s := by
  refine ⟨fun el m gamma h1 h2 h3 h4 h5 hg => ?_, _, tiling_direction_ok hL hN⟩
  have hg' : gamma = gam N el := hg
  have hm : |m| ≤ gam N el := ((gam_facts hN h1).2.2.2.2 m h5).2 ⟨h4, abs_le.2 ⟨by omega, h3⟩⟩
  obtain ⟨e1, e2, e3⟩ := binom_arg hN h1 hm h5
  rw [hg']
  exact ⟨_, _, e3, e1, e2⟩

example : binomial_coefficient 5 2 = .ok 10 := by
  have := (C18_binomial (n := 5) (k := 2) (by norm_num)).1
  norm_num [Nat.choose] at this
  exact this

/-- **C19** reality symmetry and the parity pattern of the directional filters and of the tiling. -/
theorem C19_symmetry (hL : 1 ≤ L) (hN : 1 ≤ N) (hlam : 1 < lam) :
    (∀ (spin spin0 : ℤ) (psi : Arr3 ℂ) (phi : Arr1 ℝ), DirBuilt j_max L N J_min lam spin spin0 psi phi →
      ∀ j l n, psi.v j l (L - 1 - n) = (-1) ^ n * (starRingEnd ℂ) (psi.v j l (L - 1 + n))) ∧
    (∀ s, tiling_direction L N = .ok s →
      ∀ l n, s.v l (L - 1 - n) = (-1) ^ n * (starRingEnd ℂ) (s.v l (L - 1 + n)) ∧
        (N % 2 ≠ 0 → (s.v l (L - 1 + n)).im = 0) ∧ (N % 2 = 0 → (s.v l (L - 1 + n)).re = 0) ∧
        (s.v l (L - 1 + n) ≠ 0 → (N - 1 - n) % 2 = 0 ∧ |n| ≤ min (N - 1) l)) := by
  have hT := TopScale.of_j_max hL hlam (j_max_eq hL hlam)
  constructor
  · intro spin spin0 psi phi h j l n
    obtain ⟨h0, h1, rfl, p, rfl, hp⟩ := dirBuilt_elim hT hN h
    by_cases hr : 0 ≤ j ∧ j < ⌈Real.log L / Real.log lam⌉ + 1 ∧ 0 ≤ l ∧ l < L ∧ 0 ≤ L - 1 + n ∧ L - 1 + n < 2 * L - 1
    · have e1 : L - 1 - n - (L - 1) = -n := by ring
      have e2 : L - 1 + n - (L - 1) = n := by ring
      rw [Arr3.of_v _ _ _ _ _ _ _ ⟨hr.1, hr.2.1, hr.2.2.1, hr.2.2.2.1, by omega, by omega⟩,
        Arr3.of_v _ _ _ _ _ _ _ hr, e1, e2]
      unfold psiDirOf
      split_ifs
      · simp
      · rw [sdir_conj hN]
        simp only [map_mul, Complex.conj_ofReal]
        ring
    · rw [Arr3.of_out _ _ _ _ _ _ (L - 1 + n) hr, Arr3.of_out _ _ _ _ _ _ (L - 1 - n) (by omega)]; simp
  · intro s hs l n
    rw [tiling_direction_ok hL hN] at hs
    cases hs
    by_cases hr : 0 ≤ l ∧ l < L ∧ 0 ≤ L - 1 + n ∧ L - 1 + n < 2 * L - 1
    · have e1 : L - 1 - n - (L - 1) = -n := by ring
      have e2 : L - 1 + n - (L - 1) = n := by ring
      rw [Arr2.of_v _ _ _ _ _ ⟨hr.1, hr.2.1, by omega, by omega⟩, Arr2.of_v _ _ _ _ _ hr, e1, e2]
      refine ⟨sdir_conj hN, fun hp => ?_, fun hp => ?_, fun hne => ?_⟩
      · unfold sdir nuC
        simp only [if_pos hp]
        split_ifs <;> simp
      · unfold sdir nuC
        simp only [hp, ne_eq, not_true_eq_false, if_false]
        split_ifs <;> simp
      · have hc : 1 ≤ l ∧ |n| ≤ gam N l ∧ (N + n) % 2 ≠ 0 := by
          by_contra hc; exact hne (sdir_eq_zero hc)
        have hg := gam_facts hN hc.1
        have h1 := hc.2.1
        have h2 := hg.2.2.1
        have h3 := hg.2.2.2.1
        have h4 := hc.2.2
        exact ⟨by omega, by omega⟩
    · rw [Arr2.of_out _ _ _ _ (L - 1 + n) hr, Arr2.of_out _ _ _ _ (L - 1 - n) (by omega)]; simp

example : ∃ s, tiling_direction 8 3 = .ok s ∧ (s.v 2 (8 - 1 + 2)).im = 0 ∧ s.v 2 (8 - 1 + 1) = 0 := by
  obtain ⟨s, h, _⟩ := C10_tiling_energy (L := 8) (N := 3) (by norm_num) (by norm_num)
  have hc := (C19_symmetry (L := 8) (N := 3) (lam := 2) (J_min := 0) (by norm_num) (by norm_num) (by norm_num)).2 s h
  refine ⟨s, h, (hc 2 2).2.1 (by norm_num), ?_⟩
  by_contra hne
  have := ((hc 2 1).2.2.2 hne).1
  norm_num at this

/-- **C20** filters vanish below the spin, and wavelets carry no monopole. -/
theorem C20_below_spin (hL : 1 ≤ L) (hN : 1 ≤ N) (hlam : 1 < lam) {spin spin0 : ℤ} {psi : Arr3 ℂ} {phi : Arr1 ℝ}
    (h : DirBuilt j_max L N J_min lam spin spin0 psi phi) :
    (∀ j l k, l < max |spin| |spin0| → psi.v j l k = 0) ∧ (∀ l, l < max |spin| |spin0| → phi.v l = 0) ∧
    (∀ j k, psi.v j 0 k = 0) := by
  have hT := TopScale.of_j_max hL hlam (j_max_eq hL hlam)
  obtain ⟨h0, h1, rfl, p, rfl, hp⟩ := dirBuilt_elim hT hN h
  have key : ∀ j l k, ¬ (max |spin| |spin0| ≤ l ∧ 1 ≤ l) →
      (Arr3.of (⌈Real.log L / Real.log lam⌉ + 1) L (2 * L - 1)
        fun j l k => psiDirOf N p (max |spin| |spin0|) spin0 j l (k - (L - 1))).v j l k = 0 := by
    intro j l k hc
    by_cases hr : 0 ≤ j ∧ j < ⌈Real.log L / Real.log lam⌉ + 1 ∧ 0 ≤ l ∧ l < L ∧ 0 ≤ k ∧ k < 2 * L - 1
    · rw [Arr3.of_v _ _ _ _ _ _ _ hr]
      by_contra hne
      have := psiDirOf_support hN hne
      exact hc ⟨this.1, this.2.2.1⟩
    · exact Arr3.junk _ _ _ _ hr
  refine ⟨fun j l k hl => key j l k (by omega), fun l hl => ?_, fun j k => key j 0 k (by omega)⟩
  by_cases hr : 0 ≤ l ∧ l < L
  · rw [Arr1.of_v _ _ _ hr, phiDir, if_pos hl]
  · exact Arr1.junk _ _ hr

example : ∃ psi phi, DirBuilt j_max 8 3 1 2 2 0 psi phi ∧ phi.v 1 = 0 ∧ psi.v 1 1 7 = 0 := by
  obtain ⟨psi, phi, h⟩ := dirBuilt_8_2 2
  have hc := C20_below_spin (by norm_num) (by norm_num) (by norm_num) h
  exact ⟨psi, phi, h, hc.2.1 1 (by norm_num), hc.1 1 1 7 (by norm_num)⟩

/-- **C39** the top scale only has to satisfy `L - 1 < lam^J`: of two such estimates of `j_max` (exact, too large, or too small by
rounding) the larger one adds rows that are zero, and all other rows, `phi` and admissibility are the same. -/
theorem C39_top_scale (hL : 1 ≤ L) (hN : 1 ≤ N) (hlam : 1 < lam) {jm jm' : JMax} (hJ : jm L lam = .ok J)
    (hLJ : (L : ℝ) - 1 < lam ^ J) {J' : ℤ} (hJ' : jm' L lam = .ok J') (hle : J ≤ J') (h0 : 0 ≤ J_min) (h1 : J_min < J) (spin : ℤ) :
    ∃ psi psi' phi, filters_directional_vectorised jm L N J_min lam spin 0 = .ok (psi, phi) ∧
      filters_directional_vectorised jm' L N J_min lam spin 0 = .ok (psi', phi) ∧
      psi.d = J + 1 ∧ psi'.d = J' + 1 ∧
      (∀ j l k, j ≤ J → psi'.v j l k = psi.v j l k) ∧ (∀ j l k, J < j → psi'.v j l k = 0) ∧
      (∀ l, 0 ≤ l → l < L → |spin| ≤ l → frameSum J_min J' L psi' phi l = frameSum J_min J L psi phi l ∧
        1 ≤ frameSum J_min J L psi phi l ∧
        (∀ k, k_lam jm L lam 300 = .ok k → NoOvershoot k → frameSum J_min J L psi phi l = 1)) := by
  have hT : TopScale jm L lam J := ⟨hL, hlam, hJ, by omega, by linarith⟩
  have hT' : TopScale jm' L lam J' := ⟨hL, hlam, hJ', by omega, by have := zpow_mono' hlam hle; linarith⟩
  have hb := filters_directional_vectorised_ok hT hN h0 h1 spin
  have hb' := filters_directional_vectorised_ok hT' hN h0 (by omega) spin
  have hrow : ∀ j l k, j ≤ J → (Arr3.of (J' + 1) L (2 * L - 1) fun j l k => psiDir N lam |spin| j l (k - (L - 1))).v j l k =
      (Arr3.of (J + 1) L (2 * L - 1) fun j l k => psiDir N lam |spin| j l (k - (L - 1))).v j l k := fun j l k hj => by
    by_cases hr : 0 ≤ j ∧ j < J + 1 ∧ 0 ≤ l ∧ l < L ∧ 0 ≤ k ∧ k < 2 * L - 1
    · rw [Arr3.of_v _ _ _ _ _ _ _ hr, Arr3.of_v _ _ _ _ _ _ _ ⟨hr.1, by omega, hr.2.2⟩]
    · rw [Arr3.of_out (J + 1) _ _ _ _ _ _ hr, Arr3.of_out (J' + 1) _ _ _ _ _ _ (by omega)]
  have hz : ∀ j l k, J < j → (Arr3.of (J' + 1) L (2 * L - 1) fun j l k => psiDir N lam |spin| j l (k - (L - 1))).v j l k = 0 := fun j l k hj => by
    by_cases hr : 0 ≤ j ∧ j < J' + 1 ∧ 0 ≤ l ∧ l < L ∧ 0 ≤ k ∧ k < 2 * L - 1
    · rw [Arr3.of_v _ _ _ _ _ _ _ hr]
      have hl : (l : ℝ) ≤ lam ^ (j - 1) := (hT.edge hr.2.2.2.1).le.trans (zpow_mono' hlam (by omega))
      simp only [psiDir, psiDirOf, (psiAx_eq_zero hlam (Or.inl hl)).2]
      split_ifs <;> simp
    · exact Arr3.junk _ _ _ _ hr
  refine ⟨_, _, _, hb, hb', rfl, rfl, hrow, hz, fun l hl0 hl1 hs => ⟨?_, ?_, fun k hk hno => ?_⟩⟩
  · unfold frameSum
    congr 2
    rw [← Finset.sum_subset (Finset.Icc_subset_Icc_right hle) fun j hj hj' => ?_]
    · refine Finset.sum_congr rfl fun j hj => Finset.sum_congr rfl fun i _ => ?_
      rw [hrow j l i (Finset.mem_Icc.1 hj).2]
    · rw [Finset.mem_Icc] at hj hj'
      exact Finset.sum_eq_zero fun i _ => by rw [hz j l i (by omega)]; simp
  · exact ((dir_admissible hT hN (k_lam_ok hT (by norm_num))).1 (Or.inl hb) l hl0 hl1 hs).2
  · have := (dir_admissible hT hN hk).2.1 (Or.inr (Or.inl hb)) hno l hl0 hl1 hs (by simpa using hl0)
    rwa [if_pos rfl] at this

example : ∃ psi phi, filters_directional_vectorised (fun _ _ => .ok 4) 8 3 1 2 0 0 = .ok (psi, phi) ∧ psi.v 4 7 7 = 0 := by
  obtain ⟨_, psi', phi, _, h, _, _, _, h4, _⟩ := C39_top_scale (L := 8) (N := 3) (lam := 2) (J_min := 1) (by norm_num) (by norm_num)
    (by norm_num) j_max_8_2 (by norm_num) (jm' := fun _ _ => .ok 4) rfl (by norm_num) (by norm_num) (by norm_num) 0
  exact ⟨_, _, h, h4 4 7 7 (by norm_num)⟩

end

end S2wav
