import Verif.Lemmas.Directional
import Verif.Spec

/-! # Facts about whatever the filter builders return -/

namespace S2wav
open Classical

/-- What is known of the axisymmetric part `p` of any of the builders: it is the closed form wherever `k_lam` does not
decrease with the scale. -/
structure AxPart (lam : ℝ) (L J_min J : ℤ) (p : ℤ → ℤ → ℝ) : Prop where
  eq : ∀ j l, J_min ≤ j → j ≤ J → 0 ≤ l → l < L → 0 ≤ kv lam (j + 1) l - kv lam j l → p j l = psiAx lam j l
  low : ∀ j l, j < J_min → p j l = 0 ∨ p j l = psiAx lam j l
  carry : ∀ j l, J_min ≤ j → j ≤ J → 0 ≤ l → l < L → kv lam (j + 1) l - kv lam j l < 0 → p j l = 0 ∨ p j l = p j (l - 1)

theorem psiAx_eq_zero {lam : ℝ} (hlam : 1 < lam) {j l : ℤ}
    (h : (l : ℝ) ≤ lam ^ (j - 1) ∨ lam ^ (j + 1) ≤ (l : ℝ)) :
    kv lam (j + 1) l - kv lam j l = 0 ∧ psiAx lam j l = 0 := by
  have : kv lam (j + 1) l - kv lam j l = 0 := by
    rcases h with h | h
    · rw [kv, kv, kval_le_edge hlam (by norm_num) h, kval_le_edge hlam (by norm_num), sub_self]
      have := zpow_mono' hlam (show j - 1 ≤ j + 1 - 1 by omega)
      linarith
    · rw [kv, kv, kval_above hlam h, kval_above hlam, sub_self]
      exact (zpow_mono' hlam (by omega)).trans h
  refine ⟨this, ?_⟩
  rw [psiAx, this]; simp

theorem AxPart.support {lam : ℝ} (hlam : 1 < lam) {L J_min J : ℤ} {p : ℤ → ℤ → ℝ} (hp : AxPart lam L J_min J p)
    {j l : ℤ} (hj : j ≤ J) (hl0 : 0 ≤ l) (hl1 : l < L) (h : p j l ≠ 0) :
    lam ^ (j - 1) < (l : ℝ) ∧ (l : ℝ) < lam ^ (j + 1) := by
  by_contra hc
  have hc' : (l : ℝ) ≤ lam ^ (j - 1) ∨ lam ^ (j + 1) ≤ (l : ℝ) := by
    by_contra h2; push Not at h2; exact hc h2
  obtain ⟨h1, h2⟩ := psiAx_eq_zero hlam hc'
  rcases lt_or_ge j J_min with hjm | hjm
  · rcases hp.low j l hjm with h3 | h3
    · exact h h3
    · exact h (h3.trans h2)
  · exact h ((hp.eq j l hjm hj hl0 hl1 h1.ge).trans h2)

theorem phiAx_eq_zero {lam : ℝ} (hlam : 1 < lam) {J_min l : ℤ} (h : lam ^ J_min ≤ (l : ℝ)) : phiAx lam J_min l = 0 := by
  rw [phiAx, kv, kval_above hlam h, Real.sqrt_zero]

theorem phiAx_eq_one {lam : ℝ} (hlam : 1 < lam) {J_min l : ℤ} (h : (l : ℝ) ≤ lam ^ (J_min - 1)) :
    phiAx lam J_min l = 1 := by
  rw [phiAx, kv, kval_le_edge hlam (by norm_num) h, Real.sqrt_one]

theorem axPart_psiAx (lam : ℝ) (L J_min J : ℤ) : AxPart lam L J_min J (psiAx lam) :=
  ⟨fun _ _ _ _ _ _ _ => rfl, fun _ _ _ => Or.inr rfl, fun _ _ _ _ _ _ h => Or.inl (by
    rw [psiAx, max_eq_left h.le, Real.sqrt_zero])⟩

section
variable {jm : JMax} {L N J J_min : ℤ} {lam : ℝ}

/-- `(psi, phi)` is what one of the three axisymmetric builders returns -/
def AxBuilt (jm : JMax) (L J_min : ℤ) (lam : ℝ) (psi : Arr2 ℝ) (phi : Arr1 ℝ) : Prop :=
  filters_axisym jm L J_min lam = .ok (psi, phi) ∨ filters_axisym_vectorised jm L J_min lam = .ok (psi, phi) ∨
  filters_axisym_jax jm L J_min lam = .ok (psi, phi)

/-- `(psi, phi)` is what one of the three directional builders returns -/
def DirBuilt (jm : JMax) (L N J_min : ℤ) (lam : ℝ) (spin spin0 : ℤ) (psi : Arr3 ℂ) (phi : Arr1 ℝ) : Prop :=
  filters_directional jm L N J_min lam spin spin0 = .ok (psi, phi) ∨
  filters_directional_vectorised jm L N J_min lam spin spin0 = .ok (psi, phi) ∨
  filters_directional_jax jm L N J_min lam spin spin0 = .ok (psi, phi)

theorem axBuilt_elim (hT : TopScale jm L lam J) {psi : Arr2 ℝ} {phi : Arr1 ℝ} (h : AxBuilt jm L J_min lam psi phi) :
    0 ≤ J_min ∧ J_min < J ∧ phi = Arr1.of L (phiAx lam J_min) ∧
      ∃ p, psi = Arr2.of (J + 1) L p ∧ AxPart lam L J_min J p := by
  by_cases hv : J_min < 0 ∨ J ≤ J_min
  · exfalso
    rcases h with h | h | h
    · rw [filters_axisym_err hT.hJ hv] at h; cases h
    · rw [filters_axisym_vectorised_err hT.hJ hv] at h; cases h
    · rw [filters_axisym_jax_err hT.hJ hv] at h; cases h
  have h0 : 0 ≤ J_min := by omega
  have h1 : J_min < J := by omega
  refine ⟨h0, h1, ?_⟩
  rcases h with h | h | h
  · obtain ⟨p, hp, hp1, hp2, hp3⟩ := filters_axisym_ok hT h0 h1
    rw [hp] at h; cases h
    exact ⟨rfl, p, rfl, hp1, fun j l hj => Or.inl (hp2 j l hj), fun j l a b c d e => Or.inr (hp3 j l a b c d e)⟩
  · rw [filters_axisym_vectorised_ok hT h0 h1] at h; cases h
    exact ⟨rfl, _, rfl, axPart_psiAx _ _ _ _⟩
  · rw [filters_axisym_jax_eq hT, filters_axisym_vectorised_ok hT h0 h1] at h; cases h
    exact ⟨rfl, _, rfl, axPart_psiAx _ _ _ _⟩

theorem dirBuilt_elim (hT : TopScale jm L lam J) (hN : 1 ≤ N) {spin spin0 : ℤ} {psi : Arr3 ℂ} {phi : Arr1 ℝ}
    (h : DirBuilt jm L N J_min lam spin spin0 psi phi) :
    0 ≤ J_min ∧ J_min < J ∧ phi = Arr1.of L (phiDir lam J_min (max |spin| |spin0|) spin0) ∧
      ∃ p, psi = Arr3.of (J + 1) L (2 * L - 1)
        (fun j l k => psiDirOf N p (max |spin| |spin0|) spin0 j l (k - (L - 1))) ∧ AxPart lam L J_min J p := by
  have h0' : filters_directional_vectorised jm L N J_min lam spin spin0 = .ok (psi, phi) ∨
      filters_directional_jax jm L N J_min lam spin spin0 = .ok (psi, phi) → spin0 = 0 := by
    intro h
    by_contra hs
    obtain ⟨e1, e2⟩ := filters_directional_spin0_err jm L N J_min lam spin hs
    rw [e1, e2] at h
    rcases h with h | h <;> cases h
  have hmax : max |spin| |0| = |spin| := by simp
  by_cases hv : J_min < 0 ∨ J ≤ J_min
  · exfalso
    rcases h with h | h
    · rw [filters_directional_err hT N hv] at h; cases h
    · have := h0' h
      subst this
      rcases h with h | h
      · rw [filters_directional_vectorised_err hT.hJ N hv] at h; cases h
      · rw [filters_directional_jax_err hT.hJ N hv] at h; cases h
  have h0 : 0 ≤ J_min := by omega
  have h1 : J_min < J := by omega
  refine ⟨h0, h1, ?_⟩
  rcases h with h | h
  · obtain ⟨p, _, hp, hp1, hp2, hp3⟩ := filters_directional_ok hT hN h0 h1 spin spin0
    rw [hp] at h; cases h
    exact ⟨rfl, p, rfl, hp1, fun j l hj => Or.inl (hp2 j l hj), fun j l a b c d e => Or.inr (hp3 j l a b c d e)⟩
  · have := h0' h
    subst this
    rw [hmax]
    rcases h with h | h
    · rw [filters_directional_vectorised_ok hT hN h0 h1] at h; cases h
      exact ⟨rfl, _, rfl, axPart_psiAx _ _ _ _⟩
    · rw [filters_directional_jax_ok hT hN h0 h1] at h; cases h
      exact ⟨rfl, _, rfl, axPart_psiAx _ _ _ _⟩

/-! ## Gain -/

theorem exists_k_one (hT : TopScale jm L lam J) {l : ℤ} (hl1 : l < L) : kv lam (J + 1) l = 1 := by
  apply kval_le_edge hT.hlam (by norm_num)
  rw [add_sub_cancel_right]
  exact (hT.edge hl1).le

theorem one_le_gain (hT : TopScale jm L lam J) (hJ : J_min ≤ J) {l : ℤ} (hl0 : 0 ≤ l) (hl1 : l < L) :
    1 ≤ gain lam J_min J l :=
  (gain_isGreatest hT.hlam hJ hl0).2 ⟨J + 1, by omega, le_rfl, exists_k_one hT hl1⟩

theorem gain_eq_one (hT : TopScale jm L lam J) (hJ : J_min ≤ J) {l : ℤ} (hl0 : 0 ≤ l) (hl1 : l < L)
    (hk : ∀ j, J_min ≤ j → j ≤ J + 1 → kv lam j l ≤ 1) : gain lam J_min J l = 1 := by
  refine le_antisymm ?_ (one_le_gain hT hJ hl0 hl1)
  obtain ⟨j, h1, h2, h3⟩ := (gain_isGreatest hT.hlam hJ hl0).1
  rw [← h3]; exact hk j h1 h2

/-- without overshoot the scales' generating functions increase with `j` -/
theorem kv_mono_of_le_one {lam : ℝ} (hlam : 1 < lam) {j l : ℤ} (hl : 0 ≤ l) (h : kv lam j l ≤ 1) :
    0 ≤ kv lam (j + 1) l - kv lam j l := by
  rcases le_or_gt ((l : ℝ)) (lam ^ j) with h1 | h1
  · have : kv lam (j + 1) l = 1 := kval_le_edge hlam (by norm_num) (by
      have : j + 1 - 1 = j := by ring
      rwa [this])
    rw [this]; linarith
  · have : kv lam j l = 0 := kval_above hlam h1.le
    rw [this, sub_zero]; exact kv_nonneg hlam _ _

/-- the directional wavelets: where they can be non-zero -/
theorem psiDirOf_support {p : ℤ → ℤ → ℝ} {elmin spin0 j l n : ℤ} (hN : 1 ≤ N)
    (h : psiDirOf N p elmin spin0 j l n ≠ 0) :
    elmin ≤ l ∧ p j l ≠ 0 ∧ 1 ≤ l ∧ |n| ≤ l ∧ |n| < N ∧ (N + n) % 2 ≠ 0 := by
  unfold psiDirOf at h
  by_cases hl : l < elmin
  · rw [if_pos hl] at h; exact absurd rfl h
  rw [if_neg hl] at h
  have hp : p j l ≠ 0 := by rintro h0; apply h; rw [h0]; simp
  have hs : sdir N l n ≠ 0 := by rintro h0; apply h; rw [h0]; simp
  have hc : 1 ≤ l ∧ |n| ≤ gam N l ∧ (N + n) % 2 ≠ 0 := by
    by_contra hc; exact hs (sdir_eq_zero hc)
  have hg := gam_facts hN hc.1
  exact ⟨by omega, hp, hc.1, hc.2.1.trans hg.2.2.2.1, by omega, hc.2.2⟩

/-- energy of one scale and degree, over any symmetric window of orders containing the support -/
theorem psiDirOf_energy {p : ℤ → ℤ → ℝ} {elmin spin0 j l M : ℤ} (hN : 1 ≤ N) (hl : elmin ≤ l) (hl0 : 1 ≤ l)
    (hM : gam N l ≤ M) :
    ∑ n ∈ Finset.Icc (-M) M, ‖psiDirOf N p elmin spin0 j l n‖ ^ 2 =
      cpsi l ^ 2 * p j l ^ 2 * sfac spin0 l ^ 2 := by
  have h : ∀ n, ‖psiDirOf N p elmin spin0 j l n‖ ^ 2 =
      cpsi l ^ 2 * p j l ^ 2 * sfac spin0 l ^ 2 * ‖sdir N l n‖ ^ 2 := fun n => by
    rw [psiDirOf, if_neg (by omega), norm_mul, norm_mul, norm_mul, Complex.norm_real, Complex.norm_real,
      Complex.norm_real, Real.norm_eq_abs, Real.norm_eq_abs, Real.norm_eq_abs, mul_pow, mul_pow, mul_pow, sq_abs,
      sq_abs, sq_abs]
    ring
  simp only [h]
  rw [← Finset.mul_sum, sdir_energy hN hl0 hM, mul_one]

/-- shift of a sum over array columns to a sum over orders -/
theorem sum_cols {M : Type} [AddCommMonoid M] (L : ℤ) (f : ℤ → M) :
    ∑ k ∈ Finset.Ico 0 (2 * L - 1), f k = ∑ n ∈ Finset.Icc (-(L - 1)) (L - 1), f (L - 1 + n) := by
  refine Finset.sum_bij' (fun k _ => k - (L - 1)) (fun n _ => L - 1 + n) ?_ ?_ ?_ ?_ ?_
  · intro k hk; rw [Finset.mem_Ico] at hk; rw [Finset.mem_Icc]; omega
  · intro k hk; rw [Finset.mem_Icc] at hk; rw [Finset.mem_Ico]; omega
  · intro k _; ring
  · intro k _; ring
  · intro k _; congr 1; ring

/-- the multiresolution transforms never drop a non-zero filter coefficient -/
theorem dir_truncation (hT : TopScale jm L lam J) (hN : 1 ≤ N) {spin spin0 : ℤ} {psi : Arr3 ℂ} {phi : Arr1 ℝ}
    (h : DirBuilt jm L N J_min lam spin spin0 psi phi) (mr : Bool) :
    (∀ j l n, psi.v j l (L - 1 + n) ≠ 0 →
      (LN_j L j N lam mr).2.2 ≤ l ∧ l < (LN_j L j N lam mr).1 ∧ |n| < (LN_j L j N lam mr).2.1 ∧
        ((LN_j L j N lam mr).2.1 - 1 - n) % 2 = 0) ∧
    (∀ l, phi.v l ≠ 0 → l < scal_bandlimit L J_min lam mr) := by
  have hL := hT.hL
  have hlam := hT.hlam
  obtain ⟨h0, h1, rfl, p, rfl, hp⟩ := dirBuilt_elim hT hN h
  constructor
  · intro j l n hne
    by_cases hr : 0 ≤ j ∧ j < J + 1 ∧ 0 ≤ l ∧ l < L ∧ 0 ≤ L - 1 + n ∧ L - 1 + n < 2 * L - 1
    · rw [Arr3.of_v _ _ _ _ _ _ _ hr] at hne
      have e : L - 1 + n - (L - 1) = n := by ring
      rw [e] at hne
      obtain ⟨_, hpn, hl1, hnl, hnN, hpar⟩ := psiDirOf_support hN hne
      obtain ⟨s1, s2⟩ := hp.support hlam (by omega) hr.2.2.1 hr.2.2.2.1 hpn
      have hb := LN_j_Nj_bounds hL hlam hN j mr
      have hLj : l < (LN_j L j N lam mr).1 := by
        rw [LN_j_Lj]
        unfold wav_j_bandlimit
        cases mr
        · simpa using hr.2.2.2.1
        · simp only [if_true, lt_min_iff, Int.lt_ceil]
          refine ⟨s2.trans_le (zpow_mono' hlam (by split_ifs <;> omega)), hr.2.2.2.1⟩
      have hL0 : (LN_j L j N lam mr).2.2 ≤ l := by
        simp only [LN_j, L0_j]
        cases mr
        · simpa using hr.2.2.1
        · simp only [if_true]
          by_cases hj : j = 0
          · subst hj; simp; exact hl1
          · simp only [if_neg hj, if_pos (show j ≠ 0 from hj), Int.ceil_le]
            exact s1.le
      have b1 := hb.2.2.1
      have b2 := hb.2.2.2.2
      exact ⟨hL0, hLj, by omega, by omega⟩
    · exact absurd (Arr3.junk _ j l _ hr) hne
  · intro l hne
    by_cases hr : 0 ≤ l ∧ l < L
    · rw [Arr1.of_v _ _ _ hr] at hne
      have : phiAx lam J_min l ≠ 0 := by
        intro h0; apply hne; unfold phiDir; rw [h0]; split_ifs <;> simp
      have hlt : (l : ℝ) < lam ^ J_min := by
        by_contra hc; exact this (phiAx_eq_zero hlam (not_lt.1 hc))
      unfold scal_bandlimit
      cases mr
      · simpa using hr.2
      · simp only [if_true, lt_min_iff, Int.lt_ceil]
        exact ⟨hlt, hr.2⟩
    · exact absurd (Arr1.junk _ l hr) hne

end

end S2wav
