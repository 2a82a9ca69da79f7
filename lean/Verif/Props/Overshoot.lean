import Verif.Props.Formulas
import Verif.Lemmas.Overshoot

/-! # Accuracy of the quadrature and frame bounds (C58 - C60)

Nothing here assumes that `k_lam` stays below 1. -/

namespace S2wav
open Classical

section
variable {L N J J_min : ℤ} {lam : ℝ}

theorem tailI_bump' (hlam : 1 < lam) {a : ℝ} (h1 : 1 / lam ≤ a) (h2 : a ≤ 1) :
    tailI lam (sArg lam a) = shiftC lam * ∫ x in a..1, bump lam x := by
  rw [tailI_bump hlam h1 h2]
  simp only [gInt_eq_bump hlam]

/-- **C58** accuracy of the generating function: with `q ≥ 300` panels every transition-band entry is within `90/q²` of the
exact quotient of integrals, for every `lam > 1`, scale and degree, and no entry exceeds `1 + 90/q²`.  (The default
`q = 300` gives 0.1%.) -/
theorem C58_quadrature_error (hL : 1 ≤ L) (hlam : 1 < lam) (hJ : j_max L lam = .ok J) {q : ℤ} (hq : 300 ≤ q) {k : Arr2 ℝ}
    (hk : k_lam j_max L lam q = .ok k ∨ k_lam_jax j_max L lam q = .ok k) :
    (∀ j l, k.v j l ≤ 1 + 90 / q ^ 2) ∧
    ∀ j l, 0 ≤ j → j < J + 2 → l < L → lam ^ (j - 1) < (l : ℝ) → (l : ℝ) < lam ^ j →
      |k.v j l - (∫ x in (l / lam ^ j)..1, bump lam x) / ∫ x in (1 / lam)..1, bump lam x| ≤ 90 / q ^ 2 := by
  have hT := TopScale.of_j_max hL hlam hJ
  rw [k_lam_jax_eq, or_self, k_lam_ok hT (by omega)] at hk
  cases hk
  have hq0 : (0 : ℝ) < q := by exact_mod_cast (by omega : 0 < q)
  constructor
  · intro j l
    by_cases h : 0 ≤ j ∧ j < J + 2 ∧ 0 ≤ l ∧ l < L
    · rw [Arr2.of_v _ _ _ _ _ h]
      exact kval_bound hlam hq j l
    · rw [(Arr2.of (J + 2) L (kval lam q)).junk j l h]
      positivity
  · intro j l h0 h1 hl ha hb
    have hl0 : 0 ≤ l := by
      have : (0 : ℝ) < l := (zpow_pos' hlam _).trans ha
      exact_mod_cast this.le
    obtain ⟨b1, b2⟩ := band_point hlam ha hb
    rw [Arr2.of_v _ _ _ _ _ ⟨h0, h1, hl0, hl⟩, kval_band ha hb]
    have key := quad_ratio_approx hlam b1.le b2 (show 300 ≤ q.toNat by omega)
    have e : ((q.toNat : ℕ) : ℤ) = q := by omega
    have e' : ((q.toNat : ℕ) : ℝ) = (q : ℝ) := by exact_mod_cast e
    have hs : shiftC lam ≠ 0 := by have := one_lt_shiftC hlam; linarith
    rw [e, e', tailI_bump' hlam b1.le b2.le, ← sArg_edge hlam, tailI_bump' hlam le_rfl (inv_le_one' hlam).le,
      mul_div_mul_left _ _ hs] at key
    exact key

example : ∃ k, k_lam j_max 8 2 300 = .ok k ∧
    |k.v 3 5 - (∫ x in (5 / 8 : ℝ)..1, bump 2 x) / ∫ x in (1 / 2 : ℝ)..1, bump 2 x| ≤ 1 / 1000 := by
  obtain ⟨k, h1, -⟩ := C06_k_lam (L := 8) (lam := 2) (by norm_num) (by norm_num) j_max_8_2 (q := 300) (by norm_num)
  refine ⟨k, h1, ?_⟩
  have := (C58_quadrature_error (by norm_num) (by norm_num) j_max_8_2 (q := 300) le_rfl (Or.inl h1)).2 3 5 (by norm_num)
    (by norm_num) (by norm_num) (by norm_num) (by norm_num)
  norm_num at this ⊢
  exact this

/-- **C59** where `k_lam` can exceed 1: only in the first eighth of a transition band, and by at most `90/q²`. -/
theorem C59_overshoot_place (hL : 1 ≤ L) (hlam : 1 < lam) (hJ : j_max L lam = .ok J) {q : ℤ} (hq : 300 ≤ q) {k : Arr2 ℝ}
    (hk : k_lam j_max L lam q = .ok k ∨ k_lam_jax j_max L lam q = .ok k) {j l : ℤ} (h : 1 < k.v j l) :
    lam ^ (j - 1) < (l : ℝ) ∧ (l : ℝ) < lam ^ (j - 1) + (lam ^ j - lam ^ (j - 1)) / 8 ∧ k.v j l ≤ 1 + 90 / q ^ 2 := by
  have hT := TopScale.of_j_max hL hlam hJ
  have hb := (C58_quadrature_error hL hlam hJ hq hk).1 j l
  rw [k_lam_jax_eq, or_self, k_lam_ok hT (by omega)] at hk
  cases hk
  by_cases hr : 0 ≤ j ∧ j < J + 2 ∧ 0 ≤ l ∧ l < L
  · refine ⟨?_, ?_, hb⟩
    · rw [Arr2.of_v _ _ _ _ _ hr] at h
      by_contra hc
      rw [kval_le_edge hlam (by omega) (not_lt.1 hc)] at h
      exact lt_irrefl _ h
    · rw [Arr2.of_v _ _ _ _ _ hr] at h
      exact kval_place hlam hq h.le
  · rw [(Arr2.of (J + 2) L (kval lam q)).junk j l hr] at h
    linarith

/-- hence there is no overshoot when no degree falls into the first eighth of a transition band -/
theorem C59_no_overshoot (hL : 1 ≤ L) (hlam : 1 < lam) (hJ : j_max L lam = .ok J) {q : ℤ} (hq : 300 ≤ q) {k : Arr2 ℝ}
    (hk : k_lam j_max L lam q = .ok k)
    (h : ∀ j l : ℤ, 0 ≤ j → l < L → ¬ (lam ^ (j - 1) < (l : ℝ) ∧ (l : ℝ) < lam ^ (j - 1) + (lam ^ j - lam ^ (j - 1)) / 8)) :
    NoOvershoot k := by
  intro j l
  by_contra hc
  push Not at hc
  have h1 := C59_overshoot_place hL hlam hJ hq (Or.inl hk) hc
  have hT := TopScale.of_j_max hL hlam hJ
  rw [k_lam_ok hT (by omega)] at hk
  cases hk
  by_cases hr : 0 ≤ j ∧ j < J + 2 ∧ 0 ≤ l ∧ l < L
  · exact h j l hr.1 hr.2.2.2 ⟨h1.1, h1.2.1⟩
  · rw [(Arr2.of (J + 2) L (kval lam q)).junk j l hr] at hc
    linarith

/-- **C60** frame bounds of the axisymmetric filters, overshoot or not: the energy at every degree lies in `[1, 1001/1000]` for the
vectorised and JAX builders and in `[1, 501/500]` for the looped builder. -/
theorem C60_axisym (hL : 1 ≤ L) (hlam : 1 < lam) (hJ : j_max L lam = .ok J) {psi : Arr2 ℝ} {phi : Arr1 ℝ}
    (h : AxBuilt j_max L J_min lam psi phi) {l : ℤ} (hl0 : 0 ≤ l) (hl1 : l < L) :
    1 ≤ phi.v l ^ 2 + ∑ j ∈ Finset.Icc J_min J, psi.v j l ^ 2 ∧
    phi.v l ^ 2 + ∑ j ∈ Finset.Icc J_min J, psi.v j l ^ 2 ≤ 501 / 500 ∧
    ((filters_axisym_vectorised j_max L J_min lam = .ok (psi, phi) ∨ filters_axisym_jax j_max L J_min lam = .ok (psi, phi)) →
      phi.v l ^ 2 + ∑ j ∈ Finset.Icc J_min J, psi.v j l ^ 2 ≤ 1001 / 1000) := by
  have hT := TopScale.of_j_max hL hlam hJ
  have hk := k_lam_ok hT (show (3 : ℤ) ≤ 300 by norm_num)
  have hA := (C09_admissible (J_min := J_min) hL hlam hJ hk (psi := psi) (phi := phi)).1
  obtain ⟨h0, h1, rfl, p, rfl, hp⟩ := axBuilt_elim hT h
  have e : (Arr1.of L (phiAx lam J_min)).v l ^ 2 + ∑ j ∈ Finset.Icc J_min J, (Arr2.of (J + 1) L p).v j l ^ 2 =
      phiAx lam J_min l ^ 2 + ∑ j ∈ Finset.Icc J_min J, p j l ^ 2 := by
    rw [Arr1.of_v _ _ _ ⟨hl0, hl1⟩]
    congr 1
    refine Finset.sum_congr rfl fun j hj => ?_
    rw [Finset.mem_Icc] at hj
    rw [Arr2.of_v _ _ _ _ _ ⟨by omega, by omega, hl0, hl1⟩]
  have hE := hp.energy hlam hl0 hl1
  have g1 := one_le_gain hT h1.le hl0 hl1
  have g2 := gain_le hlam h1.le hl0
  refine ⟨by rw [e]; linarith, by rw [e]; linarith, fun hv => ?_⟩
  obtain ⟨j, a, b, c⟩ := (hA hv l hl0 hl1).1.1
  rw [← c, Arr2.of_v _ _ _ _ _ ⟨by omega, by omega, hl0, hl1⟩]
  exact kv_le hlam j l

example : ∃ psi phi, filters_axisym j_max 100 1 3 = .ok (psi, phi) ∧
    1 ≤ phi.v 30 ^ 2 + ∑ j ∈ Finset.Icc 1 5, psi.v j 30 ^ 2 ∧
    phi.v 30 ^ 2 + ∑ j ∈ Finset.Icc 1 5, psi.v j 30 ^ 2 ≤ 501 / 500 := by
  have hJ : j_max 100 3 = .ok 5 := by
    rw [C01_j_max (by norm_num) (by norm_num)]
    refine ⟨by norm_num, by norm_num, fun J' h0 h => ?_⟩
    by_contra hc
    have := zpow_le_zpow_right₀ (by norm_num : (1 : ℝ) ≤ 3) (show J' ≤ 4 by omega)
    norm_num at this h
    linarith
  have hT := TopScale.of_j_max (L := 100) (lam := 3) (by norm_num) (by norm_num) hJ
  obtain ⟨p, hp, -⟩ := filters_axisym_ok hT (J_min := 1) (by norm_num) (by norm_num)
  have hc := C60_axisym (l := 30) (by norm_num) (by norm_num) hJ (Or.inl hp) (by norm_num) (by norm_num)
  exact ⟨_, _, hp, hc.1, hc.2.1⟩

theorem sfac_sq (spin0 l : ℤ) : sfac spin0 l ^ 2 = ((l + spin0).toNat.factorial : ℝ) / ((l - spin0).toNat.factorial : ℝ) := by
  unfold sfac
  split_ifs with h
  · rw [h, add_zero, sub_zero, div_self (by exact_mod_cast (Nat.factorial_pos _).ne')]; norm_num
  · rw [mul_pow, ← zpow_natCast, ← zpow_natCast, ← zpow_mul, mul_comm spin0, zpow_mul]
    norm_num
    rw [spinN, Real.sq_sqrt (by positivity)]

theorem dir_bounds {jm : JMax} (hT : TopScale jm L lam J) (hN : 1 ≤ N) {spin spin0 : ℤ} {psi : Arr3 ℂ} {phi : Arr1 ℝ}
    (h : DirBuilt jm L N J_min lam spin spin0 psi phi) {l : ℤ} (hl0 : 0 ≤ l) (hl1 : l < L) (hs : |spin| ≤ l)
    (hs0 : |spin0| ≤ l) : ∃ W : ℝ, W = ((l + spin0).toNat.factorial : ℝ) / ((l - spin0).toNat.factorial : ℝ) ∧
    W ≤ frameSum J_min J L psi phi l ∧ frameSum J_min J L psi phi l ≤ 501 / 500 * W ∧
    ((filters_directional_vectorised jm L N J_min lam spin spin0 = .ok (psi, phi) ∨
        filters_directional_jax jm L N J_min lam spin spin0 = .ok (psi, phi)) →
      frameSum J_min J L psi phi l ≤ 1001 / 1000) := by
  have hlam := hT.hlam
  have hk := k_lam_ok hT (show (3 : ℤ) ≤ 300 by norm_num)
  have hA := (dir_admissible (J_min := J_min) hT hN hk (psi := psi) (phi := phi) (spin := spin) (spin0 := spin0)).1
  obtain ⟨h0, h1, rfl, p, rfl, hp⟩ := dirBuilt_elim hT hN h
  have hz : ∀ j, J_min ≤ j → j ≤ J → p j 0 = 0 := fun j a b => by
    have := psiAx_eq_zero hlam (j := j) (l := 0) (Or.inl (by simpa using (zpow_pos' hlam (j - 1)).le))
    rw [hp.eq j 0 a b le_rfl (by omega) this.1.ge]
    exact this.2
  have e := frameSum_closed (lam := lam) (spin0 := spin0) (J := J) (p := p) hN h0 hl0 hl1 (max_le hs hs0) hz
  have hE := hp.energy hlam hl0 hl1
  have g1 := one_le_gain hT h1.le hl0 hl1
  have g2 := gain_le hlam h1.le hl0
  have hW : 0 ≤ sfac spin0 l ^ 2 := sq_nonneg _
  refine ⟨sfac spin0 l ^ 2, sfac_sq _ _, ?_, ?_, fun hv => ?_⟩
  · rw [e]
    calc sfac spin0 l ^ 2 = 1 * sfac spin0 l ^ 2 := (one_mul _).symm
      _ ≤ _ := mul_le_mul_of_nonneg_right (by linarith) hW
  · rw [e]
    exact mul_le_mul_of_nonneg_right (by linarith) hW
  · obtain ⟨j, a, b, c⟩ := (hA hv l hl0 hl1 hs).1.1
    rw [← c, Arr2.of_v _ _ _ _ _ ⟨by omega, by omega, hl0, hl1⟩]
    exact kv_le hlam j l

/-- **C60** frame bounds of the directional filters, overshoot or not, relative to the squared spin normalisation
`W = (l+spin0)!/(l-spin0)!` (which is 1 for `spin0 = 0`). -/
theorem C60_directional (hL : 1 ≤ L) (hN : 1 ≤ N) (hlam : 1 < lam) (hJ : j_max L lam = .ok J) {spin spin0 : ℤ} {psi : Arr3 ℂ}
    {phi : Arr1 ℝ} (h : DirBuilt j_max L N J_min lam spin spin0 psi phi) {l : ℤ} (hl0 : 0 ≤ l) (hl1 : l < L) (hs : |spin| ≤ l)
    (hs0 : |spin0| ≤ l) : ∃ W : ℝ, W = ((l + spin0).toNat.factorial : ℝ) / ((l - spin0).toNat.factorial : ℝ) ∧
    W ≤ frameSum J_min J L psi phi l ∧ frameSum J_min J L psi phi l ≤ 501 / 500 * W ∧
    ((filters_directional_vectorised j_max L N J_min lam spin spin0 = .ok (psi, phi) ∨
        filters_directional_jax j_max L N J_min lam spin spin0 = .ok (psi, phi)) →
      frameSum J_min J L psi phi l ≤ 1001 / 1000) :=
  dir_bounds (TopScale.of_j_max hL hlam hJ) hN h hl0 hl1 hs hs0

example : ∃ psi phi, DirBuilt j_max 8 3 1 2 2 0 psi phi ∧ 1 ≤ frameSum 1 3 8 psi phi 5 ∧ frameSum 1 3 8 psi phi 5 ≤ 1001 / 1000 := by
  have hT := TopScale.of_j_max (L := 8) (lam := 2) (by norm_num) (by norm_num) j_max_8_2
  have hb := filters_directional_vectorised_ok hT (N := 3) (J_min := 1) (by norm_num) (by norm_num) (by norm_num) 2
  obtain ⟨W, h1, h2, -, h3⟩ := C60_directional (l := 5) (by norm_num) (by norm_num) (by norm_num) j_max_8_2
    (Or.inr (Or.inl hb)) (by norm_num) (by norm_num) (by norm_num) (by norm_num)
  rw [add_zero, sub_zero, div_self (by exact_mod_cast (Nat.factorial_pos _).ne')] at h1
  exact ⟨_, _, Or.inr (Or.inl hb), by rw [← h1]; exact h2, h3 (Or.inl hb)⟩

end
end S2wav
