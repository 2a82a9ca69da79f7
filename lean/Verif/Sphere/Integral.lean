import Verif.Sphere.Ortho

/-! # Integrals over the sphere and the rotation group

Spin spherical harmonics and Wigner functions are orthogonal, so inner products of series are inner products of their
coefficients. -/

namespace S2wav.Sphere

/-- integral over the sphere -/
noncomputable def sphInt (F : ℝ → ℝ → ℂ) : ℂ := ∫ φ in (0 : ℝ)..2 * Real.pi, ∫ θ in (0 : ℝ)..Real.pi, F θ φ * Real.sin θ

/-- integral over the rotation group, in Euler angles -/
noncomputable def rotInt (F : ℝ → ℝ → ℝ → ℂ) : ℂ :=
  ∫ α in (0 : ℝ)..2 * Real.pi, ∫ γ in (0 : ℝ)..2 * Real.pi, ∫ β in (0 : ℝ)..Real.pi, F α β γ * Real.sin β

theorem cis_continuous {f : ℝ → ℝ} (hf : Continuous f) : Continuous fun x => cis (f x) := by
  unfold cis; fun_prop

theorem integral_cis (k : ℤ) : ∫ x in (0 : ℝ)..2 * Real.pi, cis (k * x) = if k = 0 then 2 * (Real.pi : ℂ) else 0 := by
  unfold cis
  split_ifs with h
  · subst h
    simp
  · have hk : ((k : ℂ) * Complex.I) ≠ 0 := mul_ne_zero (by exact_mod_cast h) Complex.I_ne_zero
    have e : ∀ x : ℝ, Complex.exp (((k * x : ℝ) : ℂ) * Complex.I) = Complex.exp ((k : ℂ) * Complex.I * x) := by
      intro x; congr 1; push_cast; ring
    simp only [e]
    rw [integral_exp_mul_complex hk]
    have h1 : Complex.exp ((k : ℂ) * Complex.I * ((2 * Real.pi : ℝ) : ℂ)) = 1 := by
      rw [Complex.exp_eq_one_iff]
      exact ⟨k, by push_cast; ring⟩
    rw [h1]; simp

theorem wignerd_continuous (l m n : ℤ) : Continuous (wignerd l m n) := by
  unfold wignerd; fun_prop

section
variable {ι : Type*} (I : Finset ι) (c : ι → ℂ) (A : ι → ℝ → ℝ) (k k' : ι → ℤ)

theorem sphInt_sum (hA : ∀ i, Continuous (A i)) :
    sphInt (fun θ φ => ∑ i ∈ I, c i * (A i θ : ℂ) * cis (k i * φ)) =
      ∑ i ∈ I, c i * ((∫ θ in (0 : ℝ)..Real.pi, A i θ * Real.sin θ : ℝ) : ℂ) * (if k i = 0 then 2 * (Real.pi : ℂ) else 0) := by
  unfold sphInt
  have h1 : ∀ φ : ℝ, ∫ θ in (0 : ℝ)..Real.pi, (∑ i ∈ I, c i * (A i θ : ℂ) * cis (k i * φ)) * (Real.sin θ : ℂ) =
      ∑ i ∈ I, c i * ((∫ θ in (0 : ℝ)..Real.pi, A i θ * Real.sin θ : ℝ) : ℂ) * cis (k i * φ) := by
    intro φ
    simp only [Finset.sum_mul]
    rw [intervalIntegral.integral_finset_sum]
    · refine Finset.sum_congr rfl fun i _ => ?_
      rw [← intervalIntegral.integral_ofReal, ← intervalIntegral.integral_const_mul, ← intervalIntegral.integral_mul_const]
      congr 1; ext θ; push_cast; ring
    · intro i _
      have := hA i
      exact Continuous.intervalIntegrable (by fun_prop) _ _
  simp only [h1]
  rw [intervalIntegral.integral_finset_sum]
  · refine Finset.sum_congr rfl fun i _ => ?_
    rw [intervalIntegral.integral_const_mul, integral_cis]
  · intro i _
    exact Continuous.intervalIntegrable (continuous_const.mul (cis_continuous (by fun_prop))) _ _

theorem rotInt_sum (hA : ∀ i, Continuous (A i)) :
    rotInt (fun α β γ => ∑ i ∈ I, c i * (A i β : ℂ) * cis (k i * α) * cis (k' i * γ)) =
      ∑ i ∈ I, c i * ((∫ θ in (0 : ℝ)..Real.pi, A i θ * Real.sin θ : ℝ) : ℂ) * (if k i = 0 then 2 * (Real.pi : ℂ) else 0) *
        (if k' i = 0 then 2 * (Real.pi : ℂ) else 0) := by
  have h1 : ∀ α : ℝ, (∫ γ in (0 : ℝ)..2 * Real.pi, ∫ β in (0 : ℝ)..Real.pi,
      (∑ i ∈ I, c i * (A i β : ℂ) * cis (k i * α) * cis (k' i * γ)) * (Real.sin β : ℂ)) =
      ∑ i ∈ I, c i * ((∫ θ in (0 : ℝ)..Real.pi, A i θ * Real.sin θ : ℝ) : ℂ) * (if k' i = 0 then 2 * (Real.pi : ℂ) else 0) * cis (k i * α) := by
    intro α
    have h := sphInt_sum I (fun i => c i * cis (k i * α)) A k' hA
    unfold sphInt at h
    simp only [mul_right_comm _ (cis _) ((A _ _ : ℝ) : ℂ)] at h
    rw [h]
    refine Finset.sum_congr rfl fun i _ => ?_
    ring
  unfold rotInt
  simp only [h1]
  rw [intervalIntegral.integral_finset_sum]
  · refine Finset.sum_congr rfl fun i _ => ?_
    rw [intervalIntegral.integral_const_mul, integral_cis]; ring
  · intro i _
    exact Continuous.intervalIntegrable (continuous_const.mul (cis_continuous (by fun_prop))) _ _

end

/-- inner products of signals are inner products of their coefficients -/
theorem sphInt_series (s L : ℤ) (a b : ℤ → ℤ → ℂ) :
    sphInt (fun θ φ => series s L a θ φ * (starRingEnd ℂ) (series s L b θ φ)) =
      ∑ l ∈ Finset.Ico |s| L, ∑ m ∈ Finset.Icc (-l) l, a l m * (starRingEnd ℂ) (b l m) := by
  set I : Finset ((_ : ℤ) × ℤ) := (Finset.Ico |s| L).sigma fun l => Finset.Icc (-l) l with hI
  set nrm : ℤ → ℝ := fun l => (-1) ^ s * Real.sqrt ((2 * l + 1) / (4 * Real.pi)) with hnrm
  have hser : ∀ (a : ℤ → ℤ → ℂ) θ φ, series s L a θ φ = ∑ p ∈ I, a p.1 p.2 * sY s p.1 p.2 θ φ := by
    intro a θ φ; rw [hI, Finset.sum_sigma]; rfl
  have e : ∀ θ φ, series s L a θ φ * (starRingEnd ℂ) (series s L b θ φ) = ∑ r ∈ I ×ˢ I,
      (a r.1.1 r.1.2 * (starRingEnd ℂ) (b r.2.1 r.2.2) * ((nrm r.1.1 * nrm r.2.1 : ℝ) : ℂ)) *
        ((wignerd r.1.1 r.1.2 (-s) θ * wignerd r.2.1 r.2.2 (-s) θ : ℝ) : ℂ) * cis ((r.1.2 - r.2.2 : ℤ) * φ) := by
    intro θ φ
    rw [hser, hser, map_sum, Finset.sum_mul_sum, Finset.sum_product]
    refine Finset.sum_congr rfl fun p _ => Finset.sum_congr rfl fun q _ => ?_
    rw [map_mul]
    unfold sY
    rw [map_mul, conj_cis, Complex.conj_ofReal]
    have hc : cis ((p.2 - q.2 : ℤ) * φ) = cis (p.2 * φ) * cis (-(q.2 * φ)) := by
      rw [← cis_add]; congr 1; push_cast; ring
    rw [hc, hnrm]
    push_cast; ring
  simp only [e]
  rw [sphInt_sum (I ×ˢ I) (fun r => a r.1.1 r.1.2 * (starRingEnd ℂ) (b r.2.1 r.2.2) * ((nrm r.1.1 * nrm r.2.1 : ℝ) : ℂ))
    (fun r θ => wignerd r.1.1 r.1.2 (-s) θ * wignerd r.2.1 r.2.2 (-s) θ) (fun r => r.1.2 - r.2.2)
    (fun r => (wignerd_continuous _ _ _).mul (wignerd_continuous _ _ _)), Finset.sum_product]
  have hR : ∑ l ∈ Finset.Ico |s| L, ∑ m ∈ Finset.Icc (-l) l, a l m * (starRingEnd ℂ) (b l m) =
      ∑ p ∈ I, a p.1 p.2 * (starRingEnd ℂ) (b p.1 p.2) := by rw [hI, Finset.sum_sigma]
  rw [hR]
  refine Finset.sum_congr rfl fun p hp => ?_
  dsimp only
  have hmem : ∀ q ∈ I, |s| ≤ q.1 ∧ |q.2| ≤ q.1 := fun q hq => by
    rw [hI, Finset.mem_sigma, Finset.mem_Ico, Finset.mem_Icc] at hq
    exact ⟨hq.1.1, abs_le.2 hq.2⟩
  have hp1 := hmem p hp
  rw [Finset.sum_eq_single p]
  · rw [wignerd_ortho (by rw [abs_neg]; exact max_le hp1.2 hp1.1) (by rw [abs_neg]; exact max_le hp1.2 hp1.1), if_pos rfl, if_pos (sub_self _)]
    have hl : (0 : ℝ) ≤ p.1 := by exact_mod_cast (abs_nonneg s).trans hp1.1
    have hpi := Real.pi_pos
    have h1 : ((-1 : ℝ)) ^ s * (-1) ^ s = 1 := by rw [← zpow_add₀ (by norm_num)]; exact Even.neg_one_zpow ⟨s, rfl⟩
    have h2 := Real.mul_self_sqrt (show 0 ≤ (2 * (p.1 : ℝ) + 1) / (4 * Real.pi) by positivity)
    have h3 : nrm p.1 * nrm p.1 * (2 / (2 * (p.1 : ℝ) + 1)) * (2 * Real.pi) = 1 := by
      have h5 : nrm p.1 * nrm p.1 = (2 * (p.1 : ℝ) + 1) / (4 * Real.pi) := by
        rw [hnrm]
        dsimp only
        rw [mul_mul_mul_comm, h1, h2, one_mul]
      rw [h5]
      field_simp
      norm_num
    have h4 : ((nrm p.1 * nrm p.1 : ℝ) : ℂ) * ((2 / (2 * (p.1 : ℝ) + 1) : ℝ) : ℂ) * (2 * (Real.pi : ℂ)) = 1 := by
      have := congrArg (fun x : ℝ => (x : ℂ)) h3
      push_cast at this ⊢
      exact this
    linear_combination (a p.1 p.2 * (starRingEnd ℂ) (b p.1 p.2)) * h4
  · intro q hq hne
    by_cases hm : p.2 - q.2 = 0
    · have hm' : q.2 = p.2 := by omega
      have hq1 := hmem q hq
      rw [hm', wignerd_ortho (by rw [abs_neg]; exact max_le hp1.2 hp1.1) (by rw [abs_neg]; exact max_le (hm' ▸ hq1.2) hq1.1), if_neg ?_]
      · simp
      · intro h
        exact hne (Sigma.ext h.symm (heq_of_eq hm'))
    · rw [if_neg hm, mul_zero]
  · exact fun h => absurd hp h

/-- functions on the rotation group as sums of Wigner functions -/
noncomputable def wsum (L : ℤ) (c : ℤ → ℤ → ℤ → ℂ) (α β γ : ℝ) : ℂ :=
  ∑ l ∈ Finset.Ico 0 L, ∑ m ∈ Finset.Icc (-l) l, ∑ n ∈ Finset.Icc (-l) l, c l m n * (starRingEnd ℂ) (wD l m n α β γ)

theorem rotInt_wsum (L : ℤ) (c c' : ℤ → ℤ → ℤ → ℂ) :
    rotInt (fun α β γ => wsum L c α β γ * (starRingEnd ℂ) (wsum L c' α β γ)) =
      ∑ l ∈ Finset.Ico 0 L, ∑ m ∈ Finset.Icc (-l) l, ∑ n ∈ Finset.Icc (-l) l,
        ((8 * Real.pi ^ 2 / (2 * l + 1) : ℝ) : ℂ) * (c l m n * (starRingEnd ℂ) (c' l m n)) := by
  set I : Finset ((_ : ℤ) × ℤ × ℤ) := (Finset.Ico 0 L).sigma fun l => Finset.Icc (-l) l ×ˢ Finset.Icc (-l) l with hI
  have hsum : ∀ F : ℤ → ℤ → ℤ → ℂ, ∑ l ∈ Finset.Ico 0 L, ∑ m ∈ Finset.Icc (-l) l, ∑ n ∈ Finset.Icc (-l) l, F l m n =
      ∑ p ∈ I, F p.1 p.2.1 p.2.2 := by
    intro F
    rw [hI, Finset.sum_sigma]
    refine Finset.sum_congr rfl fun l _ => ?_
    rw [Finset.sum_product]
  have e : ∀ α β γ, wsum L c α β γ * (starRingEnd ℂ) (wsum L c' α β γ) = ∑ r ∈ I ×ˢ I,
      (c r.1.1 r.1.2.1 r.1.2.2 * (starRingEnd ℂ) (c' r.2.1 r.2.2.1 r.2.2.2)) *
        ((wignerd r.1.1 r.1.2.1 r.1.2.2 β * wignerd r.2.1 r.2.2.1 r.2.2.2 β : ℝ) : ℂ) *
        cis ((r.1.2.1 - r.2.2.1 : ℤ) * α) * cis ((r.1.2.2 - r.2.2.2 : ℤ) * γ) := by
    intro α β γ
    unfold wsum
    rw [hsum, hsum, map_sum, Finset.sum_mul_sum, Finset.sum_product]
    refine Finset.sum_congr rfl fun p _ => Finset.sum_congr rfl fun q _ => ?_
    rw [map_mul, Complex.conj_conj]
    unfold wD
    rw [map_mul, map_mul, conj_cis, conj_cis, Complex.conj_ofReal, neg_neg, neg_neg]
    have hc : cis ((p.2.1 - q.2.1 : ℤ) * α) = cis (p.2.1 * α) * cis (-(q.2.1 * α)) := by
      rw [← cis_add]; congr 1; push_cast; ring
    have hc' : cis ((p.2.2 - q.2.2 : ℤ) * γ) = cis (p.2.2 * γ) * cis (-(q.2.2 * γ)) := by
      rw [← cis_add]; congr 1; push_cast; ring
    rw [hc, hc']
    push_cast; ring
  simp only [e]
  rw [rotInt_sum (I ×ˢ I) (fun r => c r.1.1 r.1.2.1 r.1.2.2 * (starRingEnd ℂ) (c' r.2.1 r.2.2.1 r.2.2.2))
    (fun r θ => wignerd r.1.1 r.1.2.1 r.1.2.2 θ * wignerd r.2.1 r.2.2.1 r.2.2.2 θ) (fun r => r.1.2.1 - r.2.2.1) (fun r => r.1.2.2 - r.2.2.2)
    (fun r => (wignerd_continuous _ _ _).mul (wignerd_continuous _ _ _)), Finset.sum_product, hsum]
  refine Finset.sum_congr rfl fun p hp => ?_
  dsimp only
  have hmem : ∀ q ∈ I, |q.2.1| ≤ q.1 ∧ |q.2.2| ≤ q.1 := fun q hq => by
    rw [hI, Finset.mem_sigma, Finset.mem_product, Finset.mem_Icc, Finset.mem_Icc] at hq
    exact ⟨abs_le.2 hq.2.1, abs_le.2 hq.2.2⟩
  have hp1 := hmem p hp
  rw [Finset.sum_eq_single p]
  · rw [wignerd_ortho (max_le hp1.1 hp1.2) (max_le hp1.1 hp1.2), if_pos rfl, if_pos (sub_self _), if_pos (sub_self _)]
    push_cast; ring
  · intro q hq hne
    by_cases hm : p.2.1 - q.2.1 = 0
    · by_cases hn : p.2.2 - q.2.2 = 0
      · have hm' : q.2.1 = p.2.1 := by omega
        have hn' : q.2.2 = p.2.2 := by omega
        have hq1 := hmem q hq
        rw [hm', hn', wignerd_ortho (max_le hp1.1 hp1.2) (max_le (hm' ▸ hq1.1) (hn' ▸ hq1.2)), if_neg ?_]
        · simp
        · intro h
          exact hne (Sigma.ext h.symm (heq_of_eq (Prod.ext hm' hn')))
      · rw [if_neg hn, mul_zero]
    · rw [if_neg hm, mul_zero, zero_mul]
  · exact fun h => absurd hp h

end S2wav.Sphere
