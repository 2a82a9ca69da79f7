import Verif.Lemmas.Looped
import Verif.Usage
import Verif.Props.Filters

/-! # Coefficient-level facts: what the closed-form analysis and synthesis do to harmonic coefficients -/

namespace S2wav
open Classical

/-- the filters vanish outside the degrees and orders kept by the transforms -/
structure FltTrunc (L N J_min : ℤ) (lam : ℝ) (mr : Bool) (psi : Arr3 ℂ) (phi : Arr1 ℝ) : Prop where
  psi : ∀ j l n, psi.v j l (L - 1 + n) ≠ 0 →
      (LN_j L j N lam mr).2.2 ≤ l ∧ l < (LN_j L j N lam mr).1 ∧ |n| < (LN_j L j N lam mr).2.1 ∧
        ((LN_j L j N lam mr).2.1 - 1 - n) % 2 = 0
  phi : ∀ l, phi.v l ≠ 0 → l < scal_bandlimit L J_min lam mr

section
variable {jm : JMax} {L N J J_min : ℤ} {lam : ℝ} {spin spin0 : ℤ} {psi : Arr3 ℂ} {phi : Arr1 ℝ}

theorem dir_shape (hT : TopScale jm L lam J) (hN : 1 ≤ N) (h : DirBuilt jm L N J_min lam spin spin0 psi phi) :
    psi.d = J + 1 ∧ psi.r = L ∧ psi.c = 2 * L - 1 ∧ phi.n = L := by
  obtain ⟨h0, h1, rfl, p, rfl, hp⟩ := dirBuilt_elim hT hN h
  exact ⟨rfl, rfl, rfl, rfl⟩

theorem dir_fltShape (hT : TopScale jm L lam J) (hN : 1 ≤ N) (h : DirBuilt jm L N J_min lam spin spin0 psi phi) :
    FltShape L J psi phi := by
  obtain ⟨a, b, c, d⟩ := dir_shape hT hN h
  exact ⟨by omega, b, c, d⟩

theorem dir_fltTrunc (hT : TopScale jm L lam J) (hN : 1 ≤ N) (h : DirBuilt jm L N J_min lam spin spin0 psi phi)
    (mr : Bool) : FltTrunc L N J_min lam mr psi phi :=
  ⟨(dir_truncation hT hN h mr).1, (dir_truncation hT hN h mr).2⟩

theorem dir_fltZero (hT : TopScale jm L lam J) (hN : 1 ≤ N) (h : DirBuilt jm L N J_min lam spin spin0 psi phi) :
    FltZero L spin psi phi := by
  obtain ⟨h0, h1, rfl, p, rfl, hp⟩ := dirBuilt_elim hT hN h
  have hm := le_max_left |spin| |spin0|
  constructor
  · intro j l n hc
    by_cases hr : 0 ≤ j ∧ j < J + 1 ∧ 0 ≤ l ∧ l < L ∧ 0 ≤ L - 1 + n ∧ L - 1 + n < 2 * L - 1
    · rw [Arr3.of_v _ _ _ _ _ _ _ hr]
      by_contra hne
      have := psiDirOf_support hN hne
      have e : L - 1 + n - (L - 1) = n := by ring
      rw [e] at this
      omega
    · exact Arr3.of_out _ _ _ _ _ _ _ hr
  · intro l hl
    by_cases hr : 0 ≤ l ∧ l < L
    · rw [Arr1.of_v _ _ _ hr, phiDir, if_pos (by omega)]
    · exact Arr1.of_out _ _ _ hr

theorem dir_fltSym (hT : TopScale jm L lam J) (hN : 1 ≤ N) (h : DirBuilt jm L N J_min lam spin spin0 psi phi) :
    FltSym L psi := by
  intro j l n
  obtain ⟨h0, h1, rfl, p, rfl, hp⟩ := dirBuilt_elim hT hN h
  by_cases hr : 0 ≤ j ∧ j < J + 1 ∧ 0 ≤ l ∧ l < L ∧ 0 ≤ L - 1 + n ∧ L - 1 + n < 2 * L - 1
  · have e1 : L - 1 - n - (L - 1) = -n := by ring
    have e2 : L - 1 + n - (L - 1) = n := by ring
    rw [Arr3.of_v _ _ _ _ _ _ _ ⟨hr.1, hr.2.1, hr.2.2.1, hr.2.2.2.1, by omega, by omega⟩,
      Arr3.of_v _ _ _ _ _ _ _ hr, e1, e2]
    unfold psiDirOf
    split_ifs
    · simp
    · rw [sdir_conj hN]
      simp only [map_mul, Complex.conj_ofReal]
      ring
  · rw [Arr3.of_out _ _ _ _ _ _ (L - 1 + n) hr, Arr3.of_out _ _ _ _ _ _ (L - 1 - n) (by omega)]; simp

end

section
variable {L N J J_min : ℤ} {lam : ℝ} {mr : Bool} {spin : ℤ} {psi : Arr3 ℂ} {phi : Arr1 ℝ} {flm : Arr2 ℂ}

theorem BL2.tri (h : BL2 L spin flm) : Tri2 L flm :=
  ⟨h.r, h.c, fun l m hl => by have := h.zero l m (Or.inl hl); rwa [co2, h.r] at this⟩

theorem Tri2.co (h : Tri2 L flm) (l m : ℤ) : co2 flm l m = flm.v l (L - 1 + m) := by rw [co2, h.1]

/-- the coefficients of one scale, for all integers `n`, `l`, `m` -/
theorem anaW_co (hF : FltTrunc L N J_min lam mr psi phi) (hf : Tri2 L flm) {j Lj Nj L0j : ℤ}
    (hp : LN_j L j N lam mr = (Lj, Nj, L0j)) (n l m : ℤ) :
    co3 (anaW L Lj Nj L0j psi j flm) n l m =
      ((8 * Real.pi ^ 2 / (2 * l + 1) : ℝ) : ℂ) * (co2 flm l m * (starRingEnd ℂ) (psi.v j l (L - 1 + n))) := by
  have hsup := hF.psi j l n
  rw [hp] at hsup
  dsimp only at hsup
  rw [hf.co]
  have e1 : (2 * Nj - 1 - 1) / 2 = Nj - 1 := by omega
  have ed : (anaW L Lj Nj L0j psi j flm).d = 2 * Nj - 1 := rfl
  have er : (anaW L Lj Nj L0j psi j flm).r = Lj := rfl
  rw [co3, ed, er, e1, anaW]
  by_cases h0 : psi.v j l (L - 1 + n) = 0
  · rw [h0]
    by_cases hr : 0 ≤ Nj - 1 + n ∧ Nj - 1 + n < 2 * Nj - 1 ∧ 0 ≤ l ∧ l < Lj ∧ 0 ≤ Lj - 1 + m ∧ Lj - 1 + m < 2 * Lj - 1
    · rw [Arr3.of_v _ _ _ _ _ _ _ hr]
      have e2 : L - Nj + (Nj - 1 + n) = L - 1 + n := by ring
      rw [e2, h0]; simp
    · rw [Arr3.of_out _ _ _ _ _ _ _ hr]; simp
  · obtain ⟨s1, s2, s3, s4⟩ := hsup h0
    rw [abs_lt] at s3
    have e2 : L - Nj + (Nj - 1 + n) = L - 1 + n := by ring
    have e3 : L - Lj + (Lj - 1 + m) = L - 1 + m := by ring
    by_cases hr : 0 ≤ l ∧ 0 ≤ Lj - 1 + m ∧ Lj - 1 + m < 2 * Lj - 1
    · rw [Arr3.of_v _ _ _ _ _ _ _ ⟨by omega, by omega, hr.1, s2, hr.2.1, hr.2.2⟩, if_pos ⟨by omega, s1⟩, e2, e3]
      ring
    · rw [Arr3.of_out _ _ _ _ _ _ _ (by omega)]
      have : flm.v l (L - 1 + m) = 0 := by
        by_cases hl : 0 ≤ l
        · exact hf.2.2 l m (by rw [lt_abs]; omega)
        · exact Arr2.junk _ _ _ (by omega)
      rw [this]; simp

/-- the scaling coefficients, for all integers `l`, `m` -/
theorem anaS_co (hF : FltTrunc L N J_min lam mr psi phi) (hf : Tri2 L flm) (l m : ℤ) :
    co2 (anaS L (scal_bandlimit L J_min lam mr) phi flm) l m =
      ((Real.sqrt (4 * Real.pi / (2 * l + 1)) * phi.v l : ℝ) : ℂ) * co2 flm l m := by
  have hsup := hF.phi l
  rw [hf.co]
  generalize scal_bandlimit L J_min lam mr = Ls at *
  have er : (anaS L Ls phi flm).r = Ls := rfl
  rw [co2, er, anaS]
  have e3 : L - Ls + (Ls - 1 + m) = L - 1 + m := by ring
  by_cases hr : 0 ≤ l ∧ l < Ls ∧ 0 ≤ Ls - 1 + m ∧ Ls - 1 + m < 2 * Ls - 1
  · rw [Arr2.of_v _ _ _ _ _ hr, e3]; push_cast; ring
  · rw [Arr2.of_out _ _ _ _ _ hr]
    by_cases h0 : phi.v l = 0
    · rw [h0]; simp
    · have s1 := hsup h0
      have : flm.v l (L - 1 + m) = 0 := by
        by_cases hl : 0 ≤ l
        · exact hf.2.2 l m (by rw [lt_abs]; omega)
        · exact Arr2.junk _ _ _ (by omega)
      rw [this]; simp

theorem anaW_bl (hF : FltTrunc L N J_min lam mr psi phi) (hZ : FltZero L spin psi phi) (hf : Tri2 L flm)
    {j Lj Nj L0j : ℤ} (hp : LN_j L j N lam mr = (Lj, Nj, L0j)) : BL3 Lj Nj L0j (anaW L Lj Nj L0j psi j flm) := by
  refine ⟨rfl, rfl, rfl, fun n l m h => ?_⟩
  rw [anaW_co hF hf hp]
  rcases h with h | h | h
  · rw [hZ.psi j l n (Or.inl h)]; simp
  · rw [hf.co, hf.2.2 l m h]; simp
  · by_cases h0 : psi.v j l (L - 1 + n) = 0
    · rw [h0]; simp
    · have := (hF.psi j l n h0).1
      rw [hp] at this
      dsimp only at this
      omega

theorem anaW_herm (hF : FltTrunc L N J_min lam mr psi phi) (hS : FltSym L psi) (hf : Tri2 L flm) (hh : Herm2 flm)
    {j Lj Nj L0j : ℤ} (hp : LN_j L j N lam mr = (Lj, Nj, L0j)) : Herm3 (anaW L Lj Nj L0j psi j flm) := by
  intro n l m
  rw [anaW_co hF hf hp, anaW_co hF hf hp, hh l m, ← sub_eq_add_neg, hS j l n, zpow_add₀ (by norm_num)]
  have e : (starRingEnd ℂ) ((-1 : ℂ) ^ n) = (-1) ^ n := by rw [map_zpow₀]; simp
  simp only [map_mul, Complex.conj_ofReal, Complex.conj_conj, e]
  ring

theorem anaS_bl (hF : FltTrunc L N J_min lam mr psi phi) (hZ : FltZero L spin psi phi) (hf : Tri2 L flm) :
    BL2 (scal_bandlimit L J_min lam mr) spin (anaS L (scal_bandlimit L J_min lam mr) phi flm) := by
  refine ⟨rfl, rfl, fun l m h => ?_⟩
  rw [anaS_co hF hf]
  rcases h with h | h
  · rw [hf.co, hf.2.2 l m h]; simp
  · rw [hZ.phi l h]; simp

theorem anaS_herm (hF : FltTrunc L N J_min lam mr psi phi) (hf : Tri2 L flm) (hh : Herm2 flm) :
    Herm2 (anaS L (scal_bandlimit L J_min lam mr) phi flm) := by
  intro l m
  rw [anaS_co hF hf, anaS_co hF hf, hh l m]
  simp only [map_mul, Complex.conj_ofReal]
  ring

/-- a sum over every second column, when the skipped columns are zero -/
theorem sum_every_second {M : Type} [AddCommMonoid M] {Nj : ℤ} (g : ℤ → M)
    (hg : ∀ n, g (L - 1 + n) ≠ 0 → |n| < Nj ∧ (Nj - 1 - n) % 2 = 0)
    (h0 : ∀ i, ¬ (0 ≤ i ∧ i < 2 * L - 1) → g i = 0) :
    ∑ k ∈ Finset.Ico 0 Nj, g (L - Nj + 2 * k) = ∑ i ∈ Finset.Ico 0 (2 * L - 1), g i := by
  refine Finset.sum_bij_ne_zero (fun k _ _ => L - Nj + 2 * k) ?_ ?_ ?_ ?_
  · intro k hk hne
    rw [Finset.mem_Ico]
    by_contra hc
    exact hne (h0 _ hc)
  · intro k1 _ _ k2 _ _ h
    omega
  · intro i hi hne
    have e : L - 1 + (i - (L - 1)) = i := by ring
    have := hg (i - (L - 1)) (by rwa [e])
    rw [abs_lt] at this
    have hk : L - Nj + 2 * ((i - (L - Nj)) / 2) = i := by omega
    refine ⟨(i - (L - Nj)) / 2, ?_, ?_, hk⟩
    · rw [Finset.mem_Ico]
      omega
    · rwa [hk]
  · intro _ _ _; rfl

/-- entrywise product with a function of the degree -/
noncomputable def degMul (G : ℤ → ℝ) (a : Arr2 ℂ) : Arr2 ℂ := Arr2.of a.r a.c fun l i => (G l : ℂ) * a.v l i

theorem degMul_co (G : ℤ → ℝ) (a : Arr2 ℂ) (l m : ℤ) : co2 (degMul G a) l m = (G l : ℂ) * co2 a l m := by
  have er : (degMul G a).r = a.r := rfl
  rw [co2, er, degMul, co2]
  by_cases hr : 0 ≤ l ∧ l < a.r ∧ 0 ≤ a.r - 1 + m ∧ a.r - 1 + m < a.c
  · rw [Arr2.of_v _ _ _ _ _ hr]
  · rw [Arr2.of_out _ _ _ _ _ hr, a.junk _ _ hr]; simp

/-- synthesis after analysis multiplies degree `l` by the frame sum -/
theorem syn_ana (hF : FltTrunc L N J_min lam mr psi phi) (hs : psi.c = 2 * L - 1) (hf : Tri2 L flm) (t : ℤ → Arr3 ℂ)
    (ht : ∀ j, J_min ≤ j → j < J + 1 →
      t j = anaW L (LN_j L j N lam mr).1 (LN_j L j N lam mr).2.1 (LN_j L j N lam mr).2.2 psi j flm) :
    synA L N J_min J lam mr psi phi t (anaS L (scal_bandlimit L J_min lam mr) phi flm) =
      degMul (frameSum J_min J L psi phi) flm := by
  unfold synA degMul
  rw [hf.1, hf.2.1]
  refine Arr2.of_congr fun l m hl0 hl1 hm0 hm1 => ?_
  have hl' : (0 : ℝ) ≤ l := by exact_mod_cast hl0
  have hpi := Real.pi_pos
  have em : L - 1 + (m - (L - 1)) = m := by ring
  have key : ∀ j ∈ Finset.Ico J_min (J + 1),
      synW L (LN_j L j N lam mr).1 (LN_j L j N lam mr).2.1 (LN_j L j N lam mr).2.2 psi j (t j) l m =
      ((8 * Real.pi ^ 2 / (2 * l + 1) * ∑ k ∈ Finset.Ico 0 (2 * L - 1), ‖psi.v j l k‖ ^ 2 : ℝ) : ℂ) * flm.v l m := by
    intro j hj
    rw [Finset.mem_Ico] at hj
    rw [ht j hj.1 hj.2]
    rcases hp : LN_j L j N lam mr with ⟨Lj, Nj, L0j⟩
    dsimp only
    have hsup := fun n => hF.psi j l n
    rw [hp] at hsup
    dsimp only at hsup
    have hsum := sum_every_second (L := L) (Nj := Nj) (fun i => ((‖psi.v j l i‖ ^ 2 : ℝ) : ℂ)) (fun n hn => by
        have hne : psi.v j l (L - 1 + n) ≠ 0 := by intro h0; apply hn; simp [h0]
        exact (hsup n hne).2.2) (fun i hi => by
          have : psi.v j l i = 0 := psi.junk _ _ _ (by rw [hs]; omega)
          simp [this])
    unfold synW
    by_cases hc : L0j ≤ l ∧ l < Lj ∧ L - Lj ≤ m ∧ m < L - 1 + Lj
    · rw [if_pos hc]
      have : ∀ k ∈ Finset.Ico 0 Nj, psi.v j l (L - Nj + 2 * k) *
          (anaW L Lj Nj L0j psi j flm).v (2 * k) l (m - (L - Lj)) =
          ((‖psi.v j l (L - Nj + 2 * k)‖ ^ 2 : ℝ) : ℂ) * (((8 * Real.pi ^ 2 / (2 * l + 1) : ℝ) : ℂ) * flm.v l m) := by
        intro k hk
        rw [Finset.mem_Ico] at hk
        have e := anaW_co hF hf hp (2 * k - (Nj - 1)) l (m - (L - 1))
        have ed : (anaW L Lj Nj L0j psi j flm).d = 2 * Nj - 1 := rfl
        have er : (anaW L Lj Nj L0j psi j flm).r = Lj := rfl
        have e1 : (2 * Nj - 1 - 1) / 2 + (2 * k - (Nj - 1)) = 2 * k := by omega
        have e2 : Lj - 1 + (m - (L - 1)) = m - (L - Lj) := by ring
        have e3 : L - 1 + (2 * k - (Nj - 1)) = L - Nj + 2 * k := by ring
        rw [co3, ed, er, e1, e2, hf.co, em, e3] at e
        rw [e, ← Complex.normSq_eq_norm_sq, ← Complex.mul_conj]
        ring
      rw [Finset.sum_congr rfl this, ← Finset.sum_mul, hsum]
      push_cast
      ring
    · rw [if_neg hc]
      by_cases h0 : flm.v l m = 0
      · rw [h0]; simp
      · have hm : |m - (L - 1)| ≤ l := by
          by_contra h; rw [not_le] at h; apply h0
          have := hf.2.2 l (m - (L - 1)) h
          rwa [em] at this
        rw [abs_le] at hm
        have : ∀ k ∈ Finset.Ico 0 (2 * L - 1), ‖psi.v j l k‖ ^ 2 = 0 := by
          intro k _
          have e : L - 1 + (k - (L - 1)) = k := by ring
          by_contra hne
          have hne' : psi.v j l (L - 1 + (k - (L - 1))) ≠ 0 := by rw [e]; intro h; apply hne; simp [h]
          have := hsup _ hne'
          omega
        rw [Finset.sum_eq_zero this]; simp
  have keyS : synS L (scal_bandlimit L J_min lam mr) phi (anaS L (scal_bandlimit L J_min lam mr) phi flm) l m =
      ((4 * Real.pi / (2 * l + 1) * phi.v l ^ 2 : ℝ) : ℂ) * flm.v l m := by
    have e := anaS_co hF hf l (m - (L - 1))
    have er : (anaS L (scal_bandlimit L J_min lam mr) phi flm).r = scal_bandlimit L J_min lam mr := rfl
    have e2 : scal_bandlimit L J_min lam mr - 1 + (m - (L - 1)) = m - (L - scal_bandlimit L J_min lam mr) := by ring
    rw [co2, er, e2, hf.co, em] at e
    unfold synS
    rw [e]
    have hsq : Real.sqrt (4 * Real.pi / (2 * l + 1)) * Real.sqrt (4 * Real.pi / (2 * l + 1)) = 4 * Real.pi / (2 * l + 1) :=
      Real.mul_self_sqrt (by positivity)
    have hsq' : ((Real.sqrt (4 * Real.pi / (2 * l + 1)) : ℝ) : ℂ) * ((Real.sqrt (4 * Real.pi / (2 * l + 1)) : ℝ) : ℂ) =
      ((4 * Real.pi / (2 * l + 1) : ℝ) : ℂ) := by exact_mod_cast hsq
    by_cases hc : l < scal_bandlimit L J_min lam mr ∧ L - scal_bandlimit L J_min lam mr ≤ m ∧
        m < L - 1 + scal_bandlimit L J_min lam mr
    · rw [if_pos hc, Complex.ofReal_mul, Complex.ofReal_mul, Complex.ofReal_mul, ← hsq', Complex.ofReal_pow]
      ring
    · rw [if_neg hc]
      by_cases h0 : flm.v l m = 0
      · rw [h0]; simp
      · have hm : |m - (L - 1)| ≤ l := by
          by_contra h; rw [not_le] at h; apply h0
          have := hf.2.2 l (m - (L - 1)) h
          rwa [em] at this
        rw [abs_le] at hm
        have : phi.v l = 0 := by
          by_contra hne
          have := hF.phi l hne
          omega
        rw [this]; simp
  rw [Finset.sum_congr rfl key, keyS, ← Finset.sum_mul, ← add_mul]
  congr 1
  have hI : Finset.Icc J_min J = Finset.Ico J_min (J + 1) := by
    ext x; simp only [Finset.mem_Icc, Finset.mem_Ico]; omega
  rw [frameSum, hI, Finset.mul_sum, ← Complex.ofReal_sum, ← Complex.ofReal_add, add_comm]

end

end S2wav
