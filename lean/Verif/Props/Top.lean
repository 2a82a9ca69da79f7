import Verif.Props.Harmonic

/-! # The top scale (C66) -/

namespace S2wav
open Classical

section
variable {L N J J_min : ℤ} {lam : ℝ}

/-- **C66** the wavelet of the top scale `J = j_max` vanishes identically whenever `L - 1 ≤ lam^(J-1)`, for instance when
`L = 2^n + 1` and `lam = 2`, for all builders; it does not vanish at degree `L - 1` if that lies beyond the first eighth of
the transition band. -/
theorem C66_top_wavelet (hL : 1 ≤ L) (hlam : 1 < lam) (hJ : j_max L lam = .ok J) {psi : Arr2 ℝ} {phi : Arr1 ℝ}
    (h : AxBuilt j_max L J_min lam psi phi) :
    (((L - 1 : ℤ) : ℝ) ≤ lam ^ (J - 1) → ∀ l, psi.v J l = 0) ∧
    (lam ^ (J - 1) + (lam ^ J - lam ^ (J - 1)) / 8 ≤ ((L - 1 : ℤ) : ℝ) → 0 < psi.v J (L - 1)) := by
  have hT := TopScale.of_j_max hL hlam hJ
  obtain ⟨h0, h1, -, p, rfl, hp⟩ := axBuilt_elim hT h
  constructor
  · intro hle l
    by_cases hr : 0 ≤ J ∧ J < J + 1 ∧ 0 ≤ l ∧ l < L
    · rw [Arr2.of_v _ _ _ _ _ hr]
      have hl : (l : ℝ) ≤ lam ^ (J - 1) := by
        have : (l : ℝ) ≤ ((L - 1 : ℤ) : ℝ) := by exact_mod_cast (by omega : l ≤ L - 1)
        linarith
      have hz := psiAx_eq_zero hlam (j := J) (l := l) (Or.inl hl)
      rw [hp.eq J l h1.le le_rfl hr.2.2.1 hr.2.2.2 hz.1.ge, hz.2]
    · exact Arr2.junk _ _ _ hr
  · intro hge
    have hk1 : kv lam (J + 1) (L - 1) = 1 := exists_k_one hT (by omega)
    have hk : kv lam J (L - 1) < 1 := by
      by_contra hc
      have := kval_place hlam (le_refl 300) (not_lt.1 hc)
      linarith
    have hL0 : 0 ≤ L - 1 := by omega
    rw [Arr2.of_v _ _ _ _ _ ⟨by omega, by omega, hL0, by omega⟩, hp.eq J (L - 1) h1.le le_rfl hL0 (by omega) (by linarith), psiAx]
    exact Real.sqrt_pos.2 (lt_max_of_lt_right (by linarith))

theorem C66_top_directional {jm : JMax} (hT : TopScale jm L lam J) (hN : 1 ≤ N) {spin spin0 : ℤ} {psi : Arr3 ℂ} {phi : Arr1 ℝ}
    (h : DirBuilt jm L N J_min lam spin spin0 psi phi) (hle : ((L - 1 : ℤ) : ℝ) ≤ lam ^ (J - 1)) (l k : ℤ) : psi.v J l k = 0 := by
  obtain ⟨h0, h1, -, p, rfl, hp⟩ := dirBuilt_elim hT hN h
  by_cases hr : 0 ≤ J ∧ J < J + 1 ∧ 0 ≤ l ∧ l < L ∧ 0 ≤ k ∧ k < 2 * L - 1
  · rw [Arr3.of_v _ _ _ _ _ _ _ hr]
    have hl : (l : ℝ) ≤ lam ^ (J - 1) := by
      have : (l : ℝ) ≤ ((L - 1 : ℤ) : ℝ) := by exact_mod_cast (by omega : l ≤ L - 1)
      linarith
    have hz := psiAx_eq_zero hT.hlam (j := J) (l := l) (Or.inl hl)
    simp only [psiDirOf, hp.eq J l h1.le le_rfl hr.2.2.1 hr.2.2.2.1 hz.1.ge, hz.2]
    split_ifs <;> simp
  · exact Arr3.junk _ _ _ _ hr

end

section
variable {jm : JMax} {c : Cfg} {J : ℤ} {b : Backend}

/-- **C66** and then the wavelet coefficients of the top scale are zero for every signal, although they take as much memory as
those of the scale below: both scales have the same band-limits. -/
theorem C66_top_coefficients (hw : b.Works jm c J) (hle : ((c.L - 1 : ℤ) : ℝ) ≤ c.lam ^ (J - 1)) {f s : Px} {w : List Px}
    {W : ℤ → Arr3 ℂ} {S : Arr2 ℂ} (h : b.analysis jm c f = .ok (w, s)) (hc : b.Coeffs c J w s W S) :
    (∀ n l m, co3 (W J) n l m = 0) ∧ c.Lj true J = c.Lj true (J - 1) ∧ c.Nj true J = c.Nj true (J - 1) := by
  obtain ⟨psi, phi, hflt⟩ := filters_exist hw.valid b
  obtain ⟨flm, hf, -⟩ := analysis_input hw h
  obtain ⟨hW, -⟩ := analysis_co hw hflt h hc hf
  have h1 := hw.valid.h1
  refine ⟨fun n l m => ?_, (LN_top hw.valid.top c.N).1, (LN_top hw.valid.top c.N).2⟩
  rw [hW J (by omega) le_rfl, C66_top_directional hw.valid.top hw.valid.hN (filters_built hflt) hle]
  simp

/-- `L = 3 = 2^1 + 1`, `j_max = 2` -/
example (hb : Toy.IsToy b) (reality : Bool) : ∃ f w s W S, (b.engine (exCfg reality 0)).sphF f 3 = .ok exFlm ∧
    b.analysis j_max (exCfg reality 0) f = .ok (w, s) ∧ b.Coeffs (exCfg reality 0) 2 w s W S ∧ ∀ n l m, co3 (W 2) n l m = 0 := by
  obtain ⟨f, w, s, W, S, hf, h, hc⟩ := exRun hb reality
  exact ⟨f, w, s, W, S, hf, h, hc, (C66_top_coefficients (exCfg_works hb reality 0) (by norm_num [exCfg]) h hc).1⟩

example : ∃ psi phi, AxBuilt j_max 8 1 2 psi phi ∧ 0 < psi.v 3 7 := by
  have hT := TopScale.of_j_max (L := 8) (lam := 2) (by norm_num) (by norm_num) j_max_8_2
  obtain ⟨p, hp, -⟩ := filters_axisym_ok hT (J_min := 1) (by norm_num) (by norm_num)
  exact ⟨_, _, Or.inl hp, (C66_top_wavelet (L := 8) (by norm_num) (by norm_num) j_max_8_2 (Or.inl hp)).2 (by norm_num)⟩

end
end S2wav
