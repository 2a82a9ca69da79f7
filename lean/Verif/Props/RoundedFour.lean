import Verif.Lemmas.QuadFour2
import Verif.Props.Rounding

/-! # C120: the generating function in double precision with `lam = 4`

With `lam = 3` the rounding of the abscissae pushes one of them above 1 at band-limit 795 and the result is infinite (C99, C118).
With `lam = 4` the quotients `l / 4^j` are doubles, no abscissa exceeds 1, and the result is accurate at every band-limit
up to 2^48.  So the failure of `lam = 3` does not come from the size of `lam`. -/

namespace S2wav
open Classical

variable {m : Libm} {jm : JMax} {L J : ℤ}

/-- **C120** for `lam = 4` and every band-limit up to 2^48, `k_lam` in double precision raises no exception, produces neither
infinities nor NaN, and every entry is non-negative and within 2^-31 (about 4.7e-10) of the entry computed in exact
arithmetic. -/
theorem C120_accuracy (hm : m.Ok) (hT : TopScale jm L 4 J) (hL : L ≤ 2 ^ 48) (hJ : J ≤ 498) :
    ∃ k64 k, k_lam64 m jm L 4 300 = .ok k64 ∧ k_lam jm L 4 300 = .ok k ∧ k64.r = k.r ∧ k64.c = k.c ∧
      ∀ j l, ∃ x : ℝ, k64.v j l = .fin x ∧ 0 ≤ x ∧ |x - k.v j l| ≤ 1 / 2 ^ 31 := by
  obtain ⟨X, hX, hX'⟩ := k_lam64_four hm hT.hJ hT.hL hL hT.hJ0 hJ
  refine ⟨_, _, hX, k_lam_ok hT (by norm_num), rfl, rfl, fun j l => ?_⟩
  by_cases hr : 0 ≤ j ∧ j < J + 2 ∧ 0 ≤ l ∧ l < L
  · obtain ⟨h1, h2, -⟩ := hX' j l hr.1 hr.2.1 hr.2.2.1 hr.2.2.2
    refine ⟨X j l, ?_, h1, ?_⟩
    · change ite _ _ _ = _; rw [if_pos hr]
    · change |_ - ite _ _ _| ≤ _; rw [if_pos hr]; exact h2
  · refine ⟨0, ?_, le_rfl, ?_⟩
    · change ite _ _ _ = _; rw [if_neg hr]; rfl
    · change |_ - ite _ _ _| ≤ _; rw [if_neg hr]; norm_num

/-- **C120** outside the transition band the entries are exactly 1 and 0 -/
theorem C120_exact (hm : m.Ok) (hT : TopScale jm L 4 J) (hL : L ≤ 2 ^ 48) (hJ : J ≤ 498) {k64 : Arr2 F64}
    (hk : k_lam64 m jm L 4 300 = .ok k64) {j l : ℤ} (hj0 : 0 ≤ j) (hj1 : j < J + 2) (hl0 : 0 ≤ l) (hl1 : l < L) :
    ((l : ℝ) ≤ 4 ^ (j - 1) → k64.v j l = .fin 1) ∧ ((4 : ℝ) ^ j ≤ l → k64.v j l = .fin 0) := by
  obtain ⟨X, hX, hX'⟩ := k_lam64_four hm hT.hJ hT.hL hL hT.hJ0 hJ
  rw [hX] at hk
  cases hk
  obtain ⟨-, -, h1, h2⟩ := hX' j l hj0 hj1 hl0 hl1
  constructor <;> intro h <;> (change ite _ _ _ = _; rw [if_pos ⟨hj0, hj1, hl0, hl1⟩])
  · rw [h1 h]
  · rw [h2 h]

/-- **C120** in particular with the exact top scale, for every band-limit up to 2^48 -/
theorem C120_default (hm : m.Ok) (h1 : 1 ≤ L) (h2 : L ≤ 2 ^ 48) :
    ∃ k64 k, k_lam64 m j_max L 4 300 = .ok k64 ∧ k_lam j_max L 4 300 = .ok k ∧ k64.r = k.r ∧ k64.c = k.c ∧
      ∀ j l, ∃ x : ℝ, k64.v j l = .fin x ∧ 0 ≤ x ∧ |x - k.v j l| ≤ 1 / 2 ^ 31 := by
  have hJ := j_max_eq h1 (lam := 4) (by norm_num)
  refine C120_accuracy hm (TopScale.of_j_max h1 (by norm_num) hJ) h2 (((j_max_spec h1 (by norm_num) hJ).2.2 24 ?_).trans (by norm_num))
  have : (L : ℝ) ≤ ((2 ^ 48 : ℤ) : ℝ) := by exact_mod_cast h2
  refine this.trans (le_of_eq ?_)
  norm_num

/-- **C120** at the band-limits where `lam = 3` has gone wrong, `lam = 4` has not: with the same library, for every band-limit from
795 to 2^48, no array of finite numbers comes out for 3 and one does for 4 -/
theorem C120_contrast (hm : m.Ok) (h1 : 795 ≤ L) (h2 : L ≤ 2 ^ 48) :
    (¬ ∃ k, k_lam64 m j_max L 3 300 = .ok k ∧ ∀ j l, (k.v j l).Finite) ∧
      ∃ k, k_lam64 m j_max L 4 300 = .ok k ∧ ∀ j l, (k.v j l).Finite := by
  constructor
  · rintro ⟨k, hk, hf⟩
    have hT := TopScale.of_j_max (show 1 ≤ L by omega) (lam := 3) (by norm_num) (j_max_eq (by omega) (by norm_num))
    exact C99_lam_three hm hT h1 hk (hf 7 794)
  · obtain ⟨k64, _, hk, _, _, _, hv⟩ := C120_default hm (by omega) h2
    exact ⟨k64, hk, fun j l => (hv j l).imp fun x hx => hx.1⟩

/-- the hypotheses are met by an actual call, in which the rules of `C120_exact` and the quadrature all occur -/
example : ∃ k, k_lam64 Libm.exact j_max 1000 4 300 = .ok k ∧ k.v 4 64 = .fin 1 ∧ k.v 4 256 = .fin 0 ∧
    ∃ x : ℝ, k.v 4 100 = .fin x ∧ |x - quad 4 300 (100 / 256) / quad 4 300 (1 / 4)| ≤ 1 / 2 ^ 31 := by
  have hJ := j_max_eq (L := 1000) (by norm_num) (lam := 4) (by norm_num)
  have hT := TopScale.of_j_max (by norm_num) (by norm_num) hJ
  have hJ5 := (j_max_spec (by norm_num) (by norm_num) hJ).2.2 5 (by norm_num)
  have hJ4 : 4 < ⌈Real.log ((1000 : ℤ) : ℝ) / Real.log 4⌉ := by
    refine zpow_lt_of (lam := 4) (by norm_num) ?_
    have h1 := hT.hLJ
    have h3 : (4 : ℝ) ^ (4 : ℤ) = 256 := by norm_num
    have h4 : ((1000 : ℤ) : ℝ) = 1000 := by norm_num
    rw [h3]; rw [h4] at h1 ⊢; linarith
  obtain ⟨k64, k, hk, hk', -, -, hv⟩ := C120_accuracy Libm.exact_ok hT (by norm_num) (by omega)
  refine ⟨k64, hk, ?_, ?_, ?_⟩
  · exact (C120_exact Libm.exact_ok hT (by norm_num) (by omega) hk (by norm_num) (by omega) (by norm_num) (by norm_num)).1 (by norm_num)
  · exact (C120_exact Libm.exact_ok hT (by norm_num) (by omega) hk (by norm_num) (by omega) (by norm_num) (by norm_num)).2 (by norm_num)
  · obtain ⟨x, hx, -, ha⟩ := hv 4 100
    refine ⟨x, hx, ?_⟩
    rw [k_lam_ok hT (by norm_num)] at hk'
    cases hk'
    rw [Arr2.of_v _ _ _ _ _ ⟨by norm_num, by omega, by norm_num, by norm_num⟩] at ha
    unfold kval at ha
    norm_num at ha ⊢
    exact ha

end S2wav
