import Verif.Lemmas.QuadEight2
import Verif.Props.RoundedFour
import Verif.Props.RoundingOther

/-! # C123: the generating function in double precision with `lam = 8`

As with `lam = 2` (C98) and `lam = 4` (C120), the quotients `l / 8^j` are doubles and the result is accurate at every band-limit up to
2^48.  With C99 and C122 this settles which integers up to 10 can be used at large band-limits: the powers of two and no other. -/

namespace S2wav
open Classical

variable {m : Libm} {jm : JMax} {L J : ℤ}

/-- **C123** for `lam = 8` and every band-limit up to 2^48, `k_lam` in double precision raises no exception, produces neither
infinities nor NaN, and every entry is non-negative and within 2^-31 (about 4.7e-10) of the entry computed in exact
arithmetic. -/
theorem C123_accuracy (hm : m.Ok) (hT : TopScale jm L 8 J) (hL : L ≤ 2 ^ 48) (hJ : J ≤ 338) :
    ∃ k64 k, k_lam64 m jm L 8 300 = .ok k64 ∧ k_lam jm L 8 300 = .ok k ∧ k64.r = k.r ∧ k64.c = k.c ∧
      ∀ j l, ∃ x : ℝ, k64.v j l = .fin x ∧ 0 ≤ x ∧ |x - k.v j l| ≤ 1 / 2 ^ 31 := by
  obtain ⟨X, hX, hX'⟩ := k_lam64_eight hm hT.hJ hT.hL hL hT.hJ0 hJ
  refine ⟨_, _, hX, k_lam_ok hT (by norm_num), rfl, rfl, fun j l => ?_⟩
  by_cases hr : 0 ≤ j ∧ j < J + 2 ∧ 0 ≤ l ∧ l < L
  · obtain ⟨h1, h2, -⟩ := hX' j l hr.1 hr.2.1 hr.2.2.1 hr.2.2.2
    refine ⟨X j l, ?_, h1, ?_⟩
    · change ite _ _ _ = _; rw [if_pos hr]
    · change |_ - ite _ _ _| ≤ _; rw [if_pos hr]; exact h2
  · refine ⟨0, ?_, le_rfl, ?_⟩
    · change ite _ _ _ = _; rw [if_neg hr]; rfl
    · change |_ - ite _ _ _| ≤ _; rw [if_neg hr]; norm_num

/-- **C123** outside the transition band the entries are exactly 1 and 0 -/
theorem C123_exact (hm : m.Ok) (hT : TopScale jm L 8 J) (hL : L ≤ 2 ^ 48) (hJ : J ≤ 338) {k64 : Arr2 F64}
    (hk : k_lam64 m jm L 8 300 = .ok k64) {j l : ℤ} (hj0 : 0 ≤ j) (hj1 : j < J + 2) (hl0 : 0 ≤ l) (hl1 : l < L) :
    ((l : ℝ) ≤ 8 ^ (j - 1) → k64.v j l = .fin 1) ∧ ((8 : ℝ) ^ j ≤ l → k64.v j l = .fin 0) := by
  obtain ⟨X, hX, hX'⟩ := k_lam64_eight hm hT.hJ hT.hL hL hT.hJ0 hJ
  rw [hX] at hk
  cases hk
  obtain ⟨-, -, h1, h2⟩ := hX' j l hj0 hj1 hl0 hl1
  constructor <;> intro h <;> (change ite _ _ _ = _; rw [if_pos ⟨hj0, hj1, hl0, hl1⟩])
  · rw [h1 h]
  · rw [h2 h]

/-- **C123** in particular with the exact top scale, for every band-limit up to 2^48 -/
theorem C123_default (hm : m.Ok) (h1 : 1 ≤ L) (h2 : L ≤ 2 ^ 48) :
    ∃ k64 k, k_lam64 m j_max L 8 300 = .ok k64 ∧ k_lam j_max L 8 300 = .ok k ∧ k64.r = k.r ∧ k64.c = k.c ∧
      ∀ j l, ∃ x : ℝ, k64.v j l = .fin x ∧ 0 ≤ x ∧ |x - k.v j l| ≤ 1 / 2 ^ 31 := by
  have hJ := j_max_eq h1 (lam := 8) (by norm_num)
  refine C123_accuracy hm (TopScale.of_j_max h1 (by norm_num) hJ) h2 (((j_max_spec h1 (by norm_num) hJ).2.2 16 ?_).trans (by norm_num))
  have : (L : ℝ) ≤ ((2 ^ 48 : ℤ) : ℝ) := by exact_mod_cast h2
  refine this.trans (le_of_eq ?_)
  norm_num

/-- an array of finite numbers comes out -/
def FiniteResult (m : Libm) (L : ℤ) (lam : ℝ) : Prop := ∃ k, k_lam64 m j_max L lam 300 = .ok k ∧ ∀ j l, (k.v j l).Finite

/-- **C123** which integers can be used: for every band-limit from 795 to 2^48, among the integers from 2 to 10 exactly the powers of two
give an array of finite numbers -/
theorem C123_which (hm : m.Ok) (h1 : 795 ≤ L) (h2 : L ≤ 2 ^ 48) {p : ℕ} (hp : 2 ≤ p) (hp' : p ≤ 10) :
    FiniteResult m L p ↔ p = 2 ∨ p = 4 ∨ p = 8 := by
  have hT : ∀ {lam : ℝ}, 1 < lam → TopScale j_max L lam ⌈Real.log (L : ℝ) / Real.log lam⌉ := fun h =>
    TopScale.of_j_max (by omega) h (j_max_eq (by omega) h)
  have hbad : ∀ {lam : ℝ}, 1 < lam → (lam = 5 ∨ lam = 3) → ¬ FiniteResult m L lam := fun h h' =>
    C99_never_finite hm (hT h) (h'.elim (fun e => .inl ⟨e, by omega⟩) fun e => .inr (.inl ⟨e, h1⟩))
  have hbad' : ∀ {lam : ℝ}, 1 < lam → (lam = 6 ∨ lam = 7 ∨ lam = 9 ∨ lam = 10) → ¬ FiniteResult m L lam := fun h h' =>
    C122_never_finite hm (hT h) (by
      rcases h' with e | e | e | e
      · exact .inl ⟨e, by omega⟩
      · exact .inr (.inl ⟨e, by omega⟩)
      · exact .inr (.inr (.inl ⟨e, by omega⟩))
      · exact .inr (.inr (.inr ⟨e, by omega⟩)))
  interval_cases p
  · obtain ⟨k, _, hk, _, _, _, hv⟩ := C98_default hm (L := L) (by omega) (by omega)
    simp only [Nat.cast_ofNat, true_or, iff_true]
    exact ⟨k, hk, fun j l => (hv j l).imp fun x hx => hx.1⟩
  · simpa using hbad (lam := 3) (by norm_num) (by norm_num)
  · obtain ⟨k, _, hk, _, _, _, hv⟩ := C120_default hm (L := L) (by omega) (by omega)
    simp only [Nat.cast_ofNat, true_or, or_true, iff_true]
    exact ⟨k, hk, fun j l => (hv j l).imp fun x hx => hx.1⟩
  · simpa using hbad (lam := 5) (by norm_num) (by norm_num)
  · simpa using hbad' (lam := 6) (by norm_num) (by norm_num)
  · simpa using hbad' (lam := 7) (by norm_num) (by norm_num)
  · obtain ⟨k, _, hk, _, _, _, hv⟩ := C123_default hm (L := L) (by omega) (by omega)
    simp only [Nat.cast_ofNat, or_true, iff_true]
    exact ⟨k, hk, fun j l => (hv j l).imp fun x hx => hx.1⟩
  · simpa using hbad' (lam := 9) (by norm_num) (by norm_num)
  · simpa using hbad' (lam := 10) (by norm_num) (by norm_num)

/-- and an actual call shows both sides of `C123_which` -/
example : FiniteResult Libm.exact 1000 8 ∧ ¬ FiniteResult Libm.exact 1000 7 := by
  constructor
  · simpa using (C123_which Libm.exact_ok (L := 1000) (by norm_num) (by norm_num) (p := 8) (by norm_num) (by norm_num)).2 (by norm_num)
  · simpa using mt (C123_which Libm.exact_ok (L := 1000) (by norm_num) (by norm_num) (p := 7) (by norm_num) (by norm_num)).1 (by norm_num)

/-- the hypotheses are met by an actual call, in which the rules of `C123_exact` and the quadrature all occur -/
example : ∃ k, k_lam64 Libm.exact j_max 1000 8 300 = .ok k ∧ k.v 3 64 = .fin 1 ∧ k.v 3 512 = .fin 0 ∧
    ∃ x : ℝ, k.v 3 100 = .fin x ∧ |x - quad 8 300 (100 / 512) / quad 8 300 (1 / 8)| ≤ 1 / 2 ^ 31 := by
  have hJ := j_max_eq (L := 1000) (by norm_num) (lam := 8) (by norm_num)
  have hT := TopScale.of_j_max (by norm_num) (by norm_num) hJ
  have hJ5 := (j_max_spec (by norm_num) (by norm_num) hJ).2.2 5 (by norm_num)
  have hJ4 : 3 < ⌈Real.log ((1000 : ℤ) : ℝ) / Real.log 8⌉ := by
    refine zpow_lt_of (lam := 8) (by norm_num) ?_
    have h1 := hT.hLJ
    have h3 : (8 : ℝ) ^ (3 : ℤ) = 512 := by norm_num
    have h4 : ((1000 : ℤ) : ℝ) = 1000 := by norm_num
    rw [h3]; rw [h4] at h1 ⊢; linarith
  obtain ⟨k64, k, hk, hk', -, -, hv⟩ := C123_accuracy Libm.exact_ok hT (by norm_num) (by omega)
  refine ⟨k64, hk, ?_, ?_, ?_⟩
  · exact (C123_exact Libm.exact_ok hT (by norm_num) (by omega) hk (by norm_num) (by omega) (by norm_num) (by norm_num)).1 (by norm_num)
  · exact (C123_exact Libm.exact_ok hT (by norm_num) (by omega) hk (by norm_num) (by omega) (by norm_num) (by norm_num)).2 (by norm_num)
  · obtain ⟨x, hx, -, ha⟩ := hv 3 100
    refine ⟨x, hx, ?_⟩
    rw [k_lam_ok hT (by norm_num)] at hk'
    cases hk'
    rw [Arr2.of_v _ _ _ _ _ ⟨by norm_num, by omega, by norm_num, by norm_num⟩] at ha
    unfold kval at ha
    norm_num at ha ⊢
    exact ha

end S2wav
