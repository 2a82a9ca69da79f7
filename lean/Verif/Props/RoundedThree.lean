import Verif.Lemmas.QuadThree2
import Verif.Props.Rounding

/-! # C118: the generating function in double precision with `lam = 3`

C99 shows that `k_lam` fails with `lam = 3` from band-limit 795 on.  Here the other half: up to band-limit 794 it is as good
as with the default `lam = 2`, so the threshold is exact. -/

namespace S2wav
open Classical

variable {m : Libm} {jm : JMax} {L J : ℤ}

/-- what is asked of the C library beyond `Libm.Ok`: the power 3^-1, which no double equals, is computed to be a number in (0, 1] -/
def Libm.Third (m : Libm) : Prop := ∃ y, m.pow 3 (-1) = .fin y ∧ 0 < y ∧ y ≤ 1

/-- **C118** for `lam = 3` and every band-limit up to 794, `k_lam` in double precision raises no exception, produces neither
infinities nor NaN, and every entry is non-negative and within 2^-31 (about 4.7e-10) of the entry computed in exact
arithmetic. -/
theorem C118_accuracy (hm : m.Ok) (hp : m.Third) (hT : TopScale jm L 3 J) (hL : L ≤ 794) (hJ : J ≤ 32) :
    ∃ k64 k, k_lam64 m jm L 3 300 = .ok k64 ∧ k_lam jm L 3 300 = .ok k ∧ k64.r = k.r ∧ k64.c = k.c ∧
      ∀ j l, ∃ x : ℝ, k64.v j l = .fin x ∧ 0 ≤ x ∧ |x - k.v j l| ≤ 1 / 2 ^ 31 := by
  obtain ⟨X, hX, hX'⟩ := k_lam64_three hm hp hT.hJ hT.hL hL hT.hJ0 hJ
  refine ⟨_, _, hX, k_lam_ok hT (by norm_num), rfl, rfl, fun j l => ?_⟩
  by_cases hr : 0 ≤ j ∧ j < J + 2 ∧ 0 ≤ l ∧ l < L
  · obtain ⟨h1, h2, -⟩ := hX' j l hr.1 hr.2.1 hr.2.2.1 hr.2.2.2
    refine ⟨X j l, ?_, h1, ?_⟩
    · change ite _ _ _ = _; rw [if_pos hr]
    · change |_ - ite _ _ _| ≤ _; rw [if_pos hr]; exact h2
  · refine ⟨0, ?_, le_rfl, ?_⟩
    · change ite _ _ _ = _; rw [if_neg hr]; rfl
    · change |_ - ite _ _ _| ≤ _; rw [if_neg hr]; norm_num

/-- **C118** outside the transition band the entries are exactly 1 and 0, although 1/3 is not a double -/
theorem C118_exact (hm : m.Ok) (hp : m.Third) (hT : TopScale jm L 3 J) (hL : L ≤ 794) (hJ : J ≤ 32) {k64 : Arr2 F64}
    (hk : k_lam64 m jm L 3 300 = .ok k64) {j l : ℤ} (hj0 : 0 ≤ j) (hj1 : j < J + 2) (hl0 : 0 ≤ l) (hl1 : l < L) :
    ((l : ℝ) ≤ 3 ^ (j - 1) → k64.v j l = .fin 1) ∧ ((3 : ℝ) ^ j ≤ l → k64.v j l = .fin 0) := by
  obtain ⟨X, hX, hX'⟩ := k_lam64_three hm hp hT.hJ hT.hL hL hT.hJ0 hJ
  rw [hX] at hk
  cases hk
  obtain ⟨-, -, h1, h2⟩ := hX' j l hj0 hj1 hl0 hl1
  constructor <;> intro h <;> (change ite _ _ _ = _; rw [if_pos ⟨hj0, hj1, hl0, hl1⟩])
  · rw [h1 h]
  · rw [h2 h]

/-- **C118** the threshold of C99 is exact: the call returns an array of finite numbers if and only if the band-limit is at
most 794 -/
theorem C118_sharp (hm : m.Ok) (hp : m.Third) (hT : TopScale jm L 3 J) (hJ : J ≤ 32) :
    (∃ k, k_lam64 m jm L 3 300 = .ok k ∧ ∀ j l, (k.v j l).Finite) ↔ L ≤ 794 := by
  constructor
  · rintro ⟨k, hk, hf⟩
    by_contra h
    exact C99_lam_three hm hT (by omega) hk (hf 7 794)
  · intro h
    obtain ⟨k64, _, hk, _, _, _, hv⟩ := C118_accuracy hm hp hT h hJ
    exact ⟨k64, hk, fun j l => (hv j l).imp fun x hx => hx.1⟩

/-- **C118** beyond the threshold the entry `k[7, 794]` of a call that returns is plus infinity, while the entry of the scale below is 0 -/
theorem C118_infinite (hm : m.Ok) (hT : TopScale jm L 3 J) (hL : 795 ≤ L) {k : Arr2 F64} (hk : k_lam64 m jm L 3 300 = .ok k) :
    k.r = J + 2 ∧ k.c = L ∧ 6 < J ∧ k.v 7 794 = .inf ∧ k.v 6 794 = .fin 0 := by
  have hJ6 : 6 < J := by
    refine zpow_lt_of (lam := 3) (by norm_num) ?_
    have h1 := hT.hLJ
    have h2 : (795 : ℝ) ≤ L := by exact_mod_cast hL
    have h3 : (3 : ℝ) ^ (6 : ℤ) = 729 := by norm_num
    rw [h3]; linarith
  obtain ⟨inv, norm, hinv, hnorm, hr, hc, hent⟩ := k_lam64_shape hT.hJ hk
  refine ⟨hr, hc, hJ6, ?_, ?_⟩
  · have he := hent 7 794 (by norm_num) (by omega) (by norm_num) (by omega)
    rw [inv_three64] at hinv
    cases hinv
    obtain ⟨N, hN, hN0, hNa⟩ := part_three64 hm low3_third
    rw [hN] at hnorm
    cases hnorm
    unfold entry64 at he
    rw [show (7 : ℤ) - 1 = 6 by norm_num, pow64 hm (lam := 3) (n := 6) (k := 729) (by norm_num) (by norm_num), Py.bind_ok,
      if_neg (by change ¬ ((794 : ℤ) : ℝ) < _; norm_num), pow64 hm (lam := 3) (n := 7) (k := 2187) (by norm_num) (by norm_num), Py.bind_ok,
      if_neg (by change ¬ ((794 : ℤ) : ℝ) > _; norm_num), F64.ofInt_eq (by norm_num), F64.pdiv_fin (by norm_num)] at he
    push_cast at he
    rw [F64.of_fin' (by rw [abs_of_pos] <;> norm_num), three_a, Py.bind_ok, Py.bind_eq_ok] at he
    obtain ⟨p, hp, he⟩ := he
    rw [three_bad hm hp] at he
    have he := (Except.ok.inj he).symm
    rw [he]
    change (if 0 ≤ N then F64.inf else F64.ninf) = _
    rw [if_pos hN0]
  · have he := hent 6 794 (by norm_num) (by omega) (by norm_num) (by omega)
    unfold entry64 at he
    rw [show (6 : ℤ) - 1 = 5 by norm_num, pow64 hm (lam := 3) (n := 5) (k := 243) (by norm_num) (by norm_num), Py.bind_ok,
      if_neg (by change ¬ ((794 : ℤ) : ℝ) < _; norm_num), pow64 hm (lam := 3) (n := 6) (k := 729) (by norm_num) (by norm_num), Py.bind_ok,
      if_pos (by change ((794 : ℤ) : ℝ) > _; norm_num)] at he
    exact (Except.ok.inj he).symm

/-- **C118** in particular with the exact top scale, for every band-limit up to 3^32 -/
theorem C118_default (hm : m.Ok) (hp : m.Third) (h1 : 1 ≤ L) (h2 : L ≤ 3 ^ 32) :
    (∃ k, k_lam64 m j_max L 3 300 = .ok k ∧ ∀ j l, (k.v j l).Finite) ↔ L ≤ 794 := by
  have hJ := j_max_eq h1 (lam := 3) (by norm_num)
  refine C118_sharp hm hp (TopScale.of_j_max h1 (by norm_num) hJ) ?_
  refine (j_max_spec h1 (by norm_num) hJ).2.2 32 ?_
  have : (L : ℝ) ≤ ((3 ^ 32 : ℤ) : ℝ) := by exact_mod_cast h2
  refine this.trans (le_of_eq ?_)
  norm_num

/-- a correctly rounding C library meets the extra condition -/
theorem Libm.exact_third : Libm.exact.Third := by
  have h : Libm.exact.pow 3 (-1) = .fin (rnd (1 / 3)) := by
    unfold Libm.exact
    simp only [zpow_neg_one]
    rw [← one_div, F64.of_fin' (by norm_num)]
  have ha := abs_le.1 (rnd_acc' (1 / 3))
  norm_num at ha
  exact ⟨_, h, by linarith, by linarith⟩

/-- the hypotheses are met by actual calls: the exact top scale and a correctly rounding C library, on either side of the
threshold -/
example : (∃ k, k_lam64 Libm.exact j_max 794 3 300 = .ok k ∧ ∀ j l, (k.v j l).Finite) ∧
    ¬ ∃ k, k_lam64 Libm.exact j_max 795 3 300 = .ok k ∧ ∀ j l, (k.v j l).Finite :=
  ⟨(C118_default Libm.exact_ok Libm.exact_third (by norm_num) (by norm_num)).2 (by norm_num),
    fun h => absurd ((C118_default Libm.exact_ok Libm.exact_third (by norm_num) (by norm_num)).1 h) (by norm_num)⟩

end S2wav
