import Verif.Lemmas.LibmExact
import Verif.Lemmas.QuadFloat4
import Verif.Lemmas.FloatBad
import Verif.Lemmas.FloatCert
import Verif.Props.Dyadic

/-! # C98, C99: the generating function in double precision

Every other property treats floats as real numbers.  Here `k_lam` is executed in IEEE double precision
(`Model/Ieee.lean`): with the default `lam = 2` it stays close to the exact function for every band-limit (C98); with
`lam = 3`, `5` or `10` rounding pushes an abscissa of the trapezium rule onto or past the end point 1, where the
integrand overflows or divides by zero (C99). -/

namespace S2wav
open Classical

variable {m : Libm} {jm : JMax} {L J : ℤ}

/-- **C98** for `lam = 2` and every band-limit up to 2^53, `k_lam` in double precision raises no exception, produces neither
infinities nor NaN, and every entry is non-negative and within 2^-33 (about 1.2e-10) of the entry computed in exact
arithmetic. -/
theorem C98_accuracy (hm : m.Ok) (hT : TopScale jm L 2 J) (hL : L ≤ 2 ^ 53) (hJ : J ≤ 1000) :
    ∃ k64 k, k_lam64 m jm L 2 300 = .ok k64 ∧ k_lam jm L 2 300 = .ok k ∧ k64.r = k.r ∧ k64.c = k.c ∧
      ∀ j l, ∃ x : ℝ, k64.v j l = .fin x ∧ 0 ≤ x ∧ |x - k.v j l| ≤ 1 / 2 ^ 33 := by
  obtain ⟨X, hX, hX'⟩ := k_lam64_two hm hT.hJ hT.hL hL hT.hJ0 hJ
  refine ⟨_, _, hX, k_lam_ok hT (by norm_num), rfl, rfl, fun j l => ?_⟩
  by_cases hr : 0 ≤ j ∧ j < J + 2 ∧ 0 ≤ l ∧ l < L
  · obtain ⟨h1, h2, -⟩ := hX' j l hr.1 hr.2.1 hr.2.2.1 hr.2.2.2
    refine ⟨X j l, ?_, h1, ?_⟩
    · change ite _ _ _ = _; rw [if_pos hr]
    · change |_ - ite _ _ _| ≤ _; rw [if_pos hr]; exact h2
  · refine ⟨0, ?_, le_rfl, ?_⟩
    · change ite _ _ _ = _; rw [if_neg hr]; rfl
    · change |_ - ite _ _ _| ≤ _; rw [if_neg hr]; norm_num

/-- **C98** outside the transition band the entries are exactly 1 and 0 -/
theorem C98_exact (hm : m.Ok) (hT : TopScale jm L 2 J) (hL : L ≤ 2 ^ 53) (hJ : J ≤ 1000) {k64 : Arr2 F64}
    (hk : k_lam64 m jm L 2 300 = .ok k64) {j l : ℤ} (hj0 : 0 ≤ j) (hj1 : j < J + 2) (hl0 : 0 ≤ l) (hl1 : l < L) :
    ((l : ℝ) ≤ 2 ^ (j - 1) → k64.v j l = .fin 1) ∧ ((2 : ℝ) ^ j ≤ l → k64.v j l = .fin 0) := by
  obtain ⟨X, hX, hX'⟩ := k_lam64_two hm hT.hJ hT.hL hL hT.hJ0 hJ
  rw [hX] at hk
  cases hk
  obtain ⟨-, -, h1, h2⟩ := hX' j l hj0 hj1 hl0 hl1
  constructor <;> intro h <;> (change ite _ _ _ = _; rw [if_pos ⟨hj0, hj1, hl0, hl1⟩])
  · rw [h1 h]
  · rw [h2 h]

/-- **C98** in particular with the exact top scale, whatever the band-limit up to 2^53 -/
theorem C98_default (hm : m.Ok) (h1 : 1 ≤ L) (h2 : L ≤ 2 ^ 53) :
    ∃ k64 k, k_lam64 m j_max L 2 300 = .ok k64 ∧ k_lam j_max L 2 300 = .ok k ∧ k64.r = k.r ∧ k64.c = k.c ∧
      ∀ j l, ∃ x : ℝ, k64.v j l = .fin x ∧ 0 ≤ x ∧ |x - k.v j l| ≤ 1 / 2 ^ 33 := by
  have hJ := j_max_eq h1 (lam := 2) (by norm_num)
  refine C98_accuracy hm (TopScale.of_j_max h1 (by norm_num) hJ) h2 ?_
  refine ((j_max_spec h1 (by norm_num) hJ).2.2 53 ?_).trans (by norm_num)
  have : (L : ℝ) ≤ ((2 ^ 53 : ℤ) : ℝ) := by exact_mod_cast h2
  refine this.trans (le_of_eq ?_)
  norm_num

/-- the hypotheses are met by the default call with a correctly rounding C library -/
example : ∃ k64 k, k_lam64 Libm.exact j_max 64 2 300 = .ok k64 ∧ k_lam j_max 64 2 300 = .ok k ∧ k64.r = k.r ∧ k64.c = k.c ∧
    ∀ j l, ∃ x : ℝ, k64.v j l = .fin x ∧ 0 ≤ x ∧ |x - k.v j l| ≤ 1 / 2 ^ 33 :=
  C98_default Libm.exact_ok (by norm_num) (by norm_num)

/-! ### C99 -/

theorem zpow_lt_of {lam : ℝ} (hlam : 1 < lam) {J n : ℤ} (h : lam ^ n < lam ^ J) : n < J := (zpow_lt_zpow_iff_right₀ hlam).1 h

theorem inv64 {lam v : ℝ} (h0 : lam ≠ 0) (h1 : |1 / lam| ≤ 4) (h : rnd (1 / lam) = v) : F64.pdiv (.fin 1) (.fin lam) = .ok (.fin v) := by
  rw [F64.pdiv_fin h0, F64.of_fin' (h1.trans (by norm_num)), h]

theorem slope64 {lam c : ℝ} (h1 : Rep (2 * lam)) (h2 : Rep (lam - 1)) (h3 : |2 * lam| ≤ 100) (h4 : |lam - 1| ≤ 100) (h0 : lam - 1 ≠ 0)
    (h5 : |2 * lam / (lam - 1)| ≤ 4) (h : rnd (2 * lam / (lam - 1)) = c) :
    F64.pdiv ((F64.fin 2).mul (.fin lam)) ((F64.fin lam).sub (.fin 1)) = .ok (.fin c) := by
  rw [F64.mul_fin, F64.sub_fin, F64.of_rep h1 (h3.trans (by norm_num)), F64.of_rep h2 (h4.trans (by norm_num)),
    F64.pdiv_fin h0, F64.of_fin' (h5.trans (by norm_num)), h]

theorem rep_nat (n : ℕ) (h : n ≤ 2 ^ 53) : Rep (n : ℝ) := by
  have := rep_int (n := (n : ℤ)) (by rw [Nat.abs_cast]; exact_mod_cast h)
  push_cast at this; exact this

theorem pow64 {m : Libm} (hm : m.Ok) {lam : ℝ} {n : ℤ} {k : ℕ} (h : lam ^ n = k) (hk : k ≤ 2 ^ 53) (h0 : lam ≠ 0 := by norm_num) : m.pyPow (.fin lam) n = .ok (.fin k) := by
  have hk' : (k : ℝ) ≤ 2 ^ 53 := by exact_mod_cast hk
  have := hm.pow_exact lam n h0 (by rw [h]; exact rep_nat k hk) (by
    rw [h, abs_of_nonneg (by positivity)]
    refine hk'.trans_lt ?_
    have : (2 : ℝ) ^ (54 : ℤ) ≤ 2 ^ (1024 : ℤ) := zpow_le_zpow_right₀ (by norm_num) (by norm_num)
    refine lt_of_lt_of_le ?_ this
    norm_num)
  rw [h] at this
  exact Libm.pyPow_fin this

theorem five_bad (hm : m.Ok) {r : F64}
    (hr : part_scaling_fn64 m (.fin (3602879701896397 / 18014398509481984)) (.fin 1) 300 (.fin 5) = .ok r) : r = .inf := by
  have hinv := inv64 (lam := 5) (by norm_num) (by rw [abs_of_pos] <;> norm_num) five_inv
  have hq := slope64 (lam := 5) (c := 5 / 2) (by have := rep_nat 10 (by norm_num); norm_num at this ⊢; exact this)
    (by have := rep_nat 4 (by norm_num); norm_num at this ⊢; exact this)
    (by rw [abs_of_pos] <;> norm_num) (by rw [abs_of_pos] <;> norm_num) (by norm_num) (by rw [abs_of_pos] <;> norm_num)
    (by have := five_c; norm_num at this ⊢; exact this)
  have ha : Rep (3602879701896397 / 18014398509481984 : ℝ) := by rw [← five_inv]; exact rep_rnd _
  refine (part_bad hm hinv hq five_d five_h five_p five_x five_u five_w five_s ha ?_ ?_ ?_ ?_ ?_ ?_ ?_ ?_ ?_ ?_ ?_ ?_ ?_ ?_ ?_ ?_ hr).2 ?_ ?_
  all_goals norm_num [abs_of_pos]

theorem three_bad (hm : m.Ok) {r : F64}
    (hr : part_scaling_fn64 m (.fin (6540206866268265 / 18014398509481984)) (.fin 1) 300 (.fin 3) = .ok r) : r = .inf := by
  have hinv := inv64 (lam := 3) (by norm_num) (by rw [abs_of_pos] <;> norm_num) three_inv
  have hq := slope64 (lam := 3) (c := 3) (by have := rep_nat 6 (by norm_num); norm_num at this ⊢; exact this)
    (by have := rep_nat 2 (by norm_num); norm_num at this ⊢; exact this)
    (by rw [abs_of_pos] <;> norm_num) (by rw [abs_of_pos] <;> norm_num) (by norm_num) (by rw [abs_of_pos] <;> norm_num)
    (by have := three_c; norm_num at this ⊢; exact this)
  have ha : Rep (6540206866268265 / 18014398509481984 : ℝ) := by rw [← three_a]; exact rep_rnd _
  refine (part_bad hm hinv hq three_d three_h three_p three_x three_u three_w three_s ha ?_ ?_ ?_ ?_ ?_ ?_ ?_ ?_ ?_ ?_ ?_ ?_ ?_ ?_ ?_ ?_ hr).2 ?_ ?_
  all_goals norm_num [abs_of_pos]

theorem ten_bad (hm : m.Ok) {r : F64}
    (hr : part_scaling_fn64 m (.fin (7926335344172073 / 72057594037927936)) (.fin 1) 300 (.fin 10) = .ok r) : False := by
  have hinv := inv64 (lam := 10) (by norm_num) (by rw [abs_of_pos] <;> norm_num) ten_inv
  have hq := slope64 (lam := 10) (c := 2501999792983609 / 1125899906842624)
    (by have := rep_nat 20 (by norm_num); norm_num at this ⊢; exact this)
    (by have := rep_nat 9 (by norm_num); norm_num at this ⊢; exact this)
    (by rw [abs_of_pos] <;> norm_num) (by rw [abs_of_pos] <;> norm_num) (by norm_num) (by rw [abs_of_pos] <;> norm_num)
    (by have := ten_c; norm_num at this ⊢; exact this)
  have ha : Rep (7926335344172073 / 72057594037927936 : ℝ) := by rw [← ten_a]; exact rep_rnd _
  refine (part_bad hm hinv hq ten_d ten_h ten_p ten_x ten_u ten_w ten_s ha ?_ ?_ ?_ ?_ ?_ ?_ ?_ ?_ ?_ ?_ ?_ ?_ ?_ ?_ ?_ ?_ hr).1 rfl
  all_goals norm_num [abs_of_pos]

/-- **C99** with `lam = 5` the entry `k[1, 1]` is NaN whatever the band-limit (unless an exception is raised): the
normalisation itself is infinite. -/
theorem C99_lam_five (hm : m.Ok) (hT : TopScale jm L 5 J) (hL : 2 ≤ L) {k : Arr2 F64}
    (hk : k_lam64 m jm L 5 300 = .ok k) : k.v 1 1 = .nan := by
  have hJ0 := hT.hJ0
  obtain ⟨inv, norm, hinv, hnorm, he⟩ := k_lam64_entry hT.hJ hk (j := 1) (l := 1) (by norm_num) (by omega) (by norm_num) (by omega)
  have hinv' := inv64 (lam := 5) (by norm_num) (by rw [abs_of_pos] <;> norm_num) five_inv
  rw [hinv'] at hinv
  cases hinv
  have hn := five_bad hm hnorm
  unfold entry64 at he
  rw [show (1 : ℤ) - 1 = 0 by norm_num, pow64 hm (lam := 5) (n := 0) (k := 1) (by norm_num) (by norm_num), Py.bind_ok,
    if_neg (by change ¬ ((1 : ℤ) : ℝ) < _; norm_num), pow64 hm (lam := 5) (n := 1) (k := 5) (by norm_num) (by norm_num), Py.bind_ok,
    if_neg (by change ¬ ((1 : ℤ) : ℝ) > _; norm_num), F64.ofInt_eq (by norm_num), F64.pdiv_fin (by norm_num)] at he
  push_cast at he
  rw [F64.of_fin' (by rw [abs_of_pos] <;> norm_num), five_inv, Py.bind_ok, Py.bind_eq_ok] at he
  obtain ⟨p, hp, he⟩ := he
  have hp' := five_bad hm hp
  rw [hp', hn] at he
  exact (Except.ok.inj he).symm

/-- **C99** with `lam = 3` the entry `k[7, 794]` is not a finite number, for every band-limit above 794. -/
theorem C99_lam_three (hm : m.Ok) (hT : TopScale jm L 3 J) (hL : 795 ≤ L) {k : Arr2 F64}
    (hk : k_lam64 m jm L 3 300 = .ok k) : ¬ (k.v 7 794).Finite := by
  have hJ6 : 6 < J := by
    refine zpow_lt_of (lam := 3) (by norm_num) ?_
    have h1 := hT.hLJ
    have h2 : (795 : ℝ) ≤ L := by exact_mod_cast hL
    have h3 : (3 : ℝ) ^ (6 : ℤ) = 729 := by norm_num
    rw [h3]; linarith
  obtain ⟨inv, norm, hinv, hnorm, he⟩ := k_lam64_entry hT.hJ hk (j := 7) (l := 794) (by norm_num) (by omega) (by norm_num) (by omega)
  unfold entry64 at he
  rw [show (7 : ℤ) - 1 = 6 by norm_num, pow64 hm (lam := 3) (n := 6) (k := 729) (by norm_num) (by norm_num), Py.bind_ok,
    if_neg (by change ¬ ((794 : ℤ) : ℝ) < _; norm_num), pow64 hm (lam := 3) (n := 7) (k := 2187) (by norm_num) (by norm_num), Py.bind_ok,
    if_neg (by change ¬ ((794 : ℤ) : ℝ) > _; norm_num), F64.ofInt_eq (by norm_num), F64.pdiv_fin (by norm_num)] at he
  push_cast at he
  rw [F64.of_fin' (by rw [abs_of_pos] <;> norm_num), three_a, Py.bind_ok, Py.bind_eq_ok] at he
  obtain ⟨p, hp, he⟩ := he
  have hp' := three_bad hm hp
  rw [hp'] at he
  have he := (Except.ok.inj he).symm
  rintro ⟨x, hx⟩
  rw [he] at hx
  rcases norm with y | _ | _ | _
  · change (if 0 ≤ y then F64.inf else F64.ninf) = _ at hx
    split_ifs at hx
  all_goals exact absurd hx (by simp [F64.div])

/-- **C99** with `lam = 10` no call with band-limit 12 or more returns: `k[2, 11]` divides by zero. -/
theorem C99_lam_ten (hm : m.Ok) (hT : TopScale jm L 10 J) (hL : 12 ≤ L) (k : Arr2 F64) : k_lam64 m jm L 10 300 ≠ .ok k := by
  intro hk
  have hJ1 : 1 < J := by
    refine zpow_lt_of (lam := 10) (by norm_num) ?_
    have h1 := hT.hLJ
    have h2 : (12 : ℝ) ≤ L := by exact_mod_cast hL
    rw [zpow_one]; linarith
  obtain ⟨inv, norm, hinv, hnorm, he⟩ := k_lam64_entry hT.hJ hk (j := 2) (l := 11) (by norm_num) (by omega) (by norm_num) (by omega)
  unfold entry64 at he
  rw [show (2 : ℤ) - 1 = 1 by norm_num, pow64 hm (lam := 10) (n := 1) (k := 10) (by norm_num) (by norm_num), Py.bind_ok,
    if_neg (by change ¬ ((11 : ℤ) : ℝ) < _; norm_num), pow64 hm (lam := 10) (n := 2) (k := 100) (by norm_num) (by norm_num), Py.bind_ok,
    if_neg (by change ¬ ((11 : ℤ) : ℝ) > _; norm_num), F64.ofInt_eq (by norm_num), F64.pdiv_fin (by norm_num)] at he
  push_cast at he
  rw [F64.of_fin' (by rw [abs_of_pos] <;> norm_num), ten_a, Py.bind_ok, Py.bind_eq_ok] at he
  obtain ⟨p, hp, he⟩ := he
  exact ten_bad hm hp

/-- **C99** in short: no such call returns an array of finite numbers -/
theorem C99_never_finite (hm : m.Ok) {lam : ℝ} (hT : TopScale jm L lam J)
    (h : lam = 5 ∧ 2 ≤ L ∨ lam = 3 ∧ 795 ≤ L ∨ lam = 10 ∧ 12 ≤ L) :
    ¬ ∃ k, k_lam64 m jm L lam 300 = .ok k ∧ ∀ j l, (k.v j l).Finite := by
  rintro ⟨k, hk, hf⟩
  rcases h with ⟨rfl, hL⟩ | ⟨rfl, hL⟩ | ⟨rfl, hL⟩
  · obtain ⟨x, hx⟩ := hf 1 1
    rw [C99_lam_five hm hT hL hk] at hx
    cases hx
  · exact C99_lam_three hm hT hL hk (hf 7 794)
  · exact C99_lam_ten hm hT hL k hk

/-- **C99** in exact arithmetic the same calls return numbers between 0 and 1, so the failure is due to rounding alone -/
theorem C99_rounding_alone {p : ℕ} (hp : p = 3 ∨ p = 5 ∨ p = 10) (h1 : 1 ≤ L) (h2 : L ≤ maxL p) :
    ∃ k, k_lam j_max L p 300 = .ok k ∧ ∀ j l, 0 ≤ k.v j l ∧ k.v j l ≤ 1 := by
  obtain ⟨k, hk, -, hb⟩ := C62_no_overshoot (by omega) (by omega) h1 h2
  exact ⟨k, hk, hb⟩

/-- the hypotheses are met by actual calls: the exact top scale, a correctly rounding C library and any large enough
band-limit; the exact routine returns there -/
example : (∀ k, k_lam64 Libm.exact j_max 64 5 300 = .ok k → k.v 1 1 = .nan) ∧
    (∀ k, k_lam64 Libm.exact j_max 1024 3 300 = .ok k → ¬ (k.v 7 794).Finite) ∧
    (∀ k, k_lam64 Libm.exact j_max 64 10 300 ≠ .ok k) ∧ ∃ k, k_lam j_max 64 ((10 : ℕ) : ℝ) 300 = .ok k :=
  ⟨fun _ => C99_lam_five Libm.exact_ok (TopScale.of_j_max (by norm_num) (by norm_num) (j_max_eq (by norm_num) (by norm_num))) (by norm_num),
    fun _ => C99_lam_three Libm.exact_ok (TopScale.of_j_max (by norm_num) (by norm_num) (j_max_eq (by norm_num) (by norm_num))) (by norm_num),
    C99_lam_ten Libm.exact_ok (TopScale.of_j_max (by norm_num) (by norm_num) (j_max_eq (by norm_num) (by norm_num))) (by norm_num),
    (C99_rounding_alone (p := 10) (by norm_num) (by norm_num) (by decide)).imp fun _ h => h.1⟩

end S2wav
