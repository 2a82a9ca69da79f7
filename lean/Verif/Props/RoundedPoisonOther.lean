import Verif.Props.RoundedPoison
import Verif.Props.RoundingOther

/-! # C128: what the non-finite values of C122 do to an analysis

The counterpart of C124 for `lam = 6`, `7` and `10`.  C122 leaves open whether the entry of the generating function is an infinity of either sign or a NaN;
either way one of the two wavelets made from it is not finite. -/

namespace S2wav
open Classical

variable {m : Libm} {lg : F64 → F64} {jm : JMax} {L N J J_min spin : ℤ} {lam : ℝ} {k : Arr2 F64}

/-- one of the two differences with an entry that is not finite survives the maximum with 0 -/
theorem psiAny_either {x : F64} (h : ¬ x.Finite) : ¬ (psiAny x (.fin 0)).Finite ∨ ¬ (psiAny (.fin 1) x).Finite := by
  rcases F64.bad_cases h with rfl | rfl | rfl
  · left
    have e : F64.inf.sub (.fin 0) = .inf := rfl
    unfold psiAny
    rw [e, if_neg (show ¬ F64.isNeg .inf from id)]
    exact F64.inf_bad
  · right
    have e : (F64.fin 1).sub .ninf = .inf := rfl
    unfold psiAny
    rw [e, if_neg (show ¬ F64.isNeg .inf from id)]
    exact F64.inf_bad
  · right
    rw [psiAny_nan]
    exact F64.nan_bad

/-- a degree between `lam^j0` and `lam^(j0+1)` is among those that the scales `j0` and `j0 + 1` compute -/
theorem degree_used {j0 l0 j : ℤ} (hlam : 1 < lam) (hj0 : 0 ≤ j0) (h1 : lam ^ j0 ≤ l0) (h2 : (l0 : ℝ) < lam ^ (j0 + 1)) (hl : l0 < L)
    (hj : j = j0 ∨ j = j0 + 1) : l0 < (LN_j L j N lam true).1 ∧ (LN_j L j N lam true).2.2 ≤ l0 := by
  have hm : ∀ {a b : ℤ}, a ≤ b → lam ^ a ≤ lam ^ b := fun h => zpow_le_zpow_right₀ hlam.le h
  obtain ⟨i, hi, hi1, hi2, hi0⟩ : ∃ i, (if j = 0 then j + 1 else j) = i ∧ j0 ≤ i ∧ i - 1 ≤ j0 ∧ i ≠ 0 := by
    refine ⟨_, rfl, ?_⟩
    split_ifs <;> omega
  unfold LN_j wav_j_bandlimit L0_j
  simp only [hi, if_true, ne_eq, hi0, not_false_eq_true]
  refine ⟨lt_min (Int.lt_ceil.2 (h2.trans_le (hm (by omega)))) hl, Int.ceil_le.2 ((hm hi2).trans h1)⟩

/-- from an entry of the generating function that is not finite to the coefficients of any signal -/
theorem poisoned_either (hT : TopScale jm L lam J) (hlam : 1 < lam) (hN : 1 ≤ N) (hNL : N ≤ L) (hN' : N ≤ 990) (h0 : 0 ≤ J_min)
    (hk : k_lam64 m jm L lam 300 = .ok k) {j0 l0 : ℤ} (hj0 : J_min ≤ j0) (hj1 : j0 + 1 ≤ J) (hl1 : l0 < L) (hs : |spin| ≤ l0)
    (h1 : lam ^ j0 < l0) (h2 : (l0 : ℝ) < lam ^ (j0 + 1)) (hb : ¬ (k.v (j0 + 1) l0).Finite)
    (hz : k.v j0 l0 = .fin 0) (ho : k.v (j0 + 2) l0 = .fin 1) :
    ∃ psi phi, filters_directional_vectorised64 m lg jm L N J_min lam spin = .ok (psi, phi) ∧
      ∃ j, (j = j0 ∨ j = j0 + 1) ∧ (∀ c, 0 ≤ c → c < 2 * L - 1 → ¬ (psi.v j l0 c).re.Finite) ∧
      ∀ flm : Arr2 C64, flm.r = L → flm.c = 2 * L - 1 →
        ∃ W a, generate_and_apply_waveletsO Ops.ieee flm L N J_min J lam (some psi) = .ok W ∧ listGet W (j - J_min) = .ok a ∧
          0 < a.d ∧ 0 < a.c ∧ ∀ n o, 0 ≤ n → n < a.d → n % 2 = 0 → 0 ≤ o → o < a.c → ¬ (a.v n l0 o).re.Finite := by
  obtain ⟨j, hj, hb⟩ : ∃ j, (j = j0 ∨ j = j0 + 1) ∧ ¬ (psiAny (k.v (j + 1) l0) (k.v j l0)).Finite := by
    rcases psiAny_either hb with h | h
    · exact ⟨j0, Or.inl rfl, by rw [hz]; exact h⟩
    · exact ⟨j0 + 1, Or.inr rfl, by rw [show j0 + 1 + 1 = j0 + 2 by ring, ho]; exact h⟩
  obtain ⟨psi, phi, e1, e2, e3⟩ := poisoned (lg := lg) hT hlam hN hNL hN' h0 hk (by omega) (j0 := j) (by omega) (by omega) hl1 hs hb
  refine ⟨psi, phi, e1, j, hj, e2, fun flm a b => ?_⟩
  obtain ⟨W, w, f1, f2, f4, f5, f3⟩ := e3 flm a b
  obtain ⟨g1, g2⟩ := degree_used (N := N) hlam (h0.trans hj0) h1.le h2 hl1 hj
  exact ⟨W, w, f1, f2, f4, f5, f3 g1 g2⟩

/-- entries of the generating function below the first and beyond the last degree of a band -/
theorem k_lam64_zero (hm : m.Ok) (hJ : jm L lam = .ok J) (hk : k_lam64 m jm L lam 300 = .ok k) {j l : ℤ} (hj0 : 0 ≤ j) (hj1 : j < J + 2) (hl0 : 0 ≤ l) (hl1 : l < L)
    {y : ℝ} (hy : m.pyPow (.fin lam) (j - 1) = .ok (.fin y)) (hyl : y ≤ l) {p : ℕ} (hp : lam ^ j = p) (hp' : p ≤ 2 ^ 53) (h : (p : ℝ) < l) (hl : lam ≠ 0 := by norm_num) : k.v j l = .fin 0 := by
  obtain ⟨inv, norm, -, -, -, -, hent⟩ := k_lam64_shape hJ hk
  have he := hent j l hj0 hj1 hl0 hl1
  unfold entry64 at he
  rw [hy, Py.bind_ok, if_neg (by change ¬ ((l : ℤ) : ℝ) < _; linarith), pow64 hm (lam := lam) (n := j) (k := p) hp hp' hl, Py.bind_ok,
    if_pos (by change ((l : ℤ) : ℝ) > _; exact h)] at he
  exact (Except.ok.inj he).symm

theorem k_lam64_one (hm : m.Ok) (hJ : jm L lam = .ok J) (hk : k_lam64 m jm L lam 300 = .ok k) {j l : ℤ} (hj0 : 0 ≤ j) (hj1 : j < J + 2) (hl0 : 0 ≤ l) (hl1 : l < L)
    {p : ℕ} (hp : lam ^ (j - 1) = p) (hp' : p ≤ 2 ^ 53) (h : (l : ℝ) < p) (hl : lam ≠ 0 := by norm_num) : k.v j l = .fin 1 := by
  obtain ⟨inv, norm, -, -, -, -, hent⟩ := k_lam64_shape hJ hk
  have he := hent j l hj0 hj1 hl0 hl1
  unfold entry64 at he
  rw [pow64 hm (lam := lam) (n := j - 1) (k := p) hp hp' hl, Py.bind_ok, if_pos (by change ((l : ℤ) : ℝ) < _; exact h)] at he
  exact (Except.ok.inj he).symm

/-- **C128** `lam = 6`, every band-limit from 228 on, at scale 3 or 4 and degree 227: filters that are not finite, then coefficients that are not
finite for every signal, without an exception -/
theorem C128_lam_six (hm : m.Ok) (hT : TopScale jm L 6 J) (hL : 228 ≤ L) (hk : k_lam64 m jm L 6 300 = .ok k) (h0 : 0 ≤ J_min)
    (h1 : J_min ≤ 3) (hN : 1 ≤ N) (hNL : N ≤ L) (hN' : N ≤ 990) (hs : |spin| ≤ 227) :
    ∃ psi phi, filters_directional_vectorised64 m lg jm L N J_min 6 spin = .ok (psi, phi) ∧
      ∃ j, (j = 3 ∨ j = 4) ∧ (∀ c, 0 ≤ c → c < 2 * L - 1 → ¬ (psi.v j 227 c).re.Finite) ∧
      ∀ flm : Arr2 C64, flm.r = L → flm.c = 2 * L - 1 →
        ∃ W a, generate_and_apply_waveletsO Ops.ieee flm L N J_min J 6 (some psi) = .ok W ∧ listGet W (j - J_min) = .ok a ∧
          0 < a.d ∧ 0 < a.c ∧ ∀ n o, 0 ≤ n → n < a.d → n % 2 = 0 → 0 ≤ o → o < a.c → ¬ (a.v n 227 o).re.Finite := by
  have hJ : 3 < J := by
    refine zpow_lt_of (lam := 6) (by norm_num) ?_
    have h1 := hT.hLJ
    have h2 : (228 : ℝ) ≤ L := by exact_mod_cast hL
    have h3 : (6 : ℝ) ^ (3 : ℤ) = 216 := by norm_num
    rw [h3]; linarith
  have hy := pow64 hm (lam := 6) (n := 3 - 1) (k := 36) (by norm_num) (by norm_num)
  have hyl : ((36 : ℕ) : ℝ) ≤ ((227 : ℤ) : ℝ) := by norm_num
  have hz : k.v 3 227 = .fin 0 := k_lam64_zero hm hT.hJ hk (by norm_num) (by omega) (by norm_num) (by omega) hy hyl
    (p := 216) (by norm_num) (by norm_num) (by norm_num)
  have ho : k.v (3 + 2) 227 = .fin 1 := k_lam64_one hm hT.hJ hk (by norm_num) (by omega) (by norm_num) (by omega)
    (p := 1296) (by norm_num) (by norm_num) (by norm_num)
  exact poisoned_either hT (by norm_num) hN hNL hN' h0 hk h1 (by omega) (by omega) hs (by norm_num) (by norm_num)
    (C122_lam_six hm hT hL hk) hz ho

/-- **C128** `lam = 7`: the same for every band-limit from 9 on, at scale 1 or 2 and degree 8 -/
theorem C128_lam_seven (hm : m.Ok) (hT : TopScale jm L 7 J) (hL : 9 ≤ L) (hk : k_lam64 m jm L 7 300 = .ok k) (h0 : 0 ≤ J_min)
    (h1 : J_min ≤ 1) (hN : 1 ≤ N) (hNL : N ≤ L) (hN' : N ≤ 990) (hs : |spin| ≤ 8) :
    ∃ psi phi, filters_directional_vectorised64 m lg jm L N J_min 7 spin = .ok (psi, phi) ∧
      ∃ j, (j = 1 ∨ j = 2) ∧ (∀ c, 0 ≤ c → c < 2 * L - 1 → ¬ (psi.v j 8 c).re.Finite) ∧
      ∀ flm : Arr2 C64, flm.r = L → flm.c = 2 * L - 1 →
        ∃ W a, generate_and_apply_waveletsO Ops.ieee flm L N J_min J 7 (some psi) = .ok W ∧ listGet W (j - J_min) = .ok a ∧
          0 < a.d ∧ 0 < a.c ∧ ∀ n o, 0 ≤ n → n < a.d → n % 2 = 0 → 0 ≤ o → o < a.c → ¬ (a.v n 8 o).re.Finite := by
  have hJ : 1 < J := by
    refine zpow_lt_of (lam := 7) (by norm_num) ?_
    have h1 := hT.hLJ
    have h2 : (9 : ℝ) ≤ L := by exact_mod_cast hL
    have h3 : (7 : ℝ) ^ (1 : ℤ) = 7 := by norm_num
    rw [h3]; linarith
  have hy := pow64 hm (lam := 7) (n := 1 - 1) (k := 1) (by norm_num) (by norm_num)
  have hyl : ((1 : ℕ) : ℝ) ≤ ((8 : ℤ) : ℝ) := by norm_num
  have hz : k.v 1 8 = .fin 0 := k_lam64_zero hm hT.hJ hk (by norm_num) (by omega) (by norm_num) (by omega) hy hyl
    (p := 7) (by norm_num) (by norm_num) (by norm_num)
  have ho : k.v (1 + 2) 8 = .fin 1 := k_lam64_one hm hT.hJ hk (by norm_num) (by omega) (by norm_num) (by omega)
    (p := 49) (by norm_num) (by norm_num) (by norm_num)
  exact poisoned_either hT (by norm_num) hN hNL hN' h0 hk h1 (by omega) (by omega) hs (by norm_num) (by norm_num)
    (C122_lam_seven hm hT hL hk) hz ho

/-- **C128** `lam = 10`: the same for every band-limit from 3 on, at scale 0 or 1 and degree 2 -/
theorem C128_lam_ten (hm : m.Ok) (hp : m.Tenth) (hT : TopScale jm L 10 J) (hL : 3 ≤ L) (hk : k_lam64 m jm L 10 300 = .ok k) (h0 : 0 ≤ J_min)
    (h1 : J_min ≤ 0) (hN : 1 ≤ N) (hNL : N ≤ L) (hN' : N ≤ 990) (hs : |spin| ≤ 2) :
    ∃ psi phi, filters_directional_vectorised64 m lg jm L N J_min 10 spin = .ok (psi, phi) ∧
      ∃ j, (j = 0 ∨ j = 1) ∧ (∀ c, 0 ≤ c → c < 2 * L - 1 → ¬ (psi.v j 2 c).re.Finite) ∧
      ∀ flm : Arr2 C64, flm.r = L → flm.c = 2 * L - 1 →
        ∃ W a, generate_and_apply_waveletsO Ops.ieee flm L N J_min J 10 (some psi) = .ok W ∧ listGet W (j - J_min) = .ok a ∧
          0 < a.d ∧ 0 < a.c ∧ ∀ n o, 0 ≤ n → n < a.d → n % 2 = 0 → 0 ≤ o → o < a.c → ¬ (a.v n 2 o).re.Finite := by
  have hJ : 0 < J := by
    refine zpow_lt_of (lam := 10) (by norm_num) ?_
    have h1 := hT.hLJ
    have h2 : (3 : ℝ) ≤ L := by exact_mod_cast hL
    have h3 : (10 : ℝ) ^ (0 : ℤ) = 1 := by norm_num
    rw [h3]; linarith
  obtain ⟨y, hy, hy0, hy1⟩ := hp
  have hyl : y ≤ ((2 : ℤ) : ℝ) := by push_cast; linarith
  replace hy : m.pyPow (.fin 10) (0 - 1) = .ok (.fin y) := Libm.pyPow_fin hy
  have hz : k.v 0 2 = .fin 0 := k_lam64_zero hm hT.hJ hk (by norm_num) (by omega) (by norm_num) (by omega) hy hyl
    (p := 1) (by norm_num) (by norm_num) (by norm_num)
  have ho : k.v (0 + 2) 2 = .fin 1 := k_lam64_one hm hT.hJ hk (by norm_num) (by omega) (by norm_num) (by omega)
    (p := 10) (by norm_num) (by norm_num) (by norm_num)
  exact poisoned_either hT (by norm_num) hN hNL hN' h0 hk h1 (by omega) (by omega) hs (by norm_num) (by norm_num)
    (C122_lam_ten hm hT hL hk) hz ho

/-- a call that does all this: `lam = 10`, `L = 3`, two directions, spin 1, and any signal, for instance the zero signal -/
example : ∃ psi phi, filters_directional_vectorised64 Libm.exact lgExact j_max 3 2 0 10 1 = .ok (psi, phi) ∧
    ∀ flm : Arr2 C64, flm.r = 3 → flm.c = 5 →
      ∃ J W j a, generate_and_apply_waveletsO Ops.ieee flm 3 2 0 J 10 (some psi) = .ok W ∧ listGet W j = .ok a ∧ ¬ (a.v 0 2 0).re.Finite := by
  have hJ := j_max_eq (L := 3) (by norm_num) (lam := 10) (by norm_num)
  have hT := TopScale.of_j_max (by norm_num) (by norm_num) hJ
  have hJ1 := (j_max_spec (by norm_num) (by norm_num) hJ).2.2 1 (by norm_num)
  obtain ⟨k, hk, -⟩ := C122_returns Libm.exact_ok Libm.exact_tenth hT (by omega)
  obtain ⟨psi, phi, e1, j, -, -, e3⟩ := C128_lam_ten (lg := lgExact) (N := 2) (spin := 1) Libm.exact_ok Libm.exact_tenth hT le_rfl hk le_rfl le_rfl
    (by norm_num) (by norm_num) (by norm_num) (by norm_num)
  refine ⟨psi, phi, e1, fun flm hr hc => ?_⟩
  obtain ⟨W, a, f1, f2, f3, f4, f5⟩ := e3 flm hr (by rw [hc]; norm_num)
  exact ⟨_, W, _, a, f1, f2, f5 0 0 le_rfl f3 rfl le_rfl f4⟩

end S2wav
