import Verif.Props.RoundedReturn
import Verif.Lemmas.FloatJax
import Verif.Lemmas.HarmOps

/-! # C124: what infinite and NaN filters do to an analysis

With `lam = 5` the generating function contains a NaN for every `L ≥ 2` (C99), with `lam = 3` an infinity for every `L ≥ 795` (C118).  Neither
raises an exception.  Here the values are followed through the filters into the analysis: every harmonic coefficient of
the degree concerned, of every signal, is infinite or NaN. -/

namespace S2wav
open Classical

variable {m : Libm} {lg : F64 → F64} {jm : JMax} {L N J J_min spin : ℤ} {lam : ℝ} {k : Arr2 F64}

/-! ### infinities and NaN stay -/

theorem F64.bad_cases {x : F64} (h : ¬ x.Finite) : x = .inf ∨ x = .ninf ∨ x = .nan := by
  rcases x with x | _ | _ | _
  · exact absurd ⟨x, rfl⟩ h
  all_goals simp

theorem F64.inf_bad : ¬ F64.inf.Finite := by rintro ⟨x, hx⟩; cases hx
theorem F64.ninf_bad : ¬ F64.ninf.Finite := by rintro ⟨x, hx⟩; cases hx
theorem F64.nan_bad : ¬ F64.nan.Finite := by rintro ⟨x, hx⟩; cases hx

theorem F64.infOf_bad (x : ℝ) : ¬ (F64.infOf x).Finite := by
  unfold F64.infOf
  split_ifs
  exacts [inf_bad, ninf_bad, nan_bad]

theorem F64.add_bad {x : F64} (h : ¬ x.Finite) (y : F64) : ¬ (x.add y).Finite := by
  rcases bad_cases h with rfl | rfl | rfl <;> rcases y with y | _ | _ | _ <;>
    first | exact inf_bad | exact ninf_bad | exact nan_bad

theorem F64.add_bad' {y : F64} (h : ¬ y.Finite) (x : F64) : ¬ (x.add y).Finite := by
  rcases bad_cases h with rfl | rfl | rfl <;> rcases x with x | _ | _ | _ <;>
    first | exact inf_bad | exact ninf_bad | exact nan_bad

theorem F64.sub_bad {x : F64} (h : ¬ x.Finite) (y : F64) : ¬ (x.sub y).Finite := add_bad h _

theorem F64.mul_bad {x : F64} (h : ¬ x.Finite) (y : F64) : ¬ (x.mul y).Finite := by
  rcases bad_cases h with rfl | rfl | rfl <;> rcases y with y | _ | _ | _ <;>
    first | exact infOf_bad _ | exact inf_bad | exact ninf_bad | exact nan_bad

theorem F64.mul_bad' {y : F64} (h : ¬ y.Finite) (x : F64) : ¬ (x.mul y).Finite := by
  rcases bad_cases h with rfl | rfl | rfl <;> rcases x with x | _ | _ | _ <;>
    first | exact infOf_bad _ | exact inf_bad | exact ninf_bad | exact nan_bad

theorem C64.mul_bad {x : C64} (h : ¬ x.re.Finite) (y : C64) : ¬ (x.mul y).re.Finite := F64.sub_bad (F64.mul_bad h _) _

theorem C64.mul_bad' {y : C64} (h : ¬ y.re.Finite) (x : C64) : ¬ (x.mul y).re.Finite := F64.sub_bad (F64.mul_bad' h _) _

/-! ### the filters, whatever the generating function contains -/

/-- one entry of the axisymmetric wavelets -/
noncomputable def psiAny (x y : F64) : F64 := (if (x.sub y).isNeg then 0 else x.sub y).sqrt

theorem axisym64_any (hJ : jm L lam = .ok J) (hL : 1 ≤ L) (hk : k_lam64 m jm L lam 300 = .ok k) (h0 : 0 ≤ J_min) (h1 : J_min < J) :
    filters_axisym_vectorised64 m jm L J_min lam =
      .ok (Arr2.of (J + 1) L fun j l => psiAny (k.v (j + 1) l) (k.v j l), Arr1.of L fun l => (k.v J_min l).sqrt) := by
  obtain ⟨-, -, -, -, hr, hc, -⟩ := k_lam64_shape hJ hk
  unfold filters_axisym_vectorised64
  simp only [hJ, Py.bind_ok]
  rw [if_neg (by omega), hk]
  simp only [Py.bind_ok, Arr2.rollUp, Arr2.zip, Arr2.of_r, Arr2.of_c, and_self, if_true, hr, hc]
  have hsl : mkSl (J + 2) none (some (-1)) = ⟨0, J + 1, 1⟩ := by
    simp only [mkSl, slBound, if_pos (show (-1 : ℤ) < 0 by norm_num)]
    congr 1
    omega
  rw [hsl, mkSl_all (by omega), Arr1.row_ok _ h0 (by omega)]
  simp only [Py.bind_ok, hc]
  congr 2
  · refine Arr2.of_congr fun i j h0 h1 h2 h3 => ?_
    simp only [Arr2.map, Arr2.slice, Arr2.of_r, Arr2.of_c] at h1 h3
    simp only [Arr2.map, Arr2.slice, Arr2.of_r, Arr2.of_c, Sl.at_one, zero_add]
    rw [Arr2.of_v _ _ _ _ _ ⟨h0, h1, h2, h3⟩, Arr2.of_v _ _ _ _ _ ⟨h0, h1, h2, h3⟩, Arr2.of_v _ _ _ _ _ ⟨h0, by omega, h2, h3⟩,
      Arr2.of_v _ _ _ _ _ ⟨h0, by omega, h2, h3⟩]
    have hm : (i + 1) % (J + 2) = i + 1 := Int.emod_eq_of_lt (by omega) (by omega)
    rw [hm]
    rfl
  · refine Arr1.of_congr fun l h2 h3 => ?_
    simp only [Arr1.of_n] at h3
    rw [Arr1.of_v _ _ _ ⟨h2, h3⟩]

/-- one entry of the directional wavelets -/
noncomputable def psiDirAny (a : F64) (l : ℤ) (s : C64) : C64 :=
  (C64.ofReal (a.mul ((((F64.ofInt (2 * l + 1)).div (.fin 8)).sqrt).div pi64))).mul s

theorem directional64_any (hL : 1 ≤ L) (hN : 1 ≤ N) (hN' : N ≤ 990) {A : ℤ → ℤ → F64} {P : ℤ → F64} (hJ0 : 0 ≤ J)
    (hf : filters_axisym_vectorised64 m jm L J_min lam = .ok (Arr2.of (J + 1) L A, Arr1.of L P)) (spin : ℤ) :
    ∃ (S : ℤ → ℤ → C64) (phi : Arr1 F64), filters_directional_vectorised64 m lg jm L N J_min lam spin =
      .ok (Arr3.of (J + 1) L (2 * L - 1) fun j l c => if l < |spin| then 0 else psiDirAny (A j l) l (S l c), phi) := by
  have ht := tiling_direction64_gen (m := m) (lg := lg) (N := N) hL fun el h1 h2 => by have := (gam_facts hN h1).2.2.1; omega
  have hLm : max 0 (L - 0) = L := by omega
  have hel : 0 ≤ |spin| := abs_nonneg spin
  unfold filters_directional_vectorised64
  simp only [hf, ht, Py.bind_ok]
  simp only [Arr1.zip, arange, Arr1.of_n, hLm, bdim_self, Py.bind_ok, Arr2.of_c, Arr2.of_r, ne_eq, not_true_eq_false, if_false,
    Arr3.fill, Arr3.of_d, Arr3.of_r, Arr3.of_c, zero_add]
  simp only [mkSl_to' (show 0 ≤ L by omega) hel, mkSl_all (show 0 ≤ J + 1 by omega),
    mkSl_all (show 0 ≤ 2 * L - 1 by omega), Sl.mem_one, zero_add]
  refine ⟨fun l c => if |c - (L - 1)| ≤ l ∧ 1 ≤ l then tdir64 m lg N l (c - (L - 1)) else 0, _, congrArg Except.ok (Prod.ext ?_ rfl)⟩
  refine Arr3.of_congr fun j l n h0 h1 h2 h3 h4 h5 => ?_
  rw [Arr3.of_v _ _ _ _ _ _ _ ⟨h0, h1, h2, h3, h4, h5⟩, bix_self h2 h3,
    Arr2.of_v _ _ _ _ _ ⟨h0, h1, h2, h3⟩, Arr2.of_v _ _ _ _ _ ⟨h0, h1, h2, h3⟩,
    Arr2.of_v _ _ _ _ _ ⟨h2, h3, h4, h5⟩, Arr1.of_v _ _ _ ⟨h2, h3⟩]
  by_cases h : l < |spin|
  · rw [if_pos h, if_pos ⟨⟨h0, h1⟩, ⟨h2, lt_min h h3⟩, h4, h5⟩]
  · rw [if_neg h, if_neg (by omega)]
    rfl

theorem psiDirAny_bad {a : F64} (h : ¬ a.Finite) (l : ℤ) (s : C64) : ¬ (psiDirAny a l s).re.Finite :=
  C64.mul_bad (F64.mul_bad h _) _

theorem ieee_coefficient_bad {p : C64} (h : ¬ p.re.Finite) (f : C64) (l : ℤ) :
    ¬ (Ops.ieee.add 0 (Ops.ieee.mul f (Ops.ieee.mul (Ops.ieee.conj p) (Ops.ieee.ofReal (Ops.ieee.c8 l))))).re.Finite :=
  F64.add_bad' (C64.mul_bad' (C64.mul_bad (x := Ops.ieee.conj p) h _) _) _

/-- from one entry of the axisymmetric wavelets that is not finite to the coefficients of any signal -/
theorem poisoned (hT : TopScale jm L lam J) (hlam : 1 < lam) (hN : 1 ≤ N) (hNL : N ≤ L) (hN' : N ≤ 990) (h0 : 0 ≤ J_min)
    (hk : k_lam64 m jm L lam 300 = .ok k) (h1 : J_min < J) {j0 l0 : ℤ} (hj0 : J_min ≤ j0) (hj1 : j0 ≤ J) (hl1 : l0 < L) (hs : |spin| ≤ l0)
    (hb : ¬ (psiAny (k.v (j0 + 1) l0) (k.v j0 l0)).Finite) :
    ∃ psi phi, filters_directional_vectorised64 m lg jm L N J_min lam spin = .ok (psi, phi) ∧
      (∀ c, 0 ≤ c → c < 2 * L - 1 → ¬ (psi.v j0 l0 c).re.Finite) ∧
      ∀ flm : Arr2 C64, flm.r = L → flm.c = 2 * L - 1 →
        ∃ W a, generate_and_apply_waveletsO Ops.ieee flm L N J_min J lam (some psi) = .ok W ∧ listGet W (j0 - J_min) = .ok a ∧
          0 < a.d ∧ 0 < a.c ∧ (l0 < (LN_j L j0 N lam true).1 → (LN_j L j0 N lam true).2.2 ≤ l0 →
            ∀ n o, 0 ≤ n → n < a.d → n % 2 = 0 → 0 ≤ o → o < a.c → ¬ (a.v n l0 o).re.Finite) := by
  have hL := hT.hL
  obtain ⟨S, phi, hf⟩ := directional64_any (lg := lg) hL hN hN' hT.hJ0 (axisym64_any hT.hJ hL hk h0 h1) spin
  have hl0 : 0 ≤ l0 := (abs_nonneg _).trans hs
  refine ⟨_, phi, hf, ?_, fun flm hr hc => ?_⟩
  · intro c hc0 hc1
    rw [Arr3.of_v _ _ _ _ _ _ _ ⟨by omega, by omega, hl0, hl1, hc0, hc1⟩, if_neg (by omega)]
    exact psiDirAny_bad hb _ _
  · refine ⟨_, _, waveletsO_eq Ops.ieee hL hlam hN hNL h0 (by omega) flm (by simp) rfl rfl hr hc, listGet_range _ hj0 (by omega), ?_⟩
    have hNj := LN_j_Nj_bounds hL hlam hN j0 true
    have hLj := LN_j_Lj_bounds (N := N) hL hlam j0 true
    refine ⟨by simp only [anaWO, Arr3.of_d]; omega, by simp only [anaWO, Arr3.of_c]; omega, ?_⟩
    intro g1 g2 n o hn0 hn1 hn2 ho0 ho1
    simp only [anaWO, Arr3.of_d, Arr3.of_c] at hn1 ho1
    unfold anaWO
    rw [Arr3.of_v _ _ _ _ _ _ _ ⟨hn0, hn1, hl0, g1, ho0, ho1⟩, if_pos ⟨hn2, g2⟩]
    refine ieee_coefficient_bad ?_ _ _
    rw [Arr3.of_v _ _ _ _ _ _ _ ⟨by omega, by omega, hl0, hl1, by omega, by omega⟩, if_neg (by omega)]
    exact psiDirAny_bad hb _ _

theorem psiAny_nan (x : F64) : psiAny x .nan = .nan := by
  have h : x.sub .nan = .nan := by rcases x with x | _ | _ | _ <;> rfl
  unfold psiAny
  rw [h, if_neg (show ¬ F64.isNeg .nan from id)]
  rfl

/-- **C124** `lam = 5`: for every band-limit from 2 on, a call of `k_lam` that returns (C99: with a NaN) is followed by directional filters
that are returned without exception, although the wavelet of scale 1 is not finite at degree 1, for any order; and in
the analysis of any signal whatsoever, all coefficients of scale 1 and degree 1 that are computed are infinite or NaN. -/
theorem C124_lam_five (hm : m.Ok) (hT : TopScale jm L 5 J) (hL : 2 ≤ L) (hk : k_lam64 m jm L 5 300 = .ok k) (h0 : 0 ≤ J_min)
    (h1 : J_min ≤ 1) (h2 : J_min < J) (hN : 1 ≤ N) (hNL : N ≤ L) (hN' : N ≤ 990) (hs : |spin| ≤ 1) :
    ∃ psi phi, filters_directional_vectorised64 m lg jm L N J_min 5 spin = .ok (psi, phi) ∧
      (∀ c, 0 ≤ c → c < 2 * L - 1 → ¬ (psi.v 1 1 c).re.Finite) ∧
      ∀ flm : Arr2 C64, flm.r = L → flm.c = 2 * L - 1 →
        ∃ W a, generate_and_apply_waveletsO Ops.ieee flm L N J_min J 5 (some psi) = .ok W ∧ listGet W (1 - J_min) = .ok a ∧
          0 < a.d ∧ 0 < a.c ∧ ∀ n o, 0 ≤ n → n < a.d → n % 2 = 0 → 0 ≤ o → o < a.c → ¬ (a.v n 1 o).re.Finite := by
  have hb : ¬ (psiAny (k.v (1 + 1) 1) (k.v 1 1)).Finite := by
    rw [C99_lam_five hm hT hL hk, psiAny_nan]; exact F64.nan_bad
  obtain ⟨psi, phi, e1, e2, e3⟩ := poisoned (lg := lg) hT (by norm_num) hN hNL hN' h0 hk h2 h1 (by omega) (by omega) hs hb
  refine ⟨psi, phi, e1, e2, fun flm a b => ?_⟩
  obtain ⟨W, w, f1, f2, f4, f5, f3⟩ := e3 flm a b
  refine ⟨W, w, f1, f2, f4, f5, f3 ?_ ?_⟩
  · have : ⌈(5 : ℝ) ^ ((1 : ℤ) + 1)⌉ = 25 := by
      rw [show (5 : ℝ) ^ ((1 : ℤ) + 1) = ((25 : ℤ) : ℝ) by norm_num, Int.ceil_intCast]
    simp only [LN_j, wav_j_bandlimit, one_ne_zero, if_false, if_true, this]
    omega
  · simp only [LN_j, L0_j, one_ne_zero, if_false, if_true, ne_eq, not_false_eq_true]
    norm_num

/-- **C124** `lam = 3`: the same for every band-limit from 795 on, at scale 6 and degree 794 -/
theorem C124_lam_three (hm : m.Ok) (hT : TopScale jm L 3 J) (hL : 795 ≤ L) (hk : k_lam64 m jm L 3 300 = .ok k) (h0 : 0 ≤ J_min)
    (h1 : J_min ≤ 6) (hN : 1 ≤ N) (hNL : N ≤ L) (hN' : N ≤ 990) (hs : |spin| ≤ 794) :
    ∃ psi phi, filters_directional_vectorised64 m lg jm L N J_min 3 spin = .ok (psi, phi) ∧
      (∀ c, 0 ≤ c → c < 2 * L - 1 → ¬ (psi.v 6 794 c).re.Finite) ∧
      ∀ flm : Arr2 C64, flm.r = L → flm.c = 2 * L - 1 →
        ∃ W a, generate_and_apply_waveletsO Ops.ieee flm L N J_min J 3 (some psi) = .ok W ∧ listGet W (6 - J_min) = .ok a ∧
          0 < a.d ∧ 0 < a.c ∧ ∀ n o, 0 ≤ n → n < a.d → n % 2 = 0 → 0 ≤ o → o < a.c → ¬ (a.v n 794 o).re.Finite := by
  obtain ⟨-, -, hJ6, k7, k6⟩ := C118_infinite hm hT hL hk
  have hb : ¬ (psiAny (k.v (6 + 1) 794) (k.v 6 794)).Finite := by
    rw [show (6 : ℤ) + 1 = 7 by norm_num, k7, k6]
    unfold psiAny
    have h : F64.inf.sub (.fin 0) = .inf := rfl
    rw [h, if_neg (show ¬ F64.isNeg .inf from id)]
    exact F64.inf_bad
  obtain ⟨psi, phi, e1, e2, e3⟩ := poisoned (lg := lg) hT (by norm_num) hN hNL hN' h0 hk (by omega) h1 (by omega) (by omega) hs hb
  refine ⟨psi, phi, e1, e2, fun flm a b => ?_⟩
  obtain ⟨W, w, f1, f2, f4, f5, f3⟩ := e3 flm a b
  refine ⟨W, w, f1, f2, f4, f5, f3 ?_ ?_⟩
  · have : ⌈(3 : ℝ) ^ ((6 : ℤ) + 1)⌉ = 2187 := by
      rw [show (3 : ℝ) ^ ((6 : ℤ) + 1) = ((2187 : ℤ) : ℝ) by norm_num, Int.ceil_intCast]
    simp only [LN_j, wav_j_bandlimit, show (6 : ℤ) ≠ 0 by norm_num, if_false, if_true, this]
    omega
  · have : ⌈(3 : ℝ) ^ ((6 : ℤ) - 1)⌉ = 243 := by
      rw [show (3 : ℝ) ^ ((6 : ℤ) - 1) = ((243 : ℤ) : ℝ) by norm_num, Int.ceil_intCast]
    simp only [LN_j, L0_j, show (6 : ℤ) ≠ 0 by norm_num, if_false, if_true, ne_eq, not_false_eq_true, this]
    norm_num

/-- a call that does all this: `lam = 5`, `L = 2`, one direction, and any signal, for instance the zero signal -/
example : ∃ psi phi, filters_directional_vectorised64 Libm.exact lgExact j_max 2 1 0 5 0 = .ok (psi, phi) ∧
    ∀ flm : Arr2 C64, flm.r = 2 → flm.c = 3 →
      ∃ W a, generate_and_apply_waveletsO Ops.ieee flm 2 1 0 1 5 (some psi) = .ok W ∧ listGet W 1 = .ok a ∧ ¬ (a.v 0 1 0).re.Finite := by
  have hJ := j_max_eq (L := 2) (by norm_num) (lam := 5) (by norm_num)
  have hT := TopScale.of_j_max (by norm_num) (by norm_num) hJ
  have hJ1 := (j_max_spec (by norm_num) (by norm_num) hJ).2.2 1 (by norm_num)
  have hJ0 : 0 < ⌈Real.log ((2 : ℤ) : ℝ) / Real.log 5⌉ := by
    refine zpow_lt_of (lam := 5) (by norm_num) ?_
    have h1 := hT.hLJ
    have h4 : ((2 : ℤ) : ℝ) = 2 := by norm_num
    rw [zpow_zero]; rw [h4] at h1 ⊢; linarith
  generalize hJJ : ⌈Real.log ((2 : ℤ) : ℝ) / Real.log 5⌉ = J at *
  obtain rfl : J = 1 := by omega
  obtain ⟨k, hk, -⟩ := C99_lam_five_returns Libm.exact_ok Libm.exact_fifth hT (by norm_num)
  obtain ⟨psi, phi, e1, -, e3⟩ := C124_lam_five (lg := lgExact) (N := 1) (spin := 0) Libm.exact_ok hT le_rfl hk le_rfl (by norm_num) (by norm_num)
    le_rfl (by norm_num) (by norm_num) (by norm_num)
  refine ⟨psi, phi, e1, fun flm hr hc => ?_⟩
  obtain ⟨W, a, f1, f2, f3, f4, f5⟩ := e3 flm hr (by rw [hc]; norm_num)
  exact ⟨W, a, f1, f2, f5 0 0 le_rfl f3 rfl le_rfl f4⟩

/-- and with `lam = 3`, `L = 795` -/
example : ∃ J psi phi, filters_directional_vectorised64 Libm.exact lgExact j_max 795 2 0 3 2 = .ok (psi, phi) ∧
    ∀ flm : Arr2 C64, flm.r = 795 → flm.c = 1589 →
      ∃ W a, generate_and_apply_waveletsO Ops.ieee flm 795 2 0 J 3 (some psi) = .ok W ∧ listGet W 6 = .ok a ∧ ¬ (a.v 0 794 0).re.Finite := by
  have hJ := j_max_eq (L := 795) (by norm_num) (lam := 3) (by norm_num)
  have hT := TopScale.of_j_max (by norm_num) (by norm_num) hJ
  obtain ⟨k, hk, -⟩ := C118_returns Libm.exact_ok Libm.exact_third hT ((j_max_spec (by norm_num) (by norm_num) hJ).2.2 32 (by norm_num))
  obtain ⟨psi, phi, e1, -, e3⟩ := C124_lam_three (lg := lgExact) (N := 2) (spin := 2) Libm.exact_ok hT le_rfl hk le_rfl (by norm_num) (by norm_num)
    (by norm_num) (by norm_num) (by norm_num)
  refine ⟨⌈Real.log ((795 : ℤ) : ℝ) / Real.log 3⌉, psi, phi, e1, fun flm hr hc => ?_⟩
  obtain ⟨W, a, f1, f2, f3, f4, f5⟩ := e3 flm hr (by rw [hc]; norm_num)
  exact ⟨W, a, f1, f2, f5 0 0 le_rfl f3 rfl le_rfl f4⟩

end S2wav
