import Verif.Lemmas.FloatLog
import Verif.Lemmas.FloatBad
import Verif.Lemmas.FloatLogFive
import Verif.Lemmas.FloatSupport
import Verif.Lemmas.LibmSpecial
import Verif.Props.Filters
import Verif.Props.RoundedDirectional

/-! # C103, C104: the scale bookkeeping in double precision -/

namespace S2wav
open Classical

variable {m : Libm} {lg : F64 → F64} {lf : ℝ → F64} {L J J_min N j l : ℤ} {lam : ℝ}

/-! ### C103 `j_max` -/

/-- **C103** `j_max` computed in double precision, for every band-limit up to 2^40 and every double `lam > 1`: no exception, and
`lam^(J-1) < L + 3/4`, `L - 1/2 ≤ lam^J` - in particular `J` is one of the top scales for which the transforms are exact. -/
theorem C103_top_scale (hf : LogOk lf) (hL : 1 ≤ L) (hL' : L ≤ 2 ^ 40) (hlam : 1 < lam) (hr : Rep lam) (hb : lam < (2 : ℝ) ^ (1024 : ℤ)) :
    ∃ J, j_max64 lf L lam = .ok J ∧ 0 ≤ J ∧ lam ^ (J - 1) < (L : ℝ) + 3 / 4 ∧ (L : ℝ) - 1 / 2 ≤ lam ^ J ∧ TopScale (j_max64 lf) L lam J := by
  obtain ⟨J, h, h0, h1, h2⟩ := j_max64_spec hf hL hL' hlam hr hb
  exact ⟨J, h, h0, h2, h1, hL, hlam, h, h0, by linarith⟩

/-- **C103** for an integer `lam` the result is the exact one, or one more, the latter only if `L` is a power of `lam`. -/
theorem C103_integer (hf : LogOk lf) (hL : 1 ≤ L) (hL' : L ≤ 2 ^ 40) {b : ℤ} (hb : 2 ≤ b) (hb' : b ≤ 2 ^ 53) :
    ∃ J J0 : ℤ, j_max64 lf L b = .ok J ∧ j_max L b = .ok J0 ∧ (J = J0 ∨ J = J0 + 1 ∧ L = b ^ J0.toNat) := by
  have hbr : (2 : ℝ) ≤ b := by exact_mod_cast hb
  have hlam : (1 : ℝ) < b := by linarith
  have hb1 : (b : ℝ) < (2 : ℝ) ^ (1024 : ℤ) := by
    have h1 : (b : ℝ) ≤ 2 ^ 53 := by exact_mod_cast hb'
    exact lt_of_le_of_lt h1 (by rw [← zpow_natCast]; exact zpow_lt_zpow_right₀ (by norm_num) (by norm_num))
  obtain ⟨J, h, h0, h1, h2⟩ := j_max64_spec hf hL hL' hlam (rep_int (by rw [abs_of_nonneg (by omega)]; exact hb')) hb1
  have hJ0 := j_max_eq hL hlam
  obtain ⟨h3, h4, h5⟩ := j_max_spec hL hlam hJ0
  generalize ⌈Real.log L / Real.log b⌉ = J0 at *
  refine ⟨J, J0, h, hJ0, ?_⟩
  have hpow : ∀ n : ℤ, 0 ≤ n → ((b ^ n.toNat : ℤ) : ℝ) = (b : ℝ) ^ n := by
    intro n hn
    push_cast
    rw [← zpow_natCast, Int.toNat_of_nonneg hn]
  -- an integer `lam^J` not below `L - 1/2` is not below `L`
  have h6 : J0 ≤ J := by
    apply h5
    rw [← hpow J h0] at h1 ⊢
    have : L - 1 < b ^ J.toNat := by
      have : ((L - 1 : ℤ) : ℝ) < ((b ^ J.toNat : ℤ) : ℝ) := by push_cast at h1 ⊢; linarith
      exact_mod_cast this
    exact_mod_cast (by omega : L ≤ b ^ J.toNat)
  rcases h6.eq_or_lt with h7 | h7
  · exact Or.inl h7.symm
  right
  have h8 : b ^ (J - 1).toNat ≤ L := by
    rw [← hpow (J - 1) (by omega)] at h2
    have : ((b ^ (J - 1).toNat : ℤ) : ℝ) < ((L + 1 : ℤ) : ℝ) := by push_cast at h2 ⊢; linarith
    have : b ^ (J - 1).toNat < L + 1 := by exact_mod_cast this
    omega
  have h9 : L ≤ b ^ J0.toNat := by
    rw [← hpow J0 h3] at h4
    exact_mod_cast h4
  have h10 : J - 1 = J0 := by
    by_contra hne
    have h11 : J0.toNat < (J - 1).toNat := by omega
    have := pow_lt_pow_right₀ (by omega : 1 < b) h11
    omega
  refine ⟨by omega, le_antisymm h9 ?_⟩
  rw [← h10]; exact h8

/-- **C103** replacing the exact `j_max` by the one in double precision does not change the filters: the scaling function and the
wavelets of the scales common to both are the same, those of any further scale are zero. -/
theorem C103_filters (hf : LogOk lf) (hL : 1 ≤ L) (hL' : L ≤ 2 ^ 40) (hlam : 1 < lam) (hr : Rep lam) (hb : lam < (2 : ℝ) ^ (1024 : ℤ))
    (hN : 1 ≤ N) (h0 : 0 ≤ J_min) {J J0 : ℤ} (hJ : j_max64 lf L lam = .ok J) (hJ0 : j_max L lam = .ok J0) (h1 : J_min < J) (h2 : J_min < J0)
    (spin : ℤ) :
    ∃ psi psi' phi, filters_directional_vectorised j_max L N J_min lam spin 0 = .ok (psi, phi) ∧
      filters_directional_vectorised (j_max64 lf) L N J_min lam spin 0 = .ok (psi', phi) ∧
      psi.d = J0 + 1 ∧ psi'.d = J + 1 ∧ (∀ j l k, j ≤ J → j ≤ J0 → psi'.v j l k = psi.v j l k) ∧
      (∀ j l k, J0 < j → j ≤ J → psi'.v j l k = 0) ∧ (∀ j l k, J < j → j ≤ J0 → psi.v j l k = 0) := by
  obtain ⟨J', hJ', -, -, h3, -⟩ := C103_top_scale hf hL hL' hlam hr hb
  rw [hJ] at hJ'
  cases hJ'
  have h4 := (j_max_spec hL hlam hJ0).2.1
  rcases le_total J0 J with hle | hle
  · obtain ⟨psi, psi', phi, e1, e2, e3, e4, e5, e6, -⟩ := C39_top_scale (jm := j_max) (jm' := j_max64 lf) hL hN hlam hJ0 (by linarith) hJ hle h0 h2 spin
    refine ⟨psi, psi', phi, e1, e2, e3, e4, fun j l k _ hj => e5 j l k hj, fun j l k hj _ => e6 j l k hj, fun j l k hj _ => by omega⟩
  · obtain ⟨psi, psi', phi, e1, e2, e3, e4, e5, e6, -⟩ := C39_top_scale (jm := j_max64 lf) (jm' := j_max) hL hN hlam hJ (by linarith) hJ0 hle h0 h1 spin
    refine ⟨psi', psi, phi, e2, e1, e4, e3, fun j l k hj _ => (e5 j l k hj).symm, fun j l k hj _ => by omega,
      fun j l k hj _ => e6 j l k hj⟩

/-- **C103** for `lam = 2` and any band-limit up to 2^40, all of `filters_directional_vectorised` in double precision, `j_max`
included, returns finite values; the top scale is at most 41. -/
theorem C103_all_double (hm : m.Ok) (hs : Libm.Special m lg) (hf : LogOk lf) (hL : 1 ≤ L) (hL' : L ≤ 2 ^ 40) (hN : 1 ≤ N) (hN' : N ≤ 990)
    (hJ : j_max64 lf L 2 = .ok J) (h0 : 0 ≤ J_min) (h1 : J_min < J) (spin : ℤ) :
    J ≤ 41 ∧ ∃ (psi : Arr3 ℂ) (phi : Arr1 ℝ),
      filters_directional_vectorised64 m lg (j_max64 lf) L N J_min 2 spin = .ok (psi.map C64.ofC, phi.map F64.fin) ∧
      ∀ l, 0 ≤ l → l < L → |spin| ≤ l →
        1 - 1 / 2 ^ 32 ≤ frameSum J_min J L psi phi l ∧ frameSum J_min J L psi phi l ≤ 1.001 + 1 / 2 ^ 31 := by
  have hr : Rep (2 : ℝ) := by have := rep_int (n := 2) (by norm_num); exact_mod_cast this
  have hb : (2 : ℝ) < (2 : ℝ) ^ (1024 : ℤ) := by
    have := zpow_lt_zpow_right₀ (a := (2 : ℝ)) (by norm_num) (by norm_num : (1 : ℤ) < 1024)
    rwa [zpow_one] at this
  obtain ⟨J', hJ', -, h3, -, hT⟩ := C103_top_scale hf hL hL' (by norm_num) hr hb
  rw [hJ] at hJ'
  cases hJ'
  have h41 : J ≤ 41 := by
    by_contra hlt
    have h4 : (2 : ℝ) ^ (41 : ℤ) ≤ 2 ^ (J - 1) := zpow_le_zpow_right₀ (by norm_num) (by omega)
    have h5 : (L : ℝ) ≤ 2 ^ 40 := by exact_mod_cast hL'
    have h6 : (2 : ℝ) ^ (41 : ℤ) = 2 * 2 ^ 40 := by norm_num
    norm_num at h4 h5 h6
    linarith
  have hL53 : L ≤ 2 ^ 53 := hL'.trans (by norm_num)
  obtain ⟨psi, phi, h, -⟩ := C101_directional hm hs hT hL53 (by omega) hN hN' h0 h1 spin
  refine ⟨h41, psi, phi, h, fun l hl0 hl1 hl => ?_⟩
  obtain ⟨a, b, -⟩ := C101_admissible hm hs hT hL53 (by omega) hN hN' h0 h1 h hl0 hl1 hl
  exact ⟨a, b⟩

/-- **C103** the result is not always the exact one: with a correctly rounded logarithm `j_max(125, 5.0)` is 4 instead of 3. -/
theorem C103_one_too_many : j_max64 logExact 125 5 = .ok 4 ∧ j_max 125 5 = .ok 3 := by
  refine ⟨j_max64_125, ?_⟩
  have h := j_max_eq (L := 125) (lam := 5) (by norm_num) (by norm_num)
  rw [h]
  congr 1
  have e : Real.log ((125 : ℤ) : ℝ) = 3 * Real.log 5 := by
    rw [show ((125 : ℤ) : ℝ) = 5 ^ 3 by norm_num, Real.log_pow]; norm_num
  rw [e, mul_div_cancel_right₀ _ (Real.log_pos (by norm_num)).ne']
  exact_mod_cast Int.ceil_intCast (R := ℝ) 3

/-- the hypotheses are met: correctly rounded functions, `L = 1000`, `lam = 1.5` -/
example : ∃ J, j_max64 logExact 1000 (3 / 2) = .ok J ∧ TopScale (j_max64 logExact) 1000 (3 / 2) J := by
  obtain ⟨J, h, -, -, -, hT⟩ := C103_top_scale (L := 1000) (lam := 3 / 2) logExact_ok (by norm_num) (by norm_num) (by norm_num)
    ⟨3, -1, by norm_num, by norm_num, by norm_num⟩ (by
      have := zpow_lt_zpow_right₀ (a := (2 : ℝ)) (by norm_num) (by norm_num : (1 : ℤ) < 1024)
      rw [zpow_one] at this; exact lt_trans (by norm_num) this)
  exact ⟨J, h, hT⟩

/-- and `L = 64`, `lam = 2`, where the top scale is 6 or 7 -/
example : ∃ J : ℤ, j_max64 logExact 64 2 = .ok J ∧ (J = 6 ∨ J = 7) := by
  obtain ⟨J, J0, h, h0, h1⟩ := C103_integer (L := 64) (b := 2) logExact_ok (by norm_num) (by norm_num) (by norm_num) (by norm_num)
  push_cast at h h0
  have e : j_max 64 2 = .ok 6 := by
    rw [j_max_eq (by norm_num) (by norm_num)]
    congr 1
    have e : Real.log ((64 : ℤ) : ℝ) = 6 * Real.log 2 := by
      rw [show ((64 : ℤ) : ℝ) = 2 ^ 6 by norm_num, Real.log_pow]; norm_num
    rw [e, mul_div_cancel_right₀ _ (Real.log_pos (by norm_num)).ne']
    exact_mod_cast Int.ceil_intCast (R := ℝ) 6
  rw [e] at h0
  cases h0
  exact ⟨J, h, by omega⟩

/-! ### C104 band-limits -/

/-- `lam ** n` is a double -/
def PowRep (lam : ℝ) (n : ℤ) : Prop := lam ≠ 0 ∧ Rep (lam ^ n) ∧ |lam ^ n| < (2 : ℝ) ^ (1024 : ℤ)

theorem PowRep.pow {n : ℤ} (h : PowRep lam n) (hm : m.Ok) : m.pyPow (.fin lam) n = .ok (.fin (lam ^ n)) :=
  Libm.pyPow_fin (hm.pow_exact lam n h.1 h.2.1 h.2.2)

/-- **C104** the band-limits computed in double precision are the exact ones whenever the powers of `lam` concerned are doubles. -/
theorem C104_exact (hm : m.Ok) (L N : ℤ) (mr : Bool) :
    (∀ J_min, PowRep lam J_min → scal_bandlimit64 m L J_min lam mr = .ok (scal_bandlimit L J_min lam mr)) ∧
    (∀ j, PowRep lam (j - 1) → L0_j64 m j lam = .ok (L0_j j lam)) ∧
    (∀ j, PowRep lam ((if j = 0 then 1 else j) + 1) → wav_j_bandlimit64 m L j lam mr = .ok (wav_j_bandlimit L j lam mr)) ∧
    (∀ j, PowRep lam ((if j = 0 then 1 else j) + 1) → PowRep lam ((if j = 0 then 1 else j) - 1) →
      LN_j64 m L j N lam mr = .ok (LN_j L j N lam mr)) := by
  have hL0 : ∀ j, PowRep lam (j - 1) → L0_j64 m j lam = .ok (L0_j j lam) := by
    intro j h
    unfold L0_j64 L0_j
    by_cases hj : j = 0
    · simp [hj]
    · rw [if_pos hj, if_pos hj, h.pow hm]; rfl
  have hLj : ∀ j, PowRep lam ((if j = 0 then 1 else j) + 1) → wav_j_bandlimit64 m L j lam mr = .ok (wav_j_bandlimit L j lam mr) := by
    intro j h
    unfold wav_j_bandlimit64 wav_j_bandlimit
    have e : (if j = 0 then j + 1 else j) = if j = 0 then 1 else j := by split_ifs <;> omega
    simp only [e]
    cases mr
    · rfl
    · simp only [if_true]; rw [h.pow hm]; rfl
  refine ⟨fun J_min h => ?_, hL0, hLj, fun j h h' => ?_⟩
  · unfold scal_bandlimit64 scal_bandlimit
    cases mr
    · rfl
    · simp only [if_true]; rw [h.pow hm]; rfl
  · unfold LN_j64 LN_j
    have e : (if j = 0 then j + 1 else j) = if j = 0 then 1 else j := by split_ifs <;> omega
    have e' : (if (if j = 0 then (1 : ℤ) else j) = 0 then (1 : ℤ) else if j = 0 then 1 else j) = if j = 0 then 1 else j := by split_ifs <;> omega
    simp only [e]
    rw [hLj _ (by rw [e']; exact h), Py.bind_ok]
    cases mr
    · rfl
    · simp only [if_true]; rw [hL0 _ h']; rfl

/-- **C104** this is so for `lam = 2` (and any scale that occurs), and for every integer `lam` as long as the powers stay below 2^53. -/
theorem C104_powers : (∀ n : ℤ, -1 ≤ n → n ≤ 1001 → PowRep 2 n) ∧
    (∀ b n : ℤ, 1 ≤ b → 0 ≤ n → b ^ n.toNat ≤ 2 ^ 53 → PowRep b n) := by
  constructor
  · intro n h0 h1
    refine ⟨by norm_num, rep_pow (by omega), ?_⟩
    rw [abs_of_pos (by positivity)]
    exact zpow_lt_zpow_right₀ (by norm_num) (by omega)
  · intro b n hb hn h
    have e : (b : ℝ) ^ n = ((b ^ n.toNat : ℤ) : ℝ) := by
      push_cast; rw [← zpow_natCast, Int.toNat_of_nonneg hn]
    have hp : 0 < b ^ n.toNat := pow_pos (by omega) _
    refine ⟨by exact_mod_cast (by omega : b ≠ 0), ?_, ?_⟩
    · rw [e]; exact rep_int (by rw [abs_of_pos hp]; exact h)
    · rw [e, abs_of_pos (by exact_mod_cast hp)]
      have : ((b ^ n.toNat : ℤ) : ℝ) ≤ 2 ^ 53 := by exact_mod_cast h
      exact lt_of_le_of_lt this (by rw [← zpow_natCast]; exact zpow_lt_zpow_right₀ (by norm_num) (by norm_num))

/-- **C104** for any `lam`, whether or not its computed powers are exact: the multiresolution band-limits never cut a wavelet or the scaling
function. What `filters_axisym_vectorised` computed in double precision is zero at and above the band-limit `Lj` and below
the lower limit `L0j` that `LN_j` computes in double precision, and at and above `scal_bandlimit` for the scaling function.
All that is needed is that computed powers do not decrease and that the normalisation is a non-zero finite number. -/
theorem C104_support {jm : JMax} {p : ℤ → ℝ} {inv : F64} {c : ℝ} (hJ : jm L lam = .ok J) (hL : 1 ≤ L) (hL' : L ≤ 2 ^ 53) (hp : PowMono m lam (J + 1) p)
    (hp0 : p 0 ≤ 1) (hi : F64.pdiv (.fin 1) (.fin lam) = .ok inv) (hn : part_scaling_fn64 m inv (.fin 1) 300 (.fin lam) = .ok (.fin c)) (hc : c ≠ 0)
    {psi : Arr2 F64} {phi : Arr1 F64} (h : filters_axisym_vectorised64 m jm L J_min lam = .ok (psi, phi)) :
    (∀ j Lj Nj L0j, 0 ≤ j → j ≤ J → LN_j64 m L j N lam true = .ok (Lj, Nj, L0j) →
      ∀ l, 0 ≤ l → l < L → Lj ≤ l ∨ l < L0j → psi.v j l = .fin 0) ∧
    (∀ Ls, scal_bandlimit64 m L J_min lam true = .ok Ls → ∀ l, 0 ≤ l → l < L → Ls ≤ l → phi.v l = .fin 0) := by
  obtain ⟨k, hk, h0, h1, -, -, -, hpsi, hphi⟩ := filters_axisym_vectorised64_entry hJ hL h
  obtain ⟨inv', norm, hi', hn', -, -, he⟩ := k_lam64_shape hJ hk
  rw [hi] at hi'; cases hi'
  rw [hn] at hn'; cases hn'
  have hzz : F64.sqrt (.fin 0) = .fin 0 := by
    rw [sqrt64 le_rfl (by norm_num), Real.sqrt_zero, rnd_zero]
  have hsub : ∀ x : ℝ, F64.sqrt (if ((F64.fin x).sub (.fin x)).isNeg then 0 else (F64.fin x).sub (.fin x)) = .fin 0 := by
    intro x
    rw [F64.sub_fin, sub_self, of_zero]
    split_ifs <;> exact hzz
  refine ⟨fun j Lj Nj L0j hj0 hj1 hln l hl0 hl1 hl => ?_, fun Ls hs l hl0 hl1 hl => ?_⟩
  · set i : ℤ := if j = 0 then 1 else j with hidef
    have hi1 : 1 ≤ i ∧ j ≤ i ∧ i ≤ J ∧ (i = j ∨ j = 0 ∧ i = 1) := by rw [hidef]; split_ifs <;> omega
    have hLN : Lj = min ⌈p (i + 1)⌉ L ∧ L0j = ⌈p (i - 1)⌉ := by
      unfold LN_j64 wav_j_bandlimit64 L0_j64 at hln
      have e : (if j = 0 then j + 1 else j) = i := by rw [hidef]; split_ifs <;> omega
      simp only [e, if_true] at hln
      rw [if_neg (by omega : ¬ i = 0), hp.pow (by omega) (by omega), Py.bind_ok, if_pos (by omega : i ≠ 0), hp.pow (by omega) (by omega)] at hln
      simp only [F64.ceil, Py.bind_ok] at hln
      injection hln with hln
      injection hln with a b
      injection b with b c
      exact ⟨a.symm, c.symm⟩
    rw [hpsi j l hj0 hj1 hl0 hl1]
    rcases hl with hl | hl
    · have hcl : ⌈p (i + 1)⌉ ≤ l := by omega
      have h2 : p (i + 1) ≤ l := (Int.le_ceil _).trans (by exact_mod_cast hcl)
      have h3 := hp.le (a := j + 1) (b := i + 1) (by omega) (by omega) (by omega)
      have h4 := hp.le (a := j) (b := j + 1) (by omega) (by omega) (by omega)
      rw [entry64_zero hp hc (by omega) (by omega) hl0 (by omega) (h3.trans h2) (he (j + 1) l (by omega) (by omega) hl0 hl1),
        entry64_zero hp hc (by omega) (by omega) hl0 (by omega) (h4.trans (h3.trans h2)) (he j l (by omega) (by omega) hl0 hl1)]
      exact hsub 0
    · rw [hLN.2, Int.lt_ceil] at hl
      have h2 : (l : ℝ) < p (j - 1) := by
        rcases hi1.2.2.2 with h3 | ⟨h3, h4⟩
        · rw [← h3]; exact hl
        · rw [h4] at hl
          have : (l : ℝ) < 1 := lt_of_lt_of_le hl hp0
          have : l < 1 := by exact_mod_cast this
          have hl' : l = 0 := by omega
          rw [hl', h3]
          exact_mod_cast (hp.1 (0 - 1) (by omega) (by omega)).2
      have h3 := hp.le (a := j - 1) (b := j) (by omega) (by omega) (by omega)
      rw [entry64_one hp (by omega) (by omega) (by rw [add_sub_cancel_right]; linarith) (he (j + 1) l (by omega) (by omega) hl0 hl1),
        entry64_one hp (by omega) (by omega) h2 (he j l (by omega) (by omega) hl0 hl1)]
      exact hsub 1
  · unfold scal_bandlimit64 at hs
    rw [if_pos rfl, hp.pow (by omega) (by omega)] at hs
    simp only [F64.ceil, Py.bind_ok] at hs
    injection hs with hs
    have hcl : ⌈p J_min⌉ ≤ l := by omega
    have h2 : p J_min ≤ l := (Int.le_ceil _).trans (by exact_mod_cast hcl)
    rw [hphi l hl0 hl1, entry64_zero hp hc (by omega) (by omega) hl0 (by omega) h2 (he J_min l (by omega) (by omega) hl0 hl1)]
    exact hzz

/-- **C104** for `lam = 2` nothing has to be assumed about the normalisation. -/
theorem C104_two (hm : m.Ok) {jm : JMax} (hT : TopScale jm L 2 J) (hL : L ≤ 2 ^ 53) (hJ : J ≤ 1000) (h0 : 0 ≤ J_min) (h1 : J_min < J) :
    ∃ (psi : Arr2 F64) (phi : Arr1 F64), filters_axisym_vectorised64 m jm L J_min 2 = .ok (psi, phi) ∧
    (∀ j, 0 ≤ j → j ≤ J → ∃ Lj Nj L0j, LN_j64 m L j N 2 true = .ok (Lj, Nj, L0j) ∧
      ∀ l, 0 ≤ l → l < L → Lj ≤ l ∨ l < L0j → psi.v j l = .fin 0) ∧
    (∃ Ls, scal_bandlimit64 m L J_min 2 true = .ok Ls ∧ ∀ l, 0 ≤ l → l < L → Ls ≤ l → phi.v l = .fin 0) := by
  obtain ⟨X, -, -, hf⟩ := filters_axisym_vectorised64_ok hm hT.hJ hT.hL hL hJ h0 h1
  obtain ⟨c, hc, -, hc'⟩ := part_two64 hm rep_half le_rfl (by norm_num)
  have hQ := quad_two_norm
  have hNb := abs_le.1 hc'
  have hc0 : c ≠ 0 := by
    have : 0 < c := by norm_num at hNb hQ ⊢; linarith
    exact this.ne'
  have hp : PowMono m 2 (J + 1) fun n => (2 : ℝ) ^ n := by
    refine ⟨fun n h0 h1 => ⟨hm.pow_exact _ _ (by norm_num) (C104_powers.1 n h0 (by omega)).2.1 (C104_powers.1 n h0 (by omega)).2.2, by positivity⟩,
      fun n _ _ => zpow_le_zpow_right₀ (by norm_num) (by omega)⟩
  have hi : F64.pdiv (.fin 1) (.fin 2) = .ok (.fin (1 / 2)) := by
    rw [F64.pdiv_fin (by norm_num), F64.of_rep rep_half (by norm_num)]
  obtain ⟨s1, s2⟩ := C104_support (N := N) hT.hJ hT.hL hL hp (by norm_num) hi hc hc0 hf
  refine ⟨_, _, hf, fun j hj0 hj1 => ?_, ?_⟩
  · have h := (C104_exact hm (lam := 2) L N true).2.2.2 j (C104_powers.1 _ (by split_ifs <;> omega) (by split_ifs <;> omega))
      (C104_powers.1 _ (by split_ifs <;> omega) (by split_ifs <;> omega))
    exact ⟨_, _, _, h, s1 j _ _ _ hj0 hj1 h⟩
  · have h := (C104_exact hm (lam := 2) L N true).1 J_min (C104_powers.1 _ (by omega) (by omega))
    exact ⟨_, h, s2 _ h⟩

/-- the scale `j = 2` of `L = 16`, `lam = 2`: degrees from 2 up to 7, in exact arithmetic and in double precision -/
example : LN_j64 Libm.exact 16 2 3 2 true = .ok (8, 3, 2) := by
  rw [(C104_exact Libm.exact_ok (lam := 2) 16 3 true).2.2.2 2 (C104_powers.1 _ (by norm_num) (by norm_num)) (C104_powers.1 _ (by norm_num) (by norm_num))]
  norm_num [LN_j, wav_j_bandlimit, L0_j]

end S2wav
