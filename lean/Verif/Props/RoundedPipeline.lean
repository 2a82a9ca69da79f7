import Verif.Lemmas.PipeErr
import Verif.Props.RoundedTransforms
import Verif.Props.RoundedLooped

/-! # C107: whole transforms in double precision

`analysis` and `synthesis` of `s2wav/transforms/wavelet_c.py`, with everything s2wav itself computes in double precision, and with
s2fft's transforms accurate up to a relative error `δ` (`CFFTO.Near`). -/

namespace S2wav
open Classical

/-- What is assumed of s2fft's transforms in double precision. Inverse followed by forward transform is close to the identity on the
coefficients `u` of band-limited functions, relative error `δ`; it amplifies what else is in the array (rounding errors) by at most
`K`; and there is an absolute error `τ` for underflow. Nothing overflows as long as the coefficients are at most `2^350`. The result
of the forward transforms is of the documented layout. -/
structure CFFTO.Near {P : Type} (E : CFFTO C64 P) (O : Ops C64 F64) (c1 : F64) (c : Cfg) (J : ℤ) (ix : ℕ) (δ K τ : ℝ) : Prop where
  idx : C.sshtIndex c.sampling.toLower = .ok ix
  wav : ∀ j t u, c.J_min ≤ j → j ≤ J → t.d = 2 * c.Nj true j - 1 → t.r = c.Lj true j → t.c = 2 * c.Lj true j - 1 →
    (∀ k l m, ‖t.v k l m‖ ≤ 2 ^ (350 : ℤ)) → BL3 (c.Lj true j) (c.Nj true j) (c.L0 true j) u → (c.reality = true → Herm3 u) →
    ∃ p t', E.wigInverse (t.map C64.ofC) (c.Lj true j) (c.Nj true j) (c.L0 true j) c.sampling c.reality = .ok p ∧
      E.wigForward p (c.Lj true j) (c.Nj true j) (c.L0 true j) c.sampling c.reality = .ok (t'.map C64.ofC) ∧
      BL3 (c.Lj true j) (c.Nj true j) 0 t' ∧
      norm3 c.L (fun n l m => co3 t' n l m - co3 u n l m) ≤
        δ * norm3 c.L (co3 u) + K * norm3 c.L (fun n l m => co3 t n l m - co3 u n l m) + τ
  scal : ∀ a u, a.r = c.Ls true → a.c = 2 * c.Ls true - 1 → (∀ l m, ‖a.v l m‖ ≤ 2 ^ (350 : ℤ)) →
    BL2 (c.Ls true) c.spin u → (c.reality = true → Herm2 u) →
    ∃ p a', scalMapO O E c1 (a.map C64.ofC) (c.Ls true) c.spin c.reality ix = .ok p ∧
      E.sphForward (if c.reality then E.re p else p) (c.Ls true) c.spin c.reality ix = .ok (a'.map C64.ofC) ∧
      BL2 (c.Ls true) 0 a' ∧
      norm2 c.L (fun l m => co2 a' l m - co2 u l m) ≤ δ * norm2 c.L (co2 u) + K * norm2 c.L (fun l m => co2 a l m - co2 u l m) + τ

/-- the same for any transforms: `wI j`, `wF j` the inverse and forward transform used at scale `j`, `sI`, `sF` those of the scaling part -/
structure PipeNear {P : Type} (c : Cfg) (J : ℤ) (mr : Bool) (wI : ℤ → Arr3 C64 → Py P) (wF : ℤ → P → Py (Arr3 C64)) (sI : Arr2 C64 → Py P)
    (sF : P → Py (Arr2 C64)) (δ K τ : ℝ) : Prop where
  wav : ∀ j t u, c.J_min ≤ j → j ≤ J → t.d = 2 * c.Nj mr j - 1 → t.r = c.Lj mr j → t.c = 2 * c.Lj mr j - 1 →
    (∀ k l m, ‖t.v k l m‖ ≤ 2 ^ (350 : ℤ)) → BL3 (c.Lj mr j) (c.Nj mr j) (c.L0 mr j) u → (c.reality = true → Herm3 u) →
    ∃ p t', wI j (t.map C64.ofC) = .ok p ∧ wF j p = .ok (t'.map C64.ofC) ∧
      BL3 (c.Lj mr j) (c.Nj mr j) 0 t' ∧
      norm3 c.L (fun n l m => co3 t' n l m - co3 u n l m) ≤
        δ * norm3 c.L (co3 u) + K * norm3 c.L (fun n l m => co3 t n l m - co3 u n l m) + τ
  scal : ∀ a u, a.r = c.Ls mr → a.c = 2 * c.Ls mr - 1 → (∀ l m, ‖a.v l m‖ ≤ 2 ^ (350 : ℤ)) →
    BL2 (c.Ls mr) c.spin u → (c.reality = true → Herm2 u) →
    ∃ p a', sI (a.map C64.ofC) = .ok p ∧ sF p = .ok (a'.map C64.ofC) ∧
      BL2 (c.Ls mr) 0 a' ∧
      norm2 c.L (fun l m => co2 a' l m - co2 u l m) ≤ δ * norm2 c.L (co2 u) + K * norm2 c.L (fun l m => co2 a l m - co2 u l m) + τ

/-- what a round trip computes, step by step: coefficients of the wavelet maps, the maps `p j`; those of the scaling map, the map `ps`;
and the coefficients `g` of the sum over all maps -/
structure PipeRun {P : Type} (O O' : Ops C64 F64) (mr : Bool) (c : Cfg) (J : ℤ) (wI : ℤ → Arr3 C64 → Py P) (wF : ℤ → P → Py (Arr3 C64)) (sI : Arr2 C64 → Py P)
    (sF : P → Py (Arr2 C64)) (psi : Arr3 ℂ) (phi : Arr1 ℝ) (flm : Arr2 ℂ) (p : ℤ → P) (ps : P) (g : Arr2 ℂ) : Prop where
  wav : ∃ t : ℤ → Arr3 C64, harmW O mr (flm.map C64.ofC) c.L c.N c.J_min J c.lam (some (psi.map C64.ofC)) =
      .ok ((pyRange c.J_min (J + 1)).map t) ∧ ∀ j, c.J_min ≤ j → j < J + 1 → wI j (t j) = .ok (p j)
  scal : ∃ a, harmS O mr (flm.map C64.ofC) c.L c.J_min c.lam (some (phi.map F64.fin)) = .ok a ∧ sI a = .ok ps
  syn : ∃ (t' : ℤ → Arr3 C64) (s' : Arr2 C64), (∀ j, c.J_min ≤ j → j < J + 1 → wF j (p j) = .ok (t' j)) ∧ sF ps = .ok s' ∧
    harmSum O' mr ((pyRange c.J_min (J + 1)).map t') s' c.L c.N c.J_min J c.lam (some (psi.map C64.ofC, phi.map F64.fin)) =
      .ok (g.map C64.ofC)
  r : g.r = c.L
  c : g.c = 2 * c.L - 1

/-- **C107** the programs over an arbitrary arithmetic are, in exact arithmetic, the programs of the exact model, on all inputs. -/
theorem C107_exact (E : CFFT) (jm : JMax) (L N J_min : ℤ) (lam : ℝ) (spin : ℤ) (sampling : String) (reality : Bool)
    (filters : Option (Arr3 ℂ × Arr1 ℝ)) :
    (∀ f, analysisO Ops.exact E.toO (Real.sqrt (1 / (4 * Real.pi))) jm f L N J_min lam spin sampling reality filters =
      C.analysis jm E f L N J_min lam spin sampling reality filters) ∧
    (∀ w s, synthesisO Ops.exact E.toO jm w s L N J_min lam spin sampling reality filters =
      C.synthesis jm E w s L N J_min lam spin sampling reality filters) := by
  constructor
  · intro f
    unfold analysisO C.analysis scalMapO
    simp only [(C105_exact (jm := jm)).1, (C105_exact (jm := jm) (N := 0) (J := 0)).2.1, CFFT.toO]
    by_cases h1 : scal_bandlimit L J_min lam true = 1
    · simp only [if_pos h1]; rfl
    · simp only [if_neg h1]
  · intro w s
    unfold synthesisO C.synthesis
    simp only [(C105_exact (jm := jm)).2.2]
    rfl

variable {O O' : Ops C64 F64} {mr : Bool} {jm : JMax} {c : Cfg} {J : ℤ} {psi : Arr3 ℂ} {phi : Arr1 ℝ} {flm : Arr2 ℂ} {P : Type} {E : CFFTO C64 P}
  {c1 : F64} {ix : ℕ} {δ K τ : ℝ} {f : P}

/-- the harmonic-space part of the analysis, with bounds on what it returns -/
theorem ana_pipe (hO : O.Good) (hL : 1 ≤ c.L) (hL' : c.L ≤ 2 ^ 52) (hlam : 1 < c.lam) (hN : 1 ≤ c.N) (hNL : c.N ≤ c.L) (h0 : 0 ≤ c.J_min) (h1 : c.J_min ≤ J + 1)
    (hG : c.Filters J mr psi phi) (hbl : BL2 c.L 0 flm)
    (hf : ∀ l m, ‖flm.v l m‖ ≤ 2 ^ (300 : ℤ)) (hpsi : ∀ j, c.J_min ≤ j → j ≤ J → ∀ l n, 0 ≤ l → l < c.L → ‖psi.v j l n‖ ≤ 2 ^ (30 : ℤ))
    (hphi : ∀ l, 0 ≤ l → l < c.L → |phi.v l| ≤ 2 ^ (30 : ℤ)) :
    ∃ (t : ℤ → Arr3 ℂ) (s : Arr2 ℂ),
      harmW O mr (flm.map C64.ofC) c.L c.N c.J_min J c.lam (some (psi.map C64.ofC)) =
        .ok ((pyRange c.J_min (J + 1)).map fun j => (t j).map C64.ofC) ∧
      harmS O mr (flm.map C64.ofC) c.L c.J_min c.lam (some (phi.map F64.fin)) = .ok (s.map C64.ofC) ∧
      (∀ j, c.J_min ≤ j → j ≤ J → (t j).d = 2 * c.Nj mr j - 1 ∧ (t j).r = c.Lj mr j ∧ (t j).c = 2 * c.Lj mr j - 1 ∧
        (∀ k l m, ‖(t j).v k l m‖ ≤ 2 ^ (350 : ℤ)) ∧
        ∀ n l m, ‖co3 (t j) n l m - co3 (wavCoeffs (c.Lj mr j) (c.Nj mr j) (fun l n => psi.v j l (c.L - 1 + n)) flm) n l m‖ ≤
          2 ^ (-47 : ℤ) * ‖co3 (wavCoeffs (c.Lj mr j) (c.Nj mr j) (fun l n => psi.v j l (c.L - 1 + n)) flm) n l m‖ + 2 ^ (-690 : ℤ)) ∧
      s.r = c.Ls mr ∧ s.c = 2 * c.Ls mr - 1 ∧ (∀ l m, ‖s.v l m‖ ≤ 2 ^ (350 : ℤ)) ∧
      ∀ l m, ‖co2 s l m - co2 (scalCoeffs (c.Ls mr) phi.v flm) l m‖ ≤
        2 ^ (-47 : ℤ) * ‖co2 (scalCoeffs (c.Ls mr) phi.v flm) l m‖ + 2 ^ (-690 : ℤ) := by
  have hb := scal_bandlimit_bounds hL hlam c.J_min mr
  obtain ⟨t', ht'⟩ := anaWO_double (psi := psi) hO hL' hf
  obtain ⟨s', hs'⟩ := anaSO_double (phi := phi) hO hL' hphi hf
  obtain ⟨S1, S2, S3, S4⟩ := hs' (c.Ls mr) hb.2
  have T1 := fun j a0 a1 => ht' j (c.Lj mr j) (c.Nj mr j) (c.L0 mr j) (hpsi j a0 a1)
    (LN_bounds hL hN hNL hlam j mr (rfl : LN_j c.L j c.N c.lam mr = (c.Lj mr j, c.Nj mr j, c.L0 mr j))).2.2.2.2
    (LN_j_Lj_bounds (N := c.N) hL hlam j mr).2
  have tiny : ∀ {x y : ℂ}, ‖x - y‖ ≤ 2 ^ (-47 : ℤ) * ‖y‖ + 2 ^ (-690 : ℤ) → ‖y‖ ≤ 2 ^ (340 : ℤ) → ‖x‖ ≤ 2 ^ (350 : ℤ) := by
    intro x y hxy hy
    have e1 : ‖x‖ ≤ ‖y‖ + ‖x - y‖ := by
      have := norm_add_le y (x - y)
      rwa [add_sub_cancel] at this
    have e2 : (2 : ℝ) ^ (-47 : ℤ) * ‖y‖ ≤ 2 ^ (340 : ℤ) := p2_mul (a := -47) (b := 340) _ le_rfl hy (norm_nonneg _) (by norm_num)
    exact e1.trans (p2_add (a := 340) (b := 342) _ hy (hxy.trans (p2_add (a := 340) (b := -690) _ e2 le_rfl (by norm_num) (by norm_num)))
      (by norm_num) (by norm_num))
  have hW : ∀ j, c.J_min ≤ j → j ≤ J → ∀ k l m, ‖(t' j (c.Lj mr j) (c.Nj mr j) (c.L0 mr j)).v k l m -
        (anaW c.L (c.Lj mr j) (c.Nj mr j) (c.L0 mr j) psi j flm).v k l m‖ ≤
      2 ^ (-47 : ℤ) * ‖(anaW c.L (c.Lj mr j) (c.Nj mr j) (c.L0 mr j) psi j flm).v k l m‖ + 2 ^ (-690 : ℤ) := by
    intro j a0 a1 k l m
    obtain ⟨-, a, b, d, e⟩ := T1 j a0 a1
    by_cases hl : 0 ≤ l ∧ l < c.Lj mr j
    · refine (e k l m hl.1 hl.2).2.trans (add_le_add (mul_le_mul_of_nonneg_right pow5_le (norm_nonneg _)) ?_)
      exact tiny690 (by norm_num) (norm_nonneg _) (hf _ _)
    · rw [Arr3.junk _ k l m (by rw [b]; tauto), anaW, Arr3.of_out _ _ _ _ _ _ _ (by tauto), sub_zero, norm_zero, mul_zero, zero_add]
      positivity
  have hWb : ∀ j, c.J_min ≤ j → j ≤ J → ∀ k l m, ‖(anaW c.L (c.Lj mr j) (c.Nj mr j) (c.L0 mr j) psi j flm).v k l m‖ ≤ 2 ^ (340 : ℤ) := by
    intro j a0 a1 k l m
    have hLj := (LN_j_Lj_bounds (N := c.N) hL hlam j mr).2
    have hLj' : c.Lj mr j ≤ c.L := hLj
    unfold anaW
    by_cases hr : 0 ≤ k ∧ k < 2 * c.Nj mr j - 1 ∧ 0 ≤ l ∧ l < c.Lj mr j ∧ 0 ≤ m ∧ m < 2 * c.Lj mr j - 1
    · rw [Arr3.of_v _ _ _ _ _ _ _ hr]
      split_ifs
      · rw [norm_mul, norm_mul, Complex.norm_conj, Complex.norm_real]
        have k8b := k8_bounds hr.2.2.1
        have : ‖8 * Real.pi ^ 2 / (2 * (l : ℝ) + 1)‖ = k8 l := by
          rw [Real.norm_of_nonneg]; · rfl
          · exact k8b.1.le
        rw [this]
        exact p2_mul (a := 300) (b := 37) _ (hf _ _) (p2_mul (a := 30) (b := 7) _ (hpsi j a0 a1 _ _ hr.2.2.1 (by omega)) k8b.2 k8b.1.le (by norm_num))
          (mul_nonneg (norm_nonneg _) k8b.1.le) (by norm_num)
      · rw [norm_zero]; positivity
    · rw [Arr3.of_out _ _ _ _ _ _ _ hr, norm_zero]; positivity
  have hS : ∀ l m, ‖(s' (c.Ls mr)).v l m - (anaS c.L (c.Ls mr) phi flm).v l m‖ ≤ 2 ^ (-47 : ℤ) * ‖(anaS c.L (c.Ls mr) phi flm).v l m‖ + 2 ^ (-690 : ℤ) := by
    intro l m
    by_cases hl : 0 ≤ l ∧ l < c.Ls mr
    · refine (S4 l m hl.1 hl.2).2.trans (add_le_add (mul_le_mul_of_nonneg_right ?_ (norm_nonneg _)) ?_)
      · exact (sub_le_sub_right (up_mono (by norm_num)) _).trans pow5_le
      · refine le_trans ?_ (tiny690 (f := ‖flm.v l (c.L - c.Ls mr + m)‖) (k := 3) (by norm_num) (norm_nonneg _) (hf _ _))
        have := eta_pos
        have := uu_pos
        gcongr
        norm_num
    · rw [Arr2.junk _ l m (by rw [S2]; tauto), anaS, Arr2.of_out _ _ _ _ _ (by tauto), sub_zero, norm_zero, mul_zero, zero_add]
      positivity
  have hSb : ∀ l m, ‖(anaS c.L (c.Ls mr) phi flm).v l m‖ ≤ 2 ^ (340 : ℤ) := by
    intro l m
    have hLs : c.Ls mr ≤ c.L := hb.2
    unfold anaS
    by_cases hr : 0 ≤ l ∧ l < c.Ls mr ∧ 0 ≤ m ∧ m < 2 * c.Ls mr - 1
    · rw [Arr2.of_v _ _ _ _ _ hr, norm_mul, Complex.norm_real, Real.norm_eq_abs, abs_mul]
      have k4b := k4_bounds hr.1
      have : |Real.sqrt (4 * Real.pi / (2 * (l : ℝ) + 1))| = k4 l := by
        rw [abs_of_nonneg]; · rfl
        · exact k4b.1.le
      rw [this]
      exact p2_mul (a := 300) (b := 32) _ (hf _ _) (p2_mul (a := 30) (b := 2) _ (hphi _ hr.1 (by omega)) k4b.2 k4b.1.le (by norm_num))
        (mul_nonneg (abs_nonneg _) k4b.1.le) (by norm_num)
    · rw [Arr2.of_out _ _ _ _ _ hr, norm_zero]; positivity
  refine ⟨fun j => t' j (c.Lj mr j) (c.Nj mr j) (c.L0 mr j), s' (c.Ls mr), ?_, ?_, fun j a0 a1 => ?_, S2, S3,
    fun l m => tiny (hS l m) (hSb l m), fun l m => ?_⟩
  · rw [harmW_eq O hL hlam hN hNL h0 h1 (flm.map C64.ofC) (psi := psi.map C64.ofC) hG.d hG.r hG.cols hbl.r hbl.c]
    congr 1
    exact List.map_congr_left fun j hj => by rw [mem_pyRange] at hj; exact (T1 j hj.1 (by omega)).1
  · rw [harmS_eq O hL hlam (flm.map C64.ofC) (phi := phi.map F64.fin) hG.n hbl.r hbl.c]
    exact congrArg Except.ok S1
  · obtain ⟨-, a, b, d, -⟩ := T1 j a0 a1
    refine ⟨a, b, d, fun k l m => tiny (hW j a0 a1 k l m) (hWb j a0 a1 k l m), fun n l m => ?_⟩
    have e : wavCoeffs (c.Lj mr j) (c.Nj mr j) (fun l n => psi.v j l (c.L - 1 + n)) flm = _ :=
      (anaW_eq hG.trunc hbl.tri (rfl : LN_j c.L j c.N c.lam mr = (c.Lj mr j, c.Nj mr j, c.L0 mr j))).symm
    rw [e, co3, co3, a, b]
    exact hW j a0 a1 _ _ _
  · rw [← anaS_eq _ hbl.r, co2, co2, S2]
    exact hS _ _

theorem abs_trunc {L N J_min : ℤ} {lam : ℝ} (h : FltTrunc L N J_min lam mr psi phi) : FltTrunc L N J_min lam mr (abs3 psi) (abs1 phi) := by
  refine ⟨fun j l n hne => h.psi j l n fun h0 => hne ?_, fun l hne => h.phi l fun h0 => hne ?_⟩
  · rw [abs3_v, h0, norm_zero, Complex.ofReal_zero]
  · rw [abs1_v, h0, abs_zero]

theorem abs_frame (J_min J L : ℤ) (psi : Arr3 ℂ) (phi : Arr1 ℝ) (l : ℤ) : frameSum J_min J L (abs3 psi) (abs1 phi) l = frameSum J_min J L psi phi l := by
  unfold frameSum
  simp only [abs3_v, abs1_v, Complex.norm_real, Real.norm_eq_abs, abs_norm, sq_abs]

theorem abs3_co (t : Arr3 ℂ) (n l m : ℤ) : co3 (abs3 t) n l m = (‖co3 t n l m‖ : ℂ) := abs3_v _ _ _ _
theorem abs2_co (t : Arr2 ℂ) (l m : ℤ) : co2 (abs2 t) l m = (‖co2 t l m‖ : ℂ) := abs2_v _ _ _

theorem BL3.abs {L N L0 : ℤ} {t : Arr3 ℂ} (h : BL3 L N L0 t) : BL3 L N L0 (abs3 t) :=
  ⟨h.d, h.r, h.c, fun n l m hz => by rw [abs3_co, h.zero n l m hz, norm_zero, Complex.ofReal_zero]⟩

theorem BL2.abs {L s : ℤ} {a : Arr2 ℂ} (h : BL2 L s a) : BL2 L s (abs2 a) :=
  ⟨h.r, h.c, fun l m hz => by rw [abs2_co, h.zero l m hz, norm_zero, Complex.ofReal_zero]⟩

/-- entries of arrays, from a bound on the norm -/
theorem entry3 {L Lj Nj : ℤ} {t : Arr3 ℂ} (h : BL3 Lj Nj 0 t) (hL : Lj ≤ L) (hN : Nj ≤ L) (k l m : ℤ) : ‖t.v k l m‖ ≤ 16 * norm3 L (co3 t) := by
  have h0 := norm3_nonneg L (co3 t)
  by_cases hr : 0 ≤ k ∧ k < t.d ∧ 0 ≤ l ∧ l < t.r ∧ 0 ≤ m ∧ m < t.c
  · have hd := h.d
    have hr' := h.r
    have hc := h.c
    have := norm3_le (L := L) (t := co3 t) (n := k - (Nj - 1)) (l := l) (m := m - (Lj - 1)) (by omega) (by omega) (by omega) (by omega) (by omega) (by omega)
    rwa [co3, h.d, h.r, show (2 * Nj - 1 - 1) / 2 + (k - (Nj - 1)) = k by omega, add_sub_cancel] at this
  · rw [t.junk _ _ _ hr, norm_zero]; positivity

/-- entries of arrays, from a bound on the norm -/
theorem entry2 {L Ls : ℤ} {a : Arr2 ℂ} (h : BL2 Ls 0 a) (hL : Ls ≤ L) (l m : ℤ) : ‖a.v l m‖ ≤ norm2 L (co2 a) := by
  have h0 := norm2_nonneg L (co2 a)
  by_cases hr : 0 ≤ l ∧ l < a.r ∧ 0 ≤ m ∧ m < a.c
  · have hr' := h.r
    have hc := h.c
    have := norm2_le (L := L) (a := co2 a) (l := l) (m := m - (Ls - 1)) (by omega) (by omega) (by omega) (by omega)
    rwa [co2, h.r, add_sub_cancel] at this
  · rw [a.junk _ _ hr, norm_zero]; exact h0

/-- synthesis of anything, compared with the frame sum -/
theorem syn_sub (hF : FltTrunc c.L c.N c.J_min c.lam mr psi phi) (hbl : BL2 c.L 0 flm) (t' : ℤ → Arr3 ℂ) (S' : Arr2 ℂ) {l m : ℤ}
    (hl0 : 0 ≤ l) (hl1 : l < c.L) (hm0 : -c.L < m) (hm1 : m < c.L) :
    co2 (synCoeffs c.L c.J_min J (fun j l n => psi.v j l (c.L - 1 + n)) phi.v t' S') l m - (frameSum c.J_min J c.L psi phi l : ℂ) * co2 flm l m =
      ∑ j ∈ Finset.Icc c.J_min J, ∑ n ∈ Finset.Ioo (-c.L) c.L, psi.v j l (c.L - 1 + n) *
        (co3 (t' j) n l m - co3 (wavCoeffs (c.Lj mr j) (c.Nj mr j) (fun l n => psi.v j l (c.L - 1 + n)) flm) n l m) +
        ((Real.sqrt (4 * Real.pi / (2 * l + 1)) * phi.v l : ℝ) : ℂ) * (co2 S' l m - co2 (scalCoeffs (c.Ls mr) phi.v flm) l m) := by
  have hl' : (0 : ℝ) ≤ l := by exact_mod_cast hl0
  have hpi := Real.pi_pos
  have hwc : ∀ j n l m, co3 (wavCoeffs (c.Lj mr j) (c.Nj mr j) (fun l n => psi.v j l (c.L - 1 + n)) flm) n l m =
      ((8 * Real.pi ^ 2 / (2 * l + 1) : ℝ) : ℂ) * (co2 flm l m * (starRingEnd ℂ) (psi.v j l (c.L - 1 + n))) :=
    fun j n l m => wavCoeffs_co hF hbl.tri (rfl : LN_j c.L j c.N c.lam mr = (c.Lj mr j, c.Nj mr j, c.L0 mr j)) n l m
  have hG1 : (frameSum c.J_min J c.L psi phi l : ℂ) * co2 flm l m =
      ∑ j ∈ Finset.Icc c.J_min J, ∑ n ∈ Finset.Ioo (-c.L) c.L, psi.v j l (c.L - 1 + n) *
        co3 (wavCoeffs (c.Lj mr j) (c.Nj mr j) (fun l n => psi.v j l (c.L - 1 + n)) flm) n l m +
      ((Real.sqrt (4 * Real.pi / (2 * l + 1)) * phi.v l : ℝ) : ℂ) * co2 (scalCoeffs (c.Ls mr) phi.v flm) l m := by
    have hw1 : ∀ j n, psi.v j l (c.L - 1 + n) *
        co3 (wavCoeffs (c.Lj mr j) (c.Nj mr j) (fun l n => psi.v j l (c.L - 1 + n)) flm) n l m =
        (((8 * Real.pi ^ 2 / (2 * l + 1) * ‖psi.v j l (c.L - 1 + n)‖ ^ 2 : ℝ)) : ℂ) * co2 flm l m := by
      intro j n
      rw [hwc]
      have : ((‖psi.v j l (c.L - 1 + n)‖ ^ 2 : ℝ) : ℂ) = psi.v j l (c.L - 1 + n) * (starRingEnd ℂ) (psi.v j l (c.L - 1 + n)) := by
        rw [Complex.mul_conj, Complex.normSq_eq_norm_sq]
      rw [Complex.ofReal_mul, this]
      ring
    have hs1 : co2 (scalCoeffs (c.Ls mr) phi.v flm) l m =
        ((Real.sqrt (4 * Real.pi / (2 * l + 1)) * phi.v l : ℝ) : ℂ) * co2 flm l m := scalCoeffs_co hF hbl.tri l m
    have hsq : ((Real.sqrt (4 * Real.pi / (2 * l + 1)) * phi.v l : ℝ) : ℂ) * ((Real.sqrt (4 * Real.pi / (2 * l + 1)) * phi.v l : ℝ) : ℂ)
        = ((4 * Real.pi / (2 * l + 1) * phi.v l ^ 2 : ℝ) : ℂ) := by
      rw [← Complex.ofReal_mul, ← sq, mul_pow, Real.sq_sqrt (by positivity)]
    simp only [hw1, ← Finset.sum_mul]
    rw [hs1, ← mul_assoc, hsq, ← add_mul]
    congr 1
    rw [frameSum]
    simp only [sum_cols_Ioo (L := c.L), ← Complex.ofReal_sum, ← Complex.ofReal_add, ← Finset.mul_sum]
    rw [add_comm]
  rw [hG1, synCoeffs, co2_of, if_pos (by omega), show c.L - 1 + m - (c.L - 1) = m by ring]
  rw [add_sub_add_comm, ← Finset.sum_sub_distrib, ← mul_sub]
  congr 1
  refine Finset.sum_congr rfl fun j hj => ?_
  rw [← Finset.sum_sub_distrib]
  refine Finset.sum_congr rfl fun n _ => ?_
  rw [← mul_sub]

theorem frame_nonneg (J_min J L : ℤ) (psi : Arr3 ℂ) (phi : Arr1 ℝ) {l : ℤ} (hl : 0 ≤ l) : 0 ≤ frameSum J_min J L psi phi l := by
  have hl' : (0 : ℝ) ≤ l := by exact_mod_cast hl
  have hpi := Real.pi_pos
  have : 0 ≤ ∑ j ∈ Finset.Icc J_min J, ∑ k ∈ Finset.Ico 0 (2 * L - 1), ‖psi.v j l k‖ ^ 2 :=
    Finset.sum_nonneg fun _ _ => Finset.sum_nonneg fun _ _ => sq_nonneg _
  rw [frameSum]
  positivity

/-- the numbers of the error bound -/
theorem pipe_num {B F W D T g G δ' e X : ℝ} (hB0 : 0 ≤ B) (hB2 : B ≤ 2) (hF : 0 ≤ F) (hd' : 0 ≤ δ') (he : 0 ≤ e) (he1 : e ≤ 1 / 100) (hX : 0 ≤ X)
    (hW : W ≤ Real.sqrt B * F) (hD : D ≤ δ' * W + X) (hT : T ≤ (1 + δ') * W + X) (hg : g ≤ Real.sqrt B * D) (hG : G ≤ Real.sqrt B * T) :
    g + e * G ≤ B * ((1 + e) * δ' + e) * F + 2 * X := by
  set b := Real.sqrt B with hb
  have hb0 : 0 ≤ b := Real.sqrt_nonneg _
  have hbb : b ^ 2 = B := Real.sq_sqrt hB0
  have hb1 : b ≤ 3 / 2 := by rw [hb]; exact Real.sqrt_le_iff.2 ⟨by norm_num, by linarith⟩
  have h1 : D ≤ δ' * (b * F) + X := hD.trans (by gcongr)
  have h2 : T ≤ (1 + δ') * (b * F) + X := hT.trans (by gcongr)
  have h3 : g ≤ b * (δ' * (b * F) + X) := hg.trans (by gcongr)
  have h4 : e * G ≤ e * (b * ((1 + δ') * (b * F) + X)) := mul_le_mul_of_nonneg_left (hG.trans (by gcongr)) he
  have h5 : b * (δ' * (b * F) + X) + e * (b * ((1 + δ') * (b * F) + X)) = b ^ 2 * ((1 + e) * δ' + e) * F + b * (1 + e) * X := by ring
  have h6 : b * (1 + e) ≤ 2 := by nlinarith
  have h7 := mul_le_mul_of_nonneg_right h6 hX
  rw [← hbb]
  linarith

variable {wI : ℤ → Arr3 C64 → Py P} {wF : ℤ → P → Py (Arr3 C64)} {sI : Arr2 C64 → Py P} {sF : P → Py (Arr2 C64)}

/-- a round trip, given what the analysis hands to the inverse transforms (`t`, `s`) and a synthesis (`R`) accurate to a relative error `e` -/
theorem pipe_core {e : ℝ} (he0 : 0 ≤ e) (he1 : e ≤ 1 / 100) (hn : PipeNear c J mr wI wF sI sF δ K τ) (hδ : 0 ≤ δ) (hδ1 : δ ≤ 1) (hK : 0 ≤ K) (hK1 : K ≤ 2 ^ 20)
    (hτ : 0 ≤ τ) (hτ1 : τ ≤ 1) (hv : c.Valid jm J) (hL' : c.L ≤ 2 ^ 52) (hJ : J < 2 ^ 10) (hG : c.Filters J mr psi phi) {B : ℝ}
    (hB : ∀ l, 0 ≤ l → l < c.L → frameSum c.J_min J c.L psi phi l ≤ B) (hB2 : B ≤ 2)
    (hbl : BL2 c.L 0 flm) (hherm : c.reality = true → Herm2 flm)
    (hfb : ∀ l m, ‖co2 flm l m‖ ≤ 2 ^ (300 : ℤ)) {t : ℤ → Arr3 ℂ} {s : Arr2 ℂ}
    (A3 : ∀ j, c.J_min ≤ j → j ≤ J → (t j).d = 2 * c.Nj mr j - 1 ∧ (t j).r = c.Lj mr j ∧ (t j).c = 2 * c.Lj mr j - 1 ∧
        (∀ k l m, ‖(t j).v k l m‖ ≤ 2 ^ (350 : ℤ)) ∧
        ∀ n l m, ‖co3 (t j) n l m - co3 (wavCoeffs (c.Lj mr j) (c.Nj mr j) (fun l n => psi.v j l (c.L - 1 + n)) flm) n l m‖ ≤
          2 ^ (-47 : ℤ) * ‖co3 (wavCoeffs (c.Lj mr j) (c.Nj mr j) (fun l n => psi.v j l (c.L - 1 + n)) flm) n l m‖ + 2 ^ (-690 : ℤ))
    (A4 : s.r = c.Ls mr) (A5 : s.c = 2 * c.Ls mr - 1) (A6 : ∀ l m, ‖s.v l m‖ ≤ 2 ^ (350 : ℤ))
    (A7 : ∀ l m, ‖co2 s l m - co2 (scalCoeffs (c.Ls mr) phi.v flm) l m‖ ≤
        2 ^ (-47 : ℤ) * ‖co2 (scalCoeffs (c.Ls mr) phi.v flm) l m‖ + 2 ^ (-690 : ℤ))
    {R : (ℤ → Arr3 ℂ) → Arr2 ℂ → Arr2 ℂ → Prop}
    (hsyn : ∀ (t' : ℤ → Arr3 ℂ) (s' : Arr2 ℂ), (∀ j, c.J_min ≤ j → j ≤ J → BL3 (c.Lj mr j) (c.Nj mr j) 0 (t' j)) → BL2 (c.Ls mr) 0 s' →
      (∀ j, c.J_min ≤ j → j ≤ J → ∀ k l m, ‖(t' j).v k l m‖ ≤ 2 ^ (380 : ℤ)) → (∀ l m, ‖s'.v l m‖ ≤ 2 ^ (380 : ℤ)) →
      ∃ g, R t' s' g ∧ g.r = c.L ∧ g.c = 2 * c.L - 1 ∧
        ∀ l m, ‖g.v l m - (synA c.L c.N c.J_min J c.lam mr psi phi t' s').v l m‖ ≤
          e * ‖(synA c.L c.N c.J_min J c.lam mr (abs3 psi) (abs1 phi) (fun j => abs3 (t' j)) (abs2 s')).v l m‖ + 2 ^ (-610 : ℤ)) :
    ∃ (p : ℤ → P) (ps : P) (t' : ℤ → Arr3 ℂ) (s' g : Arr2 ℂ), (∀ j, c.J_min ≤ j → j < J + 1 → wI j ((t j).map C64.ofC) = .ok (p j)) ∧ sI (s.map C64.ofC) = .ok ps ∧
      (∀ j, c.J_min ≤ j → j < J + 1 → wF j (p j) = .ok ((t' j).map C64.ofC)) ∧ sF ps = .ok (s'.map C64.ofC) ∧ R t' s' g ∧
      g.r = c.L ∧ g.c = 2 * c.L - 1 ∧
      norm2 c.L (fun l m => co2 g l m - (frameSum c.J_min J c.L psi phi l : ℂ) * co2 flm l m) ≤
        B * ((1 + e) * (δ + K * 2 ^ (-47 : ℤ)) + e) * norm2 c.L (co2 flm) + (2 * (J + 2) * τ + 2 ^ (-550 : ℤ)) := by
  have hL := hv.top.hL
  have hlam := hv.top.hlam
  have h0 := hv.h0
  have h1 := hv.h1
  have hN := hv.hN
  have hNL := hv.hNL
  have hF := hG.trunc
  set W : ℤ → Arr3 ℂ := fun j => wavCoeffs (c.Lj mr j) (c.Nj mr j) (fun l n => psi.v j l (c.L - 1 + n)) flm with hW
  set S := scalCoeffs (c.Ls mr) phi.v flm with hS
  have hwb := fun j => hG.wav_bl hbl j
  have hsb := hG.scal_bl hbl
  have hp : ∀ j, c.J_min ≤ j → j ≤ J → ∃ p t', wI j ((t j).map C64.ofC) = .ok p ∧ wF j p = .ok (t'.map C64.ofC) ∧
      BL3 (c.Lj mr j) (c.Nj mr j) 0 t' ∧
      norm3 c.L (fun n l m => co3 t' n l m - co3 (W j) n l m) ≤
        δ * norm3 c.L (co3 (W j)) + K * norm3 c.L (fun n l m => co3 (t j) n l m - co3 (W j) n l m) + τ := fun j a0 a1 => by
    obtain ⟨b1, b2, b3, b4, -⟩ := A3 j a0 a1
    exact hn.wav j (t j) (W j) a0 a1 b1 b2 b3 b4 (hwb j).1 fun hr => (hwb j).2 hr (hherm hr)
  obtain ⟨ps, s', hps, hs', hs'b, hs'n⟩ := hn.scal s S A4 A5 A6 hsb.1 fun hr => hsb.2 (hherm hr)
  have : Nonempty P := ⟨ps⟩
  have : Nonempty (Arr3 ℂ) := ⟨z3⟩
  choose! p t' hpI hpF hpb hpn using hp
  -- norms
  set ε : ℝ := 2 ^ (-47 : ℤ) with hε
  set q : ℝ := 2 ^ (-690 : ℤ) * 2 ^ 106 with hq
  have hε0 : 0 ≤ ε := by positivity
  have hq0 : 0 ≤ q := by positivity
  have hB0 : 0 ≤ B := (frame_nonneg c.J_min J c.L psi phi le_rfl).trans (hB 0 le_rfl (by omega))
  have N1 : ∀ j, c.J_min ≤ j → j ≤ J → norm3 c.L (fun n l m => co3 (t j) n l m - co3 (W j) n l m) ≤ ε * norm3 c.L (co3 (W j)) + q :=
    fun j a0 a1 => norm3_entry hL hL' hε0 (by positivity) (A3 j a0 a1).2.2.2.2
  have N2 : norm2 c.L (fun l m => co2 s l m - co2 S l m) ≤ ε * norm2 c.L (co2 S) + q := by
    refine (norm2_entry hL hL' hε0 (q := 2 ^ (-690 : ℤ)) (by positivity) (fun l m _ _ _ _ => A7 l m)).trans ?_
    rw [hq]
    gcongr <;> norm_num
  set X0 := K * q + τ with hX0
  have hX00 : 0 ≤ X0 := by positivity
  set δ' := δ + K * ε with hδ'
  have hδ'0 : 0 ≤ δ' := by positivity
  have D1 : ∀ j, c.J_min ≤ j → j ≤ J → norm3 c.L (fun n l m => co3 (t' j) n l m - co3 (W j) n l m) ≤ δ' * norm3 c.L (co3 (W j)) + X0 := by
    intro j a0 a1
    have := mul_le_mul_of_nonneg_left (N1 j a0 a1) hK
    have := hpn j a0 a1
    rw [hδ', hX0]
    linarith
  have D2 : norm2 c.L (fun l m => co2 s' l m - co2 S l m) ≤ δ' * norm2 c.L (co2 S) + X0 := by
    have := mul_le_mul_of_nonneg_left N2 hK
    rw [hδ', hX0]
    linarith
  have hJR : ((J : ℝ) + 2 - c.J_min) * X0 ≤ (J + 2) * X0 := by
    have : (0 : ℝ) ≤ c.J_min := by exact_mod_cast h0
    exact mul_le_mul_of_nonneg_right (by linarith) hX00
  have hDT : normT c.L c.J_min J (fun j n l m => co3 (t' j) n l m - co3 (W j) n l m) (fun l m => co2 s' l m - co2 S l m) ≤
      δ' * normT c.L c.J_min J (fun j => co3 (W j)) (co2 S) + (J + 2) * X0 :=
    (normT_le (by omega) hδ'0 hX00 D1 D2).trans (by linarith)
  have hTT : normT c.L c.J_min J (fun j => co3 (t' j)) (co2 s') ≤ (1 + δ') * normT c.L c.J_min J (fun j => co3 (W j)) (co2 S) + (J + 2) * X0 := by
    refine (normT_le (by omega) (by positivity) hX00 (fun j a0 a1 => ?_) ?_).trans (add_le_add le_rfl hJR)
    · have := norm3_add c.L (a := co3 (t' j)) (b := co3 (W j)) (c := fun n l m => co3 (t' j) n l m - co3 (W j) n l m) fun n l m => by
        have := norm_add_le (co3 (W j) n l m) (co3 (t' j) n l m - co3 (W j) n l m)
        rwa [add_sub_cancel] at this
      have := D1 j a0 a1
      linarith
    · have := norm2_add c.L (a := co2 s') (b := co2 S) (c := fun l m => co2 s' l m - co2 S l m) fun l m => by
        have := norm_add_le (co2 S l m) (co2 s' l m - co2 S l m)
        rwa [add_sub_cancel] at this
      linarith
  have hWT : normT c.L c.J_min J (fun j => co3 (W j)) (co2 S) ≤ Real.sqrt B * norm2 c.L (co2 flm) :=
    normT_ana psi phi hB0 hB (fun j n l m => wavCoeffs_co hF hbl.tri (rfl : LN_j c.L j c.N c.lam mr = (c.Lj mr j, c.Nj mr j, c.L0 mr j)) n l m)
      fun l m => scalCoeffs_co hF hbl.tri l m
  -- bounds on the coefficients handed to the synthesis
  have hF0 := norm2_nonneg c.L (co2 flm)
  have hFb : norm2 c.L (co2 flm) ≤ 2 ^ (354 : ℤ) := by
    refine (norm2_entry hL hL' le_rfl (b := fun _ _ => 0) (q := 2 ^ (300 : ℤ)) (by positivity) fun l m _ _ _ _ => ?_).trans ?_
    · rw [zero_mul, zero_add]; exact hfb l m
    · rw [zero_mul, zero_add]
      exact p2_mul (a := 300) (b := 54) _ le_rfl (by norm_num) (by positivity) (by norm_num)
  have hq1 : q ≤ 2 ^ (-584 : ℤ) := p2_mul (a := -690) (b := 106) _ le_rfl (by norm_num) (by positivity) (by norm_num)
  have hJ0 : (0 : ℝ) ≤ (J : ℝ) := by exact_mod_cast (by omega : 0 ≤ J)
  have hJ2 : (J : ℝ) + 2 ≤ 2 ^ (11 : ℤ) := by
    have : (J : ℝ) < 2 ^ 10 := by exact_mod_cast hJ
    norm_num at this ⊢
    linarith
  have hKz : K ≤ 2 ^ (20 : ℤ) := by norm_num at hK1 ⊢; exact hK1
  have hKq : K * q ≤ 2 ^ (-564 : ℤ) := p2_mul (a := 20) (b := -584) _ hKz hq1 hq0 (by norm_num)
  have hXb : (J + 2) * X0 ≤ 2 ^ (20 : ℤ) :=
    p2_mul (a := 11) (b := 1) _ hJ2 (p2_add (a := -564) (b := 0) _ hKq (by rw [zpow_zero]; exact hτ1) (by norm_num) (by norm_num)) hX00 (by norm_num)
  have hsB : Real.sqrt B ≤ 2 ^ (1 : ℤ) := Real.sqrt_le_iff.2 ⟨by norm_num, by norm_num; linarith⟩
  have hδ'1 : 1 + δ' ≤ 2 ^ (2 : ℤ) := by
    have : K * ε ≤ 2 ^ (0 : ℤ) := p2_mul (a := 20) (b := -47) _ hKz le_rfl hε0 (by norm_num)
    rw [zpow_zero] at this
    rw [hδ']
    norm_num
    linarith
  have hTb : normT c.L c.J_min J (fun j => co3 (t' j)) (co2 s') ≤ 2 ^ (360 : ℤ) :=
    hTT.trans (p2_add (a := 357) (b := 20) _
      (p2_mul (a := 2) (b := 355) _ hδ'1 (hWT.trans (p2_mul (a := 1) (b := 354) _ hsB hFb hF0 (by norm_num))) (normT_nonneg _ _ _ _ _) (by norm_num))
      hXb (by norm_num) (by norm_num))
  have hte : ∀ j, c.J_min ≤ j → j ≤ J → ∀ k l m, ‖(t' j).v k l m‖ ≤ 2 ^ (380 : ℤ) := by
    intro j a0 a1 k l m
    refine (entry3 (L := c.L) (hpb j a0 a1) (LN_j_Lj_bounds (N := c.N) hL hlam j mr).2 ((LN_j_Nj_bounds hL hlam hN j mr).2.1.trans hNL) k l m).trans ?_
    exact p2_mul (a := 4) (b := 360) _ (by norm_num) ((norm3_le_normT (d := fun j => co3 (t' j)) a0 a1).trans hTb) (norm3_nonneg _ _) (by norm_num)
  have hse : ∀ l m, ‖s'.v l m‖ ≤ 2 ^ (380 : ℤ) := fun l m =>
    (entry2 hs'b (scal_bandlimit_bounds hL hlam c.J_min mr).2 l m).trans ((norm2_le_normT.trans hTb).trans (p2_mono (by norm_num)))
  -- the synthesis
  obtain ⟨g', G2, G4, G5, G6⟩ := hsyn t' s' hpb hs'b hte hse
  set g := synA c.L c.N c.J_min J c.lam mr psi phi t' s' with hg
  set G := synA c.L c.N c.J_min J c.lam mr (abs3 psi) (abs1 phi) (fun j => abs3 (t' j)) (abs2 s') with hG'
  have hgE : g = synCoeffs c.L c.J_min J (fun j l n => psi.v j l (c.L - 1 + n)) phi.v t' s' :=
    synA_eq hF hG.cols (fun j a0 a1 => (hpb j a0 (by omega)).tri) hs'b.tri
  have hGE : G = synCoeffs c.L c.J_min J (fun j l n => (abs3 psi).v j l (c.L - 1 + n)) (abs1 phi).v (fun j => abs3 (t' j)) (abs2 s') :=
    synA_eq (abs_trunc hF) hG.cols (fun j a0 a1 => (hpb j a0 (by omega)).abs.tri) hs'b.abs.tri
  have hgr : g.r = c.L := by rw [hgE]; rfl
  have hGr : G.r = c.L := by rw [hGE]; rfl
  have hgN : norm2 c.L (fun l m => co2 g l m - (frameSum c.J_min J c.L psi phi l : ℂ) * co2 flm l m) ≤ Real.sqrt B *
      normT c.L c.J_min J (fun j n l m => co3 (t' j) n l m - co3 (W j) n l m) (fun l m => co2 s' l m - co2 S l m) :=
    norm2_syn psi phi hB0 hB _ _ fun l m a0 a1 b0 b1 => by rw [hgE]; exact syn_sub hF hbl t' s' a0 a1 b0 b1
  have hGN : norm2 c.L (co2 G) ≤ Real.sqrt B * normT c.L c.J_min J (fun j => co3 (t' j)) (co2 s') := by
    have e : normT c.L c.J_min J (fun j => co3 (abs3 (t' j))) (co2 (abs2 s')) = normT c.L c.J_min J (fun j => co3 (t' j)) (co2 s') := by
      unfold normT energy3 energy2
      simp only [abs3_co, abs2_co, Complex.norm_real, norm_norm]
    rw [← e]
    refine norm2_syn (abs3 psi) (abs1 phi) hB0 (fun l a0 a1 => by rw [abs_frame]; exact hB l a0 a1) _ _ fun l m a0 a1 b0 b1 => ?_
    rw [hGE, synCoeffs, co2_of, if_pos (by omega), show c.L - 1 + m - (c.L - 1) = m by ring]
  have hgg : norm2 c.L (fun l m => co2 g' l m - co2 g l m) ≤ e * norm2 c.L (co2 G) + 2 ^ (-610 : ℤ) * 2 ^ 54 :=
    norm2_entry hL hL' he0 (by positivity) fun l m _ _ _ _ => by
      rw [co2, co2, co2, G4, hgr, hGr]
      exact G6 _ _
  refine ⟨p, ps, t', s', g', fun j a0 a1 => hpI j a0 (by omega), hps, fun j a0 a1 => hpF j a0 (by omega), hs', G2, G4, G5, ?_⟩
  have hfin := norm2_add c.L (a := fun l m => co2 g' l m - (frameSum c.J_min J c.L psi phi l : ℂ) * co2 flm l m)
    (b := fun l m => co2 g l m - (frameSum c.J_min J c.L psi phi l : ℂ) * co2 flm l m) (c := fun l m => co2 g' l m - co2 g l m) fun l m => by
      refine le_trans (le_of_eq ?_) (norm_add_le _ _)
      congr 1
      ring
  have hnum := pipe_num hB0 hB2 hF0 hδ'0 he0 he1 (by positivity) hWT hDT hTT hgN hGN
  have hsm : 2 * ((J + 2) * X0) + 2 ^ (-610 : ℤ) * 2 ^ 54 ≤ 2 * (J + 2) * τ + 2 ^ (-550 : ℤ) := by
    have a1 : 2 * ((J + 2) * (K * q)) ≤ (2 : ℝ) ^ (-552 : ℤ) := p2_mul (a := 1) (b := -553) _ (by norm_num)
      (p2_mul (a := 11) (b := -564) _ hJ2 hKq (by positivity) (by norm_num)) (by positivity) (by norm_num)
    have a2 : (2 : ℝ) ^ (-610 : ℤ) * 2 ^ 54 ≤ 2 ^ (-556 : ℤ) := p2_mul (a := -610) (b := 54) _ le_rfl (by norm_num) (by positivity) (by norm_num)
    have a3 := p2_add (a := -552) (b := -556) (-550) a1 a2 (by norm_num) (by norm_num)
    rw [hX0]
    generalize (2 : ℝ) ^ (-610 : ℤ) * 2 ^ 54 = P1 at *
    generalize (2 : ℝ) ^ (-550 : ℤ) = P2 at *
    linarith
  generalize (2 : ℝ) ^ (-610 : ℤ) * 2 ^ 54 = P1 at *
  generalize (2 : ℝ) ^ (-550 : ℤ) = P2 at *
  linarith

theorem pipe_round_trip (hO : O.Good) (hO' : O'.Good) (hn : PipeNear c J mr wI wF sI sF δ K τ) (hδ : 0 ≤ δ) (hδ1 : δ ≤ 1) (hK : 0 ≤ K) (hK1 : K ≤ 2 ^ 20) (hτ : 0 ≤ τ) (hτ1 : τ ≤ 1)
    (hv : c.Valid jm J) (hL' : c.L ≤ 2 ^ 52) (hN' : c.N ≤ 2 ^ 10) (hJ : J < 2 ^ 10) (hG : c.Filters J mr psi phi) {B : ℝ}
    (hB : ∀ l, 0 ≤ l → l < c.L → frameSum c.J_min J c.L psi phi l ≤ B) (hB2 : B ≤ 2)
    (hbl : BL2 c.L 0 flm) (hherm : c.reality = true → Herm2 flm)
    (hfb : ∀ l m, ‖co2 flm l m‖ ≤ 2 ^ (300 : ℤ)) :
    ∃ p ps g, PipeRun O O' mr c J wI wF sI sF psi phi flm p ps g ∧
      norm2 c.L (fun l m => co2 g l m - (frameSum c.J_min J c.L psi phi l : ℂ) * co2 flm l m) ≤
        B * ((1 + (c.N + J + 4) / 2 ^ 49) * (δ + K * 2 ^ (-47 : ℤ)) + (c.N + J + 4) / 2 ^ 49) * norm2 c.L (co2 flm) +
          (2 * (J + 2) * τ + 2 ^ (-550 : ℤ)) := by
  have hL := hv.top.hL
  have hlam := hv.top.hlam
  have h0 := hv.h0
  have h1 := hv.h1
  have hN := hv.hN
  have hNL := hv.hNL
  have hv1 : ∀ l i, ‖flm.v l i‖ ≤ 2 ^ (300 : ℤ) := fun l i => by
    have := hfb l (i - (c.L - 1))
    rwa [co2, hbl.r, add_sub_cancel] at this
  have hpsi : ∀ j, c.J_min ≤ j → j ≤ J → ∀ l n, 0 ≤ l → l < c.L → ‖psi.v j l n‖ ≤ 2 ^ (30 : ℤ) := fun j a0 a1 l n b0 b1 =>
    frame_psi hG.cols b0 (by omega) ((hB l b0 b1).trans hB2) a0 a1 n
  have hphi : ∀ l, 0 ≤ l → l < c.L → |phi.v l| ≤ 2 ^ (30 : ℤ) := fun l b0 b1 => frame_phi b0 (by omega) ((hB l b0 b1).trans hB2)
  obtain ⟨t, s, A1, A2, A3, A4, A5, A6, A7⟩ := ana_pipe (J := J) hO hL hL' hlam hN hNL h0 (by omega) hG hbl hv1 hpsi hphi
  have hN0 : (0 : ℝ) ≤ c.N := by exact_mod_cast (by omega : 0 ≤ c.N)
  have hJ0 : (0 : ℝ) ≤ (J : ℝ) := by exact_mod_cast (by omega : 0 ≤ J)
  have he1 : ((c.N : ℝ) + J + 4) / 2 ^ 49 ≤ 1 / 100 := by
    have h1 : (c.N : ℝ) ≤ 2 ^ 10 := by exact_mod_cast hN'
    have h2 : (J : ℝ) < 2 ^ 10 := by exact_mod_cast hJ
    rw [div_le_iff₀ (by positivity)]
    norm_num at h1 h2 ⊢
    linarith
  obtain ⟨p, ps, t', s', g, b1, b2, b3, b4, b5, b6, b7, b8⟩ := pipe_core (by positivity) he1 hn hδ hδ1 hK hK1 hτ hτ1 hv hL' hJ hG hB hB2 hbl hherm hfb A3 A4 A5 A6 A7
    (R := fun t' s' g => harmSum O' mr ((pyRange c.J_min (J + 1)).map fun j => (t' j).map C64.ofC) (s'.map C64.ofC) c.L c.N c.J_min J c.lam
      (some (psi.map C64.ofC, phi.map F64.fin)) = .ok (g.map C64.ofC)) fun t' s' hpb hs'b hte hse =>
    harm_synthesis (mr := mr) (psi := psi) (phi := phi) hO' hL hL' hlam hN hNL (by omega) h0 (by omega : c.J_min ≤ J + 1) (by omega)
      hG.d hG.r hG.cols hG.n hpsi hphi hs'b.r hs'b.c hse (fun j a0 a1 => ⟨(hpb j a0 (by omega)).d, (hpb j a0 (by omega)).r, (hpb j a0 (by omega)).c⟩) hte
  exact ⟨p, ps, g, ⟨⟨_, A1, b1⟩, ⟨_, A2, b2⟩, ⟨_, _, b3, b4, b5⟩, b6, b7⟩, b8⟩

/-- a frame sum of at most `1 + ρ`, and no frame below the spin -/
theorem frame_bound (hG : c.Filters J mr psi phi) {ρ : ℝ} (hρ0 : 0 ≤ ρ)
    (hF : ∀ l, 0 ≤ l → l < c.L → |c.spin| ≤ l → |frameSum c.J_min J c.L psi phi l - 1| ≤ ρ) :
    ∀ l, 0 ≤ l → l < c.L → frameSum c.J_min J c.L psi phi l ≤ 1 + ρ := by
  have hz : ∀ l, l < |c.spin| → frameSum c.J_min J c.L psi phi l = 0 := by
    intro l hl
    have z1 : phi.v l = 0 := by
      by_contra hne
      have := (hG.scal l hne).2
      omega
    have z2 : ∀ j k, psi.v j l k = 0 := fun j k => by
      by_contra hne
      have := (hG.wav j l (k - (c.L - 1)) (by show psi.v j l (c.L - 1 + (k - (c.L - 1))) ≠ 0; rw [add_sub_cancel]; exact hne)).2.2.2.2.2
      omega
    unfold frameSum
    simp [z1, z2]
  intro l a0 a1
  by_cases hl : |c.spin| ≤ l
  · have := (abs_le.1 (hF l a0 a1 hl)).2
    linarith
  · rw [hz l (by omega)]; positivity

/-- from the frame sum to the signal -/
theorem gain_core (hL : 1 ≤ c.L) (hL' : c.L ≤ 2 ^ 52) {ρ : ℝ} (hρ0 : 0 ≤ ρ) (hρ : ρ ≤ 1 / 200)
    (hF : ∀ l, 0 ≤ l → l < c.L → |c.spin| ≤ l → |frameSum c.J_min J c.L psi phi l - 1| ≤ ρ) (hbl : BL2 c.L c.spin flm)
    {g : Arr2 ℂ} {e δ' X : ℝ} (he0 : 0 ≤ e) (he : e ≤ 1 / 400) (hδ0 : 0 ≤ δ')
    (h5 : norm2 c.L (fun l m => co2 g l m - (frameSum c.J_min J c.L psi phi l : ℂ) * co2 flm l m) ≤
      (1 + ρ) * ((1 + e) * δ' + e) * norm2 c.L (co2 flm) + X) :
    norm2 c.L (fun l m => co2 g l m - co2 flm l m) ≤ (1.01 * δ' + 1.01 * e + ρ) * norm2 c.L (co2 flm) + X := by
  have h6 : norm2 c.L (fun l m => ((frameSum c.J_min J c.L psi phi l : ℂ) - 1) * co2 flm l m) ≤ ρ * norm2 c.L (co2 flm) := by
    have := norm2_entry (a := fun l m => ((frameSum c.J_min J c.L psi phi l : ℂ) - 1) * co2 flm l m) (b := co2 flm) hL hL' hρ0 le_rfl fun l m a0 a1 _ _ => by
      rw [norm_mul, add_zero]
      by_cases hl : |c.spin| ≤ l
      · refine mul_le_mul_of_nonneg_right ?_ (norm_nonneg _)
        have := hF l a0 a1 hl
        rwa [← Complex.ofReal_one, ← Complex.ofReal_sub, Complex.norm_real]
      · rw [hbl.zero l m (Or.inr (by omega)), norm_zero, mul_zero, mul_zero]
    rwa [zero_mul, add_zero] at this
  have h7 := norm2_add c.L (a := fun l m => co2 g l m - co2 flm l m)
    (b := fun l m => co2 g l m - (frameSum c.J_min J c.L psi phi l : ℂ) * co2 flm l m)
    (c := fun l m => ((frameSum c.J_min J c.L psi phi l : ℂ) - 1) * co2 flm l m) fun l m => by
      refine le_trans (le_of_eq ?_) (norm_add_le _ _)
      congr 1
      ring
  set F := norm2 c.L (co2 flm)
  have hF0 : 0 ≤ F := norm2_nonneg _ _
  
  have h8 : (1 + ρ) * ((1 + e) * δ' + e) ≤ 1.01 * δ' + 1.01 * e := by
    have a1 : (1 + ρ) * (1 + e) ≤ (1 + 1 / 200) * (1 + 1 / 400) := by gcongr
    have a2 : (1 + ρ) * (1 + e) * δ' ≤ 1.01 * δ' := mul_le_mul_of_nonneg_right (a1.trans (by norm_num)) hδ0
    have a3 : (1 + ρ) * e ≤ 1.01 * e := mul_le_mul_of_nonneg_right (by linarith) he0
    linarith
  have h9 := mul_le_mul_of_nonneg_right h8 hF0
  linarith

theorem pipe_gain (hO : O.Good) (hO' : O'.Good) (hn : PipeNear c J mr wI wF sI sF δ K τ) (hδ : 0 ≤ δ) (hδ1 : δ ≤ 1) (hK : 0 ≤ K) (hK1 : K ≤ 2 ^ 20) (hτ : 0 ≤ τ) (hτ1 : τ ≤ 1)
    (hv : c.Valid jm J) (hL' : c.L ≤ 2 ^ 52) (hN' : c.N ≤ 2 ^ 10) (hJ : J < 2 ^ 10) (hG : c.Filters J mr psi phi) {ρ : ℝ}
    (hρ : ρ ≤ 1 / 200) (hF : ∀ l, 0 ≤ l → l < c.L → |c.spin| ≤ l → |frameSum c.J_min J c.L psi phi l - 1| ≤ ρ)
    (hbl : BL2 c.L c.spin flm) (hherm : c.reality = true → Herm2 flm)
    (hfb : ∀ l m, ‖co2 flm l m‖ ≤ 2 ^ (300 : ℤ)) (hs : |c.spin| < c.L) :
    ∃ p ps g, PipeRun O O' mr c J wI wF sI sF psi phi flm p ps g ∧
      norm2 c.L (fun l m => co2 g l m - co2 flm l m) ≤
        (1.01 * (δ + K * 2 ^ (-47 : ℤ)) + 1.01 * (c.N + J + 4) / 2 ^ 49 + ρ) * norm2 c.L (co2 flm) + (2 * (J + 2) * τ + 2 ^ (-550 : ℤ)) := by
  have hρ0 : 0 ≤ ρ := (abs_nonneg _).trans (hF |c.spin| (abs_nonneg _) hs le_rfl)
  have hbl0 : BL2 c.L 0 flm := ⟨hbl.r, hbl.c, fun l m h => by
    rcases h with h | h
    · exact hbl.zero l m (Or.inl h)
    · rw [abs_zero] at h
      exact hbl.zero l m (Or.inl (by have := abs_nonneg m; omega))⟩
  have hJ0 : (0 : ℝ) ≤ (J : ℝ) := by have := hv.h0; have := hv.h1; exact_mod_cast (by omega : 0 ≤ J)
  have hN0 : (0 : ℝ) ≤ c.N := by have := hv.hN; exact_mod_cast (by omega : 0 ≤ c.N)
  have hN1 : (c.N : ℝ) ≤ 2 ^ 10 := by exact_mod_cast hN'
  have hJ1 : (J : ℝ) ≤ 2 ^ 10 := by exact_mod_cast hJ.le
  have he : ((c.N : ℝ) + J + 4) / 2 ^ 49 ≤ 1 / 400 := by
    rw [div_le_iff₀ (by positivity)]
    norm_num at hN1 hJ1 ⊢
    linarith
  obtain ⟨p, ps, g, h1, h5⟩ := pipe_round_trip hO hO' hn hδ hδ1 hK hK1 hτ hτ1 hv hL' hN' hJ hG (frame_bound hG hρ0 hF) (by linarith) hbl0 hherm hfb
  refine ⟨p, ps, g, h1, ?_⟩
  rw [mul_div_assoc]
  exact gain_core hv.top.hL hL' hρ0 hρ hF hbl (by positivity) he (by positivity) h5

theorem CFFTO.Near.pipe (hn : E.Near O c1 c J ix δ K τ) :
    PipeNear c J true (fun j a => E.wigInverse a (c.Lj true j) (c.Nj true j) (c.L0 true j) c.sampling c.reality)
      (fun j p => E.wigForward p (c.Lj true j) (c.Nj true j) (c.L0 true j) c.sampling c.reality)
      (fun a => scalMapO O E c1 a (c.Ls true) c.spin c.reality ix)
      (fun p => E.sphForward (if c.reality then E.re p else p) (c.Ls true) c.spin c.reality ix) δ K τ := ⟨hn.wav, hn.scal⟩

/-- the programs of wavelet_c.py do what `PipeRun` says -/
theorem c_run {p : ℤ → P} {ps : P} {g : Arr2 ℂ} (hi : C.sshtIndex c.sampling.toLower = .ok ix) (hJ : jm c.L c.lam = .ok J)
    (hf : E.sphForward f c.L c.spin c.reality ix = .ok (flm.map C64.ofC))
    (hr : PipeRun O O true c J (fun j a => E.wigInverse a (c.Lj true j) (c.Nj true j) (c.L0 true j) c.sampling c.reality)
      (fun j p => E.wigForward p (c.Lj true j) (c.Nj true j) (c.L0 true j) c.sampling c.reality)
      (fun a => scalMapO O E c1 a (c.Ls true) c.spin c.reality ix)
      (fun p => E.sphForward (if c.reality then E.re p else p) (c.Ls true) c.spin c.reality ix) psi phi flm p ps g) :
    analysisO O E c1 jm f c.L c.N c.J_min c.lam c.spin c.sampling c.reality (some (psi.map C64.ofC, phi.map F64.fin)) =
      .ok ((pyRange c.J_min (J + 1)).map p, ps) ∧
    synthesisO O E jm ((pyRange c.J_min (J + 1)).map p) ps c.L c.N c.J_min c.lam c.spin c.sampling c.reality (some (psi.map C64.ofC, phi.map F64.fin)) =
      E.sphInverse (g.map C64.ofC) c.L c.spin c.reality ix := by
  have hnh : c.sampling.toLower ≠ "healpix" := by
    intro h
    rw [h] at hi
    cases hi
  constructor
  · obtain ⟨t, A1, hp⟩ := hr.wav
    rw [harmW_true] at A1
    obtain ⟨a, A2, hps⟩ := hr.scal
    rw [harmS_true] at A2
    have hm : (pyRange c.J_min (J + 1)).mapM (fun j => do
        let a ← listGet ((pyRange c.J_min (J + 1)).map t) (j - c.J_min)
        E.wigInverse a (LN_j c.L j c.N c.lam true).1 (LN_j c.L j c.N c.lam true).2.1 (LN_j c.L j c.N c.lam true).2.2 c.sampling c.reality) =
        .ok ((pyRange c.J_min (J + 1)).map p) := by
      refine mapM_ok fun j hj => ?_
      rw [mem_pyRange] at hj
      rw [listGet_range _ hj.1 hj.2, Py.bind_ok]
      exact hp j hj.1 hj.2
    have hps : scalMapO O E c1 a (scal_bandlimit c.L c.J_min c.lam true) c.spin c.reality ix = .ok ps := hps
    unfold analysisO
    simp only [if_neg hnh, hi, hJ, hf, unNone, Py.bind_ok, A1, A2, hm, hps]
  · obtain ⟨t', s', hp, hs', hg⟩ := hr.syn
    rw [harmSum_true] at hg
    have hm : (pyRange c.J_min (J + 1)).mapM (fun j => do
        let fw ← listGet ((pyRange c.J_min (J + 1)).map p) (j - c.J_min)
        E.wigForward fw (LN_j c.L j c.N c.lam true).1 (LN_j c.L j c.N c.lam true).2.1 (LN_j c.L j c.N c.lam true).2.2 c.sampling c.reality) =
        .ok ((pyRange c.J_min (J + 1)).map t') := by
      refine mapM_ok fun j hj => ?_
      rw [mem_pyRange] at hj
      rw [listGet_range _ hj.1 hj.2, Py.bind_ok]
      exact hp j hj.1 hj.2
    have hs' : E.sphForward (if c.reality then E.re ps else ps) (scal_bandlimit c.L c.J_min c.lam true) c.spin c.reality ix = .ok s' := hs'
    unfold synthesisO
    simp only [if_neg hnh, hi, hJ, hs', Py.bind_ok, hm, hg]

/-- **C107** round trip. All arithmetic of the analysis and synthesis in double precision, with any filters accepted by the transforms whose frame sum is at
most `B ≤ 2`: no exception, no infinity, no NaN (except possibly in the final inverse transform), and the coefficients handed to the
final inverse transform are those of the input times the frame sum, up to a relative error of norm `B ((1 + e) (δ + K 2^-47) + e)`
with `e = (N + J + 4) 2^-49`, and an absolute error for underflow. -/
theorem C107_round_trip (hO : O.Good) (hn : E.Near O c1 c J ix δ K τ) (hδ : 0 ≤ δ) (hδ1 : δ ≤ 1) (hK : 0 ≤ K) (hK1 : K ≤ 2 ^ 20) (hτ : 0 ≤ τ) (hτ1 : τ ≤ 1)
    (hv : c.Valid jm J) (hL' : c.L ≤ 2 ^ 52) (hN' : c.N ≤ 2 ^ 10) (hJ : J < 2 ^ 10) (hG : c.Filters J true psi phi) {B : ℝ}
    (hB : ∀ l, 0 ≤ l → l < c.L → frameSum c.J_min J c.L psi phi l ≤ B) (hB2 : B ≤ 2)
    (hf : E.sphForward f c.L c.spin c.reality ix = .ok (flm.map C64.ofC)) (hbl : BL2 c.L 0 flm) (hherm : c.reality = true → Herm2 flm)
    (hfb : ∀ l m, ‖co2 flm l m‖ ≤ 2 ^ (300 : ℤ)) :
    ∃ w s g, analysisO O E c1 jm f c.L c.N c.J_min c.lam c.spin c.sampling c.reality (some (psi.map C64.ofC, phi.map F64.fin)) = .ok (w, s) ∧
      synthesisO O E jm w s c.L c.N c.J_min c.lam c.spin c.sampling c.reality (some (psi.map C64.ofC, phi.map F64.fin)) =
        E.sphInverse (g.map C64.ofC) c.L c.spin c.reality ix ∧
      g.r = c.L ∧ g.c = 2 * c.L - 1 ∧
      norm2 c.L (fun l m => co2 g l m - (frameSum c.J_min J c.L psi phi l : ℂ) * co2 flm l m) ≤
        B * ((1 + (c.N + J + 4) / 2 ^ 49) * (δ + K * 2 ^ (-47 : ℤ)) + (c.N + J + 4) / 2 ^ 49) * norm2 c.L (co2 flm) +
          (2 * (J + 2) * τ + 2 ^ (-550 : ℤ)) := by
  obtain ⟨p, ps, g, hr, h⟩ := pipe_round_trip hO hO hn.pipe hδ hδ1 hK hK1 hτ hτ1 hv hL' hN' hJ hG hB hB2 hbl hherm hfb
  exact ⟨_, _, g, (c_run hn.idx hv.top.hJ hf hr).1, (c_run hn.idx hv.top.hJ hf hr).2, hr.r, hr.c, h⟩

/-- **C107** if the frame sum of the filters is within `ρ` of 1, the coefficients handed to the final inverse transform are those of the
input up to a relative error `1.01 (δ + K 2^-47) + 1.01 (N + J + 4) 2^-49 + ρ` of norm, and an absolute error for underflow. -/
theorem C107_gain (hO : O.Good) (hn : E.Near O c1 c J ix δ K τ) (hδ : 0 ≤ δ) (hδ1 : δ ≤ 1) (hK : 0 ≤ K) (hK1 : K ≤ 2 ^ 20) (hτ : 0 ≤ τ) (hτ1 : τ ≤ 1)
    (hv : c.Valid jm J) (hL' : c.L ≤ 2 ^ 52) (hN' : c.N ≤ 2 ^ 10) (hJ : J < 2 ^ 10) (hG : c.Filters J true psi phi) {ρ : ℝ}
    (hρ : ρ ≤ 1 / 200) (hF : ∀ l, 0 ≤ l → l < c.L → |c.spin| ≤ l → |frameSum c.J_min J c.L psi phi l - 1| ≤ ρ)
    (hf : E.sphForward f c.L c.spin c.reality ix = .ok (flm.map C64.ofC)) (hbl : BL2 c.L c.spin flm) (hherm : c.reality = true → Herm2 flm)
    (hfb : ∀ l m, ‖co2 flm l m‖ ≤ 2 ^ (300 : ℤ)) (hs : |c.spin| < c.L) :
    ∃ w s g, analysisO O E c1 jm f c.L c.N c.J_min c.lam c.spin c.sampling c.reality (some (psi.map C64.ofC, phi.map F64.fin)) = .ok (w, s) ∧
      synthesisO O E jm w s c.L c.N c.J_min c.lam c.spin c.sampling c.reality (some (psi.map C64.ofC, phi.map F64.fin)) =
        E.sphInverse (g.map C64.ofC) c.L c.spin c.reality ix ∧
      g.r = c.L ∧ g.c = 2 * c.L - 1 ∧
      norm2 c.L (fun l m => co2 g l m - co2 flm l m) ≤
        (1.01 * (δ + K * 2 ^ (-47 : ℤ)) + 1.01 * (c.N + J + 4) / 2 ^ 49 + ρ) * norm2 c.L (co2 flm) + (2 * (J + 2) * τ + 2 ^ (-550 : ℤ)) := by
  obtain ⟨p, ps, g, hr, h⟩ := pipe_gain hO hO hn.pipe hδ hδ1 hK hK1 hτ hτ1 hv hL' hN' hJ hG hρ hF hbl hherm hfb hs
  exact ⟨_, _, g, (c_run hn.idx hv.top.hJ hf hr).1, (c_run hn.idx hv.top.hJ hf hr).2, hr.r, hr.c, h⟩

section
variable {m : Libm} {lg : F64 → F64}

theorem pipe_dir64 {X : ℤ → ℤ → ℝ} (hO : O.Good) (hO' : O'.Good) (hsp : Libm.Special m lg) (hn : PipeNear c J mr wI wF sI sF δ K τ) (hδ : 0 ≤ δ) (hδ1 : δ ≤ 1) (hK : 0 ≤ K)
    (hK1 : K ≤ 2 ^ 20) (hτ : 0 ≤ τ) (hτ1 : τ ≤ 1)
    (hv : c.Valid jm J) (hlam : c.lam = 2) (hL' : c.L ≤ 2 ^ 52) (hN' : c.N ≤ 990) (hJ : J ≤ 1000) (hre : c.reality = true → c.N ≤ 41) (hs : |c.spin| < c.L)
    (hd : Dir64 m lg jm c.L c.N J c.J_min c.spin psi phi X)
    (hbl : BL2 c.L c.spin flm) (hherm : c.reality = true → Herm2 flm)
    (hfb : ∀ l m, ‖co2 flm l m‖ ≤ 2 ^ (300 : ℤ)) :
    ∃ p ps g, PipeRun O O' mr c J wI wF sI sF psi phi flm p ps g ∧
      norm2 c.L (fun l m => co2 g l m - co2 flm l m) ≤ (1.01 * (δ + K * 2 ^ (-47 : ℤ)) +
          (if c.L ≤ 17 then ((c.N : ℝ) + J + 40) / 2 ^ 48 else if c.L ≤ 2049 then 1 / 2 ^ 30 else 0.0011)) * norm2 c.L (co2 flm) +
        (2 * (J + 2) * τ + 2 ^ (-550 : ℤ)) := by
  have hT := hv.top
  rw [hlam] at hT
  have hG := dir64_filters hsp hT.hL hlam hv.hN hv.h0 hv.h1 hre rfl hd mr
  have hadm := fun l a0 a1 a2 => hd.admissible hsp hT (by omega) hJ hv.hN hN' hv.h0 hv.h1 (l := l) a0 a1 a2
  have hN0 : (0 : ℝ) ≤ c.N := by have := hv.hN; exact_mod_cast (by omega : 0 ≤ c.N)
  have hJ0 : (0 : ℝ) ≤ (J : ℝ) := by have := hv.h0; have := hv.h1; exact_mod_cast (by omega : 0 ≤ J)
  have hN1 : (c.N : ℝ) ≤ 990 := by exact_mod_cast hN'
  have hJ1 : (J : ℝ) ≤ 1000 := by exact_mod_cast hJ
  set ρ : ℝ := if c.L ≤ 17 then 1 / 2 ^ 44 else if c.L ≤ 2049 then 1 / 2 ^ 31 else 0.001 + 1 / 2 ^ 31 with hρ
  have hρ1 : ρ ≤ 1 / 200 := by rw [hρ]; split_ifs <;> norm_num
  have hFρ : ∀ l, 0 ≤ l → l < c.L → |c.spin| ≤ l → |frameSum c.J_min J c.L psi phi l - 1| ≤ ρ := by
    intro l a0 a1 a2
    obtain ⟨b1, b2, b3, b4, b5⟩ := hadm l a0 a1 a2
    rw [abs_le, hρ]
    split_ifs with c1 c2
    · have hN41 : c.N ≤ 41 := by have := hv.hNL; omega
      have := b4 hN41
      have := b5 hN41 c1
      constructor <;> linarith
    · have := b3 c2
      norm_num at *
      constructor <;> linarith
    · norm_num at *
      constructor <;> linarith
  obtain ⟨p, ps, g, h1, h5⟩ := pipe_gain hO hO' hn hδ hδ1 hK hK1 hτ hτ1 hv hL' (by omega) (by omega) hG hρ1 hFρ hbl hherm hfb hs
  refine ⟨p, ps, g, h1, h5.trans (add_le_add (mul_le_mul_of_nonneg_right ?_ (norm2_nonneg _ _)) le_rfl)⟩
  rw [add_assoc]
  refine add_le_add le_rfl ?_
  rw [hρ]
  split_ifs <;> norm_num <;> linarith

theorem dir64_error {X : ℤ → ℤ → ℝ} (hO : O.Good) (hsp : Libm.Special m lg) (hn : E.Near O c1 c J ix δ K τ) (hδ : 0 ≤ δ) (hδ1 : δ ≤ 1) (hK : 0 ≤ K)
    (hK1 : K ≤ 2 ^ 20) (hτ : 0 ≤ τ) (hτ1 : τ ≤ 1)
    (hv : c.Valid jm J) (hlam : c.lam = 2) (hL' : c.L ≤ 2 ^ 52) (hN' : c.N ≤ 990) (hJ : J ≤ 1000) (hre : c.reality = true → c.N ≤ 41) (hs : |c.spin| < c.L)
    (hd : Dir64 m lg jm c.L c.N J c.J_min c.spin psi phi X)
    (hf : E.sphForward f c.L c.spin c.reality ix = .ok (flm.map C64.ofC)) (hbl : BL2 c.L c.spin flm) (hherm : c.reality = true → Herm2 flm)
    (hfb : ∀ l m, ‖co2 flm l m‖ ≤ 2 ^ (300 : ℤ)) :
    ∃ w s g, analysisO O E c1 jm f c.L c.N c.J_min c.lam c.spin c.sampling c.reality (some (psi.map C64.ofC, phi.map F64.fin)) = .ok (w, s) ∧
      synthesisO O E jm w s c.L c.N c.J_min c.lam c.spin c.sampling c.reality (some (psi.map C64.ofC, phi.map F64.fin)) =
        E.sphInverse (g.map C64.ofC) c.L c.spin c.reality ix ∧
      g.r = c.L ∧ g.c = 2 * c.L - 1 ∧
      norm2 c.L (fun l m => co2 g l m - co2 flm l m) ≤ (1.01 * (δ + K * 2 ^ (-47 : ℤ)) +
          (if c.L ≤ 17 then ((c.N : ℝ) + J + 40) / 2 ^ 48 else if c.L ≤ 2049 then 1 / 2 ^ 30 else 0.0011)) * norm2 c.L (co2 flm) +
        (2 * (J + 2) * τ + 2 ^ (-550 : ℤ)) := by
  obtain ⟨p, ps, g, hr, h⟩ := pipe_dir64 hO hO hsp hn.pipe hδ hδ1 hK hK1 hτ hτ1 hv hlam hL' hN' hJ hre hs hd hbl hherm hfb
  exact ⟨_, _, g, (c_run hn.idx hv.top.hJ hf hr).1, (c_run hn.idx hv.top.hJ hf hr).2, hr.r, hr.c, h⟩

/-- **C107** with the filters computed in double precision as well (vectorised directional routine, `lam = 2`): the whole round trip
returns the coefficients of the input up to a relative error of `1.01 (δ + K 2^-47)` plus `0.0011`; `2^-30` for `L ≤ 2049`;
`(N + J + 40) 2^-48` for `L ≤ 17`. -/
theorem C107_error (hO : O.Good) (hm : m.Ok) (hsp : Libm.Special m lg) (hn : E.Near O c1 c J ix δ K τ) (hδ : 0 ≤ δ) (hδ1 : δ ≤ 1) (hK : 0 ≤ K)
    (hK1 : K ≤ 2 ^ 20) (hτ : 0 ≤ τ) (hτ1 : τ ≤ 1)
    (hv : c.Valid jm J) (hlam : c.lam = 2) (hL' : c.L ≤ 2 ^ 52) (hN' : c.N ≤ 990) (hJ : J ≤ 1000) (hre : c.reality = true → c.N ≤ 41) (hs : |c.spin| < c.L)
    (h : filters_directional_vectorised64 m lg jm c.L c.N c.J_min c.lam c.spin = .ok (psi.map C64.ofC, phi.map F64.fin))
    (hf : E.sphForward f c.L c.spin c.reality ix = .ok (flm.map C64.ofC)) (hbl : BL2 c.L c.spin flm) (hherm : c.reality = true → Herm2 flm)
    (hfb : ∀ l m, ‖co2 flm l m‖ ≤ 2 ^ (300 : ℤ)) :
    ∃ w s g, analysisO O E c1 jm f c.L c.N c.J_min c.lam c.spin c.sampling c.reality (some (psi.map C64.ofC, phi.map F64.fin)) = .ok (w, s) ∧
      synthesisO O E jm w s c.L c.N c.J_min c.lam c.spin c.sampling c.reality (some (psi.map C64.ofC, phi.map F64.fin)) =
        E.sphInverse (g.map C64.ofC) c.L c.spin c.reality ix ∧
      g.r = c.L ∧ g.c = 2 * c.L - 1 ∧
      norm2 c.L (fun l m => co2 g l m - co2 flm l m) ≤ (1.01 * (δ + K * 2 ^ (-47 : ℤ)) +
          (if c.L ≤ 17 then ((c.N : ℝ) + J + 40) / 2 ^ 48 else if c.L ≤ 2049 then 1 / 2 ^ 30 else 0.0011)) * norm2 c.L (co2 flm) +
        (2 * (J + 2) * τ + 2 ^ (-550 : ℤ)) := by
  have hT := hv.top
  rw [hlam] at hT
  obtain ⟨X, hd⟩ := dir64_elim hm hsp hT (by omega) hJ hv.hN hN' hv.h0 hv.h1 (hlam ▸ h)
  exact dir64_error hO hsp hn hδ hδ1 hK hK1 hτ hτ1 hv hlam hL' hN' hJ hre hs hd hf hbl hherm hfb

theorem pipe_looped (hO : O.Good) (hO' : O'.Good) (hm : m.Ok) (hsp : Libm.Special m lg) (hn : PipeNear c J mr wI wF sI sF δ K τ) (hδ : 0 ≤ δ) (hδ1 : δ ≤ 1) (hK : 0 ≤ K)
    (hK1 : K ≤ 2 ^ 20) (hτ : 0 ≤ τ) (hτ1 : τ ≤ 1)
    (hv : c.Valid jm J) (hlam : c.lam = 2) (hL' : c.L ≤ 2 ^ 52) (hN' : c.N ≤ 990) (hJ : J ≤ 1000) (hre : c.reality = true → c.N ≤ 41) (hs : |c.spin| < c.L)
    (h : filters_directional64 m lg jm c.L c.N c.J_min c.lam c.spin = .ok (psi.map C64.ofC, phi.map F64.fin))
    (hbl : BL2 c.L c.spin flm) (hherm : c.reality = true → Herm2 flm)
    (hfb : ∀ l m, ‖co2 flm l m‖ ≤ 2 ^ (300 : ℤ)) :
    ∃ p ps g, PipeRun O O' mr c J wI wF sI sF psi phi flm p ps g ∧
      norm2 c.L (fun l m => co2 g l m - co2 flm l m) ≤ (1.01 * (δ + K * 2 ^ (-47 : ℤ)) +
          (if c.L ≤ 17 then ((c.N : ℝ) + J + 40) / 2 ^ 48 else 0.0021)) * norm2 c.L (co2 flm) +
        (2 * (J + 2) * τ + 2 ^ (-550 : ℤ)) := by
  have hT := hv.top
  have h2 := h
  rw [hlam] at h2 hT
  have hG := C106_filters hm hsp hv.core hlam (by omega) hJ hN' hre h mr
  have hadm := fun l a0 a1 a2 => C106_admissible hm hsp hT (by omega) hJ hv.hN hN' hv.h0 hv.h1 h2 (l := l) a0 a1 a2
  have hN0 : (0 : ℝ) ≤ c.N := by have := hv.hN; exact_mod_cast (by omega : 0 ≤ c.N)
  have hJ0 : (0 : ℝ) ≤ (J : ℝ) := by have := hv.h0; have := hv.h1; exact_mod_cast (by omega : 0 ≤ J)
  have hN1 : (c.N : ℝ) ≤ 990 := by exact_mod_cast hN'
  have hJ1 : (J : ℝ) ≤ 1000 := by exact_mod_cast hJ
  set ρ : ℝ := if c.L ≤ 17 then 1 / 2 ^ 44 else 0.002 + 1 / 2 ^ 28 with hρ
  have hρ1 : ρ ≤ 1 / 200 := by rw [hρ]; split_ifs <;> norm_num
  have hFρ : ∀ l, 0 ≤ l → l < c.L → |c.spin| ≤ l → |frameSum c.J_min J c.L psi phi l - 1| ≤ ρ := by
    intro l a0 a1 a2
    obtain ⟨b1, b2, b3, b4, b5⟩ := hadm l a0 a1 a2
    rw [abs_le, hρ]
    split_ifs with c1
    · have hN41 : c.N ≤ 41 := by have := hv.hNL; omega
      have := b3 hN41
      have := b5 hN41 c1
      constructor <;> linarith
    · norm_num at *
      constructor <;> linarith
  obtain ⟨p, ps, g, h1, h5⟩ := pipe_gain hO hO' hn hδ hδ1 hK hK1 hτ hτ1 hv hL' (by omega) (by omega) hG hρ1 hFρ hbl hherm hfb hs
  refine ⟨p, ps, g, h1, h5.trans (add_le_add (mul_le_mul_of_nonneg_right ?_ (norm2_nonneg _ _)) le_rfl)⟩
  rw [add_assoc]
  refine add_le_add le_rfl ?_
  rw [hρ]
  split_ifs <;> norm_num <;> linarith

/-- **C107** the same with the looped directional routine. -/
theorem C107_error_looped (hO : O.Good) (hm : m.Ok) (hsp : Libm.Special m lg) (hn : E.Near O c1 c J ix δ K τ) (hδ : 0 ≤ δ) (hδ1 : δ ≤ 1) (hK : 0 ≤ K)
    (hK1 : K ≤ 2 ^ 20) (hτ : 0 ≤ τ) (hτ1 : τ ≤ 1)
    (hv : c.Valid jm J) (hlam : c.lam = 2) (hL' : c.L ≤ 2 ^ 52) (hN' : c.N ≤ 990) (hJ : J ≤ 1000) (hre : c.reality = true → c.N ≤ 41) (hs : |c.spin| < c.L)
    (h : filters_directional64 m lg jm c.L c.N c.J_min c.lam c.spin = .ok (psi.map C64.ofC, phi.map F64.fin))
    (hf : E.sphForward f c.L c.spin c.reality ix = .ok (flm.map C64.ofC)) (hbl : BL2 c.L c.spin flm) (hherm : c.reality = true → Herm2 flm)
    (hfb : ∀ l m, ‖co2 flm l m‖ ≤ 2 ^ (300 : ℤ)) :
    ∃ w s g, analysisO O E c1 jm f c.L c.N c.J_min c.lam c.spin c.sampling c.reality (some (psi.map C64.ofC, phi.map F64.fin)) = .ok (w, s) ∧
      synthesisO O E jm w s c.L c.N c.J_min c.lam c.spin c.sampling c.reality (some (psi.map C64.ofC, phi.map F64.fin)) =
        E.sphInverse (g.map C64.ofC) c.L c.spin c.reality ix ∧
      g.r = c.L ∧ g.c = 2 * c.L - 1 ∧
      norm2 c.L (fun l m => co2 g l m - co2 flm l m) ≤ (1.01 * (δ + K * 2 ^ (-47 : ℤ)) +
          (if c.L ≤ 17 then ((c.N : ℝ) + J + 40) / 2 ^ 48 else 0.0021)) * norm2 c.L (co2 flm) +
        (2 * (J + 2) * τ + 2 ^ (-550 : ℤ)) := by
  obtain ⟨p, ps, g, hr, h⟩ := pipe_looped hO hO hm hsp hn.pipe hδ hδ1 hK hK1 hτ hτ1 hv hlam hL' hN' hJ hre hs h hbl hherm hfb
  exact ⟨_, _, g, (c_run hn.idx hv.top.hJ hf hr).1, (c_run hn.idx hv.top.hJ hf hr).2, hr.r, hr.c, h⟩

end

/-! ### the hypotheses are met -/

theorem norm2_mono (L : ℤ) {a b : ℤ → ℤ → ℂ} (h : ∀ l m, ‖a l m‖ ≤ ‖b l m‖) : norm2 L a ≤ norm2 L b := by
  unfold norm2 energy2
  gcongr
  exact h _ _

theorem norm3_mono (L : ℤ) {a b : ℤ → ℤ → ℤ → ℂ} (h : ∀ n l m, ‖a n l m‖ ≤ ‖b n l m‖) : norm3 L a ≤ norm3 L b := by
  unfold norm3
  rw [energy3_eq, energy3_eq]
  gcongr
  exact h _ _ _

/-- transforms that keep the coefficients themselves as the image; the forward transforms drop what is not band-limited -/
def toyO : CFFTO C64 (Arr2 C64 ⊕ Arr3 C64) where
  sphForward p L _ _ _ := match p with
    | .inl a => .ok (Arr2.of L (2 * L - 1) fun l i => if |i - (L - 1)| ≤ l then a.v l i else 0)
    | .inr _ => .error .valueError
  sphInverse a _ _ _ _ := .ok (.inl a)
  wigForward p L N _ _ _ := match p with
    | .inl _ => .error .valueError
    | .inr t => .ok (Arr3.of (2 * N - 1) L (2 * L - 1) fun k l i => if |k - (N - 1)| ≤ l ∧ |i - (L - 1)| ≤ l then t.v k l i else 0)
  wigInverse t _ _ _ _ _ := .ok (.inr t)
  re p := p
  ofArr2 a := .inl a

theorem map_of2C {r c : ℤ} {f : ℤ → ℤ → ℂ} : (Arr2.of r c f).map C64.ofC = Arr2.of r c fun i j => C64.ofC (f i j) :=
  Arr2.of_congr fun i j h0 h1 h2 h3 => by rw [Arr2.of_v r c f i j ⟨h0, h1, h2, h3⟩]

theorem toyO_pipe (c : Cfg) (J : ℤ) (mr : Bool) (ix : ℕ) :
    PipeNear c J mr (fun j a => toyO.wigInverse a (c.Lj mr j) (c.Nj mr j) (c.L0 mr j) c.sampling c.reality)
      (fun j p => toyO.wigForward p (c.Lj mr j) (c.Nj mr j) (c.L0 mr j) c.sampling c.reality)
      (fun a => toyO.sphInverse a (c.Ls mr) c.spin c.reality ix)
      (fun p => toyO.sphForward p (c.Ls mr) c.spin c.reality ix) 0 1 0 where
  wav j t u _ _ hd hr hc _ hu _ := by
    set L := c.Lj mr j
    set N := c.Nj mr j
    refine ⟨_, Arr3.of (2 * N - 1) L (2 * L - 1) fun k l i => if |k - (N - 1)| ≤ l ∧ |i - (L - 1)| ≤ l then t.v k l i else 0, rfl, ?_, ⟨rfl, rfl, rfl, ?_⟩, ?_⟩
    · rw [map_of3]
      refine congrArg Except.ok (Arr3.of_congr fun k l i _ _ _ _ _ _ => ?_)
      split_ifs
      · exact map_ofC3 _ _ _ _
      · rfl
    · intro n l m hz
      rw [co3_of]
      split_ifs with h1 h2
      · rw [add_sub_cancel_left, add_sub_cancel_left] at h2
        omega
      · rfl
      · rfl
    · rw [zero_mul, zero_add, one_mul, add_zero]
      refine norm3_mono _ fun n l m => ?_
      rw [co3_of]
      split_ifs with h1 h2
      · rw [show co3 t n l m = t.v (N - 1 + n) l (L - 1 + m) by rw [co3, hd, hr, show (2 * N - 1 - 1) / 2 = N - 1 by omega]]
      · rw [add_sub_cancel_left, add_sub_cancel_left] at h2
        rw [hu.zero n l m (by omega), sub_zero, norm_zero]
        exact norm_nonneg _
      · have : co3 u n l m = 0 := by
          rw [co3]
          exact u.junk _ _ _ (by rw [hu.d, hu.r, hu.c, show (2 * N - 1 - 1) / 2 = N - 1 by omega]; exact h1)
        rw [this, sub_zero, norm_zero]
        exact norm_nonneg _
  scal a u hr hc _ hu _ := by
    set L := c.Ls mr
    refine ⟨.inl (a.map C64.ofC), Arr2.of L (2 * L - 1) fun l i => if |i - (L - 1)| ≤ l then a.v l i else 0, ?_, ?_, ⟨rfl, rfl, ?_⟩, ?_⟩
    · rfl
    · rw [map_of2C]
      refine congrArg Except.ok (Arr2.of_congr fun l i _ _ _ _ => ?_)
      split_ifs
      · exact map_ofC2 _ _ _
      · rfl
    · intro l m hz
      rw [co2_of]
      split_ifs with h1 h2
      · rw [add_sub_cancel_left] at h2
        rw [abs_zero] at hz
        have := abs_nonneg m
        omega
      · rfl
      · rfl
    · rw [zero_mul, zero_add, one_mul, add_zero]
      refine norm2_mono _ fun l m => ?_
      rw [co2_of]
      split_ifs with h1 h2
      · rw [show co2 a l m = a.v l (L - 1 + m) by rw [co2, hr]]
      · rw [add_sub_cancel_left] at h2
        rw [hu.zero l m (by omega), sub_zero, norm_zero]
        exact norm_nonneg _
      · have : co2 u l m = 0 := by
          rw [co2]
          exact u.junk _ _ (by rw [hu.r, hu.c]; exact h1)
        rw [this, sub_zero, norm_zero]
        exact norm_nonneg _

theorem toyO_near (O : Ops C64 F64) (c1 : F64) {ix : ℕ} (hi : C.sshtIndex c.sampling.toLower = .ok ix) (hS : c.Ls true ≠ 1) :
    toyO.Near O c1 c J ix 0 1 0 where
  idx := hi
  wav := (toyO_pipe c J true ix).wav
  scal a u hr hc hb hu hh := by
    obtain ⟨p, a', h1, h2, h3, h4⟩ := (toyO_pipe c J true ix).scal a u hr hc hb hu hh
    refine ⟨p, a', ?_, ?_, h3, h4⟩
    · unfold scalMapO
      rw [if_neg hS]
      exact h1
    · have : (if c.reality then toyO.re p else p) = p := by
        split_ifs <;> rfl
      rw [this]
      exact h2

/-- `L = 16`, `N = 3`, `J_min = 1` -/
def toyCfg : Cfg := ⟨16, 3, 1, 2, 0, "mw", none, false⟩

/-- `Y_{5,2}` -/
noncomputable def toyFlm : Arr2 ℂ := Arr2.of 16 31 fun l i => if l = 5 ∧ i = 17 then (1 : ℂ) else 0

theorem toyFlm_co (l m : ℤ) : co2 toyFlm l m = if l = 5 ∧ m = 2 then 1 else 0 := by
  have hr : toyFlm.r = 16 := rfl
  rw [co2, hr, toyFlm]
  by_cases hb : 0 ≤ l ∧ l < 16 ∧ 0 ≤ 16 - 1 + m ∧ 16 - 1 + m < 31
  · rw [Arr2.of_v _ _ _ _ _ hb]
    exact if_congr (by omega) rfl rfl
  · rw [Arr2.of_out _ _ _ _ _ hb, if_neg (by omega)]

theorem toyFlm_norm : norm2 16 (co2 toyFlm) = 1 := by
  rw [norm2, energy2_eq, Finset.sum_eq_single ((5, 2) : ℤ × ℤ)]
  · rw [toyFlm_co, if_pos ⟨rfl, rfl⟩]; simp
  · intro x _ hx
    rw [toyFlm_co, if_neg fun h => hx (Prod.ext h.1 h.2)]; simp
  · intro h
    exact absurd (by decide) h

theorem toyFlm_bl : BL2 toyCfg.L toyCfg.spin toyFlm := ⟨rfl, rfl, fun l m hz => by
  rw [toyFlm_co, if_neg]
  rintro ⟨rfl, rfl⟩
  have : ((5 : ℤ) < |2| ∨ (5 : ℤ) < |0|) := hz
  simp at this⟩

theorem toyFlm_le (l m : ℤ) : ‖co2 toyFlm l m‖ ≤ 2 ^ (300 : ℤ) := by
  rw [toyFlm_co]
  split_ifs
  · rw [norm_one]; exact one_le_zpow₀ (by norm_num) (by norm_num)
  · rw [norm_zero]; positivity

theorem toyCfg_top : TopScale j_max 16 2 4 := by
  have hJ : j_max 16 2 = .ok 4 := by
    have h := j_max_eq (L := 16) (lam := 2) (by norm_num) (by norm_num)
    rw [h]
    have : Real.log ((16 : ℤ) : ℝ) / Real.log 2 = 4 := by
      rw [div_eq_iff (Real.log_pos (by norm_num)).ne']
      have : ((16 : ℤ) : ℝ) = 2 ^ 4 := by norm_num
      rw [this, Real.log_pow]; norm_num
    rw [this]; norm_num
  exact TopScale.of_j_max (L := 16) (lam := 2) (by norm_num) (by norm_num) hJ

theorem toyCfg_valid : toyCfg.Valid j_max 4 :=
  ⟨toyCfg_top, by norm_num [toyCfg], by norm_num [toyCfg], by norm_num [toyCfg], by norm_num [toyCfg]⟩

theorem toyCfg_Ls : toyCfg.Ls true ≠ 1 := by
  show scal_bandlimit 16 1 2 true ≠ 1
  rw [scal_bandlimit, if_pos rfl, zpow_one, show (2 : ℝ) = ((2 : ℤ) : ℝ) by norm_num, Int.ceil_intCast]
  decide

theorem toyCfg_near : toyO.Near Ops.ieee (.of (Real.sqrt (1 / (4 * Real.pi)))) toyCfg 4 0 0 1 0 := by
  have hl : "mw".toLower = "mw" := by
    apply String.toList_inj.1
    rw [String.toLower, String.toList_map]
    decide
  exact toyO_near Ops.ieee _ (by show C.sshtIndex "mw".toLower = _; rw [hl]; rfl) toyCfg_Ls

theorem toyFlm_forward : toyO.sphForward (.inl (toyFlm.map C64.ofC)) 16 0 false 0 = .ok (toyFlm.map C64.ofC) := by
  refine congrArg Except.ok (Arr2.of_congr fun l i _ _ _ _ => ?_)
  split_ifs with hi
  · exact map_ofC2 _ _ _
  · have := toyFlm_bl.zero l (i - 15) (Or.inl (not_le.1 hi))
    rw [co2, toyFlm_bl.r] at this
    have e : toyFlm.v l i = 0 := by rwa [show toyCfg.L - 1 + (i - 15) = i by show (16 : ℤ) - 1 + _ = i; ring] at this
    rw [e, ofC_zero]

theorem toy_filters : ∃ (psi : Arr3 ℂ) (phi : Arr1 ℝ), filters_directional_vectorised64 Libm.exact lgExact j_max 16 3 1 2 0 = .ok (psi.map C64.ofC, phi.map F64.fin) := by
  obtain ⟨psi, phi, h, -⟩ := C101_directional (N := 3) Libm.exact_ok lgExact_special toyCfg_top (by norm_num) (by norm_num) (by norm_num) (by norm_num)
    (by norm_num : (0 : ℤ) ≤ 1) (by norm_num) 0
  exact ⟨psi, phi, h⟩

theorem toy_bound {x : ℝ} (h : x ≤ (1.01 * (0 + 1 * 2 ^ (-47 : ℤ)) + (((3 : ℤ) : ℝ) + ((4 : ℤ) : ℝ) + 40) / 2 ^ 48) * 1 + (2 * (((4 : ℤ) : ℝ) + 2) * 0 + 2 ^ (-550 : ℤ))) :
    x ≤ 1 / 2 ^ 41 := by
  refine h.trans ?_
  have h6 := p2_mono (show (-550 : ℤ) ≤ -60 by norm_num)
  clear h
  generalize (2 : ℝ) ^ (-550 : ℤ) = P at *
  norm_num at h6 ⊢
  linarith

/-- a round trip of `Y_{5,2}` in double precision, `L = 16`, `N = 3`, `J_min = 1` -/
example : ∃ (psi : Arr3 ℂ) (phi : Arr1 ℝ) (w : List (Arr2 C64 ⊕ Arr3 C64)) (s : Arr2 C64 ⊕ Arr3 C64) (g : Arr2 ℂ),
    filters_directional_vectorised64 Libm.exact lgExact j_max 16 3 1 2 0 = .ok (psi.map C64.ofC, phi.map F64.fin) ∧
    analysisO Ops.ieee toyO (.of (Real.sqrt (1 / (4 * Real.pi)))) j_max (.inl ((Arr2.of 16 31 fun l i => if l = 5 ∧ i = 17 then (1 : ℂ) else 0).map C64.ofC))
      16 3 1 2 0 "mw" false (some (psi.map C64.ofC, phi.map F64.fin)) = .ok (w, s) ∧
    synthesisO Ops.ieee toyO j_max w s 16 3 1 2 0 "mw" false (some (psi.map C64.ofC, phi.map F64.fin)) = .ok (.inl (g.map C64.ofC)) ∧
    norm2 16 (fun l m => co2 g l m - if l = 5 ∧ m = 2 then 1 else 0) ≤ 1 / 2 ^ 41 := by
  obtain ⟨psi, phi, h⟩ := toy_filters
  obtain ⟨w, s, g, h1, h2, -, -, h5⟩ := C107_error (f := .inl (toyFlm.map C64.ofC)) (flm := toyFlm) C105_ieee Libm.exact_ok lgExact_special toyCfg_near le_rfl
    zero_le_one zero_le_one (by norm_num) le_rfl zero_le_one toyCfg_valid rfl (by norm_num [toyCfg]) (by norm_num [toyCfg]) (by norm_num) (by simp [toyCfg])
    (by norm_num [toyCfg]) h toyFlm_forward toyFlm_bl (by simp [toyCfg]) toyFlm_le
  refine ⟨psi, phi, w, s, g, h, h1, h2, toy_bound ?_⟩
  simp only [← toyFlm_co]
  have e1' : norm2 toyCfg.L (co2 toyFlm) = 1 := toyFlm_norm
  rw [e1', if_pos (by norm_num [toyCfg])] at h5
  exact h5

end S2wav
