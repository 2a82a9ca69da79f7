import Verif.Props.RoundedSingleJax
import Verif.Props.RoundedBackends

/-! # Whole transforms in single precision: error bounds, as in `Props/RoundedPipeline.lean` -/

namespace S2wav.Single
open Classical

section
variable {L : ℤ}

theorem card_Ioo_le (hL : 1 ≤ L) (hL' : L ≤ 2 ^ 23) : ((Finset.Ioo (-L) L).card : ℝ) ≤ 2 ^ 24 := by
  rw [Int.card_Ioo]
  have : (((L - -L - 1).toNat : ℕ) : ℤ) ≤ 2 ^ 24 := by omega
  exact_mod_cast this

theorem card_Ico_le (hL : 1 ≤ L) (hL' : L ≤ 2 ^ 23) : ((Finset.Ico 0 L).card : ℝ) ≤ 2 ^ 23 := by
  rw [Int.card_Ico]
  have : (((L - 0).toNat : ℕ) : ℤ) ≤ 2 ^ 23 := by omega
  exact_mod_cast this

/-- an entrywise bound gives a bound of norms -/
theorem norm2_entry (hL : 1 ≤ L) (hL' : L ≤ 2 ^ 23) {a b : ℤ → ℤ → ℂ} {ε q : ℝ} (hε : 0 ≤ ε) (hq : 0 ≤ q)
    (h : ∀ l m, 0 ≤ l → l < L → -L < m → m < L → ‖a l m‖ ≤ ε * ‖b l m‖ + q) : norm2 L a ≤ ε * norm2 L b + q * 2 ^ 24 := by
  unfold norm2
  rw [energy2_eq, energy2_eq]
  set S := Finset.Ico 0 L ×ˢ Finset.Ioo (-L) L with hS
  refine (mink S (fun x => ‖a x.1 x.2‖) (fun x => ε * ‖b x.1 x.2‖) (fun _ => q) (fun _ _ => norm_nonneg _) (fun x hx => ?_)).trans (add_le_add ?_ ?_)
  · rw [hS, Finset.mem_product, Finset.mem_Ico, Finset.mem_Ioo] at hx
    exact h _ _ hx.1.1 hx.1.2 hx.2.1 hx.2.2
  · simp only [mul_pow, ← Finset.mul_sum]
    rw [Real.sqrt_mul (sq_nonneg _), Real.sqrt_sq hε]
  · rw [Finset.sum_const, nsmul_eq_mul, Real.sqrt_le_left (by positivity), hS, Finset.card_product, Nat.cast_mul]
    have : ((Finset.Ico 0 L).card : ℝ) * (Finset.Ioo (-L) L).card ≤ 2 ^ 23 * 2 ^ 24 :=
      mul_le_mul (card_Ico_le hL hL') (card_Ioo_le hL hL') (by positivity) (by positivity)
    have h2 : ((Finset.Ico 0 L).card : ℝ) * (Finset.Ioo (-L) L).card ≤ (2 ^ 24 : ℝ) ^ 2 := this.trans (by norm_num)
    nlinarith [sq_nonneg q]

theorem norm3_entry (hL : 1 ≤ L) (hL' : L ≤ 2 ^ 23) {a b : ℤ → ℤ → ℤ → ℂ} {ε q : ℝ} (hε : 0 ≤ ε) (hq : 0 ≤ q)
    (h : ∀ n l m, ‖a n l m‖ ≤ ε * ‖b n l m‖ + q) : norm3 L a ≤ ε * norm3 L b + q * 2 ^ 45 := by
  unfold norm3
  rw [energy3_eq, energy3_eq]
  set S := (Finset.Ico 0 L ×ˢ Finset.Ioo (-L) L) ×ˢ Finset.Ioo (-L) L with hS
  set w : (ℤ × ℤ) × ℤ → ℝ := fun x => Real.sqrt ((2 * x.1.1 + 1) / (8 * Real.pi ^ 2)) with hw
  have hw0 : ∀ x, 0 ≤ w x := fun _ => Real.sqrt_nonneg _
  refine (mink S (fun x => w x * ‖a x.2 x.1.1 x.1.2‖) (fun x => ε * (w x * ‖b x.2 x.1.1 x.1.2‖)) (fun x => w x * q)
    (fun x _ => mul_nonneg (hw0 x) (norm_nonneg _)) (fun x hx => ?_)).trans (add_le_add ?_ ?_)
  · have := mul_le_mul_of_nonneg_left (h x.2 x.1.1 x.1.2) (hw0 x)
    refine this.trans (le_of_eq ?_)
    ring
  · have : ∀ x, (ε * (w x * ‖b x.2 x.1.1 x.1.2‖)) ^ 2 = ε ^ 2 * (w x * ‖b x.2 x.1.1 x.1.2‖) ^ 2 := fun x => mul_pow _ _ _
    simp only [this, ← Finset.mul_sum]
    rw [Real.sqrt_mul (sq_nonneg _), Real.sqrt_sq hε]
  · rw [Real.sqrt_le_left (by positivity)]
    have hle : ∀ x ∈ S, (w x * q) ^ 2 ≤ 2 ^ 19 * q ^ 2 := by
      intro x hx
      rw [hS, Finset.mem_product, Finset.mem_product, Finset.mem_Ico] at hx
      have h0 : (0 : ℝ) ≤ x.1.1 := by exact_mod_cast hx.1.1.1
      have h1 : (x.1.1 : ℝ) ≤ 2 ^ 23 := by exact_mod_cast hx.1.1.2.le.trans hL'
      rw [mul_pow, hw, Real.sq_sqrt (by positivity)]
      refine mul_le_mul_of_nonneg_right ?_ (sq_nonneg _)
      have hpi := Real.pi_gt_three
      rw [div_le_iff₀ (by positivity)]
      nlinarith
    refine (Finset.sum_le_sum hle).trans ?_
    rw [Finset.sum_const, nsmul_eq_mul, hS, Finset.card_product, Finset.card_product, Nat.cast_mul, Nat.cast_mul]
    have h1 : ((Finset.Ico 0 L).card : ℝ) * (Finset.Ioo (-L) L).card ≤ 2 ^ 23 * 2 ^ 24 :=
      mul_le_mul (card_Ico_le hL hL') (card_Ioo_le hL hL') (by positivity) (by positivity)
    have h2 : ((Finset.Ico 0 L).card : ℝ) * (Finset.Ioo (-L) L).card * (Finset.Ioo (-L) L).card ≤ 2 ^ 23 * 2 ^ 24 * 2 ^ 24 :=
      mul_le_mul h1 (card_Ioo_le hL hL') (by positivity) (by positivity)
    have h3 := mul_le_mul_of_nonneg_right h2 (mul_nonneg (pow_nonneg zero_le_two 19) (sq_nonneg q) : (0 : ℝ) ≤ 2 ^ 19 * q ^ 2)
    refine h3.trans ?_
    have e1 : (2 : ℝ) ^ 23 * 2 ^ 24 * 2 ^ 24 * (2 ^ 19 * q ^ 2) = 2 ^ 90 * q ^ 2 := by rw [← pow_add, ← pow_add, ← mul_assoc, ← pow_add]
    have e2 : (q * 2 ^ 45) ^ 2 = 2 ^ 90 * q ^ 2 := by rw [mul_pow, ← pow_mul, mul_comm]
    rw [e1, e2]

end

/-- What is assumed of s2fft's transforms in single precision, as in `S2wav.PipeNear`: inverse followed by forward transform is close to the
identity on the coefficients `u` of band-limited functions, relative error `δ`; it amplifies what else is in the array (rounding errors) by at
most `K`; and there is an absolute error `τ` for underflow. Nothing overflows as long as the coefficients are at most `2^41`. The result of the
forward transforms is of the documented layout. `wI j`, `wF j` the inverse and forward transform used at scale `j`, `sI`, `sF` those of the scaling part -/
structure PipeNear {P : Type} (c : Cfg) (J : ℤ) (mr : Bool) (wI : ℤ → Arr3 C64 → Py P) (wF : ℤ → P → Py (Arr3 C64)) (sI : Arr2 C64 → Py P)
    (sF : P → Py (Arr2 C64)) (δ K τ : ℝ) : Prop where
  wav : ∀ j t u, c.J_min ≤ j → j ≤ J → t.d = 2 * c.Nj mr j - 1 → t.r = c.Lj mr j → t.c = 2 * c.Lj mr j - 1 →
    (∀ k l m, ‖t.v k l m‖ ≤ 2 ^ (41 : ℤ)) → BL3 (c.Lj mr j) (c.Nj mr j) (c.L0 mr j) u → (c.reality = true → Herm3 u) →
    ∃ p t', wI j (t.map C64.ofC) = .ok p ∧ wF j p = .ok (t'.map C64.ofC) ∧
      BL3 (c.Lj mr j) (c.Nj mr j) 0 t' ∧
      norm3 c.L (fun n l m => co3 t' n l m - co3 u n l m) ≤
        δ * norm3 c.L (co3 u) + K * norm3 c.L (fun n l m => co3 t n l m - co3 u n l m) + τ
  scal : ∀ a u, a.r = c.Ls mr → a.c = 2 * c.Ls mr - 1 → (∀ l m, ‖a.v l m‖ ≤ 2 ^ (41 : ℤ)) →
    BL2 (c.Ls mr) c.spin u → (c.reality = true → Herm2 u) →
    ∃ p a', sI (a.map C64.ofC) = .ok p ∧ sF p = .ok (a'.map C64.ofC) ∧
      BL2 (c.Ls mr) 0 a' ∧
      norm2 c.L (fun l m => co2 a' l m - co2 u l m) ≤ δ * norm2 c.L (co2 u) + K * norm2 c.L (fun l m => co2 a l m - co2 u l m) + τ

variable {O O' : Ops C64 F64} {mr : Bool} {jm : JMax} {c : Cfg} {J : ℤ} {psi : Arr3 ℂ} {phi : Arr1 ℝ} {flm : Arr2 ℂ} {P : Type} {δ K τ : ℝ}

/-- the harmonic-space part of the analysis, with bounds on what it returns -/
theorem ana_pipe (hO : Good O) (hL : 1 ≤ c.L) (hL' : c.L ≤ 2 ^ 23) (hlam : 1 < c.lam) (hN : 1 ≤ c.N) (hNL : c.N ≤ c.L) (h0 : 0 ≤ c.J_min) (h1 : c.J_min ≤ J + 1)
    (hG : c.Filters J mr psi phi) (hbl : BL2 c.L 0 flm)
    (hf : ∀ l m, ‖flm.v l m‖ ≤ 2 ^ (20 : ℤ)) (hpsi : ∀ j, c.J_min ≤ j → j ≤ J → ∀ l n, 0 ≤ l → l < c.L → ‖psi.v j l n‖ ≤ 2 ^ (12 : ℤ))
    (hphi : ∀ l, 0 ≤ l → l < c.L → |phi.v l| ≤ 2 ^ (12 : ℤ)) :
    ∃ (t : ℤ → Arr3 ℂ) (s : Arr2 ℂ),
      harmW O mr (flm.map C64.ofC) c.L c.N c.J_min J c.lam (some (psi.map C64.ofC)) =
        .ok ((pyRange c.J_min (J + 1)).map fun j => (t j).map C64.ofC) ∧
      harmS O mr (flm.map C64.ofC) c.L c.J_min c.lam (some (phi.map F64.fin)) = .ok (s.map C64.ofC) ∧
      (∀ j, c.J_min ≤ j → j ≤ J → (t j).d = 2 * c.Nj mr j - 1 ∧ (t j).r = c.Lj mr j ∧ (t j).c = 2 * c.Lj mr j - 1 ∧
        (∀ k l m, ‖(t j).v k l m‖ ≤ 2 ^ (41 : ℤ)) ∧
        ∀ n l m, ‖co3 (t j) n l m - co3 (wavCoeffs (c.Lj mr j) (c.Nj mr j) (fun l n => psi.v j l (c.L - 1 + n)) flm) n l m‖ ≤
          2 ^ (-18 : ℤ) * ‖co3 (wavCoeffs (c.Lj mr j) (c.Nj mr j) (fun l n => psi.v j l (c.L - 1 + n)) flm) n l m‖ + 2 ^ (-95 : ℤ)) ∧
      s.r = c.Ls mr ∧ s.c = 2 * c.Ls mr - 1 ∧ (∀ l m, ‖s.v l m‖ ≤ 2 ^ (41 : ℤ)) ∧
      ∀ l m, ‖co2 s l m - co2 (scalCoeffs (c.Ls mr) phi.v flm) l m‖ ≤
        2 ^ (-18 : ℤ) * ‖co2 (scalCoeffs (c.Ls mr) phi.v flm) l m‖ + 2 ^ (-95 : ℤ) := by
  have hb := scal_bandlimit_bounds hL hlam c.J_min mr
  obtain ⟨t', ht'⟩ := anaWO_single (psi := psi) hO hL' hf
  obtain ⟨s', hs'⟩ := anaSO_single (phi := phi) hO hL' hphi hf
  obtain ⟨S1, S2, S3, S4⟩ := hs' (c.Ls mr) hb.2
  have T1 := fun j a0 a1 => ht' j (c.Lj mr j) (c.Nj mr j) (c.L0 mr j) (hpsi j a0 a1)
    (LN_bounds hL hN hNL hlam j mr (rfl : LN_j c.L j c.N c.lam mr = (c.Lj mr j, c.Nj mr j, c.L0 mr j))).2.2.2.2
    (LN_j_Lj_bounds (N := c.N) hL hlam j mr).2
  have tiny : ∀ {x y : ℂ}, ‖x - y‖ ≤ 2 ^ (-18 : ℤ) * ‖y‖ + 2 ^ (-95 : ℤ) → ‖y‖ ≤ 2 ^ (39 : ℤ) → ‖x‖ ≤ 2 ^ (41 : ℤ) := by
    intro x y hxy hy
    have e1 : ‖x‖ ≤ ‖y‖ + ‖x - y‖ := by
      have := norm_add_le y (x - y)
      rwa [add_sub_cancel] at this
    have e2 : (2 : ℝ) ^ (-18 : ℤ) * ‖y‖ ≤ 2 ^ (39 : ℤ) := p2_mul (a := -18) (b := 39) _ le_rfl hy (norm_nonneg _) (by norm_num)
    exact e1.trans (p2_add (a := 39) (b := 40) _ hy (hxy.trans (p2_add (a := 39) (b := -95) _ e2 le_rfl (by norm_num) (by norm_num)))
      (by norm_num) (by norm_num))
  have hW : ∀ j, c.J_min ≤ j → j ≤ J → ∀ k l m, ‖(t' j (c.Lj mr j) (c.Nj mr j) (c.L0 mr j)).v k l m -
        (anaW c.L (c.Lj mr j) (c.Nj mr j) (c.L0 mr j) psi j flm).v k l m‖ ≤
      2 ^ (-18 : ℤ) * ‖(anaW c.L (c.Lj mr j) (c.Nj mr j) (c.L0 mr j) psi j flm).v k l m‖ + 2 ^ (-95 : ℤ) := by
    intro j a0 a1 k l m
    obtain ⟨-, a, b, d, e⟩ := T1 j a0 a1
    by_cases hl : 0 ≤ l ∧ l < c.Lj mr j
    · refine (e k l m hl.1 hl.2).2.trans (add_le_add (mul_le_mul_of_nonneg_right pow5_le (norm_nonneg _)) ?_)
      exact tiny95 (by norm_num) (norm_nonneg _) (hf _ _)
    · rw [Arr3.junk _ k l m (by rw [b]; tauto), anaW, Arr3.of_out _ _ _ _ _ _ _ (by tauto), sub_zero, norm_zero, mul_zero, zero_add]
      positivity
  have hWb : ∀ j, c.J_min ≤ j → j ≤ J → ∀ k l m, ‖(anaW c.L (c.Lj mr j) (c.Nj mr j) (c.L0 mr j) psi j flm).v k l m‖ ≤ 2 ^ (39 : ℤ) := by
    intro j a0 a1 k l m
    have hLj := (LN_j_Lj_bounds (N := c.N) hL hlam j mr).2
    have hLj' : c.Lj mr j ≤ c.L := hLj
    unfold anaW
    by_cases hr : 0 ≤ k ∧ k < 2 * c.Nj mr j - 1 ∧ 0 ≤ l ∧ l < c.Lj mr j ∧ 0 ≤ m ∧ m < 2 * c.Lj mr j - 1
    · rw [Arr3.of_v _ _ _ _ _ _ _ hr]
      split_ifs
      · rw [norm_mul, norm_mul, Complex.norm_conj, Complex.norm_real]
        have k8b := k8_bounds hr.2.2.1
        have : ‖8 * Real.pi ^ 2 / (2 * (l : ℝ) + 1)‖ = k8 l := by
          rw [Real.norm_of_nonneg]; · rfl
          · exact k8b.1.le
        rw [this]
        exact p2_mul (a := 20) (b := 19) _ (hf _ _) (p2_mul (a := 12) (b := 7) _ (hpsi j a0 a1 _ _ hr.2.2.1 (by omega)) k8b.2 k8b.1.le (by norm_num))
          (mul_nonneg (norm_nonneg _) k8b.1.le) (by norm_num)
      · rw [norm_zero]; positivity
    · rw [Arr3.of_out _ _ _ _ _ _ _ hr, norm_zero]; positivity
  have hS : ∀ l m, ‖(s' (c.Ls mr)).v l m - (anaS c.L (c.Ls mr) phi flm).v l m‖ ≤ 2 ^ (-18 : ℤ) * ‖(anaS c.L (c.Ls mr) phi flm).v l m‖ + 2 ^ (-95 : ℤ) := by
    intro l m
    by_cases hl : 0 ≤ l ∧ l < c.Ls mr
    · refine (S4 l m hl.1 hl.2).2.trans (add_le_add (mul_le_mul_of_nonneg_right ?_ (norm_nonneg _)) ?_)
      · exact (sub_le_sub_right (up_mono (by norm_num)) _).trans pow5_le
      · refine le_trans ?_ (tiny95 (f := ‖flm.v l (c.L - c.Ls mr + m)‖) (k := 3) (by norm_num) (norm_nonneg _) (hf _ _))
        have := eta_pos
        have := uu_pos
        gcongr
        norm_num
    · rw [Arr2.junk _ l m (by rw [S2]; tauto), anaS, Arr2.of_out _ _ _ _ _ (by tauto), sub_zero, norm_zero, mul_zero, zero_add]
      positivity
  have hSb : ∀ l m, ‖(anaS c.L (c.Ls mr) phi flm).v l m‖ ≤ 2 ^ (39 : ℤ) := by
    intro l m
    have hLs : c.Ls mr ≤ c.L := hb.2
    unfold anaS
    by_cases hr : 0 ≤ l ∧ l < c.Ls mr ∧ 0 ≤ m ∧ m < 2 * c.Ls mr - 1
    · rw [Arr2.of_v _ _ _ _ _ hr, norm_mul, Complex.norm_real, Real.norm_eq_abs, abs_mul]
      have k4b := k4_bounds hr.1
      have : |Real.sqrt (4 * Real.pi / (2 * (l : ℝ) + 1))| = k4 l := by
        rw [abs_of_nonneg]; · rfl
        · exact k4b.1.le
      rw [this]
      exact p2_mul (a := 20) (b := 14) _ (hf _ _) (p2_mul (a := 12) (b := 2) _ (hphi _ hr.1 (by omega)) k4b.2 k4b.1.le (by norm_num))
        (mul_nonneg (abs_nonneg _) k4b.1.le) (by norm_num)
    · rw [Arr2.of_out _ _ _ _ _ hr, norm_zero]; positivity
  refine ⟨fun j => t' j (c.Lj mr j) (c.Nj mr j) (c.L0 mr j), s' (c.Ls mr), ?_, ?_, fun j a0 a1 => ?_, S2, S3,
    fun l m => tiny (hS l m) (hSb l m), fun l m => ?_⟩
  · rw [harmW_eq O hL hlam hN hNL h0 h1 (flm.map C64.ofC) (psi := psi.map C64.ofC) hG.d hG.r hG.cols hbl.r hbl.c]
    congr 1
    exact List.map_congr_left fun j hj => by rw [mem_pyRange] at hj; exact (T1 j hj.1 (by omega)).1
  · rw [harmS_eq O hL hlam (flm.map C64.ofC) (phi := phi.map F64.fin) hG.n hbl.r hbl.c]
    exact congrArg Except.ok S1
  · obtain ⟨-, a, b, d, -⟩ := T1 j a0 a1
    refine ⟨a, b, d, fun k l m => tiny (hW j a0 a1 k l m) (hWb j a0 a1 k l m), fun n l m => ?_⟩
    have e : wavCoeffs (c.Lj mr j) (c.Nj mr j) (fun l n => psi.v j l (c.L - 1 + n)) flm = _ :=
      (anaW_eq hG.trunc hbl.tri (rfl : LN_j c.L j c.N c.lam mr = (c.Lj mr j, c.Nj mr j, c.L0 mr j))).symm
    rw [e, co3, co3, a, b]
    exact hW j a0 a1 _ _ _
  · rw [← anaS_eq _ hbl.r, co2, co2, S2]
    exact hS _ _

variable {wI : ℤ → Arr3 C64 → Py P} {wF : ℤ → P → Py (Arr3 C64)} {sI : Arr2 C64 → Py P} {sF : P → Py (Arr2 C64)}

/-- a round trip, given what the analysis hands to the inverse transforms (`t`, `s`) and a synthesis (`R`) accurate to a relative error `e` -/
theorem pipe_core {e : ℝ} (he0 : 0 ≤ e) (he1 : e ≤ 1 / 100) (hn : PipeNear c J mr wI wF sI sF δ K τ) (hδ : 0 ≤ δ) (hδ1 : δ ≤ 1) (hK : 0 ≤ K) (hK1 : K ≤ 2 ^ 18)
    (hτ : 0 ≤ τ) (hτ1 : τ ≤ 1) (hv : c.Valid jm J) (hL' : c.L ≤ 2 ^ 23) (hJ : J < 2 ^ 10) (hG : c.Filters J mr psi phi) {B : ℝ}
    (hB : ∀ l, 0 ≤ l → l < c.L → frameSum c.J_min J c.L psi phi l ≤ B) (hB2 : B ≤ 2)
    (hbl : BL2 c.L 0 flm) (hherm : c.reality = true → Herm2 flm)
    (hFb : norm2 c.L (co2 flm) ≤ 2 ^ (20 : ℤ)) {t : ℤ → Arr3 ℂ} {s : Arr2 ℂ}
    (A3 : ∀ j, c.J_min ≤ j → j ≤ J → (t j).d = 2 * c.Nj mr j - 1 ∧ (t j).r = c.Lj mr j ∧ (t j).c = 2 * c.Lj mr j - 1 ∧
        (∀ k l m, ‖(t j).v k l m‖ ≤ 2 ^ (41 : ℤ)) ∧
        ∀ n l m, ‖co3 (t j) n l m - co3 (wavCoeffs (c.Lj mr j) (c.Nj mr j) (fun l n => psi.v j l (c.L - 1 + n)) flm) n l m‖ ≤
          2 ^ (-18 : ℤ) * ‖co3 (wavCoeffs (c.Lj mr j) (c.Nj mr j) (fun l n => psi.v j l (c.L - 1 + n)) flm) n l m‖ + 2 ^ (-95 : ℤ))
    (A4 : s.r = c.Ls mr) (A5 : s.c = 2 * c.Ls mr - 1) (A6 : ∀ l m, ‖s.v l m‖ ≤ 2 ^ (41 : ℤ))
    (A7 : ∀ l m, ‖co2 s l m - co2 (scalCoeffs (c.Ls mr) phi.v flm) l m‖ ≤
        2 ^ (-18 : ℤ) * ‖co2 (scalCoeffs (c.Ls mr) phi.v flm) l m‖ + 2 ^ (-95 : ℤ))
    {R : (ℤ → Arr3 ℂ) → Arr2 ℂ → Arr2 ℂ → Prop}
    (hsyn : ∀ (t' : ℤ → Arr3 ℂ) (s' : Arr2 ℂ), (∀ j, c.J_min ≤ j → j ≤ J → BL3 (c.Lj mr j) (c.Nj mr j) 0 (t' j)) → BL2 (c.Ls mr) 0 s' →
      (∀ j, c.J_min ≤ j → j ≤ J → ∀ k l m, ‖(t' j).v k l m‖ ≤ 2 ^ (40 : ℤ)) → (∀ l m, ‖s'.v l m‖ ≤ 2 ^ (40 : ℤ)) →
      ∃ g, R t' s' g ∧ g.r = c.L ∧ g.c = 2 * c.L - 1 ∧
        ∀ l m, ‖g.v l m - (synA c.L c.N c.J_min J c.lam mr psi phi t' s').v l m‖ ≤
          e * ‖(synA c.L c.N c.J_min J c.lam mr (abs3 psi) (abs1 phi) (fun j => abs3 (t' j)) (abs2 s')).v l m‖ + 2 ^ (-74 : ℤ)) :
    ∃ (p : ℤ → P) (ps : P) (t' : ℤ → Arr3 ℂ) (s' g : Arr2 ℂ), (∀ j, c.J_min ≤ j → j < J + 1 → wI j ((t j).map C64.ofC) = .ok (p j)) ∧ sI (s.map C64.ofC) = .ok ps ∧
      (∀ j, c.J_min ≤ j → j < J + 1 → wF j (p j) = .ok ((t' j).map C64.ofC)) ∧ sF ps = .ok (s'.map C64.ofC) ∧ R t' s' g ∧
      g.r = c.L ∧ g.c = 2 * c.L - 1 ∧
      norm2 c.L (fun l m => co2 g l m - (frameSum c.J_min J c.L psi phi l : ℂ) * co2 flm l m) ≤
        B * ((1 + e) * (δ + K * 2 ^ (-18 : ℤ)) + e) * norm2 c.L (co2 flm) + (2 * (J + 2) * (τ + K * 2 ^ (-50 : ℤ)) + 2 ^ (-50 : ℤ)) := by
  have hL := hv.top.hL
  have hlam := hv.top.hlam
  have h0 := hv.h0
  have h1 := hv.h1
  have hN := hv.hN
  have hNL := hv.hNL
  have hF := hG.trunc
  set W : ℤ → Arr3 ℂ := fun j => wavCoeffs (c.Lj mr j) (c.Nj mr j) (fun l n => psi.v j l (c.L - 1 + n)) flm with hW
  set S := scalCoeffs (c.Ls mr) phi.v flm with hS
  have hwb := fun j => hG.wav_bl hbl j
  have hsb := hG.scal_bl hbl
  have hp : ∀ j, c.J_min ≤ j → j ≤ J → ∃ p t', wI j ((t j).map C64.ofC) = .ok p ∧ wF j p = .ok (t'.map C64.ofC) ∧
      BL3 (c.Lj mr j) (c.Nj mr j) 0 t' ∧
      norm3 c.L (fun n l m => co3 t' n l m - co3 (W j) n l m) ≤
        δ * norm3 c.L (co3 (W j)) + K * norm3 c.L (fun n l m => co3 (t j) n l m - co3 (W j) n l m) + τ := fun j a0 a1 => by
    obtain ⟨b1, b2, b3, b4, -⟩ := A3 j a0 a1
    exact hn.wav j (t j) (W j) a0 a1 b1 b2 b3 b4 (hwb j).1 fun hr => (hwb j).2 hr (hherm hr)
  obtain ⟨ps, s', hps, hs', hs'b, hs'n⟩ := hn.scal s S A4 A5 A6 hsb.1 fun hr => hsb.2 (hherm hr)
  have : Nonempty P := ⟨ps⟩
  have : Nonempty (Arr3 ℂ) := ⟨z3⟩
  choose! p t' hpI hpF hpb hpn using hp
  -- norms
  set ε : ℝ := 2 ^ (-18 : ℤ) with hε
  set q : ℝ := 2 ^ (-50 : ℤ) with hq
  have hε0 : 0 ≤ ε := by positivity
  have hq0 : 0 ≤ q := by positivity
  have hB0 : 0 ≤ B := (frame_nonneg c.J_min J c.L psi phi le_rfl).trans (hB 0 le_rfl (by omega))
  have hq45 : (2 : ℝ) ^ (-95 : ℤ) * 2 ^ 45 = q := by rw [hq, ← zpow_natCast, ← zpow_add₀ two_ne_zero]; norm_num
  have N1 : ∀ j, c.J_min ≤ j → j ≤ J → norm3 c.L (fun n l m => co3 (t j) n l m - co3 (W j) n l m) ≤ ε * norm3 c.L (co3 (W j)) + q :=
    fun j a0 a1 => by
      rw [← hq45]
      exact norm3_entry hL hL' hε0 (by positivity) (A3 j a0 a1).2.2.2.2
  have N2 : norm2 c.L (fun l m => co2 s l m - co2 S l m) ≤ ε * norm2 c.L (co2 S) + q := by
    refine (norm2_entry hL hL' hε0 (q := 2 ^ (-95 : ℤ)) (by positivity) (fun l m _ _ _ _ => A7 l m)).trans ?_
    rw [← hq45]
    gcongr <;> norm_num
  set X0 := K * q + τ with hX0
  have hX00 : 0 ≤ X0 := by positivity
  set δ' := δ + K * ε with hδ'
  have hδ'0 : 0 ≤ δ' := by positivity
  have D1 : ∀ j, c.J_min ≤ j → j ≤ J → norm3 c.L (fun n l m => co3 (t' j) n l m - co3 (W j) n l m) ≤ δ' * norm3 c.L (co3 (W j)) + X0 := by
    intro j a0 a1
    have := mul_le_mul_of_nonneg_left (N1 j a0 a1) hK
    have := hpn j a0 a1
    rw [hδ', hX0]
    linarith
  have D2 : norm2 c.L (fun l m => co2 s' l m - co2 S l m) ≤ δ' * norm2 c.L (co2 S) + X0 := by
    have := mul_le_mul_of_nonneg_left N2 hK
    rw [hδ', hX0]
    linarith
  have hJR : ((J : ℝ) + 2 - c.J_min) * X0 ≤ (J + 2) * X0 := by
    have : (0 : ℝ) ≤ c.J_min := by exact_mod_cast h0
    exact mul_le_mul_of_nonneg_right (by linarith) hX00
  have hDT : normT c.L c.J_min J (fun j n l m => co3 (t' j) n l m - co3 (W j) n l m) (fun l m => co2 s' l m - co2 S l m) ≤
      δ' * normT c.L c.J_min J (fun j => co3 (W j)) (co2 S) + (J + 2) * X0 :=
    (normT_le (by omega) hδ'0 hX00 D1 D2).trans (by linarith)
  have hTT : normT c.L c.J_min J (fun j => co3 (t' j)) (co2 s') ≤ (1 + δ') * normT c.L c.J_min J (fun j => co3 (W j)) (co2 S) + (J + 2) * X0 := by
    refine (normT_le (by omega) (by positivity) hX00 (fun j a0 a1 => ?_) ?_).trans (add_le_add le_rfl hJR)
    · have := norm3_add c.L (a := co3 (t' j)) (b := co3 (W j)) (c := fun n l m => co3 (t' j) n l m - co3 (W j) n l m) fun n l m => by
        have := norm_add_le (co3 (W j) n l m) (co3 (t' j) n l m - co3 (W j) n l m)
        rwa [add_sub_cancel] at this
      have := D1 j a0 a1
      linarith
    · have := norm2_add c.L (a := co2 s') (b := co2 S) (c := fun l m => co2 s' l m - co2 S l m) fun l m => by
        have := norm_add_le (co2 S l m) (co2 s' l m - co2 S l m)
        rwa [add_sub_cancel] at this
      linarith
  have hWT : normT c.L c.J_min J (fun j => co3 (W j)) (co2 S) ≤ Real.sqrt B * norm2 c.L (co2 flm) :=
    normT_ana psi phi hB0 hB (fun j n l m => wavCoeffs_co hF hbl.tri (rfl : LN_j c.L j c.N c.lam mr = (c.Lj mr j, c.Nj mr j, c.L0 mr j)) n l m)
      fun l m => scalCoeffs_co hF hbl.tri l m
  -- bounds on the coefficients handed to the synthesis
  have hF0 := norm2_nonneg c.L (co2 flm)
  have hJ0 : (0 : ℝ) ≤ (J : ℝ) := by exact_mod_cast (by omega : 0 ≤ J)
  have hJ2 : (J : ℝ) + 2 ≤ 2 ^ (11 : ℤ) := by
    have : (J : ℝ) < 2 ^ 10 := by exact_mod_cast hJ
    norm_num at this ⊢
    linarith
  have hKz : K ≤ 2 ^ (18 : ℤ) := by norm_num at hK1 ⊢; exact hK1
  have hKq : K * q ≤ 2 ^ (-32 : ℤ) := p2_mul (a := 18) (b := -50) _ hKz le_rfl hq0 (by norm_num)
  have hXb : (J + 2) * X0 ≤ 2 ^ (12 : ℤ) :=
    p2_mul (a := 11) (b := 1) _ hJ2 (p2_add (a := -32) (b := 0) _ hKq (by rw [zpow_zero]; exact hτ1) (by norm_num) (by norm_num)) hX00 (by norm_num)
  have hsB : Real.sqrt B ≤ 2 ^ (1 : ℤ) := Real.sqrt_le_iff.2 ⟨by norm_num, by norm_num; linarith⟩
  have hδ'1 : 1 + δ' ≤ 2 ^ (2 : ℤ) := by
    have : K * ε ≤ 2 ^ (0 : ℤ) := p2_mul (a := 18) (b := -18) _ hKz le_rfl hε0 (by norm_num)
    rw [zpow_zero] at this
    rw [hδ']
    norm_num
    linarith
  have hTb : normT c.L c.J_min J (fun j => co3 (t' j)) (co2 s') ≤ 2 ^ (24 : ℤ) :=
    hTT.trans (p2_add (a := 23) (b := 12) _
      (p2_mul (a := 2) (b := 21) _ hδ'1 (hWT.trans (p2_mul (a := 1) (b := 20) _ hsB hFb hF0 (by norm_num))) (normT_nonneg _ _ _ _ _) (by norm_num))
      hXb (by norm_num) (by norm_num))
  have hte : ∀ j, c.J_min ≤ j → j ≤ J → ∀ k l m, ‖(t' j).v k l m‖ ≤ 2 ^ (40 : ℤ) := by
    intro j a0 a1 k l m
    refine (entry3 (L := c.L) (hpb j a0 a1) (LN_j_Lj_bounds (N := c.N) hL hlam j mr).2 ((LN_j_Nj_bounds hL hlam hN j mr).2.1.trans hNL) k l m).trans ?_
    exact p2_mul (a := 4) (b := 24) _ (by norm_num) ((norm3_le_normT (d := fun j => co3 (t' j)) a0 a1).trans hTb) (norm3_nonneg _ _) (by norm_num)
  have hse : ∀ l m, ‖s'.v l m‖ ≤ 2 ^ (40 : ℤ) := fun l m =>
    (entry2 hs'b (scal_bandlimit_bounds hL hlam c.J_min mr).2 l m).trans ((norm2_le_normT.trans hTb).trans (p2_mono (by norm_num)))
  -- the synthesis
  obtain ⟨g', G2, G4, G5, G6⟩ := hsyn t' s' hpb hs'b hte hse
  set g := synA c.L c.N c.J_min J c.lam mr psi phi t' s' with hg
  set G := synA c.L c.N c.J_min J c.lam mr (abs3 psi) (abs1 phi) (fun j => abs3 (t' j)) (abs2 s') with hG'
  have hgE : g = synCoeffs c.L c.J_min J (fun j l n => psi.v j l (c.L - 1 + n)) phi.v t' s' :=
    synA_eq hF hG.cols (fun j a0 a1 => (hpb j a0 (by omega)).tri) hs'b.tri
  have hGE : G = synCoeffs c.L c.J_min J (fun j l n => (abs3 psi).v j l (c.L - 1 + n)) (abs1 phi).v (fun j => abs3 (t' j)) (abs2 s') :=
    synA_eq (abs_trunc hF) hG.cols (fun j a0 a1 => (hpb j a0 (by omega)).abs.tri) hs'b.abs.tri
  have hgr : g.r = c.L := by rw [hgE]; rfl
  have hGr : G.r = c.L := by rw [hGE]; rfl
  have hgN : norm2 c.L (fun l m => co2 g l m - (frameSum c.J_min J c.L psi phi l : ℂ) * co2 flm l m) ≤ Real.sqrt B *
      normT c.L c.J_min J (fun j n l m => co3 (t' j) n l m - co3 (W j) n l m) (fun l m => co2 s' l m - co2 S l m) :=
    norm2_syn psi phi hB0 hB _ _ fun l m a0 a1 b0 b1 => by rw [hgE]; exact syn_sub hF hbl t' s' a0 a1 b0 b1
  have hGN : norm2 c.L (co2 G) ≤ Real.sqrt B * normT c.L c.J_min J (fun j => co3 (t' j)) (co2 s') := by
    have e : normT c.L c.J_min J (fun j => co3 (abs3 (t' j))) (co2 (abs2 s')) = normT c.L c.J_min J (fun j => co3 (t' j)) (co2 s') := by
      unfold normT energy3 energy2
      simp only [abs3_co, abs2_co, Complex.norm_real, norm_norm]
    rw [← e]
    refine norm2_syn (abs3 psi) (abs1 phi) hB0 (fun l a0 a1 => by rw [abs_frame]; exact hB l a0 a1) _ _ fun l m a0 a1 b0 b1 => ?_
    rw [hGE, synCoeffs, co2_of, if_pos (by omega), show c.L - 1 + m - (c.L - 1) = m by ring]
  have hgg : norm2 c.L (fun l m => co2 g' l m - co2 g l m) ≤ e * norm2 c.L (co2 G) + 2 ^ (-74 : ℤ) * 2 ^ 24 :=
    norm2_entry hL hL' he0 (by positivity) fun l m _ _ _ _ => by
      rw [co2, co2, co2, G4, hgr, hGr]
      exact G6 _ _
  refine ⟨p, ps, t', s', g', fun j a0 a1 => hpI j a0 (by omega), hps, fun j a0 a1 => hpF j a0 (by omega), hs', G2, G4, G5, ?_⟩
  have hfin := norm2_add c.L (a := fun l m => co2 g' l m - (frameSum c.J_min J c.L psi phi l : ℂ) * co2 flm l m)
    (b := fun l m => co2 g l m - (frameSum c.J_min J c.L psi phi l : ℂ) * co2 flm l m) (c := fun l m => co2 g' l m - co2 g l m) fun l m => by
      refine le_trans (le_of_eq ?_) (norm_add_le _ _)
      congr 1
      ring
  have hnum := pipe_num hB0 hB2 hF0 hδ'0 he0 he1 (by positivity) hWT hDT hTT hgN hGN
  have h24 : (2 : ℝ) ^ (-74 : ℤ) * 2 ^ 24 = q := by rw [hq, ← zpow_natCast, ← zpow_add₀ two_ne_zero]; norm_num
  rw [h24] at hgg
  rw [hX0] at hnum
  linarith

theorem pipe_round_trip (hO : Good O) (hO' : Good O') (hn : PipeNear c J mr wI wF sI sF δ K τ) (hδ : 0 ≤ δ) (hδ1 : δ ≤ 1) (hK : 0 ≤ K) (hK1 : K ≤ 2 ^ 18) (hτ : 0 ≤ τ) (hτ1 : τ ≤ 1)
    (hv : c.Valid jm J) (hL' : c.L ≤ 2 ^ 23) (hN' : c.N ≤ 2 ^ 10) (hJ : J < 2 ^ 10) (hG : c.Filters J mr psi phi) {B : ℝ}
    (hB : ∀ l, 0 ≤ l → l < c.L → frameSum c.J_min J c.L psi phi l ≤ B) (hB2 : B ≤ 2)
    (hbl : BL2 c.L 0 flm) (hherm : c.reality = true → Herm2 flm)
    (hFb : norm2 c.L (co2 flm) ≤ 2 ^ (20 : ℤ)) :
    ∃ p ps g, PipeRun O O' mr c J wI wF sI sF psi phi flm p ps g ∧
      norm2 c.L (fun l m => co2 g l m - (frameSum c.J_min J c.L psi phi l : ℂ) * co2 flm l m) ≤
        B * ((1 + (c.N + J + 4) / 2 ^ 20) * (δ + K * 2 ^ (-18 : ℤ)) + (c.N + J + 4) / 2 ^ 20) * norm2 c.L (co2 flm) +
          (2 * (J + 2) * (τ + K * 2 ^ (-50 : ℤ)) + 2 ^ (-50 : ℤ)) := by
  have hL := hv.top.hL
  have hlam := hv.top.hlam
  have h0 := hv.h0
  have h1 := hv.h1
  have hN := hv.hN
  have hNL := hv.hNL
  have hv1 : ∀ l i, ‖flm.v l i‖ ≤ 2 ^ (20 : ℤ) := fun l i => (entry2 hbl le_rfl l i).trans hFb
  have hpsi : ∀ j, c.J_min ≤ j → j ≤ J → ∀ l n, 0 ≤ l → l < c.L → ‖psi.v j l n‖ ≤ 2 ^ (12 : ℤ) := fun j a0 a1 l n b0 b1 =>
    frame_psi hG.cols b0 (by omega) ((hB l b0 b1).trans hB2) a0 a1 n
  have hphi : ∀ l, 0 ≤ l → l < c.L → |phi.v l| ≤ 2 ^ (12 : ℤ) := fun l b0 b1 => frame_phi b0 (by omega) ((hB l b0 b1).trans hB2)
  obtain ⟨t, s, A1, A2, A3, A4, A5, A6, A7⟩ := ana_pipe (J := J) hO hL hL' hlam hN hNL h0 (by omega) hG hbl hv1 hpsi hphi
  have hN0 : (0 : ℝ) ≤ c.N := by exact_mod_cast (by omega : 0 ≤ c.N)
  have hJ0 : (0 : ℝ) ≤ (J : ℝ) := by exact_mod_cast (by omega : 0 ≤ J)
  have he1 : ((c.N : ℝ) + J + 4) / 2 ^ 20 ≤ 1 / 100 := by
    have h1 : (c.N : ℝ) ≤ 2 ^ 10 := by exact_mod_cast hN'
    have h2 : (J : ℝ) < 2 ^ 10 := by exact_mod_cast hJ
    rw [div_le_iff₀ (by positivity)]
    norm_num at h1 h2 ⊢
    linarith
  obtain ⟨p, ps, t', s', g, b1, b2, b3, b4, b5, b6, b7, b8⟩ := pipe_core (by positivity) he1 hn hδ hδ1 hK hK1 hτ hτ1 hv hL' hJ hG hB hB2 hbl hherm hFb A3 A4 A5 A6 A7
    (R := fun t' s' g => harmSum O' mr ((pyRange c.J_min (J + 1)).map fun j => (t' j).map C64.ofC) (s'.map C64.ofC) c.L c.N c.J_min J c.lam
      (some (psi.map C64.ofC, phi.map F64.fin)) = .ok (g.map C64.ofC)) fun t' s' hpb hs'b hte hse =>
    harm_synthesis (mr := mr) (psi := psi) (phi := phi) hO' hL hL' hlam hN hNL (by omega) h0 (by omega : c.J_min ≤ J + 1) (by omega)
      hG.d hG.r hG.cols hG.n hpsi hphi hs'b.r hs'b.c hse (fun j a0 a1 => ⟨(hpb j a0 (by omega)).d, (hpb j a0 (by omega)).r, (hpb j a0 (by omega)).c⟩) hte
  exact ⟨p, ps, g, ⟨⟨_, A1, b1⟩, ⟨_, A2, b2⟩, ⟨_, _, b3, b4, b5⟩, b6, b7⟩, b8⟩

theorem pipe_gain (hO : Good O) (hO' : Good O') (hn : PipeNear c J mr wI wF sI sF δ K τ) (hδ : 0 ≤ δ) (hδ1 : δ ≤ 1) (hK : 0 ≤ K) (hK1 : K ≤ 2 ^ 18) (hτ : 0 ≤ τ) (hτ1 : τ ≤ 1)
    (hv : c.Valid jm J) (hL' : c.L ≤ 2 ^ 23) (hN' : c.N ≤ 2 ^ 10) (hJ : J < 2 ^ 10) (hG : c.Filters J mr psi phi) {ρ : ℝ}
    (hρ : ρ ≤ 1 / 200) (hF : ∀ l, 0 ≤ l → l < c.L → |c.spin| ≤ l → |frameSum c.J_min J c.L psi phi l - 1| ≤ ρ)
    (hbl : BL2 c.L c.spin flm) (hherm : c.reality = true → Herm2 flm)
    (hFb : norm2 c.L (co2 flm) ≤ 2 ^ (20 : ℤ)) (hs : |c.spin| < c.L) :
    ∃ p ps g, PipeRun O O' mr c J wI wF sI sF psi phi flm p ps g ∧
      norm2 c.L (fun l m => co2 g l m - co2 flm l m) ≤
        (1.01 * (δ + K * 2 ^ (-18 : ℤ)) + 1.01 * (c.N + J + 4) / 2 ^ 20 + ρ) * norm2 c.L (co2 flm) + (2 * (J + 2) * (τ + K * 2 ^ (-50 : ℤ)) + 2 ^ (-50 : ℤ)) := by
  have hρ0 : 0 ≤ ρ := (abs_nonneg _).trans (hF |c.spin| (abs_nonneg _) hs le_rfl)
  have hbl0 : BL2 c.L 0 flm := ⟨hbl.r, hbl.c, fun l m h => by
    rcases h with h | h
    · exact hbl.zero l m (Or.inl h)
    · rw [abs_zero] at h
      exact hbl.zero l m (Or.inl (by have := abs_nonneg m; omega))⟩
  have hJ0 : (0 : ℝ) ≤ (J : ℝ) := by have := hv.h0; have := hv.h1; exact_mod_cast (by omega : 0 ≤ J)
  have hN0 : (0 : ℝ) ≤ c.N := by have := hv.hN; exact_mod_cast (by omega : 0 ≤ c.N)
  have hN1 : (c.N : ℝ) ≤ 2 ^ 10 := by exact_mod_cast hN'
  have hJ1 : (J : ℝ) ≤ 2 ^ 10 := by exact_mod_cast hJ.le
  have he : ((c.N : ℝ) + J + 4) / 2 ^ 20 ≤ 1 / 400 := by
    rw [div_le_iff₀ (by positivity)]
    norm_num at hN1 hJ1 ⊢
    linarith
  obtain ⟨p, ps, g, h1, h5⟩ := pipe_round_trip hO hO' hn hδ hδ1 hK hK1 hτ hτ1 hv hL' hN' hJ hG (frame_bound hG hρ0 hF) (by linarith) hbl0 hherm hFb
  refine ⟨p, ps, g, h1, ?_⟩
  rw [mul_div_assoc]
  exact gain_core hv.top.hL (by omega) hρ0 hρ hF hbl (by positivity) he (by positivity) h5

end S2wav.Single
