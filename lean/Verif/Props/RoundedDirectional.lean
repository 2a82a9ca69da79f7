import Verif.Lemmas.FloatDirectional
import Verif.Props.Stability
import Verif.Lemmas.LibmSpecial

/-! # C101, C102: the directional filters in double precision, and the round trip with them

`binomial_coefficient`, `tiling_direction` and `filters_directional_vectorised` executed in IEEE double precision
(`Model/IeeeFilters.lean`) with the default `lam = 2`, and the transforms that take these filters as an argument. -/

namespace S2wav
open Classical

variable {m : Libm} {lg : F64 → F64} {jm : JMax} {L N J J_min : ℤ} {X : ℤ → ℤ → ℝ}

/-! ### Helpers -/

theorem ofC_inj {x y : ℂ} (h : C64.ofC x = C64.ofC y) : x = y := by
  simp only [C64.ofC, C64.mk.injEq, F64.fin.injEq] at h
  exact Complex.ext h.1 h.2

theorem map_of3 {d r c : ℤ} {f : ℤ → ℤ → ℤ → ℂ} : (Arr3.of d r c f).map C64.ofC = Arr3.of d r c fun k i j => C64.ofC (f k i j) :=
  Arr3.of_congr fun k i j h0 h1 h2 h3 h4 h5 => by rw [Arr3.of_v d r c f k i j ⟨h0, h1, h2, h3, h4, h5⟩]

theorem map_ofC_inj {a b : Arr3 ℂ} (h : a.map C64.ofC = b.map C64.ofC) : a = b := by
  have hd : a.d = b.d := congrArg (fun x : Arr3 C64 => x.d) h
  have hr : a.r = b.r := congrArg (fun x : Arr3 C64 => x.r) h
  have hc : a.c = b.c := congrArg (fun x : Arr3 C64 => x.c) h
  refine Arr3.ext' hd hr hc fun k i j h0 h1 h2 h3 h4 h5 => ofC_inj ?_
  have := congrArg (fun x => Arr3.v x k i j) h
  simp only [Arr3.map] at this
  rwa [Arr3.of_v _ _ _ _ _ _ _ ⟨h0, h1, h2, h3, h4, h5⟩, Arr3.of_v _ _ _ _ _ _ _ ⟨h0, by omega, h2, by omega, h4, by omega⟩] at this

theorem map_fin_inj {a b : Arr1 ℝ} (h : a.map F64.fin = b.map F64.fin) : a = b := by
  have hn : a.n = b.n := congrArg (fun x : Arr1 F64 => x.n) h
  refine Arr1.ext' hn fun i h0 h1 => ?_
  have := congrArg (fun x => Arr1.v x i) h
  simp only [Arr1.map] at this
  rw [Arr1.of_v _ _ _ ⟨h0, h1⟩, Arr1.of_v _ _ _ ⟨h0, by omega⟩] at this
  injection this

/-- everything known of the result -/
structure Dir64 (m : Libm) (lg : F64 → F64) (jm : JMax) (L N J J_min spin : ℤ) (psi : Arr3 ℂ) (phi : Arr1 ℝ) (X : ℤ → ℤ → ℝ) : Prop where
  k : FloatK J L X
  ax : ∃ m' : Libm, m'.Ok ∧ filters_axisym_vectorised64 m' jm L J_min 2 =
    .ok (Arr2.of (J + 1) L fun j l => .fin (psi64 (X (j + 1) l) (X j l)), Arr1.of L fun l => .fin (rnd (Real.sqrt (X J_min l))))
  wav : psi = Arr3.of (J + 1) L (2 * L - 1) fun j l k => psiD64 m lg X N |spin| j l (k - (L - 1))
  scal : phi = Arr1.of L fun l => phiD64 X J_min |spin| l

theorem dir64_exists' (hm : m.Ok) (hs : Libm.Special m lg) (hT : TopScale jm L 2 J) (hL : L ≤ 2 ^ 53) (hJ : J ≤ 1000)
    (hN : 1 ≤ N) (hN' : N ≤ 990) (h0 : 0 ≤ J_min) (h1 : J_min < J) (spin : ℤ) :
    ∃ (psi : Arr3 ℂ) (phi : Arr1 ℝ) (X : ℤ → ℤ → ℝ), filters_directional_vectorised64 m lg jm L N J_min 2 spin = .ok (psi.map C64.ofC, phi.map F64.fin) ∧
      Dir64 m lg jm L N J J_min spin psi phi X ∧ filters_axisym_vectorised64 m jm L J_min 2 =
        .ok (Arr2.of (J + 1) L fun j l => .fin (psi64 (X (j + 1) l) (X j l)), Arr1.of L fun l => .fin (rnd (Real.sqrt (X J_min l)))) := by
  obtain ⟨X, hX, ha, hf⟩ := filters_directional_vectorised64_ok hm hs hT.hJ hT.hL hL hJ hN hN' h0 h1 spin
  refine ⟨_, _, X, ?_, ⟨hX, ⟨m, hm, ha⟩, rfl, rfl⟩, ha⟩
  rw [hf, map_of3, map_of1]

theorem dir64_exists (hm : m.Ok) (hs : Libm.Special m lg) (hT : TopScale jm L 2 J) (hL : L ≤ 2 ^ 53) (hJ : J ≤ 1000)
    (hN : 1 ≤ N) (hN' : N ≤ 990) (h0 : 0 ≤ J_min) (h1 : J_min < J) (spin : ℤ) :
    ∃ (psi : Arr3 ℂ) (phi : Arr1 ℝ) (X : ℤ → ℤ → ℝ), filters_directional_vectorised64 m lg jm L N J_min 2 spin = .ok (psi.map C64.ofC, phi.map F64.fin) ∧
      Dir64 m lg jm L N J J_min spin psi phi X := by
  obtain ⟨psi, phi, X, h, hd, -⟩ := dir64_exists' hm hs hT hL hJ hN hN' h0 h1 spin
  exact ⟨psi, phi, X, h, hd⟩

theorem dir64_elim (hm : m.Ok) (hs : Libm.Special m lg) (hT : TopScale jm L 2 J) (hL : L ≤ 2 ^ 53) (hJ : J ≤ 1000)
    (hN : 1 ≤ N) (hN' : N ≤ 990) (h0 : 0 ≤ J_min) (h1 : J_min < J) {spin : ℤ} {psi : Arr3 ℂ} {phi : Arr1 ℝ}
    (h : filters_directional_vectorised64 m lg jm L N J_min 2 spin = .ok (psi.map C64.ofC, phi.map F64.fin)) :
    ∃ X, Dir64 m lg jm L N J J_min spin psi phi X := by
  obtain ⟨psi', phi', X, h', hd⟩ := dir64_exists hm hs hT hL hJ hN hN' h0 h1 spin
  rw [h] at h'
  simp only [Except.ok.injEq, Prod.mk.injEq] at h'
  rw [← map_ofC_inj h'.1, ← map_fin_inj h'.2] at hd
  exact ⟨X, hd⟩

theorem psiD64_support (hX : FloatK J L X) (hN : 1 ≤ N) {elmin j l n : ℤ} (hj0 : 0 ≤ j) (hj1 : j ≤ J) (hl0 : 0 ≤ l) (hl1 : l < L)
    (h : psiD64 m lg X N elmin j l n ≠ 0) :
    elmin ≤ l ∧ (2 : ℝ) ^ (j - 1) < l ∧ (l : ℝ) < 2 ^ (j + 1) ∧ 1 ≤ l ∧ |n| ≤ l ∧ |n| < N ∧ (N + n) % 2 ≠ 0 := by
  unfold psiD64 at h
  by_cases hl : l < elmin
  · rw [if_pos hl] at h; exact absurd rfl h
  rw [if_neg hl] at h
  have hp : psi64 (X (j + 1) l) (X j l) ≠ 0 := by rintro h0; apply h; rw [h0, zero_mul, rnd_zero, zero_mul, rnd_zero]; simp
  have hs : sig64 m lg N l n ≠ 0 := by rintro h0; apply h; rw [h0, mul_zero, rnd_zero]; simp
  have hc : 1 ≤ l ∧ |n| ≤ gam N l ∧ (N + n) % 2 ≠ 0 := by
    by_contra hc; exact hs (sig64_eq_zero hc)
  have hg := gam_facts hN hc.1
  refine ⟨by omega, ?_, ?_, hc.1, hc.2.1.trans hg.2.2.2.1, by omega, hc.2.2⟩
  · by_contra hk
    have hk := not_lt.1 hk
    apply hp
    rw [(hX j l (by omega) (by omega) hl0 hl1).2.2.1 hk, (hX (j + 1) l (by omega) (by omega) hl0 hl1).2.2.1 (by
      rw [add_sub_cancel_right]; exact hk.trans (zpow_le_zpow_right₀ (by norm_num) (by omega))), psi64_self]
  · by_contra hk
    have hk := not_lt.1 hk
    apply hp
    rw [(hX (j + 1) l (by omega) (by omega) hl0 hl1).2.2.2 hk, (hX j l (by omega) (by omega) hl0 hl1).2.2.2 (by
      exact le_trans (zpow_le_zpow_right₀ (by norm_num) (by omega)) hk), psi64_self]

theorem phiD64_support (hX : FloatK J L X) {elmin l : ℤ} (hj0 : 0 ≤ J_min) (hj1 : J_min ≤ J) (hl0 : 0 ≤ l) (hl1 : l < L)
    (h : phiD64 X J_min elmin l ≠ 0) : elmin ≤ l ∧ (l : ℝ) < 2 ^ J_min := by
  unfold phiD64 at h
  by_cases hl : l < elmin
  · rw [if_pos hl] at h; exact absurd rfl h
  rw [if_neg hl] at h
  refine ⟨by omega, ?_⟩
  by_contra hk
  apply h
  rw [(hX J_min l hj0 (by omega) hl0 hl1).2.2.2 (not_lt.1 hk), Real.sqrt_zero, rnd_zero, zero_mul, rnd_zero]

theorem psiG_conj {a : ℤ → ℤ → ℝ} {w : ℤ → ℝ} (hs : Libm.Special m lg) (hN : 1 ≤ N) (hN' : N ≤ 41) {elmin j l n : ℤ} :
    psiG m lg a w N elmin j l (-n) = (-1 : ℂ) ^ n * (starRingEnd ℂ) (psiG m lg a w N elmin j l n) := by
  unfold psiG
  split_ifs with hl
  · simp
  rw [sig64_neg hs hN hN']
  by_cases h : 1 ≤ l ∧ |n| ≤ gam N l ∧ (N + n) % 2 ≠ 0
  · rw [map_mul, Complex.conj_ofReal, ← mul_assoc]
    congr 1
    unfold nuC
    split_ifs with hp
    · have : Even n := by rw [Int.even_iff]; omega
      rw [this.neg_one_zpow]; simp
    · have : Odd n := by rw [Int.odd_iff]; omega
      rw [this.neg_one_zpow]; simp
  · rw [sig64_eq_zero h, mul_zero, rnd_zero]; simp

theorem psiD64_conj (hs : Libm.Special m lg) (hN : 1 ≤ N) (hN' : N ≤ 41) {elmin j l n : ℤ} :
    psiD64 m lg X N elmin j l (-n) = (-1 : ℂ) ^ n * (starRingEnd ℂ) (psiD64 m lg X N elmin j l n) := by
  rw [psiD64_eq]; exact psiG_conj hs hN hN'

theorem Dir64.support {spin : ℤ} {psi : Arr3 ℂ} {phi : Arr1 ℝ} (hd : Dir64 m lg jm L N J J_min spin psi phi X) (hN : 1 ≤ N) (h0 : 0 ≤ J_min) (h1 : J_min < J) :
    psi.d = J + 1 ∧ psi.r = L ∧ psi.c = 2 * L - 1 ∧ phi.n = L ∧
      (∀ j l n, psi.v j l (L - 1 + n) ≠ 0 →
        |spin| ≤ l ∧ (2 : ℝ) ^ (j - 1) < l ∧ (l : ℝ) < 2 ^ (j + 1) ∧ |n| ≤ l ∧ |n| < N ∧ (N + n) % 2 ≠ 0) ∧
      (∀ l, phi.v l ≠ 0 → |spin| ≤ l ∧ (l : ℝ) < 2 ^ J_min) := by
  rw [hd.wav, hd.scal]
  refine ⟨rfl, rfl, rfl, rfl, fun j l n hne => ?_, fun l hne => ?_⟩
  · by_cases hr : 0 ≤ j ∧ j < J + 1 ∧ 0 ≤ l ∧ l < L ∧ 0 ≤ L - 1 + n ∧ L - 1 + n < 2 * L - 1
    · rw [Arr3.of_v _ _ _ _ _ _ _ hr, add_sub_cancel_left] at hne
      obtain ⟨a, b, c, -, d, e, f⟩ := psiD64_support hd.k hN hr.1 (by omega) hr.2.2.1 hr.2.2.2.1 hne
      exact ⟨a, b, c, d, e, f⟩
    · exact absurd (Arr3.junk _ j l _ hr) hne
  · by_cases hr : 0 ≤ l ∧ l < L
    · rw [Arr1.of_v _ _ _ hr] at hne
      exact phiD64_support hd.k h0 h1.le hr.1 hr.2 hne
    · exact absurd (Arr1.junk _ l hr) hne

theorem Dir64.close {spin : ℤ} {psi psi' : Arr3 ℂ} {phi phi' : Arr1 ℝ} (hd : Dir64 m lg jm L N J J_min spin psi phi X) (hs : Libm.Special m lg)
    (hT : TopScale jm L 2 J) (hL : L ≤ 2 ^ 53) (hJ : J ≤ 1000) (hN : 1 ≤ N) (hN' : N ≤ 990) (h0 : 0 ≤ J_min) (h1 : J_min < J)
    (h' : filters_directional_vectorised jm L N J_min 2 spin 0 = .ok (psi', phi')) :
    (∃ ν : ℂ, ‖ν‖ = 1 ∧ ∀ j l k, psi.v j l k = ν * ‖psi.v j l k‖ ∧ psi'.v j l k = ν * ‖psi'.v j l k‖) ∧
    (∀ j l k, 0 ≤ l → 8 * Real.pi ^ 2 / (2 * l + 1) * |‖psi.v j l k‖ ^ 2 - ‖psi'.v j l k‖ ^ 2| ≤ 1 / 2 ^ 30) ∧
    (∀ l, 0 ≤ phi.v l ∧ 0 ≤ phi'.v l) ∧
    (∀ l, 0 ≤ l → 4 * Real.pi / (2 * l + 1) * |phi.v l ^ 2 - phi'.v l ^ 2| ≤ 1 / 2 ^ 30) := by
  obtain ⟨m', hm', hax⟩ := hd.ax
  rw [filters_directional_vectorised_ok hT hN h0 h1] at h'
  simp only [Except.ok.injEq, Prod.mk.injEq] at h'
  obtain ⟨ps, ph, ps', ph', ha, ha', -, -, -, -, -, hc, hc', -⟩ := C100_vectorised hm' hT hL hJ h0 h1
  rw [hax] at ha
  simp only [Except.ok.injEq, Prod.mk.injEq] at ha
  obtain ⟨e1, e2⟩ := fin_inj ha.1 ha.2
  rw [filters_axisym_vectorised_ok hT h0 h1] at ha'
  simp only [Except.ok.injEq, Prod.mk.injEq] at ha'
  rw [← h'.1, ← h'.2, hd.wav, hd.scal]
  have hX := hd.k
  refine ⟨⟨nuC N, nuC_norm N, fun j l k => ?_⟩, fun j l k hl0 => ?_, fun l => ?_, fun l hl0 => ?_⟩
  · by_cases hr : 0 ≤ j ∧ j < J + 1 ∧ 0 ≤ l ∧ l < L ∧ 0 ≤ k ∧ k < 2 * L - 1
    · rw [Arr3.of_v _ _ _ _ _ _ _ hr, Arr3.of_v _ _ _ _ _ _ _ hr]
      constructor
      · unfold psiD64
        split_ifs
        · simp
        · rw [norm_mul, nuC_norm, one_mul, Complex.norm_real, Real.norm_of_nonneg]
          exact rnd_nonneg (mul_nonneg (rnd_nonneg (mul_nonneg (psi64_nonneg _ _) (wfac_rl hr.2.2.1 (by omega)).2.le)) (sig64_nonneg _ _ _))
      · unfold psiDir psiDirOf
        split_ifs
        · simp
        · rw [sfac_zero, Complex.ofReal_one, mul_one]
          unfold sdir
          split_ifs
          · have e : (cpsi l : ℂ) * (psiAx 2 j l : ℂ) * (nuC N * ((Real.sqrt (((gam N l).toNat.choose ((gam N l - (k - (L - 1))) / 2).toNat : ℝ) / 2 ^ (gam N l).toNat) : ℝ) : ℂ)) =
                nuC N * ((cpsi l * psiAx 2 j l * Real.sqrt (((gam N l).toNat.choose ((gam N l - (k - (L - 1))) / 2).toNat : ℝ) / 2 ^ (gam N l).toNat) : ℝ) : ℂ) := by
              push_cast; ring
            rw [e, norm_mul, nuC_norm, one_mul, Complex.norm_real, Real.norm_of_nonneg]
            refine mul_nonneg (mul_nonneg ?_ ?_) (Real.sqrt_nonneg _)
            · unfold cpsi; have := Real.pi_pos; positivity
            · exact Real.sqrt_nonneg _
          · simp
    · rw [(Arr3.of (J + 1) L (2 * L - 1) _).junk j l k hr, (Arr3.of (J + 1) L (2 * L - 1) _).junk j l k hr]; simp
  · by_cases hr : 0 ≤ j ∧ j < J + 1 ∧ 0 ≤ l ∧ l < L ∧ 0 ≤ k ∧ k < 2 * L - 1
    · rw [Arr3.of_v _ _ _ _ _ _ _ hr, Arr3.of_v _ _ _ _ _ _ _ hr]
      by_cases hl : l < |spin|
      · unfold psiD64 psiDir psiDirOf
        rw [if_pos hl, if_pos hl]; norm_num
      have hl' : (0 : ℝ) ≤ l := by exact_mod_cast hl0
      have hpi := Real.pi_pos
      have n1 := psiD64_sq (n := k - (L - 1)) (elmin := |spin|) hX hL hs hN hN' hr.1 (by omega) hl0 hr.2.2.2.1 (by omega)
      have ex : 8 * Real.pi ^ 2 / (2 * l + 1) * ‖psiDir N 2 |spin| j l (k - (L - 1))‖ ^ 2 = psiAx 2 j l ^ 2 * ‖sdir N l (k - (L - 1))‖ ^ 2 := by
        unfold psiDir psiDirOf
        rw [if_neg hl, sfac_zero, norm_mul, norm_mul, norm_mul, Complex.norm_real, Complex.norm_real, mul_pow, mul_pow, mul_pow, Real.norm_eq_abs,
          Real.norm_eq_abs, sq_abs, sq_abs, cpsi_sq hl0]
        simp
        field_simp
      have hg : 0 ≤ 8 * Real.pi ^ 2 / (2 * l + 1) := by positivity
      rw [← abs_of_nonneg hg, ← abs_mul, mul_sub, ex]
      have hcl := hc j l
      rw [e1 j l hr.1 hr.2.1 hr.2.2.1 hr.2.2.2.1, ← ha'.1, Arr2.of_v _ _ _ _ _ ⟨hr.1, hr.2.1, hr.2.2.1, hr.2.2.2.1⟩] at hcl
      have hc1 : ‖sdir N l (k - (L - 1))‖ ^ 2 ≤ 1 := by
        by_cases h : 1 ≤ l ∧ |k - (L - 1)| ≤ gam N l ∧ (N + (k - (L - 1))) % 2 ≠ 0
        · exact (sig64_step hs hN hN' h).choose_spec.2.2.2.1
        · rw [sdir_eq_zero h, norm_zero]; norm_num
      have ha1 := hX.psi_le hr.1 (by omega) hl0 hr.2.2.2.1
      have ha0 := psi64_nonneg (X (j + 1) l) (X j l)
      have hA : psi64 (X (j + 1) l) (X j l) ^ 2 ≤ 3 := by
        have y0 := (hX j l hr.1 (by omega) hl0 hr.2.2.2.1).1
        have x2 := hX.le_two (j := j + 1) (by omega) (by omega) hl0 hr.2.2.2.1
        have d := (abs_le.1 (psi64_near (hX (j + 1) l (by omega) (by omega) hl0 hr.2.2.2.1).1 y0 x2)).2
        have e : max 0 (X (j + 1) l - X j l) ≤ 2 := max_le (by norm_num) (by linarith)
        linarith [show (1 : ℝ) / 2 ^ 48 ≤ 1 by norm_num]
      have hm := near_mul hcl (sq_nonneg ‖sdir N l (k - (L - 1))‖)
      obtain ⟨hE0, hE1, -⟩ := binE_bounds N
      set A := psi64 (X (j + 1) l) (X j l) ^ 2
      set c := ‖sdir N l (k - (L - 1))‖ ^ 2
      have hA0 : 0 ≤ A := sq_nonneg _
      have hc0 : 0 ≤ c := sq_nonneg _
      have hAc : A * c ≤ 3 := by nlinarith
      have hAc0 : 0 ≤ A * c := mul_nonneg hA0 hc0
      have n2 : A * c * (binE N + 1 / 2 ^ 45) ≤ 3 * (1 / 2 ^ 33 + 1 / 2 ^ 45) :=
        mul_le_mul hAc (by linarith) (by positivity) (by norm_num)
      have n3 : 1 / 2 ^ 31 * c ≤ 1 / 2 ^ 31 := by linarith
      refine (abs_sub_le _ (A * c) _).trans ((add_le_add n1 hm).trans ?_)
      generalize A * c * (binE N + 1 / 2 ^ 45) = q at *
      refine (add_le_add (add_le_add n2 le_rfl) n3).trans ?_
      norm_num
    · rw [(Arr3.of (J + 1) L (2 * L - 1) _).junk j l k hr, (Arr3.of (J + 1) L (2 * L - 1) _).junk j l k hr]; norm_num
  · constructor
    · by_cases hr : 0 ≤ l ∧ l < L
      · rw [Arr1.of_v _ _ _ hr]
        unfold phiD64
        split_ifs
        · exact le_rfl
        · exact rnd_nonneg (mul_nonneg (rnd_nonneg (Real.sqrt_nonneg _)) (vfac_rl hr.1 (by omega)).2.le)
      · rw [(Arr1.of L _).junk l hr]
    · by_cases hr : 0 ≤ l ∧ l < L
      · rw [Arr1.of_v _ _ _ hr]
        unfold phiDir
        split_ifs
        · exact le_rfl
        · rw [sfac_zero, mul_one]
          exact mul_nonneg (Real.sqrt_nonneg _) (Real.sqrt_nonneg _)
      · rw [(Arr1.of L _).junk l hr]
  · by_cases hr : 0 ≤ l ∧ l < L
    · rw [Arr1.of_v _ _ _ hr, Arr1.of_v _ _ _ hr]
      by_cases hl : l < |spin|
      · unfold phiD64 phiDir
        rw [if_pos hl, if_pos hl]; norm_num
      have hl' : (0 : ℝ) ≤ l := by exact_mod_cast hl0
      have hpi := Real.pi_pos
      have n1 := phiD64_sq (elmin := |spin|) hX hL h0 h1.le hl0 hr.2 (by omega)
      have ex : 4 * Real.pi / (2 * l + 1) * phiDir 2 J_min |spin| 0 l ^ 2 = phiAx 2 J_min l ^ 2 := by
        unfold phiDir
        rw [if_neg hl, sfac_zero, mul_one, mul_pow, cphi_sq hl0]
        field_simp
      have hg : 0 ≤ 4 * Real.pi / (2 * l + 1) := by positivity
      rw [← abs_of_nonneg hg, ← abs_mul, mul_sub, ex]
      have hcl := hc' l
      rw [e2 l hr.1 hr.2, ← ha'.2, Arr1.of_v _ _ _ hr] at hcl
      have ha1 := hX.phi_le h0 (by omega) hl0 hr.2
      have ha0 := rnd_nonneg (Real.sqrt_nonneg (X J_min l))
      have hA : rnd (Real.sqrt (X J_min l)) ^ 2 ≤ 4 := by nlinarith
      refine (abs_sub_le _ _ _).trans ((add_le_add n1 hcl).trans ?_)
      norm_num; linarith
    · rw [(Arr1.of L _).junk l hr, (Arr1.of L _).junk l hr]; norm_num

theorem Dir64.admissible {spin : ℤ} {psi : Arr3 ℂ} {phi : Arr1 ℝ} (hd : Dir64 m lg jm L N J J_min spin psi phi X) (hs : Libm.Special m lg)
    (hT : TopScale jm L 2 J) (hL : L ≤ 2 ^ 53) (hJ : J ≤ 1000) (hN : 1 ≤ N) (hN' : N ≤ 990) (h0 : 0 ≤ J_min) (h1 : J_min < J)
    {l : ℤ} (hl0 : 0 ≤ l) (hl1 : l < L) (hl : |spin| ≤ l) :
    1 - 1 / 2 ^ 32 ≤ frameSum J_min J L psi phi l ∧ frameSum J_min J L psi phi l ≤ 1.001 + 1 / 2 ^ 31 ∧
    (L ≤ 2049 → frameSum J_min J L psi phi l ≤ 1 + 1 / 2 ^ 31) ∧
    (N ≤ 41 → 1 - 1 / 2 ^ 44 ≤ frameSum J_min J L psi phi l) ∧
    (N ≤ 41 → L ≤ 17 → frameSum J_min J L psi phi l ≤ 1 + 1 / 2 ^ 44) := by
  obtain ⟨s1, s2, s3, s4⟩ := energy64_bounds hd.k hT.hLJ h0 h1 hl0 hl1 rfl
  have hF := frameSum64 (m := m) (lg := lg) (elmin := |spin|) hd.k hL hJ hs hN hN' h0 h1 hl0 hl1 hl rfl
  rw [← hd.wav, ← hd.scal] at hF
  obtain ⟨hE0, hE1, hE2⟩ := binE_bounds N
  set S := rnd (Real.sqrt (X J_min l)) ^ 2 + ∑ j ∈ Finset.Icc J_min J, psi64 (X (j + 1) l) (X j l) ^ 2
  set F := frameSum J_min J L psi phi l
  have hS0 : 0 ≤ S := le_trans (by norm_num) s1
  have k1 : S * (binE N + 1 / 2 ^ 45) ≤ 1.01 * (binE N + 1 / 2 ^ 45) :=
    mul_le_mul_of_nonneg_right (s2.trans (by norm_num)) (by positivity)
  have hF' := abs_le.1 hF
  generalize S * (binE N + 1 / 2 ^ 45) = q at *
  refine ⟨?_, ?_, fun hL => ?_, fun hN => ?_, fun hN hL => ?_⟩
  · norm_num at *; linarith
  · norm_num at *; linarith
  · have := s3 hL
    norm_num at *; linarith
  · rw [hE2 hN] at k1
    norm_num at *; linarith
  · have := s4 hL
    rw [hE2 hN] at k1
    norm_num at *; linarith

/-! ### C101 -/

/-- **C101** the binomial coefficients computed through `exp` and `loggamma` in double precision: exact up to `n = 40`, within a
relative `2^-34` up to `n = 990`, and always an integer. -/
theorem C101_binomial (hs : Libm.Special m lg) {n k : ℕ} (hk : k ≤ n) (hn : n ≤ 990) :
    ∃ b : ℤ, binomial_coefficient64 m lg n (.fin k) = .fin b ∧ |(b : ℝ) - n.choose k| ≤ n.choose k / 2 ^ 34 ∧ (n ≤ 40 → b = n.choose k) := by
  obtain ⟨b, h1, -, h2, h3⟩ := binomial_coefficient64_ok hs hk hn
  refine ⟨b, h1, h2, fun h => ?_⟩
  have := h3 h
  exact_mod_cast this

/-- **C101** the directional filters in double precision, for `lam = 2`, any band-limit up to 2^53, up to 990 directions and any
spin: no exception, no infinity, no NaN; the shapes are right; a wavelet entry is exactly zero outside the two bands of its
scale, below the spin, for orders above the degree or not below `N`, and for orders of the wrong parity; the
scaling function is exactly zero below the spin and from `2^J_min` on. -/
theorem C101_directional (hm : m.Ok) (hs : Libm.Special m lg) (hT : TopScale jm L 2 J) (hL : L ≤ 2 ^ 53) (hJ : J ≤ 1000)
    (hN : 1 ≤ N) (hN' : N ≤ 990) (h0 : 0 ≤ J_min) (h1 : J_min < J) (spin : ℤ) :
    ∃ (psi : Arr3 ℂ) (phi : Arr1 ℝ), filters_directional_vectorised64 m lg jm L N J_min 2 spin = .ok (psi.map C64.ofC, phi.map F64.fin) ∧
      psi.d = J + 1 ∧ psi.r = L ∧ psi.c = 2 * L - 1 ∧ phi.n = L ∧
      (∀ j l n, psi.v j l (L - 1 + n) ≠ 0 →
        |spin| ≤ l ∧ (2 : ℝ) ^ (j - 1) < l ∧ (l : ℝ) < 2 ^ (j + 1) ∧ |n| ≤ l ∧ |n| < N ∧ (N + n) % 2 ≠ 0) ∧
      (∀ l, phi.v l ≠ 0 → |spin| ≤ l ∧ (l : ℝ) < 2 ^ J_min) := by
  obtain ⟨psi, phi, X, hf, hd⟩ := dir64_exists hm hs hT hL hJ hN hN' h0 h1 spin
  refine ⟨psi, phi, hf, ?_⟩
  exact hd.support hN h0 h1

/-- **C101** they are close to the filters of exact arithmetic: same phase, and squared moduli within `2^-30` of each other
when normalised as in the frame sum. -/
theorem C101_close (hm : m.Ok) (hs : Libm.Special m lg) (hT : TopScale jm L 2 J) (hL : L ≤ 2 ^ 53) (hJ : J ≤ 1000)
    (hN : 1 ≤ N) (hN' : N ≤ 990) (h0 : 0 ≤ J_min) (h1 : J_min < J) {spin : ℤ} {psi psi' : Arr3 ℂ} {phi phi' : Arr1 ℝ}
    (h : filters_directional_vectorised64 m lg jm L N J_min 2 spin = .ok (psi.map C64.ofC, phi.map F64.fin))
    (h' : filters_directional_vectorised jm L N J_min 2 spin 0 = .ok (psi', phi')) :
    (∃ ν : ℂ, ‖ν‖ = 1 ∧ ∀ j l k, psi.v j l k = ν * ‖psi.v j l k‖ ∧ psi'.v j l k = ν * ‖psi'.v j l k‖) ∧
    (∀ j l k, 0 ≤ l → 8 * Real.pi ^ 2 / (2 * l + 1) * |‖psi.v j l k‖ ^ 2 - ‖psi'.v j l k‖ ^ 2| ≤ 1 / 2 ^ 30) ∧
    (∀ l, 0 ≤ phi.v l ∧ 0 ≤ phi'.v l) ∧
    (∀ l, 0 ≤ l → 4 * Real.pi / (2 * l + 1) * |phi.v l ^ 2 - phi'.v l ^ 2| ≤ 1 / 2 ^ 30) := by
  obtain ⟨X, hd⟩ := dir64_elim hm hs hT hL hJ hN hN' h0 h1 h
  exact hd.close hs hT hL hJ hN hN' h0 h1 h'

/-- **C101** they are admissible up to rounding, at every degree from the spin on. -/
theorem C101_admissible (hm : m.Ok) (hs : Libm.Special m lg) (hT : TopScale jm L 2 J) (hL : L ≤ 2 ^ 53) (hJ : J ≤ 1000)
    (hN : 1 ≤ N) (hN' : N ≤ 990) (h0 : 0 ≤ J_min) (h1 : J_min < J) {spin : ℤ} {psi : Arr3 ℂ} {phi : Arr1 ℝ}
    (h : filters_directional_vectorised64 m lg jm L N J_min 2 spin = .ok (psi.map C64.ofC, phi.map F64.fin)) {l : ℤ} (hl0 : 0 ≤ l) (hl1 : l < L)
    (hl : |spin| ≤ l) :
    1 - 1 / 2 ^ 32 ≤ frameSum J_min J L psi phi l ∧ frameSum J_min J L psi phi l ≤ 1.001 + 1 / 2 ^ 31 ∧
    (L ≤ 2049 → frameSum J_min J L psi phi l ≤ 1 + 1 / 2 ^ 31) ∧
    (N ≤ 41 → 1 - 1 / 2 ^ 44 ≤ frameSum J_min J L psi phi l) ∧
    (N ≤ 41 → L ≤ 17 → frameSum J_min J L psi phi l ≤ 1 + 1 / 2 ^ 44) := by
  obtain ⟨X, hd⟩ := dir64_elim hm hs hT hL hJ hN hN' h0 h1 h
  exact hd.admissible hs hT hL hJ hN hN' h0 h1 hl0 hl1 hl

theorem filters64_aux {c : Cfg} {q : ℤ → ℤ → ℤ → ℂ} (hL : 1 ≤ c.L) (hlam : c.lam = 2) (hN : 1 ≤ c.N)
    (h0 : 0 ≤ c.J_min) (h1 : c.J_min < J) (hX : FloatK J c.L X)
    (hsup : ∀ j l n : ℤ, 0 ≤ j → j ≤ J → 0 ≤ l → l < c.L → q j l n ≠ 0 →
      ((2 : ℝ) ^ (j - 1) < l ∧ (l : ℝ) < 2 ^ (j + 1)) ∧ |c.spin| ≤ l ∧ 1 ≤ l ∧ |n| ≤ l ∧ |n| < c.N ∧ (c.N + n) % 2 ≠ 0)
    (hconj : c.reality = true → ∀ j l n, q j l (-n) = (-1 : ℂ) ^ n * (starRingEnd ℂ) (q j l n)) (mr : Bool) :
    c.Filters J mr (Arr3.of (J + 1) c.L (2 * c.L - 1) fun j l k => q j l (k - (c.L - 1))) (Arr1.of c.L fun l => phiD64 X c.J_min |c.spin| l) := by
  have hl1 : (1 : ℝ) < c.lam := by rw [hlam]; norm_num
  refine ⟨by rw [Arr3.of_d]; omega, rfl, rfl, rfl, fun j l n hne => ?_, fun l hne => ?_, fun hr j l n => ?_⟩
  · by_cases hr : 0 ≤ j ∧ j < J + 1 ∧ 0 ≤ l ∧ l < c.L ∧ 0 ≤ c.L - 1 + n ∧ c.L - 1 + n < 2 * c.L - 1
    · rw [Arr3.of_v _ _ _ _ _ _ _ hr, add_sub_cancel_left] at hne
      obtain ⟨⟨s1, s2⟩, a, hl1', d, e, f⟩ := hsup j l n hr.1 (by omega) hr.2.2.1 hr.2.2.2.1 hne
      rw [← hlam] at s1 s2
      have hb := LN_j_Nj_bounds hL hl1 hN j mr
      have hLj : l < (LN_j c.L j c.N c.lam mr).1 := by
        rw [LN_j_Lj]
        unfold wav_j_bandlimit
        cases mr
        · simpa using hr.2.2.2.1
        · simp only [if_true, lt_min_iff, Int.lt_ceil]
          refine ⟨s2.trans_le (zpow_mono' hl1 (by split_ifs <;> omega)), hr.2.2.2.1⟩
      have hL0 : (LN_j c.L j c.N c.lam mr).2.2 ≤ l := by
        simp only [LN_j, L0_j]
        cases mr
        · simpa using hr.2.2.1
        · simp only [if_true]
          by_cases hj : j = 0
          · subst hj; simp; exact hl1'
          · simp only [if_neg hj, if_pos (show j ≠ 0 from hj), Int.ceil_le]
            exact s1.le
      have b1 := hb.2.2.1
      have b2 := hb.2.2.2.2
      unfold Cfg.L0 Cfg.Lj Cfg.Nj
      exact ⟨hL0, hLj, by omega, by omega, d, a⟩
    · exact absurd (Arr3.junk _ j l _ hr) hne
  · by_cases hr : 0 ≤ l ∧ l < c.L
    · rw [Arr1.of_v _ _ _ hr] at hne
      obtain ⟨a, b⟩ := phiD64_support hX h0 h1.le hr.1 hr.2 hne
      refine ⟨?_, a⟩
      rw [← hlam] at b
      unfold Cfg.Ls scal_bandlimit
      cases mr
      · simpa using hr.2
      · simp only [if_true, lt_min_iff, Int.lt_ceil]
        exact ⟨b, hr.2⟩
    · exact absurd (Arr1.junk _ l hr) hne
  · by_cases hq : 0 ≤ j ∧ j < J + 1 ∧ 0 ≤ l ∧ l < c.L ∧ 0 ≤ c.L - 1 + n ∧ c.L - 1 + n < 2 * c.L - 1
    · have e1 : c.L - 1 - n - (c.L - 1) = -n := by ring
      rw [Arr3.of_v _ _ _ _ _ _ _ ⟨hq.1, hq.2.1, hq.2.2.1, hq.2.2.2.1, by omega, by omega⟩,
        Arr3.of_v _ _ _ _ _ _ _ hq, e1, add_sub_cancel_left]
      exact hconj hr j l n
    · rw [Arr3.junk _ j l (c.L - 1 + n) hq, Arr3.junk _ j l (c.L - 1 - n) (by rw [Arr3.of_d, Arr3.of_r, Arr3.of_c]; omega)]
      simp

theorem dir64_filters {c : Cfg} {spin : ℤ} {psi : Arr3 ℂ} {phi : Arr1 ℝ} (hs : Libm.Special m lg) (hL : 1 ≤ c.L) (hlam : c.lam = 2) (hN : 1 ≤ c.N)
    (h0 : 0 ≤ c.J_min) (h1 : c.J_min < J) (hre : c.reality = true → c.N ≤ 41) (hsp : c.spin = spin)
    (hd : Dir64 m lg jm c.L c.N J c.J_min spin psi phi X) (mr : Bool) : c.Filters J mr psi phi := by
  have hX := hd.k
  rw [hd.wav, hd.scal]
  subst hsp
  refine filters64_aux hL hlam hN h0 h1 hX (fun j l n a1 a2 a3 a4 hne => ?_) (fun hr j l n => psiD64_conj hs hN (hre hr)) mr
  obtain ⟨a, s1, s2, hl1', d, e, f⟩ := psiD64_support hX hN a1 a2 a3 a4 hne
  exact ⟨⟨s1, s2⟩, a, hl1', d, e, f⟩

/-- **C101** in the transforms they qualify as filters: zero wherever the transforms do not look, and symmetric for real signals
when there are at most 41 directions. -/
theorem C101_filters {c : Cfg} {psi : Arr3 ℂ} {phi : Arr1 ℝ} (hm : m.Ok) (hs : Libm.Special m lg) (hv : c.Core jm J) (hlam : c.lam = 2) (hL : c.L ≤ 2 ^ 53)
    (hJ : J ≤ 1000) (hN : c.N ≤ 990) (hre : c.reality = true → c.N ≤ 41)
    (h : filters_directional_vectorised64 m lg jm c.L c.N c.J_min c.lam c.spin = .ok (psi.map C64.ofC, phi.map F64.fin)) (mr : Bool) :
    c.Filters J mr psi phi := by
  have hT := hv.top
  rw [hlam] at h hT
  obtain ⟨X, hd⟩ := dir64_elim hm hs hT hL hJ hv.hN hN hv.h0 hv.h1 h
  exact dir64_filters hs hT.hL hlam hv.hN hv.h0 hv.h1 hre rfl hd mr

/-! ### C102 -/

section
variable {c : Cfg} {b : Backend} {psi : Arr3 ℂ} {phi : Arr1 ℝ} {f : Px} {flm : Arr2 ℂ}

/-- **C102** with directional filters computed in double precision, analysis followed by synthesis returns every harmonic
coefficient of a band-limited signal multiplied by a factor close to 1: within `2^-31` for `L ≤ 2049`, within `2^-44` for
`L ≤ 17` and `N ≤ 41`, and within `0.001` (up to `2^-31`) at any band-limit. For real signals at most 41 directions are allowed, where
the rounded filters are exactly symmetric. -/
theorem C102_gain (hm : m.Ok) (hs : Libm.Special m lg) (hw : b.Works jm c J) (hb : b.isBase = false) (hlam : c.lam = 2) (hL : c.L ≤ 2 ^ 53) (hJ : J ≤ 1000)
    (hN : c.N ≤ 990) (hre : c.reality = true → c.N ≤ 41)
    (h : filters_directional_vectorised64 m lg jm c.L c.N c.J_min c.lam c.spin = .ok (psi.map C64.ofC, phi.map F64.fin))
    (hf : (b.engine c).sphF f c.L = .ok flm) (hbl : BL2 c.L c.spin flm) :
    ∃ w s glm, b.analysisWith jm c (psi, phi) f = .ok (w, s) ∧
      b.synthesisWith jm c (psi, phi) w s = (b.engine c).sphI glm c.L ∧ glm.r = c.L ∧ glm.c = 2 * c.L - 1 ∧
      (∀ l m, ‖co2 glm l m - co2 flm l m‖ ≤ (0.001 + 1 / 2 ^ 31) * ‖co2 flm l m‖) ∧
      (c.L ≤ 2049 → ∀ l m, ‖co2 glm l m - co2 flm l m‖ ≤ 1 / 2 ^ 31 * ‖co2 flm l m‖) ∧
      (c.L ≤ 17 → c.N ≤ 41 → ∀ l m, ‖co2 glm l m - co2 flm l m‖ ≤ 1 / 2 ^ 44 * ‖co2 flm l m‖) := by
  have hv := hw.valid
  have hT := hv.top
  rw [hlam] at h hT
  obtain ⟨X, hd⟩ := dir64_elim hm hs hT hL hJ hv.hN hN hv.h0 hv.h1 h
  have hG := dir64_filters hs hT.hL hlam hv.hN hv.h0 hv.h1 hre rfl hd true
  obtain ⟨w, s, glm, h1, h2, h3, h4, h5⟩ := C67_round_trip hw hb hG hf
  refine ⟨w, s, glm, h1, h2, h3, h4, ?_⟩
  have key : ∀ e : ℝ, 0 ≤ e → (∀ l, 0 ≤ l → l < c.L → |c.spin| ≤ l → |frameSum c.J_min J c.L psi phi l - 1| ≤ e) →
      ∀ l m, ‖co2 glm l m - co2 flm l m‖ ≤ e * ‖co2 flm l m‖ := by
    intro e he hF l m
    by_cases hz : co2 flm l m = 0
    · rw [h5, hz]; simp
    · have hr : 0 ≤ l ∧ l < c.L ∧ |c.spin| ≤ l := by
        refine ⟨?_, ?_, ?_⟩ <;> by_contra hc
        · exact hz (hbl.zero l m (Or.inl (by have := abs_nonneg m; omega)))
        · exact hz (flm.junk _ _ (by have := hbl.r; omega))
        · exact hz (hbl.zero l m (Or.inr (by omega)))
      have e1 : co2 glm l m - co2 flm l m = ((frameSum c.J_min J c.L psi phi l - 1 : ℝ) : ℂ) * co2 flm l m := by
        rw [h5]; push_cast; ring
      rw [e1, norm_mul, Complex.norm_real, Real.norm_eq_abs]
      exact mul_le_mul_of_nonneg_right (hF l hr.1 hr.2.1 hr.2.2) (norm_nonneg _)
  refine ⟨key _ (by norm_num) fun l a1 a2 a3 => ?_, fun hL' => key _ (by norm_num) fun l a1 a2 a3 => ?_, fun hL' hN' => key _ (by norm_num) fun l a1 a2 a3 => ?_⟩ <;>
    obtain ⟨b1, b2, b3, b4, b5⟩ := C101_admissible hm hs hT hL hJ hv.hN hN hv.h0 hv.h1 h a1 a2 a3
  · rw [abs_le]; norm_num at *; constructor <;> linarith
  · have := b3 hL'
    rw [abs_le]; norm_num at *; constructor <;> linarith
  · have := b4 hN'
    have := b5 hN' hL'
    rw [abs_le]; norm_num at *; constructor <;> linarith

/-- **C102** the same with transforms that only invert each other up to a relative error `δ` in norm: the two errors
add up. -/
theorem C102_error {δ : ℝ} (hm : m.Ok) (hs : Libm.Special m lg) (hn : b.Near jm c J δ) (hδ : 0 ≤ δ) (hb : b.isBase = false) (hlam : c.lam = 2) (hL : c.L ≤ 2 ^ 53)
    (hJ : J ≤ 1000) (hN : c.N ≤ 990) (hre : c.reality = true → c.N ≤ 41)
    (h : filters_directional_vectorised64 m lg jm c.L c.N c.J_min c.lam c.spin = .ok (psi.map C64.ofC, phi.map F64.fin))
    (hf : (b.engine c).sphF f c.L = .ok flm) (hbl : BL2 c.L c.spin flm) :
    ∃ w s glm, b.analysisWith jm c (psi, phi) f = .ok (w, s) ∧
      b.synthesisWith jm c (psi, phi) w s = (b.engine c).sphI glm c.L ∧ glm.r = c.L ∧ glm.c = 2 * c.L - 1 ∧
      ∀ r : ℝ, r = 0.001 + 1 / 2 ^ 31 ∨ (c.L ≤ 2049 ∧ r = 1 / 2 ^ 31) ∨ (c.L ≤ 17 ∧ c.N ≤ 41 ∧ r = 1 / 2 ^ 44) →
        energy2 c.L (fun l m => co2 glm l m - co2 flm l m) ≤ ((1 + r) * δ + r) ^ 2 * energy2 c.L (co2 flm) := by
  have hv := hn.valid
  have hT := hv.top
  rw [hlam] at h hT
  obtain ⟨X, hd⟩ := dir64_elim hm hs hT hL hJ hv.hN hN hv.h0 hv.h1 h
  have hG := dir64_filters hs hT.hL hlam hv.hN hv.h0 hv.h1 hre rfl hd b.mr
  obtain ⟨w, s, glm, h1, h2, h3, h4, h5⟩ := C69_round_trip hn (fun h => by rw [hb] at h; cases h) hG hf
  refine ⟨w, s, glm, h1, h2, h3, h4, fun r hr => ?_⟩
  have hr0 : 0 ≤ r := by rcases hr with rfl | ⟨-, rfl⟩ | ⟨-, -, rfl⟩ <;> norm_num
  have hle : ∀ l, 0 ≤ l → l < c.L → |c.spin| ≤ l → |frameSum c.J_min J c.L psi phi l - 1| ≤ r := by
    intro l a1 a2 a3
    obtain ⟨b1, b2, b3, b4, b5⟩ := C101_admissible hm hs hT hL hJ hv.hN hN hv.h0 hv.h1 h a1 a2 a3
    rw [abs_le]
    rcases hr with rfl | ⟨hL', rfl⟩ | ⟨hL', hN', rfl⟩
    · norm_num at *; constructor <;> linarith
    · have := b3 hL'
      norm_num at *; constructor <;> linarith
    · have := b4 hN'
      have := b5 hN' hL'
      norm_num at *; constructor <;> linarith
  have hz : ∀ l, l < |c.spin| → frameSum c.J_min J c.L psi phi l = 0 := by
    intro l hl
    have z1 : phi.v l = 0 := by
      by_contra hne
      have := hG.scal l hne
      omega
    have z2 : ∀ j k, psi.v j l k = 0 := by
      intro j k
      by_contra hne
      have e : c.L - 1 + (k - (c.L - 1)) = k := by ring
      have := hG.wav j l (k - (c.L - 1)) (by rw [e]; exact hne)
      omega
    unfold frameSum
    simp [z1, z2]
  have h5 := h5 (1 + r) (fun l h0 h1 => by
    by_cases hs : |c.spin| ≤ l
    · have := (abs_le.1 (hle l h0 h1 hs)).2
      linarith
    · rw [hz l (by omega)]; linarith)
  have hE := energy2_nonneg c.L (co2 flm)
  set R := Real.sqrt (energy2 c.L (co2 flm)) with hR
  have hRE : R ^ 2 = energy2 c.L (co2 flm) := Real.sq_sqrt hE
  have hR0 : 0 ≤ R := Real.sqrt_nonneg _
  have h6 : energy2 c.L (fun l m => ((frameSum c.J_min J c.L psi phi l - 1 : ℝ) : ℂ) * co2 flm l m) ≤ (r * R) ^ 2 := by
    rw [mul_pow, hRE, energy2, energy2, Finset.mul_sum]
    refine Finset.sum_le_sum fun l hl => ?_
    rw [Finset.mul_sum]
    refine Finset.sum_le_sum fun m _ => ?_
    rw [Finset.mem_Ico] at hl
    by_cases hs : |c.spin| ≤ l
    · rw [norm_mul, mul_pow, Complex.norm_real, Real.norm_eq_abs]
      exact mul_le_mul_of_nonneg_right (pow_le_pow_left₀ (abs_nonneg _) (hle l hl.1 hl.2 hs) 2) (sq_nonneg _)
    · rw [hbl.zero l m (Or.inr (by omega))]; simp
  have h7 := energy2_triangle c.L _ _ (A := (1 + r) * δ * R) (B := r * R) (by positivity) (by positivity)
    (h5.trans_eq (by rw [mul_pow _ R, hRE])) h6
  have e : (fun l m => co2 glm l m - co2 flm l m) = fun l m =>
      (co2 glm l m - (frameSum c.J_min J c.L psi phi l : ℂ) * co2 flm l m) +
        ((frameSum c.J_min J c.L psi phi l - 1 : ℝ) : ℂ) * co2 flm l m := by
    funext l m
    push_cast
    ring
  rw [e, ← hRE]
  exact h7.trans_eq (by ring)

end

/-! ### The hypotheses are met -/

/-- a default call, `L = 16`, `N = 3`, spin 0, with correctly rounded `exp` and `loggamma` -/
example : ∃ (psi : Arr3 ℂ) (phi : Arr1 ℝ),
    filters_directional_vectorised64 Libm.exact lgExact j_max 16 3 0 2 0 = .ok (psi.map C64.ofC, phi.map F64.fin) ∧
    ∀ l, 0 ≤ l → l < 16 → |frameSum 0 4 16 psi phi l - 1| ≤ 1 / 2 ^ 44 := by
  have hJ : j_max 16 2 = .ok 4 := by
    have h := j_max_eq (L := 16) (lam := 2) (by norm_num) (by norm_num)
    rw [h]
    have : Real.log ((16 : ℤ) : ℝ) / Real.log 2 = 4 := by
      rw [div_eq_iff (Real.log_pos (by norm_num)).ne']
      have : ((16 : ℤ) : ℝ) = 2 ^ 4 := by norm_num
      rw [this, Real.log_pow]; norm_num
    rw [this]; norm_num
  have hT := TopScale.of_j_max (L := 16) (lam := 2) (by norm_num) (by norm_num) hJ
  obtain ⟨psi, phi, h, -⟩ := C101_directional (N := 3) Libm.exact_ok lgExact_special hT (by norm_num) (by norm_num) (by norm_num) (by norm_num) le_rfl
    (by norm_num : (0 : ℤ) < 4) 0
  refine ⟨psi, phi, h, fun l h0 h1 => ?_⟩
  obtain ⟨-, -, -, b4, b5⟩ := C101_admissible (N := 3) Libm.exact_ok lgExact_special hT (by norm_num) (by norm_num) (by norm_num) (by norm_num) le_rfl
    (by norm_num : (0 : ℤ) < 4) h h0 h1 (by simpa using h0)
  have := b4 (by norm_num)
  have := b5 (by norm_num) (by norm_num)
  rw [abs_le]; constructor <;> linarith

/-- a round trip of a real signal with these filters -/
example : ∃ (psi : Arr3 ℂ) (phi : Arr1 ℝ) (w : List Px) (s : Px) (glm : Arr2 ℂ),
    filters_directional_vectorised64 Libm.exact lgExact j_max 3 (exCfg true 0).N 0 2 0 = .ok (psi.map C64.ofC, phi.map F64.fin) ∧
    Backend.analysisWith j_max (.jax Toy.jax) (exCfg true 0) (psi, phi) (Toy.sphInv true exFlm 3) = .ok (w, s) ∧
    Backend.synthesisWith j_max (.jax Toy.jax) (exCfg true 0) (psi, phi) w s = ((Backend.jax Toy.jax).engine (exCfg true 0)).sphI glm 3 ∧
    ‖co2 glm 1 0 - 1‖ ≤ 1 / 2 ^ 44 := by
  have hw := exCfg_works (b := .jax Toy.jax) (Or.inr (Or.inr (Or.inl rfl))) true 0
  obtain ⟨p, hp, hp'⟩ := hw.exact.sph 3 exFlm (by norm_num) exFlm_bl (fun _ => exFlm_herm)
  cases hp
  have hT := hw.valid.top
  obtain ⟨psi, phi, h, -⟩ := C101_directional (N := (exCfg true 0).N) Libm.exact_ok lgExact_special hT (by norm_num [exCfg]) (by norm_num) hw.valid.hN
    (hw.valid.hNL.trans (by norm_num [exCfg])) hw.valid.h0 hw.valid.h1 0
  obtain ⟨w, s, glm, h1, h2, -, -, -, -, h3⟩ := C102_gain Libm.exact_ok lgExact_special hw rfl rfl (by norm_num [exCfg]) (by norm_num) (hw.valid.hNL.trans (by norm_num [exCfg]))
    (fun _ => hw.valid.hNL.trans (by norm_num [exCfg])) h hp' exFlm_bl
  refine ⟨psi, phi, w, s, glm, h, h1, h2, ?_⟩
  have := h3 (by norm_num [exCfg]) (hw.valid.hNL.trans (by norm_num [exCfg])) 1 0
  rwa [exFlm_co, norm_one, mul_one] at this

end S2wav
