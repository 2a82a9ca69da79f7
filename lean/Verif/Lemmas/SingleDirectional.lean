import Verif.Lemmas.SingleRel
import Verif.Lemmas.FloatDirectional

/-! # `filters_directional_jax` in single precision -/

namespace S2wav.Single
open Classical

variable {m mx : Libm} {lg : F64 → F64} {jm : JMax} {L N J J_min : ℤ} {X : ℤ → ℤ → ℝ}

theorem psi32_near {x y : ℝ} (hx0 : 0 ≤ x) (hy0 : 0 ≤ y) (hx : x ≤ 2) : |psi32 x y ^ 2 - max 0 (x - y)| ≤ 1 / 2 ^ 19 := by
  rcases le_total y x with h | h
  · rw [max_eq_right (by linarith)]
    refine (psi32_sq h (by linarith)).trans ?_
    norm_num; linarith
  · rw [max_eq_left (by linarith), psi32_neg h]; norm_num

theorem SingleK.le_table (hX : SingleK J L X) {j l : ℤ} (hj0 : 0 ≤ j) (hj1 : j < J + 2) (hl0 : 0 ≤ l) (hl1 : l < L) :
    X j l ≤ 1.001 + 1 / 2 ^ 22 ∧ (L ≤ 2049 → X j l ≤ 1 + 1 / 2 ^ 22) := by
  have h1 := (abs_le.1 (hX j l hj0 hj1 hl0 hl1).2.1).2
  refine ⟨?_, fun hL => ?_⟩
  · have := kval_two_le j l
    linarith
  · have := kval_le_table (p := 2) (by norm_num) (by norm_num) (j := j) (l := l) (by simp only [maxL]; omega)
    push_cast at this
    linarith

/-- the total at one degree, by band-limit -/
theorem energy32_bounds (hX : SingleK J L X) (hLJ : (L : ℝ) < 2 ^ J + 1) (h0 : 0 ≤ J_min) (h1 : J_min < J) {l : ℤ} (hl0 : 0 ≤ l)
    (hl1 : l < L) {S : ℝ} (hS : S = rnd (Real.sqrt (X J_min l)) ^ 2 + ∑ j ∈ Finset.Icc J_min J, psi32 (X (j + 1) l) (X j l) ^ 2) :
    1 - 1 / 2 ^ 19 ≤ S ∧ S ≤ 1.001 + 1 / 2 ^ 18 ∧ (L ≤ 2049 → S ≤ 1 + 1 / 2 ^ 18) := by
  obtain ⟨x, hx, e1, e2⟩ := energy32 hX hLJ h0 h1 hl0 hl1
  rw [← hS] at e1 e2
  have h3 : (1 : ℝ) / 2 ^ 22 + 1 / 2 ^ 19 ≤ 1 / 2 ^ 18 := by norm_num
  refine ⟨e1, ?_, fun hL => ?_⟩
  · have : max 1 x ≤ 1.001 + 1 / 2 ^ 22 := max_le (by norm_num) (by
      rcases hx with rfl | ⟨j0, a, b, rfl⟩
      · norm_num
      · exact (hX.le_table a b hl0 hl1).1)
    linarith
  · have : max 1 x ≤ 1 + 1 / 2 ^ 22 := max_le (by norm_num) (by
      rcases hx with rfl | ⟨j0, a, b, rfl⟩
      · norm_num
      · exact (hX.le_table a b hl0 hl1).2 hL)
    linarith

theorem rnd_le_two {x : ℝ} (h0 : 0 ≤ x) (h : x ≤ 2) : rnd x ≤ 2 := by
  have := abs_rnd_le (x := x) (rep_pow (e := 1) (by norm_num)) (by rw [abs_of_nonneg h0, zpow_one]; exact h)
  rw [zpow_one] at this
  exact (abs_le.1 this).2

theorem sqrt32' {x : ℝ} (h0 : 0 ≤ x) (h1 : x ≤ 2 ^ 40) : sqrt (.fin x) = .fin (rnd (Real.sqrt x)) := by
  change (if x < 0 then F64.nan else of _) = _
  rw [if_neg (not_lt.2 h0), of_fin']
  rw [abs_of_nonneg (Real.sqrt_nonneg _)]
  have : Real.sqrt x ≤ 2 ^ 20 := Real.sqrt_le_iff.2 ⟨by norm_num, by norm_num at *; linarith⟩
  norm_num at *; linarith

theorem cast_pi : cast pi64 = .fin piR := by
  rw [pi64_eq]
  change of S2wav.piR = _
  refine of_fin' ?_
  have h := S2wav.piR_rl.bounds (by norm_num)
  have := Real.pi_lt_d2
  have := Real.pi_gt_three
  rw [abs_of_pos S2wav.piR_rl.pos]
  norm_num at *; linarith

theorem cast_fpi : cast ((F64.fin 4).mul pi64) = .fin fpiR := by
  have h := S2wav.piR_rl.bounds (by norm_num)
  have h4 := Real.pi_lt_d2
  have h3 := Real.pi_gt_three
  obtain ⟨q, -⟩ := S2wav.vfac_steps (l := 0) le_rfl (by norm_num)
  have hq := q.bounds (by norm_num)
  rw [pi64_eq, F64.mul_fin, F64.of_fin' (by rw [abs_of_pos (by have := S2wav.piR_rl.pos; positivity)]; norm_num at *; linarith)]
  change of _ = _
  refine of_fin' ?_
  rw [abs_of_pos q.pos]
  norm_num at *; linarith

section
variable {l : ℤ} (hl0 : 0 ≤ l) (hl1 : l < 2 ^ 23)
include hl0 hl1

theorem wfac_ok : div (sqrt (div (ofInt (2 * l + 1)) (.fin 8))) (cast pi64) = .fin (wfac l) := by
  obtain ⟨t0, t1⟩ := odd_bounds hl0 hl1
  obtain ⟨r3, r4, r5, r6⟩ := wfac_steps hl0 hl1
  have r1 := odd_rl hl0 hl1
  have b1 := r1.bounds (by norm_num)
  have b3 := r3.bounds (by norm_num)
  have bw := wfac_le hl0 hl1
  have bw0 := (wfac_rl hl0 hl1).2
  rw [cast_pi]
  unfold ofInt wfac at *
  generalize ((2 * l + 1 : ℤ) : ℝ) = t at *
  have ht : |t| ≤ 4 * 2 ^ 24 := by rw [abs_of_nonneg (by linarith)]; norm_num at *; linarith
  have ht8 : |rnd t / 8| ≤ 4 * 2 ^ 24 := by rw [abs_of_nonneg (by have := r1.pos; positivity)]; norm_num at *; linarith
  rw [of_fin' ht, div_fin (by norm_num), of_fin' ht8, sqrt32' r3.pos.le (by norm_num at *; linarith),
    div_fin piR_rl.pos.ne']
  refine of_fin' ?_
  have q := Rl.rnd (x := rnd (Real.sqrt (rnd (rnd t / 8))) / piR) ((by norm_num : (1 : ℝ) / 2 ^ 40 ≤ 1 / 100).trans r6)
  have qb := q.bounds (by norm_num)
  rw [abs_of_nonneg (by linarith)]
  norm_num at *; linarith

theorem vfac_ok : sqrt (div (ofInt (2 * l + 1)) (cast ((F64.fin 4).mul pi64))) = .fin (vfac l) := by
  obtain ⟨t0, t1⟩ := odd_bounds hl0 hl1
  have r3 := vfac_steps hl0 hl1
  have r1 := odd_rl hl0 hl1
  have b1 := r1.bounds (by norm_num)
  have h3 := Real.pi_gt_three
  have h4 := Real.pi_lt_d2
  have bp := fpiR_rl.bounds (by norm_num)
  have b3 := r3.bounds (by norm_num)
  rw [cast_fpi]
  unfold ofInt vfac at *
  generalize ((2 * l + 1 : ℤ) : ℝ) = t at *
  have ht : |t| ≤ 4 * 2 ^ 24 := by rw [abs_of_nonneg (by linarith)]; norm_num at *; linarith
  have hd : |rnd t / fpiR| ≤ 4 * 2 ^ 24 := by
    rw [abs_of_nonneg (div_nonneg r1.pos.le fpiR_rl.pos.le), div_le_iff₀ fpiR_rl.pos]
    norm_num at *; linarith
  have ht2 : t / (4 * Real.pi) ≤ t := div_le_self (by linarith) (by linarith)
  rw [of_fin' ht, div_fin fpiR_rl.pos.ne', of_fin' hd]
  exact sqrt32' r3.pos.le (by norm_num at *; linarith)

end

/-- wavelet of the single-precision directional filters made from axisymmetric filters `a` and factors `w` -/
noncomputable def psiG (m : Libm) (lg : F64 → F64) (a : ℤ → ℤ → ℝ) (w : ℤ → ℝ) (N elmin j l n : ℤ) : ℂ :=
  if l < elmin then 0 else nuC N * ((rnd (rnd (a j l * w l) * sig32 m lg N l n) : ℝ) : ℂ)

/-- wavelet of the single-precision directional filters -/
noncomputable def psiD32 (m : Libm) (lg : F64 → F64) (X : ℤ → ℤ → ℝ) (N elmin j l n : ℤ) : ℂ :=
  if l < elmin then 0 else nuC N * ((rnd (rnd (psi32 (X (j + 1) l) (X j l) * wfac l) * sig32 m lg N l n) : ℝ) : ℂ)

theorem psiD32_eq (m : Libm) (lg : F64 → F64) (X : ℤ → ℤ → ℝ) :
    psiD32 m lg X = psiG m lg (fun j l => psi32 (X (j + 1) l) (X j l)) wfac := rfl

/-- scaling function of the single-precision directional filters -/
noncomputable def phiD32 (X : ℤ → ℤ → ℝ) (J_min elmin l : ℤ) : ℝ :=
  if l < elmin then 0 else rnd (rnd (Real.sqrt (X J_min l)) * vfac l)

theorem SingleK.psi_le (hX : SingleK J L X) {j l : ℤ} (hj0 : 0 ≤ j) (hj1 : j < J + 1) (hl0 : 0 ≤ l) (hl1 : l < L) :
    psi32 (X (j + 1) l) (X j l) ≤ 2 := by
  have a := hX.le_two (j := j + 1) (by omega) (by omega) hl0 hl1
  have b := (hX j l hj0 (by omega) hl0 hl1).1
  have c := (hX (j + 1) l (by omega) (by omega) hl0 hl1).1
  have d := (abs_le.1 (psi32_near c b a)).2
  have e : max 0 (X (j + 1) l - X j l) ≤ 2 := max_le (by norm_num) (by linarith)
  have f : psi32 (X (j + 1) l) (X j l) ^ 2 ≤ 2 ^ 2 := by
    generalize max 0 (X (j + 1) l - X j l) = q at *
    norm_num at *; linarith
  exact abs_le_of_sq_le_sq' f (by norm_num) |>.2

theorem SingleK.phi_le (hX : SingleK J L X) {j l : ℤ} (hj0 : 0 ≤ j) (hj1 : j < J + 1) (hl0 : 0 ≤ l) (hl1 : l < L) :
    rnd (Real.sqrt (X j l)) ≤ 2 := by
  refine rnd_le_two (Real.sqrt_nonneg _) (Real.sqrt_le_iff.2 ⟨by norm_num, ?_⟩)
  have := hX.le_two hj0 (by omega) hl0 hl1
  norm_num; linarith

/-- the part of `filters_directional_jax32` after the axisymmetric filters and the directional coefficients -/
noncomputable def dirBody32 (ax : Py (Arr2 F64 × Arr1 F64)) (s : Py (Arr2 C64)) (L spin : ℤ) : Py (Arr3 C64 × Arr1 F64) := do
  let el_min := |spin|
  let (kappa, kappa0) ← ax
  let s_elm ← s
  let kappa0 ← Arr1.zip mul kappa0
    (arange (fun l : ℤ => sqrt (div (ofInt (2 * l + 1)) (cast ((F64.fin 4).mul pi64)))) 0 L)
  let norm := arange (fun l : ℤ => div (sqrt (div (ofInt (2 * l + 1)) (.fin 8))) (cast pi64)) 0 L
  if kappa.c ≠ norm.n then .error .valueError
  else do
    let kappa := Arr2.of kappa.r kappa.c fun j l => mul (kappa.v j l) (norm.v l)
    let l ← bdim kappa.c s_elm.r
    let kappa := Arr3.of kappa.r l s_elm.c fun i k n => cmul (C64.ofReal (kappa.v i (bix kappa.c k))) (s_elm.v (bix s_elm.r k) n)
    let kappa0 := kappa0.fill (mkSl kappa0.n none (some el_min)) 0
    let kappa := kappa.fill (mkSl kappa.d none none) (mkSl kappa.r none (some el_min)) (mkSl kappa.c none none) 0
    .ok (kappa, kappa0)

theorem dirBody32_ok (hs : Special m lg) (hX : SingleK J L X) (hL : 1 ≤ L) (hL2 : L ≤ 2 ^ 23) (hN : 1 ≤ N) (hN' : N ≤ 31) (h0 : 0 ≤ J_min) (h1 : J_min < J)
    {ax : Py (Arr2 F64 × Arr1 F64)} {s : Py (Arr2 C64)}
    (hf : ax = .ok (Arr2.of (J + 1) L fun j l => .fin (psi32 (X (j + 1) l) (X j l)), Arr1.of L fun l => .fin (rnd (Real.sqrt (X J_min l)))))
    (ht : s = .ok (Arr2.of L (2 * L - 1) fun el k => C64.ofC (nuC N * ((sig32 m lg N el (k - (L - 1)) : ℝ) : ℂ)))) (spin : ℤ) :
    dirBody32 ax s L spin =
      .ok (Arr3.of (J + 1) L (2 * L - 1) fun j l k => C64.ofC (psiD32 m lg X N |spin| j l (k - (L - 1))),
        Arr1.of L fun l => .fin (phiD32 X J_min |spin| l)) := by
  have hLm : max 0 (L - 0) = L := by omega
  have hel : 0 ≤ |spin| := abs_nonneg spin
  unfold dirBody32
  simp only [hf, ht, Py.bind_ok]
  simp only [Arr1.zip, arange, Arr1.of_n, hLm, bdim_self, Py.bind_ok, Arr2.of_c, Arr2.of_r, ne_eq, not_true_eq_false, if_false,
    Arr1.fill, Arr3.fill, Arr3.of_d, Arr3.of_r, Arr3.of_c, zero_add]
  simp only [mkSl_to' (show 0 ≤ L by omega) hel, mkSl_all (show 0 ≤ J + 1 by omega),
    mkSl_all (show 0 ≤ 2 * L - 1 by omega), Sl.mem_one, zero_add]
  congr 2
  · refine Arr3.of_congr fun j l n h0 h1 h2 h3 h4 h5 => ?_
    rw [Arr3.of_v _ _ _ _ _ _ _ ⟨h0, h1, h2, h3, h4, h5⟩, bix_self h2 h3,
      Arr2.of_v _ _ _ _ _ ⟨h0, h1, h2, h3⟩, Arr2.of_v _ _ _ _ _ ⟨h0, h1, h2, h3⟩,
      Arr2.of_v _ _ _ _ _ ⟨h2, h3, h4, h5⟩, Arr1.of_v _ _ _ ⟨h2, h3⟩]
    unfold psiD32
    by_cases h : l < |spin|
    · rw [if_pos h, if_pos ⟨⟨h0, h1⟩, ⟨h2, lt_min h h3⟩, h4, h5⟩]
      change (⟨.fin 0, .fin 0⟩ : C64) = ⟨.fin _, .fin _⟩
      simp
    · obtain ⟨p1, p2, p3⟩ := prod_near (psi32_nonneg (X (j + 1) l) (X j l)) (hX.psi_le h0 h1 h2 h3) (wfac_rl h2 (by omega)).2.le (wfac_le h2 (by omega))
        (sig32_nonneg (m := m) (lg := lg) N l (n - (L - 1))) (sig32_sq hs hN hN').2
      rw [if_neg h, if_neg (by omega), wfac_ok h2 (by omega), mul_fin, of_fin' (by linarith)]
      exact real_cmul p2
  · refine Arr1.of_congr fun l h2 h3 => ?_
    rw [Arr1.of_v _ _ _ ⟨h2, h3⟩, bix_self h2 h3, Arr1.of_v _ _ _ ⟨h2, h3⟩, Arr1.of_v _ _ _ ⟨h2, h3⟩]
    unfold phiD32
    by_cases h : l < |spin|
    · rw [if_pos h, if_pos ⟨h2, lt_min h h3⟩]; rfl
    · rw [if_neg h, if_neg (by omega), vfac_ok h2 (by omega), mul_fin]
      refine of_fin' ?_
      have a0 := rnd_nonneg (Real.sqrt_nonneg (X J_min l))
      have v0 := (vfac_rl h2 (by omega)).2.le
      rw [abs_of_nonneg (mul_nonneg a0 v0)]
      calc _ ≤ (2 : ℝ) * 2 ^ 12 := mul_le_mul (hX.phi_le h0 (by omega) h2 h3) (vfac_le h2 (by omega)) v0 (by norm_num)
        _ ≤ _ := by norm_num

theorem filters_directional_jax32_ok (hm : m.Ok) (hs : Special mx lg) (hJ : jm L 2 = .ok J) (hL : 1 ≤ L) (hL2 : L ≤ 2 ^ 23) (hJ2 : J ≤ 1000)
    (hN : 1 ≤ N) (hN' : N ≤ 31) (h0 : 0 ≤ J_min) (h1 : J_min < J) (spin : ℤ) :
    ∃ X, SingleK J L X ∧ filters_axisym_jax32 m jm L J_min 2 =
        .ok (Arr2.of (J + 1) L fun j l => .fin (psi32 (X (j + 1) l) (X j l)), Arr1.of L fun l => .fin (rnd (Real.sqrt (X J_min l)))) ∧
      filters_directional_jax32 m mx lg jm L N J_min 2 spin =
      .ok (Arr3.of (J + 1) L (2 * L - 1) fun j l k => C64.ofC (psiD32 mx lg X N |spin| j l (k - (L - 1))),
        Arr1.of L fun l => .fin (phiD32 X J_min |spin| l)) := by
  obtain ⟨X, hX, hf⟩ := filters_axisym_jax32_ok hm hJ hL (hL2.trans (by norm_num)) hJ2 h0 h1
  refine ⟨X, hX, hf, ?_⟩
  exact dirBody32_ok hs hX hL hL2 hN hN' h0 h1 hf (tiling_direction_jax32_ok hs hL hN hN') spin

/-! ### Accuracy -/

/-- one wavelet coefficient, normalised -/
theorem psiG_sq {a : ℤ → ℤ → ℝ} {w : ℤ → ℝ} (hs : Special m lg) (hN : 1 ≤ N) (hN' : N ≤ 31) {elmin j l n : ℤ}
    (hl0 : 0 ≤ l) (hl1 : l < 2 ^ 23) (ha0 : 0 ≤ a j l) (ha1 : a j l ≤ 2)
    (hw : Rl 16 (w l ^ 2) (((2 * l + 1 : ℤ) : ℝ) / 8 / Real.pi ^ 2) ∧ 0 < w l) (hw1 : w l ≤ 2 ^ 12) (hel : elmin ≤ l) :
    |8 * Real.pi ^ 2 / (2 * l + 1) * ‖psiG m lg a w N elmin j l n‖ ^ 2 - a j l ^ 2 * ‖sdir N l n‖ ^ 2| ≤
      a j l ^ 2 * ‖sdir N l n‖ ^ 2 * (binS N + 1 / 2 ^ 16) + 1 / 2 ^ 68 := by
  have ho := odd_bounds hl0 hl1
  have hsig0 := sig32_nonneg (m := m) (lg := lg) N l n
  obtain ⟨hsig, hsig1⟩ := sig32_sq (el := l) (n := n) hs hN hN'
  obtain ⟨p1, -, -⟩ := prod_near ha0 ha1 hw.2.le hw1 hsig0 hsig1
  obtain ⟨hE0, hE1, -⟩ := binS_bounds N
  have hn := hw.1.near (by norm_num)
  unfold psiG
  rw [if_neg (by omega), norm_mul, nuC_norm, one_mul, Complex.norm_real, Real.norm_eq_abs, sq_abs]
  have ht : (2 * (l : ℝ) + 1) = ((2 * l + 1 : ℤ) : ℝ) := by push_cast; ring
  rw [ht]
  set t := ((2 * l + 1 : ℤ) : ℝ)
  generalize a j l = a at *
  generalize w l = w at *
  set s := sig32 m lg N l n
  set c := ‖sdir N l n‖ ^ 2 with hc
  set E := binS N
  set Y := rnd (rnd (a * w) * s) ^ 2
  have hc0 : 0 ≤ c := by positivity
  have hc1 : c ≤ 1 := by
    by_cases h : 1 ≤ l ∧ |n| ≤ gam N l ∧ (N + n) % 2 ≠ 0
    · exact (sig32_step hs hN hN' h).choose_spec.2.2.2.1
    · rw [hc, sdir_eq_zero h]; norm_num
  have hpi3 := Real.pi_gt_three
  have hpi4 := Real.pi_lt_d2
  have hpi0 := Real.pi_pos
  have hg0 : 0 < 8 * Real.pi ^ 2 / t := by have : 0 < t := by linarith
                                           positivity
  have hg1 : 8 * Real.pi ^ 2 / t ≤ 80 := by
    rw [div_le_iff₀ (by linarith)]; norm_num at hpi4; nlinarith
  have hgw : |8 * Real.pi ^ 2 / t * w ^ 2 - 1| ≤ 1 / 2 ^ 18 := by
    have := near_mul hn hg0.le
    have e : t / 8 / Real.pi ^ 2 * (8 * Real.pi ^ 2 / t) = 1 := by
      have : t ≠ 0 := by linarith
      field_simp
    rw [e, div_mul_eq_mul_div, e, mul_comm] at this
    exact this
  set g := 8 * Real.pi ^ 2 / t
  -- the chain of approximations
  have hY := near_mul p1 hg0.le
  have hy : (a * w * s) ^ 2 = a ^ 2 * s ^ 2 * w ^ 2 := by ring
  rw [hy] at hY
  set G := g * w ^ 2
  have e1 : a ^ 2 * s ^ 2 * w ^ 2 * g = a ^ 2 * s ^ 2 * G := by ring
  rw [e1, add_mul, div_mul_eq_mul_div, e1] at hY
  set A := a ^ 2
  set S := s ^ 2
  have hA0 : 0 ≤ A := by positivity
  have hA1 : A ≤ 4 := by
    calc a ^ 2 ≤ 2 ^ 2 := pow_le_pow_left₀ ha0 ha1 2
      _ = 4 := by norm_num
  have hS0 : 0 ≤ S := by positivity
  have hAS := near_mul hgw (mul_nonneg hA0 hS0)
  have hAc := near_mul hsig hA0
  have hT : 1 / 2 ^ 77 * g ≤ 1 / 2 ^ 70 := by norm_num; linarith
  have hD : (c * E + 1 / 2 ^ 98) * A ≤ A * c * E + 1 / 2 ^ 96 := by norm_num; nlinarith
  have hAcE : A * c * E ≤ A * c * ((1 / 2 ^ 10 + 1 / 2 ^ 20)) := mul_le_mul_of_nonneg_left hE1 (mul_nonneg hA0 hc0)
  have hAcE0 : 0 ≤ A * c * E := by positivity
  have hAc4 : A * c ≤ 4 := by nlinarith
  have hAc0 : 0 ≤ A * c := by positivity
  have x1 : G * (A * S) = A * S * G := by ring
  have x2 : S * A = A * S := by ring
  have x3 : c * A = A * c := by ring
  have x4 : Y * g = g * Y := by ring
  rw [x1, one_mul] at hAS
  rw [x2, x3] at hAc
  rw [x4] at hY
  have goal_e : A * c * (E + 1 / 2 ^ 16) = A * c * E + A * c / 2 ^ 16 := by ring
  rw [goal_e]
  generalize A * S * G = q1 at *
  generalize A * S = q2 at *
  generalize A * c * E = q4 at *
  generalize A * c = q3 at *
  generalize g * Y = q5 at *
  have k1 := abs_le.1 (hY.trans (add_le_add le_rfl hT))
  have k2 := abs_le.1 hAS
  have k3 := abs_le.1 (hAc.trans hD)
  clear hY hAS hAc hD p1 hsig hgw hn
  have z1 : |q1 - q3| ≤ q3 / 2 ^ 17 + q4 + 1 / 2 ^ 90 := by
    rw [abs_le]
    norm_num at *
    constructor <;> linarith
  have z1' := abs_le.1 z1
  rw [abs_le]
  norm_num at *
  constructor <;> linarith

theorem psiD32_sq (hX : SingleK J L X) (hL2 : L ≤ 2 ^ 23) (hs : Special m lg) (hN : 1 ≤ N) (hN' : N ≤ 31) {elmin j l n : ℤ} (hj0 : 0 ≤ j) (hj1 : j ≤ J)
    (hl0 : 0 ≤ l) (hl1 : l < L) (hel : elmin ≤ l) :
    |8 * Real.pi ^ 2 / (2 * l + 1) * ‖psiD32 m lg X N elmin j l n‖ ^ 2 - psi32 (X (j + 1) l) (X j l) ^ 2 * ‖sdir N l n‖ ^ 2| ≤
      psi32 (X (j + 1) l) (X j l) ^ 2 * ‖sdir N l n‖ ^ 2 * (binS N + 1 / 2 ^ 16) + 1 / 2 ^ 68 := by
  obtain ⟨h1, h2⟩ := wfac_rl hl0 (show l < 2 ^ 23 by omega)
  rw [psiD32_eq]
  exact psiG_sq hs hN hN' hl0 (by omega) (psi32_nonneg _ _) (hX.psi_le hj0 (by omega) hl0 hl1) ⟨h1.mono (by norm_num), h2⟩
    (wfac_le hl0 (by omega)) hel

/-- the scaling function, normalised -/
theorem phiD32_sq (hX : SingleK J L X) (hL2 : L ≤ 2 ^ 23) {elmin l : ℤ} (hj0 : 0 ≤ J_min) (hj1 : J_min ≤ J)
    (hl0 : 0 ≤ l) (hl1 : l < L) (hel : elmin ≤ l) :
    |4 * Real.pi / (2 * l + 1) * phiD32 X J_min elmin l ^ 2 - rnd (Real.sqrt (X J_min l)) ^ 2| ≤
      rnd (Real.sqrt (X J_min l)) ^ 2 / 2 ^ 16 + 1 / 2 ^ 68 := by
  have hw := vfac_rl hl0 (by omega)
  have hw1 := vfac_le hl0 (by omega)
  have ho := odd_bounds hl0 (show l < 2 ^ 23 by omega)
  have ha0 := rnd_nonneg (Real.sqrt_nonneg (X J_min l))
  have ha1 := hX.phi_le hj0 (by omega) hl0 hl1
  have hn := hw.1.near (by norm_num)
  unfold phiD32
  rw [if_neg (by omega)]
  have ht : (2 * (l : ℝ) + 1) = ((2 * l + 1 : ℤ) : ℝ) := by push_cast; ring
  rw [ht]
  set t := ((2 * l + 1 : ℤ) : ℝ)
  set a := rnd (Real.sqrt (X J_min l))
  set w := vfac l
  have haw : 0 ≤ a * w := mul_nonneg ha0 hw.2.le
  have haw1 : a * w ≤ 2 ^ 14 := by
    calc a * w ≤ 2 * 2 ^ 12 := mul_le_mul ha1 hw1 hw.2.le (by norm_num)
      _ ≤ _ := by norm_num
  have r := rnd_acc' (a * w)
  rw [abs_of_nonneg haw] at r
  have p1 := sq_near (x := rnd (a * w)) (r.trans (by norm_num; linarith)) haw haw1
  set Y := rnd (a * w) ^ 2
  have hpi3 := Real.pi_gt_three
  have hpi4 := Real.pi_lt_d2
  have hpi0 := Real.pi_pos
  have hg0 : 0 < 4 * Real.pi / t := by have : 0 < t := by linarith
                                       positivity
  have hg1 : 4 * Real.pi / t ≤ 80 := by
    rw [div_le_iff₀ (by linarith)]; norm_num at hpi4; nlinarith
  have hgw : |4 * Real.pi / t * w ^ 2 - 1| ≤ 1 / 2 ^ 18 := by
    have := near_mul hn hg0.le
    have e : t / (4 * Real.pi) * (4 * Real.pi / t) = 1 := by
      have : t ≠ 0 := by linarith
      field_simp
    rw [e, div_mul_eq_mul_div, e, mul_comm] at this
    exact this
  set g := 4 * Real.pi / t
  have hY := near_mul p1 hg0.le
  have hy : (a * w) ^ 2 = a ^ 2 * w ^ 2 := by ring
  rw [hy] at hY
  set G := g * w ^ 2
  have e1 : a ^ 2 * w ^ 2 * g = a ^ 2 * G := by ring
  rw [e1, add_mul, div_mul_eq_mul_div, e1] at hY
  set A := a ^ 2
  have hA0 : 0 ≤ A := by positivity
  have hAS := near_mul hgw hA0
  have hT : 1 / 2 ^ 77 * g ≤ 1 / 2 ^ 70 := by norm_num; linarith
  have x1 : G * A = A * G := by ring
  have x4 : Y * g = g * Y := by ring
  rw [x1, one_mul] at hAS
  rw [x4] at hY
  generalize A * G = q1 at *
  generalize g * Y = q5 at *
  have k1 := abs_le.1 (hY.trans (add_le_add le_rfl hT))
  have k2 := abs_le.1 hAS
  clear hY hAS p1 hgw hn r
  rw [abs_le]
  norm_num at *
  constructor <;> linarith

/-- sum over orders -/
theorem psiG_sum {a : ℤ → ℤ → ℝ} {w : ℤ → ℝ} (hs : Special m lg) (hN : 1 ≤ N) (hN' : N ≤ 31) {elmin j l : ℤ}
    (hL2 : L ≤ 2 ^ 23) (hl0 : 0 ≤ l) (hl1 : l < L) (ha0 : 0 ≤ a j l) (ha1 : a j l ≤ 2) (hz : l = 0 → a j l = 0)
    (hw : Rl 16 (w l ^ 2) (((2 * l + 1 : ℤ) : ℝ) / 8 / Real.pi ^ 2) ∧ 0 < w l) (hw1 : w l ≤ 2 ^ 12) (hel : elmin ≤ l) :
    |8 * Real.pi ^ 2 / (2 * l + 1) * ∑ k ∈ Finset.Ico 0 (2 * L - 1), ‖psiG m lg a w N elmin j l (k - (L - 1))‖ ^ 2 - a j l ^ 2| ≤
      a j l ^ 2 * (binS N + 1 / 2 ^ 16) + 1 / 2 ^ 57 := by
  have hE := (binS_bounds N).1
  rcases eq_or_lt_of_le hl0 with rfl | hl
  · have h0 : ∀ n, psiG m lg a w N elmin j 0 n = 0 := by
      intro n
      unfold psiG
      rw [sig32_eq_zero (by omega), mul_zero, rnd_zero]; simp
    simp only [h0, hz rfl]
    norm_num
  rw [sum_cols L]
  have e : ∀ n : ℤ, L - 1 + n - (L - 1) = n := fun n => by ring
  simp only [e]
  have hg := gam_facts hN (show 1 ≤ l by omega)
  set M := gam N l
  have hsub : Finset.Icc (-M) M ⊆ Finset.Icc (-(L - 1)) (L - 1) := Finset.Icc_subset_Icc (by omega) (by omega)
  rw [← Finset.sum_subset hsub (fun n _ hn => by
    have hn' : ¬ |n| ≤ M := by rw [Finset.mem_Icc] at hn; rw [abs_le]; exact hn
    unfold psiG
    rw [sig32_eq_zero (by tauto), mul_zero, rnd_zero]; simp), Finset.mul_sum]
  have hen := sdir_energy (N := N) (el := l) (M := M) hN (by omega) le_rfl
  set A := a j l ^ 2
  have hA : A = ∑ n ∈ Finset.Icc (-M) M, A * ‖sdir N l n‖ ^ 2 := by rw [← Finset.mul_sum, hen, mul_one]
  calc _ = |∑ n ∈ Finset.Icc (-M) M, (8 * Real.pi ^ 2 / (2 * l + 1) * ‖psiG m lg a w N elmin j l n‖ ^ 2 - A * ‖sdir N l n‖ ^ 2)| := by
        rw [Finset.sum_sub_distrib, ← hA]
    _ ≤ ∑ n ∈ Finset.Icc (-M) M, (A * ‖sdir N l n‖ ^ 2 * (binS N + 1 / 2 ^ 16) + 1 / 2 ^ 68) :=
        (Finset.abs_sum_le_sum_abs _ _).trans (Finset.sum_le_sum fun n _ => psiG_sq hs hN hN' hl0 (by omega) ha0 ha1 hw hw1 hel)
    _ = A * (binS N + 1 / 2 ^ 16) + (Finset.Icc (-M) M).card * (1 / 2 ^ 68) := by
        rw [Finset.sum_add_distrib, ← Finset.sum_mul, ← hA, Finset.sum_const, nsmul_eq_mul]
    _ ≤ _ := by
        have hc : ((Finset.Icc (-M) M).card : ℝ) ≤ 2048 := by
          rw [Int.card_Icc]
          exact_mod_cast (by omega : (M + 1 - -M).toNat ≤ 2048)
        generalize ((Finset.Icc (-M) M).card : ℝ) = q at *
        norm_num; linarith

/-- the frame sum of the single-precision filters -/
theorem frameSumG {a : ℤ → ℤ → ℝ} {w : ℤ → ℝ} (hX : SingleK J L X) (hL2 : L ≤ 2 ^ 23) (hJ2 : J ≤ 1000) (hs : Special m lg) (hN : 1 ≤ N) (hN' : N ≤ 31)
    {elmin l : ℤ} (hj0 : 0 ≤ J_min) (hj1 : J_min < J) (hl0 : 0 ≤ l) (hl1 : l < L) (ha0 : ∀ j, J_min ≤ j → j ≤ J → 0 ≤ a j l)
    (ha1 : ∀ j, J_min ≤ j → j ≤ J → a j l ≤ 2) (hz : ∀ j, J_min ≤ j → j ≤ J → l = 0 → a j l = 0)
    (hw : Rl 16 (w l ^ 2) (((2 * l + 1 : ℤ) : ℝ) / 8 / Real.pi ^ 2) ∧ 0 < w l) (hw1 : w l ≤ 2 ^ 12) (hel : elmin ≤ l) {S : ℝ}
    (hS : S = rnd (Real.sqrt (X J_min l)) ^ 2 + ∑ j ∈ Finset.Icc J_min J, a j l ^ 2) :
    |frameSum J_min J L (Arr3.of (J + 1) L (2 * L - 1) fun j l k => psiG m lg a w N elmin j l (k - (L - 1))) (Arr1.of L fun l => phiD32 X J_min elmin l) l - S| ≤
      S * (binS N + 1 / 2 ^ 16) + 1 / 2 ^ 46 := by
  have hE := (binS_bounds N).1
  unfold frameSum
  rw [Arr1.of_v _ _ _ ⟨hl0, hl1⟩, Finset.mul_sum]
  have h1 := phiD32_sq hX hL2 hj0 hj1.le hl0 hl1 hel
  have h2 : |∑ j ∈ Finset.Icc J_min J, 8 * Real.pi ^ 2 / (2 * l + 1) * ∑ k ∈ Finset.Ico 0 (2 * L - 1),
      ‖(Arr3.of (J + 1) L (2 * L - 1) fun j l k => psiG m lg a w N elmin j l (k - (L - 1))).v j l k‖ ^ 2 -
      ∑ j ∈ Finset.Icc J_min J, a j l ^ 2| ≤
      (∑ j ∈ Finset.Icc J_min J, a j l ^ 2) * (binS N + 1 / 2 ^ 16) + 1 / 2 ^ 47 := by
    rw [← Finset.sum_sub_distrib]
    refine (Finset.abs_sum_le_sum_abs _ _).trans ?_
    calc _ ≤ ∑ j ∈ Finset.Icc J_min J, (a j l ^ 2 * (binS N + 1 / 2 ^ 16) + 1 / 2 ^ 57) := by
          refine Finset.sum_le_sum fun j hj => ?_
          rw [Finset.mem_Icc] at hj
          have e : ∑ k ∈ Finset.Ico 0 (2 * L - 1), ‖(Arr3.of (J + 1) L (2 * L - 1) fun j l k => psiG m lg a w N elmin j l (k - (L - 1))).v j l k‖ ^ 2 =
              ∑ k ∈ Finset.Ico 0 (2 * L - 1), ‖psiG m lg a w N elmin j l (k - (L - 1))‖ ^ 2 :=
            Finset.sum_congr rfl fun k hk => by
              rw [Finset.mem_Ico] at hk
              rw [Arr3.of_v _ _ _ _ _ _ _ ⟨by omega, by omega, hl0, hl1, hk.1, hk.2⟩]
          rw [e]
          exact psiG_sum hs hN hN' hL2 hl0 hl1 (ha0 j hj.1 hj.2) (ha1 j hj.1 hj.2) (hz j hj.1 hj.2) hw hw1 hel
      _ = (∑ j ∈ Finset.Icc J_min J, a j l ^ 2) * (binS N + 1 / 2 ^ 16) + ((Finset.Icc J_min J).card : ℝ) * (1 / 2 ^ 57) := by
          rw [Finset.sum_add_distrib, ← Finset.sum_mul, Finset.sum_const, nsmul_eq_mul]
      _ ≤ _ := by
          have hc : ((Finset.Icc J_min J).card : ℝ) ≤ 1024 := by
            rw [Int.card_Icc]
            exact_mod_cast (by omega : (J + 1 - J_min).toNat ≤ 1024)
          generalize ((Finset.Icc J_min J).card : ℝ) = q at *
          norm_num; linarith
  set f := rnd (Real.sqrt (X J_min l)) ^ 2
  have hf0 : 0 ≤ f * binS N := by positivity
  set P := ∑ j ∈ Finset.Icc J_min J, a j l ^ 2
  rw [hS]
  have e : (f + P) * (binS N + 1 / 2 ^ 16) = f * binS N + f / 2 ^ 16 + P * (binS N + 1 / 2 ^ 16) := by ring
  rw [e]
  have k1 := abs_le.1 h1
  have k2 := abs_le.1 h2
  generalize P * (binS N + 1 / 2 ^ 16) = q at *
  rw [abs_le]
  norm_num at *
  constructor <;> linarith

theorem frameSum32 (hX : SingleK J L X) (hL2 : L ≤ 2 ^ 23) (hJ2 : J ≤ 1000) (hs : Special m lg) (hN : 1 ≤ N) (hN' : N ≤ 31) {elmin l : ℤ} (hj0 : 0 ≤ J_min)
    (hj1 : J_min < J) (hl0 : 0 ≤ l) (hl1 : l < L) (hel : elmin ≤ l) {S : ℝ}
    (hS : S = rnd (Real.sqrt (X J_min l)) ^ 2 + ∑ j ∈ Finset.Icc J_min J, psi32 (X (j + 1) l) (X j l) ^ 2) :
    |frameSum J_min J L (Arr3.of (J + 1) L (2 * L - 1) fun j l k => psiD32 m lg X N elmin j l (k - (L - 1))) (Arr1.of L fun l => phiD32 X J_min elmin l) l - S| ≤
      S * (binS N + 1 / 2 ^ 16) + 1 / 2 ^ 46 := by
  obtain ⟨h1, h2⟩ := wfac_rl hl0 (show l < 2 ^ 23 by omega)
  rw [psiD32_eq]
  refine frameSumG hX hL2 hJ2 hs hN hN' hj0 hj1 hl0 hl1 (fun j _ _ => psi32_nonneg _ _) (fun j a b => hX.psi_le (by omega) (by omega) hl0 hl1)
    (fun j a b hz => ?_) ⟨h1.mono (by norm_num), h2⟩ (wfac_le hl0 (by omega)) hel hS
  subst hz
  change psi32 _ _ = 0
  rw [(hX (j + 1) 0 (by omega) (by omega) hl0 hl1).2.2.1 (by push_cast; positivity), (hX j 0 (by omega) (by omega) hl0 hl1).2.2.1 (by push_cast; positivity), psi32_self]

end S2wav.Single
