import Verif.Props.Harmonic

/-! # Inner products and gradients of least-squares misfits (C71)

The README advertises the transforms as differentiable, and `tests/test_gradients.py` checks gradients of losses of the
form `sum |.|^2`. The statements here give these gradients exactly, in terms of the other transform. -/

namespace S2wav
open Classical ComplexConjugate

/-- the weighted squared distance of two sets of wavelet and scaling coefficients (that of `C29_tight_frame`) -/
noncomputable def misfit (c : Cfg) (J : ℤ) (W : ℤ → Arr3 ℂ) (S : Arr2 ℂ) (W' : ℤ → Arr3 ℂ) (S' : Arr2 ℂ) : ℝ :=
  ∑ l ∈ Finset.Ico 0 c.L, ∑ m ∈ Finset.Ioo (-c.L) c.L, (‖co2 S l m - co2 S' l m‖ ^ 2 + ∑ j ∈ Finset.Icc c.J_min J,
    ∑ n ∈ Finset.Ioo (-c.L) c.L, (2 * l + 1) / (8 * Real.pi ^ 2) * ‖co3 (W j) n l m - co3 (W' j) n l m‖ ^ 2)

theorem normSq_expand (x y : ℂ) (t : ℝ) :
    ‖x + t * y‖ ^ 2 = ‖x‖ ^ 2 + 2 * t * (conj y * x).re + t ^ 2 * ‖y‖ ^ 2 := by
  simp only [← Complex.normSq_eq_norm_sq, Complex.normSq_apply, Complex.mul_re, Complex.mul_im, Complex.add_re, Complex.add_im,
    Complex.conj_re, Complex.conj_im, Complex.ofReal_re, Complex.ofReal_im]
  ring

section
variable {jm : JMax} {c : Cfg} {J : ℤ} {b : Backend} {f g : Px} {flm glm : Arr2 ℂ} {w v : List Px}
  {s r : Px} {W V : ℤ → Arr3 ℂ} {S R : Arr2 ℂ}

/-- **C71** analysis preserves inner products, degree by degree and order by order, up to the weight `G l` (which is 1
without overshoot). -/
theorem C71_inner (hw : b.Works jm c J) (h : b.analysis jm c f = .ok (w, s)) (hc : b.Coeffs c J w s W S)
    (hf : (b.engine c).sphF f c.L = .ok flm) (h' : b.analysis jm c g = .ok (v, r)) (hc' : b.Coeffs c J v r V R)
    (hg : (b.engine c).sphF g c.L = .ok glm) :
    ∃ G, IsGain b jm c J G ∧ ∀ l m, (G l : ℂ) * (conj (co2 flm l m) * co2 glm l m) = conj (co2 S l m) * co2 R l m +
      ∑ j ∈ Finset.Icc c.J_min J, ∑ n ∈ Finset.Ioo (-c.L) c.L,
        (((2 * l + 1) / (8 * Real.pi ^ 2) : ℝ) : ℂ) * (conj (co3 (W j) n l m) * co3 (V j) n l m) := by
  obtain ⟨psi, phi, hflt⟩ := filters_exist hw.valid b
  obtain ⟨hW, hS⟩ := analysis_co hw hflt h hc hf
  obtain ⟨hV, hR⟩ := analysis_co hw hflt h' hc' hg
  have hbl := (hw.std.sph f c.L flm hf).1
  refine ⟨_, frameSum_isGain hw.valid hflt, fun l m => ?_⟩
  by_cases hl : 0 ≤ l
  · have hl' : (0 : ℝ) ≤ l := by exact_mod_cast hl
    have hpi := Real.pi_pos
    have hsum : ∑ j ∈ Finset.Icc c.J_min J, ∑ n ∈ Finset.Ioo (-c.L) c.L,
        (((2 * l + 1) / (8 * Real.pi ^ 2) : ℝ) : ℂ) * (conj (co3 (W j) n l m) * co3 (V j) n l m) =
        ∑ j ∈ Finset.Icc c.J_min J, ∑ n ∈ Finset.Ioo (-c.L) c.L,
          ((8 * Real.pi ^ 2 / (2 * l + 1) * ‖psi.v j l (c.L - 1 + n)‖ ^ 2 : ℝ) : ℂ) * (conj (co2 flm l m) * co2 glm l m) := by
      refine Finset.sum_congr rfl fun j hj => Finset.sum_congr rfl fun n _ => ?_
      rw [Finset.mem_Icc] at hj
      rw [hW j hj.1 hj.2, hV j hj.1 hj.2, Complex.ofReal_mul, Complex.ofReal_pow, ← Complex.conj_mul']
      have h8 : (((2 * l + 1) / (8 * Real.pi ^ 2) : ℝ) : ℂ) * ((8 * Real.pi ^ 2 / (2 * l + 1) : ℝ) : ℂ) = 1 := by
        rw [← Complex.ofReal_mul, ← Complex.ofReal_one]
        congr 1
        field_simp
      simp only [map_mul, Complex.conj_ofReal, Complex.conj_conj]
      linear_combination (conj (co2 flm l m) * co2 glm l m * psi.v j l (c.L - 1 + n) * conj (psi.v j l (c.L - 1 + n)) *
        ((8 * Real.pi ^ 2 / (2 * l + 1) : ℝ) : ℂ)) * h8
    have h4 : ((Real.sqrt (4 * Real.pi / (2 * l + 1)) * phi.v l : ℝ) : ℂ) *
        ((Real.sqrt (4 * Real.pi / (2 * l + 1)) * phi.v l : ℝ) : ℂ) = ((4 * Real.pi / (2 * l + 1) * phi.v l ^ 2 : ℝ) : ℂ) := by
      rw [← Complex.ofReal_mul]
      congr 1
      have := Real.mul_self_sqrt (show 0 ≤ 4 * Real.pi / (2 * (l : ℝ) + 1) by positivity)
      linear_combination phi.v l ^ 2 * this
    have hio : ∀ j, ∑ n ∈ Finset.Ioo (-c.L) c.L, ‖psi.v j l (c.L - 1 + n)‖ ^ 2 =
        ∑ k ∈ Finset.Ico 0 (2 * c.L - 1), ‖psi.v j l k‖ ^ 2 := fun j => (sum_cols_Ioo fun k => ‖psi.v j l k‖ ^ 2).symm
    have hG : (frameSum c.J_min J c.L psi phi l : ℝ) = 4 * Real.pi / (2 * l + 1) * phi.v l ^ 2 +
        ∑ j ∈ Finset.Icc c.J_min J, ∑ n ∈ Finset.Ioo (-c.L) c.L, 8 * Real.pi ^ 2 / (2 * l + 1) * ‖psi.v j l (c.L - 1 + n)‖ ^ 2 := by
      simp only [← Finset.mul_sum, hio, frameSum]
    rw [hsum, hS, hR, hG]
    simp only [map_mul, Complex.conj_ofReal]
    rw [Complex.ofReal_add, ← h4, add_mul, Complex.ofReal_sum, Finset.sum_mul]
    congr 1
    · ring
    · refine Finset.sum_congr rfl fun j _ => ?_
      rw [Complex.ofReal_sum, Finset.sum_mul]
  · have hm := abs_nonneg m
    have z : co2 flm l m = 0 := hbl.zero l m (Or.inl (by omega))
    rw [z, hS, z]
    simp only [map_zero, zero_mul, mul_zero, zero_add]
    symm
    refine Finset.sum_eq_zero fun j hj => Finset.sum_eq_zero fun n _ => ?_
    rw [Finset.mem_Icc] at hj
    rw [hW j hj.1 hj.2, z]; simp

/-- **C71** the gradient of the misfit `E(f) = |analysis(f) - (w', s')|^2` is `2 (synthesis(analysis(f)) - synthesis(w', s'))`:
moving from `f` by `t` in the direction `g` changes the misfit by `2t Re <g, plm - alm>` plus the energy of the analysis of
`g` times `t^2`, where `plm`, `alm` are the coefficients synthesised from `analysis(f)` and from `(w', s')`. -/
theorem C71_analysis_gradient (hw : b.Works jm c J) (h : b.analysis jm c f = .ok (w, s)) (hc : b.Coeffs c J w s W S)
    (hf : (b.engine c).sphF f c.L = .ok flm) {w' : List Px} {s' : Px} {W' : ℤ → Arr3 ℂ} {S' : Arr2 ℂ}
    (hck : b.check jm c w' s' = .ok ()) (hc' : b.Coeffs c J w' s' W' S') :
    ∃ plm alm, b.synthesis jm c w s = (b.engine c).sphI plm c.L ∧ b.synthesis jm c w' s' = (b.engine c).sphI alm c.L ∧
      ∀ (g : Px) (glm : Arr2 ℂ) (v : List Px) (r : Px) (V : ℤ → Arr3 ℂ) (R : Arr2 ℂ),
        (b.engine c).sphF g c.L = .ok glm → b.analysis jm c g = .ok (v, r) → b.Coeffs c J v r V R →
      ∀ (t : ℝ) (ft : Px) (flmt : Arr2 ℂ) (wt : List Px) (st : Px) (Wt : ℤ → Arr3 ℂ) (St : Arr2 ℂ),
        (b.engine c).sphF ft c.L = .ok flmt → (∀ l m, co2 flmt l m = co2 flm l m + t * co2 glm l m) →
        b.analysis jm c ft = .ok (wt, st) → b.Coeffs c J wt st Wt St →
      misfit c J Wt St W' S' = misfit c J W S W' S' +
        t * ∑ l ∈ Finset.Ico 0 c.L, ∑ m ∈ Finset.Ioo (-c.L) c.L,
          (conj (co2 glm l m) * (2 * (co2 plm l m - co2 alm l m))).re +
        t ^ 2 * ∑ l ∈ Finset.Ico 0 c.L, ∑ m ∈ Finset.Ioo (-c.L) c.L, (‖co2 R l m‖ ^ 2 + ∑ j ∈ Finset.Icc c.J_min J,
          ∑ n ∈ Finset.Ioo (-c.L) c.L, (2 * l + 1) / (8 * Real.pi ^ 2) * ‖co3 (V j) n l m‖ ^ 2) := by
  obtain ⟨psi, phi, hflt⟩ := filters_exist hw.valid b
  obtain ⟨hW, hS⟩ := analysis_co hw hflt h hc hf
  have hck0 : b.check jm c w s = .ok () := by
    obtain ⟨w1, s1, h1, hr⟩ := b.analysis_run hw.valid hw.ready hw.std hw.exact hw.trip hflt hf
    rw [h] at h1; cases h1
    exact hr.check
  obtain ⟨plm, -, hp, -, hpa⟩ := C30_adjoint_all hw hck0 hc
  obtain ⟨alm, -, ha, -, haa⟩ := C30_adjoint_all hw hck hc'
  refine ⟨plm, alm, hp, ha, fun g glm v r V R hg h' hcv t ft flmt wt st Wt St hft hlin h'' hct => ?_⟩
  obtain ⟨hV, hR⟩ := analysis_co hw hflt h' hcv hg
  obtain ⟨hWt, hSt⟩ := analysis_co hw hflt h'' hct hft
  have e1 := hpa h' hcv hg
  have e2 := haa h' hcv hg
  unfold misfit
  simp only [Finset.mul_sum, ← Finset.sum_add_distrib]
  refine Finset.sum_congr rfl fun l _ => Finset.sum_congr rfl fun m _ => ?_
  have e3 : conj (co2 glm l m) * (2 * (co2 plm l m - co2 alm l m)) = 2 * (conj (co2 R l m) * (co2 S l m - co2 S' l m) +
      ∑ j ∈ Finset.Icc c.J_min J, ∑ n ∈ Finset.Ioo (-c.L) c.L,
        (((2 * l + 1) / (8 * Real.pi ^ 2) : ℝ) : ℂ) * (conj (co3 (V j) n l m) * (co3 (W j) n l m - co3 (W' j) n l m))) := by
    simp only [mul_sub, Finset.sum_sub_distrib]
    linear_combination 2 * e1 l m - 2 * e2 l m
  have e4 : co2 St l m - co2 S' l m = (co2 S l m - co2 S' l m) + t * co2 R l m := by
    rw [hSt, hS, hR, hlin]; ring
  have e5 : ∀ j ∈ Finset.Icc c.J_min J, ∀ n, co3 (Wt j) n l m - co3 (W' j) n l m =
      (co3 (W j) n l m - co3 (W' j) n l m) + t * co3 (V j) n l m := by
    intro j hj n
    rw [Finset.mem_Icc] at hj
    rw [hWt j hj.1 hj.2, hW j hj.1 hj.2, hV j hj.1 hj.2, hlin]; ring
  have e6 : ∑ j ∈ Finset.Icc c.J_min J, ∑ n ∈ Finset.Ioo (-c.L) c.L,
      (2 * l + 1) / (8 * Real.pi ^ 2) * ‖co3 (Wt j) n l m - co3 (W' j) n l m‖ ^ 2 =
      ∑ j ∈ Finset.Icc c.J_min J, ∑ n ∈ Finset.Ioo (-c.L) c.L, ((2 * l + 1) / (8 * Real.pi ^ 2) *
        ‖co3 (W j) n l m - co3 (W' j) n l m‖ ^ 2 + 2 * t * ((2 * l + 1) / (8 * Real.pi ^ 2) *
        (conj (co3 (V j) n l m) * (co3 (W j) n l m - co3 (W' j) n l m)).re) + t ^ 2 * ((2 * l + 1) / (8 * Real.pi ^ 2) *
        ‖co3 (V j) n l m‖ ^ 2)) := by
    refine Finset.sum_congr rfl fun j hj => Finset.sum_congr rfl fun n _ => ?_
    rw [e5 j hj n, normSq_expand]; ring
  rw [e6, e4, normSq_expand, e3]
  have e7 : (2 * (conj (co2 R l m) * (co2 S l m - co2 S' l m) +
      ∑ j ∈ Finset.Icc c.J_min J, ∑ n ∈ Finset.Ioo (-c.L) c.L,
        (((2 * l + 1) / (8 * Real.pi ^ 2) : ℝ) : ℂ) * (conj (co3 (V j) n l m) * (co3 (W j) n l m - co3 (W' j) n l m)))).re =
      2 * ((conj (co2 R l m) * (co2 S l m - co2 S' l m)).re + ∑ j ∈ Finset.Icc c.J_min J, ∑ n ∈ Finset.Ioo (-c.L) c.L,
        (2 * l + 1) / (8 * Real.pi ^ 2) * (conj (co3 (V j) n l m) * (co3 (W j) n l m - co3 (W' j) n l m)).re) := by
    rw [show (2 : ℂ) = ((2 : ℝ) : ℂ) by norm_num, Complex.re_ofReal_mul, Complex.add_re, Complex.re_sum]
    simp only [Complex.re_sum, Complex.re_ofReal_mul]
  rw [e7]
  simp only [Finset.sum_add_distrib, ← Finset.mul_sum]
  ring

/-- **C71** as a derivative: along every line `f + t g` the misfit has derivative `2 Re <g, plm - alm>` at `t = 0`. -/
theorem C71_analysis_derivative (hw : b.Works jm c J) (h : b.analysis jm c f = .ok (w, s)) (hc : b.Coeffs c J w s W S)
    (hf : (b.engine c).sphF f c.L = .ok flm) {w' : List Px} {s' : Px} {W' : ℤ → Arr3 ℂ} {S' : Arr2 ℂ}
    (hck : b.check jm c w' s' = .ok ()) (hc' : b.Coeffs c J w' s' W' S')
    (hg : (b.engine c).sphF g c.L = .ok glm) {F : ℝ → Px} {flmt : ℝ → Arr2 ℂ} {wt : ℝ → List Px} {st : ℝ → Px}
    {Wt : ℝ → ℤ → Arr3 ℂ} {St : ℝ → Arr2 ℂ} (hF : ∀ t, (b.engine c).sphF (F t) c.L = .ok (flmt t))
    (hlin : ∀ t l m, co2 (flmt t) l m = co2 flm l m + t * co2 glm l m)
    (ha : ∀ t, b.analysis jm c (F t) = .ok (wt t, st t)) (hct : ∀ t, b.Coeffs c J (wt t) (st t) (Wt t) (St t)) :
    ∃ plm alm, b.synthesis jm c w s = (b.engine c).sphI plm c.L ∧ b.synthesis jm c w' s' = (b.engine c).sphI alm c.L ∧
      HasDerivAt (fun t => misfit c J (Wt t) (St t) W' S') (∑ l ∈ Finset.Ico 0 c.L, ∑ m ∈ Finset.Ioo (-c.L) c.L,
          (conj (co2 glm l m) * (2 * (co2 plm l m - co2 alm l m))).re) 0 := by
  obtain ⟨plm, alm, hp, hal, hE⟩ := C71_analysis_gradient hw h hc hf hck hc'
  obtain ⟨v, r, V, R, h', hcv⟩ := analysis_coeffs_exist hw hg
  refine ⟨plm, alm, hp, hal, ?_⟩
  have hfun : (fun t => misfit c J (Wt t) (St t) W' S') = _ :=
    funext fun t => hE g glm v r V R hg h' hcv t (F t) (flmt t) (wt t) (st t) (Wt t) (St t) (hF t) (hlin t) (ha t) (hct t)
  rw [hfun]
  generalize (∑ l ∈ Finset.Ico 0 c.L, ∑ m ∈ Finset.Ioo (-c.L) c.L,
    (conj (co2 glm l m) * (2 * (co2 plm l m - co2 alm l m))).re) = A
  generalize (∑ l ∈ Finset.Ico 0 c.L, ∑ m ∈ Finset.Ioo (-c.L) c.L, (‖co2 R l m‖ ^ 2 + ∑ j ∈ Finset.Icc c.J_min J,
    ∑ n ∈ Finset.Ioo (-c.L) c.L, (2 * l + 1) / (8 * Real.pi ^ 2) * ‖co3 (V j) n l m‖ ^ 2)) = B
  generalize misfit c J W S W' S' = C
  have h1 := (((hasDerivAt_id (0 : ℝ)).mul_const A).const_add C).add (((hasDerivAt_id (0 : ℝ)).pow 2).mul_const B)
  have h2 := h1.congr_deriv (g' := A) (by simp)
  exact h2

/-- **C71** the gradient of the misfit `E(w', s') = |synthesis(w', s') - d|^2` is twice the analysis of the residual: if `f`
is a signal with coefficients `alm - dlm` (`alm` those synthesised from `(w', s')`), moving by `t` in the direction
`(v', r')` changes the misfit by `2t Re <(v', r'), analysis(f)>` plus `t^2` times the energy of the synthesis of the
direction. -/
theorem C71_synthesis_gradient (hw : b.Works jm c J) {w' : List Px} {s' : Px} {W' : ℤ → Arr3 ℂ} {S' : Arr2 ℂ}
    (hck : b.check jm c w' s' = .ok ()) (hc' : b.Coeffs c J w' s' W' S') {v' : List Px} {r' : Px} {V' : ℤ → Arr3 ℂ}
    {R' : Arr2 ℂ} (hckv : b.check jm c v' r' = .ok ()) (hcv : b.Coeffs c J v' r' V' R') :
    ∃ alm blm, BL2 c.L c.spin alm ∧ b.synthesis jm c w' s' = (b.engine c).sphI alm c.L ∧ b.synthesis jm c v' r' = (b.engine c).sphI blm c.L ∧
      ∀ (t : ℝ) (wt : List Px) (st : Px) (Wt : ℤ → Arr3 ℂ) (St : Arr2 ℂ),
        b.check jm c wt st = .ok () → b.Coeffs c J wt st Wt St →
        (∀ l m, co2 St l m = co2 S' l m + t * co2 R' l m) →
        (∀ j, c.J_min ≤ j → j ≤ J → ∀ n l m, co3 (Wt j) n l m = co3 (W' j) n l m + t * co3 (V' j) n l m) →
      ∃ almt, b.synthesis jm c wt st = (b.engine c).sphI almt c.L ∧
      ∀ (dlm : Arr2 ℂ) (f : Px) (flm : Arr2 ℂ) (w : List Px) (s : Px) (W : ℤ → Arr3 ℂ) (S : Arr2 ℂ),
        (b.engine c).sphF f c.L = .ok flm → (∀ l m, co2 flm l m = co2 alm l m - co2 dlm l m) →
        b.analysis jm c f = .ok (w, s) → b.Coeffs c J w s W S →
      ∑ l ∈ Finset.Ico 0 c.L, ∑ m ∈ Finset.Ioo (-c.L) c.L, ‖co2 almt l m - co2 dlm l m‖ ^ 2 =
        ∑ l ∈ Finset.Ico 0 c.L, ∑ m ∈ Finset.Ioo (-c.L) c.L, ‖co2 alm l m - co2 dlm l m‖ ^ 2 +
        t * ∑ l ∈ Finset.Ico 0 c.L, ∑ m ∈ Finset.Ioo (-c.L) c.L, (conj (co2 R' l m) * (2 * co2 S l m) +
          ∑ j ∈ Finset.Icc c.J_min J, ∑ n ∈ Finset.Ioo (-c.L) c.L,
            (((2 * l + 1) / (8 * Real.pi ^ 2) : ℝ) : ℂ) * (conj (co3 (V' j) n l m) * (2 * co3 (W j) n l m))).re +
        t ^ 2 * ∑ l ∈ Finset.Ico 0 c.L, ∑ m ∈ Finset.Ioo (-c.L) c.L, ‖co2 blm l m‖ ^ 2 := by
  obtain ⟨psi, phi, hflt⟩ := filters_exist hw.valid b
  obtain ⟨alm, hab, ha, hac⟩ := synthesis_co hw hflt hck hc'
  obtain ⟨blm, -, hb, hbc⟩ := synthesis_co hw hflt hckv hcv
  refine ⟨alm, blm, hab, ha, hb, fun t wt st Wt St hckt hct hSt hWt => ?_⟩
  obtain ⟨almt, -, hat, htc⟩ := synthesis_co hw hflt hckt hct
  have hlin : ∀ l m, co2 almt l m = co2 alm l m + t * co2 blm l m := by
    intro l m
    have : ∑ j ∈ Finset.Icc c.J_min J, ∑ n ∈ Finset.Ioo (-c.L) c.L, psi.v j l (c.L - 1 + n) * co3 (Wt j) n l m =
        ∑ j ∈ Finset.Icc c.J_min J, ∑ n ∈ Finset.Ioo (-c.L) c.L, (psi.v j l (c.L - 1 + n) * co3 (W' j) n l m +
          t * (psi.v j l (c.L - 1 + n) * co3 (V' j) n l m)) := by
      refine Finset.sum_congr rfl fun j hj => Finset.sum_congr rfl fun n _ => ?_
      rw [Finset.mem_Icc] at hj
      rw [hWt j hj.1 hj.2]; ring
    rw [htc, hac, hbc, this, hSt]
    simp only [Finset.sum_add_distrib, ← Finset.mul_sum]
    ring
  refine ⟨almt, hat, fun dlm f flm w s W S hf hres h hc => ?_⟩
  simp only [Finset.mul_sum (Finset.Ico 0 c.L), Finset.mul_sum (Finset.Ioo (-c.L) c.L) _ t,
    Finset.mul_sum (Finset.Ioo (-c.L) c.L) _ (t ^ 2), ← Finset.sum_add_distrib]
  refine Finset.sum_congr rfl fun l _ => Finset.sum_congr rfl fun m _ => ?_
  have e1 := adjoint_of_co hw hflt hbc h hc hf l m
  have e2 : conj (co2 R' l m) * (2 * co2 S l m) + ∑ j ∈ Finset.Icc c.J_min J, ∑ n ∈ Finset.Ioo (-c.L) c.L,
      (((2 * l + 1) / (8 * Real.pi ^ 2) : ℝ) : ℂ) * (conj (co3 (V' j) n l m) * (2 * co3 (W j) n l m)) =
      2 * (conj (co2 blm l m) * (co2 alm l m - co2 dlm l m)) := by
    rw [← hres, ← Complex.conj_conj (co2 flm l m), ← map_mul, mul_comm (co2 blm l m), e1, map_add, map_sum, mul_add,
      Finset.mul_sum]
    congr 1
    · simp only [map_mul, Complex.conj_conj]; ring
    · refine Finset.sum_congr rfl fun j _ => ?_
      rw [map_sum, Finset.mul_sum]
      refine Finset.sum_congr rfl fun n _ => ?_
      simp only [map_mul, Complex.conj_conj, Complex.conj_ofReal]; ring
  rw [e2, hlin, show co2 alm l m + t * co2 blm l m - co2 dlm l m = (co2 alm l m - co2 dlm l m) + t * co2 blm l m by ring,
    normSq_expand, show (2 : ℂ) = ((2 : ℝ) : ℂ) by norm_num, Complex.re_ofReal_mul]
  ring

/-- the line through the example signal in its own direction (used in the examples) -/
theorem exLine {b : Backend} (hb : Toy.IsToy b) : ∃ (X : ℝ → Arr2 ℂ) (F : ℝ → Px) (wt : ℝ → List Px) (st : ℝ → Px)
    (Wt : ℝ → ℤ → Arr3 ℂ) (St : ℝ → Arr2 ℂ), (∀ t l m, co2 (X t) l m = co2 exFlm l m + t * co2 exFlm l m) ∧
    (∀ t, (b.engine (exCfg false 0)).sphF (F t) 3 = .ok (X t)) ∧
    (∀ t, b.analysis j_max (exCfg false 0) (F t) = .ok (wt t, st t)) ∧
    (∀ t, b.Coeffs (exCfg false 0) 2 (wt t) (st t) (Wt t) (St t)) ∧
    ∀ t, b.check j_max (exCfg false 0) (wt t) (st t) = .ok () := by
  have hw := exCfg_works hb false 0
  obtain ⟨psi, phi, hflt⟩ := filters_exist hw.valid b
  have hx : ∀ t : ℝ, ∃ x : Arr2 ℂ, BL2 3 0 x ∧ ∀ l m, co2 x l m = co2 exFlm l m + t * co2 exFlm l m := by
    intro t
    have hco : ∀ l m, co2 (Arr2.of 3 5 fun l i => if l = 1 ∧ i = 2 then 1 + (t : ℂ) else 0) l m =
        co2 exFlm l m + t * co2 exFlm l m := by
      intro l m
      unfold exFlm
      rw [co2_of, co2_of]
      split_ifs <;> simp
    refine ⟨_, ⟨rfl, rfl, fun l m h => ?_⟩, hco⟩
    rw [hco, exFlm_bl.zero l m h]; simp
  choose X hXb hXc using hx
  have hF : ∀ t, ∃ f w s W S, (b.engine (exCfg false 0)).sphF f 3 = .ok (X t) ∧
      b.analysis j_max (exCfg false 0) f = .ok (w, s) ∧ b.Coeffs (exCfg false 0) 2 w s W S := by
    intro t
    obtain ⟨f, -, hf⟩ := hw.exact.sph 3 (X t) (by norm_num) (hXb t) (fun h => by cases h)
    obtain ⟨w, s, W, S, h, hc⟩ := analysis_coeffs_exist hw hf
    exact ⟨f, w, s, W, S, hf, h, hc⟩
  choose F wt st Wt St hF ha hct using hF
  refine ⟨X, F, wt, st, Wt, St, hXc, hF, ha, hct, fun t => ?_⟩
  obtain ⟨w1, s1, h1, hr⟩ := b.analysis_run hw.valid hw.ready hw.std hw.exact hw.trip hflt (hF t)
  rw [ha t] at h1; cases h1
  exact hr.check

/-- a signal, the maps of twice the signal as target, and the line through the signal in its own direction: all
hypotheses of the theorems above hold together, and the derivative is that of the misfit at a point where it is not zero -/
example (b : Backend) (hb : Toy.IsToy b) : ∃ (f : Px) (w : List Px) (s : Px) (F : ℝ → Px) (Wt : ℝ → ℤ → Arr3 ℂ)
    (St : ℝ → Arr2 ℂ) (W' : ℤ → Arr3 ℂ) (S' plm alm : Arr2 ℂ), F 0 = f ∧
    b.analysis j_max (exCfg false 0) f = .ok (w, s) ∧
    b.synthesis j_max (exCfg false 0) w s = (b.engine (exCfg false 0)).sphI plm 3 ∧
    misfit (exCfg false 0) 2 (Wt 0) (St 0) W' S' = 1 ∧
    HasDerivAt (fun t => misfit (exCfg false 0) 2 (Wt t) (St t) W' S') (∑ l ∈ Finset.Ico 0 3, ∑ m ∈ Finset.Ioo (-3) 3,
          (conj (co2 exFlm l m) * (2 * (co2 plm l m - co2 alm l m))).re) 0 := by
  have hw := exCfg_works hb false 0
  obtain ⟨psi, phi, hflt⟩ := filters_exist hw.valid b
  obtain ⟨X, F, wt, st, Wt, St, hXc, hF, ha, hct, hck⟩ := exLine hb
  have hX0 : ∀ l m, co2 (X 0) l m = co2 exFlm l m := fun l m => by rw [hXc]; simp
  have hX1 : ∀ l m, co2 (X 1) l m = co2 (X 0) l m + co2 exFlm l m := fun l m => by rw [hXc, hX0]; simp
  obtain ⟨g, v, r, V, R, hg, h', hcv⟩ := exRun hb false
  obtain ⟨plm, alm, hp, hal, hD⟩ := C71_analysis_derivative hw (ha 0) (hct 0) (hF 0) (hck 1) (hct 1) hg hF
    (fun t l m => by rw [hXc, hX0]) ha hct
  refine ⟨F 0, wt 0, st 0, F, Wt, St, Wt 1, St 1, plm, alm, rfl, ha 0, hp, ?_, hD⟩
  obtain ⟨k, hk, hno⟩ := noOvershoot_3_2
  obtain ⟨hV, hR⟩ := analysis_co hw hflt h' hcv hg
  obtain ⟨hW0, hS0⟩ := analysis_co hw hflt (ha 0) (hct 0) (hF 0)
  obtain ⟨hW1, hS1⟩ := analysis_co hw hflt (ha 1) (hct 1) (hF 1)
  have hT := C29_tight_frame hw h' hcv hg exFlm_bl hk hno
  have e0 : misfit (exCfg false 0) 2 (Wt 0) (St 0) (Wt 1) (St 1) = ∑ l ∈ Finset.Ico 0 3, ∑ m ∈ Finset.Ioo (-3) 3,
      ‖co2 exFlm l m‖ ^ 2 := by
    refine Eq.trans ?_ hT.symm
    unfold misfit
    refine Finset.sum_congr rfl fun l _ => Finset.sum_congr rfl fun m _ => congrArg₂ _ ?_ ?_
    · rw [hS0, hS1, hR, hX1, mul_add, sub_add_cancel_left, norm_neg]
    · refine Finset.sum_congr rfl fun j hj => Finset.sum_congr rfl fun n _ => ?_
      rw [Finset.mem_Icc] at hj
      rw [hW0 j hj.1 hj.2, hW1 j hj.1 hj.2, hV j hj.1 hj.2, hX1, add_mul, mul_add, sub_add_cancel_left, norm_neg]
  rw [e0, Finset.sum_eq_single 1, Finset.sum_eq_single 0, exFlm_co]
  · norm_num
  · intro m _ hm
    unfold exFlm
    rw [co2_of]
    split_ifs <;> first | omega | simp
  · intro h; exact absurd h (by decide)
  · intro l _ hl
    refine Finset.sum_eq_zero fun m _ => ?_
    unfold exFlm
    rw [co2_of]
    split_ifs <;> first | omega | simp
  · intro h; exact absurd h (by decide)

/-- maps, a direction (the maps themselves), the point at `t = 1` and a signal with the residual as coefficients, meeting the
hypotheses of `C71_synthesis_gradient` -/
example (b : Backend) (hb : Toy.IsToy b) : ∃ (w wt : List Px) (s st f : Px) (W Wt : ℤ → Arr3 ℂ) (S St alm flm : Arr2 ℂ),
    b.check j_max (exCfg false 0) w s = .ok () ∧ b.Coeffs (exCfg false 0) 2 w s W S ∧
    b.check j_max (exCfg false 0) wt st = .ok () ∧ b.Coeffs (exCfg false 0) 2 wt st Wt St ∧
    (∀ l m, co2 St l m = co2 S l m + (1 : ℝ) * co2 S l m) ∧
    (∀ j, 0 ≤ j → j ≤ 2 → ∀ n l m, co3 (Wt j) n l m = co3 (W j) n l m + (1 : ℝ) * co3 (W j) n l m) ∧
    b.synthesis j_max (exCfg false 0) w s = (b.engine (exCfg false 0)).sphI alm 3 ∧
    (b.engine (exCfg false 0)).sphF f 3 = .ok flm ∧
    (∀ l m, co2 flm l m = co2 alm l m - co2 (Arr2.of 3 5 fun _ _ => 0) l m) := by
  have hw := exCfg_works hb false 0
  obtain ⟨psi, phi, hflt⟩ := filters_exist hw.valid b
  obtain ⟨X, F, wt, st, Wt, St, hXc, hF, ha, hct, hck⟩ := exLine hb
  obtain ⟨hW0, hS0⟩ := analysis_co hw hflt (ha 0) (hct 0) (hF 0)
  obtain ⟨hW1, hS1⟩ := analysis_co hw hflt (ha 1) (hct 1) (hF 1)
  obtain ⟨alm, -, halm, hsyn, -⟩ := C71_synthesis_gradient hw (hck 0) (hct 0) (hck 0) (hct 0)
  obtain ⟨f, -, hf⟩ := hw.exact.sph 3 alm (by norm_num) halm (fun h => by cases h)
  refine ⟨wt 0, wt 1, st 0, st 1, f, Wt 0, Wt 1, St 0, St 1, alm, alm, hck 0, hct 0, hck 1, hct 1, fun l m => ?_,
    fun j h0 h1 n l m => ?_, hsyn, hf, fun l m => ?_⟩
  · rw [hS0, hS1, hXc, hXc]; push_cast; ring
  · rw [hW0 j h0 h1, hW1 j h0 h1, hXc, hXc]; push_cast; ring
  · rw [co2_of]; simp

end

end S2wav
