import Verif.Props.Real
import Verif.Props.Gradient

/-! # Synthesis is the pseudo-inverse of analysis (C79), energy of each scale (C80) -/

namespace S2wav
open Classical ComplexConjugate

/-- the energy of wavelet coefficients `W` and scaling coefficients `S` at degree `l` and order `m` -/
noncomputable def mapEnergy (c : Cfg) (J : ℤ) (W : ℤ → ℤ → ℤ → ℤ → ℂ) (S : ℤ → ℤ → ℂ) (l m : ℤ) : ℝ :=
  ‖S l m‖ ^ 2 + ∑ j ∈ Finset.Icc c.J_min J, ∑ n ∈ Finset.Ioo (-c.L) c.L, (2 * l + 1) / (8 * Real.pi ^ 2) * ‖W j n l m‖ ^ 2

section
variable {jm : JMax} {c : Cfg} {J : ℤ} {b : Backend} {f g : Px} {flm glm : Arr2 ℂ} {w v : List Px} {s r : Px}
  {W V : ℤ → Arr3 ℂ} {S R : Arr2 ℂ}

theorem norm_split (x y : ℂ) : ‖x‖ ^ 2 = ‖x - y‖ ^ 2 + 2 * (conj y * x).re - ‖y‖ ^ 2 := by
  simp only [← Complex.normSq_eq_norm_sq, Complex.normSq_apply, Complex.mul_re, Complex.sub_re, Complex.sub_im,
    Complex.conj_re, Complex.conj_im]
  ring

/-- **C79** maps that need not be the analysis of any signal are synthesised to a signal `g`; its analysis is their orthogonal
projection: the energy of the maps is the energy of the analysis of `g` plus the energy of the difference, degree by degree and order
by order.  The energy of `g` is the energy of its analysis. -/
theorem C79_pythagoras (hw : b.Works jm c J) {k : Arr2 ℝ} (hk : k_lam jm c.L c.lam 300 = .ok k) (hno : NoOvershoot k)
    (hck : b.check jm c w s = .ok ()) (hc : b.Coeffs c J w s W S)
    (hr : c.reality = true → Herm2 S ∧ ∀ j, c.J_min ≤ j → j ≤ J → Herm3 (W j)) :
    ∃ g glm v r V R, b.synthesis jm c w s = .ok g ∧ (b.engine c).sphF g c.L = .ok glm ∧
      b.analysis jm c g = .ok (v, r) ∧ b.Coeffs c J v r V R ∧ ∀ l m,
      ‖co2 glm l m‖ ^ 2 = mapEnergy c J (fun j => co3 (V j)) (co2 R) l m ∧
      mapEnergy c J (fun j => co3 (W j)) (co2 S) l m = mapEnergy c J (fun j => co3 (V j)) (co2 R) l m +
        mapEnergy c J (fun j n l m => co3 (W j) n l m - co3 (V j) n l m) (fun l m => co2 S l m - co2 R l m) l m := by
  obtain ⟨psi, phi, hflt⟩ := filters_exist hw.valid b
  have hbS := (hw.std.sph _ _ _ hc.scal).1
  have hbW : ∀ j, c.J_min ≤ j → j ≤ J → BL3 (c.Lj b.mr j) (c.Nj b.mr j) 0 (W j) := fun j h0 h1 => by
    obtain ⟨p, -, hp⟩ := hc.wav j h0 h1
    exact hw.std.wig _ _ _ _ _ hp
  have e := synthesis_of_coeffs hw.valid hw.ready hw.std (fun a d => hw.trip.nonneg a d) hflt hc
  rw [hck, Py.bind_ok] at e
  obtain ⟨hco, hbl⟩ := synCoeffs_co hw.valid hflt hbS hbW
  obtain ⟨g, hg1, hg2⟩ := hw.exact.sph _ _ hw.valid.top.hL hbl fun hre =>
    synCoeffs_herm hw.valid hflt hbS hbW (hr hre).1 (hr hre).2
  rw [← e] at hg1
  clear e
  generalize synCoeffs c.L c.J_min J (fun j l n => psi.v j l (c.L - 1 + n)) phi.v W S = alm at *
  obtain ⟨v, r, V, R, h, hcv⟩ := analysis_coeffs_exist hw hg2
  obtain ⟨G, hG, hen⟩ := C29_energy hw h hcv hg2
  have hone : ∀ l m, ‖co2 alm l m‖ ^ 2 = mapEnergy c J (fun j => co3 (V j)) (co2 R) l m := by
    intro l m
    rw [mapEnergy, ← hen l m]
    by_cases hl : 0 ≤ l ∧ l < c.L ∧ |c.spin| ≤ l
    · rw [(((hG k hk).1 l hl.1 hl.2.1 hl.2.2).2.2 hno), one_mul]
    · have : co2 alm l m = 0 := by
        by_cases hs : l < |c.spin|
        · exact hbl.zero l m (Or.inr hs)
        · exact alm.junk _ _ fun hh => hl ⟨hh.1, by have := hbl.r; omega, by omega⟩
      rw [this]; simp
  refine ⟨g, alm, v, r, V, R, hg1, hg2, h, hcv, fun l m => ⟨hone l m, ?_⟩⟩
  have e := adjoint_of_co hw hflt hco h hcv hg2 l m
  have e1 := congrArg Complex.re e
  rw [show conj (co2 alm l m) * co2 alm l m = ((‖co2 alm l m‖ ^ 2 : ℝ) : ℂ) by
    rw [mul_comm, Complex.mul_conj, Complex.normSq_eq_norm_sq], Complex.ofReal_re, hone l m, Complex.add_re, Complex.re_sum] at e1
  simp only [Complex.re_sum, Complex.re_ofReal_mul] at e1
  have e2 : mapEnergy c J (fun j => co3 (W j)) (co2 S) l m =
      mapEnergy c J (fun j n l m => co3 (W j) n l m - co3 (V j) n l m) (fun l m => co2 S l m - co2 R l m) l m +
      2 * ((conj (co2 R l m) * co2 S l m).re + ∑ j ∈ Finset.Icc c.J_min J, ∑ n ∈ Finset.Ioo (-c.L) c.L,
        (2 * l + 1) / (8 * Real.pi ^ 2) * (conj (co3 (V j) n l m) * co3 (W j) n l m).re) -
      mapEnergy c J (fun j => co3 (V j)) (co2 R) l m := by
    unfold mapEnergy
    have : ∀ j n, (2 * (l : ℝ) + 1) / (8 * Real.pi ^ 2) * ‖co3 (W j) n l m‖ ^ 2 =
        (2 * l + 1) / (8 * Real.pi ^ 2) * ‖co3 (W j) n l m - co3 (V j) n l m‖ ^ 2 +
        2 * ((2 * l + 1) / (8 * Real.pi ^ 2) * (conj (co3 (V j) n l m) * co3 (W j) n l m).re) -
        (2 * l + 1) / (8 * Real.pi ^ 2) * ‖co3 (V j) n l m‖ ^ 2 := by
      intro j n
      rw [norm_split (co3 (W j) n l m) (co3 (V j) n l m)]; ring
    simp only [this]
    rw [norm_split (co2 S l m) (co2 R l m)]
    simp only [Finset.sum_add_distrib, Finset.sum_sub_distrib, ← Finset.mul_sum]
    ring
  rw [e2, ← e1]
  ring

/-- **C79** analysis returns the maps of least energy: any maps that are synthesised to the signal `g` have at least the energy of
the analysis of `g` at every degree and order, and the same total energy only if they are the analysis of `g`. -/
theorem C79_least (hw : b.Works jm c J) {k : Arr2 ℝ} (hk : k_lam jm c.L c.lam 300 = .ok k) (hno : NoOvershoot k)
    (hck : b.check jm c w s = .ok ()) (hc : b.Coeffs c J w s W S)
    (hr : c.reality = true → Herm2 S ∧ ∀ j, c.J_min ≤ j → j ≤ J → Herm3 (W j))
    (hg : b.synthesis jm c w s = .ok g) (hglm : (b.engine c).sphF g c.L = .ok glm)
    (h : b.analysis jm c g = .ok (v, r)) (hcv : b.Coeffs c J v r V R) :
    (∀ l m, 0 ≤ l → ‖co2 glm l m‖ ^ 2 ≤ mapEnergy c J (fun j => co3 (W j)) (co2 S) l m) ∧
    (∀ l m, 0 ≤ l → mapEnergy c J (fun j => co3 (V j)) (co2 R) l m ≤ mapEnergy c J (fun j => co3 (W j)) (co2 S) l m) ∧
    ((∑ l ∈ Finset.Ico 0 c.L, ∑ m ∈ Finset.Ioo (-c.L) c.L, mapEnergy c J (fun j => co3 (W j)) (co2 S) l m ≤
      ∑ l ∈ Finset.Ico 0 c.L, ∑ m ∈ Finset.Ioo (-c.L) c.L, mapEnergy c J (fun j => co3 (V j)) (co2 R) l m) →
      ∀ l m, 0 ≤ l → l < c.L → -c.L < m → m < c.L → co2 S l m = co2 R l m ∧
        ∀ j n, c.J_min ≤ j → j ≤ J → -c.L < n → n < c.L → co3 (W j) n l m = co3 (V j) n l m) := by
  obtain ⟨g', glm', v', r', V', R', e1, e2, e3, e4, e5⟩ := C79_pythagoras hw hk hno hck hc hr
  rw [hg] at e1; cases e1
  rw [hglm] at e2; cases e2
  rw [h] at e3; cases e3
  obtain ⟨psi, phi, hflt⟩ := filters_exist hw.valid b
  obtain ⟨a1, a2⟩ := analysis_co hw hflt h hcv hglm
  obtain ⟨b1, b2⟩ := analysis_co hw hflt h e4 hglm
  have hR : R' = R := by
    have := e4.scal
    rw [hcv.scal] at this
    exact (Except.ok.inj this).symm
  subst hR
  have hV : ∀ j, c.J_min ≤ j → j ≤ J → co3 (V' j) = co3 (V j) := fun j h0 h1 => by
    funext n l m
    rw [a1 j h0 h1, b1 j h0 h1]
  have hnn : ∀ l m (X : ℤ → ℤ → ℤ → ℤ → ℂ) (Y : ℤ → ℤ → ℂ), 0 ≤ l → 0 ≤ mapEnergy c J X Y l m := by
    intro l m X Y hl
    have : (0 : ℝ) ≤ l := by exact_mod_cast hl
    unfold mapEnergy
    have := Finset.sum_nonneg fun j (_ : j ∈ Finset.Icc c.J_min J) => Finset.sum_nonneg fun n
      (_ : n ∈ Finset.Ioo (-c.L) c.L) => mul_nonneg (div_nonneg (by positivity : (0 : ℝ) ≤ 2 * l + 1)
        (by positivity : (0 : ℝ) ≤ 8 * Real.pi ^ 2)) (sq_nonneg ‖X j n l m‖)
    positivity
  have hE : ∀ l m, mapEnergy c J (fun j => co3 (V' j)) (co2 R') l m = mapEnergy c J (fun j => co3 (V j)) (co2 R') l m :=
    fun l m => congrArg (_ + ·) (Finset.sum_congr rfl fun j hj => by
      rw [Finset.mem_Icc] at hj
      beta_reduce
      rw [hV j hj.1 hj.2])
  refine ⟨fun l m hl => ?_, fun l m hl => ?_, fun hle l m hl0 hl1 hm0 hm1 => ?_⟩
  · rw [(e5 l m).1, (e5 l m).2]
    exact le_add_of_nonneg_right (hnn l m _ _ hl)
  · rw [(e5 l m).2, hE]
    exact le_add_of_nonneg_right (hnn l m _ _ hl)
  · have hs : ∑ l ∈ Finset.Ico 0 c.L, ∑ m ∈ Finset.Ioo (-c.L) c.L, mapEnergy c J
        (fun j n l m => co3 (W j) n l m - co3 (V' j) n l m) (fun l m => co2 S l m - co2 R' l m) l m ≤ 0 := by
      rw [Finset.sum_congr rfl fun l _ => Finset.sum_congr rfl fun m _ => (e5 l m).2] at hle
      simp only [Finset.sum_add_distrib, hE] at hle
      linarith
    have hnn' : ∀ l ∈ Finset.Ico 0 c.L, ∀ m ∈ Finset.Ioo (-c.L) c.L, 0 ≤ mapEnergy c J
        (fun j n l m => co3 (W j) n l m - co3 (V' j) n l m) (fun l m => co2 S l m - co2 R' l m) l m :=
      fun l hl m _ => hnn l m _ _ (Finset.mem_Ico.1 hl).1
    have z1 := (Finset.sum_eq_zero_iff_of_nonneg fun l hl => Finset.sum_nonneg (hnn' l hl)).1
      (le_antisymm hs (Finset.sum_nonneg fun l hl => Finset.sum_nonneg (hnn' l hl))) l (Finset.mem_Ico.2 ⟨hl0, hl1⟩)
    have z2 := (Finset.sum_eq_zero_iff_of_nonneg (hnn' l (Finset.mem_Ico.2 ⟨hl0, hl1⟩))).1 z1 m (Finset.mem_Ioo.2 ⟨hm0, hm1⟩)
    unfold mapEnergy at z2
    have hlr : (0 : ℝ) < 2 * l + 1 := by have : (0 : ℝ) ≤ l := by exact_mod_cast hl0
                                         linarith
    have hk0 : (0 : ℝ) < (2 * l + 1) / (8 * Real.pi ^ 2) := by have := Real.pi_pos; positivity
    have t0 : ∀ j ∈ Finset.Icc c.J_min J, ∀ n ∈ Finset.Ioo (-c.L) c.L,
        0 ≤ (2 * (l : ℝ) + 1) / (8 * Real.pi ^ 2) * ‖co3 (W j) n l m - co3 (V' j) n l m‖ ^ 2 := fun j _ n _ => by positivity
    have t1 := Finset.sum_nonneg fun j hj => Finset.sum_nonneg (t0 j hj)
    have t2 := sq_nonneg ‖co2 S l m - co2 R' l m‖
    have z3 : ‖co2 S l m - co2 R' l m‖ ^ 2 = 0 := by linarith
    refine ⟨sub_eq_zero.1 (norm_eq_zero.1 (pow_eq_zero_iff (by norm_num) |>.1 z3)), fun j n h0 h1 hn0 hn1 => ?_⟩
    rw [z3, zero_add] at z2
    have z4 := (Finset.sum_eq_zero_iff_of_nonneg fun j hj => Finset.sum_nonneg (t0 j hj)).1 z2 j (Finset.mem_Icc.2 ⟨h0, h1⟩)
    have z5 := (Finset.sum_eq_zero_iff_of_nonneg (t0 j (Finset.mem_Icc.2 ⟨h0, h1⟩))).1 z4 n (Finset.mem_Ioo.2 ⟨hn0, hn1⟩)
    rw [← hV j h0 h1]
    rcases mul_eq_zero.1 z5 with h | h
    · exact absurd h hk0.ne'
    · exact sub_eq_zero.1 (norm_eq_zero.1 (pow_eq_zero_iff (by norm_num) |>.1 h))

/-- **C80** the energy of each map depends on the power spectrum of the signal only, each degree weighted by the energy of the
filter: for the wavelet map of scale `j`, and for the scaling map. -/
theorem C80_spectrum (hw : b.Works jm c J) {psi : Arr3 ℂ} {phi : Arr1 ℝ} (hflt : b.filters jm c = .ok (psi, phi))
    (h : b.analysis jm c f = .ok (w, s)) (hc : b.Coeffs c J w s W S) (hf : (b.engine c).sphF f c.L = .ok flm) {C : ℤ → ℝ}
    (hC : ∀ l, C l = ∑ m ∈ Finset.Ioo (-c.L) c.L, ‖co2 flm l m‖ ^ 2) :
    (∀ j, c.J_min ≤ j → j ≤ J → ∑ l ∈ Finset.Ico 0 c.L, ∑ m ∈ Finset.Ioo (-c.L) c.L, ∑ n ∈ Finset.Ioo (-c.L) c.L,
        (2 * l + 1) / (8 * Real.pi ^ 2) * ‖co3 (W j) n l m‖ ^ 2 =
      ∑ l ∈ Finset.Ico 0 c.L, (8 * Real.pi ^ 2 / (2 * l + 1) * ∑ n ∈ Finset.Ico 0 (2 * c.L - 1), ‖psi.v j l n‖ ^ 2) * C l) ∧
    ∑ l ∈ Finset.Ico 0 c.L, ∑ m ∈ Finset.Ioo (-c.L) c.L, ‖co2 S l m‖ ^ 2 =
      ∑ l ∈ Finset.Ico 0 c.L, (4 * Real.pi / (2 * l + 1) * phi.v l ^ 2) * C l := by
  obtain ⟨a1, a2⟩ := analysis_co hw hflt h hc hf
  have hpi := Real.pi_pos
  constructor
  · intro j h0 h1
    refine Finset.sum_congr rfl fun l hl => ?_
    have hl0 : (0 : ℝ) ≤ l := by exact_mod_cast (Finset.mem_Ico.1 hl).1
    rw [sum_cols_Ioo (L := c.L) fun n => ‖psi.v j l n‖ ^ 2, hC, Finset.mul_sum]
    refine Finset.sum_congr rfl fun m _ => ?_
    rw [Finset.mul_sum, Finset.sum_mul]
    refine Finset.sum_congr rfl fun n _ => ?_
    rw [a1 j h0 h1, norm_mul, norm_mul, Complex.norm_real, Real.norm_eq_abs, abs_of_nonneg (by positivity), RCLike.norm_conj]
    field_simp
  · refine Finset.sum_congr rfl fun l hl => ?_
    have hl0 : (0 : ℝ) ≤ l := by exact_mod_cast (Finset.mem_Ico.1 hl).1
    rw [hC, Finset.mul_sum]
    refine Finset.sum_congr rfl fun m _ => ?_
    rw [a2, norm_mul, Complex.norm_real, mul_pow, Real.norm_eq_abs, sq_abs, mul_pow, Real.sq_sqrt (by positivity)]

end

/-- maps that are not the analysis of any signal: the coefficient `n = l = 1`, `m = 0` of every scale -/
example : ∃ (w : List Px) (s : Px) (W : ℤ → Arr3 ℂ) (S : Arr2 ℂ) (g : Px) (glm : Arr2 ℂ),
    (Backend.jax Toy.jax).Coeffs (exCfg false 0) 2 w s W S ∧ co3 (W 1) 1 1 0 = 1 ∧
    (Backend.jax Toy.jax).synthesis j_max (exCfg false 0) w s = .ok g ∧
    ((Backend.jax Toy.jax).engine (exCfg false 0)).sphF g 3 = .ok glm ∧
    ∀ l m, 0 ≤ l → ‖co2 glm l m‖ ^ 2 ≤ mapEnergy (exCfg false 0) 2 (fun j => co3 (W j)) (co2 S) l m := by
  have hw := exCfg_works (b := .jax Toy.jax) (Or.inr (Or.inr (Or.inl rfl))) false 0
  obtain ⟨k, hk, hno⟩ := noOvershoot_3_2
  let p : Px := ⟨[3, 2, 3], fun i => if i = [2, 1, 2] then 1 else 0⟩
  have hc : (Backend.jax Toy.jax).Coeffs (exCfg false 0) 2 [p, p, p] p
      (fun j => Toy.wigFwd p ((exCfg false 0).Lj true j) ((exCfg false 0).Nj true j) ((exCfg false 0).L0 true j))
      (Toy.sphFwd false p ((exCfg false 0).Ls true)) := by
    refine ⟨rfl, fun j h0 h1 => ⟨p, ?_, rfl⟩, rfl⟩
    change 0 ≤ j at h0
    interval_cases j <;> rfl
  have hck : (Backend.jax Toy.jax).check j_max (exCfg false 0) [p, p, p] p = .ok () := rfl
  have hr : (exCfg false 0).reality = true → Herm2 (Toy.sphFwd false p ((exCfg false 0).Ls true)) ∧
      ∀ j, (exCfg false 0).J_min ≤ j → j ≤ 2 → Herm3 (Toy.wigFwd p ((exCfg false 0).Lj true j) ((exCfg false 0).Nj true j)
        ((exCfg false 0).L0 true j)) := fun h => by cases h
  obtain ⟨g, glm, v, r, V, R, h1, h2, h3, h4, -⟩ := C79_pythagoras hw hk hno hck hc hr
  refine ⟨_, _, _, _, g, glm, hc, ?_, h1, h2, (C79_least hw hk hno hck hc hr h1 h2 h3 h4).1⟩
  have e1 : (exCfg false 0).Lj true 1 = 3 := by
    simp only [Cfg.Lj, exCfg, LN_j, wav_j_bandlimit]
    norm_num
  have e2 : (exCfg false 0).Nj true 1 = 2 := by
    simp only [Cfg.Nj, exCfg, LN_j, wav_j_bandlimit]
    norm_num
  have e3 : (exCfg false 0).L0 true 1 = 1 := by
    simp only [Cfg.L0, exCfg, LN_j, L0_j]
    norm_num
  rw [e1, e2, e3]
  unfold Toy.wigFwd co3
  rw [Arr3.of_v _ _ _ _ _ _ _ (by simp [Arr3.of])]
  simp [Arr3.of, p]

/-- a signal with the power spectrum `C_1 = 1` -/
example (b : Backend) (hb : Toy.IsToy b) : ∃ f w s W S psi phi, b.analysis j_max (exCfg true 0) f = .ok (w, s) ∧
    b.Coeffs (exCfg true 0) 2 w s W S ∧ b.filters j_max (exCfg true 0) = .ok (psi, phi) ∧
    ∑ l ∈ Finset.Ico 0 3, ∑ m ∈ Finset.Ioo (-3) 3, ∑ n ∈ Finset.Ioo (-3) 3,
      (2 * l + 1) / (8 * Real.pi ^ 2) * ‖co3 (W 1) n l m‖ ^ 2 =
    8 * Real.pi ^ 2 / 3 * ∑ n ∈ Finset.Ico 0 5, ‖psi.v 1 1 n‖ ^ 2 := by
  have hw := exCfg_works hb true 0
  obtain ⟨f, w, s, W, S, hf, h, hc⟩ := exRun hb true
  obtain ⟨psi, phi, hflt⟩ := filters_exist hw.valid b
  refine ⟨f, w, s, W, S, psi, phi, h, hc, hflt, ?_⟩
  have hC : ∀ l : ℤ, (if l = 1 then (1 : ℝ) else 0) = ∑ m ∈ Finset.Ioo (-(exCfg true 0).L) (exCfg true 0).L, ‖co2 exFlm l m‖ ^ 2 := by
    intro l
    have hco : ∀ m, co2 exFlm l m = if l = 1 ∧ m = 0 then 1 else 0 := by
      intro m
      unfold exFlm
      rw [co2_of]
      split_ifs <;> first | rfl | omega
    by_cases hl : l = 1
    · rw [if_pos hl, Finset.sum_eq_single 0]
      · rw [hco, if_pos ⟨hl, rfl⟩]; simp
      · intro m _ hm
        rw [hco, if_neg (fun h => hm h.2)]; simp
      · intro h0
        exact absurd (Finset.mem_Ioo.2 ⟨by norm_num [exCfg], by norm_num [exCfg]⟩) h0
    · rw [if_neg hl, Finset.sum_eq_zero]
      intro m _
      rw [hco, if_neg (fun h => hl h.1)]; simp
  have key := (C80_spectrum hw hflt h hc hf hC).1 1 (by norm_num [exCfg]) (by norm_num)
  refine key.trans ?_
  rw [Finset.sum_eq_single 1]
  · norm_num [exCfg]
  · intro l _ hl
    rw [if_neg hl, mul_zero]
  · intro h0
    exact absurd (Finset.mem_Ico.2 ⟨by norm_num, by norm_num [exCfg]⟩) h0

end S2wav
