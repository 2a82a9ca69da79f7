import Verif.Props.Transforms

/-! # Properties of the wavelet coefficients in harmonic space

`W j`, `S` are the harmonic coefficients of the maps returned by analysis (`Backend.Coeffs`). -/

namespace S2wav
open Classical

section
variable {jm : JMax} {c : Cfg} {J : ℤ} {psi : Arr3 ℂ} {phi : Arr1 ℝ} {b : Backend} {f : Px} {flm : Arr2 ℂ} {w : List Px}
  {s : Px} {W : ℤ → Arr3 ℂ} {S : Arr2 ℂ}

/-- analysis succeeds on every signal the forward transform accepts, and its outputs have harmonic coefficients -/
theorem analysis_coeffs_exist (hw : b.Works jm c J) (hf : (b.engine c).sphF f c.L = .ok flm) :
    ∃ w s W S, b.analysis jm c f = .ok (w, s) ∧ b.Coeffs c J w s W S := by
  obtain ⟨psi, phi, hflt⟩ := filters_exist hw.valid b
  obtain ⟨w, s, h, hr⟩ := b.analysis_run hw.valid hw.ready hw.std hw.exact hw.trip hflt hf
  exact ⟨w, s, _, _, h, hr.len, fun j h0 h1 => by obtain ⟨p, hp, -, hp'⟩ := hr.wav j h0 h1; exact ⟨p, hp, hp'⟩, hr.scal⟩

theorem analysis_coeffs (hw : b.Works jm c J) (hflt : b.filters jm c = .ok (psi, phi))
    (h : b.analysis jm c f = .ok (w, s)) (hc : b.Coeffs c J w s W S) (hf : (b.engine c).sphF f c.L = .ok flm) :
    (∀ j, c.J_min ≤ j → j ≤ J →
      W j = wavCoeffs (c.Lj b.mr j) (c.Nj b.mr j) (fun l n => psi.v j l (c.L - 1 + n)) flm) ∧
    S = scalCoeffs (c.Ls b.mr) phi.v flm := by
  obtain ⟨w', s', h', hr⟩ := b.analysis_run hw.valid hw.ready hw.std hw.exact hw.trip hflt hf
  rw [h] at h'; cases h'
  constructor
  · intro j h0 h1
    obtain ⟨p, hp, -, hp'⟩ := hr.wav j h0 h1
    obtain ⟨q, hq, hq'⟩ := hc.wav j h0 h1
    rw [hp] at hq; cases hq
    rw [hp'] at hq'; exact (Except.ok.inj hq').symm
  · have := hc.scal
    rw [hr.scal] at this; exact (Except.ok.inj this).symm

/-- the coefficients returned by analysis, for all degrees and orders -/
theorem analysis_co (hw : b.Works jm c J) (hflt : b.filters jm c = .ok (psi, phi))
    (h : b.analysis jm c f = .ok (w, s)) (hc : b.Coeffs c J w s W S) (hf : (b.engine c).sphF f c.L = .ok flm) :
    (∀ j, c.J_min ≤ j → j ≤ J → ∀ n l m, co3 (W j) n l m =
      ((8 * Real.pi ^ 2 / (2 * l + 1) : ℝ) : ℂ) * (co2 flm l m * (starRingEnd ℂ) (psi.v j l (c.L - 1 + n)))) ∧
    (∀ l m, co2 S l m = ((Real.sqrt (4 * Real.pi / (2 * l + 1)) * phi.v l : ℝ) : ℂ) * co2 flm l m) := by
  obtain ⟨h1, h2⟩ := analysis_coeffs hw hflt h hc hf
  have hF := (C47_analysis_formula hw.valid b hw.ready hw.std hflt f).2 flm hf
  exact ⟨fun j a d n l m => by rw [h1 j a d]; exact hF.1 j n l m, fun l m => by rw [h2]; exact hF.2 l m⟩

theorem analysis_input (hw : b.Works jm c J) (h : b.analysis jm c f = .ok (w, s)) :
    ∃ flm, (b.engine c).sphF f c.L = .ok flm ∧ BL2 c.L 0 flm ∧ (c.reality = true → Herm2 flm) := by
  obtain ⟨psi, phi, hflt⟩ := filters_exist hw.valid b
  rw [b.analysis_formula hw.valid hw.ready hw.std hflt f] at h
  obtain ⟨flm, hf, -⟩ := Py.bind_eq_ok.1 h
  exact ⟨flm, hf, hw.std.sph f c.L flm hf⟩

/-- a run on a non-zero signal, for all six backends (used in the examples) -/
theorem exRun {b : Backend} (hb : Toy.IsToy b) (reality : Bool) : ∃ f w s W S,
    (b.engine (exCfg reality 0)).sphF f 3 = .ok exFlm ∧ b.analysis j_max (exCfg reality 0) f = .ok (w, s) ∧
    b.Coeffs (exCfg reality 0) 2 w s W S := by
  have hw := exCfg_works hb reality 0
  obtain ⟨f, -, hf⟩ := hw.exact.sph 3 exFlm (by norm_num) exFlm_bl (fun _ => exFlm_herm)
  obtain ⟨w, s, W, S, h, hc⟩ := analysis_coeffs_exist hw hf
  exact ⟨f, w, s, W, S, hf, h, hc⟩

/-- the degree-wise weights of `C24_round_trip`, `C29_energy`: 1 without overshoot, always between 1 and 1.002, and in
general the column maximum of `k_lam` for the vectorised filters -/
def IsGain (b : Backend) (jm : JMax) (c : Cfg) (J : ℤ) (G : ℤ → ℝ) : Prop :=
  ∀ k, k_lam jm c.L c.lam 300 = .ok k →
    (∀ l, 0 ≤ l → l < c.L → |c.spin| ≤ l →
      (1 ≤ G l ∧ G l ≤ 501 / 500) ∧ (b.isLooped = false → IsColMax k c.J_min (J + 1) l (G l) ∧ G l ≤ 1001 / 1000) ∧
        (NoOvershoot k → G l = 1)) ∧
    ∀ l, l < |c.spin| → G l = 0

theorem frameSum_isGain (hv : c.Valid jm J) (hflt : b.filters jm c = .ok (psi, phi)) :
    IsGain b jm c J (frameSum c.J_min J c.L psi phi) := by
  intro k hk
  have hA := dir_admissible hv.top hv.hN hk (J_min := c.J_min) (spin := c.spin) (spin0 := 0) (psi := psi) (phi := phi)
  refine ⟨fun l hl0 hl1 hs => ⟨?_, fun hb => ?_, fun hno => ?_⟩, fun l hl => ?_⟩
  · exact (frameSum_bounds hv hflt hl0 hl1 hs).1
  · refine ⟨?_, (frameSum_bounds hv hflt hl0 hl1 hs).2 hb⟩
    rw [filters_vec hb] at hflt
    exact (hA.1 (Or.inl hflt) l hl0 hl1 hs).1
  · exact (hA.2.1 (filters_built hflt) hno l hl0 hl1 hs (by simpa using hl0)).trans (if_pos rfl)
  · exact hA.2.2 (filters_built hflt) l (lt_of_lt_of_le hl (le_max_left _ _))

/-- **C29** energy conservation, degree by degree and order by order: the energy of `flm_lm` times the weight `G l` is the
energy of the scaling coefficient plus the weighted energy of all wavelet coefficients. -/
theorem C29_energy (hw : b.Works jm c J) (h : b.analysis jm c f = .ok (w, s)) (hc : b.Coeffs c J w s W S)
    (hf : (b.engine c).sphF f c.L = .ok flm) :
    ∃ G, IsGain b jm c J G ∧ ∀ l m, G l * ‖co2 flm l m‖ ^ 2 = ‖co2 S l m‖ ^ 2 +
      ∑ j ∈ Finset.Icc c.J_min J, ∑ n ∈ Finset.Ioo (-c.L) c.L, (2 * l + 1) / (8 * Real.pi ^ 2) * ‖co3 (W j) n l m‖ ^ 2 := by
  obtain ⟨psi, phi, hflt⟩ := filters_exist hw.valid b
  obtain ⟨hW, hS⟩ := analysis_co hw hflt h hc hf
  have hbl := (hw.std.sph f c.L flm hf).1
  refine ⟨_, frameSum_isGain hw.valid hflt, fun l m => ?_⟩
  have hsum : ∑ j ∈ Finset.Icc c.J_min J, ∑ n ∈ Finset.Ioo (-c.L) c.L,
      (2 * l + 1) / (8 * Real.pi ^ 2) * ‖co3 (W j) n l m‖ ^ 2 = ∑ j ∈ Finset.Icc c.J_min J, ∑ n ∈ Finset.Ioo (-c.L) c.L,
      (2 * l + 1) / (8 * Real.pi ^ 2) * (|8 * Real.pi ^ 2 / (2 * l + 1)| ^ 2 *
        (‖co2 flm l m‖ ^ 2 * ‖psi.v j l (c.L - 1 + n)‖ ^ 2)) := by
    refine Finset.sum_congr rfl fun j hj => Finset.sum_congr rfl fun n _ => ?_
    rw [Finset.mem_Icc] at hj
    rw [hW j hj.1 hj.2, norm_mul, norm_mul, Complex.norm_real, Real.norm_eq_abs, Complex.norm_conj]
    ring
  rw [hsum, hS, norm_mul, Complex.norm_real, Real.norm_eq_abs]
  by_cases hl : 0 ≤ l
  · have hl' : (0 : ℝ) ≤ l := by exact_mod_cast hl
    have hpi := Real.pi_pos
    have h8 : (2 * l + 1) / (8 * Real.pi ^ 2) * |8 * Real.pi ^ 2 / (2 * l + 1)| ^ 2 = 8 * Real.pi ^ 2 / (2 * (l : ℝ) + 1) := by
      rw [sq_abs]; field_simp
    simp only [← mul_assoc, h8]
    rw [mul_pow, sq_abs, mul_pow, Real.sq_sqrt (by positivity), frameSum]
    have hio : ∀ j, ∑ n ∈ Finset.Ioo (-c.L) c.L, ‖psi.v j l (c.L - 1 + n)‖ ^ 2 =
        ∑ k ∈ Finset.Ico 0 (2 * c.L - 1), ‖psi.v j l k‖ ^ 2 := fun j => (sum_cols_Ioo fun k => ‖psi.v j l k‖ ^ 2).symm
    simp only [← Finset.mul_sum, hio]
    ring
  · have : co2 flm l m = 0 := hbl.zero l m (Or.inl (by have := abs_nonneg m; omega))
    rw [this]; simp

/-- **C29** total energy, without overshoot: the transform is a tight frame. -/
theorem C29_tight_frame (hw : b.Works jm c J) (h : b.analysis jm c f = .ok (w, s)) (hc : b.Coeffs c J w s W S)
    (hf : (b.engine c).sphF f c.L = .ok flm) (hbl : BL2 c.L c.spin flm) {k : Arr2 ℝ}
    (hk : k_lam jm c.L c.lam 300 = .ok k) (hno : NoOvershoot k) :
    ∑ l ∈ Finset.Ico 0 c.L, ∑ m ∈ Finset.Ioo (-c.L) c.L, ‖co2 flm l m‖ ^ 2 =
      ∑ l ∈ Finset.Ico 0 c.L, ∑ m ∈ Finset.Ioo (-c.L) c.L, (‖co2 S l m‖ ^ 2 + ∑ j ∈ Finset.Icc c.J_min J,
        ∑ n ∈ Finset.Ioo (-c.L) c.L, (2 * l + 1) / (8 * Real.pi ^ 2) * ‖co3 (W j) n l m‖ ^ 2) := by
  obtain ⟨G, hG, hE⟩ := C29_energy hw h hc hf
  refine Finset.sum_congr rfl fun l hl => Finset.sum_congr rfl fun m _ => ?_
  rw [← hE]
  by_cases hs : |c.spin| ≤ l
  · rw [Finset.mem_Ico] at hl
    rw [((hG k hk).1 l hl.1 hl.2 hs).2.2 hno, one_mul]
  · rw [hbl.zero l m (Or.inr (by omega))]; simp

/-- **C61** frame inequality, overshoot or not: for every band-limited signal the energy of the coefficients lies between
the energy of the signal and 1.002 times it (1.001 for the vectorised filters). -/
theorem C61_frame (hw : b.Works jm c J) (h : b.analysis jm c f = .ok (w, s)) (hc : b.Coeffs c J w s W S)
    (hf : (b.engine c).sphF f c.L = .ok flm) (hbl : BL2 c.L c.spin flm) {E E' : ℝ}
    (hE : E = ∑ l ∈ Finset.Ico 0 c.L, ∑ m ∈ Finset.Ioo (-c.L) c.L, ‖co2 flm l m‖ ^ 2)
    (hE' : E' = ∑ l ∈ Finset.Ico 0 c.L, ∑ m ∈ Finset.Ioo (-c.L) c.L, (‖co2 S l m‖ ^ 2 + ∑ j ∈ Finset.Icc c.J_min J,
        ∑ n ∈ Finset.Ioo (-c.L) c.L, (2 * l + 1) / (8 * Real.pi ^ 2) * ‖co3 (W j) n l m‖ ^ 2)) :
    E ≤ E' ∧ E' ≤ 501 / 500 * E ∧ (b.isLooped = false → E' ≤ 1001 / 1000 * E) := by
  obtain ⟨G, hG, hEn⟩ := C29_energy hw h hc hf
  have hk := k_lam_ok hw.valid.top (show (3 : ℤ) ≤ 300 by norm_num)
  have key : ∀ r : ℝ, (∀ l, 0 ≤ l → l < c.L → |c.spin| ≤ l → G l ≤ r) → E' ≤ r * E := by
    intro r hr
    rw [hE, hE', Finset.mul_sum]
    refine Finset.sum_le_sum fun l hl => ?_
    rw [Finset.mul_sum]
    refine Finset.sum_le_sum fun m _ => ?_
    rw [← hEn]
    by_cases hs : |c.spin| ≤ l
    · rw [Finset.mem_Ico] at hl
      exact mul_le_mul_of_nonneg_right (hr l hl.1 hl.2 hs) (sq_nonneg _)
    · rw [hbl.zero l m (Or.inr (by omega))]; simp
  refine ⟨?_, key _ fun l a b d => ((hG _ hk).1 l a b d).1.2, fun hb => key _ fun l a b d => (((hG _ hk).1 l a b d).2.1 hb).2⟩
  rw [hE, hE']
  refine Finset.sum_le_sum fun l hl => Finset.sum_le_sum fun m _ => ?_
  rw [← hEn]
  by_cases hs : |c.spin| ≤ l
  · rw [Finset.mem_Ico] at hl
    exact le_mul_of_one_le_left (sq_nonneg _) ((hG _ hk).1 l hl.1 hl.2 hs).1.1
  · rw [hbl.zero l m (Or.inr (by omega))]; simp

example (b : Backend) (hb : Toy.IsToy b) : ∃ (f : Px) (w : List Px) (s : Px) (W : ℤ → Arr3 ℂ) (S : Arr2 ℂ) (E E' : ℝ),
    b.analysis j_max (exCfg true 0) f = .ok (w, s) ∧ b.Coeffs (exCfg true 0) 2 w s W S ∧
    E = ∑ l ∈ Finset.Ico (0 : ℤ) 3, ∑ m ∈ Finset.Ioo (-3 : ℤ) 3, ‖co2 exFlm l m‖ ^ 2 ∧ 0 < E ∧ E ≤ E' := by
  obtain ⟨f, w, s, W, S, hf, h, hc⟩ := exRun hb true
  refine ⟨f, w, s, W, S, _, _, h, hc, rfl, ?_, (C61_frame (exCfg_works hb true 0) h hc hf exFlm_bl rfl rfl).1⟩
  refine Finset.sum_pos' (fun l _ => Finset.sum_nonneg fun m _ => sq_nonneg _) ⟨1, by simp, ?_⟩
  exact Finset.sum_pos' (fun m _ => sq_nonneg _) ⟨0, by simp, by rw [exFlm_co]; norm_num⟩

/-- **C61** error of the round trip, overshoot or not: each harmonic coefficient of the reconstructed signal is within 0.2% of
the original (0.1% for the vectorised filters), with the phase unchanged. -/
theorem C61_round_trip_error (hw : b.Works jm c J) (hf : (b.engine c).sphF f c.L = .ok flm) (hbl : BL2 c.L c.spin flm) :
    ∃ w s glm, b.analysis jm c f = .ok (w, s) ∧ b.synthesis jm c w s = (b.engine c).sphI glm c.L ∧ BL2 c.L c.spin glm ∧
      ∀ l m, ‖co2 glm l m - co2 flm l m‖ ≤ 1 / 500 * ‖co2 flm l m‖ ∧
        (b.isLooped = false → ‖co2 glm l m - co2 flm l m‖ ≤ 1 / 1000 * ‖co2 flm l m‖) := by
  have hk := k_lam_ok hw.valid.top (show (3 : ℤ) ≤ 300 by norm_num)
  obtain ⟨w, s, glm, G, h1, h2, hr, hcl, h3, h4, -⟩ := C24_round_trip hw.valid b hw.ready hw.std hw.exact hw.trip hk hf
  refine ⟨w, s, glm, h1, h2, ⟨hr, hcl, fun l m hl => by rw [h3, hbl.zero l m hl, mul_zero]⟩, fun l m => ?_⟩
  have key : ∀ r : ℝ, (0 ≤ l → l < c.L → |c.spin| ≤ l → G l ≤ 1 + r) →
      ‖co2 glm l m - co2 flm l m‖ ≤ r * ‖co2 flm l m‖ := by
    intro r hr'
    by_cases hz : co2 flm l m = 0
    · rw [h3, hz]; simp
    have hin : 0 ≤ l ∧ l < c.L ∧ |c.spin| ≤ l := by
      refine ⟨?_, ?_, ?_⟩
      · by_contra hc; exact hz (hbl.zero l m (Or.inl (by have := abs_nonneg m; omega)))
      · by_contra hc
        exact hz (flm.junk l _ fun hj => hc (by rw [← hbl.r]; exact hj.2.1))
      · by_contra hc; exact hz (hbl.zero l m (Or.inr (by omega)))
    have hg := (h4 l hin.1 hin.2.1 hin.2.2).1.1
    have e : co2 glm l m - co2 flm l m = ((G l - 1 : ℝ) : ℂ) * co2 flm l m := by rw [h3]; push_cast; ring
    rw [e, norm_mul, Complex.norm_real, Real.norm_eq_abs, abs_of_nonneg (by linarith)]
    exact mul_le_mul_of_nonneg_right (by linarith [hr' hin.1 hin.2.1 hin.2.2]) (norm_nonneg _)
  exact ⟨key _ fun a b d => by have := (h4 l a b d).1.2; linarith,
    fun hb => key _ fun a b d => by have := ((h4 l a b d).2.1 hb).2; linarith⟩

example (b : Backend) (hb : Toy.IsToy b) : ∃ (f : Px) (w : List Px) (s : Px) (glm : Arr2 ℂ),
    b.analysis j_max (exCfg true 0) f = .ok (w, s) ∧ ‖co2 glm 1 0 - 1‖ ≤ 1 / 500 := by
  obtain ⟨f, _, _, _, _, hf, -, -⟩ := exRun hb true
  obtain ⟨w, s, glm, h, -, -, h3⟩ := C61_round_trip_error (exCfg_works hb true 0) hf exFlm_bl
  refine ⟨f, w, s, glm, h, ?_⟩
  have := (h3 1 0).1
  rw [exFlm_co] at this
  simpa using this

example (b : Backend) (hb : Toy.IsToy b) : ∃ (f : Px) (w : List Px) (s : Px) (W : ℤ → Arr3 ℂ) (S : Arr2 ℂ), b.analysis j_max (exCfg true 0) f = .ok (w, s) ∧
    b.Coeffs (exCfg true 0) 2 w s W S ∧ ‖co2 S 1 0‖ ^ 2 + ∑ j ∈ Finset.Icc 0 2, ∑ n ∈ Finset.Ioo (-3) 3,
      (2 * ((1 : ℤ) : ℝ) + 1) / (8 * Real.pi ^ 2) * ‖co3 (W j) n 1 0‖ ^ 2 = 1 := by
  obtain ⟨f, w, s, W, S, hf, h, hc⟩ := exRun hb true
  obtain ⟨k, hk, hno⟩ := noOvershoot_3_2
  obtain ⟨G, hG, hE⟩ := C29_energy (exCfg_works hb true 0) h hc hf
  refine ⟨f, w, s, W, S, h, hc, (hE 1 0).symm.trans ?_⟩
  rw [exFlm_co, ((hG k hk).1 1 (by norm_num) (by norm_num [exCfg]) (by norm_num [exCfg])).2.2 hno]; norm_num

/-- the coefficients synthesised from maps, for all degrees and orders; they are band-limited -/
theorem synCoeffs_co (hv : c.Valid jm J) (hflt : b.filters jm c = .ok (psi, phi)) {W' : ℤ → Arr3 ℂ} {S' : Arr2 ℂ}
    (hS : BL2 (c.Ls b.mr) 0 S') (hW : ∀ j, c.J_min ≤ j → j ≤ J → BL3 (c.Lj b.mr j) (c.Nj b.mr j) 0 (W' j)) :
    (∀ l m, co2 (synCoeffs c.L c.J_min J (fun j l n => psi.v j l (c.L - 1 + n)) phi.v W' S') l m =
      ∑ j ∈ Finset.Icc c.J_min J, ∑ n ∈ Finset.Ioo (-c.L) c.L, psi.v j l (c.L - 1 + n) * co3 (W' j) n l m +
      ((Real.sqrt (4 * Real.pi / (2 * l + 1)) * phi.v l : ℝ) : ℂ) * co2 S' l m) ∧
    BL2 c.L c.spin (synCoeffs c.L c.J_min J (fun j l n => psi.v j l (c.L - 1 + n)) phi.v W' S') := by
  have hZ := dir_fltZero hv.top hv.hN (filters_built hflt)
  have hco : ∀ l m, co2 (synCoeffs c.L c.J_min J (fun j l n => psi.v j l (c.L - 1 + n)) phi.v W' S') l m =
      ∑ j ∈ Finset.Icc c.J_min J, ∑ n ∈ Finset.Ioo (-c.L) c.L, psi.v j l (c.L - 1 + n) * co3 (W' j) n l m +
      ((Real.sqrt (4 * Real.pi / (2 * l + 1)) * phi.v l : ℝ) : ℂ) * co2 S' l m := by
    intro l m
    unfold synCoeffs
    rw [co2_of]
    have e : c.L - 1 + m - (c.L - 1) = m := by ring
    rw [e]
    split_ifs with hr
    · rfl
    · have hd := dir_shape hv.top hv.hN (filters_built hflt)
      have z1 : ∀ j n, c.J_min ≤ j → j ≤ J → psi.v j l (c.L - 1 + n) * co3 (W' j) n l m = 0 := by
        intro j n h0 h1
        by_cases hl : 0 ≤ l ∧ l < c.L
        · rw [(hW j h0 h1).zero n l m (Or.inr (Or.inl (by rw [lt_abs]; omega))), mul_zero]
        · rw [psi.junk _ _ _ (by rw [hd.2.1]; omega), zero_mul]
      have z2 : ((Real.sqrt (4 * Real.pi / (2 * l + 1)) * phi.v l : ℝ) : ℂ) * co2 S' l m = 0 := by
        by_cases hl : 0 ≤ l ∧ l < c.L
        · rw [hS.zero l m (Or.inl (by rw [lt_abs]; omega)), mul_zero]
        · rw [phi.junk _ (by rw [hd.2.2.2]; omega)]; simp
      rw [z2, add_zero]
      refine (Finset.sum_eq_zero fun j hj => Finset.sum_eq_zero fun n _ => ?_).symm
      rw [Finset.mem_Icc] at hj
      exact z1 j n hj.1 hj.2
  refine ⟨hco, rfl, rfl, fun l m hlm => ?_⟩
  rw [hco]
  rcases hlm with hlm | hlm
  · rw [hS.zero l m (Or.inl hlm), mul_zero, add_zero]
    refine Finset.sum_eq_zero fun j hj => Finset.sum_eq_zero fun n _ => ?_
    rw [Finset.mem_Icc] at hj
    rw [(hW j hj.1 hj.2).zero n l m (Or.inr (Or.inl hlm)), mul_zero]
  · have z1 : ∀ j n, psi.v j l (c.L - 1 + n) = 0 := fun j n => hZ.psi j l n (Or.inr hlm)
    have z2 : phi.v l = 0 := hZ.phi l hlm
    simp [z1, z2]

/-- the coefficients whose inverse transform `synthesis` returns -/
theorem synthesis_co (hw : b.Works jm c J) (hflt : b.filters jm c = .ok (psi, phi)) {w' : List Px} {s' : Px}
    {W' : ℤ → Arr3 ℂ} {S' : Arr2 ℂ} (hck : b.check jm c w' s' = .ok ()) (hc' : b.Coeffs c J w' s' W' S') :
    ∃ alm, BL2 c.L c.spin alm ∧ b.synthesis jm c w' s' = (b.engine c).sphI alm c.L ∧ ∀ l m, co2 alm l m =
      ∑ j ∈ Finset.Icc c.J_min J, ∑ n ∈ Finset.Ioo (-c.L) c.L, psi.v j l (c.L - 1 + n) * co3 (W' j) n l m +
      ((Real.sqrt (4 * Real.pi / (2 * l + 1)) * phi.v l : ℝ) : ℂ) * co2 S' l m := by
  have hSbl := (hw.std.sph _ _ _ hc'.scal).1
  have hWbl : ∀ j, c.J_min ≤ j → j ≤ J → BL3 (c.Lj b.mr j) (c.Nj b.mr j) 0 (W' j) := fun j h0 h1 => by
    obtain ⟨p, -, hp⟩ := hc'.wav j h0 h1
    exact hw.std.wig _ _ _ _ _ hp
  obtain ⟨hco, halm⟩ := synCoeffs_co hw.valid hflt hSbl hWbl
  have hsyn : b.synthesis jm c w' s' = (b.engine c).sphI
      (synCoeffs c.L c.J_min J (fun j l n => psi.v j l (c.L - 1 + n)) phi.v W' S') c.L := by
    rw [b.synthesis_formula hw.valid hw.ready hw.std (fun a d => hw.trip.nonneg a d) hflt, hck, Py.bind_ok, hc'.scal, Py.bind_ok]
    have hm : (pyRange c.J_min (J + 1)).mapM (fun j => do
        let fw ← listGet w' (j - c.J_min)
        (b.engine c).wigF fw (c.Lj b.mr j) (c.Nj b.mr j) (c.L0 b.mr j)) = .ok ((pyRange c.J_min (J + 1)).map W') := by
      refine mapM_ok fun j hj => ?_
      rw [mem_pyRange] at hj
      obtain ⟨p, hp, hp'⟩ := hc'.wav j hj.1 (by omega)
      rw [hp, Py.bind_ok, hp']
    rw [hm, Py.bind_ok]
    refine congrArg (fun a => (b.engine c).sphI a c.L) ?_
    unfold synCoeffs
    refine Arr2.of_congr fun l i _ _ _ _ => ?_
    congr 1
    refine Finset.sum_congr rfl fun j hj => ?_
    rw [Finset.mem_Icc] at hj
    rw [nth_eq hj.1 (listGet_range _ hj.1 (by omega))]
  exact ⟨_, halm, hsyn, hco⟩

/-- the adjoint identity, for coefficients given by the formula of `synthesis_co` -/
theorem adjoint_of_co (hw : b.Works jm c J) (hflt : b.filters jm c = .ok (psi, phi)) {alm : Arr2 ℂ} {W' : ℤ → Arr3 ℂ}
    {S' : Arr2 ℂ} (hco : ∀ l m, co2 alm l m =
      ∑ j ∈ Finset.Icc c.J_min J, ∑ n ∈ Finset.Ioo (-c.L) c.L, psi.v j l (c.L - 1 + n) * co3 (W' j) n l m +
      ((Real.sqrt (4 * Real.pi / (2 * l + 1)) * phi.v l : ℝ) : ℂ) * co2 S' l m)
    (h : b.analysis jm c f = .ok (w, s)) (hc : b.Coeffs c J w s W S) (hf : (b.engine c).sphF f c.L = .ok flm) (l m : ℤ) :
    (starRingEnd ℂ) (co2 flm l m) * co2 alm l m = (starRingEnd ℂ) (co2 S l m) * co2 S' l m +
      ∑ j ∈ Finset.Icc c.J_min J, ∑ n ∈ Finset.Ioo (-c.L) c.L,
        (((2 * l + 1) / (8 * Real.pi ^ 2) : ℝ) : ℂ) * ((starRingEnd ℂ) (co3 (W j) n l m) * co3 (W' j) n l m) := by
  obtain ⟨hW, hS⟩ := analysis_co hw hflt h hc hf
  have hbl := (hw.std.sph f c.L flm hf).1
  rw [hco, hS]
  by_cases hl : 0 ≤ l
  · have hl' : (0 : ℝ) ≤ l := by exact_mod_cast hl
    have hpi := Real.pi_pos
    have h8 : (((2 * l + 1) / (8 * Real.pi ^ 2) : ℝ) : ℂ) * ((8 * Real.pi ^ 2 / (2 * l + 1) : ℝ) : ℂ) = 1 := by
      rw [← Complex.ofReal_mul, ← Complex.ofReal_one]
      congr 1
      field_simp
    have hsum : ∑ j ∈ Finset.Icc c.J_min J, ∑ n ∈ Finset.Ioo (-c.L) c.L,
        (((2 * l + 1) / (8 * Real.pi ^ 2) : ℝ) : ℂ) * ((starRingEnd ℂ) (co3 (W j) n l m) * co3 (W' j) n l m) =
        ∑ j ∈ Finset.Icc c.J_min J, ∑ n ∈ Finset.Ioo (-c.L) c.L,
          (starRingEnd ℂ) (co2 flm l m) * (psi.v j l (c.L - 1 + n) * co3 (W' j) n l m) := by
      refine Finset.sum_congr rfl fun j hj => Finset.sum_congr rfl fun n _ => ?_
      rw [Finset.mem_Icc] at hj
      rw [hW j hj.1 hj.2]
      simp only [map_mul, Complex.conj_ofReal, Complex.conj_conj]
      linear_combination ((starRingEnd ℂ) (co2 flm l m) * psi.v j l (c.L - 1 + n) * co3 (W' j) n l m) * h8
    rw [hsum]
    simp only [← Finset.mul_sum, map_mul, Complex.conj_ofReal]
    ring
  · have : co2 flm l m = 0 := hbl.zero l m (Or.inl (by have := abs_nonneg m; omega))
    have z : ∀ j ∈ Finset.Icc c.J_min J, ∀ n, co3 (W j) n l m = 0 := fun j hj n => by
      rw [Finset.mem_Icc] at hj
      rw [hW j hj.1 hj.2, this]; simp
    rw [this]
    simp only [map_zero, zero_mul, mul_zero, zero_add]
    symm
    refine Finset.sum_eq_zero fun j hj => Finset.sum_eq_zero fun n _ => ?_
    rw [z j hj n]; simp

/-- **C30** synthesis is the adjoint of analysis: for every signal `f` and every set of maps `(w', s')` of the right
shapes, synthesis of `(w', s')` is the inverse transform of coefficients `alm` with
`<flm, alm> = <S, S'> + Σ_j <W^j, W'^j>` (inner products order by order, the Wigner one weighted by `(2l+1)/(8π²)`).
`alm` depends on `(w', s')` only. -/
theorem C30_adjoint_all (hw : b.Works jm c J) {w' : List Px} {s' : Px} {W' : ℤ → Arr3 ℂ} {S' : Arr2 ℂ}
    (hck : b.check jm c w' s' = .ok ()) (hc' : b.Coeffs c J w' s' W' S') :
    ∃ alm, BL2 c.L c.spin alm ∧ b.synthesis jm c w' s' = (b.engine c).sphI alm c.L ∧
      (c.reality = false → ∃ g, b.synthesis jm c w' s' = .ok g ∧ (b.engine c).sphF g c.L = .ok alm) ∧
      ∀ {f : Px} {flm : Arr2 ℂ} {w : List Px} {s : Px} {W : ℤ → Arr3 ℂ} {S : Arr2 ℂ},
        b.analysis jm c f = .ok (w, s) → b.Coeffs c J w s W S → (b.engine c).sphF f c.L = .ok flm →
      ∀ l m, (starRingEnd ℂ) (co2 flm l m) * co2 alm l m = (starRingEnd ℂ) (co2 S l m) * co2 S' l m +
        ∑ j ∈ Finset.Icc c.J_min J, ∑ n ∈ Finset.Ioo (-c.L) c.L,
          (((2 * l + 1) / (8 * Real.pi ^ 2) : ℝ) : ℂ) * ((starRingEnd ℂ) (co3 (W j) n l m) * co3 (W' j) n l m) := by
  obtain ⟨psi, phi, hflt⟩ := filters_exist hw.valid b
  have hL := hw.valid.top.hL
  obtain ⟨alm, halm, hsyn, hco⟩ := synthesis_co hw hflt hck hc'
  refine ⟨alm, halm, hsyn, fun hr => ?_, fun {f flm w s W S} h hc hf l m => ?_⟩
  · obtain ⟨g, h1, h2⟩ := hw.exact.sph _ _ hL halm (fun h => by rw [hr] at h; cases h)
    exact ⟨g, hsyn.trans h1, h2⟩
  · exact adjoint_of_co hw hflt hco h hc hf l m

/-- **C30** the same for one signal -/
theorem C30_adjoint (hw : b.Works jm c J) (h : b.analysis jm c f = .ok (w, s)) (hc : b.Coeffs c J w s W S)
    (hf : (b.engine c).sphF f c.L = .ok flm) {w' : List Px} {s' : Px} {W' : ℤ → Arr3 ℂ} {S' : Arr2 ℂ}
    (hck : b.check jm c w' s' = .ok ()) (hc' : b.Coeffs c J w' s' W' S') :
    ∃ alm, BL2 c.L c.spin alm ∧ b.synthesis jm c w' s' = (b.engine c).sphI alm c.L ∧
      (c.reality = false → ∃ g, b.synthesis jm c w' s' = .ok g ∧ (b.engine c).sphF g c.L = .ok alm) ∧
      ∀ l m, (starRingEnd ℂ) (co2 flm l m) * co2 alm l m = (starRingEnd ℂ) (co2 S l m) * co2 S' l m +
        ∑ j ∈ Finset.Icc c.J_min J, ∑ n ∈ Finset.Ioo (-c.L) c.L,
          (((2 * l + 1) / (8 * Real.pi ^ 2) : ℝ) : ℂ) * ((starRingEnd ℂ) (co3 (W j) n l m) * co3 (W' j) n l m) := by
  obtain ⟨alm, h1, h2, h3, h4⟩ := C30_adjoint_all hw hck hc'
  exact ⟨alm, h1, h2, h3, h4 h hc hf⟩

/-- `C30_adjoint` with `f` and the maps of `f` itself: `<S, S> + Σ <W, W> = <flm, alm>` -/
example (b : Backend) (hb : Toy.IsToy b) : ∃ (f : Px) (w : List Px) (s : Px) (W : ℤ → Arr3 ℂ) (S alm : Arr2 ℂ),
    b.analysis j_max (exCfg false 0) f = .ok (w, s) ∧ b.synthesis j_max (exCfg false 0) w s =
      (b.engine (exCfg false 0)).sphI alm 3 ∧
    (starRingEnd ℂ) (co2 exFlm 1 0) * co2 alm 1 0 = (starRingEnd ℂ) (co2 S 1 0) * co2 S 1 0 +
        ∑ j ∈ Finset.Icc 0 2, ∑ n ∈ Finset.Ioo (-3) 3,
          (((2 * (1 : ℤ) + 1) / (8 * Real.pi ^ 2) : ℝ) : ℂ) * ((starRingEnd ℂ) (co3 (W j) n 1 0) * co3 (W j) n 1 0) := by
  have hw := exCfg_works hb false 0
  obtain ⟨psi, phi, hflt⟩ := filters_exist hw.valid b
  obtain ⟨f, w, s, W, S, hf, h, hc⟩ := exRun hb false
  obtain ⟨w', s', h', hr⟩ := b.analysis_run hw.valid hw.ready hw.std hw.exact hw.trip hflt hf
  rw [h] at h'; cases h'
  obtain ⟨alm, -, h1, -, h2⟩ := C30_adjoint hw h hc hf hr.check hc
  exact ⟨f, w, s, W, S, alm, h, h1, h2 1 0⟩

/-- **C51** a constant signal has no wavelet coefficients: the part of degree 0 of a signal never reaches a wavelet
scale. -/
theorem C51_constants (hw : b.Works jm c J) (h : b.analysis jm c f = .ok (w, s)) (hc : b.Coeffs c J w s W S)
    (hf : (b.engine c).sphF f c.L = .ok flm) (h0 : ∀ l m, l ≠ 0 → co2 flm l m = 0) :
    (∀ j, c.J_min ≤ j → j ≤ J → ∀ n l m, co3 (W j) n l m = 0) ∧
    (c.spin = 0 → co2 S 0 0 = co2 flm 0 0) := by
  obtain ⟨psi, phi, hflt⟩ := filters_exist hw.valid b
  obtain ⟨hW, hS⟩ := analysis_co hw hflt h hc hf
  have hB := filters_built hflt
  have hv := hw.valid
  have hL := hv.top.hL
  obtain ⟨-, -, hphi, p, hpsi, hp⟩ := dirBuilt_elim hv.top hv.hN hB
  constructor
  · intro j hj0 hj1 n l m
    rw [hW j hj0 hj1]
    by_cases hl : l = 0
    · have : psi.v j l (c.L - 1 + n) = 0 := by
        by_contra hne
        rw [hpsi] at hne
        by_cases hr : 0 ≤ j ∧ j < J + 1 ∧ 0 ≤ l ∧ l < c.L ∧ 0 ≤ c.L - 1 + n ∧ c.L - 1 + n < 2 * c.L - 1
        · rw [Arr3.of_v _ _ _ _ _ _ _ hr] at hne
          have := (psiDirOf_support hv.hN hne).2.2.1
          omega
        · exact hne (Arr3.of_out _ _ _ _ _ _ _ hr)
      rw [this]; simp
    · rw [h0 l m hl]; simp
  · intro hs
    rw [hS, hphi, Arr1.of_v _ _ _ ⟨le_rfl, by omega⟩, phiDir, if_neg (by simp [hs]),
      phiAx_eq_one hv.top.hlam (by simpa using (zpow_pos' hv.top.hlam (c.J_min - 1)).le), sfac_zero]
    have hpi := Real.pi_pos
    have e : Real.sqrt (4 * Real.pi / (2 * ((0 : ℤ) : ℝ) + 1)) * (cphi 0 * 1 * 1) = 1 := by
      rw [cphi, mul_one, mul_one, ← Real.sqrt_mul (by norm_num; positivity)]
      have : 4 * Real.pi / (2 * ((0 : ℤ) : ℝ) + 1) * ((2 * ((0 : ℤ) : ℝ) + 1) / (4 * Real.pi)) = 1 := by
        norm_num; field_simp
      rw [this, Real.sqrt_one]
    rw [e]; simp

/-- the constant signal with coefficient 1 -/
example (b : Backend) (hb : Toy.IsToy b) : ∃ (f : Px) (w : List Px) (s : Px) (W : ℤ → Arr3 ℂ) (S : Arr2 ℂ),
    b.analysis j_max (exCfg true 0) f = .ok (w, s) ∧ b.Coeffs (exCfg true 0) 2 w s W S ∧ co2 S 0 0 = 1 ∧
    ∀ n l m, co3 (W 0) n l m = 0 := by
  have hw := exCfg_works hb true 0
  have hco : ∀ l m, co2 (Arr2.of 3 5 fun l i => if l = 0 ∧ i = 2 then (1 : ℂ) else 0) l m = if l = 0 ∧ m = 0 then 1 else 0 := by
    intro l m
    rw [co2_of]
    by_cases hlm : l = 0 ∧ m = 0
    · rw [if_pos hlm, if_pos (by omega), if_pos (by omega)]
    · rw [if_neg hlm]
      split_ifs <;> first | rfl | omega
  obtain ⟨f, -, hf⟩ := hw.exact.sph 3 (Arr2.of 3 5 fun l i => if l = 0 ∧ i = 2 then 1 else 0) (by norm_num)
    ⟨rfl, rfl, fun l m hlm => by
      rw [hco, if_neg]
      have h0 : (exCfg true 0).spin = 0 := rfl
      rw [h0, abs_zero, lt_abs] at hlm
      omega⟩ (fun _ l m => by
      rw [hco, hco]
      by_cases hlm : l = 0 ∧ m = 0
      · rw [if_pos (by omega), if_pos hlm, hlm.2]; simp
      · rw [if_neg (by omega), if_neg hlm]; simp)
  obtain ⟨w, s, W, S, h, hc⟩ := analysis_coeffs_exist hw hf
  have := C51_constants hw h hc hf (fun l m hl => by rw [hco, if_neg (fun h => hl h.1)])
  exact ⟨f, w, s, W, S, h, hc, by rw [this.2 rfl, hco]; simp, this.1 0 le_rfl (by norm_num)⟩

/-- the support of the wavelets and of the scaling function -/
theorem filters_support (hv : c.Valid jm J) (hflt : b.filters jm c = .ok (psi, phi)) :
    (∀ j l k, psi.v j l k ≠ 0 → c.lam ^ (j - 1) < (l : ℝ) ∧ (l : ℝ) < c.lam ^ (j + 1) ∧ 0 ≤ l ∧ l < c.L) ∧
    (∀ l : ℤ, c.lam ^ c.J_min ≤ (l : ℝ) → phi.v l = 0) ∧
    (∀ j l n, psi.v j l (c.L - 1 + n) ≠ 0 → |n| ≤ l ∧ |n| < c.N ∧ (c.N + n) % 2 ≠ 0) := by
  obtain ⟨h0, h1, rfl, p, rfl, hp⟩ := dirBuilt_elim hv.top hv.hN (filters_built hflt)
  refine ⟨fun j l k hne => ?_, fun l hl => ?_, fun j l n hne => ?_⟩
  · by_cases hr : 0 ≤ j ∧ j < J + 1 ∧ 0 ≤ l ∧ l < c.L ∧ 0 ≤ k ∧ k < 2 * c.L - 1
    · rw [Arr3.of_v _ _ _ _ _ _ _ hr] at hne
      have h2 := (psiDirOf_support hv.hN hne).2.1
      have h3 := hp.support hv.top.hlam (by omega) hr.2.2.1 hr.2.2.2.1 h2
      exact ⟨h3.1, h3.2, hr.2.2.1, hr.2.2.2.1⟩
    · exact absurd (Arr3.of_out _ _ _ _ _ _ _ hr) hne
  · by_cases hr : 0 ≤ l ∧ l < c.L
    · rw [Arr1.of_v _ _ _ hr, phiDir, phiAx_eq_zero hv.top.hlam hl]
      split_ifs <;> simp
    · exact Arr1.junk _ _ hr
  · by_cases hr : 0 ≤ j ∧ j < J + 1 ∧ 0 ≤ l ∧ l < c.L ∧ 0 ≤ c.L - 1 + n ∧ c.L - 1 + n < 2 * c.L - 1
    · have e : c.L - 1 + n - (c.L - 1) = n := by ring
      rw [Arr3.of_v _ _ _ _ _ _ _ hr, e] at hne
      exact (psiDirOf_support hv.hN hne).2.2.2
    · exact absurd (Arr3.of_out _ _ _ _ _ _ _ hr) hne

/-- **C37** scale locality: two signals that differ only at degree `l₀` have the same wavelet maps at every scale with
`l₀ ∉ (lam^(j-1), lam^(j+1))`, and the same scaling map if `lam^J_min ≤ l₀`.  Any two affected scales are neighbours. -/
theorem C37_locality (hv : c.Valid jm J) (b : Backend) (hR : b.Ready jm c) (hE : (b.engine c).Std c.reality) {g : Px}
    {glm : Arr2 ℂ} {w' : List Px} {s' : Px} (hf : (b.engine c).sphF f c.L = .ok flm)
    (hg : (b.engine c).sphF g c.L = .ok glm) {l₀ : ℤ} (hd : ∀ l m, l ≠ l₀ → co2 flm l m = co2 glm l m)
    (h : b.analysis jm c f = .ok (w, s)) (h' : b.analysis jm c g = .ok (w', s')) :
    (∀ j, c.J_min ≤ j → j ≤ J → ¬ (c.lam ^ (j - 1) < (l₀ : ℝ) ∧ (l₀ : ℝ) < c.lam ^ (j + 1)) →
      ∃ p, listGet w (j - c.J_min) = .ok p ∧ listGet w' (j - c.J_min) = .ok p) ∧
    (c.lam ^ c.J_min ≤ (l₀ : ℝ) → s = s') ∧
    (∀ j j' : ℤ, c.lam ^ (j - 1) < (l₀ : ℝ) ∧ (l₀ : ℝ) < c.lam ^ (j + 1) →
      c.lam ^ (j' - 1) < (l₀ : ℝ) ∧ (l₀ : ℝ) < c.lam ^ (j' + 1) → |j - j'| ≤ 1) := by
  obtain ⟨psi, phi, hflt⟩ := filters_exist hv b
  obtain ⟨hsup, hphi, -⟩ := filters_support hv hflt
  rw [b.analysis_formula hv hR hE hflt, hf, Py.bind_ok] at h
  rw [b.analysis_formula hv hR hE hflt, hg, Py.bind_ok] at h'
  obtain ⟨w1, hw1, h⟩ := Py.bind_eq_ok.1 h
  obtain ⟨s1, hs1, h⟩ := Py.bind_eq_ok.1 h
  cases h
  obtain ⟨w2, hw2, h'⟩ := Py.bind_eq_ok.1 h'
  obtain ⟨s2, hs2, h'⟩ := Py.bind_eq_ok.1 h'
  cases h'
  refine ⟨fun j h0 h1 hj => ?_, fun hl => ?_, fun j j' h1 h2 => ?_⟩
  · obtain ⟨p, hp, hp'⟩ := mapM_get hw1 h0 (show j < J + 1 by omega)
    obtain ⟨q, hq, hq'⟩ := mapM_get hw2 h0 (show j < J + 1 by omega)
    have e : wavCoeffs (c.Lj b.mr j) (c.Nj b.mr j) (fun l n => psi.v j l (c.L - 1 + n)) flm =
        wavCoeffs (c.Lj b.mr j) (c.Nj b.mr j) (fun l n => psi.v j l (c.L - 1 + n)) glm := by
      refine Arr3.of_congr fun k l i _ _ _ _ _ _ => ?_
      beta_reduce
      by_cases hl : l = l₀
      · have : psi.v j l (c.L - 1 + (k - (c.Nj b.mr j - 1))) = 0 := by
          by_contra hne
          have := hsup j l _ hne
          rw [hl] at this
          exact hj ⟨this.1, this.2.1⟩
        rw [this]; simp
      · rw [hd l _ hl]
    beta_reduce at hp' hq'
    rw [e, hq'] at hp'
    rw [Except.ok.inj hp'] at hq
    exact ⟨p, hp, hq⟩
  · have e : scalCoeffs (c.Ls b.mr) phi.v flm = scalCoeffs (c.Ls b.mr) phi.v glm := by
      refine Arr2.of_congr fun l i _ _ _ _ => ?_
      by_cases hl' : l = l₀
      · rw [hphi l (by rw [hl']; exact hl)]; simp
      · rw [hd l _ hl']
    rw [e, hs2] at hs1
    cases hs1; rfl
  · have e1 := (zpow_lt_zpow_iff_right₀ hv.top.hlam).1 (h1.1.trans h2.2)
    have e2 := (zpow_lt_zpow_iff_right₀ hv.top.hlam).1 (h2.1.trans h1.2)
    rw [abs_le]; omega

/-- changing degree 1 leaves scale `j = 2` alone (`lam = 2`, `2^(2-1) = 2`) -/
example (b : Backend) (hb : Toy.IsToy b) : ∃ (f g : Px) (flm glm : Arr2 ℂ) (w w' : List Px) (s s' p : Px),
    (b.engine (exCfg false 0)).sphF f 3 = .ok flm ∧ (b.engine (exCfg false 0)).sphF g 3 = .ok glm ∧
    co2 flm 1 0 ≠ co2 glm 1 0 ∧ b.analysis j_max (exCfg false 0) f = .ok (w, s) ∧
    b.analysis j_max (exCfg false 0) g = .ok (w', s') ∧ listGet w 2 = .ok p ∧ listGet w' 2 = .ok p := by
  have hw := exCfg_works hb false 0
  obtain ⟨f, w, s, W, S, hf, h, hc⟩ := exRun hb false
  have hz : ∀ l m, co2 (Arr2.of 3 5 fun _ _ => 0) l m = 0 := fun l m => by rw [co2_of, ite_self]
  obtain ⟨g, -, hg⟩ := hw.exact.sph 3 (Arr2.of 3 5 fun _ _ => 0) (by norm_num) ⟨rfl, rfl, fun l m _ => hz l m⟩
    (fun h => by cases h)
  obtain ⟨w', s', W', S', h', hc'⟩ := analysis_coeffs_exist hw hg
  obtain ⟨p, hp, hp'⟩ := (C37_locality hw.valid b hw.ready hw.std hf hg (l₀ := 1) (fun l m hl => by
    rw [hz]; unfold exFlm; rw [co2_of, ite_eq_right_iff]; exact fun _ => if_neg fun h => hl h.1) h h').1 2 (by norm_num [exCfg]) le_rfl
    (by norm_num [exCfg])
  exact ⟨f, g, _, _, w, w', s, s', p, hf, hg, by rw [hz, exFlm_co]; norm_num, h, h', hp, hp'⟩

/-- **C53** the orders `n` carried by a wavelet map: `|n| < N`, `|n| ≤ l`, every second one; only `n = 0` for `N = 1`.
Degrees outside `(lam^(j-1), lam^(j+1))` are zero. -/
theorem C53_orders (hw : b.Works jm c J) (h : b.analysis jm c f = .ok (w, s)) (hc : b.Coeffs c J w s W S) {j n l m : ℤ}
    (h0 : c.J_min ≤ j) (h1 : j ≤ J) (hne : co3 (W j) n l m ≠ 0) :
    |n| < c.N ∧ |n| ≤ l ∧ |m| ≤ l ∧ (c.N - 1 - n) % 2 = 0 ∧ (c.N = 1 → n = 0) ∧ |c.spin| ≤ l ∧
      c.lam ^ (j - 1) < (l : ℝ) ∧ (l : ℝ) < c.lam ^ (j + 1) ∧ l < c.L := by
  obtain ⟨psi, phi, hflt⟩ := filters_exist hw.valid b
  obtain ⟨flm, hf, hbl, -⟩ := analysis_input hw h
  obtain ⟨hW, -⟩ := analysis_co hw hflt h hc hf
  obtain ⟨hsup, -, hord⟩ := filters_support hw.valid hflt
  rw [hW j h0 h1] at hne
  have hp : psi.v j l (c.L - 1 + n) ≠ 0 := by rintro h0; apply hne; rw [h0]; simp
  have hm : ¬ l < |m| := fun hlt => hne (by rw [hbl.zero l m (Or.inl hlt)]; simp)
  have hs : ¬ l < |c.spin| := fun hlt => hp ((dir_fltZero hw.valid.top hw.valid.hN (filters_built hflt)).psi j l n (Or.inr hlt))
  have a := hord j l n hp
  have d := hsup j l _ hp
  refine ⟨a.2.1, a.1, by omega, by omega, fun h1 => ?_, by omega, d.1, d.2.1, d.2.2.2⟩
  have := a.2.1
  rw [abs_lt] at this
  omega

/-- the coefficient `(j, l, m, n) = (0, 1, 0, 1)` is not zero in a run with `N = 2` -/
example (b : Backend) (hb : Toy.IsToy b) : ∃ (f : Px) (w : List Px) (s : Px) (W : ℤ → Arr3 ℂ) (S : Arr2 ℂ),
    b.analysis j_max (exCfg true 0) f = .ok (w, s) ∧ b.Coeffs (exCfg true 0) 2 w s W S ∧ ∃ j n, 0 ≤ j ∧ j ≤ 2 ∧
    co3 (W j) n 1 0 ≠ 0 := by
  obtain ⟨f, w, s, W, S, hf, h, hc⟩ := exRun hb true
  obtain ⟨k, hk, hno⟩ := noOvershoot_3_2
  have hw := exCfg_works hb true 0
  obtain ⟨G, hG, hE⟩ := C29_energy hw h hc hf
  refine ⟨f, w, s, W, S, h, hc, ?_⟩
  by_contra hcon
  push Not at hcon
  have hS : co2 S 1 0 = 0 := by
    obtain ⟨psi, phi, hflt⟩ := filters_exist hw.valid b
    rw [(analysis_co hw hflt h hc hf).2, (filters_support hw.valid hflt).2.1 1 (by norm_num [exCfg])]
    simp
  have := hE 1 0
  rw [exFlm_co, ((hG k hk).1 1 (by norm_num) (by norm_num [exCfg]) (by norm_num [exCfg])).2.2 hno, hS,
    Finset.sum_eq_zero] at this
  · norm_num at this
  · intro j hj
    rw [Finset.mem_Icc] at hj
    refine Finset.sum_eq_zero fun n _ => ?_
    rw [hcon j n hj.1 hj.2]; simp

/-- **C36** rotation equivariance: any degree-wise linear action on the orders `m` of the signal acts the same way on all
its wavelet and scaling coefficients. -/
theorem C36_equivariance (hw : b.Works jm c J) {g : Px} {glm : Arr2 ℂ} {w' : List Px} {s' : Px} {W' : ℤ → Arr3 ℂ}
    {S' : Arr2 ℂ} (h : b.analysis jm c f = .ok (w, s)) (hc : b.Coeffs c J w s W S)
    (hf : (b.engine c).sphF f c.L = .ok flm) (h' : b.analysis jm c g = .ok (w', s')) (hc' : b.Coeffs c J w' s' W' S')
    (hg : (b.engine c).sphF g c.L = .ok glm) (D : ℤ → ℤ → ℤ → ℂ)
    (hD : ∀ l m, co2 glm l m = ∑ m' ∈ Finset.Ioo (-c.L) c.L, D l m m' * co2 flm l m') :
    (∀ j, c.J_min ≤ j → j ≤ J → ∀ n l m, co3 (W' j) n l m = ∑ m' ∈ Finset.Ioo (-c.L) c.L, D l m m' * co3 (W j) n l m') ∧
    (∀ l m, co2 S' l m = ∑ m' ∈ Finset.Ioo (-c.L) c.L, D l m m' * co2 S l m') := by
  obtain ⟨psi, phi, hflt⟩ := filters_exist hw.valid b
  obtain ⟨hW, hS⟩ := analysis_co hw hflt h hc hf
  obtain ⟨hW', hS'⟩ := analysis_co hw hflt h' hc' hg
  constructor
  · intro j h0 h1 n l m
    rw [hW' j h0 h1, hD, Finset.sum_mul, Finset.mul_sum]
    refine Finset.sum_congr rfl fun m' _ => ?_
    rw [hW j h0 h1]; ring
  · intro l m
    rw [hS', hD, Finset.mul_sum]
    refine Finset.sum_congr rfl fun m' _ => ?_
    rw [hS]; ring

/-- rotating by `γ` about the pole: `D = diag(exp(-i m γ))` -/
example (b : Backend) (hb : Toy.IsToy b) (γ : ℝ) : ∃ (f g : Px) (flm glm : Arr2 ℂ) (w w' : List Px) (s s' : Px) (W W' : ℤ → Arr3 ℂ) (S S' : Arr2 ℂ),
    (b.engine (exCfg false 0)).sphF f 3 = .ok flm ∧ co2 flm 1 0 = 1 ∧ (b.engine (exCfg false 0)).sphF g 3 = .ok glm ∧
    b.analysis j_max (exCfg false 0) f = .ok (w, s) ∧ b.Coeffs (exCfg false 0) 2 w s W S ∧
    b.analysis j_max (exCfg false 0) g = .ok (w', s') ∧ b.Coeffs (exCfg false 0) 2 w' s' W' S' ∧
    ∀ n l m, co3 (W' 1) n l m = Complex.exp (-Complex.I * m * γ) * co3 (W 1) n l m := by
  have hw := exCfg_works hb false 0
  obtain ⟨f, w, s, W, S, hf, h, hc⟩ := exRun hb false
  have hex := exFlm_bl
  have hbl : BL2 3 0 (Arr2.of 3 5 fun l i => Complex.exp (-Complex.I * ((i - 2 : ℤ) : ℂ) * γ) * exFlm.v l i) := by
    refine ⟨rfl, rfl, fun l m hlm => ?_⟩
    have := hex.zero l m hlm
    rw [co2, hex.r] at this
    rw [co2_of, this, mul_zero, ite_self]
  obtain ⟨g, -, hg⟩ := hw.exact.sph 3 _ (by norm_num) hbl (fun h => by cases h)
  obtain ⟨w', s', W', S', h', hc'⟩ := analysis_coeffs_exist hw hg
  have hco : ∀ l m, co2 (Arr2.of 3 5 fun l i => Complex.exp (-Complex.I * ((i - 2 : ℤ) : ℂ) * γ) * exFlm.v l i) l m =
      Complex.exp (-Complex.I * m * γ) * co2 exFlm l m := by
    intro l m
    rw [co2_of]
    have e : (3 - 1 + m - 2 : ℤ) = m := by ring
    split_ifs with hr
    · rw [e, co2, hex.r]
    · have z : co2 exFlm l m = 0 := exFlm.junk _ _ (by rw [hex.r, hex.c]; omega)
      rw [z, mul_zero]
  have hdiag : ∀ (x : ℤ → ℂ) (m : ℤ), (¬ (-3 < m ∧ m < 3) → x m = 0) →
      ∑ m' ∈ Finset.Ioo (-3 : ℤ) 3, (if m' = m then Complex.exp (-Complex.I * m * γ) else 0) * x m' =
      Complex.exp (-Complex.I * m * γ) * x m := by
    intro x m hx
    by_cases hm : m ∈ Finset.Ioo (-3 : ℤ) 3
    · rw [Finset.sum_eq_single m (fun m' _ hne => by rw [if_neg hne, zero_mul]) (fun h => absurd hm h), if_pos rfl]
    · rw [Finset.sum_eq_zero, hx (by rwa [Finset.mem_Ioo] at hm), mul_zero]
      intro m' hm'
      rw [if_neg (by rintro rfl; exact hm hm'), zero_mul]
  have := (C36_equivariance hw h hc hf h' hc' hg (fun l m m' => if m' = m then Complex.exp (-Complex.I * m * γ) else 0)
    (fun l m => by
      rw [hco]
      refine (hdiag (fun m => co2 exFlm l m) m fun hm => ?_).symm
      exact exFlm.junk _ _ (by rw [hex.r, hex.c]; omega))).1 1 (by norm_num [exCfg]) (by norm_num)
  refine ⟨f, g, _, _, w, w', s, s', W, W', S, S', hf, exFlm_co, hg, h, hc, h', hc', fun n l m => ?_⟩
  rw [this]
  refine hdiag (fun m => co3 (W 1) n l m) m fun hm => ?_
  by_contra hne
  have hk := C53_orders hw h hc (j := 1) (by norm_num [exCfg]) (by norm_num) hne
  have h3 : (exCfg false 0).L = 3 := rfl
  have := abs_le.1 hk.2.2.1
  omega

/-- **C52** the coefficients of a real signal have the symmetry of real maps. -/
theorem C52_real (hw : b.Works jm c J) (h : b.analysis jm c f = .ok (w, s)) (hc : b.Coeffs c J w s W S)
    (hf : (b.engine c).sphF f c.L = .ok flm) (hh : Herm2 flm) :
    (∀ j, c.J_min ≤ j → j ≤ J → Herm3 (W j)) ∧ Herm2 S := by
  obtain ⟨psi, phi, hflt⟩ := filters_exist hw.valid b
  obtain ⟨h1, h2⟩ := analysis_coeffs hw hflt h hc hf
  have hB := filters_built hflt
  have hbl := (hw.std.sph f c.L flm hf).1
  exact ⟨fun j a d => by rw [h1 j a d]; exact (wavCoeffs_bl hw.valid hB hbl b.mr j).2 hh,
    by rw [h2]; exact (scalCoeffs_bl hw.valid hB hbl b.mr).2 hh⟩

example (b : Backend) (hb : Toy.IsToy b) : ∃ (f : Px) (w : List Px) (s : Px) (W : ℤ → Arr3 ℂ) (S : Arr2 ℂ),
    b.analysis j_max (exCfg true 0) f = .ok (w, s) ∧ b.Coeffs (exCfg true 0) 2 w s W S ∧ Herm3 (W 0) ∧ Herm2 S := by
  obtain ⟨f, w, s, W, S, hf, h, hc⟩ := exRun hb true
  have := C52_real (exCfg_works hb true 0) h hc hf exFlm_herm
  exact ⟨f, w, s, W, S, h, hc, this.1 0 le_rfl (by norm_num), this.2⟩

/-- **C50** analysis loses nothing: signals with equal maps have equal harmonic coefficients at all degrees `l ≥ |spin|`,
for every backend, overshoot or not. -/
theorem C50_injective (hw : b.Works jm c J) {g : Px} {glm : Arr2 ℂ} (hf : (b.engine c).sphF f c.L = .ok flm)
    (hg : (b.engine c).sphF g c.L = .ok glm) (h : b.analysis jm c f = b.analysis jm c g) :
    ∀ l m, |c.spin| ≤ l → co2 flm l m = co2 glm l m := by
  obtain ⟨psi, phi, hflt⟩ := filters_exist hw.valid b
  obtain ⟨w, s, W, S, ha, hc⟩ := analysis_coeffs_exist hw hf
  obtain ⟨h1, h2⟩ := analysis_coeffs hw hflt ha hc hf
  obtain ⟨h1', h2'⟩ := analysis_coeffs hw hflt (h ▸ ha) hc hg
  have hB := filters_built hflt
  have hv := hw.valid
  have hbl := (hw.std.sph f c.L flm hf).1
  have hbl' := (hw.std.sph g c.L glm hg).1
  have hF := dir_fltTrunc hv.top hv.hN hB b.mr
  have hs := (dir_shape hv.top hv.hN hB).2.2.1
  have e1 := syn_ana (J := J) hF hs hbl.tri W fun j a d => by
    rw [h1 j a (by omega)]; exact (anaW_eq hF hbl.tri rfl).symm
  have e2 := syn_ana (J := J) hF hs hbl'.tri W fun j a d => by
    rw [h1' j a (by omega)]; exact (anaW_eq hF hbl'.tri rfl).symm
  have e3 : anaS c.L (scal_bandlimit c.L c.J_min c.lam b.mr) phi flm = anaS c.L (scal_bandlimit c.L c.J_min c.lam b.mr) phi glm := by
    rw [anaS_eq _ hbl.r, anaS_eq _ hbl'.r]
    exact h2.symm.trans h2'
  rw [e3, e2] at e1
  intro l m hl
  by_cases hr : 0 ≤ l ∧ l < c.L
  · have hG1 := (frameSum_bounds hv hflt hr.1 hr.2 hl).1.1
    have := congrArg (fun a => co2 a l m) e1
    simp only [degMul_co] at this
    refine (mul_left_cancel₀ ?_ this).symm
    have : frameSum c.J_min J c.L psi phi l ≠ 0 := by linarith
    exact_mod_cast this
  · unfold co2
    rw [flm.junk _ _ (by rw [hbl.r]; omega), glm.junk _ _ (by rw [hbl'.r]; omega)]

/-- a signal with the maps of `exFlm` has its coefficients -/
example (b : Backend) (hb : Toy.IsToy b) : ∃ f : Px, (b.engine (exCfg true 0)).sphF f 3 = .ok exFlm ∧
    ∀ g glm, (b.engine (exCfg true 0)).sphF g 3 = .ok glm → b.analysis j_max (exCfg true 0) f = b.analysis j_max (exCfg true 0) g →
      co2 glm 1 0 = 1 := by
  obtain ⟨f, w, s, W, S, hf, h, hc⟩ := exRun hb true
  exact ⟨f, hf, fun g glm hg he => by
    rw [← C50_injective (exCfg_works hb true 0) hf hg he 1 0 (by norm_num [exCfg]), exFlm_co]⟩

/-- **C38** the full-resolution and multiresolution transforms return the same harmonic coefficients, and the
multiresolution arrays are never larger. -/
theorem C38_multiresolution {b b' : Backend} (hb : b.mr = true) (hb' : b'.mr = false) (hfl : b.filters jm c = b'.filters jm c)
    (hw : b.Works jm c J) (hw' : b'.Works jm c J) {w' : List Px} {s' : Px} {W' : ℤ → Arr3 ℂ} {S' : Arr2 ℂ}
    (hf : (b.engine c).sphF f c.L = .ok flm) (hf' : (b'.engine c).sphF f c.L = .ok flm)
    (h : b.analysis jm c f = .ok (w, s)) (hc : b.Coeffs c J w s W S)
    (h' : b'.analysis jm c f = .ok (w', s')) (hc' : b'.Coeffs c J w' s' W' S') :
    (∀ j, c.J_min ≤ j → j ≤ J → (∀ n l m, co3 (W j) n l m = co3 (W' j) n l m) ∧
      (W j).d ≤ (W' j).d ∧ (W j).r ≤ (W' j).r ∧ (W j).c ≤ (W' j).c) ∧
    (∀ l m, co2 S l m = co2 S' l m) ∧ S.r ≤ S'.r ∧ S.c ≤ S'.c := by
  obtain ⟨psi, phi, hflt⟩ := filters_exist hw.valid b
  have hflt' := hflt
  rw [hfl] at hflt'
  obtain ⟨hW, hS⟩ := analysis_co hw hflt h hc hf
  obtain ⟨hW', hS'⟩ := analysis_co hw' hflt' h' hc' hf'
  obtain ⟨hX, hY⟩ := analysis_coeffs hw hflt h hc hf
  obtain ⟨hX', hY'⟩ := analysis_coeffs hw' hflt' h' hc' hf'
  have hv := hw.valid
  have hL : ∀ j, c.Lj true j ≤ c.Lj false j := fun j => (hv.Lj_pos true j).2.2.2.1
  have hLs : c.Ls true ≤ c.Ls false := (hv.Ls_pos true).2
  have hN : ∀ j, c.Nj true j ≤ c.Nj false j := fun j => by
    unfold Cfg.Nj LN_j
    dsimp only
    simp only [if_true, Bool.false_eq_true, if_false]
    omega
  refine ⟨fun j a d => ⟨fun n l m => by rw [hW j a d, hW' j a d], ?_⟩, fun l m => by rw [hS, hS'], ?_⟩
  · rw [hX j a d, hX' j a d, hb, hb']
    have := hL j
    have := hN j
    refine ⟨?_, ?_, ?_⟩
    · show 2 * c.Nj true j - 1 ≤ 2 * c.Nj false j - 1
      omega
    · exact hL j
    · show 2 * c.Lj true j - 1 ≤ 2 * c.Lj false j - 1
      omega
  · rw [hY, hY', hb, hb']
    refine ⟨hLs, ?_⟩
    show 2 * c.Ls true - 1 ≤ 2 * c.Ls false - 1
    omega

example : ∃ (f : Px) (w w' : List Px) (s s' : Px) (W W' : ℤ → Arr3 ℂ) (S S' : Arr2 ℂ),
    Base.analysis j_max Toy.base f 3 2 0 2 0 0 "mw" none true true false = .ok (w, s) ∧
    (Backend.base Toy.base true).Coeffs (exCfg true 0) 2 w s W S ∧
    Base.analysis j_max Toy.base f 3 2 0 2 0 0 "mw" none true false false = .ok (w', s') ∧
    (Backend.base Toy.base false).Coeffs (exCfg true 0) 2 w' s' W' S' ∧
    ∀ n l m, co3 (W 0) n l m = co3 (W' 0) n l m := by
  have hw := exCfg_works (b := .base Toy.base true) (Or.inl ⟨true, rfl⟩) true 0
  have hw' := exCfg_works (b := .base Toy.base false) (Or.inl ⟨false, rfl⟩) true 0
  obtain ⟨f, w, s, W, S, hf, h, hc⟩ := exRun (b := .base Toy.base true) (Or.inl ⟨true, rfl⟩) true
  obtain ⟨w', s', W', S', h', hc'⟩ := analysis_coeffs_exist hw' (show ((Backend.base Toy.base false).engine _).sphF f 3 = _ from hf)
  exact ⟨f, w, w', s, s', W, W', S, S', h, hc, h', hc',
    ((C38_multiresolution (b := .base Toy.base true) (b' := .base Toy.base false) rfl rfl rfl hw hw' hf hf h hc h' hc').1 0 le_rfl (by norm_num)).1⟩

/-- **C39** a different estimate `J'` of the top scale changes nothing in the transforms: with `J ≤ J'` the scales up to `J` and the
scaling coefficients are the same, the extra scales are identically zero. -/
theorem C39_extra_scales (hb : b.isLooped = false) {jm' : JMax} {J' : ℤ} (hw : b.Works jm c J) (hw' : b.Works jm' c J') (hJ : J ≤ J')
    {w' : List Px} {s' : Px} {W' : ℤ → Arr3 ℂ} {S' : Arr2 ℂ} (h : b.analysis jm c f = .ok (w, s))
    (hc : b.Coeffs c J w s W S) (h' : b.analysis jm' c f = .ok (w', s')) (hc' : b.Coeffs c J' w' s' W' S') :
    (∀ j, c.J_min ≤ j → j ≤ J → W' j = W j) ∧ S' = S ∧
    (∀ j, J < j → j ≤ J' → ∀ n l m, co3 (W' j) n l m = 0) := by
  have hv := hw.valid
  have hfl : ∀ jm, b.filters jm c = filters_directional_vectorised jm c.L c.N c.J_min c.lam c.spin 0 := by
    intro jm
    cases b
    case looped => cases hb
    all_goals rfl
  obtain ⟨psi, psi', phi, h1, h2, -, -, h3, h4, -⟩ := C39_top_scale hv.top.hL hv.hN hv.top.hlam hv.top.hJ
    (by linarith [hv.top.hLJ]) hw'.valid.top.hJ hJ hv.h0 hv.h1 c.spin
  rw [← hfl] at h1 h2
  obtain ⟨flm, hf, -⟩ := analysis_input hw h
  obtain ⟨hX, hY⟩ := analysis_coeffs hw h1 h hc hf
  obtain ⟨hX', hY'⟩ := analysis_coeffs hw' h2 h' hc' hf
  obtain ⟨hW', -⟩ := analysis_co hw' h2 h' hc' hf
  refine ⟨fun j a d => ?_, by rw [hY, hY'], fun j a d n l m => ?_⟩
  · rw [hX j a d, hX' j a (by omega)]
    simp only [h3 j _ _ d]
  · have := hv.h1
    rw [hW' j (by omega) d, h4 j _ _ a]; simp

/-- `j_max` estimated as 3 instead of 2 -/
example : ∃ (f : Px) (w w' : List Px) (s s' : Px) (W W' : ℤ → Arr3 ℂ) (S S' : Arr2 ℂ),
    (Backend.jax Toy.jax).analysis j_max (exCfg true 0) f = .ok (w, s) ∧
    (Backend.jax Toy.jax).Coeffs (exCfg true 0) 2 w s W S ∧
    (Backend.jax Toy.jax).analysis (fun _ _ => .ok 3) (exCfg true 0) f = .ok (w', s') ∧
    (Backend.jax Toy.jax).Coeffs (exCfg true 0) 3 w' s' W' S' ∧ w'.length = w.length + 1 ∧
    W' 2 = W 2 ∧ ∀ n l m, co3 (W' 3) n l m = 0 := by
  have ht : Toy.IsToy (.jax Toy.jax) := Or.inr (Or.inr (Or.inl rfl))
  have hw := exCfg_works ht true 0
  have hv' : (exCfg true 0).Valid (fun _ _ => .ok 3) 3 :=
    ⟨⟨hw.valid.top.hL, hw.valid.top.hlam, rfl, by norm_num, by norm_num [exCfg]⟩, hw.valid.hN, hw.valid.hNL, hw.valid.h0,
      by norm_num [exCfg]⟩
  have hg' := Toy.good hv' rfl ht
  have hw' : (Backend.jax Toy.jax).Works (fun _ _ => .ok 3) (exCfg true 0) 3 := ⟨hv', hg'.ready, hg'.std, hg'.exact, hg'.trip⟩
  obtain ⟨f, w, s, W, S, hf, h, hc⟩ := exRun ht true
  obtain ⟨w', s', W', S', h', hc'⟩ := analysis_coeffs_exist hw' hf
  have := C39_extra_scales rfl hw hw' (by norm_num) h hc h' hc'
  have l1 := hc.len
  have l2 := hc'.len
  exact ⟨f, w, w', s, s', W, W', S, S', h, hc, h', hc', by omega, this.1 2 (by norm_num [exCfg]) le_rfl,
    this.2.2 3 (by norm_num) le_rfl⟩

/-- **C49** analysis after synthesis is a projection: the maps obtained from any synthesised signal are synthesised to the
same signal again (no overshoot; real maps are required to have real coefficients). -/
theorem C49_projection (hw : b.Works jm c J) {k : Arr2 ℝ} (hk : k_lam jm c.L c.lam 300 = .ok k) (hno : NoOvershoot k)
    (hH : c.reality = true → ∀ p L N L0 t, (b.engine c).wigF p L N L0 = .ok t → Herm3 t)
    (h : b.synthesis jm c w s = .ok f) :
    ∃ w' s', b.analysis jm c f = .ok (w', s') ∧ b.synthesis jm c w' s' = .ok f := by
  obtain ⟨psi, phi, hflt⟩ := filters_exist hw.valid b
  have hv := hw.valid
  rw [b.synthesis_formula hv hw.ready hw.std (fun a d => hw.trip.nonneg a d) hflt] at h
  obtain ⟨-, -, h⟩ := Py.bind_eq_ok.1 h
  obtain ⟨S, hS, h⟩ := Py.bind_eq_ok.1 h
  obtain ⟨W, hW, h⟩ := Py.bind_eq_ok.1 h
  have hS' := hw.std.sph _ _ _ hS
  have hW' : ∀ j, c.J_min ≤ j → j ≤ J → BL3 (c.Lj b.mr j) (c.Nj b.mr j) 0 (nth z3 c.J_min W j) ∧
      (c.reality = true → Herm3 (nth z3 c.J_min W j)) := fun j h0 h1 => by
    obtain ⟨x, hx, hm⟩ := mapM_get hW h0 (show j < J + 1 by omega)
    obtain ⟨fw, -, hm⟩ := Py.bind_eq_ok.1 hm
    rw [nth_eq h0 hx]
    exact ⟨hw.std.wig _ _ _ _ _ hm, fun hr => hH hr _ _ _ _ _ hm⟩
  obtain ⟨hco, hbl⟩ := synCoeffs_co hv hflt hS'.1 fun j h0 h1 => (hW' j h0 h1).1
  refine C24_reconstruction hv b hw.ready hw.std hw.exact hw.trip hk hno hbl (fun hr => ?_) h
  have hsym := dir_fltSym hv.top hv.hN (filters_built hflt)
  intro l m
  rw [hco, hco, hS'.2 hr l m, map_add, mul_add, map_mul, Complex.conj_ofReal, map_sum, Finset.mul_sum]
  congr 1
  · refine Finset.sum_congr rfl fun j hj => ?_
    rw [Finset.mem_Icc] at hj
    rw [map_sum, Finset.mul_sum]
    refine Finset.sum_bij (fun n _ => -n) ?_ ?_ ?_ ?_
    · intro n hn; rw [Finset.mem_Ioo] at hn ⊢; omega
    · intro a _ d _ he; omega
    · intro n hn; rw [Finset.mem_Ioo] at hn
      exact ⟨-n, by rw [Finset.mem_Ioo]; omega, by ring⟩
    · intro n _
      have h1 := (hW' j hj.1 hj.2).2 hr (-n) l m
      have h2 := hsym j l n
      rw [neg_neg] at h1
      rw [h1, ← sub_eq_add_neg, h2]
      simp only [map_mul, Complex.conj_conj, map_zpow₀, map_neg, map_one]
      rw [zpow_add₀ (by norm_num), Toy.neg_one_zpow_neg]
      have := Toy.neg_one_zpow_mul_self n
      ring
  · ring

/-- maps that are not the analysis of any signal: only the coefficient `n = l = 1`, `m = 0` of scale 0 -/
example : ∃ (w : List Px) (s f : Px) (w' : List Px) (s' : Px),
    (Backend.jax Toy.jax).synthesis j_max (exCfg false 0) w s = .ok f ∧
    (Backend.jax Toy.jax).analysis j_max (exCfg false 0) f = .ok (w', s') ∧
    (Backend.jax Toy.jax).synthesis j_max (exCfg false 0) w' s' = .ok f := by
  have ht : Toy.IsToy (.jax Toy.jax) := Or.inr (Or.inr (Or.inl rfl))
  have hw := exCfg_works ht false 0
  obtain ⟨psi, phi, hflt⟩ := filters_exist hw.valid (.jax Toy.jax)
  obtain ⟨k, hk, hno⟩ := noOvershoot_3_2
  let p : Px := ⟨[3, 2, 3], fun i => if i = [2, 1, 1] then 1 else 0⟩
  have hs : ∃ f, (Backend.jax Toy.jax).synthesis j_max (exCfg false 0) [p, p, p] p = .ok f := by
    rw [Backend.synthesis_formula hw.valid (.jax Toy.jax) hw.ready hw.std (fun h => by cases h) hflt]
    obtain ⟨W, hW⟩ := mapM_all_ok (a := 0) (b := 2 + 1) (m := fun j => do
      let fw ← listGet [p, p, p] (j - 0)
      ((Backend.jax Toy.jax).engine (exCfg false 0)).wigF fw ((exCfg false 0).Lj true j) ((exCfg false 0).Nj true j)
        ((exCfg false 0).L0 true j)) fun j h0 h1 => by
          have : listGet [p, p, p] (j - 0) = .ok p := by interval_cases j <;> rfl
          simp only [this, Py.bind_ok]
          exact ⟨_, rfl⟩
    have hc : (Backend.jax Toy.jax).check j_max (exCfg false 0) [p, p, p] p = .ok () := rfl
    have hS : ∃ S, ((Backend.jax Toy.jax).engine (exCfg false 0)).sphF ((Backend.jax Toy.jax).fscal (exCfg false 0) p)
      ((exCfg false 0).Ls (Backend.jax Toy.jax).mr) = .ok S := ⟨_, rfl⟩
    obtain ⟨S, hS⟩ := hS
    rw [hc, Py.bind_ok, hS, Py.bind_ok]
    exact ⟨_, (congrArg (fun x => x >>= _) hW).trans rfl⟩
  obtain ⟨f, hf⟩ := hs
  obtain ⟨w', s', h1, h2⟩ := C49_projection hw hk hno (fun h => by cases h) hf
  exact ⟨_, _, f, w', s', hf, h1, h2⟩

end

end S2wav
