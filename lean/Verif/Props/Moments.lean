import Verif.Props.RealImage

/-! # Adjoint, kernel and means as integrals -/

namespace S2wav
open Classical Sphere

variable {jm : JMax} {c : Cfg} {J : ℤ} {b : Backend} {f s : Px} {w : List Px} {psi : Arr3 ℂ} {phi : Arr1 ℝ}

/-! ## Adjoint -/

theorem rotInt_adjoint {s L Lj Nj : ℤ} (hLj : Lj ≤ L) (hNj : Nj ≤ L) (W : ℤ → ℤ → ℤ → ℂ) {psi : ℤ → ℤ → ℂ}
    (hpsi : ∀ l n, psi l n ≠ 0 → l < Lj ∧ |n| < Nj ∧ |s| ≤ l) (a : ℤ → ℤ → ℂ) :
    rotInt (fun α β γ => wseries Lj Nj W α β γ * (starRingEnd ℂ) (directional L a psi α β γ)) =
      ∑ l ∈ Finset.Ico |s| L, ∑ m ∈ Finset.Icc (-l) l, (∑ n ∈ Finset.Icc (-l) l, psi l n * W n l m) * (starRingEnd ℂ) (a l m) := by
  simp only [wseries_wsum hLj hNj, directional_wsum]
  rw [rotInt_wsum, ← Finset.sum_subset (Finset.Ico_subset_Ico_left (abs_nonneg s))]
  · refine Finset.sum_congr rfl fun l hl => Finset.sum_congr rfl fun m _ => ?_
    rw [Finset.sum_mul]
    refine Finset.sum_congr rfl fun n _ => ?_
    rw [map_mul, Complex.conj_conj]
    by_cases hp : psi l n = 0
    · rw [hp]; simp
    · rw [if_pos ⟨(hpsi l n hp).1, (hpsi l n hp).2.1⟩]
      have hl0 : (0 : ℝ) ≤ l := by exact_mod_cast (abs_nonneg s).trans (Finset.mem_Ico.1 hl).1
      have hpi := Real.pi_pos
      have h1 : 8 * Real.pi ^ 2 / (2 * l + 1) * ((2 * (l : ℝ) + 1) / (8 * Real.pi ^ 2)) = 1 := by field_simp
      have h1' : ((8 * Real.pi ^ 2 / (2 * l + 1) : ℝ) : ℂ) * (((2 * (l : ℝ) + 1) / (8 * Real.pi ^ 2) : ℝ) : ℂ) = 1 := by
        rw [← Complex.ofReal_mul, h1, Complex.ofReal_one]
      linear_combination (W n l m * psi l n * (starRingEnd ℂ) (a l m)) * h1'
  · intro l hl hl'
    refine Finset.sum_eq_zero fun m _ => Finset.sum_eq_zero fun n _ => ?_
    rw [Finset.mem_Ico] at hl hl'
    have : psi l n = 0 := by
      by_contra h
      have := (hpsi l n h).2.2
      omega
    simp [this]

theorem series_extend {s L Ls : ℤ} (hLs : Ls ≤ L) (S : ℤ → ℤ → ℂ) (θ φ : ℝ) :
    series s Ls S θ φ = series s L (fun l m => if l < Ls then S l m else 0) θ φ := by
  unfold series
  rw [← Finset.sum_subset (Finset.Ico_subset_Ico_right hLs) (f := fun l => ∑ m ∈ Finset.Icc (-l) l, _ * sY s l m θ φ)]
  · refine Finset.sum_congr rfl fun l hl => Finset.sum_congr rfl fun m _ => ?_
    rw [if_pos (Finset.mem_Ico.1 hl).2]
  · intro l hl hl'
    rw [Finset.mem_Ico] at hl hl'
    refine Finset.sum_eq_zero fun m _ => ?_
    rw [if_neg (by omega), zero_mul]

theorem sphInt_adjoint {s L Ls : ℤ} (hLs : Ls ≤ L) (S : ℤ → ℤ → ℂ) {phi : ℤ → ℝ} (hphi : ∀ l, phi l ≠ 0 → l < Ls) (a : ℤ → ℤ → ℂ) :
    sphInt (fun θ φ => series s Ls S θ φ * (starRingEnd ℂ) (smoothed s L phi a θ φ)) =
      ∑ l ∈ Finset.Ico |s| L, ∑ m ∈ Finset.Icc (-l) l, (((Real.sqrt (4 * Real.pi / (2 * l + 1)) * phi l : ℝ) : ℂ) * S l m) *
        (starRingEnd ℂ) (a l m) := by
  unfold smoothed
  simp only [series_extend hLs S]
  rw [sphInt_series]
  refine Finset.sum_congr rfl fun l _ => Finset.sum_congr rfl fun m _ => ?_
  rw [map_mul, Complex.conj_ofReal]
  by_cases hp : phi l = 0
  · simp [hp]
  · rw [if_pos (hphi l hp)]; ring

/-- inner products with the maps of a signal are inner products of the synthesised signal with it -/
theorem adjoint_fun (hv : c.Valid jm J) (hflt : b.filters jm c = .ok (psi, phi)) (W : ℤ → ℤ → ℤ → ℤ → ℂ) (S a : ℤ → ℤ → ℂ) :
    (∑ j ∈ Finset.Icc c.J_min J, rotInt fun α β γ => wseries (c.Lj b.mr j) (c.Nj b.mr j) (W j) α β γ *
        (starRingEnd ℂ) (directional c.L a (fun l n => psi.v j l (c.L - 1 + n)) α β γ)) +
      sphInt (fun θ φ => series (spinOf b c) (c.Ls b.mr) S θ φ * (starRingEnd ℂ) (smoothed (spinOf b c) c.L phi.v a θ φ)) =
    sphInt fun θ φ => series (spinOf b c) c.L (synF c.L c.J_min J (fun j l n => psi.v j l (c.L - 1 + n)) phi.v W S) θ φ *
      (starRingEnd ℂ) (series (spinOf b c) c.L a θ φ) := by
  have hFl := filters_ok hv hflt b.mr
  rw [sphInt_adjoint (hv.Ls_pos b.mr).2 S fun l h => (hFl.scal l h).1, sphInt_series]
  have e := fun j => rotInt_adjoint (hv.Lj_pos b.mr j).2.2.2.1 (hv.Lj_pos b.mr j).2.2.2.2 (W j) (s := spinOf b c)
    (psi := fun l m => psi.v j l (c.L - 1 + m)) (fun l n h => ⟨(hFl.wav j l n h).2.1, (hFl.wav j l n h).2.2.1,
      (abs_spinOf b c).trans (hFl.wav j l n h).2.2.2.2.2⟩) a
  simp only [e]
  unfold synF
  rw [Finset.sum_comm, ← Finset.sum_add_distrib]
  refine Finset.sum_congr rfl fun l _ => ?_
  rw [Finset.sum_comm, ← Finset.sum_add_distrib]
  refine Finset.sum_congr rfl fun m _ => ?_
  rw [← Finset.sum_mul]; ring

/-- **C90** synthesis is the adjoint of analysis for the integrals over the sphere and the rotation group: for any maps, and any
signal with maps `W'_j`, `S'`, `Σ_j ∫ W_j W'_j* + ∫ S S'* = ∫ (synthesised signal) (signal)*` -/
theorem C90_adjoint (hb : IsSphere b) (hv : c.Valid jm J) (hs : SamplingOk b c) {W : ℤ → ℤ → ℤ → ℤ → ℂ} {S a : ℤ → ℤ → ℂ}
    (hr : c.reality = true → c.spin = 0 ∧ RealPx f ∧ RealPx s ∧ ∀ p ∈ w, RealPx p) (hm : Maps b c J w s W S)
    {g : Grid} (hg : gridOf c.sampling c.L = .ok g) (hf : Samples g (series (spinOf b c) c.L a) f) :
    ∃ w' s' r, ∃ W' : ℤ → ℤ → ℤ → ℤ → ℂ, ∃ S' R : ℤ → ℤ → ℂ, b.analysis jm c f = .ok (w', s') ∧ Maps b c J w' s' W' S' ∧
      b.synthesis jm c w s = .ok r ∧ Samples g (series (spinOf b c) c.L R) r ∧
      (∑ j ∈ Finset.Icc c.J_min J, rotInt fun α β γ => wseries (c.Lj b.mr j) (c.Nj b.mr j) (W j) α β γ *
          (starRingEnd ℂ) (wseries (c.Lj b.mr j) (c.Nj b.mr j) (W' j) α β γ)) +
        sphInt (fun θ φ => series (spinOf b c) (c.Ls b.mr) S θ φ * (starRingEnd ℂ) (series (spinOf b c) (c.Ls b.mr) S' θ φ)) =
      sphInt fun θ φ => series (spinOf b c) c.L R θ φ * (starRingEnd ℂ) (series (spinOf b c) c.L a θ φ) := by
  obtain ⟨psi, phi, hflt⟩ := filters_exist hv b
  obtain ⟨w', s', h1, h2, h3, gs, h4, h5, -⟩ := C89_maps hb hv hs hflt (fun h => ⟨(hr h).1, (hr h).2.1⟩) hg hf
  obtain ⟨r, h6, h7, -⟩ := C89_coefficients hb hv hs hflt (fun h => ⟨(hr h).1, (hr h).2.2⟩) hm hg
  have hcut := smoothed_cut hv hflt a
  refine ⟨w', s', r, fun j n l m => ((8 * Real.pi ^ 2 / (2 * l + 1) : ℝ) : ℂ) * (a l m * (starRingEnd ℂ) (psi.v j l (c.L - 1 + n))),
    fun l m => ((Real.sqrt (4 * Real.pi / (2 * l + 1)) * phi.v l : ℝ) : ℂ) * a l m, _, h1, ⟨h2, fun j hj hJ => ?_, gs, h4, ?_⟩, h6, h7, ?_⟩
  · obtain ⟨p, gj, a1, a2, a3, -⟩ := h3 j hj hJ
    exact ⟨p, gj, a1, a2, by rw [wseries_map hv hflt]; exact a3⟩
  · rw [← hcut]; exact h5
  · rw [← adjoint_fun hv hflt W S a]
    simp only [wseries_map hv hflt]
    rw [hcut]

theorem inner_comm (s L : ℤ) (a a' : ℤ → ℤ → ℂ) :
    (starRingEnd ℂ) (sphInt fun θ φ => series s L a θ φ * (starRingEnd ℂ) (series s L a' θ φ)) =
      sphInt fun θ φ => series s L a' θ φ * (starRingEnd ℂ) (series s L a θ φ) := by
  rw [sphInt_series, sphInt_series]
  simp only [map_sum]
  refine Finset.sum_congr rfl fun l _ => Finset.sum_congr rfl fun m _ => ?_
  rw [map_mul, Complex.conj_conj, mul_comm]

/-- the inner product of a synthesised signal with any signal -/
theorem kernel_fun (hv : c.Valid jm J) (hflt : b.filters jm c = .ok (psi, phi)) (W : ℤ → ℤ → ℤ → ℤ → ℂ) (S : ℤ → ℤ → ℂ)
    {P : ℤ → ℝ → ℝ → ℝ → ℝ → ℝ → ℂ} {Q : ℝ → ℝ → ℝ → ℝ → ℂ}
    (hP : ∀ j α β γ, Rotated (spinOf b c) (euler α β γ) (series (spinOf b c) c.L fun l m => psi.v j l (c.L - 1 + m)) (P j α β γ))
    (hQ : ∀ θ' φ', Rotated (spinOf b c) (euler φ' θ' 0) (series (spinOf b c) c.L (scalF (spinOf b c) phi.v)) (Q θ' φ'))
    {F : ℝ → ℝ → ℂ} {a : ℤ → ℤ → ℂ} (hF : F = series (spinOf b c) c.L a) :
    (sphInt fun θ φ => series (spinOf b c) c.L (synF c.L c.J_min J (fun j l n => psi.v j l (c.L - 1 + n)) phi.v W S) θ φ * (starRingEnd ℂ) (F θ φ)) =
      (∑ i ∈ Finset.Icc c.J_min J, rotInt fun α' β' γ' => wseries (c.Lj b.mr i) (c.Nj b.mr i) (W i) α' β' γ' *
        sphInt fun θ φ => P i α' β' γ' θ φ * (starRingEnd ℂ) (F θ φ)) +
      sphInt fun θ' φ' => series (spinOf b c) (c.Ls b.mr) S θ' φ' * sphInt fun θ φ => Q θ' φ' θ φ * (starRingEnd ℂ) (F θ φ) := by
  have hFl := filters_ok hv hflt b.mr
  rw [hF, ← adjoint_fun hv hflt]
  have e1 : ∀ i α β γ, (starRingEnd ℂ) (directional c.L a (fun l n => psi.v i l (c.L - 1 + n)) α β γ) =
      sphInt fun θ φ => P i α β γ θ φ * (starRingEnd ℂ) (series (spinOf b c) c.L a θ φ) := by
    intro i α β γ
    rw [directional_rotated a (fun l n h => (abs_spinOf b c).trans (hFl.wav i l n h).2.2.2.2.2) (hP i α β γ),
      (hP i α β γ).series (euler_SU α β γ), inner_comm]
  have e2 : ∀ θ' φ', (starRingEnd ℂ) (smoothed (spinOf b c) c.L phi.v a θ' φ') =
      sphInt fun θ φ => Q θ' φ' θ φ * (starRingEnd ℂ) (series (spinOf b c) c.L a θ φ) := by
    intro θ' φ'
    rw [smoothed_directional, directional_rotated a (fun l n h => ?_) (hQ θ' φ'), (hQ θ' φ').series (euler_SU φ' θ' 0), inner_comm]
    by_contra h'
    exact h (if_neg fun h'' => h' h''.2)
  simp only [e1, e2]

/-- **C90** analysis of a synthesised signal: the maps are carried over by the inner products of the rotated wavelets (and scaling
functions) with each other -/
theorem C90_kernel (hb : IsSphere b) (hv : c.Valid jm J) (hs : SamplingOk b c) (hflt : b.filters jm c = .ok (psi, phi))
    {W : ℤ → ℤ → ℤ → ℤ → ℂ} {S : ℤ → ℤ → ℂ} (hr : c.reality = true → c.spin = 0 ∧ RealPx s ∧ ∀ p ∈ w, RealPx p)
    (hm : Maps b c J w s W S) {P : ℤ → ℝ → ℝ → ℝ → ℝ → ℝ → ℂ} {Q : ℝ → ℝ → ℝ → ℝ → ℂ}
    (hP : ∀ j α β γ, Rotated (spinOf b c) (euler α β γ) (series (spinOf b c) c.L fun l m => psi.v j l (c.L - 1 + m)) (P j α β γ))
    (hQ : ∀ θ' φ', Rotated (spinOf b c) (euler φ' θ' 0) (series (spinOf b c) c.L (scalF (spinOf b c) phi.v)) (Q θ' φ')) :
    ∃ r w' s', b.synthesis jm c w s = .ok r ∧ b.analysis jm c r = .ok (w', s') ∧
      (∀ j, c.J_min ≤ j → j ≤ J → ∃ p gj, listGet w' (j - c.J_min) = .ok p ∧ gridOf c.sampling (c.Lj b.mr j) = .ok gj ∧
        Samples3 gj (c.Nj b.mr j) (fun α β γ =>
          (∑ i ∈ Finset.Icc c.J_min J, rotInt fun α' β' γ' => wseries (c.Lj b.mr i) (c.Nj b.mr i) (W i) α' β' γ' *
            sphInt fun θ φ => P i α' β' γ' θ φ * (starRingEnd ℂ) (P j α β γ θ φ)) +
          sphInt fun θ' φ' => series (spinOf b c) (c.Ls b.mr) S θ' φ' * sphInt fun θ φ => Q θ' φ' θ φ * (starRingEnd ℂ) (P j α β γ θ φ)) p) ∧
      ∃ gs, gridOf c.sampling (c.Ls b.mr) = .ok gs ∧ Samples gs (fun θ'' φ'' =>
          (∑ i ∈ Finset.Icc c.J_min J, rotInt fun α' β' γ' => wseries (c.Lj b.mr i) (c.Nj b.mr i) (W i) α' β' γ' *
            sphInt fun θ φ => P i α' β' γ' θ φ * (starRingEnd ℂ) (Q θ'' φ'' θ φ)) +
          sphInt fun θ' φ' => series (spinOf b c) (c.Ls b.mr) S θ' φ' * sphInt fun θ φ => Q θ' φ' θ φ * (starRingEnd ℂ) (Q θ'' φ'' θ φ)) s' := by
  have hFl := filters_ok hv hflt b.mr
  obtain ⟨g, hg, -⟩ := hs.sampled c.L hv.top.hL
  obtain ⟨r, h1, h2, h3⟩ := C89_coefficients hb hv hs hflt hr hm hg
  obtain ⟨w', s', h4, -, h6, gs, h7, h8, -⟩ := C89_maps hb hv hs hflt (fun h => ⟨(hr h).1, h3 h⟩) hg h2
  refine ⟨r, w', s', h1, h4, fun j hj hJ => ?_, gs, h7, h8.1, fun t ht x hx => ?_⟩
  · obtain ⟨p, gj, a1, a2, a3, -⟩ := h6 j hj hJ
    refine ⟨p, gj, a1, a2, a3.1, fun y hy t ht x hx => ?_⟩
    rw [a3.2 y hy t ht x hx, directional_rotated _ (fun l n h => (abs_spinOf b c).trans (hFl.wav j l n h).2.2.2.2.2) (hP j _ _ _)]
    exact kernel_fun hv hflt W S hP hQ ((hP j _ _ _).series (euler_SU _ _ _))
  · rw [h8.2 t ht x hx, smoothed_directional, directional_rotated _ (fun l n h => ?_) (hQ _ _)]
    · exact kernel_fun hv hflt W S hP hQ ((hQ _ _).series (euler_SU _ _ _))
    · by_contra h'
      exact h (if_neg fun h'' => h' h''.2)

/-! ## Means -/

theorem wD_zero (α β γ : ℝ) : wD 0 0 0 α β γ = 1 := by
  have : wignerd 0 0 0 β = 1 := by simp [wignerd, wwt, fac]
  simp [wD, this, cis_zero]

theorem rotInt_wseries {L N : ℤ} (hL : 1 ≤ L) (hN : 1 ≤ N) (W : ℤ → ℤ → ℤ → ℂ) : rotInt (wseries L N W) = W 0 0 0 := by
  set M := max L N
  have e : ∀ α β γ, wsum M (fun l m n => if l = 0 then 1 else 0) α β γ = 1 := by
    intro α β γ
    unfold wsum
    rw [Finset.sum_eq_single 0]
    · simp [wD_zero]
    · intro l _ hl
      exact Finset.sum_eq_zero fun m _ => Finset.sum_eq_zero fun n _ => by simp [hl]
    · intro h; exact absurd (Finset.mem_Ico.2 ⟨le_rfl, by omega⟩) h
  have h := rotInt_wsum M (fun l m n => if l < L ∧ |n| < N then (((2 * l + 1) / (8 * Real.pi ^ 2) : ℝ) : ℂ) * W n l m else 0) fun l m n => if l = 0 then 1 else 0
  simp only [e, map_one, mul_one] at h
  have h' : wseries L N W = fun α β γ => wsum M (fun l m n => if l < L ∧ |n| < N then (((2 * l + 1) / (8 * Real.pi ^ 2) : ℝ) : ℂ) * W n l m else 0) α β γ := by
    ext α β γ
    exact wseries_wsum (le_max_left L N) (le_max_right L N) W α β γ
  rw [h', h, Finset.sum_eq_single 0]
  · have hpi := Real.pi_ne_zero
    rw [show Finset.Icc (-(0 : ℤ)) 0 = {0} by rfl, Finset.sum_singleton, Finset.sum_singleton, if_pos ⟨by omega, by rw [abs_zero]; omega⟩]
    have h1 : 8 * Real.pi ^ 2 / (2 * ((0 : ℤ) : ℝ) + 1) * ((2 * ((0 : ℤ) : ℝ) + 1) / (8 * Real.pi ^ 2)) = 1 := by
      push_cast; field_simp
    have h1' : ((8 * Real.pi ^ 2 / (2 * ((0 : ℤ) : ℝ) + 1) : ℝ) : ℂ) * (((2 * ((0 : ℤ) : ℝ) + 1) / (8 * Real.pi ^ 2) : ℝ) : ℂ) = 1 := by
      rw [← Complex.ofReal_mul, h1, Complex.ofReal_one]
    rw [if_pos rfl, map_one]
    linear_combination W 0 0 0 * h1'
  · intro l _ hl
    exact Finset.sum_eq_zero fun m _ => Finset.sum_eq_zero fun n _ => by simp [hl]
  · intro h; exact absurd (Finset.mem_Ico.2 ⟨le_rfl, by omega⟩) h

theorem sphInt_mean {L : ℤ} (hL : 1 ≤ L) (a : ℤ → ℤ → ℂ) : sphInt (series 0 L a) = ((Real.sqrt (4 * Real.pi) : ℝ) : ℂ) * a 0 0 := by
  have hpi := Real.pi_pos
  have e : ∀ θ φ, series 0 L (fun l m => if l = 0 then ((Real.sqrt (4 * Real.pi) : ℝ) : ℂ) else 0) θ φ = 1 := by
    intro θ φ
    unfold series
    rw [abs_zero, Finset.sum_eq_single 0]
    · have : wignerd 0 0 0 θ = 1 := by simp [wignerd, wwt, fac]
      rw [show Finset.Icc (-(0 : ℤ)) 0 = {0} by rfl, Finset.sum_singleton]
      beta_reduce
      rw [if_pos rfl, sY, neg_zero, this]
      have h1 : Real.sqrt (4 * Real.pi) * Real.sqrt ((2 * ((0 : ℤ) : ℝ) + 1) / (4 * Real.pi)) = 1 := by
        rw [← Real.sqrt_mul (by positivity), show 4 * Real.pi * ((2 * ((0 : ℤ) : ℝ) + 1) / (4 * Real.pi)) = 1 by push_cast; field_simp; ring, Real.sqrt_one]
      have h1' : ((Real.sqrt (4 * Real.pi) : ℝ) : ℂ) * ((Real.sqrt ((2 * ((0 : ℤ) : ℝ) + 1) / (4 * Real.pi)) : ℝ) : ℂ) = 1 := by
        rw [← Complex.ofReal_mul, h1, Complex.ofReal_one]
      simp only [zpow_zero, one_mul, mul_one, Int.cast_zero, zero_mul, cis_zero]
      convert h1' using 3
      push_cast; rfl
    · intro l _ hl
      exact Finset.sum_eq_zero fun m _ => by simp [hl]
    · intro h; exact absurd (Finset.mem_Ico.2 ⟨le_rfl, by omega⟩) h
  have h := sphInt_series 0 L a fun l m => if l = 0 then ((Real.sqrt (4 * Real.pi) : ℝ) : ℂ) else 0
  simp only [e, map_one, mul_one] at h
  have h' : sphInt (series 0 L a) = _ := h
  rw [h', abs_zero, Finset.sum_eq_single 0]
  · rw [show Finset.Icc (-(0 : ℤ)) 0 = {0} by rfl, Finset.sum_singleton, if_pos rfl, Complex.conj_ofReal, mul_comm]
  · intro l _ hl
    exact Finset.sum_eq_zero fun m _ => by simp [hl]
  · intro h; exact absurd (Finset.mem_Ico.2 ⟨le_rfl, by omega⟩) h

theorem phi_zero (hv : c.Valid jm J) (hflt : b.filters jm c = .ok (psi, phi)) (h0 : c.spin = 0) :
    Real.sqrt (4 * Real.pi) * phi.v 0 = 1 := by
  have hL := hv.top.hL
  obtain ⟨-, -, hphi, -⟩ := dirBuilt_elim hv.top hv.hN (filters_built hflt)
  rw [hphi, Arr1.of_v _ _ _ ⟨le_rfl, by omega⟩, phiDir, if_neg (by simp [h0]),
    phiAx_eq_one hv.top.hlam (by simpa using (zpow_pos' hv.top.hlam (c.J_min - 1)).le), sfac_zero]
  have hpi := Real.pi_pos
  rw [cphi, mul_one, mul_one, ← Real.sqrt_mul (by positivity)]
  have : 4 * Real.pi * ((2 * ((0 : ℤ) : ℝ) + 1) / (4 * Real.pi)) = 1 := by
    norm_num; field_simp
  rw [this, Real.sqrt_one]

theorem psi_zero (hv : c.Valid jm J) (hflt : b.filters jm c = .ok (psi, phi)) (j k : ℤ) : psi.v j 0 k = 0 := by
  by_contra h
  have h1 := ((filters_support hv hflt).1 j 0 k h).1
  have h2 := zpow_pos' hv.top.hlam (j - 1)
  rw [Int.cast_zero] at h1
  linarith

/-- **C91** every wavelet integrates to 0 over the sphere, the scaling function to 1 (spin 0) -/
theorem C91_filters (hv : c.Valid jm J) (hflt : b.filters jm c = .ok (psi, phi)) (h0 : c.spin = 0) :
    (∀ j, sphInt (series 0 c.L fun l m => psi.v j l (c.L - 1 + m)) = 0) ∧
    sphInt (series 0 c.L fun l m => if m = 0 then (phi.v l : ℂ) else 0) = 1 := by
  constructor
  · intro j
    rw [sphInt_mean hv.top.hL, psi_zero hv hflt, mul_zero]
  · rw [sphInt_mean hv.top.hL, if_pos rfl, ← Complex.ofReal_mul, phi_zero hv hflt h0, Complex.ofReal_one]

/-- **C91** so the wavelet maps of a signal integrate to 0 over rotations, and the scaling map has the integral of the signal -/
theorem C91_means (hb : IsSphere b) (hv : c.Valid jm J) (hs : SamplingOk b c) {a : ℤ → ℤ → ℂ}
    (hr : c.reality = true → c.spin = 0 ∧ RealPx f) {g : Grid} (hg : gridOf c.sampling c.L = .ok g)
    (hf : Samples g (series (spinOf b c) c.L a) f) :
    ∃ w s, ∃ W : ℤ → ℤ → ℤ → ℤ → ℂ, ∃ S : ℤ → ℤ → ℂ, b.analysis jm c f = .ok (w, s) ∧ Maps b c J w s W S ∧
      (∀ j, c.J_min ≤ j → j ≤ J → rotInt (wseries (c.Lj b.mr j) (c.Nj b.mr j) (W j)) = 0) ∧
      (c.spin = 0 → sphInt (series 0 (c.Ls b.mr) S) = sphInt (series 0 c.L a)) := by
  obtain ⟨psi, phi, hflt⟩ := filters_exist hv b
  obtain ⟨w', s', h1, h2, h3, gs, h4, h5, -⟩ := C89_maps hb hv hs hflt hr hg hf
  have hcut := smoothed_cut hv hflt a
  refine ⟨w', s', fun j n l m => ((8 * Real.pi ^ 2 / (2 * l + 1) : ℝ) : ℂ) * (a l m * (starRingEnd ℂ) (psi.v j l (c.L - 1 + n))),
    fun l m => ((Real.sqrt (4 * Real.pi / (2 * l + 1)) * phi.v l : ℝ) : ℂ) * a l m, h1, ⟨h2, fun j hj hJ => ?_, gs, h4, ?_⟩, fun j hj hJ => ?_, fun h0 => ?_⟩
  · obtain ⟨p, gj, a1, a2, a3, -⟩ := h3 j hj hJ
    exact ⟨p, gj, a1, a2, by rw [wseries_map hv hflt]; exact a3⟩
  · rw [← hcut]; exact h5
  · have hp := hv.Lj_pos b.mr j
    rw [rotInt_wseries hp.1 hp.2.1]
    beta_reduce
    rw [psi_zero hv hflt]; simp
  · rw [sphInt_mean (hv.Ls_pos b.mr).1, sphInt_mean hv.top.hL]
    have := phi_zero hv hflt h0
    rw [show 4 * Real.pi / (2 * ((0 : ℤ) : ℝ) + 1) = 4 * Real.pi by simp, this, Complex.ofReal_one, one_mul]

/-! ## Examples -/

/-- the maps of `exImg` against the maps of `exImg`, with `reality=True` -/
example (hb : IsSphere b) : ∃ w s W S w' s' r W' S' R, Maps b (exCfg true 0) 2 w s W S ∧ b.analysis j_max (exCfg true 0) exImg = .ok (w', s') ∧
    Maps b (exCfg true 0) 2 w' s' W' S' ∧ b.synthesis j_max (exCfg true 0) w s = .ok r ∧
    (∑ j ∈ Finset.Icc 0 2, rotInt fun α β γ => wseries ((exCfg true 0).Lj b.mr j) ((exCfg true 0).Nj b.mr j) (W j) α β γ *
        (starRingEnd ℂ) (wseries ((exCfg true 0).Lj b.mr j) ((exCfg true 0).Nj b.mr j) (W' j) α β γ)) +
      sphInt (fun θ φ => series 0 ((exCfg true 0).Ls b.mr) S θ φ * (starRingEnd ℂ) (series 0 ((exCfg true 0).Ls b.mr) S' θ φ)) =
    sphInt fun θ φ => series 0 3 R θ φ * (starRingEnd ℂ) (series 0 3 exSig θ φ) := by
  obtain ⟨g, hg, hf⟩ := exGrid
  have hv := exCfg_valid true 0
  have e : spinOf b (exCfg true 0) = 0 := spinOf_zero rfl
  obtain ⟨psi, phi, hflt⟩ := filters_exist hv b
  obtain ⟨w, s, h1, h2, h3, gs, h4, h5, h6⟩ := C89_maps (a := exSig) hb hv (exSphere_ok b true) hflt
    (fun _ => ⟨rfl, exImg_real⟩) hg (by rw [e]; exact hf)
  have hm : Maps b (exCfg true 0) 2 w s (fun j n l m => ((8 * Real.pi ^ 2 / (2 * l + 1) : ℝ) : ℂ) *
      (exSig l m * (starRingEnd ℂ) (psi.v j l ((exCfg true 0).L - 1 + n))))
      (fun l m => ((Real.sqrt (4 * Real.pi / (2 * l + 1)) * phi.v l : ℝ) : ℂ) * exSig l m) := by
    refine ⟨h2, fun j hj hJ => ?_, gs, h4, ?_⟩
    · obtain ⟨p, gj, a1, a2, a3, -⟩ := h3 j hj hJ
      exact ⟨p, gj, a1, a2, by rw [wseries_map hv hflt]; exact a3⟩
    · rw [← smoothed_cut hv hflt exSig]; exact h5
  have hp : ∀ p ∈ w, RealPx p := by
    intro p hp
    obtain ⟨i, hi, rfl⟩ := List.getElem_of_mem hp
    have hl : (w.length : ℤ) = 3 := h2
    obtain ⟨p', gj, a1, -, -, a4⟩ := h3 i (by simp [exCfg]) (by omega)
    have : listGet w ((i : ℤ) - (exCfg true 0).J_min) = .ok w[i] := by
      simp [exCfg, listGet, hi]
    rw [a1] at this
    cases this
    exact a4 rfl
  obtain ⟨w', s', r, W', S', R, b1, b2, b3, -, b5⟩ := C90_adjoint (a := exSig) hb hv (exSphere_ok b true)
    (fun _ => ⟨rfl, exImg_real, h6 rfl, hp⟩) hm hg (by rw [e]; exact hf)
  rw [e] at b5
  exact ⟨w, s, _, _, w', s', r, W', S', R, hm, b1, b2, b3, b5⟩

/-- maps that are no analysis of a signal: `exW` at every scale -/
example (hb : IsSphere b) (hflt : b.filters j_max (exCfg false 0) = .ok (psi, phi)) : ∃ w s r w' s', Maps b (exCfg false 0) 2 w s (fun _ => exW) exSig ∧
    b.synthesis j_max (exCfg false 0) w s = .ok r ∧ b.analysis j_max (exCfg false 0) r = .ok (w', s') := by
  obtain ⟨w, s, hm⟩ := maps_exist (exCfg_valid false 0) (exSphere_ok b false) (fun _ => exW) exSig
  obtain ⟨r, w', s', h1, h2, -⟩ := C90_kernel hb (exCfg_valid false 0) (exSphere_ok b false) hflt (by simp [exCfg]) hm
    (fun j α β γ => rotCoef_rotated (euler_SU α β γ) fun l m => psi.v j l ((exCfg false 0).L - 1 + m))
    (fun θ φ => rotCoef_rotated (euler_SU φ θ 0) (scalF (spinOf b (exCfg false 0)) phi.v))
  exact ⟨w, s, r, w', s', hm, h1, h2⟩

/-- `1 + Y_10`: integral `4π` -/
noncomputable def exOne (l m : ℤ) : ℂ := if l = 0 then ((Real.sqrt (4 * Real.pi) : ℝ) : ℂ) else exSig l m

example (hb : IsSphere b) : ∃ f w s W S, b.analysis j_max (exCfg false 0) f = .ok (w, s) ∧ Maps b (exCfg false 0) 2 w s W S ∧
    sphInt (series 0 ((exCfg false 0).Ls b.mr) S) = ((4 * Real.pi : ℝ) : ℂ) := by
  obtain ⟨g, hg, -⟩ := exGrid
  have e : spinOf b (exCfg false 0) = 0 := spinOf_zero rfl
  obtain ⟨w, s, W, S, h1, h2, -, h4⟩ := C91_means (a := exOne) (f := ⟨[g.nθ, g.nφ], fun i => match i with
      | [t, x] => series 0 3 exOne (g.θ t) (node g.nφ x)
      | _ => 0⟩) hb (exCfg_valid false 0) (exSphere_ok b false) (by simp [exCfg]) hg ⟨rfl, fun t _ x _ => by rw [e]; rfl⟩
  refine ⟨_, w, s, W, S, h1, h2, (h4 rfl).trans ((sphInt_mean (by norm_num [exCfg]) _).trans ?_)⟩
  rw [exOne, if_pos rfl, ← Complex.ofReal_mul, Real.mul_self_sqrt (by positivity)]

end S2wav
