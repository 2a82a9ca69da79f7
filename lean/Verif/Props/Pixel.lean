import Verif.Props.Rotate

/-! # Pixels of the maps: real signals, bounds -/

namespace S2wav
open Classical Sphere

variable {jm : JMax} {c : Cfg} {J : ℤ} {b : Backend} {f s : Px} {w : List Px} {psi : Arr3 ℂ} {phi : Arr1 ℝ}

/-! ## Real signals -/

/-- the coefficients of the conjugate of a signal -/
theorem conj_series (L : ℤ) (a : ℤ → ℤ → ℂ) (θ φ : ℝ) :
    (starRingEnd ℂ) (series 0 L a θ φ) = series 0 L (fun l m => (-1) ^ m * (starRingEnd ℂ) (a l (-m))) θ φ := by
  unfold series
  rw [map_sum]
  refine Finset.sum_congr rfl fun l _ => ?_
  rw [map_sum]
  refine Finset.sum_bij' (fun m _ => -m) (fun m _ => -m) ?_ ?_ ?_ ?_ ?_
  · intro m hm; rw [Finset.mem_Icc] at hm ⊢; omega
  · intro m hm; rw [Finset.mem_Icc] at hm ⊢; omega
  · intro m _; ring
  · intro m _; ring
  · intro m _
    beta_reduce
    rw [map_mul, conj_sY, neg_neg, Toy.neg_one_zpow_neg]; ring

/-- a signal has one set of coefficients -/
theorem series_inj {s L : ℤ} {a a' : ℤ → ℤ → ℂ} (h : ∀ θ φ, series s L a θ φ = series s L a' θ φ) {l m : ℤ}
    (hl : max |m| |s| ≤ l) (hL : l < L) : a l m = a' l m := by
  have h0 : 0 ≤ l := (abs_nonneg m).trans ((le_max_left _ _).trans hl)
  have hg := gridIx_enough (k := 0) (L := L) (by omega) rfl
  rw [← scoef_eq (a := a) (f := fun t x => series s L a _ _) hg hl hL fun _ _ _ _ => rfl]
  exact scoef_eq hg hl hL fun _ _ _ _ => h _ _

/-- the coefficients of a real signal can be taken symmetric -/
theorem exists_herm {L : ℤ} {a : ℤ → ℤ → ℂ} (h : ∀ θ φ, (series 0 L a θ φ).im = 0) :
    ∃ a', HermF a' ∧ series 0 L a' = series 0 L a := by
  refine ⟨fun l m => if |m| ≤ l ∧ l < L then a l m else 0, fun l m => ?_, ?_⟩
  · beta_reduce
    rw [abs_neg]
    split_ifs with hl
    · have e : a l (-m) = (-1) ^ (-m) * (starRingEnd ℂ) (a l (- -m)) := by
        refine series_inj (s := 0) (L := L) (a' := fun l m => (-1) ^ m * (starRingEnd ℂ) (a l (-m))) (fun θ φ => ?_) ?_ hl.2
        · rw [← conj_series]
          exact (Complex.conj_eq_iff_im.2 (h θ φ)).symm
        · rw [abs_neg, abs_zero]; exact max_le hl.1 ((abs_nonneg m).trans hl.1)
      rw [e, neg_neg, Toy.neg_one_zpow_neg]
    · simp
  · ext θ φ
    refine Finset.sum_congr rfl fun l hl => Finset.sum_congr rfl fun m hm => ?_
    beta_reduce
    rw [if_pos ⟨abs_le.2 (Finset.mem_Icc.1 hm), (Finset.mem_Ico.1 hl).2⟩]

theorem series_im {L : ℤ} {a : ℤ → ℤ → ℂ} (ha : HermF a) (θ φ : ℝ) : (series 0 L a θ φ).im = 0 :=
  Complex.conj_eq_iff_im.1 (series_real ha θ φ)

theorem directional_im {L : ℤ} {a psi : ℤ → ℤ → ℂ} (ha : HermF a) (hp : HermF psi) (α β γ : ℝ) : (directional L a psi α β γ).im = 0 := by
  have hr := rotCoef_herm (euler_SU α β γ) hp
  have e : directional L a psi α β γ = ∑ l ∈ Finset.Ico 0 L, ∑ m ∈ Finset.Icc (-l) l, a l m * (starRingEnd ℂ) (rotCoef (euler α β γ) psi l m) := by
    unfold directional rotCoef
    simp only [wmat_euler]
  rw [e]
  refine Complex.conj_eq_iff_im.1 ?_
  rw [map_sum]
  refine Finset.sum_congr rfl fun l _ => ?_
  rw [map_sum]
  refine Finset.sum_nbij' (fun m => -m) (fun m => -m) ?_ ?_ ?_ ?_ ?_
  · intro m hm; rw [Finset.mem_Icc] at hm ⊢; omega
  · intro m hm; rw [Finset.mem_Icc] at hm ⊢; omega
  · intro m _; ring
  · intro m _; ring
  · intro m _
    have h1 : ((-1 : ℂ)) ^ m * (-1) ^ m = 1 := by rw [← zpow_add₀ (by norm_num)]; exact Even.neg_one_zpow ⟨m, rfl⟩
    rw [map_mul, Complex.conj_conj, ha, hr, map_mul, Complex.conj_conj, Toy.conj_neg_one_zpow]
    linear_combination (-(starRingEnd ℂ) (a l m) * rotCoef (euler α β γ) psi l m) * h1

theorem psi_herm (hv : c.Valid jm J) (hflt : b.filters jm c = .ok (psi, phi)) (j : ℤ) : HermF fun l m => psi.v j l (c.L - 1 + m) := by
  have hv' : ({c with reality := true} : Cfg).Valid jm J := ⟨hv.top, hv.hN, hv.hNL, hv.h0, hv.h1⟩
  have hf' : b.filters jm {c with reality := true} = .ok (psi, phi) := by
    rw [← hflt]; cases b <;> rfl
  intro l m
  exact (filters_ok hv' hf' b.mr).sym rfl j l m

/-- **C86** the wavelets are real functions on the sphere, and so are they rotated -/
theorem C86_wavelets (hv : c.Valid jm J) (hflt : b.filters jm c = .ok (psi, phi)) (j : ℤ) :
    (∀ θ φ, (series 0 c.L (fun l m => psi.v j l (c.L - 1 + m)) θ φ).im = 0) ∧
    ∀ α β γ F, Rotated 0 (euler α β γ) (series 0 c.L fun l m => psi.v j l (c.L - 1 + m)) F → ∀ θ φ, (F θ φ).im = 0 := by
  refine ⟨series_im (psi_herm hv hflt j), fun α β γ F hF θ φ => ?_⟩
  rw [hF.series (euler_SU α β γ)]
  exact series_im (rotCoef_herm (euler_SU α β γ) (psi_herm hv hflt j)) θ φ

/-- the function a wavelet map samples, as a series of the band-limits of the map -/
theorem wseries_map (hv : c.Valid jm J) (hflt : b.filters jm c = .ok (psi, phi)) (a : ℤ → ℤ → ℂ) (j : ℤ) :
    wseries (c.Lj b.mr j) (c.Nj b.mr j) (fun n l m => ((8 * Real.pi ^ 2 / (2 * l + 1) : ℝ) : ℂ) * (a l m *
      (starRingEnd ℂ) (psi.v j l (c.L - 1 + n)))) = directional c.L a fun l n => psi.v j l (c.L - 1 + n) := by
  have hFl := filters_ok hv hflt b.mr
  ext α β γ
  exact wseries_directional (hv.Lj_pos b.mr j).2.2.2.1 (hv.Lj_pos b.mr j).2.2.2.2 (fun n l m _ _ _ => rfl)
    (fun l n h => ⟨(hFl.wav j l n h).2.1, (hFl.wav j l n h).2.2.1⟩) α β γ

/-- **C86** real signals have real maps: with or without the `reality` flag, the wavelet and scaling maps of a real signal
sample functions, of the band-limits of the maps, that are real everywhere; in particular every pixel is real -/
theorem C86_real (hb : IsSphere b) (hv : c.Valid jm J) (hs : SamplingOk b c) (h0 : spinOf b c = 0) (hr : c.reality = true → c.spin = 0)
    {a : ℤ → ℤ → ℂ} (ha : ∀ θ φ, (series 0 c.L a θ φ).im = 0) {g : Grid} (hg : gridOf c.sampling c.L = .ok g)
    (hf : Samples g (series 0 c.L a) f) :
    ∃ w s, b.analysis jm c f = .ok (w, s) ∧
      (∀ j, c.J_min ≤ j → j ≤ J → ∃ p gj, ∃ W : ℤ → ℤ → ℤ → ℂ, listGet w (j - c.J_min) = .ok p ∧
        gridOf c.sampling (c.Lj b.mr j) = .ok gj ∧ Samples3 gj (c.Nj b.mr j) (wseries (c.Lj b.mr j) (c.Nj b.mr j) W) p ∧
        (∀ α β γ, (wseries (c.Lj b.mr j) (c.Nj b.mr j) W α β γ).im = 0) ∧
        ∀ y ∈ Finset.Ico 0 (2 * c.Nj b.mr j - 1), ∀ t ∈ Finset.Ico 0 gj.nθ, ∀ x ∈ Finset.Ico 0 gj.nφ, (p.v [y, t, x]).im = 0) ∧
      ∃ gs, ∃ S : ℤ → ℤ → ℂ, gridOf c.sampling (c.Ls b.mr) = .ok gs ∧ Samples gs (series 0 (c.Ls b.mr) S) s ∧
        (∀ θ φ, (series 0 (c.Ls b.mr) S θ φ).im = 0) ∧
        ∀ t ∈ Finset.Ico 0 gs.nθ, ∀ x ∈ Finset.Ico 0 gs.nφ, (s.v [t, x]).im = 0 := by
  obtain ⟨psi, phi, hflt⟩ := filters_exist hv b
  obtain ⟨a', ha', e⟩ := exists_herm ha
  obtain ⟨w, s, h1, -, h3, gs, hgs, h4⟩ := C82_maps (a := a') hb hv hs hflt (fun h => ⟨hr h, ha'⟩) hg (by rw [h0, e]; exact hf)
  have hS : ∀ θ φ, (series 0 (c.Ls b.mr) (fun l m => ((Real.sqrt (4 * Real.pi / (2 * l + 1)) * phi.v l : ℝ) : ℂ) * a' l m) θ φ).im = 0 :=
    series_im fun l m => by
      beta_reduce
      rw [ha', map_mul, Complex.conj_ofReal]; ring
  have h4' := h4
  have hcut := smoothed_cut hv hflt a'
  unfold smoothed at hcut
  rw [hcut, h0] at h4'
  refine ⟨w, s, h1, fun j hj hJ => ?_, gs, _, hgs, h4', hS, fun t ht x hx => ?_⟩
  · obtain ⟨p, gj, a1, a2, a3⟩ := h3 j hj hJ
    have hW : ∀ α β γ, _ := directional_im (L := c.L) ha' (psi_herm hv hflt j)
    rw [← wseries_map hv hflt] at a3 hW
    refine ⟨p, gj, _, a1, a2, a3, hW, fun y hy t ht x hx => ?_⟩
    rw [a3.2 y hy t ht x hx]
    exact hW _ _ _
  · rw [h4'.2 t ht x hx]
    exact hS _ _

/-! ## Bounds -/

/-- rotations preserve the energy of every degree -/
theorem rotCoef_norm {g : M2} (hg : g.SU) (a : ℤ → ℤ → ℂ) (l : ℤ) :
    ∑ m ∈ Finset.Icc (-l) l, ‖rotCoef g a l m‖ ^ 2 = ∑ m ∈ Finset.Icc (-l) l, ‖a l m‖ ^ 2 := by
  have h : ∑ m ∈ Finset.Icc (-l) l, (starRingEnd ℂ) (rotCoef g a l m) * rotCoef g a l m =
      ∑ m ∈ Finset.Icc (-l) l, (starRingEnd ℂ) (a l m) * a l m := by
    have e : ∀ m, (starRingEnd ℂ) (rotCoef g a l m) * rotCoef g a l m = ∑ k ∈ Finset.Icc (-l) l, ∑ k' ∈ Finset.Icc (-l) l,
        (starRingEnd ℂ) (a l k) * a l k' * ((starRingEnd ℂ) (wmat l m k g) * wmat l m k' g) := by
      intro m
      unfold rotCoef
      rw [map_sum, Finset.sum_mul_sum]
      refine Finset.sum_congr rfl fun k _ => Finset.sum_congr rfl fun k' _ => ?_
      rw [map_mul]; ring
    simp only [e]
    rw [Finset.sum_comm]
    refine Finset.sum_congr rfl fun k hk => ?_
    rw [Finset.sum_comm, Finset.sum_eq_single k]
    · rw [← Finset.mul_sum, wmat_unitary (abs_le.2 (Finset.mem_Icc.1 hk)) (abs_le.2 (Finset.mem_Icc.1 hk)) hg.adj_mul, if_pos rfl, mul_one]
    · intro k' hk' hne
      rw [← Finset.mul_sum, wmat_unitary (abs_le.2 (Finset.mem_Icc.1 hk)) (abs_le.2 (Finset.mem_Icc.1 hk')) hg.adj_mul, if_neg hne.symm, mul_zero]
    · intro h; exact absurd hk h
  simp only [Complex.conj_mul'] at h
  exact_mod_cast h

/-- the energy of a function on the sphere -/
noncomputable def energy (F : ℝ → ℝ → ℂ) : ℝ := (sphInt fun θ φ => ((‖F θ φ‖ ^ 2 : ℝ) : ℂ)).re

theorem energy_series (s L : ℤ) (a : ℤ → ℤ → ℂ) :
    energy (series s L a) = ∑ l ∈ Finset.Ico |s| L, ∑ m ∈ Finset.Icc (-l) l, ‖a l m‖ ^ 2 := by
  have h := sphInt_series s L a a
  simp only [Complex.mul_conj'] at h
  unfold energy
  push_cast
  rw [h]
  norm_cast

theorem inner_bound (s L : ℤ) (a a' : ℤ → ℤ → ℂ) : ‖sphInt fun θ φ => series s L a θ φ * (starRingEnd ℂ) (series s L a' θ φ)‖ ^ 2 ≤
    energy (series s L a) * energy (series s L a') := by
  rw [sphInt_series, energy_series, energy_series]
  simp only [Finset.sum_sigma']
  set I : Finset ((_ : ℤ) × ℤ) := (Finset.Ico |s| L).sigma fun l => Finset.Icc (-l) l
  have h1 : ‖∑ p ∈ I, a p.1 p.2 * (starRingEnd ℂ) (a' p.1 p.2)‖ ≤ ∑ p ∈ I, ‖a p.1 p.2‖ * ‖a' p.1 p.2‖ := by
    refine (norm_sum_le _ _).trans (Finset.sum_le_sum fun p _ => ?_)
    rw [norm_mul, RCLike.norm_conj]
  exact (pow_le_pow_left₀ (norm_nonneg _) h1 2).trans (Finset.sum_mul_sq_le_sq_mul_sq _ _ _)

theorem directional_bound {s L : ℤ} (a : ℤ → ℤ → ℂ) {psi : ℤ → ℤ → ℂ} (hpsi : ∀ l n, psi l n ≠ 0 → |s| ≤ l) (α β γ : ℝ) :
    ‖directional L a psi α β γ‖ ^ 2 ≤ energy (series s L a) * energy (series s L psi) := by
  have hg := euler_SU α β γ
  rw [directional_rotated a hpsi (rotCoef_rotated hg psi)]
  refine (inner_bound s L a _).trans (le_of_eq ?_)
  rw [energy_series s L psi, energy_series s L (rotCoef _ _)]
  simp only [rotCoef_norm hg]

/-- **C87** a bound on every pixel: no pixel of a wavelet map exceeds, in modulus squared, the energy of the signal times that of
the wavelet, and no pixel of the scaling map the energy of the signal times that of the scaling function -/
theorem C87_bound (hb : IsSphere b) (hv : c.Valid jm J) (hs : SamplingOk b c) (hflt : b.filters jm c = .ok (psi, phi))
    {a : ℤ → ℤ → ℂ} (hr : c.reality = true → c.spin = 0 ∧ HermF a) {g : Grid} (hg : gridOf c.sampling c.L = .ok g)
    (hf : Samples g (series (spinOf b c) c.L a) f) :
    ∃ w s, b.analysis jm c f = .ok (w, s) ∧
      (∀ j, c.J_min ≤ j → j ≤ J → ∃ p gj, listGet w (j - c.J_min) = .ok p ∧ gridOf c.sampling (c.Lj b.mr j) = .ok gj ∧
        ∀ y ∈ Finset.Ico 0 (2 * c.Nj b.mr j - 1), ∀ t ∈ Finset.Ico 0 gj.nθ, ∀ x ∈ Finset.Ico 0 gj.nφ, ‖p.v [y, t, x]‖ ^ 2 ≤
          energy (series (spinOf b c) c.L a) * energy (series (spinOf b c) c.L fun l m => psi.v j l (c.L - 1 + m))) ∧
      ∃ gs, gridOf c.sampling (c.Ls b.mr) = .ok gs ∧ ∀ t ∈ Finset.Ico 0 gs.nθ, ∀ x ∈ Finset.Ico 0 gs.nφ, ‖s.v [t, x]‖ ^ 2 ≤
        energy (series (spinOf b c) c.L a) * energy (series (spinOf b c) c.L (scalF (spinOf b c) phi.v)) := by
  have hFl := filters_ok hv hflt b.mr
  obtain ⟨w, s, h1, -, h3, gs, hgs, h4⟩ := C82_maps hb hv hs hflt hr hg hf
  refine ⟨w, s, h1, fun j hj hJ => ?_, gs, hgs, fun t ht x hx => ?_⟩
  · obtain ⟨p, gj, a1, a2, a3⟩ := h3 j hj hJ
    refine ⟨p, gj, a1, a2, fun y hy t ht x hx => ?_⟩
    rw [a3.2 y hy t ht x hx]
    exact directional_bound a (fun l n h => (abs_spinOf b c).trans (hFl.wav j l n h).2.2.2.2.2) _ _ _
  · rw [h4.2 t ht x hx]
    have := smoothed_directional (spinOf b c) c.L phi.v a (gs.θ t) (node gs.nφ x)
    unfold smoothed at this
    rw [this]
    refine directional_bound a (fun l n h => ?_) _ _ _
    by_contra h'
    exact h (if_neg fun h'' => h' h''.2)

theorem sum_degrees {L : ℤ} (hL : 0 ≤ L) : ∑ l ∈ Finset.Ico 0 L, (2 * (l : ℝ) + 1) = L ^ 2 := by
  obtain ⟨n, rfl⟩ : ∃ n : ℕ, L = n := ⟨L.toNat, by omega⟩
  rw [sum_Ico_zero]
  induction n with
  | zero => simp
  | succ n ih =>
    have : ((n + 1 : ℕ) : ℤ).toNat = (n : ℤ).toNat + 1 := by omega
    rw [this, Finset.sum_range_succ, ih (by omega)]
    push_cast
    rw [Int.toNat_natCast]
    push_cast; ring

/-- **C87** the energies of the wavelets and of the scaling function are at most `Lj² / 8π²` and `Ls² / 4π`, up to the gain 501/500 of C61 -/
theorem C87_energies (hv : c.Valid jm J) (hflt : b.filters jm c = .ok (psi, phi)) :
    (∀ j, c.J_min ≤ j → j ≤ J → energy (series (spinOf b c) c.L fun l m => psi.v j l (c.L - 1 + m)) ≤
      501 / 500 * ((c.Lj b.mr j : ℝ) ^ 2 / (8 * Real.pi ^ 2))) ∧
    energy (series (spinOf b c) c.L (scalF (spinOf b c) phi.v)) ≤ 501 / 500 * ((c.Ls b.mr : ℝ) ^ 2 / (4 * Real.pi)) := by
  have hFl := filters_ok hv hflt b.mr
  have hpi := Real.pi_pos
  have hbd : ∀ l, 0 ≤ l → l < c.L → |c.spin| ≤ l → frameSum c.J_min J c.L psi phi l ≤ 501 / 500 :=
    fun l h0 h1 h2 => (frameSum_bounds hv hflt h0 h1 h2).1.2
  constructor
  · intro j hj hJ
    have hLj := hv.Lj_pos b.mr j
    have hl : ∀ l ∈ Finset.Ico |spinOf b c| c.L, ∑ m ∈ Finset.Icc (-l) l, ‖psi.v j l (c.L - 1 + m)‖ ^ 2 ≤
        if l < c.Lj b.mr j then 501 / 500 * ((2 * (l : ℝ) + 1) / (8 * Real.pi ^ 2)) else 0 := by
      intro l hl
      rw [Finset.mem_Ico] at hl
      have h0 : 0 ≤ l := (abs_nonneg _).trans hl.1
      have h0' : (0 : ℝ) ≤ l := by exact_mod_cast h0
      by_cases hz : l < c.Lj b.mr j ∧ |c.spin| ≤ l
      · rw [if_pos hz.1]
        have hle : ∑ m ∈ Finset.Icc (-l) l, ‖psi.v j l (c.L - 1 + m)‖ ^ 2 ≤ ∑ k ∈ Finset.Ico 0 (2 * c.L - 1), ‖psi.v j l k‖ ^ 2 := by
          rw [sum_cols_Ioo fun k => ‖psi.v j l k‖ ^ 2]
          refine Finset.sum_le_sum_of_subset_of_nonneg (fun n hn => ?_) (fun _ _ _ => by positivity)
          rw [Finset.mem_Icc] at hn; rw [Finset.mem_Ioo]; omega
        have hle' : ∑ k ∈ Finset.Ico 0 (2 * c.L - 1), ‖psi.v j l k‖ ^ 2 ≤
            ∑ j ∈ Finset.Icc c.J_min J, ∑ k ∈ Finset.Ico 0 (2 * c.L - 1), ‖psi.v j l k‖ ^ 2 :=
          Finset.single_le_sum (f := fun j => ∑ k ∈ Finset.Ico 0 (2 * c.L - 1), ‖psi.v j l k‖ ^ 2)
            (fun _ _ => Finset.sum_nonneg fun _ _ => by positivity) (Finset.mem_Icc.2 ⟨hj, hJ⟩)
        have hG := hbd l h0 hl.2 hz.2
        unfold frameSum at hG
        have hp : 0 ≤ 4 * Real.pi / (2 * (l : ℝ) + 1) * phi.v l ^ 2 := by positivity
        have hG' : 8 * Real.pi ^ 2 / (2 * (l : ℝ) + 1) * ∑ m ∈ Finset.Icc (-l) l, ‖psi.v j l (c.L - 1 + m)‖ ^ 2 ≤ 501 / 500 :=
          (mul_le_mul_of_nonneg_left (hle.trans hle') (by positivity)).trans (by linarith)
        rw [div_mul_eq_mul_div, div_le_iff₀ (by positivity)] at hG'
        rw [mul_div_assoc', le_div_iff₀ (by positivity)]
        linarith
      · have : ∑ m ∈ Finset.Icc (-l) l, ‖psi.v j l (c.L - 1 + m)‖ ^ 2 = 0 := by
          refine Finset.sum_eq_zero fun m _ => ?_
          have : psi.v j l (c.L - 1 + m) = 0 := by
            by_contra h
            exact hz ⟨(hFl.wav j l m h).2.1, (hFl.wav j l m h).2.2.2.2.2⟩
          rw [this]; simp
        rw [this]
        split_ifs <;> positivity
    rw [energy_series]
    refine (Finset.sum_le_sum hl).trans ?_
    rw [← Finset.sum_filter]
    refine (Finset.sum_le_sum_of_subset_of_nonneg (t := Finset.Ico 0 (c.Lj b.mr j)) (fun l hl => ?_) (fun l hl _ => ?_)).trans (le_of_eq ?_)
    · rw [Finset.mem_filter, Finset.mem_Ico] at hl
      rw [Finset.mem_Ico]
      exact ⟨(abs_nonneg _).trans hl.1.1, hl.2⟩
    · have : (0 : ℝ) ≤ l := by exact_mod_cast (Finset.mem_Ico.1 hl).1
      positivity
    · rw [← Finset.mul_sum, ← Finset.sum_div, sum_degrees (by omega)]
  · have hLs := hv.Ls_pos b.mr
    have hl : ∀ l ∈ Finset.Ico |spinOf b c| c.L, ∑ m ∈ Finset.Icc (-l) l, ‖scalF (spinOf b c) phi.v l m‖ ^ 2 ≤
        if l < c.Ls b.mr then 501 / 500 * ((2 * (l : ℝ) + 1) / (4 * Real.pi)) else 0 := by
      intro l hl
      rw [Finset.mem_Ico] at hl
      have h0 : 0 ≤ l := (abs_nonneg _).trans hl.1
      have h0' : (0 : ℝ) ≤ l := by exact_mod_cast h0
      have he : ∑ m ∈ Finset.Icc (-l) l, ‖scalF (spinOf b c) phi.v l m‖ ^ 2 = phi.v l ^ 2 := by
        rw [Finset.sum_eq_single (-spinOf b c)]
        · rw [scalF, if_pos ⟨rfl, hl.1⟩, Complex.norm_real, Real.norm_eq_abs, sq_abs, mul_pow]
          have : ((-1 : ℝ) ^ spinOf b c) ^ 2 = 1 := by rw [sq, ← zpow_add₀ (by norm_num)]; exact Even.neg_one_zpow ⟨_, rfl⟩
          rw [this, one_mul]
        · intro m _ hm
          rw [scalF, if_neg fun h => hm h.1]; simp
        · intro h
          have := abs_le.1 hl.1
          exact absurd (Finset.mem_Icc.2 ⟨by omega, by omega⟩) h
      rw [he]
      by_cases hz : l < c.Ls b.mr ∧ |c.spin| ≤ l
      · rw [if_pos hz.1]
        have hG := hbd l h0 hl.2 hz.2
        unfold frameSum at hG
        have hp : 0 ≤ 8 * Real.pi ^ 2 / (2 * (l : ℝ) + 1) * ∑ j ∈ Finset.Icc c.J_min J, ∑ k ∈ Finset.Ico 0 (2 * c.L - 1), ‖psi.v j l k‖ ^ 2 :=
          mul_nonneg (by positivity) (Finset.sum_nonneg fun _ _ => Finset.sum_nonneg fun _ _ => by positivity)
        have hG' : 4 * Real.pi / (2 * (l : ℝ) + 1) * phi.v l ^ 2 ≤ 501 / 500 := by linarith
        rw [div_mul_eq_mul_div, div_le_iff₀ (by positivity)] at hG'
        rw [mul_div_assoc', le_div_iff₀ (by positivity)]
        linarith
      · have : phi.v l = 0 := by
          by_contra h
          exact hz (hFl.scal l h)
        rw [this, zero_pow two_ne_zero]
        split_ifs <;> positivity
    rw [energy_series]
    refine (Finset.sum_le_sum hl).trans ?_
    rw [← Finset.sum_filter]
    refine (Finset.sum_le_sum_of_subset_of_nonneg (t := Finset.Ico 0 (c.Ls b.mr)) (fun l hl => ?_) (fun l hl _ => ?_)).trans (le_of_eq ?_)
    · rw [Finset.mem_filter, Finset.mem_Ico] at hl
      rw [Finset.mem_Ico]
      exact ⟨(abs_nonneg _).trans hl.1.1, hl.2⟩
    · have : (0 : ℝ) ≤ l := by exact_mod_cast (Finset.mem_Ico.1 hl).1
      positivity
    · rw [← Finset.mul_sum, ← Finset.sum_div, sum_degrees (by omega)]

/-! ## The signal `cos θ` -/

/-- real maps, also when not told that the signal is real -/
example (hb : IsSphere b) (reality : Bool) : ∃ w s p gj, b.analysis j_max (exCfg reality 0) exImg = .ok (w, s) ∧ listGet w 1 = .ok p ∧
    gridOf "mw" ((exCfg reality 0).Lj b.mr 1) = .ok gj ∧
    ∀ y ∈ Finset.Ico 0 (2 * (exCfg reality 0).Nj b.mr 1 - 1), ∀ t ∈ Finset.Ico 0 gj.nθ, ∀ x ∈ Finset.Ico 0 gj.nφ, (p.v [y, t, x]).im = 0 := by
  obtain ⟨g, hg, hf⟩ := exGrid
  obtain ⟨w, s, h1, h2, -⟩ := C86_real (a := exSig) hb (exCfg_valid reality 0) (exSphere_ok b reality) (spinOf_zero rfl) (fun _ => rfl)
    (fun θ φ => by rw [show (exCfg reality 0).L = 3 from rfl, exSig_series]; exact Complex.ofReal_im _) hg hf
  obtain ⟨p, gj, W, a1, a2, -, -, a3⟩ := h2 1 (by norm_num [exCfg]) (by norm_num)
  exact ⟨w, s, p, gj, h1, a1, a2, a3⟩

/-- with energy 1, no pixel of its maps exceeds the bounds of C87 -/
example (hb : IsSphere b) (reality : Bool) : ∃ w s p gj, b.analysis j_max (exCfg reality 0) exImg = .ok (w, s) ∧ listGet w 1 = .ok p ∧
    gridOf "mw" ((exCfg reality 0).Lj b.mr 1) = .ok gj ∧
    ∀ y ∈ Finset.Ico 0 (2 * (exCfg reality 0).Nj b.mr 1 - 1), ∀ t ∈ Finset.Ico 0 gj.nθ, ∀ x ∈ Finset.Ico 0 gj.nφ,
      ‖p.v [y, t, x]‖ ^ 2 ≤ 501 / 500 * (((exCfg reality 0).Lj b.mr 1 : ℝ) ^ 2 / (8 * Real.pi ^ 2)) := by
  obtain ⟨g, hg, hf⟩ := exGrid
  have e : spinOf b (exCfg reality 0) = 0 := spinOf_zero rfl
  obtain ⟨psi, phi, hflt⟩ := filters_exist (exCfg_valid reality 0) b
  obtain ⟨w, s, h1, h2, -⟩ := C87_bound (a := exSig) hb (exCfg_valid reality 0) (exSphere_ok b reality) hflt (fun _ => ⟨rfl, exSig_herm⟩) hg
    (by rw [e]; exact hf)
  obtain ⟨p, gj, a1, a2, a3⟩ := h2 1 (by norm_num [exCfg]) (by norm_num)
  have hE := (C87_energies (exCfg_valid reality 0) hflt).1 1 (by norm_num [exCfg]) (by norm_num)
  have h1' : energy (series (spinOf b (exCfg reality 0)) (exCfg reality 0).L exSig) = 1 := by
    rw [e]
    unfold energy
    rw [show (exCfg reality 0).L = 3 from rfl, exSig_energy, Complex.one_re]
  refine ⟨w, s, p, gj, h1, a1, a2, fun y hy t ht x hx => (a3 y hy t ht x hx).trans ?_⟩
  rw [h1', one_mul]
  exact hE

end S2wav
