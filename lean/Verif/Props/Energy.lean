import Verif.Props.Sphere
import Verif.Sphere.Integral

/-! # Inner products and energies as integrals

The energy statements of C29 and C71 in terms of integrals over the sphere and the rotation group. -/

namespace S2wav
open Classical Sphere

variable {jm : JMax} {c : Cfg} {J : ℤ} {b : Backend} {f s : Px} {w : List Px} {psi : Arr3 ℂ} {phi : Arr1 ℝ}

theorem directional_wsum (L : ℤ) (a psi : ℤ → ℤ → ℂ) (α β γ : ℝ) :
    directional L a psi α β γ = wsum L (fun l m n => a l m * (starRingEnd ℂ) (psi l n)) α β γ := by
  unfold directional wsum
  refine Finset.sum_congr rfl fun l _ => Finset.sum_congr rfl fun m _ => ?_
  rw [map_sum, Finset.mul_sum]
  refine Finset.sum_congr rfl fun n _ => ?_
  rw [map_mul]; ring

/-- inner products of directional convolutions with the same wavelet -/
theorem directional_inner (L : ℤ) (a a' psi : ℤ → ℤ → ℂ) :
    rotInt (fun α β γ => directional L a psi α β γ * (starRingEnd ℂ) (directional L a' psi α β γ)) =
      ∑ l ∈ Finset.Ico 0 L, ∑ m ∈ Finset.Icc (-l) l,
        ((8 * Real.pi ^ 2 / (2 * l + 1) * ∑ n ∈ Finset.Icc (-l) l, ‖psi l n‖ ^ 2 : ℝ) : ℂ) * (a l m * (starRingEnd ℂ) (a' l m)) := by
  simp only [directional_wsum]
  rw [rotInt_wsum]
  refine Finset.sum_congr rfl fun l _ => Finset.sum_congr rfl fun m _ => ?_
  push_cast
  rw [Finset.mul_sum, Finset.sum_mul]
  refine Finset.sum_congr rfl fun n _ => ?_
  rw [map_mul, Complex.conj_conj]
  have := Complex.mul_conj' (psi l n)
  linear_combination (8 * (Real.pi : ℂ) ^ 2 / (2 * l + 1) * a l m * (starRingEnd ℂ) (a' l m)) * this

/-- what the scaling map of a signal is the samples of -/
noncomputable def smoothed (s L : ℤ) (phi : ℤ → ℝ) (a : ℤ → ℤ → ℂ) : ℝ → ℝ → ℂ :=
  series s L fun l m => ((Real.sqrt (4 * Real.pi / (2 * l + 1)) * phi l : ℝ) : ℂ) * a l m

/-- **C83** inner products of signals are inner products of their wavelet and scaling maps, as integrals over the sphere and
the rotation group, up to the gain of each degree -/
theorem C83_inner (hv : c.Valid jm J) (hflt : b.filters jm c = .ok (psi, phi)) (a a' : ℤ → ℤ → ℂ) :
    ∃ G, IsGain b jm c J G ∧
      sphInt (fun θ φ => series (spinOf b c) c.L (fun l m => G l * a l m) θ φ * (starRingEnd ℂ) (series (spinOf b c) c.L a' θ φ)) =
        sphInt (fun θ φ => smoothed (spinOf b c) c.L phi.v a θ φ * (starRingEnd ℂ) (smoothed (spinOf b c) c.L phi.v a' θ φ)) +
        ∑ j ∈ Finset.Icc c.J_min J, rotInt fun α β γ => directional c.L a (fun l n => psi.v j l (c.L - 1 + n)) α β γ *
          (starRingEnd ℂ) (directional c.L a' (fun l n => psi.v j l (c.L - 1 + n)) α β γ) := by
  refine ⟨_, frameSum_isGain hv hflt, ?_⟩
  have hFl := filters_ok hv hflt b.mr
  unfold smoothed
  rw [sphInt_series, sphInt_series]
  simp only [directional_inner]
  have hs := abs_spinOf b c
  have h1 : ∀ j, ∑ l ∈ Finset.Ico 0 c.L, ∑ m ∈ Finset.Icc (-l) l,
      ((8 * Real.pi ^ 2 / (2 * l + 1) * ∑ n ∈ Finset.Icc (-l) l, ‖psi.v j l (c.L - 1 + n)‖ ^ 2 : ℝ) : ℂ) * (a l m * (starRingEnd ℂ) (a' l m)) =
      ∑ l ∈ Finset.Ico |spinOf b c| c.L, ∑ m ∈ Finset.Icc (-l) l,
      ((8 * Real.pi ^ 2 / (2 * l + 1) * ∑ k ∈ Finset.Ico 0 (2 * c.L - 1), ‖psi.v j l k‖ ^ 2 : ℝ) : ℂ) * (a l m * (starRingEnd ℂ) (a' l m)) := by
    intro j
    rw [← Finset.sum_subset (Finset.Ico_subset_Ico_left (abs_nonneg (spinOf b c)))]
    · refine Finset.sum_congr rfl fun l hl => Finset.sum_congr rfl fun m _ => ?_
      rw [Finset.mem_Ico] at hl
      rw [sum_cols_Ioo fun k => ‖psi.v j l k‖ ^ 2]
      refine congrArg (fun x : ℝ => ((8 * Real.pi ^ 2 / (2 * l + 1) * x : ℝ) : ℂ) * (a l m * (starRingEnd ℂ) (a' l m))) ?_
      refine Finset.sum_subset (fun n hn => ?_) (fun n _ hn => ?_)
      · rw [Finset.mem_Icc] at hn; rw [Finset.mem_Ioo]; omega
      · have : psi.v j l (c.L - 1 + n) = 0 := by
          by_contra h
          exact hn (Finset.mem_Icc.2 (abs_le.1 (hFl.wav j l n h).2.2.2.2.1))
        rw [this]; simp
    · intro l hl hl'
      refine Finset.sum_eq_zero fun m _ => ?_
      rw [Finset.mem_Ico] at hl hl'
      have : ∑ n ∈ Finset.Icc (-l) l, ‖psi.v j l (c.L - 1 + n)‖ ^ 2 = 0 := by
        refine Finset.sum_eq_zero fun n _ => ?_
        have : psi.v j l (c.L - 1 + n) = 0 := by
          by_contra h
          have := (hFl.wav j l n h).2.2.2.2.2
          omega
        rw [this]; simp
      rw [this]; simp
  rw [Finset.sum_congr rfl fun j _ => h1 j, Finset.sum_comm, ← Finset.sum_add_distrib]
  refine Finset.sum_congr rfl fun l hl => ?_
  rw [Finset.sum_comm, ← Finset.sum_add_distrib]
  refine Finset.sum_congr rfl fun m _ => ?_
  have hl0 : (0 : ℝ) ≤ l := by exact_mod_cast (abs_nonneg _).trans (Finset.mem_Ico.1 hl).1
  have hpi := Real.pi_pos
  have hsq := Real.mul_self_sqrt (show 0 ≤ 4 * Real.pi / (2 * (l : ℝ) + 1) by positivity)
  rw [← Finset.sum_mul, ← Complex.ofReal_sum, ← Finset.mul_sum]
  have hg : frameSum c.J_min J c.L psi phi l = Real.sqrt (4 * Real.pi / (2 * l + 1)) * phi.v l * (Real.sqrt (4 * Real.pi / (2 * l + 1)) * phi.v l) +
      8 * Real.pi ^ 2 / (2 * l + 1) * ∑ j ∈ Finset.Icc c.J_min J, ∑ k ∈ Finset.Ico 0 (2 * c.L - 1), ‖psi.v j l k‖ ^ 2 := by
    unfold frameSum
    linear_combination (-phi.v l ^ 2) * hsq
  rw [hg, map_mul, Complex.conj_ofReal]
  push_cast; ring

theorem smoothed_cut (hv : c.Valid jm J) (hflt : b.filters jm c = .ok (psi, phi)) (a : ℤ → ℤ → ℂ) :
    smoothed (spinOf b c) c.L phi.v a = series (spinOf b c) (c.Ls b.mr) fun l m =>
      ((Real.sqrt (4 * Real.pi / (2 * l + 1)) * phi.v l : ℝ) : ℂ) * a l m := by
  have hFl := filters_ok hv hflt b.mr
  ext θ φ
  unfold smoothed series
  refine (Finset.sum_subset (Finset.Ico_subset_Ico_right (hv.Ls_pos b.mr).2) fun l hl hl' => Finset.sum_eq_zero fun m _ => ?_).symm
  have : phi.v l = 0 := by
    by_contra h
    have := (hFl.scal l h).1
    rw [Finset.mem_Ico] at hl hl'
    omega
  beta_reduce
  rw [this]; simp

/-- **C83** energy: the maps analysis returns are the samples of functions of their own band-limits, whose energies add up to
that of the signal, as integrals over the sphere and the rotation group (no overshoot) -/
theorem C83_energy (hb : IsSphere b) (hv : c.Valid jm J) (hs : SamplingOk b c) {k : Arr2 ℝ}
    (hk : k_lam jm c.L c.lam 300 = .ok k) (hno : NoOvershoot k) {a : ℤ → ℤ → ℂ} (hspin : ∀ l m, l < |c.spin| → a l m = 0)
    (hr : c.reality = true → c.spin = 0 ∧ HermF a) {g : Grid} (hg : gridOf c.sampling c.L = .ok g)
    (hf : Samples g (series (spinOf b c) c.L a) f) :
    ∃ w s, ∃ W : ℤ → ℤ → ℤ → ℤ → ℂ, ∃ S : ℤ → ℤ → ℂ, b.analysis jm c f = .ok (w, s) ∧
      (∀ j, c.J_min ≤ j → j ≤ J → ∃ p gj, listGet w (j - c.J_min) = .ok p ∧ gridOf c.sampling (c.Lj b.mr j) = .ok gj ∧
        Samples3 gj (c.Nj b.mr j) (wseries (c.Lj b.mr j) (c.Nj b.mr j) (W j)) p) ∧
      (∃ gs, gridOf c.sampling (c.Ls b.mr) = .ok gs ∧ Samples gs (series (spinOf b c) (c.Ls b.mr) S) s) ∧
      sphInt (fun θ φ => (‖series (spinOf b c) c.L a θ φ‖ ^ 2 : ℝ)) =
        sphInt (fun θ φ => (‖series (spinOf b c) (c.Ls b.mr) S θ φ‖ ^ 2 : ℝ)) +
        ∑ j ∈ Finset.Icc c.J_min J, rotInt fun α β γ => (‖wseries (c.Lj b.mr j) (c.Nj b.mr j) (W j) α β γ‖ ^ 2 : ℝ) := by
  obtain ⟨psi, phi, hflt⟩ := filters_exist hv b
  have hFl := filters_ok hv hflt b.mr
  obtain ⟨w, s, h1, -, h3, h4⟩ := C82_maps hb hv hs hflt hr hg hf
  have hW : ∀ j, wseries (c.Lj b.mr j) (c.Nj b.mr j) (fun n l m => ((8 * Real.pi ^ 2 / (2 * l + 1) : ℝ) : ℂ) * (a l m *
      (starRingEnd ℂ) (psi.v j l (c.L - 1 + n)))) = directional c.L a fun l n => psi.v j l (c.L - 1 + n) := by
    intro j; ext α β γ
    exact wseries_directional (hv.Lj_pos b.mr j).2.2.2.1 (hv.Lj_pos b.mr j).2.2.2.2 (fun n l m _ _ _ => rfl)
      (fun l n h => ⟨(hFl.wav j l n h).2.1, (hFl.wav j l n h).2.2.1⟩) α β γ
  refine ⟨w, s, fun j n l m => ((8 * Real.pi ^ 2 / (2 * l + 1) : ℝ) : ℂ) * (a l m * (starRingEnd ℂ) (psi.v j l (c.L - 1 + n))),
    fun l m => ((Real.sqrt (4 * Real.pi / (2 * l + 1)) * phi.v l : ℝ) : ℂ) * a l m, h1, ?_, ?_, ?_⟩
  · intro j hj hJ
    rw [hW]; exact h3 j hj hJ
  · rw [← smoothed_cut hv hflt a]; exact h4
  · rw [← smoothed_cut hv hflt a]
    simp only [hW]
    obtain ⟨G, hG, h⟩ := C83_inner hv hflt a a
    have e : ∀ θ φ, series (spinOf b c) c.L (fun l m => G l * a l m) θ φ = series (spinOf b c) c.L a θ φ := by
      refine series_eq fun l m hl1 hl2 => ?_
      by_cases hls : l < |c.spin|
      · rw [hspin l m hls, mul_zero]
      · have h0 : 0 ≤ l := (abs_nonneg m).trans ((le_max_left _ _).trans hl2)
        rw [((hG k hk).1 l h0 hl1 (by omega)).2.2 hno, Complex.ofReal_one, one_mul]
    simp only [e, Complex.mul_conj'] at h
    push_cast
    exact h

/-- the signal of the examples has energy 1 -/
theorem exSig_energy : sphInt (fun θ φ => (‖series 0 3 exSig θ φ‖ ^ 2 : ℝ)) = 1 := by
  have h := sphInt_series 0 3 exSig exSig
  simp only [Complex.mul_conj'] at h
  push_cast
  rw [h]
  have e : Finset.Ico |(0 : ℤ)| 3 = Finset.Ico 0 3 := by rfl
  rw [e, Finset.sum_eq_single 1, Finset.sum_eq_single 0]
  · simp [exSig]
  · intro m _ hm; simp [exSig, hm]
  · intro h; exact absurd (Finset.mem_Icc.2 ⟨by norm_num, by norm_num⟩) h
  · intro l _ hl
    exact Finset.sum_eq_zero fun m _ => by simp [exSig, hl]
  · intro h; exact absurd (Finset.mem_Ico.2 ⟨by norm_num, by norm_num⟩) h

example (hb : IsSphere b) (reality : Bool) : ∃ w s, ∃ W : ℤ → ℤ → ℤ → ℤ → ℂ, ∃ S : ℤ → ℤ → ℂ,
    b.analysis j_max (exCfg reality 0) exImg = .ok (w, s) ∧
    sphInt (fun θ φ => (‖series 0 ((exCfg reality 0).Ls b.mr) S θ φ‖ ^ 2 : ℝ)) +
        ∑ j ∈ Finset.Icc 0 2, rotInt (fun α β γ => (‖wseries ((exCfg reality 0).Lj b.mr j) ((exCfg reality 0).Nj b.mr j) (W j) α β γ‖ ^ 2 : ℝ)) = 1 := by
  obtain ⟨g, hg, hf⟩ := exGrid
  have e : spinOf b (exCfg reality 0) = 0 := spinOf_zero rfl
  have hv := exCfg_valid reality 0
  have hT : TopScale j_max 3 (2 : ℕ) 2 := by exact_mod_cast hv.top
  have hk : k_lam j_max (exCfg reality 0).L (exCfg reality 0).lam 300 = _ := k_lam_ok hv.top (show (3 : ℤ) ≤ 300 by norm_num)
  obtain ⟨w, s, W, S, h1, -, -, h4⟩ := C83_energy (a := exSig) hb hv (exSphere_ok b reality) hk
    (noOvershoot_int (p := 2) le_rfl (by norm_num) hT (by decide) (by rw [Nat.cast_ofNat]; exact hk))
    (fun l m h => if_neg (by rw [show (exCfg reality 0).spin = 0 from rfl, abs_zero] at h; omega))
    (fun _ => ⟨rfl, exSig_herm⟩) hg (by rw [e]; exact hf)
  rw [e] at h4
  exact ⟨w, s, W, S, h1, h4.symm.trans exSig_energy⟩

end S2wav
