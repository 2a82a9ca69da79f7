import Verif.Props.Energy
import Verif.Sphere.Rotation

/-! # Rotated signals and rotated wavelets -/

namespace S2wav
open Classical Sphere

variable {jm : JMax} {c : Cfg} {J : ℤ} {b : Backend} {f f' s : Px} {w : List Px} {psi : Arr3 ℂ} {phi : Arr1 ℝ}

/-- the directional convolution is the inner product with the rotated wavelet -/
theorem directional_rotated {s L : ℤ} (a : ℤ → ℤ → ℂ) {psi : ℤ → ℤ → ℂ} (hpsi : ∀ l n, psi l n ≠ 0 → |s| ≤ l) {α β γ : ℝ} {F : ℝ → ℝ → ℂ}
    (hF : Rotated s (euler α β γ) (series s L psi) F) :
    directional L a psi α β γ = sphInt fun θ φ => series s L a θ φ * (starRingEnd ℂ) (F θ φ) := by
  rw [hF.series (euler_SU α β γ), sphInt_series]
  unfold directional
  rw [← Finset.sum_subset (Finset.Ico_subset_Ico_left (abs_nonneg s))]
  · simp only [rotCoef, wmat_euler]
  · intro l hl hl'
    rw [Finset.mem_Ico] at hl hl'
    refine Finset.sum_eq_zero fun m _ => ?_
    rw [Finset.sum_eq_zero, map_zero, mul_zero]
    intro n _
    have : psi l n = 0 := by
      by_contra h
      have := hpsi l n h
      omega
    rw [this, mul_zero]

/-- the scaling function of spin `s` as coefficients -/
noncomputable def scalF (s : ℤ) (phi : ℤ → ℝ) (l m : ℤ) : ℂ := if m = -s ∧ |s| ≤ l then (((-1) ^ s * phi l : ℝ) : ℂ) else 0

/-- smoothing is convolution with the scaling function -/
theorem smoothed_directional (s L : ℤ) (phi : ℤ → ℝ) (a : ℤ → ℤ → ℂ) (θ φ : ℝ) :
    smoothed s L phi a θ φ = directional L a (scalF s phi) φ θ 0 := by
  unfold smoothed series directional
  rw [← Finset.sum_subset (Finset.Ico_subset_Ico_left (abs_nonneg s)) (f := fun l => ∑ m ∈ Finset.Icc (-l) l, _)]
  · refine Finset.sum_congr rfl fun l hl => Finset.sum_congr rfl fun m _ => ?_
    have hs := (Finset.mem_Ico.1 hl).1
    have hs' := abs_le.1 hs
    rw [Finset.sum_eq_single (-s)]
    · rw [scalF, if_pos ⟨rfl, hs⟩, sY_wmat, wmat_euler, map_mul, Complex.conj_ofReal]
      have hl0 : (0 : ℝ) ≤ l := by exact_mod_cast (abs_nonneg s).trans hs
      have hpi := Real.pi_pos
      have e : Real.sqrt (4 * Real.pi / (2 * l + 1)) * Real.sqrt ((2 * l + 1) / (4 * Real.pi)) = 1 := by
        rw [← Real.sqrt_mul (by positivity), show 4 * Real.pi / (2 * (l : ℝ) + 1) * ((2 * l + 1) / (4 * Real.pi)) = 1 by field_simp, Real.sqrt_one]
      have e' : ((Real.sqrt (4 * Real.pi / (2 * l + 1)) : ℝ) : ℂ) * ((Real.sqrt ((2 * l + 1) / (4 * Real.pi)) : ℝ) : ℂ) = 1 := by
        rw [← Complex.ofReal_mul, e, Complex.ofReal_one]
      beta_reduce
      rw [Complex.ofReal_mul, Complex.ofReal_mul, Complex.ofReal_mul]
      linear_combination (phi l * a l m * (((-1 : ℝ) ^ s : ℝ) : ℂ) * (starRingEnd ℂ) (wD l m (-s) φ θ 0)) * e'
    · intro n _ hn
      rw [scalF, if_neg (fun h => hn h.1), mul_zero]
    · intro h; exact absurd (Finset.mem_Icc.2 ⟨by omega, by omega⟩) h
  · intro l hl hl'
    rw [Finset.mem_Ico] at hl hl'
    refine Finset.sum_eq_zero fun m _ => ?_
    rw [Finset.sum_eq_zero, map_zero, mul_zero]
    intro n _
    rw [scalF, if_neg (by omega), mul_zero]

/-- **C84** the maps are inner products: pixel `(y, t, x)` of the wavelet map of scale `j` is the integral over the sphere of the
signal times the conjugate of wavelet `j` rotated by the Euler angles of the pixel, and pixel `(t, x)` of the scaling map that
with the scaling function moved to the direction of the pixel -/
theorem C84_inner_products (hb : IsSphere b) (hv : c.Valid jm J) (hs : SamplingOk b c) (hflt : b.filters jm c = .ok (psi, phi))
    {a : ℤ → ℤ → ℂ} (hr : c.reality = true → c.spin = 0 ∧ HermF a) {g : Grid} (hg : gridOf c.sampling c.L = .ok g)
    (hf : Samples g (series (spinOf b c) c.L a) f) :
    ∃ w s, b.analysis jm c f = .ok (w, s) ∧
      (∀ j, c.J_min ≤ j → j ≤ J → ∃ p gj, listGet w (j - c.J_min) = .ok p ∧ gridOf c.sampling (c.Lj b.mr j) = .ok gj ∧
        ∃ P : ℝ → ℝ → ℝ → ℝ → ℝ → ℂ,
          (∀ α β γ, Rotated (spinOf b c) (euler α β γ) (series (spinOf b c) c.L fun l m => psi.v j l (c.L - 1 + m)) (P α β γ)) ∧
          Samples3 gj (c.Nj b.mr j) (fun α β γ => sphInt fun θ φ => series (spinOf b c) c.L a θ φ * (starRingEnd ℂ) (P α β γ θ φ)) p) ∧
      ∃ gs, gridOf c.sampling (c.Ls b.mr) = .ok gs ∧ ∃ Q : ℝ → ℝ → ℝ → ℝ → ℂ,
        (∀ θ' φ', Rotated (spinOf b c) (euler φ' θ' 0) (series (spinOf b c) c.L (scalF (spinOf b c) phi.v)) (Q θ' φ')) ∧
        Samples gs (fun θ' φ' => sphInt fun θ φ => series (spinOf b c) c.L a θ φ * (starRingEnd ℂ) (Q θ' φ' θ φ)) s := by
  have hFl := filters_ok hv hflt b.mr
  obtain ⟨w, s, h1, -, h3, gs, hgs, h4⟩ := C82_maps hb hv hs hflt hr hg hf
  refine ⟨w, s, h1, fun j hj hJ => ?_, gs, hgs, ?_⟩
  · obtain ⟨p, gj, a1, a2, a3, a4⟩ := h3 j hj hJ
    have hR := fun α β γ => rotCoef_rotated (s := spinOf b c) (L := c.L) (euler_SU α β γ) fun l m => psi.v j l (c.L - 1 + m)
    refine ⟨p, gj, a1, a2, _, hR, a3, fun y hy t ht x hx => ?_⟩
    rw [a4 y hy t ht x hx]
    refine directional_rotated a (fun l n h => ?_) (hR _ _ _)
    exact (abs_spinOf b c).trans (hFl.wav j l n h).2.2.2.2.2
  · have hR := fun θ φ => rotCoef_rotated (s := spinOf b c) (L := c.L) (euler_SU φ θ 0) (scalF (spinOf b c) phi.v)
    refine ⟨_, hR, h4.1, fun t ht x hx => ?_⟩
    rw [h4.2 t ht x hx]
    refine (smoothed_directional _ _ _ _ _ _).trans (directional_rotated a (fun l n h => ?_) (hR _ _))
    by_contra h'
    exact h (if_neg fun h'' => h' h''.2)

/-! ## Rotating the signal -/

theorem rotCoef_herm {g : M2} (hg : g.SU) {a : ℤ → ℤ → ℂ} (ha : HermF a) : HermF (rotCoef g a) := by
  obtain ⟨α, β, γ, -, -, rfl⟩ := euler_exists hg
  intro l m
  have e1 : rotCoef (euler α β γ) a l (-m) = ∑ k ∈ Finset.Icc (-l) l, wmat l (-m) (-k) (euler α β γ) * a l (-k) := by
    unfold rotCoef
    refine Finset.sum_nbij' (fun k => -k) (fun k => -k) (fun k hk => ?_) (fun k hk => ?_) (fun k _ => neg_neg k) (fun k _ => neg_neg k) (fun k _ => ?_)
    · rw [Finset.mem_Icc] at hk ⊢; omega
    · rw [Finset.mem_Icc] at hk ⊢; omega
    · rw [neg_neg]
  rw [e1, rotCoef, map_sum, Finset.mul_sum]
  refine Finset.sum_congr rfl fun k _ => ?_
  rw [ha l k, wmat_euler, wmat_euler]
  unfold wD
  rw [wignerd_neg, map_mul, map_mul, map_mul, conj_cis, conj_cis, Complex.conj_ofReal]
  push_cast
  rw [neg_mul, neg_mul]
  have e : (-1 : ℂ) ^ (m - k) * (-1) ^ k = (-1) ^ m := by
    rw [← zpow_add₀ (by norm_num), sub_add_cancel]
  rw [← e]; ring

theorem directional_rotCoef {L : ℤ} {g : M2} (hg : g.SU) (a psi : ℤ → ℤ → ℂ) {α β γ α' β' γ' : ℝ}
    (h : euler α β γ = g.mul (euler α' β' γ')) : directional L (rotCoef g a) psi α β γ = directional L a psi α' β' γ' := by
  unfold directional
  refine Finset.sum_congr rfl fun l _ => ?_
  have e1 : ∀ m ∈ Finset.Icc (-l) l, rotCoef g a l m * (starRingEnd ℂ) (∑ n ∈ Finset.Icc (-l) l, wD l m n α β γ * psi l n) =
      ∑ k ∈ Finset.Icc (-l) l, ∑ k' ∈ Finset.Icc (-l) l, a l k * (starRingEnd ℂ) (∑ n ∈ Finset.Icc (-l) l, wD l k' n α' β' γ' * psi l n) *
        ((starRingEnd ℂ) (wmat l m k' g) * wmat l m k g) := by
    intro m hm
    have e2 : ∑ n ∈ Finset.Icc (-l) l, wD l m n α β γ * psi l n = ∑ k' ∈ Finset.Icc (-l) l, wmat l m k' g *
        ∑ n ∈ Finset.Icc (-l) l, wD l k' n α' β' γ' * psi l n := by
      simp only [← wmat_euler, h]
      simp only [Finset.mul_sum]
      rw [Finset.sum_comm]
      refine Finset.sum_congr rfl fun n hn => ?_
      rw [wmat_mul (abs_le.2 (Finset.mem_Icc.1 hm)) (abs_le.2 (Finset.mem_Icc.1 hn)), Finset.sum_mul]
      refine Finset.sum_congr rfl fun k _ => ?_
      ring
    rw [e2, rotCoef, Finset.sum_mul, map_sum]
    refine Finset.sum_congr rfl fun k _ => ?_
    rw [Finset.mul_sum]
    refine Finset.sum_congr rfl fun k' _ => ?_
    rw [map_mul]; ring
  rw [Finset.sum_congr rfl e1, Finset.sum_comm]
  refine Finset.sum_congr rfl fun k hk => ?_
  rw [Finset.sum_comm, Finset.sum_eq_single k]
  · rw [← Finset.mul_sum, wmat_unitary (abs_le.2 (Finset.mem_Icc.1 hk)) (abs_le.2 (Finset.mem_Icc.1 hk)) hg.adj_mul, if_pos rfl, mul_one]
  · intro k' hk' hne
    rw [← Finset.mul_sum, wmat_unitary (abs_le.2 (Finset.mem_Icc.1 hk')) (abs_le.2 (Finset.mem_Icc.1 hk)) hg.adj_mul, if_neg hne, mul_zero]
  · intro h; exact absurd hk h

/-- a function on the rotation group turned by `g` -/
def Turned (g : M2) (W W' : ℝ → ℝ → ℝ → ℂ) : Prop :=
  ∀ α β γ α' β' γ', euler α β γ = g.mul (euler α' β' γ') → W' α β γ = W α' β' γ'

/-- **C85** rotating the signal rotates its maps: the wavelet and scaling maps of a signal and of the same signal rotated by any
`α₀, β₀, γ₀` are samples of functions, of the band-limits of the maps, that differ by the same rotation -/
theorem C85_rotation (hb : IsSphere b) (hv : c.Valid jm J) (hs : SamplingOk b c) {a : ℤ → ℤ → ℂ}
    (hr : c.reality = true → c.spin = 0 ∧ HermF a) {g : Grid} (hg : gridOf c.sampling c.L = .ok g) (α₀ β₀ γ₀ : ℝ) {F' : ℝ → ℝ → ℂ}
    (hF : Rotated (spinOf b c) (euler α₀ β₀ γ₀) (series (spinOf b c) c.L a) F')
    (hf : Samples g (series (spinOf b c) c.L a) f) (hf' : Samples g F' f') :
    ∃ w s w' s', b.analysis jm c f = .ok (w, s) ∧ b.analysis jm c f' = .ok (w', s') ∧
      (∀ j, c.J_min ≤ j → j ≤ J → ∃ p p' gj, ∃ W W' : ℤ → ℤ → ℤ → ℂ,
        listGet w (j - c.J_min) = .ok p ∧ listGet w' (j - c.J_min) = .ok p' ∧ gridOf c.sampling (c.Lj b.mr j) = .ok gj ∧
        Samples3 gj (c.Nj b.mr j) (wseries (c.Lj b.mr j) (c.Nj b.mr j) W) p ∧
        Samples3 gj (c.Nj b.mr j) (wseries (c.Lj b.mr j) (c.Nj b.mr j) W') p' ∧
        Turned (euler α₀ β₀ γ₀) (wseries (c.Lj b.mr j) (c.Nj b.mr j) W) (wseries (c.Lj b.mr j) (c.Nj b.mr j) W')) ∧
      ∃ gs, ∃ S S' : ℤ → ℤ → ℂ, gridOf c.sampling (c.Ls b.mr) = .ok gs ∧
        Samples gs (series (spinOf b c) (c.Ls b.mr) S) s ∧ Samples gs (series (spinOf b c) (c.Ls b.mr) S') s' ∧
        Rotated (spinOf b c) (euler α₀ β₀ γ₀) (series (spinOf b c) (c.Ls b.mr) S) (series (spinOf b c) (c.Ls b.mr) S') := by
  have hSU := euler_SU α₀ β₀ γ₀
  obtain ⟨psi, phi, hflt⟩ := filters_exist hv b
  have hFl := filters_ok hv hflt b.mr
  rw [hF.series hSU] at hf'
  obtain ⟨w, s, h1, -, h3, gs, hgs, h4⟩ := C82_maps hb hv hs hflt hr hg hf
  obtain ⟨w', s', h1', -, h3', gs', hgs', h4'⟩ := C82_maps hb hv hs hflt (fun h => ⟨(hr h).1, rotCoef_herm hSU (hr h).2⟩) hg hf'
  have hW : ∀ (a : ℤ → ℤ → ℂ) j, wseries (c.Lj b.mr j) (c.Nj b.mr j) (fun n l m => ((8 * Real.pi ^ 2 / (2 * l + 1) : ℝ) : ℂ) * (a l m *
      (starRingEnd ℂ) (psi.v j l (c.L - 1 + n)))) = directional c.L a fun l n => psi.v j l (c.L - 1 + n) := by
    intro a j; ext α β γ
    exact wseries_directional (hv.Lj_pos b.mr j).2.2.2.1 (hv.Lj_pos b.mr j).2.2.2.2 (fun n l m _ _ _ => rfl)
      (fun l n h => ⟨(hFl.wav j l n h).2.1, (hFl.wav j l n h).2.2.1⟩) α β γ
  refine ⟨w, s, w', s', h1, h1', fun j hj hJ => ?_, gs, fun l m => ((Real.sqrt (4 * Real.pi / (2 * l + 1)) * phi.v l : ℝ) : ℂ) * a l m,
    fun l m => ((Real.sqrt (4 * Real.pi / (2 * l + 1)) * phi.v l : ℝ) : ℂ) * rotCoef (euler α₀ β₀ γ₀) a l m, hgs, ?_, ?_, ?_⟩
  · obtain ⟨p, gj, a1, a2, a3⟩ := h3 j hj hJ
    obtain ⟨p', gj', a1', a2', a3'⟩ := h3' j hj hJ
    rw [a2] at a2'
    cases a2'
    refine ⟨p, p', gj, _, _, a1, a1', a2, by rw [hW a j]; exact a3, by rw [hW _ j]; exact a3', ?_⟩
    rw [hW, hW]
    intro α β γ α' β' γ' h
    exact directional_rotCoef hSU a _ h
  · rw [← smoothed_cut hv hflt a]; exact h4
  · rw [← smoothed_cut hv hflt _]
    rw [hgs] at hgs'
    cases hgs'
    exact h4'
  · have := rotCoef_rotated (s := spinOf b c) (L := c.Ls b.mr) hSU fun l m => ((Real.sqrt (4 * Real.pi / (2 * l + 1)) * phi.v l : ℝ) : ℂ) * a l m
    convert this using 3 with l
    ext m
    unfold rotCoef
    rw [Finset.mul_sum]
    refine Finset.sum_congr rfl fun k _ => ?_
    ring

/-- the signal `cos θ` of the other examples turned over to the x axis -/
noncomputable def exTurned (θ φ : ℝ) : ℂ := ((Real.sqrt (3 / (4 * Real.pi)) * (Real.sin θ * Real.cos φ) : ℝ) : ℂ)

theorem exTurned_rotated : Rotated 0 (euler 0 (Real.pi / 2) 0) (series 0 3 exSig) exTurned := by
  rw [rotated_iff]
  intro θ φ θ' φ' h
  have h1 := congrArg (fun v : ℝ × ℝ × ℝ => v.1) h
  simp only [vec, spin3, spinZ, spinY, Real.cos_zero, Real.sin_zero, Real.cos_pi_div_two, Real.sin_pi_div_two] at h1
  rw [exSig_series, exTurned, h1]
  norm_num

example (hb : IsSphere b) (reality : Bool) : ∃ f' w s w' s', f'.v [1, 0] ≠ f'.v [1, 1] ∧
    b.analysis j_max (exCfg reality 0) exImg = .ok (w, s) ∧ b.analysis j_max (exCfg reality 0) f' = .ok (w', s') ∧
    ∃ p p' gj, ∃ W W' : ℤ → ℤ → ℤ → ℂ, listGet w 1 = .ok p ∧ listGet w' 1 = .ok p' ∧
      Samples3 gj ((exCfg reality 0).Nj b.mr 1) (wseries ((exCfg reality 0).Lj b.mr 1) ((exCfg reality 0).Nj b.mr 1) W) p ∧
      Samples3 gj ((exCfg reality 0).Nj b.mr 1) (wseries ((exCfg reality 0).Lj b.mr 1) ((exCfg reality 0).Nj b.mr 1) W') p' ∧
      Turned (euler 0 (Real.pi / 2) 0) (wseries ((exCfg reality 0).Lj b.mr 1) ((exCfg reality 0).Nj b.mr 1) W)
        (wseries ((exCfg reality 0).Lj b.mr 1) ((exCfg reality 0).Nj b.mr 1) W') := by
  obtain ⟨g, hg, hf⟩ := exGrid
  have e : spinOf b (exCfg reality 0) = 0 := spinOf_zero rfl
  have hg' := hg
  unfold gridOf at hg'
  rw [mw_lower] at hg'
  cases hg'
  obtain ⟨w, s, w', s', h1, h2, h3, -⟩ := C85_rotation (a := exSig) (F' := exTurned) hb (exCfg_valid reality 0) (exSphere_ok b reality)
    (fun _ => ⟨rfl, exSig_herm⟩) hg 0 (Real.pi / 2) 0 (by rw [e]; exact exTurned_rotated) (by rw [e]; exact hf)
    (f' := ⟨[3, 5], fun i => match i with
      | [t, x] => exTurned ((2 * t + 1) * Real.pi / (2 * (3 : ℤ) - 1)) (node 5 x)
      | _ => 0⟩) ⟨rfl, fun t _ x _ => rfl⟩
  obtain ⟨p, p', gj, W, W', a1, a2, -, a3, a4, a5⟩ := h3 1 (by norm_num [exCfg]) (by norm_num)
  refine ⟨_, w, s, w', s', ?_, h1, h2, p, p', gj, W, W', a1, a2, a3, a4, a5⟩
  show exTurned ((2 * (1 : ℤ) + 1) * Real.pi / (2 * (3 : ℤ) - 1)) (node 5 0) ≠ exTurned ((2 * (1 : ℤ) + 1) * Real.pi / (2 * (3 : ℤ) - 1)) (node 5 1)
  unfold exTurned node
  have hpi := Real.pi_pos
  have c0 : (0 : ℝ) < Real.sqrt (3 / (4 * Real.pi)) := Real.sqrt_pos.2 (by positivity)
  have c1 : 0 < Real.sin ((2 * (1 : ℤ) + 1) * Real.pi / (2 * (3 : ℤ) - 1)) := by
    apply Real.sin_pos_of_pos_of_lt_pi
    · push_cast; positivity
    · push_cast; linarith
  have c2 : Real.cos (2 * Real.pi * (1 : ℤ) / (5 : ℤ)) < Real.cos (2 * Real.pi * (0 : ℤ) / (5 : ℤ)) := by
    apply Real.cos_lt_cos_of_nonneg_of_le_pi
    · simp
    · push_cast; linarith
    · push_cast; linarith
  intro h
  have h' := Complex.ofReal_injective h
  have h'' := mul_left_cancel₀ c1.ne' (mul_left_cancel₀ c0.ne' h')
  linarith

/-- pixels of the wavelet map as integrals -/
example (hb : IsSphere b) (hflt : b.filters j_max (exCfg false 0) = .ok (psi, phi)) : ∃ w s p gj, ∃ P : ℝ → ℝ → ℝ → ℝ → ℝ → ℂ,
    b.analysis j_max (exCfg false 0) exImg = .ok (w, s) ∧
    listGet w 1 = .ok p ∧
    (∀ α β γ, Rotated 0 (euler α β γ) (series 0 3 fun l m => psi.v 1 l (2 + m)) (P α β γ)) ∧
    Samples3 gj ((exCfg false 0).Nj b.mr 1) (fun α β γ => sphInt fun θ φ =>
      ((Real.sqrt (3 / (4 * Real.pi)) * Real.cos θ : ℝ) : ℂ) * (starRingEnd ℂ) (P α β γ θ φ)) p := by
  obtain ⟨g, hg, hf⟩ := exGrid
  have e : spinOf b (exCfg false 0) = 0 := spinOf_zero rfl
  obtain ⟨w, s, h1, h2, -⟩ := C84_inner_products (a := exSig) hb (exCfg_valid false 0) (exSphere_ok b false) hflt (by simp [exCfg]) hg (by rw [e]; exact hf)
  obtain ⟨p, gj, a1, -, P, a3, a4⟩ := h2 1 (by norm_num [exCfg]) (by norm_num)
  rw [e] at a3 a4
  refine ⟨w, s, p, gj, P, h1, a1, a3, ?_⟩
  have e3 : (exCfg false 0).L = 3 := rfl
  simpa only [e3, exSig_series] using a4

end S2wav
