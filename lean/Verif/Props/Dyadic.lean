import Verif.Lemmas.Table2
import Verif.Lemmas.Table3
import Verif.Lemmas.Table5
import Verif.Lemmas.Table8
import Verif.Lemmas.Table10
import Verif.Props.Equiv

/-! # Integer dilations `lam = 2, …, 10` (C62, C63)

In exact arithmetic `k_lam` stays below 1 for all band-limits up to a limit depending on `lam` (2049 for the default `lam = 2`) and
exceeds 1 for all larger ones.  So below the limit the conditions "without overshoot" of C09, C11, C13, C15, C21, C22, C24, C29 are
met, and above it admissibility and reconstruction fail (by about 1e-20, far below double precision). -/

namespace S2wav
open Classical

/-- the largest band-limit without overshoot -/
def maxL : ℕ → ℤ
  | 2 => 2049
  | 3 => 2188
  | 4 => 1025
  | 5 => 626
  | 6 => 220
  | 7 => 344
  | 8 => 513
  | 9 => 730
  | 10 => 1001
  | _ => 0

/-- the scale at which the first overshoot occurs -/
def overJ : ℕ → ℤ
  | 2 => 12
  | 3 => 8
  | 4 => 6
  | 5 => 5
  | 6 => 4
  | 7 => 4
  | 8 => 4
  | 9 => 4
  | 10 => 4
  | _ => 0

section
variable {p : ℕ} {L N J J_min : ℤ} {jm : JMax}

/-- the table, all nine values of `lam` -/
theorem kval_le_table (hp : 2 ≤ p) (hp' : p ≤ 10) {j l : ℤ} (hl : l < maxL p) : kval p 300 j l ≤ 1 := by
  interval_cases p <;> simp only [maxL] at hl <;> push_cast
  exacts [kval_le_2 (by omega), kval_le_3 (by omega), kval_le_4 (by omega), kval_le_5 (by omega), kval_le_6 (by omega),
    kval_le_7 (by omega), kval_le_8 (by omega), kval_le_9 (by omega), kval_le_10 (by omega)]

theorem kval_gt_table (hp : 2 ≤ p) (hp' : p ≤ 10) : 1 < kval p 300 (overJ p) (maxL p) := by
  interval_cases p <;> simp only [maxL, overJ] <;> push_cast
  exacts [kval_gt_2, kval_gt_3, kval_gt_4, kval_gt_5, kval_gt_6, kval_gt_7, kval_gt_8, kval_gt_9, kval_gt_10]

theorem maxL_bounds (hp : 2 ≤ p) (hp' : p ≤ 10) :
    220 ≤ maxL p ∧ 4 ≤ overJ p ∧ (p : ℝ) ^ (overJ p - 1) < maxL p ∧ (maxL p : ℝ) < (p : ℝ) ^ overJ p := by
  interval_cases p <;> simp only [maxL, overJ] <;> norm_num

theorem one_lt_cast (hp : 2 ≤ p) : (1 : ℝ) < p := by exact_mod_cast (by omega : 1 < p)

theorem noOvershoot_int (hp : 2 ≤ p) (hp' : p ≤ 10) (hT : TopScale jm L p J) (hL : L ≤ maxL p) {k : Arr2 ℝ}
    (hk : k_lam jm L p 300 = .ok k) : NoOvershoot k := by
  rw [k_lam_ok hT (by norm_num)] at hk
  cases hk
  intro j l
  by_cases hr : 0 ≤ j ∧ j < J + 2 ∧ 0 ≤ l ∧ l < L
  · rw [Arr2.of_v _ _ _ _ _ hr]
    exact kval_le_table hp hp' (by omega)
  · rw [(Arr2.of (J + 2) L (kval p 300)).junk j l hr]
    norm_num

/-- **C62** for `lam = 2, …, 10` the generating function never exceeds 1, at any scale and degree, for every band-limit up to
`maxL`. -/
theorem C62_no_overshoot (hp : 2 ≤ p) (hp' : p ≤ 10) (h1 : 1 ≤ L) (h2 : L ≤ maxL p) :
    ∃ k, k_lam j_max L p 300 = .ok k ∧ k_lam_jax j_max L p 300 = .ok k ∧ ∀ j l, 0 ≤ k.v j l ∧ k.v j l ≤ 1 := by
  have hlam := one_lt_cast hp
  obtain ⟨k, hk, hk', -, -, hk0, -⟩ := C06_k_lam h1 hlam (j_max_eq h1 hlam) (q := 300)
    (by norm_num)
  have hno := noOvershoot_int hp hp' (TopScale.of_j_max h1 hlam (j_max_eq h1 hlam)) h2 hk
  exact ⟨k, hk, hk', fun j l => ⟨hk0 j l, hno j l⟩⟩

example : ∃ k, k_lam j_max 2049 2 300 = .ok k ∧ k.v 11 1030 ≤ 1 := by
  obtain ⟨k, h, -, hk⟩ := C62_no_overshoot (p := 2) (L := 2049) le_rfl (by norm_num) (by norm_num) le_rfl
  exact ⟨k, by exact_mod_cast h, (hk _ _).2⟩

example : ∃ k, k_lam j_max 2188 3 300 = .ok k ∧ k.v 7 730 ≤ 1 := by
  obtain ⟨k, h, -, hk⟩ := C62_no_overshoot (p := 3) (L := 2188) (by norm_num) (by norm_num) (by norm_num) le_rfl
  exact ⟨k, by exact_mod_cast h, (hk _ _).2⟩

/-- **C62** hence the filters are exactly admissible, whichever of the six routines built them -/
theorem C62_admissible (hp : 2 ≤ p) (hp' : p ≤ 10) (h1 : 1 ≤ L) (h2 : L ≤ maxL p) (hN : 1 ≤ N) (hJ : j_max L p = .ok J) {l : ℤ}
    (hl0 : 0 ≤ l) (hl1 : l < L) :
    (∀ psi phi, AxBuilt j_max L J_min p psi phi → phi.v l ^ 2 + ∑ j ∈ Finset.Icc J_min J, psi.v j l ^ 2 = 1) ∧
    ∀ spin spin0 psi phi, DirBuilt j_max L N J_min p spin spin0 psi phi → |spin| ≤ l → |spin0| ≤ l →
      frameSum J_min J L psi phi l =
        if spin0 = 0 then 1 else ((l + spin0).toNat.factorial : ℝ) / ((l - spin0).toNat.factorial : ℝ) := by
  have hlam := one_lt_cast hp
  have hT := TopScale.of_j_max h1 hlam hJ
  have hk := k_lam_ok hT (show (3 : ℤ) ≤ 300 by norm_num)
  have hno := noOvershoot_int hp hp' hT h2 hk
  exact ⟨fun psi phi h => (C09_admissible h1 hlam hJ hk).2 h hno l hl0 hl1,
    fun spin spin0 psi phi h a b => (C11_admissible h1 hN hlam hJ hk).2.1 h hno l hl0 hl1 a b⟩

theorem j_max_two {n L : ℤ} (hn : 1 ≤ n) (h1 : (2 : ℝ) ^ (n - 1) < L) (h2 : (L : ℝ) ≤ 2 ^ n) : j_max L 2 = .ok n := by
  have hL : 1 ≤ L := by
    have : (0 : ℝ) < L := (zpow_pos (by norm_num) _).trans h1
    exact_mod_cast this
  rw [C01_j_max hL (by norm_num)]
  refine ⟨by omega, h2, fun J' h0 h => ?_⟩
  by_contra hc
  have := zpow_le_zpow_right₀ (by norm_num : (1 : ℝ) ≤ 2) (show J' ≤ n - 1 by omega)
  linarith

theorem j_max_2049 : j_max 2049 2 = .ok 12 := j_max_two (by norm_num) (by norm_num) (by norm_num)
theorem j_max_2050 : j_max 2050 2 = .ok 12 := j_max_two (by norm_num) (by norm_num) (by norm_num)

example : ∃ psi phi, DirBuilt j_max 2049 5 2 2 2 0 psi phi ∧ frameSum 2 12 2049 psi phi 1025 = 1 := by
  have hT := TopScale.of_j_max (L := 2049) (by norm_num) (by norm_num) j_max_2049
  have hb := filters_directional_vectorised_ok hT (N := 5) (J_min := 2) (by norm_num) (by norm_num) (by norm_num) 2
  exact ⟨_, _, Or.inr (Or.inl hb), ((C62_admissible (p := 2) (L := 2049) (N := 5) le_rfl (by norm_num) (by norm_num) le_rfl (by norm_num)
    (by exact_mod_cast j_max_2049) (by norm_num) (by norm_num)).2 2 0 _ _ (by exact_mod_cast Or.inr (Or.inl hb))
    (by norm_num) (by norm_num)).trans (if_pos rfl)⟩

end

section
variable {p : ℕ} {jm : JMax} {c : Cfg} {J : ℤ} {b : Backend}

/-- **C62** and synthesis inverts analysis exactly for all six pairs of routines, for any top scale -/
theorem C62_reconstruction (hw : b.Works jm c J) (hp : 2 ≤ p) (hp' : p ≤ 10) (hlam : c.lam = p) (hL : c.L ≤ maxL p) {f : Px} {flm : Arr2 ℂ}
    (hbl : BL2 c.L c.spin flm) (hh : c.reality = true → Herm2 flm) (hf : (b.engine c).sphI flm c.L = .ok f) :
    ∃ w s, b.analysis jm c f = .ok (w, s) ∧ b.synthesis jm c w s = .ok f := by
  have hT := hw.valid.top
  have hk := k_lam_ok hT (show (3 : ℤ) ≤ 300 by norm_num)
  refine C24_reconstruction hw.valid b hw.ready hw.std hw.exact hw.trip hk ?_ hbl hh hf
  rw [hlam] at hT hk
  exact (by rw [hlam]; exact noOvershoot_int hp hp' hT hL hk)

/-- **C62** and the transform is a tight frame -/
theorem C62_tight_frame (hw : b.Works jm c J) (hp : 2 ≤ p) (hp' : p ≤ 10) (hlam : c.lam = p) (hL : c.L ≤ maxL p) {f s : Px} {w : List Px} {W : ℤ → Arr3 ℂ}
    {S flm : Arr2 ℂ} (h : b.analysis jm c f = .ok (w, s)) (hc : b.Coeffs c J w s W S)
    (hf : (b.engine c).sphF f c.L = .ok flm) (hbl : BL2 c.L c.spin flm) :
    ∑ l ∈ Finset.Ico 0 c.L, ∑ m ∈ Finset.Ioo (-c.L) c.L, ‖co2 flm l m‖ ^ 2 =
      ∑ l ∈ Finset.Ico 0 c.L, ∑ m ∈ Finset.Ioo (-c.L) c.L, (‖co2 S l m‖ ^ 2 + ∑ j ∈ Finset.Icc c.J_min J,
        ∑ n ∈ Finset.Ioo (-c.L) c.L, (2 * l + 1) / (8 * Real.pi ^ 2) * ‖co3 (W j) n l m‖ ^ 2) := by
  have hT := hw.valid.top
  have hk := k_lam_ok hT (show (3 : ℤ) ≤ 300 by norm_num)
  refine C29_tight_frame hw h hc hf hbl hk ?_
  rw [hlam] at hT hk
  exact (by rw [hlam]; exact noOvershoot_int hp hp' hT hL hk)

/-- **C62** and the vectorised and looped NumPy routines are the same functions -/
theorem C62_base_eq_looped {E : BaseFFT} {mr : Bool} (hw : (Backend.base E mr).Works jm c J)
    (hw' : (Backend.looped E mr).Works jm c J) (hp : 2 ≤ p) (hp' : p ≤ 10) (hlam : c.lam = p) (hL : c.L ≤ maxL p) :
    (∀ f, Base.analysis jm E f c.L c.N c.J_min c.lam c.spin 0 c.sampling c.nside c.reality mr false =
      Base.analysis_looped jm E f c.L c.N c.J_min c.lam c.spin 0 c.sampling c.nside c.reality mr) ∧
    ∀ w s, Base.synthesis jm E w s c.L c.N c.J_min c.lam c.spin 0 c.sampling c.nside c.reality mr =
      Base.synthesis_looped jm E w s c.L c.N c.J_min c.lam c.spin 0 c.sampling c.nside c.reality mr := by
  have hT := hw.valid.top
  have hk := k_lam_ok hT (show (3 : ℤ) ≤ 300 by norm_num)
  have hno : NoOvershoot (Arr2.of (J + 2) c.L (kval c.lam 300)) := by
    rw [hlam] at hT hk ⊢
    exact noOvershoot_int hp hp' hT hL hk
  exact ⟨C21_base_eq_looped hw.valid hw.ready hw'.ready hw.std hk hno,
    C22_base_eq_looped hw.valid hw.ready hw'.ready hw.std hw'.trip.2 hk hno⟩

/-- a configuration with a given band-limit -/
noncomputable def dyCfg (L : ℤ) (reality : Bool) : Cfg := ⟨L, 3, 2, 2, 0, "mw", none, reality⟩

theorem dyCfg_works {L : ℤ} (h1 : 2049 ≤ L) (h2 : L ≤ 2050) (hb : Toy.IsToy b) (reality : Bool) :
    b.Works j_max (dyCfg L reality) 12 := by
  have hJ : j_max L 2 = .ok 12 := by
    rcases (by omega : L = 2049 ∨ L = 2050) with rfl | rfl
    · exact j_max_2049
    · exact j_max_2050
  have hv : (dyCfg L reality).Valid j_max 12 :=
    ⟨TopScale.of_j_max (by show 1 ≤ L; omega) (by norm_num [dyCfg]) hJ, by norm_num [dyCfg], by show 3 ≤ L; omega,
      by norm_num [dyCfg], by norm_num [dyCfg]⟩
  have hg := Toy.good hv rfl hb
  exact ⟨hv, hg.ready, hg.std, hg.exact, hg.trip⟩

/-- the coefficients that are 1 at degree `d`, order 0, and zero elsewhere -/
noncomputable def deltaFlm (L d : ℤ) : Arr2 ℂ := Arr2.of L (2 * L - 1) fun l i => if l = d ∧ i = L - 1 then 1 else 0

theorem deltaFlm_co {L d : ℤ} (h0 : 0 ≤ d) (h1 : d < L) (l m : ℤ) : co2 (deltaFlm L d) l m = if l = d ∧ m = 0 then 1 else 0 := by
  unfold deltaFlm
  rw [co2_of]
  split_ifs <;> first | rfl | omega

theorem deltaFlm_bl {L d spin : ℤ} (h0 : 0 ≤ d) (h1 : d < L) (hs : |spin| ≤ d) : BL2 L spin (deltaFlm L d) := by
  refine ⟨rfl, rfl, fun l m h => ?_⟩
  rw [deltaFlm_co h0 h1, if_neg]
  rintro ⟨rfl, rfl⟩
  rw [abs_zero] at h
  omega

theorem deltaFlm_herm {L d : ℤ} (h0 : 0 ≤ d) (h1 : d < L) : Herm2 (deltaFlm L d) := by
  intro l m
  rw [deltaFlm_co h0 h1, deltaFlm_co h0 h1]
  by_cases hm : m = 0
  · subst hm; simp only [neg_zero, zpow_zero, one_mul]; split_ifs <;> simp
  · rw [if_neg (by omega), if_neg (by omega)]; simp

example (hb : Toy.IsToy b) (reality : Bool) : ∃ f w s, b.analysis j_max (dyCfg 2049 reality) f = .ok (w, s) ∧
    b.synthesis j_max (dyCfg 2049 reality) w s = .ok f ∧ (b.engine (dyCfg 2049 reality)).sphF f 2049 = .ok (deltaFlm 2049 1030) := by
  have hw := dyCfg_works (L := 2049) le_rfl (by norm_num) hb reality
  obtain ⟨f, hf, hf'⟩ := hw.exact.sph 2049 (deltaFlm 2049 1030) (by norm_num)
    (deltaFlm_bl (by norm_num) (by norm_num) (by norm_num [dyCfg])) (fun _ => deltaFlm_herm (by norm_num) (by norm_num))
  obtain ⟨w, s, h1, h2⟩ := C62_reconstruction (p := 2) hw le_rfl (by norm_num) (by simp [dyCfg]) (by norm_num [dyCfg, maxL])
    (deltaFlm_bl (by norm_num) (by norm_num [dyCfg]) (by norm_num [dyCfg]))
    (fun _ => deltaFlm_herm (d := 1030) (by norm_num) (by norm_num [dyCfg])) hf
  exact ⟨f, w, s, h1, h2, hf'⟩

/-! ## Larger band-limits -/

theorem top_of_L {L : ℤ} (hp : 2 ≤ p) (hp' : p ≤ 10) (hT : TopScale jm L p J) (hL : maxL p < L) : overJ p ≤ J := by
  by_contra hc
  obtain ⟨-, -, h3, -⟩ := maxL_bounds hp hp'
  have h1 := hT.edge hL
  have h2 := zpow_le_zpow_right₀ (one_lt_cast hp).le (show J ≤ overJ p - 1 by omega)
  linarith

/-- **C63** for every band-limit above `maxL` the generating function exceeds 1, at scale `overJ` and degree `maxL` (scale 12 and
degree 2049 for `lam = 2`). -/
theorem C63_overshoot {L : ℤ} (hp : 2 ≤ p) (hp' : p ≤ 10) (hL : maxL p < L) :
    ∃ k, k_lam j_max L p 300 = .ok k ∧ k_lam_jax j_max L p 300 = .ok k ∧ 1 < k.v (overJ p) (maxL p) := by
  obtain ⟨m1, m2, -, -⟩ := maxL_bounds hp hp'
  have hJ := j_max_eq (L := L) (by omega) (one_lt_cast hp)
  have hT := TopScale.of_j_max (L := L) (by omega) (one_lt_cast hp) hJ
  have := top_of_L hp hp' hT hL
  refine ⟨_, k_lam_ok hT (by norm_num), by rw [k_lam_jax_eq, k_lam_ok hT (by norm_num)], ?_⟩
  rw [Arr2.of_v _ _ _ _ _ ⟨by omega, by omega, by omega, by omega⟩]
  exact kval_gt_table hp hp'

theorem gain_int_gt {L J_min : ℤ} (hp : 2 ≤ p) (hp' : p ≤ 10) (hT : TopScale jm L p J) (hL : maxL p < L) (h : J_min ≤ overJ p) :
    1 < gain p J_min J (maxL p) := by
  obtain ⟨m1, m2, -, -⟩ := maxL_bounds hp hp'
  have := top_of_L hp hp' hT hL
  exact lt_of_lt_of_le (kval_gt_table hp hp')
    ((gain_isGreatest (one_lt_cast hp) (by omega) (by omega)).2 ⟨overJ p, h, by omega, rfl⟩)

theorem frame_int_gt {L N J_min : ℤ} (hp : 2 ≤ p) (hp' : p ≤ 10) (hT : TopScale jm L p J) (hL : maxL p < L) (hN : 1 ≤ N)
    (hJ : J_min ≤ overJ p) {spin : ℤ} {psi : Arr3 ℂ} {phi : Arr1 ℝ} (h : DirBuilt jm L N J_min p spin 0 psi phi)
    (hs : |spin| ≤ maxL p) : 1 < frameSum J_min J L psi phi (maxL p) := by
  obtain ⟨m1, m2, -, -⟩ := maxL_bounds hp hp'
  obtain ⟨h0, h1, rfl, p', rfl, hp''⟩ := dirBuilt_elim hT hN h
  have hz : ∀ j, J_min ≤ j → j ≤ J → p' j 0 = 0 := fun j a b => by
    have := psiAx_eq_zero hT.hlam (j := j) (l := 0) (Or.inl (by simpa using (zpow_pos' hT.hlam (j - 1)).le))
    rw [hp''.eq j 0 a b le_rfl (by omega) this.1.ge]
    exact this.2
  rw [frameSum_closed hN h0 (by omega) (by omega) (max_le hs (by rw [abs_zero]; omega)) hz, sfac_zero]
  have := (hp''.energy hT.hlam (l := maxL p) (by omega) (by omega)).1
  have := gain_int_gt hp hp' hT hL hJ
  linarith

/-- **C63** hence the admissibility condition fails at that degree, whichever of the six routines built the filters -/
theorem C63_not_admissible {L N J_min : ℤ} (hp : 2 ≤ p) (hp' : p ≤ 10) (hL : maxL p < L) (hN : 1 ≤ N) (hJ : j_max L p = .ok J)
    (hJm : J_min ≤ overJ p) :
    (∀ psi phi, AxBuilt j_max L J_min p psi phi →
      1 < phi.v (maxL p) ^ 2 + ∑ j ∈ Finset.Icc J_min J, psi.v j (maxL p) ^ 2) ∧
    ∀ spin psi phi, DirBuilt j_max L N J_min p spin 0 psi phi → |spin| ≤ maxL p → 1 < frameSum J_min J L psi phi (maxL p) := by
  obtain ⟨m1, m2, -, -⟩ := maxL_bounds hp hp'
  have hT := TopScale.of_j_max (L := L) (by omega) (one_lt_cast hp) hJ
  refine ⟨fun psi phi h => ?_, fun spin psi phi h hs => frame_int_gt hp hp' hT hL hN hJm h hs⟩
  obtain ⟨h0, h1, rfl, p', rfl, hp''⟩ := axBuilt_elim hT h
  have e : (Arr1.of L (phiAx p J_min)).v (maxL p) ^ 2 + ∑ j ∈ Finset.Icc J_min J, (Arr2.of (J + 1) L p').v j (maxL p) ^ 2 =
      phiAx p J_min (maxL p) ^ 2 + ∑ j ∈ Finset.Icc J_min J, p' j (maxL p) ^ 2 := by
    rw [Arr1.of_v _ _ _ ⟨by omega, by omega⟩]
    congr 1
    refine Finset.sum_congr rfl fun j hj => ?_
    rw [Finset.mem_Icc] at hj
    rw [Arr2.of_v _ _ _ _ _ ⟨by omega, by omega, by omega, by omega⟩]
  rw [e]
  exact (gain_int_gt hp hp' hT hL hJm).trans_le (hp''.energy hT.hlam (by omega) (by omega)).1

example : ∃ psi phi, AxBuilt j_max 2050 0 2 psi phi ∧ 1 < phi.v 2049 ^ 2 + ∑ j ∈ Finset.Icc 0 12, psi.v j 2049 ^ 2 := by
  have hT := TopScale.of_j_max (L := 2050) (by norm_num) (by norm_num) j_max_2050
  obtain ⟨p, hp, -⟩ := filters_axisym_ok hT (J_min := 0) (by norm_num) (by norm_num)
  exact ⟨_, _, Or.inl hp, (C63_not_admissible (p := 2) (L := 2050) (N := 1) le_rfl (by norm_num) (by norm_num [maxL]) (by norm_num)
    (by exact_mod_cast j_max_2050) (by norm_num [overJ])).1 _ _ (by exact_mod_cast Or.inl hp)⟩

/-- **C63** and reconstruction is not exact: with any backend there is a band-limited signal that is not returned -/
theorem C63_not_exact (hw : b.Works jm c J) (hp : 2 ≤ p) (hp' : p ≤ 10) (hlam : c.lam = p) (hL : maxL p < c.L)
    (hJm : c.J_min ≤ overJ p) (hs : |c.spin| ≤ maxL p) :
    ∃ f w s g, (b.engine c).sphF f c.L = .ok (deltaFlm c.L (maxL p)) ∧ b.analysis jm c f = .ok (w, s) ∧
      b.synthesis jm c w s = .ok g ∧ g ≠ f := by
  obtain ⟨m1, m2, -, -⟩ := maxL_bounds hp hp'
  have hd := deltaFlm_bl (L := c.L) (spin := c.spin) (d := maxL p) (by omega) (by omega) hs
  obtain ⟨f, -, hf⟩ := hw.exact.sph c.L _ hw.valid.top.hL hd (fun _ => deltaFlm_herm (by omega) (by omega))
  obtain ⟨psi, phi, hflt⟩ := filters_exist hw.valid b
  obtain ⟨w, s, h, hran⟩ := b.analysis_run hw.valid hw.ready hw.std hw.exact hw.trip hflt hf
  have hsyn := b.synthesis_run hw.valid hw.ready hw.std hw.trip hflt hf hran
  set G := frameSum c.J_min J c.L psi phi with hG
  have hG1 : 1 < G (maxL p) := by
    have hT := hw.valid.top
    have hB := filters_built hflt
    rw [hlam] at hT hB
    exact frame_int_gt hp hp' hT hL hw.valid.hN hJm hB hs
  have hbl : BL2 c.L c.spin (degMul G (deltaFlm c.L (maxL p))) :=
    ⟨rfl, rfl, fun l m a => by rw [degMul_co, hd.zero l m a, mul_zero]⟩
  have hh : Herm2 (degMul G (deltaFlm c.L (maxL p))) := fun l m => by
    rw [degMul_co, degMul_co, deltaFlm_herm (by omega) (by omega), map_mul, Complex.conj_ofReal]; ring
  obtain ⟨g, hg, hg'⟩ := hw.exact.sph c.L _ hw.valid.top.hL hbl (fun _ => hh)
  refine ⟨f, w, s, g, hf, h, hsyn.trans hg, ?_⟩
  rintro rfl
  rw [hf] at hg'
  have e : co2 (deltaFlm c.L (maxL p)) (maxL p) 0 = co2 (degMul G (deltaFlm c.L (maxL p))) (maxL p) 0 := by
    injection hg' with e; rw [← e]
  rw [degMul_co, deltaFlm_co (by omega) (by omega), if_pos ⟨rfl, rfl⟩, mul_one] at e
  have : (1 : ℝ) = G (maxL p) := by exact_mod_cast e
  linarith

example (hb : Toy.IsToy b) (reality : Bool) : ∃ f w s g, b.analysis j_max (dyCfg 2050 reality) f = .ok (w, s) ∧
    b.synthesis j_max (dyCfg 2050 reality) w s = .ok g ∧ g ≠ f := by
  obtain ⟨f, w, s, g, -, h⟩ := C63_not_exact (p := 2) (dyCfg_works (L := 2050) (by norm_num) le_rfl hb reality) le_rfl (by norm_num)
    (by simp [dyCfg]) (by norm_num [dyCfg, maxL])
    (by norm_num [dyCfg, overJ]) (by norm_num [dyCfg, maxL])
  exact ⟨f, w, s, g, h⟩

end
end S2wav
