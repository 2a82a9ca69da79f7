import Verif.Lemmas.Samples
import Verif.Lemmas.Lists
import Verif.Spec
import Mathlib.Tactic.NormNum

/-! # Properties of `samples.py` (C01 - C05, C42 and the allocation part of C02) -/

namespace S2wav

/-- **C01** `j_max` returns the least non-negative `J` with `L ≤ lam^J`. -/
theorem C01_j_max {L J : ℤ} {lam : ℝ} (hL : 1 ≤ L) (hlam : 1 < lam) :
    j_max L lam = .ok J ↔ IsTopScale L lam J := by
  obtain ⟨J₀, h₀⟩ : ∃ J₀, j_max L lam = .ok J₀ := ⟨_, j_max_eq hL hlam⟩
  have s := j_max_spec hL hlam h₀
  constructor
  · intro h; rw [h₀] at h; cases h
    exact ⟨s.1, s.2.1, fun J' _ h => s.2.2 J' h⟩
  · rintro ⟨h1, h2, h3⟩
    rw [h₀, le_antisymm (s.2.2 J h2) (h3 J₀ s.1 s.2.1)]

/-- **C01**, second half: tightness for `L ≥ 2`. -/
theorem C01_tight {L J : ℤ} {lam : ℝ} (hL : 2 ≤ L) (hlam : 1 < lam) (h : j_max L lam = .ok J) :
    1 ≤ J ∧ lam ^ (J - 1) < L ∧ (L : ℝ) ≤ lam ^ J := by
  obtain ⟨h0, h1, h2⟩ := j_max_spec (by omega) hlam h
  have hlt : lam ^ (J - 1) < L := by
    by_contra hc
    have := h2 (J - 1) (not_lt.1 hc)
    omega
  refine ⟨?_, hlt, h1⟩
  by_contra hc
  have : J = 0 := by omega
  subst this
  have : (2 : ℝ) ≤ L := by exact_mod_cast hL
  rw [zpow_zero] at h1
  linarith

example : j_max 8 2 = .ok 3 := by
  rw [C01_j_max (by norm_num) (by norm_num)]
  refine ⟨by norm_num, by norm_num, fun J' h0 h => ?_⟩
  by_contra hc
  have : (2 : ℝ) ^ J' ≤ 2 ^ (2 : ℤ) := zpow_mono' (by norm_num) (by omega)
  norm_num at this h
  linarith

/-- `zerosWavJ` succeeds for valid parameters and has the advertised shape. -/
theorem zerosWavJ_ok {L N : ℤ} {lam : ℝ} (hL : 1 ≤ L) (hN : 1 ≤ N) (hlam : 1 < lam) (j : ℤ) (mr : Bool) :
    zerosWavJ L j N lam mr = .ok (Arr3.of (2 * (LN_j L j N lam mr).2.1 - 1) (LN_j L j N lam mr).1
      (2 * (LN_j L j N lam mr).1 - 1) fun _ _ _ => 0) := by
  have h1 := LN_j_Lj_bounds (N := N) hL hlam j mr
  have h2 := (LN_j_Nj_bounds hL hlam hN j mr).1
  rcases hp : LN_j L j N lam mr with ⟨Lj, Nj, L0j⟩
  rw [hp] at h1 h2
  simp only at h1 h2
  simp only [zerosWavJ, flmn_wav_j, hp]
  rw [zeros3, if_neg (by omega)]

/-- the harmonic constructors never fail on valid parameters -/
theorem construct_flmn_ok {jm : JMax} {L N J_min J : ℤ} {lam : ℝ} (hL : 1 ≤ L) (hN : 1 ≤ N) (hlam : 1 < lam)
    (hJ : jm L lam = .ok J) (mr : Bool) :
    construct_flmn jm L N J_min lam mr = .ok ((pyRange J_min (J + 1)).map fun j =>
      Arr3.of (2 * (LN_j L j N lam mr).2.1 - 1) (LN_j L j N lam mr).1
        (2 * (LN_j L j N lam mr).1 - 1) fun _ _ _ => 0) := by
  simp only [construct_flmn, hJ, Py.bind_ok]
  exact mapM_ok fun j _ => zerosWavJ_ok hL hN hlam j mr

example : ∃ l, construct_flmn j_max 8 3 1 2 true = .ok l ∧ l.length = 3 := by
  have h : j_max 8 2 = .ok 3 := by
    rw [C01_j_max (by norm_num) (by norm_num)]
    refine ⟨by norm_num, by norm_num, fun J' h0 h => ?_⟩
    by_contra hc
    have : (2 : ℝ) ^ J' ≤ 2 ^ (2 : ℤ) := zpow_mono' (by norm_num) (by omega)
    norm_num at this h
    linarith
  exact ⟨_, construct_flmn_ok (by norm_num) (by norm_num) (by norm_num) h true, by simp⟩

/-- **C03** multiresolution band-limits: bounds, exact cut-off, monotone, saturation at the two top scales,
scale 0 treated as scale 1, constant without multiresolution. -/
theorem C03_bandlimit {L : ℤ} {lam : ℝ} (hL : 1 ≤ L) (hlam : 1 < lam) :
    (∀ j, 1 ≤ j → IsBandLimit L (lam ^ (j + 1)) (wav_j_bandlimit L j lam true)) ∧
    (∀ j mr, 1 ≤ wav_j_bandlimit L j lam mr ∧ wav_j_bandlimit L j lam mr ≤ L) ∧
    (∀ i j, i ≤ j → wav_j_bandlimit L i lam true ≤ wav_j_bandlimit L j lam true) ∧
    (∀ j J, j_max L lam = .ok J → J - 1 ≤ j → wav_j_bandlimit L j lam true = L) ∧
    (∀ mr, wav_j_bandlimit L 0 lam mr = wav_j_bandlimit L 1 lam mr) ∧
    (∀ j, wav_j_bandlimit L j lam false = L) := by
  refine ⟨fun j hj => ⟨(wav_j_bandlimit_bounds hL hlam j true).1, (wav_j_bandlimit_bounds hL hlam j true).2,
      fun l => ?_⟩, fun j mr => wav_j_bandlimit_bounds hL hlam j mr, fun i j hij => ?_, fun j J hJ hj => ?_,
      fun mr => by simp [wav_j_bandlimit], fun j => by simp [wav_j_bandlimit]⟩
  · unfold wav_j_bandlimit
    have hj0 : j ≠ 0 := by omega
    simp only [if_true, lt_min_iff, Int.lt_ceil, if_neg hj0]
    exact and_comm
  · unfold wav_j_bandlimit
    simp only [if_true]
    refine min_le_min_right _ (ceil_mono hlam ?_)
    split_ifs <;> omega
  · have h := (j_max_spec hL hlam hJ).2.1
    unfold wav_j_bandlimit
    simp only [if_true]
    apply min_eq_right
    have h2 : (L : ℝ) ≤ lam ^ ((if j = 0 then j + 1 else j) + 1) :=
      h.trans (zpow_mono' hlam (by split_ifs <;> omega))
    have h3 := h2.trans (Int.le_ceil _)
    exact_mod_cast h3

example : wav_j_bandlimit 8 1 2 true = 4 := by
  have h := (C03_bandlimit (L := 8) (lam := 2) (by norm_num) (by norm_num)).1 1 le_rfl
  have h3 := (h.2.2 3).2 (by norm_num)
  have h4 : ¬ ((4 : ℤ) < wav_j_bandlimit 8 1 2 true) := fun hh => by
    have := ((h.2.2 4).1 hh).2
    norm_num at this
  omega

/-- **C04** the per-scale directional band-limit. -/
theorem C04_LN_j {L N : ℤ} {lam : ℝ} (hL : 1 ≤ L) (hN : 1 ≤ N) (hlam : 1 < lam) (j : ℤ) :
    (∃ Lj Nj L0j, LN_j L j N lam true = (Lj, Nj, L0j) ∧ Lj = wav_j_bandlimit L j lam true ∧
      1 ≤ Nj ∧ (Nj - N) % 2 = 0 ∧ min N Lj ≤ Nj ∧ Nj ≤ min N (Lj + 1) ∧ 0 ≤ L0j ∧
      (1 ≤ j → ∀ l : ℤ, L0j ≤ l ↔ lam ^ (j - 1) ≤ (l : ℝ)) ∧
      (j = 0 → L0j = 1)) ∧
    LN_j L j N lam false = (L, N, 0) := by
  have hb := LN_j_Nj_bounds hL hlam hN j true
  refine ⟨⟨(LN_j L j N lam true).1, (LN_j L j N lam true).2.1, (LN_j L j N lam true).2.2, rfl, LN_j_Lj .., hb.1,
    hb.2.2.2.2, hb.2.2.1, le_min hb.2.1 (hb.2.2.2.1 rfl), LN_j_L0_nonneg hlam .., fun hj l => ?_, fun hj => ?_⟩, ?_⟩
  · simp only [LN_j, if_true, L0_j, if_neg (show j ≠ 0 by omega), if_pos (show j ≠ 0 by omega), Int.ceil_le]
  · subst hj
    simp [LN_j, L0_j]
  · simp [LN_j, wav_j_bandlimit]

example : (LN_j 8 1 6 2 true).2.1 = 4 := by
  have h := C04_LN_j (L := 8) (N := 6) (lam := 2) (by norm_num) (by norm_num) (by norm_num) 1
  obtain ⟨⟨Lj, Nj, L0j, he, hLj, h1, h2, h3, h4, _⟩, _⟩ := h
  have hc := (C03_bandlimit (L := 8) (lam := 2) (by norm_num) (by norm_num)).1 1 le_rfl
  have a3 := (hc.2.2 3).2 (by norm_num)
  have a4 : ¬ ((4 : ℤ) < wav_j_bandlimit 8 1 2 true) := fun hh => by
    have := ((hc.2.2 4).1 hh).2
    norm_num at this
  rw [he]
  show Nj = 4
  omega

/-- **C04** the lowest degree of a scale on its own: the smallest degree reaching `lam^(j-1)`, with scale 0 starting
at degree 0. `LN_j` never takes the scale-0 case, since it renames scale 0 to scale 1 first. -/
theorem C04_L0_j {lam : ℝ} (hlam : 1 < lam) :
    L0_j 0 lam = 0 ∧
    (∀ j, j ≠ 0 → ∀ l : ℤ, L0_j j lam ≤ l ↔ lam ^ (j - 1) ≤ (l : ℝ)) ∧
    (∀ i j, 0 ≤ i → i ≤ j → L0_j i lam ≤ L0_j j lam) ∧
    (∀ L N mr, (LN_j L 0 N lam mr).2.2 = (LN_j L 1 N lam mr).2.2) ∧
    (∀ L j N, j ≠ 0 → (LN_j L j N lam true).2.2 = L0_j j lam) := by
  refine ⟨by simp [L0_j], fun j hj l => ?_, fun i j hi hij => ?_, fun L N mr => by simp [LN_j], fun L j N hj => ?_⟩
  · simp only [L0_j, if_pos hj, Int.ceil_le]
  · unfold L0_j
    split_ifs with h1 h2 h2
    · exact ceil_mono hlam (by omega)
    · omega
    · exact Int.ceil_nonneg (by positivity)
    · exact le_rfl
  · simp [LN_j, hj]

example : L0_j 3 2 = 4 ∧ L0_j 0 2 = 0 := by
  have h := C04_L0_j (lam := 2) (by norm_num)
  refine ⟨?_, h.1⟩
  have h1 := (h.2.1 3 (by norm_num) 4).2 (by norm_num)
  have h2 : ¬ L0_j 3 2 ≤ 3 := fun hh => by
    have := (h.2.1 3 (by norm_num) 3).1 hh
    norm_num at this
  omega

/-- **C05** all helpers use one scaling band-limit, the exact cut-off at `lam^J_min`. -/
theorem C05_scaling {L : ℤ} {lam : ℝ} (hL : 1 ≤ L) (hlam : 1 < lam) (E : Shapes) (J_min : ℤ) (sampling : String)
    (nside : Option ℤ) :
    (∀ mr, ∃ Ls, scal_bandlimit L J_min lam mr = Ls ∧ 1 ≤ Ls ∧ Ls ≤ L ∧
      f_scal E L J_min lam sampling nside mr = E.s2 Ls sampling nside ∧
      (∃ a : Arr2 ℂ, construct_flm L J_min lam mr = .ok a ∧ a.r = Ls ∧ a.c = 2 * Ls - 1 ∧ ∀ i j, a.v i j = 0) ∧
      (∃ a : Arr2 ℂ, construct_flm_jax L J_min lam mr = .ok a ∧ a.r = Ls ∧ a.c = 2 * Ls - 1 ∧ ∀ i j, a.v i j = 0)) ∧
    IsBandLimit L (lam ^ J_min) (scal_bandlimit L J_min lam true) ∧
    scal_bandlimit L J_min lam false = L ∧
    (∀ J', J_min ≤ J' → scal_bandlimit L J_min lam true ≤ scal_bandlimit L J' lam true) := by
  refine ⟨fun mr => ?_, ?_, by simp [scal_bandlimit], fun J' h => ?_⟩
  · have hb := scal_bandlimit_bounds hL hlam J_min mr
    refine ⟨_, rfl, hb.1, hb.2, by simp only [f_scal, scal_bandlimit], ?_, ?_⟩
    · refine ⟨Arr2.of (scal_bandlimit L J_min lam mr) (2 * scal_bandlimit L J_min lam mr - 1) fun _ _ => 0, ?_, rfl, rfl, fun i j => by simp [Arr2.of]⟩
      simp only [construct_flm, zeros2]
      rw [if_neg (by omega)]
    · refine ⟨Arr2.of (scal_bandlimit L J_min lam mr) (2 * scal_bandlimit L J_min lam mr - 1) fun _ _ => 0, ?_, rfl, rfl, fun i j => by simp [Arr2.of]⟩
      simp only [construct_flm_jax, zeros2]
      rw [if_neg (by omega)]
  · refine ⟨(scal_bandlimit_bounds hL hlam J_min true).1, (scal_bandlimit_bounds hL hlam J_min true).2, fun l => ?_⟩
    simp only [scal_bandlimit, if_true, lt_min_iff, Int.lt_ceil]
    exact and_comm
  · simp only [scal_bandlimit, if_true]
    exact min_le_min_right _ (ceil_mono hlam h)

example : scal_bandlimit 8 2 2 true = 4 := by
  have h := (C05_scaling (L := 8) (lam := 2) (by norm_num) (by norm_num) ⟨fun _ _ _ => .ok [], fun _ _ _ _ => .ok []⟩
    2 "mw" none).2.1
  have h3 := (h.2.2 3).2 (by norm_num)
  have h4 : ¬ ((4 : ℤ) < scal_bandlimit 8 2 2 true) := fun hh => by
    have := ((h.2.2 4).1 hh).2
    norm_num at this
  omega

/-- **C42** the scattering buffers have the shape of the two top scales, which is the largest of all scales. -/
theorem C42_scattering_buffers {L N J J_min : ℤ} {lam : ℝ} (hL : 1 ≤ L) (hN : 1 ≤ N) (hlam : 1 < lam)
    (hJ : j_max L lam = .ok J) (E : Shapes) (sampling : String) (nside : Option ℤ) (mr : Bool) :
    ∃ a, construct_flmn_scattering j_max L N J_min lam mr = .ok a ∧
      (∀ j, J - 1 ≤ j → zerosWavJ L j N lam mr = .ok a) ∧
      (∀ j b, zerosWavJ L j N lam mr = .ok b → b.d ≤ a.d ∧ b.r ≤ a.r ∧ b.c ≤ a.c) ∧
      a.r = L ∧
      ∀ j, J - 1 ≤ j → construct_f_scattering j_max E L N J_min lam sampling nside mr =
        (f_wav_j E L j N lam sampling nside mr >>= Px.zeros) := by
  have htop : ∀ j, J - 1 ≤ j → (LN_j L j N lam mr).1 = L := fun j hj => by
    rw [LN_j_Lj]
    cases mr
    · simp [wav_j_bandlimit]
    · exact (C03_bandlimit hL hlam).2.2.2.1 j J hJ hj
  have hN' : ∀ j, (LN_j L j N lam mr).2.1 =
      if mr then min N (LN_j L j N lam mr).1 + (min N (LN_j L j N lam mr).1 + N) % 2 else N := fun j => by
    simp only [LN_j]
  have hNtop : ∀ j, J - 1 ≤ j → (LN_j L j N lam mr).2.1 = (LN_j L (J - 1) N lam mr).2.1 := fun j hj => by
    rw [hN' j, hN' (J - 1), htop j hj, htop (J - 1) le_rfl]
  have hz := fun j => zerosWavJ_ok (lam := lam) hL hN hlam j mr
  refine ⟨Arr3.of (2 * (LN_j L (J - 1) N lam mr).2.1 - 1) (LN_j L (J - 1) N lam mr).1
    (2 * (LN_j L (J - 1) N lam mr).1 - 1) fun _ _ _ => 0,
    ?_, fun j hj => ?_, fun j b hb => ?_, ?_, fun j hj => ?_⟩
  · simp only [construct_flmn_scattering, hJ, Py.bind_ok]
    exact hz (J - 1)
  · rw [hz j, htop j hj, hNtop j hj, htop (J - 1) le_rfl]
  · rw [hz j] at hb
    cases hb
    have h1 := LN_j_Lj_bounds (N := N) hL hlam j mr
    have h2 := htop (J - 1) le_rfl
    have h3 := hN' j
    have h4 := hN' (J - 1)
    simp only [Arr3.of_d, Arr3.of_r, Arr3.of_c]
    rw [h2] at h4 ⊢
    generalize (LN_j L j N lam mr).2.1 = a at *
    generalize (LN_j L (J - 1) N lam mr).2.1 = b at *
    generalize (LN_j L j N lam mr).1 = c at *
    cases mr
    · simp only [Bool.false_eq_true, if_false] at h3 h4; omega
    · simp only [if_true] at h3 h4; omega
  · exact htop (J - 1) le_rfl
  · simp only [construct_f_scattering, hJ, Py.bind_ok, f_wav_j]
    rw [htop j hj, hNtop j hj, htop (J - 1) le_rfl]

example : ∃ J, j_max 8 2 = .ok J := ⟨_, j_max_eq (by norm_num) (by norm_num)⟩

end S2wav
