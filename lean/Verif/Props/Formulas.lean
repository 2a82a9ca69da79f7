import Verif.Props.Filters
import Verif.Lemmas.Quad

/-! # The filters are the published ones (C54 - C57)

Explicit values of every array built by `filters.py`. -/

namespace S2wav
open Classical

theorem gInt_eq_bump {lam : ℝ} (hlam : 1 < lam) (x : ℝ) : gInt lam x = bump lam x := by
  have h1 : lam - 1 ≠ 0 := by linarith
  have h2 : lam ≠ 0 := by linarith
  have h3 : 1 - 1 / lam ≠ 0 := by
    have := inv_le_one' hlam
    linarith
  have : sArg lam x = (2 * x - (1 + 1 / lam)) / (1 - 1 / lam) := by
    unfold sArg
    rw [eq_div_iff h3]
    field_simp
    ring
  rw [gInt, bump, this]

theorem quad_eq_trapezium {lam : ℝ} (hlam : 1 < lam) {n : ℤ} {a : ℝ} (h1 : 1 / lam ≤ a) (h2 : a < 1) (hn : 1 ≤ n) :
    quad lam n a = trapezium (bump lam) a ((1 - a) / n) (if a = 1 / lam then 1 else 0) (n - 1) := by
  unfold quad trapezium
  rw [← Finset.sum_filter_add_sum_filter_not (Finset.Ico 0 n) (fun i => touches lam n a i)]
  rw [Finset.sum_eq_zero (fun i hi => if_pos (Finset.mem_filter.1 hi).2), zero_add]
  have : (Finset.Ico 0 n).filter (fun i => ¬ touches lam n a i) = Finset.Ico (if a = 1 / lam then 1 else 0) (n - 1) := by
    ext i
    rw [Finset.mem_filter, Finset.mem_Ico, Finset.mem_Ico]
    constructor
    · rintro ⟨⟨h3, h4⟩, h5⟩
      rw [touches_iff h1 h2 hn h3 h4] at h5
      push Not at h5
      split_ifs with ha
      · have : i ≠ 0 := fun h => h5.2 h ha
        omega
      · omega
    · intro h
      have h3 : 0 ≤ i := by split_ifs at h <;> omega
      refine ⟨by omega, ?_⟩
      rw [touches_iff h1 h2 hn h3 (by omega)]
      rintro (h5 | ⟨h5, ha⟩)
      · omega
      · rw [if_pos ha] at h; omega
  rw [this]
  refine Finset.sum_congr rfl fun i hi => ?_
  have hnt : ¬ touches lam n a i := by
    rw [← this, Finset.mem_filter] at hi
    exact hi.2
  rw [if_neg hnt, gInt_eq_bump hlam, gInt_eq_bump hlam]
  ring

section
variable {L N J J_min : ℤ} {lam : ℝ}

/-- **C54** the generating function: inside the transition band `lam^(j-1) < l < lam^j` the entry `k_lam[j, l]` is the
quotient of two trapezium sums of the bump, over `[l/lam^j, 1]` and `[1/lam, 1]`, without the panels at the ends of the
support. -/
theorem C54_k_lam_values (hL : 1 ≤ L) (hlam : 1 < lam) (hJ : j_max L lam = .ok J) {q : ℤ} (hq : 3 ≤ q) {k : Arr2 ℝ}
    (hk : k_lam j_max L lam q = .ok k ∨ k_lam_jax j_max L lam q = .ok k) {j l : ℤ} (h0 : 0 ≤ j) (h1 : j < J + 2) (hl : l < L)
    (ha : lam ^ (j - 1) < (l : ℝ)) (hb : (l : ℝ) < lam ^ j) :
    k.v j l = trapezium (bump lam) (l / lam ^ j) ((1 - l / lam ^ j) / q) 0 (q - 1) /
      trapezium (bump lam) (1 / lam) ((1 - 1 / lam) / q) 1 (q - 1) := by
  have hT := TopScale.of_j_max hL hlam hJ
  rw [k_lam_jax_eq, or_self, k_lam_ok hT hq] at hk
  cases hk
  have hl0 : 0 ≤ l := by
    have : (0 : ℝ) < l := (zpow_pos' hlam _).trans ha
    exact_mod_cast this.le
  have hp := zpow_pos' hlam j
  have hne : lam ≠ 0 := by linarith
  have hr : 1 / lam < l / lam ^ j := by
    rw [lt_div_iff₀ hp]
    rw [zpow_sub_one₀ hne] at ha
    rwa [one_div, mul_comm]
  have hr1 : (l : ℝ) / lam ^ j < 1 := by rwa [div_lt_one hp]
  rw [Arr2.of_v _ _ _ _ _ ⟨h0, h1, hl0, hl⟩, kval, if_neg (not_lt.2 ha.le), if_neg (not_lt.2 hb.le),
    quad_eq_trapezium hlam hr.le hr1 (by omega), quad_eq_trapezium hlam le_rfl (inv_le_one' hlam) (by omega),
    if_neg hr.ne', if_pos rfl]

example : ∃ k, k_lam j_max 8 2 300 = .ok k ∧ k.v 3 5 = trapezium (bump 2) (5 / 8) ((1 - 5 / 8) / 300) 0 299 /
    trapezium (bump 2) (1 / 2) ((1 - 1 / 2) / 300) 1 299 := by
  obtain ⟨k, h1, -⟩ := C06_k_lam (L := 8) (lam := 2) (by norm_num) (by norm_num) j_max_8_2 (q := 300) (by norm_num)
  refine ⟨k, h1, ?_⟩
  rw [C54_k_lam_values (by norm_num) (by norm_num) j_max_8_2 (by norm_num) (Or.inl h1) (by norm_num) (by norm_num)
    (by norm_num) (by norm_num) (by norm_num)]
  norm_num

/-- **C55** the axisymmetric filters: `psi[j,l]` is the square root of the increase of `k_lam` from scale `j` to `j+1`
(zero if it decreases), `phi[l]` the square root of `k_lam[J_min, l]`.  The looped builder agrees wherever `k_lam` does not
decrease, and where it does the looped builder repeats the entry of the previous degree. -/
theorem C55_axisym_values (hL : 1 ≤ L) (hlam : 1 < lam) (hJ : j_max L lam = .ok J) {k : Arr2 ℝ}
    (hk : k_lam j_max L lam 300 = .ok k) {psi : Arr2 ℝ} {phi : Arr1 ℝ} :
    (AxBuilt j_max L J_min lam psi phi → ∀ l, phi.v l = Real.sqrt (k.v J_min l)) ∧
    ((filters_axisym_vectorised j_max L J_min lam = .ok (psi, phi) ∨ filters_axisym_jax j_max L J_min lam = .ok (psi, phi)) →
      ∀ j l, 0 ≤ j → j ≤ J → psi.v j l = Real.sqrt (max 0 (k.v (j + 1) l - k.v j l))) ∧
    (filters_axisym j_max L J_min lam = .ok (psi, phi) → ∀ j l, J_min ≤ j → j ≤ J →
      psi.v j l = if k.v j l ≤ k.v (j + 1) l then Real.sqrt (k.v (j + 1) l - k.v j l) else psi.v j (l - 1)) := by
  have hT := TopScale.of_j_max hL hlam hJ
  rw [k_lam_ok hT (by norm_num)] at hk
  cases hk
  have hcell : ∀ j l, 0 ≤ j → j ≤ J → 0 ≤ l → l < L →
      (Arr2.of (J + 2) L (kval lam 300)).v (j + 1) l - (Arr2.of (J + 2) L (kval lam 300)).v j l =
        kv lam (j + 1) l - kv lam j l := by
    intro j l h0 h1 h2 h3
    rw [Arr2.of_v _ _ _ _ _ ⟨by omega, by omega, h2, h3⟩, Arr2.of_v _ _ _ _ _ ⟨h0, by omega, h2, h3⟩]
  refine ⟨fun h l => ?_, fun h j l h0 h1 => ?_, fun h j l h0 h1 => ?_⟩
  · obtain ⟨h0, h1, rfl, -⟩ := axBuilt_elim hT h
    by_cases hr : 0 ≤ l ∧ l < L
    · rw [Arr1.of_v _ _ _ hr, Arr2.of_v _ _ _ _ _ ⟨h0, by omega, hr⟩]; rfl
    · rw [Arr1.junk _ l hr, Arr2.junk _ _ _ (fun h => hr h.2.2), Real.sqrt_zero]
  · obtain ⟨hJ0, hJ1, -⟩ := axBuilt_elim hT (Or.inr h)
    rw [filters_axisym_jax_eq hT, or_self, filters_axisym_vectorised_ok hT hJ0 hJ1] at h
    cases h
    by_cases hr : 0 ≤ l ∧ l < L
    · rw [hcell j l h0 h1 hr.1 hr.2, Arr2.of_v _ _ _ _ _ ⟨h0, by omega, hr⟩]; rfl
    · rw [Arr2.junk _ _ _ (fun h => hr h.2.2), Arr2.junk _ _ _ (fun h => hr h.2.2), Arr2.junk _ _ _ (fun h => hr h.2.2)]
      simp
  · obtain ⟨hJ0, hJ1, -⟩ := axBuilt_elim hT (Or.inl h)
    obtain ⟨p, hp, hp1, -, hp3⟩ := filters_axisym_ok hT hJ0 hJ1
    rw [hp] at h
    cases h
    by_cases hr : 0 ≤ l ∧ l < L
    · have h5 := hcell j l (by omega) h1 hr.1 hr.2
      split_ifs with hle
      · have h6 : 0 ≤ kv lam (j + 1) l - kv lam j l := by rw [← h5]; linarith
        rw [h5, Arr2.of_v _ _ _ _ _ ⟨by omega, by omega, hr⟩, hp1 j l h0 h1 hr.1 hr.2 h6, psiAx, max_eq_right h6]
      · have h6 : kv lam (j + 1) l - kv lam j l < 0 := by rw [← h5]; linarith
        have hl : 0 < l := by
          rcases hr.1.lt_or_eq with h | h
          · exact h
          · subst h
            rw [kv, kv, kval_zero hlam, kval_zero hlam] at h6
            norm_num at h6
        rw [Arr2.of_v _ _ _ _ _ ⟨by omega, by omega, hr⟩, Arr2.of_v _ _ _ _ _ ⟨by omega, by omega, by omega, by omega⟩,
          hp3 j l h0 h1 hr.1 hr.2 h6]
    · rw [Arr2.junk _ _ _ (fun h => hr h.2.2), Arr2.junk _ _ _ (fun h => hr h.2.2), Arr2.junk _ _ _ (fun h => hr h.2.2)]
      simp

example : ∃ k psi phi, k_lam j_max 8 2 300 = .ok k ∧ filters_axisym_vectorised j_max 8 1 2 = .ok (psi, phi) ∧
    psi.v 2 5 = Real.sqrt (k.v 3 5) ∧ 0 < k.v 3 5 := by
  obtain ⟨k, h1, -, -, -, -, h⟩ := C06_k_lam (L := 8) (lam := 2) (by norm_num) (by norm_num) j_max_8_2 (q := 300)
    (by norm_num)
  have hT := TopScale.of_j_max (L := 8) (lam := 2) (by norm_num) (by norm_num) j_max_8_2
  have hb := filters_axisym_vectorised_ok hT (J_min := 1) (by norm_num) (by norm_num)
  have hpos := (h 3 5 (by norm_num) (by norm_num) (by norm_num) (by norm_num)).2.1 (by norm_num) (by norm_num)
  refine ⟨k, _, _, h1, hb, ?_, hpos⟩
  rw [(C55_axisym_values (by norm_num) (by norm_num) j_max_8_2 h1).2.1 (Or.inl hb) 2 5 (by norm_num) (by norm_num)]
  have h0 : k.v 2 5 = 0 := (h 2 5 (by norm_num) (by norm_num) (by norm_num) (by norm_num)).2.2 (by norm_num)
  rw [h0, sub_zero]
  norm_num [max_eq_right hpos.le]

theorem gam_eq_dirDegree (N l : ℤ) : gam N l = dirDegree N l := by
  unfold gam dirDegree
  split_ifs <;> omega

/-- **C56** the directional component: `s[l, m] = ν sqrt(binom(γ, (γ-m)/2) / 2^γ)` with `γ` the largest integer
`≤ min(N-1, l)` of the parity of `N - 1` and `ν = 1` (`N` odd) or `i` (`N` even), for `1 ≤ l`, `|m| ≤ γ` and `m` of that
parity; zero otherwise. -/
theorem C56_tiling_values (hL : 1 ≤ L) (hN : 1 ≤ N) {s : Arr2 ℂ}
    (hs : tiling_direction L N = .ok s ∨ tiling_direction_jax L N = .ok s) {l m : ℤ} (hl : l < L) (hm : |m| < L) :
    s.v l (L - 1 + m) = if 1 ≤ l ∧ |m| ≤ dirDegree N l ∧ (N - 1 - m) % 2 = 0 then
      (if N % 2 = 1 then 1 else Complex.I) * ((Real.sqrt (((dirDegree N l).toNat.choose ((dirDegree N l - m) / 2).toNat : ℝ) /
        2 ^ (dirDegree N l).toNat) : ℝ) : ℂ) else 0 := by
  rw [tiling_direction_ok hL hN, tiling_direction_jax_ok hL hN, or_self] at hs
  cases hs
  rw [abs_lt] at hm
  by_cases h0 : 0 ≤ l
  · rw [Arr2.of_v _ _ _ _ _ ⟨h0, hl, by omega, by omega⟩]
    have e : L - 1 + m - (L - 1) = m := by ring
    rw [e, sdir, gam_eq_dirDegree, nuC]
    have e1 : ((N + m) % 2 ≠ 0) ↔ (N - 1 - m) % 2 = 0 := by omega
    have e2 : (N % 2 ≠ 0) ↔ N % 2 = 1 := by omega
    simp only [e1, e2]
  · rw [Arr2.junk _ _ _ (fun h => h0 h.1), if_neg (by omega)]

example : ∃ s, tiling_direction 8 3 = .ok s ∧ s.v 5 (8 - 1 + 2) = ((Real.sqrt (1 / 4) : ℝ) : ℂ) ∧
    s.v 5 (8 - 1 + 0) = ((Real.sqrt (2 / 4) : ℝ) : ℂ) := by
  obtain ⟨s, h, -⟩ := C10_tiling_energy (L := 8) (N := 3) (by norm_num) (by norm_num)
  refine ⟨s, h, ?_, ?_⟩
  · rw [C56_tiling_values (l := 5) (m := 2) (by norm_num) (by norm_num) (Or.inl h) (by norm_num) (by norm_num)]
    have e : dirDegree 3 5 = 2 := by decide
    rw [if_pos (by rw [e]; decide), e, if_pos (by decide), one_mul]
    have h2 : (2 : ℤ).toNat = 2 := rfl
    have h3 : ((2 - 2 : ℤ) / 2).toNat = 0 := rfl
    rw [h2, h3]; norm_num
  · rw [C56_tiling_values (l := 5) (m := 0) (by norm_num) (by norm_num) (Or.inl h) (by norm_num) (by norm_num)]
    have e : dirDegree 3 5 = 2 := by decide
    rw [if_pos (by rw [e]; decide), e, if_pos (by decide), one_mul]
    have h2 : (2 : ℤ).toNat = 2 := rfl
    have h3 : ((2 - 0 : ℤ) / 2).toNat = 1 := rfl
    rw [h2, h3]; norm_num

/-- **C57** the directional filters are products: normalisation, axisymmetric filter, directional component and (looped
builder, `spin0 ≠ 0`) spin normalisation with sign; zero below `max(|spin|, |spin0|)`. -/
theorem C57_directional_values (hL : 1 ≤ L) (hN : 1 ≤ N) (hlam : 1 < lam) (hJ : j_max L lam = .ok J) {spin spin0 : ℤ}
    {psi : Arr3 ℂ} {phi : Arr1 ℝ} {kpsi : Arr2 ℝ} {kphi : Arr1 ℝ} {s : Arr2 ℂ} (hs : tiling_direction L N = .ok s)
    (h : (filters_directional j_max L N J_min lam spin spin0 = .ok (psi, phi) ∧
        filters_axisym j_max L J_min lam = .ok (kpsi, kphi)) ∨
      (filters_directional_vectorised j_max L N J_min lam spin spin0 = .ok (psi, phi) ∧
        filters_axisym_vectorised j_max L J_min lam = .ok (kpsi, kphi)) ∨
      (filters_directional_jax j_max L N J_min lam spin spin0 = .ok (psi, phi) ∧
        filters_axisym_jax j_max L J_min lam = .ok (kpsi, kphi))) {l : ℤ} (hl : l < L) :
    (l < max |spin| |spin0| → phi.v l = 0 ∧ ∀ j k, psi.v j l k = 0) ∧
    (max |spin| |spin0| ≤ l → ∃ sn : ℝ,
      sn = (-1) ^ spin0 * Real.sqrt ((l + spin0).toNat.factorial / (l - spin0).toNat.factorial) ∧
      phi.v l = Real.sqrt ((2 * l + 1) / (4 * Real.pi)) * kphi.v l * sn ∧
      ∀ j k, psi.v j l k = ((Real.sqrt ((2 * l + 1) / (8 * Real.pi ^ 2)) * kpsi.v j l * sn : ℝ) : ℂ) * s.v l k) := by
  have hT := TopScale.of_j_max hL hlam hJ
  have hb : DirBuilt j_max L N J_min lam spin spin0 psi phi := by
    rcases h with h | h | h
    · exact Or.inl h.1
    · exact Or.inr (Or.inl h.1)
    · exact Or.inr (Or.inr h.1)
  obtain ⟨h0, h1, rfl, -⟩ := dirBuilt_elim hT hN hb
  refine ⟨fun hlt => ⟨(C20_below_spin hL hN hlam hb).2.1 l hlt, fun j k => (C20_below_spin hL hN hlam hb).1 j l k hlt⟩,
    fun hle => ⟨sfac spin0 l, ?_, ?_⟩⟩
  · unfold sfac
    split_ifs with hz
    · rw [hz, add_zero, sub_zero, div_self (by exact_mod_cast (Nat.factorial_pos _).ne')]; simp
    · rw [mul_comm]; rfl
  have hl0 : 0 ≤ l := (elmin_nonneg spin spin0).trans hle
  have key : ∃ p, psi = Arr3.of (J + 1) L (2 * L - 1)
      (fun j l k => psiDirOf N p (max |spin| |spin0|) spin0 j l (k - (L - 1))) ∧ kpsi = Arr2.of (J + 1) L p ∧
      kphi = Arr1.of L (phiAx lam J_min) := by
    have hsp : filters_directional_vectorised j_max L N J_min lam spin spin0 = .ok (psi, Arr1.of L (phiDir lam J_min
        (max |spin| |spin0|) spin0)) ∨ filters_directional_jax j_max L N J_min lam spin spin0 = .ok (psi, Arr1.of L (phiDir lam
        J_min (max |spin| |spin0|) spin0)) → spin0 = 0 := by
      intro h
      by_contra hz
      obtain ⟨e1, e2⟩ := filters_directional_spin0_err j_max L N J_min lam spin hz
      rcases h with h | h
      · rw [e1] at h; cases h
      · rw [e2] at h; cases h
    rcases h with ⟨h, h'⟩ | ⟨h, h'⟩ | ⟨h, h'⟩
    · obtain ⟨p, hp, hd, -⟩ := filters_directional_ok hT hN h0 h1 spin spin0
      rw [hp] at h'; rw [hd] at h
      cases h'; cases h
      exact ⟨p, rfl, rfl, rfl⟩
    · have hz := hsp (Or.inl h)
      subst hz
      rw [filters_directional_vectorised_ok hT hN h0 h1] at h
      rw [filters_axisym_vectorised_ok hT h0 h1] at h'
      cases h'
      refine ⟨psiAx lam, ?_, rfl, rfl⟩
      have : _ = psi := congrArg Prod.fst (Except.ok.inj h)
      rw [← this]
      simp [psiDir]
    · have hz := hsp (Or.inr h)
      subst hz
      rw [filters_directional_jax_ok hT hN h0 h1] at h
      rw [filters_axisym_jax_eq hT, filters_axisym_vectorised_ok hT h0 h1] at h'
      cases h'
      refine ⟨psiAx lam, ?_, rfl, rfl⟩
      have : _ = psi := congrArg Prod.fst (Except.ok.inj h)
      rw [← this]
      simp [psiDir]
  obtain ⟨p, rfl, rfl, rfl⟩ := key
  rw [tiling_direction_ok hL hN] at hs
  cases hs
  constructor
  · rw [Arr1.of_v _ _ _ ⟨hl0, hl⟩, Arr1.of_v _ _ _ ⟨hl0, hl⟩, phiDir, if_neg (not_lt.2 hle)]; rfl
  · intro j k
    by_cases hk : 0 ≤ k ∧ k < 2 * L - 1
    · by_cases hj : 0 ≤ j ∧ j < J + 1
      · rw [Arr3.of_v _ _ _ _ _ _ _ ⟨hj.1, hj.2, hl0, hl, hk⟩, Arr2.of_v _ _ _ _ _ ⟨hj.1, hj.2, hl0, hl⟩,
          Arr2.of_v _ _ _ _ _ ⟨hl0, hl, hk⟩, psiDirOf, if_neg (not_lt.2 hle), ← cpsi_alt]
        have : 8 * Real.pi * Real.pi = 8 * Real.pi ^ 2 := by ring
        rw [this]
        push_cast
        ring
      · rw [Arr3.junk _ _ _ _ (fun h => hj ⟨h.1, h.2.1⟩), Arr2.junk _ j l (fun h => hj ⟨h.1, h.2.1⟩)]
        simp
    · rw [Arr3.junk _ _ _ _ (fun h => hk h.2.2.2.2), Arr2.junk _ l k (fun h => hk h.2.2)]
      simp

example : ∃ psi phi, filters_directional j_max 8 3 2 2 2 1 = .ok (psi, phi) ∧
    phi.v 2 = -(Real.sqrt (5 / (4 * Real.pi)) * Real.sqrt 6) := by
  have hT := TopScale.of_j_max (L := 8) (lam := 2) (by norm_num) (by norm_num) j_max_8_2
  obtain ⟨p, hp, hb, -⟩ := filters_directional_ok hT (N := 3) (J_min := 2) (by norm_num) (by norm_num) (by norm_num) 2 1
  obtain ⟨s, hs, -⟩ := C10_tiling_energy (L := 8) (N := 3) (by norm_num) (by norm_num)
  obtain ⟨k, hk, -, -, -, -, h⟩ := C06_k_lam (L := 8) (lam := 2) (by norm_num) (by norm_num) j_max_8_2 (q := 300)
    (by norm_num)
  obtain ⟨sn, h1, h2, -⟩ := (C57_directional_values (by norm_num) (by norm_num) (by norm_num) j_max_8_2 hs (Or.inl ⟨hb, hp⟩)
    (l := 2) (by norm_num)).2 (by norm_num)
  refine ⟨_, _, hb, ?_⟩
  rw [h2, h1, (C55_axisym_values (by norm_num) (by norm_num) j_max_8_2 hk).1 (Or.inl hp) 2,
    (h 2 2 (by norm_num) (by norm_num) (by norm_num) (by norm_num)).1 (by norm_num)]
  have e1 : (2 + 1 : ℤ).toNat = 3 := rfl
  have e2 : (2 - 1 : ℤ).toNat = 1 := rfl
  rw [e1, e2]
  norm_num [Nat.factorial]

end
end S2wav
