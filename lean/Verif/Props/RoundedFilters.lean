import Verif.Lemmas.LibmExact
import Verif.Lemmas.FloatLooped
import Verif.Props.Dyadic

/-! # C100: the axisymmetric filters in double precision

`filters_axisym_vectorised` and `filters_axisym` executed in IEEE double precision (`Model/IeeeFilters.lean`) with the default
`lam = 2`: finite, of the right support, close to the filters of exact arithmetic, and admissible up to rounding.  The
project's own test asks for admissibility to a relative 1e-14 at `L = 8` or `16`; `2^-48` is 3.6e-15. -/

namespace S2wav
open Classical

variable {m : Libm} {jm : JMax} {L J J_min : ℤ}

/-! ### Helpers -/

theorem map_of2 {r c : ℤ} {f : ℤ → ℤ → ℝ} : (Arr2.of r c f).map F64.fin = Arr2.of r c fun i j => .fin (f i j) :=
  Arr2.of_congr fun i j h0 h1 h2 h3 => by rw [Arr2.of_v r c f i j ⟨h0, h1, h2, h3⟩]

theorem map_of1 {n : ℤ} {f : ℤ → ℝ} : (Arr1.of n f).map F64.fin = Arr1.of n fun i => .fin (f i) :=
  Arr1.of_congr fun i h0 h1 => by rw [Arr1.of_v n f i ⟨h0, h1⟩]

theorem fin_inj {J L : ℤ} {psi : Arr2 ℝ} {phi : Arr1 ℝ} {f : ℤ → ℤ → ℝ} {g : ℤ → ℝ}
    (h1 : (Arr2.of (J + 1) L fun j l => F64.fin (f j l)) = psi.map F64.fin) (h2 : (Arr1.of L fun l => F64.fin (g l)) = phi.map F64.fin) :
    (∀ j l, 0 ≤ j → j < J + 1 → 0 ≤ l → l < L → psi.v j l = f j l) ∧ ∀ l, 0 ≤ l → l < L → phi.v l = g l := by
  have r : J + 1 = psi.r := congrArg Arr2.r h1
  have c : L = psi.c := congrArg Arr2.c h1
  have n : L = phi.n := congrArg Arr1.n h2
  constructor
  · intro j l a b d e
    have := congrArg (fun x => Arr2.v x j l) h1
    simp only [Arr2.map] at this
    rw [Arr2.of_v _ _ _ _ _ ⟨a, b, d, e⟩, Arr2.of_v _ _ _ _ _ ⟨a, by omega, d, by omega⟩] at this
    injection this with h
    exact h.symm
  · intro l a b
    have := congrArg (fun x => Arr1.v x l) h2
    simp only [Arr1.map] at this
    rw [Arr1.of_v _ _ _ ⟨a, b⟩, Arr1.of_v _ _ _ ⟨a, by omega⟩] at this
    injection this with h
    exact h.symm

theorem psi64_near {x y : ℝ} (hx0 : 0 ≤ x) (hy0 : 0 ≤ y) (hx : x ≤ 2) : |psi64 x y ^ 2 - max 0 (x - y)| ≤ 1 / 2 ^ 48 := by
  rcases le_total y x with h | h
  · rw [max_eq_right (by linarith)]
    refine (psi64_sq h (by linarith)).trans ?_
    norm_num; linarith
  · rw [max_eq_left (by linarith), psi64_neg h]; norm_num

/-- entries of `k_lam` never exceed 1 for the band-limits of the project's tests -/
theorem FloatK.le_one {X : ℤ → ℤ → ℝ} (hX : FloatK J L X) (hL : L ≤ 17) {j l : ℤ} (hj0 : 0 ≤ j) (hj1 : j < J + 2) (hl0 : 0 ≤ l) (hl1 : l < L) :
    X j l ≤ 1 := by
  obtain ⟨x0, x1, x2, x3⟩ := hX j l hj0 hj1 hl0 hl1
  rcases le_or_gt (l : ℝ) (2 ^ (j - 1)) with h | h
  · rw [x2 h]
  rcases le_or_gt ((2 : ℝ) ^ j) l with h' | h'
  · rw [x3 h']; norm_num
  have hj : 1 ≤ j := by
    by_contra hc
    have h1 : (2 : ℝ) ^ j ≤ 2 ^ (0 : ℤ) := zpow_le_zpow_right₀ (by norm_num) (by omega)
    have h2 : (l : ℝ) < 1 := by rw [zpow_zero] at h1; linarith
    have h3 : l < 1 := by exact_mod_cast h2
    have h4 : l = 0 := by omega
    rw [h4] at h
    have : (0 : ℝ) < 2 ^ (j - 1) := by positivity
    push_cast at h
    linarith
  have hl : (l : ℝ) ≤ 16 := by exact_mod_cast (by omega : l ≤ 16)
  have hj4 : j < 5 := by
    have h1 : (2 : ℝ) ^ (j - 1) < 2 ^ (4 : ℤ) := by norm_num; linarith
    have := (zpow_lt_zpow_iff_right₀ (by norm_num : (1 : ℝ) < 2)).1 h1
    omega
  have := kval_eighth (lam := 2) (q := 300) (by norm_num) le_rfl (j := j) (l := l) (by
    interval_cases j <;> norm_num at h ⊢
    · have : (2 : ℝ) ≤ l := by exact_mod_cast (by exact_mod_cast h : (1 : ℤ) < l)
      linarith
    · have : (3 : ℝ) ≤ l := by exact_mod_cast (by exact_mod_cast h : (2 : ℤ) < l)
      linarith
    · have : (5 : ℝ) ≤ l := by exact_mod_cast (by exact_mod_cast h : (4 : ℤ) < l)
      linarith
    · have : (9 : ℝ) ≤ l := by exact_mod_cast (by exact_mod_cast h : (8 : ℤ) < l)
      linarith)
  have := (abs_le.1 x1).2
  norm_num at *
  linarith

/-- and are almost non-decreasing in the scale -/
theorem FloatK.mono {X : ℤ → ℤ → ℝ} (hX : FloatK J L X) (hL : L ≤ 17) {j l : ℤ} (hj0 : 0 ≤ j) (hj1 : j ≤ J) (hl0 : 0 ≤ l) (hl1 : l < L) :
    X j l ≤ X (j + 1) l := by
  rcases le_or_gt ((2 : ℝ) ^ j) l with h | h
  · rw [(hX j l hj0 (by omega) hl0 hl1).2.2.2 h]
    exact (hX (j + 1) l (by omega) (by omega) hl0 hl1).1
  · rw [(hX (j + 1) l (by omega) (by omega) hl0 hl1).2.2.1 (by rw [add_sub_cancel_right]; exact h.le)]
    exact hX.le_one hL hj0 (by omega) hl0 hl1

theorem FloatK.le_table {X : ℤ → ℤ → ℝ} (hX : FloatK J L X) {j l : ℤ} (hj0 : 0 ≤ j) (hj1 : j < J + 2) (hl0 : 0 ≤ l) (hl1 : l < L) :
    X j l ≤ 1.001 + 1 / 2 ^ 33 ∧ (L ≤ 2049 → X j l ≤ 1 + 1 / 2 ^ 33) := by
  have h1 := (abs_le.1 (hX j l hj0 hj1 hl0 hl1).2.1).2
  refine ⟨?_, fun hL => ?_⟩
  · have := kval_two_le j l
    linarith
  · have := kval_le_table (p := 2) (by norm_num) (by norm_num) (j := j) (l := l) (by simp only [maxL]; omega)
    push_cast at this
    linarith

/-- the total at one degree, by band-limit -/
theorem energy64_bounds {X : ℤ → ℤ → ℝ} (hX : FloatK J L X) (hLJ : (L : ℝ) < 2 ^ J + 1) (h0 : 0 ≤ J_min) (h1 : J_min < J) {l : ℤ} (hl0 : 0 ≤ l)
    (hl1 : l < L) {S : ℝ} (hS : S = rnd (Real.sqrt (X J_min l)) ^ 2 + ∑ j ∈ Finset.Icc J_min J, psi64 (X (j + 1) l) (X j l) ^ 2) :
    1 - 1 / 2 ^ 48 ≤ S ∧ S ≤ 1.001 + 1 / 2 ^ 32 ∧ (L ≤ 2049 → S ≤ 1 + 1 / 2 ^ 32) ∧ (L ≤ 17 → S ≤ 1 + 1 / 2 ^ 48) := by
  obtain ⟨x, hx, e1, e2⟩ := energy64 hX hLJ h0 h1 hl0 hl1
  rw [← hS] at e1 e2
  refine ⟨e1, ?_, fun hL => ?_, fun hL => ?_⟩
  · have : max 1 x ≤ 1.001 + 1 / 2 ^ 33 := max_le (by norm_num) (by
      rcases hx with rfl | ⟨j0, a, b, rfl⟩
      · norm_num
      · exact (hX.le_table a b hl0 hl1).1)
    have h3 : (1 : ℝ) / 2 ^ 33 + 1 / 2 ^ 48 ≤ 1 / 2 ^ 32 := by norm_num
    linarith
  · have : max 1 x ≤ 1 + 1 / 2 ^ 33 := max_le (by norm_num) (by
      rcases hx with rfl | ⟨j0, a, b, rfl⟩
      · norm_num
      · exact (hX.le_table a b hl0 hl1).2 hL)
    have h3 : (1 : ℝ) / 2 ^ 33 + 1 / 2 ^ 48 ≤ 1 / 2 ^ 32 := by norm_num
    linarith
  · have : max 1 x ≤ 1 := max_le le_rfl (by
      rcases hx with rfl | ⟨j0, a, b, rfl⟩
      · norm_num
      · exact hX.le_one hL a b hl0 hl1)
    linarith

/-! ### The properties -/

/-- **C100** for `lam = 2` and every band-limit up to 2^53, the vectorised axisymmetric filters in double precision: no
exception, no infinity and no NaN; entries are non-negative and their squares are within `2^-31` of those of exact arithmetic; a
wavelet vanishes exactly outside the two bands of its scale. -/
theorem C100_vectorised (hm : m.Ok) (hT : TopScale jm L 2 J) (hL : L ≤ 2 ^ 53) (hJ : J ≤ 1000) (h0 : 0 ≤ J_min) (h1 : J_min < J) :
    ∃ (psi : Arr2 ℝ) (phi : Arr1 ℝ) (psi' : Arr2 ℝ) (phi' : Arr1 ℝ),
      filters_axisym_vectorised64 m jm L J_min 2 = .ok (psi.map F64.fin, phi.map F64.fin) ∧
      filters_axisym_vectorised jm L J_min 2 = .ok (psi', phi') ∧ psi.r = J + 1 ∧ psi.c = L ∧ phi.n = L ∧
      (∀ j l, 0 ≤ psi.v j l) ∧ (∀ l, 0 ≤ phi.v l) ∧
      (∀ j l, |psi.v j l ^ 2 - psi'.v j l ^ 2| ≤ 1 / 2 ^ 31) ∧ (∀ l, |phi.v l ^ 2 - phi'.v l ^ 2| ≤ 1 / 2 ^ 31) ∧
      (∀ j l : ℤ, (l : ℝ) ≤ 2 ^ (j - 1) ∨ (2 : ℝ) ^ (j + 1) ≤ l → psi.v j l = 0) ∧
      (∀ l : ℤ, (2 : ℝ) ^ J_min ≤ l → phi.v l = 0) := by
  obtain ⟨X, hX, -, hf⟩ := filters_axisym_vectorised64_ok hm hT.hJ hT.hL hL hJ h0 h1
  refine ⟨Arr2.of (J + 1) L fun j l => psi64 (X (j + 1) l) (X j l), Arr1.of L fun l => rnd (Real.sqrt (X J_min l)), _, _, ?_,
    filters_axisym_vectorised_ok hT h0 h1, rfl, rfl, rfl, fun j l => ?_, fun l => ?_, fun j l => ?_, fun l => ?_, fun j l h => ?_, fun l h => ?_⟩
  · rw [hf, map_of2, map_of1]
  · change 0 ≤ ite _ _ _
    split_ifs
    exacts [psi64_nonneg _ _, le_rfl]
  · change 0 ≤ ite _ _ _
    split_ifs
    exacts [rnd_nonneg (Real.sqrt_nonneg _), le_rfl]
  · by_cases hr : 0 ≤ j ∧ j < J + 1 ∧ 0 ≤ l ∧ l < L
    · rw [Arr2.of_v _ _ _ _ _ hr, Arr2.of_v _ _ _ _ _ hr, psiAx_sq]
      obtain ⟨a, b, c, d⟩ := hr
      obtain ⟨x0, x1, -⟩ := hX (j + 1) l (by omega) (by omega) c d
      obtain ⟨y0, y1, -⟩ := hX j l (by omega) (by omega) c d
      have := psi64_near x0 y0 (hX.le_two (by omega) (by omega) c d)
      have h2 : |max 0 (X (j + 1) l - X j l) - max 0 (kv 2 (j + 1) l - kv 2 j l)| ≤ 1 / 2 ^ 32 := by
        rw [max_comm 0, max_comm 0]
        refine (abs_max_sub_max_le_abs _ _ 0).trans ?_
        have e : X (j + 1) l - X j l - (kv 2 (j + 1) l - kv 2 j l) = (X (j + 1) l - kval 2 300 (j + 1) l) - (X j l - kval 2 300 j l) := by
          unfold kv; ring
        rw [e]
        refine (abs_sub _ _).trans ?_
        norm_num at x1 y1 ⊢; linarith
      have h3 : (1 : ℝ) / 2 ^ 48 + 1 / 2 ^ 32 ≤ 1 / 2 ^ 31 := by norm_num
      refine (abs_sub_le _ _ _).trans ((add_le_add this h2).trans h3)
    · rw [(Arr2.of (J + 1) L _).junk j l hr, (Arr2.of (J + 1) L (psiAx 2)).junk j l hr]; norm_num
  · by_cases hr : 0 ≤ l ∧ l < L
    · rw [Arr1.of_v _ _ _ hr, Arr1.of_v _ _ _ hr, phiAx_sq (by norm_num)]
      obtain ⟨x0, x1, -⟩ := hX J_min l h0 (by omega) hr.1 hr.2
      have h2 := hX.le_two h0 (by omega) hr.1 hr.2
      have h3 := sq_rnd_sqrt x0 (by linarith)
      change |_ - kval 2 300 J_min l| ≤ _
      rw [abs_le] at *
      norm_num at *
      constructor <;> linarith
    · rw [(Arr1.of L _).junk l hr, (Arr1.of L (phiAx 2 J_min)).junk l hr]; norm_num
  · by_cases hr : 0 ≤ j ∧ j < J + 1 ∧ 0 ≤ l ∧ l < L
    · rw [Arr2.of_v _ _ _ _ _ hr]
      obtain ⟨a, b, c, d⟩ := hr
      rcases h with h | h
      · rw [(hX j l (by omega) (by omega) c d).2.2.1 h, (hX (j + 1) l (by omega) (by omega) c d).2.2.1 (by
          rw [add_sub_cancel_right]; exact h.trans (zpow_le_zpow_right₀ (by norm_num) (by omega))), psi64_self]
      · rw [(hX (j + 1) l (by omega) (by omega) c d).2.2.2 h, (hX j l (by omega) (by omega) c d).2.2.2 (by
          exact le_trans (zpow_le_zpow_right₀ (by norm_num) (by omega)) h), psi64_self]
    · exact (Arr2.of (J + 1) L _).junk j l hr
  · by_cases hr : 0 ≤ l ∧ l < L
    · rw [Arr1.of_v _ _ _ hr, (hX J_min l h0 (by omega) hr.1 hr.2).2.2.2 h, Real.sqrt_zero, rnd_zero]
    · exact (Arr1.of L _).junk l hr

/-- **C100** they are admissible up to rounding: at every degree the squares add up to at least `1 - 2^-48`, to at most `1.001`
(up to `2^-32`) at any band-limit, to at most `1 + 2^-32` for `L ≤ 2049` and to at most `1 + 2^-48` for `L ≤ 17`. -/
theorem C100_admissible (hm : m.Ok) (hT : TopScale jm L 2 J) (hL : L ≤ 2 ^ 53) (hJ : J ≤ 1000) (h0 : 0 ≤ J_min) (h1 : J_min < J) {psi : Arr2 ℝ}
    {phi : Arr1 ℝ} (h : filters_axisym_vectorised64 m jm L J_min 2 = .ok (psi.map F64.fin, phi.map F64.fin)) {l : ℤ} (hl0 : 0 ≤ l) (hl1 : l < L) :
    1 - 1 / 2 ^ 48 ≤ phi.v l ^ 2 + ∑ j ∈ Finset.Icc J_min J, psi.v j l ^ 2 ∧
    phi.v l ^ 2 + ∑ j ∈ Finset.Icc J_min J, psi.v j l ^ 2 ≤ 1.001 + 1 / 2 ^ 32 ∧
    (L ≤ 2049 → phi.v l ^ 2 + ∑ j ∈ Finset.Icc J_min J, psi.v j l ^ 2 ≤ 1 + 1 / 2 ^ 32) ∧
    (L ≤ 17 → phi.v l ^ 2 + ∑ j ∈ Finset.Icc J_min J, psi.v j l ^ 2 ≤ 1 + 1 / 2 ^ 48) := by
  obtain ⟨X, hX, -, hf⟩ := filters_axisym_vectorised64_ok hm hT.hJ hT.hL hL hJ h0 h1
  rw [hf] at h
  simp only [Except.ok.injEq, Prod.mk.injEq] at h
  obtain ⟨e1, e2⟩ := fin_inj h.1 h.2
  refine energy64_bounds hX hT.hLJ h0 h1 hl0 hl1 ?_
  rw [e2 l hl0 hl1]
  congr 1
  refine Finset.sum_congr rfl fun j hj => ?_
  rw [Finset.mem_Icc] at hj
  rw [e1 j l (by omega) (by omega) hl0 hl1]

/-- **C100** the looped routine in double precision: no exception, finite entries, the same scaling function; the squares add up
to at least `1 - 2^-48` and to at most `1.002` (up to `2^-29`) at every band-limit; up to `L = 17` its rows from `J_min` on are
those of the vectorised routine, bit for bit, and the others are zero. -/
theorem C100_looped (hm : m.Ok) (hT : TopScale jm L 2 J) (hL : L ≤ 2 ^ 53) (hJ : J ≤ 1000) (h0 : 0 ≤ J_min) (h1 : J_min < J) :
    ∃ (psi : Arr2 ℝ) (phi : Arr1 ℝ) (psi' : Arr2 ℝ), filters_axisym64 m jm L J_min 2 = .ok (psi.map F64.fin, phi.map F64.fin) ∧
      filters_axisym_vectorised64 m jm L J_min 2 = .ok (psi'.map F64.fin, phi.map F64.fin) ∧ psi.r = J + 1 ∧ psi.c = L ∧
      (∀ l, 0 ≤ l → l < L → 1 - 1 / 2 ^ 48 ≤ phi.v l ^ 2 + ∑ j ∈ Finset.Icc J_min J, psi.v j l ^ 2 ∧
        phi.v l ^ 2 + ∑ j ∈ Finset.Icc J_min J, psi.v j l ^ 2 ≤ 1.002 + 1 / 2 ^ 29) ∧
      (∀ j l, j < J_min → psi.v j l = 0) ∧
      (L ≤ 17 → ∀ j l, J_min ≤ j → psi.v j l = psi'.v j l) := by
  obtain ⟨X, hX, hk, hf⟩ := filters_axisym_vectorised64_ok hm hT.hJ hT.hL hL hJ h0 h1
  obtain ⟨p, hp, hp'⟩ := filters_axisym64_ok hT.hJ hT.hL h0 h1 hX hk
  refine ⟨Arr2.of (J + 1) L p, Arr1.of L fun l => rnd (Real.sqrt (X J_min l)), Arr2.of (J + 1) L fun j l => psi64 (X (j + 1) l) (X j l), ?_,
    ?_, rfl, rfl, fun l hl0 hl1 => ?_, fun j l hj => ?_, fun hL j l hj => ?_⟩
  · rw [hp', map_of2, map_of1]
  · rw [hf, map_of2, map_of1]
  · have e : ∑ j ∈ Finset.Icc J_min J, (Arr2.of (J + 1) L p).v j l ^ 2 = ∑ j ∈ Finset.Icc J_min J, p j l ^ 2 := by
      refine Finset.sum_congr rfl fun j hj => ?_
      rw [Finset.mem_Icc] at hj
      rw [Arr2.of_v _ _ _ _ _ ⟨by omega, by omega, hl0, hl1⟩]
    rw [e, Arr1.of_v _ _ _ ⟨hl0, hl1⟩]
    obtain ⟨a, b, -⟩ := energy64_bounds hX hT.hLJ h0 h1 hl0 hl1 rfl
    obtain ⟨c, d⟩ := hp.energy hX h0 hl0 hl1
    norm_num at a b c d ⊢
    constructor <;> linarith
  · by_cases hr : 0 ≤ j ∧ j < J + 1 ∧ 0 ≤ l ∧ l < L
    · rw [Arr2.of_v _ _ _ _ _ hr, hp.low j l hj]
    · exact (Arr2.of (J + 1) L p).junk j l hr
  · by_cases hr : 0 ≤ j ∧ j < J + 1 ∧ 0 ≤ l ∧ l < L
    · rw [Arr2.of_v _ _ _ _ _ hr, Arr2.of_v _ _ _ _ _ hr]
      obtain ⟨a, b, c, d⟩ := hr
      exact hp.eq j l hj (by omega) c d (rnd_nonneg (sub_nonneg.2 (hX.mono hL a (by omega) c d)))
    · rw [(Arr2.of (J + 1) L p).junk j l hr, (Arr2.of (J + 1) L _).junk j l hr]

/-- **C100** both raise `ValueError` on a bad `J_min`, as in exact arithmetic -/
theorem C100_range (hJ : jm L 2 = .ok J) (h : J_min < 0 ∨ J ≤ J_min) :
    filters_axisym_vectorised64 m jm L J_min 2 = .error .valueError ∧ filters_axisym64 m jm L J_min 2 = .error .valueError := by
  unfold filters_axisym_vectorised64 filters_axisym64
  simp only [hJ, Py.bind_ok]
  rw [if_pos (by omega), if_pos (by omega)]
  exact ⟨rfl, rfl⟩

/-- the hypotheses are met by a default call: `L = 16`, `J_min = 0`, `lam = 2` -/
example : ∃ (psi : Arr2 ℝ) (phi : Arr1 ℝ), filters_axisym_vectorised64 Libm.exact j_max 16 0 2 = .ok (psi.map F64.fin, phi.map F64.fin) ∧
    ∀ l, 0 ≤ l → l < 16 → 1 - 1 / 2 ^ 48 ≤ phi.v l ^ 2 + ∑ j ∈ Finset.Icc 0 4, psi.v j l ^ 2 ∧
      phi.v l ^ 2 + ∑ j ∈ Finset.Icc 0 4, psi.v j l ^ 2 ≤ 1 + 1 / 2 ^ 48 := by
  have hJ : j_max 16 2 = .ok 4 := by
    have h := j_max_eq (L := 16) (lam := 2) (by norm_num) (by norm_num)
    rw [h]
    have : Real.log ((16 : ℤ) : ℝ) / Real.log 2 = 4 := by
      rw [div_eq_iff (Real.log_pos (by norm_num)).ne']
      have : ((16 : ℤ) : ℝ) = 2 ^ 4 := by norm_num
      rw [this, Real.log_pow]; norm_num
    rw [this]; norm_num
  have hT := TopScale.of_j_max (L := 16) (lam := 2) (by norm_num) (by norm_num) hJ
  obtain ⟨psi, phi, -, -, h, -⟩ := C100_vectorised Libm.exact_ok hT (by norm_num) (by norm_num) le_rfl (by norm_num : (0 : ℤ) < 4)
  refine ⟨psi, phi, h, fun l a b => ?_⟩
  obtain ⟨q1, -, -, q2⟩ := C100_admissible Libm.exact_ok hT (by norm_num) (by norm_num) le_rfl (by norm_num : (0 : ℤ) < 4) h a b
  exact ⟨q1, q2 (by norm_num)⟩

end S2wav
