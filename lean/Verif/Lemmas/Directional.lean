import Verif.Lemmas.Tiling
import Verif.Lemmas.Loops

/-! # Closed forms of the directional filters -/

namespace S2wav
open Classical

/-- closed form of `_spin_normalization` -/
noncomputable def spinN (el s : ℤ) : ℝ := Real.sqrt (((el + s).toNat.factorial : ℝ) / ((el - s).toNat.factorial : ℝ))

theorem spinN_pos (el s : ℤ) : 0 < spinN el s := by
  unfold spinN
  have a : (0 : ℝ) < ((el + s).toNat.factorial : ℝ) := by exact_mod_cast Nat.factorial_pos _
  have b : (0 : ℝ) < ((el - s).toNat.factorial : ℝ) := by exact_mod_cast Nat.factorial_pos _
  exact Real.sqrt_pos.2 (div_pos a b)

/-- the product loop of `_spin_normalization` -/
theorem spin_factor_loop {el s : ℤ} (h0 : 0 ≤ s) (h : s ≤ el) :
    (pyRange (-s + 1) (s + 1)).foldlM (init := (1 : ℝ)) (fun (factor : ℝ) (i : ℤ) =>
      (.ok (factor * ((el + i : ℤ) : ℝ)) : Py ℝ)) =
      .ok (((el + s).toNat.factorial : ℝ) / ((el - s).toNat.factorial : ℝ)) := by
  have b : ((el - s).toNat.factorial : ℝ) ≠ 0 := by exact_mod_cast (Nat.factorial_pos _).ne'
  obtain ⟨x, hx, hP⟩ := range_loop (a := -s + 1) (b := s + 1) (s := (1 : ℝ))
    (body := fun (factor : ℝ) (i : ℤ) => (.ok (factor * ((el + i : ℤ) : ℝ)) : Py ℝ))
    (fun i x => x = ((el + i - 1).toNat.factorial : ℝ) / ((el - s).toNat.factorial : ℝ)) (by omega)
    (by
      have : el + (-s + 1) - 1 = el - s := by ring
      rw [this, div_self b])
    (fun i x h1 h2 hP => by
      refine ⟨_, rfl, ?_⟩
      subst hP
      have e1 : (el + (i + 1) - 1).toNat = (el + i - 1).toNat + 1 := by omega
      have e2 : ((el + i : ℤ) : ℝ) = (((el + i - 1).toNat : ℕ) : ℝ) + 1 := by
        have : el + i = (((el + i - 1).toNat : ℕ) : ℤ) + 1 := by omega
        exact_mod_cast this
      rw [e1, Nat.factorial_succ, e2]
      push_cast
      ring)
  rw [hx, hP]
  congr 5
  ring

theorem spin_normalization_ok {el s : ℤ} (h : |s| ≤ el) : spin_normalization el s = .ok (spinN el s) := by
  unfold spin_normalization
  rw [spin_factor_loop (abs_nonneg s) h]
  have a : (0 : ℝ) < ((el + |s|).toNat.factorial : ℝ) := by exact_mod_cast Nat.factorial_pos _
  have b : (0 : ℝ) < ((el - |s|).toNat.factorial : ℝ) := by exact_mod_cast Nat.factorial_pos _
  simp only [Py.bind_ok]
  rcases lt_or_ge 0 s with hs | hs
  · rw [if_pos hs, npSqrt, if_neg (not_lt.2 (div_pos a b).le), abs_of_pos hs]; rfl
  · rw [if_neg (not_lt.2 hs), pyDiv, if_neg (div_pos a b).ne', Py.bind_ok, npSqrt,
      if_neg (not_lt.2 (by positivity)), one_div_div, abs_of_nonpos hs]
    unfold spinN
    rw [sub_neg_eq_add, ← sub_eq_add_neg]

/-- factor applied by the `spin0` option -/
noncomputable def sfac (spin0 el : ℤ) : ℝ := if spin0 = 0 then 1 else spinN el spin0 * (-1 : ℝ) ^ spin0

theorem sfac_zero (el : ℤ) : sfac 0 el = 1 := if_pos rfl

theorem sfac_ne_zero (spin0 el : ℤ) : sfac spin0 el ≠ 0 := by
  unfold sfac
  split_ifs
  · exact one_ne_zero
  · exact mul_ne_zero (spinN_pos _ _).ne' (zpow_ne_zero _ (by norm_num))

/-- normalisation of the scaling filter -/
noncomputable def cphi (l : ℤ) : ℝ := Real.sqrt ((2 * l + 1) / (4 * Real.pi))
/-- normalisation of the wavelet filters -/
noncomputable def cpsi (l : ℤ) : ℝ := Real.sqrt ((2 * l + 1) / 8) / Real.pi

theorem cphi_sq {l : ℤ} (hl : 0 ≤ l) : cphi l ^ 2 = (2 * l + 1) / (4 * Real.pi) := by
  have : (0 : ℝ) ≤ l := by exact_mod_cast hl
  have := Real.pi_pos
  rw [cphi, Real.sq_sqrt (by positivity)]

theorem cpsi_sq {l : ℤ} (hl : 0 ≤ l) : cpsi l ^ 2 = (2 * l + 1) / (8 * Real.pi ^ 2) := by
  have : (0 : ℝ) ≤ l := by exact_mod_cast hl
  rw [cpsi, div_pow, Real.sq_sqrt (by positivity), div_div]

theorem cpsi_alt {l : ℤ} : Real.sqrt ((2 * l + 1) / (8 * Real.pi * Real.pi)) = cpsi l := by
  rw [cpsi, mul_assoc, ← div_div, Real.sqrt_div' _ (by positivity), Real.sqrt_mul_self Real.pi_pos.le]

/-- closed form of the directional scaling filter -/
noncomputable def phiDir (lam : ℝ) (J_min elmin spin0 l : ℤ) : ℝ :=
  if l < elmin then 0 else cphi l * phiAx lam J_min l * sfac spin0 l

/-- closed form of the directional wavelets, for a given axisymmetric part `p` -/
noncomputable def psiDirOf (N : ℤ) (p : ℤ → ℤ → ℝ) (elmin spin0 j l n : ℤ) : ℂ :=
  if l < elmin then 0 else (cpsi l : ℂ) * (p j l : ℂ) * sdir N l n * (sfac spin0 l : ℂ)

/-- closed form of the vectorised directional wavelets (`spin0 = 0`) -/
noncomputable def psiDir (N : ℤ) (lam : ℝ) (elmin j l n : ℤ) : ℂ := psiDirOf N (psiAx lam) elmin 0 j l n

theorem mkSl_to' {n hi : ℤ} (h1 : 0 ≤ n) (h2 : 0 ≤ hi) : mkSl n none (some hi) = ⟨0, min hi n, 1⟩ := by
  simp only [mkSl, slBound]
  rw [if_neg (by omega)]
  congr 1
  omega

theorem bdim_self (a : ℤ) : bdim a a = .ok a := if_pos rfl

theorem bix_self {d i : ℤ} (h0 : 0 ≤ i) (h1 : i < d) : bix d i = i := by
  unfold bix; split_ifs <;> omega

section
variable {jm : JMax} {L N J J_min : ℤ} {lam : ℝ}

/-- the two `kappa` post-processing steps shared by the vectorised and JAX builders -/
theorem directional_tail (hL : 1 ≤ L) (hJ : 0 ≤ J) (f : ℤ → ℤ → ℝ) (g : ℤ → ℝ) (s : ℤ → ℤ → ℂ) {elmin : ℤ}
    (hel : 0 ≤ elmin) :
    (do
      let kappa0 ← Arr1.zip (fun x y : ℝ => x * y) (Arr1.of L g)
        (arange (fun l : ℤ => Real.sqrt ((2 * l + 1) / (4 * Real.pi))) 0 L)
      let kappa ← (Arr2.of (J + 1) L f).mulRow (arange (fun l : ℤ => Real.sqrt ((2 * l + 1) / 8) / Real.pi) 0 L)
      let kappa ← einsum_ij_jk (kappa.map fun x : ℝ => (x : ℂ)) (Arr2.of L (2 * L - 1) s)
      let kappa0 := kappa0.fill (mkSl kappa0.n none (some elmin)) 0
      let kappa := kappa.fill (mkSl kappa.d none none) (mkSl kappa.r none (some elmin)) (mkSl kappa.c none none) 0
      (.ok (kappa, kappa0) : Py (Arr3 ℂ × Arr1 ℝ))) =
    .ok (Arr3.of (J + 1) L (2 * L - 1) (fun j l n => if l < elmin then 0 else (cpsi l : ℂ) * (f j l : ℂ) * s l n),
      Arr1.of L fun l => if l < elmin then 0 else cphi l * g l) := by
  have hLm : max 0 (L - 0) = L := by omega
  simp only [Arr1.zip, arange, Arr1.of_n, hLm, bdim_self, Py.bind_ok, Arr2.mulRow, Arr2.of_c, Arr2.of_r, if_true,
    einsum_ij_jk, Arr2.map, Arr1.fill, Arr3.fill, Arr3.of_d, Arr3.of_r, Arr3.of_c, zero_add]
  simp only [mkSl_to' (show 0 ≤ L by omega) hel, mkSl_all (show 0 ≤ J + 1 by omega),
    mkSl_all (show 0 ≤ 2 * L - 1 by omega), Sl.mem_one, zero_add]
  congr 2
  · refine Arr3.of_congr fun j l n h0 h1 h2 h3 h4 h5 => ?_
    rw [Arr3.of_v _ _ _ _ _ _ _ ⟨h0, h1, h2, h3, h4, h5⟩, bix_self h2 h3,
      Arr2.of_v _ _ _ _ _ ⟨h0, h1, h2, h3⟩, Arr2.of_v _ _ _ _ _ ⟨h0, h1, h2, h3⟩,
      Arr2.of_v _ _ _ _ _ ⟨h0, h1, h2, h3⟩, Arr2.of_v _ _ _ _ _ ⟨h2, h3, h4, h5⟩, Arr1.of_v _ _ _ ⟨h2, h3⟩]
    by_cases h : l < elmin
    · rw [if_pos h, if_pos ⟨⟨h0, h1⟩, ⟨h2, lt_min h h3⟩, h4, h5⟩]
    · rw [if_neg h, if_neg (by omega)]
      push_cast [cpsi]
      ring
  · refine Arr1.of_congr fun l h2 h3 => ?_
    rw [Arr1.of_v _ _ _ ⟨h2, h3⟩, bix_self h2 h3, Arr1.of_v _ _ _ ⟨h2, h3⟩, Arr1.of_v _ _ _ ⟨h2, h3⟩]
    by_cases h : l < elmin
    · rw [if_pos h, if_pos ⟨h2, lt_min h h3⟩]
    · rw [if_neg h, if_neg (by omega), cphi, mul_comm]

theorem elmin_nonneg (spin spin0 : ℤ) : 0 ≤ max |spin| |spin0| := le_max_of_le_left (abs_nonneg _)

theorem filters_directional_vectorised_ok (hT : TopScale jm L lam J) (hN : 1 ≤ N) (h0 : 0 ≤ J_min) (h1 : J_min < J)
    (spin : ℤ) :
    filters_directional_vectorised jm L N J_min lam spin 0 =
      .ok (Arr3.of (J + 1) L (2 * L - 1) fun j l k => psiDir N lam |spin| j l (k - (L - 1)),
        Arr1.of L (phiDir lam J_min |spin| 0)) := by
  have hmax : max |spin| |0| = |spin| := by simp
  unfold filters_directional_vectorised
  simp only [ne_eq, not_true_eq_false, if_false, Py.bind_ok, filters_axisym_vectorised_ok hT h0 h1,
    tiling_direction_ok hT.hL hN, hmax]
  refine (directional_tail hT.hL hT.hJ0 _ _ _ (abs_nonneg spin)).trans ?_
  congr 2
  · refine Arr3.of_congr fun j l n _ _ _ _ _ _ => ?_
    simp only [psiDir, psiDirOf, sfac_zero, Complex.ofReal_one, mul_one]
  · refine Arr1.of_congr fun l _ _ => ?_
    simp only [phiDir, sfac_zero, mul_one]

theorem filters_directional_jax_ok (hT : TopScale jm L lam J) (hN : 1 ≤ N) (h0 : 0 ≤ J_min) (h1 : J_min < J)
    (spin : ℤ) :
    filters_directional_jax jm L N J_min lam spin 0 =
      .ok (Arr3.of (J + 1) L (2 * L - 1) fun j l k => psiDir N lam |spin| j l (k - (L - 1)),
        Arr1.of L (phiDir lam J_min |spin| 0)) := by
  have hmax : max |spin| |0| = |spin| := by simp
  unfold filters_directional_jax
  simp only [ne_eq, not_true_eq_false, if_false, Py.bind_ok, filters_axisym_jax_eq hT,
    filters_axisym_vectorised_ok hT h0 h1, tiling_direction_jax_ok hT.hL hN, hmax]
  refine (directional_tail hT.hL hT.hJ0 _ _ _ (abs_nonneg spin)).trans ?_
  congr 2
  · refine Arr3.of_congr fun j l n _ _ _ _ _ _ => ?_
    simp only [psiDir, psiDirOf, sfac_zero, Complex.ofReal_one, mul_one]
  · refine Arr1.of_congr fun l _ _ => ?_
    simp only [phiDir, sfac_zero, mul_one]

theorem spin_reshape_err (el : Arr1 ℝ) {spin : ℤ} :
    spin_normalization_vectorised el spin = .error .valueError ∧ spin_normalization_jax el spin = .error .valueError := by
  have hs := abs_nonneg spin
  have h : (arange (fun i : ℤ => (i : ℝ)) (-|spin| + 1) (|spin| + 1)).reshapeRow (2 * |spin| + 1) =
      .error .valueError := by
    unfold Arr1.reshapeRow arange
    rw [if_neg]
    simp only [Arr1.of_n]
    omega
  constructor
  · unfold spin_normalization_vectorised; rw [h]; rfl
  · unfold spin_normalization_jax; rw [h]; rfl

/-- one `phi` entry of the looped filters -/
theorem phi_body (spin0 : ℤ) {el : ℤ} (h0 : 0 ≤ el) (h1 : el < L) (hs : |spin0| ≤ el) (k : Arr1 ℝ) (hk : k.n = L)
    (g : ℤ → ℝ) (hg : g el = 0) :
    (do
      let k0 ← k.get el
      if k0 ≠ 0 then do
        let phi ← (Arr1.of L g).set el (Real.sqrt ((2 * el + 1) / (4 * Real.pi)) * k0)
        if spin0 ≠ 0 then do
          let sn ← spin_normalization el spin0
          let x ← phi.get el
          phi.set el (x * (sn * (-1 : ℝ) ^ spin0))
        else .ok phi
      else .ok (Arr1.of L g)) =
    .ok (Arr1.of L fun i => if i = el then cphi el * k.v el * sfac spin0 el else g i) := by
  have hset : ∀ (g : ℤ → ℝ) x, (Arr1.of L g).set el x = .ok (Arr1.of L fun i => if i = el then x else g i) := fun g x => by
    rw [Arr1.set_ok _ _ h0 (by simpa using h1)]
    congr 1
    exact Arr1.of_congr fun i a b => by rw [Arr1.of_v L g i ⟨a, b⟩]
  rw [Arr1.get_ok k h0 (by omega)]
  simp only [Py.bind_ok, hset]
  by_cases hz : k.v el = 0
  · rw [if_neg (not_not.2 hz), hz]
    congr 1
    refine Arr1.of_congr fun i _ _ => ?_
    by_cases hi : i = el
    · subst hi; rw [if_pos rfl, hg]; ring
    · rw [if_neg hi]
  · rw [if_pos hz]
    by_cases hs0 : spin0 = 0
    · subst hs0
      simp only [ne_eq, not_true_eq_false, if_false, sfac_zero, mul_one, cphi]
    · rw [if_pos hs0, spin_normalization_ok hs, Arr1.get_ok _ h0 (by simpa using h1), Arr1.of_v _ _ _ ⟨h0, h1⟩]
      simp only [Py.bind_ok, if_true, hset, sfac, if_neg hs0, cphi]
      congr 1
      refine Arr1.of_congr fun i _ _ => ?_
      by_cases hi : i = el
      · rw [if_pos hi, if_pos hi]
      · rw [if_neg hi, if_neg hi, if_neg hi]

theorem filters_directional_ok (hT : TopScale jm L lam J) (hN : 1 ≤ N) (h0 : 0 ≤ J_min) (h1 : J_min < J)
    (spin spin0 : ℤ) :
    ∃ p : ℤ → ℤ → ℝ, filters_axisym jm L J_min lam = .ok (Arr2.of (J + 1) L p, Arr1.of L (phiAx lam J_min)) ∧
      filters_directional jm L N J_min lam spin spin0 =
      .ok (Arr3.of (J + 1) L (2 * L - 1) fun j l k => psiDirOf N p (max |spin| |spin0|) spin0 j l (k - (L - 1)),
        Arr1.of L (phiDir lam J_min (max |spin| |spin0|) spin0)) ∧
      (∀ j l, J_min ≤ j → j ≤ J → 0 ≤ l → l < L → 0 ≤ kv lam (j + 1) l - kv lam j l → p j l = psiAx lam j l) ∧
      (∀ j l, j < J_min → p j l = 0) ∧
      (∀ j l, J_min ≤ j → j ≤ J → 0 ≤ l → l < L → kv lam (j + 1) l - kv lam j l < 0 → p j l = p j (l - 1)) := by
  have hL := hT.hL
  obtain ⟨p, hp, hp1, hp2, hp3⟩ := filters_axisym_ok hT h0 h1
  refine ⟨p, hp, ?_, hp1, hp2, hp3⟩
  have hJ0 := hT.hJ0
  have hel := elmin_nonneg spin spin0
  have hs0 : |spin0| ≤ max |spin| |spin0| := le_max_right _ _
  generalize he : max |spin| |spin0| = elmin at hel hs0
  unfold filters_directional
  simp only [hT.hJ, Py.bind_ok, zeros1, zeros3, he]
  rw [if_neg (by omega), if_neg (by omega), hp, tiling_direction_ok hL hN]
  simp only [Py.bind_ok]
  -- scaling loop
  rw [cells_loop (S := Arr1.of L) (c := fun x i => i = x) (f := phiDir lam J_min elmin spin0) (g0 := fun _ => 0)]
  rotate_left
  · intro x y i hx hy; omega
  · intro g x hx0 hx1 hg
    refine (phi_body (L := L) spin0 (by omega) hx1 (by omega) (Arr1.of L (phiAx lam J_min)) rfl g (hg x rfl)).trans ?_
    congr 1
    refine Arr1.of_congr fun i _ _ => ?_
    by_cases hi : i = x
    · subst hi
      rw [if_pos rfl, if_pos rfl, Arr1.of_v _ _ _ ⟨by omega, hx1⟩, phiDir, if_neg (by omega)]
    · rw [if_neg hi, if_neg hi]
  simp only [Py.bind_ok]
  -- wavelet loops
  let F : ℤ × ℤ × ℤ → ℂ := fun t => psiDirOf N p elmin spin0 t.1 t.2.1 (t.2.2 - (L - 1))
  have hF0 : ∀ j l k, l < elmin → F (j, l, k) = 0 := fun j l k h => by
    simp only [F, psiDirOf]; rw [if_pos h]
  have hFs : ∀ j l k, sdir N l (k - (L - 1)) = 0 → F (j, l, k) = 0 := fun j l k h => by
    simp only [F, psiDirOf, h]; split_ifs <;> simp
  have hFp : ∀ j l k, p j l = 0 → F (j, l, k) = 0 := fun j l k h => by
    simp only [F, psiDirOf, h]; split_ifs <;> simp
  have hget_s : ∀ el m : ℤ, 0 ≤ el → el < L → -el ≤ m → m ≤ el →
      (Arr2.of L (2 * L - 1) fun el k => sdir N el (k - (L - 1))).get el (L - 1 + m) = .ok (sdir N el m) :=
    fun el m a b c d => by
      rw [Arr2.get_ok _ a (by simpa using b) (by omega) (by simp; omega),
        Arr2.of_v _ _ _ _ _ ⟨a, b, by omega, by omega⟩]
      congr 2; ring
  have hsdir0 : ∀ l m : ℤ, 0 ≤ l → ¬ (-l ≤ m ∧ m ≤ l) → sdir N l m = 0 := fun l m hl hm => by
    apply sdir_eq_zero
    rintro ⟨a, b, _⟩
    exact hm (abs_le.1 (b.trans (gam_facts hN a).2.2.2.1))
  have main : (pyRange J_min (J + 1)).foldlM (init := S3 (J + 1) L (2 * L - 1) fun _ => (0 : ℂ))
      (fun (psi : Arr3 ℂ) (j : ℤ) =>
        (pyRange elmin L).foldlM (init := psi) fun (psi : Arr3 ℂ) (el : ℤ) => do
          let kj ← (Arr2.of (J + 1) L p).get j el
          if kj ≠ 0 then
            (pyRange (-el) (el + 1)).foldlM (init := psi) fun (psi : Arr3 ℂ) (m : ℤ) => do
              let s ← (Arr2.of L (2 * L - 1) fun el k => sdir N el (k - (L - 1))).get el (L - 1 + m)
              if s ≠ 0 then do
                let psi ← psi.set j el (L - 1 + m)
                  ((Real.sqrt ((2 * el + 1) / (8 * Real.pi * Real.pi)) : ℂ) * (kj : ℂ) * s)
                if spin0 ≠ 0 then do
                  let sn ← spin_normalization el spin0
                  let x ← psi.get j el (L - 1 + m)
                  psi.set j el (L - 1 + m) (x * ((sn * (-1 : ℝ) ^ spin0 : ℝ) : ℂ))
                else .ok psi
              else .ok psi
          else .ok psi) = .ok (S3 (J + 1) L (2 * L - 1) F) := by
    rw [cells_loop (S := S3 (J + 1) L (2 * L - 1)) (c := fun j t => t.1 = j) (f := F) (g0 := fun _ => 0)]
    rotate_left
    · intro x y i hx hy; omega
    · intro g j hj0 hj1 hg
      rw [cells_loop (S := S3 (J + 1) L (2 * L - 1)) (c := fun l t => t.1 = j ∧ t.2.1 = l) (f := F) (g0 := g)]
      rotate_left
      · intro x y i hx hy; omega
      · intro g' el hel0 hel1 hg'
        rw [Arr2.get_ok _ (by omega) (by simpa using hj1) (by omega) (by simpa using hel1),
          Arr2.of_v _ _ _ _ _ ⟨by omega, hj1, by omega, hel1⟩]
        simp only [Py.bind_ok]
        by_cases hk : p j el = 0
        · rw [if_neg (not_not.2 hk)]
          congr 1
          refine S3_congr fun a b c _ _ _ _ _ _ => ?_
          by_cases hab : a = j ∧ b = el
          · rw [if_pos hab, hg' _ hab, hg _ hab.1, hab.1, hab.2, hFp _ _ _ hk]
          · rw [if_neg hab]
        · rw [if_pos hk]
          rw [cells_loop (S := S3 (J + 1) L (2 * L - 1)) (c := fun m t => t = (j, el, L - 1 + m)) (f := F) (g0 := g')]
          · congr 1
            refine S3_congr fun a b c _ _ _ _ _ _ => ?_
            by_cases hab : a = j ∧ b = el
            · rw [if_pos hab]
              split_ifs with hm
              · rfl
              · rw [hg' _ hab, hg _ hab.1, hab.1, hab.2, hFs]
                apply hsdir0 _ _ (by omega)
                rintro ⟨u, v⟩
                exact hm ⟨c - (L - 1), u, by omega, by rw [hab.1, hab.2]; congr 2; ring⟩
            · rw [if_neg hab, if_neg]
              rintro ⟨m, _, _, hm⟩
              simp only [Prod.mk.injEq] at hm
              exact hab ⟨hm.1, hm.2.1⟩
          · intro x y i hx hy
            subst hx
            simp only [Prod.mk.injEq] at hy
            omega
          · intro g'' m hm0 hm1 hg''
            have b1 : 0 ≤ L - 1 + m := by omega
            have b2 : L - 1 + m < 2 * L - 1 := by omega
            rw [hget_s el m (by omega) hel1 hm0 (by omega)]
            simp only [Py.bind_ok]
            have hFv : F (j, el, L - 1 + m) = (cpsi el : ℂ) * (p j el : ℂ) * sdir N el m * (sfac spin0 el : ℂ) := by
              simp only [F, psiDirOf]
              rw [if_neg (by omega)]
              congr 3; ring
            by_cases hsz : sdir N el m = 0
            · rw [if_neg (not_not.2 hsz)]
              congr 1
              refine S3_congr fun a b c _ _ _ _ _ _ => ?_
              by_cases ht : (a, b, c) = (j, el, L - 1 + m)
              · rw [if_pos ht, ht, hg'' _ rfl, hg' _ ⟨rfl, rfl⟩, hg _ rfl, hFv, hsz]; simp
              · rw [if_neg ht]
            · rw [if_pos hsz, S3_set _ _ (by omega) hj1 (by omega) hel1 b1 b2]
              simp only [Py.bind_ok]
              by_cases hs : spin0 = 0
              · rw [if_neg (not_not.2 hs)]
                congr 1
                refine S3_congr fun a b c _ _ _ _ _ _ => ?_
                by_cases ht : (a, b, c) = (j, el, L - 1 + m)
                · rw [if_pos ht, if_pos ht, ht, hFv, hs, sfac_zero, ← cpsi_alt]; push_cast; ring
                · rw [if_neg ht, if_neg ht]
              · rw [if_pos hs, spin_normalization_ok (by omega), Py.bind_ok,
                  S3_get _ (by omega) hj1 (by omega) hel1 b1 b2, Py.bind_ok,
                  S3_set _ _ (by omega) hj1 (by omega) hel1 b1 b2]
                congr 1
                refine S3_congr fun a b c _ _ _ _ _ _ => ?_
                by_cases ht : (a, b, c) = (j, el, L - 1 + m)
                · rw [if_pos ht, if_pos ht, if_pos rfl, ht, hFv, ← cpsi_alt, sfac, if_neg hs]
                · rw [if_neg ht, if_neg ht, if_neg ht]
      · congr 1
        refine S3_congr fun a b c _ _ hb0 hb1 _ _ => ?_
        by_cases ha : a = j
        · rw [if_pos ha]
          split_ifs with hm
          · rfl
          · rw [hg _ ha, hF0]
            by_contra hb
            exact hm ⟨b, by omega, hb1, ha, rfl⟩
        · rw [if_neg ha, if_neg]
          rintro ⟨_, _, _, h, _⟩
          exact ha h
    · congr 1
      refine S3_congr fun a b c ha0 ha1 _ _ _ _ => ?_
      split_ifs with hm
      · rfl
      · rw [hFp]
        apply hp2
        by_contra h
        exact hm ⟨a, by omega, ha1, rfl⟩
  refine (congrArg (fun z : Py (Arr3 ℂ) => z >>= fun st => Except.ok (st, Arr1.of L fun l =>
    if ∃ x, elmin ≤ x ∧ x < L ∧ l = x then phiDir lam J_min elmin spin0 l else 0)) main).trans ?_
  simp only [Py.bind_ok]
  congr 2
  refine Arr1.of_congr fun l h2 h3 => ?_
  split_ifs with h
  · rfl
  · rw [phiDir, if_pos]
    by_contra hc
    exact h ⟨l, by omega, h3, rfl⟩

theorem filters_directional_err (hT : TopScale jm L lam J) (N : ℤ) (h : J_min < 0 ∨ J ≤ J_min) (spin spin0 : ℤ) :
    filters_directional jm L N J_min lam spin spin0 = .error .valueError := by
  have hL := hT.hL
  have hJ0 := hT.hJ0
  unfold filters_directional
  simp only [hT.hJ, Py.bind_ok, zeros1, zeros3]
  rw [if_neg (by omega), if_neg (by omega)]
  simp only [Py.bind_ok, filters_axisym_err hT.hJ h, Py.bind_error]

theorem filters_directional_vectorised_err (hJ : jm L lam = .ok J) (N : ℤ) (h : J_min < 0 ∨ J ≤ J_min) (spin : ℤ) :
    filters_directional_vectorised jm L N J_min lam spin 0 = .error .valueError := by
  unfold filters_directional_vectorised
  simp only [ne_eq, not_true_eq_false, if_false, Py.bind_ok, filters_axisym_vectorised_err hJ h, Py.bind_error]

theorem filters_directional_jax_err (hJ : jm L lam = .ok J) (N : ℤ) (h : J_min < 0 ∨ J ≤ J_min) (spin : ℤ) :
    filters_directional_jax jm L N J_min lam spin 0 = .error .valueError := by
  unfold filters_directional_jax
  simp only [ne_eq, not_true_eq_false, if_false, Py.bind_ok, filters_axisym_jax_err hJ h, Py.bind_error]

theorem filters_directional_spin0_err (jm : JMax) (L N J_min : ℤ) (lam : ℝ) (spin : ℤ) {spin0 : ℤ} (h : spin0 ≠ 0) :
    filters_directional_vectorised jm L N J_min lam spin spin0 = .error .valueError ∧
    filters_directional_jax jm L N J_min lam spin spin0 = .error .valueError := by
  constructor
  · unfold filters_directional_vectorised
    rw [if_pos h, (spin_reshape_err _).1]; rfl
  · unfold filters_directional_jax
    rw [if_pos h, (spin_reshape_err _).2]; rfl

end

end S2wav
