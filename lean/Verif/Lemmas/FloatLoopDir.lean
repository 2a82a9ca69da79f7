import Verif.Lemmas.FloatDirectional
import Verif.Lemmas.FloatLooped

/-! # `filters_directional` (the looped routine) in double precision -/

namespace S2wav
open Classical

variable {m : Libm} {lg : F64 → F64} {jm : JMax} {L N J J_min : ℤ} {X p : ℤ → ℤ → ℝ}

/-- normalisation of the wavelets in the looped routine -/
noncomputable def ufac (l : ℤ) : ℝ := rnd (Real.sqrt (rnd (rnd ((2 * l + 1 : ℤ) : ℝ) / rnd (rnd (8 * piR) * piR))))

theorem eightpi_rl : Rl 2 (rnd (8 * piR)) (8 * Real.pi) ∧ Rl 4 (rnd (rnd (8 * piR) * piR)) (8 * Real.pi * Real.pi) := by
  have h3 := Real.pi_gt_three
  have bp := piR_rl.bounds (by norm_num)
  have p1 : Rl 1 (8 * piR) (8 * Real.pi) := by
    have := (Rl.refl (show (0 : ℝ) < 8 by norm_num)).mul piR_rl; simpa using this
  have p2 : Rl 2 (rnd (8 * piR)) (8 * Real.pi) := (Rl.rnd (by norm_num; linarith)).trans p1
  have b2 := p2.bounds (by norm_num)
  have p3 : Rl 3 (rnd (8 * piR) * piR) (8 * Real.pi * Real.pi) := p2.mul piR_rl
  have b3 := p3.bounds (by norm_num)
  refine ⟨p2, (Rl.rnd ?_).trans p3⟩
  have : (9 : ℝ) ≤ Real.pi * Real.pi := by nlinarith
  norm_num; linarith

section
variable {l : ℤ} (hl0 : 0 ≤ l) (hl1 : l < 2 ^ 53)
include hl0 hl1

theorem ufac_steps :
    Rl 10 (rnd (rnd ((2 * l + 1 : ℤ) : ℝ) / rnd (rnd (8 * piR) * piR))) (((2 * l + 1 : ℤ) : ℝ) / 8 / Real.pi ^ 2) ∧
    (1 : ℝ) / 100 ≤ ((2 * l + 1 : ℤ) : ℝ) / 8 / Real.pi ^ 2 ∧ ((2 * l + 1 : ℤ) : ℝ) / 8 / Real.pi ^ 2 ≤ 2 ^ 51 := by
  have h3 := Real.pi_gt_three
  have h4 := Real.pi_lt_d2
  obtain ⟨t0, t1⟩ := odd_bounds hl0 hl1
  have r1 := odd_rl hl0 hl1
  have d := r1.div eightpi_rl.2
  have e : ((2 * l + 1 : ℤ) : ℝ) / (8 * Real.pi * Real.pi) = ((2 * l + 1 : ℤ) : ℝ) / 8 / Real.pi ^ 2 := by
    rw [div_div]; congr 1; ring
  rw [e] at d
  have b := d.bounds (by norm_num)
  have p2 : Real.pi ^ 2 ≤ 10 := by norm_num at h4; nlinarith
  have p1 : (9 : ℝ) ≤ Real.pi ^ 2 := by nlinarith
  have y1 : (1 : ℝ) / 100 ≤ ((2 * l + 1 : ℤ) : ℝ) / 8 / Real.pi ^ 2 := by
    rw [le_div_iff₀ (by positivity)]
    generalize ((2 * l + 1 : ℤ) : ℝ) = t at *
    norm_num; linarith
  have y2 : ((2 * l + 1 : ℤ) : ℝ) / 8 / Real.pi ^ 2 ≤ 2 ^ 51 := by
    rw [div_le_iff₀ (by positivity)]
    generalize ((2 * l + 1 : ℤ) : ℝ) = t at *
    norm_num at *; linarith
  refine ⟨(Rl.rnd ?_).trans d, y1, y2⟩
  refine le_trans (by norm_num) ((div_le_div_of_nonneg_right y1 (by norm_num : (0 : ℝ) ≤ 2)).trans b.1)

theorem ufac_rl : Rl 16 (ufac l ^ 2) (((2 * l + 1 : ℤ) : ℝ) / 8 / Real.pi ^ 2) ∧ 0 < ufac l := by
  obtain ⟨r, y1, y2⟩ := ufac_steps hl0 hl1
  have b := r.bounds (by norm_num)
  unfold ufac
  generalize rnd (rnd ((2 * l + 1 : ℤ) : ℝ) / rnd (rnd (8 * piR) * piR)) = x at *
  generalize ((2 * l + 1 : ℤ) : ℝ) / 8 / Real.pi ^ 2 = y at *
  have hx : (1 : ℝ) / 200 ≤ x := by linarith
  refine ⟨((Rl.sqrt (le_trans (by norm_num) hx) (by norm_num at *; linarith)).trans r).mono (by norm_num), ?_⟩
  have hs : (1 : ℝ) / 2 ^ 40 ≤ Real.sqrt x := by
    rw [Real.le_sqrt (by positivity) r.pos.le]; exact le_trans (by norm_num) hx
  exact (Rl.rnd hs).pos

theorem ufac_le : ufac l ≤ 2 ^ 26 := by
  obtain ⟨r, h⟩ := ufac_rl hl0 hl1
  obtain ⟨-, -, y2⟩ := ufac_steps hl0 hl1
  have b := (r.bounds (by norm_num)).2
  have h2 : ufac l ^ 2 ≤ (2 ^ 26) ^ 2 := by norm_num at *; linarith
  exact abs_le_of_sq_le_sq' h2 (by norm_num) |>.2

theorem ufac_ok : ((F64.ofInt (2 * l + 1)).div (((F64.fin 8).mul pi64).mul pi64)).sqrt = .fin (ufac l) := by
  obtain ⟨t0, t1⟩ := odd_bounds hl0 hl1
  obtain ⟨r, y1, y2⟩ := ufac_steps hl0 hl1
  have br := r.bounds (by norm_num)
  obtain ⟨e1, e2⟩ := eightpi_rl
  have be1 := e1.bounds (by norm_num)
  have be2 := e2.bounds (by norm_num)
  have r1 := odd_rl hl0 hl1
  have b1 := r1.bounds (by norm_num)
  have h3 := Real.pi_gt_three
  have h4 := Real.pi_lt_d2
  have hq : (9 : ℝ) ≤ Real.pi * Real.pi := by nlinarith
  have bp := piR_rl.bounds (by norm_num)
  have p0 := piR_rl.pos
  have hp8 : |8 * piR| ≤ 4 * 2 ^ 53 := by
    rw [abs_of_nonneg (by positivity)]; norm_num at *; linarith
  have hpp : |rnd (8 * piR) * piR| ≤ 4 * 2 ^ 53 := by
    rw [abs_of_nonneg (mul_nonneg e1.pos.le p0.le)]
    calc rnd (8 * piR) * piR ≤ 100 * 100 := mul_le_mul (by norm_num at *; linarith) (by norm_num at *; linarith) p0.le (by norm_num)
      _ ≤ _ := by norm_num
  rw [pi64_eq]
  unfold F64.ofInt ufac at *
  generalize ((2 * l + 1 : ℤ) : ℝ) = t at *
  have ht : |t| ≤ 4 * 2 ^ 53 := by rw [abs_of_nonneg (by linarith)]; norm_num at *; linarith
  have hd : |rnd t / rnd (rnd (8 * piR) * piR)| ≤ 4 * 2 ^ 53 := by
    rw [abs_of_nonneg (div_nonneg r1.pos.le e2.pos.le), div_le_iff₀ e2.pos]
    norm_num at *; linarith
  rw [F64.of_fin' ht, F64.mul_fin, F64.of_fin' hp8, F64.mul_fin, F64.of_fin' hpp, F64.div_fin e2.pos.ne', F64.of_fin' hd]
  exact sqrt64' r.pos.le (by norm_num at *; linarith)

end

/-! ### Entries of the looped axisymmetric filters -/

theorem Loop64.range (hX : FloatK J L X) (hp : Loop64 L J_min J X p) (h0 : 0 ≤ J_min) {j : ℤ} (hj : j ≤ J) (l : ℕ) (hl : (l : ℤ) < L) :
    0 ≤ p j l ∧ p j l ≤ 2 := by
  by_cases hj0 : J_min ≤ j
  swap
  · rw [hp.low j l (by omega)]; norm_num
  induction l with
  | zero =>
    have e : X (j + 1) ((0 : ℕ) : ℤ) = X j ((0 : ℕ) : ℤ) := by
      rw [(hX (j + 1) _ (by omega) (by omega) (by simp) hl).2.2.1 (by push_cast; positivity), (hX j _ (by omega) (by omega) (by simp) hl).2.2.1 (by push_cast; positivity)]
    rw [hp.eq j _ hj0 hj (by simp) hl (by rw [e, sub_self, rnd_zero]), e, psi64_self]; norm_num
  | succ l ih =>
    by_cases hn : 0 ≤ rnd (X (j + 1) ((l + 1 : ℕ) : ℤ) - X j ((l + 1 : ℕ) : ℤ))
    · rw [hp.eq j _ hj0 hj (by positivity) hl hn]
      exact ⟨psi64_nonneg _ _, hX.psi_le (by omega) (by omega) (by positivity) hl⟩
    · rw [hp.carry j _ hj0 hj (by positivity) hl (not_le.1 hn)]
      have := ih (by push_cast at hl; omega)
      have e : ((l + 1 : ℕ) : ℤ) - 1 = l := by push_cast; ring
      rw [e]; exact this

theorem Loop64.range' (hX : FloatK J L X) (hp : Loop64 L J_min J X p) (h0 : 0 ≤ J_min) {j l : ℤ} (hj : j ≤ J) (hl0 : 0 ≤ l) (hl : l < L) :
    0 ≤ p j l ∧ p j l ≤ 2 := by
  have := hp.range hX h0 hj l.toNat (by omega)
  rwa [Int.toNat_of_nonneg hl0] at this

theorem Loop64.band (hX : FloatK J L X) (hp : Loop64 L J_min J X p) (h0 : 0 ≤ J_min) {j l : ℤ} (hj : j ≤ J) (hl0 : 0 ≤ l) (hl1 : l < L)
    (h : p j l ≠ 0) : J_min ≤ j ∧ (2 : ℝ) ^ (j - 1) < l ∧ (l : ℝ) < 2 ^ (j + 1) := by
  have hj0 : J_min ≤ j := by
    by_contra hc
    exact h (hp.low j l (by omega))
  refine ⟨hj0, ?_⟩
  by_cases hn : 0 ≤ rnd (X (j + 1) l - X j l)
  · rw [hp.eq j l hj0 hj hl0 hl1 hn] at h
    constructor
    · by_contra hk
      have hk := not_lt.1 hk
      apply h
      rw [(hX j l (by omega) (by omega) hl0 hl1).2.2.1 hk, (hX (j + 1) l (by omega) (by omega) hl0 hl1).2.2.1 (by
        rw [add_sub_cancel_right]; exact hk.trans (zpow_le_zpow_right₀ (by norm_num) (by omega))), psi64_self]
    · by_contra hk
      have hk := not_lt.1 hk
      apply h
      rw [(hX (j + 1) l (by omega) (by omega) hl0 hl1).2.2.2 hk, (hX j l (by omega) (by omega) hl0 hl1).2.2.2 (by
        exact le_trans (zpow_le_zpow_right₀ (by norm_num) (by omega)) hk), psi64_self]
  · obtain ⟨a, b, -⟩ := hX.diff_neg (by omega) hj hl0 hl1 (not_le.1 hn)
    exact ⟨a, b.trans (zpow_lt_zpow_right₀ (by norm_num) (by omega))⟩

theorem Loop64.zero (hX : FloatK J L X) (hp : Loop64 L J_min J X p) (h0 : 0 ≤ J_min) {j : ℤ} (hj : j ≤ J) (hL : 1 ≤ L) : p j 0 = 0 := by
  by_contra h
  have := (hp.band hX h0 hj le_rfl (by omega) h).2.1
  have h2 : (0 : ℝ) < 2 ^ (j - 1) := by positivity
  simp at this
  linarith

/-! ### The routine -/

theorem C64.ofC_ne_zero {z : ℂ} : C64.ofC z ≠ 0 ↔ z ≠ 0 := by
  have e : (0 : C64) = ⟨.fin 0, .fin 0⟩ := rfl
  rw [e]
  unfold C64.ofC
  simp only [ne_eq, C64.mk.injEq, F64.fin.injEq, not_iff_not]
  rw [Complex.ext_iff]; simp

theorem F64.fin_ne_zero {x : ℝ} : F64.fin x ≠ 0 ↔ x ≠ 0 := by
  have e : (0 : F64) = .fin 0 := rfl
  rw [e]; simp

theorem filters_directional64_ok (hs : Libm.Special m lg) (hJ : jm L 2 = .ok J) (hL : 1 ≤ L) (hL2 : L ≤ 2 ^ 53)
    (hN : 1 ≤ N) (hN' : N ≤ 990) (h0 : 0 ≤ J_min) (h1 : J_min < J) (hX : FloatK J L X)
    (hk : k_lam64 m jm L 2 300 = .ok (Arr2.of (J + 2) L fun j l => .fin (X j l))) (spin : ℤ) :
    ∃ p, Loop64 L J_min J X p ∧ filters_axisym64 m jm L J_min 2 = .ok (Arr2.of (J + 1) L fun j l => .fin (p j l),
        Arr1.of L fun l => .fin (rnd (Real.sqrt (X J_min l)))) ∧
      filters_directional64 m lg jm L N J_min 2 spin =
      .ok (Arr3.of (J + 1) L (2 * L - 1) fun j l k => C64.ofC (psiG m lg p ufac N |spin| j l (k - (L - 1))),
        Arr1.of L fun l => .fin (phiD64 X J_min |spin| l)) := by
  obtain ⟨p, hp, hax⟩ := filters_axisym64_ok hJ hL h0 h1 hX hk
  refine ⟨p, hp, hax, ?_⟩
  have hel : 0 ≤ |spin| := abs_nonneg spin
  unfold filters_directional64
  simp only [hJ, Py.bind_ok, zeros1, zeros3]
  rw [if_neg (by omega), if_neg (by omega), hax, tiling_direction64_ok hs hL hN hN']
  simp only [Py.bind_ok]
  generalize |spin| = elmin at *
  -- scaling loop
  rw [cells_loop (S := Arr1.of L) (c := fun x i => i = x) (f := fun l => F64.fin (phiD64 X J_min elmin l)) (g0 := fun _ => 0)]
  rotate_left
  · intro x y i hx hy; omega
  · intro g x hx0 hx1 hg
    rw [Arr1.get_ok _ (by omega) (by simpa using hx1), Arr1.of_v _ _ _ ⟨by omega, hx1⟩, Py.bind_ok]
    have hphi : phiD64 X J_min elmin x = rnd (rnd (Real.sqrt (X J_min x)) * vfac x) := by unfold phiD64; rw [if_neg (by omega)]
    by_cases hz : rnd (Real.sqrt (X J_min x)) = 0
    · rw [if_neg (by rw [F64.fin_ne_zero]; exact not_not.2 hz)]
      congr 1
      refine Arr1.of_congr fun i _ _ => ?_
      by_cases hi : i = x
      · subst hi
        rw [if_pos rfl, hg i rfl, hphi, hz, zero_mul, rnd_zero]; rfl
      · rw [if_neg hi]
    · rw [if_pos (F64.fin_ne_zero.2 hz), vfac_ok (by omega) (by omega), F64.mul_fin, Arr1.set_ok _ _ (by omega) (by simpa using hx1)]
      congr 1
      refine Arr1.of_congr fun i a b => ?_
      by_cases hi : i = x
      · rw [if_pos hi, if_pos hi, hi, hphi, mul_comm]
        refine F64.of_fin' ?_
        have a0 := rnd_nonneg (Real.sqrt_nonneg (X J_min x))
        have v0 := (vfac_rl (show 0 ≤ x by omega) (by omega)).2.le
        rw [abs_of_nonneg (mul_nonneg a0 v0)]
        calc _ ≤ (2 : ℝ) * 2 ^ 27 := mul_le_mul (hX.phi_le h0 (by omega) (by omega) hx1) (vfac_le (by omega) (by omega)) v0 (by norm_num)
          _ ≤ _ := by norm_num
      · rw [if_neg hi, if_neg hi, Arr1.of_v L g i ⟨a, b⟩]
  simp only [Py.bind_ok]
  -- wavelet loops
  let F : ℤ × ℤ × ℤ → C64 := fun t => C64.ofC (psiG m lg p ufac N elmin t.1 t.2.1 (t.2.2 - (L - 1)))
  have hz0 : C64.ofC 0 = 0 := rfl
  have hF0 : ∀ j l k, l < elmin → F (j, l, k) = 0 := fun j l k h => by
    simp only [F, psiG]; rw [if_pos h, hz0]
  have hFs : ∀ j l k, sig64 m lg N l (k - (L - 1)) = 0 → F (j, l, k) = 0 := fun j l k h => by
    simp only [F, psiG, h, mul_zero, rnd_zero, Complex.ofReal_zero, ite_self, hz0]
  have hFp : ∀ j l k, p j l = 0 → F (j, l, k) = 0 := fun j l k h => by
    simp only [F, psiG, h, zero_mul, mul_zero, rnd_zero, Complex.ofReal_zero, ite_self, hz0]
  have hget_s : ∀ el n : ℤ, 0 ≤ el → el < L → -el ≤ n → n ≤ el →
      (Arr2.of L (2 * L - 1) fun el k => C64.ofC (nuC N * ((sig64 m lg N el (k - (L - 1)) : ℝ) : ℂ))).get el (L - 1 + n) =
        .ok (C64.ofC (nuC N * ((sig64 m lg N el n : ℝ) : ℂ))) :=
    fun el n a b c d => by
      rw [Arr2.get_ok _ a (by simpa using b) (by omega) (by simp; omega),
        Arr2.of_v _ _ _ _ _ ⟨a, b, by omega, by omega⟩, add_sub_cancel_left]
  have hsig0 : ∀ l n : ℤ, ¬ (-l ≤ n ∧ n ≤ l) → sig64 m lg N l n = 0 := fun l n hn => by
    apply sig64_eq_zero
    rintro ⟨a, b, _⟩
    exact hn (abs_le.1 (b.trans (gam_facts hN a).2.2.2.1))
  have main : (pyRange J_min (J + 1)).foldlM (init := S3 (J + 1) L (2 * L - 1) fun _ => (0 : C64))
      (fun (psi : Arr3 C64) (j : ℤ) =>
        (pyRange elmin L).foldlM (init := psi) fun (psi : Arr3 C64) (el : ℤ) => do
          let kj ← (Arr2.of (J + 1) L fun j l => F64.fin (p j l)).get j el
          if kj ≠ 0 then
            (pyRange (-el) (el + 1)).foldlM (init := psi) fun (psi : Arr3 C64) (n : ℤ) => do
              let s ← (Arr2.of L (2 * L - 1) fun el k => C64.ofC (nuC N * ((sig64 m lg N el (k - (L - 1)) : ℝ) : ℂ))).get el (L - 1 + n)
              if s ≠ 0 then
                psi.set j el (L - 1 + n) ((C64.ofReal
                  ((((F64.ofInt (2 * el + 1)).div (((F64.fin 8).mul pi64).mul pi64)).sqrt).mul kj)).mul s)
              else .ok psi
          else .ok psi) = .ok (S3 (J + 1) L (2 * L - 1) F) := by
    rw [cells_loop (S := S3 (J + 1) L (2 * L - 1)) (c := fun j t => t.1 = j) (f := F) (g0 := fun _ => 0)]
    rotate_left
    · intro x y i hx hy; omega
    · intro g j hj0 hj1 hg
      rw [cells_loop (S := S3 (J + 1) L (2 * L - 1)) (c := fun l t => t.1 = j ∧ t.2.1 = l) (f := F) (g0 := g)]
      rotate_left
      · intro x y i hx hy; omega
      · intro g' el hel0 hel1 hg'
        rw [Arr2.get_ok _ (by omega) (by simpa using hj1) (by omega) (by simpa using hel1),
          Arr2.of_v _ _ _ _ _ ⟨by omega, hj1, by omega, hel1⟩, Py.bind_ok]
        by_cases hk : p j el = 0
        · rw [if_neg (by rw [F64.fin_ne_zero]; exact not_not.2 hk)]
          congr 1
          refine S3_congr fun a b c _ _ _ _ _ _ => ?_
          by_cases hab : a = j ∧ b = el
          · rw [if_pos hab, hg' _ hab, hg _ hab.1, hab.1, hab.2, hFp _ _ _ hk]
          · rw [if_neg hab]
        · rw [if_pos (F64.fin_ne_zero.2 hk)]
          rw [cells_loop (S := S3 (J + 1) L (2 * L - 1)) (c := fun n t => t = (j, el, L - 1 + n)) (f := F) (g0 := g')]
          · congr 1
            refine S3_congr fun a b c _ _ _ _ _ _ => ?_
            by_cases hab : a = j ∧ b = el
            · rw [if_pos hab]
              split_ifs with hm
              · rfl
              · rw [hg' _ hab, hg _ hab.1, hab.1, hab.2, hFs]
                apply hsig0
                rintro ⟨u, v⟩
                exact hm ⟨c - (L - 1), u, by omega, by rw [hab.1, hab.2]; congr 2; ring⟩
            · rw [if_neg hab, if_neg]
              rintro ⟨n, _, _, hm⟩
              simp only [Prod.mk.injEq] at hm
              exact hab ⟨hm.1, hm.2.1⟩
          · intro x y i hx hy
            subst hx
            simp only [Prod.mk.injEq] at hy
            omega
          · intro g'' n hn0 hn1 hg''
            have b1 : 0 ≤ L - 1 + n := by omega
            have b2 : L - 1 + n < 2 * L - 1 := by omega
            rw [hget_s el n (by omega) hel1 hn0 (by omega), Py.bind_ok]
            have hnu : nuC N ≠ 0 := by rw [← norm_ne_zero_iff, nuC_norm]; norm_num
            by_cases hsz : sig64 m lg N el n = 0
            · rw [if_neg (by rw [C64.ofC_ne_zero, hsz]; simp)]
              congr 1
              refine S3_congr fun a b c _ _ _ _ _ _ => ?_
              by_cases ht : (a, b, c) = (j, el, L - 1 + n)
              · rw [if_pos ht, ht, hg'' _ rfl, hg' _ ⟨rfl, rfl⟩, hg _ rfl, hFs]
                rw [add_sub_cancel_left]; exact hsz
              · rw [if_neg ht]
            · rw [if_pos (by rw [C64.ofC_ne_zero]; exact mul_ne_zero hnu (Complex.ofReal_ne_zero.2 hsz)),
                S3_set _ _ (by omega) hj1 (by omega) hel1 b1 b2]
              congr 1
              refine S3_congr fun a b c _ _ _ _ _ _ => ?_
              by_cases ht : (a, b, c) = (j, el, L - 1 + n)
              · rw [if_pos ht, if_pos ht, ht]
                obtain ⟨q0, q1⟩ := hp.range' hX h0 (show j ≤ J by omega) (show 0 ≤ el by omega) hel1
                obtain ⟨p1, p2, p3⟩ := prod_near q0 q1 (ufac_rl (show 0 ≤ el by omega) (by omega)).2.le (ufac_le (by omega) (by omega))
                  (sig64_nonneg (m := m) (lg := lg) N el n) (sig64_sq hs hN hN').2
                rw [ufac_ok (by omega) (by omega), F64.mul_fin, mul_comm (ufac el), F64.of_fin' (by linarith), C64.real_mul p2]
                simp only [F, psiG]
                rw [if_neg (by omega), add_sub_cancel_left]
              · rw [if_neg ht, if_neg ht]
      · congr 1
        refine S3_congr fun a b c _ _ hb0 hb1 _ _ => ?_
        by_cases ha : a = j
        · rw [if_pos ha]
          split_ifs with hm
          · rfl
          · rw [hg _ ha, hF0]
            by_contra hb
            exact hm ⟨b, by omega, hb1, ha, rfl⟩
        · rw [if_neg ha, if_neg]
          rintro ⟨_, _, _, h, _⟩
          exact ha h
    · congr 1
      refine S3_congr fun a b c ha0 ha1 _ _ _ _ => ?_
      split_ifs with hm
      · rfl
      · rw [hFp]
        apply hp.low
        by_contra h
        exact hm ⟨a, by omega, ha1, rfl⟩
  refine (congrArg (fun z : Py (Arr3 C64) => z >>= fun st => Except.ok (st, Arr1.of L fun l =>
    if ∃ x, elmin ≤ x ∧ x < L ∧ l = x then F64.fin (phiD64 X J_min elmin l) else 0)) main).trans ?_
  simp only [Py.bind_ok]
  congr 2
  refine Arr1.of_congr fun l h2 h3 => ?_
  split_ifs with h
  · rfl
  · rw [phiD64, if_pos]
    · rfl
    by_contra hc
    exact h ⟨l, by omega, h3, rfl⟩

/-- support of a wavelet made from axisymmetric filters -/
theorem psiG_support {a : ℤ → ℤ → ℝ} {w : ℤ → ℝ} (hN : 1 ≤ N) {elmin j l n : ℤ} (h : psiG m lg a w N elmin j l n ≠ 0) :
    elmin ≤ l ∧ a j l ≠ 0 ∧ 1 ≤ l ∧ |n| ≤ l ∧ |n| < N ∧ (N + n) % 2 ≠ 0 := by
  unfold psiG at h
  by_cases hl : l < elmin
  · rw [if_pos hl] at h; exact absurd rfl h
  rw [if_neg hl] at h
  have hp : a j l ≠ 0 := by rintro h0; apply h; rw [h0, zero_mul, rnd_zero, zero_mul, rnd_zero]; simp
  have hs : sig64 m lg N l n ≠ 0 := by rintro h0; apply h; rw [h0, mul_zero, rnd_zero]; simp
  have hc : 1 ≤ l ∧ |n| ≤ gam N l ∧ (N + n) % 2 ≠ 0 := by
    by_contra hc; exact hs (sig64_eq_zero hc)
  have hg := gam_facts hN hc.1
  exact ⟨by omega, hp, hc.1, hc.2.1.trans hg.2.2.2.1, by omega, hc.2.2⟩

end S2wav
