import Verif.Model.IeeeSpin
import Verif.Lemmas.FloatRel
import Verif.Lemmas.FloatDirectional

/-! # The `spin0` option in double precision -/

namespace S2wav
open Classical

/-! ### Relative errors of many roundings -/

theorem Rl.far {k : ℕ} {x y : ℝ} (h : Rl k x y) (hk : (k : ℝ) ≤ 2 ^ 51) : |x - y| ≤ y * (k / 2 ^ 51) := by
  have e1 : (1 - k / 2 ^ 52 : ℝ) ≤ (1 - 1 / 2 ^ 52) ^ k := by
    have := one_add_mul_le_pow (a := (-(1 / 2 ^ 52) : ℝ)) (by norm_num) k
    calc (1 - k / 2 ^ 52 : ℝ) = 1 + k * (-(1 / 2 ^ 52)) := by ring
      _ ≤ _ := this
      _ = _ := by ring
  have e2 : ∀ j : ℕ, j ≤ k → (1 + 1 / 2 ^ 52 : ℝ) ^ j ≤ 1 + j / 2 ^ 51 := by
    intro j
    induction j with
    | zero => intro _; simp
    | succ j ih =>
      intro hj
      have hj' : (j : ℝ) ≤ 2 ^ 51 := le_trans (by exact_mod_cast (by omega : j ≤ k)) hk
      have := ih (by omega)
      rw [pow_succ]
      push_cast
      have h0 : (0 : ℝ) ≤ j := Nat.cast_nonneg j
      calc (1 + 1 / 2 ^ 52 : ℝ) ^ j * (1 + 1 / 2 ^ 52) ≤ (1 + j / 2 ^ 51) * (1 + 1 / 2 ^ 52) :=
            mul_le_mul_of_nonneg_right this (by norm_num)
        _ ≤ _ := by
          clear * - hj' h0
          generalize (j : ℝ) = t at *
          norm_num at *; linarith
  have c := mul_le_mul_of_nonneg_left e1 h.1.le
  have d := mul_le_mul_of_nonneg_left (e2 k le_rfl) h.1.le
  have a := h.2.1
  have b := h.2.2
  have p : 0 ≤ y * k := mul_nonneg h.1.le (Nat.cast_nonneg k)
  have q1 : y * (1 - k / 2 ^ 52) = y - y * k / 2 ^ 52 := by ring
  have q2 : y * (1 + k / 2 ^ 51) = y + y * k / 2 ^ 51 := by ring
  have q3 : y * (k / 2 ^ 51) = y * k / 2 ^ 51 := by ring
  rw [q1] at c; rw [q2] at d; rw [q3]
  generalize y * (k : ℝ) = t at *
  generalize y * (1 - 1 / 2 ^ 52) ^ k = u at *
  generalize y * (1 + 1 / 2 ^ 52) ^ k = w at *
  rw [abs_le]
  norm_num at *
  constructor <;> linarith

theorem Rl.half {k : ℕ} {x y : ℝ} (h : Rl k x y) (hk : (k : ℝ) ≤ 2 ^ 50) : y / 2 ≤ x ∧ x ≤ 2 * y := by
  have := abs_le.1 (h.far (hk.trans (by norm_num)))
  have h1 : y * (k / 2 ^ 51) ≤ y * (1 / 2) := mul_le_mul_of_nonneg_left (by rw [div_le_iff₀ (by norm_num)]; norm_num at *; linarith) h.1.le
  have := h.1
  constructor <;> linarith

theorem Rl.rnd_wide {x : ℝ} (h : (2 : ℝ) ^ (-1000 : ℤ) ≤ x) : Rl 1 (S2wav.rnd x) x := by
  have hp : (0 : ℝ) < (2 : ℝ) ^ (-1000 : ℤ) := by positivity
  have hx : 0 < x := lt_of_lt_of_le hp h
  have a := abs_le.1 (rnd_acc x)
  rw [abs_of_pos hx] at a
  have e : (2 : ℝ) ^ (-1075 : ℤ) ≤ (2 : ℝ) ^ (-1000 : ℤ) * 2 ^ (-53 : ℤ) := by
    rw [← zpow_add₀ (by norm_num)]; exact zpow_le_zpow_right₀ (by norm_num) (by norm_num)
  have e2 : (2 : ℝ) ^ (-1000 : ℤ) * 2 ^ (-53 : ℤ) ≤ x * 2 ^ (-53 : ℤ) := mul_le_mul_of_nonneg_right h (by positivity)
  have e3 : (2 : ℝ) ^ (-53 : ℤ) = 1 / 2 ^ 53 := by rw [zpow_neg]; norm_num
  have e4 := e.trans e2
  rw [e3] at a e4
  clear e e2 h hp e3
  generalize (2 : ℝ) ^ (-1075 : ℤ) = t at *
  refine ⟨hx, ?_, ?_⟩ <;> rw [pow_one] <;> norm_num at * <;> linarith

/-! ### `_spin_normalization` -/

/-- `(l + s)! / (l - s)!` -/
noncomputable def ratioN (l s : ℤ) : ℝ := ((l + s).toNat.factorial : ℝ) / ((l - s).toNat.factorial : ℝ)

/-- the product after the factors below `i` -/
noncomputable def partN (l s i : ℤ) : ℝ := ((l + i - 1).toNat.factorial : ℝ) / ((l - s).toNat.factorial : ℝ)

theorem fact_pos' (n : ℕ) : (0 : ℝ) < (n.factorial : ℝ) := by exact_mod_cast n.factorial_pos

theorem partN_step {l s i : ℤ} (h : 1 ≤ l + i) : partN l s (i + 1) = partN l s i * ((l + i : ℤ) : ℝ) := by
  have e1 : (l + (i + 1) - 1).toNat = (l + i - 1).toNat + 1 := by omega
  have e2 : ((l + i : ℤ) : ℝ) = (((l + i - 1).toNat : ℕ) : ℝ) + 1 := by
    have : l + i = (((l + i - 1).toNat : ℕ) : ℤ) + 1 := by omega
    exact_mod_cast this
  unfold partN
  rw [e1, Nat.factorial_succ, e2]
  push_cast
  ring

theorem partN_start (l s : ℤ) : partN l s (-s + 1) = 1 := by
  unfold partN
  have : l + (-s + 1) - 1 = l - s := by ring
  rw [this, div_self (fact_pos' _).ne']

theorem partN_end (l s : ℤ) : partN l s (s + 1) = ratioN l s := by
  unfold partN ratioN
  have : l + (s + 1) - 1 = l + s := by ring
  rw [this]

theorem partN_le {l s i : ℤ} (h : i ≤ s + 1) : partN l s i ≤ ratioN l s := by
  unfold partN ratioN
  refine div_le_div_of_nonneg_right ?_ (fact_pos' _).le
  exact_mod_cast Nat.factorial_le (by omega)

theorem partN_ge {l s i : ℤ} (h : -s + 1 ≤ i) : 1 ≤ partN l s i := by
  unfold partN
  rw [le_div_iff₀ (fact_pos' _), one_mul]
  exact_mod_cast Nat.factorial_le (by omega)

/-- the ratio is at least `2 ^ s` -/
theorem ratioN_ge {l s : ℤ} (h0 : 0 ≤ s) (h : s ≤ l) : (2 : ℝ) ^ s.toNat ≤ ratioN l s := by
  rcases h0.eq_or_lt with e | h1
  · subst e; unfold ratioN; simp [(fact_pos' _).ne']
  unfold ratioN
  rw [le_div_iff₀ (fact_pos' _)]
  have a := Nat.factorial_mul_pow_le_factorial (m := l.toNat) (n := s.toNat)
  have b : (l - s).toNat.factorial ≤ l.toNat.factorial := Nat.factorial_le (by omega)
  have c : 2 ^ s.toNat ≤ (l.toNat + 1) ^ s.toNat := Nat.pow_le_pow_left (by omega) _
  have d : 2 ^ s.toNat * (l - s).toNat.factorial ≤ (l + s).toNat.factorial := by
    rw [show (l + s).toNat = l.toNat + s.toNat by omega]
    calc _ ≤ (l.toNat + 1) ^ s.toNat * l.toNat.factorial := Nat.mul_le_mul c b
      _ ≤ _ := by rw [mul_comm]; exact a
  exact_mod_cast d

theorem two_pow_999 : (2 : ℝ) ^ (999 : ℤ) = 2 ^ 999 := zpow_natCast (2 : ℝ) 999

/-- below the range of doubles the spin is small -/
theorem spin_small {l s : ℤ} (h0 : 0 ≤ s) (h : s ≤ l) (hr : ratioN l s ≤ (2 : ℝ) ^ (999 : ℤ)) : s ≤ 999 := by
  have a := (ratioN_ge h0 h).trans hr
  rw [two_pow_999] at a
  have := (pow_le_pow_iff_right₀ (by norm_num : (1 : ℝ) < 2)).1 a
  omega

theorem ofInt64 {n : ℤ} (h : |n| ≤ 2 ^ 53) : F64.ofInt n = .fin n := by
  refine F64.of_rep (rep_int h) ?_
  have : (|(n : ℝ)|) ≤ 2 ^ 53 := by exact_mod_cast h
  linarith

theorem le_pow_1000 {x : ℝ} (h : x ≤ 2 * (2 : ℝ) ^ (999 : ℤ)) : x ≤ (2 : ℝ) ^ (1000 : ℤ) := by
  have e : (2 : ℝ) ^ (1000 : ℤ) = 2 * 2 ^ (999 : ℤ) := by
    rw [show (1000 : ℤ) = 999 + 1 by norm_num, zpow_add₀ (by norm_num), zpow_one, mul_comm]
  rw [e]; exact h

/-- the product loop, within the range of doubles -/
theorem spin_loop64 {l s : ℤ} (h0 : 0 ≤ s) (h : s ≤ l) (hl : l + s ≤ 2 ^ 53) (hr : ratioN l s ≤ (2 : ℝ) ^ (999 : ℤ)) :
    ∃ y, (pyRange (-s + 1) (s + 1)).foldlM (init := F64.fin 1) (fun (factor : F64) (i : ℤ) =>
      (.ok (factor.mul (.ofInt (l + i))) : Py F64)) = .ok (.fin y) ∧ Rl (2 * s).toNat y (ratioN l s) := by
  have hs := spin_small h0 h hr
  obtain ⟨x, hx, y, hy, hP⟩ := range_loop (a := -s + 1) (b := s + 1) (s := F64.fin 1)
    (body := fun (factor : F64) (i : ℤ) => (.ok (factor.mul (.ofInt (l + i))) : Py F64))
    (fun i x => ∃ y, x = .fin y ∧ Rl (i + s - 1).toNat y (partN l s i)) (by omega)
    ⟨1, rfl, by
      rw [partN_start, show (-s + 1 + s - 1).toNat = 0 by simp]; exact Rl.refl one_pos⟩
    (by
      rintro i _ h1 h2 ⟨y, rfl, hP⟩
      refine ⟨_, rfl, rnd (y * ((l + i : ℤ) : ℝ)), ?_, ?_⟩
      · have hm : Rl (i + s - 1).toNat (y * ((l + i : ℤ) : ℝ)) (partN l s (i + 1)) := by
          rw [partN_step (by omega)]
          exact hP.mul (Rl.refl (by exact_mod_cast (by omega : 0 < l + i)))
        have b := hm.half (by
          have : (i + s - 1).toNat ≤ 2000 := by omega
          have : (((i + s - 1).toNat : ℕ) : ℝ) ≤ 2000 := by exact_mod_cast this
          linarith)
        rw [ofInt64 (by rw [abs_le]; constructor <;> omega), F64.mul_fin]
        refine F64.of_fin ?_
        rw [abs_of_pos hm.pos]
        exact le_pow_1000 (b.2.trans (by have := (partN_le (l := l) (show i + 1 ≤ s + 1 by omega)).trans hr; linarith))
      · have hm : Rl (i + s - 1).toNat (y * ((l + i : ℤ) : ℝ)) (partN l s (i + 1)) := by
          rw [partN_step (by omega)]
          exact hP.mul (Rl.refl (by exact_mod_cast (by omega : 0 < l + i)))
        have b := hm.half (by
          have : (i + s - 1).toNat ≤ 2000 := by omega
          have : (((i + s - 1).toNat : ℕ) : ℝ) ≤ 2000 := by exact_mod_cast this
          linarith)
        have h1 := partN_ge (l := l) (show -s + 1 ≤ i + 1 by omega)
        have hr1 : Rl 1 (rnd (y * ((l + i : ℤ) : ℝ))) (y * ((l + i : ℤ) : ℝ)) := Rl.rnd (le_trans (by norm_num) (le_trans (by linarith : (1 : ℝ) / 2 ≤ partN l s (i + 1) / 2) b.1))
        have := hr1.trans hm
        rwa [show 1 + (i + s - 1).toNat = (i + 1 + s - 1).toNat by omega] at this)
  subst hy
  refine ⟨y, hx, ?_⟩
  rw [partN_end, show s + 1 + s - 1 = 2 * s by ring] at hP
  exact hP

theorem spinN_sq (l s : ℤ) : spinN l s ^ 2 = ratioN l s := by
  unfold spinN ratioN
  exact Real.sq_sqrt (div_nonneg (fact_pos' _).le (fact_pos' _).le)

theorem ratioN_neg (l s : ℤ) : ratioN l (-s) = (ratioN l s)⁻¹ := by
  unfold ratioN
  rw [inv_div, sub_neg_eq_add, ← sub_eq_add_neg]

theorem sqrt_wide {x : ℝ} (h0 : (2 : ℝ) ^ (-1000 : ℤ) ≤ x) (h1 : x ≤ (2 : ℝ) ^ (1000 : ℤ)) :
    ∃ z, (F64.fin x).sqrt = .fin z ∧ Rep z ∧ 0 < z ∧ Rl 2 (z ^ 2) x := by
  have hp : (0 : ℝ) < (2 : ℝ) ^ (-1000 : ℤ) := by positivity
  have hx : 0 < x := lt_of_lt_of_le hp h0
  have hsq := Real.sq_sqrt hx.le
  have hlo : (2 : ℝ) ^ (-1000 : ℤ) ≤ Real.sqrt x := by
    rw [Real.le_sqrt hp.le hx.le]
    refine le_trans ?_ h0
    rw [sq]
    exact mul_le_of_le_one_left hp.le (zpow_le_one_of_nonpos₀ (by norm_num) (by norm_num))
  have hhi : Real.sqrt x ≤ (2 : ℝ) ^ (1000 : ℤ) := by
    rw [Real.sqrt_le_left (by positivity)]
    refine h1.trans ?_
    rw [sq]
    exact le_mul_of_one_le_left (by positivity) (one_le_zpow₀ (by norm_num) (by norm_num))
  have r := Rl.rnd_wide hlo
  refine ⟨rnd (Real.sqrt x), ?_, rep_rnd _, r.pos, ?_⟩
  · unfold F64.sqrt
    simp only
    rw [if_neg (not_lt.2 hx.le)]
    exact F64.of_fin (by rw [abs_of_nonneg (Real.sqrt_nonneg x)]; exact hhi)
  · have := r.sq
    rwa [hsq] at this

/-- from squares to values -/
theorem Rl.of_sq {k : ℕ} {x y : ℝ} (hx : 0 < x) (hy : 0 < y) (h : Rl k (x ^ 2) (y ^ 2)) (hk : (k : ℝ) ≤ 2 ^ 51) : |x - y| ≤ y * (k / 2 ^ 51) := by
  have a := h.far hk
  have e : x ^ 2 - y ^ 2 = (x - y) * (x + y) := by ring
  rw [e, abs_mul, abs_of_pos (add_pos hx hy)] at a
  have b : |x - y| * y ≤ |x - y| * (x + y) := mul_le_mul_of_nonneg_left (by linarith) (abs_nonneg _)
  have c : |x - y| * y ≤ (y * (k / 2 ^ 51)) * y := by
    refine (b.trans a).trans (le_of_eq ?_); ring
  exact le_of_mul_le_mul_right c hy

theorem spin_normalization64_ok {l s : ℤ} (h : |s| ≤ l) (hl : l + |s| ≤ 2 ^ 53) (hr : ratioN l |s| ≤ (2 : ℝ) ^ (999 : ℤ)) :
    ∃ z, spin_normalization64 l s = .ok (.fin z) ∧ Rep z ∧ 0 < z ∧ Rl (4 * |s| + 3).toNat (z ^ 2) (ratioN l s) := by
  have hs0 := abs_nonneg s
  obtain ⟨y, hy, hP⟩ := spin_loop64 hs0 h hl hr
  have hs := spin_small hs0 h hr
  have b := hP.half (by
    have : (2 * |s|).toNat ≤ 2000 := by omega
    have : (((2 * |s|).toNat : ℕ) : ℝ) ≤ 2000 := by exact_mod_cast this
    linarith)
  have h1 : 1 ≤ ratioN l |s| := by rw [← partN_end]; exact partN_ge (by omega)
  have hy1 : y ≤ (2 : ℝ) ^ (1000 : ℤ) := le_pow_1000 (by linarith)
  have hp : (2 : ℝ) ^ (-1000 : ℤ) ≤ 1 / 2 := by
    have : (2 : ℝ) ^ (-1000 : ℤ) ≤ 2 ^ (-1 : ℤ) := zpow_le_zpow_right₀ (by norm_num) (by norm_num)
    simpa using this
  unfold spin_normalization64
  rw [hy]
  simp only [Py.bind_ok]
  rcases lt_or_ge 0 s with hs' | hs'
  · rw [if_pos hs']
    obtain ⟨z, e, zr, z0, r⟩ := sqrt_wide (x := y) (by linarith) hy1
    refine ⟨z, by rw [e], zr, z0, ?_⟩
    rw [abs_of_pos hs'] at *
    exact (r.trans hP).mono (by omega)
  · rw [if_neg (not_lt.2 hs')]
    have hy0 := hP.pos
    have hi1 : (2 : ℝ) ^ (-1000 : ℤ) ≤ 1 / y := by
      rw [zpow_neg, ← one_div]; exact one_div_le_one_div_of_le hy0 hy1
    have hi2 : 1 / y ≤ 2 := by rw [div_le_iff₀ hy0]; linarith
    have hi0 : 0 < 1 / y := by positivity
    have hof : F64.of (1 / y) = .fin (rnd (1 / y)) := F64.of_fin' (by rw [abs_of_pos hi0]; linarith)
    rw [F64.pdiv, if_neg (by simp only [F64.fin.injEq]; exact hy0.ne'), F64.div_fin hy0.ne', hof, Py.bind_ok]
    have r1 := Rl.rnd_wide hi1
    obtain ⟨z, e, zr, z0, r⟩ := sqrt_wide (x := rnd (1 / y)) (le_rnd (rep_pow (by norm_num)) hi1)
      ((rnd_le (by have := rep_int (n := 2) (by norm_num); push_cast at this; exact this) hi2).trans (by
        have : (2 : ℝ) ^ (1 : ℤ) ≤ 2 ^ (1000 : ℤ) := zpow_le_zpow_right₀ (by norm_num) (by norm_num)
        simpa using this))
    refine ⟨z, by rw [e], zr, z0, ?_⟩
    rw [one_div] at r1
    rw [one_div] at r
    have hPi := hP.inv
    rw [← ratioN_neg, abs_of_nonpos hs', neg_neg] at hPi
    rw [abs_of_nonpos hs']
    exact (r.trans (r1.trans hPi)).mono (by omega)

/-- the product is infinite or accurate -/
theorem spin_loop64_any {l s : ℤ} (h0 : 0 ≤ s) (h : s ≤ l) (hl : l + s ≤ 2 ^ 53) (hs : s ≤ 2 ^ 48) :
    ∃ x, (pyRange (-s + 1) (s + 1)).foldlM (init := F64.fin 1) (fun (factor : F64) (i : ℤ) =>
      (.ok (factor.mul (.ofInt (l + i))) : Py F64)) = .ok x ∧
      (x = .inf ∨ ∃ y, x = .fin y ∧ y < (2 : ℝ) ^ (1024 : ℤ) ∧ Rl (2 * s).toNat y (ratioN l s)) := by
  obtain ⟨x, hx, hP⟩ := range_loop (a := -s + 1) (b := s + 1) (s := F64.fin 1)
    (body := fun (factor : F64) (i : ℤ) => (.ok (factor.mul (.ofInt (l + i))) : Py F64))
    (fun i x => x = .inf ∨ ∃ y, x = .fin y ∧ y < (2 : ℝ) ^ (1024 : ℤ) ∧ Rl (i + s - 1).toNat y (partN l s i)) (by omega)
    (.inr ⟨1, rfl, one_lt_zpow₀ (by norm_num) (by norm_num), by
      rw [partN_start, show (-s + 1 + s - 1).toNat = 0 by simp]; exact Rl.refl one_pos⟩)
    (by
      rintro i x h1 h2 hx
      refine ⟨_, rfl, ?_⟩
      have hpos : (0 : ℝ) < ((l + i : ℤ) : ℝ) := by exact_mod_cast (by omega : 0 < l + i)
      rw [ofInt64 (by rw [abs_le]; constructor <;> omega)]
      rcases hx with rfl | ⟨y, rfl, -, hP⟩
      · left; unfold F64.mul F64.infOf; simp only; rw [if_pos hpos]
      have hm : Rl (i + s - 1).toNat (y * ((l + i : ℤ) : ℝ)) (partN l s (i + 1)) := by
        rw [partN_step (by omega)]; exact hP.mul (Rl.refl hpos)
      have b := hm.half (by
          have : (i + s - 1).toNat ≤ 2 ^ 50 := by omega
          exact_mod_cast this)
      have h1 := partN_ge (l := l) (show -s + 1 ≤ i + 1 by omega)
      have hr1 : Rl 1 (rnd (y * ((l + i : ℤ) : ℝ))) (y * ((l + i : ℤ) : ℝ)) := Rl.rnd (le_trans (by norm_num) (le_trans (by linarith : (1 : ℝ) / 2 ≤ partN l s (i + 1) / 2) b.1))
      have hr2 := hr1.trans hm
      rw [show 1 + (i + s - 1).toNat = (i + 1 + s - 1).toNat by omega] at hr2
      rw [F64.mul_fin]
      unfold F64.of
      split_ifs with h3 h4
      · left; rfl
      · have := hr2.pos
        have h5 : (0 : ℝ) < (2 : ℝ) ^ (1024 : ℤ) := by positivity
        exact absurd (this.trans_le h4) (not_lt.2 (neg_nonpos.2 h5.le))
      · right; exact ⟨_, rfl, not_le.1 h3, hr2⟩)
  refine ⟨x, hx, ?_⟩
  rw [partN_end, show s + 1 + s - 1 = 2 * s by ring] at hP
  exact hP

/-- beyond the range of doubles the product is infinite -/
theorem spin_loop64_inf {l s : ℤ} (h0 : 0 ≤ s) (h : s ≤ l) (hl : l + s ≤ 2 ^ 53) (hs : s ≤ 2 ^ 48) (hr : (2 : ℝ) ^ (1025 : ℤ) ≤ ratioN l s) :
    (pyRange (-s + 1) (s + 1)).foldlM (init := F64.fin 1) (fun (factor : F64) (i : ℤ) =>
      (.ok (factor.mul (.ofInt (l + i))) : Py F64)) = .ok .inf := by
  obtain ⟨x, hx, hP⟩ := spin_loop64_any h0 h hl hs
  rcases hP with rfl | ⟨y, rfl, hlt, hP⟩
  · exact hx
  exfalso
  have b := (hP.half (by
    have : (2 * s).toNat ≤ 2 ^ 50 := by omega
    exact_mod_cast this)).1
  have e : (2 : ℝ) ^ (1025 : ℤ) = 2 * 2 ^ (1024 : ℤ) := by
    rw [show (1025 : ℤ) = 1024 + 1 by norm_num, zpow_add₀ (by norm_num), zpow_one, mul_comm]
  rw [e] at hr
  linarith

/-- for a negative spin the normalisation is always a number between 0 and 2 -/
theorem spin_normalization64_neg {l s : ℤ} (h : |s| ≤ l) (hl : l + |s| ≤ 2 ^ 53) (hs : |s| ≤ 2 ^ 48) (h0 : s < 0) :
    ∃ z, spin_normalization64 l s = .ok (.fin z) ∧ Rep z ∧ 0 ≤ z ∧ z ≤ 2 := by
  have two : Rep 2 := by have := rep_int (n := 2) (by norm_num); push_cast at this; exact this
  have key : ∀ q : ℝ, 0 ≤ q → q ≤ 2 → ∃ z, (F64.fin q).sqrt = .fin z ∧ Rep z ∧ 0 ≤ z ∧ z ≤ 2 := fun q q0 q2 => by
    refine ⟨rnd (Real.sqrt q), sqrt64 q0 (by linarith), rep_rnd _, rnd_nonneg (Real.sqrt_nonneg _), rnd_le two ?_⟩
    rw [Real.sqrt_le_left (by norm_num)]; linarith
  unfold spin_normalization64
  obtain ⟨x, hx, hP⟩ := spin_loop64_any (abs_nonneg s) h hl hs
  rw [hx, Py.bind_ok, if_neg (not_lt.2 h0.le)]
  rcases hP with rfl | ⟨y, rfl, -, hP⟩
  · rw [F64.pdiv, if_neg (by simp), Py.bind_ok, show (F64.fin 1).div .inf = .fin 0 from rfl]
    obtain ⟨z, e, r⟩ := key 0 le_rfl (by norm_num)
    exact ⟨z, by rw [e], r⟩
  · have hs0 := abs_nonneg s
    have b := (hP.half (by
      have : (2 * |s|).toNat ≤ 2 ^ 50 := by omega
      exact_mod_cast this)).1
    have h1 : 1 ≤ ratioN l |s| := by rw [← partN_end]; exact partN_ge (by omega)
    have hy0 := hP.pos
    have hi2 : 1 / y ≤ 2 := by rw [div_le_iff₀ hy0]; linarith
    have hi0 : 0 < 1 / y := by positivity
    have hof : F64.of (1 / y) = .fin (rnd (1 / y)) := F64.of_fin' (by rw [abs_of_pos hi0]; linarith)
    rw [F64.pdiv, if_neg (by simp only [F64.fin.injEq]; exact hy0.ne'), F64.div_fin hy0.ne', hof, Py.bind_ok]
    obtain ⟨z, e, r⟩ := key (rnd (1 / y)) (rnd_nonneg hi0.le) (rnd_le two hi2)
    exact ⟨z, by rw [e], r⟩

/-- the ratio grows with the degree -/
theorem ratioN_mono {s l l' : ℤ} (h0 : 0 ≤ s) (h : s ≤ l) (hl : l ≤ l') : ratioN l s ≤ ratioN l' s := by
  induction l', hl using Int.le_induction with
  | base => exact le_rfl
  | succ k hk ih =>
  refine ih.trans ?_
  unfold ratioN
  rw [div_le_div_iff₀ (fact_pos' _) (fact_pos' _)]
  have e1 : (k + 1 + s).toNat = (k + s).toNat + 1 := by omega
  have e2 : (k + 1 - s).toNat = (k - s).toNat + 1 := by omega
  rw [e1, e2, Nat.factorial_succ, Nat.factorial_succ]
  have : (k - s).toNat ≤ (k + s).toNat := by omega
  have h1 : (((k - s).toNat + 1 : ℕ) : ℝ) ≤ (((k + s).toNat + 1 : ℕ) : ℝ) := by exact_mod_cast (by omega)
  have p1 := fact_pos' (k + s).toNat
  have p2 := fact_pos' (k - s).toNat
  push_cast at h1 ⊢
  have := mul_le_mul_of_nonneg_left h1 (mul_pos p1 p2).le
  calc _ = ((k + s).toNat.factorial : ℝ) * ((k - s).toNat.factorial : ℝ) * (((k - s).toNat : ℝ) + 1) := by ring
    _ ≤ _ := this
    _ = _ := by ring

theorem spin_normalization64_inf {l s : ℤ} (h : |s| ≤ l) (hl : l + |s| ≤ 2 ^ 53) (hs : |s| ≤ 2 ^ 48)
    (hr : (2 : ℝ) ^ (1025 : ℤ) ≤ ratioN l |s|) :
    spin_normalization64 l s = .ok (if 0 < s then .inf else .fin 0) := by
  unfold spin_normalization64
  rw [spin_loop64_inf (abs_nonneg s) h hl hs hr, Py.bind_ok]
  by_cases h0 : 0 < s
  · rw [if_pos h0, if_pos h0]; rfl
  · rw [if_neg h0, if_neg h0, F64.pdiv, if_neg (by simp), Py.bind_ok]
    have : (F64.fin 1).div .inf = .fin 0 := rfl
    rw [this, F64.sqrt, if_neg (lt_irrefl _), Real.sqrt_zero, of_zero]

end S2wav
