import Verif.Props.RoundedThreeFilters

/-! # The failing calls of C99, C118 and C119 do return

C99, C118 and C119 describe the array returned for `lam = 5`, and for `lam = 3` beyond band-limit 794, if the call returns.
Here: it does return, at the smallest band-limits concerned. So the infinities and NaN come without any exception. -/

namespace S2wav
open Classical

variable {m : Libm}

section
variable (hm : m.Ok) {lam v c : ℝ}
  (hinv : F64.pdiv (.fin 1) (.fin lam) = .ok (.fin v))
  (hq : F64.pdiv ((F64.fin 2).mul (.fin lam)) ((F64.fin lam).sub (.fin 1)) = .ok (.fin c))
include hm hinv hq

/-- the integrand is computed without exception unless the argument of the bump is too close to 1 or -1 -/
theorem tiling_returns {x s : ℝ} (hs : (((F64.fin x).sub (.fin v)).mul (.fin c)).sub (.fin 1) = .fin s)
    (h : |s| ≤ 1 - 1 / 2 ^ 51 ∨ (1 + 1 / 2 ^ 51 ≤ s ∧ s ≤ 1 + 1 / 2 ^ 49)) (hx : 0 < x) :
    ∃ f, tiling_integrand64 m (.fin x) (.fin lam) = .ok f := by
  rcases h with h | ⟨h1, h2⟩
  · obtain ⟨y, d, e, w, h1, h2, h3, -⟩ := exp_tail64 hm h
    unfold tiling_integrand64
    rw [hinv, hq]
    simp only [Py.bind_ok]
    rw [hs, h1, Py.bind_ok, F64.sub_fin, h2, F64.pdiv_fin h3.ne', Py.bind_ok]
    exact ⟨_, rfl⟩
  · exact ⟨_, tiling_over hm hinv hq hs h1 h2 hx⟩

end

/-- the argument of the bump at an interior abscissa -/
theorem sarg_inside {x v c : ℝ} (hv0 : 0 ≤ v) (hc0 : 2 ≤ c) (hvc : c * (1 - v) ≤ 2 + 1 / 10000)
    (hx0 : v + 1 / 20000 ≤ x) (hx1 : x ≤ 1 - 3 / 10000) :
    ∃ s, (((F64.fin x).sub (.fin v)).mul (.fin c)).sub (.fin 1) = .fin s ∧ |s| ≤ 1 - 1 / 2 ^ 51 := by
  have hb : ∀ y : ℝ, -4 ≤ y → y ≤ 4 → |y| ≤ 4 * 2 ^ 53 := fun y ha hb => by
    rw [abs_le]; constructor <;> norm_num <;> linarith
  have a1 := abs_le.1 (rnd_acc' (x - v))
  rw [abs_of_nonneg (by linarith : 0 ≤ x - v)] at a1
  set u := rnd (x - v) with hu
  have u0 : 1 / 30000 ≤ u := by norm_num at a1 ⊢; linarith
  have u1 : u ≤ 1 - v - 2 / 10000 := by norm_num at a1 ⊢; linarith
  have w0 : 1 / 20000 ≤ u * c := by nlinarith
  have w1 : u * c ≤ 2 - 1 / 10000 := by nlinarith
  have a2 := abs_le.1 (rnd_acc' (u * c))
  rw [abs_of_nonneg (by linarith : 0 ≤ u * c)] at a2
  set w := rnd (u * c) with hw
  have w2 : 1 / 30000 ≤ w := by norm_num at a2 ⊢; linarith
  have w3 : w ≤ 2 - 1 / 20000 := by norm_num at a2 ⊢; linarith
  have a3 := rnd_acc' (w - 1)
  have w4 : |w - 1| ≤ 1 := by rw [abs_le]; constructor <;> linarith
  have a3 := abs_le.1 a3
  refine ⟨rnd (w - 1), ?_, ?_⟩
  · rw [F64.sub_fin, F64.of_fin' (hb _ (by linarith) (by linarith)), F64.mul_fin, F64.of_fin' (hb _ (by linarith) (by linarith)),
      F64.sub_fin, F64.of_fin' (hb _ (by linarith) (by linarith))]
  · rw [abs_le]
    norm_num at a3 w4 ⊢
    constructor <;> linarith

section
variable (hm : m.Ok) {lam v c a d h p x u w s : ℝ}
  (hinv : F64.pdiv (.fin 1) (.fin lam) = .ok (.fin v))
  (hq : F64.pdiv ((F64.fin 2).mul (.fin lam)) ((F64.fin lam).sub (.fin 1)) = .ok (.fin c))
  (ed : rnd (1 - a) = d) (eh : rnd (d / 300) = h) (ep : rnd (300 * h) = p) (ex : rnd (a + p) = x)
  (eu : rnd (x - v) = u) (ew : rnd (u * c) = w) (es : rnd (w - 1) = s)
  (hra : Rep a) (hv0 : 0 < v) (hv1 : v ≤ 1 / 2) (hva : a = v ∨ v + 1 / 10000 ≤ a) (ha1 : a ≤ 9 / 10) (hc0 : 2 ≤ c) (hc1 : c ≤ 3)
  (hvc : c * (1 - v) ≤ 2 + 1 / 10000) (hd : d ≤ 1) (hh0 : 1 / 2200 ≤ h) (hh1 : h ≤ 1 / 256)
  (hah : a + 300 * h ≤ 1 + 1 / 10000) (hu : |u| ≤ 4) (hw : |w| ≤ 4)
  (hx0 : v < x) (hs1 : x = 1 ∨ 1 + 1 / 2 ^ 51 ≤ s ∧ s ≤ 1 + 1 / 2 ^ 49)
include hm hinv hq ed eh ep ex eu ew es hra hv0 hv1 hva ha1 hc0 hc1 hvc hd hh0 hh1 hah hu hw hx0 hs1

/-- although the last abscissa may be beyond the end point, the quadrature raises no exception -/
theorem part_returns : ∃ r, part_scaling_fn64 m (.fin a) (.fin 1) 300 (.fin lam) = .ok r := by
  have hb : ∀ y : ℝ, |y| ≤ 4 → |y| ≤ 4 * 2 ^ 53 := fun y ha => ha.trans (by norm_num)
  have hb' : ∀ y : ℝ, -4 ≤ y → y ≤ 4 → |y| ≤ 4 * 2 ^ 53 := fun y h1 h2 => hb y (abs_le.2 ⟨h1, h2⟩)
  have hva' : v ≤ a := by rcases hva with h | h <;> linarith
  have hd0 : 0 < d := by
    have := le_rnd (x := 1 - a) (z := 1 / 16) (by
      have := rep_div (k := 1) 4 (by norm_num) (by norm_num); norm_num at this ⊢; exact this) (by linarith)
    rw [ed] at this; linarith
  have hh : F64.pdiv ((F64.fin 1).sub (.fin a)) (.ofInt 300) = .ok (.fin h) := by
    rw [F64.sub_fin, F64.of_fin' (hb' _ (by linarith) (by linarith)), ed, F64.ofInt_eq (by norm_num),
      F64.pdiv_fin (by norm_num), F64.of_fin' (hb' _ (by push_cast; linarith) (by push_cast; linarith))]
    push_cast
    rw [eh]
  have hne : ¬ (F64.fin a).eq (.fin 1) := by rw [F64.eq_fin]; intro h; linarith
  have hpos : 0 < h := by linarith
  have hnode : ∀ i : ℤ, 0 ≤ i → i ≤ 300 → ∃ y, (F64.fin a).add ((F64.ofInt i).mul (.fin h)) = .fin y ∧ a ≤ y ∧
      |y - (a + i * h)| ≤ 1 / 2 ^ 50 ∧ (i = 0 → y = a) := by
    intro i h3 h4
    have hi0 : (0 : ℝ) ≤ i := by exact_mod_cast h3
    have hi1 : (i : ℝ) ≤ 300 := by exact_mod_cast h4
    have hp0 : 0 ≤ i * h := by positivity
    have hp1 : i * h ≤ 2 := by nlinarith
    have q1 := abs_le.1 (rnd_acc' (i * h))
    rw [abs_of_nonneg hp0] at q1
    have q2 := rnd_nonneg hp0
    have q3 := rnd_le rep_two hp1
    have q4 := abs_le.1 (rnd_acc' (a + rnd (i * h)))
    rw [abs_of_nonneg (by linarith)] at q4
    rw [F64.ofInt_eq (by rw [abs_le]; constructor <;> omega), F64.mul_fin, F64.of_fin' (hb' _ (by linarith) (by linarith)),
      F64.add_fin, F64.of_fin' (hb' _ (by linarith) (by linarith))]
    refine ⟨_, rfl, le_rnd hra (by linarith), ?_, fun hi => ?_⟩
    · rw [abs_le]; norm_num at q1 q4 ⊢; constructor <;> linarith
    · rw [hi, Int.cast_zero, zero_mul, rnd_zero, add_zero, rnd_id hra]
  have hlast : (F64.fin a).add ((F64.ofInt 300).mul (.fin h)) = .fin x := by
    rw [F64.ofInt_eq (by norm_num), F64.mul_fin, F64.of_fin' (hb' _ (by push_cast; linarith) (by push_cast; linarith))]
    push_cast
    rw [ep, F64.add_fin]
    have h0 : 0 ≤ p := by rw [← ep]; exact rnd_nonneg (by linarith)
    have h1 : p ≤ 2 := by rw [← ep]; exact rnd_le rep_two (by linarith)
    rw [F64.of_fin' (hb' _ (by linarith) (by linarith)), ex]
  have hxb : x ≤ 1 + 1 / 1000 := by
    obtain ⟨y, hy, -, hy2, -⟩ := hnode 300 (by norm_num) (by norm_num)
    rw [hlast] at hy
    cases hy
    have := abs_le.1 hy2
    norm_num at this ⊢; linarith
  have hss : (((F64.fin x).sub (.fin v)).mul (.fin c)).sub (.fin 1) = .fin s := by
    rw [F64.sub_fin, F64.of_fin' (hb' _ (by linarith) (by linarith)), eu, F64.mul_fin]
    have hwb : |u * c| ≤ 4 * 2 ^ 53 := by
      rw [abs_mul, abs_of_nonneg (by linarith : 0 ≤ c)]
      norm_num
      nlinarith [abs_nonneg u]
    rw [F64.of_fin' hwb, ew, F64.sub_fin]
    have hwb' := abs_le.1 hw
    rw [F64.of_fin' (by rw [abs_le]; norm_num; constructor <;> linarith), es]
  -- the integrand at every abscissa that is not skipped
  have hint : ∀ i : ℤ, 0 ≤ i → i ≤ 300 → ∀ y, (F64.fin a).add ((F64.ofInt i).mul (.fin h)) = .fin y → y ≠ v → y ≠ 1 →
      ∃ f, tiling_integrand64 m (.fin y) (.fin lam) = .ok f := by
    intro i h3 h4 y hy hyv hy1
    obtain ⟨y', hy', g1, g2, g3⟩ := hnode i h3 h4
    rw [hy] at hy'
    cases hy'
    have g2 := abs_le.1 g2
    rcases eq_or_lt_of_le h4 with rfl | h5
    · rw [hlast] at hy
      cases hy
      exact tiling_returns hm hinv hq hss (.inr (hs1.resolve_left hy1)) (by linarith)
    · have hi : (i : ℝ) ≤ 299 := by exact_mod_cast (by omega : i ≤ 299)
      have hih : i * h ≤ 299 * h := by gcongr
      have hlow : v + 1 / 20000 ≤ y := by
        rcases hva with e | e
        · have hi0 : i ≠ 0 := fun h' => hyv (by rw [g3 h', e])
          have hi1 : (1 : ℝ) ≤ i := by exact_mod_cast (by omega : 1 ≤ i)
          have : 1 * h ≤ i * h := by gcongr
          norm_num at g2 ⊢; linarith
        · linarith
      obtain ⟨σ, hσ, hσb⟩ := sarg_inside (x := y) hv0.le hc0 hvc hlow (by norm_num at g2 ⊢; linarith)
      exact tiling_returns hm hinv hq hσ (.inl hσb) (by linarith)
  unfold part_scaling_fn64
  rw [hh]
  simp only [Py.bind_ok]
  rw [if_neg hne]
  obtain ⟨r, hr, -⟩ := range_loop' (a := 0) (b := 300) (s := F64.fin 0)
    (body := fun (sum : F64) (i : ℤ) => do
      let inv ← F64.pdiv (.fin 1) (.fin lam)
      let x := (F64.fin a).add ((F64.ofInt i).mul (.fin h))
      let y := (F64.fin a).add ((F64.ofInt (i + 1)).mul (.fin h))
      if ¬ (x.eq inv ∨ x.eq (.fin 1)) ∧ ¬ (y.eq inv ∨ y.eq (.fin 1)) then do
        let f1 ← tiling_integrand64 m x (.fin lam)
        let f2 ← tiling_integrand64 m y (.fin lam)
        .ok (sum.add (((f1.add f2).mul (.fin h)).div (.fin 2)))
      else .ok sum)
    (fun _ _ => True) trivial
    (fun i S hi0 hi1 _ => by
      obtain ⟨y1, hy1, -⟩ := hnode i hi0 (by omega)
      obtain ⟨y2, hy2, -⟩ := hnode (i + 1) (by omega) (by omega)
      rw [hinv, hy1, hy2]
      simp only [Py.bind_ok, F64.eq_fin]
      split_ifs with hskip
      · push Not at hskip
        obtain ⟨f1, hf1⟩ := hint i hi0 (by omega) y1 hy1 hskip.1.1 hskip.1.2
        obtain ⟨f2, hf2⟩ := hint (i + 1) (by omega) (by omega) y2 hy2 hskip.2.1 hskip.2.2
        rw [hf1, hf2]
        exact ⟨_, rfl, trivial⟩
      · exact ⟨_, rfl, trivial⟩)
  exact ⟨r, hr⟩

end

/-- if every entry can be computed, `k_lam` returns -/
theorem k_lam64_returns {jm : JMax} {L J q : ℤ} {lam : ℝ} {inv norm : F64} (hJ : jm L lam = .ok J) (hJ0 : 0 ≤ J) (hL : 0 ≤ L)
    (hinv : F64.pdiv (.fin 1) (.fin lam) = .ok inv) (hnorm : part_scaling_fn64 m inv (.fin 1) q (.fin lam) = .ok norm)
    (h : ∀ j l, 0 ≤ j → j < J + 2 → 0 ≤ l → l < L → ∃ x, entry64 m lam q norm j l = .ok x) :
    ∃ k, k_lam64 m jm L lam q = .ok k := by
  unfold k_lam64
  simp only [hJ, hinv, hnorm, Py.bind_ok, zeros2]
  rw [if_neg (by omega)]
  simp only [Py.bind_ok]
  obtain ⟨k, hk, -⟩ := range_loop' (a := 0) (b := J + 2) (s := Arr2.of (J + 2) L fun _ _ => (0 : F64))
    (body := fun (k : Arr2 F64) (j : ℤ) =>
      (pyRange 0 L).foldlM (init := k) fun (k : Arr2 F64) (l : ℤ) => do
        let lo ← m.pyPow (.fin lam) (j - 1)
        if F64.intLt l lo then k.set j l (.fin 1)
        else do
          let hi ← m.pyPow (.fin lam) j
          if F64.intGt l hi then k.set j l (.fin 0)
          else do
            let a ← F64.pdiv (.ofInt l) hi
            let p ← part_scaling_fn64 m a (.fin 1) q (.fin lam)
            k.set j l (p.div norm))
    (fun _ (k : Arr2 F64) => k.r = J + 2 ∧ k.c = L) ⟨rfl, rfl⟩
    (fun j k hj0 hj1 hk => by
      obtain ⟨k', hk', hP⟩ := range_loop' (a := 0) (b := L) (s := k)
        (body := fun (k : Arr2 F64) (l : ℤ) => do
          let lo ← m.pyPow (.fin lam) (j - 1)
          if F64.intLt l lo then k.set j l (.fin 1)
          else do
            let hi ← m.pyPow (.fin lam) j
            if F64.intGt l hi then k.set j l (.fin 0)
            else do
              let a ← F64.pdiv (.ofInt l) hi
              let p ← part_scaling_fn64 m a (.fin 1) q (.fin lam)
              k.set j l (p.div norm))
        (fun _ (k : Arr2 F64) => k.r = J + 2 ∧ k.c = L) hk
        (fun l t hl0 hl1 ht => by
          obtain ⟨y, hy⟩ := h j l hj0 hj1 hl0 hl1
          have hset : ∀ y : F64, ∃ t', t.set j l y = .ok t' ∧ t'.r = J + 2 ∧ t'.c = L := fun y => by
            rw [Arr2.set_ok _ _ hj0 (by omega) hl0 (by omega)]
            exact ⟨_, rfl, ht.1, ht.2⟩
          unfold entry64 at hy
          rw [Py.bind_eq_ok] at hy
          obtain ⟨lo, hlo, hy⟩ := hy
          rw [hlo, Py.bind_ok]
          split_ifs at hy ⊢ with c1
          · exact hset _
          rw [Py.bind_eq_ok] at hy
          obtain ⟨hi, hhi, hy⟩ := hy
          rw [hhi, Py.bind_ok]
          split_ifs at hy ⊢ with c2
          · exact hset _
          rw [Py.bind_eq_ok] at hy
          obtain ⟨a, ha, hy⟩ := hy
          rw [Py.bind_eq_ok] at hy
          obtain ⟨p, hp, hy⟩ := hy
          rw [ha, Py.bind_ok, hp, Py.bind_ok]
          exact hset _)
      exact ⟨k', hk', hP⟩)
  exact ⟨k, hk⟩

theorem five_returns (hm : m.Ok) :
    ∃ r, part_scaling_fn64 m (.fin (3602879701896397 / 18014398509481984)) (.fin 1) 300 (.fin 5) = .ok r := by
  have hinv := inv64 (lam := 5) (by norm_num) (by rw [abs_of_pos] <;> norm_num) five_inv
  have hq := slope64 (lam := 5) (c := 5 / 2) (by have := rep_nat 10 (by norm_num); norm_num at this ⊢; exact this)
    (by have := rep_nat 4 (by norm_num); norm_num at this ⊢; exact this)
    (by rw [abs_of_pos] <;> norm_num) (by rw [abs_of_pos] <;> norm_num) (by norm_num) (by rw [abs_of_pos] <;> norm_num)
    (by have := five_c; norm_num at this ⊢; exact this)
  have ha : Rep (3602879701896397 / 18014398509481984 : ℝ) := by rw [← five_inv]; exact rep_rnd _
  refine part_returns hm hinv hq five_d five_h five_p five_x five_u five_w five_s ha ?_ ?_ (.inl rfl) ?_ ?_ ?_ ?_ ?_ ?_ ?_ ?_ ?_ ?_ ?_ (.inr ⟨?_, ?_⟩)
  all_goals norm_num [abs_of_pos]

theorem three_returns (hm : m.Ok) :
    ∃ r, part_scaling_fn64 m (.fin (6540206866268265 / 18014398509481984)) (.fin 1) 300 (.fin 3) = .ok r := by
  have hinv := inv64 (lam := 3) (by norm_num) (by rw [abs_of_pos] <;> norm_num) three_inv
  have hq := slope64 (lam := 3) (c := 3) (by have := rep_nat 6 (by norm_num); norm_num at this ⊢; exact this)
    (by have := rep_nat 2 (by norm_num); norm_num at this ⊢; exact this)
    (by rw [abs_of_pos] <;> norm_num) (by rw [abs_of_pos] <;> norm_num) (by norm_num) (by rw [abs_of_pos] <;> norm_num)
    (by have := three_c; norm_num at this ⊢; exact this)
  have ha : Rep (6540206866268265 / 18014398509481984 : ℝ) := by rw [← three_a]; exact rep_rnd _
  refine part_returns hm hinv hq three_d three_h three_p three_x three_u three_w three_s ha ?_ ?_ (.inr ?_) ?_ ?_ ?_ ?_ ?_ ?_ ?_ ?_ ?_ ?_ ?_ (.inr ⟨?_, ?_⟩)
  all_goals norm_num [abs_of_pos]

variable {jm : JMax} {J J_min : ℤ}

/-- what is asked of the C library for `lam = 5`: the power 5^-1, which no double equals, is computed to be a number in (0, 1] -/
def Libm.Fifth (m : Libm) : Prop := ∃ y, m.pow 5 (-1) = .fin y ∧ 0 < y ∧ y ≤ 1

/-- **C99** with `lam = 5` and band-limit 2 the call raises no exception: it silently returns a NaN. -/
theorem C99_lam_five_returns (hm : m.Ok) (hp : m.Fifth) (hT : TopScale jm 2 5 J) (hJ : J ≤ 20) :
    ∃ k, k_lam64 m jm 2 5 300 = .ok k ∧ k.v 1 1 = .nan := by
  obtain ⟨N, hN⟩ := five_returns hm
  have hinv := inv64 (lam := 5) (by norm_num) (by rw [abs_of_pos] <;> norm_num) five_inv
  obtain ⟨k, hk⟩ : ∃ k, k_lam64 m jm 2 5 300 = .ok k := by
    refine k_lam64_returns hT.hJ hT.hJ0 (by norm_num) hinv hN fun j l hj0 hj1 hl0 hl1 => ?_
    obtain ⟨y, hy, hy0, hy1⟩ := hp
    have hpow : ∀ n : ℕ, n ≤ 22 → m.pyPow (.fin 5) n = .ok (.fin ((5 ^ n : ℕ) : ℝ)) := fun n hn => by
      refine pow64 hm (lam := 5) (n := n) (k := 5 ^ n) (by rw [zpow_natCast]; push_cast; rfl) ?_
      calc 5 ^ n ≤ 5 ^ 22 := Nat.pow_le_pow_right (by norm_num) hn
        _ ≤ 2 ^ 53 := by norm_num
    unfold entry64
    obtain ⟨j, rfl⟩ := Int.eq_ofNat_of_zero_le hj0
    rcases j with _ | _ | j
    · rw [show ((0 : ℕ) : ℤ) - 1 = -1 by norm_num, Libm.pyPow_fin hy, Py.bind_ok]
      split_ifs with c
      · exact ⟨_, rfl⟩
      have hl : l = 1 := by
        have : ¬ ((l : ℤ) : ℝ) < y := c
        have : l ≠ 0 := by rintro rfl; exact this (by push_cast; exact hy0)
        omega
      subst hl
      rw [hpow 0 (by norm_num), Py.bind_ok, if_neg (by change ¬ ((1 : ℤ) : ℝ) > _; norm_num), F64.ofInt_eq (by norm_num),
        F64.pdiv_fin (by norm_num), Py.bind_ok]
      push_cast
      rw [div_one, F64.of_rep rep_one (by norm_num)]
      unfold part_scaling_fn64
      rw [F64.sub_fin, sub_self, F64.ofInt_eq (by norm_num),
        F64.of_rep (by have := rep_int (n := 0) (by norm_num); push_cast at this; exact this) (by norm_num), F64.pdiv_fin (by norm_num)]
      simp only [Py.bind_ok]
      rw [if_pos ((F64.eq_fin 1 1).2 rfl)]
      exact ⟨_, rfl⟩
    · rw [show ((0 + 1 : ℕ) : ℤ) - 1 = ((0 : ℕ) : ℤ) by norm_num, hpow 0 (by norm_num), Py.bind_ok]
      split_ifs with c
      · exact ⟨_, rfl⟩
      have hl : l = 1 := by
        have : l ≠ 0 := by rintro rfl; exact c (by change ((0 : ℤ) : ℝ) < _; norm_num)
        omega
      subst hl
      rw [hpow (0 + 1) (by norm_num), Py.bind_ok, if_neg (by change ¬ ((1 : ℤ) : ℝ) > _; norm_num), F64.ofInt_eq (by norm_num),
        F64.pdiv_fin (by norm_num), Py.bind_ok]
      push_cast
      rw [F64.of_fin' (by rw [abs_of_pos] <;> norm_num), five_inv, hN]
      exact ⟨_, rfl⟩
    · rw [show ((j + 1 + 1 : ℕ) : ℤ) - 1 = ((j + 1 : ℕ) : ℤ) by push_cast; ring, hpow (j + 1) (by omega), Py.bind_ok, if_pos]
      · exact ⟨_, rfl⟩
      · change ((l : ℤ) : ℝ) < _
        have h1 : (l : ℝ) ≤ 1 := by exact_mod_cast (by omega : l ≤ 1)
        have h2 : (5 : ℝ) ≤ ((5 ^ (j + 1) : ℕ) : ℝ) := by
          have : 5 ^ 1 ≤ 5 ^ (j + 1) := Nat.pow_le_pow_right (by norm_num) (by omega)
          exact_mod_cast this
        linarith
  exact ⟨k, hk, C99_lam_five hm hT (by norm_num) hk⟩

/-- **C118** with `lam = 3` and band-limit 795 the call raises no exception: it returns plus infinity in `k[7, 794]`, and finite numbers in all
other entries. -/
theorem C118_returns (hm : m.Ok) (hp : m.Third) (hT : TopScale jm 795 3 J) (hJ : J ≤ 32) :
    ∃ k, k_lam64 m jm 795 3 300 = .ok k ∧ k.r = J + 2 ∧ k.c = 795 ∧ k.v 7 794 = .inf ∧
      ∀ j l, 0 ≤ j → j < J + 2 → 0 ≤ l → l < 795 → ¬ (j = 7 ∧ l = 794) → (k.v j l).Finite := by
  obtain ⟨P, hP⟩ := three_returns hm
  -- the call for band-limit 794 with the same top scale gives all entries but those of degree 794
  obtain ⟨X, hX, -⟩ := k_lam64_three (jm := fun _ _ => .ok J) (L := 794) (J := J) hm hp rfl (by norm_num) (by norm_num) hT.hJ0 hJ
  obtain ⟨inv, norm, hinv, hnorm, -, -, hent⟩ := k_lam64_shape (jm := fun _ _ => .ok J) rfl hX
  have hone : ∀ j l, 0 ≤ j → j < J + 2 → 0 ≤ l → l < 795 → ∃ x, entry64 m 3 300 norm j l = .ok x ∧ (¬ (j = 7 ∧ l = 794) → x.Finite) := by
    intro j l hj0 hj1 hl0 hl1
    by_cases hl : l < 794
    · refine ⟨_, hent j l hj0 hj1 hl0 hl, fun _ => ⟨X j l, ?_⟩⟩
      change ite _ _ _ = _
      rw [if_pos ⟨hj0, hj1, hl0, hl⟩]
    have hl' : l = 794 := by omega
    subst hl'
    unfold entry64
    obtain ⟨j, rfl⟩ := Int.eq_ofNat_of_zero_le hj0
    have hpow : ∀ n : ℕ, n ≤ 33 → m.pyPow (.fin 3) n = .ok (.fin ((3 : ℝ) ^ n)) := fun n hn => pow_three64 hm hn
    have hlow : ∃ y : ℝ, m.pyPow (.fin 3) ((j : ℤ) - 1) = .ok (.fin y) ∧ (j ≤ 7 → y ≤ 729) ∧ (8 ≤ j → 2187 ≤ y) := by
      rcases j with _ | j
      · obtain ⟨y, h1, -, h3⟩ := hp
        refine ⟨y, by simpa using Libm.pyPow_fin h1, fun _ => by linarith, fun h => by omega⟩
      · refine ⟨3 ^ j, ?_, fun h => ?_, fun h => ?_⟩
        · rw [show ((j + 1 : ℕ) : ℤ) - 1 = (j : ℕ) by push_cast; ring]
          exact hpow j (by omega)
        · calc (3 : ℝ) ^ j ≤ 3 ^ 6 := pow_le_pow_right₀ (by norm_num) (by omega)
            _ = 729 := by norm_num
        · calc (2187 : ℝ) = 3 ^ 7 := by norm_num
            _ ≤ 3 ^ j := pow_le_pow_right₀ (by norm_num) (by omega)
    obtain ⟨y, hy, hy1, hy2⟩ := hlow
    rw [hy, Py.bind_ok]
    by_cases h8 : 8 ≤ j
    · rw [if_pos (by change ((794 : ℤ) : ℝ) < y; have := hy2 h8; push_cast; linarith)]
      exact ⟨_, rfl, fun _ => ⟨1, rfl⟩⟩
    rw [if_neg (by change ¬ ((794 : ℤ) : ℝ) < y; have := hy1 (by omega); push_cast; linarith), hpow j (by omega), Py.bind_ok]
    by_cases h7 : j = 7
    · subst h7
      rw [if_neg (by change ¬ ((794 : ℤ) : ℝ) > _; norm_num), F64.ofInt_eq (by norm_num), F64.pdiv_fin (by norm_num)]
      rw [show ((794 : ℤ) : ℝ) / 3 ^ 7 = 794 / 2187 by norm_num, F64.of_fin' (by rw [abs_of_pos] <;> norm_num), three_a, Py.bind_ok, hP]
      exact ⟨_, rfl, fun h => absurd ⟨rfl, rfl⟩ h⟩
    · rw [if_pos]
      · exact ⟨_, rfl, fun _ => ⟨0, rfl⟩⟩
      · change ((794 : ℤ) : ℝ) > _
        have : (3 : ℝ) ^ j ≤ 3 ^ 6 := pow_le_pow_right₀ (by norm_num) (by omega)
        push_cast
        norm_num at this ⊢
        linarith
  obtain ⟨k, hk⟩ := k_lam64_returns hT.hJ hT.hJ0 (by norm_num) hinv hnorm fun j l a b c d => (hone j l a b c d).imp fun x hx => hx.1
  obtain ⟨hr, hc, -, h7, -⟩ := C118_infinite hm hT le_rfl hk
  refine ⟨k, hk, hr, hc, h7, fun j l a b c d hne => ?_⟩
  obtain ⟨inv', norm', hinv', hnorm', -, -, hent'⟩ := k_lam64_shape hT.hJ hk
  rw [hinv] at hinv'
  cases hinv'
  rw [hnorm] at hnorm'
  cases hnorm'
  obtain ⟨x, hx, hxf⟩ := hone j l a b c d
  rw [hent' j l a b c d] at hx
  cases hx
  exact hxf hne

/-- **C119** at band-limit 795 the axisymmetric filters are returned without exception, with an infinite wavelet coefficient. -/
theorem C119_returns (hm : m.Ok) (hp : m.Third) (hT : TopScale jm 795 3 J) (hJ : J ≤ 32) (h0 : 0 ≤ J_min) (h1 : J_min < J) :
    ∃ psi phi, filters_axisym_vectorised64 m jm 795 J_min 3 = .ok (psi, phi) ∧ psi.v 6 794 = .inf := by
  obtain ⟨k, hk, hr, hc, -⟩ := C118_returns hm hp hT hJ
  have h : ∃ psi phi, filters_axisym_vectorised64 m jm 795 J_min 3 = .ok (psi, phi) := by
    unfold filters_axisym_vectorised64
    simp only [hT.hJ, Py.bind_ok]
    rw [if_neg (by omega), hk]
    simp only [Py.bind_ok, Arr2.rollUp, Arr2.zip, Arr2.of_r, Arr2.of_c, and_self, if_true]
    have : ∃ row, k.row J_min = .ok row := by
      rw [Arr2.row, pyIdx_ok h0 (by omega)]
      exact ⟨_, rfl⟩
    obtain ⟨row, hrow⟩ := this
    rw [hrow]
    exact ⟨_, _, rfl⟩
  obtain ⟨psi, phi, h⟩ := h
  exact ⟨psi, phi, h, C119_infinite hm hT le_rfl h⟩

/-- the hypotheses are met: the exact top scale and a correctly rounding C library -/
theorem Libm.exact_fifth : Libm.exact.Fifth := by
  have h : Libm.exact.pow 5 (-1) = .fin (rnd (1 / 5)) := by
    unfold Libm.exact
    simp only [zpow_neg_one]
    rw [← one_div, F64.of_fin' (by norm_num)]
  have ha := abs_le.1 (rnd_acc' (1 / 5))
  norm_num at ha
  exact ⟨_, h, by linarith, by linarith⟩

example : (∃ k, k_lam64 Libm.exact j_max 2 5 300 = .ok k ∧ k.v 1 1 = .nan) ∧
    ∃ psi phi, filters_axisym_vectorised64 Libm.exact j_max 795 0 3 = .ok (psi, phi) ∧ psi.v 6 794 = .inf := by
  have a1 := j_max_eq (L := 2) (by norm_num) (lam := 5) (by norm_num)
  have a2 := j_max_eq (L := 795) (by norm_num) (lam := 3) (by norm_num)
  have t1 := TopScale.of_j_max (by norm_num) (by norm_num) a1
  have t2 := TopScale.of_j_max (by norm_num) (by norm_num) a2
  refine ⟨C99_lam_five_returns Libm.exact_ok Libm.exact_fifth t1 ((j_max_spec (by norm_num) (by norm_num) a1).2.2 20 (by norm_num)),
    C119_returns Libm.exact_ok Libm.exact_third t2 ((j_max_spec (by norm_num) (by norm_num) a2).2.2 32 (by norm_num)) le_rfl ?_⟩
  refine zpow_lt_of (lam := 3) (by norm_num) ?_
  have := t2.hLJ
  rw [zpow_zero]
  norm_num at this
  push_cast
  linarith

end S2wav
