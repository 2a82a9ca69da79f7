import Verif.Lemmas.FloatCert

/-! # Overflow and division by zero in the double precision quadrature -/

namespace S2wav
open Classical

/-- Hoare rule for a loop known to finish without exception -/
theorem range_loop_ok {σ : Type} (P : ℤ → σ → Prop) {a b : ℤ} {body : σ → ℤ → Py σ} {s r : σ} (h0 : P a s)
    (hstep : ∀ i s s', a ≤ i → i < b → P i s → body s i = .ok s' → P (i + 1) s')
    (hr : (pyRange a b).foldlM body s = .ok r) : P (max a b) r := by
  rcases le_total b a with hab | hab
  · rw [pyRange_empty hab] at hr
    rw [max_eq_left hab]
    cases hr; exact h0
  rw [max_eq_right hab]
  obtain ⟨k, hk⟩ : ∃ k : ℕ, (b - a).toNat = k := ⟨_, rfl⟩
  induction k generalizing a s with
  | zero =>
    have : a = b := by omega
    subst this
    rw [pyRange_empty le_rfl] at hr
    cases hr; exact h0
  | succ k ih =>
    have hlt : a < b := by omega
    rw [pyRange_succ hlt, List.foldlM_cons, Py.bind_eq_ok] at hr
    obtain ⟨s', hs', hr⟩ := hr
    exact ih (a := a + 1) (s := s') (hstep a s s' le_rfl hlt h0 hs')
      (fun i s s' hi hb hp => hstep i s s' (by omega) hb hp) hr (by omega) (by omega)

/-- the value assigned to `k[j, l]` -/
noncomputable def entry64 (m : Libm) (lam : ℝ) (q : ℤ) (norm : F64) (j l : ℤ) : Py F64 := do
  let lo ← m.pyPow (.fin lam) (j - 1)
  if F64.intLt l lo then .ok (.fin 1)
  else do
    let hi ← m.pyPow (.fin lam) j
    if F64.intGt l hi then .ok (.fin 0)
    else do
      let a ← F64.pdiv (.ofInt l) hi
      let p ← part_scaling_fn64 m a (.fin 1) q (.fin lam)
      .ok (p.div norm)

/-- what a call of `k_lam` that returns has computed -/
theorem k_lam64_shape {m : Libm} {jm : JMax} {L J q : ℤ} {lam : ℝ} {k : Arr2 F64} (hJ : jm L lam = .ok J)
    (hk : k_lam64 m jm L lam q = .ok k) :
    ∃ inv norm, F64.pdiv (.fin 1) (.fin lam) = .ok inv ∧ part_scaling_fn64 m inv (.fin 1) q (.fin lam) = .ok norm ∧
      k.r = J + 2 ∧ k.c = L ∧ ∀ j l, 0 ≤ j → j < J + 2 → 0 ≤ l → l < L → entry64 m lam q norm j l = .ok (k.v j l) := by
  unfold k_lam64 at hk
  rw [hJ, Py.bind_ok, Py.bind_eq_ok] at hk
  obtain ⟨inv, hinv, hk⟩ := hk
  rw [Py.bind_eq_ok] at hk
  obtain ⟨norm, hnorm, hk⟩ := hk
  refine ⟨inv, norm, hinv, hnorm, ?_⟩
  rw [Py.bind_eq_ok] at hk
  obtain ⟨k0, hk0, hk⟩ := hk
  have hk0' : k0.r = J + 2 ∧ k0.c = L := by
    unfold zeros2 at hk0
    split_ifs at hk0
    cases hk0; exact ⟨rfl, rfl⟩
  have hP := range_loop_ok (a := 0) (b := J + 2)
    (P := fun i (k : Arr2 F64) => k.r = J + 2 ∧ k.c = L ∧ ∀ j l, 0 ≤ j → j < i → 0 ≤ l → l < L →
      entry64 m lam q norm j l = .ok (k.v j l))
    ⟨hk0'.1, hk0'.2, fun j l h1 h2 => by omega⟩
    (fun i s s' hi0 hi1 hs hs' => by
      obtain ⟨hr, hc, hs⟩ := hs
      have hQ := range_loop_ok (a := 0) (b := L)
        (P := fun x (k : Arr2 F64) => k.r = J + 2 ∧ k.c = L ∧ (∀ j l, 0 ≤ j → j < i → 0 ≤ l → l < L →
          entry64 m lam q norm j l = .ok (k.v j l)) ∧ ∀ l, 0 ≤ l → l < x → entry64 m lam q norm i l = .ok (k.v i l))
        ⟨hr, hc, hs, fun l h1 h2 => by omega⟩
        (fun x t t' hx0 hx1 ht ht' => by
          obtain ⟨tr, tc, t1, t2⟩ := ht
          have hbody : ∃ y, entry64 m lam q norm i x = .ok y ∧ t.set i x y = .ok t' := by
            unfold entry64
            rw [Py.bind_eq_ok] at ht'
            obtain ⟨lo, hlo, ht'⟩ := ht'
            rw [hlo, Py.bind_ok]
            split_ifs at ht' ⊢ with c1
            · exact ⟨_, rfl, ht'⟩
            rw [Py.bind_eq_ok] at ht'
            obtain ⟨hi, hhi, ht'⟩ := ht'
            rw [hhi, Py.bind_ok]
            split_ifs at ht' ⊢ with c2
            · exact ⟨_, rfl, ht'⟩
            rw [Py.bind_eq_ok] at ht'
            obtain ⟨a, ha, ht'⟩ := ht'
            rw [Py.bind_eq_ok] at ht'
            obtain ⟨p, hp, ht'⟩ := ht'
            rw [ha, Py.bind_ok, hp, Py.bind_ok]
            exact ⟨_, rfl, ht'⟩
          obtain ⟨y, hy, hset⟩ := hbody
          rw [Arr2.set_ok _ _ hi0 (by omega) hx0 (by omega)] at hset
          cases hset
          refine ⟨tr, tc, fun j l h1 h2 h3 h4 => ?_, fun l h1 h2 => ?_⟩
          · rw [t1 j l h1 h2 h3 h4]
            congr 1
            change _ = ite _ _ _
            rw [if_pos ⟨h1, by omega, h3, by omega⟩, if_neg (by omega)]
          · by_cases hlx : l = x
            · subst hlx
              rw [hy]
              congr 1
              change _ = ite _ _ _
              rw [if_pos ⟨hi0, by omega, h1, by omega⟩, if_pos ⟨rfl, rfl⟩]
            · rw [t2 l h1 (by omega)]
              congr 1
              change _ = ite _ _ _
              rw [if_pos ⟨hi0, by omega, h1, by omega⟩, if_neg (by omega)])
        hs'
      obtain ⟨q1, q2, q3, q4⟩ := hQ
      refine ⟨q1, q2, fun j l h1 h2 h3 h4 => ?_⟩
      by_cases hji : j = i
      · subst hji; exact q4 l h3 (by omega)
      · exact q3 j l h1 (by omega) h3 h4)
    hk
  exact ⟨hP.1, hP.2.1, fun j l h1 h2 h3 h4 => hP.2.2 j l h1 (by omega) h3 h4⟩

theorem k_lam64_entry {m : Libm} {jm : JMax} {L J q : ℤ} {lam : ℝ} {k : Arr2 F64} (hJ : jm L lam = .ok J)
    (hk : k_lam64 m jm L lam q = .ok k) {j l : ℤ} (hj0 : 0 ≤ j) (hj1 : j < J + 2) (hl0 : 0 ≤ l) (hl1 : l < L) :
    ∃ inv norm, F64.pdiv (.fin 1) (.fin lam) = .ok inv ∧ part_scaling_fn64 m inv (.fin 1) q (.fin lam) = .ok norm ∧
      entry64 m lam q norm j l = .ok (k.v j l) := by
  obtain ⟨inv, norm, h1, h2, -, -, h3⟩ := k_lam64_shape hJ hk
  exact ⟨inv, norm, h1, h2, h3 j l hj0 hj1 hl0 hl1⟩

/-- a non-negative number or plus infinity -/
def F64.NN (x : F64) : Prop := (∃ r, x = .fin r ∧ 0 ≤ r) ∨ x = .inf

theorem F64.of_nn {x : ℝ} (h : 0 ≤ x) : (F64.of x).NN := by
  have h1 := rnd_nonneg h
  have h2 := two_zpow_pos 1024
  unfold F64.of
  split_ifs with c1 c2
  · exact .inr rfl
  · exfalso; exact absurd (h1.trans c2) (not_le.2 (neg_lt_zero.2 h2))
  · exact .inl ⟨_, rfl, h1⟩

theorem F64.of_ne_nan (x : ℝ) : F64.of x ≠ .nan := by
  unfold F64.of
  split_ifs <;> simp

theorem F64.NN.add {x y : F64} (hx : x.NN) (hy : y.NN) : (x.add y).NN := by
  rcases hx with ⟨r, rfl, hr⟩ | rfl <;> rcases hy with ⟨r', rfl, hr'⟩ | rfl
  · exact F64.of_nn (by linarith)
  · exact .inr rfl
  · exact .inr rfl
  · exact .inr rfl

theorem F64.NN.mul {x : F64} {h : ℝ} (hx : x.NN) (hh : 0 < h) : (x.mul (.fin h)).NN := by
  rcases hx with ⟨r, rfl, hr⟩ | rfl
  · exact F64.of_nn (by positivity)
  · right; change F64.infOf h = _; unfold F64.infOf; rw [if_pos hh]

theorem F64.NN.div {x : F64} {h : ℝ} (hx : x.NN) (hh : 0 < h) : (x.div (.fin h)).NN := by
  rcases hx with ⟨r, rfl, hr⟩ | rfl
  · rw [F64.div_fin hh.ne']; exact F64.of_nn (by positivity)
  · right; change ite _ _ _ = _; rw [if_pos hh.le]

theorem F64.add_inf {x : F64} (hx : x.NN) : x.add .inf = .inf := by
  rcases hx with ⟨r, rfl, hr⟩ | rfl <;> rfl

theorem F64.inf_add {x : F64} (hx : x.NN) : F64.inf.add x = .inf := by
  rcases hx with ⟨r, rfl, hr⟩ | rfl <;> rfl

theorem F64.inf_mul {h : ℝ} (hh : 0 < h) : F64.inf.mul (.fin h) = .inf := by
  change F64.infOf h = _; unfold F64.infOf; rw [if_pos hh]

theorem F64.inf_div {h : ℝ} (hh : 0 < h) : F64.inf.div (.fin h) = .inf := by
  change ite _ _ _ = _; rw [if_pos hh.le]

section
variable {m : Libm} (hm : m.Ok) {lam v c : ℝ}
  (hinv : F64.pdiv (.fin 1) (.fin lam) = .ok (.fin v))
  (hq : F64.pdiv ((F64.fin 2).mul (.fin lam)) ((F64.fin lam).sub (.fin 1)) = .ok (.fin c))
include hm hinv hq

/-- the last steps of the integrand, once the argument of the bump is known -/
theorem tiling_tail {x s : ℝ} (hs : (((F64.fin x).sub (.fin v)).mul (.fin c)).sub (.fin 1) = .fin s) (hsb : |s| ≤ 2) :
    ∃ y, m.pow s 2 = .fin y ∧ |y - s ^ 2| ≤ s ^ 2 / 2 ^ 52 + 1 / 2 ^ 110 ∧
      tiling_integrand64 m (.fin x) (.fin lam) =
        (F64.pdiv (.fin (-2)) (.fin (rnd (1 - y))) >>= fun e => .ok ((m.npExp e).div (.fin x))) := by
  obtain ⟨y, hy, hya⟩ := hm.pow_two s hsb
  have hya' : |y - s ^ 2| ≤ s ^ 2 / 2 ^ 52 + 1 / 2 ^ 110 := by
    refine hya.trans (add_le_add ?_ tiny_le)
    rw [show (-52 : ℤ) = -((52 : ℕ) : ℤ) by norm_num, zpow_neg, zpow_natCast]
    exact le_of_eq (by ring)
  refine ⟨y, hy, hya', ?_⟩
  have hs2 : s ^ 2 ≤ 4 := by rw [← sq_abs]; nlinarith [abs_nonneg s]
  have hs0 := sq_nonneg s
  have hyb := abs_le.1 hya'
  unfold tiling_integrand64
  rw [hinv, hq]
  simp only [Py.bind_ok]
  rw [hs, Libm.pyPow_fin hy, Py.bind_ok, F64.sub_fin, F64.of_fin']
  rw [abs_le]; norm_num at hyb ⊢; constructor <;> linarith

/-- the integrand is never NaN or negative -/
theorem tiling_nn {x s : ℝ} (hs : (((F64.fin x).sub (.fin v)).mul (.fin c)).sub (.fin 1) = .fin s) (hsb : |s| ≤ 2)
    (hx : 0 < x) {f : F64} (hf : tiling_integrand64 m (.fin x) (.fin lam) = .ok f) : f.NN := by
  obtain ⟨y, -, -, ht⟩ := tiling_tail hm hinv hq hs hsb
  rw [ht, Py.bind_eq_ok] at hf
  obtain ⟨e, he, hf⟩ := hf
  cases hf
  refine F64.NN.div ?_ hx
  unfold F64.pdiv at he
  split_ifs at he with h0
  have hd : rnd (1 - y) ≠ 0 := fun h => h0 (by rw [h])
  rw [F64.div_fin hd] at he
  cases he
  rcases hcase : F64.of (-2 / rnd (1 - y)) with r | _ | _ | _
  · exact hm.exp_range r
  · exact .inr rfl
  · exact .inl ⟨0, rfl, le_rfl⟩
  · exact absurd hcase (F64.of_ne_nan _)

/-- beyond the end point the exponential overflows -/
theorem tiling_over {x s : ℝ} (hs : (((F64.fin x).sub (.fin v)).mul (.fin c)).sub (.fin 1) = .fin s)
    (hs1 : 1 + 1 / 2 ^ 51 ≤ s) (hs2 : s ≤ 1 + 1 / 2 ^ 49) (hx : 0 < x) :
    tiling_integrand64 m (.fin x) (.fin lam) = .ok .inf := by
  obtain ⟨y, -, hya, ht⟩ := tiling_tail hm hinv hq hs (by
    rw [abs_le]; norm_num at hs1 hs2 ⊢; constructor <;> linarith)
  have hyb := abs_le.1 hya
  have hs0 : (1 : ℝ) + 1 / 2 ^ 50 ≤ s ^ 2 := by norm_num at hs1 ⊢; nlinarith
  have hs3 : s ^ 2 ≤ (1 + 1 / 2 ^ 49) ^ 2 := by
    have : 0 ≤ s := by norm_num at hs1; linarith
    gcongr
  have hd1 : 1 - y ≤ -(1 / 2 ^ 51) := by norm_num at hyb hs0 hs3 ⊢; linarith
  have hd2 : -(1 / 2 ^ 47) ≤ 1 - y := by norm_num at hyb hs0 hs3 ⊢; linarith
  have r1 : Rep ((1 : ℝ) / 2 ^ 51) := by have := rep_div (k := 1) 51 (by norm_num) (by norm_num); push_cast at this; exact this
  have r2 : Rep ((1 : ℝ) / 2 ^ 47) := by have := rep_div (k := 1) 47 (by norm_num) (by norm_num); push_cast at this; exact this
  have e1 := rnd_le r1.neg hd1
  have e2 := le_rnd r2.neg hd2
  set d := rnd (1 - y) with hd
  have hd0 : d < 0 := by norm_num at e1; linarith
  have hz : 1000 ≤ -2 / d := by rw [le_div_iff_of_neg hd0]; norm_num at e2 ⊢; linarith
  have hz2 : -2 / d ≤ 2 ^ 52 := by rw [div_le_iff_of_neg hd0]; norm_num at e1 ⊢; linarith
  have r3 : Rep (1000 : ℝ) := by have := rep_int (n := 1000) (by norm_num); push_cast at this; exact this
  have e3 := le_rnd r3 hz
  rw [ht, F64.pdiv_fin hd0.ne, F64.of_fin' (by rw [abs_le]; norm_num at hz2 ⊢; constructor <;> linarith), Py.bind_ok]
  change Except.ok ((m.exp _).div _) = _
  rw [hm.exp_big _ (by linarith), F64.inf_div hx]

/-- exactly at the end point the denominator vanishes -/
theorem tiling_zero {x : ℝ} (hs : (((F64.fin x).sub (.fin v)).mul (.fin c)).sub (.fin 1) = .fin 1) :
    tiling_integrand64 m (.fin x) (.fin lam) = .error .zeroDivision := by
  have hp : m.pow 1 2 = .fin ((1 : ℝ) ^ (2 : ℤ)) := hm.pow_exact 1 2 one_ne_zero (by rw [one_zpow]; exact rep_one) (by
    rw [one_zpow, abs_one]; exact one_lt_zpow₀ (by norm_num) (by norm_num))
  rw [one_zpow] at hp
  unfold tiling_integrand64
  rw [hinv, hq]
  simp only [Py.bind_ok]
  rw [hs, Libm.pyPow_fin hp, Py.bind_ok, F64.sub_fin, sub_self,
    F64.of_rep (by have := rep_int (n := 0) (by norm_num); push_cast at this; exact this) (by norm_num)]
  unfold F64.pdiv
  rw [if_pos rfl]
  rfl

end

/-- the argument of the bump stays in a safe range -/
theorem sarg_range {x v c : ℝ} (hv0 : 0 ≤ v) (hv1 : v ≤ 1 / 2) (hc0 : 2 ≤ c) (hc1 : c ≤ 3) (hvc : c * (1 - v) ≤ 2 + 1 / 1000)
    (hx0 : v - 1 / 1000 ≤ x) (hx1 : x ≤ 1 + 1 / 1000) :
    ∃ s, (((F64.fin x).sub (.fin v)).mul (.fin c)).sub (.fin 1) = .fin s ∧ |s| ≤ 2 := by
  have hb : ∀ y : ℝ, -4 ≤ y → y ≤ 4 → |y| ≤ 4 * 2 ^ 53 := fun y ha hb => by
    rw [abs_le]; constructor <;> norm_num <;> linarith
  have r3 : Rep (3 : ℝ) := by have := rep_int (n := 3) (by norm_num); push_cast at this; exact this
  have a1 := abs_le.1 (rnd_acc' (x - v))
  have a2 : |x - v| ≤ 1.002 := by rw [abs_le]; constructor <;> norm_num <;> linarith
  have a3 : |x - v| / 2 ^ 53 ≤ 1.002 / 2 ^ 53 := by gcongr
  set u := rnd (x - v) with hu
  have u0 : -2 / 1000 ≤ u := by norm_num at a1 a3 ⊢; linarith
  have u1 : u ≤ 1 - v + 2 / 1000 := by norm_num at a1 a3 ⊢; linarith
  have w0 : -(1 / 2) ≤ u * c := by nlinarith
  have w1 : u * c ≤ 3 := by nlinarith
  have w2 := rnd_le r3 w1
  have w3 := le_rnd rep_half.neg w0
  have s0 := le_rnd rep_two.neg (show (-2 : ℝ) ≤ rnd (u * c) - 1 by linarith)
  have s1 := rnd_le rep_two (show rnd (u * c) - 1 ≤ 2 by linarith)
  refine ⟨rnd (rnd (u * c) - 1), ?_, abs_le.2 ⟨s0, s1⟩⟩
  rw [F64.sub_fin, F64.of_fin' (hb _ (by linarith) (by linarith)), F64.mul_fin, F64.of_fin' (hb _ (by linarith) (by linarith)),
    F64.sub_fin, F64.of_fin' (hb _ (by linarith) (by linarith))]

section
variable {m : Libm} (hm : m.Ok) {lam v c a d h p x u w s : ℝ}
  (hinv : F64.pdiv (.fin 1) (.fin lam) = .ok (.fin v))
  (hq : F64.pdiv ((F64.fin 2).mul (.fin lam)) ((F64.fin lam).sub (.fin 1)) = .ok (.fin c))
  (ed : rnd (1 - a) = d) (eh : rnd (d / 300) = h) (ep : rnd (300 * h) = p) (ex : rnd (a + p) = x)
  (eu : rnd (x - v) = u) (ew : rnd (u * c) = w) (es : rnd (w - 1) = s)
  (hra : Rep a) (hv0 : 0 < v) (hv1 : v ≤ 1 / 2) (hva : v ≤ a) (ha1 : a ≤ 3 / 4) (hc0 : 2 ≤ c) (hc1 : c ≤ 3)
  (hvc : c * (1 - v) ≤ 2 + 1 / 1000) (hd : d ≤ 1) (hh0 : 1 / 2000 ≤ h) (hh1 : h ≤ 1 / 256)
  (hah : a + 300 * h ≤ 1 + 1 / 10000) (hu : |u| ≤ 4) (hw : |w| ≤ 4) (hs0 : |s| ≤ 4)
  (hx0 : v < x) (hx1 : x ≠ 1)
include hm hinv hq ed eh ep ex eu ew es hra hv0 hv1 hva ha1 hc0 hc1 hvc hd hh0 hh1 hah hu hw hs0 hx0 hx1

/-- If the last abscissa is beyond the end point, the quadrature is infinite (or fails); if there the argument of the bump
is exactly 1, it fails. -/
theorem part_bad {r : F64} (hr : part_scaling_fn64 m (.fin a) (.fin 1) 300 (.fin lam) = .ok r) :
    s ≠ 1 ∧ (1 + 1 / 2 ^ 51 ≤ s → s ≤ 1 + 1 / 2 ^ 49 → r = .inf) := by
  have hb : ∀ y : ℝ, |y| ≤ 4 → |y| ≤ 4 * 2 ^ 53 := fun y ha => ha.trans (by norm_num)
  have hb' : ∀ y : ℝ, -4 ≤ y → y ≤ 4 → |y| ≤ 4 * 2 ^ 53 := fun y h1 h2 => hb y (abs_le.2 ⟨h1, h2⟩)
  have hd0 : 0 < d := by
    have := le_rnd (x := 1 - a) (z := 1 / 4) (by
      have := rep_div (k := 1) 2 (by norm_num) (by norm_num); norm_num at this ⊢; exact this) (by linarith)
    rw [ed] at this; linarith
  have hh : F64.pdiv ((F64.fin 1).sub (.fin a)) (.ofInt 300) = .ok (.fin h) := by
    rw [F64.sub_fin, F64.of_fin' (hb' _ (by linarith) (by linarith)), ed, F64.ofInt_eq (by norm_num),
      F64.pdiv_fin (by norm_num), F64.of_fin' (hb' _ (by push_cast; linarith) (by push_cast; linarith))]
    push_cast
    rw [eh]
  have hne : ¬ (F64.fin a).eq (.fin 1) := by rw [F64.eq_fin]; intro h; linarith
  have hpos : 0 < h := by linarith
  -- all abscissae are in range
  have hnode : ∀ i : ℤ, 0 ≤ i → i ≤ 300 → ∃ y, (F64.fin a).add ((F64.ofInt i).mul (.fin h)) = .fin y ∧ a ≤ y ∧
      |y - (a + i * h)| ≤ 1 / 2 ^ 50 := by
    intro i h3 h4
    have hi0 : (0 : ℝ) ≤ i := by exact_mod_cast h3
    have hi1 : (i : ℝ) ≤ 300 := by exact_mod_cast h4
    have hp0 : 0 ≤ i * h := by positivity
    have hp1 : i * h ≤ 2 := by nlinarith
    have q1 := abs_le.1 (rnd_acc' (i * h))
    rw [abs_of_nonneg hp0] at q1
    have q2 := rnd_nonneg hp0
    have q3 := rnd_le rep_two hp1
    have q4 := abs_le.1 (rnd_acc' (a + rnd (i * h)))
    rw [abs_of_nonneg (by linarith)] at q4
    rw [F64.ofInt_eq (by rw [abs_le]; constructor <;> omega), F64.mul_fin, F64.of_fin' (hb' _ (by linarith) (by linarith)),
      F64.add_fin, F64.of_fin' (hb' _ (by linarith) (by linarith))]
    refine ⟨_, rfl, le_rnd hra (by linarith), ?_⟩
    rw [abs_le]; norm_num at q1 q4 ⊢; constructor <;> linarith
  have hlast : (F64.fin a).add ((F64.ofInt 300).mul (.fin h)) = .fin x := by
    rw [F64.ofInt_eq (by norm_num), F64.mul_fin, F64.of_fin' (hb' _ (by push_cast; linarith) (by push_cast; linarith))]
    push_cast
    rw [ep, F64.add_fin]
    have h0 : 0 ≤ p := by rw [← ep]; exact rnd_nonneg (by linarith)
    have h1 : p ≤ 2 := by rw [← ep]; exact rnd_le rep_two (by linarith)
    rw [F64.of_fin' (hb' _ (by linarith) (by linarith)), ex]
  have hxpos : 0 < x := by linarith
  have hxb : x ≤ 1 + 1 / 1000 := by
    obtain ⟨y, hy, -, hy2⟩ := hnode 300 (by norm_num) (by norm_num)
    rw [hlast] at hy
    cases hy
    have := abs_le.1 hy2
    norm_num at this ⊢; linarith
  have hss : (((F64.fin x).sub (.fin v)).mul (.fin c)).sub (.fin 1) = .fin s := by
    rw [F64.sub_fin, F64.of_fin' (hb' _ (by linarith) (by linarith)), eu, F64.mul_fin]
    have hwb : |u * c| ≤ 4 * 2 ^ 53 := by
      rw [abs_mul, abs_of_nonneg (by linarith : 0 ≤ c)]
      norm_num
      nlinarith [abs_nonneg u]
    rw [F64.of_fin' hwb, ew, F64.sub_fin]
    have hwb' := abs_le.1 hw
    rw [F64.of_fin' (by rw [abs_le]; norm_num; constructor <;> linarith), es]
  -- the integrand at any abscissa
  have hnn : ∀ y f, a ≤ y → y ≤ 1 + 1 / 1000 → tiling_integrand64 m (.fin y) (.fin lam) = .ok f → f.NN := by
    intro y f h1 h2 hf
    obtain ⟨σ, hσ, hσb⟩ := sarg_range (x := y) hv0.le hv1 hc0 hc1 hvc (by linarith) h2
    exact tiling_nn hm hinv hq hσ hσb (by linarith) hf
  unfold part_scaling_fn64 at hr
  rw [hh, Py.bind_ok, if_neg hne] at hr
  have hP := range_loop_ok (a := 0) (b := 300)
    (P := fun i S => F64.NN S ∧ (i = 300 → s ≠ 1 ∧ (1 + 1 / 2 ^ 51 ≤ s → s ≤ 1 + 1 / 2 ^ 49 → S = .inf)))
    ⟨.inl ⟨0, rfl, le_rfl⟩, fun h => by omega⟩
    (fun i S S' hi0 hi1 hS hS' => by
      obtain ⟨hSn, -⟩ := hS
      obtain ⟨y1, hy1, ha1', hy1a⟩ := hnode i hi0 (by omega)
      obtain ⟨y2, hy2, ha2', hy2a⟩ := hnode (i + 1) (by omega) (by omega)
      have hi0' : (0 : ℝ) ≤ i := by exact_mod_cast hi0
      have hi1' : (i : ℝ) + 1 ≤ 300 := by exact_mod_cast (by omega : i + 1 ≤ 300)
      have B1 := abs_le.1 hy1a
      have B2 := abs_le.1 hy2a
      push_cast at B2
      have hih : (i + 1) * h ≤ 300 * h := by gcongr
      have Y1 : y1 ≤ 1 + 1 / 1000 := by norm_num at B1; linarith
      have Y2 : y2 ≤ 1 + 1 / 1000 := by norm_num at B2; linarith
      rw [hinv, Py.bind_ok, hy1, hy2] at hS'
      simp only [F64.eq_fin] at hS'
      split_ifs at hS' with hskip
      · rw [Py.bind_eq_ok] at hS'
        obtain ⟨f1, hf1, hS'⟩ := hS'
        rw [Py.bind_eq_ok] at hS'
        obtain ⟨f2, hf2, hS'⟩ := hS'
        have n1 := hnn y1 f1 ha1' Y1 hf1
        have n2 := hnn y2 f2 ha2' Y2 hf2
        cases hS'
        refine ⟨hSn.add (((n1.add n2).mul hpos).div (by norm_num)), fun hi => ?_⟩
        have hyx : y2 = x := by
          rw [hi, hlast] at hy2; exact (F64.fin.inj hy2).symm
        rw [hyx] at hf2
        refine ⟨fun h1 => ?_, fun h1 h2 => ?_⟩
        · rw [h1] at hss
          rw [tiling_zero hm hinv hq hss] at hf2
          exact absurd hf2 (by simp)
        · rw [tiling_over hm hinv hq hss h1 h2 hxpos] at hf2
          cases hf2
          rw [F64.add_inf n1, F64.inf_mul hpos, F64.inf_div (by norm_num), F64.add_inf hSn]
      · cases hS'
        refine ⟨hSn, fun hi => ?_⟩
        exfalso
        have hyx : y2 = x := by
          rw [hi, hlast] at hy2; exact (F64.fin.inj hy2).symm
        have hi' : (i : ℝ) = 299 := by exact_mod_cast (by omega : i = 299)
        rw [hi'] at B1
        apply hskip
        rw [hyx]
        refine ⟨?_, ?_⟩
        · rintro (h' | h') <;> rw [h'] at B1 <;> norm_num at B1 <;> linarith
        · rintro (h' | h')
          · exact absurd h' hx0.ne'
          · exact hx1 h')
    hr
  exact hP.2 (by norm_num)

end
end S2wav
