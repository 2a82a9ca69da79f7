import Verif.Model.IeeeSamples
import Verif.Model.IeeeFilters
import Verif.Lemmas.Ieee
import Mathlib.Data.EReal.Inv

/-! # C111: the arithmetic used for double precision is that of IEEE 754

The double precision theorems (C98 - C110) are about the arithmetic defined in `Model/Ieee.lean`.  Here that arithmetic is compared with a
description of binary64 that does not use `rne`, `ulp` or `rnd`: the set of finite doubles, rounding to a nearest one, ties to the even one,
overflow from the middle between the largest double and `2^1024` on, and the rules for infinities and NaN by way of the extended reals. -/

namespace S2wav
open Classical

/-! ### specification -/

/-- the finite doubles -/
def Dbl (x : ℝ) : Prop := ∃ m e : ℤ, |m| < 2 ^ 53 ∧ -1074 ≤ e ∧ e ≤ 971 ∧ x = m * (2 : ℝ) ^ e

/-- from here on numbers are rounded to infinity -/
noncomputable def overflow : ℝ := 2 ^ (1024 : ℤ) - 2 ^ (970 : ℤ)

/-- `r` is the rounding of `v`: a nearest double, and in case of two nearest ones the one which is an even multiple of their distance -/
def Nearest (v : ℝ) : F64 → Prop
  | .fin y => |v| < overflow ∧ Dbl y ∧ (∀ z, Dbl z → |y - v| ≤ |z - v|) ∧
      ∀ z, Dbl z → |z - v| = |y - v| → z ≠ y → ∃ m e : ℤ, y = (2 * m : ℤ) * (2 : ℝ) ^ e ∧ |y - z| = 2 ^ e
  | .inf => overflow ≤ v
  | .ninf => v ≤ -overflow
  | .nan => False

/-- the extended real number which is not NaN -/
noncomputable def ext : F64 → EReal
  | .fin x => (x : ℝ) | .inf => ⊤ | .ninf => ⊥ | .nan => 0

/-- rounding of an extended real number -/
def NearestE (e : EReal) (r : F64) : Prop := (e = ⊤ ∧ r = .inf) ∨ (e = ⊥ ∧ r = .ninf) ∨ ∃ v : ℝ, e = v ∧ Nearest v r

/-! ### rounding -/

theorem rnd_nearest {x z : ℝ} (hz : Rep z) : |rnd x - x| ≤ |z - x| := by
  have hu := ulp_pos x
  have key : ∀ k : ℤ, |rnd x - x| ≤ |k * ulp x - x| := by
    intro k
    have h := rne_nearest (x / ulp x) k
    have e1 : rnd x - x = ((rne (x / ulp x) : ℝ) - x / ulp x) * ulp x := by unfold rnd; field_simp
    have e2 : k * ulp x - x = ((k : ℝ) - x / ulp x) * ulp x := by field_simp
    rw [e1, e2, abs_mul, abs_mul]
    exact mul_le_mul_of_nonneg_right h (abs_nonneg _)
  rcases rep_at x hz with h | ⟨k, hk⟩ | ⟨h1, h2⟩
  · rw [h, rnd_zero, sub_self, abs_zero]; exact abs_nonneg _
  · rw [hk]; exact key k
  · have h3 := abs_lt.1 h1
    rcases le_total 0 x with hx | hx
    · rw [abs_of_nonneg hx] at h2
      have := key (2 ^ 52)
      push_cast at this
      refine this.trans ?_
      rw [abs_of_nonpos (by linarith), abs_of_nonpos (by linarith)]
      linarith
    · rw [abs_of_nonpos hx] at h2
      have := key (-2 ^ 52)
      push_cast at this
      refine this.trans ?_
      rw [abs_of_nonneg (by linarith), abs_of_nonneg (by linarith)]
      linarith

theorem rne_tie {y : ℝ} {k : ℤ} (h : |(k : ℝ) - y| = |(rne y : ℝ) - y|) (hk : k ≠ rne y) : (∃ m, rne y = 2 * m) ∧ |rne y - k| = 1 := by
  have h0 := Int.floor_le y
  have h1 := Int.lt_floor_add_one y
  have h2 := rne_near y
  have h3 : |(k : ℝ) - y| ≤ 1 / 2 := h ▸ h2
  have d : |(rne y : ℝ) - k| ≤ 1 := by
    have := abs_sub_le (rne y : ℝ) y k
    rw [abs_sub_comm y] at this
    linarith
  have d' : |rne y - k| ≤ 1 := by exact_mod_cast d
  have d1 : |rne y - k| = 1 := le_antisymm d' (Int.one_le_abs (sub_ne_zero.2 (Ne.symm hk)))
  refine ⟨?_, d1⟩
  have hh : |(rne y : ℝ) - y| = 1 / 2 := by
    have e : |(rne y : ℝ) - k| = 1 := by exact_mod_cast d1
    have := abs_sub_le (rne y : ℝ) y k
    rw [abs_sub_comm y, e] at this
    linarith
  have hfr : y - ⌊y⌋ = 1 / 2 := by
    rcases rne_cases y with ⟨h4, h5⟩ | ⟨h4, h5⟩ <;> rw [h4] at hh
    · rw [abs_of_nonpos (by linarith)] at hh; linarith
    · push_cast at hh; rw [abs_of_nonneg (by linarith)] at hh; linarith
  unfold rne
  rw [if_neg (by rw [hfr]; norm_num), if_neg (by rw [hfr]; norm_num)]
  split_ifs with h5
  · exact ⟨⌊y⌋ / 2, by omega⟩
  · exact ⟨⌊y⌋ / 2 + 1, by omega⟩

theorem rnd_tie {x z : ℝ} (hz : Rep z) (h : |z - x| = |rnd x - x|) (hne : z ≠ rnd x) :
    ∃ m e : ℤ, rnd x = (2 * m : ℤ) * (2 : ℝ) ^ e ∧ |rnd x - z| = 2 ^ e := by
  have hu := ulp_pos x
  rcases rep_at x hz with hx | ⟨k, hk⟩ | ⟨h1, h2⟩
  · rw [hx, rnd_zero, sub_self, abs_zero, sub_zero, abs_eq_zero] at h
    exact absurd (by rw [h, hx, rnd_zero]) hne
  · obtain ⟨e, -, he⟩ := ulp_exp x
    have e1 : rnd x - x = ((rne (x / ulp x) : ℝ) - x / ulp x) * ulp x := by unfold rnd; field_simp
    have e2 : z - x = ((k : ℝ) - x / ulp x) * ulp x := by rw [hk]; field_simp
    rw [e1, e2, abs_mul, abs_mul] at h
    have h := mul_right_cancel₀ (abs_pos.2 hu.ne').ne' h
    obtain ⟨⟨m, hm⟩, hd⟩ := rne_tie h (by rintro rfl; exact hne hk)
    refine ⟨m, e, ?_, ?_⟩
    · rw [← hm, ← he]; rfl
    · have : rnd x - z = ((rne (x / ulp x) - k : ℤ) : ℝ) * ulp x := by rw [hk]; unfold rnd; push_cast; ring
      rw [this, abs_mul, ← Int.cast_abs, hd, abs_of_pos hu, he]; simp
  · exfalso
    have h3 := abs_lt.1 h1
    obtain ⟨e, he0, he⟩ := ulp_exp x
    rcases le_total 0 x with hx | hx
    · rw [abs_of_nonneg hx] at h2
      have := rnd_nearest (x := x) (z := ((2 ^ 52 : ℤ) : ℝ) * ulp x) ⟨2 ^ 52, e, by norm_num, he0, by rw [he]⟩
      rw [← h] at this
      push_cast at this
      rw [abs_of_nonpos (by linarith), abs_of_nonpos (by linarith)] at this
      linarith
    · rw [abs_of_nonpos hx] at h2
      have := rnd_nearest (x := x) (z := ((-2 ^ 52 : ℤ) : ℝ) * ulp x) ⟨-2 ^ 52, e, by norm_num, he0, by rw [he]⟩
      rw [← h] at this
      push_cast at this
      rw [abs_of_nonneg (by linarith), abs_of_nonneg (by linarith)] at this
      linarith

theorem rne_neg (x : ℝ) : rne (-x) = -rne x := by
  rcases eq_or_ne ((⌊x⌋ : ℤ) : ℝ) x with h | h
  · have e1 : rne x = ⌊x⌋ := by unfold rne; rw [if_pos (by rw [h]; norm_num)]
    have hf : ⌊-x⌋ = -⌊x⌋ := by rw [Int.floor_neg, neg_inj, ← h]; simp
    have e2 : rne (-x) = ⌊-x⌋ := by unfold rne; rw [if_pos (by rw [hf]; push_cast; rw [h]; norm_num)]
    rw [e1, e2, hf]
  · have h0 := lt_of_le_of_ne (Int.floor_le x) h
    have h1 := Int.lt_floor_add_one x
    have hf : ⌊-x⌋ = -⌊x⌋ - 1 := by
      rw [Int.floor_eq_iff]; push_cast; constructor <;> linarith
    unfold rne
    rw [hf]
    push_cast
    split_ifs <;> first | omega | (exfalso; linarith)

theorem ulp_neg (x : ℝ) : ulp (-x) = ulp x := by unfold ulp; rw [abs_neg]

theorem rnd_neg (x : ℝ) : rnd (-x) = -rnd x := by
  unfold rnd; rw [ulp_neg, neg_div, rne_neg]; push_cast; ring

theorem Dbl.rep {x : ℝ} : Dbl x → Rep x := fun ⟨m, e, hm, he, _, h⟩ => ⟨m, e, hm.le, he, h⟩

/-- the powers of two around the overflow threshold, in terms of one of them -/
theorem top_powers : ∃ A : ℝ, 0 < A ∧ (2 : ℝ) ^ (970 : ℤ) = A ∧ (2 : ℝ) ^ (971 : ℤ) = 2 * A ∧ (2 : ℝ) ^ (1024 : ℤ) = 18014398509481984 * A := by
  refine ⟨_, two_zpow_pos 970, rfl, ?_, ?_⟩
  · rw [show (971 : ℤ) = 1 + 970 by norm_num, zpow_split, zpow_one]
  · rw [show (1024 : ℤ) = 54 + 970 by norm_num, zpow_split]
    congr 1
    norm_num

theorem Dbl.lt {x : ℝ} : Dbl x → |x| ≤ 2 ^ (1024 : ℤ) - 2 ^ (971 : ℤ) := by
  rintro ⟨m, e, hm, he, he', rfl⟩
  have h1 : |(m : ℝ)| ≤ 2 ^ 53 - 1 := by
    have : |m| ≤ 2 ^ 53 - 1 := by omega
    exact_mod_cast this
  have h2 : (2 : ℝ) ^ e ≤ 2 ^ (971 : ℤ) := zpow_le_zpow_right₀ (by norm_num) he'
  obtain ⟨A, hA, -, e1, e2⟩ := top_powers
  rw [abs_mul, abs_of_pos (two_zpow_pos e), e1, e2]
  rw [e1] at h2
  have hp := two_zpow_pos e
  generalize (2 : ℝ) ^ e = B at *
  have := mul_le_mul h1 h2 hp.le (by norm_num)
  linarith

theorem Rep.dbl {x : ℝ} (h : Rep x) (hx : |x| < 2 ^ (1024 : ℤ)) : Dbl x := by
  rcases eq_or_ne x 0 with rfl | h0
  · exact ⟨0, 0, by norm_num, by norm_num, by norm_num, by simp⟩
  rcases lt_or_ge |x| ((2 : ℝ) ^ (-1022 : ℤ)) with h1 | h1
  · obtain ⟨k, rfl⟩ := rep_small h
    refine ⟨k, -1074, ?_, le_rfl, by norm_num, rfl⟩
    rw [abs_mul, abs_of_pos (two_zpow_pos (-1074)), show (-1022 : ℤ) = 52 + -1074 by norm_num, zpow_split] at h1
    have := lt_of_mul_lt_mul_right h1 (two_zpow_pos (-1074)).le
    have h2 : |(k : ℝ)| < 2 ^ 53 := this.trans (by norm_num)
    exact_mod_cast h2
  · obtain ⟨a1, a2⟩ := log_bounds h0
    set E := Int.log 2 |x|
    have hE : E < 1024 := (zpow_lt_zpow_iff_right₀ (by norm_num : (1 : ℝ) < 2)).1 (a1.trans_lt hx)
    have hE' : -1022 < E + 1 := (zpow_lt_zpow_iff_right₀ (by norm_num : (1 : ℝ) < 2)).1 (h1.trans_lt a2)
    obtain ⟨k, hk⟩ := rep_mult h a1
    refine ⟨k, E - 52, ?_, by omega, by omega, hk⟩
    rw [hk, abs_mul, abs_of_pos (two_zpow_pos (E - 52)), show E + 1 = 53 + (E - 52) by ring, zpow_split] at a2
    have := lt_of_mul_lt_mul_right a2 (two_zpow_pos (E - 52)).le
    have h2 : |(k : ℝ)| < 2 ^ 53 := this.trans_le (by norm_num)
    exact_mod_cast h2

theorem rnd_big {x : ℝ} : (2 : ℝ) ^ (1024 : ℤ) ≤ rnd x ↔ overflow ≤ x := by
  obtain ⟨A, hA, e0, e1, e2⟩ := top_powers
  have hM : Rep (18014398509481982 * A) := ⟨2 ^ 53 - 1, 971, by norm_num, by norm_num, by push_cast; rw [e1]; ring⟩
  have hT : Rep (18014398509481984 * A) := e2 ▸ rep_pow (by norm_num)
  have hD : ∀ y, Rep y → |y| < 18014398509481984 * A → |y| ≤ 18014398509481982 * A := by
    intro y h1 h2
    have := (h1.dbl (by rw [e2]; exact h2)).lt
    rw [e1, e2] at this
    clear e0 e1 e2
    linarith
  unfold overflow
  rw [e2, e0]
  clear e2 e0 e1
  constructor
  · intro h
    by_contra hlt
    push Not at hlt
    have h1 := rnd_nearest (x := x) hM
    have h2 : |rnd x - x| = rnd x - x := abs_of_nonneg (by linarith)
    rw [h2] at h1
    rcases le_total x (18014398509481982 * A) with h4 | h4
    · have h5 := rnd_le hM (x := x) h4
      linarith
    · rw [abs_of_nonpos (by linarith)] at h1
      linarith
  · intro h
    rcases le_or_gt (18014398509481984 * A) x with h1 | h1
    · exact le_rnd hT h1
    by_contra hlt
    push Not at hlt
    have a1 : rnd x ≤ 18014398509481982 * A :=
      (le_abs_self _).trans (hD _ (rep_rnd x) (by rw [abs_of_nonneg (rnd_nonneg (by linarith))]; exact hlt))
    have a2 : 18014398509481982 * A ≤ rnd x := le_rnd hM (by linarith)
    have a3 := le_antisymm a1 a2
    have a4 := rnd_nearest (x := x) hT
    have hxm : |18014398509481984 * A - x| = |rnd x - x| := by
      refine le_antisymm ?_ a4
      rw [a3, abs_of_nonneg (by linarith), abs_of_nonpos (by linarith)]
      linarith
    obtain ⟨m, e, h5, h6⟩ := rnd_tie hT hxm (ne_of_gt hlt)
    rw [abs_of_nonpos (by linarith), a3] at h6
    have h6 : 2 * A = 2 ^ e := by rw [← h6]; ring
    rw [a3, ← h6, show 18014398509481982 * A = ((9007199254740991 : ℤ) : ℝ) * (2 * A) by push_cast; ring] at h5
    have h5 := mul_right_cancel₀ (by positivity) h5
    have h5 : (9007199254740991 : ℤ) = 2 * m := by exact_mod_cast h5
    omega

theorem rnd_small {x : ℝ} : rnd x ≤ -(2 : ℝ) ^ (1024 : ℤ) ↔ x ≤ -overflow := by
  have := rnd_big (x := -x)
  rw [rnd_neg] at this
  constructor
  · intro h; linarith [this.1 (by linarith)]
  · intro h; linarith [this.2 (by linarith)]

theorem overflow_pos : 0 < overflow := by
  obtain ⟨A, hA, e0, e1, e2⟩ := top_powers
  unfold overflow
  rw [e2, e0]
  clear e0 e1 e2
  linarith

theorem of_nearest (v : ℝ) : Nearest v (F64.of v) := by
  unfold F64.of
  split_ifs with h1 h2
  · exact rnd_big.1 h1
  · exact rnd_small.1 h2
  · have a1 := lt_of_not_ge fun h => h1 (rnd_big.2 h)
    have a2 := lt_of_not_ge fun h => h2 (rnd_small.2 h)
    exact ⟨abs_lt.2 ⟨a2, a1⟩, (rep_rnd v).dbl (abs_lt.2 ⟨lt_of_not_ge h2, lt_of_not_ge h1⟩), fun z hz => rnd_nearest hz.rep,
      fun z hz h hne => rnd_tie hz.rep h hne⟩

theorem Nearest.unique {v : ℝ} {r r' : F64} (h : Nearest v r) (h' : Nearest v r') : r = r' := by
  have hp := overflow_pos
  cases r with
  | nan => exact h.elim
  | inf =>
    have h : overflow ≤ v := h
    cases r' with
    | nan => exact h'.elim
    | inf => rfl
    | ninf => have h' : v ≤ -overflow := h'; linarith
    | fin y => have := (abs_lt.1 h'.1).2; linarith
  | ninf =>
    have h : v ≤ -overflow := h
    cases r' with
    | nan => exact h'.elim
    | ninf => rfl
    | inf => have h' : overflow ≤ v := h'; linarith
    | fin y => have := (abs_lt.1 h'.1).1; linarith
  | fin x =>
    cases r' with
    | nan => exact h'.elim
    | inf => have h' : overflow ≤ v := h'; have := (abs_lt.1 h.1).2; linarith
    | ninf => have h' : v ≤ -overflow := h'; have := (abs_lt.1 h.1).1; linarith
    | fin y =>
      by_contra hne
      have hne : x ≠ y := fun e => hne (by rw [e])
      obtain ⟨-, dx, nx, tx⟩ := h
      obtain ⟨-, dy, ny, ty⟩ := h'
      have e := le_antisymm (nx y dy) (ny x dx)
      obtain ⟨m, a, hm, ha⟩ := tx y dy e.symm hne.symm
      obtain ⟨n, b, hn, hb⟩ := ty x dx e hne
      rw [abs_sub_comm, ha] at hb
      rw [← hb] at hn
      rw [hm, hn, ← sub_mul, abs_mul, abs_of_pos (two_zpow_pos a)] at ha
      have ha : |((2 * m : ℤ) : ℝ) - (2 * n : ℤ)| = 1 := by
        have := mul_right_cancel₀ (two_zpow_pos a).ne' (ha.trans (one_mul _).symm)
        exact this
      have ha : |2 * m - 2 * n| = 1 := by exact_mod_cast ha
      rcases abs_cases (2 * m - 2 * n) with h | h <;> omega

/-! ### C111 -/

/-- **C111** `F64.of` is rounding to nearest, ties to even, with overflow: there is exactly one double as the specification asks, and it is this one. -/
theorem C111_rounding (v : ℝ) (r : F64) : Nearest v r ↔ F64.of v = r :=
  ⟨fun h => (of_nearest v).unique h, fun h => h ▸ of_nearest v⟩

/-- **C111** doubles are rounded to themselves -/
theorem C111_double {x : ℝ} (h : Dbl x) : F64.of x = .fin x := by
  refine (C111_rounding x _).1 ⟨?_, h, fun z _ => by simp, fun z _ hz hne => ?_⟩
  · have := h.lt
    obtain ⟨A, hA, e0, e1, e2⟩ := top_powers
    unfold overflow
    rw [e2, e0]
    rw [e1, e2] at this
    clear e0 e1 e2
    linarith
  · rw [sub_self, abs_zero, abs_eq_zero, sub_eq_zero] at hz
    exact absurd hz hne

theorem nearestE_coe (v : ℝ) : NearestE v (F64.of v) := .inr (.inr ⟨v, rfl, of_nearest v⟩)

theorem dbl_zero : Dbl 0 := ⟨0, 0, by norm_num, by norm_num, by norm_num, by simp⟩

theorem nearestE_zero : NearestE 0 (.fin 0) := .inr (.inr ⟨0, rfl, (C111_rounding 0 _).2 (C111_double dbl_zero)⟩)

/-- **C111** sum and difference: the exact result rounded, `inf - inf` and NaN give NaN -/
theorem C111_add (x y : F64) :
    (x = .nan ∨ y = .nan ∨ (x = .inf ∧ y = .ninf) ∨ (x = .ninf ∧ y = .inf) → x.add y = .nan) ∧
    (¬ (x = .nan ∨ y = .nan ∨ (x = .inf ∧ y = .ninf) ∨ (x = .ninf ∧ y = .inf)) → NearestE (ext x + ext y) (x.add y)) := by
  cases x <;> cases y <;> simp [F64.add, ext, NearestE]
  rename_i a b
  exact .inr ⟨a + b, rfl, of_nearest _⟩

/-- **C111** -/
theorem C111_neg (x : F64) : (x = .nan → x.neg = .nan) ∧ (x ≠ .nan → x.neg ≠ .nan ∧ ext x.neg = -ext x) := by
  cases x <;> simp [F64.neg, ext]

/-- **C111** -/
theorem C111_sub (x y : F64) : x.sub y = x.add y.neg := rfl

/-- **C111** product: `0 * inf` and NaN give NaN -/
theorem C111_mul (x y : F64) :
    (x = .nan ∨ y = .nan ∨ (x = .fin 0 ∧ (y = .inf ∨ y = .ninf)) ∨ (y = .fin 0 ∧ (x = .inf ∨ x = .ninf)) → x.mul y = .nan) ∧
    (¬ (x = .nan ∨ y = .nan ∨ (x = .fin 0 ∧ (y = .inf ∨ y = .ninf)) ∨ (y = .fin 0 ∧ (x = .inf ∨ x = .ninf))) → NearestE (ext x * ext y) (x.mul y)) := by
  have hinf : ∀ a : ℝ, a ≠ 0 → NearestE ((a : EReal) * ⊤) (F64.infOf a) := by
    intro a ha
    unfold F64.infOf
    rcases lt_or_gt_of_ne ha with h | h
    · rw [EReal.coe_mul_top_of_neg h, if_neg (by linarith), if_pos h]; exact .inr (.inl ⟨rfl, rfl⟩)
    · rw [EReal.coe_mul_top_of_pos h, if_pos h]; exact .inl ⟨rfl, rfl⟩
  have hninf : ∀ a : ℝ, a ≠ 0 → NearestE ((a : EReal) * ⊥) (F64.infOf (-a)) := by
    intro a ha
    unfold F64.infOf
    rcases lt_or_gt_of_ne ha with h | h
    · rw [EReal.coe_mul_bot_of_neg h, if_pos (by linarith)]; exact .inl ⟨rfl, rfl⟩
    · rw [EReal.coe_mul_bot_of_pos h, if_neg (by linarith), if_pos (by linarith)]; exact .inr (.inl ⟨rfl, rfl⟩)
  have hz : F64.infOf 0 = .nan := by unfold F64.infOf; simp
  cases x <;> cases y <;> simp [F64.mul, ext]
  · rename_i a b
    exact nearestE_coe (a * b)
  · rename_i a
    exact ⟨fun h => by rw [h, hz], hinf a⟩
  · rename_i a
    exact ⟨fun h => by rw [h, neg_zero, hz], hninf a⟩
  · rename_i a
    rw [mul_comm]
    exact ⟨fun h => by rw [h, hz], hinf a⟩
  · exact .inl ⟨rfl, rfl⟩
  · exact .inr (.inl ⟨rfl, rfl⟩)
  · rename_i a
    rw [mul_comm]
    exact ⟨fun h => by rw [h, neg_zero, hz], hninf a⟩
  · exact .inr (.inl ⟨rfl, rfl⟩)
  · exact .inl ⟨rfl, rfl⟩

/-- **C111** quotient by anything but zero: `inf / inf` and NaN give NaN -/
theorem C111_div (x y : F64) (hy : y ≠ .fin 0) :
    (x = .nan ∨ y = .nan ∨ ((x = .inf ∨ x = .ninf) ∧ (y = .inf ∨ y = .ninf)) → x.div y = .nan) ∧
    (¬ (x = .nan ∨ y = .nan ∨ ((x = .inf ∨ x = .ninf) ∧ (y = .inf ∨ y = .ninf))) → NearestE (ext x / ext y) (x.div y)) := by
  cases x <;> cases y <;> simp [F64.div, ext] at hy ⊢
  · rename_i a b
    rw [if_neg hy]
    exact nearestE_coe (a / b)
  · exact nearestE_zero
  · exact nearestE_zero
  · rename_i a
    rcases lt_or_gt_of_ne hy with h | h
    · rw [if_neg (by linarith), EReal.top_div_of_neg_ne_bot (by exact_mod_cast h) (EReal.coe_ne_bot _)]; exact .inr (.inl ⟨rfl, rfl⟩)
    · rw [if_pos h.le, EReal.top_div_of_pos_ne_top (by exact_mod_cast h) (EReal.coe_ne_top _)]; exact .inl ⟨rfl, rfl⟩
  · rename_i a
    rcases lt_or_gt_of_ne hy with h | h
    · rw [if_neg (by linarith), EReal.bot_div_of_neg_ne_bot (by exact_mod_cast h) (EReal.coe_ne_bot _)]; exact .inl ⟨rfl, rfl⟩
    · rw [if_pos h.le, EReal.bot_div_of_pos_ne_top (by exact_mod_cast h) (EReal.coe_ne_top _)]; exact .inr (.inl ⟨rfl, rfl⟩)

/-- **C111** division by zero: Python raises, NumPy returns an infinity, or NaN for `0 / 0` -/
theorem C111_div_zero (x : F64) :
    F64.pdiv x (.fin 0) = .error .zeroDivision ∧ (x = .nan ∨ x = .fin 0 → x.div (.fin 0) = .nan) ∧
    (x ≠ .nan → 0 < ext x → x.div (.fin 0) = .inf) ∧ (x ≠ .nan → ext x < 0 → x.div (.fin 0) = .ninf) := by
  refine ⟨by simp [F64.pdiv], ?_⟩
  cases x <;> simp [F64.div, ext, F64.infOf]
  · rename_i a
    refine ⟨?_, ?_, ?_⟩
    · rintro rfl; simp
    · intro h h'; linarith
    · intro h; rw [if_neg (by linarith), if_pos h]

/-- **C111** for other denominators the two agree -/
theorem C111_pdiv (x y : F64) (hy : y ≠ .fin 0) : F64.pdiv x y = .ok (x.div y) := if_neg hy

/-- **C111** square root -/
theorem C111_sqrt (x : F64) : (x = .nan ∨ ext x < 0 → x.sqrt = .nan) ∧ (x = .inf → x.sqrt = .inf) ∧
    ∀ a : ℝ, x = .fin a → 0 ≤ a → Nearest (Real.sqrt a) x.sqrt := by
  cases x <;> simp [F64.sqrt, ext]
  rename_i a
  exact ⟨fun h h' => by linarith, fun h => by rw [if_neg (by linarith)]; exact of_nearest _⟩

/-- **C111** comparisons: exact, false for NaN -/
theorem C111_compare (n : ℤ) (x y : F64) :
    (F64.intLt n x ↔ x ≠ .nan ∧ ((n : ℝ) : EReal) < ext x) ∧ (F64.intGt n x ↔ x ≠ .nan ∧ ext x < ((n : ℝ) : EReal)) ∧
    (F64.isNeg x ↔ x ≠ .nan ∧ ext x < 0) ∧ (F64.eq x y ↔ x ≠ .nan ∧ y ≠ .nan ∧ ext x = ext y) := by
  refine ⟨?_, ?_, ?_, ?_⟩
  · cases x <;> simp [F64.intLt, ext]
  · cases x <;> simp [F64.intGt, ext]
  · cases x <;> simp [F64.isNeg, ext]
  · cases x <;> cases y <;> simp [F64.eq, ext]

/-- **C111** `np.floor` of a double is a double -/
theorem C111_floor {x : ℝ} (h : Dbl x) : F64.floor (.fin x) = .fin ⌊x⌋ ∧ Dbl ⌊x⌋ := by
  refine ⟨rfl, ?_⟩
  obtain ⟨m, e, hm, he, he', rfl⟩ := h
  rcases le_total 0 e with h0 | h0
  · obtain ⟨n, rfl⟩ := Int.eq_ofNat_of_zero_le h0
    have : (m : ℝ) * 2 ^ ((n : ℕ) : ℤ) = ((m * 2 ^ n : ℤ) : ℝ) := by push_cast; rw [zpow_natCast]
    rw [this, Int.floor_intCast]
    exact ⟨m, n, hm, he, he', this.symm⟩
  · refine ⟨⌊(m : ℝ) * 2 ^ e⌋, 0, ?_, by norm_num, by norm_num, by simp⟩
    have hp := two_zpow_pos e
    have h1 : (2 : ℝ) ^ e ≤ 1 := by
      have := zpow_le_zpow_right₀ (by norm_num : (1 : ℝ) ≤ 2) h0
      simpa using this
    have h2 : |(m : ℝ)| ≤ 2 ^ 53 - 1 := by
      have : |m| ≤ 2 ^ 53 - 1 := by omega
      exact_mod_cast this
    have h3 : |(m : ℝ) * 2 ^ e| ≤ 2 ^ 53 - 1 := by
      rw [abs_mul, abs_of_pos hp]
      have := abs_nonneg (m : ℝ)
      nlinarith
    rw [abs_le] at h3
    have a1 : -(2 ^ 53 - 1 : ℤ) ≤ ⌊(m : ℝ) * 2 ^ e⌋ := Int.le_floor.2 (by push_cast; linarith)
    have a2 : ⌊(m : ℝ) * 2 ^ e⌋ < 2 ^ 53 - 1 + 1 := Int.floor_lt.2 (by push_cast; linarith)
    rw [abs_lt]
    constructor <;> linarith

/-- **C111** the results of the operations are doubles: a finite value that was computed is a double -/
theorem C111_finite (v a : ℝ) (h : F64.of v = .fin a) : Dbl a := ((C111_rounding v _).2 h).2.1

/-- **C111** conversion of a Python int: exact up to `2^53`, else rounded; `ofIntPy` raises `OverflowError` instead of overflowing -/
theorem C111_int (n : ℤ) : Nearest n (F64.ofInt n) ∧ (|n| ≤ 2 ^ 53 → F64.ofInt n = .fin n) ∧
    (|(n : ℝ)| < overflow → F64.ofIntPy n = .ok (F64.ofInt n)) ∧ (overflow ≤ |(n : ℝ)| → F64.ofIntPy n = .error .overflow) := by
  have h := of_nearest n
  refine ⟨h, F64.ofInt_eq, fun hn => ?_, fun hn => ?_⟩
  · unfold F64.ofIntPy
    unfold F64.ofInt at *
    have hn := abs_lt.1 hn
    cases hr : F64.of n <;> rw [hr] at h <;> simp only
    · have h : overflow ≤ (n : ℝ) := h; linarith
    · have h : (n : ℝ) ≤ -overflow := h; linarith
    · exact h.elim
  · unfold F64.ofIntPy
    unfold F64.ofInt at *
    cases hr : F64.of n <;> rw [hr] at h <;> simp only
    have := h.1
    linarith

/-! ### Non-vacuity -/

/-- **C111** Python's power of finite numbers: what the C library returns, but an overflow raises `OverflowError` -/
theorem C111_pow (m : Libm) (x : ℝ) (n : ℤ) :
    (m.pow x n = .inf ∨ m.pow x n = .ninf → m.pyPow (.fin x) n = .error .overflow) ∧
    (¬ (m.pow x n = .inf ∨ m.pow x n = .ninf) → m.pyPow (.fin x) n = .ok (m.pow x n)) := by
  unfold Libm.pyPow
  cases h : m.pow x n <;> simp [h]

/-- **C111** `np.exp` of what is not finite: `exp(inf) = inf`, `exp(-inf) = 0`, NaN stays -/
theorem C111_exp (m : Libm) : m.npExp .inf = .inf ∧ m.npExp .ninf = .fin 0 ∧ m.npExp .nan = .nan ∧ ∀ x, m.npExp (.fin x) = m.exp x :=
  ⟨rfl, rfl, rfl, fun _ => rfl⟩

/-- **C111** `math.ceil`: the least integer not below a finite number, `OverflowError` for an infinity, `ValueError` for NaN -/
theorem C111_ceil (x : F64) :
    (x = .inf ∨ x = .ninf → x.ceil = .error .overflow) ∧ (x = .nan → x.ceil = .error .valueError) ∧
    ∀ v, x = .fin v → ∃ n : ℤ, x.ceil = .ok n ∧ v ≤ n ∧ ∀ k : ℤ, v ≤ k → n ≤ k := by
  refine ⟨by rintro (rfl | rfl) <;> rfl, by rintro rfl; rfl, ?_⟩
  rintro v rfl
  exact ⟨⌈v⌉, rfl, Int.le_ceil v, fun k h => Int.ceil_le.2 h⟩

/-- `0.1` is not a double, and rounds to the double it is known for -/
example : ¬ Dbl (1 / 10) ∧ F64.of (1 / 10) = .fin (3602879701896397 / 2 ^ 55) := by
  have hr : rnd (1 / 10) = (7205759403792794 : ℤ) * (2 : ℝ) ^ (-56 : ℤ) := by
    refine rnd_eval 7205759403792794 (-56) (by norm_num) ?_ ?_ ?_ ?_ <;> norm_num
  have h2 : F64.of (1 / 10) = .fin (3602879701896397 / 2 ^ 55) := by
    rw [F64.of_fin' (by rw [abs_of_nonneg] <;> norm_num), hr]
    norm_num
  refine ⟨fun h => ?_, h2⟩
  have := (C111_double h).symm.trans h2
  injection this with this
  norm_num at this

/-- a tie: `1 + 2^-53` lies between the doubles `1` and `1 + 2^-52` and rounds to `1` -/
example : F64.of (1 + 1 / 2 ^ 53) = .fin 1 := by
  have hu : ulp (1 + 1 / 2 ^ 53) = 2 ^ (-52 : ℤ) := by
    have h : Int.log 2 |(1 + 1 / 2 ^ 53 : ℝ)| = 0 := by
      have h0 : (1 + 1 / 2 ^ 53 : ℝ) ≠ 0 := by norm_num
      obtain ⟨h1, h2⟩ := log_bounds h0
      rw [abs_of_pos (by norm_num)] at h1 h2 ⊢
      have a : Int.log 2 (1 + 1 / 2 ^ 53 : ℝ) < 1 := (zpow_lt_zpow_iff_right₀ (by norm_num : (1 : ℝ) < 2)).1 (h1.trans_lt (by norm_num))
      have b : 0 < Int.log 2 (1 + 1 / 2 ^ 53 : ℝ) + 1 := (zpow_lt_zpow_iff_right₀ (by norm_num : (1 : ℝ) < 2)).1 (lt_trans (by norm_num) h2)
      omega
    unfold ulp; rw [h]; norm_num
  have hr : rnd (1 + 1 / 2 ^ 53) = 1 := by
    unfold rnd
    rw [hu]
    have e : (1 + 1 / 2 ^ 53 : ℝ) / 2 ^ (-52 : ℤ) = 2 ^ 52 + 1 / 2 := by norm_num
    have f : ⌊(2 ^ 52 + 1 / 2 : ℝ)⌋ = 2 ^ 52 := by rw [Int.floor_eq_iff]; norm_num
    have : rne (2 ^ 52 + 1 / 2 : ℝ) = 2 ^ 52 := by unfold rne; rw [f]; norm_num
    rw [e, this]; norm_num
  rw [F64.of_fin' (by rw [abs_of_nonneg] <;> norm_num), hr]

end S2wav
