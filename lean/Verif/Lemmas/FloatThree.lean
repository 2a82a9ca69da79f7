import Verif.Lemmas.FloatCert

/-! # The abscissae of the trapezium rule for `lam = 3`

In double precision the last abscissa can exceed 1 when the lower limit `l / 3^j` is below 1/2. It does not for `l ≤ 793`; the finitely
many cases are evaluated in integer arithmetic. -/

namespace S2wav
open Classical

/-- the integer nearest to `n / d`, ties to even -/
def rneN (n d : ℕ) : ℕ :=
  if 2 * (n % d) < d then n / d else if d < 2 * (n % d) then n / d + 1 else if n / d % 2 = 0 then n / d else n / d + 1

theorem rne_nat {n d : ℕ} (hd : 0 < d) : rne ((n : ℝ) / d) = rneN n d := by
  have hd' : (0 : ℝ) < d := by exact_mod_cast hd
  have e0 : (n : ℝ) = d * (n / d : ℕ) + (n % d : ℕ) := by exact_mod_cast (Nat.div_add_mod n d).symm
  have hr : ((n % d : ℕ) : ℝ) < d := by exact_mod_cast Nat.mod_lt n hd
  unfold rneN
  generalize n / d = q at e0 ⊢
  generalize n % d = r at e0 hr ⊢
  have hr0 : (0 : ℝ) ≤ r := by positivity
  have hx : (n : ℝ) / d = q + r / d := by rw [e0]; field_simp
  have hf : ⌊(n : ℝ) / d⌋ = (q : ℤ) := by
    rw [Int.floor_eq_iff, hx, Int.cast_natCast]
    have h1 : (0 : ℝ) ≤ r / d := by positivity
    have h2 : (r : ℝ) / d < 1 := by rwa [div_lt_one hd']
    exact ⟨by linarith, by linarith⟩
  have hfr : (n : ℝ) / d - ((q : ℤ) : ℝ) = r / d := by rw [hx, Int.cast_natCast]; ring
  have c1 : (r : ℝ) / d < 1 / 2 ↔ 2 * r < d := by
    rw [div_lt_iff₀ hd']
    constructor
    · intro h; have : (2 : ℝ) * r < d := by linarith
      exact_mod_cast this
    · intro h; have : (2 : ℝ) * r < d := by exact_mod_cast h
      linarith
  have c2 : 1 / 2 < (r : ℝ) / d ↔ d < 2 * r := by
    rw [lt_div_iff₀ hd']
    constructor
    · intro h; have : (d : ℝ) < 2 * r := by linarith
      exact_mod_cast this
    · intro h; have : (d : ℝ) < 2 * r := by exact_mod_cast h
      linarith
  have c3 : (q : ℤ) % 2 = 0 ↔ q % 2 = 0 := by omega
  unfold rne
  rw [hf, hfr]
  simp only [c1, c2, c3]
  split_ifs <;> push_cast <;> rfl

/-- rounding of a quotient of naturals, in units of the last place -/
theorem rnd_nat {x : ℝ} {n d : ℕ} {e : ℤ} (hd : 0 < d) (he : -1074 ≤ e) (hx : x = n / d * (2 : ℝ) ^ e) (h1 : 2 ^ 52 * d ≤ n)
    (h2 : n < 2 ^ 53 * d) : rnd x = rneN n d * (2 : ℝ) ^ e := by
  have hp := two_zpow_pos e
  have hd' : (0 : ℝ) < d := by exact_mod_cast hd
  have h1' : (2 : ℝ) ^ 52 ≤ n / d := by rw [le_div_iff₀ hd']; exact_mod_cast h1
  have h2' : (n : ℝ) / d < 2 ^ 53 := by rw [div_lt_iff₀ hd']; exact_mod_cast h2
  have hx1 : 2 ^ 52 * (2 : ℝ) ^ e ≤ x := by rw [hx]; gcongr
  have hx2 : x < 2 ^ 53 * (2 : ℝ) ^ e := by rw [hx]; gcongr
  have hx0 : 0 < x := lt_of_lt_of_le (by positivity) hx1
  have hlo : e + 52 ≤ Int.log 2 |x| := by
    refine (Int.zpow_le_iff_le_log (by norm_num) (abs_pos.2 hx0.ne')).1 ?_
    push_cast
    rw [abs_of_pos hx0, zpow_split]
    norm_num at hx1 ⊢
    linarith
  have hhi : Int.log 2 |x| < e + 53 := by
    refine (Int.lt_zpow_iff_log_lt (by norm_num) (abs_pos.2 hx0.ne')).1 ?_
    push_cast
    rw [abs_of_pos hx0, zpow_split]
    norm_num at hx2 ⊢
    linarith
  have hu : ulp x = 2 ^ e := by
    unfold ulp
    rw [max_eq_left (by omega), show Int.log 2 |x| - 52 = e by omega]
  unfold rnd
  rw [hu, hx, mul_div_assoc, div_self hp.ne', mul_one, rne_nat hd]
  push_cast
  rfl

/-- the last abscissa for the lower limit `l / q` in `[1/3, 1/2)`, in units of `2^-54` -/
def lastOk (l q : ℕ) : Bool :=
  let A := rneN (l * 2 ^ 54) q
  let D := rneN (2 ^ 54 - A) 2
  let H := if D < 300 * 2 ^ 44 then rneN (D * 2 ^ 9) 300 else rneN (D * 2 ^ 8) 300
  let s := if D < 300 * 2 ^ 44 then 2 ^ 9 else 2 ^ 8
  decide (2 ^ 52 ≤ A ∧ A ≤ 2 ^ 53 ∧ 2 ^ 52 ≤ D ∧ D ≤ 3 * 2 ^ 51 ∧ 2 ^ 52 * s ≤ 300 * H ∧ 300 * H < 2 ^ 53 * s ∧
    A + 2 * rneN (300 * H) s ≤ 2 ^ 54 + 2)

theorem last_table : ∀ q ∈ [3, 9, 27, 81, 243, 729, 2187], ∀ l < 794, q ≤ 3 * l → 2 * l < q → lastOk l q = true := by
  decide +kernel

theorem last_le {l q : ℕ} (hq : 0 < q) (h1 : q ≤ 3 * l) (h2 : 2 * l < q) (h : lastOk l q = true) :
    rnd (rnd ((l : ℝ) / q) + rnd (300 * rnd (rnd (1 - rnd ((l : ℝ) / q)) / 300))) ≤ 1 := by
  unfold lastOk at h
  simp only at h
  set A := rneN (l * 2 ^ 54) q with hA
  set D := rneN (2 ^ 54 - A) 2 with hD
  have hq' : (0 : ℝ) < q := by exact_mod_cast hq
  have e1 : rnd ((l : ℝ) / q) = A * (2 : ℝ) ^ (-54 : ℤ) := by
    refine rnd_nat hq (by norm_num) ?_ (by omega) (by omega)
    push_cast
    rw [mul_div_right_comm, mul_assoc]
    norm_num
  have e2 : ∀ hA2 : A ≤ 2 ^ 53, 2 ^ 52 ≤ A → rnd (1 - A * (2 : ℝ) ^ (-54 : ℤ)) = D * (2 : ℝ) ^ (-53 : ℤ) := fun hA2 hA1 => by
    refine rnd_nat (n := 2 ^ 54 - A) (d := 2) (by norm_num) (by norm_num) ?_ (by omega) (by omega)
    rw [Nat.cast_sub (by omega)]
    push_cast
    norm_num
    ring
  have key : ∀ (s H : ℕ) (t : ℤ), 0 < s → -1000 ≤ t → (s : ℝ) * (2 : ℝ) ^ t = 2 ^ (-53 : ℤ) → H = rneN (D * s) 300 → 2 ^ 52 * 300 ≤ D * s → D * s < 2 ^ 53 * 300 →
      2 ^ 52 * s ≤ 300 * H → 300 * H < 2 ^ 53 * s → rnd (300 * rnd (D * (2 : ℝ) ^ (-53 : ℤ) / 300)) = rneN (300 * H) s * (2 : ℝ) ^ (-53 : ℤ) := by
    intro s H t hs ht hst hH a b c d
    have hs' : (0 : ℝ) < s := by exact_mod_cast hs
    have f1 : rnd (D * (2 : ℝ) ^ (-53 : ℤ) / 300) = H * (2 : ℝ) ^ t := by
      rw [hH]
      refine rnd_nat (n := D * s) (d := 300) (by norm_num) (by omega) ?_ a b
      rw [← hst]; push_cast; ring
    rw [f1]
    refine rnd_nat hs (by norm_num) ?_ c d
    rw [← hst]; push_cast; field_simp
  split_ifs at h with hc
  · obtain ⟨a1, a2, a3, a4, a5, a6, a7⟩ := of_decide_eq_true h
    rw [e1, e2 a2 a1, key (2 ^ 9) _ (-62) (by norm_num) (by norm_num) (by norm_num) rfl (by omega) (by omega) a5 a6]
    refine rnd_le_one ?_
    have : ((A : ℝ) + 2 * (rneN (300 * rneN (D * 2 ^ 9) 300) (2 ^ 9) : ℕ)) ≤ 2 ^ 54 + 2 := by exact_mod_cast a7
    norm_num at this ⊢
    linarith
  · obtain ⟨a1, a2, a3, a4, a5, a6, a7⟩ := of_decide_eq_true h
    rw [e1, e2 a2 a1, key (2 ^ 8) _ (-61) (by norm_num) (by norm_num) (by norm_num) rfl (by omega) (by omega) a5 a6]
    refine rnd_le_one ?_
    have : ((A : ℝ) + 2 * (rneN (300 * rneN (D * 2 ^ 8) 300) (2 ^ 8) : ℕ)) ≤ 2 ^ 54 + 2 := by exact_mod_cast a7
    norm_num at this ⊢
    linarith

/-- step and abscissae in double precision -/
noncomputable def step3 (a : ℝ) : ℝ := rnd (rnd (1 - a) / 300)
noncomputable def node3 (a : ℝ) (i : ℤ) : ℝ := rnd (a + rnd (i * step3 a))

/-- `a` is the double computed for the lower limit `a0`, which is 1/3 or somewhat larger, and the abscissae do not exceed 1 -/
structure Low3 (a0 a : ℝ) : Prop where
  rep : Rep a
  near : |a - a0| ≤ 1 / 2 ^ 53
  edge : a0 = 1 / 3 ∧ a = rnd (1 / 3) ∨ 1 / 3 + 1 / 6561 ≤ a0
  top : a0 ≤ 1 - 1 / 2187
  last : node3 a 300 ≤ 1

theorem low3 {l j : ℕ} (hj : j ≤ 7) (hl : l ≤ 793) (h1 : (3 ^ j : ℕ) ≤ 3 * l) (h2 : l < 3 ^ j) : Low3 ((l : ℝ) / 3 ^ j) (rnd ((l : ℝ) / 3 ^ j)) := by
  have hq : (0 : ℝ) < 3 ^ j := by positivity
  have hq7 : (3 : ℝ) ^ j ≤ 2187 := by
    calc (3 : ℝ) ^ j ≤ 3 ^ 7 := by gcongr; norm_num
      _ = 2187 := by norm_num
  have hlq : (l : ℝ) + 1 ≤ 3 ^ j := by exact_mod_cast h2
  have hql : (3 : ℝ) ^ j ≤ 3 * l := by exact_mod_cast h1
  have ha1 : (l : ℝ) / 3 ^ j ≤ 1 - 1 / 2187 := by
    rw [div_le_iff₀ hq]; nlinarith
  have ha0 : 1 / 3 ≤ (l : ℝ) / 3 ^ j := by rw [le_div_iff₀ hq]; linarith
  have hnear : |rnd ((l : ℝ) / 3 ^ j) - (l : ℝ) / 3 ^ j| ≤ 1 / 2 ^ 53 := by
    have := rnd_acc' ((l : ℝ) / 3 ^ j)
    rw [abs_of_nonneg (by linarith : 0 ≤ (l : ℝ) / 3 ^ j)] at this
    refine this.trans ?_
    norm_num at ha1 ⊢; linarith
  refine ⟨rep_rnd _, hnear, ?_, ha1, ?_⟩
  · rcases Nat.eq_or_lt_of_le h1 with h | h
    · left
      have : (l : ℝ) / 3 ^ j = 1 / 3 := by
        rw [div_eq_iff hq.ne']
        have : (3 : ℝ) ^ j = 3 * l := by exact_mod_cast h
        linarith
      rw [this]; exact ⟨rfl, rfl⟩
    · right
      have : (3 : ℝ) ^ j + 1 ≤ 3 * l := by exact_mod_cast h
      rw [le_div_iff₀ hq]; nlinarith
  · have hodd : ¬ 2 * l = 3 ^ j := by
      intro h
      have : 3 ^ j % 2 = 1 := by rw [Nat.pow_mod]; norm_num
      omega
    rcases Nat.lt_or_ge (2 * l) (3 ^ j) with h | h
    · have hm : 3 ^ j ∈ [3, 9, 27, 81, 243, 729, 2187] := by
        have : j ≠ 0 := by rintro rfl; simp at h1 h2; omega
        interval_cases j <;> simp_all
      have := last_le (q := 3 ^ j) (by positivity) h1 h (last_table _ hm l (by omega) h1 h)
      push_cast at this
      unfold node3 step3
      push_cast
      exact this
    · have hl2 : (3 : ℝ) ^ j + 1 ≤ 2 * l := by exact_mod_cast (by omega : 3 ^ j + 1 ≤ 2 * l)
      set a := rnd ((l : ℝ) / 3 ^ j) with ha
      have h12 : 1 / 2 ≤ a := by
        refine le_rnd rep_half ?_
        rw [le_div_iff₀ hq]; linarith
      have ha2 : a < 1 := by have := abs_le.1 hnear; norm_num at this ha1 ⊢; linarith
      have := (node_acc (n := 300) (i := 300) (rep_rnd _) h12 ha2 (by norm_num) (by norm_num) (by norm_num) le_rfl).2.2.1
      unfold node3 step3
      rw [rnd_id (one_sub_rep (rep_rnd _) h12 ha2).1]
      unfold nodeF stepF at this
      push_cast at this ⊢
      exact this

theorem low3_third : Low3 (1 / 3) (rnd (1 / 3)) := by
  have := low3 (l := 1) (j := 1) (by norm_num) (by norm_num) (by norm_num) (by norm_num)
  norm_num at this ⊢
  exact this

section
variable {a0 a : ℝ} (h : Low3 a0 a)
include h

theorem Low3.ge : 1 / 3 ≤ a0 := by rcases h.edge with ⟨h, -⟩ | h <;> linarith

theorem Low3.acc {i : ℤ} (hi0 : 0 ≤ i) (hi1 : i ≤ 300) :
    Rep (node3 a i) ∧ a ≤ node3 a i ∧ node3 a i ≤ 1 ∧ |node3 a i - (a0 + i * ((1 - a0) / (300 : ℤ)))| ≤ 1 / 2 ^ 50 ∧
      0 ≤ step3 a ∧ step3 a ≤ 1 / 400 ∧ |step3 a - (1 - a0) / (300 : ℤ)| ≤ 1 / 2 ^ 60 := by
  have hge := h.ge
  have htop := h.top
  have hn := abs_le.1 h.near
  have hlast := h.last
  have hrep := h.rep
  have hi0' : (0 : ℝ) ≤ i := by exact_mod_cast hi0
  have hi1' : (i : ℝ) ≤ 300 := by exact_mod_cast hi1
  have d1 := abs_le.1 (rnd_acc' (1 - a))
  rw [abs_of_nonneg (by norm_num at hn htop ⊢; linarith : 0 ≤ 1 - a)] at d1
  set d := rnd (1 - a) with hd
  have hd0 : 0 ≤ d := rnd_nonneg (by norm_num at hn htop ⊢; linarith)
  have hd2 : d ≤ 2 / 3 + 1 / 2 ^ 51 := by norm_num at hn htop d1 ⊢; linarith
  have s1 := abs_le.1 (rnd_acc' (d / 300))
  rw [abs_of_nonneg (by linarith : 0 ≤ d / 300)] at s1
  have hs : step3 a = rnd (d / 300) := rfl
  rw [← hs] at s1
  set H := (1 - a0) / ((300 : ℤ) : ℝ) with hH
  have hH' : H = (1 - a0) / 300 := by rw [hH]; norm_num
  have hs0 : 0 ≤ step3 a := rnd_nonneg (by linarith)
  have sH : |step3 a - H| ≤ 1 / 2 ^ 60 := by
    rw [hH', abs_le]; norm_num at s1 d1 hn hd2 ⊢; constructor <;> linarith
  have hs1 : step3 a ≤ 1 / 400 := by norm_num at s1 hd2 ⊢; linarith
  -- the product
  have hi : |i * (step3 a - d / 300)| ≤ 1 / 2 ^ 53 := by
    rw [abs_mul, abs_of_nonneg hi0']
    have : |step3 a - d / 300| ≤ d / 300 / 2 ^ 53 + 1 / 2 ^ 110 := abs_le.2 s1
    calc i * |step3 a - d / 300| ≤ 300 * (d / 300 / 2 ^ 53 + 1 / 2 ^ 110) := by gcongr
      _ ≤ 1 / 2 ^ 53 := by norm_num at hd2 ⊢; linarith
  have hθ0 : 0 ≤ (i : ℝ) / 300 := by positivity
  have hθ1 : (i : ℝ) / 300 ≤ 1 := by linarith
  have hdd : |d - (1 - a0)| ≤ 2 / 2 ^ 53 := by rw [abs_le]; norm_num at d1 hn ⊢; constructor <;> linarith
  have hip : |i * step3 a - i * H| ≤ 3 / 2 ^ 53 := by
    have e : i * step3 a - i * H = i * (step3 a - d / 300) + i / 300 * (d - (1 - a0)) := by rw [hH']; ring
    rw [e]
    refine (abs_add_le _ _).trans ?_
    rw [abs_mul (i / 300 : ℝ), abs_of_nonneg hθ0]
    have : (i : ℝ) / 300 * |d - (1 - a0)| ≤ 1 * (2 / 2 ^ 53) := by gcongr
    norm_num at this hi ⊢
    linarith
  have hiH : i * H ≤ 1 - a0 := by rw [hH']; nlinarith
  have hiH0 : 0 ≤ i * H := mul_nonneg hi0' (by rw [hH']; linarith)
  have hp0 : 0 ≤ i * step3 a := by positivity
  have hip' := abs_le.1 hip
  have p1 := abs_le.1 (rnd_acc' (i * step3 a))
  rw [abs_of_nonneg hp0] at p1
  have hr0 := rnd_nonneg hp0
  have hx := abs_le.1 (rnd_acc' (a + rnd (i * step3 a)))
  have ha0 : 0 ≤ a := by norm_num at hn ⊢; linarith
  rw [abs_of_nonneg (by linarith : 0 ≤ a + rnd (i * step3 a))] at hx
  have hacc : |node3 a i - (a0 + i * H)| ≤ 1 / 2 ^ 50 := by
    unfold node3
    rw [abs_le]
    norm_num at hx p1 hip' hn hiH ⊢
    constructor <;> linarith
  refine ⟨rep_rnd _, le_rnd hrep (by linarith), ?_, hacc, hs0, hs1, sH⟩
  rcases eq_or_lt_of_le hi1 with rfl | hi2
  · exact hlast
  · have h299 : (i : ℝ) ≤ 299 := by exact_mod_cast (by omega : i ≤ 299)
    have : i * H ≤ 1 - a0 - 1 / 2187 / 300 := by rw [hH']; nlinarith
    have := abs_le.1 hacc
    norm_num at this ⊢
    linarith

end
end S2wav
