import Verif.Lemmas.FloatBand
import Verif.Lemmas.Overshoot

/-! # The looped axisymmetric filters in double precision -/

namespace S2wav
open Classical

variable {m : Libm} {jm : JMax} {L J J_min : ℤ}

/-- entries of the looped axisymmetric filters computed from the entries `X` of `k_lam` -/
structure Loop64 (L J_min J : ℤ) (X p : ℤ → ℤ → ℝ) : Prop where
  eq : ∀ j l, J_min ≤ j → j ≤ J → 0 ≤ l → l < L → 0 ≤ rnd (X (j + 1) l - X j l) → p j l = psi64 (X (j + 1) l) (X j l)
  low : ∀ j l, j < J_min → p j l = 0
  carry : ∀ j l, J_min ≤ j → j ≤ J → 0 ≤ l → l < L → rnd (X (j + 1) l - X j l) < 0 → p j l = p j (l - 1)

/-- the looped axisymmetric filters in double precision -/
theorem filters_axisym64_ok {X : ℤ → ℤ → ℝ} (hJ : jm L 2 = .ok J) (hL : 1 ≤ L) (h0 : 0 ≤ J_min) (h1 : J_min < J) (hX : FloatK J L X)
    (hk : k_lam64 m jm L 2 300 = .ok (Arr2.of (J + 2) L fun j l => .fin (X j l))) :
    ∃ p, Loop64 L J_min J X p ∧ filters_axisym64 m jm L J_min 2 = .ok (Arr2.of (J + 1) L fun j l => .fin (p j l),
        Arr1.of L fun l => .fin (rnd (Real.sqrt (X J_min l)))) := by
  have hz : ∀ j, 0 ≤ j → j < J + 2 → X j 0 = 1 := fun j a b => (hX j 0 a b le_rfl (by omega)).2.2.1 (by push_cast; positivity)
  have hdiff : ∀ j l, 0 ≤ j → j < J + 1 → 0 ≤ l → l < L →
      (((F64.fin (X (j + 1) l)).sub (.fin (X j l))).isNeg ↔ rnd (X (j + 1) l - X j l) < 0) ∧
      (0 ≤ rnd (X (j + 1) l - X j l) → ((F64.fin (X (j + 1) l)).sub (.fin (X j l))).sqrt = .fin (psi64 (X (j + 1) l) (X j l))) := by
    intro j l a b c d
    have x0 := (hX (j + 1) l (by omega) (by omega) c d).1
    have x1 := hX.le_two (j := j + 1) (by omega) (by omega) c d
    have y0 := (hX j l (by omega) (by omega) c d).1
    have y1 := hX.le_two (j := j) (by omega) (by omega) c d
    have hd : |X (j + 1) l - X j l| ≤ 4 := by rw [abs_le]; constructor <;> linarith
    rw [F64.sub_fin, F64.of_fin' (hd.trans (by norm_num))]
    refine ⟨Iff.rfl, fun h => ?_⟩
    rw [sqrt64 h (by have := abs_le.1 (rnd_abs_le hd); linarith), psi64, max_eq_right h]
  unfold filters_axisym64
  simp only [hJ, Py.bind_ok]
  rw [if_neg (by omega), hk]
  simp only [Py.bind_ok, zeros2, zeros1]
  rw [if_neg (by omega), if_neg (by omega)]
  simp only [Py.bind_ok]
  rw [fill1_loop (f := fun l => F64.fin (rnd (Real.sqrt (X J_min l)))) (c0 := 0) (c1 := L) (n := L) _ le_rfl le_rfl]
  swap
  · intro a l h2 h3 h4
    rw [Arr2.get_ok _ h0 (by simp; omega) h2 (by simpa using h3), Py.bind_ok,
      Arr2.of_v _ _ _ _ _ ⟨h0, by omega, h2, h3⟩,
      sqrt64 (hX _ _ h0 (by omega) h2 h3).1 ((hX.le_two h0 (by omega) h2 h3).trans (by norm_num))]
  simp only [Py.bind_ok]
  -- the nested loop
  let d : ℤ → ℤ → ℝ := fun j l => rnd (X (j + 1) l - X j l)
  have key : ∃ st : Arr2 F64 × Option F64 × F64, (pyRange J_min (J + 1)).foldlM (init := ((Arr2.of (J + 1) L fun _ _ => (0 : F64)), (none : Option F64), (0 : F64)))
      (fun st j =>
      (pyRange 0 L).foldlM (init := st) fun (x : Arr2 F64 × Option F64 × F64) (l : ℤ) => do
        let x_1 ← (Arr2.of (J + 2) L fun j l => F64.fin (X j l)).get (j + 1) l
        let y ← (Arr2.of (J + 2) L fun j l => F64.fin (X j l)).get j l
        if (x_1.sub y).isNeg then do
          let psi ← x.1.set j l x.2.2
          match x.2.1 with
          | none => .error .unboundLocal
          | some t => .ok (psi, some t, t)
        else do
          let psi ← x.1.set j l (x_1.sub y).sqrt
          .ok (psi, some (x_1.sub y).sqrt, (x_1.sub y).sqrt)) = .ok st ∧ (∃ p : ℤ → ℤ → ℝ, st.1 = (Arr2.of (J + 1) L fun j l => F64.fin (p j l)) ∧
          (∀ i l, J_min ≤ i → i < J + 1 → 0 ≤ l → l < L → 0 ≤ d i l → p i l = psi64 (X (i + 1) l) (X i l)) ∧
          (∀ i l, i < J_min → p i l = 0) ∧
          (∀ i l, J_min ≤ i → i < J + 1 → 0 ≤ l → l < L → d i l < 0 → p i l = p i (l - 1))) := by
    refine range_loop (fun j (st : Arr2 F64 × Option F64 × F64) => ∃ p : ℤ → ℤ → ℝ, st.1 = (Arr2.of (J + 1) L fun j l => F64.fin (p j l)) ∧
        (∀ i l, J_min ≤ i → i < j → 0 ≤ l → l < L → 0 ≤ d i l → p i l = psi64 (X (i + 1) l) (X i l)) ∧
        (∀ i l, i < J_min → p i l = 0) ∧
        (∀ i l, J_min ≤ i → i < j → 0 ≤ l → l < L → d i l < 0 → p i l = p i (l - 1))) (by omega)
      ⟨fun _ _ => 0, rfl, fun i l _ _ => by omega, fun _ _ _ => rfl, fun i l _ _ => by omega⟩ ?_
    rintro j st hj0 hj1 ⟨p, hp, hp1, hp2, hp4⟩
    have inner := range_loop (fun l (st : Arr2 F64 × Option F64 × F64) =>
        ∃ p : ℤ → ℤ → ℝ, st.1 = (Arr2.of (J + 1) L fun j l => F64.fin (p j l)) ∧ (0 < l → st.2.1 = some (.fin (p j (l - 1))) ∧ st.2.2 = .fin (p j (l - 1))) ∧
        (∀ i l', J_min ≤ i → i < j → 0 ≤ l' → l' < L → 0 ≤ d i l' → p i l' = psi64 (X (i + 1) l') (X i l')) ∧
        (∀ l', 0 ≤ l' → l' < l → 0 ≤ d j l' → p j l' = psi64 (X (j + 1) l') (X j l')) ∧
        (∀ i l', i < J_min → p i l' = 0) ∧
        (∀ i l', J_min ≤ i → i < j → 0 ≤ l' → l' < L → d i l' < 0 → p i l' = p i (l' - 1)) ∧
        (∀ l', 0 ≤ l' → l' < l → d j l' < 0 → p j l' = p j (l' - 1))) (a := 0) (b := L) (s := st) (body := fun (x : Arr2 F64 × Option F64 × F64) (l : ℤ) => do
        let x_1 ← (Arr2.of (J + 2) L fun j l => F64.fin (X j l)).get (j + 1) l
        let y ← (Arr2.of (J + 2) L fun j l => F64.fin (X j l)).get j l
        if (x_1.sub y).isNeg then do
          let psi ← x.1.set j l x.2.2
          match x.2.1 with
          | none => .error .unboundLocal
          | some t => .ok (psi, some t, t)
        else do
          let psi ← x.1.set j l (x_1.sub y).sqrt
          .ok (psi, some (x_1.sub y).sqrt, (x_1.sub y).sqrt)) (by omega)
        ⟨p, hp, by omega, hp1, fun l' _ _ => by omega, hp2, hp4, fun l' _ _ => by omega⟩ ?_
    · obtain ⟨s', hs', p', q1, _, q2, q3, q4, q5, q6⟩ := inner
      refine ⟨s', hs', p', q1, fun i l hi0 hi1 hl0 hl1 hd => ?_, q4, fun i l hi0 hi1 hl0 hl1 hd => ?_⟩
      · rcases lt_or_eq_of_le (show i ≤ j by omega) with h | h
        · exact q2 i l hi0 h hl0 hl1 hd
        · subst h; exact q3 l hl0 hl1 hd
      · rcases lt_or_eq_of_le (show i ≤ j by omega) with h | h
        · exact q5 i l hi0 h hl0 hl1 hd
        · subst h; exact q6 l hl0 hl1 hd
    · rintro l ⟨psi, temp, prev⟩ hl0 hl1 ⟨p, hp, ht, hp1, hp3, hp2, hp4, hp5⟩
      simp only at ht hp
      subst hp
      have hx : (Arr2.of (J + 2) L fun j l => F64.fin (X j l)).get (j + 1) l = .ok (.fin (X (j + 1) l)) := by
        rw [Arr2.get_ok _ (by omega) (by simp; omega) hl0 (by simpa using hl1),
          Arr2.of_v _ _ _ _ _ ⟨by omega, by omega, hl0, hl1⟩]
      have hy : (Arr2.of (J + 2) L fun j l => F64.fin (X j l)).get j l = .ok (.fin (X j l)) := by
        rw [Arr2.get_ok _ (by omega) (by simp; omega) hl0 (by simpa using hl1),
          Arr2.of_v _ _ _ _ _ ⟨by omega, by omega, hl0, hl1⟩]
      have hset : ∀ x : ℝ, (Arr2.of (J + 1) L fun j l => F64.fin (p j l)).set j l (.fin x) = .ok (Arr2.of (J + 1) L fun i' j' =>
          .fin (if i' = j ∧ j' = l then x else p i' j')) := fun x => by
        rw [Arr2.set_ok _ _ (by omega) (by simp; omega) hl0 (by simpa using hl1)]
        congr 1
        refine Arr2.of_congr fun i' j' h0 h1 h2 h3 => ?_
        rw [Arr2.of_v (J + 1) L _ i' j' ⟨h0, h1, h2, h3⟩]; split_ifs <;> rfl
      simp only [hx, hy, Py.bind_ok]
      obtain ⟨hn1, hn2⟩ := hdiff j l (by omega) (by omega) hl0 hl1
      by_cases hneg : rnd (X (j + 1) l - X j l) < 0
      · rw [if_pos (hn1.2 hneg)]
        have hl : 0 < l := by
          rcases hl0.lt_or_eq with h | h
          · exact h
          · subst h
            rw [hz (j + 1) (by omega) (by omega), hz j (by omega) (by omega), sub_self, rnd_zero] at hneg
            exact absurd hneg (lt_irrefl _)
        obtain ⟨rfl, rfl⟩ := ht hl
        rw [hset]
        refine ⟨_, rfl, _, rfl, fun _ => ?_, fun i l' hi0 hi1 hl0' hl1' hd => ?_, fun l' hl0' hl1' hd => ?_,
          fun i l' hi => ?_, fun i l' hi0 hi1 hl0' hl1' hd => ?_, fun l' hl0' hl1' hd => ?_⟩
        · simp
        · simp only [if_neg (show ¬ (i = j ∧ l' = l) by omega)]
          exact hp1 i l' hi0 hi1 hl0' hl1' hd
        · have : l' ≠ l := by rintro rfl; exact absurd hd (not_le.2 hneg)
          rw [if_neg (by tauto)]
          exact hp3 l' hl0' (by omega) hd
        · simp only [if_neg (show ¬ (i = j ∧ l' = l) by omega)]
          exact hp2 i l' hi
        · simp only [if_neg (show ¬ (i = j ∧ l' = l) by omega), if_neg (show ¬ (i = j ∧ l' - 1 = l) by omega)]
          exact hp4 i l' hi0 hi1 hl0' hl1' hd
        · by_cases h : l' = l
          · subst h
            simp
          · rw [if_neg (show ¬ (j = j ∧ l' = l) by omega), if_neg (show ¬ (j = j ∧ l' - 1 = l) by omega)]
            exact hp5 l' hl0' (by omega) hd
      · rw [if_neg (fun h => hneg (hn1.1 h)), hn2 (not_lt.1 hneg), hset]
        refine ⟨_, rfl, _, rfl, fun _ => ?_, fun i l' hi0 hi1 hl0' hl1' hd => ?_, fun l' hl0' hl1' hd => ?_,
          fun i l' hi => ?_, fun i l' hi0 hi1 hl0' hl1' hd => ?_, fun l' hl0' hl1' hd => ?_⟩
        · simp
        · simp only [if_neg (show ¬ (i = j ∧ l' = l) by omega)]
          exact hp1 i l' hi0 hi1 hl0' hl1' hd
        · by_cases h : l' = l
          · subst h
            simp only [and_self, if_true]
          · rw [if_neg (by tauto)]
            exact hp3 l' hl0' (by omega) hd
        · simp only [if_neg (show ¬ (i = j ∧ l' = l) by omega)]
          exact hp2 i l' hi
        · simp only [if_neg (show ¬ (i = j ∧ l' = l) by omega), if_neg (show ¬ (i = j ∧ l' - 1 = l) by omega)]
          exact hp4 i l' hi0 hi1 hl0' hl1' hd
        · have : l' ≠ l := by rintro rfl; exact hneg hd
          rw [if_neg (show ¬ (j = j ∧ l' = l) by omega), if_neg (show ¬ (j = j ∧ l' - 1 = l) by omega)]
          exact hp5 l' hl0' (by omega) hd
  obtain ⟨st, hst, p, hp, hp1, hp2, hp3⟩ := key
  refine ⟨p, ⟨fun j l hj0 hj1 hl0 hl1 hd => hp1 j l hj0 (by omega) hl0 hl1 hd, hp2,
    fun j l hj0 hj1 hl0 hl1 hd => hp3 j l hj0 (by omega) hl0 hl1 hd⟩, ?_⟩
  refine (congrArg (fun z : Py (Arr2 F64 × Option F64 × F64) => z >>= fun st => Except.ok (st.1, Arr1.of L fun l =>
    if 0 ≤ l ∧ l < L then F64.fin (rnd (Real.sqrt (X J_min l))) else 0)) hst).trans ?_
  simp only [Py.bind_ok, hp]
  congr 2
  exact Arr1.of_congr fun l h2 h3 => by rw [if_pos ⟨h2, h3⟩]

/-- a negative difference: the degree lies in the band of the scale, where the entry exceeds 1 -/
theorem FloatK.diff_neg {X : ℤ → ℤ → ℝ} (hX : FloatK J L X) {j l : ℤ} (hj0 : 0 ≤ j) (hj1 : j ≤ J) (hl0 : 0 ≤ l) (hl1 : l < L)
    (h : rnd (X (j + 1) l - X j l) < 0) : (2 : ℝ) ^ (j - 1) < l ∧ (l : ℝ) < 2 ^ j ∧ 1 < X j l := by
  have hlt : X (j + 1) l < X j l := by
    by_contra hc
    exact absurd (rnd_nonneg (sub_nonneg.2 (not_lt.1 hc))) (not_le.2 h)
  obtain ⟨x0, x1, x2, x3⟩ := hX j l hj0 (by omega) hl0 hl1
  obtain ⟨y0, y1, y2, y3⟩ := hX (j + 1) l (by omega) (by omega) hl0 hl1
  rw [add_sub_cancel_right] at y2
  have h2 : (l : ℝ) < 2 ^ j := by
    by_contra hc
    rw [x3 (not_lt.1 hc)] at hlt
    linarith
  have h1 := y2 h2.le
  refine ⟨?_, h2, by linarith⟩
  by_contra hc
  rw [x2 (not_lt.1 hc)] at hlt
  linarith

theorem Loop64.small {X p : ℤ → ℤ → ℝ} (hX : FloatK J L X) (hp : Loop64 L J_min J X p) (h0 : 0 ≤ J_min) {j l : ℤ} (hj0 : J_min ≤ j)
    (hj1 : j ≤ J) (hl0 : 0 ≤ l) (hl1 : l < L) (h : rnd (X (j + 1) l - X j l) < 0) (l0 : ℕ) (hl : (l0 : ℤ) ≤ l) :
    p j l0 ^ 2 ≤ 1 / 1000 + 1 / 2 ^ 30 := by
  obtain ⟨a1, a2, a3⟩ := hX.diff_neg (by omega) hj1 hl0 hl1 h
  induction l0 with
  | zero =>
    have hz : ∀ i, 0 ≤ i → i < J + 2 → X i ((0 : ℕ) : ℤ) = 1 := fun i a b => (hX i _ a b (by simp) (by omega)).2.2.1 (by push_cast; positivity)
    have e : X (j + 1) ((0 : ℕ) : ℤ) - X j ((0 : ℕ) : ℤ) = 0 := by rw [hz _ (by omega) (by omega), hz _ (by omega) (by omega), sub_self]
    rw [hp.eq j _ hj0 hj1 (by simp) (by omega) (by rw [e, rnd_zero]), hz _ (by omega) (by omega), hz _ (by omega) (by omega), psi64_self]
    norm_num
  | succ l0 ih =>
    have hle : (((l0 + 1 : ℕ) : ℤ) : ℝ) ≤ l := by exact_mod_cast hl
    obtain ⟨x0, x1, x2, x3⟩ := hX j ((l0 + 1 : ℕ) : ℤ) (by omega) (by omega) (by omega) (by omega)
    have y1 : X (j + 1) ((l0 + 1 : ℕ) : ℤ) = 1 := (hX (j + 1) _ (by omega) (by omega) (by omega) (by omega)).2.2.1 (by
      rw [add_sub_cancel_right]; linarith)
    rcases le_or_gt 0 (rnd (X (j + 1) ((l0 + 1 : ℕ) : ℤ) - X j ((l0 + 1 : ℕ) : ℤ))) with hd | hd
    · rw [hp.eq j _ hj0 hj1 (by omega) (by omega) hd, y1]
      have key : 1 - X j ((l0 + 1 : ℕ) : ℤ) ≤ 1 / 1000 + 1 / 2 ^ 32 := by
        rcases le_or_gt (((l0 + 1 : ℕ) : ℤ) : ℝ) (2 ^ (j - 1)) with hb | hb
        · rw [x2 hb]; norm_num
        · have b0 := band_point (lam := 2) (by norm_num) hb (hle.trans_lt a2)
          have b1 := band_point (lam := 2) (by norm_num) a1 a2
          have c1 := (abs_le.1 x1).1
          have c2 := (abs_le.1 (hX j l (by omega) (by omega) hl0 hl1).2.1).2
          rw [kval_band hb (hle.trans_lt a2)] at c1
          rw [kval_band a1 a2] at c2
          have hr : (((l0 + 1 : ℕ) : ℤ) : ℝ) / 2 ^ j ≤ l / 2 ^ j := div_le_div_of_nonneg_right hle (zpow_pos' (by norm_num) j).le
          have c3 : 1 - 1 / 2 ^ 33 < quad 2 300 (l / 2 ^ j) / quad 2 300 (1 / 2) := by norm_num at c2 a3 ⊢; linarith
          have := quad_ratio_prev' (n := 300) (e := 1 / 2 ^ 33) (by norm_num) b0.1.le hr b1.2 le_rfl (by exact_mod_cast c3)
          norm_num at this c1 ⊢
          linarith
      rcases le_total (X j ((l0 + 1 : ℕ) : ℤ)) 1 with hc | hc
      · have := abs_le.1 (psi64_sq hc (by linarith))
        norm_num at this key ⊢
        linarith
      · rw [psi64_neg hc]; norm_num
    · rw [hp.carry j _ hj0 hj1 (by omega) (by omega) hd]
      have : ((l0 + 1 : ℕ) : ℤ) - 1 = l0 := by push_cast; ring
      rw [this]
      exact ih (by omega)

/-- the energy of the looped filters at one degree lies between the vectorised one and that plus `1/1000 + 2^-30` -/
theorem Loop64.energy {X p : ℤ → ℤ → ℝ} (hX : FloatK J L X) (hp : Loop64 L J_min J X p) (h0 : 0 ≤ J_min) {l : ℤ} (hl0 : 0 ≤ l) (hl1 : l < L) :
    ∑ j ∈ Finset.Icc J_min J, psi64 (X (j + 1) l) (X j l) ^ 2 ≤ ∑ j ∈ Finset.Icc J_min J, p j l ^ 2 ∧
    ∑ j ∈ Finset.Icc J_min J, p j l ^ 2 ≤ (∑ j ∈ Finset.Icc J_min J, psi64 (X (j + 1) l) (X j l) ^ 2) + (1 / 1000 + 1 / 2 ^ 30) := by
  have hneg : ∀ j, rnd (X (j + 1) l - X j l) < 0 → psi64 (X (j + 1) l) (X j l) = 0 := fun j h => by
    unfold psi64; rw [max_eq_left h.le, Real.sqrt_zero, rnd_zero]
  constructor
  · refine Finset.sum_le_sum fun j hj => ?_
    rw [Finset.mem_Icc] at hj
    rcases le_or_gt 0 (rnd (X (j + 1) l - X j l)) with hd | hd
    · rw [hp.eq j l hj.1 hj.2 hl0 hl1 hd]
    · rw [hneg j hd]; norm_num; positivity
  · by_cases hex : ∃ j0, J_min ≤ j0 ∧ j0 ≤ J ∧ rnd (X (j0 + 1) l - X j0 l) < 0
    · obtain ⟨j0, g0, g1, g2⟩ := hex
      have huniq : ∀ j, J_min ≤ j → j ≤ J → rnd (X (j + 1) l - X j l) < 0 → j = j0 := by
        intro j q0 q1 q2
        obtain ⟨a1, a2, _⟩ := hX.diff_neg (by omega) g1 hl0 hl1 g2
        obtain ⟨b1, b2, _⟩ := hX.diff_neg (by omega) q1 hl0 hl1 q2
        by_contra hne
        rcases lt_or_gt_of_ne hne with h | h
        · have := zpow_mono' (lam := 2) (by norm_num) (show j ≤ j0 - 1 by omega)
          linarith
        · have := zpow_mono' (lam := 2) (by norm_num) (show j0 ≤ j - 1 by omega)
          linarith
      have hs : ∑ j ∈ Finset.Icc J_min J, p j l ^ 2 ≤
          ∑ j ∈ Finset.Icc J_min J, (psi64 (X (j + 1) l) (X j l) ^ 2 + if j = j0 then (1 / 1000 + 1 / 2 ^ 30 : ℝ) else 0) := by
        refine Finset.sum_le_sum fun j hj => ?_
        rw [Finset.mem_Icc] at hj
        rcases le_or_gt 0 (rnd (X (j + 1) l - X j l)) with hd | hd
        · rw [hp.eq j l hj.1 hj.2 hl0 hl1 hd]
          split_ifs <;> norm_num
        · rw [if_pos (huniq j hj.1 hj.2 hd), hneg j hd]
          have := hp.small hX h0 hj.1 hj.2 hl0 hl1 hd l.toNat (by omega)
          have e : ((l.toNat : ℕ) : ℤ) = l := by omega
          rw [e] at this
          linarith
      refine hs.trans (le_of_eq ?_)
      rw [Finset.sum_add_distrib, Finset.sum_ite_eq', if_pos (by rw [Finset.mem_Icc]; exact ⟨g0, g1⟩)]
    · push Not at hex
      have hs : ∑ j ∈ Finset.Icc J_min J, p j l ^ 2 = ∑ j ∈ Finset.Icc J_min J, psi64 (X (j + 1) l) (X j l) ^ 2 := by
        refine Finset.sum_congr rfl fun j hj => ?_
        rw [Finset.mem_Icc] at hj
        rw [hp.eq j l hj.1 hj.2 hl0 hl1 (hex j hj.1 hj.2)]
      rw [hs]
      exact le_add_of_nonneg_right (by positivity)

end S2wav
