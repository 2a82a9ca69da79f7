import Verif.Lemmas.FloatFilters
import Verif.Lemmas.FloatLoopDir

/-! # The looped filters in double precision with any `lam` for which `k_lam` is accurate

The counterpart of `Lemmas/FloatLooped` and `Lemmas/FloatLoopDir`, which treat `lam = 2`. Used in C130. -/

namespace S2wav
namespace Gen
open Classical

variable {m : Libm} {lg : F64 → F64} {jm : JMax} {lam : ℝ} [hlf : Fact (1 < lam)] {L N J J_min : ℤ} {X p : ℤ → ℤ → ℝ}

/-- entries of the looped axisymmetric filters computed from the entries `X` of `k_lam` -/
structure Loop64 (L J_min J : ℤ) (X p : ℤ → ℤ → ℝ) : Prop where
  eq : ∀ j l, J_min ≤ j → j ≤ J → 0 ≤ l → l < L → 0 ≤ rnd (X (j + 1) l - X j l) → p j l = psi64 (X (j + 1) l) (X j l)
  low : ∀ j l, j < J_min → p j l = 0
  carry : ∀ j l, J_min ≤ j → j ≤ J → 0 ≤ l → l < L → rnd (X (j + 1) l - X j l) < 0 → p j l = p j (l - 1)

include hlf in
/-- the looped axisymmetric filters in double precision -/
theorem filters_axisym64_ok {X : ℤ → ℤ → ℝ} (hJ : jm L lam = .ok J) (hL : 1 ≤ L) (h0 : 0 ≤ J_min) (h1 : J_min < J) (hX : FloatK lam J L X)
    (hk : k_lam64 m jm L lam 300 = .ok (Arr2.of (J + 2) L fun j l => .fin (X j l))) :
    ∃ p, Loop64 L J_min J X p ∧ filters_axisym64 m jm L J_min lam = .ok (Arr2.of (J + 1) L fun j l => .fin (p j l),
        Arr1.of L fun l => .fin (rnd (Real.sqrt (X J_min l)))) := by
  have hz : ∀ j, 0 ≤ j → j < J + 2 → X j 0 = 1 := fun j a b => (hX j 0 a b le_rfl (by omega)).2.2.1 (by push_cast; exact (zpow_pos (one_pos.trans hlf.out) _).le)
  have hdiff : ∀ j l, 0 ≤ j → j < J + 1 → 0 ≤ l → l < L →
      (((F64.fin (X (j + 1) l)).sub (.fin (X j l))).isNeg ↔ rnd (X (j + 1) l - X j l) < 0) ∧
      (0 ≤ rnd (X (j + 1) l - X j l) → ((F64.fin (X (j + 1) l)).sub (.fin (X j l))).sqrt = .fin (psi64 (X (j + 1) l) (X j l))) := by
    intro j l a b c d
    have x0 := (hX (j + 1) l (by omega) (by omega) c d).1
    have x1 := hX.le_two (j := j + 1) (by omega) (by omega) c d
    have y0 := (hX j l (by omega) (by omega) c d).1
    have y1 := hX.le_two (j := j) (by omega) (by omega) c d
    have hd : |X (j + 1) l - X j l| ≤ 4 := by rw [abs_le]; constructor <;> linarith
    rw [F64.sub_fin, F64.of_fin' (hd.trans (by norm_num))]
    refine ⟨Iff.rfl, fun h => ?_⟩
    rw [sqrt64 h (by have := abs_le.1 (rnd_abs_le hd); linarith), psi64, max_eq_right h]
  unfold filters_axisym64
  simp only [hJ, Py.bind_ok]
  rw [if_neg (by omega), hk]
  simp only [Py.bind_ok, zeros2, zeros1]
  rw [if_neg (by omega), if_neg (by omega)]
  simp only [Py.bind_ok]
  rw [fill1_loop (f := fun l => F64.fin (rnd (Real.sqrt (X J_min l)))) (c0 := 0) (c1 := L) (n := L) _ le_rfl le_rfl]
  swap
  · intro a l h2 h3 h4
    rw [Arr2.get_ok _ h0 (by simp; omega) h2 (by simpa using h3), Py.bind_ok,
      Arr2.of_v _ _ _ _ _ ⟨h0, by omega, h2, h3⟩,
      sqrt64 (hX _ _ h0 (by omega) h2 h3).1 ((hX.le_two h0 (by omega) h2 h3).trans (by norm_num))]
  simp only [Py.bind_ok]
  -- the nested loop
  let d : ℤ → ℤ → ℝ := fun j l => rnd (X (j + 1) l - X j l)
  have key : ∃ st : Arr2 F64 × Option F64 × F64, (pyRange J_min (J + 1)).foldlM (init := ((Arr2.of (J + 1) L fun _ _ => (0 : F64)), (none : Option F64), (0 : F64)))
      (fun st j =>
      (pyRange 0 L).foldlM (init := st) fun (x : Arr2 F64 × Option F64 × F64) (l : ℤ) => do
        let x_1 ← (Arr2.of (J + 2) L fun j l => F64.fin (X j l)).get (j + 1) l
        let y ← (Arr2.of (J + 2) L fun j l => F64.fin (X j l)).get j l
        if (x_1.sub y).isNeg then do
          let psi ← x.1.set j l x.2.2
          match x.2.1 with
          | none => .error .unboundLocal
          | some t => .ok (psi, some t, t)
        else do
          let psi ← x.1.set j l (x_1.sub y).sqrt
          .ok (psi, some (x_1.sub y).sqrt, (x_1.sub y).sqrt)) = .ok st ∧ (∃ p : ℤ → ℤ → ℝ, st.1 = (Arr2.of (J + 1) L fun j l => F64.fin (p j l)) ∧
          (∀ i l, J_min ≤ i → i < J + 1 → 0 ≤ l → l < L → 0 ≤ d i l → p i l = psi64 (X (i + 1) l) (X i l)) ∧
          (∀ i l, i < J_min → p i l = 0) ∧
          (∀ i l, J_min ≤ i → i < J + 1 → 0 ≤ l → l < L → d i l < 0 → p i l = p i (l - 1))) := by
    refine range_loop (fun j (st : Arr2 F64 × Option F64 × F64) => ∃ p : ℤ → ℤ → ℝ, st.1 = (Arr2.of (J + 1) L fun j l => F64.fin (p j l)) ∧
        (∀ i l, J_min ≤ i → i < j → 0 ≤ l → l < L → 0 ≤ d i l → p i l = psi64 (X (i + 1) l) (X i l)) ∧
        (∀ i l, i < J_min → p i l = 0) ∧
        (∀ i l, J_min ≤ i → i < j → 0 ≤ l → l < L → d i l < 0 → p i l = p i (l - 1))) (by omega)
      ⟨fun _ _ => 0, rfl, fun i l _ _ => by omega, fun _ _ _ => rfl, fun i l _ _ => by omega⟩ ?_
    rintro j st hj0 hj1 ⟨p, hp, hp1, hp2, hp4⟩
    have inner := range_loop (fun l (st : Arr2 F64 × Option F64 × F64) =>
        ∃ p : ℤ → ℤ → ℝ, st.1 = (Arr2.of (J + 1) L fun j l => F64.fin (p j l)) ∧ (0 < l → st.2.1 = some (.fin (p j (l - 1))) ∧ st.2.2 = .fin (p j (l - 1))) ∧
        (∀ i l', J_min ≤ i → i < j → 0 ≤ l' → l' < L → 0 ≤ d i l' → p i l' = psi64 (X (i + 1) l') (X i l')) ∧
        (∀ l', 0 ≤ l' → l' < l → 0 ≤ d j l' → p j l' = psi64 (X (j + 1) l') (X j l')) ∧
        (∀ i l', i < J_min → p i l' = 0) ∧
        (∀ i l', J_min ≤ i → i < j → 0 ≤ l' → l' < L → d i l' < 0 → p i l' = p i (l' - 1)) ∧
        (∀ l', 0 ≤ l' → l' < l → d j l' < 0 → p j l' = p j (l' - 1))) (a := 0) (b := L) (s := st) (body := fun (x : Arr2 F64 × Option F64 × F64) (l : ℤ) => do
        let x_1 ← (Arr2.of (J + 2) L fun j l => F64.fin (X j l)).get (j + 1) l
        let y ← (Arr2.of (J + 2) L fun j l => F64.fin (X j l)).get j l
        if (x_1.sub y).isNeg then do
          let psi ← x.1.set j l x.2.2
          match x.2.1 with
          | none => .error .unboundLocal
          | some t => .ok (psi, some t, t)
        else do
          let psi ← x.1.set j l (x_1.sub y).sqrt
          .ok (psi, some (x_1.sub y).sqrt, (x_1.sub y).sqrt)) (by omega)
        ⟨p, hp, by omega, hp1, fun l' _ _ => by omega, hp2, hp4, fun l' _ _ => by omega⟩ ?_
    · obtain ⟨s', hs', p', q1, _, q2, q3, q4, q5, q6⟩ := inner
      refine ⟨s', hs', p', q1, fun i l hi0 hi1 hl0 hl1 hd => ?_, q4, fun i l hi0 hi1 hl0 hl1 hd => ?_⟩
      · rcases lt_or_eq_of_le (show i ≤ j by omega) with h | h
        · exact q2 i l hi0 h hl0 hl1 hd
        · subst h; exact q3 l hl0 hl1 hd
      · rcases lt_or_eq_of_le (show i ≤ j by omega) with h | h
        · exact q5 i l hi0 h hl0 hl1 hd
        · subst h; exact q6 l hl0 hl1 hd
    · rintro l ⟨psi, temp, prev⟩ hl0 hl1 ⟨p, hp, ht, hp1, hp3, hp2, hp4, hp5⟩
      simp only at ht hp
      subst hp
      have hx : (Arr2.of (J + 2) L fun j l => F64.fin (X j l)).get (j + 1) l = .ok (.fin (X (j + 1) l)) := by
        rw [Arr2.get_ok _ (by omega) (by simp; omega) hl0 (by simpa using hl1),
          Arr2.of_v _ _ _ _ _ ⟨by omega, by omega, hl0, hl1⟩]
      have hy : (Arr2.of (J + 2) L fun j l => F64.fin (X j l)).get j l = .ok (.fin (X j l)) := by
        rw [Arr2.get_ok _ (by omega) (by simp; omega) hl0 (by simpa using hl1),
          Arr2.of_v _ _ _ _ _ ⟨by omega, by omega, hl0, hl1⟩]
      have hset : ∀ x : ℝ, (Arr2.of (J + 1) L fun j l => F64.fin (p j l)).set j l (.fin x) = .ok (Arr2.of (J + 1) L fun i' j' =>
          .fin (if i' = j ∧ j' = l then x else p i' j')) := fun x => by
        rw [Arr2.set_ok _ _ (by omega) (by simp; omega) hl0 (by simpa using hl1)]
        congr 1
        refine Arr2.of_congr fun i' j' h0 h1 h2 h3 => ?_
        rw [Arr2.of_v (J + 1) L _ i' j' ⟨h0, h1, h2, h3⟩]; split_ifs <;> rfl
      simp only [hx, hy, Py.bind_ok]
      obtain ⟨hn1, hn2⟩ := hdiff j l (by omega) (by omega) hl0 hl1
      by_cases hneg : rnd (X (j + 1) l - X j l) < 0
      · rw [if_pos (hn1.2 hneg)]
        have hl : 0 < l := by
          rcases hl0.lt_or_eq with h | h
          · exact h
          · subst h
            rw [hz (j + 1) (by omega) (by omega), hz j (by omega) (by omega), sub_self, rnd_zero] at hneg
            exact absurd hneg (lt_irrefl _)
        obtain ⟨rfl, rfl⟩ := ht hl
        rw [hset]
        refine ⟨_, rfl, _, rfl, fun _ => ?_, fun i l' hi0 hi1 hl0' hl1' hd => ?_, fun l' hl0' hl1' hd => ?_,
          fun i l' hi => ?_, fun i l' hi0 hi1 hl0' hl1' hd => ?_, fun l' hl0' hl1' hd => ?_⟩
        · simp
        · simp only [if_neg (show ¬ (i = j ∧ l' = l) by omega)]
          exact hp1 i l' hi0 hi1 hl0' hl1' hd
        · have : l' ≠ l := by rintro rfl; exact absurd hd (not_le.2 hneg)
          rw [if_neg (by tauto)]
          exact hp3 l' hl0' (by omega) hd
        · simp only [if_neg (show ¬ (i = j ∧ l' = l) by omega)]
          exact hp2 i l' hi
        · simp only [if_neg (show ¬ (i = j ∧ l' = l) by omega), if_neg (show ¬ (i = j ∧ l' - 1 = l) by omega)]
          exact hp4 i l' hi0 hi1 hl0' hl1' hd
        · by_cases h : l' = l
          · subst h
            simp
          · rw [if_neg (show ¬ (j = j ∧ l' = l) by omega), if_neg (show ¬ (j = j ∧ l' - 1 = l) by omega)]
            exact hp5 l' hl0' (by omega) hd
      · rw [if_neg (fun h => hneg (hn1.1 h)), hn2 (not_lt.1 hneg), hset]
        refine ⟨_, rfl, _, rfl, fun _ => ?_, fun i l' hi0 hi1 hl0' hl1' hd => ?_, fun l' hl0' hl1' hd => ?_,
          fun i l' hi => ?_, fun i l' hi0 hi1 hl0' hl1' hd => ?_, fun l' hl0' hl1' hd => ?_⟩
        · simp
        · simp only [if_neg (show ¬ (i = j ∧ l' = l) by omega)]
          exact hp1 i l' hi0 hi1 hl0' hl1' hd
        · by_cases h : l' = l
          · subst h
            simp only [and_self, if_true]
          · rw [if_neg (by tauto)]
            exact hp3 l' hl0' (by omega) hd
        · simp only [if_neg (show ¬ (i = j ∧ l' = l) by omega)]
          exact hp2 i l' hi
        · simp only [if_neg (show ¬ (i = j ∧ l' = l) by omega), if_neg (show ¬ (i = j ∧ l' - 1 = l) by omega)]
          exact hp4 i l' hi0 hi1 hl0' hl1' hd
        · have : l' ≠ l := by rintro rfl; exact hneg hd
          rw [if_neg (show ¬ (j = j ∧ l' = l) by omega), if_neg (show ¬ (j = j ∧ l' - 1 = l) by omega)]
          exact hp5 l' hl0' (by omega) hd
  obtain ⟨st, hst, p, hp, hp1, hp2, hp3⟩ := key
  refine ⟨p, ⟨fun j l hj0 hj1 hl0 hl1 hd => hp1 j l hj0 (by omega) hl0 hl1 hd, hp2,
    fun j l hj0 hj1 hl0 hl1 hd => hp3 j l hj0 (by omega) hl0 hl1 hd⟩, ?_⟩
  refine (congrArg (fun z : Py (Arr2 F64 × Option F64 × F64) => z >>= fun st => Except.ok (st.1, Arr1.of L fun l =>
    if 0 ≤ l ∧ l < L then F64.fin (rnd (Real.sqrt (X J_min l))) else 0)) hst).trans ?_
  simp only [Py.bind_ok, hp]
  congr 2
  exact Arr1.of_congr fun l h2 h3 => by rw [if_pos ⟨h2, h3⟩]

omit hlf in
/-- a negative difference: the degree lies in the band of the scale, where the entry exceeds 1 -/
theorem FloatK.diff_neg {X : ℤ → ℤ → ℝ} (hX : FloatK lam J L X) {j l : ℤ} (hj0 : 0 ≤ j) (hj1 : j ≤ J) (hl0 : 0 ≤ l) (hl1 : l < L)
    (h : rnd (X (j + 1) l - X j l) < 0) : lam ^ (j - 1) < l ∧ (l : ℝ) < lam ^ j ∧ 1 < X j l := by
  have hlt : X (j + 1) l < X j l := by
    by_contra hc
    exact absurd (rnd_nonneg (sub_nonneg.2 (not_lt.1 hc))) (not_le.2 h)
  obtain ⟨x0, x1, x2, x3⟩ := hX j l hj0 (by omega) hl0 hl1
  obtain ⟨y0, y1, y2, y3⟩ := hX (j + 1) l (by omega) (by omega) hl0 hl1
  rw [add_sub_cancel_right] at y2
  have h2 : (l : ℝ) < lam ^ j := by
    by_contra hc
    rw [x3 (not_lt.1 hc)] at hlt
    linarith
  have h1 := y2 h2.le
  refine ⟨?_, h2, by linarith⟩
  by_contra hc
  rw [x2 (not_lt.1 hc)] at hlt
  linarith

include hlf in
theorem Loop64.small {X p : ℤ → ℤ → ℝ} (hX : FloatK lam J L X) (hp : Loop64 L J_min J X p) (h0 : 0 ≤ J_min) {j l : ℤ} (hj0 : J_min ≤ j)
    (hj1 : j ≤ J) (hl0 : 0 ≤ l) (hl1 : l < L) (h : rnd (X (j + 1) l - X j l) < 0) (l0 : ℕ) (hl : (l0 : ℤ) ≤ l) :
    p j l0 ^ 2 ≤ 1 / 1000 + 1 / 2 ^ 29 := by
  obtain ⟨a1, a2, a3⟩ := hX.diff_neg (by omega) hj1 hl0 hl1 h
  induction l0 with
  | zero =>
    have hz : ∀ i, 0 ≤ i → i < J + 2 → X i ((0 : ℕ) : ℤ) = 1 := fun i a b => (hX i _ a b (by simp) (by omega)).2.2.1 (by push_cast; exact (zpow_pos (one_pos.trans hlf.out) _).le)
    have e : X (j + 1) ((0 : ℕ) : ℤ) - X j ((0 : ℕ) : ℤ) = 0 := by rw [hz _ (by omega) (by omega), hz _ (by omega) (by omega), sub_self]
    rw [hp.eq j _ hj0 hj1 (by simp) (by omega) (by rw [e, rnd_zero]), hz _ (by omega) (by omega), hz _ (by omega) (by omega), psi64_self]
    norm_num
  | succ l0 ih =>
    have hle : (((l0 + 1 : ℕ) : ℤ) : ℝ) ≤ l := by exact_mod_cast hl
    obtain ⟨x0, x1, x2, x3⟩ := hX j ((l0 + 1 : ℕ) : ℤ) (by omega) (by omega) (by omega) (by omega)
    have y1 : X (j + 1) ((l0 + 1 : ℕ) : ℤ) = 1 := (hX (j + 1) _ (by omega) (by omega) (by omega) (by omega)).2.2.1 (by
      rw [add_sub_cancel_right]; linarith)
    rcases le_or_gt 0 (rnd (X (j + 1) ((l0 + 1 : ℕ) : ℤ) - X j ((l0 + 1 : ℕ) : ℤ))) with hd | hd
    · rw [hp.eq j _ hj0 hj1 (by omega) (by omega) hd, y1]
      have key : 1 - X j ((l0 + 1 : ℕ) : ℤ) ≤ 1 / 1000 + 1 / 2 ^ 30 := by
        rcases le_or_gt (((l0 + 1 : ℕ) : ℤ) : ℝ) (lam ^ (j - 1)) with hb | hb
        · rw [x2 hb]; norm_num
        · have b0 := band_point hlf.out hb (hle.trans_lt a2)
          have b1 := band_point hlf.out a1 a2
          have c1 := (abs_le.1 x1).1
          have c2 := (abs_le.1 (hX j l (by omega) (by omega) hl0 hl1).2.1).2
          rw [kval_band hb (hle.trans_lt a2)] at c1
          rw [kval_band a1 a2] at c2
          have hr : (((l0 + 1 : ℕ) : ℤ) : ℝ) / lam ^ j ≤ l / lam ^ j := div_le_div_of_nonneg_right hle (zpow_pos' hlf.out j).le
          have c3 : 1 - 1 / 2 ^ 31 < quad lam 300 (l / lam ^ j) / quad lam 300 (1 / lam) := by norm_num at c2 a3 ⊢; linarith
          have := quad_ratio_prev' (n := 300) (e := 1 / 2 ^ 31) hlf.out b0.1.le hr b1.2 le_rfl (by exact_mod_cast c3)
          norm_num at this c1 ⊢
          linarith
      rcases le_total (X j ((l0 + 1 : ℕ) : ℤ)) 1 with hc | hc
      · have := abs_le.1 (psi64_sq hc (by linarith))
        norm_num at this key ⊢
        linarith
      · rw [psi64_neg hc]; norm_num
    · rw [hp.carry j _ hj0 hj1 (by omega) (by omega) hd]
      have : ((l0 + 1 : ℕ) : ℤ) - 1 = l0 := by push_cast; ring
      rw [this]
      exact ih (by omega)

include hlf in
/-- the energy of the looped filters at one degree lies between the vectorised one and that plus `1/1000 + 2^-29` -/
theorem Loop64.energy {X p : ℤ → ℤ → ℝ} (hX : FloatK lam J L X) (hp : Loop64 L J_min J X p) (h0 : 0 ≤ J_min) {l : ℤ} (hl0 : 0 ≤ l) (hl1 : l < L) :
    ∑ j ∈ Finset.Icc J_min J, psi64 (X (j + 1) l) (X j l) ^ 2 ≤ ∑ j ∈ Finset.Icc J_min J, p j l ^ 2 ∧
    ∑ j ∈ Finset.Icc J_min J, p j l ^ 2 ≤ (∑ j ∈ Finset.Icc J_min J, psi64 (X (j + 1) l) (X j l) ^ 2) + (1 / 1000 + 1 / 2 ^ 29) := by
  have hneg : ∀ j, rnd (X (j + 1) l - X j l) < 0 → psi64 (X (j + 1) l) (X j l) = 0 := fun j h => by
    unfold psi64; rw [max_eq_left h.le, Real.sqrt_zero, rnd_zero]
  constructor
  · refine Finset.sum_le_sum fun j hj => ?_
    rw [Finset.mem_Icc] at hj
    rcases le_or_gt 0 (rnd (X (j + 1) l - X j l)) with hd | hd
    · rw [hp.eq j l hj.1 hj.2 hl0 hl1 hd]
    · rw [hneg j hd]; norm_num; positivity
  · by_cases hex : ∃ j0, J_min ≤ j0 ∧ j0 ≤ J ∧ rnd (X (j0 + 1) l - X j0 l) < 0
    · obtain ⟨j0, g0, g1, g2⟩ := hex
      have huniq : ∀ j, J_min ≤ j → j ≤ J → rnd (X (j + 1) l - X j l) < 0 → j = j0 := by
        intro j q0 q1 q2
        obtain ⟨a1, a2, _⟩ := hX.diff_neg (by omega) g1 hl0 hl1 g2
        obtain ⟨b1, b2, _⟩ := hX.diff_neg (by omega) q1 hl0 hl1 q2
        by_contra hne
        rcases lt_or_gt_of_ne hne with h | h
        · have := zpow_mono' hlf.out (show j ≤ j0 - 1 by omega)
          linarith
        · have := zpow_mono' hlf.out (show j0 ≤ j - 1 by omega)
          linarith
      have hs : ∑ j ∈ Finset.Icc J_min J, p j l ^ 2 ≤
          ∑ j ∈ Finset.Icc J_min J, (psi64 (X (j + 1) l) (X j l) ^ 2 + if j = j0 then (1 / 1000 + 1 / 2 ^ 29 : ℝ) else 0) := by
        refine Finset.sum_le_sum fun j hj => ?_
        rw [Finset.mem_Icc] at hj
        rcases le_or_gt 0 (rnd (X (j + 1) l - X j l)) with hd | hd
        · rw [hp.eq j l hj.1 hj.2 hl0 hl1 hd]
          split_ifs <;> norm_num
        · rw [if_pos (huniq j hj.1 hj.2 hd), hneg j hd]
          have := hp.small hX h0 hj.1 hj.2 hl0 hl1 hd l.toNat (by omega)
          have e : ((l.toNat : ℕ) : ℤ) = l := by omega
          rw [e] at this
          linarith
      refine hs.trans (le_of_eq ?_)
      rw [Finset.sum_add_distrib, Finset.sum_ite_eq', if_pos (by rw [Finset.mem_Icc]; exact ⟨g0, g1⟩)]
    · push Not at hex
      have hs : ∑ j ∈ Finset.Icc J_min J, p j l ^ 2 = ∑ j ∈ Finset.Icc J_min J, psi64 (X (j + 1) l) (X j l) ^ 2 := by
        refine Finset.sum_congr rfl fun j hj => ?_
        rw [Finset.mem_Icc] at hj
        rw [hp.eq j l hj.1 hj.2 hl0 hl1 (hex j hj.1 hj.2)]
      rw [hs]
      exact le_add_of_nonneg_right (by positivity)

include hlf in
theorem Loop64.range (hX : FloatK lam J L X) (hp : Loop64 L J_min J X p) (h0 : 0 ≤ J_min) {j : ℤ} (hj : j ≤ J) (l : ℕ) (hl : (l : ℤ) < L) :
    0 ≤ p j l ∧ p j l ≤ 2 := by
  by_cases hj0 : J_min ≤ j
  swap
  · rw [hp.low j l (by omega)]; norm_num
  induction l with
  | zero =>
    have e : X (j + 1) ((0 : ℕ) : ℤ) = X j ((0 : ℕ) : ℤ) := by
      rw [(hX (j + 1) _ (by omega) (by omega) (by simp) hl).2.2.1 (by push_cast; exact (zpow_pos (one_pos.trans hlf.out) _).le), (hX j _ (by omega) (by omega) (by simp) hl).2.2.1 (by push_cast; exact (zpow_pos (one_pos.trans hlf.out) _).le)]
    rw [hp.eq j _ hj0 hj (by simp) hl (by rw [e, sub_self, rnd_zero]), e, psi64_self]; norm_num
  | succ l ih =>
    by_cases hn : 0 ≤ rnd (X (j + 1) ((l + 1 : ℕ) : ℤ) - X j ((l + 1 : ℕ) : ℤ))
    · rw [hp.eq j _ hj0 hj (by positivity) hl hn]
      exact ⟨psi64_nonneg _ _, hX.psi_le (by omega) (by omega) (by positivity) hl⟩
    · rw [hp.carry j _ hj0 hj (by positivity) hl (not_le.1 hn)]
      have := ih (by push_cast at hl; omega)
      have e : ((l + 1 : ℕ) : ℤ) - 1 = l := by push_cast; ring
      rw [e]; exact this

include hlf in
theorem Loop64.range' (hX : FloatK lam J L X) (hp : Loop64 L J_min J X p) (h0 : 0 ≤ J_min) {j l : ℤ} (hj : j ≤ J) (hl0 : 0 ≤ l) (hl : l < L) :
    0 ≤ p j l ∧ p j l ≤ 2 := by
  have := hp.range hX h0 hj l.toNat (by omega)
  rwa [Int.toNat_of_nonneg hl0] at this

include hlf in
theorem Loop64.band (hX : FloatK lam J L X) (hp : Loop64 L J_min J X p) (h0 : 0 ≤ J_min) {j l : ℤ} (hj : j ≤ J) (hl0 : 0 ≤ l) (hl1 : l < L)
    (h : p j l ≠ 0) : J_min ≤ j ∧ lam ^ (j - 1) < l ∧ (l : ℝ) < lam ^ (j + 1) := by
  have hj0 : J_min ≤ j := by
    by_contra hc
    exact h (hp.low j l (by omega))
  refine ⟨hj0, ?_⟩
  by_cases hn : 0 ≤ rnd (X (j + 1) l - X j l)
  · rw [hp.eq j l hj0 hj hl0 hl1 hn] at h
    constructor
    · by_contra hk
      have hk := not_lt.1 hk
      apply h
      rw [(hX j l (by omega) (by omega) hl0 hl1).2.2.1 hk, (hX (j + 1) l (by omega) (by omega) hl0 hl1).2.2.1 (by
        rw [add_sub_cancel_right]; exact hk.trans (zpow_le_zpow_right₀ hlf.out.le (by omega))), psi64_self]
    · by_contra hk
      have hk := not_lt.1 hk
      apply h
      rw [(hX (j + 1) l (by omega) (by omega) hl0 hl1).2.2.2 hk, (hX j l (by omega) (by omega) hl0 hl1).2.2.2 (by
        exact le_trans (zpow_le_zpow_right₀ hlf.out.le (by omega)) hk), psi64_self]
  · obtain ⟨a, b, -⟩ := hX.diff_neg (by omega) hj hl0 hl1 (not_le.1 hn)
    exact ⟨a, b.trans (zpow_lt_zpow_right₀ hlf.out (by omega))⟩

include hlf in
theorem Loop64.zero (hX : FloatK lam J L X) (hp : Loop64 L J_min J X p) (h0 : 0 ≤ J_min) {j : ℤ} (hj : j ≤ J) (hL : 1 ≤ L) : p j 0 = 0 := by
  by_contra h
  have := (hp.band hX h0 hj le_rfl (by omega) h).2.1
  have h2 : (0 : ℝ) < lam ^ (j - 1) := zpow_pos (one_pos.trans hlf.out) _
  simp at this
  linarith

include hlf in
theorem filters_directional64_ok (hs : Libm.Special m lg) (hJ : jm L lam = .ok J) (hL : 1 ≤ L) (hL2 : L ≤ 2 ^ 53)
    (hN : 1 ≤ N) (hN' : N ≤ 990) (h0 : 0 ≤ J_min) (h1 : J_min < J) (hX : FloatK lam J L X)
    (hk : k_lam64 m jm L lam 300 = .ok (Arr2.of (J + 2) L fun j l => .fin (X j l))) (spin : ℤ) :
    ∃ p, Loop64 L J_min J X p ∧ filters_axisym64 m jm L J_min lam = .ok (Arr2.of (J + 1) L fun j l => .fin (p j l),
        Arr1.of L fun l => .fin (rnd (Real.sqrt (X J_min l)))) ∧
      filters_directional64 m lg jm L N J_min lam spin =
      .ok (Arr3.of (J + 1) L (2 * L - 1) fun j l k => C64.ofC (psiG m lg p ufac N |spin| j l (k - (L - 1))),
        Arr1.of L fun l => .fin (phiD64 X J_min |spin| l)) := by
  obtain ⟨p, hp, hax⟩ := filters_axisym64_ok hJ hL h0 h1 hX hk
  refine ⟨p, hp, hax, ?_⟩
  have hel : 0 ≤ |spin| := abs_nonneg spin
  unfold filters_directional64
  simp only [hJ, Py.bind_ok, zeros1, zeros3]
  rw [if_neg (by omega), if_neg (by omega), hax, tiling_direction64_ok hs hL hN hN']
  simp only [Py.bind_ok]
  generalize |spin| = elmin at *
  -- scaling loop
  rw [cells_loop (S := Arr1.of L) (c := fun x i => i = x) (f := fun l => F64.fin (phiD64 X J_min elmin l)) (g0 := fun _ => 0)]
  rotate_left
  · intro x y i hx hy; omega
  · intro g x hx0 hx1 hg
    rw [Arr1.get_ok _ (by omega) (by simpa using hx1), Arr1.of_v _ _ _ ⟨by omega, hx1⟩, Py.bind_ok]
    have hphi : phiD64 X J_min elmin x = rnd (rnd (Real.sqrt (X J_min x)) * vfac x) := by unfold phiD64; rw [if_neg (by omega)]
    by_cases hz : rnd (Real.sqrt (X J_min x)) = 0
    · rw [if_neg (by rw [F64.fin_ne_zero]; exact not_not.2 hz)]
      congr 1
      refine Arr1.of_congr fun i _ _ => ?_
      by_cases hi : i = x
      · subst hi
        rw [if_pos rfl, hg i rfl, hphi, hz, zero_mul, rnd_zero]; rfl
      · rw [if_neg hi]
    · rw [if_pos (F64.fin_ne_zero.2 hz), vfac_ok (by omega) (by omega), F64.mul_fin, Arr1.set_ok _ _ (by omega) (by simpa using hx1)]
      congr 1
      refine Arr1.of_congr fun i a b => ?_
      by_cases hi : i = x
      · rw [if_pos hi, if_pos hi, hi, hphi, mul_comm]
        refine F64.of_fin' ?_
        have a0 := rnd_nonneg (Real.sqrt_nonneg (X J_min x))
        have v0 := (vfac_rl (show 0 ≤ x by omega) (by omega)).2.le
        rw [abs_of_nonneg (mul_nonneg a0 v0)]
        calc _ ≤ (2 : ℝ) * 2 ^ 27 := mul_le_mul (hX.phi_le h0 (by omega) (by omega) hx1) (vfac_le (by omega) (by omega)) v0 (by norm_num)
          _ ≤ _ := by norm_num
      · rw [if_neg hi, if_neg hi, Arr1.of_v L g i ⟨a, b⟩]
  simp only [Py.bind_ok]
  -- wavelet loops
  let F : ℤ × ℤ × ℤ → C64 := fun t => C64.ofC (psiG m lg p ufac N elmin t.1 t.2.1 (t.2.2 - (L - 1)))
  have hz0 : C64.ofC 0 = 0 := rfl
  have hF0 : ∀ j l k, l < elmin → F (j, l, k) = 0 := fun j l k h => by
    simp only [F, psiG]; rw [if_pos h, hz0]
  have hFs : ∀ j l k, sig64 m lg N l (k - (L - 1)) = 0 → F (j, l, k) = 0 := fun j l k h => by
    simp only [F, psiG, h, mul_zero, rnd_zero, Complex.ofReal_zero, ite_self, hz0]
  have hFp : ∀ j l k, p j l = 0 → F (j, l, k) = 0 := fun j l k h => by
    simp only [F, psiG, h, zero_mul, mul_zero, rnd_zero, Complex.ofReal_zero, ite_self, hz0]
  have hget_s : ∀ el n : ℤ, 0 ≤ el → el < L → -el ≤ n → n ≤ el →
      (Arr2.of L (2 * L - 1) fun el k => C64.ofC (nuC N * ((sig64 m lg N el (k - (L - 1)) : ℝ) : ℂ))).get el (L - 1 + n) =
        .ok (C64.ofC (nuC N * ((sig64 m lg N el n : ℝ) : ℂ))) :=
    fun el n a b c d => by
      rw [Arr2.get_ok _ a (by simpa using b) (by omega) (by simp; omega),
        Arr2.of_v _ _ _ _ _ ⟨a, b, by omega, by omega⟩, add_sub_cancel_left]
  have hsig0 : ∀ l n : ℤ, ¬ (-l ≤ n ∧ n ≤ l) → sig64 m lg N l n = 0 := fun l n hn => by
    apply sig64_eq_zero
    rintro ⟨a, b, _⟩
    exact hn (abs_le.1 (b.trans (gam_facts hN a).2.2.2.1))
  have main : (pyRange J_min (J + 1)).foldlM (init := S3 (J + 1) L (2 * L - 1) fun _ => (0 : C64))
      (fun (psi : Arr3 C64) (j : ℤ) =>
        (pyRange elmin L).foldlM (init := psi) fun (psi : Arr3 C64) (el : ℤ) => do
          let kj ← (Arr2.of (J + 1) L fun j l => F64.fin (p j l)).get j el
          if kj ≠ 0 then
            (pyRange (-el) (el + 1)).foldlM (init := psi) fun (psi : Arr3 C64) (n : ℤ) => do
              let s ← (Arr2.of L (2 * L - 1) fun el k => C64.ofC (nuC N * ((sig64 m lg N el (k - (L - 1)) : ℝ) : ℂ))).get el (L - 1 + n)
              if s ≠ 0 then
                psi.set j el (L - 1 + n) ((C64.ofReal
                  ((((F64.ofInt (2 * el + 1)).div (((F64.fin 8).mul pi64).mul pi64)).sqrt).mul kj)).mul s)
              else .ok psi
          else .ok psi) = .ok (S3 (J + 1) L (2 * L - 1) F) := by
    rw [cells_loop (S := S3 (J + 1) L (2 * L - 1)) (c := fun j t => t.1 = j) (f := F) (g0 := fun _ => 0)]
    rotate_left
    · intro x y i hx hy; omega
    · intro g j hj0 hj1 hg
      rw [cells_loop (S := S3 (J + 1) L (2 * L - 1)) (c := fun l t => t.1 = j ∧ t.2.1 = l) (f := F) (g0 := g)]
      rotate_left
      · intro x y i hx hy; omega
      · intro g' el hel0 hel1 hg'
        rw [Arr2.get_ok _ (by omega) (by simpa using hj1) (by omega) (by simpa using hel1),
          Arr2.of_v _ _ _ _ _ ⟨by omega, hj1, by omega, hel1⟩, Py.bind_ok]
        by_cases hk : p j el = 0
        · rw [if_neg (by rw [F64.fin_ne_zero]; exact not_not.2 hk)]
          congr 1
          refine S3_congr fun a b c _ _ _ _ _ _ => ?_
          by_cases hab : a = j ∧ b = el
          · rw [if_pos hab, hg' _ hab, hg _ hab.1, hab.1, hab.2, hFp _ _ _ hk]
          · rw [if_neg hab]
        · rw [if_pos (F64.fin_ne_zero.2 hk)]
          rw [cells_loop (S := S3 (J + 1) L (2 * L - 1)) (c := fun n t => t = (j, el, L - 1 + n)) (f := F) (g0 := g')]
          · congr 1
            refine S3_congr fun a b c _ _ _ _ _ _ => ?_
            by_cases hab : a = j ∧ b = el
            · rw [if_pos hab]
              split_ifs with hm
              · rfl
              · rw [hg' _ hab, hg _ hab.1, hab.1, hab.2, hFs]
                apply hsig0
                rintro ⟨u, v⟩
                exact hm ⟨c - (L - 1), u, by omega, by rw [hab.1, hab.2]; congr 2; ring⟩
            · rw [if_neg hab, if_neg]
              rintro ⟨n, _, _, hm⟩
              simp only [Prod.mk.injEq] at hm
              exact hab ⟨hm.1, hm.2.1⟩
          · intro x y i hx hy
            subst hx
            simp only [Prod.mk.injEq] at hy
            omega
          · intro g'' n hn0 hn1 hg''
            have b1 : 0 ≤ L - 1 + n := by omega
            have b2 : L - 1 + n < 2 * L - 1 := by omega
            rw [hget_s el n (by omega) hel1 hn0 (by omega), Py.bind_ok]
            have hnu : nuC N ≠ 0 := by rw [← norm_ne_zero_iff, nuC_norm]; norm_num
            by_cases hsz : sig64 m lg N el n = 0
            · rw [if_neg (by rw [C64.ofC_ne_zero, hsz]; simp)]
              congr 1
              refine S3_congr fun a b c _ _ _ _ _ _ => ?_
              by_cases ht : (a, b, c) = (j, el, L - 1 + n)
              · rw [if_pos ht, ht, hg'' _ rfl, hg' _ ⟨rfl, rfl⟩, hg _ rfl, hFs]
                rw [add_sub_cancel_left]; exact hsz
              · rw [if_neg ht]
            · rw [if_pos (by rw [C64.ofC_ne_zero]; exact mul_ne_zero hnu (Complex.ofReal_ne_zero.2 hsz)),
                S3_set _ _ (by omega) hj1 (by omega) hel1 b1 b2]
              congr 1
              refine S3_congr fun a b c _ _ _ _ _ _ => ?_
              by_cases ht : (a, b, c) = (j, el, L - 1 + n)
              · rw [if_pos ht, if_pos ht, ht]
                obtain ⟨q0, q1⟩ := hp.range' hX h0 (show j ≤ J by omega) (show 0 ≤ el by omega) hel1
                obtain ⟨p1, p2, p3⟩ := prod_near q0 q1 (ufac_rl (show 0 ≤ el by omega) (by omega)).2.le (ufac_le (by omega) (by omega))
                  (sig64_nonneg (m := m) (lg := lg) N el n) (sig64_sq hs hN hN').2
                rw [ufac_ok (by omega) (by omega), F64.mul_fin, mul_comm (ufac el), F64.of_fin' (by linarith), C64.real_mul p2]
                simp only [F, psiG]
                rw [if_neg (by omega), add_sub_cancel_left]
              · rw [if_neg ht, if_neg ht]
      · congr 1
        refine S3_congr fun a b c _ _ hb0 hb1 _ _ => ?_
        by_cases ha : a = j
        · rw [if_pos ha]
          split_ifs with hm
          · rfl
          · rw [hg _ ha, hF0]
            by_contra hb
            exact hm ⟨b, by omega, hb1, ha, rfl⟩
        · rw [if_neg ha, if_neg]
          rintro ⟨_, _, _, h, _⟩
          exact ha h
    · congr 1
      refine S3_congr fun a b c ha0 ha1 _ _ _ _ => ?_
      split_ifs with hm
      · rfl
      · rw [hFp]
        apply hp.low
        by_contra h
        exact hm ⟨a, by omega, ha1, rfl⟩
  refine (congrArg (fun z : Py (Arr3 C64) => z >>= fun st => Except.ok (st, Arr1.of L fun l =>
    if ∃ x, elmin ≤ x ∧ x < L ∧ l = x then F64.fin (phiD64 X J_min elmin l) else 0)) main).trans ?_
  simp only [Py.bind_ok]
  congr 2
  refine Arr1.of_congr fun l h2 h3 => ?_
  split_ifs with h
  · rfl
  · rw [phiD64, if_pos]
    · rfl
    by_contra hc
    exact h ⟨l, by omega, h3, rfl⟩

end Gen
end S2wav
