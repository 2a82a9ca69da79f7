import Verif.Lemmas.KLam
import Verif.Lemmas.Lists

/-! # Closed forms of the axisymmetric filters -/

namespace S2wav
open Classical

/-- entries of `k_lam` with the default 300 panels -/
noncomputable abbrev kv (lam : ℝ) (j l : ℤ) : ℝ := kval lam 300 j l

/-- closed form of the vectorised `psi[j, l]` -/
noncomputable def psiAx (lam : ℝ) (j l : ℤ) : ℝ := Real.sqrt (max 0 (kv lam (j + 1) l - kv lam j l))

/-- closed form of `phi[l]` -/
noncomputable def phiAx (lam : ℝ) (J_min l : ℤ) : ℝ := Real.sqrt (kv lam J_min l)

theorem kv_nonneg {lam : ℝ} (hlam : 1 < lam) (j l : ℤ) : 0 ≤ kv lam j l := kval_nonneg hlam (by norm_num) j l

theorem Arr2.of_v_nonneg {r c : ℤ} {f : ℤ → ℤ → ℝ} (h : ∀ i j, 0 ≤ f i j) (i j : ℤ) : 0 ≤ (Arr2.of r c f).v i j := by
  simp only [Arr2.of]; split_ifs
  · exact h i j
  · exact le_rfl

theorem Arr1.of_v_nonneg {n : ℤ} {f : ℤ → ℝ} (h : ∀ i, 0 ≤ f i) (i : ℤ) : 0 ≤ (Arr1.of n f).v i := by
  simp only [Arr1.of]; split_ifs
  · exact h i
  · exact le_rfl

theorem npSqrt2_of {r c : ℤ} {f : ℤ → ℤ → ℝ} (h : ∀ i j, 0 ≤ f i j) :
    npSqrt2 (Arr2.of r c f) = .ok (Arr2.of r c fun i j => Real.sqrt (f i j)) := by
  unfold npSqrt2
  rw [if_neg (by push Not; exact Arr2.of_v_nonneg h)]
  congr 1
  exact Arr2.of_congr fun i j h0 h1 h2 h3 => by rw [Arr2.of_v r c f i j ⟨h0, h1, h2, h3⟩]

theorem npSqrt1_of {n : ℤ} {f : ℤ → ℝ} (h : ∀ i, 0 ≤ i → i < n → 0 ≤ f i) :
    npSqrt1 (Arr1.of n f) = .ok (Arr1.of n fun i => Real.sqrt (f i)) := by
  unfold npSqrt1
  rw [if_neg]
  · congr 1
    exact Arr1.of_congr fun i h0 h1 => by rw [Arr1.of_v n f i ⟨h0, h1⟩]
  · push Not
    intro i
    simp only [Arr1.of]; split_ifs with hi
    · exact h i hi.1 hi.2
    · exact le_rfl

section
variable {jm : JMax} {L J J_min : ℤ} {lam : ℝ}

theorem filters_axisym_vectorised_ok (hT : TopScale jm L lam J) (h0 : 0 ≤ J_min) (h1 : J_min < J) :
    filters_axisym_vectorised jm L J_min lam =
      .ok (Arr2.of (J + 1) L (psiAx lam), Arr1.of L (phiAx lam J_min)) := by
  have hlam := hT.hlam
  have hL := hT.hL
  unfold filters_axisym_vectorised
  simp only [hT.hJ, Py.bind_ok]
  rw [if_neg (by omega), k_lam_ok hT (by norm_num)]
  simp only [Py.bind_ok, Arr2.rollUp, Arr2.zip, Arr2.of_r, Arr2.of_c, and_self, if_true]
  have hsl : mkSl (J + 2) none (some (-1)) = ⟨0, J + 1, 1⟩ := by
    simp only [mkSl, slBound, if_pos (show (-1 : ℤ) < 0 by norm_num)]
    congr 1
    omega
  rw [hsl, mkSl_all (by omega)]
  have hd : ((Arr2.of (J + 2) L fun i j => (Arr2.of (J + 2) L fun i j =>
      (Arr2.of (J + 2) L (kval lam 300)).v ((i + 1) % (J + 2)) j).v i j -
      (Arr2.of (J + 2) L (kval lam 300)).v i j).slice ⟨0, J + 1, 1⟩ ⟨0, L, 1⟩).map (fun x => if x < 0 then 0 else x) =
      Arr2.of (J + 1) L fun j l => max 0 (kv lam (j + 1) l - kv lam j l) := by
    refine Arr2.of_congr fun i j h0 h1 h2 h3 => ?_
    simp only [Arr2.slice, Arr2.of_r, Arr2.of_c] at h1 h3
    simp only [Arr2.slice, Sl.at_one, zero_add]
    rw [Arr2.of_v _ _ _ _ _ ⟨h0, h1, h2, h3⟩, Arr2.of_v _ _ _ _ _ ⟨h0, by omega, h2, h3⟩,
      Arr2.of_v _ _ _ _ _ ⟨h0, by omega, h2, h3⟩, Arr2.of_v _ _ _ _ _ ⟨h0, by omega, h2, h3⟩]
    have hm : (i + 1) % (J + 2) = i + 1 := Int.emod_eq_of_lt (by omega) (by omega)
    rw [hm, Arr2.of_v _ _ _ _ _ ⟨by omega, by omega, h2, h3⟩]
    rcases lt_or_ge (kval lam 300 (i + 1) j - kval lam 300 i j) 0 with h | h
    · rw [if_pos h, max_eq_left h.le]
    · rw [if_neg (not_lt.2 h), max_eq_right h]
  rw [hd, npSqrt2_of fun i j => le_max_left _ _, Arr1.row_ok _ h0 (by simp; omega)]
  simp only [Py.bind_ok, Arr2.of_c]
  rw [npSqrt1_of fun i h2 h3 => Arr2.of_v_nonneg (kv_nonneg hlam) _ _]
  simp only [Py.bind_ok]
  congr 2
  exact Arr1.of_congr fun l h2 h3 => by rw [Arr2.of_v _ _ _ _ _ ⟨h0, by omega, h2, h3⟩]; rfl

theorem filters_axisym_vectorised_err (hJ : jm L lam = .ok J) (h : J_min < 0 ∨ J ≤ J_min) :
    filters_axisym_vectorised jm L J_min lam = .error .valueError := by
  unfold filters_axisym_vectorised
  simp only [hJ, Py.bind_ok]
  rw [if_pos (by omega)]

theorem filters_axisym_jax_err (hJ : jm L lam = .ok J) (h : J_min < 0 ∨ J ≤ J_min) :
    filters_axisym_jax jm L J_min lam = .error .valueError := by
  unfold filters_axisym_jax
  simp only [hJ, Py.bind_ok]
  rw [if_pos (by omega)]

theorem filters_axisym_err (hJ : jm L lam = .ok J) (h : J_min < 0 ∨ J ≤ J_min) :
    filters_axisym jm L J_min lam = .error .valueError := by
  unfold filters_axisym
  simp only [hJ, Py.bind_ok]
  rw [if_pos (by omega)]

/-- the JAX axisymmetric filters are the vectorised ones (for valid scale parameters) -/
theorem filters_axisym_jax_eq (hT : TopScale jm L lam J) (J_min : ℤ) :
    filters_axisym_jax jm L J_min lam = filters_axisym_vectorised jm L J_min lam := by
  have hL := hT.hL
  unfold filters_axisym_jax filters_axisym_vectorised
  simp only [hT.hJ, Py.bind_ok]
  by_cases h : J_min ≥ J ∨ J_min < 0
  · rw [if_pos h, if_pos h]
  rw [if_neg h, if_neg h, k_lam_jax_eq, k_lam_ok hT (by norm_num)]
  simp only [Py.bind_ok, Arr2.rollUp, Arr2.zip, Arr2.of_r, Arr2.of_c, and_self, if_true, zeros2]
  rw [if_neg (by omega)]
  have hsl : mkSl (J + 2) none (some (-1)) = ⟨0, J + 1, 1⟩ := by
    simp only [mkSl, slBound, if_pos (show (-1 : ℤ) < 0 by norm_num)]
    congr 1
    omega
  simp only [hsl, mkSl_all (show 0 ≤ L by omega), Py.bind_ok, Arr2.slice, Arr2.of_r, Arr2.of_c, and_self, if_true, Arr2.map]
  have hz : ∀ i j, (Arr2.of (J + 1) L fun _ _ => (0 : ℝ)).v i j = 0 := fun i j => by simp [Arr2.of]
  simp only [hz]

/-- the looped axisymmetric filters: never any exception but the range check, entries with a non-negative
difference are its square root, rows below `J_min` vanish, entries with a negative difference repeat the entry of the previous
degree -/
theorem filters_axisym_ok (hT : TopScale jm L lam J) (h0 : 0 ≤ J_min) (h1 : J_min < J) :
    ∃ p : ℤ → ℤ → ℝ, filters_axisym jm L J_min lam = .ok (Arr2.of (J + 1) L p, Arr1.of L (phiAx lam J_min)) ∧
      (∀ j l, J_min ≤ j → j ≤ J → 0 ≤ l → l < L → 0 ≤ kv lam (j + 1) l - kv lam j l → p j l = psiAx lam j l) ∧
      (∀ j l, j < J_min → p j l = 0) ∧
      (∀ j l, J_min ≤ j → j ≤ J → 0 ≤ l → l < L → kv lam (j + 1) l - kv lam j l < 0 → p j l = p j (l - 1)) := by
  have hlam := hT.hlam
  have hL := hT.hL
  unfold filters_axisym
  simp only [hT.hJ, Py.bind_ok]
  rw [if_neg (by omega), k_lam_ok hT (by norm_num)]
  simp only [Py.bind_ok, zeros2, zeros1]
  rw [if_neg (by omega), if_neg (by omega)]
  simp only [Py.bind_ok]
  rw [fill1_loop (f := phiAx lam J_min) (c0 := 0) (c1 := L) (n := L) _ le_rfl le_rfl]
  swap
  · intro a l h2 h3 h4
    rw [Arr2.get_ok _ h0 (by simp; omega) h2 (by simpa using h3), Py.bind_ok,
      Arr2.of_v _ _ _ _ _ ⟨h0, by omega, h2, h3⟩, npSqrt, if_neg (not_lt.2 (kv_nonneg hlam _ _)), Py.bind_ok]
    rfl
  simp only [Py.bind_ok]
  -- the nested loop
  let d : ℤ → ℤ → ℝ := fun j l => kv lam (j + 1) l - kv lam j l
  have key : ∃ st : Arr2 ℝ × Option ℝ × ℝ, (pyRange J_min (J + 1)).foldlM (init := ((Arr2.of (J + 1) L fun _ _ => (0 : ℝ)), (none : Option ℝ), (0 : ℝ)))
      (fun st j =>
      (pyRange 0 L).foldlM (init := st) fun (x : Arr2 ℝ × Option ℝ × ℝ) (l : ℤ) => do
        let x_1 ← (Arr2.of (J + 2) L (kval lam 300)).get (j + 1) l
        let y ← (Arr2.of (J + 2) L (kval lam 300)).get j l
        if x_1 - y < 0 then do
          let psi ← x.1.set j l x.2.2
          match x.2.1 with
          | none => .error .unboundLocal
          | some t => .ok (psi, some t, t)
        else do
          let t ← npSqrt (x_1 - y)
          let psi ← x.1.set j l t
          .ok (psi, some t, t)) = .ok st ∧ (∃ p, st.1 = Arr2.of (J + 1) L p ∧
          (∀ i l, J_min ≤ i → i < J + 1 → 0 ≤ l → l < L → 0 ≤ d i l → p i l = psiAx lam i l) ∧
          (∀ i l, i < J_min → p i l = 0) ∧
          (∀ i l, J_min ≤ i → i < J + 1 → 0 ≤ l → l < L → d i l < 0 → p i l = p i (l - 1))) := by
    refine range_loop (fun j (st : Arr2 ℝ × Option ℝ × ℝ) => ∃ p, st.1 = Arr2.of (J + 1) L p ∧
        (∀ i l, J_min ≤ i → i < j → 0 ≤ l → l < L → 0 ≤ d i l → p i l = psiAx lam i l) ∧
        (∀ i l, i < J_min → p i l = 0) ∧
        (∀ i l, J_min ≤ i → i < j → 0 ≤ l → l < L → d i l < 0 → p i l = p i (l - 1))) (by omega)
      ⟨fun _ _ => 0, rfl, fun i l _ _ => by omega, fun _ _ _ => rfl, fun i l _ _ => by omega⟩ ?_
    rintro j st hj0 hj1 ⟨p, hp, hp1, hp2, hp4⟩
    have inner := range_loop (fun l (st : Arr2 ℝ × Option ℝ × ℝ) =>
        ∃ p, st.1 = Arr2.of (J + 1) L p ∧ (0 < l → st.2.1 = some (p j (l - 1)) ∧ st.2.2 = p j (l - 1)) ∧
        (∀ i l', J_min ≤ i → i < j → 0 ≤ l' → l' < L → 0 ≤ d i l' → p i l' = psiAx lam i l') ∧
        (∀ l', 0 ≤ l' → l' < l → 0 ≤ d j l' → p j l' = psiAx lam j l') ∧
        (∀ i l', i < J_min → p i l' = 0) ∧
        (∀ i l', J_min ≤ i → i < j → 0 ≤ l' → l' < L → d i l' < 0 → p i l' = p i (l' - 1)) ∧
        (∀ l', 0 ≤ l' → l' < l → d j l' < 0 → p j l' = p j (l' - 1))) (a := 0) (b := L) (s := st) (body := fun (x : Arr2 ℝ × Option ℝ × ℝ) (l : ℤ) => do
        let x_1 ← (Arr2.of (J + 2) L (kval lam 300)).get (j + 1) l
        let y ← (Arr2.of (J + 2) L (kval lam 300)).get j l
        if x_1 - y < 0 then do
          let psi ← x.1.set j l x.2.2
          match x.2.1 with
          | none => .error .unboundLocal
          | some t => .ok (psi, some t, t)
        else do
          let t ← npSqrt (x_1 - y)
          let psi ← x.1.set j l t
          .ok (psi, some t, t)) (by omega)
        ⟨p, hp, by omega, hp1, fun l' _ _ => by omega, hp2, hp4, fun l' _ _ => by omega⟩ ?_
    · obtain ⟨s', hs', p', q1, _, q2, q3, q4, q5, q6⟩ := inner
      refine ⟨s', hs', p', q1, fun i l hi0 hi1 hl0 hl1 hd => ?_, q4, fun i l hi0 hi1 hl0 hl1 hd => ?_⟩
      · rcases lt_or_eq_of_le (show i ≤ j by omega) with h | h
        · exact q2 i l hi0 h hl0 hl1 hd
        · subst h; exact q3 l hl0 hl1 hd
      · rcases lt_or_eq_of_le (show i ≤ j by omega) with h | h
        · exact q5 i l hi0 h hl0 hl1 hd
        · subst h; exact q6 l hl0 hl1 hd
    · rintro l ⟨psi, temp, prev⟩ hl0 hl1 ⟨p, hp, ht, hp1, hp3, hp2, hp4, hp5⟩
      simp only at ht hp
      subst hp
      have hx : (Arr2.of (J + 2) L (kval lam 300)).get (j + 1) l = .ok (kv lam (j + 1) l) := by
        rw [Arr2.get_ok _ (by omega) (by simp; omega) hl0 (by simpa using hl1),
          Arr2.of_v _ _ _ _ _ ⟨by omega, by omega, hl0, hl1⟩]
      have hy : (Arr2.of (J + 2) L (kval lam 300)).get j l = .ok (kv lam j l) := by
        rw [Arr2.get_ok _ (by omega) (by simp; omega) hl0 (by simpa using hl1),
          Arr2.of_v _ _ _ _ _ ⟨by omega, by omega, hl0, hl1⟩]
      have hset : ∀ x, (Arr2.of (J + 1) L p).set j l x = .ok (Arr2.of (J + 1) L fun i' j' =>
          if i' = j ∧ j' = l then x else p i' j') := fun x => by
        rw [Arr2.set_ok _ _ (by omega) (by simp; omega) hl0 (by simpa using hl1)]
        congr 1
        refine Arr2.of_congr fun i' j' h0 h1 h2 h3 => ?_
        rw [Arr2.of_v (J + 1) L p i' j' ⟨h0, h1, h2, h3⟩]
      simp only [hx, hy, Py.bind_ok, hset]
      by_cases hneg : kv lam (j + 1) l - kv lam j l < 0
      · rw [if_pos hneg]
        have hl : 0 < l := by
          rcases hl0.lt_or_eq with h | h
          · exact h
          · subst h
            rw [kv, kv, kval_zero hlam, kval_zero hlam] at hneg
            norm_num at hneg
        obtain ⟨rfl, rfl⟩ := ht hl
        refine ⟨_, rfl, _, rfl, fun _ => ?_, fun i l' hi0 hi1 hl0' hl1' hd => ?_, fun l' hl0' hl1' hd => ?_,
          fun i l' hi => ?_, fun i l' hi0 hi1 hl0' hl1' hd => ?_, fun l' hl0' hl1' hd => ?_⟩
        · simp
        · simp only [if_neg (show ¬ (i = j ∧ l' = l) by omega)]
          exact hp1 i l' hi0 hi1 hl0' hl1' hd
        · have : l' ≠ l := by rintro rfl; exact absurd hd (not_le.2 hneg)
          rw [if_neg (by tauto)]
          exact hp3 l' hl0' (by omega) hd
        · simp only [if_neg (show ¬ (i = j ∧ l' = l) by omega)]
          exact hp2 i l' hi
        · simp only [if_neg (show ¬ (i = j ∧ l' = l) by omega), if_neg (show ¬ (i = j ∧ l' - 1 = l) by omega)]
          exact hp4 i l' hi0 hi1 hl0' hl1' hd
        · by_cases h : l' = l
          · subst h
            simp
          · rw [if_neg (show ¬ (j = j ∧ l' = l) by omega), if_neg (show ¬ (j = j ∧ l' - 1 = l) by omega)]
            exact hp5 l' hl0' (by omega) hd
      · rw [if_neg hneg, npSqrt, if_neg hneg]
        refine ⟨_, rfl, _, rfl, fun _ => ?_, fun i l' hi0 hi1 hl0' hl1' hd => ?_, fun l' hl0' hl1' hd => ?_,
          fun i l' hi => ?_, fun i l' hi0 hi1 hl0' hl1' hd => ?_, fun l' hl0' hl1' hd => ?_⟩
        · simp
        · simp only [if_neg (show ¬ (i = j ∧ l' = l) by omega)]
          exact hp1 i l' hi0 hi1 hl0' hl1' hd
        · by_cases h : l' = l
          · subst h
            simp only [and_self, if_true]
            rw [psiAx, max_eq_right (not_lt.1 hneg)]
          · rw [if_neg (by tauto)]
            exact hp3 l' hl0' (by omega) hd
        · simp only [if_neg (show ¬ (i = j ∧ l' = l) by omega)]
          exact hp2 i l' hi
        · simp only [if_neg (show ¬ (i = j ∧ l' = l) by omega), if_neg (show ¬ (i = j ∧ l' - 1 = l) by omega)]
          exact hp4 i l' hi0 hi1 hl0' hl1' hd
        · have : l' ≠ l := by rintro rfl; exact hneg hd
          rw [if_neg (show ¬ (j = j ∧ l' = l) by omega), if_neg (show ¬ (j = j ∧ l' - 1 = l) by omega)]
          exact hp5 l' hl0' (by omega) hd
  obtain ⟨st, hst, p, hp, hp1, hp2, hp3⟩ := key
  refine ⟨p, ?_, fun j l hj0 hj1 hl0 hl1 hd => hp1 j l hj0 (by omega) hl0 hl1 hd, hp2,
    fun j l hj0 hj1 hl0 hl1 hd => hp3 j l hj0 (by omega) hl0 hl1 hd⟩
  refine (congrArg (fun z : Py (Arr2 ℝ × Option ℝ × ℝ) => z >>= fun st => Except.ok (st.1, Arr1.of L fun l =>
    if 0 ≤ l ∧ l < L then phiAx lam J_min l else 0)) hst).trans ?_
  simp only [Py.bind_ok, hp]
  congr 2
  exact Arr1.of_congr fun l h2 h3 => by rw [if_pos ⟨h2, h3⟩]

end

/-! ## Telescoping -/

/-- the sum of the positive increments of a unimodal sequence -/
theorem unimodal_sum {a : ℤ → ℝ} {t m n : ℤ} (h1 : ∀ j, m ≤ j → j < t → a j ≤ a (j + 1)) (h2 : ∀ j ≥ t, a (j + 1) ≤ a j)
    (hm : m ≤ t) (hn : m ≤ n) :
    a m + ∑ j ∈ Finset.Ico m n, max 0 (a (j + 1) - a j) = a (min t n) := by
  obtain ⟨k, hk⟩ : ∃ k : ℕ, n = m + k := ⟨(n - m).toNat, by omega⟩
  subst hk
  induction k with
  | zero => simp [min_eq_right hm]
  | succ k ih =>
    have hI : Finset.Ico m (m + ((k + 1 : ℕ) : ℤ)) = insert (m + (k : ℤ)) (Finset.Ico m (m + (k : ℤ))) := by
      ext x; simp only [Finset.mem_Ico, Finset.mem_insert]; push_cast; omega
    rw [hI, Finset.sum_insert (by simp), ← add_assoc, add_right_comm, ih (by omega)]
    rcases lt_or_ge (m + (k : ℤ)) t with h | h
    · rw [min_eq_right h.le, min_eq_right (by push_cast; omega), max_eq_right (by linarith [h1 _ (by omega) h])]
      have : m + ((k + 1 : ℕ) : ℤ) = m + k + 1 := by push_cast; ring
      rw [this]; ring
    · rw [min_eq_left h, min_eq_left (by push_cast; omega), max_eq_left (by linarith [h2 _ h]), add_zero]

theorem kv_unimodal {lam : ℝ} (hlam : 1 < lam) {l : ℤ} (hl : 0 ≤ l) :
    ∃ t : ℤ, (∀ j < t, kv lam j l ≤ kv lam (j + 1) l) ∧ (∀ j ≥ t, kv lam (j + 1) l ≤ kv lam j l) := by
  rcases hl.lt_or_eq with h | h
  · have hl' : (0 : ℝ) < l := by exact_mod_cast h
    obtain ⟨m, hm1, hm2⟩ := exists_mem_Ioc_zpow hl' hlam
    have lo : ∀ j ≤ m, kv lam j l = 0 := fun j hj =>
      kval_above hlam ((zpow_mono' hlam hj).trans hm1.le)
    have hi : ∀ j ≥ m + 2, kv lam j l = 1 := fun j hj =>
      kval_le_edge hlam (by norm_num) (hm2.trans (zpow_mono' hlam (by omega)))
    rcases le_or_gt (kv lam (m + 1) l) 1 with hx | hx
    · refine ⟨m + 2, fun j hj => ?_, fun j hj => by rw [hi j hj, hi (j + 1) (by omega)]⟩
      rcases le_or_gt j m with h' | h'
      · rw [lo j h']; exact kv_nonneg hlam _ _
      · have : j = m + 1 := by omega
        subst this
        rw [hi (m + 1 + 1) (by omega)]; exact hx
    · refine ⟨m + 1, fun j hj => by rw [lo j (by omega)]; exact kv_nonneg hlam _ _, fun j hj => ?_⟩
      rcases hj.lt_or_eq with h' | h'
      · rw [hi j (by omega), hi (j + 1) (by omega)]
      · subst h'
        rw [hi _ (by omega)]; exact hx.le
  · subst h
    exact ⟨0, fun j _ => by rw [kv, kv, kval_zero hlam, kval_zero hlam],
      fun j _ => by rw [kv, kv, kval_zero hlam, kval_zero hlam]⟩

/-- degree-wise frame bound: `phi² + Σ psi²` -/
noncomputable def gain (lam : ℝ) (J_min J l : ℤ) : ℝ :=
  phiAx lam J_min l ^ 2 + ∑ j ∈ Finset.Ico J_min (J + 1), psiAx lam j l ^ 2

theorem psiAx_sq (lam : ℝ) (j l : ℤ) : psiAx lam j l ^ 2 = max 0 (kv lam (j + 1) l - kv lam j l) := by
  rw [psiAx, Real.sq_sqrt (le_max_left _ _)]

theorem phiAx_sq {lam : ℝ} (hlam : 1 < lam) (J_min l : ℤ) : phiAx lam J_min l ^ 2 = kv lam J_min l := by
  rw [phiAx, Real.sq_sqrt (kv_nonneg hlam _ _)]

/-- the gain is the largest entry of column `l` of `k_lam` between `J_min` and `J + 1` -/
theorem gain_isGreatest {lam : ℝ} (hlam : 1 < lam) {J_min J l : ℤ} (hJ : J_min ≤ J) (hl : 0 ≤ l) :
    IsGreatest {x | ∃ j, J_min ≤ j ∧ j ≤ J + 1 ∧ kv lam j l = x} (gain lam J_min J l) := by
  obtain ⟨t, h1, h2⟩ := kv_unimodal hlam hl
  unfold gain
  simp only [psiAx_sq, phiAx_sq hlam]
  constructor
  · rcases le_total J_min t with h | h
    · rw [unimodal_sum (fun j _ => h1 j) h2 h (by omega)]
      exact ⟨_, by omega, by omega, rfl⟩
    · rw [unimodal_sum (t := J_min) (m := J_min) (n := J + 1) (a := fun j => kv lam j l)
        (h2 := fun j hj => h2 j (by omega)) (h1 := ?_) (hm := le_rfl) (hn := by omega)]
      · exact ⟨_, by omega, by omega, rfl⟩
      · intro j h3 h4; omega
  · rintro x ⟨j, hj0, hj1, rfl⟩
    have tele : ∀ k : ℕ, kv lam (J_min + k) l ≤
        kv lam J_min l + ∑ i ∈ Finset.Ico J_min (J_min + k), max 0 (kv lam (i + 1) l - kv lam i l) := by
      intro k
      induction k with
      | zero => simp
      | succ k ih =>
        have hI : Finset.Ico J_min (J_min + ((k + 1 : ℕ) : ℤ)) =
            insert (J_min + (k : ℤ)) (Finset.Ico J_min (J_min + (k : ℤ))) := by
          ext x; simp only [Finset.mem_Ico, Finset.mem_insert]; push_cast; omega
        rw [hI, Finset.sum_insert (by simp)]
        have := le_max_right 0 (kv lam (J_min + k + 1) l - kv lam (J_min + k) l)
        have he : J_min + ((k + 1 : ℕ) : ℤ) = J_min + k + 1 := by push_cast; ring
        rw [he]
        linarith
    have := tele (j - J_min).toNat
    have he : J_min + ((j - J_min).toNat : ℤ) = j := by omega
    rw [he] at this
    refine this.trans ?_
    have hs : Finset.Ico J_min j ⊆ Finset.Ico J_min (J + 1) := Finset.Ico_subset_Ico le_rfl hj1
    have := Finset.sum_le_sum_of_subset_of_nonneg (f := fun i => max 0 (kv lam (i + 1) l - kv lam i l)) hs
      (fun i _ _ => le_max_left _ _)
    linarith

end S2wav
