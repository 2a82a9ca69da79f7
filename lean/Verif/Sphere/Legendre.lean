import Verif.Sphere.Ortho
import Mathlib.Analysis.Calculus.LocalExtr.Rolle
import Mathlib.Data.Finset.Sort
import Mathlib.Analysis.SpecialFunctions.Trigonometric.Inverse

/-! # Zeros of the Legendre polynomials

The colatitudes of Gauss-Legendre sampling are the zeros of `d^L_{00}`, the Legendre polynomial of `cos β`. -/

namespace S2wav.Sphere
open Polynomial

theorem rolle_finset (P : ℝ[X]) {a b : ℝ} {n : ℕ} {T : Finset ℝ} (hc : T.card = n + 1) (hT : ∀ x ∈ T, a ≤ x ∧ x ≤ b ∧ P.eval x = 0) :
    ∃ S : Finset ℝ, S.card = n ∧ ∀ x ∈ S, a < x ∧ x < b ∧ (derivative P).eval x = 0 := by
  set e := T.orderEmbOfFin hc with he
  have hm : ∀ i, e i ∈ T := fun i => T.orderEmbOfFin_mem hc i
  have key : ∀ i : Fin n, ∃ x, e i.castSucc < x ∧ x < e i.succ ∧ (derivative P).eval x = 0 := by
    intro i
    have hlt : e i.castSucc < e i.succ := e.strictMono Fin.castSucc_lt_succ
    obtain ⟨x, hx, h0⟩ := exists_hasDerivAt_eq_zero (f := fun x => P.eval x) (f' := fun x => (derivative P).eval x) hlt
      P.continuous.continuousOn (by rw [(hT _ (hm _)).2.2, (hT _ (hm _)).2.2]) fun x _ => P.hasDerivAt x
    exact ⟨x, hx.1, hx.2, h0⟩
  choose x h1 h2 h3 using key
  have hx : StrictMono x := by
    intro i j hij
    refine (h2 i).trans_le (le_trans ?_ (h1 j).le)
    exact e.monotone (Fin.succ_le_castSucc_iff.2 hij)
  refine ⟨Finset.univ.image x, ?_, ?_⟩
  · rw [Finset.card_image_of_injective _ hx.injective, Finset.card_univ, Fintype.card_fin]
  · intro y hy
    obtain ⟨i, -, rfl⟩ := Finset.mem_image.1 hy
    exact ⟨(hT _ (hm _)).1.trans_lt (h1 i), (h2 i).trans_le (hT _ (hm _)).2.1, h3 i⟩

/-- the derivatives of `X^K (1 - X)^K` vanish at both ends and, the `k`th, at `k` points between -/
theorem rodrigues_zeros (K k : ℕ) (hk : k ≤ K) : ∃ S : Finset ℝ, S.card = k ∧
    ∀ x ∈ S, 0 < x ∧ x < 1 ∧ (derivative^[k] (X ^ K * (1 - X) ^ K : ℝ[X])).eval x = 0 := by
  induction k with
  | zero => exact ⟨∅, rfl, by simp⟩
  | succ k ih =>
    obtain ⟨S, hS, h⟩ := ih (by omega)
    have d0 : (X : ℝ[X]) ∣ derivative^[k] (X ^ K * (1 - X) ^ K) :=
      (dvd_pow_self X (by omega : K - k ≠ 0)).trans (pow_sub_dvd_iterate_derivative_of_pow_dvd k (Dvd.intro _ rfl))
    have d1 : (1 - X : ℝ[X]) ∣ derivative^[k] (X ^ K * (1 - X) ^ K) :=
      (dvd_pow_self (1 - X) (by omega : K - k ≠ 0)).trans (pow_sub_dvd_iterate_derivative_of_pow_dvd k (Dvd.intro_left _ rfl))
    have h0 : (derivative^[k] (X ^ K * (1 - X) ^ K : ℝ[X])).eval 0 = 0 := by obtain ⟨R, hR⟩ := d0; rw [hR]; simp
    have h1 : (derivative^[k] (X ^ K * (1 - X) ^ K : ℝ[X])).eval 1 = 0 := by obtain ⟨R, hR⟩ := d1; rw [hR]; simp
    have n0 : (0 : ℝ) ∉ S := fun hx => lt_irrefl _ (h 0 hx).1
    have n1 : (1 : ℝ) ∉ S := fun hx => lt_irrefl _ (h 1 hx).2.1
    obtain ⟨S', h2, h3⟩ := rolle_finset (derivative^[k] (X ^ K * (1 - X) ^ K : ℝ[X])) (a := 0) (b := 1) (n := k + 1) (T := insert 0 (insert 1 S))
      (by rw [Finset.card_insert_of_notMem (by simp [n0]), Finset.card_insert_of_notMem n1, hS]) (by
        intro x hx
        rw [Finset.mem_insert, Finset.mem_insert] at hx
        rcases hx with rfl | rfl | hx
        · exact ⟨le_rfl, zero_le_one, h0⟩
        · exact ⟨zero_le_one, le_rfl, h1⟩
        · exact ⟨(h x hx).1.le, (h x hx).2.1.le, (h x hx).2.2⟩)
    refine ⟨S', h2, fun x hx => ?_⟩
    rw [Function.iterate_succ_apply']
    exact h3 x hx

/-- the zeros of the Legendre polynomial, as values of `sin² (θ / 2)`, in ascending order -/
noncomputable def glNodes (L : ℤ) : List ℝ := (wpoly L 0 0).roots.toFinset.sort (· ≤ ·)

/-- the colatitudes of Gauss-Legendre sampling, from north to south -/
noncomputable def glθ (L t : ℤ) : ℝ := Real.arccos (1 - 2 * (glNodes L).getD t.toNat 0)

theorem wpoly_zeros {L : ℤ} (hL : 0 ≤ L) : (wpoly L 0 0).roots.toFinset.card = L.toNat ∧
    ∀ x ∈ (wpoly L 0 0).roots.toFinset, 0 < x ∧ x < 1 := by
  obtain ⟨K, rfl⟩ : ∃ K : ℕ, L = K := ⟨L.toNat, by omega⟩
  have hw : wpoly K 0 0 = C (Real.sqrt (K.factorial * K.factorial * K.factorial * K.factorial)) * jac 0 0 K := by
    have := wpoly_eq (l := K) (m := 0) (n := 0) (by simp) (by simp)
    simpa using this
  have hr := rodrigues 0 0 K
  simp only [zero_add, pow_zero, one_mul] at hr
  have hne : wpoly K 0 0 ≠ 0 := by
    intro h0
    exact wpoly_coeff (l := K) (m := 0) (n := 0) (by simp) (by simp) (by rw [h0]; simp)
  have hdeg : (wpoly K 0 0).natDegree ≤ K := by
    have := wpoly_degree (l := K) (m := 0) (n := 0)
    simpa using this
  obtain ⟨S, hS, h⟩ := rodrigues_zeros K K le_rfl
  have hsub : S ⊆ (wpoly K 0 0).roots.toFinset := by
    intro x hx
    rw [Multiset.mem_toFinset, mem_roots hne, IsRoot.def, hw]
    have h0 := (h x hx).2.2
    rw [hr, eval_mul, eval_C] at h0
    have hK : (K.factorial : ℝ) * K.factorial * K.factorial ≠ 0 := by positivity
    rw [eval_mul, (mul_eq_zero.1 h0).resolve_left hK, mul_zero]
  have hle : (wpoly K 0 0).roots.toFinset.card ≤ S.card := by
    rw [hS]
    exact (Multiset.toFinset_card_le _).trans ((card_roots' _).trans hdeg)
  have heq := Finset.eq_of_subset_of_card_le hsub hle
  rw [← heq]
  exact ⟨by simpa using hS, fun x hx => ⟨(h x hx).1, (h x hx).2.1⟩⟩

theorem glNodes_get {L t : ℤ} (hL : 0 ≤ L) (h0 : 0 ≤ t) (h1 : t < L) : ∃ h : t.toNat < (glNodes L).length,
    (glNodes L).getD t.toNat 0 = (glNodes L)[t.toNat] ∧ 0 < (glNodes L)[t.toNat] ∧ (glNodes L)[t.toNat] < 1 := by
  have hw := wpoly_zeros hL
  have hl : (glNodes L).length = L.toNat := by rw [glNodes, Finset.length_sort, hw.1]
  have h : t.toNat < (glNodes L).length := by omega
  refine ⟨h, by rw [List.getD_eq_getElem?_getD, List.getElem?_eq_getElem h, Option.getD_some], hw.2 _ ?_⟩
  exact (Finset.mem_sort (α := ℝ) (· ≤ ·)).1 (List.getElem_mem h)

theorem glθ_mem {L t : ℤ} (h0 : 0 ≤ t) (h1 : t < L) : 0 < glθ L t ∧ glθ L t < Real.pi := by
  obtain ⟨h, e, h2, h3⟩ := glNodes_get (by omega) h0 h1
  unfold glθ
  rw [e]
  refine ⟨Real.arccos_pos.2 (by linarith), lt_of_le_of_ne (Real.arccos_le_pi _) fun hp => ?_⟩
  have := Real.arccos_eq_pi.1 hp
  linarith

theorem glθ_lt {L t t' : ℤ} (h0 : 0 ≤ t) (h : t < t') (h1 : t' < L) : glθ L t < glθ L t' := by
  obtain ⟨i, e, h2, h3⟩ := glNodes_get (L := L) (by omega) h0 (by omega)
  obtain ⟨i', e', h2', h3'⟩ := glNodes_get (L := L) (t := t') (by omega) (by omega) h1
  unfold glθ
  rw [e, e']
  refine Real.strictAntiOn_arccos ⟨by linarith, by linarith⟩ ⟨by linarith, by linarith⟩ ?_
  have hs : (glNodes L).SortedLT := Finset.sortedLT_sort _
  have := hs.strictMono_get (a := ⟨t.toNat, i⟩) (b := ⟨t'.toNat, i'⟩) (by show t.toNat < t'.toNat; omega)
  simp only [List.get_eq_getElem] at this
  linarith

theorem glθ_zero {L t : ℤ} (h0 : 0 ≤ t) (h1 : t < L) : wignerd L 0 0 (glθ L t) = 0 := by
  obtain ⟨h, e, h2, h3⟩ := glNodes_get (by omega) h0 h1
  have hm : (glNodes L)[t.toNat] ∈ (wpoly L 0 0).roots.toFinset := (Finset.mem_sort (α := ℝ) (· ≤ ·)).1 (List.getElem_mem h)
  have hr := (mem_roots'.1 (Multiset.mem_toFinset.1 hm)).2
  rw [wignerd_eq]
  have hs : Real.sin (glθ L t / 2) ^ 2 = (glNodes L)[t.toNat] := by
    rw [Real.sin_sq_eq_half_sub, mul_div_cancel₀ _ (two_ne_zero), glθ, e, Real.cos_arccos (by linarith) (by linarith)]
    ring
  rw [hs]
  have : (wpoly L 0 0).eval (glNodes L)[t.toNat] = 0 := hr
  rw [this, mul_zero]

/-- the colatitudes are all the zeros of the Legendre polynomial -/
theorem glθ_all {L : ℤ} (hL : 0 ≤ L) {θ : ℝ} (h0 : 0 ≤ θ) (h1 : θ ≤ Real.pi) (h : wignerd L 0 0 θ = 0) :
    ∃ t, 0 ≤ t ∧ t < L ∧ glθ L t = θ := by
  rw [wignerd_eq] at h
  have hne : wpoly L 0 0 ≠ 0 := by
    intro h0
    exact wpoly_coeff (l := L) (m := 0) (n := 0) (by simpa using hL) (by simpa using hL) (by rw [h0]; simp)
  have he : (wpoly L 0 0).eval (Real.sin (θ / 2) ^ 2) = 0 := by simpa using h
  have hm : Real.sin (θ / 2) ^ 2 ∈ glNodes L :=
    (Finset.mem_sort (α := ℝ) (· ≤ ·)).2 (Multiset.mem_toFinset.2 ((mem_roots hne).2 he))
  obtain ⟨i, hi, e⟩ := List.mem_iff_getElem.1 hm
  have hl : (glNodes L).length = L.toNat := by rw [glNodes, Finset.length_sort, (wpoly_zeros hL).1]
  refine ⟨i, by omega, by omega, ?_⟩
  unfold glθ
  rw [Int.toNat_natCast, List.getD_eq_getElem?_getD, List.getElem?_eq_getElem hi, Option.getD_some, e, Real.sin_sq_eq_half_sub, mul_div_cancel₀ _ (two_ne_zero)]
  rw [show 1 - 2 * (1 / 2 - Real.cos θ / 2) = Real.cos θ by ring, Real.arccos_cos h0 h1]

end S2wav.Sphere
