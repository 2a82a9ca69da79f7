import Verif.Lemmas.FloatSpinLoop

/-! # `filters_directional` with `spin0`, against the same routine without it, whatever the normalisation -/

namespace S2wav
open Classical

/-- both computations return related values, or both raise the same exception -/
def PyRel {σ τ : Type} (R : σ → τ → Prop) : Py σ → Py τ → Prop
  | .ok a, .ok b => R a b
  | .error e, .error e' => e = e'
  | _, _ => False

theorem PyRel.bind {σ τ ρ ρ' : Type} {R : σ → τ → Prop} {Q : ρ → ρ' → Prop} {A : Py σ} {B : Py τ} {F : σ → Py ρ} {G : τ → Py ρ'}
    (h : PyRel R A B) (hF : ∀ a b, R a b → PyRel Q (F a) (G b)) : PyRel Q (A >>= F) (B >>= G) := by
  cases A with
  | error e => cases B with
    | error e' => exact h
    | ok b => exact h.elim
  | ok a => cases B with
    | error e' => exact h.elim
    | ok b => exact hF a b h

theorem PyRel.foldlM {α σ τ : Type} {R : σ → τ → Prop} {body : σ → α → Py σ} {body' : τ → α → Py τ} {l : List α}
    (h : ∀ s t, ∀ x ∈ l, R s t → PyRel R (body s x) (body' t x)) {s : σ} {t : τ} (hst : R s t) :
    PyRel R (l.foldlM body s) (l.foldlM body' t) := by
  induction l generalizing s t with
  | nil => exact hst
  | cons x l ih =>
    rw [List.foldlM_cons, List.foldlM_cons]
    exact PyRel.bind (h s t x (by simp) hst) fun a b hab => ih (fun s t y hy => h s t y (by simp [hy])) hab

/-- the entries of the second array are those of the first multiplied by the factor of their degree, or both are zero -/
def Rel1 (e : ℤ) (nm : ℤ → F64) (a b : Arr1 F64) : Prop :=
  b.n = a.n ∧ ∀ l, (a.v l = 0 ∧ b.v l = 0) ∨ (e ≤ l ∧ b.v l = (a.v l).mul (nm l))

/-- the entries of the second array are those of the first multiplied by the factor of their degree, or both are zero -/
def Rel3 (e : ℤ) (nm : ℤ → F64) (a b : Arr3 C64) : Prop :=
  b.d = a.d ∧ b.r = a.r ∧ b.c = a.c ∧
    ∀ j l k, (a.v j l k = 0 ∧ b.v j l k = 0) ∨ (e ≤ l ∧ b.v j l k = (a.v j l k).mul (C64.ofReal (nm l)))

theorem Rel1.set {e : ℤ} {nm : ℤ → F64} {a b : Arr1 F64} (h : Rel1 e nm a b) {i : ℤ} (h0 : 0 ≤ i) (he : e ≤ i) (x : F64) :
    PyRel (Rel1 e nm) (a.set i x) (b.set i (x.mul (nm i))) := by
  unfold Arr1.set
  rw [h.1]
  cases hi : pyIdx a.n i with
  | error e => rfl
  | ok i' =>
    obtain ⟨rfl, h1⟩ := pyIdx_nonneg hi h0
    refine ⟨rfl, fun k => ?_⟩
    by_cases hk : 0 ≤ k ∧ k < a.n
    · rw [Arr1.of_v _ _ _ hk, Arr1.of_v _ _ _ hk]
      by_cases hk : k = i'
      · rw [if_pos hk, if_pos hk, hk]; exact Or.inr ⟨he, rfl⟩
      · rw [if_neg hk, if_neg hk]; exact h.2 k
    · left
      exact ⟨Arr1.of_out _ _ _ hk, Arr1.of_out _ _ _ hk⟩

theorem Rel3.set {e : ℤ} {nm : ℤ → F64} {a b : Arr3 C64} (h : Rel3 e nm a b) {j i k : ℤ} (h0 : 0 ≤ i) (he : e ≤ i) (x : C64) :
    PyRel (Rel3 e nm) (a.set j i k x) (b.set j i k (x.mul (C64.ofReal (nm i)))) := by
  unfold Arr3.set
  rw [h.1, h.2.1, h.2.2.1]
  cases hj : pyIdx a.d j with
  | error e => rfl
  | ok j' =>
  cases hi : pyIdx a.r i with
  | error e => rfl
  | ok i' =>
  cases hk : pyIdx a.c k with
  | error e => rfl
  | ok k' =>
    obtain ⟨rfl, h1⟩ := pyIdx_nonneg hi h0
    refine ⟨rfl, rfl, rfl, fun p q r => ?_⟩
    by_cases hh : 0 ≤ p ∧ p < a.d ∧ 0 ≤ q ∧ q < a.r ∧ 0 ≤ r ∧ r < a.c
    · rw [Arr3.of_v _ _ _ _ _ _ _ hh, Arr3.of_v _ _ _ _ _ _ _ hh]
      by_cases hk : p = j' ∧ q = i' ∧ r = k'
      · rw [if_pos hk, if_pos hk, hk.2.1]; exact Or.inr ⟨he, rfl⟩
      · rw [if_neg hk, if_neg hk]; exact h.2.2.2 p q r
    · left
      exact ⟨Arr3.of_out _ _ _ _ _ _ _ hh, Arr3.of_out _ _ _ _ _ _ _ hh⟩

theorem filters_directional_spin64_rel (m : Libm) (lg : F64 → F64) (jm : JMax) (L N J_min : ℤ) (lam : ℝ) (spin : ℤ) {spin0 : ℤ} (hs : spin0 ≠ 0)
    {sn : ℤ → F64} (hn : ∀ l, max |spin| |spin0| ≤ l → l < L → spin_normalization64 l spin0 = .ok (sn l)) :
    PyRel (fun r s => Rel3 (max |spin| |spin0|) (fun l => (sn l).mul (.fin ((-1 : ℝ) ^ spin0))) r.1 s.1 ∧
        Rel1 (max |spin| |spin0|) (fun l => (sn l).mul (.fin ((-1 : ℝ) ^ spin0))) r.2 s.2)
      (filters_directional64 m lg jm L N J_min lam (max |spin| |spin0|))
      (filters_directional_spin64 m lg jm L N J_min lam spin spin0) := by
  have he0 : 0 ≤ max |spin| |spin0| := le_max_of_le_left (abs_nonneg spin)
  unfold filters_directional_spin64 filters_directional64
  rw [abs_of_nonneg he0]
  generalize max |spin| |spin0| = e at *
  cases hJ : jm L lam with
  | error er => exact rfl
  | ok J =>
  by_cases hL : L < 0
  · simp only [Py.bind_ok, zeros1, if_pos hL]; exact rfl
  by_cases hd : J + 1 < 0 ∨ L < 0 ∨ 2 * L - 1 < 0
  · simp only [Py.bind_ok, zeros1, if_neg hL, zeros3, if_pos hd]; exact rfl
  simp only [Py.bind_ok, zeros1, if_neg hL, zeros3, if_neg hd]
  cases hax : filters_axisym64 m jm L J_min lam with
  | error er => exact rfl
  | ok kk =>
  obtain ⟨kappa, kappa0⟩ := kk
  cases ht : tiling_direction64 m lg L N with
  | error er => exact rfl
  | ok st =>
  simp only [Py.bind_ok]
  refine PyRel.bind (R := Rel1 e fun l => (sn l).mul (.fin ((-1 : ℝ) ^ spin0))) (PyRel.foldlM ?_ ?_) fun phi phi' hphi =>
    PyRel.bind (R := Rel3 e fun l => (sn l).mul (.fin ((-1 : ℝ) ^ spin0))) (PyRel.foldlM ?_ ?_) fun psi psi' hpsi => ⟨hpsi, hphi⟩
  · intro s t el hel hst
    obtain ⟨h0, h1⟩ := mem_pyRange.1 hel
    cases hk : kappa0.get el with
    | error er => exact rfl
    | ok k0 =>
    simp only [Py.bind_ok, if_pos hs]
    by_cases hz : k0 ≠ 0
    · rw [if_pos hz, if_pos hz]
      simp only [hn el h0 h1, Py.bind_ok]
      have := Arr1.set_get t el ((((F64.ofInt (2 * el + 1)).div ((F64.fin 4).mul pi64)).sqrt).mul k0) fun x : F64 => x.mul ((sn el).mul (.fin ((-1 : ℝ) ^ spin0)))
      rw [this]
      exact hst.set (by omega) h0 _
    · rw [if_neg hz, if_neg hz]; exact hst
  · refine ⟨rfl, fun l => Or.inl ?_⟩
    have : (Arr1.of L fun _ => (0 : F64)).v l = 0 := by
      by_cases hk : 0 ≤ l ∧ l < L
      · rw [Arr1.of_v _ _ _ hk]
      · exact Arr1.of_out _ _ _ hk
    exact ⟨this, this⟩
  · intro s t j hj hst
    refine PyRel.foldlM ?_ hst
    intro s t el hel hst
    obtain ⟨h0, h1⟩ := mem_pyRange.1 hel
    cases hk : kappa.get j el with
    | error er => exact rfl
    | ok kj =>
    simp only [Py.bind_ok]
    by_cases hz : kj ≠ 0
    · rw [if_pos hz, if_pos hz]
      refine PyRel.foldlM ?_ hst
      intro s t n hn' hst
      cases hv : st.get el (L - 1 + n) with
      | error er => exact rfl
      | ok sv =>
      simp only [Py.bind_ok]
      by_cases hz : sv ≠ 0
      · rw [if_pos hz, if_pos hz]
        simp only [hn el h0 h1, Py.bind_ok, if_pos hs]
        have := Arr3.set_get t j el (L - 1 + n) ((C64.ofReal
            ((((F64.ofInt (2 * el + 1)).div (((F64.fin 8).mul pi64).mul pi64)).sqrt).mul kj)).mul sv)
          fun x : C64 => x.mul (C64.ofReal ((sn el).mul (.fin ((-1 : ℝ) ^ spin0))))
        rw [this]
        exact hst.set (by omega) h0 _
      · rw [if_neg hz, if_neg hz]; exact hst
    · rw [if_neg hz, if_neg hz]; exact hst
  · refine ⟨rfl, rfl, rfl, fun j l k => Or.inl ?_⟩
    have : (Arr3.of (J + 1) L (2 * L - 1) fun _ _ _ => (0 : C64)).v j l k = 0 := by
      by_cases hh : 0 ≤ j ∧ j < J + 1 ∧ 0 ≤ l ∧ l < L ∧ 0 ≤ k ∧ k < 2 * L - 1
      · rw [Arr3.of_v _ _ _ _ _ _ _ hh]
      · exact Arr3.of_out _ _ _ _ _ _ _ hh
    exact ⟨this, this⟩

/-- for a positive `spin0` the normalisation is always a float -/
theorem spin_normalization64_pos (l : ℤ) {s : ℤ} (hs : 0 < s) : ∃ z, spin_normalization64 l s = .ok z := by
  unfold spin_normalization64
  have : ∀ (xs : List ℤ) (f : F64), ∃ z, xs.foldlM (fun (factor : F64) (s : ℤ) => (.ok (factor.mul (.ofInt (l + s))) : Py F64)) f = .ok z := by
    intro xs
    induction xs with
    | nil => exact fun f => ⟨f, rfl⟩
    | cons x xs ih => intro f; rw [List.foldlM_cons]; exact ih _
  obtain ⟨z, hz⟩ := this (pyRange (-|s| + 1) (|s| + 1)) (.fin 1)
  rw [hz]
  simp only [Py.bind_ok]
  rw [if_pos hs]
  exact ⟨_, rfl⟩

theorem neg_one_zpow_cases' (n : ℤ) : (-1 : ℝ) ^ n = 1 ∨ (-1 : ℝ) ^ n = -1 := by
  rcases Int.even_or_odd n with h | h
  · left; exact h.neg_one_zpow
  · right; exact h.neg_one_zpow

theorem F64.inf_sign (n : ℤ) : F64.inf.mul (.fin ((-1 : ℝ) ^ n)) = .inf ∨ F64.inf.mul (.fin ((-1 : ℝ) ^ n)) = .ninf := by
  rcases neg_one_zpow_cases' n with e | e <;> rw [e]
  · left; show F64.infOf 1 = _; unfold F64.infOf; rw [if_pos one_pos]
  · right; show F64.infOf (-1) = _; unfold F64.infOf; rw [if_neg (by norm_num), if_pos (by norm_num)]

/-- an infinite factor makes every nonzero number infinite -/
theorem F64.mul_inf_sign {x : ℝ} (hx : x ≠ 0) (n : ℤ) : (F64.fin x).mul (F64.inf.mul (.fin ((-1 : ℝ) ^ n))) = .inf ∨
    (F64.fin x).mul (F64.inf.mul (.fin ((-1 : ℝ) ^ n))) = .ninf := by
  have key : ∀ y : ℝ, y ≠ 0 → F64.infOf y = .inf ∨ F64.infOf y = .ninf := by
    intro y hy
    unfold F64.infOf
    rcases lt_or_gt_of_ne hy with h | h
    · right; rw [if_neg h.not_gt, if_pos h]
    · left; rw [if_pos h]
  rcases F64.inf_sign n with e | e <;> rw [e]
  · exact key x hx
  · exact key (-x) (neg_ne_zero.2 hx)

/-- an infinite factor leaves no nonzero complex number finite -/
theorem C64.mul_inf_sign {z : ℂ} (hz : z ≠ 0) (n : ℤ) (w : ℂ) : (C64.ofC z).mul (C64.ofReal (F64.inf.mul (.fin ((-1 : ℝ) ^ n)))) ≠ C64.ofC w := by
  intro h
  have h1 : ((F64.fin z.re).mul (F64.inf.mul (.fin ((-1 : ℝ) ^ n)))).sub ((F64.fin z.im).mul (.fin 0)) = .fin w.re := congrArg C64.re h
  have h2 : ((F64.fin z.re).mul (.fin 0)).add ((F64.fin z.im).mul (F64.inf.mul (.fin ((-1 : ℝ) ^ n)))) = .fin w.im := congrArg C64.im h
  rw [F64.mul_fin, mul_zero, of_zero] at h1 h2
  by_cases hr : z.re = 0
  · have hi : z.im ≠ 0 := fun hi => hz (Complex.ext hr hi)
    rcases F64.mul_inf_sign hi n with e | e <;> rw [e] at h2 <;> cases h2
  · rcases F64.mul_inf_sign hr n with e | e <;> rw [e] at h1 <;> cases h1

end S2wav
