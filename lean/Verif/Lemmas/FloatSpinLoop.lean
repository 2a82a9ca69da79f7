import Verif.Lemmas.FloatSpin
import Verif.Lemmas.FloatTiling

/-! # `filters_directional` with `spin0`, against the same routine without it -/

namespace S2wav
open Classical

/-- two loops in lock step, the states of the second being the images of those of the first -/
theorem foldlM_image {α σ τ : Type} (g : σ → τ) {body : σ → α → Py σ} {body' : τ → α → Py τ} {l : List α}
    (h : ∀ s, ∀ x ∈ l, body' (g s) x = (body s x) >>= fun s => .ok (g s)) (s : σ) :
    l.foldlM body' (g s) = l.foldlM body s >>= fun s => .ok (g s) := by
  induction l generalizing s with
  | nil => rfl
  | cons x l ih =>
    rw [List.foldlM_cons, List.foldlM_cons, h s x (by simp)]
    cases hb : body s x with
    | error e => rfl
    | ok s' =>
      simp only [Py.bind_ok]
      exact ih (fun s y hy => h s y (by simp [hy])) s'

theorem bind_image {σ τ ρ ρ' : Type} {g : σ → τ} {A : Py σ} {B' : τ → Py ρ'} {B : σ → Py ρ} {h : ρ → Py ρ'} (hB : ∀ s, B' (g s) = B s >>= h) :
    ((A >>= fun s => .ok (g s)) >>= B') = (A >>= B) >>= h := by
  cases A with
  | error e => rfl
  | ok s => exact hB s

theorem Arr1.set_get {α : Type} [Zero α] (a : Arr1 α) (i : ℤ) (x : α) (g : α → α) :
    (a.set i x >>= fun b => b.get i >>= fun y => b.set i (g y)) = a.set i (g x) := by
  unfold Arr1.set Arr1.get
  cases hi : pyIdx a.n i with
  | error e => rfl
  | ok i' =>
    have hr : 0 ≤ i' ∧ i' < a.n := by
      unfold pyIdx at hi
      split_ifs at hi <;> cases hi <;> omega
    simp only [Py.bind_ok, Arr1.of_n, hi]
    rw [Arr1.of_v _ _ _ hr, if_pos rfl]
    congr 1
    refine Arr1.ext' rfl fun k h0 h1 => ?_
    have h1 : k < a.n := h1
    rw [Arr1.of_v _ _ _ ⟨h0, h1⟩]
    by_cases hk : k = i'
    · rw [if_pos hk, Arr1.of_v _ _ _ ⟨h0, h1⟩, if_pos hk]
    · rw [if_neg hk, Arr1.of_v _ _ _ ⟨h0, h1⟩, Arr1.of_v _ _ _ ⟨h0, h1⟩, if_neg hk, if_neg hk]

theorem Arr3.set_get {α : Type} [Zero α] (a : Arr3 α) (i j k : ℤ) (x : α) (g : α → α) :
    (a.set i j k x >>= fun b => b.get i j k >>= fun y => b.set i j k (g y)) = a.set i j k (g x) := by
  unfold Arr3.set Arr3.get
  cases hi : pyIdx a.d i with
  | error e => rfl
  | ok i' =>
  cases hj : pyIdx a.r j with
  | error e => rfl
  | ok j' =>
  cases hk : pyIdx a.c k with
  | error e => rfl
  | ok k' =>
    have r1 : 0 ≤ i' ∧ i' < a.d := by
      unfold pyIdx at hi
      split_ifs at hi <;> cases hi <;> omega
    have r2 : 0 ≤ j' ∧ j' < a.r := by
      unfold pyIdx at hj
      split_ifs at hj <;> cases hj <;> omega
    have r3 : 0 ≤ k' ∧ k' < a.c := by
      unfold pyIdx at hk
      split_ifs at hk <;> cases hk <;> omega
    simp only [Py.bind_ok, Arr3.of_d, Arr3.of_r, Arr3.of_c, hi, hj, hk]
    rw [Arr3.of_v _ _ _ _ _ _ _ ⟨r1.1, r1.2, r2.1, r2.2, r3.1, r3.2⟩, if_pos ⟨rfl, rfl, rfl⟩]
    congr 1
    refine Arr3.ext' rfl rfl rfl fun p q r h0 h1 h2 h3 h4 h5 => ?_
    have h1 : p < a.d := h1
    have h3 : q < a.r := h3
    have h5 : r < a.c := h5
    rw [Arr3.of_v _ _ _ _ _ _ _ ⟨h0, h1, h2, h3, h4, h5⟩]
    by_cases hh : p = i' ∧ q = j' ∧ r = k'
    · rw [if_pos hh, Arr3.of_v _ _ _ _ _ _ _ ⟨h0, h1, h2, h3, h4, h5⟩, if_pos hh]
    · rw [if_neg hh, Arr3.of_v _ _ _ _ _ _ _ ⟨h0, h1, h2, h3, h4, h5⟩, Arr3.of_v _ _ _ _ _ _ _ ⟨h0, h1, h2, h3, h4, h5⟩, if_neg hh, if_neg hh]

/-- every entry at a degree from `e` on multiplied by the factor of its degree, the others zero -/
noncomputable def scale1 (e : ℤ) (nm : ℤ → F64) (a : Arr1 F64) : Arr1 F64 :=
  Arr1.of a.n fun l => if e ≤ l then (a.v l).mul (nm l) else 0

/-- every entry at a degree from `e` on multiplied by the factor of its degree, the others zero -/
noncomputable def scale3 (e : ℤ) (nm : ℤ → F64) (a : Arr3 C64) : Arr3 C64 :=
  Arr3.of a.d a.r a.c fun j l k => if e ≤ l then (a.v j l k).mul (C64.ofReal (nm l)) else 0

theorem pyIdx_nonneg {n i i' : ℤ} (h : pyIdx n i = .ok i') (h0 : 0 ≤ i) : i' = i ∧ i < n := by
  unfold pyIdx at h
  split_ifs at h with h1 h2 <;> cases h <;> omega

theorem scale1_set {e : ℤ} (nm : ℤ → F64) (a : Arr1 F64) {i : ℤ} (h0 : 0 ≤ i) (he : e ≤ i) (x : F64) :
    (scale1 e nm a).set i (x.mul (nm i)) = a.set i x >>= fun b => .ok (scale1 e nm b) := by
  unfold Arr1.set
  rw [show (scale1 e nm a).n = a.n from rfl]
  cases hi : pyIdx a.n i with
  | error e => rfl
  | ok i' =>
    obtain ⟨rfl, h1⟩ := pyIdx_nonneg hi h0
    simp only [Py.bind_ok]
    congr 1
    refine Arr1.ext' rfl fun k h2 h3 => ?_
    have h3 : k < a.n := h3
    unfold scale1
    simp only [Arr1.of_n]
    rw [Arr1.of_v _ _ _ ⟨h2, h3⟩, Arr1.of_v _ _ _ ⟨h2, h3⟩, Arr1.of_v _ _ _ ⟨h2, h3⟩, Arr1.of_v _ _ _ ⟨h2, h3⟩]
    by_cases hk : k = i'
    · rw [if_pos hk, if_pos hk, hk, if_pos he]
    · rw [if_neg hk, if_neg hk]

theorem scale3_set {e : ℤ} (nm : ℤ → F64) (a : Arr3 C64) {j i k : ℤ} (h0 : 0 ≤ i) (he : e ≤ i) (x : C64) :
    (scale3 e nm a).set j i k (x.mul (C64.ofReal (nm i))) = a.set j i k x >>= fun b => .ok (scale3 e nm b) := by
  unfold Arr3.set
  rw [show (scale3 e nm a).d = a.d from rfl, show (scale3 e nm a).r = a.r from rfl, show (scale3 e nm a).c = a.c from rfl]
  cases hj : pyIdx a.d j with
  | error e => rfl
  | ok j' =>
  cases hi : pyIdx a.r i with
  | error e => rfl
  | ok i' =>
  cases hk : pyIdx a.c k with
  | error e => rfl
  | ok k' =>
    obtain ⟨rfl, h1⟩ := pyIdx_nonneg hi h0
    simp only [Py.bind_ok]
    congr 1
    refine Arr3.ext' rfl rfl rfl fun p q r a0 a1 b0 b1 c0 c1 => ?_
    have a1 : p < a.d := a1
    have b1 : q < a.r := b1
    have c1 : r < a.c := c1
    have hh : 0 ≤ p ∧ p < a.d ∧ 0 ≤ q ∧ q < a.r ∧ 0 ≤ r ∧ r < a.c := ⟨a0, a1, b0, b1, c0, c1⟩
    unfold scale3
    simp only [Arr3.of_d, Arr3.of_r, Arr3.of_c]
    rw [Arr3.of_v _ _ _ _ _ _ _ hh, Arr3.of_v _ _ _ _ _ _ _ hh, Arr3.of_v _ _ _ _ _ _ _ hh, Arr3.of_v _ _ _ _ _ _ _ hh]
    by_cases hk : p = j' ∧ q = i' ∧ r = k'
    · rw [if_pos hk, if_pos hk, hk.2.1, if_pos he]
    · rw [if_neg hk, if_neg hk]

theorem F64.zero_mul_fin (y : ℝ) : (0 : F64).mul (.fin y) = 0 := by
  show (F64.fin 0).mul (.fin y) = .fin 0
  rw [F64.mul_fin, zero_mul, of_zero]

theorem C64.zero_mul_fin (y : ℝ) : (0 : C64).mul (C64.ofReal (.fin y)) = 0 := by
  show (⟨_, _⟩ : C64) = ⟨.fin 0, .fin 0⟩
  show (⟨((F64.fin 0).mul (.fin y)).sub ((F64.fin 0).mul (.fin 0)), ((F64.fin 0).mul (.fin 0)).add ((F64.fin 0).mul (.fin y))⟩ : C64) = _
  simp only [F64.mul_fin, zero_mul, of_zero, F64.sub_fin, F64.add_fin, sub_zero, add_zero]

theorem filters_directional_spin64_eq (m : Libm) (lg : F64 → F64) (jm : JMax) (L N J_min : ℤ) (lam : ℝ) (spin : ℤ) {spin0 : ℤ} (hs : spin0 ≠ 0)
    {nm : ℤ → ℝ} {sn : ℤ → F64}
    (hn : ∀ l, max |spin| |spin0| ≤ l → l < L → spin_normalization64 l spin0 = .ok (sn l) ∧ (sn l).mul (.fin ((-1 : ℝ) ^ spin0)) = .fin (nm l)) :
    filters_directional_spin64 m lg jm L N J_min lam spin spin0 =
      filters_directional64 m lg jm L N J_min lam (max |spin| |spin0|) >>= fun r =>
        .ok (scale3 (max |spin| |spin0|) (fun l => .fin (nm l)) r.1, scale1 (max |spin| |spin0|) (fun l => .fin (nm l)) r.2) := by
  have he0 : 0 ≤ max |spin| |spin0| := le_max_of_le_left (abs_nonneg spin)
  unfold filters_directional_spin64 filters_directional64
  rw [abs_of_nonneg he0]
  generalize max |spin| |spin0| = e at *
  cases hJ : jm L lam with
  | error er => rfl
  | ok J =>
  by_cases hL : L < 0
  · simp only [Py.bind_ok, zeros1, if_pos hL]; rfl
  by_cases hd : J + 1 < 0 ∨ L < 0 ∨ 2 * L - 1 < 0
  · simp only [Py.bind_ok, zeros1, if_neg hL, zeros3, if_pos hd]; rfl
  simp only [Py.bind_ok, zeros1, if_neg hL, zeros3, if_neg hd]
  cases hax : filters_axisym64 m jm L J_min lam with
  | error er => rfl
  | ok kk =>
  obtain ⟨kappa, kappa0⟩ := kk
  cases ht : tiling_direction64 m lg L N with
  | error er => rfl
  | ok st =>
  simp only [Py.bind_ok]
  have z1 : (Arr1.of L fun _ => (0 : F64)) = scale1 e (fun l => .fin (nm l)) (Arr1.of L fun _ => 0) := by
    refine Arr1.ext' rfl fun i h0 h1 => ?_
    have h1 : i < L := h1
    unfold scale1
    simp only [Arr1.of_n]
    rw [Arr1.of_v _ _ _ ⟨h0, h1⟩, Arr1.of_v _ _ _ ⟨h0, h1⟩, Arr1.of_v _ _ _ ⟨h0, h1⟩, F64.zero_mul_fin, ite_self]
  have z3 : (Arr3.of (J + 1) L (2 * L - 1) fun _ _ _ => (0 : C64)) = scale3 e (fun l => .fin (nm l)) (Arr3.of (J + 1) L (2 * L - 1) fun _ _ _ => 0) := by
    refine Arr3.ext' rfl rfl rfl fun p q r a0 a1 b0 b1 c0 c1 => ?_
    have hh : 0 ≤ p ∧ p < J + 1 ∧ 0 ≤ q ∧ q < L ∧ 0 ≤ r ∧ r < 2 * L - 1 := ⟨a0, a1, b0, b1, c0, c1⟩
    unfold scale3
    simp only [Arr3.of_d, Arr3.of_r, Arr3.of_c]
    rw [Arr3.of_v _ _ _ _ _ _ _ hh, Arr3.of_v _ _ _ _ _ _ _ hh, Arr3.of_v _ _ _ _ _ _ _ hh, C64.zero_mul_fin, ite_self]
  conv_lhs => rw [z1, z3]
  rw [foldlM_image (scale1 e fun l => .fin (nm l))
    (body := fun (phi : Arr1 F64) (el : ℤ) => do
      let k0 ← kappa0.get el
      if k0 ≠ 0 then phi.set el ((((F64.ofInt (2 * el + 1)).div ((F64.fin 4).mul pi64)).sqrt).mul k0)
      else .ok phi)]
  swap
  · intro s el hel
    obtain ⟨h0, h1⟩ := mem_pyRange.1 hel
    cases hk : kappa0.get el with
    | error er => rfl
    | ok k0 =>
    simp only [Py.bind_ok, if_pos hs]
    by_cases hz : k0 ≠ 0
    · rw [if_pos hz, if_pos hz]
      obtain ⟨q1, q2⟩ := hn el h0 h1
      simp only [q1, Py.bind_ok, q2]
      rw [← scale1_set (fun l => .fin (nm l)) s (by omega) h0]
      exact Arr1.set_get _ _ _ fun x : F64 => x.mul (.fin (nm el))
    · rw [if_neg hz, if_neg hz]; rfl
  refine bind_image fun phi => ?_
  rw [foldlM_image (scale3 e fun l => .fin (nm l))
    (body := fun (psi : Arr3 C64) (j : ℤ) =>
      (pyRange e L).foldlM (init := psi) fun (psi : Arr3 C64) (el : ℤ) => do
        let kj ← kappa.get j el
        if kj ≠ 0 then
          (pyRange (-el) (el + 1)).foldlM (init := psi) fun (psi : Arr3 C64) (n : ℤ) => do
            let s ← st.get el (L - 1 + n)
            if s ≠ 0 then
              psi.set j el (L - 1 + n) ((C64.ofReal
                ((((F64.ofInt (2 * el + 1)).div (((F64.fin 8).mul pi64).mul pi64)).sqrt).mul kj)).mul s)
            else .ok psi
        else .ok psi)]
  swap
  · intro s j hj
    refine foldlM_image (scale3 e fun l => .fin (nm l)) ?_ s
    intro s el hel
    obtain ⟨h0, h1⟩ := mem_pyRange.1 hel
    cases hk : kappa.get j el with
    | error er => rfl
    | ok kj =>
    simp only [Py.bind_ok]
    by_cases hz : kj ≠ 0
    · rw [if_pos hz, if_pos hz]
      refine foldlM_image (scale3 e fun l => .fin (nm l)) ?_ s
      intro s n hn'
      cases hv : st.get el (L - 1 + n) with
      | error er => rfl
      | ok sv =>
      simp only [Py.bind_ok]
      by_cases hz : sv ≠ 0
      · rw [if_pos hz, if_pos hz]
        obtain ⟨q1, q2⟩ := hn el h0 h1
        simp only [q1, Py.bind_ok, q2, if_pos hs]
        rw [← scale3_set (fun l => .fin (nm l)) s (by omega) h0]
        exact Arr3.set_get _ _ _ _ _ fun x : C64 => x.mul (C64.ofReal (.fin (nm el)))
      · rw [if_neg hz, if_neg hz]; rfl
    · rw [if_neg hz, if_neg hz]; rfl
  exact bind_image fun psi => rfl

theorem filters_directional_spin64_zero (m : Libm) (lg : F64 → F64) (jm : JMax) (L N J_min : ℤ) (lam : ℝ) (spin : ℤ) :
    filters_directional_spin64 m lg jm L N J_min lam spin 0 = filters_directional64 m lg jm L N J_min lam spin := by
  unfold filters_directional_spin64 filters_directional64
  rw [abs_zero, max_eq_left (abs_nonneg spin)]
  simp only [ne_eq, not_true_eq_false, if_false]
  have e1 : ∀ (A : Py (Arr1 F64)), (do let x ← A; Except.ok x) = A := fun A => by cases A <;> rfl
  have e3 : ∀ (A : Py (Arr3 C64)), (do let x ← A; Except.ok x) = A := fun A => by cases A <;> rfl
  simp only [e1, e3]

end S2wav
