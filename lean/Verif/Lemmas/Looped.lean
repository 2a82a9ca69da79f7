import Verif.Lemmas.Progs2

/-! # Program equations for the looped transforms of `base.py` -/

namespace S2wav
open Classical

/-- the filters vanish below the order and below the spin -/
structure FltZero (L spin : ℤ) (psi : Arr3 ℂ) (phi : Arr1 ℝ) : Prop where
  psi : ∀ j l n, l < |n| ∨ l < |spin| → psi.v j l (L - 1 + n) = 0
  phi : ∀ l, l < |spin| → phi.v l = 0

/-- the reality symmetry of the wavelets -/
def FltSym (L : ℤ) (psi : Arr3 ℂ) : Prop :=
  ∀ j l n, psi.v j l (L - 1 - n) = (-1 : ℂ) ^ n * (starRingEnd ℂ) (psi.v j l (L - 1 + n))

/-- zero above the diagonal: `|m| ≤ l` wherever the array is not zero -/
def Tri2 (L : ℤ) (a : Arr2 ℂ) : Prop := a.r = L ∧ a.c = 2 * L - 1 ∧ ∀ l m, l < |m| → a.v l (L - 1 + m) = 0

/-- Hermitian symmetry of the coefficients of a real signal -/
def Sym2 (L : ℤ) (a : Arr2 ℂ) : Prop :=
  ∀ l m, a.v l (L - 1 - m) = (-1 : ℂ) ^ m * (starRingEnd ℂ) (a.v l (L - 1 + m))

section
variable {jm : JMax} {L N J J_min : ℤ} {lam : ℝ}

/-- the list of arrays while scale `j` is being filled with `g` -/
noncomputable def SL (J_min J j d r c : ℤ) (h : ℤ → Arr3 ℂ) (g : ℤ × ℤ × ℤ → ℂ) : List (Arr3 ℂ) :=
  (pyRange J_min (J + 1)).map (Function.update h j (S3 d r c g))

theorem SL_get {j d r c : ℤ} (h : ℤ → Arr3 ℂ) (g : ℤ × ℤ × ℤ → ℂ) (h0 : J_min ≤ j) (h1 : j < J + 1) :
    listGet (SL J_min J j d r c h g) (j - J_min) = .ok (S3 d r c g) := by
  rw [SL, listGet_range _ h0 h1, Function.update_self]

theorem SL_set {j d r c : ℤ} (h : ℤ → Arr3 ℂ) (g g' : ℤ × ℤ × ℤ → ℂ) (h0 : J_min ≤ j) (h1 : j < J + 1) :
    listSet (SL J_min J j d r c h g) (j - J_min) (S3 d r c g') = .ok (SL J_min J j d r c h g') := by
  rw [SL, listSet_range _ h0 h1, Function.update_idem]; rfl

/-- the value the looped analysis writes into one cell -/
noncomputable def loopF (L Lj Nj : ℤ) (psi : Arr3 ℂ) (j : ℤ) (flm : Arr2 ℂ) (reality : Bool) (t : ℤ × ℤ × ℤ) : ℂ :=
  if reality = true ∧ t.2.2 < Lj - 1 then
    (-1 : ℂ) ^ ((Lj - 1 - t.2.2) + (Nj - 1 - t.1)) * (starRingEnd ℂ) (flm.v t.2.1 (L - 1 + (Lj - 1 - t.2.2)) *
      ((starRingEnd ℂ) (psi.v j t.2.1 (L - 1 + (Nj - 1 - t.1))) * ((8 * Real.pi ^ 2 / (2 * t.2.1 + 1) : ℝ) : ℂ)))
  else
    flm.v t.2.1 (L - 1 + (t.2.2 - (Lj - 1))) *
      ((starRingEnd ℂ) (psi.v j t.2.1 (L - 1 + (t.1 - (Nj - 1)))) * ((8 * Real.pi ^ 2 / (2 * t.2.1 + 1) : ℝ) : ℂ))

/-- the row of the negative orders written together with row `2 i` -/
def mirror (Nj i : ℤ) (reality : Bool) : ℤ := if reality then 2 * (Nj - 1) - 2 * i else 2 * i

theorem ite_iff {α : Type} {p q : Prop} {_ : Decidable p} {_ : Decidable q} (h : p ↔ q) (x y : α) :
    (if p then x else y) = (if q then x else y) := by
  by_cases hq : q
  · rw [if_pos hq, if_pos (h.2 hq)]
  · rw [if_neg hq, if_neg (fun hp => hq (h.1 hp))]

/-- the loop nest over `n`, `el`, `m` of `analysis_looped` for one scale -/
theorem ana_loop_scale (spin : ℤ) (reality : Bool) {psi : Arr3 ℂ} {flm : Arr2 ℂ} {j Lj Nj L0j : ℤ}
    (hd : j < psi.d) (hr : psi.r = L) (hc : psi.c = 2 * L - 1)
    (hfr : flm.r = L) (hfc : flm.c = 2 * L - 1) (hN1 : 1 ≤ Nj) (hLj1 : 1 ≤ Lj) (hLj : Lj ≤ L) (hL0 : 0 ≤ L0j)
    (hj0 : J_min ≤ j) (hj1 : j < J + 1) (h0 : 0 ≤ J_min) (h : ℤ → Arr3 ℂ) :
    ((pyRange (-Nj + 1) Nj 2).foldlM (init := SL J_min J j (2 * Nj - 1) Lj (2 * Lj - 1) h fun _ => 0)
      fun (f_wav_lmn : List (Arr3 ℂ)) (n : ℤ) =>
        (pyRange (max (max |spin| |n|) L0j) Lj).foldlM (init := f_wav_lmn)
          fun (f_wav_lmn : List (Arr3 ℂ)) (el : ℤ) => do
            let p ← psi.get j el (L - 1 + n)
            let psi := (starRingEnd ℂ) p * ((8 * Real.pi ^ 2 / (2 * el + 1) : ℝ) : ℂ)
            let a ← listGet f_wav_lmn (j - J_min)
            let x ← flm.get el (L - 1 + 0)
            let a ← a.set (Nj - 1 + n) el (Lj - 1) (x * psi)
            let f_wav_lmn ← listSet f_wav_lmn (j - J_min) a
            (pyRange 1 (el + 1)).foldlM (init := f_wav_lmn) fun (f_wav_lmn : List (Arr3 ℂ)) (m : ℤ) => do
              let a ← listGet f_wav_lmn (j - J_min)
              let x ← flm.get el (L - 1 + m)
              let a ← a.set (Nj - 1 + n) el (Lj - 1 + m) (x * psi)
              let a ← if reality then do
                  let y ← a.get (Nj - 1 + n) el (Lj - 1 + m)
                  a.set (Nj - 1 - n) el (Lj - 1 - m) ((-1 : ℂ) ^ (m + n) * (starRingEnd ℂ) y)
                else do
                  let x ← flm.get el (L - 1 - m)
                  a.set (Nj - 1 + n) el (Lj - 1 - m) (x * psi)
              listSet f_wav_lmn (j - J_min) a) =
    .ok (SL J_min J j (2 * Nj - 1) Lj (2 * Lj - 1) h fun t =>
      if ∃ i, 0 ≤ i ∧ i < Nj ∧ ((t.1 = 2 * i ∧ Lj - 1 ≤ t.2.2 ∨ t.1 = mirror Nj i reality ∧ t.2.2 < Lj - 1) ∧
          max (max |spin| |-Nj + 1 + 2 * i|) L0j ≤ t.2.1 ∧ t.2.1 < Lj ∧ |t.2.2 - (Lj - 1)| ≤ t.2.1) then
        loopF L Lj Nj psi j flm reality t else 0) := by
  have e : pyRange (-Nj + 1) Nj 2 = (pyRange 0 (Nj.toNat : ℤ)).map fun i => -Nj + 1 + 2 * i := by
    rw [← pyRange2_eq]; congr 1; omega
  rw [e, foldlM_map']
  have e2 : (Nj.toNat : ℤ) = Nj := by omega
  rw [e2]
  refine cells_loop (SL J_min J j (2 * Nj - 1) Lj (2 * Lj - 1) h)
    (fun i t => (t.1 = 2 * i ∧ Lj - 1 ≤ t.2.2 ∨ t.1 = mirror Nj i reality ∧ t.2.2 < Lj - 1) ∧
          max (max |spin| |-Nj + 1 + 2 * i|) L0j ≤ t.2.1 ∧ t.2.1 < Lj ∧ |t.2.2 - (Lj - 1)| ≤ t.2.1)
    (loopF L Lj Nj psi j flm reality) (fun _ => 0) ?_ ?_
  · rintro x y ⟨k, l, m⟩ h1 h2
    unfold mirror at h1 h2
    simp only at h1 h2
    have h1 := h1.1
    have h2 := h2.1
    split_ifs at h1 h2 <;> omega
  intro g i hi0 hi1 _
  -- degrees
  have hspin := abs_nonneg spin
  refine (cells_loop (SL J_min J j (2 * Nj - 1) Lj (2 * Lj - 1) h)
    (fun l t => t.2.1 = l ∧ |t.2.2 - (Lj - 1)| ≤ l ∧
      (t.1 = 2 * i ∧ Lj - 1 ≤ t.2.2 ∨ t.1 = mirror Nj i reality ∧ t.2.2 < Lj - 1))
    (loopF L Lj Nj psi j flm reality) g ?_ ?_).trans ?_
  · rintro x y ⟨k, l, m⟩ h1 h2
    exact h1.1.symm.trans h2.1
  · intro g l hl0 hl1 _
    set n := -Nj + 1 + 2 * i with hn
    have hl : 0 ≤ l := by omega
    have hnl : |n| ≤ l := by omega
    have hnl' := abs_le.1 hnl
    have hk : Nj - 1 + n = 2 * i := by omega
    rw [Arr3.get_ok psi (by omega) hd hl (by omega) (by omega) (by omega)]
    simp only [Py.bind_ok, SL_get h g hj0 hj1, hk]
    rw [Arr2.get_ok flm hl (by omega) (by omega) (by omega), Py.bind_ok,
      S3_set g _ (by omega) (by omega) hl hl1 (by omega) (by omega), Py.bind_ok, SL_set h _ _ hj0 hj1, Py.bind_ok]
    refine (cells_loop (SL J_min J j (2 * Nj - 1) Lj (2 * Lj - 1) h)
      (fun m t => 1 ≤ m ∧ (t = (2 * i, l, Lj - 1 + m) ∨ t = (mirror Nj i reality, l, Lj - 1 - m)))
      (loopF L Lj Nj psi j flm reality) _ ?_ ?_).trans ?_
    · rintro x y ⟨k, l, m⟩ h1 h2
      simp only [Prod.mk.injEq] at h1 h2
      omega
    · intro g m hm0 hm1 _
      rw [SL_get h g hj0 hj1, Py.bind_ok, Arr2.get_ok flm hl (by omega) (by omega) (by omega), Py.bind_ok,
        S3_set g _ (by omega) (by omega) hl hl1 (by omega) (by omega), Py.bind_ok]
      have hF1 : loopF L Lj Nj psi j flm reality (2 * i, l, Lj - 1 + m) = flm.v l (L - 1 + m) *
          ((starRingEnd ℂ) (psi.v j l (L - 1 + n)) * ((8 * Real.pi ^ 2 / (2 * l + 1) : ℝ) : ℂ)) := by
        unfold loopF
        rw [if_neg (by simp only; omega)]
        simp only
        rw [show L - 1 + (Lj - 1 + m - (Lj - 1)) = L - 1 + m by ring, show 2 * i - (Nj - 1) = n by omega]
      rw [← hF1]
      cases reality with
      | true =>
        have hF2 : loopF L Lj Nj psi j flm true (2 * (Nj - 1) - 2 * i, l, Lj - 1 - m) = (-1 : ℂ) ^ (m + n) *
            (starRingEnd ℂ) (loopF L Lj Nj psi j flm true (2 * i, l, Lj - 1 + m)) := by
          rw [hF1]
          unfold loopF
          rw [if_pos (by simp only [true_and]; omega)]
          simp only
          rw [show Lj - 1 - (Lj - 1 - m) = m by ring, show Nj - 1 - (2 * (Nj - 1) - 2 * i) = n by omega]
        simp only [if_true, mirror]
        rw [S3_get _ (by omega) (by omega) hl hl1 (by omega) (by omega), Py.bind_ok, if_pos rfl,
          S3_set _ _ (by omega) (by omega) hl hl1 (by omega) (by omega), Py.bind_ok, SL_set h _ _ hj0 hj1, ← hF2]
        congr 2; funext t
        rw [show Nj - 1 - n = 2 * (Nj - 1) - 2 * i by omega]
        by_cases ht2 : t = (2 * (Nj - 1) - 2 * i, l, Lj - 1 - m)
        · rw [if_pos ht2, if_pos ⟨hm0, Or.inr ht2⟩, ht2]
        · rw [if_neg ht2]
          by_cases ht1 : t = (2 * i, l, Lj - 1 + m)
          · rw [if_pos ht1, if_pos ⟨hm0, Or.inl ht1⟩, ht1]
          · rw [if_neg ht1, if_neg (by tauto)]
      | false =>
        have hF2 : loopF L Lj Nj psi j flm false (2 * i, l, Lj - 1 - m) = flm.v l (L - 1 - m) *
          ((starRingEnd ℂ) (psi.v j l (L - 1 + n)) * ((8 * Real.pi ^ 2 / (2 * l + 1) : ℝ) : ℂ)) := by
          unfold loopF
          rw [if_neg (by simp)]
          simp only
          rw [show L - 1 + (Lj - 1 - m - (Lj - 1)) = L - 1 - m by ring, show 2 * i - (Nj - 1) = n by omega]
        simp only [Bool.false_eq_true, if_false, mirror]
        rw [Arr2.get_ok flm hl (by omega) (by omega) (by omega), Py.bind_ok,
          S3_set _ _ (by omega) (by omega) hl hl1 (by omega) (by omega), Py.bind_ok, SL_set h _ _ hj0 hj1, ← hF2]
        congr 2; funext t
        by_cases ht2 : t = (2 * i, l, Lj - 1 - m)
        · rw [if_pos ht2, if_pos ⟨hm0, Or.inr ht2⟩, ht2]
        · rw [if_neg ht2]
          by_cases ht1 : t = (2 * i, l, Lj - 1 + m)
          · rw [if_pos ht1, if_pos ⟨hm0, Or.inl ht1⟩, ht1]
          · rw [if_neg ht1, if_neg (by tauto)]
    · congr 2; funext t
      obtain ⟨k, l', m'⟩ := t
      simp only [Prod.mk.injEq]
      by_cases hc1 : ∃ x, 1 ≤ x ∧ x < l + 1 ∧ 1 ≤ x ∧
          ((k = 2 * i ∧ l' = l ∧ m' = Lj - 1 + x) ∨ (k = mirror Nj i reality ∧ l' = l ∧ m' = Lj - 1 - x))
      · rw [if_pos hc1, if_pos]
        obtain ⟨x, hx⟩ := hc1
        refine ⟨by omega, abs_le.2 ⟨by omega, by omega⟩, by omega⟩
      · rw [if_neg hc1]
        by_cases hc2 : k = 2 * i ∧ l' = l ∧ m' = Lj - 1
        · rw [if_pos hc2, if_pos]
          · obtain ⟨rfl, rfl, rfl⟩ := hc2
            unfold loopF
            rw [if_neg (by simp only; omega)]
            simp only
            rw [show L - 1 + (Lj - 1 - (Lj - 1)) = L - 1 + 0 by ring, show 2 * i - (Nj - 1) = n by omega]
          · refine ⟨by omega, abs_le.2 ⟨by omega, by omega⟩, by omega⟩
        · rw [if_neg hc2, if_neg]
          rintro ⟨h1, h2, h3⟩
          rw [abs_le] at h2
          rcases lt_trichotomy m' (Lj - 1) with hm | hm | hm
          · exact hc1 ⟨Lj - 1 - m', by omega, by omega, by omega, Or.inr (by omega)⟩
          · exact hc2 (by omega)
          · exact hc1 ⟨m' - (Lj - 1), by omega, by omega, by omega, Or.inl (by omega)⟩
  · congr 2; funext t
    obtain ⟨k, l', m'⟩ := t
    simp only
    have : (∃ x, max (max |spin| |-Nj + 1 + 2 * i|) L0j ≤ x ∧ x < Lj ∧ l' = x ∧ |m' - (Lj - 1)| ≤ x ∧
        (k = 2 * i ∧ Lj - 1 ≤ m' ∨ k = mirror Nj i reality ∧ m' < Lj - 1)) ↔
        ((k = 2 * i ∧ Lj - 1 ≤ m' ∨ k = mirror Nj i reality ∧ m' < Lj - 1) ∧
          max (max |spin| |-Nj + 1 + 2 * i|) L0j ≤ l' ∧ l' < Lj ∧ |m' - (Lj - 1)| ≤ l') := by
      constructor
      · rintro ⟨x, h1, h2, rfl, h4, h5⟩; exact ⟨h5, h1, h2, h4⟩
      · rintro ⟨h5, h1, h2, h4⟩; exact ⟨l', h1, h2, rfl, h4, h5⟩
    exact ite_iff this _ _

/-- under the symmetries of a real signal both branches of the looped analysis write the same value -/
theorem loopF_eq (reality : Bool) {Lj Nj : ℤ} {psi : Arr3 ℂ} {flm : Arr2 ℂ}
    (hs : reality = true → FltSym L psi ∧ Sym2 L flm) (j : ℤ) (t : ℤ × ℤ × ℤ) :
    loopF L Lj Nj psi j flm reality t = flm.v t.2.1 (L - 1 + (t.2.2 - (Lj - 1))) *
      ((starRingEnd ℂ) (psi.v j t.2.1 (L - 1 + (t.1 - (Nj - 1)))) * ((8 * Real.pi ^ 2 / (2 * t.2.1 + 1) : ℝ) : ℂ)) := by
  unfold loopF
  split_ifs with h
  · obtain ⟨h1, h2⟩ := hs h.1
    have e1 := h2 t.2.1 (Lj - 1 - t.2.2)
    have e2 := h1 j t.2.1 (Nj - 1 - t.1)
    rw [show L - 1 + (t.2.2 - (Lj - 1)) = L - 1 - (Lj - 1 - t.2.2) by ring,
      show L - 1 + (t.1 - (Nj - 1)) = L - 1 - (Nj - 1 - t.1) by ring, e1, e2, map_mul, map_mul, map_mul,
      Complex.conj_conj, map_zpow₀, map_neg, map_one, Complex.conj_ofReal,
      zpow_add₀ (by norm_num)]
    ring
  · rfl

/-- the closed form of the looped analysis of one scale is the closed form of the vectorised one -/
theorem ana_loop_closed {spin : ℤ} (reality : Bool) {psi : Arr3 ℂ} {phi : Arr1 ℝ} {flm : Arr2 ℂ} {j Lj Nj L0j : ℤ}
    (hZ : FltZero L spin psi phi) (hf : Tri2 L flm) (hs : reality = true → FltSym L psi ∧ Sym2 L flm) :
    (S3 (2 * Nj - 1) Lj (2 * Lj - 1) fun t =>
      if ∃ i, 0 ≤ i ∧ i < Nj ∧ ((t.1 = 2 * i ∧ Lj - 1 ≤ t.2.2 ∨ t.1 = mirror Nj i reality ∧ t.2.2 < Lj - 1) ∧
          max (max |spin| |-Nj + 1 + 2 * i|) L0j ≤ t.2.1 ∧ t.2.1 < Lj ∧ |t.2.2 - (Lj - 1)| ≤ t.2.1) then
        loopF L Lj Nj psi j flm reality t else 0) = anaW L Lj Nj L0j psi j flm := by
  refine Arr3.of_congr fun k l m h0 h1 h2 h3 h4 h5 => ?_
  beta_reduce
  rw [loopF_eq reality hs]
  simp only
  rw [show L - 1 + (m - (Lj - 1)) = L - Lj + m by ring, show L - 1 + (k - (Nj - 1)) = L - Nj + k by ring]
  by_cases hE : ∃ i, 0 ≤ i ∧ i < Nj ∧ ((k = 2 * i ∧ Lj - 1 ≤ m ∨ k = mirror Nj i reality ∧ m < Lj - 1) ∧
          max (max |spin| |-Nj + 1 + 2 * i|) L0j ≤ l ∧ l < Lj ∧ |m - (Lj - 1)| ≤ l)
  · rw [if_pos hE, if_pos]
    obtain ⟨i, hi0, hi1, hi2, hi3, _⟩ := hE
    unfold mirror at hi2
    refine ⟨?_, by omega⟩
    split_ifs at hi2 <;> omega
  · rw [if_neg hE]
    by_cases hk : k % 2 = 0 ∧ L0j ≤ l
    · rw [if_pos hk]
      by_cases hm : l < |m - (Lj - 1)|
      · have := hf.2.2 l (m - (Lj - 1)) hm
        rw [show L - 1 + (m - (Lj - 1)) = L - Lj + m by ring] at this
        rw [this, zero_mul]
      · by_cases hn : l < |k - (Nj - 1)| ∨ l < |spin|
        · have := hZ.psi j l (k - (Nj - 1)) hn
          rw [show L - 1 + (k - (Nj - 1)) = L - Nj + k by ring] at this
          rw [this, map_zero, zero_mul, mul_zero]
        · exfalso
          push Not at hn
          apply hE
          by_cases hm' : Lj - 1 ≤ m
          · refine ⟨k / 2, by omega, by omega, Or.inl ⟨by omega, hm'⟩, ?_, h3, by omega⟩
            have : -Nj + 1 + 2 * (k / 2) = k - (Nj - 1) := by omega
            rw [this]; omega
          · cases reality with
            | true =>
              refine ⟨Nj - 1 - k / 2, by omega, by omega, Or.inr ⟨by simp only [mirror, if_true]; omega, by omega⟩, ?_, h3,
                by omega⟩
              have : -Nj + 1 + 2 * (Nj - 1 - k / 2) = -(k - (Nj - 1)) := by omega
              rw [this, abs_neg]; omega
            | false =>
              refine ⟨k / 2, by omega, by omega, Or.inr ⟨by simp only [mirror, Bool.false_eq_true, if_false]; omega, by omega⟩, ?_, h3,
                by omega⟩
              have : -Nj + 1 + 2 * (k / 2) = k - (Nj - 1) := by omega
              rw [this]; omega
    · rw [if_neg hk]

/-- the scaling loop of `analysis_looped` -/
theorem ana_loop_scaling (spin : ℤ) (reality : Bool) {psi : Arr3 ℂ} {phi : Arr1 ℝ} {flm : Arr2 ℂ} {Ls : ℤ}
    (hn : phi.n = L) (hZ : FltZero L spin psi phi) (hf : Tri2 L flm) (hs : reality = true → Sym2 L flm)
    (hLs : Ls ≤ L) :
    ((pyRange |spin| Ls).foldlM (init := Arr2.of Ls (2 * Ls - 1) fun _ _ => (0 : ℂ))
      fun (f_scal_lm : Arr2 ℂ) (el : ℤ) => do
        let s ← phi.get el
        let phi : ℂ := ((Real.sqrt (4 * Real.pi / (2 * el + 1)) * s : ℝ) : ℂ)
        let x ← flm.get el (L - 1 + 0)
        let f_scal_lm ← f_scal_lm.set el (Ls - 1 + 0) (x * phi)
        (pyRange 1 (el + 1)).foldlM (init := f_scal_lm) fun (f_scal_lm : Arr2 ℂ) (m : ℤ) => do
          let x ← flm.get el (L - 1 + m)
          let f_scal_lm ← f_scal_lm.set el (Ls - 1 + m) (x * phi)
          if reality then do
            let y ← f_scal_lm.get el (Ls - 1 + m)
            f_scal_lm.set el (Ls - 1 - m) ((-1 : ℂ) ^ m * (starRingEnd ℂ) y)
          else do
            let x ← flm.get el (L - 1 - m)
            f_scal_lm.set el (Ls - 1 - m) (x * phi)) = .ok (anaS L Ls phi flm) := by
  obtain ⟨hfr, hfc, hft⟩ := hf
  have hspin := abs_nonneg spin
  set F : ℤ × ℤ → ℂ := fun t => flm.v t.1 (L - Ls + t.2) *
    ((phi.v t.1 * Real.sqrt (4 * Real.pi / (2 * t.1 + 1)) : ℝ) : ℂ) with hF
  refine (cells_loop (S2 Ls (2 * Ls - 1)) (fun l t => t.1 = l ∧ |t.2 - (Ls - 1)| ≤ l) F (fun _ => 0) ?_ ?_).trans ?_
  · rintro x y ⟨k, l⟩ h1 h2
    exact h1.1.symm.trans h2.1
  · intro g l hl0 hl1 _
    have hl : 0 ≤ l := by omega
    rw [Arr1.get_ok phi hl (by omega)]
    simp only [Py.bind_ok]
    have hc : ((Real.sqrt (4 * Real.pi / (2 * l + 1)) * phi.v l : ℝ) : ℂ) =
      ((phi.v l * Real.sqrt (4 * Real.pi / (2 * l + 1)) : ℝ) : ℂ) := by rw [mul_comm]
    rw [hc, Arr2.get_ok flm hl (by omega) (by omega) (by omega), Py.bind_ok,
      S2_set g _ hl hl1 (by omega) (by omega), Py.bind_ok]
    refine (cells_loop (S2 Ls (2 * Ls - 1))
      (fun m t => 1 ≤ m ∧ (t = (l, Ls - 1 + m) ∨ t = (l, Ls - 1 - m))) F _ ?_ ?_).trans ?_
    · rintro x y ⟨k, l⟩ h1 h2
      simp only [Prod.mk.injEq] at h1 h2
      omega
    · intro g m hm0 hm1 _
      have hF1 : flm.v l (L - 1 + m) * ((phi.v l * Real.sqrt (4 * Real.pi / (2 * l + 1)) : ℝ) : ℂ) =
          F (l, Ls - 1 + m) := by
        simp only [hF]; rw [show L - Ls + (Ls - 1 + m) = L - 1 + m by ring]
      have hF2 : flm.v l (L - 1 - m) * ((phi.v l * Real.sqrt (4 * Real.pi / (2 * l + 1)) : ℝ) : ℂ) =
          F (l, Ls - 1 - m) := by
        simp only [hF]; rw [show L - Ls + (Ls - 1 - m) = L - 1 - m by ring]
      rw [Arr2.get_ok flm hl (by omega) (by omega) (by omega), Py.bind_ok, hF1,
        S2_set g _ hl hl1 (by omega) (by omega), Py.bind_ok]
      have hfin : (S2 Ls (2 * Ls - 1) fun t => if t = (l, Ls - 1 - m) then F (l, Ls - 1 - m) else
          if t = (l, Ls - 1 + m) then F (l, Ls - 1 + m) else g t) = S2 Ls (2 * Ls - 1) fun t =>
          if 1 ≤ m ∧ (t = (l, Ls - 1 + m) ∨ t = (l, Ls - 1 - m)) then F t else g t := by
        congr 1; funext t
        by_cases ht2 : t = (l, Ls - 1 - m)
        · rw [if_pos ht2, if_pos ⟨hm0, Or.inr ht2⟩, ht2]
        · rw [if_neg ht2]
          by_cases ht1 : t = (l, Ls - 1 + m)
          · rw [if_pos ht1, if_pos ⟨hm0, Or.inl ht1⟩, ht1]
          · rw [if_neg ht1, if_neg (by tauto)]
      cases reality with
      | true =>
        simp only [if_true]
        rw [S2_get _ hl hl1 (by omega) (by omega), Py.bind_ok, if_pos rfl, S2_set _ _ hl hl1 (by omega) (by omega)]
        have : (-1 : ℂ) ^ m * (starRingEnd ℂ) (F (l, Ls - 1 + m)) = F (l, Ls - 1 - m) := by
          rw [← hF1, ← hF2, hs rfl l m, map_mul, Complex.conj_ofReal]; ring
        rw [this, hfin]
        exact congrArg _ (congrArg _ (funext fun t => ite_iff Iff.rfl _ _))
      | false =>
        simp only [Bool.false_eq_true, if_false]
        rw [Arr2.get_ok flm hl (by omega) (by omega) (by omega), Py.bind_ok, S2_set _ _ hl hl1 (by omega) (by omega),
          hF2, hfin]
        exact congrArg _ (congrArg _ (funext fun t => ite_iff Iff.rfl _ _))
    · congr 2; funext t
      obtain ⟨l', m'⟩ := t
      simp only [Prod.mk.injEq]
      by_cases hc1 : ∃ x, 1 ≤ x ∧ x < l + 1 ∧ 1 ≤ x ∧ ((l' = l ∧ m' = Ls - 1 + x) ∨ (l' = l ∧ m' = Ls - 1 - x))
      · rw [if_pos hc1, if_pos]
        obtain ⟨x, hx⟩ := hc1
        refine ⟨by omega, abs_le.2 ⟨by omega, by omega⟩⟩
      · rw [if_neg hc1]
        by_cases hc2 : l' = l ∧ m' = Ls - 1 + 0
        · rw [if_pos hc2, if_pos]
          · obtain ⟨rfl, rfl⟩ := hc2
            simp only [hF]
            rw [show L - Ls + (Ls - 1 + 0) = L - 1 + 0 by ring]
          · refine ⟨by omega, abs_le.2 ⟨by omega, by omega⟩⟩
        · rw [if_neg hc2, if_neg]
          rintro ⟨h1, h2⟩
          rw [abs_le] at h2
          rcases lt_trichotomy m' (Ls - 1) with hm | hm | hm
          · exact hc1 ⟨Ls - 1 - m', by omega, by omega, by omega, Or.inr (by omega)⟩
          · exact hc2 (by omega)
          · exact hc1 ⟨m' - (Ls - 1), by omega, by omega, by omega, Or.inl (by omega)⟩
  · congr 1
    refine Arr2.of_congr fun l m h0 h1 h2 h3 => ?_
    simp only
    by_cases hE : ∃ x, |spin| ≤ x ∧ x < Ls ∧ l = x ∧ |m - (Ls - 1)| ≤ x
    · rw [if_pos hE]
    · rw [if_neg hE]
      by_cases hl : l < |spin|
      · rw [hZ.phi l hl]; simp
      · have hm : l < |m - (Ls - 1)| := by
          by_contra hm
          exact hE ⟨l, by omega, h1, rfl, by omega⟩
        have := hft l (m - (Ls - 1)) hm
        rw [show L - 1 + (m - (Ls - 1)) = L - Ls + m by ring] at this
        rw [this, zero_mul]

/-- **program equation** for `base.analysis_looped` (any `N ≥ 1`, any `spin0`) -/
theorem looped_analysis_eq (hJ : jm L lam = .ok J) (hL : 1 ≤ L) (hlam : 1 < lam) (hN : 1 ≤ N)
    (h0 : 0 ≤ J_min) (h1 : J_min ≤ J + 1) (E : BaseFFT) (f : Px) (spin spin0 : ℤ) (sampling : String) (nside : Option ℤ)
    (reality mr : Bool) {al : List Px}
    (hal : construct_f jm E.toShapes L N J_min lam sampling nside mr = .ok al)
    {psi : Arr3 ℂ} {phi : Arr1 ℝ} (hF : FltShape L J psi phi) (hZ : FltZero L spin psi phi)
    (hS : reality = true → FltSym L psi)
    (hf : ∀ flm, E.sphForward f L spin sampling nside reality = .ok flm → Tri2 L flm ∧ (reality = true → Sym2 L flm))
    (hflt : filters_directional jm L N J_min lam spin spin0 = .ok (psi, phi)) :
    Base.analysis_looped jm E f L N J_min lam spin spin0 sampling nside reality mr =
      specAna (E.sphForward f L spin sampling nside reality)
        (fun j a => E.wigInverse a (LN_j L j N lam mr).1 (LN_j L j N lam mr).2.1 (LN_j L j N lam mr).2.2
            sampling reality nside)
        (fun a => E.sphInverse a (scal_bandlimit L J_min lam mr) spin sampling nside reality 0)
        L N J_min J lam mr psi phi := by
  have hb := scal_bandlimit_bounds hL hlam J_min mr
  unfold Base.analysis_looped specAna
  simp only [hJ, Py.bind_ok, construct_flm_ok hL hlam, construct_flmn_ok hL hN hlam hJ, hflt]
  refine Py.bind_congr fun flm hfl => ?_
  obtain ⟨hT, hSf⟩ := hf flm hfl
  have hloop : ∀ {γ : Type} (K : List (Arr3 ℂ) → Py γ) (X : Py (List (Arr3 ℂ))),
      X = .ok (anaList L N J_min J lam mr psi flm (J + 1)) → (X >>= K) = K (anaList L N J_min J lam mr psi flm (J + 1)) := by
    intro γ K X hX; rw [hX, Py.bind_ok]
  refine (hloop _ _ ?_).trans ?_
  · rw [anaList_init mr psi flm]
    refine range_loop_eq (fun i => anaList L N J_min J lam mr psi flm i) h1 fun j hj0 hj1 => ?_
    rcases hp : LN_j L j N lam mr with ⟨Lj, Nj, L0j⟩
    have hLb := LN_j_Lj_bounds (N := N) hL hlam j mr
    have hNb := LN_j_Nj_bounds hL hlam hN j mr
    have hLo := LN_j_L0_nonneg hlam L j N mr
    rw [hp] at hLb hNb hLo
    have e : anaList L N J_min J lam mr psi flm j = SL J_min J j (2 * Nj - 1) Lj (2 * Lj - 1)
        (fun k => if k < j then anaW L (LN_j L k N lam mr).1 (LN_j L k N lam mr).2.1 (LN_j L k N lam mr).2.2 psi k flm
          else Arr3.of (2 * (LN_j L k N lam mr).2.1 - 1) (LN_j L k N lam mr).1 (2 * (LN_j L k N lam mr).1 - 1)
            fun _ _ _ => 0) (fun _ => 0) := by
      refine map_range_congr fun k _ _ => ?_
      by_cases hk : k = j
      · subst hk; rw [if_neg (lt_irrefl k), Function.update_self, hp]; rfl
      · rw [Function.update_of_ne hk]
    rw [e]
    refine (ana_loop_scale spin reality (by have := hF.d; omega) hF.r hF.c hT.1 hT.2.1 hNb.1 hLb.1 hLb.2 hLo hj0 hj1 h0 _).trans ?_
    congr 1
    rw [SL, ana_loop_closed reality hZ hT (fun h => ⟨hS h, hSf h⟩), map_update_step]
    · rfl
    · simp only [hp]
  · rw [ana_loop_scaling spin reality hF.n hZ hT hSf hb.2, Py.bind_ok, hal, Py.bind_ok]
    have hal' : (pyRange J_min (J + 1)).map (nth (⟨[], fun _ => 0⟩ : Px) J_min al) = al := by
      simp only [construct_f, hJ, Py.bind_ok] at hal
      exact mapM_getD hal (fun _ => ⟨[], fun _ => 0⟩)
    rw [← hal']
    refine mapM_loop_then (a := J_min) (b := J + 1) _
      (S := fun i r => (pyRange J_min (J + 1)).map fun j => if j < i then r j else
        nth (⟨[], fun _ => 0⟩ : Px) J_min al j)
      (fun _ => ⟨[], fun _ => 0⟩) (by omega) ?_ ?_ ?_ ?_
    · intro i r r' h
      refine map_range_congr fun j h2 h3 => ?_
      by_cases hj : j < i
      · rw [if_pos hj, if_pos hj, h j h2 hj]
      · rw [if_neg hj, if_neg hj]
    · exact map_range_congr fun j h2 h3 => by rw [if_neg (by omega)]
    · intro j r hj0 hj1
      rcases hp : LN_j L j N lam mr with ⟨Lj, Nj, L0j⟩
      simp only
      rw [anaList_get' mr psi flm hj0 hj1 hj1 hp, Py.bind_ok]
      refine Py.bind_congr fun p _ => ?_
      rw [listSet_range _ hj0 hj1, map_update_step']
    · intro l hl
      rw [map_range_congr (f := fun j => if j < J + 1 then _ else _)
        (g := fun j => (l[(j - J_min).toNat]?).getD ⟨[], fun _ => 0⟩)
        (fun j _ hj => by rw [if_pos hj]), mapM_getD hl]

/-- Wigner coefficients of the right shape, zero above the diagonal -/
def Tri3 (Lj Nj : ℤ) (t : Arr3 ℂ) : Prop :=
  t.d = 2 * Nj - 1 ∧ t.r = Lj ∧ t.c = 2 * Lj - 1 ∧ ∀ k l m, l < |m| → t.v k l (Lj - 1 + m) = 0

theorem S2_add {r c : ℤ} (g : ℤ × ℤ → ℂ) {i j : ℤ} (x : ℂ) (h2 : 0 ≤ i) (h3 : i < r) (h4 : 0 ≤ j) (h5 : j < c) :
    (S2 r c g).set i j (g (i, j) + x) = .ok (S2 r c fun t => g t + if t = (i, j) then x else 0) := by
  rw [S2_set g _ h2 h3 h4 h5]
  congr 2; funext t
  by_cases ht : t = (i, j)
  · rw [if_pos ht, if_pos ht, ht]
  · rw [if_neg ht, if_neg ht, add_zero]

/-- the loops over orientations, degrees and orders of `synthesis_looped` for one scale -/
theorem syn_loop_scale {spin : ℤ} {psi : Arr3 ℂ} {phi : Arr1 ℝ} {temp : Arr3 ℂ} {j Lj Nj L0j : ℤ}
    (hd : j < psi.d) (hr : psi.r = L) (hc : psi.c = 2 * L - 1) (hZ : FltZero L spin psi phi) (ht : Tri3 Lj Nj temp)
    (hN1 : 1 ≤ Nj) (hLj : Lj ≤ L) (hL0 : 0 ≤ L0j) (hj : 0 ≤ j) (g : ℤ × ℤ → ℂ) :
    ((pyRange (-Nj + 1) Nj 2).foldlM (init := S2 L (2 * L - 1) g) fun (flm : Arr2 ℂ) (n : ℤ) =>
      (pyRange (max (max |spin| |n|) L0j) Lj).foldlM (init := flm) fun (flm : Arr2 ℂ) (el : ℤ) => do
        let psi ← psi.get j el (L - 1 + n)
        (pyRange (-el) (el + 1)).foldlM (init := flm) fun (flm : Arr2 ℂ) (m : ℤ) => do
          let x ← flm.get el (L - 1 + m)
          let t ← temp.get (Nj - 1 + n) el (Lj - 1 + m)
          flm.set el (L - 1 + m) (x + t * psi)) =
    .ok (S2 L (2 * L - 1) fun t => g t + synW L Lj Nj L0j psi j temp t.1 t.2) := by
  obtain ⟨htd, htr, htc, htz⟩ := ht
  have hR : pyRange (-Nj + 1) Nj 2 = (pyRange 0 Nj).map fun i => -Nj + 1 + 2 * i := by
    have := pyRange2_eq (a := -Nj + 1) Nj.toNat
    rw [show ((Nj.toNat : ℕ) : ℤ) = Nj by omega] at this
    rw [← this]; congr 1; ring
  rw [hR, foldlM_map']
  set D : ℤ → ℤ × ℤ → ℂ := fun i t =>
    if max (max |spin| |-Nj + 1 + 2 * i|) L0j ≤ t.1 ∧ t.1 < Lj ∧ |t.2 - (L - 1)| ≤ t.1 then
      temp.v (2 * i) t.1 (Lj - 1 + (t.2 - (L - 1))) * psi.v j t.1 (L - Nj + 2 * i) else 0 with hD
  refine (add_loop (S2 L (2 * L - 1)) D g ?_).trans ?_
  · intro g i hi0 hi1
    have habs := abs_nonneg (-Nj + 1 + 2 * i)
    have hspin := abs_nonneg spin
    refine (add_loop (S2 L (2 * L - 1)) (fun el t => if t.1 = el ∧ |t.2 - (L - 1)| ≤ el then
      temp.v (2 * i) t.1 (Lj - 1 + (t.2 - (L - 1))) * psi.v j t.1 (L - Nj + 2 * i) else 0) g ?_).trans ?_
    · intro g el he0 he1
      have hel : 0 ≤ el := by omega
      have hn : |-Nj + 1 + 2 * i| ≤ el := by omega
      rw [abs_le] at hn
      rw [Arr3.get_ok psi hj hd hel (by omega) (by omega) (by omega), Py.bind_ok]
      refine (add_loop (S2 L (2 * L - 1)) (fun m t => if t = (el, L - 1 + m) then
        temp.v (2 * i) t.1 (Lj - 1 + (t.2 - (L - 1))) * psi.v j t.1 (L - Nj + 2 * i) else 0) g ?_).trans ?_
      · intro g m hm0 hm1
        rw [S2_get g hel (by omega) (by omega) (by omega), Py.bind_ok,
          Arr3.get_ok temp (by omega) (by omega) hel (by omega) (by omega) (by omega), Py.bind_ok,
          S2_add g _ hel (by omega) (by omega) (by omega)]
        congr 2; funext t
        congr 1
        by_cases h : t = (el, L - 1 + m)
        · rw [if_pos h, if_pos h, h]
          simp only
          congr 2 <;> ring
        · rw [if_neg h, if_neg h]
      · congr 2; funext t
        congr 1
        by_cases h : t.1 = el ∧ |t.2 - (L - 1)| ≤ el
        · rw [if_pos h, Finset.sum_eq_single (t.2 - (L - 1))]
          · rw [if_pos]
            refine Prod.ext h.1 ?_
            simp
          · intro m _ hm
            rw [if_neg]
            rintro rfl
            exact hm (by simp)
          · intro hm
            rw [Finset.mem_Ico] at hm
            have := abs_le.1 h.2
            omega
        · rw [if_neg h]
          refine Finset.sum_eq_zero fun m hm => ?_
          rw [Finset.mem_Ico] at hm
          rw [if_neg]
          rintro rfl
          exact h ⟨rfl, abs_le.2 ⟨by simp only; omega, by simp only; omega⟩⟩
    · congr 2; funext t
      congr 1
      simp only [hD]
      by_cases h : max (max |spin| |-Nj + 1 + 2 * i|) L0j ≤ t.1 ∧ t.1 < Lj ∧ |t.2 - (L - 1)| ≤ t.1
      · rw [if_pos h, Finset.sum_eq_single t.1]
        · rw [if_pos ⟨rfl, h.2.2⟩]
        · intro m _ hm
          rw [if_neg]
          rintro ⟨rfl, _⟩
          exact hm rfl
        · intro hm
          rw [Finset.mem_Ico] at hm
          omega
      · rw [if_neg h]
        refine Finset.sum_eq_zero fun m hm => ?_
        rw [Finset.mem_Ico] at hm
        rw [if_neg]
        rintro ⟨rfl, h2⟩
        exact h ⟨hm.1, hm.2, h2⟩
  · congr 1
    refine S2_congr fun l m h0 h1 h2 h3 => ?_
    simp only
    congr 1
    unfold synW
    by_cases h : L0j ≤ l ∧ l < Lj ∧ L - Lj ≤ m ∧ m < L - 1 + Lj
    · rw [if_pos h]
      refine Finset.sum_congr rfl fun i hi => ?_
      rw [Finset.mem_Ico] at hi
      simp only [hD]
      by_cases hm : l < |m - (L - 1)|
      · rw [if_neg (by omega)]
        have := htz (2 * i) l (m - (L - 1)) hm
        rw [show m - (L - Lj) = Lj - 1 + (m - (L - 1)) by ring, this, mul_zero]
      · by_cases hn : l < |-Nj + 1 + 2 * i| ∨ l < |spin|
        · rw [if_neg (by omega)]
          have := hZ.psi j l (-Nj + 1 + 2 * i) hn
          rw [show L - Nj + 2 * i = L - 1 + (-Nj + 1 + 2 * i) by ring, this, zero_mul]
        · rw [if_pos (by omega), show m - (L - Lj) = Lj - 1 + (m - (L - 1)) by ring, mul_comm]
    · rw [if_neg h]
      refine Finset.sum_eq_zero fun i hi => ?_
      simp only [hD]
      rw [if_neg]
      rintro ⟨a1, a2, a3⟩
      have := abs_le.1 a3
      omega

/-- the coefficient left by `synthesis_looped` in one cell, `g` being the sum over the wavelet scales and `u` the
contribution of the scaling function.  With `reality` the cells `m < 0` are *not* the sum (they count the `m > 0` cell
on top of the `m < 0` wavelet part). -/
noncomputable def synLoopF (L Ls spin : ℤ) (reality : Bool) (g u : ℤ × ℤ → ℂ) (t : ℤ × ℤ) : ℂ :=
  if reality = true ∧ t.2 < L - 1 ∧ |spin| ≤ t.1 ∧ t.1 < Ls ∧ |t.2 - (L - 1)| ≤ t.1 then
    g t + (-1 : ℂ) ^ (L - 1 - t.2) * (starRingEnd ℂ) (g (t.1, 2 * (L - 1) - t.2) + u (t.1, 2 * (L - 1) - t.2))
  else g t + u t

/-- the scaling loop of `synthesis_looped` -/
theorem syn_loop_scaling (spin : ℤ) (reality : Bool) {psi : Arr3 ℂ} {phi : Arr1 ℝ} {s : Arr2 ℂ} {Ls : ℤ}
    (hn : phi.n = L) (hZ : FltZero L spin psi phi) (hs : Tri2 Ls s)
    (hLs : Ls ≤ L) (g : ℤ × ℤ → ℂ) :
    ((pyRange |spin| Ls).foldlM (init := S2 L (2 * L - 1) g) fun (flm : Arr2 ℂ) (el : ℤ) => do
      let x ← phi.get el
      let phi : ℂ := ((Real.sqrt (4 * Real.pi / (2 * el + 1)) * x : ℝ) : ℂ)
      let x ← flm.get el (0 + L - 1)
      let t ← s.get el (Ls - 1 + 0)
      let flm ← flm.set el (0 + L - 1) (x + t * phi)
      (pyRange 1 (el + 1)).foldlM (init := flm) fun (flm : Arr2 ℂ) (m : ℤ) => do
        let x ← flm.get el (L - 1 + m)
        let t ← s.get el (Ls - 1 + m)
        let flm ← flm.set el (L - 1 + m) (x + t * phi)
        if reality then do
          let y ← flm.get el (-m + L - 1)
          let z ← flm.get el (m + L - 1)
          flm.set el (-m + L - 1) (y + (-1 : ℂ) ^ m * (starRingEnd ℂ) z)
        else do
          let y ← flm.get el (-m + L - 1)
          let t ← s.get el (Ls - 1 - m)
          flm.set el (-m + L - 1) (y + t * phi)) =
    .ok (S2 L (2 * L - 1) (synLoopF L Ls spin reality g fun t => synS L Ls phi s t.1 t.2)) := by
  obtain ⟨hsr, hsc, hst⟩ := hs
  have hspin := abs_nonneg spin
  set u : ℤ × ℤ → ℂ := fun t => synS L Ls phi s t.1 t.2 with hu
  set F : ℤ × ℤ → ℂ := synLoopF L Ls spin reality g u with hF
  refine (cells_loop (S2 L (2 * L - 1)) (fun l t => t.1 = l ∧ |t.2 - (L - 1)| ≤ l) F g ?_ ?_).trans ?_
  · rintro x y ⟨k, l⟩ h1 h2
    exact h1.1.symm.trans h2.1
  · intro g1 l hl0 hl1 hg1
    have hl : 0 ≤ l := by omega
    -- the contribution of the scaling function
    have hU : ∀ m, |m| ≤ l → s.v l (Ls - 1 + m) * ((Real.sqrt (4 * Real.pi / (2 * l + 1)) * phi.v l : ℝ) : ℂ) =
        u (l, L - 1 + m) := by
      intro m hm
      rw [abs_le] at hm
      simp only [hu, synS]
      rw [if_pos (by omega), mul_comm (Real.sqrt _) (phi.v l)]
      congr 2; ring
    have hpos : ∀ m, 0 ≤ m → m ≤ l → F (l, L - 1 + m) = g (l, L - 1 + m) + u (l, L - 1 + m) := by
      intro m h0 h1
      simp only [hF, synLoopF]
      rw [if_neg (by omega)]
    rw [Arr1.get_ok phi hl (by omega)]
    simp only [Py.bind_ok]
    have hU0 := hU 0 (by simpa using hl)
    rw [S2_get g1 hl (by omega) (by omega) (by omega), Py.bind_ok,
      Arr2.get_ok s hl (by omega) (by omega) (by omega), Py.bind_ok, hU0,
      S2_set g1 _ hl (by omega) (by omega) (by omega), Py.bind_ok,
      show (0 : ℤ) + L - 1 = L - 1 + 0 by ring, hg1 _ ⟨rfl, by simpa using hl⟩, ← hpos 0 le_rfl hl]
    refine (cells_loop (S2 L (2 * L - 1))
      (fun m t => 1 ≤ m ∧ (t = (l, L - 1 + m) ∨ t = (l, -m + L - 1))) F _ ?_ ?_).trans ?_
    · rintro x y ⟨k, l⟩ h1 h2
      simp only [Prod.mk.injEq] at h1 h2
      omega
    · intro g2 m hm0 hm1 hg2
      have hgp : g2 (l, L - 1 + m) = g (l, L - 1 + m) := by
        rw [hg2 _ ⟨hm0, Or.inl rfl⟩, if_neg (by simp only [Prod.mk.injEq]; omega)]
        exact hg1 _ ⟨rfl, abs_le.2 ⟨by simp only; omega, by simp only; omega⟩⟩
      have hgm : g2 (l, -m + L - 1) = g (l, -m + L - 1) := by
        rw [hg2 _ ⟨hm0, Or.inr rfl⟩, if_neg (by simp only [Prod.mk.injEq]; omega)]
        exact hg1 _ ⟨rfl, abs_le.2 ⟨by simp only; omega, by simp only; omega⟩⟩
      rw [S2_get g2 hl (by omega) (by omega) (by omega), Py.bind_ok,
        Arr2.get_ok s hl (by omega) (by omega) (by omega), Py.bind_ok, hU m (abs_le.2 ⟨by omega, by omega⟩),
        hgp, ← hpos m (by omega) (by omega), S2_set g2 _ hl (by omega) (by omega) (by omega), Py.bind_ok]
      have hfin : (S2 L (2 * L - 1) fun t => if t = (l, -m + L - 1) then F (l, -m + L - 1) else
          if t = (l, L - 1 + m) then F (l, L - 1 + m) else g2 t) = S2 L (2 * L - 1) fun t =>
          if 1 ≤ m ∧ (t = (l, L - 1 + m) ∨ t = (l, -m + L - 1)) then F t else g2 t := by
        congr 1; funext t
        by_cases ht2 : t = (l, -m + L - 1)
        · rw [if_pos ht2, if_pos ⟨hm0, Or.inr ht2⟩, ht2]
        · rw [if_neg ht2]
          by_cases ht1 : t = (l, L - 1 + m)
          · rw [if_pos ht1, if_pos ⟨hm0, Or.inl ht1⟩, ht1]
          · rw [if_neg ht1, if_neg (by tauto)]
      have hne : ((l, -m + L - 1) : ℤ × ℤ) ≠ (l, L - 1 + m) := by
        simp only [ne_eq, Prod.mk.injEq]; omega
      have hcond : |-m + L - 1 - (L - 1)| ≤ l := abs_le.2 ⟨by omega, by omega⟩
      rw [S2_get _ hl (by omega) (by omega) (by omega)]
      rw [if_neg hne, hgm]
      cases reality with
      | true =>
        simp only [if_true, Py.bind_ok]
        rw [S2_get _ hl (by omega) (by omega) (by omega), Py.bind_ok, if_pos (by rw [add_sub_assoc, add_comm m]),
          S2_set _ _ hl (by omega) (by omega) (by omega)]
        have : g (l, -m + L - 1) + (-1 : ℂ) ^ m * (starRingEnd ℂ) (F (l, L - 1 + m)) = F (l, -m + L - 1) := by
          rw [hpos m (by omega) (by omega)]
          simp only [hF, synLoopF]
          rw [if_pos ⟨trivial, by omega, by omega, by omega, hcond⟩,
            show L - 1 - (-m + L - 1) = m by ring, show 2 * (L - 1) - (-m + L - 1) = L - 1 + m by ring]
        rw [this, hfin]
        exact congrArg _ (congrArg _ (funext fun t => ite_iff Iff.rfl _ _))
      | false =>
        simp only [Bool.false_eq_true, if_false, Py.bind_ok]
        rw [Arr2.get_ok s hl (by omega) (by omega) (by omega), Py.bind_ok, S2_set _ _ hl (by omega) (by omega) (by omega)]
        have h1 := hU (-m) (abs_le.2 ⟨by omega, by omega⟩)
        rw [show Ls - 1 + -m = Ls - 1 - m by ring, show L - 1 + -m = -m + L - 1 by ring] at h1
        have : g (l, -m + L - 1) + u (l, -m + L - 1) = F (l, -m + L - 1) := by
          simp only [hF, synLoopF]
          rw [if_neg (by simp)]
        rw [h1, this, hfin]
        exact congrArg _ (congrArg _ (funext fun t => ite_iff Iff.rfl _ _))
    · congr 2; funext t
      obtain ⟨l', m'⟩ := t
      simp only [Prod.mk.injEq]
      by_cases hc1 : ∃ x, 1 ≤ x ∧ x < l + 1 ∧ 1 ≤ x ∧ ((l' = l ∧ m' = L - 1 + x) ∨ (l' = l ∧ m' = -x + L - 1))
      · rw [if_pos hc1, if_pos]
        obtain ⟨x, hx⟩ := hc1
        refine ⟨by omega, abs_le.2 ⟨by omega, by omega⟩⟩
      · rw [if_neg hc1]
        by_cases hc2 : l' = l ∧ m' = L - 1 + 0
        · rw [if_pos hc2, if_pos]
          · rw [hc2.1, hc2.2]
          · refine ⟨by omega, abs_le.2 ⟨by omega, by omega⟩⟩
        · rw [if_neg hc2, if_neg]
          rintro ⟨h1, h2⟩
          rw [abs_le] at h2
          rcases lt_trichotomy m' (L - 1) with hm | hm | hm
          · exact hc1 ⟨L - 1 - m', by omega, by omega, by omega, Or.inr (by omega)⟩
          · exact hc2 (by omega)
          · exact hc1 ⟨m' - (L - 1), by omega, by omega, by omega, Or.inl (by omega)⟩
  · congr 1
    refine S2_congr fun l m h0 h1 h2 h3 => ?_
    simp only
    by_cases hE : ∃ x, |spin| ≤ x ∧ x < Ls ∧ l = x ∧ |m - (L - 1)| ≤ x
    · rw [if_pos hE]
    · rw [if_neg hE]
      have hno : ¬(|spin| ≤ l ∧ l < Ls ∧ |m - (L - 1)| ≤ l) := fun h => hE ⟨l, h.1, h.2.1, rfl, h.2.2⟩
      simp only [hF, synLoopF]
      rw [if_neg (fun h => hno ⟨h.2.2.1, h.2.2.2.1, h.2.2.2.2⟩)]
      have : u (l, m) = 0 := by
        simp only [hu, synS]
        split_ifs with h
        · by_cases hl : l < |spin|
          · rw [hZ.phi l hl]; simp
          · have hm : l < |m - (L - 1)| := by
              by_contra hm
              exact hno ⟨by omega, h.1, by omega⟩
            have := hst l (m - (L - 1)) hm
            rw [show m - (L - Ls) = Ls - 1 + (m - (L - 1)) by ring, this, zero_mul]
        · rfl
      rw [this, add_zero]

/-- **program equation** for `base.synthesis_looped` (any `N ≥ 1`, any `spin0`).  With `reality` the synthesised
array differs from the sum of the scales at `m < 0`. -/
theorem looped_synthesis_eq (hJ : jm L lam = .ok J) (hL : 1 ≤ L) (hlam : 1 < lam) (hN : 1 ≤ N)
    (h0 : 0 ≤ J_min) (h1 : J_min ≤ J + 1) (E : BaseFFT) (f_wav : List Px) (f_scal : Px) (spin spin0 : ℤ)
    (sampling : String) (nside : Option ℤ) (reality mr : Bool)
    {psi : Arr3 ℂ} {phi : Arr1 ℝ} (hF : FltShape L J psi phi) (hZ : FltZero L spin psi phi)
    (hssh : ∀ s, E.sphForward f_scal (scal_bandlimit L J_min lam mr) spin sampling nside reality = .ok s →
      Tri2 (scal_bandlimit L J_min lam mr) s)
    (hwsh : ∀ j p t, E.wigForward p (LN_j L j N lam mr).1 (LN_j L j N lam mr).2.1 (LN_j L j N lam mr).2.2
      sampling reality nside = .ok t → Tri3 (LN_j L j N lam mr).1 (LN_j L j N lam mr).2.1 t)
    (hflt : filters_directional jm L N J_min lam spin spin0 = .ok (psi, phi)) :
    Base.synthesis_looped jm E f_wav f_scal L N J_min lam spin spin0 sampling nside reality mr =
      (wavelet_shape_check jm E.toShapes f_wav f_scal L N J_min lam sampling nside mr >>= fun _ => do
        let s ← E.sphForward f_scal (scal_bandlimit L J_min lam mr) spin sampling nside reality
        let t ← (pyRange J_min (J + 1)).mapM fun j => do
          let fw ← listGet f_wav (j - J_min)
          E.wigForward fw (LN_j L j N lam mr).1 (LN_j L j N lam mr).2.1 (LN_j L j N lam mr).2.2 sampling reality nside
        E.sphInverse (S2 L (2 * L - 1) (synLoopF L (scal_bandlimit L J_min lam mr) spin reality
          (fun x => ∑ j ∈ Finset.Ico J_min (J + 1),
            synW L (LN_j L j N lam mr).1 (LN_j L j N lam mr).2.1 (LN_j L j N lam mr).2.2 psi j (nth z3 J_min t j) x.1 x.2)
          (fun x => synS L (scal_bandlimit L J_min lam mr) phi s x.1 x.2))) L spin sampling nside reality 0) := by
  have hb := scal_bandlimit_bounds hL hlam J_min mr
  unfold Base.synthesis_looped
  congr 1
  funext _
  simp only [hJ, Py.bind_ok, zeros2_ok hL]
  refine Py.bind_congr fun s hs => ?_
  have hsT := hssh s hs
  simp only [hflt, Py.bind_ok]
  refine mapM_loop_then (a := J_min) (b := J + 1) _ (S := synPart L N J_min lam mr psi)
    (fun _ => z3) (by omega) (synPart_congr mr psi) (synPart_zero mr psi _) ?_ ?_
  · intro j r hj0 hj1
    have hw := hwsh j
    rcases hp : LN_j L j N lam mr with ⟨Lj, Nj, L0j⟩
    have hLb := LN_j_Lj_bounds (N := N) hL hlam j mr
    have hNb := LN_j_Nj_bounds hL hlam hN j mr
    have hLo := LN_j_L0_nonneg hlam L j N mr
    rw [hp] at hw hLb hNb hLo
    simp only at hw ⊢
    rcases listGet f_wav (j - J_min) with e | fw
    · rfl
    simp only [Py.bind_ok]
    refine Py.bind_congr fun t ht => ?_
    refine (syn_loop_scale (by have := hF.d; omega) hF.r hF.c hZ (hw _ _ ht) hNb.1 hLb.2 hLo (by omega)
      (fun x => ∑ j ∈ Finset.Ico J_min j,
        synW L (LN_j L j N lam mr).1 (LN_j L j N lam mr).2.1 (LN_j L j N lam mr).2.2 psi j (r j) x.1 x.2)).trans ?_
    rw [← synPart_succ mr psi hj0 r t hp]
    rfl
  · intro t ht
    have := syn_loop_scaling (psi := psi) spin reality hF.n hZ hsT hb.2 (fun x => ∑ j ∈ Finset.Ico J_min (J + 1),
        synW L (LN_j L j N lam mr).1 (LN_j L j N lam mr).2.1 (LN_j L j N lam mr).2.2 psi j (nth z3 J_min t j) x.1 x.2)
    exact (congrArg (fun z : Py (Arr2 ℂ) => z >>= fun flm => E.sphInverse flm L spin sampling nside reality 0) this).trans rfl

/-- without `reality` the array left by the looped synthesis is the sum of the scales -/
theorem synLoopF_false (Ls spin : ℤ) (g u : ℤ × ℤ → ℂ) (t : ℤ × ℤ) :
    synLoopF L Ls spin false g u t = g t + u t := by simp [synLoopF]

/-- with `reality` it still is at `m ≥ 0` -/
theorem synLoopF_nonneg (Ls spin : ℤ) (reality : Bool) (g u : ℤ × ℤ → ℂ) (t : ℤ × ℤ) (h : L - 1 ≤ t.2) :
    synLoopF L Ls spin reality g u t = g t + u t := by
  unfold synLoopF
  rw [if_neg (by omega)]

end

end S2wav
