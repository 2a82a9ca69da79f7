import Verif.Model.IeeeLooped
import Verif.Lemmas.Looped

/-! # The loops of `base.py` over any arithmetic, cell by cell -/

namespace S2wav
open Classical

section
variable {α β : Type} [Zero α] [Zero β] {O : Ops α β} {sg : ℤ → α → α} {L N J J_min : ℤ} {lam : ℝ}

/-- the list of arrays while scale `j` is being filled with `g` -/
noncomputable def SLO (J_min J j d r c : ℤ) (h : ℤ → Arr3 α) (g : ℤ × ℤ × ℤ → α) : List (Arr3 α) :=
  (pyRange J_min (J + 1)).map (Function.update h j (S3 d r c g))

theorem SLO_get {j d r c : ℤ} (h : ℤ → Arr3 α) (g : ℤ × ℤ × ℤ → α) (h0 : J_min ≤ j) (h1 : j < J + 1) :
    listGet (SLO J_min J j d r c h g) (j - J_min) = .ok (S3 d r c g) := by
  rw [SLO, listGet_range _ h0 h1, Function.update_self]

theorem SLO_set {j d r c : ℤ} (h : ℤ → Arr3 α) (g g' : ℤ × ℤ × ℤ → α) (h0 : J_min ≤ j) (h1 : j < J + 1) :
    listSet (SLO J_min J j d r c h g) (j - J_min) (S3 d r c g') = .ok (SLO J_min J j d r c h g') := by
  rw [SLO, listSet_range _ h0 h1, Function.update_idem]; rfl

/-- the product the looped analysis computes -/
def prodO (O : Ops α β) (L : ℤ) (psi : Arr3 α) (j : ℤ) (flm : Arr2 α) (n l m : ℤ) : α :=
  O.mul (flm.v l (L - 1 + m)) (O.mul (O.conj (psi.v j l (L - 1 + n))) (O.ofReal (O.c8 l)))

/-- the value the looped analysis writes into one cell -/
def loopFO (O : Ops α β) (sg : ℤ → α → α) (L Lj Nj : ℤ) (psi : Arr3 α) (j : ℤ) (flm : Arr2 α) (reality : Bool) (t : ℤ × ℤ × ℤ) : α :=
  if reality = true ∧ t.2.2 < Lj - 1 then
    sg ((Lj - 1 - t.2.2) + (Nj - 1 - t.1)) (O.conj (prodO O L psi j flm (Nj - 1 - t.1) t.2.1 (Lj - 1 - t.2.2)))
  else prodO O L psi j flm (t.1 - (Nj - 1)) t.2.1 (t.2.2 - (Lj - 1))

/-- the loop nest over `n`, `el`, `m` of `analysis_looped` for one scale -/
theorem ana_loop_scaleO (spin : ℤ) (reality : Bool) {psi : Arr3 α} {flm : Arr2 α} {j Lj Nj L0j : ℤ}
    (hd : j < psi.d) (hr : psi.r = L) (hc : psi.c = 2 * L - 1)
    (hfr : flm.r = L) (hfc : flm.c = 2 * L - 1) (hN1 : 1 ≤ Nj) (hLj1 : 1 ≤ Lj) (hLj : Lj ≤ L) (hL0 : 0 ≤ L0j)
    (hj0 : J_min ≤ j) (hj1 : j < J + 1) (h0 : 0 ≤ J_min) (h : ℤ → Arr3 α) :
    ((pyRange (-Nj + 1) Nj 2).foldlM (init := SLO J_min J j (2 * Nj - 1) Lj (2 * Lj - 1) h fun _ => 0)
      fun (f_wav_lmn : List (Arr3 α)) (n : ℤ) =>
        (pyRange (max (max |spin| |n|) L0j) Lj).foldlM (init := f_wav_lmn)
          fun (f_wav_lmn : List (Arr3 α)) (el : ℤ) => do
            let p ← psi.get j el (L - 1 + n)
            let psi := O.mul (O.conj p) (O.ofReal (O.c8 el))
            let a ← listGet f_wav_lmn (j - J_min)
            let x ← flm.get el (L - 1 + 0)
            let a ← a.set (Nj - 1 + n) el (Lj - 1) (O.mul x psi)
            let f_wav_lmn ← listSet f_wav_lmn (j - J_min) a
            (pyRange 1 (el + 1)).foldlM (init := f_wav_lmn) fun (f_wav_lmn : List (Arr3 α)) (m : ℤ) => do
              let a ← listGet f_wav_lmn (j - J_min)
              let x ← flm.get el (L - 1 + m)
              let a ← a.set (Nj - 1 + n) el (Lj - 1 + m) (O.mul x psi)
              let a ← if reality then do
                  let y ← a.get (Nj - 1 + n) el (Lj - 1 + m)
                  a.set (Nj - 1 - n) el (Lj - 1 - m) (sg (m + n) (O.conj y))
                else do
                  let x ← flm.get el (L - 1 - m)
                  a.set (Nj - 1 + n) el (Lj - 1 - m) (O.mul x psi)
              listSet f_wav_lmn (j - J_min) a) =
    .ok (SLO J_min J j (2 * Nj - 1) Lj (2 * Lj - 1) h fun t =>
      if ∃ i, 0 ≤ i ∧ i < Nj ∧ ((t.1 = 2 * i ∧ Lj - 1 ≤ t.2.2 ∨ t.1 = mirror Nj i reality ∧ t.2.2 < Lj - 1) ∧
          max (max |spin| |-Nj + 1 + 2 * i|) L0j ≤ t.2.1 ∧ t.2.1 < Lj ∧ |t.2.2 - (Lj - 1)| ≤ t.2.1) then
        loopFO O sg L Lj Nj psi j flm reality t else 0) := by
  have e : pyRange (-Nj + 1) Nj 2 = (pyRange 0 (Nj.toNat : ℤ)).map fun i => -Nj + 1 + 2 * i := by
    rw [← pyRange2_eq]; congr 1; omega
  rw [e, foldlM_map']
  have e2 : (Nj.toNat : ℤ) = Nj := by omega
  rw [e2]
  refine cells_loop (SLO J_min J j (2 * Nj - 1) Lj (2 * Lj - 1) h)
    (fun i t => (t.1 = 2 * i ∧ Lj - 1 ≤ t.2.2 ∨ t.1 = mirror Nj i reality ∧ t.2.2 < Lj - 1) ∧
          max (max |spin| |-Nj + 1 + 2 * i|) L0j ≤ t.2.1 ∧ t.2.1 < Lj ∧ |t.2.2 - (Lj - 1)| ≤ t.2.1)
    (loopFO O sg L Lj Nj psi j flm reality) (fun _ => 0) ?_ ?_
  · rintro x y ⟨k, l, m⟩ h1 h2
    unfold mirror at h1 h2
    simp only at h1 h2
    have h1 := h1.1
    have h2 := h2.1
    split_ifs at h1 h2 <;> omega
  intro g i hi0 hi1 _
  -- degrees
  have hspin := abs_nonneg spin
  refine (cells_loop (SLO J_min J j (2 * Nj - 1) Lj (2 * Lj - 1) h)
    (fun l t => t.2.1 = l ∧ |t.2.2 - (Lj - 1)| ≤ l ∧
      (t.1 = 2 * i ∧ Lj - 1 ≤ t.2.2 ∨ t.1 = mirror Nj i reality ∧ t.2.2 < Lj - 1))
    (loopFO O sg L Lj Nj psi j flm reality) g ?_ ?_).trans ?_
  · rintro x y ⟨k, l, m⟩ h1 h2
    exact h1.1.symm.trans h2.1
  · intro g l hl0 hl1 _
    set n := -Nj + 1 + 2 * i with hn
    have hl : 0 ≤ l := by omega
    have hnl : |n| ≤ l := by omega
    have hnl' := abs_le.1 hnl
    have hk : Nj - 1 + n = 2 * i := by omega
    rw [Arr3.get_ok psi (by omega) hd hl (by omega) (by omega) (by omega)]
    simp only [Py.bind_ok, SLO_get h g hj0 hj1, hk]
    rw [Arr2.get_ok flm hl (by omega) (by omega) (by omega), Py.bind_ok,
      S3_set g _ (by omega) (by omega) hl hl1 (by omega) (by omega), Py.bind_ok, SLO_set h _ _ hj0 hj1, Py.bind_ok]
    refine (cells_loop (SLO J_min J j (2 * Nj - 1) Lj (2 * Lj - 1) h)
      (fun m t => 1 ≤ m ∧ (t = (2 * i, l, Lj - 1 + m) ∨ t = (mirror Nj i reality, l, Lj - 1 - m)))
      (loopFO O sg L Lj Nj psi j flm reality) _ ?_ ?_).trans ?_
    · rintro x y ⟨k, l, m⟩ h1 h2
      simp only [Prod.mk.injEq] at h1 h2
      omega
    · intro g m hm0 hm1 _
      rw [SLO_get h g hj0 hj1, Py.bind_ok, Arr2.get_ok flm hl (by omega) (by omega) (by omega), Py.bind_ok,
        S3_set g _ (by omega) (by omega) hl hl1 (by omega) (by omega), Py.bind_ok]
      have hF1 : loopFO O sg L Lj Nj psi j flm reality (2 * i, l, Lj - 1 + m) = prodO O L psi j flm n l m := by
        unfold loopFO
        rw [if_neg (by simp only; omega)]
        simp only
        rw [show Lj - 1 + m - (Lj - 1) = m by ring, show 2 * i - (Nj - 1) = n by omega]
      unfold prodO at hF1
      rw [← hF1]
      cases reality with
      | true =>
        have hF2 : loopFO O sg L Lj Nj psi j flm true (2 * (Nj - 1) - 2 * i, l, Lj - 1 - m) = sg (m + n)
            (O.conj (loopFO O sg L Lj Nj psi j flm true (2 * i, l, Lj - 1 + m))) := by
          rw [hF1]
          unfold loopFO prodO
          rw [if_pos (by simp only [true_and]; omega)]
          simp only
          rw [show Lj - 1 - (Lj - 1 - m) = m by ring, show Nj - 1 - (2 * (Nj - 1) - 2 * i) = n by omega]
        simp only [if_true, mirror]
        rw [S3_get _ (by omega) (by omega) hl hl1 (by omega) (by omega), Py.bind_ok, if_pos rfl,
          S3_set _ _ (by omega) (by omega) hl hl1 (by omega) (by omega), Py.bind_ok, SLO_set h _ _ hj0 hj1, ← hF2]
        congr 2; funext t
        rw [show Nj - 1 - n = 2 * (Nj - 1) - 2 * i by omega]
        by_cases ht2 : t = (2 * (Nj - 1) - 2 * i, l, Lj - 1 - m)
        · rw [if_pos ht2, if_pos ⟨hm0, Or.inr ht2⟩, ht2]
        · rw [if_neg ht2]
          by_cases ht1 : t = (2 * i, l, Lj - 1 + m)
          · rw [if_pos ht1, if_pos ⟨hm0, Or.inl ht1⟩, ht1]
          · rw [if_neg ht1, if_neg (by tauto)]
      | false =>
        have hF2 : loopFO O sg L Lj Nj psi j flm false (2 * i, l, Lj - 1 - m) =
            O.mul (flm.v l (L - 1 - m)) (O.mul (O.conj (psi.v j l (L - 1 + n))) (O.ofReal (O.c8 l))) := by
          unfold loopFO prodO
          rw [if_neg (by simp)]
          simp only
          rw [show L - 1 + (Lj - 1 - m - (Lj - 1)) = L - 1 - m by ring, show 2 * i - (Nj - 1) = n by omega]
        simp only [Bool.false_eq_true, if_false, mirror]
        rw [Arr2.get_ok flm hl (by omega) (by omega) (by omega), Py.bind_ok,
          S3_set _ _ (by omega) (by omega) hl hl1 (by omega) (by omega), Py.bind_ok, SLO_set h _ _ hj0 hj1, ← hF2]
        congr 2; funext t
        by_cases ht2 : t = (2 * i, l, Lj - 1 - m)
        · rw [if_pos ht2, if_pos ⟨hm0, Or.inr ht2⟩, ht2]
        · rw [if_neg ht2]
          by_cases ht1 : t = (2 * i, l, Lj - 1 + m)
          · rw [if_pos ht1, if_pos ⟨hm0, Or.inl ht1⟩, ht1]
          · rw [if_neg ht1, if_neg (by tauto)]
    · congr 2; funext t
      obtain ⟨k, l', m'⟩ := t
      simp only [Prod.mk.injEq]
      by_cases hc1 : ∃ x, 1 ≤ x ∧ x < l + 1 ∧ 1 ≤ x ∧
          ((k = 2 * i ∧ l' = l ∧ m' = Lj - 1 + x) ∨ (k = mirror Nj i reality ∧ l' = l ∧ m' = Lj - 1 - x))
      · rw [if_pos hc1, if_pos]
        obtain ⟨x, hx⟩ := hc1
        refine ⟨by omega, abs_le.2 ⟨by omega, by omega⟩, by omega⟩
      · rw [if_neg hc1]
        by_cases hc2 : k = 2 * i ∧ l' = l ∧ m' = Lj - 1
        · rw [if_pos hc2, if_pos]
          · obtain ⟨rfl, rfl, rfl⟩ := hc2
            unfold loopFO prodO
            rw [if_neg (by simp only; omega)]
            simp only
            rw [show L - 1 + (Lj - 1 - (Lj - 1)) = L - 1 + 0 by ring, show 2 * i - (Nj - 1) = n by omega]
          · refine ⟨by omega, abs_le.2 ⟨by omega, by omega⟩, by omega⟩
        · rw [if_neg hc2, if_neg]
          rintro ⟨h1, h2, h3⟩
          rw [abs_le] at h2
          rcases lt_trichotomy m' (Lj - 1) with hm | hm | hm
          · exact hc1 ⟨Lj - 1 - m', by omega, by omega, by omega, Or.inr (by omega)⟩
          · exact hc2 (by omega)
          · exact hc1 ⟨m' - (Lj - 1), by omega, by omega, by omega, Or.inl (by omega)⟩
  · congr 2; funext t
    obtain ⟨k, l', m'⟩ := t
    simp only
    have : (∃ x, max (max |spin| |-Nj + 1 + 2 * i|) L0j ≤ x ∧ x < Lj ∧ l' = x ∧ |m' - (Lj - 1)| ≤ x ∧
        (k = 2 * i ∧ Lj - 1 ≤ m' ∨ k = mirror Nj i reality ∧ m' < Lj - 1)) ↔
        ((k = 2 * i ∧ Lj - 1 ≤ m' ∨ k = mirror Nj i reality ∧ m' < Lj - 1) ∧
          max (max |spin| |-Nj + 1 + 2 * i|) L0j ≤ l' ∧ l' < Lj ∧ |m' - (Lj - 1)| ≤ l') := by
      constructor
      · rintro ⟨x, h1, h2, rfl, h4, h5⟩; exact ⟨h5, h1, h2, h4⟩
      · rintro ⟨h5, h1, h2, h4⟩; exact ⟨l', h1, h2, rfl, h4, h5⟩
    exact ite_iff this _ _

/-- the product of the scaling function the looped analysis computes -/
def sprodO (O : Ops α β) (L : ℤ) (phi : Arr1 β) (flm : Arr2 α) (l m : ℤ) : α :=
  O.mul (flm.v l (L - 1 + m)) (O.ofReal (O.rmul (O.c4 l) (phi.v l)))

/-- the value the scaling loop of the looped analysis writes into one cell -/
def scalFO (O : Ops α β) (sg : ℤ → α → α) (L Ls : ℤ) (phi : Arr1 β) (flm : Arr2 α) (reality : Bool) (t : ℤ × ℤ) : α :=
  if reality = true ∧ t.2 < Ls - 1 then sg (Ls - 1 - t.2) (O.conj (sprodO O L phi flm t.1 (Ls - 1 - t.2)))
  else sprodO O L phi flm t.1 (t.2 - (Ls - 1))

/-- the scaling loop of `analysis_looped` -/
theorem ana_loop_scalingO (spin : ℤ) (reality : Bool) {phi : Arr1 β} {flm : Arr2 α} {Ls : ℤ}
    (hn : phi.n = L) (hfr : flm.r = L) (hfc : flm.c = 2 * L - 1) (hLs : Ls ≤ L) :
    ((pyRange |spin| Ls).foldlM (init := Arr2.of Ls (2 * Ls - 1) fun _ _ => (0 : α))
      fun (f_scal_lm : Arr2 α) (el : ℤ) => do
        let s ← phi.get el
        let phi := O.ofReal (O.rmul (O.c4 el) s)
        let x ← flm.get el (L - 1 + 0)
        let f_scal_lm ← f_scal_lm.set el (Ls - 1 + 0) (O.mul x phi)
        (pyRange 1 (el + 1)).foldlM (init := f_scal_lm) fun (f_scal_lm : Arr2 α) (m : ℤ) => do
          let x ← flm.get el (L - 1 + m)
          let f_scal_lm ← f_scal_lm.set el (Ls - 1 + m) (O.mul x phi)
          if reality then do
            let y ← f_scal_lm.get el (Ls - 1 + m)
            f_scal_lm.set el (Ls - 1 - m) (sg m (O.conj y))
          else do
            let x ← flm.get el (L - 1 - m)
            f_scal_lm.set el (Ls - 1 - m) (O.mul x phi)) = .ok (S2 Ls (2 * Ls - 1) fun t =>
      if |spin| ≤ t.1 ∧ t.1 < Ls ∧ |t.2 - (Ls - 1)| ≤ t.1 then scalFO O sg L Ls phi flm reality t else 0) := by
  have hspin := abs_nonneg spin
  set F : ℤ × ℤ → α := scalFO O sg L Ls phi flm reality with hF
  refine (cells_loop (S2 Ls (2 * Ls - 1)) (fun l t => t.1 = l ∧ |t.2 - (Ls - 1)| ≤ l) F (fun _ => 0) ?_ ?_).trans ?_
  · rintro x y ⟨k, l⟩ h1 h2
    exact h1.1.symm.trans h2.1
  · intro g l hl0 hl1 _
    have hl : 0 ≤ l := by omega
    rw [Arr1.get_ok phi hl (by omega)]
    simp only [Py.bind_ok]
    rw [Arr2.get_ok flm hl (by omega) (by omega) (by omega), Py.bind_ok,
      S2_set g _ hl hl1 (by omega) (by omega), Py.bind_ok]
    refine (cells_loop (S2 Ls (2 * Ls - 1))
      (fun m t => 1 ≤ m ∧ (t = (l, Ls - 1 + m) ∨ t = (l, Ls - 1 - m))) F _ ?_ ?_).trans ?_
    · rintro x y ⟨k, l⟩ h1 h2
      simp only [Prod.mk.injEq] at h1 h2
      omega
    · intro g m hm0 hm1 _
      have hF1 : O.mul (flm.v l (L - 1 + m)) (O.ofReal (O.rmul (O.c4 l) (phi.v l))) = F (l, Ls - 1 + m) := by
        simp only [hF, scalFO]; rw [if_neg (by omega), show Ls - 1 + m - (Ls - 1) = m by ring]; rfl
      rw [Arr2.get_ok flm hl (by omega) (by omega) (by omega), Py.bind_ok, hF1,
        S2_set g _ hl hl1 (by omega) (by omega), Py.bind_ok]
      have hfin : (S2 Ls (2 * Ls - 1) fun t => if t = (l, Ls - 1 - m) then F (l, Ls - 1 - m) else
          if t = (l, Ls - 1 + m) then F (l, Ls - 1 + m) else g t) = S2 Ls (2 * Ls - 1) fun t =>
          if 1 ≤ m ∧ (t = (l, Ls - 1 + m) ∨ t = (l, Ls - 1 - m)) then F t else g t := by
        congr 1; funext t
        by_cases ht2 : t = (l, Ls - 1 - m)
        · rw [if_pos ht2, if_pos ⟨hm0, Or.inr ht2⟩, ht2]
        · rw [if_neg ht2]
          by_cases ht1 : t = (l, Ls - 1 + m)
          · rw [if_pos ht1, if_pos ⟨hm0, Or.inl ht1⟩, ht1]
          · rw [if_neg ht1, if_neg (by tauto)]
      cases reality with
      | true =>
        simp only [if_true]
        rw [S2_get _ hl hl1 (by omega) (by omega), Py.bind_ok, if_pos rfl, S2_set _ _ hl hl1 (by omega) (by omega)]
        have : sg m (O.conj (F (l, Ls - 1 + m))) = F (l, Ls - 1 - m) := by
          rw [← hF1]
          simp only [hF, scalFO]; rw [if_pos ⟨trivial, by omega⟩, show Ls - 1 - (Ls - 1 - m) = m by ring]; rfl
        rw [this, hfin]
        exact congrArg _ (congrArg _ (funext fun t => ite_iff Iff.rfl _ _))
      | false =>
        have hF2 : O.mul (flm.v l (L - 1 - m)) (O.ofReal (O.rmul (O.c4 l) (phi.v l))) = F (l, Ls - 1 - m) := by
          simp only [hF, scalFO]; rw [if_neg (by simp), show Ls - 1 - m - (Ls - 1) = -m by ring]; rfl
        simp only [Bool.false_eq_true, if_false]
        rw [Arr2.get_ok flm hl (by omega) (by omega) (by omega), Py.bind_ok, S2_set _ _ hl hl1 (by omega) (by omega),
          hF2, hfin]
        exact congrArg _ (congrArg _ (funext fun t => ite_iff Iff.rfl _ _))
    · congr 2; funext t
      obtain ⟨l', m'⟩ := t
      simp only [Prod.mk.injEq]
      by_cases hc1 : ∃ x, 1 ≤ x ∧ x < l + 1 ∧ 1 ≤ x ∧ ((l' = l ∧ m' = Ls - 1 + x) ∨ (l' = l ∧ m' = Ls - 1 - x))
      · rw [if_pos hc1, if_pos]
        obtain ⟨x, hx⟩ := hc1
        refine ⟨by omega, abs_le.2 ⟨by omega, by omega⟩⟩
      · rw [if_neg hc1]
        by_cases hc2 : l' = l ∧ m' = Ls - 1 + 0
        · rw [if_pos hc2, if_pos]
          · obtain ⟨rfl, rfl⟩ := hc2
            simp only [hF, scalFO]
            rw [if_neg (by omega), show Ls - 1 + 0 - (Ls - 1) = 0 by ring]; rfl
          · refine ⟨by omega, abs_le.2 ⟨by omega, by omega⟩⟩
        · rw [if_neg hc2, if_neg]
          rintro ⟨h1, h2⟩
          rw [abs_le] at h2
          rcases lt_trichotomy m' (Ls - 1) with hm | hm | hm
          · exact hc1 ⟨Ls - 1 - m', by omega, by omega, by omega, Or.inr (by omega)⟩
          · exact hc2 (by omega)
          · exact hc1 ⟨m' - (Ls - 1), by omega, by omega, by omega, Or.inl (by omega)⟩
  · congr 1
    refine S2_congr fun l m h0 h1 h2 h3 => ?_
    refine ite_iff ?_ _ _
    constructor
    · rintro ⟨x, h1, h2, rfl, h4⟩; exact ⟨h1, h2, h4⟩
    · rintro ⟨h1, h2, h4⟩; exact ⟨l, h1, h2, rfl, h4⟩

/-! ### synthesis -/

/-- a loop that changes each cell on its own -/
theorem upd_loop {ι γ σ : Type} {a b : ℤ} (S : (ι → γ) → σ) (D : ℤ → ι → γ → γ) (g0 : ι → γ) {body : σ → ℤ → Py σ}
    (hbody : ∀ g x, a ≤ x → x < b → body (S g) x = .ok (S fun t => D x t (g t))) :
    (pyRange a b).foldlM body (S g0) = .ok (S fun t => (pyRange a b).foldl (fun x k => D k t x) (g0 t)) := by
  have key : ∀ (l : List ℤ) (g : ι → γ), (∀ x ∈ l, a ≤ x ∧ x < b) →
      l.foldlM body (S g) = .ok (S fun t => l.foldl (fun x k => D k t x) (g t)) := by
    intro l
    induction l with
    | nil => intro g _; rfl
    | cons x l ih =>
      intro g h
      rw [List.foldlM_cons, hbody g x (h x (by simp)).1 (h x (by simp)).2, Py.bind_ok, ih _ fun y hy => h y (by simp [hy])]
      rfl
  exact key _ _ fun x hx => by rwa [mem_pyRange] at hx

theorem fold_single {γ : Type} {a b : ℤ} (k0 : ℤ) (f : γ → γ) (x : γ) {c : ℤ → Prop} [DecidablePred c] (hc : ∀ k, a ≤ k → k < b → (c k ↔ k = k0)) :
    (pyRange a b).foldl (fun x k => if c k then f x else x) x = if a ≤ k0 ∧ k0 < b then f x else x := by
  have key : ∀ n : ℕ, (∀ k, a ≤ k → k < a + n → (c k ↔ k = k0)) →
      (pyRange a (a + n)).foldl (fun x k => if c k then f x else x) x = if a ≤ k0 ∧ k0 < a + n then f x else x := by
    intro n
    induction n with
    | zero => intro _; rw [if_neg (by push_cast; omega), pyRange_empty (by push_cast; omega)]; rfl
    | succ n ih =>
      intro hc
      have e : a + ((n + 1 : ℕ) : ℤ) = a + n + 1 := by push_cast; ring
      rw [e] at hc ⊢
      rw [pyRange_snoc (by omega), List.foldl_append, ih fun k h0 h1 => hc k h0 (by omega), List.foldl_cons, List.foldl_nil]
      have := hc (a + n) (by omega) (by omega)
      by_cases hk : a + n = k0
      · rw [if_pos (this.2 hk), if_neg (by omega), if_pos (by omega)]
      · rw [if_neg (fun h => hk (this.1 h))]
        exact ite_iff (by omega) _ _
  by_cases h : a ≤ b
  · have := key (b - a).toNat (fun k h0 h1 => hc k h0 (by omega))
    rwa [show a + ((b - a).toNat : ℤ) = b by omega] at this
  · rw [if_neg (by omega), pyRange_empty (by omega)]; rfl

/-- where the looped synthesis adds something for a scale and an orientation `n` -/
def InL (L Lj L0j spin n l m : ℤ) : Prop := max (max |spin| |n|) L0j ≤ l ∧ l < Lj ∧ |m - (L - 1)| ≤ l

/-- one cell of the looped synthesis, for one scale -/
noncomputable def synCell (O : Ops α β) (L Lj Nj L0j spin : ℤ) (psi : Arr3 α) (j : ℤ) (temp : Arr3 α) (t : ℤ × ℤ) (x : α) : α :=
  (pyRange 0 Nj).foldl (fun x i => if InL L Lj L0j spin (-Nj + 1 + 2 * i) t.1 t.2 then
    O.add x (O.mul (temp.v (2 * i) t.1 (t.2 - (L - Lj))) (psi.v j t.1 (L - Nj + 2 * i))) else x) x

/-- the loops over orientations, degrees and orders of `synthesis_looped` for one scale -/
theorem syn_loop_scaleO {spin : ℤ} {psi : Arr3 α} {temp : Arr3 α} {j Lj Nj L0j : ℤ}
    (hd : j < psi.d) (hr : psi.r = L) (hc : psi.c = 2 * L - 1) (htd : temp.d = 2 * Nj - 1) (htr : temp.r = Lj) (htc : temp.c = 2 * Lj - 1)
    (hN1 : 1 ≤ Nj) (hLj : Lj ≤ L) (hL0 : 0 ≤ L0j) (hj : 0 ≤ j) (g : ℤ × ℤ → α) :
    ((pyRange (-Nj + 1) Nj 2).foldlM (init := S2 L (2 * L - 1) g) fun (flm : Arr2 α) (n : ℤ) =>
      (pyRange (max (max |spin| |n|) L0j) Lj).foldlM (init := flm) fun (flm : Arr2 α) (el : ℤ) => do
        let psi ← psi.get j el (L - 1 + n)
        (pyRange (-el) (el + 1)).foldlM (init := flm) fun (flm : Arr2 α) (m : ℤ) => do
          let x ← flm.get el (L - 1 + m)
          let t ← temp.get (Nj - 1 + n) el (Lj - 1 + m)
          flm.set el (L - 1 + m) (O.add x (O.mul t psi))) =
    .ok (S2 L (2 * L - 1) fun t => synCell O L Lj Nj L0j spin psi j temp t (g t)) := by
  have hR : pyRange (-Nj + 1) Nj 2 = (pyRange 0 Nj).map fun i => -Nj + 1 + 2 * i := by
    have := pyRange2_eq (a := -Nj + 1) Nj.toNat
    rw [show ((Nj.toNat : ℕ) : ℤ) = Nj by omega] at this
    rw [← this]; congr 1; ring
  rw [hR, foldlM_map']
  unfold synCell
  refine upd_loop (S2 L (2 * L - 1)) (fun i t x => if InL L Lj L0j spin (-Nj + 1 + 2 * i) t.1 t.2 then
    O.add x (O.mul (temp.v (2 * i) t.1 (t.2 - (L - Lj))) (psi.v j t.1 (L - Nj + 2 * i))) else x) g ?_
  intro g i hi0 hi1
  have habs := abs_nonneg (-Nj + 1 + 2 * i)
  have hspin := abs_nonneg spin
  refine (upd_loop (S2 L (2 * L - 1)) (fun el t x => if t.1 = el ∧ |t.2 - (L - 1)| ≤ el then
    O.add x (O.mul (temp.v (2 * i) t.1 (t.2 - (L - Lj))) (psi.v j t.1 (L - Nj + 2 * i))) else x) g ?_).trans ?_
  · intro g el he0 he1
    have hel : 0 ≤ el := by omega
    have hn : |-Nj + 1 + 2 * i| ≤ el := by omega
    rw [abs_le] at hn
    rw [Arr3.get_ok psi hj hd hel (by omega) (by omega) (by omega), Py.bind_ok]
    refine (upd_loop (S2 L (2 * L - 1)) (fun m t x => if t = (el, L - 1 + m) then
      O.add x (O.mul (temp.v (2 * i) t.1 (t.2 - (L - Lj))) (psi.v j t.1 (L - Nj + 2 * i))) else x) g ?_).trans ?_
    · intro g m hm0 hm1
      rw [S2_get g hel (by omega) (by omega) (by omega), Py.bind_ok,
        Arr3.get_ok temp (by omega) (by omega) hel (by omega) (by omega) (by omega), Py.bind_ok,
        S2_set g _ hel (by omega) (by omega) (by omega)]
      congr 2; funext t
      by_cases h : t = (el, L - 1 + m)
      · rw [if_pos h, if_pos h, h]
        simp only
        rw [show Nj - 1 + (-Nj + 1 + 2 * i) = 2 * i by ring, show L - 1 + m - (L - Lj) = Lj - 1 + m by ring,
          show L - 1 + (-Nj + 1 + 2 * i) = L - Nj + 2 * i by ring]
      · rw [if_neg h, if_neg h]
    · congr 2; funext t
      obtain ⟨l, m'⟩ := t
      by_cases hl : l = el
      · refine (fold_single (m' - (L - 1)) (fun x => O.add x (O.mul (temp.v (2 * i) l (m' - (L - Lj))) (psi.v j l (L - Nj + 2 * i))))
          (c := fun m => (l, m') = (el, L - 1 + m)) (g (l, m')) (fun k _ _ => by simp only [Prod.mk.injEq]; omega)).trans ?_
        refine ite_iff ?_ _ _
        rw [abs_le]
        simp only
        omega
      · rw [if_neg (by simp only; omega)]
        have : ∀ (xs : List ℤ) (x : α), xs.foldl (fun x m => if ((l, m') : ℤ × ℤ) = (el, L - 1 + m) then
            O.add x (O.mul (temp.v (2 * i) l (m' - (L - Lj))) (psi.v j l (L - Nj + 2 * i))) else x) x = x := by
          intro xs
          induction xs with
          | nil => intro x; rfl
          | cons y ys ih => intro x; rw [List.foldl_cons, if_neg (by simp only [Prod.mk.injEq]; omega), ih]
        exact this _ _
  · congr 2; funext t
    obtain ⟨l, m'⟩ := t
    by_cases hm : |m' - (L - 1)| ≤ l
    · refine (fold_single l (fun x => O.add x (O.mul (temp.v (2 * i) l (m' - (L - Lj))) (psi.v j l (L - Nj + 2 * i))))
          (c := fun el => l = el ∧ |m' - (L - 1)| ≤ el) (g (l, m')) (fun k _ _ => by omega)).trans ?_
      refine ite_iff ?_ _ _
      unfold InL
      simp only
      omega
    · have h2 : ¬InL L Lj L0j spin (-Nj + 1 + 2 * i) l m' := fun h => hm h.2.2
      rw [if_neg h2]
      have : ∀ (xs : List ℤ) (x : α), xs.foldl (fun x el => if l = el ∧ |m' - (L - 1)| ≤ el then
          O.add x (O.mul (temp.v (2 * i) l (m' - (L - Lj))) (psi.v j l (L - Nj + 2 * i))) else x) x = x := by
        intro xs
        induction xs with
        | nil => intro x; rfl
        | cons y ys ih => intro x; rw [List.foldl_cons, if_neg (by omega), ih]
      exact this _ _

/-- what the scaling function adds to one cell -/
def synU (O : Ops α β) (L Ls : ℤ) (phi : Arr1 β) (s : Arr2 α) (t : ℤ × ℤ) : α :=
  O.mul (s.v t.1 (t.2 - (L - Ls))) (O.ofReal (O.rmul (O.c4 t.1) (phi.v t.1)))

/-- the coefficient left by `synthesis_looped` in one cell, `g` being what the loops over the wavelets left -/
noncomputable def synLoopFO (O : Ops α β) (sg : ℤ → α → α) (L Ls spin : ℤ) (reality : Bool) (phi : Arr1 β) (s : Arr2 α) (g : ℤ × ℤ → α) (t : ℤ × ℤ) : α :=
  if |spin| ≤ t.1 ∧ t.1 < Ls ∧ |t.2 - (L - 1)| ≤ t.1 then
    if reality = true ∧ t.2 < L - 1 then
      O.add (g t) (sg (L - 1 - t.2) (O.conj (O.add (g (t.1, 2 * (L - 1) - t.2)) (synU O L Ls phi s (t.1, 2 * (L - 1) - t.2)))))
    else O.add (g t) (synU O L Ls phi s t)
  else g t

/-- the scaling loop of `synthesis_looped` -/
theorem syn_loop_scalingO (spin : ℤ) (reality : Bool) {phi : Arr1 β} {s : Arr2 α} {Ls : ℤ}
    (hn : phi.n = L) (hsr : s.r = Ls) (hsc : s.c = 2 * Ls - 1) (hLs : Ls ≤ L) (g : ℤ × ℤ → α) :
    ((pyRange |spin| Ls).foldlM (init := S2 L (2 * L - 1) g) fun (flm : Arr2 α) (el : ℤ) => do
      let x ← phi.get el
      let phi := O.ofReal (O.rmul (O.c4 el) x)
      let x ← flm.get el (0 + L - 1)
      let t ← s.get el (Ls - 1 + 0)
      let flm ← flm.set el (0 + L - 1) (O.add x (O.mul t phi))
      (pyRange 1 (el + 1)).foldlM (init := flm) fun (flm : Arr2 α) (m : ℤ) => do
        let x ← flm.get el (L - 1 + m)
        let t ← s.get el (Ls - 1 + m)
        let flm ← flm.set el (L - 1 + m) (O.add x (O.mul t phi))
        if reality then do
          let y ← flm.get el (-m + L - 1)
          let z ← flm.get el (m + L - 1)
          flm.set el (-m + L - 1) (O.add y (sg m (O.conj z)))
        else do
          let y ← flm.get el (-m + L - 1)
          let t ← s.get el (Ls - 1 - m)
          flm.set el (-m + L - 1) (O.add y (O.mul t phi))) =
    .ok (S2 L (2 * L - 1) (synLoopFO O sg L Ls spin reality phi s g)) := by
  have hspin := abs_nonneg spin
  set u : ℤ × ℤ → α := synU O L Ls phi s with hu
  set F : ℤ × ℤ → α := synLoopFO O sg L Ls spin reality phi s g with hF
  refine (cells_loop (S2 L (2 * L - 1)) (fun l t => t.1 = l ∧ |t.2 - (L - 1)| ≤ l) F g ?_ ?_).trans ?_
  · rintro x y ⟨k, l⟩ h1 h2
    exact h1.1.symm.trans h2.1
  · intro g1 l hl0 hl1 hg1
    have hl : 0 ≤ l := by omega
    -- the contribution of the scaling function
    have hU : ∀ m, O.mul (s.v l (Ls - 1 + m)) (O.ofReal (O.rmul (O.c4 l) (phi.v l))) = u (l, L - 1 + m) := by
      intro m
      simp only [hu, synU]
      rw [show L - 1 + m - (L - Ls) = Ls - 1 + m by ring]
    have hpos : ∀ m, 0 ≤ m → m ≤ l → F (l, L - 1 + m) = O.add (g (l, L - 1 + m)) (u (l, L - 1 + m)) := by
      intro m h0 h1
      simp only [hF, synLoopFO]
      rw [if_pos ⟨hl0, hl1, abs_le.2 ⟨by omega, by omega⟩⟩, if_neg (by omega)]
    rw [Arr1.get_ok phi hl (by omega)]
    simp only [Py.bind_ok]
    have hU0 := hU 0
    rw [S2_get g1 hl (by omega) (by omega) (by omega), Py.bind_ok,
      Arr2.get_ok s hl (by omega) (by omega) (by omega), Py.bind_ok, hU0,
      S2_set g1 _ hl (by omega) (by omega) (by omega), Py.bind_ok,
      show (0 : ℤ) + L - 1 = L - 1 + 0 by ring, hg1 _ ⟨rfl, by simpa using hl⟩, ← hpos 0 le_rfl hl]
    refine (cells_loop (S2 L (2 * L - 1))
      (fun m t => 1 ≤ m ∧ (t = (l, L - 1 + m) ∨ t = (l, -m + L - 1))) F _ ?_ ?_).trans ?_
    · rintro x y ⟨k, l⟩ h1 h2
      simp only [Prod.mk.injEq] at h1 h2
      omega
    · intro g2 m hm0 hm1 hg2
      have hgp : g2 (l, L - 1 + m) = g (l, L - 1 + m) := by
        rw [hg2 _ ⟨hm0, Or.inl rfl⟩, if_neg (by simp only [Prod.mk.injEq]; omega)]
        exact hg1 _ ⟨rfl, abs_le.2 ⟨by simp only; omega, by simp only; omega⟩⟩
      have hgm : g2 (l, -m + L - 1) = g (l, -m + L - 1) := by
        rw [hg2 _ ⟨hm0, Or.inr rfl⟩, if_neg (by simp only [Prod.mk.injEq]; omega)]
        exact hg1 _ ⟨rfl, abs_le.2 ⟨by simp only; omega, by simp only; omega⟩⟩
      rw [S2_get g2 hl (by omega) (by omega) (by omega), Py.bind_ok,
        Arr2.get_ok s hl (by omega) (by omega) (by omega), Py.bind_ok, hU m,
        hgp, ← hpos m (by omega) (by omega), S2_set g2 _ hl (by omega) (by omega) (by omega), Py.bind_ok]
      have hfin : (S2 L (2 * L - 1) fun t => if t = (l, -m + L - 1) then F (l, -m + L - 1) else
          if t = (l, L - 1 + m) then F (l, L - 1 + m) else g2 t) = S2 L (2 * L - 1) fun t =>
          if 1 ≤ m ∧ (t = (l, L - 1 + m) ∨ t = (l, -m + L - 1)) then F t else g2 t := by
        congr 1; funext t
        by_cases ht2 : t = (l, -m + L - 1)
        · rw [if_pos ht2, if_pos ⟨hm0, Or.inr ht2⟩, ht2]
        · rw [if_neg ht2]
          by_cases ht1 : t = (l, L - 1 + m)
          · rw [if_pos ht1, if_pos ⟨hm0, Or.inl ht1⟩, ht1]
          · rw [if_neg ht1, if_neg (by tauto)]
      have hne : ((l, -m + L - 1) : ℤ × ℤ) ≠ (l, L - 1 + m) := by
        simp only [ne_eq, Prod.mk.injEq]; omega
      have hcond : |-m + L - 1 - (L - 1)| ≤ l := abs_le.2 ⟨by omega, by omega⟩
      rw [S2_get _ hl (by omega) (by omega) (by omega)]
      rw [if_neg hne, hgm]
      cases reality with
      | true =>
        simp only [if_true, Py.bind_ok]
        rw [S2_get _ hl (by omega) (by omega) (by omega), Py.bind_ok, if_pos (by rw [add_sub_assoc, add_comm m]),
          S2_set _ _ hl (by omega) (by omega) (by omega)]
        have : O.add (g (l, -m + L - 1)) (sg m (O.conj (F (l, L - 1 + m)))) = F (l, -m + L - 1) := by
          rw [hpos m (by omega) (by omega)]
          simp only [hF, synLoopFO]
          rw [if_pos ⟨hl0, hl1, hcond⟩, if_pos ⟨trivial, by omega⟩,
            show L - 1 - (-m + L - 1) = m by ring, show 2 * (L - 1) - (-m + L - 1) = L - 1 + m by ring]
        rw [this, hfin]
        exact congrArg _ (congrArg _ (funext fun t => ite_iff Iff.rfl _ _))
      | false =>
        simp only [Bool.false_eq_true, if_false, Py.bind_ok]
        rw [Arr2.get_ok s hl (by omega) (by omega) (by omega), Py.bind_ok, S2_set _ _ hl (by omega) (by omega) (by omega)]
        have h1 := hU (-m)
        rw [show Ls - 1 + -m = Ls - 1 - m by ring, show L - 1 + -m = -m + L - 1 by ring] at h1
        have : O.add (g (l, -m + L - 1)) (u (l, -m + L - 1)) = F (l, -m + L - 1) := by
          simp only [hF, synLoopFO]
          rw [if_pos ⟨hl0, hl1, hcond⟩, if_neg (by simp)]
        rw [h1, this, hfin]
        exact congrArg _ (congrArg _ (funext fun t => ite_iff Iff.rfl _ _))
    · congr 2; funext t
      obtain ⟨l', m'⟩ := t
      simp only [Prod.mk.injEq]
      by_cases hc1 : ∃ x, 1 ≤ x ∧ x < l + 1 ∧ 1 ≤ x ∧ ((l' = l ∧ m' = L - 1 + x) ∨ (l' = l ∧ m' = -x + L - 1))
      · rw [if_pos hc1, if_pos]
        obtain ⟨x, hx⟩ := hc1
        refine ⟨by omega, abs_le.2 ⟨by omega, by omega⟩⟩
      · rw [if_neg hc1]
        by_cases hc2 : l' = l ∧ m' = L - 1 + 0
        · rw [if_pos hc2, if_pos]
          · rw [hc2.1, hc2.2]
          · refine ⟨by omega, abs_le.2 ⟨by omega, by omega⟩⟩
        · rw [if_neg hc2, if_neg]
          rintro ⟨h1, h2⟩
          rw [abs_le] at h2
          rcases lt_trichotomy m' (L - 1) with hm | hm | hm
          · exact hc1 ⟨L - 1 - m', by omega, by omega, by omega, Or.inr (by omega)⟩
          · exact hc2 (by omega)
          · exact hc1 ⟨m' - (L - 1), by omega, by omega, by omega, Or.inl (by omega)⟩
  · congr 1
    refine S2_congr fun l m h0 h1 h2 h3 => ?_
    simp only
    by_cases hE : ∃ x, |spin| ≤ x ∧ x < Ls ∧ l = x ∧ |m - (L - 1)| ≤ x
    · rw [if_pos hE]
    · rw [if_neg hE]
      have hno : ¬(|spin| ≤ l ∧ l < Ls ∧ |m - (L - 1)| ≤ l) := fun h => hE ⟨l, h.1, h.2.1, rfl, h.2.2⟩
      simp only [hF, synLoopFO]
      rw [if_neg hno]

end

end S2wav
