import Verif.Model.IeeeBackends
import Verif.Lemmas.HarmOps

/-! # The loops of the JAX, precompute and PyTorch transforms over any arithmetic -/

namespace S2wav
open Classical

variable {α β P : Type} [Zero α] (O : Ops α β) {L N J J_min : ℤ} {lam : ℝ} {flm : Arr2 α} {psi : Arr3 α}

theorem sliceAtO_ok {j : ℤ} (a : Arr3 α) (h0 : 0 ≤ j) (h1 : j < a.d) (s t : Sl) : a.sliceAt j s t = .ok (a.sliceAtJax j s t) := by
  rw [sliceAtJaxO_ok a h0 h1, Arr3.sliceAt, pyIdx, if_pos (by omega), Py.bind_ok]

theorem map_range_inj {γ : Type} {a b : ℤ} {f g : ℤ → γ} (h : (pyRange a b).map f = (pyRange a b).map g) {j : ℤ} (h0 : a ≤ j) (h1 : j < b) : f j = g j :=
  List.map_inj_left.1 h j (mem_pyRange.2 ⟨h0, h1⟩)

/-- one pass of the analysis loop, up to the inverse transform -/
theorem fused_step {mr : Bool} (hL : 1 ≤ L) (hlam : 1 < lam) (hN : 1 ≤ N) (hNL : N ≤ L)
    (h0 : 0 ≤ J_min) (hd : J < psi.d) (hr : psi.r = L) (hc : psi.c = 2 * L - 1)
    (hfr : flm.r = L) (hfc : flm.c = 2 * L - 1) {wav_lm : Arr3 α}
    (hw : einsumO_jln_l O (psi.map O.conj) (arange (fun l => O.ofReal (O.c8 l)) 0 L) = .ok wav_lm) {j : ℤ} (hj0 : J_min ≤ j) (hj1 : j < J + 1) :
    (do
      let e ← einsumO_lm_ln O
        (flm.slice (mkSl flm.r (some (LN_j L j N lam mr).2.2) (some (LN_j L j N lam mr).1))
          (mkSl flm.c (some (L - (LN_j L j N lam mr).1)) (some (L - 1 + (LN_j L j N lam mr).1))))
        (wav_lm.sliceAtJax j (mkSl wav_lm.r (some (LN_j L j N lam mr).2.2) (some (LN_j L j N lam mr).1))
          (mkSl wav_lm.c (some (L - (LN_j L j N lam mr).2.1)) (some (L - 1 + (LN_j L j N lam mr).2.1)) 2))
      (Arr3.of (2 * (LN_j L j N lam mr).2.1 - 1) (LN_j L j N lam mr).1 (2 * (LN_j L j N lam mr).1 - 1) fun _ _ _ => (0 : α)).addAtO O
        (mkSl (2 * (LN_j L j N lam mr).2.1 - 1) none none 2) (mkSl (LN_j L j N lam mr).1 (some (LN_j L j N lam mr).2.2) none)
        (mkSl (2 * (LN_j L j N lam mr).1 - 1) none none) e) =
      .ok (anaWO O L (LN_j L j N lam mr).1 (LN_j L j N lam mr).2.1 (LN_j L j N lam mr).2.2 psi j flm) ∧ j < wav_lm.d := by
  rw [wav_lmO_ok O (by omega : 0 ≤ L) hr] at hw
  injection hw with hw
  rcases hp : LN_j L j N lam mr with ⟨Lj, Nj, L0j⟩
  obtain ⟨b1, b2, b3, b4, b5⟩ := LN_bounds hL hN hNL hlam j mr hp
  subst hw
  refine ⟨?_, by show j < psi.d; omega⟩
  rw [sliceAtJaxO_ok _ (by omega) (by show j < psi.d; omega)]
  have hpr := anaO_prod O (flm := flm) (psi := psi) (j := j) (L0j := L0j) hfr hfc (by omega) hc (by omega) b3 b4 b1 b2 b5
  refine (congrArg (fun z : Py (Arr3 α) => z >>= _) hpr).trans ?_
  rw [Py.bind_ok]
  exact anaO_write O b3 b1 b5 rfl rfl

/-- the loop of wavelet.py and wavelet_precompute.py -/
theorem fusedJ (hL : 1 ≤ L) (hlam : 1 < lam) (hN : 1 ≤ N) (hNL : N ≤ L)
    (h0 : 0 ≤ J_min) (h1 : J_min ≤ J + 1) (hd : J < psi.d) (hr : psi.r = L) (hc : psi.c = 2 * L - 1)
    (hfr : flm.r = L) (hfc : flm.c = 2 * L - 1) {wav_lm : Arr3 α}
    (hw : einsumO_jln_l O (psi.map O.conj) (arange (fun l => O.ofReal (O.c8 l)) 0 L) = .ok wav_lm) {t : ℤ → Arr3 α}
    (ht : generate_and_apply_waveletsO O flm L N J_min J lam (some psi) = .ok ((pyRange J_min (J + 1)).map t))
    {q : ℤ → Arr3 α → Py P} {p : ℤ → P} (hq : ∀ j, J_min ≤ j → j < J + 1 → q j (t j) = .ok (p j)) :
    (pyRange J_min (J + 1)).foldlM (init := ((pyRange J_min (J + 1)).map fun j =>
      Arr3.of (2 * (LN_j L j N lam true).2.1 - 1) (LN_j L j N lam true).1 (2 * (LN_j L j N lam true).1 - 1) fun _ _ _ => (0 : α), ([] : List P)))
    (fun (st : List (Arr3 α) × List P) (j : ℤ) => do
      let a ← listGet st.1 (j - J_min)
      let e ← einsumO_lm_ln O
        (flm.slice (mkSl flm.r (some (LN_j L j N lam true).2.2) (some (LN_j L j N lam true).1))
          (mkSl flm.c (some (L - (LN_j L j N lam true).1)) (some (L - 1 + (LN_j L j N lam true).1))))
        (wav_lm.sliceAtJax j (mkSl wav_lm.r (some (LN_j L j N lam true).2.2) (some (LN_j L j N lam true).1))
          (mkSl wav_lm.c (some (L - (LN_j L j N lam true).2.1)) (some (L - 1 + (LN_j L j N lam true).2.1)) 2))
      let a ← a.addAtO O (mkSl a.d none none 2) (mkSl a.r (some (LN_j L j N lam true).2.2) none) (mkSl a.c none none) e
      let f_wav_lmn ← listSet st.1 (j - J_min) a
      let a ← listGet f_wav_lmn (j - J_min)
      let p ← q j a
      .ok (f_wav_lmn, st.2 ++ [p])) = .ok ((pyRange J_min (J + 1)).map t, (pyRange J_min (J + 1)).map p) := by
  rw [waveletsO_eq O hL hlam hN hNL h0 h1 flm hd hr hc hfr hfc] at ht
  injection ht with ht
  have ht' : ∀ j, J_min ≤ j → j < J + 1 → t j = anaWO O L (LN_j L j N lam true).1 (LN_j L j N lam true).2.1 (LN_j L j N lam true).2.2 psi j flm :=
    fun j a b => (map_range_inj ht a b).symm
  set z : ℤ → Arr3 α := fun j => Arr3.of (2 * (LN_j L j N lam true).2.1 - 1) (LN_j L j N lam true).1 (2 * (LN_j L j N lam true).1 - 1) fun _ _ _ => (0 : α) with hz
  set S : ℤ → List (Arr3 α) × List P := fun i => ((pyRange J_min (J + 1)).map fun j => if j < i then t j else z j, (pyRange J_min i).map p) with hS
  have hi : ((pyRange J_min (J + 1)).map z, ([] : List P)) = S J_min := by
    rw [hS]
    simp only [pyRange_empty le_rfl, List.map_nil]
    congr 1
    exact map_range_congr fun j h2 h3 => by rw [if_neg (by omega)]
  have he : ((pyRange J_min (J + 1)).map t, (pyRange J_min (J + 1)).map p) = S (J + 1) := by
    rw [hS]
    simp only
    congr 1
    exact map_range_congr fun j h2 h3 => by rw [if_pos (by omega)]
  rw [hi, he]
  refine range_loop_eq S h1 fun j hj0 hj1 => ?_
  have hst := (fused_step O (mr := true) (lam := lam) hL hlam hN hNL h0 hd hr hc hfr hfc hw hj0 hj1).1
  have hg : listGet (S j).1 (j - J_min) = .ok (z j) := by
    rw [hS]
    simp only
    rw [listGet_range _ hj0 hj1, if_neg (lt_irrefl j)]
  simp only [hg, Py.bind_ok]
  rcases he : einsumO_lm_ln O
        (flm.slice (mkSl flm.r (some (LN_j L j N lam true).2.2) (some (LN_j L j N lam true).1))
          (mkSl flm.c (some (L - (LN_j L j N lam true).1)) (some (L - 1 + (LN_j L j N lam true).1))))
        (wav_lm.sliceAtJax j (mkSl wav_lm.r (some (LN_j L j N lam true).2.2) (some (LN_j L j N lam true).1))
          (mkSl wav_lm.c (some (L - (LN_j L j N lam true).2.1)) (some (L - 1 + (LN_j L j N lam true).2.1)) 2)) with e | e
  · rw [he] at hst; cases hst
  · rw [he, Py.bind_ok] at hst
    have hst' : (z j).addAtO O (mkSl (z j).d none none 2) (mkSl (z j).r (some (LN_j L j N lam true).2.2) none) (mkSl (z j).c none none) e = .ok (t j) := by
      rw [ht' j hj0 hj1]; exact hst
    rw [Py.bind_ok, hst', Py.bind_ok, hS]
    simp only
    rw [listSet_range _ hj0 hj1, Py.bind_ok, map_update_step _ _ rfl, listGet_range _ hj0 hj1, if_pos (by omega), Py.bind_ok, hq j hj0 hj1, Py.bind_ok,
      pyRange_snoc hj0, List.map_append]
    rfl

/-- the loop of wavelet_precompute_torch.py -/
theorem fusedT (hL : 1 ≤ L) (hlam : 1 < lam) (hN : 1 ≤ N) (hNL : N ≤ L)
    (h0 : 0 ≤ J_min) (h1 : J_min ≤ J + 1) (hd : J < psi.d) (hr : psi.r = L) (hc : psi.c = 2 * L - 1)
    (hfr : flm.r = L) (hfc : flm.c = 2 * L - 1) {wav_lm : Arr3 α}
    (hw : einsumO_jln_l O (psi.map O.conj) (arange (fun l => O.ofReal (O.c8 l)) 0 L) = .ok wav_lm) {t : ℤ → Arr3 α}
    (ht : generate_and_apply_waveletsO O flm L N J_min J lam (some psi) = .ok ((pyRange J_min (J + 1)).map t))
    {q : ℤ → Arr3 α → Py P} {p : ℤ → P} (hq : ∀ j, J_min ≤ j → j < J + 1 → q j (t j) = .ok (p j)) (x0 : P) :
    (pyRange J_min (J + 1)).foldlM (init := ((pyRange J_min (J + 1)).map fun j =>
      Arr3.of (2 * (LN_j L j N lam true).2.1 - 1) (LN_j L j N lam true).1 (2 * (LN_j L j N lam true).1 - 1) fun _ _ _ => (0 : α),
      (pyRange J_min (J + 1)).map fun _ => x0))
    (fun (st : List (Arr3 α) × List P) (j : ℤ) => do
      let a ← listGet st.1 (j - J_min)
      let w ← wav_lm.sliceAt j (mkSl wav_lm.r (some (LN_j L j N lam true).2.2) (some (LN_j L j N lam true).1))
          (mkSl wav_lm.c (some (L - (LN_j L j N lam true).2.1)) (some (L - 1 + (LN_j L j N lam true).2.1)) 2)
      let e ← einsumO_lm_ln O
        (flm.slice (mkSl flm.r (some (LN_j L j N lam true).2.2) (some (LN_j L j N lam true).1))
          (mkSl flm.c (some (L - (LN_j L j N lam true).1)) (some (L - 1 + (LN_j L j N lam true).1)))) w
      let a ← a.addAtO O (mkSl a.d none none 2) (mkSl a.r (some (LN_j L j N lam true).2.2) none) (mkSl a.c none none) e
      let f_wav_lmn ← listSet st.1 (j - J_min) a
      let a ← listGet f_wav_lmn (j - J_min)
      let p ← q j a
      let f_wav ← listSet st.2 (j - J_min) p
      .ok (f_wav_lmn, f_wav)) = .ok ((pyRange J_min (J + 1)).map t, (pyRange J_min (J + 1)).map p) := by
  rw [waveletsO_eq O hL hlam hN hNL h0 h1 flm hd hr hc hfr hfc] at ht
  injection ht with ht
  have ht' : ∀ j, J_min ≤ j → j < J + 1 → t j = anaWO O L (LN_j L j N lam true).1 (LN_j L j N lam true).2.1 (LN_j L j N lam true).2.2 psi j flm :=
    fun j a b => (map_range_inj ht a b).symm
  set z : ℤ → Arr3 α := fun j => Arr3.of (2 * (LN_j L j N lam true).2.1 - 1) (LN_j L j N lam true).1 (2 * (LN_j L j N lam true).1 - 1) fun _ _ _ => (0 : α) with hz
  set S : ℤ → List (Arr3 α) × List P := fun i => ((pyRange J_min (J + 1)).map fun j => if j < i then t j else z j,
    (pyRange J_min (J + 1)).map fun j => if j < i then p j else x0) with hS
  have hi : ((pyRange J_min (J + 1)).map z, (pyRange J_min (J + 1)).map fun _ => x0) = S J_min := by
    rw [hS]
    simp only
    congr 1 <;> exact map_range_congr fun j h2 h3 => by rw [if_neg (by omega)]
  have he : ((pyRange J_min (J + 1)).map t, (pyRange J_min (J + 1)).map p) = S (J + 1) := by
    rw [hS]
    simp only
    congr 1 <;> exact map_range_congr fun j h2 h3 => by rw [if_pos (by omega)]
  rw [hi, he]
  refine range_loop_eq S h1 fun j hj0 hj1 => ?_
  obtain ⟨hst, hjd⟩ := fused_step O (mr := true) (lam := lam) hL hlam hN hNL h0 hd hr hc hfr hfc hw hj0 hj1
  have hg : listGet (S j).1 (j - J_min) = .ok (z j) := by
    rw [hS]
    simp only
    rw [listGet_range _ hj0 hj1, if_neg (lt_irrefl j)]
  simp only [hg, Py.bind_ok, sliceAtO_ok wav_lm (by omega : 0 ≤ j) hjd]
  rcases he : einsumO_lm_ln O
        (flm.slice (mkSl flm.r (some (LN_j L j N lam true).2.2) (some (LN_j L j N lam true).1))
          (mkSl flm.c (some (L - (LN_j L j N lam true).1)) (some (L - 1 + (LN_j L j N lam true).1))))
        (wav_lm.sliceAtJax j (mkSl wav_lm.r (some (LN_j L j N lam true).2.2) (some (LN_j L j N lam true).1))
          (mkSl wav_lm.c (some (L - (LN_j L j N lam true).2.1)) (some (L - 1 + (LN_j L j N lam true).2.1)) 2)) with e | e
  · rw [he] at hst; cases hst
  · rw [he, Py.bind_ok] at hst
    have hst' : (z j).addAtO O (mkSl (z j).d none none 2) (mkSl (z j).r (some (LN_j L j N lam true).2.2) none) (mkSl (z j).c none none) e = .ok (t j) := by
      rw [ht' j hj0 hj1]; exact hst
    rw [Py.bind_ok, hst', Py.bind_ok, hS]
    simp only
    rw [listSet_range _ hj0 hj1, Py.bind_ok, map_update_step _ _ rfl, listGet_range _ hj0 hj1, if_pos (by omega), Py.bind_ok, hq j hj0 hj1, Py.bind_ok,
      listSet_range _ hj0 hj1, Py.bind_ok, map_update_step _ _ rfl]

end S2wav
