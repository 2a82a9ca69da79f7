import Verif.Lemmas.Harm
import Verif.Lemmas.Built
import Verif.Props.Samples
import Verif.Model.Wavelet
import Verif.Model.WaveletC
import Verif.Model.Precompute
import Verif.Model.PrecomputeTorch

/-! # Program equations: every analysis/synthesis routine equals one closed-form program -/

namespace S2wav
open Classical

/-- Closed-form analysis: the engine calls are parameters (`fwd` the harmonic transform of the signal, `winv j` the
Wigner transform of scale `j`, `sinv` the harmonic transform of the scaling coefficients). -/
noncomputable def specAna (fwd : Py (Arr2 ℂ)) (winv : ℤ → Arr3 ℂ → Py Px) (sinv : Arr2 ℂ → Py Px)
    (L N J_min J : ℤ) (lam : ℝ) (mr : Bool) (psi : Arr3 ℂ) (phi : Arr1 ℝ) : Py (List Px × Px) := do
  let flm ← fwd
  let w ← (pyRange J_min (J + 1)).mapM fun j => winv j
    (anaW L (LN_j L j N lam mr).1 (LN_j L j N lam mr).2.1 (LN_j L j N lam mr).2.2 psi j flm)
  let s ← sinv (anaS L (scal_bandlimit L J_min lam mr) phi flm)
  .ok (w, s)

/-- Closed-form array of synthesised coefficients -/
noncomputable def synA (L N J_min J : ℤ) (lam : ℝ) (mr : Bool) (psi : Arr3 ℂ) (phi : Arr1 ℝ) (t : ℤ → Arr3 ℂ)
    (s : Arr2 ℂ) : Arr2 ℂ :=
  Arr2.of L (2 * L - 1) fun l m =>
    ∑ j ∈ Finset.Ico J_min (J + 1),
      synW L (LN_j L j N lam mr).1 (LN_j L j N lam mr).2.1 (LN_j L j N lam mr).2.2 psi j (t j) l m +
    synS L (scal_bandlimit L J_min lam mr) phi s l m

/-- a zero array, used as a default value -/
noncomputable def z3 : Arr3 ℂ := Arr3.of 0 0 0 fun _ _ _ => 0

/-- the element for scale `j` of a list starting with scale `a` -/
noncomputable def nth {β : Type} (d : β) (a : ℤ) (l : List β) (j : ℤ) : β := (l[(j - a).toNat]?).getD d

/-- Closed-form synthesis -/
noncomputable def specSyn (sfwd : Py (Arr2 ℂ)) (wfwd : ℤ → Py (Arr3 ℂ)) (inv : Arr2 ℂ → Py Px)
    (L N J_min J : ℤ) (lam : ℝ) (mr : Bool) (psi : Arr3 ℂ) (phi : Arr1 ℝ) : Py Px := do
  let s ← sfwd
  let t ← (pyRange J_min (J + 1)).mapM wfwd
  inv (synA L N J_min J lam mr psi phi (nth z3 J_min t) s)

section
variable {jm : JMax} {L N J J_min : ℤ} {lam : ℝ}

theorem construct_flm_ok (hL : 1 ≤ L) (hlam : 1 < lam) (J_min : ℤ) (mr : Bool) :
    construct_flm L J_min lam mr = .ok (Arr2.of (scal_bandlimit L J_min lam mr) (2 * scal_bandlimit L J_min lam mr - 1)
      fun _ _ => 0) := by
  have hb := scal_bandlimit_bounds hL hlam J_min mr
  simp only [construct_flm, zeros2]
  rw [if_neg (by omega)]

theorem zeros2_ok (hL : 1 ≤ L) : (zeros2 L (2 * L - 1) : Py (Arr2 ℂ)) = .ok (Arr2.of L (2 * L - 1) fun _ _ => 0) := by
  rw [zeros2, if_neg (by omega)]

/-- bounds on the parameters of one scale, as needed by the vectorised array code -/
theorem LN_bounds (hL : 1 ≤ L) (hN : 1 ≤ N) (hNL : N ≤ L) (hlam : 1 < lam) (j : ℤ) (mr : Bool) {Lj Nj L0j : ℤ}
    (hp : LN_j L j N lam mr = (Lj, Nj, L0j)) : 1 ≤ Lj ∧ Lj ≤ L ∧ 1 ≤ Nj ∧ Nj ≤ L ∧ 0 ≤ L0j := by
  have h1 := LN_j_Lj_bounds (N := N) hL hlam j mr
  have h2 := LN_j_Nj_bounds hL hlam hN j mr
  have h3 := LN_j_L0_nonneg hlam L j N mr
  rw [hp] at h1 h2 h3
  exact ⟨h1.1, h1.2, h2.1, h2.2.1.trans hNL, h3⟩

/-- bounds on the parameters of one scale -/
theorem LN_bounds' (hL : 1 ≤ L) (hN : 1 ≤ N) (hlam : 1 < lam) (j : ℤ) (mr : Bool) {Lj Nj L0j : ℤ}
    (hp : LN_j L j N lam mr = (Lj, Nj, L0j)) : 1 ≤ Lj ∧ Lj ≤ L ∧ 1 ≤ Nj ∧ 0 ≤ L0j := by
  have h1 := LN_j_Lj_bounds (N := N) hL hlam j mr
  have h2 := LN_j_Nj_bounds hL hlam hN j mr
  have h3 := LN_j_L0_nonneg hlam L j N mr
  rw [hp] at h1 h2 h3
  exact ⟨h1.1, h1.2, h2.1, h3⟩

/-- the scales the vectorised code can process: those with at most `L` directions, and those with one or two more if the
column of the filter that the wrapped slice reads is zero -/
def Fits (L N J_min J : ℤ) (lam : ℝ) (mr : Bool) (psi : Arr3 ℂ) : Prop :=
  ∀ j, J_min ≤ j → j < J + 1 → (LN_j L j N lam mr).2.1 ≤ L ∨
    (2 ≤ L ∧ (LN_j L j N lam mr).2.1 ≤ L + 2 ∧ ∀ l, psi.v j l (3 * L - 1 - (LN_j L j N lam mr).2.1) = 0)

/-- the filters the vectorised code effectively uses: those of scales with more than `L` directions are zero -/
noncomputable def cutPsi (L N : ℤ) (lam : ℝ) (mr : Bool) (psi : Arr3 ℂ) : Arr3 ℂ :=
  Arr3.of psi.d psi.r psi.c fun j l n => if (LN_j L j N lam mr).2.1 ≤ L then psi.v j l n else 0

theorem cutPsi_v (mr : Bool) (psi : Arr3 ℂ) (j l n : ℤ) :
    (cutPsi L N lam mr psi).v j l n = if (LN_j L j N lam mr).2.1 ≤ L then psi.v j l n else 0 := by
  unfold cutPsi
  by_cases h : 0 ≤ j ∧ j < psi.d ∧ 0 ≤ l ∧ l < psi.r ∧ 0 ≤ n ∧ n < psi.c
  · exact Arr3.of_v _ _ _ _ _ _ _ h
  · rw [Arr3.of_out _ _ _ _ _ _ _ h, psi.junk _ _ _ h, ite_self]

theorem fits_of_le (hL : 1 ≤ L) (hN : 1 ≤ N) (hlam : 1 < lam) (hNL : N ≤ L) (J_min J : ℤ) (mr : Bool) (psi : Arr3 ℂ) :
    Fits L N J_min J lam mr psi :=
  fun j _ _ => Or.inl ((LN_j_Nj_bounds hL hlam hN j mr).2.1.trans hNL)

theorem cutPsi_of_le (hL : 1 ≤ L) (hN : 1 ≤ N) (hlam : 1 < lam) (hNL : N ≤ L) (mr : Bool) (psi : Arr3 ℂ) :
    cutPsi L N lam mr psi = psi := by
  refine (Arr3.of_congr fun j l n _ _ _ _ _ _ => ?_).trans psi.eta
  rw [if_pos ((LN_j_Nj_bounds hL hlam hN j mr).2.1.trans hNL)]

theorem anaW_cut (mr : Bool) (psi : Arr3 ℂ) (flm : Arr2 ℂ) {j Lj Nj L0j : ℤ} (hp : LN_j L j N lam mr = (Lj, Nj, L0j)) :
    (Nj ≤ L → anaW L Lj Nj L0j (cutPsi L N lam mr psi) j flm = anaW L Lj Nj L0j psi j flm) ∧
    (L < Nj → anaW L Lj Nj L0j (cutPsi L N lam mr psi) j flm = Arr3.of (2 * Nj - 1) Lj (2 * Lj - 1) fun _ _ _ => 0) := by
  unfold anaW
  simp only [cutPsi_v, hp]
  refine ⟨fun h => by simp only [if_pos h], fun h => Arr3.of_congr fun k l m _ _ _ _ _ _ => ?_⟩
  rw [if_neg (show ¬ Nj ≤ L by omega)]
  simp

theorem synW_cut (mr : Bool) (psi : Arr3 ℂ) (t : Arr3 ℂ) {j Lj Nj L0j : ℤ} (hp : LN_j L j N lam mr = (Lj, Nj, L0j)) (l m : ℤ) :
    (Nj ≤ L → synW L Lj Nj L0j (cutPsi L N lam mr psi) j t l m = synW L Lj Nj L0j psi j t l m) ∧
    (L < Nj → synW L Lj Nj L0j (cutPsi L N lam mr psi) j t l m = 0) := by
  unfold synW
  simp only [cutPsi_v, hp]
  refine ⟨fun h => by simp only [if_pos h], fun h => ?_⟩
  simp [show ¬ Nj ≤ L by omega]

/-- the product of one analysis step and its result -/
theorem ana_both {J_min J : ℤ} (hL : 1 ≤ L) (hN : 1 ≤ N) (hlam : 1 < lam) (mr : Bool) {psi : Arr3 ℂ} {flm : Arr2 ℂ}
    (hNL : Fits L N J_min J lam mr psi) (hfr : flm.r = L) (hfc : flm.c = 2 * L - 1) (hc : psi.c = 2 * L - 1)
    {j : ℤ} (hd : j < psi.d) (hj : 0 ≤ j) (hj0 : J_min ≤ j) (hj1 : j < J + 1) {Lj Nj L0j : ℤ}
    (hp : LN_j L j N lam mr = (Lj, Nj, L0j)) {a : Arr3 ℂ} (ha : a = Arr3.of (2 * Nj - 1) Lj (2 * Lj - 1) fun _ _ _ => 0) :
    ∃ e, einsum_lm_ln
        (flm.slice (mkSl flm.r (some L0j) (some Lj)) (mkSl flm.c (some (L - Lj)) (some (L - 1 + Lj))))
        (Arr2.of (mkSl L (some L0j) (some Lj)).len (mkSl psi.c (some (L - Nj)) (some (L - 1 + Nj)) 2).len
          fun i k => (Arr3.of psi.d L psi.c fun j l n =>
            (starRingEnd ℂ) (psi.v j l n) * ((8 * Real.pi ^ 2 / (2 * l + 1) : ℝ) : ℂ)).v j
            ((mkSl L (some L0j) (some Lj)).at i) ((mkSl psi.c (some (L - Nj)) (some (L - 1 + Nj)) 2).at k)) = .ok e ∧
      a.assign (mkSl a.d none none 2) (mkSl a.r (some L0j) none) (mkSl a.c none none) e =
        .ok (anaW L Lj Nj L0j (cutPsi L N lam mr psi) j flm) ∧
      a.addAt (mkSl a.d none none 2) (mkSl a.r (some L0j) none) (mkSl a.c none none) e =
        .ok (anaW L Lj Nj L0j (cutPsi L N lam mr psi) j flm) := by
  obtain ⟨b1, b2, b3, b5⟩ := LN_bounds' hL hN hlam j mr hp
  by_cases h : Nj ≤ L
  · rw [(anaW_cut mr psi flm hp).1 h]
    exact ⟨_, ana_prod hfr hfc hd hc hj b3 h b1 b2 b5, (ana_write (j := j) b3 b1 b5 ha rfl).1,
      (ana_write (j := j) b3 b1 b5 ha rfl).2⟩
  · have := hNL j hj0 hj1
    rw [hp] at this
    dsimp only at this
    rcases this with h' | ⟨hL2, h', hz⟩
    · exact absurd h' h
    · rw [(anaW_cut mr psi flm hp).2 (by omega), ← ha]
      exact wrap_step hL2 hfr hfc hd hc hj (by omega) h' b1 b2 b5 hz ha

/-- one synthesis step -/
theorem syn_both {J_min J : ℤ} (hL : 1 ≤ L) (hN : 1 ≤ N) (hlam : 1 < lam) (mr : Bool) {psi t : Arr3 ℂ} {g : ℤ → ℤ → ℂ}
    (hNL : Fits L N J_min J lam mr psi) (hr : psi.r = L) (hc : psi.c = 2 * L - 1)
    {j : ℤ} (hj0 : J_min ≤ j) (hj1 : j < J + 1) {Lj Nj L0j : ℤ} (hp : LN_j L j N lam mr = (Lj, Nj, L0j))
    (htd : t.d = 2 * Nj - 1) (htr : t.r = Lj) (htc : t.c = 2 * Lj - 1) {w : Arr2 ℂ}
    (hw : w = Arr2.of (mkSl psi.r (some L0j) (some Lj)).len (mkSl psi.c (some (L - Nj)) (some (L - 1 + Nj)) 2).len
      fun i k => psi.v j ((mkSl psi.r (some L0j) (some Lj)).at i)
        ((mkSl psi.c (some (L - Nj)) (some (L - 1 + Nj)) 2).at k)) :
    (do
      let e ← einsum_ln_nlm w (t.slice (mkSl t.d none none 2) (mkSl t.r (some L0j) none) (mkSl t.c none none))
      (Arr2.of L (2 * L - 1) g).addAt (mkSl L (some L0j) (some Lj))
        (mkSl (2 * L - 1) (some (L - Lj)) (some (L - 1 + Lj))) e) =
    .ok (Arr2.of L (2 * L - 1) fun l m => g l m + synW L Lj Nj L0j (cutPsi L N lam mr psi) j t l m) := by
  obtain ⟨b1, b2, b3, b5⟩ := LN_bounds' hL hN hlam j mr hp
  by_cases h : Nj ≤ L
  · rw [syn_step (L0j := L0j) hr hc b3 h b1 b2 b5 htd htr htc hw]
    simp only [(synW_cut mr psi t hp _ _).1 h]
  · have := hNL j hj0 hj1
    rw [hp] at this
    dsimp only at this
    rcases this with h' | ⟨hL2, h', hz⟩
    · exact absurd h' h
    · rw [syn_wrap (L0j := L0j) hL2 hr hc (by omega) h' b1 b2 b5 hz htd htr htc hw]
      simp only [(synW_cut mr psi t hp _ _).2 (by omega), add_zero]

/-- **program equation** for `base.analysis` -/
theorem base_analysis_eq (hT : TopScale jm L lam J) (hN : 1 ≤ N) (h0 : 0 ≤ J_min) (h1 : J_min < J)
    (E : BaseFFT) (f : Px) (spin : ℤ) (sampling : String) (nside : Option ℤ) (reality mr scattering : Bool)
    {al : List Px} (hal : construct_f jm E.toShapes L N J_min lam sampling (some (if mr then 1 else 0)) false = .ok al)
    (hsh : ∀ flm, E.sphForward f L spin sampling nside reality = .ok flm → flm.r = L ∧ flm.c = 2 * L - 1)
    {psi : Arr3 ℂ} {phi : Arr1 ℝ} (hNL : Fits L N J_min J lam mr psi)
    (hflt : filters_directional_vectorised jm L N J_min lam spin 0 = .ok (psi, phi)) :
    Base.analysis jm E f L N J_min lam spin 0 sampling nside reality mr scattering =
      specAna (E.sphForward f L spin sampling nside reality)
        (fun j a => do
          let p ← E.wigInverse a (LN_j L j N lam mr).1 (LN_j L j N lam mr).2.1 (LN_j L j N lam mr).2.2
            sampling reality nside
          .ok (if scattering then p.abs else p))
        (fun a => E.sphInverse a (scal_bandlimit L J_min lam mr) spin sampling nside reality 0)
        L N J_min J lam mr (cutPsi L N lam mr psi) phi := by
  have hL := hT.hL
  have hlam := hT.hlam
  have hsd : psi.d = J + 1 ∧ psi.r = L ∧ psi.c = 2 * L - 1 ∧ phi.n = L := by
    rw [filters_directional_vectorised_ok hT hN h0 h1] at hflt
    cases hflt; exact ⟨rfl, rfl, rfl, rfl⟩
  obtain ⟨hd, hr, hc, hn⟩ := hsd
  have hb := scal_bandlimit_bounds hL hlam J_min mr
  unfold Base.analysis specAna
  simp only [hT.hJ, Py.bind_ok, construct_flm_ok hL hlam, construct_flmn_ok hL hN hlam hT.hJ, hal, hflt,
    wav_lm_ok (show 0 ≤ L by omega) hr]
  rcases hf : E.sphForward f L spin sampling nside reality with e | flm
  · rfl
  obtain ⟨hfr, hfc⟩ := hsh flm hf
  simp only [Py.bind_ok, scalPhi_ok hn hb.1 hb.2, ana_scal hfr hfc hb.1 hb.2, Arr3.of_r, Arr3.of_c]
  have hal' : (pyRange J_min (J + 1)).map (nth (⟨[], fun _ => 0⟩ : Px) J_min al) = al := by
    simp only [construct_f, hT.hJ, Py.bind_ok] at hal
    exact mapM_getD hal (fun _ => ⟨[], fun _ => 0⟩)
  rw [← hal']
  refine mapM_loop_then (a := J_min) (b := J + 1) _
    (S := fun i r => ((pyRange J_min (J + 1)).map fun j => if j < i then
        anaW L (LN_j L j N lam mr).1 (LN_j L j N lam mr).2.1 (LN_j L j N lam mr).2.2 (cutPsi L N lam mr psi) j flm
        else Arr3.of (2 * (LN_j L j N lam mr).2.1 - 1) (LN_j L j N lam mr).1 (2 * (LN_j L j N lam mr).1 - 1)
          fun _ _ _ => 0,
      (pyRange J_min (J + 1)).map fun j => if j < i then r j else nth (⟨[], fun _ => 0⟩ : Px) J_min al j))
    (fun _ => ⟨[], fun _ => 0⟩) (by omega) ?_ ?_ ?_ ?_
  · intro i r r' h
    simp only [Prod.mk.injEq, true_and]
    refine map_range_congr fun j h2 h3 => ?_
    by_cases hj : j < i
    · rw [if_pos hj, if_pos hj, h j h2 hj]
    · rw [if_neg hj, if_neg hj]
  · simp only [Prod.mk.injEq]
    exact ⟨map_range_congr fun j h2 h3 => by rw [if_neg (by omega)],
      map_range_congr fun j h2 h3 => by rw [if_neg (by omega)]⟩
  · intro j r hj0 hj1
    rcases hp : LN_j L j N lam mr with ⟨Lj, Nj, L0j⟩
    obtain ⟨e, he, hst, -⟩ := ana_both hL hN hlam mr hNL hfr hfc hc (by omega) (by omega) hj0 hj1 hp rfl
    simp only
    rw [sliceAt_ok _ (by omega) (by rw [Arr3.of_d]; omega), Py.bind_ok, he,
      Py.bind_ok, listGet_range _ hj0 hj1, Py.bind_ok, if_neg (lt_irrefl j)]
    simp only [hp]
    rw [hst, Py.bind_ok, listSet_range _ hj0 hj1, Py.bind_ok,
      listGet_range _ hj0 hj1, Py.bind_ok, Function.update_self]
    rcases E.wigInverse (anaW L Lj Nj L0j (cutPsi L N lam mr psi) j flm) Lj Nj L0j sampling reality nside with e | p
    · rfl
    simp only [Py.bind_ok]
    rw [listSet_range _ hj0 hj1, Py.bind_ok]
    have e1 := map_update_step (a := J_min) (b := J + 1) (j := j) (fun j =>
      anaW L (LN_j L j N lam mr).1 (LN_j L j N lam mr).2.1 (LN_j L j N lam mr).2.2 (cutPsi L N lam mr psi) j flm)
      (fun j => Arr3.of (2 * (LN_j L j N lam mr).2.1 - 1) (LN_j L j N lam mr).1 (2 * (LN_j L j N lam mr).1 - 1)
          fun _ _ _ => 0) (x := anaW L Lj Nj L0j (cutPsi L N lam mr psi) j flm) (by simp only [hp])
    cases scattering
    · simp only [Bool.false_eq_true, if_false]
      rw [e1, map_update_step']
    · simp only [if_true]
      rw [listGet_range _ hj0 hj1, Py.bind_ok, listSet_range _ hj0 hj1, Py.bind_ok, Function.update_self,
        Function.update_idem, e1, map_update_step']
  · intro l hl
    simp only
    have := mapM_getD hl (fun _ => ⟨[], fun _ => 0⟩)
    rw [map_range_congr (f := fun j => if j < J + 1 then _ else _)
      (g := fun j => (l[(j - J_min).toNat]?).getD ⟨[], fun _ => 0⟩)
      (fun j _ hj => by rw [if_pos hj]), this]

/-- the partial sum over the scales below `i` -/
noncomputable def synPart (L N J_min : ℤ) (lam : ℝ) (mr : Bool) (psi : Arr3 ℂ) (i : ℤ) (t : ℤ → Arr3 ℂ) : Arr2 ℂ :=
  Arr2.of L (2 * L - 1) fun l m => ∑ j ∈ Finset.Ico J_min i,
    synW L (LN_j L j N lam mr).1 (LN_j L j N lam mr).2.1 (LN_j L j N lam mr).2.2 psi j (t j) l m

theorem synPart_congr (mr : Bool) (psi : Arr3 ℂ) (i : ℤ) (r r' : ℤ → Arr3 ℂ)
    (h : ∀ j, J_min ≤ j → j < i → r j = r' j) :
    synPart L N J_min lam mr psi i r = synPart L N J_min lam mr psi i r' := by
  unfold synPart
  refine Arr2.of_congr fun l m _ _ _ _ => Finset.sum_congr rfl fun j hj => ?_
  rw [Finset.mem_Ico] at hj
  rw [h j hj.1 hj.2]

theorem synPart_zero (mr : Bool) (psi : Arr3 ℂ) (r : ℤ → Arr3 ℂ) :
    (Arr2.of L (2 * L - 1) fun _ _ => 0) = synPart L N J_min lam mr psi J_min r := by
  unfold synPart
  refine Arr2.of_congr fun l m _ _ _ _ => ?_
  simp

theorem synPart_succ (mr : Bool) (psi : Arr3 ℂ) {i : ℤ} (hi : J_min ≤ i) (r : ℤ → Arr3 ℂ) (x : Arr3 ℂ) {Lj Nj L0j : ℤ}
    (hp : LN_j L i N lam mr = (Lj, Nj, L0j)) :
    (Arr2.of L (2 * L - 1) fun l m => ∑ j ∈ Finset.Ico J_min i,
      synW L (LN_j L j N lam mr).1 (LN_j L j N lam mr).2.1 (LN_j L j N lam mr).2.2 psi j (r j) l m +
        synW L Lj Nj L0j psi i x l m) =
    synPart L N J_min lam mr psi (i + 1) (Function.update r i x) := by
  unfold synPart
  refine Arr2.of_congr fun l m _ _ _ _ => ?_
  have hI : Finset.Ico J_min (i + 1) = insert i (Finset.Ico J_min i) := by
    ext y; simp only [Finset.mem_Ico, Finset.mem_insert]; omega
  rw [hI, Finset.sum_insert (by simp), add_comm, Function.update_self, hp]
  congr 1
  refine Finset.sum_congr rfl fun j hj => ?_
  rw [Finset.mem_Ico] at hj
  rw [Function.update_of_ne (by omega)]

/-- the scaling part of a synthesis and the final transform -/
theorem syn_tail (mr : Bool) {psi : Arr3 ℂ} {phi : Arr1 ℝ} {s : Arr2 ℂ}
    (hsr : s.r = scal_bandlimit L J_min lam mr) (hsc : s.c = 2 * scal_bandlimit L J_min lam mr - 1)
    (h1 : 1 ≤ scal_bandlimit L J_min lam mr) (h2 : scal_bandlimit L J_min lam mr ≤ L) (t : List (Arr3 ℂ))
    {γ : Type} (K : Arr2 ℂ → Py γ) :
    (do
      let e ← einsum_lm_l s (Arr1.of (scal_bandlimit L J_min lam mr) fun l =>
        ((phi.v l * Real.sqrt (4 * Real.pi / (2 * l + 1)) : ℝ) : ℂ))
      let flm ← (synPart L N J_min lam mr psi (J + 1) fun j => t[(j - J_min).toNat]?.getD z3).addAt
        (mkSl (synPart L N J_min lam mr psi (J + 1) fun j => t[(j - J_min).toNat]?.getD z3).r none
          (some (scal_bandlimit L J_min lam mr)))
        (mkSl (synPart L N J_min lam mr psi (J + 1) fun j => t[(j - J_min).toNat]?.getD z3).c
          (some (L - scal_bandlimit L J_min lam mr)) (some (L - 1 + scal_bandlimit L J_min lam mr))) e
      K flm) = K (synA L N J_min J lam mr psi phi (nth z3 J_min t) s) := by
  have h := syn_scal (phi := phi) (g := fun l' m => ∑ j ∈ Finset.Ico J_min (J + 1),
        synW L (LN_j L j N lam mr).1 (LN_j L j N lam mr).2.1 (LN_j L j N lam mr).2.2 psi j
          (nth z3 J_min t j) l' m) hsr hsc h1 h2
  have h' := congrArg (fun z : Py (Arr2 ℂ) => z >>= K) h
  simp only [bind_assoc, Py.bind_ok] at h'
  exact h'

/-- **program equation** for `base.synthesis` -/
theorem base_synthesis_eq (hT : TopScale jm L lam J) (hN : 1 ≤ N) (h0 : 0 ≤ J_min) (h1 : J_min < J)
    (E : BaseFFT) (f_wav : List Px) (f_scal : Px) (spin : ℤ) (sampling : String) (nside : Option ℤ) (reality mr : Bool)
    (hssh : ∀ s, E.sphForward f_scal (scal_bandlimit L J_min lam mr) spin sampling nside reality = .ok s →
      s.r = scal_bandlimit L J_min lam mr ∧ s.c = 2 * scal_bandlimit L J_min lam mr - 1)
    (hwsh : ∀ j p t, E.wigForward p (LN_j L j N lam mr).1 (LN_j L j N lam mr).2.1 (LN_j L j N lam mr).2.2
      sampling reality nside = .ok t →
      t.d = 2 * (LN_j L j N lam mr).2.1 - 1 ∧ t.r = (LN_j L j N lam mr).1 ∧ t.c = 2 * (LN_j L j N lam mr).1 - 1)
    {psi : Arr3 ℂ} {phi : Arr1 ℝ} (hNL : Fits L N J_min J lam mr psi)
    (hflt : filters_directional_vectorised jm L N J_min lam spin 0 = .ok (psi, phi)) :
    Base.synthesis jm E f_wav f_scal L N J_min lam spin 0 sampling nside reality mr =
      (wavelet_shape_check jm E.toShapes f_wav f_scal L N J_min lam sampling nside mr >>= fun _ =>
      specSyn (E.sphForward f_scal (scal_bandlimit L J_min lam mr) spin sampling nside reality)
        (fun j => do
          let fw ← listGet f_wav (j - J_min)
          E.wigForward fw (LN_j L j N lam mr).1 (LN_j L j N lam mr).2.1 (LN_j L j N lam mr).2.2 sampling reality nside)
        (fun a => E.sphInverse a L spin sampling nside reality 0)
        L N J_min J lam mr (cutPsi L N lam mr psi) phi) := by
  have hL := hT.hL
  have hlam := hT.hlam
  have hsd : psi.d = J + 1 ∧ psi.r = L ∧ psi.c = 2 * L - 1 ∧ phi.n = L := by
    rw [filters_directional_vectorised_ok hT hN h0 h1] at hflt
    cases hflt; exact ⟨rfl, rfl, rfl, rfl⟩
  obtain ⟨hd, hr, hc, hn⟩ := hsd
  have hb := scal_bandlimit_bounds hL hlam J_min mr
  unfold Base.synthesis specSyn
  congr 1
  funext _
  simp only [hT.hJ, Py.bind_ok, zeros2_ok hL]
  refine Py.bind_congr fun s hs => ?_
  obtain ⟨hsr, hsc⟩ := hssh s hs
  simp only [hflt, Py.bind_ok, scalPhi_ok hn hb.1 hb.2]
  refine mapM_loop_then (a := J_min) (b := J + 1) _ (S := synPart L N J_min lam mr (cutPsi L N lam mr psi))
    (fun _ => z3) (by omega) (synPart_congr mr _) (synPart_zero mr _ _) ?_ ?_
  · intro j r hj0 hj1
    have hw := hwsh j
    rcases hp : LN_j L j N lam mr with ⟨Lj, Nj, L0j⟩
    rw [hp] at hw
    simp only at hw ⊢
    rcases listGet f_wav (j - J_min) with e | fw
    · rfl
    simp only [Py.bind_ok]
    rcases ht : E.wigForward fw Lj Nj L0j sampling reality nside with e | t
    · rfl
    obtain ⟨t1, t2, t3⟩ := hw _ _ ht
    simp only [Py.bind_ok]
    rw [sliceAt_ok _ (by omega) (by omega), Py.bind_ok]
    refine (syn_both hL hN hlam mr hNL hr hc hj0 hj1 hp t1 t2 t3 rfl).trans ?_
    rw [synPart_succ mr _ hj0 r t hp]
  · intro l hl
    exact syn_tail mr hsr hsc hb.1 hb.2 l _

/-! ## JAX, C and precompute back ends (always multiresolution) -/

/-- `construct_flmn_jax`/`_torch` on valid parameters -/
theorem construct_flmn_jax_ok (hL : 1 ≤ L) (hN : 1 ≤ N) (hlam : 1 < lam) (jm : JMax) (J_min J : ℤ) (mr : Bool) :
    construct_flmn_jax jm L N J_min (some J) lam mr = .ok ((pyRange J_min (J + 1)).map fun j =>
      Arr3.of (2 * (LN_j L j N lam mr).2.1 - 1) (LN_j L j N lam mr).1
        (2 * (LN_j L j N lam mr).1 - 1) fun _ _ _ => 0) ∧
    construct_flmn_torch jm L N J_min (some J) lam mr = .ok ((pyRange J_min (J + 1)).map fun j =>
      Arr3.of (2 * (LN_j L j N lam mr).2.1 - 1) (LN_j L j N lam mr).1
        (2 * (LN_j L j N lam mr).1 - 1) fun _ _ _ => 0) := by
  simp only [construct_flmn_jax, construct_flmn_torch, Py.bind_ok]
  exact ⟨mapM_ok fun j _ => zerosWavJ_ok hL hN hlam j mr, mapM_ok fun j _ => zerosWavJ_ok hL hN hlam j mr⟩

/-- the list of coefficient arrays before scale `i` is processed -/
noncomputable def anaList (L N J_min J : ℤ) (lam : ℝ) (mr : Bool) (psi : Arr3 ℂ) (flm : Arr2 ℂ) (i : ℤ) :
    List (Arr3 ℂ) :=
  (pyRange J_min (J + 1)).map fun j => if j < i then
    anaW L (LN_j L j N lam mr).1 (LN_j L j N lam mr).2.1 (LN_j L j N lam mr).2.2 psi j flm
    else Arr3.of (2 * (LN_j L j N lam mr).2.1 - 1) (LN_j L j N lam mr).1 (2 * (LN_j L j N lam mr).1 - 1)
      fun _ _ _ => 0

theorem anaList_init (mr : Bool) (psi : Arr3 ℂ) (flm : Arr2 ℂ) :
    ((pyRange J_min (J + 1)).map fun j =>
      Arr3.of (2 * (LN_j L j N lam mr).2.1 - 1) (LN_j L j N lam mr).1
        (2 * (LN_j L j N lam mr).1 - 1) fun _ _ _ => 0) = anaList L N J_min J lam mr psi flm J_min :=
  map_range_congr fun j h2 h3 => by rw [if_neg (by omega)]

/-- processing scale `j`: the new array and the new list -/
theorem anaList_get (mr : Bool) (psi : Arr3 ℂ) (flm : Arr2 ℂ) {j : ℤ} (hj0 : J_min ≤ j) (hj1 : j < J + 1) {Lj Nj L0j : ℤ}
    (hp : LN_j L j N lam mr = (Lj, Nj, L0j)) :
    listGet (anaList L N J_min J lam mr psi flm j) (j - J_min) =
      .ok (Arr3.of (2 * Nj - 1) Lj (2 * Lj - 1) fun _ _ _ => 0) := by
  rw [anaList, listGet_range _ hj0 hj1, if_neg (lt_irrefl j)]
  simp only [hp]

theorem anaList_set (mr : Bool) (psi : Arr3 ℂ) (flm : Arr2 ℂ) {j : ℤ} (hj0 : J_min ≤ j) (hj1 : j < J + 1) {Lj Nj L0j : ℤ}
    (hp : LN_j L j N lam mr = (Lj, Nj, L0j)) :
    listSet (anaList L N J_min J lam mr psi flm j) (j - J_min) (anaW L Lj Nj L0j psi j flm) =
      .ok (anaList L N J_min J lam mr psi flm (j + 1)) := by
  rw [anaList, listSet_range _ hj0 hj1, map_update_step]
  · rfl
  · simp only [hp]

theorem anaList_get' (mr : Bool) (psi : Arr3 ℂ) (flm : Arr2 ℂ) {j i : ℤ} (hj0 : J_min ≤ j) (hj1 : j < J + 1) (hji : j < i)
    {Lj Nj L0j : ℤ} (hp : LN_j L j N lam mr = (Lj, Nj, L0j)) :
    listGet (anaList L N J_min J lam mr psi flm i) (j - J_min) = .ok (anaW L Lj Nj L0j psi j flm) := by
  rw [anaList, listGet_range _ hj0 hj1, if_pos hji]
  simp only [hp]

/-- the weighted, conjugated filters -/
noncomputable def wavLm (L : ℤ) (psi : Arr3 ℂ) : Arr3 ℂ := Arr3.of psi.d L psi.c fun j l n =>
  (starRingEnd ℂ) (psi.v j l n) * ((8 * Real.pi ^ 2 / (2 * l + 1) : ℝ) : ℂ)

/-- One analysis iteration (JAX: clamped indexing) up to the engine call. -/
theorem ana_iter_jax (hL : 1 ≤ L) (hN : 1 ≤ N) (hlam : 1 < lam) (h0 : 0 ≤ J_min) (mr : Bool)
    {psi : Arr3 ℂ} {flm : Arr2 ℂ} (hNL : Fits L N J_min J lam mr psi)
    (hfr : flm.r = L) (hfc : flm.c = 2 * L - 1) (hd : J < psi.d) (hc : psi.c = 2 * L - 1)
    {j : ℤ} (hj0 : J_min ≤ j) (hj1 : j < J + 1) {Lj Nj L0j : ℤ} (hp : LN_j L j N lam mr = (Lj, Nj, L0j))
    {γ : Type} (K : List (Arr3 ℂ) → Arr3 ℂ → Py γ) :
    (do
      let a ← listGet (anaList L N J_min J lam mr (cutPsi L N lam mr psi) flm j) (j - J_min)
      let w := (wavLm L psi).sliceAtJax j (mkSl (wavLm L psi).r (some L0j) (some Lj))
        (mkSl (wavLm L psi).c (some (L - Nj)) (some (L - 1 + Nj)) 2)
      let e ← einsum_lm_ln
        (flm.slice (mkSl flm.r (some L0j) (some Lj)) (mkSl flm.c (some (L - Lj)) (some (L - 1 + Lj)))) w
      let a ← a.addAt (mkSl a.d none none 2) (mkSl a.r (some L0j) none) (mkSl a.c none none) e
      let f_wav_lmn ← listSet (anaList L N J_min J lam mr (cutPsi L N lam mr psi) flm j) (j - J_min) a
      let a ← listGet f_wav_lmn (j - J_min)
      K f_wav_lmn a) =
    K (anaList L N J_min J lam mr (cutPsi L N lam mr psi) flm (j + 1)) (anaW L Lj Nj L0j (cutPsi L N lam mr psi) j flm) := by
  obtain ⟨e, he, -, hst⟩ := ana_both hL hN hlam mr hNL hfr hfc hc (show j < psi.d by omega) (by omega) hj0 hj1 hp rfl
  rw [anaList_get mr _ flm hj0 hj1 hp, Py.bind_ok]
  simp only
  rw [sliceAtJax_ok _ (by omega) (by show j < psi.d; omega)]
  show (einsum_lm_ln _ (Arr2.of (mkSl L (some L0j) (some Lj)).len
    (mkSl psi.c (some (L - Nj)) (some (L - 1 + Nj)) 2).len _) >>= _) = _
  rw [wavLm]
  refine (congrArg (fun z : Py (Arr3 ℂ) => z >>= _)
    he).trans ?_
  rw [Py.bind_ok, hst, Py.bind_ok, anaList_set mr _ flm hj0 hj1 hp, Py.bind_ok,
    anaList_get' mr _ flm hj0 hj1 (by omega) hp, Py.bind_ok]

/-- One analysis iteration (torch: checked indexing) up to the engine call. -/
theorem ana_iter_torch (hL : 1 ≤ L) (hN : 1 ≤ N) (hlam : 1 < lam) (h0 : 0 ≤ J_min) (mr : Bool)
    {psi : Arr3 ℂ} {flm : Arr2 ℂ} (hNL : Fits L N J_min J lam mr psi)
    (hfr : flm.r = L) (hfc : flm.c = 2 * L - 1) (hd : J < psi.d) (hc : psi.c = 2 * L - 1)
    {j : ℤ} (hj0 : J_min ≤ j) (hj1 : j < J + 1) {Lj Nj L0j : ℤ} (hp : LN_j L j N lam mr = (Lj, Nj, L0j))
    {γ : Type} (K : List (Arr3 ℂ) → Arr3 ℂ → Py γ) :
    (do
      let a ← listGet (anaList L N J_min J lam mr (cutPsi L N lam mr psi) flm j) (j - J_min)
      let w ← (wavLm L psi).sliceAt j (mkSl (wavLm L psi).r (some L0j) (some Lj))
        (mkSl (wavLm L psi).c (some (L - Nj)) (some (L - 1 + Nj)) 2)
      let e ← einsum_lm_ln
        (flm.slice (mkSl flm.r (some L0j) (some Lj)) (mkSl flm.c (some (L - Lj)) (some (L - 1 + Lj)))) w
      let a ← a.addAt (mkSl a.d none none 2) (mkSl a.r (some L0j) none) (mkSl a.c none none) e
      let f_wav_lmn ← listSet (anaList L N J_min J lam mr (cutPsi L N lam mr psi) flm j) (j - J_min) a
      let a ← listGet f_wav_lmn (j - J_min)
      K f_wav_lmn a) =
    K (anaList L N J_min J lam mr (cutPsi L N lam mr psi) flm (j + 1)) (anaW L Lj Nj L0j (cutPsi L N lam mr psi) j flm) := by
  refine Eq.trans ?_ (ana_iter_jax (J := J) hL hN hlam h0 mr hNL hfr hfc hd hc hj0 hj1 hp K)
  refine Py.bind_congr fun a _ => ?_
  simp only
  rw [sliceAt_ok _ (by omega) (by show j < psi.d; omega), Py.bind_ok,
    sliceAtJax_ok _ (by omega) (by show j < psi.d; omega)]

theorem wavLm_ok {psi : Arr3 ℂ} (hL : 1 ≤ L) (hr : psi.r = L) :
    einsum_jln_l (psi.map (starRingEnd ℂ)) (norm8 L) = .ok (wavLm L psi) := wav_lm_ok (by omega) hr

/-- Closed-form wavelet part of an analysis -/
noncomputable def specWav (winv : ℤ → Arr3 ℂ → Py Px) (L N J_min J : ℤ) (lam : ℝ) (mr : Bool) (psi : Arr3 ℂ)
    (flm : Arr2 ℂ) : Py (List Px) :=
  (pyRange J_min (J + 1)).mapM fun j => winv j
    (anaW L (LN_j L j N lam mr).1 (LN_j L j N lam mr).2.1 (LN_j L j N lam mr).2.2 psi j flm)

/-- The analysis loop that appends results (JAX), followed by the rest `K`. -/
theorem jax_loop (hL : 1 ≤ L) (hN : 1 ≤ N) (hlam : 1 < lam) (h0 : 0 ≤ J_min) (hJ : J_min ≤ J + 1)
    {psi : Arr3 ℂ} {flm : Arr2 ℂ} (hNL : Fits L N J_min J lam true psi)
    (hfr : flm.r = L) (hfc : flm.c = 2 * L - 1) (hd : J < psi.d) (hc : psi.c = 2 * L - 1)
    (winv : ℤ → Arr3 ℂ → Py Px) {γ : Type} (K : List Px → Py γ) :
    ((pyRange J_min (J + 1)).foldlM (init := (anaList L N J_min J lam true (cutPsi L N lam true psi) flm J_min, ([] : List Px)))
      (fun (st : List (Arr3 ℂ) × List Px) (j : ℤ) => do
        let (f_wav_lmn, f_wav) := st
        let (Lj, Nj, L0j) := LN_j L j N lam true
        let a ← listGet f_wav_lmn (j - J_min)
        let w := (wavLm L psi).sliceAtJax j (mkSl (wavLm L psi).r (some L0j) (some Lj))
          (mkSl (wavLm L psi).c (some (L - Nj)) (some (L - 1 + Nj)) 2)
        let e ← einsum_lm_ln
          (flm.slice (mkSl flm.r (some L0j) (some Lj)) (mkSl flm.c (some (L - Lj)) (some (L - 1 + Lj)))) w
        let a ← a.addAt (mkSl a.d none none 2) (mkSl a.r (some L0j) none) (mkSl a.c none none) e
        let f_wav_lmn ← listSet f_wav_lmn (j - J_min) a
        let a ← listGet f_wav_lmn (j - J_min)
        let p ← winv j a
        .ok (f_wav_lmn, f_wav ++ [p])) >>= fun st => K st.2) =
    (specWav winv L N J_min J lam true (cutPsi L N lam true psi) flm >>= K) := by
  refine mapM_loop_then (a := J_min) (b := J + 1) _
    (S := fun i r => (anaList L N J_min J lam true (cutPsi L N lam true psi) flm i, (pyRange J_min i).map r))
    (fun _ => ⟨[], fun _ => 0⟩) (by omega) ?_ ?_ ?_ ?_
  · intro i r r' h
    simp only [Prod.mk.injEq, true_and]
    exact map_range_congr h
  · rw [pyRange_empty le_rfl]; rfl
  · intro j r hj0 hj1
    rcases hp : LN_j L j N lam true with ⟨Lj, Nj, L0j⟩
    simp only
    refine (ana_iter_jax (J := J) hL hN hlam h0 true hNL hfr hfc hd hc hj0 hj1 hp
      (fun f_wav_lmn a => do
        let p ← winv j a
        .ok (f_wav_lmn, (pyRange J_min j).map r ++ [p]))).trans ?_
    refine Py.bind_congr fun p _ => ?_
    congr 2
    rw [pyRange_snoc hj0, List.map_append, List.map_singleton, Function.update_self]
    congr 1
    exact map_range_congr fun k _ hk => by rw [Function.update_of_ne (by omega)]
  · intro l hl
    simp only
    rw [mapM_getD hl]

/-- The analysis loop that stores results in a preallocated list (torch), followed by the rest `K`. -/
theorem torch_loop (hL : 1 ≤ L) (hN : 1 ≤ N) (hlam : 1 < lam) (h0 : 0 ≤ J_min) (hJ : J_min ≤ J + 1)
    {psi : Arr3 ℂ} {flm : Arr2 ℂ} (hNL : Fits L N J_min J lam true psi)
    (hfr : flm.r = L) (hfc : flm.c = 2 * L - 1) (hd : J < psi.d) (hc : psi.c = 2 * L - 1)
    (winv : ℤ → Arr3 ℂ → Py Px) {γ : Type} (K : List Px → Py γ) :
    ((pyRange J_min (J + 1)).foldlM (init := (anaList L N J_min J lam true (cutPsi L N lam true psi) flm J_min,
        (pyRange J_min (J + 1)).map fun _ => (⟨[0], fun _ => 0⟩ : Px)))
      (fun (st : List (Arr3 ℂ) × List Px) (j : ℤ) => do
        let (f_wav_lmn, f_wav) := st
        let (Lj, Nj, L0j) := LN_j L j N lam true
        let a ← listGet f_wav_lmn (j - J_min)
        let w ← (wavLm L psi).sliceAt j (mkSl (wavLm L psi).r (some L0j) (some Lj))
          (mkSl (wavLm L psi).c (some (L - Nj)) (some (L - 1 + Nj)) 2)
        let e ← einsum_lm_ln
          (flm.slice (mkSl flm.r (some L0j) (some Lj)) (mkSl flm.c (some (L - Lj)) (some (L - 1 + Lj)))) w
        let a ← a.addAt (mkSl a.d none none 2) (mkSl a.r (some L0j) none) (mkSl a.c none none) e
        let f_wav_lmn ← listSet f_wav_lmn (j - J_min) a
        let a ← listGet f_wav_lmn (j - J_min)
        let p ← winv j a
        let f_wav ← listSet f_wav (j - J_min) p
        .ok (f_wav_lmn, f_wav)) >>= fun st => K st.2) =
    (specWav winv L N J_min J lam true (cutPsi L N lam true psi) flm >>= K) := by
  refine mapM_loop_then (a := J_min) (b := J + 1) _
    (S := fun i r => (anaList L N J_min J lam true (cutPsi L N lam true psi) flm i,
      (pyRange J_min (J + 1)).map fun j => if j < i then r j else ⟨[0], fun _ => 0⟩))
    (fun _ => ⟨[], fun _ => 0⟩) (by omega) ?_ ?_ ?_ ?_
  · intro i r r' h
    simp only [Prod.mk.injEq, true_and]
    refine map_range_congr fun j h2 h3 => ?_
    by_cases hj : j < i
    · rw [if_pos hj, if_pos hj, h j h2 hj]
    · rw [if_neg hj, if_neg hj]
  · congr 1
    exact map_range_congr fun j h2 h3 => by rw [if_neg (by omega)]
  · intro j r hj0 hj1
    rcases hp : LN_j L j N lam true with ⟨Lj, Nj, L0j⟩
    simp only
    refine (ana_iter_torch (J := J) hL hN hlam h0 true hNL hfr hfc hd hc hj0 hj1 hp
      (fun f_wav_lmn a => do
        let p ← winv j a
        let f_wav ← listSet ((pyRange J_min (J + 1)).map fun k => if k < j then r k else ⟨[0], fun _ => 0⟩)
          (j - J_min) p
        .ok (f_wav_lmn, f_wav))).trans ?_
    refine Py.bind_congr fun p _ => ?_
    rw [listSet_range _ hj0 hj1, Py.bind_ok, map_update_step']
  · intro l hl
    simp only
    rw [map_range_congr (f := fun j => if j < J + 1 then _ else _)
      (g := fun j => (l[(j - J_min).toNat]?).getD ⟨[], fun _ => 0⟩)
      (fun j _ hj => by rw [if_pos hj]), mapM_getD hl]

/-- the shapes of filters accepted by the transforms -/
structure FltShape (L J : ℤ) (psi : Arr3 ℂ) (phi : Arr1 ℝ) : Prop where
  d : J < psi.d
  r : psi.r = L
  c : psi.c = 2 * L - 1
  n : phi.n = L

/-- the scaling part of the JAX-style analyses, with its special case -/
noncomputable def scalInv (Ls : ℤ) (inv : Arr2 ℂ → Py Px) (a : Arr2 ℂ) : Py Px :=
  if Ls = 1 then .ok (Px.ofArr2 (a.map fun x => x * ((Real.sqrt (1 / (4 * Real.pi)) : ℝ) : ℂ))) else inv a

theorem jax_analysis_eq {K : Type} (hJ : jm L lam = .ok J) (hL : 1 ≤ L) (hlam : 1 < lam) (hN : 1 ≤ N)
    (h0 : 0 ≤ J_min) (h1 : J_min ≤ J + 1) (E : JaxFFT K) (f : Px) (spin : ℤ) (sampling : String) (nside : Option ℤ)
    (reality : Bool) {psi : Arr3 ℂ} {phi : Arr1 ℝ} (hF : FltShape L J psi phi) (hNL : Fits L N J_min J lam true psi) (pcs : List K)
    (hsh : ∀ flm, E.sphForward f L spin nside sampling reality = .ok flm → flm.r = L ∧ flm.c = 2 * L - 1) :
    Jax.analysis jm E f L N J_min lam spin sampling nside reality (some (psi, phi)) (some pcs) =
      specAna (E.sphForward f L spin nside sampling reality)
        (fun j a => do
          let pc ← listGet pcs (j - J_min)
          E.wigInverse a (LN_j L j N lam true).1 (LN_j L j N lam true).2.1 nside sampling reality pc
            (LN_j L j N lam true).2.2)
        (scalInv (scal_bandlimit L J_min lam true) fun a =>
          E.sphInverse a (scal_bandlimit L J_min lam true) spin nside sampling reality)
        L N J_min J lam true (cutPsi L N lam true psi) phi := by
  have hb := scal_bandlimit_bounds hL hlam J_min true
  unfold Jax.analysis specAna
  simp only [hJ, Py.bind_ok, unNone, wavLm_ok hL hF.r]
  refine Py.bind_congr fun flm hf => ?_
  obtain ⟨hfr, hfc⟩ := hsh flm hf
  simp only [(construct_flmn_jax_ok hL hN hlam jm J_min J true).1, Py.bind_ok, scalPhi_ok hF.n hb.1 hb.2,
    ana_scal hfr hfc hb.1 hb.2, anaList_init true (cutPsi L N lam true psi) flm]
  refine Eq.trans ?_ (jax_loop hL hN hlam h0 h1 hNL hfr hfc hF.d hF.c (fun j a => do
          let pc ← listGet pcs (j - J_min)
          E.wigInverse a (LN_j L j N lam true).1 (LN_j L j N lam true).2.1 nside sampling reality pc
            (LN_j L j N lam true).2.2)
    (fun w => do
      let s ← scalInv (scal_bandlimit L J_min lam true) (fun a =>
          E.sphInverse a (scal_bandlimit L J_min lam true) spin nside sampling reality)
          (anaS L (scal_bandlimit L J_min lam true) phi flm)
      .ok (w, s)))
  simp only [bind_assoc]
  refine congrArg _ (funext fun st => ?_)
  unfold scalInv
  split <;> rfl

end

end S2wav
