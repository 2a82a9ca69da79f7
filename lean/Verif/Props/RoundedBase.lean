import Verif.Model.IeeeBase
import Verif.Props.RoundedBackends

/-! # C110: `base.py` in double precision

`analysis` and `synthesis` of `s2wav/transforms/base.py`, with and without multiresolution, with everything s2wav itself computes in double
precision, the filters included, and with s2fft's transforms accurate up to a relative error `δ`, as in C107. -/

namespace S2wav
open Classical

/-- **C110** the programs over an arbitrary arithmetic are, in exact arithmetic and with the filters of the exact model, the programs of
the exact model, on all inputs. -/
theorem C110_exact (E : BaseFFT) (jm : JMax) (L N J_min : ℤ) (lam : ℝ) (spin spin0 : ℤ) (sampling : String) (nside : Option ℤ) (reality mr : Bool) :
    (∀ f scattering, Base.analysisO Ops.exact E.toO jm (filters_directional_vectorised jm L N J_min lam spin spin0) f L N J_min lam spin sampling nside
        reality mr scattering =
      Base.analysis jm E f L N J_min lam spin spin0 sampling nside reality mr scattering) ∧
    (∀ w s, Base.synthesisO Ops.exact E.toO jm (filters_directional_vectorised jm L N J_min lam spin spin0) w s L N J_min lam spin sampling nside reality mr =
      Base.synthesis jm E w s L N J_min lam spin spin0 sampling nside reality mr) := by
  constructor
  · intro f scattering
    unfold Base.analysisO Base.analysis
    simp only [Base.construct_fO, construct_flm, construct_flmn, construct_f, bind_assoc]
    rcases jm L lam with e | J
    · rfl
    · simp only [Py.bind_ok]
      rfl
  · intro w s
    unfold Base.synthesisO Base.synthesis
    simp only [einsumO_exact]
    rfl

/-! ### base.py assigns where the other modules add to zeros -/

section
variable {α β P : Type} [Zero α]

/-- the same arithmetic, with `0 + y = y` exactly -/
noncomputable def Ops.set (O : Ops α β) : Ops α β := { O with add := fun x y => if x = 0 then y else O.add x y }

theorem assign_zero (O : Ops α β) (d r c : ℤ) (s t u : Sl) (w : Arr3 α) :
    (Arr3.of d r c fun _ _ _ => (0 : α)).assign s t u w = (Arr3.of d r c fun _ _ _ => (0 : α)).addAtO O.set s t u w := by
  have hz : ∀ k i j, (Arr3.of d r c fun _ _ _ => (0 : α)).v k i j = 0 := by
    intro k i j
    by_cases h : 0 ≤ k ∧ k < d ∧ 0 ≤ i ∧ i < r ∧ 0 ≤ j ∧ j < c
    · rw [Arr3.of_v _ _ _ _ _ _ _ h]
    · rw [Arr3.of_out _ _ _ _ _ _ _ h]
  unfold Arr3.assign Arr3.addAtO
  refine ite_congr rfl (fun _ => ?_) fun _ => rfl
  refine congrArg Except.ok (Arr3.of_congr fun k i j _ _ _ _ _ _ => ?_)
  refine ite_congr rfl (fun _ => ?_) fun _ => rfl
  show _ = if _ = 0 then _ else _
  rw [if_pos (hz _ _ _)]

/-- the loop of base.py -/
theorem fusedB {mr : Bool} (O : Ops α β) {L N J J_min : ℤ} {lam : ℝ} {flm : Arr2 α} {psi : Arr3 α} (hL : 1 ≤ L) (hlam : 1 < lam) (hN : 1 ≤ N) (hNL : N ≤ L)
    (h0 : 0 ≤ J_min) (h1 : J_min ≤ J + 1) (hd : J < psi.d) (hr : psi.r = L) (hc : psi.c = 2 * L - 1)
    (hfr : flm.r = L) (hfc : flm.c = 2 * L - 1) {wav_lm : Arr3 α}
    (hw : einsumO_jln_l O (psi.map O.conj) (arange (fun l => O.ofReal (O.c8 l)) 0 L) = .ok wav_lm) {t : ℤ → Arr3 α}
    (ht : harmW O.set mr flm L N J_min J lam (some psi) = .ok ((pyRange J_min (J + 1)).map t))
    {q : ℤ → Arr3 α → Py P} {p : ℤ → P} (hq : ∀ j, J_min ≤ j → j < J + 1 → q j (t j) = .ok (p j)) (x0 : ℤ → P) (ab : P → P) (scattering : Bool) :
    (pyRange J_min (J + 1)).foldlM (init := ((pyRange J_min (J + 1)).map fun j =>
      Arr3.of (2 * (LN_j L j N lam mr).2.1 - 1) (LN_j L j N lam mr).1 (2 * (LN_j L j N lam mr).1 - 1) fun _ _ _ => (0 : α),
      (pyRange J_min (J + 1)).map x0))
    (fun (st : List (Arr3 α) × List P) (j : ℤ) => do
      let w ← wav_lm.sliceAt j (mkSl wav_lm.r (some (LN_j L j N lam mr).2.2) (some (LN_j L j N lam mr).1))
          (mkSl wav_lm.c (some (L - (LN_j L j N lam mr).2.1)) (some (L - 1 + (LN_j L j N lam mr).2.1)) 2)
      let e ← einsumO_lm_ln O
        (flm.slice (mkSl flm.r (some (LN_j L j N lam mr).2.2) (some (LN_j L j N lam mr).1))
          (mkSl flm.c (some (L - (LN_j L j N lam mr).1)) (some (L - 1 + (LN_j L j N lam mr).1)))) w
      let a ← listGet st.1 (j - J_min)
      let a ← a.assign (mkSl a.d none none 2) (mkSl a.r (some (LN_j L j N lam mr).2.2) none) (mkSl a.c none none) e
      let f_wav_lmn ← listSet st.1 (j - J_min) a
      let a ← listGet f_wav_lmn (j - J_min)
      let p ← q j a
      let f_wav ← listSet st.2 (j - J_min) p
      let f_wav ← if scattering then do
          let p ← listGet f_wav (j - J_min)
          listSet f_wav (j - J_min) (ab p)
        else .ok f_wav
      .ok (f_wav_lmn, f_wav)) =
    .ok ((pyRange J_min (J + 1)).map t, (pyRange J_min (J + 1)).map fun j => if scattering then ab (p j) else p j) := by
  rw [harmW_eq O.set hL hlam hN hNL h0 h1 flm hd hr hc hfr hfc] at ht
  injection ht with ht
  have ht' : ∀ j, J_min ≤ j → j < J + 1 → t j = anaWO O.set L (LN_j L j N lam mr).1 (LN_j L j N lam mr).2.1 (LN_j L j N lam mr).2.2 psi j flm :=
    fun j a b => (map_range_inj ht a b).symm
  set z : ℤ → Arr3 α := fun j => Arr3.of (2 * (LN_j L j N lam mr).2.1 - 1) (LN_j L j N lam mr).1 (2 * (LN_j L j N lam mr).1 - 1) fun _ _ _ => (0 : α) with hz
  set p' : ℤ → P := fun j => if scattering then ab (p j) else p j with hp'
  set S : ℤ → List (Arr3 α) × List P := fun i => ((pyRange J_min (J + 1)).map fun j => if j < i then t j else z j,
    (pyRange J_min (J + 1)).map fun j => if j < i then p' j else x0 j) with hS
  have hi : ((pyRange J_min (J + 1)).map z, (pyRange J_min (J + 1)).map x0) = S J_min := by
    rw [hS]
    simp only
    congr 1 <;> exact map_range_congr fun j h2 h3 => by rw [if_neg (by omega)]
  have he : ((pyRange J_min (J + 1)).map t, (pyRange J_min (J + 1)).map p') = S (J + 1) := by
    rw [hS]
    simp only
    congr 1 <;> exact map_range_congr fun j h2 h3 => by rw [if_pos (by omega)]
  rw [hi, he]
  refine range_loop_eq S h1 fun j hj0 hj1 => ?_
  obtain ⟨hst, hjd⟩ := fused_step O.set (mr := mr) (lam := lam) hL hlam hN hNL h0 hd hr hc hfr hfc hw hj0 hj1
  have hg : listGet (S j).1 (j - J_min) = .ok (z j) := by
    rw [hS]
    simp only
    rw [listGet_range _ hj0 hj1, if_neg (lt_irrefl j)]
  simp only [hg, Py.bind_ok, sliceAtO_ok wav_lm (by omega : 0 ≤ j) hjd]
  rcases he : einsumO_lm_ln O
        (flm.slice (mkSl flm.r (some (LN_j L j N lam mr).2.2) (some (LN_j L j N lam mr).1))
          (mkSl flm.c (some (L - (LN_j L j N lam mr).1)) (some (L - 1 + (LN_j L j N lam mr).1))))
        (wav_lm.sliceAtJax j (mkSl wav_lm.r (some (LN_j L j N lam mr).2.2) (some (LN_j L j N lam mr).1))
          (mkSl wav_lm.c (some (L - (LN_j L j N lam mr).2.1)) (some (L - 1 + (LN_j L j N lam mr).2.1)) 2)) with e | e
  · have hst := (congrArg (fun x : Py (Arr3 α) => x >>= _) he).symm.trans hst
    cases hst
  · have hst := (congrArg (fun x : Py (Arr3 α) => x >>= _) he).symm.trans hst
    rw [Py.bind_ok] at hst
    have hst' : (z j).assign (mkSl (z j).d none none 2) (mkSl (z j).r (some (LN_j L j N lam mr).2.2) none) (mkSl (z j).c none none) e = .ok (t j) := by
      rw [ht' j hj0 hj1, hz, assign_zero O]; exact hst
    rw [Py.bind_ok, hst', Py.bind_ok, hS]
    simp only
    rw [listSet_range _ hj0 hj1, Py.bind_ok, map_update_step _ _ rfl, listGet_range _ hj0 hj1, if_pos (by omega), Py.bind_ok, hq j hj0 hj1, Py.bind_ok,
      listSet_range _ hj0 hj1, Py.bind_ok]
    cases scattering
    · simp only [Bool.false_eq_true, if_false, Py.bind_ok]
      rw [map_update_step _ _ (by rw [hp']; rfl)]
    · simp only [if_true]
      rw [listGet_range _ hj0 hj1, Function.update_self, Py.bind_ok, listSet_range _ hj0 hj1, Py.bind_ok, Function.update_idem, map_update_step _ _ (by rw [hp']; rfl)]

end

theorem ofC_eq_zero {x : ℂ} (h : C64.ofC x = 0) : x = 0 := by
  have h1 : F64.fin x.re = F64.fin 0 := congrArg C64.re h
  have h2 : F64.fin x.im = F64.fin 0 := congrArg C64.im h
  injection h1 with h1
  injection h2 with h2
  exact Complex.ext h1 h2

theorem set_good {O : Ops C64 F64} (h : O.Good) : O.set.Good where
  conj := h.conj
  ofReal := h.ofReal
  mul := h.mul
  add x y hx hy := by
    by_cases h0 : C64.ofC x = 0
    · refine ⟨y, if_pos h0, ?_⟩
      rw [ofC_eq_zero h0, zero_add, sub_self, norm_zero]
      have := uu_pos
      have := eta_pos
      positivity
    · obtain ⟨z, hz, hb⟩ := h.add x y hx hy
      exact ⟨z, (if_neg h0).trans hz, hb⟩
  dot := h.dot
  rmul := h.rmul
  c8 := h.c8
  c4 := h.c4

/-! ### the transforms -/

/-- what is assumed of `s2fft.base_transforms` in double precision: the accuracy of C107 -/
def BaseFFTO.Near {P : Type} (E : BaseFFTO C64 P) (c : Cfg) (J : ℤ) (mr : Bool) (δ κ τ : ℝ) : Prop :=
  PipeNear c J mr
    (fun j a => E.wigInverse a (c.Lj mr j) (c.Nj mr j) (c.L0 mr j) c.sampling c.reality c.nside)
    (fun j p => E.wigForward p (c.Lj mr j) (c.Nj mr j) (c.L0 mr j) c.sampling c.reality c.nside)
    (fun a => E.sphInverse a (c.Ls mr) c.spin c.sampling c.nside c.reality 0)
    (fun p => E.sphForward p (c.Ls mr) c.spin c.sampling c.nside c.reality) δ κ τ

/-- the inverse transforms return images of the shapes that `wavelet_shape_check` expects, and the arrays `analysis` allocates (base.py:309)
can be allocated -/
structure BaseFFTO.Shaped {P : Type} (E : BaseFFTO C64 P) (jm : JMax) (c : Cfg) (J : ℤ) (mr : Bool) : Prop where
  wav : ∀ j t p, c.J_min ≤ j → j ≤ J → E.wigInverse t (c.Lj mr j) (c.Nj mr j) (c.L0 mr j) c.sampling c.reality c.nside = .ok p →
    E.so3 (c.Lj mr j) (c.Nj mr j) c.sampling c.nside = .ok (E.shape p)
  scal : ∀ a p, E.sphInverse a (c.Ls mr) c.spin c.sampling c.nside c.reality 0 = .ok p → E.s2 (c.Ls mr) c.sampling c.nside = .ok (E.shape p)
  alloc : ∃ al, Base.construct_fO E jm c.L c.N c.J_min c.lam c.sampling (some (if mr then 1 else 0)) false = .ok al

section
variable {O : Ops C64 F64} {jm : JMax} {c : Cfg} {J : ℤ} {mr : Bool} {psi : Arr3 ℂ} {phi : Arr1 ℝ} {flm : Arr2 ℂ} {P : Type} {δ κ τ : ℝ} {f : P}
  {p : ℤ → P} {ps : P} {g : Arr2 ℂ} {E : BaseFFTO C64 P}

theorem shapeCheckO_ok (hv : c.Valid jm J) (hS : E.s2 (c.Ls mr) c.sampling c.nside = .ok (E.shape ps))
    (hw : ∀ j, c.J_min ≤ j → j ≤ J → E.so3 (c.Lj mr j) (c.Nj mr j) c.sampling c.nside = .ok (E.shape (p j))) :
    Base.shapeCheckO E jm ((pyRange c.J_min (J + 1)).map p) ps c.L c.N c.J_min c.lam c.sampling c.nside mr = .ok () := by
  have hL : f_scal E.toShapes c.L c.J_min c.lam c.sampling c.nside mr = .ok (E.shape ps) := by
    rw [← hS]; unfold f_scal Cfg.Ls scal_bandlimit; rfl
  have h1 := hv.h1
  unfold Base.shapeCheckO n_wav_scales
  simp only [hv.top.hJ, Py.bind_ok, hL]
  have e1 : (pyAssert ((((pyRange c.J_min (J + 1)).map p).length : ℤ) = J - c.J_min + 1)) = .ok () := by
    unfold pyAssert; rw [if_pos (by rw [List.length_map, length_pyRange]; omega)]
  have e2 : (pyAssert True) = .ok () := by unfold pyAssert; rw [if_pos trivial]
  rw [e1, e2, Py.bind_ok, Py.bind_ok]
  refine range_loop_eq (fun _ => ()) (by omega) fun j hj0 hj1 => ?_
  have : f_wav_j E.toShapes c.L j c.N c.lam c.sampling c.nside mr = .ok (E.shape (p j)) := by
    rw [← hw j hj0 (by omega)]; rfl
  rw [listGet_range _ hj0 hj1, Py.bind_ok, this, Py.bind_ok]
  simp only
  exact e2

/-- the programs of base.py do what `PipeRun` says -/
theorem base_run (hv : c.Valid jm J) (hG : c.Filters J mr psi phi) (hbl : BL2 c.L 0 flm) (hsh : E.Shaped jm c J mr)
    (hf : E.sphForward f c.L c.spin c.sampling c.nside c.reality = .ok (flm.map C64.ofC))
    (hr : PipeRun O.set O mr c J
      (fun j a => E.wigInverse a (c.Lj mr j) (c.Nj mr j) (c.L0 mr j) c.sampling c.reality c.nside)
      (fun j p => E.wigForward p (c.Lj mr j) (c.Nj mr j) (c.L0 mr j) c.sampling c.reality c.nside)
      (fun a => E.sphInverse a (c.Ls mr) c.spin c.sampling c.nside c.reality 0)
      (fun p => E.sphForward p (c.Ls mr) c.spin c.sampling c.nside c.reality) psi phi flm p ps g) :
    (∀ scattering, Base.analysisO O E jm (.ok (psi.map C64.ofC, phi.map F64.fin)) f c.L c.N c.J_min c.lam c.spin c.sampling c.nside c.reality mr scattering =
      .ok ((pyRange c.J_min (J + 1)).map fun j => if scattering then E.abs (p j) else p j, ps)) ∧
    Base.synthesisO O E jm (.ok (psi.map C64.ofC, phi.map F64.fin)) ((pyRange c.J_min (J + 1)).map p) ps c.L c.N c.J_min c.lam c.spin c.sampling c.nside
        c.reality mr =
      E.sphInverse (g.map C64.ofC) c.L c.spin c.sampling c.nside c.reality 0 := by
  have hJ := hv.top.hJ
  have hL := hv.top.hL
  have hlam := hv.top.hlam
  have h0 := hv.h0
  have h1 := hv.h1
  obtain ⟨t, A1, hp⟩ := hr.wav
  obtain ⟨a, A2, hps⟩ := hr.scal
  constructor
  · intro scattering
    obtain ⟨wl, hwl⟩ : ∃ wl, einsumO_jln_l O ((psi.map C64.ofC).map O.conj) (arange (fun l => O.ofReal (O.c8 l)) 0 c.L) = .ok wl :=
      ⟨_, wav_lmO_ok O (by omega : 0 ≤ c.L) hG.r⟩
    obtain ⟨al, hal⟩ := hsh.alloc
    have hal' : (pyRange c.J_min (J + 1)).map (fun j => (al[(j - c.J_min).toNat]?).getD ps) = al := by
      simp only [Base.construct_fO, hJ, Py.bind_ok] at hal
      exact mapM_getD hal (fun _ => ps)
    have hloop := fusedB O (psi := psi.map C64.ofC) (flm := flm.map C64.ofC)
      (q := fun j a => E.wigInverse a (c.Lj mr j) (c.Nj mr j) (c.L0 mr j) c.sampling c.reality c.nside) hL hlam hv.hN hv.hNL h0 (by omega) hG.d hG.r hG.cols
      hbl.r hbl.c hwl A1 hp (fun j => (al[(j - c.J_min).toNat]?).getD ps) E.abs scattering
    rw [hal'] at hloop
    unfold harmS at A2
    simp only [unNone, Py.bind_ok] at A2
    obtain ⟨phi', hphi, A2⟩ := Py.bind_eq_ok.1 A2
    have hphi : scalPhiO O (phi.map F64.fin) (scal_bandlimit c.L c.J_min c.lam mr) = .ok phi' := hphi
    have A2 : einsumO_lm_l O ((flm.map C64.ofC).slice (mkSl (flm.map C64.ofC).r none (some (scal_bandlimit c.L c.J_min c.lam mr)))
      (mkSl (flm.map C64.ofC).c (some (c.L - scal_bandlimit c.L c.J_min c.lam mr)) (some (c.L - 1 + scal_bandlimit c.L c.J_min c.lam mr)))) phi' = .ok a := A2
    have hps : E.sphInverse a (scal_bandlimit c.L c.J_min c.lam mr) c.spin c.sampling c.nside c.reality 0 = .ok ps := hps
    have hb := scal_bandlimit_bounds hL hlam c.J_min mr
    have hz2 : (zeros2 (scal_bandlimit c.L c.J_min c.lam mr) (2 * scal_bandlimit c.L c.J_min c.lam mr - 1) : Py (Arr2 C64)) = .ok _ :=
      if_neg (by omega)
    have hfl := flmnM_ok (α := C64) (mr := mr) (J_min := c.J_min) (J := J) hL hv.hN hlam
    unfold flmnM at hfl
    unfold Base.analysisO
    simp only [hJ, Py.bind_ok, hz2, hal, hwl, hf, hphi, A2, hps]
    refine (congrArg (· >>= _) hfl).trans ?_
    rw [Py.bind_ok]
    exact (congrArg (· >>= _) hloop).trans rfl
  · obtain ⟨t', s', hp', hs', hg⟩ := hr.syn
    have hs' : E.sphForward ps (scal_bandlimit c.L c.J_min c.lam mr) c.spin c.sampling c.nside c.reality = .ok s' := hs'
    have hck := shapeCheckO_ok (p := p) hv (hsh.scal a ps hps) fun j a0 a1 => hsh.wav j _ _ a0 a1 (hp j a0 (by omega))
    unfold harmSum at hg
    unfold Base.synthesisO
    have : E.sphInverse (g.map C64.ofC) c.L c.spin c.sampling c.nside c.reality 0 =
        Except.ok (g.map C64.ofC) >>= fun g => E.sphInverse g c.L c.spin c.sampling c.nside c.reality 0 := rfl
    rw [this, ← hg, hck]
    simp only [hJ, unNone, Py.bind_ok, hs', bind_assoc]
    refine congrArg (_ >>= ·) (funext fun z => congrArg₂ (· >>= ·) (foldlM_congr' (fun s j hj => ?_) _) rfl)
    rw [mem_pyRange] at hj
    simp only [sliceAtO_ok (psi.map C64.ofC) (show 0 ≤ j by omega) (show j < psi.d by have := hG.d; omega), Py.bind_ok]
    have := hp' j hj.1 hj.2
    rw [listGet_range _ hj.1 hj.2, listGet_range _ hj.1 hj.2, Py.bind_ok, Py.bind_ok]
    exact (congrArg (· >>= _) this).trans (Py.bind_ok _ _)

/-- **C110** `analysis` and then `synthesis` of base.py in double precision, with or without multiresolution, when the filters computed inside have a frame sum
of at most `B`: the coefficients handed to the final inverse transform are those of the input times the frame sum, up to a relative error
of norm and an absolute error for underflow, as in C107. With `scattering`, the wavelet maps are those without, in absolute value. -/
theorem C110_round_trip {filters : Py (Arr3 C64 × Arr1 F64)} (hflt : filters = .ok (psi.map C64.ofC, phi.map F64.fin))
    (hO : O.Good) (hn : E.Near c J mr δ κ τ) (hsh : E.Shaped jm c J mr) (hδ : 0 ≤ δ) (hδ1 : δ ≤ 1) (hκ : 0 ≤ κ) (hκ1 : κ ≤ 2 ^ 20) (hτ : 0 ≤ τ) (hτ1 : τ ≤ 1)
    (hv : c.Valid jm J) (hL' : c.L ≤ 2 ^ 52) (hN' : c.N ≤ 2 ^ 10) (hJ : J < 2 ^ 10) (hG : c.Filters J mr psi phi) {B : ℝ}
    (hB : ∀ l, 0 ≤ l → l < c.L → frameSum c.J_min J c.L psi phi l ≤ B) (hB2 : B ≤ 2)
    (hf : E.sphForward f c.L c.spin c.sampling c.nside c.reality = .ok (flm.map C64.ofC)) (hbl : BL2 c.L 0 flm) (hherm : c.reality = true → Herm2 flm)
    (hfb : ∀ l m, ‖co2 flm l m‖ ≤ 2 ^ (300 : ℤ)) :
    ∃ w s g, Base.analysisO O E jm filters f c.L c.N c.J_min c.lam c.spin c.sampling c.nside c.reality mr false = .ok (w, s) ∧
      Base.analysisO O E jm filters f c.L c.N c.J_min c.lam c.spin c.sampling c.nside c.reality mr true = .ok (w.map E.abs, s) ∧
      Base.synthesisO O E jm filters w s c.L c.N c.J_min c.lam c.spin c.sampling c.nside c.reality mr =
        E.sphInverse (g.map C64.ofC) c.L c.spin c.sampling c.nside c.reality 0 ∧
      g.r = c.L ∧ g.c = 2 * c.L - 1 ∧
      norm2 c.L (fun l m => co2 g l m - (frameSum c.J_min J c.L psi phi l : ℂ) * co2 flm l m) ≤
        B * ((1 + (c.N + J + 4) / 2 ^ 49) * (δ + κ * 2 ^ (-47 : ℤ)) + (c.N + J + 4) / 2 ^ 49) * norm2 c.L (co2 flm) +
          (2 * (J + 2) * τ + 2 ^ (-550 : ℤ)) := by
  subst hflt
  obtain ⟨p, ps, g, hr, h⟩ := pipe_round_trip (set_good hO) hO hn hδ hδ1 hκ hκ1 hτ hτ1 hv hL' hN' hJ hG hB hB2 hbl hherm hfb
  obtain ⟨h1, h2⟩ := base_run hv hG hbl hsh hf hr
  refine ⟨_, _, g, h1 false, (h1 true).trans ?_, h2, hr.r, hr.c, h⟩
  rw [List.map_map]
  rfl

/-- **C110** the same with the filters base.py uses, computed in double precision (`lam = 2`): nothing is raised, and the coefficients of the
input come back, up to a relative error of norm. -/
theorem C110_error {m : Libm} {lg : F64 → F64} (hm : m.Ok) (hsp : Libm.Special m lg)
    (hO : O.Good) (hn : E.Near c J mr δ κ τ) (hsh : E.Shaped jm c J mr) (hδ : 0 ≤ δ) (hδ1 : δ ≤ 1) (hκ : 0 ≤ κ) (hκ1 : κ ≤ 2 ^ 20) (hτ : 0 ≤ τ) (hτ1 : τ ≤ 1)
    (hv : c.Valid jm J) (hlam : c.lam = 2) (hL' : c.L ≤ 2 ^ 52) (hN' : c.N ≤ 990) (hJ : J ≤ 1000) (hre : c.reality = true → c.N ≤ 41) (hs : |c.spin| < c.L)
    (hf : E.sphForward f c.L c.spin c.sampling c.nside c.reality = .ok (flm.map C64.ofC)) (hbl : BL2 c.L c.spin flm) (hherm : c.reality = true → Herm2 flm)
    (hfb : ∀ l m, ‖co2 flm l m‖ ≤ 2 ^ (300 : ℤ)) :
    ∃ w s g, Base.analysisO O E jm (filters_directional_vectorised64 m lg jm c.L c.N c.J_min c.lam c.spin) f
        c.L c.N c.J_min c.lam c.spin c.sampling c.nside c.reality mr false = .ok (w, s) ∧
      Base.analysisO O E jm (filters_directional_vectorised64 m lg jm c.L c.N c.J_min c.lam c.spin) f
        c.L c.N c.J_min c.lam c.spin c.sampling c.nside c.reality mr true = .ok (w.map E.abs, s) ∧
      Base.synthesisO O E jm (filters_directional_vectorised64 m lg jm c.L c.N c.J_min c.lam c.spin) w s
        c.L c.N c.J_min c.lam c.spin c.sampling c.nside c.reality mr = E.sphInverse (g.map C64.ofC) c.L c.spin c.sampling c.nside c.reality 0 ∧
      g.r = c.L ∧ g.c = 2 * c.L - 1 ∧
      norm2 c.L (fun l m => co2 g l m - co2 flm l m) ≤ (1.01 * (δ + κ * 2 ^ (-47 : ℤ)) + ownErr c J) * norm2 c.L (co2 flm) +
        (2 * (J + 2) * τ + 2 ^ (-550 : ℤ)) := by
  have hT := hv.top
  rw [hlam] at hT
  obtain ⟨psi, phi, hflt, -⟩ := C101_directional hm hsp hT (by omega) hJ hv.hN hN' hv.h0 hv.h1 c.spin
  rw [← hlam] at hflt
  obtain ⟨hG, p, ps, g, hr, h⟩ := pipe_filt64 (mr := mr) (set_good hO) hO hn hδ hδ1 hκ hκ1 hτ hτ1 hv hlam hL' hN' hJ hre hs
    ⟨m, m, lg, hm, Or.inl ⟨hsp, hflt⟩⟩ hbl hherm hfb
  obtain ⟨h1, h2⟩ := base_run hv (hG mr) hbl.zero_spin hsh hf hr
  rw [hflt]
  refine ⟨_, _, g, h1 false, (h1 true).trans ?_, h2, hr.r, hr.c, h⟩
  rw [List.map_map]
  rfl

end

/-! ### Non-vacuity -/

/-- the toy transforms of C107 for base.py, refusing arrays of the wrong shape -/
def toyB : BaseFFTO C64 (Arr2 C64 ⊕ Arr3 C64) where
  s2 L _ _ := .ok [L, 2 * L - 1]
  so3 L N _ _ := .ok [2 * N - 1, L, 2 * L - 1]
  sphForward p L spin _ _ reality := toyO.sphForward p L spin reality 0
  sphInverse a L spin _ _ reality _ := if a.r = L ∧ a.c = 2 * L - 1 then toyO.sphInverse a L spin reality 0 else .error .valueError
  wigForward p L N L_lower sampling reality _ := toyO.wigForward p L N L_lower sampling reality
  wigInverse t L N L_lower sampling reality _ :=
    if t.d = 2 * N - 1 ∧ t.r = L ∧ t.c = 2 * L - 1 then toyO.wigInverse t L N L_lower sampling reality else .error .valueError
  shape p := match p with
    | .inl a => [a.r, a.c]
    | .inr t => [t.d, t.r, t.c]
  zeros _ := .ok (.inl (Arr2.of 0 0 fun _ _ => 0))
  abs p := p

theorem toyB_near (c : Cfg) (J : ℤ) (mr : Bool) : toyB.Near c J mr 0 1 0 := by
  constructor
  · intro j t u h0 h1 hd hr hc hb hu hh
    obtain ⟨p, t', a1, a2, a3, a4⟩ := (toyO_pipe c J mr 0).wav j t u h0 h1 hd hr hc hb hu hh
    exact ⟨p, t', (if_pos ⟨hd, hr, hc⟩).trans a1, a2, a3, a4⟩
  · intro a u hr hc hb hu hh
    obtain ⟨p, a', a1, a2, a3, a4⟩ := (toyO_pipe c J mr 0).scal a u hr hc hb hu hh
    exact ⟨p, a', (if_pos ⟨hr, hc⟩).trans a1, a2, a3, a4⟩

theorem toyB_shaped (mr : Bool) : toyB.Shaped j_max toyCfg 4 mr := by
  constructor
  · intro j t p _ _ h
    by_cases hs : t.d = 2 * toyCfg.Nj mr j - 1 ∧ t.r = toyCfg.Lj mr j ∧ t.c = 2 * toyCfg.Lj mr j - 1
    · have h := (if_pos hs).symm.trans h
      injection h with h
      subst h
      show Except.ok _ = Except.ok [t.d, t.r, t.c]
      rw [hs.1, hs.2.1, hs.2.2]
    · have h := (if_neg hs).symm.trans h
      cases h
  · intro a p h
    by_cases hs : a.r = toyCfg.Ls mr ∧ a.c = 2 * toyCfg.Ls mr - 1
    · have h := (if_pos hs).symm.trans h
      injection h with h
      subst h
      show Except.ok _ = Except.ok [a.r, a.c]
      rw [hs.1, hs.2]
    · have h := (if_neg hs).symm.trans h
      cases h
  · have hJ : j_max toyCfg.L toyCfg.lam = .ok 4 := toyCfg_top.hJ
    unfold Base.construct_fO
    rw [hJ]
    exact ⟨_, rfl⟩

/-- a round trip of `Y_{5,2}` in double precision, `L = 16`, `N = 3`, `J_min = 1`, with and without multiresolution -/
example (mr : Bool) : ∃ w s g, Base.analysisO Ops.ieee toyB j_max (filters_directional_vectorised64 Libm.exact lgExact j_max 16 3 1 2 0)
      (.inl (toyFlm.map C64.ofC)) 16 3 1 2 0 "mw" none false mr false = .ok (w, s) ∧
    Base.synthesisO Ops.ieee toyB j_max (filters_directional_vectorised64 Libm.exact lgExact j_max 16 3 1 2 0) w s 16 3 1 2 0 "mw" none false mr =
      .ok (.inl (g.map C64.ofC)) ∧
    norm2 16 (fun l m => co2 g l m - if l = 5 ∧ m = 2 then 1 else 0) ≤ 1 / 2 ^ 41 := by
  obtain ⟨w, s, g, h1, -, h2, h3, h4, h5⟩ := C110_error (E := toyB) (f := (.inl (toyFlm.map C64.ofC) : Arr2 C64 ⊕ Arr3 C64)) (flm := toyFlm) Libm.exact_ok
    lgExact_special C105_ieee (toyB_near toyCfg 4 mr) (toyB_shaped mr)
    le_rfl zero_le_one zero_le_one (by norm_num) le_rfl zero_le_one toyCfg_valid rfl (by norm_num [toyCfg]) (by norm_num [toyCfg]) (by norm_num) (by simp [toyCfg])
    (by norm_num [toyCfg]) toyFlm_forward toyFlm_bl (by simp [toyCfg]) toyFlm_le
  refine ⟨w, s, g, h1, h2.trans (if_pos ⟨h3, h4⟩), toy_bound ?_⟩
  have e1 : norm2 toyCfg.L (co2 toyFlm) = 1 := toyFlm_norm
  have e2 : ownErr toyCfg 4 = (((3 : ℤ) : ℝ) + ((4 : ℤ) : ℝ) + 40) / 2 ^ 48 := by
    rw [ownErr, if_pos (by norm_num [toyCfg])]
    rfl
  simp only [← toyFlm_co]
  rw [e1, e2] at h5
  exact h5

end S2wav
