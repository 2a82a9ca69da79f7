import Verif.Model.IeeeTransforms
import Verif.Lemmas.Progs2

/-! # Closed forms of the harmonic-space steps over any arithmetic -/

namespace S2wav
open Classical

variable {α β : Type} [Zero α] (O : Ops α β)

/-- closed form of the Wigner coefficients of scale `j` -/
noncomputable def anaWO (L Lj Nj L0j : ℤ) (psi : Arr3 α) (j : ℤ) (flm : Arr2 α) : Arr3 α :=
  Arr3.of (2 * Nj - 1) Lj (2 * Lj - 1) fun k l m =>
    if k % 2 = 0 ∧ L0j ≤ l then
      O.add 0 (O.mul (flm.v l (L - Lj + m)) (O.mul (O.conj (psi.v j l (L - Nj + k))) (O.ofReal (O.c8 l))))
    else 0

/-- closed form of the scaling coefficients -/
noncomputable def anaSO [Zero β] (L Ls : ℤ) (phi : Arr1 β) (flm : Arr2 α) : Arr2 α :=
  Arr2.of Ls (2 * Ls - 1) fun l m => O.mul (flm.v l (L - Ls + m)) (O.ofReal (O.rmul (phi.v l) (O.c4 l)))

/-- the sum of products over the directions of scale `j` -/
noncomputable def dotO (L Lj Nj : ℤ) (psi : Arr3 α) (j : ℤ) (t : Arr3 α) (l m : ℤ) : α :=
  O.dot ((pyRange 0 Nj).map fun k => (psi.v j l (L - Nj + 2 * k), t.v (2 * k) l (m - (L - Lj))))

/-- one step of the synthesis -/
noncomputable def synWO (L Lj Nj L0j : ℤ) (psi : Arr3 α) (j : ℤ) (t : Arr3 α) (l m : ℤ) (g : α) : α :=
  if L0j ≤ l ∧ l < Lj ∧ L - Lj ≤ m ∧ m < L - 1 + Lj then O.add g (dotO O L Lj Nj psi j t l m) else g

/-- the last step of the synthesis -/
noncomputable def synSO [Zero β] (L Ls : ℤ) (phi : Arr1 β) (s : Arr2 α) (l m : ℤ) (g : α) : α :=
  if l < Ls ∧ L - Ls ≤ m ∧ m < L - 1 + Ls then
    O.add g (O.mul (s.v l (m - (L - Ls))) (O.ofReal (O.rmul (phi.v l) (O.c4 l))))
  else g

/-- the sum over the scales from `J_min` to below `i` -/
noncomputable def synPO (mr : Bool) (L N J_min : ℤ) (lam : ℝ) (psi : Arr3 α) (t : ℤ → Arr3 α) (i l m : ℤ) : α :=
  (pyRange J_min i).foldl (fun g j =>
    synWO O L (LN_j L j N lam mr).1 (LN_j L j N lam mr).2.1 (LN_j L j N lam mr).2.2 psi j (t j) l m g) 0

/-- closed form of the synthesis -/
noncomputable def synAO [Zero β] (mr : Bool) (L N J_min J : ℤ) (lam : ℝ) (psi : Arr3 α) (phi : Arr1 β) (t : ℤ → Arr3 α) (s : Arr2 α) : Arr2 α :=
  Arr2.of L (2 * L - 1) fun l m =>
    synSO O L (scal_bandlimit L J_min lam mr) phi s l m (synPO O mr L N J_min lam psi t (J + 1) l m)

theorem Arr2.addAtO_ok (a : Arr2 α) (s t : Sl) (w : Arr2 α) (hr : w.r = s.len) (hc : w.c = t.len) :
    a.addAtO O s t w = .ok (Arr2.of a.r a.c fun i j =>
      if s.mem i ∧ t.mem j then O.add (a.v i j) (w.v (bix w.r (s.pos i)) (bix w.c (t.pos j))) else a.v i j) :=
  if_pos ⟨Or.inl hr, Or.inl hc⟩

variable {L Lj Nj L0j D j : ℤ}

theorem wav_lmO_ok {psi : Arr3 α} (hL : 0 ≤ L) (hr : psi.r = L) :
    einsumO_jln_l O (psi.map O.conj) (arange (fun l => O.ofReal (O.c8 l)) 0 L) = .ok (Arr3.of psi.d L psi.c fun j l n =>
      O.mul (O.conj (psi.v j l n)) (O.ofReal (O.c8 l))) := by
  have hn : (arange (fun l => O.ofReal (O.c8 l)) 0 L).n = L := by simp [arange]; omega
  unfold einsumO_jln_l
  have h1 : (psi.map O.conj).r = L := hr
  rw [hn, h1, bdim_self, Py.bind_ok]
  congr 1
  refine Arr3.of_congr fun k i n a b c d e f => ?_
  rw [bix_self c d]
  have e1 : (psi.map O.conj).v k i n = O.conj (psi.v k i n) :=
    Arr3.of_v _ _ _ _ _ _ _ ⟨a, b, c, by rw [hr]; exact d, e, f⟩
  rw [e1]
  congr 1
  unfold arange
  rw [Arr1.of_v _ _ _ ⟨c, by omega⟩, zero_add]

theorem sliceAtJaxO_ok (a : Arr3 α) (h0 : 0 ≤ j) (h1 : j < a.d) (s t : Sl) :
    a.sliceAtJax j s t = Arr2.of s.len t.len fun i k => a.v j (s.at i) (t.at k) := by
  unfold Arr3.sliceAtJax
  rw [jaxIdx_ok h0 h1]

theorem anaO_prod {flm : Arr2 α} {psi : Arr3 α} (hfr : flm.r = L) (hfc : flm.c = 2 * L - 1)
    (hd : j < psi.d) (hc : psi.c = 2 * L - 1) (hj : 0 ≤ j) (hN1 : 1 ≤ Nj) (hN : Nj ≤ L) (hLj1 : 1 ≤ Lj) (hLj : Lj ≤ L)
    (hL0 : 0 ≤ L0j) :
    einsumO_lm_ln O
      (flm.slice (mkSl flm.r (some L0j) (some Lj)) (mkSl flm.c (some (L - Lj)) (some (L - 1 + Lj))))
      (Arr2.of (mkSl L (some L0j) (some Lj)).len (mkSl psi.c (some (L - Nj)) (some (L - 1 + Nj)) 2).len
        fun i k => (Arr3.of psi.d L psi.c fun j l n => O.mul (O.conj (psi.v j l n)) (O.ofReal (O.c8 l))).v j
          ((mkSl L (some L0j) (some Lj)).at i) ((mkSl psi.c (some (L - Nj)) (some (L - 1 + Nj)) 2).at k)) =
    .ok (Arr3.of Nj (max 0 (Lj - min L0j Lj)) (2 * Lj - 1) fun k l m =>
      O.mul (flm.v (L0j + l) (L - Lj + m)) (O.mul (O.conj (psi.v j (L0j + l) (L - Nj + 2 * k))) (O.ofReal (O.c8 (L0j + l))))) := by
  have hm : mkSl L (some L0j) (some Lj) = ⟨min L0j L, max 0 (Lj - min L0j L), 1⟩ := mkSl_mid hL0 hLj (by omega)
  have hlen : max 0 (Lj - min L0j L) = max 0 (Lj - min L0j Lj) := by omega
  have hcs : mkSl flm.c (some (L - Lj)) (some (L - 1 + Lj)) = ⟨L - Lj, 2 * Lj - 1, 1⟩ := by
    rw [mkSl_mid (by omega) (by omega) (by omega)]; congr 1 <;> omega
  have hps : mkSl psi.c (some (L - Nj)) (some (L - 1 + Nj)) 2 = ⟨L - Nj, Nj, 2⟩ :=
    mkSl_step2 (by omega) (by omega) (by omega) hN1
  rw [hfr, hm, hcs, hps, hlen]
  unfold einsumO_lm_ln Arr2.slice
  simp only [Arr2.of_r, Arr2.of_c, bdim_self, Py.bind_ok]
  congr 1
  refine Arr3.of_congr fun k l m a b c d e f => ?_
  have hb : bix (max 0 (Lj - min L0j Lj)) l = l := bix_self c d
  have hL0L : min L0j L = L0j := by omega
  rw [hb, Arr2.of_v _ _ _ _ _ ⟨c, d, e, f⟩, Arr2.of_v _ _ _ _ _ ⟨c, d, a, b⟩]
  simp only [Sl.at, mul_one]
  rw [hL0L, Arr3.of_v _ _ _ _ _ _ _ ⟨hj, hd, by omega, by omega, by omega, by omega⟩, mul_comm k 2]

theorem anaO_write {flm : Arr2 α} {psi : Arr3 α} (hN1 : 1 ≤ Nj) (hLj1 : 1 ≤ Lj) (hL0 : 0 ≤ L0j)
    {a : Arr3 α} (ha : a = Arr3.of (2 * Nj - 1) Lj (2 * Lj - 1) fun _ _ _ => 0) {e : Arr3 α}
    (he : e = Arr3.of Nj (max 0 (Lj - min L0j Lj)) (2 * Lj - 1) fun k l m =>
      O.mul (flm.v (L0j + l) (L - Lj + m)) (O.mul (O.conj (psi.v j (L0j + l) (L - Nj + 2 * k))) (O.ofReal (O.c8 (L0j + l))))) :
    a.addAtO O (mkSl a.d none none 2) (mkSl a.r (some L0j) none) (mkSl a.c none none) e =
      .ok (anaWO O L Lj Nj L0j psi j flm) := by
  subst ha
  have h1 : mkSl (2 * Nj - 1) none none 2 = ⟨0, Nj, 2⟩ := mkSl_all2 rfl hN1
  have h2 : mkSl Lj (some L0j) none = ⟨min L0j Lj, max 0 (Lj - min L0j Lj), 1⟩ := mkSl_from hL0
  have h3 : mkSl (2 * Lj - 1) none none = ⟨0, 2 * Lj - 1, 1⟩ := mkSl_all (by omega)
  have hd : e.d = Nj := by rw [he]; rfl
  have hr : e.r = max 0 (Lj - min L0j Lj) := by rw [he]; rfl
  have hc : e.c = 2 * Lj - 1 := by rw [he]; rfl
  unfold Arr3.addAtO
  simp only [Arr3.of_d, Arr3.of_r, Arr3.of_c, h1, h2, h3]
  rw [if_pos ⟨Or.inl hd, Or.inl hr, Or.inl hc⟩]
  congr 1
  refine Arr3.of_congr fun k l m a b c d e' f => ?_
  rw [Arr3.of_v _ _ _ _ _ _ _ ⟨a, b, c, d, e', f⟩]
  simp only [Sl.mem_two, Sl.mem_one, Sl.pos_two, Sl.pos_one]
  by_cases hk : k % 2 = 0 ∧ L0j ≤ l
  · rw [if_pos (by omega), if_pos hk, hd, hr, hc, bix_self (by omega) (by omega), bix_self (by omega) (by omega),
      bix_self (by omega) (by omega)]
    rw [he, Arr3.of_v _ _ _ _ _ _ _ ⟨by omega, by omega, by omega, by omega, by omega, by omega⟩]
    have e1 : L0j + (l - min L0j Lj) = l := by omega
    have e2 : 2 * (k / 2) = k := by omega
    have e3 : m - 0 = m := by omega
    rw [e1, e2, e3]
  · rw [if_neg (by omega), if_neg hk]

theorem scalPhiO_ok [Zero β] {phi : Arr1 β} {Ls : ℤ} (hp : phi.n = L) (h1 : 1 ≤ Ls) (h2 : Ls ≤ L) :
    scalPhiO O phi Ls = .ok (Arr1.of Ls fun l => O.ofReal (O.rmul (phi.v l) (O.c4 l))) := by
  unfold scalPhiO Arr1.zip arange Arr1.slice
  rw [hp, mkSl_to h2 (by omega)]
  have : max 0 (Ls - 0) = Ls := by omega
  simp only [Arr1.of_n, this, bdim_self, Py.bind_ok]
  congr 1
  refine Arr1.of_congr fun l a b => ?_
  rw [bix_self a b, Arr1.of_v _ _ _ ⟨a, b⟩, Arr1.of_v _ _ _ ⟨a, b⟩]
  simp [Sl.at]

theorem anaO_scal [Zero β] {flm : Arr2 α} {phi : Arr1 β} {Ls : ℤ} (hfr : flm.r = L) (hfc : flm.c = 2 * L - 1)
    (h1 : 1 ≤ Ls) (h2 : Ls ≤ L) :
    einsumO_lm_l O (flm.slice (mkSl flm.r none (some Ls)) (mkSl flm.c (some (L - Ls)) (some (L - 1 + Ls))))
      (Arr1.of Ls fun l => O.ofReal (O.rmul (phi.v l) (O.c4 l))) = .ok (anaSO O L Ls phi flm) := by
  have hcs : mkSl flm.c (some (L - Ls)) (some (L - 1 + Ls)) = ⟨L - Ls, 2 * Ls - 1, 1⟩ := by
    rw [mkSl_mid (by omega) (by omega) (by omega)]; congr 1 <;> omega
  rw [hfr, mkSl_to h2 (by omega), hcs]
  unfold einsumO_lm_l Arr2.slice anaSO
  simp only [Arr2.of_r, Arr2.of_c, Arr1.of_n, bdim_self, Py.bind_ok]
  congr 1
  refine Arr2.of_congr fun l m a b c d => ?_
  rw [bix_self a b, Arr2.of_v _ _ _ _ _ ⟨a, b, c, d⟩, Arr1.of_v _ _ _ ⟨a, b⟩]
  simp [Sl.at]

theorem synO_step {psi t : Arr3 α} {g : ℤ → ℤ → α} (hr : psi.r = L) (hc : psi.c = 2 * L - 1)
    (hN1 : 1 ≤ Nj) (hN : Nj ≤ L) (hLj1 : 1 ≤ Lj) (hLj : Lj ≤ L) (hL0 : 0 ≤ L0j)
    (htd : t.d = 2 * Nj - 1) (htr : t.r = Lj) (htc : t.c = 2 * Lj - 1) {w : Arr2 α}
    (hw : w = Arr2.of (mkSl psi.r (some L0j) (some Lj)).len (mkSl psi.c (some (L - Nj)) (some (L - 1 + Nj)) 2).len
      fun i k => psi.v j ((mkSl psi.r (some L0j) (some Lj)).at i)
        ((mkSl psi.c (some (L - Nj)) (some (L - 1 + Nj)) 2).at k)) :
    (do
      let e ← einsumO_ln_nlm O w (t.slice (mkSl t.d none none 2) (mkSl t.r (some L0j) none) (mkSl t.c none none))
      (Arr2.of L (2 * L - 1) g).addAtO O (mkSl L (some L0j) (some Lj))
        (mkSl (2 * L - 1) (some (L - Lj)) (some (L - 1 + Lj))) e) =
    .ok (Arr2.of L (2 * L - 1) fun l m => synWO O L Lj Nj L0j psi j t l m (g l m)) := by
  have hm : mkSl L (some L0j) (some Lj) = ⟨min L0j L, max 0 (Lj - min L0j L), 1⟩ := mkSl_mid hL0 hLj (by omega)
  have hlen : max 0 (Lj - min L0j L) = max 0 (Lj - min L0j Lj) := by omega
  have hcs : mkSl (2 * L - 1) (some (L - Lj)) (some (L - 1 + Lj)) = ⟨L - Lj, 2 * Lj - 1, 1⟩ := by
    rw [mkSl_mid (by omega) (by omega) (by omega)]; congr 1 <;> omega
  have hps : mkSl psi.c (some (L - Nj)) (some (L - 1 + Nj)) 2 = ⟨L - Nj, Nj, 2⟩ :=
    mkSl_step2 (by omega) (by omega) (by omega) hN1
  have h1 : mkSl (2 * Nj - 1) none none 2 = ⟨0, Nj, 2⟩ := mkSl_all2 rfl hN1
  have h2 : mkSl Lj (some L0j) none = ⟨min L0j Lj, max 0 (Lj - min L0j Lj), 1⟩ := mkSl_from hL0
  have h3 : mkSl (2 * Lj - 1) none none = ⟨0, 2 * Lj - 1, 1⟩ := mkSl_all (by omega)
  rw [hr, hm, hps] at hw
  rw [htd, htr, htc, hm, hcs, h1, h2, h3, hlen]
  rw [hlen] at hw
  unfold einsumO_ln_nlm Arr3.slice
  subst hw
  simp only [Arr2.of_r, Arr2.of_c, Arr3.of_d, Arr3.of_r, Arr3.of_c, bdim_self, Py.bind_ok]
  refine (Arr2.addAtO_ok O _ _ _ _ rfl rfl).trans ?_
  simp only [Arr2.of_r, Arr2.of_c]
  congr 1
  refine Arr2.of_congr fun l m a b c d => ?_
  rw [Arr2.of_v _ _ _ _ _ ⟨a, b, c, d⟩]
  simp only [Sl.mem_one, Sl.pos_one]
  unfold synWO
  by_cases h : L0j ≤ l ∧ l < Lj ∧ L - Lj ≤ m ∧ m < L - 1 + Lj
  · rw [if_pos (by omega), if_pos h, bix_self (by omega) (by omega), bix_self (by omega) (by omega),
      Arr2.of_v _ _ _ _ _ ⟨by omega, by omega, by omega, by omega⟩]
    congr 1
    unfold dotO
    congr 1
    refine map_range_congr fun k hk0 hk1 => ?_
    have hmin : min L0j L = L0j := by omega
    have hmin' : min L0j Lj = L0j := by omega
    rw [hmin, hmin', bix_self (by omega) (by omega), bix_self (by omega) (by omega),
      Arr2.of_v _ _ _ _ _ ⟨by omega, by omega, by omega, by omega⟩,
      Arr3.of_v _ _ _ _ _ _ _ ⟨by omega, by omega, by omega, by omega, by omega, by omega⟩]
    simp only [Sl.at]
    congr 2 <;> ring
  · rw [if_neg (by omega), if_neg h]

theorem synO_scal [Zero β] {s : Arr2 α} {phi : Arr1 β} {Ls : ℤ} {g : ℤ → ℤ → α} (hsr : s.r = Ls) (hsc : s.c = 2 * Ls - 1)
    (h1 : 1 ≤ Ls) (h2 : Ls ≤ L) :
    (do
      let e ← einsumO_lm_l O s (Arr1.of Ls fun l => O.ofReal (O.rmul (phi.v l) (O.c4 l)))
      (Arr2.of L (2 * L - 1) g).addAtO O (mkSl L none (some Ls))
        (mkSl (2 * L - 1) (some (L - Ls)) (some (L - 1 + Ls))) e) =
    .ok (Arr2.of L (2 * L - 1) fun l m => synSO O L Ls phi s l m (g l m)) := by
  have hcs : mkSl (2 * L - 1) (some (L - Ls)) (some (L - 1 + Ls)) = ⟨L - Ls, 2 * Ls - 1, 1⟩ := by
    rw [mkSl_mid (by omega) (by omega) (by omega)]; congr 1 <;> omega
  rw [mkSl_to h2 (by omega), hcs]
  unfold einsumO_lm_l
  simp only [Arr1.of_n, hsr, hsc, bdim_self, Py.bind_ok]
  refine (Arr2.addAtO_ok O _ _ _ _ rfl rfl).trans ?_
  simp only [Arr2.of_r, Arr2.of_c]
  congr 1
  refine Arr2.of_congr fun l m a b c d => ?_
  rw [Arr2.of_v _ _ _ _ _ ⟨a, b, c, d⟩]
  simp only [Sl.mem_one, Sl.pos_one]
  unfold synSO
  by_cases h : l < Ls ∧ L - Ls ≤ m ∧ m < L - 1 + Ls
  · rw [if_pos (by omega), if_pos h, sub_zero, bix_self (by omega) (by omega), bix_self (by omega) (by omega),
      Arr2.of_v _ _ _ _ _ ⟨by omega, by omega, by omega, by omega⟩, bix_self (by omega) (by omega),
      Arr1.of_v _ _ _ ⟨by omega, by omega⟩]
  · rw [if_neg (by omega), if_neg h]

/-! ### whole functions -/

variable {N J J_min : ℤ} {lam : ℝ}

/-! The three functions of wavelet_c.py with `multiresolution` as an argument: they always run with `True`, base.py has the same expressions with
either value. -/

/-- `construct_flmnO` with `multiresolution` as an argument -/
noncomputable def flmnM (α : Type) [Zero α] (mr : Bool) (L N J_min J : ℤ) (lam : ℝ) : Py (List (Arr3 α)) :=
  (pyRange J_min (J + 1)).mapM fun j =>
    let (d, r, c) := flmn_wav_j L j N lam mr
    zeros3 d r c

/-- `generate_and_apply_waveletsO` with `multiresolution` as an argument -/
noncomputable def harmW (mr : Bool) (flm : Arr2 α) (L N J_min J : ℤ) (lam : ℝ)
    (filters : Option (Arr3 α)) : Py (List (Arr3 α)) := do
  let f_wav_lmn ← flmnM α mr L N J_min J lam
  let wav ← unNone filters
  let wav_lm ← einsumO_jln_l O (wav.map O.conj) (arange (fun l => O.ofReal (O.c8 l)) 0 L)
  (pyRange J_min (J + 1)).foldlM (init := f_wav_lmn) fun (f_wav_lmn : List (Arr3 α)) (j : ℤ) => do
    let (Lj, Nj, L0j) := LN_j L j N lam mr
    let a ← listGet f_wav_lmn (j - J_min)
    let w := wav_lm.sliceAtJax j (mkSl wav_lm.r (some L0j) (some Lj))
      (mkSl wav_lm.c (some (L - Nj)) (some (L - 1 + Nj)) 2)
    let e ← einsumO_lm_ln O
      (flm.slice (mkSl flm.r (some L0j) (some Lj)) (mkSl flm.c (some (L - Lj)) (some (L - 1 + Lj)))) w
    let a ← a.addAtO O (mkSl a.d none none 2) (mkSl a.r (some L0j) none) (mkSl a.c none none) e
    listSet f_wav_lmn (j - J_min) a

/-- `generate_and_apply_scalingO` with `multiresolution` as an argument -/
noncomputable def harmS [Zero β] (mr : Bool) (flm : Arr2 α) (L J_min : ℤ) (lam : ℝ) (filters : Option (Arr1 β)) :
    Py (Arr2 α) := do
  let Ls := scal_bandlimit L J_min lam mr
  let scal ← unNone filters
  let phi ← scalPhiO O scal Ls
  einsumO_lm_l O (flm.slice (mkSl flm.r none (some Ls)) (mkSl flm.c (some (L - Ls)) (some (L - 1 + Ls)))) phi

/-- `sum_over_wavelet_and_scalingO` with `multiresolution` as an argument -/
noncomputable def harmSum [Zero β] (mr : Bool) (f_wav_lmn : List (Arr3 α)) (f_scal_lm : Arr2 α)
    (L N J_min J : ℤ) (lam : ℝ) (filters : Option (Arr3 α × Arr1 β)) : Py (Arr2 α) := do
  let Ls := scal_bandlimit L J_min lam mr
  let flm ← zeros2 L (2 * L - 1)
  let flm ← (pyRange J_min (J + 1)).foldlM (init := flm) fun (flm : Arr2 α) (j : ℤ) => do
    let (Lj, Nj, L0j) := LN_j L j N lam mr
    let temp ← listGet f_wav_lmn (j - J_min)
    let (wav, _) ← unNone filters
    let w := wav.sliceAtJax j (mkSl wav.r (some L0j) (some Lj))
      (mkSl wav.c (some (L - Nj)) (some (L - 1 + Nj)) 2)
    let t := temp.slice (mkSl temp.d none none 2) (mkSl temp.r (some L0j) none) (mkSl temp.c none none)
    let e ← einsumO_ln_nlm O w t
    flm.addAtO O (mkSl flm.r (some L0j) (some Lj)) (mkSl flm.c (some (L - Lj)) (some (L - 1 + Lj))) e
  let (_, scal) ← unNone filters
  let phi ← scalPhiO O scal Ls
  let e ← einsumO_lm_l O f_scal_lm phi
  let flm ← flm.addAtO O (mkSl flm.r none (some Ls)) (mkSl flm.c (some (L - Ls)) (some (L - 1 + Ls))) e
  .ok flm

theorem harmW_true : harmW O true = generate_and_apply_waveletsO O := rfl

theorem harmS_true [Zero β] : harmS O true = generate_and_apply_scalingO O := rfl

theorem harmSum_true [Zero β] : harmSum O true = sum_over_wavelet_and_scalingO O := rfl

variable {mr : Bool}

theorem flmnM_ok (hL : 1 ≤ L) (hN : 1 ≤ N) (hlam : 1 < lam) :
    flmnM α mr L N J_min J lam = .ok ((pyRange J_min (J + 1)).map fun j =>
      Arr3.of (2 * (LN_j L j N lam mr).2.1 - 1) (LN_j L j N lam mr).1
        (2 * (LN_j L j N lam mr).1 - 1) fun _ _ _ => 0) := by
  refine mapM_ok fun j _ => ?_
  have h1 := LN_j_Lj_bounds (N := N) hL hlam j mr
  have h2 := LN_j_Nj_bounds hL hlam hN j mr
  refine if_neg ?_
  show ¬ (2 * (LN_j L j N lam mr).2.1 - 1 < 0 ∨ (LN_j L j N lam mr).1 < 0 ∨ 2 * (LN_j L j N lam mr).1 - 1 < 0)
  omega

theorem harmW_eq (hL : 1 ≤ L) (hlam : 1 < lam) (hN : 1 ≤ N) (hNL : N ≤ L)
    (h0 : 0 ≤ J_min) (h1 : J_min ≤ J + 1) (flm : Arr2 α)
    {psi : Arr3 α} (hd : J < psi.d) (hr : psi.r = L) (hc : psi.c = 2 * L - 1)
    (hfr : flm.r = L) (hfc : flm.c = 2 * L - 1) :
    harmW O mr flm L N J_min J lam (some psi) =
      .ok ((pyRange J_min (J + 1)).map fun j =>
        anaWO O L (LN_j L j N lam mr).1 (LN_j L j N lam mr).2.1 (LN_j L j N lam mr).2.2 psi j flm) := by
  unfold harmW
  simp only [flmnM_ok hL hN hlam, Py.bind_ok, unNone, wav_lmO_ok O (by omega : 0 ≤ L) hr]
  set S : ℤ → List (Arr3 α) := fun i => (pyRange J_min (J + 1)).map fun j => if j < i then
    anaWO O L (LN_j L j N lam mr).1 (LN_j L j N lam mr).2.1 (LN_j L j N lam mr).2.2 psi j flm
    else Arr3.of (2 * (LN_j L j N lam mr).2.1 - 1) (LN_j L j N lam mr).1 (2 * (LN_j L j N lam mr).1 - 1)
      fun _ _ _ => 0 with hS
  have hi : ((pyRange J_min (J + 1)).map fun j =>
      Arr3.of (2 * (LN_j L j N lam mr).2.1 - 1) (LN_j L j N lam mr).1
        (2 * (LN_j L j N lam mr).1 - 1) fun _ _ _ => (0 : α)) = S J_min :=
    map_range_congr fun j h2 h3 => by rw [if_neg (by omega)]
  have he : ((pyRange J_min (J + 1)).map fun j =>
        anaWO O L (LN_j L j N lam mr).1 (LN_j L j N lam mr).2.1 (LN_j L j N lam mr).2.2 psi j flm) = S (J + 1) :=
    map_range_congr fun j h2 h3 => by rw [if_pos (by omega)]
  rw [hi, he]
  refine range_loop_eq S h1 fun j hj0 hj1 => ?_
  rcases hp : LN_j L j N lam mr with ⟨Lj, Nj, L0j⟩
  obtain ⟨b1, b2, b3, b4, b5⟩ := LN_bounds hL hN hNL hlam j mr hp
  simp only
  have hg : listGet (S j) (j - J_min) = .ok (Arr3.of (2 * Nj - 1) Lj (2 * Lj - 1) fun _ _ _ => 0) := by
    rw [hS, listGet_range _ hj0 hj1, if_neg (lt_irrefl j)]
    simp only [hp]
  rw [hg, Py.bind_ok]
  rw [sliceAtJaxO_ok _ (by omega) (by show j < psi.d; omega)]
  have hpr := anaO_prod O (flm := flm) (psi := psi) (j := j) (L0j := L0j) hfr hfc (by omega) hc (by omega) b3 b4 b1 b2 b5
  refine (congrArg (fun z : Py (Arr3 α) => z >>= _) hpr).trans ?_
  rw [Py.bind_ok, anaO_write O b3 b1 b5 rfl rfl, Py.bind_ok, hS, listSet_range _ hj0 hj1, map_update_step]
  simp only [hp]

theorem harmS_eq [Zero β] (hL : 1 ≤ L) (hlam : 1 < lam) (flm : Arr2 α) {phi : Arr1 β} (hn : phi.n = L)
    (hfr : flm.r = L) (hfc : flm.c = 2 * L - 1) :
    harmS O mr flm L J_min lam (some phi) =
      .ok (anaSO O L (scal_bandlimit L J_min lam mr) phi flm) := by
  have hb := scal_bandlimit_bounds hL hlam J_min mr
  unfold harmS
  simp only [unNone, Py.bind_ok, scalPhiO_ok O hn hb.1 hb.2]
  exact anaO_scal O hfr hfc hb.1 hb.2

theorem harmSum_eq [Zero β] (hL : 1 ≤ L) (hlam : 1 < lam) (hN : 1 ≤ N) (hNL : N ≤ L)
    (h0 : 0 ≤ J_min) (h1 : J_min ≤ J + 1) {psi : Arr3 α} {phi : Arr1 β} (hd : J < psi.d) (hr : psi.r = L) (hc : psi.c = 2 * L - 1)
    (hn : phi.n = L)
    {s : Arr2 α} (hsr : s.r = scal_bandlimit L J_min lam mr) (hsc : s.c = 2 * scal_bandlimit L J_min lam mr - 1)
    {t : ℤ → Arr3 α} (hw : ∀ j, J_min ≤ j → j < J + 1 → (t j).d = 2 * (LN_j L j N lam mr).2.1 - 1 ∧
      (t j).r = (LN_j L j N lam mr).1 ∧ (t j).c = 2 * (LN_j L j N lam mr).1 - 1) :
    harmSum O mr ((pyRange J_min (J + 1)).map t) s L N J_min J lam (some (psi, phi)) =
      .ok (synAO O mr L N J_min J lam psi phi t s) := by
  have hb := scal_bandlimit_bounds hL hlam J_min mr
  have hz : (zeros2 L (2 * L - 1) : Py (Arr2 α)) = .ok (Arr2.of L (2 * L - 1) fun _ _ => 0) := by
    rw [zeros2, if_neg (by omega)]
  unfold harmSum
  simp only [Py.bind_ok, unNone, hz, scalPhiO_ok O hn hb.1 hb.2]
  have hi : (Arr2.of L (2 * L - 1) fun _ _ => (0 : α)) = Arr2.of L (2 * L - 1) fun l m => synPO O mr L N J_min lam psi t J_min l m :=
    Arr2.of_congr fun l m _ _ _ _ => by unfold synPO; rw [pyRange_empty le_rfl]; rfl
  rw [hi, range_loop_eq (fun i => Arr2.of L (2 * L - 1) fun l m => synPO O mr L N J_min lam psi t i l m) h1, Py.bind_ok]
  · refine (congrArg (fun z : Py (Arr2 α) => z >>= _) rfl).trans ?_
    have := synO_scal O (L := L) (phi := phi) (g := fun l m => synPO O mr L N J_min lam psi t (J + 1) l m) hsr hsc hb.1 hb.2
    simp only [Arr2.of_r, Arr2.of_c] at this ⊢
    rcases he : einsumO_lm_l O s (Arr1.of (scal_bandlimit L J_min lam mr) fun l => O.ofReal (O.rmul (phi.v l) (O.c4 l))) with e | e
    · rw [he] at this; cases this
    · rw [he, Py.bind_ok] at this
      rw [Py.bind_ok, this]; rfl
  · intro j hj0 hj1
    rcases hp : LN_j L j N lam mr with ⟨Lj, Nj, L0j⟩
    obtain ⟨b1, b2, b3, b4, b5⟩ := LN_bounds hL hN hNL hlam j mr hp
    obtain ⟨t1, t2, t3⟩ := hw j hj0 hj1
    rw [hp] at t1 t2 t3
    simp only
    rw [listGet_range _ hj0 hj1, Py.bind_ok, sliceAtJaxO_ok _ (by omega) (by omega)]
    refine (synO_step O hr hc b3 b4 b1 b2 b5 t1 t2 t3 rfl).trans ?_
    congr 1
    refine Arr2.of_congr fun l m _ _ _ _ => ?_
    conv_rhs => unfold synPO
    rw [pyRange_snoc hj0, List.foldl_append, List.foldl_cons, List.foldl_nil, hp]
    rfl

/-! the functions of wavelet_c.py themselves -/

theorem construct_flmnO_ok (hL : 1 ≤ L) (hN : 1 ≤ N) (hlam : 1 < lam) :
    construct_flmnO α L N J_min J lam = .ok ((pyRange J_min (J + 1)).map fun j =>
      Arr3.of (2 * (LN_j L j N lam true).2.1 - 1) (LN_j L j N lam true).1
        (2 * (LN_j L j N lam true).1 - 1) fun _ _ _ => 0) := flmnM_ok (mr := true) hL hN hlam

theorem waveletsO_eq (hL : 1 ≤ L) (hlam : 1 < lam) (hN : 1 ≤ N) (hNL : N ≤ L)
    (h0 : 0 ≤ J_min) (h1 : J_min ≤ J + 1) (flm : Arr2 α)
    {psi : Arr3 α} (hd : J < psi.d) (hr : psi.r = L) (hc : psi.c = 2 * L - 1)
    (hfr : flm.r = L) (hfc : flm.c = 2 * L - 1) :
    generate_and_apply_waveletsO O flm L N J_min J lam (some psi) =
      .ok ((pyRange J_min (J + 1)).map fun j =>
        anaWO O L (LN_j L j N lam true).1 (LN_j L j N lam true).2.1 (LN_j L j N lam true).2.2 psi j flm) :=
  harmW_eq (mr := true) O hL hlam hN hNL h0 h1 flm hd hr hc hfr hfc

end S2wav
