import Verif.Py

/-! # Lists indexed by a `range` -/

namespace S2wav

theorem mapM_ok {α β : Type} {f : α → Py β} {g : α → β} {l : List α} (h : ∀ x ∈ l, f x = .ok (g x)) :
    l.mapM f = .ok (l.map g) := by
  induction l with
  | nil => rfl
  | cons a t ih =>
    rw [List.mapM_cons, h a (by simp), ih fun x hx => h x (by simp [hx])]
    rfl

theorem mapM_eq_ok {α β : Type} {f : α → Py β} {l : List α} {r : List β} (h : l.mapM f = .ok r) :
    r.length = l.length ∧ ∀ i (hi : i < l.length) (hr : i < r.length), f (l[i]) = .ok (r[i]) := by
  induction l generalizing r with
  | nil =>
    have : r = [] := by
      have h' : (Except.ok [] : Py (List β)) = .ok r := h
      exact (Except.ok.inj h').symm
    subst this; simp
  | cons a t ih =>
    rw [List.mapM_cons] at h
    obtain ⟨b, hb, h⟩ := Py.bind_eq_ok.1 h
    obtain ⟨r', hr', h⟩ := Py.bind_eq_ok.1 h
    have h' : (Except.ok (b :: r') : Py (List β)) = .ok r := h
    have := Except.ok.inj h'
    subst this
    obtain ⟨h1, h2⟩ := ih hr'
    refine ⟨by simp [h1], fun i hi hr => ?_⟩
    cases i with
    | zero => simpa using hb
    | succ i => simpa using h2 i (by simpa using hi) (by simpa using hr)

theorem mapM_length {α β : Type} {f : α → Py β} {l : List α} {r : List β} (h : l.mapM f = .ok r) :
    r.length = l.length := (mapM_eq_ok h).1

theorem mapM_congr' {α β : Type} {f g : α → Py β} {l : List α} (h : ∀ x ∈ l, f x = g x) :
    l.mapM f = l.mapM g := by
  induction l with
  | nil => rfl
  | cons a t ih =>
    rw [List.mapM_cons, List.mapM_cons, h a (by simp), ih fun x hx => h x (by simp [hx])]

theorem foldlM_congr' {α σ : Type} {f g : σ → α → Py σ} {l : List α} (h : ∀ s, ∀ x ∈ l, f s x = g s x) (s : σ) :
    l.foldlM f s = l.foldlM g s := by
  induction l generalizing s with
  | nil => rfl
  | cons a t ih =>
    rw [List.foldlM_cons, List.foldlM_cons, h s a (by simp)]
    congr 1
    funext s'
    exact ih (fun s x hx => h s x (by simp [hx])) s'

theorem pyRange_getElem (a b : ℤ) (i : ℕ) (hi : i < (pyRange a b).length) : (pyRange a b)[i] = a + i := by
  have : (pyRange a b) = (List.range (b - a).toNat).map fun k : ℕ => a + (k : ℤ) := pyRange_one a b
  simp [this]

theorem listGet_range {β : Type} (g : ℤ → β) {a b j : ℤ} (h1 : a ≤ j) (h2 : j < b) :
    listGet ((pyRange a b).map g) (j - a) = .ok (g j) := by
  have hlt : (j - a).toNat < ((pyRange a b).map g).length := by
    rw [List.length_map, length_pyRange]; omega
  unfold listGet
  rw [if_pos (by omega), List.getElem?_eq_getElem hlt]
  simp only [List.getElem_map, pyRange_getElem]
  congr 2; omega

theorem listSet_range {β : Type} (g : ℤ → β) {a b j : ℤ} (h1 : a ≤ j) (h2 : j < b) (x : β) :
    listSet ((pyRange a b).map g) (j - a) x = .ok ((pyRange a b).map (Function.update g j x)) := by
  unfold listSet
  rw [if_pos ⟨by omega, by rw [List.length_map, length_pyRange]; omega⟩]
  congr 1
  apply List.ext_getElem
  · simp
  · intro i hi hi'
    simp only [List.getElem_map, pyRange_getElem, List.getElem_set]
    have hi'' : i < (b - a).toNat := by simpa using hi'
    by_cases h : (j - a).toNat = i
    · have : a + (i : ℤ) = j := by omega
      simp [h, this]
    · have : a + (i : ℤ) ≠ j := by omega
      simp [h, Function.update_of_ne this]

theorem listGet_listSet {β : Type} {l l' : List β} {i : ℤ} {x : β} (h : listSet l i x = .ok l') :
    listGet l' i = .ok x := by
  unfold listSet at h
  unfold listGet
  split_ifs at h with h1 h2
  · cases h
    rw [if_pos h1.1, List.getElem?_set_self (by omega)]
  · cases h
    rw [if_neg (by omega), List.length_set, if_pos h2.2, List.getElem?_set_self (by omega)]

theorem Py.bind_pure {α : Type} (x : Py α) : (x >>= fun a => .ok a) = x := by cases x <;> rfl

/-- a `for` loop whose state after each iteration is known -/
theorem range_loop_eq {σ : Type} {body : σ → ℤ → Py σ} {a b : ℤ} (S : ℤ → σ) (h : a ≤ b)
    (hs : ∀ j, a ≤ j → j < b → body (S j) j = .ok (S (j + 1))) : (pyRange a b).foldlM body (S a) = .ok (S b) := by
  obtain ⟨st, h', rfl⟩ := range_loop (body := body) (fun i st => st = S i) h rfl
    (fun j st h1 h2 hst => ⟨_, by rw [hst]; exact hs j h1 h2, rfl⟩)
  exact h'

theorem pyRange_snoc {a b : ℤ} (h : a ≤ b) : pyRange a (b + 1) = pyRange a b ++ [b] := by
  rw [pyRange_one, pyRange_one]
  have : (b + 1 - a).toNat = (b - a).toNat + 1 := by omega
  rw [this, List.range_succ, List.map_append]
  congr 1
  simp only [List.map_cons, List.map_nil]
  congr 1; omega

theorem map_range_congr {β : Type} {f g : ℤ → β} {a b : ℤ} (h : ∀ j, a ≤ j → j < b → f j = g j) :
    (pyRange a b).map f = (pyRange a b).map g :=
  List.map_congr_left fun x hx => h x (mem_pyRange.1 hx).1 (mem_pyRange.1 hx).2

/-- `for j in range(a, b): lst[j - a] = body(j, lst[j - a])` -/
theorem list_loop {β : Type} {body : List β → ℤ → Py (List β)} {a b : ℤ} (z r : ℤ → β)
    (hstep : ∀ (g : ℤ → β) (j : ℤ), a ≤ j → j < b → g j = z j →
      body ((pyRange a b).map g) j = .ok ((pyRange a b).map (Function.update g j (r j)))) :
    (pyRange a b).foldlM body ((pyRange a b).map z) = .ok ((pyRange a b).map r) := by
  obtain ⟨s, hs, hP⟩ := range_loop' (a := a) (b := b) (body := body) (s := (pyRange a b).map z)
    (fun i s => s = (pyRange a b).map fun j => if j < i then r j else z j)
    (map_range_congr fun j h1 h2 => by rw [if_neg (by omega)])
    (fun i s h1 h2 hP => by
      subst hP
      refine ⟨_, hstep _ i h1 h2 (by simp), map_range_congr fun j h3 h4 => ?_⟩
      by_cases h : j = i
      · subst h; simp
      · rw [Function.update_of_ne h]
        have : (j < i) ↔ (j < i + 1) := by omega
        simp only [this])
  rw [hs, hP]
  congr 1
  exact map_range_congr fun j h1 h2 => by rw [if_pos (by omega)]

/-- `for j in range(a, b): lst.append(body(j))` -/
theorem append_loop {β : Type} {body : List β → ℤ → Py (List β)} {a b : ℤ} (r : ℤ → β)
    (hstep : ∀ (l : List β) (j : ℤ), a ≤ j → j < b → body l j = .ok (l ++ [r j])) :
    (pyRange a b).foldlM body [] = .ok ((pyRange a b).map r) := by
  rcases le_total a b with hab | hab
  · obtain ⟨s, hs, hP⟩ := range_loop (a := a) (b := b) (body := body) (s := [])
      (fun i s => s = (pyRange a i).map r) hab (by rw [pyRange_empty le_rfl]; rfl)
      (fun i s h1 h2 hP => by
        subst hP
        exact ⟨_, hstep _ i h1 h2, by rw [pyRange_snoc h1]; simp⟩)
    rw [hs, hP]
  · rw [pyRange_empty hab]; rfl

end S2wav
