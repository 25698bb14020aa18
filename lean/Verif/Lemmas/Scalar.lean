import Verif.Lemmas.Fourier
import Verif.Lemmas.OneMode

/-!
# Helper lemmas: collinear magnets of scalar products
-/

set_option autoImplicit false
set_option linter.unusedSectionVars false

namespace Magnopy

open PyDict Matrix Complex MagnonObj

/-! ### Frames of antiparallel spins -/

theorem RightHanded.flip {e : M3 ℝ} (h : RightHanded e) : RightHanded ![e 0, -e 1, -e 2] := by
  have ho := h.ortho
  refine ⟨fun i j => ?_, ?_⟩
  · fin_cases i <;> fin_cases j <;> simp [ho]
  · simp [h.hand]

theorem cu_flip (e : M3 ℝ) : cu ![e 0, -e 1, -e 2] = star (cu e) := by
  funext c
  simp [cu]

theorem RightHanded.opposite_axis {e f : M3 ℝ} (he : RightHanded e) (hf : RightHanded f) (h : f 2 = -e 2) :
    ∃ z : ℂ, z * star z = 1 ∧ cu f = z • star (cu e) := by
  obtain ⟨z, h1, h2⟩ := he.flip.same_axis hf (by simpa using h)
  exact ⟨z, h1, by rw [h2, cu_flip]⟩

/-! ### Scalar Fourier transforms -/

variable {order : List Atom → List Atom} {lat : M3 ℝ} {pos : Atom → V3 ℝ}
  {spinVec : Atom → Option (V3 ℝ)} {s : St ℝ} {o : MagnonObj} {t : St ℝ} {items : List (Bond × ℕ)}

theorem complexM_one (x : ℝ) : complexM (x • 1) = (x : ℂ) • 1 := by
  ext i j
  by_cases hij : i = j <;> simp [complexM, Matrix.one_apply, hij]

theorem exchangeItems_val (hk : s.KeysNodup) {p : Bond × M3 ℝ} (hp : p ∈ s.exchangeItems) : s.valE p.1 = some p.2 := by
  unfold St.exchangeItems at hp
  obtain ⟨q, hq, rfl⟩ := List.mem_map.1 hp
  have := get?_of_mem hk.exch (k := q.1) (v := q.2) hq
  simp [St.valE, this]

/-- A sum of multiples of the unit matrix. -/
theorem sum_scalar {α : Type*} (l : List α) (f : α → M3 ℂ) (h : ∀ p ∈ l, f p = f p 0 0 • 1) :
    (l.map f).sum = (l.map f).sum 0 0 • (1 : M3 ℂ) := by
  induction l with
  | nil => simp
  | cons p l ih =>
    rw [List.map_cons, List.sum_cons, Matrix.add_apply, add_smul, ← h p (by simp), ← ih fun q hq => h q (by simp [hq])]

theorem bondFourier_scalar (hk : s.KeysNodup) (hh : s.Heisenberg) (spin : Atom → ℝ) (k : V3 ℝ) (a a' : Atom) :
    s.bondFourier lat pos spin k a a' = s.scalarFourier lat pos spin k a a' • 1 := by
  unfold St.scalarFourier St.bondFourier
  cases s.getNotation with
  | error _ => simp
  | ok q =>
    obtain ⟨d, n, e, f⟩ := q
    simp only
    refine sum_scalar _ _ fun p hp => ?_
    obtain ⟨j, hj⟩ := hh.bonds p.1 p.2 (exchangeItems_val hk hp)
    rw [hj, transpose_smul, transpose_one, complexM_one]
    split_ifs <;> ext x y <;> by_cases hxy : x = y <;> simp [Matrix.one_apply, hxy]

theorem siteEnergy_scalar (hh : s.Heisenberg) (spin : Atom → ℝ) (a : Atom) :
    ∃ c : ℝ, s.siteEnergy spin a = (c : ℂ) • 1 := by
  unfold St.siteEnergy
  cases s.getNotation with
  | error _ => exact ⟨0, by simp⟩
  | ok q =>
    obtain ⟨d, n, e, f⟩ := q
    simp only
    cases hv : s.valO a with
    | none => exact ⟨0, by ext i j; simp [complexM]⟩
    | some m =>
      obtain ⟨j, rfl⟩ := hh.sites a m hv
      refine ⟨f * weight n spin a ^ 2 * j, ?_⟩
      rw [Option.getD_some, complexM_one, smul_smul]
      push_cast
      rfl

theorem scalarFourier_eq {d n : Bool} {e f : ℝ} (hn : s.getNotation = .ok (d, n, e, f)) (spin : Atom → ℝ) (k : V3 ℝ)
    (a a' : Atom) : s.scalarFourier lat pos spin k a a' = (s.exchangeItems.map fun p =>
      ((e * (weight n spin p.1.1 * weight n spin p.1.2.1) / 2 * p.2 0 0 : ℝ) : ℂ) *
        ((if p.1.1 = a ∧ p.1.2.1 = a' then exp (-(I * ((k ⬝ᵥ displacement lat pos p.1 : ℝ) : ℂ))) else 0) +
          if p.1.1 = a' ∧ p.1.2.1 = a then exp (I * ((k ⬝ᵥ displacement lat pos p.1 : ℝ) : ℂ)) else 0)).sum := by
  unfold St.scalarFourier St.bondFourier
  rw [hn]
  simp only
  have hs : ∀ l : List (M3 ℂ), l.sum 0 0 = (l.map fun m => m 0 0).sum := by
    intro l
    induction l with
    | nil => simp
    | cons m l ih => simp [Matrix.add_apply, ih]
  rw [hs, List.map_map]
  congr 1
  refine List.map_congr_left fun p _ => ?_
  simp only [Function.comp, Matrix.smul_apply, Matrix.add_apply, smul_eq_mul]
  split_ifs <;> simp [complexM] <;> ring

theorem scalarFourier_star (spin : Atom → ℝ) (k : V3 ℝ) (a a' : Atom) :
    star (s.scalarFourier lat pos spin k a a') = s.scalarFourier lat pos spin (-k) a a' := by
  cases hn : s.getNotation with
  | error _ => simp [St.scalarFourier, St.bondFourier, hn]
  | ok q =>
    obtain ⟨d, n, e, f⟩ := q
    rw [scalarFourier_eq hn, scalarFourier_eq hn, RCLike.star_def, _root_.map_list_sum, List.map_map]
    congr 1
    refine List.map_congr_left fun p _ => ?_
    simp only [Function.comp, map_mul, map_add, Complex.conj_ofReal, apply_ite (starRingEnd ℂ), map_zero, ← Complex.exp_conj,
      map_neg, Complex.conj_I, neg_dotProduct]
    push_cast
    simp only [neg_mul, mul_neg]

theorem scalarFourier_swap (spin : Atom → ℝ) (k : V3 ℝ) (a a' : Atom) :
    s.scalarFourier lat pos spin (-k) a' a = s.scalarFourier lat pos spin k a a' := by
  cases hn : s.getNotation with
  | error _ => simp [St.scalarFourier, St.bondFourier, hn]
  | ok q =>
    obtain ⟨d, n, e, f⟩ := q
    rw [scalarFourier_eq hn, scalarFourier_eq hn]
    congr 1
    refine List.map_congr_left fun p _ => ?_
    rw [neg_dotProduct, add_comm]
    congr 2 <;> push_cast <;> simp only [mul_neg, neg_neg]

/-! ### The matrix `h(k)` of a collinear magnet -/

theorem heisenberg_setup (hord : ∀ l, (order l).Perm l) (lat : M3 ℝ) (pos : Atom → V3 ℝ) {spin σ : Atom → ℝ} {d : V3 ℝ}
    (hr : MagnonReady order spinVec s spin) (hcol : CollinearSpins (s.magneticAtoms order) spinVec spin σ d)
    (hh : s.Heisenberg) :
    ∃ o t items, init order lat pos spinVec s = (.ok o, t) ∧ ObjSpec order lat pos spinVec s o t items ∧
      St.Renoted Unit spin s t ∧ MagnonObj.Symmetric t ∧ t.magneticAtoms order = s.magneticAtoms order := by
  have hs : s.OnSiteSymmetric := by
    intro a m hm
    obtain ⟨j, rfl⟩ := hh.sites a m hm
    rw [transpose_smul, transpose_one]
  have hlen : ∀ a ∈ s.magneticAtoms order, ∀ v, spinVec a = some v → spin a = Real.sqrt (v ⬝ᵥ v) := by
    intro a ha v hv
    rw [hcol.vec a ha] at hv
    cases hv
    have := norm3_signed hcol.unit (hcol.sign a ha) (hcol.pos a ha)
    rw [← norm3_sq, this, Real.sqrt_sq (hcol.pos a ha).le]
  obtain ⟨o, t, items, h1, h2, h3, h4, h5, _, _⟩ := magnon_setup hord lat pos hr hs hlen
  exact ⟨o, t, items, h1, h2, h3, h4, h5⟩

theorem span_signed {d : V3 ℝ} (hd : IsUnit3 d) {σ x : ℝ} (hσ : σ = 1 ∨ σ = -1) (hx : 0 < x) :
    Frame.span ((σ * x) • d) = Frame.span (σ • d) := by
  have hu : IsUnit3 (σ • d) := by
    rcases hσ with rfl | rfl
    · simpa using hd
    · simpa using isUnit3_neg hd
  have h1 := normalize_scaled one_pos hu
  rw [one_smul] at h1
  rw [mul_comm, mul_smul]
  exact span_congr ((normalize_scaled hx hu).trans h1.symm)

theorem axis_dot {e : M3 ℝ} (h : RightHanded e) : cvec (e 2) ⬝ᵥ cvec (e 2) = 1 := by
  have := h.ortho 2 2
  rw [if_pos rfl] at this
  have h2 := congrArg (fun x : ℝ => (x : ℂ)) this
  simp only [dotProduct, Fin.sum_univ_three] at h2 ⊢
  simpa [cvec] using h2

/-- The matrix of a collinear magnet of scalar products, from the parameters of the user. -/
theorem collinear_h (hord : ∀ l, (order l).Perm l) {spin σ : Atom → ℝ} {d : V3 ℝ}
    (hr : MagnonReady order spinVec s spin) (hcol : CollinearSpins (s.magneticAtoms order) spinVec spin σ d)
    (hh : s.Heisenberg) (h : ObjSpec order lat pos spinVec s o t items) (hR : St.Renoted Unit spin s t)
    (hat : t.magneticAtoms order = s.magneticAtoms order) :
    ∃ z : ℂ, z * star z = 1 ∧ ∀ k (i j : Fin o.N),
      let a := atomAt o (t.magneticAtoms order)
      (o.callH t.cell k).1 (.inl i) (.inl j) = (if σ (a i) = σ (a j) then s.transfer lat pos spin k (a i) (a j) else 0) -
        (if i = j then s.field lat pos spin σ (List.ofFn a) (a i) else 0) ∧
      (o.callH t.cell k).1 (.inr i) (.inr j) = (if σ (a i) = σ (a j) then s.transfer lat pos spin k (a i) (a j) else 0) -
        (if i = j then s.field lat pos spin σ (List.ofFn a) (a i) else 0) ∧
      (o.callH t.cell k).1 (.inl i) (.inr j) = (if σ (a i) = σ (a j) then 0 else z * s.transfer lat pos spin k (a i) (a j)) ∧
      (o.callH t.cell k).1 (.inr i) (.inl j) = (if σ (a i) = σ (a j) then 0 else star z * s.transfer lat pos spin k (a i) (a j)) := by
  set a := atomAt o (t.magneticAtoms order) with ha
  have hmem : ∀ i, a i ∈ s.magneticAtoms order := fun i => hat ▸ atomAt_mem h hord i
  have hS0 : ∀ i, 0 < spin (a i) := fun i => hcol.pos _ (hmem i)
  have hσ : ∀ i, σ (a i) = 1 ∨ σ (a i) = -1 := fun i => hcol.sign _ (hmem i)
  have hd := hcol.unit
  have hplus := (C42_frame d (isUnit3_ne_zero hd)).1
  have hminus := (C42_frame (-d) (isUnit3_ne_zero (isUnit3_neg hd))).1
  obtain ⟨z, hz, hzu⟩ := hplus.opposite_axis hminus (span_neg hd)
  set U := cu (Frame.span d) with hU
  set V := cvec (Frame.span d 2) with hV
  obtain ⟨hUU, hU0⟩ : star U ⬝ᵥ U = 2 ∧ U ⬝ᵥ U = 0 := cu_star_cu hplus
  have hUU' : U ⬝ᵥ star U = 2 := by rw [dotProduct_comm]; exact hUU
  have hU0' : star U ⬝ᵥ star U = 0 := by
    have := congrArg star hU0
    simp only [dotProduct, star_sum, star_mul', star_zero, Pi.star_apply] at this ⊢
    exact this
  -- axes
  have hax : ∀ i : Fin o.N, EnergyObj.norm3 (o.S.getD i 0) = spin (a i) ∧
      o.u.getD i 0 = (if σ (a i) = 1 then U else z • star U) ∧ o.v.getD i 0 = (σ (a i) : ℂ) • V := by
    intro i
    obtain ⟨w, hw, e1, e2, e3⟩ := axes_at h hord i
    rw [← ha, hcol.vec _ (hmem i)] at hw
    cases hw
    rw [e1, e2, e3, norm3_signed hd (hσ i) (hS0 i), uOf_eq, vOf_eq, span_signed hd (hσ i) (hS0 i)]
    refine ⟨rfl, ?_, ?_⟩
    · rcases hσ i with h1 | h1 <;> rw [h1]
      · rw [if_pos rfl, one_smul]
      · rw [if_neg (by norm_num), neg_one_smul, hzu]
    · have := span_sign hd (hσ i) one_pos
      rw [mul_one] at this
      rw [this, hV]
      funext c
      simp [cvec]
  have huu : ∀ i j : Fin o.N, o.u.getD i 0 ⬝ᵥ star (o.u.getD j 0) = (if σ (a i) = σ (a j) then 2 else 0) ∧
      o.u.getD i 0 ⬝ᵥ o.u.getD j 0 = (if σ (a i) = σ (a j) then 0 else 2 * z) := by
    intro i j
    rw [(hax i).2.1, (hax j).2.1]
    rcases hσ i with h1 | h1 <;> rcases hσ j with h2 | h2 <;> rw [h1, h2]
    · rw [if_pos rfl, if_pos rfl, if_pos rfl]
      exact ⟨hUU', hU0⟩
    · rw [if_pos rfl, if_neg (by norm_num), if_neg (by norm_num), if_neg (by norm_num), star_smul, star_star, dotProduct_smul,
        dotProduct_smul, hU0, hUU', smul_zero]
      exact ⟨rfl, by rw [smul_eq_mul, mul_comm]⟩
    · rw [if_pos rfl, if_neg (by norm_num), if_neg (by norm_num), if_neg (by norm_num), smul_dotProduct,
        smul_dotProduct, hU0', hUU, smul_zero]
      exact ⟨rfl, by rw [smul_eq_mul, mul_comm]⟩
    · rw [if_neg (by norm_num), if_pos rfl, if_pos rfl, star_smul, star_star, smul_dotProduct, smul_dotProduct, dotProduct_smul,
        dotProduct_smul, hU0', hUU, smul_zero, smul_zero, smul_smul, hz, one_smul]
      exact ⟨rfl, rfl⟩
  have hvv : ∀ i j : Fin o.N, o.v.getD i 0 ⬝ᵥ o.v.getD j 0 = ((σ (a i) * σ (a j) : ℝ) : ℂ) := by
    intro i j
    rw [(hax i).2.2, (hax j).2.2, smul_dotProduct, dotProduct_smul, hV, axis_dot hplus]
    simp
  -- J
  choose c hc using siteEnergy_scalar hh spin
  have hJ : ∀ k (i j : Fin o.N), o.J t.cell k i j = ((s.scalarFourier lat pos spin k (a i) (a j) +
      if i = j then (c (a i) : ℂ) else 0) / (spin (a i) * spin (a j) : ℂ)) • 1 := by
    intro k i j
    have := Magnopy.ObjSpec.J_fourier h hord hr hR k i j
    simp only [← ha] at this
    rw [bondFourier_scalar hr.wf.keys hh, hc] at this
    have hne : ((spin (a i) * spin (a j) : ℝ) : ℂ) ≠ 0 := by
      exact_mod_cast (mul_pos (hS0 i) (hS0 j)).ne'
    have haa : (a i = a j) ↔ i = j := ⟨fun e => atomAt_inj h hord e, fun e => by rw [e]⟩
    rw [if_congr haa rfl rfl] at this
    have h1 : o.J t.cell k i j = ((spin (a i) * spin (a j) : ℝ) : ℂ)⁻¹ • (((spin (a i) * spin (a j) : ℝ) : ℂ) • o.J t.cell k i j) := by
      rw [smul_smul, inv_mul_cancel₀ hne, one_smul]
    rw [h1, this]
    push_cast
    rw [div_eq_inv_mul, mul_smul, add_smul]
    congr 2
    split_ifs <;> simp
  have hroot : ∀ i j : Fin o.N, o.root i j = (Real.sqrt (spin (a i) * spin (a j)) : ℂ) / 2 := by
    intro i j
    unfold root
    rw [(hax i).1, (hax j).1]
    push_cast
    rfl
  have hq : ∀ (x : ℂ) (u w : V3 ℂ), u ⬝ᵥ ((x • (1 : M3 ℂ)) *ᵥ w) = x * (u ⬝ᵥ w) := by
    intro x u w
    rw [smul_mulVec, one_mulVec, dotProduct_smul, smul_eq_mul]
  have hsqne : ∀ i j : Fin o.N, (Real.sqrt (spin (a i) * spin (a j)) : ℂ) ≠ 0 := fun i j => by
    exact_mod_cast (Real.sqrt_pos.2 (mul_pos (hS0 i) (hS0 j))).ne'
  have hsq : ∀ i j : Fin o.N, (spin (a i) * spin (a j) : ℂ) =
      (Real.sqrt (spin (a i) * spin (a j)) : ℂ) * (Real.sqrt (spin (a i) * spin (a j)) : ℂ) := fun i j => by
    rw [← ofReal_mul, ← ofReal_mul, Real.mul_self_sqrt (mul_pos (hS0 i) (hS0 j)).le]
  have hSne : ∀ i, (spin (a i) : ℂ) ≠ 0 := fun i => by exact_mod_cast (hS0 i).ne'
  have hsame : ∀ i, (Real.sqrt (spin (a i) * spin (a i)) : ℂ) = spin (a i) := fun i => by
    rw [Real.sqrt_mul_self (hS0 i).le]
  have hA : ∀ k (i j : Fin o.N), 2 * o.A t.cell k i j =
      (if σ (a i) = σ (a j) then s.transfer lat pos spin k (a i) (a j) else 0) +
        if i = j then 2 * (c (a i) : ℂ) / spin (a i) else 0 := by
    intro k i j
    unfold A
    rw [hroot, hJ, hq, (huu i j).1, St.transfer, hsq]
    have := hsqne i j
    by_cases hij : i = j
    · subst hij
      rw [if_pos rfl, if_pos rfl, if_pos rfl, if_pos rfl, hsame]
      have := hSne i
      field_simp
    · rw [if_neg hij, if_neg hij]
      split_ifs
      · field_simp; ring
      · simp
  have hB : ∀ k (i j : Fin o.N), 2 * o.B t.cell k i j =
      (if σ (a i) = σ (a j) then 0 else z * s.transfer lat pos spin k (a i) (a j)) := by
    intro k i j
    unfold B
    rw [hroot, hJ, hq, (huu i j).2, St.transfer, hsq]
    have := hsqne i j
    by_cases h1 : σ (a i) = σ (a j)
    · rw [if_pos h1, if_pos h1]; simp
    · rw [if_neg h1, if_neg h1, if_neg fun e => h1 (by rw [e])]
      field_simp
      ring
  have hC : ∀ i j : Fin o.N, 2 * o.freshC t.cell i j = if i = j then s.field lat pos spin σ (List.ofFn a) (a i) +
      2 * (c (a i) : ℂ) / spin (a i) else 0 := by
    intro i j
    unfold freshC
    by_cases hij : i = j
    · subst hij
      rw [if_pos rfl, if_pos rfl, Finset.sum_range, St.field, List.map_ofFn, List.sum_ofFn, Finset.mul_sum]
      have : ∀ l : Fin o.N, 2 * (((EnergyObj.norm3 (o.S.getD l 0) : ℝ) : ℂ) * (o.v.getD i 0 ⬝ᵥ (o.J t.cell 0 i l *ᵥ o.v.getD l 0))) =
          2 * ((σ (a i) * σ (a l) : ℝ) : ℂ) * s.scalarFourier lat pos spin 0 (a i) (a l) / (spin (a i) : ℂ) +
            if l = i then 2 * (c (a i) : ℂ) / spin (a i) else 0 := by
        intro l
        rw [(hax l).1, hJ, hq, hvv]
        have h1 := hSne i
        have h2 := hSne l
        by_cases hl : l = i
        · subst hl
          have h3 : ((σ (a l) * σ (a l) : ℝ) : ℂ) = 1 := by
            rcases hσ l with e | e <;> rw [e] <;> norm_num
          rw [if_pos rfl, if_pos rfl, h3]
          field_simp
        · rw [if_neg hl, if_neg (Ne.symm hl)]
          field_simp
          ring
      rw [Finset.sum_congr rfl fun l _ => this l, Finset.sum_add_distrib, Finset.sum_ite_eq' Finset.univ i, if_pos (Finset.mem_univ _)]
      rfl
    · have hne : (i : ℕ) ≠ j := fun e => hij (Fin.ext e)
      rw [if_neg hij, if_neg hne]
      simp
  have h2 : ∀ {n : ℕ} (M : Matrix (Fin n) (Fin n) ℂ) (i j : Fin n), (2 • M) i j = 2 * M i j := fun M i j => by
    rw [two_smul, two_mul]; rfl
  have hst : ∀ k (i j : Fin o.N), star (s.transfer lat pos spin (-k) (a i) (a j)) = s.transfer lat pos spin k (a i) (a j) := by
    intro k i j
    unfold St.transfer
    rw [star_div₀, star_mul', scalarFourier_star, neg_neg]
    simp
  have hst' : ∀ k (i j : Fin o.N), star (s.transfer lat pos spin k (a j) (a i)) = s.transfer lat pos spin k (a i) (a j) := by
    intro k i j
    unfold St.transfer
    rw [star_div₀, star_mul', scalarFourier_star, neg_neg, ← scalarFourier_swap, mul_comm (spin (a j))]
    simp
  have hstarA : ∀ k (i j : Fin o.N), 2 * star (o.A t.cell (-k) i j) = 2 * o.A t.cell k i j := by
    intro k i j
    have h3 := congrArg star (hA (-k) i j)
    rw [star_mul', star_ofNat] at h3
    rw [h3, hA, star_add]
    congr 1
    · split_ifs
      · exact hst k i j
      · simp
    · split_ifs <;> simp
  have hstarB : ∀ k (i j : Fin o.N), 2 * star (o.B t.cell k j i) =
      (if σ (a i) = σ (a j) then 0 else star z * s.transfer lat pos spin k (a i) (a j)) := by
    intro k i j
    have h3 := congrArg star (hB k j i)
    rw [star_mul', star_ofNat] at h3
    rw [h3, if_congr (eq_comm (a := σ (a j))) rfl rfl]
    split_ifs
    · simp
    · rw [star_mul', hst']
  refine ⟨z, hz, fun k i j => ?_⟩
  intro a'
  rw [callH_fresh _ h.C]
  simp only [fromBlocks_apply₁₁, fromBlocks_apply₁₂, fromBlocks_apply₂₁,
      fromBlocks_apply₂₂, Matrix.sub_apply, h2, block, of_apply, conjTranspose_apply, Matrix.map_apply, hstarA, hstarB, hC]
  rw [hA, hB]
  refine ⟨?_, ?_, rfl, rfl⟩ <;> by_cases hij : i = j <;> simp [hij, a', ha]

theorem ofFn_atomAt (h : ObjSpec order lat pos spinVec s o t items) (hord : ∀ l, (order l).Perm l) :
    List.ofFn (atomAt o (t.magneticAtoms order)) = t.magneticAtoms order := by
  refine List.ext_getElem? fun i => ?_
  by_cases hi : i < o.N
  · rw [atomAt_get h hord ⟨i, hi⟩]
    simp [hi]
  · rw [List.getElem?_eq_none (by simpa using hi), List.getElem?_eq_none (by rw [← h.N]; omega)]

theorem transfer_star (spin : Atom → ℝ) (k : V3 ℝ) (a a' : Atom) :
    star (s.transfer lat pos spin k a a') = s.transfer lat pos spin k a' a := by
  unfold St.transfer
  rw [star_div₀, star_mul, scalarFourier_star, neg_neg, ← scalarFourier_swap, mul_comm (spin a')]
  simp [mul_comm]

theorem field_star (spin σ : Atom → ℝ) (atoms : List Atom) (a : Atom) :
    star (s.field lat pos spin σ atoms a) = s.field lat pos spin σ atoms a := by
  unfold St.field
  rw [RCLike.star_def, _root_.map_list_sum, List.map_map]
  congr 1
  refine List.map_congr_left fun l _ => ?_
  have h := scalarFourier_star (s := s) (lat := lat) (pos := pos) spin 0 a l
  rw [neg_zero, RCLike.star_def] at h
  simp only [Function.comp, map_div₀, map_mul, h, Complex.conj_ofReal, map_ofNat]

theorem ferroMatrix_isHermitian (spin : Atom → ℝ) {N : ℕ} (a : Fin N → Atom) (k : V3 ℝ) :
    (s.ferroMatrix lat pos spin a k).IsHermitian := by
  ext i j
  rw [conjTranspose_apply, St.ferroMatrix, of_apply, of_apply, star_sub, transfer_star]
  congr 1
  by_cases h : i = j
  · subst h
    rw [if_pos rfl, field_star]
  · rw [if_neg h, if_neg (Ne.symm h), star_zero]

/-- The diagonal is real. -/
theorem stiffness_eq (spin σ : Atom → ℝ) (atoms : List Atom) (k : V3 ℝ) (a : Atom) :
    (s.stiffness lat pos spin σ atoms k a : ℂ) = s.transfer lat pos spin k a a - s.field lat pos spin σ atoms a := by
  unfold St.stiffness
  rw [← Complex.conj_eq_iff_re, ← RCLike.star_def, star_sub, transfer_star, field_star]

end Magnopy
