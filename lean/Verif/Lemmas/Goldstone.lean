import Verif.Lemmas.View
import Verif.Lemmas.Lowest

/-!
# Helper lemmas: terms of the private Hamiltonian, stationary states, collinear states
-/

set_option autoImplicit false
set_option linter.unusedSectionVars false

namespace Magnopy

open PyDict Matrix Complex MagnonObj ComplexOrder

/-! ### Terms of the private Hamiltonian -/

/-- The factor between a bond of the user and the private one. -/
noncomputable def bondFactor (d n : Bool) (e : ℝ) (spin : Atom → ℝ) (b : Bond) : ℝ :=
  (if d then 2 else 1) * e * (weight n spin b.1 * weight n spin b.2.1) / (2 * (spin b.1 * spin b.2.1))

/-- The factor between an on-site term of the user and the private one. -/
noncomputable def siteFactor (n : Bool) (o : ℝ) (spin : Atom → ℝ) (a : Atom) : ℝ :=
  o * (weight n spin a * weight n spin a) / (spin a * spin a)

theorem bondFactor_mirror (d n : Bool) (e : ℝ) (spin : Atom → ℝ) (b : Bond) :
    bondFactor d n e spin b.mirror = bondFactor d n e spin b := by
  unfold bondFactor
  rw [show b.mirror.1 = b.2.1 from rfl, show b.mirror.2.1 = b.1 from rfl, mul_comm (spin b.2.1),
    mul_comm (weight n spin b.2.1)]

theorem St.Renoted.like {Γ : Type*} [AddCommGroup Γ] [Fintype Γ] {spin : Atom → ℝ} {s t : St ℝ}
    (h : St.Renoted Γ spin s t) (hn : t.getNotation = .ok (true, false, 1, 1)) {d n : Bool} {e o : ℝ}
    (hn' : s.getNotation = .ok (d, n, e, o)) {p : Bond × M3 ℝ} (hp : p ∈ likeItems t) :
    (∃ a m, s.valO a = some m ∧ p.1 = (a, a, (0, 0, 0)) ∧ p.2 = siteFactor n o spin a • m) ∨
    ∃ b m, s.valE b = some m ∧ ((p.1 = b ∧ p.2 = bondFactor d n e spin b • m) ∨
      (p.1 = b.mirror ∧ p.2 = bondFactor d n e spin b • mᵀ)) := by
  rcases List.mem_append.1 hp with hp | hp
  · left
    obtain ⟨q, hq, rfl⟩ := List.mem_map.1 hp
    obtain ⟨q', hq', rfl⟩ := List.mem_map.1 hq
    have hv : t.valO q'.1 = some (t.cell q'.2) := by
      have := get?_of_mem h.wf.keys.site (k := q'.1) (v := q'.2) hq'
      simp [St.valO, this]
    have hat : q'.1 ∈ t.atoms := h.wf.refer.site _ (by rw [← St.isSome_valO_iff, hv]; rfl)
    have h0 := (h.spins _ hat).2
    have h1 := h.siteE q'.1
    rw [St.siteE_eq hn, St.siteE_eq hn', hv, Option.map_some] at h1
    obtain ⟨m, hm, e1⟩ := Option.map_eq_some_iff.1 h1.symm
    refine ⟨q'.1, m, hm, rfl, ?_⟩
    have e2 : weight false spin q'.1 = spin q'.1 := rfl
    rw [e2, one_mul] at e1
    have := congrArg (fun M => (spin q'.1 * spin q'.1)⁻¹ • M) e1
    simp only [smul_smul] at this
    rw [inv_mul_cancel₀ (mul_ne_zero h0 h0), one_smul] at this
    rw [← this, siteFactor, div_eq_inv_mul]
  · right
    obtain ⟨q, hq, rfl⟩ := List.mem_map.1 hp
    have hmem : q.1 ∈ t.exch.keys := List.mem_map.2 ⟨q, hq, rfl⟩
    have hv : t.valE q.1 = some (t.cell q.2) := by
      have := get?_of_mem h.wf.keys.exch (k := q.1) (v := q.2) hq
      simp [St.valE, this]
    have hat := h.wf.refer.exch _ hmem
    have hd : t.dc = some true := (St.getNotation_ok_iff.1 hn).1
    have key : ∀ b M, t.valE b = some M → St.keeps b = true → spin b.1 ≠ 0 → spin b.2.1 ≠ 0 →
        ∃ m, s.oneE b = some m ∧ M = bondFactor d n e spin b • m := by
      intro b M hb hk h0 h0'
      have h1 := h.pairE b
      rw [St.pairE_eq h.wf hn, St.pairE_one hn', if_pos hk, if_pos hk, hb, Option.map_some] at h1
      obtain ⟨m, hm, e1⟩ := Option.map_eq_some_iff.1 h1.symm
      refine ⟨m, hm, ?_⟩
      have e2 : ∀ a, weight false spin a = spin a := fun _ => rfl
      rw [e2, e2, if_pos rfl, mul_one] at e1
      have hne : 2 * (spin b.1 * spin b.2.1) ≠ 0 := mul_ne_zero two_ne_zero (mul_ne_zero h0 h0')
      have := congrArg (fun M => (2 * (spin b.1 * spin b.2.1))⁻¹ • M) e1
      simp only [smul_smul] at this
      rw [inv_mul_cancel₀ hne, one_smul] at this
      rw [← this, bondFactor, div_eq_inv_mul]
    have h0 := (h.spins _ hat.1).2
    have h0' := (h.spins _ hat.2).2
    by_cases hk : St.keeps q.1 = true
    · obtain ⟨m, hm, e1⟩ := key _ _ hv hk h0 h0'
      rcases St.some_of_oneE hm with hm | hm
      · exact ⟨q.1, m, hm, Or.inl ⟨rfl, e1⟩⟩
      · refine ⟨q.1.mirror, mᵀ, hm, Or.inr ⟨q.1.mirror_mirror.symm, ?_⟩⟩
        rw [bondFactor_mirror, transpose_transpose]; exact e1
    · have hk' : St.keeps q.1.mirror = true := by
        rw [keeps_mirror (h.wf.noSelf _ hmem) (h.wf.index _ hat.1 _ hat.2)]
        simpa using hk
      have hv' : t.valE q.1.mirror = some (t.cell q.2)ᵀ := by rw [h.wf.twice hd, hv]; rfl
      obtain ⟨m, hm, e1⟩ := key _ _ hv' hk' h0' h0
      rcases St.some_of_oneE hm with hm | hm
      · refine ⟨q.1.mirror, m, hm, Or.inr ⟨q.1.mirror_mirror.symm, ?_⟩⟩
        rw [← transpose_smul, ← e1, transpose_transpose]
      · rw [Bond.mirror_mirror] at hm
        refine ⟨q.1, mᵀ, hm, Or.inl ⟨rfl, ?_⟩⟩
        rw [← bondFactor_mirror, ← transpose_smul, ← e1, transpose_transpose]

/-! ### The view of a new object -/

variable {order : List Atom → List Atom} {lat : M3 ℝ} {pos : Atom → V3 ℝ} {spinVec : Atom → Option (V3 ℝ)}
  {s : St ℝ} {o : MagnonObj} {t : St ℝ} {items : List (Bond × ℕ)}

/-- The exchange of the atoms `a` and `b`, all cells together. -/
def total (t : St ℝ) (a b : Atom) : M3 ℝ :=
  ((likeItems t).map fun p => if p.1.1 = a ∧ p.1.2.1 = b then p.2 else 0).sum

/-- The atom with the number `i`. -/
def atomAt (o : MagnonObj) (l : List Atom) (i : Fin o.N) : Atom := l.getD i ⟨"", 0⟩

theorem getD_getElem {α : Type*} {l : List α} (d : α) {i : ℕ} (h : i < l.length) : l.getD i d = l[i] := by
  rw [List.getD, List.getElem?_eq_getElem h, Option.getD_some]

theorem map_list_sum (l : List (Bond × M3 ℝ)) (f : Bond × M3 ℝ → M3 ℝ) :
    ((l.map f).sum).map ((↑) : ℝ → ℂ) = (l.map fun p => (f p).map ((↑) : ℝ → ℂ)).sum := by
  induction l with
  | nil => ext; simp
  | cons p l ih => rw [List.map_cons, List.sum_cons, List.map_cons, List.sum_cons, ← ih]; ext; simp

section

variable (h : ObjSpec order lat pos spinVec s o t items) (hord : ∀ l, (order l).Perm l)
include h hord

theorem atomAt_mem (i : Fin o.N) : atomAt o (t.magneticAtoms order) i ∈ t.magneticAtoms order := by
  have : (i : ℕ) < (t.magneticAtoms order).length := by rw [← h.N]; exact i.2
  unfold atomAt
  rw [getD_getElem _ this]
  exact List.getElem_mem _

theorem atomAt_get (i : Fin o.N) : (t.magneticAtoms order)[(i : ℕ)]? = some (atomAt o (t.magneticAtoms order) i) := by
  have : (i : ℕ) < (t.magneticAtoms order).length := by rw [← h.N]; exact i.2
  unfold atomAt
  rw [getD_getElem _ this, List.getElem?_eq_getElem this]

theorem idxOf_eq {a : Atom} (ha : a ∈ t.magneticAtoms order) (i : Fin o.N) :
    (t.magneticAtoms order).idxOf a = i ↔ a = atomAt o (t.magneticAtoms order) i := by
  have hl : (i : ℕ) < (t.magneticAtoms order).length := by rw [← h.N]; exact i.2
  have hn := St.magneticAtoms_nodup hord t
  unfold atomAt
  rw [getD_getElem _ hl]
  constructor
  · intro e
    have := List.getElem_idxOf (List.idxOf_lt_length_iff.2 ha)
    simp only [e] at this
    exact this.symm
  · rintro rfl
    exact hn.idxOf_getElem _ _

theorem atomAt_exists {a : Atom} (ha : a ∈ t.magneticAtoms order) : ∃ i, atomAt o (t.magneticAtoms order) i = a :=
  ⟨⟨_, by rw [h.N]; exact List.idxOf_lt_length_iff.2 ha⟩, ((idxOf_eq h hord ha _).1 rfl).symm⟩

theorem J_total (i j : Fin o.N) : o.J t.cell 0 i j =
    (total t (atomAt o (t.magneticAtoms order) i) (atomAt o (t.magneticAtoms order) j)).map ((↑) : ℝ → ℂ) := by
  rw [h.J_eq, total, map_list_sum]
  congr 1
  refine List.map_congr_left fun p hp => ?_
  obtain ⟨ha, hb⟩ := h.like_atoms hp
  simp only [idxOf_eq h hord ha, idxOf_eq h hord hb]
  have : phase 0 (vector lat pos p.1) = 1 := by simp [phase]
  split_ifs with hc
  · rw [this, one_smul]
  · ext; simp

theorem total_symm (hs : MagnonObj.Symmetric t) (a b : Atom) : total t b a = (total t a b)ᵀ := by
  unfold total
  rw [sum_like h.inv.nodup hs, Matrix.transpose_list_sum, List.map_map]
  congr 1
  refine List.map_congr_left fun p _ => ?_
  simp only [Function.comp, show p.1.mirror.1 = p.1.2.1 from rfl, show p.1.mirror.2.1 = p.1.1 from rfl]
  by_cases hc : p.1.1 = a ∧ p.1.2.1 = b
  · rw [if_pos hc, if_pos ⟨hc.2, hc.1⟩]
  · rw [if_neg hc, if_neg fun e => hc ⟨e.2, e.1⟩, transpose_zero]

theorem ObjSpec.view (hs : MagnonObj.Symmetric t) {spin : Atom → ℝ}
    (hspin : ∀ a ∈ t.magneticAtoms order, 0 < spin a)
    (hlen : ∀ a ∈ t.magneticAtoms order, ∀ v, spinVec a = some v → EnergyObj.norm3 v = spin a) :
    View o t.cell (fun i => spin (atomAt o (t.magneticAtoms order) i))
      (fun i => Frame.span ((spinVec (atomAt o (t.magneticAtoms order) i)).getD 0))
      fun i j => total t (atomAt o (t.magneticAtoms order) i) (atomAt o (t.magneticAtoms order) j) := by
  obtain ⟨sv, hsv, hS⟩ := h.S
  have hm := atomAt_mem h hord
  have hget := atomAt_get h hord
  have hSi : ∀ i : Fin o.N, o.S.getD i 0 = sv (atomAt o (t.magneticAtoms order) i) := by
    intro i
    rw [hS]
    simp [List.getD, hget i]
  refine ⟨h.C, fun i => hspin _ (hm i), fun i => ?_, fun i => ?_, fun i => ?_, fun i j => J_total h hord i j,
    fun i j => total_symm h hord hs _ _, fun i => ?_⟩
  · rw [hSi]; exact hlen _ (hm i) _ (hsv _ (hm i))
  · rw [h.u, hS]
    simp only [List.getD, List.getElem?_map, hget i, Option.map_some, Option.getD_some]
    funext c
    simp only [uOf, cu, hsv _ (hm i), Option.getD_some]
  · rw [h.v, hS]
    simp only [List.getD, List.getElem?_map, hget i, Option.map_some, Option.getD_some]
    funext c
    simp only [vOf, cvec, hsv _ (hm i), Option.getD_some]
  · rw [hsv _ (hm i), Option.getD_some]
    refine (C42_frame _ fun h0 => ?_).1
    have h1 := hlen _ (hm i) _ (hsv _ (hm i))
    rw [h0] at h1
    have h2 := hspin _ (hm i)
    rw [← h1] at h2
    simp [EnergyObj.norm3] at h2

/-! ### Stationary states -/

/-- Sums over the second atom. -/
theorem sum_second (f : Atom → V3 ℝ) (a : Atom) :
    ∑ j : Fin o.N, total t a (atomAt o (t.magneticAtoms order) j) *ᵥ f (atomAt o (t.magneticAtoms order) j) =
      ((likeItems t).map fun p => if p.1.1 = a then p.2 *ᵥ f p.1.2.1 else 0).sum := by
  have hl : ∀ p ∈ likeItems t, p.1.2.1 ∈ t.magneticAtoms order := fun p hp => (h.like_atoms hp).2
  unfold total
  revert hl
  generalize likeItems t = l
  intro hl
  induction l with
  | nil => simp
  | cons p l ih =>
    simp only [List.map_cons, List.sum_cons, add_mulVec, Finset.sum_add_distrib]
    rw [ih fun q hq => hl q (List.mem_cons_of_mem _ hq)]
    congr 1
    obtain ⟨i, hi⟩ := atomAt_exists h hord (hl p List.mem_cons_self)
    rw [Finset.sum_eq_single i]
    · rw [hi]
      by_cases hc : p.1.1 = a
      · rw [if_pos ⟨hc, rfl⟩, if_pos hc]
      · rw [if_neg fun e => hc e.1, if_neg hc, zero_mulVec]
    · intro j _ hj
      have : p.1.2.1 ≠ atomAt o (t.magneticAtoms order) j := by
        intro e
        have e1 := (idxOf_eq h hord (hl p List.mem_cons_self) j).2 e
        have e2 := (idxOf_eq h hord (hl p List.mem_cons_self) i).2 hi.symm
        exact hj (Fin.ext (e1.symm.trans e2))
      rw [if_neg fun e => this e.2, zero_mulVec]
    · simp

end

theorem bilin_eq (x : V3 ℝ) (m : M3 ℝ) (y : V3 ℝ) : bilin x m y = x ⬝ᵥ (m *ᵥ y) := by
  simp only [bilin, dotProduct, mulVec, Fin.sum_univ_three]
  ring

theorem bilin_transpose' (x : V3 ℝ) (m : M3 ℝ) (y : V3 ℝ) : bilin x mᵀ y = bilin y m x := by
  simp only [bilin, Fin.sum_univ_three, transpose_apply]
  ring

theorem sum_quadratic {ι : Type*} (l : List ι) (f0 f1 f2 : ι → ℝ) (ε : ℝ) :
    (l.map fun p => f0 p + ε * f1 p + ε ^ 2 * f2 p).sum =
      (l.map f0).sum + ε * (l.map f1).sum + ε ^ 2 * (l.map f2).sum := by
  induction l with
  | nil => simp
  | cons a l ih => simp only [List.map_cons, List.sum_cons, ih]; ring

theorem sum_add_list {ι : Type*} (l : List ι) (f g : ι → ℝ) :
    (l.map fun p => f p + g p).sum = (l.map f).sum + (l.map g).sum := by
  induction l with
  | nil => simp
  | cons a l ih => simp only [List.map_cons, List.sum_cons, ih]; ring

/-- The energy of the private Hamiltonian around a uniform state. -/
theorem physics_uniform (hn : t.getNotation = .ok (true, false, 1, 1)) (d η : Atom → V3 ℝ) (spin : Atom → ℝ) (ε : ℝ) :
    t.physics (uniform fun a => d a + ε • η a) spin =
      some (((likeItems t).map fun p => bilin (spin p.1.1 • d p.1.1) p.2 (spin p.1.2.1 • d p.1.2.1)).sum +
        ε * ((likeItems t).map fun p => bilin (spin p.1.1 • d p.1.1) p.2 (spin p.1.2.1 • η p.1.2.1) +
          bilin (spin p.1.1 • η p.1.1) p.2 (spin p.1.2.1 • d p.1.2.1)).sum +
        ε ^ 2 * ((likeItems t).map fun p => bilin (spin p.1.1 • η p.1.1) p.2 (spin p.1.2.1 • η p.1.2.1)).sum) := by
  rw [energy_like hn, ← sum_quadratic]
  congr 2
  refine List.map_congr_left fun p _ => ?_
  simp only [uniform, Finset.univ_unique, Finset.sum_singleton]
  simp only [bilin, Fin.sum_univ_three, Pi.add_apply, Pi.smul_apply, smul_eq_mul]
  ring

theorem linear_sum (hI : t.Inv) (hs : MagnonObj.Symmetric t) (d η : Atom → V3 ℝ) (spin : Atom → ℝ) :
    ((likeItems t).map fun p => bilin (spin p.1.1 • d p.1.1) p.2 (spin p.1.2.1 • η p.1.2.1) +
          bilin (spin p.1.1 • η p.1.1) p.2 (spin p.1.2.1 • d p.1.2.1)).sum =
      2 * ((likeItems t).map fun p => bilin (spin p.1.1 • η p.1.1) p.2 (spin p.1.2.1 • d p.1.2.1)).sum := by
  rw [sum_add_list, two_mul]
  congr 1
  rw [sum_like hI.nodup hs]
  congr 1
  refine List.map_congr_left fun p _ => ?_
  rw [show p.1.mirror.1 = p.1.2.1 from rfl, show p.1.mirror.2.1 = p.1.1 from rfl, bilin_transpose']

/-- In a stationary state the field of every atom is along its spin. -/
theorem ObjSpec.field (h : ObjSpec order lat pos spinVec s o t items) (hord : ∀ l, (order l).Perm l)
    (hs : MagnonObj.Symmetric t) {spin : Atom → ℝ} (hspin : ∀ a ∈ t.magneticAtoms order, 0 < spin a)
    {d : Atom → V3 ℝ} (hd : ∀ a ∈ t.magneticAtoms order, d a ⬝ᵥ d a = 1) (hst : t.Stationary spin d) (i : Fin o.N) :
    ∃ l : ℝ, ∑ j : Fin o.N, spin (atomAt o (t.magneticAtoms order) j) •
      (total t (atomAt o (t.magneticAtoms order) i) (atomAt o (t.magneticAtoms order) j) *ᵥ
        d (atomAt o (t.magneticAtoms order) j)) = l • d (atomAt o (t.magneticAtoms order) i) := by
  set a := atomAt o (t.magneticAtoms order) i with ha
  have ham := atomAt_mem h hord i
  rw [← ha] at ham
  have hsum := sum_second h hord (fun b => spin b • d b) a
  simp only [mulVec_smul] at hsum
  rw [hsum]
  set F := ((likeItems t).map fun p => if p.1.1 = a then spin p.1.2.1 • p.2 *ᵥ d p.1.2.1 else 0).sum with hF
  refine ⟨d a ⬝ᵥ F, ?_⟩
  set y := F - (d a ⬝ᵥ F) • d a with hy
  have hyd : y ⬝ᵥ d a = 0 := by
    rw [hy, sub_dotProduct, smul_dotProduct, hd a ham, dotProduct_comm F, smul_eq_mul, mul_one, sub_self]
  have hlin : spin a * (y ⬝ᵥ F) = 0 := by
    obtain ⟨E0, E2, hE⟩ := hst (fun b => if b = a then y else 0) (by
      intro b
      by_cases hb : b = a
      · rw [if_pos hb, hb]; exact hyd
      · rw [if_neg hb, zero_dotProduct])
    have e1 := hE 1
    have e2 := hE (-1)
    have hl := linear_sum h.inv hs d (fun b => if b = a then y else 0) spin
    rw [physics_uniform h.flags] at e1 e2
    beta_reduce at hl e1 e2
    rw [hl] at e1 e2
    have f1 := Option.some.inj e1
    have f2 := Option.some.inj e2
    have key : ((likeItems t).map fun p => bilin (spin p.1.1 • (if p.1.1 = a then y else 0)) p.2
        (spin p.1.2.1 • d p.1.2.1)).sum = 0 := by linarith
    rw [← key, hF]
    generalize likeItems t = l
    induction l with
    | nil => simp
    | cons p l ih =>
      simp only [List.map_cons, List.sum_cons, dotProduct_add, mul_add]
      rw [ih]
      congr 1
      split_ifs with hc
      · rw [bilin_eq, smul_dotProduct, mulVec_smul, hc, smul_eq_mul]
      · rw [smul_zero, bilin_eq, zero_dotProduct, dotProduct_zero, mul_zero]
  have h0 : y ⬝ᵥ F = 0 := (mul_eq_zero.1 hlin).resolve_left (hspin a ham).ne'
  have hyy : y ⬝ᵥ y = 0 := by
    conv_lhs => rw [hy, dotProduct_sub, dotProduct_smul, ← hy, hyd, h0]
    simp
  have : y = 0 := dotProduct_self_eq_zero.1 hyy
  rw [hy, sub_eq_zero] at this
  exact this

/-! ### Rotations -/

theorem rotate_sin (n : V3 ℝ) (m : M3 ℝ) (θ : ℝ) (x y : V3 ℝ) :
    bilin (rotate n θ x) m (rotate n θ y) - bilin (rotate n (-θ) x) m (rotate n (-θ) y) =
      2 * Real.sin θ * (Real.cos θ * (bilin x m (crossProduct n y) + bilin (crossProduct n x) m y) +
        (1 - Real.cos θ) * ((n ⬝ᵥ x) * bilin n m (crossProduct n y) + (n ⬝ᵥ y) * bilin (crossProduct n x) m n)) := by
  unfold rotate
  rw [Real.cos_neg, Real.sin_neg]
  generalize Real.sin θ = S
  generalize Real.cos θ = C
  generalize n ⬝ᵥ x = nx
  generalize n ⬝ᵥ y = ny
  generalize crossProduct n x = cx
  generalize crossProduct n y = cy
  simp only [bilin, Fin.sum_univ_three, Pi.add_apply, Pi.smul_apply, smul_eq_mul]
  ring

/-- The generator of the rotations. -/
theorem AxisInvariant.commutes {n : V3 ℝ} {m : M3 ℝ} (h : AxisInvariant n m) (y : V3 ℝ) :
    m *ᵥ crossProduct n y = crossProduct n (m *ᵥ y) := by
  have key : ∀ x, bilin x m (crossProduct n y) + bilin (crossProduct n x) m y = 0 := by
    intro x
    have h1 := rotate_sin n m (Real.pi / 2) x y
    have h2 := rotate_sin n m (Real.pi / 6) x y
    rw [h, h, sub_self] at h1 h2
    rw [Real.cos_pi_div_two, Real.sin_pi_div_two] at h1
    rw [Real.sin_pi_div_six] at h2
    have hc : Real.cos (Real.pi / 6) ≠ 0 := by rw [Real.cos_pi_div_six]; positivity
    have h3 : (n ⬝ᵥ x) * bilin n m (crossProduct n y) + (n ⬝ᵥ y) * bilin (crossProduct n x) m n = 0 := by linarith
    rw [h3] at h2
    have h4 : Real.cos (Real.pi / 6) * (bilin x m (crossProduct n y) + bilin (crossProduct n x) m y) = 0 := by linarith
    exact (mul_eq_zero.1 h4).resolve_left hc
  have hx : ∀ x : V3 ℝ, x ⬝ᵥ (m *ᵥ crossProduct n y - crossProduct n (m *ᵥ y)) = 0 := by
    intro x
    have := key x
    rw [bilin_eq, bilin_eq] at this
    rw [dotProduct_sub, ← this]
    generalize m *ᵥ y = z
    generalize m *ᵥ crossProduct n y = w
    simp only [cross_apply, dotProduct, Fin.sum_univ_three]
    simp
    ring
  exact sub_eq_zero.1 (dotProduct_self_eq_zero.1 (hx _))

theorem AxisInvariant.smul {n : V3 ℝ} {m : M3 ℝ} (h : AxisInvariant n m) (c : ℝ) : AxisInvariant n (c • m) := by
  intro θ x y
  simp only [bilin_eq, smul_mulVec, dotProduct_smul] at h ⊢
  have := h θ x y
  simp only [bilin_eq] at this
  rw [this]

theorem AxisInvariant.transpose {n : V3 ℝ} {m : M3 ℝ} (h : AxisInvariant n m) : AxisInvariant n mᵀ := by
  intro θ x y
  rw [bilin_transpose', bilin_transpose', h]

theorem total_commutes {n : V3 ℝ} (h : ∀ p ∈ likeItems t, AxisInvariant n p.2) (a b : Atom) (x : V3 ℝ) :
    total t a b *ᵥ crossProduct n x = crossProduct n (total t a b *ᵥ x) := by
  unfold total
  revert h
  generalize likeItems t = l
  intro h
  induction l with
  | nil => simp
  | cons p l ih =>
    simp only [List.map_cons, List.sum_cons, add_mulVec, map_add]
    rw [ih fun q hq => h q (List.mem_cons_of_mem _ hq)]
    congr 1
    split_ifs
    · exact (h p List.mem_cons_self).commutes x
    · simp

/-- Axial symmetry of the private Hamiltonian. -/
theorem St.Axial.like {Γ : Type*} [AddCommGroup Γ] [Fintype Γ] {spin : Atom → ℝ} {n : V3 ℝ} (hx : s.Axial n)
    (hc : s.Complete) (h : St.Renoted Γ spin s t) (hn : t.getNotation = .ok (true, false, 1, 1)) :
    ∀ p ∈ likeItems t, AxisInvariant n p.2 := by
  intro p hp
  obtain ⟨d, k, e, o, hn', _⟩ := hc
  rcases h.like hn hn' hp with ⟨a, m, hm, _, e1⟩ | ⟨b, m, hm, ⟨_, e1⟩ | ⟨_, e1⟩⟩
  · rw [e1]; exact (hx.sites a m hm).smul _
  · rw [e1]; exact (hx.bonds b m hm).smul _
  · rw [e1]; exact (hx.bonds b m hm).transpose.smul _

end Magnopy
