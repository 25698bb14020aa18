import Verif.Lemmas.DescribeSetup

/-!
# Helper lemmas: the couplings are linear in the classical energy
-/

set_option autoImplicit false
set_option linter.unusedSectionVars false

namespace Magnopy

open PyDict Matrix MagnonObj

/-- A list of terms, multiplied by a number. -/
def scaleItems (x : ℝ) (l : List (Bond × M3 ℝ)) : List (Bond × M3 ℝ) := l.map fun p => (p.1, x • p.2)

theorem couple_append (l l' : List (Bond × M3 ℝ)) (b : Bond) : couple (l ++ l') b = couple l b + couple l' b := by
  simp [couple]

theorem couple_scale (x : ℝ) (l : List (Bond × M3 ℝ)) (b : Bond) : couple (scaleItems x l) b = x • couple l b := by
  unfold couple scaleItems
  rw [List.smul_sum, List.map_map, List.map_map]
  congr 1
  refine List.map_congr_left fun p _ => ?_
  simp only [Function.comp]
  split_ifs <;> simp

theorem bilinear_scale (u : V3 ℝ) (x : ℝ) (m : M3 ℝ) (v : V3 ℝ) : bilin u (x • m) v = x * bilin u m v := by
  simp only [bilin, Fin.sum_univ_three, Matrix.smul_apply, smul_eq_mul]; ring

variable {Γ : Type*} [AddCommGroup Γ] [Fintype Γ]

theorem cross_append (l l' : List (Bond × M3 ℝ)) (w : Atom → ℝ) (τ : Cell →+ Γ) (σ σ' : Atom → Γ → V3 ℝ) :
    cross (l ++ l') w τ σ σ' = cross l w τ σ σ' + cross l' w τ σ σ' := by
  simp [cross]

theorem cross_scale (x : ℝ) (l : List (Bond × M3 ℝ)) (w : Atom → ℝ) (τ : Cell →+ Γ) (σ σ' : Atom → Γ → V3 ℝ) :
    cross (scaleItems x l) w τ σ σ' = x * cross l w τ σ σ' := by
  unfold cross scaleItems
  rw [← smul_eq_mul, List.smul_sum, List.map_map, List.map_map]
  congr 1
  refine List.map_congr_left fun p _ => ?_
  simp only [Function.comp, bilinear_scale, smul_eq_mul, Finset.mul_sum]

/-- Terms that contribute nothing to the energy of any configuration add up to nothing for each pair of atoms. -/
theorem couple_zero {l : List (Bond × M3 ℝ)} {w : Atom → ℝ} (hm : ∀ b, couple l b.mirror = (couple l b)ᵀ)
    (hE : ∀ (N : ℕ) [NeZero N] (σ : Atom → ZMod N × ZMod N × ZMod N → V3 ℝ), cross l w (reduce N) σ σ = 0) {b : Bond}
    (h1 : w b.1 ≠ 0) (h2 : w b.2.1 ≠ 0) : couple l b = 0 := by
  classical
  obtain ⟨a, b, R⟩ := b
  simp only at h1 h2
  obtain ⟨N, hN, hinj⟩ := exists_supercell (l.map (fun p => p.1.2.2 - R) ++ l.map (fun p => p.1.2.2 - -R))
  have : NeZero N := ⟨hN⟩
  have i1 : ∀ p ∈ l, reduce N p.1.2.2 = reduce N R ↔ p.1.2.2 = R := fun p hp =>
    ⟨fun e => sub_eq_zero.1 (hinj _ (List.mem_append_left _ (List.mem_map.2 ⟨p, hp, rfl⟩)) (by rw [map_sub, e, sub_self])),
      fun e => by rw [e]⟩
  have i2 : ∀ p ∈ l, reduce N p.1.2.2 = -reduce N R ↔ p.1.2.2 = -R := fun p hp =>
    ⟨fun e => sub_eq_zero.1 (hinj _ (List.mem_append_right _ (List.mem_map.2 ⟨p, hp, rfl⟩))
      (by rw [map_sub, e, map_neg, sub_self])), fun e => by rw [e, map_neg]⟩
  refine bilinear_ext fun x y => ?_
  have e := cross_add l w (reduce N) (fun c n => if c = a ∧ n = 0 then x else 0)
    (fun c n => if c = b ∧ n = reduce N R then y else 0)
  rw [hE, hE, hE, cross_points l w (reduce N) _ _ a b R 0 (reduce N R) x y (fun _ _ _ => rfl) (fun _ _ _ => rfl)
      (fun p hp => by rw [zero_add]; exact i1 p hp),
    cross_points l w (reduce N) _ _ b a (-R) (reduce N R) 0 y x (fun _ _ _ => rfl) (fun _ _ _ => rfl)
      (fun p hp => by
        rw [← i2 p hp]
        exact ⟨fun e => by rw [eq_neg_iff_add_eq_zero, add_comm]; exact e, fun e => by rw [e]; abel⟩)] at e
  have m1 : ((b, a, -R) : Bond) = Bond.mirror (a, b, R) := rfl
  rw [m1, hm, bilinear_swap] at e
  have hne : w a * w b ≠ 0 := mul_ne_zero h1 h2
  have hz : bilin x (0 : M3 ℝ) y = 0 := by simp [bilin]
  rw [hz]
  have : w a * w b * bilin x (couple l (a, b, R)) y = 0 := by linarith
  exact (mul_eq_zero.1 this).resolve_left hne

/-! ### `J` and `h` -/

theorem termHom_scale (c : Prop) [Decidable c] (z : ℂ) (x : ℝ) (m : M3 ℝ) : termHom c z (x • m) = (x : ℂ) • termHom c z m := by
  change (if c then z • (x • m).map ((↑) : ℝ → ℂ) else 0) = (x : ℂ) • (if c then z • m.map ((↑) : ℝ → ℂ) else 0)
  split_ifs
  · ext i j
    simp only [Matrix.smul_apply, Matrix.map_apply, smul_eq_mul, Complex.ofReal_mul]
    ring
  · rw [smul_zero]

variable {order order1 order2 : List Atom → List Atom} {lat : M3 ℝ} {pos : Atom → V3 ℝ} {spinVec : Atom → Option (V3 ℝ)}
  {s s1 s2 : St ℝ} {o o1 o2 : MagnonObj} {t t1 t2 : St ℝ} {items items1 items2 : List (Bond × ℕ)}

theorem J_linear (h : ObjSpec order lat pos spinVec s o t items) (hord : ∀ l, (order l).Perm l)
    (h1 : ObjSpec order1 lat pos spinVec s1 o1 t1 items1) (hord1 : ∀ l, (order1 l).Perm l)
    (h2 : ObjSpec order2 lat pos spinVec s2 o2 t2 items2) (hord2 : ∀ l, (order2 l).Perm l)
    (ha1 : t1.magneticAtoms order1 = t.magneticAtoms order) (ha2 : t2.magneticAtoms order2 = t.magneticAtoms order) {x y : ℝ}
    (hc : ∀ b : Bond, b.1 ∈ t.magneticAtoms order → b.2.1 ∈ t.magneticAtoms order →
      couple (likeItems t) b = x • couple (likeItems t1) b + y • couple (likeItems t2) b) (k : V3 ℝ) {i j : ℕ} (hi : i < o.N)
    (hj : j < o.N) : o.J t.cell k i j = (x : ℂ) • o1.J t1.cell k i j + (y : ℂ) • o2.J t2.cell k i j := by
  classical
  have hN1 : o.N = o1.N := by rw [h.N, h1.N, ha1]
  have hN2 : o.N = o2.N := by rw [h.N, h2.N, ha2]
  set K : Finset Bond := ((likeItems t).map Prod.fst).toFinset ∪ (((likeItems t1).map Prod.fst).toFinset ∪
    ((likeItems t2).map Prod.fst).toFinset) with hK
  have m0 : ∀ p ∈ likeItems t, p.1 ∈ K := fun p hp =>
    Finset.mem_union_left _ (List.mem_toFinset.2 (List.mem_map.2 ⟨p, hp, rfl⟩))
  have m1 : ∀ p ∈ likeItems t1, p.1 ∈ K := fun p hp =>
    Finset.mem_union_right _ (Finset.mem_union_left _ (List.mem_toFinset.2 (List.mem_map.2 ⟨p, hp, rfl⟩)))
  have m2 : ∀ p ∈ likeItems t2, p.1 ∈ K := fun p hp =>
    Finset.mem_union_right _ (Finset.mem_union_right _ (List.mem_toFinset.2 (List.mem_map.2 ⟨p, hp, rfl⟩)))
  have hKl : ∀ b ∈ K, b.1 ∈ t.magneticAtoms order ∧ b.2.1 ∈ t.magneticAtoms order := by
    intro b hb
    rcases Finset.mem_union.1 hb with hb | hb
    · obtain ⟨p, hp, rfl⟩ := List.mem_map.1 (List.mem_toFinset.1 hb)
      exact h.like_atoms hp
    · rcases Finset.mem_union.1 hb with hb | hb <;> obtain ⟨p, hp, rfl⟩ := List.mem_map.1 (List.mem_toFinset.1 hb)
      · rw [← ha1]; exact h1.like_atoms hp
      · rw [← ha2]; exact h2.like_atoms hp
  have e0 := J_couple h hord k ⟨i, hi⟩ ⟨j, hj⟩ K m0
  have e1 := J_couple h1 hord1 k ⟨i, hN1 ▸ hi⟩ ⟨j, hN1 ▸ hj⟩ K m1
  have e2 := J_couple h2 hord2 k ⟨i, hN2 ▸ hi⟩ ⟨j, hN2 ▸ hj⟩ K m2
  have a1 : ∀ (n : ℕ) (q : n < o.N) (q' : n < o1.N), atomAt o1 (t1.magneticAtoms order1) ⟨n, q'⟩ =
      atomAt o (t.magneticAtoms order) ⟨n, q⟩ := fun n q q' => by unfold atomAt; rw [ha1]
  have a2 : ∀ (n : ℕ) (q : n < o.N) (q' : n < o2.N), atomAt o2 (t2.magneticAtoms order2) ⟨n, q'⟩ =
      atomAt o (t.magneticAtoms order) ⟨n, q⟩ := fun n q q' => by unfold atomAt; rw [ha2]
  simp only [a1 i hi, a1 j hj] at e1
  simp only [a2 i hi, a2 j hj] at e2
  simp only at e0
  rw [e0, e1, e2, Finset.smul_sum, Finset.smul_sum, ← Finset.sum_add_distrib]
  refine Finset.sum_congr rfl fun b hb => ?_
  rw [hc b (hKl b hb).1 (hKl b hb).2, map_add, termHom_scale, termHom_scale]

/-- The rows of spins and axes are the same for the same atoms. -/
theorem rows_same (h : ObjSpec order lat pos spinVec s o t items) (h1 : ObjSpec order1 lat pos spinVec s1 o1 t1 items1)
    (ha1 : t1.magneticAtoms order1 = t.magneticAtoms order) : o1.S = o.S ∧ o1.u = o.u ∧ o1.v = o.v := by
  have hS : o1.S = o.S := by
    obtain ⟨f, hf, e⟩ := h.S
    obtain ⟨f1, hf1, e1⟩ := h1.S
    rw [e, e1, ha1]
    refine List.map_congr_left fun a ha => ?_
    have := hf1 a (ha1 ▸ ha)
    rw [hf a ha] at this
    exact (Option.some.inj this).symm
  exact ⟨hS, by rw [h.u, h1.u, hS], by rw [h.v, h1.v, hS]⟩

theorem h_linear {cell cell1 cell2 : ℕ → M3 ℝ} (hN1 : o.N = o1.N) (hN2 : o.N = o2.N) (hS1 : o1.S = o.S ∧ o1.u = o.u ∧ o1.v = o.v)
    (hS2 : o2.S = o.S ∧ o2.u = o.u ∧ o2.v = o.v) (hC : o.C = none) (hC1 : o1.C = none) (hC2 : o2.C = none) {x y : ℝ}
    (hJ : ∀ k i j, i < o.N → j < o.N → o.J cell k i j = (x : ℂ) • o1.J cell1 k i j + (y : ℂ) • o2.J cell2 k i j) (k : V3 ℝ) :
    (o.callH cell k).1 = (x : ℂ) • (o1.callH cell1 k).1.submatrix (Sum.map (Fin.cast hN1) (Fin.cast hN1))
        (Sum.map (Fin.cast hN1) (Fin.cast hN1)) +
      (y : ℂ) • (o2.callH cell2 k).1.submatrix (Sum.map (Fin.cast hN2) (Fin.cast hN2))
        (Sum.map (Fin.cast hN2) (Fin.cast hN2)) := by
  have hA : ∀ k i j, i < o.N → j < o.N → o.A cell k i j = x * o1.A cell1 k i j + y * o2.A cell2 k i j := by
    intro k i j hi hj
    simp only [A, root, hS1, hS2]
    rw [hJ _ _ _ hi hj, add_mulVec, dotProduct_add, smul_mulVec, smul_mulVec, dotProduct_smul, dotProduct_smul, smul_eq_mul,
      smul_eq_mul]
    ring
  have hB : ∀ k i j, i < o.N → j < o.N → o.B cell k i j = x * o1.B cell1 k i j + y * o2.B cell2 k i j := by
    intro k i j hi hj
    simp only [B, root, hS1, hS2]
    rw [hJ _ _ _ hi hj, add_mulVec, dotProduct_add, smul_mulVec, smul_mulVec, dotProduct_smul, dotProduct_smul, smul_eq_mul,
      smul_eq_mul]
    ring
  have hCC : ∀ i j, i < o.N → j < o.N → o.freshC cell i j = x * o1.freshC cell1 i j + y * o2.freshC cell2 i j := by
    intro i j hi hj
    simp only [freshC, hS1, hS2, ← hN1, ← hN2]
    split_ifs
    · rw [Finset.mul_sum, Finset.mul_sum, ← Finset.sum_add_distrib]
      refine Finset.sum_congr rfl fun l hl => ?_
      rw [hJ _ _ _ hi (Finset.mem_range.1 hl), add_mulVec, dotProduct_add, smul_mulVec, smul_mulVec, dotProduct_smul,
        dotProduct_smul, smul_eq_mul, smul_eq_mul]
      ring
    · simp
  have h2 : ∀ {n : ℕ} (M : Matrix (Fin n) (Fin n) ℂ) (i j : Fin n), (2 • M) i j = 2 * M i j := fun M i j => by
    rw [two_smul, two_mul]; rfl
  rw [callH_fresh _ hC, callH_fresh _ hC1, callH_fresh _ hC2]
  ext r c
  rcases r with i | i <;> rcases c with j | j <;>
    simp only [Matrix.add_apply, Matrix.smul_apply, submatrix_apply, Sum.map_inl, Sum.map_inr, fromBlocks_apply₁₁,
      fromBlocks_apply₁₂, fromBlocks_apply₂₁, fromBlocks_apply₂₂, Matrix.sub_apply, h2, block, of_apply, conjTranspose_apply,
      Matrix.map_apply, Fin.val_cast, hA _ _ _ i.2 j.2, hA _ _ _ j.2 i.2, hB _ _ _ i.2 j.2, hB _ _ _ j.2 i.2, hCC _ _ i.2 j.2,
      smul_eq_mul, star_add, star_mul', RCLike.star_def, map_add, map_mul, Complex.conj_ofReal] <;>
    ring

end Magnopy
