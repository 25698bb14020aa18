import Verif.Lemmas.WaveMatrix
import Verif.Props.Colpa
import Verif.Props.EnergyFerro
import Verif.Lemmas.Omega

/-!
# Properties of the magnon matrix: C39, C40, C58, C60
-/

set_option autoImplicit false
set_option linter.unusedSectionVars false

namespace Magnopy

open PyDict Matrix Complex ComplexOrder MagnonObj

variable {order : List Atom → List Atom} {lat : M3 ℝ} {pos : Atom → V3 ℝ} {spinVec : Atom → Option (V3 ℝ)}
  {s : St ℝ} {o : MagnonObj} {t : St ℝ}

/-- `G` is a vector of the reciprocal lattice. -/
def Reciprocal (lat : M3 ℝ) (G : V3 ℝ) : Prop :=
  ∀ i, ∃ m : ℤ, ∑ c, G c * lat i c = 2 * Real.pi * m

namespace MagnonExample

open HistoryExample FerroExample

/-- The spin vector of the atom. -/
def spinZ (_ : Atom) : Option (V3 ℝ) := some ![0, 0, 2]

theorem ready (n : Bool) {e o : ℝ} (he : e ≠ 0) (ho : o ≠ 0) :
    MagnonReady id spinZ (st true n e o twice [(fe1, 2)]) fun _ => 2 :=
  ⟨(twice_ready n ho).wf, fun _ _ => ⟨rfl, two_ne_zero⟩, ⟨true, n, e, o, rfl, he, ho⟩, fun _ _ => rfl⟩

/-- The orientation of the bond that `double_counting = False` would not keep. -/
def backwards : PyDict Bond ℕ := [((fe1, fe1, (-1, 0, 0)), 0)]

theorem backwards_ready (n : Bool) {e o : ℝ} (he : e ≠ 0) (ho : o ≠ 0) :
    MagnonReady id spinZ (st false n e o backwards [(fe1, 2)]) fun _ => 2 := by
  refine ⟨⟨St.sound_of_lists ?_ ?_ ?_ ?_ ?_ ?_ ?_ ?_, fun h => (by cases h), fun _ => ?_⟩, fun _ _ => ⟨rfl, two_ne_zero⟩,
    ⟨false, n, e, o, rfl, he, ho⟩, fun _ _ => rfl⟩
  · show backwards.keys.Nodup; decide
  · show (keys [(fe1, 2)]).Nodup; decide
  · show (backwards.map Prod.snd ++ [(fe1, 2)].map Prod.snd).Nodup; decide
  · show ∀ r ∈ backwards.map Prod.snd ++ [(fe1, 2)].map Prod.snd, r < 3; decide
  · show ∀ b ∈ backwards.keys, b.1 ∈ [fe1] ∧ b.2.1 ∈ [fe1]; decide
  · show ∀ a ∈ keys [(fe1, 2)], a ∈ [fe1]; decide
  · show ∀ a ∈ [fe1], ∀ b ∈ [fe1], a.index = b.index → a = b; decide
  · show ∀ b ∈ backwards.keys, b.mirror ≠ b; decide
  · show ∀ b ∈ backwards.keys, b.mirror ∉ backwards.keys; decide

theorem symmetric (n : Bool) (e o : ℝ) : (st true n e o twice [(fe1, 2)]).OnSiteSymmetric := by
  intro a m h
  obtain ⟨r, _, rfl⟩ := Option.map_eq_some_iff.1 h
  exact transpose_one

theorem length (a : Atom) (v : V3 ℝ) (h : spinZ a = some v) : (2 : ℝ) = Real.sqrt (v ⬝ᵥ v) := by
  cases h
  rw [show (![0, 0, 2] : V3 ℝ) ⬝ᵥ ![0, 0, 2] = 2 ^ 2 by simp [dotProduct, Fin.sum_univ_three]; norm_num,
    Real.sqrt_sq (by norm_num)]

theorem reciprocal : Reciprocal 1 ![2 * Real.pi, -2 * Real.pi, 0] := by
  intro i
  refine ⟨![1, -1, 0] i, ?_⟩
  fin_cases i <;> simp [Fin.sum_univ_three, Matrix.one_apply]

end MagnonExample

/-! ### C39 -/

/-- **C39** for any object that the constructor returns, whatever the history of the Hamiltonian: if in the private
copy mirrored bonds have transposed matrices and on-site matrices are symmetric, then `h(k)` is Hermitian. -/
theorem C39_private (hord : ∀ l, (order l).Perm l) (hi : s.Inv) (ha : s.Alloc)
    (h : init order lat pos spinVec s = (.ok o, t)) (hs : MagnonObj.Symmetric t) (k : V3 ℝ) :
    (o.callH t.cell k).1.IsHermitian := by
  obtain ⟨items, h⟩ := objSpec hord hi ha h
  rw [callH_fresh _ h.C]
  obtain ⟨hc1, hc2⟩ := block_star_C h.v t.cell
  have hA : ∀ k, (block o.N (o.A t.cell k))ᴴ = block o.N (o.A t.cell k) := fun k => by
    ext i j
    exact h.A_star hs k i j
  have h2 : ∀ M : Matrix (Fin o.N) (Fin o.N) ℂ, (2 • M)ᴴ = 2 • Mᴴ := fun M => by
    rw [two_smul, two_smul, conjTranspose_add]
  have hA' : ((block o.N (o.A t.cell (-k))).map star)ᴴ = (block o.N (o.A t.cell (-k))).map star := by
    conv_rhs => rw [← hA (-k)]
    rfl
  rw [Matrix.IsHermitian, fromBlocks_conjTranspose]
  congr 1
  · rw [conjTranspose_sub, h2, h2, hA, hc1]
  · rw [h2, conjTranspose_conjTranspose]
  · rw [h2]
  · rw [conjTranspose_sub, h2, h2, hc1, hA']

/-- **C39.** For a well-formed Hamiltonian in any notation the constructor succeeds, and the matrix `h(k)` is Hermitian
for every `k`. -/
theorem C39_hermitian (hord : ∀ l, (order l).Perm l) (lat : M3 ℝ) (pos : Atom → V3 ℝ) {spin : Atom → ℝ}
    (h : MagnonReady order spinVec s spin) (hs : s.OnSiteSymmetric) :
    ∃ o t, init order lat pos spinVec s = (.ok o, t) ∧ ∀ k, (o.callH t.cell k).1.IsHermitian := by
  obtain ⟨o, t, items, h1, h2, h3⟩ := h.ok (Γ := Unit) hord lat pos
  exact ⟨o, t, h1, C39_private hord h.inv h.wf.alloc h1
    (h3.symmetric h.complete hs (St.getNotation_ok_iff.1 h2.flags).1)⟩

open MagnonExample FerroExample HistoryExample in
/-- A chain of one atom per cell in SpinW's notation with other signs. -/
example : ∃ o t, init id 1 (fun _ => 0) spinZ (st true true (-3) (-5) twice [(fe1, 2)]) = (.ok o, t) ∧
    ∀ k, (o.callH t.cell k).1.IsHermitian :=
  C39_hermitian (fun _ => .refl _) 1 _ (ready true (by norm_num) (by norm_num)) (symmetric true _ _)

open MagnonExample FerroExample HistoryExample in
/-- The same chain with its bond counted once, stored backwards. -/
example : ∃ o t, init id 1 (fun _ => 0) spinZ (st false true (-3) (-5) backwards [(fe1, 2)]) = (.ok o, t) ∧
    ∀ k, (o.callH t.cell k).1.IsHermitian :=
  C39_hermitian (fun _ => .refl _) 1 _ (backwards_ready true (by norm_num) (by norm_num)) fun a m h => by
    obtain ⟨r, _, rfl⟩ := Option.map_eq_some_iff.1 h
    exact transpose_one

/-! ### C40 -/

/-- Complex conjugate, with particle and hole blocks exchanged. -/
def exchanged {N : ℕ} (M : Mat N) : Mat N := (M.map star).submatrix Sum.swap Sum.swap

/-- **C40** for any object that the constructor returns. -/
theorem C40_private (hord : ∀ l, (order l).Perm l) (hi : s.Inv) (ha : s.Alloc)
    (h : init order lat pos spinVec s = (.ok o, t)) (hs : MagnonObj.Symmetric t) (k : V3 ℝ) :
    (o.callH t.cell (-k)).1 = exchanged (o.callH t.cell k).1 := by
  obtain ⟨items, h⟩ := objSpec hord hi ha h
  rw [callH_fresh _ h.C, callH_fresh _ h.C, neg_neg, exchanged]
  obtain ⟨hc1, hc2⟩ := block_star_C h.v t.cell
  have hc : ∀ i j : Fin o.N, star (o.freshC t.cell i j) = o.freshC t.cell i j := fun i j => freshC_star _ h.v i j
  have hB : ∀ i j : Fin o.N, o.B t.cell (-k) j i = o.B t.cell k i j := fun i j => h.B_transpose hs k i j
  have h2 : ∀ (M : Matrix (Fin o.N) (Fin o.N) ℂ) (i j : Fin o.N), (2 • M) i j = M i j + M i j := fun M i j => by
    rw [two_smul]; rfl
  have hs2 : ∀ x : ℂ, star (x + x) = star x + star x := fun x => star_add x x
  ext (i | i) (j | j)
  · show (2 • block o.N (o.A t.cell (-k)) - 2 • block o.N (o.freshC t.cell)) i j =
      star ((2 • (block o.N (o.A t.cell (-k))).map star - 2 • block o.N (o.freshC t.cell)) i j)
    rw [Matrix.sub_apply, Matrix.sub_apply, h2, h2, h2, star_sub, hs2, hs2]
    show _ = star (star (o.A t.cell (-k) i j)) + star (star (o.A t.cell (-k) i j)) -
      (star (o.freshC t.cell i j) + star (o.freshC t.cell i j))
    rw [hc, star_star]
    rfl
  · show (2 • block o.N (o.B t.cell (-k))) i j = star ((2 • (block o.N (o.B t.cell k))ᴴ) i j)
    rw [h2, h2, hs2, conjTranspose_apply, star_star]
    show o.B t.cell (-k) i j + o.B t.cell (-k) i j = _
    rw [hB]
    rfl
  · show (2 • (block o.N (o.B t.cell (-k)))ᴴ) i j = star ((2 • block o.N (o.B t.cell k)) i j)
    rw [h2, h2, hs2, conjTranspose_apply]
    show star (o.B t.cell (-k) j i) + star (o.B t.cell (-k) j i) = _
    rw [hB]
    rfl
  · show (2 • (block o.N (o.A t.cell k)).map star - 2 • block o.N (o.freshC t.cell)) i j =
      star ((2 • block o.N (o.A t.cell k) - 2 • block o.N (o.freshC t.cell)) i j)
    rw [Matrix.sub_apply, Matrix.sub_apply, h2, h2, h2, star_sub, hs2, hs2]
    show _ = star (o.A t.cell k i j) + star (o.A t.cell k i j) -
      (star (o.freshC t.cell i j) + star (o.freshC t.cell i j))
    rw [hc]
    rfl

/-- **C40.** For a well-formed Hamiltonian in any notation, `h(-k)` is the complex conjugate of `h(k)` with particle and
hole blocks exchanged. -/
theorem C40_exchange (hord : ∀ l, (order l).Perm l) (lat : M3 ℝ) (pos : Atom → V3 ℝ) {spin : Atom → ℝ}
    (h : MagnonReady order spinVec s spin) (hs : s.OnSiteSymmetric) :
    ∃ o t, init order lat pos spinVec s = (.ok o, t) ∧
      ∀ k, (o.callH t.cell (-k)).1 = exchanged (o.callH t.cell k).1 := by
  obtain ⟨o, t, items, h1, h2, h3⟩ := h.ok (Γ := Unit) hord lat pos
  exact ⟨o, t, h1, C40_private hord h.inv h.wf.alloc h1
    (h3.symmetric h.complete hs (St.getNotation_ok_iff.1 h2.flags).1)⟩

namespace Colpa

variable {N : ℕ}

/-- Complex conjugation of a matrix. -/
theorem map_star_mul (A B : Mat N) : (A * B).map star = A.map star * B.map star := by
  ext i j
  simp [Matrix.mul_apply]

theorem exchanged_mul (A B : Mat N) : exchanged (A * B) = exchanged A * exchanged B := by
  unfold exchanged
  rw [map_star_mul, ← Matrix.submatrix_mul _ _ _ Sum.swap _ (Equiv.sumComm (Fin N) (Fin N)).bijective]

theorem exchanged_conjTranspose (A : Mat N) : exchanged Aᴴ = (exchanged A)ᴴ := rfl

theorem exchanged_g : exchanged (g : Mat N) = -g := by
  ext (i | i) (j | j) <;> by_cases h : i = j <;> simp [exchanged, g, diagonal_apply, h]

theorem exchanged_one : exchanged (1 : Mat N) = 1 := by
  ext (i | i) (j | j) <;> by_cases h : i = j <;> simp [exchanged, one_apply, h]

theorem exchanged_exchanged (A : Mat N) : exchanged (exchanged A) = A := by
  ext (i | i) (j | j) <;> simp [exchanged]

theorem exchanged_posDef {D : Mat N} (h : D.PosDef) : (exchanged D).PosDef := by
  have e : D.map star = Dᵀ := by
    conv_rhs => rw [← h.isHermitian.eq]
    rfl
  unfold exchanged
  rw [e]
  exact h.transpose.submatrix (Equiv.sumComm (Fin N) (Fin N)).injective

end Colpa

open Colpa in
/-- **C40, the same bosons.** If `h(k)` is positive definite then so is `h(-k)`, and the energies that
`solve_via_colpa` returns for `-k` are those for `k`, the first `N` and the last `N` exchanged and each in reversed
order: a magnon with `-k` is a hole with `k`. -/
theorem C40_energies {N : ℕ} {chol : Mat N → Option (Mat N)} {eig : Mat N → (Fin N ⊕ Fin N → ℂ) × Mat N}
    {sort : (Fin N ⊕ Fin N → ℂ) → Equiv.Perm (Fin N ⊕ Fin N)} (hchol : IsCholesky chol) (heig : IsEig eig)
    (hsort : IsSort sort) (D : Mat N) (hD : D.PosDef) :
    ∃ E G E' G', solve chol eig sort D = some (E, G) ∧ solve chol eig sort (exchanged D) = some (E', G') ∧
      ∀ i, E' (.inl i) = E (.inr i.rev) ∧ E' (.inr i) = E (.inl i.rev) := by
  obtain ⟨K, U, l, h1, h2, h3, h4, h5, h6, _, h7⟩ := solve_eq hchol heig hsort hD
  obtain ⟨K', U', l', h1', h2', h3', h4', h5', h6', _, h7'⟩ := solve_eq hchol heig hsort (exchanged_posDef hD)
  refine ⟨_, _, _, _, h7, h7', ?_⟩
  let m : Fin N ⊕ Fin N → ℝ := fun i => -l (Sum.map Fin.rev Fin.rev i.swap)
  have hm : Descending m := by
    refine ⟨fun i j hij => ?_, fun i j hij => ?_, fun i j => ?_⟩
    · simpa [m] using h5.last _ _ (Fin.rev_le_rev.2 hij)
    · simpa [m] using h5.first _ _ (Fin.rev_le_rev.2 hij)
    · simpa [m] using h5.across _ _
  have e1 : (exchanged K)ᴴ * exchanged K = exchanged D := by
    rw [← exchanged_conjTranspose, ← exchanged_mul, h1]
  have e2 : IsUnit (exchanged U).det := by
    obtain ⟨C, hC⟩ := ((isUnit_iff_isUnit_det _).2 h3).exists_right_inv
    refine ColpaExample.isUnit_det_of_mul (M' := exchanged C) ?_
    rw [← exchanged_mul, hC, exchanged_one]
  have e3 : exchanged K * g * (exchanged K)ᴴ * exchanged U = exchanged U * diagonal fun i => ((-l i.swap : ℝ) : ℂ) := by
    have := congrArg exchanged h4
    simp only [exchanged_mul, exchanged_g, exchanged_conjTranspose] at this
    have hd : exchanged (diagonal fun i => (l i : ℂ)) = diagonal fun i => (l i.swap : ℂ) := by
      ext (i | i) (j | j) <;> by_cases h : i = j <;> simp [exchanged, diagonal_apply, h]
    rw [hd, Matrix.mul_neg, Matrix.neg_mul, Matrix.neg_mul] at this
    rw [← neg_neg (exchanged K * g * (exchanged K)ᴴ * exchanged U), this, ← Matrix.mul_neg]
    congr 1
    ext i j
    by_cases h : i = j <;> simp [diagonal_apply, h]
  have e4 := roots_gD (l := fun i => -l i.swap) e1 e2 e3
  have e5 := roots_gD h1' h3' h4'
  have key : l' = m := by
    refine descending_eq h5' hm ?_
    rw [e5, ← e4]
    let ρ : Equiv.Perm (Fin N ⊕ Fin N) := Equiv.sumCongr Fin.revPerm Fin.revPerm
    have : (fun i => ((m i : ℝ) : ℂ)) = (fun i => ((-l i.swap : ℝ) : ℂ)) ∘ ρ := by
      funext i
      rcases i with i | i <;> rfl
    rw [this, ← Multiset.map_map]
    congr 1
    exact (congrArg Finset.val (Finset.map_univ_equiv ρ)).symm
  intro i
  rw [key]
  simp [m, sgn]

open MagnonExample FerroExample HistoryExample in
/-- The same chain. -/
example : ∃ o t, init id 1 (fun _ => 0) spinZ (st true true (-3) (-5) twice [(fe1, 2)]) = (.ok o, t) ∧
    ∀ k, (o.callH t.cell (-k)).1 = exchanged (o.callH t.cell k).1 :=
  C40_exchange (fun _ => .refl _) 1 _ (ready true (by norm_num) (by norm_num)) (symmetric true _ _)

/-! ### C60 -/

theorem phase_reciprocal {G : V3 ℝ} (hG : Reciprocal lat G) (pos : Atom → V3 ℝ) (k : V3 ℝ) (b : Bond) :
    phase (-(k + G)) (vector lat pos b) = star (atomPhase lat pos G b.1) * atomPhase lat pos G b.2.1 *
      phase (-k) (vector lat pos b) := by
  obtain ⟨m0, h0⟩ := hG 0
  obtain ⟨m1, h1⟩ := hG 1
  obtain ⟨m2, h2⟩ := hG 2
  unfold atomPhase phase
  rw [star_exp, ← Complex.exp_add, ← Complex.exp_add, Complex.exp_eq_exp_iff_exists_int]
  refine ⟨b.2.2.1 * m0 + b.2.2.2.1 * m1 + b.2.2.2.2 * m2, ?_⟩
  have e : -(-(k + G) ⬝ᵥ vector lat pos b) = -(G ⬝ᵥ absolute lat (pos b.1)) + G ⬝ᵥ absolute lat (pos b.2.1) -
      (-k) ⬝ᵥ vector lat pos b + 2 * Real.pi * (b.2.2.1 * m0 + b.2.2.2.1 * m1 + b.2.2.2.2 * m2) := by
    simp only [Fin.sum_univ_three] at h0 h1 h2
    simp only [vector, EnergyObj.lattice, absolute, dotProduct, Fin.sum_univ_three, Pi.neg_apply, Pi.add_apply]
    linear_combination (b.2.2.1 : ℝ) * h0 + (b.2.2.2.1 : ℝ) * h1 + (b.2.2.2.2 : ℝ) * h2
  have e' := congrArg (fun x : ℝ => I * (x : ℂ)) e
  push_cast at e' ⊢
  linear_combination e'

/-- The phase factors of the magnetic atoms. -/
noncomputable def phases (order : List Atom → List Atom) (lat : M3 ℝ) (pos : Atom → V3 ℝ) (G : V3 ℝ) (t : St ℝ) (i : ℕ) : ℂ :=
  (t.magneticAtoms order)[i]?.elim 1 (atomPhase lat pos G)

theorem phases_unit (order : List Atom → List Atom) (lat : M3 ℝ) (pos : Atom → V3 ℝ) (G : V3 ℝ) (t : St ℝ) (i : ℕ) :
    star (phases order lat pos G t i) * phases order lat pos G t i = 1 := by
  unfold phases
  cases (t.magneticAtoms order)[i]? with
  | none => simp
  | some a => exact atomPhase_unit lat pos G a

theorem J_reciprocal {items : List (Bond × ℕ)} (h : ObjSpec order lat pos spinVec s o t items) {G : V3 ℝ}
    (hG : Reciprocal lat G) (k : V3 ℝ) (i j : ℕ) :
    o.J t.cell (-(k + G)) i j =
      (star (phases order lat pos G t i) * phases order lat pos G t j) • o.J t.cell (-k) i j := by
  rw [h.J_eq, h.J_eq, List.smul_sum, List.map_map]
  congr 1
  refine List.map_congr_left fun p hp => ?_
  simp only [Function.comp]
  split_ifs with hc
  · obtain ⟨ha, hb⟩ := h.like_atoms hp
    rw [phase_reciprocal hG, smul_smul, ← hc.1, ← hc.2, phases, phases, List.getElem?_idxOf ha, List.getElem?_idxOf hb]
    rfl
  · rw [smul_zero]

/-- **C60.** For a vector `G` of the reciprocal lattice, `h(k + G)` is `h(k)` up to phase factors of the atoms, the same
for particles and holes. -/
theorem C60_periodic (hord : ∀ l, (order l).Perm l) (hi : s.Inv) (ha : s.Alloc)
    (h : init order lat pos spinVec s = (.ok o, t)) {G : V3 ℝ} (hG : Reciprocal lat G) :
    ∃ w : Fin o.N → ℂ, (∀ i, ‖w i‖ = 1) ∧ ∀ k, (o.callH t.cell (k + G)).1 =
      (diagonal (Sum.elim w w))ᴴ * (o.callH t.cell k).1 * diagonal (Sum.elim w w) := by
  obtain ⟨items, h⟩ := objSpec hord hi ha h
  refine ⟨fun i => phases order lat pos G t i, fun i => ?_, fun k => ?_⟩
  · have := phases_unit order lat pos G t i
    rw [RCLike.star_def, Complex.conj_mul'] at this
    have h1 : ‖phases order lat pos G t i‖ ^ 2 = 1 := by exact_mod_cast this
    nlinarith [norm_nonneg (phases order lat pos G t i)]
  · have hA : ∀ i j, o.A t.cell (k + G) i j =
        star (phases order lat pos G t i) * o.A t.cell k i j * phases order lat pos G t j := by
      intro i j
      unfold MagnonObj.A
      rw [J_reciprocal h hG, smul_mulVec, dotProduct_smul, smul_eq_mul]
      ring
    have hB : ∀ i j, o.B t.cell (k + G) i j =
        star (phases order lat pos G t i) * o.B t.cell k i j * phases order lat pos G t j := by
      intro i j
      unfold MagnonObj.B
      rw [J_reciprocal h hG, smul_mulVec, dotProduct_smul, smul_eq_mul]
      ring
    have hA' : ∀ i j, star (o.A t.cell (-(k + G)) i j) =
        star (phases order lat pos G t i) * star (o.A t.cell (-k) i j) * phases order lat pos G t j := by
      intro i j
      rw [A_neg_star, A_neg_star, J_reciprocal h hG, smul_mulVec, dotProduct_smul, smul_eq_mul]
      ring
    have hC : ∀ i j, o.freshC t.cell i j =
        star (phases order lat pos G t i) * o.freshC t.cell i j * phases order lat pos G t j := by
      intro i j
      by_cases hij : i = j
      · subst hij
        linear_combination (-o.freshC t.cell i i) * phases_unit order lat pos G t i
      · have : o.freshC t.cell i j = 0 := by
          unfold MagnonObj.freshC; exact if_neg hij
        rw [this]; ring
    have h2 : ∀ (M : Matrix (Fin o.N) (Fin o.N) ℂ) (i j : Fin o.N), (2 • M) i j = 2 * M i j := fun M i j => by
      rw [two_smul, two_mul]; rfl
    rw [callH_fresh _ h.C, callH_fresh _ h.C, diagonal_conjTranspose]
    ext (i | i) (j | j)
    · rw [mul_diagonal, diagonal_mul, fromBlocks_apply₁₁, fromBlocks_apply₁₁, Matrix.sub_apply, Matrix.sub_apply, h2, h2, h2]
      simp only [block, Matrix.of_apply, Sum.elim_inl, Pi.star_apply]
      rw [hA]
      linear_combination (-2 : ℂ) * hC i j
    · rw [mul_diagonal, diagonal_mul, fromBlocks_apply₁₂, fromBlocks_apply₁₂, h2, h2]
      simp only [block, Matrix.of_apply, Sum.elim_inl, Sum.elim_inr, Pi.star_apply]
      rw [hB]
      ring
    · rw [mul_diagonal, diagonal_mul, fromBlocks_apply₂₁, fromBlocks_apply₂₁, h2, h2, conjTranspose_apply, conjTranspose_apply]
      simp only [block, Matrix.of_apply, Sum.elim_inl, Sum.elim_inr, Pi.star_apply]
      rw [hB, star_mul', star_mul', star_star]
      ring
    · rw [mul_diagonal, diagonal_mul, fromBlocks_apply₂₂, fromBlocks_apply₂₂, Matrix.sub_apply, Matrix.sub_apply, h2, h2, h2,
        Matrix.map_apply, Matrix.map_apply]
      simp only [block, Matrix.of_apply, Sum.elim_inr, Pi.star_apply]
      rw [hA']
      linear_combination (-2 : ℂ) * hC i j

open Colpa in
/-- **C60, energies.** Phase factors that are the same for particles and holes keep positive definiteness and the
energies that `solve_via_colpa` returns, so the energies are periodic in the reciprocal lattice. -/
theorem C60_energies {N : ℕ} {chol : Mat N → Option (Mat N)} {eig : Mat N → (Fin N ⊕ Fin N → ℂ) × Mat N}
    {sort : (Fin N ⊕ Fin N → ℂ) → Equiv.Perm (Fin N ⊕ Fin N)} (hchol : IsCholesky chol) (heig : IsEig eig)
    (hsort : IsSort sort) (D : Mat N) (hD : D.PosDef) (w : Fin N → ℂ) (hw : ∀ i, ‖w i‖ = 1) :
    ((diagonal (Sum.elim w w))ᴴ * D * diagonal (Sum.elim w w)).PosDef ∧
    (solve chol eig sort ((diagonal (Sum.elim w w))ᴴ * D * diagonal (Sum.elim w w))).map Prod.fst =
      (solve chol eig sort D).map Prod.fst := by
  set W : Mat N := diagonal (Sum.elim w w) with hW
  have hWW : Wᴴ * W = 1 := by
    rw [hW, diagonal_conjTranspose, diagonal_mul_diagonal, ← diagonal_one]
    congr 1
    funext i
    have h1 : ∀ i, star (w i) * w i = 1 := fun i => by rw [RCLike.star_def, Complex.conj_mul', hw]; simp
    rcases i with i | i <;> simpa using h1 i
  have hWW' : W * Wᴴ = 1 := mul_eq_one_comm.1 hWW
  have hgW : Wᴴ * g = g * Wᴴ := by
    rw [hW, g, diagonal_conjTranspose, diagonal_mul_diagonal, diagonal_mul_diagonal]
    congr 1
    funext i
    rw [mul_comm]
  have hgW' : W * g = g * W := by
    rw [hW, g, diagonal_mul_diagonal, diagonal_mul_diagonal]
    congr 1
    funext i
    rw [mul_comm]
  have hpos : (Wᴴ * D * W).PosDef := by
    refine hD.conjTranspose_mul_mul_same (B := W) ?_
    intro x y hxy
    have := congrArg (fun z => Wᴴ *ᵥ z) hxy
    simpa [mulVec_mulVec, hWW] using this
  refine ⟨hpos, ?_⟩
  obtain ⟨K, U, l, h1, _, h3, h4, h5, _, _, h7⟩ := solve_eq hchol heig hsort hD
  obtain ⟨K', U', l', h1', _, h3', h4', h5', _, _, h7'⟩ := solve_eq hchol heig hsort hpos
  have e1 : (K * W)ᴴ * (K * W) = Wᴴ * D * W := by
    rw [conjTranspose_mul, ← h1]
    simp only [Matrix.mul_assoc]
  have e2 : (K * W) * g * (K * W)ᴴ * U = U * diagonal fun i => (l i : ℂ) := by
    rw [← h4, conjTranspose_mul]
    simp only [Matrix.mul_assoc]
    rw [← Matrix.mul_assoc W g, hgW', Matrix.mul_assoc g W, ← Matrix.mul_assoc W Wᴴ, hWW', Matrix.one_mul]
  have : l' = l := descending_eq h5' h5 ((roots_gD h1' h3' h4').trans (roots_gD e1 h3 e2).symm)
  rw [h7, h7', Option.map_some, Option.map_some, this]

open MagnonExample FerroExample HistoryExample in
/-- The same chain and a reciprocal lattice vector of the unit cube. -/
example : ∃ o t, init id 1 (fun _ => 0) spinZ (st true true (-3) (-5) twice [(fe1, 2)]) = (.ok o, t) ∧
    ∃ w : Fin o.N → ℂ, (∀ i, ‖w i‖ = 1) ∧ ∀ k, (o.callH t.cell (k + ![2 * Real.pi, -2 * Real.pi, 0])).1 =
      (diagonal (Sum.elim w w))ᴴ * (o.callH t.cell k).1 * diagonal (Sum.elim w w) := by
  have h := ready true (e := -3) (o := -5) (by norm_num) (by norm_num)
  obtain ⟨o, t, _, h1, _, _⟩ := h.ok (Γ := Unit) (order := id) (fun _ => .refl _) 1 (fun _ => 0)
  exact ⟨o, t, h1, C60_periodic (fun _ => .refl _) h.inv h.wf.alloc h1 reciprocal⟩

/-! ### C58 -/

/-- **C58, the constructor.** Whether `MagnonDispersion(ham)` succeeds or raises, the Hamiltonian of the caller is as
before: the same parameters under the same keys, the same notation, atoms and spins. -/
theorem C58_unchanged (hord : ∀ l, (order l).Perm l) (lat : M3 ℝ) (pos : Atom → V3 ℝ) (spinVec : Atom → Option (V3 ℝ))
    {s : St ℝ} (hi : s.Inv) (ha : s.Alloc) :
    (s.seenIn (init order lat pos spinVec s).2).toHam = s.toHam ∧
      (s.seenIn (init order lat pos spinVec s).2).exchangeItems = s.exchangeItems ∧
      (s.seenIn (init order lat pos spinVec s).2).onSiteItems = s.onSiteItems ∧
      (s.seenIn (init order lat pos spinVec s).2).getNotation = s.getNotation := by
  have key : ∀ r < s.next, (init order lat pos spinVec s).2.cell r = s.cell r := fun r hr => init_old hord lat pos spinVec hi ha hr
  refine ⟨rfl, List.map_congr_left fun p hp => ?_, List.map_congr_left fun p hp => ?_, rfl⟩
  · exact congrArg (Prod.mk p.1) (key _ (ha.exch p.1 p.2 (get?_of_mem hi.nodup.exch hp)))
  · exact congrArg (Prod.mk p.1) (key _ (ha.site p.1 p.2 (get?_of_mem hi.nodup.site hp)))

/-- The matrix `h(k)` only depends on the objects of the bonds. -/
theorem callH_congr (o : MagnonObj) {c c' : ℕ → M3 ℝ} (h : ∀ b ∈ o.bonds, c b.2.2.2 = c' b.2.2.2) (k : V3 ℝ) :
    o.callH c k = o.callH c' k := by
  have hJ : o.J c = o.J c' := by
    funext k i j
    unfold MagnonObj.J
    congr 1
    exact List.map_congr_left fun b hb => by rw [h b hb]
  have hA : o.A c = o.A c' := by funext k i j; unfold MagnonObj.A; rw [hJ]
  have hB : o.B c = o.B c' := by funext k i j; unfold MagnonObj.B; rw [hJ]
  have hC : o.freshC c = o.freshC c' := by funext i j; unfold MagnonObj.freshC; rw [hJ]
  unfold MagnonObj.callH MagnonObj.callC
  rw [hA, hB, hC]
  cases o.C <;> simp only []
  rw [hC]

/-- **C58, later programs.** No later program of calls on the caller's Hamiltonian changes a matrix `h(k)`, as long as it
does not use parameter objects that belong to the private copy (those with addresses between `s.next` and `t.next`). -/
theorem C58_independent (hord : ∀ l, (order l).Perm l) (hi : s.Inv) (ha : s.Alloc)
    (h : init order lat pos spinVec s = (.ok o, t)) (ops : List (Op ℝ))
    (hops : ∀ op ∈ ops, ∀ r ∈ op.refs, r < s.next ∨ t.next ≤ r) (k : V3 ℝ) :
    o.callH (runOps ops (s.seenIn t)).cell k = o.callH t.cell k := by
  obtain ⟨items, h⟩ := objSpec hord hi ha h
  have hoff : (s.seenIn t).Off False (fun r => s.next ≤ r ∧ r < t.next) t.cell := by
    refine ⟨fun r hr => hr.2, fun p hp => ⟨fun hx => ?_, False.elim⟩, fun p hp => ⟨fun hx => ?_, False.elim⟩, fun _ _ => rfl⟩
    · have := ha.exch p.1 p.2 (get?_of_mem hi.nodup.exch hp)
      omega
    · have := ha.site p.1 p.2 (get?_of_mem hi.nodup.site hp)
      omega
  have hrun := hoff.runOps ops fun op hop r hr => by
    rcases hops op hop r hr with h1 | h1 <;> omega
  refine callH_congr o (fun b hb => ?_) k
  rw [h.bonds] at hb
  obtain ⟨p, hp, rfl⟩ := List.mem_map.1 hb
  exact hrun.cell _ (h.fresh p hp)

/-- The object after calls of `h` (or `omega`, which calls `h` once) at the points `ks`. -/
noncomputable def afterCalls (cell : ℕ → M3 ℝ) : List (V3 ℝ) → MagnonObj → MagnonObj
  | [], o => o
  | k :: ks, o => afterCalls cell ks (o.callH cell k).2

/-- **C58, earlier calls.** Earlier calls do not change the result of a call: the object differs from the new one by the
cache for `C` only, and with that cache `h(k)` is the same for every `k`. -/
theorem C58_calls (hord : ∀ l, (order l).Perm l) (hi : s.Inv) (ha : s.Alloc)
    (h : init order lat pos spinVec s = (.ok o, t)) (cell : ℕ → M3 ℝ) (ks : List (V3 ℝ)) :
    ∃ c, afterCalls cell ks o = { o with C := c } ∧ ∀ k, ({ o with C := c }.callH cell k).1 = (o.callH cell k).1 := by
  have hC : o.C = none := (objSpec hord hi ha h).choose_spec.C
  clear h
  suffices key : ∀ c, (c = none ∨ c = some (o.freshC cell)) → ∃ c', (c' = none ∨ c' = some (o.freshC cell)) ∧
      afterCalls cell ks { o with C := c } = { o with C := c' } by
    obtain ⟨c, hc, h⟩ := key o.C (Or.inl hC)
    refine ⟨c, h, fun k => ?_⟩
    rcases hc with rfl | rfl
    · rw [← hC]
    · rw [callH_fresh cell hC]
      rfl
  induction ks with
  | nil => exact fun c hc => ⟨c, hc, rfl⟩
  | cons k ks ih =>
    intro c hc
    have e : ({ o with C := c }.callH cell k).2 = { o with C := some (o.freshC cell) } := by
      rcases hc with rfl | rfl <;> rfl
    obtain ⟨c', hc', h⟩ := ih _ (Or.inr rfl)
    exact ⟨c', hc', by rw [afterCalls, e, h]⟩

open MagnonExample FerroExample HistoryExample in
/-- After construction the caller overwrites one of their own parameters and changes the exchange factor; `h(k)` stays. -/
example : ∃ o t, init id 1 (fun _ => 0) spinZ (st true true (-3) (-5) twice [(fe1, 2)]) = (.ok o, t) ∧
    ∀ k, o.callH (runOps [.writeParam 0 9, .setEF 7] ((st true true (-3) (-5) twice [(fe1, 2)]).seenIn t)).cell k =
      o.callH t.cell k := by
  have h := ready true (e := -3) (o := -5) (by norm_num) (by norm_num)
  obtain ⟨o, t, _, h1, _, _⟩ := h.ok (Γ := Unit) (order := id) (fun _ => .refl _) 1 (fun _ => 0)
  refine ⟨o, t, h1, fun k => C58_independent (fun _ => .refl _) h.inv h.wf.alloc h1 _ ?_ k⟩
  intro op hop r hr
  simp only [List.mem_cons, List.not_mem_nil, or_false] at hop
  rcases hop with rfl | rfl <;> simp [Op.refs] at hr
  rw [hr]; exact Or.inl (by decide)

end Magnopy
