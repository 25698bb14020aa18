import Verif.Lemmas.Supercell
import Mathlib.Analysis.Fourier.FiniteAbelian.PontryaginDuality
import Mathlib.GroupTheory.QuotientGroup.Basic

/-!
# Helper lemmas: the wave vectors and the energy of a supercell
-/

set_option autoImplicit false
set_option linter.unusedSectionVars false

namespace Magnopy

open PyDict Matrix Complex MagnonObj

namespace Supercell

variable {n : ℕ} {f : Supercell n} {lat lat' : M3 ℝ}

/-! ### Wave vectors -/

theorem rel_sum (R : Cell) (G : V3 ℝ) (lat : M3 ℝ) : G ⬝ᵥ absolute lat R.rel =
    (R.1 : ℝ) * (lat *ᵥ G) 0 + (R.2.1 : ℝ) * (lat *ᵥ G) 1 + (R.2.2 : ℝ) * (lat *ᵥ G) 2 := by
  simp only [dotProduct, absolute, Cell.rel, mulVec, Fin.sum_univ_three, Matrix.cons_val_zero, Matrix.cons_val_one, Matrix.cons_val]
  ring

/-- There are as many wave vectors as cells in the supercell. -/
theorem exists_waves (hc : ∀ R, ∃! p : Fin n × Cell, f.sub p.2 + f.rep p.1 = R)
    (hlat : ∀ R, absolute lat' (Cell.rel R) = absolute lat (f.sub R).rel) (hdet : lat.det ≠ 0) :
    ∃ G : Fin n → V3 ℝ, FoldedWaves lat lat' G := by
  classical
  let Q := Cell ⧸ f.sub.range
  have hbij : Function.Bijective fun m : Fin n => (f.rep m : Q) := by
    constructor
    · intro m m' e
      obtain ⟨R, hR⟩ := QuotientAddGroup.eq.1 e
      have e1 : f.sub R + f.rep m = f.sub 0 + f.rep m' := by rw [hR, map_zero, zero_add]; abel
      exact congrArg Prod.fst ((hc (f.sub 0 + f.rep m')).unique (y₁ := (m, R)) (y₂ := (m', 0)) e1 rfl)
    · intro q
      obtain ⟨R, rfl⟩ := QuotientAddGroup.mk_surjective q
      obtain ⟨⟨m, R'⟩, h1, _⟩ := hc R
      refine ⟨m, QuotientAddGroup.eq.2 ⟨R', ?_⟩⟩
      simp only at h1
      rw [← h1]; abel
  let eQ : Fin n ≃ Q := Equiv.ofBijective _ hbij
  have : Fintype Q := Fintype.ofEquiv _ eQ
  have hcard : Fintype.card (AddChar Q ℂ) = Fintype.card (Fin n) := by
    rw [AddChar.card_eq, Fintype.card_congr eQ]
  let ψ : Fin n ≃ AddChar Q ℂ := (Fintype.equivOfCardEq hcard).symm
  let E : Fin 3 → Cell := ![(1, 0, 0), (0, 1, 0), (0, 0, 1)]
  let θ : Fin n → V3 ℝ := fun t i => -Complex.arg (ψ t ((E i : Cell) : Q))
  let G : Fin n → V3 ℝ := fun t => lat⁻¹ *ᵥ θ t
  have hG : ∀ t, lat *ᵥ G t = θ t := by
    intro t
    simp only [G, mulVec_mulVec]
    rw [Matrix.mul_nonsing_inv _ (isUnit_iff_ne_zero.2 hdet), one_mulVec]
  have hval : ∀ t i, Complex.exp (-I * (θ t i : ℂ)) = ψ t ((E i : Cell) : Q) := by
    intro t i
    have := Complex.norm_mul_exp_arg_mul_I (ψ t ((E i : Cell) : Q))
    rw [AddChar.norm_apply, Complex.ofReal_one, one_mul] at this
    rw [← this]
    congr 1
    simp only [θ]
    push_cast
    ring
  have hphase : ∀ t R, cellPhase lat (G t) R = ψ t ((R : Cell) : Q) := by
    intro t R
    have hR : R = R.1 • E 0 + R.2.1 • E 1 + R.2.2 • E 2 := by
      obtain ⟨x, y, z⟩ := R
      simp [E, Prod.smul_mk]
    have e1 : cellPhase lat (G t) R = Complex.exp (-I * (θ t 0 : ℂ)) ^ R.1 * Complex.exp (-I * (θ t 1 : ℂ)) ^ R.2.1 *
        Complex.exp (-I * (θ t 2 : ℂ)) ^ R.2.2 := by
      rw [cellPhase, phase, rel_sum, hG, ← Complex.exp_int_mul, ← Complex.exp_int_mul, ← Complex.exp_int_mul, ← Complex.exp_add,
        ← Complex.exp_add]
      congr 1
      push_cast
      ring
    rw [e1, hval, hval, hval, ← AddChar.map_zsmul_eq_zpow, ← AddChar.map_zsmul_eq_zpow, ← AddChar.map_zsmul_eq_zpow,
      ← AddChar.map_add_eq_mul, ← AddChar.map_add_eq_mul]
    congr 1
    conv_rhs => rw [hR]
    rfl
  refine ⟨G, fun t R => ?_, fun t t' htt => ?_⟩
  · rw [hlat, ← phase_one_iff]
    show cellPhase lat (G t) (f.sub R) = 1
    rw [hphase]
    have : ((f.sub R : Cell) : Q) = 0 := (QuotientAddGroup.eq_zero_iff _).2 ⟨R, rfl⟩
    rw [this, AddChar.map_zero_eq_one]
  · have hne : ψ t ≠ ψ t' := fun e => htt (ψ.injective e)
    obtain ⟨q, hq⟩ := DFunLike.ne_iff.1 hne
    obtain ⟨R, rfl⟩ := QuotientAddGroup.mk_surjective q
    refine ⟨R, fun z hz => hq ?_⟩
    have e1 : phase (G t - G t') (absolute lat R.rel) = 1 := (phase_one_iff _ _).2 ⟨z, hz⟩
    rw [sub_eq_add_neg, phase_add_left, ← phase_star_left] at e1
    have e2 : cellPhase lat (G t) R * star (cellPhase lat (G t') R) = 1 := e1
    have e3 := cellPhase_unit lat (G t') R
    rw [← hphase t R, ← hphase t' R]
    have h0 : star (cellPhase lat (G t') R) ≠ 0 := fun e => by rw [e, mul_zero] at e3; exact zero_ne_one e3
    exact mul_right_cancel₀ h0 (e2.trans e3.symm)

/-! ### The energy -/

variable {order order' : List Atom → List Atom} {pos pos' : Atom → V3 ℝ}
  {spinVec spinVec' : Atom → Option (V3 ℝ)} {s s' : St ℝ} {o o' : MagnonObj} {t t' : St ℝ} {items items' : List (Bond × ℕ)}
  {spin spin' : Atom → ℝ}

/-- One term of the energy. -/
noncomputable def energyHom {Γ : Type*} [AddCommGroup Γ] [Fintype Γ] (c : Config ℝ Γ) (spin : Atom → ℝ) (b : Bond) : M3 ℝ →+ ℝ where
  toFun m := ∑ γ : Γ, bilin (spin b.1 • c.σ b.1 γ) m (spin b.2.1 • c.σ b.2.1 (γ + c.τ b.2.2))
  map_zero' := by simp [bilin]
  map_add' x y := by
    rw [← Finset.sum_add_distrib]
    refine Finset.sum_congr rfl fun γ _ => ?_
    simp only [bilin, Fin.sum_univ_three, Matrix.add_apply]
    ring

theorem support_mem {t : St ℝ} {p : Bond × M3 ℝ} (hp : p ∈ likeItems t) : p.1.2.2 ∈ support t := by
  unfold support
  rw [List.mem_toFinset, List.mem_map]
  exact ⟨p, hp, rfl⟩

/-- The energy of the supercell is the energy of the crystal. -/
theorem energy_super (hf : f.Holds (t.magneticAtoms order) (t'.magneticAtoms order') spin spin' s s')
    (h : ObjSpec order lat pos spinVec s o t items) (h' : ObjSpec order' lat' pos' spinVec' s' o' t' items')
    (hcp : ∀ a ∈ t.magneticAtoms order, ∀ b ∈ t.magneticAtoms order, ∀ m m' R,
      couple (likeItems t') (f.name a m, f.name b m', R) = couple (likeItems t) (a, b, f.sub R + f.rep m' - f.rep m))
    {Γ Γ' : Type} [AddCommGroup Γ] [AddCommGroup Γ'] [Fintype Γ] [Fintype Γ'] {ι : Γ' →+ Γ} {c : Config ℝ Γ} {c' : Config ℝ Γ'}
    (hs : f.Same (t.magneticAtoms order) ι c c') : t'.physics c' spin' = t.physics c spin := by
  classical
  rw [energy_like h.flags, energy_like h'.flags]
  congr 1
  set l := t.magneticAtoms order with hl
  -- the crystal
  have e1 : ((likeItems t).map fun p => ∑ γ : Γ, bilin (spin p.1.1 • c.σ p.1.1 γ) p.2
      (spin p.1.2.1 • c.σ p.1.2.1 (γ + c.τ p.1.2.2))).sum = ∑ a ∈ l.toFinset, ∑ b ∈ l.toFinset, ∑ R ∈ support t,
        energyHom c spin (a, b, R) (couple (likeItems t) (a, b, R)) := by
    have := sum_by_bond (likeItems t) (energyHom c spin) (l.toFinset ×ˢ (l.toFinset ×ˢ support t)) fun p hp => by
      obtain ⟨h1, h2⟩ := h.like_atoms hp
      exact Finset.mem_product.2 ⟨List.mem_toFinset.2 h1, Finset.mem_product.2 ⟨List.mem_toFinset.2 h2, support_mem hp⟩⟩
    rw [show ((likeItems t).map fun p => ∑ γ : Γ, bilin (spin p.1.1 • c.σ p.1.1 γ) p.2
      (spin p.1.2.1 • c.σ p.1.2.1 (γ + c.τ p.1.2.2))).sum = ((likeItems t).map fun p => energyHom c spin p.1 p.2).sum from rfl, this,
      Finset.sum_product]
    exact Finset.sum_congr rfl fun a _ => Finset.sum_product _ _ _
  -- the supercell
  let K : Finset (Atom × Fin n) := l.toFinset ×ˢ Finset.univ
  have hinjK : Set.InjOn (fun p : Atom × Fin n => f.name p.1 p.2) K := by
    rintro ⟨a, m⟩ ha ⟨b, m'⟩ hb e
    have ha' := List.mem_toFinset.1 (Finset.mem_product.1 (Finset.mem_coe.1 ha)).1
    have hb' := List.mem_toFinset.1 (Finset.mem_product.1 (Finset.mem_coe.1 hb)).1
    obtain ⟨e1, e2⟩ := hf.inj a ha' b hb' m m' e
    exact Prod.ext e1 e2
  have hinj : ∀ m m', Function.Injective fun R => f.sub R + (f.rep m' - f.rep m) := by
    intro m m' R R' hRR
    have e1 : f.sub R + f.rep m = f.sub R' + f.rep m := by rw [add_right_cancel hRR]
    exact congrArg Prod.snd ((hf.cells (f.sub R' + f.rep m)).unique (y₁ := (m, R)) (y₂ := (m, R')) e1 rfl)
  let S : Finset Cell := support t' ∪ (Finset.univ : Finset (Fin n × Fin n)).biUnion fun p =>
    (support t).preimage _ (hinj p.1 p.2).injOn
  have e2 : ((likeItems t').map fun p => ∑ γ : Γ', bilin (spin' p.1.1 • c'.σ p.1.1 γ) p.2
      (spin' p.1.2.1 • c'.σ p.1.2.1 (γ + c'.τ p.1.2.2))).sum = ∑ x ∈ K, ∑ y ∈ K, ∑ R ∈ S,
        energyHom c' spin' (f.name x.1 x.2, f.name y.1 y.2, R) (couple (likeItems t') (f.name x.1 x.2, f.name y.1 y.2, R)) := by
    have hmem : ∀ a' ∈ t'.magneticAtoms order', a' ∈ K.image fun p : Atom × Fin n => f.name p.1 p.2 := by
      intro a' ha'
      obtain ⟨a, ha, m, e⟩ := (hf.atoms a').1 ha'
      exact Finset.mem_image.2 ⟨(a, m), Finset.mem_product.2 ⟨List.mem_toFinset.2 ha, Finset.mem_univ _⟩, e⟩
    have := sum_by_bond (likeItems t') (energyHom c' spin') ((K.image fun p : Atom × Fin n => f.name p.1 p.2) ×ˢ
      ((K.image fun p : Atom × Fin n => f.name p.1 p.2) ×ˢ S)) fun p hp => by
      obtain ⟨h1, h2⟩ := h'.like_atoms hp
      exact Finset.mem_product.2 ⟨hmem _ h1, Finset.mem_product.2 ⟨hmem _ h2, Finset.mem_union_left _ (support_mem hp)⟩⟩
    rw [show ((likeItems t').map fun p => ∑ γ : Γ', bilin (spin' p.1.1 • c'.σ p.1.1 γ) p.2
      (spin' p.1.2.1 • c'.σ p.1.2.1 (γ + c'.τ p.1.2.2))).sum = ((likeItems t').map fun p => energyHom c' spin' p.1 p.2).sum from rfl,
      this, Finset.sum_product, Finset.sum_image hinjK]
    refine Finset.sum_congr rfl fun x _ => ?_
    rw [Finset.sum_product, Finset.sum_image hinjK]
  rw [e1, e2, Finset.sum_product]
  refine Finset.sum_congr rfl fun a ha => ?_
  have ha' := List.mem_toFinset.1 ha
  rw [Finset.sum_congr rfl fun m _ => Finset.sum_product _ _ _, Finset.sum_comm]
  refine Finset.sum_congr rfl fun b hb => ?_
  have hb' := List.mem_toFinset.1 hb
  -- the term of a supercell as a function of the cell
  let T : Fin n → Cell → ℝ := fun m R => ∑ γ : Γ', bilin (spin a • c.σ a (ι γ + c.τ (f.rep m))) (couple (likeItems t) (a, b, R))
    (spin b • c.σ b (ι γ + c.τ (f.rep m) + c.τ R))
  have hT : ∀ m m' R, energyHom c' spin' (f.name a m, f.name b m', R) (couple (likeItems t') (f.name a m, f.name b m', R)) =
      T m (f.sub R + (f.rep m' - f.rep m)) := by
    intro m m' R
    rw [hcp a ha' b hb', add_sub_assoc]
    show ∑ γ : Γ', _ = ∑ γ : Γ', _
    refine Finset.sum_congr rfl fun γ _ => ?_
    simp only
    rw [hf.spins a ha', hf.spins b hb', hs.spins a ha', hs.spins b hb', map_add ι, hs.period]
    congr 2
    rw [map_add c.τ, map_sub c.τ]
    congr 1
    abel
  have hpart : ∀ m m', ∑ R ∈ S, energyHom c' spin' (f.name a m, f.name b m', R)
      (couple (likeItems t') (f.name a m, f.name b m', R)) =
      ∑ R ∈ support t, if R - (f.rep m' - f.rep m) ∈ Set.range f.sub then T m R else 0 := by
    intro m m'
    rw [Finset.sum_congr rfl fun R _ => hT m m' R]
    have hsub : (support t).preimage _ (hinj m m').injOn ⊆ S := fun R hR =>
      Finset.mem_union_right _ (Finset.mem_biUnion.2 ⟨(m, m'), Finset.mem_univ _, hR⟩)
    rw [← Finset.sum_subset hsub, Finset.sum_preimage' (fun R => f.sub R + (f.rep m' - f.rep m)) (support t) (hinj m m').injOn
      (T m), Finset.sum_filter]
    · refine Finset.sum_congr rfl fun R _ => if_congr ?_ rfl rfl
      constructor
      · rintro ⟨R', rfl⟩; exact ⟨R', by simp only [add_sub_cancel_right]⟩
      · rintro ⟨R', hR'⟩; exact ⟨R', by simp only [hR']; abel⟩
    · intro R _ hR
      have : couple (likeItems t) (a, b, f.sub R + (f.rep m' - f.rep m)) = 0 :=
        support_spec t a b _ fun hR' => hR (Finset.mem_preimage.2 hR')
      simp only [T, this]
      simp [bilin]
  have hone : ∀ m, ∑ m', ∑ R ∈ S, energyHom c' spin' (f.name a m, f.name b m', R)
      (couple (likeItems t') (f.name a m, f.name b m', R)) = ∑ R ∈ support t, T m R := by
    intro m
    rw [Finset.sum_congr rfl fun m' _ => hpart m m', Finset.sum_comm]
    refine Finset.sum_congr rfl fun R _ => ?_
    obtain ⟨⟨m0, R0⟩, h0, hu⟩ := hf.cells (R + f.rep m)
    simp only at h0 hu
    rw [Finset.sum_eq_single m0]
    · rw [if_pos ⟨R0, by rw [eq_sub_of_add_eq h0]; abel⟩]
    · intro m1 _ hm1
      rw [if_neg]
      rintro ⟨R1, hR1⟩
      have := hu (m1, R1) (by simp only [hR1]; abel)
      exact hm1 (congrArg Prod.fst this)
    · simp
  rw [Finset.sum_congr rfl fun m _ => hone m, Finset.sum_comm]
  refine Finset.sum_congr rfl fun R _ => ?_
  simp only [T]
  rw [Finset.sum_comm, ← Fintype.sum_prod_type' (f := fun (γ : Γ') (m : Fin n) => bilin (spin a • c.σ a (ι γ + c.τ (f.rep m)))
    (couple (likeItems t) (a, b, R)) (spin b • c.σ b (ι γ + c.τ (f.rep m) + c.τ R)))]
  exact hs.cells.sum_comp fun γ => bilin (spin a • c.σ a γ) (couple (likeItems t) (a, b, R)) (spin b • c.σ b (γ + c.τ R))

end Supercell

end Magnopy
