import Verif.Lemmas.Magnon
import Verif.Spec.Wave

/-!
# Helper lemmas: the expansion of the classical energy
-/

set_option autoImplicit false
set_option linter.unusedSectionVars false

namespace Magnopy

open PyDict Matrix Complex

/-! ### Atoms -/

theorem St.mem_of_pairE {s t : St ℝ} {spin : Atom → ℝ} {order : List Atom → List Atom} (hord : ∀ l, (order l).Perm l)
    (hs : s.Paired) (hc : s.Complete) (hc' : t.Complete) (hp : ∀ b, t.pairE spin b = s.pairE spin b)
    (ho : ∀ a, t.siteE spin a = s.siteE spin a) {a : Atom} (ha : a ∈ s.magneticAtoms order) :
    a ∈ t.magneticAtoms order := by
  obtain ⟨d, n, e, o, hn, _⟩ := hc
  obtain ⟨d', n', e', o', hn', _⟩ := hc'
  rw [EnergyObj.mem_magneticAtoms hord] at ha ⊢
  have hkeep : ∀ b, (s.oneE b).isSome → St.keeps b = true → (t.oneE b).isSome := by
    intro b hb hk
    have h1 := hp b
    rw [St.pairE_one hn, St.pairE_one hn', if_pos hk, if_pos hk] at h1
    have := congrArg Option.isSome h1
    rw [Option.isSome_map, Option.isSome_map] at this
    rw [this]; exact hb
  have hE : ∀ b, b ∈ s.exch.keys → b ∈ t.exch.keys ∨ b.mirror ∈ t.exch.keys := by
    intro b hb
    by_cases hk : St.keeps b = true
    · exact St.isSome_oneE_iff.1 (hkeep b (St.isSome_oneE_iff.2 (Or.inl hb)) hk)
    · have := St.isSome_oneE_iff.1 (hkeep b.mirror (St.isSome_oneE_iff.2 (Or.inr (by rw [Bond.mirror_mirror]; exact hb)))
        (by rw [hs.keeps_mirror (Or.inl hb)]; simpa using hk))
      rw [Bond.mirror_mirror] at this
      exact this.symm
  rcases ha with ⟨b, hb, hab⟩ | ha
  · left
    rcases hE b hb with hb' | hb'
    · exact ⟨b, hb', hab⟩
    · exact ⟨_, hb', hab.symm⟩
  · right
    have h1 := ho a
    rw [St.siteE_eq hn, St.siteE_eq hn'] at h1
    have := congrArg Option.isSome h1
    rw [Option.isSome_map, Option.isSome_map] at this
    rw [← St.isSome_valO_iff] at ha ⊢
    rw [this]; exact ha

theorem St.magneticAtoms_nodup {K : Type*} [Field K] {order : List Atom → List Atom} (hord : ∀ l, (order l).Perm l)
    (s : St K) : (s.magneticAtoms order).Nodup := by
  unfold St.magneticAtoms
  exact ((List.perm_insertionSort _ _).nodup_iff).2 (((hord _).nodup_iff).2 (List.nodup_dedup _))

/-- The private Hamiltonian has the magnetic atoms of the user's. -/
theorem St.Renoted.magneticAtoms {Γ : Type*} [AddCommGroup Γ] [Fintype Γ] {s t : St ℝ} {spin : Atom → ℝ}
    {order : List Atom → List Atom} (hord : ∀ l, (order l).Perm l) (hs : s.Paired) (hc : s.Complete)
    (h : St.Renoted Γ spin s t) : t.magneticAtoms order = s.magneticAtoms order := by
  have hmem : ∀ a, a ∈ t.magneticAtoms order ↔ a ∈ s.magneticAtoms order := fun a =>
    ⟨St.mem_of_pairE hord h.wf.paired h.complete hc (fun b => (h.pairE b).symm) (fun a => (h.siteE a).symm),
      St.mem_of_pairE hord hs hc h.complete h.pairE h.siteE⟩
  have hat : ∀ a ∈ s.magneticAtoms order, a ∈ s.atoms := by
    intro a ha
    rw [EnergyObj.mem_magneticAtoms hord] at ha
    rcases ha with ⟨b, hb, rfl | rfl⟩ | ha
    · exact (hs.refer.exch b hb).1
    · exact (hs.refer.exch b hb).2
    · exact hs.refer.site a ha
  have hperm : (t.magneticAtoms order).Perm (s.magneticAtoms order) :=
    (List.perm_ext_iff_of_nodup (St.magneticAtoms_nodup hord t) (St.magneticAtoms_nodup hord s)).2 hmem
  have hsort : ∀ u : St ℝ, (u.magneticAtoms order).Pairwise fun a b => a.index ≤ b.index := by
    intro u
    unfold St.magneticAtoms
    have : Std.Total fun a b : Atom => a.index ≤ b.index := ⟨fun a b => le_total a.index b.index⟩
    have : IsTrans Atom fun a b => a.index ≤ b.index := ⟨fun a b c => le_trans⟩
    exact List.pairwise_insertionSort _ _
  refine hperm.eq_of_pairwise ?_ (hsort t) (hsort s)
  intro a b ha hb h1 h2
  exact hs.index a (hat a ((hmem a).1 ha)) b (hat b hb) (le_antisymm h1 h2)

/-! ### Polynomials -/

theorem bilin_expand (P Q W P' Q' W' : V3 ℝ) (J : M3 ℝ) (ε : ℝ) :
    bilin (P + ε • Q + ε ^ 2 • W) J (P' + ε • Q' + ε ^ 2 • W') =
      bilin P J P' + ε * (bilin P J Q' + bilin Q J P') + ε ^ 2 * (bilin Q J Q' + bilin P J W' + bilin W J P') +
        ε ^ 3 * (bilin Q J W' + bilin W J Q') + ε ^ 4 * bilin W J W' := by
  simp only [bilin, Fin.sum_univ_three, Pi.add_apply, Pi.smul_apply, smul_eq_mul]
  ring

theorem bilin_smul_smul (a b : ℝ) (u v : V3 ℝ) (J : M3 ℝ) : bilin (a • u) J (b • v) = a * b * bilin u J v := by
  simp only [bilin, Fin.sum_univ_three, Pi.smul_apply, smul_eq_mul]
  ring

/-- Coefficient by coefficient. -/
theorem sum_expand {ι : Type*} (l : List ι) (f0 f1 f2 f3 f4 : ι → ℝ) (ε : ℝ) :
    (l.map fun p => f0 p + ε * f1 p + ε ^ 2 * f2 p + ε ^ 3 * f3 p + ε ^ 4 * f4 p).sum =
      (l.map f0).sum + ε * (l.map f1).sum + ε ^ 2 * (l.map f2).sum + ε ^ 3 * (l.map f3).sum + ε ^ 4 * (l.map f4).sum := by
  induction l with
  | nil => simp
  | cons a l ih => simp only [List.map_cons, List.sum_cons, ih]; ring

/-- The energy of the private Hamiltonian as one sum. -/
theorem MagnonObj.energy_like {Γ : Type*} [AddCommGroup Γ] [Fintype Γ] {t : St ℝ}
    (hn : t.getNotation = .ok (true, false, 1, 1)) (c : Config ℝ Γ) (spin : Atom → ℝ) :
    t.physics c spin = some ((MagnonObj.likeItems t).map fun p => ∑ n : Γ,
      bilin (spin p.1.1 • c.σ p.1.1 n) p.2 (spin p.1.2.1 • c.σ p.1.2.1 (n + c.τ p.1.2.2))).sum := by
  rw [St.physics_eq hn, MagnonObj.likeItems, List.map_append, List.sum_append, one_mul, one_mul, add_comm]
  congr 2
  · unfold Config.sites
    rw [List.map_map]
    congr 1
    refine List.map_congr_left fun p _ => ?_
    simp only [Function.comp, Config.site, bilin_smul_smul, weight, Bool.false_eq_true, if_false]
    rw [← Finset.mul_sum]
    congr 1
    refine Finset.sum_congr rfl fun n _ => ?_
    have : c.τ ((0, 0, 0) : Cell) = 0 := map_zero c.τ
    rw [this, add_zero]
  · unfold Config.bonds
    congr 1
    refine List.map_congr_left fun p _ => ?_
    simp only [Config.bond, bilin_smul_smul, weight, Bool.false_eq_true, if_false]
    rw [← Finset.mul_sum]

/-- The three parts of a deviating spin. -/
theorem tilted_parts (e : M3 ℝ) {S : ℝ} (hS : 0 < S) (z : ℂ) (ε : ℝ) :
    S • tilted e S z ε = S • e 2 + ε • (Real.sqrt (2 * S) • (z.re • e 0 + z.im • e 1)) + ε ^ 2 • (-(normSq z) • e 2) := by
  have h1 : S * Real.sqrt (2 / S) = Real.sqrt (2 * S) := by
    have : (2 * S : ℝ) = S ^ 2 * (2 / S) := by field_simp
    rw [this, Real.sqrt_mul (sq_nonneg S), Real.sqrt_sq hS.le]
  ext c
  simp only [tilted, Pi.add_apply, Pi.sub_apply, Pi.smul_apply, smul_eq_mul]
  rw [← h1]
  field_simp
  ring

/-! ### Sums over the cells -/

namespace PlaneWave

variable {Γ : Type*} [AddCommGroup Γ] [Fintype Γ] {lat : M3 ℝ} {k : V3 ℝ} {τ : Cell →+ Γ} {χ : Γ → ℂ}

theorem sum_sq (h : PlaneWave lat k τ χ) : ∑ n, χ n ^ 2 = 0 := by
  obtain ⟨m, hm⟩ := h.two
  have h1 : ∑ n, χ n ^ 2 = χ m ^ 2 * ∑ n, χ n ^ 2 := by
    rw [Finset.mul_sum, ← Equiv.sum_comp (Equiv.addLeft m) fun n => χ n ^ 2]
    exact Finset.sum_congr rfl fun n _ => by rw [Equiv.coe_addLeft, h.add, mul_pow]
  have h2 : (1 - χ m ^ 2) * ∑ n, χ n ^ 2 = 0 := by linear_combination h1
  exact (mul_eq_zero.1 h2).resolve_left (sub_ne_zero.2 (Ne.symm hm))

theorem sum_sq_mul (h : PlaneWave lat k τ χ) (c : ℂ) : ∑ n, χ n ^ 2 * c = 0 := by
  rw [← Finset.sum_mul, h.sum_sq, zero_mul]

theorem sum_star_sq_mul (h : PlaneWave lat k τ χ) (c : ℂ) : ∑ n, star (χ n ^ 2) * c = 0 := by
  rw [← Finset.sum_mul, ← star_sum, h.sum_sq, star_zero, zero_mul]

theorem _root_.Magnopy.Bloch.star_mul_self (h : Bloch lat k τ χ) (n : Γ) : star (χ n) * χ n = 1 := by
  rw [RCLike.star_def, Complex.conj_mul', h.unit]; simp

end PlaneWave

/-- `uᵀ J v` for complex vectors. -/
noncomputable def cbil (u : V3 ℂ) (J : M3 ℝ) (v : V3 ℂ) : ℂ := u ⬝ᵥ (J.map ((↑) : ℝ → ℂ) *ᵥ v)

/-- A real vector as a complex one. -/
def cvec (u : V3 ℝ) : V3 ℂ := fun c => (u c : ℂ)

theorem cbil_eq (u : V3 ℂ) (J : M3 ℝ) (v : V3 ℂ) : cbil u J v = ∑ i, ∑ j, u i * (J i j : ℂ) * v j := by
  simp only [cbil, dotProduct, mulVec, Matrix.map_apply, Finset.mul_sum, mul_assoc]

theorem ofReal_bilin (u : V3 ℝ) (J : M3 ℝ) (v : V3 ℝ) : ((bilin u J v : ℝ) : ℂ) = cbil (cvec u) J (cvec v) := by
  rw [cbil_eq]
  simp only [bilin, cvec, Fin.sum_univ_three]
  push_cast
  ring

theorem cbil_star (u : V3 ℂ) (J : M3 ℝ) (v : V3 ℂ) : star (cbil u J v) = cbil (star u) J (star v) := by
  rw [cbil_eq, cbil_eq]
  simp [Fin.sum_univ_three]

theorem cbil_transpose (u : V3 ℂ) (J : M3 ℝ) (v : V3 ℂ) : cbil u Jᵀ v = cbil v J u := by
  rw [cbil_eq, cbil_eq]
  simp only [Fin.sum_univ_three, Matrix.transpose_apply]
  ring

theorem cbil_wave (z z' : ℂ) (F F' G G' : V3 ℂ) (J : M3 ℝ) :
    cbil (z • F + star z • F') J (z' • G + star z' • G') =
      z * z' * cbil F J G + star (z * z') * cbil F' J G' + star z * z' * cbil F' J G + z * star z' * cbil F J G' := by
  simp only [cbil_eq, Fin.sum_univ_three, Pi.add_apply, Pi.smul_apply, smul_eq_mul, star_mul']
  ring

theorem cbil_smul_smul (a b : ℂ) (u v : V3 ℂ) (J : M3 ℝ) : cbil (a • u) J (b • v) = a * b * cbil u J v := by
  simp only [cbil_eq, Fin.sum_univ_three, Pi.smul_apply, smul_eq_mul]
  ring

section Sums

variable {Γ : Type*} [AddCommGroup Γ] [Fintype Γ] {lat : M3 ℝ} {k : V3 ℝ} {τ : Cell →+ Γ} {χ : Γ → ℂ}

/-- Products of two waves. -/
theorem PlaneWave.sum_bilin (h : PlaneWave lat k τ χ) (θ θ' : ℂ) (F F' G G' : V3 ℂ) (J : M3 ℝ) (m : Γ) :
    ∑ n, cbil ((χ n * θ) • F + star (χ n * θ) • F') J ((χ (n + m) * θ') • G + star (χ (n + m) * θ') • G') =
      Fintype.card Γ * (star θ * θ' * χ m * cbil F' J G + star (star θ * θ' * χ m) * cbil F J G') := by
  have e : ∀ n, cbil ((χ n * θ) • F + star (χ n * θ) • F') J ((χ (n + m) * θ') • G + star (χ (n + m) * θ') • G') =
      χ n ^ 2 * (θ * θ' * χ m * cbil F J G) + star (χ n ^ 2) * (star (θ * θ' * χ m) * cbil F' J G') +
        (star θ * θ' * χ m * cbil F' J G + star (star θ * θ' * χ m) * cbil F J G') := by
    intro n
    rw [cbil_wave, h.add]
    have h1 := h.star_mul_self n
    simp only [star_mul', star_star, star_pow] at h1 ⊢
    linear_combination (star θ * θ' * χ m * cbil F' J G + θ * star θ' * star (χ m) * cbil F J G') * h1
  rw [Finset.sum_congr rfl fun n _ => e n, Finset.sum_add_distrib, Finset.sum_add_distrib, h.sum_sq_mul,
    h.sum_star_sq_mul, Finset.sum_const, Finset.card_univ, nsmul_eq_mul, zero_add, zero_add]

/-- The mean square of an amplitude. -/
theorem PlaneWave.sum_normSq (h : PlaneWave lat k τ χ) {θ : ℂ} (hθ : star θ * θ = 1) (x y : ℂ) :
    ∑ n, ((normSq (x * (χ n * θ) + star (y * (χ n * θ))) : ℝ) : ℂ) =
      Fintype.card Γ * ((normSq x : ℝ) + (normSq y : ℝ) : ℂ) := by
  have e : ∀ n, ((normSq (x * (χ n * θ) + star (y * (χ n * θ))) : ℝ) : ℂ) =
      χ n ^ 2 * (x * y * θ ^ 2) + star (χ n ^ 2) * star (x * y * θ ^ 2) + ((normSq x : ℝ) + (normSq y : ℝ) : ℂ) := by
    intro n
    have h1 := h.star_mul_self n
    rw [Complex.normSq_eq_conj_mul_self, Complex.normSq_eq_conj_mul_self, Complex.normSq_eq_conj_mul_self]
    simp only [← RCLike.star_def, star_add, star_mul', star_star, star_pow] at h1 hθ ⊢
    linear_combination (star x * x + star y * y) * (star θ * θ * h1 + hθ)
  rw [Finset.sum_congr rfl fun n _ => e n, Finset.sum_add_distrib, Finset.sum_add_distrib, h.sum_sq_mul,
    h.sum_star_sq_mul, Finset.sum_const, Finset.card_univ, nsmul_eq_mul, zero_add, zero_add]

/-- Products of two standing waves. -/
theorem Bloch.sum_bilin (h : Bloch lat k τ χ) (h2 : ∀ n, χ n ^ 2 = 1) (θ θ' : ℂ) (F F' G G' : V3 ℂ) (J : M3 ℝ) (m : Γ)
    (hF : θ • F = star θ • F') (hG : θ' • G = star θ' • G') :
    ∑ n, cbil ((χ n * θ) • F + star (χ n * θ) • F') J ((χ (n + m) * θ') • G + star (χ (n + m) * θ') • G') =
      2 * Fintype.card Γ * (star θ * θ' * χ m * cbil F' J G + star (star θ * θ' * χ m) * cbil F J G') := by
  have hr : ∀ n, star (χ n) = χ n := fun n => by
    have h1 := h.star_mul_self n
    have h0 : χ n ≠ 0 := fun e => by simpa [e] using h2 n
    exact mul_right_cancel₀ h0 (by rw [h1, ← sq, h2])
  have e : ∀ n, cbil ((χ n * θ) • F + star (χ n * θ) • F') J ((χ (n + m) * θ') • G + star (χ (n + m) * θ') • G') =
      4 * (χ m * cbil (star θ • F') J (θ' • G)) := by
    intro n
    have e1 : (χ n * θ) • F + star (χ n * θ) • F' = (2 * χ n) • (star θ • F') := by
      rw [star_mul', hr, mul_smul, hF, mul_smul, ← two_smul ℂ, smul_smul]
    have e2 : (χ (n + m) * θ') • G + star (χ (n + m) * θ') • G' = (2 * χ (n + m)) • (θ' • G) := by
      rw [star_mul', hr, mul_smul, mul_smul, ← hG, ← two_smul ℂ, smul_smul]
    rw [e1, e2, cbil_smul_smul, h.add]
    linear_combination (4 * χ m * cbil (star θ • F') J (θ' • G)) * h2 n
  have e3 : cbil (star θ • F') J (θ' • G) = star θ * θ' * cbil F' J G := cbil_smul_smul _ _ _ _ _
  have e4 : cbil (star θ • F') J (θ' • G) = θ * star θ' * cbil F J G' := by
    rw [← hF, hG]; exact cbil_smul_smul _ _ _ _ _
  rw [Finset.sum_congr rfl fun n _ => e n, Finset.sum_const, Finset.card_univ, nsmul_eq_mul]
  simp only [star_mul', star_star, hr]
  linear_combination (2 * Fintype.card Γ * χ m) * e3 + (2 * Fintype.card Γ * χ m) * e4

/-- The mean square of the amplitude of a standing wave. -/
theorem Bloch.sum_normSq (h : Bloch lat k τ χ) (h2 : ∀ n, χ n ^ 2 = 1) {θ : ℂ} (hθ : star θ * θ = 1) (x y : ℂ)
    (hx : x * θ = star (y * θ)) :
    ∑ n, ((normSq (x * (χ n * θ) + star (y * (χ n * θ))) : ℝ) : ℂ) =
      2 * Fintype.card Γ * ((normSq x : ℝ) + (normSq y : ℝ) : ℂ) := by
  have hr : ∀ n, star (χ n) = χ n := fun n => by
    have h1 := h.star_mul_self n
    have h0 : χ n ≠ 0 := fun e => by simpa [e] using h2 n
    exact mul_right_cancel₀ h0 (by rw [h1, ← sq, h2])
  have hn : (normSq θ : ℂ) = 1 := by rw [Complex.normSq_eq_conj_mul_self]; exact hθ
  have hxy : (normSq x : ℂ) = (normSq y : ℂ) := by
    have := congrArg (fun z => (normSq z : ℂ)) hx
    simp only [RCLike.star_def, Complex.normSq_conj, Complex.normSq_mul, Complex.ofReal_mul, hn, mul_one] at this
    exact this
  have e : ∀ n, ((normSq (x * (χ n * θ) + star (y * (χ n * θ))) : ℝ) : ℂ) = 4 * (normSq x : ℂ) := by
    intro n
    have e1 : x * (χ n * θ) + star (y * (χ n * θ)) = 2 * χ n * (x * θ) := by
      have : star (y * (χ n * θ)) = χ n * star (y * θ) := by simp only [star_mul', hr]; ring
      rw [this, ← hx]; ring
    have e2 : (normSq (χ n) : ℂ) = 1 := by rw [Complex.normSq_eq_conj_mul_self]; exact h.star_mul_self n
    rw [e1, Complex.normSq_mul, Complex.normSq_mul, Complex.normSq_mul]
    push_cast
    rw [e2, hn, show normSq (2 : ℂ) = 4 by rw [show (2 : ℂ) = ((2 : ℝ) : ℂ) by push_cast; rfl, Complex.normSq_ofReal]; norm_num]
    push_cast
    ring
  rw [Finset.sum_congr rfl fun n _ => e n, Finset.sum_const, Finset.card_univ, nsmul_eq_mul, ← hxy]
  ring

end Sums

/-- The phase factor of an atom. -/
noncomputable def atomPhase (lat : M3 ℝ) (pos : Atom → V3 ℝ) (k : V3 ℝ) (a : Atom) : ℂ :=
  exp (I * ((k ⬝ᵥ absolute lat (pos a) : ℝ) : ℂ))

theorem star_exp (x : ℝ) : star (exp (I * (x : ℂ))) = exp (I * ((-x : ℝ) : ℂ)) := by
  rw [RCLike.star_def, ← Complex.exp_conj, map_mul, Complex.conj_I, Complex.conj_ofReal]
  push_cast
  ring_nf

theorem atomPhase_unit (lat : M3 ℝ) (pos : Atom → V3 ℝ) (k : V3 ℝ) (a : Atom) :
    star (atomPhase lat pos k a) * atomPhase lat pos k a = 1 := by
  unfold atomPhase
  rw [star_exp, ← Complex.exp_add]
  push_cast
  simp

/-- The phase of a bond. -/
theorem Bloch.phase {Γ : Type*} [AddCommGroup Γ] {lat : M3 ℝ} {k : V3 ℝ} {τ : Cell →+ Γ} {χ : Γ → ℂ}
    (h : Bloch lat k τ χ) (pos : Atom → V3 ℝ) (b : Bond) :
    star (atomPhase lat pos k b.1) * atomPhase lat pos k b.2.1 * χ (τ b.2.2) =
      MagnonObj.phase (-k) (MagnonObj.vector lat pos b) := by
  unfold atomPhase MagnonObj.phase
  rw [h.cell, star_exp, ← Complex.exp_add, ← Complex.exp_add]
  congr 1
  have : (-k) ⬝ᵥ MagnonObj.vector lat pos b =
      -(-(k ⬝ᵥ absolute lat (pos b.1)) + k ⬝ᵥ absolute lat (pos b.2.1) + k ⬝ᵥ absolute lat b.2.2.rel) := by
    simp only [MagnonObj.vector, EnergyObj.lattice, absolute, Cell.rel, dotProduct, Fin.sum_univ_three, Pi.neg_apply,
      Matrix.cons_val_zero, Matrix.cons_val_one, Matrix.cons_val]
    ring
  rw [this]
  push_cast
  ring

/-- The wave of the transverse components. -/
theorem transverse (e : M3 ℝ) {S : ℝ} (hS : 0 < S) (x y z : ℂ) :
    cvec (Real.sqrt (2 * S) • ((x * z + star (y * z)).re • e 0 + (x * z + star (y * z)).im • e 1)) =
      z • (fun c => (Real.sqrt (S / 2) : ℂ) * (y * ((e 0 c : ℂ) + I * (e 1 c : ℂ)) + x * ((e 0 c : ℂ) - I * (e 1 c : ℂ)))) +
      star z • star (fun c => (Real.sqrt (S / 2) : ℂ) *
        (y * ((e 0 c : ℂ) + I * (e 1 c : ℂ)) + x * ((e 0 c : ℂ) - I * (e 1 c : ℂ)))) := by
  have h1 : Real.sqrt (2 * S) = 2 * Real.sqrt (S / 2) := by
    have : (2 * S : ℝ) = 2 ^ 2 * (S / 2) := by ring
    rw [this, Real.sqrt_mul (by norm_num), Real.sqrt_sq (by norm_num)]
  rw [h1]
  funext c
  simp only [cvec, Pi.smul_apply, Pi.add_apply, Pi.star_apply, smul_eq_mul]
  apply Complex.ext <;> simp <;> ring

end Magnopy
