import Verif.Spec.Minimum
import Verif.Props.Motion
import Mathlib.Analysis.Asymptotics.Lemmas
import Mathlib.Topology.Order.Basic

/-!
# Lemmas: the energy of waves of unit vectors
-/

set_option autoImplicit false
set_option linter.unusedSectionVars false

namespace Magnopy

open PyDict Matrix Complex MagnonObj Filter Topology Asymptotics
open scoped ComplexOrder

/-- The second-order coefficient of a function with a local minimum. -/
theorem second_nonneg {E0 E1 E2 E3 E4 : ℝ} {f : ℝ → ℝ} (hf : f =O[𝓝 0] fun ε : ℝ => ε ^ 4)
    (h : ∀ᶠ ε in 𝓝 (0 : ℝ), E0 ≤ E0 + ε * E1 + ε ^ 2 * E2 + ε ^ 3 * E3 + ε ^ 4 * E4 + f ε) : 0 ≤ E2 := by
  obtain ⟨C, hC⟩ := hf.bound
  have hneg : Tendsto (fun ε : ℝ => -ε) (𝓝 0) (𝓝 0) := by
    have := (continuous_neg (G := ℝ)).tendsto 0
    rwa [neg_zero] at this
  have h' := hneg.eventually h
  have hC' := hneg.eventually hC
  have key : ∀ᶠ ε in 𝓝[≠] (0 : ℝ), 0 ≤ E2 + ε ^ 2 * (E4 + C) := by
    filter_upwards [h.filter_mono nhdsWithin_le_nhds, h'.filter_mono nhdsWithin_le_nhds,
      hC.filter_mono nhdsWithin_le_nhds, hC'.filter_mono nhdsWithin_le_nhds, self_mem_nhdsWithin] with ε a1 a2 a3 a4 a5
    have e4 : ‖ε ^ 4‖ = ε ^ 4 := Real.norm_of_nonneg (by positivity)
    have e4' : ‖(-ε) ^ 4‖ = ε ^ 4 := by rw [Even.neg_pow (by decide), e4]
    rw [e4] at a3
    rw [e4'] at a4
    have b3 := (le_abs_self _).trans a3
    have b4 := (le_abs_self _).trans a4
    have hp : 0 < ε ^ 2 := by have : ε ≠ 0 := a5; positivity
    have : 0 ≤ ε ^ 2 * (E2 + ε ^ 2 * (E4 + C)) := by nlinarith
    exact nonneg_of_mul_nonneg_right this hp
  have lim : Tendsto (fun ε : ℝ => E2 + ε ^ 2 * (E4 + C)) (𝓝[≠] 0) (𝓝 E2) := by
    have : Tendsto (fun ε : ℝ => E2 + ε ^ 2 * (E4 + C)) (𝓝 0) (𝓝 (E2 + 0 ^ 2 * (E4 + C))) :=
      Continuous.tendsto (by fun_prop) 0
    have := this.mono_left (nhdsWithin_le_nhds (s := {0}ᶜ))
    simpa using this
  exact ge_of_tendsto lim key

/-- The factor that makes a deviating spin a unit vector differs from one in fourth order. -/
theorem norm_factor {q : ℝ} (hq : 0 ≤ q) :
    0 ≤ (Real.sqrt (1 + q))⁻¹ ∧ (Real.sqrt (1 + q))⁻¹ ≤ 1 ∧ 1 - q ≤ (Real.sqrt (1 + q))⁻¹ := by
  have h1 : 1 ≤ Real.sqrt (1 + q) := Real.one_le_sqrt.2 (by linarith)
  have h2 : Real.sqrt (1 + q) ≤ 1 + q := by
    rw [Real.sqrt_le_left (by linarith)]
    nlinarith
  have h3 : (1 + q)⁻¹ ≤ (Real.sqrt (1 + q))⁻¹ := inv_anti₀ (by linarith) h2
  refine ⟨by positivity, inv_le_one_of_one_le₀ h1, le_trans ?_ h3⟩
  rw [← one_div, le_div_iff₀ (by linarith)]
  nlinarith

theorem norm_factors {q r : ℝ} (hq : 0 ≤ q) (hr : 0 ≤ r) :
    |(Real.sqrt (1 + q))⁻¹ * (Real.sqrt (1 + r))⁻¹ - 1| ≤ q + r := by
  obtain ⟨a1, a2, a3⟩ := norm_factor hq
  obtain ⟨b1, b2, b3⟩ := norm_factor hr
  rw [abs_le]
  constructor <;> nlinarith [mul_nonneg a1 b1, mul_nonneg a1 (sub_nonneg.2 b2)]

theorem isBigO_list_sum {ι : Type*} {f : ι → ℝ → ℝ} {g : ℝ → ℝ} (l : List ι) (h : ∀ p ∈ l, f p =O[𝓝 0] g) :
    (fun ε => (l.map fun p => f p ε).sum) =O[𝓝 0] g := by
  induction l with
  | nil => simpa using isBigO_zero g (𝓝 (0 : ℝ))
  | cons a l ih =>
    simp only [List.map_cons, List.sum_cons]
    exact (h a List.mem_cons_self).add (ih fun p hp => h p (List.mem_cons_of_mem _ hp))

section

variable {Γ : Type*} [AddCommGroup Γ] [Fintype Γ]

/-- The wave of unit vectors with the directions of a wave. -/
noncomputable def unitWave (lat : M3 ℝ) (pos : Atom → V3 ℝ) (frame : Atom → M3 ℝ) (spin : Atom → ℝ) (τ : Cell →+ Γ)
    (χ : Γ → ℂ) (k : V3 ℝ) (α β : Atom → ℂ) (ε : ℝ) : Config ℝ Γ :=
  ⟨τ, fun a n => (Real.sqrt (1 + ε ^ 4 * (normSq (amplitude lat pos k χ α β a n) / spin a) ^ 2))⁻¹ •
    tilted (frame a) (spin a) (amplitude lat pos k χ α β a n) ε⟩

theorem unitWave_unit (lat : M3 ℝ) (pos : Atom → V3 ℝ) {frame : Atom → M3 ℝ} {spin : Atom → ℝ} (τ : Cell →+ Γ)
    (χ : Γ → ℂ) (k : V3 ℝ) (α β : Atom → ℂ) (ε : ℝ) {a : Atom} (hf : RightHanded (frame a)) (hS : 0 < spin a) (n : Γ) :
    (unitWave lat pos frame spin τ χ k α β ε).σ a n ⬝ᵥ (unitWave lat pos frame spin τ χ k α β ε).σ a n = 1 := by
  simp only [unitWave, smul_dotProduct, dotProduct_smul, smul_eq_mul]
  rw [tilted_length hf hS]
  have h0 : 0 < 1 + ε ^ 4 * (normSq (amplitude lat pos k χ α β a n) / spin a) ^ 2 := by positivity
  have h1 := Real.mul_self_sqrt h0.le
  have h2 := (Real.sqrt_pos.2 h0).ne'
  generalize 1 + ε ^ 4 * (normSq (amplitude lat pos k χ α β a n) / spin a) ^ 2 = y at h0 h1 h2 ⊢
  field_simp
  rw [sq, h1]

/-- Its energy differs in fourth order. -/
theorem energy_unitWave {t : St ℝ} (hn : t.getNotation = .ok (true, false, 1, 1)) (lat : M3 ℝ) (pos : Atom → V3 ℝ)
    (frame : Atom → M3 ℝ) (spin : Atom → ℝ) (τ : Cell →+ Γ) (χ : Γ → ℂ) (k : V3 ℝ) (α β : Atom → ℂ) :
    ∃ f : ℝ → ℝ, f =O[𝓝 0] (fun ε : ℝ => ε ^ 4) ∧ ∀ ε E, t.physics (wave lat pos frame spin τ χ k α β ε) spin = some E →
      t.physics (unitWave lat pos frame spin τ χ k α β ε) spin = some (E + f ε) := by
  let q : Atom → Γ → ℝ := fun a n => (normSq (amplitude lat pos k χ α β a n) / spin a) ^ 2
  let g : Atom → Γ → ℝ → ℝ := fun a n ε => (Real.sqrt (1 + ε ^ 4 * q a n))⁻¹
  let v : Atom → Γ → ℝ → V3 ℝ := fun a n ε => spin a • tilted (frame a) (spin a) (amplitude lat pos k χ α β a n) ε
  let B : Bond × M3 ℝ → Γ → ℝ → ℝ := fun p n ε => bilin (v p.1.1 n ε) p.2 (v p.1.2.1 (n + τ p.1.2.2) ε)
  refine ⟨fun ε => ((likeItems t).map fun p => ∑ n : Γ, (g p.1.1 n ε * g p.1.2.1 (n + τ p.1.2.2) ε - 1) * B p n ε).sum,
    isBigO_list_sum _ fun p _ => ?_, fun ε E hE => ?_⟩
  · refine IsBigO.fun_sum fun n _ => ?_
    have h1 : (fun ε => g p.1.1 n ε * g p.1.2.1 (n + τ p.1.2.2) ε - 1) =O[𝓝 0] fun ε : ℝ => ε ^ 4 := by
      refine IsBigO.of_bound (q p.1.1 n + q p.1.2.1 (n + τ p.1.2.2)) (Eventually.of_forall fun ε => ?_)
      have h4 : (0 : ℝ) ≤ ε ^ 4 := by positivity
      have := norm_factors (mul_nonneg h4 (sq_nonneg (normSq (amplitude lat pos k χ α β p.1.1 n) / spin p.1.1)))
        (mul_nonneg h4 (sq_nonneg (normSq (amplitude lat pos k χ α β p.1.2.1 (n + τ p.1.2.2)) / spin p.1.2.1)))
      rw [Real.norm_of_nonneg h4, Real.norm_eq_abs]
      refine this.trans (le_of_eq ?_)
      simp only [q]
      ring
    have h2 : (fun ε => B p n ε) =O[𝓝 0] fun _ : ℝ => (1 : ℝ) := by
      refine (Continuous.tendsto (?_ : Continuous fun ε => B p n ε) 0).isBigO_one ℝ
      simp only [B, v, bilin, tilted, Pi.smul_apply, Pi.add_apply, Pi.sub_apply, smul_eq_mul]
      fun_prop
    simpa using h1.mul h2
  · rw [energy_like hn] at hE ⊢
    rw [← Option.some.inj hE]
    congr 1
    rw [← List.sum_map_add]
    congr 1
    refine List.map_congr_left fun p _ => ?_
    rw [← Finset.sum_add_distrib]
    refine Finset.sum_congr rfl fun n _ => ?_
    simp only [unitWave, wave, B, v, g, q]
    rw [smul_comm, smul_comm (spin p.1.2.1), bilin_smul_smul]
    ring

theorem tilted_zero (e : M3 ℝ) (S : ℝ) (z : ℂ) : tilted e S z 0 = e 2 := by simp [tilted]

/-- The wave of unit vectors is close to the state for small `ε`. -/
theorem unitWave_close (lat : M3 ℝ) (pos : Atom → V3 ℝ) (frame : Atom → M3 ℝ) (spin : Atom → ℝ) (τ : Cell →+ Γ) (χ : Γ → ℂ)
    (k : V3 ℝ) (α β : Atom → ℂ) (l : List Atom) {δ : ℝ} (hδ : 0 < δ) :
    ∀ᶠ ε in 𝓝 (0 : ℝ), ∀ a ∈ l, ∀ n i, |(unitWave lat pos frame spin τ χ k α β ε).σ a n i - frame a 2 i| ≤ δ := by
  have hl : ∀ a n i, ∀ᶠ ε in 𝓝 (0 : ℝ), |(unitWave lat pos frame spin τ χ k α β ε).σ a n i - frame a 2 i| ≤ δ := by
    intro a n i
    have hc : Continuous fun ε : ℝ => |(unitWave lat pos frame spin τ χ k α β ε).σ a n i - frame a 2 i| := by
      simp only [unitWave, tilted, Pi.smul_apply, Pi.add_apply, Pi.sub_apply, smul_eq_mul]
      have : ∀ ε : ℝ, Real.sqrt (1 + ε ^ 4 * (normSq (amplitude lat pos k χ α β a n) / spin a) ^ 2) ≠ 0 := fun ε =>
        (Real.sqrt_pos.2 (by positivity)).ne'
      fun_prop (disch := assumption)
    have ht := hc.tendsto 0
    have h0 : (unitWave lat pos frame spin τ χ k α β 0).σ a n = frame a 2 := by
      simp [unitWave, tilted_zero]
    rw [h0, sub_self, abs_zero] at ht
    exact (ht.eventually (gt_mem_nhds hδ)).mono fun _ h => le_of_lt h
  have : ∀ l : List Atom, ∀ᶠ ε in 𝓝 (0 : ℝ), ∀ a ∈ l, ∀ n i,
      |(unitWave lat pos frame spin τ χ k α β ε).σ a n i - frame a 2 i| ≤ δ := by
    intro l
    induction l with
    | nil => simp
    | cons b l ih =>
      have hb : ∀ᶠ ε in 𝓝 (0 : ℝ), ∀ n i, |(unitWave lat pos frame spin τ χ k α β ε).σ b n i - frame b 2 i| ≤ δ := by
        rw [eventually_all]
        intro n
        rw [eventually_all]
        exact hl b n
      filter_upwards [ih, hb] with ε h1 h2
      intro a ha
      rcases List.mem_cons.1 ha with rfl | ha
      · exact h2
      · exact h1 a ha
  exact this l

/-- In a local minimum the second-order part of the energy of every wave is not negative. -/
theorem wave_nonneg {s t : St ℝ} {spin : Atom → ℝ} {l : List Atom} (hn : t.getNotation = .ok (true, false, 1, 1))
    (hphys : ∀ c : Config ℝ Γ, t.physics c spin = s.physics c spin) (lat : M3 ℝ) (pos : Atom → V3 ℝ)
    {frame : Atom → M3 ℝ} (hf : ∀ a ∈ l, RightHanded (frame a)) (hS : ∀ a ∈ l, 0 < spin a) {τ : Cell →+ Γ}
    (hmin : s.LocalMinimum spin l (fun a => frame a 2) τ) (χ : Γ → ℂ) (k : V3 ℝ) (α β : Atom → ℂ)
    {E0 E1 E2 E3 E4 : ℝ} (hE : ∀ ε : ℝ, t.physics (wave lat pos frame spin τ χ k α β ε) spin =
      some (E0 + ε * E1 + ε ^ 2 * E2 + ε ^ 3 * E3 + ε ^ 4 * E4)) : 0 ≤ E2 := by
  obtain ⟨f, hf4, hfE⟩ := energy_unitWave hn lat pos frame spin τ χ k α β
  obtain ⟨δ, hδ, hm⟩ := hmin
  refine second_nonneg (E0 := E0) (E1 := E1) (E3 := E3) (E4 := E4) hf4 ?_
  have hclose := unitWave_close lat pos frame spin τ χ k α β l hδ
  filter_upwards [hclose] with ε hε
  have h1 := hm (unitWave lat pos frame spin τ χ k α β ε).σ
    (fun a ha n => ⟨unitWave_unit lat pos τ χ k α β ε (hf a ha) (hS a ha) n, hε a ha n⟩) E0
    (E0 + ε * E1 + ε ^ 2 * E2 + ε ^ 3 * E3 + ε ^ 4 * E4 + f ε)
  refine h1 ?_ ?_
  · rw [← hphys]
    have := hE 0
    simp only [wave, tilted_zero] at this
    rw [this]
    simp
  · rw [← hphys]
    exact hfE ε _ (hE ε)

variable {order : List Atom → List Atom} {lat : M3 ℝ} {pos : Atom → V3 ℝ} {spinVec : Atom → Option (V3 ℝ)}
  {s : St ℝ} {o : MagnonObj} {t : St ℝ} {items : List (Bond × ℕ)}

/-- The vector of the amplitudes of the magnetic atoms. -/
def amps (o : MagnonObj) (l : List Atom) (α β : Atom → ℂ) : Fin o.N ⊕ Fin o.N → ℂ :=
  Sum.elim (fun i => l[(i : ℕ)]?.elim 0 α) fun i => l[(i : ℕ)]?.elim 0 β

theorem amps_add (o : MagnonObj) (l : List Atom) (α β α' β' : Atom → ℂ) :
    amps o l (fun a => α a + α' a) (fun a => β a + β' a) = amps o l α β + amps o l α' β' := by
  funext i
  rcases i with i | i <;> simp only [amps, Sum.elim_inl, Sum.elim_inr, Pi.add_apply] <;> cases l[(i : ℕ)]? <;> simp

theorem amps_smul (o : MagnonObj) (l : List Atom) (c : ℂ) (α β : Atom → ℂ) :
    amps o l (fun a => c * α a) (fun a => c * β a) = c • amps o l α β := by
  funext i
  rcases i with i | i <;> simp only [amps, Sum.elim_inl, Sum.elim_inr, Pi.smul_apply] <;> cases l[(i : ℕ)]? <;> simp

/-- Every vector is the vector of some amplitudes. -/
theorem exists_amps (h2 : ObjSpec order lat pos spinVec s o t items) (hord : ∀ l, (order l).Perm l)
    (x : Fin o.N ⊕ Fin o.N → ℂ) : ∃ α β : Atom → ℂ, x = amps o (t.magneticAtoms order) α β := by
  obtain ⟨α, hα⟩ := exists_amplitudes h2 hord fun i => x (.inl i)
  obtain ⟨β, hβ⟩ := exists_amplitudes h2 hord fun i => x (.inr i)
  refine ⟨α, β, funext fun i => ?_⟩
  rcases i with i | i
  · exact congrFun hα i
  · exact congrFun hβ i

theorem posSemidef_of_amps (h2 : ObjSpec order lat pos spinVec s o t items) (hord : ∀ l, (order l).Perm l) {D : Mat o.N}
    (hH : D.IsHermitian) (h : ∀ α β : Atom → ℂ, 0 ≤ (star (amps o (t.magneticAtoms order) α β) ⬝ᵥ
      (D *ᵥ amps o (t.magneticAtoms order) α β)).re) : D.PosSemidef := by
  refine .of_dotProduct_mulVec_nonneg hH fun x => ?_
  have him : (star x ⬝ᵥ (D *ᵥ x)).im = 0 := by
    have e : star (star x ⬝ᵥ (D *ᵥ x)) = star x ⬝ᵥ (D *ᵥ x) := by
      rw [← star_dotProduct_star, star_star, star_mulVec, hH.eq, dotProduct_mulVec, dotProduct_comm]
    exact Complex.conj_eq_iff_im.1 e
  obtain ⟨α, β, rfl⟩ := exists_amps h2 hord x
  exact Complex.nonneg_iff.2 ⟨h α β, him.symm⟩

/-- The form of the magnon matrix in a local minimum, for waves with the sums `WaveSums`. -/
theorem form_nonneg_of_sums (h2 : ObjSpec order lat pos spinVec s o t items) (hsym : MagnonObj.Symmetric t) {spin : Atom → ℝ}
    (hpos : ∀ a ∈ t.magneticAtoms order, 0 < spin a)
    (hnorm : ∀ a ∈ t.magneticAtoms order, ∀ v, spinVec a = some v → EnergyObj.norm3 v = spin a)
    (hhand : ∀ a ∈ t.magneticAtoms order, RightHanded (Frame.span ((spinVec a).getD 0)))
    (hphys : ∀ c : Config ℝ Γ, t.physics c spin = s.physics c spin) {τ : Cell →+ Γ}
    (hmin : s.LocalMinimum spin (t.magneticAtoms order) (fun a => Frame.span ((spinVec a).getD 0) 2) τ) {χ : Γ → ℂ} {k : V3 ℝ}
    {α β : Atom → ℂ} {c : ℝ} (hc : 0 < c)
    (hw : WaveSums lat pos k τ χ α β (fun a => Frame.span ((spinVec a).getD 0)) spin c) :
    0 ≤ (star (amps o (t.magneticAtoms order) α β) ⬝ᵥ
      ((o.callH t.cell k).1 *ᵥ amps o (t.magneticAtoms order) α β)).re := by
  obtain ⟨E0, E1, E3, E4, hE⟩ := energy_wave h2.flags lat pos (fun a => Frame.span ((spinVec a).getD 0)) (spin := spin)
    (fun p hp => ⟨hpos _ (h2.like_atoms hp).1, hpos _ (h2.like_atoms hp).2⟩) τ χ k α β
  have h0 := wave_nonneg h2.flags hphys lat pos hhand hpos hmin χ k α β hE
  have h1 := second_form h2 hsym hpos hnorm hw
  simp only [] at h1
  have h3 := congrArg Complex.re h1
  rw [Complex.ofReal_re, Complex.re_ofReal_mul] at h3
  rw [h3] at h0
  exact nonneg_of_mul_nonneg_right h0 hc

/-- For `k` equivalent to `-k` the form does not change if the two parts of the amplitudes are exchanged. -/
theorem form_exchange (h2 : ObjSpec order lat pos spinVec s o t items) (hsym : MagnonObj.Symmetric t) {spin : Atom → ℝ}
    (hnorm : ∀ a ∈ t.magneticAtoms order, ∀ v, spinVec a = some v → EnergyObj.norm3 v = spin a) {τ : Cell →+ Γ} {χ : Γ → ℂ}
    {k : V3 ℝ} (hb : Bloch lat k τ χ) (htwo : ∀ n, χ n ^ 2 = 1) (α β : Atom → ℂ) :
    let θ := atomPhase lat pos k
    let X := amps o (t.magneticAtoms order) α β
    let Y := amps o (t.magneticAtoms order) (fun a => star (β a * θ a) * star (θ a)) fun a => star (α a * θ a) * star (θ a)
    star Y ⬝ᵥ ((o.callH t.cell k).1 *ᵥ Y) = star X ⬝ᵥ ((o.callH t.cell k).1 *ᵥ X) := by
  intro θ X Y
  have hX := h2.form_like hsym hnorm k α β
  have hY := h2.form_like hsym hnorm k (fun a => star (β a * θ a) * star (θ a)) fun a => star (α a * θ a) * star (θ a)
  simp only [] at hX hY
  refine hY.trans (Eq.trans ?_ hX.symm)
  have hθ : ∀ a, star (θ a) * θ a = 1 := atomPhase_unit lat pos k
  have hn : ∀ a, normSq (θ a) = 1 := fun a => by
    have := hθ a
    rw [RCLike.star_def, ← Complex.normSq_eq_conj_mul_self] at this
    exact_mod_cast this
  have hns : ∀ z : ℂ, normSq (star z) = normSq z := fun z => Complex.normSq_conj z
  congr 2
  · rw [sum_like h2.inv.nodup hsym]
    congr 1
    refine List.map_congr_left fun p _ => ?_
    rw [show p.1.mirror.1 = p.1.2.1 from rfl, show p.1.mirror.2.1 = p.1.1 from rfl, vector_mirror, phase_neg,
      ← neg_neg k, ← phase_conj, neg_neg, ← hb.phase pos, cbil_transpose]
    have hχ : star (χ (τ p.1.2.2)) = χ (τ p.1.2.2) := by
      have h0 : (χ (τ p.1.2.2) - 1) * (χ (τ p.1.2.2) + 1) = 0 := by linear_combination htwo (τ p.1.2.2)
      rcases mul_eq_zero.1 h0 with h | h
      · rw [sub_eq_zero.1 h, star_one]
      · rw [eq_neg_of_add_eq_zero_left h, star_neg, star_one]
    have e : ∀ a, (((Real.sqrt (spin a / 2) : ℝ) : ℂ) • ((star (α a * θ a) * star (θ a)) •
        (fun c => (Frame.span ((spinVec a).getD 0) 0 c : ℂ) + I * (Frame.span ((spinVec a).getD 0) 1 c : ℂ)) +
        (star (β a * θ a) * star (θ a)) • star (fun c => (Frame.span ((spinVec a).getD 0) 0 c : ℂ) +
          I * (Frame.span ((spinVec a).getD 0) 1 c : ℂ)))) = (star (θ a) * star (θ a)) •
        star (((Real.sqrt (spin a / 2) : ℝ) : ℂ) • (β a • (fun c => (Frame.span ((spinVec a).getD 0) 0 c : ℂ) +
          I * (Frame.span ((spinVec a).getD 0) 1 c : ℂ)) + α a • star (fun c => (Frame.span ((spinVec a).getD 0) 0 c : ℂ) +
          I * (Frame.span ((spinVec a).getD 0) 1 c : ℂ)))) := by
      intro a
      have hr : star ((Real.sqrt (spin a / 2) : ℝ) : ℂ) = ((Real.sqrt (spin a / 2) : ℝ) : ℂ) := by
        rw [RCLike.star_def, Complex.conj_ofReal]
      generalize ((Real.sqrt (spin a / 2) : ℝ) : ℂ) = r at hr ⊢
      generalize (fun c => (Frame.span ((spinVec a).getD 0) 0 c : ℂ) + I * (Frame.span ((spinVec a).getD 0) 1 c : ℂ)) = u
      funext c
      simp only [Pi.smul_apply, Pi.add_apply, Pi.star_apply, smul_eq_mul, star_mul', star_add, star_star, hr]
      ring
    have core : ∀ (x y z : ℂ) (F G : V3 ℂ), star x * x = 1 → star y * y = 1 → star z = z →
        star (star x * y * z) * cbil ((star x * star x) • star F) p.2 (star ((star y * star y) • star G)) =
          star x * y * z * cbil (star F) p.2 G := by
      intro x y z F G h1 h3 h4
      rw [star_smul, cbil_smul_smul, star_star]
      simp only [star_mul', star_star, h4]
      linear_combination z * cbil (star F) p.2 G * (star x * y * (star y * y) * h1 + star x * y * h3)
    rw [e, e]
    exact core _ _ _ _ _ (hθ _) (hθ _) hχ
  · congr 1
    refine List.map_congr_left fun p _ => ?_
    simp only [map_mul, hns, hn, mul_one]
    rw [add_comm ((normSq (β p.1.1) : ℝ) : ℂ)]

/-- A Hermitian matrix is positive semidefinite if the forms of the amplitudes of waves are not negative. -/
theorem posSemidef_of_waves (hord : ∀ l, (order l).Perm l) (h2 : ObjSpec order lat pos spinVec s o t items)
    {frame : Atom → M3 ℝ} {spin : Atom → ℝ} {τ : Cell →+ Γ} {χ : Γ → ℂ} {k : V3 ℝ} {D : Mat o.N} (hH : D.IsHermitian)
    (hb : Bloch lat k τ χ)
    (hex : (∀ n, χ n ^ 2 = 1) → ∀ α β : Atom → ℂ,
      let θ := atomPhase lat pos k
      let X := amps o (t.magneticAtoms order) α β
      let Y := amps o (t.magneticAtoms order) (fun a => star (β a * θ a) * star (θ a)) fun a => star (α a * θ a) * star (θ a)
      star Y ⬝ᵥ (D *ᵥ Y) = star X ⬝ᵥ (D *ᵥ X))
    (hform : ∀ (α β : Atom → ℂ) (c : ℝ), 0 < c → WaveSums lat pos k τ χ α β frame spin c →
      0 ≤ (star (amps o (t.magneticAtoms order) α β) ⬝ᵥ (D *ᵥ amps o (t.magneticAtoms order) α β)).re) : D.PosSemidef := by
  refine posSemidef_of_amps h2 hord hH fun α β => ?_
  have hcard : (0 : ℝ) < Fintype.card Γ := by exact_mod_cast Fintype.card_pos
  by_cases htwo : ∀ n, χ n ^ 2 = 1
  · let θ := atomPhase lat pos k
    let α' : Atom → ℂ := fun a => star (β a * θ a) * star (θ a)
    let β' : Atom → ℂ := fun a => star (α a * θ a) * star (θ a)
    have hθ : ∀ a, star (θ a) * θ a = 1 := atomPhase_unit lat pos k
    have w1 : StandingWave lat pos k τ χ (fun a => α a + α' a) fun a => β a + β' a := by
      refine ⟨hb, htwo, fun a => ?_⟩
      show (α a + α' a) * θ a = star ((β a + β' a) * θ a)
      have := hθ a
      simp only [α', β', star_mul', star_add, star_star]
      linear_combination star (β a) * star (θ a) * this - α a * θ a * this
    have w2 : StandingWave lat pos k τ χ (fun a => I * (α a + -1 * α' a)) fun a => I * (β a + -1 * β' a) := by
      refine ⟨hb, htwo, fun a => ?_⟩
      show I * (α a + -1 * α' a) * θ a = star (I * (β a + -1 * β' a) * θ a)
      have := hθ a
      have hI : star I = -I := Complex.conj_I
      simp only [α', β', star_mul', star_add, star_star, hI, star_neg, star_one]
      linear_combination -I * star (β a) * star (θ a) * this - I * α a * θ a * this
    have n1 := hform _ _ (2 * Fintype.card Γ) (by positivity) (by push_cast; exact w1.sums _ _)
    have n2 := hform _ _ (2 * Fintype.card Γ) (by positivity) (by push_cast; exact w2.sums _ _)
    have hex := hex htwo α β
    simp only [] at hex
    rw [amps_add] at n1
    rw [amps_smul, amps_add, amps_smul] at n2
    change star (amps o (t.magneticAtoms order) α' β') ⬝ᵥ (D *ᵥ amps o (t.magneticAtoms order) α' β') = _ at hex
    generalize amps o (t.magneticAtoms order) α β = x at n1 n2 hex ⊢
    generalize amps o (t.magneticAtoms order) α' β' = y at n1 n2 hex
    have e2 : star (I • (x + (-1 : ℂ) • y)) ⬝ᵥ (D *ᵥ (I • (x + (-1 : ℂ) • y))) =
        star x ⬝ᵥ (D *ᵥ x) + star y ⬝ᵥ (D *ᵥ y) - star x ⬝ᵥ (D *ᵥ y) - star y ⬝ᵥ (D *ᵥ x) := by
      simp only [star_smul, star_add, smul_dotProduct, add_dotProduct, mulVec_smul, mulVec_add, dotProduct_smul, dotProduct_add,
        smul_eq_mul, star_neg, star_one, show star I = -I from Complex.conj_I]
      linear_combination (star x ⬝ᵥ (D *ᵥ x) + star y ⬝ᵥ (D *ᵥ y) - star x ⬝ᵥ (D *ᵥ y) - star y ⬝ᵥ (D *ᵥ x)) * (-Complex.I_mul_I)
    have e1 : star (x + y) ⬝ᵥ (D *ᵥ (x + y)) =
        star x ⬝ᵥ (D *ᵥ x) + star y ⬝ᵥ (D *ᵥ y) + star x ⬝ᵥ (D *ᵥ y) + star y ⬝ᵥ (D *ᵥ x) := by
      simp only [star_add, add_dotProduct, mulVec_add, dotProduct_add]
      ring
    rw [e2, hex] at n2
    rw [e1, hex] at n1
    simp only [Complex.add_re, Complex.sub_re] at n1 n2
    linarith
  · push_neg at htwo
    have hw : PlaneWave lat k τ χ := ⟨hb, htwo⟩
    exact hform _ _ _ hcard (hw.sums pos α β _ _)

/-- The magnon matrix of a local minimum is positive semidefinite for all wave vectors of the supercell. -/
theorem posSemidef_of_minimum (hord : ∀ l, (order l).Perm l) (h2 : ObjSpec order lat pos spinVec s o t items)
    (hsym : MagnonObj.Symmetric t) {spin : Atom → ℝ} (hpos : ∀ a ∈ t.magneticAtoms order, 0 < spin a)
    (hnorm : ∀ a ∈ t.magneticAtoms order, ∀ v, spinVec a = some v → EnergyObj.norm3 v = spin a)
    (hhand : ∀ a ∈ t.magneticAtoms order, RightHanded (Frame.span ((spinVec a).getD 0)))
    (hphys : ∀ c : Config ℝ Γ, t.physics c spin = s.physics c spin) {τ : Cell →+ Γ}
    (hmin : s.LocalMinimum spin (t.magneticAtoms order) (fun a => Frame.span ((spinVec a).getD 0) 2) τ) {χ : Γ → ℂ} {k : V3 ℝ}
    (hH : (o.callH t.cell k).1.IsHermitian) (hb : Bloch lat k τ χ) : (o.callH t.cell k).1.PosSemidef :=
  posSemidef_of_waves hord h2 hH hb (fun htwo α β => form_exchange h2 hsym hnorm hb htwo α β) fun _ _ _ hc hw =>
    form_nonneg_of_sums h2 hsym hpos hnorm hhand hphys hmin hc hw

end

/-! ### All wave vectors -/

theorem dot_absolute (k : V3 ℝ) (lat : M3 ℝ) (x : V3 ℝ) : k ⬝ᵥ absolute lat x = ∑ i, x i * (lat *ᵥ k) i := by
  simp only [absolute, dotProduct, mulVec, Fin.sum_univ_three]
  ring

/-- A wave vector whose waves fit into `n × n × n` cells. -/
theorem cube_bloch {n : ℕ} [NeZero n] {lat : M3 ℝ} {k : V3 ℝ} {m : Fin 3 → ℤ}
    (h : ∀ i, (lat *ᵥ k) i = 2 * Real.pi * m i / n) :
    Bloch lat k (cube n) fun v => ZMod.stdAddChar (N := n) ((m 0 : ZMod n) * v.1 + (m 1 : ZMod n) * v.2.1 + (m 2 : ZMod n) * v.2.2) := by
  refine ⟨fun v w => ?_, fun v => ?_, fun R => ?_⟩
  · rw [← AddChar.map_add_eq_mul]
    congr 1
    simp only [Prod.fst_add, Prod.snd_add]
    ring
  · rw [ZMod.stdAddChar_apply]
    exact Circle.norm_coe _
  · have : ((m 0 : ZMod n) * (cube n R).1 + (m 1 : ZMod n) * (cube n R).2.1 + (m 2 : ZMod n) * (cube n R).2.2) =
        ((m 0 * R.1 + m 1 * R.2.1 + m 2 * R.2.2 : ℤ) : ZMod n) := by
      push_cast
      rfl
    beta_reduce
    rw [this, ZMod.stdAddChar_coe, dot_absolute, Fin.sum_univ_three, h, h, h]
    congr 1
    simp only [Cell.rel, cons_val_zero, cons_val_one, cons_val]
    push_cast
    ring

/-- The wave vectors that fit into some cube are dense. -/
theorem exists_cubes {lat : M3 ℝ} (hlat : lat.det ≠ 0) (k : V3 ℝ) :
    ∃ u : ℕ → V3 ℝ, Tendsto u atTop (𝓝 k) ∧ ∀ n, ∃ χ, Bloch lat (u n) (cube (n + 1)) χ := by
  let m : ℕ → Fin 3 → ℤ := fun n i => ⌊((n : ℝ) + 1) * ((lat *ᵥ k) i / (2 * Real.pi))⌋
  let w : ℕ → V3 ℝ := fun n i => 2 * Real.pi * m n i / (n + 1 : ℕ)
  have hunit : IsUnit lat.det := isUnit_iff_ne_zero.2 hlat
  refine ⟨fun n => lat⁻¹ *ᵥ w n, ?_, fun n => ⟨_, cube_bloch (m := m n) fun i => ?_⟩⟩
  · have hk : k = lat⁻¹ *ᵥ (lat *ᵥ k) := by rw [mulVec_mulVec, nonsing_inv_mul _ hunit, one_mulVec]
    have hw : Tendsto w atTop (𝓝 (lat *ᵥ k)) := by
      rw [tendsto_pi_nhds]
      intro i
      have hpi : 0 < 2 * Real.pi := by positivity
      have hb : ∀ n : ℕ, |w n i - (lat *ᵥ k) i| ≤ 2 * Real.pi * (1 / ((n : ℝ) + 1)) := by
        intro n
        have hn : (0 : ℝ) < (n : ℝ) + 1 := by positivity
        have h1 := Int.floor_le (((n : ℝ) + 1) * ((lat *ᵥ k) i / (2 * Real.pi)))
        have h2 := Int.lt_floor_add_one (((n : ℝ) + 1) * ((lat *ᵥ k) i / (2 * Real.pi)))
        have e : w n i - (lat *ᵥ k) i = 2 * Real.pi * (((m n i : ℝ) - ((n : ℝ) + 1) * ((lat *ᵥ k) i / (2 * Real.pi))) * (1 / ((n : ℝ) + 1))) := by
          simp only [w]
          push_cast
          field_simp
        rw [e, abs_mul, abs_of_pos hpi, abs_mul, abs_of_pos (a := 1 / ((n : ℝ) + 1)) (by positivity)]
        refine mul_le_mul_of_nonneg_left ?_ hpi.le
        refine mul_le_of_le_one_left (by positivity) ?_
        rw [abs_le]
        constructor <;> simp only [m] <;> linarith
      rw [tendsto_iff_norm_sub_tendsto_zero]
      refine squeeze_zero (fun n => norm_nonneg _) hb ?_
      have := (tendsto_one_div_add_atTop_nhds_zero_nat (𝕜 := ℝ)).const_mul (2 * Real.pi)
      rwa [mul_zero] at this
    have hc : Continuous fun x : V3 ℝ => lat⁻¹ *ᵥ x := continuous_const.matrix_mulVec continuous_id
    have := (hc.tendsto (lat *ᵥ k)).comp hw
    rw [← hk] at this
    exact this
  · rw [mulVec_mulVec, mul_nonsing_inv _ hunit, one_mulVec]

section

variable {order : List Atom → List Atom} {lat : M3 ℝ} {pos : Atom → V3 ℝ} {spinVec : Atom → Option (V3 ℝ)}
  {s : St ℝ} {o : MagnonObj} {t : St ℝ} {items : List (Bond × ℕ)}

/-- The form of the magnon matrix is a continuous function of the wave vector. -/
theorem form_continuous (h2 : ObjSpec order lat pos spinVec s o t items) (hsym : MagnonObj.Symmetric t) {spin : Atom → ℝ}
    (hnorm : ∀ a ∈ t.magneticAtoms order, ∀ v, spinVec a = some v → EnergyObj.norm3 v = spin a) (α β : Atom → ℂ) :
    Continuous fun k => (star (amps o (t.magneticAtoms order) α β) ⬝ᵥ
      ((o.callH t.cell k).1 *ᵥ amps o (t.magneticAtoms order) α β)).re := by
  have hk := fun k => h2.form_like hsym hnorm k α β
  simp only [] at hk
  have e : (fun k => (star (amps o (t.magneticAtoms order) α β) ⬝ᵥ
      ((o.callH t.cell k).1 *ᵥ amps o (t.magneticAtoms order) α β)).re) = _ := funext fun k => congrArg Complex.re (hk k)
  rw [e]
  refine Complex.continuous_re.comp (Continuous.sub (continuous_const.mul ?_) continuous_const)
  have : ∀ (l : List (Bond × M3 ℝ)) (c : Bond × M3 ℝ → ℂ),
      Continuous fun k : V3 ℝ => (l.map fun p => phase (-k) (vector lat pos p.1) * c p).sum := by
    intro l c
    induction l with
    | nil => simpa using continuous_const
    | cons p l ih =>
      simp only [List.map_cons, List.sum_cons]
      refine Continuous.add (Continuous.mul ?_ continuous_const) ih
      simp only [MagnonObj.phase, dotProduct, Fin.sum_univ_three, Pi.neg_apply]
      fun_prop
  exact this _ _

theorem posSemidef_everywhere (hord : ∀ l, (order l).Perm l) (h2 : ObjSpec order lat pos spinVec s o t items)
    (hsym : MagnonObj.Symmetric t) {spin : Atom → ℝ}
    (hnorm : ∀ a ∈ t.magneticAtoms order, ∀ v, spinVec a = some v → EnergyObj.norm3 v = spin a) (hlat : lat.det ≠ 0)
    (hH : ∀ k, (o.callH t.cell k).1.IsHermitian)
    (h : ∀ n k χ, Bloch lat k (cube (n + 1)) χ → (o.callH t.cell k).1.PosSemidef) (k : V3 ℝ) :
    (o.callH t.cell k).1.PosSemidef := by
  refine posSemidef_of_amps h2 hord (hH k) fun α β => ?_
  obtain ⟨u, hu, hb⟩ := exists_cubes hlat k
  have hc := ((form_continuous h2 hsym hnorm α β).tendsto k).comp hu
  refine ge_of_tendsto' hc fun n => ?_
  obtain ⟨χ, hχ⟩ := hb n
  exact (Complex.nonneg_iff.1 ((h n _ _ hχ).dotProduct_mulVec_nonneg _)).1

end

end Magnopy
