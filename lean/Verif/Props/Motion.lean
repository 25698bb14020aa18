import Verif.Lemmas.Motion
import Verif.Lemmas.DescribeSetup
import Verif.Props.Dispersion

/-!
# Property C76: the energies of magnons are the frequencies of the linearised equations of motion
-/

set_option autoImplicit false
set_option linter.unusedSectionVars false

namespace Magnopy

open PyDict Matrix Complex MagnonObj ComplexOrder Magnopy.Colpa

variable {order : List Atom → List Atom} {lat : M3 ℝ} {pos : Atom → V3 ℝ} {spinVec : Atom → Option (V3 ℝ)}
  {s : St ℝ} {o : MagnonObj} {t : St ℝ} {items : List (Bond × ℕ)} {Γ : Type} [AddCommGroup Γ] [Fintype Γ]

theorem LinearMotion.congr {s t : St ℝ} {spin : Atom → ℝ} (h : ∀ c : Config ℝ Γ, t.physics c spin = s.physics c spin)
    (atoms : List Atom) (c : ℝ → ℝ → Config ℝ Γ) : s.LinearMotion spin atoms c ↔ t.LinearMotion spin atoms c := by
  have hg : ∀ (c : Config ℝ Γ) g, s.Gradient spin c g ↔ t.Gradient spin c g := by
    intro c g
    unfold St.Gradient
    simp only [h]
  unfold St.LinearMotion
  simp only [hg]

theorem Stationary.congr {s t : St ℝ} {spin : Atom → ℝ} (h : ∀ c : Config ℝ Unit, t.physics c spin = s.physics c spin)
    (d : Atom → V3 ℝ) : s.Stationary spin d ↔ t.Stationary spin d := by
  unfold St.Stationary
  simp only [h]

theorem g_mulVec {N : ℕ} (x : Fin N ⊕ Fin N → ℂ) (i : Fin N) :
    ((Colpa.g : Mat N) *ᵥ x) (.inl i) = x (.inl i) ∧ ((Colpa.g : Mat N) *ᵥ x) (.inr i) = -x (.inr i) := by
  simp [Colpa.g, mulVec_diagonal]

/-- The equations of motion of the waves of an object. -/
theorem motion_core (hord : ∀ l, (order l).Perm l) (h : ObjSpec order lat pos spinVec s o t items) (hs : MagnonObj.Symmetric t)
    {spin : Atom → ℝ} (hspin : ∀ a ∈ t.magneticAtoms order, 0 < spin a)
    (hlen : ∀ a ∈ t.magneticAtoms order, ∀ v, spinVec a = some v → EnergyObj.norm3 v = spin a) {τ : Cell →+ Γ} {χ : Γ → ℂ}
    {k : V3 ℝ} (hw : PlaneWave lat k τ χ) (α β : Atom → ℂ) (ω : ℂ) :
    let frame : Atom → M3 ℝ := fun a => Frame.span ((spinVec a).getD 0)
    let X : Fin o.N ⊕ Fin o.N → ℂ := Sum.elim (fun i => (t.magneticAtoms order)[(i : ℕ)]?.elim 0 α)
      fun i => (t.magneticAtoms order)[(i : ℕ)]?.elim 0 β
    t.LinearMotion spin (t.magneticAtoms order)
        (fun ε T => wave lat pos frame spin τ χ k (oscillating α ω T) (oscillating β ω T) ε) ↔
      t.Stationary spin (fun a => frame a 2) ∧ (o.callH t.cell k).1 *ᵥ X = ω • (Colpa.g *ᵥ X) := by
  intro frame X
  have hview := Magnopy.ObjSpec.view h hord hs hspin hlen
  have hhand : ∀ a ∈ t.magneticAtoms order, RightHanded (frame a) := by
    intro a ha
    obtain ⟨i, rfl⟩ := atomAt_exists h hord ha
    exact hview.hand i
  have hunit : ∀ a ∈ t.magneticAtoms order, frame a 2 ⬝ᵥ frame a 2 = 1 := fun a ha => by
    simpa using (hhand a ha).ortho 2 2
  -- the state
  have hst : t.Stationary spin (fun a => frame a 2) ↔ ∀ a ∈ t.magneticAtoms order, ∀ n : Γ,
      ∃ c : ℝ, gr (likeItems t) spin τ (fun b _ => frame b 2) a n = c • frame a 2 := by
    rw [Magnopy.ObjSpec.stationary_iff h hord hs hspin hunit]
    constructor
    · intro hf a ha n
      obtain ⟨c, hc⟩ := hf a ha
      exact ⟨2 * spin a * c, by rw [field_zero, hc, smul_smul]⟩
    · intro hf a ha
      obtain ⟨c, hc⟩ := hf a ha 0
      refine ⟨(2 * spin a)⁻¹ * c, ?_⟩
      have h2 : 2 * spin a ≠ 0 := mul_ne_zero two_ne_zero (hspin a ha).ne'
      rw [field_zero] at hc
      rw [← smul_smul, ← hc, smul_smul, inv_mul_cancel₀ h2, one_smul]
  -- the amplitudes at the time `T`
  let XT : ℝ → Fin o.N ⊕ Fin o.N → ℂ := fun T => Sum.elim (fun i => (t.magneticAtoms order)[(i : ℕ)]?.elim 0 (oscillating α ω T))
    fun i => (t.magneticAtoms order)[(i : ℕ)]?.elim 0 (oscillating β ω T)
  have hXT : ∀ T, XT T = exp (-(I * ω * T)) • X := by
    intro T
    funext i
    rcases i with i | i <;> simp only [XT, X, Pi.smul_apply, Sum.elim_inl, Sum.elim_inr, atomAt_get h hord i, Option.elim, oscillating,
      smul_eq_mul] <;> ring
  have hX : ∀ i : Fin o.N, X (.inl i) = α (atomAt o (t.magneticAtoms order) i) ∧ X (.inr i) = β (atomAt o (t.magneticAtoms order) i) := by
    intro i
    simp only [X, Sum.elim_inl, Sum.elim_inr, atomAt_get h hord i, Option.elim, and_self]
  have hfirst : ∀ T i n, (∃ c : ℝ, gr (likeItems t) spin τ (fun b _ => frame b 2) (atomAt o (t.magneticAtoms order) i) n =
      c • frame (atomAt o (t.magneticAtoms order) i) 2) → _ := fun T i n =>
    Magnopy.ObjSpec.first_order h hord hs hspin hlen hw.toBloch (oscillating α ω T) (oscillating β ω T) ω i n
  have hpart : ∀ T, _ := fun T => motion_parts h.flags h.inv.nodup hs lat pos frame spin τ χ k α β ω (t.magneticAtoms order) T
  have hθ : ∀ a, atomPhase lat pos k a ≠ 0 := fun a => Complex.exp_ne_zero _
  constructor
  · intro hm
    have h0 := (hpart 0).1 (hm 0)
    have hstat : ∀ a ∈ t.magneticAtoms order, ∀ n : Γ,
        ∃ c : ℝ, gr (likeItems t) spin τ (fun b _ => frame b 2) a n = c • frame a 2 :=
      fun a ha n => ((hhand a ha).along _).1 (h0 a ha n).1
    refine ⟨hst.2 hstat, ?_⟩
    have hX0 : XT 0 = X := by rw [hXT]; simp
    have h2 : ∀ i : Fin o.N, ω * α (atomAt o (t.magneticAtoms order) i) - ((o.callH t.cell k).1 *ᵥ X) (.inl i) = 0 ∧
        ω * β (atomAt o (t.magneticAtoms order) i) + ((o.callH t.cell k).1 *ᵥ X) (.inr i) = 0 := by
      intro i
      refine hw.parts _ _ _ (hθ (atomAt o (t.magneticAtoms order) i)) fun n => ?_
      have h3 := (hfirst 0 i n (hstat _ (atomAt_mem h hord i) n)).1 (h0 _ (atomAt_mem h hord i) n).2
      rw [show (Sum.elim (fun i => (t.magneticAtoms order)[(i : ℕ)]?.elim 0 (oscillating α ω 0))
        (fun i => (t.magneticAtoms order)[(i : ℕ)]?.elim 0 (oscillating β ω 0)) : Fin o.N ⊕ Fin o.N → ℂ) = X from hX0] at h3
      simpa [oscillating] using h3
    funext i
    rcases i with i | i
    · rw [Pi.smul_apply, (g_mulVec X i).1, (hX i).1, smul_eq_mul]
      exact (sub_eq_zero.1 (h2 i).1).symm
    · rw [Pi.smul_apply, (g_mulVec X i).2, (hX i).2, smul_eq_mul, mul_neg]
      exact eq_neg_of_add_eq_zero_right (h2 i).2
  · rintro ⟨h1, h2⟩ T
    have hstat := hst.1 h1
    refine (hpart T).2 fun a ha n => ⟨((hhand a ha).along _).2 (hstat a ha n), ?_⟩
    obtain ⟨i, rfl⟩ := atomAt_exists h hord ha
    refine (hfirst T i n (hstat _ ha n)).2 ?_
    rw [show (Sum.elim (fun i => (t.magneticAtoms order)[(i : ℕ)]?.elim 0 (oscillating α ω T))
      (fun i => (t.magneticAtoms order)[(i : ℕ)]?.elim 0 (oscillating β ω T)) : Fin o.N ⊕ Fin o.N → ℂ) = _ from hXT T]
    have e1 := congrFun h2 (.inl i)
    have e2 := congrFun h2 (.inr i)
    rw [Pi.smul_apply, (g_mulVec X i).1, (hX i).1, smul_eq_mul] at e1
    rw [Pi.smul_apply, (g_mulVec X i).2, (hX i).2, smul_eq_mul] at e2
    rw [mulVec_smul, Pi.smul_apply, Pi.smul_apply, e1, e2]
    simp only [oscillating, smul_eq_mul]
    have e3 : ω * (α (atomAt o (t.magneticAtoms order) i) * exp (-(I * ω * T))) -
      exp (-(I * ω * T)) * (ω * α (atomAt o (t.magneticAtoms order) i)) = 0 := by ring
    have e4 : ω * (β (atomAt o (t.magneticAtoms order) i) * exp (-(I * ω * T))) +
      exp (-(I * ω * T)) * (ω * -β (atomAt o (t.magneticAtoms order) i)) = 0 := by ring
    rw [e3, e4, mul_zero, star_zero]

/-- The frames of an object are along the spins. -/
theorem frames_along (hord : ∀ l, (order l).Perm l) {spin : Atom → ℝ} (hr : MagnonReady order spinVec s spin)
    (h : ObjSpec order lat pos spinVec s o t items) (hs : MagnonObj.Symmetric t) (hat : t.magneticAtoms order = s.magneticAtoms order)
    (hspin : ∀ a ∈ t.magneticAtoms order, 0 < spin a)
    (hlen : ∀ a ∈ t.magneticAtoms order, ∀ v, spinVec a = some v → EnergyObj.norm3 v = spin a) :
    ∀ a ∈ s.magneticAtoms order, RightHanded (Frame.span ((spinVec a).getD 0)) ∧
      ∃ v d, spinVec a = some v ∧ Directs d v ∧ ∀ i, |Frame.span ((spinVec a).getD 0) 2 i - d i| ≤ 1 / 10 ^ 8 := by
  intro a ha
  obtain ⟨v, hv⟩ := Option.isSome_iff_exists.1 (hr.vectors a ha)
  have hv0 : v ≠ 0 := by
    rintro rfl
    have h0 := hlen a (hat ▸ ha) 0 hv
    have := hspin a (hat ▸ ha)
    rw [← h0] at this
    simp [EnergyObj.norm3] at this
  obtain ⟨f1, d, f2, _, f3⟩ := C42_frame v hv0
  simp only [hv, Option.getD_some]
  exact ⟨f1, v, d, rfl, f2, f3⟩

/-- Everything about a new object. -/
theorem motion_object (hord : ∀ l, (order l).Perm l) (lat : M3 ℝ) (pos : Atom → V3 ℝ) {spin : Atom → ℝ}
    (hr : MagnonReady order spinVec s spin) (hs : s.OnSiteSymmetric)
    (hlen : ∀ a ∈ s.magneticAtoms order, ∀ v, spinVec a = some v → spin a = Real.sqrt (v ⬝ᵥ v)) :
    let frame : Atom → M3 ℝ := fun a => Frame.span ((spinVec a).getD 0)
    ∃ o t items, init order lat pos spinVec s = (.ok o, t) ∧ ObjSpec order lat pos spinVec s o t items ∧
      St.Renoted Unit spin s t ∧ MagnonObj.Symmetric t ∧ t.magneticAtoms order = s.magneticAtoms order ∧
      (∀ a ∈ t.magneticAtoms order, 0 < spin a) ∧
      (∀ a ∈ s.magneticAtoms order, RightHanded (frame a) ∧
        ∃ v d, spinVec a = some v ∧ Directs d v ∧ ∀ i, |frame a 2 i - d i| ≤ 1 / 10 ^ 8) ∧
      ∀ (τ : Cell →+ Γ) (χ : Γ → ℂ) (k : V3 ℝ), PlaneWave lat k τ χ → ∀ (α β : Atom → ℂ) (ω : ℂ),
        let x : Fin o.N ⊕ Fin o.N → ℂ := Sum.elim (fun i => (s.magneticAtoms order)[(i : ℕ)]?.elim 0 α)
          fun i => (s.magneticAtoms order)[(i : ℕ)]?.elim 0 β
        s.LinearMotion spin (s.magneticAtoms order)
            (fun ε T => wave lat pos frame spin τ χ k (oscillating α ω T) (oscillating β ω T) ε) ↔
          s.Stationary spin (fun a => frame a 2) ∧ (o.callH t.cell k).1 *ᵥ x = ω • (Colpa.g *ᵥ x) := by
  intro frame
  obtain ⟨o, t, items, h1, h2, h3, hsym, hat, hpos, hnorm⟩ := magnon_setup hord lat pos hr hs hlen
  obtain ⟨o', t', items', h1', _, _, _, hphys⟩ := ready_setup hord lat pos hr
  rw [h1] at h1'
  simp only [Prod.mk.injEq, Except.ok.injEq] at h1'
  obtain ⟨_, rfl⟩ := h1'
  refine ⟨o, t, items, h1, h2, h3, hsym, hat, hpos, frames_along hord hr h2 hsym hat hpos hnorm, ?_⟩
  intro τ χ k hw α β ω
  have := motion_core hord h2 hsym hpos hnorm hw α β ω
  simp only at this ⊢
  rw [LinearMotion.congr (hphys Γ), Stationary.congr (hphys Unit), ← hat]
  exact this

/-- **C76, the equations of motion.** For a well-formed Hamiltonian in any notation, with spins of the lengths of the spin
vectors: a travelling wave with the wave vector `k`, whose amplitudes oscillate with the frequency `ω`, obeys the equations of
motion of Landau and Lifshitz of all magnetic atoms of all cells, up to first order in the amplitudes, if and only if the
state without wave is a stationary point of the energy and the amplitudes `x` solve `h(k) x = ω g x` with
`g = diag(1, …, 1, -1, …, -1)`.  The derivatives of the energy are those of the classical energy of the Hamiltonian of the user
by the components of the spins. -/
theorem C76_motion (hord : ∀ l, (order l).Perm l) (lat : M3 ℝ) (pos : Atom → V3 ℝ) {spin : Atom → ℝ}
    (hr : MagnonReady order spinVec s spin) (hs : s.OnSiteSymmetric)
    (hlen : ∀ a ∈ s.magneticAtoms order, ∀ v, spinVec a = some v → spin a = Real.sqrt (v ⬝ᵥ v)) :
    ∃ o t, ∃ frame : Atom → M3 ℝ, init order lat pos spinVec s = (.ok o, t) ∧ o.N = (s.magneticAtoms order).length ∧
      (∀ a ∈ s.magneticAtoms order, RightHanded (frame a) ∧
        ∃ v d, spinVec a = some v ∧ Directs d v ∧ ∀ i, |frame a 2 i - d i| ≤ 1 / 10 ^ 8) ∧
      ∀ (τ : Cell →+ Γ) (χ : Γ → ℂ) (k : V3 ℝ), PlaneWave lat k τ χ → ∀ (α β : Atom → ℂ) (ω : ℂ),
        let x : Fin o.N ⊕ Fin o.N → ℂ := Sum.elim (fun i => (s.magneticAtoms order)[(i : ℕ)]?.elim 0 α)
          fun i => (s.magneticAtoms order)[(i : ℕ)]?.elim 0 β
        s.LinearMotion spin (s.magneticAtoms order)
            (fun ε T => wave lat pos frame spin τ χ k (oscillating α ω T) (oscillating β ω T) ε) ↔
          s.Stationary spin (fun a => frame a 2) ∧ (o.callH t.cell k).1 *ᵥ x = ω • (Colpa.g *ᵥ x) := by
  obtain ⟨o, t, items, h1, h2, _, _, hat, _, h3, h4⟩ := motion_object (Γ := Γ) hord lat pos hr hs hlen
  exact ⟨o, t, _, h1, by rw [h2.N, hat], h3, h4⟩

/-- The reported energies are the eigenvalues with eigenvectors. -/
theorem reported_iff {N : ℕ} {chol : Mat N → Option (Mat N)} {eig : Mat N → (Fin N ⊕ Fin N → ℂ) × Mat N}
    {sort : (Fin N ⊕ Fin N → ℂ) → Equiv.Perm (Fin N ⊕ Fin N)} (hchol : IsCholesky chol) (heig : IsEig eig) (hsort : IsSort sort)
    {D : Mat N} (hD : D.PosDef) (junk : Mat N) (z im : Bool) {ω : ℝ} (hω : 1 / 10 ^ 8 < ω) :
    some (ω : ℂ) ∈ (omegaOf (Colpa.solve chol eig sort) junk z false im D).1 ↔
      ∃ x : Fin N ⊕ Fin N → ℂ, x ≠ 0 ∧ D *ᵥ x = (ω : ℂ) • (Colpa.g *ᵥ x) := by
  classical
  have hω0 : 0 < ω := lt_trans (by norm_num) hω
  obtain ⟨E, G, e1, w, e2, _, e3⟩ := solve_positive hchol heig hsort hD
  obtain ⟨E', G', e4, e5⟩ := C43_positive hchol heig hsort D junk hD z false im
  rw [e1] at e4
  simp only [Option.some.injEq, Prod.mk.injEq] at e4
  obtain ⟨rfl, _⟩ := e4
  rw [e5]
  have h1 : some (ω : ℂ) ∈ (energyArray E false) ↔ ∃ i, w i = ω := by
    simp only [energyArray, Bool.false_eq_true, if_false, List.append_nil, List.mem_map, List.mem_finRange, true_and,
      Option.some.injEq, e2]
    constructor
    · rintro ⟨i, hi⟩
      refine ⟨i, ?_⟩
      unfold round8 at hi
      split_ifs at hi with hc
      · have : ω = 0 := by exact_mod_cast hi.symm
        exact absurd this hω0.ne'
      · exact_mod_cast hi
    · rintro ⟨i, hi⟩
      refine ⟨i, ?_⟩
      unfold round8
      rw [hi, if_neg]
      rw [Complex.norm_real, Real.norm_of_nonneg hω0.le, not_le]
      exact hω
  have h2 : (∃ i, w i = ω) ↔ (ω : ℂ) ∈ (Colpa.g * D).charpoly.roots.filter fun x : ℂ => 0 < x := by
    rw [← e3, Multiset.mem_map]
    simp
  have hg : ∀ x : Fin N ⊕ Fin N → ℂ, (Colpa.g : Mat N) *ᵥ ((Colpa.g : Mat N) *ᵥ x) = x := by
    intro x
    funext i
    rcases i with i | i
    · rw [(g_mulVec _ i).1, (g_mulVec _ i).1]
    · rw [(g_mulVec _ i).2, (g_mulVec _ i).2, neg_neg]
  rw [h1, h2, Multiset.mem_filter]
  constructor
  · rintro ⟨h3, _⟩
    obtain ⟨x, hx, h4⟩ := exists_eigenvector h3
    refine ⟨x, hx, ?_⟩
    rw [← mulVec_mulVec] at h4
    have := congrArg (fun y => (Colpa.g : Mat N) *ᵥ y) h4
    simp only [hg, mulVec_smul] at this
    exact this
  · rintro ⟨x, hx, h4⟩
    refine ⟨?_, by exact_mod_cast hω0⟩
    rw [Polynomial.mem_roots (charpoly_monic _).ne_zero, Polynomial.IsRoot.def, Matrix.eval_charpoly]
    refine Matrix.exists_mulVec_eq_zero_iff.1 ⟨x, hx, ?_⟩
    rw [sub_mulVec, sub_eq_zero, ← mulVec_mulVec, h4, mulVec_smul, hg]
    funext i
    simp [Matrix.scalar_apply, mulVec_diagonal]

/-- Reported energies, from the equations of motion. -/
theorem reported_of_motion (hord : ∀ l, (order l).Perm l) {spin : Atom → ℝ} {frame : Atom → M3 ℝ}
    (h2 : o.N = (s.magneticAtoms order).length) {τ : Cell →+ Γ} {χ : Γ → ℂ} {k : V3 ℝ}
    (h4 : ∀ (α β : Atom → ℂ) (ω : ℂ),
        let x : Fin o.N ⊕ Fin o.N → ℂ := Sum.elim (fun i => (s.magneticAtoms order)[(i : ℕ)]?.elim 0 α)
          fun i => (s.magneticAtoms order)[(i : ℕ)]?.elim 0 β
        s.LinearMotion spin (s.magneticAtoms order)
            (fun ε T => wave lat pos frame spin τ χ k (oscillating α ω T) (oscillating β ω T) ε) ↔
          s.Stationary spin (fun a => frame a 2) ∧ (o.callH t.cell k).1 *ᵥ x = ω • (Colpa.g *ᵥ x))
    (hst : s.Stationary spin (fun a => frame a 2)) (hD : (o.callH t.cell k).1.PosDef) {chol eig sort} (hc : IsCholesky chol)
    (he : IsEig eig) (hso : IsSort sort) (junk : Mat o.N) (z im : Bool) {ω : ℝ} (hω : 1 / 10 ^ 8 < ω) :
    some (ω : ℂ) ∈ (o.omega t.cell (Colpa.solve chol eig sort) junk z false im k).1.1 ↔
      ∃ α β : Atom → ℂ, (∃ a ∈ s.magneticAtoms order, α a ≠ 0 ∨ β a ≠ 0) ∧
        s.LinearMotion spin (s.magneticAtoms order)
          (fun ε T => wave lat pos frame spin τ χ k (oscillating α ω T) (oscillating β ω T) ε) := by
  simp only [omega]
  rw [reported_iff hc he hso hD junk z im hω]
  have hnd := St.magneticAtoms_nodup hord s
  constructor
  · rintro ⟨x, hx, e⟩
    let α : Atom → ℂ := fun a => if ha : (s.magneticAtoms order).idxOf a < o.N then x (.inl ⟨_, ha⟩) else 0
    let β : Atom → ℂ := fun a => if ha : (s.magneticAtoms order).idxOf a < o.N then x (.inr ⟨_, ha⟩) else 0
    have hi : ∀ i : Fin o.N, ∃ a ∈ s.magneticAtoms order, (s.magneticAtoms order)[(i : ℕ)]? = some a ∧ α a = x (.inl i) ∧
        β a = x (.inr i) := by
      intro i
      have hl : (i : ℕ) < (s.magneticAtoms order).length := by rw [← h2]; exact i.2
      refine ⟨(s.magneticAtoms order)[(i : ℕ)], List.getElem_mem _, List.getElem?_eq_getElem hl, ?_⟩
      have : (s.magneticAtoms order).idxOf (s.magneticAtoms order)[(i : ℕ)] = i := hnd.idxOf_getElem _ _
      simp only [α, β, this, i.2, dite_true, Fin.eta, and_self]
    have hx' : (Sum.elim (fun i => (s.magneticAtoms order)[(i : ℕ)]?.elim 0 α)
        (fun i => (s.magneticAtoms order)[(i : ℕ)]?.elim 0 β) : Fin o.N ⊕ Fin o.N → ℂ) = x := by
      funext i
      rcases i with i | i <;> obtain ⟨a, _, e1, e2, e3⟩ := hi i
      · rw [Sum.elim_inl, e1]; exact e2
      · rw [Sum.elim_inr, e1]; exact e3
    refine ⟨α, β, ?_, (h4 α β ω).2 ⟨hst, by rw [hx']; exact e⟩⟩
    obtain ⟨i, hi0⟩ := Function.ne_iff.1 hx
    rcases i with i | i <;> obtain ⟨a, ha, _, e2, e3⟩ := hi i
    · exact ⟨a, ha, Or.inl (by rw [e2]; exact hi0)⟩
    · exact ⟨a, ha, Or.inr (by rw [e3]; exact hi0)⟩
  · rintro ⟨α, β, ⟨a, ha, hne⟩, hm⟩
    refine ⟨_, ?_, ((h4 α β ω).1 hm).2⟩
    intro h0
    have hl : (s.magneticAtoms order).idxOf a < o.N := by rw [h2]; exact List.idxOf_lt_length_iff.2 ha
    have hget : (s.magneticAtoms order)[(s.magneticAtoms order).idxOf a]? = some a := List.getElem?_idxOf ha
    have e1 := congrFun h0 (.inl ⟨_, hl⟩)
    have e2 := congrFun h0 (.inr ⟨_, hl⟩)
    simp only [Sum.elim_inl, Sum.elim_inr, hget, Option.elim, Pi.zero_apply] at e1 e2
    exact hne.elim (fun h => h e1) fun h => h e2

/-- **C76, reported energies are frequencies.** If the state without waves is a stationary point of the energy and `h(k)` is
positive definite, then a number above 1e-8 is among the energies that `omega` reports for `k` if and only if it is the frequency
of a wave with the wave vector `k` that does not vanish and obeys the linearised equations of motion. -/
theorem C76_reported (hord : ∀ l, (order l).Perm l) (lat : M3 ℝ) (pos : Atom → V3 ℝ) {spin : Atom → ℝ}
    (hr : MagnonReady order spinVec s spin) (hs : s.OnSiteSymmetric)
    (hlen : ∀ a ∈ s.magneticAtoms order, ∀ v, spinVec a = some v → spin a = Real.sqrt (v ⬝ᵥ v)) :
    ∃ o t, ∃ frame : Atom → M3 ℝ, init order lat pos spinVec s = (.ok o, t) ∧
      (∀ a ∈ s.magneticAtoms order, RightHanded (frame a) ∧
        ∃ v d, spinVec a = some v ∧ Directs d v ∧ ∀ i, |frame a 2 i - d i| ≤ 1 / 10 ^ 8) ∧
      (s.Stationary spin (fun a => frame a 2) → ∀ (τ : Cell →+ Γ) (χ : Γ → ℂ) (k : V3 ℝ), PlaneWave lat k τ χ →
        (o.callH t.cell k).1.PosDef → ∀ chol eig sort, IsCholesky chol → IsEig eig → IsSort sort →
        ∀ (junk : Mat o.N) (z im : Bool) (ω : ℝ), 1 / 10 ^ 8 < ω →
          (some (ω : ℂ) ∈ (o.omega t.cell (Colpa.solve chol eig sort) junk z false im k).1.1 ↔
            ∃ α β : Atom → ℂ, (∃ a ∈ s.magneticAtoms order, α a ≠ 0 ∨ β a ≠ 0) ∧
              s.LinearMotion spin (s.magneticAtoms order)
                (fun ε T => wave lat pos frame spin τ χ k (oscillating α ω T) (oscillating β ω T) ε))) := by
  obtain ⟨o, t, frame, h1, h2, h3, h4⟩ := C76_motion (Γ := Γ) hord lat pos hr hs hlen
  exact ⟨o, t, frame, h1, h3, fun hst τ χ k hw hD chol eig sort hc he hso junk z im ω hω =>
    reported_of_motion hord h2 (h4 τ χ k hw) hst hD hc he hso junk z im hω⟩

/-- **C76, collinear spins.** For Hamiltonians of scalar products every collinear state is stationary. -/
theorem C76_collinear (hord : ∀ l, (order l).Perm l) (lat : M3 ℝ) (pos : Atom → V3 ℝ) {spin σ : Atom → ℝ} {d : V3 ℝ}
    (hr : MagnonReady order spinVec s spin) (hcol : CollinearSpins (s.magneticAtoms order) spinVec spin σ d) (hh : s.Heisenberg) :
    ∃ o t, ∃ frame : Atom → M3 ℝ, init order lat pos spinVec s = (.ok o, t) ∧
      (∀ a ∈ s.magneticAtoms order, RightHanded (frame a) ∧ ∀ i, |frame a 2 i - σ a * d i| ≤ 1 / 10 ^ 8) ∧
      s.Stationary spin (fun a => frame a 2) ∧
      ∀ (τ : Cell →+ Γ) (χ : Γ → ℂ) (k : V3 ℝ), PlaneWave lat k τ χ →
        (o.callH t.cell k).1.PosDef → ∀ chol eig sort, IsCholesky chol → IsEig eig → IsSort sort →
        ∀ (junk : Mat o.N) (z im : Bool) (ω : ℝ), 1 / 10 ^ 8 < ω →
          (some (ω : ℂ) ∈ (o.omega t.cell (Colpa.solve chol eig sort) junk z false im k).1.1 ↔
            ∃ α β : Atom → ℂ, (∃ a ∈ s.magneticAtoms order, α a ≠ 0 ∨ β a ≠ 0) ∧
              s.LinearMotion spin (s.magneticAtoms order)
                (fun ε T => wave lat pos frame spin τ χ k (oscillating α ω T) (oscillating β ω T) ε)) := by
  have hs : s.OnSiteSymmetric := by
    intro a m hm
    obtain ⟨j, rfl⟩ := hh.sites a m hm
    rw [transpose_smul, transpose_one]
  obtain ⟨f1, f2, f3, f4⟩ := hcol.frames
  have hnorm : ∀ v : V3 ℝ, EnergyObj.norm3 v = Real.sqrt (v ⬝ᵥ v) := by
    intro v
    rw [← norm3_sq, Real.sqrt_sq (show 0 ≤ EnergyObj.norm3 v from Real.sqrt_nonneg _)]
  have hlen : ∀ a ∈ s.magneticAtoms order, ∀ v, spinVec a = some v → spin a = Real.sqrt (v ⬝ᵥ v) :=
    fun a ha v hv => by rw [← hnorm, f1 a ha v hv]
  obtain ⟨o, t, items, h1, h2, h3, hsym, hat, hpos, h4, h5⟩ := motion_object (Γ := Γ) hord lat pos hr hs hlen
  have hst : s.Stationary spin (fun a => Frame.span ((spinVec a).getD 0) 2) := by
    have hunit : ∀ a ∈ t.magneticAtoms order, Frame.span ((spinVec a).getD 0) 2 ⬝ᵥ Frame.span ((spinVec a).getD 0) 2 = 1 :=
      fun a ha => by simpa using (f2 a (hat ▸ ha)).ortho 2 2
    rw [Stationary.congr fun c => h3.physics c, Magnopy.ObjSpec.stationary_iff h2 hord hsym hpos hunit]
    intro a ha
    have hsc : ∀ p ∈ likeItems t, ∃ r : ℝ, p.2 = r • 1 := by
      intro p hp
      obtain ⟨dd, n, e, f, hn, _⟩ := hr.complete
      rcases h3.like h2.flags hn hp with ⟨b, m, hm, _, e1⟩ | ⟨b, m, hm, ⟨_, e1⟩ | ⟨_, e1⟩⟩
      · obtain ⟨j, rfl⟩ := hh.sites b m hm
        exact ⟨_, by rw [e1, smul_smul]⟩
      · obtain ⟨j, rfl⟩ := hh.bonds b m hm
        exact ⟨_, by rw [e1, smul_smul]⟩
      · obtain ⟨j, rfl⟩ := hh.bonds b m hm
        exact ⟨_, by rw [e1, transpose_smul, transpose_one, smul_smul]⟩
    have hmem : ∀ p ∈ likeItems t, p.1.2.1 ∈ s.magneticAtoms order := fun p hp => hat ▸ (h2.like_atoms hp).2
    have hD : ∃ c : ℝ, ((likeItems t).map fun p => if p.1.1 = a then
        spin p.1.2.1 • p.2 *ᵥ Frame.span ((spinVec p.1.2.1).getD 0) 2 else 0).sum = c • Frame.span d 2 := by
      revert hsc hmem
      generalize likeItems t = l
      intro hsc hmem
      induction l with
      | nil => exact ⟨0, by simp⟩
      | cons p l ih =>
        obtain ⟨c, hc⟩ := ih (fun q hq => hsc q (List.mem_cons_of_mem _ hq)) fun q hq => hmem q (List.mem_cons_of_mem _ hq)
        obtain ⟨r, hr'⟩ := hsc p List.mem_cons_self
        rw [List.map_cons, List.sum_cons, hc]
        split_ifs
        · refine ⟨spin p.1.2.1 * (r * σ p.1.2.1) + c, ?_⟩
          rw [hr', f3 _ (hmem p List.mem_cons_self), smul_mulVec, one_mulVec, smul_smul, smul_smul, add_smul, mul_assoc]
        · exact ⟨c, by rw [zero_add]⟩
    obtain ⟨c, hc⟩ := hD
    have ha' : a ∈ s.magneticAtoms order := hat ▸ ha
    refine ⟨c * σ a, ?_⟩
    rw [hc, f3 a ha', smul_smul]
    rcases hcol.sign a ha' with e | e <;> rw [e] <;> simp
  refine ⟨o, t, fun a => Frame.span ((spinVec a).getD 0), h1, fun a ha => ⟨f2 a ha, fun i => ?_⟩, hst,
    fun τ χ k hw hD chol eig sort hc he hso junk z im ω hω =>
      reported_of_motion hord (by rw [h2.N, hat]) (h5 τ χ k hw) hst hD hc he hso junk z im hω⟩
  obtain ⟨d', e1, _, e2⟩ := (C42_frame d (isUnit3_ne_zero hcol.unit)).2
  have e3 : d' = d := directs_unique e1 ⟨hcol.unit, 1, one_pos, by rw [one_smul]⟩
  have e4 := e2 i
  rw [e3] at e4
  show |Frame.span ((spinVec a).getD 0) 2 i - σ a * d i| ≤ 1 / 10 ^ 8
  rw [f3 a ha, Pi.smul_apply, smul_eq_mul, ← mul_sub, abs_mul]
  rcases hcol.sign a ha with e | e <;> rw [e] <;> simpa using e4

/-! ### Example -/

open MagnonExample FerroExample HistoryExample WaveExample in
/-- C76: in the chain with normalised spins, double counting and the factor -3, waves over three cells with the wave vector
2π/3 obey the linearised equations of motion exactly for the frequency 9, which is the reported energy `6 (1 - cos(2π/3))`. -/
example : ∃ o t, ∃ frame : Atom → M3 ℝ, init id 1 (fun _ => 0) spinZ (st true true (-3) (-5) twice [(fe1, 2)]) = (.ok o, t) ∧
    (∀ i, |frame fe1 2 i - ![0, 0, 1] i| ≤ 1 / 10 ^ 8) ∧
    (∀ chol eig sort, IsCholesky chol → IsEig eig → IsSort sort → ∀ (junk : Mat o.N) (z im : Bool),
      (o.omega t.cell (Colpa.solve chol eig sort) junk z false im k3).1.1 = [some 9]) ∧
    ∀ ω : ℝ, 1 / 10 ^ 8 < ω → ((∃ α β : Atom → ℂ, (α fe1 ≠ 0 ∨ β fe1 ≠ 0) ∧
      (st true true (-3) (-5) twice [(fe1, 2)]).LinearMotion (fun _ => 2) [fe1] fun ε T => wave 1 (fun _ => 0) frame (fun _ => 2) row
        (fun n => ZMod.stdAddChar (N := 3) n) k3 (oscillating α ω T) (oscillating β ω T) ε) ↔ ω = 9) := by
  have hat : (st true true (-3) (-5) twice [(fe1, 2)]).magneticAtoms id = [fe1] := by
    show List.insertionSort (fun a b : Atom => a.index ≤ b.index)
      (List.dedup (twice.keys.flatMap (fun b => [b.1, b.2.1]) ++ keys [(fe1, 2)])) = _
    decide
  have hr := ready true (by norm_num : (-3 : ℝ) ≠ 0) (by norm_num : (-5 : ℝ) ≠ 0)
  have hcol : CollinearSpins ((st true true (-3) (-5) twice [(fe1, 2)]).magneticAtoms id) spinZ (fun _ => 2) (fun _ => 1)
      ![0, 0, 1] := ⟨z_unit, fun _ _ => Or.inl rfl, fun _ _ => two_pos, fun _ _ => by simp [spinZ]⟩
  have hh : (st true true (-3) (-5) twice [(fe1, 2)]).Heisenberg :=
    ⟨fun b m h => ⟨1, by obtain ⟨r, _, rfl⟩ := Option.map_eq_some_iff.1 h; rw [one_smul]; rfl⟩,
      fun b m h => ⟨1, by obtain ⟨r, _, rfl⟩ := Option.map_eq_some_iff.1 h; rw [one_smul]; rfl⟩⟩
  have hcos : Real.cos (2 * Real.pi / 3) = -1 / 2 := by
    rw [show 2 * Real.pi / 3 = Real.pi - Real.pi / 3 by ring, Real.cos_pi_sub, Real.cos_pi_div_three]
    norm_num
  have hE : (st true true (-3) (-5) twice [(fe1, 2)]).ferroEnergy 1 (fun _ => 0) (fun _ => 2) fe1 k3 = 9 := by
    simp [St.ferroEnergy, St.getNotation, st, St.exchangeItems, twice, weight, displacement, absolute, Cell.rel, dotProduct,
      Fin.sum_univ_three, Matrix.one_apply, k3, hcos]
    norm_num
  obtain ⟨o, t, frame, h1, h2, _, h3⟩ := C76_collinear (Γ := ZMod 3) (order := id) (fun _ => .refl _) 1 (fun _ => 0) hr hcol hh
  obtain ⟨o', t', h1', h4⟩ := C73_single (order := id) (fun _ => .refl _) 1 (fun _ => 0) hr hcol hh hat
  obtain ⟨o'', t'', a, h1'', h5, h6⟩ := ferro_object (order := id) (fun _ => .refl _) 1 (fun _ => 0) hr hcol hh
  rw [h1] at h1' h1''
  simp only [Prod.mk.injEq, Except.ok.injEq] at h1' h1''
  obtain ⟨rfl, rfl⟩ := h1'
  obtain ⟨rfl, rfl⟩ := h1''
  have h4' : ∀ chol eig sort, IsCholesky chol → IsEig eig → IsSort sort → ∀ (junk : Mat o.N) (z im : Bool),
      (o.omega t.cell (Colpa.solve chol eig sort) junk z false im k3).1.1 = [some 9] := by
    intro chol eig sort hc he hso junk z im
    rw [h4 k3 chol eig sort hc he hso junk z im, hE]
    simp [round8]
    norm_num
  refine ⟨o, t, frame, h1, fun i => ?_, h4', fun ω hω => ?_⟩
  · have := (h2 fe1 (by rw [hat]; simp)).2 i
    rwa [one_mul] at this
  · have hN : o.N = 1 := by simpa [hat] using congrArg List.length h5
    have hD : (o.callH t.cell k3).1.PosDef := by
      have : (o.callH t.cell k3).1 = diagonal fun _ => (9 : ℂ) := by
        rw [h6]
        have hM : (st true true (-3) (-5) twice [(fe1, 2)]).ferroMatrix 1 (fun _ => 0) (fun _ => 2) a k3 = diagonal fun _ => (9 : ℂ) := by
          ext i j
          have hij : i = j := Fin.ext (by omega)
          subst hij
          rw [ferroMatrix_single (fun _ => .refl _) 1 (fun _ => 0) hat two_pos (h5.trans hat) k3, hE]
          simp
        rw [hM, fromBlocks_diagonal]
        congr 1
        funext i
        rcases i with i | i <;> rfl
      rw [this]
      exact PosDef.diagonal fun _ => by norm_num
    obtain ⟨chol, hc⟩ := exists_chol (N := o.N)
    obtain ⟨eig, he, _⟩ := exists_eig (N := o.N)
    obtain ⟨sort, hso⟩ := exists_sort (N := o.N)
    have := h3 row _ k3 planeWave hD chol eig sort hc he hso 0 true true ω hω
    rw [h4' chol eig sort hc he hso, hat] at this
    simp only [List.mem_singleton, Option.some.injEq, exists_eq_left] at this
    rw [← this]
    norm_cast

end Magnopy
