import Verif.Lemmas.Strict
import Verif.Props.Minimum
import Verif.Props.Describe

/-!
# Property C90: positive definite magnon matrices and minima of the energy
-/

set_option autoImplicit false
set_option linter.unusedSectionVars false

namespace Magnopy

open PyDict Matrix Complex ComplexOrder MagnonObj

variable {order : List Atom → List Atom} {lat : M3 ℝ} {pos : Atom → V3 ℝ} {spinVec : Atom → Option (V3 ℝ)}
  {s : St ℝ} {o : MagnonObj} {t : St ℝ} {items : List (Bond × ℕ)}

/-- A firm minimum is a minimum. -/
theorem St.FirmMinimum.localMinimum {Γ : Type*} [AddCommGroup Γ] [Fintype Γ] {spin : Atom → ℝ} {l : List Atom} {d : Atom → V3 ℝ}
    {τ : Cell →+ Γ} (h : s.FirmMinimum spin l d τ) : s.LocalMinimum spin l d τ := by
  obtain ⟨c, hc, δ, hδ, h⟩ := h
  refine ⟨δ, hδ, fun σ hσ E0 E h0 h1 => le_trans ?_ (h σ hσ E0 E h0 h1)⟩
  refine le_add_of_nonneg_right (mul_nonneg hc.le (List.sum_nonneg fun x hx => ?_))
  obtain ⟨a, _, rfl⟩ := List.mem_map.1 hx
  refine Finset.sum_nonneg fun n _ => ?_
  simp only [dotProduct]
  exact Finset.sum_nonneg fun i _ => mul_self_nonneg _

/-- The energy of any small deviations is a polynomial. -/
theorem energy_deviations {Γ : Type*} [AddCommGroup Γ] [Fintype Γ] (hn : t.getNotation = .ok (true, false, 1, 1))
    (frame : Atom → M3 ℝ) {spin : Atom → ℝ} (hspin : ∀ p ∈ likeItems t, 0 < spin p.1.1 ∧ 0 < spin p.1.2.1) (τ : Cell →+ Γ)
    (z : Atom → Γ → ℂ) :
    ∃ E0 E1 E3 E4 : ℝ, ∀ ε : ℝ, t.physics ⟨τ, fun a n => tilted (frame a) (spin a) (z a n) ε⟩ spin =
      some (E0 + ε * E1 + ε ^ 2 * ((likeItems t).map (secondZ frame spin τ z)).sum + ε ^ 3 * E3 + ε ^ 4 * E4) := by
  let P := fun a => spin a • frame a 2
  let Q := fun a n => Real.sqrt (2 * spin a) • ((z a n).re • frame a 0 + (z a n).im • frame a 1)
  let W := fun a n => -(normSq (z a n)) • frame a 2
  refine ⟨((likeItems t).map fun p => ∑ n : Γ, bilin (P p.1.1) p.2 (P p.1.2.1)).sum,
    ((likeItems t).map fun p => ∑ n : Γ, (bilin (P p.1.1) p.2 (Q p.1.2.1 (n + τ p.1.2.2)) + bilin (Q p.1.1 n) p.2 (P p.1.2.1))).sum,
    ((likeItems t).map fun p => ∑ n : Γ, (bilin (Q p.1.1 n) p.2 (W p.1.2.1 (n + τ p.1.2.2)) +
      bilin (W p.1.1 n) p.2 (Q p.1.2.1 (n + τ p.1.2.2)))).sum,
    ((likeItems t).map fun p => ∑ n : Γ, bilin (W p.1.1 n) p.2 (W p.1.2.1 (n + τ p.1.2.2))).sum, fun ε => ?_⟩
  rw [energy_like hn, ← sum_expand]
  congr 2
  refine List.map_congr_left fun p hp => ?_
  simp only [secondZ, Finset.mul_sum, ← Finset.sum_add_distrib]
  refine Finset.sum_congr rfl fun n _ => ?_
  rw [tilted_parts _ (hspin p hp).1, tilted_parts _ (hspin p hp).2]
  exact bilin_expand _ _ _ _ _ _ _ _

/-- **C90 (all deviations).** For a well-formed Hamiltonian in any notation, with spins of the lengths of the spin vectors:
the second-order energy of any deviations `z` of the spins of a supercell (not only of waves, C59) is the sum of the forms of the
magnon matrices of all wave vectors of the supercell, `|Γ|/2 Σ xψ† h(kψ) xψ`, where `xψ` has the components of the deviations
along the wave.  So the matrices `h(k)` have the whole second-order energy of the crystal. -/
theorem C90_deviations (hord : ∀ l, (order l).Perm l) (lat : M3 ℝ) (pos : Atom → V3 ℝ) {spin : Atom → ℝ}
    (hr : MagnonReady order spinVec s spin) (hs : s.OnSiteSymmetric)
    (hlen : ∀ a ∈ s.magneticAtoms order, ∀ v, spinVec a = some v → spin a = Real.sqrt (v ⬝ᵥ v)) :
    ∃ o t, ∃ frame : Atom → M3 ℝ, init order lat pos spinVec s = (.ok o, t) ∧ o.N = (s.magneticAtoms order).length ∧
      (∀ a ∈ s.magneticAtoms order, RightHanded (frame a) ∧
        ∃ v d, spinVec a = some v ∧ Directs d v ∧ (OwnAxis v → frame a 2 = d) ∧ ∀ i, |frame a 2 i - d i| ≤ 1 / 10 ^ 8) ∧
      ∀ (Γ : Type) [AddCommGroup Γ] [Fintype Γ] (τ : Cell →+ Γ) (k : AddChar Γ ℂ → V3 ℝ),
        (∀ ψ : AddChar Γ ℂ, Bloch lat (k ψ) τ ψ) → ∀ z : Atom → Γ → ℂ,
        let factor : AddChar Γ ℂ → Atom → ℂ := fun ψ a => star (exp (I * ((k ψ ⬝ᵥ absolute lat (pos a) : ℝ) : ℂ)))
        let x : AddChar Γ ℂ → Fin o.N ⊕ Fin o.N → ℂ := fun ψ => Sum.elim
          (fun i => (s.magneticAtoms order)[(i : ℕ)]?.elim 0 fun a => component (z a) ψ * factor ψ a)
          fun i => (s.magneticAtoms order)[(i : ℕ)]?.elim 0 fun a => star (component (z a) (-ψ)) * factor ψ a
        ∃ E0 E1 E2 E3 E4 : ℝ, (∀ ε : ℝ, s.physics ⟨τ, fun a n => tilted (frame a) (spin a) (z a n) ε⟩ spin =
            some (E0 + ε * E1 + ε ^ 2 * E2 + ε ^ 3 * E3 + ε ^ 4 * E4)) ∧
          (E2 : ℂ) = Fintype.card Γ / 2 * ∑ ψ : AddChar Γ ℂ, star (x ψ) ⬝ᵥ ((o.callH t.cell (k ψ)).1 *ᵥ x ψ) := by
  obtain ⟨o, t, items, h1, h2, h3, hsym, hat, hpos, hnorm⟩ := magnon_setup hord lat pos hr hs hlen
  obtain ⟨o', t', items', h1', _, _, _, hphys⟩ := ready_setup hord lat pos hr
  rw [h1] at h1'
  simp only [Prod.mk.injEq, Except.ok.injEq] at h1'
  obtain ⟨_, rfl⟩ := h1'
  refine ⟨o, t, fun a => Frame.span ((spinVec a).getD 0), h1, by rw [h2.N, hat], frames_exact hord hr h2 hsym hat hpos hnorm,
    fun Γ _ _ τ k hk z => ?_⟩
  obtain ⟨E0, E1, E3, E4, hE⟩ := energy_deviations h2.flags (fun a => Frame.span ((spinVec a).getD 0)) (spin := spin)
    (fun p hp => ⟨hpos _ (h2.like_atoms hp).1, hpos _ (h2.like_atoms hp).2⟩) τ z
  refine ⟨E0, E1, _, E3, E4, fun ε => by rw [← hphys]; exact hE ε, ?_⟩
  rw [second_waves h2 hsym hpos hnorm hk z, hat]
  rfl

/-- **C90.** Under the same conditions and for lattice vectors that span the space, for every supercell: the state with
every spin along the third vector of its local frame is a firm minimum of the classical energy (close to it the energy grows at
least with the squares of the deviations) if and only if it is stationary and `h(k)` is positive definite for every wave vector
of the supercell. -/
theorem C90_firm (hord : ∀ l, (order l).Perm l) (lat : M3 ℝ) (pos : Atom → V3 ℝ) {spin : Atom → ℝ}
    (hr : MagnonReady order spinVec s spin) (hs : s.OnSiteSymmetric)
    (hlen : ∀ a ∈ s.magneticAtoms order, ∀ v, spinVec a = some v → spin a = Real.sqrt (v ⬝ᵥ v)) (hdet : lat.det ≠ 0) :
    ∃ o t, ∃ frame : Atom → M3 ℝ, init order lat pos spinVec s = (.ok o, t) ∧ o.N = (s.magneticAtoms order).length ∧
      (∀ a ∈ s.magneticAtoms order, RightHanded (frame a) ∧
        ∃ v d, spinVec a = some v ∧ Directs d v ∧ (OwnAxis v → frame a 2 = d) ∧ ∀ i, |frame a 2 i - d i| ≤ 1 / 10 ^ 8) ∧
      ∀ (Γ : Type) [AddCommGroup Γ] [Fintype Γ] (τ : Cell →+ Γ),
        s.FirmMinimum spin (s.magneticAtoms order) (fun a => frame a 2) τ ↔
          s.Stationary spin (fun a => frame a 2) ∧ ∀ k χ, Bloch lat k τ χ → (o.callH t.cell k).1.PosDef := by
  obtain ⟨o, t, items, h1, h2, h3, hsym, hat, hpos, hnorm⟩ := magnon_setup hord lat pos hr hs hlen
  obtain ⟨o', t', items', h1', _, _, _, hphys⟩ := ready_setup hord lat pos hr
  rw [h1] at h1'
  simp only [Prod.mk.injEq, Except.ok.injEq] at h1'
  obtain ⟨_, rfl⟩ := h1'
  have hfr := frames_along hord hr h2 hsym hat hpos hnorm
  have hhand : ∀ a ∈ t.magneticAtoms order, RightHanded (Frame.span ((spinVec a).getD 0)) := fun a ha => (hfr a (hat ▸ ha)).1
  have hH := C39_private hord hr.inv hr.wf.alloc h1 hsym
  refine ⟨o, t, fun a => Frame.span ((spinVec a).getD 0), h1, by rw [h2.N, hat], frames_exact hord hr h2 hsym hat hpos hnorm,
    fun Γ _ _ τ => ⟨fun hm => ⟨?_, fun k χ hb => ?_⟩, fun ⟨hst, hP⟩ => ?_⟩⟩
  · have hst := stationary_of_minimum h2 (d := fun a => Frame.span ((spinVec a).getD 0) 2) (spin := spin) (τ := τ)
      (fun a ha => by simpa using (hhand a ha).ortho 2 2) (hphys Γ) (hat ▸ hm.localMinimum)
    intro η hη
    obtain ⟨E0, E2, hE⟩ := hst η hη
    exact ⟨E0, E2, fun ε => by rw [← hphys]; exact hE ε⟩
  · exact posDef_of_firm hord h2 hsym hpos hnorm hhand (hphys Γ) (hat ▸ hm) (hH k) hb
  · have := firm_of_posDef h2 hsym hpos hnorm hhand hdet (hphys Γ) (h3.stationary hst) hP
    rw [hat] at this
    exact this

/-- **C90 (sufficient).** If the state is stationary and `h(k)` is positive definite for all `k`, then every supercell has a
neighbourhood of the state in which every other state has a higher energy. -/
theorem C90_isolated (hord : ∀ l, (order l).Perm l) (lat : M3 ℝ) (pos : Atom → V3 ℝ) {spin : Atom → ℝ}
    (hr : MagnonReady order spinVec s spin) (hs : s.OnSiteSymmetric)
    (hlen : ∀ a ∈ s.magneticAtoms order, ∀ v, spinVec a = some v → spin a = Real.sqrt (v ⬝ᵥ v)) (hdet : lat.det ≠ 0) :
    ∃ o t, ∃ frame : Atom → M3 ℝ, init order lat pos spinVec s = (.ok o, t) ∧ o.N = (s.magneticAtoms order).length ∧
      (∀ a ∈ s.magneticAtoms order, RightHanded (frame a) ∧
        ∃ v d, spinVec a = some v ∧ Directs d v ∧ (OwnAxis v → frame a 2 = d) ∧ ∀ i, |frame a 2 i - d i| ≤ 1 / 10 ^ 8) ∧
      (s.Stationary spin (fun a => frame a 2) → (∀ k, (o.callH t.cell k).1.PosDef) →
        ∀ (Γ : Type) [AddCommGroup Γ] [Fintype Γ] (τ : Cell →+ Γ), ∃ δ : ℝ, 0 < δ ∧ ∀ σ : Atom → Γ → V3 ℝ,
          (∀ a ∈ s.magneticAtoms order, ∀ n, σ a n ⬝ᵥ σ a n = 1 ∧ ∀ i, |σ a n i - frame a 2 i| ≤ δ) →
          (∃ a ∈ s.magneticAtoms order, ∃ n, σ a n ≠ frame a 2) →
          ∃ E0 E, s.physics (⟨τ, fun a _ => frame a 2⟩ : Config ℝ Γ) spin = some E0 ∧
            s.physics (⟨τ, σ⟩ : Config ℝ Γ) spin = some E ∧ E0 < E) := by
  obtain ⟨o, t, frame, h1, h2, h3, h4⟩ := C90_firm hord lat pos hr hs hlen hdet
  refine ⟨o, t, frame, h1, h2, h3, fun hst hP Γ _ _ τ => ?_⟩
  obtain ⟨c, hc, δ, hδ, h⟩ := (h4 Γ τ).2 ⟨hst, fun k _ _ => hP k⟩
  obtain ⟨dc, sn, ef, osf, hn, _⟩ := hr.complete
  refine ⟨δ, hδ, fun σ hσ hne => ?_⟩
  have hsome : ∀ c : Config ℝ Γ, ∃ E, s.physics c spin = some E := fun c => by
    simp only [St.physics, hn]
    exact ⟨_, rfl⟩
  obtain ⟨E0, e0⟩ := hsome ⟨τ, fun a _ => frame a 2⟩
  obtain ⟨E, e⟩ := hsome ⟨τ, σ⟩
  refine ⟨E0, E, e0, e, lt_of_lt_of_le ?_ (h σ hσ E0 E e0 e)⟩
  refine lt_add_of_pos_right _ (mul_pos hc ?_)
  obtain ⟨a, ha, n, hne⟩ := hne
  have hsq : ∀ u : V3 ℝ, 0 ≤ u ⬝ᵥ u := fun u => Finset.sum_nonneg fun i _ => mul_self_nonneg _
  have hz : 0 < (σ a n - frame a 2) ⬝ᵥ (σ a n - frame a 2) :=
    lt_of_le_of_ne (hsq _) fun e => hne (sub_eq_zero.1 (dotProduct_self_eq_zero.1 e.symm))
  have hsum : 0 < ∑ n, (σ a n - frame a 2) ⬝ᵥ (σ a n - frame a 2) :=
    lt_of_lt_of_le hz (Finset.single_le_sum (f := fun n => (σ a n - frame a 2) ⬝ᵥ (σ a n - frame a 2)) (fun m _ => hsq _)
      (Finset.mem_univ n))
  refine lt_of_lt_of_le hsum (List.single_le_sum (fun x hx => ?_) _ (List.mem_map.2 ⟨a, ha, rfl⟩))
  obtain ⟨b, _, rfl⟩ := List.mem_map.1 hx
  exact Finset.sum_nonneg fun n _ => hsq _

namespace FirmExample

open SiteExample HistoryExample

/-- One atom with the easy axis `z`. -/
theorem firm {Γ : Type} [AddCommGroup Γ] [Fintype Γ] (τ : Cell →+ Γ) {d : Atom → V3 ℝ} (hd : d fe1 = ![0, 0, 1]) :
    (st easy).FirmMinimum (fun _ => 1) [fe1] d τ := by
  refine ⟨1 / 2, by norm_num, 1 / 2, by norm_num, fun σ hσ E0 E h0 h => ?_⟩
  rw [physics] at h0 h
  have h0' := Option.some.inj h0
  have h' := Option.some.inj h
  rw [← h0', ← h']
  simp only [List.map_cons, List.map_nil, List.sum_cons, List.sum_nil, add_zero, hd, Finset.mul_sum, ← Finset.sum_add_distrib]
  refine Finset.sum_le_sum fun n _ => ?_
  obtain ⟨u, v⟩ := hσ fe1 (by simp) n
  have v2 := abs_le.1 (v 2)
  rw [hd] at v2
  simp [bilin_eq, easy, dotProduct, Fin.sum_univ_three, Matrix.mulVec, Matrix.vecHead, Matrix.vecTail] at u v2 ⊢
  nlinarith

theorem own : OwnAxis ![0, 0, 1] := by
  rintro d ⟨_, x, hx, h⟩
  refine Or.inr ⟨?_, ?_⟩
  · have := congrFun h 0
    simp at this
    rcases this with h | h
    · exact absurd h hx.ne'
    · exact h
  · have := congrFun h 1
    simp at this
    rcases this with h | h
    · exact absurd h hx.ne'
    · exact h

theorem up {d : V3 ℝ} (h : Directs d ![0, 0, 1]) : d = ![0, 0, 1] := by
  refine directs_unique h ⟨by simp [IsUnit3, dotProduct, Fin.sum_univ_three], 1, one_pos, ?_⟩
  funext i
  fin_cases i <;> simp

/-- A direction close to `z`. -/
noncomputable def near (u : ℝ) : V3 ℝ := ![2 * u / (1 + u ^ 2), 0, (1 - u ^ 2) / (1 + u ^ 2)]

theorem near_unit (u : ℝ) : near u ⬝ᵥ near u = 1 := by
  have : 1 + u ^ 2 ≠ 0 := by positivity
  simp [near, dotProduct, Fin.sum_univ_three]
  field_simp
  ring

theorem near_close {u : ℝ} (h0 : 0 ≤ u) (h1 : u ≤ 1) (i : Fin 3) : |near u i - ![0, 0, 1] i| ≤ 2 * u := by
  have h : 0 < 1 + u ^ 2 := by positivity
  fin_cases i
  · simp only [near, Fin.zero_eta, cons_val_zero, sub_zero]
    rw [abs_of_nonneg (by positivity), div_le_iff₀ h]
    nlinarith [mul_nonneg h0 (sq_nonneg u)]
  · simp [near, h0]
  · have e : near u 2 - ![(0 : ℝ), 0, 1] 2 = -(2 * u ^ 2 / (1 + u ^ 2)) := by
      simp [near]
      field_simp
      ring
    show |near u 2 - ![(0 : ℝ), 0, 1] 2| ≤ _
    rw [e, abs_neg, abs_of_nonneg (by positivity), div_le_iff₀ h]
    nlinarith [mul_nonneg h0 (sq_nonneg u)]

end FirmExample

open FirmExample SiteExample HistoryExample in
/-- C90: one atom with an easy axis and the spin along the axis is a firm minimum of every supercell; all `h(k)` of the cubes are
positive definite. -/
example : ∃ o t, init id 1 (fun _ => 0) (fun _ => some ![0, 0, 1]) (st easy) = (.ok o, t) ∧
    ∀ n k χ, Bloch 1 k (cube (n + 1)) χ → (o.callH t.cell k).1.PosDef := by
  obtain ⟨o, t, frame, h1, h2, h3, h4⟩ := C90_firm (order := id) (fun _ => .refl _) 1 (fun _ => 0)
    (ready easy (v := fun _ => some ![0, 0, 1]) fun _ => rfl)
    (symmetric (by ext i j; fin_cases i <;> fin_cases j <;> rfl))
    (fun a _ v hv => by
      obtain rfl : ![0, 0, 1] = v := Option.some.inj hv
      simp [dotProduct, Fin.sum_univ_three]) (by simp)
  have hf : frame fe1 2 = ![0, 0, 1] := by
    obtain ⟨_, v, d, e1, e2, e3, _⟩ := h3 fe1 (by rw [atoms]; simp)
    obtain rfl : ![0, 0, 1] = v := Option.some.inj e1
    rw [e3 own, up e2]
  refine ⟨o, t, h1, fun n => ((h4 _ (cube (n + 1))).1 ?_).2⟩
  rw [atoms]
  exact firm _ hf

open FirmExample SiteExample HistoryExample in
/-- C90: the premises of `C90_isolated` hold for the same atom, with `h(k)` positive definite for all `k`. -/
example {Γ : Type} [AddCommGroup Γ] [Fintype Γ] (τ : Cell →+ Γ) : ∃ δ : ℝ, 0 < δ ∧ ∀ σ : Atom → Γ → V3 ℝ,
    (∀ n, σ fe1 n ⬝ᵥ σ fe1 n = 1 ∧ ∀ i, |σ fe1 n i - ![0, 0, 1] i| ≤ δ) → (∃ n, σ fe1 n ≠ ![0, 0, 1]) →
      -(Fintype.card Γ : ℝ) < ∑ n, bilin (σ fe1 n) easy (σ fe1 n) := by
  have hes : easyᵀ = easy := by ext i j; fin_cases i <;> fin_cases j <;> rfl
  have hlen : ∀ a ∈ (st easy).magneticAtoms id, ∀ v : V3 ℝ, some ![0, 0, 1] = some v → (1 : ℝ) = Real.sqrt (v ⬝ᵥ v) :=
    fun a _ v hv => by
      obtain rfl : ![0, 0, 1] = v := Option.some.inj hv
      simp [dotProduct, Fin.sum_univ_three]
  obtain ⟨o, t, frame, h1, h2, h3, h4⟩ := C90_isolated (order := id) (fun _ => .refl _) 1 (fun _ => 0)
    (ready easy (v := fun _ => some ![0, 0, 1]) fun _ => rfl) (symmetric hes) hlen (by simp)
  obtain ⟨o1, t1, e1, e2⟩ := mode hes norm3_z span_z 1 fun _ => 0
  rw [h1] at e1
  simp only [Prod.mk.injEq, Except.ok.injEq] at e1
  obtain ⟨rfl, rfl⟩ := e1
  have hf : frame fe1 2 = ![0, 0, 1] := by
    obtain ⟨_, v, d, e1, e2, e3, _⟩ := h3 fe1 (by rw [atoms]; simp)
    obtain rfl : ![0, 0, 1] = v := Option.some.inj e1
    rw [e3 own, up e2]
  have hst : (st easy).Stationary (fun _ => 1) fun a => frame a 2 := by
    intro η hη
    have h : η fe1 ⬝ᵥ frame fe1 2 = 0 := hη fe1
    rw [hf] at h
    simp [dotProduct, Fin.sum_univ_three] at h
    refine ⟨-1, 0, fun ε => ?_⟩
    rw [physics]
    simp [uniform, hf, bilin_eq, easy, dotProduct, Fin.sum_univ_three, Matrix.mulVec, Matrix.vecHead, Matrix.vecTail, h]
  have d1 : easy 0 0 = 0 ∧ easy 1 1 = 0 ∧ easy 2 2 = -1 ∧ easy 0 1 = 0 := by simp [easy]
  obtain ⟨δ, hδ, h⟩ := h4 hst (fun k => (e2 k).posDef_iff.2 (by rw [d1.1, d1.2.1, d1.2.2.1, d1.2.2.2]; norm_num [normSq_apply])) Γ τ
  refine ⟨δ, hδ, fun σ hσ ⟨n, hn⟩ => ?_⟩
  obtain ⟨E0, E, q0, q1, q2⟩ := h σ (by rw [atoms]; simpa [hf] using hσ) ⟨fe1, by rw [atoms]; simp, n, by rw [hf]; exact hn⟩
  rw [physics] at q0 q1
  rw [← Option.some.inj q0, ← Option.some.inj q1] at q2
  refine lt_of_eq_of_lt ?_ q2
  simp [hf, bilin_eq, easy, dotProduct, Fin.sum_univ_three, Matrix.mulVec, Matrix.vecHead, Matrix.vecTail]

open FirmExample MinimumExample HistoryExample FerroExample MagnonExample in
/-- **A minimum need not be firm.** The isotropic ferromagnetic chain is a minimum in every supercell (all `h(k)` are positive
semidefinite, C89), but not a firm one: all spins together can be turned without energy.  So C90 needs its stronger premise. -/
theorem C90_not_every_minimum {Γ : Type} [AddCommGroup Γ] [Fintype Γ] (τ : Cell →+ Γ) :
    (st true true (-3) (-5) twice [(fe1, 2)]).LocalMinimum (fun _ => 2) [fe1] (fun _ => ![0, 0, 1]) τ ∧
      ¬ (st true true (-3) (-5) twice [(fe1, 2)]).FirmMinimum (fun _ => 2) [fe1] (fun _ => ![0, 0, 1]) τ := by
  refine ⟨ferro_minimum τ rfl, fun ⟨c, hc, δ, hδ, h⟩ => ?_⟩
  have hu0 : 0 < min 1 (δ / 2) := lt_min one_pos (half_pos hδ)
  have hu1 : min 1 (δ / 2) ≤ 1 := min_le_left _ _
  have hu2 : 2 * min 1 (δ / 2) ≤ δ := by linarith [min_le_right 1 (δ / 2)]
  generalize min 1 (δ / 2) = u at hu0 hu1 hu2
  have hz : (![0, 0, 1] : V3 ℝ) ⬝ᵥ ![0, 0, 1] = 1 := by simp [dotProduct, Fin.sum_univ_three]
  have key := h (fun _ _ => near u) (fun _ _ _ => ⟨near_unit u, fun i => (near_close hu0.le hu1 i).trans hu2⟩) _ _
    (energy (-3) τ (fun _ _ => ![0, 0, 1]) fun _ => hz) (energy (-3) τ (fun _ _ => near u) fun _ => near_unit u)
  simp only [hz, near_unit, List.map_cons, List.map_nil, List.sum_cons, List.sum_nil, add_zero, Finset.sum_const, Finset.card_univ,
    nsmul_eq_mul] at key
  have hcard : (0 : ℝ) < Fintype.card Γ := by exact_mod_cast Fintype.card_pos
  have hp : 0 < (near u - ![0, 0, 1]) ⬝ᵥ (near u - ![0, 0, 1]) := by
    have e : (near u - ![0, 0, 1]) ⬝ᵥ (near u - ![0, 0, 1]) = 2 - 2 * near u 2 := by
      have := near_unit u
      simp [dotProduct, Fin.sum_univ_three] at this ⊢
      linarith
    have e2 : near u 2 < 1 := by
      simp only [near, cons_val]
      rw [div_lt_one (by positivity)]
      nlinarith
    rw [e]
    linarith
  nlinarith [mul_pos hc (mul_pos hcard hp)]

end Magnopy
