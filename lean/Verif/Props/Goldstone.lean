import Verif.Lemmas.Collinear
import Verif.Props.Omega

/-!
# Properties C69 and C70: zero modes and stable states

C69: if a Hamiltonian is invariant under rotations about an axis, a rotation of all spins of a stationary state costs no
energy, and the magnon with `k = 0` has the energy zero.  C70: in a collinear state that all bonds favour, `h(k)` is
positive semidefinite.
-/

set_option autoImplicit false
set_option linter.unusedSectionVars false

namespace Magnopy

open PyDict Matrix Complex MagnonObj ComplexOrder Magnopy.Colpa

variable {order : List Atom → List Atom} {lat : M3 ℝ} {pos : Atom → V3 ℝ} {spinVec : Atom → Option (V3 ℝ)}
  {s : St ℝ} {o : MagnonObj} {t : St ℝ} {items : List (Bond × ℕ)}

/-- What is known of a new object and its private Hamiltonian. -/
theorem magnon_setup (hord : ∀ l, (order l).Perm l) (lat : M3 ℝ) (pos : Atom → V3 ℝ) {spin : Atom → ℝ}
    (hr : MagnonReady order spinVec s spin) (hs : s.OnSiteSymmetric)
    (hlen : ∀ a ∈ s.magneticAtoms order, ∀ v, spinVec a = some v → spin a = Real.sqrt (v ⬝ᵥ v)) :
    ∃ o t items, init order lat pos spinVec s = (.ok o, t) ∧ ObjSpec order lat pos spinVec s o t items ∧
      St.Renoted Unit spin s t ∧ MagnonObj.Symmetric t ∧ t.magneticAtoms order = s.magneticAtoms order ∧
      (∀ a ∈ t.magneticAtoms order, 0 < spin a) ∧
      ∀ a ∈ t.magneticAtoms order, ∀ v, spinVec a = some v → EnergyObj.norm3 v = spin a := by
  obtain ⟨o, t, items, h1, h2, h3⟩ := hr.ok (Γ := Unit) hord lat pos
  have hat := h3.magneticAtoms (order := order) hord hr.wf hr.complete
  have hsym := h3.symmetric hr.complete hs (St.getNotation_ok_iff.1 h2.flags).1
  have hmem : ∀ a ∈ s.magneticAtoms order, a ∈ s.atoms := by
    intro a ha
    rw [EnergyObj.mem_magneticAtoms hord] at ha
    rcases ha with ⟨b, hb, rfl | rfl⟩ | ha
    · exact (hr.wf.refer.exch b hb).1
    · exact (hr.wf.refer.exch b hb).2
    · exact hr.wf.refer.site a ha
  have hnorm : ∀ v : V3 ℝ, EnergyObj.norm3 v = Real.sqrt (v ⬝ᵥ v) := by
    intro v
    rw [← norm3_sq, Real.sqrt_sq (show 0 ≤ EnergyObj.norm3 v from Real.sqrt_nonneg _)]
  refine ⟨o, t, items, h1, h2, h3, hsym, hat, fun a ha => ?_, fun a ha v hv => ?_⟩
  · rw [hat] at ha
    obtain ⟨v, hv⟩ := Option.isSome_iff_exists.1 (hr.vectors a ha)
    have h0 := (hr.spins a (hmem a ha)).2
    rw [hlen a ha v hv] at h0 ⊢
    exact lt_of_le_of_ne (Real.sqrt_nonneg _) (Ne.symm h0)
  · rw [hat] at ha
    rw [hnorm, hlen a ha v hv]

theorem St.Renoted.stationary {spin : Atom → ℝ} (h : St.Renoted Unit spin s t) {d : Atom → V3 ℝ}
    (hd : s.Stationary spin d) : t.Stationary spin d := by
  intro η hη
  obtain ⟨E0, E2, hE⟩ := hd η hη
  exact ⟨E0, E2, fun ε => by rw [h.physics]; exact hE ε⟩

theorem turn_tilted (n : V3 ℝ) {e : M3 ℝ} (h : RightHanded e) {S : ℝ} (hS : 0 < S) (ε : ℝ) :
    tilted e S (turn n e S + star (star (turn n e S))) ε =
      e 2 + ε • crossProduct n (e 2) - (ε ^ 2 * (normSq (2 * turn n e S) / S)) • e 2 := by
  have hz : turn n e S + star (star (turn n e S)) = 2 * turn n e S := by rw [star_star]; ring
  set w := crossProduct n (e 2) with hw
  have hperp : w ⬝ᵥ e 2 = 0 := Magnopy.MagnonObj.cross_perp n (e 2)
  have hre : (2 * turn n e S).re = Real.sqrt (S / 2) * (w ⬝ᵥ e 0) ∧ (2 * turn n e S).im = Real.sqrt (S / 2) * (w ⬝ᵥ e 1) := by
    have : 2 * turn n e S = ((Real.sqrt (S / 2) : ℝ) : ℂ) * (((w ⬝ᵥ e 0 : ℝ) : ℂ) + I * ((w ⬝ᵥ e 1 : ℝ) : ℂ)) := by
      unfold turn
      rw [show (2 : ℂ) * (((Real.sqrt (S / 2) : ℝ) : ℂ) / 2 * (cvec (crossProduct n (e 2)) ⬝ᵥ cu e)) =
        ((Real.sqrt (S / 2) : ℝ) : ℂ) * (cvec w ⬝ᵥ cu e) by rw [hw]; ring]
      congr 1
      simp only [dotProduct, cvec, cu, Fin.sum_univ_three]
      push_cast
      ring
    rw [this, Complex.re_ofReal_mul, Complex.im_ofReal_mul]
    constructor <;> simp
  have hsq : Real.sqrt (2 / S) * Real.sqrt (S / 2) = 1 := by
    rw [← Real.sqrt_mul (by positivity), show 2 / S * (S / 2) = 1 by field_simp, Real.sqrt_one]
  rw [hz, tilted, hre.1, hre.2]
  congr 2
  have hcomp : (w ⬝ᵥ e 0) • e 0 + (w ⬝ᵥ e 1) • e 1 = w := by
    funext d
    have key : ∀ c, w c * (e 0 c * e 0 d + e 1 c * e 1 d + e 2 c * e 2 d) = if c = d then w c else 0 := by
      intro c
      rw [h.columns c d]
      split_ifs <;> simp
    have hs : w 0 * (e 0 0 * e 0 d + e 1 0 * e 1 d + e 2 0 * e 2 d) + w 1 * (e 0 1 * e 0 d + e 1 1 * e 1 d + e 2 1 * e 2 d) +
        w 2 * (e 0 2 * e 0 d + e 1 2 * e 1 d + e 2 2 * e 2 d) = w d := by
      rw [key, key, key]
      fin_cases d <;> simp
    simp only [dotProduct, Fin.sum_univ_three] at hperp
    simp only [dotProduct, Fin.sum_univ_three, Pi.add_apply, Pi.smul_apply, smul_eq_mul]
    linear_combination hs - e 2 d * hperp
  rw [mul_smul _ _ (e 0), mul_smul _ _ (e 1), ← smul_add, hcomp, smul_smul, mul_assoc, hsq, mul_one]

theorem turn_ne_zero {n : V3 ℝ} {e : M3 ℝ} (h : RightHanded e) {S : ℝ} (hS : 0 < S) (hn : crossProduct n (e 2) ≠ 0) :
    turn n e S ≠ 0 := by
  intro h0
  have h1 := turn_tilted n h hS 1
  rw [h0] at h1
  simp only [tilted, star_zero, add_zero, Complex.zero_re, Complex.zero_im, mul_zero, map_zero, zero_div, zero_smul,
    smul_zero, sub_zero, one_smul] at h1
  exact hn (by simpa using h1)

/-- **C69, the mode.** For a well-formed Hamiltonian in any notation that is invariant under rotations about `n`, and
spins along a stationary point of the energy: `h(0)` annihilates the amplitudes `α` that turn all spins about `n`.  If
not all spins are along `n`, this mode is not zero, `h(0)` is not positive definite, and Colpa's method fails for it:
the energies for `k = 0` never come from the first of the four attempts of `omega`. -/
theorem C69_mode (hord : ∀ l, (order l).Perm l) (lat : M3 ℝ) (pos : Atom → V3 ℝ) {spin : Atom → ℝ}
    (hr : MagnonReady order spinVec s spin) (hs : s.OnSiteSymmetric)
    (hlen : ∀ a ∈ s.magneticAtoms order, ∀ v, spinVec a = some v → spin a = Real.sqrt (v ⬝ᵥ v)) {n : V3 ℝ}
    (hx : s.Axial n) :
    ∃ o t, ∃ frame : Atom → M3 ℝ, init order lat pos spinVec s = (.ok o, t) ∧ o.N = (s.magneticAtoms order).length ∧
      (∀ a ∈ s.magneticAtoms order, RightHanded (frame a) ∧
        ∃ v d, spinVec a = some v ∧ Directs d v ∧ ∀ i, |frame a 2 i - d i| ≤ 1 / 10 ^ 8) ∧
      (s.Stationary spin (fun a => frame a 2) → ∃ α : Atom → ℂ,
        (∀ a ∈ s.magneticAtoms order, ∃ c : ℝ, ∀ ε : ℝ, tilted (frame a) (spin a) (α a + star (star (α a))) ε =
          frame a 2 + ε • crossProduct n (frame a 2) - (ε ^ 2 * c) • frame a 2) ∧
        let x : Fin o.N ⊕ Fin o.N → ℂ := Sum.elim (fun i => (s.magneticAtoms order)[(i : ℕ)]?.elim 0 α)
          fun i => (s.magneticAtoms order)[(i : ℕ)]?.elim 0 fun a => star (α a)
        (o.callH t.cell 0).1 *ᵥ x = 0 ∧
        ((∃ a ∈ s.magneticAtoms order, crossProduct n (frame a 2) ≠ 0) → x ≠ 0 ∧ ¬ (o.callH t.cell 0).1.PosDef ∧
          ∀ chol eig sort, IsCholesky chol → Colpa.solve chol eig sort (o.callH t.cell 0).1 = none)) := by
  obtain ⟨o, t, items, h1, h2, h3, hsym, hat, hpos, hnorm⟩ := magnon_setup hord lat pos hr hs hlen
  have hview := Magnopy.ObjSpec.view h2 hord hsym hpos hnorm
  have hhand : ∀ a ∈ t.magneticAtoms order, RightHanded (Frame.span ((spinVec a).getD 0)) := by
    intro a ha
    obtain ⟨i, rfl⟩ := atomAt_exists h2 hord ha
    exact hview.hand i
  refine ⟨o, t, fun a => Frame.span ((spinVec a).getD 0), h1, by rw [h2.N, hat], fun a ha => ?_, fun hst => ?_⟩
  · refine ⟨hhand a (hat ▸ ha), ?_⟩
    obtain ⟨v, hv⟩ := Option.isSome_iff_exists.1 (hr.vectors a ha)
    have hv0 : v ≠ 0 := by
      rintro rfl
      have h0 := hnorm a (hat ▸ ha) 0 hv
      have := hpos a (hat ▸ ha)
      rw [← h0] at this
      simp [EnergyObj.norm3] at this
    obtain ⟨_, d, f2, _, f3⟩ := C42_frame v hv0
    simp only [hv, Option.getD_some]
    exact ⟨v, d, rfl, f2, f3⟩
  · rw [← hat]
    set frame : Atom → M3 ℝ := fun a => Frame.span ((spinVec a).getD 0) with hfr
    have hst' := h3.stationary hst
    have hunit : ∀ a ∈ t.magneticAtoms order, frame a 2 ⬝ᵥ frame a 2 = 1 := fun a ha => by
      simpa using (hhand a ha).ortho 2 2
    choose l hl using Magnopy.ObjSpec.field h2 hord hsym hpos hunit hst'
    have hker := hview.kernel hl fun i j x => total_commutes (hx.like hr.complete h3 h2.flags) _ _ x
    refine ⟨fun a => turn n (frame a) (spin a), fun a ha => ⟨_, turn_tilted n (hhand a ha) (hpos a ha)⟩, ?_, ?_⟩
    · rw [← hker]
      congr 1
      funext i
      rcases i with i | i <;> simp only [Sum.elim_inl, Sum.elim_inr, atomAt_get h2 hord i, Option.elim] <;> rfl
    · rintro ⟨a, ha, hna⟩
      have hx0 : (Sum.elim (fun i => (t.magneticAtoms order)[(i : ℕ)]?.elim 0 fun a => turn n (frame a) (spin a))
          (fun i => (t.magneticAtoms order)[(i : ℕ)]?.elim 0 fun a => star (turn n (frame a) (spin a))) :
          Fin o.N ⊕ Fin o.N → ℂ) ≠ 0 := by
        intro h0
        obtain ⟨i, hi⟩ := atomAt_exists h2 hord ha
        have := congrFun h0 (.inl i)
        simp only [Sum.elim_inl, atomAt_get h2 hord i, Option.elim, hi] at this
        exact turn_ne_zero (hhand a ha) (hpos a ha) hna this
      have hz : (o.callH t.cell 0).1 *ᵥ (Sum.elim (fun i => (t.magneticAtoms order)[(i : ℕ)]?.elim 0
          fun a => turn n (frame a) (spin a)) (fun i => (t.magneticAtoms order)[(i : ℕ)]?.elim 0
          fun a => star (turn n (frame a) (spin a)))) = 0 := by
        rw [← hker]
        congr 1
        funext i
        rcases i with i | i <;> simp only [Sum.elim_inl, Sum.elim_inr, atomAt_get h2 hord i, Option.elim] <;> rfl
      have hnp : ¬ (o.callH t.cell 0).1.PosDef := by
        intro hp
        have := hp.dotProduct_mulVec_pos hx0
        rw [hz, dotProduct_zero] at this
        exact lt_irrefl _ this
      refine ⟨hx0, hnp, fun chol eig sort hc => C41_failure hc _ ?_ hnp⟩
      exact C39_private hord hr.inv hr.wf.alloc h1 hsym 0

/-! ### When the lowest reported energy is zero -/

theorem omegaOf_semidef {N : ℕ} {chol : Mat N → Option (Mat N)} {eig : Mat N → (Fin N ⊕ Fin N → ℂ) × Mat N}
    {sort : (Fin N ⊕ Fin N → ℂ) → Equiv.Perm (Fin N ⊕ Fin N)} (hchol : IsCholesky chol) (heig : IsEig eig)
    (hsort : IsSort sort) {h : Mat N} (hh : h.PosSemidef) (hn : ¬ h.PosDef) (junk : Mat N) (z rg im : Bool) :
    ∃ e : Fin N ⊕ Fin N → ℝ,
      (omegaOf (Colpa.solve chol eig sort) junk z rg im h).1 = energyArray (fun i => (e i : ℂ)) rg ∧
      (∀ i : Fin N, 1 / 10 ^ 8 ≤ e (.inl i)) ∧ (∀ i j : Fin N, i ≤ j → e (.inl j) ≤ e (.inl i)) ∧
      ((∃ i : Fin N, e (.inl i) = 1 / 10 ^ 8) ↔ ∃ a : Fin N → ℂ, a ≠ 0 ∧ h *ᵥ Sum.elim a 0 = 0) := by
  obtain ⟨e, G, h1, h2, h3, h4⟩ := solve_shift hchol heig hsort hh (x := 1 / 10 ^ 8) (by norm_num)
  obtain ⟨E, G', h5, h6⟩ := C43_semidefinite hchol heig hsort h junk hh hn z rg im
  have he : h + (diagonal fun _ => 1 / 10 ^ 8) = shift h (1 / 10 ^ 8) := by simp [shift]
  rw [he, h1] at h5
  simp only [Option.some.injEq, Prod.mk.injEq] at h5
  obtain ⟨rfl, -⟩ := h5
  exact ⟨e, by rw [h6], h2, h3, h4⟩

theorem energyArray_get {N : ℕ} (e : Fin N ⊕ Fin N → ℝ) (rg : Bool) (i : Fin N) :
    (energyArray (fun i => (e i : ℂ)) rg)[(i : ℕ)]? = some (some (round8 (e (.inl i)))) := by
  unfold energyArray
  rw [List.getElem?_append_left (by simp), List.getElem?_map, List.getElem?_eq_getElem (by simp)]
  simp

theorem round8_pos {x : ℝ} (hx : 1 / 10 ^ 8 ≤ x) : round8 (x : ℂ) = 0 ↔ x = 1 / 10 ^ 8 := by
  have h0 : 0 < x := lt_of_lt_of_le (by norm_num) hx
  unfold round8
  rw [Complex.norm_real, Real.norm_of_nonneg h0.le]
  constructor
  · intro h
    split_ifs at h with hc
    · exact le_antisymm hc hx
    · exact absurd (Complex.ofReal_eq_zero.1 h) h0.ne'
  · intro h
    rw [if_pos h.le]

/-- **C69, exactly.** For a positive-semidefinite matrix that is not positive definite (as `h(0)` of C69 if the state is
stable): the lowest energy that `omega` reports is zero exactly if the matrix has a zero mode *without creation
operators*.  Otherwise the shift by 1e-8 moves it away from zero. -/
theorem C69_zero_iff {N : ℕ} {chol : Mat N → Option (Mat N)} {eig : Mat N → (Fin N ⊕ Fin N → ℂ) × Mat N}
    {sort : (Fin N ⊕ Fin N → ℂ) → Equiv.Perm (Fin N ⊕ Fin N)} (hchol : IsCholesky chol) (heig : IsEig eig)
    (hsort : IsSort sort) {h : Mat N} (hh : h.PosSemidef) (hn : ¬ h.PosDef) (junk : Mat N) (z rg im : Bool)
    (hN : 0 < N) :
    (omegaOf (Colpa.solve chol eig sort) junk z rg im h).1[N - 1]? = some (some 0) ↔
      ∃ a : Fin N → ℂ, a ≠ 0 ∧ h *ᵥ Sum.elim a 0 = 0 := by
  obtain ⟨e, h1, h2, h3, h4⟩ := omegaOf_semidef hchol heig hsort hh hn junk z rg im
  rw [h1, ← h4]
  have := energyArray_get e rg ⟨N - 1, by omega⟩
  simp only [] at this
  rw [this, Option.some.injEq, Option.some.injEq, round8_pos (h2 _)]
  constructor
  · exact fun h => ⟨_, h⟩
  · rintro ⟨i, hi⟩
    refine le_antisymm ?_ (h2 _)
    rw [← hi]
    refine h3 i _ ?_
    rw [Fin.le_def]
    have := i.2
    simp only
    omega

/-! ### Collinear states -/

/-- The state of a collinear magnet that all bonds favour: what is known of the object. -/
theorem collinear_setup (hord : ∀ l, (order l).Perm l) (lat : M3 ℝ) (pos : Atom → V3 ℝ) {spin σ : Atom → ℝ} {d : V3 ℝ}
    (hr : MagnonReady order spinVec s spin) (hcol : CollinearSpins (s.magneticAtoms order) spinVec spin σ d)
    (hu : s.Unfrustrated σ) :
    ∃ o t items, init order lat pos spinVec s = (.ok o, t) ∧ ObjSpec order lat pos spinVec s o t items ∧
      St.Renoted Unit spin s t ∧ MagnonObj.Symmetric t ∧ t.magneticAtoms order = s.magneticAtoms order ∧
      (∀ a ∈ t.magneticAtoms order, 0 < spin a) ∧
      (∀ a ∈ t.magneticAtoms order, ∀ v, spinVec a = some v → EnergyObj.norm3 v = spin a) ∧ Favours t σ := by
  have hs : s.OnSiteSymmetric := by
    intro a m hm
    obtain ⟨j, rfl⟩ := hu.sites a m hm
    rw [transpose_smul, transpose_one]
  have hlen : ∀ a ∈ s.magneticAtoms order, ∀ v, spinVec a = some v → spin a = Real.sqrt (v ⬝ᵥ v) := by
    intro a ha v hv
    rw [hcol.vec a ha] at hv
    cases hv
    have := norm3_signed hcol.unit (hcol.sign a ha) (hcol.pos a ha)
    rw [← norm3_sq, this, Real.sqrt_sq (hcol.pos a ha).le]
  obtain ⟨o, t, items, h1, h2, h3, h4, h5, h6, h7⟩ := magnon_setup hord lat pos hr hs hlen
  refine ⟨o, t, items, h1, h2, h3, h4, h5, h6, h7, hu.favours hr.complete h3 h2.flags fun b m hb => ?_⟩
  have hb' : b ∈ s.exch.keys := by rw [← St.isSome_valE_iff, hb]; rfl
  rw [h5] at h6
  exact ⟨h6 _ ((EnergyObj.mem_magneticAtoms hord _).2 (Or.inl ⟨b, hb', Or.inl rfl⟩)),
    h6 _ ((EnergyObj.mem_magneticAtoms hord _).2 (Or.inl ⟨b, hb', Or.inr rfl⟩))⟩

theorem collinear_posSemidef (hord : ∀ l, (order l).Perm l) {spin σ : Atom → ℝ} {d : V3 ℝ}
    (hr : MagnonReady order spinVec s spin) (hcol : CollinearSpins (t.magneticAtoms order) spinVec spin σ d)
    (h1 : init order lat pos spinVec s = (.ok o, t)) (h2 : ObjSpec order lat pos spinVec s o t items)
    (hsym : MagnonObj.Symmetric t) (hf : Favours t σ) (k : V3 ℝ) : (o.callH t.cell k).1.PosSemidef := by
  have hH := C39_private hord hr.inv hr.wf.alloc h1 hsym k
  refine .of_dotProduct_mulVec_nonneg hH fun x => ?_
  have him : (star x ⬝ᵥ ((o.callH t.cell k).1 *ᵥ x)).im = 0 := by
    have e : star (star x ⬝ᵥ ((o.callH t.cell k).1 *ᵥ x)) = star x ⬝ᵥ ((o.callH t.cell k).1 *ᵥ x) := by
      rw [← star_dotProduct_star, star_star, star_mulVec, hH.eq, dotProduct_mulVec, dotProduct_comm]
    exact Complex.conj_eq_iff_im.1 e
  let ix : Atom → ℕ := fun a => (t.magneticAtoms order).idxOf a
  let α : Atom → ℂ := fun a => if h : ix a < o.N then x (.inl ⟨ix a, h⟩) else 0
  let β : Atom → ℂ := fun a => if h : ix a < o.N then x (.inr ⟨ix a, h⟩) else 0
  have hix : ∀ i : Fin o.N, ix (atomAt o (t.magneticAtoms order) i) = i := fun i =>
    (idxOf_eq h2 hord (atomAt_mem h2 hord i) i).2 rfl
  have hX : x = Sum.elim (fun i : Fin o.N => (t.magneticAtoms order)[(i : ℕ)]?.elim 0 α)
      fun i : Fin o.N => (t.magneticAtoms order)[(i : ℕ)]?.elim 0 β := by
    funext i
    rcases i with i | i
    · simp only [Sum.elim_inl, atomAt_get h2 hord i, Option.elim, α, hix, i.2, dite_true, Fin.eta]
    · simp only [Sum.elim_inr, atomAt_get h2 hord i, Option.elim, β, hix, i.2, dite_true, Fin.eta]
  have := h2.form_nonneg hsym hcol hf k α β
  simp only [] at this
  rw [← hX] at this
  exact Complex.nonneg_iff.2 ⟨this, him.symm⟩

/-- What `omega` reports for a positive-semidefinite matrix. -/
theorem omega_of_posSemidef {N : ℕ} {chol : Mat N → Option (Mat N)} {eig : Mat N → (Fin N ⊕ Fin N → ℂ) × Mat N}
    {sort : (Fin N ⊕ Fin N → ℂ) → Equiv.Perm (Fin N ⊕ Fin N)} (hc : IsCholesky chol) (he : IsEig eig)
    (hso : IsSort sort) {D : Mat N} (hp : D.PosSemidef) (junk : Mat N) (z im : Bool) :
    ∃ w : Fin N → ℝ, (∀ i, 0 ≤ w i) ∧ (∀ i j, i ≤ j → w j ≤ w i) ∧
      (omegaOf (Colpa.solve chol eig sort) junk z false im D).1 = (List.finRange N).map fun i => some (w i : ℂ) := by
  have key : ∃ e : Fin N ⊕ Fin N → ℝ, (omegaOf (Colpa.solve chol eig sort) junk z false im D).1 =
      energyArray (fun i => (e i : ℂ)) false ∧ (∀ i : Fin N, 0 ≤ e (.inl i)) ∧
      ∀ i j : Fin N, i ≤ j → e (.inl j) ≤ e (.inl i) := by
    by_cases hpd : D.PosDef
    · obtain ⟨E, G, e1, e2⟩ := C43_positive hc he hso D junk hpd z false im
      obtain ⟨E', G', e3, e4⟩ := C41_energies hc he hso D hpd
      rw [e1] at e3
      simp only [Option.some.injEq, Prod.mk.injEq] at e3
      obtain ⟨rfl, -⟩ := e3
      refine ⟨fun i => (E i).re, ?_, fun i => (e4.pos _).le, e4.first⟩
      have hE : (fun i => (((E i).re : ℝ) : ℂ)) = E := funext fun i => e4.real i
      rw [e2, hE]
    · obtain ⟨e, e1, e2, e3, _⟩ := omegaOf_semidef hc he hso hp hpd junk z false im
      exact ⟨e, e1, fun i => le_trans (by norm_num) (e2 i), e3⟩
  obtain ⟨e, e1, e2, e3⟩ := key
  have hround : ∀ x : ℝ, 0 ≤ x → round8 (x : ℂ) = ((if x ≤ 1 / 10 ^ 8 then 0 else x : ℝ) : ℂ) := by
    intro x hx
    unfold round8
    rw [Complex.norm_real, Real.norm_of_nonneg hx]
    split_ifs <;> simp
  refine ⟨fun i => if e (.inl i) ≤ 1 / 10 ^ 8 then 0 else e (.inl i), fun i => ?_, fun i j hij => ?_, ?_⟩
  · dsimp only
    split_ifs
    · exact le_rfl
    · exact e2 i
  · have := e3 i j hij
    dsimp only
    split_ifs with c1 c2 c2
    · exact le_rfl
    · exact e2 i
    · exact absurd (this.trans c2) c1
    · exact this
  · rw [e1]
    simp only [energyArray, Bool.false_eq_true, if_false, List.append_nil]
    refine List.map_congr_left fun i _ => ?_
    rw [hround _ (e2 i)]

/-- **C70.** For a well-formed Hamiltonian of scalar products in any notation and collinear spins (of any lengths) whose
signs every bond favours: `h(k)` is positive semidefinite for every `k`.  Hence `omega` reports `N` non-negative numbers
in descending order for every `k`: never the substitute of zeros or NaNs, never energies of the opposite matrix. -/
theorem C70_stable (hord : ∀ l, (order l).Perm l) (lat : M3 ℝ) (pos : Atom → V3 ℝ) {spin σ : Atom → ℝ} {d : V3 ℝ}
    (hr : MagnonReady order spinVec s spin) (hcol : CollinearSpins (s.magneticAtoms order) spinVec spin σ d)
    (hu : s.Unfrustrated σ) :
    ∃ o t, init order lat pos spinVec s = (.ok o, t) ∧ o.N = (s.magneticAtoms order).length ∧
      ∀ k, (o.callH t.cell k).1.PosSemidef ∧
        ∀ chol eig sort, IsCholesky chol → IsEig eig → IsSort sort → ∀ (junk : Mat o.N) (z im : Bool),
          ∃ w : Fin o.N → ℝ, (∀ i, 0 ≤ w i) ∧ (∀ i j, i ≤ j → w j ≤ w i) ∧
            (o.omega t.cell (Colpa.solve chol eig sort) junk z false im k).1.1 =
              (List.finRange o.N).map fun i => some (w i : ℂ) := by
  obtain ⟨o, t, items, h1, h2, h3, hsym, hat, hpos, hnorm, hf⟩ := collinear_setup hord lat pos hr hcol hu
  refine ⟨o, t, h1, by rw [h2.N, hat], fun k => ?_⟩
  have hp := collinear_posSemidef hord hr (hat ▸ hcol) h1 h2 hsym hf k
  exact ⟨hp, fun chol eig sort hc he hso junk z im => omega_of_posSemidef hc he hso hp junk z im⟩

/-! ### The lowest energy of collinear states -/

theorem zero_of_sum {l : List ℝ} (h : ∀ x ∈ l, 0 ≤ x) (h0 : l.sum = 0) : ∀ x ∈ l, x = 0 := by
  intro x hx
  refine le_antisymm ?_ (h x hx)
  rw [← h0]
  exact List.single_le_sum h x hx

/-- The amplitudes of the atoms that belong to a vector. -/
theorem exists_amplitudes (h2 : ObjSpec order lat pos spinVec s o t items) (hord : ∀ l, (order l).Perm l)
    (x : Fin o.N → ℂ) : ∃ α : Atom → ℂ, x = fun i : Fin o.N => (t.magneticAtoms order)[(i : ℕ)]?.elim 0 α := by
  refine ⟨fun a => if h : (t.magneticAtoms order).idxOf a < o.N then x ⟨_, h⟩ else 0, ?_⟩
  funext i
  have hix := (idxOf_eq h2 hord (atomAt_mem h2 hord i) i).2 rfl
  simp only [atomAt_get h2 hord i, Option.elim, hix, i.2, dite_true, Fin.eta]

theorem collinear_not_posDef (h2 : ObjSpec order lat pos spinVec s o t items) (hord : ∀ l, (order l).Perm l)
    (hsym : MagnonObj.Symmetric t) {spin σ : Atom → ℝ} {d : V3 ℝ}
    (hcol : CollinearSpins (t.magneticAtoms order) spinVec spin σ d) (hf : Favours t σ) (hN : 0 < o.N) :
    ¬ (o.callH t.cell 0).1.PosDef := by
  obtain ⟨hlen, hhand, hthird, hdd⟩ := hcol.frames
  have hview := Magnopy.ObjSpec.view h2 hord hsym hcol.pos hlen
  have hR := (C42_frame d (isUnit3_ne_zero hcol.unit)).1
  choose r hr using fun a b => total_scalar hf a b
  have hm := atomAt_mem h2 hord
  have hsq : ∀ a ∈ t.magneticAtoms order, σ a * σ a = 1 := fun a ha => by
    rcases hcol.sign a ha with h | h <;> rw [h] <;> norm_num
  have hker := hview.kernel (n := Frame.span d 0)
    (l := fun i => (∑ j : Fin o.N, spin (atomAt o (t.magneticAtoms order) j) *
      (r (atomAt o (t.magneticAtoms order) i) (atomAt o (t.magneticAtoms order) j) *
        σ (atomAt o (t.magneticAtoms order) j))) * σ (atomAt o (t.magneticAtoms order) i)) (fun i => by
      simp only [hr, smul_mulVec, one_mulVec, hthird _ (hm _), smul_smul]
      rw [← Finset.sum_smul]
      congr 1
      rw [mul_assoc, hsq _ (hm i), mul_one]) (fun i j x => by
      simp only [hr, smul_mulVec, one_mulVec, map_smul])
  intro hp
  have hx0 : (Sum.elim (fun i => turn (Frame.span d 0) (Frame.span ((spinVec (atomAt o (t.magneticAtoms order) i)).getD 0))
      (spin (atomAt o (t.magneticAtoms order) i))) (star fun i => turn (Frame.span d 0)
        (Frame.span ((spinVec (atomAt o (t.magneticAtoms order) i)).getD 0)) (spin (atomAt o (t.magneticAtoms order) i))) :
      Fin o.N ⊕ Fin o.N → ℂ) ≠ 0 := by
    intro h0
    have h1 := congrFun h0 (.inl ⟨0, hN⟩)
    refine turn_ne_zero (hhand _ (hm ⟨0, hN⟩)) (hcol.pos _ (hm ⟨0, hN⟩)) ?_ h1
    rw [hthird _ (hm _), map_smul]
    intro h3
    rcases smul_eq_zero.1 h3 with h4 | h4
    · have := hsq _ (hm ⟨0, hN⟩)
      rw [h4] at this
      norm_num at this
    · rw [← cross_anticomm, hR.cycle.1, neg_eq_zero] at h4
      have := hR.ortho 1 1
      rw [h4] at this
      simp at this
  have := hp.dotProduct_mulVec_pos hx0
  rw [hker, dotProduct_zero] at this
  exact lt_irrefl _ this

/-- **C69, collinear states.** For a well-formed Hamiltonian of scalar products in any notation and collinear spins whose
signs every bond favours: `h(0)` is singular, and the lowest energy that `omega` reports for `k = 0` is zero exactly if
some group of magnetic atoms is not coupled to the other atoms and has parallel spins. -/
theorem C69_collinear (hord : ∀ l, (order l).Perm l) (lat : M3 ℝ) (pos : Atom → V3 ℝ) {spin σ : Atom → ℝ} {d : V3 ℝ}
    (hr : MagnonReady order spinVec s spin) (hcol : CollinearSpins (s.magneticAtoms order) spinVec spin σ d)
    (hu : s.Unfrustrated σ) (hne : s.magneticAtoms order ≠ []) :
    ∃ o t, init order lat pos spinVec s = (.ok o, t) ∧ (o.callH t.cell 0).1.det = 0 ∧
      ∀ chol eig sort, IsCholesky chol → IsEig eig → IsSort sort → ∀ (junk : Mat o.N) (z rg im : Bool),
        (o.omega t.cell (Colpa.solve chol eig sort) junk z rg im 0).1.1[o.N - 1]? = some (some 0) ↔
          ∃ P : Atom → Prop, (∃ a ∈ s.magneticAtoms order, P a) ∧
            ∀ b m, s.valE b = some m → m ≠ 0 → (P b.1 ↔ P b.2.1) ∧ (P b.1 → σ b.1 = σ b.2.1) := by
  obtain ⟨o, t, items, h1, h2, h3, hsym, hat, hpos, hnorm, hf⟩ := collinear_setup hord lat pos hr hcol hu
  have hcol' : CollinearSpins (t.magneticAtoms order) spinVec spin σ d := hat ▸ hcol
  have hN : 0 < o.N := by
    rw [h2.N, hat]
    exact List.length_pos_iff.2 hne
  have hp := collinear_posSemidef hord hr hcol' h1 h2 hsym hf 0
  have hn := collinear_not_posDef h2 hord hsym hcol' hf hN
  refine ⟨o, t, h1, ?_, fun chol eig sort hc he hso junk z rg im => ?_⟩
  · by_contra hdet
    exact hn (hp.posDef_iff_isUnit.2 ((isUnit_iff_isUnit_det _).2 (isUnit_iff_ne_zero.2 hdet)))
  show (omegaOf (Colpa.solve chol eig sort) junk z rg im (o.callH t.cell 0).1).1[o.N - 1]? = _ ↔ _
  rw [C69_zero_iff hc he hso hp hn junk z rg im hN]
  have hform := fun α => h2.form_terms hsym hcol'.frames.1 0 α fun _ => 0
  have hz : (fun i : Fin o.N => (t.magneticAtoms order)[(i : ℕ)]?.elim (0 : ℂ) fun _ => 0) = 0 := by
    funext i
    cases (t.magneticAtoms order)[(i : ℕ)]? <;> rfl
  simp only [] at hform
  simp only [hz] at hform
  have hatom : ∀ p ∈ likeItems t, p.1.1 ∈ t.magneticAtoms order ∧ p.1.2.1 ∈ t.magneticAtoms order := fun p hp =>
    h2.like_atoms hp
  have hsq : ∀ a ∈ t.magneticAtoms order, 0 < Real.sqrt (spin a / 2) := fun a ha =>
    Real.sqrt_pos.2 (by linarith [hpos a ha])
  constructor
  · rintro ⟨a, ha, hka⟩
    obtain ⟨α, rfl⟩ := exists_amplitudes h2 hord a
    have hsum : ((likeItems t).map (bondTerm lat pos (fun a => Frame.span ((spinVec a).getD 0)) spin 0 α fun _ => 0)).sum = 0 := by
      have := hform α
      rw [hka, dotProduct_zero, Complex.zero_re] at this
      linarith
    have hall : ∀ p ∈ likeItems t, bondTerm lat pos (fun a => Frame.span ((spinVec a).getD 0)) spin 0 α (fun _ => 0) p = 0 := by
      intro p hp
      exact zero_of_sum (by
        intro y hy
        obtain ⟨q, hq, rfl⟩ := List.mem_map.1 hy
        exact h2.bondTerm_nonneg hcol' hf 0 α _ hq) hsum _ (List.mem_map.2 ⟨p, hp, rfl⟩)
    have hlike : ∀ p ∈ likeItems t, p.2 ≠ 0 → (α p.1.1 ≠ 0 ↔ α p.1.2.1 ≠ 0) ∧ (α p.1.1 ≠ 0 → σ p.1.1 = σ p.1.2.1) := by
      intro p hp hp0
      obtain ⟨m1, m2⟩ := hatom p hp
      obtain ⟨x, hx, _⟩ := hf p hp
      have hx0 : x ≠ 0 := by
        rintro rfl
        exact hp0 (by rw [hx, zero_smul])
      have h5 := hall p hp
      rw [bondTerm_zero hcol' α m1 m2 hx] at h5
      have q1 := hsq _ m1
      have q2 := hsq _ m2
      split_ifs at h5 with hσ
      · refine ⟨?_, fun _ => hσ⟩
        have h6 := (mul_eq_zero.1 h5).resolve_left (neg_ne_zero.2 hx0)
        rw [Complex.normSq_eq_zero, sub_eq_zero] at h6
        have c1 : ((Real.sqrt (spin p.1.1 / 2) : ℝ) : ℂ) ≠ 0 := Complex.ofReal_ne_zero.2 q1.ne'
        have c2 : ((Real.sqrt (spin p.1.2.1 / 2) : ℝ) : ℂ) ≠ 0 := Complex.ofReal_ne_zero.2 q2.ne'
        constructor
        · intro hα h7
          rw [h7, mul_zero] at h6
          exact hα ((mul_eq_zero.1 h6).resolve_left c2)
        · intro hα h7
          rw [h7, mul_zero] at h6
          exact hα ((mul_eq_zero.1 h6.symm).resolve_left c1)
      · have h6 := (mul_eq_zero.1 h5).resolve_left hx0
        have s1 := hpos _ m1
        have s2 := hpos _ m2
        have n1 := normSq_nonneg (α p.1.1)
        have n2 := normSq_nonneg (α p.1.2.1)
        have z1 : normSq (α p.1.1) = 0 := by
          by_contra hc
          have := lt_of_le_of_ne n1 (Ne.symm hc)
          have t1 : 0 < spin p.1.2.1 / 2 * normSq (α p.1.1) := by positivity
          have t2 : 0 ≤ spin p.1.1 / 2 * normSq (α p.1.2.1) := by positivity
          linarith
        have z2 : normSq (α p.1.2.1) = 0 := by
          by_contra hc
          have := lt_of_le_of_ne n2 (Ne.symm hc)
          have t1 : 0 ≤ spin p.1.2.1 / 2 * normSq (α p.1.1) := by positivity
          have t2 : 0 < spin p.1.1 / 2 * normSq (α p.1.2.1) := by positivity
          linarith
        rw [Complex.normSq_eq_zero] at z1 z2
        exact ⟨⟨fun h => absurd z1 h, fun h => absurd z2 h⟩, fun h => absurd z1 h⟩
    refine ⟨fun a => α a ≠ 0, ?_, fun b m hb hm => ?_⟩
    · by_contra hno
      refine ha (funext fun i => ?_)
      rw [atomAt_get h2 hord i]
      by_contra h8
      exact hno ⟨_, hat ▸ atomAt_mem h2 hord i, h8⟩
    · obtain ⟨dd, nn, ee, oo, hc1, hc2, _⟩ := hr.complete
      obtain ⟨p, hp, hor, hp0⟩ := h3.exists_like hr.wf h2.flags hc1 hc2 (fun a ha => (hr.spins a ha).2) hb hm
      obtain ⟨g1, g2⟩ := hlike p hp hp0
      rcases hor with e | e <;> rw [e] at g1 g2
      · exact ⟨g1, g2⟩
      · exact ⟨g1.symm, fun h => (g2 (g1.2 h)).symm⟩
  · rintro ⟨P, ⟨a0, ha0, hP0⟩, hP⟩
    classical
    have hlike : ∀ p ∈ likeItems t, p.2 ≠ 0 → (P p.1.1 ↔ P p.1.2.1) ∧ (P p.1.1 → σ p.1.1 = σ p.1.2.1) := by
      intro p hp hp0
      obtain ⟨dd, nn, ee, oo, hc1, hc2, _⟩ := hr.complete
      rcases h3.like h2.flags hc1 hp with ⟨a, m, _, e, _⟩ | ⟨b, m, hb, ⟨e, e'⟩ | ⟨e, e'⟩⟩
      · rw [e]; exact ⟨Iff.rfl, fun _ => rfl⟩
      · have hm : m ≠ 0 := by
          rintro rfl
          exact hp0 (by rw [e', smul_zero])
        rw [e]; exact hP b m hb hm
      · have hm : m ≠ 0 := by
          rintro rfl
          exact hp0 (by rw [e', transpose_zero, smul_zero])
        obtain ⟨g1, g2⟩ := hP b m hb hm
        rw [e]; exact ⟨g1.symm, fun h => (g2 (g1.2 h)).symm⟩
    let α : Atom → ℂ := fun a => if P a then ((Real.sqrt (spin a / 2) : ℝ) : ℂ) else 0
    have hall : ∀ p ∈ likeItems t, bondTerm lat pos (fun a => Frame.span ((spinVec a).getD 0)) spin 0 α (fun _ => 0) p = 0 := by
      intro p hp
      obtain ⟨m1, m2⟩ := hatom p hp
      obtain ⟨x, hx, _⟩ := hf p hp
      rw [bondTerm_zero hcol' α m1 m2 hx]
      by_cases hx0 : x = 0
      · rw [hx0]; split_ifs <;> simp
      have hp0 : p.2 ≠ 0 := by
        rw [hx]
        intro h0
        have := congrFun (congrFun h0 0) 0
        simp at this
        exact hx0 this
      obtain ⟨g1, g2⟩ := hlike p hp hp0
      by_cases hPa : P p.1.1
      · have hPb := g1.1 hPa
        rw [if_pos (g2 hPa)]
        simp only [α, if_pos hPa, if_pos hPb]
        rw [mul_comm (((Real.sqrt (spin p.1.2.1 / 2) : ℝ) : ℂ)), sub_self, map_zero, mul_zero]
      · have hPb : ¬ P p.1.2.1 := fun h => hPa (g1.2 h)
        simp only [α, if_neg hPa, if_neg hPb]
        split_ifs <;> simp
    refine ⟨fun i : Fin o.N => (t.magneticAtoms order)[(i : ℕ)]?.elim 0 α, ?_, ?_⟩
    · intro h0
      obtain ⟨i, hi⟩ := atomAt_exists h2 hord (hat ▸ ha0)
      have := congrFun h0 i
      simp only [atomAt_get h2 hord i, Option.elim, hi, α, if_pos hP0, Pi.zero_apply, Complex.ofReal_eq_zero] at this
      exact (hsq _ (hat ▸ ha0)).ne' this
    · have h5 := hform α
      rw [List.sum_eq_zero (by
        intro y hy
        obtain ⟨q, hq, rfl⟩ := List.mem_map.1 hy
        exact hall q hq), mul_zero] at h5
      refine (hp.dotProduct_mulVec_zero_iff _).1 ?_
      have h6 := hp.dotProduct_mulVec_nonneg (Sum.elim (fun i : Fin o.N => (t.magneticAtoms order)[(i : ℕ)]?.elim 0 α) 0)
      exact Complex.ext h5 (Complex.nonneg_iff.1 h6).2.symm

/-- **C69, ferromagnets.** If all spins are parallel and every bond favours that, the lowest energy that `omega` reports
for `k = 0` is zero. -/
theorem C69_ferro (hord : ∀ l, (order l).Perm l) (lat : M3 ℝ) (pos : Atom → V3 ℝ) {spin : Atom → ℝ} {d : V3 ℝ}
    (hr : MagnonReady order spinVec s spin) (hcol : CollinearSpins (s.magneticAtoms order) spinVec spin (fun _ => 1) d)
    (hu : s.Unfrustrated fun _ => 1) (hne : s.magneticAtoms order ≠ []) :
    ∃ o t, init order lat pos spinVec s = (.ok o, t) ∧
      ∀ chol eig sort, IsCholesky chol → IsEig eig → IsSort sort → ∀ (junk : Mat o.N) (z rg im : Bool),
        (o.omega t.cell (Colpa.solve chol eig sort) junk z rg im 0).1.1[o.N - 1]? = some (some 0) := by
  obtain ⟨o, t, h1, _, h2⟩ := C69_collinear hord lat pos hr hcol hu hne
  obtain ⟨a, ha⟩ := List.exists_mem_of_ne_nil _ hne
  exact ⟨o, t, h1, fun chol eig sort hc he hso junk z rg im =>
    (h2 chol eig sort hc he hso junk z rg im).2 ⟨fun _ => True, ⟨a, ha, trivial⟩, fun _ _ _ _ => ⟨Iff.rfl, fun _ => rfl⟩⟩⟩

/-- The full statement of C69 for collinear magnets: scalar products only, so all rotations are symmetries, and all bonds
favour the state, so it is a ground state; the lowest energy for `k = 0` is zero. -/
def C69_statement : Prop :=
  ∀ (order : List Atom → List Atom), (∀ l, (order l).Perm l) → ∀ (lat : M3 ℝ) (pos : Atom → V3 ℝ)
    (spinVec : Atom → Option (V3 ℝ)) (s : St ℝ) (spin σ : Atom → ℝ) (d : V3 ℝ), MagnonReady order spinVec s spin →
    CollinearSpins (s.magneticAtoms order) spinVec spin σ d → s.Unfrustrated σ → s.magneticAtoms order ≠ [] →
    ∃ o t, init order lat pos spinVec s = (.ok o, t) ∧
      ∀ chol eig sort, IsCholesky chol → IsEig eig → IsSort sort → ∀ (junk : Mat o.N) (z rg im : Bool),
        (o.omega t.cell (Colpa.solve chol eig sort) junk z rg im 0).1.1[o.N - 1]? = some (some 0)

namespace NeelExample

open HistoryExample FerroExample

/-- One bond between two atoms. -/
def bond : PyDict Bond ℕ := [((fe1, fe2, (1, 0, 0)), 0)]

/-- Two atoms with spin 2, one bond of each pair of neighbours along the first axis, with the unit matrix and a factor. -/
noncomputable def st (e : ℝ) : St ℝ :=
  { cell := fun _ => 1, next := 1, atoms := [fe1, fe2], exch := bond, onSite := [], dc := some false, sn := some false,
    ef := some e, osf := some 1, spin := fun _ => some 2, dist := fun _ => 1 }

/-- The signs of the two atoms. -/
def sign (a : Atom) : ℝ := if a = fe1 then 1 else -1

/-- Spins of the antiferromagnet. -/
noncomputable def neel (a : Atom) : Option (V3 ℝ) := some ((sign a * 2) • ![0, 0, 1])

theorem atoms (e : ℝ) : (st e).magneticAtoms id = [fe1, fe2] := by
  show List.insertionSort (fun a b : Atom => a.index ≤ b.index)
    (List.dedup (bond.keys.flatMap (fun b => [b.1, b.2.1]) ++ keys ([] : PyDict Atom ℕ))) = _
  decide

theorem wf (e : ℝ) : (st e).WellFormed := by
  refine ⟨St.sound_of_lists ?_ ?_ ?_ ?_ ?_ ?_ ?_ ?_, fun h => by simp [st] at h, fun _ => ?_⟩
  · show bond.keys.Nodup; decide
  · show (keys ([] : PyDict Atom ℕ)).Nodup; decide
  · show (bond.map Prod.snd ++ ([] : PyDict Atom ℕ).map Prod.snd).Nodup; decide
  · show ∀ r ∈ bond.map Prod.snd ++ ([] : PyDict Atom ℕ).map Prod.snd, r < 1; decide
  · show ∀ b ∈ bond.keys, b.1 ∈ [fe1, fe2] ∧ b.2.1 ∈ [fe1, fe2]; decide
  · show ∀ a ∈ keys ([] : PyDict Atom ℕ), a ∈ [fe1, fe2]; decide
  · show ∀ a ∈ [fe1, fe2], ∀ b ∈ [fe1, fe2], a.index = b.index → a = b; decide
  · show ∀ b ∈ bond.keys, b.mirror ≠ b; decide
  · intro b hb
    have : b = (fe1, fe2, (1, 0, 0)) := by simpa [st, bond] using hb
    subst this
    exact Or.inl (by decide)

theorem ready {e : ℝ} (he : e ≠ 0) {v : Atom → Option (V3 ℝ)} (hv : ∀ a, (v a).isSome) :
    MagnonReady id v (st e) fun _ => 2 :=
  ⟨(wf e).paired, fun _ _ => ⟨rfl, two_ne_zero⟩, ⟨false, false, e, 1, rfl, he, one_ne_zero⟩, fun a _ => hv a⟩

theorem value {e : ℝ} {b : Bond} {m : M3 ℝ} (h : (st e).valE b = some m) : b = (fe1, fe2, (1, 0, 0)) ∧ m = 1 := by
  have hb : b ∈ bond.keys := (St.isSome_valE_iff (s := st e)).1 (by rw [h]; rfl)
  have hb' : b = (fe1, fe2, (1, 0, 0)) := by simpa [bond] using hb
  refine ⟨hb', ?_⟩
  obtain ⟨r, _, rfl⟩ := Option.map_eq_some_iff.1 h
  rfl

theorem sign_eq : sign fe1 = 1 ∧ sign fe2 = -1 := ⟨if_pos rfl, if_neg (by decide)⟩

theorem collinear (e : ℝ) : CollinearSpins ((st e).magneticAtoms id) neel (fun _ => 2) sign ![0, 0, 1] := by
  refine ⟨z_unit, fun a _ => ?_, fun _ _ => two_pos, fun a _ => rfl⟩
  unfold sign
  split_ifs
  · exact Or.inl rfl
  · exact Or.inr rfl

theorem unfrustrated {e : ℝ} (he : 0 ≤ e) : (st e).Unfrustrated sign := by
  refine ⟨fun a m h => by simp [St.valO, st, PyDict.get?] at h, fun d n e' o hn b m hb => ?_⟩
  obtain ⟨rfl, rfl⟩ := value hb
  have : e' = e := by
    have := (St.getNotation_ok_iff.1 hn).2.2.1
    simpa [st] using this.symm
  subst this
  refine ⟨1, by rw [one_smul], ?_⟩
  show e' * 1 * (sign fe1 * sign fe2) ≤ 0
  rw [sign_eq.1, sign_eq.2]
  linarith

end NeelExample

open NeelExample HistoryExample in
/-- **C69 is false of the code**: the lowest energy of an antiferromagnet of two atoms for `k = 0` is not zero, although
`h(0)` has two zero modes. -/
theorem C69_false : ¬ C69_statement := by
  intro h
  have hr := ready one_ne_zero (v := neel) fun _ => rfl
  have hne : (st 1).magneticAtoms id ≠ [] := by rw [atoms]; simp
  obtain ⟨o, t, h1, h2⟩ := h id (fun _ => .refl _) 1 (fun _ => 0) neel (st 1) (fun _ => 2) sign ![0, 0, 1] hr
    (collinear 1) (unfrustrated zero_le_one) hne
  obtain ⟨o', t', h1', _, h3⟩ := C69_collinear (order := id) (fun _ => .refl _) 1 (fun _ => 0) hr (collinear 1)
    (unfrustrated zero_le_one) hne
  rw [h1] at h1'
  simp only [Prod.mk.injEq, Except.ok.injEq] at h1'
  obtain ⟨rfl, rfl⟩ := h1'
  obtain ⟨chol, hc⟩ := exists_chol (N := o.N)
  obtain ⟨eig, ⟨he, _⟩⟩ := exists_eig (N := o.N)
  obtain ⟨sort, hs⟩ := exists_sort (N := o.N)
  obtain ⟨P, ⟨a, ha, hPa⟩, hP⟩ := (h3 chol eig sort hc he hs 0 false false false).1 (h2 chol eig sort hc he hs 0 false false false)
  obtain ⟨g1, g2⟩ := hP (fe1, fe2, (1, 0, 0)) 1 rfl one_ne_zero
  have : P fe1 := by
    rw [atoms] at ha
    rcases List.mem_cons.1 ha with rfl | ha
    · exact hPa
    · rw [List.mem_singleton.1 ha] at hPa
      exact g1.2 hPa
  have h4 := g2 this
  rw [show ((fe1, fe2, (1, 0, 0)) : Bond).1 = fe1 from rfl, show ((fe1, fe2, (1, 0, 0)) : Bond).2.1 = fe2 from rfl,
    sign_eq.1, sign_eq.2] at h4
  norm_num at h4

open NeelExample FerroExample in
/-- C70: the antiferromagnet is stable for every `k`. -/
example : ∃ o t, init id 1 (fun _ => 0) neel (NeelExample.st 1) = (.ok o, t) ∧ o.N = 2 ∧
    ∀ k, (o.callH t.cell k).1.PosSemidef := by
  obtain ⟨o, t, h1, h2, h3⟩ := C70_stable (order := id) (fun _ => .refl _) 1 (fun _ => 0)
    (ready one_ne_zero (v := neel) fun _ => rfl) (collinear 1) (unfrustrated zero_le_one)
  exact ⟨o, t, h1, by rw [h2, atoms]; rfl, fun k => (h3 k).1⟩

open NeelExample FerroExample HistoryExample in
/-- C69, ferromagnets: the same two atoms with parallel spins and a negative factor. -/
example : ∃ o t, init id 1 (fun _ => 0) MagnonExample.spinZ (NeelExample.st (-1)) = (.ok o, t) ∧
    ∀ chol eig sort, IsCholesky chol → IsEig eig → IsSort sort → ∀ (junk : Mat o.N) (z rg im : Bool),
      (o.omega t.cell (Colpa.solve chol eig sort) junk z rg im 0).1.1[o.N - 1]? = some (some 0) := by
  refine C69_ferro (order := id) (fun _ => .refl _) 1 (fun _ => 0) (spin := fun _ => 2) (d := ![0, 0, 1])
    (ready (by norm_num) fun _ => rfl) ⟨z_unit, fun _ _ => Or.inl rfl, fun _ _ => two_pos, fun a _ => ?_⟩
    ⟨fun a m h => by simp [St.valO, NeelExample.st, PyDict.get?] at h, fun d n e o hn b m hb => ?_⟩ (by rw [atoms]; simp)
  · show some _ = some _
    congr 1
    funext i
    fin_cases i <;> simp
  · obtain ⟨rfl, rfl⟩ := value hb
    have : e = -1 := by
      have := (St.getNotation_ok_iff.1 hn).2.2.1
      simpa [NeelExample.st] using this.symm
    subst this
    exact ⟨1, by rw [one_smul], by norm_num⟩

open NeelExample FerroExample HistoryExample in
/-- C69, the mode: the hypotheses hold for the antiferromagnet and rotations about the first axis. -/
example : (NeelExample.st 1).Axial ![1, 0, 0] ∧ (NeelExample.st 1).OnSiteSymmetric ∧
    (NeelExample.st 1).Stationary (fun _ => 2) (fun a => NeelExample.sign a • ![0, 0, 1]) ∧
    crossProduct (![1, 0, 0] : V3 ℝ) (NeelExample.sign fe1 • ![0, 0, 1]) ≠ 0 := by
  have hx : IsUnit3 ![1, 0, 0] := by simp [IsUnit3, dotProduct, Fin.sum_univ_three]
  refine ⟨⟨hx, fun b m hb => ?_, fun a m h => by simp [St.valO, NeelExample.st, PyDict.get?] at h⟩,
    fun a m h => by simp [St.valO, NeelExample.st, PyDict.get?] at h, fun η hη => ?_, fun h => ?_⟩
  · obtain ⟨rfl, rfl⟩ := value hb
    intro θ x y
    simp only [bilin_eq, one_mulVec]
    exact rotate_dot_rotate hx θ x y
  · refine ⟨-4, 4 * (η fe1 ⬝ᵥ η fe2), fun ε => ?_⟩
    have h1 := hη fe1
    have h2 := hη fe2
    beta_reduce at h1 h2
    rw [sign_eq.1, one_smul] at h1
    rw [sign_eq.2] at h2
    simp [St.physics, St.getNotation, NeelExample.st, St.energy, classicalEnergy, St.exchangeItems, St.onSiteItems, Config.bonds,
      Config.sites, NeelExample.bond, Config.bond, uniform, weight, bilin_eq, sign_eq.1, sign_eq.2]
    have t0 : ∀ v : V3 ℝ, vecHead v = v 0 := fun _ => rfl
    have t1 : ∀ v : V3 ℝ, vecHead (vecTail v) = v 1 := fun _ => rfl
    have t2 : ∀ v : V3 ℝ, vecHead (vecTail (vecTail v)) = v 2 := fun _ => rfl
    simp [dotProduct, Fin.sum_univ_three] at h1 h2 ⊢
    simp only [t0, t1, t2, Pi.smul_apply, smul_eq_mul, h1, h2]
    ring
  · have := congrFun h 1
    rw [sign_eq.1] at this
    simp [cross_apply] at this

end Magnopy
