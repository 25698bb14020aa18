import Verif.Lemmas.Minimum
import Verif.Lemmas.Axes
import Verif.Props.Dispersion

/-!
# Property C89: the magnons of a minimum of the energy are stable
-/

set_option autoImplicit false
set_option linter.unusedSectionVars false

namespace Magnopy

open PyDict Matrix Complex ComplexOrder MagnonObj

variable {order : List Atom → List Atom} {lat : M3 ℝ} {pos : Atom → V3 ℝ} {spinVec : Atom → Option (V3 ℝ)}
  {s : St ℝ} {o : MagnonObj} {t : St ℝ} {items : List (Bond × ℕ)}

/-- The local frames are along the spins: exactly along the directions that `span_local_rf` keeps. -/
theorem frames_exact (hord : ∀ l, (order l).Perm l) {spin : Atom → ℝ} (hr : MagnonReady order spinVec s spin)
    (h : ObjSpec order lat pos spinVec s o t items) (hs : MagnonObj.Symmetric t) (hat : t.magneticAtoms order = s.magneticAtoms order)
    (hspin : ∀ a ∈ t.magneticAtoms order, 0 < spin a)
    (hlen : ∀ a ∈ t.magneticAtoms order, ∀ v, spinVec a = some v → EnergyObj.norm3 v = spin a) :
    ∀ a ∈ s.magneticAtoms order, RightHanded (Frame.span ((spinVec a).getD 0)) ∧
      ∃ v d, spinVec a = some v ∧ Directs d v ∧ (OwnAxis v → Frame.span ((spinVec a).getD 0) 2 = d) ∧
        ∀ i, |Frame.span ((spinVec a).getD 0) 2 i - d i| ≤ 1 / 10 ^ 8 := by
  intro a ha
  obtain ⟨f, v, d, e1, e2, e3⟩ := frames_along hord hr h hs hat hspin hlen a ha
  refine ⟨f, v, d, e1, e2, fun hv => ?_, e3⟩
  have hv0 : v ≠ 0 := by
    rintro rfl
    have := hlen a (hat ▸ ha) 0 e1
    have h0 := hspin a (hat ▸ ha)
    rw [← this] at h0
    simp [EnergyObj.norm3] at h0
  simp only [e1, Option.getD_some]
  rw [span_axis hv0 hv]
  exact directs_unique (Frame.normalize_directs hv0) e2

/-- **C89.** For a well-formed Hamiltonian in any notation, with spins of the lengths of the spin vectors, and the state
with every spin along the third vector of its local frame (which is its direction up to 1e-8):

* if the state is a local minimum of the classical energy of a supercell, then `h(k)` is positive semidefinite for every
  wave vector `k` of waves that fit into the supercell;
* if this holds for all cubes of `n × n × n` cells, then `h(k)` is positive semidefinite for every `k`, and `omega` reports
  non-negative energies in descending order for every `k`: never the substitute of zeros or NaNs, never energies of the
  opposite matrix. -/
theorem C89_minimum (hord : ∀ l, (order l).Perm l) (lat : M3 ℝ) (pos : Atom → V3 ℝ) {spin : Atom → ℝ}
    (hr : MagnonReady order spinVec s spin) (hs : s.OnSiteSymmetric)
    (hlen : ∀ a ∈ s.magneticAtoms order, ∀ v, spinVec a = some v → spin a = Real.sqrt (v ⬝ᵥ v)) :
    ∃ o t, ∃ frame : Atom → M3 ℝ, init order lat pos spinVec s = (.ok o, t) ∧ o.N = (s.magneticAtoms order).length ∧
      (∀ a ∈ s.magneticAtoms order, RightHanded (frame a) ∧
        ∃ v d, spinVec a = some v ∧ Directs d v ∧ (OwnAxis v → frame a 2 = d) ∧ ∀ i, |frame a 2 i - d i| ≤ 1 / 10 ^ 8) ∧
      (∀ (Γ : Type) [AddCommGroup Γ] [Fintype Γ] (τ : Cell →+ Γ),
        s.LocalMinimum spin (s.magneticAtoms order) (fun a => frame a 2) τ →
        ∀ k χ, Bloch lat k τ χ → (o.callH t.cell k).1.PosSemidef) ∧
      (lat.det ≠ 0 → (∀ n, s.LocalMinimum spin (s.magneticAtoms order) (fun a => frame a 2) (cube (n + 1))) →
        ∀ k, (o.callH t.cell k).1.PosSemidef ∧
          ∀ chol eig sort, IsCholesky chol → IsEig eig → IsSort sort → ∀ (junk : Mat o.N) (z im : Bool),
            ∃ w : Fin o.N → ℝ, (∀ i, 0 ≤ w i) ∧ (∀ i j, i ≤ j → w j ≤ w i) ∧
              (o.omega t.cell (Colpa.solve chol eig sort) junk z false im k).1.1 =
                (List.finRange o.N).map fun i => some (w i : ℂ)) := by
  obtain ⟨o, t, items, h1, h2, h3, hsym, hat, hpos, hnorm⟩ := magnon_setup hord lat pos hr hs hlen
  obtain ⟨o', t', items', h1', _, _, _, hphys⟩ := ready_setup hord lat pos hr
  rw [h1] at h1'
  simp only [Prod.mk.injEq, Except.ok.injEq] at h1'
  obtain ⟨_, rfl⟩ := h1'
  have hfr := frames_along hord hr h2 hsym hat hpos hnorm
  have hH := C39_private hord hr.inv hr.wf.alloc h1 hsym
  have first : ∀ (Γ : Type) [AddCommGroup Γ] [Fintype Γ] (τ : Cell →+ Γ),
      s.LocalMinimum spin (s.magneticAtoms order) (fun a => Frame.span ((spinVec a).getD 0) 2) τ →
        ∀ k χ, Bloch lat k τ χ → (o.callH t.cell k).1.PosSemidef := by
    intro Γ _ _ τ hm k χ hb
    exact posSemidef_of_minimum hord h2 hsym hpos hnorm (fun a ha => (hfr a (hat ▸ ha)).1) (hphys Γ) (hat ▸ hm) (hH k) hb
  refine ⟨o, t, fun a => Frame.span ((spinVec a).getD 0), h1, by rw [h2.N, hat], frames_exact hord hr h2 hsym hat hpos hnorm,
    first, fun hlat hm k => ?_⟩
  have hp := posSemidef_everywhere hord h2 hsym hnorm hlat hH (fun n k χ hb => first _ _ (hm n) k χ hb) k
  exact ⟨hp, fun chol eig sort hc he hso junk z im => omega_of_posSemidef hc he hso hp junk z im⟩

/-- **C89 for one cell.** If the state is a local minimum of the energy per cell among the states that repeat the cell (the
states that `Energy.optimize` searches), then `h(0)` is positive semidefinite and `omega` reports non-negative energies for
`k = 0`. -/
theorem C89_unit_cell (hord : ∀ l, (order l).Perm l) (lat : M3 ℝ) (pos : Atom → V3 ℝ) {spin : Atom → ℝ}
    (hr : MagnonReady order spinVec s spin) (hs : s.OnSiteSymmetric)
    (hlen : ∀ a ∈ s.magneticAtoms order, ∀ v, spinVec a = some v → spin a = Real.sqrt (v ⬝ᵥ v)) :
    ∃ o t, ∃ frame : Atom → M3 ℝ, init order lat pos spinVec s = (.ok o, t) ∧ o.N = (s.magneticAtoms order).length ∧
      (∀ a ∈ s.magneticAtoms order, RightHanded (frame a) ∧
        ∃ v d, spinVec a = some v ∧ Directs d v ∧ (OwnAxis v → frame a 2 = d) ∧ ∀ i, |frame a 2 i - d i| ≤ 1 / 10 ^ 8) ∧
      (s.LocalMinimum spin (s.magneticAtoms order) (fun a => frame a 2) oneCell → (o.callH t.cell 0).1.PosSemidef ∧
        ∀ chol eig sort, IsCholesky chol → IsEig eig → IsSort sort → ∀ (junk : Mat o.N) (z im : Bool),
          ∃ w : Fin o.N → ℝ, (∀ i, 0 ≤ w i) ∧ (∀ i j, i ≤ j → w j ≤ w i) ∧
            (o.omega t.cell (Colpa.solve chol eig sort) junk z false im 0).1.1 =
              (List.finRange o.N).map fun i => some (w i : ℂ)) := by
  obtain ⟨o, t, frame, h1, h2, h3, h4, _⟩ := C89_minimum hord lat pos hr hs hlen
  refine ⟨o, t, frame, h1, h2, h3, fun hm => ?_⟩
  have hp := h4 Unit oneCell hm 0 (fun _ => 1) ⟨fun _ _ => by simp, fun _ => by simp, fun _ => by simp⟩
  exact ⟨hp, fun chol eig sort hc he hso junk z im => omega_of_posSemidef hc he hso hp junk z im⟩

namespace MinimumExample

open HistoryExample FerroExample MagnonExample

/-- The energy of the chain. -/
theorem energy {Γ : Type} [AddCommGroup Γ] [Fintype Γ] (e : ℝ) (τ : Cell →+ Γ) (σ : Atom → Γ → V3 ℝ)
    (hσ : ∀ n, σ fe1 n ⬝ᵥ σ fe1 n = 1) : (st true true e (-5) twice [(fe1, 2)]).physics (⟨τ, σ⟩ : Config ℝ Γ) (fun _ => 2) =
      some (e * (∑ n, (σ fe1 n ⬝ᵥ σ fe1 (n + τ (1, 0, 0))) + ∑ n, (σ fe1 n ⬝ᵥ σ fe1 (n + τ (-1, 0, 0)))) - 5 * Fintype.card Γ) := by
  simp [St.physics, St.getNotation, st, St.energy, classicalEnergy, St.exchangeItems, St.onSiteItems, Config.bonds,
    Config.sites, twice, Config.bond, Config.site, weight, bilin_eq, hσ]
  ring

theorem atoms (e : ℝ) : (st true true e (-5) twice [(fe1, 2)]).magneticAtoms id = [fe1] := by
  show List.insertionSort (fun a b : Atom => a.index ≤ b.index)
    (List.dedup (twice.keys.flatMap (fun b => [b.1, b.2.1]) ++ keys [(fe1, 2)])) = _
  decide

theorem dot_le_one {u v : V3 ℝ} (hu : u ⬝ᵥ u = 1) (hv : v ⬝ᵥ v = 1) : u ⬝ᵥ v ≤ 1 := by
  simp only [dotProduct, Fin.sum_univ_three] at *
  nlinarith [sq_nonneg (u 0 - v 0), sq_nonneg (u 1 - v 1), sq_nonneg (u 2 - v 2)]

theorem own : OwnAxis ![0, 0, 2] := by
  rintro d ⟨_, x, hx, h⟩
  refine Or.inr ⟨?_, ?_⟩
  · have := congrFun h 0
    simp at this
    rcases this with h | h
    · exact absurd h hx.ne'
    · exact h
  · have := congrFun h 1
    simp at this
    rcases this with h | h
    · exact absurd h hx.ne'
    · exact h

theorem up {d : V3 ℝ} (h : Directs d ![0, 0, 2]) : d = ![0, 0, 1] := by
  refine directs_unique h ⟨by simp [IsUnit3, dotProduct, Fin.sum_univ_three], 2, two_pos, ?_⟩
  funext i
  fin_cases i <;> simp

/-- The ferromagnetic chain: the spins along `z` have the lowest energy in every supercell. -/
theorem ferro_minimum {Γ : Type} [AddCommGroup Γ] [Fintype Γ] (τ : Cell →+ Γ) {d : Atom → V3 ℝ} (hd : d fe1 = ![0, 0, 1]) :
    (st true true (-3) (-5) twice [(fe1, 2)]).LocalMinimum (fun _ => 2) [fe1] d τ := by
  refine ⟨1, one_pos, fun σ hσ E0 E h0 h => ?_⟩
  have hu : ∀ n, σ fe1 n ⬝ᵥ σ fe1 n = 1 := fun n => (hσ fe1 (by simp) n).1
  have hd1 : d fe1 ⬝ᵥ d fe1 = 1 := by rw [hd]; simp [dotProduct, Fin.sum_univ_three]
  rw [energy _ τ _ fun n => hd1] at h0
  rw [energy _ τ _ hu] at h
  have h0' := Option.some.inj h0
  have h' := Option.some.inj h
  simp only [hd1, Finset.sum_const, Finset.card_univ, nsmul_eq_mul, mul_one] at h0'
  have b : ∀ m : Γ, ∑ n, (σ fe1 n ⬝ᵥ σ fe1 (n + m)) ≤ Fintype.card Γ := by
    intro m
    refine (Finset.sum_le_sum fun n _ => dot_le_one (hu n) (hu (n + m))).trans ?_
    simp
  have b1 := b (τ (1, 0, 0))
  have b2 := b (τ (-1, 0, 0))
  rw [← h0', ← h']
  linarith

/-- The antiferromagnetic chain with one atom per cell: all states that repeat the cell have the same energy. -/
theorem anti_minimum {d : Atom → V3 ℝ} (hd : d fe1 = ![0, 0, 1]) :
    (st true true 3 (-5) twice [(fe1, 2)]).LocalMinimum (fun _ => 2) [fe1] d oneCell := by
  refine ⟨1, one_pos, fun σ hσ E0 E h0 h => ?_⟩
  have hu : ∀ n, σ fe1 n ⬝ᵥ σ fe1 n = 1 := fun n => (hσ fe1 (by simp) n).1
  have hd1 : d fe1 ⬝ᵥ d fe1 = 1 := by rw [hd]; simp [dotProduct, Fin.sum_univ_three]
  rw [energy _ oneCell _ fun n => hd1] at h0
  rw [energy _ oneCell _ hu] at h
  have h0' := Option.some.inj h0
  have h' := Option.some.inj h
  have hn : ∀ n m : Unit, σ fe1 (n + m) = σ fe1 n := fun _ _ => rfl
  simp only [hd1, hn, hu] at h0' h'
  rw [← h0', ← h']

end MinimumExample

open MinimumExample HistoryExample FerroExample MagnonExample in
/-- C89: the ferromagnetic chain is a minimum in every supercell, so the hypotheses hold and its energies are not negative. -/
example : ∃ o t, init id 1 (fun _ => 0) spinZ (st true true (-3) (-5) twice [(fe1, 2)]) = (.ok o, t) ∧
    ∀ k, (o.callH t.cell k).1.PosSemidef := by
  obtain ⟨o, t, frame, h1, h2, h3, _, h5⟩ := C89_minimum (order := id) (fun _ => .refl _) 1 (fun _ => 0)
    (ready true (e := -3) (o := -5) (by norm_num) (by norm_num)) (symmetric true (-3) (-5)) (fun a _ v hv => length a v hv)
  have hf : frame fe1 2 = ![0, 0, 1] := by
    obtain ⟨_, v, d, e1, e2, e3, _⟩ := h3 fe1 (by rw [atoms]; simp)
    obtain rfl : ![0, 0, 2] = v := Option.some.inj e1
    rw [e3 own, up e2]
  refine ⟨o, t, h1, fun k => (h5 (by simp) (fun n => ?_) k).1⟩
  rw [atoms]
  exact ferro_minimum _ hf

open MinimumExample HistoryExample FerroExample MagnonExample in
/-- **One cell is not enough.** For an antiferromagnetic chain with one atom per cell the parallel state is a minimum of
the energy among the states that repeat the cell, but `omega` reports the negative energy -12 at the boundary of the
Brillouin zone. -/
theorem C89_unit_cell_not_enough : ∃ (s : St ℝ) (o : MagnonObj) (t : St ℝ) (k : V3 ℝ),
    MagnonReady id spinZ s (fun _ => 2) ∧ s.OnSiteSymmetric ∧ init id 1 (fun _ => 0) spinZ s = (.ok o, t) ∧
      s.LocalMinimum (fun _ => 2) (s.magneticAtoms id) (fun _ => ![0, 0, 1]) oneCell ∧
      ¬ (o.callH t.cell k).1.PosSemidef ∧
      ∀ chol eig sort, IsCholesky chol → IsEig eig → IsSort sort → ∀ (junk : Mat o.N) (z im : Bool),
        (o.omega t.cell (Colpa.solve chol eig sort) junk z false im k).1.1 = [some (-12)] := by
  have hr := ready true (e := 3) (o := -5) (by norm_num) (by norm_num)
  obtain ⟨o, t, h1, h2⟩ := C73_single (order := id) (fun _ => .refl _) 1 (fun _ => 0) (d := ![0, 0, 1]) hr
    ⟨z_unit, fun _ _ => Or.inl rfl, fun _ _ => two_pos, fun _ _ => by simp [spinZ]⟩
    ⟨fun b m h => ⟨1, by obtain ⟨r, _, rfl⟩ := Option.map_eq_some_iff.1 h; rw [one_smul]; rfl⟩,
      fun b m h => ⟨1, by obtain ⟨r, _, rfl⟩ := Option.map_eq_some_iff.1 h; rw [one_smul]; rfl⟩⟩ (atoms 3)
  have key : ∀ chol eig sort, IsCholesky chol → IsEig eig → IsSort sort → ∀ (junk : Mat o.N) (z im : Bool),
        (o.omega t.cell (Colpa.solve chol eig sort) junk z false im ![Real.pi, 0, 0]).1.1 = [some (-12)] := by
    intro chol eig sort hc he hso junk z im
    rw [h2 _ chol eig sort hc he hso junk z im]
    have e : (st true true 3 (-5) twice [(fe1, 2)]).ferroEnergy 1 (fun _ => 0) (fun _ => 2) fe1 ![Real.pi, 0, 0] = -12 := by
      simp [St.ferroEnergy, St.getNotation, st, St.exchangeItems, twice, weight, displacement, absolute, Cell.rel, dotProduct,
        Fin.sum_univ_three, Matrix.one_apply]
      norm_num
    rw [e]
    congr 2
    unfold round8
    rw [if_neg]
    · norm_num
    · rw [Complex.norm_real]
      norm_num
  refine ⟨_, o, t, ![Real.pi, 0, 0], hr, symmetric true 3 (-5), h1, by rw [atoms]; exact anti_minimum rfl, fun hp => ?_, key⟩
  obtain ⟨chol, hc⟩ := Colpa.exists_chol (N := o.N)
  obtain ⟨eig, ⟨he, _⟩⟩ := Colpa.exists_eig (N := o.N)
  obtain ⟨sort, hso⟩ := Colpa.exists_sort (N := o.N)
  obtain ⟨w, hw, _, e⟩ := omega_of_posSemidef hc he hso hp 0 false false
  have := key chol eig sort hc he hso 0 false false
  have e' := e.symm.trans this
  have hN : o.N = 1 := by simpa using congrArg List.length e'
  have h0 := congrArg (fun l => l[0]?) e'
  simp only [List.getElem?_map, List.getElem?_cons_zero] at h0
  obtain ⟨i, -, hi⟩ := Option.map_eq_some_iff.1 h0
  have hi' := congrArg Complex.re (Option.some.inj hi)
  have := hw i
  simp at hi'
  linarith

end Magnopy
