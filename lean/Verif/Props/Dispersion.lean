import Verif.Lemmas.Scalar
import Verif.Lemmas.Branches
import Verif.Props.Goldstone

/-!
# The textbook dispersions: `J(k)` in any notation and magnets with parallel spins (C73)
-/

set_option autoImplicit false
set_option linter.unusedSectionVars false

namespace Magnopy

open PyDict Matrix Complex MagnonObj
open scoped ComplexOrder

variable {order : List Atom → List Atom} {spinVec : Atom → Option (V3 ℝ)} {s : St ℝ}

/-- **C73, `J(k)`.** For a well-formed Hamiltonian in any notation: the matrix `J(k)` of the object is the Fourier transform
of the parameters of the user.  `S_i S_j J_ij(k)` is the sum over the stored bonds between the atoms `i` and `j` of their
classical energies times `exp(-i k·d)`, and the on-site energy for `i = j`. -/
theorem C73_fourier (hord : ∀ l, (order l).Perm l) (lat : M3 ℝ) (pos : Atom → V3 ℝ) {spin : Atom → ℝ}
    (hr : MagnonReady order spinVec s spin) :
    ∃ o t, ∃ a : Fin o.N → Atom, init order lat pos spinVec s = (.ok o, t) ∧ List.ofFn a = s.magneticAtoms order ∧
      ∀ k i j, ((spin (a i) * spin (a j) : ℝ) : ℂ) • o.J t.cell k i j =
        s.bondFourier lat pos spin k (a i) (a j) + if i = j then s.siteEnergy spin (a i) else 0 := by
  obtain ⟨o, t, items, h1, h2, h3, h4, _⟩ := ready_setup hord lat pos hr
  refine ⟨o, t, atomAt o (t.magneticAtoms order), h1, by rw [ofFn_atomAt h2 hord, h4], fun k i j => ?_⟩
  have := Magnopy.ObjSpec.J_fourier h2 hord hr h3 k i j
  simp only at this
  rw [this, if_congr (show _ ↔ i = j from ⟨fun e => atomAt_inj h2 hord e, fun e => by rw [e]⟩) rfl rfl]

/-- The object of a magnet with parallel spins. -/
theorem ferro_object (hord : ∀ l, (order l).Perm l) (lat : M3 ℝ) (pos : Atom → V3 ℝ) {spin : Atom → ℝ} {d : V3 ℝ}
    (hr : MagnonReady order spinVec s spin) (hcol : CollinearSpins (s.magneticAtoms order) spinVec spin (fun _ => 1) d)
    (hh : s.Heisenberg) : ∃ o t, ∃ a : Fin o.N → Atom, init order lat pos spinVec s = (.ok o, t) ∧
      List.ofFn a = s.magneticAtoms order ∧
      ∀ k, (o.callH t.cell k).1 = fromBlocks (s.ferroMatrix lat pos spin a k) 0 0 (s.ferroMatrix lat pos spin a k) := by
  obtain ⟨o, t, items, h1, h2, h3, h4, h5⟩ := heisenberg_setup hord lat pos hr hcol hh
  refine ⟨o, t, atomAt o (t.magneticAtoms order), h1, by rw [ofFn_atomAt h2 hord, h5], fun k => ?_⟩
  obtain ⟨z, _, hz⟩ := collinear_h hord hr hcol hh h2 h3 h5
  ext i j
  rcases i with i | i <;> rcases j with j | j <;> obtain ⟨e1, e2, e3, e4⟩ := hz k i j
  · rw [e1]; simp [St.ferroMatrix]
  · rw [e3]; simp
  · rw [e4]; simp
  · rw [e2]; simp [St.ferroMatrix]

/-- **C73, parallel spins.** For a Hamiltonian of scalar products in any notation with any number of atoms, and parallel
spins of any lengths: `h(k)` consists of two equal blocks, the textbook matrix `M` of a ferromagnet from the parameters of the
user.  All reported energies follow, where numbers up to 1e-8 are replaced by zero: if `M` is positive definite, its
eigenvalues in descending order; otherwise, if `M + 1e-8` is, the eigenvalues of that; if `M` is negative definite, its
eigenvalues in ascending order; in all other cases only zeros or NaN. -/
theorem C73_parallel (hord : ∀ l, (order l).Perm l) (lat : M3 ℝ) (pos : Atom → V3 ℝ) {spin : Atom → ℝ} {d : V3 ℝ}
    (hr : MagnonReady order spinVec s spin) (hcol : CollinearSpins (s.magneticAtoms order) spinVec spin (fun _ => 1) d)
    (hh : s.Heisenberg) : ∃ o t, ∃ a : Fin o.N → Atom, init order lat pos spinVec s = (.ok o, t) ∧
      List.ofFn a = s.magneticAtoms order ∧ ∀ k, let M := s.ferroMatrix lat pos spin a k
        (o.callH t.cell k).1 = fromBlocks M 0 0 M ∧ M.IsHermitian ∧
        ∀ chol eig sort, IsCholesky chol → IsEig eig → IsSort sort → ∀ (junk : Mat o.N) (z im : Bool),
          let reported := (o.omega t.cell (Colpa.solve chol eig sort) junk z false im k).1.1
          (M.PosDef → ∃ w : Fin o.N → ℝ, (∀ i j, i ≤ j → w j ≤ w i) ∧
            (Finset.univ.val.map fun i => (w i : ℂ)) = M.charpoly.roots ∧
            reported = (List.finRange o.N).map fun i => some (round8 (w i))) ∧
          (¬ M.PosDef → (M + (1 / 10 ^ 8 : ℂ) • 1).PosDef → ∃ w : Fin o.N → ℝ, (∀ i j, i ≤ j → w j ≤ w i) ∧
            (Finset.univ.val.map fun i => (w i : ℂ)) = (M + (1 / 10 ^ 8 : ℂ) • 1).charpoly.roots ∧
            reported = (List.finRange o.N).map fun i => some (round8 (w i))) ∧
          ((-M).PosDef → 0 < o.N → ∃ w : Fin o.N → ℝ, (∀ i j, i ≤ j → w i ≤ w j) ∧
            (Finset.univ.val.map fun i => ((-w i : ℝ) : ℂ)) = (-M).charpoly.roots ∧
            reported = (List.finRange o.N).map fun i => some (round8 (w i))) ∧
          (¬ (M + (1 / 10 ^ 8 : ℂ) • 1).PosDef → ¬ (-M).PosDef → reported = List.replicate o.N (if z then none else some 0)) := by
  obtain ⟨o, t, a, h1, h2, h3⟩ := ferro_object hord lat pos hr hcol hh
  refine ⟨o, t, a, h1, h2, fun k => ⟨h3 k, ferroMatrix_isHermitian spin a k, fun chol eig sort hc he hso junk z im =>
    ⟨fun hM => ?_, fun hn hM => ?_, fun hM hN => ?_, fun hn hM => ?_⟩⟩⟩
  · simp only [omega, h3 k]
    exact omega_blocks hc he hso hM junk z im
  · simp only [omega, h3 k]
    exact omega_blocks_shifted hc he hso hn hM junk z im
  · simp only [omega, h3 k]
    exact omega_blocks_neg hc he hso hM hN junk z im
  · simp only [omega, h3 k]
    exact omega_blocks_none hc (ferroMatrix_isHermitian spin a k) hn hM junk z im

/-- All bonds of a magnet with one atom connect this atom. -/
theorem bonds_single (hord : ∀ l, (order l).Perm l) {x : Atom} (hx : s.magneticAtoms order = [x]) {p : Bond × M3 ℝ}
    (hp : p ∈ s.exchangeItems) : p.1.1 = x ∧ p.1.2.1 = x := by
  have hk : p.1 ∈ s.exch.keys := by
    rw [St.exchangeItems] at hp
    obtain ⟨q, hq, rfl⟩ := List.mem_map.1 hp
    exact List.mem_map.2 ⟨q, hq, rfl⟩
  have h : ∀ a, (a = p.1.1 ∨ a = p.1.2.1) → a = x := fun a ha => by
    have := (EnergyObj.mem_magneticAtoms (s := s) hord a).2 (Or.inl ⟨p.1, hk, ha⟩)
    rw [hx] at this
    simpa using this
  exact ⟨h _ (Or.inl rfl), h _ (Or.inr rfl)⟩

theorem ferroMatrix_single (hord : ∀ l, (order l).Perm l) (lat : M3 ℝ) (pos : Atom → V3 ℝ) {spin : Atom → ℝ} {x : Atom}
    (hx : s.magneticAtoms order = [x]) (hS : 0 < spin x) {N : ℕ} {a : Fin N → Atom} (ha : List.ofFn a = [x]) (k : V3 ℝ)
    (i j : Fin N) : s.ferroMatrix lat pos spin a k i j = (s.ferroEnergy lat pos spin x k : ℂ) := by
  have hi : ∀ i, a i = x := fun i => by
    have : a i ∈ List.ofFn a := List.mem_ofFn.2 ⟨i, rfl⟩
    rw [ha] at this
    simpa using this
  have hN : N = 1 := by simpa using congrArg List.length ha
  subst hN
  rw [St.ferroMatrix, of_apply, if_pos (Subsingleton.elim i j), hi, hi, ha, St.field, List.map_singleton, List.sum_singleton,
    St.transfer, Real.sqrt_mul_self hS.le, St.ferroEnergy]
  cases hn : s.getNotation with
  | error _ => simp [St.scalarFourier, St.bondFourier, hn]
  | ok q =>
    obtain ⟨dd, n, e, f⟩ := q
    simp only
    rw [scalarFourier_eq hn, scalarFourier_eq hn]
    have hb := fun p hp => bonds_single (p := p) hord hx hp
    generalize s.exchangeItems = l at hb
    have hS' : (spin x : ℂ) ≠ 0 := by exact_mod_cast hS.ne'
    induction l with
    | nil => simp
    | cons p l ih =>
      have ih := ih fun q hq => hb q (List.mem_cons_of_mem _ hq)
      obtain ⟨e1, e2⟩ := hb p List.mem_cons_self
      simp only [List.map_cons, List.sum_cons, e1, e2, and_self, if_true, Complex.ofReal_add, neg_dotProduct, zero_dotProduct] at ih ⊢
      rw [← ih]
      generalize List.sum (α := ℂ) (l.map _) = u
      generalize List.sum (α := ℂ) (l.map _) = v
      generalize k ⬝ᵥ displacement lat pos p.1 = θ
      push_cast
      rw [Complex.cos]
      simp only [mul_neg, neg_neg, neg_mul, mul_comm I (θ : ℂ)]
      field_simp
      simp
      ring

/-- **C73, one atom.** For a Hamiltonian of scalar products in any notation whose only magnetic atom has the spin `S`: for
every wave vector the only energy that `omega` reports is the textbook dispersion `Σ 2 E (cos(k·d) - 1) / S`, whatever its
sign (numbers up to 1e-8 are replaced by zero). -/
theorem C73_single (hord : ∀ l, (order l).Perm l) (lat : M3 ℝ) (pos : Atom → V3 ℝ) {spin : Atom → ℝ} {d : V3 ℝ}
    (hr : MagnonReady order spinVec s spin) (hcol : CollinearSpins (s.magneticAtoms order) spinVec spin (fun _ => 1) d)
    (hh : s.Heisenberg) {x : Atom} (hx : s.magneticAtoms order = [x]) :
    ∃ o t, init order lat pos spinVec s = (.ok o, t) ∧
      ∀ k chol eig sort, IsCholesky chol → IsEig eig → IsSort sort → ∀ (junk : Mat o.N) (z im : Bool),
        (o.omega t.cell (Colpa.solve chol eig sort) junk z false im k).1.1 =
          [some (round8 (s.ferroEnergy lat pos spin x k))] := by
  obtain ⟨o, t, a, h1, h2, h3⟩ := ferro_object hord lat pos hr hcol hh
  refine ⟨o, t, h1, fun k chol eig sort hc he hso junk z im => ?_⟩
  simp only [omega, h3 k]
  have hS : 0 < spin x := hcol.pos x (by rw [hx]; simp)
  have hN : o.N = 1 := by simpa [hx] using congrArg List.length h2
  exact omega_one hc he hso hN (ferroMatrix_single hord lat pos hx hS (h2.trans hx) k) junk z im

/-- **C74, two atoms with antiparallel spins.** For a Hamiltonian of scalar products in any notation with two magnetic atoms
`x` and `y`, whose spins of any lengths are antiparallel: with the energies `A(k)`, `B(k)` of deviations on the two
sublattices and the transfer `T(k)` between them, all computed from the parameters of the user, the two energies that `omega`
reports are `sqrt(((A + B)/2)² - |T|²) ± |A - B|/2`, if `h(k)` is positive definite, which means `A > 0` and `|T|² < A B`.
All other cases: the energies for `A + 1e-8`, `B + 1e-8`, minus the energies, or zeros or NaN. -/
theorem C74_antiparallel (hord : ∀ l, (order l).Perm l) (lat : M3 ℝ) (pos : Atom → V3 ℝ) {spin σ : Atom → ℝ} {d : V3 ℝ}
    (hr : MagnonReady order spinVec s spin) (hcol : CollinearSpins (s.magneticAtoms order) spinVec spin σ d)
    (hh : s.Heisenberg) {x y : Atom} (hxy : s.magneticAtoms order = [x, y]) (hσ : σ x ≠ σ y) :
    ∃ o t, init order lat pos spinVec s = (.ok o, t) ∧ ∀ k,
      let A := s.stiffness lat pos spin σ [x, y] k x
      let B := s.stiffness lat pos spin σ [x, y] k y
      let T := ‖s.transfer lat pos spin k x y‖
      let ε : ℝ := 1 / 10 ^ 8
      ((o.callH t.cell k).1.PosDef ↔ 0 < A ∧ T ^ 2 < A * B) ∧
      ∀ chol eig sort, IsCholesky chol → IsEig eig → IsSort sort → ∀ (junk : Mat o.N) (z im : Bool),
        let reported := (o.omega t.cell (Colpa.solve chol eig sort) junk z false im k).1.1
        let r := Real.sqrt (((A + B) / 2) ^ 2 - T ^ 2)
        let r' := Real.sqrt (((A + B) / 2 + ε) ^ 2 - T ^ 2)
        (0 < A ∧ T ^ 2 < A * B → reported =
          [some (round8 ((r + |A - B| / 2 : ℝ) : ℂ)), some (round8 ((r - |A - B| / 2 : ℝ) : ℂ))]) ∧
        (¬ (0 < A ∧ T ^ 2 < A * B) → 0 < A + ε ∧ T ^ 2 < (A + ε) * (B + ε) → reported =
          [some (round8 ((r' + |A - B| / 2 : ℝ) : ℂ)), some (round8 ((r' - |A - B| / 2 : ℝ) : ℂ))]) ∧
        (A < 0 ∧ T ^ 2 < A * B → reported =
          [some (round8 ((-(r + |A - B| / 2) : ℝ) : ℂ)), some (round8 ((-(r - |A - B| / 2) : ℝ) : ℂ))]) ∧
        (¬ (0 < A + ε ∧ T ^ 2 < (A + ε) * (B + ε)) → ¬ (A < 0 ∧ T ^ 2 < A * B) →
          reported = List.replicate 2 (if z then none else some 0)) := by
  obtain ⟨o, t, items, h1, h2, h3, h4, h5⟩ := heisenberg_setup hord lat pos hr hcol hh
  obtain ⟨z, hz1, hz⟩ := collinear_h hord hr hcol hh h2 h3 h5
  have ha : List.ofFn (atomAt o (t.magneticAtoms order)) = [x, y] := by rw [ofFn_atomAt h2 hord, h5, hxy]
  have hmode : ∀ k, TwoMode (o.callH t.cell k).1 (atomAt o (t.magneticAtoms order)) x y
      (s.stiffness lat pos spin σ [x, y] k) fun u v => z * s.transfer lat pos spin k u v := by
    intro k
    have hne : ∀ i j : Fin o.N, σ (atomAt o (t.magneticAtoms order) i) = σ (atomAt o (t.magneticAtoms order) j) ↔ i = j := by
      intro i j
      refine ⟨fun e => ?_, fun e => by rw [e]⟩
      apply atomAt_inj h2 hord
      have hm : ∀ i, atomAt o (t.magneticAtoms order) i = x ∨ atomAt o (t.magneticAtoms order) i = y := fun i => by
        have : atomAt o (t.magneticAtoms order) i ∈ [x, y] := by
          rw [← hxy, ← h5]
          exact atomAt_mem h2 hord i
        simpa using this
      rcases hm i with hi | hi <;> rcases hm j with hj | hj <;> rw [hi, hj] at e ⊢
      · exact absurd e hσ
      · exact absurd e.symm hσ
    refine ⟨ha, fun i j => ?_, fun i j => ?_, fun i j => ?_, fun i j => ?_, ?_⟩
    · rw [(hz k i j).1, ha]
      by_cases e : i = j
      · subst e
        simp [stiffness_eq]
      · rw [if_neg e, if_neg e, if_neg (fun h => e ((hne i j).1 h)), sub_zero]
    · rw [(hz k i j).2.1, ha]
      by_cases e : i = j
      · subst e
        simp [stiffness_eq]
      · rw [if_neg e, if_neg e, if_neg (fun h => e ((hne i j).1 h)), sub_zero]
    · rw [(hz k i j).2.2.1, if_congr (hne i j) rfl rfl]
    · rw [(hz k i j).2.2.2, if_congr (hne i j) rfl rfl, star_mul, transfer_star, mul_comm]
    · rw [← transfer_star, normSq_mul, normSq_mul, RCLike.star_def, normSq_conj]
  have hT : ∀ k, normSq (z * s.transfer lat pos spin k x y) = ‖s.transfer lat pos spin k x y‖ ^ 2 := by
    intro k
    have : normSq z = 1 := by
      have := hz1
      rw [RCLike.star_def, mul_conj] at this
      exact_mod_cast this
    rw [normSq_mul, this, one_mul, ← Complex.sq_norm]
  refine ⟨o, t, h1, fun k => ?_⟩
  have hm := hmode k
  simp only
  rw [← hT k]
  refine ⟨hm.posDef_iff, fun chol eig sort hc he hso junk z im => ⟨fun hp => ?_, fun hn hp => ?_, fun hp => ?_, fun hn hp => ?_⟩⟩
  · exact hm.omega_pos hc he hso hp junk z im
  · exact hm.omega_shifted hc he hso hn hp junk z im
  · exact hm.omega_neg hc he hso hp junk z im
  · exact hm.omega_none hc hn hp junk z im

/-! ### Examples -/

open MagnonExample FerroExample HistoryExample in
/-- C73, one atom: a chain in a notation with normalised spins, double counting and the factor -3. -/
example : ∃ o t, init id 1 (fun _ => 0) spinZ (st true true (-3) (-5) twice [(fe1, 2)]) = (.ok o, t) ∧
    ∀ k chol eig sort, IsCholesky chol → IsEig eig → IsSort sort → ∀ (junk : Mat o.N) (z im : Bool),
      (o.omega t.cell (Colpa.solve chol eig sort) junk z false im k).1.1 =
        [some (round8 ((6 * (1 - Real.cos (k 0)) : ℝ) : ℂ))] := by
  have hat : (st true true (-3) (-5) twice [(fe1, 2)]).magneticAtoms id = [fe1] := by
    show List.insertionSort (fun a b : Atom => a.index ≤ b.index)
      (List.dedup (twice.keys.flatMap (fun b => [b.1, b.2.1]) ++ keys [(fe1, 2)])) = _
    decide
  obtain ⟨o, t, h1, h2⟩ := C73_single (order := id) (fun _ => .refl _) 1 (fun _ => 0) (d := ![0, 0, 1])
    (ready true (by norm_num : (-3 : ℝ) ≠ 0) (by norm_num : (-5 : ℝ) ≠ 0))
    ⟨z_unit, fun _ _ => Or.inl rfl, fun _ _ => two_pos, fun _ _ => by simp [spinZ]⟩
    ⟨fun b m h => ⟨1, by obtain ⟨r, _, rfl⟩ := Option.map_eq_some_iff.1 h; rw [one_smul]; rfl⟩,
      fun b m h => ⟨1, by obtain ⟨r, _, rfl⟩ := Option.map_eq_some_iff.1 h; rw [one_smul]; rfl⟩⟩ hat
  refine ⟨o, t, h1, fun k chol eig sort hc he hso junk z im => ?_⟩
  rw [h2 k chol eig sort hc he hso junk z im]
  congr 3
  simp [St.ferroEnergy, St.getNotation, st, St.exchangeItems, twice, weight, displacement, absolute, Cell.rel, dotProduct,
    Fin.sum_univ_three, Matrix.one_apply]
  ring

namespace AlternatingExample

open HistoryExample FerroExample NeelExample

/-- Two bonds between two atoms, in a cell and between neighbouring cells. -/
def bonds : PyDict Bond ℕ := [((fe1, fe2, (0, 0, 0)), 0), ((fe1, fe2, (1, 0, 0)), 1)]

/-- A chain of two atoms with spin 2. -/
noncomputable def st : St ℝ :=
  { cell := fun _ => 1, next := 2, atoms := [fe1, fe2], exch := bonds, onSite := [], dc := some false, sn := some false,
    ef := some 1, osf := some 1, spin := fun _ => some 2, dist := fun _ => 1 }

theorem atoms : st.magneticAtoms id = [fe1, fe2] := by
  show List.insertionSort (fun a b : Atom => a.index ≤ b.index)
    (List.dedup (bonds.keys.flatMap (fun b => [b.1, b.2.1]) ++ keys ([] : PyDict Atom ℕ))) = _
  decide

theorem wf : st.WellFormed := by
  refine ⟨St.sound_of_lists ?_ ?_ ?_ ?_ ?_ ?_ ?_ ?_, fun h => by simp [st] at h, fun _ => ?_⟩
  · show bonds.keys.Nodup; decide
  · show (keys ([] : PyDict Atom ℕ)).Nodup; decide
  · show (bonds.map Prod.snd ++ ([] : PyDict Atom ℕ).map Prod.snd).Nodup; decide
  · show ∀ r ∈ bonds.map Prod.snd ++ ([] : PyDict Atom ℕ).map Prod.snd, r < 2; decide
  · show ∀ b ∈ bonds.keys, b.1 ∈ [fe1, fe2] ∧ b.2.1 ∈ [fe1, fe2]; decide
  · show ∀ a ∈ keys ([] : PyDict Atom ℕ), a ∈ [fe1, fe2]; decide
  · show ∀ a ∈ [fe1, fe2], ∀ b ∈ [fe1, fe2], a.index = b.index → a = b; decide
  · show ∀ b ∈ bonds.keys, b.mirror ≠ b; decide
  · intro b hb
    have : b = (fe1, fe2, (0, 0, 0)) ∨ b = (fe1, fe2, (1, 0, 0)) := by simpa [st, bonds] using hb
    rcases this with rfl | rfl
    · exact Or.inr (by decide)
    · exact Or.inl (by decide)

theorem fourier (k : V3 ℝ) : st.scalarFourier 1 (fun _ => 0) (fun _ => 2) k fe1 fe2 = 2 * (1 + exp (-(I * (k 0 : ℂ)))) ∧
    st.scalarFourier 1 (fun _ => 0) (fun _ => 2) k fe2 fe1 = 2 * (1 + exp (I * (k 0 : ℂ))) ∧
    st.scalarFourier 1 (fun _ => 0) (fun _ => 2) k fe1 fe1 = 0 ∧ st.scalarFourier 1 (fun _ => 0) (fun _ => 2) k fe2 fe2 = 0 := by
  have h12 : fe1 ≠ fe2 := by decide
  have hn : st.getNotation = .ok (false, false, 1, 1) := rfl
  have hi : st.exchangeItems = [((fe1, fe2, (0, 0, 0)), 1), ((fe1, fe2, (1, 0, 0)), 1)] := rfl
  have h0 : k ⬝ᵥ displacement 1 (fun _ => 0) (fe1, fe2, (0, 0, 0)) = 0 := by
    simp [displacement, absolute, Cell.rel, dotProduct, Fin.sum_univ_three, Matrix.one_apply]
  have h1 : k ⬝ᵥ displacement 1 (fun _ => 0) (fe1, fe2, (1, 0, 0)) = k 0 := by
    simp [displacement, absolute, Cell.rel, dotProduct, Fin.sum_univ_three, Matrix.one_apply]
  refine ⟨?_, ?_, ?_, ?_⟩ <;> rw [scalarFourier_eq hn, hi] <;> simp [h0, h1, h12, h12.symm, weight] <;> ring

end AlternatingExample

open AlternatingExample HistoryExample FerroExample in
/-- C73, `J(k)`: the element between the two atoms of the chain is `(1 + exp(-i k))/2` for each component. -/
example : ∃ o t, ∃ a : Fin o.N → Atom, init id 1 (fun _ => 0) MagnonExample.spinZ AlternatingExample.st = (.ok o, t) ∧
    List.ofFn a = [fe1, fe2] ∧ ∀ k i j, a i = fe1 → a j = fe2 → o.J t.cell k i j 0 0 = (1 + exp (-(I * (k 0 : ℂ)))) / 2 := by
  obtain ⟨o, t, a, h1, h2, h3⟩ := C73_fourier (s := AlternatingExample.st) (order := id) (fun _ => .refl _) 1 (fun _ => 0)
    (spinVec := MagnonExample.spinZ) (spin := fun _ => 2)
    ⟨AlternatingExample.wf.paired, fun _ _ => ⟨rfl, two_ne_zero⟩, ⟨false, false, 1, 1, rfl, one_ne_zero, one_ne_zero⟩, fun a _ => rfl⟩
  refine ⟨o, t, a, h1, h2.trans AlternatingExample.atoms, fun k i j hi hj => ?_⟩
  have h := congrFun (congrFun (h3 k i j) 0) 0
  rw [if_neg (fun e => by subst e; rw [hi] at hj; revert hj; decide), add_zero, hi, hj] at h
  have h4 := (fourier k).1
  rw [St.scalarFourier, ← h, Matrix.smul_apply, smul_eq_mul] at h4
  push_cast at h4
  linear_combination h4 / 4

open AlternatingExample HistoryExample FerroExample in
/-- C73, parallel spins: the matrix of the same chain, if its spins were parallel; it is not positive. -/
example (k : V3 ℝ) : AlternatingExample.st.ferroMatrix 1 (fun _ => 0) (fun _ => 2) ![fe1, fe2] k =
    !![-4, 2 * (1 + exp (I * (k 0 : ℂ))); 2 * (1 + exp (-(I * (k 0 : ℂ)))), -4] := by
  have hs2 : Real.sqrt (2 * 2) = 2 := Real.sqrt_mul_self two_pos.le
  ext i j
  fin_cases i <;> fin_cases j <;> simp [St.ferroMatrix, St.transfer, St.field, fourier] <;> norm_num

open AlternatingExample HistoryExample FerroExample in
/-- The hypotheses of `C73_parallel` hold for the chain. -/
example : ∃ o t, ∃ a : Fin o.N → Atom, init id 1 (fun _ => 0) MagnonExample.spinZ AlternatingExample.st = (.ok o, t) ∧
    List.ofFn a = [fe1, fe2] := by
  obtain ⟨o, t, a, h1, h2, _⟩ := C73_parallel (s := AlternatingExample.st) (order := id) (fun _ => .refl _) 1 (fun _ => 0)
    (spinVec := MagnonExample.spinZ) (spin := fun _ => 2) (d := ![0, 0, 1])
    ⟨AlternatingExample.wf.paired, fun _ _ => ⟨rfl, two_ne_zero⟩, ⟨false, false, 1, 1, rfl, one_ne_zero, one_ne_zero⟩, fun a _ => rfl⟩
    ⟨z_unit, fun _ _ => Or.inl rfl, fun _ _ => two_pos, fun _ _ => by simp [MagnonExample.spinZ]⟩
    ⟨fun b m h => ⟨1, by obtain ⟨r, _, rfl⟩ := Option.map_eq_some_iff.1 h; rw [one_smul]; rfl⟩,
      fun b m h => by simp [St.valO, AlternatingExample.st, PyDict.get?] at h⟩
  exact ⟨o, t, a, h1, h2.trans AlternatingExample.atoms⟩

open AlternatingExample NeelExample HistoryExample FerroExample in
/-- C74: both energies of the antiferromagnetic chain are `sqrt(8 (1 - cos k))`. -/
example : ∃ o t, init id 1 (fun _ => 0) neel AlternatingExample.st = (.ok o, t) ∧ ∀ k : V3 ℝ, Real.cos (k 0) < 1 →
    ∀ chol eig sort, IsCholesky chol → IsEig eig → IsSort sort → ∀ (junk : Mat o.N) (z im : Bool),
      (o.omega t.cell (Colpa.solve chol eig sort) junk z false im k).1.1 =
        [some (round8 ((Real.sqrt (8 * (1 - Real.cos (k 0))) : ℝ) : ℂ)),
         some (round8 ((Real.sqrt (8 * (1 - Real.cos (k 0))) : ℝ) : ℂ))] := by
  obtain ⟨o, t, h1, h2⟩ := C74_antiparallel (s := AlternatingExample.st) (order := id) (fun _ => .refl _) 1 (fun _ => 0)
    (spin := fun _ => 2) (σ := sign) (d := ![0, 0, 1])
    ⟨AlternatingExample.wf.paired, fun _ _ => ⟨rfl, two_ne_zero⟩, ⟨false, false, 1, 1, rfl, one_ne_zero, one_ne_zero⟩, fun a _ => rfl⟩
    ⟨z_unit, fun a _ => by unfold sign; split_ifs <;> simp, fun _ _ => two_pos, fun a _ => rfl⟩
    ⟨fun b m h => ⟨1, by obtain ⟨r, _, rfl⟩ := Option.map_eq_some_iff.1 h; rw [one_smul]; rfl⟩,
      fun b m h => by simp [St.valO, AlternatingExample.st, PyDict.get?] at h⟩ AlternatingExample.atoms
    (by rw [sign_eq.1, sign_eq.2]; norm_num)
  refine ⟨o, t, h1, fun k hk chol eig sort hc he hso junk z im => ?_⟩
  have hs2 : Real.sqrt (2 * 2) = 2 := Real.sqrt_mul_self two_pos.le
  have hA : AlternatingExample.st.stiffness 1 (fun _ => 0) (fun _ => 2) sign [fe1, fe2] k fe1 = 4 := by
    have := fourier 0
    simp [St.stiffness, St.transfer, St.field, fourier, sign_eq.1, sign_eq.2]
    norm_num
  have hB : AlternatingExample.st.stiffness 1 (fun _ => 0) (fun _ => 2) sign [fe1, fe2] k fe2 = 4 := by
    simp [St.stiffness, St.transfer, St.field, fourier, sign_eq.1, sign_eq.2]
    norm_num
  have hT : ‖AlternatingExample.st.transfer 1 (fun _ => 0) (fun _ => 2) k fe1 fe2‖ ^ 2 = 8 * (1 + Real.cos (k 0)) := by
    rw [St.transfer, (fourier (-k)).1, Complex.sq_norm, hs2]
    have : (2 * (2 * (1 + exp (-(I * ((-k) 0 : ℝ))))) / (2 : ℝ) : ℂ) = 2 * (1 + exp ((k 0 : ℝ) * I)) := by
      push_cast
      rw [Pi.neg_apply]
      push_cast
      rw [mul_neg, neg_neg, mul_comm I]
      ring
    have h' : (2 * (1 + (↑(Real.cos (k 0)) + ↑(Real.sin (k 0)) * I)) : ℂ) =
        ((2 * (1 + Real.cos (k 0)) : ℝ) : ℂ) + ((2 * Real.sin (k 0) : ℝ) : ℂ) * I := by
      push_cast
      ring
    rw [this, exp_mul_I, ← ofReal_cos, ← ofReal_sin, h', normSq_add_mul_I]
    nlinarith [Real.sin_sq_add_cos_sq (k 0)]
  obtain ⟨_, h3⟩ := h2 k
  have h4 := (h3 chol eig sort hc he hso junk z im).1
  rw [hA, hB, hT] at h4
  rw [h4 ⟨by norm_num, by linarith⟩]
  rw [show ((4 + 4 : ℝ) / 2) ^ 2 - 8 * (1 + Real.cos (k 0)) = 8 * (1 - Real.cos (k 0)) by ring, sub_self, abs_zero, zero_div,
    add_zero, sub_zero]

end Magnopy
