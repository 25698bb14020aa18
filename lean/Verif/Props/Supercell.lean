import Verif.Lemmas.SupercellWaves
import Verif.Props.Dispersion

/-!
# A supercell has the energy and the magnons of the crystal (C88)
-/

set_option autoImplicit false
set_option linter.unusedSectionVars false

namespace Magnopy

open PyDict Matrix Complex MagnonObj
open scoped ComplexOrder

variable {order order' : List Atom → List Atom} {lat lat' : M3 ℝ} {pos pos' : Atom → V3 ℝ}
  {spinVec spinVec' : Atom → Option (V3 ℝ)} {s s' : St ℝ} {spin spin' : Atom → ℝ} {n : ℕ} {f : Supercell n}

/-- **C88, energy.** If `s'` describes the magnet `s` with a supercell, with any lattice vectors, numbering and notations of the
two Hamiltonians, then the classical energies agree for all configurations. -/
theorem C88_energy (hord : ∀ l, (order l).Perm l) (hord' : ∀ l, (order' l).Perm l) (hr : MagnonReady order spinVec s spin)
    (hr' : MagnonReady order' spinVec' s' spin')
    (hf : f.Holds (s.magneticAtoms order) (s'.magneticAtoms order') spin spin' s s')
    {Γ Γ' : Type} [AddCommGroup Γ] [AddCommGroup Γ'] [Fintype Γ] [Fintype Γ'] {ι : Γ' →+ Γ} {c : Config ℝ Γ} {c' : Config ℝ Γ'}
    (hs : f.Same (s.magneticAtoms order) ι c c') : s'.physics c' spin' = s.physics c spin := by
  obtain ⟨o, t, items, _, h2, h3, h4, h5⟩ := ready_setup hord 1 0 hr
  obtain ⟨o', t', items', _, h2', h3', h4', h5'⟩ := ready_setup hord' 1 0 hr'
  rw [← h5 Γ c, ← h5' Γ' c']
  rw [← h4] at hf hs
  rw [← h4'] at hf
  have h0 : ∀ a ∈ t.magneticAtoms order, spin a ≠ 0 := fun a ha => (h3.spins a (magneticAtoms_mem hord h3.wf.toSound ha)).2
  exact Supercell.energy_super hf h2 h2'
    (fun a ha b hb m m' R => Supercell.couple_super hf h2 h2' hr h3 hr' h3' h0 ha hb m m' R) hs

/-- **C88, wave vectors.** If the lattice vectors of the crystal are independent, then every supercell of `n` cells has `n` wave
vectors that are equivalent to zero for the supercell, and not equivalent to each other for the crystal. -/
theorem C88_waves (hc : ∀ R, ∃! p : Fin n × Cell, f.sub p.2 + f.rep p.1 = R)
    (hlat : ∀ R : Cell, absolute lat' R.rel = absolute lat (f.sub R).rel) (hdet : lat.det ≠ 0) :
    ∃ G : Fin n → V3 ℝ, FoldedWaves lat lat' G :=
  Supercell.exists_waves hc hlat hdet

/-- The two objects of C88. -/
theorem supercell_objects (hord : ∀ l, (order l).Perm l) (hord' : ∀ l, (order' l).Perm l)
    (hr : MagnonReady order spinVec s spin) (hr' : MagnonReady order' spinVec' s' spin')
    (hf : f.Holds (s.magneticAtoms order) (s'.magneticAtoms order') spin spin' s s')
    (hm : f.Moves (s.magneticAtoms order) lat lat' pos pos' spinVec spinVec') :
    ∃ o t o' t', init order lat pos spinVec s = (.ok o, t) ∧ init order' lat' pos' spinVec' s' = (.ok o', t') ∧ o'.N = o.N * n ∧
      (s'.OnSiteSymmetric → ∀ k, (o'.callH t'.cell k).1.IsHermitian) ∧ ∀ G, FoldedWaves lat lat' G → ∀ k, ∃ (E : (Fin o.N ⊕ Fin o.N) × Fin n ≃ Fin o'.N ⊕ Fin o'.N)
        (p : Fin n → Fin o.N ⊕ Fin o.N → Fin n → ℂ),
        Folds (o'.callH t'.cell k).1 (fun u => (o.callH t.cell (k + G u)).1) E p := by
  obtain ⟨o, t, items, h1, h2, h3, h4, _⟩ := ready_setup hord lat pos hr
  obtain ⟨o', t', items', h1', h2', h3', h4', _⟩ := ready_setup hord' lat' pos' hr'
  rw [← h4] at hf hm
  rw [← h4'] at hf
  have h0 : ∀ a ∈ t.magneticAtoms order, spin a ≠ 0 := fun a ha => (h3.spins a (magneticAtoms_mem hord h3.wf.toSound ha)).2
  obtain ⟨e, he⟩ := Supercell.number hf h2 hord h2' hord'
  refine ⟨o, t, o', t', h1, h1', by simpa using (Fintype.card_congr e).symm,
    fun hs => C39_private hord' hr'.inv hr'.wf.alloc h1' (h3'.symmetric hr'.complete hs (St.getNotation_ok_iff.1 h2'.flags).1), fun G hG k => ⟨_, _, Supercell.folds hf hm h2 hord h2'
    hord' he (fun a ha b hb m m' R => Supercell.couple_super hf h2 h2' hr h3 hr' h3' h0 ha hb m m' R) hG k⟩⟩

/-- **C88, magnons.** If `s'` describes the magnet `s` with a supercell of `n` cells, then the supercell has `n` times as many
magnons.  For the wave vectors `G` of the supercell: `h'(k)` is positive definite if and only if all `h(k + G)` are.  In this case,
and if all `h(k + G)` are negative definite, the energies that `omega` reports for the supercell at `k` are those that it reports
for the crystal at all `k + G`, with the same multiplicities, for all flags and all correct routines of linear algebra.  If not all
`h(k + G)` are positive definite, but all `h(k + G) + 1e-8` are, then they are the energies of those matrices.  In all other cases
they are zeros or NaN.

Missing for the full property: the energies of the crystal in the last two cases.  This is false of the code, see `C88_false`. -/
theorem C88_energies_partial (hord : ∀ l, (order l).Perm l) (hord' : ∀ l, (order' l).Perm l)
    (hr : MagnonReady order spinVec s spin) (hr' : MagnonReady order' spinVec' s' spin')
    (hf : f.Holds (s.magneticAtoms order) (s'.magneticAtoms order') spin spin' s s')
    (hm : f.Moves (s.magneticAtoms order) lat lat' pos pos' spinVec spinVec') :
    ∃ o t o' t', init order lat pos spinVec s = (.ok o, t) ∧ init order' lat' pos' spinVec' s' = (.ok o', t') ∧ o'.N = o.N * n ∧
      ∀ G, FoldedWaves lat lat' G → ∀ k, let h := fun u => (o.callH t.cell (k + G u)).1
        ((o'.callH t'.cell k).1.PosDef ↔ ∀ u, (h u).PosDef) ∧
        ∀ chol eig sort chol' eig' sort', IsCholesky chol → IsEig eig → IsSort sort → IsCholesky chol' → IsEig eig' →
          IsSort sort' → ∀ (junk : Mat o.N) (junk' : Mat o'.N) (z rg im : Bool),
          let reported := (o'.omega t'.cell (Colpa.solve chol' eig' sort') junk' z rg im k).1.1
          ((∀ u, (h u).PosDef) ∨ (∀ u, (-h u).PosDef) → reported.Perm ((List.finRange n).flatMap fun u =>
            (o.omega t.cell (Colpa.solve chol eig sort) junk z rg im (k + G u)).1.1)) ∧
          ((¬ ∀ u, (h u).PosDef) → (∀ u, (h u + diagonal fun _ => 1 / 10 ^ 8).PosDef) →
            reported.Perm ((List.finRange n).flatMap fun u =>
              (omegaOf (Colpa.solve chol eig sort) junk z rg im (h u + diagonal fun _ => 1 / 10 ^ 8)).1)) ∧
          (s'.OnSiteSymmetric → (¬ ∀ u, (h u + diagonal fun _ => 1 / 10 ^ 8).PosDef) → (¬ ∀ u, (-h u).PosDef) →
            reported = if z then List.replicate (if rg then 2 * o'.N else o'.N) none else List.replicate o'.N (some 0)) := by
  obtain ⟨o, t, o', t', h1, h1', hN, hsym, h⟩ := supercell_objects hord hord' hr hr' hf hm
  refine ⟨o, t, o', t', h1, h1', hN, fun G hG k => ?_⟩
  obtain ⟨E, p, hF⟩ := h G hG k
  have hsh : ∀ M : Mat o.N, (M + diagonal fun _ => 1 / 10 ^ 8) = shift M (1 / 10 ^ 8) := fun M => by simp [shift]
  simp only [hsh]
  exact ⟨hF.posDef_iff, fun chol eig sort chol' eig' sort' hc he hso hc' he' hso' junk junk' z rg im =>
    ⟨fun hD => hD.elim (fun hD => hF.omegaOf_perm hc he hso hc' he' hso' hD junk junk' z rg im)
      fun hD => hF.omegaOf_opposite hc he hso hc' he' hso' hD junk junk' z rg im,
      fun hD hD' => hF.omegaOf_shifted hc he hso hc' he' hso' hD hD' junk junk' z rg im,
      fun hs hD hD' => hF.omegaOf_fallback hc' (hsym hs k) hD hD' junk' z rg im⟩⟩

/-- The full statement of C88 for the energies. -/
def C88_statement : Prop :=
  ∀ (n : ℕ) (f : Supercell n) (order order' : List Atom → List Atom), (∀ l, (order l).Perm l) → (∀ l, (order' l).Perm l) →
    ∀ (lat lat' : M3 ℝ) (pos pos' : Atom → V3 ℝ) (spinVec spinVec' : Atom → Option (V3 ℝ)) (s s' : St ℝ) (spin spin' : Atom → ℝ),
    MagnonReady order spinVec s spin → MagnonReady order' spinVec' s' spin' →
    f.Holds (s.magneticAtoms order) (s'.magneticAtoms order') spin spin' s s' →
    f.Moves (s.magneticAtoms order) lat lat' pos pos' spinVec spinVec' →
    ∃ o t o' t', init order lat pos spinVec s = (.ok o, t) ∧ init order' lat' pos' spinVec' s' = (.ok o', t') ∧
      ∀ G, FoldedWaves lat lat' G → ∀ k chol eig sort chol' eig' sort', IsCholesky chol → IsEig eig → IsSort sort →
        IsCholesky chol' → IsEig eig' → IsSort sort' → ∀ (junk : Mat o.N) (junk' : Mat o'.N) (z rg im : Bool),
          (o'.omega t'.cell (Colpa.solve chol' eig' sort') junk' z rg im k).1.1.Perm
            ((List.finRange n).flatMap fun u => (o.omega t.cell (Colpa.solve chol eig sort) junk z rg im (k + G u)).1.1)

namespace SupercellExample

open HistoryExample FerroExample MagnonExample

/-- The ferromagnetic chain with one atom. -/
noncomputable def chain : St ℝ := FerroExample.st false false (-1) (-1) once []

/-- Its bonds, if the cell is doubled. -/
def bonds : PyDict Bond ℕ := [((fe1, fe2, (0, 0, 0)), 0), ((fe2, fe1, (1, 0, 0)), 1)]

/-- The same chain with the doubled cell. -/
noncomputable def double : St ℝ :=
  { cell := fun _ => 1, next := 2, atoms := [fe1, fe2], exch := bonds, onSite := [], dc := some false, sn := some false,
    ef := some (-1), osf := some (-1), spin := fun _ => some 2, dist := fun _ => 1 }

theorem atoms : double.magneticAtoms id = [fe1, fe2] := by
  show List.insertionSort (fun a b : Atom => a.index ≤ b.index)
    (List.dedup (bonds.keys.flatMap (fun b => [b.1, b.2.1]) ++ keys ([] : PyDict Atom ℕ))) = _
  decide

theorem wf : double.WellFormed := by
  refine ⟨St.sound_of_lists ?_ ?_ ?_ ?_ ?_ ?_ ?_ ?_, fun h => by simp [double] at h, fun _ => ?_⟩
  · show bonds.keys.Nodup; decide
  · show (keys ([] : PyDict Atom ℕ)).Nodup; decide
  · show (bonds.map Prod.snd ++ ([] : PyDict Atom ℕ).map Prod.snd).Nodup; decide
  · show ∀ r ∈ bonds.map Prod.snd ++ ([] : PyDict Atom ℕ).map Prod.snd, r < 2; decide
  · show ∀ b ∈ bonds.keys, b.1 ∈ [fe1, fe2] ∧ b.2.1 ∈ [fe1, fe2]; decide
  · show ∀ a ∈ keys ([] : PyDict Atom ℕ), a ∈ [fe1, fe2]; decide
  · show ∀ a ∈ [fe1, fe2], ∀ b ∈ [fe1, fe2], a.index = b.index → a = b; decide
  · show ∀ b ∈ bonds.keys, b.mirror ≠ b; decide
  · intro b hb
    have : b = (fe1, fe2, (0, 0, 0)) ∨ b = (fe2, fe1, (1, 0, 0)) := by simpa [double, bonds] using hb
    rcases this with rfl | rfl
    · exact Or.inr (by decide)
    · exact Or.inl (by decide)

theorem double_ready : MagnonReady id spinZ double fun _ => 2 :=
  ⟨wf.paired, fun _ _ => ⟨rfl, two_ne_zero⟩, ⟨false, false, -1, -1, rfl, by norm_num, by norm_num⟩, fun _ _ => rfl⟩

theorem chain_ready : MagnonReady id spinZ chain fun _ => 2 :=
  ⟨(once_ready false (e := -1) (o := -1) (by norm_num)).wf, fun _ _ => ⟨rfl, two_ne_zero⟩,
    ⟨false, false, -1, -1, rfl, by norm_num, by norm_num⟩, fun _ _ => rfl⟩

theorem chain_atoms : chain.magneticAtoms id = [fe1] := atoms_once _ _ _

/-- Two cells. -/
def two : Supercell 2 where
  sub := ⟨⟨fun R => (2 * R.1, R.2.1, R.2.2), by simp⟩, fun R R' => by ext <;> simp [mul_add]⟩
  rep := ![(0, 0, 0), (1, 0, 0)]
  name := fun _ => ![fe1, fe2]

theorem two_cells (R : Cell) : ∃! p : Fin 2 × Cell, two.sub p.2 + two.rep p.1 = R := by
  obtain ⟨x, y, z⟩ := R
  have h : ∀ (m : Fin 2) (R : Cell), two.sub R + two.rep m = (2 * R.1 + m.1, R.2.1, R.2.2) := by
    intro m R
    fin_cases m <;> simp [two]
  refine ⟨(⟨(x % 2).toNat, by omega⟩, (x / 2, y, z)), ?_, ?_⟩
  · simp only [h, Prod.mk.injEq, and_true]
    omega
  · rintro ⟨m, a, b, c⟩ hp
    simp only [h, Prod.mk.injEq] at hp
    obtain ⟨hx, rfl, rfl⟩ := hp
    have := m.2
    simp only [Prod.mk.injEq, and_true]
    exact ⟨Fin.ext (by simp only; omega), by omega⟩

theorem valE_chain (b : Bond) : chain.valE b = if b = (fe1, fe1, (1, 0, 0)) then some 1 else none := by
  have h0 : chain.exch = once := rfl
  by_cases hb : b ∈ once.keys
  · obtain ⟨r, hr⟩ := mem_keys_iff.1 hb
    rw [if_pos (by simpa [once] using hb), St.valE, h0, hr]
    rfl
  · rw [if_neg (by simpa [once] using hb)]
    exact St.valE_eq_none_iff.2 hb

theorem valE_double (b : Bond) : double.valE b = if b = (fe1, fe2, (0, 0, 0)) ∨ b = (fe2, fe1, (1, 0, 0)) then some 1 else none := by
  have h0 : double.exch = bonds := rfl
  by_cases hb : b ∈ bonds.keys
  · obtain ⟨r, hr⟩ := mem_keys_iff.1 hb
    rw [if_pos (by simpa [bonds] using hb), St.valE, h0, hr]
    rfl
  · rw [if_neg (by simpa [bonds] using hb)]
    exact St.valE_eq_none_iff.2 hb

theorem two_bonds (m m' : Fin 2) (R : Cell) : double.interaction (fun _ => 2) (two.name fe1 m, two.name fe1 m', R) =
    chain.interaction (fun _ => 2) (fe1, fe1, two.sub R + two.rep m' - two.rep m) := by
  have h1 : double.getNotation = .ok (false, false, -1, -1) := rfl
  have h2 : chain.getNotation = .ok (false, false, -1, -1) := rfl
  obtain ⟨x, y, z⟩ := R
  have h12 : fe1 ≠ fe2 := by decide
  simp only [St.interaction, h1, h2, valE_chain, valE_double]
  congr 1
  have hget : ∀ (p : Prop) [Decidable p], (if p then some (1 : M3 ℝ) else none).getD 0 = if p then 1 else 0 := by
    intro p _; split_ifs <;> rfl
  simp only [hget]
  have hT : ∀ (p : Prop) [Decidable p], (if p then (1 : M3 ℝ) else 0)ᵀ = if p then 1 else 0 := by
    intro p _; split_ifs <;> simp
  simp only [hT]
  fin_cases m <;> fin_cases m' <;>
    simp [two, Bond.mirror, h12, h12.symm]
  · rw [if_neg (by omega), if_neg (by omega), add_zero]
  · exact if_congr (by omega) rfl rfl
  · exact if_congr (by omega) rfl rfl
  · rw [if_neg (by omega), if_neg (by omega), add_zero]

theorem two_holds : two.Holds (chain.magneticAtoms id) (double.magneticAtoms id) (fun _ => 2) (fun _ => 2) chain double := by
  rw [chain_atoms, atoms]
  have h12 : fe1 ≠ fe2 := by decide
  refine ⟨two_cells, ?_, ?_, fun _ _ _ => rfl, ?_, ?_⟩
  · intro a ha b hb m m' e
    rw [List.mem_singleton] at ha hb
    subst ha hb
    refine ⟨rfl, ?_⟩
    fin_cases m <;> fin_cases m' <;> simp_all [two]
  · intro a'
    simp [two, Fin.exists_fin_two, eq_comm]
  · intro a ha b hb m m' R
    rw [List.mem_singleton] at ha hb
    subst ha hb
    exact two_bonds m m' R
  · intro a ha m
    have h1 : double.getNotation = .ok (false, false, -1, -1) := rfl
    have h2 : chain.getNotation = .ok (false, false, -1, -1) := rfl
    simp only [St.siteEnergy, h1, h2]
    rfl

/-- The lattice of the doubled cell. -/
def lat2 : M3 ℝ := !![2, 0, 0; 0, 1, 0; 0, 0, 1]

/-- The second atom is in the middle of the doubled cell. -/
noncomputable def pos2 (a : Atom) : V3 ℝ := if a = fe2 then ![1 / 2, 0, 0] else 0

theorem two_moves : two.Moves (chain.magneticAtoms id) 1 lat2 (fun _ => 0) pos2 spinZ spinZ := by
  rw [chain_atoms]
  have h12 : fe1 ≠ fe2 := by decide
  refine ⟨fun R => ?_, fun a ha m => ?_, fun _ _ _ => rfl⟩
  · funext i
    fin_cases i <;> simp [absolute, Cell.rel, two, lat2, Fin.sum_univ_three, Matrix.one_apply, mul_comm]
  · rw [List.mem_singleton] at ha
    subst ha
    funext i
    fin_cases m <;> fin_cases i <;> simp [absolute, Cell.rel, two, lat2, pos2, Fin.sum_univ_three, h12, Matrix.one_apply]

/-- The wave vectors of the doubled cell. -/
noncomputable def waves : Fin 2 → V3 ℝ := ![0, ![Real.pi, 0, 0]]

theorem two_waves : FoldedWaves 1 lat2 waves := by
  have hpi := Real.pi_pos
  have hodd : ∀ m : ℤ, Real.pi ≠ 2 * Real.pi * m := by
    intro m h
    have h1 : (1 : ℝ) = 2 * m := by
      apply mul_left_cancel₀ hpi.ne'
      linarith
    have h2 : (1 : ℤ) = 2 * m := by exact_mod_cast h1
    omega
  refine ⟨fun t R => ?_, fun t t' htt => ⟨(1, 0, 0), fun m => ?_⟩⟩
  · fin_cases t
    · exact ⟨0, by simp [waves]⟩
    · exact ⟨R.1, by simp [waves, absolute, Cell.rel, lat2, dotProduct, Fin.sum_univ_three]; ring⟩
  · fin_cases t <;> fin_cases t'
    · exact absurd rfl htt
    · simp only [waves, absolute, Cell.rel, dotProduct, Fin.sum_univ_three]
      simp
      intro h
      exact hodd (-m) (by push_cast; linarith)
    · simp only [waves, absolute, Cell.rel, dotProduct, Fin.sum_univ_three]
      simp
      exact hodd m
    · exact absurd rfl htt

theorem chain_energy (k : V3 ℝ) : chain.ferroEnergy 1 (fun _ => 0) (fun _ => 2) fe1 k = 4 * (1 - Real.cos (k 0)) := by
  simp [St.ferroEnergy, St.getNotation, chain, FerroExample.st, St.exchangeItems, once, weight, displacement, absolute, Cell.rel,
    dotProduct, Fin.sum_univ_three, Matrix.one_apply]
  ring

/-- The matrix of the chain, shifted by a number. -/
theorem chain_matrix : ∃ o t, init id 1 (fun _ => 0) spinZ chain = (.ok o, t) ∧ o.N = 1 ∧ ∀ (k : V3 ℝ) (x : ℝ),
    ∃ M : Matrix (Fin o.N) (Fin o.N) ℂ, (∀ i j, M i j = ((4 * (1 - Real.cos (k 0)) + x : ℝ) : ℂ)) ∧
      (o.callH t.cell k).1 + (diagonal fun _ => (x : ℂ)) = fromBlocks M 0 0 M := by
  obtain ⟨o, t, a, h1, h2, h3⟩ := ferro_object (s := chain) (order := id) (fun _ => .refl _) 1 (fun _ => 0)
    (spinVec := spinZ) (spin := fun _ => 2) (d := ![0, 0, 1]) chain_ready
    ⟨z_unit, fun _ _ => Or.inl rfl, fun _ _ => two_pos, fun _ _ => by simp [spinZ]⟩
    ⟨fun b m h => ⟨1, by obtain ⟨r, _, rfl⟩ := Option.map_eq_some_iff.1 h; rw [one_smul]; rfl⟩,
      fun b m h => by simp [St.valO, chain, FerroExample.st, PyDict.get?] at h⟩
  have hN : o.N = 1 := by simpa [chain_atoms] using congrArg List.length h2
  refine ⟨o, t, h1, hN, fun k x => ⟨chain.ferroMatrix 1 (fun _ => 0) (fun _ => 2) a k + diagonal fun _ => (x : ℂ), fun i j => ?_, ?_⟩⟩
  · have hij : i = j := by
      apply Fin.ext
      omega
    subst hij
    rw [Matrix.add_apply, diagonal_apply_eq, ferroMatrix_single (fun _ => .refl _) 1 _ chain_atoms two_pos (h2.trans chain_atoms),
      chain_energy]
    push_cast
    ring
  · rw [h3]
    ext i j
    rcases i with i | i <;> rcases j with j | j <;> simp [diagonal_apply]

theorem cos_waves : Real.cos ((0 + waves 0 : V3 ℝ) 0) = 1 ∧ Real.cos ((0 + waves 1 : V3 ℝ) 0) = -1 := by
  simp [waves]

theorem posDef_blocks {N : ℕ} (hN : N = 1) {M : Matrix (Fin N) (Fin N) ℂ} {x : ℝ} (hM : ∀ i j, M i j = (x : ℂ)) :
    (fromBlocks M 0 0 M : Mat N).PosDef ↔ 0 < x := by
  have h : SingleMode (fromBlocks M 0 0 M : Mat N) x x 0 := ⟨hN, fun i j => hM i j, fun i j => hM i j, fun _ _ => rfl, fun _ _ => by simp⟩
  rw [h.posDef_iff, map_zero]
  exact ⟨And.left, fun hx => ⟨hx, mul_pos hx hx⟩⟩

/-- The cells of a ring of two double cells, as cells of a ring of four. -/
def ring : ZMod 2 →+ ZMod 4 := ⟨⟨fun γ => ((2 * γ.val : ℕ) : ZMod 4), by decide⟩, by decide⟩

theorem ring_cast (z : ℤ) : ring (z : ZMod 2) = ((2 * z : ℤ) : ZMod 4) := by
  have : ring.comp (Int.castAddHom (ZMod 2)) = (Int.castAddHom (ZMod 4)).comp (AddMonoidHom.mulLeft 2) :=
    AddMonoidHom.ext_int (by decide)
  exact DFunLike.congr_fun this z

theorem ring_bijective : Function.Bijective fun p : ZMod 2 × Fin 2 => ring p.1 + (p.2.1 : ZMod 4) := by decide

end SupercellExample

open SupercellExample MagnonExample in
/-- **C88 is false of the code** if the smallest energy is zero: for the ferromagnetic chain with one atom, `omega` reports 0 at the
wave vector zero and 8 at π.  For the doubled cell and the wave vector zero it reports 8 + 1e-8, because it shifts the whole matrix. -/
theorem C88_false : ¬ C88_statement := by
  intro h
  obtain ⟨o, t, o', t', h1, h1', h2⟩ := h 2 two id id (fun _ => .refl _) (fun _ => .refl _) 1 lat2 (fun _ => 0) pos2 spinZ spinZ chain
    double (fun _ => 2) (fun _ => 2) chain_ready double_ready two_holds two_moves
  obtain ⟨p, q, p', q', g1, g1', _, g2⟩ := C88_energies_partial (order := id) (order' := id) (fun _ => .refl _) (fun _ => .refl _)
    chain_ready double_ready two_holds two_moves
  obtain ⟨x, y, f1, hN, f2⟩ := chain_matrix
  rw [h1] at f1 g1
  rw [h1'] at g1'
  simp only [Prod.mk.injEq, Except.ok.injEq] at f1 g1 g1'
  obtain ⟨rfl, rfl⟩ := f1
  obtain ⟨rfl, rfl⟩ := g1
  obtain ⟨rfl, rfl⟩ := g1'
  obtain ⟨chol, hc⟩ := Colpa.exists_chol (N := o.N)
  obtain ⟨eig, ⟨he, _⟩⟩ := Colpa.exists_eig (N := o.N)
  obtain ⟨sort, hs⟩ := Colpa.exists_sort (N := o.N)
  obtain ⟨chol', hc'⟩ := Colpa.exists_chol (N := o'.N)
  obtain ⟨eig', ⟨he', _⟩⟩ := Colpa.exists_eig (N := o'.N)
  obtain ⟨sort', hs'⟩ := Colpa.exists_sort (N := o'.N)
  have key := h2 waves two_waves 0 chol eig sort chol' eig' sort' hc he hs hc' he' hs' 0 0 false false false
  have hzero : ∀ D : Mat o.N, D + (diagonal fun _ => ((0 : ℝ) : ℂ)) = D := fun D => by
    rw [Complex.ofReal_zero, diagonal_zero, add_zero]
  have hnot : ¬ ∀ u, (o.callH t.cell (0 + waves u)).1.PosDef := by
    intro hp
    obtain ⟨M, hM, e⟩ := f2 (0 + waves 0) 0
    have := hp 0
    rw [← hzero (o.callH t.cell (0 + waves 0)).1, e, posDef_blocks hN hM, cos_waves.1] at this
    norm_num at this
  have h18 : ((1 / 10 ^ 8 : ℝ) : ℂ) = 1 / 10 ^ 8 := by push_cast; rfl
  have hpos : ∀ u, ((o.callH t.cell (0 + waves u)).1 + diagonal fun _ => 1 / 10 ^ 8).PosDef := by
    intro u
    rw [← h18]
    obtain ⟨M, hM, e⟩ := f2 (0 + waves u) (1 / 10 ^ 8)
    rw [e, posDef_blocks hN hM]
    have := Real.cos_le_one ((0 + waves u : V3 ℝ) 0)
    have : (0 : ℝ) < 1 / 10 ^ 8 := by norm_num
    linarith
  have key' := ((g2 waves two_waves 0).2 chol eig sort chol' eig' sort' hc he hs hc' he' hs' 0 0 false false false).2.1 hnot hpos
  have h0 : ∀ k, (o.omega t.cell (Colpa.solve chol eig sort) 0 false false false k).1.1 =
      [some (round8 ((4 * (1 - Real.cos (k 0)) + 0 : ℝ) : ℂ))] := by
    intro k
    obtain ⟨M, hM, e⟩ := f2 k 0
    rw [hzero] at e
    simp only [omega, e]
    exact omega_one hc he hs hN hM 0 false false
  have h8 : ∀ k, (omegaOf (Colpa.solve chol eig sort) 0 false false false
      ((o.callH t.cell k).1 + diagonal fun _ => 1 / 10 ^ 8)).1 =
      [some (round8 ((4 * (1 - Real.cos (k 0)) + 1 / 10 ^ 8 : ℝ) : ℂ))] := by
    intro k
    rw [← h18]
    obtain ⟨M, hM, e⟩ := f2 k (1 / 10 ^ 8)
    rw [e]
    exact omega_one hc he hs hN hM 0 false false
  have hperm := key'.symm.trans key
  simp only [h0, h8, List.flatMap_singleton'] at hperm
  have hm : some (round8 ((4 * (1 - Real.cos ((0 + waves 1 : V3 ℝ) 0)) + 1 / 10 ^ 8 : ℝ) : ℂ)) ∈
      (List.finRange 2).flatMap fun u => [some (round8 ((4 * (1 - Real.cos ((0 + waves u : V3 ℝ) 0)) + 0 : ℝ) : ℂ))] :=
    hperm.mem_iff.1 (List.mem_flatMap.2 ⟨1, List.mem_finRange _, List.mem_singleton.2 rfl⟩)
  obtain ⟨u, _, hu⟩ := List.mem_flatMap.1 hm
  rw [List.mem_singleton, Option.some.injEq, cos_waves.2] at hu
  have hr : ∀ x : ℝ, 1 < x → round8 ((x : ℝ) : ℂ) = x := by
    intro x hx
    unfold round8
    rw [if_neg]
    rw [Complex.norm_real, Real.norm_of_nonneg (by linarith)]
    norm_num
    linarith
  rw [hr _ (by norm_num)] at hu
  fin_cases u
  · have hu' : ((4 * (1 - -1) + 1 / 10 ^ 8 : ℝ) : ℂ) = round8 ((4 * (1 - Real.cos ((0 + waves 0 : V3 ℝ) 0)) + 0 : ℝ) : ℂ) := hu
    rw [cos_waves.1, round8_small (by norm_num), Complex.ofReal_eq_zero] at hu'
    norm_num at hu'
  · have hu' : ((4 * (1 - -1) + 1 / 10 ^ 8 : ℝ) : ℂ) = round8 ((4 * (1 - Real.cos ((0 + waves 1 : V3 ℝ) 0)) + 0 : ℝ) : ℂ) := hu
    rw [cos_waves.2, hr _ (by norm_num)] at hu'
    have := Complex.ofReal_injective hu'
    norm_num at this

open SupercellExample MagnonExample in
/-- C88, magnons: the doubled chain with the wave vector `k` has the energies `4 (1 - cos k)` and `4 (1 + cos k)`, where both are not
zero. -/
example : ∃ o t, init id lat2 pos2 spinZ double = (.ok o, t) ∧ o.N = 2 ∧ ∀ k : V3 ℝ, Real.cos (k 0) < 1 → -1 < Real.cos (k 0) →
    ∀ chol eig sort, IsCholesky chol → IsEig eig → IsSort sort → ∀ (junk : Mat o.N) (z im : Bool),
      (o.omega t.cell (Colpa.solve chol eig sort) junk z false im k).1.1.Perm
        [some (round8 ((4 * (1 - Real.cos (k 0)) : ℝ) : ℂ)), some (round8 ((4 * (1 + Real.cos (k 0)) : ℝ) : ℂ))] := by
  obtain ⟨p, q, o, t, g1, g1', g3, g2⟩ := C88_energies_partial (order := id) (order' := id) (fun _ => .refl _) (fun _ => .refl _)
    chain_ready double_ready two_holds two_moves
  obtain ⟨x, y, f1, hN, f2⟩ := chain_matrix
  rw [g1] at f1
  simp only [Prod.mk.injEq, Except.ok.injEq] at f1
  obtain ⟨rfl, rfl⟩ := f1
  refine ⟨o, t, g1', by rw [g3, hN], fun k hk hk' chol eig sort hc he hs junk z im => ?_⟩
  have hzero : ∀ D : Mat p.N, D + (diagonal fun _ => ((0 : ℝ) : ℂ)) = D := fun D => by
    rw [Complex.ofReal_zero, diagonal_zero, add_zero]
  have hcos : Real.cos ((k + waves 0 : V3 ℝ) 0) = Real.cos (k 0) ∧ Real.cos ((k + waves 1 : V3 ℝ) 0) = -Real.cos (k 0) := by
    simp [waves, Real.cos_add_pi]
  obtain ⟨chol', hc'⟩ := Colpa.exists_chol (N := p.N)
  obtain ⟨eig', ⟨he', _⟩⟩ := Colpa.exists_eig (N := p.N)
  obtain ⟨sort', hs'⟩ := Colpa.exists_sort (N := p.N)
  have key := ((g2 waves two_waves k).2 chol' eig' sort' chol eig sort hc' he' hs' hc he hs 0 junk z false im).1 (Or.inl fun u => by
    obtain ⟨M, hM, e⟩ := f2 (k + waves u) 0
    rw [hzero] at e
    show (p.callH q.cell (k + waves u)).1.PosDef
    rw [e, posDef_blocks hN hM]
    fin_cases u
    · show 0 < 4 * (1 - Real.cos ((k + waves 0 : V3 ℝ) 0)) + 0
      rw [hcos.1]; linarith
    · show 0 < 4 * (1 - Real.cos ((k + waves 1 : V3 ℝ) 0)) + 0
      rw [hcos.2]; linarith)
  have h0 : ∀ k, (p.omega q.cell (Colpa.solve chol' eig' sort') 0 z false im k).1.1 =
      [some (round8 ((4 * (1 - Real.cos (k 0)) + 0 : ℝ) : ℂ))] := by
    intro k
    obtain ⟨M, hM, e⟩ := f2 k 0
    rw [hzero] at e
    simp only [omega, e]
    exact omega_one hc' he' hs' hN hM 0 z im
  simp only [h0] at key
  rw [show List.finRange 2 = [0, 1] from rfl, List.flatMap_cons, List.flatMap_cons, List.flatMap_nil, hcos.1, hcos.2, add_zero,
    add_zero, sub_neg_eq_add] at key
  exact key

open SupercellExample HistoryExample in
/-- C88, energy: the chain in a ring of four cells, and the doubled chain in a ring of two cells. -/
example (σ : ZMod 4 → V3 ℝ) :
    double.physics (Γ := ZMod 2) ⟨(Int.castAddHom (ZMod 2)).comp (AddMonoidHom.fst ℤ (ℤ × ℤ)),
      fun a γ => if a = fe2 then σ (2 * γ.val + 1) else σ (2 * γ.val)⟩ (fun _ => 2) =
    chain.physics (Γ := ZMod 4) ⟨(Int.castAddHom (ZMod 4)).comp (AddMonoidHom.fst ℤ (ℤ × ℤ)), fun _ => σ⟩ fun _ => 2 := by
  have h12 : fe1 ≠ fe2 := by decide
  have hrep : ∀ m : Fin 2, (((two.rep m).1 : ℤ) : ZMod 4) = (m.1 : ZMod 4) := by decide
  refine C88_energy (order := id) (order' := id) (fun _ => .refl _) (fun _ => .refl _) chain_ready double_ready two_holds
    (ι := SupercellExample.ring) ⟨?_, fun R => ring_cast R.1, fun a ha m γ => ?_⟩
  · convert ring_bijective using 2
    exact congrArg _ (hrep _)
  · rw [chain_atoms, List.mem_singleton] at ha
    subst ha
    show _ = σ (SupercellExample.ring γ + (((two.rep m).1 : ℤ) : ZMod 4))
    rw [hrep]
    fin_cases m
    · show (if fe1 = fe2 then σ (2 * γ.val + 1) else σ (2 * γ.val)) = σ (((2 * γ.val : ℕ) : ZMod 4) + ((0 : ℕ) : ZMod 4))
      rw [if_neg h12]
      push_cast
      rw [add_zero]
    · show (if fe2 = fe2 then σ (2 * γ.val + 1) else σ (2 * γ.val)) = σ (((2 * γ.val : ℕ) : ZMod 4) + ((1 : ℕ) : ZMod 4))
      rw [if_pos rfl]
      push_cast
      rfl

open SupercellExample in
/-- C88, wave vectors: the doubled cell. -/
example : ∃ G : Fin 2 → V3 ℝ, FoldedWaves 1 lat2 G :=
  C88_waves two_cells two_moves.lattice (by simp)

end Magnopy
